import Verif.Base

/-!
# C79: the switch for parallelism

Model of `utils/parallelism.rs`: the two atomic variables of the process, the environment variable, and any number of threads
that ask for iterators, set the switch and change the environment, in any interleaving of their single atomic steps (the
atomics are `SeqCst`). What the iterators compute is in the models of their users (C42, C43).
-/

namespace Tok.Par

/-- What is shared: `PARALLELISM` (an `AtomicU8`) and `USED_PARALLELISM` (`parallelism.rs:17-18`), and what `env::var` gives
for `TOKENIZERS_PARALLELISM` (`none`: not set, or not Unicode). -/
structure Glob where
  override : Nat := 0
  used : Bool := false
  env : Option Str := none

/-- `get_override_parallelism` (`parallelism.rs:31-38`); outer `none` is `unreachable!()`. -/
def getOverride : Nat → Option (Option Bool)
  | 0 => some none
  | 1 => some (some false)
  | 2 => some (some true)
  | _ => none

/-- `make_ascii_lowercase` of one character. -/
def asciiLower (c : Char) : Char := if 'A' ≤ c ∧ c ≤ 'Z' then Char.ofNat (c.toNat + 32) else c

/-- `get_env_parallelism` (`parallelism.rs:41-49`). -/
def envParallelism : Option Str → Bool
  | some v =>
    !(["", "off", "false", "f", "no", "n", "0"].map String.toList).contains (v.map asciiLower)
  | none => true

/-- `set_parallelism` (`parallelism.rs:60-62`). -/
def setParallelism (g : Glob) (val : Bool) : Glob := { g with override := if val then 2 else 1 }

/-- `is_parallelism_configured` (`parallelism.rs:21-23`); `none` is `unreachable!()`. -/
def isConfigured (g : Glob) : Option Bool :=
  if g.env.isSome then some true else (getOverride g.override).map (·.isSome)

/-- The helpers that make iterators: `into_maybe_par_iter` and those for references (`parallelism.rs:89-95, 121-131, 150-160`),
`maybe_par_bridge` (`178-187`), `maybe_par_chunks` (`231-241`). Their `_cond` versions with `true` are the same, with `false`
they make a serial iterator without looking at anything. -/
inductive Kind where
  | iter
  | bridge
  | chunks
deriving DecidableEq

/-- Where a thread is. -/
inductive Pc where
  /-- outside the helpers -/
  | idle
  /-- at the beginning of `get_parallelism` -/
  | asked (k : Kind)
  /-- the override was not set: before `env::var` -/
  | env (k : Kind)
  /-- `get_parallelism` has returned -/
  | chosen (k : Kind) (parallel : Bool)
  /-- `USED_PARALLELISM` has been stored -/
  | noted (k : Kind)

/-- The next atomic step of a thread inside a helper: the shared state, where the thread is then, the iterator it returns
(is it parallel?). `none` is a panic. -/
def tick (g : Glob) : Pc → Option (Glob × Pc × Option (Kind × Bool))
  | .idle => some (g, .idle, none)
  | .asked k =>
    match getOverride g.override with
    | none => none
    | some (some b) => some (g, .chosen k b, none)
    | some none => some (g, .env k, none)
  | .env k => some (g, .chosen k (envParallelism g.env), none)
  | .chosen k false => some (g, .idle, some (k, false))
  | .chosen .chunks true => some (g, .idle, some (.chunks, true))
  | .chosen k true => some ({ g with used := true }, .noted k, none)
  | .noted k => some (g, .idle, some (k, true))

/-- What may happen next. -/
inductive Event where
  /-- some thread calls `set_parallelism` -/
  | set (val : Bool)
  /-- the environment variable is changed, or removed -/
  | setenv (value : Option Str)
  /-- a thread calls a helper -/
  | call (thread : Nat) (k : Kind)
  /-- a thread inside a helper goes on -/
  | tick (thread : Nat)

/-- The process: what is shared, the threads, and all iterators that were returned, the last first. -/
structure Proc where
  glob : Glob := {}
  pc : Nat → Pc := fun _ => .idle
  given : List (Kind × Bool) := []

/-- A thread calls a helper; one that is inside a helper cannot call another. -/
def Proc.call (p : Proc) (t : Nat) (k : Kind) : Proc :=
  match p.pc t with
  | .idle => { p with pc := fun u => if u = t then .asked k else p.pc u }
  | _ => p

/-- A thread goes on. -/
def Proc.tick (p : Proc) (t : Nat) : Option Proc :=
  (Par.tick p.glob (p.pc t)).map fun r =>
    { glob := r.1, pc := fun u => if u = t then r.2.1 else p.pc u, given := r.2.2.toList ++ p.given }

/-- One step. -/
def Proc.step (p : Proc) : Event → Option Proc
  | .set v => some { p with glob := setParallelism p.glob v }
  | .setenv e => some { p with glob := { p.glob with env := e } }
  | .call t k => some (p.call t k)
  | .tick t => p.tick t

/-- A history. -/
def Proc.run : Proc → List Event → Option Proc
  | p, [] => some p
  | p, e :: es => (p.step e).bind fun p' => p'.run es

/-! ## Specification -/

/-- The environment says no: the variable is there and, without regard to case, one of seven words. -/
def SaysNo (env : Option Str) : Prop :=
  ∃ v, env = some v ∧ ∃ w ∈ ["", "off", "false", "f", "no", "n", "0"], v.map asciiLower = w.toList

/-- A parallel iterator was returned by one of the helpers that note it. -/
def WentParallel (p : Proc) : Prop := ∃ x ∈ p.given, x.2 = true ∧ x.1 ≠ .chunks

/-- No thread is inside a helper. -/
def Quiet (p : Proc) : Prop := ∀ t, p.pc t = .idle

/-! ## Proofs -/

/-- The invariant of all histories. -/
structure Inv (p : Proc) : Prop where
  override : p.glob.override ≤ 2
  noted : ∀ t k, p.pc t = .noted k → p.glob.used = true ∧ k ≠ .chunks
  given : WentParallel p → p.glob.used = true
  used : p.glob.used = true → WentParallel p ∨ ∃ t k, p.pc t = .noted k

theorem inv_init : Inv {} := ⟨by decide, nofun, by rintro ⟨x, hx, -⟩; simp at hx, nofun⟩

theorem getOverride_some {n : Nat} (h : n ≤ 2) : ∃ o, getOverride n = some o := by
  match n, h with
  | 0, _ => exact ⟨_, rfl⟩
  | 1, _ => exact ⟨_, rfl⟩
  | 2, _ => exact ⟨_, rfl⟩

theorem Inv.step {p : Proc} (h : Inv p) (e : Event) : ∃ p', p.step e = some p' ∧ Inv p' := by
  cases e with
  | set v =>
    refine ⟨_, rfl, ⟨?_, h.noted, h.given, h.used⟩⟩
    simp only [setParallelism]
    split <;> decide
  | setenv e => exact ⟨_, rfl, ⟨h.override, h.noted, h.given, h.used⟩⟩
  | call t k =>
    refine ⟨_, rfl, ?_⟩
    unfold Proc.call
    cases hp : p.pc t with
    | idle =>
      refine ⟨h.override, fun u k' hu => ?_, h.given, fun hu => ?_⟩
      · simp only at hu
        split at hu
        · cases hu
        · exact h.noted u k' hu
      · rcases h.used hu with hg | ⟨u, k', hk⟩
        · exact .inl hg
        · refine .inr ⟨u, k', ?_⟩
          simp only
          rw [if_neg (by rintro rfl; rw [hp] at hk; cases hk)]
          exact hk
    | asked k => exact h
    | env k => exact h
    | chosen k b => exact h
    | noted k => exact h
  | tick t =>
    -- a step that changes nothing shared and does not begin or end in `noted`
    have keep : ∀ (q : Pc) (l : List (Kind × Bool)), (∀ k, p.pc t ≠ .noted k) → (∀ k, q ≠ .noted k) →
        (∀ x ∈ l, x.2 = false ∨ x.1 = .chunks) →
        Inv { glob := p.glob, pc := fun u => if u = t then q else p.pc u, given := l ++ p.given } := by
      intro q l h1 h2 h3
      have hw : WentParallel { glob := p.glob, pc := fun u => if u = t then q else p.pc u, given := l ++ p.given } →
          WentParallel p := by
        rintro ⟨x, hx, g1, g2⟩
        rcases List.mem_append.1 hx with hx | hx
        · rcases h3 x hx with g | g
          · rw [g1] at g; cases g
          · exact absurd g g2
        · exact ⟨x, hx, g1, g2⟩
      refine ⟨h.override, fun u k' hu => ?_, fun hg => h.given (hw hg), fun hu => ?_⟩
      · simp only at hu
        split at hu
        · exact absurd hu (h2 k')
        · exact h.noted u k' hu
      · rcases h.used hu with ⟨x, hx, g⟩ | ⟨u, k', hk⟩
        · exact .inl ⟨x, List.mem_append_right _ hx, g⟩
        · refine .inr ⟨u, k', ?_⟩
          simp only
          rw [if_neg (by rintro rfl; exact h1 _ hk)]
          exact hk
    -- the step that stores `USED_PARALLELISM`
    have store : ∀ k, k ≠ .chunks →
        Inv { glob := { p.glob with used := true }, pc := fun u => if u = t then .noted k else p.pc u, given := [] ++ p.given } := by
      intro k hk
      refine ⟨h.override, fun u k' hu => ⟨rfl, ?_⟩, fun _ => rfl, fun _ => .inr ⟨t, k, by simp⟩⟩
      simp only at hu
      split at hu
      · cases hu; exact hk
      · exact (h.noted u k' hu).2
    show ∃ p', p.tick t = some p' ∧ Inv p'
    unfold Proc.tick
    cases hp : p.pc t with
    | idle => exact ⟨_, rfl, keep _ [] (by simp [hp]) (by simp) (by simp)⟩
    | asked k =>
      obtain ⟨o, ho⟩ := getOverride_some h.override
      cases o with
      | none => exact ⟨_, by simp only [Par.tick, ho, Option.map_some]; rfl, keep _ [] (by simp [hp]) (by simp) (by simp)⟩
      | some b => exact ⟨_, by simp only [Par.tick, ho, Option.map_some]; rfl, keep _ [] (by simp [hp]) (by simp) (by simp)⟩
    | env k => exact ⟨_, rfl, keep _ [] (by simp [hp]) (by simp) (by simp)⟩
    | chosen k b =>
      cases b with
      | false => exact ⟨_, rfl, keep _ [(k, false)] (by simp [hp]) (by simp) (by simp)⟩
      | true =>
        cases k with
        | chunks => exact ⟨_, rfl, keep _ [(.chunks, true)] (by simp [hp]) (by simp) (by simp)⟩
        | iter => exact ⟨_, rfl, store .iter (by decide)⟩
        | bridge => exact ⟨_, rfl, store .bridge (by decide)⟩
    | noted k =>
      obtain ⟨h1, h2⟩ := h.noted t k hp
      refine ⟨_, rfl, ⟨h.override, fun u k' hu => ?_, fun _ => h1, fun _ => .inl ⟨(k, true), by simp, rfl, h2⟩⟩⟩
      simp only at hu
      split at hu
      · cases hu
      · exact h.noted u k' hu

theorem Inv.run : ∀ (es : List Event) {p : Proc}, Inv p → ∃ p', p.run es = some p' ∧ Inv p'
  | [], p, h => ⟨p, rfl, h⟩
  | e :: es, p, h => by
    obtain ⟨p1, h1, h2⟩ := h.step e
    obtain ⟨p2, h3, h4⟩ := h2.run es
    exact ⟨p2, by rw [Proc.run, h1]; exact h3, h4⟩

/-- **C79.** Whatever the threads do, in whatever interleaving, `unreachable!()` is never reached, and once no thread is inside a
helper, `has_parallelism_been_used` says whether one of the helpers that note it has returned a parallel iterator. Before that
it may only be early. -/
theorem C79_used (es : List Event) : ∃ p, Proc.run {} es = some p ∧ (isConfigured p.glob).isSome ∧
    (WentParallel p → p.glob.used = true) ∧ (Quiet p → (p.glob.used = true ↔ WentParallel p)) := by
  obtain ⟨p, h1, h2⟩ := inv_init.run es
  refine ⟨p, h1, ?_, h2.given, fun hq => ⟨fun hu => ?_, h2.given⟩⟩
  · unfold isConfigured
    split
    · rfl
    · obtain ⟨o, ho⟩ := getOverride_some h2.override
      rw [ho]; rfl
  · rcases h2.used hu with h | ⟨t, k, hk⟩
    · exact h
    · rw [hq t] at hk; cases hk

/-- **C79, finding.** `maybe_par_chunks` (training of Unigram) does not note it: a parallel iterator was returned, and
`has_parallelism_been_used` says no. -/
theorem C79_chunks_not_noted : ∃ p, Proc.run {} [.call 0 .chunks, .tick 0, .tick 0, .tick 0] = some p ∧
    p.given = [(.chunks, true)] ∧ p.glob.used = false := ⟨_, rfl, rfl, rfl⟩

theorem envParallelism_false (env : Option Str) : envParallelism env = false ↔ SaysNo env := by
  unfold SaysNo
  cases env with
  | none => simp [envParallelism]
  | some v =>
    rw [show envParallelism (some v) =
      !(["", "off", "false", "f", "no", "n", "0"].map String.toList).contains (v.map asciiLower) from rfl]
    rw [Bool.not_eq_false', List.contains_iff_mem, List.mem_map]
    constructor
    · rintro ⟨w, h1, h2⟩; exact ⟨v, rfl, w, h1, h2.symm⟩
    · rintro ⟨v', hv, w, h1, h2⟩; cases hv; exact ⟨w, h1, h2.symm⟩

/-- Every thread decides for `b`, or has not decided. -/
def Decides (b : Bool) (p : Proc) (old : List (Kind × Bool)) : Prop :=
  (∃ l, p.given = l ++ old ∧ ∀ x ∈ l, x.2 = b) ∧
    ∀ t, (∀ k b', p.pc t = .chosen k b' → b' = b) ∧ (∀ k, p.pc t = .noted k → b = true)

/-- One step of a history in which every decision is `b`. -/
theorem Decides.step {b : Bool} {p p' : Proc} {old : List (Kind × Bool)} (h : Decides b p old) {e : Event}
    (hs : p.step e = some p')
    (hask : ∀ t k, p.pc t = .asked k → getOverride p.glob.override = some (some b) ∨ getOverride p.glob.override = some none)
    (henv : ∀ t k, p.pc t = .env k → envParallelism p.glob.env = b) : Decides b p' old := by
  obtain ⟨⟨l, hl, hlb⟩, ht⟩ := h
  cases e with
  | set v => cases hs; exact ⟨⟨l, hl, hlb⟩, ht⟩
  | setenv v => cases hs; exact ⟨⟨l, hl, hlb⟩, ht⟩
  | call t k =>
    cases hs
    unfold Proc.call
    split
    · refine ⟨⟨l, hl, hlb⟩, fun u => ⟨fun k' b' hu => ?_, fun k' hu => ?_⟩⟩
      · simp only at hu
        split at hu
        · cases hu
        · exact (ht u).1 k' b' hu
      · simp only at hu
        split at hu
        · cases hu
        · exact (ht u).2 k' hu
    · exact ⟨⟨l, hl, hlb⟩, ht⟩
  | tick t =>
    have go : ∀ (g : Glob) (q : Pc) (m : List (Kind × Bool)), (∀ x ∈ m, x.2 = b) → (∀ k b', q = .chosen k b' → b' = b) →
        (∀ k, q = .noted k → b = true) →
        Decides b { glob := g, pc := fun u => if u = t then q else p.pc u, given := m ++ p.given } old := by
      intro g q m h1 h2 h3
      refine ⟨⟨m ++ l, by simp [hl], fun x hx => ?_⟩, fun u => ⟨fun k' b' hu => ?_, fun k' hu => ?_⟩⟩
      · rcases List.mem_append.1 hx with hx | hx
        · exact h1 x hx
        · exact hlb x hx
      · simp only at hu
        split at hu
        · exact h2 k' b' hu
        · exact (ht u).1 k' b' hu
      · simp only at hu
        split at hu
        · exact h3 k' hu
        · exact (ht u).2 k' hu
    change p.tick t = some p' at hs
    unfold Proc.tick at hs
    cases hp : p.pc t with
    | idle => rw [hp] at hs; cases hs; exact go _ _ [] (by simp) (by simp) (by simp)
    | asked k =>
      rw [hp] at hs
      rcases hask t k hp with ho | ho
      · simp only [Par.tick, ho, Option.map_some, Option.some.injEq] at hs
        rw [← hs]
        exact go _ _ [] (by simp) (by rintro _ _ ⟨⟩; rfl) (by simp)
      · simp only [Par.tick, ho, Option.map_some, Option.some.injEq] at hs
        rw [← hs]
        exact go _ _ [] (by simp) (by simp) (by simp)
    | env k =>
      rw [hp] at hs
      cases hs
      exact go _ _ [] (by simp) (by rintro _ _ ⟨⟩; exact henv t k hp) (by simp)
    | chosen k b' =>
      have hb := (ht t).1 k b' hp
      rw [hp] at hs
      subst hb
      cases b' with
      | false => cases hs; exact go _ _ [(k, false)] (by simp) (by simp) (by simp)
      | true =>
        cases k with
        | chunks => cases hs; exact go _ _ [(.chunks, true)] (by simp) (by simp) (by simp)
        | iter => cases hs; exact go _ _ [] (by simp) (by simp) (by simp)
        | bridge => cases hs; exact go _ _ [] (by simp) (by simp) (by simp)
    | noted k =>
      have hb := (ht t).2 k hp
      rw [hp] at hs
      cases hs
      exact go _ _ [(k, true)] (by simp [hb]) (by simp) (by simp)

theorem step_glob {p p' : Proc} {e : Event} (hs : p.step e = some p') :
    ((∀ v, e ≠ .set v) → p'.glob.override = p.glob.override) ∧ ((∀ v, e ≠ .setenv v) → p'.glob.env = p.glob.env) := by
  cases e with
  | set v => cases hs; exact ⟨fun h => absurd rfl (h v), fun _ => rfl⟩
  | setenv v => cases hs; exact ⟨fun _ => rfl, fun h => absurd rfl (h v)⟩
  | call t k =>
    cases hs
    unfold Proc.call
    split <;> exact ⟨fun _ => rfl, fun _ => rfl⟩
  | tick t =>
    change p.tick t = some p' at hs
    unfold Proc.tick at hs
    cases ht : Par.tick p.glob (p.pc t) with
    | none => rw [ht] at hs; cases hs
    | some r =>
      rw [ht] at hs
      cases hs
      have : r.1.override = p.glob.override ∧ r.1.env = p.glob.env := by
        unfold Par.tick at ht
        split at ht
        · cases ht; exact ⟨rfl, rfl⟩
        · split at ht
          · cases ht
          · cases ht; exact ⟨rfl, rfl⟩
          · cases ht; exact ⟨rfl, rfl⟩
        all_goals (cases ht; exact ⟨rfl, rfl⟩)
      exact ⟨fun _ => this.1, fun _ => this.2⟩

theorem step_env {p p' : Proc} {e : Event} (hs : p.step e = some p') (hn : getOverride p.glob.override ≠ some none)
    (h : ∀ t k, p.pc t ≠ .env k) : ∀ t k, p'.pc t ≠ .env k := by
  cases e with
  | set v => cases hs; exact h
  | setenv v => cases hs; exact h
  | call t k =>
    cases hs
    unfold Proc.call
    split
    · intro u k' hu
      simp only at hu
      split at hu
      · cases hu
      · exact h u k' hu
    · exact h
  | tick t =>
    change p.tick t = some p' at hs
    unfold Proc.tick at hs
    cases ht : Par.tick p.glob (p.pc t) with
    | none => rw [ht] at hs; cases hs
    | some r =>
      rw [ht] at hs
      cases hs
      intro u k' hu
      simp only at hu
      split at hu
      · unfold Par.tick at ht
        split at ht
        · cases ht; cases hu
        · split at ht
          · cases ht
          · cases ht; cases hu
          · rename_i ho; exact hn ho
        all_goals (cases ht; cases hu)
      · exact h u k' hu

/-- **C79.** Once `set_parallelism` was called while no thread was inside a helper, its value decides, whatever the environment
says and becomes, until it is called again: all iterators returned are parallel, or all are serial. -/
theorem C79_set {p : Proc} (hq : Quiet p) (val : Bool) (es : List Event) (hes : ∀ v, Event.set v ∉ es) {p' : Proc}
    (h : p.run (.set val :: es) = some p') : isConfigured p'.glob = some true ∧
      ∃ l, p'.given = l ++ p.given ∧ ∀ x ∈ l, x.2 = val := by
  have key : ∀ (es : List Event) (p1 p' : Proc), (∀ v, Event.set v ∉ es) → getOverride p1.glob.override = some (some val) →
      (∀ t k, p1.pc t ≠ .env k) → Decides val p1 p.given → p1.run es = some p' →
      getOverride p'.glob.override = some (some val) ∧ Decides val p' p.given := by
    intro es
    induction es with
    | nil => intro p1 p' _ ho _ hd hr; cases hr; exact ⟨ho, hd⟩
    | cons e es ih =>
      intro p1 p' hes ho hne hd hr
      rw [Proc.run] at hr
      cases hs : p1.step e with
      | none => rw [hs] at hr; cases hr
      | some p2 =>
        rw [hs] at hr
        refine ih p2 p' (fun v hv => hes v (List.mem_cons_of_mem _ hv)) ?_ ?_ ?_ hr
        · rw [(step_glob hs).1 (by rintro v rfl; exact hes v (by simp))]; exact ho
        · exact step_env hs (by rw [ho]; simp) hne
        · exact hd.step hs (fun _ _ _ => .inl ho) (fun t k hk => absurd hk (hne t k))
  rw [Proc.run] at h
  obtain ⟨k1, ⟨l, k2, k3⟩, -⟩ := key es _ p' hes (by simp only [setParallelism]; cases val <;> rfl)
    (fun t k hk => by rw [hq t] at hk; cases hk)
    (by
      refine ⟨⟨[], rfl, by simp⟩, fun t => ⟨fun k b' hk => ?_, fun k hk => ?_⟩⟩
      · rw [hq t] at hk; cases hk
      · rw [hq t] at hk; cases hk) h
  refine ⟨?_, l, k2, k3⟩
  unfold isConfigured
  split
  · rfl
  · rw [k1]; rfl

/-- **C79.** As long as `set_parallelism` was not called, the environment decides: if it is not changed, all iterators are
parallel, unless it says no, when all are serial. -/
theorem C79_env (env : Option Str) (es : List Event) (hset : ∀ v, Event.set v ∉ es) (henv : ∀ v, Event.setenv v ∉ es) {p : Proc}
    (h : Proc.run { glob := { env := env } } es = some p) : isConfigured p.glob = some env.isSome ∧
      ∀ x ∈ p.given, x.2 = false ↔ SaysNo env := by
  have key : ∀ (es : List Event) (p1 p' : Proc), (∀ v, Event.set v ∉ es) → (∀ v, Event.setenv v ∉ es) →
      p1.glob.override = 0 → p1.glob.env = env → Decides (envParallelism env) p1 [] → p1.run es = some p' →
      p'.glob.override = 0 ∧ p'.glob.env = env ∧ Decides (envParallelism env) p' [] := by
    intro es
    induction es with
    | nil => intro p1 p' _ _ ho he hd hr; cases hr; exact ⟨ho, he, hd⟩
    | cons e es ih =>
      intro p1 p' h1 h2 ho he hd hr
      rw [Proc.run] at hr
      cases hs : p1.step e with
      | none => rw [hs] at hr; cases hr
      | some p2 =>
        rw [hs] at hr
        refine ih p2 p' (fun v hv => h1 v (List.mem_cons_of_mem _ hv)) (fun v hv => h2 v (List.mem_cons_of_mem _ hv)) ?_ ?_ ?_ hr
        · rw [(step_glob hs).1 (by rintro v rfl; exact h1 v (by simp))]; exact ho
        · rw [(step_glob hs).2 (by rintro v rfl; exact h2 v (by simp))]; exact he
        · exact hd.step hs (fun _ _ _ => .inr (by rw [ho]; rfl)) (fun _ _ _ => by rw [he])
  obtain ⟨k1, k2, ⟨l, k3, k4⟩, -⟩ := key es _ p hset henv rfl rfl
    ⟨⟨[], rfl, by simp⟩, fun t => ⟨fun _ _ hk => by simp at hk, fun _ hk => by simp at hk⟩⟩ h
  refine ⟨?_, fun x hx => ?_⟩
  · unfold isConfigured
    rw [k1, k2]
    cases env <;> rfl
  · rw [k3, List.append_nil] at hx
    rw [k4 x hx, envParallelism_false]

/-! ## Examples -/

example : SaysNo (some "FALSE".toList) := ⟨_, rfl, "false", by decide, by decide⟩

example : ¬ SaysNo (some "nope".toList) := by rw [← envParallelism_false]; decide

example : ¬ SaysNo none := by rw [← envParallelism_false]; decide

/-- A batch is encoded in parallel; the switch is turned off by another thread before the next batch is, although the
environment says yes. -/
example : ∃ p, Proc.run { glob := { env := some "1".toList } }
      [.call 0 .iter, .tick 0, .tick 0, .tick 0, .tick 0, .set false, .call 1 .iter, .tick 1, .tick 1] = some p ∧
    p.given = [(.iter, false), (.iter, true)] ∧ p.glob.used = true ∧ Quiet p :=
  ⟨_, rfl, rfl, rfl, fun t => by simp only [Proc.call]; grind⟩

/-- A thread that had already looked is not stopped. -/
example : ∃ p, Proc.run {} [.call 0 .iter, .tick 0, .set false, .tick 0, .tick 0, .tick 0] = some p ∧ p.given = [(.iter, true)] :=
  ⟨_, rfl, rfl⟩

end Tok.Par
