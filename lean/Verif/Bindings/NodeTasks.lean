import Verif.Bindings.Settings
import Verif.Tokenizer.Samples

/-!
# C97: a tokenizer in Node: tasks in other threads, and setters

`Tokenizer` in Node holds its `TokenizerImpl` behind `Arc<RwLock<..>>` (`bindings/node/src/tokenizer.rs:187-191`). `encode`,
`decode` and their batch forms only make a task with a clone of the `Arc`; the task takes the read lock when a thread of the
pool gets to it (`bindings/node/src/tasks/tokenizer.rs`). All other methods run at once, in the thread of JavaScript, with the
write lock. A panic under the write lock poisons it, and `unwrap()` of a poisoned lock panics.

Models, normalizers and so on are shared with the JavaScript objects they came from; here a setter takes over what the object
is at that time (for sharing see `Bindings/Shared`).
-/

namespace Tok.Node

open Tokenizer

/-- `EncodeOptions` (`bindings/node/src/tokenizer.rs:85-90`). -/
structure Options where
  isPretokenized : Option Bool := none
  addSpecialTokens : Option Bool := none

/-- The default of `add_special_tokens` (`bindings/node/src/tokenizer.rs:99-107`). `is_pretokenized` is not used. -/
def Options.add (o : Options) : Bool := o.addSpecialTokens.getD true

/-- The four tasks (`bindings/node/src/tasks/tokenizer.rs:8-127`). `order` is that of the parallel iterator. -/
inductive Job
  | encode (input : Input × Option Input) (add : Bool)
  | encodeBatch (order : List Nat) (inputs : List (Input × Option Input)) (add : Bool)
  | decode (ids : List Nat) (skip : Bool)
  | decodeBatch (order : List Nat) (ids : List (List Nat)) (skip : Bool)

/-- `encode` (`bindings/node/src/tokenizer.rs:290-307`): the task that is made. Inputs are texts. -/
def encodeCall (s : Str) (pair : Option Str) (o : Option Options) : Job :=
  .encode (.raw s, pair.map .raw) (o.getD {}).add

/-- `encode_batch` (`bindings/node/src/tokenizer.rs:310-326`). -/
def encodeBatchCall (order : List Nat) (l : List Str) (o : Option Options) : Job :=
  .encodeBatch order (l.map fun s => (.raw s, none)) (o.getD {}).add

/-- What a task gives. -/
inductive Answer
  | encoding (r : Except EncErr Encoding)
  | encodings (r : Except EncErr (List Encoding))
  | text (r : Option Str)
  | texts (r : Except Unit (List Str))
  /-- the lock was poisoned -/
  | panic

/-- `compute` (`bindings/node/src/tasks/tokenizer.rs:18-31, 50-58, 74-87, 109-118`). -/
def Job.run (t : Tokenizer) : Job → Answer
  | .encode i add => .encoding (t.encodeAs .char i add)
  | .encodeBatch order l add => .encodings (t.encodeBatch order .char l add)
  | .decode ids skip => .text (t.decode skip ids)
  | .decodeBatch order l skip => .texts (t.decodeBatch order l skip)

/-- The methods that change a tokenizer (`bindings/node/src/tokenizer.rs:202-284, 374-436`). The normalizer is given twice, by
what it makes of a text and by what it makes of a piece. -/
inductive Setter
  | preTok (p : PTS → Except EncErr PTS)
  | decoder (d : Dec.Decoder)
  | model (m : Str → Except EncErr (List Token)) (view : ModelView) (vocab : AMap Str Nat)
  | processor (p : Post.Proc)
  | normalizer (build : List (Str × Nat) → Bool) (norm : Str → Option Str) (f : NS → Option NS)
  | addTokens (build : List (Str × Nat) → Bool) (norm : AddedVocab.Norm) (ts : List AddedToken)
  | truncation (maxLength : Nat) (o : Option Py.NodeTruncation)
  | noTruncation
  | padding (o : Option Py.NodePadding)
  | noPadding

/-- How a method ends. -/
inductive Ret
  | done
  /-- an exception -/
  | thrown
  /-- a panic while the write lock is held -/
  | panic
deriving DecidableEq

/-- The tokenizer afterwards and how the method ends. `set_truncation` unwraps the result of `with_truncation` while it holds the
lock (`bindings/node/src/tokenizer.rs:400-405`); an error in the options is thrown before. -/
def Setter.apply (t : Tokenizer) : Setter → Tokenizer × Ret
  | .preTok p => ({ t with preTok := p }, .done)
  | .decoder d => ({ t with decoder := some d }, .done)
  | .model m view vocab => ({ t with model := m, view := view, vocab := vocab }, .done)
  | .processor p => ({ t with settings := { t.settings with processor := some p } }, .done)
  | .normalizer build norm f =>
    let r := t.added.refreshNormalized build (some norm)
    ({ t with normalizer := f, added := r.1 }, if r.2 then .done else .thrown)
  | .addTokens build norm ts =>
    let r := t.added.addTokens build t.view norm ts
    ({ t with added := r.1 }, if r.2.isSome then .done else .thrown)
  | .truncation n o =>
    match Py.nodeSetTruncation n o with
    | none => (t, .thrown)
    | some p =>
      if t.settings.truncationOk t.checked p = some true then
        ({ t with settings := { t.settings with truncation := some p } }, .done)
      else (t, .panic)
  | .noTruncation => ({ t with settings := { t.settings with truncation := none } }, .done)
  | .padding o =>
    match Py.nodeSetPadding o with
    | none => (t, .thrown)
    | some p => ({ t with settings := { t.settings with padding := p } }, .done)
  | .noPadding => ({ t with settings := { t.settings with padding := none } }, .done)

/-- The options are refused before the lock is asked for (`bindings/node/src/tokenizer.rs:394-398, 421-425`). -/
def Setter.rejected : Setter → Bool
  | .truncation n o => (Py.nodeSetTruncation n o).isNone
  | .padding o => (Py.nodeSetPadding o).isNone
  | _ => false

/-- The tokenizer, its lock, the tasks that wait for a thread and those that hold the read lock. -/
structure State where
  tok : Tokenizer
  poisoned : Bool
  queued : List (Nat × Job)
  running : List (Nat × Job)

/-- What happens. Tasks have numbers. -/
inductive Event
  | call (k : Nat) (job : Job)
  | start (k : Nat)
  | finish (k : Nat)
  | set (s : Setter)

/-- What comes out of it. -/
inductive Out
  | none
  | task (k : Nat) (a : Answer)
  | method (r : Ret)

/-- One step. -/
inductive Step : State → Event → Out → State → Prop
  | call {s k job} : (∀ p ∈ s.queued ++ s.running, p.1 ≠ k) →
      Step s (.call k job) .none { s with queued := (k, job) :: s.queued }
  | start {s k job} : (k, job) ∈ s.queued → s.poisoned = false →
      Step s (.start k) .none
        { s with queued := s.queued.filter (·.1 ≠ k), running := (k, job) :: s.running }
  | refused {s k job} : (k, job) ∈ s.queued → s.poisoned = true →
      Step s (.start k) (.task k .panic) { s with queued := s.queued.filter (·.1 ≠ k) }
  | finish {s k job} : (k, job) ∈ s.running →
      Step s (.finish k) (.task k (job.run s.tok)) { s with running := s.running.filter (·.1 ≠ k) }
  | rejected {s x} : x.rejected = true → Step s (.set x) (.method .thrown) s
  | set {s x} : x.rejected = false → s.running = [] → s.poisoned = false →
      Step s (.set x) (.method (x.apply s.tok).2)
        { s with tok := (x.apply s.tok).1, poisoned := decide ((x.apply s.tok).2 = .panic) }
  | dead {s x} : x.rejected = false → s.running = [] → s.poisoned = true → Step s (.set x) (.method .panic) s

/-- A history. -/
inductive Steps : State → List (Event × Out) → State → Prop
  | nil {s} : Steps s [] s
  | cons {s e o s1 l s2} : Step s e o s1 → Steps s1 l s2 → Steps s ((e, o) :: l) s2

/-- A tokenizer nobody has used yet. -/
def fresh (t : Tokenizer) : State := ⟨t, false, [], []⟩

/-- `running_tasks` (`bindings/node/src/tokenizer.rs:503-505`): the number of owners of the `Arc`: the JavaScript object and
every task. -/
def runningTasks (s : State) : Nat := 1 + s.queued.length + s.running.length

/-- No two tasks with the same number. -/
def Distinct (s : State) : Prop := ((s.queued ++ s.running).map (·.1)).Nodup

theorem filter_sublist_map {l : List (Nat × Job)} (p : Nat × Job → Bool) : ((l.filter p).map (·.1)).Sublist (l.map (·.1)) :=
  (List.filter_sublist).map _

theorem step_distinct {s s' : State} {e : Event} {o : Out} (h : Step s e o s') (hd : Distinct s) : Distinct s' := by
  unfold Distinct at *
  cases h with
  | @call k job hn =>
    show (((k, job) :: s.queued ++ s.running).map (·.1)).Nodup
    rw [List.cons_append, List.map_cons, List.nodup_cons]
    refine ⟨fun hm => ?_, hd⟩
    obtain ⟨p, hp, e⟩ := List.mem_map.1 hm
    exact hn p hp e
  | @start k job hq hp =>
    simp only [List.map_append, List.map_cons, List.nodup_append, List.nodup_cons] at hd ⊢
    refine ⟨hd.1.sublist (filter_sublist_map _), ⟨fun hm => ?_, hd.2.1⟩, ?_⟩
    · exact hd.2.2 k (List.mem_map.2 ⟨_, hq, rfl⟩) k hm rfl
    · intro a ha b hb
      obtain ⟨p, hp, rfl⟩ := List.mem_map.1 ha
      have hp := List.mem_filter.1 hp
      rcases List.mem_cons.1 hb with rfl | hb
      · simpa using hp.2
      · exact hd.2.2 _ (List.mem_map.2 ⟨p, hp.1, rfl⟩) b hb
  | @refused k job hq hp =>
    refine hd.sublist ?_
    rw [List.map_append, List.map_append]
    exact (filter_sublist_map _).append (List.Sublist.refl _)
  | @finish k job hr =>
    refine hd.sublist ?_
    rw [List.map_append, List.map_append]
    exact (List.Sublist.refl _).append (filter_sublist_map _)
  | rejected => exact hd
  | set => exact hd
  | dead => exact hd

theorem steps_distinct {s s' : State} {l} (h : Steps s l s') (hd : Distinct s) : Distinct s' := by
  induction h with
  | nil => exact hd
  | cons h _ ih => exact ih (step_distinct h hd)

/-- The task is waiting or running. -/
def State.has (s : State) (k : Nat) (job : Job) : Prop := (k, job) ∈ s.queued ∨ (k, job) ∈ s.running

theorem unique {s : State} (hd : Distinct s) {k : Nat} {j j' : Job} (h : s.has k j) (h' : s.has k j') : j = j' := by
  have h1 : (k, j) ∈ s.queued ++ s.running := List.mem_append.2 h
  have h2 : (k, j') ∈ s.queued ++ s.running := List.mem_append.2 h'
  unfold Distinct at hd
  generalize s.queued ++ s.running = l at *
  induction l with
  | nil => cases h1
  | cons p l ih =>
    rw [List.map_cons, List.nodup_cons] at hd
    rcases List.mem_cons.1 h1 with e1 | h1 <;> rcases List.mem_cons.1 h2 with e2 | h2
    · rw [← e1] at e2; exact (Prod.mk.inj e2).2.symm
    · exact absurd (List.mem_map.2 ⟨_, h2, by rw [← e1]⟩) hd.1
    · exact absurd (List.mem_map.2 ⟨_, h1, by rw [← e2]⟩) hd.1
    · exact ih hd.2 h1 h2

/-- The event ends the task. -/
def ends (k : Nat) : Out → Bool
  | .task j _ => j = k
  | _ => false

/-- A task that was called and has given no answer is still there. -/
theorem step_has {s s' : State} {e : Event} {o : Out} (h : Step s e o s') (hd : Distinct s) {k : Nat} {job : Job}
    (hh : s.has k job) (ho : ends k o = false) : s'.has k job := by
  cases h with
  | call => exact hh.imp (List.mem_cons_of_mem _) id
  | @start k' job' hq hp =>
    by_cases hk : k = k'
    · subst hk
      rcases hh with hh | hh
      · refine .inr ?_
        rw [unique hd (.inl hh) (.inl hq)]; exact List.mem_cons_self
      · exact .inr (List.mem_cons_of_mem _ hh)
    · rcases hh with hh | hh
      · exact .inl (List.mem_filter.2 ⟨hh, by simpa using hk⟩)
      · exact .inr (List.mem_cons_of_mem _ hh)
  | @refused k' job' hq hp =>
    rcases hh with hh | hh
    · exact .inl (List.mem_filter.2 ⟨hh, by simp [ends] at ho; simp; exact fun e => ho e.symm⟩)
    · exact .inr hh
  | @finish k' job' hr =>
    rcases hh with hh | hh
    · exact .inl hh
    · exact .inr (List.mem_filter.2 ⟨hh, by simp [ends] at ho; simp; exact fun e => ho e.symm⟩)
  | rejected => exact hh
  | set => exact hh
  | dead => exact hh

/-- A task that holds the read lock goes on holding it until it ends, and nothing is changed meanwhile. -/
theorem step_running {s s' : State} {e : Event} {o : Out} (h : Step s e o s') {k : Nat} {job : Job} (hr : (k, job) ∈ s.running)
    (ho : ends k o = false) : (k, job) ∈ s'.running ∧ s'.tok = s.tok := by
  cases h with
  | call => exact ⟨hr, rfl⟩
  | start => exact ⟨List.mem_cons_of_mem _ hr, rfl⟩
  | refused => exact ⟨hr, rfl⟩
  | finish => exact ⟨List.mem_filter.2 ⟨hr, by simp [ends] at ho; simp; exact fun e => ho e.symm⟩, rfl⟩
  | rejected => exact ⟨hr, rfl⟩
  | set _ h0 => rw [h0] at hr; cases hr
  | dead _ h0 => rw [h0] at hr; cases hr

theorem steps_running {s s' : State} {l} (h : Steps s l s') {k : Nat} {job : Job} (hr : (k, job) ∈ s.running)
    (ho : ∀ p ∈ l, ends k p.2 = false) : (k, job) ∈ s'.running ∧ s'.tok = s.tok := by
  induction h with
  | nil => exact ⟨hr, rfl⟩
  | cons h _ ih =>
    have h1 := step_running h hr (ho _ List.mem_cons_self)
    have h2 := ih h1.1 fun p hp => ho p (List.mem_cons_of_mem _ hp)
    exact ⟨h2.1, h2.2.trans h1.2⟩

theorem mem_running_unique {s : State} (hd : Distinct s) {k : Nat} {j j' : Job} (h : (k, j) ∈ s.running)
    (h' : (k, j') ∈ s.running) : j = j' := unique hd (.inr h) (.inr h')

/-- **C97, tasks are atomic.** The answer of a task is that of the tokenizer as it was when the task started, whatever else
happens until it ends. -/
theorem C97_atomic {t : Tokenizer} {s s1 s2 s3 : State} {before after} {k : Nat} {o : Out} (h0 : Steps (fresh t) before s)
    (h1 : Step s (.start k) .none s1) (h2 : Steps s1 after s2) (ho : ∀ p ∈ after, ends k p.2 = false)
    (h3 : Step s2 (.finish k) o s3) : ∃ job, (k, job) ∈ s.queued ∧ o = .task k (job.run s.tok) := by
  have hd : Distinct s := steps_distinct h0 (by simp [Distinct, fresh])
  have hd2 : Distinct s2 := steps_distinct h2 (step_distinct h1 hd)
  cases h1 with
  | @start _ job hq hp =>
    have hr := steps_running h2 (k := k) (job := job) List.mem_cons_self ho
    cases h3 with
    | @finish _ job' hr' =>
      refine ⟨job, hq, ?_⟩
      rw [mem_running_unique hd2 hr' hr.1, hr.2]

theorem steps_has {s s' : State} {l} (h : Steps s l s') (hd : Distinct s) {k : Nat} {job : Job} (hh : s.has k job)
    (ho : ∀ p ∈ l, ends k p.2 = false) : s'.has k job := by
  induction h with
  | nil => exact hh
  | cons h _ ih =>
    exact ih (step_distinct h hd) (step_has h hd hh (ho _ List.mem_cons_self)) fun p hp => ho p (List.mem_cons_of_mem _ hp)

/-- Without setters the tokenizer stays as it is. -/
theorem steps_tok {s s' : State} {l} (h : Steps s l s') (hn : ∀ p ∈ l, ∀ x, p.1 ≠ .set x) : s'.tok = s.tok := by
  induction h with
  | nil => rfl
  | cons h _ ih =>
    refine (ih fun p hp => hn p (List.mem_cons_of_mem _ hp)).trans ?_
    have := hn _ List.mem_cons_self
    cases h with
    | rejected => exact absurd rfl (this _)
    | set => exact absurd rfl (this _)
    | dead => exact absurd rfl (this _)
    | _ => rfl

/-- **C97, no setter in between.** If no setter is called before the answer is there, it is that of the tokenizer as it was when
`encode` (or `decode`, ..) was called, whatever other tasks there are. -/
theorem C97_unchanged {t : Tokenizer} {s s1 s2 s3 : State} {before after} {k : Nat} {job : Job} {o : Out}
    (h0 : Steps (fresh t) before s) (h1 : Step s (.call k job) .none s1) (h2 : Steps s1 after s2)
    (hn : ∀ p ∈ after, ∀ x, p.1 ≠ .set x) (ho : ∀ p ∈ after, ends k p.2 = false) (h3 : Step s2 (.finish k) o s3) :
    o = .task k (job.run s.tok) := by
  have hd1 := step_distinct h1 (steps_distinct h0 (by simp [Distinct, fresh]))
  have hd2 : Distinct s2 := steps_distinct h2 hd1
  have ht := steps_tok h2 hn
  cases h1 with
  | call hk =>
    have hh := steps_has h2 hd1 (k := k) (job := job) (.inl List.mem_cons_self) ho
    cases h3 with
    | @finish _ job' hr' => rw [unique hd2 (.inr hr') hh, ht]

/-! ## Poisoning -/

theorem step_idle {s s' : State} {e : Event} {o : Out} (h : Step s e o s') (hp : s.poisoned = true → s.running = []) :
    s'.poisoned = true → s'.running = [] := by
  cases h with
  | call => exact hp
  | start _ h1 => intro h2; rw [h1] at h2; cases h2
  | refused => exact hp
  | finish hr => intro h2; rw [hp h2] at hr; cases hr
  | rejected => exact hp
  | set _ h0 => exact fun _ => h0
  | dead _ h0 => exact fun _ => h0

theorem steps_idle {s s' : State} {l} (h : Steps s l s') (hp : s.poisoned = true → s.running = []) :
    s'.poisoned = true → s'.running = [] := by
  induction h with
  | nil => exact hp
  | cons h _ ih => exact ih (step_idle h hp)

/-- Nothing comes out, or a panic or an exception. -/
def Out.dead : Out → Prop
  | .none => True
  | .task _ a => a = .panic
  | .method r => r ≠ .done

theorem step_dead {s s' : State} {e : Event} {o : Out} (h : Step s e o s') (hp : s.poisoned = true) (hr : s.running = []) :
    s'.poisoned = true ∧ s'.running = [] ∧ o.dead := by
  cases h with
  | call => exact ⟨hp, hr, trivial⟩
  | start _ h1 => rw [h1] at hp; cases hp
  | refused => exact ⟨hp, hr, rfl⟩
  | finish h1 => rw [hr] at h1; cases h1
  | rejected => exact ⟨hp, hr, nofun⟩
  | set _ _ h1 => rw [h1] at hp; cases hp
  | dead => exact ⟨hp, hr, nofun⟩

theorem steps_dead {s s' : State} {l} (h : Steps s l s') (hp : s.poisoned = true) (hr : s.running = []) :
    ∀ p ∈ l, p.2.dead := by
  induction h with
  | nil => intro p hp; cases hp
  | cons h _ ih =>
    obtain ⟨h1, h2, h3⟩ := step_dead h hp hr
    intro p hm
    rcases List.mem_cons.1 hm with rfl | hm
    · exact h3
    · exact ih h1 h2 p hm

/-- Only `set_truncation` panics, and only if `with_truncation` does not accept the parameters. -/
theorem apply_panic {t : Tokenizer} {x : Setter} : (x.apply t).2 = .panic ↔
    ∃ n o p, x = .truncation n o ∧ Py.nodeSetTruncation n o = some p ∧ t.settings.truncationOk t.checked p ≠ some true := by
  constructor
  · intro h
    cases x with
    | truncation n o =>
      rw [Setter.apply] at h
      cases hp : Py.nodeSetTruncation n o with
      | none => rw [hp] at h; cases h
      | some p =>
        rw [hp] at h
        refine ⟨n, o, p, rfl, hp, fun hc => ?_⟩
        simp only [hc, if_true] at h
        cases h
    | padding o =>
      rw [Setter.apply] at h
      cases hp : Py.nodeSetPadding o <;> rw [hp] at h <;> cases h
    | normalizer b n f => simp only [Setter.apply] at h; split at h <;> cases h
    | addTokens b n ts => simp only [Setter.apply] at h; split at h <;> cases h
    | _ => cases h
  · rintro ⟨n, o, p, rfl, hp, hc⟩
    rw [Setter.apply, hp]
    simp only [if_neg hc]

/-- **C97, one wrong call is the last.** `setTruncation` with a stride greater than what the special tokens leave of the length
panics, and from then on every task panics and no setter gets through any more. -/
theorem C97_poisoned {t : Tokenizer} {s s1 s2 : State} {before after} (h0 : Steps (fresh t) before s) {n : Nat}
    {opts : Option Py.NodeTruncation} {p : TruncParams} {o : Out} (hp : Py.nodeSetTruncation n opts = some p)
    (hb : p.maxLength < s.tok.settings.added false + p.stride) (hc : s.tok.settings.added false ≤ p.maxLength)
    (h1 : Step s (.set (.truncation n opts)) o s1) (h2 : Steps s1 after s2) :
    o = .method .panic ∧ ∀ q ∈ after, q.2.dead := by
  have hi := steps_idle h0 (by simp [fresh])
  have hbad : (Setter.apply s.tok (.truncation n opts)).2 = .panic := apply_panic.2 ⟨n, opts, p, rfl, hp, by
    rw [Post.Settings.truncationOk, Post.usizeSub, if_pos hc]
    simp
    omega⟩
  cases h1 with
  | rejected hj => simp [Setter.rejected, hp] at hj
  | set _ hr hn =>
    exact ⟨by rw [hbad], steps_dead h2 (by simp [hbad]) hr⟩
  | dead _ hr hn => exact ⟨rfl, steps_dead h2 hn hr⟩

/-- The lock is poisoned exactly if a method has panicked. -/
theorem step_poisoned {s s' : State} {e : Event} {o : Out} (h : Step s e o s') :
    s'.poisoned = true ↔ s.poisoned = true ∨ o = .method .panic := by
  cases h with
  | call => simp
  | start => simp
  | refused => simp
  | finish => simp
  | rejected => simp
  | set _ _ h => simp [h]
  | dead _ _ h => simp [h]

theorem steps_poisoned {s s' : State} {l} (h : Steps s l s') :
    s'.poisoned = true ↔ s.poisoned = true ∨ ∃ p ∈ l, p.2 = .method .panic := by
  induction h with
  | nil => simp
  | cons h _ ih => rw [ih, step_poisoned h]; simp [or_assoc]

/-- **C97, nothing else is fatal.** As long as every `setTruncation` leaves room for the stride and the special tokens of
that time, no method panics and no task finds the lock poisoned: every answer is that of a tokenizer. Exceptions of other setters and
errors of tasks do no harm. -/
theorem C97_healthy {t : Tokenizer} {s : State} {l} (h : Steps (fresh t) l s)
    (hok : ∀ a b s1 s2 n opts o p, l = a ++ (.set (.truncation n opts), o) :: b → Steps (fresh t) a s1 →
      Step s1 (.set (.truncation n opts)) o s2 → Py.nodeSetTruncation n opts = some p →
      s1.tok.settings.added false + p.stride ≤ p.maxLength) :
    s.poisoned = false ∧ ∀ q ∈ l, q.2 ≠ .method .panic ∧ ∀ k, q.2 ≠ .task k .panic := by
  have append : ∀ {s1 s2 s3 : State} {a b}, Steps s1 a s2 → Steps s2 b s3 → Steps s1 (a ++ b) s3 := by
    intro s1 s2 s3 a b h1 h2
    induction h1 with
    | nil => exact h2
    | cons h _ ih => exact .cons h (ih h2)
  have main : ∀ {a b : List (Event × Out)} {s1 s' : State}, l = a ++ b → Steps (fresh t) a s1 → Steps s1 b s' → s1.poisoned = false →
      s'.poisoned = false ∧ ∀ q ∈ b, q.2 ≠ .method .panic ∧ ∀ k, q.2 ≠ .task k .panic := by
    intro a b s1 s' hl ha hb hp
    induction hb generalizing a with
    | nil => exact ⟨hp, fun q hq => nomatch hq⟩
    | @cons s1 e o s2 b s hs hrest ih =>
      have h1 : o ≠ .method .panic ∧ ∀ k, o ≠ .task k .panic := by
        cases hs with
        | call => exact ⟨nofun, nofun⟩
        | start => exact ⟨nofun, nofun⟩
        | refused _ hq => rw [hp] at hq; cases hq
        | @finish k job hr =>
          refine ⟨nofun, fun k' hc => ?_⟩
          injection hc with _ hc
          cases job <;> cases hc
        | rejected => exact ⟨nofun, nofun⟩
        | @set x hj hr hq =>
          refine ⟨fun hc => ?_, nofun⟩
          injection hc with hc
          obtain ⟨n, opts, p, rfl, h2, h3⟩ := apply_panic.1 hc
          have := hok a b s1 _ n opts _ p hl ha (.set hj hr hq) h2
          refine h3 ?_
          rw [Post.Settings.truncationOk, Post.usizeSub, if_pos (by omega)]
          simp
          omega
        | dead _ _ hq => rw [hp] at hq; cases hq
      have h2 : s2.poisoned = false := by
        cases hp2 : s2.poisoned with
        | false => rfl
        | true =>
          rcases (step_poisoned hs).1 hp2 with h | h
          · rw [hp] at h; cases h
          · exact absurd h h1.1
      obtain ⟨h3, h4⟩ := ih (a := a ++ [(e, o)]) (by rw [hl, List.append_assoc]; rfl) (append ha (.cons hs .nil)) h2
      refine ⟨h3, fun q hq => ?_⟩
      rcases List.mem_cons.1 hq with rfl | hq
      · exact h1
      · exact h4 q hq
  exact main (a := []) rfl .nil h rfl

/-! ## The number of tasks -/

/-- The numbers of calls and of answers in a history. -/
def calls (l : List (Event × Out)) : Nat := (l.filter fun p => match p.1 with | .call _ _ => true | _ => false).length
def answers (l : List (Event × Out)) : Nat := (l.filter fun p => match p.2 with | .task _ _ => true | _ => false).length

theorem filter_one : ∀ {l : List (Nat × Job)} {k : Nat} {job : Job}, (l.map (·.1)).Nodup → (k, job) ∈ l →
    (l.filter (·.1 ≠ k)).length + 1 = l.length
  | p :: l, k, job, hd, hm => by
    rw [List.map_cons, List.nodup_cons] at hd
    rcases List.mem_cons.1 hm with rfl | hm
    · rw [List.filter_cons_of_neg (by simp), List.filter_eq_self.2, List.length_cons]
      intro q hq
      simp only [ne_eq, decide_eq_true_eq]
      exact fun e => hd.1 (List.mem_map.2 ⟨q, hq, e⟩)
    · have : p.1 ≠ k := fun e => hd.1 (List.mem_map.2 ⟨_, hm, e.symm⟩)
      rw [List.filter_cons_of_pos (by simpa using this), List.length_cons, List.length_cons, filter_one hd.2 hm]

/-- **C97, `runningTasks`.** It is one more than the number of tasks that have been called and not answered, so it is never 0. -/
theorem C97_running {t : Tokenizer} {s : State} {l} (h : Steps (fresh t) l s) :
    runningTasks s + answers l = 1 + calls l := by
  have main : ∀ {s s' : State} {l}, Steps s l s' → Distinct s → runningTasks s' + answers l = runningTasks s + calls l := by
    intro s s' l h
    induction h with
    | nil => intro; rfl
    | @cons s e o s1 l s2 hs _ ih =>
      intro hd
      have ih := ih (step_distinct hs hd)
      have hd1 : (s.queued.map (·.1)).Nodup := by
        unfold Distinct at hd; rw [List.map_append, List.nodup_append] at hd; exact hd.1
      have hd2 : (s.running.map (·.1)).Nodup := by
        unfold Distinct at hd; rw [List.map_append, List.nodup_append] at hd; exact hd.2.1
      cases hs with
      | call => simp [calls, answers, runningTasks] at ih ⊢; omega
      | start hq hp =>
        have := filter_one hd1 hq
        simp [calls, answers, runningTasks] at ih this ⊢; omega
      | refused hq hp =>
        have := filter_one hd1 hq
        simp [calls, answers, runningTasks] at ih this ⊢; omega
      | finish hr =>
        have := filter_one hd2 hr
        simp [calls, answers, runningTasks] at ih this ⊢; omega
      | rejected => simp [calls, answers, runningTasks] at ih ⊢; omega
      | set => simp [calls, answers, runningTasks] at ih ⊢; omega
      | dead => simp [calls, answers, runningTasks] at ih ⊢; omega
  exact main h (by simp [Distinct, fresh])

/-! ## Findings and samples -/

/-- **C97, finding.** `is_pretokenized` makes no difference: the inputs are always whole texts. -/
theorem C97_pretokenized_ignored (b : Bool) (s : Str) (pair : Option Str) (o : Options) :
    encodeCall s pair (some { o with isPretokenized := some b }) = encodeCall s pair (some o) ∧
    ∃ add, encodeCall s pair (some o) = .encode (.raw s, pair.map .raw) add := ⟨rfl, _, rfl⟩

/-- Ids of an answer. -/
def Answer.ids : Answer → Option (List Nat)
  | .encoding (.ok e) => some e.ids
  | _ => none

/-- **C97, finding.** A setter called after `encode` and before its answer counts: `setTruncation(1)` cuts the text that was to be
encoded before. -/
theorem C97_later_setter : ∃ l s k a, Steps (fresh charSample) l s ∧ (.finish k, .task k a) ∈ l ∧
    l.map (·.1) = [.call k (encodeCall "abc".toList none none), .set (.truncation 1 none), .start k, .finish k] ∧
    a.ids = some [97, 0] ∧
    (Job.run charSample (encodeCall "abc".toList none none)).ids = some [97, 98, 99, 0] := by
  have h1 : Step (fresh charSample) (.call 0 (encodeCall "abc".toList none none)) .none _ := .call (by simp [fresh])
  have h2 := Step.set (s := ⟨charSample, false, [(0, encodeCall "abc".toList none none)], []⟩) (x := .truncation 1 none) rfl rfl rfl
  have h3 := Step.start (s := ⟨(Setter.apply charSample (.truncation 1 none)).1,
    decide ((Setter.apply charSample (.truncation 1 none)).2 = .panic), [(0, encodeCall "abc".toList none none)], []⟩)
    (k := 0) (List.mem_singleton.2 rfl) (by decide +kernel)
  have h4 := Step.finish (s := ⟨(Setter.apply charSample (.truncation 1 none)).1,
    decide ((Setter.apply charSample (.truncation 1 none)).2 = .panic), [], [(0, encodeCall "abc".toList none none)]⟩)
    (k := 0) (List.mem_singleton.2 rfl)
  exact ⟨_, _, 0, _, .cons h1 (.cons h2 (.cons h3 (.cons h4 .nil))),
    List.mem_cons_of_mem _ (List.mem_cons_of_mem _ (List.mem_cons_of_mem _ List.mem_cons_self)), rfl, by decide +kernel, by decide +kernel⟩

/-- The hypotheses of `C97_poisoned` are met by a tokenizer with Bert's two special tokens, a length of 5 and a stride of 4. -/
example : ∃ s1, Step (fresh bertSample) (.set (.truncation 5 (some { stride := some 4 }))) (.method .panic) s1 ∧
    ∀ l s2, Steps s1 l s2 → ∀ q ∈ l, q.2.dead := by
  have h : Step (fresh bertSample) (.set (.truncation 5 (some { stride := some 4 }))) _ _ := .set rfl rfl rfl
  have h1 := C97_poisoned (t := bertSample) .nil (p := ⟨5, .longestFirst, 4, .right⟩) rfl (by decide +kernel)
    (by decide +kernel) h .nil
  rw [h1.1] at h
  exact ⟨_, h, fun l s2 h2 => (C97_poisoned (t := bertSample) .nil (p := ⟨5, .longestFirst, 4, .right⟩) rfl
    (by decide +kernel) (by decide +kernel) h h2).2⟩

/-- `C97_unchanged` and `C97_running` on a history with two tasks. -/
example : ∃ l s, Steps (fresh charSample) l s ∧ runningTasks s = 2 ∧
    (.finish 1, .task 1 (Job.run charSample (encodeCall "b".toList none none))) ∈ l := by
  have h1 : Step (fresh charSample) (.call 0 (encodeCall "a".toList none none)) .none _ := .call (by simp [fresh])
  have h2 := Step.call (s := ⟨charSample, false, [(0, encodeCall "a".toList none none)], []⟩) (k := 1)
    (job := encodeCall "b".toList none none) (by simp)
  have h3 := Step.start (s := ⟨charSample, false, [(1, encodeCall "b".toList none none), (0, encodeCall "a".toList none none)], []⟩)
    (k := 1) (List.mem_cons_self) rfl
  have h4 := Step.finish (s := ⟨charSample, false, [(0, encodeCall "a".toList none none)], [(1, encodeCall "b".toList none none)]⟩)
    (k := 1) (List.mem_cons_self)
  have hs := Steps.cons h1 (.cons h2 (.cons (by simpa using h3) (.cons h4 .nil)))
  refine ⟨_, _, hs, ?_, List.mem_cons_of_mem _ (List.mem_cons_of_mem _ (List.mem_cons_of_mem _ List.mem_cons_self))⟩
  have := C97_running hs
  exact Nat.add_right_cancel (m := 1) this

/-! ## What the methods do -/

/-- **C97, calls.** Without options, or without `addSpecialTokens` among them, special tokens are added. `encode` gives what
`encode_char_offsets` of the library gives for the text or the pair of texts; `encodeBatch` gives the encodings of the single
texts, padded together if padding is on; `decode` and `decodeBatch` skip special tokens if they are asked to. -/
theorem C97_calls (t : Tokenizer) (o : Option Options) :
    ∃ add : Bool, (add = false ↔ ∃ x, o = some x ∧ x.addSpecialTokens = some false) ∧
    (∀ s, Job.run t (encodeCall s none o) = .encoding (t.encodeAs .char (.raw s, none) add)) ∧
    (∀ s p, Job.run t (encodeCall s (some p) o) = .encoding (t.encodeAs .char (.raw s, some (.raw p)) add)) ∧
    (∀ (l : List Str) (order : List Nat), order.Perm (List.range l.length) →
      ∃ r, Job.run t (encodeBatchCall order l o) = .encodings r ∧ ∀ out, r = .ok out ↔
        ∃ es, Each (fun s e => t.encodeAs .char (.raw s, none) add = .ok e) l es ∧
          (t.settings.padding = none → out = es) ∧ ∀ p, t.settings.padding = some p → out = padEncodings es p) ∧
    (∀ ids skip, Job.run t (.decode ids skip) = .text (t.decode skip ids)) ∧
    ∀ (l : List (List Nat)) (order : List Nat) (skip : Bool), order.Perm (List.range l.length) →
      ∃ r, Job.run t (.decodeBatch order l skip) = .texts r ∧
        ∀ out, r = .ok out ↔ Each (fun ids s => t.decode skip ids = some s) l out := by
  have hm : ∀ (R : Input × Option Input → Encoding → Prop) (l : List Str) (es : List Encoding),
      Each R (l.map fun s => (.raw s, none)) es ↔ Each (fun s e => R (.raw s, none) e) l es := by
    intro R l
    induction l with
    | nil => intro es; constructor <;> (intro h; cases h; exact .nil)
    | cons a l ih =>
      intro es
      constructor
      · intro h
        cases h with
        | cons h1 h2 => exact .cons h1 ((ih _).1 h2)
      · intro h
        cases h with
        | cons h1 h2 => exact .cons h1 ((ih _).2 h2)
  refine ⟨(o.getD {}).add, ?_, fun _ => rfl, fun _ _ => rfl, fun l order ho => ⟨_, rfl, fun out => ?_⟩, fun _ _ => rfl,
    fun l order skip ho => ⟨_, rfl, fun out => (C43_decode_batch t l skip ho).1 out⟩⟩
  · cases o with
    | none => simp [Options.add]
    | some x =>
      obtain ⟨a, b⟩ := x
      cases b with
      | none => simp [Options.add]
      | some b => cases b <;> simp [Options.add]
  · rw [(C43_batch t .char _ _ (by simpa using ho)).1]
    simp only [hm]

/-- **C97, setters.** Turning truncation or padding off turns off just that; the other setters that succeed leave truncation
and padding alone; nothing but `setModel` changes the model, nothing but adding tokens or another normalizer the added tokens. -/
theorem C97_setters (t : Tokenizer) :
    ((Setter.noTruncation.apply t).1.settings = ⟨none, t.settings.padding, t.settings.processor⟩) ∧
    ((Setter.noPadding.apply t).1.settings = ⟨t.settings.truncation, none, t.settings.processor⟩) ∧
    (∀ p, ((Setter.processor p).apply t).1.settings = ⟨t.settings.truncation, t.settings.padding, some p⟩) ∧
    ∀ x : Setter,
      ((∀ m v w, x ≠ .model m v w) → (x.apply t).1.model = t.model ∧ (x.apply t).1.view = t.view ∧ (x.apply t).1.vocab = t.vocab) ∧
      ((∀ b n f, x ≠ .normalizer b n f) → (∀ b n ts, x ≠ .addTokens b n ts) → (x.apply t).1.added = t.added) ∧
      ((∀ b n f, x ≠ .normalizer b n f) → (x.apply t).1.normalizer = t.normalizer) ∧
      ((∀ p, x ≠ .preTok p) → (x.apply t).1.preTok = t.preTok) ∧
      ((∀ d, x ≠ .decoder d) → (x.apply t).1.decoder = t.decoder) ∧
      ((∀ n o, x ≠ .truncation n o) → x ≠ .noTruncation → (x.apply t).1.settings.truncation = t.settings.truncation) ∧
      ((∀ o, x ≠ .padding o) → x ≠ .noPadding → (x.apply t).1.settings.padding = t.settings.padding) ∧
      ((∀ p, x ≠ .processor p) → (x.apply t).1.settings.processor = t.settings.processor) := by
  refine ⟨rfl, rfl, fun _ => rfl, fun x => ?_⟩
  cases x with
  | truncation n o =>
    simp only [Setter.apply]
    cases Py.nodeSetTruncation n o with
    | none => simp
    | some p => dsimp only; split <;> simp
  | padding o =>
    simp only [Setter.apply]
    cases Py.nodeSetPadding o <;> simp
  | _ => simp [Setter.apply]

example : (Job.run bertSample (encodeCall "a".toList none none)).ids ≠ (Job.run bertSample (encodeCall "a".toList none
      (some { addSpecialTokens := some false }))).ids := by decide +kernel

end Tok.Node
