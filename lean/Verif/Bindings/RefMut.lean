import Verif.Base

/-!
# C81: the references lent to Python code

Model of `RefMutContainer` and `RefMutGuard` of the Python bindings (`bindings/python/src/utils/mod.rs:16-75`): a `&mut T` (a
`NormalizedString` or a `PreTokenizedString`) is lent to Python code as a raw pointer behind a mutex; the Python code may keep
the handle, clone it and use it from other threads; when the Rust function that lent it returns, the guard is dropped, which
takes the pointer out. One container is modelled, with any number of threads doing any operations on it in any interleaving of
the accesses to the mutex. Memory is not modelled: what is followed is when a reference made from the raw pointer is in use, and
when the borrow it comes from ends.
-/

namespace Tok.Py

abbrev Tid := Nat

/-- A call of `map` or `map_mut` (`mod.rs:53-63`) with some `f`: the calls that `f` makes in turn on the same container (through a
Python callback), and whether `f` then panics (a panic after some of them is a shorter list). -/
inductive Op where
  | call (body : List Op) (panics : Bool)

/-- What a thread still has to do. -/
inductive Act where
  | op (o : Op)
  /-- `f` has returned, or panicked: the lock is released; a panic poisons it. -/
  | release (panics : Bool)
  /-- `RefMutGuard::drop`, that is `destroy` (`mod.rs:38-42, 66-70`). -/
  | destroy
  /-- The function that lent the reference returns (or goes on unwinding): the borrow ends. -/
  | finish

/-- What can be seen of an execution. -/
inductive Ev where
  /-- a reference is made from the raw pointer -/
  | deref (t : Tid)
  /-- that reference is given up -/
  | done (t : Tid)
  /-- `None`: the Python exception "Cannot use … outside …" -/
  | refused (t : Tid)
  /-- `unwrap` of a poisoned lock panics -/
  | died (t : Tid)
  /-- the guard is dropped -/
  | dropped
  /-- the borrow ends -/
  | ended
deriving DecidableEq

/-- The mutex (`holder`, `poisoned`), whether it contains the pointer, and the threads. -/
structure St where
  holder : Option Tid
  poisoned : Bool
  ptr : Bool
  threads : Tid → List Act

/-- One thread goes on. -/
def St.go (s : St) (t : Tid) (l : List Act) : Tid → List Act := fun u => if u = t then l else s.threads u

/-- One access to the mutex. A thread that finds it locked (also by itself: the mutex of the standard library is not
re-entrant; where relocking panics instead, the inner call is `died`) waits. -/
inductive Step : St → Ev → St → Prop
  /-- `lock().unwrap()` on a poisoned lock, in `map` and `map_mut` (`mod.rs:54, 60`); the panic becomes a Python exception. -/
  | died {s t body p rest} : s.threads t = .op (.call body p) :: rest → s.holder = none → s.poisoned = true →
    Step s (.died t) { s with threads := s.go t rest }
  /-- `lock.as_ref()?` without content (`mod.rs:55, 61`). -/
  | refused {s t body p rest} : s.threads t = .op (.call body p) :: rest → s.holder = none → s.poisoned = false → s.ptr = false →
    Step s (.refused t) { s with threads := s.go t rest }
  /-- `f` is called with the reference (`mod.rs:56, 62`), the lock being held. -/
  | deref {s t body p rest} : s.threads t = .op (.call body p) :: rest → s.holder = none → s.poisoned = false → s.ptr = true →
    Step s (.deref t) { s with holder := some t, threads := s.go t (body.map .op ++ .release p :: rest) }
  | done {s t p rest} : s.threads t = .release p :: rest →
    Step s (.done t) { s with holder := none, poisoned := s.poisoned || p, threads := s.go t rest }
  /-- `destroy`: `lock().unwrap().take()` (`mod.rs:68`); if the lock is poisoned it panics and takes nothing. -/
  | dropped {s t rest} : s.threads t = .destroy :: rest → s.holder = none →
    Step s .dropped { s with ptr := if s.poisoned then s.ptr else false, threads := s.go t rest }
  | ended {s t rest} : s.threads t = .finish :: rest →
    Step s .ended { s with threads := s.go t rest }

/-- An execution and what is seen of it. -/
inductive Exec : St → List Ev → St → Prop
  | refl {s} : Exec s [] s
  | step {s e s' l s''} : Step s e s' → Exec s' l s'' → Exec s (e :: l) s''

/-- At the beginning (`RefMutContainer::new`, `RefMutGuard::new`): the owner lends the reference, runs Python code that does `own`
with it, then drops the guard and returns; the other threads do what they like. -/
def start (owner : Tid) (own : List Op) (others : Tid → List Op) : St where
  holder := none
  poisoned := false
  ptr := true
  threads t := if t = owner then own.map .op ++ [.destroy, .finish] else (others t).map .op

/-! ## Proofs -/

/-- Only calls. -/
def Calls (l : List Act) : Prop := ∃ os : List Op, l = os.map .op

/-- Calls, then the release of the lock held, then calls. -/
def Held (l : List Act) : Prop := ∃ (os : List Op) (p : Bool) (r : List Act), l = os.map .op ++ .release p :: r ∧ Calls r

theorem calls_not_held {l : List Act} (h : Calls l) : ¬ Held l := by
  rintro ⟨os, p, r, rfl, _⟩
  obtain ⟨os', h⟩ := h
  have : Act.release p ∈ os'.map Act.op := by rw [← h]; simp
  simp at this

theorem calls_tail {a : Act} {l : List Act} (h : Calls (a :: l)) : Calls l := by
  obtain ⟨os, h⟩ := h
  cases os with
  | nil => simp at h
  | cons o os => simp only [List.map_cons, List.cons.injEq] at h; exact ⟨os, h.2⟩

theorem held_tail {o : Op} {l : List Act} (h : Held (.op o :: l)) : Held l := by
  obtain ⟨os, p, r, h, hr⟩ := h
  cases os with
  | nil => simp at h
  | cons o' os => simp only [List.map_cons, List.cons_append, List.cons.injEq] at h; exact ⟨os, p, r, h.2, hr⟩

theorem held_body {body : List Op} {p : Bool} {l : List Act} (h : Calls l) : Held (body.map .op ++ .release p :: l) :=
  ⟨body, p, l, rfl, h⟩

theorem held_release {p : Bool} {l : List Act} (h : Held (.release p :: l)) : Calls l := by
  obtain ⟨os, q, r, h, hr⟩ := h
  cases os with
  | nil => simp only [List.map_nil, List.nil_append, List.cons.injEq] at h; rw [h.2]; exact hr
  | cons o os => simp at h

/-- Where the owner is. -/
inductive Phase where
  | lent
  | dropped
  | ended
deriving DecidableEq

/-- What a phase adds at the end of the owner's list. -/
def Phase.rest : Phase → List Act
  | .lent => [.destroy, .finish]
  | .dropped => [.finish]
  | .ended => []

/-- The invariant. `l t` is the list of thread `t` without what the phase adds to that of the owner. -/
structure Inv (owner : Tid) (ph : Phase) (s : St) : Prop where
  lists : ∃ l : Tid → List Act, (∀ t, s.threads t = l t ++ (if t = owner then ph.rest else [])) ∧
    (∀ t, s.holder ≠ some t → Calls (l t)) ∧ (∀ t, s.holder = some t → Held (l t)) ∧
    (ph ≠ .lent → l owner = [])
  free : ph ≠ .lent → s.holder = none
  gone : ph ≠ .lent → s.ptr = false ∨ s.poisoned = true
  there : ph = .lent → s.ptr = true

theorem inv_start (owner : Tid) (own : List Op) (others : Tid → List Op) : Inv owner .lent (start owner own others) where
  lists := ⟨fun t => if t = owner then own.map .op else (others t).map .op,
    fun t => by by_cases h : t = owner <;> simp [start, h, Phase.rest],
    fun t _ => by by_cases h : t = owner <;> simp only [h, if_true, if_false] <;> exact ⟨_, rfl⟩,
    fun t h => by simp [start] at h, by simp⟩
  free := by simp
  gone := by simp
  there := by simp [start]

/-- The next phase. -/
def Ev.phase (e : Ev) (ph : Phase) : Phase :=
  match e with
  | .dropped => .dropped
  | .ended => .ended
  | _ => ph

/-- What is true of an event that happens in a phase, the lock being held by `h`. -/
def Ev.Ok (e : Ev) (ph : Phase) (h : Option Tid) : Prop :=
  match e with
  | .deref _ => ph = .lent ∧ h = none
  | .done t => h = some t
  | .refused _ => ph ≠ .lent
  | .died _ => h = none
  | .dropped => ph = .lent ∧ h = none
  | .ended => ph = .dropped ∧ h = none

/-- Who holds the lock afterwards. -/
def Ev.holder (e : Ev) (h : Option Tid) : Option Tid :=
  match e with
  | .deref t => some t
  | .done _ => none
  | _ => h

/-- The head of a thread's list, when it is not what the phase adds. -/
theorem head_cases {owner t : Tid} {ph : Phase} {l : List Act} {a : Act} {rest : List Act}
    (h : a :: rest = l ++ (if t = owner then ph.rest else [])) :
    (∃ l', l = a :: l' ∧ rest = l' ++ (if t = owner then ph.rest else [])) ∨
    (l = [] ∧ t = owner ∧ a :: rest = ph.rest) := by
  cases l with
  | nil =>
    by_cases ht : t = owner
    · exact .inr ⟨rfl, ht, by simpa [ht] using h⟩
    · simp [ht] at h
  | cons b l => simp only [List.cons_append, List.cons.injEq] at h; exact .inl ⟨l, by rw [h.1], h.2⟩

theorem rest_op {ph : Phase} {o : Op} {r : List Act} : Act.op o :: r ≠ ph.rest := by cases ph <;> simp [Phase.rest]

theorem rest_release {ph : Phase} {p : Bool} {r : List Act} : Act.release p :: r ≠ ph.rest := by cases ph <;> simp [Phase.rest]

/-- A list with one thread's changed. -/
def upd (l : Tid → List Act) (t : Tid) (x : List Act) : Tid → List Act := fun u => if u = t then x else l u

theorem go_upd {s : St} {owner t : Tid} {ph : Phase} {l : Tid → List Act} {x : List Act}
    (hl : ∀ t, s.threads t = l t ++ (if t = owner then ph.rest else [])) (u : Tid) :
    s.go t (x ++ (if t = owner then ph.rest else [])) u = upd l t x u ++ (if u = owner then ph.rest else []) := by
  unfold St.go upd
  by_cases h : u = t
  · subst h; simp
  · simp [h, hl u]

/-- A call that does not begin (refused or dead). -/
theorem inv_skip {owner t : Tid} {ph : Phase} {s : St} {o : Op} {rest : List Act} (h : Inv owner ph s)
    (h1 : s.threads t = .op o :: rest) : Inv owner ph { s with threads := s.go t rest } := by
  obtain ⟨⟨l, hl, hc, hh, ho⟩, hf, hg, ht⟩ := h
  have h1' := h1
  rw [hl] at h1'
  rcases head_cases h1'.symm with ⟨l', e1, e2⟩ | ⟨_, _, e⟩
  · refine ⟨⟨upd l t l', fun u => by rw [e2]; exact go_upd hl u, ?_, ?_, ?_⟩, hf, hg, ht⟩
    · intro u hu
      unfold upd
      split
      · rename_i e; subst e; exact calls_tail (a := .op o) (by rw [← e1]; exact hc _ hu)
      · exact hc u hu
    · intro u hu
      unfold upd
      split
      · rename_i e; subst e; exact held_tail (o := o) (by rw [← e1]; exact hh _ hu)
      · exact hh u hu
    · intro hp
      unfold upd
      split
      · rename_i e; subst e; rw [ho hp] at e1; cases e1
      · exact ho hp
  · exact absurd e rest_op

theorem inv_step {owner : Tid} {ph : Phase} {s s' : St} {e : Ev} (h : Inv owner ph s) (hs : Step s e s') :
    Inv owner (e.phase ph) s' ∧ e.Ok ph s.holder ∧ s'.holder = e.holder s.holder := by
  cases hs with
  | died h1 h2 h3 => exact ⟨inv_skip h h1, h2, rfl⟩
  | refused h1 h2 h3 h4 =>
    refine ⟨inv_skip h h1, ?_, rfl⟩
    intro hp
    rw [h.there hp] at h4; cases h4
  | @deref t body p rest h1 h2 h3 h4 =>
    have hp : ph = .lent := by
      cases hph : decide (ph = .lent) with
      | true => exact of_decide_eq_true hph
      | false =>
        rcases h.gone (of_decide_eq_false hph) with x | x
        · rw [x] at h4; cases h4
        · rw [x] at h3; cases h3
    refine ⟨?_, ⟨hp, h2⟩, rfl⟩
    obtain ⟨⟨l, hl, hc, hh, ho⟩, hf, hg, ht⟩ := h
    have h1' := h1
    rw [hl] at h1'
    rcases head_cases h1'.symm with ⟨l', e1, e2⟩ | ⟨_, _, e⟩
    · have hcl : Calls l' := calls_tail (a := .op (.call body p)) (by rw [← e1]; exact hc t (by rw [h2]; simp))
      refine ⟨⟨upd l t (body.map .op ++ .release p :: l'), fun u => ?_, ?_, ?_, ?_⟩, ?_, ?_, ht⟩
      · have := go_upd (t := t) (x := body.map .op ++ .release p :: l') hl u
        rw [e2]
        simpa [Ev.phase] using this
      · intro u hu
        have hne : u ≠ t := fun e => hu (by simp [e])
        unfold upd; rw [if_neg hne]
        exact hc u (by rw [h2]; simp)
      · intro u hu
        simp only [Option.some.injEq] at hu
        subst hu
        unfold upd; rw [if_pos rfl]
        exact held_body hcl
      · intro hx; exact absurd hp hx
      · intro hx; exact absurd hp hx
      · intro hx; exact absurd hp hx
    · exact absurd e rest_op
  | @done t p rest h1 =>
    obtain ⟨⟨l, hl, hc, hh, ho⟩, hf, hg, ht⟩ := h
    have h1' := h1
    rw [hl] at h1'
    rcases head_cases h1'.symm with ⟨l', e1, e2⟩ | ⟨_, _, e⟩
    · have hold : s.holder = some t := by
        apply Classical.byContradiction
        intro hx
        obtain ⟨os, h⟩ := hc t hx
        rw [e1] at h
        cases os <;> simp at h
      refine ⟨⟨⟨upd l t l', fun u => by rw [e2]; exact go_upd hl u, ?_, ?_, ?_⟩, ?_, ?_, ht⟩, hold, rfl⟩
      · intro u _
        unfold upd
        split
        · rename_i e; subst e; exact held_release (p := p) (by rw [← e1]; exact hh _ hold)
        · rename_i e; exact hc u (by rw [hold]; simpa using fun h => e h.symm)
      · intro u hu; simp at hu
      · intro hp
        unfold upd
        split
        · rename_i e; subst e; rw [ho hp] at e1; cases e1
        · exact ho hp
      · intro _; rfl
      · intro hp
        rcases hg hp with x | x
        · exact .inl x
        · exact .inr (by simp [x])
    · exact absurd e rest_release
  | @dropped t rest h1 h2 =>
    obtain ⟨⟨l, hl, hc, hh, ho⟩, hf, hg, ht⟩ := h
    have h1' := h1
    rw [hl] at h1'
    rcases head_cases h1'.symm with ⟨l', e1, _⟩ | ⟨e0, rfl, e⟩
    · obtain ⟨os, h⟩ := hc t (by rw [h2]; simp)
      rw [e1] at h
      cases os <;> simp at h
    · cases ph with
      | lent =>
        simp only [Phase.rest, List.cons.injEq] at e
        refine ⟨⟨⟨l, fun u => ?_, hc, hh, fun _ => e0⟩, fun _ => h2, fun _ => ?_, by simp [Ev.phase]⟩, ⟨rfl, h2⟩, rfl⟩
        · simp only [St.go, Ev.phase, Phase.rest]
          by_cases hu : u = t
          · subst hu; simp [e0, e.2]
          · simp [hu, hl u]
        · cases hpo : s.poisoned <;> simp
      | dropped => simp [Phase.rest] at e
      | ended => simp [Phase.rest] at e
  | @ended t rest h1 =>
    obtain ⟨⟨l, hl, hc, hh, ho⟩, hf, hg, ht⟩ := h
    have h1' := h1
    rw [hl] at h1'
    rcases head_cases h1'.symm with ⟨l', e1, _⟩ | ⟨e0, rfl, e⟩
    · exfalso
      by_cases hx : s.holder = some t
      · obtain ⟨os, p, r, h, _⟩ := hh t hx
        rw [e1] at h
        cases os <;> simp at h
      · obtain ⟨os, h⟩ := hc t hx
        rw [e1] at h
        cases os <;> simp at h
    · cases ph with
      | lent => simp [Phase.rest] at e
      | dropped =>
        simp only [Phase.rest, List.cons.injEq] at e
        refine ⟨⟨⟨l, fun u => ?_, hc, hh, fun _ => e0⟩, fun _ => hf (by simp), fun _ => hg (by simp),
          by simp [Ev.phase]⟩, ⟨rfl, hf (by simp)⟩, rfl⟩
        simp only [St.go, Ev.phase, Phase.rest]
        by_cases hu : u = t
        · subst hu; simp [e0, e.2]
        · simp [hu, hl u]
      | ended => simp [Phase.rest] at e

/-- A list of events that happens, from a phase and a holder. -/
def Good : Phase → Option Tid → List Ev → Prop
  | _, _, [] => True
  | ph, h, e :: l => e.Ok ph h ∧ Good (e.phase ph) (e.holder h) l

theorem good_exec {owner : Tid} {s s' : St} {l : List Ev} (hx : Exec s l s') : ∀ {ph}, Inv owner ph s → Good ph s.holder l := by
  induction hx with
  | refl => intro ph _; trivial
  | step hs _ ih =>
    intro ph h
    obtain ⟨h1, h2, h3⟩ := inv_step h hs
    exact ⟨h2, by rw [← h3]; exact ih h1⟩

theorem good_append : ∀ {a b : List Ev} {ph : Phase} {h : Option Tid}, Good ph h (a ++ b) →
    ∃ ph' h', Good ph' h' b ∧ ph' = a.foldl (fun p e => e.phase p) ph ∧ h' = a.foldl (fun h e => e.holder h) h
  | [], _, _, _, g => ⟨_, _, g, rfl, rfl⟩
  | e :: a, _, _, _, g => by
    obtain ⟨ph', h', g1, g2, g3⟩ := good_append (a := a) g.2
    exact ⟨ph', h', g1, g2, g3⟩

theorem phase_after : ∀ (a : List Ev) (ph : Phase), ph ≠ .lent → a.foldl (fun p e => e.phase p) ph ≠ .lent
  | [], _, h => h
  | e :: a, ph, h => phase_after a _ (by cases e <;> simp [Ev.phase, h])

theorem phase_lent : ∀ (a : List Ev) (ph : Phase), a.foldl (fun p e => e.phase p) ph ≠ .lent → ph = .lent →
    Ev.dropped ∈ a ∨ Ev.ended ∈ a
  | [], _, h, h' => absurd h' h
  | e :: a, ph, h, h' => by
    by_cases he : e.phase ph = .lent
    · rcases phase_lent a _ h he with x | x
      · exact .inl (List.mem_cons_of_mem _ x)
      · exact .inr (List.mem_cons_of_mem _ x)
    · cases e <;> simp [Ev.phase, h'] at he ⊢

/-- While the lock is held by `t`, the reference of `t` has not been given up; and conversely. -/
theorem holder_kept : ∀ (a : List Ev) (ph : Phase) (t : Tid), Good ph (some t) a → Ev.done t ∉ a →
    a.foldl (fun h e => e.holder h) (some t) = some t
  | [], _, _, _, _ => rfl
  | e :: a, ph, t, g, hn => by
    have hk : e.holder (some t) = some t := by
      cases e with
      | deref u => have := g.1; simp [Ev.Ok] at this
      | done u =>
        have hu : t = u := by have := g.1; simpa [Ev.Ok] using this
        subst hu
        exact absurd (List.mem_cons_self ..) hn
      | _ => rfl
    have g2 := g.2
    rw [hk] at g2
    simp only [List.foldl_cons, hk]
    exact holder_kept a _ t g2 (fun h => hn (List.mem_cons_of_mem _ h))

/-- **C81, no use after the end.** Whatever the Python code does with the handle (keeping it, cloning it, using it from other
threads, panicking inside): a reference is only made before the guard is dropped, and once the function that lent the reference
returns, every reference made has been given up, and none is made any more. -/
theorem C81_no_use_after_end {owner : Tid} {own : List Op} {others : Tid → List Op} {l : List Ev} {s : St}
    (hx : Exec (start owner own others) l s) :
    (∀ a b, l = a ++ .dropped :: b → ∀ t, .deref t ∉ b) ∧
    (∀ a b, l = a ++ .ended :: b → (∀ t, .deref t ∉ b) ∧ (∀ t, .done t ∉ b) ∧ .dropped ∈ a ∧
      ∀ c d t, a = c ++ .deref t :: d → .done t ∈ d) := by
  have g := good_exec hx (inv_start owner own others)
  have after : ∀ (b : List Ev) (ph : Phase) (h : Option Tid), Good ph h b → ph ≠ .lent → ∀ t, .deref t ∉ b := by
    intro b ph h gb hp t hm
    obtain ⟨c, d, rfl⟩ := List.append_of_mem hm
    obtain ⟨ph', h', g1, g2, _⟩ := good_append gb
    exact phase_after c ph hp (by rw [← g2]; exact g1.1.1)
  constructor
  · rintro a b rfl t
    obtain ⟨ph', h', g1, _, _⟩ := good_append g
    exact after b _ _ g1.2 (by simp [Ev.phase]) t
  · rintro a b rfl
    obtain ⟨ph', h', g1, g2, g3⟩ := good_append g
    have hd : ∀ t, .deref t ∉ b := fun t => after b _ _ g1.2 (by simp [Ev.phase]) t
    refine ⟨hd, ?_, ?_, ?_⟩
    · have key : ∀ (b : List Ev) (ph : Phase), Good ph none b → (∀ t, .deref t ∉ b) → ∀ t, .done t ∉ b := by
        intro b
        induction b with
        | nil => intro _ _ _ t h; cases h
        | cons e b ih =>
          intro ph gb hb t hm
          have hk : e.holder none = none := by
            cases e with
            | deref u => exact absurd (List.mem_cons_self ..) (hb u)
            | _ => rfl
          have gb2 := gb.2
          rw [hk] at gb2
          rcases List.mem_cons.1 hm with rfl | hm
          · have := gb.1; simp [Ev.Ok] at this
          · exact ih _ gb2 (fun t h => hb t (List.mem_cons_of_mem _ h)) t hm
      have gn := g1.2
      rw [show Ev.ended.holder h' = none from g1.1.2] at gn
      exact key b _ gn hd
    · have hph : ph' = .dropped := g1.1.1
      have hal : ∀ (a : List Ev) (ph : Phase), a.foldl (fun p e => e.phase p) ph = .dropped → ph = .dropped ∨ .dropped ∈ a := by
        intro a
        induction a with
        | nil => intro ph h; exact .inl h
        | cons e a ih =>
          intro ph h
          rcases ih _ h with x | x
          · cases e <;> simp [Ev.phase] at x ⊢ <;> exact .inl x
          · exact .inr (List.mem_cons_of_mem _ x)
      rcases hal a .lent (by rw [← g2]; exact hph) with x | x
      · cases x
      · exact x
    · rintro c d t rfl
      apply Classical.byContradiction
      intro hn
      have e : c ++ .deref t :: d ++ .ended :: b = c ++ (.deref t :: (d ++ .ended :: b)) := by simp
      rw [e] at g
      obtain ⟨p1, h1, k1, _, _⟩ := good_append g
      have k2 : Good _ (some t) (d ++ .ended :: b) := k1.2
      obtain ⟨p2, h2, k3, _, k4⟩ := good_append k2
      have gd : ∀ (x y : List Ev) (ph : Phase) (h : Option Tid), Good ph h (x ++ y) → Good ph h x := by
        intro x
        induction x with
        | nil => intro _ _ _ _; trivial
        | cons e x ih => intro y ph h gg; exact ⟨gg.1, ih y _ _ gg.2⟩
      rw [holder_kept d _ t (gd _ _ _ _ k2) hn] at k4
      have := k3.1.2
      rw [k4] at this; cases this

/-- **C81, one reference at a time.** Before another reference is made (by the same thread or by another), the one made before has
been given up. -/
theorem C81_exclusive {owner : Tid} {own : List Op} {others : Tid → List Op} {l : List Ev} {s : St}
    (hx : Exec (start owner own others) l s) {a b c : List Ev} {t u : Tid}
    (hl : l = a ++ .deref t :: (b ++ .deref u :: c)) : .done t ∈ b := by
  subst hl
  have g := good_exec hx (inv_start owner own others)
  obtain ⟨p1, h1, k1, _, _⟩ := good_append g
  have k2 : Good _ (some t) (b ++ .deref u :: c) := k1.2
  apply Classical.byContradiction
  intro hn
  obtain ⟨p2, h2, k3, _, k4⟩ := good_append k2
  have gd : ∀ (x y : List Ev) (ph : Phase) (h : Option Tid), Good ph h (x ++ y) → Good ph h x := by
    intro x
    induction x with
    | nil => intro _ _ _ _; trivial
    | cons e x ih => intro y ph h gg; exact ⟨gg.1, ih y _ _ gg.2⟩
  rw [holder_kept b _ t (gd _ _ _ _ k2) hn] at k4
  have := k3.1.2
  rw [k4] at this; cases this

/-- **C81, it works until then.** The exception that the handle cannot be used is only raised after the guard was dropped. -/
theorem C81_refused_only_after {owner : Tid} {own : List Op} {others : Tid → List Op} {l : List Ev} {s : St}
    (hx : Exec (start owner own others) l s) {a b : List Ev} {t : Tid} (hl : l = a ++ .refused t :: b) : .dropped ∈ a := by
  subst hl
  have g := good_exec hx (inv_start owner own others)
  obtain ⟨p1, h1, k1, k2, _⟩ := good_append g
  have hp : p1 ≠ .lent := k1.1
  rw [k2] at hp
  rcases phase_lent a _ hp rfl with x | x
  · exact x
  · obtain ⟨c, d, rfl⟩ := List.append_of_mem x
    exact List.mem_append_left _ ((C81_no_use_after_end hx).2 c (d ++ .refused t :: b) (by simp)).2.2.1

/-- The owner uses the handle once; another thread has kept it: its use waits for the first, a later one is refused. -/
example : ∃ s, Exec (start 0 [.call [] false] fun _ => [.call [] false, .call [] false])
    [.deref 0, .done 0, .deref 1, .done 1, .dropped, .ended, .refused 1] s :=
  ⟨_, .step (.deref rfl rfl rfl rfl) <| .step (.done rfl) <| .step (.deref (t := 1) rfl rfl rfl rfl) <|
    .step (.done (t := 1) rfl) <| .step (.dropped (t := 0) rfl rfl) <| .step (.ended (t := 0) rfl) <|
    .step (.refused (t := 1) rfl rfl rfl rfl) .refl⟩

/-- With a panic inside a callback the lock is poisoned, the pointer stays, and later uses panic: they make no reference. -/
example : ∃ s, Exec (start 0 [.call [] true] fun _ => [.call [] false]) [.deref 0, .done 0, .dropped, .ended, .died 1] s ∧
    s.ptr = true :=
  ⟨_, .step (.deref rfl rfl rfl rfl) <| .step (.done rfl) <| .step (.dropped (t := 0) rfl rfl) <|
    .step (.ended (t := 0) rfl) <| .step (.died (t := 1) rfl rfl rfl) .refl, rfl⟩

/-- **C81, a finding.** A callback that uses the handle it was called from (`n.for_each(lambda c: n.normalized)` on a
`NormalizedStringRefMut`: both borrow the Python object shared, so Python does not refuse) waits for ever, with all that waits
for it: the lock is held by the thread itself. -/
theorem C81_nested_use_hangs : ∃ s, Exec (start 0 [.call [.call [] false] false] fun _ => []) [.deref 0] s ∧
    (∀ e s', ¬ Step s e s') ∧ s.threads 0 ≠ [] := by
  refine ⟨_, .step (.deref (t := 0) rfl rfl rfl rfl) .refl, ?_, by simp [St.go]⟩
  intro e s' hs
  have ht : ∀ t a r, (start 0 [.call [.call [] false] false] fun _ => []).go 0
      ([Op.call [] false].map .op ++ .release false :: [.destroy, .finish]) t = a :: r → a = .op (.call [] false) := by
    intro t a r h
    by_cases h0 : t = 0
    · subst h0; simp [St.go] at h; exact h.1.symm
    · simp [St.go, start, h0] at h
  cases hs with
  | died h1 h2 _ => cases h2
  | refused h1 h2 _ _ => cases h2
  | deref h1 h2 _ _ => cases h2
  | done h1 => have := ht _ _ _ h1; cases this
  | dropped h1 h2 => cases h2
  | ended h1 => have := ht _ _ _ h1; cases this

end Tok.Py
