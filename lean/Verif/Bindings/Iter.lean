import Verif.Tokenizer.Trained

/-!
# C82: training from a Python iterator

Model of `PyBufferedIterator` (`bindings/python/src/utils/iterators.rs:36-136`) and of `train_from_iterator` of the Python
bindings (`bindings/python/src/tokenizer.rs:1786-1830`), on top of `Tokenizer::train` (C63).
-/

namespace Tok.Py

/-- What one call of Python's `next` on the iterator does: an object, or an exception. After the last one of a list of them
comes `StopIteration`, for ever. An iterator that never ends is not modelled. -/
inductive PyStep (ε ο : Type) where
  | item (x : ο)
  | raise (e : ε)

/-- `PyBufferedIterator` (`iterators.rs:45-50`): `iter` is `None` once the end was seen; `src` is what the Python iterator still
has. `converter` and `size` are parameters of the functions. -/
structure Buffered (ε ο τ : Type) where
  live : Bool
  src : List (PyStep ε ο)
  buffer : List (Except ε τ)

variable {ε ο τ : Type}

/-- `PyBufferedIterator::new` (`iterators.rs:67-79`), the object being an iterable. -/
def Buffered.new (src : List (PyStep ε ο)) : Buffered ε ο τ := ⟨true, src, []⟩

/-- The loop of `refill` (`iterators.rs:87-110`): whether the end was not seen, what remains, the buffer, and the exception. -/
def fillLoop (conv : ο → List (Except ε τ)) (size : Nat) : List (PyStep ε ο) → List (Except ε τ) → Buffered ε ο τ × Option ε
  | [], buf => if buf.length ≥ size then (⟨true, [], buf⟩, none) else (⟨false, [], buf⟩, none)
  | .item x :: src, buf =>
    if buf.length ≥ size then (⟨true, .item x :: src, buf⟩, none) else fillLoop conv size src (buf ++ conv x)
  | .raise e :: src, buf =>
    if buf.length ≥ size then (⟨true, .raise e :: src, buf⟩, none) else (⟨true, src, buf⟩, some e)

/-- `refill` (`iterators.rs:81-112`). -/
def Buffered.refill (conv : ο → List (Except ε τ)) (size : Nat) (b : Buffered ε ο τ) : Buffered ε ο τ × Option ε :=
  if b.live then fillLoop conv size b.src b.buffer else (b, none)

/-- `next` (`iterators.rs:122-135`). The function calls itself once after a refill; outer `none`: it goes on calling itself (the
refill changed nothing, which happens for a size of 0). -/
def Buffered.next (conv : ο → List (Except ε τ)) (size : Nat) (b : Buffered ε ο τ) : Option (Option (Except ε τ) × Buffered ε ο τ) :=
  match b.buffer with
  | r :: buf => some (some r, { b with buffer := buf })
  | [] =>
    if b.live then
      match b.refill conv size with
      | (b, some e) => some (some (.error e), b)
      | (b, none) =>
        match b.buffer with
        | r :: buf => some (some r, { b with buffer := buf })
        | [] => if b.live then none else some (none, b)
    else some (none, b)

/-- `next` is called until it gives `None`: what it gave before. -/
inductive Outs (conv : ο → List (Except ε τ)) (size : Nat) : Buffered ε ο τ → List (Except ε τ) → Prop
  | stop {b b'} : b.next conv size = some (none, b') → Outs conv size b []
  | more {b b' r l} : b.next conv size = some (some r, b') → Outs conv size b' l → Outs conv size b (r :: l)

/-! ## Specification -/

/-- All that the iterator gives, in order, as if there were no buffer. -/
def inOrder (conv : ο → List (Except ε τ)) : List (PyStep ε ο) → List (Except ε τ)
  | [] => []
  | .item x :: src => conv x ++ inOrder conv src
  | .raise e :: src => .error e :: inOrder conv src

/-! ## Proofs -/

theorem outs_unique {conv : ο → List (Except ε τ)} {size : Nat} {b : Buffered ε ο τ} {l l' : List (Except ε τ)}
    (h : Outs conv size b l) (h' : Outs conv size b l') : l = l' := by
  induction h generalizing l' with
  | stop h1 =>
    cases h' with
    | stop => rfl
    | more h2 _ => rw [h1] at h2; simp at h2
  | more h1 _ ih =>
    cases h' with
    | stop h2 => rw [h1] at h2; simp at h2
    | more h2 h3 =>
      rw [h1] at h2
      simp only [Option.some.injEq, Prod.mk.injEq] at h2
      obtain ⟨rfl, rfl⟩ := h2
      rw [ih h3]

/-- What a buffered iterator still has to give, as if there were no buffer. -/
def Buffered.all (conv : ο → List (Except ε τ)) (b : Buffered ε ο τ) : List (Except ε τ) :=
  b.buffer ++ if b.live then inOrder conv b.src else []

/-- No exception remains in the iterator. -/
def Quiet (src : List (PyStep ε ο)) : Prop := ∀ e, PyStep.raise e ∉ src

theorem fillLoop_spec (conv : ο → List (Except ε τ)) (size : Nat) : ∀ (src : List (PyStep ε ο)) (buf : List (Except ε τ)),
    ((fillLoop conv size src buf).1.all conv ++ (fillLoop conv size src buf).2.toList.map Except.error).Perm (buf ++ inOrder conv src) ∧
    (Quiet src → (fillLoop conv size src buf).2 = none ∧ Quiet (fillLoop conv size src buf).1.src ∧
      (fillLoop conv size src buf).1.all conv = buf ++ inOrder conv src) ∧
    (fillLoop conv size src buf).1.src.length + (fillLoop conv size src buf).2.toList.length ≤ src.length ∧
    ((fillLoop conv size src buf).2 = none → (fillLoop conv size src buf).1.live = true →
      (fillLoop conv size src buf).1.buffer.length ≥ size)
  | [], buf => by
    rw [fillLoop]
    by_cases h : buf.length ≥ size
    · rw [if_pos h]
      exact ⟨by simp [Buffered.all], fun q => ⟨rfl, q, by simp [Buffered.all]⟩, by simp, fun _ _ => h⟩
    · rw [if_neg h]
      exact ⟨by simp [Buffered.all, inOrder], fun q => ⟨rfl, q, by simp [Buffered.all, inOrder]⟩, by simp, by simp⟩
  | .item x :: src, buf => by
    rw [fillLoop]
    by_cases h : buf.length ≥ size
    · rw [if_pos h]
      exact ⟨by simp [Buffered.all], fun q => ⟨rfl, q, by simp [Buffered.all]⟩, by simp, fun _ _ => h⟩
    · rw [if_neg h]
      obtain ⟨h1, h2, h3, h4⟩ := fillLoop_spec conv size src (buf ++ conv x)
      simp only [inOrder]
      rw [← List.append_assoc]
      exact ⟨h1, fun q => h2 fun e he => q e (List.mem_cons_of_mem _ he),
        Nat.le_trans h3 (by simp), h4⟩
  | .raise e :: src, buf => by
    rw [fillLoop]
    by_cases h : buf.length ≥ size
    · rw [if_pos h]
      exact ⟨by simp [Buffered.all], fun q => ⟨rfl, q, by simp [Buffered.all]⟩, by simp, fun _ _ => h⟩
    · rw [if_neg h]
      refine ⟨?_, fun q => absurd (List.mem_cons_self ..) (q e), by simp, by simp⟩
      simp only [Buffered.all, inOrder, Option.toList_some, List.map_cons, List.map_nil, if_true, List.append_assoc]
      exact List.Perm.append_left _ (List.perm_append_comm.trans (by simp))

/-- What `next` does when the buffer is not empty, or the size is positive. -/
theorem next_spec {conv : ο → List (Except ε τ)} {size : Nat} (hs : 0 < size) (b : Buffered ε ο τ) :
    (∃ b', b.next conv size = some (none, b') ∧ b.all conv = []) ∨
    (∃ r b', b.next conv size = some (some r, b') ∧ (r :: b'.all conv).Perm (b.all conv) ∧
      (Quiet b.src → Quiet b'.src ∧ r :: b'.all conv = b.all conv)) := by
  unfold Buffered.next
  match hb : b.buffer with
  | r :: buf =>
    refine .inr ⟨r, _, rfl, ?_, fun q => ⟨q, ?_⟩⟩ <;> simp [Buffered.all, hb]
  | [] =>
    simp only
    by_cases hl : b.live = true
    · rw [if_pos hl]
      obtain ⟨h1, h2, _, h4⟩ := fillLoop_spec conv size b.src []
      have hall : b.all conv = inOrder conv b.src := by simp [Buffered.all, hb, hl]
      have hr : b.refill conv size = fillLoop conv size b.src [] := by unfold Buffered.refill; rw [if_pos hl, hb]
      rw [hr, hall]
      generalize fillLoop conv size b.src [] = res at h1 h2 h4
      obtain ⟨b', e⟩ := res
      cases e with
      | some e =>
        refine .inr ⟨_, _, rfl, ?_, fun q => ?_⟩
        · simp only [Option.toList_some, List.map_cons, List.map_nil, List.nil_append] at h1
          exact (List.perm_append_comm (l₁ := [Except.error e])).trans h1
        · have := (h2 q).1; cases this
      | none =>
        simp only [Option.toList_none, List.map_nil, List.append_nil, List.nil_append] at h1 h2
        simp only
        match hb' : b'.buffer with
        | r :: buf =>
          simp only
          have hc : b'.all conv = r :: ({ b' with buffer := buf } : Buffered ε ο τ).all conv := by simp [Buffered.all, hb']
          rw [hc] at h1 h2
          exact .inr ⟨r, _, rfl, h1, fun q => ⟨(h2 q).2.1, (h2 q).2.2⟩⟩
        | [] =>
          simp only
          have hl' : ¬ b'.live = true := fun hl' => by
            have := h4 rfl hl'
            simp only [hb', List.length_nil] at this; omega
          rw [if_neg hl']
          refine .inl ⟨_, rfl, ?_⟩
          have hn : b'.all conv = [] := by simp [Buffered.all, hb', hl']
          rw [hn] at h1
          exact List.Perm.eq_nil h1.symm
    · rw [if_neg hl]
      exact .inl ⟨_, rfl, by simp [Buffered.all, hb, hl]⟩

theorem outs_spec {conv : ο → List (Except ε τ)} {size : Nat} (hs : 0 < size) : ∀ (k : Nat) (b : Buffered ε ο τ),
    (b.all conv).length = k → ∃ l, Outs conv size b l ∧ l.Perm (b.all conv) ∧ (Quiet b.src → l = b.all conv)
  | k, b, hk => by
    rcases next_spec (conv := conv) hs b with ⟨b', h1, h2⟩ | ⟨r, b', h1, h2, h3⟩
    · exact ⟨[], .stop h1, by rw [h2], fun _ => h2.symm⟩
    · have hlen := h2.length_eq
      simp only [List.length_cons] at hlen
      match k, hk with
      | 0, hk => omega
      | k + 1, hk =>
        obtain ⟨l, g1, g2, g3⟩ := outs_spec (conv := conv) hs k b' (by omega)
        exact ⟨r :: l, .more h1 g1, (List.Perm.cons r g2).trans h2,
          fun q => by rw [g3 (h3 q).1]; exact (h3 q).2⟩

/-- **C82, nothing is lost or repeated.** Whatever the size of the buffer (not 0): the iterator comes to an end, and each object
and each exception has been given exactly once; if the Python iterator raises nothing, all are given in their order. -/
theorem C82_buffered (conv : ο → List (Except ε τ)) {size : Nat} (hs : 0 < size) (src : List (PyStep ε ο)) :
    ∃ l, (∀ l', Outs conv size (.new src) l' ↔ l' = l) ∧ l.Perm (inOrder conv src) ∧
      ((∀ e, PyStep.raise e ∉ src) → l = inOrder conv src) := by
  obtain ⟨l, h1, h2, h3⟩ := outs_spec (conv := conv) hs _ (.new src) rfl
  have hall : (Buffered.new src : Buffered ε ο τ).all conv = inOrder conv src := by simp [Buffered.all, Buffered.new]
  rw [hall] at h2 h3
  exact ⟨l, fun l' => ⟨fun h => outs_unique h h1, fun h => h ▸ h1⟩, h2, h3⟩

/-- Three objects of two values each through a buffer of three. -/
example : Outs (ε := Unit) (fun x : Nat => [.ok x, .ok (x + 1)]) 3 (.new [.item 1, .item 5, .item 7])
    [.ok 1, .ok 2, .ok 5, .ok 6, .ok 7, .ok 8] :=
  .more rfl <| .more rfl <| .more rfl <| .more rfl <| .more rfl <| .more rfl <| .stop rfl

/-- **C82, a finding.** An exception of the Python iterator comes out *before* the objects that came before it. -/
theorem C82_error_overtakes : Outs (fun x : Nat => [.ok x]) 256 (.new [.item 1, .raise ()]) [.error (), .ok 1] :=
  .more rfl <| .more rfl <| .stop rfl

/-- With a buffer of size 0 the first `next` never returns (the only use has size 256). -/
theorem C82_size_zero : (Buffered.new [.item 1] : Buffered Unit Nat Nat).next (fun x => [.ok x]) 0 = none := rfl

/-! ## `train_from_iterator` -/

/-- An object of the iterator (`tokenizer.rs:1800-1816`): a string (whose text Python may refuse to give), something to iterate
over, with what each of its objects gives as a string, or something else. -/
inductive Element where
  | text (s : Except Unit Str)
  | batch (l : List (Except Unit Str))
  | other

/-- The converter (`tokenizer.rs:1800-1816`). -/
def convert : Element → List (Except Unit Str)
  | .text s => [s]
  | .batch l => l
  | .other => [.error ()]

/-- `train_from_iterator` (`tokenizer.rs:1786-1830`): `given` is what the buffered iterator gives (`Outs`). As in
`trainFromFiles`, an exception is code 0 of `preTok`. -/
def trainFromIterator (t : Tokenizer) (build : List (Str × Nat) → Bool) (norm : AddedVocab.Norm) (group : List Str → Train.Tree)
    (given : List (Except Unit Str)) (trainer : AMap Str Nat → Except EncErr (Tokenizer.NewModel × List AddedToken)) :
    Tokenizer × Except EncErr Unit :=
  let r := t.train build norm (group (Tokenizer.shunt given).1) trainer
  (r.1, if (Tokenizer.shunt given).2.isSome then .error (.preTok 0) else r.2)

/-- The texts of an iterator that raises nothing and gives only strings and batches of strings. -/
def texts : List (PyStep Unit Element) → Option (List Str)
  | [] => some []
  | .item (.text (.ok s)) :: src => (texts src).map (s :: ·)
  | .item (.batch l) :: src => do
    let a ← l.mapM fun | .ok s => some s | .error _ => none
    let b ← texts src
    return a ++ b
  | _ => none

theorem inOrder_texts : ∀ {src : List (PyStep Unit Element)} {ts : List Str}, texts src = some ts →
    inOrder convert src = ts.map .ok ∧ ∀ e, PyStep.raise e ∉ src := by
  have hm : ∀ (l : List (Except Unit Str)) (a : List Str),
      (l.mapM fun | .ok s => some s | .error _ => none) = some a → l = a.map .ok := by
    intro l
    induction l with
    | nil => intro a h; simp at h; subst h; rfl
    | cons x l ih =>
      intro a h
      simp only [List.mapM_cons] at h
      cases x with
      | error e => simp at h
      | ok s =>
        simp only [Option.pure_def, Option.bind_eq_bind, Option.bind_some, Option.bind_eq_some_iff, Option.some.injEq] at h
        obtain ⟨a', h1, rfl⟩ := h
        rw [ih a' h1]; rfl
  intro src
  induction src with
  | nil => intro ts h; simp only [texts, Option.some.injEq] at h; subst h; exact ⟨rfl, by simp⟩
  | cons st src ih =>
    intro ts h
    match st, h with
    | .item (.text (.ok s)), h =>
      simp only [texts, Option.map_eq_some_iff] at h
      obtain ⟨ts', h1, rfl⟩ := h
      obtain ⟨g1, g2⟩ := ih h1
      exact ⟨by simp only [inOrder, convert, g1]; rfl, fun e he => by simpa using g2 e (by simpa using he)⟩
    | .item (.batch l), h =>
      simp only [texts, Option.pure_def, Option.bind_eq_bind, Option.bind_eq_some_iff, Option.some.injEq] at h
      obtain ⟨a, h1, b, h2, rfl⟩ := h
      obtain ⟨g1, g2⟩ := ih h2
      exact ⟨by simp only [inOrder, convert, g1, hm l a h1, List.map_append], fun e he => by simpa using g2 e (by simpa using he)⟩
    | .item (.text (.error _)), h => simp [texts] at h
    | .item .other, h => simp [texts] at h
    | .raise _, h => simp [texts] at h

theorem texts_none : ∀ {src : List (PyStep Unit Element)}, texts src = none → ∃ e, Except.error e ∈ inOrder convert src := by
  have hm : ∀ (l : List (Except Unit Str)), (l.mapM fun | .ok s => some s | .error _ => none) = none →
      ∃ e, Except.error e ∈ l := by
    intro l
    induction l with
    | nil => intro h; simp at h
    | cons x l ih =>
      intro h
      cases x with
      | error e => exact ⟨e, by simp⟩
      | ok s =>
        simp only [List.mapM_cons, Option.pure_def, Option.bind_eq_bind, Option.bind_some, Option.bind_eq_none_iff] at h
        obtain ⟨e, he⟩ := ih (by
          cases hx : (l.mapM fun | Except.ok s => some s | Except.error _ => none) with
          | none => rfl
          | some v => have := h v hx; simp at this)
        exact ⟨e, List.mem_cons_of_mem _ he⟩
  intro src
  induction src with
  | nil => intro h; simp [texts] at h
  | cons st src ih =>
    intro h
    match st, h with
    | .item (.text (.ok s)), h =>
      simp only [texts, Option.map_eq_none_iff] at h
      obtain ⟨e, he⟩ := ih h
      exact ⟨e, by simp [inOrder, he]⟩
    | .item (.batch l), h =>
      cases h1 : (l.mapM fun | Except.ok s => some s | Except.error _ => none) with
      | none => obtain ⟨e, he⟩ := hm l h1; exact ⟨e, by simp [inOrder, convert, he]⟩
      | some a =>
        cases h2 : texts src with
        | none => obtain ⟨e, he⟩ := ih h2; exact ⟨e, by simp [inOrder, he]⟩
        | some b => simp [texts, h1, h2] at h
    | .item (.text (.error e)), h => exact ⟨e, by simp [inOrder, convert]⟩
    | .item .other, h => exact ⟨(), by simp [inOrder, convert]⟩
    | .raise e, h => exact ⟨e, by simp [inOrder]⟩

theorem shunt_ok : ∀ l : List Str, Tokenizer.shunt (ε := Unit) (l.map .ok) = (l, none)
  | [] => rfl
  | a :: l => by simp only [List.map_cons, Tokenizer.shunt, shunt_ok l]

theorem shunt_error {e : ε} : ∀ {l : List (Except ε τ)}, Except.error e ∈ l → (Tokenizer.shunt l).2.isSome = true
  | .error _ :: _, _ => rfl
  | .ok a :: l, h => by
    simp only [Tokenizer.shunt]
    exact shunt_error (e := e) (l := l) (by simpa using h)

/-- **C82, training from a Python iterator** of strings and batches of strings is training with all its texts in order; if
anything in it raises or is not a string, the result is an exception. -/
theorem C82_train (t : Tokenizer) (build : List (Str × Nat) → Bool) (norm : AddedVocab.Norm) (group : List Str → Train.Tree)
    (trainer : AMap Str Nat → Except EncErr (Tokenizer.NewModel × List AddedToken)) (src : List (PyStep Unit Element))
    {given : List (Except Unit Str)} (hg : Outs convert 256 (.new src) given) :
    match texts src with
    | some ts => trainFromIterator t build norm group given trainer = t.train build norm (group ts) trainer
    | none => (trainFromIterator t build norm group given trainer).2 = .error (.preTok 0) := by
  obtain ⟨l, h1, h2, h3⟩ := C82_buffered convert (size := 256) (by decide) src
  obtain rfl := (h1 given).1 hg
  cases ht : texts src with
  | some ts =>
    obtain ⟨g1, g2⟩ := inOrder_texts ht
    simp only [trainFromIterator, h3 g2, g1, shunt_ok]
    rfl
  | none =>
    obtain ⟨e, he⟩ := texts_none ht
    simp only [trainFromIterator, shunt_error (h2.mem_iff.2 he), if_true]

example : texts [.item (.text (.ok "a b".toList)), .item (.batch [.ok "c".toList, .ok "d".toList])]
    = some ["a b".toList, "c".toList, "d".toList] := by decide

/-- **C82, a finding.** If the Python iterator raises, the exception is reported, but the tokenizer has been trained all the
same, and within the first refill of the buffer not even with the texts before the exception: with none. -/
theorem C82_train_error (t : Tokenizer) (build : List (Str × Nat) → Bool) (norm : AddedVocab.Norm)
    (group : List Str → Train.Tree) (trainer : AMap Str Nat → Except EncErr (Tokenizer.NewModel × List AddedToken)) :
    ∃ given, Outs convert 256 (.new [.item (.text (.ok "a b".toList)), .raise ()]) given ∧
      trainFromIterator t build norm group given trainer =
        ((t.train build norm (group []) trainer).1, .error (.preTok 0)) :=
  ⟨[.error (), .ok "a b".toList], .more rfl <| .more rfl <| .stop rfl, rfl⟩

end Tok.Py
