import Verif.Encoding.Props4

/-!
# Merging a list of encodings: tokens, sequence ranges and overflowing parts
-/

namespace Tok

/-- Two lists of one length, related position by position. -/
inductive Each {α β : Type} (R : α → β → Prop) : List α → List β → Prop
  | nil : Each R [] []
  | cons {a b as bs} (h : R a b) (ht : Each R as bs) : Each R (a :: as) (b :: bs)

theorem Each.length {α β : Type} {R : α → β → Prop} {as bs} (h : Each R as bs) :
    as.length = bs.length := by
  induction h with
  | nil => rfl
  | cons _ _ ih => simp [ih]

theorem Each.imp {α β : Type} {R S : α → β → Prop} {as bs} (h : Each R as bs)
    (hs : ∀ a b, R a b → S a b) : Each S as bs := by
  induction h with
  | nil => exact .nil
  | cons h _ ih => exact .cons (hs _ _ h) ih

theorem each_singleton {α β : Type} {R : α → β → Prop} {as : List α} {b : β} :
    Each R as [b] ↔ ∃ a, as = [a] ∧ R a b := by
  constructor
  · intro h
    cases h with
    | cons h ht => cases ht; exact ⟨_, rfl, h⟩
  · rintro ⟨a, rfl, h⟩; exact .cons h .nil

theorem each_two {α β : Type} {R : α → β → Prop} {as : List α} {b c : β} :
    Each R as [b, c] ↔ ∃ a a', as = [a, a'] ∧ R a b ∧ R a' c := by
  constructor
  · intro h
    cases h with
    | cons h ht => cases ht with
      | cons h' ht' => cases ht'; exact ⟨_, _, rfl, h, h'⟩
  · rintro ⟨a, a', rfl, h, h'⟩; exact .cons h (.cons h' .nil)

namespace Encoding

/-- An encoding followed by its overflowing parts. -/
def parts (e : Encoding) : List Encoding := e :: e.overflowing

theorem mem_parts_mergeWith (e p o : Encoding) (g : Bool) :
    o ∈ (e.mergeWith p g).parts ↔ ∃ a ∈ e.parts, ∃ b ∈ p.parts, o = a.mergeWith b g := by
  rw [parts, List.mem_cons, C05_merge_overflow]
  constructor
  · rintro (rfl | ⟨a, b, ha, hb, rfl, _⟩)
    · exact ⟨e, by simp [parts], p, by simp [parts], rfl⟩
    · exact ⟨a, ha, b, hb, rfl⟩
  · rintro ⟨a, ha, b, hb, rfl⟩
    by_cases h : a ∈ e.overflowing ∨ b ∈ p.overflowing
    · exact .inr ⟨a, b, ha, hb, rfl, h⟩
    · left
      simp only [not_or] at h
      simp only [parts, List.mem_cons, h.1, h.2, or_false] at ha hb
      rw [ha, hb]

theorem mem_parts_foldl (g : Bool) : ∀ (es : List Encoding) (acc o : Encoding),
    o ∈ (es.foldl (fun acc s => acc.mergeWith s g) acc).parts ↔
      ∃ a ∈ acc.parts, ∃ cs, Each (fun c e => c ∈ e.parts) cs es ∧
        o = cs.foldl (fun acc s => acc.mergeWith s g) a := by
  intro es
  induction es with
  | nil =>
    intro acc o
    constructor
    · intro h; exact ⟨o, h, [], .nil, rfl⟩
    · rintro ⟨a, ha, cs, hc, rfl⟩
      cases hc; exact ha
  | cons x xs ih =>
    intro acc o
    rw [List.foldl_cons, ih]
    constructor
    · rintro ⟨a, ha, cs, hc, rfl⟩
      obtain ⟨a', ha', b, hb, rfl⟩ := (mem_parts_mergeWith _ _ _ _).1 ha
      exact ⟨a', ha', b :: cs, .cons hb hc, rfl⟩
    · rintro ⟨a, ha, cs, hc, rfl⟩
      cases hc with
      | cons hb hc =>
        exact ⟨_, (mem_parts_mergeWith _ _ _ _).2 ⟨a, ha, _, hb, rfl⟩, _, hc, rfl⟩

/-- **C05 (overflow of a list).** The parts of a merge of several encodings are exactly the merges of
one part of each. -/
theorem C05_merge_list_parts (es : List Encoding) (g : Bool) (o : Encoding) :
    o ∈ (merge es g).parts ↔
      ∃ cs, Each (fun c e => c ∈ e.parts) cs es ∧ o = merge cs g := by
  rw [merge, mem_parts_foldl]
  constructor
  · rintro ⟨a, ha, cs, hc, rfl⟩
    simp [parts, empty] at ha
    subst ha
    exact ⟨cs, hc, rfl⟩
  · rintro ⟨cs, hc, rfl⟩
    exact ⟨empty, by simp [parts], cs, hc, rfl⟩

theorem length_parts_foldl (g : Bool) : ∀ (es : List Encoding) (acc : Encoding),
    (es.foldl (fun acc s => acc.mergeWith s g) acc).parts.length =
      (es.map fun e => e.parts.length).foldl (· * ·) acc.parts.length := by
  intro es
  induction es with
  | nil => intro acc; rfl
  | cons x xs ih =>
    intro acc
    rw [List.foldl_cons, ih, List.map_cons, List.foldl_cons]
    congr 1
    simp only [parts, List.length_cons]
    exact C05_merge_overflow_count acc x g

/-- **C05 (overflow count of a list).** As many parts as there are choices. -/
theorem C05_merge_list_count (es : List Encoding) (g : Bool) :
    (merge es g).parts.length = (es.map fun e => e.parts.length).foldl (· * ·) 1 :=
  length_parts_foldl g es empty

theorem foldl_merge_len (g : Bool) : ∀ (es : List Encoding) (acc : Encoding),
    (es.foldl (fun acc s => acc.mergeWith s g) acc).len = acc.len + (es.map len).sum := by
  intro es
  induction es with
  | nil => intro acc; simp
  | cons x xs ih =>
    intro acc
    rw [List.foldl_cons, ih, mergeWith_len]
    simp [Nat.add_assoc]

/-- The merge of several encodings has as many tokens as they have together. -/
theorem merge_len (es : List Encoding) (g : Bool) : (merge es g).len = (es.map len).sum := by
  rw [merge, foldl_merge_len]; simp [empty, len]

theorem foldl_merge_wf (g : Bool) : ∀ (es : List Encoding) (acc : Encoding), acc.WF →
    (∀ e ∈ es, WF e) → (es.foldl (fun acc s => acc.mergeWith s g) acc).WF := by
  intro es
  induction es with
  | nil => intro acc h _; exact h
  | cons x xs ih =>
    intro acc h hx
    exact ih _ (mergeWith_wf g _ _ _ (Nat.le_refl _) h (hx x List.mem_cons_self))
      (fun y hy => hx y (List.mem_cons_of_mem _ hy))

theorem merge_wf {es : List Encoding} (h : ∀ e ∈ es, WF e) (g : Bool) : (merge es g).WF :=
  foldl_merge_wf g es empty empty_wf h

/-- Where sequence `q` is after laying out encodings from position `n`: the place of the last one
that has it, moved behind those before it. -/
def rangeFrom (q : Nat) : Nat → List Encoding → Option Range
  | _, [] => none
  | n, e :: es =>
    match rangeFrom q (n + e.len) es with
    | some r => some r
    | none => (e.seqRanges.get q).map fun r => (n + r.1, n + r.2)

theorem foldl_merge_ranges (g : Bool) (q : Nat) : ∀ (es : List Encoding) (acc : Encoding),
    (∀ e ∈ es, AMap.WF e.seqRanges) →
    (es.foldl (fun acc s => acc.mergeWith s g) acc).seqRanges.get q =
      match rangeFrom q acc.len es with
      | some r => some r
      | none => acc.seqRanges.get q := by
  intro es
  induction es with
  | nil => intro acc _; rfl
  | cons x xs ih =>
    intro acc h
    rw [List.foldl_cons, ih _ (fun y hy => h y (List.mem_cons_of_mem _ hy)), mergeWith_len,
      C05_merge_ranges _ _ _ _ (h x List.mem_cons_self), rangeFrom]
    cases rangeFrom q (acc.len + x.len) xs with
    | some r => rfl
    | none => cases AMap.get x.seqRanges q <;> rfl

theorem merge_ranges (g : Bool) (q : Nat) (es : List Encoding) (h : ∀ e ∈ es, AMap.WF e.seqRanges) :
    (merge es g).seqRanges.get q = rangeFrom q 0 es := by
  rw [merge, foldl_merge_ranges g q es empty h]
  show (match rangeFrom q 0 es with | some r => some r | none => none) = _
  cases rangeFrom q 0 es <;> rfl

theorem rangeFrom_none {q : Nat} : ∀ {es : List Encoding} {n : Nat},
    (∀ e ∈ es, e.seqRanges.get q = none) → rangeFrom q n es = none := by
  intro es
  induction es with
  | nil => intros; rfl
  | cons x xs ih =>
    intro n h
    rw [rangeFrom, ih (fun y hy => h y (List.mem_cons_of_mem _ hy)), h x List.mem_cons_self]
    rfl

theorem rangeFrom_some {q : Nat} {e : Encoding} {r : Range} {post : List Encoding}
    (he : e.seqRanges.get q = some r) (hp : ∀ x ∈ post, x.seqRanges.get q = none) :
    ∀ (pre : List Encoding) (n : Nat), rangeFrom q n (pre ++ e :: post) =
      some (n + (pre.map len).sum + r.1, n + (pre.map len).sum + r.2) := by
  intro pre
  induction pre with
  | nil =>
    intro n
    rw [List.nil_append, rangeFrom, rangeFrom_none hp, he]
    rfl
  | cons x xs ih =>
    intro n
    rw [List.cons_append, rangeFrom, ih]
    simp [Nat.add_assoc]

end Encoding
end Tok
