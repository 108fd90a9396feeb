import Verif.Bpe.MergeAll

/-!
# C15, C16, C17: `Word::merge_all` is textbook BPE

The statements only mention `mergeAll` (the code), the input word as a list of `(id, length)` and the
specification of `Bpe/Spec.lean`.
-/

namespace Tok.Bpe

/-! ## the specification determines the result -/

theorem same_length_split {α} {pre pre' r r' : List α} (h : pre ++ r = pre' ++ r')
    (hl : pre.length = pre'.length) : pre = pre' ∧ r = r' :=
  List.append_inj h hl

/-- A textbook step is unique. -/
theorem textbookStep_det {m : MergeFn} {w w1 w2 : List (Nat × Nat)} (h1 : TextbookStep m w w1)
    (h2 : TextbookStep m w w2) : w1 = w2 := by
  cases h1 with
  | mk pre a b post r x hm best =>
    generalize hw : pre ++ a :: b :: post = w at h2
    cases h2 with
    | mk pre' c d post' r' x' hm' best' =>
      have k1 := best _ _ _ _ _ _ hw hm'
      have k2 := best' _ _ _ _ _ _ hw.symm hm
      obtain ⟨rfl, h⟩ := List.append_inj hw (by omega)
      injection h with h3 h
      injection h with h4 h
      subst h3; subst h4; subst h
      rw [hm] at hm'
      injection hm' with hm'
      injection hm' with _ hx
      rw [hx]

theorem irreducible_no_step {m : MergeFn} {w w' : List (Nat × Nat)} (hi : Irreducible m w)
    (h : TextbookStep m w w') : False := by
  cases h with
  | mk pre a b post r x hm best => rw [hi _ _ _ _ rfl] at hm; cases hm

theorem star_cases_head {α} {R : α → α → Prop} {a c : α} (h : Star R a c) :
    a = c ∨ ∃ b, R a b ∧ Star R b c := by
  induction h with
  | refl => exact .inl rfl
  | tail _ h ih =>
    rename_i b c
    right
    rcases ih with rfl | ⟨d, h1, h2⟩
    · exact ⟨_, h, .refl _⟩
    · exact ⟨d, h1, .tail h2 h⟩

/-- C15: textbook BPE has at most one result. -/
theorem C15_textbook_unique {m : MergeFn} {w w1 w2 : List (Nat × Nat)} (h1 : Textbook m w w1)
    (h2 : Textbook m w w2) : w1 = w2 := by
  obtain ⟨s1, i1⟩ := h1
  obtain ⟨s2, i2⟩ := h2
  have walk : ∀ {a b}, Star (TextbookStep m) a b → Star (TextbookStep m) a w2 →
      Star (TextbookStep m) b w2 := by
    intro a b s
    induction s with
    | refl => exact id
    | tail s h ih =>
      intro s2
      rcases star_cases_head (ih s2) with he | ⟨d, h', s'⟩
      · rw [he] at h; exact (irreducible_no_step i2 h).elim
      · rw [textbookStep_det h h']; exact s'
  rcases star_cases_head (walk s1 s2) with he | ⟨_, h', _⟩
  · exact he
  · exact (irreducible_no_step i1 h').elim

/-! ## C15 -/

/-- C15: merging without dropout never panics and yields exactly the result of textbook BPE. -/
theorem C15_merge_all_is_textbook {m : MergeFn} {size : Nat → Nat} (hc : Coherent m size)
    (l : List (Nat × Nat)) (hl : ∀ x ∈ l, x.2 ≠ 0) (coins : Nat → Bool)
    (hcoins : ∀ i, coins i = false) :
    ∃ w', mergeAll m coins (mkWord l) = some w' ∧ Textbook m l (symsOf w') ∧
      ∀ l', Textbook m l l' → l' = symsOf w' := by
  obtain ⟨w', h1, _, h2, _⟩ := mergeAll_spec hc l hl coins
  exact ⟨w', h1, h2 hcoins, fun l' h => C15_textbook_unique h (h2 hcoins)⟩

/-- Merge table used in the examples: `0 1 → 4` (rank 1), `1 2 → 5` (rank 0), `4 2 → 6` (rank 2),
`0 5 → 6` (rank 3), with ids 0..3 of size 1. -/
def sampleMerges : MergeFn := fun a b =>
  if a = 0 ∧ b = 1 then some (1, 4)
  else if a = 1 ∧ b = 2 then some (0, 5)
  else if a = 4 ∧ b = 2 then some (2, 6)
  else if a = 0 ∧ b = 5 then some (3, 6)
  else none

def sampleSize (i : Nat) : Nat := if i = 4 ∨ i = 5 then 2 else if i = 6 then 3 else 1

theorem sample_coherent : Coherent sampleMerges sampleSize where
  pos := by intro i; unfold sampleSize; split <;> (try split) <;> omega
  add := by
    intro a b r x h
    unfold sampleMerges at h
    split at h
    · rename_i h'; obtain ⟨rfl, rfl⟩ := h'; cases h; rfl
    · split at h
      · rename_i h'; obtain ⟨rfl, rfl⟩ := h'; cases h; rfl
      · split at h
        · rename_i h'; obtain ⟨rfl, rfl⟩ := h'; cases h; rfl
        · split at h
          · rename_i h'; obtain ⟨rfl, rfl⟩ := h'; cases h; rfl
          · cases h
  rank := by
    intro a b a' b' r x x' h h'
    unfold sampleMerges at h h'
    split at h <;> split at h' <;> (try split at h) <;> (try split at h') <;> (try split at h) <;>
      (try split at h') <;> (try split at h) <;> (try split at h') <;>
      simp only [Option.some.injEq, Prod.mk.injEq, reduceCtorEq] at h h' <;> omega

example : (mergeAll sampleMerges (fun _ => false) (mkWord [(0, 1), (1, 1), (2, 1), (3, 1), (0, 1), (1, 1)])).map
    symsOf = some [(6, 3), (3, 1), (4, 2)] := by decide

example : ∃ w', mergeAll sampleMerges (fun _ => false) (mkWord [(0, 1), (1, 1), (2, 1), (3, 1)]) = some w' ∧
    Textbook sampleMerges [(0, 1), (1, 1), (2, 1), (3, 1)] (symsOf w') :=
  let ⟨w', h1, h2, _⟩ := C15_merge_all_is_textbook sample_coherent _ (by decide) _ (fun _ => rfl)
  ⟨w', h1, h2⟩

/-! ## C16 -/

/-- The ranges follow each other without gap from `a` to `b`. -/
def TilesFrom : Nat → List Range → Nat → Prop
  | a, [], b => a = b
  | a, r :: rs, b => r.1 = a ∧ r.1 ≤ r.2 ∧ TilesFrom r.2 rs b

theorem offsetsFrom_tiles : ∀ (ls : List Nat) (k : Nat), TilesFrom k (offsetsFrom k ls) (k + ls.sum) := by
  intro ls
  induction ls with
  | nil => intro k; simp [offsetsFrom, TilesFrom]
  | cons n ns ih =>
    intro k
    refine ⟨rfl, by simp, ?_⟩
    have := ih (k + n)
    simpa [Nat.add_assoc] using this

/-- `w'` is obtained by fusing consecutive non-empty groups of `w`; `rel` says how the id of a fused
symbol relates to its group. -/
def Groups (rel : List Nat → Nat → Prop) (w w' : List (Nat × Nat)) : Prop :=
  ∃ gs : List (List (Nat × Nat)), gs.flatten = w ∧ gs.length = w'.length ∧
    ∀ (i : Nat) g s, gs[i]? = some g → w'[i]? = some s →
      g ≠ [] ∧ s.2 = (g.map (·.2)).sum ∧ rel (g.map (·.1)) s.1

theorem groups_refl {rel : List Nat → Nat → Prop} (h1 : ∀ a, rel [a] a) (w : List (Nat × Nat)) :
    Groups rel w w := by
  refine ⟨w.map fun x => [x], ?_, by simp, ?_⟩
  · induction w with
    | nil => rfl
    | cons x xs ih => simp [ih]
  · intro i g s hg hs
    rw [List.getElem?_map, hs] at hg
    cases hg
    exact ⟨by simp, by simp, by simpa using h1 _⟩

theorem groups_step {m : MergeFn} {rel : List Nat → Nat → Prop}
    (h2 : ∀ xs ys a b r x, rel xs a → rel ys b → m a b = some (r, x) → rel (xs ++ ys) x)
    {w w1 w2 : List (Nat × Nat)} (h : Groups rel w w1) (hs : AnyStep m w1 w2) : Groups rel w w2 := by
  obtain ⟨gs, hf, hlen, hg⟩ := h
  cases hs with
  | mk pre a b post r x hm =>
    have hl2 : pre.length + 2 ≤ gs.length := by rw [hlen]; simp
    have hA : gs[pre.length]? = some gs[pre.length] := List.getElem?_eq_getElem _
    have hB : gs[pre.length + 1]? = some gs[pre.length + 1] := List.getElem?_eq_getElem _
    have hsplit : gs = gs.take pre.length ++ gs[pre.length] :: gs[pre.length + 1] ::
        gs.drop (pre.length + 2) := by
      conv => lhs; rw [← List.take_append_drop pre.length gs]
      rw [List.drop_eq_getElem_cons (by omega), List.drop_eq_getElem_cons (by omega)]
    have gA := hg pre.length _ a hA (by simp)
    have gB := hg (pre.length + 1) _ b hB (by
      rw [List.getElem?_append_right (by omega)]; simp)
    generalize hga : gs[pre.length] = ga at *
    generalize hgb : gs[pre.length + 1] = gb at *
    refine ⟨gs.take pre.length ++ (ga ++ gb) :: gs.drop (pre.length + 2), ?_, ?_, ?_⟩
    · rw [← hf]
      conv => rhs; rw [hsplit]
      simp
    · simp at hlen ⊢; omega
    · intro i g s hgi hsi
      have htl : (gs.take pre.length).length = pre.length := by simp; omega
      rcases Nat.lt_trichotomy i pre.length with hi | hi | hi
      · rw [List.getElem?_append_left (by omega)] at hgi hsi
        rw [List.getElem?_take_of_lt hi] at hgi
        exact hg i g s hgi (by rw [List.getElem?_append_left hi]; exact hsi)
      · subst hi
        rw [List.getElem?_append_right (by omega), htl] at hgi
        rw [List.getElem?_append_right (by omega)] at hsi
        simp at hgi hsi
        subst hgi; subst hsi
        refine ⟨by simp [gA.1], by simp [gA.2.1, gB.2.1], ?_⟩
        rw [List.map_append]
        exact h2 _ _ _ _ _ _ gA.2.2 gB.2.2 hm
      · rw [List.getElem?_append_right (by omega), htl] at hgi
        rw [List.getElem?_append_right (by omega)] at hsi
        obtain ⟨k, rfl⟩ : ∃ k, i = pre.length + 1 + k := ⟨i - pre.length - 1, by omega⟩
        have e : pre.length + 1 + k - pre.length = k + 1 := by omega
        rw [e, List.getElem?_cons_succ] at hgi hsi
        rw [List.getElem?_drop] at hgi
        refine hg (pre.length + 1 + k + 1) g s ?_ ?_
        · rw [← hgi]; congr 1; omega
        · rw [List.getElem?_append_right (by omega)]
          have e : pre.length + 1 + k + 1 - pre.length = k + 1 + 1 := by omega
          rw [e, List.getElem?_cons_succ, List.getElem?_cons_succ]; exact hsi

theorem groups_star {m : MergeFn} {rel : List Nat → Nat → Prop} (h1 : ∀ a, rel [a] a)
    (h2 : ∀ xs ys a b r x, rel xs a → rel ys b → m a b = some (r, x) → rel (xs ++ ys) x)
    {w w' : List (Nat × Nat)} (h : Star (AnyStep m) w w') : Groups rel w w' := by
  induction h with
  | refl => exact groups_refl h1 _
  | tail _ hs ih => exact groups_step h2 ih hs

theorem star_lens {m : MergeFn} {w w' : List (Nat × Nat)} (h : Star (AnyStep m) w w') :
    (w'.map (·.2)).sum = (w.map (·.2)).sum ∧ ((∀ x ∈ w, x.2 ≠ 0) → ∀ x ∈ w', x.2 ≠ 0) := by
  induction h with
  | refl => exact ⟨rfl, id⟩
  | tail _ hs ih =>
    cases hs with
    | mk pre a b post r x hm =>
      obtain ⟨ih1, ih2⟩ := ih
      refine ⟨?_, ?_⟩
      · rw [← ih1]; simp; omega
      · intro hw y hy
        have ih2 := ih2 hw
        rcases List.mem_append.1 hy with hy | hy
        · exact ih2 y (by simp [hy])
        · rcases List.mem_cons.1 hy with rfl | hy
          · have := ih2 a (by simp); simp only; omega
          · exact ih2 y (by simp [hy])

/-- C16: whatever the merges and the dropout draws, the offsets of the resulting symbols tile the
word: they start at 0, follow each other, and end at the total length; none is empty. -/
theorem C16_offsets_tile {m : MergeFn} {size : Nat → Nat} (hc : Coherent m size)
    (l : List (Nat × Nat)) (hl : ∀ x ∈ l, x.2 ≠ 0) (coins : Nat → Bool) :
    ∃ w', mergeAll m coins (mkWord l) = some w' ∧
      TilesFrom 0 (offsetsFrom 0 ((symsOf w').map (·.2))) ((l.map (·.2)).sum) ∧
      ∀ x ∈ symsOf w', x.2 ≠ 0 := by
  obtain ⟨w', h1, h2, _, _⟩ := mergeAll_spec hc l hl coins
  obtain ⟨h3, h4⟩ := star_lens h2
  refine ⟨w', h1, ?_, h4 hl⟩
  have := offsetsFrom_tiles ((symsOf w').map (·.2)) 0
  rw [h3, Nat.zero_add] at this
  exact this

/-- C16: each resulting symbol stands for a contiguous, non-empty group of input symbols; its length
is the sum of theirs, and its text is the concatenation of theirs, whenever the merge table
concatenates texts. -/
theorem C16_symbols_are_groups {m : MergeFn} {size : Nat → Nat} (hc : Coherent m size)
    {text : Nat → Str} (htext : ∀ a b r x, m a b = some (r, x) → text x = text a ++ text b)
    (l : List (Nat × Nat)) (hl : ∀ x ∈ l, x.2 ≠ 0) (coins : Nat → Bool) :
    ∃ w', mergeAll m coins (mkWord l) = some w' ∧
      Groups (fun ids x => text x = (ids.map text).flatten) l (symsOf w') := by
  obtain ⟨w', h1, h2, _, _⟩ := mergeAll_spec hc l hl coins
  refine ⟨w', h1, groups_star (by intro a; simp) ?_ h2⟩
  intro xs ys a b r x ha hb hm
  rw [htext _ _ _ _ hm, ha, hb, List.map_append, List.flatten_append]

example : (mergeAll sampleMerges (fun _ => false) (mkWord [(0, 1), (1, 1), (2, 1), (3, 1), (0, 1), (1, 1)])).map
    (fun w => offsetsFrom 0 ((symsOf w).map (·.2))) = some [(0, 3), (3, 4), (4, 6)] := by decide

/-! ## C17 -/

/-- C17: for any outcome of the draws, merging with dropout never panics and every change it makes is
an applicable merge. -/
theorem C17_dropout_legal {m : MergeFn} {size : Nat → Nat} (hc : Coherent m size)
    (l : List (Nat × Nat)) (hl : ∀ x ∈ l, x.2 ≠ 0) (coins : Nat → Bool) :
    ∃ w', mergeAll m coins (mkWord l) = some w' ∧ Star (AnyStep m) l (symsOf w') :=
  let ⟨w', h1, h2, _, _⟩ := mergeAll_spec hc l hl coins
  ⟨w', h1, h2⟩

/-- C17: if every draw skips, nothing is merged. -/
theorem C17_dropout_all {m : MergeFn} {size : Nat → Nat} (hc : Coherent m size)
    (l : List (Nat × Nat)) (hl : ∀ x ∈ l, x.2 ≠ 0) (coins : Nat → Bool) (h : ∀ i, coins i = true) :
    ∃ w', mergeAll m coins (mkWord l) = some w' ∧ symsOf w' = l :=
  let ⟨w', h1, _, _, h2⟩ := mergeAll_spec hc l hl coins
  ⟨w', h1, h2 h⟩

/-- C17: if no draw skips, the result is the one without dropout. -/
theorem C17_dropout_none {m : MergeFn} {size : Nat → Nat} (hc : Coherent m size)
    (l : List (Nat × Nat)) (hl : ∀ x ∈ l, x.2 ≠ 0) (coins : Nat → Bool) (h : ∀ i, coins i = false) :
    ∃ w', mergeAll m coins (mkWord l) = some w' ∧ Textbook m l (symsOf w') :=
  let ⟨w', h1, _, h2, _⟩ := mergeAll_spec hc l hl coins
  ⟨w', h1, h2 h⟩

/-- Dropout with a mixed schedule: the first draw skips, the others do not. -/
example : (mergeAll sampleMerges (fun i => i == 0) (mkWord [(0, 1), (1, 1), (2, 1)])).map symsOf =
    some [(6, 3)] := by decide

example : (mergeAll sampleMerges (fun i => decide (i ≤ 1)) (mkWord [(0, 1), (1, 1), (2, 1)])).map symsOf =
    some [(0, 1), (1, 1), (2, 1)] := by decide

end Tok.Bpe
