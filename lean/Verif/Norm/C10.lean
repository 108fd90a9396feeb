import Verif.Norm.C09

/-!
# Slicing (C10)
-/

namespace Tok
namespace NS

/-- The original of `n` is the part of the whole text at the offsets `n` reports. -/
def Within (whole : Str) (n : NS) : Prop :=
  strGet whole n.offsetsOriginal.1 n.offsetsOriginal.2 = some n.orig

theorem within_iff {whole : Str} {n : NS} :
    n.Within whole ↔ ∃ p q, whole = p ++ n.orig ++ q ∧ blen p = n.shift := by
  unfold Within offsetsOriginal
  rw [strGet_eq_some]
  constructor
  · rintro ⟨p, q, h1, h2, _⟩; exact ⟨p, q, h1, h2⟩
  · rintro ⟨p, q, h1, h2⟩; exact ⟨p, q, h1, h2, by simp only; omega⟩

theorem within_ofStr (s : Str) : (ofStr s).Within s := within_iff.2 ⟨[], [], by simp [ofStr], rfl⟩

theorem within_shift {whole p o q : Str} {n n' : NS} (h : n.Within whole) (ho : n.orig = p ++ o ++ q)
    (h1 : n'.orig = o) (h2 : n'.shift = n.shift + blen p) : n'.Within whole := by
  obtain ⟨x, y, hx, hs⟩ := within_iff.1 h
  exact within_iff.2 ⟨x ++ p, q ++ y, by rw [hx, ho, h1]; simp, by rw [h2, ← hs]; simp⟩

/-- **C10.** A non-empty valid slice of the normalized text: its text is that part, its original is the part
of the original from the first source to the last one, its offsets delimit that part in the whole text,
and its characters keep their sources (relative to the slice). -/
theorem C10_slice_normalized {n : NS} (h : Reachable n) {a b : Nat} {m : Str}
    (hm : strGet n.norm a b = some m) (hne : m ≠ []) :
    ∃ n' s e, n.sliceNormalized (a, b) = some (some n') ∧ n'.norm = m ∧
      n.al[a]? = some s ∧ n.al[b - 1]? = some e ∧ strGet n.orig s.1 e.2 = some n'.orig ∧
      n'.offsetsOriginal = (n.shift + s.1, n.shift + e.2) ∧
      (∀ i, a ≤ i → i < b → (n'.al[i - a]?).map (fun x => (x.1 + s.1, x.2 + s.1)) = n.al[i]?) ∧
      ∀ whole, n.Within whole → n'.Within whole := by
  obtain ⟨hc, ok⟩ := cells_chars (reachable_ok h)
  generalize n.chars = cs at hc ok
  obtain ⟨p0, q0, h1, h2, h3⟩ := strGet_eq_some.1 hm
  have ht := hc.1
  rw [h1] at ht
  obtain ⟨PM, S, rfl, hPM, hS⟩ := text_eq_append ht.symm
  obtain ⟨P, M, rfl, hP, hM⟩ := text_eq_append hPM
  have hMne : M ≠ [] := by rintro rfl; exact hne hM.symm
  obtain ⟨p, o, q, g1, g2, g3, g4, g5⟩ := sliceNormalized_cells hc ok hMne
  have ea : a = blen (text P) := by rw [hP, h2]
  have eb : b = blen (text (P ++ M)) := by rw [text_append, hP, hM]; simp; omega
  have hpos : 0 < blen (text M) := blen_pos (text_ne_nil hMne)
  rw [← ea, ← eb] at g5
  refine ⟨_, (M.head hMne).2, (M.getLast hMne).2, g5, hM, ?_, ?_, ?_, ?_, ?_, ?_⟩
  · obtain ⟨c, M', rfl⟩ := List.exists_cons_of_ne_nil hMne
    rw [hc.2, ea, List.append_assoc, List.cons_append]
    exact expand_get_first
  · rw [hc.2, eb, expand_get_last (by rw [text_append, blen_append]; omega)]
    unfold lastAl
    rw [List.getLast?_append, List.getLast?_eq_some_getLast hMne]
    rfl
  · exact strGet_eq_some.2 ⟨p, q, g1, g2, g3⟩
  · simp only [offsetsOriginal]
    rw [g2] at *
    exact Prod.ext rfl (by simp only; omega)
  · intro i hi1 hi2
    simp only [expand_shiftCells, List.getElem?_map, Option.map_map, Function.comp_def]
    have e1 : n.al[i]? = (expand M)[i - a]? := by
      rw [hc.2, expand_append, expand_append, List.getElem?_append_left (by simp; simp at eb; omega),
        List.getElem?_append_right (by simp; omega)]
      simp [ea]
    rw [e1]
    cases hx : (expand M)[i - a]? with
    | none => rfl
    | some x =>
      obtain ⟨c, hcM, rfl⟩ := mem_expand.1 (List.mem_of_getElem? hx)
      have := g4 c hcM
      have hv := (ok.valid c (by simp [hcM])).1
      rw [g2] at this
      simp only [Option.map_some, Option.some.injEq, g2]
      exact Prod.ext (by simp only; omega) (by simp only; omega)
  · intro whole hw
    exact within_shift hw g1 rfl rfl

/-- **C10.** A range that is not valid gives `None`. -/
theorem C10_slice_invalid {n : NS} {a b : Nat} (hm : strGet n.norm a b = none) :
    n.sliceNormalized (a, b) = some none := by
  unfold sliceNormalized
  split
  · rename_i hb
    have : a > b := by
      rcases Nat.lt_or_ge b a with h | h
      · exact h
      · obtain ⟨p, m, q, h1, h2, h3⟩ := cut_two (isBoundary_iff.1 hb.1) (isBoundary_iff.1 hb.2) h
        rw [strGet_eq_some.2 ⟨p, q, h1, h2, h3⟩] at hm; cases hm
    have hn : n.convertNormalized (a, b) = none := by
      unfold convertNormalized
      rw [if_neg (by simp only; omega), if_pos this]
    rw [hn]
  · rfl

/-- **C10.** A valid slice of the normalized text never panics and always has the right text. -/
theorem C10_slice_text {n : NS} (h : Reachable n) {a b : Nat} {m : Str} (hm : strGet n.norm a b = some m) :
    ∃ n', n.sliceNormalized (a, b) = some (some n') ∧ n'.norm = m := by
  by_cases hne : m = []
  · subst hne
    obtain ⟨p, q, h1, h2, h3⟩ := strGet_eq_some.1 hm
    have hab : a = b := by simp at h3; omega
    subst hab
    have hbd : isBoundary n.norm a = true := isBoundary_iff.2 ⟨p, q, by simpa using h1, h2⟩
    have hal := (C08_wellFormed h).one_per_byte
    have hle := isBoundary_le hbd
    unfold sliceNormalized
    rw [if_pos ⟨hbd, hbd⟩]
    simp only [convertNormalized, if_true]
    unfold sliceWith
    rw [slice?_eq_some (Nat.le_refl _) (by simp only; omega)]
    have : (n.al.take a).drop a = [] := List.drop_of_length_le (by rw [List.length_take]; omega)
    simp only [this, List.all_nil, if_true, hm]
    exact ⟨_, rfl, rfl⟩
  · obtain ⟨n', s, e, h1, h2, _⟩ := C10_slice_normalized h hm hne
    exact ⟨n', h1, h2⟩

/-- "Hé llo" without its space: the slice "él" comes from "é l". -/
example : ∃ n n' : NS, (ofStr "Hé llo".toList).filter (· != ' ') = some n ∧ Reachable n ∧
    n.sliceNormalized (1, 4) = some (some n') ∧ n'.norm = "él".toList ∧ n'.orig = "é l".toList ∧
    n'.offsetsOriginal = (1, 5) ∧ n'.al = [(0, 2), (0, 2), (3, 4)] :=
  ⟨_, _, rfl, .filter (keep := (· != ' ')) (.ofStr "Hé llo".toList) rfl, rfl, by decide⟩

/-- **C10.** A non-empty valid slice by original positions: its original is that part and its offsets
delimit it in the whole text; its text is made of exactly the characters whose source lies in the range.
It is `None` only if not even the first character ends before the end of the range. -/
theorem C10_slice_original {n : NS} (h : Reachable n) (hs : n.Solid) {a b : Nat} {o : Str}
    (ho : strGet n.orig a b = some o) (hne : o ≠ []) :
    (n.sliceOriginal (a, b) = some none ∧ ∀ c ∈ n.chars.head?, b < c.2.2) ∨
    ∃ n', n.sliceOriginal (a, b) = some (some n') ∧ n'.orig = o ∧
      n'.offsetsOriginal = (n.shift + a, n.shift + b) ∧
      n'.chars = (n.chars.filter fun c => decide (a ≤ c.2.1 ∧ c.2.2 ≤ b)).map
        (fun c => (c.1, (c.2.1 - a, c.2.2 - a))) ∧
      ∀ whole, n.Within whole → n'.Within whole := by
  have hsc := (solid_chars h).1 hs
  obtain ⟨hc, ok⟩ := cells_chars (reachable_ok h)
  generalize n.chars = cs at hc ok hsc ⊢
  obtain ⟨p, q, h1, h2, h3⟩ := strGet_eq_some.1 ho
  have hpos := blen_pos hne
  have hb1 : isBoundary n.orig a = true := isBoundary_iff.2 ⟨p, o ++ q, by rw [h1]; simp, h2⟩
  have hb2 : isBoundary n.orig b = true := isBoundary_iff.2 ⟨p ++ o, q, h1, by simpa using h3⟩
  unfold sliceOriginal
  rw [if_pos ⟨hb1, hb2⟩]
  rcases convertOriginal_cells hc (r := (a, b)) (by simp only; omega) with ⟨g, g0⟩ | ⟨A, B, S, rfl, g1, g2, g3, g4, g5⟩
  · left
    rw [g]
    exact ⟨rfl, fun c hcc => Nat.lt_of_not_le (g0 c hcc)⟩
  · right
    rw [g5]
    simp only
    have hord := ok.ordered
    have ordB : B.Pairwise fun x y => RLe x.2 y.2 :=
      (List.pairwise_append.1 (List.pairwise_append.1 hord).1).2.1
    have hlow : ∀ c ∈ B, a ≤ c.2.1 := by
      intro c hcB
      have hB : B ≠ [] := fun h0 => by rw [h0] at hcB; cases hcB
      have h3 := g4 (B.head hB) (by rw [List.head?_eq_some_head hB]; rfl)
      exact Nat.le_trans h3.1 (pairwise_head hB ordB c hcB).1
    have := sliceWith_cells (p := p) (o := o) (q := q) hc h1 fun c hcB =>
      ⟨by rw [h2]; exact hlow c hcB, by
        have := hlow c hcB
        have := (ok.valid c (by simp [hcB])).1
        omega⟩
    rw [h3, h2] at this
    refine ⟨_, this, rfl, ?_, ?_, fun whole hw => within_shift hw h1 rfl (by rw [h2])⟩
    · simp only [offsetsOriginal]; exact Prod.ext rfl (by simp only; omega)
    · rw [chars_of_cells ⟨(text_shiftCells a B).symm, rfl⟩]
      have eA : A.filter (fun c => decide (a ≤ c.2.1 ∧ c.2.2 ≤ b)) = [] := by
        rw [List.filter_eq_nil_iff]
        intro c hcA
        have := g3 c hcA
        have := hsc c (by simp [hcA])
        simp only [decide_eq_true_eq]
        intro ⟨h4, _⟩
        have h5 : c.2.1 ≠ c.2.2 := by omega
        exact g3 c hcA ⟨h4, h5⟩
      have eB : B.filter (fun c => decide (a ≤ c.2.1 ∧ c.2.2 ≤ b)) = B := by
        rw [List.filter_eq_self]
        intro c hcB
        have := hlow c hcB
        have := g1 c (by simp [hcB])
        simp only [decide_eq_true_eq]
        exact ⟨by assumption, this⟩
      have eS : S.filter (fun c => decide (a ≤ c.2.1 ∧ c.2.2 ≤ b)) = [] := by
        rw [List.filter_eq_nil_iff]
        intro c hcS
        have hSne : S ≠ [] := fun h0 => by rw [h0] at hcS; cases hcS
        have h4 := g2 (S.head hSne) (by rw [List.head?_eq_some_head hSne]; rfl)
        have ordS : S.Pairwise fun x y => RLe x.2 y.2 := (List.pairwise_append.1 hord).2.1
        have := (pairwise_head hSne ordS c hcS).2
        simp only [decide_eq_true_eq]
        simp only at h4
        omega
      rw [List.filter_append, List.filter_append, eA, eB, eS]
      simp [shiftCells]

/-- "Hé llo" without its space, cut at the bytes of "é l". -/
example : ∃ n n' : NS, (ofStr "Hé llo".toList).filter (· != ' ') = some n ∧ n.Solid ∧
    n.sliceOriginal (1, 5) = some (some n') ∧ n'.norm = "él".toList ∧ n'.offsetsOriginal = (1, 5) :=
  ⟨_, _, rfl, C09_filter_solid (keep := (· != ' ')) (.ofStr "Hé llo".toList) (C09_ofStr_solid _) rfl, rfl,
    by decide⟩

/-- Operations other than slicing keep the original and its offsets. -/
theorem C10_transform_within {n n' : NS} {r : Range} {ds : List (Char × Int)} {init : Nat} {whole : Str}
    (h : Reachable n) (ht : n.transformRange r ds init = some n') (hw : n.Within whole) : n'.Within whole := by
  obtain ⟨cs, hc, _⟩ := reachable_ok h
  obtain ⟨_, _, _, _, _, _, _, g2, g3⟩ := transformRange_some hc ht
  unfold Within offsetsOriginal at *
  rw [g2, g3]; exact hw

/-- Where it fails: an empty range is taken over to the original as is. After prepending "▁" to "abc", the
empty slice at the end of the text claims the offsets (6, 6) of a text of 3 bytes. -/
theorem C10_empty_slice_offsets_wrong : ∃ n n' : NS, (ofStr "abc".toList).prepend ['▁'] = some n ∧
    n.sliceNormalized (6, 6) = some (some n') ∧ n'.offsetsOriginal = (6, 6) ∧ ¬ n'.Within "abc".toList := by
  refine ⟨_, _, rfl, rfl, rfl, ?_⟩
  unfold Within; decide

end NS
end Tok
