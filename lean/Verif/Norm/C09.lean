import Verif.Norm.C08

/-!
# What the operations do to the text (C09)

`chars` pairs each character of the normalized text with its source range. Each theorem gives the text and
the source ranges after an operation, which in particular does not panic, and says that the original is
unchanged. `Ready` (the first character has a non-empty source) is the state an `encode` call starts
from; `C09_pipeline` chains the operations.
-/

namespace Tok
namespace NS

/-- Each character with the alignment of its first byte. -/
def charsFrom : Str → List Range → List (Char × Range)
  | [], _ => []
  | c :: cs, al => (c, al.headD (0, 0)) :: charsFrom cs (al.drop c.utf8Size)

/-- Each character of the normalized text with its source range. -/
def chars (n : NS) : List (Char × Range) := charsFrom n.norm n.al

/-- The first character, if any, has a non-empty source. -/
def Ready (n : NS) : Prop := ∀ a ∈ n.al.head?, a.1 < a.2

/-- Every character has a non-empty source. -/
def Solid (n : NS) : Prop := ∀ a ∈ n.al, a.1 < a.2

theorem charsFrom_cells : ∀ cs : List Cell, charsFrom (text cs) (expand cs) = cs
  | [] => rfl
  | c :: cs => by
    have hpos := c.1.utf8Size_pos
    obtain ⟨k, hk⟩ : ∃ k, c.1.utf8Size = k + 1 := ⟨c.1.utf8Size - 1, by omega⟩
    rw [text_cons, expand_cons, charsFrom, List.drop_left' (by simp), charsFrom_cells cs, hk,
      List.replicate_succ]
    rfl

theorem chars_of_cells {n : NS} {cs : List Cell} (h : n.Cells cs) : n.chars = cs := by
  unfold chars; rw [h.1, h.2]; exact charsFrom_cells cs

/-- The text of a well-formed string is the text of its characters. -/
theorem cells_chars {n : NS} (h : n.Ok) : n.Cells n.chars ∧ CellsOk n.orig n.chars := by
  obtain ⟨cs, h1, h2⟩ := h
  rw [chars_of_cells h1]; exact ⟨h1, h2⟩

theorem norm_eq_text {n : NS} (h : n.Ok) : n.norm = n.chars.map (·.1) := (cells_chars h).1.1

theorem text_ne_nil {cs : List Cell} (h : cs ≠ []) : text cs ≠ [] := by
  intro h0; exact h (by simpa [text] using h0)

theorem expand_head {c : Cell} {cs : List Cell} : (expand (c :: cs)).head? = some c.2 := by
  have hpos := c.1.utf8Size_pos
  obtain ⟨k, hk⟩ : ∃ k, c.1.utf8Size = k + 1 := ⟨c.1.utf8Size - 1, by omega⟩
  rw [expand_cons, hk, List.replicate_succ]; rfl

theorem ready_cells {n : NS} {cs : List Cell} (h : n.Cells cs) (hr : n.Ready) :
    ∀ c ∈ cs.head?, c.2.1 < c.2.2 := by
  intro c hc
  cases cs with
  | nil => cases hc
  | cons d ds =>
    simp only [List.head?_cons, Option.mem_some_iff] at hc; subst hc
    exact hr d.2 (by rw [h.2, expand_head]; rfl)

theorem solid_cells {n : NS} {cs : List Cell} (h : n.Cells cs) :
    n.Solid ↔ ∀ c ∈ cs, c.2.1 < c.2.2 := by
  unfold Solid
  rw [h.2]
  constructor
  · intro hs c hc; exact hs c.2 (mem_expand.2 ⟨c, hc, rfl⟩)
  · intro hs a ha; obtain ⟨c, hc, rfl⟩ := mem_expand.1 ha; exact hs c hc

theorem Solid.ready {n : NS} (h : n.Solid) : n.Ready := fun a ha => h a (List.mem_of_mem_head? ha)

/-- A whole-string transformation of a non-empty string whose first character has a source. -/
theorem transform_cells {n : NS} {cs : List Cell} (hn : n.Cells cs) (ok : CellsOk n.orig cs)
    (hr : ∀ c ∈ cs.head?, c.2.1 < c.2.2) (hne : cs ≠ []) (ds : List (Char × Int)) (init : Nat) :
    n.transform ds init = (cellLoop none (lastAl (0, 0) (cs.take init)) (cs.drop init) ds).map
      fun out => ⟨n.orig, text out, expand out, n.shift⟩ := by
  obtain ⟨c0, ct, rfl⟩ := List.exists_cons_of_ne_nil hne
  have h0 := hr c0 rfl
  have ho : n.orig ≠ [] := by
    intro h
    have := cutAt_le (ok.valid c0 List.mem_cons_self).2.2
    rw [h] at this; simp at this; omega
  rcases transform_range hn ok ho with ⟨h1, _⟩ | ⟨A, B, h1, h2, h3, h4⟩
  · cases h1
  · have hA : A = [] := by
      cases A with
      | nil => rfl
      | cons a A =>
        injection h1 with h1 _
        subst h1
        have := h2 c0 List.mem_cons_self
        omega
    subst hA
    unfold transform transformRangeOriginal
    rw [h4]
    simp only
    rw [h1] at hn ⊢
    have := transformRange_cells (n := n) (P := []) (M := B) (S := []) (r := (0, blen (text B))) (ds := ds)
      (init := init) (by simpa using hn) rfl (by simp)
    simp only [List.nil_append, text_nil, blen_nil] at this ⊢
    rw [this]
    simp

/-- With nothing to write an empty text stays as it is. -/
theorem transform_empty {n : NS} (hn : n.Cells []) (init : Nat) : n.transform [] init = some n := by
  unfold transform transformRangeOriginal
  by_cases ho : n.orig = []
  · have hc : n.convertOriginal (0, blen n.orig) = some (0, 0) := by rw [ho]; rfl
    rw [hc]
    simp only
    have := transformRange_cells (n := n) (P := []) (M := []) (S := []) (r := (0, 0)) (ds := [])
      (init := init) (by simpa using hn) rfl (by simp)
    rw [this]
    simp [cellLoop]
    obtain ⟨h1, h2⟩ := hn
    cases n; simp_all
  · rcases transform_range hn ⟨by simp, .nil⟩ ho with ⟨_, h⟩ | ⟨A, B, h1, _, _, h4⟩
    · rw [h]
    · have : A = [] ∧ B = [] := by simpa using h1.symm
      obtain ⟨rfl, rfl⟩ := this
      rw [h4]
      have := transformRange_cells (n := n) (P := []) (M := []) (S := []) (r := (0, 0)) (ds := [])
        (init := init) (by simpa using hn) rfl (by simp)
      simp only [text_nil, blen_nil, List.append_nil]
      rw [this]
      obtain ⟨h1, h2⟩ := hn
      obtain ⟨o, t, al, sh⟩ := n
      simp only at h1 h2
      subst h1 h2
      rfl

/-! ## filter -/

/-- What `filter` writes, given the last kept character and the number of removed ones since. -/
def filterT (keep : Char → Bool) (lc : Char) : Nat → Str → List (Char × Int)
  | k, [] => [(lc, -(k : Int))]
  | k, x :: xs => if keep x then (lc, -(k : Int)) :: filterT keep x 0 xs else filterT keep lc (k + 1) xs

/-- The end of `filterDest`. -/
def filterEnd (st : FilterSt) : List (Char × Int) × Nat :=
  (match st.last with
    | some lc => st.transforms ++ [(lc, -(st.removed : Int))]
    | none => st.transforms, st.removedStart)

theorem filterDest_eq (keep : Char → Bool) (s : Str) :
    filterDest keep s = filterEnd (s.foldl (filterStep keep) ⟨0, 0, [], none⟩) := rfl

theorem filterFold_some (keep : Char → Bool) : ∀ (s : Str) (k rs : Nat) (tr : List (Char × Int)) (lc : Char),
    filterEnd (s.foldl (filterStep keep) ⟨k, rs, tr, some lc⟩) = (tr ++ filterT keep lc k s, rs)
  | [], k, rs, tr, lc => rfl
  | x :: xs, k, rs, tr, lc => by
    simp only [List.foldl_cons, filterStep, filterT]
    by_cases hx : keep x = true
    · simp only [hx, if_true]
      rw [filterFold_some keep xs 0 rs (tr ++ [(lc, -(k : Int))]) x]; simp
    · simp only [hx]
      exact filterFold_some keep xs (k + 1) rs tr lc

theorem filterFold_none (keep : Char → Bool) : ∀ (a : Str) (k rs : Nat) (tr : List (Char × Int)),
    (∀ x ∈ a, keep x = false) →
    a.foldl (filterStep keep) ⟨k, rs, tr, none⟩ = ⟨k + a.length, rs, tr, none⟩
  | [], k, rs, tr, _ => rfl
  | x :: xs, k, rs, tr, h => by
    rw [List.foldl_cons]
    simp only [filterStep, h x List.mem_cons_self]
    have := filterFold_none keep xs (k + 1) rs tr fun y hy => h y (List.mem_cons_of_mem _ hy)
    simp only [Bool.false_eq_true, if_false]
    rw [this]; simp; omega

theorem filterDest_none {keep : Char → Bool} {s : Str} (h : ∀ x ∈ s, keep x = false) :
    filterDest keep s = ([], 0) := by
  unfold filterDest
  rw [filterFold_none keep s 0 0 [] h]

theorem filterDest_some {keep : Char → Bool} {a b : Str} {c : Char} (h : ∀ x ∈ a, keep x = false)
    (hc : keep c = true) : filterDest keep (a ++ c :: b) = (filterT keep c 0 b, a.length) := by
  rw [filterDest_eq, List.foldl_append, filterFold_none keep a 0 0 [] h, List.foldl_cons]
  simp only [filterStep, hc, if_true]
  rw [filterFold_some keep b 0 (0 + a.length) [] c]; simp

theorem cellLoop_filterT (keep : Char → Bool) : ∀ (rest sk : List Cell) (c : Cell) (prev : Range),
    cellLoop none prev (c :: (sk ++ rest)) (filterT keep c.1 sk.length (text rest))
      = some (c :: rest.filter fun x => keep x.1)
  | [], sk, c, prev => by
    rw [text_nil, filterT, cellLoop_cons, if_neg (by omega)]
    simp [cellLoop]
  | x :: rest, sk, c, prev => by
    rw [text_cons, filterT]
    by_cases hx : keep x.1 = true
    · rw [if_pos hx, cellLoop_cons, if_neg (by omega)]
      have e : (- -(sk.length : Int)).toNat = sk.length := by omega
      simp only
      rw [e, List.drop_left' rfl]
      have := cellLoop_filterT keep rest [] x (lastAl c.2 (List.take sk.length (sk ++ x :: rest)))
      simp only [List.nil_append, List.length_nil] at this
      rw [this]
      simp [hx]
    · rw [if_neg hx]
      have := cellLoop_filterT keep rest (sk ++ [x]) c prev
      simp only [List.append_assoc, List.singleton_append, List.length_append, List.length_singleton] at this
      rw [this]
      simp [hx]

/-- **C09.** `filter` keeps exactly the characters satisfying the predicate, with their sources. -/
theorem C09_filter {n : NS} (h : Reachable n) (hr : n.Ready) (keep : Char → Bool) :
    ∃ n', n.filter keep = some n' ∧ n'.norm = n.norm.filter keep ∧
      n'.chars = n.chars.filter (fun c => keep c.1) ∧ n'.orig = n.orig := by
  obtain ⟨hc, ok⟩ := cells_chars (reachable_ok h)
  generalize n.chars = cs at hc ok ⊢
  have hrc := ready_cells hc hr
  have key : ∃ out, cellLoop none (lastAl (0, 0) (cs.take (filterDest keep n.norm).2))
      (cs.drop (filterDest keep n.norm).2) (filterDest keep n.norm).1 = some out ∧
      out = cs.filter fun c => keep c.1 := by
    rw [hc.1]
    by_cases hex : ∃ x ∈ cs, keep x.1 = true
    · obtain ⟨a, c, b, e, hcut⟩ : ∃ a c b, cs = a ++ c :: b ∧ (∀ x ∈ a, keep x.1 = false) ∧ keep c.1 = true := by
        clear hc ok hrc
        induction cs with
        | nil => obtain ⟨x, hx, _⟩ := hex; cases hx
        | cons y ys ih =>
          by_cases hy : keep y.1 = true
          · exact ⟨[], y, ys, rfl, by simp, hy⟩
          · obtain ⟨x, hx, hk⟩ := hex
            rcases List.mem_cons.1 hx with rfl | hx
            · exact absurd hk hy
            · obtain ⟨a, c, b, rfl, h1, h2⟩ := ih ⟨x, hx, hk⟩
              exact ⟨y :: a, c, b, rfl, by
                intro z hz
                rcases List.mem_cons.1 hz with rfl | hz
                · simpa using hy
                · exact h1 z hz, h2⟩
      subst e
      refine ⟨_, ?_, rfl⟩
      rw [text_append, text_cons, filterDest_some (by
        intro x hx
        obtain ⟨d, hd, rfl⟩ := List.mem_map.1 hx
        exact hcut.1 d hd) hcut.2]
      have hl : (text a).length = a.length := by simp [text]
      simp only [hl, List.drop_left' rfl]
      have := cellLoop_filterT keep b [] c (lastAl (0, 0) (List.take a.length (a ++ c :: b)))
      simp only [List.nil_append, List.length_nil] at this
      rw [this]
      have ha : a.filter (fun x => keep x.1) = [] := by
        rw [List.filter_eq_nil_iff]; intro x hx; simp [hcut.1 x hx]
      simp [ha, hcut.2]
    · have hno : ∀ x ∈ text cs, keep x = false := by
        intro x hx
        obtain ⟨d, hd, rfl⟩ := List.mem_map.1 hx
        cases hk : keep d.1 with
        | false => rfl
        | true => exact absurd ⟨d, hd, hk⟩ hex
      rw [filterDest_none hno]
      refine ⟨[], rfl, ?_⟩
      symm
      rw [List.filter_eq_nil_iff]; intro x hx; exact fun hk => hex ⟨x, hx, hk⟩
  obtain ⟨out, h1, h2⟩ := key
  by_cases hne : cs = []
  · subst hne
    have hd : filterDest keep n.norm = ([], 0) := by rw [hc.1]; rfl
    unfold NS.filter
    rw [hd, transform_empty hc 0]
    exact ⟨n, rfl, by rw [hc.1]; rfl, by rw [chars_of_cells hc]; rfl, rfl⟩
  · unfold NS.filter
    rw [transform_cells hc ok hrc hne, h1]
    subst h2
    refine ⟨_, rfl, ?_, chars_of_cells ⟨rfl, rfl⟩, rfl⟩
    rw [hc.1]
    show (cs.filter fun c => keep c.1).map (·.1) = _
    unfold text
    rw [List.filter_map]
    rfl

/-! ## map, lowercase, uppercase -/

theorem cellLoop_map (f : Char → Char) : ∀ (cs : List Cell) (prev : Range),
    cellLoop none prev cs ((text cs).map fun c => (f c, (0 : Int))) = some (cs.map fun c => (f c.1, c.2))
  | [], prev => rfl
  | c :: cs, prev => by
    rw [text_cons, List.map_cons, cellLoop_cons, if_neg (by omega)]
    simp only [Int.neg_zero, Int.toNat_zero, List.take_zero, List.drop_zero, lastAl_nil]
    rw [cellLoop_map f cs]; rfl

/-- **C09.** `map` rewrites each character in place. -/
theorem C09_map {n : NS} (h : Reachable n) (hr : n.Ready) (f : Char → Char) :
    ∃ n', n.map f = some n' ∧ n'.norm = n.norm.map f ∧
      n'.chars = n.chars.map (fun c => (f c.1, c.2)) ∧ n'.orig = n.orig := by
  obtain ⟨hc, ok⟩ := cells_chars (reachable_ok h)
  generalize n.chars = cs at hc ok ⊢
  by_cases hne : cs = []
  · subst hne
    unfold NS.map
    have hn : n.norm = [] := hc.1
    rw [hn, List.map_nil, transform_empty hc 0]
    exact ⟨n, rfl, by rw [hn]; rfl, by rw [chars_of_cells hc]; rfl, rfl⟩
  · unfold NS.map
    rw [transform_cells hc ok (ready_cells hc hr) hne, hc.1]
    simp only [List.take_zero, List.drop_zero]
    rw [cellLoop_map]
    exact ⟨_, rfl, by simp [text, Function.comp_def], chars_of_cells ⟨rfl, rfl⟩, rfl⟩

theorem cellLoop_insert (s : Str) (prev : Range) (R : List Cell) (ds : List (Char × Int)) (nxt : Option Range) :
    cellLoop nxt prev R ((s.map fun c => (c, (1 : Int))) ++ ds)
      = (cellLoop nxt prev R ds).map ((s.map fun c => (c, prev)) ++ ·) := by
  induction s with
  | nil => simp
  | cons c s ih =>
    rw [List.map_cons, List.cons_append, cellLoop_cons, if_pos (by omega), ih]
    cases cellLoop nxt prev R ds <;> rfl

theorem zipIdx_change (s : Str) (k : Nat) (hk : 0 < k) :
    (s.zipIdx k).map (fun p => (p.1, if p.2 > 0 then (1 : Int) else 0)) = s.map fun c => (c, (1 : Int)) := by
  induction s generalizing k with
  | nil => rfl
  | cons x xs ih =>
    rw [List.zipIdx_cons, List.map_cons, List.map_cons, ih (k + 1) (by omega), if_pos (by simp only; omega)]

theorem cellLoop_mapChars (f : Char → Str) (hf : ∀ c, f c ≠ []) : ∀ (cs : List Cell) (prev : Range),
    cellLoop none prev cs ((text cs).flatMap fun c =>
        (f c).zipIdx.map fun p => (p.1, if p.2 > 0 then (1 : Int) else 0))
      = some (cs.flatMap fun c => (f c.1).map fun x => (x, c.2))
  | [], prev => rfl
  | c :: cs, prev => by
    obtain ⟨x, xs, hx⟩ := List.exists_cons_of_ne_nil (hf c.1)
    rw [text_cons, List.flatMap_cons, hx, List.zipIdx_cons, List.map_cons, zipIdx_change xs _ (by omega),
      List.cons_append, cellLoop_cons]
    simp only [Nat.lt_irrefl, if_false, gt_iff_lt, Int.lt_irrefl, Int.neg_zero, Int.toNat_zero, List.take_zero,
      List.drop_zero, lastAl_nil]
    rw [cellLoop_insert, cellLoop_mapChars f hf cs]
    simp [hx]

/-- **C09.** `lowercase`/`uppercase` replace each character by its (non-empty) image, which gets the
source of the character. -/
theorem C09_mapChars {n : NS} (h : Reachable n) (hr : n.Ready) {f : Char → Str} (hf : ∀ c, f c ≠ []) :
    ∃ n', n.mapChars f = some n' ∧ n'.norm = n.norm.flatMap f ∧
      n'.chars = n.chars.flatMap (fun c => (f c.1).map fun x => (x, c.2)) ∧ n'.orig = n.orig := by
  obtain ⟨hc, ok⟩ := cells_chars (reachable_ok h)
  generalize n.chars = cs at hc ok ⊢
  by_cases hne : cs = []
  · subst hne
    unfold NS.mapChars
    have hn : n.norm = [] := hc.1
    rw [hn, List.flatMap_nil, transform_empty hc 0]
    exact ⟨n, rfl, by rw [hn]; rfl, by rw [chars_of_cells hc]; rfl, rfl⟩
  · unfold NS.mapChars
    rw [transform_cells hc ok (ready_cells hc hr) hne, hc.1]
    simp only [List.take_zero, List.drop_zero]
    rw [cellLoop_mapChars f hf]
    refine ⟨_, rfl, ?_, chars_of_cells ⟨rfl, rfl⟩, rfl⟩
    simp [text, List.map_flatMap, List.flatMap_map, Function.comp_def]

/-- **C09.** `transform` writes exactly the given characters, when it replaces no more than there are. -/
theorem C09_transform {n : NS} (h : Reachable n) (hr : n.Ready) (hne : n.norm ≠ []) {ds : List (Char × Int)}
    {init : Nat} (hf : Fits ds (n.norm.length - init)) :
    ∃ n', n.transform ds init = some n' ∧ n'.norm = ds.map (·.1) ∧ n'.orig = n.orig := by
  obtain ⟨hc, ok⟩ := cells_chars (reachable_ok h)
  generalize n.chars = cs at hc ok
  have hl : n.norm.length = cs.length := by rw [hc.1]; simp [text]
  obtain ⟨out, ho⟩ := cellLoop_of_fits (prev := lastAl (0, 0) (cs.take init)) (R := cs.drop init) (ds := ds)
    (by rw [List.length_drop, ← hl]; exact hf)
  rw [transform_cells hc ok (ready_cells hc hr) (by rintro rfl; exact hne hc.1), ho]
  exact ⟨_, rfl, cellLoop_text ho, rfl⟩

/-! ## prepend, append, clear -/

/-- **C09.** `prepend` puts a non-empty text in front; it gets the source of the first character. -/
theorem C09_prepend {n : NS} (h : Reachable n) {s : Str} (hs : s ≠ []) (hne : n.norm ≠ []) :
    ∃ n' c0 rest, n.chars = c0 :: rest ∧ n.prepend s = some n' ∧ n'.norm = s ++ n.norm ∧
      n'.chars = s.map (fun x => (x, c0.2)) ++ n.chars ∧ n'.orig = n.orig := by
  obtain ⟨hc, ok⟩ := cells_chars (reachable_ok h)
  generalize n.chars = cs at hc ok ⊢
  obtain ⟨c0, rest, rfl⟩ := List.exists_cons_of_ne_nil (l := cs) (by rintro rfl; exact hne hc.1)
  obtain ⟨x, xs, rfl⟩ := List.exists_cons_of_ne_nil hs
  have hnorm : n.norm = c0.1 :: text rest := hc.1
  have key : n.prepend (x :: xs) = some ⟨n.orig, text (((x :: xs).map fun y => (y, c0.2)) ++ c0 :: rest),
      expand (((x :: xs).map fun y => (y, c0.2)) ++ c0 :: rest), n.shift⟩ := by
    unfold NS.prepend
    rw [hnorm]
    simp only
    rw [prependDest_cons, transformRange_cells (P := []) (M := [c0]) (S := rest) (by simpa using hc) rfl (by simp)]
    rw [cellLoop_cons, if_neg (by omega)]
    simp only [List.take_zero, List.drop_zero, Int.neg_zero, Int.toNat_zero, lastAl_nil]
    rw [cellLoop_insert, cellLoop_cons, if_pos (by omega)]
    simp [cellLoop]
  refine ⟨_, c0, rest, rfl, key, ?_, chars_of_cells ⟨rfl, rfl⟩, rfl⟩
  rw [hnorm]; simp [text, Function.comp_def]

/-- **C09.** `append` puts a text behind; it gets the source of the last character, and the empty range
`(0, 0)` when there is none. -/
theorem C09_append {n : NS} (h : Reachable n) (s : Str) :
    ∃ n', n.append s = some n' ∧ n'.norm = n.norm ++ s ∧
      n'.chars = n.chars ++ s.map (fun x => (x, (n.chars.getLast?.map (·.2)).getD (0, 0))) ∧
      n'.orig = n.orig := by
  obtain ⟨hc, ok⟩ := cells_chars (reachable_ok h)
  generalize n.chars = cs at hc ok ⊢
  by_cases hne : cs = []
  · subst hne
    have hn : n.norm = [] := hc.1
    have key : n.append s = some ⟨n.orig, text (s.map fun x => (x, ((0, 0) : Range))),
        expand (s.map fun x => (x, ((0, 0) : Range))), n.shift⟩ := by
      unfold NS.append
      rw [hn]
      simp only [List.getLast?_nil, blen_nil]
      rw [transformRange_cells (P := []) (M := []) (S := []) (by simpa using hc) rfl (by simp)]
      have := cellLoop_insert s (lastAl (0, 0) []) [] [] none
      simp only [List.append_nil, lastAl_nil] at this
      simp [this, cellLoop]
    exact ⟨_, key, by rw [hn]; simp [text, Function.comp_def], chars_of_cells ⟨rfl, rfl⟩, rfl⟩
  · obtain ⟨a, c, rfl⟩ : ∃ a c, cs = a ++ [c] :=
      ⟨cs.dropLast, cs.getLast hne, (List.dropLast_concat_getLast hne).symm⟩
    have hnorm : n.norm = text a ++ [c.1] := by rw [hc.1]; simp
    have key : n.append s = some ⟨n.orig, text (a ++ [c] ++ s.map fun x => (x, c.2)),
        expand (a ++ [c] ++ s.map fun x => (x, c.2)), n.shift⟩ := by
      unfold NS.append
      rw [hnorm]
      simp only [List.getLast?_append, List.getLast?_singleton, Option.some_or, List.dropLast_concat]
      rw [transformRange_cells (P := a) (M := [c]) (S := []) (by simpa using hc) rfl (by simp)]
      rw [cellLoop_cons, if_neg (by omega)]
      simp only [List.drop_zero, Int.neg_zero, Int.toNat_zero, lastAl_nil, List.take_zero]
      have := cellLoop_insert s c.2 [] [] none
      simp only [List.append_nil] at this
      simp only [List.head?_nil, Option.map_none]
      rw [this]
      simp [cellLoop]
    refine ⟨_, key, by rw [hnorm]; simp [text, Function.comp_def], ?_, rfl⟩
    rw [chars_of_cells ⟨rfl, rfl⟩]; simp

/-- **C09.** `clear` empties the text and returns its former length. -/
theorem C09_clear {n : NS} (h : Reachable n) (hr : n.Ready) :
    ∃ n', n.clear = some (n', blen n.norm) ∧ n'.norm = [] ∧ n'.orig = n.orig := by
  obtain ⟨hc, ok⟩ := cells_chars (reachable_ok h)
  generalize n.chars = cs at hc ok
  unfold NS.clear
  by_cases hne : cs = []
  · subst hne
    rw [transform_empty hc]
    exact ⟨n, rfl, hc.1, rfl⟩
  · rw [transform_cells hc ok (ready_cells hc hr) hne]
    exact ⟨_, rfl, rfl, rfl⟩

/-! ## strip -/

theorem takeWhile_eq_take {α} (p : α → Bool) (l : List α) :
    l.takeWhile p = l.take (l.takeWhile p).length := by
  conv => rhs; arg 2; rw [← List.takeWhile_append_dropWhile (p := p) (l := l)]
  rw [List.take_left' rfl]

theorem dropWhile_eq_drop {α} (p : α → Bool) (l : List α) :
    l.dropWhile p = l.drop (l.takeWhile p).length := by
  conv => rhs; arg 2; rw [← List.takeWhile_append_dropWhile (p := p) (l := l)]
  rw [List.drop_left' rfl]

/-- The text without its maximal leading part satisfying `p`. -/
def stripLeft {α} (p : α → Bool) (l : List α) : List α := l.dropWhile p

/-- The text without its maximal trailing part satisfying `p`. -/
def stripRight {α} (p : α → Bool) (l : List α) : List α := (l.reverse.dropWhile p).reverse

theorem stripRight_eq_take {α} (p : α → Bool) (l : List α) :
    stripRight p l = l.take (l.length - (l.reverse.takeWhile p).length) := by
  unfold stripRight
  rw [dropWhile_eq_drop, List.drop_reverse, List.reverse_reverse]

theorem length_le_blen (s : Str) : s.length ≤ blen s := by
  induction s with
  | nil => simp
  | cons c s ih => have := c.utf8Size_pos; simp; omega

theorem cellLoop_strip (X : Nat) (t : Int) (ht : 0 ≤ t) : ∀ (m T : List Cell) (prev : Range) (l : Nat), l + m.length ≤ X + 1 →
    cellLoop none prev (m ++ T) (((text m).zipIdx l).map fun p => (p.1, if p.2 = X then -t else 0)) = some m
  | [], T, prev, l, _ => rfl
  | c :: m, T, prev, l, h => by
    rw [text_cons, List.zipIdx_cons, List.map_cons, cellLoop_cons, if_neg (by simp only; split <;> omega)]
    simp only [List.cons_append]
    by_cases hm : m = []
    · subst hm; simp [cellLoop]
    · have hpos := List.length_pos_iff.2 hm
      rw [if_neg (by simp at h; omega)]
      simp only [Int.neg_zero, Int.toNat_zero, List.take_zero, List.drop_zero, lastAl_nil]
      rw [cellLoop_strip X t ht m T _ (l + 1) (by simp at h; omega)]
      rfl

theorem stripDest_append (a m b : Str) :
    stripDest (a ++ m ++ b) a.length b.length
      = (m.zipIdx a.length).map fun p => (p.1, if p.2 = blen (a ++ m ++ b) - b.length - 1 then -(b.length : Int) else 0) := by
  unfold stripDest
  generalize hX : blen (a ++ m ++ b) - b.length - 1 = X
  have hlen : (a ++ m ++ b).length - b.length = a.length + m.length := by simp; omega
  rw [hlen]
  rw [List.zipIdx_append, List.zipIdx_append, List.filterMap_append, List.filterMap_append]
  have h1 : ((a.zipIdx).filterMap fun p =>
      if p.2 < a.length ∨ p.2 ≥ a.length + m.length then none
      else if p.2 = X then some (p.1, -(b.length : Int)) else some (p.1, 0)) = [] := by
    rw [List.filterMap_eq_nil_iff]
    intro p hp
    have := List.snd_lt_of_mem_zipIdx hp
    rw [if_pos (.inl (by omega))]
  have h3 : ((b.zipIdx (0 + (a ++ m).length)).filterMap fun p =>
      if p.2 < a.length ∨ p.2 ≥ a.length + m.length then none
      else if p.2 = X then some (p.1, -(b.length : Int)) else some (p.1, 0)) = [] := by
    rw [List.filterMap_eq_nil_iff]
    intro p hp
    have := List.le_snd_of_mem_zipIdx hp
    rw [if_pos (.inr (by simp at this; omega))]
  rw [h1, h3]
  simp only [List.nil_append, List.append_nil, Nat.zero_add]
  have h2 : ∀ l : List (Char × Nat), (∀ p ∈ l, a.length ≤ p.2 ∧ p.2 < a.length + m.length) →
      (l.filterMap fun p =>
        if p.2 < a.length ∨ p.2 ≥ a.length + m.length then none
        else if p.2 = X then some (p.1, -(b.length : Int)) else some (p.1, 0))
      = l.map fun p => (p.1, if p.2 = X then -(b.length : Int) else 0) := by
    intro l
    induction l with
    | nil => intro _; rfl
    | cons p l ih =>
      intro hl
      have := hl p List.mem_cons_self
      rw [List.map_cons, ← ih fun q hq => hl q (List.mem_cons_of_mem _ hq), List.filterMap_cons,
        if_neg (by omega)]
      by_cases hp : p.2 = X <;> simp [hp]
  apply h2
  intro p hp
  have g1 := List.snd_lt_of_mem_zipIdx hp
  have g2 := List.le_snd_of_mem_zipIdx hp
  omega

theorem stripDest_all {s : Str} {l t : Nat} (h : s.length ≤ l + t) : stripDest s l t = [] := by
  unfold stripDest
  rw [List.filterMap_eq_nil_iff]
  intro p hp
  have g1 := List.snd_lt_of_mem_zipIdx hp
  rw [if_pos (by omega)]

/-- All characters are removed on the left exactly when all are on the right. -/
theorem takeWhile_all {α} {p : α → Bool} {l : List α} (h : (l.takeWhile p).length = l.length) :
    ∀ x ∈ l, p x = true := by
  intro x hx
  have : l.takeWhile p = l := by
    rw [takeWhile_eq_take, h, List.take_length]
  rw [← this] at hx
  exact (List.all_eq_true.1 (List.all_takeWhile (l := l) (p := p))) x hx

/-- **C09.** `strip`, `lstrip`, `rstrip` remove exactly the maximal leading/trailing whitespace and keep the
other characters with their sources. -/
theorem C09_strip {n : NS} (h : Reachable n) (hr : n.Ready) (ws : Char → Bool) (left right : Bool) :
    ∃ n', n.lrstrip ws left right = some n' ∧
      n'.norm = (bif right then stripRight ws else id) ((bif left then stripLeft ws else id) n.norm) ∧
      n'.chars = (bif right then stripRight (ws ·.1) else id)
        ((bif left then stripLeft (ws ·.1) else id) n.chars) ∧ n'.orig = n.orig := by
  obtain ⟨hc, ok⟩ := cells_chars (reachable_ok h)
  generalize n.chars = cs at hc ok ⊢
  have hrc := ready_cells hc hr
  have hlen : n.norm.length = cs.length := by rw [hc.1]; simp [text]
  -- the same numbers at both levels
  have hL : (n.norm.takeWhile ws).length = (cs.takeWhile (ws ·.1)).length := by
    rw [hc.1]; unfold text; rw [List.takeWhile_map, List.length_map]; rfl
  have hR : (n.norm.reverse.takeWhile ws).length = (cs.reverse.takeWhile (ws ·.1)).length := by
    rw [hc.1]; unfold text; rw [← List.map_reverse, List.takeWhile_map, List.length_map]; rfl
  -- text follows from the characters
  have hT : ∀ out : List Cell, out = (bif right then stripRight (ws ·.1) else id)
        ((bif left then stripLeft (ws ·.1) else id) cs) →
      text out = (bif right then stripRight ws else id) ((bif left then stripLeft ws else id) n.norm) := by
    rintro out rfl
    rw [hc.1]
    cases left <;> cases right <;>
      simp [stripLeft, stripRight, text, List.dropWhile_map, ← List.map_reverse, Function.comp_def]
  generalize hl : (if left = true then (n.norm.takeWhile ws).length else 0) = l
  generalize ht : (if right = true then (n.norm.reverse.takeWhile ws).length else 0) = t
  -- the expected result by positions
  have hspec : (bif right then stripRight (ws ·.1) else id) ((bif left then stripLeft (ws ·.1) else id) cs)
      = (cs.drop l).take (cs.length - t - l) := by
    have e1 : (bif left then stripLeft (fun c : Cell => ws c.1) else id) cs = cs.drop l := by
      cases left with
      | false => simp at hl; subst hl; simp
      | true =>
        simp only [if_true] at hl; subst hl
        simp only [cond_true, stripLeft]; rw [dropWhile_eq_drop, hL]
    rw [e1]
    cases right with
    | false =>
      simp at ht; subst ht
      simp only [cond_false, id]
      rw [List.take_of_length_le (by simp)]
    | true =>
      simp only [if_true] at ht; subst ht
      simp only [cond_true]
      by_cases hfull : (cs.takeWhile fun c => ws c.1).length = cs.length ∧ left = true
      · have hl' : l = cs.length := by rw [← hl, if_pos hfull.2, hL, hfull.1]
        rw [hl', List.drop_length]; simp [stripRight]
      · have hlt : l = 0 ∨ l < cs.length := by
          cases left with
          | false => simp at hl; exact .inl hl.symm
          | true =>
            simp only [if_true] at hl
            have := (List.takeWhile_sublist (fun c : Cell => ws c.1) (l := cs)).length_le
            right
            rw [hL] at hl
            rw [← hl]
            exact Nat.lt_of_le_of_ne this fun h0 => hfull ⟨h0, rfl⟩
        rw [stripRight_eq_take]
        congr 1
        rw [List.length_drop]
        -- the trailing part lies behind the leading part
        have : ((cs.drop l).reverse.takeWhile fun c => ws c.1).length
            = ((cs.reverse).takeWhile fun c => ws c.1).length := by
          rcases hlt with h0 | h0
          · rw [h0]; rfl
          · cases left with
            | false => simp at hl; subst hl; rfl
            | true =>
              simp only [if_true] at hl
              -- the character at `l` is not a whitespace
              have hd := dropWhile_eq_drop (fun c : Cell => ws c.1) cs
              rw [← hL, hl] at hd
              obtain ⟨x, xs, hx⟩ := List.exists_cons_of_ne_nil
                (show cs.drop l ≠ [] by intro h1; have := congrArg List.length h1; simp at this; omega)
              have hx0 : ws x.1 = false := by
                have h2 := List.head?_dropWhile_not (fun c : Cell => ws c.1) cs
                rw [hd, hx] at h2
                simpa using h2
              have e : cs.reverse = (cs.drop l).reverse ++ (cs.take l).reverse := by
                rw [← List.reverse_append, List.take_append_drop]
              rw [e, List.takeWhile_append, if_neg]
              intro h3
              have := takeWhile_all (p := fun c : Cell => ws c.1) h3 x (by rw [hx]; simp)
              simp [hx0] at this
        rw [this, hR]; omega
  unfold NS.lrstrip
  dsimp only
  rw [hl, ht]
  have ht' : t ≤ cs.length := by
    rw [← ht]; split
    · rw [hR]
      have := (List.takeWhile_sublist (fun c : Cell => ws c.1) (l := cs.reverse)).length_le
      simpa using this
    · omega
  have hl' : l ≤ cs.length := by
    rw [← hl]; split
    · rw [hL]
      exact (List.takeWhile_sublist (fun c : Cell => ws c.1) (l := cs)).length_le
    · omega
  by_cases hlt : l > 0 ∨ t > 0
  · rw [if_pos hlt]
    have hne : cs ≠ [] := by rintro rfl; simp at ht' hl'; omega
    rw [transform_cells hc ok hrc hne]
    have key : cellLoop none (lastAl (0, 0) (cs.take l)) (cs.drop l) (stripDest n.norm l t)
        = some ((cs.drop l).take (cs.length - t - l)) := by
      by_cases hall : cs.length ≤ l + t
      · rw [stripDest_all (by omega), show cs.length - t - l = 0 by omega]; simp [cellLoop]
      · generalize hm : (cs.drop l).take (cs.length - t - l) = m
        have e1 : cs.drop l = m ++ cs.drop (cs.length - t) := by
          rw [← hm]
          conv => lhs; rw [← List.take_append_drop (cs.length - t - l) (cs.drop l)]
          rw [List.drop_drop, show l + (cs.length - t - l) = cs.length - t by omega]
        have hmlen : m.length = cs.length - t - l := by rw [← hm]; simp; omega
        have e2 : n.norm = text (cs.take l) ++ text m ++ text (cs.drop (cs.length - t)) := by
          rw [hc.1, ← text_append, ← text_append, List.append_assoc, ← e1, List.take_append_drop]
        have g1 : (text (cs.take l)).length = l := by simp [text]; omega
        have g2 : (text (cs.drop (cs.length - t))).length = t := by simp [text]; omega
        have := stripDest_append (text (cs.take l)) (text m) (text (cs.drop (cs.length - t)))
        rw [g1, g2, ← e2] at this
        rw [this, e1]
        apply cellLoop_strip _ _ (by omega)
        have := length_le_blen n.norm
        omega
    rw [key]
    refine ⟨_, rfl, hT _ hspec.symm, ?_, rfl⟩
    rw [chars_of_cells ⟨rfl, rfl⟩]; exact hspec.symm
  · rw [if_neg hlt]
    have hl0 : l = 0 := by omega
    have ht0 : t = 0 := by omega
    have hs : cs = (bif right then stripRight (ws ·.1) else id)
        ((bif left then stripLeft (ws ·.1) else id) cs) := by
      rw [hspec, hl0, ht0]; simp
    exact ⟨n, rfl, by rw [← hT cs hs, hc.1], by rw [chars_of_cells hc]; exact hs, rfl⟩

/-! ## replace -/

/-- Consecutive pieces of a text as the offsets of a match list, from byte `b` on. -/
def piecesAt : Nat → List (Str × Bool) → Matches
  | _, [] => []
  | b, (p, m) :: ps => ((b, b + blen p), m) :: piecesAt (b + blen p) ps

/-- The expected characters: matched pieces are replaced by the content, which gets the source of the
character before (the last one of the match, if it is not empty). -/
def replacedChars (content : Str) : Range → List (List Cell × Bool) → List Cell
  | _, [] => []
  | prev, (p, false) :: ps => p ++ replacedChars content (lastAl prev p) ps
  | prev, (p, true) :: ps =>
    content.map (fun c => (c, lastAl prev p)) ++ replacedChars content (lastAl prev p) ps

theorem lastAl_append (d : Range) (a b : List Cell) : lastAl d (a ++ b) = lastAl (lastAl d a) b := by
  cases b with
  | nil => simp
  | cons c b => rw [lastAl_append_cons, lastAl_cons]

theorem replaceLoop_pieces {n : NS} (content : Str) : ∀ (ps : List (List Cell × Bool)) (P U : List Cell),
    n.Cells (P ++ U ++ ps.flatMap (·.1)) →
    n.replaceLoop content (blen (text P)) (piecesAt (blen (text (P ++ U))) (ps.map fun p => (text p.1, p.2)))
      = some (text (U ++ replacedChars content (lastAl (0, 0) (P ++ U)) ps),
          expand (U ++ replacedChars content (lastAl (0, 0) (P ++ U)) ps))
  | [], P, U, hn => by
    simp only [List.flatMap_nil, List.append_nil] at hn
    simp only [List.map_nil, piecesAt, replaceLoop, replacedChars, List.append_nil]
    rw [hn.1, text_append, dropBytes_append, hn.2, expand_drop rfl]
    simp only
    rw [if_pos (by simp)]
  | (p, false) :: ps, P, U, hn => by
    simp only [List.map_cons, piecesAt, replaceLoop]
    have := replaceLoop_pieces content ps P (U ++ p) (by simpa [List.append_assoc] using hn)
    rw [← List.append_assoc, text_append (P ++ U), blen_append] at this
    rw [this, replacedChars, lastAl_append, List.append_assoc]
  | (p, true) :: ps, P, U, hn => by
    simp only [List.map_cons, piecesAt, replaceLoop]
    simp only [List.flatMap_cons] at hn
    have g1 : strGet n.norm (blen (text (P ++ U))) (blen (text (P ++ U)) + blen (text p)) = some (text p) :=
      strGet_eq_some.2 ⟨text (P ++ U), text (ps.flatMap (·.1)), by rw [hn.1]; simp, rfl, rfl⟩
    have g2 : strGet n.norm (blen (text P)) (blen (text (P ++ U))) = some (text U) :=
      strGet_eq_some.2 ⟨text P, text (p ++ ps.flatMap (·.1)), by rw [hn.1]; simp, rfl, by simp⟩
    have g3 : slice? n.al (blen (text P)) (blen (text (P ++ U))) = some (expand U) := by
      have := slice_expand (a := P) (b := U) (c := p ++ ps.flatMap (·.1))
      rw [hn.2]; simpa using this
    have g4 : transformLoop n.al (content.map fun c => (c, (1 : Int)))
        (blen (text p) + blen (text (P ++ U))) []
        = some (expand (content.map fun c => (c, lastAl (lastAl (0, 0) (P ++ U)) p))) := by
      have := transformLoop_cells (ds := content.map fun c => (c, (1 : Int))) (P := P ++ U ++ p) (R := [])
        (S := ps.flatMap (·.1)) (off := blen (text p) + blen (text (P ++ U))) (rest := [])
        (by simp; omega) rfl
      rw [hn.2]
      simp only [List.append_nil] at this
      rw [← List.append_assoc, this]
      have h2 := cellLoop_insert content (lastAl (0, 0) (P ++ U ++ p)) [] []
        ((ps.flatMap (·.1)).head?.map (·.2))
      simp only [List.append_nil] at h2
      rw [h2, lastAl_append]; simp [cellLoop]
    have ih := replaceLoop_pieces content ps (P ++ U ++ p) [] (by simpa [List.append_assoc] using hn)
    simp only [List.append_nil, List.nil_append] at ih
    rw [text_append (P ++ U), blen_append] at ih
    rw [g1, g2, g3]
    simp only
    rw [g4]
    simp only
    rw [ih, replacedChars, lastAl_append]
    simp [text, Function.comp_def]

/-- Splits cells like their text. -/
theorem cells_of_pieces : ∀ (ps : List (Str × Bool)) (cs : List Cell), text cs = ps.flatMap (·.1) →
    ∃ qs : List (List Cell × Bool), cs = qs.flatMap (·.1) ∧ ps = qs.map fun p => (text p.1, p.2)
  | [], cs, h => by
    have : cs = [] := by simpa [text] using h
    exact ⟨[], by rw [this]; rfl, rfl⟩
  | (p, m) :: ps, cs, h => by
    rw [List.flatMap_cons] at h
    obtain ⟨a, b, rfl, h1, h2⟩ := text_eq_append h
    obtain ⟨qs, rfl, h4⟩ := cells_of_pieces ps b h2
    exact ⟨(a, m) :: qs, rfl, by simp [h1, h4]⟩

theorem text_replacedChars (content : Str) : ∀ (qs : List (List Cell × Bool)) (prev : Range),
    text (replacedChars content prev qs) = qs.flatMap fun p => if p.2 then content else text p.1
  | [], _ => rfl
  | (p, false) :: qs, prev => by simp [replacedChars, text_replacedChars content qs]
  | (p, true) :: qs, prev => by
    rw [replacedChars, text_append, text_replacedChars content qs]; simp [text, Function.comp_def]

/-- **C09.** `replace` substitutes every match by the content and leaves the rest, with its sources, as it
is. -/
theorem C09_replace {n : NS} (h : Reachable n) {ps : List (Str × Bool)} (hps : n.norm = ps.flatMap (·.1))
    (content : Str) :
    ∃ n', n.replace (piecesAt 0 ps) content = some n' ∧
      n'.norm = ps.flatMap (fun p => if p.2 then content else p.1) ∧ n'.orig = n.orig ∧
      ∃ qs : List (List Cell × Bool), n.chars = qs.flatMap (·.1) ∧
        ps = qs.map (fun p => (p.1.map (·.1), p.2)) ∧ n'.chars = replacedChars content (0, 0) qs := by
  obtain ⟨hc, ok⟩ := cells_chars (reachable_ok h)
  generalize n.chars = cs at hc ok ⊢
  obtain ⟨qs, rfl, rfl⟩ := cells_of_pieces ps cs (by rw [← hps, hc.1])
  have := replaceLoop_pieces content qs [] [] (by simpa using hc)
  simp only [List.nil_append, text_nil, blen_nil, lastAl_nil] at this
  unfold NS.replace
  rw [this]
  refine ⟨_, rfl, ?_, rfl, qs, rfl, rfl, chars_of_cells ⟨rfl, rfl⟩⟩
  show text _ = _
  rw [text_replacedChars, List.flatMap_map]

/-! ## the operations keep the string ready for the next one -/

theorem solid_chars {n : NS} (h : Reachable n) : n.Solid ↔ ∀ c ∈ n.chars, c.2.1 < c.2.2 :=
  solid_cells (cells_chars (reachable_ok h)).1

theorem C09_ofStr_solid (s : Str) : (ofStr s).Solid := by
  rw [solid_cells (ofStr_cells s)]
  intro c hc
  exact ((initCells_ok s 0).1 c hc).2.1

theorem C09_filter_solid {n n' : NS} {keep : Char → Bool} (h : Reachable n) (hs : n.Solid)
    (he : n.filter keep = some n') : n'.Solid := by
  obtain ⟨m, h1, _, h3, _⟩ := C09_filter h hs.ready keep
  rw [h1] at he; injection he with he; subst he
  rw [solid_chars (.filter h h1), h3]
  intro c hc
  exact (solid_chars h).1 hs c (List.mem_filter.1 hc).1

theorem C09_map_solid {n n' : NS} {f : Char → Char} (h : Reachable n) (hs : n.Solid)
    (he : n.map f = some n') : n'.Solid := by
  obtain ⟨m, h1, _, h3, _⟩ := C09_map h hs.ready f
  rw [h1] at he; injection he with he; subst he
  rw [solid_chars (.map h h1), h3]
  intro c hc
  obtain ⟨d, hd, rfl⟩ := List.mem_map.1 hc
  exact (solid_chars h).1 hs d hd

theorem C09_mapChars_solid {n n' : NS} {f : Char → Str} (hf : ∀ c, f c ≠ []) (h : Reachable n) (hs : n.Solid)
    (he : n.mapChars f = some n') : n'.Solid := by
  obtain ⟨m, h1, _, h3, _⟩ := C09_mapChars h hs.ready hf
  rw [h1] at he; injection he with he; subst he
  rw [solid_chars (.mapChars h h1), h3]
  intro c hc
  obtain ⟨d, hd, hc⟩ := List.mem_flatMap.1 hc
  obtain ⟨x, _, rfl⟩ := List.mem_map.1 hc
  exact (solid_chars h).1 hs d hd

theorem C09_prepend_solid {n n' : NS} {s : Str} (hne : s ≠ []) (h : Reachable n) (hs : n.Solid)
    (he : n.prepend s = some n') : n'.Solid := by
  by_cases hn : n.norm = []
  · unfold NS.prepend at he; rw [hn] at he; injection he with he; subst he; exact hs
  · obtain ⟨m, c0, rest, h0, h1, _, h3, _⟩ := C09_prepend h hne hn
    rw [h1] at he; injection he with he; subst he
    rw [solid_chars (.prepend h h1), h3]
    intro c hc
    rcases List.mem_append.1 hc with hc | hc
    · obtain ⟨x, _, rfl⟩ := List.mem_map.1 hc
      exact (solid_chars h).1 hs c0 (by rw [h0]; simp)
    · exact (solid_chars h).1 hs c hc

theorem C09_append_solid {n n' : NS} {s : Str} (hn : n.norm ≠ []) (h : Reachable n) (hs : n.Solid)
    (he : n.append s = some n') : n'.Solid := by
  obtain ⟨m, h1, _, h3, _⟩ := C09_append h s
  rw [h1] at he; injection he with he; subst he
  rw [solid_chars (.append h h1), h3]
  intro c hc
  rcases List.mem_append.1 hc with hc | hc
  · exact (solid_chars h).1 hs c hc
  · obtain ⟨x, _, rfl⟩ := List.mem_map.1 hc
    have hne : n.chars ≠ [] := fun h0 => hn (by rw [norm_eq_text (reachable_ok h), h0]; rfl)
    rw [List.getLast?_eq_some_getLast hne]
    exact (solid_chars h).1 hs (n.chars.getLast hne) (List.getLast_mem hne)

theorem C09_strip_solid {n n' : NS} {ws : Char → Bool} {l r : Bool} (h : Reachable n) (hs : n.Solid)
    (he : n.lrstrip ws l r = some n') : n'.Solid := by
  obtain ⟨m, h1, _, h3, _⟩ := C09_strip h hs.ready ws l r
  rw [h1] at he; injection he with he; subst he
  rw [solid_chars (.lrstrip h h1), h3]
  intro c hc
  refine (solid_chars h).1 hs c ?_
  have hsub : ∀ c : Cell, ∀ l : List Cell, c ∈ l.dropWhile (ws ·.1) → c ∈ l :=
    fun c l hc => (List.dropWhile_sublist _).mem hc
  have hR : ∀ c : Cell, ∀ l : List Cell, c ∈ stripRight (ws ·.1) l → c ∈ l := fun c l hc => by
    unfold stripRight at hc
    exact List.mem_reverse.1 (hsub c l.reverse (List.mem_reverse.1 hc))
  cases l <;> cases r <;> simp only [cond_true, cond_false, id] at hc
  · exact hc
  · exact hR _ _ hc
  · exact hsub _ _ hc
  · exact hsub _ _ (hR _ _ hc)

theorem C09_replace_solid {n n' : NS} {ps : List (Str × Bool)} {content : Str} (h : Reachable n) (hs : n.Solid)
    (hps : n.norm = ps.flatMap (·.1)) (hfirst : ∀ p ∈ ps.head?, p.1 ≠ [])
    (he : n.replace (piecesAt 0 ps) content = some n') : n'.Solid := by
  obtain ⟨m, h1, _, _, qs, h4, h5, h6⟩ := C09_replace h hps content
  rw [h1] at he; injection he with he; subst he
  rw [solid_chars (.replace h h1), h6]
  have hq : ∀ q ∈ qs, ∀ c ∈ q.1, c.2.1 < c.2.2 := fun q hq c hc =>
    (solid_chars h).1 hs c (by rw [h4]; exact List.mem_flatMap.2 ⟨q, hq, hc⟩)
  have key : ∀ (qs : List (List Cell × Bool)) (prev : Range), (∀ q ∈ qs, ∀ c ∈ q.1, c.2.1 < c.2.2) →
      (prev.1 < prev.2 ∨ ∀ q ∈ qs.head?, q.1 ≠ []) → ∀ c ∈ replacedChars content prev qs, c.2.1 < c.2.2 := by
    intro qs
    induction qs with
    | nil => intro _ _ _ c hc; cases hc
    | cons q qs ih =>
      intro prev hall hprev c hc
      have hlast : (lastAl prev q.1).1 < (lastAl prev q.1).2 := by
        rcases hprev with hp | hp
        · rcases lastAl_spec prev q.1 with e | ⟨d, hd, e⟩
          · rw [e]; exact hp
          · rw [e]; exact hall q List.mem_cons_self d hd
        · have hne := hp q rfl
          unfold lastAl
          rw [List.getLast?_eq_some_getLast hne]
          exact hall q List.mem_cons_self _ (List.getLast_mem hne)
      have ih' := ih (lastAl prev q.1) (fun x hx => hall x (List.mem_cons_of_mem _ hx)) (.inl hlast)
      obtain ⟨p, b⟩ := q
      cases b with
      | false =>
        rw [replacedChars] at hc
        rcases List.mem_append.1 hc with hc | hc
        · exact hall _ List.mem_cons_self c hc
        · exact ih' c hc
      | true =>
        rw [replacedChars] at hc
        rcases List.mem_append.1 hc with hc | hc
        · obtain ⟨x, _, rfl⟩ := List.mem_map.1 hc; exact hlast
        · exact ih' c hc
  refine key qs (0, 0) hq (.inr ?_)
  intro q hqh hq0
  cases qs with
  | nil => cases hqh
  | cons q' qs =>
    simp only [List.head?_cons, Option.mem_some_iff] at hqh; subst hqh
    exact hfirst (q'.1.map (·.1), q'.2) (by rw [h5]; rfl) (by rw [hq0]; rfl)

/-- **C09**, a whole chain as a tokenizer uses it: strip, lowercase, replace nothing or all spaces, prepend;
on the text level it is the composition of the pure functions, whatever the input. -/
theorem C09_pipeline (s : Str) (ws : Char → Bool) (lower : Char → Str) (hl : ∀ c, lower c ≠ [])
    (keep : Char → Bool) (pre : Str) (hp : pre ≠ []) :
    ∃ a b c d, (ofStr s).lrstrip ws true true = some a ∧ a.mapChars lower = some b ∧
      b.filter keep = some c ∧ c.prepend pre = some d ∧ d.orig = s ∧
      d.norm = (let t := ((stripRight ws (stripLeft ws s)).flatMap lower).filter keep
                if t = [] then [] else pre ++ t) := by
  have r0 := Reachable.ofStr s
  have s0 := C09_ofStr_solid s
  obtain ⟨a, ha, ta, _, oa⟩ := C09_strip r0 s0.ready ws true true
  have ra := Reachable.lrstrip r0 ha
  have sa := C09_strip_solid r0 s0 ha
  obtain ⟨b, hb, tb, _, ob⟩ := C09_mapChars ra sa.ready hl
  have rb := Reachable.mapChars ra hb
  have sb := C09_mapChars_solid hl ra sa hb
  obtain ⟨c, hc, tc, _, oc⟩ := C09_filter rb sb.ready keep
  have rc := Reachable.filter rb hc
  have e : c.norm = ((stripRight ws (stripLeft ws s)).flatMap lower).filter keep := by
    rw [tc, tb, ta]; rfl
  by_cases hn : c.norm = []
  · refine ⟨a, b, c, c, ha, hb, hc, ?_, by rw [oc, ob, oa]; rfl, ?_⟩
    · unfold NS.prepend; rw [hn]
    · simp only; rw [← e, if_pos hn, hn]
  · obtain ⟨d, _, _, _, hd, td, _, od⟩ := C09_prepend rc hp hn
    refine ⟨a, b, c, d, ha, hb, hc, hd, by rw [od, oc, ob, oa]; rfl, ?_⟩
    simp only; rw [← e, if_neg hn, td]

/-- A run of it. -/
example : ∃ a b c d, (ofStr " Hé İ ".toList).lrstrip (· == ' ') true true = some a ∧
    a.mapChars (fun c => if c = 'H' then ['h'] else if c = 'İ' then ['i', '\u0307'] else [c]) = some b ∧
    b.filter (· != ' ') = some c ∧ c.prepend ['▁'] = some d ∧ d.norm = "▁héi\u0307".toList ∧
    d.chars.map (·.2) = [(1, 2), (1, 2), (2, 4), (5, 7), (5, 7)] := by
  refine ⟨_, _, _, _, rfl, rfl, rfl, rfl, ?_⟩
  decide

/-- `replace` on "a-b--": pieces `a`, `-`, `b`, `-`, `-`. -/
example : ∃ n', (ofStr "a-b--".toList).replace
      (piecesAt 0 [(['a'], false), (['-'], true), (['b'], false), (['-'], true), (['-'], true)]) "<>".toList
      = some n' ∧ n'.norm = "a<>b<><>".toList ∧ (ofStr "a-b--".toList).Ready :=
  ⟨_, rfl, rfl, (C09_ofStr_solid _).ready⟩

/-! ## where it fails: operations leaving a first character without source -/

/-- Prepending an empty text gives the first character an empty source; then `lowercase` panics. -/
theorem C09_prepend_empty_then_lowercase_panics : ∃ n : NS, (ofStr "abc".toList).prepend [] = some n ∧
    n.norm = "abc".toList ∧ n.mapChars (fun c => [c]) = none := ⟨_, rfl, rfl, rfl⟩

/-- Replacing an empty match at the start (`^` by `▁`), then `lowercase`, panics too. -/
theorem C09_replace_empty_then_lowercase_panics : ∃ n : NS,
    (ofStr "abc".toList).replace (piecesAt 0 [([], true), ("abc".toList, false)]) ['▁'] = some n ∧
    n.norm = "▁abc".toList ∧ n.mapChars (fun c => [c]) = none := ⟨_, rfl, rfl, rfl⟩

/-- After appending to an empty text, `lowercase` duplicates the text. -/
theorem C09_append_to_empty_then_lowercase_duplicates : ∃ n n' : NS, (ofStr []).append "abc".toList = some n ∧
    n.mapChars (fun c => [c]) = some n' ∧ n'.norm = "abcabc".toList := by
  refine ⟨_, _, rfl, rfl, rfl⟩

end NS
end Tok
