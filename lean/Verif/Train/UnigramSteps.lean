import Verif.Train.UnigramLoop

/-!
# C61: what each step of Unigram training does

M step, choice of alternatives, pruning and seeds, each told in terms of segmentations (`Verif.Unigram.Pieces`) of the
sentences and pieces.
-/

namespace Tok.Train

open Tok.Unigram

/-! ### The M step -/

/-- **C61, M step.** Of the pieces, those stay whose expected count is at least one half, in order. The score of each is the
digamma of its count minus the digamma of the sum of the counts of those that stay. -/
theorem C61_mstep {dg : Rat → Rat} {rest out : List Scored} {ex : List Rat} (h : mStep dg rest ex = some out) :
    ∃ keep : List (Scored × Rat), keep = (rest.zip ex.tail).filter (fun p => 1 / 2 ≤ p.2) ∧ rest.length = ex.tail.length ∧
      out = keep.map fun p => (p.1.1, dg p.2 - dg (keep.map (·.2)).sum) := by
  unfold mStep at h
  split at h
  · cases h
  rename_i hl
  have hl : rest.length = ex.tail.length := by simp; omega
  cases h
  refine ⟨_, rfl, hl, ?_⟩
  have hz : ∀ (a : List Rat) (b : List Scored), (a.zip b).filter (fun p => decide (¬ p.1 < 1 / 2)) =
      ((b.zip a).filter (fun p => decide (1 / 2 ≤ p.2))).map fun p => (p.2, p.1) := by
    intro a
    induction a with
    | nil => intro b; simp
    | cons x a ih =>
      intro b
      cases b with
      | nil => simp
      | cons y b =>
        simp only [List.zip_cons_cons, List.filter_cons]
        by_cases hx : 1 / 2 ≤ x
        · rw [if_pos (by simpa using Rat.not_lt.2 hx), if_pos (by simpa using hx), ih]
          rfl
        · rw [if_neg (by simpa using Rat.not_le.1 hx), if_neg (by simpa using hx), ih]
  simp only [hz, List.map_map, Function.comp_def]

/-- The first piece is expected once, the second too seldom. -/
example : mStep (fun x => x) [(['a'], 0), (['b'], 0), (['c'], 0)] [0, 1, 1 / 4, 2] = some [(['a'], -2), (['c'], -1)] := by
  decide +kernel

/-! ### Segmentations and paths -/

/-- The vocabulary during training: the unknown piece first. -/
def trainVocab (rest : List Scored) : List (Str × Rat) := (unkPiece, notMin rest) :: rest

/-- A segmentation of `s` into pieces of `rest` and unknown characters. -/
abbrev TSeg (rest : List Scored) (m : Rat) (s : Str) (xs : List Piece) : Prop := Seg (trainVocab rest) (some 0) m s xs

/-- One with the best score. -/
def BestSeg (rest : List Scored) (m : Rat) (s : Str) (xs : List Piece) : Prop :=
  TSeg rest m s xs ∧ ∀ ys, TSeg rest m s ys → score ys ≤ score xs

/-- The ids of the pieces. -/
def pieceIds (xs : List Piece) : List Nat := xs.filterMap (·.id)

section
variable {rest : List Scored} {u : Unigram} (hu : trainingModel rest = .ok u) {m : Rat} (hm : IsMinScore (trainVocab rest) m)

include hu in
theorem trainMade : Made (trainVocab rest) (some 0) u := made_of_from hu

theorem edgesOf_length {E : List Edge} : ∀ (is : List Nat) (p q : Nat), IdxPath E p q is → (edgesOf E is).length = is.length
  | [], _, _, _ => rfl
  | i :: is, p, q, ⟨e, h1, _, h3⟩ => by
    have := edgesOf_length is _ _ h3
    simp [edgesOf, h1] at this ⊢
    exact this

theorem nodeIds_path {s : Str} {E : List Edge} {L : Lattice} (hL : IsLattice s E L) : ∀ (is : List Nat) (p q : Nat),
    IdxPath E p q is → nodeIds L (is.map (· + 2)) = (edgesOf E is).map fun e => e.id.getD 0
  | [], _, _, _ => rfl
  | i :: is, p, q, ⟨e, h1, _, h3⟩ => by
    have ih := nodeIds_path hL is _ _ h3
    unfold nodeIds edgesOf at *
    simp only [List.map_cons, List.filterMap_cons, hL.node i e h1, h1, Option.map_some, ih, List.map_cons]

theorem layout_ids : ∀ (xs : List Piece) (pos : Nat), (∀ x ∈ xs, ∃ i, x.id = some i) →
    (layout pos xs).map (fun e => e.id.getD 0) = pieceIds xs
  | [], _, _ => rfl
  | x :: xs, pos, h => by
    obtain ⟨i, hi⟩ := h x (by simp)
    have := layout_ids xs (pos + blen x.text) (fun y hy => h y (by simp [hy]))
    simp only [layout, List.map_cons, this, pieceIds, List.filterMap_cons, hi, Option.getD_some]

theorem seg_ids {s : Str} {xs : List Piece} (h : TSeg rest m s xs) : ∀ x ∈ xs, ∃ i, x.id = some i := by
  intro x hx
  rcases h.2 x hx with ⟨-, i, hi, -⟩ | ⟨-, -, -, hi, -⟩
  · exact ⟨i, hi⟩
  · exact ⟨0, hi⟩

theorem layout_length : ∀ (xs : List Piece) (pos : Nat), (layout pos xs).length = xs.length
  | [], _ => rfl
  | x :: xs, pos => by simp [layout, layout_length xs]

include hu hm

/-- A path through the lattice is a segmentation. -/
theorem seg_of_idx {s : Str} {L : Lattice} (hL : IsLattice s (u.edgesFrom 0 s) L) {is : List Nat}
    (h : IdxPath (u.edgesFrom 0 s) 0 (blen s) is) :
    ∃ xs, TSeg rest m s xs ∧ score xs = idxTotal (u.edgesFrom 0 s) is ∧ xs.length = is.length ∧
      nodeIds L (is.map (· + 2)) = pieceIds xs ∧ layout 0 xs = edgesOf (u.edgesFrom 0 s) is := by
  obtain ⟨h1, h2, -⟩ := edgesOf_spec is _ _ h
  obtain ⟨xs, g1, g2⟩ := (trainMade hu).seg_of_path hm (s := s) _ [] s rfl h1
  have g2 : layout 0 xs = edgesOf (u.edgesFrom 0 s) is := g2
  refine ⟨xs, g1, ?_, ?_, ?_, g2⟩
  · rw [← h2, ← g2, total_layout]
  · rw [← edgesOf_length is _ _ h, ← g2, layout_length]
  · rw [nodeIds_path hL is _ _ h, ← g2, layout_ids xs 0 (seg_ids g1)]

/-- And the other way round. -/
theorem idx_of_seg {s : Str} {xs : List Piece} (h : TSeg rest m s xs) :
    ∃ is, IdxPath (u.edgesFrom 0 s) 0 (blen s) is ∧ layout 0 xs = edgesOf (u.edgesFrom 0 s) is ∧
      score xs = idxTotal (u.edgesFrom 0 s) is := by
  have hp := (trainMade hu).path_of_seg hm (s := s) xs [] (by simp [h.1]) h.2
  obtain ⟨is, h1, h2⟩ := exists_idxPath _ _ _ hp
  have h1 : IdxPath (u.edgesFrom 0 s) 0 (blen s) is := h1
  refine ⟨is, h1, h2.symm, ?_⟩
  rw [← (edgesOf_spec is _ _ h1).2.1, h2, total_layout]

omit hu hm in
theorem seg_eq_of_idx {s : Str} {xs ys : List Piece} {is : List Nat}
    (hx : TSeg rest m s xs) (hy : TSeg rest m s ys)
    (h1 : layout 0 xs = edgesOf (u.edgesFrom 0 s) is) (h2 : layout 0 ys = edgesOf (u.edgesFrom 0 s) is) : xs = ys :=
  layout_inj xs ys 0 s hx.1 hy.1 (h1.trans h2.symm)

/-! ### The best path of a sentence -/

/-- **C61, best segmentations.** The ids found for a sentence are those of a segmentation with the best score, and one is
always found. -/
theorem C61_best (s : Str) : ∃ xs, BestSeg rest m s xs ∧ bestIds u s = some (pieceIds xs) := by
  obtain ⟨h1, hF, h2, h3⟩ := C47_model hu s
  have hL := (ids_insertEdges hF h2 h3).1
  obtain ⟨V, A, hb⟩ := exists_best hF
  have hV0 : V 0 = 0 := by
    cases hA : A 0 with
    | none => exact (hb.none 0 hA).1
    | some i =>
      obtain ⟨e, he, hs, -⟩ := hb.some _ _ hA
      have := hF.lt e (List.mem_of_getElem? he)
      omega
  obtain ⟨is, hv, hp, ht⟩ := viterbi_best hF hL hb hV0
  obtain ⟨xs, g1, g2, -, g4, -⟩ := seg_of_idx hu hm hL hp
  refine ⟨xs, ⟨g1, ?_⟩, ?_⟩
  · intro ys hy
    obtain ⟨js, k1, -, k3⟩ := idx_of_seg hu hm hy
    rw [g2, k3, ht]
    have := hb.idx_le js _ _ k1
    rw [hV0] at this
    simpa using this
  · unfold bestIds
    rw [h1, Option.bind_some, hv, Option.map_some, g4]

/-! ### Alternatives of a piece -/

/-- What there is beside a piece itself. -/
inductive Alt where
  /-- It can be cut into pieces in one way only. -/
  | only
  /-- It is best cut into two or more pieces. -/
  | cut
  /-- It is best left whole; these are the ids of the second best segmentation. -/
  | second (ids : List Nat)

/-- The meaning. -/
def AltOf (rest : List Scored) (m : Rat) (t : Str) : Alt → Prop
  | .only => ∃ xs, TSeg rest m t xs ∧ ∀ ys, TSeg rest m t ys → ys = xs
  | .cut => ∃ xs, BestSeg rest m t xs ∧ 2 ≤ xs.length
  | .second ids => ∃ x ys, BestSeg rest m t [x] ∧ TSeg rest m t ys ∧ ys ≠ [x] ∧
      (∀ zs, TSeg rest m t zs → zs ≠ [x] → score zs ≤ score ys) ∧ ids = pieceIds ys ∧ ids ≠ []

/-- What the code returns for each. -/
def Alt.code : Alt → Bool × List Nat
  | .only => (true, [])
  | .cut => (false, [])
  | .second ids => (true, ids)

/-- **C61, alternatives.** For each piece the code finds whether it can be cut in one way only, is best cut, or is best left
whole, and in the last case the second best segmentation. -/
theorem C61_alternatives {ar : Arith} (hH : ar.heap.Ok) {t : Str} {r : Bool × List Nat}
    (h : alternativesOf ar u t = some r) : ∃ a, AltOf rest m t a ∧ r = a.code := by
  obtain ⟨h1, hF, h2, h3⟩ := C47_model hu t
  have hL := (ids_insertEdges hF h2 h3).1
  unfold alternativesOf at h
  rw [h1, Option.bind_some] at h
  simp only [Option.bind_eq_some_iff] at h
  obtain ⟨nb, hnb, h⟩ := h
  obtain ⟨paths, rfl, sp⟩ := C47_nbest hF h2 h3 hH hnb
  have hnd := (trainMade hu).nodup_edgesFrom hm t 0
  match paths, sp, h with
  | [], _, h => cases h
  | [a], sp, h =>
    simp only [List.map_cons, List.map_nil, Option.some.injEq] at h
    obtain ⟨xs, g1, -, -, -, g5⟩ := seg_of_idx hu hm hL (sp.paths a (by simp))
    refine ⟨.only, ⟨xs, g1, ?_⟩, h.symm⟩
    intro ys hy
    obtain ⟨js, k1, k2, -⟩ := idx_of_seg hu hm hy
    have : js = a := by
      apply Classical.byContradiction
      intro hne
      have := (sp.rest js k1 (by simpa using hne)).1
      simp at this
    subst this
    exact seg_eq_of_idx hy g1 k2 g5
  | a :: b :: l, sp, h =>
    have hl : l = [] := by
      have := sp.length
      simp at this
      exact this
    subst hl
    have hab : a ≠ b := by
      have := sp.nodup
      simp at this
      exact this
    obtain ⟨xs, g1, g2, g3, g4, g5⟩ := seg_of_idx hu hm hL (sp.paths a (by simp))
    obtain ⟨ys, k1, k2, k3, k4, k5⟩ := seg_of_idx hu hm hL (sp.paths b (by simp))
    have hxy : ys ≠ xs := by
      rintro rfl
      exact hab (edgesOf_inj hnd a b _ _ _ _ (sp.paths a (by simp)) (sp.paths b (by simp)) (g5.symm.trans k5))
    have hle : score ys ≤ score xs := by
      rw [g2, k2]
      have := sp.sorted
      simp at this
      exact this
    have hsec : ∀ zs, TSeg rest m t zs → zs ≠ xs → score zs ≤ score ys := by
      intro zs hz hne
      obtain ⟨js, j1, j2, j3⟩ := idx_of_seg hu hm hz
      by_cases hj : js ∈ [a, b]
      · simp only [List.mem_cons, List.not_mem_nil, or_false] at hj
        rcases hj with rfl | rfl
        · exact absurd (seg_eq_of_idx hz g1 j2 g5) hne
        · exact le_of_eq (congrArg score (seg_eq_of_idx hz k1 j2 k5))
      · rw [j3, k2]
        exact (sp.rest js j1 hj).2 b (by simp)
    have hbest : BestSeg rest m t xs := by
      refine ⟨g1, fun zs hz => ?_⟩
      by_cases hne : zs = xs
      · exact le_of_eq (congrArg score hne)
      · exact Rat.le_trans (hsec zs hz hne) hle
    simp only [List.map_cons, List.map_nil, List.length_map] at h
    by_cases hlen : 2 ≤ a.length
    · rw [if_pos hlen] at h
      exact ⟨.cut, ⟨xs, hbest, by omega⟩, (Option.some.inj h).symm⟩
    · rw [if_neg hlen] at h
      by_cases hone : a.length = 1
      · rw [if_pos hone] at h
        obtain ⟨x, rfl⟩ := List.length_eq_one_iff.1 (g3.trans hone)
        refine ⟨.second (pieceIds ys), ⟨x, ys, hbest, k1, hxy, hsec, rfl, ?_⟩, ?_⟩
        · intro hnil
          cases ys with
          | nil =>
            have h4 := k1.1
            have h5 := g1.1
            have h6 := (g1.2 x (by simp)).ne_nil
            simp at h4 h5
            rw [h4] at h5
            exact h6 h5
          | cons y ys =>
            obtain ⟨i, hi⟩ := seg_ids k1 y (by simp)
            simp [pieceIds, hi] at hnil
        · rw [← k4]
          exact (Option.some.inj h).symm
      · exfalso
        have hx : xs = [] := List.length_eq_zero_iff.1 (by omega)
        subst hx
        cases ys with
        | nil => exact hxy rfl
        | cons y ys =>
          have h4 := k1.1
          have h5 := g1.1
          have h6 := (k1.2 y (by simp)).ne_nil
          simp at h4 h5
          rw [h5] at h4
          simp at h4
          exact h6 h4.1

end

/-! ### Pruning -/

/-- How often the piece with this id is used, if the sentences are segmented like that. -/
def used (st : List (Str × Nat)) (segs : List (List Piece)) (id : Nat) : Nat :=
  ((st.zip segs).map fun p => p.1.2 * p.2.countP fun x => x.id = some id).sum

/-- What pruning looks at. -/
structure Row where
  piece : Scored
  alt : Alt
  freq : Nat

/-- Stays in any case: a piece that cannot be cut, or that is used although it is best cut. -/
def Row.stays (r : Row) : Bool := match r.alt with
  | .only => true
  | .cut => r.freq ≠ 0
  | .second _ => false

/-- A piece that is used and could be replaced by its second best segmentation, with what that would cost. -/
def Row.loss (lossOf : Nat → List Nat → Rat) (r : Row) : Option (Scored × Rat) := match r.alt with
  | .second ids => if r.freq = 0 then none else some (r.piece, lossOf r.freq ids)
  | _ => none

/-- The cost: the share of the piece in all sentences times the log-likelihood lost. `uses` is how often each id is used,
`n` the number of ids, `weight` the sum of the frequencies of the sentences. -/
def cost (ln : Rat → Rat) (uses : Nat → Nat) (n weight : Nat) (f : Nat) (ids : List Nat) : Rat :=
  let total : Nat := ((List.range n).map uses).sum
  (f : Rat) / weight * ((ln f - ln total) - (ids.map fun a => ln (uses a + f) - ln (total + f * (n - 1 : Nat))).sum)

theorem sum_const {α : Type} (l : List α) (v : Nat) : (l.map fun _ => v).sum = v * l.length := by
  induction l with
  | nil => simp
  | cons a l ih => rw [List.map_cons, List.sum_cons, ih, List.length_cons, Nat.mul_succ]; omega

theorem inverted_sum (id : Nat) (g : Nat → Nat) : ∀ (paths : List (List Nat)) (st : List (Str × Nat)) (k : Nat),
    paths.length = st.length → (∀ i, g (k + i) = (st[i]?.map (·.2)).getD 0) →
    (((paths.zipIdx k).flatMap fun p => (p.1.filter fun j => j == id).map fun _ => p.2).map g).sum =
      ((st.zip paths).map fun p => p.1.2 * p.2.count id).sum
  | [], [], _, _, _ => rfl
  | [], _ :: _, _, h, _ => by simp at h
  | _ :: _, [], _, h, _ => by simp at h
  | p :: paths, s :: st, k, h, hg => by
    have ih := inverted_sum id g paths st (k + 1) (by simpa using h) (fun i => by
      have := hg (i + 1)
      rw [show k + 1 + i = k + (i + 1) by omega, this]
      simp)
    have h0 := hg 0
    simp only [Nat.add_zero, List.getElem?_cons_zero, Option.map_some, Option.getD_some] at h0
    rw [List.zipIdx_cons, List.flatMap_cons, List.map_append, List.sum_append, ih, List.zip_cons_cons, List.map_cons,
      List.sum_cons, List.map_map]
    congr 1
    rw [show (g ∘ fun _ : Nat => (p, k).2) = fun _ => s.2 from funext fun _ => h0, sum_const,
      ← List.countP_eq_length_filter]
    rfl

theorem count_pieceIds (id : Nat) (xs : List Piece) : (pieceIds xs).count id = xs.countP fun x => x.id = some id := by
  induction xs with
  | nil => rfl
  | cons x xs ih =>
    unfold pieceIds at *
    rw [List.countP_cons, ← ih]
    cases h : x.id with
    | none => simp [h]
    | some i => simp [h, List.count_cons]

theorem freqOf_used (st : List (Str × Nat)) (segs : List (List Piece)) (id : Nat) :
    freqOf st (segs.map pieceIds) id = used st segs id := by
  unfold freqOf used
  rw [List.zip_map_right, List.map_map]
  congr 1
  apply List.map_congr_left
  intro p _
  simp [Function.comp, count_pieceIds]

theorem verdict_row (ar : Arith) {st : List (Str × Nat)} {segs : List (List Piece)} (hlen : segs.length = st.length)
    (n id : Nat) (a : Alt) (hne : ∀ ids, a = .second ids → ids ≠ []) (p : Scored) :
    let v := verdictOf ar st (segs.map pieceIds) n id a.code
    let r : Row := ⟨p, a, used st segs id⟩
    keptPiece (p, v) = (if r.stays then some p else none) ∧
    candidatePiece (p, v) = r.loss (cost ar.ln (used st segs) n (st.map (·.2)).sum) := by
  have hinv : ((invertedOf (segs.map pieceIds) id).map fun n => ((st[n]?.map (·.2)).getD 0)).sum = used st segs id := by
    have := inverted_sum id (fun n => (st[n]?.map (·.2)).getD 0) (segs.map pieceIds) st 0 (by simp [hlen])
      (fun i => by simp)
    unfold invertedOf
    rw [this]
    exact freqOf_used st segs id
  have hf : freqOf st (segs.map pieceIds) = used st segs := funext (freqOf_used st segs)
  cases a with
  | only => simp [verdictOf, Alt.code, Row.stays, Row.loss, keptPiece, candidatePiece]
  | cut =>
    by_cases h0 : used st segs id = 0
    · simp [verdictOf, Alt.code, Row.stays, Row.loss, keptPiece, candidatePiece, hf, h0]
    · simp [verdictOf, Alt.code, Row.stays, Row.loss, keptPiece, candidatePiece, hf, h0]
  | second ids =>
    have hids : ids ≠ [] := hne ids rfl
    by_cases h0 : used st segs id = 0
    · simp [verdictOf, Alt.code, Row.stays, Row.loss, keptPiece, candidatePiece, hf, h0, hids, hinv]
    · simp [verdictOf, Alt.code, Row.stays, Row.loss, keptPiece, candidatePiece, hf, h0, hids, hinv, lossOf, cost]

theorem pushUntil_eq {size : Nat} : ∀ (l acc : List Scored), pushUntil size acc l =
    acc ++ l.take (if acc.length + 1 ≤ size then size - (acc.length + 1) else l.length)
  | [], acc => by simp [pushUntil]
  | p :: l, acc => by
    unfold pushUntil
    by_cases h : acc.length + 1 = size
    · rw [if_pos h, if_pos (by omega), show size - (acc.length + 1) = 0 by omega]
      simp
    · rw [if_neg h, pushUntil_eq l]
      simp only [List.length_append, List.length_cons, List.length_nil, List.append_assoc, List.cons_append, List.nil_append]
      congr 1
      by_cases h2 : acc.length + 1 ≤ size
      · rw [if_pos h2, if_pos (by omega), show size - (acc.length + 1) = (size - (acc.length + 0 + 1 + 1)) + 1 by omega]
        simp
      · rw [if_neg h2, if_neg (by omega)]
        simp

/-- **C61, pruning.** Each sentence is segmented as well as possible (`segs`), each piece gets a row: whether it can be
replaced (`AltOf`) and how often it is used. The pieces that stay in any case come first, in order. Then come pieces with the
largest losses, as many as fit into the size aimed at: 1.1 times the vocabulary size, or the given share of the present size
if that is more. But if more pieces stay in any case than fit, all the others stay, too (see `C61_overfull`). -/
theorem C61_prune {c : UniCfg} {ar : Arith} (hH : ar.heap.Ok) {st : List (Str × Nat)} {rest out : List Scored} {m : Rat}
    (hm : IsMinScore (trainVocab rest) m) (h : c.prune ar st rest = some out) :
    ∃ (segs : List (List Piece)) (rows : List Row),
      (segs.length = st.length ∧ ∀ p ∈ st.zip segs, BestSeg rest m p.1.1 p.2) ∧
      rows.map (·.piece) = rest ∧
      (∀ i r, rows[i]? = some r → AltOf rest m r.piece.1 r.alt ∧ r.freq = used st segs (i + 1)) ∧
      ∃ ranked : List (Scored × Rat),
        ranked.Perm (rows.filterMap (Row.loss (cost ar.ln (used st segs) (rest.length + 1) (st.map (·.2)).sum))) ∧
        ranked.Pairwise (fun a b => b.2 ≤ a.2) ∧
        let sure := (rows.filter Row.stays).map (·.piece)
        let size := max (c.vocabSize * 11 / 10) (((rest.length + 1 : Nat) : Rat) * c.shrink).floor.toNat
        out = sure ++ (ranked.map (·.1)).take (if sure.length + 1 ≤ size then size - (sure.length + 1) else ranked.length) := by
  unfold UniCfg.prune at h
  split at h
  · cases h
  rename_i u hu
  simp only [Option.bind_eq_some_iff, Option.map_eq_some_iff] at h
  obtain ⟨alts, halts, paths, hpaths, rfl⟩ := h
  obtain ⟨hal, hall⟩ := mapM_some_length halts
  obtain ⟨hpl, hpall⟩ := mapM_some_length hpaths
  -- the segmentations
  have hsegs : ∃ segs : List (List Piece), paths = segs.map pieceIds ∧ segs.length = st.length ∧
      ∀ p ∈ st.zip segs, BestSeg rest m p.1.1 p.2 := by
    clear hpaths
    induction st generalizing paths with
    | nil => exact ⟨[], by simpa using hpl, rfl, by simp⟩
    | cons s st ih =>
      cases paths with
      | nil => simp at hpl
      | cons q paths =>
        obtain ⟨segs, h1, h2, h3⟩ := ih paths (by simpa using hpl) (fun p hp => hpall p (by simp [hp]))
        obtain ⟨xs, g1, g2⟩ := C61_best hu hm s.1
        have := hpall (s, q) (by simp)
        rw [g2] at this
        have hq : q = pieceIds xs := (Option.some.inj this).symm
        refine ⟨xs :: segs, by rw [List.map_cons, h1, hq], by simp [h2], ?_⟩
        intro p hp
        simp only [List.zip_cons_cons, List.mem_cons] at hp
        rcases hp with rfl | hp
        · exact g1
        · exact h3 p hp
  obtain ⟨segs, rfl, hsl, hsbest⟩ := hsegs
  -- the alternatives
  have haltT : ∃ as : List Alt, alts = as.map Alt.code ∧ as.length = rest.length ∧
      ∀ p ∈ rest.zip as, AltOf rest m p.1.1 p.2 := by
    have key : ∀ (l : List Scored) (alts : List (Bool × List Nat)), alts.length = l.length →
        (∀ p ∈ l.zip alts, alternativesOf ar u p.1.1 = some p.2) → ∃ as : List Alt, alts = as.map Alt.code ∧
          as.length = l.length ∧ ∀ p ∈ l.zip as, AltOf rest m p.1.1 p.2 := by
      intro l
      induction l with
      | nil => intro alts hl _; exact ⟨[], by simpa using hl, rfl, by simp⟩
      | cons q l ih =>
        intro alts hl hall
        cases alts with
        | nil => simp at hl
        | cons b alts =>
          obtain ⟨as, h1, h2, h3⟩ := ih alts (by simpa using hl) (fun p hp => hall p (by simp [hp]))
          obtain ⟨a, g1, g2⟩ := C61_alternatives hu hm hH (hall (q, b) (by simp))
          have g2 : b = a.code := g2
          subst g2
          refine ⟨a :: as, by simp [h1], by simp [h2], ?_⟩
          intro p hp
          simp only [List.zip_cons_cons, List.mem_cons] at hp
          rcases hp with rfl | hp
          · exact g1
          · exact h3 p hp
    exact key rest alts hal hall
  obtain ⟨as, rfl, hasl, hasall⟩ := haltT
  clear halts hall hpaths hpall
  let mk : (Scored × Alt) × Nat → Row := fun p => ⟨p.1.1, p.1.2, used st segs (p.2 + 1)⟩
  refine ⟨segs, (rest.zip as).zipIdx.map mk, ⟨hsl, hsbest⟩, ?_, ?_, ?_⟩
  · rw [List.map_map]
    have : ((·.piece) ∘ mk) = (fun p : Scored × Alt => p.1) ∘ (fun p : (Scored × Alt) × Nat => p.1) := rfl
    rw [this, ← List.map_map, List.zipIdx_map_fst, List.map_fst_zip (by omega)]
  · intro i r hr
    rw [List.getElem?_map, List.getElem?_zipIdx, Option.map_map, Option.map_eq_some_iff] at hr
    obtain ⟨q, hq, rfl⟩ := hr
    exact ⟨hasall q (List.mem_of_getElem? hq), by simp [mk]⟩
  · have hv : ∀ p ∈ (rest.zip as).zipIdx, ∀ w, w = verdictOf ar st (segs.map pieceIds) (rest.length + 1) (p.2 + 1) p.1.2.code →
        keptPiece (p.1.1, w) = (if (mk p).stays then some (mk p).piece else none) ∧
        candidatePiece (p.1.1, w) = (mk p).loss (cost ar.ln (used st segs) (rest.length + 1) (st.map (·.2)).sum) := by
      intro p hp w hw
      subst hw
      have hmem : p.1 ∈ rest.zip as := by
        have := List.mem_map_of_mem (f := fun q : (Scored × Alt) × Nat => q.1) hp
        rwa [List.zipIdx_map_fst] at this
      exact verdict_row ar hsl _ _ _ (by
        intro ids he
        have := hasall _ hmem
        rw [he] at this
        obtain ⟨-, -, -, -, -, -, -, h⟩ := this
        exact h) _
    have e0 : (rest.zip (as.map Alt.code)).zipIdx = (rest.zip as).zipIdx.map fun p => ((p.1.1, p.1.2.code), p.2) := by
      rw [List.zip_map_right]
      simp only [List.zipIdx_map]
      rfl
    have ek : ((rest.zip (as.map Alt.code)).zipIdx.map fun p =>
        (p.1.1, verdictOf ar st (segs.map pieceIds) (rest.length + 1) (p.2 + 1) p.1.2)).filterMap keptPiece =
        (((rest.zip as).zipIdx.map mk).filter Row.stays).map (·.piece) := by
      rw [e0, List.map_map, List.filterMap_map, List.filter_map, List.map_map]
      have gen : ∀ (l : List ((Scored × Alt) × Nat)) (f : (Scored × Alt) × Nat → Option Scored),
          (∀ p ∈ l, f p = if (mk p).stays then some (mk p).piece else none) →
          l.filterMap f = (l.filter (Row.stays ∘ mk)).map ((·.piece) ∘ mk) := by
        intro l f
        induction l with
        | nil => intro _; rfl
        | cons a l ih =>
          intro hf
          rw [List.filterMap_cons, hf a (by simp), ih (fun p hp => hf p (by simp [hp])), List.filter_cons]
          cases h : (mk a).stays <;> simp [h]
      exact gen _ _ fun p hp => (hv p hp _ rfl).1
    have ec : ((rest.zip (as.map Alt.code)).zipIdx.map fun p =>
        (p.1.1, verdictOf ar st (segs.map pieceIds) (rest.length + 1) (p.2 + 1) p.1.2)).filterMap candidatePiece =
        ((rest.zip as).zipIdx.map mk).filterMap
          (Row.loss (cost ar.ln (used st segs) (rest.length + 1) (st.map (·.2)).sum)) := by
      rw [e0, List.map_map, List.filterMap_map, List.filterMap_map]
      apply List.filterMap_congr
      intro p hp
      exact (hv p hp _ rfl).2
    refine ⟨_, sortLe_perm (fun a b : Scored × Rat => decide (b.2 ≤ a.2)) _, ?_, ?_⟩
    · have := sortLe_sorted (le := fun a b : Scored × Rat => decide (b.2 ≤ a.2))
        (fun a b => by simpa using Rat.le_total)
        (fun a b c h1 h2 => by simp only [decide_eq_true_eq] at *; exact Rat.le_trans h2 h1)
      exact (this _).imp (by simp)
    · dsimp only
      rw [pushUntil_eq, ek, ec]
      simp only [List.length_map]
      rfl

/-- Pruning does not make the list longer than the size aimed at, if the pieces that stay in any case fit. -/
theorem C61_prune_size {c : UniCfg} {ar : Arith} (hH : ar.heap.Ok) {st : List (Str × Nat)} {rest out : List Scored}
    (h : c.prune ar st rest = some out) : out.length ≤ rest.length ∧
    ∃ sure : List Scored, sure.Sublist rest ∧ sure <+: out ∧
      let size := max (c.vocabSize * 11 / 10) (((rest.length + 1 : Nat) : Rat) * c.shrink).floor.toNat
      (sure.length + 1 ≤ size → out.length + 1 ≤ size) := by
  obtain ⟨m, hm⟩ : ∃ m, IsMinScore (trainVocab rest) m := ⟨_, minOf_isMin (by simp [trainVocab])⟩
  obtain ⟨segs, rows, -, h2, -, ranked, h4, -, rfl⟩ := C61_prune hH hm h
  have hcount : ∀ (g : Row → Option (Scored × Rat)) (l : List Row), (∀ r ∈ l, r.stays = true → g r = none) →
      (l.filter Row.stays).length + (l.filterMap g).length ≤ l.length := by
    intro g l
    induction l with
    | nil => intro _; simp
    | cons a l ih =>
      intro hg
      have := ih (fun r hr => hg r (by simp [hr]))
      rw [List.filter_cons, List.filterMap_cons]
      cases hs : a.stays with
      | true => rw [hg a (by simp) hs]; simp; omega
      | false =>
        cases hga : g a with
        | none => simp; omega
        | some b => simp; omega
  have hc := hcount (Row.loss (cost ar.ln (used st segs) (rest.length + 1) (st.map (·.2)).sum)) rows (by
    intro r _ hr
    unfold Row.stays at hr
    unfold Row.loss
    split at hr
    · rename_i h; rw [h]
    · rename_i h; rw [h]
    · cases hr)
  have hl := congrArg List.length h2
  rw [List.length_map] at hl
  refine ⟨?_, (rows.filter Row.stays).map (·.piece), ?_, List.prefix_append _ _, ?_⟩
  · simp only [List.length_append, List.length_map, List.length_take]
    rw [← h4.length_eq] at hc
    omega
  · have := (List.filter_sublist (p := Row.stays) (l := rows)).map (fun r => r.piece)
    rwa [h2] at this
  · dsimp only
    intro hs
    simp only [List.length_append, List.length_map, List.length_take] at *
    rw [if_pos hs]
    omega

/-- The arithmetic of the sample: no logarithms. -/
def plainArith : Arith := ⟨fun x => x, fun x => x, fun _ _ => [], listHeap, 100⟩

theorem plainArith_ok : plainArith.heap.Ok := listHeap_ok

/-- The sample: `ab` is better than `a` and `b`. -/
def prunePieces : List Scored := [(['a'], -2), (['b'], -2), (['a', 'b'], -1)]

/-- **C61, what is wrong (`C61_overfull`).** With a shrinking factor of 3/4 the piece `ab` is pruned. With 1/2, which asks for
fewer pieces, nothing is pruned at all: two pieces stay in any case, which is one more than fits, and then the code does not
notice that the size is reached, since it compares with `==`. -/
theorem C61_overfull :
    UniCfg.prune { vocabSize := 1, shrink := 3 / 4 } plainArith [(['a', 'b', 'a', 'b'], 1)] prunePieces =
      some [(['a'], -2), (['b'], -2)] ∧
    UniCfg.prune { vocabSize := 1, shrink := 1 / 2 } plainArith [(['a', 'b', 'a', 'b'], 1)] prunePieces =
      some prunePieces := by
  constructor <;> decide +kernel

/-! ### The loop -/

/-- **C61, rounds.** Each of the rounds takes the counts expected under the model made of the pieces of the round before. -/
theorem C61_rounds {ar : Arith} {st : List (Str × Nat)} : ∀ (n : Nat) {rest out : List Scored},
    emRounds ar st n rest = some out → ∃ f : Nat → List Scored, f 0 = rest ∧ f n = out ∧ ∀ i, i < n → ∃ u,
      Unigram.from (trainVocab (f i)) (some 0) false = .ok u ∧ mStep ar.digamma (f i) (ar.expected u st) = some (f (i + 1))
  | 0, rest, out, h => by cases h; exact ⟨fun _ => rest, rfl, rfl, by omega⟩
  | n + 1, rest, out, h => by
    simp only [emRounds, Option.bind_eq_some_iff] at h
    obtain ⟨mid, h1, h2⟩ := h
    obtain ⟨f, g1, g2, g3⟩ := C61_rounds n h2
    unfold emRound at h1
    split at h1
    · cases h1
    rename_i u hu
    refine ⟨fun i => match i with | 0 => rest | i + 1 => f i, rfl, g2, ?_⟩
    intro i hi
    cases i with
    | zero => exact ⟨u, hu, by simpa [g1] using h1⟩
    | succ i => exact g3 i (by omega)

/-- **C61, loop.** Rounds and pruning alternate, beginning with rounds, until after the rounds there are at most 1.1 times as
many pieces as asked for, the unknown piece included. -/
theorem C61_loop {c : UniCfg} {ar : Arith} {st : List (Str × Nat)} : ∀ (fuel : Nat) {rest out : List Scored},
    c.emLoop ar st fuel rest = some (some out) → ∃ (k : Nat) (before after : Nat → List Scored), before 0 = rest ∧
      (∀ i, i ≤ k → emRounds ar st c.nSub (before i) = some (after i)) ∧
      (∀ i, i < k → c.vocabSize * 11 / 10 < (after i).length + 1 ∧ c.prune ar st (after i) = some (before (i + 1))) ∧
      after k = out ∧ out.length + 1 ≤ c.vocabSize * 11 / 10
  | 0, rest, out, h => by cases h
  | fuel + 1, rest, out, h => by
    unfold UniCfg.emLoop at h
    split at h
    · cases h
    rename_i mid h1
    split at h
    · rename_i hl
      cases h
      exact ⟨0, fun _ => rest, fun _ => out, rfl, fun _ _ => h1, by omega, rfl, hl⟩
    · rename_i hl
      split at h
      · cases h
      rename_i r h2
      obtain ⟨k, b, a, g1, g2, g3, g4, g5⟩ := C61_loop fuel h
      refine ⟨k + 1, fun i => match i with | 0 => rest | i + 1 => b i, fun i => match i with | 0 => mid | i + 1 => a i, rfl,
        ?_, ?_, g4, g5⟩
      · intro i hi
        cases i with
        | zero => exact h1
        | succ i => exact g2 i (by omega)
      · intro i hi
        cases i with
        | zero => exact ⟨by unfold UniCfg.desired at hl; simp only; omega, by simpa [g1] using h2⟩
        | succ i => exact g3 i (by omega)

/-- A run of the loop with one pruning: `ab` goes. -/
example : UniCfg.emLoop { vocabSize := 3 } { plainArith with expected := fun u _ => u.vocab.map fun _ => 1 }
    [(['a', 'b', 'a', 'b'], 1)] 5 prunePieces = some (some [(['a'], -1), (['b'], -1)]) := by
  decide +kernel

end Tok.Train
