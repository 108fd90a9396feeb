import Verif.Unigram.C68

/-!
# C68: `Unigram::encode` with `alpha`
-/

namespace Tok.Unigram

variable {s : Str} {vocab : List (Str × Rat)} {u : Unigram}

/-- The strings that the encoder returns for a segmentation: runs of unknown pieces are joined. -/
def shown (unk : Option Nat) (xs : List Piece) : List Str := fuse (xs.map (fun x => (x.text, decide (x.id = unk))))

/-! ### From paths to segmentations -/

theorem piecesOf_path {k : Nat} (hu : Made vocab (some k) u) {m : Rat} (hm : IsMinScore vocab m) {L : Lattice}
    (hL : IsLattice s (u.edgesFrom 0 s) L) {is : List Nat} (h : IdxPath (u.edgesFrom 0 s) 0 (blen s) is) :
    u.piecesOf L (is.map (· + 2)) = .ok (fuse (marked s (some k) (edgesOf (u.edgesFrom 0 s) is))) := by
  have hE : ∀ e ∈ u.edgesFrom 0 s, e.start < e.stop := fun e he => (hu.edge_lt hm he).2.1
  have hlt := path_lt hE _ _ _ h
  unfold piecesOf
  rw [if_pos hu.fuse, fuseLoop_spec hu.toBuilt hL ?_ (is.map (· + 2)) (edgesOf (u.edgesFrom 0 s) is) [] [] ?_ ?_]
  · simp [fuseWith]
  · intro e he
    refine ⟨hE e he, ?_, hu.edge_text hm he⟩
    obtain ⟨a, b, x, -, hx, rfl⟩ := (hu.mem_edgesFrom hm s 0 e).1 he
    rcases hx with ⟨-, i, hi, -⟩ | ⟨-, -, -, hi, -⟩ <;> simp [hi]
  · intro n hn
    obtain ⟨i, -, rfl⟩ := List.mem_map.1 hn
    omega
  · clear h
    induction is with
    | nil => rfl
    | cons i is ih =>
      have hi : i < (u.edgesFrom 0 s).length := hlt i (by simp)
      have e1 : edgesOf (u.edgesFrom 0 s) (i :: is) = (u.edgesFrom 0 s)[i] :: edgesOf (u.edgesFrom 0 s) is := by
        simp [edgesOf, hi]
      rw [e1, List.map_cons, List.map_cons, List.map_cons, ih (fun j hj => hlt j (by simp [hj]))]
      simp [hi]

/-- Product over the edges of a path, found by their contents. -/
theorem idxOf_edgesOf {E : List Edge} (hnd : E.Nodup) : ∀ (is : List Nat), (∀ i ∈ is, i < E.length) →
    (edgesOf E is).map (fun e => E.idxOf e) = is
  | [], _ => rfl
  | i :: is, h => by
    have hi : i < E.length := h i (by simp)
    have e1 : edgesOf E (i :: is) = E[i] :: edgesOf E is := by simp [edgesOf, hi]
    rw [e1, List.map_cons, idxOf_edgesOf hnd is (fun j hj => h j (by simp [hj])), hnd.idxOf_getElem]

/-- The lattice of a sentence, and what is known about it. -/
theorem lattice_of {bf : Bool} {k : Nat} (hu : Unigram.from vocab (some k) bf = .ok u) (s : Str) :
    ∃ L, u.populateNodes (Lattice.from s u.bosId u.eosId) = some L ∧ Full s (u.edgesFrom 0 s) ∧
      IsLattice s (u.edgesFrom 0 s) L ∧ BosApart (u.edgesFrom 0 s) L ∧
      L = insertEdges (Lattice.from s u.bosId u.eosId) (u.edgesFrom 0 s) := by
  obtain ⟨h1, hF, h2, h3⟩ := C47_model hu s
  obtain ⟨hL, hids⟩ := ids_insertEdges hF h2 h3
  refine ⟨_, h1, hF, hL, ?_, rfl⟩
  intro i hi
  obtain ⟨id, hb⟩ := hL.bos
  have hn := hL.node i _ (List.getElem?_eq_some_iff.2 ⟨hi, rfl⟩)
  have e1 := (hids 0 _ hb).2 rfl
  have e2 := hids (i + 2) _ hn
  simp only [Lattice.sameId, hb, hn, Option.map_some]
  simp only at e1 e2
  rw [e1]
  have : ¬ (((u.edgesFrom 0 s)[i]).id.getD 0 = u.bosId) := fun h => by
    have := e2.1 h; omega
  simpa using this

/-! ### `sample` -/

/-- **C68.** With an unknown token and sampling among all segmentations (`alpha` set, `nbest_size` unset or 0),
`encode` always succeeds, every segmentation of the sentence may be the one that is returned, nothing else can be,
and the probabilities add up to 1. With `alpha = 1` and a sentence in which the text of the unknown token does not
occur, the probability of a segmentation is the one that the unigram language model gives it (exponential of its
score, divided by the sum over all segmentations), up to `exp(-50)` for each of its pieces and each node of the
lattice, in the logarithm. -/
theorem C68_encode {bf : Bool} {k : Nat} (hu : Unigram.from vocab (some k) bf = .ok u) {m : Rat}
    (hm : IsMinScore vocab m) (hne : s ≠ []) {segs : List (List Piece)} (hs : AllSegs vocab (some k) m s segs)
    {nbestSize : Option Nat} (hn : nbestSize = none ∨ nbestSize = some 0) {θ : ℝ} (hθ : θ ≠ 0) (H : Heap) (fuel : Nat) :
    ∃ (p : List Piece → ℝ) (ds : Dist (Outcome UniErr (List Str))), u.encodeWith H fuel nbestSize (some θ) s = some ds ∧
      ds.Perm (segs.map fun xs => (.ok (shown (some k) xs), p xs)) ∧
      (∀ xs ∈ segs, 0 < p xs) ∧ (segs.map p).sum = 1 ∧
      (θ = 1 → NoUnkText vocab k s → ∃ L, u.populateNodes (Lattice.from s u.bosId u.eosId) = some L ∧
        ∀ xs ∈ segs, |Real.log (p xs) - Real.log (Real.exp (score xs : ℝ) / likelihood segs)| ≤
          xs.length * (L.nodes.length * Real.exp (-50))) := by
  obtain ⟨L, hpop, hF, hL, hb, -⟩ := lattice_of hu s
  have hM := made_of_from hu
  generalize hEe : u.edgesFrom 0 s = E at hF hL hb
  have hE : ∀ e ∈ E, e.start < e.stop := fun e he => (hF.lt e he).1
  have hp := allPaths_exists hE (blen s)
  have hnd : E.Nodup := hEe ▸ hM.nodup_edgesFrom hm s 0
  have hperm := hM.segs_perm hm hs (hEe ▸ hp)
  rw [hEe] at hperm
  let P : List Edge → ℝ := fun es => ((es.map (fun e => E.idxOf e)).map (edgeProb E θ (L.sampleAlpha θ))).prod
  have hP : ∀ is ∈ pathsTo E (blen s) (blen s), P (edgesOf E is) = (is.map (edgeProb E θ (L.sampleAlpha θ))).prod := by
    intro is his
    simp only [P]
    rw [idxOf_edgesOf hnd is (path_lt hE _ _ _ ((hp.mem is).1 his))]
  have hds : u.encodeWith H fuel nbestSize (some θ) s = some (((pathsTo E (blen s) (blen s)).map (edgesOf E)).map
      fun es => (.ok (fuse (marked s (some k) es)), P es)) := by
    have h1 : ¬ ((some θ : Option ℝ) = none ∨ some θ = some 0) := by simp [hθ]
    have h2 : pathDist H fuel nbestSize (some θ) L = L.sample θ := by rcases hn with rfl | rfl <;> rfl
    rw [encodeWith, if_neg hne, if_neg h1, encodeUnoptimizedWith, hpop, Option.bind_some, h2, sample_eq hF hL hb θ,
      Option.map_some, List.map_map, List.map_map]
    congr 1
    apply List.map_congr_left
    intro is his
    have := piecesOf_path hM hm (L := L) (hEe ▸ hL) (is := is) (by rw [hEe]; exact (hp.mem is).1 his)
    rw [hEe] at this
    simp only [Function.comp_apply, this, hP is his]
  have hpath : ∀ xs ∈ segs, ∃ is ∈ pathsTo E (blen s) (blen s), edgesOf E is = layout 0 xs := by
    intro xs hxs
    have := (hperm.mem_iff (a := layout 0 xs)).2 (List.mem_map.2 ⟨xs, hxs, rfl⟩)
    exact List.mem_map.1 this
  refine ⟨fun xs => P (layout 0 xs), _, hds, ?_, ?_, ?_, ?_⟩
  · refine (hperm.map _).trans ?_
    rw [List.map_map]
    apply List.Perm.of_eq
    apply List.map_congr_left
    intro xs hxs
    have := marked_layout xs [] s rfl ((hs.mem xs).1 hxs)
    simp only [blen_nil, List.nil_append] at this
    simp only [Function.comp_apply, this, shown]
  · intro xs hxs
    obtain ⟨is, his, h⟩ := hpath xs hxs
    simp only [← h, hP is his]
    apply prod_pos_of
    intro x hx
    obtain ⟨i, hi, rfl⟩ := List.mem_map.1 hx
    exact edgeProb_pos (path_lt hE _ _ _ ((hp.mem is).1 his) i hi)
  · have h1 := (hperm.map P).sum_eq
    rw [List.map_map, List.map_map] at h1
    have h2 : (pathsTo E (blen s) (blen s)).map (P ∘ edgesOf E) =
        (pathsTo E (blen s) (blen s)).map fun is => (is.map (edgeProb E θ (L.sampleAlpha θ))).prod :=
      List.map_congr_left (fun is his => hP is his)
    rw [h2, sum_pathsTo hF θ _ _ _ (le_refl _) ⟨s, List.prefix_refl s, rfl⟩] at h1
    exact h1.symm
  · intro h1 hno
    subst h1
    refine ⟨L, hpop, ?_⟩
    intro xs hxs
    obtain ⟨is, his, h⟩ := hpath xs hxs
    have hI : IdsApart E := hEe ▸ hM.idsApart hm hno
    have hpa := (hp.mem is).1 his
    have hc := pathProb_close hF hL hI is _ _ hpa
    rw [massTo_zero, Real.log_one, add_zero] at hc
    have hlik : massTo E (blen s) = likelihood segs := by
      have := hM.mass_eq hm hs (hEe ▸ hp)
      rw [hEe] at this
      exact this
    have hpos : 0 < likelihood segs := hlik ▸ massTo_pos hF ⟨s, List.prefix_refl s, rfl⟩
    have htot : (idxTotal E is : ℝ) = (score xs : ℝ) := by
      rw [← (edgesOf_spec is _ _ hpa).2.1, h, total_layout]
    have hlen : is.length = xs.length := by
      have h1 : (edgesOf E is).length = is.length := by
        have := congrArg List.length (idxOf_edgesOf hnd is (path_lt hE _ _ _ hpa))
        simpa using this
      have h2 : ∀ (xs : List Piece) (p : Nat), (layout p xs).length = xs.length := by
        intro xs
        induction xs with
        | nil => intro p; rfl
        | cons x xs ih => intro p; simp [layout, ih]
      rw [← h1, h, h2]
    simp only [← h, hP is his]
    rw [Real.log_div (Real.exp_ne_zero _) hpos.ne', Real.log_exp, ← htot, ← hlik, ← hlen, sampleAlpha_one]
    refine hc.trans ?_
    apply mul_le_mul_of_nonneg_left _ (Nat.cast_nonneg _)
    apply mul_le_mul_of_nonneg_right _ (Real.exp_pos _).le
    rw [hL.count]
    push_cast
    linarith

/-- Hypotheses met: unknown characters, several segmentations. -/
example : ∃ u m segs, Unigram.from sampleVocab (some 0) false = .ok u ∧ IsMinScore sampleVocab m ∧
    NoUnkText sampleVocab 0 "abxyé".toList ∧ AllSegs sampleVocab (some 0) m "abxyé".toList segs := by
  have hm := minOf_isMin (vocab := sampleVocab) (by decide)
  obtain ⟨segs, hs⟩ := allSegs_exists (made_of_from (vocab := sampleVocab) (unk := some 0) (bf := false) rfl) hm
    "abxyé".toList
  refine ⟨_, _, segs, rfl, hm, ?_, hs⟩
  intro t sc h _
  have : t = "<unk>".toList := by
    simp [sampleVocab] at h
    rw [← h.1]; rfl
  subst this
  decide

/-- What is drawn spells the sentence. -/
theorem C68_concat {bf : Bool} {k : Nat} (hu : Unigram.from vocab (some k) bf = .ok u) (hne : s ≠ [])
    {nbestSize : Option Nat} (hn : nbestSize = none ∨ nbestSize = some 0) {θ : ℝ} (hθ : θ ≠ 0) (H : Heap) (fuel : Nat) :
    ∃ ds, u.encodeWith H fuel nbestSize (some θ) s = some ds ∧ ∀ d ∈ ds, ∃ out, d.1 = .ok out ∧ out.flatten = s := by
  have hv : vocab ≠ [] := by
    rintro rfl
    simp [Unigram.from] at hu
  have hm := minOf_isMin hv
  obtain ⟨segs, hs⟩ := allSegs_exists (made_of_from hu) hm s
  obtain ⟨p, ds, h1, h2, -⟩ := C68_encode hu hm hne hs hn hθ H fuel
  refine ⟨ds, h1, ?_⟩
  intro d hd
  obtain ⟨xs, hxs, rfl⟩ := List.mem_map.1 (h2.mem_iff.1 hd)
  refine ⟨_, rfl, ?_⟩
  rw [shown, fuse_flatten]
  simpa [Function.comp_def] using ((hs.mem xs).1 hxs).1

/-- Without `alpha`, or with `alpha = 0`, nothing is drawn at random. -/
theorem C68_off {bf : Bool} {unk : Option Nat} (hu : Unigram.from vocab unk bf = .ok u) (nbestSize : Option Nat)
    {alpha : Option ℝ} (h : alpha = none ∨ alpha = some 0) (H : Heap) (fuel : Nat) (s : Str) :
    u.encodeWith H fuel nbestSize alpha s = some [(u.encode s, 1)] := by
  have hopt : u.isOptimized = true := by
    unfold Unigram.from at hu
    split at hu
    · cases hu
    · split at hu
      · cases hu
      · cases hu; rfl
  unfold encodeWith encode
  split
  · rfl
  · rfl

/-- Hypotheses of `C68_sample` and `C68_theta_one` met by the lattice of a sentence with several segmentations. -/
example : ∃ u L paths, Unigram.from sampleVocab (some 0) false = .ok u ∧
    u.populateNodes (Lattice.from "abxyé".toList u.bosId u.eosId) = some L ∧
    Full "abxyé".toList (u.edgesFrom 0 "abxyé".toList) ∧
    IsLattice "abxyé".toList (u.edgesFrom 0 "abxyé".toList) L ∧ BosApart (u.edgesFrom 0 "abxyé".toList) L ∧
    IdsApart (u.edgesFrom 0 "abxyé".toList) ∧
    AllPaths (u.edgesFrom 0 "abxyé".toList) (blen "abxyé".toList) paths := by
  have hm := minOf_isMin (vocab := sampleVocab) (by decide)
  have hu : Unigram.from sampleVocab (some 0) false =
      .ok ((Unigram.from sampleVocab (some 0) false).toOption.get (by decide +kernel)) := rfl
  obtain ⟨L, h1, h2, h3, h4, -⟩ := lattice_of hu "abxyé".toList
  refine ⟨_, L, _, hu, h1, h2, h3, h4, (made_of_from hu).idsApart hm ?_,
    allPaths_exists (fun e he => (h2.lt e he).1) _⟩
  intro t sc h _
  have : t = "<unk>".toList := by
    simp [sampleVocab] at h
    rw [← h.1]; rfl
  subst this
  decide

/-! ### `sample_nbest` -/

/-- The best segmentations: at most `n` different ones, best first; if one is left out, then there are at least `m`,
and the first `m` are no worse than it. -/
structure BestSegs (vocab : List (Str × Rat)) (unk : Option Nat) (mn : Rat) (s : Str) (n m : Nat)
    (best : List (List Piece)) : Prop where
  length : best.length ≤ n
  nodup : best.Nodup
  seg : ∀ xs ∈ best, Seg vocab unk mn s xs
  sorted : best.Pairwise (fun a b => score b ≤ score a)
  rest : ∀ ys, Seg vocab unk mn s ys → ys ∉ best → m ≤ best.length ∧ ∀ xs ∈ best.take m, score ys ≤ score xs

/-- **C68.** With `nbest_size = n > 0` and `alpha` set, `encode` draws one of the `n` best segmentations, each with
a probability proportional to `exp(alpha * score)`, exactly. (For `n > 512` the best 512 are among those returned;
see C47.) -/
theorem C68_nbest {bf : Bool} {k : Nat} (hu : Unigram.from vocab (some k) bf = .ok u) {m : Rat}
    (hm : IsMinScore vocab m) (hne : s ≠ []) {n : Nat} (hn : 0 < n) {θ : ℝ} (hθ : θ ≠ 0) {H : Heap} (hH : H.Ok) :
    ∃ N, ∀ fuel, N ≤ fuel → ∃ best, BestSegs vocab (some k) m s n (min n 512) best ∧ best ≠ [] ∧
      u.encodeWith H fuel (some n) (some θ) s = some (best.map fun xs => (.ok (shown (some k) xs),
        Real.exp (θ * (score xs : ℝ)) / (best.map fun ys => Real.exp (θ * (score ys : ℝ))).sum)) := by
  obtain ⟨L, hpop, hF, hL, hb, hLe⟩ := lattice_of hu s
  obtain ⟨-, -, h2, h3⟩ := C47_model hu s
  have hM := made_of_from hu
  obtain ⟨N, hN⟩ := C47_terminates hF h2 h3 hH n
  refine ⟨N, ?_⟩
  intro fuel hfuel
  obtain ⟨out, hout⟩ := Option.isSome_iff_exists.1 (hN fuel hfuel)
  obtain ⟨b0, r0, hfirst, -, -⟩ := C47_first hF h2 h3 hH hn hout
  obtain ⟨paths, hpe, sp⟩ := C47_nbest hF h2 h3 hH hout
  rw [← hLe] at hout
  clear hN
  generalize hEe : u.edgesFrom 0 s = E at *
  have hE : ∀ e ∈ E, e.start < e.stop := fun e he => (hF.lt e he).1
  have hnd : E.Nodup := hEe ▸ hM.nodup_edgesFrom hm s 0
  have hch : ∀ is, IdxPath E 0 (blen s) is → ∃ xs, Seg vocab (some k) m s xs ∧ layout 0 xs = edgesOf E is := by
    intro is his
    have := hM.seg_of_path hm (s := s) (edgesOf E is) [] s rfl (by rw [hEe]; exact (edgesOf_spec is _ _ his).1)
    exact this
  classical
  let f : List Nat → List Piece := fun is => if h : IdxPath E 0 (blen s) is then (hch is h).choose else []
  have hf : ∀ is, IdxPath E 0 (blen s) is → Seg vocab (some k) m s (f is) ∧ layout 0 (f is) = edgesOf E is := by
    intro is h
    simp only [f, dif_pos h]
    exact (hch is h).choose_spec
  have hscore : ∀ is, IdxPath E 0 (blen s) is → score (f is) = idxTotal E is := by
    intro is h
    rw [← total_layout _ 0, (hf is h).2, (edgesOf_spec is _ _ h).2.1]
  have hsurj : ∀ ys, Seg vocab (some k) m s ys → ∃ is, IdxPath E 0 (blen s) is ∧ f is = ys := by
    intro ys hys
    have hpth := hM.path_of_seg hm (s := s) ys [] (by simp [hys.1]) hys.2
    rw [hEe] at hpth
    obtain ⟨is, g1, g2⟩ := exists_idxPath _ _ _ hpth
    refine ⟨is, g1, layout_inj _ _ 0 s (hf is g1).1.1 hys.1 ?_⟩
    rw [(hf is g1).2, g2]
    rfl
  have hlscore : ∀ is, IdxPath E 0 (blen s) is → ((is.map (· + 2)).map L.scoreAt).sum = (score (f is) : ℝ) := by
    intro is h
    rw [hscore is h, List.map_map]
    have hlt := path_lt hE _ _ _ h
    clear h
    induction is with
    | nil => simp [idxTotal]
    | cons i is ih =>
      rw [List.map_cons, List.sum_cons, idxTotal_cons', ih (fun j hj => hlt j (by simp [hj]))]
      simp [hL.scoreAt (hlt i (by simp))]
  have hws : out.map (fun p => Real.exp (θ * (p.map L.scoreAt).sum)) =
      (paths.map f).map fun ys => Real.exp (θ * (score ys : ℝ)) := by
    rw [hpe, List.map_map, List.map_map]
    apply List.map_congr_left
    intro is his
    simp only [Function.comp_apply, hlscore is (sp.paths is his)]
  have hone : out ≠ [] := by rw [hfirst]; simp
  refine ⟨paths.map f, ⟨?_, ?_, ?_, ?_, ?_⟩, ?_, ?_⟩
  · simpa using sp.length
  · apply sp.nodup.map_on
    intro x hx y hy h
    apply edgesOf_inj hnd _ _ _ _ _ _ (sp.paths x hx) (sp.paths y hy)
    rw [← (hf x (sp.paths x hx)).2, ← (hf y (sp.paths y hy)).2, h]
  · intro xs hxs
    obtain ⟨is, his, rfl⟩ := List.mem_map.1 hxs
    exact (hf is (sp.paths is his)).1
  · rw [List.pairwise_map]
    refine sp.sorted.imp_of_mem ?_
    intro a b ha hb h
    rw [hscore a (sp.paths a ha), hscore b (sp.paths b hb)]
    exact h
  · intro ys hys hnot
    obtain ⟨is, his, rfl⟩ := hsurj ys hys
    obtain ⟨r1, r2⟩ := sp.rest is his (fun h => hnot (List.mem_map.2 ⟨is, h, rfl⟩))
    refine ⟨by simpa using r1, ?_⟩
    intro xs hxs
    rw [← List.map_take] at hxs
    obtain ⟨js, hjs, rfl⟩ := List.mem_map.1 hxs
    rw [hscore is his, hscore js (sp.paths js (List.mem_of_mem_take hjs))]
    exact r2 js hjs
  · intro h
    apply hone
    rw [hpe, List.map_eq_nil_iff.1 h]
    rfl
  · have h1 : ¬ ((some θ : Option ℝ) = none ∨ some θ = some 0) := by simp [hθ]
    have h2 : pathDist H fuel (some n) (some θ) L = L.sampleNbest H fuel n θ := by
      cases n with
      | zero => omega
      | succ n => rfl
    have hwi : weightedIndex (out.map (fun p => Real.exp (θ * (p.map L.scoreAt).sum))) =
        some ((paths.map f).map fun ys => Real.exp (θ * (score ys : ℝ)) /
          ((paths.map f).map fun ys => Real.exp (θ * (score ys : ℝ))).sum) := by
      rw [weightedIndex_pos, hws, List.map_map]
      · rfl
      · simpa using hone
      · intro w hw
        obtain ⟨x, -, rfl⟩ := List.mem_map.1 hw
        exact Real.exp_pos _
    have h3 : L.sampleNbest H fuel n θ = some (out.zip ((paths.map f).map fun ys => Real.exp (θ * (score ys : ℝ)) /
          ((paths.map f).map fun ys => Real.exp (θ * (score ys : ℝ))).sum)) := by
      rw [Lattice.sampleNbest, hout, Option.bind_some]
      obtain ⟨p, ps, rfl⟩ := List.exists_cons_of_ne_nil hone
      simp only
      rw [hwi]
    rw [encodeWith, if_neg hne, if_neg h1, encodeUnoptimizedWith, hpop, Option.bind_some, h2, h3, Option.map_some]
    congr 1
    rw [hpe]
    generalize ((paths.map f).map fun ys => Real.exp (θ * (score ys : ℝ))).sum = c
    rw [List.map_map, List.zip_map', List.map_map, List.map_map]
    apply List.map_congr_left
    intro is his
    have hpa := sp.paths is his
    have := piecesOf_path hM hm (L := L) (hEe ▸ hL) (is := is) (by rw [hEe]; exact hpa)
    rw [hEe] at this
    have hmk := marked_layout (f is) [] s rfl (hf is hpa).1
    simp only [blen_nil, (hf is hpa).2, List.nil_append] at hmk
    simp only [Function.comp_apply, this, hmk, shown]

/-! ### For other values of `alpha`, `sample` does not follow the scores -/

/-- `abc` has two segmentations, `a b c` and `abc`, with the same score. -/
def tieVocab : List (Str × Rat) :=
  [("<unk>".toList, 0), ("a".toList, -1), ("b".toList, -1), ("c".toList, -1), ("abc".toList, -3)]

/-- The edges of `abc`. -/
def tieEdges : List Edge := [⟨0, 1, some 1, -1⟩, ⟨0, 3, some 4, -3⟩, ⟨1, 2, some 2, -1⟩, ⟨2, 3, some 3, -1⟩]

theorem tie_piece {t : Str} {i : Nat} {sc : Rat} (h1 : t ≠ []) (h2 : tieVocab[i]? = some (t, sc))
    (h3 : ∀ j < 5, i < j → (tieVocab[j]?.map (·.1)) ≠ some t) : IsPiece tieVocab (some 0) (-3) ⟨t, some i, sc⟩ := by
  refine .inl ⟨h1, i, rfl, h2, ?_⟩
  intro j sc' hj h
  have hlt := (List.getElem?_eq_some_iff.1 h).1
  exact h3 j hlt hj (by rw [h]; rfl)

theorem tie_probs {L : Lattice} {s : Str} (hs : blen s = 3) (hF : Full s tieEdges) (hL : IsLattice s tieEdges L) (θ : ℝ) :
    edgeProb tieEdges θ (L.sampleAlpha θ) 0 = 1 ∧ edgeProb tieEdges θ (L.sampleAlpha θ) 2 = 1 ∧
    edgeProb tieEdges θ (L.sampleAlpha θ) 3 =
      Real.exp (θ - θ ^ 2) * edgeProb tieEdges θ (L.sampleAlpha θ) 1 := by
  obtain ⟨a0, hfix⟩ := sampleAlpha_spec hF hL θ
  have first : ∀ n, L.isFirst [n] n = true := by intro n; simp [Lattice.isFirst, Lattice.sameId]
  have sc : ∀ i, i < 4 → L.scoreAt (i + 2) = (edgeScore tieEdges i : ℝ) := fun i hi => hL.scoreAt hi
  have b0 : L.beginNodes 0 = [2, 3] := by rw [hL.begins_eq hF, if_neg (by omega)]; decide
  have b1 : L.beginNodes 1 = [4] := by rw [hL.begins_eq hF, if_neg (by omega)]; decide
  have b2 : L.beginNodes 2 = [5] := by rw [hL.begins_eq hF, if_neg (by omega)]; decide
  have e0 : L.endNodes 0 = [0] := by rw [hL.ends_eq hF, if_pos rfl]
  have e1 : L.endNodes 1 = [2] := by rw [hL.ends_eq hF, if_neg (by omega)]; decide
  have e2 : L.endNodes 2 = [4] := by rw [hL.ends_eq hF, if_neg (by omega)]; decide
  have l2 : L.sampleAlpha θ 2 = 0 := by
    rw [hfix 0 (by omega) 2 (by rw [b0]; simp), e0]
    simp only [List.foldl_cons, List.foldl_nil, first, logSumExp_init, hL.score0, a0]
    ring
  have l3 : L.sampleAlpha θ 3 = 0 := by
    rw [hfix 0 (by omega) 3 (by rw [b0]; simp), e0]
    simp only [List.foldl_cons, List.foldl_nil, first, logSumExp_init, hL.score0, a0]
    ring
  have s0 : (edgeScore tieEdges 0 : ℝ) = -1 := by simp [edgeScore, tieEdges]
  have s1 : (edgeScore tieEdges 1 : ℝ) = -3 := by simp [edgeScore, tieEdges]
  have s2 : (edgeScore tieEdges 2 : ℝ) = -1 := by simp [edgeScore, tieEdges]
  have s3 : (edgeScore tieEdges 3 : ℝ) = -1 := by simp [edgeScore, tieEdges]
  have l4 : L.sampleAlpha θ 4 = -θ := by
    rw [hfix 1 (by omega) 4 (by rw [b1]; simp), e1]
    simp only [List.foldl_cons, List.foldl_nil, first, logSumExp_init, l2, sc 0 (by omega), s0]
    ring
  have l5 : L.sampleAlpha θ 5 = -θ - θ ^ 2 := by
    rw [hfix 2 (by omega) 5 (by rw [b2]; simp), e2]
    simp only [List.foldl_cons, List.foldl_nil, first, logSumExp_init, l4, sc 2 (by omega), s2]
    ring
  have t0 : stopping tieEdges (stopOf tieEdges 0) = [0] := by decide
  have t1 : stopping tieEdges (stopOf tieEdges 1) = [1, 3] := by decide
  have t2 : stopping tieEdges (stopOf tieEdges 2) = [2] := by decide
  have t3 : stopping tieEdges (stopOf tieEdges 3) = [1, 3] := by decide
  have w : ∀ i, edgeWeight tieEdges θ (L.sampleAlpha θ) i ≠ 0 := fun i => Real.exp_ne_zero _
  refine ⟨?_, ?_, ?_⟩
  · rw [edgeProb, t0, List.map_cons, List.map_nil, List.sum_singleton, div_self (w 0)]
  · rw [edgeProb, t2, List.map_cons, List.map_nil, List.sum_singleton, div_self (w 2)]
  · rw [edgeProb, edgeProb, t1, t3, mul_div_assoc']
    congr 1
    rw [edgeWeight, edgeWeight, ← Real.exp_add, l5, l3, s3, s1]
    ring_nf

/-- The two segmentations of `abc` have the same score, so no sampling by score can prefer one of them, whatever
`alpha` is. The code prefers one for every `alpha` other than 0 and 1, for example `a b c` by the factor `exp(1/4)` for
`alpha = 1/2`: the forward pass multiplies by `theta` the value of a position, in which `theta` is a factor already. -/
theorem C68_not_by_score {θ : ℝ} (h0 : θ ≠ 0) (h1 : θ ≠ 1) (H : Heap) (fuel : Nat) :
    ∃ u xs ys p q, Unigram.from tieVocab (some 0) false = .ok u ∧ IsMinScore tieVocab (-3) ∧
      Seg tieVocab (some 0) (-3) "abc".toList xs ∧ Seg tieVocab (some 0) (-3) "abc".toList ys ∧ score xs = score ys ∧
      u.encodeWith H fuel none (some θ) "abc".toList =
        some [(.ok (shown (some 0) xs), p), (.ok (shown (some 0) ys), q)] ∧ q = Real.exp (θ - θ ^ 2) * p ∧ p ≠ q := by
  have hm : IsMinScore tieVocab (-3) := ⟨⟨"abc".toList, by decide⟩, by decide⟩
  let u : Unigram := (Unigram.from tieVocab (some 0) false).toOption.get (by decide +kernel)
  have hu : Unigram.from tieVocab (some 0) false = .ok u := rfl
  have hE : u.edgesFrom 0 "abc".toList = tieEdges := by decide +kernel
  have hM := made_of_from hu
  obtain ⟨L, hpop, hF, hL, hb, -⟩ := lattice_of hu "abc".toList
  have hpo : ∀ is, IdxPath tieEdges 0 3 is → u.piecesOf L (is.map (· + 2)) =
      .ok (fuse (marked "abc".toList (some 0) (edgesOf tieEdges is))) := by
    intro is his
    have := piecesOf_path hM hm hL (is := is) (by rw [hE]; exact his)
    rwa [hE] at this
  rw [hE] at hF hL hb
  obtain ⟨t0, t2, t3⟩ := tie_probs (s := "abc".toList) (by decide) hF hL θ
  have hp1 : 0 < edgeProb tieEdges θ (L.sampleAlpha θ) 1 := edgeProb_pos (by decide)
  refine ⟨u, [⟨"abc".toList, some 4, -3⟩],
    [⟨"a".toList, some 1, -1⟩, ⟨"b".toList, some 2, -1⟩, ⟨"c".toList, some 3, -1⟩],
    edgeProb tieEdges θ (L.sampleAlpha θ) 1, edgeProb tieEdges θ (L.sampleAlpha θ) 3, hu, hm, ?_, ?_, by decide +kernel,
    ?_, t3, ?_⟩
  · refine ⟨by decide, ?_⟩
    intro x hx
    rw [List.mem_singleton] at hx
    rw [hx]
    exact tie_piece (by decide) (by decide +kernel) (by decide)
  · refine ⟨by decide, ?_⟩
    intro x hx
    simp only [List.mem_cons, List.not_mem_nil, or_false] at hx
    rcases hx with rfl | rfl | rfl <;> exact tie_piece (by decide) (by decide +kernel) (by decide)
  · have h2 : ¬ ((some θ : Option ℝ) = none ∨ some θ = some 0) := by simp [h0]
    have h3 : pathsTo tieEdges (blen "abc".toList) (blen "abc".toList) = [[1], [0, 2, 3]] := by decide +kernel
    rw [encodeWith, if_neg (by decide), if_neg h2, encodeUnoptimizedWith, hpop, Option.bind_some]
    show Option.map _ (L.sample θ) = _
    rw [sample_eq hF hL hb θ, h3]
    have p1 := hpo [1] ⟨_, rfl, rfl, rfl⟩
    have p2 := hpo [0, 2, 3] ⟨_, rfl, rfl, _, rfl, rfl, _, rfl, rfl, rfl⟩
    have q1 : ([1].map (edgeProb tieEdges θ (L.sampleAlpha θ))).prod = edgeProb tieEdges θ (L.sampleAlpha θ) 1 := by simp
    have q2 : ([0, 2, 3].map (edgeProb tieEdges θ (L.sampleAlpha θ))).prod =
        edgeProb tieEdges θ (L.sampleAlpha θ) 3 := by simp [t0, t2]
    show some [(u.piecesOf L ([1].map (· + 2)), ([1].map (edgeProb tieEdges θ (L.sampleAlpha θ))).prod),
      (u.piecesOf L ([0, 2, 3].map (· + 2)), ([0, 2, 3].map (edgeProb tieEdges θ (L.sampleAlpha θ))).prod)] = _
    rw [p1, p2, q1, q2]
    rfl
  · rw [t3]
    intro h
    have h2 : Real.exp (θ - θ ^ 2) = 1 := by
      have : (Real.exp (θ - θ ^ 2) - 1) * edgeProb tieEdges θ (L.sampleAlpha θ) 1 = 0 := by linarith
      rcases mul_eq_zero.1 this with h | h
      · linarith
      · exact absurd h hp1.ne'
    rw [Real.exp_eq_one_iff] at h2
    have h3 : θ * (1 - θ) = 0 := by linarith [h2, sq θ]
    rcases mul_eq_zero.1 h3 with h | h
    · exact h0 h
    · exact h1 (by linarith)

end Tok.Unigram
