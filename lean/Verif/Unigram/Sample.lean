import Verif.Unigram.C60Model

/-!
# Model of sampling (`Lattice::sample`, `Lattice::sample_nbest`, `Unigram::encode` with `alpha`)

A function that draws random numbers returns here all its possible results, each with its probability. Numbers are
reals, as in `Marginal.lean`.
-/

namespace Tok.Unigram

/-- The possible results of a random choice, each with its probability. -/
abbrev Dist (α : Type) := List (α × ℝ)

/-- `rand::distr::weighted::WeightedIndex::new(&ws)` and the probability of each index it then returns (external
crate: this is its documentation). `none`: no weights, a negative one, or all of them zero. -/
noncomputable def weightedIndex (ws : List ℝ) : Option (List ℝ) :=
  if ws = [] ∨ (∃ w ∈ ws, w < 0) ∨ ws.sum = 0 then none else some (ws.map (· / ws.sum))

/-- `lattice.rs:391-395`: one assignment to entry `r`; the vector is a function of the index. -/
noncomputable def Lattice.sampleStep (L : Lattice) (θ : ℝ) (ls : List Nat) (r : Nat) (al : Nat → ℝ) (l : Nat) :
    Nat → ℝ :=
  fun n => if n = r then logSumExp (al r) (θ * (L.scoreAt l + al l)) (L.isFirst ls l) else al n

/-- `lattice.rs:387-398`: all assignments for one position. -/
noncomputable def Lattice.samplePos (L : Lattice) (θ : ℝ) (al : Nat → ℝ) (pos : Nat) : Nat → ℝ :=
  (L.beginNodes pos).foldl (fun al r => (L.endNodes pos).foldl (L.sampleStep θ (L.endNodes pos) r) al) al

/-- `lattice.rs:385-399`: the forward pass of `sample`. -/
noncomputable def Lattice.sampleAlpha (L : Lattice) (θ : ℝ) : Nat → ℝ :=
  (List.range (L.len + 1)).foldl (L.samplePos θ) (fun _ => 0)

/-- `lattice.rs:410-413`: the weights of the nodes that end where the node ends that was chosen last. -/
noncomputable def Lattice.sampleWeights (L : Lattice) (θ : ℝ) (al : Nat → ℝ) (z : ℝ) (ls : List Nat) : List ℝ :=
  ls.map fun l => Real.exp (al l + θ * L.scoreAt l - z)

/-- `lattice.rs:406-422`: the loop, from node `node` on; the results are in the order in which they are pushed.
`none`: `unwrap` panics, or more than `fuel` rounds are needed; neither happens (`C68_sample`). -/
noncomputable def Lattice.draw (L : Lattice) (θ : ℝ) (al : Nat → ℝ) (bos : Nat) :
    Nat → Nat → ℝ → Option (Dist (List Nat))
  | 0, _, _ => none
  | fuel + 1, node, z =>
    (L.nodes[node]?).bind fun nd =>
      (weightedIndex (L.sampleWeights θ al z (L.endNodes nd.pos))).bind fun ps =>
        (((L.endNodes nd.pos).zip ps).mapM fun x =>
          if L.sameId x.1 bos then some [([], x.2)]
          else (L.draw θ al bos fuel x.1 (al x.1)).map fun ds => ds.map fun d => (x.1 :: d.1, x.2 * d.2)).map
            List.flatten

/-- `lattice.rs:380-425` `Lattice::sample`, as node indices. -/
noncomputable def Lattice.sample (L : Lattice) (θ : ℝ) : Option (Dist (List Nat)) :=
  if L.len = 0 then some [([], 1)]
  else
    match L.beginNodes L.len, L.endNodes 0 with
    | eos :: _, bos :: _ =>
      (L.draw θ (L.sampleAlpha θ) bos (L.len + 1) eos (L.sampleAlpha θ eos)).map fun ds =>
        ds.map fun d => (d.1.reverse, d.2)
    | _, _ => none

/-- `lattice.rs:434-451` `Lattice::sample_nbest`, as node indices. -/
noncomputable def Lattice.sampleNbest (H : Heap) (L : Lattice) (fuel n : Nat) (θ : ℝ) : Option (Dist (List Nat)) :=
  (L.nbest H fuel n).bind fun paths =>
    match paths with
    | [] => L.viterbi.map fun p => [(p, 1)]
    | p :: ps =>
      match weightedIndex ((p :: ps).map fun p => Real.exp (θ * (p.map L.scoreAt).sum)) with
      | some qs => some ((p :: ps).zip qs)
      | none => some [(p, 1)]

/-- `model.rs:354-379`: the pieces of a path. -/
def piecesOf (u : Unigram) (L : Lattice) (path : List Nat) : Outcome UniErr (List Str) :=
  if u.fuseUnk then fuseLoop u L path [] []
  else match path.mapM (fun n => (L.nodes[n]?).bind L.piece) with
    | none => .panic
    | some r => .ok r

/-- `model.rs:349-353`: which path is taken. -/
noncomputable def pathDist (H : Heap) (fuel : Nat) (nbestSize : Option Nat) (alpha : Option ℝ) (L : Lattice) :
    Option (Dist (List Nat)) :=
  match nbestSize, alpha with
  | some (n + 1), some θ => L.sampleNbest H fuel (n + 1) θ
  | _, some θ => L.sample θ
  | _, none => L.viterbi.map fun p => [(p, 1)]

/-- `model.rs:346-380` `Unigram::encode_unoptimized`. -/
noncomputable def encodeUnoptimizedWith (u : Unigram) (H : Heap) (fuel : Nat) (nbestSize : Option Nat)
    (alpha : Option ℝ) (s : Str) : Option (Dist (Outcome UniErr (List Str))) :=
  (u.populateNodes (Lattice.from s u.bosId u.eosId)).bind fun L =>
    (pathDist H fuel nbestSize alpha L).map fun ds => ds.map fun d => (u.piecesOf L d.1, d.2)

/-- `model.rs:231-253` `Unigram::encode`, with an empty cache. -/
noncomputable def encodeWith (u : Unigram) (H : Heap) (fuel : Nat) (nbestSize : Option Nat) (alpha : Option ℝ)
    (s : Str) : Option (Dist (Outcome UniErr (List Str))) :=
  if s = [] then some [(.ok [], 1)]
  else if alpha = none ∨ alpha = some 0 then
    if u.isOptimized then some [(u.encodeOptimized s, 1)] else u.encodeUnoptimizedWith H fuel nbestSize alpha s
  else u.encodeUnoptimizedWith H fuel nbestSize alpha s

/-! ### Lemmas on `WeightedIndex` -/

theorem sum_pos_of {ws : List ℝ} (h : ws ≠ []) (hp : ∀ w ∈ ws, 0 < w) : 0 < ws.sum := by
  cases ws with
  | nil => exact absurd rfl h
  | cons w ws =>
    have h1 : 0 ≤ ws.sum := List.sum_nonneg (fun x hx => (hp x (by simp [hx])).le)
    have h2 := hp w (by simp)
    simp only [List.sum_cons]
    linarith

theorem weightedIndex_pos {ws : List ℝ} (h : ws ≠ []) (hp : ∀ w ∈ ws, 0 < w) :
    weightedIndex ws = some (ws.map (· / ws.sum)) := by
  unfold weightedIndex
  rw [if_neg]
  rintro (h1 | ⟨w, hw, h1⟩ | h1)
  · exact h h1
  · exact absurd (hp w hw) (by linarith)
  · have := sum_pos_of h hp; linarith

theorem sum_map_div (ws : List ℝ) (c : ℝ) : (ws.map (· / c)).sum = ws.sum / c := by
  induction ws with
  | nil => simp
  | cons w ws ih => simp only [List.map_cons, List.sum_cons, ih]; ring

/-! ### The draws are the paths -/

variable {s : Str} {E : List Edge} {L : Lattice}

/-- Weight of the edge with index `i` among those that stop where it stops. -/
noncomputable def edgeWeight (E : List Edge) (θ : ℝ) (al : Nat → ℝ) (i : Nat) : ℝ :=
  Real.exp (al (i + 2) + θ * (edgeScore E i : ℝ))

/-- Probability of choosing the edge with index `i` among those that stop where it stops. -/
noncomputable def edgeProb (E : List Edge) (θ : ℝ) (al : Nat → ℝ) (i : Nat) : ℝ :=
  edgeWeight E θ al i / ((stopping E (stopOf E i)).map (edgeWeight E θ al)).sum

theorem edgeProb_pos {θ : ℝ} {al : Nat → ℝ} {i : Nat} (hi : i < E.length) : 0 < edgeProb E θ al i := by
  unfold edgeProb
  apply div_pos (Real.exp_pos _)
  apply sum_pos_of
  · intro h
    rw [List.map_eq_nil_iff] at h
    have : i ∈ stopping E (stopOf E i) := mem_stopping.2 ⟨E[i], by simp [hi], by simp [stopOf, hi]⟩
    rw [h] at this
    simp at this
  · intro w hw
    obtain ⟨j, -, rfl⟩ := List.mem_map.1 hw
    exact Real.exp_pos _

theorem mapM_eq_some {α β : Type} {f : α → Option β} {g : α → β} : ∀ {l : List α}, (∀ a ∈ l, f a = some (g a)) →
    l.mapM f = some (l.map g)
  | [], _ => rfl
  | a :: l, h => by
    rw [List.mapM_cons, h a (by simp), mapM_eq_some (fun b hb => h b (by simp [hb]))]
    rfl

/-- Begin-of-sentence has a vocabulary id of its own. -/
def BosApart (E : List Edge) (L : Lattice) : Prop := ∀ i, i < E.length → L.sameId (i + 2) 0 = false

theorem draw_eq (hF : Full s E) (hL : IsLattice s E L) (hb : BosApart E L) (θ : ℝ) (al : Nat → ℝ) :
    ∀ (f q : Nat), q ≤ f → (∃ a, a <+: s ∧ q = blen a) → ∀ (node : Nat) (nd : LNode), L.nodes[node]? = some nd →
      nd.pos = q → ∀ z, L.draw θ al 0 (f + 1) node z = some ((pathsTo E f q).map fun is =>
        ((is.map (· + 2)).reverse, (is.map (edgeProb E θ al)).prod)) := by
  have h00 : L.sameId 0 0 = true := by simp [Lattice.sameId]
  intro f
  induction f with
  | zero =>
    intro q hq _ node nd hn hp z
    obtain rfl : q = 0 := by omega
    unfold Lattice.draw
    rw [hn, Option.bind_some, hp, hL.ends_eq hF 0, if_pos rfl]
    rw [show L.sampleWeights θ al z [0] = [Real.exp (al 0 + θ * L.scoreAt 0 - z)] from rfl,
      weightedIndex_pos (by simp) (by intro w hw; rw [List.mem_singleton] at hw; rw [hw]; exact Real.exp_pos _)]
    simp [h00, pathsTo]
  | succ f ih =>
    intro q hq hpre node nd hn hp z
    by_cases h0 : q = 0
    · subst h0
      unfold Lattice.draw
      rw [hn, Option.bind_some, hp, hL.ends_eq hF 0, if_pos rfl]
      rw [show L.sampleWeights θ al z [0] = [Real.exp (al 0 + θ * L.scoreAt 0 - z)] from rfl,
        weightedIndex_pos (by simp) (by intro w hw; rw [List.mem_singleton] at hw; rw [hw]; exact Real.exp_pos _)]
      simp [h00, pathsTo]
    · have hst : stopping E q ≠ [] := by
        obtain ⟨a, ha, hqa⟩ := hpre
        rcases hF.reached a ha with h | ⟨e, he, hs⟩
        · omega
        · obtain ⟨i, hi⟩ := List.mem_iff_getElem?.1 he
          have : i ∈ stopping E q := mem_stopping.2 ⟨e, hi, by omega⟩
          exact List.ne_nil_of_mem this
      have hscore : ∀ i ∈ stopping E q, L.scoreAt (i + 2) = (edgeScore E i : ℝ) := by
        intro i hi
        obtain ⟨e, he, -⟩ := mem_stopping.1 hi
        exact hL.scoreAt (List.getElem?_eq_some_iff.1 he).1
      have hws : L.sampleWeights θ al z ((stopping E q).map (· + 2)) =
          (stopping E q).map (fun i => edgeWeight E θ al i * Real.exp (-z)) := by
        unfold Lattice.sampleWeights
        rw [List.map_map]
        apply List.map_congr_left
        intro i hi
        simp only [Function.comp_apply, hscore i hi, edgeWeight]
        rw [← Real.exp_add]
        ring_nf
      have hsum : ((stopping E q).map (fun i => edgeWeight E θ al i * Real.exp (-z))).sum =
          ((stopping E q).map (edgeWeight E θ al)).sum * Real.exp (-z) := by
        induction stopping E q with
        | nil => simp
        | cons i l ih => simp only [List.map_cons, List.sum_cons, ih]; ring
      have hps : weightedIndex (L.sampleWeights θ al z ((stopping E q).map (· + 2))) =
          some ((stopping E q).map (edgeProb E θ al)) := by
        rw [hws, weightedIndex_pos (by simpa using hst), hsum, List.map_map]
        · congr 1
          apply List.map_congr_left
          intro i hi
          obtain ⟨e, he, hes⟩ := mem_stopping.1 hi
          have : stopOf E i = q := by simp [stopOf, he, hes]
          simp only [Function.comp_apply, edgeProb, this]
          rw [mul_div_mul_right _ _ (Real.exp_ne_zero _)]
        · intro w hw
          obtain ⟨i, -, rfl⟩ := List.mem_map.1 hw
          exact mul_pos (Real.exp_pos _) (Real.exp_pos _)
      rw [Lattice.draw, hn, Option.bind_some, hp, hL.ends_eq hF q, if_neg h0, hps, Option.bind_some,
        List.zip_map']
      have hm : ∀ x ∈ (stopping E q).map (fun i => (i + 2, edgeProb E θ al i)),
          (if L.sameId x.1 0 then some [([], x.2)]
            else (L.draw θ al 0 (f + 1) x.1 (al x.1)).map fun ds => ds.map fun d => (x.1 :: d.1, x.2 * d.2)) =
          some ((pathsTo E f (startOf E (x.1 - 2))).map fun is =>
            ((((is ++ [x.1 - 2]).map (· + 2)).reverse, (is.map (edgeProb E θ al)).prod * x.2))) := by
        intro x hx
        obtain ⟨i, hi, rfl⟩ := List.mem_map.1 hx
        obtain ⟨e, he, hes⟩ := mem_stopping.1 hi
        have hlen := (List.getElem?_eq_some_iff.1 he).1
        have hlt := hF.lt e (List.mem_of_getElem? he)
        have hso : startOf E i = e.start := by simp [startOf, he]
        rw [hb i hlen, ih e.start (by omega) (hF.start e (List.mem_of_getElem? he)) (i + 2) _ (hL.node i e he) rfl]
        simp [hso, mul_comm]
      rw [mapM_eq_some hm, Option.map_some, pathsTo, if_neg h0, List.map_flatMap, List.map_map, List.flatMap_def]
      congr 3
      funext i
      simp

/-- The probabilities of the paths to a position add up to 1. -/
theorem sum_pathsTo (hF : Full s E) (θ : ℝ) (al : Nat → ℝ) : ∀ (f q : Nat), q ≤ f → (∃ a, a <+: s ∧ q = blen a) →
    ((pathsTo E f q).map fun is => (is.map (edgeProb E θ al)).prod).sum = 1 := by
  intro f
  induction f with
  | zero =>
    intro q hq _
    obtain rfl : q = 0 := by omega
    simp [pathsTo]
  | succ f ih =>
    intro q hq hpre
    by_cases h0 : q = 0
    · subst h0; simp [pathsTo]
    · have hst : stopping E q ≠ [] := by
        obtain ⟨a, ha, hqa⟩ := hpre
        rcases hF.reached a ha with h | ⟨e, he, hs⟩
        · omega
        · obtain ⟨i, hi⟩ := List.mem_iff_getElem?.1 he
          have : i ∈ stopping E q := mem_stopping.2 ⟨e, hi, by omega⟩
          exact List.ne_nil_of_mem this
      have h1 : ∀ i ∈ stopping E q, ((pathsTo E f (startOf E i)).map
          fun is => ((is ++ [i]).map (edgeProb E θ al)).prod).sum = edgeProb E θ al i := by
        intro i hi
        obtain ⟨e, he, hes⟩ := mem_stopping.1 hi
        have hlt := hF.lt e (List.mem_of_getElem? he)
        have hso : startOf E i = e.start := by simp [startOf, he]
        have := ih e.start (by omega) (hF.start e (List.mem_of_getElem? he))
        rw [hso]
        have h2 : (pathsTo E f e.start).map (fun is => ((is ++ [i]).map (edgeProb E θ al)).prod) =
            (pathsTo E f e.start).map (fun is => (is.map (edgeProb E θ al)).prod * edgeProb E θ al i) := by
          apply List.map_congr_left
          intro is _
          simp
        rw [h2, List.sum_map_mul_right, this, one_mul]
      have h3 : ((pathsTo E (f + 1) q).map fun is => (is.map (edgeProb E θ al)).prod).sum =
          ((stopping E q).map (edgeProb E θ al)).sum := by
        rw [pathsTo, if_neg h0]
        generalize hl : stopping E q = l at h1
        clear hl hst
        induction l with
        | nil => simp
        | cons i l ihl =>
          rw [List.flatMap_cons, List.map_append, List.sum_append, ihl (fun j hj => h1 j (by simp [hj])),
            List.map_map, List.map_cons, List.sum_cons]
          congr 1
          exact h1 i (by simp)
      rw [h3]
      have h4 : (stopping E q).map (edgeProb E θ al) = ((stopping E q).map (edgeWeight E θ al)).map
          (· / ((stopping E q).map (edgeWeight E θ al)).sum) := by
        rw [List.map_map]
        apply List.map_congr_left
        intro i hi
        obtain ⟨e, he, hes⟩ := mem_stopping.1 hi
        have : stopOf E i = q := by simp [stopOf, he, hes]
        simp [edgeProb, this]
      rw [h4, sum_map_div]
      apply div_self
      apply ne_of_gt
      apply sum_pos_of (by simpa using hst)
      intro w hw
      obtain ⟨i, -, rfl⟩ := List.mem_map.1 hw
      exact Real.exp_pos _

end Tok.Unigram
