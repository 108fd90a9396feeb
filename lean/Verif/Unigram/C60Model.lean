import Verif.Unigram.C60

/-!
# C60 for the lattice that `populate_nodes` builds, in terms of segmentations of the sentence
-/

namespace Tok.Unigram

variable {vocab : List (Str × Rat)} {unk : Option Nat} {u : Unigram} {s : Str}

/-! ### Edges of the model -/

theorem mapM_lookup_lengths (u : Unigram) : ∀ (l : List (List UInt8)) (ms : List (Nat × Nat × Rat)),
    l.mapM u.lookup = some ms → ms.map (·.1) = l.map List.length
  | [], ms, h => by simp at h; simp [h]
  | b :: l, ms, h => by
    simp only [List.mapM_cons, Option.bind_eq_bind, Option.bind_eq_some_iff, Option.pure_def, Option.some.injEq] at h
    obtain ⟨x, hx, ys, hys, rfl⟩ := h
    have h1 : x.1 = b.length := by
      simp only [lookup, Option.bind_eq_some_iff, Option.map_eq_some_iff] at hx
      obtain ⟨_, -, _, -, _, -, rfl⟩ := hx
      rfl
    simp [h1, mapM_lookup_lengths u l ys hys]

theorem Made.nodup_edgesAt (hu : Made vocab unk u) (pos : Nat) (c : Char) (cs : Str) :
    (u.edgesAt pos c ((u.lookups (c :: cs)).getD [])).Nodup := by
  obtain ⟨ms, h1, -⟩ := hu.lookups_spec (c :: cs)
  rw [h1, Option.getD_some]
  have hlen : (ms.map (·.1)).Nodup := by
    rw [mapM_lookup_lengths u _ ms h1]
    have := (Trie.C25_order (vocab.map (fun p => strBytes p.1)) (strBytes (c :: cs))).1
    rw [← hu.trie_eq] at this
    exact List.pairwise_map.2 (this.imp (fun h => Nat.ne_of_lt h))
  have key : ((u.edgesAt pos c ms).map (fun e => e.stop - pos)).Nodup := by
    simp only [edgesAt, List.map_append, List.map_map]
    have e1 : ms.map ((fun e : Edge => e.stop - pos) ∘ fun m => ⟨pos, pos + m.1, some m.2.1, m.2.2⟩) = ms.map (·.1) := by
      apply List.map_congr_left
      intro m _
      simp
    rw [e1]
    split
    · simpa using hlen
    · rename_i h
      rw [List.nodup_append]
      refine ⟨hlen, by simp, ?_⟩
      rintro a ha b hb rfl
      simp at hb
      subst hb
      obtain ⟨m, hm, hm'⟩ := List.mem_map.1 ha
      exact h (List.any_eq_true.2 ⟨m, hm, by simpa using hm'⟩)
  exact key.of_map

theorem Made.nodup_edgesFrom (hu : Made vocab unk u) {m : Rat} (hm : IsMinScore vocab m) : ∀ (s : Str) (pos : Nat),
    (u.edgesFrom pos s).Nodup
  | [], pos => by simp [edgesFrom]
  | c :: cs, pos => by
    rw [edgesFrom, List.nodup_append]
    refine ⟨hu.nodup_edgesAt pos c cs, hu.nodup_edgesFrom hm cs _, ?_⟩
    rintro e he f hf rfl
    obtain ⟨x, -, -, rfl⟩ := (hu.mem_edgesAt hm pos c cs e).1 he
    have := (hu.edge_lt hm hf).1
    have := Char.utf8Size_pos c
    dsimp only at *
    omega

theorem Made.stops (hu : Made vocab unk u) {m : Rat} (hm : IsMinScore vocab m) : Stops s (u.edgesFrom 0 s) := by
  intro e he
  obtain ⟨a, b, x, h, -, rfl⟩ := (hu.mem_edgesFrom hm s 0 e).1 he
  exact ⟨a ++ x.text, ⟨b, by rw [h]⟩, by simp⟩

/-- The text of the unknown token does not occur in the sentence. -/
def NoUnkText (vocab : List (Str × Rat)) (k : Nat) (s : Str) : Prop :=
  ∀ t sc, vocab[k]? = some (t, sc) → t ≠ [] → ¬ t <:+: s

theorem Made.idsApart {k : Nat} (hu : Made vocab (some k) u) {m : Rat} (hm : IsMinScore vocab m)
    (hno : NoUnkText vocab k s) : IdsApart (u.edgesFrom 0 s) := by
  intro i j e f hi hj hne hsh hid
  have hnd := hu.nodup_edgesFrom hm s 0
  apply hne
  have hef : e = f := by
    obtain ⟨a, b, x, h1, hx, rfl⟩ := (hu.mem_edgesFrom hm s 0 e).1 (List.mem_of_getElem? hi)
    obtain ⟨a', b', y, h2, hy, rfl⟩ := (hu.mem_edgesFrom hm s 0 f).1 (List.mem_of_getElem? hj)
    have htext : x.text = y.text ∧ x.id = y.id ∧ x.score = y.score := by
      rcases hx with ⟨hx1, i1, hx2, hx3⟩ | ⟨c, hx1, hx2, hx3, hx4⟩ <;>
        rcases hy with ⟨hy1, j1, hy2, hy3⟩ | ⟨d, hy1, hy2, hy3, hy4⟩
      · simp only [hx2, hy2, Option.getD_some] at hid
        subst hid
        have := hx3.1.symm.trans hy3.1
        simp only [Option.some.injEq, Prod.mk.injEq] at this
        exact ⟨this.1, by rw [hx2, hy2], this.2⟩
      · simp only [hx2, hy3, Option.getD_some] at hid
        subst hid
        exact absurd ⟨a, b, h1.symm⟩ (hno _ _ hx3.1 hx1)
      · simp only [hy2, hx3, Option.getD_some] at hid
        subst hid
        exact absurd ⟨a', b', h2.symm⟩ (hno _ _ hy3.1 hy1)
      · have hcd : c = d := by
          rcases hsh with h | h
          · -- same end
            simp only [Nat.zero_add] at h
            have hp : a ++ x.text = a' ++ y.text := by
              apply prefix_blen_eq (s := s) ⟨b, h1.symm⟩ ⟨b', h2.symm⟩
              simpa using h
            rw [hx1, hy1] at hp
            have := congrArg List.getLast? hp
            simpa using this
          · simp only [Nat.zero_add] at h
            have hp : a = a' := prefix_blen_eq (s := s) ⟨x.text ++ b, by simp [h1]⟩ ⟨y.text ++ b', by simp [h2]⟩ h
            rw [h1, hp, hx1, hy1] at h2
            simp at h2
            exact h2.1
        refine ⟨by rw [hx1, hy1, hcd], by rw [hx3, hy3], by rw [hx4, hy4]⟩
    obtain ⟨t1, t2, t3⟩ := htext
    simp only [t1, t2, t3] at hsh ⊢
    rcases hsh with h | h
    · have : blen a = blen a' := by omega
      simp [this]
    · have : blen a = blen a' := by omega
      simp [this]
  subst hef
  have hi' := List.getElem?_eq_some_iff.1 hi
  have hj' := List.getElem?_eq_some_iff.1 hj
  exact (List.Nodup.getElem_inj_iff hnd).1 (hi'.2.trans hj'.2.symm)

/-! ### Index paths and segmentations -/

/-- The edges of an index path. -/
def edgesOf (E : List Edge) (is : List Nat) : List Edge := is.filterMap (fun i => E[i]?)

variable {E : List Edge}

theorem edgesOf_spec : ∀ (is : List Nat) (p q : Nat), IdxPath E p q is →
    Path E p q (edgesOf E is) ∧ total (edgesOf E is) = idxTotal E is ∧
    ∀ id, (edgesOf E is).countP (fun e => e.id.getD 0 = id) = is.countP (fun i => edgeId E i = id)
  | [], p, q, h => ⟨h, rfl, fun _ => rfl⟩
  | i :: is, p, q, ⟨e, h1, h2, h3⟩ => by
    obtain ⟨g1, g2, g3⟩ := edgesOf_spec is _ _ h3
    have e1 : edgesOf E (i :: is) = e :: edgesOf E is := by simp [edgesOf, h1]
    rw [e1]
    refine ⟨⟨List.mem_of_getElem? h1, h2, g1⟩, ?_, ?_⟩
    · rw [total_cons, g2, idxTotal_cons]
      simp [edgeScore, h1]
    · intro id
      rw [List.countP_cons, List.countP_cons, g3]
      simp [edgeId, h1]

theorem exists_idxPath : ∀ (es : List Edge) (p q : Nat), Path E p q es → ∃ is, IdxPath E p q is ∧ edgesOf E is = es
  | [], p, q, h => ⟨[], h, rfl⟩
  | e :: es, p, q, ⟨h1, h2, h3⟩ => by
    obtain ⟨i, hi⟩ := List.mem_iff_getElem?.1 h1
    obtain ⟨is, g1, g2⟩ := exists_idxPath es _ _ h3
    refine ⟨i :: is, ⟨e, hi, h2, g1⟩, ?_⟩
    rw [← g2]
    simp [edgesOf, hi]

theorem edgesOf_inj (hnd : E.Nodup) : ∀ (is js : List Nat) (p q p' q' : Nat), IdxPath E p q is → IdxPath E p' q' js →
    edgesOf E is = edgesOf E js → is = js
  | [], [], _, _, _, _, _, _, _ => rfl
  | [], j :: js, _, _, _, _, _, ⟨e, h1, _, _⟩, h => by simp [edgesOf, h1] at h
  | i :: is, [], _, _, _, _, ⟨e, h1, _, _⟩, _, h => by simp [edgesOf, h1] at h
  | i :: is, j :: js, _, _, _, _, ⟨e, h1, _, h2⟩, ⟨f, h3, _, h4⟩, h => by
    simp only [edgesOf, List.filterMap_cons, h1, h3, List.cons.injEq] at h
    obtain ⟨rfl, h⟩ := h
    have hi' := List.getElem?_eq_some_iff.1 h1
    have hj' := List.getElem?_eq_some_iff.1 h3
    have : i = j := (List.Nodup.getElem_inj_iff hnd).1 (hi'.2.trans hj'.2.symm)
    rw [this, edgesOf_inj hnd is js _ _ _ _ h2 h4 h]

theorem layout_inj : ∀ (xs ys : List Piece) (pos : Nat) (b : Str), (xs.map (·.text)).flatten = b →
    (ys.map (·.text)).flatten = b → layout pos xs = layout pos ys → xs = ys
  | [], [], _, _, _, _, _ => rfl
  | [], y :: ys, _, _, _, _, h => by simp [layout] at h
  | x :: xs, [], _, _, _, _, h => by simp [layout] at h
  | x :: xs, y :: ys, pos, b, hx, hy, h => by
    simp only [layout, List.cons.injEq, Edge.mk.injEq] at h
    obtain ⟨⟨-, h1, h2, h3⟩, h4⟩ := h
    have hb : blen x.text = blen y.text := by omega
    simp only [List.map_cons, List.flatten_cons] at hx hy
    have ht : x.text = y.text := prefix_blen_eq (s := b) ⟨_, hx⟩ ⟨_, hy⟩ hb
    have hxy : x = y := by
      cases x; cases y
      simp_all
    subst hxy
    rw [← hb] at h4
    have := layout_inj xs ys _ (xs.map (·.text)).flatten rfl (by
      rw [← hx] at hy
      exact List.append_cancel_left hy) h4
    rw [this]

theorem layout_count (id : Nat) : ∀ (xs : List Piece) (pos : Nat),
    (layout pos xs).countP (fun e => e.id.getD 0 = id) = xs.countP (fun x => x.id.getD 0 = id)
  | [], _ => rfl
  | x :: xs, pos => by rw [layout, List.countP_cons, List.countP_cons, layout_count id xs]

/-! ### The theorem -/

/-- Likelihood of the segmentations `segs`, before normalisation. -/
noncomputable def likelihood (segs : List (List Piece)) : ℝ := (segs.map (fun xs => Real.exp (score xs : ℝ))).sum

/-- The same, each counted as often as the id occurs in it. -/
noncomputable def weighted (id : Nat) (segs : List (List Piece)) : ℝ :=
  (segs.map (fun xs => Real.exp (score xs : ℝ) * (xs.countP (fun x => x.id = some id) : ℝ))).sum

/-- The segmentations of `s`, each once. -/
structure AllSegs (vocab : List (Str × Rat)) (unk : Option Nat) (m : Rat) (s : Str) (segs : List (List Piece)) : Prop where
  mem : ∀ xs, xs ∈ segs ↔ Seg vocab unk m s xs
  nodup : segs.Nodup

theorem Made.segs_perm (hu : Made vocab unk u) {m : Rat} (hm : IsMinScore vocab m) {segs : List (List Piece)}
    (hs : AllSegs vocab unk m s segs) {paths : List (List Nat)} (hp : AllPaths (u.edgesFrom 0 s) (blen s) paths) :
    (paths.map (edgesOf (u.edgesFrom 0 s))).Perm (segs.map (layout 0)) := by
  apply (List.perm_ext_iff_of_nodup _ _).2
  · intro es
    simp only [List.mem_map, hp.mem, hs.mem]
    constructor
    · rintro ⟨is, h, rfl⟩
      obtain ⟨xs, h1, h2⟩ := hu.seg_of_path hm (s := s) _ [] s rfl (edgesOf_spec is _ _ h).1
      exact ⟨xs, h1, h2⟩
    · rintro ⟨xs, ⟨h1, h2⟩, rfl⟩
      exact exists_idxPath _ _ _ (hu.path_of_seg hm (s := s) xs [] (by simp [h1]) h2)
  · apply hp.nodup.map_on
    intro x hx y hy h
    exact edgesOf_inj (hu.nodup_edgesFrom hm s 0) _ _ _ _ _ _ ((hp.mem x).1 hx) ((hp.mem y).1 hy) h
  · apply hs.nodup.map_on
    intro x hx y hy h
    exact layout_inj x y 0 s ((hs.mem x).1 hx).1 ((hs.mem y).1 hy).1 h

theorem Made.mass_eq (hu : Made vocab unk u) {m : Rat} (hm : IsMinScore vocab m) {segs : List (List Piece)}
    (hs : AllSegs vocab unk m s segs) {paths : List (List Nat)} (hp : AllPaths (u.edgesFrom 0 s) (blen s) paths) :
    mass (u.edgesFrom 0 s) paths = likelihood segs := by
  have h := (hu.segs_perm hm hs hp).map (fun es => Real.exp (total es : ℝ))
  have h1 := h.sum_eq
  rw [List.map_map, List.map_map] at h1
  have e1 : paths.map ((fun es => Real.exp (total es : ℝ)) ∘ edgesOf (u.edgesFrom 0 s)) =
      paths.map (fun is => Real.exp (idxTotal (u.edgesFrom 0 s) is : ℝ)) := by
    apply List.map_congr_left
    intro is his
    simp only [Function.comp]
    rw [(edgesOf_spec is _ _ ((hp.mem is).1 his)).2.1]
  rw [e1] at h1
  rw [mass, h1, likelihood]
  congr 1
  apply List.map_congr_left
  intro xs _
  simp only [Function.comp, total_layout]

theorem Made.massOf_eq {k : Nat} (hu : Made vocab (some k) u) {m : Rat} (hm : IsMinScore vocab m) {segs : List (List Piece)}
    (hs : AllSegs vocab (some k) m s segs) {paths : List (List Nat)}
    (hp : AllPaths (u.edgesFrom 0 s) (blen s) paths) (id : Nat) :
    massOf (u.edgesFrom 0 s) id paths = weighted id segs := by
  have h := (hu.segs_perm hm hs hp).map
    (fun es => Real.exp (total es : ℝ) * (es.countP (fun e => e.id.getD 0 = id) : ℝ))
  have h1 := h.sum_eq
  rw [List.map_map, List.map_map] at h1
  have e1 : paths.map ((fun es => Real.exp (total es : ℝ) * (es.countP (fun e => e.id.getD 0 = id) : ℝ)) ∘
      edgesOf (u.edgesFrom 0 s)) = paths.map (fun is => Real.exp (idxTotal (u.edgesFrom 0 s) is : ℝ) *
        (is.countP (fun i => edgeId (u.edgesFrom 0 s) i = id) : ℝ)) := by
    apply List.map_congr_left
    intro is his
    have := edgesOf_spec is _ _ ((hp.mem is).1 his)
    simp only [Function.comp]
    rw [this.2.1, this.2.2]
  rw [e1] at h1
  rw [massOf, h1, weighted]
  congr 1
  apply List.map_congr_left
  intro xs hxs
  simp only [Function.comp, total_layout, layout_count]
  congr 2
  apply List.countP_congr
  intro x hx
  have := ((hs.mem xs).1 hxs).2 x hx
  have hsome : ∃ i, x.id = some i := by
    rcases this with ⟨-, i, hi, -⟩ | ⟨-, -, -, hi, -⟩
    · exact ⟨i, hi⟩
    · exact ⟨k, hi⟩
  obtain ⟨i, hi⟩ := hsome
  simp [hi]

/-- There are finitely many segmentations. -/
theorem allSegs_exists (hu : Made vocab unk u) {m : Rat} (hm : IsMinScore vocab m) (s : Str) :
    ∃ segs, AllSegs vocab unk m s segs := by
  classical
  have hE : ∀ e ∈ u.edgesFrom 0 s, e.start < e.stop := fun e he => (hu.edge_lt hm he).2.1
  have hp := allPaths_exists hE (blen s)
  have hch : ∀ is ∈ pathsTo (u.edgesFrom 0 s) (blen s) (blen s), ∃ xs, Seg vocab unk m s xs ∧
      layout 0 xs = edgesOf (u.edgesFrom 0 s) is := by
    intro is his
    exact hu.seg_of_path hm (s := s) _ [] s rfl (edgesOf_spec is _ _ ((hp.mem is).1 his)).1
  let f : List Nat → List Piece := fun is =>
    if h : is ∈ pathsTo (u.edgesFrom 0 s) (blen s) (blen s) then (hch is h).choose else []
  have hf : ∀ is (h : is ∈ pathsTo (u.edgesFrom 0 s) (blen s) (blen s)), Seg vocab unk m s (f is) ∧
      layout 0 (f is) = edgesOf (u.edgesFrom 0 s) is := by
    intro is h
    simp only [f, dif_pos h]
    exact (hch is h).choose_spec
  refine ⟨(pathsTo (u.edgesFrom 0 s) (blen s) (blen s)).map f, ?_, ?_⟩
  · intro xs
    rw [List.mem_map]
    constructor
    · rintro ⟨is, h, rfl⟩
      exact (hf is h).1
    · intro h
      obtain ⟨is, g1, g2⟩ := exists_idxPath _ _ _ (hu.path_of_seg hm (s := s) xs [] (by simp [h.1]) h.2)
      have hmem := (hp.mem is).2 g1
      refine ⟨is, hmem, layout_inj _ _ 0 s (hf is hmem).1.1 h.1 ?_⟩
      rw [(hf is hmem).2, g2]
      rfl
  · apply hp.nodup.map_on
    intro x hx y hy h
    apply edgesOf_inj (hu.nodup_edgesFrom hm s 0) _ _ _ _ _ _ ((hp.mem x).1 hx) ((hp.mem y).1 hy)
    rw [← (hf x hx).2, ← (hf y hy).2, h]

/-- **C60.** For a sentence in which the text of the unknown token does not occur: what `populate_marginal` returns
and adds to `expected` is the frequency times the log-likelihood of the sentence under the unigram language model, and
the frequency times the expected number of occurrences of each piece, over all its segmentations. The error is at
most `exp(-50)` per node of the lattice in the logarithm. -/
theorem C60_sentence {bf : Bool} {k : Nat} (hu : Unigram.from vocab (some k) bf = .ok u) {m : Rat}
    (hm : IsMinScore vocab m) (hno : NoUnkText vocab k s) {segs : List (List Piece)}
    (hs : AllSegs vocab (some k) m s segs) {freq : ℝ} (hf : 0 ≤ freq) {expected : List ℝ}
    (hex : vocab.length ≤ expected.length) :
    ∃ L z out, u.populateNodes (Lattice.from s u.bosId u.eosId) = some L ∧
      L.populateMarginal freq expected = some (freq * z, out) ∧ out.length = expected.length ∧
      Close L.nodes.length z (likelihood segs) ∧
      ∀ id, id < expected.length →
        freq * (weighted id segs / likelihood segs) * Real.exp (-(2 * L.nodes.length * Real.exp (-50))) ≤
          out.getD id 0 - expected.getD id 0 ∧
        out.getD id 0 - expected.getD id 0 ≤
          freq * (weighted id segs / likelihood segs) * Real.exp (L.nodes.length * Real.exp (-50)) := by
  obtain ⟨h1, hF, -, -⟩ := C47_model hu s
  have hM := made_of_from hu
  have hE : ∀ e ∈ u.edgesFrom 0 s, e.start < e.stop := fun e he => (hF.lt e he).1
  have hL : IsLattice s (u.edgesFrom 0 s) (insertEdges (Lattice.from s u.bosId u.eosId) (u.edgesFrom 0 s)) := by
    have := isLattice_insertEdges (u.edgesFrom 0 s) [] _ (isLattice_from s u.bosId u.eosId) hE
    simpa using this
  have hp := allPaths_exists hE (blen s)
  have hid : ∀ e ∈ u.edgesFrom 0 s, e.id.getD 0 < expected.length := by
    intro e he
    obtain ⟨a, b, x, -, hx, rfl⟩ := (hM.mem_edgesFrom hm s 0 e).1 he
    rcases hx with ⟨-, i, hi, hlast⟩ | ⟨-, -, -, hi, -⟩
    · have := (List.getElem?_eq_some_iff.1 hlast.1).1
      simp [hi]; omega
    · have := hM.unk_lt k rfl
      simp [hi]; omega
  obtain ⟨z, out, o1, o2, o3, o4⟩ := C60_marginal hF (hM.stops hm) hL (hM.idsApart hm hno) hf hid hp
  rw [hM.mass_eq hm hs hp] at o3 o4
  have hlen : (u.edgesFrom 0 s).length ≤
      (insertEdges (Lattice.from s u.bosId u.eosId) (u.edgesFrom 0 s)).nodes.length := by
    rw [hL.count]; omega
  refine ⟨_, z, out, h1, o1, o2, o3.mono hlen, ?_⟩
  intro id hlt
  obtain ⟨b1, b2⟩ := o4 id hlt
  rw [hM.massOf_eq hm hs hp] at b1 b2
  have hw : 0 ≤ freq * (weighted id segs / likelihood segs) := by
    apply mul_nonneg hf
    apply div_nonneg
    · apply List.sum_nonneg
      intro x hx
      obtain ⟨xs, -, rfl⟩ := List.mem_map.1 hx
      positivity
    · exact o3.1.le
  have hle : ((u.edgesFrom 0 s).length : ℝ) * Real.exp (-50) ≤
      ((insertEdges (Lattice.from s u.bosId u.eosId) (u.edgesFrom 0 s)).nodes.length : ℝ) * Real.exp (-50) :=
    mul_le_mul_of_nonneg_right (by exact_mod_cast hlen) (Real.exp_pos _).le
  constructor
  · refine le_trans (mul_le_mul_of_nonneg_left (Real.exp_le_exp.2 ?_) hw) b1
    linarith
  · refine le_trans b2 (mul_le_mul_of_nonneg_left (Real.exp_le_exp.2 ?_) hw)
    exact hle

/-- Hypotheses met: unknown characters, several segmentations. -/
example : ∃ u m segs, Unigram.from sampleVocab (some 0) false = .ok u ∧ IsMinScore sampleVocab m ∧
    NoUnkText sampleVocab 0 "abxyé".toList ∧ AllSegs sampleVocab (some 0) m "abxyé".toList segs ∧
    sampleVocab.length ≤ (List.replicate 10 (0 : ℝ)).length := by
  have hm := minOf_isMin (vocab := sampleVocab) (by decide)
  obtain ⟨segs, hs⟩ := allSegs_exists (made_of_from (vocab := sampleVocab) (unk := some 0) (bf := false) rfl) hm
    "abxyé".toList
  refine ⟨_, _, segs, rfl, hm, ?_, hs, by simp [sampleVocab]⟩
  intro t sc h _
  have : t = "<unk>".toList := by
    simp [sampleVocab] at h
    rw [← h.1]; rfl
  subst this
  decide

/-! ### When the text of the unknown token occurs -/

/-- A vocabulary whose unknown token is the text `ab`. -/
def clashVocab : List (Str × Rat) := [("ab".toList, -1), ("a".toList, -2)]

/-- Its lattice of the sentence `ab`. -/
def clashEdges : List Edge := [⟨0, 1, some 1, -2⟩, ⟨0, 2, some 0, -1⟩, ⟨1, 2, some 0, -12⟩]

theorem clash_edges : ∃ u, Unigram.from clashVocab (some 0) false = .ok u ∧ u.edgesFrom 0 "ab".toList = clashEdges :=
  ⟨_, rfl, by decide +kernel⟩

/-- **Finding.** Nodes are compared by vocabulary id, so when the text of the unknown token occurs in the sentence and
ends (or starts) where an unknown character does, the sum over the left nodes is restarted in the middle: here the
two segmentations of `ab` have the scores -1 and -14, the returned log-likelihood is -14, and the expected number of
the piece `ab` in one sentence is more than `exp(13)`. -/
theorem C60_unk_text_breaks : ∃ u L out, Unigram.from clashVocab (some 0) false = .ok u ∧
    u.populateNodes (Lattice.from "ab".toList u.bosId u.eosId) = some L ∧
    L.populateMarginal 1 [0, 0] = some (-14, out) ∧ out.getD 0 0 = Real.exp 13 + 1 := by
  obtain ⟨u, hu, he⟩ := clash_edges
  refine ⟨u, insertEdges (Lattice.from "ab".toList u.bosId u.eosId) clashEdges, [Real.exp 13 + 1, 1], hu, ?_, ?_, by simp⟩
  · rw [← he]; exact (C47_model hu _).1
  · have ha : 'a'.utf8Size = 1 := rfl
    have hb : 'b'.utf8Size = 1 := rfl
    have hr : List.range 2 = [0, 1] := rfl
    have hr3 : List.range 3 = [0, 1, 2] := rfl
    simp [Lattice.populateMarginal, Lattice.alpha, Lattice.beta, Lattice.sweep, Lattice.sweepPos, Lattice.sweepStep,
      Lattice.scoreAt, Lattice.isFirst, Lattice.sameId, insertEdges, clashEdges, Lattice.insert, Lattice.from, pushAt,
      Lattice.addNode, addAt, logSumExp, hr, hr3, ha, hb]
    norm_num

end Tok.Unigram
