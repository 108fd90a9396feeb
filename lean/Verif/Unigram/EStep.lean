import Verif.Unigram.C60Model

/-!
# C60: the E step of the Unigram trainer (`models/unigram/trainer.rs`)
-/

namespace Tok.Unigram

/-- What a chunk of sentences is reduced to: objective, number of tokens, expected counts. -/
abbrev EOut := ℝ × Nat × List ℝ

/-- `trainer.rs:464-474`: one sentence; `all` is `all_sentence_freq`. The `panic!` on NaN is outside the model. -/
noncomputable def eSentence (u : Unigram) (all : ℝ) (acc : EOut) (st : Str × Nat) : Option EOut :=
  (u.populateNodes (Lattice.from st.1 u.bosId u.eosId)).bind fun L =>
  (L.populateMarginal st.2 acc.2.2).bind fun r =>
  L.viterbi.map fun path => (acc.1 - r.1 / all, acc.2.1 + path.length, r.2)

/-- `trainer.rs:459-476`: one chunk. -/
noncomputable def eChunk (u : Unigram) (all : ℝ) (chunk : List (Str × Nat)) : Option EOut :=
  chunk.foldlM (eSentence u all) (0, 0, List.replicate u.vocab.length 0)

/-- `trainer.rs:479-489`: combining two results. -/
noncomputable def eCombine (a b : EOut) : EOut := (a.1 + b.1, a.2.1 + b.2.1, List.zipWith (· + ·) a.2.2 b.2.2)

/-- `trainer.rs:452-493` `run_e_step`, given how the sentences were cut into chunks (this depends on the number of
threads). The sum of the frequencies is not reduced modulo 2^32. -/
noncomputable def runEStep (u : Unigram) (chunks : List (List (Str × Nat))) : Option EOut :=
  let all : ℝ := ((chunks.flatten.map (·.2)).sum : Nat)
  (chunks.mapM (eChunk u all)).map fun rs => rs.foldl eCombine (0, 0, List.replicate u.vocab.length 0)

/-! ### Specification -/

/-- The expected number of occurrences of `id` in the corpus, with `segs` the segmentations of each sentence. -/
noncomputable def corpusCount (segs : Str → List (List Piece)) (id : Nat) (sentences : List (Str × Nat)) : ℝ :=
  (sentences.map fun st => (st.2 : ℝ) * (weighted id (segs st.1) / likelihood (segs st.1))).sum

/-- The log-likelihood of the corpus. -/
noncomputable def corpusLog (segs : Str → List (List Piece)) (sentences : List (Str × Nat)) : ℝ :=
  (sentences.map fun st => (st.2 : ℝ) * Real.log (likelihood (segs st.1))).sum

/-- Bounds that say that `r` is right for the sentences, the lattices having at most `N` nodes each. -/
structure EGood (segs : Str → List (List Piece)) (n N : Nat) (all : ℝ) (sentences : List (Str × Nat)) (a r : EOut) : Prop where
  length : r.2.2.length = n
  low : ∀ id < n, corpusCount segs id sentences * Real.exp (-(2 * N * Real.exp (-50))) ≤ r.2.2.getD id 0 - a.2.2.getD id 0
  high : ∀ id < n, r.2.2.getD id 0 - a.2.2.getD id 0 ≤ corpusCount segs id sentences * Real.exp (N * Real.exp (-50))
  objLow : - (corpusLog segs sentences / all) ≤ r.1 - a.1
  objHigh : r.1 - a.1 ≤ - (corpusLog segs sentences / all) +
    ((sentences.map (·.2)).sum : Nat) * (N * Real.exp (-50)) / all

variable {vocab : List (Str × Rat)} {u : Unigram} {segs : Str → List (List Piece)} {k N : Nat} {m : Rat} {bf : Bool}

theorem eSentence_good (hu : Unigram.from vocab (some k) bf = .ok u) (hm : IsMinScore vocab m) {all : ℝ} (hall : 0 ≤ all)
    {st : Str × Nat} (hno : NoUnkText vocab k st.1) (hs : AllSegs vocab (some k) m st.1 (segs st.1))
    (hN : ∀ L, u.populateNodes (Lattice.from st.1 u.bosId u.eosId) = some L → L.nodes.length ≤ N)
    {a : EOut} (ha : a.2.2.length = vocab.length) :
    ∃ r, eSentence u all a st = some r ∧ EGood segs vocab.length N all [st] a r := by
  obtain ⟨L, z, out, h1, h2, h3, h4, h5⟩ := C60_sentence hu hm hno hs (freq := st.2) (Nat.cast_nonneg _)
    (expected := a.2.2) (le_of_eq ha.symm)
  have hn := hN L h1
  obtain ⟨path, hp⟩ : ∃ path, L.viterbi = some path := by
    obtain ⟨h6, hF, -, -⟩ := C47_model hu st.1
    rw [h1] at h6
    cases h6
    have hL : IsLattice st.1 (u.edgesFrom 0 st.1) (insertEdges (Lattice.from st.1 u.bosId u.eosId) (u.edgesFrom 0 st.1)) := by
      have := isLattice_insertEdges (u.edgesFrom 0 st.1) [] _ (isLattice_from st.1 u.bosId u.eosId)
        (fun e he => (hF.lt e he).1)
      simpa using this
    obtain ⟨V, A, hb⟩ := exists_best hF
    have hV0 : V 0 = 0 := by
      cases hA : A 0 with
      | none => exact (hb.none 0 hA).1
      | some i =>
        obtain ⟨e, he, hs, -⟩ := hb.some _ _ hA
        have := hF.lt e (List.mem_of_getElem? he)
        omega
    obtain ⟨is, h7, -⟩ := viterbi_best hF hL hb hV0
    exact ⟨_, h7⟩
  have hle : (L.nodes.length : ℝ) * Real.exp (-50) ≤ N * Real.exp (-50) :=
    mul_le_mul_of_nonneg_right (by exact_mod_cast hn) (Real.exp_pos _).le
  have hf : (0 : ℝ) ≤ st.2 := Nat.cast_nonneg _
  have hw : ∀ id, 0 ≤ (st.2 : ℝ) * (weighted id (segs st.1) / likelihood (segs st.1)) := by
    intro id
    apply mul_nonneg hf
    apply div_nonneg
    · apply List.sum_nonneg
      intro x hx
      obtain ⟨xs, -, rfl⟩ := List.mem_map.1 hx
      positivity
    · exact h4.1.le
  refine ⟨(a.1 - st.2 * z / all, a.2.1 + path.length, out), by simp [eSentence, h1, h2, hp], ⟨h3.trans ha, ?_, ?_, ?_, ?_⟩⟩
  · intro id hid
    simp only [corpusCount, List.map_cons, List.map_nil, List.sum_cons, List.sum_nil, add_zero]
    refine le_trans (mul_le_mul_of_nonneg_left (Real.exp_le_exp.2 ?_) (hw id)) (h5 id (by omega)).1
    linarith
  · intro id hid
    simp only [corpusCount, List.map_cons, List.map_nil, List.sum_cons, List.sum_nil, add_zero]
    exact le_trans (h5 id (by omega)).2 (mul_le_mul_of_nonneg_left (Real.exp_le_exp.2 hle) (hw id))
  · simp only [corpusLog, List.map_cons, List.map_nil, List.sum_cons, List.sum_nil, add_zero]
    have : (st.2 : ℝ) * z / all ≤ st.2 * Real.log (likelihood (segs st.1)) / all :=
      div_le_div_of_nonneg_right (mul_le_mul_of_nonneg_left h4.2.1 hf) hall
    linarith
  · simp only [corpusLog, List.map_cons, List.map_nil, List.sum_cons, List.sum_nil, add_zero]
    have h6 := h4.2.2
    have : (st.2 : ℝ) * Real.log (likelihood (segs st.1)) / all ≤ (st.2 * z + st.2 * (N * Real.exp (-50))) / all := by
      apply div_le_div_of_nonneg_right _ hall
      rw [← mul_add]
      exact mul_le_mul_of_nonneg_left (by linarith) hf
    rw [add_div] at this
    linarith

theorem EGood.trans {n N : Nat} {all : ℝ} {s1 s2 : List (Str × Nat)} {a b c : EOut}
    (h1 : EGood segs n N all s1 a b) (h2 : EGood segs n N all s2 b c) : EGood segs n N all (s1 ++ s2) a c := by
  refine ⟨h2.length, ?_, ?_, ?_, ?_⟩
  · intro id hid
    have e1 := h1.low id hid
    have e2 := h2.low id hid
    simp only [corpusCount, List.map_append, List.sum_append, add_mul] at *
    linarith
  · intro id hid
    have e1 := h1.high id hid
    have e2 := h2.high id hid
    simp only [corpusCount, List.map_append, List.sum_append, add_mul] at *
    linarith
  · have e1 := h1.objLow
    have e2 := h2.objLow
    simp only [corpusLog, List.map_append, List.sum_append, add_div] at *
    linarith
  · have e1 := h1.objHigh
    have e2 := h2.objHigh
    simp only [corpusLog, List.map_append, List.sum_append, add_div, Nat.cast_add, add_mul] at *
    linarith

theorem EGood.refl {n N : Nat} {all : ℝ} {a : EOut} (h : a.2.2.length = n) : EGood segs n N all [] a a := by
  refine ⟨h, ?_, ?_, ?_, ?_⟩ <;> simp [corpusCount, corpusLog]

theorem eChunk_good (hu : Unigram.from vocab (some k) bf = .ok u) (hm : IsMinScore vocab m) {all : ℝ} (hall : 0 ≤ all) :
    ∀ (chunk : List (Str × Nat)), (∀ st ∈ chunk, NoUnkText vocab k st.1 ∧ AllSegs vocab (some k) m st.1 (segs st.1) ∧
      ∀ L, u.populateNodes (Lattice.from st.1 u.bosId u.eosId) = some L → L.nodes.length ≤ N) →
    ∀ a : EOut, a.2.2.length = vocab.length →
    ∃ r, chunk.foldlM (eSentence u all) a = some r ∧ EGood segs vocab.length N all chunk a r
  | [], _, a, ha => ⟨a, rfl, .refl ha⟩
  | st :: chunk, h, a, ha => by
    obtain ⟨h1, h2, h3⟩ := h st (by simp)
    obtain ⟨r, r1, r2⟩ := eSentence_good hu hm hall h1 h2 h3 ha
    obtain ⟨r', r3, r4⟩ := eChunk_good hu hm hall chunk (fun x hx => h x (by simp [hx])) r r2.length
    refine ⟨r', ?_, r2.trans r4⟩
    rw [List.foldlM_cons, r1]
    exact r3

theorem getD_zeros (n id : Nat) : (List.replicate n (0 : ℝ)).getD id 0 = 0 := by
  rw [List.getD_eq_getElem?_getD, List.getElem?_replicate]
  split <;> rfl

theorem getD_zipWith_add {a b : List ℝ} (h : a.length = b.length) {i : Nat} (hi : i < a.length) :
    (List.zipWith (· + ·) a b).getD i 0 = a.getD i 0 + b.getD i 0 := by
  have hb : i < b.length := by omega
  simp [List.getD_eq_getElem?_getD, hi, hb]

theorem EGood.combine {n N : Nat} {all : ℝ} {sts : List (Str × Nat)} {a r : EOut} (ha : a.2.2.length = n)
    (h : EGood segs n N all sts (0, 0, List.replicate n 0) r) : EGood segs n N all sts a (eCombine a r) := by
  have hlen : a.2.2.length = r.2.2.length := by rw [ha, h.length]
  refine ⟨by simp [eCombine, ha, h.length], ?_, ?_, ?_, ?_⟩
  · intro id hid
    have := h.low id hid
    rw [eCombine, getD_zipWith_add hlen (by omega)]
    simp only [getD_zeros, sub_zero] at this
    linarith
  · intro id hid
    have := h.high id hid
    rw [eCombine, getD_zipWith_add hlen (by omega)]
    simp only [getD_zeros, sub_zero] at this
    linarith
  · have := h.objLow
    simp only [eCombine, sub_zero] at *
    linarith
  · have := h.objHigh
    simp only [eCombine, sub_zero] at *
    linarith

/-- **C60 (E step).** However the sentences are cut into chunks, `run_e_step` returns for every piece its expected
number of occurrences in the corpus, and the negative mean log-likelihood of a sentence as the objective, up to the
cut-offs of `log_sum_exp` (`N` bounds the size of the lattices). -/
theorem C60_estep (hu : Unigram.from vocab (some k) bf = .ok u) (hm : IsMinScore vocab m)
    {chunks : List (List (Str × Nat))}
    (h : ∀ st ∈ chunks.flatten, NoUnkText vocab k st.1 ∧ AllSegs vocab (some k) m st.1 (segs st.1) ∧
      ∀ L, u.populateNodes (Lattice.from st.1 u.bosId u.eosId) = some L → L.nodes.length ≤ N) :
    ∃ r, runEStep u chunks = some r ∧ r.2.2.length = vocab.length ∧
      (∀ id < vocab.length,
        corpusCount segs id chunks.flatten * Real.exp (-(2 * N * Real.exp (-50))) ≤ r.2.2.getD id 0 ∧
        r.2.2.getD id 0 ≤ corpusCount segs id chunks.flatten * Real.exp (N * Real.exp (-50))) ∧
      - (corpusLog segs chunks.flatten / ((chunks.flatten.map (·.2)).sum : Nat)) ≤ r.1 ∧
      r.1 ≤ - (corpusLog segs chunks.flatten / ((chunks.flatten.map (·.2)).sum : Nat)) + N * Real.exp (-50) := by
  have hM := made_of_from hu
  generalize hall : (((chunks.flatten.map (·.2)).sum : Nat) : ℝ) = all
  have hpos : 0 ≤ all := by rw [← hall]; exact Nat.cast_nonneg _
  have main : ∀ (cs : List (List (Str × Nat))) (a : EOut), a.2.2.length = vocab.length →
      (∀ st ∈ cs.flatten, NoUnkText vocab k st.1 ∧ AllSegs vocab (some k) m st.1 (segs st.1) ∧
        ∀ L, u.populateNodes (Lattice.from st.1 u.bosId u.eosId) = some L → L.nodes.length ≤ N) →
      ∃ rs, cs.mapM (eChunk u all) = some rs ∧ EGood segs vocab.length N all cs.flatten a (rs.foldl eCombine a) := by
    intro cs
    induction cs with
    | nil => intro a ha _; exact ⟨[], rfl, .refl ha⟩
    | cons c cs ih =>
      intro a ha hst
      obtain ⟨r, r1, r2⟩ := eChunk_good (N := N) hu hm hpos c (fun st hs => hst st (by simp [hs]))
        (0, 0, List.replicate vocab.length 0) (by simp)
      have g := r2.combine ha
      obtain ⟨rs, i1, i2⟩ := ih (eCombine a r) g.length (fun st hs => hst st (by
        rw [List.flatten_cons, List.mem_append]; exact .inr hs))
      refine ⟨r :: rs, ?_, ?_⟩
      · rw [← hM.vocab_eq] at r1
        rw [List.mapM_cons, eChunk, r1]
        simp [i1]
      · rw [List.foldl_cons, List.flatten_cons]
        exact g.trans i2
  obtain ⟨rs, h1, g⟩ := main chunks (0, 0, List.replicate vocab.length 0) (by simp) h
  refine ⟨rs.foldl eCombine (0, 0, List.replicate vocab.length 0), by
    simp only [runEStep, hall, h1, Option.map_some, hM.vocab_eq], ?_⟩
  refine ⟨g.length, ?_, ?_, ?_⟩
  · intro id hid
    have l := g.low id hid
    have u := g.high id hid
    simp only [getD_zeros, sub_zero] at l u
    exact ⟨l, u⟩
  · have := g.objLow
    simpa using this
  · have h2 := g.objHigh
    simp only [sub_zero] at h2
    refine h2.trans ?_
    rw [hall]
    have : all * (N * Real.exp (-50)) / all ≤ N * Real.exp (-50) := by
      rcases eq_or_lt_of_le hpos with h0 | h0
      · rw [← h0]; simp; positivity
      · rw [mul_div_assoc, mul_comm, div_mul_cancel₀ _ h0.ne']
    linarith

/-- Hypotheses met: two chunks, three sentences, one twice in the corpus. -/
example : ∃ (u : Unigram) (m : Rat) (segs : Str → List (List Piece)) (N : Nat), Unigram.from sampleVocab (some 0) false = .ok u ∧ IsMinScore sampleVocab m ∧
    ∀ st ∈ ([[("abxyé".toList, 2)], [("b".toList, 1), ([], 3)]] : List (List (Str × Nat))).flatten,
      NoUnkText sampleVocab 0 st.1 ∧ AllSegs sampleVocab (some 0) m st.1 (segs st.1) ∧
      ∀ L, u.populateNodes (Lattice.from st.1 u.bosId u.eosId) = some L → L.nodes.length ≤ N := by
  have hm := minOf_isMin (vocab := sampleVocab) (by decide)
  have hM := made_of_from (vocab := sampleVocab) (unk := some 0) (bf := false) rfl
  refine ⟨_, _, fun s => (allSegs_exists hM hm s).choose, 9, rfl, hm, ?_⟩
  intro st hst
  refine ⟨?_, (allSegs_exists hM hm st.1).choose_spec, ?_⟩
  · intro t sc h _
    have : t = "<unk>".toList := by
      simp [sampleVocab] at h
      rw [← h.1]; rfl
    subst this
    simp only [List.flatten_cons, List.flatten_nil, List.append_nil, List.mem_append, List.mem_cons,
      List.not_mem_nil, or_false] at hst
    rcases hst with rfl | rfl | rfl <;> decide
  · intro L hL
    rw [(C47_model (vocab := sampleVocab) (k := 0) (bf := false) rfl st.1).1] at hL
    cases hL
    rw [(isLattice_insertEdges (s := st.1) _ [] _ (isLattice_from st.1 _ _)
      (fun e he => (hM.edge_lt hm he).2.1)).count]
    simp only [List.flatten_cons, List.flatten_nil, List.append_nil, List.mem_append, List.mem_cons,
      List.not_mem_nil, or_false] at hst
    rcases hst with rfl | rfl | rfl <;> decide +kernel

end Tok.Unigram
