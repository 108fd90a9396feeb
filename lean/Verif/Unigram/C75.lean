import Verif.Unigram.RoundDp

/-!
# C75: the best segmentation when sums of scores are rounded
-/

namespace Tok.Unigram

variable {vocab : List (Str × Rat)} {unk : Option Nat} {u : Unigram} {fl : Rat → Rat}

/-! ### Specification -/

/-- As `IsPiece`; the score of an unknown character is the minimal score minus 10, rounded. -/
def IsPieceR (fl : Rat → Rat) (vocab : List (Str × Rat)) (unk : Option Nat) (m : Rat) (x : Piece) : Prop :=
  (x.text ≠ [] ∧ ∃ i, x.id = some i ∧ LastIn vocab x.text i x.score) ∨
  (∃ c, x.text = [c] ∧ (∀ sc, ([c], sc) ∉ vocab) ∧ x.id = unk ∧ x.score = fl (m - 10))

/-- A segmentation of `s`. -/
def SegR (fl : Rat → Rat) (vocab : List (Str × Rat)) (unk : Option Nat) (m : Rat) (s : Str) (xs : List Piece) :
    Prop :=
  (xs.map (·.text)).flatten = s ∧ ∀ x ∈ xs, IsPieceR fl vocab unk m x

/-- The score of a segmentation: its scores added up from left to right, every sum rounded. -/
def scoreR (fl : Rat → Rat) (xs : List Piece) : Rat := addUp fl 0 (xs.map (·.score))

/-! ### A model in which the exact unknown score is the rounded one -/

/-- Same model; its `unkScore` is the rounded unknown score of `u`. -/
def rounded (fl : Rat → Rat) (u : Unigram) : Unigram :=
  { u with minScore := fl (u.minScore - kUnkPenalty) + kUnkPenalty }

theorem unkScore_rounded (fl : Rat → Rat) (u : Unigram) : (u.rounded fl).unkScore = u.unkScoreR fl := by
  simp only [unkScore, rounded, unkScoreR]
  grind

theorem edgesAtR_eq (fl : Rat → Rat) (u : Unigram) (pos : Nat) (c : Char) (ms : List (Nat × Nat × Rat)) :
    u.edgesAtR fl pos c ms = (u.rounded fl).edgesAt pos c ms := by
  simp only [edgesAtR, edgesAt, unkScore_rounded]
  rfl

theorem lookups_rounded (fl : Rat → Rat) (u : Unigram) (s : Str) : (u.rounded fl).lookups s = u.lookups s := rfl

theorem Built.rounded (hu : Built vocab unk u) (fl : Rat → Rat) : Built vocab unk (u.rounded fl) where
  vocab_eq := hu.vocab_eq
  trie_eq := hu.trie_eq
  ids := hu.ids
  unk_eq := hu.unk_eq
  fuse := hu.fuse
  bos := hu.bos
  eos := hu.eos
  unk_lt := hu.unk_lt

theorem isPieceR_iff {m : Rat} {x : Piece} :
    IsPieceR fl vocab unk m x ↔ IsPiece vocab unk (fl (m - 10) + 10) x := by
  have : fl (m - 10) + 10 - 10 = fl (m - 10) := by grind
  simp only [IsPieceR, IsPiece, this]

theorem segR_iff {m : Rat} {s : Str} {xs : List Piece} :
    SegR fl vocab unk m s xs ↔ Seg vocab unk (fl (m - 10) + 10) s xs := by
  simp only [SegR, Seg, isPieceR_iff]

theorem Made.rounded_min (hu : Made vocab unk u) {m : Rat} (hm : IsMinScore vocab m) (fl : Rat → Rat) :
    (u.rounded fl).minScore = fl (m - 10) + 10 := by
  simp only [rounded, hu.minScore m hm, kUnkPenalty]

theorem scores_layout : ∀ (xs : List Piece) (pos : Nat), (layout pos xs).map (·.score) = xs.map (·.score)
  | [], _ => rfl
  | x :: xs, pos => by simp [layout, scores_layout xs]

/-! ### `encode_optimized` -/

theorem optLoopR_inv (hu : Built vocab unk u) {m : Rat} (hm : (u.rounded fl).minScore = m) :
    ∀ (s : Str) (pos : Nat) (E : List Edge) (T : Nat → Cell) (A : Nat → Option Nat),
      TableBestR fl E T A → (∀ e ∈ E, e.start ≤ pos) →
      (∃ x, optLoopR fl u pos s T = .err x ∧ unk = none) ∨
      ∃ T', optLoopR fl u pos s T = .ok T' ∧ ∃ A', TableBestR fl (E ++ (u.rounded fl).edgesFrom pos s) T' A'
  | [], pos, E, T, A, hT, _ => .inr ⟨T, rfl, A, by simpa [edgesFrom] using hT⟩
  | c :: cs, pos, E, T, A, hT, hE => by
    obtain ⟨ms, h1, -⟩ := hu.lookups_spec (c :: cs)
    have hmem := (hu.rounded fl).mem_edgesAt' hm pos c cs
    rw [lookups_rounded, h1, Option.getD_some] at hmem
    have hes : ∀ e ∈ (u.rounded fl).edgesAt pos c ms, e.start = pos ∧ pos < e.stop := by
      intro e he
      obtain ⟨x, hx, -, rfl⟩ := (hmem e).1 he
      have := blen_pos hx.ne_nil
      exact ⟨rfl, by dsimp only; omega⟩
    simp only [optLoopR, h1, edgesAtR_eq]
    cases hr : relaxAllR fl (T pos).score ((u.rounded fl).edgesAt pos c ms) T with
    | error x =>
      refine .inl ⟨x, rfl, ?_⟩
      cases hunk : unk with
      | none => rfl
      | some k =>
        obtain ⟨T', h2⟩ := relaxAllR_total fl (T pos).score ((u.rounded fl).edgesAt pos c ms) T (by
          intro e he
          obtain ⟨x, hx, -, rfl⟩ := (hmem e).1 he
          rcases hx with ⟨-, i, hi, -⟩ | ⟨-, -, -, hi, -⟩
          · simp [hi]
          · simp [hi, hunk])
        rw [hr] at h2; cases h2
    | ok T1 =>
      obtain ⟨A1, hA1⟩ := relaxAllR_inv _ hT hE hes hr
      have := optLoopR_inv hu hm cs (pos + c.utf8Size) (E ++ (u.rounded fl).edgesAt pos c ms) T1 A1 hA1 (by
        intro e he
        rcases List.mem_append.1 he with h | h
        · have := hE e h; omega
        · have := (hes e h).1; omega)
      simpa [edgesFrom, lookups_rounded, h1] using this

/-- The table, and what is read off it. -/
theorem encodeOptimizedR_spec (hu : Made vocab unk u) {m : Rat} (hm : IsMinScore vocab m) (s : Str) :
    (∃ x, u.encodeOptimizedR fl s = .err x ∧ unk = none) ∨
    ∃ V A, IsBestR fl ((u.rounded fl).edgesFrom 0 s) V A ∧ u.encodeOptimizedR fl s =
      .ok (fuse (marked s unk (recover ((u.rounded fl).edgesFrom 0 s) A (blen s) (blen s)))) := by
  have hb := hu.toBuilt.rounded fl
  have hmr := hu.rounded_min hm fl
  unfold encodeOptimizedR
  rcases optLoopR_inv hu.toBuilt hmr s 0 [] _ _ (tableBestR_start fl) (by simp) with ⟨x, h1, h2⟩ | ⟨T, h1, A, hA⟩
  · exact .inl ⟨x, by rw [h1], h2⟩
  · right
    rw [List.nil_append] at hA
    refine ⟨_, A, hA.best, ?_⟩
    rw [h1]
    have hE : ∀ e ∈ (u.rounded fl).edgesFrom 0 s, e.start < e.stop := fun e he => (hb.edge_lt' hmr he).2.1
    dsimp only
    rw [backtrack_back hu.toBuilt (fun e he => ⟨hE e he, hb.edge_text' hmr he⟩) hA.back (hb.connected' hmr s)
      (blen s) (blen s) [] [] [] (Nat.le_refl _) (hb.reached' hmr (s := s) (a := s) (b := []) (by simp))
      (.inl ⟨rfl, rfl, by simp⟩), List.append_nil]

/-- **C75.** `encode_optimized` with rounded sums: the pieces are, after joining runs of unknown pieces, a
segmentation whose rounded score no other segmentation exceeds. -/
theorem C75_optimized (hfl : Rounding fl) {bf : Bool} (hu : Unigram.from vocab unk bf = .ok u) {m : Rat}
    (hm : IsMinScore vocab m) {s : Str} {out : List Str} (h : u.encodeOptimizedR fl s = .ok out) :
    ∃ xs, SegR fl vocab unk m s xs ∧ (∀ ys, SegR fl vocab unk m s ys → scoreR fl ys ≤ scoreR fl xs) ∧
      out = fuse (xs.map (fun x => (x.text, decide (x.id = unk)))) := by
  have hu := made_of_from hu
  have hb := hu.toBuilt.rounded fl
  have hmr := hu.rounded_min hm fl
  rcases encodeOptimizedR_spec (fl := fl) hu hm s with ⟨x, h1, -⟩ | ⟨V, A, hA, h1⟩
  · rw [h1] at h; cases h
  · rw [h1] at h
    cases h
    have hE : ∀ e ∈ (u.rounded fl).edgesFrom 0 s, e.start < e.stop := fun e he => (hb.edge_lt' hmr he).2.1
    have hreach := hb.reached' hmr (s := s) (a := s) (b := []) (by simp)
    obtain ⟨hp, ht⟩ := recover_pathR hE hA (hb.connected' hmr s) (blen s) (blen s) (Nat.le_refl _) hreach
    obtain ⟨xs, hseg, hlay⟩ := hb.seg_of_path' hmr _ [] s rfl hp
    refine ⟨xs, segR_iff.2 hseg, ?_, ?_⟩
    · intro ys hys
      have hys := segR_iff.1 hys
      have hy := hA.le hfl _ _ _ (hb.path_of_seg' hmr ys [] (by simp [hys.1]) hys.2)
      rw [scores_layout] at hy
      rw [← hlay, scores_layout] at ht
      have e0 : blen ([] : Str) = 0 := rfl
      rw [e0, (hA.zero hE).2, ht] at hy
      exact hy
    · rw [← hlay]
      exact congrArg fuse (marked_layout xs [] s rfl hseg)

/-- **C75.** With an unknown token, encoding always succeeds. -/
theorem C75_optimized_total (fl : Rat → Rat) {bf : Bool} {k : Nat} (hu : Unigram.from vocab (some k) bf = .ok u)
    (s : Str) : ∃ out, u.encodeOptimizedR fl s = .ok out := by
  have hne : vocab ≠ [] := by
    rintro rfl
    simp [Unigram.from] at hu
  rcases encodeOptimizedR_spec (fl := fl) (made_of_from hu) (minOf_isMin hne) s with ⟨x, -, h⟩ | ⟨V, A, -, h⟩
  · cases h
  · exact ⟨_, h⟩

/-! ### The lattice -/

theorem populateLoopR_eq (fl : Rat → Rat) (u : Unigram) : ∀ (s : Str) (pos : Nat) (L : Lattice),
    populateLoopR fl u pos s L = populateLoop (u.rounded fl) pos s L
  | [], _, _ => rfl
  | c :: cs, pos, L => by
    simp only [populateLoopR, populateLoop, unkScore_rounded]
    have e : (u.rounded fl).lookupChecked = u.lookupChecked := rfl
    have e1 : (u.rounded fl).trie = u.trie := rfl
    have e2 : (u.rounded fl).unkId = u.unkId := rfl
    rw [e, e1, e2]
    cases (u.trie.search (strBytes (c :: cs))).mapM u.lookupChecked with
    | none => rfl
    | some ms => exact populateLoopR_eq fl u cs _ _

/-- The chosen left node has the greatest rounded sum. -/
theorem bestLeftR_max (fl : Rat → Rat) (bt : Nat → Rat) (r : Rat) : ∀ (ls : List Nat) (best : Option (Nat × Rat)),
    (ls ≠ [] ∨ best ≠ none) → ∃ b sc, bestLeftR fl bt r ls best = some (b, sc) ∧
      ((b ∈ ls ∧ sc = fl (bt b + r)) ∨ best = some (b, sc)) ∧ (∀ l ∈ ls, fl (bt l + r) ≤ sc) ∧
      (∀ x y, best = some (x, y) → y ≤ sc)
  | [], none, h => by simp at h
  | [], some (b, sc), _ => ⟨b, sc, by simp [bestLeftR], .inr rfl, by simp, by
      intro x y h; cases h; exact Rat.le_refl⟩
  | l :: ls, none, _ => by
    obtain ⟨b, sc, h1, h2, h3, h4⟩ := bestLeftR_max fl bt r ls (some (l, fl (bt l + r))) (.inr (by simp))
    refine ⟨b, sc, by rw [bestLeftR, h1], .inl ?_, ?_, by simp⟩
    · rcases h2 with ⟨h2, h5⟩ | h2
      · exact ⟨by simp [h2], h5⟩
      · cases h2; exact ⟨by simp, rfl⟩
    · intro x hx
      rcases List.mem_cons.1 hx with rfl | hx
      · exact h4 _ _ rfl
      · exact h3 x hx
  | l :: ls, some (x, y), _ => by
    rw [bestLeftR]
    split
    · rename_i hlt
      obtain ⟨b, sc, h1, h2, h3, h4⟩ := bestLeftR_max fl bt r ls (some (l, fl (bt l + r))) (.inr (by simp))
      refine ⟨b, sc, h1, .inl ?_, ?_, ?_⟩
      · rcases h2 with ⟨h2, h5⟩ | h2
        · exact ⟨by simp [h2], h5⟩
        · cases h2; exact ⟨by simp, rfl⟩
      · intro x hx
        rcases List.mem_cons.1 hx with rfl | hx
        · exact h4 _ _ rfl
        · exact h3 x hx
      · intro x' y' h
        cases h
        exact Rat.le_trans (Rat.le_of_lt hlt) (h4 _ _ rfl)
    · rename_i hlt
      obtain ⟨b, sc, h1, h2, h3, h4⟩ := bestLeftR_max fl bt r ls (some (x, y)) (.inr (by simp))
      refine ⟨b, sc, h1, ?_, ?_, h4⟩
      · rcases h2 with ⟨h2, h5⟩ | h2
        · exact .inl ⟨by simp [h2], h5⟩
        · exact .inr h2
      · intro x' hx
        rcases List.mem_cons.1 hx with rfl | hx
        · exact Rat.le_trans (Rat.not_lt.1 hlt) (h4 _ _ rfl)
        · exact h3 x' hx

/-- `l` is a node that ends at `pos`: the begin of the sentence, or that of an edge. -/
def Ends (E : List Edge) (pos l : Nat) : Prop :=
  (l = 0 ∧ pos = 0) ∨ ∃ i e, l = i + 2 ∧ E[i]? = some e ∧ e.stop = pos

/-- All nodes whose start satisfies `P` carry their final fields. -/
structure VInvR (fl : Rat → Rat) (E : List Edge) (V : Nat → Rat) (P : Nat → Prop) (st : VState) : Prop where
  bos : st.prev 0 = none ∧ st.bt 0 = 0
  edge : ∀ (i : Nat) (e : Edge), E[i]? = some e → P e.start →
    st.bt (i + 2) = fl (V e.start + e.score) ∧
    ∃ l, Ends E e.start l ∧ st.prev (i + 2) = some l ∧ st.bt (i + 2) = fl (st.bt l + e.score)

/-- What one pass over the nodes at a position does. -/
theorem viterbiNodesR_spec (hfl : Rounding fl) {s : Str} {E : List Edge} {V : Nat → Rat} {A : Nat → Option Nat}
    {L : Lattice} (hL : IsLattice s E L) (hE : ∀ e ∈ E, e.start < e.stop) (hb : IsBestR fl E V A) {pos : Nat}
    (hreach : pos = 0 ∨ ∃ e ∈ E, e.stop = pos) :
    ∀ (rs : List Nat) (st : VState), (∀ r ∈ rs, r ∈ L.beginNodes pos) → VInvR fl E V (· < pos) st →
    ∃ st', viterbiNodesR fl L (L.endNodes pos) rs st = some st' ∧
      (∀ n, n ∉ rs → st'.prev n = st.prev n ∧ st'.bt n = st.bt n) ∧
      (∀ r ∈ rs, ∃ l, Ends E pos l ∧ st'.prev r = some l ∧
        st'.bt r = fl (st.bt l + (L.nodes[r]?.map (·.score)).getD 0) ∧
        st'.bt r = fl (V pos + (L.nodes[r]?.map (·.score)).getD 0))
  | [], st, _, _ => ⟨st, rfl, fun _ _ => ⟨rfl, rfl⟩, by simp⟩
  | r :: rs, st, hrs, hinv => by
    have hr := hrs r (by simp)
    have hV0 := (hb.zero hE).2
    -- the values of the nodes that end here
    have hle : ∀ l ∈ L.endNodes pos, st.bt l ≤ V pos := by
      intro l hl
      rcases (hL.ends pos l).1 hl with ⟨rfl, rfl⟩ | ⟨i, e, rfl, hi, hs⟩
      · rw [hinv.bos.2, hV0]; exact Rat.le_refl
      · have hm := List.mem_of_getElem? hi
        have := hE e hm
        rw [(hinv.edge i e hi (by show e.start < pos; omega)).1, ← hs]
        exact hb.edge_le hm
    have hex : ∃ l ∈ L.endNodes pos, st.bt l = V pos := by
      by_cases hp0 : pos = 0
      · subst hp0
        exact ⟨0, (hL.ends 0 0).2 (.inl ⟨rfl, rfl⟩), by rw [hinv.bos.2, hV0]⟩
      · obtain ⟨e0, he0, hs0⟩ := hreach.resolve_left hp0
        cases ha : A pos with
        | none => exact absurd hs0 ((hb.none pos ha).2 e0 he0)
        | some i =>
          obtain ⟨e, hi, hs, hv, -⟩ := hb.some pos i ha
          have := hE e (List.mem_of_getElem? hi)
          exact ⟨i + 2, (hL.ends pos _).2 (.inr ⟨i, e, rfl, hi, hs⟩), by
            rw [(hinv.edge i e hi (by show e.start < pos; omega)).1, hv]⟩
    obtain ⟨l0, hl0, hl0V⟩ := hex
    generalize hsc : (L.nodes[r]?.map (·.score)).getD 0 = rsc
    obtain ⟨b, sc, h1, h2, h3, -⟩ := bestLeftR_max fl st.bt rsc (L.endNodes pos) none
      (.inl (by intro h; rw [h] at hl0; simp at hl0))
    obtain ⟨hbm, hbs⟩ : b ∈ L.endNodes pos ∧ sc = fl (st.bt b + rsc) := by
      rcases h2 with h2 | h2
      · exact h2
      · cases h2
    have hscV : sc = fl (V pos + rsc) := by
      apply Rat.le_antisymm
      · rw [hbs]
        apply hfl.mono
        have := hle b hbm
        grind
      · rw [← hl0V]; exact h3 l0 hl0
    have hends : ∀ l ∈ L.endNodes pos, Ends E pos l := fun l hl => (hL.ends pos l).1 hl
    have hr_cases := (hL.begins pos r).1 hr
    have hr0 : r ≠ 0 := by
      rcases hr_cases with ⟨rfl, -⟩ | ⟨i, e, rfl, -⟩ <;> omega
    -- a node that ends here does not begin here
    have hnb : ∀ l, Ends E pos l → ∀ r ∈ L.beginNodes pos, l ≠ r := by
      rintro l hl r hr rfl
      rcases hl with ⟨rfl, -⟩ | ⟨i, e, rfl, hi, hs⟩
      · rcases (hL.begins pos 0).1 hr with ⟨h, -⟩ | ⟨i, e, h, -⟩ <;> omega
      · have := hE e (List.mem_of_getElem? hi)
        rcases (hL.begins pos _).1 hr with ⟨h, -⟩ | ⟨i', e', h, hi', hs'⟩
        · omega
        · obtain rfl : i = i' := by omega
          rw [hi] at hi'; cases hi'
          omega
    -- an edge that begins before is not touched
    have hold : ∀ (i : Nat) (e : Edge), E[i]? = some e → e.start < pos → i + 2 ≠ r := by
      rintro i e hi hlt rfl
      rcases hr_cases with ⟨h, -⟩ | ⟨i', e', h, hi', hs⟩
      · omega
      · obtain rfl : i = i' := by omega
        rw [hi] at hi'; cases hi'
        omega
    simp only [viterbiNodesR, hsc, h1]
    have hinv' : VInvR fl E V (· < pos)
        { prev := fun n => if n = r then some b else st.prev n
          bt := fun n => if n = r then sc else st.bt n } := by
      refine ⟨by simp [Ne.symm hr0, hinv.bos], ?_⟩
      intro i e hi hlt
      have hne := hold i e hi hlt
      obtain ⟨q1, l, q2, q3, q4⟩ := hinv.edge i e hi hlt
      have hlr : l ≠ r := by
        rcases q2 with ⟨rfl, -⟩ | ⟨j, e', rfl, hj, hs⟩
        · exact Ne.symm hr0
        · have := hE e' (List.mem_of_getElem? hj)
          exact hold j e' hj (by have : e.start < pos := hlt; omega)
      simp only [hne, if_false]
      exact ⟨q1, l, q2, q3, by simpa [hlr] using q4⟩
    obtain ⟨st', g1, g2, g3⟩ := viterbiNodesR_spec hfl hL hE hb hreach rs _
      (fun x hx => hrs x (by simp [hx])) hinv'
    refine ⟨st', g1, ?_, ?_⟩
    · intro n hn
      simp only [List.mem_cons, not_or] at hn
      have := g2 n hn.2
      simpa [hn.1] using this
    · intro x hx
      by_cases hxr : x ∈ rs
      · obtain ⟨l, k1, k2, k3, k4⟩ := g3 x hxr
        have hlr := hnb l k1 r hr
        exact ⟨l, k1, k2, by simpa [hlr] using k3, k4⟩
      · have hxr' : x = r := by simpa [hxr] using hx
        subst hxr'
        obtain ⟨k1, k2⟩ := g2 x hxr
        simp only [if_true] at k1 k2
        exact ⟨b, hends b hbm, k1, by rw [k2, hsc, hbs], by rw [k2, hsc, hscV]⟩

/-- The invariant moves past a position. -/
theorem VInvR.step {s : Str} {E : List Edge} {V : Nat → Rat} {L : Lattice} (hL : IsLattice s E L)
    (hE : ∀ e ∈ E, e.start < e.stop) {pos : Nat} {P : Nat → Prop} {st st' : VState}
    (hinv : VInvR fl E V (· < pos) st)
    (h2 : ∀ n, n ∉ L.beginNodes pos → st'.prev n = st.prev n ∧ st'.bt n = st.bt n)
    (h3 : ∀ r ∈ L.beginNodes pos, ∃ l, Ends E pos l ∧ st'.prev r = some l ∧
        st'.bt r = fl (st.bt l + (L.nodes[r]?.map (·.score)).getD 0) ∧
        st'.bt r = fl (V pos + (L.nodes[r]?.map (·.score)).getD 0))
    (hP : ∀ e ∈ E, P e.start → e.start ≤ pos) : VInvR fl E V P st' := by
  have hnot : ∀ l q, Ends E q l → q ≤ pos → l ∉ L.beginNodes pos := by
    intro l q hl hq h
    rcases hl with ⟨rfl, -⟩ | ⟨i, e, rfl, hi, hs⟩
    · rcases (hL.begins pos 0).1 h with ⟨h, -⟩ | ⟨i, e, h, -⟩ <;> omega
    · have := hE e (List.mem_of_getElem? hi)
      rcases (hL.begins pos _).1 h with ⟨h, -⟩ | ⟨i', e', h, hi', hs'⟩
      · omega
      · obtain rfl : i = i' := by omega
        rw [hi] at hi'; cases hi'
        omega
  refine ⟨?_, ?_⟩
  · obtain ⟨q1, q2⟩ := h2 0 (hnot 0 0 (.inl ⟨rfl, rfl⟩) (by omega))
    rw [q1, q2]; exact hinv.bos
  · intro i e hi hp
    have hle := hP e (List.mem_of_getElem? hi) hp
    by_cases heq : e.start = pos
    · have hin : i + 2 ∈ L.beginNodes pos := (hL.begins _ _).2 (.inr ⟨i, e, rfl, hi, heq⟩)
      obtain ⟨l, k1, k2, k3, k4⟩ := h3 _ hin
      rw [hL.node i e hi] at k3 k4
      refine ⟨by rw [k4, heq]; rfl, l, by rw [heq]; exact k1, k2, ?_⟩
      rw [k3, (h2 l (hnot l pos k1 (Nat.le_refl _))).2]
      rfl
    · have hni : i + 2 ∉ L.beginNodes pos := by
        intro h
        rcases (hL.begins _ _).1 h with ⟨h, -⟩ | ⟨i', e', h, hi', hs'⟩
        · omega
        · obtain rfl : i = i' := by omega
          rw [hi] at hi'; cases hi'
          exact heq hs'
      obtain ⟨q1, q2⟩ := h2 _ hni
      obtain ⟨k1, l, k2, k3, k4⟩ := hinv.edge i e hi (by show e.start < pos; omega)
      refine ⟨by rw [q2, k1], l, k2, by rw [q1, k3], ?_⟩
      rw [q2, k4, (h2 l (hnot l _ k2 hle)).2]

/-- The whole Viterbi pass. -/
theorem viterbiLoopR_spec (hfl : Rounding fl) {s : Str} {E : List Edge} (hF : Full s E)
    {V : Nat → Rat} {A : Nat → Option Nat} {L : Lattice} (hL : IsLattice s E L) (hb : IsBestR fl E V A) :
    ∀ (rest a : Str) (st : VState), s = a ++ rest → VInvR fl E V (· < blen a) st →
    ∃ st', viterbiLoopR fl L (blen a) rest st = some st' ∧ VInvR fl E V (fun _ => True) st' ∧
      ∃ l, Ends E (blen s) l ∧ st'.prev 1 = some l ∧ fl (st'.bt l + 0) = fl (V (blen s) + 0)
  | [], a, st, hs, hinv => by
    have hE : ∀ e ∈ E, e.start < e.stop := fun e he => (hF.lt e he).1
    have has : a = s := by simpa using hs.symm
    subst has
    obtain ⟨st', h1, h2, h3⟩ := viterbiNodesR_spec hfl hL hE hb (pos := blen a)
      hF.reached_end (L.beginNodes (blen a)) st (fun _ h => h) hinv
    have hmem : 1 ∈ L.beginNodes (blen a) := (hL.begins _ _).2 (.inl ⟨rfl, rfl⟩)
    have hne : (L.beginNodes (blen a)).isEmpty = false := by
      cases hbn : L.beginNodes (blen a) with
      | nil => rw [hbn] at hmem; simp at hmem
      | cons _ _ => rfl
    rw [viterbiLoopR]
    simp only [hne, Bool.false_eq_true, if_false]
    refine ⟨st', h1, hinv.step hL hE h2 h3 (fun e he _ => by have := hF.lt e he; omega), ?_⟩
    obtain ⟨l, k1, k2, k3, k4⟩ := h3 1 hmem
    obtain ⟨id, hid⟩ := hL.eos
    rw [hid] at k3 k4
    have hl : l ∉ L.beginNodes (blen a) := by
      intro h
      rcases k1 with ⟨rfl, -⟩ | ⟨i, e, rfl, hi, hs⟩
      · rcases (hL.begins _ 0).1 h with ⟨h, -⟩ | ⟨i, e, h, -⟩ <;> omega
      · have := hE e (List.mem_of_getElem? hi)
        rcases (hL.begins _ _).1 h with ⟨h, -⟩ | ⟨i', e', h, hi', hs'⟩
        · omega
        · obtain rfl : i = i' := by omega
          rw [hi] at hi'; cases hi'
          omega
    exact ⟨l, k1, k2, by rw [(h2 l hl).2]; exact k3.symm.trans k4⟩
  | c :: cs, a, st, hs, hinv => by
    have hE : ∀ e ∈ E, e.start < e.stop := fun e he => (hF.lt e he).1
    obtain ⟨st', h1, h2, h3⟩ := viterbiNodesR_spec hfl hL hE hb (pos := blen a)
      (hF.reached a ⟨_, hs.symm⟩) (L.beginNodes (blen a)) st (fun _ h => h) hinv
    obtain ⟨e0, hedge, hes0⟩ := hF.begins a c cs hs
    obtain ⟨i0, hi0⟩ := List.getElem?_of_mem hedge
    have hmem : i0 + 2 ∈ L.beginNodes (blen a) := (hL.begins _ _).2 (.inr ⟨i0, e0, rfl, hi0, hes0⟩)
    have hne : (L.beginNodes (blen a)).isEmpty = false := by
      cases hbn : L.beginNodes (blen a) with
      | nil => rw [hbn] at hmem; simp at hmem
      | cons _ _ => rfl
    rw [viterbiLoopR]
    simp only [hne, Bool.false_eq_true, if_false, h1]
    have e1 : blen (a ++ [c]) = blen a + c.utf8Size := by simp
    rw [← e1]
    apply viterbiLoopR_spec hfl hF hL hb cs (a ++ [c]) st' (by simp [hs])
    apply hinv.step hL hE h2 h3
    intro e he hlt
    obtain ⟨a', ha', hes⟩ := hF.start e he
    rw [hes]
    apply prefix_step (s := s) (cs := cs) (c := c) ha' hs
    rw [← hes, ← e1]; exact hlt

/-- Following `prev` gives a path whose rounded score is the value of the node it started from. -/
theorem viterbiBackR_spec {E : List Edge} {V : Nat → Rat} {st : VState} (hE : ∀ e ∈ E, e.start < e.stop)
    (hst : VInvR fl E V (fun _ => True) st) :
    ∀ (fuel q l : Nat), q ≤ fuel → Ends E q l →
      ∃ ns es, viterbiBack st fuel l = some ns ∧ (∀ n ∈ ns, 2 ≤ n) ∧
        es.map some = ns.reverse.map (fun n => E[n - 2]?) ∧ Path E 0 q es ∧
        st.bt l = addUp fl 0 (es.map (·.score)) := by
  intro fuel
  induction fuel with
  | zero =>
    intro q l hq hl
    rcases hl with ⟨rfl, rfl⟩ | ⟨i, e, rfl, hi, hs⟩
    · refine ⟨[], [], ?_, by simp, rfl, rfl, hst.bos.2⟩
      unfold viterbiBack; simp [hst.bos.1]
    · have := hE e (List.mem_of_getElem? hi); omega
  | succ fuel ih =>
    intro q l hq hl
    rcases hl with ⟨rfl, rfl⟩ | ⟨i, e, rfl, hi, hs⟩
    · refine ⟨[], [], ?_, by simp, rfl, rfl, hst.bos.2⟩
      unfold viterbiBack; simp [hst.bos.1]
    · have hm := List.mem_of_getElem? hi
      have := hE e hm
      obtain ⟨-, l, k1, k2, k3⟩ := hst.edge i e hi trivial
      obtain ⟨ns, es, h1, h2, h3, h4, h5⟩ := ih e.start l (by omega) k1
      refine ⟨(i + 2) :: ns, es ++ [e], ?_, ?_, ?_, h4.append ⟨hm, rfl, hs⟩, ?_⟩
      · unfold viterbiBack; simp only [k2, h1]; rfl
      · intro n hn
        rcases List.mem_cons.1 hn with rfl | hn
        · omega
        · exact h2 n hn
      · simp [h3, hi]
      · rw [List.map_append, addUp_append, ← h5, k3]
        rfl

/-- **C75.** The lattice with rounded sums always succeeds when there is an unknown token, and its pieces are,
after joining runs of unknown pieces, a segmentation whose rounded score no other segmentation exceeds. -/
theorem C75_lattice (hfl : Rounding fl) {bf : Bool} {k : Nat} (hu : Unigram.from vocab (some k) bf = .ok u)
    {m : Rat} (hm : IsMinScore vocab m) (s : Str) :
    ∃ xs, SegR fl vocab (some k) m s xs ∧ (∀ ys, SegR fl vocab (some k) m s ys → scoreR fl ys ≤ scoreR fl xs) ∧
      u.encodeUnoptimizedR fl s = .ok (fuse (xs.map (fun x => (x.text, decide (x.id = some k))))) := by
  have hu := made_of_from hu
  have hb := hu.toBuilt.rounded fl
  have hmr := hu.rounded_min hm fl
  obtain ⟨V, A, hA⟩ : ∃ V A, IsBestR fl ((u.rounded fl).edgesFrom 0 s) V A := by
    rcases encodeOptimizedR_spec (fl := fl) hu hm s with ⟨x, -, h⟩ | ⟨V, A, hA, -⟩
    · cases h
    · exact ⟨V, A, hA⟩
  have hlt : ∀ e ∈ (u.rounded fl).edgesFrom 0 s, e.start < e.stop ∧ e.stop ≤ blen s := fun e he => by
    have := hb.edge_lt' hmr he; omega
  have hE : ∀ e ∈ (u.rounded fl).edgesFrom 0 s, e.start < e.stop := fun e he => (hlt e he).1
  have hid : ∀ e ∈ (u.rounded fl).edgesFrom 0 s, e.id ≠ none := by
    intro e he
    obtain ⟨a, b, x, -, hx, rfl⟩ := (hb.mem_edgesFrom' hmr s 0 e).1 he
    rcases hx with ⟨-, i, hi, -⟩ | ⟨-, -, -, hi, -⟩
    · simp [hi]
    · simp [hi]
  have htx : ∀ e ∈ (u.rounded fl).edgesFrom 0 s, (strGet s e.start e.stop).isSome :=
    fun e he => hb.edge_text' hmr he
  have hpop : populateLoopR fl u 0 s (Lattice.from s u.bosId u.eosId) =
      some (insertEdges (Lattice.from s u.bosId u.eosId) ((u.rounded fl).edgesFrom 0 s)) := by
    rw [populateLoopR_eq]
    exact populateLoop_eq hb (by simp) s 0 _
  have hL : IsLattice s ((u.rounded fl).edgesFrom 0 s)
      (insertEdges (Lattice.from s u.bosId u.eosId) ((u.rounded fl).edgesFrom 0 s)) := by
    have := isLattice_insertEdges ((u.rounded fl).edgesFrom 0 s) [] _ (isLattice_from s u.bosId u.eosId) hE
    simpa using this
  have hF := hb.full' hmr s
  have hseg := fun es hp => hb.seg_of_path' hmr (s := s) es [] s rfl hp
  have hpath := fun ys hys => hb.path_of_seg' hmr (s := s) ys [] hys
  generalize insertEdges (Lattice.from s u.bosId u.eosId) ((u.rounded fl).edgesFrom 0 s) = L at hpop hL
  generalize (u.rounded fl).edgesFrom 0 s = E at *
  obtain ⟨st, hv, hst, l, hl, hroot, hval⟩ := viterbiLoopR_spec hfl hF hL hA s []
    ⟨fun _ => none, fun _ => 0⟩ rfl ⟨⟨rfl, rfl⟩, fun i e _ h => by simp at h⟩
  obtain ⟨ns, es, hn1, hn2, hn3, hn4, hn5⟩ := viterbiBackR_spec hE hst (blen s) (blen s) l (Nat.le_refl _) hl
  have hV0 := (hA.zero hE).2
  -- the values are rounded already
  have hbest : st.bt l = V (blen s) := by
    rcases hl with ⟨rfl, h0⟩ | ⟨i, e, rfl, hi, hs⟩
    · rw [hst.bos.2, h0, hV0]
    · have h1 := (hst.edge i e hi trivial).1
      rw [Rat.add_zero, Rat.add_zero, h1, hfl.idem] at hval
      rw [h1, hval]
      cases ha : A (blen s) with
      | none => exact absurd hs ((hA.none _ ha).2 e (List.mem_of_getElem? hi))
      | some j =>
        obtain ⟨e', -, -, hv', -⟩ := hA.some _ _ ha
        rw [hv', hfl.idem]
  have hbl : ∃ r, L.beginNodes L.len = 1 :: r := by
    have h1 : 1 ∈ L.beginNodes L.len := by rw [hL.len]; exact (hL.begins _ _).2 (.inl ⟨rfl, rfl⟩)
    have h2 : ∀ n ∈ L.beginNodes L.len, n = 1 := by
      intro n hn
      rw [hL.len] at hn
      rcases (hL.begins _ _).1 hn with ⟨h, -⟩ | ⟨i, e, -, hi, hs⟩
      · exact h
      · have := hlt e (List.mem_of_getElem? hi); omega
    cases hb : L.beginNodes L.len with
    | nil => rw [hb] at h1; simp at h1
    | cons a r =>
      have := h2 a (by simp [hb])
      exact ⟨r, by rw [this]⟩
  obtain ⟨r, hr⟩ := hbl
  have hvit : viterbiR fl L = some ns.reverse := by
    unfold viterbiR
    rw [hL.sentence]
    have e0 : blen ([] : Str) = 0 := rfl
    rw [e0] at hv
    rw [hv]
    simp only [hr, hroot]
    rw [hL.len, hn1]
    rfl
  obtain ⟨xs, hsx, hlay⟩ := hseg es hn4
  refine ⟨xs, segR_iff.2 hsx, ?_, ?_⟩
  · intro ys hys
    have hys := segR_iff.1 hys
    have hy := hA.le hfl _ _ _ (hpath ys (by simp [hys.1]) hys.2)
    have e0 : blen ([] : Str) = 0 := rfl
    rw [scores_layout, e0, hV0, ← hbest, hn5, ← hlay, scores_layout] at hy
    exact hy
  · unfold encodeUnoptimizedR
    rw [hpop]
    simp only [hvit, hu.fuse, if_true]
    rw [fuseLoop_spec hu.toBuilt hL (fun e he => ⟨hE e he, hid e he, htx e he⟩) ns.reverse es [] []
      (by simpa using hn2) hn3]
    have := marked_layout (m := fl (m - 10) + 10) xs [] s rfl hsx
    have e0 : blen ([] : Str) = 0 := rfl
    rw [← this, e0, ← e0, hlay]
    simp [fuseWith]

end Tok.Unigram
