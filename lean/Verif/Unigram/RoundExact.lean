import Verif.Unigram.F64

/-!
# C75: when rounding changes nothing
-/

namespace Tok.Unigram

variable {vocab : List (Str × Rat)} {unk : Option Nat} {u : Unigram} {fl : Rat → Rat}

/-! ### Specification -/

/-- No sum that occurs for `s` is changed by rounding: not the score of unknown characters, and not the exact
total of any pieces with which `s` begins. -/
structure NoRounding (fl : Rat → Rat) (vocab : List (Str × Rat)) (unk : Option Nat) (m : Rat) (s : Str) : Prop where
  unknown : fl (m - 10) = m - 10
  totals : ∀ xs : List Piece, (∀ x ∈ xs, IsPiece vocab unk m x) → (xs.map (·.text)).flatten <+: s →
    fl (score xs) = score xs

/-! ### Paths -/

theorem Built.pieces_of_path (hu : Built vocab unk u) {m : Rat} (hm : u.minScore = m) {s : Str} {q : Nat} :
    ∀ (es : List Edge) (a b : Str), s = a ++ b → Path (u.edgesFrom 0 s) (blen a) q es →
      ∃ xs : List Piece, (∀ x ∈ xs, IsPiece vocab unk m x) ∧ (xs.map (·.text)).flatten <+: b ∧
        layout (blen a) xs = es
  | [], a, b, h, hp => ⟨[], by simp, by simp, rfl⟩
  | e :: es, a, b, h, ⟨hm', hs, hp⟩ => by
    obtain ⟨a', b', x, h1, hx, rfl⟩ := (hu.mem_edgesFrom' hm s 0 e).1 hm'
    simp only [Nat.zero_add] at hs hp
    have haa : a' = a := prefix_blen_eq (s := s) ⟨x.text ++ b', by simp [h1]⟩ ⟨b, h.symm⟩ hs
    subst haa
    have hb : b = x.text ++ b' := by
      rw [h1, List.append_assoc] at h
      exact (List.append_cancel_left h).symm
    have e1 : blen (a' ++ x.text) = blen a' + blen x.text := by simp
    rw [← e1] at hp
    obtain ⟨xs, hx1, ⟨r, hx2⟩, hx3⟩ := hu.pieces_of_path hm es (a' ++ x.text) b' (by simp [h1]) hp
    refine ⟨x :: xs, ?_, ⟨r, by simp [hb, ← hx2]⟩, ?_⟩
    · intro y hy
      rcases List.mem_cons.1 hy with rfl | hy
      · exact hx
      · exact hx1 y hy
    · rw [layout, ← e1, hx3]
      simp

theorem NoRounding.path {m : Rat} {s : Str} (h : NoRounding fl vocab unk m s) (hu : Built vocab unk u)
    (hm : u.minScore = m) {q : Nat} {es : List Edge} (hp : Path (u.edgesFrom 0 s) 0 q es) :
    fl (total es) = total es := by
  obtain ⟨xs, h1, h2, h3⟩ := hu.pieces_of_path hm es [] s rfl hp
  rw [← h3, total_layout]
  exact h.totals xs h1 h2

/-- Sums along a path, when no total of a path is changed. -/
theorem addUp_total {E : List Edge} (h : ∀ q es, Path E 0 q es → fl (total es) = total es) :
    ∀ (fs es : List Edge) (p q : Nat), Path E 0 p es → Path E p q fs →
      addUp fl (total es) (fs.map (·.score)) = total (es ++ fs)
  | [], es, _, _, _, _ => by simp [addUp]
  | e :: fs, es, p, q, he, ⟨h1, h2, h3⟩ => by
    have hp : Path E 0 e.stop (es ++ [e]) := he.append ⟨h1, h2, rfl⟩
    have ht : total (es ++ [e]) = total es + e.score := by
      rw [total_append]; simp [Rat.add_zero]
    have := addUp_total h fs (es ++ [e]) _ _ hp h3
    rw [List.append_assoc, List.singleton_append] at this
    rw [← this, List.map_cons, addUp, ← ht, h _ _ hp]

/-- A best table with rounded sums is one with exact sums. -/
theorem IsBestR.exact {E V A} (hE : ∀ e ∈ E, e.start < e.stop) (hc : Connected E) (hb : IsBestR fl E V A)
    (h : ∀ q es, Path E 0 q es → fl (total es) = total es) : IsBest E V A := by
  have key : ∀ e ∈ E, fl (V e.start + e.score) = V e.start + e.score := by
    intro e he
    obtain ⟨p1, p2⟩ := recover_pathR hE hb hc e.start e.start (Nat.le_refl _) (hc e he)
    have := addUp_total h _ [] 0 _ rfl p1
    rw [total_nil, List.nil_append, ← p2] at this
    have hp := h _ _ (p1.append (r := e.stop) (fs := [e]) ⟨he, rfl, rfl⟩)
    have ht : total (recover E A e.start e.start ++ [e]) = V e.start + e.score := by
      rw [total_append, ← this]; simp [Rat.add_zero]
    rwa [ht] at hp
  refine ⟨hb.none, ?_⟩
  intro p i ha
  obtain ⟨e, he, hs, hv, hmax⟩ := hb.some p i ha
  refine ⟨e, he, hs, by rw [hv, key e (List.mem_of_getElem? he)], ?_⟩
  intro j e' hj hs'
  have := hmax j e' hj hs'
  rwa [key e' (List.mem_of_getElem? hj)] at this

theorem recover_congr {E : List Edge} {A A' : Nat → Option Nat} (h : ∀ p, A p = A' p) : ∀ (fuel q : Nat),
    recover E A fuel q = recover E A' fuel q := by
  have : A = A' := funext h
  subst this
  intro _ _; rfl

theorem rounded_self (hu : Made vocab unk u) {m : Rat} (hm : IsMinScore vocab m) (h : fl (m - 10) = m - 10) :
    u.rounded fl = u := by
  have e : (u.rounded fl).minScore = u.minScore := by
    rw [hu.rounded_min hm fl, h, hu.minScore m hm]; grind
  unfold rounded at *
  cases u
  simp only at e ⊢
  rw [e]

/-- **C75.** If no sum needs rounding, `encode_optimized` in floating point is the exact one. -/
theorem C75_exact_optimized {bf : Bool} {k : Nat} (hu : Unigram.from vocab (some k) bf = .ok u) {m : Rat}
    (hm : IsMinScore vocab m) {s : Str} (h : NoRounding fl vocab (some k) m s) :
    u.encodeOptimizedR fl s = u.encodeOptimized s := by
  have hu := made_of_from hu
  have hr := rounded_self (fl := fl) hu hm h.unknown
  have hE : ∀ e ∈ u.edgesFrom 0 s, e.start < e.stop := fun e he => (hu.edge_lt hm he).2.1
  have hpath : ∀ q es, Path (u.edgesFrom 0 s) 0 q es → fl (total es) = total es :=
    fun q es hp => h.path hu.toBuilt (hu.minScore m hm) hp
  rcases encodeOptimizedR_spec (fl := fl) hu hm s with ⟨x, -, h1⟩ | ⟨V, A, hA, h1⟩
  · cases h1
  rw [hr] at hA h1
  have hA := hA.exact hE (hu.connected hm s) hpath
  rcases encodeOptimizedR_spec (fl := id) hu hm s with ⟨x, -, h2⟩ | ⟨V', A', hA', h2⟩
  · cases h2
  have hr' : u.rounded id = u := rounded_self hu hm rfl
  rw [hr'] at hA' h2
  have hA' := hA'.exact hE (hu.connected hm s) (fun _ _ _ => rfl)
  rw [h1, ← encodeOptimizedR_id, h2,
    recover_congr (fun p => (IsBest.unique hE hA hA' (p + 1) p (by omega)).2)]

/-! ### The lattice -/

theorem bestLeftR_exact {bt : Nat → Rat} {r : Rat} : ∀ (ls : List Nat) (best : Option (Nat × Rat)),
    (∀ l ∈ ls, fl (bt l + r) = bt l + r) → bestLeftR fl bt r ls best = bestLeft bt r ls best
  | [], _, _ => by simp [bestLeftR, bestLeft]
  | l :: ls, none, h => by
    simp only [bestLeftR, bestLeft, h l (by simp)]
    exact bestLeftR_exact ls _ (fun x hx => h x (by simp [hx]))
  | l :: ls, some (b, sc), h => by
    simp only [bestLeftR, bestLeft, h l (by simp),
      bestLeftR_exact ls _ (fun x hx => h x (by simp [hx]))]

theorem viterbiNodesR_exact {L : Lattice} {ends : List Nat} : ∀ (rs : List Nat) (st : VState),
    (∀ l ∈ ends, l ∉ rs) →
    (∀ r ∈ rs, ∀ l ∈ ends, fl (st.bt l + (L.nodes[r]?.map (·.score)).getD 0) =
      st.bt l + (L.nodes[r]?.map (·.score)).getD 0) →
    viterbiNodesR fl L ends rs st = viterbiNodes L ends rs st
  | [], _, _, _ => rfl
  | r :: rs, st, h1, h2 => by
    simp only [viterbiNodesR, viterbiNodes, bestLeftR_exact ends none (h2 r (by simp))]
    cases hb : bestLeft st.bt ((L.nodes[r]?.map (·.score)).getD 0) ends none with
    | none => rfl
    | some x =>
      obtain ⟨b, sc⟩ := x
      apply viterbiNodesR_exact rs
      · intro l hl hm
        exact h1 l hl (by simp [hm])
      · intro r' hr' l hl
        have : l ≠ r := by
          rintro rfl
          exact h1 l hl (by simp)
        simp only [this, if_false]
        exact h2 r' (by simp [hr']) l hl

/-- The invariant moves past a position. -/
theorem VInv.step {s : Str} {E : List Edge} {V : Nat → Rat} {A : Nat → Option Nat} {L : Lattice}
    (hL : IsLattice s E L) {pos : Nat} {P : Nat → Prop} {st st' : VState} (hinv : VInv E V A (· < pos) st)
    (h2 : ∀ n, n ∉ L.beginNodes pos → st'.prev n = st.prev n ∧ st'.bt n = st.bt n)
    (h3 : ∀ r ∈ L.beginNodes pos, st'.prev r = some (nodeFor A pos))
    (h4 : ∀ (i : Nat) (e : Edge), i + 2 ∈ L.beginNodes pos → E[i]? = some e → st'.bt (i + 2) = V pos + e.score)
    (hP : ∀ e ∈ E, P e.start → e.start ≤ pos) : VInv E V A P st' := by
  refine ⟨?_, ?_⟩
  · have h0 : 0 ∉ L.beginNodes pos := by
      intro h
      rcases (hL.begins _ _).1 h with ⟨h, -⟩ | ⟨i, e, h, -⟩ <;> omega
    obtain ⟨q1, q2⟩ := h2 0 h0
    rw [q1, q2]; exact hinv.bos
  · intro i e hi hp
    have hle := hP e (List.mem_of_getElem? hi) hp
    by_cases heq : e.start = pos
    · have hin : i + 2 ∈ L.beginNodes pos := (hL.begins _ _).2 (.inr ⟨i, e, rfl, hi, heq⟩)
      exact ⟨by rw [h3 _ hin, heq], by rw [h4 i e hin hi, heq]⟩
    · have hnot : i + 2 ∉ L.beginNodes pos := by
        intro h
        rcases (hL.begins _ _).1 h with ⟨h, -⟩ | ⟨i', e', h, hi', hs'⟩
        · omega
        · obtain rfl : i = i' := by omega
          rw [hi] at hi'; cases hi'
          exact heq hs'
      obtain ⟨q1, q2⟩ := h2 _ hnot
      rw [q1, q2]
      exact hinv.edge i e hi (by show e.start < pos; omega)

theorem viterbiNodesR_exact_at {s : Str} {E : List Edge} (hF : Full s E) {V : Nat → Rat} {A : Nat → Option Nat}
    {L : Lattice} (hL : IsLattice s E L) (hb : IsBest E V A) (hV0 : V 0 = 0)
    (h : ∀ q es, Path E 0 q es → fl (total es) = total es) {pos : Nat} {st : VState}
    (hinv : VInv E V A (· < pos) st) :
    viterbiNodesR fl L (L.endNodes pos) (L.beginNodes pos) st =
      viterbiNodes L (L.endNodes pos) (L.beginNodes pos) st := by
  have hE : ∀ e ∈ E, e.start < e.stop := fun e he => (hF.lt e he).1
  -- the value of a node that ends here is the total of a path
  have hval : ∀ l ∈ L.endNodes pos, ∃ es, Path E 0 pos es ∧ st.bt l = total es := by
    intro l hl
    rcases (hL.ends pos l).1 hl with ⟨rfl, rfl⟩ | ⟨i, e, rfl, hi, hs⟩
    · exact ⟨[], rfl, hinv.bos.2⟩
    · have hm := List.mem_of_getElem? hi
      have := hE e hm
      obtain ⟨p1, p2⟩ := recover_path hE hb hF.connected e.start e.start (Nat.le_refl _) (hF.connected e hm)
      refine ⟨_, p1.append (fs := [e]) ⟨hm, rfl, hs⟩, ?_⟩
      rw [(hinv.edge i e hi (by show e.start < pos; omega)).2, p2, hV0, total_append]
      simp [Rat.add_zero, Rat.zero_add]
  apply viterbiNodesR_exact
  · intro l hl hr
    rcases (hL.ends pos l).1 hl with ⟨rfl, rfl⟩ | ⟨i, e, rfl, hi, hs⟩
    · rcases (hL.begins _ _).1 hr with ⟨h, -⟩ | ⟨i, e, h, -⟩ <;> omega
    · have := hE e (List.mem_of_getElem? hi)
      rcases (hL.begins _ _).1 hr with ⟨h, -⟩ | ⟨i', e', h, hi', hs'⟩
      · omega
      · obtain rfl : i = i' := by omega
        rw [hi] at hi'; cases hi'
        omega
  · intro r hr l hl
    obtain ⟨es, hp, hv⟩ := hval l hl
    rw [hv]
    rcases (hL.begins _ _).1 hr with ⟨rfl, -⟩ | ⟨i, e, rfl, hi, hs⟩
    · obtain ⟨id, hid⟩ := hL.eos
      rw [hid]
      simp only [Option.map_some, Option.getD_some, Rat.add_zero]
      exact h _ _ hp
    · rw [hL.node i e hi]
      simp only [Option.map_some, Option.getD_some]
      have := h _ _ (hp.append (fs := [e]) ⟨List.mem_of_getElem? hi, hs, rfl⟩)
      rw [total_append] at this
      simpa [Rat.add_zero] using this

theorem viterbiLoopR_exact {s : Str} {E : List Edge} (hF : Full s E) {V : Nat → Rat} {A : Nat → Option Nat}
    {L : Lattice} (hL : IsLattice s E L) (hb : IsBest E V A) (hV0 : V 0 = 0)
    (h : ∀ q es, Path E 0 q es → fl (total es) = total es) :
    ∀ (rest a : Str) (st : VState), s = a ++ rest → VInv E V A (· < blen a) st →
      viterbiLoopR fl L (blen a) rest st = viterbiLoop L (blen a) rest st
  | [], a, st, hs, hinv => by
    rw [viterbiLoopR, viterbiLoop]
    simp only [viterbiNodesR_exact_at hF hL hb hV0 h hinv]
  | c :: cs, a, st, hs, hinv => by
    have hE : ∀ e ∈ E, e.start < e.stop := fun e he => (hF.lt e he).1
    obtain ⟨st', h1, h2, h3, h4⟩ := viterbiNodes_spec hL hE hb (pos := blen a)
      (hF.reached a ⟨_, hs.symm⟩) hV0 (L.beginNodes (blen a)) st (fun _ h => h) hinv
    have e1 : blen (a ++ [c]) = blen a + c.utf8Size := by simp
    have ih := viterbiLoopR_exact hF hL hb hV0 h cs (a ++ [c]) st' (by simp [hs]) (hinv.step hL h2 h3 h4 (by
      intro e he hlt
      obtain ⟨a', ha', hes⟩ := hF.start e he
      rw [hes]
      apply prefix_step (s := s) (cs := cs) (c := c) ha' hs
      rw [← hes, ← e1]; exact hlt))
    rw [viterbiLoopR, viterbiLoop]
    simp only [viterbiNodesR_exact_at hF hL hb hV0 h hinv, h1]
    rw [← e1, ih]

/-- **C75.** If no sum needs rounding, the lattice in floating point is the exact one. -/
theorem C75_exact_lattice {bf : Bool} {k : Nat} (hu : Unigram.from vocab (some k) bf = .ok u) {m : Rat}
    (hm : IsMinScore vocab m) {s : Str} (h : NoRounding fl vocab (some k) m s) :
    u.encodeUnoptimizedR fl s = u.encodeUnoptimized s := by
  have hu := made_of_from hu
  have hr := rounded_self (fl := fl) hu hm h.unknown
  have hE : ∀ e ∈ u.edgesFrom 0 s, e.start < e.stop := fun e he => (hu.edge_lt hm he).2.1
  have hpath : ∀ q es, Path (u.edgesFrom 0 s) 0 q es → fl (total es) = total es :=
    fun q es hp => h.path hu.toBuilt (hu.minScore m hm) hp
  obtain ⟨V, A, hA⟩ : ∃ V A, IsBest (u.edgesFrom 0 s) V A := by
    rcases encodeOptimizedR_spec (fl := fl) hu hm s with ⟨x, -, h1⟩ | ⟨V, A, hA, -⟩
    · cases h1
    · rw [hr] at hA
      exact ⟨V, A, hA.exact hE (hu.connected hm s) hpath⟩
  have hV0 : V 0 = 0 := by
    cases ha : A 0 with
    | none => exact (hA.none 0 ha).1
    | some i =>
      obtain ⟨e, he, hs, -⟩ := hA.some _ _ ha
      have := hE e (List.mem_of_getElem? he)
      omega
  have hpop : populateLoop u 0 s (Lattice.from s u.bosId u.eosId) =
      some (insertEdges (Lattice.from s u.bosId u.eosId) (u.edgesFrom 0 s)) :=
    populateLoop_eq hu.toBuilt (by simp) s 0 _
  have hpop' : u.populateNodes (Lattice.from s u.bosId u.eosId) =
      some (insertEdges (Lattice.from s u.bosId u.eosId) (u.edgesFrom 0 s)) := hpop
  have hL : IsLattice s (u.edgesFrom 0 s) (insertEdges (Lattice.from s u.bosId u.eosId) (u.edgesFrom 0 s)) := by
    have := isLattice_insertEdges (u.edgesFrom 0 s) [] _ (isLattice_from s u.bosId u.eosId) hE
    simpa using this
  unfold encodeUnoptimizedR encodeUnoptimized
  rw [populateLoopR_eq, hr, hpop, hpop']
  generalize insertEdges (Lattice.from s u.bosId u.eosId) (u.edgesFrom 0 s) = L at *
  have hv : viterbiR fl L = L.viterbi := by
    unfold viterbiR Lattice.viterbi
    have := viterbiLoopR_exact (fl := fl) (hu.full hm s) hL hA hV0 hpath s [] ⟨fun _ => none, fun _ => 0⟩ rfl
      ⟨⟨rfl, rfl⟩, fun i e _ h => by simp at h⟩
    have e0 : blen ([] : Str) = 0 := rfl
    rw [e0] at this
    rw [hL.sentence, this]
    rfl
  simp only [hv]
  rfl

/-- **C75.** If no sum needs rounding, the encoders agree. -/
theorem C75_exact_agree {bf : Bool} {k : Nat} (hu : Unigram.from vocab (some k) bf = .ok u) {m : Rat}
    (hm : IsMinScore vocab m) {s : Str} (h : NoRounding fl vocab (some k) m s) :
    u.encodeUnoptimizedR fl s = u.encodeOptimizedR fl s := by
  rw [C75_exact_lattice hu hm h, C75_exact_optimized hu hm h]
  exact C24_agree_partial hu s

/-! ### Scores on a grid -/

/-- `x` is a multiple of `1 / 2^g` of magnitude at most `Z / 2^g`. -/
def OnGrid (g Z : Nat) (x : Rat) : Prop := ∃ z : Int, x * 2 ^ g = z ∧ z.natAbs ≤ Z

theorem OnGrid.add {g Z Z' : Nat} {x y : Rat} (hx : OnGrid g Z x) (hy : OnGrid g Z' y) :
    OnGrid g (Z + Z') (x + y) := by
  obtain ⟨a, ha, ha'⟩ := hx
  obtain ⟨b, hb, hb'⟩ := hy
  refine ⟨a + b, ?_, by omega⟩
  rw [Rat.intCast_add, ← ha, ← hb]
  grind

theorem OnGrid.mono {g Z Z' : Nat} {x : Rat} (hx : OnGrid g Z x) (h : Z ≤ Z') : OnGrid g Z' x := by
  obtain ⟨a, ha, ha'⟩ := hx
  exact ⟨a, ha, by omega⟩

theorem OnGrid.neg {g Z : Nat} {x : Rat} (hx : OnGrid g Z x) : OnGrid g Z (-x) := by
  obtain ⟨a, ha, ha'⟩ := hx
  refine ⟨-a, ?_, by omega⟩
  rw [Rat.intCast_neg, ← ha]
  grind

/-- Multiples of a power of two that need less than 53 bits are `f64`s. -/
theorem f64round_grid {g Z : Nat} {x : Rat} (hg : g ≤ 1074) (hZ : Z < 2 ^ 53) (hx : OnGrid g Z x) :
    f64round x = x := by
  have key : ∀ y : Rat, 0 ≤ y → OnGrid g Z y → round53 (y * f64unit) / f64unit = y := by
    intro y hy ⟨z, hz, hz'⟩
    have hz0 : (0 : Rat) ≤ (z : Rat) := by
      rw [← hz]; exact Rat.mul_nonneg hy (Rat.le_of_lt (two_pow_pos g))
    have hz1 : 0 ≤ z := by exact_mod_cast hz0
    obtain ⟨n, rfl⟩ := Int.eq_ofNat_of_zero_le hz1
    have e : y * f64unit = (n : Rat) * 2 ^ (1074 - g) := by
      have : ((n : Int) : Rat) = (n : Rat) := rfl
      rw [← this, ← hz, f64unit, Rat.mul_assoc, ← two_pow_add, show g + (1074 - g) = 1074 by omega]
    have hn : (n : Rat) < 2 ^ 53 := by
      rw [← two_pow_cast]
      exact_mod_cast (show n < 2 ^ 53 by simp at hz'; omega)
    rw [e, round53_fits, ← e, mul_div_self f64unit_pos]
    rw [Nat.add_comm, two_pow_add]
    exact Rat.mul_lt_mul_of_pos_right hn (two_pow_pos _)
  unfold f64round
  split
  · rename_i hneg
    rw [key (-x) (by grind) hx.neg, Rat.neg_neg]
  · rename_i hneg
    exact key x (by grind) hx

theorem onGrid_score {g Z : Nat} : ∀ (xs : List Piece), (∀ x ∈ xs, OnGrid g Z x.score) →
    OnGrid g (xs.length * Z) (score xs)
  | [], _ => ⟨0, by simp [score], by simp⟩
  | x :: xs, h => by
    have := (h x (by simp)).add (onGrid_score xs (fun y hy => h y (by simp [hy])))
    exact this.mono (by simp [Nat.succ_mul, Nat.add_comm])

/-- **C75.** If all scores are multiples of `1 / 2^g`, of magnitude at most `Z / 2^g`, and the sentence has so
few characters that their totals need less than 53 bits, then nothing is rounded in `f64`. -/
theorem C75_exact_f64 {g Z : Nat} (hg : g ≤ 1074) {m : Rat} (hm : IsMinScore vocab m)
    (hv : ∀ p ∈ vocab, OnGrid g Z p.2) {s : Str} (hs : (s.length + 1) * (Z + 10 * 2 ^ g) < 2 ^ 53) :
    NoRounding f64round vocab unk m s := by
  have hten : OnGrid g (10 * 2 ^ g) (-10) := by
    refine ⟨-((10 * 2 ^ g : Nat) : Int), ?_, by omega⟩
    rw [Rat.intCast_neg]
    have : (((10 * 2 ^ g : Nat) : Int) : Rat) = ((10 * 2 ^ g : Nat) : Rat) := rfl
    rw [this, Rat.natCast_mul, two_pow_cast]
    grind
  have hunk : OnGrid g (Z + 10 * 2 ^ g) (m - 10) := by
    obtain ⟨⟨t, ht⟩, -⟩ := hm
    rw [Rat.sub_eq_add_neg]
    exact (hv _ ht).add hten
  have h1 : 1 * (Z + 10 * 2 ^ g) ≤ (s.length + 1) * (Z + 10 * 2 ^ g) := Nat.mul_le_mul_right _ (by omega)
  refine ⟨f64round_grid hg (by omega) hunk, ?_⟩
  intro xs hx hpre
  have hsc : ∀ x ∈ xs, OnGrid g (Z + 10 * 2 ^ g) x.score := by
    intro x hxm
    rcases hx x hxm with ⟨-, i, -, hl, -⟩ | ⟨-, -, -, -, h⟩
    · exact (hv _ (List.mem_of_getElem? hl)).mono (by omega)
    · rw [h]; exact hunk
  have hlen : xs.length ≤ s.length := by
    have h2 : ∀ (ys : List Piece), (∀ x ∈ ys, IsPiece vocab unk m x) →
        ys.length ≤ ((ys.map (·.text)).flatten).length := by
      intro ys
      induction ys with
      | nil => simp
      | cons y ys ih =>
        intro hy
        have := ih (fun z hz => hy z (by simp [hz]))
        have hne := List.length_pos_iff.2 (hy y (by simp)).ne_nil
        simp only [List.map_cons, List.flatten_cons, List.length_append, List.length_cons]
        omega
    exact Nat.le_trans (h2 xs hx) hpre.length_le
  have h3 : xs.length * (Z + 10 * 2 ^ g) ≤ (s.length + 1) * (Z + 10 * 2 ^ g) :=
    Nat.mul_le_mul_right _ (by omega)
  exact f64round_grid hg (by omega) (onGrid_score xs hsc)

/-- The numbers of type `f32` of magnitude at least `2^-6` and below `32`, as SentencePiece files have them, are
multiples of `2^-29`; with them nothing is rounded in sentences of up to 390000 characters. -/
example {m : Rat} (hm : IsMinScore vocab m) (hv : ∀ p ∈ vocab, OnGrid 29 (32 * 2 ^ 29) p.2) {s : Str}
    (hs : s.length ≤ 390000) : NoRounding f64round vocab unk m s :=
  C75_exact_f64 (by decide) hm hv (by
    have : (s.length + 1) * (32 * 2 ^ 29 + 10 * 2 ^ 29) ≤ 390001 * (32 * 2 ^ 29 + 10 * 2 ^ 29) :=
      Nat.mul_le_mul_right _ (by omega)
    omega)

/-- The vocabulary of `C23` meets the hypotheses. -/
example : ∀ p ∈ sampleVocab, OnGrid 0 4 p.2 := by
  intro p hp
  simp only [sampleVocab, List.mem_cons, List.not_mem_nil, or_false] at hp
  rcases hp with rfl | rfl | rfl | rfl | rfl | rfl
  · exact ⟨0, by decide +kernel, by decide⟩
  · exact ⟨-1, by decide +kernel, by decide⟩
  · exact ⟨-2, by decide +kernel, by decide⟩
  · exact ⟨-4, by decide +kernel, by decide⟩
  · exact ⟨-3, by decide +kernel, by decide⟩
  · exact ⟨-2, by decide +kernel, by decide⟩

/-- **C75.** The pieces concatenate to the sentence, whatever the rounding. -/
theorem C75_concat (hfl : Rounding fl) {bf : Bool} {k : Nat} (hu : Unigram.from vocab (some k) bf = .ok u)
    {s : Str} {out : List Str}
    (h : u.encodeOptimizedR fl s = .ok out ∨ u.encodeUnoptimizedR fl s = .ok out) : out.flatten = s := by
  have hne : vocab ≠ [] := by
    rintro rfl
    simp [Unigram.from] at hu
  have hm := minOf_isMin hne
  rcases h with h | h
  · obtain ⟨xs, h1, -, rfl⟩ := C75_optimized hfl hu hm h
    rw [fuse_flatten]
    simpa [Function.comp_def] using h1.1
  · obtain ⟨xs, h1, -, h3⟩ := C75_lattice hfl hu hm s
    rw [h3] at h
    cases h
    rw [fuse_flatten]
    simpa [Function.comp_def] using h1.1

end Tok.Unigram
