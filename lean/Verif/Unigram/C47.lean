import Verif.Unigram.NBest

/-!
# C47: n-best segmentations are correct
-/

namespace Tok.Unigram

variable {E : List Edge} {V : Nat → Rat} {A : Nat → Option Nat}

theorem idxTotal_append (E : List Edge) (a b : List Nat) :
    idxTotal E (a ++ b) = idxTotal E a + idxTotal E b := by
  induction a with
  | nil => simp [idxTotal, Rat.zero_add]
  | cons i a ih =>
    have : ∀ l, idxTotal E (i :: l) = edgeScore E i + idxTotal E l := fun _ => rfl
    rw [List.cons_append, this, this, ih, Rat.add_assoc]

theorem idxTotal_cons (E : List Edge) (i : Nat) (l : List Nat) :
    idxTotal E (i :: l) = edgeScore E i + idxTotal E l := rfl

theorem idxPath_append : ∀ (xs ys : List Nat) (p q : Nat),
    IdxPath E p q (xs ++ ys) ↔ ∃ r, IdxPath E p r xs ∧ IdxPath E r q ys
  | [], ys, p, q => by
    constructor
    · intro h; exact ⟨p, rfl, h⟩
    · rintro ⟨r, h, h'⟩; cases h; exact h'
  | i :: xs, ys, p, q => by
    simp only [List.cons_append, IdxPath]
    constructor
    · rintro ⟨e, h1, h2, h3⟩
      obtain ⟨r, h4, h5⟩ := (idxPath_append xs ys _ q).1 h3
      exact ⟨r, ⟨e, h1, h2, h4⟩, h5⟩
    · rintro ⟨r, ⟨e, h1, h2, h4⟩, h5⟩
      exact ⟨e, h1, h2, (idxPath_append xs ys _ q).2 ⟨r, h4, h5⟩⟩

theorem idxPath_start {is : List Nat} {p p' q : Nat} (h : IdxPath E p q is) (h' : IdxPath E p' q is) :
    p = p' := by
  cases is with
  | nil => exact Eq.trans h (Eq.symm h')
  | cons i is =>
    obtain ⟨e, h1, h2, -⟩ := h
    obtain ⟨e', h1', h2', -⟩ := h'
    rw [h1] at h1'; cases h1'
    exact h2.symm.trans h2'

theorem IsBest.idx_edge (hb : IsBest E V A) {i : Nat} {e : Edge} (hi : E[i]? = Option.some e) :
    V e.start + edgeScore E i ≤ V e.stop := by
  have hsc : edgeScore E i = e.score := by simp [edgeScore, hi]
  rw [hsc]
  have := hb.le [e] e.start e.stop ⟨List.mem_of_getElem? hi, rfl, rfl⟩
  simpa [Rat.add_zero] using this

theorem IsBest.idx_le (hb : IsBest E V A) : ∀ (is : List Nat) (p q : Nat), IdxPath E p q is →
    V p + idxTotal E is ≤ V q
  | [], p, q, h => by
    cases h
    have : idxTotal E [] = 0 := rfl
    rw [this, Rat.add_zero]; exact Rat.le_refl
  | i :: is, p, q, ⟨e, h1, h2, h3⟩ => by
    have ih := hb.idx_le is _ _ h3
    have := hb.idx_edge h1
    rw [idxTotal_cons, ← h2]
    grind

theorem IsBest.idx_exists (hE : ∀ e ∈ E, e.start < e.stop) (hb : IsBest E V A) (hc : Connected E) :
    ∀ (n q : Nat), q ≤ n → (q = 0 ∨ ∃ e ∈ E, e.stop = q) →
      ∃ is, IdxPath E 0 q is ∧ V q = V 0 + idxTotal E is := by
  intro n
  induction n with
  | zero =>
    intro q hq _
    obtain rfl : q = 0 := by omega
    exact ⟨[], rfl, by simp [idxTotal, Rat.add_zero]⟩
  | succ n ih =>
    intro q hq hr
    by_cases hq0 : q = 0
    · subst hq0; exact ⟨[], rfl, by simp [idxTotal, Rat.add_zero]⟩
    · obtain ⟨e0, he0, hs0⟩ := hr.resolve_left hq0
      cases ha : A q with
      | none => exact absurd hs0 ((hb.none q ha).2 e0 he0)
      | some i =>
        obtain ⟨e, he, hs, hv, -⟩ := hb.some q i ha
        have hm := List.mem_of_getElem? he
        have := hE e hm
        obtain ⟨is, h1, h2⟩ := ih e.start (by omega) (hc e hm)
        refine ⟨is ++ [i], (idxPath_append _ _ _ _).2 ⟨e.start, h1, e, he, rfl, hs⟩, ?_⟩
        have hsc : edgeScore E i = e.score := by simp [edgeScore, he]
        rw [idxTotal_append, hv, h2, idxTotal_cons, hsc]
        have : idxTotal E [] = 0 := rfl
        grind

/-! ### Chains of nodes -/

/-- The nodes of a full path, including begin and end of the sentence. -/
def nodesOf (q : List Nat) : List Nat := 0 :: (q.map (· + 2) ++ [1])

theorem map2_inj {a b : List Nat} (h : a.map (· + 2) = b.map (· + 2)) : a = b :=
  (List.map_inj_right (f := (· + 2)) (fun x y h => by simpa using h)).1 h

theorem nodesOf_suffix {a q : List Nat} (h : nodesOf a <:+ nodesOf q) : a = q := by
  obtain ⟨pre, h⟩ := h
  cases pre with
  | nil =>
    simp only [List.nil_append, nodesOf, List.cons.injEq, true_and] at h
    exact map2_inj (List.append_cancel_right h)
  | cons x pre =>
    exfalso
    simp only [nodesOf, List.cons_append, List.cons.injEq] at h
    have hm : 0 ∈ q.map (· + 2) ++ [1] := by rw [← h.2]; simp
    simp at hm

theorem tail_suffix {a q : List Nat} : (a.map (· + 2) ++ [1]) <:+ nodesOf q ↔ a <:+ q := by
  constructor
  · rintro ⟨pre, h⟩
    cases pre with
    | nil =>
      exfalso
      cases a with
      | nil => simp [nodesOf] at h
      | cons i a => simp [nodesOf] at h
    | cons x pre =>
      simp only [nodesOf, List.cons_append, List.cons.injEq, ← List.append_assoc] at h
      have h2 := List.append_cancel_right h.2
      obtain ⟨l1, l2, rfl, -, h3⟩ := List.map_eq_append_iff.1 h2.symm
      exact ⟨l1, by rw [map2_inj h3]⟩
  · rintro ⟨pre, rfl⟩
    exact ⟨0 :: pre.map (· + 2), by simp [nodesOf]⟩

/-- The full paths a hypothesis can still lead to. -/
def Cov (E : List Edge) (len : Nat) (h : Hyp) (q : List Nat) : Prop :=
  IdxPath E 0 len q ∧ (h.node :: h.rest) <:+ nodesOf q

/-- A hypothesis in the agenda after the first step. -/
def HypOK (E : List Edge) (V : Nat → Rat) (len : Nat) (h : Hyp) : Prop :=
  ∃ p is, IdxPath E p len is ∧ h.gx = idxTotal E is ∧ h.fx = V p + idxTotal E is ∧
    (p = 0 ∨ ∃ e ∈ E, e.stop = p) ∧
    ((p = 0 ∧ h.node :: h.rest = nodesOf is) ∨ (is ≠ [] ∧ h.node :: h.rest = is.map (· + 2) ++ [1]))

/-- The standing assumptions. -/
structure Ctx (s : Str) (E : List Edge) (L : Lattice) (V : Nat → Rat) (A : Nat → Option Nat)
    (bt : Nat → Rat) (bosId : Nat) : Prop where
  full : Full s E
  lat : IsLattice s E L
  best : IsBest E V A
  zero : V 0 = 0
  bt0 : bt 0 = 0
  bt : ∀ (i : Nat) (e : Edge), E[i]? = some e → bt (i + 2) = V e.start + e.score
  ids : ∀ (i : Nat) (nd : LNode), L.nodes[i]? = some nd → (nd.id = bosId ↔ i = 0)

section
variable {s : Str} {L : Lattice} {bt : Nat → Rat} {bosId : Nat}

theorem Ctx.lt (C : Ctx s E L V A bt bosId) : ∀ e ∈ E, e.start < e.stop := fun e he => (C.full.lt e he).1

theorem Ctx.cov_le (C : Ctx s E L V A bt bosId) {h : Hyp} (hh : HypOK E V (blen s) h) {q : List Nat}
    (hq : Cov E (blen s) h q) : idxTotal E q ≤ h.fx := by
  obtain ⟨p, is, h1, h2, h3, h4, ⟨rfl, h5⟩ | ⟨h5, h6⟩⟩ := hh
  · have hq2 := hq.2
    rw [h5] at hq2
    rw [← nodesOf_suffix hq2, h3, C.zero, Rat.zero_add]
    exact Rat.le_refl
  · have hq2 := hq.2
    rw [h6] at hq2
    obtain ⟨pre, rfl⟩ := tail_suffix.1 hq2
    obtain ⟨r, g1, g2⟩ := (idxPath_append _ _ _ _).1 hq.1
    obtain rfl := idxPath_start g2 h1
    have := C.best.idx_le _ _ _ g1
    rw [C.zero] at this
    rw [h3, idxTotal_append]
    grind

theorem Ctx.cov_exists (C : Ctx s E L V A bt bosId) {h : Hyp} (hh : HypOK E V (blen s) h) :
    ∃ q, Cov E (blen s) h q ∧ idxTotal E q = h.fx := by
  obtain ⟨p, is, h1, h2, h3, h4, ⟨rfl, h5⟩ | ⟨h5, h6⟩⟩ := hh
  · exact ⟨is, ⟨h1, by rw [h5]; exact List.suffix_refl _⟩, by rw [h3, C.zero, Rat.zero_add]⟩
  · obtain ⟨pre, g1, g2⟩ := C.best.idx_exists C.lt C.full.connected p p (Nat.le_refl _) h4
    refine ⟨pre ++ is, ⟨(idxPath_append _ _ _ _).2 ⟨p, g1, h1⟩, ?_⟩, ?_⟩
    · rw [h6]; exact tail_suffix.2 ⟨pre, rfl⟩
    · rw [h3, idxTotal_append, g2, C.zero, Rat.zero_add]

/-- The hypotheses pushed when expanding. -/
def children (L : Lattice) (bt : Nat → Rat) (top : Hyp) (pos : Nat) : List Hyp :=
  (L.endNodes pos).map fun l =>
    ⟨l, top.node :: top.rest, bt l + top.gx, (L.nodes[l]?.map (·.score)).getD 0 + top.gx⟩

theorem expand_perm {H : Heap} (hH : H.Ok) (L : Lattice) (bt : Nat → Rat) (top : Hyp) (pos : Nat)
    (agenda : List Hyp) : (expand H L bt top pos agenda).Perm (children L bt top pos ++ agenda) := by
  unfold expand children
  generalize L.endNodes pos = ls
  induction ls generalizing agenda with
  | nil => simp
  | cons l ls ih =>
    rw [List.foldl_cons]
    refine (ih _).trans ?_
    rw [List.map_cons, List.cons_append]
    exact ((hH.push _ _).append_left _).trans List.perm_middle

/-- Expanding an unfinished hypothesis (or the initial one, `is = []`). -/
theorem Ctx.children_spec (C : Ctx s E L V A bt bosId) {top : Hyp} {p : Nat} {is : List Nat}
    (h1 : IdxPath E p (blen s) is) (h2 : top.gx = idxTotal E is)
    (h4 : p = 0 ∨ ∃ e ∈ E, e.stop = p) (h6 : top.node :: top.rest = is.map (· + 2) ++ [1]) :
    (∀ c ∈ children L bt top p, HypOK E V (blen s) c ∧ c.fx ≤ V p + idxTotal E is) ∧
    (∃ c ∈ children L bt top p, c.fx = V p + idxTotal E is) ∧
    (∀ q, Cov E (blen s) top q ↔ ∃ c ∈ children L bt top p, Cov E (blen s) c q) ∧
    (children L bt top p).Pairwise (fun c c' => ∀ q, ¬ (Cov E (blen s) c q ∧ Cov E (blen s) c' q)) := by
  have hmem : ∀ c, c ∈ children L bt top p ↔ ∃ l ∈ L.endNodes p, c =
      ⟨l, top.node :: top.rest, bt l + top.gx, (L.nodes[l]?.map (·.score)).getD 0 + top.gx⟩ := by
    intro c
    simp only [children, List.mem_map, eq_comm]
  -- the two kinds of children
  have hnode : ∀ (i : Nat) (e : Edge), E[i]? = some e →
      (L.nodes[i + 2]?.map (·.score)).getD 0 = e.score := by
    intro i e hi; rw [C.lat.node i e hi]; rfl
  refine ⟨?_, ?_, ?_, ?_⟩
  · intro c hc
    obtain ⟨l, hl, rfl⟩ := (hmem c).1 hc
    rcases (C.lat.ends p l).1 hl with ⟨rfl, rfl⟩ | ⟨i, e, rfl, hi, hs⟩
    · refine ⟨⟨0, is, h1, ?_, ?_, .inl rfl, .inl ⟨rfl, ?_⟩⟩, ?_⟩
      · obtain ⟨id, hid⟩ := C.lat.bos
        simp [hid, h2, Rat.zero_add]
      · simp [C.bt0, C.zero, h2]
      · simp [h6, nodesOf]
      · simp [C.bt0, C.zero, h2]
    · have hsc : edgeScore E i = e.score := by simp [edgeScore, hi]
      have hedge := C.best.idx_edge hi
      refine ⟨⟨e.start, i :: is, ⟨e, hi, rfl, by rw [hs]; exact h1⟩, ?_, ?_, ?_, .inr ⟨by simp, ?_⟩⟩, ?_⟩
      · simp [hnode i e hi, h2, idxTotal_cons, hsc]
      · simp [C.bt i e hi, h2, idxTotal_cons, hsc, Rat.add_assoc]
      · exact C.full.connected e (List.mem_of_getElem? hi)
      · simp [h6]
      · dsimp only
        rw [C.bt i e hi, h2]
        rw [hs, hsc] at hedge
        grind
  · by_cases hp0 : p = 0
    · subst hp0
      refine ⟨_, (hmem _).2 ⟨0, (C.lat.ends 0 0).2 (.inl ⟨rfl, rfl⟩), rfl⟩, ?_⟩
      simp [C.bt0, C.zero, h2]
    · obtain ⟨e0, he0, hs0⟩ := h4.resolve_left hp0
      cases ha : A p with
      | none => exact absurd hs0 ((C.best.none p ha).2 e0 he0)
      | some i =>
        obtain ⟨e, hi, hs, hv, -⟩ := C.best.some p i ha
        refine ⟨_, (hmem _).2 ⟨i + 2, (C.lat.ends p _).2 (.inr ⟨i, e, rfl, hi, hs⟩), rfl⟩, ?_⟩
        dsimp only
        rw [C.bt i e hi, h2, hv]
  · intro q
    constructor
    · rintro ⟨hq1, hq2⟩
      rw [h6] at hq2
      obtain ⟨pre, rfl⟩ := tail_suffix.1 hq2
      obtain ⟨r, g1, g2⟩ := (idxPath_append _ _ _ _).1 hq1
      obtain rfl := idxPath_start g2 h1
      rcases List.eq_nil_or_concat pre with rfl | ⟨pre', i, rfl⟩
      · have hr0 : (0 : Nat) = r := g1
        subst hr0
        refine ⟨_, (hmem _).2 ⟨0, (C.lat.ends 0 0).2 (.inl ⟨rfl, rfl⟩), rfl⟩, hq1, ?_⟩
        dsimp only
        rw [h6]
        exact List.suffix_refl _
      · obtain ⟨r', g3, e, hi, hs, hst⟩ := (idxPath_append _ _ _ _).1 (by simpa using g1)
        cases hst
        refine ⟨_, (hmem _).2 ⟨i + 2, (C.lat.ends _ _).2 (.inr ⟨i, e, rfl, hi, rfl⟩), rfl⟩, hq1, ?_⟩
        dsimp only
        rw [h6]
        have : (i + 2) :: (is.map (· + 2) ++ [1]) = (i :: is).map (· + 2) ++ [1] := by simp
        rw [this]
        exact tail_suffix.2 ⟨pre', by simp⟩
    · rintro ⟨c, hc, hq1, hq2⟩
      obtain ⟨l, hl, rfl⟩ := (hmem c).1 hc
      refine ⟨hq1, ?_⟩
      exact (List.suffix_cons _ _).trans hq2
  · unfold children
    rw [List.pairwise_map]
    refine (C.lat.endsSorted p).imp ?_
    intro a b hab q ⟨⟨_, h7⟩, ⟨_, h8⟩⟩
    dsimp only at h7 h8
    have hlen : (a :: top.node :: top.rest).length = (b :: top.node :: top.rest).length := rfl
    have := (List.suffix_of_suffix_length_le h7 h8 (Nat.le_of_eq hlen)).eq_of_length hlen
    simp at this
    omega

/-! ### The invariant of the loop -/

/-- Invariant: `agenda` and the paths `outs` found so far. -/
structure NInv (E : List Edge) (V : Nat → Rat) (len n m : Nat) (agenda : List Hyp) (outs : List (List Nat)) :
    Prop where
  ok : ∀ h ∈ agenda, HypOK E V len h
  disj : agenda.Pairwise (fun h h' => ∀ q, ¬ (Cov E len h q ∧ Cov E len h' q))
  odisj : ∀ h ∈ agenda, ∀ o ∈ outs, ¬ Cov E len h o
  nodup : outs.Nodup
  paths : ∀ q ∈ outs, IdxPath E 0 len q
  sorted : outs.Pairwise (fun a b => idxTotal E b ≤ idxTotal E a)
  ord : ∀ h ∈ agenda, ∀ o ∈ outs, h.fx ≤ idxTotal E o
  lt : outs.length < n
  all : ∀ q, IdxPath E 0 len q → q ∈ outs ∨ (∃ h ∈ agenda, Cov E len h q) ∨
    ((∀ o ∈ outs.take m, idxTotal E q ≤ idxTotal E o) ∧
      m ≤ outs.length + agenda.countP (fun h => decide (idxTotal E q ≤ h.fx)))

theorem NInv.perm {len n m : Nat} {a b : List Hyp} {outs} (h : NInv E V len n m a outs) (hp : a.Perm b) :
    NInv E V len n m b outs where
  ok x hx := h.ok x (hp.mem_iff.2 hx)
  disj := (hp.pairwise_iff (fun {x y} hxy q hq => hxy q ⟨hq.2, hq.1⟩)).1 h.disj
  odisj x hx := h.odisj x (hp.mem_iff.2 hx)
  nodup := h.nodup
  paths := h.paths
  sorted := h.sorted
  ord x hx := h.ord x (hp.mem_iff.2 hx)
  lt := h.lt
  all q hq := by
    rcases h.all q hq with h1 | ⟨x, hx, h2⟩ | ⟨h3, h4⟩
    · exact .inl h1
    · exact .inr (.inl ⟨x, hp.mem_iff.1 hx, h2⟩)
    · exact .inr (.inr ⟨h3, by rw [← hp.countP_eq]; exact h4⟩)

/-- Popping the top and pushing its children. -/
theorem NInv.expand {len n m : Nat} {top : Hyp} {rest cs : List Hyp} {outs}
    (h : NInv E V len n m (top :: rest) outs)
    (hc1 : ∀ c ∈ cs, HypOK E V len c ∧ c.fx ≤ top.fx) (hc2 : ∃ c ∈ cs, c.fx = top.fx)
    (hc3 : ∀ q, Cov E len top q ↔ ∃ c ∈ cs, Cov E len c q)
    (hc4 : cs.Pairwise (fun c c' => ∀ q, ¬ (Cov E len c q ∧ Cov E len c' q))) :
    NInv E V len n m (cs ++ rest) outs where
  ok x hx := by
    rcases List.mem_append.1 hx with hx | hx
    · exact (hc1 x hx).1
    · exact h.ok x (by simp [hx])
  disj := by
    rw [List.pairwise_append]
    obtain ⟨d1, d2⟩ := List.pairwise_cons.1 h.disj
    refine ⟨hc4, d2, ?_⟩
    intro c hc x hx q ⟨hq1, hq2⟩
    exact d1 x hx q ⟨(hc3 q).2 ⟨c, hc, hq1⟩, hq2⟩
  odisj x hx o ho hcov := by
    rcases List.mem_append.1 hx with hx | hx
    · exact h.odisj top (by simp) o ho ((hc3 o).2 ⟨x, hx, hcov⟩)
    · exact h.odisj x (by simp [hx]) o ho hcov
  nodup := h.nodup
  paths := h.paths
  sorted := h.sorted
  ord x hx o ho := by
    rcases List.mem_append.1 hx with hx | hx
    · exact Rat.le_trans (hc1 x hx).2 (h.ord top (by simp) o ho)
    · exact h.ord x (by simp [hx]) o ho
  lt := h.lt
  all q hq := by
    rcases h.all q hq with h1 | ⟨x, hx, h2⟩ | ⟨h3, h4⟩
    · exact .inl h1
    · rcases List.mem_cons.1 hx with rfl | hx
      · obtain ⟨c, hc, hcq⟩ := (hc3 q).1 h2
        exact .inr (.inl ⟨c, by simp [hc], hcq⟩)
      · exact .inr (.inl ⟨x, by simp [hx], h2⟩)
    · refine .inr (.inr ⟨h3, ?_⟩)
      rw [List.countP_cons] at h4
      rw [List.countP_append]
      split at h4
      · rename_i htop
        obtain ⟨c, hc, hcf⟩ := hc2
        have : 0 < cs.countP (fun h => decide (idxTotal E q ≤ h.fx)) :=
          List.countP_pos_iff.2 ⟨c, hc, by rw [hcf]; exact htop⟩
        omega
      · omega

/-- Shrinking. -/
theorem popN_spec {H : Heap} (hH : H.Ok) : ∀ (k : Nat) (l : List Hyp), k ≤ l.length →
    ∃ rem, l.Perm (popN H k l ++ rem) ∧ (popN H k l).length = k ∧
      ∀ x ∈ popN H k l, ∀ y ∈ rem, y.fx ≤ x.fx
  | 0, l, _ => ⟨l, by simp [popN], rfl, by simp [popN]⟩
  | k + 1, l, hk => by
    rw [popN]
    cases hp : H.pop l with
    | none =>
      have := hH.pop_none l hp
      subst this; simp at hk
    | some x =>
      obtain ⟨h, l'⟩ := x
      obtain ⟨p1, p2⟩ := hH.pop_some l h l' hp
      have hlen := p1.length_eq
      simp at hlen
      obtain ⟨rem, r1, r2, r3⟩ := popN_spec hH k l' (by omega)
      refine ⟨rem, ?_, by simp [r2], ?_⟩
      · exact p1.trans (by simpa using r1.cons h)
      · intro x hx y hy
        rcases List.mem_cons.1 hx with rfl | hx
        · have hm : y ∈ l' := r1.mem_iff.2 (by simp [hy])
          exact p2 y (p1.mem_iff.2 (by simp [hm]))
        · exact r3 x hx y hy

theorem foldl_push_perm {H : Heap} (hH : H.Ok) : ∀ (l a : List Hyp),
    (l.foldl (fun a h => H.push h a) a).Perm (l ++ a)
  | [], a => List.Perm.refl _
  | h :: l, a => by
    rw [List.foldl_cons]
    refine (foldl_push_perm hH l _).trans ?_
    exact ((hH.push h a).append_left _).trans List.perm_middle

theorem NInv.shrink (C : Ctx s E L V A bt bosId) {H : Heap} (hH : H.Ok) {n m : Nat} (hmn : m ≤ n) (hm : m ≤ 512)
    {agenda : List Hyp} {outs} (h : NInv E V (blen s) n m agenda outs) :
    NInv E V (blen s) n m (Tok.Unigram.shrink H n agenda) outs := by
  unfold Tok.Unigram.shrink
  split
  · rename_i hbig
    obtain ⟨rem, r1, r2, r3⟩ := popN_spec hH (min 512 (n * 10)) agenda (by omega)
    have hperm := foldl_push_perm hH (popN H (min 512 (n * 10)) agenda) []
    rw [List.append_nil] at hperm
    refine NInv.perm ?_ hperm.symm
    have h' := h.perm r1
    generalize popN H (min 512 (n * 10)) agenda = kept at *
    refine ⟨?_, ?_, ?_, h.nodup, h.paths, h.sorted, ?_, h.lt, ?_⟩
    · exact fun x hx => h'.ok x (by simp [hx])
    · exact (List.pairwise_append.1 h'.disj).1
    · exact fun x hx => h'.odisj x (by simp [hx])
    · exact fun x hx => h'.ord x (by simp [hx])
    · intro q hq
      rcases h'.all q hq with h1 | ⟨x, hx, h2⟩ | ⟨h3, h4⟩
      · exact .inl h1
      · rcases List.mem_append.1 hx with hx | hx
        · exact .inr (.inl ⟨x, hx, h2⟩)
        · have hle := C.cov_le (h'.ok x (by simp [hx])) h2
          refine .inr (.inr ⟨?_, ?_⟩)
          · intro o ho
            exact Rat.le_trans hle (h'.ord x (by simp [hx]) o (List.mem_of_mem_take ho))
          · have : kept.countP (fun h => decide (idxTotal E q ≤ h.fx)) = kept.length := by
              rw [List.countP_eq_length]
              intro y hy
              simpa using Rat.le_trans hle (r3 y hy x hx)
            rw [this, r2]
            have := h.lt
            omega
      · refine .inr (.inr ⟨h3, ?_⟩)
        rw [List.countP_append] at h4
        by_cases hall : ∀ y ∈ kept, idxTotal E q ≤ y.fx
        · have : kept.countP (fun h => decide (idxTotal E q ≤ h.fx)) = kept.length := by
            rw [List.countP_eq_length]
            intro y hy
            simpa using hall y hy
          rw [this, r2]
          have := h.lt
          omega
        · have : rem.countP (fun h => decide (idxTotal E q ≤ h.fx)) = 0 := by
            rw [List.countP_eq_zero]
            intro y hy
            simp only [decide_eq_true_eq]
            intro hle
            apply hall
            intro x hx
            exact Rat.le_trans hle (r3 x hx y hy)
          omega
  · exact h

theorem Ctx.node_pos (C : Ctx s E L V A bt bosId) {top : Hyp} {p : Nat} {is : List Nat} {nd : LNode}
    (h1 : IdxPath E p (blen s) is) (h6 : top.node :: top.rest = is.map (· + 2) ++ [1])
    (hnd : L.nodes[top.node]? = some nd) : nd.pos = p ∧ nd.id ≠ bosId := by
  have hids := C.ids _ _ hnd
  cases is with
  | nil =>
    simp at h6
    obtain ⟨id, hid⟩ := C.lat.eos
    rw [h6.1, hid] at hnd
    cases hnd
    refine ⟨Eq.symm h1, ?_⟩
    intro hx
    have := hids.1 hx
    omega
  | cons i is =>
    simp at h6
    obtain ⟨e, hi, hs, -⟩ := h1
    rw [h6.1, C.lat.node i e hi] at hnd
    cases hnd
    refine ⟨hs, ?_⟩
    intro hx
    have := hids.1 hx
    omega

theorem nbestLoop_spec (C : Ctx s E L V A bt bosId) {H : Heap} (hH : H.Ok) {n m : Nat} (hmn : m ≤ n) (hm : m ≤ 512) :
    ∀ (fuel : Nat) (agenda : List Hyp) (outs : List (List Nat)) (out : List (List Nat)),
      NInv E V (blen s) n m agenda outs →
      nbestLoop H L bt bosId n fuel agenda (outs.map (·.map (· + 2))) = some out →
      ∃ outI, out = outI.map (·.map (· + 2)) ∧ NBestSpec E (blen s) n m outI := by
  intro fuel
  induction fuel with
  | zero =>
    intro agenda outs out hinv h
    unfold nbestLoop at h
    cases hp : H.pop agenda with
    | some x => rw [hp] at h; cases h
    | none =>
      rw [hp] at h
      simp only [Option.some.injEq] at h
      have := hH.pop_none _ hp
      subst this
      refine ⟨outs, h.symm, by have := hinv.lt; omega, hinv.nodup, hinv.paths, hinv.sorted, ?_⟩
      intro q hq hno
      have := hinv.lt
      rcases hinv.all q hq with h1 | ⟨x, hx, -⟩ | ⟨h3, h4⟩
      · exact absurd h1 hno
      · simp at hx
      · exact ⟨by simpa using h4, h3⟩
  | succ fuel ih =>
    intro agenda outs out hinv h
    unfold nbestLoop at h
    cases hp : H.pop agenda with
    | none =>
      rw [hp] at h
      simp only [Option.some.injEq] at h
      have := hH.pop_none _ hp
      subst this
      refine ⟨outs, h.symm, by have := hinv.lt; omega, hinv.nodup, hinv.paths, hinv.sorted, ?_⟩
      intro q hq hno
      have := hinv.lt
      rcases hinv.all q hq with h1 | ⟨x, hx, -⟩ | ⟨h3, h4⟩
      · exact absurd h1 hno
      · simp at hx
      · exact ⟨by simpa using h4, h3⟩
    | some x =>
      obtain ⟨top, rest⟩ := x
      obtain ⟨p1, p2⟩ := hH.pop_some _ _ _ hp
      rw [hp] at h
      simp only at h
      have hinv' := hinv.perm p1
      have hmax : ∀ x ∈ top :: rest, x.fx ≤ top.fx := fun x hx => p2 x (p1.mem_iff.2 hx)
      cases hnd : L.nodes[top.node]? with
      | none => rw [hnd] at h; cases h
      | some nd =>
        rw [hnd] at h
        simp only at h
        have htop := hinv'.ok top (by simp)
        obtain ⟨p, is, h1, h2, h3, h4, ⟨rfl, h5⟩ | ⟨h5, h6⟩⟩ := htop
        · -- a finished path
          have hn0 : top.node = 0 := by simp [nodesOf] at h5; exact h5.1
          have hrest : top.rest = is.map (· + 2) ++ [1] := by simp [nodesOf] at h5; exact h5.2
          have hid : nd.id = bosId := (C.ids _ _ hnd).2 hn0
          have hfx : top.fx = idxTotal E is := by rw [h3, C.zero, Rat.zero_add]
          have hcov : Cov E (blen s) top is := ⟨h1, by rw [h5]; exact List.suffix_refl _⟩
          have hnew : is ∉ outs := fun hm => hinv'.odisj top (by simp) is hm hcov
          rw [if_pos hid, hrest, List.dropLast_concat] at h
          have hmapped : outs.map (·.map (· + 2)) ++ [is.map (· + 2)] =
              (outs ++ [is]).map (·.map (· + 2)) := by simp
          rw [hmapped] at h
          obtain ⟨d1, d2⟩ := List.pairwise_cons.1 hinv'.disj
          have hbase : (outs ++ [is]).Nodup ∧ (∀ q ∈ outs ++ [is], IdxPath E 0 (blen s) q) ∧
              (outs ++ [is]).Pairwise (fun a b => idxTotal E b ≤ idxTotal E a) ∧
              (∀ x ∈ rest, ∀ o ∈ outs ++ [is], x.fx ≤ idxTotal E o) ∧
              (∀ q, IdxPath E 0 (blen s) q → q ∈ outs ++ [is] ∨ (∃ h ∈ rest, Cov E (blen s) h q) ∨
                ((∀ o ∈ (outs ++ [is]).take m, idxTotal E q ≤ idxTotal E o) ∧
                  m ≤ (outs ++ [is]).length + rest.countP (fun h => decide (idxTotal E q ≤ h.fx)))) := by
            refine ⟨?_, ?_, ?_, ?_, ?_⟩
            · rw [List.nodup_append]
              refine ⟨hinv.nodup, by simp, ?_⟩
              intro a ha b hb
              simp at hb; subst hb
              intro hab; subst hab; exact hnew ha
            · intro q hq
              rcases List.mem_append.1 hq with hq | hq
              · exact hinv.paths q hq
              · simp at hq; subst hq; exact h1
            · rw [List.pairwise_append]
              refine ⟨hinv.sorted, by simp, ?_⟩
              intro a ha b hb
              simp at hb; subst hb
              rw [← hfx]; exact hinv'.ord top (by simp) a ha
            · intro x hx o ho
              rcases List.mem_append.1 ho with ho | ho
              · exact hinv'.ord x (by simp [hx]) o ho
              · simp at ho; subst ho
                rw [← hfx]; exact hmax x (by simp [hx])
            · intro q hq
              rcases hinv'.all q hq with g1 | ⟨x, hx, g2⟩ | ⟨g3, g4⟩
              · exact .inl (by simp [g1])
              · rcases List.mem_cons.1 hx with rfl | hx
                · have hq2 := g2.2
                  rw [h5] at hq2
                  exact .inl (by simp [nodesOf_suffix hq2])
                · exact .inr (.inl ⟨x, hx, g2⟩)
              · by_cases hmo : m ≤ outs.length
                · refine .inr (.inr ⟨?_, by simp; omega⟩)
                  rw [List.take_append_of_le_length hmo]
                  exact g3
                have hpos : 0 < (top :: rest).countP (fun h => decide (idxTotal E q ≤ h.fx)) := by omega
                obtain ⟨y, hy, hyq⟩ := List.countP_pos_iff.1 hpos
                have hqt : idxTotal E q ≤ top.fx := Rat.le_trans (by simpa using hyq) (hmax y hy)
                refine .inr (.inr ⟨?_, ?_⟩)
                · intro o ho
                  rcases List.mem_append.1 (List.mem_of_mem_take ho) with ho | ho
                  · exact g3 o (by rw [List.take_of_length_le (by omega)]; exact ho)
                  · simp at ho; subst ho; rw [← hfx]; exact hqt
                · rw [List.countP_cons] at g4
                  simp only [List.length_append, List.length_cons, List.length_nil]
                  split at g4 <;> omega
          obtain ⟨b1, b2, b3, b4, b5⟩ := hbase
          have hlt := hinv.lt
          split at h
          · rename_i hlen
            rw [List.length_map] at hlen
            cases h
            refine ⟨outs ++ [is], rfl, by omega, b1, b2, b3, ?_⟩
            intro q hq hno
            refine ⟨by omega, ?_⟩
            rcases b5 q hq with g1 | ⟨x, hx, g2⟩ | ⟨g3, -⟩
            · exact absurd g1 hno
            · intro o ho
              exact Rat.le_trans (C.cov_le (hinv'.ok x (by simp [hx])) g2) (b4 x hx o (List.mem_of_mem_take ho))
            · exact g3
          · rename_i hlen
            rw [List.length_map] at hlen
            refine ih rest (outs ++ [is]) out ?_ h
            refine ⟨fun x hx => hinv'.ok x (by simp [hx]), d2, ?_, b1, b2, b3, b4, ?_, b5⟩
            · intro x hx o ho hc
              rcases List.mem_append.1 ho with ho | ho
              · exact hinv'.odisj x (by simp [hx]) o ho hc
              · simp at ho; subst ho
                exact d1 x hx o ⟨hcov, hc⟩
            · simp at hlen ⊢; omega
        · -- an unfinished one
          obtain ⟨hpos, hid⟩ := C.node_pos h1 h6 hnd
          rw [if_neg hid, hpos] at h
          obtain ⟨c1, c2, c3, c4⟩ := C.children_spec h1 h2 h4 h6
          rw [← h3] at c1 c2
          have hexp := (hinv'.expand c1 c2 c3 c4).perm (expand_perm hH L bt top p rest).symm
          exact ih _ outs out (hexp.shrink C hH hmn hm) h

/-- The Viterbi pass establishes the assumptions. -/
theorem Ctx.of_lattice (hF : Full s E) (hL : IsLattice s E L) (hb : IsBest E V A)
    (ids : ∀ (i : Nat) (nd : LNode), L.nodes[i]? = some nd → (nd.id = bosId ↔ i = 0)) :
    ∃ st, viterbiLoop L 0 L.sentence ⟨fun _ => none, fun _ => 0⟩ = some st ∧
      VInv E V A (fun _ => True) st ∧ st.prev 1 = some (nodeFor A (blen s)) ∧
      Ctx s E L V A st.bt bosId := by
  have hV0 : V 0 = 0 := by
    cases ha : A 0 with
    | none => exact (hb.none 0 ha).1
    | some i =>
      obtain ⟨e, he, hs, -⟩ := hb.some _ _ ha
      have := (hF.lt e (List.mem_of_getElem? he)).1
      omega
  obtain ⟨st, hv, hst, hroot⟩ := viterbiLoop_spec hF hL hb hV0 s []
    ⟨fun _ => none, fun _ => 0⟩ rfl ⟨⟨rfl, rfl⟩, fun i e _ h => by simp at h⟩
  refine ⟨st, by rw [hL.sentence]; exact hv, hst, hroot, hF, hL, hb, hV0, hst.bos.2, ?_, ids⟩
  exact fun i e hi => (hst.edge i e hi trivial).2

theorem begins_len (hF : Full s E) (hL : IsLattice s E L) : ∃ r, L.beginNodes L.len = 1 :: r := by
  have h1 : 1 ∈ L.beginNodes L.len := by rw [hL.len]; exact (hL.begins _ _).2 (.inl ⟨rfl, rfl⟩)
  have h2 : ∀ n ∈ L.beginNodes L.len, n = 1 := by
    intro n hn
    rw [hL.len] at hn
    rcases (hL.begins _ _).1 hn with ⟨h, -⟩ | ⟨i, e, -, hi, hs⟩
    · exact h
    · have := hF.lt e (List.mem_of_getElem? hi); omega
  cases hb : L.beginNodes L.len with
  | nil => rw [hb] at h1; simp at h1
  | cons a r =>
    have := h2 a (by simp [hb])
    exact ⟨r, by rw [this]⟩

theorem ends_zero (hF : Full s E) (hL : IsLattice s E L) : ∃ r, L.endNodes 0 = 0 :: r := by
  have h1 : 0 ∈ L.endNodes 0 := (hL.ends _ _).2 (.inl ⟨rfl, rfl⟩)
  have h2 : ∀ n ∈ L.endNodes 0, n = 0 := by
    intro n hn
    rcases (hL.ends _ _).1 hn with ⟨h, -⟩ | ⟨i, e, -, hi, hs⟩
    · exact h
    · have := hF.lt e (List.mem_of_getElem? hi); omega
  cases hb : L.endNodes 0 with
  | nil => rw [hb] at h1; simp at h1
  | cons a r =>
    have := h2 a (by simp [hb])
    exact ⟨r, by rw [this]⟩

theorem idxPath_of_path : ∀ (es : List Edge) (is : List Nat) (p q : Nat), Path E p q es →
    es.map some = is.map (fun i => E[i]?) → IdxPath E p q is ∧ total es = idxTotal E is
  | [], [], p, q, h, _ => ⟨h, rfl⟩
  | [], _ :: _, _, _, _, h => by simp at h
  | _ :: _, [], _, _, _, h => by simp at h
  | e :: es, i :: is, p, q, ⟨h1, h2, h3⟩, h => by
    simp only [List.map_cons, List.cons.injEq] at h
    obtain ⟨g1, g2⟩ := idxPath_of_path es is _ _ h3 h.2
    refine ⟨⟨e, h.1.symm, h2, g1⟩, ?_⟩
    have hsc : edgeScore E i = e.score := by simp [edgeScore, ← h.1]
    rw [idxTotal_cons, hsc, ← g2]
    rfl

/-- `viterbi` returns a best path. -/
theorem viterbi_best (hF : Full s E) (hL : IsLattice s E L) (hb : IsBest E V A) (hV0 : V 0 = 0) :
    ∃ is, L.viterbi = some (is.map (· + 2)) ∧ IdxPath E 0 (blen s) is ∧ idxTotal E is = V (blen s) := by
  have hE : ∀ e ∈ E, e.start < e.stop := fun e he => (hF.lt e he).1
  obtain ⟨st, hv, hst, hroot⟩ := viterbiLoop_spec hF hL hb hV0 s []
    ⟨fun _ => none, fun _ => 0⟩ rfl ⟨⟨rfl, rfl⟩, fun i e _ h => by simp at h⟩
  obtain ⟨ns, hn1, hn2, hn3⟩ := viterbiBack_spec hE hb hF.connected hst (blen s) (blen s)
    (Nat.le_refl _) hF.reached_end
  obtain ⟨r, hr⟩ := begins_len hF hL
  have hvit : L.viterbi = some ns.reverse := by
    unfold Lattice.viterbi
    rw [hL.sentence]
    have e0 : blen ([] : Str) = 0 := rfl
    rw [e0] at hv
    rw [hv]
    simp only [hr, hroot]
    rw [hL.len, hn1]
    rfl
  obtain ⟨p1, p2⟩ := recover_path hE hb hF.connected (blen s) (blen s) (Nat.le_refl _) hF.reached_end
  obtain ⟨q1, q2⟩ := idxPath_of_path _ (ns.reverse.map (· - 2)) _ _ p1 (by rw [hn3, List.map_map]; rfl)
  refine ⟨ns.reverse.map (· - 2), ?_, q1, ?_⟩
  · rw [hvit, List.map_map]
    congr 1
    symm
    calc List.map ((· + 2) ∘ (· - 2)) ns.reverse = List.map id ns.reverse := by
          apply List.map_congr_left
          intro n hn
          have := hn2 n (by simpa using hn)
          simp; omega
      _ = ns.reverse := by simp
  · rw [← q2, p2, hV0, Rat.zero_add]

theorem nbest_spec (hF : Full s E) (hL : IsLattice s E L)
    (ids : ∃ b, ∀ (i : Nat) (nd : LNode), L.nodes[i]? = some nd → (nd.id = b ↔ i = 0))
    {H : Heap} (hH : H.Ok) {n fuel : Nat} {out : List (List Nat)}
    (h : L.nbest H fuel n = some out) :
    ∃ outI, out = outI.map (·.map (· + 2)) ∧ NBestSpec E (blen s) n (min n 512) outI := by
  obtain ⟨b, ids⟩ := ids
  obtain ⟨V, A, hb⟩ := exists_best hF
  obtain ⟨st, hv, hst, hroot, C⟩ := Ctx.of_lattice hF hL hb ids
  match n, h with
  | 0, h =>
    simp [Lattice.nbest] at h
    exact ⟨[], by simp [h], by simp, by simp, by simp, by simp, by simp⟩
  | 1, h =>
    obtain ⟨is, h1, h2, h3⟩ := viterbi_best hF hL hb C.zero
    simp [Lattice.nbest, h1] at h
    refine ⟨[is], by simp [h], by simp, by simp, by simpa using h2, by simp, ?_⟩
    intro q hq _
    refine ⟨by simp, ?_⟩
    intro o ho
    replace ho := List.mem_of_mem_take ho
    simp at ho; subst ho
    have := hb.idx_le _ _ _ hq
    rw [C.zero, Rat.zero_add] at this
    rw [h3]; exact this
  | n + 2, h =>
    obtain ⟨r, hr⟩ := begins_len hF hL
    obtain ⟨r', hr'⟩ := ends_zero hF hL
    obtain ⟨bid, hbos⟩ := hL.bos
    obtain ⟨eid, heos⟩ := hL.eos
    have hbid : bid = b := (ids 0 _ hbos).2 rfl
    subst hbid
    simp only [Lattice.nbest, hr, hr', hv, heos, hbos] at h
    have hperm := hH.push ⟨1, [], 0, 0⟩ []
    unfold nbestLoop at h
    cases hp : H.pop (H.push ⟨1, [], 0, 0⟩ []) with
    | none =>
      have := hH.pop_none _ hp
      rw [this] at hperm
      simp at hperm
    | some x =>
      obtain ⟨top, rest⟩ := x
      obtain ⟨p1, -⟩ := hH.pop_some _ _ _ hp
      have := (hperm.symm.trans p1).symm.eq_singleton
      simp only [List.cons.injEq] at this
      obtain ⟨rfl, rfl⟩ := this
      rw [hp] at h
      cases fuel with
      | zero => cases h
      | succ fuel =>
        have heid : eid ≠ bid := by
          intro hx
          have := (ids 1 _ heos).1 hx
          omega
        simp only [heos, if_neg heid] at h
        obtain ⟨c1, c2, c3, c4⟩ := C.children_spec (top := ⟨1, [], 0, 0⟩) (p := blen s) (is := [])
          rfl rfl hF.reached_end rfl
        have hinv : NInv E V (blen s) (n + 2) (min (n + 2) 512) (children L st.bt ⟨1, [], 0, 0⟩ (blen s)) [] := by
          refine ⟨fun x hx => (c1 x hx).1, c4, by simp, by simp, by simp, by simp, by simp, by simp, ?_⟩
          intro q hq
          right; left
          refine (c3 q).1 ⟨hq, ?_⟩
          exact ⟨0 :: q.map (· + 2), by simp [nodesOf]⟩
        have hex := expand_perm hH L st.bt ⟨1, [], 0, 0⟩ (blen s) []
        rw [List.append_nil] at hex
        have hinv2 := (hinv.perm hex.symm).shrink C hH (Nat.min_le_left _ _) (Nat.min_le_right _ _)
        exact nbestLoop_spec C hH (Nat.min_le_left _ _) (Nat.min_le_right _ _) fuel _ [] out hinv2 h

/-! ### Termination -/

/-- Size of the search tree below a node. -/
def wt (L : Lattice) : Nat → Nat → Nat
  | 0, _ => 1
  | f + 1, l =>
    if l = 0 then 1
    else 1 + ((L.endNodes ((L.nodes[l]?.map (·.pos)).getD 0)).map (wt L f)).sum

/-- Nodes of the lattice. -/
def IsNode (E : List Edge) (l : Nat) : Prop := l = 0 ∨ l = 1 ∨ ∃ i e, l = i + 2 ∧ E[i]? = some e

theorem IsLattice.pos_edge (hL : IsLattice s E L) {i : Nat} {e : Edge} (hi : E[i]? = some e) :
    (L.nodes[i + 2]?.map (·.pos)).getD 0 = e.start := by rw [hL.node i e hi]; rfl

theorem wt_stable (hF : Full s E) (hL : IsLattice s E L) : ∀ (f l : Nat), IsNode E l →
    (L.nodes[l]?.map (·.pos)).getD 0 < f → wt L f l = wt L (f + 1) l := by
  intro f
  induction f with
  | zero => intro l _ h; omega
  | succ f ih =>
    intro l hl hp
    by_cases h0 : l = 0
    · simp [wt, h0]
    · rw [wt, if_neg h0, wt, if_neg h0]
      congr 2
      apply List.map_congr_left
      intro l' hl'
      rcases (hL.ends _ _).1 hl' with ⟨rfl, -⟩ | ⟨i, e, rfl, hi, hs⟩
      · cases f <;> simp [wt]
      · apply ih
        · exact .inr (.inr ⟨i, e, rfl, hi⟩)
        · rw [hL.pos_edge hi]
          have := hF.lt e (List.mem_of_getElem? hi)
          omega

theorem IsLattice.pos_le (hF : Full s E) (hL : IsLattice s E L) {l : Nat} (hl : IsNode E l) :
    (L.nodes[l]?.map (·.pos)).getD 0 ≤ blen s := by
  rcases hl with rfl | rfl | ⟨i, e, rfl, hi⟩
  · obtain ⟨b, hb⟩ := hL.bos
    simp [hb]
  · obtain ⟨b, hb⟩ := hL.eos
    simp [hb]
  · rw [hL.pos_edge hi]
    have := hF.lt e (List.mem_of_getElem? hi)
    omega

theorem wt_step (hF : Full s E) (hL : IsLattice s E L) {l : Nat} (hl : IsNode E l) (h0 : l ≠ 0) :
    wt L (blen s + 1) l =
      1 + ((L.endNodes ((L.nodes[l]?.map (·.pos)).getD 0)).map (wt L (blen s + 1))).sum := by
  rw [wt, if_neg h0]
  congr 2
  apply List.map_congr_left
  intro l' hl'
  have hple := IsLattice.pos_le hF hL hl
  rcases (hL.ends _ _).1 hl' with ⟨rfl, -⟩ | ⟨i, e, rfl, hi, hs⟩
  · cases hbs : blen s <;> simp [wt]
  · apply wt_stable hF hL
    · exact .inr (.inr ⟨i, e, rfl, hi⟩)
    · rw [hL.pos_edge hi]
      have := hF.lt e (List.mem_of_getElem? hi)
      omega

/-- Total size of the search trees of the agenda. -/
def agendaWt (L : Lattice) (f : Nat) (agenda : List Hyp) : Nat := (agenda.map (fun h => wt L f h.node)).sum

theorem agendaWt_perm {f : Nat} {a b : List Hyp} (h : a.Perm b) : agendaWt L f a = agendaWt L f b :=
  (h.map _).sum_nat

theorem agendaWt_append {f : Nat} (a b : List Hyp) :
    agendaWt L f (a ++ b) = agendaWt L f a + agendaWt L f b := by
  simp [agendaWt]

theorem shrink_wt {H : Heap} (hH : H.Ok) {n f : Nat} (a : List Hyp) :
    agendaWt L f (shrink H n a) ≤ agendaWt L f a ∧ ∀ x ∈ shrink H n a, x ∈ a := by
  unfold shrink
  split
  · rename_i hbig
    obtain ⟨rem, r1, r2, -⟩ := popN_spec hH (min 512 (n * 10)) a (by omega)
    have hperm := foldl_push_perm hH (popN H (min 512 (n * 10)) a) []
    rw [List.append_nil] at hperm
    rw [agendaWt_perm hperm, agendaWt_perm r1, agendaWt_append]
    refine ⟨by omega, ?_⟩
    intro x hx
    rw [r1.mem_iff]
    exact List.mem_append_left _ (hperm.mem_iff.1 hx)
  · exact ⟨Nat.le_refl _, fun _ h => h⟩

theorem nbestLoop_terminates (hF : Full s E) (hL : IsLattice s E L)
    (ids : ∀ (i : Nat) (nd : LNode), L.nodes[i]? = some nd → (nd.id = bosId ↔ i = 0))
    {H : Heap} (hH : H.Ok) (n : Nat) : ∀ (fuel : Nat) (agenda : List Hyp) (outs : List (List Nat)),
    (∀ h ∈ agenda, IsNode E h.node) → agendaWt L (blen s + 1) agenda ≤ fuel →
    (nbestLoop H L bt bosId n fuel agenda outs).isSome := by
  intro fuel
  induction fuel with
  | zero =>
    intro agenda outs hnodes hw
    unfold nbestLoop
    cases hp : H.pop agenda with
    | none => rfl
    | some x =>
      obtain ⟨top, rest⟩ := x
      obtain ⟨p1, -⟩ := hH.pop_some _ _ _ hp
      rw [agendaWt_perm p1] at hw
      simp [agendaWt, wt] at hw
      split at hw <;> omega
  | succ fuel ih =>
    intro agenda outs hnodes hw
    unfold nbestLoop
    cases hp : H.pop agenda with
    | none => rfl
    | some x =>
      obtain ⟨top, rest⟩ := x
      obtain ⟨p1, -⟩ := hH.pop_some _ _ _ hp
      rw [agendaWt_perm p1] at hw
      have hcons : agendaWt L (blen s + 1) (top :: rest) =
          wt L (blen s + 1) top.node + agendaWt L (blen s + 1) rest := by simp [agendaWt]
      rw [hcons] at hw
      have htop := hnodes top (p1.mem_iff.2 (by simp))
      have hrest : ∀ h ∈ rest, IsNode E h.node := fun h hh => hnodes h (p1.mem_iff.2 (by simp [hh]))
      have hsome : ∃ nd, L.nodes[top.node]? = some nd := by
        rcases htop with h | h | ⟨i, e, h, hi⟩
        · rw [h]; obtain ⟨b, hb⟩ := hL.bos; exact ⟨_, hb⟩
        · rw [h]; obtain ⟨b, hb⟩ := hL.eos; exact ⟨_, hb⟩
        · rw [h]; exact ⟨_, hL.node i e hi⟩
      obtain ⟨nd, hnd⟩ := hsome
      simp only [hnd]
      by_cases h0 : top.node = 0
      · rw [if_pos ((ids _ _ hnd).2 h0)]
        split
        · rfl
        · apply ih rest _ hrest
          rw [h0, wt, if_pos rfl] at hw
          omega
      · rw [if_neg (fun hx => h0 ((ids _ _ hnd).1 hx))]
        obtain ⟨s1, s2⟩ := shrink_wt (L := L) (n := n) (f := blen s + 1) hH
          (expand H L bt top nd.pos rest)
        have hperm := expand_perm hH L bt top nd.pos rest
        have hstep := wt_step hF hL htop h0
        have hpos : (L.nodes[top.node]?.map (·.pos)).getD 0 = nd.pos := by rw [hnd]; rfl
        rw [hpos] at hstep
        have hch : agendaWt L (blen s + 1) (children L bt top nd.pos) =
            ((L.endNodes nd.pos).map (wt L (blen s + 1))).sum := by
          simp [agendaWt, children, Function.comp_def]
        apply ih
        · intro h hh
          have := hperm.mem_iff.1 (s2 h hh)
          rcases List.mem_append.1 this with hc | hr
          · simp only [children, List.mem_map] at hc
            obtain ⟨l, hl, rfl⟩ := hc
            rcases (hL.ends _ _).1 hl with ⟨rfl, -⟩ | ⟨i, e, rfl, hi, -⟩
            · exact .inl rfl
            · exact .inr (.inr ⟨i, e, rfl, hi⟩)
          · exact hrest h hr
        · rw [agendaWt_perm hperm, agendaWt_append, hch] at s1
          omega

theorem nbest_terminates (hF : Full s E) (hL : IsLattice s E L)
    (ids : ∃ b, ∀ (i : Nat) (nd : LNode), L.nodes[i]? = some nd → (nd.id = b ↔ i = 0))
    {H : Heap} (hH : H.Ok) (n : Nat) : ∃ N, ∀ fuel, N ≤ fuel → (L.nbest H fuel n).isSome := by
  obtain ⟨b, ids⟩ := ids
  obtain ⟨V, A, hb⟩ := exists_best hF
  obtain ⟨st, hv, hst, hroot, C⟩ := Ctx.of_lattice hF hL hb ids
  match n with
  | 0 => exact ⟨0, fun _ _ => rfl⟩
  | 1 =>
    obtain ⟨is, h1, -⟩ := viterbi_best hF hL hb C.zero
    exact ⟨0, fun _ _ => by simp [Lattice.nbest, h1]⟩
  | n + 2 =>
    obtain ⟨r, hr⟩ := begins_len hF hL
    obtain ⟨r', hr'⟩ := ends_zero hF hL
    obtain ⟨bid, hbos⟩ := hL.bos
    obtain ⟨eid, heos⟩ := hL.eos
    have hbid : bid = b := (ids 0 _ hbos).2 rfl
    subst hbid
    refine ⟨agendaWt L (blen s + 1) (H.push ⟨1, [], 0, 0⟩ []), ?_⟩
    intro fuel hf
    simp only [Lattice.nbest, hr, hr', hv, heos, hbos]
    refine nbestLoop_terminates hF hL ids hH _ fuel _ _ ?_ hf
    intro h hh
    have := (hH.push ⟨1, [], 0, 0⟩ []).mem_iff.1 hh
    simp at this
    subst this
    exact .inr (.inl rfl)

/-! ### The property -/

theorem insertEdges_old : ∀ (E : List Edge) (L : Lattice) (i : Nat), i < L.nodes.length →
    (insertEdges L E).nodes[i]? = L.nodes[i]?
  | [], _, _, _ => rfl
  | e :: E, L, i, h => by
    have : insertEdges L (e :: E) =
      insertEdges (L.insert e.start (e.stop - e.start) e.score (e.id.getD 0)) E := rfl
    rw [this, insertEdges_old E _ i (by simp [Lattice.insert]; omega)]
    simp [Lattice.insert, List.getElem?_append_left h]

theorem ids_insertEdges (hF : Full s E) {bos eos : Nat} (h1 : eos ≠ bos) (h2 : ∀ e ∈ E, e.id.getD 0 ≠ bos) :
    IsLattice s E (insertEdges (Lattice.from s bos eos) E) ∧
    ∀ (i : Nat) (nd : LNode), (insertEdges (Lattice.from s bos eos) E).nodes[i]? = some nd →
      (nd.id = bos ↔ i = 0) := by
  have hL : IsLattice s E (insertEdges (Lattice.from s bos eos) E) := by
    have := isLattice_insertEdges E [] _ (isLattice_from s bos eos) (fun e he => (hF.lt e he).1)
    simpa using this
  refine ⟨hL, ?_⟩
  intro i nd hnd
  match i with
  | 0 =>
    rw [insertEdges_old E _ 0 (by simp [Lattice.from])] at hnd
    simp [Lattice.from] at hnd
    simp [← hnd]
  | 1 =>
    rw [insertEdges_old E _ 1 (by simp [Lattice.from])] at hnd
    simp [Lattice.from] at hnd
    simp [← hnd, h1]
  | i + 2 =>
    have hi : i < E.length := by
      have := (List.getElem?_eq_some_iff.1 hnd).1
      rw [hL.count] at this
      omega
    have := hL.node i E[i] (List.getElem?_eq_getElem hi)
    rw [this] at hnd
    cases hnd
    simp [h2 _ (List.getElem_mem hi)]

end

/-- **C47.** `nbest(n)` on a lattice with the nodes `E` (a node starts at and, but for the start, ends at every
character boundary; begin-of-sentence has an id of its own) returns pairwise different full paths, best first,
at most `n` of them. If a path is left out, then `n` were returned and none of them is worse than it; for
`n > 512` this is so of the first 512 (shrinking a huge agenda keeps 512 hypotheses). Node `i` of `E` is node
`i + 2` of the lattice. -/
theorem C47_nbest {s : Str} {E : List Edge} (hF : Full s E) {bos eos : Nat} (h1 : eos ≠ bos)
    (h2 : ∀ e ∈ E, e.id.getD 0 ≠ bos) {H : Heap} (hH : H.Ok) {n fuel : Nat}
    {out : List (List Nat)} (h : (insertEdges (Lattice.from s bos eos) E).nbest H fuel n = some out) :
    ∃ paths, out = paths.map (·.map (· + 2)) ∧ NBestSpec E (blen s) n (min n 512) paths :=
  nbest_spec hF (ids_insertEdges hF h1 h2).1 ⟨bos, (ids_insertEdges hF h1 h2).2⟩ hH h

/-- The first path returned is a best one. -/
theorem C47_first {s : Str} {E : List Edge} (hF : Full s E) {bos eos : Nat} (h1 : eos ≠ bos)
    (h2 : ∀ e ∈ E, e.id.getD 0 ≠ bos) {H : Heap} (hH : H.Ok) {n fuel : Nat} (hn : 0 < n)
    {out : List (List Nat)} (h : (insertEdges (Lattice.from s bos eos) E).nbest H fuel n = some out) :
    ∃ best rest, out = best.map (· + 2) :: rest ∧ IdxPath E 0 (blen s) best ∧
      ∀ q, IdxPath E 0 (blen s) q → idxTotal E q ≤ idxTotal E best := by
  obtain ⟨paths, rfl, sp⟩ := C47_nbest hF h1 h2 hH h
  obtain ⟨V, A, hb⟩ := exists_best hF
  obtain ⟨q0, hq0, -⟩ := hb.idx_exists (fun e he => (hF.lt e he).1) hF.connected _ _ (Nat.le_refl _)
    hF.reached_end
  cases paths with
  | nil =>
    have := (sp.rest q0 hq0 (by simp)).1
    simp at this
    omega
  | cons p ps =>
    refine ⟨p, _, by simp only [List.map_cons]; rfl, sp.paths p (by simp), ?_⟩
    intro q hq
    by_cases hm : q ∈ p :: ps
    · rcases List.mem_cons.1 hm with rfl | hm
      · exact Rat.le_refl
      · exact (List.pairwise_cons.1 sp.sorted).1 q hm
    · obtain ⟨g1, g2⟩ := sp.rest q hq hm
      apply g2
      have : min n 512 = (min n 512 - 1) + 1 := by omega
      rw [this, List.take_succ_cons]
      simp

/-- The search ends, for every `n`. -/
theorem C47_terminates {s : Str} {E : List Edge} (hF : Full s E) {bos eos : Nat} (h1 : eos ≠ bos)
    (h2 : ∀ e ∈ E, e.id.getD 0 ≠ bos) {H : Heap} (hH : H.Ok) (n : Nat) :
    ∃ N, ∀ fuel, N ≤ fuel → ((insertEdges (Lattice.from s bos eos) E).nbest H fuel n).isSome :=
  nbest_terminates hF (ids_insertEdges hF h1 h2).1 ⟨bos, (ids_insertEdges hF h1 h2).2⟩ hH n

/-- The lattice `populate_nodes` builds for a model with an unknown id meets these conditions. -/
theorem C47_model {vocab : List (Str × Rat)} {bf : Bool} {k : Nat} {u : Unigram}
    (hu : Unigram.from vocab (some k) bf = .ok u) (s : Str) :
    u.populateNodes (Lattice.from s u.bosId u.eosId) =
      some (insertEdges (Lattice.from s u.bosId u.eosId) (u.edgesFrom 0 s)) ∧
    Full s (u.edgesFrom 0 s) ∧ u.eosId ≠ u.bosId ∧ ∀ e ∈ u.edgesFrom 0 s, e.id.getD 0 ≠ u.bosId := by
  have hne : vocab ≠ [] := by
    rintro rfl
    simp [Unigram.from] at hu
  have hm := minOf_isMin hne
  have hu := made_of_from hu
  refine ⟨populateLoop_eq hu.toBuilt (by simp) s 0 _, hu.full hm s, by rw [hu.bos, hu.eos]; omega, ?_⟩
  intro e he
  obtain ⟨a, b, x, -, hx, rfl⟩ := (hu.mem_edgesFrom hm s 0 e).1 he
  rw [hu.bos]
  rcases hx with ⟨-, i, hi, hlast⟩ | ⟨-, -, -, hi, -⟩
  · have := (List.getElem?_eq_some_iff.1 hlast.1).1
    simp [hi]; omega
  · have := hu.unk_lt k rfl
    simp [hi]; omega

/-- A queue: keep the list, take out the first maximum. -/
def listHeap : Heap where
  push h l := h :: l
  pop l := match l with
    | [] => none
    | h :: l => some (l.foldl (fun (p : Hyp × List Hyp) x =>
        if p.1.fx < x.fx then (x, p.1 :: p.2) else (p.1, x :: p.2)) (h, []))

theorem listHeap_ok : listHeap.Ok where
  push h l := List.Perm.refl _
  pop_none l h := by
    cases l with
    | nil => rfl
    | cons a l => simp [listHeap] at h
  pop_some l h l' hp := by
    cases l with
    | nil => simp [listHeap] at hp
    | cons a l =>
      simp only [listHeap, Option.some.injEq] at hp
      have key : ∀ (l : List Hyp) (p q : Hyp × List Hyp),
          l.foldl (fun (p : Hyp × List Hyp) x =>
            if p.1.fx < x.fx then (x, p.1 :: p.2) else (p.1, x :: p.2)) p = q →
          (∀ x ∈ p.1 :: p.2, x.fx ≤ p.1.fx) →
          ((p.1 :: p.2) ++ l).Perm (q.1 :: q.2) ∧ ∀ x ∈ (p.1 :: p.2) ++ l, x.fx ≤ q.1.fx := by
        intro l
        induction l with
        | nil =>
          intro p q h hx
          simp at h; subst h
          exact ⟨by simp, by simpa using hx⟩
        | cons x l ih =>
          intro p q h hx
          rw [List.foldl_cons] at h
          split at h
          · rename_i hlt
            obtain ⟨i1, i2⟩ := ih (x, p.1 :: p.2) q h (by
              intro y hy
              rcases List.mem_cons.1 hy with rfl | hy
              · exact Rat.le_refl
              · exact Rat.le_trans (hx y hy) (Rat.le_of_lt hlt))
            exact ⟨List.perm_middle.trans i1, fun y hy => i2 y (List.perm_middle.mem_iff.1 hy)⟩
          · rename_i hlt
            have hle := Rat.not_lt.1 hlt
            obtain ⟨i1, i2⟩ := ih (p.1, x :: p.2) q h (by
              intro y hy
              simp only [List.mem_cons] at hy
              rcases hy with rfl | rfl | hy
              · exact Rat.le_refl
              · exact hle
              · exact hx y (by simp [hy]))
            have hperm : ((p.1 :: p.2) ++ x :: l).Perm ((p.1 :: x :: p.2) ++ l) := by
              simp only [List.cons_append]
              exact List.perm_middle.cons _
            exact ⟨hperm.trans i1, fun y hy => i2 y (hperm.mem_iff.1 hy)⟩
      have := key l (a, []) (h, l') hp (by intro x hx; simp at hx; rw [hx]; exact Rat.le_refl)
      simpa using this

/-- All segmentations of "aab", best first. -/
example : ∃ u, Unigram.from [("<unk>".toList, 0), ("a".toList, -2), ("b".toList, -3), ("ab".toList, -6)] (some 0)
      false = .ok u ∧
    (((u.populateNodes (Lattice.from "aab".toList u.bosId u.eosId)).bind fun L => L.nbest listHeap 100 5) =
      some [[2, 3, 5], [2, 4]]) :=
  ⟨_, rfl, by decide +kernel⟩

end Tok.Unigram
