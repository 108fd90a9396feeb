import Verif.Unigram.Paths

/-!
# C60: `populate_marginal` computes the likelihood of a sentence and the expected number of each piece
-/

namespace Tok.Unigram

variable {s : Str} {E : List Edge} {L : Lattice}

/-! ### The nodes at a position -/

theorem sorted_eq {a b : List Nat} (ha : a.Pairwise (· < ·)) (hb : b.Pairwise (· < ·)) (h : ∀ x, x ∈ a ↔ x ∈ b) :
    a = b := by
  have hp : a.Perm b := (List.perm_ext_iff_of_nodup (ha.imp (fun h => Nat.ne_of_lt h))
    (hb.imp (fun h => Nat.ne_of_lt h))).2 h
  exact hp.eq_of_pairwise (fun x y _ _ h1 h2 => absurd h1 (by omega)) ha hb

theorem IsLattice.ends_eq (hF : Full s E) (hL : IsLattice s E L) (q : Nat) :
    L.endNodes q = if q = 0 then [0] else (stopping E q).map (· + 2) := by
  apply sorted_eq (hL.endsSorted q)
  · split
    · simp
    · rw [List.pairwise_map]
      exact (List.pairwise_lt_range.filter _).imp (by intro a b h; omega)
  · intro n
    rw [hL.ends]
    split
    · rename_i h
      subst h
      simp only [List.mem_singleton]
      constructor
      · rintro (h | ⟨i, e, -, hi, he⟩)
        · exact h.1
        · have := hF.lt e (List.mem_of_getElem? hi); omega
      · intro h; exact .inl ⟨h, trivial⟩
    · rename_i h
      simp only [List.mem_map, mem_stopping]
      constructor
      · rintro (h' | ⟨i, e, rfl, hi, he⟩)
        · exact absurd h'.2 h
        · exact ⟨i, ⟨e, hi, he⟩, rfl⟩
      · rintro ⟨i, ⟨e, hi, he⟩, rfl⟩
        exact .inr ⟨i, e, rfl, hi, he⟩

theorem IsLattice.begins_eq (hF : Full s E) (hL : IsLattice s E L) (q : Nat) :
    L.beginNodes q = if q = blen s then [1] else (starting E q).map (· + 2) := by
  apply sorted_eq (hL.beginsSorted q)
  · split
    · simp
    · rw [List.pairwise_map]
      exact (List.pairwise_lt_range.filter _).imp (by intro a b h; omega)
  · intro n
    rw [hL.begins]
    split
    · rename_i h
      subst h
      simp only [List.mem_singleton]
      constructor
      · rintro (h | ⟨i, e, -, hi, he⟩)
        · exact h.1
        · have := hF.lt e (List.mem_of_getElem? hi); omega
      · intro h; exact .inl ⟨h, trivial⟩
    · rename_i h
      simp only [List.mem_map, mem_starting]
      constructor
      · rintro (h' | ⟨i, e, rfl, hi, he⟩)
        · exact absurd h'.2 h
        · exact ⟨i, ⟨e, hi, he⟩, rfl⟩
      · rintro ⟨i, ⟨e, hi, he⟩, rfl⟩
        exact .inr ⟨i, e, rfl, hi, he⟩

theorem IsLattice.scoreAt (hL : IsLattice s E L) {i : Nat} (hi : i < E.length) :
    L.scoreAt (i + 2) = (edgeScore E i : ℝ) := by
  have := hL.node i E[i] (by simp [hi])
  simp [Lattice.scoreAt, this, edgeScore, hi]

theorem IsLattice.score0 (hL : IsLattice s E L) : L.scoreAt 0 = 0 := by
  obtain ⟨id, h⟩ := hL.bos
  simp [Lattice.scoreAt, h]

theorem IsLattice.score1 (hL : IsLattice s E L) : L.scoreAt 1 = 0 := by
  obtain ⟨id, h⟩ := hL.eos
  simp [Lattice.scoreAt, h]

/-- Different edges that stop at the same place, or start at the same place, have different vocabulary ids. -/
def IdsApart (E : List Edge) : Prop := ∀ (i j : Nat) (e f : Edge), E[i]? = some e → E[j]? = some f → i ≠ j →
  (e.stop = f.stop ∨ e.start = f.start) → e.id.getD 0 ≠ f.id.getD 0

theorem IsLattice.sameId_false (hL : IsLattice s E L) (hI : IdsApart E) {i j : Nat} {e f : Edge}
    (hi : E[i]? = some e) (hj : E[j]? = some f) (hne : i ≠ j) (h : e.stop = f.stop ∨ e.start = f.start) :
    L.sameId (i + 2) (j + 2) = false := by
  have := hI i j e f hi hj hne h
  simp [Lattice.sameId, hL.node i e hi, hL.node j f hj, this]

/-! ### Forward and backward values -/

/-- How many edges stop at `q` or before. -/
def cTo (E : List Edge) (q : Nat) : Nat := (List.range E.length).countP (fun i => stopOf E i ≤ q)

/-- How many edges start at `p` or after. -/
def cFrom (E : List Edge) (p : Nat) : Nat := (List.range E.length).countP (fun i => p ≤ startOf E i)

theorem countP_disjoint {α : Type} {p q r : α → Bool} (h1 : ∀ x, p x = true → r x = true)
    (h2 : ∀ x, q x = true → r x = true) (h3 : ∀ x, p x = true → q x = true → False) (l : List α) :
    l.countP p + l.countP q ≤ l.countP r := by
  induction l with
  | nil => simp
  | cons x l ih =>
    have a1 := h1 x
    have a2 := h2 x
    have a3 := h3 x
    simp only [List.countP_cons]
    cases hp : p x <;> cases hq : q x <;> cases hr : r x <;> simp_all <;> omega

theorem cTo_step {r q : Nat} (h : r < q) : cTo E r + (stopping E q).length ≤ cTo E q := by
  rw [stopping, ← List.countP_eq_length_filter]
  apply countP_disjoint <;> simp <;> intros <;> omega

theorem cFrom_step {r q : Nat} (h : q < r) : cFrom E r + (starting E q).length ≤ cFrom E q := by
  rw [starting, ← List.countP_eq_length_filter]
  apply countP_disjoint <;> simp <;> intros <;> omega

theorem cTo_le (q : Nat) : cTo E q ≤ E.length := by
  have := List.countP_le_length (p := fun i => decide (stopOf E i ≤ q)) (l := List.range E.length)
  simpa [cTo] using this

theorem cFrom_le (q : Nat) : cFrom E q ≤ E.length := by
  have := List.countP_le_length (p := fun i => decide (q ≤ startOf E i)) (l := List.range E.length)
  simpa [cFrom] using this

theorem mem_pre {n : Nat} {pre post : List Nat} {p q : Nat} (h : List.range n = pre ++ p :: post) (hq : q < p) :
    q ∈ pre := by
  have hs : (pre ++ p :: post).Pairwise (· < ·) := h ▸ List.pairwise_lt_range
  have hp : p ∈ List.range n := by rw [h]; simp
  have hm : q ∈ pre ++ p :: post := by rw [← h]; simp at hp ⊢; omega
  rcases List.mem_append.1 hm with hm | hm
  · exact hm
  · rcases List.mem_cons.1 hm with rfl | hm
    · omega
    · have := (List.pairwise_cons.1 (List.pairwise_append.1 hs).2.1).1 q hm; omega

theorem mem_pre_rev {n : Nat} {pre post : List Nat} {p q : Nat} (h : (List.range n).reverse = pre ++ p :: post)
    (hq : p < q) (hn : q < n) : q ∈ pre := by
  have hs : (pre ++ p :: post).Pairwise (fun a b => b < a) := by
    rw [← h, List.pairwise_reverse]; exact List.pairwise_lt_range
  have hm : q ∈ pre ++ p :: post := by rw [← h]; simp; omega
  rcases List.mem_append.1 hm with hm | hm
  · exact hm
  · rcases List.mem_cons.1 hm with rfl | hm
    · omega
    · have := (List.pairwise_cons.1 (List.pairwise_append.1 hs).2.1).1 q hm; omega

/-- An edge ends where a character ends. -/
def Stops (s : Str) (E : List Edge) : Prop := ∀ e ∈ E, ∃ a, a <+: s ∧ e.stop = blen a

/-- Position where a node begins. -/
def beginPos (s : Str) (E : List Edge) (n : Nat) : Nat := if n = 1 then blen s else startOf E (n - 2)

/-- Position where a node ends. -/
def endPos (E : List Edge) (n : Nat) : Nat := if n = 0 then 0 else stopOf E (n - 2)

theorem IsLattice.mem_begin (hL : IsLattice s E L) {p n : Nat} (h : n ∈ L.beginNodes p) :
    p = beginPos s E n ∧ n ≠ 0 := by
  rcases (hL.begins p n).1 h with ⟨rfl, rfl⟩ | ⟨i, e, rfl, hi, rfl⟩
  · simp [beginPos]
  · simp [beginPos, startOf, hi]

theorem IsLattice.mem_end (hL : IsLattice s E L) {p n : Nat} (h : n ∈ L.endNodes p) :
    p = endPos E n ∧ n ≠ 1 := by
  rcases (hL.ends p n).1 h with ⟨rfl, rfl⟩ | ⟨i, e, rfl, hi, rfl⟩
  · simp [endPos]
  · simp [endPos, stopOf, hi]

theorem IsLattice.begin_end (hF : Full s E) (hL : IsLattice s E L) {p n : Nat} (h : n ∈ L.beginNodes p) :
    n ∉ L.endNodes p := by
  intro h'
  rcases (hL.begins p n).1 h with ⟨rfl, rfl⟩ | ⟨i, e, rfl, hi, rfl⟩
  · exact (hL.mem_end h').2 rfl
  · rcases (hL.ends _ _).1 h' with ⟨h1, -⟩ | ⟨j, f, hj, hf, hs⟩
    · omega
    · obtain rfl : j = i := by omega
      rw [hi] at hf
      cases hf
      have := hF.lt e (List.mem_of_getElem? hi)
      omega

theorem alpha_close (hF : Full s E) (hL : IsLattice s E L) (hI : IdsApart E) :
    ∀ p ≤ blen s, ∀ r ∈ L.beginNodes p, Close (cTo E p) (L.alpha r) (massTo E p) := by
  have hE : ∀ e ∈ E, e.start < e.stop := fun e he => (hF.lt e he).1
  have := sweep_close L (T := L.beginNodes) (S := L.endNodes) (G := massTo E) (c := cTo E)
    (val := fun n => if n = 0 then 1 else massTo E (beginPos s E n))
    (cv := fun n => if n = 0 then 0 else cTo E (beginPos s E n)) (b := 0) (order := List.range (L.len + 1))
    List.nodup_range
    (fun p q r h1 h2 => by rw [(hL.mem_begin h1).1, (hL.mem_begin h2).1])
    (fun p r h => hL.begin_end hF h) (fun p h => (hL.mem_begin h).2 rfl) (by simp) ?_ ?_ ?_
  · intro p hp r hr
    refine this p ?_ r hr
    rw [hL.len]; simp; omega
  · intro p _ hT
    obtain ⟨r, hr⟩ := List.exists_mem_of_ne_nil _ hT
    have hpre : ∃ a, a <+: s ∧ p = blen a := by
      rcases (hL.begins p r).1 hr with ⟨-, rfl⟩ | ⟨i, e, -, hi, rfl⟩
      · exact ⟨s, List.prefix_refl s, rfl⟩
      · exact hF.start e (List.mem_of_getElem? hi)
    obtain ⟨a, ha, hpa⟩ := hpre
    rw [hL.ends_eq hF p]
    by_cases hp0 : p = 0
    · subst hp0
      rw [if_pos rfl]
      refine ⟨by simp, ?_, ?_, ?_⟩
      · intro m ms h l hl
        simp only [List.cons.injEq] at h
        rw [← h.2] at hl
        simp at hl
      · simp [massTo_zero, hL.score0]
      · simp
    · rw [if_neg hp0]
      refine ⟨?_, ?_, ?_, ?_⟩
      · rcases hF.reached a ha with h | ⟨e, he, hs⟩
        · omega
        · obtain ⟨i, hi⟩ := List.mem_iff_getElem?.1 he
          have : i ∈ stopping E p := mem_stopping.2 ⟨e, hi, by omega⟩
          intro h
          rw [List.map_eq_nil_iff] at h
          rw [h] at this
          simp at this
      · intro m ms h l hl
        have hnd : ((stopping E p).map (· + 2)).Nodup := (nodup_stopping p).map (fun a b h => by simpa using h)
        rw [h] at hnd
        have hne : l ≠ m := by
          rintro rfl
          exact (List.nodup_cons.1 hnd).1 hl
        have hm : m ∈ (stopping E p).map (· + 2) := by rw [h]; simp
        have hl' : l ∈ (stopping E p).map (· + 2) := by rw [h]; simp [hl]
        obtain ⟨i, hi, rfl⟩ := List.mem_map.1 hl'
        obtain ⟨j, hj, rfl⟩ := List.mem_map.1 hm
        obtain ⟨e, he, hes⟩ := mem_stopping.1 hi
        obtain ⟨f, hf, hfs⟩ := mem_stopping.1 hj
        exact hL.sameId_false hI he hf (by omega) (.inl (by omega))
      · rw [massTo_step hE hp0, List.map_map]
        congr 1
        apply List.map_congr_left
        intro i hi
        obtain ⟨e, he, -⟩ := mem_stopping.1 hi
        simp [beginPos, hL.scoreAt (List.getElem?_eq_some_iff.1 he).1]
      · intro l hl
        obtain ⟨i, hi, rfl⟩ := List.mem_map.1 hl
        obtain ⟨e, he, hes⟩ := mem_stopping.1 hi
        have hlt := hE e (List.mem_of_getElem? he)
        have := cTo_step (E := E) (r := startOf E i) (q := p) (by simp [startOf, he]; omega)
        simp [beginPos]
        omega
  · intro pre p post ho l hl
    rcases (hL.ends p l).1 hl with ⟨rfl, -⟩ | ⟨i, e, rfl, hi, rfl⟩
    · exact .inl rfl
    · have hlt := hE e (List.mem_of_getElem? hi)
      exact .inr ⟨e.start, mem_pre ho hlt, (hL.begins _ _).2 (.inr ⟨i, e, rfl, hi, rfl⟩)⟩
  · intro q l hl
    have := hL.mem_begin hl
    simp [this.2, ← this.1]

theorem beta_close (hF : Full s E) (hS : Stops s E) (hL : IsLattice s E L) (hI : IdsApart E) :
    ∀ p ≤ blen s, ∀ r ∈ L.endNodes p, Close (cFrom E p) (L.beta r) (massFrom E (blen s) p) := by
  have hE : ∀ e ∈ E, e.start < e.stop := fun e he => (hF.lt e he).1
  have := sweep_close L (T := L.endNodes) (S := L.beginNodes) (G := massFrom E (blen s)) (c := cFrom E)
    (val := fun n => if n = 1 then 1 else massFrom E (blen s) (endPos E n))
    (cv := fun n => if n = 1 then 0 else cFrom E (endPos E n)) (b := 1) (order := (List.range (L.len + 1)).reverse)
    (List.nodup_reverse.2 List.nodup_range)
    (fun p q r h1 h2 => by rw [(hL.mem_end h1).1, (hL.mem_end h2).1])
    (fun p r h h' => hL.begin_end hF h' h) (fun p h => (hL.mem_end h).2 rfl) (by simp) ?_ ?_ ?_
  · intro p hp r hr
    refine this p ?_ r hr
    rw [hL.len]; simp; omega
  · intro p _ hT
    obtain ⟨r, hr⟩ := List.exists_mem_of_ne_nil _ hT
    have hpre : ∃ a, a <+: s ∧ p = blen a := by
      rcases (hL.ends p r).1 hr with ⟨-, rfl⟩ | ⟨i, e, -, hi, rfl⟩
      · exact ⟨[], List.nil_prefix, rfl⟩
      · exact hS e (List.mem_of_getElem? hi)
    obtain ⟨a, ⟨b, hab⟩, hpa⟩ := hpre
    have hble : p + blen b = blen s := by rw [← hab, blen_append, hpa]
    rw [hL.begins_eq hF p]
    by_cases hp0 : p = blen s
    · subst hp0
      rw [if_pos rfl]
      refine ⟨by simp, ?_, ?_, ?_⟩
      · intro m ms h l hl
        simp only [List.cons.injEq] at h
        rw [← h.2] at hl
        simp at hl
      · simp [massFrom_end, hL.score1]
      · simp
    · rw [if_neg hp0]
      refine ⟨?_, ?_, ?_, ?_⟩
      · cases b with
        | nil => simp at hble; omega
        | cons c cs =>
          obtain ⟨e, he, hs⟩ := hF.begins a c cs hab.symm
          obtain ⟨i, hi⟩ := List.mem_iff_getElem?.1 he
          have : i ∈ starting E p := mem_starting.2 ⟨e, hi, by omega⟩
          intro h
          rw [List.map_eq_nil_iff] at h
          rw [h] at this
          simp at this
      · intro m ms h l hl
        have hnd : ((starting E p).map (· + 2)).Nodup := (nodup_starting p).map (fun a b h => by simpa using h)
        rw [h] at hnd
        have hne : l ≠ m := by
          rintro rfl
          exact (List.nodup_cons.1 hnd).1 hl
        have hm : m ∈ (starting E p).map (· + 2) := by rw [h]; simp
        have hl' : l ∈ (starting E p).map (· + 2) := by rw [h]; simp [hl]
        obtain ⟨i, hi, rfl⟩ := List.mem_map.1 hl'
        obtain ⟨j, hj, rfl⟩ := List.mem_map.1 hm
        obtain ⟨e, he, hes⟩ := mem_starting.1 hi
        obtain ⟨f, hf, hfs⟩ := mem_starting.1 hj
        exact hL.sameId_false hI he hf (by omega) (.inr (by omega))
      · rw [massFrom_step hF.lt (by omega), List.map_map]
        congr 1
        apply List.map_congr_left
        intro i hi
        obtain ⟨e, he, -⟩ := mem_starting.1 hi
        simp [endPos, hL.scoreAt (List.getElem?_eq_some_iff.1 he).1]
      · intro l hl
        obtain ⟨i, hi, rfl⟩ := List.mem_map.1 hl
        obtain ⟨e, he, hes⟩ := mem_starting.1 hi
        have hlt := hE e (List.mem_of_getElem? he)
        have := cFrom_step (E := E) (r := stopOf E i) (q := p) (by simp [stopOf, he]; omega)
        simp [endPos]
        omega
  · intro pre p post ho l hl
    rcases (hL.begins p l).1 hl with ⟨rfl, -⟩ | ⟨i, e, rfl, hi, rfl⟩
    · exact .inl rfl
    · have hlt := hF.lt e (List.mem_of_getElem? hi)
      exact .inr ⟨e.stop, mem_pre_rev ho hlt.1 (by rw [hL.len]; omega), (hL.ends _ _).2 (.inr ⟨i, e, rfl, hi, rfl⟩)⟩
  · intro q l hl
    have := hL.mem_end hl
    simp [this.2, ← this.1]

/-! ### The update of `expected` -/

/-- What one node adds. -/
noncomputable def nodeMass (L : Lattice) (freq z : ℝ) (n : Nat) : ℝ :=
  freq * Real.exp (L.alpha n + L.scoreAt n + L.beta n - z)

theorem foldlM_add (L : Lattice) (freq z : ℝ) : ∀ (ns : List Nat) (ex : List ℝ),
    (∀ n ∈ ns, ∃ nd, L.nodes[n]? = some nd ∧ nd.id < ex.length) →
    ∃ ex', ns.foldlM (L.addNode freq z) ex = some ex' ∧ ex'.length = ex.length ∧
      ∀ id, id < ex.length → ex'.getD id 0 = ex.getD id 0 +
        ((ns.filter (fun n => L.nodes[n]?.map (·.id) = some id)).map (nodeMass L freq z)).sum
  | [], ex, _ => ⟨ex, rfl, rfl, by simp⟩
  | n :: ns, ex, h => by
    obtain ⟨nd, h1, h2⟩ := h n (by simp)
    obtain ⟨ex', i1, i2, i3⟩ := foldlM_add L freq z ns (ex.modify nd.id (· + nodeMass L freq z n)) (by
      intro m hm
      simpa using h m (by simp [hm]))
    refine ⟨ex', ?_, by simpa using i2, ?_⟩
    · rw [List.foldlM_cons]
      simp only [Lattice.addNode, h1, Option.bind_some, addAt, if_pos h2]
      exact i1
    · intro id hid
      rw [i3 id (by simpa using hid)]
      by_cases hc : nd.id = id
      · subst hc
        rw [List.filter_cons_of_pos (by simp [h1])]
        simp only [List.getD_eq_getElem?_getD, List.getElem?_modify, List.map_cons, List.sum_cons]
        simp [hid]
        ring
      · rw [List.filter_cons_of_neg (by simp [h1, hc])]
        simp only [List.getD_eq_getElem?_getD, List.getElem?_modify]
        simp [hc]

theorem range_flatMap_starting (hF : Full s E) :
    ((List.range (blen s)).flatMap (starting E)).Perm (List.range E.length) := by
  apply (List.perm_ext_iff_of_nodup _ List.nodup_range).2
  · intro i
    simp only [List.mem_flatMap, List.mem_range, mem_starting]
    constructor
    · rintro ⟨p, -, e, he, -⟩
      exact (List.getElem?_eq_some_iff.1 he).1
    · intro hi
      have := hF.lt E[i] (List.getElem_mem hi)
      exact ⟨E[i].start, by omega, E[i], by simp [hi], rfl⟩
  · apply nodup_flatMap_of (startOf E) List.nodup_range (fun p _ => nodup_starting p)
    intro p _ i hi
    obtain ⟨e, he, hs⟩ := mem_starting.1 hi
    simp [startOf, he, hs]

theorem flatMap_begins (hF : Full s E) (hL : IsLattice s E L) :
    ((List.range L.len).flatMap L.beginNodes).Perm ((List.range E.length).map (· + 2)) := by
  have : (List.range L.len).flatMap L.beginNodes = ((List.range (blen s)).flatMap (starting E)).map (· + 2) := by
    rw [hL.len, List.map_flatMap]
    apply List.flatMap_congr
    intro p hp
    rw [hL.begins_eq hF, if_neg (by simp at hp; omega)]
  rw [this]
  exact (range_flatMap_starting hF).map _

/-- What an edge adds is its share of the mass, up to the cut-offs. -/
theorem nodeMass_close (hF : Full s E) (hS : Stops s E) (hL : IsLattice s E L) (hI : IdsApart E) {freq z : ℝ}
    (hf : 0 ≤ freq) (hz : Close E.length z (massTo E (blen s))) {i : Nat} (hi : i < E.length) :
    freq * (massTo E (startOf E i) * Real.exp (edgeScore E i) * massFrom E (blen s) (stopOf E i) /
      massTo E (blen s)) * Real.exp (-(2 * E.length * Real.exp (-50))) ≤ nodeMass L freq z (i + 2) ∧
    nodeMass L freq z (i + 2) ≤ freq * (massTo E (startOf E i) * Real.exp (edgeScore E i) *
      massFrom E (blen s) (stopOf E i) / massTo E (blen s)) * Real.exp (E.length * Real.exp (-50)) := by
  have he : E[i]? = some E[i] := by simp [hi]
  have hlt := hF.lt E[i] (List.getElem_mem hi)
  have hst : startOf E i = E[i].start := by simp [startOf, hi]
  have hsp : stopOf E i = E[i].stop := by simp [stopOf, hi]
  have ha := (alpha_close hF hL hI E[i].start (by omega) (i + 2) ((hL.begins _ _).2 (.inr ⟨i, _, rfl, he, rfl⟩))).mono
    (cTo_le _)
  have hb := (beta_close hF hS hL hI E[i].stop (by omega) (i + 2) ((hL.ends _ _).2 (.inr ⟨i, _, rfl, he, rfl⟩))).mono
    (cFrom_le _)
  rw [hst, hsp, nodeMass, hL.scoreAt hi]
  obtain ⟨a0, a1, a2⟩ := ha
  obtain ⟨b0, b1, b2⟩ := hb
  obtain ⟨z0, z1, z2⟩ := hz
  have e1 : massTo E E[i].start * Real.exp (edgeScore E i) * massFrom E (blen s) E[i].stop / massTo E (blen s) =
      Real.exp (Real.log (massTo E E[i].start) + edgeScore E i + Real.log (massFrom E (blen s) E[i].stop) -
        Real.log (massTo E (blen s))) := by
    rw [Real.exp_sub, Real.exp_add, Real.exp_add, Real.exp_log a0, Real.exp_log b0, Real.exp_log z0]
  rw [e1, mul_assoc freq, mul_assoc freq, ← Real.exp_add, ← Real.exp_add]
  constructor <;> apply mul_le_mul_of_nonneg_left _ hf <;> apply Real.exp_le_exp.2 <;> linarith

/-- **C60.** On a lattice with the edges `E`, where a node starts at and ends at every character boundary and nodes
with a common end have different vocabulary ids: `populate_marginal` returns the frequency times the logarithm of the
likelihood (the sum of the exponentials of the scores of all paths), and adds to entry `id` of `expected` the
frequency times the expected number of occurrences of `id` in a path drawn with probability proportional to the
exponential of its score. The only error (in exact arithmetic) comes from the cut-off in `log_sum_exp`: at most
`exp(-50)` per edge in the logarithm. -/
theorem C60_marginal (hF : Full s E) (hS : Stops s E) (hL : IsLattice s E L) (hI : IdsApart E) {freq : ℝ}
    (hf : 0 ≤ freq) {expected : List ℝ} (hid : ∀ e ∈ E, e.id.getD 0 < expected.length)
    {paths : List (List Nat)} (hp : AllPaths E (blen s) paths) :
    ∃ z out, L.populateMarginal freq expected = some (freq * z, out) ∧ out.length = expected.length ∧
      Close E.length z (mass E paths) ∧
      ∀ id, id < expected.length →
        freq * (massOf E id paths / mass E paths) * Real.exp (-(2 * E.length * Real.exp (-50))) ≤
          out.getD id 0 - expected.getD id 0 ∧
        out.getD id 0 - expected.getD id 0 ≤
          freq * (massOf E id paths / mass E paths) * Real.exp (E.length * Real.exp (-50)) := by
  have hE : ∀ e ∈ E, e.start < e.stop := fun e he => (hF.lt e he).1
  have hm : mass E paths = massTo E (blen s) := mass_perm (hp.perm (allPaths_exists hE _))
  obtain ⟨r, hr⟩ := begins_len hF hL
  have hz : Close E.length (L.alpha 1) (massTo E (blen s)) :=
    (alpha_close hF hL hI (blen s) (le_refl _) 1 ((hL.begins _ _).2 (.inl ⟨rfl, rfl⟩))).mono (cTo_le _)
  have hperm := flatMap_begins hF hL
  obtain ⟨out, o1, o2, o3⟩ := foldlM_add L freq (L.alpha 1) ((List.range L.len).flatMap L.beginNodes) expected (by
    intro n hn
    obtain ⟨i, hi, rfl⟩ := List.mem_map.1 (hperm.mem_iff.1 hn)
    have hi := List.mem_range.1 hi
    exact ⟨_, hL.node i E[i] (by simp [hi]), hid _ (List.getElem_mem hi)⟩)
  refine ⟨L.alpha 1, out, ?_, o2, by rw [hm]; exact hz, ?_⟩
  · simp only [Lattice.populateMarginal, hr, o1, Option.map_some]
  · intro id hlt
    rw [o3 id hlt, add_sub_cancel_left, ((hperm.filter _).map _).sum_eq, hm, massOf_eq hF.lt hp]
    have e1 : ((List.range E.length).map (· + 2)).filter (fun n => L.nodes[n]?.map (·.id) = some id) =
        ((List.range E.length).filter (fun i => edgeId E i = id)).map (· + 2) := by
      rw [List.filter_map]
      congr 1
      apply List.filter_congr
      intro i hi
      have hi := List.mem_range.1 hi
      have := hL.node i E[i] (by simp [hi])
      simp [this, edgeId, hi]
    rw [e1, List.map_map]
    have hsub : ∀ i ∈ (List.range E.length).filter (fun i => edgeId E i = id), i < E.length :=
      fun i hi => List.mem_range.1 (List.mem_filter.1 hi).1
    generalize (List.range E.length).filter (fun i => edgeId E i = id) = l at hsub
    induction l with
    | nil => simp
    | cons i l ih =>
      obtain ⟨a1, a2⟩ := ih (fun j hj => hsub j (by simp [hj]))
      obtain ⟨b1, b2⟩ := nodeMass_close hF hS hL hI hf hz (hsub i (by simp))
      simp only [List.map_cons, List.sum_cons, add_div, mul_add, add_mul, Function.comp] at *
      constructor <;> linarith

end Tok.Unigram
