import Verif.Unigram.C23

/-!
# C24: the lattice encoder gives the same result
-/

namespace Tok.Unigram

variable {vocab : List (Str × Rat)} {unk : Option Nat} {u : Unigram}

/-! ### The populated lattice -/

/-- Insert a list of edges. -/
def insertEdges (L : Lattice) (E : List Edge) : Lattice :=
  E.foldl (fun l e => l.insert e.start (e.stop - e.start) e.score (e.id.getD 0)) L

theorem insertEdges_append (L : Lattice) (E F : List Edge) :
    insertEdges L (E ++ F) = insertEdges (insertEdges L E) F := by
  simp [insertEdges, List.foldl_append]

theorem populateLoop_eq (hu : Built vocab unk u) (hk : unk ≠ none) : ∀ (s : Str) (pos : Nat) (L : Lattice),
    populateLoop u pos s L = some (insertEdges L (u.edgesFrom pos s))
  | [], pos, L => rfl
  | c :: cs, pos, L => by
    obtain ⟨ms, h1, -⟩ := hu.lookups_spec (c :: cs)
    simp only [populateLoop, hu.lookupsChecked_eq, h1]
    rw [populateLoop_eq hu hk cs, edgesFrom, insertEdges_append, h1, Option.getD_some, edgesAt,
      insertEdges_append]
    have e1 : ∀ (ms : List (Nat × Nat × Rat)) (L : Lattice),
        ms.foldl (fun l m => l.insert pos m.1 m.2.2 m.2.1) L =
        insertEdges L (ms.map (fun m => ⟨pos, pos + m.1, some m.2.1, m.2.2⟩)) := by
      intro ms
      induction ms with
      | nil => intro L; rfl
      | cons m ms ih =>
        intro L
        rw [List.foldl_cons, ih]
        simp [insertEdges]
    rw [← e1]
    congr 2
    cases hk' : unk with
    | none => exact absurd hk' hk
    | some k =>
      split
      · rfl
      · simp [insertEdges, hu.unk_eq, hk']

/-- The lattice of a list of edges: nodes 0 and 1 are the begin and end of the sentence. -/
structure IsLattice (s : Str) (E : List Edge) (L : Lattice) : Prop where
  sentence : L.sentence = s
  len : L.len = blen s
  count : L.nodes.length = E.length + 2
  node : ∀ (i : Nat) (e : Edge), E[i]? = some e →
    L.nodes[i + 2]? = some ⟨e.id.getD 0, e.start, e.stop - e.start, e.score⟩
  eos : ∃ id, L.nodes[1]? = some ⟨id, blen s, 0, 0⟩
  bos : ∃ id, L.nodes[0]? = some ⟨id, 0, 0, 0⟩
  begins : ∀ p n, n ∈ L.beginNodes p ↔ (n = 1 ∧ p = blen s) ∨
    ∃ i e, n = i + 2 ∧ E[i]? = some e ∧ e.start = p
  ends : ∀ p n, n ∈ L.endNodes p ↔ (n = 0 ∧ p = 0) ∨ ∃ i e, n = i + 2 ∧ E[i]? = some e ∧ e.stop = p
  endsSorted : ∀ p, (L.endNodes p).Pairwise (· < ·)
  beginsSorted : ∀ p, (L.beginNodes p).Pairwise (· < ·)

theorem isLattice_from (s : Str) (b e : Nat) : IsLattice s [] (Lattice.from s b e) where
  sentence := rfl
  len := rfl
  count := rfl
  node := by simp
  eos := ⟨e, rfl⟩
  bos := ⟨b, rfl⟩
  begins p n := by
    simp only [Lattice.from, pushAt]
    split <;> simp_all
  ends p n := by
    simp only [Lattice.from, pushAt]
    split <;> simp_all
  endsSorted p := by simp only [Lattice.from, pushAt]; split <;> simp
  beginsSorted p := by simp only [Lattice.from, pushAt]; split <;> simp

theorem getElem?_concat {α} {E : List α} {e e' : α} {i : Nat} : (E ++ [e])[i]? = some e' ↔
    E[i]? = some e' ∨ (i = E.length ∧ e' = e) := by
  rw [List.getElem?_append]
  constructor
  · intro h
    split at h
    · exact .inl h
    · rename_i hlt
      cases hk : i - E.length with
      | zero => rw [hk] at h; simp at h; exact .inr ⟨by omega, h.symm⟩
      | succ n => rw [hk] at h; simp at h
  · rintro (h | ⟨rfl, rfl⟩)
    · rw [if_pos (List.getElem?_eq_some_iff.1 h).1]; exact h
    · simp

theorem IsLattice.insert {s : Str} {E : List Edge} {L : Lattice} (h : IsLattice s E L) (e : Edge)
    (he : e.start < e.stop) :
    IsLattice s (E ++ [e]) (L.insert e.start (e.stop - e.start) e.score (e.id.getD 0)) where
  sentence := h.sentence
  len := h.len
  count := by simp [Lattice.insert, h.count]
  node i e' hi := by
    simp only [Lattice.insert]
    rcases getElem?_concat.1 hi with hi | ⟨rfl, rfl⟩
    · rw [List.getElem?_append_left (List.getElem?_eq_some_iff.1 (h.node i e' hi)).1]
      exact h.node i e' hi
    · rw [← h.count]; simp
  eos := by
    obtain ⟨id, hid⟩ := h.eos
    refine ⟨id, ?_⟩
    simp only [Lattice.insert]
    rw [List.getElem?_append_left (List.getElem?_eq_some_iff.1 hid).1]; exact hid
  bos := by
    obtain ⟨id, hid⟩ := h.bos
    refine ⟨id, ?_⟩
    simp only [Lattice.insert]
    rw [List.getElem?_append_left (List.getElem?_eq_some_iff.1 hid).1]; exact hid
  begins p n := by
    have key : (∃ i e', n = i + 2 ∧ (E ++ [e])[i]? = some e' ∧ e'.start = p) ↔
        (∃ i e', n = i + 2 ∧ E[i]? = some e' ∧ e'.start = p) ∨ (n = E.length + 2 ∧ e.start = p) := by
      constructor
      · rintro ⟨i, e', rfl, hi, hp⟩
        rcases getElem?_concat.1 hi with hi | ⟨rfl, rfl⟩
        · exact .inl ⟨i, e', rfl, hi, hp⟩
        · exact .inr ⟨rfl, hp⟩
      · rintro (⟨i, e', rfl, hi, hp⟩ | ⟨rfl, hp⟩)
        · exact ⟨i, e', rfl, getElem?_concat.2 (.inl hi), hp⟩
        · exact ⟨E.length, e, rfl, getElem?_concat.2 (.inr ⟨rfl, rfl⟩), hp⟩
    rw [key, ← or_assoc, ← h.begins]
    simp only [Lattice.insert, pushAt, h.count]
    split
    · rename_i hp; simp [hp]
    · rename_i hp; simp [Ne.symm hp]
  ends p n := by
    have key : (∃ i e', n = i + 2 ∧ (E ++ [e])[i]? = some e' ∧ e'.stop = p) ↔
        (∃ i e', n = i + 2 ∧ E[i]? = some e' ∧ e'.stop = p) ∨ (n = E.length + 2 ∧ e.stop = p) := by
      constructor
      · rintro ⟨i, e', rfl, hi, hp⟩
        rcases getElem?_concat.1 hi with hi | ⟨rfl, rfl⟩
        · exact .inl ⟨i, e', rfl, hi, hp⟩
        · exact .inr ⟨rfl, hp⟩
      · rintro (⟨i, e', rfl, hi, hp⟩ | ⟨rfl, hp⟩)
        · exact ⟨i, e', rfl, getElem?_concat.2 (.inl hi), hp⟩
        · exact ⟨E.length, e, rfl, getElem?_concat.2 (.inr ⟨rfl, rfl⟩), hp⟩
    have hst : e.start + (e.stop - e.start) = e.stop := by omega
    rw [key, ← or_assoc, ← h.ends]
    simp only [Lattice.insert, pushAt, h.count, hst]
    split
    · rename_i hp; simp [hp]
    · rename_i hp; simp [Ne.symm hp]
  endsSorted p := by
    simp only [Lattice.insert, pushAt, h.count]
    split
    · rw [List.pairwise_append]
      refine ⟨h.endsSorted p, by simp, ?_⟩
      intro a ha b hb
      simp only [List.mem_singleton] at hb
      subst hb
      rcases (h.ends p a).1 ha with ⟨rfl, -⟩ | ⟨i, e', rfl, hi, -⟩
      · omega
      · have := (List.getElem?_eq_some_iff.1 hi).1; omega
    · exact h.endsSorted p
  beginsSorted p := by
    simp only [Lattice.insert, pushAt, h.count]
    split
    · rw [List.pairwise_append]
      refine ⟨h.beginsSorted p, by simp, ?_⟩
      intro a ha b hb
      simp only [List.mem_singleton] at hb
      subst hb
      rcases (h.begins p a).1 ha with ⟨rfl, -⟩ | ⟨i, e', rfl, hi, -⟩
      · omega
      · have := (List.getElem?_eq_some_iff.1 hi).1; omega
    · exact h.beginsSorted p

theorem isLattice_insertEdges {s : Str} : ∀ (F E : List Edge) (L : Lattice), IsLattice s E L →
    (∀ e ∈ F, e.start < e.stop) → IsLattice s (E ++ F) (insertEdges L F)
  | [], E, L, h, _ => by simpa [insertEdges] using h
  | e :: F, E, L, h, hF => by
    have := isLattice_insertEdges F (E ++ [e]) _ (h.insert e (hF e (by simp))) (fun x hx => hF x (by simp [hx]))
    simpa [insertEdges] using this

/-! ### Viterbi -/

/-- `b` is the first maximum. -/
theorem bestLeft_spec (bt : Nat → Rat) (r : Rat) : ∀ (ls : List Nat) (b : Nat),
    b ∈ ls → ls.Pairwise (· < ·) → (∀ l ∈ ls, bt l ≤ bt b ∧ (l < b → bt l < bt b)) →
    ∀ best : Option (Nat × Rat), (∀ x sc, best = some (x, sc) → sc < bt b + r) →
    bestLeft bt r ls best = some (b, bt b + r)
  | [], b, hb, _, _, _, _ => by simp at hb
  | l :: ls, b, hb, hp, hmax, best, hbest => by
    obtain ⟨hp1, hp2⟩ := List.pairwise_cons.1 hp
    by_cases hlb : l = b
    · subst hlb
      have stay : ∀ (ls : List Nat), (∀ x ∈ ls, bt x ≤ bt l) →
          bestLeft bt r ls (some (l, bt l + r)) = some (l, bt l + r) := by
        intro ls
        induction ls with
        | nil => intro _; rfl
        | cons x ls ih =>
          intro hx
          have h1 := hx x (by simp)
          rw [bestLeft, if_neg (by grind)]
          exact ih (fun y hy => hx y (by simp [hy]))
      have hst := stay ls (fun x hx => (hmax x (by simp [hx])).1)
      cases best with
      | none => rw [bestLeft]; exact hst
      | some x =>
        obtain ⟨x, sc⟩ := x
        rw [bestLeft, if_pos (hbest x sc rfl)]
        exact hst
    · have hb' : b ∈ ls := by
        rcases List.mem_cons.1 hb with h | h
        · exact absurd h.symm hlb
        · exact h
      have hlt : l < b := hp1 b hb'
      have hl := (hmax l (by simp)).2 hlt
      have ih := bestLeft_spec bt r ls b hb' hp2 (fun x hx => hmax x (by simp [hx]))
      cases best with
      | none =>
        rw [bestLeft]
        apply ih
        intro x sc h
        cases h
        grind
      | some x =>
        obtain ⟨x, sc⟩ := x
        rw [bestLeft]
        split
        · apply ih
          intro x sc h
          cases h
          grind
        · apply ih
          intro x' sc' h
          cases h
          exact hbest x sc rfl

/-- The node through which the best path reaches position `q`. -/
def nodeFor (A : Nat → Option Nat) (q : Nat) : Nat := if q = 0 then 0 else ((A q).getD 0) + 2

/-- All nodes satisfying `P` carry their final fields. -/
structure VInv (E : List Edge) (V : Nat → Rat) (A : Nat → Option Nat) (P : Nat → Prop) (st : VState) :
    Prop where
  bos : st.prev 0 = none ∧ st.bt 0 = 0
  edge : ∀ (i : Nat) (e : Edge), E[i]? = some e → P e.start →
    st.prev (i + 2) = some (nodeFor A e.start) ∧ st.bt (i + 2) = V e.start + e.score

theorem viterbiNodes_spec {s : Str} {E : List Edge} {V : Nat → Rat} {A : Nat → Option Nat} {L : Lattice}
    (hL : IsLattice s E L) (hE : ∀ e ∈ E, e.start < e.stop) (hb : IsBest E V A) {pos : Nat}
    (hreach : pos = 0 ∨ ∃ e ∈ E, e.stop = pos) (hV0 : V 0 = 0) :
    ∀ (rs : List Nat) (st : VState), (∀ r ∈ rs, r ∈ L.beginNodes pos) → VInv E V A (· < pos) st →
    ∃ st', viterbiNodes L (L.endNodes pos) rs st = some st' ∧
      (∀ n, n ∉ rs → st'.prev n = st.prev n ∧ st'.bt n = st.bt n) ∧
      (∀ r ∈ rs, st'.prev r = some (nodeFor A pos)) ∧
      (∀ (i : Nat) (e : Edge), i + 2 ∈ rs → E[i]? = some e → st'.bt (i + 2) = V pos + e.score)
  | [], st, _, _ => ⟨st, rfl, fun _ _ => ⟨rfl, rfl⟩, by simp, by simp⟩
  | r :: rs, st, hrs, hinv => by
    have hr := hrs r (by simp)
    -- the best left node
    have hbest : ∀ rsc, bestLeft st.bt rsc (L.endNodes pos) none =
        some (nodeFor A pos, st.bt (nodeFor A pos) + rsc) ∧ st.bt (nodeFor A pos) = V pos := by
      intro rsc
      have hbt : ∀ (i : Nat) (e : Edge), E[i]? = some e → e.stop = pos →
          st.bt (i + 2) = V e.start + e.score := by
        intro i e hi hs
        have := hE e (List.mem_of_getElem? hi)
        exact (hinv.edge i e hi (by show e.start < pos; omega)).2
      by_cases hp0 : pos = 0
      · subst hp0
        have hnf : nodeFor A 0 = 0 := rfl
        rw [hnf]
        refine ⟨?_, by rw [hinv.bos.2, hV0]⟩
        apply bestLeft_spec
        · exact (hL.ends 0 0).2 (.inl ⟨rfl, rfl⟩)
        · exact hL.endsSorted 0
        · intro l hl
          rcases (hL.ends 0 l).1 hl with ⟨rfl, -⟩ | ⟨i, e, rfl, hi, hs⟩
          · exact ⟨Rat.le_refl, fun h => by omega⟩
          · have := hE e (List.mem_of_getElem? hi); omega
        · intro x sc h; cases h
      · obtain ⟨e0, he0, hs0⟩ := hreach.resolve_left hp0
        cases ha : A pos with
        | none => exact absurd hs0 ((hb.none pos ha).2 e0 he0)
        | some i =>
          obtain ⟨e, hi, hs, hv, hmax⟩ := hb.some pos i ha
          have hnf : nodeFor A pos = i + 2 := by simp [nodeFor, hp0, ha]
          rw [hnf]
          refine ⟨?_, by rw [hbt i e hi hs, hv]⟩
          apply bestLeft_spec
          · exact (hL.ends pos _).2 (.inr ⟨i, e, rfl, hi, hs⟩)
          · exact hL.endsSorted pos
          · intro l hl
            rcases (hL.ends pos l).1 hl with ⟨rfl, h⟩ | ⟨j, e', rfl, hj, hs'⟩
            · exact absurd h hp0
            · rw [hbt i e hi hs, hbt j e' hj hs', ← hv]
              have := hmax j e' hj hs'
              exact ⟨this.1, fun h => this.2 (by omega)⟩
          · intro x sc h; cases h
    have hb1 := hbest ((L.nodes[r]?.map (·.score)).getD 0)
    simp only [viterbiNodes, hb1.1]
    -- the new state
    have hr_cases := (hL.begins pos r).1 hr
    have hr0 : r ≠ 0 := by
      rcases hr_cases with ⟨rfl, -⟩ | ⟨i, e, rfl, -⟩ <;> omega
    have hinv' : VInv E V A (· < pos)
        { prev := fun n => if n = r then some (nodeFor A pos) else st.prev n
          bt := fun n => if n = r then
            st.bt (nodeFor A pos) + (L.nodes[r]?.map (·.score)).getD 0 else st.bt n } := by
      refine ⟨by simp [Ne.symm hr0, hinv.bos], ?_⟩
      intro i e hi hlt
      have hne : i + 2 ≠ r := by
        rintro rfl
        rcases hr_cases with ⟨h, -⟩ | ⟨i', e', h, hi', hs⟩
        · omega
        · obtain rfl : i = i' := by omega
          rw [hi] at hi'; cases hi'
          simp [hs] at hlt
      simp only [hne, if_false]
      exact hinv.edge i e hi hlt
    obtain ⟨st', h1, h2, h3, h4⟩ := viterbiNodes_spec hL hE hb hreach hV0 rs _
      (fun x hx => hrs x (by simp [hx])) hinv'
    refine ⟨st', h1, ?_, ?_, ?_⟩
    · intro n hn
      simp only [List.mem_cons, not_or] at hn
      have := h2 n hn.2
      simpa [hn.1] using this
    · intro x hx
      by_cases hxr : x ∈ rs
      · exact h3 x hxr
      · have hxr' : x = r := by simpa [hxr] using hx
        subst hxr'
        have := (h2 x hxr).1
        simpa using this
    · intro i e hi hie
      by_cases hxr : i + 2 ∈ rs
      · exact h4 i e hxr hie
      · have hxr' : i + 2 = r := by simpa [hxr] using hi
        subst hxr'
        have := (h2 _ hxr).2
        simp only [if_true] at this
        rw [this, hb1.2, hL.node i e hie]
        rfl

theorem prefix_step {s a' a cs : Str} {c : Char} (h1 : a' <+: s) (h2 : s = a ++ c :: cs)
    (h : blen a' < blen a + c.utf8Size) : blen a' ≤ blen a := by
  have h3 : a <+: s := ⟨c :: cs, h2.symm⟩
  rcases List.prefix_or_prefix_of_prefix h1 h3 with ⟨r, rfl⟩ | ⟨r, rfl⟩
  · simp
  · obtain ⟨q, hq⟩ := h1
    rw [h2, List.append_assoc] at hq
    have := List.append_cancel_left hq
    cases r with
    | nil => simp
    | cons d r =>
      simp at this
      obtain ⟨rfl, -⟩ := this
      simp at h; omega

/-- A lattice with a way on from, and a way to, every character boundary. -/
structure Full (s : Str) (E : List Edge) : Prop where
  lt : ∀ e ∈ E, e.start < e.stop ∧ e.stop ≤ blen s
  start : ∀ e ∈ E, ∃ a, a <+: s ∧ e.start = blen a
  begins : ∀ a c cs, s = a ++ c :: cs → ∃ e ∈ E, e.start = blen a
  reached : ∀ a, a <+: s → blen a = 0 ∨ ∃ e ∈ E, e.stop = blen a

theorem Full.connected {s : Str} {E : List Edge} (h : Full s E) : Connected E := by
  intro e he
  obtain ⟨a, ha, hs⟩ := h.start e he
  rw [hs]
  exact h.reached a ha

theorem Full.reached_end {s : Str} {E : List Edge} (h : Full s E) :
    blen s = 0 ∨ ∃ e ∈ E, e.stop = blen s := h.reached s (List.prefix_refl s)

theorem Built.full' (hu : Built vocab unk u) {m : Rat} (hm : u.minScore = m) (s : Str) :
    Full s (u.edgesFrom 0 s) where
  lt e he := by have := hu.edge_lt' hm he; omega
  start e he := by
    obtain ⟨a, b, x, h, -, rfl⟩ := (hu.mem_edgesFrom' hm s 0 e).1 he
    exact ⟨a, ⟨x.text ++ b, by simp [h]⟩, by simp⟩
  begins a c cs hs := by
    obtain ⟨x, hx, hxp⟩ := exists_single vocab unk m c
    exact ⟨_, (hu.mem_edgesFrom' hm s 0 _).2 ⟨a, cs, x, by simp [hs, hx], hxp, rfl⟩, by simp⟩
  reached a ha := by
    obtain ⟨b, hb⟩ := ha
    exact hu.reached' hm hb.symm

theorem Made.full (hu : Made vocab unk u) {m : Rat} (hm : IsMinScore vocab m) (s : Str) :
    Full s (u.edgesFrom 0 s) := hu.full' (hu.minScore m hm) s

/-- The whole Viterbi pass. -/
theorem viterbiLoop_spec {s : Str} {E : List Edge} (hF : Full s E)
    {V : Nat → Rat} {A : Nat → Option Nat} {L : Lattice} (hL : IsLattice s E L)
    (hb : IsBest E V A) (hV0 : V 0 = 0) :
    ∀ (rest a : Str) (st : VState), s = a ++ rest → VInv E V A (· < blen a) st →
    ∃ st', viterbiLoop L (blen a) rest st = some st' ∧ VInv E V A (fun _ => True) st' ∧
      st'.prev 1 = some (nodeFor A (blen s))
  | [], a, st, hs, hinv => by
    have hE : ∀ e ∈ E, e.start < e.stop := fun e he => (hF.lt e he).1
    have has : a = s := by simpa using hs.symm
    subst has
    obtain ⟨st', h1, h2, h3, -⟩ := viterbiNodes_spec hL hE hb (pos := blen a)
      hF.reached_end hV0 (L.beginNodes (blen a)) st (fun _ h => h) hinv
    have hmem : 1 ∈ L.beginNodes (blen a) := (hL.begins _ _).2 (.inl ⟨rfl, rfl⟩)
    have hne : (L.beginNodes (blen a)).isEmpty = false := by
      cases hbn : L.beginNodes (blen a) with
      | nil => rw [hbn] at hmem; simp at hmem
      | cons _ _ => rfl
    rw [viterbiLoop]
    simp only [hne, Bool.false_eq_true, if_false]
    refine ⟨st', h1, ⟨?_, ?_⟩, h3 1 hmem⟩
    · have h0 : 0 ∉ L.beginNodes (blen a) := by
        intro h
        rcases (hL.begins _ _).1 h with ⟨h, -⟩ | ⟨i, e, h, -⟩ <;> omega
      obtain ⟨q1, q2⟩ := h2 0 h0
      rw [q1, q2]; exact hinv.bos
    · intro i e hi _
      have hlt := hF.lt e (List.mem_of_getElem? hi)
      have hnot : i + 2 ∉ L.beginNodes (blen a) := by
        intro h
        rcases (hL.begins _ _).1 h with ⟨h, -⟩ | ⟨i', e', h, hi', hs'⟩
        · omega
        · obtain rfl : i = i' := by omega
          rw [hi] at hi'; cases hi'
          omega
      obtain ⟨q1, q2⟩ := h2 _ hnot
      rw [q1, q2]
      exact hinv.edge i e hi (by show e.start < blen a; omega)
  | c :: cs, a, st, hs, hinv => by
    have hE : ∀ e ∈ E, e.start < e.stop := fun e he => (hF.lt e he).1
    obtain ⟨st', h1, h2, h3, h4⟩ := viterbiNodes_spec hL hE hb (pos := blen a)
      (hF.reached a ⟨_, hs.symm⟩) hV0 (L.beginNodes (blen a)) st (fun _ h => h) hinv
    obtain ⟨e0, hedge, hes0⟩ := hF.begins a c cs hs
    obtain ⟨i0, hi0⟩ := List.getElem?_of_mem hedge
    have hmem : i0 + 2 ∈ L.beginNodes (blen a) := (hL.begins _ _).2 (.inr ⟨i0, e0, rfl, hi0, hes0⟩)
    have hne : (L.beginNodes (blen a)).isEmpty = false := by
      cases hbn : L.beginNodes (blen a) with
      | nil => rw [hbn] at hmem; simp at hmem
      | cons _ _ => rfl
    rw [viterbiLoop]
    simp only [hne, Bool.false_eq_true, if_false, h1]
    have e1 : blen (a ++ [c]) = blen a + c.utf8Size := by simp
    rw [← e1]
    apply viterbiLoop_spec hF hL hb hV0 cs (a ++ [c]) st' (by simp [hs])
    refine ⟨?_, ?_⟩
    · have h0 : 0 ∉ L.beginNodes (blen a) := by
        intro h
        rcases (hL.begins _ _).1 h with ⟨h, -⟩ | ⟨i, e, h, -⟩ <;> omega
      obtain ⟨q1, q2⟩ := h2 0 h0
      rw [q1, q2]; exact hinv.bos
    · intro i e hi hlt
      obtain ⟨a', ha', hes⟩ := hF.start e (List.mem_of_getElem? hi)
      have hle : e.start ≤ blen a := by
        rw [hes]
        apply prefix_step (s := s) (cs := cs) (c := c) ha' hs
        rw [← hes, ← e1]; exact hlt
      by_cases heq : e.start = blen a
      · have hin : i + 2 ∈ L.beginNodes (blen a) := (hL.begins _ _).2 (.inr ⟨i, e, rfl, hi, heq⟩)
        exact ⟨by rw [h3 _ hin, heq], by rw [h4 i e hin hi, heq]⟩
      · have hnot : i + 2 ∉ L.beginNodes (blen a) := by
          intro h
          rcases (hL.begins _ _).1 h with ⟨h, -⟩ | ⟨i', e', h, hi', hs'⟩
          · omega
          · obtain rfl : i = i' := by omega
            rw [hi] at hi'; cases hi'
            exact heq hs'
        obtain ⟨q1, q2⟩ := h2 _ hnot
        rw [q1, q2]
        exact hinv.edge i e hi (by show e.start < blen a; omega)

theorem viterbiBack_spec {E : List Edge} {V : Nat → Rat} {A : Nat → Option Nat} {st : VState}
    (hE : ∀ e ∈ E, e.start < e.stop) (hb : IsBest E V A) (hc : Connected E)
    (hst : VInv E V A (fun _ => True) st) :
    ∀ (fuel q : Nat), q ≤ fuel → (q = 0 ∨ ∃ e ∈ E, e.stop = q) →
      ∃ ns, viterbiBack st fuel (nodeFor A q) = some ns ∧ (∀ n ∈ ns, 2 ≤ n) ∧
        (recover E A fuel q).map some = ns.reverse.map (fun n => E[n - 2]?) := by
  have h0 : A 0 = none := by
    cases ha : A 0 with
    | none => rfl
    | some i =>
      obtain ⟨e, he, hs, -⟩ := hb.some _ _ ha
      have := hE e (List.mem_of_getElem? he)
      omega
  have base : ∀ fuel, ∃ ns, viterbiBack st fuel (nodeFor A 0) = some ns ∧ (∀ n ∈ ns, 2 ≤ n) ∧
        (recover E A fuel 0).map some = ns.reverse.map (fun n => E[n - 2]?) := by
    intro fuel
    have hn : nodeFor A 0 = 0 := rfl
    refine ⟨[], ?_, by simp, ?_⟩
    · rw [hn]; unfold viterbiBack; simp [hst.bos.1]
    · cases fuel <;> simp [recover, h0]
  intro fuel
  induction fuel with
  | zero =>
    intro q hq _
    obtain rfl : q = 0 := by omega
    exact base 0
  | succ fuel ih =>
    intro q hq hr
    by_cases hq0 : q = 0
    · subst hq0; exact base _
    · obtain ⟨e0, he0, hs0⟩ := hr.resolve_left hq0
      cases ha : A q with
      | none => exact absurd hs0 ((hb.none q ha).2 e0 he0)
      | some i =>
        obtain ⟨e, he, hs, -, -⟩ := hb.some q i ha
        have hm := List.mem_of_getElem? he
        have hlt := hE e hm
        obtain ⟨ns, h1, h2, h3⟩ := ih e.start (by omega) (hc e hm)
        have hn : nodeFor A q = i + 2 := by simp [nodeFor, hq0, ha]
        refine ⟨(i + 2) :: ns, ?_, ?_, ?_⟩
        · rw [hn]; unfold viterbiBack; simp only [(hst.edge i e he trivial).1, h1]; rfl
        · intro n hn
          rcases List.mem_cons.1 hn with rfl | hn
          · omega
          · exact h2 n hn
        · have hrec : recover E A (fuel + 1) q = recover E A fuel e.start ++ [e] := by
            simp [recover, ha, he]
          rw [hrec]
          simp [h3, he]

/-! ### Fusing -/

/-- State of the fusing loop: what it returns for the marked pieces `l` that are left. -/
def fuseWith (token : Str) (results : List Str) (l : List (Str × Bool)) : List Str :=
  results ++ if token.isEmpty then fuse l else fuse ((token, true) :: l)

theorem fuseLoop_spec {k : Nat} (hu : Built vocab (some k) u) {s : Str} {E : List Edge}
    {L : Lattice} (hL : IsLattice s E L)
    (hE : ∀ e ∈ E, e.start < e.stop ∧ e.id ≠ none ∧ (strGet s e.start e.stop).isSome) :
    ∀ (ns : List Nat) (es : List Edge) (token : Str) (results : List Str), (∀ n ∈ ns, 2 ≤ n) →
      es.map some = ns.map (fun n => E[n - 2]?) →
      fuseLoop u L ns token results = .ok (fuseWith token results (marked s (some k) es))
  | [], es, token, results, _, h => by
    have : es = [] := by simpa using h
    subst this
    simp only [fuseLoop, fuseWith, marked, List.map_nil, fuse_true_nil]
    split <;> simp [fuse]
  | n :: ns, [], token, results, _, h => by simp at h
  | n :: ns, e :: es, token, results, hn, h => by
    simp only [List.map_cons, List.cons.injEq] at h
    obtain ⟨h1, h2⟩ := h
    have hn2 := hn n (by simp)
    have hmem := List.mem_of_getElem? h1.symm
    obtain ⟨hlt, hid, htx⟩ := hE e hmem
    obtain ⟨piece, hp⟩ := Option.isSome_iff_exists.1 htx
    obtain ⟨i, hi⟩ := Option.ne_none_iff_exists'.1 hid
    have hnode := hL.node (n - 2) e h1.symm
    rw [show n - 2 + 2 = n by omega] at hnode
    have hpiece : L.piece ⟨e.id.getD 0, e.start, e.stop - e.start, e.score⟩ = some piece := by
      simp only [Lattice.piece, hL.sentence]
      rw [show e.start + (e.stop - e.start) = e.stop by omega, hp]
    have hpne : piece ≠ [] := by
      rintro rfl
      obtain ⟨a, b, -, h3, h4⟩ := strGet_eq_some.1 hp
      simp at h4
      omega
    have hpe : piece.isEmpty = false := by cases piece with
      | nil => exact absurd rfl hpne
      | cons _ _ => rfl
    have ih := fuseLoop_spec hu hL hE ns es
    have hmk : marked s (some k) (e :: es) = (piece, decide (i = k)) :: marked s (some k) es := by
      simp [marked, Edge.text, hp, hi]
    rw [hmk]
    rw [hi, Option.getD_some] at hpiece hnode
    simp only [fuseLoop, hnode, Option.bind_some, hpiece, Option.map_some, hu.unk_eq]
    by_cases hik : i = k
    · rw [if_pos hik, ih (token ++ piece) results (fun x hx => hn x (by simp [hx])) h2]
      simp only [fuseWith, hik, decide_true]
      have e1 : (token ++ piece).isEmpty = false := by cases token <;> simp_all
      rw [e1]
      congr 2
      cases token with
      | nil => simp
      | cons t ts =>
        simp only [List.isEmpty_cons, Bool.false_eq_true, if_false]
        -- two adjacent unknown pieces
        generalize marked s (some k) es = l
        cases l with
        | nil => simp [fuse]
        | cons d l =>
          obtain ⟨q, b⟩ := d
          cases b with
          | false => simp [fuse]
          | true =>
            cases hf : fuse ((q, true) :: l) with
            | nil => exfalso; simp only [fuse] at hf; split at hf <;> cases hf
            | cons r rs =>
              rw [fuse_true_true _ _ _ _ _ hf, fuse_true_true _ _ _ (piece ++ r) rs
                (fuse_true_true _ _ _ _ _ hf)]
              simp
    · rw [if_neg hik, ih [] _ (fun x hx => hn x (by simp [hx])) h2]
      simp only [fuseWith, hik, decide_false, List.isEmpty_nil, if_true]
      split
      · simp [fuse_append_false]
      · simp [fuse_true_false]

/-- **C24.** The two encoders return the same thing on every sentence: same success, same pieces, hence the
same (optimal) score and the same tie-breaking.

Partial: this holds for exact sums of scores and models with an unknown id. With the rounding of `f64` only the
(rounded) scores agree (`C75_lattice`), the pieces may differ (`C75_differ`); without an unknown id see
`C24_differ_without_unk_id`. -/
theorem C24_agree_partial {bf : Bool} {k : Nat} (hu : Unigram.from vocab (some k) bf = .ok u) (s : Str) :
    u.encodeUnoptimized s = u.encodeOptimized s := by
  have hne : vocab ≠ [] := by
    rintro rfl
    simp [Unigram.from] at hu
  have hm := minOf_isMin hne
  have hu := made_of_from hu
  have hE : ∀ e ∈ u.edgesFrom 0 s, e.start < e.stop := fun e he => (hu.edge_lt hm he).2.1
  have hreach := hu.reached hm (s := s) (a := s) (b := []) (by simp)
  -- the optimized side
  obtain ⟨T, hT, A, hA⟩ : ∃ T, optLoop u 0 s (fun _ => Cell.default) = .ok T ∧
      ∃ A, TableBest (u.edgesFrom 0 s) T A := by
    rcases optLoop_inv hu hm s 0 [] _ _ tableBest_start (by simp) with ⟨x, h1, h2⟩ | ⟨T, h1, A, hA⟩
    · cases h2
    · exact ⟨T, h1, A, by simpa using hA⟩
  have hopt : u.encodeOptimized s =
      .ok (fuse (marked s (some k) (recover (u.edgesFrom 0 s) A (blen s) (blen s)))) := by
    unfold encodeOptimized
    rw [hT]
    dsimp only
    rw [backtrack_spec hu (fun e he => ⟨hE e he, hu.edge_text hm he⟩) hA (hu.connected hm s)
      (blen s) (blen s) [] [] [] (Nat.le_refl _) hreach (.inl ⟨rfl, rfl, by simp⟩), List.append_nil]
  have hV0 : (T 0).score = 0 := by
    cases ha : A 0 with
    | none => exact (hA.best.none 0 ha).1
    | some i =>
      obtain ⟨e, he, hs, -⟩ := hA.best.some _ _ ha
      have := hE e (List.mem_of_getElem? he)
      omega
  -- the lattice side
  have hpop : u.populateNodes (Lattice.from s u.bosId u.eosId) =
      some (insertEdges (Lattice.from s u.bosId u.eosId) (u.edgesFrom 0 s)) :=
    populateLoop_eq hu.toBuilt (by simp) s 0 _
  have hL : IsLattice s (u.edgesFrom 0 s) (insertEdges (Lattice.from s u.bosId u.eosId) (u.edgesFrom 0 s)) := by
    have := isLattice_insertEdges (u.edgesFrom 0 s) [] _ (isLattice_from s u.bosId u.eosId) hE
    simpa using this
  generalize insertEdges (Lattice.from s u.bosId u.eosId) (u.edgesFrom 0 s) = L at hpop hL
  obtain ⟨st, hv, hst, hroot⟩ := viterbiLoop_spec (hu.full hm s) hL hA.best hV0 s []
    ⟨fun _ => none, fun _ => 0⟩ rfl ⟨⟨rfl, rfl⟩, fun i e _ h => by simp at h⟩
  obtain ⟨ns, hn1, hn2, hn3⟩ := viterbiBack_spec hE hA.best (hu.connected hm s) hst (blen s) (blen s)
    (Nat.le_refl _) hreach
  have hbl : ∃ r, L.beginNodes L.len = 1 :: r := by
    have h1 : 1 ∈ L.beginNodes L.len := by rw [hL.len]; exact (hL.begins _ _).2 (.inl ⟨rfl, rfl⟩)
    have h2 : ∀ n ∈ L.beginNodes L.len, n = 1 := by
      intro n hn
      rw [hL.len] at hn
      rcases (hL.begins _ _).1 hn with ⟨h, -⟩ | ⟨i, e, -, hi, hs⟩
      · exact h
      · have := (hu.edge_lt hm (List.mem_of_getElem? hi)).2; omega
    cases hb : L.beginNodes L.len with
    | nil => rw [hb] at h1; simp at h1
    | cons a r =>
      have := h2 a (by simp [hb])
      exact ⟨r, by rw [this]⟩
  obtain ⟨r, hr⟩ := hbl
  have hvit : L.viterbi = some ns.reverse := by
    unfold Lattice.viterbi
    rw [hL.sentence]
    have e0 : blen ([] : Str) = 0 := rfl
    rw [e0] at hv
    rw [hv]
    simp only [hr, hroot]
    rw [hL.len, hn1]
    rfl
  unfold encodeUnoptimized
  rw [hpop]
  simp only [hvit, hu.fuse, if_true]
  rw [fuseLoop_spec hu.toBuilt hL ?_ ns.reverse (recover (u.edgesFrom 0 s) A (blen s) (blen s)) [] []
    (by simpa using hn2) hn3, hopt]
  · simp [fuseWith]
  · intro e he
    refine ⟨hE e he, ?_, hu.edge_text hm he⟩
    obtain ⟨a, b, x, -, hx, rfl⟩ := (hu.mem_edgesFrom hm s 0 e).1 he
    rcases hx with ⟨-, i, hi, -⟩ | ⟨-, -, -, hi, -⟩
    · simp [hi]
    · simp [hi]

/-- Ties and unknown characters; both encoders in one run. -/
example : ∃ u, Unigram.from sampleVocab (some 0) false = .ok u ∧
    u.encodeUnoptimized "abxyé".toList = .ok ["ab".toList, "xy".toList, "é".toList] :=
  ⟨_, rfl, by decide +kernel⟩

/-- Without an unknown id they differ: one reports the missing id, the other silently returns nothing. -/
theorem C24_differ_without_unk_id :
    ∃ u, Unigram.from [("ab".toList, -1)] none false = .ok u ∧
      u.encodeOptimized "ab".toList = .err .missingUnkId ∧
      u.encodeUnoptimized "ab".toList = .ok [] :=
  ⟨_, rfl, by decide +kernel, by decide +kernel⟩

end Tok.Unigram
