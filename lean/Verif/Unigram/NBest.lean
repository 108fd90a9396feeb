import Verif.Unigram.C24

/-!
# Model of `Lattice::nbest` (`models/unigram/lattice.rs`)

The agenda is an external binary heap (`dary_heap::QuaternaryHeap`); it is a parameter `Heap` here, with the
assumption `Heap.Ok`: pushing adds the element and popping removes one with maximal `fx` (which of several
maximal ones is left open). `Hypothesis::cmp` (`lattice.rs:40-48`) compares `fx` only.
-/

namespace Tok.Unigram

/-- `lattice.rs:12-17` `Hypothesis`. `rest` is the chain of `next` pointers: the nodes after `node`. -/
structure Hyp where
  node : Nat
  rest : List Nat
  fx : Rat
  gx : Rat
deriving DecidableEq

/-- The priority queue. -/
structure Heap where
  push : Hyp → List Hyp → List Hyp
  pop : List Hyp → Option (Hyp × List Hyp)

/-- What is assumed of the queue. -/
structure Heap.Ok (H : Heap) : Prop where
  push : ∀ h l, (H.push h l).Perm (h :: l)
  pop_none : ∀ l, H.pop l = none → l = []
  pop_some : ∀ l h l', H.pop l = some (h, l') → l.Perm (h :: l') ∧ ∀ x ∈ l, x.fx ≤ h.fx

/-- `lattice.rs:287-289`: pop `k` elements (in the code `unwrap` cannot fail: the agenda is larger). -/
def popN (H : Heap) : Nat → List Hyp → List Hyp
  | 0, _ => []
  | k + 1, l => match H.pop l with
    | none => []
    | some (h, l') => h :: popN H k l'

/-- `lattice.rs:279-291`: shrink an agenda of more than 100 000 elements. -/
def shrink (H : Heap) (n : Nat) (agenda : List Hyp) : List Hyp :=
  if agenda.length > 100000 then (popN H (min 512 (n * 10)) agenda).foldl (fun a h => H.push h a) []
  else agenda

/-- `lattice.rs:271-278`: push one hypothesis per node that ends where the popped one begins. -/
def expand (H : Heap) (L : Lattice) (bt : Nat → Rat) (top : Hyp) (pos : Nat) (agenda : List Hyp) : List Hyp :=
  (L.endNodes pos).foldl (fun a l => H.push
    ⟨l, top.node :: top.rest, bt l + top.gx, (L.nodes[l]?.map (·.score)).getD 0 + top.gx⟩ a) agenda

/-- `lattice.rs:253-294`, the loop. `fuel` bounds the iterations (`C47_terminates`: enough of it exists). -/
def nbestLoop (H : Heap) (L : Lattice) (bt : Nat → Rat) (bosId n : Nat) :
    Nat → List Hyp → List (List Nat) → Option (List (List Nat))
  | fuel, agenda, outs =>
    match H.pop agenda with
    | none => some outs
    | some (top, agenda) =>
      match fuel with
      | 0 => none
      | fuel + 1 =>
        match L.nodes[top.node]? with
        | none => none
        | some nd =>
          if nd.id = bosId then
            -- all of the chain but its last element, the end of the sentence
            let outs := outs ++ [top.rest.dropLast]
            if outs.length = n then some outs else nbestLoop H L bt bosId n fuel agenda outs
          else
            nbestLoop H L bt bosId n fuel (shrink H n (expand H L bt top nd.pos agenda)) outs

/-- `lattice.rs:237-297` `Lattice::nbest`, as node indices. `none` also when the Viterbi pass stops early
(it then leaves stale scores behind; the outcome of that case is not modelled). -/
def Lattice.nbest (H : Heap) (L : Lattice) (fuel : Nat) : Nat → Option (List (List Nat))
  | 0 => some []
  | 1 => L.viterbi.map (fun p => [p])
  | n + 2 =>
    match L.beginNodes L.len, L.endNodes 0 with
    | eos :: _, bos :: _ =>
      match viterbiLoop L 0 L.sentence ⟨fun _ => none, fun _ => 0⟩, L.nodes[eos]?, L.nodes[bos]? with
      | some st, some eosNode, some bosNode =>
        nbestLoop H L st.bt bosNode.id (n + 2) fuel
          (H.push ⟨eos, [], eosNode.score, eosNode.score⟩ []) []
      | _, _, _ => none
    | _, _ => none

/-! ### Specification -/

/-- `is` (indices of inserted edges) leads from `p` to `q`. -/
def IdxPath (E : List Edge) : Nat → Nat → List Nat → Prop
  | p, q, [] => p = q
  | p, q, i :: is => ∃ e, E[i]? = some e ∧ e.start = p ∧ IdxPath E e.stop q is

/-- Score of the edge with index `i`. -/
def edgeScore (E : List Edge) (i : Nat) : Rat := (E[i]?.map (·.score)).getD 0

/-- Total score. -/
def idxTotal (E : List Edge) (is : List Nat) : Rat := (is.map (edgeScore E)).foldr (· + ·) 0

/-- What n-best is supposed to return: at most `n` different full paths, best first, of which the first `m` are
the best there are: if a path is left out, `m` were returned and it is no better than any of those. -/
structure NBestSpec (E : List Edge) (len n m : Nat) (out : List (List Nat)) : Prop where
  length : out.length ≤ n
  nodup : out.Nodup
  paths : ∀ is ∈ out, IdxPath E 0 len is
  sorted : out.Pairwise (fun a b => idxTotal E b ≤ idxTotal E a)
  rest : ∀ is, IdxPath E 0 len is → is ∉ out → m ≤ out.length ∧ ∀ o ∈ out.take m, idxTotal E is ≤ idxTotal E o

/-! ### Best scores for any list of edges -/

theorem exists_first_max (val : Edge → Rat) (p : Nat) : ∀ (E : List Edge),
    (∀ e ∈ E, e.stop ≠ p) ∨ ∃ (i : Nat) (e : Edge), E[i]? = some e ∧ e.stop = p ∧
      ∀ (j : Nat) (e' : Edge), E[j]? = some e' → e'.stop = p → val e' ≤ val e ∧ (j < i → val e' < val e)
  | [] => .inl (by simp)
  | e :: E => by
    have shift : ∀ {j : Nat} {e' : Edge}, (e :: E)[j]? = some e' →
        (j = 0 ∧ e' = e) ∨ ∃ j', j = j' + 1 ∧ E[j']? = some e' := by
      intro j e' h
      cases j with
      | zero => simp at h; exact .inl ⟨rfl, h.symm⟩
      | succ j => exact .inr ⟨j, rfl, by simpa using h⟩
    rcases exists_first_max val p E with h | ⟨i, e1, h1, h2, h3⟩
    · by_cases he : e.stop = p
      · refine .inr ⟨0, e, rfl, he, ?_⟩
        intro j e' hj hs
        rcases shift hj with ⟨rfl, rfl⟩ | ⟨j', rfl, hj'⟩
        · exact ⟨Rat.le_refl, by omega⟩
        · exact absurd hs (h e' (List.mem_of_getElem? hj'))
      · left
        intro x hx
        rcases List.mem_cons.1 hx with rfl | hx
        · exact he
        · exact h x hx
    · right
      by_cases he : e.stop = p ∧ val e1 ≤ val e
      · refine ⟨0, e, rfl, he.1, ?_⟩
        intro j e' hj hs
        rcases shift hj with ⟨rfl, rfl⟩ | ⟨j', rfl, hj'⟩
        · exact ⟨Rat.le_refl, by omega⟩
        · exact ⟨Rat.le_trans (h3 j' e' hj' hs).1 he.2, by omega⟩
      · refine ⟨i + 1, e1, by simpa using h1, h2, ?_⟩
        intro j e' hj hs
        rcases shift hj with ⟨rfl, rfl⟩ | ⟨j', rfl, hj'⟩
        · have hlt : val e' < val e1 := Rat.not_le.1 (fun h => he ⟨hs, h⟩)
          exact ⟨Rat.le_of_lt hlt, fun _ => hlt⟩
        · have := h3 j' e' hj' hs
          exact ⟨this.1, fun h => this.2 (by omega)⟩

theorem exists_best_upto (E : List Edge) (hE : ∀ e ∈ E, e.start < e.stop) : ∀ (N : Nat),
    ∃ (V : Nat → Rat) (A : Nat → Option Nat), ∀ p, p < N →
      (A p = none → V p = 0 ∧ ∀ e ∈ E, e.stop ≠ p) ∧
      (∀ i, A p = some i → ∃ e, E[i]? = some e ∧ e.stop = p ∧ V p = V e.start + e.score ∧
        ∀ (j : Nat) (e' : Edge), E[j]? = some e' → e'.stop = p →
          V e'.start + e'.score ≤ V p ∧ (j < i → V e'.start + e'.score < V p))
  | 0 => ⟨fun _ => 0, fun _ => none, by omega⟩
  | N + 1 => by
    obtain ⟨V, A, h⟩ := exists_best_upto E hE N
    rcases exists_first_max (fun e => V e.start + e.score) N E with hno | ⟨i, e, h1, h2, h3⟩
    · refine ⟨fun p => if p = N then 0 else V p, fun p => if p = N then none else A p, ?_⟩
      intro p hp
      by_cases hpN : p = N
      · simp only [hpN, if_true]
        exact ⟨fun _ => ⟨trivial, hno⟩, fun i hi => by cases hi⟩
      · obtain ⟨g1, g2⟩ := h p (by omega)
        simp only [hpN, if_false]
        refine ⟨g1, ?_⟩
        intro i hi
        obtain ⟨e, he, hs, hv, hm⟩ := g2 i hi
        have := hE e (List.mem_of_getElem? he)
        refine ⟨e, he, hs, by rw [if_neg (by omega)]; exact hv, ?_⟩
        intro j e' hj hs'
        have := hE e' (List.mem_of_getElem? hj)
        rw [if_neg (by omega)]
        exact hm j e' hj hs'
    · refine ⟨fun p => if p = N then V e.start + e.score else V p, fun p => if p = N then some i else A p, ?_⟩
      have hes := hE e (List.mem_of_getElem? h1)
      intro p hp
      by_cases hpN : p = N
      · simp only [hpN, if_true]
        refine ⟨fun h => (by cases h), ?_⟩
        intro i' hi'
        cases hi'
        refine ⟨e, h1, h2, by rw [if_neg (by omega)], ?_⟩
        intro j e' hj hs'
        have := hE e' (List.mem_of_getElem? hj)
        rw [if_neg (by omega)]
        exact h3 j e' hj hs'
      · obtain ⟨g1, g2⟩ := h p (by omega)
        simp only [hpN, if_false]
        refine ⟨g1, ?_⟩
        intro i hi
        obtain ⟨e, he, hs, hv, hm⟩ := g2 i hi
        have := hE e (List.mem_of_getElem? he)
        refine ⟨e, he, hs, by rw [if_neg (by omega)]; exact hv, ?_⟩
        intro j e' hj hs'
        have := hE e' (List.mem_of_getElem? hj)
        rw [if_neg (by omega)]
        exact hm j e' hj hs'

theorem exists_best {s : Str} {E : List Edge} (hF : Full s E) : ∃ V A, IsBest E V A := by
  have hE : ∀ e ∈ E, e.start < e.stop := fun e he => (hF.lt e he).1
  obtain ⟨V, A, h⟩ := exists_best_upto E hE (blen s + 1)
  refine ⟨fun p => if p ≤ blen s then V p else 0, fun p => if p ≤ blen s then A p else none, ?_, ?_⟩
  · intro p hp
    by_cases hps : p ≤ blen s
    · simp only [hps, if_true] at hp ⊢
      exact (h p (by omega)).1 hp
    · simp only [hps, if_false]
      refine ⟨trivial, ?_⟩
      intro e he hs
      have := hF.lt e he
      omega
  · intro p i hp
    by_cases hps : p ≤ blen s
    · simp only [hps, if_true] at hp ⊢
      obtain ⟨e, he, hs, hv, hm⟩ := (h p (by omega)).2 i hp
      have := hF.lt e (List.mem_of_getElem? he)
      refine ⟨e, he, hs, by rw [if_pos (by omega)]; exact hv, ?_⟩
      intro j e' hj hs'
      have := hF.lt e' (List.mem_of_getElem? hj)
      rw [if_pos (by omega)]
      exact hm j e' hj hs'
    · simp [hps] at hp

end Tok.Unigram
