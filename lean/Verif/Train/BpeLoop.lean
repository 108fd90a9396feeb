import Verif.Train.BpeStep

/-!
# The training loop is textbook BPE training; it terminates and never panics
-/

namespace Tok.Train

section
variable {cfg : BpeCfg} {counts : List Nat} {words0 : List (List Nat)} {str : Seg → Str} {s : St} {hist : List (Seg × Seg)}

theorem length_mergeSyms_le (p : Pair) (r : Nat) : ∀ w, (mergeSyms p r w).length ≤ w.length
  | [] => Nat.le_refl _
  | [a] => Nat.le_refl _
  | a :: b :: rest => by
    rw [mergeSyms]
    split
    · have := length_mergeSyms_le p r rest
      simp only [List.length_cons]; omega
    · have := length_mergeSyms_le p r (b :: rest)
      simp only [List.length_cons] at *; omega

theorem length_mergeSyms_lt (p : Pair) (r : Nat) : ∀ w, 0 < occ p w → (mergeSyms p r w).length < w.length
  | [], h => by simp [occ] at h
  | [a], h => by simp [occ] at h
  | a :: b :: rest, h => by
    rw [mergeSyms]
    split
    · have := length_mergeSyms_le p r rest
      simp only [List.length_cons]; omega
    · rename_i hab
      rw [occ, if_neg hab] at h
      have := length_mergeSyms_lt p r (b :: rest) (by omega)
      simp only [List.length_cons] at *; omega

/-- The number of symbols of the corpus. -/
def corpusLen (words : List (List Sym)) : Nat := (words.map List.length).sum

theorem corpusLen_le (p : Pair) (r : Nat) : ∀ words, corpusLen (words.map (mergeSyms p r)) ≤ corpusLen words
  | [] => Nat.le_refl _
  | w :: ws => by
    have h1 := corpusLen_le p r ws
    have h2 := length_mergeSyms_le p r w
    simp only [corpusLen, List.map_cons, List.sum_cons] at *
    omega

theorem corpusLen_lt (p : Pair) (r : Nat) : ∀ words, (∃ w ∈ words, 0 < occ p w) →
    corpusLen (words.map (mergeSyms p r)) < corpusLen words
  | [], h => by obtain ⟨w, hw, _⟩ := h; cases hw
  | w :: ws, h => by
    have h1 := corpusLen_le p r ws
    have h2 := length_mergeSyms_le p r w
    obtain ⟨v, hv, ho⟩ := h
    rcases List.mem_cons.1 hv with rfl | hv
    · have h3 := length_mergeSyms_lt p r _ ho
      simp only [corpusLen, List.map_cons, List.sum_cons] at *
      omega
    · have h3 := corpusLen_lt p r ws ⟨v, hv, ho⟩
      simp only [corpusLen, List.map_cons, List.sum_cons] at *
      omega

/-- The counts of the queue. -/
def queueSum (q : List Entry) : Nat := (q.map (·.count)).sum

theorem queueSum_perm {q q' : List Entry} (h : q.Perm q') : queueSum q = queueSum q' := (h.map _).sum_nat

/-- A pair that may be merged, in terms of tokens. -/
theorem Inv.eligible (hI : Inv cfg counts words0 str s hist) {p : Pair} (h : Eligible cfg.maxLen s.words p) :
    ∃ z1 z2, IdOf words0 str s.voc.id2w hist p.1 z1 ∧ IdOf words0 str s.voc.id2w hist p.2 z2 ∧
      Allowed cfg.maxLen (z1.length + z2.length) := by
  obtain ⟨w, hw, u, a, b, v, rfl, rfl, hal⟩ := h
  obtain ⟨z1, h1, h2⟩ := hI.sym_id hw (a := a) (by simp)
  obtain ⟨z2, h3, h4⟩ := hI.sym_id hw (a := b) (by simp)
  exact ⟨z1, z2, h1, h3, by rw [← h2, ← h4]; exact hal⟩

theorem Inv.eligible' (hb : Readable cfg.pre words0 str) (hI : Inv cfg counts words0 str s hist) {p : Pair} {z1 z2 : Seg}
    (h1 : IdOf words0 str s.voc.id2w hist p.1 z1) (h2 : IdOf words0 str s.voc.id2w hist p.2 z2)
    (h3 : Allowed cfg.maxLen (z1.length + z2.length)) (h : 0 < total p s.words counts) : Eligible cfg.maxLen s.words p := by
  obtain ⟨i, hi, ho⟩ := total_pos h
  obtain ⟨u, a, b, v, hw, rfl⟩ := (occ_pos_iff p _).1 ho
  have hm := getD_mem_syms hi
  obtain ⟨z1', g1, g2⟩ := hI.sym_id hm (a := a) (by rw [hw]; simp)
  obtain ⟨z2', g3, g4⟩ := hI.sym_id hm (a := b) (by rw [hw]; simp)
  obtain rfl := hI.uniq hb h1 g1
  obtain rfl := hI.uniq hb h2 g3
  exact ⟨_, hm, u, a, b, v, hw, rfl, by rw [g2, g4]; exact h3⟩

/-- The count of an entry of the queue is exact. -/
theorem Inv.entry_exact (hI : Inv cfg counts words0 str s hist) {e : Entry} (he : e ∈ s.queue) :
    s.pc.get e.pair = some (total e.pair s.words counts : Int) ∧ total e.pair s.words counts ≤ e.count := by
  obtain ⟨⟨z1, z2, h1, h2, h3⟩, h4, h5, h6, _⟩ := hI.qok e he
  have hx := hI.exact e.pair z1 z2 h1 h2 h4 h3
  refine ⟨?_, by omega⟩
  unfold pcGet at hx
  cases hc : s.pc.get e.pair with
  | none => rw [hc] at h5; cases h5
  | some c => rw [hc] at hx; simp at hx; rw [hx]

/-- What the greatest entry of the queue says about all pairs. -/
theorem Inv.top_max (hI : Inv cfg counts words0 str s hist) {top : Entry} {q : List Entry}
    (hp : popMax s.queue = some (top, q)) {p : Pair} (h : Eligible cfg.maxLen s.words p)
    (h0 : 0 < total p s.words counts) : total p s.words counts < top.count ∨
      (total p s.words counts = top.count ∧ PairLe top.pair p) := by
  obtain ⟨hperm, hmax⟩ := popMax_spec _ hp
  obtain ⟨z1, z2, h1, h2, h3⟩ := hI.eligible h
  obtain ⟨e, he, rfl⟩ := hI.qall p z1 z2 h1 h2 h3 h0
  have hle := (hI.entry_exact he).2
  rcases List.mem_cons.1 (hperm.subset he) with rfl | he'
  · rcases Nat.lt_or_ge (total e.pair s.words counts) e.count with h | h
    · exact .inl h
    · exact .inr ⟨by omega, .inr ⟨rfl, Nat.le_refl _⟩⟩
  · have := (above_iff _ _).1 (hmax e he')
    rcases this with h | ⟨h, h'⟩
    · exact .inl (by omega)
    · rcases Nat.lt_or_ge (total e.pair s.words counts) e.count with g | g
      · exact .inl (by omega)
      · exact .inr ⟨by omega, h'⟩

/-- Updating the count of the greatest entry keeps the invariant. -/
theorem Inv.requeue (hI : Inv cfg counts words0 str s hist) {top : Entry} {q : List Entry}
    (hq : s.queue.Perm (top :: q)) :
    Inv cfg counts words0 str { s with queue := { top with count := total top.pair s.words counts } :: q } hist := by
  have htop : top ∈ s.queue := hq.symm.subset List.mem_cons_self
  refine { hI with qnodup := ?_, qok := ?_, qall := ?_ }
  · have := (hq.map (·.pair)).nodup_iff.1 hI.qnodup
    simpa using this
  · intro e he
    rcases List.mem_cons.1 he with rfl | he
    · obtain ⟨h1, h2, h3, _, h5⟩ := hI.qok top htop
      refine ⟨h1, h2, h3, ?_, h5⟩
      simp only [pcGet, (hI.entry_exact htop).1, Option.getD_some]
      omega
    · exact hI.qok e (hq.symm.subset (List.mem_cons_of_mem _ he))
  · intro p z1 z2 h1 h2 h3 h4
    obtain ⟨e, he, rfl⟩ := hI.qall p z1 z2 h1 h2 h3 h4
    rcases List.mem_cons.1 (hq.subset he) with rfl | he
    · exact ⟨_, List.mem_cons_self, rfl⟩
    · exact ⟨e, List.mem_cons_of_mem _ he, rfl⟩

/-- One iteration: an invariant state ends the loop with textbook training done, or requeues an entry, or merges the best
pair. -/
inductive StepSpec (cfg : BpeCfg) (counts : List Nat) (words0 : List (List Nat)) (str : Seg → Str) (s : St)
    (hist : List (Seg × Seg)) : Out → Prop
  | stop (q : List Entry) (h : cfg.vocabSize ≤ s.voc.id2w.length ∨
      ∀ p, Eligible cfg.maxLen s.words p → total p s.words counts < max 1 cfg.minFrequency) :
      StepSpec cfg counts words0 str s hist (.stop { s with queue := q })
  | requeue (q : List Entry) (hI : Inv cfg counts words0 str { s with queue := q } hist)
      (h : queueSum q < queueSum s.queue) : StepSpec cfg counts words0 str s hist (.more { s with queue := q })
  | merge (s' : St) (x y : Seg) (p : Pair) (r : Nat) (hI : Inv cfg counts words0 str s' (hist ++ [(x, y)]))
      (hlen : s.voc.id2w.length < cfg.vocabSize) (hbest : Best cfg.maxLen s.words counts p)
      (hmin : max 1 cfg.minFrequency ≤ total p s.words counts)
      (h1 : s.voc.id2w[p.1]? = some (str x)) (h2 : s.voc.id2w[p.2]? = some (str y))
      (h3 : s'.voc.id2w = if str x ++ stripPre cfg.pre (str y) ∈ s.voc.id2w then s.voc.id2w
        else s.voc.id2w ++ [str x ++ stripPre cfg.pre (str y)])
      (h4 : s'.voc.id2w[r]? = some (str x ++ stripPre cfg.pre (str y)))
      (h5 : s'.words = s.words.map (mergeSyms p r)) (h6 : s'.merges = s.merges ++ [(p, r)]) :
      StepSpec cfg counts words0 str s hist (.more s')

theorem step_spec (hb : Readable cfg.pre words0 str) (hI : Inv cfg counts words0 str s hist) :
    StepSpec cfg counts words0 str s hist (step cfg counts s) := by
  unfold step
  by_cases hv : s.voc.w2id.length ≥ cfg.vocabSize
  · rw [if_pos hv]
    exact .stop s.queue (.inl (by rw [← hI.voc.len]; exact hv))
  · rw [if_neg hv]
    have hlen : s.voc.id2w.length < cfg.vocabSize := by rw [← hI.voc.len]; omega
    cases hp : popMax s.queue with
    | none =>
      simp only
      refine .stop s.queue (.inr fun p h => ?_)
      rcases Nat.eq_zero_or_pos (total p s.words counts) with h0 | h0
      · omega
      · obtain ⟨z1, z2, h1, h2, h3⟩ := hI.eligible h
        obtain ⟨e, he, _⟩ := hI.qall p z1 z2 h1 h2 h3 h0
        rw [popMax_none hp] at he
        cases he
    | some tq =>
      obtain ⟨top, q⟩ := tq
      obtain ⟨hperm, _⟩ := popMax_spec _ hp
      have htop : top ∈ s.queue := hperm.symm.subset List.mem_cons_self
      obtain ⟨hx, hle⟩ := hI.entry_exact htop
      simp only [hx]
      have hu : toU64 (total top.pair s.words counts : Int) = total top.pair s.words counts := by
        unfold toU64
        rw [if_neg (by omega)]
        simp
      rw [hu]
      by_cases hc : top.count ≠ total top.pair s.words counts
      · rw [if_pos hc]
        refine .requeue _ (hI.requeue hperm) ?_
        rw [queueSum_perm hperm]
        simp only [queueSum, List.map_cons, List.sum_cons]
        omega
      · rw [if_neg hc]
        have hc : top.count = total top.pair s.words counts := Decidable.not_not.1 hc
        by_cases hmin : top.count < 1 ∨ cfg.minFrequency > top.count
        · rw [if_pos hmin]
          refine .stop q (.inr fun p h => ?_)
          rcases Nat.eq_zero_or_pos (total p s.words counts) with h0 | h0
          · omega
          · have := hI.top_max hp h h0
            omega
        · rw [if_neg hmin]
          obtain ⟨x, y, h1, h2, h3⟩ := merge_inv hb hI hperm (by omega)
          simp only at h3
          obtain ⟨h3, h4, h5⟩ := h3
          rw [h3]
          obtain ⟨⟨z1, z2, g1, g2, g3⟩, _⟩ := hI.qok top htop
          refine .merge _ x y top.pair _ h5 hlen ⟨hI.eligible' hb g1 g2 g3 (by omega), fun p hp' => ?_⟩ (by omega) h1 h2
            (add_list hI.voc _) (add_get hI.voc _) h4 rfl
          rcases Nat.eq_zero_or_pos (total p s.words counts) with h0 | h0
          · exact .inl (by omega)
          · have := hI.top_max hp hp' h0
            rw [hc] at this
            exact this

/-- The loop ends without panic, and what it computes is textbook training. -/
theorem loop_spec (hb : Readable cfg.pre words0 str) : ∀ (n m : Nat) (s : St) (hist : List (Seg × Seg)),
    Inv cfg counts words0 str s hist → corpusLen s.words = n → queueSum s.queue = m →
    ∃ k s' ms hist' q, (∀ fuel, k ≤ fuel → loop cfg counts fuel s = .stop { s' with queue := q }) ∧
      Inv cfg counts words0 str s' hist' ∧ s'.merges = s.merges ++ ms ∧
      Greedy cfg counts s.voc.id2w s.words ms s'.voc.id2w s'.words := by
  intro n
  induction n using Nat.strongRecOn with
  | ind n ihn =>
    intro m
    induction m using Nat.strongRecOn with
    | ind m ihm =>
      intro s hist hI hn hm
      have hs := step_spec hb hI
      generalize ho : step cfg counts s = o at hs
      cases hs with
      | stop q h =>
        refine ⟨1, s, [], hist, q, fun fuel hf => ?_, hI, by simp, .done _ _ h⟩
        obtain ⟨fuel, rfl⟩ : ∃ f, fuel = f + 1 := ⟨fuel - 1, by omega⟩
        rw [loop, ho]
      | requeue q hI' hlt =>
        obtain ⟨k, s', ms, hist', q', h1, h2, h3, h4⟩ := ihm (queueSum q) (by omega) _ hist hI' hn rfl
        refine ⟨k + 1, s', ms, hist', q', fun fuel hf => ?_, h2, h3, h4⟩
        obtain ⟨fuel, rfl⟩ : ∃ f, fuel = f + 1 := ⟨fuel - 1, by omega⟩
        rw [loop, ho]
        exact h1 fuel (by omega)
      | merge s1 x y p r hI' hlen hbest hmin g1 g2 g3 g4 g5 g6 =>
        have hlt : corpusLen s1.words < n := by
          rw [g5, ← hn]
          refine corpusLen_lt _ _ _ ?_
          obtain ⟨i, hi, ho⟩ := total_pos (p := p) (ws := s.words) (ns := counts) (by omega)
          exact ⟨_, getD_mem_syms hi, ho⟩
        obtain ⟨k, s', ms, hist', q', h1, h2, h3, h4⟩ := ihn _ hlt _ s1 _ hI' rfl rfl
        refine ⟨k + 1, s', (p, r) :: ms, hist', q', fun fuel hf => ?_, h2, by rw [h3, g6]; simp, ?_⟩
        · obtain ⟨fuel, rfl⟩ : ∃ f, fuel = f + 1 := ⟨fuel - 1, by omega⟩
          rw [loop, ho]
          exact h1 fuel (by omega)
        · rw [g5] at h4
          exact .merge _ _ p _ _ r s1.voc.id2w ms _ _ hlen hbest hmin g1 g2 (by rw [← stripPre_eq]; exact g3)
            (by rw [← stripPre_eq]; exact g4) h4

/-- Every state of the loop is invariant. -/
theorem loop_inv (hb : Readable cfg.pre words0 str) : ∀ (fuel : Nat) (s : St) (hist : List (Seg × Seg)),
    Inv cfg counts words0 str s hist → ∀ s', loop cfg counts fuel s = .more s' → ∃ hist', Inv cfg counts words0 str s' hist'
  | 0, s, hist, hI, s', h => by cases h; exact ⟨hist, hI⟩
  | fuel + 1, s, hist, hI, s', h => by
    have hs := step_spec hb hI
    rw [loop] at h
    generalize step cfg counts s = o at hs h
    cases hs with
    | stop q _ => cases h
    | requeue q hI' _ => exact loop_inv hb fuel _ _ hI' s' h
    | merge s1 x y p r hI' => exact loop_inv hb fuel _ _ hI' s' h

theorem PairLe.antisymm {p q : Pair} (h1 : PairLe p q) (h2 : PairLe q p) : p = q := by
  unfold PairLe at *
  exact Prod.ext (by omega) (by omega)

theorem nodup_ite {a : Str} {v : List Str} (h : v.Nodup) : (if a ∈ v then v else v ++ [a]).Nodup := by
  split
  · exact h
  · rename_i ha
    rw [List.nodup_append]
    exact ⟨h, by simp, by rintro b hb c hc rfl; simp at hc; subst hc; exact ha hb⟩

/-- Textbook training has one result only. -/
theorem Greedy.unique {vocab : List Str} {words : List (List Sym)} {ms ms' : List (Pair × Nat)} {v1 v2 : List Str}
    {w1 w2 : List (List Sym)} (hn : vocab.Nodup) (h : Greedy cfg counts vocab words ms v1 w1)
    (h' : Greedy cfg counts vocab words ms' v2 w2) : ms = ms' ∧ v1 = v2 ∧ w1 = w2 := by
  induction h generalizing ms' v2 w2 with
  | done vocab words hd =>
    cases h' with
    | done => exact ⟨rfl, rfl, rfl⟩
    | merge _ _ p a b r v _ _ _ k1 k2 k3 =>
      rcases hd with hd | hd
      · omega
      · have := hd p k2.1; omega
  | merge vocab words p a b r vocab1 ms vocab' words' k1 k2 k3 k4 k5 k6 k7 k8 ih =>
    cases h' with
    | done _ _ hd =>
      rcases hd with hd | hd
      · omega
      · have := hd p k2.1; omega
    | merge _ _ p' a' b' r' vocab1' ms' _ _ g1 g2 g3 g4 g5 g6 g7 g8 =>
      have hp : p = p' := by
        rcases k2.2 p' g2.1 with h | ⟨h, h'⟩ <;> rcases g2.2 p k2.1 with g | ⟨g, g'⟩ <;> first | omega | skip
        exact h'.antisymm g'
      subst hp
      rw [k4] at g4; cases g4
      rw [k5] at g5; cases g5
      have hv : vocab1 = vocab1' := by rw [k6, g6]
      subst hv
      have hn1 : vocab1.Nodup := by rw [k6]; exact nodup_ite hn
      have hr : r = r' := by
        obtain ⟨i1, _⟩ := List.getElem?_eq_some_iff.1 k7
        exact (List.getElem?_inj i1 hn1).1 (by rw [k7, g7])
      subst hr
      obtain ⟨rfl, h2, h3⟩ := ih hn1 g8
      exact ⟨rfl, h2, h3⟩

end

end Tok.Train
