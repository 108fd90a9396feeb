import Verif.Train.BpeRead
import Verif.Bpe.Tokenize

/-!
# Applying the merges in the order of training is textbook tokenization
-/

namespace Tok.Train

open Tok.Bpe

/-- All merges, in order. -/
def applyMerges (ms : List (Pair × Nat)) (w : List Sym) : List Sym := ms.foldl (fun w m => mergeSyms m.1 m.2 w) w

/-- The order of the merges is right: a result is none of the ids used so far, and no pair is merged twice. -/
def FreshMerges (ms : List (Pair × Nat)) : Prop :=
  (ms.Pairwise fun m m' => m'.2 ≠ m.1.1 ∧ m'.2 ≠ m.1.2 ∧ m'.1 ≠ m.1) ∧ ∀ m ∈ ms, m.2 ≠ m.1.1 ∧ m.2 ≠ m.1.2

/-- The table: the rank is the position. -/
def TableOf (m : MergeFn) (ms : List (Pair × Nat)) : Prop :=
  ∀ a b i r, m a b = some (i, r) ↔ ms[i]? = some ((a, b), r)

theorem star_trans {α} {R : α → α → Prop} {a b c : α} (h : Star R a b) (h' : Star R b c) : Star R a c := by
  induction h' with
  | refl => exact h
  | tail _ h1 ih => exact .tail ih h1

theorem occ_split {p : Pair} {w u v : List Sym} {a b : Sym} (h : w = u ++ a :: b :: v) (hp : (a.1, b.1) = p) : 0 < occ p w :=
  (occ_pos_iff p w).2 ⟨u, a, b, v, h, hp⟩

/-- A pair without the new id is beside itself only where it was before. -/
theorem occ_step {p : Pair} {u v : List Sym} {a b x : Sym} (h1 : x.1 ≠ p.1) (h2 : x.1 ≠ p.2)
    (h : 0 < occ p (u ++ x :: v)) : 0 < occ p (u ++ a :: b :: v) := by
  obtain ⟨u', c, d, v', e0, hp⟩ := (occ_pos_iff _ _).1 h
  subst hp
  simp only at h1 h2
  rcases List.append_eq_append_iff.1 e0 with ⟨t, e1, e⟩ | ⟨t, e1, e⟩
  · -- in the second part
    cases t with
    | nil =>
      simp only [List.nil_append, List.cons.injEq] at e
      exact absurd (by rw [e.1]) h1
    | cons y t =>
      rw [List.cons_append, List.cons.injEq] at e
      rw [e.2]
      exact occ_split (u := u ++ a :: b :: t) (v := v') (by simp) rfl
  · rw [e1]
    cases t with
    | nil =>
      simp only [List.nil_append, List.cons.injEq] at e
      exact absurd (by rw [e.1]) h1
    | cons y t =>
      rw [List.cons_append, List.cons.injEq] at e
      obtain ⟨rfl, e⟩ := e
      cases t with
      | nil =>
        simp only [List.nil_append, List.cons.injEq] at e
        exact absurd (by rw [e.1]) h2
      | cons z t =>
        rw [List.cons_append, List.cons.injEq] at e
        obtain ⟨rfl, e⟩ := e
        exact occ_split (u := u') (v := t ++ a :: b :: v) (by simp) rfl

/-- One merge of training is a run of textbook steps. -/
theorem merge_star {m : MergeFn} {ms : List (Pair × Nat)} (ht : TableOf m ms) (hf : FreshMerges ms) {i : Nat} {p : Pair} {r : Nat}
    (hi : ms[i]? = some (p, r)) : ∀ (n : Nat) (w u : List Sym), w.length ≤ n →
    (∀ (j : Nat) mj, j < i → ms[j]? = some mj → occ mj.1 (u ++ w) = 0) →
    (∀ u' c d v, u ++ w = u' ++ c :: d :: v → (c.1, d.1) = p → u.length ≤ u'.length) →
    Star (TextbookStep m) (u ++ w) (u ++ mergeSyms p r w)
  | 0, w, u, hn, _, _ => by
    have : w = [] := List.length_eq_zero_iff.1 (by omega)
    subst this
    exact .refl _
  | n + 1, [], u, _, _, _ => .refl _
  | n + 1, [a], u, _, _, _ => .refl _
  | n + 1, a :: b :: rest, u, hn, hlow, hleft => by
    rw [mergeSyms]
    split
    · rename_i hp
      have hmem := List.mem_of_getElem? hi
      obtain ⟨hr1, hr2⟩ := hf.2 _ hmem
      simp only at hr1 hr2
      have hstep : TextbookStep m (u ++ a :: b :: rest) (u ++ (r, a.2 + b.2) :: rest) := by
        refine .mk u a b rest i r ((ht _ _ _ _).2 (by rw [hp]; exact hi)) ?_
        intro pre' c d post' r' x' e hm
        have hm := (ht _ _ _ _).1 hm
        rcases Nat.lt_trichotomy r' i with h | h | h
        · have := hlow r' _ h hm
          simp only at this
          have := occ_split e rfl
          omega
        · subst h
          rw [hi] at hm
          simp only [Option.some.injEq, Prod.mk.injEq] at hm
          exact .inr ⟨rfl, hleft _ _ _ _ e hm.1.symm⟩
        · exact .inl h
      have ih := merge_star ht hf hi n rest (u ++ [(r, a.2 + b.2)]) (by simp at hn; omega) ?_ ?_
      · rw [List.append_assoc, List.append_assoc] at ih
        exact star_trans (.tail (.refl _) hstep) ih
      · intro j mj hj hmj
        rw [List.append_assoc]
        have h0 := hlow j mj hj hmj
        rcases Nat.eq_zero_or_pos (occ mj.1 (u ++ ([(r, a.2 + b.2)] ++ rest))) with h | h
        · exact h
        · have hpw := List.pairwise_iff_getElem.1 hf.1
          obtain ⟨hjl, hje⟩ := List.getElem?_eq_some_iff.1 hmj
          obtain ⟨hil, hie⟩ := List.getElem?_eq_some_iff.1 hi
          obtain ⟨k1, k2, _⟩ := hpw j i hjl hil hj
          rw [hje, hie] at k1 k2
          have : 0 < occ mj.1 (u ++ a :: b :: rest) := occ_step (x := (r, a.2 + b.2)) k1 k2 h
          omega
      · intro u' c d v e hp'
        rw [List.append_assoc, List.singleton_append] at e
        rw [List.length_append, List.length_singleton]
        -- not before the new symbol
        rcases Nat.lt_or_ge u.length u'.length with h | h
        · omega
        · exfalso
          rcases Nat.eq_or_lt_of_le h with h | h
          · obtain ⟨_, e⟩ := List.append_inj e h.symm
            simp only [List.cons.injEq] at e
            rw [← e.1] at hp'
            rw [← hp'] at hr1
            exact hr1 rfl
          · obtain ⟨t, rfl⟩ : ∃ t, u = u' ++ c :: t := by
              rcases List.append_eq_append_iff.1 e with ⟨t, rfl, _⟩ | ⟨t, rfl, e'⟩
              · simp at h; omega
              · cases t with
                | nil => simp at h
                | cons y t =>
                  rw [List.cons_append, List.cons.injEq] at e'
                  exact ⟨t, by rw [e'.1]⟩
            rw [List.append_assoc, List.cons_append] at e
            have e := List.append_cancel_left e
            rw [List.cons.injEq] at e
            cases t with
            | nil =>
              simp only [List.nil_append, List.cons.injEq] at e
              rw [← e.2.1] at hp'
              rw [← hp'] at hr2
              exact hr2 rfl
            | cons y t =>
              rw [List.cons_append, List.cons.injEq] at e
              obtain ⟨_, rfl, _⟩ := e
              have := hleft u' c y (t ++ a :: b :: rest) (by simp) hp'
              simp at this
              omega
    · rename_i hp
      have ih := merge_star ht hf hi n (b :: rest) (u ++ [a]) (by simp at hn ⊢; omega) (by simpa using hlow) ?_
      · simpa using ih
      · intro u' c d v e hp'
        rw [List.append_assoc, List.singleton_append] at e
        have := hleft u' c d v e hp'
        rw [List.length_append, List.length_singleton]
        rcases Nat.lt_or_ge u.length u'.length with h | h
        · omega
        · have h : u.length = u'.length := by omega
          obtain ⟨_, e⟩ := List.append_inj e h
          simp only [List.cons.injEq] at e
          rw [e.1, e.2.1] at hp
          exact absurd hp' hp

/-- **C41.** For every word, and every table whose merges are in the order of training: the textbook tokenization is what
applying the merges one after the other gives. -/
theorem C41_merges_in_order {m : MergeFn} {ms : List (Pair × Nat)} (ht : TableOf m ms) (hf : FreshMerges ms) (w : List Sym) :
    Textbook m w (applyMerges ms w) := by
  have main : ∀ n, n ≤ ms.length → Star (TextbookStep m) w (applyMerges (ms.take n) w) ∧
      ∀ (j : Nat) mj, j < n → ms[j]? = some mj → occ mj.1 (applyMerges (ms.take n) w) = 0 := by
    intro n
    induction n with
    | zero => intro _; exact ⟨.refl _, by intro j _ hj; omega⟩
    | succ n ih =>
      intro hn
      obtain ⟨h1, h2⟩ := ih (by omega)
      have hlt : n < ms.length := by omega
      have hget : ms[n]? = some ((ms[n]).1, (ms[n]).2) := by rw [List.getElem?_eq_getElem hlt]
      have htake : applyMerges (ms.take (n + 1)) w = mergeSyms (ms[n]).1 (ms[n]).2 (applyMerges (ms.take n) w) := by
        rw [List.take_add_one, List.getElem?_eq_getElem hlt, applyMerges, List.foldl_append]
        rfl
      rw [htake]
      have hs := merge_star ht hf hget _ (applyMerges (ms.take n) w) [] (Nat.le_refl _) h2 (by simp)
      refine ⟨star_trans h1 hs, fun j mj hj hmj => ?_⟩
      have hfn := hf.2 _ (List.getElem_mem hlt)
      rcases Nat.lt_or_ge j n with h | h
      · obtain ⟨hjl, hje⟩ := List.getElem?_eq_some_iff.1 hmj
        obtain ⟨k1, k2, _⟩ := List.pairwise_iff_getElem.1 hf.1 j n hjl hlt h
        rw [hje] at k1 k2
        have := occ_mergeSyms_le (ms[n]).1 mj.1 (ms[n]).2 k1.symm k2.symm (applyMerges (ms.take n) w)
        have := h2 j mj h hmj
        omega
      · have : j = n := by omega
        subst this
        rw [List.getElem?_eq_getElem hlt] at hmj
        cases hmj
        exact occ_merged _ _ hfn.1.symm hfn.2.symm _
  obtain ⟨h1, h2⟩ := main ms.length (Nat.le_refl _)
  rw [List.take_length] at h1 h2
  refine ⟨h1, fun pre a b post e => ?_⟩
  cases hm : m a.1 b.1 with
  | none => rfl
  | some ir =>
    obtain ⟨i, r⟩ := ir
    have hm := (ht _ _ _ _).1 hm
    have hi := (List.getElem?_eq_some_iff.1 hm).1
    have h3 : occ (a.1, b.1) (applyMerges ms w) = 0 := h2 i _ hi hm
    have h4 := occ_split e rfl
    omega

/-- Textbook training applies its merges to every word. -/
theorem greedy_words {cfg : BpeCfg} {counts : List Nat} {vocab : List Str} {words : List (List Sym)} {ms : List (Pair × Nat)}
    {vocab' : List Str} {words' : List (List Sym)} (h : Greedy cfg counts vocab words ms vocab' words') :
    words' = words.map (applyMerges ms) := by
  induction h with
  | done => exact (List.map_id _).symm
  | merge _ _ p a b r _ ms _ _ _ _ _ _ _ _ _ _ ih =>
    rw [ih, List.map_map]
    rfl

/-- Training only adds tokens. -/
theorem greedy_mono {cfg : BpeCfg} {counts : List Nat} {vocab : List Str} {words : List (List Sym)} {ms : List (Pair × Nat)}
    {vocab' : List Str} {words' : List (List Sym)} (h : Greedy cfg counts vocab words ms vocab' words') :
    ∀ (i : Nat) t, vocab[i]? = some t → vocab'[i]? = some t := by
  induction h with
  | done => exact fun _ _ h => h
  | merge vocab _ p a b r vocab1 ms _ _ _ _ _ _ _ h6 _ _ ih =>
    intro i t h
    refine ih i t ?_
    rw [h6]
    split
    · exact h
    · rw [List.getElem?_append_left (List.getElem?_eq_some_iff.1 h).1]; exact h

/-- The ids do not depend on the lengths. -/
theorem mergeSyms_ids (p : Pair) (r : Nat) : ∀ (n : Nat) (w w' : List Sym), w.length ≤ n → w.map (·.1) = w'.map (·.1) →
    (mergeSyms p r w).map (·.1) = (mergeSyms p r w').map (·.1)
  | 0, w, w', hn, h => by
    have : w = [] := List.length_eq_zero_iff.1 (by omega)
    subst this
    have : w' = [] := by simpa using h.symm
    subst this
    rfl
  | n + 1, [], w', _, h => by
    have : w' = [] := by simpa using h.symm
    subst this
    rfl
  | n + 1, [a], w', _, h => by
    cases w' with
    | nil => simp at h
    | cons b w' =>
      cases w' with
      | nil => simpa [mergeSyms] using h
      | cons _ _ => simp at h
  | n + 1, a :: b :: rest, w', hn, h => by
    cases w' with
    | nil => simp at h
    | cons a' w' =>
      cases w' with
      | nil => simp at h
      | cons b' w' =>
        simp only [List.map_cons, List.cons.injEq] at h
        obtain ⟨h1, h2, h3⟩ := h
        rw [mergeSyms, mergeSyms, h1, h2]
        split
        · rw [List.map_cons, List.map_cons, mergeSyms_ids p r n rest w' (by simp at hn; omega) h3]
        · rw [List.map_cons, List.map_cons, mergeSyms_ids p r n (b :: rest) (b' :: w') (by simp at hn ⊢; omega) (by simp [h2, h3]), h1]

theorem applyMerges_ids (ms : List (Pair × Nat)) : ∀ (w w' : List Sym), w.map (·.1) = w'.map (·.1) →
    (applyMerges ms w).map (·.1) = (applyMerges ms w').map (·.1) := by
  induction ms with
  | nil => intro w w' h; exact h
  | cons m ms ih => intro w w' h; exact ih _ _ (mergeSyms_ids m.1 m.2 _ w w' (Nat.le_refl _) h)

end Tok.Train
