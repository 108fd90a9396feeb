import Verif.Train.BpeStats
import Verif.Train.BpeSeg

/-!
# What one merge does to the statistics of the whole corpus
-/

namespace Tok.Train

theorem getD_map_syms (f : List Sym → List Sym) (h0 : f [] = []) (words : List (List Sym)) (i : Nat) :
    (words.map f).getD i [] = f (words.getD i []) := by
  simp only [List.getD_eq_getElem?_getD, List.getElem?_map]
  cases words[i]? with
  | none => simp [h0]
  | some w => simp

/-- If the positions are complete, all words are merged. -/
theorem mergeAt_eq {c1 c2 r : Nat} {maxLen : Option Nat} {words : List (List Sym)} {pos : List Nat}
    (hpos : ∀ i, 0 < occ (c1, c2) (words.getD i []) → i ∈ pos) :
    mergeAt c1 c2 r maxLen words pos = words.map (mergeSyms (c1, c2) r) := by
  unfold mergeAt
  have : ∀ p ∈ words.zipIdx, (if p.2 ∈ pos then (mergeWord c1 c2 r maxLen none p.1).1 else p.1) =
      mergeSyms (c1, c2) r p.1 := by
    rintro ⟨w, i⟩ hp
    simp only
    split
    · rw [mergeWord_syms]
    · rename_i hi
      rw [mergeSyms_of_occ_zero]
      have hw : words.getD i [] = w := by
        rw [List.mem_zipIdx_iff_getElem?] at hp
        simp [List.getD_eq_getElem?_getD, hp]
      have := mt (hpos i) hi
      rw [hw] at this
      omega
  rw [List.map_congr_left this]
  rw [show (fun p : List Sym × Nat => mergeSyms (c1, c2) r p.1) = mergeSyms (c1, c2) r ∘ Prod.fst from rfl, ← List.map_map]
  simp

theorem sum_tagged (counts : List Nat) (q : Pair) (i : Nat) : ∀ ch : List (Pair × Int),
    ((ch.map fun c => (c, i)).map fun c : (Pair × Int) × Nat =>
      (if c.1.1 = q then c.1.2 * (counts.getD c.2 0 : Nat) else 0 : Int)).sum = counts.getD i 0 * chSum q ch
  | [] => by simp [chSum]
  | c :: ch => by
    rw [List.map_cons, List.map_cons, List.sum_cons, sum_tagged counts q i ch, chSum_cons]
    simp only
    split
    · rw [Int.mul_add, Int.mul_comm c.2]
    · simp

theorem sum_changesAt (counts : List Nat) (q : Pair) (c1 c2 r : Nat) (maxLen : Option Nat) (words : List (List Sym)) :
    ∀ pos : List Nat, ((changesAt c1 c2 r maxLen words pos).map fun c : (Pair × Int) × Nat =>
      (if c.1.1 = q then c.1.2 * (counts.getD c.2 0 : Nat) else 0 : Int)).sum =
      (pos.map fun i => (counts.getD i 0 : Int) * chSum q (mergeWord c1 c2 r maxLen none (words.getD i [])).2).sum
  | [] => by simp [changesAt]
  | i :: pos => by
    have ih := sum_changesAt counts q c1 c2 r maxLen words pos
    unfold changesAt at ih ⊢
    rw [List.flatMap_cons, List.map_append, List.sum_append, sum_tagged, ih, List.map_cons, List.sum_cons]

/-- The count of a tracked pair changes by as much as its number of occurrences. -/
theorem stats_after {c1 c2 r : Nat} {maxLen : Option Nat} {words : List (List Sym)} {pos : List Nat} {counts : List Nat}
    {ok : Nat → Nat → Prop} {q : Pair} (st : Stats) (hn : pos.Nodup) (hlt : ∀ i ∈ pos, i < words.length)
    (hpos : ∀ i, 0 < occ (c1, c2) (words.getD i []) → i ∈ pos) (hq : q ≠ (c1, c2)) (ht : Tracked maxLen ok r q)
    (hok : ∀ w ∈ words, LenOk ok c1 c2 r w) :
    pcGet ((changesAt c1 c2 r maxLen words pos).foldl (applyChange counts) st).1 q =
      pcGet st.1 q + total q (words.map (mergeSyms (c1, c2) r)) counts - total q words counts := by
  have law : ∀ i, i < words.length → (occ q (mergeSyms (c1, c2) r (words.getD i [])) : Int) =
      occ q (words.getD i []) + chSum q (mergeWord c1 c2 r maxLen none (words.getD i [])).2 := by
    intro i hi
    have hm : words.getD i [] ∈ words := by
      rw [List.getD_eq_getElem?_getD, List.getElem?_eq_getElem hi]; exact List.getElem_mem hi
    simpa using merge_law hq ht none (words.getD i []) (by simp) (hok _ hm)
  rw [changes_pcGet, sum_changesAt, sum_over hn hlt, total_eq, total_eq, List.length_map]
  have : sumN (fun i => (counts.getD i 0 : Int) * (occ q ((words.map (mergeSyms (c1, c2) r)).getD i []) : Nat)) words.length =
      sumN (fun i => (counts.getD i 0 : Int) * (occ q (words.getD i []) : Nat)) words.length +
      sumN (fun i => if i ∈ pos then (counts.getD i 0 : Int) *
        chSum q (mergeWord c1 c2 r maxLen none (words.getD i [])).2 else 0) words.length := by
    rw [← sumN_add]
    refine sumN_congr fun i hi => ?_
    rw [getD_map_syms _ rfl, law i hi, Int.mul_add]
    by_cases hp : i ∈ pos
    · rw [if_pos hp]
    · rw [if_neg hp]
      have h0 : occ (c1, c2) (words.getD i []) = 0 := by have := mt (hpos i) hp; omega
      have hl := law i hi
      rw [mergeSyms_of_occ_zero _ _ _ h0] at hl
      have : chSum q (mergeWord c1 c2 r maxLen none (words.getD i [])).2 = 0 := by omega
      rw [this]
      simp
  rw [this]
  omega

theorem chSum_pos {q : Pair} : ∀ {ch : List (Pair × Int)}, 0 < chSum q ch → ∃ c ∈ ch, c.1 = q ∧ 0 < c.2
  | [], h => by simp [chSum] at h
  | c :: ch, h => by
    rw [chSum_cons] at h
    by_cases hc : c.1 = q ∧ 0 < c.2
    · exact ⟨c, by simp, hc⟩
    · have : 0 < chSum q ch := by
        by_cases h1 : c.1 = q
        · rw [if_pos h1] at h
          have : ¬ 0 < c.2 := fun h2 => hc ⟨h1, h2⟩
          omega
        · rw [if_neg h1] at h; omega
      obtain ⟨d, hd, h'⟩ := chSum_pos this
      exact ⟨d, by simp [hd], h'⟩

end Tok.Train
