import Verif.Unigram.C24
import Verif.Unigram.Sample

/-!
# C24: a model without an unknown id and the lattice encoder

`fuse_unk` is on in every new model (`model.rs:133`), and the fusing loop asks for the unknown id at the first piece, known or not
(`model.rs:359`).
-/

namespace Tok.Unigram

theorem fuseLoop_no_unk {u : Unigram} (h : u.unkId = none) (L : Lattice) (path : List Nat) {r : List Str}
    (hr : fuseLoop u L path [] [] = .ok r) : r = [] := by
  cases path with
  | nil => cases hr; rfl
  | cons n ns =>
    rw [fuseLoop] at hr
    split at hr
    · cases hr
    · rw [h] at hr; cases hr

theorem from_none {vocab : List (Str × Rat)} {bf : Bool} {u : Unigram} (hu : Unigram.from vocab none bf = .ok u) :
    u.unkId = none ∧ u.fuseUnk = true := by
  simp [Unigram.from] at hu
  subst hu
  exact ⟨rfl, rfl⟩

/-- **C24 fails for all models without an unknown id**: the lattice encoder gives no piece for any sentence, also where the
optimized one gives pieces (`C24_no_unk_differ`). -/
theorem C24_no_unk {vocab : List (Str × Rat)} {bf : Bool} {u : Unigram} (hu : Unigram.from vocab none bf = .ok u) (s : Str)
    {r : List Str} (hr : u.encodeUnoptimized s = .ok r) : r = [] := by
  have h := from_none hu
  unfold encodeUnoptimized at hr
  split at hr
  · cases hr
  split at hr
  · cases hr
  · rw [if_pos h.2] at hr
    exact fuseLoop_no_unk h.1 _ _ hr

/-- **C68 needs the unknown id**: in all models without one, with sampling on (`alpha` not 0), `encode` gives no piece for any sentence,
whatever `nbest_size` is and whatever is drawn. -/
theorem C68_no_unk {vocab : List (Str × Rat)} {bf : Bool} {u : Unigram} (hu : Unigram.from vocab none bf = .ok u) (H : Heap)
    (fuel : Nat) (nbestSize : Option Nat) {θ : ℝ} (hθ : θ ≠ 0) (s : Str) {ds : Unigram.Dist (Outcome UniErr (List Str))}
    (hd : u.encodeWith H fuel nbestSize (some θ) s = some ds) {r : List Str} {p : ℝ} (hr : (.ok r, p) ∈ ds) : r = [] := by
  have h := from_none hu
  unfold encodeWith at hd
  split at hd
  · cases hd
    simp only [List.mem_singleton, Prod.mk.injEq, Outcome.ok.injEq] at hr
    exact hr.1
  rw [if_neg (by simp [hθ])] at hd
  obtain ⟨L, _, hd⟩ := Option.bind_eq_some_iff.1 hd
  obtain ⟨es, _, rfl⟩ := Option.map_eq_some_iff.1 hd
  obtain ⟨d, _, he⟩ := List.mem_map.1 hr
  have he := congrArg Prod.fst he
  simp only [piecesOf, h.2, if_true] at he
  exact fuseLoop_no_unk h.1 _ _ he

/-- A known sentence: pieces from one encoder, the error from the other. -/
theorem C24_no_unk_differ :
    ∃ u, Unigram.from [("a".toList, -1), ("ab".toList, -1), ("b".toList, -3)] none false = .ok u ∧
      u.encodeOptimized "aba".toList = .ok ["ab".toList, "a".toList] ∧
      u.encodeUnoptimized "aba".toList = .err .missingUnkId :=
  ⟨_, rfl, by decide +kernel, by decide +kernel⟩

end Tok.Unigram
