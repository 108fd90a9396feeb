import Verif.Save.FileRoundTrip
import Verif.Unigram.C68Model

/-!
# C65, C66: `alpha` and `nbest_size` of a Unigram model are not saved

A model with `alpha` draws a segmentation every time it encodes (C68). The file has neither `alpha` nor `nbest_size`, so what is loaded
draws nothing: it always gives the best segmentation.
-/

namespace Tok.Save
open Json Unigram

/-- `Unigram` with its public fields `alpha` and `nbest_size` (`models/unigram/model.rs:19-35`); the constructor and the setters of
Python write them (`bindings/python/src/models.rs:936-992`). A real number stands for the `f64`. -/
structure Sampled where
  model : Unigram
  alpha : Option ℝ
  nbest : Option Nat

/-- `Unigram::encode` (`model.rs:231-253`). -/
noncomputable def Sampled.encode (m : Sampled) (H : Heap) (fuel : Nat) (s : Str) : Option (Unigram.Dist (Outcome UniErr (List Str))) :=
  m.model.encodeWith H fuel m.nbest m.alpha s

/-- `Serialize for Unigram` (`models/unigram/serialization.rs:8-23`). -/
def Sampled.write (m : Sampled) : Option Json := writeModel (.unigram m.model)

/-- `Deserialize for Unigram` (`serialization.rs:25-77`): `Unigram::from` leaves both fields empty (`model.rs:136-151`). -/
def readSampled (j : Json) : Option Sampled :=
  match readModel j with
  | .ok (.unigram u) => some ⟨u, none, none⟩
  | _ => none

/-- **C65, C66 (finding).** A Unigram model that was saved is loaded, with the same pieces, but `alpha` and `nbest_size` are gone: it
is the same model only if neither was set. Whatever they were, the loaded model gives one segmentation with certainty. -/
theorem C65_sampling_lost {m : Sampled} {vocab : List (Str × Rat)} {unk : Option Nat} {bf : Bool}
    (h : Unigram.from vocab unk bf = .ok m.model) (hk : ∀ i, m.model.unkId = some i → i < 18446744073709551616) :
    ∃ j m', m.write = some j ∧ readSampled j = some m' ∧ m'.model = m.model ∧
      (m' = m ↔ m.alpha = none ∧ m.nbest = none) ∧
      ∀ H fuel s, m'.encode H fuel s = some [(m.model.encode s, 1)] := by
  obtain ⟨j, m', h1, h2, h3, _⟩ := C65_model (m := .unigram m.model) (.unigram h hk)
  cases h3
  refine ⟨j, ⟨m.model, none, none⟩, h1, by rw [readSampled, h2], rfl, ?_, fun H fuel s => C68_off h _ (.inl rfl) H fuel s⟩
  obtain ⟨u, a, n⟩ := m
  constructor
  · intro e; cases e; exact ⟨rfl, rfl⟩
  · rintro ⟨e1, e2⟩
    simp only at e1 e2
    rw [e1, e2]

/-- **C65, C66 (finding).** So a model that gave two different segmentations of a text, each with positive probability, gives only
one of them after saving and loading. -/
theorem C65_sampling_differs {m : Sampled} {vocab : List (Str × Rat)} {k : Nat} {bf : Bool}
    (h : Unigram.from vocab (some k) bf = .ok m.model) (hk : k < 18446744073709551616) {θ : ℝ} (hθ : θ ≠ 0)
    (ha : m.alpha = some θ) (hn : m.nbest = none) {low : Rat} (hm : IsMinScore vocab low) {s : Str} (hne : s ≠ [])
    {xs ys : List Piece} (hx : Seg vocab (some k) low s xs) (hy : Seg vocab (some k) low s ys)
    (hd : shown (some k) xs ≠ shown (some k) ys) (H : Heap) (fuel : Nat) :
    (∃ ds p q, m.encode H fuel s = some ds ∧ (.ok (shown (some k) xs), p) ∈ ds ∧ (.ok (shown (some k) ys), q) ∈ ds ∧
      0 < p ∧ 0 < q) ∧
    ∃ j m' out, m.write = some j ∧ readSampled j = some m' ∧ m'.encode H fuel s = some [(out, 1)] ∧
      (out ≠ .ok (shown (some k) xs) ∨ out ≠ .ok (shown (some k) ys)) := by
  constructor
  · obtain ⟨segs, hs⟩ := allSegs_exists (made_of_from h) hm s
    obtain ⟨p, ds, h1, h2, h3, -⟩ := C68_encode h hm hne hs (nbestSize := none) (.inl rfl) hθ H fuel
    refine ⟨ds, p xs, p ys, by rw [Sampled.encode, ha, hn]; exact h1, ?_, ?_, h3 _ ((hs.mem xs).2 hx), h3 _ ((hs.mem ys).2 hy)⟩
    · exact h2.mem_iff.2 (List.mem_map.2 ⟨xs, (hs.mem xs).2 hx, rfl⟩)
    · exact h2.mem_iff.2 (List.mem_map.2 ⟨ys, (hs.mem ys).2 hy, rfl⟩)
  · obtain ⟨j, m', h1, h2, _, _, h5⟩ := C65_sampling_lost h (by
      intro i hi
      have : m.model.unkId = some k := by
        unfold Unigram.from at h
        split at h
        · cases h
        · split at h
          · cases h
          · rw [← Except.ok.inj h]
      rw [this] at hi
      cases hi
      exact hk)
    refine ⟨j, m', _, h1, h2, h5 H fuel s, ?_⟩
    by_cases e : m.model.encode s = .ok (shown (some k) xs)
    · refine .inr fun e' => hd ?_
      rw [e] at e'
      exact Outcome.ok.inj e'
    · exact .inl e

/-- The text `ab` is one piece or two. -/
example (H : Heap) (fuel : Nat) : ∃ m : Sampled, m.alpha = some 1 ∧
    (∃ ds p q, m.encode H fuel "ab".toList = some ds ∧ (.ok ["ab".toList], p) ∈ ds ∧ (.ok ["a".toList, "b".toList], q) ∈ ds ∧
      0 < p ∧ 0 < q) ∧
    ∃ j m' out, m.write = some j ∧ readSampled j = some m' ∧ m'.encode H fuel "ab".toList = some [(out, 1)] ∧
      (out ≠ .ok ["ab".toList] ∨ out ≠ .ok ["a".toList, "b".toList]) := by
  obtain ⟨u, hu⟩ : ∃ u, Unigram.from sampleVocab (some 0) false = .ok u := ⟨_, rfl⟩
  have hlast : ∀ (t : Str) (i : Nat) (sc : Rat), i < 6 → sampleVocab[i]? = some (t, sc) →
      ((sampleVocab.drop (i + 1)).all fun p => p.1 != t) = true → LastIn sampleVocab t i sc := by
    intro t i sc _ h1 h2
    refine ⟨h1, fun j sc' hj e => ?_⟩
    have hmem : (t, sc') ∈ sampleVocab.drop (i + 1) := by
      apply List.mem_of_getElem? (i := j - (i + 1))
      rw [List.getElem?_drop, ← e]
      congr 1
      omega
    have := List.all_eq_true.1 h2 _ hmem
    simp at this
  refine ⟨⟨u, some 1, none⟩, rfl, ?_⟩
  refine C65_sampling_differs (m := ⟨u, some 1, none⟩) hu (by decide) one_ne_zero rfl rfl
    (minOf_isMin (vocab := sampleVocab) (by decide)) (by decide)
    (xs := [⟨"ab".toList, some 5, -2⟩]) (ys := [⟨"a".toList, some 1, -1⟩, ⟨"b".toList, some 2, -2⟩]) ⟨by decide, ?_⟩ ⟨by decide, ?_⟩
    (by decide) H fuel
  · intro x hx
    rw [List.mem_singleton] at hx
    subst hx
    exact .inl ⟨by decide, 5, rfl, hlast _ _ _ (by decide) rfl (by decide)⟩
  · intro x hx
    simp only [List.mem_cons, List.not_mem_nil, or_false] at hx
    rcases hx with rfl | rfl
    · exact .inl ⟨by decide, 1, rfl, hlast _ _ _ (by decide) rfl (by decide)⟩
    · exact .inl ⟨by decide, 2, rfl, hlast _ _ _ (by decide) rfl (by decide)⟩

end Tok.Save
