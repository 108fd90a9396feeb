import Verif.Tokenizer.Pairs
import Verif.Save.PublishedLlama3Samples
import Verif.Tokenizer.Truncated

/-!
# C110, C111: a tokenizer from a file, for every pair of texts, and with truncation
-/

namespace Tok.Save
open Json AddedVocab

/-- A file with `Sequence [Split, ByteLevel]` and two special tokens: all pairs of texts. -/
example : ∃ c, load anyEnv false buildStrict splitWorld.norm
      (bytesFile .null (writeByteLevel ⟨false, false, false⟩) false false false "x".toList none true Tokenizer.byteVocab
        Tokenizer.byteMerges ((258, bosToken) :: eosTokens)) = .ok c ∧
    ∀ s s', ∃ enc, (splitWorld.tokenizer c).encode (.raw s, some (.raw s')) false = .ok enc ∧
      (splitWorld.tokenizer c).decode false enc.ids = some (s ++ s') := by
  obtain ⟨c, b, h1, h2, h3, h4, h5, h6, h7⟩ := bytesFile_loaded splitWorld Normalizer.sample_ok (fun _ => Tokenizer.byteRe_ok)
    Tokenizer.byteRe_ok anyEnv false buildStrict_ok (jn := .null) (n := none) (jo := writeByteLevel ⟨false, false, false⟩)
    (o := some (.byteLevel ⟨false, false, false⟩)) .null (by
      simp [writeByteLevel, orNull, readProc, readProcField, procUntagged, readRoberta, readBertProc, req,
        Json.get, asStr, readByteLevel, tagged, asBool, dflt])
    (z := .sequence []) rfl trivial (re := "x".toList) rfl (affix := none) rfl (ignore := true) (trim := false) (trim' := false)
    (aps := false) byteVocab_ok byteVocab_alphabet (merges := Tokenizer.byteMerges)
    ⟨by decide +kernel, by decide +kernel, by decide +kernel⟩ (by unfold LinesOk; decide +kernel)
    (tokens := (258, bosToken) :: eosTokens) (by decide) (by decide +kernel) (by decide +kernel)
  refine ⟨c, h1, fun s s' => ?_⟩
  refine Tokenizer.C110_lossless h5 (fun s => by simp [Normalizer.text, Normalizer.textAll]) h7 (.inr (by decide +kernel))
    (fun f hf s => ?_) (fun x hx => .inl (by revert x; decide +kernel)) (.inl ⟨by rw [h6], by rw [h6], .inl (.inr ⟨_, _, by rw [h6]; rfl⟩)⟩)
    (by rw [h6]; exact .byteLevel) s s'
  simp [normsOf, World.norm] at hf

/-- The same with truncation: all texts. -/
example : ∃ c, load anyEnv false buildStrict splitWorld.norm
      (bytesFile .null (writeByteLevel ⟨false, false, false⟩) false false false "x".toList none true Tokenizer.byteVocab
        Tokenizer.byteMerges ((258, bosToken) :: eosTokens)) = .ok c ∧
    ∀ n s, 0 < n → ∃ enc d, ((splitWorld.tokenizer c).truncating ⟨n, .longestFirst, 0, .right⟩).encode (.raw s, none) false = .ok enc ∧
      ((splitWorld.tokenizer c).truncating ⟨n, .longestFirst, 0, .right⟩).decode false enc.ids = some d ∧
      ∃ k, k ≤ s.length ∧ (d = s.take k ∨ k < s.length ∧ d = s.take k ++ ['�']) := by
  obtain ⟨c, b, h1, h2, h3, h4, h5, h6, h7⟩ := bytesFile_loaded splitWorld Normalizer.sample_ok (fun _ => Tokenizer.byteRe_ok)
    Tokenizer.byteRe_ok anyEnv false buildStrict_ok (jn := .null) (n := none) (jo := writeByteLevel ⟨false, false, false⟩)
    (o := some (.byteLevel ⟨false, false, false⟩)) .null (by
      simp [writeByteLevel, orNull, readProc, readProcField, procUntagged, readRoberta, readBertProc, req,
        Json.get, asStr, readByteLevel, tagged, asBool, dflt])
    (z := .sequence []) rfl trivial (re := "x".toList) rfl (affix := none) rfl (ignore := true) (trim := false) (trim' := false)
    (aps := false) byteVocab_ok byteVocab_alphabet (merges := Tokenizer.byteMerges)
    ⟨by decide +kernel, by decide +kernel, by decide +kernel⟩ (by unfold LinesOk; decide +kernel)
    (tokens := (258, bosToken) :: eosTokens) (by decide) (by decide +kernel) (by decide +kernel)
  refine ⟨c, h1, fun n s hn => ?_⟩
  obtain ⟨e, d, e1, e2, e3, -⟩ := Tokenizer.C111_lossless h5 (fun s => by simp [Normalizer.text, Normalizer.textAll]) h7
    (.inr (by decide +kernel)) (fun f hf s => by simp [normsOf, World.norm] at hf) (fun x hx => .inl (by revert x; decide +kernel))
    (.inl ⟨by rw [h6], by rw [h6], .inl (.inr ⟨_, _, by rw [h6]; rfl⟩)⟩)
    (fun p hp => by rw [h6] at hp; cases hp; exact .keeps (.byteLevel _ _)) ⟨n, .longestFirst, 0, .right⟩ (by simp) hn s
  exact ⟨e, d, e1, e2, e3 rfl⟩

end Tok.Save
