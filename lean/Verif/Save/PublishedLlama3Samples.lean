import Verif.Save.PublishedLlama3
import Verif.Save.PublishedSamples

/-!
# C108: examples of the files, and what happens without `ignore_merges`
-/

namespace Tok

namespace Bpe

/-- A word of the vocabulary that no merges make: one token with `ignore_merges`, its letters without, and its letters also if
`ignore_merges` is set together with dropout, whichever merges are dropped. -/
theorem C108_letters (coins : Nat → Bool) :
    (∀ ig dr, ∃ b, build [("a".toList, 0), ("b".toList, 1), ("ab".toList, 2)] []
        { sampleCfg with ignoreMerges := ig, useDropout := dr } = .ok b ∧ b.ignoreMerges = ig ∧ b.useDropout = dr ∧
      (tokenize b coins "ab".toList = .ok [⟨2, "ab".toList, (0, 2)⟩] ↔ ig = true ∧ dr = false) ∧
      (tokenize b coins "ab".toList = .ok [⟨0, "a".toList, (0, 1)⟩, ⟨1, "b".toList, (1, 2)⟩] ↔ ¬ (ig = true ∧ dr = false))) := by
  intro ig dr
  refine ⟨_, rfl, rfl, rfl, ?_⟩
  cases ig <;> cases dr <;> constructor <;> constructor <;> intro h <;> first
    | rfl
    | (cases h; done)
    | (exact absurd h.1 (by decide))
    | (exact absurd h.2 (by decide))
    | (exact absurd ⟨rfl, rfl⟩ h)
    | (intro h'; exact absurd h'.1 (by decide))
    | (intro h'; exact absurd h'.2 (by decide))
    | exact ⟨rfl, rfl⟩

end Bpe

namespace Save
open Json AddedVocab

/-- As `fileWorld`; the regular expressions cut `he a` in two. -/
def splitWorld : World := { fileWorld with matches' := fun _ => Tokenizer.byteRe }

/-- Every pattern compiles. -/
def anyEnv : Env := ⟨fun _ => true, fun _ => false⟩

theorem byteVocab_ok : VocabOk Tokenizer.byteVocab where
  tokens := distinct_chars (by decide +kernel)
  ids := by decide +kernel
  below := by decide +kernel
  small := by decide +kernel

theorem byteVocab_alphabet (x : UInt8) : [ByteLevel.byteChar x] ∈ Tokenizer.byteVocab.map (·.1) := by
  obtain ⟨c, hc⟩ := Option.isSome_iff_exists.1 (ByteLevel.C29_defined x)
  have hb : ByteLevel.byteChar x = Char.ofNat c := by unfold ByteLevel.byteChar; rw [hc]; rfl
  rw [hb]
  exact List.mem_map.2 ⟨([Char.ofNat c], x.toNat), List.mem_append_left _
    (List.mem_map.2 ⟨(x.toNat, c), AMap.mem_of_get_eq_some hc, rfl⟩), rfl⟩

/-- The beginning of a text, and its end. -/
def bosToken : AddedToken := { content := "<|begin|>".toList, normalized := false, special := true }

def eosTokens : List (Nat × AddedToken) := [(259, { content := "<|end|>".toList, normalized := false, special := true })]

/-- The file of a tokenizer like Llama 3's: `Ġa` is in the vocabulary, no merge makes it. It is one token of `he a`. -/
example : ∃ c, load anyEnv false buildStrict splitWorld.norm
      (llama3File "x".toList "<|begin|>".toList 258 Tokenizer.byteVocab [("h".toList, "e".toList)] ((258, bosToken) :: eosTokens)) = .ok c ∧
    (∀ s, ∃ enc, (splitWorld.tokenizer c).encode (.raw s, none) false = .ok enc ∧
      (splitWorld.tokenizer c).decode false enc.ids = some s) ∧
    ∃ enc, (splitWorld.tokenizer c).encode (.raw "he a".toList, none) false = .ok enc ∧ enc.ids = [257, 256] := by
  obtain ⟨c, h1, h2, h3⟩ := C108_llama3 splitWorld Normalizer.sample_ok (fun _ => Tokenizer.byteRe_ok) Tokenizer.byteRe_ok anyEnv false
    buildStrict_ok (re := "x".toList) rfl byteVocab_ok byteVocab_alphabet (merges := [("h".toList, "e".toList)])
    ⟨by decide +kernel, by decide +kernel, by decide +kernel⟩ (by unfold LinesOk; decide +kernel) (by decide +kernel)
    (bos := bosToken) rfl (by decide) (tokens := eosTokens) (by decide) (by decide +kernel) (by decide +kernel) (by decide +kernel)
    (fun x hx => .inl (by revert x; decide +kernel)) (by decide +kernel)
  have hlen : Tokenizer.byteVocab.length = 258 := by decide +kernel
  rw [hlen] at h1
  refine ⟨c, h1, h2, ?_⟩
  obtain ⟨_, enc, tss, e1, e2, e3, e4⟩ := h3 "he a".toList (by decide) (by decide +kernel)
  refine ⟨enc, e1, ?_⟩
  have hw : PreTokenizer.solid (PreTokenizer.cut splitWorld.tables false (.sequence [.split (splitWorld.matches' (.regex "x".toList))
      .isolated false, .byteLevel ⟨false, false⟩ splitWorld.byteLevel]) "he a".toList) = ["he".toList, "Ġa".toList] := by
    decide +kernel
  rw [hw] at e3
  obtain ⟨t1, t2, rfl⟩ : ∃ t1 t2, tss = [t1, t2] := by
    have e3 := congrArg List.length e3
    rw [List.length_map] at e3
    rcases tss with _ | ⟨t1, _ | ⟨t2, _ | ⟨t3, r⟩⟩⟩
    · cases e3
    · cases e3
    · exact ⟨t1, t2, rfl⟩
    · simp at e3
  simp only [List.map_cons, List.map_nil, List.cons.injEq, and_true] at e3
  rw [e2, List.flatten_cons, List.flatten_cons, List.flatten_nil, List.append_nil, List.map_append,
    e4 t1 (by simp) 257 (by rw [e3.1]; decide +kernel), e4 t2 (by simp) 256 (by rw [e3.2]; decide +kernel)]
  rfl

/-- The file of a tokenizer like Qwen's. -/
example : ∃ c, load anyEnv false buildStrict splitWorld.norm
      (qwenFile "x".toList Tokenizer.byteVocab Tokenizer.byteMerges ((258, bosToken) :: eosTokens)) = .ok c ∧
    ∀ s, s ≠ [] → (∀ x ∈ (258, bosToken) :: eosTokens, ¬ x.2.content <:+: s ∧ ¬ x.2.content <:+: (splitWorld.uni.nfc s).map (·.1)) →
      ∀ add skip, (add = true → skip = true) → ∃ enc, (splitWorld.tokenizer c).encode (.raw s, none) add = .ok enc ∧
        (splitWorld.tokenizer c).decode skip enc.ids = some ((splitWorld.uni.nfc s).map (·.1)) :=
  C108_qwen splitWorld Normalizer.sample_ok (fun _ => Tokenizer.byteRe_ok) Tokenizer.byteRe_ok anyEnv false
    buildStrict_ok rfl byteVocab_ok byteVocab_alphabet ⟨by decide +kernel, by decide +kernel, by decide +kernel⟩
    (by unfold LinesOk; decide +kernel) (by decide) (by decide +kernel) (by decide +kernel)
    (fun x hx => .inl (by revert x; decide +kernel)) (by decide +kernel)

end Save
end Tok
