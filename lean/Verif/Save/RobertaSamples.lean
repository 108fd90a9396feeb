import Verif.Save.PublishedRoberta
import Verif.Save.PublishedSamples

/-!
# C120: examples, and what happens at a token that strips spaces
-/

namespace Tok.Save
open Json AddedVocab

/-- The 256 characters of the bytes, two merged tokens, the special tokens of RoBERTa. -/
def robertaVocab : List (Str × Nat) :=
  Tokenizer.byteVocab ++ [("<s>".toList, 258), ("</s>".toList, 259), ("<mask>".toList, 260)]

/-- `<mask>` takes the spaces before it. -/
def robertaTokens : List (Nat × AddedToken) :=
  [(258, { content := "<s>".toList, normalized := true, special := true }),
    (259, { content := "</s>".toList, normalized := true, special := true }),
    (260, { content := "<mask>".toList, lstrip := true, normalized := false, special := true })]

theorem robertaVocab_ok : VocabOk robertaVocab where
  tokens := distinct_chars (by decide +kernel)
  ids := by decide +kernel
  below := by decide +kernel
  small := by decide +kernel

theorem robertaVocab_bytes (x : UInt8) : [ByteLevel.byteChar x] ∈ robertaVocab.map (·.1) := by
  obtain ⟨c, hc⟩ := Option.isSome_iff_exists.1 (ByteLevel.C29_defined x)
  have hb : ByteLevel.byteChar x = Char.ofNat c := by unfold ByteLevel.byteChar; rw [hc]; rfl
  rw [hb]
  exact List.mem_map.2 ⟨([Char.ofNat c], x.toNat), List.mem_append_left _ (List.mem_append_left _
    (List.mem_map.2 ⟨(x.toNat, c), AMap.mem_of_get_eq_some hc, rfl⟩)), rfl⟩

/-- The hypotheses of `C120_roberta` hold for this file. -/
theorem robertaFile_sample :
    ∃ c, load fileEnv false buildStrict fileWorld.norm (robertaFile 258 259 robertaVocab Tokenizer.byteMerges robertaTokens) = .ok c ∧
      ∀ a b, FreeOf robertaTokens a → FreeOf robertaTokens b →
        ∃ enc, (fileWorld.tokenizer c).encode (.raw a, some (.raw b)) true = .ok enc ∧
          (fileWorld.tokenizer c).decode true enc.ids = some (a ++ b) ∧
          (fileWorld.tokenizer c).decode false enc.ids =
            some ("<s>".toList ++ a ++ "</s>".toList ++ "</s>".toList ++ b ++ "</s>".toList) := by
  obtain ⟨c, h, ids, hc⟩ := C120_roberta fileWorld Tokenizer.byteRe_ok fileEnv false buildStrict_ok (cls := 258) (sep := 259)
    robertaVocab_ok robertaVocab_bytes (by decide +kernel) (by decide +kernel)
    (merges := Tokenizer.byteMerges) ⟨by decide +kernel, by decide +kernel, by decide +kernel⟩ (by unfold LinesOk; decide +kernel)
    (tokens := robertaTokens) (by decide) (by
      intro x hx
      refine .inl ?_
      revert x
      decide) (by
      intro m hm
      simp only [List.mem_cons, List.not_mem_nil, or_false] at hm
      rcases hm with rfl | rfl
      · exact ⟨⟨_, List.mem_cons_self, rfl⟩, by decide⟩
      · exact ⟨⟨_, List.mem_cons_of_mem _ List.mem_cons_self, rfl⟩, by decide⟩)
  refine ⟨c, h, fun a b ha hb => ?_⟩
  obtain ⟨enc, h1, _, h3, h4⟩ := (hc a ha).2.2 b hb
  exact ⟨enc, h1, h3, h4⟩

/-- Two texts without a token of the file. -/
example : FreeOf robertaTokens "he  a s".toList ∧ FreeOf robertaTokens "é <mas k>".toList := by
  constructor <;> unfold FreeOf <;> decide +kernel

/-- What is encoded, and what is decoded from that. -/
def robertaTrip (a : Str) (b : Option Str) (skip : Bool) : Option (List Nat × Option Str) :=
  (match load fileEnv false buildStrict fileWorld.norm (robertaFile 258 259 robertaVocab Tokenizer.byteMerges robertaTokens) with
    | .ok c => some c
    | _ => none).bind fun c => ((fileWorld.tokenizer c).encode (.raw a, b.map .raw) true).toOption.map
      fun (e : Encoding) => (e.ids, (fileWorld.tokenizer c).decode skip e.ids)

example : robertaTrip "he".toList (some " a".toList) false =
    some ([258, 257, 259, 259, 256, 259], some "<s>he</s></s> a</s>".toList) := by decide +kernel

/-- **C120 fails for texts with such a token**: the space before `<mask>` is lost, even if special tokens are kept. -/
theorem C120_mask : robertaTrip "he <mask>".toList none false = some ([258, 257, 260, 259], some "<s>he<mask></s>".toList) := by
  decide +kernel

end Tok.Save
