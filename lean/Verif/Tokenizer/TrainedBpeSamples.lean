import Verif.Tokenizer.TrainedBpe
import Verif.Save.Gpt2Samples

/-!
# C63, C78: examples
-/

namespace Tok
namespace Tokenizer

open AddedVocab ByteLevel

/-- The options of a trainer with `ByteLevel::alphabet()`, and a limit that leaves room for it. -/
def byteCfg (size : Nat) : Train.BpeCfg :=
  { vocabSize := size, minFrequency := 2, limitAlphabet := some 1000,
    initialAlphabet := bytesChar.map fun p => Char.ofNat p.2 }

theorem byteCfg_alphabet (size : Nat) (c : Char) : c ∈ (byteCfg size).initialAlphabet ↔ ∃ p ∈ bytesChar, Char.ofNat p.2 = c := by
  unfold byteCfg
  dsimp only
  generalize bytesChar = l
  exact List.mem_map

theorem byteCfg_length (size : Nat) : (byteCfg size).initialAlphabet.length = 256 := by
  have : bytesChar.length = 256 := by decide +kernel
  rw [← this]
  unfold byteCfg
  dsimp only
  generalize bytesChar = l
  exact List.length_map _

theorem byteCfg_ok (size : Nat) : ByteOptions (byteCfg size) := by
  refine ⟨rfl, rfl, fun x => ?_, .inr ⟨1000, rfl, by decide, ?_⟩⟩
  · obtain ⟨c, hc⟩ := Option.isSome_iff_exists.1 (C29_defined x)
    have hb : byteChar x = Char.ofNat c := by unfold byteChar; rw [hc]; rfl
    exact (byteCfg_alphabet size _).2 ⟨(x.toNat, c), AMap.mem_of_get_eq_some hc, hb.symm⟩
  · have h : ∀ p ∈ bytesChar, p.1 < 256 ∧ bytesChar.get p.1 = some p.2 := by decide +kernel
    intro c hc
    obtain ⟨p, hp, e⟩ := (byteCfg_alphabet size c).1 hc
    obtain ⟨h1, h2⟩ := h p hp
    exact ⟨UInt8.ofNat p.1, by rw [← e, byteChar, UInt8.toNat_ofNat_of_lt' h1, h2]; rfl⟩

def endToken : AddedToken := .ofStr "<|end|>".toList true

theorem sample_recipe : ByteRecipe (byteSample []) byteRe true :=
  ⟨rfl, fun _ => rfl, rfl, rfl, rfl, rfl, .inr ⟨_, _, rfl⟩⟩

/-- Whatever the texts are. -/
example (size : Nat) (tree : Train.Tree) : ∃ k t', (∀ fuel, k ≤ fuel → (byteSample []).train Save.buildStrict none tree
      (bpeTrainer (byteCfg size) id fuel [endToken] byteBpe (fun _ _ => false)) = (t', .ok ())) ∧ KeepsTexts t' ∧
    ∀ x ∈ [endToken], ∃ i, t'.vocab.get x.content = some i := by
  refine C78_trained sample_recipe byteRe_ok Save.buildStrict_ok (byteCfg_ok size) Train.id_order ?_ ?_ byteBpe _ tree
  · decide
  · intro x hx
    refine .inl ?_
    revert x
    decide +kernel

/-- What is trained on `he a` and `he` without the 256 characters: the special token, `a`, `e`, `h`, `Ġ`, and `he`, which is
there twice. -/
example : (((byteSample []).train Save.buildStrict none (.node (.leaf "he a".toList) (.leaf "he".toList))
      (bpeTrainer { byteCfg 260 with initialAlphabet := [] } id 10 [endToken] byteBpe (fun _ _ => false))).1.encode
        (.raw "he<|end|> a".toList, none) true).toOption.map
      (fun e => (e.ids, e.tokens.map String.ofList)) = some ([5, 0, 4, 1], ["he", "<|end|>", "Ġ", "a"]) := by
  decide +kernel

/-- Without the 256 characters in the alphabet from the start (the default of the trainer) a text may be lost: here the trained
tokenizer makes no token at all of `b`. -/
theorem C78_needs_alphabet : (((byteSample []).train Save.buildStrict none (.leaf "a".toList)
      (bpeTrainer { vocabSize := 260 } id 10 [] byteBpe (fun _ _ => false))).1.encode
        (.raw "b".toList, none) true).toOption.map (·.ids) = some [] := by
  decide +kernel

theorem unlimited_ok {cfg : Train.BpeCfg} (h : ByteOptions cfg) : ByteOptions { cfg with limitAlphabet := none } :=
  ⟨h.pre, h.suf, h.alphabet, .inl rfl⟩

/-- The pieces of the training texts get the segmentations that training ended with. -/
example (size : Nat) (tree : Train.Tree) (hno : ∀ s ∈ tree.leaves, ¬ "<|end|>".toList <:+: s) : ∃ t' : Tokenizer, ∀ s ∈ tree.leaves,
    ∃ e, t'.encodeText none 0 .byte none s = .ok e := by
  obtain ⟨k, t', h, -⟩ := C78_trained sample_recipe byteRe_ok Save.buildStrict_ok (cfg := { byteCfg size with limitAlphabet := none })
    (unlimited_ok (byteCfg_ok size)) Train.id_order (specials := [{ endToken with normalized := false }])
    (by decide) (by
      intro x hx
      refine .inl ?_
      revert x
      decide +kernel) byteBpe (fun _ _ => false) tree
  obtain ⟨wc, st, -, -, -, g⟩ := C63_bpe (h k (Nat.le_refl _)) rfl Train.id_order (fun _ _ => .of_none rfl _)
    (fun wc _ => ⟨by simp [byteCfg], by simp [byteCfg]⟩) rfl rfl (by decide) (by
      intro x hx s hs
      rw [List.mem_singleton.1 hx]
      exact hno s hs)
  refine ⟨t', fun s hs => ?_⟩
  obtain ⟨p, e, toks, -, h2, -⟩ := g s hs 0 .byte none
  exact ⟨e, h2⟩

end Tokenizer

namespace Save
open AddedVocab Tokenizer

/-- Whatever the texts are, with the regular expression of `ByteLevel`. -/
example (size : Nat) (hs : size ≤ 4294967296) (tree : Train.Tree) : ∃ k c j c',
    (∀ fuel, k ≤ fuel → (gpt2World.tokenizer (gpt2Conf empty byteBpe)).train buildStrict none tree
        (bpeTrainer (byteCfg size) id fuel [endToken] byteBpe gpt2World.coins) = (gpt2World.tokenizer c, .ok ())) ∧
      save c = some j ∧ load fileEnv false buildStrict gpt2World.norm j = .ok c' ∧
      Alike (gpt2World.tokenizer c) (gpt2World.tokenizer c') ∧ KeepsTexts (gpt2World.tokenizer c') := by
  refine C78_saved gpt2World (Re.C71_engine _) fileEnv false buildStrict_ok (byteCfg_ok size) Train.id_order hs ?_ ?_ ?_
    (List.pairwise_singleton _ _) rfl tree
  · rw [byteCfg_length]; decide
  · decide
  · intro x hx
    refine .inl ?_
    revert x
    decide +kernel

end Save
end Tok
