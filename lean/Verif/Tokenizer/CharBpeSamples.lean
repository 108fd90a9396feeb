import Verif.Tokenizer.CharBpe
import Verif.Tokenizer.TrainedMetaBpe
import Verif.Tokenizer.TrainedMetaSamples

/-!
# BPE with an end-of-word suffix: examples, and where words are not given back (C93)
-/

namespace Tok
open AddedVocab PreTokenizer
namespace Tokenizer

/-- A tokenizer like `CharBPETokenizer` before training. -/
def charBlank (y : PreTokenizer) : Tokenizer :=
  { metaBlank with
    preTok := fun p => mapErr (fun _ => .preTok 0) (y.apply asciiTables p)
    decoder := some (.bpe "</w>".toList) }

theorem charBlank_recipe : CharRecipe (charBlank .bert) Normalizer.sample .lowercase asciiTables .bert ("</w".toList ++ ['>']) where
  pipeline :=
    { normalizer := rfl
      preTok := rfl
      unicode := Normalizer.sample_ok
      safe := trivial
      sound := trivial
      anywhere := trivial
      tries := by intro p hp; simp [charBlank, metaBlank, empty] at hp
      bare := ⟨rfl, fun i t h => by simp [charBlank, metaBlank, empty, AMap.get] at h⟩ }
  decoder := rfl
  added := rfl

/-- The options `CharBPETokenizer.train` gives to the trainer. -/
def charCfg : Train.BpeCfg :=
  { vocabSize := 30000, minFrequency := 2, limitAlphabet := some 1000, suf := some ("</w".toList ++ ['>']) }

def charSpecials : List AddedToken := [{ content := "<unk>".toList, normalized := false, special := true }]

def charTree : Train.Tree := .node (.leaf "Hug, hug".toList) (.leaf "Pugh!".toList)

/-- The model before training. -/
def suffixModel : Bpe.Bpe := { vocab := [], vocabR := [], merges := [], unk := some "<unk>".toList, suf := some "</w>".toList }

theorem char_words : charTree.leaves.flatMap (wordsOf Normalizer.sample .lowercase asciiTables .bert) =
    ["hug", ",", "hug", "pugh", "!"].map String.toList := by decide +kernel

/-- Trained on `Hug, hug` and `Pugh!`: a text not seen, of characters that were, and that end as some word did. -/
example : ∃ k t', (∀ fuel, k ≤ fuel → (charBlank .bert).train Save.buildStrict none charTree
      (bpeTrainer charCfg id fuel charSpecials suffixModel fun _ _ => false) = (t', .ok ())) ∧
    ∃ e, t'.encode (.raw "UHG PUG!".toList, none) false = .ok e ∧ t'.decode false e.ids = some "uhg pug !".toList := by
  obtain ⟨k, t', h1, -, h2⟩ := C93_trained charBlank_recipe (by decide) Save.buildStrict_ok (norm := none) (tree := charTree)
    (cfg := charCfg) Train.id_order rfl rfl (specials := charSpecials) (by
      intro a ha
      rw [List.mem_singleton.1 ha]
      exact ⟨rfl, rfl, rfl, rfl, by decide⟩) char_words.symm (by
      intro n hn
      obtain rfl : (1000 : Nat) = n := Option.some.inj hn
      exact ⟨"hug,p!".toList, by decide, by simp [charCfg], by decide +kernel⟩) (by decide +kernel) suffixModel (.inr rfl)
    (fun _ _ => false)
  refine ⟨k, t', h1, ?_⟩
  have hw : wordsOf Normalizer.sample .lowercase asciiTables .bert "UHG PUG!".toList = ["uhg", "pug", "!"].map String.toList := by
    decide +kernel
  have hz : Normalizer.text Normalizer.sample .lowercase "UHG PUG!".toList = "uhg pug!".toList := by decide +kernel
  have := h2 ⟨rfl, rfl, .inl (.inl rfl)⟩ "UHG PUG!".toList (by rw [hw]; decide) (by
    rw [hw]
    intro w hw
    simp only [List.map_cons, List.map_nil, List.mem_cons, List.not_mem_nil, or_false] at hw
    rcases hw with rfl | rfl | rfl
    · exact ⟨by decide +kernel, 'g', by decide +kernel, "hug".toList, by decide +kernel, by decide +kernel⟩
    · exact ⟨by decide +kernel, 'g', by decide +kernel, "hug".toList, by decide +kernel, by decide +kernel⟩
    · exact ⟨by decide +kernel, '!', by decide +kernel, "!".toList, by decide +kernel, by decide +kernel⟩) (by
    rw [hw, hz]
    intro a ha
    rw [List.mem_singleton.1 ha]
    decide +kernel) false false (by simp)
  rw [hw] at this
  exact this

/-- The options `SentencePieceBPETokenizer.train` gives to the trainer. -/
def spBpeCfg : Train.BpeCfg := { vocabSize := 30000, minFrequency := 2, limitAlphabet := some 1000 }

def spModel : Bpe.Bpe := { vocab := [], vocabR := [], merges := [], unk := some "<unk>".toList }

/-- C94 on `Ab aB` and `cab`: a text not seen, of characters that were. -/
example : ∃ k t', (∀ fuel, k ≤ fuel → metaBlank.train Save.buildStrict none (.node (.leaf "Ab aB".toList) (.leaf "cab".toList))
      (bpeTrainer spBpeCfg id fuel charSpecials spModel fun _ _ => false) = (t', .ok ())) ∧
    ∃ e, t'.encode (.raw "BAB  c".toList, none) false = .ok e ∧ t'.decode false e.ids = some "bab  c".toList := by
  obtain ⟨k, t', h1, -, h2⟩ := C94_trained metaBlank_recipe Save.buildStrict_ok (norm := none)
    (tree := .node (.leaf "Ab aB".toList) (.leaf "cab".toList)) (cfg := spBpeCfg) Train.id_order rfl rfl (specials := charSpecials)
    (by
      intro a ha
      rw [List.mem_singleton.1 ha]
      exact ⟨rfl, rfl, rfl, rfl, by decide⟩) (by
      intro n hn
      obtain rfl : (1000 : Nat) = n := Option.some.inj hn
      exact ⟨"abc▁".toList, by decide, by simp [spBpeCfg], by decide +kernel⟩) spModel (fun _ _ => false)
  refine ⟨k, t', h1, ?_⟩
  have := h2 ⟨rfl, rfl, .inl (.inl rfl)⟩ "BAB  c".toList (by decide) (by decide +kernel) (by
    intro a ha
    rw [List.mem_singleton.1 ha]
    decide +kernel) false false (by simp)
  rwa [show Metaspace.restored .always (Metaspace.unsub '▁' (Normalizer.text Normalizer.sample .lowercase "BAB  c".toList)) =
    "bab  c".toList by decide +kernel] at this

/-- The text of a decoded encoding. -/
def andBack (t : Tokenizer) (skip : Bool) (s : Str) : Option Str :=
  (t.encode (.raw s, none) false).toOption.bind fun e => t.decode skip e.ids

def abTrained (y : PreTokenizer) (s : String) : Tokenizer :=
  ((charBlank y).train Save.buildStrict none (.leaf s.toList) (bpeTrainer charCfg id 50 charSpecials suffixModel fun _ _ => false)).1

/-- **C93, violated.** If a character was seen, but never at the end of a word, the end of a word that it ends is lost, and with it
the space after the word: trained on `ab c`, the text `ba c` comes back as `b<unk>c`, or `bc` without special tokens. -/
theorem C93_end_lost : andBack (abTrained .bert "ab c") false "ba c".toList = some "b<unk>c".toList ∧
    andBack (abTrained .bert "ab c") true "ba c".toList = some "bc".toList := by
  decide +kernel

/-- **C93, violated.** A suffix written in the text is taken for the end of a word: trained on `</w>b </w>b`, the same text comes
back without it. -/
theorem C93_suffix_in_text : andBack (abTrained .whitespaceSplit "</w>b </w>b") false "</w>b </w>b".toList =
    some " b b".toList := by
  decide +kernel

end Tokenizer
end Tok
