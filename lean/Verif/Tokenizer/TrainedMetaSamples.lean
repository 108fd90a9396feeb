import Verif.Tokenizer.TrainedMeta
import Verif.Tokenizer.TrainedBert
import Verif.Tokenizer.MetaSamples
import Verif.Save.PublishedSamples
import Verif.Train.UnigramSamples

/-!
# Trained tokenizers: examples (C84, C85)
-/

namespace Tok
open AddedVocab PreTokenizer Metaspace
namespace Tokenizer

/-- Before training. -/
def metaBlank : Tokenizer := { metaSample .lowercase .always with added := empty, settings := ⟨none, none, none⟩ }

theorem metaBlank_recipe : MetaRecipe metaBlank Normalizer.sample .lowercase asciiTables '▁' .always where
  pipeline :=
    { normalizer := rfl
      preTok := rfl
      unicode := Normalizer.sample_ok
      safe := trivial
      sound := trivial
      anywhere := by show Scheme.always ≠ .first; decide
      tries := by intro p hp; simp [metaBlank, empty] at hp
      bare := ⟨rfl, fun i t h => by simp [metaBlank, empty, AMap.get] at h⟩ }
  decoder := rfl
  mark := by decide
  added := rfl

def metaTrainCfg : Train.UniCfg :=
  { vocabSize := 10, special := ["<s>".toList], unk := some "<unk>".toList, alphabet := ['x'] }

def metaSpecials : List AddedToken := [{ content := "<s>".toList, normalized := false, special := true }]

/-- A suffix array that reports the words only. -/
def wordSuffix (wc : AMap Str Nat) : List (Str × Nat) := wc

theorem wordSuffix_ok : Substrings wordSuffix := fun _ p hp _ => ⟨p, hp, List.infix_refl _⟩

def metaTree : Train.Tree := .node (.leaf "Ab aB".toList) (.leaf "cab".toList)

def metaTrained : Tokenizer × Except EncErr Unit :=
  metaBlank.train Save.buildStrict none metaTree
    (unigramTrainer metaTrainCfg Train.sampleArith Train.dedupOrder wordSuffix 1 metaSpecials)

theorem metaTrained_ok : metaTrained = (metaTrained.1, .ok ()) := by
  have h : metaTrained.2.toOption.isSome = true := by decide +kernel
  have : metaTrained.2 = .ok () := by
    cases hx : metaTrained.2 with
    | error e => rw [hx] at h; cases h
    | ok a => rfl
  rw [← this]

theorem metaReserved {x : Str} (h : Reserved metaTrainCfg x) : x = "<s>".toList ∨ x = "<unk>".toList := by
  rcases h with h | h
  · exact .inl (List.mem_singleton.1 h)
  · exact .inr (Option.some.inj h).symm

/-- Trained on `Ab aB` and `cab`, with `x` in the alphabet: what is made of a text that was not seen, all of whose characters
were. -/
example : ∃ e, metaTrained.1.encode (.raw "BAX  c".toList, none) false = .ok e ∧
    metaTrained.1.decode false e.ids = some "bax  c".toList := by
  refine C84_trained metaBlank_recipe Save.buildStrict_ok metaTrained_ok rfl Train.setOrder_dedup wordSuffix_ok
    (by decide) (by decide) ⟨rfl, rfl, .inl (.inl rfl)⟩ ?_ (s := "BAX  c".toList) (by decide) ?_ ?_ (by simp)
  · intro x hx
    rcases metaReserved hx with rfl | rfl
    · decide +kernel
    · decide +kernel
  · decide +kernel
  · intro x hx
    rcases metaReserved hx with rfl | rfl
    · decide +kernel
    · decide +kernel

/-- A tokenizer like BERT's before training. -/
def bertBlank : Tokenizer :=
  { metaBlank with
    preTok := fun p => mapErr (fun _ => .preTok 0) (PreTokenizer.bert.apply asciiTables p)
    decoder := some (.wordPiece "##".toList true) }

theorem bertBlank_recipe : BertRecipe bertBlank Normalizer.sample .lowercase asciiTables "##".toList true where
  pipeline :=
    { normalizer := rfl
      preTok := rfl
      unicode := Normalizer.sample_ok
      safe := trivial
      sound := trivial
      anywhere := trivial
      tries := by intro p hp; simp [bertBlank, metaBlank, empty] at hp
      bare := ⟨rfl, fun i t h => by simp [bertBlank, metaBlank, empty, AMap.get] at h⟩ }
  decoder := rfl
  added := rfl
  space := by decide
  pre := ⟨'#', ['#'], by decide, by decide, by decide⟩

def bertTrainCfg : Train.BpeCfg :=
  { vocabSize := 12, specials := ["[UNK]".toList], limitAlphabet := some 1000, pre := some "##".toList }

def bertSpecials : List AddedToken := [{ content := "[UNK]".toList, normalized := false, special := true }]

def bertTree : Train.Tree := .node (.leaf "Hug, hug".toList) (.leaf "Pugh!".toList)

def bertTrained : Tokenizer × Except EncErr Unit :=
  bertBlank.train Save.buildStrict none bertTree (wordPieceTrainer bertTrainCfg id 20 bertSpecials Train.defaultWordPiece)

theorem bertTrained_ok : bertTrained = (bertTrained.1, .ok ()) := by
  have h : bertTrained.2.toOption.isSome = true := by decide +kernel
  have : bertTrained.2 = .ok () := by
    cases hx : bertTrained.2 with
    | error e => rw [hx] at h; cases h
    | ok a => rfl
  rw [← this]

/-- Trained on `Hug, hug` and `Pugh!`: a text not seen, of characters that were. -/
example : ∃ e, bertTrained.1.encode (.raw "GUHG hug!".toList, none) false = .ok e ∧
    bertTrained.1.decode false e.ids = some "guhg hug!".toList := by
  refine C85_trained bertBlank_recipe Save.buildStrict_ok bertTrained_ok rfl ?_ ?_ rfl rfl (by decide) ?_ ?_
    ⟨rfl, rfl, .inl (.inl rfl)⟩ (s := "GUHG hug!".toList) (by decide) ?_ ?_ (by simp)
  · exact fun _ => .refl _
  · intro n hn
    obtain rfl : (1000 : Nat) = n := Option.some.inj hn
    exact ⟨"hug,p!".toList, by decide, by simp [bertTrainCfg], by decide +kernel⟩
  · exact ⟨by decide, by decide, by decide⟩
  · decide
  · have h1 : bertWords Normalizer.sample .lowercase asciiTables "GUHG hug!".toList =
        ["guhg".toList, "hug".toList, "!".toList] := by decide +kernel
    have h2 : (bertTree.leaves.flatMap fun q => if q = [] then [] else bertWords Normalizer.sample .lowercase asciiTables q) =
        ["hug", ",", "hug", "pugh", "!"].map String.toList := by decide +kernel
    rw [h1, h2]
    intro x hx
    simp only [List.mem_cons, List.not_mem_nil, or_false] at hx
    rcases hx with rfl | rfl | rfl <;> refine ⟨by decide, ?_⟩ <;> refine ⟨by decide, by decide⟩
  · decide +kernel

end Tokenizer
end Tok
