import Verif.Normalizers.Sources
import Verif.Tokenizer.Pipeline
import Verif.Tokenizer.Samples

/-!
# Concrete tokenizers for the theorems of `Pipeline` (C58)
-/

namespace Tok
open Encoding AddedVocab PreTokenizer
namespace Tokenizer

/-- Spaces, ASCII letters and digits. -/
def asciiTables : CharTables where
  ws := (· == ' ')
  punct := fun _ => false
  numeric := Char.isDigit
  reWord := fun c => c.isAlphanum || c == '_'
  reSpace := (· == ' ')
  script := fun _ => .any

/-- A small WordPiece vocabulary. -/
def pieceModel : WordPiece :=
  ⟨[("[UNK]".toList, 0), ("[CLS]".toList, 1), ("[SEP]".toList, 2), ("hug".toList, 3), ("##s".toList, 4), (",".toList, 5),
    ("ze".toList, 6)], "[UNK]".toList, "##".toList, 100⟩

/-- The model seen by the added tokens. -/
def pieceView : ModelView := ⟨fun s => pieceModel.vocab.get s, fun _ => none, 7⟩

/-- BERT's normalizer: clean, Chinese characters, lower case and accents. -/
def bertNormalizer : Normalizer := .bert true true none true

/-- A special token and one found in the normalized text. -/
def pieceAdded : AddedVocab := (AddedVocab.empty.addTokens (fun _ => true) pieceView
  (some fun s => some (bertNormalizer.text Normalizer.sample s))
  [{ content := "<X>".toList, normalized := false, special := true }, { content := "New York".toList }]).1

/-- A BERT tokenizer. -/
def bertPipeline : Tokenizer :=
  { plain pieceView pieceModel.vocab (fun s => mapErr (fun _ => .model 0) (pieceModel.tokenize s)) with
    added := pieceAdded
    normalizer := bertNormalizer.apply Normalizer.sample
    preTok := fun p => mapErr (fun _ => .preTok 0) (PreTokenizer.bert.apply asciiTables p)
    settings := ⟨none, none, some (.bert ⟨("[SEP]".toList, 2), ("[CLS]".toList, 1)⟩)⟩ }

theorem bertPipeline_ok : IsPipeline bertPipeline Normalizer.sample bertNormalizer asciiTables .bert where
  normalizer := rfl
  preTok := rfl
  unicode := Normalizer.sample_ok
  safe := by simp [bertNormalizer, Normalizer.Safe]
  sound := trivial
  anywhere := trivial
  tries := by
    have h1 : bertPipeline.added.trie ++ bertPipeline.added.normTrie = [("<X>".toList, 7), ("new york".toList, 8)] := by
      decide +kernel
    intro p hp
    rw [h1] at hp
    have h2 : ∀ i ∈ [7, 8], (bertPipeline.added.rmap.get i).isSome = true := by decide +kernel
    rcases List.mem_cons.1 hp with rfl | hp
    · exact ⟨by decide, Option.isSome_iff_exists.1 (h2 7 (by simp))⟩
    · rcases List.mem_cons.1 hp with rfl | hp
      · exact ⟨by decide, Option.isSome_iff_exists.1 (h2 8 (by simp))⟩
      · cases hp
  bare := by
    refine ⟨rfl, fun i t h => ?_⟩
    have h2 : ∀ x ∈ bertPipeline.added.rmap, x.2.lstrip = false ∧ x.2.rstrip = false ∧ x.2.singleWord = false := by
      decide +kernel
    exact h2 _ (AMap.mem_of_get_eq_some h)

/-! The hypotheses of `C58_bert` hold of it, and so do those of `C58_carved_unique` of its patterns. -/

example : IsPipeline bertPipeline Normalizer.sample bertNormalizer asciiTables .bert ∧
    (bertPipeline.model = fun s => mapErr (fun _ => .model 0) (pieceModel.tokenize s)) ∧
    (∃ id, pieceModel.vocab.get pieceModel.unkToken = some id) ∧
    bertPipeline.settings = ⟨none, none, some (.bert ⟨("[SEP]".toList, 2), ("[CLS]".toList, 1)⟩)⟩ :=
  ⟨bertPipeline_ok, rfl, ⟨0, by decide⟩, rfl⟩

example : (bertPipeline.encode (.raw "Hugs, <X>Zé NEW york!".toList, some (.raw "hug".toList)) true).toOption.map
    (fun e => (e.ids, e.typeIds, e.specialMask)) =
    some ([1, 3, 4, 5, 7, 6, 8, 0, 2, 3, 2], [0, 0, 0, 0, 0, 0, 0, 0, 0, 1, 1], [1, 0, 0, 0, 0, 0, 0, 0, 1, 0, 1]) := by
  decide +kernel

example : Carved [("<X>".toList, 7)] "a <X>b".toList [(none, "a ".toList), (some 7, "<X>".toList), (none, "b".toList)] := by
  refine Carved.hit (gap := "a ".toList) (p := "<X>".toList) (rest := "b".toList) (by simp) (by simp) ?_ ?_
  · intro u v h hv q hq
    cases List.mem_singleton.1 hq
    match u, v, h with
    | [], _, h => rw [List.nil_append] at h; subst h; decide
    | [_], _, h => simp at h; obtain ⟨_, rfl⟩ := h; decide
    | [_, _], v, h => simp at h; exact absurd h.2.2.symm (by simpa using hv)
    | _ :: _ :: _ :: _, _, h => simp at h
  · refine Carved.done (s := "b".toList) ?_
    intro u v h hv q hq
    cases List.mem_singleton.1 hq
    match u, v, h with
    | [], _, h => rw [List.nil_append] at h; subst h; decide
    | [_], v, h => simp at h; exact absurd h.2.symm (by simpa using hv)
    | _ :: _ :: _, _, h => simp at h

/-! ## `Strip` before `Metaspace` -/

/-- `Strip` and `Metaspace` with the scheme `first`, one token per character. -/
def stripMetaspace : Tokenizer :=
  { charSample with
    normalizer := (Normalizer.strip true true).apply Normalizer.sample
    preTok := fun p => mapErr (fun _ => .preTok 0) ((PreTokenizer.metaspace ⟨'▁', .first, true⟩).apply asciiTables p)
    settings := ⟨none, none, none⟩ }

/-- Finding: `Metaspace` with the scheme `first` looks whether the piece begins at the first byte of the original text.
After `Strip` a text that began with a space has no such piece and gets no `▁`: two texts with one normal form are encoded
differently. -/
theorem C58_strip_first : (stripMetaspace.encode (.raw "ab".toList, none) true).toOption.map (·.tokens) =
      some ["▁".toList, "a".toList, "b".toList] ∧
    (stripMetaspace.encode (.raw " ab".toList, none) true).toOption.map (·.tokens) = some ["a".toList, "b".toList] ∧
    Normalizer.text Normalizer.sample (.strip true true) "ab".toList =
      Normalizer.text Normalizer.sample (.strip true true) " ab".toList := by
  decide +kernel

end Tokenizer
end Tok
