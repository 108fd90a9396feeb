import Verif.Save.PublishedBertText
import Verif.Save.PublishedSamples

/-!
# What a small tokenizer like BERT's gives back (C70)
-/

namespace Tok.Save
open AddedVocab

/-- A vocabulary with punctuation. -/
def talkVocab : List (Str × Nat) :=
  [("[PAD]".toList, 0), ("[UNK]".toList, 1), ("[CLS]".toList, 2), ("[SEP]".toList, 3), ("don".toList, 4), ("'".toList, 5),
    ("t".toList, 6), (".".toList, 7), (",".toList, 8), ("un".toList, 9), ("##able".toList, 10)]

/-- Whether a word can be written. -/
def canWrite (wp : WordPiece) (x : Str) : Bool := decide (x.length ≤ wp.maxInputChars) && (wp.pieces x.length 0 x).isSome

theorem canWrite_iff (wp : WordPiece) (x : Str) : canWrite wp x = true ↔ Tokenizer.Writable wp x := by
  unfold canWrite Tokenizer.Writable
  rw [Bool.and_eq_true, decide_eq_true_iff, Option.isSome_iff_exists]
  simp only [WordPiece.pieces_greedy wp x.length 0 x _ (Nat.le_refl _)]

/-- The conditions of `C70_published` are met, for every text without brackets in upper or lower case. -/
example : ∃ c, load fileEnv false buildStrict fileWorld.norm (bertFile 2 3 talkVocab bertTokens) = .ok c ∧
    ∃ wp : WordPiece, wp.vocab.get "un".toList = some 9 ∧ ∀ s n : Str, s ≠ [] →
      n = (Normalizer.bert true true none true).text fileWorld.uni s → '[' ∉ s → '[' ∉ n →
      ∃ enc, (fileWorld.tokenizer c).encode (.raw s, none) true = .ok enc ∧ (fileWorld.tokenizer c).decode true enc.ids =
        some (Dec.glue Dec.isTight
          (((PreTokenizer.cut fileWorld.tables false .bert n).filter (· ≠ [])).filter (canWrite wp))) := by
  obtain ⟨c, h, wp, _, _, _, hv, hc⟩ := C70_published fileWorld Normalizer.sample_ok (by decide) fileEnv false buildStrict_ok
    (vocab := talkVocab) (cls := 2) (sep := 3) (tokens := bertTokens) ⟨by decide, by decide, by decide, by decide⟩
    (by decide) (by decide) (by decide)
  refine ⟨c, h, wp, (hv _ _).2 (by decide), fun s n hs hn h1 h2 => hc _ (canWrite_iff wp) s n hs hn fun x hx => ?_⟩
  have hb : ∀ x ∈ bertTokens, '[' ∈ x.2.content := by decide
  exact ⟨fun hin => h1 (hin.subset (hb x hx)), fun hin => h2 (hin.subset (hb x hx))⟩

/-- The text given back for a text. -/
def talk (s : Str) : Option Str :=
  (match load fileEnv false buildStrict fileWorld.norm (bertFile 2 3 talkVocab bertTokens) with
    | .ok c => some c
    | _ => none).bind fun c => ((fileWorld.tokenizer c).encode (.raw s, none) true).toOption.bind fun (e : Encoding) =>
      (fileWorld.tokenizer c).decode true e.ids

/-- A word that cannot be written is lost. -/
example : talk "Unable,xyz , un.".toList = some "unable,, un.".toList := by decide +kernel

/-- Finding: the contractions of the cleanup (`n't`, `'m`, `'s`, `'ve`, `'re`, `do not`) are never found in what BERT's
pre-tokenizer cuts, as every token is cleaned by itself (`wordpiece.rs:50-60`): the spaces around the apostrophe stay. -/
theorem C70_contraction : talk "don't.".toList = some "don ' t.".toList := by decide +kernel

end Tok.Save
