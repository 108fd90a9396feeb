import Verif.Regex.Append
import Verif.Regex.Fixed
import Verif.Tokenizer.PipelineSamples
import Verif.Tokenizer.Apart

/-!
# Concrete cases for the theorems on the regular expressions (C71) and on texts in two parts (C72)
-/

namespace Tok
namespace Re

/-- The letters, digits and spaces of ASCII. -/
def asciiRe : ReTables := ⟨Char.isAlpha, Char.isDigit, fun c => c == ' ' || c == '\n' || c == '\t' || c == '\r'⟩

theorem asciiRe_space {c : Char} (h : asciiRe.space c = true) : asciiRe.letter c = false ∧ asciiRe.number c = false := by
  simp only [asciiRe, Bool.or_eq_true, beq_iff_eq] at h
  rcases h with ((rfl | rfl) | rfl) | rfl <;> decide

theorem asciiRe_ok : asciiRe.Ok where
  letter_space c h := by
    cases hs : asciiRe.space c with
    | false => rfl
    | true => rw [(asciiRe_space hs).1] at h; cases h
  number_space c h := by
    cases hs : asciiRe.space c with
    | false => rfl
    | true => rw [(asciiRe_space hs).2] at h; cases h
  letter_number c h := by
    simp only [asciiRe, Char.isAlpha, Char.isUpper, Char.isLower, Char.isDigit, Bool.or_eq_true, Bool.and_eq_true,
      decide_eq_true_eq, ge_iff_le, UInt32.le_iff_toNat_le] at h ⊢
    rw [← Bool.not_eq_true, Bool.and_eq_true, decide_eq_true_eq, decide_eq_true_eq]
    rintro ⟨_, h2⟩
    rcases h with ⟨h, _⟩ | ⟨h, _⟩ <;> exact absurd (Nat.le_trans h h2) (by decide)
  blank := by decide
  ascii := by decide

/-- The text and its words: a contraction, a run of blanks but the last, a blank with letters, line ends, digits, signs. -/
def sampleText : Str := "It's  a\n\n test 123!? x  ".toList

theorem sampleText_words : words asciiRe sampleText =
    ["It", "'s", " ", " a", "\n\n", " test", " 123", "!?", " x", "  "].map String.toList := by decide +kernel

theorem sampleText_matches : findIter (byteLevel asciiRe) sampleText =
    [(0, 2), (2, 4), (4, 5), (5, 7), (7, 9), (9, 14), (14, 18), (18, 20), (20, 22), (22, 24)] := by decide +kernel

/-! The hypotheses of `C71_matches`, `C71_cut`, `C71_maximal`; two neighbours, as `C71_maximal` has them. -/

example : asciiRe.Ok := asciiRe_ok

example : words asciiRe sampleText =
    (["It", "'s"].map String.toList) ++ " ".toList :: " a".toList :: ["\n\n", " test", " 123", "!?", " x", "  "].map String.toList :=
  sampleText_words

/-- A contraction may cut a run: the run of signs `'!` ends where it has to, `'s` does not. -/
example : words asciiRe "''sam 'd'x".toList = ["''", "sam", " '", "d", "'", "x"].map String.toList := by decide +kernel

example : words asciiRe "it'sam".toList = ["it", "'s", "am"].map String.toList := by decide +kernel

/-- One line end before a word stays alone, as does a blank before a line end. -/
example : words asciiRe "a\nb \nc".toList = ["a", "\n", "b", " ", "\n", "c"].map String.toList := by decide +kernel

/-- `C71_append`. -/
example : SolidEnd asciiRe "x".toList ∧ SpaceStart asciiRe " y".toList ∧
    words asciiRe "x y".toList = ["x", " y"].map String.toList := by
  refine ⟨?_, ?_, by decide +kernel⟩
  · unfold SolidEnd; decide
  · unfold SpaceStart; decide

/-- Without its hypotheses it is false: a blank at the end of the first part belongs to the word of the second. -/
theorem C71_append_false : words asciiRe ("x ".toList ++ "y".toList) ≠ words asciiRe "x ".toList ++ words asciiRe "y".toList := by
  decide +kernel

/-- `C71_engine` for a pattern that matches the empty text. -/
example : findIter (.star (.cls (· == 'a'))) "baab".toList = [(1, 3)] := by decide +kernel

/-- `C71_whitespace`. -/
example : findIter (word Tokenizer.asciiTables) "it's ok!!".toList = [(0, 2), (2, 3), (3, 4), (5, 7), (7, 9)] := by
  decide +kernel

/-- `C71_literal`: the occurrences do not overlap. -/
example : Occurs "aa".toList "baaaab".toList ["b".toList, []] := by
  refine Occurs.hit (gap := "b".toList) (w := "aa".toList) (t := "aab".toList) ?_
    (Occurs.hit (gap := []) (w := "aa".toList) (t := "b".toList) ?_ (Occurs.done ?_))
  · intro x y h hy
    match x, h with
    | [], h => rw [List.nil_append] at h; subst h; decide
    | [_], h => simp at h; exact absurd h.2.symm (by simpa using hy)
    | _ :: _ :: _, h => simp at h
  · intro x y h hy
    exact absurd (List.append_eq_nil_iff.1 h.symm).2 hy
  · decide

example : findIter (lit "aa".toList) "baaaab".toList = [(1, 3), (3, 5)] := by decide +kernel

end Re

namespace Tokenizer
open PreTokenizer

/-! ## Two parts (C72) -/

/-- The hypotheses of `C72_apart` for a BERT tokenizer and the text `"Hugs, Zé" ++ " hugs"`. -/
example : Surrounds bertPipeline.settings (fun _ => True) ∧
    NormParts Normalizer.sample bertNormalizer "Hugs, Zé".toList " hugs".toList ∧
    Parts asciiTables .bert (bertNormalizer.text Normalizer.sample "Hugs, Zé".toList)
      (bertNormalizer.text Normalizer.sample " hugs".toList) ∧
    (∀ p ∈ bertPipeline.added.trie, ¬ p.1 <:+: "Hugs, Zé".toList ++ " hugs".toList) ∧
    ∀ p ∈ bertPipeline.added.normTrie, ¬ p.1 <:+: bertNormalizer.text Normalizer.sample ("Hugs, Zé".toList ++ " hugs".toList) := by
  refine ⟨?_, ?_, (C72_white asciiTables (.inl ?_)).2, ?_, ?_⟩
  · exact ⟨rfl, rfl, .inr (.inr ⟨_, .inl rfl, trivial, trivial⟩)⟩
  · unfold NormParts; decide +kernel
  · decide +kernel
  · decide +kernel
  · decide +kernel

/-- What it does with the parts and with the whole. -/
example : (["Hugs, Zé", " hugs", "Hugs, Zé hugs"].map fun s =>
    (bertPipeline.encode (.raw s.toList, none) false).toOption.map (·.ids)) =
      [some [3, 4, 5, 6], some [3, 4], some [3, 4, 5, 6, 3, 4]] := by decide +kernel

/-- Within a word it is false. -/
theorem C72_within_word : (["hug", "s", "hugs"].map fun s =>
    (bertPipeline.encode (.raw s.toList, none) false).toOption.map (·.ids)) = [some [3], some [0], some [3, 4]] := by
  decide +kernel

end Tokenizer
end Tok
