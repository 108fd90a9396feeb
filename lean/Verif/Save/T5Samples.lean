import Verif.Save.PublishedT5
import Verif.Save.PublishedSamples

/-!
# A file like T5's (C106), and what the tokenizer does not give back
-/

namespace Tok.Save
open Json AddedVocab

/-- Three special tokens, the mark, two letters, a word beginning and an ending. -/
def t5Vocab : List (Str × Rat) :=
  [("<pad>".toList, 0), ("</s>".toList, 0), ("<unk>".toList, 0), ("▁".toList, -3), ("a".toList, -4), ("b".toList, -4),
    ("▁a".toList, -5), ("bb".toList, -6)]

def t5Tokens : List (Nat × AddedToken) :=
  [(0, { content := "<pad>".toList, normalized := false, special := true }),
    (1, { content := "</s>".toList, normalized := false, special := true }),
    (2, { content := "<unk>".toList, normalized := false, special := true }),
    (8, { content := "<extra_id_0>".toList, normalized := false, special := true })]

/-- Every charsmap is accepted. -/
def t5Env : Env := ⟨fun _ => true, fun _ => true⟩

/-- A charsmap that puts `B` in lower case. -/
def t5World : World := { fileWorld with charsmap := fun _ s => if s = "B".toList then some "b".toList else none }

/-- Every text of `a`, `b` and spaces, with the tokenizer of this file. -/
example : ∃ c, load t5Env false buildStrict t5World.norm (t5File "map".toList 2 1 t5Vocab t5Tokens) = .ok c ∧
    ∀ s, s ≠ [] → (∀ x ∈ (Normalizer.precompiled (t5World.charsmap "map".toList)).text t5World.uni s, x ∈ [' ', 'a', 'b']) →
      (∀ x ∈ s, x ≠ '<') → ∃ enc, (t5World.tokenizer c).encode (.raw s, none) true = .ok enc ∧
        (t5World.tokenizer c).decode true enc.ids = some ([' '].intercalate (PreTokenizer.wordsBy t5World.tables.ws
          ((Normalizer.precompiled (t5World.charsmap "map".toList)).text t5World.uni s))) := by
  obtain ⟨c, h1, h2⟩ := C106_published t5World Normalizer.sample_ok rfl t5Env false (charsmap := "map".toList) rfl buildStrict_ok
    (vocab := t5Vocab) (unk := 2) (eos := 1) (tokens := t5Tokens) (by decide +kernel) (by decide) (by decide +kernel)
    (by decide +kernel) (by decide +kernel) (by decide) (by decide) (by decide) (by decide) (by decide) (by decide)
  refine ⟨c, h1, fun s hs hx hlt => h2 s _ hs rfl ?_ ?_ ?_ ?_ true true (fun h => h)⟩
  · intro h
    have := hx _ h
    revert this; decide
  · intro x hxm hws
    have := hx x hxm
    simp only [List.mem_cons, List.not_mem_nil, or_false] at this
    rcases this with rfl | rfl | rfl
    · cases hws
    · decide +kernel
    · decide +kernel
  · intro h
    have := hx '<' (h.subset (by decide))
    revert this; decide
  · intro x hxm
    have hl : '<' ∈ x.2.content := by revert x; decide
    refine ⟨fun h => hlt '<' (h.subset hl) rfl, fun h => ?_⟩
    have := hx '<' (h.subset hl)
    revert this; decide

/-- The tokenizer that is loaded from the file. -/
def t5Conf : Option Conf :=
  match load t5Env false buildStrict t5World.norm (t5File "map".toList 2 1 t5Vocab t5Tokens) with
  | .ok c => some c
  | _ => none

/-- The tokens of a text, and what they are decoded to. -/
def t5Run (s : Str) : Option (List String × Option String) :=
  t5Conf.bind fun c => ((t5World.tokenizer c).encode (.raw s, none) true).toOption.map fun (e : Encoding) =>
    (e.tokens.map String.ofList, ((t5World.tokenizer c).decode true e.ids).map String.ofList)

/-- White space around the words is not given back. -/
theorem C106_white_lost : t5Run " aB  bb ".toList = some (["▁a", "b", "▁", "bb", "</s>"], some "ab bb") := by decide +kernel

/-- A mark at the beginning of a word is not given back, another one reads as a space. -/
theorem C106_mark_lost :
    t5Run "a ▁b".toList = some (["▁a", "▁", "b", "</s>"], some "a b") ∧
    t5Run "a b".toList = some (["▁a", "▁", "b", "</s>"], some "a b") ∧
    t5Run "b▁b".toList = some (["▁", "b", "▁", "b", "</s>"], some "b b") := by decide +kernel

/-- A character that is not in the vocabulary is gone, with the special tokens. -/
theorem C106_unknown_lost : t5Run "axb".toList = some (["▁a", "x", "b", "</s>"], some "ab") := by decide +kernel

/-- With the two marks of `C106_mark_lost`, as the theorem says. -/
example : (PreTokenizer.wordsBy t5World.tables.ws "a ▁b b▁b".toList).map (fun w => String.ofList (unmarked '▁' w)) =
    ["a", "b", "b b"] := by decide +kernel

/-- The tokenizer of the file, the text `aB  bb`: encoding what was decoded gives the same ids. -/
example : t5Run "ab bb".toList = some (["▁a", "b", "▁", "bb", "</s>"], some "ab bb") := by decide +kernel

/-- The conditions of `C106_text` for the tokenizer of the file and texts of `a`, `b`, `▁` and spaces. -/
example : ∃ c, load t5Env false buildStrict t5World.norm (t5File "map".toList 2 1 t5Vocab t5Tokens) = .ok c ∧
    ∀ s, s ≠ [] → (∀ x ∈ (Normalizer.precompiled (t5World.charsmap "map".toList)).text t5World.uni s, x ∈ [' ', 'a', 'b', '▁']) →
      (∀ x ∈ s, x ≠ '<') → ∃ enc, (t5World.tokenizer c).encode (.raw s, none) true = .ok enc ∧
        (t5World.tokenizer c).decode true enc.ids = some ([' '].intercalate ((PreTokenizer.wordsBy t5World.tables.ws
          ((Normalizer.precompiled (t5World.charsmap "map".toList)).text t5World.uni s)).map (unmarked '▁'))) := by
  obtain ⟨c, g, ops, h1, h2, h3, h4, h5, h6, h7, h8⟩ := t5File_loaded t5World Normalizer.sample_ok rfl t5Env false
    (charsmap := "map".toList) rfl buildStrict_ok (vocab := t5Vocab) (unk := 2) (eos := 1) (tokens := t5Tokens) (by decide +kernel)
    (by decide) (by decide) (by decide +kernel) (by decide) (by decide) (by decide) (by decide) (by decide)
  refine ⟨c, h1, fun s hs hx hlt => ?_⟩
  have hword := Tokenizer.t5_words (v := t5World.tables) rfl
    ((Normalizer.precompiled (t5World.charsmap "map".toList)).text t5World.uni s)
  have hmt : ∀ y ∈ PreTokenizer.wordsBy t5World.tables.ws ((Normalizer.precompiled (t5World.charsmap "map".toList)).text t5World.uni s),
      ∀ x ∈ Metaspace.metaText ⟨'▁', .always, true⟩ false y, x ∈ ['a', 'b', '▁'] := by
    intro y hy x hxm
    obtain ⟨g1, g2⟩ := hword y hy
    rw [metaText_word g1 g2] at hxm
    have key : ∀ x ∈ y, x ∈ ['a', 'b', '▁'] := by
      intro x hx'
      have a1 := hx x ((wordsBy_words _ _ y hy).2.1.subset hx')
      simp only [List.mem_cons, List.not_mem_nil, or_false] at a1 ⊢
      rcases a1 with rfl | h | h | h
      · exact absurd hx' g2
      · exact .inl h
      · exact .inr (.inl h)
      · exact .inr (.inr h)
    rcases List.mem_cons.1 hxm with rfl | hxm
    · decide
    · split at hxm
      · exact key x (List.mem_of_mem_tail hxm)
      · exact key x hxm
  have hl : ∀ x ∈ tokensOf ops, '<' ∈ x.content ∧ x.normalized = false := by
    intro x hxm
    obtain ⟨y, hy, rfl⟩ := h7 x hxm
    clear hxm; revert y; decide
  refine Tokenizer.C106_text h5 (Tokenizer.C69_unigram h2 h3 h4) (by rw [h4]; exact h6) (fun x hxm => (hl x hxm).2) h8 hs
    (fun y hy w hw => ⟨fun x hxm => ?_, fun x hxm hin => ?_⟩) (fun x hxm => ⟨fun h => hlt '<' (h.subset (hl x hxm).1) rfl,
      fun h => ?_, fun y hy h => ?_⟩) (fun h => h)
  · have := hmt y hy x (hw.subset hxm)
    simp only [List.mem_cons, List.not_mem_nil, or_false] at this
    rcases this with rfl | rfl | rfl
    · exact ⟨-4, by decide +kernel⟩
    · exact ⟨-4, by decide +kernel⟩
    · exact ⟨-3, by decide +kernel⟩
  · cases hxm
    have := hmt y hy '<' (hw.subset (hin.subset (by decide)))
    revert this; decide
  · have := hx '<' (h.subset (hl x hxm).1)
    revert this; decide
  · have := hmt y hy '<' (h.subset (hl x hxm).1)
    revert this; decide

end Tok.Save
