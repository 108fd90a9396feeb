import Verif.Save.PublishedBert
import Verif.Save.BehaveSamples
import Verif.Tokenizer.LlamaSamples

/-!
# C67: examples of the files
-/

namespace Tok.Save
open Json AddedVocab

/-- The character tables of the earlier examples; literal patterns of one character are found. -/
def fileWorld : World where
  cl := asciiClasses
  ws c := c == ' '
  checked := true
  uni := Normalizer.sample
  tables := Tokenizer.asciiTables
  matches'
    | .str [c], s => occurrences c 0 s
    | _, _ => []
  byteLevel := Tokenizer.byteRe
  charsmap _ _ := none
  coins _ _ := false

/-- Every literal pattern compiles. -/
def fileEnv : Env := ⟨fun p => match p with | .str _ => true | .regex _ => false, fun _ => false⟩

/-- The automaton is built if no pattern is there twice and none is empty. -/
def buildStrict (l : List (Str × Nat)) : Bool := decide ((l.map (·.1)).Nodup ∧ ∀ p ∈ l, p.1 ≠ [])

theorem buildStrict_ok : Automata buildStrict := fun _ _ => by simp [buildStrict]

theorem distinct_chars {l : List (Str × Nat)} (h : ((l.map fun p => p.1.map Char.toNat)).Nodup) : (l.map (·.1)).Nodup := by
  have h : ((l.map (·.1)).map fun s => s.map Char.toNat).Nodup := by rw [List.map_map]; exact h
  exact List.Pairwise.of_map _ (fun a b hn he => hn (congrArg _ he)) h

/-! ## GPT-2 -/

/-- The 256 characters of the bytes, two merged tokens, the end of a text. -/
def gpt2Vocab : List (Str × Nat) := Tokenizer.byteVocab ++ [("<|endoftext|>".toList, 258)]

theorem gpt2Vocab_ok : VocabOk gpt2Vocab where
  tokens := distinct_chars (by decide +kernel)
  ids := by decide +kernel
  below := by decide +kernel
  small := by decide +kernel

def gpt2Tokens : List (Nat × AddedToken) := [(258, { content := "<|endoftext|>".toList, normalized := true, special := true })]

/-- Every text, with the tokenizer of this file. -/
example : ∃ c, load fileEnv false buildStrict fileWorld.norm (gpt2File gpt2Vocab Tokenizer.byteMerges gpt2Tokens) = .ok c ∧
    ∀ s add, ∃ enc, (fileWorld.tokenizer c).encode (.raw s, none) add = .ok enc ∧
      (fileWorld.tokenizer c).decode false enc.ids = some s := by
  refine C67_gpt2 fileWorld Tokenizer.byteRe_ok fileEnv false buildStrict_ok gpt2Vocab_ok ?_ ⟨?_, ?_, ?_⟩ ?_ ?_ ?_ ?_
  · intro x
    obtain ⟨c, hc⟩ := Option.isSome_iff_exists.1 (ByteLevel.C29_defined x)
    have hb : ByteLevel.byteChar x = Char.ofNat c := by unfold ByteLevel.byteChar; rw [hc]; rfl
    rw [hb]
    exact List.mem_map.2 ⟨([Char.ofNat c], x.toNat), List.mem_append_left _ (List.mem_append_left _
      (List.mem_map.2 ⟨(x.toNat, c), AMap.mem_of_get_eq_some hc, rfl⟩)), rfl⟩
  · decide +kernel
  · decide +kernel
  · decide +kernel
  · unfold LinesOk; decide +kernel
  · decide
  · decide
  · intro x hx
    refine .inl ?_
    revert x
    decide +kernel

/-! ## Llama -/

/-- The byte tokens, the beginning of a text, `▁`, two letters and one merged token. -/
def llamaTokens : List (Nat × AddedToken) := [(256, { content := "<s>".toList, normalized := false, special := true })]

theorem llamaVocab_ok : VocabOk Tokenizer.llamaVocab where
  tokens := Tokenizer.llamaVocab_wf
  ids := by decide +kernel
  below := by decide +kernel
  small := by decide +kernel

/-- Every text without `<s>`, with the tokenizer of this file. -/
example : ∃ c, load fileEnv false buildStrict fileWorld.norm
      (llamaFile 256 Tokenizer.llamaVocab [("▁".toList, "h".toList)] llamaTokens) = .ok c ∧
    ∀ s, (∀ x ∈ llamaTokens, ¬ x.2.content <:+: s) → ∀ add skip, (add = true → skip = true) →
      ∃ enc, (fileWorld.tokenizer c).encode (.raw s, none) add = .ok enc ∧
        ((fileWorld.tokenizer c).decode skip enc.ids = some s ↔ '▁' ∉ s) := by
  refine C67_llama fileWorld Normalizer.sample_ok fileEnv ⟨rfl, rfl⟩ ⟨rfl, rfl⟩ false buildStrict_ok llamaVocab_ok ?_ ?_ ?_
    ⟨?_, ?_, ?_⟩ ?_ ?_ ?_ ?_ ?_ ?_ ?_ ?_
  · intro y
    exact List.mem_map.2 ⟨(byteToken y, y.toNat),
      List.mem_append_left _ (List.mem_map.2 ⟨y.toNat, List.mem_range.2 y.toNat_lt, by simp⟩), rfl⟩
  · decide +kernel
  · decide +kernel
  · decide +kernel
  · decide +kernel
  · decide +kernel
  · unfold LinesOk; decide +kernel
  · intro m hm y
    simp only [List.mem_singleton] at hm
    subst hm
    refine ⟨?_, ?_, ?_⟩ <;> · rintro ⟨a, b, _, h, _⟩; simp at h
  · decide
  · decide
  · decide
  · decide
  · decide
  · intro x hx
    simp only [llamaTokens, List.mem_singleton] at hx
    subst hx
    refine ⟨by decide, fun y h => ?_⟩
    simp [byteToken] at h

/-! ## BERT -/

def bertVocab : List (Str × Nat) :=
  [("[PAD]".toList, 0), ("[UNK]".toList, 1), ("[CLS]".toList, 2), ("[SEP]".toList, 3), ("un".toList, 4), ("##able".toList, 5),
    ("able".toList, 6), (",".toList, 7)]

def bertTokens : List (Nat × AddedToken) :=
  [(0, { content := "[PAD]".toList, normalized := false, special := true }),
    (1, { content := "[UNK]".toList, normalized := false, special := true }),
    (2, { content := "[CLS]".toList, normalized := false, special := true }),
    (3, { content := "[SEP]".toList, normalized := false, special := true })]

example : ∃ c, load fileEnv false buildStrict fileWorld.norm (bertFile 2 3 bertVocab bertTokens) = .ok c ∧
    ∀ a, ∃ enc, (fileWorld.tokenizer c).encode (.raw a, none) true = .ok enc := by
  obtain ⟨c, h, wp, _, _, _, _, C, _, hc⟩ := C67_bert fileWorld Normalizer.sample_ok fileEnv false buildStrict_ok
    (vocab := bertVocab) (cls := 2) (sep := 3) (tokens := bertTokens) ⟨by decide, by decide, by decide, by decide⟩
    (by decide) (by decide) (by decide) (by decide) (by decide) (by decide)
  exact ⟨c, h, fun a => by obtain ⟨A, _, ⟨enc, h1, _⟩, _⟩ := hc a; exact ⟨enc, h1⟩⟩

/-- What it does with one text. -/
example : ((match load fileEnv false buildStrict fileWorld.norm (bertFile 2 3 bertVocab bertTokens) with
    | .ok c => some c
    | _ => none).bind fun c => ((fileWorld.tokenizer c).encode (.raw "Unable, [SEP]x".toList, none) true).toOption.map fun (e : Encoding) =>
      (e.ids, e.specialMask, e.typeIds)) =
    some ([2, 4, 5, 7, 3, 1, 3], [1, 0, 0, 0, 0, 0, 1], [0, 0, 0, 0, 0, 0, 0]) := by decide +kernel

end Tok.Save
