import Verif.Tokenizer.Llama
import Verif.Tokenizer.PipelineSamples

/-!
# A tokenizer like Llama's (C64), and what happens without the conditions
-/

namespace Tok
open Encoding AddedVocab PreTokenizer Metaspace
namespace Tokenizer

/-- The 256 byte tokens. -/
def byteEntries : AMap Str Nat := (List.range 256).map fun i => (byteToken (UInt8.ofNat i), i)

/-- The byte tokens, the beginning of a text, `▁`, two letters and one merged token. -/
def llamaVocab : AMap Str Nat :=
  byteEntries ++ [("<s>".toList, 256), ("▁".toList, 257), ("h".toList, 258), ("i".toList, 259), ("▁h".toList, 260)]

def llamaCfg : Bpe.Bpe :=
  { vocab := [], vocabR := [], merges := [], byteFallback := true, fuseUnk := true, unk := some "<unk>".toList }

def llamaBpe : Bpe.Bpe :=
  { vocab := llamaVocab
    vocabR := AMap.extend [] (llamaVocab.map fun p => (p.2, p.1))
    merges := [((257, 258), (0, 260))]
    byteFallback := true, fuseUnk := true, unk := some "<unk>".toList }

/-- In a list whose keys differ and whose ids differ, an entry is found by its id. -/
theorem find_by_id {l : AMap Str Nat} (h1 : (l.map (·.2)).Nodup) {s : Str} {i : Nat} (h : l.get s = some i) :
    l.find? (fun p => p.2 == i) = some (s, i) := by
  have hm : (s, i) ∈ (l : List (Str × Nat)) := AMap.mem_of_get_eq_some h
  clear h
  induction l with
  | nil => cases hm
  | cons x l ih =>
    rw [List.map_cons, List.nodup_cons] at h1
    rcases List.mem_cons.1 hm with rfl | hm
    · simp
    · have : x.2 ≠ i := fun e => h1.1 (List.mem_map.2 ⟨_, hm, e.symm⟩)
      rw [List.find?_cons]
      rw [show (x.2 == i) = false by simpa using this]
      exact ih h1.2 hm

theorem llamaVocab_wf : llamaVocab.WF := by
  have : ((llamaVocab.map fun p => p.1.map Char.toNat)).Nodup := by decide +kernel
  have h : ((llamaVocab.map (·.1)).map fun s => s.map Char.toNat).Nodup := by rw [List.map_map]; exact this
  exact List.Pairwise.of_map _ (fun a b hn he => hn (congrArg _ he)) h

theorem llamaVocab_ids {s : Str} {i : Nat} (h : llamaVocab.get s = some i) :
    i < llamaVocab.length ∧ llamaVocab.find? (fun p => p.2 == i) = some (s, i) := by
  have h1 : (llamaVocab.map (·.2)).Nodup := by decide +kernel
  have h2 : ∀ i ∈ llamaVocab.map (·.2), i < llamaVocab.length := by decide +kernel
  exact ⟨h2 i (List.mem_map.2 ⟨_, AMap.mem_of_get_eq_some h, rfl⟩), find_by_id h1 h⟩

theorem llamaBpe_built : Bpe.Built llamaBpe where
  ex := by
    refine ⟨[("▁".toList, "h".toList)], llamaCfg, ?_, ?_⟩
    · have : Bpe.buildMerges llamaVocab 0 0 [("▁".toList, "h".toList)] [] = .ok [((257, 258), (0, 260))] := by
        decide +kernel
      show Bpe.build llamaVocab _ llamaCfg = .ok llamaBpe
      unfold Bpe.build
      rw [show blen (llamaCfg.pre.getD []) = 0 from rfl, this]; rfl
    · refine ⟨?_, ?_, fun ab h b' _ _ => List.nil_prefix⟩
      · intro ab h
        simp only [List.mem_cons, List.not_mem_nil, or_false] at h
        subst h; exact ⟨_, rfl, by decide⟩
      · intro ab h
        simp only [List.mem_cons, List.not_mem_nil, or_false] at h
        subst h; decide
  wf := llamaVocab_wf
  distinct := by
    intro s t i hs ht
    have h1 := (llamaVocab_ids hs).2
    rw [(llamaVocab_ids ht).2] at h1
    exact (congrArg Prod.fst (Option.some.inj h1)).symm

/-- The token that begins a text. -/
def llamaOps : List Op :=
  [.add none [{ content := "<s>".toList, normalized := false, special := true }]]

/-- `<s> $A`. -/
def llamaTemplate : Post.Template where
  single := [.special "<s>".toList 0, .sequence .A 0]
  pair := [.special "<s>".toList 0, .sequence .A 0, .special "<s>".toList 1, .sequence .B 1]
  addedSingle := 1
  addedPair := 2
  specials := [("<s>".toList, ⟨"<s>".toList, [256], ["<s>".toList]⟩)]

/-- A tokenizer like Llama's. -/
def llamaSample (b : Bpe.Bpe) : Tokenizer where
  cl := asciiClasses
  ws := (· == ' ')
  checked := true
  added := after buildAny (bpeView b) empty llamaOps
  normalizer := llamaNormalizer.apply Normalizer.sample
  preTok := fun p => mapErr (fun _ => .preTok 0) ((PreTokenizer.sequence []).apply asciiTables p)
  model := fun w => bpeResult (Bpe.tokenize b (fun _ => false) w)
  view := bpeView b
  vocab := b.vocab
  settings := ⟨none, none, some (.template llamaTemplate)⟩
  decoder := some llamaDecoder

theorem llamaSample_added : (llamaSample llamaBpe).added.trie = [("<s>".toList, 256)] ∧
    (llamaSample llamaBpe).added.normTrie = [] ∧
    (llamaSample llamaBpe).added.rmap = [(256, { content := "<s>".toList, normalized := false, special := true })] ∧
    (llamaSample llamaBpe).added.encodeSpecial = false := by decide +kernel

theorem llamaSample_ok : IsLlama (llamaSample llamaBpe) Normalizer.sample asciiTables llamaBpe (fun _ _ => false) where
  pipeline :=
    { normalizer := rfl
      preTok := rfl
      unicode := Normalizer.sample_ok
      safe := llama_safe
      sound := trivial
      anywhere := trivial
      tries := by
        intro p hp
        obtain ⟨h1, h2, h3, _⟩ := llamaSample_added
        rw [h1, h2] at hp
        simp only [List.append_nil, List.mem_singleton] at hp
        subst hp
        exact ⟨by decide, _, by rw [h3]; rfl⟩
      bare := by
        obtain ⟨_, _, h3, h4⟩ := llamaSample_added
        refine ⟨h4, fun i t h => ?_⟩
        rw [h3] at h
        have := AMap.mem_of_get_eq_some h
        simp only [List.mem_singleton] at this
        cases this
        exact ⟨rfl, rfl, rfl⟩ }
  decoder := rfl
  model := fun _ => rfl
  view := rfl
  built := llamaBpe_built
  affixes := ⟨rfl, rfl⟩
  fallback := rfl
  bytes := by
    intro y
    have hm : (byteToken y, y.toNat) ∈ (llamaVocab : List (Str × Nat)) :=
      List.mem_append_left _ (List.mem_map.2 ⟨y.toNat, List.mem_range.2 y.toNat_lt, by simp⟩)
    show llamaVocab.get (byteToken y) ≠ none
    rw [AMap.get_eq_some_of_mem llamaVocab_wf hm]; simp
  mark := by decide +kernel
  merges := by
    intro i j r k h s y hs
    have hm := AMap.mem_of_get_eq_some h
    simp only [llamaBpe, List.mem_singleton, Prod.mk.injEq] at hm
    obtain ⟨⟨rfl, rfl⟩, rfl, rfl⟩ := hm
    obtain ⟨a, b, _, rfl, _⟩ := hs
    have f1 : llamaVocab.find? (fun p => p.2 == 257) = some ("▁".toList, 257) := by decide +kernel
    have f2 : llamaVocab.find? (fun p => p.2 == 258) = some ("h".toList, 258) := by decide +kernel
    have f3 : llamaVocab.find? (fun p => p.2 == 260) = some ("▁h".toList, 260) := by decide +kernel
    refine ⟨fun h => ?_, fun h => ?_, fun h => ?_⟩
    · have := (llamaVocab_ids h).2; rw [f1] at this; simp at this
    · have := (llamaVocab_ids h).2; rw [f2] at this; simp at this
    · have := (llamaVocab_ids h).2; rw [f3] at this; simp at this
  ids := fun s i h => (llamaVocab_ids h).1

/-- What the theorems ask of a text and this tokenizer. -/
theorem llamaSample_hyps {s : Str} (h : ¬ "<s>".toList <:+: s) :
    (∀ x ∈ tokensOf llamaOps, x.normalized = false) ∧ (∀ x ∈ tokensOf llamaOps, ∀ y, x.content ≠ byteToken y) ∧
    Surrounds (llamaSample llamaBpe).settings (IsSpecialId (llamaSample llamaBpe).added) ∧
    ∀ x ∈ tokensOf llamaOps, ¬ x.content <:+: s ∧ ¬ x.content <:+: '▁' :: Metaspace.sub '▁' s := by
  have hT : ∀ x ∈ tokensOf llamaOps, x = { content := "<s>".toList, normalized := false, special := true } := by decide
  refine ⟨fun x hx => by rw [hT x hx], fun x hx y he => ?_, ⟨rfl, rfl, .inr
    (.inl ⟨llamaTemplate, [.special "<s>".toList 0], 0, [], rfl, rfl, fun p hp => ?_⟩)⟩, fun x hx => ?_⟩
  · rw [hT x hx] at he
    simp [byteToken] at he
  · simp only [List.append_nil, List.mem_singleton] at hp
    refine ⟨_, _, _, hp, rfl, rfl, fun i hi => ?_⟩
    simp only [List.mem_singleton] at hi
    subst hi
    exact ⟨_, by rw [llamaSample_added.2.2.1]; rfl, rfl⟩
  · rw [hT x hx]
    refine ⟨h, ?_⟩
    rintro ⟨l, r, he⟩
    refine h ?_
    cases l with
    | nil => simp at he
    | cons c l =>
      simp only [List.cons_append, List.cons.injEq] at he
      obtain ⟨l1, l2, rfl, h1, _⟩ := List.map_eq_append_iff.1 he.2.symm
      obtain ⟨l3, l4, rfl, _, h2⟩ := List.map_eq_append_iff.1 h1
      refine ⟨l3, l2, ?_⟩
      have : l4 = "<s>".toList := by
        match l4, h2 with
        | [a, b, c], h2 =>
          have key : ∀ x y : Char, y ≠ '▁' → (if x = ' ' then '▁' else x) = y → x = y := by
            intro x y hy h
            split at h
            · exact absurd h.symm hy
            · exact h
          rw [show "<s>".toList = ['<', 's', '>'] from rfl] at h2
          simp only [List.map_cons, List.map_nil, List.cons.injEq, and_true] at h2
          rw [key a '<' (by decide) h2.1, key b 's' (by decide) h2.2.1, key c '>' (by decide) h2.2.2]
          rfl
        | [], h2 => simp at h2
        | [_], h2 => simp at h2
        | [_, _], h2 => simp at h2
        | _ :: _ :: _ :: _ :: _, h2 => simp at h2
      rw [this]

/-- All texts without `<s>`, with this tokenizer. -/
example (s : Str) (h : ¬ "<s>".toList <:+: s) :
    ∃ e, (llamaSample llamaBpe).encode (.raw s, none) true = .ok e ∧
      ((llamaSample llamaBpe).decode true e.ids = some s ↔ '▁' ∉ s) := by
  obtain ⟨h1, h2, h3, h4⟩ := llamaSample_hyps h
  exact C64_lossless llamaSample_ok rfl h1 h2 h3 h4 (fun h => h)

/-- A known letter, a space, and a character that has to be written in bytes. -/
example : ((llamaSample llamaBpe).encode (.raw "hi é".toList, none) true).toOption.map (·.ids) =
    some [256, 260, 259, 257, 195, 169] := by decide +kernel

example : (llamaSample llamaBpe).decode true [256, 260, 259, 257, 195, 169] = some "hi é".toList := by decide +kernel

/-- The special token is shown unless skipped. -/
example : (llamaSample llamaBpe).decode false [256, 260, 259, 257, 195, 169] = some "<s> hi é".toList := by decide +kernel

/-- The mark of the text comes back as a space. -/
theorem C64_mark_lost : ((llamaSample llamaBpe).encode (.raw "h▁i".toList, none) true).toOption.bind
    (fun e => (llamaSample llamaBpe).decode true e.ids) = some "h i".toList := by decide +kernel

/-! Without the conditions on the vocabulary. -/

/-- The model built from a vocabulary and merges. -/
def llamaOf (vocab : AMap Str Nat) (merges : List (Str × Str)) : Bpe.Bpe :=
  match Bpe.build vocab merges llamaCfg with
  | .ok b => b
  | _ => llamaCfg

/-- Merges that make a byte token out of letters. -/
def byteMakingBpe : Bpe.Bpe :=
  llamaOf (byteEntries ++ [("<s>".toList, 256), ("▁".toList, 257), ("<".toList, 258), ("0".toList, 259), ("x".toList, 260),
      ("4".toList, 261), ("1".toList, 262), (">".toList, 263), ("<0".toList, 264), ("<0x".toList, 265), ("<0x4".toList, 266),
      ("<0x41".toList, 267)])
    [("<".toList, "0".toList), ("<0".toList, "x".toList), ("<0x".toList, "4".toList), ("<0x4".toList, "1".toList),
      ("<0x41".toList, ">".toList)]

/-- Where a merge makes a byte token, that token in the text is read as a byte. -/
theorem C64_merged_byte_token : ((llamaSample byteMakingBpe).encode (.raw "<0x41>".toList, none) true).toOption.bind
    (fun e => (llamaSample byteMakingBpe).decode true e.ids) = some "A".toList := by decide +kernel

/-- Without `▁` in the vocabulary. -/
def noMarkBpe : Bpe.Bpe :=
  llamaOf (byteEntries ++ [("<s>".toList, 256), ("h".toList, 257), ("i".toList, 258)]) []

/-- Where the vocabulary has no `▁`, spaces are written in the bytes of `▁` and never become spaces again. -/
theorem C64_no_mark : ((llamaSample noMarkBpe).encode (.raw "h i".toList, none) true).toOption.bind
    (fun e => (llamaSample noMarkBpe).decode true e.ids) = some "▁h▁i".toList := by decide +kernel

end Tokenizer
end Tok
