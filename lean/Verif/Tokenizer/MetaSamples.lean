import Verif.Tokenizer.Meta
import Verif.Tokenizer.LlamaSamples

/-!
# A tokenizer like XLM-R's (C69), and what happens without the conditions
-/

namespace Tok
open Encoding AddedVocab PreTokenizer Metaspace
namespace Tokenizer

/-- An unknown token, the mark, two letters, a word beginning and an ending. -/
def metaVocab : List (Str × Rat) :=
  [("<unk>".toList, 0), ("▁".toList, -3), ("a".toList, -4), ("b".toList, -4), ("▁a".toList, -5), ("bb".toList, -6)]

theorem ok_get {ε α : Type} {x : Except ε α} (h : x.toOption.isSome = true) : x = .ok (x.toOption.get h) := by
  cases x with
  | error e => cases h
  | ok a => rfl

def metaUni : Unigram := (Unigram.from metaVocab (some 0) false).toOption.get (by decide +kernel)

theorem metaUni_from : Unigram.from metaVocab (some 0) false = .ok metaUni := ok_get _

/-- The tokens around a text. -/
def metaOps : List Op :=
  [.add none [{ content := "<s>".toList, normalized := false, special := true },
    { content := "</s>".toList, normalized := false, special := true },
    { content := "<unk>".toList, normalized := false, special := true }]]

/-- `<s> $A </s>`. -/
def metaTemplate : Post.Template where
  single := [.special "<s>".toList 0, .sequence .A 0, .special "</s>".toList 0]
  pair := [.special "<s>".toList 0, .sequence .A 0, .special "</s>".toList 0, .sequence .B 0]
  addedSingle := 2
  addedPair := 2
  specials := [("<s>".toList, ⟨"<s>".toList, [6], ["<s>".toList]⟩), ("</s>".toList, ⟨"</s>".toList, [7], ["</s>".toList]⟩)]

/-- A tokenizer like XLM-R's, with a normalizer and a scheme. -/
def metaSample (z : Normalizer) (sch : Scheme) : Tokenizer where
  cl := asciiClasses
  ws := (· == ' ')
  checked := true
  added := after buildAny (unigramView metaUni) AddedVocab.empty metaOps
  normalizer := z.apply Normalizer.sample
  preTok := fun p => mapErr (fun _ => .preTok 0) ((PreTokenizer.metaspace ⟨'▁', sch, true⟩).apply asciiTables p)
  model := fun w => uniResult (metaUni.tokenize w)
  view := unigramView metaUni
  vocab := metaUni.tokenToIds
  settings := ⟨none, none, some (.template metaTemplate)⟩
  decoder := some (.metaspace '▁' sch)

theorem metaSample_added (z : Normalizer) (sch : Scheme) :
    (metaSample z sch).added.trie = [("<unk>".toList, 0), ("</s>".toList, 7), ("<s>".toList, 6)] ∧
    (metaSample z sch).added.normTrie = [] ∧
    (metaSample z sch).added.rmap = [(0, { content := "<unk>".toList, normalized := false, special := true }),
      (7, { content := "</s>".toList, normalized := false, special := true }),
      (6, { content := "<s>".toList, normalized := false, special := true })] ∧
    (metaSample z sch).added.encodeSpecial = false := by
  have h : ∀ z sch, (metaSample z sch).added = after buildAny (unigramView metaUni) AddedVocab.empty metaOps := fun _ _ => rfl
  rw [h]
  decide +kernel

theorem metaView_ok : (unigramView metaUni).Ok := by
  have hn : (metaVocab.map (·.1)).Nodup := by decide +kernel
  have hv := (Unigram.made_of_from metaUni_from).vocab_eq
  have hi := (Unigram.made_of_from metaUni_from).ids
  constructor
  · intro c i h
    obtain ⟨sc, h1, _⟩ := (hi c i).1 h
    show i < metaUni.vocab.length
    rw [hv]
    exact (List.getElem?_eq_some_iff.1 h1).1
  · intro c i
    show metaUni.tokenToIds.get c = some i ↔ metaUni.vocab[i]?.map (·.1) = some c
    rw [hi, hv]
    constructor
    · rintro ⟨sc, h1, _⟩; rw [h1]; rfl
    · intro h
      rw [Option.map_eq_some_iff] at h
      obtain ⟨⟨c', sc⟩, h1, rfl⟩ := h
      refine ⟨sc, h1, fun j sc' hj hj' => ?_⟩
      have a1 : (metaVocab.map (·.1))[i]? = some c' := by rw [List.getElem?_map, h1]; rfl
      have a2 : (metaVocab.map (·.1))[j]? = some c' := by rw [List.getElem?_map, hj']; rfl
      have hlt := (List.getElem?_eq_some_iff.1 a1).1
      exact absurd ((List.getElem?_inj hlt hn).1 (a1.trans a2.symm)) (Nat.ne_of_lt hj)

theorem metaSample_ok {z : Normalizer} (hz : z.Safe) {sch : Scheme} (hs : sch ≠ .first) :
    IsMeta (metaSample z sch) Normalizer.sample z asciiTables '▁' sch where
  pipeline :=
    { normalizer := rfl
      preTok := rfl
      unicode := Normalizer.sample_ok
      safe := hz
      sound := trivial
      anywhere := hs
      tries := by
        intro p hp
        obtain ⟨h1, h2, h3, _⟩ := metaSample_added z sch
        rw [h1, h2] at hp
        simp only [List.append_nil, List.mem_cons, List.not_mem_nil, or_false] at hp
        rw [h3]
        rcases hp with rfl | rfl | rfl
        · exact ⟨by decide, _, rfl⟩
        · exact ⟨by decide, _, rfl⟩
        · exact ⟨by decide, _, rfl⟩
      bare := by
        obtain ⟨_, _, h3, h4⟩ := metaSample_added z sch
        refine ⟨h4, fun i t h => ?_⟩
        rw [h3] at h
        have := AMap.mem_of_get_eq_some h
        simp only [List.mem_cons, Prod.mk.injEq, List.not_mem_nil, or_false] at this
        rcases this with ⟨_, rfl⟩ | ⟨_, rfl⟩ | ⟨_, rfl⟩ <;> exact ⟨rfl, rfl, rfl⟩ }
  decoder := rfl
  view := metaView_ok
  mark := by decide

theorem metaSample_settings (z : Normalizer) (sch : Scheme) :
    Surrounds (metaSample z sch).settings (IsSpecialId (metaSample z sch).added) := by
  refine ⟨rfl, rfl, .inr (.inl ⟨metaTemplate, [.special "<s>".toList 0], 0, [.special "</s>".toList 0], rfl, rfl, fun p hp => ?_⟩)⟩
  simp only [List.cons_append, List.nil_append, List.mem_cons, List.not_mem_nil, or_false] at hp
  rcases hp with rfl | rfl
  · refine ⟨_, _, _, rfl, rfl, rfl, fun i hi => ?_⟩
    simp only [List.mem_singleton] at hi
    subst hi
    exact ⟨_, by rw [(metaSample_added z sch).2.2.1]; rfl, rfl⟩
  · refine ⟨_, _, _, rfl, rfl, rfl, fun i hi => ?_⟩
    simp only [List.mem_singleton] at hi
    subst hi
    exact ⟨_, by rw [(metaSample_added z sch).2.2.1]; rfl, rfl⟩

/-- Texts of capital and small `a` and `b` and spaces, put in lower case. -/
example (s : Str) (hs : s ≠ []) (h : ∀ c ∈ s, c ∈ [' ', 'a', 'b', 'A', 'B']) :
    ∃ e, (metaSample .lowercase .always).encode (.raw s, none) true = .ok e ∧
      (metaSample .lowercase .always).decode true e.ids =
        some (restored .always (unsub '▁' (Normalizer.lowercase.text Normalizer.sample s))) := by
  have hl : ∀ c ∈ Normalizer.lowercase.text Normalizer.sample s, c ∈ [' ', 'a', 'b'] := by
    intro c hc
    obtain ⟨d, hd, hc⟩ := List.mem_flatMap.1 hc
    have key : ∀ d ∈ [' ', 'a', 'b', 'A', 'B'], ∀ c ∈ Normalizer.sample.lower d, c ∈ [' ', 'a', 'b'] := by decide
    exact key d (h d hd) c hc
  have hmt : ∀ c ∈ metaText ⟨'▁', .always, true⟩ false (Normalizer.lowercase.text Normalizer.sample s),
      c ∈ ['▁', 'a', 'b'] := by
    have hsub : ∀ c ∈ sub '▁' (Normalizer.lowercase.text Normalizer.sample s), c ∈ ['▁', 'a', 'b'] := by
      intro c hc
      obtain ⟨d, hd, rfl⟩ := List.mem_map.1 hc
      have := hl d hd
      simp only [List.mem_cons, List.not_mem_nil, or_false] at this
      rcases this with rfl | rfl | rfl <;> decide
    intro c hc
    unfold metaText at hc
    simp only at hc
    split at hc
    · rcases List.mem_cons.1 hc with rfl | hc
      · decide
      · exact hsub c hc
    · exact hsub c hc
  have hT : ∀ x ∈ tokensOf metaOps, x.normalized = false ∧ '<' ∈ x.content := by decide
  have hno : ∀ {w l : Str}, '<' ∈ w → '<' ∉ l → ¬ w <:+: l := fun hw hl hin => hl (hin.subset hw)
  refine C69_text (metaSample_ok (by trivial) (by decide)) (C69_unigram metaUni_from (fun _ => rfl) rfl) rfl
    (fun x hx => (hT x hx).1) (metaSample_settings _ _) hs (fun w hw => ⟨fun c hc => ?_, fun x hx => ?_⟩)
    (fun x hx => ⟨hno (hT x hx).2 fun hc => ?_, hno (hT x hx).2 fun hc => ?_, hno (hT x hx).2 fun hc => ?_⟩) (fun h => h)
  · have := hmt c (hw.subset hc)
    simp only [List.mem_cons, List.not_mem_nil, or_false] at this
    rcases this with rfl | rfl | rfl
    · exact ⟨-3, by decide +kernel⟩
    · exact ⟨-4, by decide +kernel⟩
    · exact ⟨-4, by decide +kernel⟩
  · cases hx
    exact hno (by decide) fun hc => by have := hmt _ (hw.subset hc); revert this; decide
  · have := h _ hc; revert this; decide
  · have := hl _ hc; revert this; decide
  · have := hmt _ hc; revert this; decide

/-- The conditions of `C69_bpe` are met by the BPE model of `LlamaSamples`. -/
example : Faithful (llamaSample llamaBpe) fun w => ∀ c ∈ w, ∃ i, llamaBpe.vocab.get [c] = some i :=
  C69_bpe (coins := fun _ _ => false) llamaBpe_built rfl rfl (by decide +kernel) (fun _ => rfl) rfl

/-- Two words, with two spaces between. -/
example : ((metaSample .lowercase .always).encode (.raw "Ab  bb".toList, none) true).toOption.map
    (fun e => (e.ids, e.tokens.map String.ofList)) =
      some ([6, 4, 3, 1, 1, 5, 7], ["<s>", "▁a", "b", "▁", "▁", "bb", "</s>"]) := by decide +kernel

example : (metaSample .lowercase .always).decode true [6, 4, 3, 1, 1, 5, 7] = some "ab  bb".toList := by decide +kernel

/-- Without the condition on the characters: a character that is not in the vocabulary is gone when special tokens are skipped. -/
theorem C69_unknown_lost : ((metaSample .lowercase .always).encode (.raw "axb".toList, none) true).toOption.bind
    (fun e => (metaSample .lowercase .always).decode true e.ids) = some "ab".toList := by decide +kernel

/-- With the scheme `first`, whether the mark is prepended depends on where the *original* text of the first word begins: when the
normalizer strips spaces from the left, the first word has no mark. -/
theorem C69_first_after_strip :
    ((metaSample (.strip true true) .first).encode (.raw "ab".toList, none) false).toOption.map
      (fun e => e.tokens.map String.ofList) = some ["▁a", "b"] ∧
    ((metaSample (.strip true true) .first).encode (.raw " ab".toList, none) false).toOption.map
      (fun e => e.tokens.map String.ofList) = some ["a", "b"] := by decide +kernel

end Tokenizer
end Tok
