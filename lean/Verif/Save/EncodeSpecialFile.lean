import Verif.Tokenizer.EncodeSpecial
import Verif.Save.PublishedLlama3Samples
import Verif.Tokenizer.MetaSamples
import Verif.Tokenizer.Trained

/-!
# C113: special tokens written in a text, for a file like Llama 3's; and what is not guaranteed
-/

namespace Tok
open AddedVocab

namespace Tokenizer

theorem IsSplitBytes.without {t : Tokenizer} {u z v l r re b coins} (h : IsSplitBytes t u z v l r re b coins) :
    IsSplitBytes t.unadded u z v l r re b coins :=
  { h with
    pipeline := { h.pipeline with
      tries := by intro p hp; simp [unadded, AddedVocab.empty] at hp
      bare := ⟨rfl, by simp [unadded, AddedVocab.empty, AMap.get]⟩ } }

/-! ## What is not guaranteed -/

/-- **C113, does not hold in general.** A WordLevel tokenizer trained with `<s>` as special token has it in the model's vocabulary, too:
with the switch on, `<s>` written as a word still gets the id of the special token, from the model, and is skipped in
decoding. -/
theorem C113_word_level : ∃ t, trainedOn untrained ["[UNK]".toList, "<s>".toList] "b a".toList "c".toList = (t, true) ∧
    IsSpecialId (t.setEncodeSpecial true).added 1 ∧
    shownTokens (t.setEncodeSpecial true) "b <s>".toList = some [(3, "b".toList), (1, "<s>".toList)] ∧
    (t.setEncodeSpecial true).decode true [3, 1] = some "b".toList := by
  refine ⟨_, rfl, ⟨.ofStr "<s>".toList true, ?_, rfl⟩, ?_, ?_⟩ <;> decide +kernel

/-- The first tokens of T5, the mark and a letter. -/
def endVocab : List (Str × Rat) :=
  [("<pad>".toList, 0), ("</s>".toList, 0), ("<unk>".toList, 0), ("▁".toList, -3), ("a".toList, -4)]

def endUni : Unigram := (Unigram.from endVocab (some 2) false).toOption.get (by decide +kernel)

/-- A tokenizer like T5's, with the switch on. -/
def endSample : Tokenizer :=
  { metaSample .lowercase .always with
    added := after buildAny (unigramView endUni) AddedVocab.empty
      [.add none [{ content := "</s>".toList, normalized := false, special := true }], .setEncodeSpecial true]
    model := fun w => uniResult (endUni.tokenize w)
    view := unigramView endUni
    vocab := endUni.tokenToIds
    settings := ⟨none, none, none⟩ }

/-- **C113, does not hold in general.** Nor does it with a Unigram model that contains the special tokens as T5's does, with the best of
all scores: `</s>` written anywhere in a text still gives the id of the special token. -/
theorem C113_unigram : endSample.added.encodeSpecial = true ∧ IsSpecialId endSample.added 1 ∧
    shownTokens endSample "aa</s>a".toList =
      some [(3, "▁".toList), (4, "a".toList), (4, "a".toList), (1, "</s>".toList), (4, "a".toList)] := by
  refine ⟨?_, ⟨{ content := "</s>".toList, normalized := false, special := true }, ?_, rfl⟩, ?_⟩ <;> decide +kernel

/-- **C113, does not hold in general.** With the switch on, special tokens are not as if they had not been added: `<s>` is not cut out of
the text, but being found, it hides the token `s>x`, which is cut out if `<s>` was not added. -/
theorem C113_hidden :
    let av := fun ts => after buildAny sampleModel AddedVocab.empty [.add none ts, .setEncodeSpecial true]
    let x : AddedToken := { content := "s>x".toList, normalized := false }
    let both := av [x, { content := "<s>".toList, normalized := false, special := true }]
    findMatches asciiClasses (av [x]) (av [x]).trie "a<s>x".toList = some [(none, (0, 2)), (some 3, (2, 5))] ∧
    findMatches asciiClasses both both.trie "a<s>x".toList = some [(none, (0, 5))] := by
  decide +kernel

/-! ## Cases -/

/-- The byte-level tokenizer of `Lossless.lean` with `<|end|>` as its only added token, and the switch on. -/
def offOps : List Op := [.add none [.ofStr "<|end|>".toList true], .setEncodeSpecial true]

example (ty : PTS.OffsetType) (input : Input × Option Input) (add : Bool) :
    (byteSample offOps).encodeAs ty input add = (byteSample offOps).unadded.encodeAs ty input add :=
  have hok : (bpeView byteBpe).Ok := byteView_ok (byteSample_ok offOps)
  C113_invisible (t := byteSample offOps) (build := buildAny) (ops := offOps)
    { ok := hok
      solid := by intro l hl p hp; unfold buildAny at hl; simpa using List.all_eq_true.1 hl p hp
      history := rfl
      on := by decide +kernel
      special := by decide +kernel } ty input add

/-- With the switch on the special token is spelled, with the switch off it is not. -/
example : ((byteSample offOps).encode (.raw "<|end|>".toList, none) false).toOption.map (·.ids) =
      some [60, 124, 101, 110, 100, 124, 62] ∧
    (((byteSample offOps).setEncodeSpecial false).encode (.raw "<|end|>".toList, none) false).toOption.map (·.ids) = some [258] := by
  decide +kernel

/-- Only a single character, a merge or, with `ignore_merges`, a whole word. -/
example : ¬ Bpe.CanGive byteBpe "<|end|>".toList := by
  rintro ⟨k, hk, _⟩
  have : byteBpe.vocab.get "<|end|>".toList = none := by decide +kernel
  rw [this] at hk; cases hk

end Tokenizer

namespace Save
open Json Tokenizer

/-- **C113.** A file in the form of Llama 3's, all added tokens special, is loaded; `set_encode_special_tokens(true)` is called. Then
whatever special tokens are written in a text, its ids contain no id of a special token, and it is decoded to what it was, special
tokens written in it included, also if a special token is put in front and special tokens are skipped. -/
theorem C113_llama3 (w : World) (hu : w.uni.Ok) (hre : ∀ p s, NS.EngineMatches s 0 (w.matches' p s))
    (hby : ∀ s, NS.EngineMatches s 0 (w.byteLevel s)) (e : Env) (skip' : Bool)
    {build : List (Str × Nat) → Bool} (hb : Automata build) {re : Str} (hc : e.compiles (.regex re) = true)
    {vocab : List (Str × Nat)} (hv : VocabOk vocab) (halpha : ∀ x : UInt8, [ByteLevel.byteChar x] ∈ vocab.map (·.1))
    {merges : List (Str × Str)} (hm : MergesOk vocab merges) (hl : LinesOk merges) (hsmall : vocab.length < 4294967296)
    {bos : AddedToken} (hne : bos.content ≠ [])
    {tokens : List (Nat × AddedToken)} (hi : ∀ x ∈ tokens, x.1 < 4294967296)
    (hsp : ∀ x ∈ (vocab.length, bos) :: tokens, x.2.special = true)
    (hraw : ∀ x ∈ (vocab.length, bos) :: tokens, x.2.normalized = false)
    (hplain : ∀ x ∈ (vocab.length, bos) :: tokens, x.2.lstrip = false ∧ x.2.rstrip = false ∧ x.2.singleWord = false)
    (hout : ∀ x ∈ (vocab.length, bos) :: tokens, x.2.content ∉ vocab.map (·.1)) :
    ∃ c, load e skip' build w.norm (llama3File re bos.content vocab.length vocab merges ((vocab.length, bos) :: tokens)) = .ok c ∧
      ∀ t, t = (w.tokenizer c).setEncodeSpecial true → ∀ s,
        (∃ enc, t.encode (.raw s, none) false = .ok enc ∧ ∀ i ∈ enc.ids, ∀ x, t.added.rmap.get i = some x → x.special = false) ∧
        ∀ add skip : Bool, (add = true → skip = true) →
          ∃ enc, t.encode (.raw s, none) add = .ok enc ∧ t.decode skip enc.ids = some s := by
  obtain ⟨c, b, h1, h2, h3, h4, h5, h7, hclean, hnone, hset, -, -⟩ := llama3_loaded w hu hre hby e skip' hb hc hv halpha hm hl hsmall
    (hsp (vocab.length, bos) (by simp)) hne hi (fun x hx _ => hsp x (by simp [hx])) hraw hplain hout
  refine ⟨c, h1, ?_⟩
  rintro t rfl s
  let ops : List Op := [.add (w.norm none) (((vocab.length, bos) :: tokens).map (·.2)), .setEncodeSpecial true]
  have hT : ∀ x ∈ tokensOf ops, ∃ y ∈ (vocab.length, bos) :: tokens, y.2 = x := by
    intro x hx
    simp only [ops, tokensOf, List.append_nil] at hx
    exact List.mem_map.1 hx
  have hoff : SpecialsOff ((w.tokenizer c).setEncodeSpecial true) build ops :=
    { ok := h5.ok
      solid := fun l hl p hp => ((hb l (by intro h; rw [h] at hp; cases hp)).1 hl).2 p hp
      history := by
        show { (w.tokenizer c).added with encodeSpecial := true } = _
        rw [h7]; rfl
      on := rfl
      special := fun x hx => by obtain ⟨y, hy, rfl⟩ := hT x hx; exact hsp y hy }
  obtain ⟨⟨enc, e1, e2⟩, hdec⟩ := C113_text (t := (w.tokenizer c).setEncodeSpecial true) h5.without hoff
    (.inr fun x hx => by obtain ⟨y, hy, rfl⟩ := hT x hx; exact hraw y hy) hset
    (fun x hx => by
      obtain ⟨y, hy, rfl⟩ := hT x hx
      rintro ⟨k, hk, _⟩
      rw [hnone y hy] at hk; cases hk) s
  refine ⟨⟨enc, e1, fun i hi x hx => ?_⟩, fun add skip hskip => ?_⟩
  · cases hxs : x.special with
    | false => rfl
    | true => exact absurd ⟨x, hx, hxs⟩ (e2 i hi)
  · obtain ⟨enc, g1, g2⟩ := hdec add skip hskip
    refine ⟨enc, g1, ?_⟩
    rw [g2]
    by_cases hs : s = []
    · rw [if_pos hs, hs]
    · rw [if_neg hs]; simp [Normalizer.text, Normalizer.textAll]

/-- The file of `PublishedLlama3Samples.lean`: all texts. -/
example := C113_llama3 splitWorld Normalizer.sample_ok (fun _ => Tokenizer.byteRe_ok) Tokenizer.byteRe_ok anyEnv false
    buildStrict_ok (re := "x".toList) rfl byteVocab_ok byteVocab_alphabet (merges := [("h".toList, "e".toList)])
    ⟨by decide +kernel, by decide +kernel, by decide +kernel⟩ (by unfold LinesOk; decide +kernel) (by decide +kernel)
    (bos := bosToken) (by decide) (tokens := eosTokens) (by decide) (by decide +kernel) (by decide +kernel) (by decide +kernel)
    (by decide +kernel)

end Save
end Tok
