import Verif.Bindings.Classes
import Verif.Tokenizer.CharBpeSamples
import Verif.Tokenizer.TrainedBpeSamples

/-!
# C92: examples of the ready-made tokenizers, and where they do not do what one expects
-/

namespace Tok
namespace Classes

open Save AddedVocab Py Tokenizer

/-- The settings of the examples, with the pattern of two or more spaces. -/
def classWorld : World :=
  { fileWorld with matches' := fun p => if p = spaces then Re.findIter Re.manySpaces else fileWorld.matches' p }

/-- `ByteLevelBPETokenizer()`, trained on whatever texts. -/
example (size freq : Nat) (tree : Train.Tree) : ∃ c b specials, byteLevel { trimOffsets := true } = .ok c ∧ c.model = .bpe none b ∧
    trainerTokens (["<|end|>".toList].map .text) = some specials ∧
    ∃ k t', (∀ fuel, k ≤ fuel → (classWorld.tokenizer c).train buildStrict (classWorld.norm c.normalizer) tree
        (bpeTrainer (byteLevelTrainer size freq) id fuel specials b classWorld.coins) = (t', .ok ())) ∧
      KeepsTexts t' ∧ ∀ x ∈ ["<|end|>".toList], ∃ i, t'.vocab.get x = some i :=
  C92_byteLevel classWorld byteRe_ok buildStrict_ok true (by
    intro x hx
    rw [List.mem_singleton.1 hx]
    exact .inl (by decide +kernel)) Train.id_order size freq tree

/-- `ByteLevelBPETokenizer(vocab, merges, dropout=0.5)`. -/
example : ∃ c, byteLevel { vocab := some byteVocab, merges := some byteMerges, dropout := some (1 / 2), trimOffsets := true } = .ok c ∧
    KeepsTexts (classWorld.tokenizer c) := by
  refine C92_byteLevelVocab classWorld byteRe_ok true (by decide +kernel) byteVocab_wf (fun x y i hx hy => ?_)
    (fun x i h => (byteVocab_ids x i h).1) (fun x => (byteSample_ok []).alphabet x) ?_
  · have := (byteVocab_ids x i hx).2.symm.trans (byteVocab_ids y i hy).2
    exact congrArg Prod.fst (Option.some.inj this)
  · have h : ∀ p ∈ byteMerges, p.1 ≠ [] ∧ p.2 ≠ [] ∧ ∀ x ∈ [p.1, p.2, p.1 ++ p.2], (byteVocab.get x).isSome = true := by
      decide +kernel
    intro p hp
    obtain ⟨h1, h2, h3⟩ := h p hp
    exact ⟨h1, h2, fun x hx => Option.isSome_iff_exists.1 (h3 x hx)⟩

/-- `SentencePieceBPETokenizer()`, trained on `ab aB` and `cab`. -/
example : ∃ c b specials, pieceBpe buildStrict {} = .ok c ∧ c.model = .bpe none b ∧
    trainerTokens (["<unk>".toList].map .text) = some specials ∧
    ∃ k t', (∀ fuel, k ≤ fuel → (classWorld.tokenizer c).train buildStrict (classWorld.norm c.normalizer)
        (.node (.leaf "ab aB".toList) (.leaf "cab".toList))
        (bpeTrainer (pieceTrainer 30000 2 1000 []) id fuel specials b classWorld.coins) = (t', .ok ())) ∧
      ∃ e, t'.encode (.raw "BaB  c".toList, none) true = .ok e ∧ t'.decode true e.ids = some "BaB  c".toList := by
  obtain ⟨c, b, specials, h1, h2, h3, k, t', h4, h5⟩ := C92_pieceBpe classWorld Normalizer.sample_ok buildStrict_ok (a := {})
    (.inl rfl) rfl (by decide) (names := ["<unk>".toList]) (by decide) Train.id_order 30000 2 1000 []
    (.node (.leaf "ab aB".toList) (.leaf "cab".toList)) (by
      intro n hn
      obtain rfl : (1000 : Nat) = n := Option.some.inj hn
      exact ⟨"abBc▁".toList, by decide, by simp [pieceTrainer, firstChars], by decide +kernel⟩)
  refine ⟨c, b, specials, h1, h2, h3, k, t', h4, ?_⟩
  have := h5 "BaB  c".toList (by decide) (by decide +kernel) (by decide +kernel) true true (by simp)
  rwa [show Metaspace.restored (schemeOf ({} : PieceArgs).addPrefixSpace) (Metaspace.unsub ({} : PieceArgs).replacement
    (Normalizer.nfkc.text classWorld.uni "BaB  c".toList)) = "BaB  c".toList by decide +kernel] at this

/-- `CharBPETokenizer(lowercase=True)`, trained on `Hug, hug` and `Pugh!`. -/
example : ∃ c b specials, charBpe buildStrict { lowercase := true } = .ok c ∧ c.model = .bpe none b ∧
    trainerTokens (["<unk>".toList].map .text) = some specials ∧
    ∃ k t', (∀ fuel, k ≤ fuel → (classWorld.tokenizer c).train buildStrict (classWorld.norm c.normalizer) charTree
        (bpeTrainer (charTrainer 30000 2 1000 [] (some "</w>".toList)) id fuel specials b classWorld.coins) = (t', .ok ())) ∧
      ∃ e, t'.encode (.raw "UHG PUG!".toList, none) true = .ok e ∧ t'.decode true e.ids = some "uhg pug !".toList := by
  have ht : charTree.leaves.flatMap (wordsOf classWorld.uni (classWorld.normOf (normalizerOf
      (charNormalizers { lowercase := true } []))) classWorld.tables (charPre { lowercase := true })) =
      ["hug", ",", "hug", "pugh", "!"].map String.toList := by decide +kernel
  have hu : wordsOf classWorld.uni (classWorld.normOf (normalizerOf (charNormalizers { lowercase := true } []))) classWorld.tables
      (charPre { lowercase := true }) "UHG PUG!".toList = ["uhg", "pug", "!"].map String.toList := by decide +kernel
  have hz : (classWorld.normOf (normalizerOf (charNormalizers { lowercase := true } []))).text classWorld.uni "UHG PUG!".toList =
      "uhg pug!".toList := by decide +kernel
  obtain ⟨c, b, specials, h1, h2, h3, k, t', h4, h5⟩ := C92_charBpe classWorld Normalizer.sample_ok buildStrict_ok
    (a := { lowercase := true }) (.inl rfl) rfl (u := []) rfl (r := "</w".toList) (c := '>') (by decide +kernel) (by decide) rfl
    (names := ["<unk>".toList]) (by decide) Train.id_order 30000 2 1000 [] charTree ht.symm (by
      intro n hn
      obtain rfl : (1000 : Nat) = n := Option.some.inj hn
      exact ⟨"hug,p!".toList, by decide, by simp [charTrainer, firstChars], by decide +kernel⟩) (by decide +kernel)
  refine ⟨c, b, specials, h1, h2, h3, k, t', h4, ?_⟩
  have := h5 "UHG PUG!".toList (by rw [hu]; decide) (by
    rw [hu]
    intro w hw
    simp only [List.map_cons, List.map_nil, List.mem_cons, List.not_mem_nil, or_false] at hw
    rcases hw with rfl | rfl | rfl
    · exact ⟨by decide +kernel, 'g', by decide +kernel, "hug".toList, by decide +kernel, by decide +kernel⟩
    · exact ⟨by decide +kernel, 'g', by decide +kernel, "hug".toList, by decide +kernel, by decide +kernel⟩
    · exact ⟨by decide +kernel, '!', by decide +kernel, "!".toList, by decide +kernel, by decide +kernel⟩) (by
    rw [hu, hz]
    intro a ha
    rw [List.mem_singleton.1 ha]
    decide +kernel) true true (by simp)
  rw [hu] at this
  exact this

/-- The tokenizer trained on two texts. -/
def uniTrained (unk : Option Str) : Option (Tokenizer × Except EncErr Unit) :=
  (pieceUnigram none).toOption.map fun c =>
    (classWorld.tokenizer c).train buildStrict (classWorld.norm c.normalizer) metaTree
      (Tokenizer.unigramTrainer (unigramTrainer 10 ["xyz".toList] unk metaSpecials) Train.sampleArith Train.dedupOrder wordSuffix 1
        metaSpecials)

/-- `SentencePieceUnigramTokenizer()`, trained on `Ab aB` and `cab` with `x` in the alphabet. -/
example : ∃ t', uniTrained (some "<unk>".toList) = some (t', .ok ()) ∧
    ∃ e, t'.encode (.raw "BAx   c".toList, none) true = .ok e ∧ t'.decode true e.ids = some "BAx c".toList := by
  obtain ⟨c, specials, h1, h2, h3⟩ := C92_pieceUnigram classWorld Normalizer.sample_ok buildStrict_ok rfl (r := '▁') (by decide) true
    (names := ["<s>".toList]) (by decide) 10 ["xyz".toList] (some "<unk>".toList) (ar := Train.sampleArith) Train.setOrder_dedup
    wordSuffix_ok metaTree
  obtain rfl : metaSpecials = specials := by
    rw [trainerTokens_text] at h2
    exact Option.some.inj h2
  have hok : ((uniTrained (some "<unk>".toList)).map fun x => x.2.toOption.isSome) = some true := by decide +kernel
  have he : uniTrained (some "<unk>".toList) = some ((classWorld.tokenizer c).train buildStrict (classWorld.norm c.normalizer) metaTree
      (Tokenizer.unigramTrainer (unigramTrainer 10 ["xyz".toList] (some "<unk>".toList) metaSpecials) Train.sampleArith
        Train.dedupOrder wordSuffix 1 metaSpecials)) := by
    unfold uniTrained
    rw [h1]
    rfl
  rw [he] at hok ⊢
  generalize hg : (classWorld.tokenizer c).train buildStrict (classWorld.norm c.normalizer) metaTree
      (Tokenizer.unigramTrainer (unigramTrainer 10 ["xyz".toList] (some "<unk>".toList) metaSpecials) Train.sampleArith
        Train.dedupOrder wordSuffix 1 metaSpecials) = g at hok ⊢
  obtain ⟨t', r⟩ := g
  cases r with
  | error e => cases Option.some.inj hok
  | ok _ =>
    refine ⟨t', rfl, ?_⟩
    have hn : ∀ x, x ∈ ["<s>".toList] ∨ some "<unk>".toList = some x → x = "<s>".toList ∨ x = "<unk>".toList := by
      rintro x (hx | hx)
      · exact .inl (List.mem_singleton.1 hx)
      · exact .inr (Option.some.inj hx).symm
    have := h3 1 t' hg (fun x hx => by
      rcases hn x hx with rfl | rfl <;> decide +kernel) "BAx   c".toList (by decide) (by decide +kernel) (fun x hx => by
      rcases hn x hx with rfl | rfl <;> decide +kernel) true true (by simp)
    rwa [show Metaspace.restored (schemeOf true) (Metaspace.unsub '▁' (unigramText classWorld.uni "BAx   c".toList)) =
      "BAx c".toList by decide +kernel] at this

/-- `BertWordPieceTokenizer()`, trained on two texts with a prefix. -/
def bertTrained' (a : BertArgs) (pre : Str) : Option (Tokenizer × Except EncErr Unit) :=
  (bert buildStrict a).toOption.map fun c =>
    (classWorld.tokenizer c).train buildStrict (classWorld.norm c.normalizer) bertTree
      (wordPieceTrainer (bertTrainer 12 2 1000 [] pre Tokenizer.bertSpecials) id 20 Tokenizer.bertSpecials (bertModel a))

/-- `BertWordPieceTokenizer()`, trained on `Hug, hug` and `Pugh!`. -/
example : ∃ t', bertTrained' {} "##".toList = some (t', .ok ()) ∧
    ∃ e, t'.encode (.raw "GUHG hug!".toList, none) true = .ok e ∧ t'.decode true e.ids = some "guhg hug!".toList := by
  have hw1 : bertWords classWorld.uni (bertNorm {}) classWorld.tables "GUHG hug!".toList =
      ["guhg".toList, "hug".toList, "!".toList] := by decide +kernel
  have hw2 : (bertTree.leaves.flatMap fun q => if q = [] then [] else bertWords classWorld.uni (bertNorm {}) classWorld.tables q) =
      ["hug", ",", "hug", "pugh", "!"].map String.toList := by decide +kernel
  obtain ⟨c, specials, h1, h2, h3⟩ := C92_bert classWorld Normalizer.sample_ok (by decide) buildStrict_ok (a := {}) rfl
    ⟨'#', ['#'], by decide +kernel, by decide, by decide⟩ (names := ["[UNK]".toList]) (by decide +kernel)
    ⟨by decide, by decide, by decide⟩ (by decide +kernel) Train.id_order 12 2 1000 [] bertTree hw2.symm
  obtain rfl : Tokenizer.bertSpecials = specials := by
    rw [trainerTokens_text] at h2
    exact Option.some.inj h2
  have hok : ((bertTrained' {} "##".toList).map fun x => x.2.toOption.isSome) = some true := by decide +kernel
  have he : bertTrained' {} "##".toList = some ((classWorld.tokenizer c).train buildStrict (classWorld.norm c.normalizer) bertTree
      (wordPieceTrainer (bertTrainer 12 2 1000 [] ({} : BertArgs).pre Tokenizer.bertSpecials) id 20 Tokenizer.bertSpecials
        (bertModel {}))) := by
    unfold bertTrained'
    rw [h1]
    rfl
  rw [he] at hok ⊢
  generalize hg : (classWorld.tokenizer c).train buildStrict (classWorld.norm c.normalizer) bertTree
      (wordPieceTrainer (bertTrainer 12 2 1000 [] ({} : BertArgs).pre Tokenizer.bertSpecials) id 20 Tokenizer.bertSpecials
        (bertModel {})) = g at hok ⊢
  obtain ⟨t', r⟩ := g
  cases r with
  | error e => cases Option.some.inj hok
  | ok _ =>
    refine ⟨t', rfl, ?_⟩
    have := h3 (by
      intro n hn
      obtain rfl : (1000 : Nat) = n := Option.some.inj hn
      exact ⟨"hug,p!".toList, by decide, by simp [bertTrainer, firstChars], by decide +kernel⟩) 20 t' hg "GUHG hug!".toList
      (by decide) (by
      rw [hw1]
      intro x hx
      simp only [List.mem_cons, List.not_mem_nil, or_false] at hx
      rcases hx with rfl | rfl | rfl <;> refine ⟨by decide, ?_⟩ <;> refine ⟨by decide, by decide⟩) (by decide +kernel) true true (by simp)
    rw [hw1] at this
    rwa [show Dec.glue (Dec.tightIf true) ["guhg".toList, "hug".toList, "!".toList] = "guhg hug!".toList by decide +kernel] at this

/-- `BertWordPieceTokenizer(vocab)`: the tokens of the vocabulary that are special, and their ids. -/
example : let v : AMap Str Nat := [("[UNK]".toList, 0), ("[CLS]".toList, 1), ("[SEP]".toList, 2), ("a".toList, 3)]
    ∃ c, bert buildStrict { vocab := some v } = .ok c ∧ c.proc = some (.bert ("[SEP]".toList, 2) ("[CLS]".toList, 1)) ∧
      "[CLS]".toList ∈ c.added.specials ∧ ¬ "[MASK]".toList ∈ c.added.specials := by
  intro v
  obtain ⟨c, h1, h2, -, h3⟩ := (C92_bertVocab buildStrict (a := { vocab := some v }) rfl).1 2 1 (by decide +kernel) (by decide +kernel)
  refine ⟨c, h1, h2, (h3 _).2 (by decide +kernel), fun h => ?_⟩
  have := ((h3 _).1 h).2.2
  exact this (by decide +kernel)

/-! ## What is not so -/

/-- `CharBPETokenizer(suffix)`, trained on `ab ab`, with another suffix given to `train`, or the default one. -/
def charTrained (suffix given : Str) : Option Tokenizer :=
  (charBpe buildStrict { suffix := suffix }).toOption.map fun c =>
    ((classWorld.tokenizer c).train buildStrict (classWorld.norm c.normalizer) (.leaf "ab ab".toList)
      (bpeTrainer (charTrainer 30000 2 1000 [] (some given)) id 20 [] (charModel { suffix := suffix }) classWorld.coins)).1

/-- The suffix of the constructor is not that of training (`char_level_bpe.py:102-118`): `CharBPETokenizer(suffix="_")` with
`train(files)` writes the suffix of training into the text. -/
theorem C92_suffix_kept : ((charTrained "_".toList "</w>".toList).bind fun t =>
      (t.encode (.raw "ab ab".toList, none) true).toOption.bind fun e => t.decode true e.ids) = some "ab</w>ab</w>".toList ∧
    ((charTrained "_".toList "_".toList).bind fun t =>
      (t.encode (.raw "ab ab".toList, none) true).toOption.bind fun e => t.decode true e.ids) = some "ab ab".toList := by
  decide +kernel

/-- The prefix of the constructor is that of the decoder only (`bert_wordpiece.py:70`, `84-104`):
`BertWordPieceTokenizer(wordpieces_prefix="@@")` with `train(files)` writes the prefix of training into the text. -/
theorem C92_prefix_kept : ((bertTrained' { pre := "@@".toList } "##".toList).bind fun t =>
      (t.1.encode (.raw "guhg".toList, none) true).toOption.bind fun e => t.1.decode true e.ids) = some "g ##u ##h ##g".toList ∧
    ((bertTrained' {} "##".toList).bind fun t =>
      (t.1.encode (.raw "guhg".toList, none) true).toOption.bind fun e => t.1.decode true e.ids) = some "guhg".toList := by
  decide +kernel

/-- Without a post-processor nothing is added: whether special tokens are asked for makes no difference. -/
theorem encode_unprocessed {t : Tokenizer} (h : t.settings.processor = none) (ty : PTS.OffsetType) (x : Input × Option Input)
    (add : Bool) : t.encodeAs ty x add = t.encodeAs ty x false := by
  have key : ∀ e p, t.settings.postProcess t.ws t.checked e p add = t.settings.postProcess t.ws t.checked e p false := by
    intro e p
    have h0 : ∀ b, t.settings.added b = 0 := fun b => by unfold Post.Settings.added; rw [h]; rfl
    unfold Post.Settings.postProcess
    have h1 : t.settings.truncate t.checked e p add = t.settings.truncate t.checked e p false := by
      unfold Post.Settings.truncate
      rw [h0]
      cases add <;> rfl
    have h2 : ∀ e p, t.settings.finish t.ws e p add = t.settings.finish t.ws e p false := by
      intro e p
      unfold Post.Settings.finish
      rw [h]
    rw [h1]
    simp only [h2]
  unfold Tokenizer.encodeAs Tokenizer.encodeBy
  simp only [key]

/-- **C92, BERT without markers.** `BertWordPieceTokenizer()` made without a vocabulary never adds `[CLS]` and `[SEP]`, whatever it
is trained on and with (`bert_wordpiece.py:60-69`: the post-processor is only made when there is a vocabulary). -/
theorem C92_bertBare (w : World) (build : List (Str × Nat) → Bool) {a : BertArgs} (hv : a.vocab = none) :
    ∃ c, bert build a = .ok c ∧ ∀ norm tree trainer (x : Input × Option Input) (add : Bool),
      ((w.tokenizer c).train build norm tree trainer).1.encode x add =
        ((w.tokenizer c).train build norm tree trainer).1.encode x false := by
  refine ⟨_, bert_none build hv, fun norm tree trainer x add => encode_unprocessed ?_ _ _ _⟩
  unfold Tokenizer.train
  split
  · rfl
  · split <;> rfl

/-- A tokenizer made from a vocabulary adds them. -/
example : ((bert buildStrict { vocab := some [("[UNK]".toList, 0), ("[CLS]".toList, 1), ("[SEP]".toList, 2), ("a".toList, 3)] }).toOption.bind
      fun c => (((classWorld.tokenizer c).encode (.raw "a".toList, none) true).toOption.map (·.ids))) = some [1, 3, 2] := by
  decide +kernel

/-- **C92, tables that are not used.** With a vocabulary but no merges, or merges but no vocabulary, `ByteLevelBPETokenizer` makes a
model of nothing: vocabulary, dropout, prefix and suffix are dropped without an error (`byte_level_bpe.py:28-40`), while
`CharBPETokenizer` and `SentencePieceBPETokenizer` keep the dropout (`char_level_bpe.py:38-51`, `sentencepiece_bpe.py:26-29`). -/
theorem C92_ignored (build : List (Str × Nat) → Bool) :
    (∀ (a : ByteLevelArgs) c, a.vocab = none ∨ a.merges = none → byteLevel a = .ok c → c.model = .bpe none noBpe) ∧
    (∀ (a : CharArgs) c, a.vocab = none ∨ a.merges = none → charBpe build a = .ok c → ∃ b, c.model = .bpe a.dropout b ∧ b.vocab = []) ∧
    (∀ (a : PieceArgs) c, a.vocab = none ∨ a.merges = none → pieceBpe build a = .ok c → ∃ b, c.model = .bpe a.dropout b ∧ b.vocab = []) := by
  refine ⟨fun a c hv h => ?_, fun a c hv h => ?_, fun a c hv h => ?_⟩
  · unfold byteLevel at h
    rw [both_none hv] at h
    cases hu : unicodeList a.unicode with
    | error e => rw [hu] at h; cases h
    | ok u => rw [hu] at h; cases h; rfl
  · unfold charBpe at h
    rw [both_none hv] at h
    by_cases hd : dropoutOk a.dropout = true
    · rw [mkBpe_none hd] at h
      cases hu : unicodeList a.unicode with
      | error e => rw [hu] at h; cases h
      | ok u => rw [hu] at h; cases h; exact ⟨_, rfl, rfl⟩
    · unfold mkBpe at h
      rw [if_neg hd] at h
      cases h
  · unfold pieceBpe at h
    rw [both_none hv] at h
    by_cases hd : dropoutOk a.dropout = true
    · rw [mkBpe_none hd] at h
      cases h
      exact ⟨_, rfl, rfl⟩
    · unfold mkBpe at h
      rw [if_neg hd] at h
      cases h

/-- **C92, accents.** The description of `CharBPETokenizer` says that its normalizer strips all accents
(`char_level_bpe.py:17-20`). With the default arguments it does not: it removes control characters, writes white space as spaces and
puts spaces around Chinese characters, and leaves everything else as it is. -/
theorem C92_charAccents (w : World) (build : List (Str × Nat) → Bool) : ∃ c, charBpe build {} = .ok c ∧
    ∀ s, (w.normOf c.normalizer).text w.uni s = Normalizer.spaced (Normalizer.clean w.uni s) :=
  ⟨_, rfl, fun _ => rfl⟩

example : ((charBpe buildStrict {}).toOption.map fun c => (classWorld.normOf c.normalizer).text classWorld.uni "é".toList) =
    some "é".toList := by decide +kernel

/-- **C92, Unigram from a vocabulary.** `SentencePieceUnigramTokenizer(vocab)` has no unknown token, so that a character without
piece is an error of `encode`. -/
theorem C92_unigramVocab : ((pieceUnigram (some [("<unk>".toList, 0), ("▁".toList, -1), ("a".toList, -2)])).toOption.map fun c =>
      (((classWorld.tokenizer c).encode (.raw "a".toList, none) true).toOption.map (·.ids),
        ((classWorld.tokenizer c).encode (.raw "ab".toList, none) true).toOption.map (·.ids))) = some (some [1, 2], none) := by
  decide +kernel

end Classes
end Tok
