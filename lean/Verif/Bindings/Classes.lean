import Verif.Bindings.AddedTok
import Verif.Save.Interp
import Verif.Tokenizer.TrainedMetaBpe
import Verif.Tokenizer.TrainedMeta
import Verif.Tokenizer.TrainedBert
import Verif.Regex.Spaces

/-!
# C92: the ready-made tokenizers of the Python package

`bindings/python/py_src/tokenizers/implementations`: five classes that put a tokenizer together from a model, a normalizer, a
pre-tokenizer, a decoder and a post-processor, and that make the trainer for it. Here are their constructors, as functions to the
settings of a tokenizer, and what they give to the trainers. Not modelled: vocabularies given as names of files, `from_file` and
`from_spm` (they read files), and the methods of `BaseTokenizer`, which pass everything on.
-/

namespace Tok
namespace Classes

open Save AddedVocab Py 

/-- What a constructor raises: `ValueError` or `TypeError` by Python code, or the `Exception` of a builder. -/
inductive Raised where
  | value
  | type
  | build
deriving DecidableEq, Repr

/-- `PyBPE::new` and `with_builder` (`bindings/python/src/models.rs:297-336`, `455-487`) for a vocabulary in memory, or none; the
builder checks the dropout first (`models/bpe/model.rs:214-218`). -/
def mkBpe (tables : Option (AMap Str Nat × List (Str × Str))) (dropout : Option Rat) (options : Bpe.Bpe) : Except Raised Mod :=
  if dropoutOk dropout then
    match Bpe.build (tables.elim [] (·.1)) (tables.elim [] (·.2)) { options with useDropout := activeDropout dropout } with
    | .ok b => .ok (.bpe dropout b)
    | _ => .error .build
  else .error .build

/-- A BPE model without tables. -/
def noBpe : Bpe.Bpe := { vocab := [], vocabR := [], merges := [] }

/-- `unicode_normalizer_from_str` (`bindings/python/py_src/tokenizers/normalizers/__init__.py:21-29`). -/
def unicodeNormalizer (s : Str) : Except Raised NormCfg :=
  if s = "nfc".toList then .ok .nfc
  else if s = "nfd".toList then .ok .nfd
  else if s = "nfkc".toList then .ok .nfkc
  else if s = "nfkd".toList then .ok .nfkd
  else .error .value

/-- `if unicode_normalizer: normalizers += [...]` (`byte_level_bpe.py:46-47`, `char_level_bpe.py:60-61`): neither `None` nor the
empty string. -/
def unicodeList : Option Str → Except Raised (List NormCfg)
  | none => .ok []
  | some [] => .ok []
  | some (c :: s) => (unicodeNormalizer (c :: s)).map fun n => [n]

/-- `Sequence(normalizers)` if there are several (`byte_level_bpe.py:53-57`, `char_level_bpe.py:70-74`). -/
def normalizerOf : List NormCfg → Option NormCfg
  | [] => none
  | [n] => some n
  | l => some (.sequence l)

/-- `tokenizer.add_special_tokens([token])` if the token is in the vocabulary of the model (`bert_wordpiece.py:34-44`,
`char_level_bpe.py:54-55`, `sentencepiece_bpe.py:31-32`). There is no normalizer yet. -/
def addKnown (build : List (Str × Nat) → Bool) (m : Mod) (av : AddedVocab) (token : Str) : AddedVocab :=
  match av.tokenToId m.view token with
  | some _ => (av.addTokens build m.view none [AddedToken.ofStr token true]).1
  | none => av

/-- A tokenizer with a model, and nothing else. -/
def bare (m : Mod) (av : AddedVocab) : Conf :=
  { truncation := none, padding := none, added := av, normalizer := none, preTok := none, proc := none, decoder := none, model := m }

/-- Both of two arguments that may be `None` (`vocab is not None and merges is not None`). -/
def both (a : Option α) (b : Option β) : Option (α × β) := a.bind fun x => b.map fun y => (x, y)

/-! ## `ByteLevelBPETokenizer` -/

/-- The arguments of the constructor, with their defaults (`byte_level_bpe.py:16-27`). -/
structure ByteLevelArgs where
  vocab : Option (AMap Str Nat) := none
  merges : Option (List (Str × Str)) := none
  addPrefixSpace : Bool := false
  lowercase : Bool := false
  dropout : Option Rat := none
  unicode : Option Str := none
  pre : Option Str := none
  suf : Option Str := none
  trimOffsets : Bool := false

/-- `ByteLevelBPETokenizer.__init__` (`byte_level_bpe.py:28-61`). The pre-tokenizer, the decoder and the post-processor take
`true` for what is not given (`bindings/python/src/pre_tokenizers.rs:141-160`, `processors.rs`, `decoders.rs`). -/
def byteLevel (a : ByteLevelArgs) : Except Raised Conf := do
  let m ← match both a.vocab a.merges with
    | some t => mkBpe (some t) a.dropout { noBpe with pre := some (a.pre.getD []), suf := some (a.suf.getD []) }
    | none => mkBpe none none noBpe
  let u ← unicodeList a.unicode
  return { bare m .empty with
    normalizer := normalizerOf (u ++ if a.lowercase then [.lowercase] else [])
    preTok := some (.byteLevel ⟨a.addPrefixSpace, true, true⟩)
    decoder := some (.byteLevel ⟨true, true, true⟩)
    proc := some (.byteLevel ⟨true, a.trimOffsets, true⟩) }

/-- What `train` and `train_from_iterator` give to the trainer (`byte_level_bpe.py:83-124`). -/
def byteLevelTrainer (vocabSize minFrequency : Nat) : Train.BpeCfg :=
  { vocabSize := vocabSize, minFrequency := minFrequency, initialAlphabet := ByteLevel.bytesChar.map fun p => Char.ofNat p.2 }

/-! ## `CharBPETokenizer` -/

/-- The arguments of the constructor, with their defaults (`char_level_bpe.py:26-37`). -/
structure CharArgs where
  vocab : Option (AMap Str Nat) := none
  merges : Option (List (Str × Str)) := none
  unk : Str := "<unk>".toList
  suffix : Str := "</w>".toList
  dropout : Option Rat := none
  lowercase : Bool := false
  unicode : Option Str := none
  bertNormalizer : Bool := true
  splitOnWhitespaceOnly : Bool := false

/-- The normalizers (`char_level_bpe.py:58-67`). `BertNormalizer(lowercase=False)` leaves the others as they are by default. -/
def charNormalizers (a : CharArgs) (u : List NormCfg) : List NormCfg :=
  u ++ (if a.bertNormalizer then [.bert true true none false] else []) ++ if a.lowercase then [.lowercase] else []

/-- `CharBPETokenizer.__init__` (`char_level_bpe.py:38-95`). -/
def charBpe (build : List (Str × Nat) → Bool) (a : CharArgs) : Except Raised Conf := do
  let m ← mkBpe (both a.vocab a.merges) a.dropout { noBpe with unk := some a.unk, suf := some a.suffix }
  let u ← unicodeList a.unicode
  return { bare m (addKnown build m .empty a.unk) with
    normalizer := normalizerOf (charNormalizers a u)
    preTok := some (if a.splitOnWhitespaceOnly then .whitespaceSplit else .bert)
    decoder := some (.bpe a.suffix) }

/-- The first characters of the strings (`trainers.rs:405-413`). -/
def firstChars (l : List Str) : List Char := l.filterMap List.head?

/-- What `train` and `train_from_iterator` give to the trainer (`char_level_bpe.py:102-157`). -/
def charTrainer (vocabSize minFrequency limit : Nat) (initial : List Str) (suffix : Option Str) : Train.BpeCfg :=
  { vocabSize := vocabSize, minFrequency := minFrequency, limitAlphabet := some limit, initialAlphabet := firstChars initial,
    suf := suffix }

/-! ## `SentencePieceBPETokenizer` -/

/-- The arguments of the constructor, with their defaults (`sentencepiece_bpe.py:16-25`). -/
structure PieceArgs where
  vocab : Option (AMap Str Nat) := none
  merges : Option (List (Str × Str)) := none
  unk : Str := "<unk>".toList
  replacement : Char := '▁'
  addPrefixSpace : Bool := true
  dropout : Option Rat := none
  fuseUnk : Bool := false

/-- `prepend_scheme = "always" if add_prefix_space else "never"` (`sentencepiece_bpe.py:35`, `sentencepiece_unigram.py:32`). -/
def schemeOf (addPrefixSpace : Bool) : Metaspace.Scheme := if addPrefixSpace then .always else .never

/-- `SentencePieceBPETokenizer.__init__` (`sentencepiece_bpe.py:26-47`). The unknown token is a string: an `AddedToken` is not
accepted by the model (`models.rs:311-315`). -/
def pieceBpe (build : List (Str × Nat) → Bool) (a : PieceArgs) : Except Raised Conf := do
  let m ← mkBpe (both a.vocab a.merges) a.dropout { noBpe with unk := some a.unk, fuseUnk := a.fuseUnk }
  return { bare m (addKnown build m .empty a.unk) with
    normalizer := some .nfkc
    preTok := some (.metaspace ⟨a.replacement, schemeOf a.addPrefixSpace, true⟩)
    decoder := some (.metaspace ⟨a.replacement, schemeOf a.addPrefixSpace, true⟩) }

/-- What `train` and `train_from_iterator` give to the trainer (`sentencepiece_bpe.py:54-103`). -/
def pieceTrainer (vocabSize minFrequency limit : Nat) (initial : List Str) : Train.BpeCfg :=
  { vocabSize := vocabSize, minFrequency := minFrequency, limitAlphabet := some limit, initialAlphabet := firstChars initial }

/-! ## `SentencePieceUnigramTokenizer` -/

/-- `SentencePieceUnigramTokenizer.__init__` (`sentencepiece_unigram.py:17-44`); `Unigram()` has one piece, the unknown one
(`models/unigram/model.rs:90-95`), `Unigram(vocab)` has no unknown piece (`bindings/python/src/models.rs`, `PyUnigram::new`). -/
def pieceUnigram (vocab : Option (List (Str × Rat))) (replacement : Char := '▁') (addPrefixSpace : Bool := true) :
    Except Raised Conf := do
  let m ← match Unigram.from (vocab.getD [("<unk>".toList, 0)]) (if vocab.isSome then none else some 0) false with
    | .ok u => .ok (Mod.unigram u)
    | _ => .error Raised.build
  return { bare m .empty with
    normalizer := some (.sequence [.nmt, .nfkc, .replace ⟨.regex " {2,}".toList, " ".toList⟩])
    preTok := some (.metaspace ⟨replacement, schemeOf addPrefixSpace, true⟩)
    decoder := some (.metaspace ⟨replacement, schemeOf addPrefixSpace, true⟩) }

/-- What `train` and `train_from_iterator` give to the trainer (`sentencepiece_unigram.py:46-150`). -/
def unigramTrainer (vocabSize : Nat) (initial : List Str) (unk : Option Str) (specials : List AddedToken) : Train.UniCfg :=
  { vocabSize := vocabSize, alphabet := firstChars initial, unk := unk, special := specials.map (·.content) }

/-! ## `BertWordPieceTokenizer` -/

/-- The arguments of the constructor, with their defaults (`bert_wordpiece.py:15-28`). -/
structure BertArgs where
  vocab : Option (AMap Str Nat) := none
  unk : Str := "[UNK]".toList
  sep : Str := "[SEP]".toList
  cls : Str := "[CLS]".toList
  pad : Str := "[PAD]".toList
  mask : Str := "[MASK]".toList
  cleanText : Bool := true
  handleChinese : Bool := true
  stripAccents : Option Bool := none
  lowercase : Bool := true
  pre : Str := "##".toList

/-- `BertWordPieceTokenizer.__init__` (`bert_wordpiece.py:29-77`). -/
def bert (build : List (Str × Nat) → Bool) (a : BertArgs) : Except Raised Conf :=
  let m := Mod.wordPiece { Train.defaultWordPiece with vocab := a.vocab.getD [], unkToken := a.unk }
  let av := [a.unk, a.sep, a.cls, a.pad, a.mask].foldl (addKnown build m) .empty
  let c := { bare m av with
    normalizer := some (.bert a.cleanText a.handleChinese a.stripAccents a.lowercase)
    preTok := some .bert
    decoder := some (.wordPiece a.pre true) }
  match a.vocab with
  | none => .ok c
  | some _ =>
    match av.tokenToId m.view a.sep, av.tokenToId m.view a.cls with
    | some s, some k => .ok { c with proc := some (.bert (a.sep, s) (a.cls, k)) }
    | _, _ => .error .type

/-- What `train` and `train_from_iterator` give to the trainer (`bert_wordpiece.py:84-150`). -/
def bertTrainer (vocabSize minFrequency limit : Nat) (initial : List Str) (pre : Str) (specials : List AddedToken) : Train.BpeCfg :=
  { vocabSize := vocabSize, minFrequency := minFrequency, limitAlphabet := some limit, initialAlphabet := firstChars initial,
    pre := some pre, specials := specials.map (·.content) }

/-- The special tokens given to a trainer (`trainers.rs:382-402`, and the same for the other trainers): those of
`add_special_tokens`. -/
def trainerTokens (l : List TokArg) : Option (List AddedToken) := l.mapM fun a => (specialArg a).map (·.1)

/-! ## What they have in common -/

theorem trainerTokens_text (names : List Str) :
    trainerTokens (names.map .text) = some (names.map fun s => AddedToken.ofStr s true) := by
  unfold trainerTokens
  induction names with
  | nil => rfl
  | cons a l ih =>
    rw [List.map_cons, List.mapM_cons, ih]
    rfl

/-- An optional normalizer: without one, the empty sequence. -/
def _root_.Tok.Save.World.normOf (w : World) : Option NormCfg → Normalizer
  | none => .sequence []
  | some n => w.toNorm n

theorem pipeline_of (w : World) {c : Conf} (ha : c.added = .empty) {n : Option NormCfg} (hn : c.normalizer = n) {y : PreCfg}
    (hy : c.preTok = some y) (hu : w.uni.Ok) (h1 : (w.normOf n).Safe) (h2 : (w.toPre y).Sound) (h3 : (w.toPre y).Anywhere) :
    Tokenizer.IsPipeline (w.tokenizer c) w.uni (w.normOf n) w.tables (w.toPre y) where
  normalizer := by
    simp only [World.tokenizer, hn]
    cases n with
    | none => rfl
    | some n => rfl
  preTok := by simp only [World.tokenizer, hy]; rfl
  unicode := hu
  safe := h1
  sound := h2
  anywhere := h3
  tries := by simp only [World.tokenizer, ha]; intro p hp; simp [AddedVocab.empty] at hp
  bare := by simp only [World.tokenizer, ha]; exact ⟨rfl, fun i t h => by simp [AddedVocab.empty, AMap.get] at h⟩

theorem mkBpe_none {d : Option Rat} (hd : dropoutOk d = true) (o : Bpe.Bpe) :
    mkBpe none d o = .ok (.bpe d { o with useDropout := activeDropout d, vocab := [], vocabR := [], merges := [] }) := by
  unfold mkBpe
  rw [if_pos hd]
  rfl

/-- Plain special tokens, from names. -/
theorem plain_names {names : List Str} (h : ∀ x ∈ names, x ≠ []) : ∀ a ∈ names.map fun s => AddedToken.ofStr s true,
    Tokenizer.PlainToken a := by
  intro a ha
  obtain ⟨s, hs, rfl⟩ := List.mem_map.1 ha
  exact ⟨rfl, rfl, rfl, rfl, h s hs⟩

theorem byteLevelTrainer_ok (size freq : Nat) : Tokenizer.ByteOptions (byteLevelTrainer size freq) := by
  refine ⟨rfl, rfl, fun x => ?_, .inl rfl⟩
  obtain ⟨c, hc⟩ := Option.isSome_iff_exists.1 (ByteLevel.C29_defined x)
  have hb : ByteLevel.byteChar x = Char.ofNat c := by unfold ByteLevel.byteChar; rw [hc]; rfl
  have hm := AMap.mem_of_get_eq_some hc
  unfold byteLevelTrainer
  dsimp only
  generalize ByteLevel.bytesChar = l at hm
  exact List.mem_map.2 ⟨_, hm, hb.symm⟩

theorem schemeOf_anywhere (w : World) (r : Char) (b : Bool) : (w.toPre (.metaspace ⟨r, schemeOf b, true⟩)).Anywhere := by
  cases b <;> simp [World.toPre, PreTokenizer.Anywhere, schemeOf]

theorem both_none {a : Option α} {b : Option β} (h : a = none ∨ b = none) : both a b = none := by
  unfold both
  rcases h with h | h <;> rw [h]
  · rfl
  · cases a <;> rfl

/-! ## C92 -/

/-- The settings of a fresh `ByteLevelBPETokenizer()`. -/
def byteLevelConf (trim : Bool) : Conf :=
  { bare (.bpe none noBpe) .empty with
    preTok := some (.byteLevel ⟨false, true, true⟩)
    decoder := some (.byteLevel ⟨true, true, true⟩)
    proc := some (.byteLevel ⟨true, trim, true⟩) }

/-- **C92, byte level.** `ByteLevelBPETokenizer()`, trained on any texts, with any options: training ends, and then no text is
changed by encoding and decoding it. -/
theorem C92_byteLevel (w : World) (hre : ∀ s, NS.EngineMatches s 0 (w.byteLevel s)) {build : List (Str × Nat) → Bool}
    (hb : Automata build) (trim : Bool) {names : List Str} (hlit : ∀ x ∈ names, ByteLevel.Literal x)
    {order : AMap Char Nat → AMap Char Nat} (ho : Train.IsOrder order) (size freq : Nat) (tree : Train.Tree) :
    ∃ c b specials, byteLevel { trimOffsets := trim } = .ok c ∧ c.model = .bpe none b ∧
      trainerTokens (names.map .text) = some specials ∧
      ∃ k t', (∀ fuel, k ≤ fuel → (w.tokenizer c).train build (w.norm c.normalizer) tree
          (Tokenizer.bpeTrainer (byteLevelTrainer size freq) order fuel specials b w.coins) = (t', .ok ())) ∧
        Tokenizer.KeepsTexts t' ∧ ∀ x ∈ names, ∃ i, t'.vocab.get x = some i := by
  have hrec : Tokenizer.ByteRecipe (w.tokenizer (byteLevelConf trim)) w.byteLevel true :=
    ⟨rfl, fun _ => rfl, rfl, rfl, rfl, rfl, .inr ⟨_, _, rfl⟩⟩
  obtain ⟨k, t', h1, h2, h3⟩ := Tokenizer.C78_trained hrec hre hb (byteLevelTrainer_ok size freq) ho
    (specials := names.map fun s => AddedToken.ofStr s true) (by
      intro a ha
      obtain ⟨s, hs, rfl⟩ := List.mem_map.1 ha
      exact ⟨rfl, rfl⟩) (by
      intro a ha
      obtain ⟨s, hs, rfl⟩ := List.mem_map.1 ha
      exact hlit s hs) noBpe w.coins tree
  exact ⟨byteLevelConf trim, noBpe, _, rfl, rfl, trainerTokens_text names, k, t', h1, h2,
    fun x hx => h3 _ (List.mem_map.2 ⟨x, hx, rfl⟩)⟩

/-- The model of a fresh `SentencePieceBPETokenizer`. -/
def pieceModel (a : PieceArgs) : Bpe.Bpe :=
  { noBpe with unk := some a.unk, fuseUnk := a.fuseUnk, useDropout := activeDropout a.dropout }

/-- The settings of a fresh `SentencePieceBPETokenizer`. -/
def pieceConf (a : PieceArgs) : Conf :=
  { bare (.bpe a.dropout (pieceModel a)) .empty with
    normalizer := some .nfkc
    preTok := some (.metaspace ⟨a.replacement, schemeOf a.addPrefixSpace, true⟩)
    decoder := some (.metaspace ⟨a.replacement, schemeOf a.addPrefixSpace, true⟩) }

/-- **C92, Metaspace and BPE.** `SentencePieceBPETokenizer(…)`, trained on any texts: training ends, and then every text of seen
characters comes back in its form NFKC, as C94 says. -/
theorem C92_pieceBpe (w : World) (hu : w.uni.Ok) {build : List (Str × Nat) → Bool} (hb : Automata build) {a : PieceArgs}
    (hv : a.vocab = none ∨ a.merges = none) (hd : dropoutOk a.dropout = true) (hr : a.replacement ≠ ' ')
    {names : List Str} (hn : ∀ x ∈ names, x ≠ []) {order : AMap Char Nat → AMap Char Nat} (ho : Train.IsOrder order)
    (size freq limit : Nat) (initial : List Str) (tree : Train.Tree)
    (hroom : Train.EnoughRoom (pieceTrainer size freq limit initial)
      (tree.leaves.map (Tokenizer.metaForm w.uni .nfkc a.replacement (schemeOf a.addPrefixSpace)))) :
    ∃ c b specials, pieceBpe build a = .ok c ∧ c.model = .bpe a.dropout b ∧ trainerTokens (names.map .text) = some specials ∧
      ∃ k t', (∀ fuel, k ≤ fuel → (w.tokenizer c).train build (w.norm c.normalizer) tree
          (Tokenizer.bpeTrainer (pieceTrainer size freq limit initial) order fuel specials b w.coins) = (t', .ok ())) ∧
        ∀ s : Str, s ≠ [] →
          (∀ ch ∈ Tokenizer.metaForm w.uni .nfkc a.replacement (schemeOf a.addPrefixSpace) s, ∃ q ∈ tree.leaves, q ≠ [] ∧
            ch ∈ Tokenizer.metaForm w.uni .nfkc a.replacement (schemeOf a.addPrefixSpace) q) →
          (∀ x ∈ names, ¬ x <:+: s ∧ ¬ x <:+: Normalizer.nfkc.text w.uni s ∧
            ¬ x <:+: Tokenizer.metaForm w.uni .nfkc a.replacement (schemeOf a.addPrefixSpace) s) →
          ∀ add skip : Bool, (add = true → skip = true) →
          ∃ e, t'.encode (.raw s, none) add = .ok e ∧ t'.decode skip e.ids =
            some (Metaspace.restored (schemeOf a.addPrefixSpace) (Metaspace.unsub a.replacement (Normalizer.nfkc.text w.uni s))) := by
  have hc : pieceBpe build a = .ok (pieceConf a) := by
    unfold pieceBpe
    rw [both_none hv, mkBpe_none hd]
    rfl
  have hrec : Tokenizer.MetaRecipe (w.tokenizer (pieceConf a)) w.uni .nfkc w.tables a.replacement (schemeOf a.addPrefixSpace) :=
    ⟨pipeline_of w (c := pieceConf a) (n := some .nfkc) (y := .metaspace ⟨a.replacement, schemeOf a.addPrefixSpace, true⟩) rfl rfl rfl hu
      trivial trivial (schemeOf_anywhere w _ _), rfl, hr, rfl⟩
  obtain ⟨k, t', h1, -, h2⟩ := Tokenizer.C94_trained hrec hb (norm := w.norm (some .nfkc)) (tree := tree)
    (cfg := pieceTrainer size freq limit initial) ho rfl rfl (plain_names hn) hroom (pieceModel a) w.coins
  refine ⟨pieceConf a, pieceModel a, _, hc, rfl, trainerTokens_text names, k, t', h1, fun s hs hseen hfree add skip hskip =>
    h2 ⟨rfl, rfl, .inl (.inl rfl)⟩ s hs hseen (fun x hx => ?_) add skip hskip⟩
  obtain ⟨y, hy, rfl⟩ := List.mem_map.1 hx
  exact hfree y hy

/-- The model of a fresh `CharBPETokenizer`. -/
def charModel (a : CharArgs) : Bpe.Bpe :=
  { noBpe with unk := some a.unk, suf := some a.suffix, useDropout := activeDropout a.dropout }

/-- The pre-tokenizer of a `CharBPETokenizer`. -/
def charPre (a : CharArgs) : PreTokenizer := if a.splitOnWhitespaceOnly then .whitespaceSplit else .bert

/-- The settings of a fresh `CharBPETokenizer`. -/
def charConf (a : CharArgs) (u : List NormCfg) : Conf :=
  { bare (.bpe a.dropout (charModel a)) .empty with
    normalizer := normalizerOf (charNormalizers a u)
    preTok := some (if a.splitOnWhitespaceOnly then .whitespaceSplit else .bert)
    decoder := some (.bpe a.suffix) }

theorem safe_of (w : World) {l : List NormCfg} (h : ∀ n ∈ l, (w.toNorm n).Safe) : (w.normOf (normalizerOf l)).Safe := by
  have all : ∀ l : List NormCfg, (∀ n ∈ l, (w.toNorm n).Safe) → Normalizer.SafeAll (w.toNorms l) := by
    intro l
    induction l with
    | nil => intro _; trivial
    | cons a l ih => intro h; exact ⟨h a (by simp), ih fun n hn => h n (by simp [hn])⟩
  match l, h with
  | [], _ => trivial
  | [n], h => exact h n (by simp)
  | a :: b :: l, h => exact all _ h

theorem unicodeList_safe (w : World) {o : Option Str} {u : List NormCfg} (h : unicodeList o = .ok u) : ∀ n ∈ u, (w.toNorm n).Safe := by
  unfold unicodeList at h
  split at h
  · cases h; simp
  · cases h; simp
  · unfold unicodeNormalizer at h
    intro n hn
    repeat' split at h
    all_goals first
      | (cases h; rw [List.mem_singleton.1 hn]; trivial)
      | cases h

theorem charNormalizers_safe (w : World) {a : CharArgs} {u : List NormCfg} (h : unicodeList a.unicode = .ok u) :
    ∀ n ∈ charNormalizers a u, (w.toNorm n).Safe := by
  intro n hn
  unfold charNormalizers at hn
  rcases List.mem_append.1 hn with hn | hn
  · rcases List.mem_append.1 hn with hn | hn
    · exact unicodeList_safe w h n hn
    · split at hn
      · rw [List.mem_singleton.1 hn]; trivial
      · cases hn
  · split at hn
    · rw [List.mem_singleton.1 hn]; trivial
    · cases hn

/-- **C92, BPE with ends of words.** `CharBPETokenizer(…)`, trained on any texts with the suffix it was made with: training ends,
and then the words of every text come back, as C93 says. -/
theorem C92_charBpe (w : World) (hu : w.uni.Ok) {build : List (Str × Nat) → Bool} (hb : Automata build) {a : CharArgs}
    (hv : a.vocab = none ∨ a.merges = none) (hd : dropoutOk a.dropout = true) {u : List NormCfg}
    (hun : unicodeList a.unicode = .ok u) {r : Str} {c : Char} (hx : a.suffix = r ++ [c]) (hr : c ∉ r)
    {z : Normalizer} (hz : z = w.normOf (normalizerOf (charNormalizers a u)))
    {names : List Str} (hn : ∀ x ∈ names, x ≠ []) {order : AMap Char Nat → AMap Char Nat} (ho : Train.IsOrder order)
    (size freq limit : Nat) (initial : List Str) (tree : Train.Tree) {words : List Str}
    (hwords : words = tree.leaves.flatMap (Tokenizer.wordsOf w.uni z w.tables (charPre a)))
    (hroom : Train.EnoughRoom (charTrainer size freq limit initial (some a.suffix)) words) (hlast : ∀ x ∈ words, c ∉ x) :
    ∃ cf b specials, charBpe build a = .ok cf ∧ cf.model = .bpe a.dropout b ∧ trainerTokens (names.map .text) = some specials ∧
      ∃ k t', (∀ fuel, k ≤ fuel → (w.tokenizer cf).train build (w.norm cf.normalizer) tree
          (Tokenizer.bpeTrainer (charTrainer size freq limit initial (some a.suffix)) order fuel specials b w.coins) = (t', .ok ())) ∧
        ∀ s : Str, Tokenizer.wordsOf w.uni z w.tables (charPre a) s ≠ [] →
          (∀ x ∈ Tokenizer.wordsOf w.uni z w.tables (charPre a) s, Tokenizer.EndSeen words x) →
          (∀ x ∈ names, ¬ x <:+: s ∧ ¬ x <:+: z.text w.uni s ∧
            ∀ y ∈ Tokenizer.wordsOf w.uni z w.tables (charPre a) s, ¬ x <:+: y ++ a.suffix) →
          ∀ add skip : Bool, (add = true → skip = true) →
          ∃ e, t'.encode (.raw s, none) add = .ok e ∧
            t'.decode skip e.ids = some ([' '].intercalate (Tokenizer.wordsOf w.uni z w.tables (charPre a) s)) := by
  have hc : charBpe build a = .ok (charConf a u) := by
    unfold charBpe
    rw [both_none hv, mkBpe_none hd, hun]
    rfl
  have hy : w.toPre (if a.splitOnWhitespaceOnly then .whitespaceSplit else .bert) = charPre a := by
    unfold charPre
    split <;> rfl
  have hrec : Tokenizer.CharRecipe (w.tokenizer (charConf a u)) w.uni z w.tables (charPre a) (r ++ [c]) := by
    refine ⟨?_, by rw [← hx]; rfl, rfl⟩
    rw [hz, ← hy]
    refine pipeline_of w (c := charConf a u) rfl rfl rfl hu (safe_of w (charNormalizers_safe w hun)) ?_ ?_
    · split <;> trivial
    · split <;> trivial
  obtain ⟨k, t', h1, -, h2⟩ := Tokenizer.C93_trained hrec hr hb (norm := w.norm (charConf a u).normalizer) (tree := tree)
    (cfg := charTrainer size freq limit initial (some a.suffix)) ho rfl (by rw [← hx]; rfl) (plain_names hn) hwords hroom hlast
    (charModel a) (.inr rfl) w.coins
  refine ⟨charConf a u, charModel a, _, hc, rfl, trainerTokens_text names, k, t', h1, fun s hs hseen hfree add skip hskip =>
    h2 ⟨rfl, rfl, .inl (.inl rfl)⟩ s hs hseen (fun x hx' => ?_) add skip hskip⟩
  obtain ⟨y, hy, rfl⟩ := List.mem_map.1 hx'
  rw [← hx]
  exact hfree y hy

/-- Two or more spaces, the pattern of `SentencePieceUnigramTokenizer`. -/
def spaces : Pat := .regex " {2,}".toList

/-- The normalizer of a `SentencePieceUnigramTokenizer`. -/
def unigramNorm (w : World) : Normalizer := .sequence [.nmt, .nfkc, .replace (w.matches' spaces) " ".toList]

/-- The normalized text: first as `Nmt` does it, then NFKC, then every run of spaces written as one. -/
def unigramText (u : Unicode) (s : Str) : Str := Re.squeeze (Normalizer.nfkc.text u (Normalizer.nmt.text u s))

theorem unigramNorm_text {w : World} (hm : w.matches' spaces = Re.findIter Re.manySpaces) (s : Str) :
    (unigramNorm w).text w.uni s = unigramText w.uni s := by
  show (Normalizer.replace (w.matches' spaces) [' ']).text w.uni _ = _
  rw [hm, Re.C71_spaces]
  rfl

/-- The settings of a fresh `SentencePieceUnigramTokenizer`. -/
def unigramConf (m : Mod) (r : Char) (b : Bool) : Conf :=
  { bare m .empty with
    normalizer := some (.sequence [.nmt, .nfkc, .replace ⟨spaces, " ".toList⟩])
    preTok := some (.metaspace ⟨r, schemeOf b, true⟩)
    decoder := some (.metaspace ⟨r, schemeOf b, true⟩) }

/-- **C92, Metaspace and Unigram.** `SentencePieceUnigramTokenizer(…)` and training that ends, on texts in which the special tokens
and the unknown token are not written: every text of seen characters comes back in its normalized form, as C84 says. -/
theorem C92_pieceUnigram (w : World) (hu : w.uni.Ok) {build : List (Str × Nat) → Bool} (hb : Automata build)
    (hm : w.matches' spaces = Re.findIter Re.manySpaces)
    {r : Char} (hr : r ≠ ' ') (b : Bool) {names : List Str} (hnd : names.Nodup) (size : Nat) (initial : List Str) (unk : Option Str)
    {ar : Train.Arith} {order : List Char → List Char} (ho : Train.SetOrder order) {suffix : AMap Str Nat → List (Str × Nat)}
    (hsub : Tokenizer.Substrings suffix) (tree : Train.Tree) :
    ∃ c specials, pieceUnigram none r b = .ok c ∧ trainerTokens (names.map .text) = some specials ∧
      ∀ fuel t', (w.tokenizer c).train build (w.norm c.normalizer) tree
          (Tokenizer.unigramTrainer (unigramTrainer size initial unk specials) ar order suffix fuel specials) = (t', .ok ()) →
        (∀ x, x ∈ names ∨ unk = some x → (∀ ch ∈ firstChars initial, x ≠ [ch]) ∧
          ∀ s ∈ tree.leaves, ¬ x <:+: Tokenizer.metaForm w.uni (unigramNorm w) r (schemeOf b) s) →
        ∀ s : Str, s ≠ [] →
          (∀ ch ∈ Tokenizer.metaForm w.uni (unigramNorm w) r (schemeOf b) s, ch ∈ firstChars initial ∨
            ∃ q ∈ tree.leaves, q ≠ [] ∧ ch ∈ Tokenizer.metaForm w.uni (unigramNorm w) r (schemeOf b) q) →
          (∀ x, x ∈ names ∨ unk = some x → x ≠ [] ∧ ¬ x <:+: s ∧ ¬ x <:+: unigramText w.uni s ∧
            ¬ x <:+: Tokenizer.metaForm w.uni (unigramNorm w) r (schemeOf b) s) →
          ∀ add skip : Bool, (add = true → skip = true) →
          ∃ e, t'.encode (.raw s, none) add = .ok e ∧ t'.decode skip e.ids =
            some (Metaspace.restored (schemeOf b) (Metaspace.unsub r (unigramText w.uni s))) := by
  rw [show unigramText w.uni = (unigramNorm w).text w.uni from (funext (unigramNorm_text hm)).symm]
  obtain ⟨m, hc⟩ : ∃ m, pieceUnigram none r b = .ok (unigramConf m r b) := ⟨_, rfl⟩
  have hsafe : (unigramNorm w).Safe := by
    refine ⟨trivial, trivial, fun s => ?_, trivial⟩
    rw [hm]
    refine ⟨Re.C71_engine _ s, fun h => ?_⟩
    have := Re.manySpaces_long s (0, 0) (List.mem_of_mem_head? (by rw [h]; rfl))
    omega
  have hrec : Tokenizer.MetaRecipe (w.tokenizer (unigramConf m r b)) w.uni (unigramNorm w) w.tables r (schemeOf b) :=
    ⟨pipeline_of w (c := unigramConf m r b) (n := some (.sequence [.nmt, .nfkc, .replace ⟨spaces, " ".toList⟩]))
      (y := .metaspace ⟨r, schemeOf b, true⟩) rfl rfl rfl hu hsafe trivial (schemeOf_anywhere w _ _), rfl, hr, rfl⟩
  have hcont : (names.map fun s => AddedToken.ofStr s true).map (·.content) = names := by
    rw [List.map_map]; exact List.map_id' _
  refine ⟨_, _, hc, trainerTokens_text names, fun fuel t' htr hres s hs hseen hfree add skip hskip => ?_⟩
  have hR : ∀ x, Tokenizer.Reserved (unigramTrainer size initial unk (names.map fun s => AddedToken.ofStr s true)) x →
      x ∈ names ∨ unk = some x := by
    intro x hx
    rcases hx with hx | hx
    · left
      have e : (unigramTrainer size initial unk (names.map fun s => AddedToken.ofStr s true)).special = names := hcont
      rwa [e] at hx
    · exact .inr hx
  exact Tokenizer.C84_trained hrec hb htr rfl ho hsub (fun x hx => by
    obtain ⟨y, -, rfl⟩ := List.mem_map.1 hx; exact ⟨rfl, rfl, rfl, rfl⟩) (by rw [hcont]; exact hnd)
    ⟨rfl, rfl, .inl (.inl rfl)⟩ (fun x hx => hres x (hR x hx)) hs hseen (fun x hx => hfree x (hR x hx)) hskip

/-- The normalizer of a `BertWordPieceTokenizer`. -/
def bertNorm (a : BertArgs) : Normalizer := .bert a.cleanText a.handleChinese a.stripAccents a.lowercase

/-- The model of a fresh `BertWordPieceTokenizer`. -/
def bertModel (a : BertArgs) : WordPiece := { Train.defaultWordPiece with vocab := [], unkToken := a.unk }

/-- The settings of a fresh `BertWordPieceTokenizer`. -/
def bertConf (a : BertArgs) : Conf :=
  { bare (.wordPiece (bertModel a)) .empty with
    normalizer := some (.bert a.cleanText a.handleChinese a.stripAccents a.lowercase)
    preTok := some .bert
    decoder := some (.wordPiece a.pre true) }

theorem bert_none (build : List (Str × Nat) → Bool) {a : BertArgs} (hv : a.vocab = none) : bert build a = .ok (bertConf a) := by
  unfold bert
  rw [hv]
  rfl

/-- **C92, BERT.** `BertWordPieceTokenizer(…)` and training that ends, with the prefix the tokenizer was made with and with the
unknown token among the special tokens: the words of every text of seen characters come back, as C85 says. -/
theorem C92_bert (w : World) (hu : w.uni.Ok) (hsp : w.tables.ws ' ' = true) {build : List (Str × Nat) → Bool} (hb : Automata build)
    {a : BertArgs} (hv : a.vocab = none) (hpre : ∃ c p, a.pre = c :: p ∧ p ≠ [] ∧ PreTokenizer.Punct w.tables c = true)
    {names : List Str} (hunk : a.unk ∈ names) (hplain : Dec.Plain a.unk) (hn : ∀ x ∈ names, x ≠ [] ∧ ¬ a.pre <+: x)
    {order : AMap Char Nat → AMap Char Nat} (ho : Train.IsOrder order) (size freq limit : Nat) (initial : List Str) (tree : Train.Tree)
    {words : List Str} (hwords : words = tree.leaves.flatMap fun q => if q = [] then [] else
      Tokenizer.bertWords w.uni (bertNorm a) w.tables q) :
    ∃ c specials, bert build a = .ok c ∧ trainerTokens (names.map .text) = some specials ∧
      (Train.EnoughRoom (bertTrainer size freq limit initial a.pre specials) words →
      ∀ fuel t', (w.tokenizer c).train build (w.norm c.normalizer) tree
          (Tokenizer.wordPieceTrainer (bertTrainer size freq limit initial a.pre specials) order fuel specials (bertModel a)) =
            (t', .ok ()) →
        ∀ s : Str, s ≠ [] →
          (∀ x ∈ Tokenizer.bertWords w.uni (bertNorm a) w.tables s, x.length ≤ 100 ∧ Tokenizer.SeenIn words x) →
          (∀ x ∈ names, ¬ x <:+: s ∧ ¬ x <:+: (bertNorm a).text w.uni s) →
          ∀ add skip : Bool, (add = true → skip = true) →
          ∃ e, t'.encode (.raw s, none) add = .ok e ∧ t'.decode skip e.ids =
            some (Dec.glue (Dec.tightIf true) (Tokenizer.bertWords w.uni (bertNorm a) w.tables s))) := by
  have hrec : Tokenizer.BertRecipe (w.tokenizer (bertConf a)) w.uni (bertNorm a) w.tables a.pre true :=
    ⟨pipeline_of w (c := bertConf a) (n := some (.bert a.cleanText a.handleChinese a.stripAccents a.lowercase)) (y := .bert)
      rfl rfl rfl hu trivial trivial trivial, rfl, rfl, hsp, hpre⟩
  have hcont : (names.map fun s => AddedToken.ofStr s true).map (·.content) = names := by
    rw [List.map_map]; exact List.map_id' _
  refine ⟨_, _, bert_none build hv, trainerTokens_text names, fun hroom fuel t' htr s hs hseen hfree add skip hskip => ?_⟩
  subst hwords
  exact Tokenizer.C85_trained hrec hb htr rfl ho hroom rfl rfl (by
      show a.unk ∈ (names.map fun s => AddedToken.ofStr s true).map (·.content)
      rw [hcont]; exact hunk) hplain (fun x hx => by
    obtain ⟨y, hy, rfl⟩ := List.mem_map.1 hx; exact ⟨rfl, rfl, rfl, rfl, hn y hy⟩)
    ⟨rfl, rfl, .inl (.inl rfl)⟩ hs hseen (fun x hx => by obtain ⟨y, hy, rfl⟩ := List.mem_map.1 hx; exact hfree y hy) hskip

/-- Only tokens of the model were added, as special tokens. -/
structure Learned (m : ModelView) (done : List Str) (av : AddedVocab) : Prop where
  ids : ∀ c i, av.map.get c = some i → m.toId c = some i
  stored : ∀ i t, av.rmap.get i = some t → t.content ∈ av.specials
  specials : ∀ x, x ∈ av.specials ↔ x ∈ done ∧ x ≠ [] ∧ m.toId x ≠ none

theorem Learned.toId {m : ModelView} {done : List Str} {av : AddedVocab} (h : Learned m done av) (c : Str) :
    av.tokenToId m c = m.toId c := by
  unfold tokenToId
  cases hc : av.map.get c with
  | none => rfl
  | some i => rw [h.ids c i hc]; rfl

theorem addKnown_learned (build : List (Str × Nat) → Bool) (m : Mod) {done : List Str} {av : AddedVocab}
    (h : Learned m.view done av) (x : Str) : Learned m.view (x :: done) (addKnown build m av x) := by
  unfold addKnown
  rw [h.toId]
  cases hx : m.view.toId x with
  | none =>
    refine ⟨h.ids, h.stored, fun y => ?_⟩
    dsimp only
    rw [h.specials, List.mem_cons]
    constructor
    · rintro ⟨h1, h2⟩; exact ⟨.inr h1, h2⟩
    · rintro ⟨rfl | h1, h2, h3⟩
      · exact absurd hx h3
      · exact ⟨h1, h2, h3⟩
  | some j =>
    dsimp only
    obtain ⟨ign, r, e, h1, h2, h3, -⟩ := addTokens_fst build m.view none av [AddedToken.ofStr x true]
    unfold addLoop at e
    split at e
    · rename_i hnil
      have hx0 : x = [] := hnil
      cases e
      refine ⟨by rw [h1]; exact h.ids, by rw [h2, h3]; exact h.stored, fun y => ?_⟩
      rw [h3, h.specials, List.mem_cons]
      constructor
      · rintro ⟨k1, k2⟩; exact ⟨.inr k1, k2⟩
      · rintro ⟨rfl | k1, k2, k3⟩
        · exact absurd hx0 k2
        · exact ⟨k1, k2, k3⟩
    · rename_i hne
      have hx0 : x ≠ [] := hne
      split at e
      · rename_i hp
        cases e
        have hin : x ∈ av.specials := by
          unfold present at hp
          split at hp
          · exact h.stored _ _ (of_decide_eq_true hp)
          · cases hp
        refine ⟨by rw [h1]; exact h.ids, by rw [h2, h3]; exact h.stored, fun y => ?_⟩
        rw [h3, List.mem_cons]
        constructor
        · intro k; have := (h.specials y).1 k; exact ⟨.inr this.1, this.2⟩
        · rintro ⟨rfl | k1, k2, k3⟩
          · exact hin
          · exact (h.specials y).2 ⟨k1, k2, k3⟩
      · have hf : av.tokenToId m.view (AddedToken.ofStr x true).content = some j := (h.toId x).trans hx
        have hnf : normalForm none (AddedToken.ofStr x true) = some none := rfl
        rw [hf, hnf] at e
        dsimp only at e
        unfold addLoop at e
        cases e
        have hs : ∀ y, y ∈ (av.store j (AddedToken.ofStr x true) none).specials ↔ y = x ∨ y ∈ av.specials := by
          intro y
          unfold store
          dsimp only
          split
          · exact List.mem_cons
          · rename_i hno
            have hin : x ∈ av.specials := Classical.byContradiction fun hn => hno ⟨rfl, hx0, hn⟩
            constructor
            · exact .inr
            · rintro (rfl | k)
              · exact hin
              · exact k
        refine ⟨?_, ?_, fun y => ?_⟩
        · rw [h1]
          intro c i hc
          have hc' : (av.map.insert x j).get c = some i := hc
          rw [AMap.get_insert] at hc'
          split at hc'
          · cases hc'; rename_i e; rw [e] at hx; exact hx
          · exact h.ids c i hc'
        · rw [h2, h3]
          intro i t ht
          have ht' : (av.rmap.insert j (AddedToken.ofStr x true)).get i = some t := ht
          rw [AMap.get_insert] at ht'
          refine (hs _).2 ?_
          split at ht'
          · cases ht'; exact .inl rfl
          · exact .inr (h.stored i t ht')
        · rw [h3, show (Option.some j).getD (av.nextId m.view) = j from rfl, hs, h.specials, List.mem_cons]
          constructor
          · rintro (rfl | ⟨k1, k2⟩)
            · exact ⟨.inl rfl, hx0, by rw [hx]; simp⟩
            · exact ⟨.inr k1, k2⟩
          · rintro ⟨rfl | k1, k2⟩
            · exact .inl rfl
            · exact .inr ⟨k1, k2⟩

theorem addKnown_all (build : List (Str × Nat) → Bool) (m : Mod) : ∀ (l : List Str) {done : List Str} {av : AddedVocab},
    Learned m.view done av → Learned m.view (l.reverse ++ done) (l.foldl (addKnown build m) av)
  | [], _, _, h => h
  | x :: l, done, av, h => by
    have := addKnown_all build m l (addKnown_learned build m h x)
    rw [List.reverse_cons, List.append_assoc]
    exact this

/-- **C92, BERT from a vocabulary.** `BertWordPieceTokenizer(vocab, …)` raises an error, `TypeError`, exactly when the separator or
the classifier is not in the vocabulary. Otherwise its post-processor has the ids of the vocabulary, no token gets an id that it
has not in the vocabulary, and the special tokens are those of the five that are in the vocabulary. -/
theorem C92_bertVocab (build : List (Str × Nat) → Bool) {a : BertArgs} {v : AMap Str Nat} (hv : a.vocab = some v) :
    (∀ i j, v.get a.sep = some i → v.get a.cls = some j → ∃ c, bert build a = .ok c ∧
      c.proc = some (.bert (a.sep, i) (a.cls, j)) ∧ (∀ x, c.added.tokenToId c.model.view x = v.get x) ∧
      ∀ x, x ∈ c.added.specials ↔ x ∈ [a.unk, a.sep, a.cls, a.pad, a.mask] ∧ x ≠ [] ∧ v.get x ≠ none) ∧
    (v.get a.sep = none ∨ v.get a.cls = none → bert build a = .error .type) := by
  have L := addKnown_all build (Mod.wordPiece { Train.defaultWordPiece with vocab := v, unkToken := a.unk })
    [a.unk, a.sep, a.cls, a.pad, a.mask] (done := []) (av := .empty)
    ⟨fun c i (h : none = some i) => (nomatch h), fun i t (h : none = some t) => (nomatch h), fun x => by simp [AddedVocab.empty]⟩
  have hview : ∀ x, (Mod.wordPiece { Train.defaultWordPiece with vocab := v, unkToken := a.unk }).view.toId x = v.get x :=
    fun _ => rfl
  constructor
  · intro i j hi hj
    unfold bert
    rw [hv]
    dsimp only [Option.getD_some]
    rw [L.toId, L.toId, hview, hview, hi, hj]
    refine ⟨_, rfl, rfl, fun x => ?_, fun x => ?_⟩
    · exact (L.toId x).trans (hview x)
    · refine (L.specials x).trans ?_
      rw [hview]
      simp only [List.reverse_cons, List.reverse_nil, List.nil_append, List.cons_append, List.mem_cons, List.not_mem_nil, or_false]
      constructor
      · rintro ⟨h, h'⟩; exact ⟨by rcases h with h | h | h | h | h <;> simp [h], h'⟩
      · rintro ⟨h, h'⟩; exact ⟨by rcases h with h | h | h | h | h <;> simp [h], h'⟩
  · intro h
    unfold bert
    rw [hv]
    dsimp only [Option.getD_some]
    rw [L.toId, L.toId, hview, hview]
    rcases h with h | h
    · rw [h]
    · rw [h]
      cases v.get a.sep <;> rfl

/-! ## Tables given to `ByteLevelBPETokenizer` -/

/-- The model without prefix and suffix. -/
def noAffixes (b : Bpe.Bpe) : Bpe.Bpe := { b with pre := none, suf := none }

theorem charSym_affixes {b : Bpe.Bpe} (hp : b.pre.getD [] = []) (hs : b.suf.getD [] = []) (f l : Bool) (c : Char) :
    Bpe.charSym b f l c = Bpe.charSym (noAffixes b) f l c := by
  unfold Bpe.charSym noAffixes
  cases h1 : b.pre with
  | none =>
    cases h2 : b.suf with
    | none => rfl
    | some x => rw [h2] at hs; cases (show x = [] from hs); cases f <;> cases l <;> rfl
  | some p =>
    rw [h1] at hp; cases (show p = [] from hp)
    cases h2 : b.suf with
    | none => cases f <;> cases l <;> rfl
    | some x => rw [h2] at hs; cases (show x = [] from hs); cases f <;> cases l <;> rfl

theorem initLoop_affixes {b : Bpe.Bpe} (hp : b.pre.getD [] = []) (hs : b.suf.getD [] = []) : ∀ (w : Str) (f : Bool) (st : Bpe.InitSt),
    Bpe.initLoop b f w st = Bpe.initLoop (noAffixes b) f w st
  | [], _, _ => rfl
  | c :: cs, f, st => by
    unfold Bpe.initLoop
    have : Bpe.stepChar b st f cs.isEmpty c = Bpe.stepChar (noAffixes b) st f cs.isEmpty c := by
      unfold Bpe.stepChar
      rw [charSym_affixes hp hs]
      rfl
    rw [this]
    cases Bpe.stepChar (noAffixes b) st f cs.isEmpty c with
    | none => rfl
    | some st' => exact initLoop_affixes hp hs cs false st'

/-- An empty prefix is no prefix, an empty suffix no suffix. -/
theorem tokenize_affixes {b : Bpe.Bpe} (hp : b.pre.getD [] = []) (hs : b.suf.getD [] = []) (coins : Nat → Bool) (w : Str) :
    Bpe.tokenize b coins w = Bpe.tokenize (noAffixes b) coins w := by
  have key : ∀ coins, Bpe.mergeToTokens b coins w = Bpe.mergeToTokens (noAffixes b) coins w := by
    intro coins
    unfold Bpe.mergeToTokens Bpe.mergeWord Bpe.initSyms
    rw [initLoop_affixes hp hs]
    rfl
  unfold Bpe.tokenize
  rw [key, key]
  rfl

/-- The settings of a `ByteLevelBPETokenizer` with tables. -/
def tablesConf (dropout : Option Rat) (b : Bpe.Bpe) (trim : Bool) : Conf :=
  { bare (.bpe dropout b) .empty with
    preTok := some (.byteLevel ⟨false, true, true⟩)
    decoder := some (.byteLevel ⟨true, true, true⟩)
    proc := some (.byteLevel ⟨true, trim, true⟩) }

/-- **C92, byte level with tables.** `ByteLevelBPETokenizer(vocab, merges)` with any vocabulary whose ids are `0..n` and that has the
256 characters of bytes, and with any merges of tokens to tokens, gives every text back. The constructor sets an empty prefix and
an empty suffix, which does not matter. -/
theorem C92_byteLevelVocab (w : World) (hre : ∀ s, NS.EngineMatches s 0 (w.byteLevel s)) (trim : Bool) {dropout : Option Rat}
    (hd : dropoutOk dropout = true) {v : AMap Str Nat} {ms : List (Str × Str)} (hwf : v.WF)
    (hinj : ∀ x y i, v.get x = some i → v.get y = some i → x = y) (hids : ∀ x i, v.get x = some i → i < v.length)
    (habc : ∀ x : UInt8, ∃ i, v.get [ByteLevel.byteChar x] = some i)
    (hms : ∀ p ∈ ms, p.1 ≠ [] ∧ p.2 ≠ [] ∧ ∀ x ∈ [p.1, p.2, p.1 ++ p.2], ∃ i, v.get x = some i) :
    ∃ c, byteLevel { vocab := some v, merges := some ms, dropout := dropout, trimOffsets := trim } = .ok c ∧
      Tokenizer.KeepsTexts (w.tokenizer c) := by
  let o : Bpe.Bpe := { noBpe with pre := some [], suf := some [], useDropout := activeDropout dropout }
  obtain ⟨b, hb⟩ : ∃ b, Bpe.build v ms o = .ok b := by
    refine (Bpe.C20_build_ok_iff v ms o).2 fun p hp => ?_
    obtain ⟨h1, h2, h3⟩ := hms p hp
    obtain ⟨i, hi⟩ := h3 p.1 (by simp)
    obtain ⟨j, hj⟩ := h3 p.2 (by simp)
    obtain ⟨k, hk⟩ := h3 (p.1 ++ p.2) (by simp)
    exact ⟨i, j, k, hi, hj, p.2, ⟨[], rfl, rfl⟩, hk⟩
  have hc : byteLevel { vocab := some v, merges := some ms, dropout := dropout, trimOffsets := trim } = .ok (tablesConf dropout b trim) := by
    have h1 : mkBpe (some (v, ms)) dropout { noBpe with pre := some [], suf := some [] } = .ok (.bpe dropout b) := by
      unfold mkBpe
      rw [if_pos hd]
      show (match Bpe.build v ms o with | .ok b => Except.ok (Mod.bpe dropout b) | _ => .error Raised.build) = _
      rw [hb]
    have h2 : byteLevel { vocab := some v, merges := some ms, dropout := dropout, trimOffsets := trim } =
        (mkBpe (some (v, ms)) dropout { noBpe with pre := some [], suf := some [] } >>= fun m =>
          .ok { bare m .empty with
            preTok := some (.byteLevel ⟨false, true, true⟩)
            decoder := some (.byteLevel ⟨true, true, true⟩)
            proc := some (.byteLevel ⟨true, trim, true⟩) }) := rfl
    rw [h2, h1]
    rfl
  have e := (Bpe.build_merges hb).2
  have ev : b.vocab = v := by rw [e]
  have hp : b.pre = some [] := by rw [e]
  have hs : b.suf = some [] := by rw [e]
  have hbuilt : Bpe.Built (noAffixes b) := by
    refine ⟨⟨ms, { o with pre := none, suf := none }, ?_, ⟨?_, ?_, ?_⟩⟩, ?_, ?_⟩
    · have h1 : Bpe.buildMerges v 0 0 ms [] = .ok b.merges := (Bpe.build_merges hb).1
      show Bpe.build b.vocab ms { o with pre := none, suf := none } = _
      rw [ev]
      unfold Bpe.build
      rw [show blen (({ o with pre := none, suf := none } : Bpe.Bpe).pre.getD []) = 0 from rfl, h1]
      show Outcome.ok _ = Outcome.ok (noAffixes b)
      congr 1
      conv => rhs; rw [e]
      rfl
    · intro p hp; exact ⟨p.2, rfl, (hms p hp).2.1⟩
    · intro p hp; exact (hms p hp).1
    · intro p hp b' _ _; exact List.nil_prefix
    · show b.vocab.WF
      rw [ev]; exact hwf
    · show Bpe.IdsDistinct b.vocab
      rw [ev]; exact hinj
  have hrec : Tokenizer.IsByteBpe (w.tokenizer (tablesConf dropout b trim)) (noAffixes b) w.byteLevel true w.coins := by
    refine ⟨rfl, fun _ => rfl, fun x => ?_, rfl, rfl, hbuilt, ⟨rfl, rfl⟩, ?_, ?_⟩
    · show Tokenizer.bpeResult (Bpe.tokenize b (w.coins x) x) = _
      rw [tokenize_affixes (by rw [hp]; rfl) (by rw [hs]; rfl)]
    · show ∀ x : UInt8, ∃ i, b.vocab.get _ = _
      rw [ev]; exact habc
    · show ∀ s i, b.vocab.get s = some i → i < b.vocab.length
      rw [ev]; exact hids
  refine ⟨_, hc, fun s add => ?_⟩
  obtain ⟨e, g1, g2⟩ := Tokenizer.C44_lossless hrec hre (build := fun _ => false) (by simp) (ops := []) rfl rfl (by simp [tokensOf])
    (by simp [tokensOf]) ⟨rfl, rfl, .inr ⟨_, _, rfl⟩⟩ s add
  exact ⟨e, g1, g2, Stream.C77_decoded (.inr (.inl rfl)) g2⟩

end Classes
end Tok
