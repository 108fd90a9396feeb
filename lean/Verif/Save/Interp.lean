import Verif.Save.File
import Verif.Tokenizer.Lossless
import Verif.Normalizers.Model
import Verif.PreTokenizers.Model

/-!
# What a tokenizer given by its settings does

`Conf` has the settings of the components, as they stand in the file; the components with their methods are in
`Normalizers/Model`, `PreTokenizers/Model`, `Codec/Wrapper`, `Post/Model`, the models, and `Tokenizer/Model`. Here the
first are turned into the second.
-/

namespace Tok.Save

/-- What a tokenizer depends on besides its settings: the tables of characters, the engine of regular expressions (as the
matches of a pattern in a text), the crate `spm_precompiled` (as the entry of a charsmap for a text), the random numbers
of dropout, and whether the crate is compiled with overflow checks. -/
structure World where
  cl : AddedVocab.Classes
  ws : Char → Bool
  checked : Bool
  uni : Unicode
  tables : CharTables
  matches' : Pat → Str → List Range
  /-- the matches of the fixed pattern of `ByteLevel` (`pre_tokenizers/byte_level.rs:41-45`) -/
  byteLevel : Str → List Range
  charsmap : Str → Str → Option Str
  coins : Str → Nat → Bool

mutual
/-- `NormalizerWrapper` (`normalizers/mod.rs:22-38`) from its settings. -/
def World.toNorm (w : World) : NormCfg → Normalizer
  | .bert a b c d => .bert a b c d
  | .strip a b => .strip a b
  | .stripAccents => .stripAccents
  | .nfc => .nfc
  | .nfd => .nfd
  | .nfkc => .nfkc
  | .nfkd => .nfkd
  | .sequence l => .sequence (w.toNorms l)
  | .lowercase => .lowercase
  | .nmt => .nmt
  | .precompiled s => .precompiled (w.charsmap s)
  | .replace c => .replace (w.matches' c.pattern) c.content
  | .prepend s => .prepend s
  | .byteLevel => .byteLevel

/-- The elements of a sequence of normalizers. -/
def World.toNorms (w : World) : List NormCfg → List Normalizer
  | [] => []
  | n :: l => w.toNorm n :: w.toNorms l
end

mutual
/-- `PreTokenizerWrapper` (`pre_tokenizers/mod.rs:29-43`) from its settings. -/
def World.toPre (w : World) : PreCfg → PreTokenizer
  | .bert => .bert
  | .byteLevel c => .byteLevel ⟨c.addPrefixSpace, c.useRegex⟩ w.byteLevel
  | .delimiter c => .delimiter c
  | .metaspace c => .metaspace ⟨c.replacement, c.scheme, c.split⟩
  | .whitespace => .whitespace
  | .sequence l => .sequence (w.toPres l)
  | .split p b i => .split (w.matches' p) b i
  | .punctuation b => .punctuation b
  | .whitespaceSplit => .whitespaceSplit
  | .digits b => .digits b
  | .unicodeScripts => .unicodeScripts
  | .fixedLength n => .fixedLength n

/-- The elements of a sequence of pre-tokenizers. -/
def World.toPres (w : World) : List PreCfg → List PreTokenizer
  | [] => []
  | n :: l => w.toPre n :: w.toPres l
end

mutual
/-- `DecoderWrapper` (`decoders/mod.rs:27-40`) from its settings. -/
def World.toDec (w : World) : DecCfg → Dec.Decoder
  | .bpe s => .bpe s
  | .byteLevel _ => .byteLevel
  | .wordPiece p c => .wordPiece p c
  | .metaspace c => .metaspace c.replacement c.scheme
  | .ctc p d c => .ctc p d c
  | .sequence l => .sequence (w.toDecs l)
  | .replace c => .replace (w.matches' c.pattern) c.content
  | .fuse => .fuse
  | .strip c a b => .strip c a b
  | .byteFallback => .byteFallback

/-- The elements of a sequence of decoders. -/
def World.toDecs (w : World) : List DecCfg → List Dec.Decoder
  | [] => []
  | n :: l => w.toDec n :: w.toDecs l
end

mutual
/-- `PostProcessorWrapper` (`processors/mod.rs:17-28`) from its settings. -/
def ProcCfg.toProc : ProcCfg → Post.Proc
  | .roberta s c t a => .roberta ⟨s, c⟩ t a
  | .bert s c => .bert ⟨s, c⟩
  | .byteLevel c => .byteLevel c.addPrefixSpace c.trimOffsets
  | .template t => .template t
  | .sequence l => .sequence (ProcCfg.toProcs l)

/-- The elements of a sequence of post-processors. -/
def ProcCfg.toProcs : List ProcCfg → List Post.Proc
  | [] => []
  | n :: l => n.toProc :: ProcCfg.toProcs l
end

/-- The result of `WordPiece` and `WordLevel`. -/
def plainResult : Except Unit (List Token) → Except EncErr (List Token) := Tokenizer.mapErr fun _ => .model 0

/-- The result of `Unigram`. -/
def uniResult : Outcome UniErr (List Token) → Except EncErr (List Token)
  | .ok ts => .ok ts
  | .err _ => .error (.model 1)
  | .panic => .error (.model 2)

/-- `ModelWrapper::tokenize` (`models/mod.rs:146-153`). -/
def World.toModel (w : World) : Mod → Str → Except EncErr (List Token)
  | .bpe _ b, s => Tokenizer.bpeResult (Bpe.tokenize b (w.coins s) s)
  | .wordPiece m, s => plainResult (m.tokenize s)
  | .wordLevel m, s => plainResult (m.tokenize s)
  | .unigram u, s => uniResult (u.tokenize s)

/-- `ModelWrapper::get_vocab` (`models/mod.rs:173-180`). -/
def Mod.vocab : Mod → AMap Str Nat
  | .bpe _ b => b.vocab
  | .wordPiece m => m.vocab
  | .wordLevel m => m.vocab
  | .unigram u => u.tokenToIds

/-- What the added vocabulary does with the normalizer (`tokenizer/added_vocabulary.rs:316-322`, `361-367`): the content is
normalized on its own. A panic is taken as an error here. -/
def World.norm (w : World) : Option NormCfg → AddedVocab.Norm
  | none => none
  | some n => some fun s => ((w.toNorm n).apply w.uni (NS.ofStr s)).map (·.norm)

/-- What is done to a piece of text by the optional normalizer (`tokenizer/added_vocabulary.rs:550`). -/
def World.normalizer (w : World) : Option NormCfg → NS → Option NS
  | none => some
  | some n => (w.toNorm n).apply w.uni

/-- `do_pre_tokenize` (`tokenizer/mod.rs:1247-1257`). -/
def World.preTok (w : World) : Option PreCfg → PTS → Except EncErr PTS
  | none => .ok
  | some n => fun p => Tokenizer.mapErr (fun _ => .preTok 0) ((w.toPre n).apply w.tables p)

/-- `TokenizerImpl` (`tokenizer/mod.rs:512-529`) from its settings. -/
def World.tokenizer (w : World) (c : Conf) : Tokenizer where
  cl := w.cl
  ws := w.ws
  checked := w.checked
  added := c.added
  normalizer := w.normalizer c.normalizer
  preTok := w.preTok c.preTok
  model := w.toModel c.model
  view := c.model.view
  vocab := c.model.vocab
  settings := ⟨c.truncation, c.padding, c.proc.map (·.toProc)⟩
  decoder := c.decoder.map w.toDec

end Tok.Save
