import Verif.Save.Json
import Verif.Post.Model
import Verif.Norm.Pattern
import Verif.Codec.Metaspace

/-!
# Writing and reading the components of `tokenizer.json`

`Serialize`/`Deserialize` of the normalizers, pre-tokenizers, decoders and post-processors. A component is given by its
settings, as in the structures of the crate; a regular expression by its source. Reading follows the wrappers: a known
`type` decides which structure is read, otherwise the structures are tried in order.

Where a structure is derived with `#[serde(tag = "type")]` only, the `type` is written but not looked at when reading;
with `impl_serde_type!` (`utils/mod.rs:129-213`) or an own implementation it must be the right one.
-/

namespace Tok.Save
open Json

/-- `ReplacePattern`, `SplitPattern` (`normalizers/replace.rs:13-17`, `pre_tokenizers/split.rs:9-13`). -/
inductive Pat where
  | str (s : Str)
  | regex (s : Str)
deriving DecidableEq, Repr

/-- What reading depends on outside of the crate: which patterns the engine compiles, which charsmaps the crate
`spm_precompiled` accepts. -/
structure Env where
  compiles : Pat → Bool
  charsmap : Str → Bool

/-- An enumeration with one field per name is written `{"Name": value}`. -/
def writePat : Pat → Json
  | .str s => .obj [("String".toList, .str s)]
  | .regex s => .obj [("Regex".toList, .str s)]

/-- The derived `Deserialize` of `ReplacePattern` and `SplitPattern`. -/
def readPat : Json → Option Pat
  | .obj [(k, .str s)] => if k = "String".toList then some (.str s) else if k = "Regex".toList then some (.regex s) else none
  | _ => none

/-- The pattern of a structure that compiles it (`Replace::new`, `normalizers/replace.rs:53-67`; `Split::new`,
`pre_tokenizers/split.rs:75-94`). -/
def readCompiled (e : Env) (j : Json) : Option Pat := (readPat j).bind fun p => if e.compiles p then some p else none

/-- The field `type` is the string `name`. -/
def tagged (fs : Fields) (name : Str) : Bool := req fs "type".toList asStr == some name

/-- A unit structure made by `impl_serde_type!` (`utils/mod.rs:182-213`), and the decoders `Fuse` and `ByteFallback`
(`decoders/fuse.rs:9-14`, `decoders/byte_fallback.rs:9-14`). -/
def writeUnit (name : Str) : Json := .obj [("type".toList, .str name)]

/-- Reading a unit structure: only the `type` is looked at. -/
def readUnit {α : Type} (fs : Fields) (name : Str) (a : α) : Option α := if tagged fs name then some a else none

/-! ## Structures used in more than one place -/

/-- `SplitDelimiterBehavior` (`tokenizer/normalizer.rs:81-88`). -/
def behaviors : List (Str × NS.Behavior) :=
  [("Removed".toList, .removed), ("Isolated".toList, .isolated), ("MergedWithPrevious".toList, .mergedWithPrevious),
   ("MergedWithNext".toList, .mergedWithNext), ("Contiguous".toList, .contiguous)]

/-- The name under which a behavior is written. -/
def writeBehavior : NS.Behavior → Json
  | .removed => .str "Removed".toList
  | .isolated => .str "Isolated".toList
  | .mergedWithPrevious => .str "MergedWithPrevious".toList
  | .mergedWithNext => .str "MergedWithNext".toList
  | .contiguous => .str "Contiguous".toList

/-- `PrependScheme`, in snake case (`pre_tokenizers/metaspace.rs:5-14`). -/
def schemes : List (Str × Metaspace.Scheme) :=
  [("first".toList, .first), ("never".toList, .never), ("always".toList, .always)]

/-- The name under which a prepend scheme is written. -/
def writeScheme : Metaspace.Scheme → Json
  | .first => .str "first".toList
  | .never => .str "never".toList
  | .always => .str "always".toList

/-- `ByteLevel` of `pre_tokenizers/byte_level.rs:53-68`, which is pre-tokenizer, decoder and post-processor. -/
structure ByteLevelCfg where
  addPrefixSpace : Bool
  trimOffsets : Bool
  useRegex : Bool
deriving DecidableEq, Repr

/-- The derived `Serialize` of `ByteLevel`. -/
def writeByteLevel (c : ByteLevelCfg) : Json :=
  .obj [("type".toList, .str "ByteLevel".toList), ("add_prefix_space".toList, .bool c.addPrefixSpace),
    ("trim_offsets".toList, .bool c.trimOffsets), ("use_regex".toList, .bool c.useRegex)]

/-- `ByteLevel` (`pre_tokenizers/byte_level.rs:53-72`): `use_regex` is `true` if missing. -/
def readByteLevel (fs : Fields) : Option ByteLevelCfg :=
  if tagged fs "ByteLevel".toList then do
    let a ← req fs "add_prefix_space".toList asBool
    let t ← req fs "trim_offsets".toList asBool
    let r ← dflt fs "use_regex".toList asBool true
    return ⟨a, t, r⟩
  else none

/-- `Metaspace` (`pre_tokenizers/metaspace.rs:22-31`), which is pre-tokenizer and decoder. -/
structure MetaspaceCfg where
  replacement : Char
  scheme : Metaspace.Scheme
  split : Bool
deriving DecidableEq, Repr

/-- The derived `Serialize` of `Metaspace` (`pre_tokenizers/metaspace.rs:22-31`). -/
def writeMetaspace (c : MetaspaceCfg) : Json :=
  .obj [("type".toList, .str "Metaspace".toList), ("replacement".toList, .str [c.replacement]),
    ("prepend_scheme".toList, writeScheme c.scheme), ("split".toList, .bool c.split)]

/-- `Deserialize for Metaspace` (`pre_tokenizers/metaspace.rs:33-76`). -/
def readMetaspace (fs : Fields) : Option MetaspaceCfg :=
  if tagged fs "Metaspace".toList then do
    let r ← req fs "replacement".toList asChar
    let a ← opt fs "add_prefix_space".toList asBool
    let p ← dflt fs "prepend_scheme".toList (asEnum schemes) .always
    let s ← opt fs "split".toList asBool
    let _ ← opt fs "str_rep".toList asStr
    if a = some false ∧ p ≠ .never then none else some ⟨r, p, s.getD true⟩
  else none

/-- `Replace` (`normalizers/replace.rs:44-52`), which is normalizer and decoder. -/
structure ReplaceCfg where
  pattern : Pat
  content : Str
deriving DecidableEq, Repr

/-- The derived `Serialize` of `Replace`. -/
def writeReplace (c : ReplaceCfg) : Json :=
  .obj [("type".toList, .str "Replace".toList), ("pattern".toList, writePat c.pattern), ("content".toList, .str c.content)]

/-- `ReplaceDeserializer` (`normalizers/replace.rs:27-42`). -/
def readReplace (e : Env) (fs : Fields) : Option ReplaceCfg := do
  let p ← req fs "pattern".toList (readCompiled e)
  let c ← req fs "content".toList asStr
  return ⟨p, c⟩

/-! ## Normalizers -/

/-- `NormalizerWrapper` (`normalizers/mod.rs:22-38`) with the fields of the structures. A precompiled charsmap is given by
the string that stands in the file. -/
inductive NormCfg where
  | bert (cleanText handleChinese : Bool) (stripAccents : Option Bool) (lowercase : Bool)
  | strip (left right : Bool)
  | stripAccents
  | nfc
  | nfd
  | nfkc
  | nfkd
  | sequence (l : List NormCfg)
  | lowercase
  | nmt
  | precompiled (charsmap : Str)
  | replace (c : ReplaceCfg)
  | prepend (s : Str)
  | byteLevel

mutual
/-- The derived `Serialize` of `NormalizerWrapper` and its structures (`normalizers/mod.rs:22-38`, `bert.rs:50-64`,
`strip.rs:6-12`, `utils.rs:7-13`, `prepend.rs:4-8`). -/
def writeNorm : NormCfg → Json
  | .bert a b c d => .obj [("type".toList, .str "BertNormalizer".toList), ("clean_text".toList, .bool a),
      ("handle_chinese_chars".toList, .bool b), ("strip_accents".toList, ofOpt .bool c), ("lowercase".toList, .bool d)]
  | .strip a b => .obj [("type".toList, .str "Strip".toList), ("strip_left".toList, .bool a), ("strip_right".toList, .bool b)]
  | .stripAccents => writeUnit "StripAccents".toList
  | .nfc => writeUnit "NFC".toList
  | .nfd => writeUnit "NFD".toList
  | .nfkc => writeUnit "NFKC".toList
  | .nfkd => writeUnit "NFKD".toList
  | .sequence l => .obj [("type".toList, .str "Sequence".toList), ("normalizers".toList, .arr (writeNorms l))]
  | .lowercase => writeUnit "Lowercase".toList
  | .nmt => writeUnit "Nmt".toList
  | .precompiled s => .obj [("type".toList, .str "Precompiled".toList), ("precompiled_charsmap".toList, .str s)]
  | .replace c => writeReplace c
  | .prepend s => .obj [("type".toList, .str "Prepend".toList), ("prepend".toList, .str s)]
  | .byteLevel => writeUnit "ByteLevel".toList

/-- The elements of a sequence of normalizers. -/
def writeNorms : List NormCfg → List Json
  | [] => []
  | n :: l => writeNorm n :: writeNorms l
end

/-- `BertNormalizer` (`normalizers/bert.rs:50-64`); the `type` is not looked at. -/
def readBertNorm (fs : Fields) : Option NormCfg := do
  let a ← req fs "clean_text".toList asBool
  let b ← req fs "handle_chinese_chars".toList asBool
  let c ← opt fs "strip_accents".toList asBool
  let d ← req fs "lowercase".toList asBool
  return .bert a b c d

/-- `Strip` (`normalizers/strip.rs:6-12`); the `type` is not looked at. -/
def readStripNorm (fs : Fields) : Option NormCfg := do
  let a ← req fs "strip_left".toList asBool
  let b ← req fs "strip_right".toList asBool
  return .strip a b

/-- `Precompiled` of the crate `spm_precompiled`, taken to have the one field that is in every file. -/
def readPrecompiled (e : Env) (fs : Fields) : Option NormCfg := do
  let s ← req fs "precompiled_charsmap".toList asStr
  if e.charsmap s then some (.precompiled s) else none

/-- `Prepend` (`normalizers/prepend.rs:4-8`); the `type` is not looked at. -/
def readPrepend (fs : Fields) : Option NormCfg := (req fs "prepend".toList asStr).map .prepend

/-- An error is the result of `map_err(..)?`. -/
def orErr {α : Type} : Option α → Outcome Unit α
  | some a => .ok a
  | none => .err ()

/-- `.expect(..)`. -/
def orPanic {α : Type} : Option α → Outcome Unit α
  | some a => .ok a
  | none => .panic

/-- Trying the next structure of an untagged enumeration; a panic is not caught. -/
def orTry {α : Type} (a b : Outcome Unit α) : Outcome Unit α :=
  match a with
  | .err _ => b
  | r => r

/-- `Outcome` of the elements of a sequence, mapped. -/
def mapOk {α β : Type} (f : α → β) : Outcome Unit α → Outcome Unit β
  | .ok a => .ok (f a)
  | .err e => .err e
  | .panic => .panic

/-- The `match` over `EnumType` (`normalizers/mod.rs:105-161`): what is read for a known `type`; `none` if the `type` is not
one of `EnumType` (`normalizers/mod.rs:52-68`). `sub` is the field `normalizers`, read. -/
def normTagged (e : Env) (fs : Fields) (sub : Outcome Unit (List NormCfg)) (t : Str) : Option (Outcome Unit NormCfg) :=
  if t = "Bert".toList then some (orErr (readBertNorm fs))
  else if t = "Strip".toList then some (orErr (readStripNorm fs))
  else if t = "StripAccents".toList then some (orErr (readUnit fs "StripAccents".toList .stripAccents))
  else if t = "NFC".toList then some (orErr (readUnit fs "NFC".toList .nfc))
  else if t = "NFD".toList then some (orErr (readUnit fs "NFD".toList .nfd))
  else if t = "NFKC".toList then some (orErr (readUnit fs "NFKC".toList .nfkc))
  else if t = "NFKD".toList then some (orErr (readUnit fs "NFKD".toList .nfkd))
  else if t = "Sequence".toList then some (mapOk .sequence sub)
  else if t = "Lowercase".toList then some (orErr (readUnit fs "Lowercase".toList .lowercase))
  else if t = "Nmt".toList then some (orErr (readUnit fs "Nmt".toList .nmt))
  else if t = "Precompiled".toList then some (orPanic (readPrecompiled e fs))
  else if t = "Replace".toList then some (orErr ((readReplace e fs).map .replace))
  else if t = "Prepend".toList then some (orErr (readPrepend fs))
  else if t = "ByteLevel".toList then some (orErr (readUnit fs "ByteLevel".toList .byteLevel))
  else none

/-- `NormalizerUntagged` (`normalizers/mod.rs:77-95`): the structures in order. -/
def normUntagged (e : Env) (fs : Fields) (sub : Outcome Unit (List NormCfg)) : Outcome Unit NormCfg :=
  orTry (orErr (readBertNorm fs)) <| orTry (orErr (readStripNorm fs)) <|
  orTry (orErr (readUnit fs "StripAccents".toList .stripAccents)) <| orTry (orErr (readUnit fs "NFC".toList .nfc)) <|
  orTry (orErr (readUnit fs "NFD".toList .nfd)) <| orTry (orErr (readUnit fs "NFKC".toList .nfkc)) <|
  orTry (orErr (readUnit fs "NFKD".toList .nfkd)) <| orTry (mapOk .sequence sub) <|
  orTry (orErr (readUnit fs "Lowercase".toList .lowercase)) <| orTry (orErr (readUnit fs "Nmt".toList .nmt)) <|
  orTry (orErr (readPrecompiled e fs)) <| orTry (orErr ((readReplace e fs).map .replace)) <|
  orTry (orErr (readPrepend fs)) (orErr (readUnit fs "ByteLevel".toList .byteLevel))

mutual
/-- `Deserialize for NormalizerWrapper` (`normalizers/mod.rs:40-190`). -/
def readNorm (e : Env) : Json → Outcome Unit NormCfg
  | .obj fs =>
    let sub := readNormField e fs
    match (req fs "type".toList asStr).bind (normTagged e fs sub) with
    | some r => r
    | none => normUntagged e fs sub
  | _ => .err ()

/-- The field `normalizers` of `Sequence` (`normalizers/utils.rs:7-13`). -/
def readNormField (e : Env) : Fields → Outcome Unit (List NormCfg)
  | [] => .err ()
  | (k, v) :: fs => if k = "normalizers".toList then readNormArr e v else readNormField e fs

/-- `Vec<NormalizerWrapper>`. -/
def readNormArr (e : Env) : Json → Outcome Unit (List NormCfg)
  | .arr l => readNorms e l
  | _ => .err ()

/-- The elements, in order; the first error or panic ends the reading. -/
def readNorms (e : Env) : List Json → Outcome Unit (List NormCfg)
  | [] => .ok []
  | j :: l =>
    match readNorm e j with
    | .ok n => mapOk (n :: ·) (readNorms e l)
    | .err x => .err x
    | .panic => .panic
end

/-! ## Pre-tokenizers -/

/-- `PreTokenizerWrapper` (`pre_tokenizers/mod.rs:29-43`) with the fields of the structures. -/
inductive PreCfg where
  | bert
  | byteLevel (c : ByteLevelCfg)
  | delimiter (c : Char)
  | metaspace (c : MetaspaceCfg)
  | whitespace
  | sequence (l : List PreCfg)
  | split (pattern : Pat) (behavior : NS.Behavior) (invert : Bool)
  | punctuation (behavior : NS.Behavior)
  | whitespaceSplit
  | digits (individual : Bool)
  | unicodeScripts
  | fixedLength (length : Nat)

mutual
/-- The derived `Serialize` of `PreTokenizerWrapper` and its structures (`pre_tokenizers/mod.rs:27-43`,
`delimiter.rs:6-11`, `split.rs:27-35`, `punctuation.rs:10-16`, `digits.rs:7-13`, `fixed_length.rs:7-12`,
`sequence.rs:6-10`). -/
def writePre : PreCfg → Json
  | .bert => writeUnit "BertPreTokenizer".toList
  | .byteLevel c => writeByteLevel c
  | .delimiter c => .obj [("type".toList, .str "CharDelimiterSplit".toList), ("delimiter".toList, .str [c])]
  | .metaspace c => writeMetaspace c
  | .whitespace => writeUnit "Whitespace".toList
  | .sequence l => .obj [("type".toList, .str "Sequence".toList), ("pretokenizers".toList, .arr (writePres l))]
  | .split p b i => .obj [("type".toList, .str "Split".toList), ("pattern".toList, writePat p),
      ("behavior".toList, writeBehavior b), ("invert".toList, .bool i)]
  | .punctuation b => .obj [("type".toList, .str "Punctuation".toList), ("behavior".toList, writeBehavior b)]
  | .whitespaceSplit => writeUnit "WhitespaceSplit".toList
  | .digits b => .obj [("type".toList, .str "Digits".toList), ("individual_digits".toList, .bool b)]
  | .unicodeScripts => writeUnit "UnicodeScripts".toList
  | .fixedLength n => .obj [("type".toList, .str "FixedLength".toList), ("length".toList, .int n)]

/-- The elements of a sequence of pre-tokenizers. -/
def writePres : List PreCfg → List Json
  | [] => []
  | n :: l => writePre n :: writePres l
end

/-- `CharDelimiterSplit` (`pre_tokenizers/delimiter.rs:6-11`). -/
def readDelimiter (fs : Fields) : Option PreCfg :=
  if tagged fs "CharDelimiterSplit".toList then (req fs "delimiter".toList asChar).map .delimiter else none

/-- `Deserialize for Split` (`pre_tokenizers/split.rs:37-59`). -/
def readSplit (e : Env) (fs : Fields) : Option PreCfg :=
  if tagged fs "Split".toList then do
    let p ← req fs "pattern".toList readPat
    let b ← req fs "behavior".toList (asEnum behaviors)
    let i ← req fs "invert".toList asBool
    if e.compiles p then some (.split p b i) else none
  else none

/-- `Punctuation` (`pre_tokenizers/punctuation.rs:10-21`). -/
def readPunctuation (fs : Fields) : Option PreCfg :=
  if tagged fs "Punctuation".toList then
    (dflt fs "behavior".toList (asEnum behaviors) .isolated).map .punctuation
  else none

/-- `Digits` (`pre_tokenizers/digits.rs:7-13`). -/
def readDigits (fs : Fields) : Option PreCfg :=
  if tagged fs "Digits".toList then (req fs "individual_digits".toList asBool).map .digits else none

/-- `FixedLength` (`pre_tokenizers/fixed_length.rs:6-23`). -/
def readFixedLength (fs : Fields) : Option PreCfg :=
  if tagged fs "FixedLength".toList then (dflt fs "length".toList asUsize 5).map .fixedLength else none

/-- A `Sequence` made by `impl_serde_type!`; `sub` is the field with the elements, read (`pre_tokenizers/sequence.rs:6-10`,
`decoders/sequence.rs:6-10`, `processors/sequence.rs:6-10`). -/
def readSequence {α : Type} (fs : Fields) (sub : Option α) : Option α := if tagged fs "Sequence".toList then sub else none

/-- The `match` over `EnumType` (`pre_tokenizers/mod.rs:76-90`, `126-167`). -/
def preTagged (e : Env) (fs : Fields) (sub : Option (List PreCfg)) (t : Str) : Option (Option PreCfg) :=
  if t = "BertPreTokenizer".toList then some (readUnit fs "BertPreTokenizer".toList .bert)
  else if t = "ByteLevel".toList then some ((readByteLevel fs).map .byteLevel)
  else if t = "Delimiter".toList then some (readDelimiter fs)
  else if t = "Metaspace".toList then some ((readMetaspace fs).map .metaspace)
  else if t = "Whitespace".toList then some (readUnit fs "Whitespace".toList .whitespace)
  else if t = "Sequence".toList then some ((readSequence fs sub).map .sequence)
  else if t = "Split".toList then some (readSplit e fs)
  else if t = "Punctuation".toList then some (readPunctuation fs)
  else if t = "WhitespaceSplit".toList then some (readUnit fs "WhitespaceSplit".toList .whitespaceSplit)
  else if t = "Digits".toList then some (readDigits fs)
  else if t = "UnicodeScripts".toList then some (readUnit fs "UnicodeScripts".toList .unicodeScripts)
  else if t = "FixedLength".toList then some (readFixedLength fs)
  else none

/-- `PreTokenizerUntagged` (`pre_tokenizers/mod.rs:99-114`). -/
def preUntagged (e : Env) (fs : Fields) (sub : Option (List PreCfg)) : Option PreCfg :=
  readUnit fs "BertPreTokenizer".toList .bert <|> (readByteLevel fs).map .byteLevel <|> readDelimiter fs <|>
  (readMetaspace fs).map .metaspace <|> readUnit fs "Whitespace".toList .whitespace <|>
  (readSequence fs sub).map .sequence <|> readSplit e fs <|> readPunctuation fs <|>
  readUnit fs "WhitespaceSplit".toList .whitespaceSplit <|> readDigits fs <|>
  readUnit fs "UnicodeScripts".toList .unicodeScripts <|> readFixedLength fs

mutual
/-- `Deserialize for PreTokenizerWrapper` (`pre_tokenizers/mod.rs:64-203`). -/
def readPre (e : Env) : Json → Option PreCfg
  | .obj fs =>
    let sub := readPreField e fs
    match (req fs "type".toList asStr).bind (preTagged e fs sub) with
    | some r => r
    | none => preUntagged e fs sub
  | _ => none

/-- The field `pretokenizers` of `Sequence`. -/
def readPreField (e : Env) : Fields → Option (List PreCfg)
  | [] => none
  | (k, v) :: fs => if k = "pretokenizers".toList then readPreArr e v else readPreField e fs

/-- `Vec<PreTokenizerWrapper>`. -/
def readPreArr (e : Env) : Json → Option (List PreCfg)
  | .arr l => readPres e l
  | _ => none

/-- The elements, in order. -/
def readPres (e : Env) : List Json → Option (List PreCfg)
  | [] => some []
  | j :: l => (readPre e j).bind fun n => (readPres e l).map (n :: ·)
end

/-! ## Decoders -/

/-- `DecoderWrapper` (`decoders/mod.rs:27-40`) with the fields of the structures. -/
inductive DecCfg where
  | bpe (suffix : Str)
  | byteLevel (c : ByteLevelCfg)
  | wordPiece (pre : Str) (cleanup : Bool)
  | metaspace (c : MetaspaceCfg)
  | ctc (pad delim : Str) (cleanup : Bool)
  | sequence (l : List DecCfg)
  | replace (c : ReplaceCfg)
  | fuse
  | strip (content : Char) (start stop : Nat)
  | byteFallback

mutual
/-- The derived `Serialize` of `DecoderWrapper` and its structures (`decoders/mod.rs:27-40`, `bpe.rs:5-12`, `ctc.rs:9-22`,
`strip.rs:6-15`, `wordpiece.rs:5-15`, `sequence.rs:6-10`). -/
def writeDec : DecCfg → Json
  | .bpe s => .obj [("type".toList, .str "BPEDecoder".toList), ("suffix".toList, .str s)]
  | .byteLevel c => writeByteLevel c
  | .wordPiece p c => .obj [("type".toList, .str "WordPiece".toList), ("prefix".toList, .str p), ("cleanup".toList, .bool c)]
  | .metaspace c => writeMetaspace c
  | .ctc p d c => .obj [("type".toList, .str "CTC".toList), ("pad_token".toList, .str p),
      ("word_delimiter_token".toList, .str d), ("cleanup".toList, .bool c)]
  | .sequence l => .obj [("type".toList, .str "Sequence".toList), ("decoders".toList, .arr (writeDecs l))]
  | .replace c => writeReplace c
  | .fuse => writeUnit "Fuse".toList
  | .strip c a b => .obj [("type".toList, .str "Strip".toList), ("content".toList, .str [c]), ("start".toList, .int a),
      ("stop".toList, .int b)]
  | .byteFallback => writeUnit "ByteFallback".toList

/-- The elements of a sequence of decoders. -/
def writeDecs : List DecCfg → List Json
  | [] => []
  | n :: l => writeDec n :: writeDecs l
end

/-- `BPEDecoder` (`decoders/bpe.rs:5-12`); the `type` is not looked at. -/
def readBpeDec (fs : Fields) : Option DecCfg := (req fs "suffix".toList asStr).map .bpe

/-- `WordPiece` (`decoders/wordpiece.rs:5-15`); the `type` is not looked at. -/
def readWordPieceDec (fs : Fields) : Option DecCfg := do
  let p ← req fs "prefix".toList asStr
  let c ← req fs "cleanup".toList asBool
  return .wordPiece p c

/-- `CTC` (`decoders/ctc.rs:9-22`); the `type` is not looked at. -/
def readCtc (fs : Fields) : Option DecCfg := do
  let p ← req fs "pad_token".toList asStr
  let d ← req fs "word_delimiter_token".toList asStr
  let c ← req fs "cleanup".toList asBool
  return .ctc p d c

/-- `Strip` (`decoders/strip.rs:6-15`); the `type` is not looked at. -/
def readStripDec (fs : Fields) : Option DecCfg := do
  let c ← req fs "content".toList asChar
  let a ← req fs "start".toList asUsize
  let b ← req fs "stop".toList asUsize
  return .strip c a b

/-- The `match` over `EnumType` (`decoders/mod.rs:53-65`, `101-134`). -/
def decTagged (e : Env) (fs : Fields) (sub : Option (List DecCfg)) (t : Str) : Option (Option DecCfg) :=
  if t = "BPEDecoder".toList then some (readBpeDec fs)
  else if t = "ByteLevel".toList then some ((readByteLevel fs).map .byteLevel)
  else if t = "WordPiece".toList then some (readWordPieceDec fs)
  else if t = "Metaspace".toList then some ((readMetaspace fs).map .metaspace)
  else if t = "CTC".toList then some (readCtc fs)
  else if t = "Sequence".toList then some ((readSequence fs sub).map .sequence)
  else if t = "Replace".toList then some ((readReplace e fs).map .replace)
  else if t = "Fuse".toList then some (readUnit fs "Fuse".toList .fuse)
  else if t = "Strip".toList then some (readStripDec fs)
  else if t = "ByteFallback".toList then some (readUnit fs "ByteFallback".toList .byteFallback)
  else none

/-- `DecoderUntagged` (`decoders/mod.rs:74-87`). -/
def decUntagged (e : Env) (fs : Fields) (sub : Option (List DecCfg)) : Option DecCfg :=
  readBpeDec fs <|> (readByteLevel fs).map .byteLevel <|> readWordPieceDec fs <|> (readMetaspace fs).map .metaspace <|>
  readCtc fs <|> (readSequence fs sub).map .sequence <|> (readReplace e fs).map .replace <|>
  readUnit fs "Fuse".toList .fuse <|> readStripDec fs <|> readUnit fs "ByteFallback".toList .byteFallback

mutual
/-- `Deserialize for DecoderWrapper` (`decoders/mod.rs:42-152`). The `.expect("Helper")` on line 89 panics if the text is not
JSON at all, which cannot be said of a `Json`. -/
def readDec (e : Env) : Json → Option DecCfg
  | .obj fs =>
    let sub := readDecField e fs
    match (req fs "type".toList asStr).bind (decTagged e fs sub) with
    | some r => r
    | none => decUntagged e fs sub
  | _ => none

/-- The field `decoders` of `Sequence`. -/
def readDecField (e : Env) : Fields → Option (List DecCfg)
  | [] => none
  | (k, v) :: fs => if k = "decoders".toList then readDecArr e v else readDecField e fs

/-- `Vec<DecoderWrapper>`. -/
def readDecArr (e : Env) : Json → Option (List DecCfg)
  | .arr l => readDecs e l
  | _ => none

/-- The elements, in order. -/
def readDecs (e : Env) : List Json → Option (List DecCfg)
  | [] => some []
  | j :: l => (readDec e j).bind fun n => (readDecs e l).map (n :: ·)
end

/-! ## Post-processors -/

/-- `PostProcessorWrapper` (`processors/mod.rs:17-28`) with the fields of the structures. -/
inductive ProcCfg where
  | roberta (sep cls : Str × Nat) (trim aps : Bool)
  | bert (sep cls : Str × Nat)
  | byteLevel (c : ByteLevelCfg)
  | template (t : Post.Template)
  | sequence (l : List ProcCfg)

/-- `(String, u32)`: an array with two elements. -/
def writeMark (m : Str × Nat) : Json := .arr [.str m.1, .int m.2]

/-- `(String, u32)`. -/
def readMark : Json → Option (Str × Nat)
  | .arr [s, n] => do
    let s ← asStr s
    let n ← asU32 n
    return (s, n)
  | _ => none

/-- `Piece`, `Sequence` (`processors/template.rs:67-73`, `95-99`). -/
def writePiece : Post.Piece → Json
  | .sequence .A n => .obj [("Sequence".toList, .obj [("id".toList, .str "A".toList), ("type_id".toList, .int n)])]
  | .sequence .B n => .obj [("Sequence".toList, .obj [("id".toList, .str "B".toList), ("type_id".toList, .int n)])]
  | .special s n => .obj [("SpecialToken".toList, .obj [("id".toList, .str s), ("type_id".toList, .int n)])]

/-- `Sequence` of `processors/template.rs:67-73`. -/
def seqs : List (Str × Post.Seq) := [("A".toList, .A), ("B".toList, .B)]

/-- The derived `Deserialize` of `Piece`. -/
def readPiece : Json → Option Post.Piece
  | .obj [(k, .obj fs)] =>
    if k = "Sequence".toList then do
      let i ← req fs "id".toList (asEnum seqs)
      let n ← req fs "type_id".toList asU32
      return .sequence i n
    else if k = "SpecialToken".toList then do
      let i ← req fs "id".toList asStr
      let n ← req fs "type_id".toList asU32
      return .special i n
    else none
  | _ => none

/-- `SpecialToken` (`processors/template.rs:192-200`). -/
def writeSpecial (t : Post.SpecialToken) : Json :=
  .obj [("id".toList, .str t.id), ("ids".toList, .arr (t.ids.map fun n : Nat => .int n)),
    ("tokens".toList, .arr (t.tokens.map .str))]

/-- The derived `Deserialize` of `SpecialToken`: the lengths of the two lists are not compared. -/
def readSpecial : Json → Option Post.SpecialToken
  | .obj fs => do
    let i ← req fs "id".toList asStr
    let n ← req fs "ids".toList (asList asU32)
    let t ← req fs "tokens".toList (asList asStr)
    return ⟨i, n, t⟩
  | _ => none

/-- The order of `String` (by bytes, which is that of the code points). -/
def strLe (a b : Str) : Bool := a ≤ b

/-- Insertion into a list ordered by keys. -/
def insertByKey {α : Type} (p : Str × α) : List (Str × α) → List (Str × α)
  | [] => [p]
  | q :: l => if strLe p.1 q.1 then p :: q :: l else q :: insertByKey p l

/-- `ordered_map` (`utils/mod.rs:29-41`): the entries in the order of the keys. -/
def byKey {α : Type} (l : List (Str × α)) : List (Str × α) := l.foldr insertByKey []

/-- The derived `Serialize` of `TemplateProcessing` (`processors/template.rs:339-352`): the counts are skipped. -/
def writeTemplate (t : Post.Template) : Json :=
  .obj [("type".toList, .str "TemplateProcessing".toList), ("single".toList, .arr (t.single.map writePiece)),
    ("pair".toList, .arr (t.pair.map writePiece)),
    ("special_tokens".toList, .obj ((byKey t.specials).map fun p => (p.1, writeSpecial p.2)))]

/-- `TemplateProcessingDeserializer` (`processors/template.rs:417-440`): nothing is validated, the counts are computed. -/
def readTemplate (fs : Fields) : Option Post.Template := do
  let s ← req fs "single".toList (asList readPiece)
  let p ← req fs "pair".toList (asList readPiece)
  let t ← req fs "special_tokens".toList (asMap readSpecial)
  return Post.ofJson s p (AMap.extend [] t)

mutual
/-- The derived `Serialize` of `PostProcessorWrapper` and its structures (`processors/mod.rs:17-28`, `roberta.rs:7-14`,
`bert.rs:6-11`, `sequence.rs:6-10`). -/
def writeProc : ProcCfg → Json
  | .roberta s c t a => .obj [("type".toList, .str "RobertaProcessing".toList), ("sep".toList, writeMark s),
      ("cls".toList, writeMark c), ("trim_offsets".toList, .bool t), ("add_prefix_space".toList, .bool a)]
  | .bert s c => .obj [("type".toList, .str "BertProcessing".toList), ("sep".toList, writeMark s), ("cls".toList, writeMark c)]
  | .byteLevel c => writeByteLevel c
  | .template t => writeTemplate t
  | .sequence l => .obj [("type".toList, .str "Sequence".toList), ("processors".toList, .arr (writeProcs l))]

/-- The elements of a sequence of post-processors. -/
def writeProcs : List ProcCfg → List Json
  | [] => []
  | n :: l => writeProc n :: writeProcs l
end

/-- `RobertaProcessing` (`processors/roberta.rs:7-14`); the `type` is not looked at. -/
def readRoberta (fs : Fields) : Option ProcCfg := do
  let s ← req fs "sep".toList readMark
  let c ← req fs "cls".toList readMark
  let t ← req fs "trim_offsets".toList asBool
  let a ← req fs "add_prefix_space".toList asBool
  return .roberta s c t a

/-- `BertProcessing` (`processors/bert.rs:6-11`); the `type` is not looked at. -/
def readBertProc (fs : Fields) : Option ProcCfg := do
  let s ← req fs "sep".toList readMark
  let c ← req fs "cls".toList readMark
  return .bert s c

/-- The order of `PostProcessorWrapper` (`processors/mod.rs:19-28`). -/
def procUntagged (fs : Fields) (sub : Option (List ProcCfg)) : Option ProcCfg :=
  readRoberta fs <|> readBertProc fs <|> (readByteLevel fs).map .byteLevel <|> (readTemplate fs).map .template <|>
  (readSequence fs sub).map .sequence

mutual
/-- The derived untagged `Deserialize` of `PostProcessorWrapper` (`processors/mod.rs:17-28`). -/
def readProc : Json → Option ProcCfg
  | .obj fs => procUntagged fs (readProcField fs)
  | _ => none

/-- The field `processors` of `Sequence`. -/
def readProcField : Fields → Option (List ProcCfg)
  | [] => none
  | (k, v) :: fs => if k = "processors".toList then readProcArr v else readProcField fs

/-- `Vec<PostProcessorWrapper>`. -/
def readProcArr : Json → Option (List ProcCfg)
  | .arr l => readProcs l
  | _ => none

/-- The elements, in order. -/
def readProcs : List Json → Option (List ProcCfg)
  | [] => some []
  | j :: l => (readProc j).bind fun n => (readProcs l).map (n :: ·)
end

end Tok.Save
