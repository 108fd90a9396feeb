import Verif.Save.Config
import Verif.Save.Model
import Verif.Tokenizer.Vocab

/-!
# `tokenizer.json`

The models as JSON (`models/*/serialization.rs`, `models/mod.rs:69-135`), the parameters (`utils/truncation.rs`,
`utils/padding.rs`), the added tokens, and the whole file (`tokenizer/serialization.rs`).
-/

namespace Tok.Save
open Json

/-! ## Models -/

/-- `ModelWrapper` (`models/mod.rs:60-69`). The model of BPE only remembers whether there is a dropout that is not zero;
the file has its value. -/
inductive Mod where
  | bpe (dropout : Option Rat) (b : Bpe.Bpe)
  | wordPiece (w : WordPiece)
  | wordLevel (w : WordLevel)
  | unigram (u : Unigram)

/-- A vocabulary as an object. -/
def writeVocab (l : List (Str × Nat)) : Json := .obj (l.map fun p => (p.1, .int p.2))

/-- A merge as an array of two names. -/
def writeMerge (m : Str × Str) : Json := .arr [.str m.1, .str m.2]

/-- A piece of Unigram: its text and its score. -/
def writeUni (p : Str × Rat) : Json := .arr [.str p.1, .float p.2]

/-- `Serialize` of the models (`models/bpe/serialization.rs:9-45`, `models/wordpiece/serialization.rs:9-29`,
`models/wordlevel/serialization.rs:9-21`, `models/unigram/serialization.rs:8-22`); `none` is the panic of
`self.vocab_r[..]`. -/
def writeModel : Mod → Option Json
  | .bpe d b => (saveBpe b).map fun s =>
    .obj [("type".toList, .str "BPE".toList), ("dropout".toList, ofOpt .float d), ("unk_token".toList, ofOpt .str s.unk),
      ("continuing_subword_prefix".toList, ofOpt .str s.pre), ("end_of_word_suffix".toList, ofOpt .str s.suf),
      ("fuse_unk".toList, .bool s.fuseUnk), ("byte_fallback".toList, .bool s.byteFallback),
      ("ignore_merges".toList, .bool s.ignoreMerges), ("vocab".toList, writeVocab s.vocab),
      ("merges".toList, .arr (s.merges.map writeMerge))]
  | .wordPiece w =>
    let s := saveWordPiece w
    some <| .obj [("type".toList, .str "WordPiece".toList), ("unk_token".toList, .str s.1),
      ("continuing_subword_prefix".toList, .str s.2.1), ("max_input_chars_per_word".toList, .int s.2.2.1),
      ("vocab".toList, writeVocab s.2.2.2)]
  | .wordLevel w =>
    let s := saveWordLevel w
    some <| .obj [("type".toList, .str "WordLevel".toList), ("vocab".toList, writeVocab s.1), ("unk_token".toList, .str s.2)]
  | .unigram u =>
    let s := saveUnigram u
    some <| .obj [("type".toList, .str "Unigram".toList), ("unk_id".toList, ofOpt (fun n : Nat => .int n) s.1),
      ("vocab".toList, .arr (s.2.1.map writeUni)), ("byte_fallback".toList, .bool s.2.2)]

/-- `(String, String)`. -/
def readMerge : Json → Option (Str × Str)
  | .arr [a, b] => do
    let a ← asStr a
    let b ← asStr b
    return (a, b)
  | _ => none

/-- `MergeType` (`models/bpe/serialization.rs:83-88`, `144-149`): a list of pairs, or else a list of lines. -/
def readMergeList (j : Json) : Option (List (Str × Str)) :=
  asList readMerge j <|> (asList asStr j).bind fun ls => (readMerges ls).toOption

/-- `(String, f64)`. -/
def readUni : Json → Option (Str × Rat)
  | .arr [a, b] => do
    let a ← asStr a
    let b ← asFloat b
    return (a, b)
  | _ => none

/-- The probability is accepted by `BpeBuilder::build` (`models/bpe/model.rs:214-219`). -/
def dropoutOk : Option Rat → Bool
  | none => true
  | some p => 0 ≤ p && p ≤ 1

/-- There is a dropout to apply. -/
def activeDropout : Option Rat → Bool
  | none => false
  | some p => p ≠ 0

/-- What `visit_map` of BPE collects (`models/bpe/serialization.rs:76-143`): the options are taken if they are there and not
`null`. -/
def readBpeFields (fs : Fields) : Option (Option Rat × SavedBpe) := do
  let d ← opt fs "dropout".toList asFloat
  let u ← opt fs "unk_token".toList asStr
  let p ← opt fs "continuing_subword_prefix".toList asStr
  let s ← opt fs "end_of_word_suffix".toList asStr
  let f ← opt fs "fuse_unk".toList asBool
  let b ← opt fs "byte_fallback".toList asBool
  let i ← opt fs "ignore_merges".toList asBool
  let v ← req fs "vocab".toList (asMap asU32)
  let m ← req fs "merges".toList readMergeList
  return (d, ⟨activeDropout d, u, p, s, f.getD false, b.getD false, i.getD false, v, m⟩)

/-- `Deserialize for BPE` (`models/bpe/serialization.rs:76-156`): the fields, then the builder. -/
def readBpe (fs : Fields) : Outcome Unit Mod :=
  match readBpeFields fs with
  | none => .err ()
  | some (d, s) =>
    if dropoutOk d then
      match loadBpe s with
      | .ok b => .ok (.bpe d b)
      | .err _ => .err ()
      | .panic => .panic
    else .err ()

/-- `Deserialize for WordPiece` (`models/wordpiece/serialization.rs:57-108`). -/
def readWordPiece (fs : Fields) : Option Mod := do
  let u ← req fs "unk_token".toList asStr
  let p ← req fs "continuing_subword_prefix".toList asStr
  let n ← req fs "max_input_chars_per_word".toList asUsize
  let v ← req fs "vocab".toList (asMap asU32)
  return .wordPiece (loadWordPiece (u, p, n, v))

/-- `Deserialize for WordLevel` (`models/wordlevel/serialization.rs:43-80`). -/
def readWordLevel (fs : Fields) : Option Mod := do
  let v ← req fs "vocab".toList (asMap asU32)
  let u ← req fs "unk_token".toList asStr
  return .wordLevel (loadWordLevel (v, u))

/-- `Deserialize for Unigram` (`models/unigram/serialization.rs:46-76`). -/
def readUnigram (fs : Fields) : Option Mod := do
  let i ← opt fs "unk_id".toList asUsize
  let v ← req fs "vocab".toList (asList readUni)
  let b ← dflt fs "byte_fallback".toList asBool false
  (loadUnigram (i, v, b)).toOption.map .unigram

/-- `Deserialize for ModelWrapper` (`models/mod.rs:71-135`): with a known `type` that model is read from the other fields,
without `type` the models are tried in order. With any other `type` each of the four refuses. -/
def readModel : Json → Outcome Unit Mod
  | .obj fs =>
    match get fs "type".toList with
    | some (.str t) =>
      if t = "BPE".toList then readBpe fs
      else if t = "WordPiece".toList then orErr (readWordPiece fs)
      else if t = "WordLevel".toList then orErr (readWordLevel fs)
      else if t = "Unigram".toList then orErr (readUnigram fs)
      else .err ()
    | some _ => .err ()
    | none => orTry (readBpe fs) <| orTry (orErr (readWordPiece fs)) <| orTry (orErr (readWordLevel fs))
        (orErr (readUnigram fs))
  | _ => .err ()

/-! ## Truncation and padding -/

/-- `TruncationDirection`, `PaddingDirection` (`utils/truncation.rs:6-11`, `utils/padding.rs:6-10`). -/
def directions : List (Str × Encoding.Direction) := [("Left".toList, .left), ("Right".toList, .right)]

/-- The name of a direction. -/
def writeDirection : Encoding.Direction → Json
  | .left => .str "Left".toList
  | .right => .str "Right".toList

/-- `TruncationStrategy` (`utils/truncation.rs:52-58`). -/
def strategies : List (Str × TruncStrategy) :=
  [("LongestFirst".toList, .longestFirst), ("OnlyFirst".toList, .onlyFirst), ("OnlySecond".toList, .onlySecond)]

/-- The name of a strategy. -/
def writeStrategy : TruncStrategy → Json
  | .longestFirst => .str "LongestFirst".toList
  | .onlyFirst => .str "OnlyFirst".toList
  | .onlySecond => .str "OnlySecond".toList

/-- `TruncationParams` (`utils/truncation.rs:22-29`). -/
def writeTruncation (t : TruncParams) : Json :=
  .obj [("direction".toList, writeDirection t.direction), ("max_length".toList, .int t.maxLength),
    ("strategy".toList, writeStrategy t.strategy), ("stride".toList, .int t.stride)]

/-- The derived `Deserialize` of `TruncationParams`: the direction is `Right` if missing. -/
def readTruncation : Json → Option TruncParams
  | .obj fs => do
    let d ← dflt fs "direction".toList (asEnum directions) .right
    let m ← req fs "max_length".toList asUsize
    let s ← req fs "strategy".toList (asEnum strategies)
    let r ← req fs "stride".toList asUsize
    return ⟨m, s, r, d⟩
  | _ => none

/-- `PaddingStrategy` (`utils/padding.rs:43-47`). -/
def writePadStrategy : PadStrategy → Json
  | .batchLongest => .str "BatchLongest".toList
  | .fixed n => .obj [("Fixed".toList, .int n)]

/-- The derived `Deserialize` of `PaddingStrategy`. -/
def readPadStrategy : Json → Option PadStrategy
  | .str s => if s = "BatchLongest".toList then some .batchLongest else none
  | .obj [(k, n)] => if k = "Fixed".toList then (asUsize n).map .fixed else none
  | _ => none

/-- `PaddingParams` (`utils/padding.rs:21-29`). -/
def writePadding (p : PadParams) : Json :=
  .obj [("strategy".toList, writePadStrategy p.strategy), ("direction".toList, writeDirection p.direction),
    ("pad_to_multiple_of".toList, ofOpt (fun n : Nat => .int n) p.multipleOf), ("pad_id".toList, .int p.pt.id),
    ("pad_type_id".toList, .int p.pt.typeId), ("pad_token".toList, .str p.pt.token)]

/-- The derived `Deserialize` of `PaddingParams`. -/
def readPadding : Json → Option PadParams
  | .obj fs => do
    let s ← req fs "strategy".toList readPadStrategy
    let d ← req fs "direction".toList (asEnum directions)
    let m ← opt fs "pad_to_multiple_of".toList asUsize
    let i ← req fs "pad_id".toList asU32
    let t ← req fs "pad_type_id".toList asU32
    let k ← req fs "pad_token".toList asStr
    return ⟨s, d, m, ⟨i, t, k⟩⟩
  | _ => none

/-! ## Added tokens -/

/-- `AddedTokenWithId` (`tokenizer/added_vocabulary.rs:572-580`, `16-30`). -/
def writeAddedToken (x : Nat × AddedToken) : Json :=
  .obj [("id".toList, .int x.1), ("content".toList, .str x.2.content), ("single_word".toList, .bool x.2.singleWord),
    ("lstrip".toList, .bool x.2.lstrip), ("rstrip".toList, .bool x.2.rstrip), ("normalized".toList, .bool x.2.normalized),
    ("special".toList, .bool x.2.special)]

/-- The derived `Deserialize` of `AddedTokenWithId`. -/
def readAddedToken : Json → Option (Nat × AddedToken)
  | .obj fs => do
    let i ← req fs "id".toList asU32
    let c ← req fs "content".toList asStr
    let w ← req fs "single_word".toList asBool
    let l ← req fs "lstrip".toList asBool
    let r ← req fs "rstrip".toList asBool
    let n ← req fs "normalized".toList asBool
    let s ← req fs "special".toList asBool
    return (i, ⟨c, w, l, r, n, s⟩)
  | _ => none

/-! ## The file -/

/-- `TokenizerImpl` (`tokenizer/mod.rs:512-529`) with the settings of its components. -/
structure Conf where
  truncation : Option TruncParams
  padding : Option PadParams
  added : AddedVocab
  normalizer : Option NormCfg
  preTok : Option PreCfg
  proc : Option ProcCfg
  decoder : Option DecCfg
  model : Mod

/-- `token_to_id`, `id_to_token`, `get_vocab_size` of `ModelWrapper` (`models/mod.rs:143-188`). -/
def Mod.view : Mod → ModelView
  | .bpe _ b => Tokenizer.bpeView b
  | .wordPiece w => Tokenizer.wordPieceView w
  | .wordLevel w => Tokenizer.wordLevelView w
  | .unigram u => Tokenizer.unigramView u

/-- `Serialize for TokenizerImpl` (`tokenizer/serialization.rs:15-48`). -/
def save (c : Conf) : Option Json :=
  (writeModel c.model).map fun m =>
    .obj [("version".toList, .str "1.0".toList), ("truncation".toList, ofOpt writeTruncation c.truncation),
      ("padding".toList, ofOpt writePadding c.padding),
      ("added_tokens".toList, .arr ((saveAdded c.added).map writeAddedToken)),
      ("normalizer".toList, ofOpt writeNorm c.normalizer), ("pre_tokenizer".toList, ofOpt writePre c.preTok),
      ("post_processor".toList, ofOpt writeProc c.proc), ("decoder".toList, ofOpt writeDec c.decoder),
      ("model".toList, m)]

/-- The version, if there is one, is `1.0` (`tokenizer/serialization.rs:117-122`). -/
def versionOk (fs : Fields) : Bool :=
  match get fs "version".toList with
  | none => true
  | some (.str s) => s = "1.0".toList
  | some _ => false

/-- The keys that are known (`tokenizer/serialization.rs:116-145`). -/
def knownKeys : List Str :=
  ["version".toList, "truncation".toList, "padding".toList, "added_tokens".toList, "normalizer".toList,
    "pre_tokenizer".toList, "model".toList, "decoder".toList, "post_processor".toList]

/-- `Option<NormalizerWrapper>`. -/
def readNormOpt (e : Env) (fs : Fields) : Outcome Unit (Option NormCfg) :=
  match get fs "normalizer".toList with
  | none => .ok none
  | some .null => .ok none
  | some j => mapOk some (readNorm e j)

/-- The field `model`, which must be there (`tokenizer/mod.rs:366-369`). -/
def readModelField (fs : Fields) : Outcome Unit Mod :=
  match get fs "model".toList with
  | none => .err ()
  | some j => readModel j

/-- The parts of the file besides normalizer and model. -/
structure Rest where
  truncation : Option TruncParams
  padding : Option PadParams
  tokens : List (Nat × AddedToken)
  preTok : Option PreCfg
  proc : Option ProcCfg
  decoder : Option DecCfg

/-- The parts of the file besides normalizer and model; a missing part is none (`tokenizer/mod.rs:350-361`). -/
def readRest (e : Env) (fs : Fields) : Option Rest := do
  let t ← opt fs "truncation".toList readTruncation
  let p ← opt fs "padding".toList readPadding
  let a ← dflt fs "added_tokens".toList (asList readAddedToken) []
  let y ← opt fs "pre_tokenizer".toList (readPre e)
  let o ← opt fs "post_processor".toList readProc
  let d ← opt fs "decoder".toList (readDec e)
  return ⟨t, p, a, y, o, d⟩

/-- `Deserialize for TokenizerImpl` (`tokenizer/serialization.rs:49-171`). The values are looked up instead of read in the
order of the file, so that, if several are wrong and one of them panics, the code may give an error instead of the panic.
The value of an unknown key is not consumed (line 144): `skip` says whether the deserializer goes on then
(`serde_json::from_value` does, `serde_json::from_str` reports an error at the `:`). `norm` is what a normalizer does to a
text, `build` whether the automata can be built. -/
def load (e : Env) (skip : Bool) (build : List (Str × Nat) → Bool) (norm : Option NormCfg → AddedVocab.Norm) :
    Json → Outcome Unit Conf
  | .obj fs =>
    if !skip && fs.any (fun f => !knownKeys.contains f.1) then .err ()
    else if !versionOk fs then .err ()
    else
      match readRest e fs with
      | none => .err ()
      | some r =>
        match readNormOpt e fs with
        | .err _ => .err ()
        | .panic => .panic
        | .ok n =>
          match readModelField fs with
          | .err _ => .err ()
          | .panic => .panic
          | .ok m =>
            match loadAdded build m.view (norm n) r.tokens with
            | none => .err ()
            | some av => .ok ⟨r.truncation, r.padding, av, n, r.preTok, r.proc, r.decoder, m⟩
  | _ => .err ()

end Tok.Save
