import Verif.Added.Match
import Verif.Post.Process
import Verif.Pre.Props
import Verif.Pre.Limit

/-!
# Model of `TokenizerImpl` (`tokenizer/mod.rs`): encoding, batches, vocabulary

The stages are parameters: what they do is modelled elsewhere (added vocabulary, pre-tokenized strings, models,
post-processors); here they are composed.
-/

namespace Tok

/-- What makes `encode` fail. -/
inductive EncErr
  /-- the added vocabulary panics (`expect("AddedVocabulary bad split")`, a bad slice) -/
  | added
  /-- an error of the pre-tokenizer -/
  | preTok (code : Nat)
  /-- an error of the model -/
  | model (code : Nat)
  /-- `into_encoding` found a split without tokens -/
  | notTokenized
  /-- an error or panic of `post_process` -/
  | post (e : TruncError)
deriving DecidableEq, Repr

/-- `TokenizerImpl` (`tokenizer/mod.rs:512-529`). `normalizer` is what the normalizer makes of a piece (the
identity if there is none), `none` a panic. The settings are truncation, padding and post-processor. -/
structure Tokenizer where
  /-- `\w` and `\s` of the `regex` crate -/
  cl : AddedVocab.Classes
  /-- `char::is_whitespace` -/
  ws : Char → Bool
  /-- compiled with overflow checks -/
  checked : Bool
  added : AddedVocab
  normalizer : NS → Option NS
  /-- `do_pre_tokenize` (`tokenizer/mod.rs:1246-1257`) -/
  preTok : PTS → Except EncErr PTS
  /-- `Model::tokenize` -/
  model : Str → Except EncErr (List Token)
  view : ModelView
  /-- `Model::get_vocab` -/
  vocab : AMap Str Nat
  settings : Post.Settings
  decoder : Option Dec.Decoder

namespace Tokenizer

/-- Replace the error. -/
def mapErr {ε ε' α : Type} (f : ε → ε') : Except ε α → Except ε' α
  | .ok a => .ok a
  | .error e => .error (f e)

/-- `InputSequence` (`tokenizer/mod.rs:230-237`): a text, or a list of texts. -/
inductive Input
  | raw (s : Str)
  | words (l : List Str)
deriving DecidableEq, Repr

/-- The limit that `do_tokenize` passes on (`tokenizer/mod.rs:1185-1195`). -/
def limit (t : Tokenizer) (typeId : Nat) : Option (Nat × Encoding.Direction) :=
  match t.settings.truncation with
  | some tr => if tr.strategy ≠ .onlySecond ∨ typeId ≠ 0 then some (tr.maxLength, tr.direction) else none
  | none => none

/-- `Model::tokenize_in_pretokenized` (`tokenizer/mod.rs:104-119`). -/
def tokenizeIn (t : Tokenizer) (p : PTS) : Option (Nat × Encoding.Direction) → Except EncErr PTS
  | some (max, dir) => p.tokenizeWithLimit (fun n => t.model n.norm) max dir
  | none => p.tokenize fun n => t.model n.norm

/-- `do_tokenize` (`tokenizer/mod.rs:1178-1200`), given the limit. -/
def doTokenize (t : Tokenizer) (lim : Option (Nat × Encoding.Direction)) (p : PTS) (typeId : Nat)
    (word : Option Nat) (ty : PTS.OffsetType) : Except EncErr Encoding :=
  (t.tokenizeIn p lim).bind fun q => mapErr (fun _ => .notTokenized) (q.intoEncoding word typeId ty)

/-- The pre-tokenized string of a text (`tokenizer/mod.rs:769-772`). -/
def preTokenized (t : Tokenizer) (s : Str) : Except EncErr PTS :=
  (mapErr (fun _ => .added) (t.added.extractAndNormalize t.cl t.normalizer s)).bind t.preTok

/-- The closure `encode` of `encode_single_sequence` (`tokenizer/mod.rs:768-784`). -/
def encodeText (t : Tokenizer) (lim : Option (Nat × Encoding.Direction)) (typeId : Nat) (ty : PTS.OffsetType)
    (word : Option Nat) (s : Str) : Except EncErr Encoding :=
  (t.preTokenized s).bind fun p => t.doTokenize lim p typeId word ty

/-- `encode_single_sequence` (`tokenizer/mod.rs:762-805`), given the limit. Collecting the encodings of a list of
texts merges them (`encoding.rs:535-539`). -/
def encodeSequenceWith (t : Tokenizer) (lim : Option (Nat × Encoding.Direction)) (typeId : Nat)
    (ty : PTS.OffsetType) : Input → Except EncErr Encoding
  | .raw s => t.encodeText lim typeId ty none s
  | .words l => (l.zipIdx.mapM fun x => t.encodeText lim typeId ty (some x.2) x.1).map (Encoding.merge · false)

/-- `encode_single_sequence` (`tokenizer/mod.rs:762-805`). -/
def encodeSequence (t : Tokenizer) (typeId : Nat) (ty : PTS.OffsetType) (i : Input) : Except EncErr Encoding :=
  t.encodeSequenceWith (t.limit typeId) typeId ty i

/-- `.map(..).transpose()?` (`tokenizer/mod.rs:841-843`). -/
def optional {α β ε : Type} (f : α → Except ε β) : Option α → Except ε (Option β)
  | none => .ok none
  | some a => (f a).map some

/-- The common body of `encode`, `encode_fast` and `encode_char_offsets` (`tokenizer/mod.rs:829-932`), given how
to encode one input. -/
def encodeBy (t : Tokenizer) (enc : Nat → Input → Except EncErr Encoding) (input : Input × Option Input)
    (add : Bool) : Except EncErr Encoding :=
  (enc 0 input.1).bind fun e => (optional (enc 1) input.2).bind fun pair =>
    mapErr .post (t.settings.postProcess t.ws t.checked e pair add)

/-- `encode` (`Byte`, `tokenizer/mod.rs:871-890`), `encode_char_offsets` (`Char`, `913-932`) and `encode_fast`
(`None`, `829-848`). -/
def encodeAs (t : Tokenizer) (ty : PTS.OffsetType) (input : Input × Option Input) (add : Bool) :
    Except EncErr Encoding :=
  t.encodeBy (fun typeId i => t.encodeSequence typeId ty i) input add

/-- `encode` (`tokenizer/mod.rs:871-890`). -/
def encode (t : Tokenizer) (input : Input × Option Input) (add : Bool) : Except EncErr Encoding :=
  t.encodeAs .byte input add

/-- `encode_fast` (`tokenizer/mod.rs:829-848`). -/
def encodeFast (t : Tokenizer) (input : Input × Option Input) (add : Bool) : Except EncErr Encoding :=
  t.encodeAs .none input add

/-- `decode` (`tokenizer/mod.rs:935-953`). -/
def decode (t : Tokenizer) (skip : Bool) (ids : List Nat) : Option Str :=
  AddedVocab.decode t.checked t.view t.added t.decoder skip ids

/-! ## Batches -/

/-- What a task of a parallel `map(..).collect::<Result<Vec<_>>>()` does to the shared state: the first error that
is recorded stays; once there is one, no further task is started. -/
def parStep {α β ε : Type} (f : α → Except ε β) (xs : List α) (saved : Option ε) (i : Nat) : Option ε :=
  match saved with
  | some e => some e
  | none =>
    match xs[i]? with
    | none => none
    | some x =>
      match f x with
      | .ok _ => none
      | .error e => some e

/-- `into_maybe_par_iter().map(f).collect::<Result<Vec<_>>>()` (`tokenizer/mod.rs:1346-1349`): the tasks are run
in the order `order`, one of the possible schedules; the results are put in the order of the inputs. With
parallelism off the order is that of the inputs. -/
def parCollect {α β ε : Type} (order : List Nat) (f : α → Except ε β) (xs : List α) : Except ε (List β) :=
  match order.foldl (parStep f xs) none with
  | some e => .error e
  | none => .ok (xs.filterMap fun x => (f x).toOption)

/-- The common body of `encode_batch`, `encode_batch_char_offsets`, `encode_batch_fast`
(`tokenizer/mod.rs:1338-1406`). -/
def encodeBatch (t : Tokenizer) (order : List Nat) (ty : PTS.OffsetType) (inputs : List (Input × Option Input))
    (add : Bool) : Except EncErr (List Encoding) :=
  (parCollect order (fun i => t.encodeAs ty i add) inputs).map fun es =>
    match t.settings.padding with
    | some p => padEncodings es p
    | none => es

/-- An option as a result. -/
def orFail {α : Type} : Option α → Except Unit α
  | some a => .ok a
  | none => .error ()

/-- `decode_batch` (`tokenizer/mod.rs:1409-1421`). -/
def decodeBatch (t : Tokenizer) (order : List Nat) (sentences : List (List Nat)) (skip : Bool) :
    Except Unit (List Str) :=
  parCollect order (fun ids => orFail (t.decode skip ids)) sentences

/-! ## Vocabulary -/

/-- `get_vocab` (`tokenizer/mod.rs:702-716`). -/
def getVocab (t : Tokenizer) (withAdded : Bool) : AMap Str Nat :=
  if withAdded then t.vocab.extend t.added.map else t.vocab

/-- `get_vocab_size` (`tokenizer/mod.rs:724-737`); the subtraction cannot underflow. -/
def getVocabSize (t : Tokenizer) (withAdded : Bool) : Nat :=
  if withAdded then
    t.view.size + t.added.map.length - (t.added.map.filter fun x => (t.view.toId x.1).isSome).length
  else t.view.size

/-- `token_to_id` (`tokenizer/mod.rs:740-742`). -/
def tokenToId (t : Tokenizer) (c : Str) : Option Nat := t.added.tokenToId t.view c

/-- `id_to_token` (`tokenizer/mod.rs:745-749`). -/
def idToToken (t : Tokenizer) (i : Nat) : Option Str := (t.added.simpleIdToToken i).or (t.view.toToken i)

end Tokenizer
end Tok
