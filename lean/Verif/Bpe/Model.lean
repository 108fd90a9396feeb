import Verif.Bpe.Word

/-!
# Model of `models/bpe/model.rs`

Building the merge table, splitting a word into initial symbols, tokenizing.
-/

namespace Tok

namespace Bpe

/-- The fields of `BPE` that tokenization reads (`model.rs:296-326`), without the cache. Dropout is
only remembered as `useDropout`: `Some(p)` with `p ≠ 0.0`. -/
structure Bpe where
  vocab : AMap Str Nat
  vocabR : AMap Nat Str
  merges : AMap (Nat × Nat) (Nat × Nat)
  useDropout : Bool := false
  unk : Option Str := none
  pre : Option Str := none
  suf : Option Str := none
  fuseUnk : Bool := false
  byteFallback : Bool := false
  ignoreMerges : Bool := false
deriving DecidableEq, Repr

/-- `merges.get(&(a, b))`. -/
def mergeFn (mm : AMap (Nat × Nat) (Nat × Nat)) : MergeFn := fun a b => mm.get (a, b)

/-! ## building -/

inductive BuildErr where
  | mergeTokenOutOfVocabulary (t : Str)
deriving DecidableEq, Repr

/-- `max_len` (`model.rs:230-241`): the longest key of the vocabulary, in bytes. -/
def maxLen (vocab : AMap Str Nat) : Nat := (vocab.map fun p => blen p.1).foldl max 0

/-- One entry of the merge map (`model.rs:261-279`). The writes into `buffer` panic when the
concatenation is longer than every token; `b.len() - prefix_len` underflows when the right part is
shorter than the prefix. When `prefix_len` is not on a character boundary of `b` the code builds a
`str` with `from_utf8_unchecked` from invalid bytes (undefined behaviour); here that is `panic`. -/
def buildMerge (vocab : AMap Str Nat) (prefixLen : Nat) (i : Nat) (a b : Str) :
    Outcome BuildErr ((Nat × Nat) × (Nat × Nat)) :=
  match vocab.get a with
  | none => .err (.mergeTokenOutOfVocabulary a)
  | some aId =>
    match vocab.get b with
    | none => .err (.mergeTokenOutOfVocabulary b)
    | some bId =>
      if blen a > maxLen vocab then .panic
      else if blen b < prefixLen then .panic
      else if blen a + (blen b - prefixLen) > maxLen vocab then .panic
      else
        match dropBytes prefixLen b with
        | none => .panic
        | some b' =>
          match vocab.get (a ++ b') with
          | none => .err (.mergeTokenOutOfVocabulary (a ++ b'))
          | some newId => .ok ((aId, bId), (i, newId))

/-- `merges.into_iter().enumerate().map(..).collect::<Result<MergeMap>>()` (`model.rs:255-280`): stops
at the first failure; a later entry for the same pair replaces the earlier one. -/
def buildMerges (vocab : AMap Str Nat) (prefixLen : Nat) :
    Nat → List (Str × Str) → AMap (Nat × Nat) (Nat × Nat) →
      Outcome BuildErr (AMap (Nat × Nat) (Nat × Nat))
  | _, [], acc => .ok acc
  | i, (a, b) :: rest, acc =>
    match buildMerge vocab prefixLen i a b with
    | .ok (k, v) => buildMerges vocab prefixLen (i + 1) rest (acc.insert k v)
    | .err e => .err e
    | .panic => .panic

/-- `BpeBuilder::build` (`model.rs:213-292`) without file reading and without the validation of the
dropout probability. The options are those of `cfg`, whose tables are replaced. -/
def build (vocab : AMap Str Nat) (merges : List (Str × Str)) (cfg : Bpe) : Outcome BuildErr Bpe :=
  match buildMerges vocab (blen (cfg.pre.getD [])) 0 merges [] with
  | .ok mm =>
    .ok { cfg with vocab := vocab, vocabR := AMap.extend [] (vocab.map fun p => (p.2, p.1)), merges := mm }
  | .err e => .err e
  | .panic => .panic

/-! ## initial symbols -/

/-- The text looked up for a character (`model.rs:474-495`). -/
def charSym (b : Bpe) (first last : Bool) (c : Char) : Str :=
  let s : Str := [c]
  let s := if !first then
      match b.pre with
      | some p => p ++ s
      | none => s
    else s
  if last then
    match b.suf with
    | some x => s ++ x
    | none => s
  else s

/-- `collect::<Option<Vec<_>>>` of the byte tokens (`model.rs:505-512`). -/
def byteIds (vocab : AMap Str Nat) : List UInt8 → Option (List Nat)
  | [] => some []
  | x :: xs =>
    match vocab.get (byteToken x) with
    | none => none
    | some i =>
      match byteIds vocab xs with
      | none => none
      | some is => some (i :: is)

/-- Symbols added so far and the pending unknown symbol. -/
abbrev InitSt := List (Nat × Nat) × Option (Nat × Nat)

/-- The unknown branch (`model.rs:520-546`). `none` is `Err(UnkTokenOutOfVocabulary)`. -/
def stepUnk (b : Bpe) (st : InitSt) (byteLen : Nat) : Option InitSt :=
  match b.unk with
  | none => some st
  | some unkToken =>
    match st.2, b.fuseUnk with
    | some (unkId, unkLen), true => some (st.1, some (unkId, unkLen + byteLen))
    | some (unkId, unkLen), false =>
      match b.vocab.get unkToken with
      | none => none
      | some u => some (st.1 ++ [(unkId, unkLen)], some (u, byteLen))
    | none, _ =>
      match b.vocab.get unkToken with
      | none => none
      | some u => some (st.1, some (u, byteLen))

/-- `unk` flushed into the word. -/
def flushUnk (st : InitSt) : List (Nat × Nat) :=
  match st.2 with
  | some u => st.1 ++ [u]
  | none => st.1

/-- One iteration over the characters (`model.rs:469-548`). -/
def stepChar (b : Bpe) (st : InitSt) (first last : Bool) (c : Char) : Option InitSt :=
  let s := charSym b first last c
  match b.vocab.get s with
  | some id => some (flushUnk st ++ [(id, c.utf8Size)], none)
  | none =>
    if b.byteFallback then
      match byteIds b.vocab (strBytes s) with
      | some tokens => some (st.1 ++ tokens.map fun t => (t, 1), st.2)
      | none => stepUnk b st c.utf8Size
    else stepUnk b st c.utf8Size

/-- The loop over the characters. -/
def initLoop (b : Bpe) : Bool → Str → InitSt → Option InitSt
  | _, [], st => some st
  | first, c :: cs, st =>
    match stepChar b st first cs.isEmpty c with
    | none => none
    | some st' => initLoop b false cs st'

/-- The symbols of the word before merging (`model.rs:465-551`). -/
def initSyms (b : Bpe) (w : Str) : Option (List (Nat × Nat)) :=
  (initLoop b true w ([], none)).map flushUnk

/-! ## tokenizing -/

inductive TokErr where
  | unkTokenOutOfVocabulary (t : Str)
deriving DecidableEq, Repr

/-- `merge_word` (`model.rs:465-554`). -/
def mergeWord (b : Bpe) (coins : Nat → Bool) (w : Str) : Outcome TokErr (List Symbol) :=
  match initSyms b w with
  | none => .err (.unkTokenOutOfVocabulary (b.unk.getD []))
  | some l =>
    match mergeAll (mergeFn b.merges) coins (mkWord l) with
    | none => .panic
    | some w' => .ok w'

/-- Tokens from ids, lengths and the running offset; `self.vocab_r[&id]` panics on an unknown id. -/
def tokensFrom (vocabR : AMap Nat Str) : Nat → List (Nat × Nat) → Option (List Token)
  | _, [] => some []
  | pos, (id, n) :: rest =>
    match vocabR.get id with
    | none => none
    | some v =>
      match tokensFrom vocabR (pos + n) rest with
      | none => none
      | some ts => some (⟨id, v, (pos, pos + n)⟩ :: ts)

/-- `word_to_tokens` (`model.rs:556-560`) with `get_offsets_iter` (`word.rs:260-268`). -/
def wordToTokens (b : Bpe) (w : List Symbol) : Outcome TokErr (List Token) :=
  match tokensFrom b.vocabR 0 (symsOf w) with
  | none => .panic
  | some ts => .ok ts

/-- `merge_word` followed by `word_to_tokens`. -/
def mergeToTokens (b : Bpe) (coins : Nat → Bool) (w : Str) : Outcome TokErr (List Token) :=
  match mergeWord b coins w with
  | .ok w' => wordToTokens b w'
  | .err e => .err e
  | .panic => .panic

/-- `tokenize` (`model.rs:601-612`) with the cache disabled (`tokenize_with_cache`,
`model.rs:562-590`, its branches for `ignore_merges` and for no cache). -/
def tokenize (b : Bpe) (coins : Nat → Bool) (w : Str) : Outcome TokErr (List Token) :=
  if w = [] then .ok []
  else if b.useDropout then mergeToTokens b coins w
  else if b.ignoreMerges then
    match b.vocab.get w with
    | some id => .ok [⟨id, w, (0, blen w)⟩]
    | none => mergeToTokens b (fun _ => false) w
  else mergeToTokens b (fun _ => false) w

end Bpe
end Tok
