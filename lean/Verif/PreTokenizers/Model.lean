import Verif.Codec.ByteLevel
import Verif.Codec.Metaspace

/-!
# Model of `pre_tokenizers/*.rs`

The Unicode tables and the matches of regular expressions are parameters. An error is a panic (or, for `FixedLength`,
the error "Failed to slice normalized text").
-/

namespace Tok

/-- `Script` (`unicode_scripts/scripts.rs:6-`): the variants the code distinguishes, and the others. -/
inductive Script | any | han | hiragana | katakana | other (n : Nat)
deriving DecidableEq, Repr

/-- The external tables. -/
structure CharTables where
  /-- `char::is_whitespace` -/
  ws : Char → Bool
  /-- `UnicodeCategories::is_punctuation` -/
  punct : Char → Bool
  /-- `char::is_numeric` -/
  numeric : Char → Bool
  /-- `\w` of the `regex` crate -/
  reWord : Char → Bool
  /-- `\s` of the `regex` crate -/
  reSpace : Char → Bool
  /-- `get_script` (`unicode_scripts/scripts.rs`) -/
  script : Char → Script

/-- `PreTokenizerWrapper` (`pre_tokenizers/mod.rs:28-43`). `split` and `byteLevel` have the matches of their regular
expression on a text. -/
inductive PreTokenizer
  | bert
  | byteLevel (cfg : ByteLevel.Config) (re : Str → List Range)
  | delimiter (c : Char)
  | metaspace (cfg : Metaspace.Config)
  | whitespace
  | sequence (l : List PreTokenizer)
  | split (re : Str → List Range) (behavior : NS.Behavior) (invert : Bool)
  | punctuation (behavior : NS.Behavior)
  | whitespaceSplit
  | digits (individual : Bool)
  | unicodeScripts
  | fixedLength (length : Nat)

namespace PreTokenizer

/-- The closures `|_, s| s.split(pattern, behavior)`; the pattern finds `ms` in a text. -/
def splitFn (ms : Str → NS.Matches) (b : NS.Behavior) (_ : Nat) (n : NS) : Except Unit (List Split) :=
  match n.split (ms n.norm) b with
  | none => .error ()
  | some out => .ok (out.map fun x => ⟨x, none⟩)

/-- `char::is_ascii_punctuation` (standard library): `!`–`/`, `:`–`@`, `[`–`` ` ``, `{`–`~`. -/
def asciiPunct (c : Char) : Bool :=
  let n := c.toNat
  (0x21 ≤ n && n ≤ 0x2F) || (0x3A ≤ n && n ≤ 0x40) || (0x5B ≤ n && n ≤ 0x60) || (0x7B ≤ n && n ≤ 0x7E)

/-- `is_bert_punc` (`bert.rs:5-7`), `is_punc` (`punctuation.rs:7-9`). -/
def isPunct (u : CharTables) (c : Char) : Bool := asciiPunct c || u.punct c

/-- `BertPreTokenizer::pre_tokenize` (`bert.rs:14-17`). -/
def bertPreTokenize (u : CharTables) (p : PTS) : Except Unit PTS := do
  let p1 ← p.split (splitFn (NS.findPred u.ws) .removed)
  p1.split (splitFn (NS.findPred (isPunct u)) .isolated)

/-- The search of the `regex` crate for `\w+|[^\w\s]+` from byte `b` on (`whitespace.rs:22`): `cur` is the match that is
being extended and whether it is of the first kind. -/
def wordMatches (u : CharTables) : Option (Nat × Bool) → Nat → Str → List Range
  | none, _, [] => []
  | some (a, _), b, [] => [(a, b)]
  | none, b, c :: s =>
    if u.reWord c then wordMatches u (some (b, true)) (b + c.utf8Size) s
    else if u.reSpace c then wordMatches u none (b + c.utf8Size) s
    else wordMatches u (some (b, false)) (b + c.utf8Size) s
  | some (a, k), b, c :: s =>
    if u.reWord c then
      if k then wordMatches u (some (a, k)) (b + c.utf8Size) s
      else (a, b) :: wordMatches u (some (b, true)) (b + c.utf8Size) s
    else if u.reSpace c then (a, b) :: wordMatches u none (b + c.utf8Size) s
    else if k then (a, b) :: wordMatches u (some (b, false)) (b + c.utf8Size) s
    else wordMatches u (some (a, k)) (b + c.utf8Size) s

/-- `Whitespace::pre_tokenize` (`whitespace.rs:21-28`). -/
def whitespaceFn (u : CharTables) : Nat → NS → Except Unit (List Split) :=
  splitFn (fun s => NS.invert (NS.findRegex (wordMatches u none 0 s) s)) .removed

/-- `Split::pre_tokenize` (`split.rs:97-103`). -/
def splitRegexFn (re : Str → List Range) (b : NS.Behavior) (inv : Bool) : Nat → NS → Except Unit (List Split) :=
  if inv then splitFn (fun s => NS.invert (NS.findRegex (re s) s)) b
  else splitFn (fun s => NS.findRegex (re s) s) b

/-- `text.char_indices()` from byte `b` on (`fixed_length.rs:33`). -/
def charIndices : Nat → Str → List (Nat × Char)
  | _, [] => []
  | b, c :: s => (b, c) :: charIndices (b + c.utf8Size) s

/-- `slice::chunks` (standard library) for `n ≠ 0`; `fuel` is at least the length. -/
def chunks {α : Type} (n : Nat) : Nat → List α → List (List α)
  | 0, _ => []
  | fuel + 1, l => if l = [] then [] else l.take n :: chunks n fuel (l.drop n)

/-- The range of a chunk (`fixed_length.rs:35-39`). -/
def chunkRange (len : Nat) (chunk : List (Nat × Char)) : Range :=
  (((chunk.head?).map (·.1)).getD 0, ((chunk.getLast?).map fun p => p.1 + p.2.utf8Size).getD len)

/-- The closure of `FixedLength::pre_tokenize` (`fixed_length.rs:26-48`). `chunks(0)` panics. -/
def fixedLengthFn (length : Nat) (_ : Nat) (n : NS) : Except Unit (List Split) :=
  if n.norm = [] then .ok []
  else if length = 0 then .error ()
  else
    match ((chunks length n.norm.length (charIndices 0 n.norm)).map (chunkRange (blen n.norm))).mapM
        (fun r => (n.sliceNormalized r).bind id) with
    | none => .error ()
    | some out => .ok (out.map fun x => ⟨x, none⟩)

/-- `fixed_script` (`unicode_scripts/pre_tokenizer.rs:25-38`). -/
def fixedScript (u : CharTables) (c : Char) : Script :=
  if c.toNat = 0x30FC then .han
  else if c = ' ' then .any
  else
    match u.script c with
    | .hiragana => .han
    | .katakana => .han
    | script => script

/-- The `filter_map` (`unicode_scripts/pre_tokenizer.rs:48-65`): `last` is `last_script`, `off` is `offset`. -/
def scriptStarts (u : CharTables) : Option Script → Nat → Str → List Nat
  | _, _, [] => []
  | last, off, c :: s =>
    let script := some (fixedScript u c)
    let rest := scriptStarts u (if script ≠ some .any then script else last) (off + c.utf8Size) s
    if script ≠ some .any ∧ last ≠ some .any ∧ last ≠ script then off :: rest else rest

/-- `windows(2)` (`unicode_scripts/pre_tokenizer.rs:68`). -/
def windows : List Nat → List Range
  | a :: b :: l => (a, b) :: windows (b :: l)
  | _ => []

/-- The closure of `UnicodeScripts::pre_tokenize` (`unicode_scripts/pre_tokenizer.rs:42-75`). -/
def scriptsFn (u : CharTables) (_ : Nat) (n : NS) : Except Unit (List Split) :=
  match (windows (scriptStarts u none 0 n.norm ++ [blen n.norm])).mapM (fun r => (n.sliceNormalized r).bind id) with
  | none => .error ()
  | some out => .ok (out.map fun x => ⟨x, none⟩)

mutual
/-- `PreTokenizerWrapper::pre_tokenize` (`pre_tokenizers/mod.rs:46-61`). The closures of `delimiter` (`delimiter.rs:20-25`),
`punctuation` (`punctuation.rs:35-37`), `whitespaceSplit` (`whitespace.rs:36-40`) and `digits` (`digits.rs:28-38`) are
predicate patterns. -/
def apply (u : CharTables) : PreTokenizer → PTS → Except Unit PTS
  | .bert => bertPreTokenize u
  | .byteLevel cfg re => ByteLevel.preTokenize cfg re
  | .delimiter c => fun p => p.split (splitFn (NS.findChar c) .removed)
  | .metaspace cfg => Metaspace.preTokenize cfg
  | .whitespace => fun p => p.split (whitespaceFn u)
  | .sequence l => applyAll u l
  | .split re b inv => fun p => p.split (splitRegexFn re b inv)
  | .punctuation b => fun p => p.split (splitFn (NS.findPred (isPunct u)) b)
  | .whitespaceSplit => fun p => p.split (splitFn (NS.findPred u.ws) .removed)
  | .digits individual => fun p =>
    if individual then p.split (splitFn (NS.findPred u.numeric) .isolated)
    else p.split (splitFn (NS.findPred u.numeric) .contiguous)
  | .unicodeScripts => fun p => p.split (scriptsFn u)
  | .fixedLength n => fun p => p.split (fixedLengthFn n)

/-- `Sequence::pre_tokenize` (`sequence.rs:40-45`). -/
def applyAll (u : CharTables) : List PreTokenizer → PTS → Except Unit PTS
  | [] => .ok
  | z :: l => fun p => do applyAll u l (← apply u z p)
end

end PreTokenizer
end Tok
