import Verif.Norm.Pattern
import Verif.Encoding.Model

/-!
# Model of `tokenizer/pre_tokenizer.rs` and the offset helpers of `tokenizer/normalizer.rs`

User functions return `Except ε` (a Rust `Result`); `ε` may include panics.
-/

namespace Tok

/-- `Split` (`pre_tokenizer.rs:21-28`). -/
structure Split where
  normalized : NS
  tokens : Option (List Token)
deriving DecidableEq, Repr

/-- `PreTokenizedString` (`pre_tokenizer.rs:55-58`). -/
structure PTS where
  original : Str
  splits : List Split
deriving DecidableEq, Repr

namespace PTS
variable {ε : Type}

/-- `From<NormalizedString>` (`pre_tokenizer.rs:303-313`). -/
def ofNS (n : NS) : PTS := ⟨n.orig, [⟨n, none⟩]⟩

/-- `From<&str>`, `From<String>` (`pre_tokenizer.rs:315-327`). -/
def ofStr (s : Str) : PTS := ofNS (NS.ofStr s)

/-- The loop of `split` (`pre_tokenizer.rs:79-99`), `i` being the index of the first split. -/
def splitLoop (f : Nat → NS → Except ε (List Split)) : Nat → List Split → Except ε (List Split)
  | _, [] => .ok []
  | i, s :: rest =>
    if s.tokens.isSome then (splitLoop f (i + 1) rest).map (s :: ·)
    else do
      let out ← f i s.normalized
      let more ← splitLoop f (i + 1) rest
      pure (out.filter (fun x => x.normalized.norm ≠ []) ++ more)

/-- `split` (`pre_tokenizer.rs:73-103`). -/
def split (p : PTS) (f : Nat → NS → Except ε (List Split)) : Except ε PTS :=
  (splitLoop f 0 p.splits).map fun s => ⟨p.original, s⟩

/-- Apply `g` to the splits without tokens, in order, stopping at the first error. -/
def mapUntokenized (g : NS → Except ε Split) : List Split → Except ε (List Split)
  | [] => .ok []
  | s :: rest =>
    if s.tokens.isSome then (mapUntokenized g rest).map (s :: ·)
    else do
      let s' ← g s.normalized
      (mapUntokenized g rest).map (s' :: ·)

/-- `normalize` (`pre_tokenizer.rs:107-115`). -/
def normalize (p : PTS) (f : NS → Except ε NS) : Except ε PTS :=
  (mapUntokenized (fun n => (f n).map fun n' => ⟨n', none⟩) p.splits).map fun s => ⟨p.original, s⟩

/-- `tokenize` (`pre_tokenizer.rs:119-128`). -/
def tokenize (p : PTS) (f : NS → Except ε (List Token)) : Except ε PTS :=
  (mapUntokenized (fun n => (f n).map fun ts => ⟨n, some ts⟩) p.splits).map fun s => ⟨p.original, s⟩

/-- The loop of `tokenize_with_limit` from left to right (`pre_tokenizer.rs:163-183`), `total` being
`total_tokens`; it returns the splits up to `last_tokenized_idx`. -/
def limitLoop (f : NS → Except ε (List Token)) (max : Nat) : Nat → List Split → Except ε (List Split)
  | _, [] => .ok []
  | total, s :: rest =>
    match s.tokens with
    | some ts => (limitLoop f max (total + ts.length) rest).map (s :: ·)
    | none => do
      let ts ← f s.normalized
      if total + ts.length ≥ max then pure [⟨s.normalized, some ts⟩]
      else (limitLoop f max (total + ts.length) rest).map (⟨s.normalized, some ts⟩ :: ·)

/-- `tokenize_with_limit` (`pre_tokenizer.rs:131-188`). From right to left the loop visits the splits in
reverse order (`142-162`) and drops those before `first_tokenized_idx`. -/
def tokenizeWithLimit (p : PTS) (f : NS → Except ε (List Token)) (max : Nat) (dir : Encoding.Direction) :
    Except ε PTS :=
  match dir with
  | .right => (limitLoop f max 0 p.splits).map fun s => ⟨p.original, s⟩
  | .left => (limitLoop f max 0 p.splits.reverse).map fun s => ⟨p.original, s.reverse⟩

/-- `OffsetType` (`pre_tokenizer.rs:9-13`). -/
inductive OffsetType | byte | char | none
deriving DecidableEq, Repr

/-- `BytesToCharOffsetConverter::new` (`pre_tokenizer.rs:334-350`) as a lookup: the index of the character
a byte belongs to; `i` is the index of the first character. -/
def charIndex : Nat → Str → Nat → Option Nat
  | _, [], _ => none
  | i, c :: cs, b => if b < c.utf8Size then some i else charIndex (i + 1) cs (b - c.utf8Size)

/-- `BytesToCharOffsetConverter::convert` (`pre_tokenizer.rs:352-364`). `offsets.1 - 1` does not underflow:
if byte `0` is not in the map it is empty and the first lookup fails. -/
def convert (s : Str) (o : Range) : Option Range :=
  match charIndex 0 s o.1, charIndex 0 s o.2 with
  | some a, some b => some (a, b)
  | some a, none => some (a, (charIndex 0 s (o.2 - 1)).getD (a + 1) + 1)
  | none, _ => none

/-- The offsets of one token (`pre_tokenizer.rs:233-243`): from the normalized text of its split to the
original text. -/
def tokenOffsets (original : Str) (ty : OffsetType) (n : NS) (t : Token) : Range :=
  let o := match n.convertNormalized t.offsets with
    | some r => (n.offsetsOriginal.1 + r.1, n.offsetsOriginal.1 + r.2)
    | none => t.offsets
  match ty with
  | .char => (convert original o).getD o
  | _ => o

/-- The rows of the encoding (`pre_tokenizer.rs:224-261`), `idx` being the index of the first split. -/
def encodingItems (original : Str) (word : Option Nat) (typeId : Nat) (ty : OffsetType) :
    Nat → List Split → List (Nat × Str × Range × Option Nat × Nat)
  | _, [] => []
  | idx, s :: rest =>
    ((s.tokens.getD []).map fun t =>
      (t.id, t.value, tokenOffsets original ty s.normalized t, some (word.getD idx), typeId)) ++
    encodingItems original word typeId ty (idx + 1) rest

/-- `into_encoding` (`pre_tokenizer.rs:198-263`); the only error is a split without tokens. -/
def intoEncoding (p : PTS) (word : Option Nat) (typeId : Nat) (ty : OffsetType) : Except Unit Encoding :=
  if p.splits = [] then .ok Encoding.empty
  else if ¬ p.splits.all (·.tokens.isSome) then .error ()
  else match ty with
    | .none => .ok (Encoding.fromItems (p.splits.flatMap fun s =>
        (s.tokens.getD []).map fun t => (t.id, [], (0, 0), none, 0)))
    | ty => .ok (Encoding.fromItems (encodingItems p.original word typeId ty 0 p.splits))

/-- `OffsetReferential` (`normalizer.rs:10-13`). -/
inductive Referential | original | normalized
deriving DecidableEq, Repr

/-- The loop of `get_splits` (`pre_tokenizer.rs:279-299`), `off` being `offset`. -/
def getSplitsLoop (original : Str) (ref : Referential) (ty : OffsetType) :
    Nat → List Split → List (Str × Range × Option (List Token))
  | _, [] => []
  | off, s :: rest =>
    let o := match ref with
      | .original => s.normalized.offsetsOriginal
      | .normalized => (off, off + blen s.normalized.norm)
    let o := match ty with
      | .char => (convert original o).getD o
      | _ => o
    (s.normalized.norm, o, s.tokens) :: getSplitsLoop original ref ty (off + blen s.normalized.norm) rest

/-- `get_splits` (`pre_tokenizer.rs:268-300`). -/
def getSplits (p : PTS) (ref : Referential) (ty : OffsetType) : List (Str × Range × Option (List Token)) :=
  getSplitsLoop p.original ref ty 0 p.splits

end PTS

/-! ## helpers of `normalizer.rs` between bytes and characters -/

/-- The loop of `bytes_to_char` (`normalizer.rs:948-962`): `i`, `b` index and byte position of the first
character, the pair being `(start, end)`. -/
def bytesToCharLoop (r : Range) : Nat → Nat → Str → Option Nat × Option Nat → Option Nat × Option Nat
  | _, _, [], st => st
  | i, b, c :: cs, (s, e) =>
    if b ≤ r.2 then
      if b ≥ r.1 then
        let s := if b = r.1 then some i else s
        let e := if b = r.2 then some i else e
        let e := if b + c.utf8Size = r.2 then some (i + 1) else e
        bytesToCharLoop r (i + 1) (b + c.utf8Size) cs (s, e)
      else bytesToCharLoop r (i + 1) (b + c.utf8Size) cs (s, e)
    else (s, e)

/-- `bytes_to_char` (`normalizer.rs:941-965`). -/
def bytesToChar (s : Str) (r : Range) : Option Range :=
  match bytesToCharLoop r 0 0 s (if r = (0, 0) then (some 0, some 0) else (none, none)) with
  | (some a, some b) => some (a, b)
  | _ => none

/-- `char_to_bytes` (`normalizer.rs:968-996`): the outer `none` is the underflow of `end - start`. -/
def charToBytes (s : Str) (r : Range) : Option (Option Range) :=
  if r.1 = r.2 then
    if r.1 < s.length then some (some (blen (s.take r.1), blen (s.take r.1)))
    else some (if r = (0, 0) then some (0, 0) else none)
  else if r.1 > r.2 then none
  else if r.1 < s.length then some (some (blen (s.take r.1), blen (s.take r.2)))
  else some none

/-- `get_range_of(s, a..b)` (`normalizer.rs:916-938`): by characters. -/
def getRangeOf (s : Str) (r : Range) : Option Str :=
  if r.1 = 0 ∧ r.2 = 0 then some []
  else if r.1 ≥ s.length ∨ r.2 > s.length ∨ r.1 ≥ r.2 then none
  else some ((s.take r.2).drop r.1)

end Tok
