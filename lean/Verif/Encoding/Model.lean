import Verif.Base

/-!
# Model of `tokenizer/encoding.rs`, `utils/truncation.rs`, `utils/padding.rs`
-/

namespace Tok

/-- `tokenizer/encoding.rs:11-31` `Encoding`. The hash map `sequence_ranges` is an association list. -/
inductive Encoding where
  | mk (ids : List Nat) (typeIds : List Nat) (tokens : List Str) (words : List (Option Nat))
       (offsets : List Range) (specialMask : List Nat) (attnMask : List Nat)
       (overflowing : List Encoding) (seqRanges : AMap Nat Range) : Encoding
deriving Repr

namespace Encoding

/-- `get_ids` (`encoding.rs:147`). -/
def ids : Encoding → List Nat | mk a _ _ _ _ _ _ _ _ => a
/-- `get_type_ids` (`encoding.rs:151`). -/
def typeIds : Encoding → List Nat | mk _ a _ _ _ _ _ _ _ => a
/-- `get_tokens` (`encoding.rs:125`). -/
def tokens : Encoding → List Str | mk _ _ a _ _ _ _ _ _ => a
/-- `get_word_ids` (`encoding.rs:129`). -/
def words : Encoding → List (Option Nat) | mk _ _ _ a _ _ _ _ _ => a
/-- `get_offsets` (`encoding.rs:159`). -/
def offsets : Encoding → List Range | mk _ _ _ _ a _ _ _ _ => a
/-- `get_special_tokens_mask` (`encoding.rs:167`). -/
def specialMask : Encoding → List Nat | mk _ _ _ _ _ a _ _ _ => a
/-- `get_attention_mask` (`encoding.rs:171`). -/
def attnMask : Encoding → List Nat | mk _ _ _ _ _ _ a _ _ => a
/-- `get_overflowing` (`encoding.rs:175`). -/
def overflowing : Encoding → List Encoding | mk _ _ _ _ _ _ _ a _ => a
/-- field `sequence_ranges` (`encoding.rs:30`). -/
def seqRanges : Encoding → AMap Nat Range | mk _ _ _ _ _ _ _ _ a => a

/-- `Encoding::default()` / `with_capacity(0)` (`encoding.rs:58-70`). -/
def empty : Encoding := mk [] [] [] [] [] [] [] [] []

/-- `len` (`encoding.rs:107-109`). -/
def len (e : Encoding) : Nat := e.ids.length

/-- `from_tokens` (`encoding.rs:72-99`). -/
def fromTokens (ts : List Token) (typeId : Nat) : Encoding :=
  mk (ts.map (·.id)) (List.replicate ts.length typeId) (ts.map (·.value))
    (List.replicate ts.length none) (ts.map (·.offsets)) (List.replicate ts.length 0)
    (List.replicate ts.length 1) [] []

/-- `FromIterator<(id, token, offsets, word, type_id)>` (`encoding.rs:541-562`). -/
def fromItems (items : List (Nat × Str × Range × Option Nat × Nat)) : Encoding :=
  mk (items.map (·.1)) (items.map (·.2.2.2.2)) (items.map (·.2.1)) (items.map (·.2.2.2.1))
    (items.map (·.2.2.1)) (items.map fun _ => 0) (items.map fun _ => 1) [] []

/-- `n_sequences` (`encoding.rs:112-118`). -/
def nSequences (e : Encoding) : Nat :=
  if e.seqRanges.isEmpty then 1 else e.seqRanges.length

/-- `set_sequence_id` (`encoding.rs:121-123`). -/
def setSequenceId : Encoding → Nat → Encoding
  | mk i t k w o s a ov sr, q => mk i t k w o s a ov (AMap.insert sr q (0, i.length))

/-- `set_type_ids` (`encoding.rs:155-157`). -/
def setTypeIds : Encoding → List Nat → Encoding
  | mk i _ k w o s a ov sr, t => mk i t k w o s a ov sr

/-- `get_offsets_mut` / `process_tokens_with_offsets_mut` write access (`encoding.rs:163,191`). -/
def setOffsets : Encoding → List Range → Encoding
  | mk i t k w _ s a ov sr, o => mk i t k w o s a ov sr

/-- `set_overflowing` (`encoding.rs:179-181`). -/
def setOverflowing : Encoding → List Encoding → Encoding
  | mk i t k w o s a _ sr, ov => mk i t k w o s a ov sr

/-- `sequence_range` (`encoding.rs:204-209`). -/
def sequenceRange (e : Encoding) (q : Nat) : Range :=
  (e.seqRanges.get q).getD (0, e.len)

/-- `token_to_sequence` (`encoding.rs:212-226`); the comparison `token > len` is the code's. -/
def tokenToSequence (e : Encoding) (token : Nat) : Option Nat :=
  if token > e.len then none
  else if e.seqRanges.isEmpty then some 0
  else e.seqRanges.findSome? fun (q, r) => if r.1 ≤ token ∧ token < r.2 then some q else none

/-- `get_sequence_ids` (`encoding.rs:137-145`); `splice` with a range of the same length overwrites.
`none` is the panic of `splice` on an out-of-bounds range. -/
def getSequenceIds (e : Encoding) : Option (List (Option Nat)) :=
  (List.range e.nSequences).foldlM
    (fun acc q =>
      let r := e.sequenceRange q
      if r.1 ≤ r.2 ∧ r.2 ≤ acc.length then
        some (acc.take r.1 ++ List.replicate (r.2 - r.1) (some q) ++ acc.drop r.2)
      else none)
    (List.replicate e.len none)

/-- `<=` on `Option<u32>` (derived `PartialOrd`: `None` is smallest). -/
def optLe : Option Nat → Option Nat → Bool
  | none, _ => true
  | some _, none => false
  | some a, some b => a ≤ b

/-- The `for_each` accumulation of `word_to_tokens` (`encoding.rs:240-247`): `start`/`end` state. -/
def wordStep (st : Option Nat × Option Nat) (i : Nat) : Option Nat × Option Nat :=
  let start := if st.1.isNone ∨ (∃ s, st.1 = some s ∧ i < s) then some i else st.1
  let stop := if st.2.isNone ∨ (∃ s, st.2 = some s ∧ i ≥ s) then some (i + 1) else st.2
  (start, stop)

/-- `word_to_tokens` (`encoding.rs:230-254`). -/
def wordToTokens (e : Encoding) (word q : Nat) : Option (Nat × Nat) :=
  let r := e.sequenceRange q
  match slice? e.words r.1 r.2 with
  | none => none
  | some ws =>
    let idxs := ((ws.zipIdx.takeWhile fun p => optLe p.1 (some word)).filter
        fun p => p.1 = some word).map (·.2)
    match idxs.foldl wordStep (none, none) with
    | (some s, some t) => some (r.1 + s, r.1 + t)
    | _ => none

/-- `word_to_chars` (`encoding.rs:257-266`); inner `none` of the outer option is an index panic. -/
def wordToChars (e : Encoding) (word q : Nat) : Option (Option Range) :=
  match e.wordToTokens word q with
  | none => some none
  | some (s, t) =>
    if t = 0 then some none
    else match e.offsets[s]?, e.offsets[t - 1]? with
      | some a, some b => some (some (a.1, b.2))
      | _, _ => none

/-- `token_to_chars` (`encoding.rs:269-274`). -/
def tokenToChars (e : Encoding) (token : Nat) : Option (Nat × Range) :=
  match e.tokenToSequence token, e.offsets[token]? with
  | some q, some o => some (q, o)
  | _, _ => none

/-- `token_to_word` (`encoding.rs:277-282`). -/
def tokenToWord (e : Encoding) (token : Nat) : Option (Nat × Nat) :=
  match e.tokenToSequence token, e.words[token]? with
  | some q, some (some w) => some (q, w)
  | _, _ => none

/-- `char_to_token` (`encoding.rs:285-293`). -/
def charToToken (e : Encoding) (pos q : Nat) : Option Nat :=
  let r := e.sequenceRange q
  match slice? e.offsets r.1 r.2 with
  | none => none
  | some os => (os.findIdx? fun o => decide (pos ≥ o.1 ∧ pos < o.2)).map (r.1 + ·)

/-- `char_to_word` (`encoding.rs:296-302`). -/
def charToWord (e : Encoding) (pos q : Nat) : Option Nat :=
  match e.charToToken pos q with
  | none => none
  | some t => (e.tokenToWord t).map (·.2)

/-- `TruncationDirection` / `PaddingDirection` (`utils/truncation.rs:7`, `utils/padding.rs:7`). -/
inductive Direction | left | right
deriving DecidableEq, Repr

/-- `stepBy`, after skipping `k` elements. -/
def stepByFrom {α} (n : Nat) : Nat → List α → List α
  | _, [] => []
  | 0, x :: xs => x :: stepByFrom n (n - 1) xs
  | k + 1, _ :: xs => stepByFrom n k xs

/-- `Iterator::step_by(n)` for `n ≥ 1`: the first element and every `n`-th after it. -/
def stepBy {α} (n : Nat) (l : List α) : List α := stepByFrom n 0 l

/-- The Right arm's stateful `filter_map` (`encoding.rs:329-337`). -/
def partsRight (maxLen len : Nat) : Bool → List Nat → List Range
  | _, [] => []
  | true, _ :: rest => partsRight maxLen len true rest
  | false, start :: rest =>
    let stop := min (start + maxLen) len
    (start, stop) :: partsRight maxLen len (stop == len) rest

/-- The Left arm's stateful `filter_map` (`encoding.rs:342-351`). -/
def partsLeft (maxLen : Nat) : Bool → List Nat → List Range
  | _, [] => []
  | done, stop0 :: rest =>
    let stop := stop0 + 1
    let start := stop - maxLen
    if start < stop ∧ done = false then (start, stop) :: partsLeft maxLen (start == 0) rest
    else partsLeft maxLen done rest

/-- `parts_ranges` (`encoding.rs:324-353`). -/
def partsRanges (maxLen stride len : Nat) : Direction → List Range
  | .right => partsRight maxLen len false (stepBy (maxLen - stride) (List.range len))
  | .left => partsLeft maxLen false (stepBy (maxLen - stride) (List.range len).reverse)

/-- The struct literal slicing all seven vectors (`encoding.rs:357-367`, `375-385`). -/
def part (e : Encoding) (r : Range) : Option Encoding := do
  return mk (← slice? e.ids r.1 r.2) (← slice? e.typeIds r.1 r.2) (← slice? e.tokens r.1 r.2)
    (← slice? e.words r.1 r.2) (← slice? e.offsets r.1 r.2) (← slice? e.specialMask r.1 r.2)
    (← slice? e.attnMask r.1 r.2) [] []

/-- `truncate` (`encoding.rs:307-388`); `none` = panic (failed `assert!`, bad index or slice). -/
def truncate (e : Encoding) (maxLen stride : Nat) (dir : Direction) : Option Encoding :=
  if maxLen ≥ e.len then some e
  else if maxLen = 0 then some (mk [] [] [] [] [] [] [] [e] [])
  else if ¬ stride < maxLen then none
  else match partsRanges maxLen stride e.len dir with
    | [] => none
    | r :: rs => do
      let main ← e.part r
      let ovs ← rs.mapM e.part
      return main.setOverflowing ovs

/-- The non-recursive end of `merge_with` (`encoding.rs:435-462`), given the new overflowing list. -/
def mergeFlat (e p : Encoding) (growing : Bool) (ov : List Encoding) : Encoding :=
  let n := e.len
  let start := if growing then (e.offsets.getLast?).elim 0 (·.2) else 0
  mk (e.ids ++ p.ids) (e.typeIds ++ p.typeIds) (e.tokens ++ p.tokens) (e.words ++ p.words)
    (e.offsets ++ p.offsets.map fun o => (o.1 + start, o.2 + start))
    (e.specialMask ++ p.specialMask) (e.attnMask ++ p.attnMask) ov
    (AMap.extend e.seqRanges (p.seqRanges.map fun x => (x.1, (n + x.2.1, n + x.2.2))))

theorem sizeOf_mem_overflowing {e o : Encoding} (h : o ∈ e.overflowing) : sizeOf o < sizeOf e := by
  cases e with
  | mk a b c d f g i ov sr =>
    have := List.sizeOf_lt_of_mem (show o ∈ ov from h)
    simp only [mk.sizeOf_spec]; omega

/-- `merge_with` (`encoding.rs:408-463`), including the recursion through overflowing parts. -/
def mergeWith (e p : Encoding) (growing : Bool) : Encoding :=
  let withSelf := e.overflowing.attach.flatMap fun so =>
    mergeWith so.1 p growing ::
      p.overflowing.attach.map fun po => mergeWith so.1 po.1 growing
  let withMe := p.overflowing.attach.map fun po => mergeWith e po.1 growing
  mergeFlat e p growing (withSelf ++ withMe)
termination_by sizeOf e + sizeOf p
decreasing_by
  · have := sizeOf_mem_overflowing so.2; omega
  · have := sizeOf_mem_overflowing so.2; have := sizeOf_mem_overflowing po.2; omega
  · have := sizeOf_mem_overflowing po.2; omega

/-- `Encoding::merge` (`encoding.rs:391-405`). -/
def merge (es : List Encoding) (growing : Bool) : Encoding :=
  es.foldl (fun acc s => acc.mergeWith s growing) empty

/-- The parameters of `pad` (`encoding.rs:465-472`, `utils/padding.rs:22-29`). -/
structure PadTok where
  id : Nat
  typeId : Nat
  token : Str

/-- `pad` (`encoding.rs:465-532`). -/
def pad (e : Encoding) (target : Nat) (pt : PadTok) (dir : Direction) : Encoding :=
  let ov := e.overflowing.attach.map fun o => pad o.1 target pt dir
  if e.len ≥ target then e.setOverflowing ov
  else
    let n := target - e.len
    match dir with
    | .left =>
      mk (List.replicate n pt.id ++ e.ids) (List.replicate n pt.typeId ++ e.typeIds)
        (List.replicate n pt.token ++ e.tokens) (List.replicate n none ++ e.words)
        (List.replicate n (0, 0) ++ e.offsets) (List.replicate n 1 ++ e.specialMask)
        (List.replicate n 0 ++ e.attnMask) ov
        (e.seqRanges.map fun x => (x.1, (x.2.1 + n, x.2.2 + n)))
    | .right =>
      mk (e.ids ++ List.replicate n pt.id) (e.typeIds ++ List.replicate n pt.typeId)
        (e.tokens ++ List.replicate n pt.token) (e.words ++ List.replicate n none)
        (e.offsets ++ List.replicate n (0, 0)) (e.specialMask ++ List.replicate n 1)
        (e.attnMask ++ List.replicate n 0) ov e.seqRanges
termination_by sizeOf e
decreasing_by exact sizeOf_mem_overflowing o.2

end Encoding

open Encoding

/-- `utils/truncation.rs:53-58` `TruncationStrategy`. -/
inductive TruncStrategy | longestFirst | onlyFirst | onlySecond
deriving DecidableEq, Repr

/-- `utils/truncation.rs:23-29` `TruncationParams`. -/
structure TruncParams where
  maxLength : Nat
  strategy : TruncStrategy
  stride : Nat
  direction : Direction

/-- `utils/truncation.rs:43-50` `TruncationError`, plus `panic` for a failed assertion. -/
inductive TruncError | secondSequenceNotProvided | sequenceTooShort | panic
deriving DecidableEq, Repr

/-- A panicking call inside a `Result`-returning function. -/
def orPanic {α} : Option α → Except TruncError α
  | some a => .ok a
  | none => .error .panic

/-- The lengths `(n1, n2)` chosen by `LongestFirst` (`utils/truncation.rs:110-137`). -/
def longestFirstLengths (len1 len2 maxLength : Nat) : Nat × Nat :=
  let swap := decide (len1 > len2)
  let n1 := if swap then len2 else len1
  let n2 := if n1 > maxLength then n1 else max n1 (maxLength - n1)
  let n12 := if n1 + n2 > maxLength then (maxLength / 2, maxLength / 2 + maxLength % 2) else (n1, n2)
  if swap then (n12.2, n12.1) else n12

/-- `truncate_encodings` (`utils/truncation.rs:70-162`). -/
def truncateEncodings (e : Encoding) (pair : Option Encoding) (p : TruncParams) :
    Except TruncError (Encoding × Option Encoding) :=
  if p.maxLength = 0 then do
    let e' ← orPanic (e.truncate 0 p.stride p.direction)
    match pair with
    | none => return (e', none)
    | some o => do
      let o' ← orPanic (o.truncate 0 p.stride p.direction)
      return (e', some o')
  else
    let total := e.len + (pair.map Encoding.len).getD 0
    if total > p.maxLength then
      let toRemove := total - p.maxLength
      match p.strategy with
      | .longestFirst =>
        match pair with
        | some o => do
          let n := longestFirstLengths e.len o.len p.maxLength
          let e' ← orPanic (e.truncate n.1 p.stride p.direction)
          let o' ← orPanic (o.truncate n.2 p.stride p.direction)
          return (e', some o')
        | none => do
          let e' ← orPanic (e.truncate (total - toRemove) p.stride p.direction)
          return (e', none)
      | .onlyFirst =>
        if e.len > toRemove then do
          let e' ← orPanic (e.truncate (e.len - toRemove) p.stride p.direction)
          return (e', pair)
        else .error .sequenceTooShort
      | .onlySecond =>
        match pair with
        | none => .error .secondSequenceNotProvided
        | some o =>
          if o.len > toRemove then do
            let o' ← orPanic (o.truncate (o.len - toRemove) p.stride p.direction)
            return (e, some o')
          else .error .sequenceTooShort
    else .ok (e, pair)

/-- `utils/padding.rs:45-48` `PaddingStrategy`. -/
inductive PadStrategy | batchLongest | fixed (size : Nat)

/-- `utils/padding.rs:22-29` `PaddingParams`. -/
structure PadParams where
  strategy : PadStrategy
  direction : Direction
  multipleOf : Option Nat
  pt : PadTok

/-- The target length computed by `pad_encodings` (`utils/padding.rs:55-68`). -/
def padTarget (es : List Encoding) (p : PadParams) : Nat :=
  let n := match p.strategy with
    | .fixed size => size
    | .batchLongest => (es.map Encoding.len).foldl max 0
  match p.multipleOf with
  | some m => if m > 0 ∧ n % m > 0 then n + (m - n % m) else n
  | none => n

/-- `pad_encodings` (`utils/padding.rs:50-81`). -/
def padEncodings (es : List Encoding) (p : PadParams) : List Encoding :=
  if es.isEmpty then es
  else es.map fun e => e.pad (padTarget es p) p.pt p.direction

end Tok
