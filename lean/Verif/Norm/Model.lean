import Verif.Base

/-!
# Model of `tokenizer/normalizer.rs`: `NormalizedString`

Byte offsets and one alignment per byte, as in the code. `none` stands for a panic unless the Rust
function itself returns an `Option` (then the comment says so). Ranges are given resolved (`a..b`), as
`Range::into_full_range` (`normalizer.rs:56-71`) computes them from the bounds.
-/

namespace Tok

/-- The prefix of exactly `n` bytes, if `n` is a character boundary. -/
def takeBytes : Nat → Str → Option Str
  | 0, _ => some []
  | _ + 1, [] => none
  | n + 1, c :: cs =>
    if c.utf8Size ≤ n + 1 then (takeBytes (n + 1 - c.utf8Size) cs).map (c :: ·) else none

/-- `str::get(a..b)`: `None` unless `a ≤ b ≤ len` on character boundaries. -/
def strGet (s : Str) (a b : Nat) : Option Str :=
  if a ≤ b then (dropBytes a s).bind (takeBytes (b - a)) else none

/-- `str::is_char_boundary`. -/
def isBoundary (s : Str) (n : Nat) : Bool := (dropBytes n s).isSome

/-- `NormalizedString` (`normalizer.rs:105-117`). -/
structure NS where
  orig : Str
  norm : Str
  al : List Range
  shift : Nat
deriving DecidableEq, Repr

namespace NS

/-- The alignments of `From<String>` (`normalizer.rs:1000-1006`) from byte `b` on. -/
def alignFrom : Nat → Str → List Range
  | _, [] => []
  | b, c :: cs => List.replicate c.utf8Size (b, b + c.utf8Size) ++ alignFrom (b + c.utf8Size) cs

/-- `From<String>` (`normalizer.rs:998-1014`). -/
def ofStr (s : Str) : NS := ⟨s, s, alignFrom 0 s, 0⟩

/-- `offsets_original` (`normalizer.rs:145-150`). -/
def offsetsOriginal (n : NS) : Range := (n.shift, n.shift + blen n.orig)

/-- State `(start, end)` of the scan of `convert_offsets` over the alignments (`normalizer.rs:186-201`);
`i` is the index of the first alignment of the list. -/
def convertScan (ts te : Nat) : Nat → List Range → Option Nat → Option Nat → Option Nat × Option Nat
  | _, [], s, e => (s, e)
  | i, a :: rest, s, e =>
    if te ≥ a.2 then
      convertScan ts te (i + 1) rest
        (if s.isNone ∧ ts ≤ a.1 ∧ a.1 ≠ a.2 then some i else s) (some (i + 1))
    else (s, e)

/-- The final match (`normalizer.rs:203-211`); the result is the Rust `Option`. -/
def convertResult : Option Nat × Option Nat → Option Range
  | (some s, none) => some (s, s)
  | (none, some e) => some (e, e)
  | (some s, some e) => some (s, e)
  | (none, none) => none

/-- `convert_offsets(Range::Original(a..b))` (`normalizer.rs:156-215`). The special case for an empty
original (`178-180`) is unreachable, since `0..0` was already returned as an empty range. -/
def convertOriginal (n : NS) (r : Range) : Option Range :=
  if r.1 = r.2 then some r
  else if r.1 > r.2 then none
  else convertResult (convertScan r.1 r.2 0 n.al none none)

/-- `expand_alignments` (`normalizer.rs:905-913`). -/
def expandAlignments : List Range → Option Range
  | [] => none
  | a :: rest => some (a.1, ((a :: rest).getLast (by simp)).2)

/-- `convert_offsets(Range::Normalized(a..b))` (`normalizer.rs:156-215`). -/
def convertNormalized (n : NS) (r : Range) : Option Range :=
  if r.1 = r.2 then some r
  else if r.1 > r.2 then none
  else (slice? n.al r.1 r.2).bind expandAlignments

/-- The end of `slice` (`normalizer.rs:288-303`): `orig`/`norm` are the texts found, `nr`/`or` the two
ranges. Outer `none` is the underflow panic of `start - n_shift`, inner `none` is the Rust `None`. -/
def sliceWith (n : NS) (orig norm : Option Str) (nr or : Range) : Option (Option NS) :=
  match slice? n.al nr.1 nr.2 with
  | none => some none
  | some al =>
    if al.all fun a => decide (or.1 ≤ a.1 ∧ or.1 ≤ a.2) then
      some (some ⟨orig.getD [], norm.getD [], al.map fun a => (a.1 - or.1, a.2 - or.1), n.shift + or.1⟩)
    else none

/-- `slice(Range::Normalized(a..b))` (`normalizer.rs:272-304`, with `validate_range` `242-268` and
`get_range`, `get_range_original` `218-239`). Inner `none` is the Rust `None`. -/
def sliceNormalized (n : NS) (r : Range) : Option (Option NS) :=
  if isBoundary n.norm r.1 ∧ isBoundary n.norm r.2 then
    match n.convertNormalized r with
    | none => some none
    | some or => n.sliceWith (strGet n.orig or.1 or.2) (strGet n.norm r.1 r.2) r or
  else some none

/-- `slice(Range::Original(a..b))`, same lines. -/
def sliceOriginal (n : NS) (r : Range) : Option (Option NS) :=
  if isBoundary n.orig r.1 ∧ isBoundary n.orig r.2 then
    match n.convertOriginal r with
    | none => some none
    | some nr => n.sliceWith (strGet n.orig r.1 r.2) (strGet n.norm nr.1 nr.2) nr r
  else some none

/-- The closure of `transform_range` (`normalizer.rs:344-412`), run over `dest`: `off` is `offset`,
`rest` what is left of `replaced_normalized`. It yields the new alignments. -/
def transformLoop (al : List Range) : List (Char × Int) → Nat → Str → Option (List Range)
  | [], _, _ => some []
  | (c, ch) :: ds, off, rest =>
    match (if ch > 0 then (if off < 1 then some (0, 0) else al[off - 1]?) else al[off]?) with
    | none => none
    | some align =>
      let replaced := if ch > 0 then [] else rest.take 1
      let rest1 := if ch > 0 then rest else rest.drop 1
      let removed := if ch < 0 then rest1.take (-ch).toNat else []
      let rest2 := if ch < 0 then rest1.drop (-ch).toNat else rest1
      match transformLoop al ds (off + blen replaced + blen removed) rest2 with
      | none => none
      | some as => some (List.replicate c.utf8Size align ++ as)

/-- `transform_range(Range::Normalized(a..b), dest, initial_offset)` (`normalizer.rs:317-428`). -/
def transformRange (n : NS) (r : Range) (dest : List (Char × Int)) (init : Nat) : Option NS :=
  match strGet n.norm r.1 r.2, takeBytes r.1 n.norm, dropBytes r.2 n.norm with
  | some rep, some pre, some post =>
    match transformLoop n.al dest (blen (rep.take init) + r.1) (rep.drop init) with
    | none => none
    | some as =>
      if r.2 ≤ n.al.length then
        some { n with norm := pre ++ dest.map (·.1) ++ post, al := n.al.take r.1 ++ as ++ n.al.drop r.2 }
      else none
  | _, _, _ => none

/-- `transform_range(Range::Original(a..b), ..)`: nothing happens when the range has no counterpart. -/
def transformRangeOriginal (n : NS) (r : Range) (dest : List (Char × Int)) (init : Nat) : Option NS :=
  match n.convertOriginal r with
  | none => some n
  | some nr => n.transformRange nr dest init

/-- `transform` (`normalizer.rs:441-446`): over the whole original string. -/
def transform (n : NS) (dest : List (Char × Int)) (init : Nat) : Option NS :=
  n.transformRangeOriginal (0, blen n.orig) dest init

/-- Loop state of `filter` (`normalizer.rs:474-478`). -/
structure FilterSt where
  removed : Nat
  removedStart : Nat
  transforms : List (Char × Int)
  last : Option Char

/-- One iteration of `filter` (`normalizer.rs:479-494`). -/
def filterStep (keep : Char → Bool) (st : FilterSt) (c : Char) : FilterSt :=
  if keep c then
    match st.last with
    | some lc => ⟨0, st.removedStart, st.transforms ++ [(lc, -(st.removed : Int))], some c⟩
    | none => ⟨0, st.removed, st.transforms, some c⟩
  else { st with removed := st.removed + 1 }

/-- The transformations and initial offset computed by `filter` (`normalizer.rs:474-497`). -/
def filterDest (keep : Char → Bool) (s : Str) : List (Char × Int) × Nat :=
  let st := s.foldl (filterStep keep) ⟨0, 0, [], none⟩
  (match st.last with
    | some lc => st.transforms ++ [(lc, -(st.removed : Int))]
    | none => st.transforms,
   st.removedStart)

/-- `filter` (`normalizer.rs:473-500`). -/
def filter (n : NS) (keep : Char → Bool) : Option NS :=
  n.transform (filterDest keep n.norm).1 (filterDest keep n.norm).2

/-- `prepend` (`normalizer.rs:503-514`). -/
def prepend (n : NS) (s : Str) : Option NS :=
  match n.norm with
  | [] => some n
  | next :: _ =>
    n.transformRange (0, next.utf8Size)
      ((s.zipIdx.map fun p => (p.1, if p.2 ≠ 0 then (1 : Int) else 0)) ++ [(next, 1)]) 0

/-- `append` (`normalizer.rs:517-526`). -/
def append (n : NS) (s : Str) : Option NS :=
  match n.norm.getLast? with
  | some prev =>
    n.transformRange (blen n.norm.dropLast, blen n.norm)
      ((prev, 0) :: s.map fun c => (c, (1 : Int))) 0
  | none => n.transformRange (0, blen n.norm) (s.map fun c => (c, (1 : Int))) 0

/-- `map` (`normalizer.rs:529-537`). -/
def map (n : NS) (f : Char → Char) : Option NS :=
  n.transform (n.norm.map fun c => (f c, (0 : Int))) 0

/-- `lowercase`/`uppercase` (`normalizer.rs:546-567`) for the mapping of characters to strings
(`char::to_lowercase`, `to_uppercase`) of the standard library. -/
def mapChars (n : NS) (f : Char → Str) : Option NS :=
  n.transform
    (n.norm.flatMap fun c => (f c).zipIdx.map fun p => (p.1, if p.2 > 0 then (1 : Int) else 0)) 0

/-- `clear` (`normalizer.rs:677-681`): the new string and the returned length. -/
def clear (n : NS) : Option (NS × Nat) :=
  (n.transform [] (blen n.norm)).map fun n' => (n', blen n.norm)

/-- The transformations of `lrstrip` (`normalizer.rs:818-831`). The code compares `i` with
`self.len() - trailing - 1` in bytes; `len ≥ count > trailing` whenever that is evaluated, so there is
no underflow. -/
def stripDest (s : Str) (leading trailing : Nat) : List (Char × Int) :=
  s.zipIdx.filterMap fun p =>
    if p.2 < leading ∨ p.2 ≥ s.length - trailing then none
    else if p.2 = blen s - trailing - 1 then some (p.1, -(trailing : Int))
    else some (p.1, 0)

/-- `lrstrip` (`normalizer.rs:800-835`); `ws` is `char::is_whitespace`. -/
def lrstrip (n : NS) (ws : Char → Bool) (left right : Bool) : Option NS :=
  let leading := if left then (n.norm.takeWhile ws).length else 0
  let trailing := if right then (n.norm.reverse.takeWhile ws).length else 0
  if leading > 0 ∨ trailing > 0 then n.transform (stripDest n.norm leading trailing) leading
  else some n

/-- A result of `Pattern::find_matches`: consecutive offsets with a match flag. -/
abbrev Matches := List (Range × Bool)

/-- The loop of `replace` (`normalizer.rs:575-669`): `last` is `last_end`, the rest is what is left of
the matches; it yields the text and alignments still to be written. Within a match all characters are
removed first, so the content is inserted at `end`. -/
def replaceLoop (n : NS) (content : Str) : Nat → Matches → Option (Str × List Range)
  | last, [] =>
    match dropBytes last n.norm with
    | some post => if last ≤ n.al.length then some (post, n.al.drop last) else none
    | none => none
  | last, ((s, e), true) :: ms =>
    match strGet n.norm s e, strGet n.norm last s, slice? n.al last s with
    | some m, some copied, some copiedAl =>
      match transformLoop n.al (content.map fun c => (c, (1 : Int))) (blen m + s) [] with
      | none => none
      | some as =>
        match replaceLoop n content e ms with
        | none => none
        | some (t, l) => some (copied ++ content ++ t, copiedAl ++ as ++ l)
    | _, _, _ => none
  | last, (_, false) :: ms => replaceLoop n content last ms

/-- `replace` (`normalizer.rs:570-674`), for the matches found in the normalized string. -/
def replace (n : NS) (ms : Matches) (content : Str) : Option NS :=
  (replaceLoop n content 0 ms).map fun p => { n with norm := p.1, al := p.2 }

end NS
end Tok
