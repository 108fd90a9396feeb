import Verif.Pre.Pieces
import Verif.Codec.ByteLevel

/-!
# Model of `normalizers/*.rs`

The Unicode tables (`unicode_categories`, `unicode_normalization_alignments`, `unicode_segmentation`, the standard
library) and the table of a precompiled normalizer are parameters. `none` is a panic; no normalizer returns an error,
except that a regular expression may fail (not modelled: the matches of the engine are given).
-/

namespace Tok

/-- The external tables. -/
structure Unicode where
  /-- `char::is_whitespace` -/
  ws : Char → Bool
  /-- `UnicodeCategories::is_other` -/
  other : Char → Bool
  /-- `UnicodeCategories::is_mark_nonspacing` -/
  nonspacing : Char → Bool
  /-- `unicode_normalization_alignments::char::is_combining_mark` -/
  combining : Char → Bool
  /-- `char::to_lowercase` -/
  lower : Char → Str
  /-- the normal forms with their change of each character -/
  nfc : Str → List (Char × Int)
  nfd : Str → List (Char × Int)
  nfkc : Str → List (Char × Int)
  nfkd : Str → List (Char × Int)
  /-- `graphemes(true)` of `unicode_segmentation` -/
  graphemes : Str → List Str

/-- `NormalizerWrapper` (`normalizers/mod.rs:24-39`). `replace` has the matches of its regular expression on a text,
`precompiled` the lookup of its table. -/
inductive Normalizer
  | bert (cleanText handleChinese : Bool) (stripAccents : Option Bool) (lowercase : Bool)
  | strip (left right : Bool)
  | stripAccents
  | nfc
  | nfd
  | nfkc
  | nfkd
  | sequence (l : List Normalizer)
  | lowercase
  | nmt
  | precompiled (table : Str → Option Str)
  | replace (re : Str → List Range) (content : Str)
  | prepend (s : Str)
  | byteLevel

namespace Normalizer

/-! ## bert.rs -/

/-- `is_whitespace` (`bert.rs:7-13`). -/
def isWhitespace (u : Unicode) (c : Char) : Bool := c = '\t' || c = '\n' || c = '\r' || u.ws c

/-- `is_control` (`bert.rs:16-25`). -/
def isControl (u : Unicode) (c : Char) : Bool :=
  if c = '\t' || c = '\n' || c = '\r' then false else u.other c

/-- `is_chinese_char` (`bert.rs:36-48`). -/
def isChinese (c : Char) : Bool :=
  let n := c.toNat
  (0x4E00 ≤ n && n ≤ 0x9FFF) || (0x3400 ≤ n && n ≤ 0x4DBF) || (0x20000 ≤ n && n ≤ 0x2A6DF) ||
  (0x2A700 ≤ n && n ≤ 0x2B73F) || (0x2B740 ≤ n && n ≤ 0x2B81F) || (0x2B920 ≤ n && n ≤ 0x2CEAF) ||
  (0xF900 ≤ n && n ≤ 0xFAFF) || (0x2F800 ≤ n && n ≤ 0x2FA1F)

/-- `do_clean_text` (`bert.rs:92-96`). -/
def cleanText (u : Unicode) (n : NS) : Option NS :=
  (n.filter fun c => !(c.toNat == 0 || c.toNat == 0xfffd || isControl u c)).bind fun m =>
    m.map fun c => if isWhitespace u c then ' ' else c

/-- The entries of one character in `do_handle_chinese_chars` (`bert.rs:100-106`). -/
def chineseChanges (c : Char) : List (Char × Int) :=
  if isChinese c then [(' ', 0), (c, 1), (' ', 1)] else [(c, 0)]

/-- `do_handle_chinese_chars` (`bert.rs:98-108`). -/
def handleChinese (n : NS) : Option NS := n.transform (n.norm.flatMap chineseChanges) 0

/-- `do_strip_accents` (`bert.rs:110-112`). -/
def bertStripAccents (u : Unicode) (n : NS) : Option NS :=
  (n.transform (u.nfd n.norm) 0).bind fun m => m.filter fun c => !u.nonspacing c

/-- Apply a step or not. -/
def step (b : Bool) (f : NS → Option NS) (n : NS) : Option NS := if b then f n else some n

/-- `BertNormalizer::normalize` (`bert.rs:119-136`). -/
def bertNormalize (u : Unicode) (clean chinese : Bool) (accents : Option Bool) (lower : Bool) (n : NS) : Option NS :=
  (step clean (cleanText u) n).bind fun n1 =>
  (step chinese handleChinese n1).bind fun n2 =>
  (step (accents.getD lower) (bertStripAccents u) n2).bind fun n3 =>
  step lower (·.mapChars u.lower) n3

/-! ## strip.rs, unicode.rs -/

/-- `Strip::normalize` (`strip.rs:23-40`). -/
def stripNormalize (u : Unicode) (left right : Bool) (n : NS) : Option NS :=
  if left && right then n.lrstrip u.ws true true
  else (step left (fun m => m.lrstrip u.ws true false) n).bind (step right fun m => m.lrstrip u.ws false true)

/-- The characters `do_nmt` removes (`unicode.rs:45-57`). -/
def nmtRemoved (n : Nat) : Bool :=
  (1 ≤ n && n ≤ 8) || n == 0xB || (0xE ≤ n && n ≤ 0x1F) || n == 0x7F || n == 0x8F || n == 0x9F

/-- The characters `do_nmt` turns into a space (`unicode.rs:59-72`). -/
def nmtSpace (n : Nat) : Bool :=
  n == 0x9 || n == 0xA || n == 0xC || n == 0xD || n == 0x1680 || (0x200B ≤ n && n ≤ 0x200F) || n == 0x2028 ||
  n == 0x2029 || n == 0x2581 || n == 0xFEFF || n == 0xFFFD

/-- `do_nmt` (`unicode.rs:44-73`). -/
def nmtNormalize (n : NS) : Option NS :=
  (n.filter fun c => !nmtRemoved c.toNat).bind fun m => m.map fun c => if nmtSpace c.toNat then ' ' else c

/-! ## precompiled.rs -/

/-- Set the change of the last `k` entries to `1` (`precompiled.rs:16-20`). -/
def markLast (k : Nat) (ts : List (Char × Int)) : List (Char × Int) :=
  ts.take (ts.length - k) ++ (ts.drop (ts.length - k)).map fun p => (p.1, 1)

/-- Add to the change of the last entry, if there is one (`precompiled.rs:23-25`). -/
def addLast (d : Int) (ts : List (Char × Int)) : List (Char × Int) :=
  match ts.getLast? with
  | some p => ts.dropLast ++ [(p.1, p.2 + d)]
  | none => ts

/-- `replace` (`precompiled.rs:6-29`). -/
def replacePart (ts : List (Char × Int)) (old new : Str) : List (Char × Int) :=
  let ts := ts ++ new.map fun c => (c, (0 : Int))
  if new.length > old.length then markLast (new.length - old.length) ts
  else if new.length < old.length then addLast ((new.length : Int) - old.length) ts
  else ts

/-- The loop over the characters of a grapheme (`precompiled.rs:52-61`), with `modified`. -/
def charLoop (table : Str → Option Str) (st : List (Char × Int) × Bool) (c : Char) : List (Char × Int) × Bool :=
  match table [c] with
  | some norm => (replacePart st.1 [c] norm, true)
  | none => (st.1 ++ [(c, 0)], st.2)

/-- The body for one grapheme (`precompiled.rs:44-62`). -/
def graphemeLoop (table : Str → Option Str) (st : List (Char × Int) × Bool) (g : Str) : List (Char × Int) × Bool :=
  match (if blen g < 6 then table g else none) with
  | some norm => (replacePart st.1 g norm, true)
  | none => g.foldl (charLoop table) st

/-- `Precompiled::normalize` (`precompiled.rs:31-68`). -/
def precompiledNormalize (u : Unicode) (table : Str → Option Str) (n : NS) : Option NS :=
  let st := (u.graphemes n.norm).foldl (graphemeLoop table) ([], false)
  if st.2 then n.transform st.1 0 else some n

/-! ## prepend.rs, replace.rs, byte_level.rs -/

/-- `Prepend::normalize` (`prepend.rs:17-24`). -/
def prependNormalize (s : Str) (n : NS) : Option NS := if n.norm ≠ [] then n.prepend s else some n

/-- `Replace::normalize` (`replace.rs:81-85`). -/
def replaceNormalize (re : Str → List Range) (content : Str) (n : NS) : Option NS :=
  n.replace (NS.findRegex (re n.norm) n.norm) content

/-- The entries of one character in `ByteLevel::normalize` (`byte_level.rs:34-43`). -/
def byteChanges (c : Char) : List (Char × Int) :=
  (String.utf8EncodeChar c).zipIdx.map fun p => (ByteLevel.byteChar p.1, if p.2 > 0 then 1 else 0)

/-- `ByteLevel::normalize` (`byte_level.rs:29-48`). -/
def byteLevelNormalize (n : NS) : Option NS :=
  if n.norm ≠ [] then n.transform (n.norm.flatMap byteChanges) 0 else some n

mutual
/-- `NormalizerWrapper::normalize` (`normalizers/mod.rs:184-203`). The normal forms are
`NormalizedString::nfc` etc. (`normalizer.rs:449-470`). -/
def apply (u : Unicode) : Normalizer → NS → Option NS
  | .bert c h a l => bertNormalize u c h a l
  | .strip l r => stripNormalize u l r
  | .stripAccents => fun n => n.filter fun c => !u.combining c
  | .nfc => fun n => n.transform (u.nfc n.norm) 0
  | .nfd => fun n => n.transform (u.nfd n.norm) 0
  | .nfkc => fun n => n.transform (u.nfkc n.norm) 0
  | .nfkd => fun n => n.transform (u.nfkd n.norm) 0
  | .sequence l => applyAll u l
  | .lowercase => fun n => n.mapChars u.lower
  | .nmt => nmtNormalize
  | .precompiled t => precompiledNormalize u t
  | .replace re c => replaceNormalize re c
  | .prepend s => prependNormalize s
  | .byteLevel => byteLevelNormalize

/-- `Sequence::normalize` (`utils.rs:41-48`). -/
def applyAll (u : Unicode) : List Normalizer → NS → Option NS
  | [] => some
  | z :: l => fun n => (apply u z n).bind (applyAll u l)
end

end Normalizer
end Tok
