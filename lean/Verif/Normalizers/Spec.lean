import Verif.Normalizers.Model

/-!
# What each normalizer is documented to do, as functions on plain text (C56)
-/

namespace Tok

/-- What the external crates guarantee. Lowercasing a character gives at least one; a normal form describes a rewriting
of the text: it never uses up more characters than there are, and begins by rewriting one, not by inserting one; the
graphemes are non-empty and make up the text. -/
structure Unicode.Ok (u : Unicode) : Prop where
  lower : ∀ c, u.lower c ≠ []
  nfc : ∀ s, NS.Fits (u.nfc s) s.length ∧ ∀ p ∈ (u.nfc s).head?, p.2 ≤ 0
  nfd : ∀ s, NS.Fits (u.nfd s) s.length ∧ ∀ p ∈ (u.nfd s).head?, p.2 ≤ 0
  nfkc : ∀ s, NS.Fits (u.nfkc s) s.length ∧ ∀ p ∈ (u.nfkc s).head?, p.2 ≤ 0
  nfkd : ∀ s, NS.Fits (u.nfkd s) s.length ∧ ∀ p ∈ (u.nfkd s).head?, p.2 ≤ 0
  graphemes : ∀ s, (u.graphemes s).flatten = s ∧ ∀ g ∈ u.graphemes s, g ≠ []

namespace Normalizer

/-- The characters BERT removes: NUL, U+FFFD, and those of category "other" except tab and line ends. -/
def Junk (u : Unicode) (c : Char) : Prop :=
  c.toNat = 0 ∨ c.toNat = 0xFFFD ∨ (u.other c = true ∧ c ∉ ['\t', '\n', '\r'])

/-- The characters BERT takes for a space. -/
def Blank (u : Unicode) (c : Char) : Prop := c ∈ ['\t', '\n', '\r'] ∨ u.ws c = true

instance (u : Unicode) (c : Char) : Decidable (Junk u c) := inferInstanceAs (Decidable (_ ∨ _))
instance (u : Unicode) (c : Char) : Decidable (Blank u c) := inferInstanceAs (Decidable (_ ∨ _))

/-- The blocks of Chinese characters: first and last. -/
def chineseBlocks : List (Nat × Nat) :=
  [(0x4E00, 0x9FFF), (0x3400, 0x4DBF), (0x20000, 0x2A6DF), (0x2A700, 0x2B73F), (0x2B740, 0x2B81F),
   (0x2B920, 0x2CEAF), (0xF900, 0xFAFF), (0x2F800, 0x2FA1F)]

def Chinese (c : Char) : Prop := ∃ b ∈ chineseBlocks, b.1 ≤ c.toNat ∧ c.toNat ≤ b.2

instance (c : Char) : Decidable (Chinese c) := inferInstanceAs (Decidable (∃ b ∈ chineseBlocks, _))

/-- Remove junk, write blanks as spaces. -/
def clean (u : Unicode) (s : Str) : Str :=
  s.flatMap fun c => if Junk u c then [] else if Blank u c then [' '] else [c]

/-- Spaces around Chinese characters. -/
def spaced (s : Str) : Str := s.flatMap fun c => if Chinese c then [' ', c, ' '] else [c]

/-- The characters `Nmt` removes: ASCII control characters but tab, line feed, form feed, carriage return; and two
C1 control characters. -/
def nmtJunk : List Nat := [1, 2, 3, 4, 5, 6, 7, 8, 11] ++ List.range' 14 18 ++ [127, 143, 159]

/-- The characters `Nmt` writes as a space. -/
def nmtBlank : List Nat :=
  [9, 10, 12, 13, 0x1680, 0x200B, 0x200C, 0x200D, 0x200E, 0x200F, 0x2028, 0x2029, 0x2581, 0xFEFF, 0xFFFD]

/-- What a precompiled table makes of a grapheme: the entry of the whole grapheme if it has fewer than six bytes, else
that of each character; characters without entry stay. -/
def lookUp (table : Str → Option Str) (g : Str) : Str :=
  match table g with
  | some r => if blen g < 6 then r else g.flatMap fun c => (table [c]).getD [c]
  | none => g.flatMap fun c => (table [c]).getD [c]

/-- Substitute `content` for the given ranges, in order, of the text from byte `b` on. -/
def substitute (content s : Str) : Nat → List Range → Str
  | b, [] => (strGet s b (blen s)).getD []
  | b, m :: ms => (strGet s b m.1).getD [] ++ content ++ substitute content s m.2 ms

mutual
/-- The normalized text. -/
def text (u : Unicode) : Normalizer → Str → Str
  | .bert c h a l => fun s =>
    let s := if c then clean u s else s
    let s := if h then spaced s else s
    let s := if a = some true ∨ (a = none ∧ l = true) then ((u.nfd s).map (·.1)).filter (!u.nonspacing ·) else s
    if l then s.flatMap u.lower else s
  | .strip l r => fun s =>
    let s := if l then s.dropWhile u.ws else s
    if r then (s.reverse.dropWhile u.ws).reverse else s
  | .stripAccents => fun s => s.filter (!u.combining ·)
  | .nfc => fun s => (u.nfc s).map (·.1)
  | .nfd => fun s => (u.nfd s).map (·.1)
  | .nfkc => fun s => (u.nfkc s).map (·.1)
  | .nfkd => fun s => (u.nfkd s).map (·.1)
  | .sequence l => textAll u l
  | .lowercase => fun s => s.flatMap u.lower
  | .nmt => fun s => s.flatMap fun c => if c.toNat ∈ nmtJunk then [] else if c.toNat ∈ nmtBlank then [' '] else [c]
  | .precompiled t => fun s => (u.graphemes s).flatMap (lookUp t)
  | .replace re c => fun s => if s = [] then [] else substitute c s 0 (re s)
  | .prepend p => fun s => if s = [] then [] else p ++ s
  | .byteLevel => fun s => ByteLevel.spell s

/-- One after the other. -/
def textAll (u : Unicode) : List Normalizer → Str → Str
  | [] => fun s => s
  | z :: l => fun s => textAll u l (text u z s)
end

mutual
/-- The settings that never leave a first character without source: something is prepended, and a regular expression
(whose matches are in order, apart and on character boundaries) does not match the empty text at the beginning. -/
def Safe : Normalizer → Prop
  | .replace re _ => ∀ s, NS.EngineMatches s 0 (re s) ∧ (re s).head? ≠ some (0, 0)
  | .prepend s => s ≠ []
  | .sequence l => SafeAll l
  | _ => True

def SafeAll : List Normalizer → Prop
  | [] => True
  | z :: l => Safe z ∧ SafeAll l
end

end Normalizer
end Tok
