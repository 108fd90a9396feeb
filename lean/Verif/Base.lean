/-!
# Shared vocabulary of the model

Strings, byte lengths, slices that panic, and the association-list view of hash maps.
-/

namespace Tok

/-- A Rust `String` / `&str`: its sequence of Unicode scalar values. -/
abbrev Str := List Char

/-- `str::len()`: the length in UTF-8 bytes. `Char.utf8Size` is `char::len_utf8`. -/
def blen (s : Str) : Nat := (s.map Char.utf8Size).sum

/-- A Rust `Range<usize>` / `Offsets`: `start..end`. -/
abbrev Range := Nat × Nat

/-- `&v[a..b]` for a `Vec` / slice: `none` is the panic on `a > b` or `b > len`. -/
def slice? {α} (l : List α) (a b : Nat) : Option (List α) :=
  if a ≤ b ∧ b ≤ l.length then some ((l.take b).drop a) else none

/-- Association-list model of `AHashMap`/`HashMap`: at most one entry per key is maintained by
`AMap.insert`; the list order plays the role of the (arbitrary) iteration order. -/
abbrev AMap (K V : Type) := List (K × V)

namespace AMap
variable {K V : Type} [DecidableEq K]

/-- `map.get(&k)`. -/
def get (m : AMap K V) (k : K) : Option V := (m.find? (fun p => p.1 = k)).map (·.2)

/-- `map.insert(k, v)`. -/
def insert (m : AMap K V) (k : K) (v : V) : AMap K V := (k, v) :: m.filter (fun p => ¬ p.1 = k)

/-- `map.remove(&k)`. -/
def remove (m : AMap K V) (k : K) : AMap K V := m.filter (fun p => ¬ p.1 = k)

/-- `map.extend(iter)`. -/
def extend (m : AMap K V) (l : List (K × V)) : AMap K V := l.foldl (fun m p => m.insert p.1 p.2) m

/-- The keys occur once. -/
def WF (m : AMap K V) : Prop := (m.map (·.1)).Nodup

end AMap

/-- `tokenizer/mod.rs:78-89` `Token { id, value, offsets }`. -/
structure Token where
  id : Nat
  value : Str
  offsets : Range
deriving DecidableEq, Repr

/-- Result of a Rust function returning `Result<α>` that may also panic. -/
inductive Outcome (ε α : Type) where
  | ok (a : α)
  | err (e : ε)
  | panic
deriving DecidableEq, Repr

/-- `str::as_bytes` / `bytes()`. -/
def strBytes (s : Str) : List UInt8 := s.flatMap String.utf8EncodeChar

/-- One upper-case hexadecimal digit. -/
def hexDigit (n : Nat) : Char := if n < 10 then Char.ofNat (48 + n) else Char.ofNat (55 + n)

/-- `format!("<{b:#04X}>")`: `<0x0A>`. -/
def byteToken (b : UInt8) : Str :=
  ['<', '0', 'x', hexDigit (b.toNat / 16), hexDigit (b.toNat % 16), '>']

/-- `&s[n..]` for a string: `none` when `n` is out of bounds or not on a character boundary. -/
def dropBytes : Nat → Str → Option Str
  | 0, s => some s
  | _ + 1, [] => none
  | n + 1, c :: cs => if c.utf8Size ≤ n + 1 then dropBytes (n + 1 - c.utf8Size) cs else none

end Tok
