import Verif.Base

/-!
# JSON values, and how `serde` reads the fields of a structure

What the derived `Serialize`/`Deserialize` implementations of the components do with a `serde_json::Value`. The text of
a file (printing and parsing of JSON) is `serde_json`'s business and is not modelled. Simplifications, none of which
concerns a file that was saved by this crate: a structure is only read from an object (`serde` also takes an array with
the fields in order), an enumeration without fields only from a string (`serde` also takes `{"Name": null}`).
-/

namespace Tok.Save

/-- `serde_json::Value`; an integer literal and a literal with a fraction or exponent are different things. -/
inductive Json where
  | null
  | bool (b : Bool)
  | int (n : Int)
  | float (q : Rat)
  | str (s : Str)
  | arr (l : List Json)
  | obj (fs : List (Str × Json))

/-- The fields of an object. -/
abbrev Fields := List (Str × Json)

namespace Json

/-- The value of a field. -/
def get : Fields → Str → Option Json
  | [], _ => none
  | (k, v) :: fs, x => if k = x then some v else get fs x

/-- `bool`. -/
def asBool : Json → Option Bool
  | .bool b => some b
  | _ => none

/-- `String`. -/
def asStr : Json → Option Str
  | .str s => some s
  | _ => none

/-- `char`: a string with one character. -/
def asChar : Json → Option Char
  | .str [c] => some c
  | _ => none

/-- An unsigned integer below `bound`. -/
def asNat (bound : Nat) : Json → Option Nat
  | .int (.ofNat n) => if n < bound then some n else none
  | _ => none

/-- `u32`. -/
def asU32 : Json → Option Nat := asNat 4294967296

/-- `usize` on a 64-bit machine. -/
def asUsize : Json → Option Nat := asNat 18446744073709551616

/-- `f64`/`f32`: an integer literal is accepted too. The rounding to the nearest representable number is not modelled:
numbers that were written by the crate are representable. -/
def asFloat : Json → Option Rat
  | .float q => some q
  | .int n => some n
  | _ => none

/-- `Vec<T>`. -/
def asList {α : Type} (r : Json → Option α) : Json → Option (List α)
  | .arr l => l.mapM r
  | _ => none

/-- A map with strings as keys, in the order of the file. -/
def asMap {α : Type} (r : Json → Option α) : Json → Option (List (Str × α))
  | .obj fs => fs.mapM fun f => (r f.2).map fun x => (f.1, x)
  | _ => none

/-- A required field. -/
def req {α : Type} (fs : Fields) (k : Str) (r : Json → Option α) : Option α := (get fs k).bind r

/-- `Option<T>`: `null` is `None`. -/
def orNull {α : Type} (r : Json → Option α) : Json → Option (Option α)
  | .null => some none
  | j => (r j).map some

/-- A field of type `Option<T>`: it may be missing or `null`. -/
def opt {α : Type} (fs : Fields) (k : Str) (r : Json → Option α) : Option (Option α) :=
  (get fs k).elim (some none) (orNull r)

/-- A field with `#[serde(default = ..)]`. -/
def dflt {α : Type} (fs : Fields) (k : Str) (r : Json → Option α) (d : α) : Option α := (get fs k).elim (some d) r

/-- `Option<T>` is written as the value or `null`. -/
def ofOpt {α : Type} (w : α → Json) : Option α → Json
  | none => .null
  | some a => w a

/-- The names of an enumeration without fields, with its values. -/
def asEnum {α : Type} (names : List (Str × α)) : Json → Option α
  | .str s => (names.find? fun n => n.1 = s).map (·.2)
  | _ => none

end Json

end Tok.Save
