import Verif.Encoding.Model

/-!
# Specification vocabulary for encodings

Written only in terms of the observable vectors of an `Encoding`.
-/

namespace Tok.Encoding

/-- One token as seen through all seven vectors:
id, type id, text, word, offsets, special mask, attention mask. -/
abbrev Row := Nat × Nat × Str × Option Nat × Range × Nat × Nat

/-- The tokens of an encoding, read "in parallel" from the seven vectors. -/
def rows (e : Encoding) : List Row :=
  e.ids.zip (e.typeIds.zip (e.tokens.zip (e.words.zip (e.offsets.zip
    (e.specialMask.zip e.attnMask)))))

/-- The seven vectors of this encoding (ignoring overflowing) have one length. -/
def Parallel (e : Encoding) : Prop :=
  e.typeIds.length = e.ids.length ∧ e.tokens.length = e.ids.length ∧
  e.words.length = e.ids.length ∧ e.offsets.length = e.ids.length ∧
  e.specialMask.length = e.ids.length ∧ e.attnMask.length = e.ids.length

/-- Every recorded sequence range lies inside the encoding. -/
def RangesInside (e : Encoding) : Prop :=
  ∀ q r, (q, r) ∈ e.seqRanges → r.1 ≤ r.2 ∧ r.2 ≤ e.ids.length

/-- Well-formed: parallel vectors, ranges inside, and so are all overflowing parts. -/
inductive WF : Encoding → Prop
  | intro (e : Encoding) (h : e.Parallel) (hr : e.RangesInside)
      (ho : ∀ o ∈ e.overflowing, WF o) : WF e

/-- Everything obtainable from model output by the public operations, in any order. -/
inductive Reach : Encoding → Prop
  | default : Reach empty
  | tokens (ts : List Token) (ty : Nat) : Reach (fromTokens ts ty)
  | items (xs) : Reach (fromItems xs)
  | truncate {e e'} (h : Reach e) (maxLen stride : Nat) (d : Direction)
      (ht : e.truncate maxLen stride d = some e') : Reach e'
  | mergeWith {e p} (he : Reach e) (hp : Reach p) (g : Bool) : Reach (e.mergeWith p g)
  | merge (es : List Encoding) (h : ∀ e ∈ es, Reach e) (g : Bool) : Reach (merge es g)
  | pad {e} (h : Reach e) (n : Nat) (pt : PadTok) (d : Direction) : Reach (e.pad n pt d)
  | setSequenceId {e} (h : Reach e) (q : Nat) : Reach (e.setSequenceId q)
  | setTypeIds {e} (h : Reach e) (ty : Nat) : Reach (e.setTypeIds (List.replicate e.len ty))
  | takeOverflowing {e} (h : Reach e) : Reach (e.setOverflowing [])
  | overflowing {e o} (h : Reach e) (ho : o ∈ e.overflowing) : Reach o

end Tok.Encoding
