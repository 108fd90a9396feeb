import Verif.Norm.Model

/-!
# What it means for a normalized string to be well-formed (C08)
-/

namespace Tok

/-- `k` is the byte position of a cut of the text between two characters. -/
def CutAt (s : Str) (k : Nat) : Prop := ∃ p q, s = p ++ q ∧ blen p = k

namespace NS

/-- C08: one alignment per byte of the normalized text, shared by the bytes of one character; every
alignment is a range of the original text between two cuts; alignments are ordered. -/
structure WellFormed (n : NS) : Prop where
  one_per_byte : n.al.length = blen n.norm
  shared : ∀ (p : Str) (c : Char) (s : Str), n.norm = p ++ c :: s → ∀ i j : Nat,
    blen p ≤ i → i < blen p + c.utf8Size → blen p ≤ j → j < blen p + c.utf8Size → n.al[i]? = n.al[j]?
  valid : ∀ a ∈ n.al, a.1 ≤ a.2 ∧ CutAt n.orig a.1 ∧ CutAt n.orig a.2
  ordered : n.al.Pairwise fun a b => a.1 ≤ b.1 ∧ a.2 ≤ b.2

/-- The transformation does not replace more characters than there are: whenever an entry is not an
insertion, one of the `k` characters is left to be replaced. -/
def Fits : List (Char × Int) → Nat → Prop
  | [], _ => True
  | (_, ch) :: ds, k => if ch > 0 then Fits ds k else 0 < k ∧ Fits ds (k - 1 - (-ch).toNat)

/-- `Fits` for a range of the normalized text of which `init` characters are removed first. -/
def FitsRange (n : NS) (r : Range) (ds : List (Char × Int)) (init : Nat) : Prop :=
  ∀ m, strGet n.norm r.1 r.2 = some m → Fits ds (m.length - init)

/-- Every history of operations on a normalized string that does not panic. Transformations of the whole
string (`transform`, as used by the Unicode normal forms and all normalizers) are arbitrary; those of a
part must not replace more characters than the part has. -/
inductive Reachable : NS → Prop
  | ofStr (s : Str) : Reachable (ofStr s)
  | transform {n n' ds init} : Reachable n → n.transform ds init = some n' → Reachable n'
  | transformRange {n n' r ds init} : Reachable n → FitsRange n r ds init →
      n.transformRange r ds init = some n' → Reachable n'
  | transformRangeOriginal {n n' r ds init} : Reachable n →
      (∀ nr, n.convertOriginal r = some nr → FitsRange n nr ds init) →
      n.transformRangeOriginal r ds init = some n' → Reachable n'
  | filter {n n' keep} : Reachable n → n.filter keep = some n' → Reachable n'
  | prepend {n n' s} : Reachable n → n.prepend s = some n' → Reachable n'
  | append {n n' s} : Reachable n → n.append s = some n' → Reachable n'
  | map {n n' f} : Reachable n → n.map f = some n' → Reachable n'
  | mapChars {n n' f} : Reachable n → n.mapChars f = some n' → Reachable n'
  | clear {n n' k} : Reachable n → n.clear = some (n', k) → Reachable n'
  | lrstrip {n n' ws l r} : Reachable n → n.lrstrip ws l r = some n' → Reachable n'
  | replace {n n' ms content} : Reachable n → n.replace ms content = some n' → Reachable n'
  | sliceNormalized {n n' r} : Reachable n → n.sliceNormalized r = some (some n') → Reachable n'
  | sliceOriginal {n n' r} : Reachable n → n.sliceOriginal r = some (some n') → Reachable n'

end NS
end Tok
