import Verif.Bpe.Word

/-!
# Textbook BPE

Independent of the queue and the linked list: a word is a list of `(id, length)`.
-/

namespace Tok.Bpe

/-- Merge one adjacent pair somewhere. -/
inductive AnyStep (m : MergeFn) : List (Nat × Nat) → List (Nat × Nat) → Prop
  | mk (pre : List (Nat × Nat)) (a b : Nat × Nat) (post : List (Nat × Nat)) (r x : Nat)
      (h : m a.1 b.1 = some (r, x)) :
      AnyStep m (pre ++ a :: b :: post) (pre ++ (x, a.2 + b.2) :: post)

/-- One step of textbook BPE: merge the adjacent pair of lowest rank, the leftmost one if several
pairs have that rank. -/
inductive TextbookStep (m : MergeFn) : List (Nat × Nat) → List (Nat × Nat) → Prop
  | mk (pre : List (Nat × Nat)) (a b : Nat × Nat) (post : List (Nat × Nat)) (r x : Nat)
      (h : m a.1 b.1 = some (r, x))
      (best : ∀ pre' c d post' r' x', pre ++ a :: b :: post = pre' ++ c :: d :: post' →
        m c.1 d.1 = some (r', x') → r < r' ∨ (r = r' ∧ pre.length ≤ pre'.length)) :
      TextbookStep m (pre ++ a :: b :: post) (pre ++ (x, a.2 + b.2) :: post)

/-- Reflexive transitive closure. -/
inductive Star {α} (R : α → α → Prop) : α → α → Prop
  | refl (a) : Star R a a
  | tail {a b c} : Star R a b → R b c → Star R a c

/-- No adjacent pair can be merged. -/
def Irreducible (m : MergeFn) (w : List (Nat × Nat)) : Prop :=
  ∀ pre a b post, w = pre ++ a :: b :: post → m a.1 b.1 = none

/-- `w'` is the textbook BPE of `w`. -/
def Textbook (m : MergeFn) (w w' : List (Nat × Nat)) : Prop :=
  Star (TextbookStep m) w w' ∧ Irreducible m w'

/-- The merge table is coherent: ids have positive sizes, a merged id has the size of its two parts
(for instance the number of bytes of the token), and a rank determines the pair. -/
structure Coherent (m : MergeFn) (size : Nat → Nat) : Prop where
  pos : ∀ i, 0 < size i
  add : ∀ a b r x, m a b = some (r, x) → size x = size a + size b
  rank : ∀ a b a' b' r x x', m a b = some (r, x) → m a' b' = some (r, x') → x = x'

end Tok.Bpe
