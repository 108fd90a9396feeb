import Verif.Regex.Engine
import Verif.Normalizers.Spec

/-!
# C71: the pattern ` {2,}` of `SentencePieceUnigramTokenizer`
-/

namespace Tok
namespace Re

open Normalizer NS PreTokenizer

def isSpace (c : Char) : Bool := c == ' '

/-- ` {2,}` (`bindings/python/py_src/tokenizers/implementations/sentencepiece_unigram.py:31`): a space, and one or more. -/
def manySpaces : Re := .seq (.cls isSpace) (plus (.cls isSpace))

/-- Every run of spaces is written as one space. -/
def squeeze : Str → Str
  | [] => []
  | c :: s => if c = ' ' ∧ s.head? = some ' ' then squeeze s else c :: squeeze s

theorem run_manySpaces (n : Nat) (c d : Char) (s : Str) :
    run n manySpaces (c :: d :: s) = if c = ' ' ∧ d = ' ' then stops isSpace s else [] := by
  rw [manySpaces, run, run]
  by_cases hc : c = ' '
  · subst hc
    rw [show isSpace ' ' = true from rfl, if_pos rfl, List.flatMap_singleton, run_plus_cons]
    by_cases hd : d = ' '
    · subst hd; rfl
    · rw [if_neg (by simpa [isSpace] using hd), if_neg (by simp [hd])]
  · rw [if_neg (by simpa [isSpace] using hc), if_neg (by simp [hc])]; rfl

theorem run_manySpaces_one (n : Nat) (c : Char) : run n manySpaces [c] = [] := by
  rw [manySpaces, run, run]
  by_cases hc : isSpace c = true
  · rw [if_pos hc, List.flatMap_singleton, run_plus_nil]
  · rw [if_neg hc]; rfl

theorem manySpaces_shorter (n : Nat) (s : Str) : (run n manySpaces s).head? ≠ some s := by
  match s with
  | [] => rw [manySpaces, run, run]; simp
  | [c] => rw [run_manySpaces_one]; simp
  | c :: d :: s =>
    rw [run_manySpaces]
    split
    · rw [stops_head]
      intro h
      have h1 := congrArg List.length (Option.some.inj h)
      have h2 := (List.dropWhile_suffix isSpace (l := s)).length_le
      simp only [List.length_cons] at h1
      omega
    · simp

theorem squeeze_spaces {t : Str} (ht : t.head? ≠ some ' ') : ∀ w : Str, w ≠ [] → (∀ c ∈ w, c = ' ') → squeeze (w ++ t) = ' ' :: squeeze t
  | [], h, _ => absurd rfl h
  | [c], _, h => by
    rw [h c (by simp), List.singleton_append, squeeze, if_neg (by rintro ⟨-, h⟩; exact ht h)]
  | c :: d :: w, _, h => by
    rw [h c (by simp), List.cons_append, squeeze, if_pos ⟨rfl, by rw [h d (by simp)]; rfl⟩]
    exact squeeze_spaces ht (d :: w) (by simp) fun x hx => h x (by simp only [List.mem_cons] at hx ⊢; exact .inr hx)

theorem squeeze_gap {n : Nat} {t : Str} : ∀ gap : Str, (∀ x y, gap = x ++ y → y ≠ [] → run n manySpaces (y ++ t) = []) →
    squeeze (gap ++ t) = gap ++ squeeze t
  | [], _ => rfl
  | c :: gap, h => by
    rw [List.cons_append, squeeze, if_neg, squeeze_gap gap fun x y e hy => h (c :: x) y (by rw [e]; rfl) hy, List.cons_append]
    rintro ⟨rfl, h2⟩
    have h3 := h [] (' ' :: gap) rfl (by simp)
    rw [List.cons_append] at h3
    cases hg : gap ++ t with
    | nil => rw [hg] at h2; cases h2
    | cons d s =>
      rw [hg] at h2 h3
      cases (Option.some.inj h2)
      rw [run_manySpaces, if_pos ⟨rfl, rfl⟩] at h3
      have := stops_head isSpace s
      rw [h3] at this
      cases this

theorem matched_spaces {n : Nat} {w t : Str} (h : (run n manySpaces (w ++ t)).head? = some t) :
    (∀ c ∈ w, c = ' ') ∧ t.head? ≠ some ' ' ∧ 2 ≤ w.length := by
  have key : ∀ s, (run n manySpaces s).head? = some t → ∃ r, s = ' ' :: ' ' :: r ∧ t = r.dropWhile isSpace := by
    intro s hs
    match s with
    | [] => rw [manySpaces, run, run] at hs; cases hs
    | [c] => rw [run_manySpaces_one] at hs; cases hs
    | c :: d :: s =>
      rw [run_manySpaces] at hs
      split at hs
      · rename_i h
        rw [stops_head] at hs
        exact ⟨s, by rw [h.1, h.2], (Option.some.inj hs).symm⟩
      · cases hs
  obtain ⟨r, h1, h2⟩ := key _ h
  have e : w = ' ' :: ' ' :: r.takeWhile isSpace := by
    have : w ++ t = (' ' :: ' ' :: r.takeWhile isSpace) ++ t := by
      rw [h1]
      rw [h2, List.cons_append, List.cons_append, List.takeWhile_append_dropWhile]
    exact List.append_cancel_right this
  refine ⟨?_, ?_, by rw [e]; simp⟩
  · rw [e]
    intro c hc
    simp only [List.mem_cons] at hc
    rcases hc with rfl | rfl | hc
    · rfl
    · rfl
    · have := List.all_takeWhile (p := isSpace) (l := r)
      rw [List.all_eq_true] at this
      simpa [isSpace] using this c hc
  · rw [h2]
    intro hh
    have := List.head?_dropWhile_not isSpace r
    rw [hh] at this
    simp [isSpace] at this

theorem substitute_leftmost {n : Nat} {s : Str} {l : List (Str × Str)} (h : Leftmost n manySpaces s l) : ∀ pre : Str,
    substitute [' '] (pre ++ s) (blen pre) (rangesOf (blen pre) l) = squeeze s := by
  induction h with
  | @done s hd =>
    intro pre
    have := strGet_mid pre s []
    rw [List.append_nil] at this
    rw [rangesOf, substitute, blen_append, this]
    have := squeeze_gap (t := []) s fun x y e hy => by rw [List.append_nil]; exact hd x y e hy
    rw [List.append_nil] at this
    rw [this]
    simp [squeeze]
  | @hit gap w t l h1 h2 h3 _ ih =>
    intro pre
    obtain ⟨k1, k2, -⟩ := matched_spaces h3
    have g := ih (pre ++ gap ++ w)
    rw [blen_append, blen_append] at g
    have e : pre ++ gap ++ w ++ t = pre ++ (gap ++ w ++ t) := by simp
    rw [e] at g
    have hm := strGet_mid pre gap (w ++ t)
    rw [show pre ++ gap ++ (w ++ t) = pre ++ (gap ++ w ++ t) by simp] at hm
    rw [rangesOf, substitute, hm, g, List.append_assoc gap, squeeze_gap gap (fun x y e hy => by
      rw [← List.append_assoc]; exact h1 x y e hy), squeeze_spaces k2 w h2 k1]
    simp

/-- **C71.** Replacing the matches of ` {2,}` by one space writes every run of spaces as one space. -/
theorem C71_spaces (u : Unicode) (s : Str) : (Normalizer.replace (findIter manySpaces) [' ']).text u s = squeeze s := by
  show (if s = [] then [] else substitute [' '] s 0 (findIter manySpaces s)) = _
  split
  · rename_i h; rw [h]; rfl
  · obtain ⟨l, h1, h2⟩ := findFrom_leftmost (manySpaces_shorter s.length) (s.length + 1) s 0 (by omega)
    rw [findIter, h1]
    exact substitute_leftmost h2 []

/-- Every match has at least two characters. -/
theorem manySpaces_long (s : Str) : ∀ p ∈ findIter manySpaces s, p.1 + 2 ≤ p.2 := by
  obtain ⟨l, h1, h2⟩ := findFrom_leftmost (manySpaces_shorter s.length) (s.length + 1) s 0 (by omega)
  rw [findIter, h1]
  clear h1
  generalize 0 = b
  generalize s.length = n at h2
  induction h2 generalizing b with
  | done _ => intro p hp; cases hp
  | @hit gap w t l _ _ h3 _ ih =>
    intro p hp
    rcases List.mem_cons.1 hp with rfl | hp
    · obtain ⟨k1, -, k3⟩ := matched_spaces h3
      have : ∀ w : Str, w.length ≤ blen w := by
        intro w
        induction w with
        | nil => simp
        | cons c w ih => rw [blen_cons, List.length_cons]; have := Char.utf8Size_pos c; omega
      have := this w
      show b + blen gap + 2 ≤ b + blen gap + blen w
      omega
    · exact ih _ p hp

/-- `squeeze` leaves no two spaces in a row, and only takes spaces away. -/
theorem squeeze_spec (s : Str) : (∀ a b, squeeze s ≠ a ++ ' ' :: ' ' :: b) ∧ (squeeze s).filter (· ≠ ' ') = s.filter (· ≠ ' ') ∧
    (squeeze s).head? = s.head? := by
  induction s with
  | nil => exact ⟨fun a b => by simp [squeeze], rfl, rfl⟩
  | cons c s ih =>
    obtain ⟨h1, h2, h3⟩ := ih
    rw [squeeze]
    split
    · rename_i h
      refine ⟨h1, ?_, ?_⟩
      · rw [h2, h.1]; rfl
      · rw [h3, h.2, h.1]; rfl
    · rename_i h
      refine ⟨fun a b e => ?_, ?_, rfl⟩
      · cases a with
        | nil =>
          injection e with e1 e2
          exact h ⟨e1, by rw [← h3, e2]; rfl⟩
        | cons d a =>
          injection e with e1 e2
          exact h1 a b e2
      · rw [List.filter_cons, List.filter_cons, h2]

example : squeeze "  a b   c ".toList = " a b c ".toList ∧ findIter manySpaces "  a b   c ".toList = [(0, 2), (5, 8)] := by
  decide +kernel

end Re
end Tok
