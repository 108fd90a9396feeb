import Verif.Pre.Model

/-!
# From bytes to characters (C14)

A position is a cut of the text; its byte offset is `blen` of what lies before, its character offset is
the number of characters before.
-/

namespace Tok
namespace PTS

theorem charIndex_cut (p : Str) (c : Char) (q : Str) : ∀ (i k : Nat), k < c.utf8Size →
    charIndex i (p ++ c :: q) (blen p + k) = some (i + p.length) := by
  induction p with
  | nil => intro i k hk; simp [charIndex, hk]
  | cons x p ih =>
    intro i k hk
    rw [List.cons_append, charIndex, blen_cons, if_neg (by omega),
      show x.utf8Size + blen p + k - x.utf8Size = blen p + k by omega, ih (i + 1) k hk]
    simp; omega

theorem charIndex_end (s : Str) : ∀ i k, charIndex i s (blen s + k) = none := by
  induction s with
  | nil => intro i k; rfl
  | cons x p ih =>
    intro i k
    have := x.utf8Size_pos
    rw [charIndex, blen_cons, if_neg (by omega), show x.utf8Size + blen p + k - x.utf8Size = blen p + k by omega]
    exact ih _ _

/-- **C14.** The converter maps a range between two cuts to the numbers of characters before them, except
for an empty range at the very end. -/
theorem C14_convert (p m q : Str) (h : m ≠ [] ∨ q ≠ []) :
    convert (p ++ m ++ q) (blen p, blen p + blen m) = some (p.length, p.length + m.length) := by
  have h1 : charIndex 0 (p ++ m ++ q) (blen p) = some p.length := by
    cases m with
    | cons c m => have := charIndex_cut p c (m ++ q) 0 0 c.utf8Size_pos; simpa using this
    | nil =>
      cases q with
      | nil => simp at h
      | cons c q => have := charIndex_cut p c q 0 0 c.utf8Size_pos; simpa using this
  unfold convert
  simp only
  rw [h1]
  cases q with
  | cons c q =>
    have := charIndex_cut (p ++ m) c q 0 0 c.utf8Size_pos
    simp only [blen_append, Nat.add_zero, Nat.zero_add, List.length_append] at this
    rw [this]
  | nil =>
    have hm : m ≠ [] := by simpa using h
    have h2 : charIndex 0 (p ++ m ++ []) (blen p + blen m) = none := by
      have := charIndex_end (p ++ m) 0 0
      simpa using this
    rw [h2]
    obtain ⟨a, c, rfl⟩ : ∃ a c, m = a ++ [c] :=
      ⟨m.dropLast, m.getLast hm, (List.dropLast_concat_getLast hm).symm⟩
    have hc := c.utf8Size_pos
    have := charIndex_cut (p ++ a) c [] 0 (c.utf8Size - 1) (by omega)
    have e : blen p + blen (a ++ [c]) - 1 = blen (p ++ a) + (c.utf8Size - 1) := by simp; omega
    simp only [e]
    have e2 : p ++ (a ++ [c]) ++ [] = p ++ a ++ [c] := by simp
    rw [e2, this]
    simp; omega

/-- Where it fails: an empty range at the end of the text has no counterpart, and the caller then keeps the
byte offsets. -/
theorem C14_empty_range_at_end (s : Str) : convert s (blen s, blen s) = none := by
  unfold convert
  have := charIndex_end s 0 0
  simp only [Nat.add_zero] at this
  simp only
  rw [this]

example : convert "aé▁".toList (1, 6) = some (1, 3) := by decide

end PTS

/-! ## `bytes_to_char`, `char_to_bytes`, `get_range_of` -/

theorem bytesToCharLoop_cons (r : Range) (i b : Nat) (c : Char) (q : Str) (s e : Option Nat) (h : b ≤ r.2) :
    bytesToCharLoop r i b (c :: q) (s, e)
      = bytesToCharLoop r (i + 1) (b + c.utf8Size) q
          (if r.1 ≤ b ∧ b = r.1 then some i else s,
            if r.1 ≤ b ∧ b + c.utf8Size = r.2 then some (i + 1)
            else if r.1 ≤ b ∧ b = r.2 then some i else e) := by
  rw [bytesToCharLoop, if_pos h]
  by_cases h1 : r.1 ≤ b
  · simp [h1]
  · simp [h1]

/-- Before the range nothing happens. -/
theorem bytesToCharLoop_before (r : Range) (st : Option Nat × Option Nat) : ∀ (p s : Str) (i b : Nat),
    b + blen p = r.1 → r.1 < r.2 → bytesToCharLoop r i b (p ++ s) st
      = bytesToCharLoop r (i + p.length) (b + blen p) s st
  | [], s, i, b, _, _ => by simp
  | c :: p, s, i, b, h, h' => by
    have hc := c.utf8Size_pos
    obtain ⟨x, y⟩ := st
    simp only [blen_cons] at h
    rw [List.cons_append, bytesToCharLoop_cons _ _ _ _ _ _ _ (by omega), if_neg (by omega), if_neg (by omega),
      if_neg (by omega), bytesToCharLoop_before r (x, y) p s (i + 1) (b + c.utf8Size) (by omega) h']
    congr 1
    · simp; omega
    · simp; omega

/-- From the end of the range on, only a character starting there matters. -/
theorem bytesToCharLoop_after (r : Range) (x : Nat) : ∀ (q : Str) (i b : Nat), r.2 = b → r.1 < r.2 →
    bytesToCharLoop r i b q (some x, some i) = (some x, some i)
  | [], _, _, _, _ => rfl
  | c :: q, i, b, h, h1 => by
    have hc := c.utf8Size_pos
    rw [bytesToCharLoop_cons _ _ _ _ _ _ _ (by omega), if_neg (by omega), if_neg (by omega),
      if_pos (by omega)]
    cases q with
    | nil => rfl
    | cons d q => rw [bytesToCharLoop, if_neg (by omega)]

/-- Inside the range, after its start. -/
theorem bytesToCharLoop_inside (r : Range) (x : Nat) (q : Str) : ∀ (m : Str) (i b : Nat) (e : Option Nat),
    m ≠ [] → r.1 < b → r.2 = b + blen m →
    bytesToCharLoop r i b (m ++ q) (some x, e) = (some x, some (i + m.length))
  | [], _, _, _, hne, _, _ => absurd rfl hne
  | c :: m, i, b, e, _, h1, h2 => by
    have hc := c.utf8Size_pos
    rw [blen_cons] at h2
    rw [List.cons_append, bytesToCharLoop_cons _ _ _ _ _ _ _ (by omega), if_neg (by omega)]
    by_cases hm : m = []
    · subst hm
      simp only [blen_nil] at h2
      rw [if_pos (by omega)]
      have := bytesToCharLoop_after r x q (i + 1) (b + c.utf8Size) (by omega) (by omega)
      simpa using this
    · have := blen_pos hm
      rw [if_neg (by omega), if_neg (by omega)]
      have := bytesToCharLoop_inside r x q m (i + 1) (b + c.utf8Size) e hm (by omega) (by omega)
      simp only [this, List.length_cons]
      congr 2; omega

/-- An empty range somewhere before the end: the character in front of it sets the end, the one behind it
sets both. -/
theorem bytesToCharLoop_empty (n : Nat) (d : Char) (q : Str) : ∀ (p : Str) (i b : Nat) (s e : Option Nat),
    b + blen p = n →
    bytesToCharLoop (n, n) i b (p ++ d :: q) (s, e) = (some (i + p.length), some (i + p.length))
  | [], i, b, s, e, h => by
    have hd := d.utf8Size_pos
    simp only [blen_nil, Nat.add_zero] at h
    subst h
    rw [List.nil_append, bytesToCharLoop_cons _ _ _ _ _ _ _ (Nat.le_refl _), if_pos (by simp),
      if_neg (by simp only; omega), if_pos (by simp)]
    cases q with
    | nil => rfl
    | cons d' q => rw [bytesToCharLoop, if_neg (by simp only; omega)]; rfl
  | c :: p, i, b, s, e, h => by
    rw [blen_cons] at h
    rw [List.cons_append, bytesToCharLoop_cons _ _ _ _ _ _ _ (by simp only; omega),
      bytesToCharLoop_empty n d q p (i + 1) (b + c.utf8Size) _ _ (by omega)]
    simp only [List.length_cons]
    congr 2 <;> omega

/-- **C14.** `bytes_to_char` likewise, except for an empty range at the end of a non-empty text. -/
theorem C14_bytes_to_char (p m q : Str) (h : p = [] ∨ m ≠ [] ∨ q ≠ []) :
    bytesToChar (p ++ m ++ q) (blen p, blen p + blen m) = some (p.length, p.length + m.length) := by
  unfold bytesToChar
  cases m with
  | cons c m =>
    have hc := c.utf8Size_pos
    have hne : ¬ ((blen p, blen p + blen (c :: m)) = ((0, 0) : Range)) := by
      rw [blen_cons]
      intro h
      have := congrArg Prod.snd h
      simp only at this
      omega
    rw [if_neg hne, List.append_assoc, bytesToCharLoop_before _ _ p _ 0 0 (by simp) (by simp; omega),
      List.cons_append]
    simp only [Nat.zero_add, blen_cons]
    rw [bytesToCharLoop_cons _ _ _ _ _ _ _ (by simp only; omega), if_pos (by simp)]
    by_cases hm : m = []
    · subst hm
      rw [if_pos (by simp)]
      have := bytesToCharLoop_after (blen p, blen p + (c.utf8Size + blen [])) p.length q (p.length + 1)
        (blen p + c.utf8Size) (by simp) (by simp only; omega)
      simp only [List.nil_append]
      rw [this]
      simp
    · have := blen_pos hm
      rw [if_neg (by simp only; omega), if_neg (by simp only; omega)]
      have := bytesToCharLoop_inside (blen p, blen p + (c.utf8Size + blen m)) p.length q m (p.length + 1)
        (blen p + c.utf8Size) none hm (by simp only; omega) (by simp only; omega)
      rw [this]
      simp; omega
  | nil =>
    cases q with
    | cons c q =>
      generalize (if ((blen p, blen p + blen ([] : Str)) : Range) = (0, 0) then
        ((some 0 : Option Nat), (some 0 : Option Nat)) else (none, none)) = st
      obtain ⟨x, y⟩ := st
      have := bytesToCharLoop_empty (blen p) c q p 0 0 x y (by simp)
      simp only [List.append_nil, blen_nil, Nat.add_zero, this]
      simp
    | nil =>
      have hp : p = [] := by simpa using h
      subst hp
      rfl

/-- **C14.** `char_to_bytes` maps a range of characters to the byte positions of its ends. -/
theorem C14_char_to_bytes (p m q : Str) (h : p = [] ∨ m ≠ [] ∨ q ≠ []) :
    charToBytes (p ++ m ++ q) (p.length, p.length + m.length) = some (some (blen p, blen p + blen m)) := by
  have e1 : (p ++ m ++ q).take p.length = p := by rw [List.append_assoc, List.take_left' rfl]
  have e2 : (p ++ m ++ q).take (p.length + m.length) = p ++ m := by rw [List.take_left' (by simp)]
  unfold charToBytes
  simp only
  by_cases hm : m = []
  · subst hm
    rw [if_pos (by simp)]
    by_cases hq : q = []
    · subst hq
      have hp : p = [] := by simpa using h
      subst hp; rfl
    · have := List.length_pos_iff.2 hq
      rw [if_pos (by simp; omega), e1]; simp
  · have := List.length_pos_iff.2 hm
    rw [if_neg (by omega), if_neg (by omega), if_pos (by simp; omega), e1, e2, blen_append]

/-- **C14.** The two conversions undo each other. -/
theorem C14_roundtrip (p m q : Str) (h : p = [] ∨ m ≠ [] ∨ q ≠ []) :
    ∃ b c, charToBytes (p ++ m ++ q) (p.length, p.length + m.length) = some (some b) ∧
      bytesToChar (p ++ m ++ q) b = some c ∧ c = (p.length, p.length + m.length) :=
  ⟨_, _, C14_char_to_bytes p m q h, C14_bytes_to_char p m q h, rfl⟩

/-- **C14.** `get_range_of` selects by characters. -/
theorem C14_get_range_of (p m q : Str) (hm : m ≠ []) :
    getRangeOf (p ++ m ++ q) (p.length, p.length + m.length) = some m := by
  have := List.length_pos_iff.2 hm
  unfold getRangeOf
  simp only
  rw [if_neg (by omega), if_neg (by simp; omega), List.take_left' (by simp), List.drop_left' rfl]

example : bytesToChar "aé▁".toList (1, 6) = some (1, 3) ∧ charToBytes "aé▁".toList (1, 3) = some (some (1, 6)) ∧
    getRangeOf "aé▁".toList (1, 3) = some "é▁".toList := by decide

end Tok
