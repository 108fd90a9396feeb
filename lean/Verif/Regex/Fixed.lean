import Verif.Regex.Words
import Verif.Tokenizer.Llama

/-!
# C71: the other fixed patterns, and literals
-/

namespace Tok
namespace Re

open NS PreTokenizer

/-! ## `\w+|[^\w\s]+` -/

def isPunctRe (u : CharTables) (c : Char) : Bool := !(u.reWord c || u.reSpace c)

theorem word_head (u : CharTables) (n : Nat) (c : Char) (s : Str) :
    (run n (word u) (c :: s)).head? = if u.reWord c then some (s.dropWhile u.reWord)
      else if u.reSpace c then none else some (s.dropWhile (isPunctRe u)) := by
  rw [word, run_alt, head_or, plus_head, plus_head]
  by_cases h1 : u.reWord c = true
  · rw [if_pos h1, if_pos h1]; rfl
  · rw [if_neg h1, if_neg h1]
    by_cases h2 : u.reSpace c = true
    · rw [if_pos h2, if_neg (by simp [h2])]; rfl
    · rw [if_neg h2, if_pos (by simp [h1, h2])]; rfl

theorem word_nil (u : CharTables) (n : Nat) : run n (word u) [] = [] := by
  rw [word, run_alt, run_plus_nil, run_plus_nil]; rfl

theorem dropWhile_length (p : Char → Bool) (s : Str) : (s.dropWhile p).length ≤ s.length := by
  rw [← drop_takeWhile, List.length_drop]; omega

theorem word_progress (u : CharTables) (n : Nat) (s : Str) : (run n (word u) s).head? ≠ some s := by
  cases s with
  | nil => rw [word_nil]; simp
  | cons c s =>
    rw [word_head]
    have key : ∀ p : Char → Bool, s.dropWhile p ≠ c :: s := by
      intro p e
      have := dropWhile_length p s
      rw [e, List.length_cons] at this
      omega
    split
    · intro e; exact key _ (Option.some.inj e)
    · split
      · simp
      · intro e; exact key _ (Option.some.inj e)

theorem wordMatches_skip (u : CharTables) : ∀ (gap t : Str) (b : Nat), (∀ c ∈ gap, u.reWord c = false ∧ u.reSpace c = true) →
    wordMatches u none b (gap ++ t) = wordMatches u none (b + blen gap) t
  | [], t, b, _ => by simp
  | c :: gap, t, b, h => by
    obtain ⟨h1, h2⟩ := h c (by simp)
    rw [List.cons_append, wordMatches, if_neg (by simp [h1]), if_pos h2,
      wordMatches_skip u gap t _ fun d hd => h d (by simp [hd]), blen_cons, Nat.add_assoc]

/-- The characters a match of the first (or of the second) kind is made of. -/
def inWord (u : CharTables) (k : Bool) (c : Char) : Bool := if k then u.reWord c else isPunctRe u c

theorem wordMatches_run (u : CharTables) (k : Bool) (a : Nat) : ∀ (w t : Str) (b : Nat), (∀ c ∈ w, inWord u k c = true) →
    (∀ c ∈ t.head?, inWord u k c = false) →
    wordMatches u (some (a, k)) b (w ++ t) = (a, b + blen w) :: wordMatches u none (b + blen w) t
  | [], [], b, _, _ => by simp [wordMatches]
  | [], c :: t, b, _, ht => by
    have hc := ht c (by simp)
    rw [List.nil_append, wordMatches, wordMatches]
    simp only [blen_nil, Nat.add_zero]
    cases k with
    | true =>
      have hc : u.reWord c = false := hc
      simp [hc]
      split <;> rfl
    | false =>
      simp only [inWord, isPunctRe] at hc
      by_cases h1 : u.reWord c = true
      · simp [h1]
      · have h2 : u.reSpace c = true := by simpa [h1] using hc
        simp [h1, h2]
  | c :: w, t, b, hw, ht => by
    have hc := hw c (by simp)
    have ih := wordMatches_run u k a w t (b + c.utf8Size) (fun d hd => hw d (by simp [hd])) ht
    rw [List.cons_append, wordMatches, blen_cons, ← Nat.add_assoc, ← ih]
    cases k with
    | true =>
      have hc : u.reWord c = true := hc
      simp [hc]
    | false =>
      simp only [inWord, isPunctRe] at hc
      have h1 : u.reWord c = false := by
        cases h : u.reWord c <;> simp_all
      have h2 : u.reSpace c = false := by
        cases h : u.reSpace c <;> simp_all
      simp [h1, h2]

theorem wordMatches_first (u : CharTables) (k : Bool) {w t : Str} (b : Nat) (hne : w ≠ []) (hw : ∀ c ∈ w, inWord u k c = true)
    (ht : ∀ c ∈ t.head?, inWord u k c = false) :
    wordMatches u none b (w ++ t) = (b, b + blen w) :: wordMatches u none (b + blen w) t := by
  cases w with
  | nil => exact absurd rfl hne
  | cons c w =>
    have hc := hw c (by simp)
    have h := wordMatches_run u k b w t (b + c.utf8Size) (fun d hd => hw d (by simp [hd])) ht
    rw [List.cons_append, wordMatches, blen_cons, ← Nat.add_assoc, ← h]
    cases k with
    | true =>
      have hc : u.reWord c = true := hc
      simp [hc]
    | false =>
      simp only [inWord, isPunctRe] at hc
      have h1 : u.reWord c = false := by
        cases h : u.reWord c <;> simp_all
      have h2 : u.reSpace c = false := by
        cases h : u.reSpace c <;> simp_all
      simp [h1, h2]

theorem dropWhile_head (p : Char → Bool) (s : Str) : ∀ c ∈ (s.dropWhile p).head?, p c = false := by
  intro c hc
  have := List.head?_dropWhile_not p s
  cases hd : (s.dropWhile p).head? with
  | none => rw [hd] at hc; cases hc
  | some d =>
    rw [hd] at hc this
    cases hc
    simpa using this

theorem leftmost_word {u : CharTables} {n : Nat} {s : Str} {l : List (Str × Str)} (hl : Leftmost n (word u) s l) :
    ∀ b, rangesOf b l = wordMatches u none b s := by
  have spaces : ∀ c s, run n (word u) (c :: s) = [] → u.reWord c = false ∧ u.reSpace c = true := by
    intro c s h
    have := word_head u n c s
    rw [h] at this
    by_cases h1 : u.reWord c = true
    · rw [if_pos h1] at this; cases this
    · rw [if_neg h1] at this
      by_cases h2 : u.reSpace c = true
      · exact ⟨by simpa using h1, h2⟩
      · rw [if_neg h2] at this; cases this
  induction hl with
  | @done s hd =>
    intro b
    have := wordMatches_skip u s [] b (by
      intro c hc
      obtain ⟨x, y, rfl⟩ := List.append_of_mem hc
      exact spaces c y (hd x (c :: y) rfl (by simp)))
    rw [List.append_nil] at this
    rw [this]; rfl
  | @hit gap w t l h1 h2 h3 _ ih =>
    intro b
    rw [List.append_assoc, wordMatches_skip u gap (w ++ t) b (by
      intro c hc
      obtain ⟨x, y, rfl⟩ := List.append_of_mem hc
      exact spaces c (y ++ w ++ t) (by simpa using h1 x (c :: y) rfl (by simp)))]
    cases w with
    | nil => exact absurd rfl h2
    | cons c w =>
      have hw : ∃ k, inWord u k c = true ∧ (w ++ t).dropWhile (inWord u k) = t := by
        rw [List.cons_append, word_head] at h3
        by_cases g1 : u.reWord c = true
        · rw [if_pos g1] at h3
          exact ⟨true, g1, Option.some.inj h3⟩
        · rw [if_neg g1] at h3
          by_cases g2 : u.reSpace c = true
          · rw [if_pos g2] at h3; cases h3
          · rw [if_neg g2] at h3
            exact ⟨false, by simp [inWord, isPunctRe, g1, g2], Option.some.inj h3⟩
      obtain ⟨k, hk, hd⟩ := hw
      have htw : (w ++ t).takeWhile (inWord u k) = w := by
        have := List.takeWhile_append_dropWhile (p := inWord u k) (l := w ++ t)
        rw [hd] at this
        exact List.append_cancel_right this
      rw [wordMatches_first u k (b + blen gap) (by simp) (by
        intro d hd'
        rcases List.mem_cons.1 hd' with rfl | hd'
        · exact hk
        · rw [← htw] at hd'
          exact List.all_eq_true.1 List.all_takeWhile d hd') (by
        intro d hd'
        rw [← hd] at hd'
        exact dropWhile_head _ _ d hd')]
      rw [rangesOf, ih]

/-- **C71.** The model of `Whitespace` finds what its pattern `\w+|[^\w\s]+` finds. -/
theorem C71_whitespace (u : CharTables) (s : Str) : findIter (word u) s = wordMatches u none 0 s := by
  obtain ⟨l, h1, h2⟩ := findFrom_leftmost (word_progress u s.length) (s.length + 1) s 0 (Nat.lt_succ_self _)
  rw [findIter, h1, leftmost_word h2]

/-! ## The patterns of the added vocabulary -/

/-- `is_match` -/
def isMatch (r : Re) (s : Str) : Bool := (find s.length r 0 s).isSome

theorem find_start {n : Nat} {r : Re} : ∀ {s : Str} {b : Nat}, s.length < n → find n (.seq .start r) b s = none
  | [], b, h => by
    rw [find, run, run, if_neg (Nat.ne_of_lt h)]; rfl
  | c :: s, b, h => by
    rw [find, run, run, if_neg (Nat.ne_of_lt h)]
    exact find_start (s := s) (by simp only [List.length_cons] at h; omega)

theorem run_start {r : Re} (s : Str) : run s.length (.seq .start r) s = run s.length r s := by
  rw [run, run, if_pos rfl, List.flatMap_singleton]

theorem find_endsWith (n : Nat) (p : Char → Bool) : ∀ (s : Str) (b : Nat),
    (find n (.seq (.cls p) .stop) b s).isSome = (match s.getLast? with | some c => p c | none => false)
  | [], b => by rw [find, run, run]; rfl
  | [c], b => by
    rw [find, run, run]
    by_cases h : p c = true
    · simp [h, run]
    · simp [h, run, find]
  | c :: d :: s, b => by
    have ih := find_endsWith n p (d :: s) (b + c.utf8Size)
    rw [find, run, run]
    have : (if p c = true then [d :: s] else []).flatMap (run n .stop) = [] := by
      split <;> simp [run]
    rw [this, List.getLast?_cons_cons]
    exact ih

theorem stops_stop (n : Nat) (p : Char → Bool) : ∀ s : Str, (stops p s).flatMap (run n .stop) = if s.all p then [[]] else []
  | [] => by simp [stops, run]
  | c :: s => by
    rw [stops]
    by_cases h : p c = true
    · rw [if_pos h, List.flatMap_append, stops_stop n p s]
      simp [run, h]
    · rw [if_neg h]
      simp [run, h]

theorem dropWhile_nil_iff {p : Char → Bool} : ∀ {s : Str}, s.dropWhile p = [] ↔ ∀ x ∈ s, p x = true
  | [] => by simp
  | c :: s => by
    by_cases h : p c = true
    · rw [List.dropWhile_cons_of_pos h, dropWhile_nil_iff]; simp [h]
    · rw [List.dropWhile_cons_of_neg h]; simp [h]

theorem find_spaceAtEnd (n : Nat) (p : Char → Bool) : ∀ (s : Str) (b : Nat),
    find n (.seq (.star (.cls p)) .stop) b s = some ((b + blen (s.reverse.dropWhile p).reverse, b + blen s), [])
  | [], b => by
    rw [find, run, run_star, stops_stop]; simp
  | c :: s, b => by
    rw [find, run, run_star, stops_stop]
    by_cases h : (c :: s).all p = true
    · rw [if_pos h]
      have hd : (c :: s).reverse.dropWhile p = [] := by
        rw [dropWhile_nil_iff]
        intro x hx
        exact List.all_eq_true.1 h x (List.mem_reverse.1 hx)
      rw [hd]
      simp
    · rw [if_neg h]
      show find n _ (b + c.utf8Size) s = _
      rw [find_spaceAtEnd n p s, blen_cons, Nat.add_assoc b c.utf8Size (blen s)]
      have hd : (c :: s).reverse.dropWhile p = s.reverse.dropWhile p ++ [c] := by
        rw [List.reverse_cons, List.dropWhile_append]
        by_cases hs : (s.reverse.dropWhile p).isEmpty = true
        · rw [if_pos hs]
          have hs' : s.reverse.dropWhile p = [] := by simpa using hs
          have hall : s.all p = true := by
            rw [dropWhile_nil_iff] at hs'
            exact List.all_eq_true.2 fun x hx => hs' x (List.mem_reverse.2 hx)
          have hc : ¬ p c = true := by
            intro hc
            exact h (by rw [List.all_cons, hc, hall]; rfl)
          rw [List.dropWhile_cons_of_neg hc, hs']; rfl
        · rw [if_neg hs]
      rw [hd, List.reverse_append]
      simp [Nat.add_assoc]

/-- **C71.** The four patterns of the added vocabulary find what its model says: `^\w`, `\w$`, `^\s*`, `\s*$`. -/
theorem C71_added (cl : AddedVocab.Classes) (s : Str) :
    isMatch (startsWithWord cl) s = AddedVocab.startsWithWord cl s ∧
    isMatch (endsWithWord cl) s = AddedVocab.endsWithWord cl s ∧
    (find s.length (spaceAtStart cl) 0 s).map (·.1.2) = some (AddedVocab.spaceRightmostAtStart cl s) ∧
    (find s.length (spaceAtEnd cl) 0 s).map (·.1.1) = some (AddedVocab.spaceLeftmostAtEnd cl s) := by
  refine ⟨?_, ?_, ?_, ?_⟩
  · rw [isMatch, startsWithWord]
    cases s with
    | nil => rw [find, run_start (s := []), run]; rfl
    | cons c s =>
      rw [find, run_start (s := c :: s), run]
      by_cases h : cl.isWord c = true
      · simp [h, AddedVocab.startsWithWord]
      · rw [if_neg h]
        show (find _ _ _ s).isSome = _
        rw [find_start (by simp)]
        simp [AddedVocab.startsWithWord, h]
  · exact find_endsWith _ _ s 0
  · rw [spaceAtStart]
    cases s with
    | nil => rw [find, run_start (s := []), run_star]; rfl
    | cons c s =>
      rw [find, run_start (s := c :: s), run_star, stops_head]
      simp only [Option.map_some, Option.some.injEq, AddedVocab.spaceRightmostAtStart, Nat.zero_add]
      have h := congrArg blen (List.takeWhile_append_dropWhile (p := cl.isSpace) (l := c :: s))
      rw [blen_append] at h
      omega
  · rw [spaceAtEnd, find_spaceAtEnd]
    simp [AddedVocab.spaceLeftmostAtEnd]

/-! ## Literals -/

/-- The places where a word occurs, from the left and not overlapping, given by the text before each of them. -/
inductive Occurs (w : Str) : Str → List Str → Prop
  | done {s} : ¬ w <:+: s → Occurs w s []
  | hit {gap t l} : (∀ x y, gap = x ++ y → y ≠ [] → ¬ w <+: y ++ w ++ t) → Occurs w t l → Occurs w (gap ++ w ++ t) (gap :: l)

theorem lit_run_nil {n : Nat} {w s : Str} : run n (lit w) s = [] ↔ ¬ w <+: s := by
  rw [run_lit, ← List.isPrefixOf_iff_prefix]
  by_cases h : w.isPrefixOf s = true
  · rw [if_pos h]; simp [h]
  · rw [if_neg h]; simp [h]

theorem leftmost_lit {n : Nat} {w s : Str} (hw : w ≠ []) {l : List (Str × Str)} (hl : Leftmost n (lit w) s l) :
    Occurs w s (l.map (·.1)) ∧ ∀ x ∈ l, x.2 = w := by
  induction hl with
  | @done s hd =>
    refine ⟨.done ?_, by simp⟩
    rintro ⟨x, y, rfl⟩
    have := hd x (w ++ y) (by simp) (by simp [hw])
    exact lit_run_nil.1 this (List.prefix_append _ _)
  | @hit gap v t l h1 h2 h3 _ ih =>
    have hv : v = w := by
      rw [run_lit] at h3
      by_cases h : w.isPrefixOf (v ++ t) = true
      · rw [if_pos h] at h3
        have h3 : (v ++ t).drop w.length = t := Option.some.inj h3
        obtain ⟨z, hz⟩ := List.isPrefixOf_iff_prefix.1 h
        rw [← hz, List.drop_left] at h3
        rw [h3] at hz
        exact (List.append_cancel_right hz).symm
      · rw [if_neg h] at h3; cases h3
    subst hv
    refine ⟨.hit (fun x y e hy => lit_run_nil.1 (h1 x y e hy)) ih.1, ?_⟩
    intro x hx
    rcases List.mem_cons.1 hx with rfl | hx
    · rfl
    · exact ih.2 x hx

theorem lit_progress {w : Str} (hw : w ≠ []) (n : Nat) (s : Str) : (run n (lit w) s).head? ≠ some s := by
  rw [run_lit]
  by_cases h : w.isPrefixOf s = true
  · rw [if_pos h]
    intro e
    have e : s.drop w.length = s := Option.some.inj e
    have h1 := congrArg List.length e
    obtain ⟨z, rfl⟩ := List.isPrefixOf_iff_prefix.1 h
    have := List.length_pos_iff.2 hw
    rw [List.length_drop, List.length_append] at h1
    omega
  · rw [if_neg h]; simp

/-- **C71.** A literal pattern (`regex::escape`) is found where it occurs, from the left and without overlaps. -/
theorem C71_literal {w : Str} (hw : w ≠ []) (s : Str) : ∃ gaps : List Str, Occurs w s gaps ∧
    findIter (lit w) s = rangesOf 0 (gaps.map fun g => (g, w)) := by
  obtain ⟨l, h1, h2⟩ := findFrom_leftmost (lit_progress hw s.length) (s.length + 1) s 0 (Nat.lt_succ_self _)
  obtain ⟨h3, h4⟩ := leftmost_lit hw h2
  refine ⟨l.map (·.1), h3, ?_⟩
  rw [findIter, h1, List.map_map]
  congr 1
  conv => lhs; rw [← List.map_id l]
  refine List.map_congr_left fun x hx => ?_
  show x = (x.1, w)
  rw [← h4 x hx]

theorem occurrences_skip (c : Char) : ∀ (gap t : Str) (b : Nat), (∀ x ∈ gap, x ≠ c) →
    occurrences c b (gap ++ t) = occurrences c (b + blen gap) t
  | [], t, b, _ => by simp
  | x :: gap, t, b, h => by
    rw [List.cons_append, occurrences, if_neg (h x (by simp)), occurrences_skip c gap t _ fun y hy => h y (by simp [hy]),
      blen_cons, Nat.add_assoc]

/-- **C71.** A pattern of one character is found wherever the character is. -/
theorem C71_char (c : Char) (s : Str) : findIter (lit [c]) s = occurrences c 0 s := by
  obtain ⟨gaps, h1, h2⟩ := C71_literal (w := [c]) (by simp) s
  rw [h2]
  clear h2
  have : ∀ b, rangesOf b (gaps.map fun g => (g, [c])) = occurrences c b s := by
    induction h1 with
    | @done s hd =>
      intro b
      have := occurrences_skip c s [] b (by
        intro x hx e
        obtain ⟨y, z, rfl⟩ := List.append_of_mem hx
        exact hd ⟨y, z, by simp [e]⟩)
      rw [List.append_nil] at this
      rw [this]; rfl
    | @hit gap t l h1 _ ih =>
      intro b
      rw [List.append_assoc, occurrences_skip c gap _ b (by
        intro x hx e
        obtain ⟨y, z, rfl⟩ := List.append_of_mem hx
        exact h1 y (x :: z) rfl (by simp) ⟨z ++ [c] ++ t, by simp [e]⟩)]
      rw [List.map_cons, rangesOf, ih, List.singleton_append, occurrences, if_pos rfl]
      simp
  exact this 0

end Re
end Tok
