import Verif.Norm.C10
import Verif.Pre.Offsets

/-!
# C80: `NormalizedString` indexed and sliced from Python

Model of `PyRange::to_range` and `slice` of the Python bindings (`bindings/python/src/utils/normalization.rs:51-83, 185-199`):
`n[i]`, `n[(a, b)]`, `n[a:b]` and `n.slice(..)`. Indices count characters, but the length they are resolved against is
`NormalizedString::len`, the number of *bytes*.
-/

namespace Tok.Py

/-- `PyRange` (`normalization.rs:51-59`): an integer, a pair, or a `slice` object with its three fields (`none`: `None`). -/
inductive PyRange where
  | single (i : Int)
  | range (s e : Nat)
  | slice (start stop step : Option Int)

/-- `i as usize` for an `isize` (`normalization.rs:79`). -/
def asUsize (i : Int) : Nat := (i % 2 ^ 64).toNat

/-- One bound in CPython's `PySlice_AdjustIndices`; `back` if the step is negative. -/
def adjustIndex (len : Int) (back : Bool) (x : Int) : Int :=
  if x < 0 then
    if x + len < 0 then (if back then -1 else 0) else x + len
  else if x ≥ len then (if back then len - 1 else len)
  else x

/-- `PySlice::indices` (PyO3, CPython's `PySlice_GetIndicesEx`; outside the repository, after its documentation): start and
stop for a sequence of length `len`; `none` is the error for a step of 0. -/
def indices (len : Nat) (start stop step : Option Int) : Option (Int × Int) :=
  let st := step.getD 1
  if st = 0 then none
  else
    let back := decide (st < 0)
    some (match start with | some x => adjustIndex len back x | none => if back then (len : Int) - 1 else 0,
      match stop with | some x => adjustIndex len back x | none => if back then -1 else (len : Int))

/-- `PyRange::to_range` (`normalization.rs:60-83`); `none` is a Python exception. (`-i` for `isize::MIN` is not modelled:
integers have no bounds here.) -/
def toRange (maxLen : Nat) : PyRange → Option Range
  | .single i =>
    if i < 0 then
      if (-i).toNat > maxLen then none else some (maxLen - (-i).toNat, maxLen - (-i).toNat + 1)
    else some (i.toNat, i.toNat + 1)
  | .range s e => some (s, e)
  | .slice a b c => (indices maxLen a b c).map fun r => (asUsize r.1, asUsize r.2)

/-- `char_to_bytes` (`normalizer.rs:968-996`) with (`checks`) or without the overflow check of `range.end - range.start`: without
it the difference wraps around, and `take` takes all that remains. Outer `none` is the panic. -/
def charToBytesWith (checks : Bool) (s : Str) (r : Range) : Option (Option Range) :=
  if r.1 > r.2 ∧ checks = false then
    some (if r.1 < s.length then some (blen (s.take r.1), blen s) else none)
  else charToBytes s r

/-- `slice` (`normalization.rs:185-199`), behind `NormalizedString.slice` and `__getitem__`: an exception (`err`), a panic, or
`None` or a `NormalizedString`. -/
def pySlice (checks : Bool) (n : NS) (r : PyRange) : Outcome Unit (Option NS) :=
  match toRange (blen n.norm) r with
  | none => .err ()
  | some cr =>
    match charToBytesWith checks n.norm cr with
    | none => .panic
    | some none => .ok none
    | some (some br) =>
      match n.sliceNormalized br with
      | none => .panic
      | some x => .ok x

/-! ## Specification: what Python selects from a sequence -/

/-- A bound of a slice, in a sequence of length `len`. -/
def clip (len : Nat) (x : Int) : Nat := if x < 0 then (x + len).toNat else min x.toNat len

/-- Python's `s[a:b]`. -/
def sub (s : List α) (a b : Option Int) : List α :=
  (s.take (clip s.length (b.getD s.length))).drop (clip s.length (a.getD 0))

/-- Python's `s[i]`; `none` is `IndexError`. -/
def at? (s : List α) (i : Int) : Option α :=
  if 0 ≤ i then s[i.toNat]? else if -i ≤ s.length then s[(s.length + i).toNat]? else none

example : sub "abcd".toList (some (-3)) (some (-1)) = "bc".toList ∧ sub "abcd".toList none (some 9) = "abcd".toList ∧
    sub "abcd".toList (some 3) (some 1) = [] ∧ at? "abcd".toList (-1) = some 'd' ∧ at? "abcd".toList 4 = none := by decide

/-- What Python gets has this text (`None` only for no text); a part of the original text that is reported for some text is
where the offsets say. -/
def Gives (n : NS) (r : Option NS) (t : Str) : Prop :=
  match r with
  | none => t = []
  | some m => m.norm = t ∧ (t ≠ [] → ∀ whole, n.Within whole → m.Within whole)

/-- The characters of a text, followed by as many missing ones as it has bytes more than characters. -/
def padded (s : Str) : List (Option Char) := s.map some ++ List.replicate (blen s - s.length) none

/-! ## Proofs -/

theorem length_le_blen : ∀ s : Str, s.length ≤ blen s
  | [] => by simp
  | c :: s => by
    have := c.utf8Size_pos
    have := length_le_blen s
    simp only [List.length_cons, blen_cons]; omega

theorem length_padded (s : Str) : (padded s).length = blen s := by
  have := length_le_blen s
  simp [padded]; omega

theorem filterMap_take_padded (s : Str) (k : Nat) : ((padded s).take k).filterMap id = s.take k := by
  unfold padded
  rw [List.take_append, List.filterMap_append]
  have h1 : ((s.map some).take k).filterMap id = s.take k := by
    rw [← List.map_take, List.filterMap_map]; simp
  have h2 : (((List.replicate (blen s - s.length) (none : Option Char)).take (k - (s.map some).length)).filterMap id) = [] := by
    rw [List.filterMap_eq_nil_iff]
    intro a ha
    have := List.mem_of_mem_take ha
    simp at this; simp [this]
  rw [h1, h2, List.append_nil]

theorem filterMap_drop_padded (s : Str) (j k : Nat) :
    (((padded s).take k).drop j).filterMap id = (s.take k).drop j := by
  by_cases hjk : k ≤ j
  · rw [List.drop_of_length_le (by rw [List.length_take]; omega), List.drop_of_length_le (by rw [List.length_take]; omega)]; rfl
  have h : ((padded s).take k).filterMap id
      = (((padded s).take k).take j).filterMap id ++ (((padded s).take k).drop j).filterMap id := by
    rw [← List.filterMap_append, List.take_append_drop]
  rw [filterMap_take_padded, List.take_take, Nat.min_eq_left (by omega), filterMap_take_padded] at h
  have h' : s.take k = s.take j ++ (s.take k).drop j := by
    conv => lhs; rw [← List.take_append_drop j (s.take k)]
    rw [List.take_take, Nat.min_eq_left (by omega)]
  rw [h'] at h
  exact (List.append_cancel_left h).symm

/-- The core: a range of characters in order gives exactly these characters. -/
theorem slice_chars {n : NS} (h : NS.Reachable n) (checks : Bool) {lo hi : Nat} (hle : lo ≤ hi) {r : PyRange}
    (hr : toRange (blen n.norm) r = some (lo, hi)) :
    ∃ x, pySlice checks n r = .ok x ∧ Gives n x ((n.norm.take hi).drop lo) := by
  have hc : charToBytesWith checks n.norm (lo, hi) = charToBytes n.norm (lo, hi) := by
    unfold charToBytesWith; rw [if_neg (by simp only; omega)]
  unfold pySlice
  rw [hr]; simp only [hc]
  by_cases hlo : lo < n.norm.length
  · have hcb : charToBytes n.norm (lo, hi) = some (some (blen (n.norm.take lo), blen (n.norm.take hi))) := by
      unfold charToBytes
      by_cases he : lo = hi
      · subst he; simp only; rw [if_pos trivial, if_pos hlo]
      · simp only; rw [if_neg he, if_neg (by omega), if_pos hlo]
    have e1 : n.norm.take lo ++ (n.norm.take hi).drop lo = n.norm.take hi := by
      conv => rhs; rw [← List.take_append_drop lo (n.norm.take hi)]
      rw [List.take_take, Nat.min_eq_left hle]
    have hm : strGet n.norm (blen (n.norm.take lo)) (blen (n.norm.take hi)) = some ((n.norm.take hi).drop lo) := by
      refine strGet_eq_some.2 ⟨n.norm.take lo, n.norm.drop hi, ?_, rfl, ?_⟩
      · rw [e1, List.take_append_drop]
      · rw [← blen_append, e1]
    simp only [hcb]
    by_cases hne : (n.norm.take hi).drop lo = []
    · obtain ⟨n', h1, h2⟩ := NS.C10_slice_text h hm
      rw [h1]
      exact ⟨_, rfl, h2, fun hh => absurd hne hh⟩
    · obtain ⟨n', s, e, h1, h2, _, _, _, _, _, h3⟩ := NS.C10_slice_normalized h hm hne
      rw [h1]
      exact ⟨_, rfl, h2, fun _ => h3⟩
  · have hnil : (n.norm.take hi).drop lo = [] := List.drop_of_length_le (by rw [List.length_take]; omega)
    rw [hnil]
    by_cases h0 : lo = 0 ∧ hi = 0
    · obtain ⟨rfl, rfl⟩ := h0
      have hn : n.norm = [] := by
        cases hh : n.norm with
        | nil => rfl
        | cons c s => rw [hh] at hlo; simp at hlo
      have hcb : charToBytes n.norm (0, 0) = some (some (0, 0)) := by
        unfold charToBytes; rw [if_pos rfl, if_neg hlo, if_pos rfl]
      simp only [hcb]
      obtain ⟨n', h1, h2⟩ := NS.C10_slice_text h (a := 0) (b := 0) (m := [])
        (strGet_eq_some.2 ⟨[], n.norm, by simp, rfl, rfl⟩)
      rw [h1]
      exact ⟨_, rfl, h2, fun hh => absurd rfl hh⟩
    · have hcb : charToBytes n.norm (lo, hi) = some none := by
        unfold charToBytes
        by_cases he : lo = hi
        · subst he
          simp only
          rw [if_pos trivial, if_neg hlo, if_neg (by simp; omega)]
        · simp only; rw [if_neg he, if_neg (by omega), if_neg hlo]
      simp only [hcb]
      exact ⟨_, rfl, rfl⟩

theorem asUsize_ofNat {k : Nat} (h : k < 2 ^ 64) : asUsize (k : Int) = k := by unfold asUsize; omega

theorem adjust_clip (len : Nat) (x : Int) : adjustIndex len false x = (clip len x : Int) := by
  unfold adjustIndex clip
  simp only [Bool.false_eq_true, if_false]
  split <;> split <;> omega

theorem clip_le (len : Nat) (x : Int) : clip len x ≤ len := by unfold clip; split <;> omega

theorem toRange_slice {len : Nat} (hlen : len < 2 ^ 64) (a b step : Option Int) (hs : 0 < step.getD 1) :
    toRange len (.slice a b step) = some (clip len (a.getD 0), clip len (b.getD len)) := by
  have h1 : ∀ x : Int, asUsize (adjustIndex len false x) = clip len x := fun x => by
    rw [adjust_clip, asUsize_ofNat (Nat.lt_of_le_of_lt (clip_le _ _) hlen)]
  unfold toRange indices
  simp only
  rw [if_neg (by omega), decide_eq_false (by omega)]
  simp only [Option.map_some, Bool.false_eq_true, if_false, Option.some.injEq, Prod.mk.injEq]
  refine ⟨?_, ?_⟩
  · cases a with
    | none => simp [clip, asUsize]
    | some x => exact h1 x
  · cases b with
    | none => simp only [Option.getD_none]; rw [asUsize_ofNat hlen]; unfold clip; rw [if_neg (by omega)]; omega
    | some x => exact h1 x

/-- **C80, exactly what `n[a:b]` gives** (bounds in order): what Python selects from the characters followed by as many
missing ones as the text has bytes more than characters. A positive step changes nothing. Never a panic. -/
theorem C80_slice_exact {n : NS} (h : NS.Reachable n) (checks : Bool) (a b step : Option Int) (hs : 0 < step.getD 1)
    (hlen : blen n.norm < 2 ^ 64)
    (hab : clip (blen n.norm) (a.getD 0) ≤ clip (blen n.norm) (b.getD (blen n.norm))) :
    ∃ x, pySlice checks n (.slice a b step) = .ok x ∧ Gives n x ((sub (padded n.norm) a b).filterMap id) := by
  obtain ⟨x, h1, h2⟩ := slice_chars h checks hab (toRange_slice hlen a b step hs)
  refine ⟨x, h1, ?_⟩
  unfold sub
  rw [filterMap_drop_padded, length_padded]
  exact h2

/-- **C80, exactly what `n[i]` gives**: the character that Python selects from the padded characters; an exception for a
negative index beyond them, `None` for the others. -/
theorem C80_single_exact {n : NS} (h : NS.Reachable n) (checks : Bool) (i : Int) :
    if i < -(blen n.norm : Int) then pySlice checks n (.single i) = .err ()
    else ∃ x, pySlice checks n (.single i) = .ok x ∧ Gives n x ((at? (padded n.norm) i).join.toList) := by
  have key : ∀ k : Nat, ((n.norm.take (k + 1)).drop k) = ((padded n.norm)[k]?).join.toList := by
    intro k
    rw [← filterMap_drop_padded]
    have : ((padded n.norm).take (k + 1)).drop k = ((padded n.norm)[k]?).toList := by
      rw [List.take_add_one, List.drop_append]
      rcases Nat.lt_or_ge k (padded n.norm).length with hk | hk
      · rw [List.drop_of_length_le (by rw [List.length_take]; omega), List.length_take, Nat.min_eq_left (by omega)]
        simp
      · rw [List.getElem?_eq_none hk, List.drop_of_length_le (by rw [List.length_take]; omega)]; simp
    rw [this]
    cases hx : (padded n.norm)[k]? with
    | none => rfl
    | some x => cases x <;> rfl
  split
  · rename_i hi
    unfold pySlice toRange
    simp only
    rw [if_pos (by omega), if_pos (by omega)]
  · rename_i hi
    by_cases h0 : 0 ≤ i
    · have hr : toRange (blen n.norm) (.single i) = some (i.toNat, i.toNat + 1) := by
        unfold toRange; simp only; rw [if_neg (by omega)]
      obtain ⟨x, h1, h2⟩ := slice_chars h checks (Nat.le_succ _) hr
      refine ⟨x, h1, ?_⟩
      rw [key] at h2
      unfold at?
      rw [if_pos h0]; exact h2
    · have hr : toRange (blen n.norm) (.single i)
          = some (((blen n.norm : Int) + i).toNat, ((blen n.norm : Int) + i).toNat + 1) := by
        have hk : blen n.norm - (-i).toNat = ((blen n.norm : Int) + i).toNat := by omega
        unfold toRange; simp only; rw [if_pos (by omega), if_neg (by omega), hk]
      obtain ⟨x, h1, h2⟩ := slice_chars h checks (Nat.le_succ _) hr
      refine ⟨x, h1, ?_⟩
      rw [key] at h2
      unfold at?
      rw [if_neg h0, length_padded, if_pos (by omega)]; exact h2

theorem padded_ascii {s : Str} (h : blen s = s.length) : padded s = s.map some := by
  unfold padded; rw [h]; simp

theorem sub_map (f : α → β) (s : List α) (a b : Option Int) : sub (s.map f) a b = (sub s a b).map f := by
  unfold sub; simp [List.map_take, List.map_drop]

/-- **C80, `_partial`.** In a text of one byte per character, `n[a:b]` with bounds in order selects what Python selects from
the string. The rest of the claim is false: see `C80_not_bytes`, `C80_reversed`, `C80_step`. -/
theorem C80_ascii_partial {n : NS} (h : NS.Reachable n) (ha : blen n.norm = n.norm.length) (checks : Bool) (a b : Option Int)
    (hlen : blen n.norm < 2 ^ 64)
    (hab : clip n.norm.length (a.getD 0) ≤ clip n.norm.length (b.getD n.norm.length)) :
    ∃ x, pySlice checks n (.slice a b none) = .ok x ∧ Gives n x (sub n.norm a b) := by
  obtain ⟨x, h1, h2⟩ := C80_slice_exact h checks a b none (by simp) hlen (by rw [ha]; exact hab)
  rw [padded_ascii ha, sub_map, List.filterMap_map] at h2
  refine ⟨x, h1, ?_⟩
  simpa using h2

/-- **C80, `_partial`.** `n[i]` in a text of one byte per character: the character that Python selects. -/
theorem C80_ascii_single_partial {n : NS} (h : NS.Reachable n) (ha : blen n.norm = n.norm.length) (checks : Bool) (i : Int) :
    (∀ c, at? n.norm i = some c → ∃ m, pySlice checks n (.single i) = .ok (some m) ∧ m.norm = [c] ∧
      ∀ whole, n.Within whole → m.Within whole) ∧
    (at? n.norm i = none → pySlice checks n (.single i) = .err () ∨
      ∃ x, pySlice checks n (.single i) = .ok x ∧ Gives n x []) := by
  have hx := C80_single_exact h checks i
  have hat : (at? (padded n.norm) i).join = at? n.norm i := by
    rw [padded_ascii ha]
    unfold at?
    simp only [List.length_map, List.getElem?_map]
    split
    · cases n.norm[i.toNat]? <;> rfl
    · split
      · cases n.norm[(↑n.norm.length + i).toNat]? <;> rfl
      · rfl
  rw [hat] at hx
  constructor
  · intro c hc
    rw [hc] at hx
    rw [if_neg (by
      intro hi
      unfold at? at hc
      rw [if_neg (by omega), if_neg (by omega)] at hc; cases hc)] at hx
    obtain ⟨x, h1, h2⟩ := hx
    cases x with
    | none => simp [Gives] at h2
    | some m => exact ⟨m, h1, h2.1, h2.2 (by simp)⟩
  · intro hc
    rw [hc] at hx
    split at hx
    · exact .inl hx
    · exact .inr hx

/-- **C80, `_partial`.** In any text, bounds that are not negative and in order select what Python selects. -/
theorem C80_nonneg_partial {n : NS} (h : NS.Reachable n) (checks : Bool) (a b : Option Nat) (hlen : blen n.norm < 2 ^ 64)
    (hab : ∀ y ∈ b, a.getD 0 ≤ y) (ha : a.getD 0 ≤ blen n.norm) :
    ∃ x, pySlice checks n (.slice (a.map Int.ofNat) (b.map Int.ofNat) none) = .ok x ∧
      Gives n x (sub n.norm (a.map Int.ofNat) (b.map Int.ofNat)) := by
  have hl := length_le_blen n.norm
  have hcl : ∀ (L k : Nat), clip L (k : Int) = min k L := fun L k => by unfold clip; rw [if_neg (by omega)]; omega
  have e1 : ∀ L, clip L ((a.map Int.ofNat).getD 0) = min (a.getD 0) L := fun L => by
    cases a with
    | none => exact hcl L 0
    | some x => exact hcl L x
  have e2 : ∀ L : Nat, clip L ((b.map Int.ofNat).getD L) = min (b.getD L) L := fun L => by
    cases b with
    | none => exact hcl L L
    | some x => exact hcl L x
  obtain ⟨x, h1, h2⟩ := slice_chars h checks (r := .slice (a.map Int.ofNat) (b.map Int.ofNat) none)
    (lo := min (a.getD 0) (blen n.norm)) (hi := min (b.getD (blen n.norm)) (blen n.norm))
    (by cases b with
        | none => simp; omega
        | some y => have := hab y rfl; simp only [Option.getD_some]; omega)
    (by rw [toRange_slice hlen _ _ _ (by simp), e1, e2])
  refine ⟨x, h1, ?_⟩
  have e3 : sub n.norm (a.map Int.ofNat) (b.map Int.ofNat)
      = (n.norm.take (min (b.getD (blen n.norm)) (blen n.norm))).drop (min (a.getD 0) (blen n.norm)) := by
    unfold sub
    rw [e1, e2, Nat.min_eq_left ha]
    have ht : n.norm.take (min (b.getD n.norm.length) n.norm.length)
        = n.norm.take (min (b.getD (blen n.norm)) (blen n.norm)) := by
      cases b with
      | none => simp only [Option.getD_none, Nat.min_self]; rw [List.take_of_length_le (Nat.le_refl _), List.take_of_length_le hl]
      | some y =>
        simp only [Option.getD_some]
        rcases Nat.lt_or_ge y n.norm.length with hy | hy
        · rw [Nat.min_eq_left (by omega), Nat.min_eq_left (by omega)]
        · rw [List.take_of_length_le (by omega), List.take_of_length_le (by omega)]
    rw [ht]
    rcases Nat.lt_or_ge (a.getD 0) n.norm.length with hy | hy
    · rw [Nat.min_eq_left (by omega)]
    · rw [List.drop_of_length_le (by rw [List.length_take]; omega), List.drop_of_length_le (by rw [List.length_take]; omega)]
  rw [e3]; exact h2

/-- **C80, `_partial`.** In any text, a pair in order selects the characters from the first to the last position. -/
theorem C80_pair_partial {n : NS} (h : NS.Reachable n) (checks : Bool) {a b : Nat} (hab : a ≤ b) :
    ∃ x, pySlice checks n (.range a b) = .ok x ∧ Gives n x ((n.norm.take b).drop a) :=
  slice_chars h checks hab rfl

example : ∃ m, pySlice true (NS.ofStr "aé▁b".toList) (.slice (some 1) (some 3) none) = .ok (some m) ∧ m.norm = "é▁".toList ∧
    m.offsetsOriginal = (1, 6) := ⟨_, rfl, by decide⟩

example : ∃ m, pySlice true (NS.ofStr "abcd".toList) (.slice (some (-3)) (some (-1)) none) = .ok (some m) ∧
    m.norm = "bc".toList := ⟨_, rfl, by decide⟩

/-- **C80 fails** for negative indices in a text with characters of more than one byte: `NormalizedString("éa")[-2]` is `a`
(Python's `"éa"[-2]` is `é`), and `[-1]` is `None`. -/
theorem C80_not_bytes : ∃ m, pySlice true (NS.ofStr "éa".toList) (.single (-2)) = .ok (some m) ∧ m.norm = "a".toList ∧
    at? "éa".toList (-2) = some 'é' ∧
    pySlice true (NS.ofStr "éa".toList) (.single (-1)) = .ok none ∧ at? "éa".toList (-1) = some 'a' :=
  ⟨_, rfl, by decide, by decide, rfl, by decide⟩

/-- **C80 fails** for bounds out of order: nothing should be selected, but `NormalizedString("abcd")[2:1]` overflows, which
panics, or, without overflow checks (release builds), gives all from the first bound on. -/
theorem C80_reversed : pySlice true (NS.ofStr "abcd".toList) (.slice (some 2) (some 1) none) = .panic ∧
    (∃ m, pySlice false (NS.ofStr "abcd".toList) (.slice (some 2) (some 1) none) = .ok (some m) ∧ m.norm = "cd".toList) ∧
    sub "abcd".toList (some 2) (some 1) = [] :=
  ⟨rfl, ⟨_, rfl, by decide⟩, by decide⟩

/-- **C80 fails** for a step: a positive one is ignored (see `C80_slice_exact`), and `NormalizedString("abcd")[::-1]`, the text
backwards in Python, is `d`. -/
theorem C80_step : (∃ m, pySlice true (NS.ofStr "abcd".toList) (.slice none none (some 2)) = .ok (some m) ∧
      m.norm = "abcd".toList) ∧
    ∃ m, pySlice true (NS.ofStr "abcd".toList) (.slice none none (some (-1))) = .ok (some m) ∧ m.norm = "d".toList :=
  ⟨⟨_, rfl, by decide⟩, ⟨_, rfl, by decide⟩⟩

/-- A range of characters that is not in order: a panic, or, without overflow checks, all from its first position on. -/
theorem slice_disordered {n : NS} (h : NS.Reachable n) (checks : Bool) {lo hi : Nat} (hlt : hi < lo) {r : PyRange}
    (hr : toRange (blen n.norm) r = some (lo, hi)) :
    if checks then pySlice checks n r = .panic else ∃ x, pySlice checks n r = .ok x ∧ Gives n x (n.norm.drop lo) := by
  cases checks with
  | true =>
    have hc : charToBytesWith true n.norm (lo, hi) = none := by
      unfold charToBytesWith charToBytes
      simp only
      rw [if_neg (by simp), if_neg (by omega), if_pos (by omega)]
    simp only [if_true]
    unfold pySlice
    rw [hr]; simp only [hc]
  | false =>
    simp only [Bool.false_eq_true, if_false]
    rcases Nat.lt_or_ge lo n.norm.length with hl | hl
    · obtain ⟨x, h1, h2⟩ := slice_chars h false (lo := lo) (hi := n.norm.length) (by omega) (r := .range lo n.norm.length) rfl
      refine ⟨x, ?_, by rw [List.take_length] at h2; exact h2⟩
      have hc : charToBytesWith false n.norm (lo, hi) = charToBytesWith false n.norm (lo, n.norm.length) := by
        have e1 : charToBytesWith false n.norm (lo, hi) = some (some (blen (n.norm.take lo), blen n.norm)) := by
          unfold charToBytesWith
          rw [if_pos ⟨hlt, rfl⟩, if_pos hl]
        have e2 : charToBytesWith false n.norm (lo, n.norm.length) = some (some (blen (n.norm.take lo), blen n.norm)) := by
          unfold charToBytesWith charToBytes
          simp only
          rw [if_neg (by omega), if_neg (by omega), if_neg (by omega), if_pos hl, List.take_length]
        rw [e1, e2]
      rw [← h1]
      unfold pySlice
      rw [hr]; simp only [hc]; rfl
    · have hc : charToBytesWith false n.norm (lo, hi) = some none := by
        unfold charToBytesWith
        rw [if_pos ⟨hlt, rfl⟩, if_neg (Nat.not_lt.2 hl)]
      refine ⟨none, ?_, List.drop_of_length_le hl⟩
      unfold pySlice
      rw [hr]; simp only [hc]

/-- **C80, exactly what `n[a:b]` gives if the bounds are not in order**: a panic, or, without overflow checks, all from the first
bound on. -/
theorem C80_disordered_exact {n : NS} (h : NS.Reachable n) (checks : Bool) (a b step : Option Int) (hs : 0 < step.getD 1)
    (hlen : blen n.norm < 2 ^ 64)
    (hab : clip (blen n.norm) (b.getD (blen n.norm)) < clip (blen n.norm) (a.getD 0)) :
    if checks then pySlice checks n (.slice a b step) = .panic
    else ∃ x, pySlice checks n (.slice a b step) = .ok x ∧ Gives n x (n.norm.drop (clip (blen n.norm) (a.getD 0))) :=
  slice_disordered h checks hab (toRange_slice hlen a b step hs)

/-- A bound of a slice with a negative step, as Python reads it: a position of the sequence, or `none` for "in front of the
first". -/
def clipBack (len : Nat) (x : Int) : Option Nat :=
  if x < -len then none else if x < 0 then some (len + x).toNat else if len = 0 then none else some (min x.toNat (len - 1))

theorem adjust_back (len : Nat) (hlen : len < 2 ^ 64) (x : Int) :
    asUsize (adjustIndex len true x) = (clipBack len x).getD (2 ^ 64 - 1) := by
  unfold adjustIndex clipBack
  simp only [if_true]
  by_cases h1 : x < -len
  · rw [if_pos (by omega), if_pos (by omega), if_pos h1]; rfl
  · rw [if_neg h1]
    by_cases h2 : x < 0
    · rw [if_pos h2, if_neg (by omega), if_pos h2, Option.getD_some]
      have : x + (len : Int) = (((len : Int) + x).toNat : Int) := by omega
      rw [this, asUsize_ofNat (by omega)]
    · rw [if_neg h2, if_neg h2]
      by_cases h3 : len = 0
      · subst h3; rw [if_pos (by omega), if_pos rfl]; rfl
      · rw [if_neg h3, Option.getD_some]
        split
        · have : (len : Int) - 1 = ((min x.toNat (len - 1) : Nat) : Int) := by omega
          rw [this, asUsize_ofNat (by omega)]
        · have : x = ((min x.toNat (len - 1) : Nat) : Int) := by omega
          rw [this, asUsize_ofNat (by omega)]
          omega

/-- **C80, exactly what `n[a:b:-k]` gives.** The text is not reversed. If the second bound is in front of the text (also if there is
none), it is all from the first bound on; if both are positions in order, it is what is between them; otherwise a panic, or,
without overflow checks, all from the first bound on. `n[::-1]` is the last byte's position on. -/
theorem C80_backwards_exact {n : NS} (h : NS.Reachable n) (checks : Bool) (a b step : Option Int) (hs : step.getD 1 < 0)
    (hlen : blen n.norm < 2 ^ 64 - 1) :
    let first := clipBack (blen n.norm) (a.getD ((blen n.norm : Int) - 1))
    let last := b.bind (clipBack (blen n.norm))
    match first, last with
    | none, none => ∃ x, pySlice checks n (.slice a b step) = .ok x ∧ Gives n x []
    | none, some _ => if checks then pySlice checks n (.slice a b step) = .panic
        else ∃ x, pySlice checks n (.slice a b step) = .ok x ∧ Gives n x []
    | some i, none => ∃ x, pySlice checks n (.slice a b step) = .ok x ∧ Gives n x (n.norm.drop i)
    | some i, some j =>
      if i ≤ j then ∃ x, pySlice checks n (.slice a b step) = .ok x ∧ Gives n x ((n.norm.take j).drop i)
      else if checks then pySlice checks n (.slice a b step) = .panic
      else ∃ x, pySlice checks n (.slice a b step) = .ok x ∧ Gives n x (n.norm.drop i) := by
  intro first last
  have hl := length_le_blen n.norm
  have hr : toRange (blen n.norm) (.slice a b step) = some (first.getD (2 ^ 64 - 1), last.getD (2 ^ 64 - 1)) := by
    unfold toRange indices
    simp only
    rw [if_neg (by omega), decide_eq_true hs]
    simp only [Option.map_some, if_true, Option.some.injEq, Prod.mk.injEq]
    refine ⟨?_, ?_⟩
    · cases a with
      | none =>
        show asUsize _ = (clipBack _ _).getD _
        rw [← adjust_back _ (by omega)]
        simp only [Option.getD_none]
        unfold adjustIndex
        simp only [if_true]
        split
        · split <;> congr 1 <;> omega
        · rw [if_neg (by omega)]
      | some x => exact adjust_back _ (by omega) x
    · cases b with
      | none => rfl
      | some x => exact adjust_back _ (by omega) x
  have hbound : ∀ x i, clipBack (blen n.norm) x = some i → i < 2 ^ 64 - 1 := by
    intro x i hi
    unfold clipBack at hi
    split at hi
    · cases hi
    · split at hi
      · injection hi with hi; omega
      · split at hi
        · cases hi
        · injection hi with hi; omega
  cases hf : first with
  | none =>
    cases hla : last with
    | none =>
      rw [hf, hla] at hr
      obtain ⟨x, h1, h2⟩ := slice_chars h checks (Nat.le_refl _) hr
      refine ⟨x, h1, ?_⟩
      rw [List.drop_of_length_le (by rw [List.length_take]; exact Nat.min_le_left _ _)] at h2
      exact h2
    | some j =>
      rw [hf, hla] at hr
      have hj : j < 2 ^ 64 - 1 := by
        cases b with
        | none => exact (nomatch (show (none : Option Nat) = some j from hla))
        | some y => exact hbound y j hla
      have := slice_disordered h checks (by simpa using hj) hr
      rw [List.drop_of_length_le (by simp only [Option.getD_none]; omega)] at this
      exact this
  | some i =>
    have hi := hbound _ i hf
    cases hla : last with
    | none =>
      rw [hf, hla] at hr
      obtain ⟨x, h1, h2⟩ := slice_chars h checks (by simp only [Option.getD_some, Option.getD_none]; omega) hr
      refine ⟨x, h1, ?_⟩
      rw [List.take_of_length_le (by simp only [Option.getD_none]; omega)] at h2
      exact h2
    | some j =>
      rw [hf, hla] at hr
      simp only [Option.getD_some] at hr
      dsimp only
      split
      · rename_i hij; exact slice_chars h checks hij hr
      · rename_i hij; exact slice_disordered h checks (by omega) hr

example : ∃ x, pySlice true (NS.ofStr "abcd".toList) (.slice (some 1) (some (-1)) (some (-1))) = .ok x ∧
    Gives (NS.ofStr "abcd".toList) x "bc".toList :=
  C80_backwards_exact (n := NS.ofStr "abcd".toList) (.ofStr _) true (some 1) (some (-1)) (some (-1)) (by decide) (by decide)

/-! ## `slice` of the Node bindings -/

/-- `slice` (`bindings/node/src/utils.rs:8-30`): `none` is the exception "Error in offsets". Here the length counts characters;
an index below `-len` becomes a huge one. (`len as i32` for more than 2³¹ characters is not modelled.) -/
def nodeSlice (s : Str) (b e : Option Int) : Option Str :=
  let index (x : Int) : Nat := if 0 ≤ x then x.toNat else asUsize (s.length + x)
  getRangeOf s (index (b.getD 0), index (e.getD s.length))

/-- **C80 for Node.** Bounds within the text that select something select what Python's `s[b:e]` selects, by characters; both at the
beginning select nothing; for all other bounds (out of the text, or with nothing between them) there is an exception. -/
theorem C80_node (s : Str) (b e : Option Int) (hb : -2 ^ 63 ≤ b.getD 0) (he : -2 ^ 63 ≤ e.getD s.length)
    (hs : s.length < 2 ^ 63) :
    nodeSlice s b e =
      if (∀ x ∈ b, -(s.length : Int) ≤ x ∧ x ≤ s.length) ∧ (∀ x ∈ e, -(s.length : Int) ≤ x ∧ x ≤ s.length) ∧
          (sub s b e ≠ [] ∨ clip s.length (b.getD 0) = 0 ∧ clip s.length (e.getD s.length) = 0) then some (sub s b e)
      else none := by
  have hidx : ∀ x : Int, -2 ^ 63 ≤ x →
      (if 0 ≤ x then x.toNat else asUsize (s.length + x)) =
        if -(s.length : Int) ≤ x then (if x < 0 then (x + s.length).toNat else x.toNat) else asUsize (s.length + x) := by
    intro x hx
    by_cases h0 : 0 ≤ x
    · rw [if_pos h0, if_pos (by omega), if_neg (by omega)]
    · rw [if_neg h0]
      by_cases h1 : -(s.length : Int) ≤ x
      · rw [if_pos h1, if_pos (by omega)]
        have : (s.length : Int) + x = ((x + s.length).toNat : Int) := by omega
        rw [this, asUsize_ofNat (by omega)]
      · rw [if_neg h1]
  have hbig : ∀ x : Int, -2 ^ 63 ≤ x → ¬ -(s.length : Int) ≤ x → s.length < asUsize (s.length + x) := by
    intro x h1 h2
    unfold asUsize
    omega
  have hsub : sub s b e ≠ [] ↔ clip s.length (b.getD 0) < clip s.length (e.getD s.length) := by
    unfold sub
    have h1 := clip_le s.length (e.getD s.length)
    rw [Ne, List.drop_eq_nil_iff, List.length_take]
    omega
  have hbm : (∀ x ∈ b, -(s.length : Int) ≤ x ∧ x ≤ s.length) ↔ -(s.length : Int) ≤ b.getD 0 ∧ b.getD 0 ≤ s.length := by
    cases b <;> simp <;> omega
  have hem : (∀ x ∈ e, -(s.length : Int) ≤ x ∧ x ≤ s.length)
      ↔ -(s.length : Int) ≤ e.getD s.length ∧ e.getD s.length ≤ s.length := by
    cases e <;> simp <;> omega
  simp only [hsub, hbm, hem]
  unfold nodeSlice getRangeOf
  simp only
  rw [hidx _ hb, hidx _ he]
  unfold sub
  generalize b.getD 0 = x at *
  generalize e.getD s.length = y at *
  by_cases hx : -(s.length : Int) ≤ x
  · by_cases hy : -(s.length : Int) ≤ y
    · rw [if_pos hx, if_pos hy]
      by_cases hx' : x ≤ s.length
      · have ex : (if x < 0 then (x + s.length).toNat else x.toNat) = clip s.length x := by
          unfold clip; split <;> omega
        rw [ex]
        by_cases hy' : y ≤ s.length
        · have ey : (if y < 0 then (y + s.length).toNat else y.toNat) = clip s.length y := by
            unfold clip; split <;> omega
          rw [ey]
          have hle := clip_le s.length y
          by_cases h0 : clip s.length x = 0 ∧ clip s.length y = 0
          · rw [if_pos h0, if_pos ⟨⟨hx, hx'⟩, ⟨hy, hy'⟩, .inr h0⟩, h0.2]; simp
          · rw [if_neg h0]
            by_cases hlt : clip s.length x < clip s.length y
            · rw [if_neg (by omega), if_pos ⟨⟨hx, hx'⟩, ⟨hy, hy'⟩, .inl hlt⟩]
            · rw [if_pos (by omega), if_neg (by omega)]
        · have ey : (if y < 0 then (y + s.length).toNat else y.toNat) = y.toNat := if_neg (by omega)
          rw [ey, if_neg (by omega), if_pos (by right; left; omega), if_neg (fun h => hy' h.2.1.2)]
      · have ex : (if x < 0 then (x + s.length).toNat else x.toNat) = x.toNat := if_neg (by omega)
        rw [ex, if_neg (by omega), if_pos (by left; omega), if_neg (fun h => hx' h.1.2)]
    · have := hbig y he hy
      rw [if_neg hy, if_neg (by omega), if_pos (by omega), if_neg (by omega)]
  · have := hbig x hb hx
    rw [if_neg hx, if_neg (by omega), if_pos (by omega), if_neg (by omega)]

example : nodeSlice "aé▁b".toList (some (-3)) (some (-1)) = some "é▁".toList ∧ nodeSlice "aé▁b".toList none none = some "aé▁b".toList ∧
    nodeSlice "ab".toList (some 0) (some 3) = none ∧ nodeSlice "ab".toList (some (-3)) none = none := by decide

end Tok.Py
