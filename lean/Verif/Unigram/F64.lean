import Verif.Unigram.C75

/-!
# Rounding to `f64`

The result of an addition of two finite `f64`s is the exact sum rounded to the nearest `f64`, ties to the even
one (IEEE 754; the default and only mode in Rust). `f64round` is that function on the rational numbers, except
that there is no largest number: sums of magnitude `2^1024` and more are infinite in `f64`.
-/

namespace Tok.Unigram

/-- The nearest integer, the even one of two. -/
def roundEven (x : Rat) : Int :=
  if x - x.floor < 1 / 2 then x.floor
  else if 1 / 2 < x - x.floor then x.floor + 1
  else if x.floor % 2 = 0 then x.floor else x.floor + 1

/-- The exponent of the spacing of numbers with 53 bits around `x`, in units of the smallest one. -/
def spacing (x : Rat) : Nat := x.floor.toNat.log2 - 52

/-- Rounding of a number that is not negative, in units of the smallest positive `f64`. -/
def round53 (x : Rat) : Rat := roundEven (x / 2 ^ spacing x) * 2 ^ spacing x

/-- The smallest positive `f64` is `1 / 2^1074`. -/
def f64unit : Rat := 2 ^ 1074

/-- Rounding to the nearest `f64`, ties to even. -/
def f64round (x : Rat) : Rat :=
  if x < 0 then -(round53 (-x * f64unit) / f64unit) else round53 (x * f64unit) / f64unit

/-! ### The nearest integer -/

theorem roundEven_ge (x : Rat) : x.floor ≤ roundEven x := by
  unfold roundEven; split <;> (try split) <;> (try split) <;> omega

theorem roundEven_le (x : Rat) : roundEven x ≤ x.floor + 1 := by
  unfold roundEven; split <;> (try split) <;> (try split) <;> omega

theorem roundEven_mono {x y : Rat} (h : x ≤ y) : roundEven x ≤ roundEven y := by
  have hf := Rat.floor_monotone h
  by_cases he : x.floor = y.floor
  · unfold roundEven
    rw [he]
    by_cases h1 : y - (y.floor : Rat) < 1 / 2
    · rw [if_pos h1, if_pos (by grind)]; omega
    · rw [if_neg h1]
      by_cases h2 : 1 / 2 < y - (y.floor : Rat)
      · rw [if_pos h2]; split <;> (try split) <;> (try split) <;> omega
      · rw [if_neg h2]
        by_cases h3 : x - (y.floor : Rat) < 1 / 2
        · rw [if_pos h3]; split <;> omega
        · rw [if_neg h3, if_neg (by grind)]; omega
  · have := roundEven_le x
    have := roundEven_ge y
    omega

theorem roundEven_int (n : Int) : roundEven (n : Rat) = n := by
  unfold roundEven
  rw [Rat.floor_intCast, if_pos (by grind)]

theorem roundEven_near (x : Rat) : x - 1 / 2 ≤ roundEven x ∧ (roundEven x : Rat) ≤ x + 1 / 2 := by
  have h1 := Rat.floor_le x
  have h2 := Rat.lt_floor_add_one x
  have e : ((x.floor + 1 : Int) : Rat) = (x.floor : Rat) + 1 := by simp
  rw [e] at h2
  unfold roundEven
  split
  · constructor <;> grind
  · split
    · rw [e]; constructor <;> grind
    · split
      · constructor <;> grind
      · rw [e]; constructor <;> grind

/-! ### Powers of two -/

theorem two_pow_pos (k : Nat) : (0 : Rat) < 2 ^ k := Rat.pow_pos (by decide)

theorem two_pow_add (a b : Nat) : (2 : Rat) ^ (a + b) = 2 ^ a * 2 ^ b := by
  induction b with
  | zero => simp [Rat.mul_one]
  | succ b ih => rw [← Nat.add_assoc, Rat.pow_succ, Rat.pow_succ, ih, Rat.mul_assoc]

theorem two_pow_le {a b : Nat} (h : a ≤ b) : (2 : Rat) ^ a ≤ 2 ^ b := by
  obtain ⟨c, rfl⟩ := Nat.le.dest h
  induction c with
  | zero => exact Rat.le_refl
  | succ c ih =>
    have h1 := ih (by omega)
    have h2 := two_pow_pos (a + c)
    rw [← Nat.add_assoc, Rat.pow_succ]
    grind

theorem two_pow_cast (k : Nat) : ((2 ^ k : Nat) : Rat) = 2 ^ k := by
  induction k with
  | zero => rfl
  | succ k ih => rw [Nat.pow_succ, Rat.pow_succ, ← ih]; simp

theorem div_mul_self {x y : Rat} (h : 0 < y) : x / y * y = x := by
  rw [Rat.div_def, Rat.mul_assoc, Rat.inv_mul_cancel y (by grind), Rat.mul_one]

theorem mul_div_self {x y : Rat} (h : 0 < y) : x * y / y = x := by
  rw [Rat.div_def, Rat.mul_assoc, Rat.mul_inv_cancel y (by grind), Rat.mul_one]

theorem mul_le_mul_pow {a b : Rat} (k : Nat) (h : a ≤ b) : a * 2 ^ k ≤ b * 2 ^ k :=
  Rat.mul_le_mul_of_nonneg_right h (Rat.le_of_lt (two_pow_pos k))

theorem div_le_div_pos {a b y : Rat} (hy : 0 < y) (h : a ≤ b) : a / y ≤ b / y := by
  rw [Rat.div_def, Rat.div_def]
  exact Rat.mul_le_mul_of_nonneg_right h (Rat.le_of_lt (Rat.inv_pos.2 hy))

/-! ### The spacing -/

theorem floor_toNat {x : Rat} (h : 0 ≤ x) : ((x.floor.toNat : Nat) : Int) = x.floor := by
  have : (0 : Int) ≤ x.floor := Rat.le_floor_iff.2 (by simpa using h)
  omega

/-- Numbers below `2^(k+53)` have at most the spacing `k`, and conversely. -/
theorem spacing_le_iff {x : Rat} (h : 0 ≤ x) {k : Nat} : spacing x ≤ k ↔ x < 2 ^ (k + 53) := by
  have hfl := floor_toNat h
  have key : x.floor.toNat < 2 ^ (k + 53) ↔ x < 2 ^ (k + 53) := by
    have : x < 2 ^ (k + 53) ↔ x.floor < ((2 ^ (k + 53) : Nat) : Int) := by
      rw [Rat.floor_lt_iff, ← two_pow_cast]
      rfl
    rw [this]
    omega
  rw [← key, spacing]
  by_cases h0 : x.floor.toNat = 0
  · rw [h0]
    have : 0 < 2 ^ (k + 53) := Nat.two_pow_pos _
    simp [this]
  · rw [← Nat.log2_lt h0]
    omega

theorem spacing_mono {x y : Rat} (h0 : 0 ≤ x) (h : x ≤ y) : spacing x ≤ spacing y := by
  rw [spacing_le_iff h0]
  have := (spacing_le_iff (x := y) (k := spacing y) (by grind)).1 (Nat.le_refl _)
  grind

/-! ### Rounding numbers that are not negative -/

/-- What fits into 53 bits at some spacing is not changed. -/
theorem round53_fits {n : Nat} {k : Nat} (h : (n : Rat) * 2 ^ k < 2 ^ (k + 53)) :
    round53 ((n : Rat) * 2 ^ k) = (n : Rat) * 2 ^ k := by
  have h0 : (0 : Rat) ≤ (n : Rat) * 2 ^ k :=
    Rat.mul_nonneg (by exact_mod_cast Nat.zero_le n) (Rat.le_of_lt (two_pow_pos k))
  have hs := (spacing_le_iff h0).2 h
  generalize hj : spacing ((n : Rat) * 2 ^ k) = j at hs
  obtain ⟨c, rfl⟩ := Nat.le.dest hs
  unfold round53
  rw [hj]
  have e : (n : Rat) * 2 ^ (j + c) / 2 ^ j = (((n * 2 ^ c : Nat) : Int) : Rat) := by
    rw [Nat.add_comm, two_pow_add, ← Rat.mul_assoc, mul_div_self (two_pow_pos j)]
    have : (((n * 2 ^ c : Nat) : Int) : Rat) = (n : Rat) * ((2 ^ c : Nat) : Rat) := by
      rw [show (((n * 2 ^ c : Nat) : Int) : Rat) = ((n * 2 ^ c : Nat) : Rat) from rfl]
      simp
    rw [this, two_pow_cast]
  rw [e, roundEven_int, ← e, div_mul_self (two_pow_pos j)]

theorem round53_nonneg {x : Rat} (h : 0 ≤ x) : 0 ≤ round53 x := by
  have h1 : (0 : Rat) ≤ x / 2 ^ spacing x := by
    have := div_le_div_pos (two_pow_pos (spacing x)) h
    rwa [Rat.div_def, Rat.zero_mul] at this
  have h2 := roundEven_mono h1
  have h3 : roundEven 0 = 0 := by decide +kernel
  rw [h3] at h2
  exact Rat.mul_nonneg (by exact_mod_cast h2) (Rat.le_of_lt (two_pow_pos _))

theorem round53_mono {x y : Rat} (h0 : 0 ≤ x) (h : x ≤ y) : round53 x ≤ round53 y := by
  have hk := spacing_mono h0 h
  by_cases he : spacing x = spacing y
  · unfold round53
    rw [he]
    exact mul_le_mul_pow _ (by exact_mod_cast roundEven_mono (div_le_div_pos (two_pow_pos _) h))
  · -- a power of two lies between them
    have h0y : 0 ≤ y := by grind
    have hx := (spacing_le_iff h0 (k := spacing x)).1 (Nat.le_refl _)
    obtain ⟨j, hj⟩ : ∃ j, spacing y = j + 1 := ⟨spacing y - 1, by omega⟩
    have hy : (2 : Rat) ^ (j + 53) ≤ y := by
      have : ¬ spacing y ≤ j := by omega
      rw [spacing_le_iff h0y] at this
      exact Rat.not_lt.1 this
    have c53 : roundEven (2 ^ 53) = 2 ^ 53 := by decide +kernel
    have c52 : roundEven (2 ^ 52) = 2 ^ 52 := by decide +kernel
    have i53 : ((2 ^ 53 : Int) : Rat) = 2 ^ 53 := by decide +kernel
    have i52 : ((2 ^ 52 : Int) : Rat) = 2 ^ 52 := by decide +kernel
    have up : round53 x ≤ 2 ^ (spacing x + 53) := by
      have h1 : x / 2 ^ spacing x ≤ 2 ^ 53 := by
        have := div_le_div_pos (two_pow_pos (spacing x)) (Rat.le_of_lt hx)
        rwa [Nat.add_comm, two_pow_add, mul_div_self (two_pow_pos _)] at this
      have h2 := roundEven_mono h1
      rw [c53] at h2
      have h3 : (roundEven (x / 2 ^ spacing x) : Rat) ≤ 2 ^ 53 := by
        rw [← i53]; exact_mod_cast h2
      rw [Nat.add_comm, two_pow_add]
      exact mul_le_mul_pow _ h3
    have lo : (2 : Rat) ^ (j + 53) ≤ round53 y := by
      have h1 : (2 : Rat) ^ 52 ≤ y / 2 ^ spacing y := by
        have := div_le_div_pos (two_pow_pos (spacing y)) hy
        rwa [hj, show j + 53 = 52 + (j + 1) by omega, two_pow_add, mul_div_self (two_pow_pos _), ← hj] at this
      have h2 := roundEven_mono h1
      rw [c52] at h2
      have h3 : (2 : Rat) ^ 52 ≤ (roundEven (y / 2 ^ spacing y) : Rat) := by
        rw [← i52]; exact_mod_cast h2
      have := mul_le_mul_pow (spacing y) h3
      rwa [← two_pow_add, hj, show 52 + (j + 1) = j + 53 by omega, ← hj] at this
    exact Rat.le_trans up (Rat.le_trans (two_pow_le (by omega)) lo)

theorem round53_idem {x : Rat} (h : 0 ≤ x) : round53 (round53 x) = round53 x := by
  have hx := (spacing_le_iff h (k := spacing x)).1 (Nat.le_refl _)
  have h1 : (0 : Rat) ≤ x / 2 ^ spacing x := by
    have := div_le_div_pos (two_pow_pos (spacing x)) h
    rwa [Rat.div_def, Rat.zero_mul] at this
  have h1' : x / 2 ^ spacing x ≤ 2 ^ 53 := by
    have := div_le_div_pos (two_pow_pos (spacing x)) (Rat.le_of_lt hx)
    rwa [Nat.add_comm, two_pow_add, mul_div_self (two_pow_pos _)] at this
  have h2 := roundEven_mono h1
  have h3 := roundEven_mono h1'
  have c0 : roundEven 0 = 0 := by decide +kernel
  have c53 : roundEven (2 ^ 53) = 2 ^ 53 := by decide +kernel
  rw [c0] at h2
  rw [c53] at h3
  have hr : round53 x = (roundEven (x / 2 ^ spacing x) : Rat) * 2 ^ spacing x := rfl
  rw [hr]
  generalize spacing x = k at *
  obtain ⟨n, hn⟩ : ∃ n : Nat, roundEven (x / 2 ^ k) = n := ⟨_, (Int.toNat_of_nonneg h2).symm⟩
  rw [hn] at h3 ⊢
  have e : (((n : Nat) : Int) : Rat) = (n : Rat) := rfl
  rw [e]
  by_cases hlt : n < 2 ^ 53
  · apply round53_fits
    have h4 : (n : Rat) < 2 ^ 53 := by
      have : (n : Rat) < ((2 ^ 53 : Nat) : Rat) := by exact_mod_cast hlt
      rwa [two_pow_cast] at this
    rw [Nat.add_comm, two_pow_add]
    exact Rat.mul_lt_mul_of_pos_right h4 (two_pow_pos k)
  · have hn53 : n = 2 ^ 52 * 2 := by omega
    have e2 : (n : Rat) * 2 ^ k = ((2 ^ 52 : Nat) : Rat) * 2 ^ (k + 1) := by
      rw [hn53, Rat.pow_succ]
      simp
      grind
    rw [e2]
    apply round53_fits
    rw [two_pow_cast, ← two_pow_add, show k + 1 + 53 = 52 + (k + 1) + 1 by omega, Rat.pow_succ]
    have := two_pow_pos (52 + (k + 1))
    grind

/-- The error is at most half the spacing. -/
theorem round53_near {x : Rat} (h : 0 ≤ x) {k : Nat} (hx : x < 2 ^ (k + 53)) :
    x - 2 ^ k / 2 ≤ round53 x ∧ round53 x ≤ x + 2 ^ k / 2 := by
  have hk := two_pow_le ((spacing_le_iff h).2 hx)
  obtain ⟨h1, h2⟩ := roundEven_near (x / 2 ^ spacing x)
  have g1 := mul_le_mul_pow (spacing x) h1
  have g2 := mul_le_mul_pow (spacing x) h2
  have e := div_mul_self (x := x) (two_pow_pos (spacing x))
  unfold round53
  generalize x / 2 ^ spacing x = q at *
  generalize (roundEven q : Rat) = r at *
  generalize (2 : Rat) ^ spacing x = p at *
  constructor <;> grind

/-! ### Rounding to `f64` -/

theorem f64unit_pos : 0 < f64unit := two_pow_pos 1074

theorem scale_nonneg {x : Rat} (h : 0 ≤ x) : 0 ≤ x * f64unit := Rat.mul_nonneg h (Rat.le_of_lt f64unit_pos)

theorem scaled_nonneg {x : Rat} (h : 0 ≤ x) : 0 ≤ round53 (x * f64unit) / f64unit := by
  have := div_le_div_pos f64unit_pos (round53_nonneg (scale_nonneg h))
  rwa [Rat.div_def, Rat.zero_mul] at this

theorem scaled_mono {x y : Rat} (h0 : 0 ≤ x) (h : x ≤ y) :
    round53 (x * f64unit) / f64unit ≤ round53 (y * f64unit) / f64unit :=
  div_le_div_pos f64unit_pos (round53_mono (scale_nonneg h0)
    (Rat.mul_le_mul_of_nonneg_right h (Rat.le_of_lt f64unit_pos)))

theorem scaled_idem {x : Rat} (h0 : 0 ≤ x) :
    round53 (round53 (x * f64unit) / f64unit * f64unit) / f64unit = round53 (x * f64unit) / f64unit := by
  rw [div_mul_self f64unit_pos, round53_idem (scale_nonneg h0)]

theorem scaled_zero : round53 (0 * f64unit) / f64unit = 0 := by decide +kernel

/-- **C75.** Rounding to `f64` keeps the order and is not repeated. -/
theorem C75_f64 : Rounding f64round where
  mono x y h := by
    unfold f64round
    by_cases hx : x < 0
    · rw [if_pos hx]
      by_cases hy : y < 0
      · rw [if_pos hy]
        have := scaled_mono (x := -y) (y := -x) (by grind) (by grind)
        grind
      · rw [if_neg hy]
        have h1 := scaled_nonneg (x := -x) (by grind)
        have h2 := scaled_nonneg (x := y) (by grind)
        grind
    · rw [if_neg hx, if_neg (by grind)]
      exact scaled_mono (by grind) h
  idem x := by
    by_cases hx : x < 0
    · have e : f64round x = -(round53 (-x * f64unit) / f64unit) := by unfold f64round; rw [if_pos hx]
      rw [e]
      have h1 := scaled_nonneg (x := -x) (by grind)
      have h2 := scaled_idem (x := -x) (by grind)
      generalize round53 (-x * f64unit) / f64unit = z at *
      unfold f64round
      by_cases hz : -z < 0
      · rw [if_pos hz, Rat.neg_neg, h2]
      · have : z = 0 := by grind
        subst this
        rw [if_neg hz, Rat.neg_zero, scaled_zero]
    · have e : f64round x = round53 (x * f64unit) / f64unit := by unfold f64round; rw [if_neg hx]
      rw [e]
      have h1 := scaled_nonneg (x := x) (by grind)
      have h2 := scaled_idem (x := x) (by grind)
      generalize round53 (x * f64unit) / f64unit = z at *
      unfold f64round
      rw [if_neg (by grind), h2]

/-! ### The two encoders differ -/

/-- Scores as `f64` has them: `-8.000000000000002` is `-8 - 2^-49`. -/
def ulpVocab : List (Str × Rat) :=
  [("<unk>".toList, 0), ("a".toList, -3), ("b".toList, -5), ("ab".toList, -8 - 1 / 2 ^ 49), ("c".toList, -9)]

/-- All of them are `f64`s. -/
example : ∀ p ∈ ulpVocab, f64round p.2 = p.2 := by decide +kernel

/-- The hypotheses of `C75_optimized`, `C75_lattice` and `C75_f64_close` hold for it. -/
example : IsMinScore ulpVocab (-9) ∧ (∀ p ∈ ulpVocab, -900 ≤ p.2 ∧ p.2 ≤ 900) :=
  ⟨⟨⟨"c".toList, by decide +kernel⟩, by decide +kernel⟩, by decide +kernel⟩

/-- **C75, finding.** With the rounding of `f64` the two encoders return different pieces: `a`, `b` is better
than `ab` by one unit in the last place, which is lost when the score of `c` is added. `encode_optimized` has
decided by then; the lattice compares after the addition, sees a tie and keeps the first, `ab`. -/
theorem C75_differ : ∃ u, Unigram.from ulpVocab (some 0) false = .ok u ∧
    u.encodeOptimizedR f64round "abc".toList = .ok ["a".toList, "b".toList, "c".toList] ∧
    u.encodeUnoptimizedR f64round "abc".toList = .ok ["ab".toList, "c".toList] :=
  ⟨_, rfl, by decide +kernel, by decide +kernel⟩

/-! ### How far from the exact optimum -/

/-- Rounded and exact sums of `n` scores. -/
theorem addUp_near {fl : Rat → Rat} {δ c B : Rat} (hδ : 0 ≤ δ)
    (herr : ∀ x, -B ≤ x → x ≤ B → x - δ ≤ fl x ∧ fl x ≤ x + δ) :
    ∀ (xs : List Piece) (a : Rat) (j : Nat), (∀ x ∈ xs, -c ≤ x.score ∧ x.score ≤ c) →
      -(j * (c + δ)) ≤ a → a ≤ j * (c + δ) → ((j + xs.length : Nat) : Rat) * (c + δ) ≤ B →
      a + score xs - xs.length * δ ≤ addUp fl a (xs.map (·.score)) ∧
      addUp fl a (xs.map (·.score)) ≤ a + score xs + xs.length * δ
  | [], a, j, _, _, _, _ => by
    simp only [score, addUp, List.map_nil, List.foldr_nil, List.length_nil]
    constructor <;> grind
  | x :: xs, a, j, hx, ha1, ha2, hB => by
    obtain ⟨x1, x2⟩ := hx x (by simp)
    have hc : 0 ≤ c + δ := by grind
    have hmono : ((j + 1 : Nat) : Rat) * (c + δ) ≤ ((j + (x :: xs).length : Nat) : Rat) * (c + δ) := by
      apply Rat.mul_le_mul_of_nonneg_right _ hc
      exact_mod_cast (show j + 1 ≤ j + (x :: xs).length by simp)
    have e1 : ((j + 1 : Nat) : Rat) = (j : Rat) + 1 := by simp
    have e2 : (((x :: xs).length : Nat) : Rat) = (xs.length : Rat) + 1 := by simp
    rw [e1] at hmono
    obtain ⟨r1, r2⟩ := herr (a + x.score) (by grind) (by grind)
    obtain ⟨h1, h2⟩ := addUp_near (c := c) hδ herr xs (fl (a + x.score)) (j + 1)
      (fun y hy => hx y (by simp [hy])) (by rw [e1]; grind) (by rw [e1]; grind) (by
        rw [show j + 1 + xs.length = j + (x :: xs).length by simp; omega]; exact hB)
    have e3 : score (x :: xs) = x.score + score xs := rfl
    simp only [List.map_cons, addUp]
    rw [e2, e3]
    constructor <;> grind

theorem length_le_of_seg {fl : Rat → Rat} {vocab unk m} : ∀ {xs : List Piece} {s : Str},
    SegR fl vocab unk m s xs → xs.length ≤ s.length
  | [], _, _ => by simp
  | x :: xs, s, ⟨h1, h2⟩ => by
    have ih := length_le_of_seg (xs := xs) ⟨rfl, fun y hy => h2 y (by simp [hy])⟩
    have hne := (isPieceR_iff.1 (h2 x (by simp))).ne_nil
    have := List.length_pos_iff.2 hne
    subst h1
    simp only [List.map_cons, List.flatten_cons, List.length_append, List.length_cons]
    omega

/-- **C75.** The exact total of a segmentation that is best with rounded sums is at most `2 n δ` below that of
any other, where `n` is the number of characters and `δ` bounds the error of one rounding. -/
theorem C75_close {fl : Rat → Rat} {vocab unk} {m δ c B : Rat} {s : Str} (hδ : 0 ≤ δ)
    (herr : ∀ x, -B ≤ x → x ≤ B → x - δ ≤ fl x ∧ fl x ≤ x + δ) (hB : (s.length : Rat) * (c + δ) ≤ B)
    (hv : ∀ p ∈ vocab, -c ≤ p.2 ∧ p.2 ≤ c) (hunk : -c ≤ fl (m - 10) ∧ fl (m - 10) ≤ c) {xs : List Piece}
    (hxs : SegR fl vocab unk m s xs) (hbest : ∀ ys, SegR fl vocab unk m s ys → scoreR fl ys ≤ scoreR fl xs)
    {ys : List Piece} (hys : SegR fl vocab unk m s ys) : score ys ≤ score xs + 2 * s.length * δ := by
  have bound : ∀ {zs : List Piece}, SegR fl vocab unk m s zs → ∀ x ∈ zs, -c ≤ x.score ∧ x.score ≤ c := by
    intro zs hz x hx
    rcases hz.2 x hx with ⟨-, i, -, hl, -⟩ | ⟨-, -, -, -, h⟩
    · exact hv _ (List.mem_of_getElem? hl)
    · rw [h]; exact hunk
  have near : ∀ {zs : List Piece}, SegR fl vocab unk m s zs →
      score zs - s.length * δ ≤ scoreR fl zs ∧ scoreR fl zs ≤ score zs + s.length * δ := by
    intro zs hz
    have hlen := length_le_of_seg hz
    have hb := bound hz
    have hl : (zs.length : Rat) ≤ s.length := by exact_mod_cast hlen
    have hd := Rat.mul_le_mul_of_nonneg_right hl hδ
    cases zs with
    | nil =>
      simp only [scoreR, score, addUp, List.map_nil, List.foldr_nil]
      have : (0 : Rat) ≤ s.length * δ := Rat.mul_nonneg (by exact_mod_cast Nat.zero_le _) hδ
      constructor <;> grind
    | cons z zs =>
      have hz0 := hb z (by simp)
      have hc : 0 ≤ c + δ := by grind
      have hle := Rat.mul_le_mul_of_nonneg_right hl hc
      obtain ⟨h1, h2⟩ := addUp_near (c := c) hδ herr (z :: zs) 0 0 hb (by simp) (by simp)
        (by rw [Nat.zero_add]; exact Rat.le_trans hle hB)
      unfold scoreR
      constructor <;> grind
  have h1 := near hxs
  have h2 := near hys
  have h3 := hbest ys hys
  grind

/-- The error of rounding to `f64` below `2^20`: at most `2^-34`. -/
theorem f64round_near {x : Rat} (h1 : -2 ^ 20 < x) (h2 : x < 2 ^ 20) :
    x - 1 / 2 ^ 34 ≤ f64round x ∧ f64round x ≤ x + 1 / 2 ^ 34 := by
  have key : ∀ y : Rat, 0 ≤ y → y < 2 ^ 20 →
      y - 1 / 2 ^ 34 ≤ round53 (y * f64unit) / f64unit ∧ round53 (y * f64unit) / f64unit ≤ y + 1 / 2 ^ 34 := by
    intro y hy0 hy
    obtain ⟨g1, g2⟩ := round53_near (scale_nonneg hy0) (k := 1041) (by
      have := Rat.mul_lt_mul_of_pos_right hy f64unit_pos
      rwa [f64unit, ← two_pow_add] at this)
    have d1 := div_le_div_pos f64unit_pos g1
    have d2 := div_le_div_pos f64unit_pos g2
    have e : (2 : Rat) ^ 1041 / 2 = 1 / 2 ^ 34 * f64unit := by decide +kernel
    rw [e] at d1 d2
    have e1 : (y * f64unit - 1 / 2 ^ 34 * f64unit) / f64unit = y - 1 / 2 ^ 34 := by
      rw [show y * f64unit - 1 / 2 ^ 34 * f64unit = (y - 1 / 2 ^ 34) * f64unit by grind, mul_div_self f64unit_pos]
    have e2 : (y * f64unit + 1 / 2 ^ 34 * f64unit) / f64unit = y + 1 / 2 ^ 34 := by
      rw [show y * f64unit + 1 / 2 ^ 34 * f64unit = (y + 1 / 2 ^ 34) * f64unit by grind, mul_div_self f64unit_pos]
    rw [e1] at d1
    rw [e2] at d2
    exact ⟨d1, d2⟩
  unfold f64round
  by_cases hx : x < 0
  · rw [if_pos hx]
    obtain ⟨g1, g2⟩ := key (-x) (by grind) (by grind)
    constructor <;> grind
  · rw [if_neg hx]
    exact key x (by grind) h2

/-- **C75.** With `f64`, scores of magnitude at most 900 and at most 1000 characters, the pieces of both
encoders are a segmentation whose exact total is within `2^-23` of the best exact total. -/
theorem C75_f64_close {vocab : List (Str × Rat)} {u : Unigram} {bf : Bool} {k : Nat}
    (hu : Unigram.from vocab (some k) bf = .ok u) {m : Rat} (hm : IsMinScore vocab m)
    (hv : ∀ p ∈ vocab, -900 ≤ p.2 ∧ p.2 ≤ 900) {s : Str} (hs : s.length ≤ 1000) {out : List Str}
    (h : u.encodeOptimizedR f64round s = .ok out ∨ u.encodeUnoptimizedR f64round s = .ok out) :
    ∃ xs, SegR f64round vocab (some k) m s xs ∧ out = fuse (xs.map (fun x => (x.text, decide (x.id = some k)))) ∧
      ∀ ys, SegR f64round vocab (some k) m s ys → score ys ≤ score xs + 1 / 2 ^ 23 := by
  obtain ⟨xs, h1, h2, h3⟩ : ∃ xs, SegR f64round vocab (some k) m s xs ∧
      (∀ ys, SegR f64round vocab (some k) m s ys → scoreR f64round ys ≤ scoreR f64round xs) ∧
      out = fuse (xs.map (fun x => (x.text, decide (x.id = some k)))) := by
    rcases h with h | h
    · exact C75_optimized C75_f64 hu hm h
    · obtain ⟨xs, h1, h2, h3⟩ := C75_lattice C75_f64 hu hm s
      rw [h3] at h
      cases h
      exact ⟨xs, h1, h2, rfl⟩
  refine ⟨xs, h1, h3, ?_⟩
  intro ys hys
  obtain ⟨⟨t, ht⟩, -⟩ := hm
  have hmb := hv _ ht
  have hl : (s.length : Rat) ≤ 1000 := by exact_mod_cast hs
  have hl0 : (0 : Rat) ≤ s.length := by exact_mod_cast Nat.zero_le _
  have c1 : (1 : Rat) / 2 ^ 34 ≤ 1 := by decide +kernel
  have c2 : (2 : Rat) ^ 20 = 1048576 := by decide +kernel
  have c3 : (2000 : Rat) * (1 / 2 ^ 34) ≤ 1 / 2 ^ 23 := by decide +kernel
  have c4 : (0 : Rat) ≤ 1 / 2 ^ 34 := by decide +kernel
  dsimp only at hmb
  have hr := f64round_near (x := m - 10) (by rw [c2]; grind) (by rw [c2]; grind)
  have hmul := Rat.mul_le_mul_of_nonneg_right hl (c := (1000 : Rat) + 1 / 2 ^ 34) (by grind)
  have := C75_close (fl := f64round) (vocab := vocab) (δ := 1 / 2 ^ 34) (c := 1000) (B := 1001000) c4
    (fun x a b => f64round_near (by rw [c2]; grind) (by rw [c2]; grind)) (by grind)
    (fun p hp => by have := hv p hp; constructor <;> grind) (by constructor <;> grind) h1 h2 hys
  have hd := Rat.mul_le_mul_of_nonneg_right hl c4
  grind

end Tok.Unigram
