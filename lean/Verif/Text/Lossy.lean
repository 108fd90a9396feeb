import Verif.Text.Utf8

/-!
# `String::from_utf8_lossy`

The algorithm of the Rust standard library (`core::str::lossy`): every maximal prefix of a well-formed sequence
that is not one becomes one U+FFFD. What the theorems use of it is `fromUtf8Lossy_strBytes`.
-/

namespace Tok

/-- A continuation byte. -/
def isCont (b : UInt8) : Bool := 0x80 ≤ b && b ≤ 0xBF

/-- May `b1` follow the lead byte `b0` of a sequence of three or four bytes? -/
def secondOk (b0 b1 : UInt8) : Bool :=
  if b0 = 0xE0 then 0xA0 ≤ b1 && b1 ≤ 0xBF
  else if b0 = 0xED then 0x80 ≤ b1 && b1 ≤ 0x9F
  else if b0 = 0xF0 then 0x90 ≤ b1 && b1 ≤ 0xBF
  else if b0 = 0xF4 then 0x80 ≤ b1 && b1 ≤ 0x8F
  else isCont b1

/-- Length of the ill-formed part at the head of `bs` (no character can be decoded there). -/
def badLen : List UInt8 → Nat
  | b0 :: b1 :: rest =>
    if 0xE0 ≤ b0 && b0 ≤ 0xEF then (if secondOk b0 b1 then 2 else 1)
    else if 0xF0 ≤ b0 && b0 ≤ 0xF4 then
      if secondOk b0 b1 then (if (rest.head?.map isCont).getD false then 3 else 2) else 1
    else 1
  | _ => 1

/-- The loop; the number bounds the rounds. -/
def lossyAux : Nat → List UInt8 → Str
  | _, [] => []
  | 0, _ :: _ => []
  | n + 1, b :: bs =>
    match ByteArray.utf8DecodeChar? (b :: bs).toByteArray 0 with
    | some c => c :: lossyAux n ((b :: bs).drop c.utf8Size)
    | none => '�' :: lossyAux n ((b :: bs).drop (badLen (b :: bs)))

/-- `String::from_utf8_lossy(bytes).to_string()`. -/
def fromUtf8Lossy (bs : List UInt8) : Str := lossyAux bs.length bs

theorem lossyAux_strBytes : ∀ (s : Str) (n : Nat), s.length ≤ n → lossyAux n (strBytes s) = s
  | [], n, _ => by cases n <;> rfl
  | c :: s, 0, h => by simp at h
  | c :: s, n + 1, h => by
    rw [strBytes_cons]
    cases hb : String.utf8EncodeChar c ++ strBytes s with
    | nil => simp at hb
    | cons b bs =>
      have hd := decode_encode_append c (strBytes s)
      rw [hb] at hd
      simp only [lossyAux, hd]
      have : (b :: bs).drop c.utf8Size = strBytes s := by
        rw [← hb, ← encodeChar_length c, List.drop_left]
      rw [this, lossyAux_strBytes s n (by simpa using h)]

/-- Well-formed bytes are decoded exactly. -/
theorem fromUtf8Lossy_strBytes (s : Str) : fromUtf8Lossy (strBytes s) = s :=
  lossyAux_strBytes s _ (by rw [length_strBytes]; exact length_le_blen s)

/-- `é`, a lone continuation byte, the first three bytes of `𝄞`, a surrogate. -/
example : fromUtf8Lossy [0xC3, 0xA9, 0xA9, 0xF0, 0x9D, 0x84, 0x61] = ['é', '�', '�', 'a'] ∧
    fromUtf8Lossy [0xED, 0xA0, 0x80] = ['�', '�', '�'] := by decide +kernel

/-! ## Decoding bit by bit

After a decoding that does not end in U+FFFD the decoder stands between two characters. -/

theorem secondOk_of_nat {n m : Nat} (hn : n < 256) (hm : 0x80 ≤ m ∧ m ≤ 0xBF)
    (h1 : n = 0xE0 → 0xA0 ≤ m) (h2 : n = 0xED → m ≤ 0x9F) (h3 : n = 0xF0 → 0x90 ≤ m)
    (h4 : n = 0xF4 → m ≤ 0x8F) : secondOk (UInt8.ofNat n) (UInt8.ofNat m) = true := by
  have hm' : (UInt8.ofNat m).toNat = m := by rw [UInt8.toNat_ofNat']; omega
  have e : ∀ k : Nat, k < 256 → (UInt8.ofNat n = UInt8.ofNat k ↔ n = k) := by
    intro k hk
    rw [← UInt8.toNat_inj, UInt8.toNat_ofNat', UInt8.toNat_ofNat']
    omega
  have l : ∀ k : Nat, k < 256 → (UInt8.ofNat k ≤ UInt8.ofNat m ↔ k ≤ m) := by
    intro k hk
    rw [UInt8.le_iff_toNat_le, hm', UInt8.toNat_ofNat']; omega
  have u : ∀ k : Nat, k < 256 → (UInt8.ofNat m ≤ UInt8.ofNat k ↔ m ≤ k) := by
    intro k hk
    rw [UInt8.le_iff_toNat_le, hm', UInt8.toNat_ofNat']; omega
  have e1 := e 0xE0 (by omega)
  have e2 := e 0xED (by omega)
  have e3 := e 0xF0 (by omega)
  have e4 := e 0xF4 (by omega)
  have l1 := l 0xA0 (by omega)
  have l2 := l 0x80 (by omega)
  have l3 := l 0x90 (by omega)
  have u1 := u 0xBF (by omega)
  have u2 := u 0x9F (by omega)
  have u3 := u 0x8F (by omega)
  simp only [UInt8.reduceOfNat] at e1 e2 e3 e4 l1 l2 l3 u1 u2 u3
  unfold secondOk isCont
  by_cases c1 : n = 0xE0
  · rw [if_pos (e1.2 c1)]; simp [l1, u1, h1 c1, hm.2]
  · rw [if_neg (fun h => c1 (e1.1 h))]
    by_cases c2 : n = 0xED
    · rw [if_pos (e2.2 c2)]; simp [l2, u2, h2 c2, hm.1]
    · rw [if_neg (fun h => c2 (e2.1 h))]
      by_cases c3 : n = 0xF0
      · rw [if_pos (e3.2 c3)]; simp [l3, u1, h3 c3, hm.2]
      · rw [if_neg (fun h => c3 (e3.1 h))]
        by_cases c4 : n = 0xF4
        · rw [if_pos (e4.2 c4)]; simp [l2, u3, h4 c4, hm.1]
        · rw [if_neg (fun h => c4 (e4.1 h))]; simp [l2, u1, hm.1, hm.2]

theorem between_ofNat {n lo hi : Nat} (hn : n < 256) (hlo : lo < 256) (hhi : hi < 256) :
    (decide (UInt8.ofNat lo ≤ UInt8.ofNat n) && decide (UInt8.ofNat n ≤ UInt8.ofNat hi)) =
      (decide (lo ≤ n) && decide (n ≤ hi)) := by
  simp only [UInt8.le_iff_toNat_le, UInt8.toNat_ofNat', Nat.reducePow, Nat.mod_eq_of_lt hn, Nat.mod_eq_of_lt hlo,
    Nat.mod_eq_of_lt hhi]

/-- The beginning of a character is one ill-formed part. -/
theorem badLen_of_strict_prefix {c : Char} {x z : List UInt8} (hx : x ≠ []) (hz : z ≠ [])
    (h : String.utf8EncodeChar c = x ++ z) : badLen x = x.length := by
  have hv := c.valid
  have hsur : c.val.toNat < 0xd800 ∨ (0xdfff < c.val.toNat ∧ c.val.toNat < 0x110000) := hv
  obtain ⟨z0, zs, rfl⟩ := List.exists_cons_of_ne_nil hz
  rcases x with _ | ⟨b0, _ | ⟨b1, x⟩⟩
  · exact absurd rfl hx
  · rfl
  · unfold String.utf8EncodeChar at h
    generalize c.val.toNat = v at h hsur
    simp only at h
    split at h
    · simp at h
    split at h
    · simp at h
    split at h
    · -- three bytes
      simp only [List.cons_append, List.cons.injEq] at h
      obtain ⟨rfl, rfl, h⟩ := h
      rcases x with _ | ⟨b2, x⟩
      · have h2 := secondOk_of_nat (n := v / 4096 % 16 + 0xe0) (m := v / 64 % 64 + 0x80) (by omega) (by omega)
          (by omega) (by omega) (by omega) (by omega)
        have h1 := between_ofNat (n := v / 4096 % 16 + 0xe0) (lo := 0xE0) (hi := 0xEF) (by omega) (by omega) (by omega)
        simp only [UInt8.reduceOfNat] at h1
        have h3 : (decide (0xE0 ≤ v / 4096 % 16 + 0xe0) && decide (v / 4096 % 16 + 0xe0 ≤ 0xEF)) = true := by
          simp; omega
        rw [badLen, h1, h3, if_pos rfl, h2]; rfl
      · simp at h
    · -- four bytes
      simp only [List.cons_append, List.cons.injEq] at h
      obtain ⟨rfl, rfl, h⟩ := h
      have h2 := secondOk_of_nat (n := v / 262144 % 8 + 0xf0) (m := v / 4096 % 64 + 0x80) (by omega) (by omega)
        (by omega) (by omega) (by omega) (by omega)
      have h1 := between_ofNat (n := v / 262144 % 8 + 0xf0) (lo := 0xE0) (hi := 0xEF) (by omega) (by omega) (by omega)
      have h1' := between_ofNat (n := v / 262144 % 8 + 0xf0) (lo := 0xF0) (hi := 0xF4) (by omega) (by omega) (by omega)
      simp only [UInt8.reduceOfNat] at h1 h1'
      have h3 : (decide (0xE0 ≤ v / 262144 % 8 + 0xf0) && decide (v / 262144 % 8 + 0xf0 ≤ 0xEF)) = false := by
        simp
      have h3' : (decide (0xF0 ≤ v / 262144 % 8 + 0xf0) && decide (v / 262144 % 8 + 0xf0 ≤ 0xF4)) = true := by
        simp; omega
      rcases x with _ | ⟨b2, x⟩
      · rw [badLen, h1, h1', h3, h3']
        simp only [Bool.false_eq_true, if_false, if_true, h2, List.head?_nil, Option.map_none, Option.getD_none,
          List.length_cons, List.length_nil]
      · simp only [List.cons_append, List.cons.injEq] at h
        obtain ⟨rfl, h⟩ := h
        rcases x with _ | ⟨b3, x⟩
        · have h4 := between_ofNat (n := v / 64 % 64 + 0x80) (lo := 0x80) (hi := 0xBF) (by omega) (by omega) (by omega)
          simp only [UInt8.reduceOfNat] at h4
          have h5 : (decide (0x80 ≤ v / 64 % 64 + 0x80) && decide (v / 64 % 64 + 0x80 ≤ 0xBF)) = true := by
            simp; omega
          rw [badLen, h1, h1', h3, h3']
          simp only [Bool.false_eq_true, if_false, if_true, h2, List.head?_cons, Option.map_some, Option.getD_some,
            isCont, h4, h5, List.length_cons, List.length_nil]
        · simp at h

theorem badLen_append : ∀ {x : List UInt8} (y : List UInt8), badLen x < x.length → badLen (x ++ y) = badLen x
  | [], _, h => by simp [badLen] at h
  | [b0], _, h => by simp [badLen] at h
  | b0 :: b1 :: b2 :: x, y, _ => rfl
  | [b0, b1], y, h => by
    simp only [List.cons_append, List.nil_append, badLen]
    simp only [badLen, List.length_cons, List.length_nil, List.head?_nil, Option.map_none, Option.getD_none,
      Bool.false_eq_true, if_false] at h
    split
    · rfl
    · split
      · rename_i g1 g2
        rw [if_neg g1, if_pos g2] at h
        split
        · rename_i g3
          rw [if_pos g3] at h
          omega
        · rfl
      · rfl

theorem badLen_pos (x : List UInt8) : 0 < badLen x := by
  unfold badLen
  repeat' split
  all_goals omega

theorem decode_none_append {x : List UInt8} (y : List UInt8) (h : badLen x < x.length)
    (hx : ByteArray.utf8DecodeChar? x.toByteArray 0 = none) :
    ByteArray.utf8DecodeChar? (x ++ y).toByteArray 0 = none := by
  cases hd : ByteArray.utf8DecodeChar? (x ++ y).toByteArray 0 with
  | none => rfl
  | some c =>
    exfalso
    have he := encode_of_decode hd
    rcases List.append_eq_append_iff.1 he with ⟨z, h1, h2⟩ | ⟨z, h1, _⟩
    · rcases z with _ | ⟨z0, z⟩
      · rw [List.append_nil] at h1
        have := decode_encode_append c []
        rw [List.append_nil, h1, hx] at this
        cases this
      · have := badLen_of_strict_prefix (x := x) (z := z0 :: z) (by rintro rfl; simp at h) (by simp) h1
        omega
    · have := decode_encode_append c z
      rw [← h1, hx] at this
      cases this

/-- Enough rounds give the same result. -/
theorem lossyAux_eq : ∀ (n : Nat) (bs : List UInt8), bs.length ≤ n → lossyAux n bs = fromUtf8Lossy bs := by
  have key : ∀ (n m : Nat) (bs : List UInt8), bs.length ≤ n → bs.length ≤ m → lossyAux n bs = lossyAux m bs := by
    intro n
    induction n with
    | zero =>
      intro m bs h _
      have : bs = [] := List.length_eq_zero_iff.1 (by omega)
      subst this
      cases m <;> rfl
    | succ n ih =>
      intro m bs h hm
      cases bs with
      | nil => cases m <;> rfl
      | cons b bs =>
        cases m with
        | zero => simp at hm
        | succ m =>
          simp only [List.length_cons] at h hm
          simp only [lossyAux]
          split
          · rename_i c _
            congr 1
            have := c.utf8Size_pos
            exact ih m _ (by simp; omega) (by simp; omega)
          · congr 1
            have := badLen_pos (b :: bs)
            exact ih m _ (by simp; omega) (by simp; omega)
  intro n bs h
  exact key n bs.length bs h (Nat.le_refl _)

theorem fromUtf8Lossy_some {bs : List UInt8} {c : Char}
    (h : ByteArray.utf8DecodeChar? bs.toByteArray 0 = some c) :
    fromUtf8Lossy bs = c :: fromUtf8Lossy (bs.drop c.utf8Size) := by
  cases bs with
  | nil =>
    have := encode_of_decode h
    have h2 := congrArg List.length this
    have := c.utf8Size_pos
    simp only [List.length_nil, List.length_append, encodeChar_length] at h2
    omega
  | cons b bs =>
    have := c.utf8Size_pos
    rw [fromUtf8Lossy, List.length_cons, lossyAux, h]
    simp only
    rw [lossyAux_eq _ _ (by simp; omega)]

theorem fromUtf8Lossy_none {bs : List UInt8} (hb : bs ≠ [])
    (h : ByteArray.utf8DecodeChar? bs.toByteArray 0 = none) :
    fromUtf8Lossy bs = '�' :: fromUtf8Lossy (bs.drop (badLen bs)) := by
  cases bs with
  | nil => exact absurd rfl hb
  | cons b bs =>
    have := badLen_pos (b :: bs)
    rw [fromUtf8Lossy, List.length_cons, lossyAux, h]
    simp only
    rw [lossyAux_eq _ _ (by simp; omega)]

theorem fromUtf8Lossy_ne_nil {bs : List UInt8} (hb : bs ≠ []) : fromUtf8Lossy bs ≠ [] := by
  cases h : ByteArray.utf8DecodeChar? bs.toByteArray 0 with
  | some c => rw [fromUtf8Lossy_some h]; simp
  | none => rw [fromUtf8Lossy_none hb h]; simp

/-- If the decoding of `x` does not end in U+FFFD, what follows is decoded on its own. -/
theorem fromUtf8Lossy_append (y : List UInt8) : ∀ (n : Nat) (x : List UInt8), x.length ≤ n →
    (fromUtf8Lossy x).getLast? ≠ some '�' → fromUtf8Lossy (x ++ y) = fromUtf8Lossy x ++ fromUtf8Lossy y := by
  intro n
  induction n with
  | zero =>
    intro x h _
    have : x = [] := List.length_eq_zero_iff.1 (by omega)
    subst this
    rfl
  | succ n ih =>
    intro x hn hl
    by_cases hx : x = []
    · subst hx; rfl
    have hlast : ∀ (c : Char) (r : List UInt8), fromUtf8Lossy x = c :: fromUtf8Lossy r → r ≠ [] →
        (fromUtf8Lossy r).getLast? ≠ some '�' := by
      intro c r h hr
      rw [h, List.getLast?_cons] at hl
      have := fromUtf8Lossy_ne_nil hr
      intro hf
      rw [hf] at hl
      exact hl rfl
    cases hd : ByteArray.utf8DecodeChar? x.toByteArray 0 with
    | some c =>
      have he := encode_of_decode hd
      have hxy : ByteArray.utf8DecodeChar? (x ++ y).toByteArray 0 = some c := by
        rw [he, List.append_assoc]; exact decode_encode_append _ _
      have hle : c.utf8Size ≤ x.length := by
        have := congrArg List.length he
        rw [List.length_append, encodeChar_length] at this
        omega
      rw [fromUtf8Lossy_some hxy, fromUtf8Lossy_some hd, List.drop_append_of_le_length hle, List.cons_append]
      congr 1
      have := c.utf8Size_pos
      by_cases hr : x.drop c.utf8Size = []
      · rw [hr]; rfl
      · exact ih _ (by rw [List.length_drop]; omega) (hlast c _ (fromUtf8Lossy_some hd) hr)
    | none =>
      have hr : x.drop (badLen x) ≠ [] := by
        intro hr
        rw [fromUtf8Lossy_none hx hd, hr] at hl
        exact hl rfl
      have hlt : badLen x < x.length := by
        rcases Nat.lt_or_ge (badLen x) x.length with h | h
        · exact h
        · exact absurd (List.drop_of_length_le h) hr
      have hxy := decode_none_append y hlt hd
      have := badLen_pos x
      rw [fromUtf8Lossy_none (by simp [hx]) hxy, fromUtf8Lossy_none hx hd, badLen_append y hlt,
        List.drop_append_of_le_length (by omega), List.cons_append]
      congr 1
      exact ih _ (by rw [List.length_drop]; omega) (hlast _ _ (fromUtf8Lossy_none hx hd) hr)

end Tok
