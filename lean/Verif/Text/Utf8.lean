import Verif.BaseLemmas

/-!
# UTF-8: the encoding of characters is prefix-free and invertible

No Rust counterpart except `fromUtf8` (`String::from_utf8`); what is proved here pins that definition down
completely (`fromUtf8_eq_some`).
-/

namespace Tok

theorem decode_encode_append (c : Char) (x : List UInt8) :
    ByteArray.utf8DecodeChar? (String.utf8EncodeChar c ++ x).toByteArray 0 = some c := by
  rw [List.toByteArray_append, ByteArray.utf8DecodeChar?_utf8EncodeChar_append]

/-- Different characters are told apart by their bytes, whatever follows. -/
theorem encodeChar_inj {c d : Char} {x y : List UInt8}
    (h : String.utf8EncodeChar c ++ x = String.utf8EncodeChar d ++ y) : c = d ∧ x = y := by
  have h1 := decode_encode_append c x
  rw [h, decode_encode_append d y] at h1
  cases h1
  exact ⟨rfl, List.append_cancel_left h⟩

@[simp] theorem strBytes_nil : strBytes [] = [] := rfl

@[simp] theorem strBytes_cons (c : Char) (s : Str) :
    strBytes (c :: s) = String.utf8EncodeChar c ++ strBytes s := by simp [strBytes]

@[simp] theorem strBytes_append (s t : Str) : strBytes (s ++ t) = strBytes s ++ strBytes t := by
  simp [strBytes]

theorem encodeChar_length (c : Char) : (String.utf8EncodeChar c).length = c.utf8Size :=
  String.length_utf8EncodeChar c

theorem encodeChar_ne_nil (c : Char) : String.utf8EncodeChar c ≠ [] := by
  intro h
  have := encodeChar_length c
  have := c.utf8Size_pos
  simp_all

theorem strBytes_inj_append : ∀ {s t : Str} {x : List UInt8}, strBytes s ++ x = strBytes t →
    ∃ r, t = s ++ r ∧ strBytes r = x
  | [], t, x, h => ⟨t, rfl, h.symm⟩
  | c :: s, [], x, h => by
    simp [strBytes_cons] at h
  | c :: s, d :: t, x, h => by
    rw [strBytes_cons, strBytes_cons, List.append_assoc] at h
    obtain ⟨rfl, h2⟩ := encodeChar_inj h
    obtain ⟨r, rfl, hr⟩ := strBytes_inj_append h2
    exact ⟨r, rfl, hr⟩

/-- A string is a prefix of another exactly when its bytes are. -/
theorem strBytes_prefix {s t : Str} : strBytes s <+: strBytes t ↔ s <+: t := by
  constructor
  · rintro ⟨x, h⟩
    obtain ⟨r, rfl, _⟩ := strBytes_inj_append h
    exact ⟨r, rfl⟩
  · rintro ⟨r, rfl⟩
    exact ⟨strBytes r, by simp⟩

theorem strBytes_inj {s t : Str} (h : strBytes s = strBytes t) : s = t := by
  obtain ⟨r, rfl, hr⟩ := strBytes_inj_append (s := s) (t := t) (x := []) (by simpa using h)
  cases r with
  | nil => simp
  | cons c r =>
    simp [strBytes_cons] at hr

/-- Decodes a byte sequence of at most `n` characters. -/
def fromUtf8Aux : Nat → List UInt8 → Option Str
  | _, [] => some []
  | 0, _ :: _ => none
  | n + 1, b :: bs =>
    match ByteArray.utf8DecodeChar? (b :: bs).toByteArray 0 with
    | none => none
    | some c => (fromUtf8Aux n ((b :: bs).drop c.utf8Size)).map (c :: ·)

/-- `String::from_utf8(bytes)` (`.ok()`). -/
def fromUtf8 (bs : List UInt8) : Option Str := fromUtf8Aux bs.length bs

theorem fromUtf8Aux_strBytes : ∀ (s : Str) (n : Nat), s.length ≤ n → fromUtf8Aux n (strBytes s) = some s
  | [], n, _ => by cases n <;> rfl
  | c :: s, 0, h => by simp at h
  | c :: s, n + 1, h => by
    rw [strBytes_cons]
    cases hb : String.utf8EncodeChar c ++ strBytes s with
    | nil => simp at hb
    | cons b bs =>
      have hd := decode_encode_append c (strBytes s)
      rw [hb] at hd
      simp only [fromUtf8Aux, hd]
      have : (b :: bs).drop c.utf8Size = strBytes s := by
        rw [← hb, ← encodeChar_length c, List.drop_left]
      rw [this, fromUtf8Aux_strBytes s n (by simpa using h)]
      rfl

theorem length_le_blen (s : Str) : s.length ≤ blen s := by
  induction s with
  | nil => simp
  | cons c s ih => simp; have := c.utf8Size_pos; omega

theorem fromUtf8_strBytes (s : Str) : fromUtf8 (strBytes s) = some s :=
  fromUtf8Aux_strBytes s _ (by rw [length_strBytes]; exact length_le_blen s)

theorem encode_of_decode {bs : List UInt8} {c : Char}
    (h : ByteArray.utf8DecodeChar? bs.toByteArray 0 = some c) :
    bs = String.utf8EncodeChar c ++ bs.drop c.utf8Size := by
  have h1 := ByteArray.eq_of_utf8DecodeChar?_eq_some h
  have h2 : ∀ b : ByteArray, bs.toByteArray = (String.utf8EncodeChar c).toByteArray ++ b →
      bs = String.utf8EncodeChar c ++ b.data.toList := by
    intro b hb
    apply List.toByteArray_inj.1
    rw [hb, List.toByteArray_append]
    congr 1
    apply ByteArray.ext
    simp
  have h3 := h2 _ h1
  have h4 : bs.drop c.utf8Size = ((bs.toByteArray).extract c.utf8Size bs.toByteArray.size).data.toList := by
    conv => lhs; rw [h3, ← encodeChar_length c, List.drop_left, encodeChar_length c]
  rw [h4]; exact h3

theorem strBytes_of_fromUtf8Aux : ∀ (n : Nat) (bs : List UInt8) (s : Str),
    fromUtf8Aux n bs = some s → strBytes s = bs
  | n, [], s, h => by
    have : fromUtf8Aux n [] = some [] := by cases n <;> rfl
    rw [this] at h; cases h; rfl
  | 0, _ :: _, s, h => by simp [fromUtf8Aux] at h
  | n + 1, b :: bs, s, h => by
    simp only [fromUtf8Aux] at h
    split at h
    · cases h
    · rename_i c hc
      cases h1 : fromUtf8Aux n ((b :: bs).drop c.utf8Size) with
      | none => rw [h1] at h; cases h
      | some r =>
        rw [h1] at h
        cases h
        rw [strBytes_cons, strBytes_of_fromUtf8Aux n _ r h1]
        exact (encode_of_decode hc).symm

/-- `from_utf8` succeeds exactly on the bytes of a string and gives it back. -/
theorem fromUtf8_eq_some {bs : List UInt8} {s : Str} : fromUtf8 bs = some s ↔ strBytes s = bs :=
  ⟨strBytes_of_fromUtf8Aux _ bs s, fun h => h ▸ fromUtf8_strBytes s⟩

/-- `é` is two bytes; a lone continuation byte is not a string. -/
example : fromUtf8 [0x61, 0xC3, 0xA9] = some ['a', 'é'] ∧ fromUtf8 [0xA9] = none := by decide

end Tok
