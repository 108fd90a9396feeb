import Verif.Text.Lossy

/-!
# Decoding a piece of the bytes of a text

A text whose bytes are cut off somewhere is decoded to its first characters and at most one U+FFFD; if the beginning is cut off,
to at most three U+FFFD and its last characters.
-/

namespace Tok

theorem isCont_ofNat {n : Nat} (hn : n < 256) : isCont (UInt8.ofNat n) = (decide (0x80 ≤ n) && decide (n ≤ 0xBF)) := by
  have := between_ofNat (n := n) (lo := 0x80) (hi := 0xBF) hn (by omega) (by omega)
  simp only [UInt8.reduceOfNat] at this
  rw [isCont, this]

/-- The bytes of a character: one that is no continuation byte, then only such. -/
theorem encodeChar_conts (c : Char) : ∃ b bs, String.utf8EncodeChar c = b :: bs ∧ isCont b = false ∧ (∀ x ∈ bs, isCont x = true) ∧
    bs.length ≤ 3 := by
  have hsur : c.val.toNat < 0x110000 := by
    have hv : c.val.toNat < 0xd800 ∨ (0xdfff < c.val.toNat ∧ c.val.toNat < 0x110000) := c.valid
    omega
  unfold String.utf8EncodeChar
  generalize c.val.toNat = v at hsur
  simp only
  have no : ∀ n : Nat, n < 256 → (n < 0x80 ∨ 0xBF < n) → isCont (UInt8.ofNat n) = false := by
    intro n hn h
    rw [isCont_ofNat hn]
    simp; omega
  have yes : ∀ n : Nat, isCont (UInt8.ofNat (n % 64 + 0x80)) = true := by
    intro n
    rw [isCont_ofNat (by omega)]
    simp; omega
  repeat' split
  · exact ⟨_, _, rfl, no _ (by omega) (by omega), by simp, by simp⟩
  · refine ⟨_, _, rfl, no _ (by omega) (by omega), fun x hx => ?_, by simp⟩
    simp only [List.mem_cons, List.not_mem_nil, or_false] at hx
    subst hx; exact yes _
  · refine ⟨_, _, rfl, no _ (by omega) (by omega), fun x hx => ?_, by simp⟩
    simp only [List.mem_cons, List.not_mem_nil, or_false] at hx
    rcases hx with rfl | rfl <;> exact yes _
  · refine ⟨_, _, rfl, no _ (by omega) (by omega), fun x hx => ?_, by simp⟩
    simp only [List.mem_cons, List.not_mem_nil, or_false] at hx
    rcases hx with rfl | rfl | rfl <;> exact yes _

theorem badLen_cont {b : UInt8} (hb : isCont b = true) (bs : List UInt8) : badLen (b :: bs) = 1 := by
  have hb' : b.toNat ≤ 0xBF := by
    simp only [isCont, Bool.and_eq_true, decide_eq_true_eq, UInt8.le_iff_toNat_le] at hb
    exact hb.2
  cases bs with
  | nil => rfl
  | cons b1 rest =>
    rw [badLen, if_neg, if_neg]
    all_goals
      simp only [Bool.and_eq_true, decide_eq_true_eq, UInt8.le_iff_toNat_le]
      intro h
      have := h.1
      simp at this
      omega

theorem decode_cont {b : UInt8} (hb : isCont b = true) (bs : List UInt8) :
    ByteArray.utf8DecodeChar? (b :: bs).toByteArray 0 = none := by
  cases h : ByteArray.utf8DecodeChar? (b :: bs).toByteArray 0 with
  | none => rfl
  | some c =>
    have he := encode_of_decode h
    obtain ⟨x, xs, h1, h2, _⟩ := encodeChar_conts c
    rw [h1, List.cons_append] at he
    rw [(List.cons.inj he).1, h2] at hb
    cases hb

/-- Continuation bytes in front become one U+FFFD each. -/
theorem fromUtf8Lossy_conts : ∀ (l bs : List UInt8), (∀ x ∈ l, isCont x = true) →
    fromUtf8Lossy (l ++ bs) = List.replicate l.length '�' ++ fromUtf8Lossy bs
  | [], _, _ => rfl
  | b :: l, bs, h => by
    have hb := h b (by simp)
    rw [List.cons_append, fromUtf8Lossy_none (by simp) (decode_cont hb _), badLen_cont hb, List.drop_one, List.tail_cons,
      fromUtf8Lossy_conts l bs fun x hx => h x (by simp [hx])]
    rfl

theorem fromUtf8Lossy_char (c : Char) (bs : List UInt8) :
    fromUtf8Lossy (String.utf8EncodeChar c ++ bs) = c :: fromUtf8Lossy bs := by
  rw [fromUtf8Lossy_some (decode_encode_append c bs), ← encodeChar_length, List.drop_left]

/-- The first bytes of a text. -/
theorem fromUtf8Lossy_front : ∀ (s : Str) (bs : List UInt8), bs <+: strBytes s →
    ∃ k, k ≤ s.length ∧ (fromUtf8Lossy bs = s.take k ∨ k < s.length ∧ fromUtf8Lossy bs = s.take k ++ ['�'])
  | [], bs, h => by
    have : bs = [] := by simpa using h
    subst this
    exact ⟨0, Nat.le_refl _, .inl rfl⟩
  | c :: s, bs, ⟨r, h⟩ => by
    rw [strBytes_cons] at h
    rcases List.append_eq_append_iff.1 h with ⟨z, h1, h2⟩ | ⟨z, h1, h2⟩
    · by_cases hb : bs = []
      · subst hb; exact ⟨0, Nat.zero_le _, .inl rfl⟩
      by_cases hz : z = []
      · subst hz
        rw [List.append_nil] at h1
        have := fromUtf8Lossy_char c []
        rw [List.append_nil, h1] at this
        exact ⟨1, by simp, .inl (by rw [this]; rfl)⟩
      · refine ⟨0, Nat.zero_le _, .inr ⟨by simp, ?_⟩⟩
        have hd : ByteArray.utf8DecodeChar? bs.toByteArray 0 = none := by
          cases hd : ByteArray.utf8DecodeChar? bs.toByteArray 0 with
          | none => rfl
          | some d =>
            have he := encode_of_decode hd
            rw [he, List.append_assoc] at h1
            have := encodeChar_inj (c := c) (d := d) (x := []) (y := bs.drop d.utf8Size ++ z) (by rw [List.append_nil, h1])
            exact absurd (List.append_eq_nil_iff.1 this.2.symm).2 hz
        rw [fromUtf8Lossy_none hb hd, badLen_of_strict_prefix hb hz h1, List.drop_length]
        rfl
    · obtain ⟨k, k1, k2⟩ := fromUtf8Lossy_front s z ⟨r, h2.symm⟩
      refine ⟨k + 1, by simp; omega, ?_⟩
      rw [h1, fromUtf8Lossy_char]
      rcases k2 with k2 | ⟨k2, k3⟩
      · exact .inl (by rw [k2]; rfl)
      · exact .inr ⟨by simp; omega, by rw [k3]; rfl⟩

/-- The last bytes of a text. -/
theorem fromUtf8Lossy_back : ∀ (s : Str) (bs : List UInt8), bs <:+ strBytes s →
    ∃ j k, j ≤ 3 ∧ k ≤ s.length ∧ (j ≠ 0 → k ≠ 0) ∧ fromUtf8Lossy bs = List.replicate j '�' ++ s.drop k
  | [], bs, h => by
    have : bs = [] := by simpa using h
    subst this
    exact ⟨0, 0, by omega, Nat.le_refl _, by simp, rfl⟩
  | c :: s, bs, ⟨r, h⟩ => by
    by_cases hr : r = []
    · subst hr
      rw [List.nil_append] at h
      subst h
      exact ⟨0, 0, by omega, Nat.zero_le _, by simp, by rw [fromUtf8Lossy_strBytes]; rfl⟩
    rw [strBytes_cons] at h
    rcases List.append_eq_append_iff.1 h with ⟨z, h1, h2⟩ | ⟨z, h1, h2⟩
    · -- some bytes of the first character are left
      obtain ⟨b, l, g1, g2, g3, g4⟩ := encodeChar_conts c
      obtain ⟨r0, rs, rfl⟩ := List.exists_cons_of_ne_nil hr
      rw [g1, List.cons_append] at h1
      have hl := (List.cons.inj h1).2
      refine ⟨z.length, 1, ?_, by simp, by simp, ?_⟩
      · rw [hl] at g4; simp at g4; omega
      · rw [h2, fromUtf8Lossy_conts z _ fun x hx => g3 x (by rw [hl]; simp [hx]), fromUtf8Lossy_strBytes]
        rfl
    · obtain ⟨j, k, k1, k2, k3, k4⟩ := fromUtf8Lossy_back s bs ⟨z, h2.symm⟩
      exact ⟨j, k + 1, k1, by simp; omega, by simp, by rw [k4]; rfl⟩

/-- `héh` cut off inside `é`. -/
example : fromUtf8Lossy ((strBytes "héh".toList).take 2) = "h�".toList ∧
    fromUtf8Lossy ((strBytes "h€h".toList).drop 2) = "��h".toList := by decide +kernel

end Tok
