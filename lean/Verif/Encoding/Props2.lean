import Verif.Encoding.Props

/-!
# Properties of truncation of pairs, padding and merging (C03–C05)
-/

namespace Tok
open Encoding

/-! ## C03 -/

theorem truncate_len {e e' : Encoding} (h : e.WF) {m st d} (ht : e.truncate m st d = some e') :
    e'.len = min m e.len := by
  rcases Nat.lt_or_ge m e.len with hl | hl
  · rcases Nat.eq_zero_or_pos m with h0 | h0
    · subst h0
      have := (C02_truncate_zero e e' st d hl ht).1
      omega
    · have hwf := truncate_wf h ht
      rw [← rows_length hwf.parallel]
      cases d with
      | right =>
        rw [(C02_truncate_right h h0 hl ht).1, List.length_take, rows_length h.parallel]
      | left =>
        rw [(C02_truncate_left h h0 hl ht).1, List.length_drop, rows_length h.parallel]
        omega
  · rw [C02_truncate_fits e m st d hl] at ht
    cases ht; omega

theorem orPanic_ok {α} {o : Option α} {a : α} : orPanic o = .ok a ↔ o = some a := by
  cases o <;> simp [orPanic]

theorem longestFirst_sum (a b m : Nat) (h : m < a + b) :
    (longestFirstLengths a b m).1 ≤ a ∧ (longestFirstLengths a b m).2 ≤ b ∧
    (longestFirstLengths a b m).1 + (longestFirstLengths a b m).2 = m := by
  unfold longestFirstLengths
  by_cases h1 : a > b <;> simp only [h1, decide_true, decide_false, if_true, Bool.false_eq_true,
      if_false]
  · by_cases h2 : b > m <;> simp only [h2, if_true, if_false]
    · by_cases h3 : b + b > m <;> simp only [h3, if_true, if_false] <;> omega
    · by_cases h3 : b + max b (m - b) > m <;> simp only [h3, if_true, if_false] <;> omega
  · by_cases h2 : a > m <;> simp only [h2, if_true, if_false]
    · by_cases h3 : a + a > m <;> simp only [h3, if_true, if_false] <;> omega
    · by_cases h3 : a + max a (m - a) > m <;> simp only [h3, if_true, if_false] <;> omega

/-- Number of tokens of an optional pair encoding. -/
def pairLen : Option Encoding → Nat
  | none => 0
  | some o => o.len

/-- **C03 (budget).** Whenever truncation of a single or paired input succeeds, the total is the
smaller of the original total and the limit: the limit is respected and nothing more than needed
is removed. -/
theorem C03_total_length {e : Encoding} {pair : Option Encoding} {p : TruncParams} {e' pair'}
    (he : e.WF) (hp : ∀ o, pair = some o → o.WF)
    (h : truncateEncodings e pair p = .ok (e', pair')) :
    e'.len + pairLen pair' = min p.maxLength (e.len + pairLen pair) ∧
    (pair'.isSome = pair.isSome) := by
  unfold truncateEncodings at h
  cases pair with
  | none =>
    simp only [Option.map_none, Option.getD_none, Nat.add_zero] at h
    split at h
    · rename_i h0
      simp only [bind, Except.bind] at h
      split at h
      · cases h
      · rename_i h1
        cases h
        rw [orPanic_ok] at h1
        have := truncate_len he h1
        simp [pairLen]; omega
    · split at h
      · rename_i hgt
        cases hs : p.strategy <;> simp only [hs] at h
        · simp only [bind, Except.bind] at h
          split at h
          · cases h
          · rename_i h1
            cases h
            rw [orPanic_ok] at h1
            have := truncate_len he h1
            simp [pairLen]; omega
        · split at h
          · simp only [bind, Except.bind] at h
            split at h
            · cases h
            · rename_i h1
              cases h
              rw [orPanic_ok] at h1
              have := truncate_len he h1
              simp [pairLen]; omega
          · cases h
        · cases h
      · cases h; simp [pairLen]; omega
  | some o =>
    have ho := hp o rfl
    simp only [Option.map_some, Option.getD_some] at h
    split at h
    · rename_i h0
      simp only [bind, Except.bind] at h
      split at h
      · cases h
      · rename_i h1
        split at h
        · cases h
        · rename_i h2
          cases h
          rw [orPanic_ok] at h1 h2
          have := truncate_len he h1
          have := truncate_len ho h2
          simp [pairLen]; omega
    · split at h
      · rename_i hgt
        cases hs : p.strategy <;> simp only [hs] at h
        · simp only [bind, Except.bind] at h
          split at h
          · cases h
          · rename_i h1
            split at h
            · cases h
            · rename_i h2
              cases h
              rw [orPanic_ok] at h1 h2
              have := truncate_len he h1
              have := truncate_len ho h2
              have := longestFirst_sum e.len o.len p.maxLength hgt
              simp [pairLen]; omega
        · split at h
          · simp only [bind, Except.bind] at h
            split at h
            · cases h
            · rename_i h1
              cases h
              rw [orPanic_ok] at h1
              have := truncate_len he h1
              simp [pairLen]; omega
          · cases h
        · split at h
          · simp only [bind, Except.bind] at h
            split at h
            · cases h
            · rename_i h1
              cases h
              rw [orPanic_ok] at h1
              have := truncate_len ho h1
              simp [pairLen]; omega
          · cases h
      · cases h; simp [pairLen]; omega

example : ∃ e' pair', truncateEncodings sampleEnc (some sampleEnc) ⟨4, .longestFirst, 1, .left⟩
    = .ok (e', pair') ∧ e'.len = 2 := ⟨_, _, rfl, rfl⟩

/-- **C03 (strategies).** When the two inputs together exceed a positive limit:
`OnlyFirst` leaves the second alone, `OnlySecond` leaves the first alone, and `LongestFirst` keeps
of each input `min(length, the other's leftover)`: the shorter one is untouched if it fits in half
of the limit, and otherwise both are cut to equal lengths up to one token. -/
theorem C03_only_first {e o : Encoding} {p : TruncParams} {e' pair'}
    (hs : p.strategy = .onlyFirst) (h0 : 0 < p.maxLength)
    (h : truncateEncodings e (some o) p = .ok (e', pair')) : pair' = some o := by
  unfold truncateEncodings at h
  rw [if_neg (by omega)] at h
  simp only [hs] at h
  split at h
  · split at h
    · simp only [bind, Except.bind] at h
      split at h <;> cases h
      rfl
    · cases h
  · cases h; rfl

theorem C03_only_second {e o : Encoding} {p : TruncParams} {e' pair'}
    (hs : p.strategy = .onlySecond) (h0 : 0 < p.maxLength)
    (h : truncateEncodings e (some o) p = .ok (e', pair')) : e' = e := by
  unfold truncateEncodings at h
  rw [if_neg (by omega)] at h
  simp only [hs] at h
  split at h
  · split at h
    · simp only [bind, Except.bind] at h
      split at h <;> cases h
      rfl
    · cases h
  · cases h; rfl

theorem C03_longest_first {e o : Encoding} {p : TruncParams} {e' o'}
    (he : e.WF) (ho : o.WF) (hs : p.strategy = .longestFirst)
    (hover : p.maxLength < e.len + o.len)
    (h : truncateEncodings e (some o) p = .ok (e', some o')) :
    (e'.len < e.len → o'.len ≤ e'.len + 1) ∧ (o'.len < o.len → e'.len ≤ o'.len + 1) := by
  have hb := C03_total_length he (fun x hx => by cases hx; exact ho) h
  have hb1 := hb.1
  simp only [pairLen] at hb1
  unfold truncateEncodings at h
  split at h
  · rename_i h0
    rw [h0] at hb1; omega
  · simp only [hs, Option.map_some, Option.getD_some] at h
    rw [if_pos hover] at h
    simp only [bind, Except.bind] at h
    split at h
    · cases h
    · rename_i h1
      split at h
      · cases h
      · rename_i h2
        cases h
        rw [orPanic_ok] at h1 h2
        have k1 := truncate_len he h1
        have k2 := truncate_len ho h2
        rw [k1, k2]
        generalize e.len = a at *
        generalize o.len = b at *
        generalize p.maxLength = m at *
        clear h1 h2 k1 k2 hb hb1 hs
        unfold longestFirstLengths
        by_cases h1 : a > b <;> simp only [h1, decide_true, decide_false, if_true,
          Bool.false_eq_true, if_false]
        · by_cases h2 : b > m <;> simp only [h2, if_true, if_false]
          · by_cases h3 : b + b > m <;> simp only [h3, if_true, if_false] <;> omega
          · by_cases h3 : b + max b (m - b) > m <;> simp only [h3, if_true, if_false] <;> omega
        · by_cases h2 : a > m <;> simp only [h2, if_true, if_false]
          · by_cases h3 : a + a > m <;> simp only [h3, if_true, if_false] <;> omega
          · by_cases h3 : a + max a (m - a) > m <;> simp only [h3, if_true, if_false] <;> omega

example : ∃ p : TruncParams, p.strategy = .longestFirst ∧
    p.maxLength < sampleEnc.len + sampleEnc.len ∧
    ∃ e' o', truncateEncodings sampleEnc (some sampleEnc) p = .ok (e', some o') :=
  ⟨⟨5, .longestFirst, 0, .right⟩, rfl, by decide, _, _, rfl⟩

/-- **C03 (errors).** Which error is reported, and when. -/
theorem C03_errors {e : Encoding} {pair : Option Encoding} {p : TruncParams} :
    (truncateEncodings e pair p = .error .secondSequenceNotProvided ↔
      pair = none ∧ p.strategy = .onlySecond ∧ 0 < p.maxLength ∧ p.maxLength < e.len) ∧
    (truncateEncodings e pair p = .error .sequenceTooShort ↔
      ∃ o, pair = some o ∧ 0 < p.maxLength ∧ p.maxLength < e.len + o.len ∧
        ((p.strategy = .onlyFirst ∧ p.maxLength ≤ o.len) ∨
          (p.strategy = .onlySecond ∧ p.maxLength ≤ e.len))) := by
  have hor : ∀ {α : Type} (x : Option α) (er : TruncError), orPanic x = .error er → er = .panic := by
    intro α x er h; cases x <;> simp [orPanic] at h; exact h.symm
  unfold truncateEncodings
  cases pair with
  | none =>
    simp only [Option.map_none, Option.getD_none, Nat.add_zero, reduceCtorEq, false_and,
      exists_false, true_and]
    split
    · rename_i h0
      simp only [bind, Except.bind, h0]
      cases h1 : orPanic (e.truncate 0 p.stride p.direction) with
      | error er => have := hor _ _ h1; subst this; simp
      | ok v => simp [pure, Except.pure]
    · split
      · rename_i h0 hgt
        cases hs : p.strategy <;> simp only [bind, Except.bind]
        · cases h1 : orPanic (e.truncate (e.len - (e.len - p.maxLength)) p.stride p.direction) with
          | error er => have := hor _ _ h1; subst this; simp
          | ok v => simp [pure, Except.pure]
        · rw [if_pos (by omega)]
          cases h1 : orPanic (e.truncate (e.len - (e.len - p.maxLength)) p.stride p.direction) with
          | error er => have := hor _ _ h1; subst this; simp
          | ok v => simp [pure, Except.pure]
        · simp; omega
      · simp; omega
  | some o =>
    simp only [Option.map_some, Option.getD_some, reduceCtorEq, false_and, Option.some.injEq,
      exists_eq_left']
    split
    · rename_i h0
      simp only [bind, Except.bind, h0]
      cases h1 : orPanic (e.truncate 0 p.stride p.direction) with
      | error er => have := hor _ _ h1; subst this; simp
      | ok v =>
        cases h2 : orPanic (o.truncate 0 p.stride p.direction) with
        | error er => have := hor _ _ h2; subst this; simp
        | ok v => simp [pure, Except.pure]
    · split
      · rename_i h0 hgt
        cases hs : p.strategy <;> simp only [bind, Except.bind]
        · cases h1 : orPanic (e.truncate (longestFirstLengths e.len o.len p.maxLength).1
              p.stride p.direction) with
          | error er => have := hor _ _ h1; subst this; simp
          | ok v =>
            cases h2 : orPanic (o.truncate (longestFirstLengths e.len o.len p.maxLength).2
              p.stride p.direction) with
            | error er => have := hor _ _ h2; subst this; simp
            | ok v => simp [pure, Except.pure]
        · split
          · cases h1 : orPanic (e.truncate (e.len - (e.len + o.len - p.maxLength)) p.stride
              p.direction) with
            | error er => have := hor _ _ h1; subst this; simp; omega
            | ok v => simp [pure, Except.pure]; omega
          · simp; omega
        · split
          · cases h1 : orPanic (o.truncate (o.len - (e.len + o.len - p.maxLength)) p.stride
              p.direction) with
            | error er => have := hor _ _ h1; subst this; simp; omega
            | ok v => simp [pure, Except.pure]; omega
          · simp; omega
      · simp; omega

/-- **C03 (finding).** A stride below the limit does not protect from the panic: with
`LongestFirst` each half may be cut to no more than the stride. -/
theorem C03_longest_first_can_panic :
    ∃ p : TruncParams, p.stride < p.maxLength ∧
      truncateEncodings sampleEnc (some sampleEnc) p = .error .panic :=
  ⟨⟨4, .longestFirst, 2, .right⟩, by decide, rfl⟩

/-! ## C04 -/

theorem rows_append {a1 a2 : List Nat} {b1 b2 : List Nat} {c1 c2 : List Str}
    {d1 d2 : List (Option Nat)} {f1 f2 : List Range} {g1 g2 h1 h2 : List Nat} {o o' o'' r r' r''}
    (h : (mk a1 b1 c1 d1 f1 g1 h1 o r).Parallel) :
    (mk (a1 ++ a2) (b1 ++ b2) (c1 ++ c2) (d1 ++ d2) (f1 ++ f2) (g1 ++ g2) (h1 ++ h2) o'' r'').rows =
    (mk a1 b1 c1 d1 f1 g1 h1 o r).rows ++ (mk a2 b2 c2 d2 f2 g2 h2 o' r').rows := by
  obtain ⟨k1, k2, k3, k4, k5, k6⟩ := h
  simp only [ids_mk, typeIds_mk, tokens_mk, words_mk, offsets_mk, specialMask_mk, attnMask_mk] at *
  simp only [rows, ids_mk, typeIds_mk, tokens_mk, words_mk, offsets_mk, specialMask_mk, attnMask_mk]
  rw [List.zip_append (l₁ := g1) (by omega), List.zip_append (l₁ := f1) (by simp; omega),
    List.zip_append (l₁ := d1) (by simp; omega), List.zip_append (l₁ := c1) (by simp; omega),
    List.zip_append (l₁ := b1) (by simp; omega), List.zip_append (l₁ := a1) (by simp; omega)]

/-- The row every padding token shows: no word, offsets (0,0), special, not attended. -/
def padRow (pt : PadTok) : Row := (pt.id, pt.typeId, pt.token, none, (0, 0), 1, 0)

theorem rows_replicate (n : Nat) (pt : PadTok) (o r) :
    (mk (List.replicate n pt.id) (List.replicate n pt.typeId) (List.replicate n pt.token)
      (List.replicate n none) (List.replicate n (0, 0)) (List.replicate n 1)
      (List.replicate n 0) o r).rows = List.replicate n (padRow pt) := by
  simp only [rows, ids_mk, typeIds_mk, tokens_mk, words_mk, offsets_mk, specialMask_mk, attnMask_mk]
  simp [List.zip_replicate', padRow]

theorem replicate_parallel (n : Nat) (pt : PadTok) (o r) :
    (mk (List.replicate n pt.id) (List.replicate n pt.typeId) (List.replicate n pt.token)
      (List.replicate n none) (List.replicate n (0, 0)) (List.replicate n 1)
      (List.replicate n 0) o r).Parallel := by
  simp [Parallel]

/-- **C04 (content).** Padding adds only padding tokens, only on the chosen side, as many as needed
to reach the target and none if the encoding is already that long; the existing tokens are
untouched. -/
theorem C04_pad_rows {e : Encoding} (h : e.WF) (n : Nat) (pt : PadTok) (d : Direction) :
    (e.pad n pt d).rows = match d with
      | .right => e.rows ++ List.replicate (n - e.len) (padRow pt)
      | .left => List.replicate (n - e.len) (padRow pt) ++ e.rows := by
  have hp := h.parallel
  rw [pad_eq]
  split
  · have : n - e.len = 0 := by omega
    rw [rows_setOverflowing, this]
    cases d <;> simp
  · cases d with
    | left =>
      cases e
      rw [rows_append (replicate_parallel _ _ [] []) (o' := []) (r' := []), rows_replicate]
      rfl
    | right =>
      cases e
      exact (rows_append hp (o' := []) (r' := [])).trans (by rw [rows_replicate])

/-- **C04 (length).** -/
theorem C04_pad_len {e : Encoding} (h : e.WF) (n : Nat) (pt : PadTok) (d : Direction) :
    (e.pad n pt d).len = max e.len n := by
  have hwf := pad_wf n pt d _ _ (Nat.le_refl _) h
  rw [← rows_length hwf.parallel, C04_pad_rows h]
  cases d <;> simp [rows_length h.parallel] <;> omega

/-- **C04 (overflow).** Every overflowing part is padded in the same way. -/
theorem C04_pad_overflow (e : Encoding) (n : Nat) (pt : PadTok) (d : Direction) :
    (e.pad n pt d).overflowing = e.overflowing.map fun o => o.pad n pt d := by
  rw [pad_eq]
  split
  · rw [setOverflowing_over]
  · cases d <;> rfl

/-- **C04 (ranges).** The recorded sequence ranges still designate the same tokens. -/
theorem C04_pad_ranges {e : Encoding} (h : e.WF) (n : Nat) (pt : PadTok) (d : Direction)
    {q : Nat} {r : Range} (hr : e.seqRanges.get q = some r) :
    ∃ r', (e.pad n pt d).seqRanges.get q = some r' ∧
      ((e.pad n pt d).rows.take r'.2).drop r'.1 = (e.rows.take r.2).drop r.1 := by
  have hin := h.ranges q r (AMap.mem_of_get_eq_some hr)
  have hlen := rows_length h.parallel
  rw [C04_pad_rows h]
  have hget : ∀ (k : Nat) (m : AMap Nat Range), m.get q = some r →
      AMap.get (m.map fun x => (x.1, (x.2.1 + k, x.2.2 + k))) q = some (r.1 + k, r.2 + k) := by
    intro k m
    induction m with
    | nil => intro h; cases h
    | cons x xs ih =>
      intro h
      unfold AMap.get at *
      by_cases hx : x.1 = q
      · simp [hx] at h ⊢; subst h; exact ⟨rfl, rfl⟩
      · simp only [List.map_cons, List.find?_cons, hx, decide_false] at h ⊢
        exact ih h
  by_cases hge : e.len ≥ n
  · refine ⟨r, ?_, ?_⟩
    · rw [pad_eq, if_pos hge]; cases e; exact hr
    · have : n - e.len = 0 := by omega
      cases d <;> simp [this]
  · cases d with
    | right =>
      refine ⟨r, ?_, ?_⟩
      · rw [pad_eq, if_neg hge]; exact hr
      · simp only []
        rw [List.take_append_of_le_length (by rw [hlen]; exact hin.2)]
    | left =>
      refine ⟨(r.1 + (n - e.len), r.2 + (n - e.len)), ?_, ?_⟩
      · rw [pad_eq, if_neg hge]; exact hget _ _ hr
      · have hge' : ¬ e.ids.length ≥ n := hge
        unfold len
        simp only []
        rw [List.take_append, List.drop_append]
        simp only [List.take_replicate, List.length_replicate, List.drop_replicate]
        have e1 : r.2 + (n - e.ids.length) - (n - e.ids.length) = r.2 := by omega
        have e2 : min (r.2 + (n - e.ids.length)) (n - e.ids.length) = n - e.ids.length := by omega
        have e3 : (n - e.ids.length) - (r.1 + (n - e.ids.length)) = 0 := by omega
        have e4 : r.1 + (n - e.ids.length) - (n - e.ids.length) = r.1 := by omega
        rw [e1, e2, e3, e4]; simp

theorem le_foldl_max (l : List Nat) : ∀ (a : Nat), a ≤ l.foldl max a ∧ ∀ x ∈ l, x ≤ l.foldl max a := by
  induction l with
  | nil => intro a; simp
  | cons y ys ih =>
    intro a
    have := ih (max a y)
    simp only [List.foldl_cons, List.mem_cons]
    refine ⟨by omega, ?_⟩
    rintro x (rfl | hx)
    · omega
    · exact this.2 x hx

theorem foldl_max_mem (l : List Nat) : ∀ (a : Nat), l.foldl max a = a ∨ l.foldl max a ∈ l := by
  induction l with
  | nil => intro a; simp
  | cons y ys ih =>
    intro a
    simp only [List.foldl_cons, List.mem_cons]
    rcases ih (max a y) with h | h
    · rw [h]; omega
    · exact .inr (.inr h)

/-- **C04 (batch).** With the "longest" strategy every encoding of the batch ends up with the same
length: the smallest multiple of `pad_to_multiple_of` (1 if unset or 0) that holds the longest one. -/
theorem C04_batch_longest {es : List Encoding} (h : ∀ e ∈ es, e.WF) (p : PadParams)
    (hs : p.strategy = .batchLongest) :
    ∃ n, (∀ e ∈ padEncodings es p, e.len = n) ∧ (∀ e ∈ es, e.len ≤ n) ∧
      (∀ m, p.multipleOf = some m → 0 < m → m ∣ n) ∧
      (∀ n', (∀ e ∈ es, e.len ≤ n') → (∀ m, p.multipleOf = some m → 0 < m → m ∣ n') → n ≤ n') := by
  refine ⟨padTarget es p, ?_⟩
  have hmax := le_foldl_max (es.map Encoding.len) 0
  have hmem := foldl_max_mem (es.map Encoding.len) 0
  have hle : ∀ e ∈ es, e.len ≤ (es.map Encoding.len).foldl max 0 := fun e he =>
    hmax.2 _ (List.mem_map.2 ⟨e, he, rfl⟩)
  have hleast : ∀ n', (∀ e ∈ es, e.len ≤ n') → (es.map Encoding.len).foldl max 0 ≤ n' := by
    intro n' hn
    rcases hmem with h0 | h0
    · omega
    · obtain ⟨e, he, hl⟩ := List.mem_map.1 h0
      have := hn e he; omega
  have htar : (es.map Encoding.len).foldl max 0 ≤ padTarget es p := by
    unfold padTarget
    simp only [hs]
    split
    · split <;> omega
    · exact Nat.le_refl _
  refine ⟨?_, fun e he => Nat.le_trans (hle e he) htar, ?_, ?_⟩
  · intro e he
    unfold padEncodings at he
    split at he
    · rename_i h0; simp at h0; subst h0; cases he
    · obtain ⟨x, hx, rfl⟩ := List.mem_map.1 he
      rw [C04_pad_len (h x hx)]
      have := hle x hx; omega
  · intro m hm hpos
    unfold padTarget
    simp only [hm, hs]
    generalize (es.map Encoding.len).foldl max 0 = k
    split
    · rename_i h1
      have h2 := Nat.mod_lt k hpos
      have h3 := Nat.div_add_mod k m
      refine ⟨k / m + 1, ?_⟩
      rw [Nat.mul_add]; omega
    · rename_i h1
      exact Nat.dvd_of_mod_eq_zero (by omega)
  · intro n' hn hm
    unfold padTarget
    simp only [hs]
    have hk := hleast n' hn
    generalize (es.map Encoding.len).foldl max 0 = k at *
    split
    · rename_i m hm'
      split
      · rename_i h1
        obtain ⟨c, rfl⟩ := hm m hm' h1.1
        have h2 := Nat.mod_lt k h1.1
        have h3 := Nat.div_add_mod k m
        have h4 : k / m < c := by
          rcases Nat.lt_or_ge (k / m) c with h5 | h5
          · exact h5
          · have := Nat.mul_le_mul_left m h5; omega
        have h6 : m * (k / m + 1) ≤ m * c := Nat.mul_le_mul_left m h4
        rw [Nat.mul_add] at h6; omega
      · exact hk
    · exact hk

/-- **C04 (fixed).** With the "fixed" strategy an encoding no longer than the target gets exactly
that length, rounded up to the multiple; a longer one is left as it is. -/
theorem C04_fixed {es : List Encoding} (h : ∀ e ∈ es, e.WF) (p : PadParams) {size : Nat}
    (hs : p.strategy = .fixed size) (hm : p.multipleOf = none) :
    (padEncodings es p).map len = es.map fun e => max e.len size := by
  unfold padEncodings padTarget
  simp only [hs, hm]
  split
  · rename_i h0; simp at h0; subst h0; rfl
  · rw [List.map_map]
    apply List.map_congr_left
    intro e he
    exact C04_pad_len (h e he) _ _ _

example : ∃ es : List Encoding, (∀ e ∈ es, e.WF) ∧ es.length = 2 ∧
    padTarget es ⟨.batchLongest, .right, some 8, ⟨0, 0, []⟩⟩ = 8 :=
  ⟨[sampleEnc, empty], by
    intro e he
    simp at he
    rcases he with rfl | rfl
    · exact C01_reachable_wf (.tokens _ _)
    · exact empty_wf, rfl, rfl⟩

/-! ## C05 -/

/-- Shift the offsets of a row. -/
def Row.shift (k : Nat) (r : Row) : Row :=
  (r.1, r.2.1, r.2.2.1, r.2.2.2.1, (r.2.2.2.2.1.1 + k, r.2.2.2.2.1.2 + k), r.2.2.2.2.2)

/-- End of the last token, 0 if there is none. -/
def lastEnd (e : Encoding) : Nat := (e.offsets.getLast?).elim 0 (·.2)

theorem rows_map_offsets (a b c d f g h o r o' r') (k : Nat) :
    (mk a b c d (f.map fun o : Range => (o.1 + k, o.2 + k)) g h o r).rows =
      (mk a b c d f g h o' r').rows.map (Row.shift k) := by
  simp only [rows, ids_mk, typeIds_mk, tokens_mk, words_mk, offsets_mk, specialMask_mk, attnMask_mk]
  simp only [List.zip]
  induction a generalizing b c d f g h with
  | nil => simp
  | cons a as ih =>
    cases b <;> cases c <;> cases d <;> cases f <;> cases g <;> cases h <;> simp [Row.shift]
    simpa [Row.shift] using ih _ _ _ _ _ _

/-- **C05 (tokens).** Merging appends the tokens of the second encoding after those of the first;
only the offsets of the second are shifted, by the end of the first, and only if asked for. -/
theorem C05_merge_rows {e p : Encoding} (he : e.WF) (g : Bool) :
    (e.mergeWith p g).rows =
      e.rows ++ p.rows.map (Row.shift (if g then lastEnd e else 0)) := by
  rw [mergeWith_eq]
  have h1 := he.parallel
  cases e; cases p
  unfold mergeFlat
  refine (rows_append h1 (o' := []) (r' := [])).trans ?_
  rw [rows_map_offsets (o' := []) (r' := [])]
  rfl

/-- **C05 (overflow).** The overflowing parts of a merge are exactly the merges of one part of the
first with one part of the second, other than main-with-main. -/
theorem C05_merge_overflow (e p o : Encoding) (g : Bool) :
    o ∈ (e.mergeWith p g).overflowing ↔
      ∃ a b, a ∈ e :: e.overflowing ∧ b ∈ p :: p.overflowing ∧ o = a.mergeWith b g ∧
        (a ∈ e.overflowing ∨ b ∈ p.overflowing) := by
  rw [mergeWith_eq]
  show o ∈ (e.overflowing.flatMap fun so => mergeWith so p g ::
          p.overflowing.map fun po => mergeWith so po g) ++
        p.overflowing.map (fun po => mergeWith e po g) ↔ _
  simp only [List.mem_append, List.mem_flatMap, List.mem_cons, List.mem_map]
  constructor
  · rintro (⟨so, hso, rfl | ⟨po, hpo, rfl⟩⟩ | ⟨po, hpo, rfl⟩)
    · exact ⟨so, p, .inr hso, .inl rfl, rfl, .inl hso⟩
    · exact ⟨so, po, .inr hso, .inr hpo, rfl, .inl hso⟩
    · exact ⟨e, po, .inl rfl, .inr hpo, rfl, .inr hpo⟩
  · rintro ⟨a, b, ha, hb, rfl, hab⟩
    by_cases h1 : a ∈ e.overflowing
    · rcases hb with rfl | hb
      · exact .inl ⟨a, h1, .inl rfl⟩
      · exact .inl ⟨a, h1, .inr ⟨b, hb, rfl⟩⟩
    · rcases ha with rfl | ha
      · rcases hab with h | h
        · exact absurd h h1
        · exact .inr ⟨b, h, rfl⟩
      · exact absurd ha h1

/-- **C05 (overflow count).** `(1 + a) * (1 + b) - 1` overflowing parts. -/
theorem C05_merge_overflow_count (e p : Encoding) (g : Bool) :
    (e.mergeWith p g).overflowing.length + 1 =
      (e.overflowing.length + 1) * (p.overflowing.length + 1) := by
  rw [mergeWith_eq]
  show ((e.overflowing.flatMap fun so => mergeWith so p g ::
          p.overflowing.map fun po => mergeWith so po g) ++
        p.overflowing.map (fun po => mergeWith e po g)).length + 1 = _
  rw [List.length_append, List.length_flatMap]
  simp only [List.length_cons, List.length_map, List.map_const', List.sum_replicate_nat]
  rw [Nat.add_mul]; omega

/-- Tokens of `merge` with offsets not growing: plain concatenation in order. -/
theorem C05_merge_list {es : List Encoding} (h : ∀ e ∈ es, e.WF) :
    (merge es false).rows = (es.map rows).flatten := by
  have shift0 : ∀ l : List Row, l.map (Row.shift 0) = l := by
    intro l
    conv => rhs; rw [← List.map_id l]
    rfl
  have : ∀ (l : List Encoding) (acc : Encoding), acc.WF → (∀ e ∈ l, WF e) →
      (l.foldl (fun acc s => acc.mergeWith s false) acc).rows = acc.rows ++ (l.map rows).flatten := by
    intro l
    induction l with
    | nil => intro acc _ _; simp
    | cons x xs ih =>
      intro acc ha hx
      have hx0 := hx x List.mem_cons_self
      rw [List.foldl_cons, ih _ (mergeWith_wf false _ _ _ (Nat.le_refl _) ha hx0)
        (fun y hy => hx y (List.mem_cons_of_mem _ hy)), C05_merge_rows ha]
      simp [shift0]
  exact this es empty empty_wf h

/-- The offsets of a row. -/
def Row.off (r : Row) : Range := r.2.2.2.2.1

/-- **C05 (growing offsets).** With growing offsets, if each encoding's offsets are in reading order,
so are those of the merge: no token of a later encoding starts before the end of an earlier one. -/
theorem C05_growing_sorted {e p : Encoding} (he : e.WF) 
    (hse : (e.rows.map Row.off).Pairwise (fun a b => a.2 ≤ b.1))
    (hin : ∀ o ∈ e.rows.map Row.off, o.1 ≤ o.2)
    (hsp : (p.rows.map Row.off).Pairwise (fun a b => a.2 ≤ b.1)) :
    ((e.mergeWith p true).rows.map Row.off).Pairwise (fun a b => a.2 ≤ b.1) := by
  rw [C05_merge_rows he]
  simp only [if_true, List.map_append]
  rw [List.pairwise_append]
  refine ⟨hse, ?_, ?_⟩
  · have : ((p.rows.map (Row.shift (lastEnd e))).map Row.off) =
        (p.rows.map Row.off).map fun o => (o.1 + lastEnd e, o.2 + lastEnd e) := by
      simp [List.map_map, Function.comp_def, Row.shift, Row.off]
    rw [this, List.pairwise_map]
    exact hsp.imp (fun h => by simp; omega)
  · intro a ha b hb
    have hb' : lastEnd e ≤ b.1 := by
      simp only [List.map_map, List.mem_map, Function.comp_apply] at hb
      obtain ⟨x, _, rfl⟩ := hb
      simp [Row.shift, Row.off]
    have ho : e.rows.map Row.off = e.offsets := by
      obtain ⟨h1, h2, h3, h4, h5, h6⟩ := he.parallel
      have : e.rows.map Row.off = ((((e.rows.map (·.2)).map (·.2)).map (·.2)).map (·.2)).map (·.1) := by
        simp [List.map_map, Function.comp_def, Row.off]
      rw [this]
      unfold rows
      rw [List.map_snd_zip (by simp; omega), List.map_snd_zip (by simp; omega),
        List.map_snd_zip (by simp; omega), List.map_snd_zip (by simp; omega),
        List.map_fst_zip (by simp; omega)]
    have hle : a.2 ≤ lastEnd e := by
      rw [ho] at ha hse hin
      unfold lastEnd
      cases hl : e.offsets.getLast? with
      | none => simp at hl; rw [hl] at ha; cases ha
      | some z =>
        simp only [Option.elim]
        obtain ⟨ys, hys⟩ := List.getLast?_eq_some_iff.1 hl
        rw [hys] at ha hse hin
        rw [List.pairwise_append] at hse
        rcases List.mem_append.1 ha with h | h
        · have := hse.2.2 a h z (by simp)
          have := hin z (by simp)
          omega
        · simp at h; subst h; exact Nat.le_refl _
    omega

example : ∃ e p : Encoding, e.WF ∧ (e.rows.map Row.off).Pairwise (fun a b => a.2 ≤ b.1) ∧
    (∀ o ∈ e.rows.map Row.off, o.1 ≤ o.2) ∧
    (p.rows.map Row.off).Pairwise (fun a b => a.2 ≤ b.1) ∧ p.len = 3 :=
  ⟨sampleEnc, sampleEnc, C01_reachable_wf (.tokens _ _), by decide, by decide, by decide, rfl⟩

end Tok
