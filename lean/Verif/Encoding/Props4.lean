import Verif.Encoding.Props3

/-!
# Further properties of encodings (C02 overlap, C05 associativity and ranges, C07 absence)
-/

namespace Tok
open Encoding

/-- Consecutive elements of a list are related. -/
def Consecutive {α} (R : α → α → Prop) (l : List α) : Prop :=
  ∀ (i : Nat) x y, l[i]? = some x → l[i + 1]? = some y → R x y

theorem consecutive_cons {α} {R : α → α → Prop} {x y : α} {l : List α} (h : R x y)
    (hl : Consecutive R (y :: l)) : Consecutive R (x :: y :: l) := by
  intro i a b ha hb
  cases i with
  | zero => simp at ha hb; subst ha hb; exact h
  | succ i => exact hl i a b (by simpa using ha) (by simpa using hb)

theorem consecutive_single {α} {R : α → α → Prop} (x : α) : Consecutive R [x] := by
  intro i a b ha hb
  simp at hb

theorem winR_consecutive {m st n s ws} (h : WinR m st n s ws) :
    Consecutive (fun a b : Range => a.2 = a.1 + m ∧ b.1 = a.1 + (m - st)) ws ∧
      ∀ w rest, ws = w :: rest → w.1 = s := by
  induction h with
  | last h h' => exact ⟨consecutive_single _, fun w rest h => by cases h; rfl⟩
  | @step s ws h hw ih =>
    refine ⟨?_, fun w rest h => by cases h; rfl⟩
    cases ws with
    | nil => cases hw
    | cons w rest =>
      exact consecutive_cons ⟨rfl, by simpa using ih.2 w rest rfl⟩ ih.1

theorem winL_consecutive {m st t ws} (h : WinL m st t ws) :
    Consecutive (fun a b : Range => a.1 = a.2 - m ∧ m < a.2 ∧ b.2 = a.2 - (m - st)) ws ∧
      ∀ w rest, ws = w :: rest → w.2 = t := by
  induction h with
  | last h h' => exact ⟨consecutive_single _, fun w rest h => by cases h; rfl⟩
  | @step s ws h hw ih =>
    refine ⟨?_, fun w rest h => by cases h; rfl⟩
    cases ws with
    | nil => cases hw
    | cons w rest =>
      exact consecutive_cons ⟨rfl, h, by simpa using ih.2 w rest rfl⟩ ih.1

theorem mapM_get {α β} {f : α → Option β} : ∀ {l : List α} {l' : List β},
    l.mapM f = some l' → ∀ (i : Nat) b, l'[i]? = some b → ∃ a, l[i]? = some a ∧ f a = some b := by
  intro l
  induction l with
  | nil => intro l' h; simp at h; subst h; intro i b hb; simp at hb
  | cons a as ih =>
    intro l' h
    rw [List.mapM_cons] at h
    simp only [Option.bind_eq_bind, Option.bind_eq_some_iff, Option.pure_def, Option.some.injEq] at h
    obtain ⟨b, hb, bs, hbs, rfl⟩ := h
    intro i x hx
    cases i with
    | zero => simp at hx; subst hx; exact ⟨a, rfl, hb⟩
    | succ i => simpa using ih hbs i x (by simpa using hx)

/-- **C02 (overlap, right).** Two consecutive windows share exactly `stride` tokens: the last
`stride` tokens of one are the first `stride` of the next. Only the last window can be shorter than
`maxLen`. -/
theorem C02_overlap_right {e e' : Encoding} (h : e.WF) {maxLen stride : Nat} (h0 : 0 < maxLen)
    (hl : maxLen < e.len) (ht : e.truncate maxLen stride .right = some e') :
    Consecutive (fun a b : Encoding => a.len = maxLen ∧
      a.rows.drop (maxLen - stride) = b.rows.take stride) (e' :: e'.overflowing) := by
  have hs : stride < maxLen := by
    rcases Nat.lt_or_ge stride maxLen with h1 | h1
    · exact h1
    · rw [(C02_truncate_panics_iff h maxLen stride .right).2 ⟨h0, hl, h1⟩] at ht; cases ht
  obtain ⟨-, -, hov⟩ := C02_truncate_right h h0 hl ht
  obtain ⟨r, rs, main, ovs, hpr, hmain, hovs, htr, hb, hR, -⟩ :=
    truncate_cut h.parallel h0 hs hl .right
  obtain ⟨hw, hr⟩ := hR rfl
  rw [htr] at ht; cases ht
  rw [setOverflowing_over] at hov ⊢
  have hc := (winR_consecutive hw).1
  have hget : ∀ (i : Nat) x, (main.setOverflowing ovs :: ovs)[i]? = some x →
      ∃ w, (r :: rs)[i]? = some w ∧ x.rows = (e.rows.take w.2).drop w.1 ∧ x.len = w.2 - w.1 := by
    intro i x hx
    cases i with
    | zero =>
      simp at hx; subst hx
      have hrb := hb r List.mem_cons_self
      refine ⟨r, rfl, ?_, ?_⟩
      · rw [rows_setOverflowing]; exact part_rows h.parallel hrb.1 hrb.2 hmain
      · have := (part_parallel hmain).2.2.2
        cases main; exact this
    | succ i =>
      obtain ⟨w, hw', hp⟩ := mapM_get hovs i x (by simpa using hx)
      have hwm : w ∈ r :: rs := List.mem_cons_of_mem _ (List.mem_of_getElem? hw')
      have hrb := hb w hwm
      exact ⟨w, by simpa using hw', part_rows h.parallel hrb.1 hrb.2 hp, (part_parallel hp).2.2.2⟩
  intro i a b ha hb'
  obtain ⟨wa, hwa, ra, la⟩ := hget i a ha
  obtain ⟨wb, hwb, rb, lb⟩ := hget (i + 1) b hb'
  obtain ⟨c1, c2⟩ := hc i wa wb hwa hwb
  have hsb : stride < wb.2 - wb.1 := by
    rw [← lb]; exact (hov b (List.mem_of_getElem? (by simpa using hb'))).1
  refine ⟨by omega, ?_⟩
  rw [ra, rb, List.drop_drop, List.drop_take, List.drop_take, List.take_take]
  rw [c2]
  congr 1
  omega

/-- **C02 (overlap, left).** -/
theorem C02_overlap_left {e e' : Encoding} (h : e.WF) {maxLen stride : Nat} (h0 : 0 < maxLen)
    (hl : maxLen < e.len) (ht : e.truncate maxLen stride .left = some e') :
    Consecutive (fun a b : Encoding => a.len = maxLen ∧
      a.rows.take stride = b.rows.drop (b.len - stride)) (e' :: e'.overflowing) := by
  have hs : stride < maxLen := by
    rcases Nat.lt_or_ge stride maxLen with h1 | h1
    · exact h1
    · rw [(C02_truncate_panics_iff h maxLen stride .left).2 ⟨h0, hl, h1⟩] at ht; cases ht
  obtain ⟨-, -, hov⟩ := C02_truncate_left h h0 hl ht
  obtain ⟨r, rs, main, ovs, hpr, hmain, hovs, htr, hb, -, hL⟩ :=
    truncate_cut h.parallel h0 hs hl .left
  obtain ⟨hw, hr⟩ := hL rfl
  rw [htr] at ht; cases ht
  rw [setOverflowing_over] at hov ⊢
  have hc := (winL_consecutive hw).1
  have hget : ∀ (i : Nat) x, (main.setOverflowing ovs :: ovs)[i]? = some x →
      ∃ w, (r :: rs)[i]? = some w ∧ x.rows = (e.rows.take w.2).drop w.1 ∧ x.len = w.2 - w.1 := by
    intro i x hx
    cases i with
    | zero =>
      simp at hx; subst hx
      have hrb := hb r List.mem_cons_self
      refine ⟨r, rfl, ?_, ?_⟩
      · rw [rows_setOverflowing]; exact part_rows h.parallel hrb.1 hrb.2 hmain
      · have := (part_parallel hmain).2.2.2
        cases main; exact this
    | succ i =>
      obtain ⟨w, hw', hp⟩ := mapM_get hovs i x (by simpa using hx)
      have hwm : w ∈ r :: rs := List.mem_cons_of_mem _ (List.mem_of_getElem? hw')
      have hrb := hb w hwm
      exact ⟨w, by simpa using hw', part_rows h.parallel hrb.1 hrb.2 hp, (part_parallel hp).2.2.2⟩
  intro i a b ha hb'
  obtain ⟨wa, hwa, ra, la⟩ := hget i a ha
  obtain ⟨wb, hwb, rb, lb⟩ := hget (i + 1) b hb'
  obtain ⟨c1, c2, c3⟩ := hc i wa wb hwa hwb
  have hsb : stride < wb.2 - wb.1 := by
    rw [← lb]; exact (hov b (List.mem_of_getElem? (by simpa using hb'))).1
  refine ⟨by omega, ?_⟩
  rw [ra, rb, lb, List.drop_drop, List.drop_take, List.drop_take, List.take_take]
  have e1 : wb.1 + (wb.2 - wb.1 - stride) = wa.1 := by omega
  rw [e1]
  congr 1
  omega

/-- **C05 (associativity).** Without growing offsets the order of bracketing does not matter for
the tokens. -/
theorem C05_merge_assoc {a b c : Encoding} (ha : a.WF) (hb : b.WF) :
    ((a.mergeWith b false).mergeWith c false).rows =
      (a.mergeWith (b.mergeWith c false) false).rows := by
  have h1 := mergeWith_wf false _ _ _ (Nat.le_refl _) ha hb
  have shift0 : ∀ l : List Row, l.map (Row.shift 0) = l := by
    intro l
    conv => rhs; rw [← List.map_id l]
    rfl
  rw [C05_merge_rows h1, C05_merge_rows ha, C05_merge_rows ha, C05_merge_rows hb]
  simp [shift0]

/-- **C05 (sequence ranges).** A sequence of the second encoding is found after the merge at its old
range moved behind the first encoding; a sequence only the first encoding has stays where it was. -/
theorem C05_merge_ranges (e p : Encoding) (g : Bool) (q : Nat) (hp : AMap.WF p.seqRanges) :
    (e.mergeWith p g).seqRanges.get q =
      match p.seqRanges.get q with
      | some r => some (e.len + r.1, e.len + r.2)
      | none => e.seqRanges.get q := by
  rw [mergeWith_seqRanges, get_extend]
  have key : ((p.seqRanges.map fun x => (x.1, (e.len + x.2.1, e.len + x.2.2))).reverse.find?
      fun x => decide (x.1 = q)).map (·.2) =
      (p.seqRanges.get q).map fun r => (e.len + r.1, e.len + r.2) := by
    have hnd : AMap.WF (p.seqRanges.reverse) := by
      unfold AMap.WF at *; rw [List.map_reverse]; exact (List.reverse_perm _).nodup_iff.2 hp
    have hrev : AMap.get (p.seqRanges.reverse) q = p.seqRanges.get q := by
      cases hg : p.seqRanges.get q with
      | some r =>
        exact AMap.get_eq_some_of_mem hnd (List.mem_reverse.2 (AMap.mem_of_get_eq_some hg))
      | none =>
        cases hg' : AMap.get (p.seqRanges.reverse) q with
        | none => rfl
        | some r =>
          have := AMap.get_eq_some_of_mem hp (List.mem_reverse.1 (AMap.mem_of_get_eq_some hg'))
          rw [hg] at this; cases this
    rw [← hrev, ← List.map_reverse]
    unfold AMap.get
    rw [List.find?_map]
    simp only [Option.map_map, Function.comp_def]
  rw [key]
  cases p.seqRanges.get q <;> simp

example : ∃ p : Encoding, AMap.WF p.seqRanges ∧ p.seqRanges.get 1 = some (0, 3) :=
  ⟨sampleEnc.setSequenceId 1, by unfold AMap.WF; decide, rfl⟩

/-- **C07 (char to token, absent).** -/
theorem C07_char_to_token_none {e : Encoding} (h : e.WF) (pos q : Nat) :
    e.charToToken pos q = none ↔
      ∀ t, (e.sequenceRange q).1 ≤ t → t < (e.sequenceRange q).2 →
        ∀ o, e.offsets[t]? = some o → ¬ (o.1 ≤ pos ∧ pos < o.2) := by
  have hin := sequenceRange_inside h q
  have hlen := h.parallel.2.2.2.1
  unfold charToToken
  unfold len at hin
  simp only
  generalize e.sequenceRange q = r at *
  rw [slice?_eq_some hin.1 (by omega)]
  simp only [Option.map_eq_none_iff, List.findIdx?_eq_none_iff, decide_eq_false_iff_not]
  constructor
  · intro hall t h1 h2 o ho
    refine hall o ?_
    rw [List.mem_iff_getElem?]
    refine ⟨t - r.1, ?_⟩
    rw [List.getElem?_drop, List.getElem?_take]
    have : r.1 + (t - r.1) = t := by omega
    rw [this, if_pos h2]; exact ho
  · intro hall o ho
    obtain ⟨i, hi⟩ := List.mem_iff_getElem?.1 ho
    rw [List.getElem?_drop, List.getElem?_take] at hi
    split at hi
    · exact hall (r.1 + i) (by omega) (by assumption) o hi
    · cases hi

/-- **C07 (token lookups).** For a token of a labelled sequence the lookups return that token's own
entries. -/
theorem C07_token_lookups {e : Encoding} (h : e.WF) (hd : RangesDisjoint e) {q : Nat} {r : Range}
    (hr : (q, r) ∈ e.seqRanges) {t : Nat} (h1 : r.1 ≤ t) (h2 : t < r.2) :
    (∃ o, e.offsets[t]? = some o ∧ e.tokenToChars t = some (q, o)) ∧
    (∃ w, e.words[t]? = some w ∧ e.tokenToWord t = w.map fun w => (q, w)) := by
  have hq : e.tokenToSequence t = some q :=
    (C06_token_to_sequence_partial h hd (by intro h0; rw [h0] at hr; cases hr) t q).2 ⟨r, hr, h1, h2⟩
  have hb := h.ranges q r hr
  have hl1 := h.parallel.2.2.2.1
  have hl2 := h.parallel.2.2.1
  refine ⟨⟨e.offsets[t]'(by omega), List.getElem?_eq_getElem _, ?_⟩,
    ⟨e.words[t]'(by omega), List.getElem?_eq_getElem _, ?_⟩⟩
  · unfold tokenToChars; rw [hq, List.getElem?_eq_getElem (by omega)]
  · unfold tokenToWord; rw [hq, List.getElem?_eq_getElem (by omega)]
    cases e.words[t]'(by omega) <;> rfl

/-- **C07 (char to word).** The word of a character is the word of the token found for it. -/
theorem C07_char_to_word {e : Encoding} (h : e.WF) (hd : RangesDisjoint e) {q : Nat} {r : Range}
    (hk : AMap.WF e.seqRanges) (hr : (q, r) ∈ e.seqRanges) (pos : Nat) :
    e.charToWord pos q = match e.charToToken pos q with
      | none => none
      | some t => e.words[t]?.join := by
  unfold charToWord
  cases hc : e.charToToken pos q with
  | none => rfl
  | some t =>
    obtain ⟨h1, h2, _⟩ := (C07_char_to_token h pos q t).1 hc
    have : e.sequenceRange q = r := by
      unfold sequenceRange; rw [AMap.get_eq_some_of_mem hk hr]; rfl
    rw [this] at h1 h2
    obtain ⟨w, hw, hw'⟩ := (C07_token_lookups h hd hr h1 h2).2
    simp only [hw', hw, Option.join]
    cases w <;> rfl

example : (sampleWords.setSequenceId 1).charToWord 3 1 = some 1 ∧
    RangesDisjoint (sampleWords.setSequenceId 1) ∧ AMap.WF (sampleWords.setSequenceId 1).seqRanges ∧
    (1, (0, 3)) ∈ (sampleWords.setSequenceId 1).seqRanges := by
  refine ⟨by decide, ?_, by unfold AMap.WF; decide, by decide⟩
  intro q₁ r₁ q₂ r₂ h1 h2 _ _ _ _ _
  have e1 : (sampleWords.setSequenceId 1).seqRanges = [(1, (0, 3))] := rfl
  rw [e1] at h1 h2
  simp at h1 h2
  rw [h1.1, h2.1]

end Tok
