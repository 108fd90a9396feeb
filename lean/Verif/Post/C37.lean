import Verif.Post.Process

/-!
# C37: length limit, padding and failures of `post_process`
-/

namespace Tok.Post
open Encoding

/-- The number of tokens the post-processor says it will insert in this call. -/
def Settings.inserted (s : Settings) (pair : Option Encoding) (add : Bool) : Nat :=
  if add then s.added pair.isSome else 0

/-- Every processor used reports the number of tokens it inserts. -/
def Settings.WellCounted (s : Settings) : Prop := ∀ p, s.processor = some p → Post.WellCounted p

/-- Step 1 when the limit leaves room for the special tokens. -/
theorem truncate_room {checked : Bool} {s : Settings} {tr : TruncParams} {e : Encoding}
    {pair : Option Encoding} {add : Bool} (ht : s.truncation = some tr)
    (hroom : s.inserted pair add ≤ tr.maxLength) :
    s.truncate checked e pair add =
      truncateEncodings e pair { tr with maxLength := tr.maxLength - s.inserted pair add } := by
  unfold Settings.truncate
  rw [ht]
  show (if add && decide (0 < s.added pair.isSome) then _ else _) = _
  unfold Settings.inserted at *
  cases add with
  | false => simp
  | true =>
    simp only [if_true] at *
    by_cases h0 : 0 < s.added pair.isSome
    · simp only [h0, decide_true, Bool.and_self, if_true, usizeSub, if_pos hroom]
    · have : s.added pair.isSome = 0 := by omega
      simp [this]

/-- Step 2: the size of the result. -/
theorem finish_total {M : Encoding → Nat} (hM : Measure M) (ws : Char → Bool) {s : Settings}
    (hw : s.WellCounted) (e : Encoding) (pair : Option Encoding) (add : Bool) :
    ∃ out es', s.finish ws e pair add = some out ∧ (out = merge es' false ∨ es' = [out]) ∧
      total M es' = M e + pair.elim 0 M + s.inserted pair add := by
  unfold Settings.finish Settings.inserted Settings.added
  cases hp : s.processor with
  | none =>
    cases pair with
    | none => exact ⟨e, [e], rfl, .inr rfl, by simp [total]⟩
    | some o =>
      refine ⟨merge [e.setSequenceId 0, o.setSequenceId 1] false, _, rfl, .inl rfl, ?_⟩
      simp [total, hM.seq]
  | some p =>
    simp only [Proc.process]
    cases pair with
    | none =>
      obtain ⟨es', h1, h2⟩ := wellCounted_adds hM ws add (hw p hp) [prepare 0 e] (by simp)
      refine ⟨merge es' false, es', by simp [h1], .inl rfl, ?_⟩
      rw [h2]; simp [total, hM.prep]
    | some o =>
      obtain ⟨es', h1, h2⟩ := wellCounted_adds hM ws add (hw p hp) [prepare 0 e, prepare 1 o] (by simp)
      refine ⟨merge es' false, es', by simp [h1], .inl rfl, ?_⟩
      rw [h2]; simp [total, hM.prep]

theorem finish_len (ws : Char → Bool) {s : Settings} (hw : s.WellCounted) (e : Encoding)
    (pair : Option Encoding) (add : Bool) :
    ∃ out, s.finish ws e pair add = some out ∧
      out.len = e.len + pair.elim 0 len + s.inserted pair add := by
  obtain ⟨out, es', h1, h2, h3⟩ := finish_total measure_len ws hw e pair add
  refine ⟨out, h1, ?_⟩
  rw [← h3]
  rcases h2 with rfl | rfl
  · exact merge_len _ _
  · simp [total]

theorem le_widest {e o : Encoding} (h : o ∈ e.parts) : o.len ≤ widest e := by
  have := le_foldl_max (e.overflowing.map len) e.len
  rcases List.mem_cons.1 h with rfl | h
  · exact this.1
  · exact this.2 _ (List.mem_map.2 ⟨o, h, rfl⟩)

theorem each_le_widest {cs es : List Encoding} (h : Each (fun c e => c ∈ e.parts) cs es) :
    (cs.map len).sum ≤ total widest es := by
  induction h with
  | nil => simp [total]
  | cons h _ ih =>
    have := le_widest h
    simp only [total, List.map_cons, List.sum_cons] at *
    omega

theorem finish_widest (ws : Char → Bool) {s : Settings} (hw : s.WellCounted) (e : Encoding)
    (pair : Option Encoding) (add : Bool) {out} (h : s.finish ws e pair add = some out) :
    ∀ o ∈ out.parts, o.len ≤ widest e + pair.elim 0 widest + s.inserted pair add := by
  obtain ⟨out', es', h1, h2, h3⟩ := finish_total measure_widest ws hw e pair add
  rw [h] at h1; cases h1
  rw [← h3]
  intro o ho
  rcases h2 with rfl | rfl
  · obtain ⟨cs, hc, rfl⟩ := (C05_merge_list_parts _ _ _).1 ho
    rw [merge_len]
    exact each_le_widest hc
  · simpa [total] using le_widest ho

/-- **C54 (partial).** Bert, Roberta, byte-level, good templates, and sequences with at most one template
followed only by processors that add nothing, never fail and insert exactly as many tokens as they report
(`added_tokens`). What is missing is false: see `C54_template_then_bert`, `C54_two_templates` and
`C35_stale_count`. -/
theorem C54_counts_partial (ws : Char → Bool) {p : Proc} (hw : Post.WellCounted p) (e : Encoding)
    (pair : Option Encoding) (add : Bool) :
    ∃ out, p.process ws e pair add = some out ∧
      out.len = e.len + pair.elim 0 len + if add then p.added pair.isSome else 0 :=
  finish_len ws (s := ⟨none, none, some p⟩) (by intro q hq; cases hq; exact hw) e pair add

example : Post.WellCounted (.sequence [.bert sampleMarks, .byteLevel true true]) :=
  .keeps (.sequence (by
    intro q hq
    simp only [List.mem_cons, List.not_mem_nil, or_false] at hq
    rcases hq with rfl | rfl
    · exact .bert _
    · exact .byteLevel _ _))

/-! ## Length -/

theorem pairLen_elim (pair : Option Encoding) : pairLen pair = pair.elim 0 len := by
  cases pair <;> rfl

/-- **C37 (limit).** With truncation set, no padding and a limit leaving room for the special tokens, a
successful encoding has exactly as many tokens as the inputs and the inserted special tokens together,
or the limit if that is smaller. -/
theorem C37_length (ws : Char → Bool) (checked : Bool) {s : Settings} {tr : TruncParams} {e : Encoding}
    {pair : Option Encoding} {add : Bool} {out : Encoding} (hw : s.WellCounted)
    (ht : s.truncation = some tr) (hpad : s.padding = none) (he : e.WF)
    (hp : ∀ o, pair = some o → o.WF) (hroom : s.inserted pair add ≤ tr.maxLength)
    (h : s.postProcess ws checked e pair add = .ok out) :
    out.len = min tr.maxLength (e.len + pair.elim 0 len + s.inserted pair add) ∧
      out.len ≤ tr.maxLength := by
  unfold Settings.postProcess at h
  rw [truncate_room ht hroom] at h
  cases htr : truncateEncodings e pair { tr with maxLength := tr.maxLength - s.inserted pair add } with
  | error er => rw [htr] at h; cases h
  | ok r =>
    obtain ⟨e', pair'⟩ := r
    rw [htr] at h
    obtain ⟨h1, h2⟩ := C03_total_length he hp htr
    obtain ⟨out', h3, h4⟩ := finish_len ws hw e' pair' add
    simp only [h3] at h
    simp only [Settings.padOne, hpad, Except.ok.injEq] at h
    subst h
    have h5 : s.inserted pair' add = s.inserted pair add := by simp [Settings.inserted, h2]
    rw [pairLen_elim, pairLen_elim] at h1
    rw [h5, h1] at h4
    simp only at h4
    omega

/-- **C37 (no limit).** Without truncation and padding encoding never fails at this stage, and nothing
is removed. -/
theorem C37_untruncated (ws : Char → Bool) (checked : Bool) {s : Settings} (e : Encoding)
    (pair : Option Encoding) (add : Bool) (hw : s.WellCounted) (ht : s.truncation = none)
    (hpad : s.padding = none) :
    ∃ out, s.postProcess ws checked e pair add = .ok out ∧
      out.len = e.len + pair.elim 0 len + s.inserted pair add := by
  obtain ⟨out, h1, h2⟩ := finish_len ws hw e pair add
  refine ⟨out, ?_, h2⟩
  simp [Settings.postProcess, Settings.truncate, ht, h1, Settings.padOne, hpad]

/-- **C37 (failures).** Encoding fails at this stage exactly when truncating the inputs to the limit
minus the number of special tokens fails, with the same error. -/
theorem C37_fails_iff (ws : Char → Bool) (checked : Bool) {s : Settings} {tr : TruncParams} {e : Encoding}
    {pair : Option Encoding} {add : Bool} (hw : s.WellCounted) (ht : s.truncation = some tr)
    (hroom : s.inserted pair add ≤ tr.maxLength) (er : TruncError) :
    s.postProcess ws checked e pair add = .error er ↔
      truncateEncodings e pair { tr with maxLength := tr.maxLength - s.inserted pair add } = .error er := by
  unfold Settings.postProcess
  rw [truncate_room ht hroom]
  cases htr : truncateEncodings e pair { tr with maxLength := tr.maxLength - s.inserted pair add } with
  | error er' => simp
  | ok r =>
    obtain ⟨e', pair'⟩ := r
    obtain ⟨out', h3, _⟩ := finish_len ws hw e' pair' add
    simp [h3]

/-! ## Padding -/

/-- The length asked for by padding parameters, for an encoding of `n` tokens: the fixed size, or `n`,
rounded up to a multiple if there is one. -/
def Wanted (p : PadParams) (n t : Nat) : Prop :=
  let base := match p.strategy with
    | .fixed size => size
    | .batchLongest => n
  match p.multipleOf with
  | some (m + 1) => base ≤ t ∧ (m + 1) ∣ t ∧ ∀ t', base ≤ t' → (m + 1) ∣ t' → t ≤ t'
  | _ => t = base

theorem roundUp_least {n m : Nat} (hm : 0 < m) (t : Nat) (ht : t = if n % m > 0 then n + (m - n % m) else n) :
    n ≤ t ∧ m ∣ t ∧ ∀ t', n ≤ t' → m ∣ t' → t ≤ t' := by
  have hlt := Nat.mod_lt n hm
  have hdm := Nat.div_add_mod n m
  subst ht
  split
  · refine ⟨by omega, ⟨n / m + 1, by rw [Nat.mul_add]; omega⟩, ?_⟩
    rintro t' h1 ⟨k, rfl⟩
    have : n / m + 1 ≤ k := by
      rcases Nat.lt_or_ge k (n / m + 1) with h | h
      · have : m * k ≤ m * (n / m) := Nat.mul_le_mul_left _ (by omega)
        omega
      · exact h
    have := Nat.mul_le_mul_left m this
    rw [Nat.mul_add] at this
    omega
  · refine ⟨Nat.le_refl _, ⟨n / m, by omega⟩, fun t' h _ => h⟩

theorem padTarget_wanted (p : PadParams) (e : Encoding) : Wanted p e.len (padTarget [e] p) := by
  unfold Wanted padTarget
  cases hs : p.strategy <;> cases hm : p.multipleOf with
  | none => simp
  | some m =>
    cases m with
    | zero => simp
    | succ m =>
      refine roundUp_least (by omega) _ ?_
      simp

theorem pad_len (e : Encoding) (n : Nat) (pt : PadTok) (d : Direction) :
    (e.pad n pt d).len = max e.len n := by
  rw [pad_eq]
  split
  · cases e; simp only [setOverflowing, len, ids_mk] at *; omega
  · cases d <;> simp only [len, ids_mk, List.length_append, List.length_replicate] at * <;> omega

/-- **C37 (padding).** With padding set, the result is that of the same settings without padding, padded:
the same tokens with padding tokens on the configured side, up to the length asked for. -/
theorem C37_padded (ws : Char → Bool) (checked : Bool) {s : Settings} {p : PadParams} {e : Encoding}
    {pair : Option Encoding} {add : Bool} {out : Encoding} (hpad : s.padding = some p)
    (h : s.postProcess ws checked e pair add = .ok out) :
    ∃ out₀ t, { s with padding := none }.postProcess ws checked e pair add = .ok out₀ ∧
      Wanted p out₀.len t ∧ out.len = max out₀.len t ∧ out = out₀.pad t p.pt p.direction ∧
      out.overflowing.map len = out₀.overflowing.map fun o => max o.len t := by
  unfold Settings.postProcess at *
  have e1 : { s with padding := none }.truncate checked e pair add = s.truncate checked e pair add := rfl
  rw [e1]
  split at h
  · cases h
  · rename_i e' pair' htr
    have e2 : { s with padding := none }.finish ws e' pair' add = s.finish ws e' pair' add := rfl
    simp only [e2]
    split at h
    · cases h
    · rename_i o ho
      cases h
      refine ⟨o, padTarget [o] p, rfl, padTarget_wanted p o, ?_, ?_, ?_⟩
      · simp [Settings.padOne, hpad, padEncodings, pad_len]
      · simp [Settings.padOne, hpad, padEncodings]
      · simp [Settings.padOne, hpad, padEncodings, C04_pad_overflow, Function.comp_def, pad_len]

/-! ## Overflowing parts -/

theorem foldl_max_le {m : Nat} : ∀ (l : List Nat) (a : Nat), a ≤ m → (∀ x ∈ l, x ≤ m) → l.foldl max a ≤ m := by
  intro l
  induction l with
  | nil => intro a h _; exact h
  | cons x xs ih =>
    intro a h hx
    have := hx x List.mem_cons_self
    exact ih _ (by omega) fun y hy => hx y (List.mem_cons_of_mem _ hy)

theorem widest_nil {e : Encoding} (h : e.overflowing = []) : widest e = e.len := by
  simp [widest, h]

theorem truncate_widest {e e' : Encoding} (he : e.WF) (hov : e.overflowing = []) {m st d}
    (h0 : 0 < m ∨ e.len = 0) (ht : e.truncate m st d = some e') : widest e' ≤ min m e.len := by
  have hlen := truncate_len he ht
  rcases Nat.lt_or_ge m e.len with hl | hl
  · have hm : 0 < m := by omega
    have : ∀ o ∈ e'.overflowing, o.len ≤ m := by
      cases d with
      | right => exact fun o ho => ((C02_truncate_right he hm hl ht).2.2 o ho).2.1
      | left => exact fun o ho => ((C02_truncate_left he hm hl ht).2.2 o ho).2.1
    unfold widest
    refine foldl_max_le _ _ (by omega) ?_
    intro x hx
    obtain ⟨o, ho, rfl⟩ := List.mem_map.1 hx
    have := this o ho
    omega
  · unfold truncate at ht
    rw [if_pos hl] at ht
    cases ht
    rw [widest_nil hov]; omega

theorem longestFirst_zero {a b m : Nat} (hm : 2 ≤ m) :
    (0 < (longestFirstLengths a b m).1 ∨ a = 0) ∧ (0 < (longestFirstLengths a b m).2 ∨ b = 0) := by
  simp only [longestFirstLengths]
  split <;> split <;> split <;> simp_all <;> omega

/-- Truncation of inputs without overflowing parts leaves parts that together fit in the limit, whichever
parts are combined. -/
theorem truncateEncodings_widest {e : Encoding} {pair : Option Encoding} {p : TruncParams} {e' pair'}
    (he : e.WF) (hp : ∀ o, pair = some o → o.WF) (hov : e.overflowing = [])
    (hpov : ∀ o, pair = some o → o.overflowing = [])
    (hroom : (if pair.isSome then 2 else 1) ≤ p.maxLength)
    (h : truncateEncodings e pair p = .ok (e', pair')) :
    widest e' + pair'.elim 0 widest ≤ p.maxLength := by
  unfold truncateEncodings at h
  cases pair with
  | none =>
    simp only [Option.isSome_none, Bool.false_eq_true, if_false] at hroom
    simp only [Option.map_none, Option.getD_none, Nat.add_zero] at h
    rw [if_neg (by omega)] at h
    split at h
    · rename_i hgt
      cases hs : p.strategy <;> simp only [hs] at h
      · simp only [bind, Except.bind] at h
        split at h
        · cases h
        · rename_i h1
          cases h
          rw [orPanic_ok] at h1
          have := truncate_widest he hov (by omega) h1
          simp; omega
      · split at h
        · simp only [bind, Except.bind] at h
          split at h
          · cases h
          · rename_i h1
            cases h
            rw [orPanic_ok] at h1
            have := truncate_widest he hov (by omega) h1
            simp; omega
        · cases h
      · cases h
    · cases h; rw [widest_nil hov]; simp; omega
  | some o =>
    have ho := hp o rfl
    have hoo := hpov o rfl
    simp only [Option.isSome_some, if_true] at hroom
    simp only [Option.map_some, Option.getD_some] at h
    rw [if_neg (by omega)] at h
    split at h
    · rename_i hgt
      cases hs : p.strategy <;> simp only [hs] at h
      · simp only [bind, Except.bind] at h
        split at h
        · cases h
        · rename_i h1
          split at h
          · cases h
          · rename_i h2
            cases h
            rw [orPanic_ok] at h1 h2
            have hz := longestFirst_zero (a := e.len) (b := o.len) hroom
            have k1 := truncate_widest he hov hz.1 h1
            have k2 := truncate_widest ho hoo hz.2 h2
            have := longestFirst_sum e.len o.len p.maxLength hgt
            simp; omega
      · split at h
        · simp only [bind, Except.bind] at h
          split at h
          · cases h
          · rename_i h1
            cases h
            rw [orPanic_ok] at h1
            have := truncate_widest he hov (by omega) h1
            simp [widest_nil hoo]; omega
        · cases h
      · split at h
        · simp only [bind, Except.bind] at h
          split at h
          · cases h
          · rename_i h1
            cases h
            rw [orPanic_ok] at h1
            have := truncate_widest ho hoo (by omega) h1
            simp [widest_nil hov]; omega
        · cases h
    · cases h; simp [widest_nil hov, widest_nil hoo]; omega

/-- **C37 (overflowing parts).** The overflowing parts respect the limit too, provided the limit leaves
room for one token of each input. -/
theorem C37_overflow (ws : Char → Bool) (checked : Bool) {s : Settings} {tr : TruncParams} {e : Encoding}
    {pair : Option Encoding} {add : Bool} {out : Encoding} (hw : s.WellCounted)
    (ht : s.truncation = some tr) (hpad : s.padding = none) (he : e.WF)
    (hp : ∀ o, pair = some o → o.WF) (hov : e.overflowing = [])
    (hpov : ∀ o, pair = some o → o.overflowing = [])
    (hroom : (if pair.isSome then 2 else 1) + s.inserted pair add ≤ tr.maxLength)
    (h : s.postProcess ws checked e pair add = .ok out) :
    ∀ o ∈ out.overflowing, o.len ≤ tr.maxLength := by
  unfold Settings.postProcess at h
  rw [truncate_room ht (by omega)] at h
  cases htr : truncateEncodings e pair { tr with maxLength := tr.maxLength - s.inserted pair add } with
  | error er => rw [htr] at h; cases h
  | ok r =>
    obtain ⟨e', pair'⟩ := r
    rw [htr] at h
    obtain ⟨h1, h2⟩ := C03_total_length he hp htr
    have hwid := truncateEncodings_widest he hp hov hpov (by simp only; omega) htr
    obtain ⟨out', h3, _⟩ := finish_len ws hw e' pair' add
    simp only [h3] at h
    simp only [Settings.padOne, hpad, Except.ok.injEq] at h
    subst h
    have h5 : s.inserted pair' add = s.inserted pair add := by simp [Settings.inserted, h2]
    intro o ho
    have := finish_widest ws hw e' pair' add h3 o (List.mem_cons_of_mem _ ho)
    simp only at hwid
    omega

/-! ## Examples and findings -/

/-- Settings meeting the hypotheses: a sequence of byte-level and a template, truncation to 7 tokens, and
an input pair of 3 + 3 tokens. -/
example : ∃ t out, sampleTemplate = some t ∧
    (let s : Settings := ⟨some ⟨7, .longestFirst, 0, .right⟩, none,
        some (.sequence [.byteLevel true true, .template t])⟩
     s.WellCounted ∧ s.inserted (some sampleEnc) true = 3 ∧
     s.postProcess (fun _ => false) true sampleEnc (some sampleEnc) true = .ok out) ∧
    out.len = 7 ∧ out.overflowing.map len = [6, 5, 6] := by
  refine ⟨_, _, rfl, ⟨?_, by decide +kernel, rfl⟩, by decide +kernel, by decide +kernel⟩
  intro p hp
  cases hp
  refine .sequence (before := [.byteLevel true true]) (after := []) ?_ (.template ?_) (by simp)
  · intro q hq; simp at hq; subst hq; exact .byteLevel _ _
  · exact good_built (single := parseTemplate "[CLS] $A [SEP]".toList)
      (pair := parseTemplate "[CLS] $A [SEP] $B:1 [SEP]:1".toList)
      (spt := some (Tokens.ofList [⟨"[CLS]".toList, [1], ["[CLS]".toList]⟩,
        ⟨"[SEP]".toList, [0], ["[SEP]".toList]⟩])) rfl (by decide +kernel) (by decide +kernel)

/-- Padding to a multiple of 8 of a fixed size 10. -/
example : ∃ out, Settings.postProcess (fun _ => false) true ⟨none, some ⟨.fixed 10, .left, some 8, ⟨0, 0, []⟩⟩,
    some (.bert sampleMarks)⟩ sampleEnc none true = .ok out ∧ out.len = 16 := ⟨_, rfl, by decide +kernel⟩

/-- **C37 (finding).** A stride equal to the limit passes the check of `with_truncation` (whose message
says "greater than or equal"), and the next long input panics. -/
theorem C37_stride_equal : ∃ (s : Settings) (tr : TruncParams), s.truncationOk true tr = some true ∧
    { s with truncation := some tr }.postProcess (fun _ => false) true sampleEnc none true =
      .error .panic :=
  ⟨⟨none, none, none⟩, ⟨2, .longestFirst, 2, .right⟩, by decide +kernel, rfl⟩

/-- **C37 (finding).** When more special tokens are inserted than the limit allows, the subtraction
underflows: a panic with overflow checks, no truncation at all without. Such parameters pass
`with_truncation`, which looks at the single-input count only. -/
theorem C37_underflow : ∃ (s : Settings) (tr : TruncParams) (out : Encoding),
    s.truncationOk true tr = some true ∧
    { s with truncation := some tr }.postProcess (fun _ => false) true sampleEnc (some sampleEnc) true =
      .error .panic ∧
    { s with truncation := some tr }.postProcess (fun _ => false) false sampleEnc (some sampleEnc) true =
      .ok out ∧ tr.maxLength = 2 ∧ out.len = 9 :=
  ⟨⟨none, none, some (.bert sampleMarks)⟩, ⟨2, .longestFirst, 0, .right⟩, _, by decide +kernel, rfl, rfl,
    rfl, by decide +kernel⟩

/-- **C54 (finding).** A sequence of a template and Bert inserts more tokens than it reports (Bert marks
each of the three encodings the template has made), so the limit is not respected. -/
theorem C54_template_then_bert : ∃ t out, sampleTemplate = some t ∧
    Settings.postProcess (fun _ => false) true ⟨some ⟨6, .longestFirst, 0, .right⟩, none,
      some (.sequence [.template t, .bert sampleMarks])⟩ sampleEnc none true = .ok out ∧ out.len = 8 :=
  ⟨_, _, rfl, rfl, by decide +kernel⟩

/-- **C54 (finding).** Two templates in sequence panic (`todo!()`), the second one receiving three
encodings. -/
theorem C54_two_templates : ∃ t, sampleTemplate = some t ∧
    Settings.postProcess (fun _ => false) true ⟨none, none,
      some (.sequence [.template t, .template t])⟩ sampleEnc none true = .error .panic :=
  ⟨_, rfl, rfl⟩

/-- **C37 (finding).** With a limit equal to the number of special tokens everything overflows uncut: the
only overflowing part is longer than the limit. -/
theorem C37_zero_room_overflow : ∃ out,
    Settings.postProcess (fun _ => false) true ⟨some ⟨2, .longestFirst, 0, .right⟩, none,
      some (.bert sampleMarks)⟩ sampleEnc none true = .ok out ∧ out.len = 2 ∧
      out.overflowing.map len = [5] :=
  ⟨_, rfl, by decide +kernel, by decide +kernel⟩

/-- **Finding.** After a template, a byte-level processor numbers the encodings again: the tokens of the
only input (`A`) become sequence 1, the special tokens sequences 0 and 2. -/
theorem C06_byteLevel_after_template : ∃ t out, sampleTemplate = some t ∧
    (Proc.sequence [.template t, .byteLevel true true]).process (fun _ => false) sampleEnc none true =
      some out ∧ out.seqRanges.get 0 = some (1, 4) ∧ out.seqRanges.get 1 = some (1, 4) ∧
      out.seqRanges.get 2 = some (4, 5) :=
  ⟨_, _, rfl, rfl, by decide +kernel, by decide +kernel, by decide +kernel⟩

end Tok.Post
