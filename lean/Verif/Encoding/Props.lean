import Verif.Encoding.Lemmas

/-!
# Properties of encodings (C01–C05)
-/

namespace Tok
open Encoding

/-! ## C01 -/

/-- **C01.** Every encoding reachable through the public operations has seven vectors of the same
length, and so has every overflowing part at any depth. -/
theorem C01_reachable_wf {e : Encoding} (h : Reach e) : e.WF := by
  induction h with
  | default => exact empty_wf
  | tokens ts ty =>
    refine .intro _ ?_ ?_ ?_
    · simp [Parallel, fromTokens]
    · intro q r hm; cases hm
    · intro o ho; cases ho
  | items xs =>
    refine .intro _ ?_ ?_ ?_
    · simp [Parallel, fromItems]
    · intro q r hm; cases hm
    · intro o ho; cases ho
  | truncate _ _ _ _ ht ih => exact truncate_wf ih ht
  | mergeWith _ _ g ih1 ih2 => exact mergeWith_wf g _ _ _ (Nat.le_refl _) ih1 ih2
  | merge es _ g ih =>
    have : ∀ (l : List Encoding) (acc : Encoding), acc.WF → (∀ e ∈ l, WF e) →
        (l.foldl (fun acc s => acc.mergeWith s g) acc).WF := by
      intro l
      induction l with
      | nil => intro acc h _; exact h
      | cons x xs ih =>
        intro acc h hx
        exact ih _ (mergeWith_wf g _ _ _ (Nat.le_refl _) h (hx x List.mem_cons_self))
          (fun y hy => hx y (List.mem_cons_of_mem _ hy))
    exact this es _ empty_wf ih
  | pad _ n pt d ih => exact pad_wf n pt d _ _ (Nat.le_refl _) ih
  | @setSequenceId e _ q ih =>
    cases e
    refine .intro _ ih.parallel ?_ ih.over
    intro q' r hm
    rcases AMap.mem_insert hm with h | h
    · cases h; simp [Encoding.setSequenceId]
    · exact ih.ranges q' r h
  | @setTypeIds e _ ty ih =>
    have h1 := ih.parallel
    cases e
    refine .intro _ ?_ ih.ranges ih.over
    simp only [Parallel, Encoding.setTypeIds, len, ids_mk, typeIds_mk, tokens_mk, words_mk,
      offsets_mk, specialMask_mk, attnMask_mk, List.length_replicate] at *
    simp only [true_and]; exact h1.2
  | takeOverflowing _ ih => exact setOverflowing_wf ih (by intro o ho; cases ho)
  | overflowing _ ho ih => exact ih.over _ ho

/-- **C01**, spelled out for the top level. -/
theorem C01_parallel {e : Encoding} (h : Reach e) :
    e.typeIds.length = e.ids.length ∧ e.tokens.length = e.ids.length ∧
    e.words.length = e.ids.length ∧ e.offsets.length = e.ids.length ∧
    e.specialMask.length = e.ids.length ∧ e.attnMask.length = e.ids.length :=
  (C01_reachable_wf h).parallel

/-- Three tokens, used in the examples. -/
def sampleEnc : Encoding :=
  fromTokens [⟨1, ['a'], (0, 1)⟩, ⟨2, ['b'], (1, 2)⟩, ⟨3, ['c'], (2, 3)⟩] 0

/-- A reachable encoding that was really truncated, merged and padded. -/
example : ∃ e', sampleEnc.truncate 2 1 .right = some e' ∧ e'.overflowing.length = 1 ∧
    Reach ((e'.mergeWith sampleEnc true).pad 9 ⟨0, 0, []⟩ .left) :=
  have h : Reach sampleEnc := .tokens _ _
  have ht : sampleEnc.truncate 2 1 .right = some _ := rfl
  ⟨_, ht, rfl, .pad (.mergeWith (.truncate h 2 1 .right ht) h _) _ _ _⟩

/-! ## C02 -/

/-- Right windows tile the rows: each window after the first repeats exactly `stride` rows. -/
theorem winR_flatten {α} {m st : Nat} (hs : st < m) (L : List α) : ∀ {s ws}, WinR m st L.length s ws →
    (∀ w rest, ws = w :: rest → w.1 = s) ∧
    (ws.head?.elim [] fun w => (L.take w.2).drop w.1) ++
      (ws.tail.map fun w => ((L.take w.2).drop w.1).drop st).flatten = L.drop s := by
  intro s ws h
  induction h with
  | @last s h h' =>
    refine ⟨fun w rest h => by cases h; rfl, ?_⟩
    simp
  | @step s ws h hw ih =>
    refine ⟨fun w rest h => by cases h; rfl, ?_⟩
    obtain ⟨ih1, ih2⟩ := ih
    cases ws with
    | nil => cases hw
    | cons w rest =>
      have hw1 := ih1 w rest rfl
      simp only [List.head?_cons, Option.elim, List.tail_cons, List.map_cons, List.flatten_cons]
        at ih2 ⊢
      have hb := winR_bounds hw w List.mem_cons_self
      have hlen : st ≤ w.2 - w.1 := by
        cases hw with
        | last h h' => simp; omega
        | step h hw => simp; omega
      have e2 : ((L.take w.2).drop w.1).drop st ++
          (rest.map fun w => ((L.take w.2).drop w.1).drop st).flatten = L.drop (s + m) := by
        have := congrArg (List.drop st) ih2
        rw [List.drop_append_of_le_length] at this
        · rw [this, List.drop_drop]; congr 1; omega
        · simp; omega
      rw [e2]
      have : L.drop (s + m) = (L.drop s).drop m := by rw [List.drop_drop]
      rw [this]
      have : (L.take (s + m)).drop s = (L.drop s).take m := by
        rw [List.drop_take]; congr 1; omega
      rw [this, List.take_append_drop]

theorem winL_flatten {α} {m st : Nat} (hs : st < m) (L : List α) : ∀ {t ws}, t ≤ L.length →
    WinL m st t ws →
    (∀ w rest, ws = w :: rest → w.2 = t) ∧
    (ws.tail.reverse.map fun w => ((L.take w.2).drop w.1).take (w.2 - w.1 - st)).flatten ++
      (ws.head?.elim [] fun w => (L.take w.2).drop w.1) = L.take t := by
  intro t ws ht h
  induction h with
  | @last t h h' =>
    refine ⟨fun w rest h => by cases h; rfl, ?_⟩
    simp
  | @step t ws h hw ih =>
    refine ⟨fun w rest h => by cases h; rfl, ?_⟩
    obtain ⟨ih1, ih2⟩ := ih (by omega)
    cases ws with
    | nil => cases hw
    | cons w rest =>
      have hw1 := ih1 w rest rfl
      simp only [List.head?_cons, Option.elim, List.tail_cons, List.map_cons, List.flatten_cons,
        List.reverse_cons, List.map_append, List.map_nil, List.flatten_append, List.flatten_nil,
        List.append_nil] at ih2 ⊢
      have hb := winL_bounds hs hw w List.mem_cons_self
      have hlen : st ≤ w.2 - w.1 := by
        cases hw with
        | last h h' => simp; omega
        | step h hw => simp; omega
      have e2 : (rest.reverse.map fun w => ((L.take w.2).drop w.1).take (w.2 - w.1 - st)).flatten ++
          ((L.take w.2).drop w.1).take (w.2 - w.1 - st) = L.take (t - m) := by
        generalize hA : (rest.reverse.map fun w =>
          ((L.take w.2).drop w.1).take (w.2 - w.1 - st)).flatten = A at ih2 ⊢
        have hl := congrArg List.length ih2
        simp only [List.length_append, List.length_drop, List.length_take] at hl
        have := congrArg (List.take (A.length + (w.2 - w.1 - st))) ih2
        rw [List.take_length_add_append] at this
        rw [this, List.take_take]; congr 1; omega
      rw [e2]
      have : (L.take t).drop (t - m) = (L.drop (t - m)).take m := by
        rw [List.drop_take]; congr 1; omega
      rw [this]
      rw [show L.take t = L.take ((t - m) + m) by congr 1; omega, List.take_add]

theorem mapM_part_rows {e : Encoding} (hp : e.Parallel) : ∀ {rs : List Range} {os},
    (∀ r ∈ rs, r.1 ≤ r.2 ∧ r.2 ≤ e.len) → rs.mapM e.part = some os →
    os.map rows = rs.map fun r => (e.rows.take r.2).drop r.1 := by
  intro rs
  induction rs with
  | nil => intro os _ h; simp at h; subst h; rfl
  | cons r rs ih =>
    intro os hb h
    rw [List.mapM_cons] at h
    simp only [Option.bind_eq_bind, Option.bind_eq_some_iff, Option.pure_def, Option.some.injEq] at h
    obtain ⟨o, ho, os', hos', rfl⟩ := h
    have hr := hb r List.mem_cons_self
    rw [List.map_cons, List.map_cons, ih (fun x hx => hb x (List.mem_cons_of_mem _ hx)) hos',
      part_rows hp hr.1 hr.2 ho]

/-- **C02 (no panic).** `truncate` panics exactly when it has to cut, to a positive length not
larger than the stride. -/
theorem C02_truncate_panics_iff {e : Encoding} (h : e.WF) (maxLen stride : Nat) (d) :
    e.truncate maxLen stride d = none ↔ 0 < maxLen ∧ maxLen < e.len ∧ maxLen ≤ stride := by
  constructor
  · intro hn
    by_cases h1 : maxLen ≥ e.len
    · simp [truncate, h1] at hn
    · by_cases h2 : maxLen = 0
      · unfold truncate at hn; rw [if_neg h1, if_pos h2] at hn; cases hn
      · by_cases h3 : stride < maxLen
        · obtain ⟨_, _, _, _, _, _, _, h', _⟩ := truncate_cut h.parallel (by omega) h3 (by omega) d
          rw [h'] at hn; cases hn
        · omega
  · rintro ⟨h1, h2, h3⟩
    unfold truncate
    rw [if_neg (by omega), if_neg (by omega), if_pos (by omega)]

/-- **C02 (short input).** Nothing happens to an encoding that already fits. -/
theorem C02_truncate_fits (e : Encoding) (maxLen stride : Nat) (d) (h : e.len ≤ maxLen) :
    e.truncate maxLen stride d = some e := by
  unfold truncate; rw [if_pos h]

/-- **C02 (zero).** Truncating to zero leaves an empty encoding and moves everything to overflow. -/
theorem C02_truncate_zero (e e' : Encoding) (stride : Nat) (d) (h : 0 < e.len)
    (ht : e.truncate 0 stride d = some e') : e'.len = 0 ∧ e'.rows = [] ∧ e'.overflowing = [e] := by
  unfold truncate at ht
  rw [if_neg (by omega), if_pos rfl] at ht
  cases ht; exact ⟨rfl, rfl, rfl⟩

/-- **C02 (right).** When the encoding is cut on the right, the main part is the first `maxLen`
tokens; concatenating the main part with the overflowing parts, each without its first `stride`
tokens, gives back exactly the original tokens; every part has more than `stride` and at most
`maxLen` tokens; and no part carries nested overflow. -/
theorem C02_truncate_right {e e' : Encoding} (h : e.WF) {maxLen stride : Nat} (h0 : 0 < maxLen)
    (hl : maxLen < e.len) (ht : e.truncate maxLen stride .right = some e') :
    e'.rows = e.rows.take maxLen ∧
    e'.rows ++ (e'.overflowing.map fun o => o.rows.drop stride).flatten = e.rows ∧
    (∀ o ∈ e'.overflowing, stride < o.len ∧ o.len ≤ maxLen ∧ o.Parallel ∧ o.overflowing = []) := by
  have hs : stride < maxLen := by
    rcases Nat.lt_or_ge stride maxLen with h1 | h1
    · exact h1
    · rw [(C02_truncate_panics_iff h maxLen stride .right).2 ⟨h0, hl, h1⟩] at ht; cases ht
  obtain ⟨r, rs, main, ovs, hpr, hmain, hovs, htr, hb, hR, -⟩ := truncate_cut h.parallel h0 hs hl .right
  obtain ⟨hw, hr⟩ := hR rfl
  rw [htr] at ht; cases ht
  have hrb := hb r List.mem_cons_self
  have hm := part_rows h.parallel hrb.1 hrb.2 hmain
  rw [rows_setOverflowing, setOverflowing_over, hm]
  refine ⟨by rw [hr]; rfl, ?_, ?_⟩
  · have hmap := mapM_part_rows h.parallel (fun x hx => hb x (List.mem_cons_of_mem _ hx)) hovs
    have e1 : (ovs.map fun o => o.rows.drop stride) =
        rs.map fun w => ((e.rows.take w.2).drop w.1).drop stride := by
      have := congrArg (List.map (List.drop stride)) hmap
      simpa [List.map_map, Function.comp_def] using this
    rw [e1]
    have hlen : e.rows.length = e.len := rows_length h.parallel
    rw [← hlen] at hw
    have := (winR_flatten hs e.rows hw).2
    simpa using this
  · intro o ho
    obtain ⟨w, hwm, hwp⟩ := mapM_mem hovs o ho
    obtain ⟨hp, hov, _, hlen⟩ := part_parallel hwp
    have hbw := winR_bounds hw w (List.mem_cons_of_mem _ hwm)
    refine ⟨?_, by omega, hp, hov⟩
    have key : ∀ s ws, WinR maxLen stride e.len s ws → s + stride < e.len →
        ∀ w ∈ ws, stride < w.2 - w.1 := by
      intro s ws hws
      induction hws with
      | last h h' => intro hlt w hw; simp at hw; subst hw; simp; omega
      | step h hw ih =>
        intro hlt w hw'
        rcases List.mem_cons.1 hw' with rfl | h1
        · simp; omega
        · exact ih (by omega) w h1
    rw [hlen]
    exact key 0 _ hw (by omega) w (List.mem_cons_of_mem _ hwm)

/-- **C02 (left).** Mirror image: the main part is the last `maxLen` tokens and the overflowing
parts, from last to first and each without its last `stride` tokens, precede it. -/
theorem C02_truncate_left {e e' : Encoding} (h : e.WF) {maxLen stride : Nat} (h0 : 0 < maxLen)
    (hl : maxLen < e.len) (ht : e.truncate maxLen stride .left = some e') :
    e'.rows = e.rows.drop (e.len - maxLen) ∧
    (e'.overflowing.reverse.map fun o => o.rows.take (o.len - stride)).flatten ++ e'.rows = e.rows ∧
    (∀ o ∈ e'.overflowing, stride < o.len ∧ o.len ≤ maxLen ∧ o.Parallel ∧ o.overflowing = []) := by
  have hs : stride < maxLen := by
    rcases Nat.lt_or_ge stride maxLen with h1 | h1
    · exact h1
    · rw [(C02_truncate_panics_iff h maxLen stride .left).2 ⟨h0, hl, h1⟩] at ht; cases ht
  obtain ⟨r, rs, main, ovs, hpr, hmain, hovs, htr, hb, -, hL⟩ := truncate_cut h.parallel h0 hs hl .left
  obtain ⟨hw, hr⟩ := hL rfl
  rw [htr] at ht; cases ht
  have hrb := hb r List.mem_cons_self
  have hm := part_rows h.parallel hrb.1 hrb.2 hmain
  have hlen : e.rows.length = e.len := rows_length h.parallel
  rw [rows_setOverflowing, setOverflowing_over, hm]
  refine ⟨by rw [hr]; simp [← hlen], ?_, ?_⟩
  · have hmap : ∀ (rs : List Range) ovs, (∀ r ∈ rs, r.1 ≤ r.2 ∧ r.2 ≤ e.len) →
        rs.mapM e.part = some ovs → (ovs.map fun o => o.rows.take (o.len - stride)) =
          rs.map fun w => ((e.rows.take w.2).drop w.1).take (w.2 - w.1 - stride) := by
      intro rs
      induction rs with
      | nil => intro os _ h; simp at h; subst h; rfl
      | cons r rs ih =>
        intro os hb h'
        rw [List.mapM_cons] at h'
        simp only [Option.bind_eq_bind, Option.bind_eq_some_iff, Option.pure_def,
          Option.some.injEq] at h'
        obtain ⟨o, ho, os', hos', rfl⟩ := h'
        have hr := hb r List.mem_cons_self
        rw [List.map_cons, List.map_cons, ih os' (fun x hx => hb x (List.mem_cons_of_mem _ hx)) hos',
          part_rows h.parallel hr.1 hr.2 ho, (part_parallel ho).2.2.2]
    rw [List.map_reverse, hmap rs ovs (fun x hx => hb x (List.mem_cons_of_mem _ hx)) hovs,
      ← List.map_reverse]
    have := (winL_flatten hs e.rows (Nat.le_of_eq hlen.symm) hw).2
    rw [← hlen, List.take_length] at this
    simpa using this
  · intro o ho
    obtain ⟨w, hwm, hwp⟩ := mapM_mem hovs o ho
    obtain ⟨hp, hov, _, hlen⟩ := part_parallel hwp
    have hbw := winL_bounds hs hw w (List.mem_cons_of_mem _ hwm)
    refine ⟨?_, by omega, hp, hov⟩
    have key : ∀ t ws, WinL maxLen stride t ws → stride < t → ∀ w ∈ ws, stride < w.2 - w.1 := by
      intro t ws hws
      induction hws with
      | last h h' => intro hlt w hw; simp at hw; subst hw; simp; omega
      | step h hw ih =>
        intro hlt w hw'
        rcases List.mem_cons.1 hw' with rfl | h1
        · simp; omega
        · exact ih (by omega) w h1
    rw [hlen]
    exact key _ _ hw (by omega) w (List.mem_cons_of_mem _ hwm)

example : ∃ e e', WF e ∧ 0 < 2 ∧ 2 < e.len ∧ e.truncate 2 1 .right = some e' ∧
    e'.overflowing.length = 2 :=
  ⟨fromTokens [⟨1, ['a'], (0, 1)⟩, ⟨2, ['b'], (1, 2)⟩, ⟨3, ['c'], (2, 3)⟩, ⟨4, ['d'], (3, 4)⟩] 0, _,
    C01_reachable_wf (.tokens _ _), by decide, by decide, rfl, rfl⟩

example : ∃ e e', WF e ∧ 0 < 2 ∧ 2 < e.len ∧ e.truncate 2 1 .left = some e' ∧
    e'.overflowing.length = 2 :=
  ⟨fromTokens [⟨1, ['a'], (0, 1)⟩, ⟨2, ['b'], (1, 2)⟩, ⟨3, ['c'], (2, 3)⟩, ⟨4, ['d'], (3, 4)⟩] 0, _,
    C01_reachable_wf (.tokens _ _), by decide, by decide, rfl, rfl⟩

end Tok
