import Verif.BaseLemmas
import Verif.Encoding.Spec

namespace Tok
open Encoding

namespace Encoding

section accessors
variable (a b : List Nat) (c : List Str) (d : List (Option Nat)) (f : List Range)
  (g h : List Nat) (o : List Encoding) (r : AMap Nat Range)
@[simp] theorem ids_mk : (mk a b c d f g h o r).ids = a := rfl
@[simp] theorem typeIds_mk : (mk a b c d f g h o r).typeIds = b := rfl
@[simp] theorem tokens_mk : (mk a b c d f g h o r).tokens = c := rfl
@[simp] theorem words_mk : (mk a b c d f g h o r).words = d := rfl
@[simp] theorem offsets_mk : (mk a b c d f g h o r).offsets = f := rfl
@[simp] theorem specialMask_mk : (mk a b c d f g h o r).specialMask = g := rfl
@[simp] theorem attnMask_mk : (mk a b c d f g h o r).attnMask = h := rfl
@[simp] theorem overflowing_mk : (mk a b c d f g h o r).overflowing = o := rfl
@[simp] theorem seqRanges_mk : (mk a b c d f g h o r).seqRanges = r := rfl
end accessors

theorem WF.parallel {e : Encoding} (h : e.WF) : e.Parallel := by cases h; assumption
theorem WF.ranges {e : Encoding} (h : e.WF) : e.RangesInside := by cases h; assumption
theorem WF.over {e : Encoding} (h : e.WF) : ∀ o ∈ e.overflowing, WF o := by cases h; assumption

theorem rows_length {e : Encoding} (h : e.Parallel) : e.rows.length = e.len := by
  obtain ⟨h1, h2, h3, h4, h5, h6⟩ := h
  simp [rows, len, *]

/-! ## truncate: the window list -/

/-- Successive windows produced by the Right direction from position `s`. -/
inductive WinR (maxLen stride len : Nat) : Nat → List Range → Prop
  | last {s} (h : s < len) (h' : len ≤ s + maxLen) : WinR maxLen stride len s [(s, len)]
  | step {s ws} (h : s + maxLen < len) (hw : WinR maxLen stride len (s + (maxLen - stride)) ws) :
      WinR maxLen stride len s ((s, s + maxLen) :: ws)

/-- Successive windows produced by the Left direction ending at `t`. -/
inductive WinL (maxLen stride : Nat) : Nat → List Range → Prop
  | last {t} (h : 0 < t) (h' : t ≤ maxLen) : WinL maxLen stride t [(0, t)]
  | step {t ws} (h : maxLen < t) (hw : WinL maxLen stride (t - (maxLen - stride)) ws) :
      WinL maxLen stride t ((t - maxLen, t) :: ws)

theorem partsRight_true (m n : Nat) (l : List Nat) : partsRight m n true l = [] := by
  induction l with
  | nil => rfl
  | cons a as ih => simpa [partsRight] using ih

theorem partsLeft_true (m : Nat) (l : List Nat) : partsLeft m true l = [] := by
  induction l with
  | nil => rfl
  | cons a as ih => simpa [partsLeft] using ih

theorem stepByFrom_drop {α} (n : Nat) : ∀ (k : Nat) (l : List α),
    stepByFrom n k l = stepByFrom n 0 (l.drop k) := by
  intro k l
  induction l generalizing k with
  | nil => cases k <;> rfl
  | cons x xs ih =>
    cases k with
    | zero => rfl
    | succ k => rw [List.drop_succ_cons, ← ih k]; rfl

theorem stepBy_cons {α} (n : Nat) (x : α) (xs : List α) :
    stepBy n (x :: xs) = x :: stepBy n (xs.drop (n - 1)) := by
  unfold stepBy
  rw [← stepByFrom_drop]; rfl

theorem winR_partsRight (maxLen stride len : Nat) (hs : stride < maxLen) :
    ∀ n s, n = len - s → s < len →
      WinR maxLen stride len s
        (partsRight maxLen len false (stepBy (maxLen - stride) (List.range' s n))) := by
  intro n
  induction n using Nat.strongRecOn with
  | _ n ih =>
    intro s hn hlt
    obtain ⟨m, rfl⟩ : ∃ m, n = m + 1 := ⟨n - 1, by omega⟩
    rw [List.range'_succ, stepBy_cons, partsRight, List.drop_range']
    by_cases hc : len ≤ s + maxLen
    · rw [Nat.min_eq_right hc]
      simp only [beq_self_eq_true, partsRight_true]
      exact .last hlt hc
    · rw [Nat.min_eq_left (by omega)]
      have : (s + maxLen == len) = false := by simp; omega
      rw [this]
      refine .step (by omega) ?_
      have e1 : s + 1 + (maxLen - stride - 1) * 1 = s + (maxLen - stride) := by omega
      rw [e1]
      exact ih _ (by omega) _ (by omega) (by omega)

theorem winL_partsLeft (maxLen stride : Nat) (hs : stride < maxLen) :
    ∀ t, 0 < t →
      WinL maxLen stride t
        (partsLeft maxLen false (stepBy (maxLen - stride) (List.range t).reverse)) := by
  intro t
  induction t using Nat.strongRecOn with
  | _ t ih =>
    intro hpos
    obtain ⟨m, rfl⟩ : ∃ m, t = m + 1 := ⟨t - 1, by omega⟩
    rw [List.range_succ, List.reverse_append]
    simp only [List.reverse_cons, List.reverse_nil, List.nil_append, List.cons_append, stepBy_cons,
      partsLeft]
    have h1 : m + 1 - maxLen < m + 1 := by omega
    simp only [h1]
    by_cases hc : m + 1 ≤ maxLen
    · have h0 : m + 1 - maxLen = 0 := by omega
      simp only [h0, beq_self_eq_true, partsLeft_true]
      exact .last (by omega) hc
    · have h0 : (m + 1 - maxLen == 0) = false := by simp; omega
      rw [h0]
      refine .step (by omega) ?_
      have e1 : ((List.range m).reverse.drop (maxLen - stride - 1)) =
          (List.range (m + 1 - (maxLen - stride))).reverse := by
        rw [List.drop_reverse, List.length_range, List.take_range]
        congr 2; omega
      rw [e1]
      exact ih _ (by omega) (by omega)

theorem winR_bounds {m st n s ws} (h : WinR m st n s ws) :
    ∀ w ∈ ws, w.1 < w.2 ∧ w.2 ≤ n ∧ w.2 - w.1 ≤ m := by
  induction h with
  | last h h' => intro w hw; simp at hw; subst hw; simp; omega
  | @step s ws h hw ih =>
    intro w hw'
    rcases List.mem_cons.1 hw' with rfl | h1
    · simp
      refine ⟨?_, by omega⟩
      rcases Nat.eq_zero_or_pos m with h0 | h0
      · subst h0; exfalso
        -- the tail would be an infinite window list; but it is finite
        have : ∀ s ws, WinR 0 st n s ws → s < n → False := by
          intro s ws hw
          induction hw with
          | last h h' => intro _; omega
          | step h hw ih => intro h'; exact ih (by omega)
        exact this _ _ hw (by omega)
      · exact h0
    · exact ih w h1

theorem winL_bounds {m st t ws} (hst : st < m) (h : WinL m st t ws) :
    ∀ w ∈ ws, w.1 < w.2 ∧ w.2 ≤ t ∧ w.2 - w.1 ≤ m := by
  induction h with
  | last h h' => intro w hw; simp at hw; subst hw; simp; omega
  | @step s ws h hw ih =>
    intro w hw'
    rcases List.mem_cons.1 hw' with rfl | h1
    · simp; omega
    · have := ih w h1; omega

theorem part_some {e : Encoding} (hp : e.Parallel) {r : Range} (h : r.1 ≤ r.2)
    (h' : r.2 ≤ e.len) :
    e.part r = some (mk ((e.ids.take r.2).drop r.1) ((e.typeIds.take r.2).drop r.1)
      ((e.tokens.take r.2).drop r.1) ((e.words.take r.2).drop r.1)
      ((e.offsets.take r.2).drop r.1) ((e.specialMask.take r.2).drop r.1)
      ((e.attnMask.take r.2).drop r.1) [] []) := by
  obtain ⟨h1, h2, h3, h4, h5, h6⟩ := hp
  unfold len at h'
  unfold part
  rw [slice?_eq_some h h', slice?_eq_some h (by omega), slice?_eq_some h (by omega),
    slice?_eq_some h (by omega), slice?_eq_some h (by omega), slice?_eq_some h (by omega),
    slice?_eq_some h (by omega)]
  rfl

theorem part_parallel {e o : Encoding} {r : Range} (h : e.part r = some o) :
    o.Parallel ∧ o.overflowing = [] ∧ o.seqRanges = [] ∧ o.len = r.2 - r.1 := by
  simp only [part, Option.bind_eq_bind, Option.bind_eq_some_iff, slice?_some_iff, Option.pure_def,
    Option.some.injEq] at h
  obtain ⟨a, ⟨h1, rfl⟩, b, ⟨h2, rfl⟩, c, ⟨h3, rfl⟩, d, ⟨h4, rfl⟩, f, ⟨h5, rfl⟩, g, ⟨h6, rfl⟩,
    i, ⟨h7, rfl⟩, rfl⟩ := h
  simp only [Parallel, ids_mk, typeIds_mk, tokens_mk, words_mk, offsets_mk, specialMask_mk,
    attnMask_mk, overflowing_mk, seqRanges_mk, len, List.length_drop, List.length_take, true_and]
  omega

theorem part_rows {e o : Encoding} {r : Range} (hp : e.Parallel) (h : r.1 ≤ r.2)
    (h' : r.2 ≤ e.len) (ho : e.part r = some o) : o.rows = (e.rows.take r.2).drop r.1 := by
  rw [part_some hp h h'] at ho
  cases ho
  simp only [rows, ids, typeIds, tokens, words, offsets, specialMask, attnMask, List.zip,
    List.take_zipWith, List.drop_zipWith]

theorem part_wf {e o : Encoding} {r : Range} (h : e.part r = some o) : o.WF := by
  obtain ⟨h1, h2, h3, _⟩ := part_parallel h
  refine .intro _ h1 ?_ ?_
  · intro q r hm; rw [h3] at hm; cases hm
  · intro x hx; rw [h2] at hx; cases hx

theorem mapM_part {e : Encoding} (hp : e.Parallel) : ∀ (rs : List Range),
    (∀ r ∈ rs, r.1 ≤ r.2 ∧ r.2 ≤ e.len) → ∃ os, rs.mapM e.part = some os := by
  intro rs
  induction rs with
  | nil => intro _; exact ⟨[], rfl⟩
  | cons r rs ih =>
    intro h
    obtain ⟨os, hos⟩ := ih (fun x hx => h x (List.mem_cons_of_mem _ hx))
    have hr := h r List.mem_cons_self
    rw [List.mapM_cons, part_some hp hr.1 hr.2, hos]
    exact ⟨_, rfl⟩

theorem mapM_mem {α β} {f : α → Option β} : ∀ {l : List α} {l' : List β},
    l.mapM f = some l' → ∀ b ∈ l', ∃ a ∈ l, f a = some b := by
  intro l
  induction l with
  | nil => intro l' h; simp at h; subst h; intro b hb; cases hb
  | cons a as ih =>
    intro l' h
    rw [List.mapM_cons] at h
    simp only [Option.bind_eq_bind, Option.bind_eq_some_iff, Option.pure_def, Option.some.injEq] at h
    obtain ⟨b, hb, bs, hbs, rfl⟩ := h
    intro x hx
    rcases List.mem_cons.1 hx with rfl | hx
    · exact ⟨a, List.mem_cons_self, hb⟩
    · obtain ⟨a', ha', h'⟩ := ih hbs x hx
      exact ⟨a', List.mem_cons_of_mem _ ha', h'⟩

theorem rows_setOverflowing (e : Encoding) (ov) : (e.setOverflowing ov).rows = e.rows := by
  cases e; rfl

theorem setOverflowing_over (e : Encoding) (ov) : (e.setOverflowing ov).overflowing = ov := by
  cases e; rfl

theorem setOverflowing_parallel (e : Encoding) (ov) :
    (e.setOverflowing ov).Parallel ↔ e.Parallel := by cases e; rfl

theorem setOverflowing_ranges (e : Encoding) (ov) :
    (e.setOverflowing ov).RangesInside ↔ e.RangesInside := by cases e; rfl

theorem setOverflowing_wf {e : Encoding} (h : e.WF) {ov} (ho : ∀ o ∈ ov, WF o) :
    (e.setOverflowing ov).WF := by
  refine .intro _ ((setOverflowing_parallel e ov).2 h.parallel)
    ((setOverflowing_ranges e ov).2 h.ranges) ?_
  rw [setOverflowing_over]; exact ho

/-- The windows of a truncation that really cuts. -/
theorem partsRanges_cons {maxLen stride len : Nat} (hs : stride < maxLen) (hl : maxLen < len) (d) :
    ∃ r rs, partsRanges maxLen stride len d = r :: rs ∧
      (d = .right → WinR maxLen stride len 0 (r :: rs) ∧ r = (0, maxLen)) ∧
      (d = .left → WinL maxLen stride len (r :: rs) ∧ r = (len - maxLen, len)) := by
  cases d with
  | right =>
    have h := winR_partsRight maxLen stride len hs (len - 0) 0 rfl (by omega)
    rw [Nat.sub_zero, ← List.range_eq_range'] at h
    unfold partsRanges
    generalize partsRight maxLen len false (stepBy (maxLen - stride) (List.range len)) = ws at h
    cases h with
    | last h h' => omega
    | step h hw =>
      refine ⟨_, _, rfl, fun _ => ⟨.step h hw, by simp⟩, by simp⟩
  | left =>
    have h := winL_partsLeft maxLen stride hs len (by omega)
    unfold partsRanges
    generalize partsLeft maxLen false (stepBy (maxLen - stride) (List.range len).reverse) = ws at h
    cases h with
    | last h h' => omega
    | step h hw =>
      refine ⟨_, _, rfl, by simp, fun _ => ⟨.step h hw, rfl⟩⟩

/-- What a cutting `truncate` returns. -/
theorem truncate_cut {e : Encoding} (hp : e.Parallel) {maxLen stride : Nat} (h0 : 0 < maxLen)
    (hs : stride < maxLen) (hl : maxLen < e.len) (d) :
    ∃ r rs main ovs, partsRanges maxLen stride e.len d = r :: rs ∧ e.part r = some main ∧
      rs.mapM e.part = some ovs ∧
      e.truncate maxLen stride d = some (main.setOverflowing ovs) ∧
      (∀ w ∈ r :: rs, w.1 ≤ w.2 ∧ w.2 ≤ e.len) ∧
      (d = .right → WinR maxLen stride e.len 0 (r :: rs) ∧ r = (0, maxLen)) ∧
      (d = .left → WinL maxLen stride e.len (r :: rs) ∧ r = (e.len - maxLen, e.len)) := by
  obtain ⟨r, rs, h1, h2, h3⟩ := partsRanges_cons hs hl d
  have hb : ∀ w ∈ r :: rs, w.1 ≤ w.2 ∧ w.2 ≤ e.len := by
    intro w hw
    cases d with
    | right => have := winR_bounds (h2 rfl).1 w hw; omega
    | left => have := winL_bounds hs (h3 rfl).1 w hw; omega
  obtain ⟨os, hos⟩ := mapM_part hp rs (fun w hw => hb w (List.mem_cons_of_mem _ hw))
  have hr := hb r List.mem_cons_self
  refine ⟨r, rs, _, os, h1, part_some hp hr.1 hr.2, hos, ?_, hb, h2, h3⟩
  unfold truncate
  rw [if_neg (by omega), if_neg (by omega), if_neg (by simpa using hs), h1]
  simp only [part_some hp hr.1 hr.2, hos]
  rfl

theorem truncate_wf {e e' : Encoding} (he : e.WF) {maxLen stride d}
    (h : e.truncate maxLen stride d = some e') : e'.WF := by
  unfold truncate at h
  split at h
  · cases h; exact he
  · split at h
    · cases h
      refine .intro _ ?_ ?_ ?_
      · simp [Parallel, ids, typeIds, tokens, words, offsets, specialMask, attnMask]
      · intro q r hm; cases hm
      · intro o ho; simp [overflowing] at ho; subst ho; exact he
    · split at h
      · cases h
      · split at h
        · cases h
        · simp only [Option.bind_eq_bind, Option.bind_eq_some_iff, Option.pure_def,
            Option.some.injEq] at h
          obtain ⟨m, hm, os, hos, rfl⟩ := h
          refine setOverflowing_wf (part_wf hm) ?_
          intro o ho
          obtain ⟨r, _, hr⟩ := mapM_mem hos o ho
          exact part_wf hr

/-! ## merge -/

theorem mergeFlat_parallel {e p : Encoding} (he : e.Parallel) (hp : p.Parallel) (g ov) :
    (mergeFlat e p g ov).Parallel := by
  obtain ⟨h1, h2, h3, h4, h5, h6⟩ := he
  obtain ⟨k1, k2, k3, k4, k5, k6⟩ := hp
  simp [Parallel, mergeFlat, ids, typeIds, tokens, words, offsets, specialMask, attnMask] at *
  omega

theorem mergeFlat_ranges {e p : Encoding} (he : e.RangesInside) (hp : p.RangesInside) (g ov) :
    (mergeFlat e p g ov).RangesInside := by
  intro q r hm
  have hids : (mergeFlat e p g ov).ids.length = e.ids.length + p.ids.length := by
    simp [mergeFlat, ids]
  rw [hids]
  have hm' : (q, r) ∈ AMap.extend e.seqRanges
    (p.seqRanges.map fun x => (x.1, (e.len + x.2.1, e.len + x.2.2))) := hm
  rcases AMap.mem_extend hm' with h | h
  · have := he q r h; omega
  · rw [List.mem_map] at h
    obtain ⟨x, hx, hx'⟩ := h
    cases hx'
    have := hp x.1 x.2 hx
    simp only [len]; omega

theorem mergeWith_eq (e p : Encoding) (g : Bool) : e.mergeWith p g =
    mergeFlat e p g
      ((e.overflowing.flatMap fun so => mergeWith so p g ::
          p.overflowing.map fun po => mergeWith so po g) ++
        p.overflowing.map fun po => mergeWith e po g) := by
  rw [mergeWith]
  congr 1
  congr 1
  · rw [List.flatMap_subtype (g := fun so => mergeWith so p g ::
      p.overflowing.map fun po => mergeWith so po g)]
    · simp
    · intro x hx
      congr 1
      rw [List.map_subtype (g := fun po => mergeWith x po g)]
      · simp
      · intro y hy; rfl
  · rw [List.map_subtype (g := fun po => mergeWith e po g)]
    · simp
    · intro y hy; rfl

theorem mergeWith_wf (g : Bool) : ∀ (n : Nat) (e p : Encoding), sizeOf e + sizeOf p ≤ n →
    e.WF → p.WF → (e.mergeWith p g).WF := by
  intro n
  induction n with
  | zero =>
    intro e p h; cases e; cases p; simp only [mk.sizeOf_spec] at h; omega
  | succ n ih =>
    intro e p h he hp
    rw [mergeWith_eq]
    refine .intro _ (mergeFlat_parallel he.parallel hp.parallel _ _)
      (mergeFlat_ranges he.ranges hp.ranges _ _) ?_
    intro o ho
    have ho' : o ∈ (e.overflowing.flatMap fun so => mergeWith so p g ::
          p.overflowing.map fun po => mergeWith so po g) ++
        p.overflowing.map fun po => mergeWith e po g := ho
    simp only [List.mem_append, List.mem_flatMap, List.mem_cons, List.mem_map] at ho'
    rcases ho' with ⟨so, hso, rfl | ⟨po, hpo, rfl⟩⟩ | ⟨po, hpo, rfl⟩
    · have := sizeOf_mem_overflowing hso
      exact ih _ _ (by omega) (he.over _ hso) hp
    · have := sizeOf_mem_overflowing hso
      have := sizeOf_mem_overflowing hpo
      exact ih _ _ (by omega) (he.over _ hso) (hp.over _ hpo)
    · have := sizeOf_mem_overflowing hpo
      exact ih _ _ (by omega) he (hp.over _ hpo)

theorem empty_wf : empty.WF := by
  refine .intro _ ?_ ?_ ?_
  · simp [Parallel, empty, ids, typeIds, tokens, words, offsets, specialMask, attnMask]
  · intro q r hm; cases hm
  · intro o ho; cases ho

/-! ## pad -/

theorem pad_eq (e : Encoding) (target : Nat) (pt : PadTok) (dir : Direction) : e.pad target pt dir =
    if e.len ≥ target then e.setOverflowing (e.overflowing.map fun o => pad o target pt dir)
    else
      match dir with
      | .left =>
        mk (List.replicate (target - e.len) pt.id ++ e.ids)
          (List.replicate (target - e.len) pt.typeId ++ e.typeIds)
          (List.replicate (target - e.len) pt.token ++ e.tokens)
          (List.replicate (target - e.len) none ++ e.words)
          (List.replicate (target - e.len) (0, 0) ++ e.offsets)
          (List.replicate (target - e.len) 1 ++ e.specialMask)
          (List.replicate (target - e.len) 0 ++ e.attnMask)
          (e.overflowing.map fun o => pad o target pt dir)
          (e.seqRanges.map fun x => (x.1, (x.2.1 + (target - e.len), x.2.2 + (target - e.len))))
      | .right =>
        mk (e.ids ++ List.replicate (target - e.len) pt.id)
          (e.typeIds ++ List.replicate (target - e.len) pt.typeId)
          (e.tokens ++ List.replicate (target - e.len) pt.token)
          (e.words ++ List.replicate (target - e.len) none)
          (e.offsets ++ List.replicate (target - e.len) (0, 0))
          (e.specialMask ++ List.replicate (target - e.len) 1)
          (e.attnMask ++ List.replicate (target - e.len) 0)
          (e.overflowing.map fun o => pad o target pt dir) e.seqRanges := by
  have : (e.overflowing.attach.map fun o => pad o.1 target pt dir) =
      e.overflowing.map fun o => pad o target pt dir := by
    rw [List.map_subtype (g := fun o => pad o target pt dir)]
    · simp
    · intro y hy; rfl
  rw [pad]
  simp only [this]
  split
  · rfl
  · cases dir <;> rfl

theorem pad_wf (target : Nat) (pt : PadTok) (dir : Direction) : ∀ (n : Nat) (e : Encoding),
    sizeOf e ≤ n → e.WF → (e.pad target pt dir).WF := by
  intro n
  induction n with
  | zero => intro e h; cases e; simp only [mk.sizeOf_spec] at h; omega
  | succ n ih =>
    intro e h he
    have hov : ∀ o ∈ e.overflowing.map (fun o => pad o target pt dir), WF o := by
      intro o ho
      obtain ⟨x, hx, rfl⟩ := List.mem_map.1 ho
      have := sizeOf_mem_overflowing hx
      exact ih _ (by omega) (he.over _ hx)
    rw [pad_eq]
    split
    · exact setOverflowing_wf he hov
    · obtain ⟨h1, h2, h3, h4, h5, h6⟩ := he.parallel
      cases dir with
      | left =>
        refine .intro _ ?_ ?_ hov
        · simp only [Parallel, ids, typeIds, tokens, words, offsets, specialMask, attnMask,
            List.length_append, List.length_replicate] at *
          omega
        · intro q r hm
          have hm' : (q, r) ∈ (e.seqRanges.map fun x =>
            (x.1, (x.2.1 + (target - e.len), x.2.2 + (target - e.len)))) := hm
          obtain ⟨x, hx, hx'⟩ := List.mem_map.1 hm'
          cases hx'
          have := he.ranges x.1 x.2 hx
          simp [ids] at *; omega
      | right =>
        refine .intro _ ?_ ?_ hov
        · simp only [Parallel, ids, typeIds, tokens, words, offsets, specialMask, attnMask,
            List.length_append, List.length_replicate] at *
          omega
        · intro q r hm
          have := he.ranges q r hm
          simp [ids] at *; omega

end Encoding
end Tok
