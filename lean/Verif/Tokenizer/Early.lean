import Verif.Tokenizer.Fast
import Verif.Post.C37

/-!
# C38: stopping tokenization early does not change the encoding
-/

namespace Tok
open Encoding

/-! ## The end of a list that is kept -/

/-- The first `k` elements when cutting on the right, the last `k` when cutting on the left. -/
def kept {α : Type} (d : Direction) (k : Nat) (l : List α) : List α :=
  match d with
  | .right => l.take k
  | .left => l.drop (l.length - k)

theorem kept_length {α : Type} (d : Direction) (k : Nat) (l : List α) : (kept d k l).length = min k l.length := by
  cases d
  · simp only [kept, List.length_drop]; omega
  · simp only [kept, List.length_take]

theorem kept_all {α : Type} (d : Direction) {k : Nat} {l : List α} (h : l.length ≤ k) : kept d k l = l := by
  cases d
  · simp only [kept, show l.length - k = 0 by omega, List.drop_zero]
  · simp only [kept, List.take_of_length_le h]

theorem kept_kept {α : Type} (d : Direction) {k n : Nat} (h : k ≤ n) (l : List α) :
    kept d k (kept d n l) = kept d k l := by
  cases d
  · simp only [kept, List.length_drop, List.drop_drop]
    congr 1; omega
  · simp only [kept, List.take_take]
    congr 1; omega

theorem kept_map {α β : Type} (d : Direction) (k : Nat) (f : α → β) (l : List α) :
    kept d k (l.map f) = (kept d k l).map f := by
  cases d
  · simp only [kept, List.length_map, List.map_drop]
  · simp only [kept, List.map_take]

/-- Equal ends of two lists make equal ends of their concatenations. -/
theorem kept_append {α : Type} (d : Direction) {n : Nat} {a a' b b' : List α} (ha : kept d n a' = kept d n a)
    (hb : kept d n b' = kept d n b) (hal : a.length ≤ n → a'.length ≤ a.length)
    (hbl : b.length ≤ n → b'.length ≤ b.length) : kept d n (a' ++ b') = kept d n (a ++ b) := by
  have la := congrArg List.length ha
  have lb := congrArg List.length hb
  rw [kept_length, kept_length] at la lb
  cases d with
  | right =>
    by_cases h : a.length ≤ n
    · have : a' = a := by rw [kept_all _ h, kept_all _ (by omega)] at ha; exact ha
      subst this
      have := congrArg (kept .right (n - a'.length)) hb
      rw [kept_kept _ (by omega), kept_kept _ (by omega)] at this
      simp only [kept] at this ⊢
      rw [List.take_append, List.take_append, this]
    · simp only [kept] at ha ⊢
      rw [List.take_append, List.take_append, ha, show n - a'.length = 0 by omega, show n - a.length = 0 by omega]
      simp
  | left =>
    by_cases h : b.length ≤ n
    · have : b' = b := by rw [kept_all _ h, kept_all _ (by omega)] at hb; exact hb
      subst this
      have := congrArg (kept .left (n - b'.length)) ha
      rw [kept_kept _ (by omega), kept_kept _ (by omega)] at this
      simp only [kept, List.length_append] at this ⊢
      rw [List.drop_append, List.drop_append, show a'.length + b'.length - n - a'.length = 0 by omega,
        show a.length + b'.length - n - a.length = 0 by omega,
        show a'.length + b'.length - n = a'.length - (n - b'.length) by omega, this,
        show a.length + b'.length - n = a.length - (n - b'.length) by omega]
    · simp only [kept, List.length_append] at hb ⊢
      rw [List.drop_append, List.drop_append, List.drop_of_length_le (show a'.length ≤ _ by omega),
        List.drop_of_length_le (show a.length ≤ _ by omega),
        show a'.length + b'.length - n - a'.length = b'.length - n by omega,
        show a.length + b.length - n - a.length = b.length - n by omega, hb]

/-! ## Encodings with the same main part -/

/-- The same ids, type ids, tokens, offsets, masks and sequence ranges (and word indices, if `w`); nothing is said
about the overflowing parts. -/
structure SameMain (w : Bool) (e e' : Encoding) : Prop where
  ids : e.ids = e'.ids
  typeIds : e.typeIds = e'.typeIds
  tokens : e.tokens = e'.tokens
  offsets : e.offsets = e'.offsets
  specialMask : e.specialMask = e'.specialMask
  attnMask : e.attnMask = e'.attnMask
  seqRanges : e.seqRanges = e'.seqRanges
  words : w = true → e.words = e'.words

theorem SameMain.surround {w : Bool} {e e' : Encoding} (h : SameMain w e e') (b a : List (Str × Nat))
    {inner inner' : List Nat} (hi : inner = inner') (ty q : Nat) (ov ov' : List Encoding) :
    SameMain w (Post.surround b a inner ty q ov e) (Post.surround b a inner' ty q ov' e') := by
  subst hi
  unfold Post.surround
  refine ⟨?_, rfl, ?_, ?_, ?_, ?_, ?_, fun hw => ?_⟩
  · show _ ++ e.ids ++ _ = _ ++ e'.ids ++ _; rw [h.ids]
  · show _ ++ e.tokens ++ _ = _ ++ e'.tokens ++ _; rw [h.tokens]
  · show _ ++ e.offsets ++ _ = _ ++ e'.offsets ++ _; rw [h.offsets]
  · show _ ++ List.replicate e.ids.length 0 ++ _ = _ ++ List.replicate e'.ids.length 0 ++ _; rw [h.ids]
  · show List.replicate (_ + e.ids.length + _) 1 = List.replicate (_ + e'.ids.length + _) 1; rw [h.ids]
  · show [(q, (_, _ + e.ids.length))] = [(q, (_, _ + e'.ids.length))]; rw [h.ids]
  · show _ ++ e.words ++ _ = _ ++ e'.words ++ _; rw [h.words hw]

theorem SameMain.len {w : Bool} {e e' : Encoding} (h : SameMain w e e') : e.len = e'.len := by
  rw [Encoding.len, Encoding.len, h.ids]

theorem SameMain.setTypeIds {w : Bool} {e e' : Encoding} (h : SameMain w e e') (ts : List Nat) :
    SameMain w (e.setTypeIds ts) (e'.setTypeIds ts) := by
  obtain ⟨h1, h2, h3, h4, h5, h6, h7, h8⟩ := h
  cases e; cases e'
  exact ⟨h1, rfl, h3, h4, h5, h6, h7, h8⟩

theorem SameMain.setSequenceId {w : Bool} {e e' : Encoding} (h : SameMain w e e') (q : Nat) :
    SameMain w (e.setSequenceId q) (e'.setSequenceId q) := by
  obtain ⟨h1, h2, h3, h4, h5, h6, h7, h8⟩ := h
  cases e; cases e'
  refine ⟨h1, h2, h3, h4, h5, h6, ?_, h8⟩
  simp only [Encoding.ids, Encoding.seqRanges] at h1 h7
  show AMap.insert _ _ _ = AMap.insert _ _ _
  rw [h1, h7]

theorem SameMain.setOverflowing {w : Bool} {e e' : Encoding} (h : SameMain w e e') (ov ov' : List Encoding) :
    SameMain w (e.setOverflowing ov) (e'.setOverflowing ov') := by
  obtain ⟨h1, h2, h3, h4, h5, h6, h7, h8⟩ := h
  cases e; cases e'
  exact ⟨h1, h2, h3, h4, h5, h6, h7, h8⟩

theorem SameMain.processOffsets {w : Bool} {e e' : Encoding} (h : SameMain w e e') (ws : Char → Bool) (aps : Bool) :
    SameMain w (ByteLevel.processOffsets ws aps e) (ByteLevel.processOffsets ws aps e') := by
  obtain ⟨h1, h2, h3, h4, h5, h6, h7, h8⟩ := h
  cases e; cases e'
  refine ⟨h1, h2, h3, ?_, h5, h6, h7, h8⟩
  simp only [Encoding.tokens, Encoding.offsets] at h3 h4
  simp only [ByteLevel.processOffsets, Encoding.offsets, h3, h4]

theorem withOverflowing_eq (f : List Encoding → List Encoding) (e : Encoding) :
    ByteLevel.withOverflowing f e = e.setOverflowing (f e.overflowing) := by cases e; rfl

/-- Every step of post-processing keeps the relation. -/
theorem sameMain_cong (w : Bool) : Cong (SameMain w) where
  refl _ := ⟨rfl, rfl, rfl, rfl, rfl, rfl, rfl, fun _ => rfl⟩
  len := SameMain.len
  types h ts := h.setTypeIds ts
  seq h q := h.setSequenceId q
  prep := by
    intro e e' h i
    unfold Post.prepare
    have h1 := (h.setSequenceId i).setOverflowing ((e.setSequenceId i).overflowing.map (·.setSequenceId i))
      ((e'.setSequenceId i).overflowing.map (·.setSequenceId i))
    simp only
    rw [h1.len]
    exact h1.setTypeIds _
  bert1 h m := h.surround _ _ h.typeIds _ _ _ _
  bert2 h m := h.surround _ _ h.typeIds _ _ _ _
  roberta1 h m := h.surround _ _ h.typeIds _ _ _ _
  roberta2 h m := h.surround _ _ (by rw [h.ids]) _ _ _ _
  trim := by
    intro e e' h ws aps
    unfold Post.trimAll
    rw [withOverflowing_eq, withOverflowing_eq]
    exact (h.processOffsets ws aps).setOverflowing _ _
  merge := by
    intro e e' p p' he hp
    rw [mergeWith_eq, mergeWith_eq]
    refine ⟨?_, ?_, ?_, ?_, ?_, ?_, ?_, fun hw => ?_⟩
    · show e.ids ++ p.ids = e'.ids ++ p'.ids; rw [he.ids, hp.ids]
    · show e.typeIds ++ p.typeIds = e'.typeIds ++ p'.typeIds; rw [he.typeIds, hp.typeIds]
    · show e.tokens ++ p.tokens = e'.tokens ++ p'.tokens; rw [he.tokens, hp.tokens]
    · show e.offsets ++ p.offsets.map _ = e'.offsets ++ p'.offsets.map _; rw [he.offsets, hp.offsets]
    · show e.specialMask ++ p.specialMask = e'.specialMask ++ p'.specialMask; rw [he.specialMask, hp.specialMask]
    · show e.attnMask ++ p.attnMask = e'.attnMask ++ p'.attnMask; rw [he.attnMask, hp.attnMask]
    · show AMap.extend e.seqRanges (p.seqRanges.map fun x => (x.1, (e.len + x.2.1, e.len + x.2.2)))
        = AMap.extend e'.seqRanges (p'.seqRanges.map fun x => (x.1, (e'.len + x.2.1, e'.len + x.2.2)))
      rw [he.seqRanges, hp.seqRanges, he.len]
    · show e.words ++ p.words = e'.words ++ p'.words; rw [he.words hw, hp.words hw]
  pad := by
    intro e e' h n pt d
    rw [pad_eq, pad_eq, h.len]
    split
    · exact h.setOverflowing _ _
    · cases d with
      | left =>
        refine ⟨?_, ?_, ?_, ?_, ?_, ?_, ?_, fun hw => ?_⟩
        · show _ ++ e.ids = _ ++ e'.ids; rw [h.ids]
        · show _ ++ e.typeIds = _ ++ e'.typeIds; rw [h.typeIds]
        · show _ ++ e.tokens = _ ++ e'.tokens; rw [h.tokens]
        · show _ ++ e.offsets = _ ++ e'.offsets; rw [h.offsets]
        · show _ ++ e.specialMask = _ ++ e'.specialMask; rw [h.specialMask]
        · show _ ++ e.attnMask = _ ++ e'.attnMask; rw [h.attnMask]
        · show e.seqRanges.map _ = e'.seqRanges.map _; rw [h.seqRanges]
        · show _ ++ e.words = _ ++ e'.words; rw [h.words hw]
      | right =>
        refine ⟨?_, ?_, ?_, ?_, ?_, ?_, h.seqRanges, fun hw => ?_⟩
        · show e.ids ++ _ = e'.ids ++ _; rw [h.ids]
        · show e.typeIds ++ _ = e'.typeIds ++ _; rw [h.typeIds]
        · show e.tokens ++ _ = e'.tokens ++ _; rw [h.tokens]
        · show e.offsets ++ _ = e'.offsets ++ _; rw [h.offsets]
        · show e.specialMask ++ _ = e'.specialMask ++ _; rw [h.specialMask]
        · show e.attnMask ++ _ = e'.attnMask ++ _; rw [h.attnMask]
        · show e.words ++ _ = e'.words ++ _; rw [h.words hw]

/-- A row, without its word index unless `w`. -/
def Row.view (w : Bool) (r : Row) : Row := if w then r else PTS.Row.noWord r

theorem zip_left {α β : Type} {l : List α} {m : List β} (h : m.length = l.length) :
    (l.zip m).map Prod.fst = l := List.map_fst_zip (by omega)

theorem zip_right {α β : Type} {l : List α} {m : List β} (h : m.length = l.length) :
    (l.zip m).map Prod.snd = m := List.map_snd_zip (by omega)

/-- The seven vectors from the rows. -/
theorem rows_unzip {e : Encoding} (h : e.Parallel) : e.ids = e.rows.map (·.1) ∧ e.typeIds = e.rows.map (·.2.1) ∧
    e.tokens = e.rows.map (·.2.2.1) ∧ e.words = e.rows.map (·.2.2.2.1) ∧ e.offsets = e.rows.map (·.2.2.2.2.1) ∧
    e.specialMask = e.rows.map (·.2.2.2.2.2.1) ∧ e.attnMask = e.rows.map (·.2.2.2.2.2.2) := by
  obtain ⟨h1, h2, h3, h4, h5, h6⟩ := h
  unfold rows
  have z6 : (e.specialMask.zip e.attnMask).length = e.ids.length := by rw [List.length_zip]; omega
  have z5 : (e.offsets.zip (e.specialMask.zip e.attnMask)).length = e.ids.length := by
    rw [List.length_zip]; omega
  have z4 : (e.words.zip (e.offsets.zip (e.specialMask.zip e.attnMask))).length = e.ids.length := by
    rw [List.length_zip]; omega
  have z3 : (e.tokens.zip (e.words.zip (e.offsets.zip (e.specialMask.zip e.attnMask)))).length = e.ids.length := by
    rw [List.length_zip]; omega
  have z2 : (e.typeIds.zip (e.tokens.zip (e.words.zip (e.offsets.zip (e.specialMask.zip e.attnMask))))).length
      = e.ids.length := by rw [List.length_zip]; omega
  have s1 := zip_right (l := e.ids) z2
  have s2 := zip_right (l := e.typeIds) (z3.trans h1.symm)
  have s3 := zip_right (l := e.tokens) (z4.trans h2.symm)
  have s4 := zip_right (l := e.words) (z5.trans h3.symm)
  have s5 := zip_right (l := e.offsets) (z6.trans h4.symm)
  have s6 := zip_right (l := e.specialMask) (h6.trans h5.symm)
  refine ⟨(zip_left z2).symm, ?_, ?_, ?_, ?_, ?_, ?_⟩
  · rw [show (fun x : Row => x.2.1) = Prod.fst ∘ Prod.snd from rfl, ← List.map_map, s1]
    exact (zip_left (z3.trans h1.symm)).symm
  · rw [show (fun x : Row => x.2.2.1) = Prod.fst ∘ Prod.snd ∘ Prod.snd from rfl, ← List.map_map, ← List.map_map, s1,
      s2]
    exact (zip_left (z4.trans h2.symm)).symm
  · rw [show (fun x : Row => x.2.2.2.1) = Prod.fst ∘ Prod.snd ∘ Prod.snd ∘ Prod.snd from rfl, ← List.map_map,
      ← List.map_map, ← List.map_map, s1, s2, s3]
    exact (zip_left (z5.trans h3.symm)).symm
  · rw [show (fun x : Row => x.2.2.2.2.1) = Prod.fst ∘ Prod.snd ∘ Prod.snd ∘ Prod.snd ∘ Prod.snd from rfl,
      ← List.map_map, ← List.map_map, ← List.map_map, ← List.map_map, s1, s2, s3, s4]
    exact (zip_left (z6.trans h4.symm)).symm
  · rw [show (fun x : Row => x.2.2.2.2.2.1) = Prod.fst ∘ Prod.snd ∘ Prod.snd ∘ Prod.snd ∘ Prod.snd ∘ Prod.snd from rfl,
      ← List.map_map, ← List.map_map, ← List.map_map, ← List.map_map, ← List.map_map, s1, s2, s3, s4, s5]
    exact (zip_left (h6.trans h5.symm)).symm
  · rw [show (fun x : Row => x.2.2.2.2.2.2) = Prod.snd ∘ Prod.snd ∘ Prod.snd ∘ Prod.snd ∘ Prod.snd ∘ Prod.snd from rfl,
      ← List.map_map, ← List.map_map, ← List.map_map, ← List.map_map, ← List.map_map, s1, s2, s3, s4, s5]
    exact s6.symm

theorem sameMain_of_rows {w : Bool} {e e' : Encoding} (h : e.Parallel) (h' : e'.Parallel)
    (hr : e.rows.map (Row.view w) = e'.rows.map (Row.view w)) (hs : e.seqRanges = e'.seqRanges) :
    SameMain w e e' := by
  obtain ⟨a1, a2, a3, a4, a5, a6, a7⟩ := rows_unzip h
  obtain ⟨b1, b2, b3, b4, b5, b6, b7⟩ := rows_unzip h'
  have key : ∀ {α : Type} (f : Row → α), (∀ r, f (Row.view w r) = f r) → e.rows.map f = e'.rows.map f := by
    intro α f hf
    have := congrArg (List.map f) hr
    rw [List.map_map, List.map_map, show f ∘ Row.view w = f from funext hf] at this
    exact this
  refine ⟨?_, ?_, ?_, ?_, ?_, ?_, hs, fun hw => ?_⟩
  · rw [a1, b1]; exact key _ fun r => by cases w <;> rfl
  · rw [a2, b2]; exact key _ fun r => by cases w <;> rfl
  · rw [a3, b3]; exact key _ fun r => by cases w <;> rfl
  · rw [a5, b5]; exact key _ fun r => by cases w <;> rfl
  · rw [a6, b6]; exact key _ fun r => by cases w <;> rfl
  · rw [a7, b7]; exact key _ fun r => by cases w <;> rfl
  · rw [a4, b4]; exact key _ fun r => by rw [hw]; rfl

/-! ## An encoding that was cut early -/

/-- `e'` has the same end as `e`, up to the limit `n`. -/
structure Cut (w : Bool) (n : Nat) (d : Direction) (e e' : Encoding) : Prop where
  wf : e.WF
  wf' : e'.WF
  ranges : e.seqRanges = []
  ranges' : e'.seqRanges = []
  short : e.len ≤ n → e'.len ≤ e.len
  rows : kept d n (e'.rows.map (Row.view w)) = kept d n (e.rows.map (Row.view w))

theorem Cut.len {w : Bool} {n : Nat} {d : Direction} {e e' : Encoding} (h : Cut w n d e e') :
    min n e'.len = min n e.len := by
  have := congrArg List.length h.rows
  rwa [kept_length, kept_length, List.length_map, List.length_map, rows_length h.wf.parallel,
    rows_length h.wf'.parallel] at this

/-- If all of it fits, nothing was cut. -/
theorem Cut.fits {w : Bool} {n : Nat} {d : Direction} {e e' : Encoding} (h : Cut w n d e e') (hn : e.len ≤ n) :
    SameMain w e e' := by
  refine sameMain_of_rows h.wf.parallel h.wf'.parallel ?_ (h.ranges.trans h.ranges'.symm)
  have := h.rows
  have hl := h.short hn
  rw [kept_all _ (by rw [List.length_map, rows_length h.wf'.parallel]; omega),
    kept_all _ (by rw [List.length_map, rows_length h.wf.parallel]; omega)] at this
  exact this.symm

theorem truncate_rows {e t : Encoding} (hwf : e.WF) {k stride : Nat} {d : Direction}
    (ht : e.truncate k stride d = some t) : t.rows = kept d k e.rows := by
  have hlen : e.rows.length = e.len := rows_length hwf.parallel
  by_cases hl : k < e.len
  · by_cases h0 : 0 < k
    · cases d with
      | right => exact (C02_truncate_right hwf h0 hl ht).1
      | left => rw [(C02_truncate_left hwf h0 hl ht).1, kept, hlen]
    · have hk : k = 0 := by omega
      subst hk
      rw [(C02_truncate_zero e t stride d (by omega) ht).2.1]
      exact (List.length_eq_zero_iff.1 (by rw [kept_length]; omega)).symm
  · rw [C02_truncate_fits e k stride d (by omega)] at ht
    cases ht
    rw [kept_all _ (by omega)]

theorem truncate_ranges {e t : Encoding} (he : e.seqRanges = []) {k stride : Nat} {d : Direction}
    (ht : e.truncate k stride d = some t) : t.seqRanges = [] := by
  unfold Encoding.truncate at ht
  split at ht
  · cases ht; exact he
  · split at ht
    · cases ht; rfl
    · split at ht
      · cases ht
      · split at ht
        · cases ht
        · simp only [Option.bind_eq_bind, Option.bind_eq_some_iff, Option.pure_def, Option.some.injEq] at ht
          obtain ⟨m, hm, os, hos, rfl⟩ := ht
          have : m.seqRanges = [] := by
            unfold Encoding.part at hm
            simp only [Option.bind_eq_bind, Option.bind_eq_some_iff, Option.pure_def, Option.some.injEq] at hm
            obtain ⟨_, _, _, _, _, _, _, _, _, _, _, _, _, _, rfl⟩ := hm
            rfl
          cases m; exact this

/-- Truncating it gives the same main part. -/
theorem Cut.truncate {w : Bool} {n : Nat} {d : Direction} {e e' t : Encoding} (h : Cut w n d e e') {k stride : Nat}
    (hk : k ≤ n) (ht : e.truncate k stride d = some t) :
    ∃ t', e'.truncate k stride d = some t' ∧ SameMain w t t' := by
  have hl := h.len
  cases ht' : e'.truncate k stride d with
  | none =>
    obtain ⟨h1, h2, h3⟩ := (C02_truncate_panics_iff h.wf' k stride d).1 ht'
    have hlt : k < e.len := by
      rcases Nat.lt_or_ge k e.len with g | g
      · exact g
      · have := h.short (by omega); omega
    rw [(C02_truncate_panics_iff h.wf k stride d).2 ⟨h1, hlt, h3⟩] at ht
    cases ht
  | some t' =>
    refine ⟨t', rfl, sameMain_of_rows (truncate_wf h.wf ht).parallel (truncate_wf h.wf' ht').parallel ?_
      ((truncate_ranges h.ranges ht).trans (truncate_ranges h.ranges' ht').symm)⟩
    rw [truncate_rows h.wf ht, truncate_rows h.wf' ht', ← kept_map, ← kept_map, ← kept_kept d hk, ← h.rows,
      kept_kept d hk]

/-- If exactly the kept part is left, it need not be truncated. -/
theorem Cut.exact {w : Bool} {n : Nat} {d : Direction} {e e' t : Encoding} (h : Cut w n d e e') {k stride : Nat}
    (hk : k ≤ n) (hl : e'.len ≤ k) (ht : e.truncate k stride d = some t) : SameMain w t e' := by
  obtain ⟨t', h1, h2⟩ := h.truncate hk ht
  rw [C02_truncate_fits e' k stride d hl] at h1
  cases h1; exact h2

theorem Cut.refl {w : Bool} {n : Nat} {d : Direction} {e : Encoding} (h : e.WF) (hr : e.seqRanges = []) :
    Cut w n d e e := ⟨h, h, hr, hr, fun _ => Nat.le_refl _, rfl⟩

/-- One input. -/
theorem Cut.truncateSingle {w : Bool} {n : Nat} {d : Direction} {e e' t : Encoding} (h : Cut w n d e e')
    {p : TruncParams} (hp : p.maxLength ≤ n) (hd : p.direction = d) (hs : p.strategy = .onlySecond → e' = e)
    {o : Option Encoding} (ht : truncateEncodings e none p = .ok (t, o)) :
    o = none ∧ ∃ t', truncateEncodings e' none p = .ok (t', none) ∧ SameMain w t t' := by
  subst hd
  by_cases hsec : p.strategy = .onlySecond
  · rw [hs hsec]
    have : o = none := by
      have := (C03_total_length h.wf (fun o ho => by cases ho) ht).2
      cases o with
      | none => rfl
      | some _ => cases this
    subst this
    exact ⟨rfl, t, ht, (sameMain_cong w).refl t⟩
  · have hlen := h.len
    unfold Tok.truncateEncodings at ht ⊢
    simp only [Option.map_none, Option.getD_none, Nat.add_zero] at ht ⊢
    by_cases h0 : p.maxLength = 0
    · rw [if_pos h0] at ht ⊢
      simp only [bind, Except.bind] at ht ⊢
      cases hx : orPanic (e.truncate 0 p.stride p.direction) with
      | error er => rw [hx] at ht; cases ht
      | ok x =>
        rw [hx] at ht
        cases ht
        obtain ⟨t', h1, h2⟩ := h.truncate (Nat.zero_le _) (orPanic_ok.1 hx)
        refine ⟨rfl, t', ?_, h2⟩
        rw [h1]; rfl
    · rw [if_neg h0] at ht ⊢
      by_cases hover : e.len > p.maxLength
      · -- what is left of the first input
        have hx : ∃ x, e.truncate p.maxLength p.stride p.direction = some x ∧ t = x ∧ o = none := by
          rw [if_pos hover] at ht
          cases hst : p.strategy with
          | onlySecond => exact absurd hst hsec
          | longestFirst =>
            rw [hst] at ht
            simp only [bind, Except.bind] at ht
            rw [show e.len - (e.len - p.maxLength) = p.maxLength by omega] at ht
            cases hx : orPanic (e.truncate p.maxLength p.stride p.direction) with
            | error er => rw [hx] at ht; cases ht
            | ok x => rw [hx] at ht; cases ht; exact ⟨_, orPanic_ok.1 hx, rfl, rfl⟩
          | onlyFirst =>
            rw [hst] at ht
            simp only [bind, Except.bind] at ht
            rw [if_pos (by omega), show e.len - (e.len - p.maxLength) = p.maxLength by omega] at ht
            cases hx : orPanic (e.truncate p.maxLength p.stride p.direction) with
            | error er => rw [hx] at ht; cases ht
            | ok x => rw [hx] at ht; cases ht; exact ⟨_, orPanic_ok.1 hx, rfl, rfl⟩
        obtain ⟨x, hx1, rfl, rfl⟩ := hx
        refine ⟨rfl, ?_⟩
        by_cases hover' : e'.len > p.maxLength
        · obtain ⟨t', h1, h2⟩ := h.truncate hp hx1
          refine ⟨t', ?_, h2⟩
          rw [if_pos hover']
          cases hst : p.strategy with
          | onlySecond => exact absurd hst hsec
          | longestFirst =>
            simp only [bind, Except.bind]
            rw [show e'.len - (e'.len - p.maxLength) = p.maxLength by omega, h1]; rfl
          | onlyFirst =>
            simp only [bind, Except.bind]
            rw [if_pos (by omega), show e'.len - (e'.len - p.maxLength) = p.maxLength by omega, h1]; rfl
        · rw [if_neg hover']
          exact ⟨e', rfl, h.exact hp (by omega) hx1⟩
      · rw [if_neg hover] at ht
        cases ht
        have hl' := h.short (by omega)
        rw [if_neg (by omega)]
        exact ⟨rfl, e', rfl, h.fits (by omega)⟩

/-! ## Two inputs -/

/-- The lengths to which `truncate_encodings` cuts two inputs of lengths `l1`, `l2`; `none` if it refuses. -/
def targets (l1 l2 : Nat) (p : TruncParams) : Option (Nat × Nat) :=
  if p.maxLength = 0 then some (0, 0)
  else if l1 + l2 ≤ p.maxLength then some (l1, l2)
  else match p.strategy with
    | .longestFirst => some (longestFirstLengths l1 l2 p.maxLength)
    | .onlyFirst => if l2 < p.maxLength then some (p.maxLength - l2, l2) else none
    | .onlySecond => if l1 < p.maxLength then some (l1, p.maxLength - l1) else none

/-- `truncate_encodings` of a pair cuts both to the target lengths. -/
theorem truncatePair_ok {e o : Encoding} {p : TruncParams} {r : Encoding × Option Encoding} :
    truncateEncodings e (some o) p = .ok r ↔ ∃ n t u, targets e.len o.len p = some n ∧
      e.truncate n.1 p.stride p.direction = some t ∧ o.truncate n.2 p.stride p.direction = some u ∧
      r = (t, some u) := by
  have two : ∀ (a b : Nat), (do
      let e' ← orPanic (e.truncate a p.stride p.direction)
      let o' ← orPanic (o.truncate b p.stride p.direction)
      return (e', some o') : Except TruncError (Encoding × Option Encoding)) = .ok r ↔
      ∃ t u, e.truncate a p.stride p.direction = some t ∧ o.truncate b p.stride p.direction = some u ∧
        r = (t, some u) := by
    intro a b
    cases e.truncate a p.stride p.direction with
    | none => exact ⟨fun h => (by cases h), fun ⟨_, _, h, _⟩ => (by cases h)⟩
    | some t =>
      cases o.truncate b p.stride p.direction with
      | none => exact ⟨fun h => (by cases h), fun ⟨_, _, _, h, _⟩ => (by cases h)⟩
      | some u =>
        refine ⟨fun h => ⟨t, u, rfl, rfl, (Except.ok.inj h).symm⟩, fun ⟨_, _, h1, h2, h3⟩ => ?_⟩
        cases h1; cases h2; rw [h3]; rfl
  have pick : ∀ (x : Option (Nat × Nat)) (a b : Nat), x = some (a, b) → ((∃ n t u, x = some n ∧
      e.truncate n.1 p.stride p.direction = some t ∧ o.truncate n.2 p.stride p.direction = some u ∧
      r = (t, some u)) ↔ ∃ t u, e.truncate a p.stride p.direction = some t ∧
        o.truncate b p.stride p.direction = some u ∧ r = (t, some u)) := by
    intro x a b hx
    subst hx
    refine ⟨fun ⟨n, t, u, h, h1, h2, h3⟩ => ?_, fun ⟨t, u, h1, h2, h3⟩ => ⟨_, t, u, rfl, h1, h2, h3⟩⟩
    cases h; exact ⟨t, u, h1, h2, h3⟩
  unfold Tok.truncateEncodings
  simp only [Option.map_some, Option.getD_some]
  by_cases h0 : p.maxLength = 0
  · rw [if_pos h0, pick _ 0 0 (by rw [targets, if_pos h0]), ← two]
  · rw [if_neg h0]
    by_cases hover : e.len + o.len > p.maxLength
    · rw [if_pos hover]
      have hn : ¬ e.len + o.len ≤ p.maxLength := by omega
      cases hs : p.strategy with
      | longestFirst =>
        rw [pick _ (longestFirstLengths e.len o.len p.maxLength).1 (longestFirstLengths e.len o.len p.maxLength).2
          (by rw [targets, if_neg h0, if_neg hn, hs]), ← two]
      | onlyFirst =>
        by_cases hl : o.len < p.maxLength
        · rw [pick _ (p.maxLength - o.len) o.len (by rw [targets, if_neg h0, if_neg hn, hs]; simp only [if_pos hl]),
            ← two]
          simp only
          rw [if_pos (by omega), show e.len - (e.len + o.len - p.maxLength) = p.maxLength - o.len by omega,
            C02_truncate_fits o o.len p.stride p.direction (Nat.le_refl _)]
          rfl
        · simp only
          rw [if_neg (by omega)]
          refine ⟨fun h => (by cases h), fun ⟨n, _, _, h, _⟩ => ?_⟩
          rw [targets, if_neg h0, if_neg hn, hs] at h
          simp only [if_neg hl] at h
          cases h
      | onlySecond =>
        by_cases hl : e.len < p.maxLength
        · rw [pick _ e.len (p.maxLength - e.len) (by rw [targets, if_neg h0, if_neg hn, hs]; simp only [if_pos hl]),
            ← two]
          simp only
          rw [if_pos (by omega), show o.len - (e.len + o.len - p.maxLength) = p.maxLength - e.len by omega,
            C02_truncate_fits e e.len p.stride p.direction (Nat.le_refl _)]
          rfl
        · simp only
          rw [if_neg (by omega)]
          refine ⟨fun h => (by cases h), fun ⟨n, _, _, h, _⟩ => ?_⟩
          rw [targets, if_neg h0, if_neg hn, hs] at h
          simp only [if_neg hl] at h
          cases h
    · rw [if_neg hover, pick _ e.len o.len (by rw [targets, if_neg h0, if_pos (by omega)]), ← two,
        C02_truncate_fits e e.len p.stride p.direction (Nat.le_refl _),
        C02_truncate_fits o o.len p.stride p.direction (Nat.le_refl _)]
      exact Iff.rfl

/-- Cutting inputs at `n` or later does not change what will be kept of them. -/
theorem targets_cut {n l1 l2 l1' l2' : Nat} {p : TruncParams} (hp : p.maxLength ≤ n) (h1 : min n l1' = min n l1)
    (h1' : l1 ≤ n → l1' ≤ l1) (h2 : min n l2' = min n l2) (h2' : l2 ≤ n → l2' ≤ l2)
    (hsec : p.strategy = .onlySecond → l1' = l1)
    (hlong : p.strategy = .longestFirst → p.maxLength % 2 = 0 ∨ l1 ≤ n ∨ l2 < n) {k : Nat × Nat}
    (hk : targets l1 l2 p = some k) : k.1 ≤ p.maxLength ∧ k.2 ≤ p.maxLength ∧ ∃ k', targets l1' l2' p = some k' ∧
      (k'.1 = k.1 ∨ l1' ≤ k'.1 ∧ l1' ≤ k.1) ∧ (k'.2 = k.2 ∨ l2' ≤ k'.2 ∧ l2' ≤ k.2) := by
  unfold targets at hk ⊢
  by_cases h0 : p.maxLength = 0
  · rw [if_pos h0] at hk ⊢
    cases hk
    exact ⟨Nat.zero_le _, Nat.zero_le _, _, rfl, .inl rfl, .inl rfl⟩
  rw [if_neg h0] at hk ⊢
  by_cases hfit : l1 + l2 ≤ p.maxLength
  · rw [if_pos hfit] at hk
    cases hk
    rw [if_pos (by omega)]
    exact ⟨by simp only; omega, by simp only; omega, _, rfl, .inl (by simp only; omega), .inl (by simp only; omega)⟩
  rw [if_neg hfit] at hk
  cases hs : p.strategy with
  | onlyFirst =>
    rw [hs] at hk
    simp only at hk ⊢
    by_cases hl : l2 < p.maxLength
    · rw [if_pos hl] at hk
      cases hk
      refine ⟨by simp only; omega, by simp only; omega, ?_⟩
      by_cases hfit' : l1' + l2' ≤ p.maxLength
      · rw [if_pos hfit']
        exact ⟨_, rfl, .inr (by simp only; omega), .inl (by simp only; omega)⟩
      · rw [if_neg hfit', if_pos (by omega)]
        exact ⟨_, rfl, .inl (by simp only; omega), .inl (by simp only; omega)⟩
    · rw [if_neg hl] at hk; cases hk
  | onlySecond =>
    rw [hs] at hk
    have := hsec hs
    subst this
    simp only at hk ⊢
    by_cases hl : l1' < p.maxLength
    · rw [if_pos hl] at hk
      cases hk
      refine ⟨by simp only; omega, by simp only; omega, ?_⟩
      by_cases hfit' : l1' + l2' ≤ p.maxLength
      · rw [if_pos hfit']
        exact ⟨_, rfl, .inl rfl, .inr (by simp only; omega)⟩
      · rw [if_neg hfit', if_pos hl]
        exact ⟨_, rfl, .inl rfl, .inl rfl⟩
    · rw [if_neg hl] at hk; cases hk
  | longestFirst =>
    rw [hs] at hk
    simp only [Option.some.injEq] at hk ⊢
    subst hk
    have hsum := longestFirst_sum l1 l2 p.maxLength (by omega)
    refine ⟨by omega, by omega, ?_⟩
    have hlong := hlong hs
    generalize p.maxLength = m at *
    by_cases hfit' : l1' + l2' ≤ m
    · rw [if_pos hfit']
      refine ⟨_, rfl, ?_, ?_⟩
      all_goals
        simp only
        unfold longestFirstLengths at *
        by_cases a1 : l1 > l2 <;> simp only [a1, decide_true, decide_false, if_true, Bool.false_eq_true, if_false] at *
        · by_cases a2 : l2 > m <;> simp only [a2, if_true, if_false] at *
          · by_cases a3 : l2 + l2 > m <;> simp only [a3, if_true, if_false] at * <;> omega
          · by_cases a3 : l2 + max l2 (m - l2) > m <;> simp only [a3, if_true, if_false] at * <;> omega
        · by_cases a2 : l1 > m <;> simp only [a2, if_true, if_false] at *
          · by_cases a3 : l1 + l1 > m <;> simp only [a3, if_true, if_false] at * <;> omega
          · by_cases a3 : l1 + max l1 (m - l1) > m <;> simp only [a3, if_true, if_false] at * <;> omega
    · rw [if_neg hfit']
      have half : ∀ a b : Nat, m ≤ a → m ≤ b → longestFirstLengths a b m =
          if a > b then (m / 2 + m % 2, m / 2) else (m / 2, m / 2 + m % 2) := by
        intro a b ha hb
        unfold longestFirstLengths
        by_cases a1 : a > b <;> simp only [a1, decide_true, decide_false, if_true, Bool.false_eq_true, if_false]
        · by_cases a2 : b > m <;> simp only [a2, if_true, if_false]
          · rw [if_pos (by omega)]
          · rw [if_pos (by omega)]
        · by_cases a2 : a > m <;> simp only [a2, if_true, if_false]
          · rw [if_pos (by omega)]
          · rw [if_pos (by omega)]
      have heq : longestFirstLengths l1' l2' m = longestFirstLengths l1 l2 m := by
        by_cases c1 : l1 ≤ n
        · have : l1' = l1 := by omega
          subst this
          by_cases c2 : l2 ≤ n
          · have : l2' = l2 := by omega
            rw [this]
          · unfold longestFirstLengths
            simp only [show decide (l1' > l2') = false by rw [decide_eq_false_iff_not]; omega,
              show decide (l1' > l2) = false by rw [decide_eq_false_iff_not]; omega]
            rfl
        · by_cases c2 : l2 < n
          · have : l2' = l2 := by omega
            subst this
            unfold longestFirstLengths
            simp only [show decide (l1' > l2') = true by rw [decide_eq_true_iff]; omega,
              show decide (l1 > l2') = true by rw [decide_eq_true_iff]; omega]
            rfl
          · have hm : m % 2 = 0 := by omega
            rw [half _ _ (by omega) (by omega), half _ _ (by omega) (by omega), hm]
            simp
      rw [heq]
      exact ⟨_, rfl, .inl rfl, .inl rfl⟩

/-- Two inputs. -/
theorem Cut.truncatePair {w : Bool} {n : Nat} {d : Direction} {e e' o o' : Encoding} (h : Cut w n d e e')
    (ho : Cut w n d o o') {p : TruncParams} (hp : p.maxLength ≤ n) (hd : p.direction = d)
    (hs : p.strategy = .onlySecond → e' = e)
    (hlong : p.strategy = .longestFirst → p.maxLength % 2 = 0 ∨ e.len ≤ n ∨ o.len < n)
    {r : Encoding × Option Encoding} (ht : truncateEncodings e (some o) p = .ok r) :
    ∃ r', truncateEncodings e' (some o') p = .ok r' ∧ SameMain w r.1 r'.1 ∧ Both (SameMain w) r.2 r'.2 := by
  subst hd
  obtain ⟨k, t, u, h1, h2, h3, rfl⟩ := truncatePair_ok.1 ht
  obtain ⟨k1, k2, k', g1, g2, g3⟩ := targets_cut hp h.len h.short ho.len ho.short
    (fun hh => by rw [hs hh]) hlong h1
  obtain ⟨t', t1, t2⟩ := h.truncate (by omega) h2
  obtain ⟨u', u1, u2⟩ := ho.truncate (by omega) h3
  refine ⟨(t', some u'), truncatePair_ok.2 ⟨k', t', u', g1, ?_, ?_, rfl⟩, t2, .some u2⟩
  · rcases g2 with g | ⟨ga, gb⟩
    · rw [g]; exact t1
    · rw [C02_truncate_fits e' _ _ _ gb] at t1
      rw [C02_truncate_fits e' _ _ _ ga]; exact t1
  · rcases g3 with g | ⟨ga, gb⟩
    · rw [g]; exact u1
    · rw [C02_truncate_fits o' _ _ _ gb] at u1
      rw [C02_truncate_fits o' _ _ _ ga]; exact u1

/-! ## One input -/

theorem Cut.merge {w : Bool} {n : Nat} {d : Direction} {e e' p p' : Encoding} (h : Cut w n d e e')
    (hp : Cut w n d p p') : Cut w n d (e.mergeWith p false) (e'.mergeWith p' false) := by
  have shift0 : ∀ l : List Row, l.map (Row.shift 0) = l := by
    intro l
    conv => rhs; rw [← List.map_id l]
    rfl
  have hr : ∀ {a b : Encoding}, a.WF → (a.mergeWith b false).rows = a.rows ++ b.rows := by
    intro a b ha
    rw [C05_merge_rows ha]; simp [shift0]
  have hl : ∀ {a b : Encoding}, (a.mergeWith b false).len = a.len + b.len := by
    intro a b
    rw [mergeWith_eq]
    show (a.ids ++ b.ids).length = _
    rw [List.length_append]; rfl
  refine ⟨mergeWith_wf false _ _ _ (Nat.le_refl _) h.wf hp.wf, mergeWith_wf false _ _ _ (Nat.le_refl _) h.wf' hp.wf',
    ?_, ?_, ?_, ?_⟩
  · rw [mergeWith_eq]
    show AMap.extend e.seqRanges (p.seqRanges.map _) = []
    rw [h.ranges, hp.ranges]; rfl
  · rw [mergeWith_eq]
    show AMap.extend e'.seqRanges (p'.seqRanges.map _) = []
    rw [h.ranges', hp.ranges']; rfl
  · rw [hl, hl]
    intro hle
    have := h.short (by omega)
    have := hp.short (by omega)
    omega
  · rw [hr h.wf, hr h.wf', List.map_append, List.map_append]
    refine kept_append d h.rows hp.rows ?_ ?_
    · rw [List.length_map, List.length_map, rows_length h.wf.parallel, rows_length h.wf'.parallel]; exact h.short
    · rw [List.length_map, List.length_map, rows_length hp.wf.parallel, rows_length hp.wf'.parallel]; exact hp.short

theorem Cut.mergeList {w : Bool} {n : Nat} {d : Direction} {es es' : List Encoding} (h : Each (Cut w n d) es es') :
    Cut w n d (Encoding.merge es false) (Encoding.merge es' false) := by
  have : ∀ {es es' : List Encoding}, Each (Cut w n d) es es' → ∀ {a a' : Encoding}, Cut w n d a a' →
      Cut w n d (es.foldl (fun acc s => acc.mergeWith s false) a)
        (es'.foldl (fun acc s => acc.mergeWith s false) a') := by
    intro es es' h
    induction h with
    | nil => intro a a' ha; exact ha
    | cons h _ ih => intro a a' ha; exact ih (ha.merge h)
  exact this h (.refl empty_wf rfl)

namespace Tokenizer

theorem intoEncoding_ranges {p : PTS} {word : Option Nat} {typeId : Nat} {ty : PTS.OffsetType} {e : Encoding}
    (h : p.intoEncoding word typeId ty = .ok e) : e.seqRanges = [] := by
  unfold PTS.intoEncoding at h
  split at h
  · cases h; rfl
  · split at h
    · cases h
    · split at h <;> (cases h; rfl)

/-- The early exit of `tokenize_with_limit` keeps the end that counts. -/
theorem doTokenize_cut {t : Tokenizer} {p : PTS} {typeId : Nat} {word : Option Nat} {ty : PTS.OffsetType}
    {e : Encoding} (h : t.doTokenize none p typeId word ty = .ok e) (n : Nat) (d : Direction) {w : Bool}
    (hw : w = true → d = .right ∨ word.isSome) :
    ∃ e', t.doTokenize (some (n, d)) p typeId word ty = .ok e' ∧ Cut w n d e e' := by
  unfold doTokenize tokenizeIn at h ⊢
  simp only at h ⊢
  cases hP : p.tokenize (fun n => t.model n.norm) with
  | error er => rw [hP] at h; cases h
  | ok P =>
    rw [hP] at h
    simp only [Except.bind] at h
    cases hE : P.intoEncoding word typeId ty with
    | error er => rw [hE] at h; cases h
    | ok E =>
      rw [hE] at h
      cases h
      have hwf := intoEncoding_wf hE
      have hview : ∀ {a b : List Row}, (w = true → a = b) → a.map PTS.Row.noWord = b.map PTS.Row.noWord →
          a.map (Row.view w) = b.map (Row.view w) := by
        intro a b h1 h2
        cases w with
        | true => rw [h1 rfl]
        | false => exact h2
      cases d with
      | right =>
        obtain ⟨Q, e1, e', h1, h2, h3, h4, h5, h6, h7⟩ := PTS.C38_right hP (Nat.le_refl n) word typeId ty
        rw [hE] at h2
        cases h2
        refine ⟨e', by rw [h1]; simp only [Except.bind, h3, mapErr], hwf, intoEncoding_wf h3, intoEncoding_ranges hE,
          intoEncoding_ranges h3, fun hl => by rw [h7 hl]; exact Nat.le_refl _, ?_⟩
        rw [kept_map, kept_map]
        exact congrArg _ h4
      | left =>
        obtain ⟨Q, e1, e', h1, h2, h3, h4, h4', h5, h6, h7⟩ := PTS.C38_left hP (Nat.le_refl n) word typeId ty
        rw [hE] at h2
        cases h2
        have hwf' := intoEncoding_wf h3
        refine ⟨e', by rw [h1]; simp only [Except.bind, h3, mapErr], hwf, hwf', intoEncoding_ranges hE,
          intoEncoding_ranges h3, fun hl => ?_, ?_⟩
        · have := congrArg List.length (h7 hl)
          rw [List.length_map, List.length_map, rows_length hwf.parallel, rows_length hwf'.parallel] at this
          omega
        · rw [kept_map, kept_map]
          simp only [kept, rows_length hwf.parallel, rows_length hwf'.parallel]
          refine hview (fun hw' => h4' ?_) h4
          rcases hw hw' with h | h
          · cases h
          · exact h

theorem encodeText_cut {t : Tokenizer} {typeId : Nat} {ty : PTS.OffsetType} {word : Option Nat} {s : Str}
    {e : Encoding} (h : t.encodeText none typeId ty word s = .ok e) (n : Nat) (d : Direction) {w : Bool}
    (hw : w = true → d = .right ∨ word.isSome) :
    ∃ e', t.encodeText (some (n, d)) typeId ty word s = .ok e' ∧ Cut w n d e e' := by
  unfold encodeText at h ⊢
  cases hp : t.preTokenized s with
  | error er => rw [hp] at h; cases h
  | ok p =>
    rw [hp] at h
    exact doTokenize_cut h n d hw

/-- A given list of words. -/
def Input.isWords : Input → Bool
  | .raw _ => false
  | .words _ => true

theorem mapM_cut {α : Type} {R : Encoding → Encoding → Prop} {f g : α → Except EncErr Encoding} :
    ∀ {l : List α} {es : List Encoding}, (∀ a ∈ l, ∀ e, f a = .ok e → ∃ e', g a = .ok e' ∧ R e e') →
      l.mapM f = .ok es → ∃ es', l.mapM g = .ok es' ∧ Each R es es'
  | [], es, _, h => by
    rw [List.mapM_nil] at h
    cases h
    exact ⟨[], rfl, .nil⟩
  | a :: l, es, hf, h => by
    rw [List.mapM_cons] at h
    cases h1 : f a with
    | error er => rw [h1] at h; cases h
    | ok x =>
      cases h2 : l.mapM f with
      | error er => rw [h1, h2] at h; cases h
      | ok xs =>
        rw [h1, h2] at h
        cases h
        obtain ⟨x', g1, g2⟩ := hf a List.mem_cons_self x h1
        obtain ⟨xs', g3, g4⟩ := mapM_cut (fun b hb => hf b (List.mem_cons_of_mem _ hb)) h2
        refine ⟨x' :: xs', ?_, .cons g2 g4⟩
        rw [List.mapM_cons, g1, g3]; rfl

/-- One input with the limit. -/
theorem encodeSequence_cut {t : Tokenizer} {typeId : Nat} {ty : PTS.OffsetType} {i : Input}
    {e : Encoding} (h : t.encodeSequenceWith none typeId ty i = .ok e) (n : Nat) (d : Direction) {w : Bool}
    (hw : w = true → d = .right ∨ i.isWords) :
    ∃ e', t.encodeSequenceWith (some (n, d)) typeId ty i = .ok e' ∧ Cut w n d e e' := by
  cases i with
  | raw s =>
    refine encodeText_cut h n d fun hw' => ?_
    rcases hw hw' with h | h
    · exact .inl h
    · cases h
  | words l =>
    unfold encodeSequenceWith at h ⊢
    simp only at h ⊢
    cases hm : (l.zipIdx.mapM fun x => t.encodeText none typeId ty (some x.2) x.1) with
    | error er => rw [hm] at h; cases h
    | ok es =>
      rw [hm] at h
      cases h
      have hstep : ∀ x ∈ l.zipIdx, ∀ e, t.encodeText none typeId ty (some x.2) x.1 = .ok e →
          ∃ e', t.encodeText (some (n, d)) typeId ty (some x.2) x.1 = .ok e' ∧ Cut w n d e e' :=
        fun x _ e he => encodeText_cut he n d fun _ => .inr rfl
      obtain ⟨es', h1, h2⟩ := mapM_cut hstep hm
      exact ⟨_, by rw [h1]; rfl, Cut.mergeList h2⟩

theorem encodeSequence_wf {t : Tokenizer} {lim : Option (Nat × Direction)} {typeId : Nat} {ty : PTS.OffsetType}
    {i : Input} {e : Encoding} (h : t.encodeSequenceWith lim typeId ty i = .ok e) (hl : lim = none) :
    e.WF ∧ e.seqRanges = [] := by
  subst hl
  obtain ⟨e', _, h2⟩ := encodeSequence_cut h 0 .right (w := false) (fun h => by cases h)
  exact ⟨h2.wf, h2.ranges⟩

/-- `encode` without the early exit: every input is tokenized completely. -/
def encodeFully (t : Tokenizer) (ty : PTS.OffsetType) (input : Input × Option Input) (add : Bool) :
    Except EncErr Encoding :=
  t.encodeBy (fun typeId i => t.encodeSequenceWith none typeId ty i) input add

/-- The limit less the special tokens. -/
def room (t : Tokenizer) (tr : TruncParams) (isPair add : Bool) : Nat :=
  tr.maxLength - if add then t.settings.added isPair else 0

/-- Which limit is passed on: none for the first input if only the second one is truncated, else the whole length, from
the side that is kept. -/
theorem limit_eq {t : Tokenizer} {tr : TruncParams} (htr : t.settings.truncation = some tr) (typeId : Nat) :
    (tr.strategy = .onlySecond ∧ typeId = 0 → t.limit typeId = none) ∧
    (¬ (tr.strategy = .onlySecond ∧ typeId = 0) → t.limit typeId = some (tr.maxLength, tr.direction)) := by
  unfold limit
  rw [htr]
  simp only
  refine ⟨fun h => if_neg (by simp [h.1, h.2]), fun h => if_pos ?_⟩
  by_cases hs : tr.strategy = .onlySecond
  · exact .inr fun h0 => h ⟨hs, h0⟩
  · exact .inl hs

/-- **C38.** With truncation set, whenever encoding after tokenizing every input completely succeeds, so does
`encode`, which stops tokenizing early, and the ids, type ids, tokens, offsets, masks and sequence ranges are the
same (the word indices too, if the cut is on the right or the words are given). For this the limit must leave
room for the special tokens; and when two inputs both reach the limit, `LongestFirst` must have an even number of
places to distribute. -/
theorem C38_encode {t : Tokenizer} {tr : TruncParams} (htr : t.settings.truncation = some tr)
    {ty : PTS.OffsetType} {input : Input × Option Input} {add : Bool}
    (hroom : add = true → t.settings.added input.2.isSome ≤ tr.maxLength)
    (hlong : ∀ j a b, input.2 = some j → tr.strategy = .longestFirst →
      t.encodeSequenceWith none 0 ty input.1 = .ok a → t.encodeSequenceWith none 1 ty j = .ok b →
      t.room tr true add % 2 = 0 ∨ a.len ≤ tr.maxLength ∨ b.len < tr.maxLength)
    {w : Bool} (hw : w = true → tr.direction = .right ∨ input.1.isWords ∧ ∀ j, input.2 = some j → j.isWords)
    {e : Encoding} (h : t.encodeFully ty input add = .ok e) :
    ∃ e', t.encodeAs ty input add = .ok e' ∧ SameMain w e e' := by
  obtain ⟨i, j⟩ := input
  unfold encodeFully at h
  unfold encodeAs
  unfold encodeBy at h ⊢
  simp only at h hroom hlong hw ⊢
  cases ha : t.encodeSequenceWith none 0 ty i with
  | error er => rw [ha] at h; cases h
  | ok a =>
    rw [ha] at h
    simp only [Except.bind] at h
    -- the first input
    obtain ⟨a', ha', hcut, hfst⟩ : ∃ a', t.encodeSequence 0 ty i = .ok a' ∧ Cut w tr.maxLength tr.direction a a' ∧
        (tr.strategy = .onlySecond → a' = a) := by
      unfold encodeSequence
      by_cases hs : tr.strategy = .onlySecond
      · rw [(limit_eq htr 0).1 ⟨hs, rfl⟩]
        obtain ⟨h1, h2⟩ := encodeSequence_wf ha rfl
        exact ⟨a, ha, .refl h1 h2, fun _ => rfl⟩
      · rw [(limit_eq htr 0).2 fun hh => hs hh.1]
        obtain ⟨a', h1, h2⟩ := encodeSequence_cut ha tr.maxLength tr.direction (w := w)
          (fun hw' => (hw hw').imp id (·.1))
        exact ⟨a', h1, h2, fun hh => absurd hh hs⟩
    -- from the truncation on
    have step : ∀ {o o' : Option Encoding},
        (∀ r, truncateEncodings a o { tr with maxLength := tr.maxLength - t.settings.inserted o add } = .ok r →
          ∃ r', truncateEncodings a' o' { tr with maxLength := tr.maxLength - t.settings.inserted o' add } = .ok r' ∧
            SameMain w r.1 r'.1 ∧ Both (SameMain w) r.2 r'.2) →
        t.settings.inserted o add ≤ tr.maxLength → t.settings.inserted o' add ≤ tr.maxLength →
        mapErr EncErr.post (t.settings.postProcess t.ws t.checked a o add) = .ok e →
        ∃ e', mapErr EncErr.post (t.settings.postProcess t.ws t.checked a' o' add) = .ok e' ∧ SameMain w e e' := by
      intro o o' htrunc r1 r2 hpost
      unfold Post.Settings.postProcess at hpost ⊢
      rw [Post.truncate_room htr r1] at hpost
      rw [Post.truncate_room htr r2]
      cases hx : truncateEncodings a o { tr with maxLength := tr.maxLength - t.settings.inserted o add } with
      | error er => rw [hx] at hpost; cases hpost
      | ok r =>
        rw [hx] at hpost
        obtain ⟨r', g1, g2, g3⟩ := htrunc r hx
        rw [g1]
        simp only at hpost ⊢
        have hf := (sameMain_cong w).finish t.ws t.settings add g2 g3
        revert hpost hf
        generalize t.settings.finish t.ws r.1 r.2 add = x
        generalize t.settings.finish t.ws r'.1 r'.2 add = y
        intro hpost hf
        cases hf with
        | none => cases hpost
        | some hf =>
          cases hpost
          exact ⟨_, rfl, (sameMain_cong w).padOne t.settings hf⟩
    rw [ha']
    simp only [Except.bind]
    have hins : ∀ o : Option Encoding, o.isSome = j.isSome → t.settings.inserted o add ≤ tr.maxLength := by
      intro o ho
      unfold Post.Settings.inserted
      rw [ho]
      cases add with
      | false => exact Nat.zero_le _
      | true => exact hroom rfl
    cases j with
    | none =>
      simp only [optional] at h ⊢
      refine step (fun r hr => ?_) (hins none rfl) (hins none rfl) h
      obtain ⟨r1, r2⟩ := r
      obtain ⟨rfl, t', g1, g2⟩ := hcut.truncateSingle
        (p := { tr with maxLength := tr.maxLength - t.settings.inserted none add }) (Nat.sub_le _ _) rfl hfst hr
      exact ⟨_, g1, g2, .none⟩
    | some j =>
      simp only [optional] at h ⊢
      cases hb : t.encodeSequenceWith none 1 ty j with
      | error er => rw [hb] at h; cases h
      | ok b =>
        rw [hb] at h
        obtain ⟨b', hb', hcut'⟩ := encodeSequence_cut hb tr.maxLength tr.direction (w := w)
          (fun hw' => (hw hw').imp id (fun hh => hh.2 j rfl))
        have : t.encodeSequence 1 ty j = .ok b' := by
          unfold encodeSequence
          rw [(limit_eq htr 1).2 fun hh => absurd hh.2 (by decide)]
          exact hb'
        rw [this]
        simp only [Except.map] at h ⊢
        refine step (fun r hr => ?_) (hins _ rfl) (hins _ rfl) h
        refine hcut.truncatePair hcut'
          (p := { tr with maxLength := tr.maxLength - t.settings.inserted (some b) add }) (Nat.sub_le _ _) rfl hfst ?_ hr
        intro hs
        have := hlong j a b rfl hs ha hb
        unfold room at this
        unfold Post.Settings.inserted
        exact this

/-! Examples, and the case excluded by the last assumption, are in `Tokenizer/Samples.lean`. -/

end Tokenizer
end Tok
