import Verif.Encoding.Renumber

/-!
# C119: encodings with other offsets

Truncating, merging (without growing offsets) and padding look at the offsets of an encoding only to copy them.
-/

namespace Tok

/-- The encoding with the offsets `f o` instead of `o`, in the overflowing parts as well. -/
def Encoding.remap (f : Range → Range) : Encoding → Encoding
  | .mk i t k w o s a ov sr => .mk i t k w (o.map f) s a (ov.attach.map fun x => x.1.remap f) sr
termination_by e => sizeOf e
decreasing_by
  have := List.sizeOf_lt_of_mem x.2
  simp only [Encoding.mk.sizeOf_spec]; omega

namespace Encoding
variable (f : Range → Range)

theorem remap_mk (i t k w o s a ov sr) :
    (mk i t k w o s a ov sr).remap f = mk i t k w (o.map f) s a (ov.map (remap f)) sr := by
  rw [remap]
  congr 1
  exact List.attach_map_val (f := remap f)

theorem remap_empty : empty.remap f = empty := by
  unfold empty; rw [remap_mk]; rfl

@[simp] theorem remap_ids (e : Encoding) : (e.remap f).ids = e.ids := by
  cases e; rw [remap_mk]; rfl
@[simp] theorem remap_typeIds (e : Encoding) : (e.remap f).typeIds = e.typeIds := by
  cases e; rw [remap_mk]; rfl
@[simp] theorem remap_tokens (e : Encoding) : (e.remap f).tokens = e.tokens := by
  cases e; rw [remap_mk]; rfl
@[simp] theorem remap_words (e : Encoding) : (e.remap f).words = e.words := by
  cases e; rw [remap_mk]; rfl
@[simp] theorem remap_offsets (e : Encoding) : (e.remap f).offsets = e.offsets.map f := by
  cases e; rw [remap_mk]; rfl
@[simp] theorem remap_specialMask (e : Encoding) : (e.remap f).specialMask = e.specialMask := by
  cases e; rw [remap_mk]; rfl
@[simp] theorem remap_attnMask (e : Encoding) : (e.remap f).attnMask = e.attnMask := by
  cases e; rw [remap_mk]; rfl
@[simp] theorem remap_overflowing (e : Encoding) : (e.remap f).overflowing = e.overflowing.map (remap f) := by
  cases e; rw [remap_mk]; rfl
@[simp] theorem remap_seqRanges (e : Encoding) : (e.remap f).seqRanges = e.seqRanges := by
  cases e; rw [remap_mk]; rfl

@[simp] theorem remap_len (e : Encoding) : (e.remap f).len = e.len := by
  unfold len; rw [remap_ids]

theorem remap_setSequenceId (e : Encoding) (q : Nat) : (e.remap f).setSequenceId q = (e.setSequenceId q).remap f := by
  cases e
  rw [remap_mk]
  simp only [setSequenceId]
  rw [remap_mk]

theorem remap_setTypeIds (e : Encoding) (l : List Nat) : (e.remap f).setTypeIds l = (e.setTypeIds l).remap f := by
  cases e
  rw [remap_mk]
  simp only [setTypeIds]
  rw [remap_mk]

theorem remap_setOverflowing (e : Encoding) (l : List Encoding) :
    (e.remap f).setOverflowing (l.map (remap f)) = (e.setOverflowing l).remap f := by
  cases e
  rw [remap_mk]
  simp only [setOverflowing]
  rw [remap_mk]

theorem slice?_remap (l : List Range) (a b : Nat) : slice? (l.map f) a b = (slice? l a b).map (·.map f) := by
  unfold slice?
  rw [List.length_map]
  split
  · rw [Option.map_some, List.map_drop, List.map_take]
  · rfl

theorem remap_part (e : Encoding) (r : Range) : (e.remap f).part r = (e.part r).map (remap f) := by
  unfold part
  simp only [remap_ids, remap_typeIds, remap_tokens, remap_words, remap_offsets, remap_specialMask,
    remap_attnMask, slice?_remap]
  cases slice? e.ids r.1 r.2
  · rfl
  cases slice? e.typeIds r.1 r.2
  · rfl
  cases slice? e.tokens r.1 r.2
  · rfl
  cases slice? e.words r.1 r.2
  · rfl
  cases slice? e.offsets r.1 r.2
  · rfl
  cases slice? e.specialMask r.1 r.2
  · rfl
  cases slice? e.attnMask r.1 r.2
  · rfl
  show some _ = some _
  rw [remap_mk]
  rfl

theorem remap_parts (e : Encoding) : ∀ rs : List Range,
    rs.mapM (e.remap f).part = (rs.mapM e.part).map (·.map (remap f))
  | [] => rfl
  | r :: rs => by
    rw [List.mapM_cons, List.mapM_cons, remap_part, remap_parts e rs]
    cases e.part r
    · rfl
    cases rs.mapM e.part <;> rfl

theorem remap_truncate (e : Encoding) (n stride : Nat) (dir : Direction) :
    (e.remap f).truncate n stride dir = (e.truncate n stride dir).map (remap f) := by
  unfold truncate
  rw [remap_len]
  split
  · rfl
  · split
    · rw [Option.map_some, remap_mk]; rfl
    · split
      · rfl
      · split
        · rfl
        · rename_i r rs _
          rw [remap_part, remap_parts]
          cases e.part r
          · rfl
          cases rs.mapM e.part
          · rfl
          show some _ = some _
          rw [remap_setOverflowing]

theorem remap_mergeFlat (e p : Encoding) (ov : List Encoding) :
    mergeFlat (e.remap f) (p.remap f) false (ov.map (remap f)) = (mergeFlat e p false ov).remap f := by
  unfold mergeFlat
  rw [remap_mk]
  simp

theorem remap_mergeWith (e p : Encoding) :
    (e.remap f).mergeWith (p.remap f) false = (e.mergeWith p false).remap f := by
  rw [mergeWith_eq, mergeWith_eq e, ← remap_mergeFlat]
  congr 1
  rw [remap_overflowing, remap_overflowing, List.map_append, List.map_flatMap, List.flatMap_map, List.map_map, List.map_map]
  congr 1
  · refine flatMap_same fun so hso => ?_
    rw [List.map_cons, List.map_map, List.map_map]
    have h1 := sizeOf_mem_overflowing hso
    rw [remap_mergeWith so p]
    congr 1
    refine List.map_congr_left fun po hpo => ?_
    have h2 := sizeOf_mem_overflowing hpo
    exact remap_mergeWith so po
  · refine List.map_congr_left fun po hpo => ?_
    have h2 := sizeOf_mem_overflowing hpo
    exact remap_mergeWith e po
termination_by sizeOf e + sizeOf p

theorem remap_merge (es : List Encoding) : merge (es.map (remap f)) false = (merge es false).remap f := by
  unfold merge
  have : ∀ (es : List Encoding) (acc : Encoding),
      (es.map (remap f)).foldl (fun acc s => acc.mergeWith s false) (acc.remap f)
        = (es.foldl (fun acc s => acc.mergeWith s false) acc).remap f := by
    intro es
    induction es with
    | nil => intro acc; rfl
    | cons e es ih =>
      intro acc
      rw [List.map_cons, List.foldl_cons, List.foldl_cons, remap_mergeWith]
      exact ih _
  have h := this es empty
  rw [remap_empty] at h
  exact h

theorem remap_pad {f : Range → Range} (h0 : f (0, 0) = (0, 0)) (e : Encoding) (target : Nat) (pt : PadTok) (dir : Direction) :
    (e.remap f).pad target pt dir = (e.pad target pt dir).remap f := by
  have hov : (e.remap f).overflowing.map (fun o => pad o target pt dir)
      = (e.overflowing.map fun o => pad o target pt dir).map (remap f) := by
    rw [remap_overflowing, List.map_map, List.map_map]
    refine List.map_congr_left fun o ho => ?_
    have := sizeOf_mem_overflowing ho
    exact remap_pad h0 o target pt dir
  rw [pad_eq, pad_eq e, hov, remap_len]
  split
  · rw [remap_setOverflowing]
  · cases dir <;> simp [remap_mk, h0]
termination_by sizeOf e

end Encoding

open Encoding

variable (f : Range → Range)

/-- Truncating encodings with other offsets. -/
theorem remap_truncateEncodings (e : Encoding) (pair : Option Encoding) (p : TruncParams) :
    truncateEncodings (e.remap f) (pair.map (Encoding.remap f)) p
      = (truncateEncodings e pair p).map fun x => (x.1.remap f, x.2.map (Encoding.remap f)) := by
  unfold truncateEncodings
  cases pair with
  | none =>
    simp only [Option.map_none, remap_len, remap_truncate, orPanic_map]
    split
    · cases orPanic (e.truncate 0 p.stride p.direction) <;> rfl
    · split
      · split
        · generalize orPanic _ = x
          cases x <;> rfl
        · split
          · generalize orPanic _ = x
            cases x <;> rfl
          · rfl
        · rfl
      · rfl
  | some o =>
    simp only [Option.map_some, remap_len, remap_truncate, orPanic_map]
    split
    · generalize orPanic _ = x
      generalize orPanic _ = y
      cases x <;> cases y <;> rfl
    · split
      · split
        · generalize orPanic _ = x
          generalize orPanic _ = y
          cases x <;> cases y <;> rfl
        · split
          · generalize orPanic _ = x
            cases x <;> rfl
          · rfl
        · split
          · generalize orPanic _ = x
            cases x <;> rfl
          · rfl
      · rfl

/-- Padding encodings with other offsets. -/
theorem remap_padEncodings {f : Range → Range} (h0 : f (0, 0) = (0, 0)) (es : List Encoding) (p : PadParams) :
    padEncodings (es.map (Encoding.remap f)) p = (padEncodings es p).map (Encoding.remap f) := by
  have ht : padTarget (es.map (Encoding.remap f)) p = padTarget es p := by
    unfold padTarget
    rw [List.map_map]
    have : Encoding.len ∘ Encoding.remap f = Encoding.len := by funext e; exact remap_len f e
    rw [this]
  unfold padEncodings
  rw [List.isEmpty_map, ht]
  split
  · rfl
  · rw [List.map_map, List.map_map]
    exact List.map_congr_left fun e _ => remap_pad h0 e _ _ _

end Tok
