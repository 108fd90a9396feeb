import Verif.Encoding.Lemmas

/-!
# C117: encodings with other ids

Truncating, merging and padding look at the ids of an encoding only to copy them.
-/

namespace Tok

/-- The encoding with the id `f i` instead of `i`, in the overflowing parts as well. -/
def Encoding.renumber (f : Nat → Nat) : Encoding → Encoding
  | .mk i t k w o s a ov sr => .mk (i.map f) t k w o s a (ov.attach.map fun x => x.1.renumber f) sr
termination_by e => sizeOf e
decreasing_by
  have := List.sizeOf_lt_of_mem x.2
  simp only [Encoding.mk.sizeOf_spec]; omega

/-- The padding token with another id. -/
def Encoding.PadTok.renumber (f : Nat → Nat) (pt : Encoding.PadTok) : Encoding.PadTok := { pt with id := f pt.id }

/-- The padding with another id. -/
def PadParams.renumber (f : Nat → Nat) (p : PadParams) : PadParams := { p with pt := p.pt.renumber f }

namespace Encoding
variable (f : Nat → Nat)

theorem renumber_mk (i t k w o s a ov sr) :
    (mk i t k w o s a ov sr).renumber f = mk (i.map f) t k w o s a (ov.map (renumber f)) sr := by
  rw [renumber]
  congr 1
  exact List.attach_map_val (f := renumber f)

theorem renumber_empty : empty.renumber f = empty := by
  unfold empty; rw [renumber_mk]; rfl

@[simp] theorem renumber_ids (e : Encoding) : (e.renumber f).ids = e.ids.map f := by
  cases e; rw [renumber_mk]; rfl
@[simp] theorem renumber_typeIds (e : Encoding) : (e.renumber f).typeIds = e.typeIds := by
  cases e; rw [renumber_mk]; rfl
@[simp] theorem renumber_tokens (e : Encoding) : (e.renumber f).tokens = e.tokens := by
  cases e; rw [renumber_mk]; rfl
@[simp] theorem renumber_words (e : Encoding) : (e.renumber f).words = e.words := by
  cases e; rw [renumber_mk]; rfl
@[simp] theorem renumber_offsets (e : Encoding) : (e.renumber f).offsets = e.offsets := by
  cases e; rw [renumber_mk]; rfl
@[simp] theorem renumber_specialMask (e : Encoding) : (e.renumber f).specialMask = e.specialMask := by
  cases e; rw [renumber_mk]; rfl
@[simp] theorem renumber_attnMask (e : Encoding) : (e.renumber f).attnMask = e.attnMask := by
  cases e; rw [renumber_mk]; rfl
@[simp] theorem renumber_overflowing (e : Encoding) : (e.renumber f).overflowing = e.overflowing.map (renumber f) := by
  cases e; rw [renumber_mk]; rfl
@[simp] theorem renumber_seqRanges (e : Encoding) : (e.renumber f).seqRanges = e.seqRanges := by
  cases e; rw [renumber_mk]; rfl

@[simp] theorem renumber_len (e : Encoding) : (e.renumber f).len = e.len := by
  unfold len; rw [renumber_ids, List.length_map]

theorem renumber_setSequenceId (e : Encoding) (q : Nat) : (e.renumber f).setSequenceId q = (e.setSequenceId q).renumber f := by
  cases e
  rw [renumber_mk]
  simp only [setSequenceId]
  rw [renumber_mk, List.length_map]

theorem renumber_setTypeIds (e : Encoding) (l : List Nat) : (e.renumber f).setTypeIds l = (e.setTypeIds l).renumber f := by
  cases e
  rw [renumber_mk]
  simp only [setTypeIds]
  rw [renumber_mk]

theorem renumber_setOverflowing (e : Encoding) (l : List Encoding) :
    (e.renumber f).setOverflowing (l.map (renumber f)) = (e.setOverflowing l).renumber f := by
  cases e
  rw [renumber_mk]
  simp only [setOverflowing]
  rw [renumber_mk]

theorem slice?_map (l : List Nat) (a b : Nat) : slice? (l.map f) a b = (slice? l a b).map (·.map f) := by
  unfold slice?
  rw [List.length_map]
  split
  · rw [Option.map_some, List.map_drop, List.map_take]
  · rfl

theorem renumber_part (e : Encoding) (r : Range) : (e.renumber f).part r = (e.part r).map (renumber f) := by
  unfold part
  simp only [renumber_ids, renumber_typeIds, renumber_tokens, renumber_words, renumber_offsets, renumber_specialMask,
    renumber_attnMask, slice?_map]
  cases slice? e.ids r.1 r.2
  · rfl
  cases slice? e.typeIds r.1 r.2
  · rfl
  cases slice? e.tokens r.1 r.2
  · rfl
  cases slice? e.words r.1 r.2
  · rfl
  cases slice? e.offsets r.1 r.2
  · rfl
  cases slice? e.specialMask r.1 r.2
  · rfl
  cases slice? e.attnMask r.1 r.2
  · rfl
  show some _ = some _
  rw [renumber_mk]
  rfl

theorem renumber_parts (e : Encoding) : ∀ rs : List Range,
    rs.mapM (e.renumber f).part = (rs.mapM e.part).map (·.map (renumber f))
  | [] => rfl
  | r :: rs => by
    rw [List.mapM_cons, List.mapM_cons, renumber_part, renumber_parts e rs]
    cases e.part r
    · rfl
    cases rs.mapM e.part <;> rfl

theorem renumber_truncate (e : Encoding) (n stride : Nat) (dir : Direction) :
    (e.renumber f).truncate n stride dir = (e.truncate n stride dir).map (renumber f) := by
  unfold truncate
  rw [renumber_len]
  split
  · rfl
  · split
    · rw [Option.map_some, renumber_mk]; rfl
    · split
      · rfl
      · split
        · rfl
        · rename_i r rs _
          rw [renumber_part, renumber_parts]
          cases e.part r
          · rfl
          cases rs.mapM e.part
          · rfl
          show some _ = some _
          rw [renumber_setOverflowing]

theorem renumber_mergeFlat (e p : Encoding) (g : Bool) (ov : List Encoding) :
    mergeFlat (e.renumber f) (p.renumber f) g (ov.map (renumber f)) = (mergeFlat e p g ov).renumber f := by
  unfold mergeFlat
  rw [renumber_mk]
  simp

theorem flatMap_same {α β : Type} {g h : α → List β} : ∀ {l : List α}, (∀ x ∈ l, g x = h x) → l.flatMap g = l.flatMap h
  | [], _ => rfl
  | x :: l, hl => by
    rw [List.flatMap_cons, List.flatMap_cons, hl x List.mem_cons_self, flatMap_same fun y hy => hl y (List.mem_cons_of_mem _ hy)]

theorem renumber_mergeWith (e p : Encoding) (g : Bool) :
    (e.renumber f).mergeWith (p.renumber f) g = (e.mergeWith p g).renumber f := by
  rw [mergeWith_eq, mergeWith_eq e, ← renumber_mergeFlat]
  congr 1
  rw [renumber_overflowing, renumber_overflowing, List.map_append, List.map_flatMap, List.flatMap_map, List.map_map, List.map_map]
  congr 1
  · refine flatMap_same fun so hso => ?_
    rw [List.map_cons, List.map_map, List.map_map]
    have h1 := sizeOf_mem_overflowing hso
    rw [renumber_mergeWith so p g]
    congr 1
    refine List.map_congr_left fun po hpo => ?_
    have h2 := sizeOf_mem_overflowing hpo
    exact renumber_mergeWith so po g
  · refine List.map_congr_left fun po hpo => ?_
    have h2 := sizeOf_mem_overflowing hpo
    exact renumber_mergeWith e po g
termination_by sizeOf e + sizeOf p

theorem renumber_merge (es : List Encoding) (g : Bool) : merge (es.map (renumber f)) g = (merge es g).renumber f := by
  unfold merge
  have : ∀ (es : List Encoding) (acc : Encoding),
      (es.map (renumber f)).foldl (fun acc s => acc.mergeWith s g) (acc.renumber f)
        = (es.foldl (fun acc s => acc.mergeWith s g) acc).renumber f := by
    intro es
    induction es with
    | nil => intro acc; rfl
    | cons e es ih =>
      intro acc
      rw [List.map_cons, List.foldl_cons, List.foldl_cons, renumber_mergeWith]
      exact ih _
  have h := this es empty
  rw [renumber_empty] at h
  exact h

theorem renumber_pad (e : Encoding) (target : Nat) (pt : PadTok) (dir : Direction) :
    (e.renumber f).pad target (pt.renumber f) dir = (e.pad target pt dir).renumber f := by
  have hov : (e.renumber f).overflowing.map (fun o => pad o target (pt.renumber f) dir)
      = (e.overflowing.map fun o => pad o target pt dir).map (renumber f) := by
    rw [renumber_overflowing, List.map_map, List.map_map]
    refine List.map_congr_left fun o ho => ?_
    have := sizeOf_mem_overflowing ho
    exact renumber_pad o target pt dir
  rw [pad_eq, pad_eq e, hov, renumber_len]
  split
  · rw [renumber_setOverflowing]
  · cases dir <;> simp [renumber_mk, PadTok.renumber]
termination_by sizeOf e

end Encoding

open Encoding

variable (f : Nat → Nat)

theorem orPanic_map {α β : Type} (g : α → β) (x : Option α) : orPanic (x.map g) = (orPanic x).map g := by
  cases x <;> rfl

/-- Truncating encodings with other ids. -/
theorem renumber_truncateEncodings (e : Encoding) (pair : Option Encoding) (p : TruncParams) :
    truncateEncodings (e.renumber f) (pair.map (Encoding.renumber f)) p
      = (truncateEncodings e pair p).map fun x => (x.1.renumber f, x.2.map (Encoding.renumber f)) := by
  unfold truncateEncodings
  cases pair with
  | none =>
    simp only [Option.map_none, renumber_len, renumber_truncate, orPanic_map]
    split
    · cases orPanic (e.truncate 0 p.stride p.direction) <;> rfl
    · split
      · split
        · generalize orPanic _ = x
          cases x <;> rfl
        · split
          · generalize orPanic _ = x
            cases x <;> rfl
          · rfl
        · rfl
      · rfl
  | some o =>
    simp only [Option.map_some, renumber_len, renumber_truncate, orPanic_map]
    split
    · generalize orPanic _ = x
      generalize orPanic _ = y
      cases x <;> cases y <;> rfl
    · split
      · split
        · generalize orPanic _ = x
          generalize orPanic _ = y
          cases x <;> cases y <;> rfl
        · split
          · generalize orPanic _ = x
            cases x <;> rfl
          · rfl
        · split
          · generalize orPanic _ = x
            cases x <;> rfl
          · rfl
      · rfl

/-- Padding encodings with other ids. -/
theorem renumber_padEncodings (es : List Encoding) (p : PadParams) :
    padEncodings (es.map (Encoding.renumber f)) (p.renumber f) = (padEncodings es p).map (Encoding.renumber f) := by
  have ht : padTarget (es.map (Encoding.renumber f)) (p.renumber f) = padTarget es p := by
    unfold padTarget PadParams.renumber
    rw [List.map_map]
    have : Encoding.len ∘ Encoding.renumber f = Encoding.len := by funext e; exact renumber_len f e
    rw [this]
  unfold padEncodings
  rw [List.isEmpty_map, ht]
  split
  · rfl
  · rw [List.map_map, List.map_map]
    exact List.map_congr_left fun e _ => renumber_pad f e _ _ _

end Tok
