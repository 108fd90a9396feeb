import Verif.Post.Model
import Verif.Post.Merge

/-!
# C36: Bert and Roberta post-processing
-/

namespace Tok.Post
open Encoding

/-! ## What the result looks like -/

/-- An inserted token: no word, offsets (0,0), special, attended. -/
def mark (t : Str × Nat) (ty : Nat) : Row := (t.2, ty, t.1, none, (0, 0), 1, 1)

/-- A token of the text, with a given type id: not special, attended. -/
def ordinary (ty : Option Nat) (r : Row) : Row :=
  (r.1, ty.getD r.2.1, r.2.2.1, r.2.2.2.1, r.2.2.2.2.1, 0, 1)

/-- A token with another type id. -/
def retype (ty : Nat) (r : Row) : Row := (r.1, ty, r.2.2)

/-- The encoding is `pre`, then the first sequence `a`, then `mid`, then the second sequence `b` if
there is one, then `post`; sequence 0 covers exactly `a`, sequence 1 exactly `b`, and there is no other
sequence. -/
def Layout (out : Encoding) (pre a mid : List Row) (b : Option (List Row)) (post : List Row) : Prop :=
  out.rows = pre ++ a ++ mid ++ b.getD [] ++ post ∧
  out.seqRanges.get 0 = some (pre.length, pre.length + a.length) ∧
  out.seqRanges.get 1 = b.map (fun b =>
    let n := pre.length + a.length + mid.length
    (n, n + b.length)) ∧
  ∀ q, 2 ≤ q → out.seqRanges.get q = none

/-- The parts (main, then overflowing) of an input, each as a list of tokens: `f` is applied to the
tokens of the main part, `g` to those of the overflowing ones. -/
def partsOf (f g : List Row → List Row) (e : Encoding) : List (List Row) :=
  f e.rows :: e.overflowing.map fun o => g o.rows

/-- The same for an optional second input. -/
def pairPartsOf (f g : List Row → List Row) : Option Encoding → List (Option (List Row))
  | none => [none]
  | some o => (partsOf f g o).map some

/-! ## Rows -/

theorem rows_cons (i t : Nat) (k : Str) (w : Option Nat) (o : Range) (s a : Nat)
    (is ts ks ws os ss as ov sr) :
    (mk (i :: is) (t :: ts) (k :: ks) (w :: ws) (o :: os) (s :: ss) (a :: as) ov sr).rows =
      (i, t, k, w, o, s, a) :: (mk is ts ks ws os ss as ov sr).rows := rfl

theorem rows_ordinary_none {e : Encoding} (h : e.Parallel) (ov sr) :
    (mk e.ids e.typeIds e.tokens e.words e.offsets (List.replicate e.ids.length 0)
      (List.replicate e.ids.length 1) ov sr).rows = e.rows.map (ordinary none) := by
  cases e with
  | mk a b c d f g i o r =>
  obtain ⟨h1, h2, h3, h4, h5, h6⟩ := h
  simp only [ids_mk, typeIds_mk, tokens_mk, words_mk, offsets_mk, specialMask_mk, attnMask_mk] at *
  simp only [rows, ids_mk, typeIds_mk, tokens_mk, words_mk, offsets_mk, specialMask_mk, attnMask_mk]
  clear o r
  induction a generalizing b c d f g i with
  | nil => simp
  | cons x xs ih =>
    cases b with
    | nil => simp at h1
    | cons _ b => cases c with
      | nil => simp at h2
      | cons _ c => cases d with
        | nil => simp at h3
        | cons _ d => cases f with
          | nil => simp at h4
          | cons _ f => cases g with
            | nil => simp at h5
            | cons _ g => cases i with
              | nil => simp at h6
              | cons _ i =>
                simp only [List.length_cons, List.replicate_succ, List.zip_cons_cons, List.map_cons,
                  Nat.add_right_cancel_iff] at *
                rw [ih _ _ _ _ _ _ h1 h2 h3 h4 h5 h6]
                rfl

theorem rows_retype {e : Encoding} (h : e.Parallel) (ty : Nat) (ov sr) :
    (mk e.ids (List.replicate e.ids.length ty) e.tokens e.words e.offsets e.specialMask e.attnMask
      ov sr).rows = e.rows.map (retype ty) := by
  cases e with
  | mk a b c d f g i o r =>
  obtain ⟨h1, h2, h3, h4, h5, h6⟩ := h
  simp only [ids_mk, typeIds_mk, tokens_mk, words_mk, offsets_mk, specialMask_mk, attnMask_mk] at *
  simp only [rows, ids_mk, typeIds_mk, tokens_mk, words_mk, offsets_mk, specialMask_mk, attnMask_mk]
  clear o r
  induction a generalizing b c d f g i with
  | nil => simp
  | cons x xs ih =>
    cases b with
    | nil => simp at h1
    | cons _ b => cases c with
      | nil => simp at h2
      | cons _ c => cases d with
        | nil => simp at h3
        | cons _ d => cases f with
          | nil => simp at h4
          | cons _ f => cases g with
            | nil => simp at h5
            | cons _ g => cases i with
              | nil => simp at h6
              | cons _ i =>
                simp only [List.length_cons, List.replicate_succ, List.zip_cons_cons, List.map_cons,
                  Nat.add_right_cancel_iff] at *
                rw [ih _ _ _ _ _ _ h1 h2 h3 h4 h5 h6]
                rfl

theorem ordinary_retype (ty : Nat) (r : Row) : ordinary none (retype ty r) = ordinary (some ty) r := rfl

theorem setTypeIds_rows {e : Encoding} (h : e.Parallel) (ty : Nat) :
    (e.setTypeIds (List.replicate e.len ty)).rows = e.rows.map (retype ty) := by
  rw [← rows_retype h ty e.overflowing e.seqRanges]
  cases e; rfl

theorem setSequenceId_rows (e : Encoding) (q : Nat) : (e.setSequenceId q).rows = e.rows := by
  cases e; rfl

theorem setTypeIds_wf {e : Encoding} (h : e.WF) (ty : Nat) :
    (e.setTypeIds (List.replicate e.len ty)).WF := by
  have h1 := h.parallel
  have h2 := h.ranges
  have h3 := h.over
  cases e
  refine .intro _ ?_ h2 h3
  obtain ⟨k1, k2, k3, k4, k5, k6⟩ := h1
  exact ⟨by simp [setTypeIds, len], k2, k3, k4, k5, k6⟩

theorem setSequenceId_wf {e : Encoding} (h : e.WF) (q : Nat) : (e.setSequenceId q).WF := by
  have h1 := h.parallel
  have h2 := h.ranges
  have h3 := h.over
  cases e
  refine .intro _ h1 ?_ h3
  intro q' r hm
  simp only [setSequenceId, seqRanges_mk, ids_mk] at hm ⊢
  rcases AMap.mem_insert hm with h | h
  · cases h; exact ⟨Nat.zero_le _, Nat.le_refl _⟩
  · exact h2 _ _ h

theorem prepare_wf {e : Encoding} (h : e.WF) (i : Nat) : (prepare i e).WF := by
  unfold prepare
  refine setTypeIds_wf (setOverflowing_wf (setSequenceId_wf h i) ?_) i
  intro o ho
  obtain ⟨x, hx, rfl⟩ := List.mem_map.1 ho
  refine setSequenceId_wf (h.over x ?_) i
  cases e; exact hx

theorem prepare_rows {e : Encoding} (h : e.Parallel) (i : Nat) :
    (prepare i e).rows = e.rows.map (retype i) := by
  rw [← rows_retype h i [] []]
  cases e; rfl

theorem prepare_len (i : Nat) (e : Encoding) : (prepare i e).len = e.len := by cases e; rfl

theorem prepare_typeIds (i : Nat) (e : Encoding) :
    (prepare i e).typeIds = List.replicate e.len i := by cases e; rfl

theorem prepare_overflowing (i : Nat) (e : Encoding) :
    (prepare i e).overflowing = e.overflowing.map (·.setSequenceId i) := by cases e; rfl

theorem prepare_seqRanges {e : Encoding} (h : e.seqRanges = []) (i : Nat) :
    (prepare i e).seqRanges = [(i, (0, e.len))] := by
  cases e
  simp only [seqRanges_mk] at h; subst h
  rfl

theorem marks_rows (l : List (Str × Nat)) (ty : Nat) (ov sr) :
    (mk (l.map (·.2)) (l.map fun _ => ty) (l.map (·.1)) (l.map fun _ => none)
      (l.map fun _ => (0, 0)) (l.map fun _ => 1) (l.map fun _ => 1) ov sr).rows =
      l.map (mark · ty) := by
  induction l with
  | nil => rfl
  | cons x xs ih => simp only [List.map_cons, rows_cons, ih]; rfl

theorem marks_parallel (l : List (Str × Nat)) (ty : Nat) (ov sr) :
    (mk (l.map (·.2)) (l.map fun _ => ty) (l.map (·.1)) (l.map fun _ => none)
      (l.map fun _ => (0, 0)) (l.map fun _ => 1) (l.map fun _ => 1) ov sr).Parallel := by
  simp [Parallel]

theorem surround_rows {e : Encoding} (h : e.Parallel) (before after : List (Str × Nat))
    {inner : List Nat} (hi : inner.length = e.len) (ty q : Nat) (ov) :
    (surround before after inner ty q ov e).rows =
      before.map (mark · ty) ++
        (mk e.ids inner e.tokens e.words e.offsets (List.replicate e.ids.length 0)
          (List.replicate e.ids.length 1) [] []).rows ++ after.map (mark · ty) := by
  obtain ⟨k1, k2, k3, k4, k5, k6⟩ := h
  have hones : List.replicate (before.length + e.ids.length + after.length) 1 =
      before.map (fun _ => 1) ++ List.replicate e.ids.length 1 ++ after.map (fun _ => 1) := by
    simp [List.map_const', List.replicate_append_replicate]
  unfold surround
  rw [hones]
  rw [rows_append (o := []) (r := []) (o' := []) (r' := [])
    (by simp [Parallel, len] at *; omega),
    rows_append (o := []) (r := []) (o' := []) (r' := []) (by simp [Parallel]),
    marks_rows, marks_rows]

theorem surround_wf {e : Encoding} (h : e.Parallel) (before after : List (Str × Nat))
    {inner : List Nat} (hi : inner.length = e.len) (ty q : Nat) {ov} (hov : ∀ o ∈ ov, WF o) :
    (surround before after inner ty q ov e).WF := by
  obtain ⟨k1, k2, k3, k4, k5, k6⟩ := h
  refine .intro _ ?_ ?_ hov
  · simp [surround, Parallel, len] at *; omega
  · intro q' r hm
    simp only [surround, seqRanges_mk, List.mem_singleton] at hm
    cases hm
    simp [surround]

theorem surround_len (e : Encoding) (before after : List (Str × Nat)) (inner : List Nat) (ty q : Nat)
    (ov) : (surround before after inner ty q ov e).len = before.length + e.len + after.length := by
  simp [surround, len, Nat.add_assoc]

/-! ## Filling -/

/-- The parts of `x` show `pre`, one of `ps`, `post`, in order, and sequence `q` covers exactly the
middle. -/
def Fills (x : Encoding) (q : Nat) (pre post : List Row) (ps : List (List Row)) : Prop :=
  x.parts.map rows = ps.map (fun r => pre ++ r ++ post) ∧
  ∀ c ∈ x.parts, c.WF ∧ c.seqRanges = [(q, (pre.length, c.len - post.length))]

/-- A processor result in which every part follows the layout. -/
def AllLaidOut (out : Encoding) (pre mid post : List Row) (as : List (List Row))
    (bs : List (Option (List Row))) : Prop :=
  (∀ o ∈ out.parts, ∃ a ∈ as, ∃ b ∈ bs, Layout o pre a mid b post) ∧
  (∀ a ∈ as, ∀ b ∈ bs, ∃ o ∈ out.parts, Layout o pre a mid b post) ∧
  out.parts.length = as.length * bs.length

theorem fills_mem {x : Encoding} {q pre post ps} (h : Fills x q pre post ps) {c} (hc : c ∈ x.parts) :
    ∃ r ∈ ps, c.rows = pre ++ r ++ post := by
  have : c.rows ∈ x.parts.map rows := List.mem_map_of_mem hc
  rw [h.1] at this
  obtain ⟨r, hr, e⟩ := List.mem_map.1 this
  exact ⟨r, hr, e.symm⟩

theorem fills_mem' {x : Encoding} {q pre post ps} (h : Fills x q pre post ps) {r} (hr : r ∈ ps) :
    ∃ c ∈ x.parts, c.rows = pre ++ r ++ post := by
  have : pre ++ r ++ post ∈ x.parts.map rows := by
    rw [h.1]; exact List.mem_map_of_mem (f := fun r => pre ++ r ++ post) hr
  obtain ⟨c, hc, e⟩ := List.mem_map.1 this
  exact ⟨c, hc, e⟩

theorem fills_len {x : Encoding} {q pre post ps} (h : Fills x q pre post ps) {c} (hc : c ∈ x.parts)
    {r} (hr : c.rows = pre ++ r ++ post) :
    c.len - post.length = pre.length + r.length ∧ c.len = pre.length + r.length + post.length := by
  have := rows_length (h.2 c hc).1.parallel
  rw [hr] at this
  simp at this
  omega

theorem wf_singleton {q : Nat} {r : Range} : AMap.WF [(q, r)] := by simp [AMap.WF]

theorem get_singleton (q k : Nat) (r : Range) :
    AMap.get [(q, r)] k = if q = k then some r else none := by
  unfold AMap.get
  by_cases h : q = k <;> simp [h]

theorem layout_one {c : Encoding} {pre r post : List Row} {n : Nat}
    (hw : c.WF) (hs : c.seqRanges = [(0, (pre.length, n))]) (hn : n = pre.length + r.length)
    (hr : c.rows = pre ++ r ++ post) : Layout (merge [c] false) pre r post none [] := by
  have hg : ∀ q, (merge [c] false).seqRanges.get q = c.seqRanges.get q := by
    intro q
    rw [merge_ranges _ _ _ (by intro e he; simp at he; subst he; rw [hs]; exact wf_singleton)]
    show (match rangeFrom q (0 + c.len) [] with
      | some r => some r
      | none => (c.seqRanges.get q).map fun r : Range => (0 + r.1, 0 + r.2)) = _
    simp [rangeFrom]
  refine ⟨?_, ?_, ?_, ?_⟩
  · rw [C05_merge_list (by intro e he; simp at he; subst he; exact hw)]
    simp [hr]
  · rw [hg, hs, get_singleton]; simp [hn]
  · rw [hg, hs, get_singleton]; simp
  · intro q hq
    rw [hg, hs, get_singleton, if_neg (by omega)]

theorem layout_two {c d : Encoding} {pre r post pre' r' post' : List Row} {n n' : Nat}
    (hw : c.WF) (hw' : d.WF)
    (hs : c.seqRanges = [(0, (pre.length, n))]) (hn : n = pre.length + r.length)
    (hs' : d.seqRanges = [(1, (pre'.length, n'))]) (hn' : n' = pre'.length + r'.length)
    (hr : c.rows = pre ++ r ++ post) (hr' : d.rows = pre' ++ r' ++ post') :
    Layout (merge [c, d] false) pre r (post ++ pre') (some r') post' := by
  have hl : c.len = pre.length + r.length + post.length := by
    rw [← rows_length hw.parallel, hr]; simp [Nat.add_assoc]
  have hg : ∀ q, (merge [c, d] false).seqRanges.get q =
      if q = 1 then some (c.len + pre'.length, c.len + n') else
        if q = 0 then some (pre.length, n) else none := by
    intro q
    rw [merge_ranges _ _ _ (by
      intro e he; simp at he
      rcases he with rfl | rfl
      · rw [hs]; exact wf_singleton
      · rw [hs']; exact wf_singleton)]
    simp only [rangeFrom, hs, hs', get_singleton]
    by_cases h1 : q = 1
    · subst h1; simp
    · by_cases h0 : q = 0
      · subst h0; simp
      · simp [h0, h1, show ¬ (1 = q) by omega, show ¬ (0 = q) by omega]
  refine ⟨?_, ?_, ?_, ?_⟩
  · rw [C05_merge_list (by
      intro e he; simp at he
      rcases he with rfl | rfl <;> assumption)]
    simp [hr, hr']
  · rw [hg]; simp [hn]
  · rw [hg]; simp [hn', hl, Nat.add_assoc]
  · intro q hq
    rw [hg, if_neg (by omega), if_neg (by omega)]

theorem laid_one {x : Encoding} {pre post ps} (h : Fills x 0 pre post ps) :
    AllLaidOut (merge [x] false) pre post [] ps [none] := by
  refine ⟨?_, ?_, ?_⟩
  · intro o ho
    obtain ⟨cs, hc, rfl⟩ := (C05_merge_list_parts _ _ _).1 ho
    obtain ⟨c, rfl, hc'⟩ := each_singleton.1 hc
    replace hc := hc'
    obtain ⟨r, hr, e⟩ := fills_mem h hc
    exact ⟨r, hr, none, by simp, layout_one (h.2 c hc).1 (h.2 c hc).2 (fills_len h hc e).1 e⟩
  · intro r hr b hb
    simp at hb; subst hb
    obtain ⟨c, hc, e⟩ := fills_mem' h hr
    exact ⟨merge [c] false, (C05_merge_list_parts _ _ _).2 ⟨[c], each_singleton.2 ⟨c, rfl, hc⟩, rfl⟩,
      layout_one (h.2 c hc).1 (h.2 c hc).2 (fills_len h hc e).1 e⟩
  · rw [C05_merge_list_count]
    have := congrArg List.length h.1
    simp at this ⊢
    exact this

theorem laid_two {x y : Encoding} {pre post pre' post' ps ps'} (h : Fills x 0 pre post ps)
    (h' : Fills y 1 pre' post' ps') :
    AllLaidOut (merge [x, y] false) pre (post ++ pre') post' ps (ps'.map some) := by
  refine ⟨?_, ?_, ?_⟩
  · intro o ho
    obtain ⟨cs, hc, rfl⟩ := (C05_merge_list_parts _ _ _).1 ho
    obtain ⟨c, d, rfl, hc', hd⟩ := each_two.1 hc
    replace hc := hc'
    obtain ⟨r, hr, e⟩ := fills_mem h hc
    obtain ⟨r', hr', e'⟩ := fills_mem h' hd
    exact ⟨r, hr, some r', List.mem_map_of_mem hr', layout_two (h.2 c hc).1 (h'.2 d hd).1 (h.2 c hc).2
      (fills_len h hc e).1 (h'.2 d hd).2 (fills_len h' hd e').1 e e'⟩
  · intro r hr b hb
    obtain ⟨r', hr', rfl⟩ := List.mem_map.1 hb
    obtain ⟨c, hc, e⟩ := fills_mem' h hr
    obtain ⟨d, hd, e'⟩ := fills_mem' h' hr'
    exact ⟨merge [c, d] false,
      (C05_merge_list_parts _ _ _).2 ⟨[c, d], each_two.2 ⟨c, d, rfl, hc, hd⟩, rfl⟩,
      layout_two (h.2 c hc).1 (h'.2 d hd).1 (h.2 c hc).2
      (fills_len h hc e).1 (h'.2 d hd).2 (fills_len h' hd e').1 e e'⟩
  · rw [C05_merge_list_count]
    have := congrArg List.length h.1
    have := congrArg List.length h'.1
    simp at *
    simp [*]

/-- The tokens in the middle of `surround`. -/
def middle (e : Encoding) (inner : List Nat) : List Row :=
  (mk e.ids inner e.tokens e.words e.offsets (List.replicate e.ids.length 0)
    (List.replicate e.ids.length 1) [] []).rows

theorem middle_none {e : Encoding} (h : e.Parallel) : middle e e.typeIds = e.rows.map (ordinary none) :=
  rows_ordinary_none h _ _

theorem setTypeIds_parallel {e : Encoding} (h : e.Parallel) (ty : Nat) :
    (e.setTypeIds (List.replicate e.len ty)).Parallel := by
  cases e
  obtain ⟨k1, k2, k3, k4, k5, k6⟩ := h
  exact ⟨by simp [setTypeIds, len], k2, k3, k4, k5, k6⟩

theorem middle_replicate {e : Encoding} (h : e.Parallel) (ty : Nat) :
    middle e (List.replicate e.ids.length ty) = e.rows.map (ordinary (some ty)) := by
  have h1 := middle_none (setTypeIds_parallel h ty)
  rw [setTypeIds_rows h, List.map_map] at h1
  have : middle e (List.replicate e.ids.length ty) =
      middle (e.setTypeIds (List.replicate e.len ty)) (e.setTypeIds (List.replicate e.len ty)).typeIds := by
    cases e; rfl
  rw [this, h1]; rfl

theorem length_middle {e : Encoding} (h : e.Parallel) {inner : List Nat} (hi : inner.length = e.len) :
    (middle e inner).length = e.len := by
  obtain ⟨k1, k2, k3, k4, k5, k6⟩ := h
  unfold len at hi
  simp [middle, rows, len, *]

theorem fills_surround {e : Encoding} (h : e.Parallel) (before after : List (Str × Nat))
    {inner : List Nat} (hi : inner.length = e.len) (ty q : Nat) {ovs : List Encoding}
    (hov : ∀ o ∈ ovs, o.Parallel) {io : Encoding → List Nat} (hio : ∀ o ∈ ovs, (io o).length = o.len) :
    Fills (surround before after inner ty q
        (ovs.map fun o => surround before after (io o) ty q [] o) e) q
      (before.map (mark · ty)) (after.map (mark · ty))
      (middle e inner :: ovs.map fun o => middle o (io o)) := by
  have hwo : ∀ o ∈ ovs, (surround before after (io o) ty q [] o).WF := fun o ho =>
    surround_wf (hov o ho) _ _ (hio o ho) _ _ (by intro x hx; cases hx)
  have hsr : ∀ (x : Encoding) (ti : List Nat) ov, (surround before after ti ty q ov x).seqRanges =
      [(q, ((before.map (mark · ty)).length,
        (surround before after ti ty q ov x).len - (after.map (mark · ty)).length))] := by
    intro x ti ov
    rw [surround_len]
    simp [surround, len]
  refine ⟨?_, ?_⟩
  · simp only [parts, List.map_cons, List.cons.injEq]
    refine ⟨surround_rows h _ _ hi _ _ _, ?_⟩
    show (ovs.map _).map _ = _
    rw [List.map_map, List.map_map]
    apply List.map_congr_left
    intro o ho
    exact surround_rows (hov o ho) _ _ (hio o ho) _ _ _
  · intro c hc
    rcases List.mem_cons.1 hc with rfl | hc
    · refine ⟨surround_wf h _ _ hi _ _ ?_, hsr _ _ _⟩
      intro o ho
      obtain ⟨x, hx, rfl⟩ := List.mem_map.1 ho
      exact hwo x hx
    · obtain ⟨x, hx, rfl⟩ := List.mem_map.1 (show c ∈ ovs.map _ from hc)
      exact ⟨hwo x hx, hsr _ _ _⟩

/-! ## Bert -/

theorem fills_bert {e : Encoding} (h : e.WF) (before after : List (Str × Nat)) (i ty : Nat) :
    Fills (surround before after (prepare i e).typeIds ty i
        ((prepare i e).overflowing.map fun o => surround before after o.typeIds ty i [] o) (prepare i e)) i
      (before.map (mark · ty)) (after.map (mark · ty))
      (partsOf (·.map (ordinary (some i))) (·.map (ordinary none)) e) := by
  have hp := (prepare_wf h i).parallel
  have ho : ∀ o ∈ (prepare i e).overflowing, o.Parallel := fun o ho =>
    ((prepare_wf h i).over o ho).parallel
  have := fills_surround hp before after (inner := (prepare i e).typeIds) hp.1 ty i ho
    (io := typeIds) (fun o h => (ho o h).1)
  have e1 : middle (prepare i e) (prepare i e).typeIds = e.rows.map (ordinary (some i)) := by
    rw [middle_none hp, prepare_rows h.parallel, List.map_map]; rfl
  have e2 : ((prepare i e).overflowing.map fun o => middle o o.typeIds) =
      e.overflowing.map fun o => o.rows.map (ordinary none) := by
    rw [prepare_overflowing, List.map_map]
    apply List.map_congr_left
    intro o hm
    show middle (o.setSequenceId i) (o.setSequenceId i).typeIds = _
    rw [middle_none (setSequenceId_wf (h.over o hm) i).parallel, setSequenceId_rows]
  rw [e1, e2] at this
  exact this

/-- The tokens added by a processor. -/
def addedTo (p : Proc) (pair : Option Encoding) : Nat := p.added pair.isSome

/-- **C36 (Bert).** With special tokens, the result is `[CLS] A [SEP]`, and `B [SEP]` if there is a
second sequence: the inserted tokens carry mask 1, the tokens of the text mask 0, type ids are 0 up to
and including the first `[SEP]` and 1 after it, the sequence ranges cover exactly `A` and `B`, and the
number of tokens grows by `added_tokens`. The same layout, over one part of each sequence, holds for
each overflowing part, and each combination of parts occurs; the tokens of an overflowing part keep
their own type ids. -/
theorem C36_bert (ws : Char → Bool) (m : Marks) {e : Encoding} {pair : Option Encoding} (he : e.WF)
    (hp : ∀ o, pair = some o → o.WF) :
    ∃ out, (Proc.bert m).process ws e pair true = some out ∧
      Layout out [mark m.cls 0] (e.rows.map (ordinary (some 0))) [mark m.sep 0]
        (pair.map fun o => o.rows.map (ordinary (some 1))) (if pair.isSome then [mark m.sep 1] else []) ∧
      AllLaidOut out [mark m.cls 0] [mark m.sep 0] (if pair.isSome then [mark m.sep 1] else [])
        (partsOf (·.map (ordinary (some 0))) (·.map (ordinary none)) e)
        (pairPartsOf (·.map (ordinary (some 1))) (·.map (ordinary none)) pair) ∧
      out.len = e.len + pair.elim 0 len + addedTo (.bert m) pair := by
  have hf := fills_bert he [m.cls] [m.sep] 0 0
  cases pair with
  | none =>
    refine ⟨merge [bertFirst m (prepare 0 e)] false, rfl, ?_, laid_one hf, ?_⟩
    · have hc : bertFirst m (prepare 0 e) ∈ (bertFirst m (prepare 0 e)).parts := by simp [parts]
      have h1 := List.head_eq_of_cons_eq hf.1
      exact layout_one (hf.2 _ hc).1 (hf.2 _ hc).2 (fills_len hf hc h1).1 h1
    · rw [merge_len]
      simp [bertFirst, surround_len, prepare_len, addedTo, Proc.added, bertAdded]
      omega
  | some o =>
    have hg := fills_bert (hp o rfl) [] [m.sep] 1 1
    refine ⟨merge [bertFirst m (prepare 0 e), bertOther m (prepare 1 o)] false, rfl, ?_, laid_two hf hg, ?_⟩
    · have hc : bertFirst m (prepare 0 e) ∈ (bertFirst m (prepare 0 e)).parts := by simp [parts]
      have hd : bertOther m (prepare 1 o) ∈ (bertOther m (prepare 1 o)).parts := by simp [parts]
      have h1 := List.head_eq_of_cons_eq hf.1
      have h2 := List.head_eq_of_cons_eq hg.1
      exact layout_two (hf.2 _ hc).1 (hg.2 _ hd).1 (hf.2 _ hc).2 (fills_len hf hc h1).1
        (hg.2 _ hd).2 (fills_len hg hd h2).1 h1 h2
    · rw [merge_len]
      simp [bertFirst, bertOther, surround_len, prepare_len, addedTo, Proc.added, bertAdded]
      omega

/-- An encoding as produced by tokenization and truncation: no recorded sequence ranges yet. -/
def Fresh (e : Encoding) : Prop := e.seqRanges = [] ∧ ∀ o ∈ e.overflowing, o.seqRanges = []

theorem fills_prepare {e : Encoding} (h : e.WF) (hf : Fresh e) (i : Nat) :
    Fills (prepare i e) i [] [] (partsOf (·.map (retype i)) id e) := by
  refine ⟨?_, ?_⟩
  · simp only [parts, partsOf, List.map_cons, List.cons.injEq]
    refine ⟨by rw [prepare_rows h.parallel]; simp, ?_⟩
    rw [prepare_overflowing, List.map_map, List.map_map]
    apply List.map_congr_left
    intro o _
    simp [setSequenceId_rows]
  · intro c hc
    rcases List.mem_cons.1 hc with rfl | hc
    · exact ⟨prepare_wf h i, by rw [prepare_seqRanges hf.1, prepare_len]; rfl⟩
    · rw [prepare_overflowing] at hc
      obtain ⟨x, hx, rfl⟩ := List.mem_map.1 hc
      exact ⟨setSequenceId_wf (h.over x hx) i, by
        rw [setSequenceId_seqRanges _ _ (hf.2 x hx), setSequenceId_len]; rfl⟩

/-- **C36 (Bert, special tokens off).** Only the tokens of the sequences, in order, each main part with
the sequence number as type id. -/
theorem C36_bert_off (ws : Char → Bool) (m : Marks) {e : Encoding} {pair : Option Encoding} (he : e.WF)
    (hef : Fresh e) (hp : ∀ o, pair = some o → o.WF ∧ Fresh o) :
    ∃ out, (Proc.bert m).process ws e pair false = some out ∧
      Layout out [] (e.rows.map (retype 0)) [] (pair.map fun o => o.rows.map (retype 1)) [] ∧
      AllLaidOut out [] [] [] (partsOf (·.map (retype 0)) id e)
        (pairPartsOf (·.map (retype 1)) id pair) ∧
      out.len = e.len + pair.elim 0 len := by
  have hf := fills_prepare he hef 0
  have hc : prepare 0 e ∈ (prepare 0 e).parts := by simp [parts]
  have h1 := List.head_eq_of_cons_eq hf.1
  cases pair with
  | none =>
    refine ⟨merge [prepare 0 e] false, rfl, ?_, laid_one hf, ?_⟩
    · exact layout_one (hf.2 _ hc).1 (hf.2 _ hc).2 (fills_len hf hc h1).1 h1
    · rw [merge_len]; simp [prepare_len]
  | some o =>
    have hg := fills_prepare (hp o rfl).1 (hp o rfl).2 1
    have hd : prepare 1 o ∈ (prepare 1 o).parts := by simp [parts]
    have h2 := List.head_eq_of_cons_eq hg.1
    refine ⟨merge [prepare 0 e, prepare 1 o] false, rfl, ?_, laid_two hf hg, ?_⟩
    · exact layout_two (hf.2 _ hc).1 (hg.2 _ hd).1 (hf.2 _ hc).2 (fills_len hf hc h1).1
        (hg.2 _ hd).2 (fills_len hg hd h2).1 h1 h2
    · rw [merge_len]; simp [prepare_len]

/-! ## Roberta -/

/-- The trimmed offsets of each token, computed from its position, text and offsets. -/
def trimRowsFrom (ws : Char → Bool) (aps : Bool) : Nat → List Row → List Row
  | _, [] => []
  | i, r :: rs =>
    (r.1, r.2.1, r.2.2.1, r.2.2.2.1, ByteLevel.trimOne ws aps i r.2.2.1 r.2.2.2.2.1, r.2.2.2.2.2) ::
      trimRowsFrom ws aps (i + 1) rs

/-- Offsets trimmed if asked for. -/
def trimmed (ws : Char → Bool) (trim aps : Bool) (l : List Row) : List Row :=
  if trim then trimRowsFrom ws aps 0 l else l

theorem length_trimRowsFrom (ws : Char → Bool) (aps : Bool) : ∀ (l : List Row) i,
    (trimRowsFrom ws aps i l).length = l.length := by
  intro l
  induction l with
  | nil => intro i; rfl
  | cons x xs ih => intro i; simp [trimRowsFrom, ih]

theorem trimRowsFrom_map (ws : Char → Bool) (aps : Bool) (ty : Nat) : ∀ (l : List Row) i,
    trimRowsFrom ws aps i (l.map (retype ty)) = (trimRowsFrom ws aps i l).map (retype ty) := by
  intro l
  induction l with
  | nil => intro i; rfl
  | cons x xs ih => intro i; simp only [trimRowsFrom, ih, List.map_cons]; rfl

theorem processOffsets_rows (ws : Char → Bool) (aps : Bool) {e : Encoding} (h : e.Parallel) :
    (ByteLevel.processOffsets ws aps e).rows = trimRowsFrom ws aps 0 e.rows := by
  cases e with
  | mk a b c d f g i o r =>
  obtain ⟨h1, h2, h3, h4, h5, h6⟩ := h
  simp only [ids_mk, typeIds_mk, tokens_mk, words_mk, offsets_mk, specialMask_mk, attnMask_mk] at *
  simp only [ByteLevel.processOffsets, rows, ids_mk, typeIds_mk, tokens_mk, words_mk, offsets_mk,
    specialMask_mk, attnMask_mk]
  clear o r
  generalize 0 = k
  induction a generalizing b c d f g i k with
  | nil => simp [trimRowsFrom]
  | cons x xs ih =>
    cases b with
    | nil => simp at h1
    | cons _ b => cases c with
      | nil => simp at h2
      | cons _ c => cases d with
        | nil => simp at h3
        | cons _ d => cases f with
          | nil => simp at h4
          | cons _ f => cases g with
            | nil => simp at h5
            | cons _ g => cases i with
              | nil => simp at h6
              | cons _ i =>
                simp only [List.length_cons, List.zip_cons_cons, List.map_cons, List.zipIdx_cons,
                  Nat.add_right_cancel_iff, trimRowsFrom] at *
                rw [ih _ _ _ _ _ _ h1 h2 h3 h4 h5 h6]

theorem processOffsets_wf (ws : Char → Bool) (aps : Bool) {e : Encoding} (h : e.WF) :
    (ByteLevel.processOffsets ws aps e).WF := by
  have h1 := h.parallel
  have h2 := h.ranges
  have h3 := h.over
  cases e
  refine .intro _ ?_ h2 h3
  obtain ⟨k1, k2, k3, k4, k5, k6⟩ := h1
  refine ⟨k1, k2, k3, ?_, k5, k6⟩
  simp [ByteLevel.processOffsets] at *
  omega

theorem processOffsets_len (ws : Char → Bool) (aps : Bool) (e : Encoding) :
    (ByteLevel.processOffsets ws aps e).len = e.len := by cases e; rfl

theorem processOffsets_seqRanges (ws : Char → Bool) (aps : Bool) (e : Encoding) :
    (ByteLevel.processOffsets ws aps e).seqRanges = e.seqRanges := by cases e; rfl

theorem processOffsets_overflowing (ws : Char → Bool) (aps : Bool) (e : Encoding) :
    (ByteLevel.processOffsets ws aps e).overflowing = e.overflowing := by cases e; rfl

theorem trimAll_wf (ws : Char → Bool) (aps : Bool) {e : Encoding} (h : e.WF) :
    (trimAll ws aps e).WF := by
  have hw := processOffsets_wf ws aps h
  have : trimAll ws aps e = (ByteLevel.processOffsets ws aps e).setOverflowing
      ((ByteLevel.processOffsets ws aps e).overflowing.map (ByteLevel.processOffsets ws aps)) := by
    cases e; rfl
  rw [this]
  refine setOverflowing_wf hw ?_
  intro o ho
  obtain ⟨x, hx, rfl⟩ := List.mem_map.1 ho
  exact processOffsets_wf ws aps (hw.over x hx)

theorem trimAll_rows (ws : Char → Bool) (aps : Bool) {e : Encoding} (h : e.Parallel) :
    (trimAll ws aps e).rows = trimRowsFrom ws aps 0 e.rows := by
  rw [← processOffsets_rows ws aps h]; cases e; rfl

theorem trimAll_overflowing (ws : Char → Bool) (aps : Bool) (e : Encoding) :
    (trimAll ws aps e).overflowing = e.overflowing.map (ByteLevel.processOffsets ws aps) := by
  cases e; rfl

theorem trimAll_len (ws : Char → Bool) (aps : Bool) (e : Encoding) :
    (trimAll ws aps e).len = e.len := by cases e; rfl

theorem trimAll_seqRanges (ws : Char → Bool) (aps : Bool) (e : Encoding) :
    (trimAll ws aps e).seqRanges = e.seqRanges := by cases e; rfl

/-- What `RobertaProcessing` does to one input before inserting tokens. -/
def robertaInput (ws : Char → Bool) (trim aps : Bool) (i : Nat) (e : Encoding) : Encoding :=
  let x := if trim then trimAll ws aps (prepare i e) else prepare i e
  x.setTypeIds (List.replicate x.len 0)

theorem robertaInput_wf (ws : Char → Bool) (trim aps : Bool) (i : Nat) {e : Encoding} (h : e.WF) :
    (robertaInput ws trim aps i e).WF := by
  unfold robertaInput
  cases trim
  · exact setTypeIds_wf (prepare_wf h i) 0
  · exact setTypeIds_wf (trimAll_wf ws aps (prepare_wf h i)) 0

theorem map_retype_retype (a b : Nat) (l : List Row) :
    (l.map (retype a)).map (retype b) = l.map (retype b) := by
  rw [List.map_map]; rfl

theorem robertaInput_rows (ws : Char → Bool) (trim aps : Bool) (i : Nat) {e : Encoding} (h : e.WF) :
    (robertaInput ws trim aps i e).rows = (trimmed ws trim aps e.rows).map (retype 0) := by
  unfold robertaInput trimmed
  cases trim
  · show (setTypeIds (prepare i e) (List.replicate (prepare i e).len 0)).rows = _
    rw [setTypeIds_rows (prepare_wf h i).parallel, prepare_rows h.parallel, map_retype_retype]
    rfl
  · show (setTypeIds (trimAll ws aps (prepare i e))
      (List.replicate (trimAll ws aps (prepare i e)).len 0)).rows = _
    rw [setTypeIds_rows (trimAll_wf ws aps (prepare_wf h i)).parallel,
      trimAll_rows ws aps (prepare_wf h i).parallel, prepare_rows h.parallel, trimRowsFrom_map,
      map_retype_retype]
    rfl

theorem robertaInput_len (ws : Char → Bool) (trim aps : Bool) (i : Nat) (e : Encoding) :
    (robertaInput ws trim aps i e).len = e.len := by
  unfold robertaInput
  cases trim <;> cases e <;> rfl

theorem robertaInput_typeIds (ws : Char → Bool) (trim aps : Bool) (i : Nat) (e : Encoding) :
    (robertaInput ws trim aps i e).typeIds = List.replicate (robertaInput ws trim aps i e).ids.length 0 := by
  unfold robertaInput
  cases trim <;> cases e <;> rfl

theorem robertaInput_seqRanges (ws : Char → Bool) (trim aps : Bool) (i : Nat) (e : Encoding) :
    (robertaInput ws trim aps i e).seqRanges = (prepare i e).seqRanges := by
  unfold robertaInput
  cases trim <;> cases e <;> rfl

theorem robertaInput_overflowing (ws : Char → Bool) (trim aps : Bool) (i : Nat) (e : Encoding) :
    (robertaInput ws trim aps i e).overflowing = e.overflowing.map fun o =>
      if trim then ByteLevel.processOffsets ws aps (o.setSequenceId i) else o.setSequenceId i := by
  unfold robertaInput
  cases trim
  · cases e; rfl
  · cases e
    show List.map _ (List.map _ _) = _
    rw [List.map_map]
    rfl

theorem overflow_rows (ws : Char → Bool) (trim aps : Bool) (i : Nat) {o : Encoding} (h : o.WF) :
    (if trim then ByteLevel.processOffsets ws aps (o.setSequenceId i) else o.setSequenceId i).rows =
      trimmed ws trim aps o.rows := by
  unfold trimmed
  cases trim
  · exact setSequenceId_rows o i
  · show (ByteLevel.processOffsets ws aps (o.setSequenceId i)).rows = trimRowsFrom ws aps 0 o.rows
    rw [processOffsets_rows ws aps (setSequenceId_wf h i).parallel, setSequenceId_rows]

theorem overflow_wf (ws : Char → Bool) (trim aps : Bool) (i : Nat) {o : Encoding} (h : o.WF) :
    (if trim then ByteLevel.processOffsets ws aps (o.setSequenceId i) else o.setSequenceId i).WF := by
  cases trim
  · exact setSequenceId_wf h i
  · exact processOffsets_wf ws aps (setSequenceId_wf h i)

theorem fills_roberta (ws : Char → Bool) (trim aps : Bool) {e : Encoding} (h : e.WF)
    (before after : List (Str × Nat)) (i : Nat) :
    let x := robertaInput ws trim aps i e
    Fills (surround before after x.typeIds 0 i
        (x.overflowing.map fun o => surround before after (List.replicate o.ids.length 0) 0 i [] o) x) i
      (before.map (mark · 0)) (after.map (mark · 0))
      (partsOf (fun l => (trimmed ws trim aps l).map (ordinary (some 0)))
        (fun l => (trimmed ws trim aps l).map (ordinary (some 0))) e) := by
  intro x
  have hw : x.WF := robertaInput_wf ws trim aps i h
  have hp := hw.parallel
  have ho : ∀ o ∈ x.overflowing, o.Parallel := fun o ho => (hw.over o ho).parallel
  have := fills_surround hp before after (inner := x.typeIds) hp.1 0 i ho
    (io := fun o => List.replicate o.ids.length 0) (fun o h => by simp [len])
  have e1 : middle x x.typeIds = (trimmed ws trim aps e.rows).map (ordinary (some 0)) := by
    rw [middle_none hp, robertaInput_rows ws trim aps i h, List.map_map]; rfl
  have e2 : (x.overflowing.map fun o => middle o (List.replicate o.ids.length 0)) =
      e.overflowing.map fun o => (trimmed ws trim aps o.rows).map (ordinary (some 0)) := by
    rw [robertaInput_overflowing, List.map_map]
    apply List.map_congr_left
    intro o hm
    rw [Function.comp_apply, middle_replicate (overflow_wf ws trim aps i (h.over o hm)).parallel,
      overflow_rows ws trim aps i (h.over o hm)]
  rw [e1, e2] at this
  exact this

/-- **C36 (Roberta).** With special tokens, the result is `<s> A </s>`, and `</s> B </s>` if there is a
second sequence, with all type ids 0, mask 1 exactly on the inserted tokens, the sequence ranges
covering exactly `A` and `B`, `added_tokens` more tokens than before, offsets trimmed as configured;
the same for each overflowing part. -/
theorem C36_roberta (ws : Char → Bool) (m : Marks) (trim aps : Bool) {e : Encoding}
    {pair : Option Encoding} (he : e.WF) (hp : ∀ o, pair = some o → o.WF) :
    let f : List Row → List Row := fun l => (trimmed ws trim aps l).map (ordinary (some 0))
    let mid := if pair.isSome then [mark m.sep 0, mark m.sep 0] else [mark m.sep 0]
    let post := if pair.isSome then [mark m.sep 0] else []
    ∃ out, (Proc.roberta m trim aps).process ws e pair true = some out ∧
      Layout out [mark m.cls 0] (f e.rows) mid (pair.map fun o => f o.rows) post ∧
      AllLaidOut out [mark m.cls 0] mid post (partsOf f f e) (pairPartsOf f f pair) ∧
      out.len = e.len + pair.elim 0 len + addedTo (.roberta m trim aps) pair := by
  intro f mid post
  have hf := fills_roberta ws trim aps he [m.cls] [m.sep] 0
  cases pair with
  | none =>
    refine ⟨merge [robertaFirst m (robertaInput ws trim aps 0 e)] false, ?_, ?_, laid_one hf, ?_⟩
    · simp only [Proc.process, Proc.processEncodings, robertaProcess, robertaInput]
      cases trim <;> rfl
    · have hc : robertaFirst m (robertaInput ws trim aps 0 e) ∈
          (robertaFirst m (robertaInput ws trim aps 0 e)).parts := by simp [parts]
      have h1 := List.head_eq_of_cons_eq hf.1
      exact layout_one (hf.2 _ hc).1 (hf.2 _ hc).2 (fills_len hf hc h1).1 h1
    · rw [merge_len]
      simp [robertaFirst, surround_len, robertaInput_len, addedTo, Proc.added, robertaAdded]
      omega
  | some o =>
    have hg := fills_roberta ws trim aps (hp o rfl) [m.sep] [m.sep] 1
    have hother : surround [m.sep] [m.sep] (robertaInput ws trim aps 1 o).typeIds 0 1
        ((robertaInput ws trim aps 1 o).overflowing.map fun o =>
          surround [m.sep] [m.sep] (List.replicate o.ids.length 0) 0 1 [] o)
        (robertaInput ws trim aps 1 o) = robertaOther m (robertaInput ws trim aps 1 o) := by
      rw [robertaInput_typeIds]; rfl
    dsimp only at hg
    rw [hother] at hg
    refine ⟨merge [robertaFirst m (robertaInput ws trim aps 0 e),
      robertaOther m (robertaInput ws trim aps 1 o)] false, ?_, ?_, laid_two hf hg, ?_⟩
    · simp only [Proc.process, Proc.processEncodings, robertaProcess, robertaInput]
      cases trim <;> rfl
    · have hc : robertaFirst m (robertaInput ws trim aps 0 e) ∈
          (robertaFirst m (robertaInput ws trim aps 0 e)).parts := by simp [parts]
      have hd : robertaOther m (robertaInput ws trim aps 1 o) ∈
          (robertaOther m (robertaInput ws trim aps 1 o)).parts := by simp [parts]
      have h1 := List.head_eq_of_cons_eq hf.1
      have h2 := List.head_eq_of_cons_eq hg.1
      exact layout_two (hf.2 _ hc).1 (hg.2 _ hd).1 (hf.2 _ hc).2 (fills_len hf hc h1).1
        (hg.2 _ hd).2 (fills_len hg hd h2).1 h1 h2
    · rw [merge_len]
      simp [robertaFirst, robertaOther, surround_len, robertaInput_len, addedTo, Proc.added, robertaAdded]
      omega

/-- **C36 (Roberta, special tokens off).** Only the tokens of the sequences in order, type ids of the
main parts 0, offsets trimmed as configured. -/
theorem C36_roberta_off (ws : Char → Bool) (m : Marks) (trim aps : Bool) {e : Encoding}
    {pair : Option Encoding} (he : e.WF) (hef : Fresh e)
    (hp : ∀ o, pair = some o → o.WF ∧ Fresh o) :
    let f : List Row → List Row := fun l => (trimmed ws trim aps l).map (retype 0)
    let g : List Row → List Row := trimmed ws trim aps
    ∃ out, (Proc.roberta m trim aps).process ws e pair false = some out ∧
      Layout out [] (f e.rows) [] (pair.map fun o => f o.rows) [] ∧
      AllLaidOut out [] [] [] (partsOf f g e) (pairPartsOf f g pair) ∧
      out.len = e.len + pair.elim 0 len := by
  intro f g
  have fills : ∀ (i : Nat) (e : Encoding), e.WF → Fresh e →
      Fills (robertaInput ws trim aps i e) i [] [] (partsOf f g e) := by
    intro i e h hfr
    refine ⟨?_, ?_⟩
    · simp only [parts, partsOf, List.map_cons, List.cons.injEq]
      refine ⟨by rw [robertaInput_rows ws trim aps i h]; simp [f], ?_⟩
      rw [robertaInput_overflowing, List.map_map, List.map_map]
      apply List.map_congr_left
      intro o ho
      rw [Function.comp_apply, overflow_rows ws trim aps i (h.over o ho)]
      simp [g]
    · intro c hc
      rcases List.mem_cons.1 hc with rfl | hc
      · exact ⟨robertaInput_wf ws trim aps i h, by
          rw [robertaInput_seqRanges, prepare_seqRanges hfr.1, robertaInput_len]; rfl⟩
      · rw [robertaInput_overflowing] at hc
        obtain ⟨x, hx, rfl⟩ := List.mem_map.1 hc
        refine ⟨overflow_wf ws trim aps i (h.over x hx), ?_⟩
        cases trim
        · show (x.setSequenceId i).seqRanges = _
          rw [setSequenceId_seqRanges _ _ (hfr.2 x hx)]
          show _ = [(i, (0, (x.setSequenceId i).len - 0))]
          rw [setSequenceId_len]; rfl
        · show (ByteLevel.processOffsets ws aps (x.setSequenceId i)).seqRanges =
            [(i, (0, (ByteLevel.processOffsets ws aps (x.setSequenceId i)).len - 0))]
          rw [processOffsets_seqRanges, setSequenceId_seqRanges _ _ (hfr.2 x hx), processOffsets_len,
            setSequenceId_len]
          rfl
  have hf := fills 0 e he hef
  have hc : robertaInput ws trim aps 0 e ∈ (robertaInput ws trim aps 0 e).parts := by simp [parts]
  have h1 := List.head_eq_of_cons_eq hf.1
  cases pair with
  | none =>
    refine ⟨merge [robertaInput ws trim aps 0 e] false, ?_, ?_, laid_one hf, ?_⟩
    · simp only [Proc.process, Proc.processEncodings, robertaProcess, robertaInput]
      cases trim <;> rfl
    · exact layout_one (hf.2 _ hc).1 (hf.2 _ hc).2 (fills_len hf hc h1).1 h1
    · rw [merge_len]; simp [robertaInput_len]
  | some o =>
    have hg := fills 1 o (hp o rfl).1 (hp o rfl).2
    have hd : robertaInput ws trim aps 1 o ∈ (robertaInput ws trim aps 1 o).parts := by simp [parts]
    have h2 := List.head_eq_of_cons_eq hg.1
    refine ⟨merge [robertaInput ws trim aps 0 e, robertaInput ws trim aps 1 o] false, ?_, ?_,
      laid_two hf hg, ?_⟩
    · simp only [Proc.process, Proc.processEncodings, robertaProcess, robertaInput]
      cases trim <;> rfl
    · exact layout_two (hf.2 _ hc).1 (hg.2 _ hd).1 (hf.2 _ hc).2 (fills_len hf hc h1).1
        (hg.2 _ hd).2 (fills_len hg hd h2).1 h1 h2
    · rw [merge_len]; simp [robertaInput_len]

/-! ## Examples -/

/-- The two special tokens of the examples. -/
def sampleMarks : Marks := ⟨(['S'], 102), (['C'], 101)⟩

/-- Inputs with overflowing parts meeting the hypotheses of the four theorems, and the resulting ids of
the main part and of the overflowing parts. -/
example : ∃ e, sampleEnc.truncate 2 1 .right = some e ∧ e.WF ∧ Fresh e ∧ e.overflowing.length = 1 ∧
    ((Proc.bert sampleMarks).process (fun _ => false) e (some sampleEnc) true).map
        (fun o => (o.ids, o.typeIds, o.overflowing.map ids)) =
      some ([101, 1, 2, 102, 1, 2, 3, 102], [0, 0, 0, 0, 1, 1, 1, 1],
        [[101, 2, 3, 102, 1, 2, 3, 102]]) ∧
    ((Proc.bert sampleMarks).process (fun _ => false) e none false).map (·.ids) = some [1, 2] ∧
    ((Proc.roberta sampleMarks true true).process (fun _ => false) e (some sampleEnc) true).map (·.ids) =
      some [101, 1, 2, 102, 102, 1, 2, 3, 102] ∧
    ((Proc.roberta sampleMarks true true).process (fun _ => false) e none false).map (·.ids) =
      some [1, 2] :=
  have ht : sampleEnc.truncate 2 1 .right = some _ := rfl
  ⟨_, ht, truncate_wf (C01_reachable_wf (.tokens _ _)) ht, ⟨rfl, by decide +kernel⟩, rfl,
    by decide +kernel, by decide +kernel, by decide +kernel, by decide +kernel⟩

end Tok.Post
