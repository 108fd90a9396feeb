import Verif.Bpe.Spec

namespace Tok.Bpe

/-! ## the queue -/

theorem popMin_none {l : List Merge} (h : popMin l = none) : l = [] := by
  cases l with
  | nil => rfl
  | cons x xs =>
    unfold popMin at h
    split at h
    · cases h
    · split at h <;> cases h

theorem Merge.le_total (a b : Merge) : a.le b = true ∨ b.le a = true := by
  simp [Merge.le]; omega

theorem Merge.le_trans {a b c : Merge} (h1 : a.le b = true) (h2 : b.le c = true) :
    a.le c = true := by
  simp [Merge.le] at *; omega

theorem popMin_some : ∀ {l : List Merge} {t : Merge} {rest : List Merge},
    popMin l = some (t, rest) → l.Perm (t :: rest) ∧ ∀ e ∈ l, t.le e = true := by
  intro l
  induction l with
  | nil => intro t rest h; cases h
  | cons x xs ih =>
    intro t rest h
    unfold popMin at h
    cases hp : popMin xs with
    | none =>
      rw [hp] at h; cases h
      have := popMin_none hp; subst this
      refine ⟨.refl _, ?_⟩
      intro e he; simp at he; subst he; simp [Merge.le]
    | some p =>
      obtain ⟨y, ys⟩ := p
      rw [hp] at h
      obtain ⟨hperm, hmin⟩ := ih hp
      simp only at h
      split at h
      · rename_i hle
        cases h
        refine ⟨hperm.cons _, ?_⟩
        intro e he
        rcases List.mem_cons.1 he with rfl | he
        · simp [Merge.le]
        · exact Merge.le_trans hle (hmin e he)
      · rename_i hle
        cases h
        refine ⟨(hperm.cons _).trans (.swap _ _ _), ?_⟩
        intro e he
        rcases List.mem_cons.1 he with rfl | he
        · rcases Merge.le_total e t with h | h
          · exact absurd h hle
          · exact h
        · exact hmin e he

/-! ## the linked list -/

/-- A live symbol: its index, id and length. -/
structure Cell where
  idx : Nat
  c : Nat
  len : Nat

def headIdx (nx : Int) : List Cell → Int
  | [] => nx
  | x :: _ => x.idx

def lastIdx (p : Int) : List Cell → Int
  | [] => p
  | x :: xs => lastIdx x.idx xs

/-- The cells are stored in `syms`, linked to each other, with `p` before and `nx` after. -/
def Seg (syms : List Symbol) : Int → List Cell → Int → Prop
  | _, [], _ => True
  | p, x :: xs, nx =>
    syms[x.idx]? = some ⟨x.c, p, headIdx nx xs, x.len⟩ ∧ Seg syms x.idx xs nx

theorem seg_append {syms} : ∀ {p l1 l2 nx}, Seg syms p (l1 ++ l2) nx ↔
    Seg syms p l1 (headIdx nx l2) ∧ Seg syms (lastIdx p l1) l2 nx := by
  intro p l1
  induction l1 generalizing p with
  | nil => intro l2 nx; simp [Seg, lastIdx]
  | cons x xs ih =>
    intro l2 nx
    simp only [List.cons_append, Seg, lastIdx, ih]
    have : headIdx nx (xs ++ l2) = headIdx (headIdx nx l2) xs := by
      cases xs <;> rfl
    rw [this, and_assoc]

theorem seg_frame {syms syms'} : ∀ {p l nx}, Seg syms p l nx →
    (∀ x ∈ l, syms'[x.idx]? = syms[x.idx]?) → Seg syms' p l nx := by
  intro p l
  induction l generalizing p with
  | nil => intro nx _ _; trivial
  | cons x xs ih =>
    intro nx h hf
    refine ⟨?_, ih h.2 (fun y hy => hf y (List.mem_cons_of_mem _ hy))⟩
    rw [hf x List.mem_cons_self]; exact h.1

theorem seg_mem {syms} : ∀ {p l nx}, Seg syms p l nx → ∀ x ∈ l, ∃ pr n,
    syms[x.idx]? = some ⟨x.c, pr, n, x.len⟩ := by
  intro p l
  induction l generalizing p with
  | nil => intro nx _ x hx; cases hx
  | cons y ys ih =>
    intro nx h x hx
    rcases List.mem_cons.1 hx with rfl | hx
    · exact ⟨_, _, h.1⟩
    · exact ih h.2 x hx

/-- The symbols represent the list of live cells. -/
structure Rep (syms : List Symbol) (L : List Cell) : Prop where
  sorted : (L.map (·.idx)).Pairwise (· < ·)
  seg : Seg syms (-1) L (-1)
  live : ∀ x ∈ L, x.len ≠ 0
  dead : ∀ (i : Nat) s, syms[i]? = some s → (∀ x ∈ L, x.idx ≠ i) → s.len = 0

/-- The word seen through the cells. -/
def wordOf (L : List Cell) : List (Nat × Nat) := L.map fun x => (x.c, x.len)

/-- Size of the pair at a position covers the entry (see `C15`). -/
structure EntryOk (m : MergeFn) (size : Nat → Nat) (L : List Cell) (e : Merge) : Prop where
  known : ∃ a b, m a b = some (e.rank, e.newId)
  ok : ∀ pre x y post, L = pre ++ x :: y :: post → x.idx = e.pos →
    m x.c y.c = some (e.rank, e.newId) ∨ size e.newId < size x.c + size y.c

/-- Every mergeable live pair has its entry in `Q`. -/
def Complete (m : MergeFn) (L : List Cell) (Q : List Merge) : Prop :=
  ∀ pre x y post r i, L = pre ++ x :: y :: post → m x.c y.c = some (r, i) → ⟨x.idx, r, i⟩ ∈ Q

structure Inv (m : MergeFn) (size : Nat → Nat) (syms : List Symbol) (L : List Cell)
    (Q : List Merge) : Prop where
  rep : Rep syms L
  inb : ∀ e ∈ Q, e.pos < syms.length
  entries : ∀ e ∈ Q, EntryOk m size L e
  complete : Complete m L Q

theorem Inv.perm {m size syms L Q Q'} (h : Inv m size syms L Q) (hp : ∀ e, e ∈ Q ↔ e ∈ Q') :
    Inv m size syms L Q' where
  rep := h.rep
  inb := fun e he => h.inb e ((hp e).2 he)
  entries := fun e he => h.entries e ((hp e).2 he)
  complete := fun pre x y post r i hL hm => (hp _).1 (h.complete pre x y post r i hL hm)

theorem Rep.nodup {syms L} (h : Rep syms L) : (L.map (·.idx)).Nodup :=
  h.sorted.imp (fun h => Nat.ne_of_lt h)

theorem Rep.mem_of_live {syms L} (h : Rep syms L) {i s} (hs : syms[i]? = some s) (hl : s.len ≠ 0) :
    ∃ x ∈ L, x.idx = i := by
  apply Classical.byContradiction
  intro hn
  exact hl (h.dead i s hs (fun x hx hi => hn ⟨x, hx, hi⟩))

theorem mem_split {α} {x : α} {l : List α} (h : x ∈ l) : ∃ a b, l = a ++ x :: b :=
  List.append_of_mem h

/-- Two splittings of a list with distinct indices at the same index coincide. -/
theorem split_unique {L : List Cell} (hn : (L.map (·.idx)).Nodup) {a b a' b' : List Cell}
    {x x' : Cell} (h1 : L = a ++ x :: b) (h2 : L = a' ++ x' :: b') (hi : x.idx = x'.idx) :
    a = a' ∧ x = x' ∧ b = b' := by
  induction a generalizing L a' with
  | nil =>
    cases a' with
    | nil => rw [h1] at h2; simp at h2; simp [h2]
    | cons y ys =>
      rw [h1] at h2
      simp at h2
      obtain ⟨rfl, rfl⟩ := h2
      rw [h1] at hn
      simp only [List.nil_append, List.map_cons, List.nodup_cons, List.map_append] at hn
      exact absurd (by simp [hi]) hn.1
  | cons z zs ih =>
    cases a' with
    | nil =>
      rw [h1] at h2
      simp at h2
      obtain ⟨rfl, rfl⟩ := h2
      rw [h1] at hn
      simp only [List.cons_append, List.map_cons, List.nodup_cons, List.map_append] at hn
      exact absurd (by simp [hi]) hn.1
    | cons y ys =>
      rw [h1] at h2
      simp only [List.cons_append, List.cons.injEq] at h2
      obtain ⟨rfl, h2⟩ := h2
      rw [h1] at hn
      simp only [List.cons_append, List.map_cons, List.nodup_cons] at hn
      obtain ⟨rfl, h3, h4⟩ := ih hn.2 rfl h2
      exact ⟨rfl, h3, h4⟩

theorem headIdx_neg {l : List Cell} : headIdx (-1) l = -1 ↔ l = [] := by
  cases l with
  | nil => simp [headIdx]
  | cons x xs => simp [headIdx]

theorem lastIdx_cases (p : Int) (l : List Cell) : (l = [] ∧ lastIdx p l = p) ∨
    ∃ l' z, l = l' ++ [z] ∧ lastIdx p l = z.idx := by
  induction l generalizing p with
  | nil => exact .inl ⟨rfl, rfl⟩
  | cons x xs ih =>
    right
    rcases ih x.idx with ⟨rfl, h⟩ | ⟨l', z, rfl, h⟩
    · exact ⟨[], x, rfl, rfl⟩
    · exact ⟨x :: l', z, rfl, h⟩

theorem mergeSyms_length (syms xi yi sym nx) : (mergeSyms syms xi yi sym nx).length = syms.length := by
  unfold mergeSyms
  simp only
  split <;> simp

theorem mergeSyms_get {syms : List Symbol} {xi yi : Nat} {sym : Symbol} {nx : Int}
    (hx : xi < syms.length) (hxy : xi ≠ yi)
    (hnx : nx = -1 ∨ ∃ k : Nat, nx = k ∧ k < syms.length ∧ k ≠ xi ∧ k ≠ yi) (i : Nat) :
    (mergeSyms syms xi yi sym nx)[i]? =
      if i = xi then some sym
      else if i = yi then syms[i]?.map fun s => { s with len := 0 }
      else if nx = (i : Int) then syms[i]?.map fun s => { s with prev := (xi : Int) }
      else syms[i]? := by
  unfold mergeSyms
  simp only
  rcases hnx with rfl | ⟨k, rfl, hk, hkx, hky⟩
  · rw [if_neg (by omega)]
    simp only [List.getElem?_modify, List.getElem?_set]
    by_cases h1 : i = xi
    · subst h1
      have : ¬ yi = i := fun h => hxy h.symm
      simp [this, hx]
    · by_cases h2 : i = yi
      · subst h2; simp [hxy, h1]
      · have h1' : ¬ xi = i := fun h => h1 h.symm
        have h2' : ¬ yi = i := fun h => h2 h.symm
        have h3 : ¬ (-1 : Int) = i := by omega
        simp [h1, h2, h1', h2', h3]
  · have hc : (k : Int) > -1 ∧ ((k : Int)).toNat < ((syms.set xi sym).modify yi
        fun s => { s with len := 0 }).length := by
      refine ⟨by omega, ?_⟩
      simpa using hk
    rw [if_pos hc]
    simp only [List.getElem?_modify, List.getElem?_set, Int.toNat_natCast]
    by_cases h1 : i = xi
    · subst h1
      have h3 : ¬ yi = i := fun h => hxy h.symm
      simp [h3, hkx, hx]
    · by_cases h2 : i = yi
      · subst h2
        simp [h1, hky, hxy]
      · have h1' : ¬ xi = i := fun h => h1 h.symm
        have h2' : ¬ yi = i := fun h => h2 h.symm
        by_cases h3 : k = i
        · subst h3; simp [h1, h2, h1', h2']
        · have h3' : ¬ (k : Int) = i := by omega
          simp [h1, h2, h1', h2', h3, h3']

theorem headIdx_post {syms : List Symbol} {x y : Cell} {pre post : List Cell}
    (h : Rep syms (pre ++ x :: y :: post)) :
    headIdx (-1) post = -1 ∨ ∃ k : Nat, headIdx (-1) post = k ∧ k < syms.length ∧ k ≠ x.idx ∧
      k ≠ y.idx := by
  cases post with
  | nil => exact .inl rfl
  | cons z zs =>
    right
    have hnd := h.nodup
    have hseg := h.seg
    rw [seg_append] at hseg
    obtain ⟨_, _, _, hz, _⟩ := hseg
    simp only [List.map_append, List.map_cons] at hnd
    rw [List.nodup_append] at hnd
    obtain ⟨_, hn2, _⟩ := hnd
    simp only [List.nodup_cons, List.mem_cons, not_or] at hn2
    refine ⟨z.idx, rfl, ?_, fun h => hn2.1.2.1 h.symm, fun h => hn2.2.1.1 h.symm⟩
    rw [List.getElem?_eq_some_iff] at hz; exact hz.1

/-- The state of the symbols after a merge of the adjacent live cells `x`, `y`. -/
theorem rep_merge {syms : List Symbol} {pre post : List Cell} {x y : Cell} {newId : Nat}
    (h : Rep syms (pre ++ x :: y :: post)) :
    Rep (mergeSyms syms x.idx y.idx
        ⟨newId, lastIdx (-1) pre, headIdx (-1) post, x.len + y.len⟩ (headIdx (-1) post))
      (pre ++ ⟨x.idx, newId, x.len + y.len⟩ :: post) := by
  have hnd := h.nodup
  have hseg := h.seg
  rw [seg_append] at hseg
  obtain ⟨hpre, hx, hy, hpost⟩ := hseg
  simp only [List.map_append, List.map_cons] at hnd
  rw [List.nodup_append] at hnd
  obtain ⟨hn1, hn2, hn3⟩ := hnd
  simp only [List.nodup_cons, List.mem_cons, not_or] at hn2
  obtain ⟨⟨hxy, hxpost⟩, hypost, hn4⟩ := hn2
  have hpx : ∀ z ∈ pre, z.idx ≠ x.idx := fun z hz => hn3 _ (List.mem_map.2 ⟨z, hz, rfl⟩) _ (by simp)
  have hpy : ∀ z ∈ pre, z.idx ≠ y.idx := fun z hz => hn3 _ (List.mem_map.2 ⟨z, hz, rfl⟩) _ (by simp)
  have hpp : ∀ z ∈ pre, ∀ w ∈ post, z.idx ≠ w.idx := fun z hz w hw =>
    hn3 _ (List.mem_map.2 ⟨z, hz, rfl⟩) _ (by
      right; right; exact List.mem_map.2 ⟨w, hw, rfl⟩)
  have hxp : ∀ w ∈ post, x.idx ≠ w.idx := fun w hw he => hxpost (List.mem_map.2 ⟨w, hw, he.symm⟩)
  have hyp : ∀ w ∈ post, y.idx ≠ w.idx := fun w hw he => hypost (List.mem_map.2 ⟨w, hw, he.symm⟩)
  have hxlt : x.idx < syms.length := by
    rw [List.getElem?_eq_some_iff] at hx; exact hx.1
  have hylt : y.idx < syms.length := by
    rw [List.getElem?_eq_some_iff] at hy; exact hy.1
  have hget := fun i => mergeSyms_get (sym := ⟨newId, lastIdx (-1) pre, headIdx (-1) post,
    x.len + y.len⟩) hxlt hxy (headIdx_post h) i
  generalize mergeSyms syms x.idx y.idx ⟨newId, lastIdx (-1) pre, headIdx (-1) post,
    x.len + y.len⟩ (headIdx (-1) post) = s' at hget ⊢
  refine ⟨?_, ?_, ?_, ?_⟩
  · have := h.sorted
    simp only [List.map_append, List.map_cons] at this ⊢
    refine this.sublist ?_
    exact List.Sublist.append (.refl _) (.cons_cons _ (.cons _ (.refl _)))
  · rw [seg_append]
    refine ⟨?_, ?_, ?_⟩
    · refine seg_frame hpre ?_
      intro z hz
      rw [hget, if_neg (hpx z hz), if_neg (hpy z hz), if_neg]
      cases hpost' : post with
      | nil => simp [headIdx]
      | cons w ws =>
        simp only [headIdx]
        have := hpp z hz w (by rw [hpost']; simp)
        omega
    · rw [hget, if_pos rfl]
    · cases hpost' : post with
      | nil => trivial
      | cons w ws =>
        rw [hpost'] at hpost hyp hxp hn4
        refine ⟨?_, ?_⟩
        · rw [hget, if_neg (fun h => hxp w (by simp) h.symm), if_neg (fun h => hyp w (by simp) h.symm),
            hpost', if_pos (show headIdx (-1) (w :: ws) = (w.idx : Int) from rfl), hpost.1]
          rfl
        · refine seg_frame hpost.2 ?_
          intro z hz
          have hz' : z ∈ w :: ws := List.mem_cons_of_mem _ hz
          rw [hget, if_neg (fun h => hxp z hz' h.symm), if_neg (fun h => hyp z hz' h.symm), hpost',
            if_neg]
          simp only [headIdx]
          simp only [List.map_cons, List.nodup_cons] at hn4
          intro he
          apply hn4.1
          have : w.idx = z.idx := by omega
          rw [this]; exact List.mem_map.2 ⟨z, hz, rfl⟩
  · intro z hz
    rcases List.mem_append.1 hz with hz | hz
    · exact h.live z (by simp [hz])
    · rcases List.mem_cons.1 hz with rfl | hz
      · have := h.live x (by simp)
        simp; omega
      · exact h.live z (by simp [hz])
  · intro i s hs hni
    have h1 : i ≠ x.idx := fun he => hni ⟨x.idx, newId, x.len + y.len⟩ (by simp) he.symm
    rw [hget, if_neg h1] at hs
    split at hs
    · simp only [Option.map_eq_some_iff] at hs
      obtain ⟨s0, _, rfl⟩ := hs
      rfl
    · rename_i h2
      rw [if_neg] at hs
      · refine h.dead i s hs ?_
        intro z hz he
        rcases List.mem_append.1 hz with hz | hz
        · exact hni z (by simp [hz]) he
        · rcases List.mem_cons.1 hz with rfl | hz
          · exact h1 he.symm
          · rcases List.mem_cons.1 hz with rfl | hz
            · exact h2 he.symm
            · exact hni z (by simp [hz]) he
      · cases hpost' : post with
        | nil => simp [headIdx]
        | cons w ws =>
          simp only [headIdx]
          intro he
          exact hni w (by rw [hpost']; simp) (by omega)

end Tok.Bpe
