import Verif.Norm.Spec
import Verif.Norm.Lemmas

/-!
# C08: alignments stay well-formed
-/

namespace Tok
namespace NS

/-- Componentwise order of ranges. -/
def RLe (a b : Range) : Prop := a.1 ≤ b.1 ∧ a.2 ≤ b.2

theorem RLe.refl (a : Range) : RLe a a := ⟨Nat.le_refl _, Nat.le_refl _⟩
theorem RLe.trans {a b c : Range} (h : RLe a b) (h' : RLe b c) : RLe a c :=
  ⟨Nat.le_trans h.1 h'.1, Nat.le_trans h.2 h'.2⟩

def ValidIn (o : Str) (a : Range) : Prop := a.1 ≤ a.2 ∧ CutAt o a.1 ∧ CutAt o a.2

/-- Cell-level well-formedness. -/
structure CellsOk (o : Str) (cs : List Cell) : Prop where
  valid : ∀ c ∈ cs, ValidIn o c.2
  ordered : cs.Pairwise fun a b => RLe a.2 b.2

theorem pairwise_replicate {α} {R : α → α → Prop} (hr : ∀ a, R a a) (n : Nat) (a : α) :
    (List.replicate n a).Pairwise R := by
  induction n with
  | zero => exact List.Pairwise.nil
  | succ n ih =>
    rw [List.replicate_succ, List.pairwise_cons]
    exact ⟨fun b hb => (List.mem_replicate.1 hb).2 ▸ hr a, ih⟩

theorem expand_pairwise {cs : List Cell} :
    (expand cs).Pairwise RLe ↔ cs.Pairwise fun a b => RLe a.2 b.2 := by
  induction cs with
  | nil => simp
  | cons c cs ih =>
    rw [expand_cons, List.pairwise_append, ih, List.pairwise_cons]
    have hpos := c.1.utf8Size_pos
    constructor
    · rintro ⟨_, h2, h3⟩
      refine ⟨fun b hb => h3 _ (List.mem_replicate.2 ⟨by omega, rfl⟩) _ (mem_expand.2 ⟨b, hb, rfl⟩), h2⟩
    · rintro ⟨h1, h2⟩
      refine ⟨pairwise_replicate RLe.refl _ _, h2, fun a ha b hb => ?_⟩
      rw [(List.mem_replicate.1 ha).2]
      obtain ⟨x, hx, rfl⟩ := mem_expand.1 hb
      exact h1 x hx

theorem wellFormed_of_cells {n : NS} {cs : List Cell} (h : n.Cells cs) (ok : CellsOk n.orig cs) :
    n.WellFormed := by
  obtain ⟨h1, h2⟩ := h
  refine ⟨by rw [h1, h2]; simp, ?_, ?_, ?_⟩
  · intro p c s hs i j hi hi' hj hj'
    rw [h1] at hs
    obtain ⟨a, b, rfl, hp, hb⟩ := text_eq_append hs
    cases b with
    | nil => cases hb
    | cons x xs =>
      simp only [text_cons, List.cons.injEq] at hb
      rw [h2]
      have key : ∀ k, blen p ≤ k → k < blen p + c.utf8Size → (expand (a ++ x :: xs))[k]? = some x.2 := by
        intro k hk hk'
        rw [expand_append, List.getElem?_append_right (by rw [length_expand, hp]; omega), expand_cons,
          List.getElem?_append_left (by rw [List.length_replicate, length_expand, hp, hb.1]; omega),
          List.getElem?_replicate, if_pos (by rw [length_expand, hp, hb.1]; omega)]
      rw [key i hi hi', key j hj hj']
  · intro a ha
    rw [h2] at ha
    obtain ⟨c, hc, rfl⟩ := mem_expand.1 ha
    exact ok.valid c hc
  · rw [h2]; exact expand_pairwise.2 ok.ordered

/-- The cells of a well-formed string. -/
theorem cells_of_wellFormed_aux : ∀ (s : Str) (al : List Range), al.length = blen s →
    (∀ (p : Str) (c : Char) (t : Str), s = p ++ c :: t → ∀ i j : Nat,
      blen p ≤ i → i < blen p + c.utf8Size → blen p ≤ j → j < blen p + c.utf8Size → al[i]? = al[j]?) →
    ∃ cs : List Cell, s = text cs ∧ al = expand cs := by
  intro s
  induction s with
  | nil =>
    intro al h _
    have : al = [] := List.length_eq_zero_iff.1 (by simpa using h)
    exact ⟨[], rfl, by simp [this]⟩
  | cons c s ih =>
    intro al hl hs
    have hpos := c.utf8Size_pos
    rw [blen_cons] at hl
    have h0 := hs [] c s rfl
    simp only [blen_nil, Nat.zero_add, Nat.zero_le, true_implies] at h0
    obtain ⟨a, ha⟩ : ∃ a, al[0]? = some a := ⟨al[0]'(by omega), List.getElem?_eq_getElem (by omega)⟩
    have hrep : al.take c.utf8Size = List.replicate c.utf8Size a := by
      apply List.ext_getElem?
      intro i
      rw [List.getElem?_take, List.getElem?_replicate]
      split
      · rw [← ha]; exact h0 i 0 (by omega) (by omega)
      · rfl
    obtain ⟨cs, h1, h2⟩ := ih (al.drop c.utf8Size) (by rw [List.length_drop]; omega) (by
      intro p d t ht i j hi hi' hj hj'
      rw [List.getElem?_drop, List.getElem?_drop]
      exact hs (c :: p) d t (by rw [ht]; rfl) _ _ (by rw [blen_cons]; omega) (by rw [blen_cons]; omega)
        (by rw [blen_cons]; omega) (by rw [blen_cons]; omega))
    refine ⟨(c, a) :: cs, by rw [h1]; rfl, ?_⟩
    rw [expand_cons, ← h2, ← hrep, List.take_append_drop]

theorem cells_of_wellFormed {n : NS} (h : n.WellFormed) : ∃ cs, n.Cells cs ∧ CellsOk n.orig cs := by
  obtain ⟨cs, h1, h2⟩ := cells_of_wellFormed_aux n.norm n.al h.one_per_byte h.shared
  refine ⟨cs, ⟨h1, h2⟩, ⟨fun c hc => ?_, ?_⟩⟩
  · exact h.valid c.2 (by rw [h2]; exact mem_expand.2 ⟨c, hc, rfl⟩)
  · have := h.ordered
    rw [h2] at this
    exact expand_pairwise.1 this

/-! ## the initial string -/

/-- The cells of `From<String>`. -/
def initCells : Nat → Str → List Cell
  | _, [] => []
  | b, c :: s => (c, (b, b + c.utf8Size)) :: initCells (b + c.utf8Size) s

theorem text_initCells (s : Str) : ∀ b, text (initCells b s) = s := by
  induction s with
  | nil => intro b; rfl
  | cons c s ih => intro b; simp [initCells, ih]

theorem expand_initCells (s : Str) : ∀ b, expand (initCells b s) = alignFrom b s := by
  induction s with
  | nil => intro b; rfl
  | cons c s ih => intro b; simp [initCells, alignFrom, ih]

theorem initCells_ok (s : Str) : ∀ b, (∀ c ∈ initCells b s, b ≤ c.2.1 ∧ c.2.1 < c.2.2 ∧
    CutAt s (c.2.1 - b) ∧ CutAt s (c.2.2 - b)) ∧ (initCells b s).Pairwise fun x y => RLe x.2 y.2 := by
  induction s with
  | nil => intro b; simp [initCells]
  | cons c s ih =>
    intro b
    have hpos := c.utf8Size_pos
    obtain ⟨h1, h2⟩ := ih (b + c.utf8Size)
    have hcut : ∀ k, b + c.utf8Size ≤ k → CutAt s (k - (b + c.utf8Size)) → CutAt (c :: s) (k - b) := by
      rintro k hk ⟨p, q, h, hb⟩
      exact ⟨c :: p, q, by rw [h]; rfl, by rw [blen_cons]; omega⟩
    constructor
    · intro x hx
      rcases List.mem_cons.1 hx with rfl | hx
      · refine ⟨Nat.le_refl _, by simp only; omega, ⟨[], c :: s, rfl, by simp⟩, ⟨[c], s, rfl, ?_⟩⟩
        simp
      · obtain ⟨g1, g2, g3, g4⟩ := h1 x hx
        exact ⟨by omega, g2, hcut _ g1 g3, hcut _ (by omega) g4⟩
    · rw [initCells, List.pairwise_cons]
      refine ⟨fun x hx => ?_, h2⟩
      obtain ⟨g1, g2, _, _⟩ := h1 x hx
      exact ⟨by simp only; omega, by simp only; omega⟩

theorem ofStr_cells (s : Str) : (ofStr s).Cells (initCells 0 s) :=
  ⟨(text_initCells s 0).symm, (expand_initCells s 0).symm⟩

theorem ofStr_cellsOk (s : Str) : CellsOk s (initCells 0 s) := by
  obtain ⟨h1, h2⟩ := initCells_ok s 0
  refine ⟨fun c hc => ?_, h2⟩
  obtain ⟨_, g2, g3, g4⟩ := h1 c hc
  exact ⟨by omega, by simpa using g3, by simpa using g4⟩

/-! ## the transformation loop -/

theorem lastAl_spec (d : Range) (cs : List Cell) : lastAl d cs = d ∨ ∃ c ∈ cs, lastAl d cs = c.2 := by
  unfold lastAl
  cases h : cs.getLast? with
  | none => exact .inl rfl
  | some c => exact .inr ⟨c, List.mem_of_getLast? h, rfl⟩

theorem lastAl_le_of_pairwise {x : Cell} {r : List Cell} {k : Nat}
    (h : (x :: r).Pairwise fun a b => RLe a.2 b.2) : ∀ c ∈ r.drop k, RLe (lastAl x.2 (r.take k)) c.2 := by
  intro c hc
  rw [List.pairwise_cons] at h
  rcases lastAl_spec x.2 (r.take k) with h1 | ⟨d, hd, h1⟩
  · rw [h1]; exact h.1 c (List.mem_of_mem_drop hc)
  · rw [h1]
    have := h.2
    rw [← List.take_append_drop k r, List.pairwise_append] at this
    exact this.2.2 d hd c hc

/-- The alignments the loop hands out come from the range or the cell before it, in order. -/
theorem cellLoop_chain {ds : List (Char × Int)} : ∀ {prev : Range} {R cs : List Cell},
    (∀ c ∈ R, RLe prev c.2) → (R.Pairwise fun a b => RLe a.2 b.2) → cellLoop none prev R ds = some cs →
    (∀ c ∈ cs, RLe prev c.2) ∧ (cs.Pairwise fun a b => RLe a.2 b.2) ∧
      ∀ c ∈ cs, c.2 = prev ∨ ∃ x ∈ R, c.2 = x.2 := by
  induction ds with
  | nil =>
    intro prev R cs _ _ h
    simp [cellLoop] at h; subst h
    exact ⟨by simp, List.Pairwise.nil, by simp⟩
  | cons d ds ih =>
    intro prev R cs h1 h2 h
    obtain ⟨c, ch⟩ := d
    rw [cellLoop_cons] at h
    split at h
    · rw [Option.map_eq_some_iff] at h
      obtain ⟨u, hu, rfl⟩ := h
      obtain ⟨g1, g2, g3⟩ := ih h1 h2 hu
      refine ⟨?_, ?_, ?_⟩
      · intro x hx
        rcases List.mem_cons.1 hx with rfl | hx
        · exact RLe.refl _
        · exact g1 x hx
      · rw [List.pairwise_cons]; exact ⟨fun x hx => g1 x hx, g2⟩
      · intro x hx
        rcases List.mem_cons.1 hx with rfl | hx
        · exact .inl rfl
        · exact g3 x hx
    · cases R with
      | nil => cases h
      | cons x r =>
        simp only at h
        rw [Option.map_eq_some_iff] at h
        obtain ⟨u, hu, rfl⟩ := h
        have hx : RLe prev x.2 := h1 x List.mem_cons_self
        have hlast : RLe x.2 (lastAl x.2 (r.take (-ch).toNat)) := by
          rcases lastAl_spec x.2 (r.take (-ch).toNat) with h3 | ⟨d, hd, h3⟩
          · rw [h3]; exact RLe.refl _
          · rw [h3]; exact (List.pairwise_cons.1 h2).1 d (List.mem_of_mem_take hd)
        obtain ⟨g1, g2, g3⟩ := ih (lastAl_le_of_pairwise h2)
          ((List.pairwise_cons.1 h2).2.sublist (List.drop_sublist _ _)) hu
        refine ⟨?_, ?_, ?_⟩
        · intro y hy
          rcases List.mem_cons.1 hy with rfl | hy
          · exact hx
          · exact hx.trans (hlast.trans (g1 y hy))
        · rw [List.pairwise_cons]
          exact ⟨fun y hy => hlast.trans (g1 y hy), g2⟩
        · intro y hy
          rcases List.mem_cons.1 hy with rfl | hy
          · exact .inr ⟨x, List.mem_cons_self, rfl⟩
          · rcases g3 y hy with h4 | ⟨z, hz, h4⟩
            · rcases lastAl_spec x.2 (r.take (-ch).toNat) with h3 | ⟨d, hd, h3⟩
              · exact .inr ⟨x, List.mem_cons_self, by rw [h4, h3]⟩
              · exact .inr ⟨d, List.mem_cons_of_mem _ (List.mem_of_mem_take hd), by rw [h4, h3]⟩
            · exact .inr ⟨z, List.mem_cons_of_mem _ (List.mem_of_mem_drop hz), h4⟩

theorem cellLoop_of_fits {ds : List (Char × Int)} : ∀ {prev : Range} {R : List Cell},
    Fits ds R.length → ∃ cs, cellLoop none prev R ds = some cs := by
  induction ds with
  | nil => intro prev R _; exact ⟨[], rfl⟩
  | cons d ds ih =>
    intro prev R h
    obtain ⟨c, ch⟩ := d
    rw [Fits] at h
    rw [cellLoop_cons]
    split
    · rename_i hch
      rw [if_pos hch] at h
      obtain ⟨cs, hcs⟩ := ih (prev := prev) h
      exact ⟨_, by rw [hcs]; rfl⟩
    · rename_i hch
      rw [if_neg hch] at h
      cases R with
      | nil => exact absurd h.1 (by simp)
      | cons x r =>
        simp only
        obtain ⟨cs, hcs⟩ := ih (prev := lastAl x.2 (r.take (-ch).toNat)) (R := r.drop (-ch).toNat) (by
          rw [List.length_drop]
          have := h.2
          rw [List.length_cons, Nat.add_sub_cancel] at this
          exact this)
        exact ⟨_, by rw [hcs]; rfl⟩

theorem cutAt_zero (s : Str) : CutAt s 0 := ⟨[], s, rfl, rfl⟩

theorem cutAt_le {s : Str} {k : Nat} (h : CutAt s k) : k ≤ blen s := by
  obtain ⟨p, q, rfl, rfl⟩ := h; simp

/-- Replacing the middle cells by what the loop produces keeps everything well-formed. -/
theorem cellsOk_splice {o : Str} {P M S cs : List Cell} {init : Nat} {ds : List (Char × Int)}
    (h : CellsOk o (P ++ M ++ S))
    (hc : cellLoop none (lastAl (0, 0) (P ++ M.take init)) (M.drop init) ds = some cs) :
    CellsOk o (P ++ cs ++ S) := by
  obtain ⟨hv, ho⟩ := h
  have e : P ++ M ++ S = (P ++ M.take init) ++ (M.drop init ++ S) := by
    rw [List.append_assoc P (M.take init), ← List.append_assoc (M.take init), List.take_append_drop,
      List.append_assoc]
  have ho' := ho
  rw [e, List.pairwise_append] at ho'
  rw [List.pairwise_append, List.pairwise_append] at ho
  obtain ⟨⟨oP, oM, oPM⟩, oS, oPS⟩ := ho
  have hprev : ∀ c ∈ M.drop init ++ S, RLe (lastAl (0, 0) (P ++ M.take init)) c.2 := by
    intro c hc
    rcases lastAl_spec (0, 0) (P ++ M.take init) with h1 | ⟨d, hd, h1⟩
    · rw [h1]; exact ⟨Nat.zero_le _, Nat.zero_le _⟩
    · rw [h1]; exact ho'.2.2 d hd c hc
  obtain ⟨g1, g2, g3⟩ := cellLoop_chain (fun c hc => hprev c (List.mem_append.2 (.inl hc)))
    (oM.sublist (List.drop_sublist _ _)) hc
  have hPprev : ∀ a ∈ P, RLe a.2 (lastAl (0, 0) (P ++ M.take init)) := by
    intro a ha
    have hne : P ++ M.take init ≠ [] := by
      intro h0; rw [List.append_eq_nil_iff] at h0; rw [h0.1] at ha; cases ha
    have hlast : lastAl (0, 0) (P ++ M.take init) = ((P ++ M.take init).getLast hne).2 := by
      unfold lastAl; rw [List.getLast?_eq_some_getLast hne]; rfl
    rw [hlast]
    have hm : a ∈ P ++ M.take init := List.mem_append.2 (.inl ha)
    have := List.dropLast_concat_getLast hne
    rw [← this] at hm
    rcases List.mem_append.1 hm with h1 | h1
    · have hp := ho'.1
      rw [← this, List.pairwise_append] at hp
      exact hp.2.2 a h1 _ (by simp)
    · rw [List.mem_singleton] at h1; rw [← h1]; exact RLe.refl _
  refine ⟨?_, ?_⟩
  · intro c hc
    rcases List.mem_append.1 hc with hc | hc
    · rcases List.mem_append.1 hc with hc | hc
      · exact hv c (by simp [hc])
      · rcases g3 c hc with h1 | ⟨x, hx, h1⟩
        · rw [h1]
          rcases lastAl_spec (0, 0) (P ++ M.take init) with h2 | ⟨d, hd, h2⟩
          · rw [h2]; exact ⟨Nat.le_refl _, cutAt_zero _, cutAt_zero _⟩
          · rw [h2]
            apply hv d
            rcases List.mem_append.1 hd with h3 | h3
            · simp [h3]
            · simp [List.mem_of_mem_take h3]
        · rw [h1]; exact hv x (by simp [List.mem_of_mem_drop hx])
    · exact hv c (by simp [hc])
  · rw [List.pairwise_append, List.pairwise_append]
    refine ⟨⟨oP, g2, fun a ha b hb => (hPprev a ha).trans (g1 b hb)⟩, oS, ?_⟩
    intro a ha b hb
    rcases List.mem_append.1 ha with ha | ha
    · exact oPS a (by simp [ha]) b hb
    · rcases g3 a ha with h1 | ⟨x, hx, h1⟩
      · rw [h1]; exact hprev b (by simp [hb])
      · rw [h1]; exact oPS x (by simp [List.mem_of_mem_drop hx]) b hb

/-! ## converting offsets -/

theorem convertScan_eq (ts te : Nat) : ∀ (l : List Range) (i : Nat) (s e : Option Nat),
    convertScan ts te i l s e =
      (s.or (((l.takeWhile fun a => decide (a.2 ≤ te)).findIdx? fun a =>
          decide (ts ≤ a.1 ∧ a.1 ≠ a.2)).map (i + ·)),
       if (l.takeWhile fun a => decide (a.2 ≤ te)) = [] then e
       else some (i + (l.takeWhile fun a => decide (a.2 ≤ te)).length)) := by
  intro l
  induction l with
  | nil => intro i s e; simp [convertScan]
  | cons a l ih =>
    intro i s e
    rw [convertScan]
    by_cases h : te ≥ a.2
    · rw [if_pos h, ih, List.takeWhile_cons_of_pos (by simpa using h), List.findIdx?_cons]
      congr 1
      · cases s with
        | some s => simp
        | none =>
          by_cases hc : ts ≤ a.1 ∧ a.1 ≠ a.2
          · simp [hc]
          · simp only [hc, Option.isNone_none, true_and, if_false, decide_false, Option.none_or]
            generalize List.findIdx? _ _ = o
            cases o with
            | none => rfl
            | some k => simp; omega
      · simp only [List.cons_ne_nil, if_false, List.length_cons]
        split
        · rename_i h0; rw [h0]; simp
        · congr 1; omega
    · rw [if_neg h, List.takeWhile_cons_of_neg (by simpa using h)]
      simp

theorem takeWhile_expand (p : Range → Bool) (cs : List Cell) :
    (expand cs).takeWhile p = expand (cs.takeWhile fun c => p c.2) := by
  induction cs with
  | nil => rfl
  | cons c cs ih =>
    have hpos := c.1.utf8Size_pos
    by_cases h : p c.2 = true
    · rw [expand_cons, List.takeWhile_append_of_pos (by
        intro a ha; rw [(List.mem_replicate.1 ha).2]; exact h), ih, List.takeWhile_cons_of_pos (p := fun c : Cell => p c.2) h]
      rfl
    · obtain ⟨k, hk⟩ : ∃ k, c.1.utf8Size = k + 1 := ⟨c.1.utf8Size - 1, by omega⟩
      rw [expand_cons, hk, List.replicate_succ, List.cons_append, List.takeWhile_cons_of_neg h,
        List.takeWhile_cons_of_neg (p := fun c : Cell => p c.2) h]
      rfl

theorem findIdx_expand (p : Range → Bool) (cs : List Cell) :
    (∀ c ∈ cs, p c.2 = false) ∧ (expand cs).findIdx? p = none ∨
    ∃ a c b, cs = a ++ c :: b ∧ (∀ x ∈ a, p x.2 = false) ∧ p c.2 = true ∧
      (expand cs).findIdx? p = some (blen (text a)) := by
  induction cs with
  | nil => left; simp
  | cons c cs ih =>
    have hpos := c.1.utf8Size_pos
    by_cases h : p c.2 = true
    · right
      refine ⟨[], c, cs, rfl, by simp, h, ?_⟩
      obtain ⟨k, hk⟩ : ∃ k, c.1.utf8Size = k + 1 := ⟨c.1.utf8Size - 1, by omega⟩
      rw [expand_cons, hk, List.replicate_succ, List.cons_append, List.findIdx?_cons, h]
      rfl
    · have h' : p c.2 = false := by simpa using h
      have hr : (List.replicate c.1.utf8Size c.2).findIdx? p = none := by
        rw [List.findIdx?_eq_none_iff]
        intro a ha; rw [(List.mem_replicate.1 ha).2]; exact h'
      rcases ih with ⟨h1, h2⟩ | ⟨a, d, b, rfl, h1, h2, h3⟩
      · left
        refine ⟨?_, ?_⟩
        · intro x hx
          rcases List.mem_cons.1 hx with rfl | hx
          · exact h'
          · exact h1 x hx
        · rw [expand_cons, List.findIdx?_append, hr, h2]; rfl
      · right
        refine ⟨c :: a, d, b, rfl, ?_, h2, ?_⟩
        · intro x hx
          rcases List.mem_cons.1 hx with rfl | hx
          · exact h'
          · exact h1 x hx
        · rw [expand_cons, List.findIdx?_append, hr, h3]
          simp; omega

/-- Converting a non-empty range of the original text: the cells up to the last one that ends within it
are `A ++ B`; `B` starts with the first cell of positive width that starts within it. -/
theorem convertOriginal_cells {n : NS} {cs : List Cell} (hn : n.Cells cs) {r : Range} (hr : r.1 < r.2) :
    (n.convertOriginal r = none ∧ ∀ c ∈ cs.head?, ¬ c.2.2 ≤ r.2) ∨
    ∃ A B S, cs = A ++ B ++ S ∧ (∀ c ∈ A ++ B, c.2.2 ≤ r.2) ∧ (∀ c ∈ S.head?, ¬ c.2.2 ≤ r.2) ∧
      (∀ c ∈ A, ¬ (r.1 ≤ c.2.1 ∧ c.2.1 ≠ c.2.2)) ∧ (∀ c ∈ B.head?, r.1 ≤ c.2.1 ∧ c.2.1 ≠ c.2.2) ∧
      n.convertOriginal r = some (blen (text A), blen (text (A ++ B))) := by
  have hw := List.takeWhile_append_dropWhile (p := fun c : Cell => decide (c.2.2 ≤ r.2)) (l := cs)
  have hW : ∀ c ∈ cs.takeWhile fun c : Cell => decide (c.2.2 ≤ r.2), c.2.2 ≤ r.2 := by
    intro c hc
    have := List.all_takeWhile (p := fun c : Cell => decide (c.2.2 ≤ r.2)) (l := cs)
    rw [List.all_eq_true] at this
    simpa using this c hc
  have hS : ∀ c ∈ (cs.dropWhile fun c : Cell => decide (c.2.2 ≤ r.2)).head?, ¬ c.2.2 ≤ r.2 := by
    intro c hc
    have := List.head?_dropWhile_not (fun c : Cell => decide (c.2.2 ≤ r.2)) cs
    rw [hc] at this
    simpa using this
  have hconv : n.convertOriginal r = convertResult (convertScan r.1 r.2 0 n.al none none) := by
    unfold convertOriginal
    rw [if_neg (by omega), if_neg (by omega)]
  rw [convertScan_eq, hn.2, takeWhile_expand] at hconv
  generalize cs.takeWhile (fun c : Cell => decide (c.2.2 ≤ r.2)) = W at *
  generalize cs.dropWhile (fun c : Cell => decide (c.2.2 ≤ r.2)) = S at *
  cases W with
  | nil =>
    left
    refine ⟨by rw [hconv]; rfl, ?_⟩
    rw [← hw]; simpa using hS
  | cons w ws =>
    right
    have hne : expand (w :: ws) ≠ [] := by
      intro h0
      have := congrArg List.length h0
      have hpos := w.1.utf8Size_pos
      simp at this
      omega
    rw [if_neg hne] at hconv
    rcases findIdx_expand (fun a => decide (r.1 ≤ a.1 ∧ a.1 ≠ a.2)) (w :: ws) with ⟨h1, h2⟩ | ⟨a, d, b, h0, h1, h2, h3⟩
    · refine ⟨w :: ws, [], S, by rw [← hw]; simp, by simpa using hW, hS, ?_, by simp, ?_⟩
      · intro c hc; have := h1 c hc; simp only [decide_eq_false_iff_not] at this; exact this
      · rw [hconv, h2]; simp [convertResult]
    · refine ⟨a, d :: b, S, by rw [← hw, h0], by rw [← h0]; exact hW, hS, ?_, ?_, ?_⟩
      · intro c hc; have := h1 c hc; simp only [decide_eq_false_iff_not] at this; exact this
      · intro c hc
        simp only [List.head?_cons, Option.mem_some_iff] at hc
        subst hc
        simpa using h2
      · rw [hconv, h3, h0]; simp [convertResult]

end NS
end Tok
