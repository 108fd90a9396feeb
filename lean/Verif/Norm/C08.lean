import Verif.Norm.WF

/-!
# C08: every reachable normalized string is well-formed
-/

namespace Tok
namespace NS

/-- Well-formed, with the cells as witness. -/
def Ok (n : NS) : Prop := ∃ cs, n.Cells cs ∧ CellsOk n.orig cs

theorem ok_iff {n : NS} : n.Ok ↔ n.WellFormed :=
  ⟨fun ⟨_, h1, h2⟩ => wellFormed_of_cells h1 h2, cells_of_wellFormed⟩

theorem transformRange_ok {n n' : NS} {r : Range} {ds : List (Char × Int)} {init : Nat} (hn : n.Ok)
    (hf : FitsRange n r ds init) (h : n.transformRange r ds init = some n') : n'.Ok := by
  obtain ⟨cells, h1, h2⟩ := hn
  have hs : ∃ m, strGet n.norm r.1 r.2 = some m := by
    unfold transformRange at h
    split at h
    · rename_i m _ _ hm _ _; exact ⟨m, hm⟩
    · cases h
  obtain ⟨m, hm⟩ := hs
  obtain ⟨p, q, hp, hp1, hp2⟩ := strGet_eq_some.1 hm
  have ht := h1.1
  rw [hp] at ht
  obtain ⟨PM, S, rfl, hPM, hS⟩ := text_eq_append ht.symm
  obtain ⟨P, M, rfl, hP, hM⟩ := text_eq_append hPM
  have hfit := hf m hm
  have hlen : m.length = M.length := by rw [← hM]; simp [text]
  obtain ⟨cs, hcs⟩ := cellLoop_of_fits (prev := lastAl (0, 0) (P ++ M.take init)) (R := M.drop init)
    (ds := ds) (by rw [List.length_drop, ← hlen]; exact hfit)
  have := transformRange_cells (ds := ds) (init := init) h1 (r := r) (by rw [hP, hp1])
    (by rw [hP, hM, hp2])
  rw [this, cellLoop_none hcs] at h
  injection h with h
  subst h
  exact ⟨_, ⟨rfl, rfl⟩, cellsOk_splice h2 hcs⟩

/-- The alignments of the loop in general. -/
theorem cellLoop_mem {nxt : Option Range} {ds : List (Char × Int)} : ∀ {prev : Range} {R cs : List Cell},
    cellLoop nxt prev R ds = some cs →
      ∀ c ∈ cs, c.2 = prev ∨ (∃ x ∈ R, c.2 = x.2) ∨ nxt = some c.2 := by
  induction ds with
  | nil => intro prev R cs h; simp [cellLoop] at h; subst h; simp
  | cons d ds ih =>
    intro prev R cs h
    obtain ⟨c, ch⟩ := d
    rw [cellLoop_cons] at h
    split at h
    · rw [Option.map_eq_some_iff] at h
      obtain ⟨u, hu, rfl⟩ := h
      intro x hx
      rcases List.mem_cons.1 hx with rfl | hx
      · exact .inl rfl
      · exact ih hu x hx
    · cases R with
      | nil =>
        simp only at h
        rw [Option.bind_eq_some_iff] at h
        obtain ⟨a, ha, h⟩ := h
        rw [Option.map_eq_some_iff] at h
        obtain ⟨u, hu, rfl⟩ := h
        intro x hx
        rcases List.mem_cons.1 hx with rfl | hx
        · exact .inr (.inr ha)
        · exact ih hu x hx
      | cons y r =>
        simp only at h
        rw [Option.map_eq_some_iff] at h
        obtain ⟨u, hu, rfl⟩ := h
        intro x hx
        rcases List.mem_cons.1 hx with rfl | hx
        · exact .inr (.inl ⟨y, List.mem_cons_self, rfl⟩)
        · rcases ih hu x hx with h1 | ⟨z, hz, h1⟩ | h1
          · rcases lastAl_spec y.2 (r.take (-ch).toNat) with h3 | ⟨d, hd, h3⟩
            · exact .inr (.inl ⟨y, List.mem_cons_self, by rw [h1, h3]⟩)
            · exact .inr (.inl ⟨d, List.mem_cons_of_mem _ (List.mem_of_mem_take hd), by rw [h1, h3]⟩)
          · exact .inr (.inl ⟨z, List.mem_cons_of_mem _ (List.mem_of_mem_drop hz), h1⟩)
          · exact .inr (.inr h1)

/-- What range `transform` rewrites: everything but leading cells of width zero. -/
theorem transform_range {n : NS} {cs : List Cell} (hn : n.Cells cs) (ok : CellsOk n.orig cs)
    (ho : n.orig ≠ []) :
    (cs = [] ∧ n.convertOriginal (0, blen n.orig) = none) ∨
    ∃ A B, cs = A ++ B ∧ (∀ c ∈ A, c.2.1 = c.2.2) ∧ (∀ c ∈ B.head?, c.2.1 ≠ c.2.2) ∧
      n.convertOriginal (0, blen n.orig) = some (blen (text A), blen (text (A ++ B))) := by
  have hpos := blen_pos ho
  rcases convertOriginal_cells hn (r := (0, blen n.orig)) hpos with ⟨h1, h2⟩ | ⟨A, B, S, h0, h1, h2, h3, h4, h5⟩
  · left
    refine ⟨?_, h1⟩
    cases cs with
    | nil => rfl
    | cons c cs => exact absurd (cutAt_le (ok.valid c List.mem_cons_self).2.2) (h2 c rfl)
  · right
    have hS : S = [] := by
      cases S with
      | nil => rfl
      | cons c s => exact absurd (cutAt_le (ok.valid c (by rw [h0]; simp)).2.2) (h2 c rfl)
    subst hS
    refine ⟨A, B, by rw [h0]; simp, ?_, ?_, h5⟩
    · intro c hc
      have := h3 c hc
      simp only [Nat.zero_le, true_and, Classical.not_not] at this
      exact this
    · intro c hc; exact (h4 c hc).2

theorem transform_ok {n n' : NS} {ds : List (Char × Int)} {init : Nat} (hn : n.Ok)
    (h : n.transform ds init = some n') : n'.Ok := by
  obtain ⟨cells, h1, h2⟩ := hn
  unfold transform transformRangeOriginal at h
  by_cases ho : n.orig = []
  · -- the original is empty: every alignment is (0, 0)
    have hz : ∀ a, ValidIn n.orig a → a = (0, 0) := by
      intro a ha
      have g1 := cutAt_le ha.2.1
      have g2 := cutAt_le ha.2.2
      rw [ho] at g1 g2
      simp at g1 g2
      exact Prod.ext g1 g2
    have hc : n.convertOriginal (0, blen n.orig) = some (0, 0) := by rw [ho]; rfl
    rw [hc] at h
    simp only at h
    obtain ⟨P, M, S, cs, e, hcs, g1, g2, g3⟩ := transformRange_some h1 h
    refine ⟨_, g1, ?_⟩
    rw [g2]
    have hall : ∀ c ∈ P ++ cs ++ S, c.2 = (0, 0) := by
      have hcell : ∀ c ∈ cells, c.2 = (0, 0) := fun c hc => hz _ (h2.valid c hc)
      rw [e] at hcell
      have hlast : lastAl (0, 0) (P ++ M.take init) = (0, 0) := by
        rcases lastAl_spec (0, 0) (P ++ M.take init) with h3 | ⟨d, hd, h3⟩
        · exact h3
        · rw [h3]
          apply hcell
          rcases List.mem_append.1 hd with h4 | h4
          · simp [h4]
          · simp [List.mem_of_mem_take h4]
      intro c hc
      rcases List.mem_append.1 hc with hc | hc
      · rcases List.mem_append.1 hc with hc | hc
        · exact hcell c (by simp [hc])
        · rcases cellLoop_mem hcs c hc with h3 | ⟨x, hx, h3⟩ | h3
          · rw [h3, hlast]
          · rw [h3]; exact hcell x (by simp [List.mem_of_mem_drop hx])
          · cases S with
            | nil => cases h3
            | cons y ys =>
              simp only [List.head?_cons, Option.map_some, Option.some.injEq] at h3
              rw [← h3]; exact hcell y (by simp)
      · exact hcell c (by simp [hc])
    refine ⟨fun c hc => ?_, ?_⟩
    · rw [hall c hc]; exact ⟨Nat.le_refl _, cutAt_zero _, cutAt_zero _⟩
    · rw [List.pairwise_iff_forall_sublist]
      intro a b hab
      rw [hall a (hab.subset (by simp)), hall b (hab.subset (by simp))]
      exact RLe.refl _
  · rcases transform_range h1 h2 ho with ⟨rfl, hc⟩ | ⟨A, B, rfl, hA, hB, hc⟩
    · rw [hc] at h
      simp only [Option.some.injEq] at h
      subst h
      exact ⟨_, h1, h2⟩
    · rw [hc] at h
      simp only at h
      have h1' : n.Cells (A ++ B ++ []) := by simpa using h1
      rw [transformRange_cells (P := A) (M := B) (S := []) h1' rfl (by simp)] at h
      rw [Option.map_eq_some_iff] at h
      obtain ⟨cs, hcs, rfl⟩ := h
      exact ⟨_, ⟨rfl, rfl⟩, cellsOk_splice (by simpa using h2) hcs⟩

/-- Insertions only. -/
theorem cellLoop_inserts {nxt : Option Range} {prev : Range} {R : List Cell} (content : Str) :
    cellLoop nxt prev R (content.map fun c => (c, (1 : Int))) = some (content.map fun c => (c, prev)) := by
  induction content with
  | nil => rfl
  | cons c s ih =>
    rw [List.map_cons, cellLoop_cons, if_pos (by omega), ih]; rfl

/-- The loop of `replace`: what remains to be written is made of cells that do not go back behind the
part already handled. -/
theorem replaceLoop_ok {n : NS} {content : Str} {ms : Matches} : ∀ {A B : List Cell} {t : Str}
    {l : List Range}, n.Cells (A ++ B) → CellsOk n.orig (A ++ B) →
    replaceLoop n content (blen (text A)) ms = some (t, l) →
    ∃ D, t = text D ∧ l = expand D ∧ (∀ d ∈ D, ValidIn n.orig d.2) ∧
      (D.Pairwise fun a b => RLe a.2 b.2) ∧ ∀ a ∈ A, ∀ d ∈ D, RLe a.2 d.2 := by
  induction ms with
  | nil =>
    intro A B t l hn ok h
    rw [replaceLoop, hn.1, hn.2, text_append, dropBytes_append] at h
    simp only [expand_append, List.length_append, length_expand] at h
    rw [if_pos (by omega)] at h
    simp only [Option.some.injEq, Prod.mk.injEq] at h
    obtain ⟨rfl, rfl⟩ := h
    have ho := List.pairwise_append.1 ok.ordered
    refine ⟨B, rfl, ?_, fun d hd => ok.valid d (by simp [hd]), ho.2.1, ho.2.2⟩
    rw [← expand_append]; exact expand_drop rfl
  | cons x ms ih =>
    intro A B t l hn ok h
    obtain ⟨⟨s, e⟩, f⟩ := x
    cases f with
    | false => rw [replaceLoop] at h; exact ih hn ok h
    | true =>
      rw [replaceLoop] at h
      split at h
      · rename_i m copied copiedAl hm hcp hal
        obtain ⟨p, q, hp, hp1, hp2⟩ := strGet_eq_some.1 hcp
        obtain ⟨p', q', hp', hp1', hp2'⟩ := strGet_eq_some.1 hm
        -- the cells before, copied, matched and after
        have ht := hn.1
        rw [text_append] at ht
        have e1 : text A ++ text B = p ++ (copied ++ q) := by rw [← ht, hp]; simp
        obtain ⟨rfl, hB⟩ := append_inj_blen e1 hp1.symm
        obtain ⟨C, B1, rfl, hC, hB1⟩ := text_eq_append hB
        have e2 : p' ++ (m ++ q') = (text A ++ copied) ++ q := by rw [← List.append_assoc, ← hp', hp]
        obtain ⟨rfl, hq⟩ := append_inj_blen e2 (by rw [hp1']; simp; omega)
        rw [← hq] at hB1
        obtain ⟨M, S, rfl, hM, hS⟩ := text_eq_append hB1
        subst hC hM
        have hn' : n.Cells ((A ++ C ++ M) ++ S) := by simpa using hn
        have ok' : CellsOk n.orig ((A ++ C ++ M) ++ S) := by simpa using ok
        split at h
        · cases h
        · rename_i as has
          split at h
          · cases h
          · rename_i t' l' hrec
            simp only [Option.some.injEq, Prod.mk.injEq] at h
            obtain ⟨rfl, rfl⟩ := h
            have he : e = blen (text (A ++ C ++ M)) := by simp at hp2' ⊢; omega
            rw [he] at hrec
            obtain ⟨D, rfl, rfl, hv, hord, hlow⟩ := ih hn' ok' hrec
            -- the alignments of the inserted content
            have has' : as = expand (content.map fun c => (c, lastAl (0, 0) (A ++ C ++ M))) := by
              have := transformLoop_cells (ds := content.map fun c => (c, (1 : Int))) (P := A ++ C ++ M)
                (R := []) (S := S) (off := blen (text M) + s) (rest := []) (by simp; omega) rfl
              rw [cellLoop_inserts] at this
              rw [hn'.2] at has
              rw [List.append_nil] at this
              rw [has] at this
              simpa using this
            have hcal : copiedAl = expand C := by
              have e3 : slice? n.al (blen (text A)) s = some (expand C) := by
                have hh := slice_expand (a := A) (b := C) (c := M ++ S)
                have : s = blen (text A) + blen (text C) := hp2.symm
                rw [this, hn.2]
                simpa using hh
              rw [e3] at hal
              exact (Option.some.inj hal).symm
            have ho := ok'.ordered
            have ho1 := List.pairwise_append.1 ho
            have ho2 := List.pairwise_append.1 ho1.1
            have ho3 := List.pairwise_append.1 ho2.1
            -- the inserted alignment is above everything before and below everything after
            have hlast_ge : ∀ a ∈ A ++ C ++ M, RLe a.2 (lastAl (0, 0) (A ++ C ++ M)) := by
              intro a ha
              have hne : A ++ C ++ M ≠ [] := fun h0 => by rw [h0] at ha; cases ha
              have hl : lastAl (0, 0) (A ++ C ++ M) = ((A ++ C ++ M).getLast hne).2 := by
                unfold lastAl; rw [List.getLast?_eq_some_getLast hne]; rfl
              rw [hl]
              have hd := List.dropLast_concat_getLast hne
              have hm' := ha
              rw [← hd] at hm'
              rcases List.mem_append.1 hm' with h1 | h1
              · have hpw := ho1.1
                rw [← hd, List.pairwise_append] at hpw
                exact hpw.2.2 a h1 _ (by simp)
              · rw [List.mem_singleton] at h1; rw [← h1]; exact RLe.refl _
            have hlast_le : ∀ d ∈ D, RLe (lastAl (0, 0) (A ++ C ++ M)) d.2 := by
              intro d hd
              rcases lastAl_spec (0, 0) (A ++ C ++ M) with h1 | ⟨c, hc, h1⟩
              · rw [h1]; exact ⟨Nat.zero_le _, Nat.zero_le _⟩
              · rw [h1]; exact hlow c hc d hd
            have hlast_valid : ValidIn n.orig (lastAl (0, 0) (A ++ C ++ M)) := by
              rcases lastAl_spec (0, 0) (A ++ C ++ M) with h1 | ⟨c, hc, h1⟩
              · rw [h1]; exact ⟨Nat.le_refl _, cutAt_zero _, cutAt_zero _⟩
              · rw [h1]; exact ok'.valid c (by simp only [List.mem_append] at hc ⊢; exact .inl hc)
            refine ⟨C ++ (content.map fun c => (c, lastAl (0, 0) (A ++ C ++ M))) ++ D, ?_, ?_, ?_, ?_, ?_⟩
            · simp [text, Function.comp_def]
            · rw [has', hcal]; simp
            · intro d hd
              rcases List.mem_append.1 hd with hd | hd
              · rcases List.mem_append.1 hd with hd | hd
                · exact ok'.valid d (by simp [hd])
                · obtain ⟨c, _, rfl⟩ := List.mem_map.1 hd; exact hlast_valid
              · exact hv d hd
            · rw [List.pairwise_append, List.pairwise_append]
              refine ⟨⟨ho3.2.1, ?_, ?_⟩, hord, ?_⟩
              · rw [List.pairwise_map]
                exact List.pairwise_iff_forall_sublist.2 fun _ => RLe.refl _
              · intro a ha b hb
                obtain ⟨c, _, rfl⟩ := List.mem_map.1 hb
                exact hlast_ge a (by simp [ha])
              · intro a ha b hb
                rcases List.mem_append.1 ha with ha | ha
                · exact hlow a (by simp [ha]) b hb
                · obtain ⟨c, _, rfl⟩ := List.mem_map.1 ha; exact hlast_le b hb
            · intro a ha d hd
              rcases List.mem_append.1 hd with hd | hd
              · rcases List.mem_append.1 hd with hd | hd
                · exact ho3.2.2 a ha d hd
                · obtain ⟨c, _, rfl⟩ := List.mem_map.1 hd; exact hlast_ge a (by simp [ha])
              · exact hlow a (by simp [ha]) d hd
      · cases h

theorem replace_ok {n n' : NS} {ms : Matches} {content : Str} (hn : n.Ok)
    (h : n.replace ms content = some n') : n'.Ok := by
  obtain ⟨cells, h1, h2⟩ := hn
  unfold replace at h
  rw [Option.map_eq_some_iff] at h
  obtain ⟨⟨t, l⟩, h, rfl⟩ := h
  obtain ⟨D, rfl, rfl, g1, g2, _⟩ := replaceLoop_ok (A := []) (B := cells) (by simpa using h1)
    (by simpa using h2) h
  exact ⟨D, ⟨rfl, rfl⟩, ⟨g1, g2⟩⟩

/-! ## slices -/

/-- The cells of a slice, relative to the start of its original part. -/
def shiftCells (o : Nat) (cs : List Cell) : List Cell := cs.map fun c => (c.1, (c.2.1 - o, c.2.2 - o))

theorem text_shiftCells (o : Nat) (cs : List Cell) : text (shiftCells o cs) = text cs := by
  simp [text, shiftCells, Function.comp_def]

theorem expand_shiftCells (o : Nat) (cs : List Cell) :
    expand (shiftCells o cs) = (expand cs).map fun a => (a.1 - o, a.2 - o) := by
  induction cs with
  | nil => rfl
  | cons c cs ih => rw [expand_cons, List.map_append, ← ih]; simp [shiftCells]

theorem cutAt_sub {p m q : Str} {k : Nat} (h : CutAt (p ++ m ++ q) k) (h1 : blen p ≤ k)
    (h2 : k ≤ blen p + blen m) : CutAt m (k - blen p) := by
  obtain ⟨x, y, hx, hk⟩ := h
  rw [List.append_assoc] at hx
  obtain ⟨u, rfl, hu⟩ := append_le_blen hx (by omega)
  obtain ⟨v, rfl, hv⟩ := append_le_blen hu.symm (by simp at hk; omega)
  exact ⟨u, v, rfl, by simp at hk; omega⟩

/-- The end of `slice` on cells. -/
theorem sliceWith_cells {n : NS} {P M S : List Cell} {p o q : Str} (hn : n.Cells (P ++ M ++ S))
    (ho : n.orig = p ++ o ++ q) (hlow : ∀ c ∈ M, blen p ≤ c.2.1 ∧ blen p ≤ c.2.2) :
    n.sliceWith (strGet n.orig (blen p) (blen p + blen o)) (strGet n.norm (blen (text P)) (blen (text (P ++ M))))
      (blen (text P), blen (text (P ++ M))) (blen p, blen p + blen o)
      = some (some ⟨o, text M, expand (shiftCells (blen p) M), n.shift + blen p⟩) := by
  have g1 : strGet n.orig (blen p) (blen p + blen o) = some o :=
    strGet_eq_some.2 ⟨p, q, ho, rfl, rfl⟩
  have g2 : strGet n.norm (blen (text P)) (blen (text (P ++ M))) = some (text M) :=
    strGet_eq_some.2 ⟨text P, text S, by rw [hn.1]; simp, rfl, by simp⟩
  have g3 : slice? n.al (blen (text P)) (blen (text (P ++ M))) = some (expand M) := by
    have := slice_expand (a := P) (b := M) (c := S)
    rw [hn.2]; simpa using this
  rw [g1, g2]
  unfold sliceWith
  simp only
  rw [g3]
  simp only
  rw [if_pos, expand_shiftCells]
  · rfl
  · rw [List.all_eq_true]
    intro a ha
    obtain ⟨c, hc, rfl⟩ := mem_expand.1 ha
    simpa using hlow c hc

theorem shiftCells_ok {p o q : Str} {M : List Cell} (ok : CellsOk (p ++ o ++ q) M)
    (hlow : ∀ c ∈ M, blen p ≤ c.2.1 ∧ c.2.2 ≤ blen p + blen o) :
    CellsOk o (shiftCells (blen p) M) := by
  refine ⟨fun c hc => ?_, ?_⟩
  · obtain ⟨d, hd, rfl⟩ := List.mem_map.1 hc
    obtain ⟨h1, h2, h3⟩ := ok.valid d hd
    have := hlow d hd
    exact ⟨by simp only; omega, cutAt_sub h2 (by omega) (by omega), cutAt_sub h3 (by omega) (by omega)⟩
  · unfold shiftCells
    rw [List.pairwise_map]
    refine ok.ordered.imp fun h => ?_
    exact ⟨by simp only; have := h.1; omega, by simp only; have := h.2; omega⟩

theorem expandAlignments_expand {M : List Cell} (hne : M ≠ []) :
    expandAlignments (expand M) = some ((M.head hne).2.1, (M.getLast hne).2.2) := by
  have hlast : (expand M).getLast? = some (M.getLast hne).2 := by
    have hd := List.dropLast_concat_getLast hne
    have hpos := (M.getLast hne).1.utf8Size_pos
    conv => lhs; rw [← hd]
    rw [expand_append, List.getLast?_append, expand_cons, expand_nil, List.append_nil,
      List.getLast?_replicate, if_neg (by omega)]
    rfl
  cases M with
  | nil => exact absurd rfl hne
  | cons c cs =>
    have hpos := c.1.utf8Size_pos
    obtain ⟨k, hk⟩ : ∃ k, c.1.utf8Size = k + 1 := ⟨c.1.utf8Size - 1, by omega⟩
    have he : expand (c :: cs) = c.2 :: (List.replicate k c.2 ++ expand cs) := by
      rw [expand_cons, hk, List.replicate_succ]; rfl
    rw [he] at hlast
    rw [he]
    unfold expandAlignments
    have : (c.2 :: (List.replicate k c.2 ++ expand cs)).getLast (by simp) = ((c :: cs).getLast hne).2 := by
      rw [List.getLast?_eq_some_getLast (by simp)] at hlast
      exact Option.some.inj hlast
    simp only [List.head_cons]
    rw [this]

theorem pairwise_getLast {M : List Cell} (hne : M ≠ []) (h : M.Pairwise fun a b => RLe a.2 b.2) :
    ∀ c ∈ M, RLe c.2 (M.getLast hne).2 := by
  intro a ha
  have hd := List.dropLast_concat_getLast hne
  have hm := ha
  rw [← hd] at hm
  rcases List.mem_append.1 hm with h1 | h1
  · rw [← hd, List.pairwise_append] at h
    exact h.2.2 a h1 _ (by simp)
  · rw [List.mem_singleton] at h1; rw [← h1]; exact RLe.refl _

theorem pairwise_head {M : List Cell} (hne : M ≠ []) (h : M.Pairwise fun a b => RLe a.2 b.2) :
    ∀ c ∈ M, RLe (M.head hne).2 c.2 := by
  cases M with
  | nil => exact absurd rfl hne
  | cons x xs =>
    intro c hc
    rcases List.mem_cons.1 hc with rfl | hc
    · exact RLe.refl _
    · exact (List.pairwise_cons.1 h).1 c hc

/-- Two cuts of a text, in order. -/
theorem cut_two {s : Str} {a b : Nat} (ha : CutAt s a) (hb : CutAt s b) (h : a ≤ b) :
    ∃ p m q, s = p ++ m ++ q ∧ blen p = a ∧ blen p + blen m = b := by
  obtain ⟨p, q, rfl, rfl⟩ := ha
  obtain ⟨p', q', h1, rfl⟩ := hb
  obtain ⟨m, rfl, rfl⟩ := append_le_blen h1 h
  exact ⟨p, m, q', by simp, rfl, by simp⟩

/-- `slice(Normalized(r))` of a non-empty range on cell boundaries. -/
theorem sliceNormalized_cells {n : NS} {P M S : List Cell} (hn : n.Cells (P ++ M ++ S))
    (ok : CellsOk n.orig (P ++ M ++ S)) (hne : M ≠ []) :
    ∃ p o q, n.orig = p ++ o ++ q ∧ blen p = (M.head hne).2.1 ∧
      blen p + blen o = (M.getLast hne).2.2 ∧
      (∀ c ∈ M, blen p ≤ c.2.1 ∧ c.2.2 ≤ blen p + blen o) ∧
      n.sliceNormalized (blen (text P), blen (text (P ++ M)))
        = some (some ⟨o, text M, expand (shiftCells (blen p) M), n.shift + blen p⟩) := by
  have hM : ∀ c ∈ M, ValidIn n.orig c.2 := fun c hc => ok.valid c (by simp [hc])
  have ho : M.Pairwise fun a b => RLe a.2 b.2 :=
    (List.pairwise_append.1 (List.pairwise_append.1 ok.ordered).1).2.1
  have hhead := hM _ (List.head_mem hne)
  have hlast := hM _ (List.getLast_mem hne)
  have hle := pairwise_head hne ho _ (List.getLast_mem hne)
  obtain ⟨p, o, q, hp, hp1, hp2⟩ := cut_two hhead.2.1 hlast.2.2 (by have := hle.1; have := hlast.1; omega)
  have hlow : ∀ c ∈ M, blen p ≤ c.2.1 ∧ c.2.2 ≤ blen p + blen o := by
    intro c hc
    have := pairwise_head hne ho c hc
    have := pairwise_getLast hne ho c hc
    exact ⟨by rw [hp1]; exact (pairwise_head hne ho c hc).1, by rw [hp2]; exact (pairwise_getLast hne ho c hc).2⟩
  refine ⟨p, o, q, hp, hp1, hp2, hlow, ?_⟩
  have hpos : 0 < blen (text M) := blen_pos (by intro h; exact hne (by simpa [text] using h))
  unfold sliceNormalized
  rw [if_pos]
  · have hc : n.convertNormalized (blen (text P), blen (text (P ++ M))) = some (blen p, blen p + blen o) := by
      unfold convertNormalized
      simp only
      rw [if_neg (by simp; omega), if_neg (by simp)]
      have := slice_expand (a := P) (b := M) (c := S)
      rw [hn.2]
      rw [text_append, blen_append, this, Option.bind_some, expandAlignments_expand hne, hp1, ← hp2]
      rw [hp1]
    rw [hc]
    simp only
    exact sliceWith_cells hn hp fun c hc => ⟨(hlow c hc).1, by
      have := (hlow c hc).1; have := (hM c hc).1; omega⟩
  · refine ⟨isBoundary_iff.2 ⟨text P, text M ++ text S, by rw [hn.1]; simp, rfl⟩,
      isBoundary_iff.2 ⟨text (P ++ M), text S, by rw [hn.1]; simp, rfl⟩⟩

/-- Cell boundaries of a range on character boundaries. -/
theorem cells_of_boundaries {n : NS} {cs : List Cell} (hn : n.Cells cs) {a b : Nat}
    (ha : isBoundary n.norm a = true) (hb : isBoundary n.norm b = true) (h : a ≤ b) :
    ∃ P M S, cs = P ++ M ++ S ∧ a = blen (text P) ∧ b = blen (text (P ++ M)) := by
  obtain ⟨p, m, q, h1, h2, h3⟩ := cut_two (isBoundary_iff.1 ha) (isBoundary_iff.1 hb) h
  have ht := hn.1
  rw [h1] at ht
  obtain ⟨PM, S, rfl, hPM, hS⟩ := text_eq_append ht.symm
  obtain ⟨P, M, rfl, hP, hM⟩ := text_eq_append hPM
  exact ⟨P, M, S, rfl, by rw [hP, h2], by rw [text_append, hP, hM]; simp; omega⟩

/-- An empty slice: no text and no alignments. -/
theorem sliceWith_empty {n n' : NS} {o t : Option Str} {k : Nat} {or : Range}
    (ht : t = none ∨ t = some []) (h : n.sliceWith o t (k, k) or = some (some n')) :
    n'.norm = [] ∧ n'.al = [] := by
  unfold sliceWith at h
  split at h
  · cases h
  · rename_i al hal
    obtain ⟨_, hal⟩ := slice?_some_iff.1 hal
    have : al = [] := by
      rw [← hal]
      apply List.drop_of_length_le
      rw [List.length_take]; simp only; omega
    subst this
    simp only [List.all_nil, if_true, Option.some.injEq] at h
    subst h
    rcases ht with rfl | rfl <;> exact ⟨rfl, rfl⟩

theorem strGet_same {s : Str} {k : Nat} : strGet s k k = none ∨ strGet s k k = some [] := by
  cases h : strGet s k k with
  | none => exact .inl rfl
  | some m =>
    obtain ⟨p, q, _, h1, h2⟩ := strGet_eq_some.1 h
    have : m = [] := blen_eq_zero.1 (by omega)
    subst this; exact .inr rfl

theorem ok_empty {n : NS} (h : n.norm = [] ∧ n.al = []) : n.Ok :=
  ⟨[], ⟨h.1, h.2⟩, ⟨by simp, List.Pairwise.nil⟩⟩

theorem sliceNormalized_ok {n n' : NS} {r : Range} (hn : n.Ok)
    (h : n.sliceNormalized r = some (some n')) : n'.Ok := by
  obtain ⟨cells, h1, h2⟩ := hn
  have h0 := h
  unfold sliceNormalized at h
  split at h
  · rename_i hb
    rcases Nat.lt_trichotomy r.1 r.2 with hlt | heq | hgt
    · obtain ⟨P, M, S, rfl, ha, hb'⟩ := cells_of_boundaries h1 hb.1 hb.2 (by omega)
      have hne : M ≠ [] := by rintro rfl; simp at hb'; omega
      obtain ⟨p, o, q, g1, g2, g3, g4, g5⟩ := sliceNormalized_cells h1 h2 hne
      have hr : r = (blen (text P), blen (text (P ++ M))) := Prod.ext ha hb'
      rw [hr, g5] at h0
      simp only [Option.some.injEq] at h0
      subst h0
      refine ⟨_, ⟨(text_shiftCells _ _).symm, rfl⟩, ?_⟩
      refine shiftCells_ok (q := q) ⟨fun c hc => ?_, ?_⟩ g4
      · rw [← g1]; exact h2.valid c (by simp [hc])
      · exact (List.pairwise_append.1 (List.pairwise_append.1 h2.ordered).1).2.1
    · have hr : r = (r.1, r.1) := Prod.ext rfl heq.symm
      rw [hr] at h
      simp only [convertNormalized, if_true] at h
      exact ok_empty (sliceWith_empty strGet_same h)
    · have : n.convertNormalized r = none := by
        unfold convertNormalized; rw [if_neg (by omega), if_pos hgt]
      rw [this] at h
      cases h
  · cases h

theorem sliceOriginal_ok {n n' : NS} {r : Range} (hn : n.Ok)
    (h : n.sliceOriginal r = some (some n')) : n'.Ok := by
  obtain ⟨cells, h1, h2⟩ := hn
  unfold sliceOriginal at h
  split at h
  · rename_i hb
    rcases Nat.lt_trichotomy r.1 r.2 with hlt | heq | hgt
    · rcases convertOriginal_cells h1 hlt with ⟨g, _⟩ | ⟨A, B, S, rfl, g1, g2, g3, g4, g5⟩
      · rw [g] at h; cases h
      · rw [g5] at h
        simp only at h
        obtain ⟨p, o, q, hp, hp1, hp2⟩ := cut_two (isBoundary_iff.1 hb.1) (isBoundary_iff.1 hb.2) (by omega)
        have hlow : ∀ c ∈ B, r.1 ≤ c.2.1 := by
          intro c hc
          have hne : B ≠ [] := fun h0 => by rw [h0] at hc; cases hc
          have ho : B.Pairwise fun a b => RLe a.2 b.2 :=
            (List.pairwise_append.1 (List.pairwise_append.1 h2.ordered).1).2.1
          have h3 := g4 (B.head hne) (by rw [List.head?_eq_some_head hne]; rfl)
          exact Nat.le_trans h3.1 (pairwise_head hne ho c hc).1
        have hv : ∀ c ∈ B, ValidIn n.orig c.2 := fun c hc => h2.valid c (by simp [hc])
        have := sliceWith_cells (p := p) (o := o) (q := q) h1 hp fun c hc =>
          ⟨by rw [hp1]; exact hlow c hc, by have := hlow c hc; have := (hv c hc).1; omega⟩
        have hr : r = (blen p, blen p + blen o) := Prod.ext hp1.symm hp2.symm
        rw [hp2, hp1] at this
        rw [show (r.1, r.2) = r from rfl] at this
        rw [this] at h
        simp only [Option.some.injEq] at h
        subst h
        refine ⟨shiftCells r.1 B, ⟨(text_shiftCells _ _).symm, rfl⟩, ?_⟩
        rw [← hp1]
        refine shiftCells_ok (q := q) ⟨fun c hc => ?_, ?_⟩ fun c hc => ⟨?_, ?_⟩
        · rw [← hp]; exact hv c hc
        · exact (List.pairwise_append.1 (List.pairwise_append.1 h2.ordered).1).2.1
        · rw [hp1]; exact hlow c hc
        · rw [hp2]; exact g1 c (by simp [hc])
    · have hr : r = (r.1, r.1) := Prod.ext rfl heq.symm
      rw [hr] at h
      simp only [convertOriginal, if_true] at h
      exact ok_empty (sliceWith_empty strGet_same h)
    · have : n.convertOriginal r = none := by
        unfold convertOriginal; rw [if_neg (by omega), if_pos hgt]
      rw [this] at h
      cases h
  · cases h

/-! ## all operations -/

theorem fits_inserts (s : Str) (k : Nat) : Fits (s.map fun c => (c, (1 : Int))) k := by
  induction s with
  | nil => trivial
  | cons c s ih => rw [List.map_cons, Fits, if_pos (by omega)]; exact ih

theorem fits_inserts_append {ds : List (Char × Int)} (h : ∀ d ∈ ds, d.2 > 0) (k : Nat) : Fits ds k := by
  induction ds with
  | nil => trivial
  | cons d ds ih =>
    obtain ⟨c, ch⟩ := d
    rw [Fits, if_pos (h _ List.mem_cons_self)]
    exact ih fun x hx => h x (List.mem_cons_of_mem _ hx)

/-- The entries of `prepend` after the first are insertions. -/
theorem prependDest_cons (c : Char) (s : Str) (next : Char) :
    ((c :: s).zipIdx.map fun p => (p.1, if p.2 ≠ 0 then (1 : Int) else 0)) ++ [(next, 1)]
      = (c, 0) :: ((s.map fun c => (c, (1 : Int))) ++ [(next, 1)]) := by
  rw [List.zipIdx_cons, List.map_cons, List.cons_append]
  congr 2
  have : ∀ (l : Str) (k : Nat), 0 < k →
      (l.zipIdx k).map (fun p => (p.1, if p.2 ≠ 0 then (1 : Int) else 0)) = l.map fun c => (c, (1 : Int)) := by
    intro l
    induction l with
    | nil => intro k _; rfl
    | cons x xs ih =>
      intro k hk
      rw [List.zipIdx_cons, List.map_cons, List.map_cons, ih (k + 1) (by omega), if_pos (by simp only; omega)]
  exact this s 1 (by omega)

theorem ofStr_ok (s : Str) : (ofStr s).Ok := ⟨_, ofStr_cells s, ofStr_cellsOk s⟩

theorem prepend_ok {n n' : NS} {s : Str} (ih : n.Ok) (h : n.prepend s = some n') : n'.Ok := by
  unfold NS.prepend at h
  split at h
  · simp only [Option.some.injEq] at h; subst h; exact ih
  · rename_i next rest hn
    refine transformRange_ok ih ?_ h
    intro m hm
    cases s with
    | nil => exact fits_inserts [next] _
    | cons c s =>
      rw [prependDest_cons, Fits, if_neg (by omega)]
      have hlen : m = [next] := by
        rw [hn] at hm
        obtain ⟨p, q, h1, h2, h3⟩ := strGet_eq_some.1 hm
        have hp : p = [] := blen_eq_zero.1 h2
        subst hp
        have e : [next] ++ rest = m ++ q := by simpa using h1
        exact (append_inj_blen e (by simpa using h3.symm)).1.symm
      subst hlen
      refine ⟨by simp, fits_inserts_append ?_ _⟩
      intro d hd
      rcases List.mem_append.1 hd with hd | hd
      · obtain ⟨x, _, rfl⟩ := List.mem_map.1 hd; simp
      · rw [List.mem_singleton] at hd; subst hd; simp

theorem append_ok {n n' : NS} {s : Str} (ih : n.Ok) (h : n.append s = some n') : n'.Ok := by
  unfold NS.append at h
  split at h
  · rename_i prev hl
    refine transformRange_ok ih ?_ h
    intro m hm
    rw [Fits, if_neg (by omega)]
    refine ⟨?_, fits_inserts s _⟩
    obtain ⟨p, q, h1, h2, h3⟩ := strGet_eq_some.1 hm
    have hne : n.norm ≠ [] := by intro h0; rw [h0] at hl; cases hl
    have : m ≠ [] := by
      rintro rfl
      have hd := List.dropLast_concat_getLast hne
      have hb := congrArg blen hd
      have hpos := (n.norm.getLast hne).utf8Size_pos
      simp at hb h3 h2
      omega
    have := List.length_pos_iff.2 this
    omega
  · exact transformRange_ok ih (fun m _ => fits_inserts _ _) h

theorem lrstrip_ok {n n' : NS} {ws : Char → Bool} {l r : Bool} (ih : n.Ok)
    (h : n.lrstrip ws l r = some n') : n'.Ok := by
  unfold NS.lrstrip at h
  dsimp only at h
  generalize (if l = true then (List.takeWhile ws n.norm).length else 0) = a at h
  generalize (if r = true then (List.takeWhile ws n.norm.reverse).length else 0) = b at h
  split at h
  · exact transform_ok ih h
  · simp only [Option.some.injEq] at h; subst h; exact ih

theorem reachable_ok {n : NS} (h : Reachable n) : n.Ok := by
  induction h with
  | ofStr s => exact ofStr_ok s
  | transform _ h ih => exact transform_ok ih h
  | transformRange _ hf h ih => exact transformRange_ok ih hf h
  | transformRangeOriginal _ hf h ih =>
    unfold NS.transformRangeOriginal at h
    split at h
    · simp only [Option.some.injEq] at h; subst h; exact ih
    · rename_i nr hnr
      exact transformRange_ok ih (hf nr hnr) h
  | filter _ h ih => exact transform_ok ih h
  | prepend _ h ih => exact prepend_ok ih h
  | append _ h ih => exact append_ok ih h
  | map _ h ih => exact transform_ok ih h
  | mapChars _ h ih => exact transform_ok ih h
  | clear _ h ih =>
    unfold NS.clear at h
    rw [Option.map_eq_some_iff] at h
    obtain ⟨n', h, he⟩ := h
    injection he with he _
    subst he
    exact transform_ok ih h
  | lrstrip _ h ih => exact lrstrip_ok ih h
  | replace _ h ih => exact replace_ok ih h
  | sliceNormalized _ h ih => exact sliceNormalized_ok ih h
  | sliceOriginal _ h ih => exact sliceOriginal_ok ih h

/-- **C08.** After any history of operations, the alignments are well-formed: one per byte, shared by the
bytes of a character, ranges of the original between characters, ordered. -/
theorem C08_wellFormed {n : NS} (h : Reachable n) : n.WellFormed := ok_iff.1 (reachable_ok h)

/-- A history: "Hé llo", lower-cased, without its spaces, with "▁" in front, then cut. -/
example : ∃ n a b c d, ofStr "Hé llo".toList = n ∧
    n.mapChars (fun c => [if c = 'H' then 'h' else c]) = some a ∧ a.filter (fun c => c ≠ ' ') = some b ∧
    b.prepend ['▁'] = some c ∧ c.sliceNormalized (3, 7) = some (some d) ∧
    d.norm = "hél".toList ∧ d.al = [(0, 1), (1, 3), (1, 3), (4, 5)] ∧ d.orig = "Hé l".toList := by
  refine ⟨_, _, _, _, _, rfl, rfl, rfl, rfl, rfl, ?_⟩
  decide

/-- Why transformations of a part must fit: on "abc", replacing `a` by two replacements and an insertion
uses the alignment of `b` and then goes back to that of `a`. -/
theorem C08_misuse_breaks_order : ∃ n n' : NS, Reachable n ∧
    n.transformRange (0, 1) [('x', 0), ('y', 0), ('z', 1)] 0 = some n' ∧ ¬ n'.WellFormed := by
  refine ⟨ofStr "abc".toList, _, .ofStr _, rfl, fun h => ?_⟩
  have := h.ordered
  revert this
  decide

end NS
end Tok
