import Verif.Norm.Model
import Verif.BaseLemmas

namespace Tok

/-! ## byte-indexed strings -/

theorem takeBytes_append (p s : Str) : takeBytes (blen p) (p ++ s) = some p := by
  induction p with
  | nil => simp [takeBytes]
  | cons c cs ih =>
    have := c.utf8Size_pos
    obtain ⟨k, hk⟩ : ∃ k, c.utf8Size + blen cs = k + 1 := ⟨c.utf8Size + blen cs - 1, by omega⟩
    rw [blen_cons, hk, List.cons_append, takeBytes, if_pos (by omega)]
    have : k + 1 - c.utf8Size = blen cs := by omega
    rw [this, ih]; rfl

theorem takeBytes_eq_some {n : Nat} {s t : Str} (h : takeBytes n s = some t) :
    ∃ q, s = t ++ q ∧ blen t = n := by
  induction s generalizing n t with
  | nil =>
    cases n with
    | zero => simp [takeBytes] at h; subst h; exact ⟨[], rfl, rfl⟩
    | succ n => simp [takeBytes] at h
  | cons c cs ih =>
    cases n with
    | zero => simp [takeBytes] at h; subst h; exact ⟨c :: cs, rfl, rfl⟩
    | succ n =>
      rw [takeBytes] at h
      split at h
      · rw [Option.map_eq_some_iff] at h
        obtain ⟨u, hu, rfl⟩ := h
        obtain ⟨q, h1, h2⟩ := ih hu
        exact ⟨q, by simp [h1], by simp; omega⟩
      · cases h

/-- `str::get(a..b)` is the text between two cuts. -/
theorem strGet_eq_some {s m : Str} {a b : Nat} :
    strGet s a b = some m ↔ ∃ p q, s = p ++ m ++ q ∧ blen p = a ∧ blen p + blen m = b := by
  unfold strGet
  constructor
  · intro h
    split at h
    · rename_i hab
      rw [Option.bind_eq_some_iff] at h
      obtain ⟨t, h1, h2⟩ := h
      obtain ⟨p, rfl, hp⟩ := dropBytes_eq_some h1
      obtain ⟨q, rfl, hm⟩ := takeBytes_eq_some h2
      exact ⟨p, q, by simp, hp, by omega⟩
    · cases h
  · rintro ⟨p, q, rfl, h1, h2⟩
    rw [if_pos (by omega)]
    subst h1
    rw [List.append_assoc, dropBytes_append, Option.bind_some]
    have : b - blen p = blen m := by omega
    rw [this, takeBytes_append]

theorem isBoundary_iff {s : Str} {n : Nat} :
    isBoundary s n = true ↔ ∃ p q, s = p ++ q ∧ blen p = n := by
  unfold isBoundary
  rw [Option.isSome_iff_exists]
  constructor
  · rintro ⟨t, h⟩
    obtain ⟨p, h1, h2⟩ := dropBytes_eq_some h
    exact ⟨p, t, h1, h2⟩
  · rintro ⟨p, q, rfl, rfl⟩
    exact ⟨q, dropBytes_append p q⟩

theorem isBoundary_le {s : Str} {n : Nat} (h : isBoundary s n = true) : n ≤ blen s := by
  obtain ⟨p, q, rfl, rfl⟩ := isBoundary_iff.1 h
  simp

/-- Two cuts of a text at the same byte are the same cut. -/
theorem append_inj_blen {p q p' q' : Str} (h : p ++ q = p' ++ q') (hb : blen p = blen p') :
    p = p' ∧ q = q' := by
  have h1 := takeBytes_append p q
  have h2 := takeBytes_append p' q'
  rw [h, hb, h2] at h1
  injection h1 with h1
  subst h1
  exact ⟨rfl, List.append_cancel_left h⟩

/-- Two cuts of a text: the earlier one is a prefix of the later one. -/
theorem append_le_blen {p q p' q' : Str} (h : p ++ q = p' ++ q') (hb : blen p ≤ blen p') :
    ∃ m, p' = p ++ m ∧ q = m ++ q' := by
  rcases List.append_eq_append_iff.1 h with ⟨m, h1, h2⟩ | ⟨m, h1, h2⟩
  · exact ⟨m, h1, h2⟩
  · subst h1
    have : blen m = 0 := by simp at hb; omega
    rw [blen_eq_zero] at this
    subst this
    exact ⟨[], by simp, by simpa using h2.symm⟩

namespace NS

/-! ## cells: a character with its alignment -/

abbrev Cell := Char × Range

/-- One alignment per byte. -/
def expand (cs : List Cell) : List Range := cs.flatMap fun c => List.replicate c.1.utf8Size c.2

/-- The text of some cells. -/
def text (cs : List Cell) : Str := cs.map (·.1)

/-- The normalized side of a string is made of these cells. -/
def Cells (n : NS) (cs : List Cell) : Prop := n.norm = text cs ∧ n.al = expand cs

@[simp] theorem text_nil : text [] = [] := rfl
@[simp] theorem text_cons (c : Cell) (cs : List Cell) : text (c :: cs) = c.1 :: text cs := rfl
@[simp] theorem text_append (a b : List Cell) : text (a ++ b) = text a ++ text b := by simp [text]
@[simp] theorem expand_nil : expand [] = [] := rfl
@[simp] theorem expand_cons (c : Cell) (cs : List Cell) :
    expand (c :: cs) = List.replicate c.1.utf8Size c.2 ++ expand cs := rfl
@[simp] theorem expand_append (a b : List Cell) : expand (a ++ b) = expand a ++ expand b := by
  simp [expand]
@[simp] theorem length_expand (cs : List Cell) : (expand cs).length = blen (text cs) := by
  induction cs with
  | nil => rfl
  | cons c cs ih => simp [ih]

theorem mem_expand {cs : List Cell} {a : Range} : a ∈ expand cs ↔ ∃ c ∈ cs, c.2 = a := by
  unfold expand
  rw [List.mem_flatMap]
  constructor
  · rintro ⟨c, h1, h2⟩; rw [List.mem_replicate] at h2; exact ⟨c, h1, h2.2.symm⟩
  · rintro ⟨c, h1, rfl⟩
    exact ⟨c, h1, List.mem_replicate.2 ⟨by have := c.1.utf8Size_pos; omega, rfl⟩⟩

/-- Cutting the text cuts the cells. -/
theorem text_eq_append {cs : List Cell} {p q : Str} (h : text cs = p ++ q) :
    ∃ a b, cs = a ++ b ∧ text a = p ∧ text b = q := by
  unfold text at *
  rw [List.map_eq_append_iff] at h
  exact h

/-- The alignment of the last cell, or a default. -/
def lastAl (d : Range) (cs : List Cell) : Range := (cs.getLast?).elim d (·.2)

@[simp] theorem lastAl_nil (d : Range) : lastAl d [] = d := rfl
theorem lastAl_append_cons (d : Range) (a b : List Cell) (c : Cell) :
    lastAl d (a ++ c :: b) = lastAl c.2 b := by
  unfold lastAl
  cases b with
  | nil => simp
  | cons x xs => rw [List.getLast?_append, List.getLast?_cons_cons, List.getLast?_cons]; rfl

theorem lastAl_cons (d : Range) (b : List Cell) (c : Cell) : lastAl d (c :: b) = lastAl c.2 b :=
  lastAl_append_cons d [] b c

theorem expand_get_first {a b : List Cell} {c : Cell} :
    (expand (a ++ c :: b))[blen (text a)]? = some c.2 := by
  have := c.1.utf8Size_pos
  rw [expand_append, expand_cons, List.getElem?_append_right (by simp), length_expand, Nat.sub_self,
    List.getElem?_append_left (by rw [List.length_replicate]; omega), List.getElem?_replicate, if_pos (by omega)]

theorem expand_get_last {a b : List Cell} (h : ¬ blen (text a) < 1) :
    (expand (a ++ b))[blen (text a) - 1]? = some (lastAl (0, 0) a) := by
  have hne : a ≠ [] := by rintro rfl; simp at h
  obtain ⟨x, c, rfl⟩ : ∃ x c, a = x ++ [c] := ⟨a.dropLast, a.getLast hne, (List.dropLast_concat_getLast hne).symm⟩
  have := c.1.utf8Size_pos
  rw [lastAl_append_cons]
  simp only [lastAl_nil]
  rw [List.append_assoc, expand_append, text_append, blen_append,
    List.getElem?_append_right (by simp; omega), List.singleton_append, expand_cons,
    List.getElem?_append_left (by simp; omega), List.getElem?_replicate]
  simp; omega

theorem expand_take {a b : List Cell} {n : Nat} (h : blen (text a) = n) :
    (expand (a ++ b)).take n = expand a := by
  rw [expand_append, List.take_append_of_le_length (by simp; omega), List.take_of_length_le (by simp; omega)]

theorem expand_drop {a b : List Cell} {n : Nat} (h : blen (text a) = n) :
    (expand (a ++ b)).drop n = expand b := by
  rw [expand_append, List.drop_append, List.drop_of_length_le (by simp; omega)]
  simp [h]

theorem slice_expand {a b c : List Cell} :
    slice? (expand (a ++ b ++ c)) (blen (text a)) (blen (text a) + blen (text b)) = some (expand b) := by
  rw [slice?_eq_some (by omega) (by simp), expand_take (by simp), expand_drop rfl]

/-! ## the transformation loop on cells -/

/-- What `transform_range` does to the cells of the range: `prev` is the alignment of the cell before the
current position, `nxt` that of the cell after the range (used by a replacement past the end of the
range). -/
def cellLoop (nxt : Option Range) : Range → List Cell → List (Char × Int) → Option (List Cell)
  | _, _, [] => some []
  | prev, R, (c, ch) :: ds =>
    if ch > 0 then (cellLoop nxt prev R ds).map ((c, prev) :: ·)
    else match R with
      | [] => nxt.bind fun a => (cellLoop nxt prev [] ds).map ((c, a) :: ·)
      | x :: r =>
        (cellLoop nxt (lastAl x.2 (r.take (-ch).toNat)) (r.drop (-ch).toNat) ds).map ((c, x.2) :: ·)

theorem cellLoop_cons (nxt : Option Range) (prev : Range) (R : List Cell) (c : Char) (ch : Int)
    (ds : List (Char × Int)) :
    cellLoop nxt prev R ((c, ch) :: ds) = if ch > 0 then (cellLoop nxt prev R ds).map ((c, prev) :: ·)
    else match R with
      | [] => nxt.bind fun a => (cellLoop nxt prev [] ds).map ((c, a) :: ·)
      | x :: r =>
        (cellLoop nxt (lastAl x.2 (r.take (-ch).toNat)) (r.drop (-ch).toNat) ds).map ((c, x.2) :: ·) := by
  rw [cellLoop.eq_def]

theorem cellLoop_text {nxt : Option Range} {prev : Range} {R : List Cell} {ds : List (Char × Int)}
    {cs : List Cell} (h : cellLoop nxt prev R ds = some cs) : text cs = ds.map (·.1) := by
  induction ds generalizing prev R cs with
  | nil => simp [cellLoop] at h; subst h; rfl
  | cons d ds ih =>
    obtain ⟨c, ch⟩ := d
    rw [cellLoop_cons] at h
    split at h
    · rw [Option.map_eq_some_iff] at h
      obtain ⟨u, hu, rfl⟩ := h
      simp [ih hu]
    · split at h
      · rw [Option.bind_eq_some_iff] at h
        obtain ⟨a, _, h⟩ := h
        rw [Option.map_eq_some_iff] at h
        obtain ⟨u, hu, rfl⟩ := h
        simp [ih hu]
      · rw [Option.map_eq_some_iff] at h
        obtain ⟨u, hu, rfl⟩ := h
        simp [ih hu]

/-- The byte-level loop is the loop on cells. -/
theorem transformLoop_cells {ds : List (Char × Int)} : ∀ {P R S : List Cell} {off : Nat}
    {rest : Str}, off = blen (text P) → rest = text R →
    transformLoop (expand (P ++ R ++ S)) ds off rest
      = (cellLoop (S.head?.map (·.2)) (lastAl (0, 0) P) R ds).map expand := by
  induction ds with
  | nil => intro P R S off rest _ _; rfl
  | cons d ds ih =>
    intro P R S off rest hoff hrest
    subst hoff hrest
    obtain ⟨c, ch⟩ := d
    rw [cellLoop_cons]
    split
    · rename_i hch
      have hneg : ¬ ch < 0 := by omega
      simp only [transformLoop, if_pos hch, if_neg hneg, blen_nil, Nat.add_zero]
      have ha : (if blen (text P) < 1 then some (0, 0) else (expand (P ++ R ++ S))[blen (text P) - 1]?)
          = some (lastAl (0, 0) P) := by
        split
        · rename_i hlt
          have : text P = [] := blen_eq_zero.1 (by omega)
          have : P = [] := by simpa [text] using this
          subst this; rfl
        · rw [List.append_assoc]; exact expand_get_last (by assumption)
      rw [ha]
      simp only
      rw [ih rfl rfl]
      cases cellLoop (S.head?.map (·.2)) (lastAl (0, 0) P) R ds <;> rfl
    · rename_i hch
      cases R with
      | nil =>
        simp only [transformLoop, if_neg hch, text_nil, List.take_nil, List.drop_nil, blen_nil,
          Nat.add_zero, ite_self]
        have ha : (expand (P ++ [] ++ S))[blen (text P)]? = S.head?.map (·.2) := by
          cases S with
          | nil => rw [List.getElem?_eq_none (by simp)]; rfl
          | cons y ys => rw [List.append_nil]; exact expand_get_first
        rw [ha]
        cases S with
        | nil => rfl
        | cons y ys =>
          simp only [List.head?_cons, Option.map_some, Option.bind_some]
          rw [ih (R := []) (rest := []) rfl rfl]
          simp only [List.head?_cons, Option.map_some]
          cases cellLoop (some y.2) (lastAl (0, 0) P) [] ds <;> rfl
      | cons x r =>
        simp only [transformLoop, if_neg hch, text_cons, List.take_succ_cons, List.take_zero,
          List.drop_succ_cons, List.drop_zero]
        have ha : (expand (P ++ x :: r ++ S))[blen (text P)]? = some x.2 := by
          rw [List.append_assoc, List.cons_append]; exact expand_get_first
        rw [ha]
        simp only
        -- the cells consumed
        have key : ∀ k, transformLoop (expand (P ++ x :: r ++ S)) ds
              (blen (text P) + blen [x.1] + blen ((text r).take k)) ((text r).drop k)
              = (cellLoop (S.head?.map (·.2)) (lastAl x.2 (r.take k)) (r.drop k) ds).map expand := by
          intro k
          have e1 : P ++ x :: r ++ S = (P ++ x :: r.take k) ++ r.drop k ++ S := by
            simp
          rw [e1, ← lastAl_append_cons (0, 0) P]
          apply ih
          · simp [text, List.map_take]; omega
          · simp [text, List.map_drop]
        by_cases hneg : ch < 0
        · rw [if_pos hneg, if_pos hneg, key]
          cases cellLoop (S.head?.map (·.2)) (lastAl x.2 (r.take (-ch).toNat)) (r.drop (-ch).toNat) ds <;>
            rfl
        · have h0 : (-ch).toNat = 0 := by omega
          have := key 0
          rw [if_neg hneg, if_neg hneg, h0]
          simp only [List.take_zero, List.drop_zero, lastAl_nil] at this ⊢
          rw [this]
          cases cellLoop (S.head?.map (·.2)) x.2 r ds <;> rfl

/-- A transformation that replaces or removes only characters of the range never looks past it. -/
theorem cellLoop_none {nxt : Option Range} {ds : List (Char × Int)} : ∀ {prev : Range} {R cs : List Cell},
    cellLoop none prev R ds = some cs → cellLoop nxt prev R ds = some cs := by
  induction ds with
  | nil => intro prev R cs h; exact h
  | cons d ds ih =>
    intro prev R cs h
    obtain ⟨c, ch⟩ := d
    rw [cellLoop_cons] at h ⊢
    split at h
    · rename_i hch
      rw [if_pos hch]
      rw [Option.map_eq_some_iff] at h ⊢
      obtain ⟨u, hu, rfl⟩ := h
      exact ⟨u, ih hu, rfl⟩
    · rename_i hch
      rw [if_neg hch]
      cases R with
      | nil => cases h
      | cons x r =>
        simp only at h ⊢
        rw [Option.map_eq_some_iff] at h ⊢
        obtain ⟨u, hu, rfl⟩ := h
        exact ⟨u, ih hu, rfl⟩

/-- `transform_range` on cells: the middle part is rewritten by `cellLoop`. -/
theorem transformRange_cells {n : NS} {P M S : List Cell} {r : Range} {ds : List (Char × Int)}
    {init : Nat} (hn : n.Cells (P ++ M ++ S)) (ha : r.1 = blen (text P))
    (hb : r.2 = blen (text P) + blen (text M)) :
    n.transformRange r ds init =
      (cellLoop (S.head?.map (·.2)) (lastAl (0, 0) (P ++ M.take init)) (M.drop init) ds).map fun cs =>
        ⟨n.orig, text (P ++ cs ++ S), expand (P ++ cs ++ S), n.shift⟩ := by
  obtain ⟨h1, h2⟩ := hn
  have g1 : strGet n.norm r.1 r.2 = some (text M) :=
    strGet_eq_some.2 ⟨text P, text S, by rw [h1]; simp, ha.symm, hb.symm⟩
  have g2 : takeBytes r.1 n.norm = some (text P) := by
    rw [ha, h1, text_append, text_append, List.append_assoc]; exact takeBytes_append _ _
  have g3 : dropBytes r.2 n.norm = some (text S) := by
    rw [hb, h1, text_append (P ++ M) S, ← blen_append, ← text_append]; exact dropBytes_append _ _
  have g4 : transformLoop n.al ds (blen ((text M).take init) + r.1) ((text M).drop init)
      = (cellLoop (S.head?.map (·.2)) (lastAl (0, 0) (P ++ M.take init)) (M.drop init) ds).map expand := by
    rw [h2]
    have e : P ++ M ++ S = (P ++ M.take init) ++ M.drop init ++ S := by simp
    rw [e]
    apply transformLoop_cells
    · simp [text, List.map_take, ha]; omega
    · simp [text, List.map_drop]
  have g5 : r.2 ≤ n.al.length := by rw [h2]; simp [hb]
  unfold transformRange
  rw [g1, g2, g3]
  simp only
  rw [g4]
  cases hc : cellLoop (S.head?.map (·.2)) (lastAl (0, 0) (P ++ M.take init)) (M.drop init) ds with
  | none => rfl
  | some cs =>
    simp only [Option.map_some]
    rw [if_pos g5, h2, expand_drop (a := P ++ M) (by simp; omega), List.append_assoc P,
      expand_take ha.symm]
    simp [← cellLoop_text hc]

/-- When `transform_range` does not panic the range lies on cell boundaries. -/
theorem transformRange_some {n n' : NS} {cells : List Cell} {r : Range} {ds : List (Char × Int)}
    {init : Nat} (hn : n.Cells cells) (h : n.transformRange r ds init = some n') :
    ∃ P M S cs, cells = P ++ M ++ S ∧
      cellLoop (S.head?.map (·.2)) (lastAl (0, 0) (P ++ M.take init)) (M.drop init) ds = some cs ∧
      n'.Cells (P ++ cs ++ S) ∧ n'.orig = n.orig ∧ n'.shift = n.shift := by
  have h0 := h
  unfold transformRange at h
  split at h
  · rename_i rep pre post h1 h2 h3
    obtain ⟨p, q, hp, hp1, hp2⟩ := strGet_eq_some.1 h1
    have ht := hn.1
    rw [hp] at ht
    obtain ⟨PM, S, rfl, hPM, hS⟩ := text_eq_append ht.symm
    obtain ⟨P, M, rfl, hP, hM⟩ := text_eq_append hPM
    have := transformRange_cells (ds := ds) (init := init) hn (r := r) (by rw [hP, hp1])
      (by rw [hP, hM, hp2])
    rw [this, Option.map_eq_some_iff] at h0
    obtain ⟨cs, hcs, rfl⟩ := h0
    exact ⟨P, M, S, cs, rfl, hcs, ⟨rfl, rfl⟩, rfl, rfl⟩
  · cases h

end NS
end Tok
