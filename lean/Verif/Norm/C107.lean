import Verif.Norm.C08

/-!
# C107: every alignment is that of one character, and `alignments_original` is the converse of the alignments
-/

namespace Tok
namespace NS

/-- The byte range of one character of the text. -/
def IsCharRange (o : Str) (a : Range) : Prop := ∃ p c q, o = p ++ c :: q ∧ a = (blen p, blen p + c.utf8Size)

/-- Every byte of the normalized text belongs to one character of the original text, or to none at its beginning. -/
def OneChar (n : NS) : Prop := ∀ a ∈ n.al, a = (0, 0) ∨ IsCharRange n.orig a

/-- The new alignments of a transformation are old ones, or `(0, 0)`. -/
theorem transformLoop_from {al : List Range} : ∀ {ds : List (Char × Int)} {off : Nat} {rest : Str} {as : List Range},
    transformLoop al ds off rest = some as → ∀ a ∈ as, a = (0, 0) ∨ a ∈ al
  | [], _, _, _, h => by rw [transformLoop] at h; cases h; simp
  | (c, ch) :: ds, off, rest, as, h => by
    rw [transformLoop] at h
    split at h
    · cases h
    · rename_i align hal
      dsimp only at h
      split at h
      · cases h
      · rename_i as' has
        cases h
        intro a ha
        rcases List.mem_append.1 ha with ha | ha
        · rw [(List.mem_replicate.1 ha).2]
          split at hal
          · split at hal
            · cases hal; exact .inl rfl
            · exact .inr (List.mem_of_getElem? hal)
          · exact .inr (List.mem_of_getElem? hal)
        · exact transformLoop_from has a ha

theorem OneChar.of_from {n n' : NS} (h : n.OneChar) (ho : n'.orig = n.orig) (ha : ∀ a ∈ n'.al, a = (0, 0) ∨ a ∈ n.al) :
    n'.OneChar := by
  intro a hm
  rw [ho]
  rcases ha a hm with h0 | h0
  · exact .inl h0
  · exact h a h0

theorem transformRange_oneChar {n n' : NS} {r : Range} {ds : List (Char × Int)} {init : Nat} (hn : n.OneChar)
    (h : n.transformRange r ds init = some n') : n'.OneChar := by
  unfold transformRange at h
  split at h
  · split at h
    · cases h
    · rename_i as has
      split at h
      · cases h
        refine hn.of_from rfl fun a ha => ?_
        rcases List.mem_append.1 ha with ha | ha
        · rcases List.mem_append.1 ha with ha | ha
          · exact .inr (List.mem_of_mem_take ha)
          · exact transformLoop_from has a ha
        · exact .inr (List.mem_of_mem_drop ha)
      · cases h
  · cases h

theorem transformRangeOriginal_oneChar {n n' : NS} {r : Range} {ds : List (Char × Int)} {init : Nat} (hn : n.OneChar)
    (h : n.transformRangeOriginal r ds init = some n') : n'.OneChar := by
  unfold transformRangeOriginal at h
  split at h
  · cases h; exact hn
  · exact transformRange_oneChar hn h

theorem replaceLoop_from {n : NS} {content : Str} : ∀ {ms : Matches} {last : Nat} {x : Str × List Range},
    replaceLoop n content last ms = some x → ∀ a ∈ x.2, a = (0, 0) ∨ a ∈ n.al
  | [], last, x, h => by
    rw [replaceLoop] at h
    split at h
    · split at h
      · cases h; exact fun a ha => .inr (List.mem_of_mem_drop ha)
      · cases h
    · cases h
  | ((s, e), true) :: ms, last, x, h => by
    rw [replaceLoop] at h
    split at h
    · rename_i m copied cal _ _ hcal
      split at h
      · cases h
      · rename_i as has
        split at h
        · cases h
        · rename_i t l hl
          cases h
          intro a ha
          rcases List.mem_append.1 ha with ha | ha
          · rcases List.mem_append.1 ha with ha | ha
            · obtain ⟨_, hs⟩ := slice?_some_iff.1 hcal
              rw [← hs] at ha
              exact .inr (List.mem_of_mem_take (List.mem_of_mem_drop ha))
            · exact transformLoop_from has a ha
          · exact replaceLoop_from hl a ha
    · cases h
  | (_, false) :: ms, last, x, h => by
    rw [replaceLoop] at h
    exact replaceLoop_from h

theorem isCharRange_alignFrom : ∀ (q p : Str), ∀ a ∈ alignFrom (blen p) q, IsCharRange (p ++ q) a
  | [], p, a, h => by cases h
  | c :: q, p, a, h => by
    rw [alignFrom] at h
    rcases List.mem_append.1 h with h | h
    · exact ⟨p, c, q, rfl, (List.mem_replicate.1 h).2⟩
    · have := isCharRange_alignFrom q (p ++ [c]) a (by simpa using h)
      simpa using this

/-- A character range within a part of a text. -/
theorem IsCharRange.sub {p o q : Str} {a : Range} (h : IsCharRange (p ++ o ++ q) a) (h1 : blen p ≤ a.1)
    (h2 : a.2 ≤ blen p + blen o) : IsCharRange o (a.1 - blen p, a.2 - blen p) := by
  obtain ⟨x, c, y, he, rfl⟩ := h
  rw [List.append_assoc] at he
  obtain ⟨u, rfl, hu⟩ := append_le_blen he h1
  have hpos := c.utf8Size_pos
  rw [show u ++ c :: y = (u ++ [c]) ++ y by simp] at hu
  obtain ⟨v, hv, _⟩ := append_le_blen hu.symm (by simp only [blen_append, blen_cons, blen_nil] at h2 ⊢; omega)
  refine ⟨u, c, v, by rw [hv]; simp, ?_⟩
  simp only [blen_append]
  refine Prod.ext ?_ ?_ <;> (simp only; omega)

/-- The alignments of a slice. -/
theorem shift_oneChar {p o q : Str} {M : List Cell} (h : ∀ c ∈ M, c.2 = (0, 0) ∨ IsCharRange (p ++ o ++ q) c.2)
    (hlow : ∀ c ∈ M, blen p ≤ c.2.1 ∧ c.2.2 ≤ blen p + blen o) :
    ∀ a ∈ expand (shiftCells (blen p) M), a = (0, 0) ∨ IsCharRange o a := by
  intro a ha
  obtain ⟨c, hc, rfl⟩ := mem_expand.1 ha
  obtain ⟨d, hd, rfl⟩ := List.mem_map.1 hc
  obtain ⟨g1, g2⟩ := hlow d hd
  rcases h d hd with h0 | h0
  · left
    simp only [h0, Nat.zero_sub]
  · exact .inr (h0.sub g1 g2)

theorem cells_oneChar {n : NS} {cs : List Cell} (hn : n.Cells cs) (h : n.OneChar) :
    ∀ c ∈ cs, c.2 = (0, 0) ∨ IsCharRange n.orig c.2 := fun c hc =>
  h c.2 (by rw [hn.2]; exact mem_expand.2 ⟨c, hc, rfl⟩)

theorem oneChar_empty {n : NS} (h : n.norm = [] ∧ n.al = []) : n.OneChar := by
  intro a ha
  rw [h.2] at ha
  cases ha

theorem sliceNormalized_oneChar {n n' : NS} {r : Range} (hn : n.Ok) (hc : n.OneChar)
    (h : n.sliceNormalized r = some (some n')) : n'.OneChar := by
  obtain ⟨cells, h1, h2⟩ := hn
  have h0 := h
  unfold sliceNormalized at h
  split at h
  · rename_i hb
    rcases Nat.lt_trichotomy r.1 r.2 with hlt | heq | hgt
    · obtain ⟨P, M, S, rfl, ha, hb'⟩ := cells_of_boundaries h1 hb.1 hb.2 (by omega)
      have hne : M ≠ [] := by rintro rfl; simp at hb'; omega
      obtain ⟨p, o, q, g1, g2, g3, g4, g5⟩ := sliceNormalized_cells h1 h2 hne
      have hr : r = (blen (text P), blen (text (P ++ M))) := Prod.ext ha hb'
      rw [hr, g5] at h0
      simp only [Option.some.injEq] at h0
      subst h0
      refine shift_oneChar (q := q) (fun c hcm => ?_) g4
      rw [← g1]
      exact cells_oneChar h1 hc c (by simp [hcm])
    · have hr : r = (r.1, r.1) := Prod.ext rfl heq.symm
      rw [hr] at h
      simp only [convertNormalized, if_true] at h
      exact oneChar_empty (sliceWith_empty strGet_same h)
    · have : n.convertNormalized r = none := by
        unfold convertNormalized; rw [if_neg (by omega), if_pos hgt]
      rw [this] at h
      cases h
  · cases h

theorem sliceOriginal_oneChar {n n' : NS} {r : Range} (hn : n.Ok) (hc : n.OneChar)
    (h : n.sliceOriginal r = some (some n')) : n'.OneChar := by
  obtain ⟨cells, h1, h2⟩ := hn
  unfold sliceOriginal at h
  split at h
  · rename_i hb
    rcases Nat.lt_trichotomy r.1 r.2 with hlt | heq | hgt
    · rcases convertOriginal_cells h1 hlt with ⟨g, _⟩ | ⟨A, B, S, rfl, g1, g2, g3, g4, g5⟩
      · rw [g] at h; cases h
      · rw [g5] at h
        simp only at h
        obtain ⟨p, o, q, hp, hp1, hp2⟩ := cut_two (isBoundary_iff.1 hb.1) (isBoundary_iff.1 hb.2) (by omega)
        have hlow : ∀ c ∈ B, r.1 ≤ c.2.1 := by
          intro c hc
          have hne : B ≠ [] := fun h0 => by rw [h0] at hc; cases hc
          have ho : B.Pairwise fun a b => RLe a.2 b.2 :=
            (List.pairwise_append.1 (List.pairwise_append.1 h2.ordered).1).2.1
          have h3 := g4 (B.head hne) (by rw [List.head?_eq_some_head hne]; rfl)
          exact Nat.le_trans h3.1 (pairwise_head hne ho c hc).1
        have hv : ∀ c ∈ B, ValidIn n.orig c.2 := fun c hc => h2.valid c (by simp [hc])
        have := sliceWith_cells (p := p) (o := o) (q := q) h1 hp fun c hc =>
          ⟨by rw [hp1]; exact hlow c hc, by have := hlow c hc; have := (hv c hc).1; omega⟩
        rw [hp2, hp1] at this
        rw [show (r.1, r.2) = r from rfl] at this
        rw [this] at h
        simp only [Option.some.injEq] at h
        subst h
        rw [← hp1]
        refine shift_oneChar (q := q) (fun c hcm => ?_) fun c hcm => ⟨?_, ?_⟩
        · rw [← hp]; exact cells_oneChar h1 hc c (by simp [hcm])
        · rw [hp1]; exact hlow c hcm
        · rw [hp2]; exact g1 c (by simp [hcm])
    · have hr : r = (r.1, r.1) := Prod.ext rfl heq.symm
      rw [hr] at h
      simp only [convertOriginal, if_true] at h
      exact oneChar_empty (sliceWith_empty strGet_same h)
    · have : n.convertOriginal r = none := by
        unfold convertOriginal; rw [if_neg (by omega), if_pos hgt]
      rw [this] at h
      cases h
  · cases h

/-- **C107.** After any history of operations, every byte of the normalized text is aligned with exactly one whole character of
the original text, or with nothing, at its beginning. -/
theorem C107_one_char {n : NS} (h : Reachable n) : ∀ a ∈ n.al, a = (0, 0) ∨
    ∃ p c q, n.orig = p ++ c :: q ∧ a = (blen p, blen p + c.utf8Size) := by
  show n.OneChar
  induction h with
  | ofStr s => exact fun a ha => .inr (isCharRange_alignFrom s [] a ha)
  | transform _ h ih => exact transformRangeOriginal_oneChar ih h
  | transformRange _ hf h ih => exact transformRange_oneChar ih h
  | transformRangeOriginal _ hf h ih => exact transformRangeOriginal_oneChar ih h
  | filter _ h ih => exact transformRangeOriginal_oneChar ih h
  | prepend _ h ih =>
    unfold NS.prepend at h
    split at h
    · cases h; exact ih
    · exact transformRange_oneChar ih h
  | append _ h ih =>
    unfold NS.append at h
    split at h <;> exact transformRange_oneChar ih h
  | map _ h ih => exact transformRangeOriginal_oneChar ih h
  | mapChars _ h ih => exact transformRangeOriginal_oneChar ih h
  | clear _ h ih =>
    unfold NS.clear at h
    rw [Option.map_eq_some_iff] at h
    obtain ⟨n', h, he⟩ := h
    injection he with he _
    subst he
    exact transformRangeOriginal_oneChar ih h
  | lrstrip _ h ih =>
    unfold NS.lrstrip at h
    dsimp only at h
    generalize (if _ = true then (List.takeWhile _ _).length else 0) = x at h
    generalize (if _ = true then (List.takeWhile _ _).length else 0) = y at h
    split at h
    · exact transformRangeOriginal_oneChar ih h
    · cases h; exact ih
  | replace _ h ih =>
    unfold NS.replace at h
    rw [Option.map_eq_some_iff] at h
    obtain ⟨x, h, rfl⟩ := h
    exact ih.of_from rfl (replaceLoop_from h)
  | sliceNormalized hr h ih => exact sliceNormalized_oneChar (reachable_ok hr) ih h
  | sliceOriginal hr h ih => exact sliceOriginal_oneChar (reachable_ok hr) ih h

/-- The ranges of two characters of a text are equal, or one lies before the other. -/
theorem IsCharRange.apart {o : Str} {a b : Range} (ha : IsCharRange o a) (hb : IsCharRange o b) (h : a.1 ≤ b.1) :
    a = b ∨ a.2 ≤ b.1 := by
  obtain ⟨p, c, q, h1, rfl⟩ := ha
  obtain ⟨p', c', q', h2, rfl⟩ := hb
  obtain ⟨u, rfl, hu⟩ := append_le_blen (h1.symm.trans h2) h
  cases u with
  | nil =>
    simp only [List.nil_append, List.cons.injEq] at hu
    obtain ⟨rfl, _⟩ := hu
    left; simp
  | cons x u =>
    simp only [List.cons_append, List.cons.injEq] at hu
    obtain ⟨rfl, _⟩ := hu
    right
    simp only [blen_append, blen_cons]
    omega

/-- The loop of `alignments_original` (`normalizer.rs:866-891`) and what follows it (`892-900`), over the rest of the
alignments: `acc` is `alignments_original`, `len` the length of the original. `none` is a panic. -/
def originalLoop (len : Nat) (acc : List Range) (last : Range) (offset length : Nat) : List Range → Option (List Range)
  | [] =>
    if last.1 ≤ last.2 then
      let acc := acc ++ List.replicate (last.2 - last.1) (offset, offset + length)
      if acc.length ≤ len then some (acc ++ List.replicate (len - acc.length) (offset + length, offset + length)) else none
    else none
  | a :: rest =>
    if last = a then originalLoop len acc last offset (length + 1) rest
    else if a.1 < last.2 then none
    else if last.1 ≤ last.2 then
      originalLoop len (acc ++ List.replicate (last.2 - last.1) (offset, offset + length) ++
        List.replicate (a.1 - last.2) (offset + length, offset + length)) a (offset + length) 1 rest
    else none

/-- `alignments_original` (`normalizer.rs:854-901`); it is used by tests only. `none` is a panic: of the index `[0]`, of "We can't
have overlapping ranges", or of a subtraction. -/
def alignmentsOriginal (n : NS) : Option (List Range) :=
  match n.al with
  | [] => none
  | a :: rest => originalLoop (blen n.orig) (List.replicate a.1 (0, 0)) a 0 0 (a :: rest)

/-- `l` says for the bytes of the original which entries of `al` cover them. -/
def Converse (al l : List Range) : Prop :=
  ∀ (p : Nat) (ab : Range), l[p]? = some ab → ab.1 ≤ ab.2 ∧ ab.2 ≤ al.length ∧
    ∀ (j : Nat) (r : Range), al[j]? = some r → ((r.1 ≤ p ∧ p < r.2) ↔ (ab.1 ≤ j ∧ j < ab.2))

/-- One more group and the gap after it. -/
theorem Converse.group {X acc : List Range} {last : Range} {k g : Nat} (h : Converse X acc) (hl : acc.length = last.1)
    (hle : last.1 ≤ last.2) (hX : ∀ r ∈ X, r.2 ≤ last.1) :
    Converse (X ++ List.replicate k last) (acc ++ List.replicate (last.2 - last.1) (X.length, X.length + k) ++
      List.replicate g (X.length + k, X.length + k)) := by
  intro p ab hp
  have hcase : ∀ (j : Nat) (r : Range), (X ++ List.replicate k last)[j]? = some r →
      (j < X.length ∧ X[j]? = some r) ∨ (X.length ≤ j ∧ j < X.length + k ∧ r = last) := by
    intro j r hj
    rw [List.getElem?_append] at hj
    split at hj
    · rename_i hlt; exact .inl ⟨hlt, hj⟩
    · rename_i hge
      rw [List.getElem?_replicate] at hj
      split at hj
      · cases hj; exact .inr ⟨by omega, by omega, rfl⟩
      · cases hj
  rw [List.append_assoc, List.getElem?_append] at hp
  split at hp
  · rename_i hlt
    obtain ⟨g1, g2, g3⟩ := h p ab hp
    refine ⟨g1, by rw [List.length_append]; omega, fun j r hj => ?_⟩
    rcases hcase j r hj with ⟨_, hj⟩ | ⟨c1, c2, rfl⟩
    · exact g3 j r hj
    · exact ⟨fun hc => absurd hc.1 (by omega), fun hc => absurd hc.2 (by omega)⟩
  · rename_i hge
    rw [List.getElem?_append] at hp
    split at hp
    · rename_i hlt
      rw [List.getElem?_replicate] at hp
      rw [List.length_replicate] at hlt
      rw [if_pos hlt] at hp
      cases hp
      refine ⟨by simp, by simp, fun j r hj => ?_⟩
      simp only
      rcases hcase j r hj with ⟨c, hj⟩ | ⟨c1, c2, rfl⟩
      · have := hX r (List.mem_of_getElem? hj)
        exact ⟨fun hc => by omega, fun hc => by omega⟩
      · exact ⟨fun _ => ⟨c1, c2⟩, fun _ => ⟨by omega, by omega⟩⟩
    · rename_i hge'
      rw [List.getElem?_replicate] at hp
      rw [List.length_replicate] at hge' hp
      split at hp
      · cases hp
        refine ⟨Nat.le_refl _, by simp, fun j r hj => ?_⟩
        simp only
        rcases hcase j r hj with ⟨c, hj⟩ | ⟨c1, c2, rfl⟩
        · have := hX r (List.mem_of_getElem? hj)
          exact ⟨fun hc => by omega, fun hc => by omega⟩
        · exact ⟨fun hc => by omega, fun hc => by omega⟩
      · cases hp

theorem originalLoop_spec {len : Nat} : ∀ (rest : List Range) {acc X : List Range} {last : Range} {k : Nat},
    Converse X acc → acc.length = last.1 → last.1 ≤ last.2 → last.2 ≤ len → (∀ r ∈ X, r.2 ≤ last.1) →
    (∀ a ∈ rest, a.1 ≤ a.2 ∧ a.2 ≤ len) → (last :: rest).Pairwise (fun a b => a = b ∨ a.2 ≤ b.1) →
    ∃ l, originalLoop len acc last X.length k rest = some l ∧ l.length = len ∧
      Converse (X ++ List.replicate k last ++ rest) l
  | [], acc, X, last, k, hc, hl, hle, hlen, hX, _, _ => by
    rw [originalLoop, if_pos hle]
    dsimp only
    have hlen' : (acc ++ List.replicate (last.2 - last.1) (X.length, X.length + k)).length = last.2 := by
      simp only [List.length_append, List.length_replicate]; omega
    rw [if_pos (by omega)]
    refine ⟨_, rfl, ?_, ?_⟩
    · rw [List.length_append, List.length_replicate, hlen']; omega
    · rw [List.append_nil]
      exact hc.group hl hle hX
  | a :: rest, acc, X, last, k, hc, hl, hle, hlen, hX, hr, hp => by
    rw [originalLoop]
    by_cases he : last = a
    · subst he
      rw [if_pos rfl]
      obtain ⟨l, h1, h2, h3⟩ := originalLoop_spec rest (k := k + 1) hc hl hle hlen hX (fun a ha => hr a (by simp [ha]))
        (List.pairwise_cons.1 hp).2
      refine ⟨l, h1, h2, ?_⟩
      rw [List.replicate_succ'] at h3
      simpa using h3
    · have hal : last.2 ≤ a.1 := ((List.pairwise_cons.1 hp).1 a (by simp)).resolve_left he
      obtain ⟨r1, r2⟩ := hr a (by simp)
      rw [if_neg he, if_neg (by omega), if_pos hle]
      have := originalLoop_spec rest (k := 1) (hc.group (k := k) (g := a.1 - last.2) hl hle hX) (last := a)
        (by simp only [List.length_append, List.length_replicate]; omega) r1 r2
        (by
          intro r hrm
          rcases List.mem_append.1 hrm with hrm | hrm
          · have := hX r hrm; omega
          · rw [(List.mem_replicate.1 hrm).2]; exact hal)
        (fun b hb => hr b (by simp [hb])) (List.pairwise_cons.1 hp).2
      rw [List.length_append, List.length_replicate] at this
      obtain ⟨l, h1, h2, h3⟩ := this
      exact ⟨l, h1, h2, by simpa using h3⟩

/-- **C107.** `alignments_original` is the converse of the alignments: after any history of operations, if the normalized text is
not empty, it has one entry per byte of the original text, and the bytes of the normalized text aligned with that byte are those of
the entry. For the empty text it panics. -/
theorem C107_converse {n : NS} (h : Reachable n) :
    (n.norm ≠ [] → ∃ l, n.alignmentsOriginal = some l ∧ l.length = blen n.orig ∧
      ∀ (p : Nat) (ab : Range), l[p]? = some ab → ab.1 ≤ ab.2 ∧ ab.2 ≤ blen n.norm ∧
        ∀ (j : Nat) (r : Range), n.al[j]? = some r → ((r.1 ≤ p ∧ p < r.2) ↔ (ab.1 ≤ j ∧ j < ab.2))) ∧
    (n.norm = [] → n.alignmentsOriginal = none) := by
  have hwf := C08_wellFormed h
  constructor
  · intro hne
    have hone := C107_one_char h
    have hpair : n.al.Pairwise fun a b => a = b ∨ a.2 ≤ b.1 := by
      refine hwf.ordered.imp_of_mem fun {a b} ha hb hab => ?_
      rcases hone a ha with rfl | ha
      · exact .inr (Nat.zero_le _)
      · rcases hone b hb with rfl | hb
        · obtain ⟨p, c, q, _, rfl⟩ := ha
          have := c.utf8Size_pos
          have := hab.2
          simp only at this
          omega
        · exact IsCharRange.apart ha hb hab.1
    have hval : ∀ a ∈ n.al, a.1 ≤ a.2 ∧ a.2 ≤ blen n.orig := fun a ha =>
      ⟨(hwf.valid a ha).1, cutAt_le (hwf.valid a ha).2.2⟩
    have hlen := hwf.one_per_byte
    unfold alignmentsOriginal
    cases hal : n.al with
    | nil =>
      rw [hal] at hlen
      exact absurd (blen_eq_zero.1 hlen.symm) hne
    | cons a rest =>
      rw [hal] at hpair hval hlen
      have hs := originalLoop_spec (len := blen n.orig) (X := []) (k := 0) (last := a) (acc := List.replicate a.1 (0, 0)) (a :: rest)
        (by
          intro p ab hp
          rw [List.getElem?_replicate] at hp
          split at hp
          · cases hp
            exact ⟨Nat.le_refl _, Nat.le_refl _, fun j r hj => by simp at hj⟩
          · cases hp) (by simp) (hval a (by simp)).1 (hval a (by simp)).2 (by simp) hval
        (List.pairwise_cons.2 ⟨fun b hb => by
          rcases List.mem_cons.1 hb with rfl | hb
          · exact .inl rfl
          · exact (List.pairwise_cons.1 hpair).1 b hb, hpair⟩)
      obtain ⟨l, h1, h2, h3⟩ := hs
      refine ⟨l, h1, h2, fun p ab hp => ?_⟩
      obtain ⟨g1, g2, g3⟩ := h3 p ab hp
      simp only [List.replicate_zero, List.append_nil, List.nil_append] at g2 g3
      exact ⟨g1, by rw [← hlen]; exact g2, g3⟩
  · intro he
    have hl := hwf.one_per_byte
    rw [he] at hl
    have : n.al = [] := List.length_eq_zero_iff.1 hl
    rw [alignmentsOriginal, this]

/-- "Hé llo" without its space, `é` taken apart, with "▁" in front. -/
example : ∃ a b c, (ofStr "Hé llo".toList).filter (fun c => c ≠ ' ') = some a ∧
    a.mapChars (fun c => if c = 'é' then ['e', '́'] else [c]) = some b ∧ b.prepend ['▁'] = some c ∧
    c.al = [(0, 1), (0, 1), (0, 1), (0, 1), (1, 3), (1, 3), (1, 3), (4, 5), (5, 6), (6, 7)] ∧
    c.alignmentsOriginal = some [(0, 4), (4, 7), (4, 7), (7, 7), (7, 8), (8, 9), (9, 10)] := by
  refine ⟨_, _, _, rfl, rfl, rfl, ?_⟩
  decide

/-- Alignments that no history gives make it panic. -/
example : alignmentsOriginal ⟨"abc".toList, "xy".toList, [(0, 2), (1, 3)], 0⟩ = none := by decide

end NS
end Tok
