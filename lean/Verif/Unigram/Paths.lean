import Verif.Unigram.Marginal

/-!
# Sums over the paths of a lattice
-/

namespace Tok.Unigram

variable {E : List Edge}

/-- Where the edge with index `i` starts. -/
def startOf (E : List Edge) (i : Nat) : Nat := (E[i]?.map (·.start)).getD 0

/-- Where the edge with index `i` stops. -/
def stopOf (E : List Edge) (i : Nat) : Nat := (E[i]?.map (·.stop)).getD 0

/-- Indices of the edges that stop at `q`. -/
def stopping (E : List Edge) (q : Nat) : List Nat := (List.range E.length).filter (fun i => stopOf E i = q)

/-- Indices of the edges that start at `p`. -/
def starting (E : List Edge) (p : Nat) : List Nat := (List.range E.length).filter (fun i => startOf E i = p)

theorem mem_stopping {q i : Nat} : i ∈ stopping E q ↔ ∃ e, E[i]? = some e ∧ e.stop = q := by
  simp only [stopping, List.mem_filter, List.mem_range, stopOf]
  constructor
  · rintro ⟨h1, h2⟩
    exact ⟨E[i], by simp [h1], by simpa [h1] using h2⟩
  · rintro ⟨e, h1, h2⟩
    exact ⟨(List.getElem?_eq_some_iff.1 h1).1, by simp [h1, h2]⟩

theorem mem_starting {q i : Nat} : i ∈ starting E q ↔ ∃ e, E[i]? = some e ∧ e.start = q := by
  simp only [starting, List.mem_filter, List.mem_range, startOf]
  constructor
  · rintro ⟨h1, h2⟩
    exact ⟨E[i], by simp [h1], by simpa [h1] using h2⟩
  · rintro ⟨e, h1, h2⟩
    exact ⟨(List.getElem?_eq_some_iff.1 h1).1, by simp [h1, h2]⟩

theorem nodup_stopping (q : Nat) : (stopping E q).Nodup := List.nodup_range.filter _

theorem nodup_starting (q : Nat) : (starting E q).Nodup := List.nodup_range.filter _

/-- All paths from 0 to `q`; `f ≥ q`. -/
def pathsTo (E : List Edge) : Nat → Nat → List (List Nat)
  | 0, q => if q = 0 then [[]] else []
  | f + 1, q => if q = 0 then [[]]
    else (stopping E q).flatMap fun i => (pathsTo E f (startOf E i)).map (· ++ [i])

/-- All paths from `len - g` to `len`; `f ≥ g`. -/
def pathsFrom (E : List Edge) (len : Nat) : Nat → Nat → List (List Nat)
  | 0, g => if g = 0 then [[]] else []
  | f + 1, g => if g = 0 then [[]]
    else (starting E (len - g)).flatMap fun i => (pathsFrom E len f (len - stopOf E i)).map (i :: ·)

theorem nodup_flatMap_of {α β : Type} (g : β → α) {f : α → List β} : ∀ {l : List α}, l.Nodup → (∀ a ∈ l, (f a).Nodup) →
    (∀ a ∈ l, ∀ b ∈ f a, g b = a) → (l.flatMap f).Nodup
  | [], _, _, _ => by simp
  | a :: l, h1, h2, h3 => by
    rw [List.flatMap_cons, List.nodup_append]
    obtain ⟨n1, n2⟩ := List.nodup_cons.1 h1
    refine ⟨h2 a (by simp), nodup_flatMap_of g n2 (fun a ha => h2 a (by simp [ha])) (fun a ha => h3 a (by simp [ha])), ?_⟩
    rintro x hx y hy rfl
    obtain ⟨a', ha', hxa⟩ := List.mem_flatMap.1 hy
    have e1 := h3 a (by simp) x hx
    have e2 := h3 a' (by simp [ha']) x hxa
    exact n1 (by rw [← e1, e2]; exact ha')

theorem nodup_pathsTo : ∀ (f q : Nat), (pathsTo E f q).Nodup
  | 0, q => by rw [pathsTo]; split <;> simp
  | f + 1, q => by
    rw [pathsTo]
    split
    · simp
    · apply nodup_flatMap_of (fun l : List Nat => l.getLast?.getD 0) (nodup_stopping q)
      · intro i _
        exact (nodup_pathsTo f _).map (fun a b h => List.append_cancel_right h)
      · intro i _ b hb
        obtain ⟨a, -, rfl⟩ := List.mem_map.1 hb
        simp

theorem nodup_pathsFrom (len : Nat) : ∀ (f q : Nat), (pathsFrom E len f q).Nodup
  | 0, q => by rw [pathsFrom]; split <;> simp
  | f + 1, q => by
    rw [pathsFrom]
    split
    · simp
    · apply nodup_flatMap_of (fun l : List Nat => l.head?.getD 0) (nodup_starting _)
      · intro i _
        exact (nodup_pathsFrom len f _).map (fun a b h => by simpa using h)
      · intro i _ b hb
        obtain ⟨a, -, rfl⟩ := List.mem_map.1 hb
        simp

theorem idxPath_le (hE : ∀ e ∈ E, e.start < e.stop) : ∀ (is : List Nat) (p q : Nat), IdxPath E p q is →
    p ≤ q ∧ (is ≠ [] → p < q)
  | [], p, q, h => by have : p = q := h; simp [this]
  | i :: is, p, q, ⟨e, h1, h2, h3⟩ => by
    have h4 := hE e (List.mem_of_getElem? h1)
    have := (idxPath_le hE is _ _ h3).1
    constructor
    · omega
    · intro _; omega

theorem mem_pathsTo (hE : ∀ e ∈ E, e.start < e.stop) : ∀ (f q : Nat), q ≤ f → ∀ is,
    is ∈ pathsTo E f q ↔ IdxPath E 0 q is := by
  have zero : ∀ is, is ∈ [([] : List Nat)] ↔ IdxPath E 0 0 is := by
    intro is
    rw [List.mem_singleton]
    constructor
    · rintro rfl; rfl
    · intro h
      by_contra hne
      have := (idxPath_le hE is 0 0 h).2 hne
      omega
  intro f
  induction f with
  | zero =>
    intro q hq is
    obtain rfl : q = 0 := by omega
    rw [pathsTo, if_pos rfl]; exact zero is
  | succ f ih =>
    intro q hq is
    rw [pathsTo]
    split
    · rename_i h; subst h; exact zero is
    · rename_i hq0
      rw [List.mem_flatMap]
      constructor
      · rintro ⟨i, hi, hm⟩
        obtain ⟨e, he, hs⟩ := mem_stopping.1 hi
        obtain ⟨a, ha, rfl⟩ := List.mem_map.1 hm
        have hlt := hE e (List.mem_of_getElem? he)
        have hst : startOf E i = e.start := by simp [startOf, he]
        rw [hst] at ha
        rw [idxPath_append]
        exact ⟨e.start, (ih _ (by omega) a).1 ha, e, he, rfl, hs⟩
      · intro h
        have hne : is ≠ [] := by
          rintro rfl
          have : 0 = q := h
          omega
        obtain ⟨a, i, rfl⟩ : ∃ a i, is = a ++ [i] :=
          ⟨is.dropLast, is.getLast hne, (List.dropLast_concat_getLast hne).symm⟩
        rw [idxPath_append] at h
        obtain ⟨p, h1, e, he, hs, hq'⟩ := h
        have hq'' : e.stop = q := hq'
        have hlt := hE e (List.mem_of_getElem? he)
        refine ⟨i, mem_stopping.2 ⟨e, he, hq''⟩, List.mem_map.2 ⟨a, ?_, rfl⟩⟩
        have hst : startOf E i = e.start := by simp [startOf, he]
        rw [hst, ih _ (by omega), hs]
        exact h1

theorem mem_pathsFrom {len : Nat} (hE : ∀ e ∈ E, e.start < e.stop ∧ e.stop ≤ len) : ∀ (f g : Nat), g ≤ f → g ≤ len → ∀ is,
    is ∈ pathsFrom E len f g ↔ IdxPath E (len - g) len is := by
  have hE' : ∀ e ∈ E, e.start < e.stop := fun e he => (hE e he).1
  have zero : ∀ is, is ∈ [([] : List Nat)] ↔ IdxPath E len len is := by
    intro is
    rw [List.mem_singleton]
    constructor
    · rintro rfl; rfl
    · intro h
      by_contra hne
      have := (idxPath_le hE' is _ _ h).2 hne
      omega
  intro f
  induction f with
  | zero =>
    intro g hg _ is
    obtain rfl : g = 0 := by omega
    rw [pathsFrom, if_pos rfl]; exact zero is
  | succ f ih =>
    intro g hg hgl is
    rw [pathsFrom]
    split
    · rename_i h; subst h; exact zero is
    · rename_i hg0
      rw [List.mem_flatMap]
      constructor
      · rintro ⟨i, hi, hm⟩
        obtain ⟨e, he, hs⟩ := mem_starting.1 hi
        obtain ⟨a, ha, rfl⟩ := List.mem_map.1 hm
        have hlt := hE e (List.mem_of_getElem? he)
        have hst : stopOf E i = e.stop := by simp [stopOf, he]
        rw [hst] at ha
        refine ⟨e, he, hs, ?_⟩
        have := (ih _ (by omega) (by omega) a).1 ha
        rwa [Nat.sub_sub_self hlt.2] at this
      · intro h
        cases is with
        | nil =>
          have : len - g = len := h
          omega
        | cons i a =>
          obtain ⟨e, he, hs, h1⟩ := h
          have hlt := hE e (List.mem_of_getElem? he)
          refine ⟨i, mem_starting.2 ⟨e, he, hs⟩, List.mem_map.2 ⟨a, ?_, rfl⟩⟩
          have hst : stopOf E i = e.stop := by simp [stopOf, he]
          rw [hst, ih _ (by omega) (by omega), Nat.sub_sub_self hlt.2]
          exact h1

/-- Lists of all paths exist (the set of paths is finite). -/
theorem allPaths_exists (hE : ∀ e ∈ E, e.start < e.stop) (len : Nat) : AllPaths E len (pathsTo E len len) where
  mem := mem_pathsTo hE len len (le_refl _)
  nodup := nodup_pathsTo _ _

theorem AllPaths.perm {len : Nat} {a b : List (List Nat)} (ha : AllPaths E len a) (hb : AllPaths E len b) : a.Perm b :=
  (List.perm_ext_iff_of_nodup ha.nodup hb.nodup).2 (fun is => by rw [ha.mem, hb.mem])

theorem mass_perm {a b : List (List Nat)} (h : a.Perm b) : mass E a = mass E b := (h.map _).sum_eq

theorem mass_nonneg (a : List (List Nat)) : 0 ≤ mass E a := by
  apply List.sum_nonneg
  intro x hx
  obtain ⟨is, -, rfl⟩ := List.mem_map.1 hx
  exact (Real.exp_pos _).le

theorem mass_pos {a : List (List Nat)} (h : a ≠ []) : 0 < mass E a := by
  cases a with
  | nil => exact absurd rfl h
  | cons x a =>
    have := mass_nonneg (E := E) a
    have := Real.exp_pos (idxTotal E x : ℝ)
    simp only [mass, List.map_cons, List.sum_cons] at *
    linarith

theorem idxTotal_snoc (is : List Nat) (i : Nat) :
    (idxTotal E (is ++ [i]) : ℝ) = (idxTotal E is : ℝ) + (edgeScore E i : ℝ) := by
  rw [idxTotal_append]
  have : idxTotal E [i] = edgeScore E i := by rw [idxTotal_cons]; simp [idxTotal]
  rw [this]
  push_cast
  rfl

theorem idxTotal_cons' (is : List Nat) (i : Nat) :
    (idxTotal E (i :: is) : ℝ) = (edgeScore E i : ℝ) + (idxTotal E is : ℝ) := by
  rw [idxTotal_cons]
  push_cast
  rfl

theorem mass_append (a b : List (List Nat)) : mass E (a ++ b) = mass E a + mass E b := by simp [mass]

theorem mass_snoc (a : List (List Nat)) (i : Nat) :
    mass E (a.map (· ++ [i])) = Real.exp (edgeScore E i) * mass E a := by
  induction a with
  | nil => simp [mass]
  | cons x a ih =>
    simp only [mass, List.map_cons, List.sum_cons] at *
    rw [ih, idxTotal_snoc, Real.exp_add]
    ring

theorem mass_cons (a : List (List Nat)) (i : Nat) :
    mass E (a.map (i :: ·)) = Real.exp (edgeScore E i) * mass E a := by
  induction a with
  | nil => simp [mass]
  | cons x a ih =>
    simp only [mass, List.map_cons, List.sum_cons] at *
    rw [ih, idxTotal_cons', Real.exp_add]
    ring

theorem mass_flatMap {α : Type} (l : List α) (f : α → List (List Nat)) :
    mass E (l.flatMap f) = (l.map (fun a => mass E (f a))).sum := by
  induction l with
  | nil => simp [mass]
  | cons a l ih => rw [List.flatMap_cons, mass_append, ih]; simp

/-- Mass of the paths from 0 to `q`. -/
noncomputable def massTo (E : List Edge) (q : Nat) : ℝ := mass E (pathsTo E q q)

/-- Mass of the paths from `p` to `len`. -/
noncomputable def massFrom (E : List Edge) (len p : Nat) : ℝ := mass E (pathsFrom E len (len - p) (len - p))

theorem mass_pathsTo (hE : ∀ e ∈ E, e.start < e.stop) {f q : Nat} (h : q ≤ f) :
    mass E (pathsTo E f q) = massTo E q := by
  apply mass_perm
  apply (List.perm_ext_iff_of_nodup (nodup_pathsTo _ _) (nodup_pathsTo _ _)).2
  intro is
  rw [mem_pathsTo hE f q h, mem_pathsTo hE q q (le_refl _)]

theorem mass_pathsFrom {len : Nat} (hE : ∀ e ∈ E, e.start < e.stop ∧ e.stop ≤ len) {f p : Nat} (h : len - p ≤ f) :
    mass E (pathsFrom E len f (len - p)) = massFrom E len p := by
  apply mass_perm
  apply (List.perm_ext_iff_of_nodup (nodup_pathsFrom _ _ _) (nodup_pathsFrom _ _ _)).2
  intro is
  rw [mem_pathsFrom hE f _ h (by omega), mem_pathsFrom hE _ _ (le_refl _) (by omega)]

theorem massTo_zero : massTo E 0 = 1 := by
  simp [massTo, pathsTo, mass, idxTotal]

theorem massFrom_end (len : Nat) : massFrom E len len = 1 := by
  simp [massFrom, pathsFrom, mass, idxTotal]

theorem massTo_step (hE : ∀ e ∈ E, e.start < e.stop) {q : Nat} (hq : q ≠ 0) :
    massTo E q = ((stopping E q).map (fun i => Real.exp (edgeScore E i) * massTo E (startOf E i))).sum := by
  obtain ⟨f, rfl⟩ : ∃ f, q = f + 1 := ⟨q - 1, by omega⟩
  rw [massTo, pathsTo, if_neg hq, mass_flatMap]
  congr 1
  apply List.map_congr_left
  intro i hi
  obtain ⟨e, he, hs⟩ := mem_stopping.1 hi
  have := hE e (List.mem_of_getElem? he)
  have hst : startOf E i = e.start := by simp [startOf, he]
  rw [mass_snoc, mass_pathsTo hE (by omega)]

theorem massFrom_step {len : Nat} (hE : ∀ e ∈ E, e.start < e.stop ∧ e.stop ≤ len) {p : Nat} (hp : p < len) :
    massFrom E len p = ((starting E p).map (fun i => Real.exp (edgeScore E i) * massFrom E len (stopOf E i))).sum := by
  obtain ⟨f, hf⟩ : ∃ f, len - p = f + 1 := ⟨len - p - 1, by omega⟩
  rw [massFrom, hf, pathsFrom, if_neg (by omega), mass_flatMap]
  have : len - (f + 1) = p := by omega
  rw [this]
  congr 1
  apply List.map_congr_left
  intro i hi
  obtain ⟨e, he, hs⟩ := mem_starting.1 hi
  have := hE e (List.mem_of_getElem? he)
  have hst : stopOf E i = e.stop := by simp [stopOf, he]
  rw [mass_cons, mass_pathsFrom hE (by omega)]

/-! ### Paths through an edge -/

theorem idxPath_nodup (hE : ∀ e ∈ E, e.start < e.stop) : ∀ (is : List Nat) (p q : Nat), IdxPath E p q is →
    is.Nodup ∧ ∀ i ∈ is, p ≤ startOf E i
  | [], _, _, _ => by simp
  | i :: is, p, q, ⟨e, h1, h2, h3⟩ => by
    have hlt := hE e (List.mem_of_getElem? h1)
    have hst : startOf E i = e.start := by simp [startOf, h1]
    obtain ⟨i1, i2⟩ := idxPath_nodup hE is _ _ h3
    refine ⟨List.nodup_cons.2 ⟨fun hm => ?_, i1⟩, ?_⟩
    · have := i2 i hm; omega
    · intro j hj
      rcases List.mem_cons.1 hj with rfl | hj
      · omega
      · have := i2 j hj; omega

theorem split_unique {α : Type} {i : α} : ∀ {a b a' b' : List α}, (a ++ i :: b).Nodup → a ++ i :: b = a' ++ i :: b' →
    a = a' ∧ b = b'
  | [], b, [], b', _, h => by simpa using h
  | [], b, x :: a', b', hn, h => by
    simp only [List.nil_append, List.cons_append, List.cons.injEq] at h
    obtain ⟨rfl, rfl⟩ := h
    simp at hn
  | x :: a, b, [], b', hn, h => by
    simp only [List.nil_append, List.cons_append, List.cons.injEq] at h
    obtain ⟨rfl, rfl⟩ := h
    simp at hn
  | x :: a, b, y :: a', b', hn, h => by
    simp only [List.cons_append, List.cons.injEq] at h
    obtain ⟨rfl, h⟩ := h
    have := split_unique (List.nodup_cons.1 hn).2 h
    simp [this]

/-- The paths through edge `i` are the paths to its start, the edge, and the paths from its stop. -/
theorem through_mass {len : Nat} (hE : ∀ e ∈ E, e.start < e.stop ∧ e.stop ≤ len) {paths : List (List Nat)}
    (hp : AllPaths E len paths) {i : Nat} {e : Edge} (hi : E[i]? = some e) :
    mass E (paths.filter (fun is => i ∈ is)) =
      massTo E e.start * Real.exp (edgeScore E i) * massFrom E len e.stop := by
  have hE' : ∀ e ∈ E, e.start < e.stop := fun e he => (hE e he).1
  have hle := hE e (List.mem_of_getElem? hi)
  have key : (paths.filter (fun is => i ∈ is)).Perm
      ((pathsTo E e.start e.start).flatMap fun a =>
        (pathsFrom E len (len - e.stop) (len - e.stop)).map (fun b => a ++ i :: b)) := by
    have hmem : ∀ a b, a ∈ pathsTo E e.start e.start → b ∈ pathsFrom E len (len - e.stop) (len - e.stop) →
        IdxPath E 0 len (a ++ i :: b) := by
      intro a b ha hb
      rw [mem_pathsTo hE' _ _ (le_refl _)] at ha
      rw [mem_pathsFrom hE _ _ (le_refl _) (by omega), Nat.sub_sub_self hle.2] at hb
      rw [idxPath_append]
      exact ⟨_, ha, e, hi, rfl, hb⟩
    apply (List.perm_ext_iff_of_nodup (hp.nodup.filter _) _).2
    · intro is
      simp only [List.mem_filter, hp.mem, decide_eq_true_eq, List.mem_flatMap, List.mem_map]
      constructor
      · rintro ⟨h1, h2⟩
        obtain ⟨a, b, rfl⟩ := List.append_of_mem h2
        rw [idxPath_append] at h1
        obtain ⟨p, h3, e', he', hs, h4⟩ := h1
        rw [hi] at he'
        cases he'
        refine ⟨a, ?_, b, ?_, rfl⟩
        · rw [mem_pathsTo hE' _ _ (le_refl _), hs]; exact h3
        · rw [mem_pathsFrom hE _ _ (le_refl _) (by omega), Nat.sub_sub_self hle.2]; exact h4
      · rintro ⟨a, ha, b, hb, rfl⟩
        exact ⟨hmem a b ha hb, by simp⟩
    · rw [List.nodup_flatMap]
      constructor
      · intro a _
        apply (nodup_pathsFrom _ _ _).map
        intro b b' h
        have := List.append_cancel_left h
        simpa using this
      · apply (nodup_pathsTo _ _).imp_of_mem
        intro a a' ha ha' hne x hx hx'
        simp only [List.mem_map] at hx hx'
        obtain ⟨b, hb, rfl⟩ := hx
        obtain ⟨b', hb', h⟩ := hx'
        exact hne (split_unique (idxPath_nodup hE' _ _ _ (hmem a b ha hb)).1 h.symm).1
  rw [mass_perm key, mass_flatMap, massTo, massFrom]
  generalize pathsFrom E len (len - e.stop) (len - e.stop) = B
  have hb : ∀ a, mass E (B.map (fun b => a ++ i :: b)) =
      Real.exp (idxTotal E a) * (Real.exp (edgeScore E i) * mass E B) := by
    intro a
    rw [← mass_cons]
    simp only [mass, List.map_map]
    rw [← List.sum_map_mul_left]
    congr 1
    apply List.map_congr_left
    intro b _
    simp only [Function.comp]
    rw [idxTotal_append]
    push_cast
    rw [Real.exp_add]
  simp only [hb]
  rw [List.sum_map_mul_right]
  simp only [mass]
  ring

/-- Counting by paths and counting by edges. -/
theorem massOf_eq {len : Nat} (hE : ∀ e ∈ E, e.start < e.stop ∧ e.stop ≤ len) {paths : List (List Nat)}
    (hp : AllPaths E len paths) (id : Nat) :
    massOf E id paths = (((List.range E.length).filter (fun i => edgeId E i = id)).map
      (fun i => massTo E (startOf E i) * Real.exp (edgeScore E i) * massFrom E len (stopOf E i))).sum := by
  have hE' : ∀ e ∈ E, e.start < e.stop := fun e he => (hE e he).1
  have h1 : ∀ i ∈ (List.range E.length).filter (fun i => edgeId E i = id),
      massTo E (startOf E i) * Real.exp (edgeScore E i) * massFrom E len (stopOf E i) =
      mass E (paths.filter (fun is => i ∈ is)) := by
    intro i hi
    have hlt := List.mem_range.1 (List.mem_filter.1 hi).1
    rw [through_mass hE hp (e := E[i]) (by simp [hlt])]
    simp [startOf, stopOf, hlt]
  rw [List.map_congr_left h1]
  have hlt : ∀ is ∈ paths, is.Nodup ∧ ∀ i ∈ is, i < E.length := by
    intro is his
    have := (hp.mem is).1 his
    refine ⟨(idxPath_nodup hE' _ _ _ this).1, ?_⟩
    have aux : ∀ (is : List Nat) (p q : Nat), IdxPath E p q is → ∀ i ∈ is, i < E.length := by
      intro is
      induction is with
      | nil => simp
      | cons j is ih =>
        rintro p q ⟨e, he, -, h⟩ i hi
        rcases List.mem_cons.1 hi with rfl | hi
        · exact (List.getElem?_eq_some_iff.1 he).1
        · exact ih _ _ h i hi
    exact aux _ _ _ this
  clear h1 hp
  induction paths with
  | nil => simp [massOf, mass]
  | cons is paths ih =>
    have ih := ih (fun x hx => hlt x (by simp [hx]))
    have hs := hlt is (by simp)
    have e1 : massOf E id (is :: paths) =
        Real.exp (idxTotal E is : ℝ) * (is.countP (fun i => edgeId E i = id) : ℝ) + massOf E id paths := by
      simp [massOf]
    have e2 : ∀ i, mass E ((is :: paths).filter (fun is => i ∈ is)) =
        (if i ∈ is then Real.exp (idxTotal E is : ℝ) else 0) + mass E (paths.filter (fun is => i ∈ is)) := by
      intro i
      by_cases h : i ∈ is
      · rw [List.filter_cons_of_pos (by simpa using h)]; simp [mass, h]
      · rw [List.filter_cons_of_neg (by simpa using h)]; simp [h]
    simp only [e1, e2]
    rw [List.sum_map_add, ih]
    congr 1
    have e3 : ∀ l : List Nat, (l.map (fun i => if i ∈ is then Real.exp (idxTotal E is : ℝ) else 0)).sum =
        Real.exp (idxTotal E is : ℝ) * ((l.filter (fun i => i ∈ is)).length : ℝ) := by
      intro l
      induction l with
      | nil => simp
      | cons i l ih =>
        by_cases h : i ∈ is
        · rw [List.filter_cons_of_pos (by simpa using h)]
          simp only [List.map_cons, List.sum_cons, ih, h, if_true, List.length_cons]
          push_cast; ring
        · rw [List.filter_cons_of_neg (by simpa using h)]
          simp only [List.map_cons, List.sum_cons, ih, h, if_false]
          ring
    rw [e3]
    congr 2
    rw [List.countP_eq_length_filter]
    apply List.Perm.length_eq
    apply (List.perm_ext_iff_of_nodup (hs.1.filter _) ((List.nodup_range.filter _).filter _)).2
    intro i
    simp only [List.mem_filter, List.mem_range, decide_eq_true_eq]
    constructor
    · rintro ⟨a, b⟩; exact ⟨⟨hs.2 i a, b⟩, a⟩
    · rintro ⟨⟨-, b⟩, a⟩; exact ⟨a, b⟩

end Tok.Unigram
