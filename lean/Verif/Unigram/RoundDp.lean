import Verif.Unigram.Round

/-!
# Best paths with rounded sums
-/

namespace Tok.Unigram

/-- What is assumed of rounding: it keeps the order, and a rounded number is not rounded again. -/
structure Rounding (fl : Rat → Rat) : Prop where
  mono : ∀ x y, x ≤ y → fl x ≤ fl y
  idem : ∀ x, fl (fl x) = fl x

/-- The scores added up from left to right starting with `a`, every sum being rounded. -/
def addUp (fl : Rat → Rat) : Rat → List Rat → Rat
  | a, [] => a
  | a, x :: xs => addUp fl (fl (a + x)) xs

theorem addUp_append (fl : Rat → Rat) : ∀ (xs ys : List Rat) (a : Rat),
    addUp fl a (xs ++ ys) = addUp fl (addUp fl a xs) ys
  | [], _, _ => rfl
  | _ :: xs, ys, _ => addUp_append fl xs ys _

theorem addUp_mono {fl : Rat → Rat} (hfl : Rounding fl) : ∀ (xs : List Rat) (a b : Rat), a ≤ b →
    addUp fl a xs ≤ addUp fl b xs
  | [], _, _, h => h
  | x :: xs, a, b, h => addUp_mono hfl xs _ _ (hfl.mono _ _ (by grind))

/-- As `IsBest`, with rounded sums. -/
structure IsBestR (fl : Rat → Rat) (E : List Edge) (V : Nat → Rat) (A : Nat → Option Nat) : Prop where
  none : ∀ p, A p = none → V p = 0 ∧ ∀ e ∈ E, e.stop ≠ p
  some : ∀ p i, A p = some i → ∃ e, E[i]? = some e ∧ e.stop = p ∧ V p = fl (V e.start + e.score) ∧
    ∀ (j : Nat) (e' : Edge), E[j]? = some e' → e'.stop = p →
      fl (V e'.start + e'.score) ≤ V p ∧ (j < i → fl (V e'.start + e'.score) < V p)

theorem IsBestR.edge_le {fl E V A} (h : IsBestR fl E V A) {e : Edge} (hm : e ∈ E) :
    fl (V e.start + e.score) ≤ V e.stop := by
  obtain ⟨j, hj⟩ := List.getElem?_of_mem hm
  cases ha : A e.stop with
  | none => exact absurd rfl ((h.none _ ha).2 e hm)
  | some i =>
    obtain ⟨-, -, -, -, h2⟩ := h.some _ _ ha
    exact (h2 j e hj rfl).1

/-- No path ends with more than the value of its end. -/
theorem IsBestR.le {fl E V A} (hfl : Rounding fl) (h : IsBestR fl E V A) : ∀ (es : List Edge) (p q : Nat),
    Path E p q es → addUp fl (V p) (es.map (·.score)) ≤ V q
  | [], p, q, hp => by cases hp; exact Rat.le_refl
  | e :: es, p, q, ⟨hm, hs, hp⟩ => by
    subst hs
    exact Rat.le_trans (addUp_mono hfl (es.map (·.score)) _ _ (h.edge_le hm)) (h.le hfl es _ _ hp)

theorem IsBestR.zero {fl E V A} (hE : ∀ e ∈ E, e.start < e.stop) (h : IsBestR fl E V A) :
    A 0 = Option.none ∧ V 0 = 0 := by
  cases ha : A 0 with
  | none => exact ⟨rfl, (h.none 0 ha).1⟩
  | some i =>
    obtain ⟨e, he, hs, -⟩ := h.some _ _ ha
    have := hE e (List.mem_of_getElem? he)
    omega

theorem recover_pathR {fl E V A} (hE : ∀ e ∈ E, e.start < e.stop) (h : IsBestR fl E V A) (hc : Connected E) :
    ∀ (fuel q : Nat), q ≤ fuel → (q = 0 ∨ ∃ e ∈ E, e.stop = q) →
      Path E 0 q (recover E A fuel q) ∧ V q = addUp fl 0 ((recover E A fuel q).map (·.score)) := by
  obtain ⟨h0, hV0⟩ := h.zero hE
  intro fuel
  induction fuel with
  | zero =>
    intro q hq _
    have : q = 0 := by omega
    subst this
    exact ⟨rfl, hV0⟩
  | succ fuel ih =>
    intro q hq hr
    by_cases hq0 : q = 0
    · subst hq0
      simp [recover, h0, Path, hV0, addUp]
    · obtain ⟨e0, he0, hs0⟩ := hr.resolve_left hq0
      cases ha : A q with
      | none => exact absurd hs0 ((h.none q ha).2 e0 he0)
      | some i =>
        obtain ⟨e, he, hs, hv, -⟩ := h.some q i ha
        have hm := List.mem_of_getElem? he
        have hlt := hE e hm
        obtain ⟨p1, p2⟩ := ih e.start (by omega) (hc e hm)
        simp only [recover, ha, he]
        refine ⟨p1.append ⟨hm, rfl, hs⟩, ?_⟩
        rw [List.map_append, addUp_append, hv, p2]
        rfl

/-- Link between the table of `encode_optimized` and a solution of the recurrence. -/
structure TableBestR (fl : Rat → Rat) (E : List Edge) (T : Nat → Cell) (A : Nat → Option Nat) : Prop where
  best : IsBestR fl E (fun p => (T p).score) A
  none : ∀ p, A p = none → (T p).startsAt = none
  some : ∀ p i e, A p = some i → E[i]? = some e → (T p).startsAt = some e.start ∧ e.id = some (T p).id

theorem TableBestR.back {fl E T A} (h : TableBestR fl E T A) : Back E T A where
  none p hp := (h.best.none p hp).2
  some p i hp := by
    obtain ⟨e, he, hs, -⟩ := h.best.some p i hp
    exact ⟨e, he, hs, h.some p i e hp he⟩

theorem tableBestR_start (fl : Rat → Rat) : TableBestR fl [] (fun _ => Cell.default) (fun _ => none) where
  best := ⟨fun p _ => ⟨rfl, by simp⟩, fun p i h => by cases h⟩
  none _ _ := rfl
  some p i e h := by cases h

theorem relaxR_inv {fl : Rat → Rat} {E : List Edge} {T T' : Nat → Cell} {A e} (hT : TableBestR fl E T A)
    (hE : ∀ e' ∈ E, e'.start ≤ e.start) (he : e.start < e.stop)
    (h : relaxR fl (T e.start).score T e = .ok T') :
    (∃ A', TableBestR fl (E ++ [e]) T' A') ∧ (∀ p, p ≤ e.start → T' p = T p) := by
  have idx : ∀ {j : Nat} {e' : Edge}, (E ++ [e])[j]? = some e' →
      (E[j]? = some e' ∧ j < E.length) ∨ (j = E.length ∧ e' = e) := by
    intro j e' hj
    rw [List.getElem?_append] at hj
    split at hj
    · exact .inl ⟨hj, by assumption⟩
    · rename_i hlt
      cases hk : j - E.length with
      | zero => rw [hk] at hj; simp at hj; exact .inr ⟨by omega, hj.symm⟩
      | succ n => rw [hk] at hj; simp at hj
  have lft : ∀ {j : Nat} {e' : Edge}, E[j]? = some e' → (E ++ [e])[j]? = some e' := by
    intro j e' hj
    rw [List.getElem?_append_left (by exact (List.getElem?_eq_some_iff.1 hj).1)]; exact hj
  have nw : (E ++ [e])[E.length]? = some e := by simp
  have old : ∀ (j : Nat) (e' : Edge), E[j]? = some e' → e'.start ≠ e.stop := by
    intro j e' hj
    have := hE e' (List.mem_of_getElem? hj)
    omega
  unfold relaxR at h
  split at h
  · rename_i hcond
    split at h
    · cases h
    · rename_i i hid
      cases h
      refine ⟨⟨fun p => if p = e.stop then some E.length else A p, ⟨?_, ?_⟩, ?_, ?_⟩, ?_⟩
      · -- no edge
        intro p hp
        by_cases hps : p = e.stop
        · simp [hps] at hp
        · simp only [hps, if_false] at hp
          obtain ⟨h1, h2⟩ := hT.best.none p hp
          refine ⟨by simpa [upd, hps] using h1, ?_⟩
          intro e' he'
          rcases List.mem_append.1 he' with h3 | h3
          · exact h2 e' h3
          · simp at h3; subst h3; exact fun hh => hps hh.symm
      · intro p i' hp
        by_cases hps : p = e.stop
        · simp only [hps, if_true] at hp
          cases hp
          refine ⟨e, nw, hps.symm, ?_, ?_⟩
          · have : e.start ≠ e.stop := by omega
            simp [upd, hps, this, Rat.add_comm]
          · intro j e' hj hs'
            have hval : (upd T e.stop ⟨i, fl (e.score + (T e.start).score), some e.start⟩ p).score =
                fl (e.score + (T e.start).score) := by simp [upd, hps]
            rcases idx hj with ⟨h3, h4⟩ | ⟨h3, rfl⟩
            · have hne := old j e' h3
              have hv' : (upd T e.stop ⟨i, fl (e.score + (T e.start).score), some e.start⟩ e'.start) =
                  T e'.start := by simp [upd, hne]
              simp only [hval, hv']
              -- the old cell was beaten
              cases ha : A e.stop with
              | none => exact absurd (hs'.trans hps) ((hT.best.none _ ha).2 e' (List.mem_of_getElem? h3))
              | some k =>
                obtain ⟨e1, he1, hs1, hv1, hb1⟩ := hT.best.some _ _ ha
                have hst := (hT.some _ _ _ ha he1).1
                have hlt : (T e.stop).score < fl (e.score + (T e.start).score) := by
                  rcases hcond with hc | hc
                  · rw [hst] at hc; cases hc
                  · exact hc
                have hle := (hb1 j e' h3 (hs'.trans hps)).1
                constructor
                · grind
                · intro; grind
            · have hne : e'.start ≠ e'.stop := by omega
              have hv' : (upd T e'.stop ⟨i, fl (e'.score + (T e'.start).score), some e'.start⟩ e'.start) =
                  T e'.start := by simp [upd, hne]
              simp only [hval, hv', Rat.add_comm]
              exact ⟨Rat.le_refl, fun h => by omega⟩
        · simp only [hps, if_false] at hp
          obtain ⟨e1, he1, hs1, hv1, hb1⟩ := hT.best.some p i' hp
          have hne1 := old i' e1 he1
          refine ⟨e1, lft he1, hs1, by simpa [upd, hps, hne1] using hv1, ?_⟩
          intro j e' hj hs'
          rcases idx hj with ⟨h3, h4⟩ | ⟨h3, rfl⟩
          · have hne := old j e' h3
            simpa [upd, hps, hne] using hb1 j e' h3 hs'
          · exact absurd hs'.symm hps
      · intro p hp
        by_cases hps : p = e.stop
        · simp [hps] at hp
        · simp only [hps, if_false] at hp
          simpa [upd, hps] using hT.none p hp
      · intro p i' e' hp he'
        by_cases hps : p = e.stop
        · simp only [hps, if_true] at hp
          cases hp
          rw [nw] at he'; cases he'
          simp [upd, hps, hid]
        · simp only [hps, if_false] at hp
          obtain ⟨e1, he1, -⟩ := hT.best.some p i' hp
          have := lft he1
          rw [he'] at this; cases this
          simpa [upd, hps] using hT.some p i' e' hp he1
      · intro p hp
        have : p ≠ e.stop := by omega
        simp [upd, this]
  · rename_i hcond
    cases h
    have hne : ¬ (T e.stop).startsAt = none := fun h => hcond (.inl h)
    have hle : fl (e.score + (T e.start).score) ≤ (T e.stop).score :=
      Rat.not_lt.1 (fun h => hcond (.inr h))
    refine ⟨⟨A, ⟨?_, ?_⟩, hT.none, ?_⟩, fun _ _ => rfl⟩
    · intro p hp
      obtain ⟨h1, h2⟩ := hT.best.none p hp
      refine ⟨h1, ?_⟩
      intro e' he'
      rcases List.mem_append.1 he' with h3 | h3
      · exact h2 e' h3
      · simp at h3; subst h3
        rintro rfl
        exact hne (hT.none _ hp)
    · intro p i' hp
      obtain ⟨e1, he1, hs1, hv1, hb1⟩ := hT.best.some p i' hp
      refine ⟨e1, lft he1, hs1, hv1, ?_⟩
      intro j e' hj hs'
      rcases idx hj with ⟨h3, h4⟩ | ⟨h3, rfl⟩
      · exact hb1 j e' h3 hs'
      · have := (List.getElem?_eq_some_iff.1 he1).1
        rw [← hs']
        exact ⟨by rw [Rat.add_comm]; exact hle, fun _ => by omega⟩
    · intro p i' e' hp he'
      obtain ⟨e1, he1, -⟩ := hT.best.some p i' hp
      have := lft he1
      rw [he'] at this; cases this
      exact hT.some p i' e' hp he1

theorem relaxAllR_inv {fl : Rat → Rat} : ∀ (es : List Edge) {E : List Edge} {T T' : Nat → Cell} {A} {pos : Nat},
    TableBestR fl E T A → (∀ e' ∈ E, e'.start ≤ pos) → (∀ e ∈ es, e.start = pos ∧ pos < e.stop) →
    relaxAllR fl (T pos).score es T = .ok T' →
    (∃ A', TableBestR fl (E ++ es) T' A')
  | [], E, T, T', A, pos, hT, hE, hes, h => by cases h; exact ⟨A, by simpa using hT⟩
  | e :: es, E, T, T', A, pos, hT, hE, hes, h => by
    obtain ⟨he1, he2⟩ := hes e (by simp)
    simp only [relaxAllR] at h
    split at h
    · cases h
    · rename_i T1 h1
      obtain ⟨⟨A1, hA1⟩, hsame⟩ := relaxR_inv hT (e := e) (by rw [he1]; exact hE) (by omega) (by rw [he1]; exact h1)
      rw [← hsame pos (by omega)] at h
      obtain ⟨A', hA'⟩ := relaxAllR_inv es hA1 (pos := pos) (by
        intro e' he'
        rcases List.mem_append.1 he' with h3 | h3
        · exact hE e' h3
        · simp at h3; subst h3; omega) (fun e he => hes e (by simp [he])) h
      exact ⟨A', by simpa using hA'⟩

/-- With an id for every edge there is no error. -/
theorem relaxAllR_total (fl : Rat → Rat) (base : Rat) : ∀ (es : List Edge) (T : Nat → Cell),
    (∀ e ∈ es, e.id ≠ none) → ∃ T', relaxAllR fl base es T = .ok T'
  | [], T, _ => ⟨T, rfl⟩
  | e :: es, T, h => by
    have he := h e (by simp)
    cases hid : e.id with
    | none => exact absurd hid he
    | some i =>
      simp only [relaxAllR, relaxR, hid]
      split
      · rename_i x h1
        split at h1 <;> cases h1
      · exact relaxAllR_total fl base es _ (fun e he => h e (by simp [he]))

end Tok.Unigram
