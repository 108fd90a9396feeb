import Verif.Unigram.Model

/-!
# Best paths: the dynamic program shared by `encode_optimized` and `viterbi`
-/

namespace Tok.Unigram

/-- Sum of the scores. -/
def total (es : List Edge) : Rat := (es.map (·.score)).foldr (· + ·) 0

@[simp] theorem total_nil : total [] = 0 := rfl

@[simp] theorem total_cons (e : Edge) (es : List Edge) : total (e :: es) = e.score + total es := rfl

theorem total_append (a b : List Edge) : total (a ++ b) = total a + total b := by
  induction a with
  | nil => simp [Rat.zero_add]
  | cons e a ih => simp [ih, Rat.add_assoc]

/-- `es` leads from position `p` to position `q` along edges of `E`. -/
def Path (E : List Edge) : Nat → Nat → List Edge → Prop
  | p, q, [] => p = q
  | p, q, e :: es => e ∈ E ∧ e.start = p ∧ Path E e.stop q es

theorem Path.append {E : List Edge} : ∀ {es fs : List Edge} {p q r : Nat}, Path E p q es → Path E q r fs →
    Path E p r (es ++ fs)
  | [], fs, p, q, r, h, h' => by cases h; exact h'
  | e :: es, fs, p, q, r, h, h' => ⟨h.1, h.2.1, Path.append h.2.2 h'⟩

/-- `V` gives every position the best score of a last edge into it (0 if there is none); `A` the index of
the first edge achieving it. -/
structure IsBest (E : List Edge) (V : Nat → Rat) (A : Nat → Option Nat) : Prop where
  none : ∀ p, A p = none → V p = 0 ∧ ∀ e ∈ E, e.stop ≠ p
  some : ∀ p i, A p = some i → ∃ e, E[i]? = some e ∧ e.stop = p ∧ V p = V e.start + e.score ∧
    ∀ (j : Nat) (e' : Edge), E[j]? = some e' → e'.stop = p →
      V e'.start + e'.score ≤ V p ∧ (j < i → V e'.start + e'.score < V p)

/-- No path ends with more than the value of its end. -/
theorem IsBest.le {E V A} (h : IsBest E V A) : ∀ (es : List Edge) (p q : Nat), Path E p q es →
    V p + total es ≤ V q
  | [], p, q, hp => by cases hp; rw [total_nil, Rat.add_zero]; exact Rat.le_refl
  | e :: es, p, q, ⟨hm, hs, hp⟩ => by
    have ih := h.le es _ _ hp
    obtain ⟨j, hj⟩ := List.getElem?_of_mem hm
    have h1 : V e.start + e.score ≤ V e.stop := by
      cases ha : A e.stop with
      | none => exact absurd rfl ((h.none _ ha).2 e hm)
      | some i =>
        obtain ⟨-, -, -, -, h2⟩ := h.some _ _ ha
        exact (h2 j e hj rfl).1
    rw [total_cons, ← hs]
    grind

/-- Two solutions of the recurrence are the same. -/
theorem IsBest.unique {E V A V' A'} (hE : ∀ e ∈ E, e.start < e.stop) (h : IsBest E V A)
    (h' : IsBest E V' A') : ∀ n p, p < n → V p = V' p ∧ A p = A' p := by
  intro n
  induction n with
  | zero => intro p hp; omega
  | succ n ih =>
    intro p hp
    have ihs : ∀ e ∈ E, e.stop = p → V e.start = V' e.start := by
      intro e he hs
      have := hE e he
      exact (ih e.start (by omega)).1
    cases ha : A p with
    | none =>
      obtain ⟨h1, h2⟩ := h.none p ha
      cases ha' : A' p with
      | none => exact ⟨by rw [h1, (h'.none p ha').1], rfl⟩
      | some i =>
        obtain ⟨e, he, hs, -⟩ := h'.some p i ha'
        exact absurd hs (h2 e (List.mem_of_getElem? he))
    | some i =>
      obtain ⟨e, he, hs, hv, hb⟩ := h.some p i ha
      cases ha' : A' p with
      | none => exact absurd hs ((h'.none p ha').2 e (List.mem_of_getElem? he))
      | some i' =>
        obtain ⟨e', he', hs', hv', hb'⟩ := h'.some p i' ha'
        have m1 := ihs e (List.mem_of_getElem? he) hs
        have m2 := ihs e' (List.mem_of_getElem? he') hs'
        have b1 := hb i' e' he' hs'
        have b2 := hb' i e he hs
        have hVV : V p = V' p := by
          apply Rat.le_antisymm <;> grind
        refine ⟨hVV, ?_⟩
        have : i = i' := by
          rcases Nat.lt_trichotomy i i' with hlt | heq | hlt
          · have := b2.2 hlt; grind
          · exact heq
          · have := b1.2 hlt; grind
        rw [this]

/-- The path recovered by following the best last edges backwards from `q` (first argument: an upper bound
on its length). -/
def recover (E : List Edge) (A : Nat → Option Nat) : Nat → Nat → List Edge
  | 0, _ => []
  | fuel + 1, q =>
    match A q with
    | none => []
    | some i => match E[i]? with
      | none => []
      | some e => recover E A fuel e.start ++ [e]

/-- Every position that an edge starts from is 0 or reached by an edge. -/
def Connected (E : List Edge) : Prop := ∀ e ∈ E, e.start = 0 ∨ ∃ e' ∈ E, e'.stop = e.start

theorem recover_path {E V A} (hE : ∀ e ∈ E, e.start < e.stop) (h : IsBest E V A) (hc : Connected E) :
    ∀ (fuel q : Nat), q ≤ fuel → (q = 0 ∨ ∃ e ∈ E, e.stop = q) →
      Path E 0 q (recover E A fuel q) ∧ V q = V 0 + total (recover E A fuel q) := by
  have h0 : A 0 = none := by
    cases ha : A 0 with
    | none => rfl
    | some i =>
      obtain ⟨e, he, hs, -⟩ := h.some _ _ ha
      have := hE e (List.mem_of_getElem? he)
      omega
  intro fuel
  induction fuel with
  | zero =>
    intro q hq _
    have : q = 0 := by omega
    subst this
    exact ⟨rfl, by simp [recover, Rat.add_zero]⟩
  | succ fuel ih =>
    intro q hq hr
    by_cases hq0 : q = 0
    · subst hq0
      simp [recover, h0, Path, Rat.add_zero]
    · obtain ⟨e0, he0, hs0⟩ := hr.resolve_left hq0
      cases ha : A q with
      | none => exact absurd hs0 ((h.none q ha).2 e0 he0)
      | some i =>
        obtain ⟨e, he, hs, hv, -⟩ := h.some q i ha
        have hm := List.mem_of_getElem? he
        have hlt := hE e hm
        obtain ⟨p1, p2⟩ := ih e.start (by omega) (hc e hm)
        simp only [recover, ha, he]
        refine ⟨p1.append ⟨hm, rfl, hs⟩, ?_⟩
        rw [total_append, hv, p2]
        simp [Rat.add_zero, Rat.add_assoc]

/-- Link between the table of `encode_optimized` and a solution of the recurrence. -/
structure TableBest (E : List Edge) (T : Nat → Cell) (A : Nat → Option Nat) : Prop where
  best : IsBest E (fun p => (T p).score) A
  none : ∀ p, A p = none → (T p).startsAt = none
  some : ∀ p i e, A p = some i → E[i]? = some e → (T p).startsAt = some e.start ∧ e.id = some (T p).id

theorem tableBest_start : TableBest [] (fun _ => Cell.default) (fun _ => none) where
  best := ⟨fun p _ => ⟨rfl, by simp⟩, fun p i h => by cases h⟩
  none _ _ := rfl
  some p i e h := by cases h

theorem relax_inv {E : List Edge} {T T' : Nat → Cell} {A e} (hT : TableBest E T A)
    (hE : ∀ e' ∈ E, e'.start ≤ e.start) (he : e.start < e.stop)
    (h : relax (T e.start).score T e = .ok T') :
    (∃ A', TableBest (E ++ [e]) T' A') ∧ (∀ p, p ≤ e.start → T' p = T p) := by
  have idx : ∀ {j : Nat} {e' : Edge}, (E ++ [e])[j]? = some e' →
      (E[j]? = some e' ∧ j < E.length) ∨ (j = E.length ∧ e' = e) := by
    intro j e' hj
    rw [List.getElem?_append] at hj
    split at hj
    · exact .inl ⟨hj, by assumption⟩
    · rename_i hlt
      cases hk : j - E.length with
      | zero => rw [hk] at hj; simp at hj; exact .inr ⟨by omega, hj.symm⟩
      | succ n => rw [hk] at hj; simp at hj
  have lft : ∀ {j : Nat} {e' : Edge}, E[j]? = some e' → (E ++ [e])[j]? = some e' := by
    intro j e' hj
    rw [List.getElem?_append_left (by exact (List.getElem?_eq_some_iff.1 hj).1)]; exact hj
  have nw : (E ++ [e])[E.length]? = some e := by simp
  have old : ∀ (j : Nat) (e' : Edge), E[j]? = some e' → e'.start ≠ e.stop := by
    intro j e' hj
    have := hE e' (List.mem_of_getElem? hj)
    omega
  unfold relax at h
  split at h
  · rename_i hcond
    split at h
    · cases h
    · rename_i i hid
      cases h
      refine ⟨⟨fun p => if p = e.stop then some E.length else A p, ⟨?_, ?_⟩, ?_, ?_⟩, ?_⟩
      · -- no edge
        intro p hp
        by_cases hps : p = e.stop
        · simp [hps] at hp
        · simp only [hps, if_false] at hp
          obtain ⟨h1, h2⟩ := hT.best.none p hp
          refine ⟨by simpa [upd, hps] using h1, ?_⟩
          intro e' he'
          rcases List.mem_append.1 he' with h3 | h3
          · exact h2 e' h3
          · simp at h3; subst h3; exact fun hh => hps hh.symm
      · intro p i' hp
        by_cases hps : p = e.stop
        · simp only [hps, if_true] at hp
          cases hp
          refine ⟨e, nw, hps.symm, ?_, ?_⟩
          · have : e.start ≠ e.stop := by omega
            simp [upd, hps, this, Rat.add_comm]
          · intro j e' hj hs'
            have hval : (upd T e.stop ⟨i, e.score + (T e.start).score, some e.start⟩ p).score =
                e.score + (T e.start).score := by simp [upd, hps]
            rcases idx hj with ⟨h3, h4⟩ | ⟨h3, rfl⟩
            · have hne := old j e' h3
              have hv' : (upd T e.stop ⟨i, e.score + (T e.start).score, some e.start⟩ e'.start) =
                  T e'.start := by simp [upd, hne]
              simp only [hval, hv']
              -- the old cell was beaten
              cases ha : A e.stop with
              | none => exact absurd (hs'.trans hps) ((hT.best.none _ ha).2 e' (List.mem_of_getElem? h3))
              | some k =>
                obtain ⟨e1, he1, hs1, hv1, hb1⟩ := hT.best.some _ _ ha
                have hst := (hT.some _ _ _ ha he1).1
                have hlt : (T e.stop).score < e.score + (T e.start).score := by
                  rcases hcond with hc | hc
                  · rw [hst] at hc; cases hc
                  · exact hc
                have hle := (hb1 j e' h3 (hs'.trans hps)).1
                constructor
                · grind
                · intro; grind
            · have hne : e'.start ≠ e'.stop := by omega
              have hv' : (upd T e'.stop ⟨i, e'.score + (T e'.start).score, some e'.start⟩ e'.start) =
                  T e'.start := by simp [upd, hne]
              simp only [hval, hv']
              constructor
              · grind
              · intro; omega
        · simp only [hps, if_false] at hp
          obtain ⟨e1, he1, hs1, hv1, hb1⟩ := hT.best.some p i' hp
          have hne1 := old i' e1 he1
          refine ⟨e1, lft he1, hs1, by simpa [upd, hps, hne1] using hv1, ?_⟩
          intro j e' hj hs'
          rcases idx hj with ⟨h3, h4⟩ | ⟨h3, rfl⟩
          · have hne := old j e' h3
            simpa [upd, hps, hne] using hb1 j e' h3 hs'
          · exact absurd hs'.symm hps
      · intro p hp
        by_cases hps : p = e.stop
        · simp [hps] at hp
        · simp only [hps, if_false] at hp
          simpa [upd, hps] using hT.none p hp
      · intro p i' e' hp he'
        by_cases hps : p = e.stop
        · simp only [hps, if_true] at hp
          cases hp
          rw [nw] at he'; cases he'
          simp [upd, hps, hid]
        · simp only [hps, if_false] at hp
          obtain ⟨e1, he1, -⟩ := hT.best.some p i' hp
          have := lft he1
          rw [he'] at this; cases this
          simpa [upd, hps] using hT.some p i' e' hp he1
      · intro p hp
        have : p ≠ e.stop := by omega
        simp [upd, this]
  · rename_i hcond
    cases h
    have hne : ¬ (T e.stop).startsAt = none := fun h => hcond (.inl h)
    have hle : e.score + (T e.start).score ≤ (T e.stop).score :=
      Rat.not_lt.1 (fun h => hcond (.inr h))
    refine ⟨⟨A, ⟨?_, ?_⟩, hT.none, ?_⟩, fun _ _ => rfl⟩
    · intro p hp
      obtain ⟨h1, h2⟩ := hT.best.none p hp
      refine ⟨h1, ?_⟩
      intro e' he'
      rcases List.mem_append.1 he' with h3 | h3
      · exact h2 e' h3
      · simp at h3; subst h3
        rintro rfl
        exact hne (hT.none _ hp)
    · intro p i' hp
      obtain ⟨e1, he1, hs1, hv1, hb1⟩ := hT.best.some p i' hp
      refine ⟨e1, lft he1, hs1, hv1, ?_⟩
      intro j e' hj hs'
      rcases idx hj with ⟨h3, h4⟩ | ⟨h3, rfl⟩
      · exact hb1 j e' h3 hs'
      · have := (List.getElem?_eq_some_iff.1 he1).1
        rw [← hs']
        exact ⟨by rw [Rat.add_comm]; exact hle, fun _ => by omega⟩
    · intro p i' e' hp he'
      obtain ⟨e1, he1, -⟩ := hT.best.some p i' hp
      have := lft he1
      rw [he'] at this; cases this
      exact hT.some p i' e' hp he1

theorem relaxAll_inv : ∀ (es : List Edge) {E : List Edge} {T T' : Nat → Cell} {A} {pos : Nat},
    TableBest E T A → (∀ e' ∈ E, e'.start ≤ pos) → (∀ e ∈ es, e.start = pos ∧ pos < e.stop) →
    relaxAll (T pos).score es T = .ok T' →
    (∃ A', TableBest (E ++ es) T' A')
  | [], E, T, T', A, pos, hT, hE, hes, h => by cases h; exact ⟨A, by simpa using hT⟩
  | e :: es, E, T, T', A, pos, hT, hE, hes, h => by
    obtain ⟨he1, he2⟩ := hes e (by simp)
    simp only [relaxAll] at h
    split at h
    · cases h
    · rename_i T1 h1
      obtain ⟨⟨A1, hA1⟩, hsame⟩ := relax_inv hT (e := e) (by rw [he1]; exact hE) (by omega) (by rw [he1]; exact h1)
      rw [← hsame pos (by omega)] at h
      obtain ⟨A', hA'⟩ := relaxAll_inv es hA1 (pos := pos) (by
        intro e' he'
        rcases List.mem_append.1 he' with h3 | h3
        · exact hE e' h3
        · simp at h3; subst h3; omega) (fun e he => hes e (by simp [he])) h
      exact ⟨A', by simpa using hA'⟩

/-- With an id for every edge there is no error. -/
theorem relaxAll_total (base : Rat) : ∀ (es : List Edge) (T : Nat → Cell), (∀ e ∈ es, e.id ≠ none) →
    ∃ T', relaxAll base es T = .ok T'
  | [], T, _ => ⟨T, rfl⟩
  | e :: es, T, h => by
    have he := h e (by simp)
    cases hid : e.id with
    | none => exact absurd hid he
    | some i =>
      simp only [relaxAll, relax, hid]
      split
      · rename_i x h1
        split at h1 <;> cases h1
      · exact relaxAll_total base es _ (fun e he => h e (by simp [he]))

end Tok.Unigram
