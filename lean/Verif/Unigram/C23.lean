import Verif.Unigram.Pieces

/-!
# C23: `encode_optimized` finds an optimal segmentation
-/

namespace Tok.Unigram

variable {vocab : List (Str × Rat)} {unk : Option Nat} {u : Unigram}

theorem optLoop_inv (hu : Made vocab unk u) {m : Rat} (hm : IsMinScore vocab m) :
    ∀ (s : Str) (pos : Nat) (E : List Edge) (T : Nat → Cell) (A : Nat → Option Nat),
      TableBest E T A → (∀ e ∈ E, e.start ≤ pos) →
      (∃ x, optLoop u pos s T = .err x ∧ unk = none) ∨
      ∃ T', optLoop u pos s T = .ok T' ∧ ∃ A', TableBest (E ++ u.edgesFrom pos s) T' A'
  | [], pos, E, T, A, hT, _ => .inr ⟨T, rfl, A, by simpa [edgesFrom] using hT⟩
  | c :: cs, pos, E, T, A, hT, hE => by
    obtain ⟨ms, h1, -⟩ := hu.lookups_spec (c :: cs)
    have hmem := hu.mem_edgesAt hm pos c cs
    rw [h1, Option.getD_some] at hmem
    have hes : ∀ e ∈ u.edgesAt pos c ms, e.start = pos ∧ pos < e.stop := by
      intro e he
      obtain ⟨x, hx, -, rfl⟩ := (hmem e).1 he
      have := blen_pos hx.ne_nil
      exact ⟨rfl, by dsimp only; omega⟩
    simp only [optLoop, h1]
    cases hr : relaxAll (T pos).score (u.edgesAt pos c ms) T with
    | error x =>
      refine .inl ⟨x, rfl, ?_⟩
      cases hunk : unk with
      | none => rfl
      | some k =>
        obtain ⟨T', h2⟩ := relaxAll_total (T pos).score (u.edgesAt pos c ms) T (by
          intro e he
          obtain ⟨x, hx, -, rfl⟩ := (hmem e).1 he
          rcases hx with ⟨-, i, hi, -⟩ | ⟨-, -, -, hi, -⟩
          · simp [hi]
          · simp [hi, hunk])
        rw [hr] at h2; cases h2
    | ok T1 =>
      obtain ⟨A1, hA1⟩ := relaxAll_inv _ hT hE hes hr
      have := optLoop_inv hu hm cs (pos + c.utf8Size) (E ++ u.edgesAt pos c ms) T1 A1 hA1 (by
        intro e he
        rcases List.mem_append.1 he with h | h
        · have := hE e h; omega
        · have := (hes e h).1; omega)
      simpa [edgesFrom, h1] using this

/-! ### Backtracking -/

/-- The text of an edge. -/
def Edge.text (s : Str) (e : Edge) : Str := (strGet s e.start e.stop).getD []

/-- The marked texts of a path. -/
def marked (s : Str) (unk : Option Nat) (es : List Edge) : List (Str × Bool) :=
  es.map (fun e => (e.text s, decide (e.id = unk)))

theorem fuse_append_false (p : Str) (a : List (Str × Bool)) :
    fuse ((p, false) :: a) = p :: fuse a := rfl

theorem fuse_true_nil (p : Str) : fuse [(p, true)] = [p] := rfl

theorem fuse_true_false (p q : Str) (a : List (Str × Bool)) :
    fuse ((p, true) :: (q, false) :: a) = p :: q :: fuse a := rfl

theorem fuse_true_true (p q : Str) (a : List (Str × Bool)) (r : Str) (rs : List Str)
    (h : fuse ((q, true) :: a) = r :: rs) : fuse ((p, true) :: (q, true) :: a) = (p ++ r) :: rs := by
  rw [fuse]
  rw [h]

/-- State of the backtracking after the pieces `done` (in sentence order). -/
def BackInv (done : List (Str × Bool)) (token results : List Str) : Prop :=
  (token = [] ∧ fuse done = results.reverse ∧ ∀ p r, done ≠ (p, true) :: r) ∨
  (token ≠ [] ∧ fuse done = token.reverse.flatten :: results.reverse ∧ ∃ p r, done = (p, true) :: r)

/-- The pointers of the table are those of the edges chosen by `A`. -/
structure Back (E : List Edge) (T : Nat → Cell) (A : Nat → Option Nat) : Prop where
  none : ∀ p, A p = none → ∀ e ∈ E, e.stop ≠ p
  some : ∀ p i, A p = some i → ∃ e, E[i]? = some e ∧ e.stop = p ∧ (T p).startsAt = some e.start ∧
    e.id = some (T p).id

theorem TableBest.back {E : List Edge} {T : Nat → Cell} {A : Nat → Option Nat} (h : TableBest E T A) :
    Back E T A where
  none p hp := (h.best.none p hp).2
  some p i hp := by
    obtain ⟨e, he, hs, -⟩ := h.best.some p i hp
    exact ⟨e, he, hs, h.some p i e hp he⟩

theorem backtrack_back (hu : Built vocab unk u) {s : Str} {E : List Edge} {T : Nat → Cell}
    {A : Nat → Option Nat} (hE : ∀ e ∈ E, e.start < e.stop ∧ (strGet s e.start e.stop).isSome)
    (hT : Back E T A) (hc : Connected E) :
    ∀ (fuel q : Nat) (done : List (Str × Bool)) (token results : List Str), q ≤ fuel →
      (q = 0 ∨ ∃ e ∈ E, e.stop = q) → BackInv done token results →
      backtrack u s T fuel q token results =
        .ok (fuse (marked s unk (recover E A fuel q) ++ done)) := by
  have h0 : A 0 = none := by
    cases ha : A 0 with
    | none => rfl
    | some i =>
      obtain ⟨e, he, hs, -⟩ := hT.some _ _ ha
      have := hE e (List.mem_of_getElem? he)
      omega
  have base : ∀ (fuel : Nat) (done : List (Str × Bool)) (token results : List Str),
      BackInv done token results →
      backtrack u s T fuel 0 token results = .ok (fuse (marked s unk (recover E A fuel 0) ++ done)) := by
    intro fuel done token results hinv
    have hr : recover E A fuel 0 = [] := by cases fuel <;> simp [recover, h0]
    rw [hr]
    unfold backtrack
    simp only [if_true, marked, List.map_nil, List.nil_append]
    rcases hinv with ⟨rfl, h2, -⟩ | ⟨h1, h2, -⟩
    · simp [h2]
    · simp [h1, h2]
  intro fuel
  induction fuel with
  | zero =>
    intro q done token results hq _ hinv
    have : q = 0 := by omega
    subst this
    exact base _ _ _ _ hinv
  | succ fuel ih =>
    intro q done token results hq hr hinv
    by_cases hq0 : q = 0
    · subst hq0; exact base _ _ _ _ hinv
    · obtain ⟨e0, he0, hs0⟩ := hr.resolve_left hq0
      cases ha : A q with
      | none => exact absurd hs0 (hT.none q ha e0 he0)
      | some i =>
        obtain ⟨e, he, hs, t1, t2⟩ := hT.some q i ha
        have hm := List.mem_of_getElem? he
        obtain ⟨hlt, htx⟩ := hE e hm
        obtain ⟨piece, hp⟩ := Option.isSome_iff_exists.1 htx
        rw [hs] at hp
        have hrec : recover E A (fuel + 1) q = recover E A fuel e.start ++ [e] := by
          simp [recover, ha, he]
        have hmk : marked s unk (recover E A (fuel + 1) q) ++ done =
            marked s unk (recover E A fuel e.start) ++ ((piece, decide (e.id = unk)) :: done) := by
          rw [hrec]
          simp [marked, Edge.text, hs, hp]
        rw [hmk, backtrack, if_neg hq0]
        simp only [t1, hp, hu.fuse, hu.unk_eq, true_and]
        rw [← t2]
        by_cases hunk : e.id = unk
        · rw [if_pos hunk, ih e.start ((piece, true) :: done) _ _ (by omega) (hc e hm)]
          · simp [hunk]
          · right
            refine ⟨by simp, ?_, piece, done, rfl⟩
            rcases hinv with ⟨rfl, h2, h3⟩ | ⟨h1, h2, p, r, rfl⟩
            · cases done with
              | nil => simp only [fuse_true_nil]; simp [fuse] at h2; simp [h2]
              | cons d done =>
                obtain ⟨t, b⟩ := d
                cases b with
                | true => exact absurd rfl (h3 t done)
                | false =>
                  rw [fuse_true_false]
                  rw [fuse_append_false] at h2
                  simp [h2]
            · rw [fuse_true_true _ _ _ _ _ h2]
              simp
        · rw [if_neg hunk]
          have key : BackInv ((piece, false) :: done) []
              ((if token.isEmpty then results else results ++ [token.reverse.flatten]) ++ [piece]) := by
            left
            refine ⟨rfl, ?_, by simp⟩
            rw [fuse_append_false]
            rcases hinv with ⟨rfl, h2, h3⟩ | ⟨h1, h2, -⟩
            · simp [h2]
            · simp [h1, h2]
          have := ih e.start ((piece, false) :: done) _ _ (by omega) (hc e hm) key
          by_cases ht : token.isEmpty
          · simp only [ht, if_true] at this ⊢
            rw [this]; simp [hunk]
          · simp only [ht] at this ⊢
            simp only [Bool.false_eq_true, if_false] at this ⊢
            rw [this]; simp [hunk]

theorem backtrack_spec (hu : Made vocab unk u) {s : Str} {E : List Edge} {T : Nat → Cell}
    {A : Nat → Option Nat} (hE : ∀ e ∈ E, e.start < e.stop ∧ (strGet s e.start e.stop).isSome)
    (hT : TableBest E T A) (hc : Connected E) :
    ∀ (fuel q : Nat) (done : List (Str × Bool)) (token results : List Str), q ≤ fuel →
      (q = 0 ∨ ∃ e ∈ E, e.stop = q) → BackInv done token results →
      backtrack u s T fuel q token results =
        .ok (fuse (marked s unk (recover E A fuel q) ++ done)) :=
  backtrack_back hu.toBuilt hE hT.back hc

theorem marked_layout {m : Rat} {s : Str} : ∀ (xs : List Piece) (a b : Str), s = a ++ b → Seg vocab unk m b xs →
    marked s unk (layout (blen a) xs) = xs.map (fun x => (x.text, decide (x.id = unk)))
  | [], _, _, _, _ => rfl
  | x :: xs, a, b, h, ⟨h1, h2⟩ => by
    have e1 : blen (a ++ x.text) = blen a + blen x.text := by simp
    subst h1
    have hg : strGet s (blen a) (blen a + blen x.text) = some x.text :=
      strGet_eq_some.2 ⟨a, (xs.map (·.text)).flatten, by simp [h], rfl, by simp⟩
    have := marked_layout (m := m) (s := s) xs (a ++ x.text) (xs.map (·.text)).flatten (by simp [h])
      ⟨rfl, fun y hy => h2 y (by simp [hy])⟩
    rw [e1] at this
    simp only [layout, marked, List.map_cons, Edge.text, hg, Option.getD_some, List.cons.injEq, true_and]
    exact this

theorem Built.edge_text' (hu : Built vocab unk u) {m : Rat} (hm : u.minScore = m) {s : Str} {e : Edge}
    (he : e ∈ u.edgesFrom 0 s) : (strGet s e.start e.stop).isSome := by
  obtain ⟨a, b, x, h1, hx, rfl⟩ := (hu.mem_edgesFrom' hm s 0 e).1 he
  rw [strGet_eq_some.2 ⟨a, b, h1, by simp, by simp⟩]
  rfl

theorem Made.edge_text (hu : Made vocab unk u) {m : Rat} (hm : IsMinScore vocab m) {s : Str} {e : Edge}
    (he : e ∈ u.edgesFrom 0 s) : (strGet s e.start e.stop).isSome :=
  hu.edge_text' (hu.minScore m hm) he

/-- **C23.** The pieces of `encode_optimized` are, after joining runs of unknown pieces, a segmentation of
the sentence of maximal total score. -/
theorem C23_optimal {bf : Bool} (hu : Unigram.from vocab unk bf = .ok u) {m : Rat}
    (hm : IsMinScore vocab m) {s : Str} {out : List Str} (h : u.encodeOptimized s = .ok out) :
    ∃ xs, Seg vocab unk m s xs ∧ (∀ ys, Seg vocab unk m s ys → score ys ≤ score xs) ∧
      out = fuse (xs.map (fun x => (x.text, decide (x.id = unk)))) := by
  have hu := made_of_from hu
  unfold encodeOptimized at h
  rcases optLoop_inv hu hm s 0 [] _ _ tableBest_start (by simp) with ⟨x, h1, -⟩ | ⟨T, h1, A, hA⟩
  · rw [h1] at h; cases h
  · rw [h1] at h
    dsimp only at h
    rw [List.nil_append] at hA
    have hE : ∀ e ∈ u.edgesFrom 0 s, e.start < e.stop := fun e he => (hu.edge_lt hm he).2.1
    have hreach := hu.reached hm (s := s) (a := s) (b := []) (by simp)
    obtain ⟨hp, ht⟩ := recover_path hE hA.best (hu.connected hm s) (blen s) (blen s) (Nat.le_refl _) hreach
    have hV0 : (T 0).score = 0 := by
      cases ha : A 0 with
      | none => exact (hA.best.none 0 ha).1
      | some i =>
        obtain ⟨e, he, hs, -⟩ := hA.best.some _ _ ha
        have := hE e (List.mem_of_getElem? he)
        omega
    obtain ⟨xs, hseg, hlay⟩ := hu.seg_of_path hm _ [] s rfl hp
    refine ⟨xs, hseg, ?_, ?_⟩
    · intro ys hys
      have hy := hA.best.le _ _ _ (hu.path_of_seg hm ys [] (by simp [hys.1]) hys.2)
      rw [total_layout] at hy
      rw [← hlay, total_layout] at ht
      have e0 : blen ([] : Str) = 0 := rfl
      rw [e0] at hy
      grind
    · rw [backtrack_spec hu (fun e he => ⟨hE e he, hu.edge_text hm he⟩) hA (hu.connected hm s)
        (blen s) (blen s) [] [] [] (Nat.le_refl _) hreach (.inl ⟨rfl, rfl, by simp⟩), List.append_nil] at h
      cases h
      rw [← hlay]
      exact congrArg fuse (marked_layout xs [] s rfl hseg)

theorem relaxAll_err (base : Rat) : ∀ (es : List Edge) (T : Nat → Cell) {x : UniErr},
    relaxAll base es T = .error x → x = .missingUnkId
  | [], T, x, h => by cases h
  | e :: es, T, x, h => by
    simp only [relaxAll] at h
    split at h
    · rename_i y h1
      cases h
      unfold relax at h1
      split at h1
      · split at h1 <;> cases h1
        rfl
      · cases h1
    · exact relaxAll_err base es _ h

theorem optLoop_err : ∀ (s : Str) (pos : Nat) (T : Nat → Cell) {x : UniErr},
    optLoop u pos s T = .err x → x = .missingUnkId
  | [], _, _, _, h => by cases h
  | c :: cs, pos, T, x, h => by
    simp only [optLoop] at h
    split at h
    · cases h
    · split at h
      · rename_i y h1
        cases h
        exact relaxAll_err _ _ _ h1
      · exact optLoop_err cs _ _ h

/-- **C23.** With an unknown token, encoding always succeeds. -/
theorem C23_total {bf : Bool} {k : Nat} (hu : Unigram.from vocab (some k) bf = .ok u) (s : Str) :
    ∃ out, u.encodeOptimized s = .ok out := by
  have hne : vocab ≠ [] := by
    rintro rfl
    simp [Unigram.from] at hu
  have hm := minOf_isMin hne
  have hu := made_of_from hu
  unfold encodeOptimized
  rcases optLoop_inv hu hm s 0 [] _ _ tableBest_start (by simp) with ⟨x, h1, h2⟩ | ⟨T, h1, A, hA⟩
  · cases h2
  · rw [h1]
    rw [List.nil_append] at hA
    have hE : ∀ e ∈ u.edgesFrom 0 s, e.start < e.stop := fun e he => (hu.edge_lt hm he).2.1
    exact ⟨_, backtrack_spec hu (fun e he => ⟨hE e he, hu.edge_text hm he⟩) hA (hu.connected hm s)
      (blen s) (blen s) [] [] [] (Nat.le_refl _) (hu.reached hm (s := s) (a := s) (b := []) (by simp))
      (.inl ⟨rfl, rfl, by simp⟩)⟩

/-- **C23.** No `unwrap` and no slice panics; the only error is a missing unknown id. -/
theorem C23_never_panics {bf : Bool} (hu : Unigram.from vocab unk bf = .ok u) (hv : vocab ≠ []) (s : Str) :
    (∃ out, u.encodeOptimized s = .ok out) ∨
    (u.encodeOptimized s = .err .missingUnkId ∧ unk = none) := by
  have hm := minOf_isMin hv
  cases hk : unk with
  | some k => subst hk; exact .inl (C23_total hu s)
  | none =>
    have hu := made_of_from hu
    unfold encodeOptimized
    rcases optLoop_inv hu hm s 0 [] _ _ tableBest_start (by simp) with ⟨x, h1, -⟩ | ⟨T, h1, A, hA⟩
    · right
      rw [h1]
      refine ⟨?_, rfl⟩
      cases optLoop_err s 0 _ h1
      rfl
    · left
      rw [h1]
      rw [List.nil_append] at hA
      have hE : ∀ e ∈ u.edgesFrom 0 s, e.start < e.stop := fun e he => (hu.edge_lt hm he).2.1
      exact ⟨_, backtrack_spec hu (fun e he => ⟨hE e he, hu.edge_text hm he⟩) hA (hu.connected hm s)
        (blen s) (blen s) [] [] [] (Nat.le_refl _) (hu.reached hm (s := s) (a := s) (b := []) (by simp))
        (.inl ⟨rfl, rfl, by simp⟩)⟩

theorem fuse_flatten : ∀ (l : List (Str × Bool)), (fuse l).flatten = (l.map (·.1)).flatten
  | [] => rfl
  | (p, false) :: r => by rw [fuse_append_false]; simp [fuse_flatten r]
  | (p, true) :: [] => by simp [fuse]
  | (p, true) :: (q, false) :: r => by
    rw [fuse_true_false]; simp [fuse_flatten r]
  | (p, true) :: (q, true) :: r => by
    have ih := fuse_flatten ((q, true) :: r)
    cases hf : fuse ((q, true) :: r) with
    | nil =>
      exfalso
      simp only [fuse] at hf
      split at hf <;> cases hf
    | cons a as =>
      rw [fuse_true_true _ _ _ _ _ hf]
      rw [hf] at ih
      simp at ih ⊢
      rw [ih]

/-- Without a vocabulary only the empty sentence can be encoded. -/
theorem encodeOptimized_empty {bf : Bool} (hu : Unigram.from [] unk bf = .ok u) {s : Str} {out : List Str}
    (h : u.encodeOptimized s = .ok out) : s = [] ∧ out = [] := by
  cases s with
  | nil => cases h; exact ⟨rfl, rfl⟩
  | cons c cs =>
    exfalso
    have hmade := made_of_from hu
    have hunk : unk = none := by
      cases hk : unk with
      | none => rfl
      | some k => have := hmade.unk_lt k hk; simp at this
    obtain ⟨ms, h1, h2⟩ := hmade.lookups_spec (c :: cs)
    have : ms = [] := by
      cases ms with
      | nil => rfl
      | cons x ms =>
        obtain ⟨n, i, sc⟩ := x
        obtain ⟨t, -, -, -, hl, -⟩ := (h2 n i sc).1 (by simp)
        simp at hl
    subst this
    simp [encodeOptimized, optLoop, h1, edgesAt, relaxAll, relax, hmade.unk_eq, hunk, Cell.default] at h

/-- **C23.** The pieces concatenate to the sentence. -/
theorem C23_concat {bf : Bool} (hu : Unigram.from vocab unk bf = .ok u) {s : Str} {out : List Str}
    (h : u.encodeOptimized s = .ok out) : out.flatten = s := by
  by_cases hv : vocab = []
  · subst hv
    obtain ⟨rfl, rfl⟩ := encodeOptimized_empty hu h
    rfl
  · obtain ⟨xs, hs, -, rfl⟩ := C23_optimal hu (minOf_isMin hv) h
    rw [fuse_flatten]
    simpa [Function.comp_def] using hs.1

/-! ### Concrete cases -/

/-- A vocabulary with overlapping entries, an unused unknown entry and a duplicate. -/
def sampleVocab : List (Str × Rat) :=
  [("<unk>".toList, 0), ("a".toList, -1), ("b".toList, -2), ("ab".toList, -4), ("é".toList, -3),
   ("ab".toList, -2)]

/-- `"abxyé"`: `ab` (its last score wins), the fused unknown `xy`, `é`. -/
example : ∃ u, Unigram.from sampleVocab (some 0) false = .ok u ∧
    u.encodeOptimized "abxyé".toList = .ok ["ab".toList, "xy".toList, "é".toList] :=
  ⟨_, rfl, by decide +kernel⟩

example : IsMinScore sampleVocab (-4) := ⟨⟨"ab".toList, by decide⟩, by decide⟩

/-- The exact claim fails without an unknown id: `"ab"` is in the vocabulary, so it has a segmentation
without unknown pieces, but `a` alone is not and encoding reports a missing unknown id. -/
theorem C23_missing_unk_id_although_segmentable :
    ∃ u, Unigram.from [("ab".toList, -1)] none false = .ok u ∧
      Seg [("ab".toList, -1)] none (-1) "ab".toList [⟨"ab".toList, some 0, -1⟩] ∧
      u.encodeOptimized "ab".toList = .err .missingUnkId := by
  refine ⟨_, rfl, ⟨rfl, ?_⟩, by decide +kernel⟩
  intro x hx
  simp only [List.mem_singleton] at hx
  subst hx
  refine .inl ⟨by simp, 0, rfl, rfl, ?_⟩
  intro j sc hj
  cases j with
  | zero => omega
  | succ j => simp

/-- **C23, building.** A model is built exactly if the unknown id, when there is one, is an index of the vocabulary; otherwise the
error says which of the two is wrong. -/
theorem C23_built (vocab : List (Str × Rat)) (unk : Option Nat) (bf : Bool) :
    ((∃ u, Unigram.from vocab unk bf = .ok u) ↔ ∀ k, unk = some k → k < vocab.length) ∧
    (Unigram.from vocab unk bf = .error .emptyVocabulary ↔ unk ≠ none ∧ vocab = []) ∧
    (Unigram.from vocab unk bf = .error .unkIdNotInVocabulary ↔ vocab ≠ [] ∧ ∃ k, unk = some k ∧ vocab.length ≤ k) ∧
    Unigram.from vocab unk bf ≠ .error .missingUnkId := by
  unfold Unigram.from
  cases unk with
  | none => simp
  | some k =>
    cases vocab with
    | nil => simp
    | cons x l =>
      by_cases h : (x :: l).length ≤ k
      · simp only [List.length_cons] at h
        simp [h]
      · simp only [List.length_cons] at h
        simp [h]
        omega

example : ∃ u, Unigram.from sampleVocab (some 5) false = .ok u := ((C23_built _ _ _).1).2 (by rintro k ⟨⟩; decide)

end Tok.Unigram
