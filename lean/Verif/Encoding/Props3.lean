import Verif.Encoding.Props2

/-!
# Properties of sequence ranges and lookups (C06, C07)
-/

namespace Tok
open Encoding

/-! ## C06 -/

/-- No two different sequences claim the same token. -/
def RangesDisjoint (e : Encoding) : Prop :=
  ∀ q₁ r₁ q₂ r₂, (q₁, r₁) ∈ e.seqRanges → (q₂, r₂) ∈ e.seqRanges →
    ∀ t, r₁.1 ≤ t → t < r₁.2 → r₂.1 ≤ t → t < r₂.2 → q₁ = q₂

/-- **C06 (lookup).** For an encoding made of labelled sequences, a token belongs to the sequence
whose range holds it, and to none if no range does (special tokens, padding, or past the end).
The answer does not depend on the order in which the map of ranges is walked. -/
theorem C06_token_to_sequence_partial {e : Encoding} (h : e.WF) (hd : RangesDisjoint e)
    (hne : e.seqRanges ≠ []) (t q : Nat) :
    e.tokenToSequence t = some q ↔ ∃ r, (q, r) ∈ e.seqRanges ∧ r.1 ≤ t ∧ t < r.2 := by
  unfold tokenToSequence
  have hr := h.ranges
  have he : e.seqRanges.isEmpty = false := by simpa using hne
  rw [he]
  simp only [Bool.false_eq_true, if_false]
  constructor
  · intro hq
    split at hq
    · cases hq
    · obtain ⟨x, hx, hx'⟩ := List.exists_of_findSome?_eq_some hq
      split at hx'
      · rename_i hc
        cases hx'
        exact ⟨x.2, hx, hc⟩
      · cases hx'
  · rintro ⟨r, hm, h1, h2⟩
    have := hr q r hm
    rw [if_neg (by unfold len; omega)]
    cases hf : e.seqRanges.findSome?
        (fun (x : Nat × Range) => if x.2.1 ≤ t ∧ t < x.2.2 then some x.1 else none) with
    | none =>
      have := List.findSome?_eq_none_iff.1 hf (q, r) hm
      simp [h1, h2] at this
    | some q' =>
      obtain ⟨x, hx, hx'⟩ := List.exists_of_findSome?_eq_some hf
      split at hx'
      · rename_i hc
        cases hx'
        have := hd x.1 x.2 q r hx hm t hc.1 hc.2 h1 h2
        rw [this]
      · cases hx'

/-- Positions of labelled sequences laid out one after the other from position `n`. -/
def layout : Nat → List (Nat × Encoding) → List (Nat × Range)
  | _, [] => []
  | n, (q, e) :: rest => (q, (n, n + e.len)) :: layout (n + e.len) rest

theorem mergeWith_len (e p : Encoding) (g : Bool) : (e.mergeWith p g).len = e.len + p.len := by
  rw [mergeWith_eq]
  show (e.ids ++ p.ids).length = _
  simp [len]

theorem mergeWith_seqRanges (e p : Encoding) (g : Bool) : (e.mergeWith p g).seqRanges =
    e.seqRanges.extend (p.seqRanges.map fun x => (x.1, (e.len + x.2.1, e.len + x.2.2))) := by
  rw [mergeWith_eq]; rfl

theorem setSequenceId_len (e : Encoding) (q : Nat) : (e.setSequenceId q).len = e.len := by
  cases e; rfl

theorem setSequenceId_seqRanges (e : Encoding) (q : Nat) (h : e.seqRanges = []) :
    (e.setSequenceId q).seqRanges = [(q, (0, e.len))] := by
  cases e
  simp only [seqRanges_mk] at h; subst h
  rfl

theorem mem_insert_iff {K V} [DecidableEq K] {m : AMap K V} {k : K} {v : V}
    (hk : ∀ p ∈ m, p.1 ≠ k) (p : K × V) : p ∈ m.insert k v ↔ p = (k, v) ∨ p ∈ m := by
  unfold AMap.insert
  rw [List.mem_cons, List.filter_eq_self.2 (by simpa using hk)]

theorem merge_labelled_aux (g : Bool) : ∀ (l : List (Nat × Encoding)) (acc : Encoding),
    (∀ x ∈ l, x.2.seqRanges = []) → (l.map (·.1)).Nodup →
    (∀ p ∈ acc.seqRanges, p.1 ∉ l.map (·.1)) →
    ∀ p, p ∈ ((l.map fun x => x.2.setSequenceId x.1).foldl
        (fun acc s => acc.mergeWith s g) acc).seqRanges ↔
      p ∈ acc.seqRanges ∨ p ∈ layout acc.len l := by
  intro l
  induction l with
  | nil => intro acc _ _ _ p; simp [layout]
  | cons x xs ih =>
    intro acc hs hnd hdis p
    simp only [List.map_cons, List.nodup_cons] at hnd
    rw [List.map_cons, List.foldl_cons]
    have hx := hs x List.mem_cons_self
    have hsr : (acc.mergeWith (x.2.setSequenceId x.1) g).seqRanges =
        acc.seqRanges.insert x.1 (acc.len, acc.len + x.2.len) := by
      rw [mergeWith_seqRanges, setSequenceId_seqRanges _ _ hx]; rfl
    have hk : ∀ p ∈ acc.seqRanges, p.1 ≠ x.1 := by
      intro p hp h; exact hdis p hp (by rw [h]; simp)
    rw [ih]
    · rw [hsr, mem_insert_iff hk, mergeWith_len, setSequenceId_len, layout, List.mem_cons]
      constructor
      · rintro ((h | h) | h)
        · exact .inr (.inl h)
        · exact .inl h
        · exact .inr (.inr h)
      · rintro (h | h | h)
        · exact .inl (.inr h)
        · exact .inl (.inl h)
        · exact .inr h
    · exact fun y hy => hs y (List.mem_cons_of_mem _ hy)
    · exact hnd.2
    · intro p hp
      rw [hsr, mem_insert_iff hk] at hp
      rcases hp with rfl | hp
      · exact hnd.1
      · have := hdis p hp
        simp at this ⊢
        exact this.2

theorem layout_bounds : ∀ (l : List (Nat × Encoding)) (n : Nat) (p), p ∈ layout n l →
    n ≤ p.2.1 ∧ p.1 ∈ l.map (·.1) := by
  intro l
  induction l with
  | nil => intro n p h; cases h
  | cons x xs ih =>
    intro n p h
    rw [layout, List.mem_cons] at h
    rcases h with rfl | h
    · simp
    · have := ih _ _ h
      simp at this ⊢
      exact ⟨by omega, .inr this.2⟩

theorem layout_disjoint : ∀ (l : List (Nat × Encoding)) (n : Nat) (p₁ p₂),
    p₁ ∈ layout n l → p₂ ∈ layout n l → ∀ t, p₁.2.1 ≤ t → t < p₁.2.2 → p₂.2.1 ≤ t → t < p₂.2.2 →
    p₁.1 = p₂.1 := by
  intro l
  induction l with
  | nil => intro n p₁ p₂ h; cases h
  | cons x xs ih =>
    intro n p₁ p₂ h1 h2 t a b c d
    rw [layout, List.mem_cons] at h1 h2
    rcases h1 with rfl | h1 <;> rcases h2 with rfl | h2
    · rfl
    · have := (layout_bounds _ _ _ h2).1
      simp at *; omega
    · have := (layout_bounds _ _ _ h1).1
      simp at *; omega
    · exact ih _ _ _ h1 h2 t a b c d

theorem layout_mem_split (l₁ : List (Nat × Encoding)) (q : Nat) (e : Encoding) (l₂ n) :
    (q, (n + (l₁.map fun x => x.2.len).sum, n + (l₁.map fun x => x.2.len).sum + e.len)) ∈
      layout n (l₁ ++ (q, e) :: l₂) := by
  induction l₁ generalizing n with
  | nil => simp [layout]
  | cons x xs ih =>
    rw [List.cons_append, layout, List.mem_cons]
    right
    have := ih (n + x.2.len)
    simp only [List.map_cons, List.sum_cons]
    rw [← Nat.add_assoc]; exact this

/-- Total number of tokens of some labelled encodings. -/
def totalLen (l : List (Nat × Encoding)) : Nat := (l.map fun x => x.2.len).sum

/-- **C06 (merge).** When encodings labelled with distinct sequence ids are merged, the sequence with
id `q` occupies exactly the positions of its own tokens in the concatenation; `token_to_sequence`
returns `q` for precisely those positions. -/
theorem C06_merge_sequences (l₁ l₂ : List (Nat × Encoding)) (q : Nat) (e : Encoding) (g : Bool)
    (hwf : ∀ x ∈ l₁ ++ (q, e) :: l₂, x.2.WF ∧ x.2.seqRanges = [])
    (hnd : ((l₁ ++ (q, e) :: l₂).map (·.1)).Nodup) :
    let m := merge ((l₁ ++ (q, e) :: l₂).map fun x => x.2.setSequenceId x.1) g
    m.sequenceRange q = (totalLen l₁, totalLen l₁ + e.len) ∧
    ∀ t, m.tokenToSequence t = some q ↔ totalLen l₁ ≤ t ∧ t < totalLen l₁ + e.len := by
  intro m
  have hmem : ∀ p, p ∈ m.seqRanges ↔ p ∈ layout 0 (l₁ ++ (q, e) :: l₂) := by
    intro p
    have := merge_labelled_aux g (l₁ ++ (q, e) :: l₂) empty (fun x hx => (hwf x hx).2) hnd
      (by intro p hp; cases hp) p
    rw [show m.seqRanges = (((l₁ ++ (q, e) :: l₂).map fun x => x.2.setSequenceId x.1).foldl
        (fun acc s => acc.mergeWith s g) empty).seqRanges from rfl, this]
    constructor
    · rintro (h | h)
      · cases h
      · exact h
    · exact .inr
  have hreach : m.WF := by
    have : ∀ (l : List Encoding) (acc : Encoding), acc.WF → (∀ e ∈ l, WF e) →
        (l.foldl (fun acc s => acc.mergeWith s g) acc).WF := by
      intro l
      induction l with
      | nil => intro acc h _; exact h
      | cons x xs ih =>
        intro acc h hx
        exact ih _ (mergeWith_wf g _ _ _ (Nat.le_refl _) h (hx x List.mem_cons_self))
          (fun y hy => hx y (List.mem_cons_of_mem _ hy))
    refine this _ _ empty_wf ?_
    intro x hx
    obtain ⟨y, hy, rfl⟩ := List.mem_map.1 hx
    obtain ⟨h1, h2⟩ := hwf y hy
    have hp := h1.parallel
    have ho := h1.over
    cases hy' : y.2
    rw [hy'] at hp ho h2
    refine .intro _ hp ?_ ho
    intro q' r hm
    rw [setSequenceId_seqRanges _ _ h2, List.mem_singleton] at hm
    cases hm
    simp [len, setSequenceId]
  have hq : (q, (totalLen l₁, totalLen l₁ + e.len)) ∈ m.seqRanges := by
    rw [hmem]
    have := layout_mem_split l₁ q e l₂ 0
    simpa [totalLen] using this
  have hkeys : ∀ (l : List (Nat × Encoding)) n r₁ r₂ q', (l.map (·.1)).Nodup →
      (q', r₁) ∈ layout n l → (q', r₂) ∈ layout n l → r₁ = r₂ := by
    intro l
    induction l with
    | nil => intro n r₁ r₂ q' _ h; cases h
    | cons x xs ih =>
      intro n r₁ r₂ q' hnd h1 h2
      simp only [List.map_cons, List.nodup_cons] at hnd
      rw [layout, List.mem_cons] at h1 h2
      rcases h1 with h1 | h1 <;> rcases h2 with h2 | h2
      · cases h1; cases h2; rfl
      · cases h1; exact absurd (layout_bounds _ _ _ h2).2 hnd.1
      · cases h2; exact absurd (layout_bounds _ _ _ h1).2 hnd.1
      · exact ih _ _ _ _ hnd.2 h1 h2
  refine ⟨?_, ?_⟩
  · unfold sequenceRange
    cases hg : m.seqRanges.get q with
    | none =>
      unfold AMap.get at hg
      rw [Option.map_eq_none_iff, List.find?_eq_none] at hg
      exact absurd (decide_eq_true rfl) (hg _ hq)
    | some r =>
      have hr := AMap.mem_of_get_eq_some hg
      rw [hmem] at hr hq
      exact hkeys _ _ _ _ _ hnd hr hq
  · intro t
    rw [C06_token_to_sequence_partial hreach]
    · constructor
      · rintro ⟨r, hr, h1, h2⟩
        rw [hmem] at hr hq
        have := hkeys _ _ _ _ _ hnd hr hq
        subst this; exact ⟨h1, h2⟩
      · rintro ⟨h1, h2⟩; exact ⟨_, hq, h1, h2⟩
    · intro q₁ r₁ q₂ r₂ h1 h2 t a b c d
      exact layout_disjoint _ 0 _ _ ((hmem _).1 h1) ((hmem _).1 h2) t a b c d
    · intro h0; rw [h0] at hq; cases hq

example : ∃ l₁ l₂ : List (Nat × Encoding), ∃ e : Encoding,
    (∀ x ∈ l₁ ++ (1, e) :: l₂, x.2.WF ∧ x.2.seqRanges = []) ∧
    ((l₁ ++ (1, e) :: l₂).map (·.1)).Nodup ∧ totalLen l₁ = 3 ∧ e.len = 3 :=
  ⟨[(0, sampleEnc)], [], sampleEnc, by
    intro x hx
    simp at hx
    rcases hx with rfl | rfl <;> exact ⟨C01_reachable_wf (.tokens _ _), rfl⟩, by decide, rfl, rfl⟩

/-- **C06 (finding).** `token_to_sequence` answers for one position past the end of an encoding
without recorded ranges. -/
theorem C06_off_by_one (e : Encoding) (h : e.seqRanges = []) : e.tokenToSequence e.len = some 0 := by
  unfold tokenToSequence
  simp [h]

/-! ## C07 -/

theorem sequenceRange_inside {e : Encoding} (h : e.WF) (q : Nat) :
    (e.sequenceRange q).1 ≤ (e.sequenceRange q).2 ∧ (e.sequenceRange q).2 ≤ e.len := by
  unfold sequenceRange
  cases hg : e.seqRanges.get q with
  | none => simp
  | some r => exact h.ranges q r (AMap.mem_of_get_eq_some hg)

/-- **C07 (char to token).** `char_to_token` returns the first token of the sequence whose offsets
contain the position. -/
theorem C07_char_to_token {e : Encoding} (h : e.WF) (pos q t : Nat) :
    e.charToToken pos q = some t ↔
      (e.sequenceRange q).1 ≤ t ∧ t < (e.sequenceRange q).2 ∧
      (∃ o, e.offsets[t]? = some o ∧ o.1 ≤ pos ∧ pos < o.2) ∧
      (∀ u, (e.sequenceRange q).1 ≤ u → u < t →
        ∀ o, e.offsets[u]? = some o → ¬ (o.1 ≤ pos ∧ pos < o.2)) := by
  have hin := sequenceRange_inside h q
  have hlen := h.parallel.2.2.2.1
  unfold charToToken
  unfold len at hin
  simp only
  generalize e.sequenceRange q = r at *
  rw [slice?_eq_some hin.1 (by omega)]
  simp only [Option.map_eq_some_iff]
  constructor
  · rintro ⟨i, hi, rfl⟩
    rw [List.findIdx?_eq_some_iff_getElem] at hi
    obtain ⟨hlt, hp, hbefore⟩ := hi
    simp only [List.length_drop, List.length_take] at hlt
    simp only [List.getElem_drop, List.getElem_take, decide_eq_true_eq] at hp
    refine ⟨by omega, by omega, ⟨e.offsets[r.1 + i]'(by omega), ?_, hp⟩, ?_⟩
    · rw [List.getElem?_eq_getElem]
    · intro u hu hut o ho
      have := hbefore (u - r.1) (by omega)
      simp only [List.getElem_drop, List.getElem_take, decide_eq_true_eq] at this
      rw [List.getElem?_eq_some_iff] at ho
      obtain ⟨hul, rfl⟩ := ho
      have e1 : r.1 + (u - r.1) = u := by omega
      simp only [e1] at this
      exact this
  · rintro ⟨h1, h2, ⟨o, ho, hp⟩, hb⟩
    refine ⟨t - r.1, ?_, by omega⟩
    rw [List.getElem?_eq_some_iff] at ho
    obtain ⟨hul, rfl⟩ := ho
    rw [List.findIdx?_eq_some_iff_getElem]
    have e1 : r.1 + (t - r.1) = t := by omega
    refine ⟨by simp only [List.length_drop, List.length_take]; omega, ?_, ?_⟩
    · simp only [List.getElem_drop, List.getElem_take, decide_eq_true_eq, e1]; exact hp
    · intro j hj
      simp only [List.getElem_drop, List.getElem_take, decide_eq_true_eq]
      exact hb (r.1 + j) (by omega) (by omega) _ (by rw [List.getElem?_eq_getElem])

/-- **C07 (consistency).** The token found for a character really covers it: asking back for its
characters gives offsets containing the position. -/
theorem C07_char_token_roundtrip {e : Encoding} (h : e.WF) {pos q t q' : Nat} {o : Range}
    (h1 : e.charToToken pos q = some t) (h2 : e.tokenToChars t = some (q', o)) :
    o.1 ≤ pos ∧ pos < o.2 := by
  obtain ⟨_, _, ⟨o', ho', hp⟩, _⟩ := (C07_char_to_token h pos q t).1 h1
  unfold tokenToChars at h2
  rw [ho'] at h2
  cases hs : e.tokenToSequence t with
  | none => rw [hs] at h2; cases h2
  | some q'' => rw [hs] at h2; cases h2; exact hp

/-- The word ids inside the range are non-decreasing (missing ones aside): the state of any encoding
produced by a pre-tokenizer. -/
def WordsSorted (e : Encoding) (r : Range) : Prop :=
  ∀ i j a b, r.1 ≤ i → i < j → j < r.2 → e.words[i]? = some (some a) → e.words[j]? = some (some b) →
    a ≤ b

theorem foldl_wordStep_some : ∀ (l : List Nat) (s t : Nat), s < t → (∀ i ∈ l, t ≤ i) →
    l.Pairwise (· < ·) →
    l.foldl wordStep (some s, some t) = (some s, some (l.getLast?.elim t (· + 1))) := by
  intro l
  induction l with
  | nil => intro s t _ _ _; rfl
  | cons x xs ih =>
    intro s t hst hb hp
    have hx := hb x List.mem_cons_self
    rw [List.pairwise_cons] at hp
    have : wordStep (some s, some t) x = (some s, some (x + 1)) := by
      unfold wordStep
      simp; omega
    rw [List.foldl_cons, this, ih s (x + 1) (by omega) (fun i hi => hp.1 i hi) hp.2]
    cases xs with
    | nil => rfl
    | cons y ys => simp [List.getLast?_cons]

theorem foldl_wordStep (l : List Nat) (hp : l.Pairwise (· < ·)) :
    l.foldl wordStep (none, none) =
      match l with
      | [] => (none, none)
      | x :: xs => (some x, some (xs.getLast?.elim (x + 1) (· + 1))) := by
  cases l with
  | nil => rfl
  | cons x xs =>
    rw [List.pairwise_cons] at hp
    have : wordStep (none, none) x = (some x, some (x + 1)) := by
      unfold wordStep; simp
    rw [List.foldl_cons, this, foldl_wordStep_some xs x (x + 1) (by omega) (fun i hi => hp.1 i hi) hp.2]

theorem filter_takeWhile {α} (p f : α → Bool) : ∀ (l : List α),
    (∀ (i j : Nat) x y, i < j → l[i]? = some x → l[j]? = some y → f y = true → p x = true) →
    (∀ x, f x = true → p x = true) →
    (l.takeWhile p).filter f = l.filter f := by
  intro l
  induction l with
  | nil => intro _ _; rfl
  | cons a as ih =>
    intro h hf
    by_cases hp : p a = true
    · rw [List.takeWhile_cons_of_pos hp]
      have := ih (fun i j x y hij hx hy => h (i + 1) (j + 1) x y (by omega) (by simpa) (by simpa)) hf
      simp only [List.filter_cons, this]
    · rw [List.takeWhile_cons_of_neg hp]
      symm
      rw [List.filter_nil, List.filter_eq_nil_iff]
      intro y hy hfy
      rcases List.mem_cons.1 hy with rfl | hy
      · exact hp (hf _ hfy)
      · obtain ⟨j, hj, rfl⟩ := List.mem_iff_getElem.1 hy
        exact hp (h 0 (j + 1) a _ (by omega) rfl (by simp) hfy)

theorem zipIdx_filter_sorted {α} (f : α × Nat → Bool) (l : List α) (n : Nat) :
    (((l.zipIdx n).filter f).map (·.2)).Pairwise (· < ·) := by
  have h : ((l.zipIdx n).map (·.2)).Pairwise (· < ·) := by
    rw [List.zipIdx_map_snd]; exact List.pairwise_lt_range'
  exact h.sublist (List.Sublist.map _ List.filter_sublist)

/-- **C07 (word to tokens).** For word ids in order, `word_to_tokens` returns the smallest interval
holding every token of the word: it starts and ends with a token of the word, and all the tokens of
the word in this sequence lie inside. -/
theorem C07_word_to_tokens {e : Encoding} (h : e.WF) (w q s t : Nat)
    (hs : WordsSorted e (e.sequenceRange q)) (hst : e.wordToTokens w q = some (s, t)) :
    (e.sequenceRange q).1 ≤ s ∧ s < t ∧ t ≤ (e.sequenceRange q).2 ∧
    e.words[s]? = some (some w) ∧ e.words[t - 1]? = some (some w) ∧
    (∀ i, (e.sequenceRange q).1 ≤ i → i < (e.sequenceRange q).2 → e.words[i]? = some (some w) →
      s ≤ i ∧ i < t) := by
  have hin := sequenceRange_inside h q
  have hlen := h.parallel.2.2.1
  unfold len at hin
  unfold wordToTokens at hst
  simp only at hst
  generalize e.sequenceRange q = r at *
  rw [slice?_eq_some hin.1 (by omega)] at hst
  simp only at hst
  generalize hL : ((e.words.take r.2).drop r.1) = L at *
  have hget : ∀ i : Nat, L[i]? = if r.1 + i < r.2 then e.words[r.1 + i]? else none := by
    intro i; rw [← hL, List.getElem?_drop, List.getElem?_take]
  rw [filter_takeWhile] at hst
  · have hsorted := zipIdx_filter_sorted (fun p => decide (p.1 = some w)) L 0
    have hmem : ∀ i, i ∈ ((L.zipIdx.filter fun p => decide (p.1 = some w)).map (·.2)) ↔
        L[i]? = some (some w) := by
      intro i
      simp only [List.mem_map, List.mem_filter, decide_eq_true_eq, Prod.exists, exists_eq_right]
      simp only [List.mem_zipIdx_iff_getElem?]
    generalize ((L.zipIdx.filter fun p => decide (p.1 = some w)).map (·.2)) = I at *
    rw [foldl_wordStep I hsorted] at hst
    cases I with
    | nil => simp at hst
    | cons x xs =>
      simp only [Option.some.injEq, Prod.mk.injEq] at hst
      obtain ⟨hs1, ht1⟩ := hst
      rw [List.pairwise_cons] at hsorted
      have hmemr : ∀ i, i ∈ x :: xs → r.1 + i < r.2 ∧ e.words[r.1 + i]? = some (some w) := by
        intro i hi
        have := (hmem i).1 hi
        rw [hget] at this
        split at this
        · exact ⟨by assumption, this⟩
        · cases this
      -- the last index
      obtain ⟨y, hy, hyl, hylast⟩ : ∃ y, y ∈ x :: xs ∧
          xs.getLast?.elim (x + 1) (· + 1) = y + 1 ∧ ∀ i ∈ x :: xs, i ≤ y := by
        cases hl : xs.getLast? with
        | none =>
          simp at hl; subst hl
          exact ⟨x, by simp, rfl, by simp⟩
        | some y =>
          obtain ⟨ys, rfl⟩ := List.getLast?_eq_some_iff.1 hl
          refine ⟨y, by simp, rfl, ?_⟩
          intro i hi
          rcases List.mem_cons.1 hi with rfl | hi
          · exact Nat.le_of_lt (hsorted.1 y (by simp))
          · rcases List.mem_append.1 hi with hi | hi
            · exact Nat.le_of_lt ((List.pairwise_append.1 hsorted.2).2.2 i hi y (by simp))
            · simp at hi; omega
      have hx' := hmemr x (by simp)
      have hy' := hmemr y hy
      have hxy := hylast x (by simp)
      rw [hyl] at ht1
      subst hs1 ht1
      refine ⟨by omega, by omega, by omega, hx'.2, ?_, ?_⟩
      · have : r.1 + (y + 1) - 1 = r.1 + y := by omega
        rw [this]; exact hy'.2
      · intro i h1 h2 h3
        have : i - r.1 ∈ x :: xs := by
          rw [hmem, hget]
          have : r.1 + (i - r.1) = i := by omega
          rw [this, if_pos h2]; exact h3
        have h5 := hylast _ this
        have h6 : x ≤ i - r.1 := by
          rcases List.mem_cons.1 this with h6 | h6
          · omega
          · exact Nat.le_of_lt (hsorted.1 _ h6)
        omega
  · intro i j a b hij ha hb hfb
    rw [List.getElem?_zipIdx] at ha hb
    simp only [Option.map_eq_some_iff] at ha hb
    obtain ⟨a', ha', rfl⟩ := ha
    obtain ⟨b', hb', rfl⟩ := hb
    simp only [decide_eq_true_eq] at hfb
    subst hfb
    cases a' with
    | none => rfl
    | some a'' =>
      rw [hget] at ha' hb'
      split at hb'
      · split at ha'
        · have := hs (r.1 + i) (r.1 + j) a'' w (by omega) (by omega) (by omega) ha' hb'
          simp [optLe, this]
        · cases ha'
      · cases hb'
  · rintro ⟨a, n⟩ ha
    simp only [decide_eq_true_eq] at ha
    subst ha; simp [optLe]

/-- **C07 (word to tokens, absent).** `none` is returned only if no token of the sequence has the word. -/
theorem C07_word_to_tokens_none {e : Encoding} (h : e.WF) (w q : Nat)
    (hs : WordsSorted e (e.sequenceRange q)) (hst : e.wordToTokens w q = none) :
    ∀ i, (e.sequenceRange q).1 ≤ i → i < (e.sequenceRange q).2 → e.words[i]? ≠ some (some w) := by
  have hin := sequenceRange_inside h q
  have hlen := h.parallel.2.2.1
  unfold len at hin
  unfold wordToTokens at hst
  simp only at hst
  generalize e.sequenceRange q = r at *
  rw [slice?_eq_some hin.1 (by omega)] at hst
  simp only at hst
  generalize hL : ((e.words.take r.2).drop r.1) = L at *
  have hget : ∀ i : Nat, L[i]? = if r.1 + i < r.2 then e.words[r.1 + i]? else none := by
    intro i; rw [← hL, List.getElem?_drop, List.getElem?_take]
  rw [filter_takeWhile] at hst
  · have hsorted := zipIdx_filter_sorted (fun p => decide (p.1 = some w)) L 0
    intro i h1 h2 h3
    have hmem : i - r.1 ∈ ((L.zipIdx.filter fun p => decide (p.1 = some w)).map (·.2)) := by
      simp only [List.mem_map, List.mem_filter, decide_eq_true_eq, Prod.exists, exists_eq_right]
      simp only [List.mem_zipIdx_iff_getElem?]
      have : r.1 + (i - r.1) = i := by omega
      rw [hget, this, if_pos h2]; exact h3
    generalize ((L.zipIdx.filter fun p => decide (p.1 = some w)).map (·.2)) = I at *
    rw [foldl_wordStep I hsorted] at hst
    cases I with
    | nil => cases hmem
    | cons x xs => simp at hst
  · intro i j a b hij ha hb hfb
    rw [List.getElem?_zipIdx] at ha hb
    simp only [Option.map_eq_some_iff] at ha hb
    obtain ⟨a', ha', rfl⟩ := ha
    obtain ⟨b', hb', rfl⟩ := hb
    simp only [decide_eq_true_eq] at hfb
    subst hfb
    cases a' with
    | none => rfl
    | some a'' =>
      rw [hget] at ha' hb'
      split at hb'
      · split at ha'
        · have := hs (r.1 + i) (r.1 + j) a'' w (by omega) (by omega) (by omega) ha' hb'
          simp [optLe, this]
        · cases ha'
      · cases hb'
  · rintro ⟨a, n⟩ ha
    simp only [decide_eq_true_eq] at ha
    subst ha; simp [optLe]

/-- **C07 (word to chars).** Never panics; goes from the start of the first to the end of the last
token of the word. -/
theorem C07_word_to_chars {e : Encoding} (h : e.WF) (w q : Nat)
    (hs : WordsSorted e (e.sequenceRange q)) :
    e.wordToChars w q = some none ∧ e.wordToTokens w q = none ∨
    ∃ s t a b, e.wordToTokens w q = some (s, t) ∧ e.offsets[s]? = some a ∧
      e.offsets[t - 1]? = some b ∧ e.wordToChars w q = some (some (a.1, b.2)) := by
  unfold wordToChars
  cases hst : e.wordToTokens w q with
  | none => left; simp
  | some p =>
    obtain ⟨s, t⟩ := p
    right
    have hin := sequenceRange_inside h q
    have hlen := h.parallel.2.2.2.1
    unfold len at hin
    obtain ⟨h1, h2, h3, _⟩ := C07_word_to_tokens h w q s t hs hst
    refine ⟨s, t, e.offsets[s]'(by omega), e.offsets[t - 1]'(by omega), rfl,
      List.getElem?_eq_getElem _, List.getElem?_eq_getElem _, ?_⟩
    simp only
    rw [if_neg (by omega), List.getElem?_eq_getElem (by omega), List.getElem?_eq_getElem (by omega)]

/-- Sorted word ids with two tokens in one word. -/
def sampleWords : Encoding := fromItems
  [(1, ['a'], (0, 1), some 0, 0), (2, ['b'], (1, 2), some 0, 0), (3, ['c'], (3, 4), some 1, 0)]

example : sampleWords.WF ∧ WordsSorted sampleWords (sampleWords.sequenceRange 0) ∧
    sampleWords.wordToTokens 0 0 = some (0, 2) ∧ sampleWords.charToToken 3 0 = some 2 := by
  refine ⟨C01_reachable_wf (.items _), ?_, by decide, by decide⟩
  intro i j a b _ hij hj h1 h2
  have : (sampleWords.sequenceRange 0).2 = 3 := rfl
  have hj' : j = 1 ∨ j = 2 := by omega
  rcases hj' with rfl | rfl
  · have : i = 0 := by omega
    subst this; cases h1; cases h2; decide
  · have : i = 0 ∨ i = 1 := by omega
    rcases this with rfl | rfl <;> (cases h1; cases h2; decide)

end Tok
