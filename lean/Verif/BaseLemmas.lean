import Verif.Base

namespace Tok

/-! ## slices -/

theorem slice?_eq_some {α} {l : List α} {a b : Nat} (h : a ≤ b) (h' : b ≤ l.length) :
    slice? l a b = some ((l.take b).drop a) := by
  unfold slice?; simp [h, h']

theorem slice?_some_iff {α} {l x : List α} {a b : Nat} :
    slice? l a b = some x ↔ (a ≤ b ∧ b ≤ l.length) ∧ (l.take b).drop a = x := by
  unfold slice?
  split
  · rename_i h; simp [h]
  · rename_i h; simp [h]

/-! ## association lists -/

namespace AMap
variable {K V : Type} [DecidableEq K]

theorem get_insert (m : AMap K V) (k k' : K) (v : V) :
    (m.insert k v).get k' = if k = k' then some v else m.get k' := by
  unfold insert get
  by_cases h : k = k'
  · simp [h]
  · simp only [List.find?_cons, h, decide_false, if_false]
    congr 1
    induction m with
    | nil => rfl
    | cons x xs ih =>
      by_cases hx : x.1 = k
      · have : ¬ x.1 = k' := fun h2 => h (hx ▸ h2)
        rw [List.filter_cons_of_neg (by simp [hx]), List.find?_cons_of_neg (by simpa using this)]
        exact ih
      · simp only [List.filter_cons, hx, not_false_eq_true, decide_true, if_true, List.find?_cons]
        split
        · rfl
        · exact ih

theorem mem_insert {m : AMap K V} {k : K} {v : V} {p : K × V} (h : p ∈ m.insert k v) :
    p = (k, v) ∨ p ∈ m := by
  unfold insert at h
  simp only [List.mem_cons, List.mem_filter] at h
  rcases h with h | h
  · exact .inl h
  · exact .inr h.1

theorem mem_extend {l : List (K × V)} : ∀ {m : AMap K V} {p : K × V}, p ∈ m.extend l →
    p ∈ m ∨ p ∈ l := by
  induction l with
  | nil => intro m p h; exact .inl h
  | cons x xs ih =>
    intro m p h
    have h' : p ∈ (m.insert x.1 x.2).extend xs := h
    rcases ih h' with h1 | h1
    · rcases mem_insert h1 with h2 | h2
      · right; subst h2; exact List.mem_cons_self
      · exact .inl h2
    · exact .inr (List.mem_cons_of_mem _ h1)

omit [DecidableEq K] in
theorem WF.nil : WF ([] : AMap K V) := by simp [WF]

theorem WF.insert {m : AMap K V} (h : m.WF) (k : K) (v : V) : (m.insert k v).WF := by
  unfold AMap.insert AMap.WF at *
  simp only [List.map_cons, List.nodup_cons, List.mem_map, List.mem_filter]
  constructor
  · rintro ⟨p, ⟨_, hp⟩, rfl⟩
    simp at hp
  · exact (List.Sublist.map _ List.filter_sublist).nodup h

theorem WF.extend {m : AMap K V} (h : m.WF) (l : List (K × V)) : (m.extend l).WF := by
  induction l generalizing m with
  | nil => exact h
  | cons x xs ih => exact ih (h.insert x.1 x.2)

theorem get_eq_some_of_mem {m : AMap K V} (h : m.WF) {k : K} {v : V} (hm : (k, v) ∈ m) :
    m.get k = some v := by
  induction m with
  | nil => cases hm
  | cons x xs ih =>
    unfold WF at h
    simp only [List.map_cons, List.nodup_cons] at h
    rcases List.mem_cons.1 hm with h1 | h1
    · subst h1; simp [get]
    · have : ¬ x.1 = k := by
        intro h2; apply h.1; rw [h2]; exact List.mem_map.2 ⟨_, h1, rfl⟩
      have := ih h.2 h1
      unfold get at *
      simp [*]

theorem mem_of_get_eq_some {m : AMap K V} {k : K} {v : V} (h : m.get k = some v) :
    (k, v) ∈ m := by
  unfold get at h
  rw [Option.map_eq_some_iff] at h
  obtain ⟨p, hp, rfl⟩ := h
  have h1 := List.mem_of_find?_eq_some hp
  have h2 := List.find?_some hp
  simp at h2; subst h2; exact h1

end AMap

theorem get_extend {K V} [DecidableEq K] : ∀ (l : List (K × V)) (m : AMap K V) (k : K),
    (m.extend l).get k = ((l.reverse.find? fun p => p.1 = k).map (·.2)).or (m.get k) := by
  intro l
  induction l with
  | nil => intro m k; simp [AMap.extend]
  | cons x xs ih =>
    intro m k
    have : (m.extend (x :: xs)) = (m.insert x.1 x.2).extend xs := rfl
    rw [this, ih, AMap.get_insert, List.reverse_cons, List.find?_append]
    by_cases hx : x.1 = k
    · simp [hx]
    · simp [hx]


/-! ## strings -/

@[simp] theorem blen_nil : blen [] = 0 := rfl

@[simp] theorem blen_cons (c : Char) (s : Str) : blen (c :: s) = c.utf8Size + blen s := by
  simp [blen]

@[simp] theorem blen_append (s t : Str) : blen (s ++ t) = blen s + blen t := by
  simp [blen]

theorem blen_pos {s : Str} (h : s ≠ []) : 0 < blen s := by
  cases s with
  | nil => exact absurd rfl h
  | cons c cs => have := c.utf8Size_pos; simp; omega

theorem blen_eq_zero {s : Str} : blen s = 0 ↔ s = [] := by
  constructor
  · intro h
    apply Classical.byContradiction
    intro hn; have := blen_pos hn; omega
  · rintro rfl; rfl

theorem length_strBytes (s : Str) : (strBytes s).length = blen s := by
  induction s with
  | nil => rfl
  | cons c cs ih =>
    simp only [strBytes, List.flatMap_cons, List.length_append, String.length_utf8EncodeChar, blen_cons] at *
    omega

theorem dropBytes_append (p s : Str) : dropBytes (blen p) (p ++ s) = some s := by
  induction p with
  | nil => simp [dropBytes]
  | cons c cs ih =>
    have := c.utf8Size_pos
    obtain ⟨k, hk⟩ : ∃ k, c.utf8Size + blen cs = k + 1 := ⟨c.utf8Size + blen cs - 1, by omega⟩
    rw [blen_cons, hk, List.cons_append, dropBytes, if_pos (by omega)]
    have : k + 1 - c.utf8Size = blen cs := by omega
    rw [this, ih]

theorem dropBytes_eq_some {n : Nat} {s t : Str} (h : dropBytes n s = some t) :
    ∃ p, s = p ++ t ∧ blen p = n := by
  induction s generalizing n with
  | nil =>
    cases n with
    | zero => simp [dropBytes] at h; exact ⟨[], by simp [h], rfl⟩
    | succ n => simp [dropBytes] at h
  | cons c cs ih =>
    cases n with
    | zero => simp [dropBytes] at h; exact ⟨[], by simp [h], rfl⟩
    | succ n =>
      rw [dropBytes] at h
      split at h
      · obtain ⟨p, h1, h2⟩ := ih h
        exact ⟨c :: p, by simp [h1], by simp; omega⟩
      · cases h

theorem foldl_max_le (l : List Nat) (k n : Nat) (h : n ∈ l ∨ n ≤ k) : n ≤ l.foldl max k := by
  induction l generalizing k with
  | nil =>
    rcases h with h | h
    · cases h
    · exact h
  | cons x xs ih =>
    rw [List.foldl_cons]
    apply ih
    rcases h with h | h
    · rcases List.mem_cons.1 h with rfl | h
      · right; omega
      · left; exact h
    · right; omega

end Tok
