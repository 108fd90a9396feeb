import Verif.Regex.Fixed

/-!
# C71: the words of a text in two parts
-/

namespace Tok
namespace Re

open NS PreTokenizer

/-- The text does not end with a space. -/
def SolidEnd (u : ReTables) (s : Str) : Prop := ∀ c ∈ s.getLast?, kind u c ≠ .space

/-- The text does not begin with anything but a space. -/
def SpaceStart (u : ReTables) (s : Str) : Prop := ∀ c ∈ s.head?, kind u c = .space

theorem takeWhile_append_stop {p : Char → Bool} : ∀ {a b : Str}, (∀ c ∈ b.head?, p c = false) →
    (a ++ b).takeWhile p = a.takeWhile p
  | [], [], _ => rfl
  | [], c :: b, h => by
    rw [List.nil_append, List.takeWhile_cons_of_neg (by simp [h c (by simp)])]; rfl
  | c :: a, b, h => by
    rw [List.cons_append]
    by_cases hc : p c = true
    · rw [List.takeWhile_cons_of_pos hc, List.takeWhile_cons_of_pos hc, takeWhile_append_stop h]
    · rw [List.takeWhile_cons_of_neg hc, List.takeWhile_cons_of_neg hc]

theorem takeWhile_append_inner {p : Char → Bool} : ∀ {a b : Str}, (∃ c ∈ a, p c = false) →
    (a ++ b).takeWhile p = a.takeWhile p
  | [], _, h => by obtain ⟨_, h, _⟩ := h; cases h
  | c :: a, b, h => by
    rw [List.cons_append]
    by_cases hc : p c = true
    · rw [List.takeWhile_cons_of_pos hc, List.takeWhile_cons_of_pos hc, takeWhile_append_inner]
      obtain ⟨d, hd, hp⟩ := h
      rcases List.mem_cons.1 hd with rfl | hd
      · rw [hc] at hp; cases hp
      · exact ⟨d, hd, hp⟩
    · rw [List.takeWhile_cons_of_neg hc, List.takeWhile_cons_of_neg hc]

theorem contraction_append {u : ReTables} (h : u.Ok) {a b : Str} (hb : SpaceStart u b) {w : Str} (hw : w ∈ contractions) :
    w.isPrefixOf (a ++ b) = w.isPrefixOf a := by
  have : w <+: a ++ b ↔ w <+: a := by
    refine ⟨fun hp => ?_, fun hp => hp.trans (List.prefix_append a b)⟩
    obtain ⟨x, hx⟩ := hp
    rcases List.append_eq_append_iff.1 hx with ⟨y, h1, _⟩ | ⟨y, h1, h2⟩
    · exact ⟨y, h1.symm⟩
    · cases y with
      | nil => rw [h1, List.append_nil]; exact List.prefix_refl a
      | cons d y =>
        exfalso
        refine contraction_solid h hw d (by rw [h1]; simp) (hb d ?_)
        rw [h2]; rfl
  have e : ∀ s, w.isPrefixOf s = decide (w <+: s) := by
    intro s
    cases hp : w.isPrefixOf s with
    | true => simp [List.isPrefixOf_iff_prefix.1 hp]
    | false =>
      have : ¬ w <+: s := fun hn => by rw [List.isPrefixOf_iff_prefix.2 hn] at hp; cases hp
      simp [this]
  rw [e, e]
  simp [this]

theorem find_congr {p q : Str → Bool} : ∀ {l : List Str}, (∀ w ∈ l, p w = q w) → l.find? p = l.find? q
  | [], _ => rfl
  | w :: l, h => by
    rw [List.find?_cons, List.find?_cons, h w (by simp), find_congr fun v hv => h v (by simp [hv])]

theorem sameRun_append {u : ReTables} {a b : Str} (ha : a ≠ [])
    (h : (∃ c ∈ a, ∀ d ∈ a.head?, kind u c ≠ kind u d) ∨ ∀ c ∈ b.head?, ∀ d ∈ a.head?, kind u c ≠ kind u d) :
    sameRun u (a ++ b) = sameRun u a := by
  cases a with
  | nil => exact absurd rfl ha
  | cons c a =>
    rw [List.cons_append, sameRun, sameRun]
    congr 1
    rcases h with ⟨e, he, h⟩ | h
    · have hk := h c rfl
      refine takeWhile_append_inner ⟨e, ?_, by simpa using hk⟩
      rcases List.mem_cons.1 he with rfl | he
      · exact absurd rfl hk
      · exact he
    · exact takeWhile_append_stop fun e he => by simpa using h e he c rfl

theorem solidEnd_mem {u : ReTables} {a : Str} (ha : a ≠ []) (h : SolidEnd u a) : ∃ c ∈ a, kind u c ≠ .space :=
  ⟨a.getLast ha, List.getLast_mem ha, h _ (by rw [List.getLast?_eq_some_getLast ha]; rfl)⟩

theorem spaceWord_append {u : ReTables} {c : Char} {a : Str} (hc : kind u c = .space) (h : ∃ d ∈ c :: a, kind u d ≠ .space)
    (b : Str) : spaceWord u (c :: a ++ b) = spaceWord u (c :: a) := by
  obtain ⟨d, hd, hk⟩ := h
  have hs : sameRun u (c :: a ++ b) = sameRun u (c :: a) := by
    refine sameRun_append (by simp) (.inl ⟨d, hd, ?_⟩)
    intro e he
    cases he
    rw [hc]; exact hk
  have hne : sameRun u (c :: a) ≠ c :: a := by
    intro e
    have := sameRun_kind (u := u) (c := c) (s := a) d (by rw [e]; exact hd)
    rw [hc] at this
    exact hk this
  have hne2 : sameRun u (c :: a) ≠ c :: a ++ b := by
    intro e
    have := sameRun_kind (u := u) (c := c) (s := a) d (by rw [e]; exact List.mem_append_left _ hd)
    rw [hc] at this
    exact hk this
  unfold spaceWord
  rw [hs]
  simp only [hne, hne2, false_or]

/-- The first word is within the first part. -/
theorem firstWord_append {u : ReTables} (h : u.Ok) {a b : Str} (ha : a ≠ []) (he : SolidEnd u a) (hb : SpaceStart u b) :
    firstWord u (a ++ b) = firstWord u a := by
  rw [firstWord.eq_def, firstWord.eq_def u a, find_congr fun w hw => contraction_append h hb hw]
  cases contractions.find? (·.isPrefixOf a) with
  | some w => rfl
  | none =>
    cases a with
    | nil => exact absurd rfl ha
    | cons c a =>
      simp only [List.cons_append]
      have hmem := solidEnd_mem ha he
      by_cases hc : kind u c = .space
      · simp only [hc, ne_eq, not_true_eq_false, if_false]
        have hane : a ≠ [] := by
          rintro rfl
          obtain ⟨d, hd, hk⟩ := hmem
          rw [List.mem_singleton] at hd
          rw [hd] at hk
          exact hk hc
        have hsol : solidStart u (a ++ b) = solidStart u a := by
          cases a with
          | nil => exact absurd rfl hane
          | cons d a => rfl
        rw [hsol]
        by_cases hx : c = ' ' ∧ solidStart u a = true
        · rw [if_pos hx, if_pos hx]
          congr 1
          refine sameRun_append hane (.inr fun d hd e he' => ?_)
          rw [hb d hd]
          cases a with
          | nil => exact absurd rfl hane
          | cons f a =>
            cases he'
            have := hx.2
            intro e'
            simp [solidStart, ← e'] at this
        · rw [if_neg hx, if_neg hx]
          exact spaceWord_append hc hmem b
      · simp only [ne_eq, hc, not_false_eq_true, if_true]
        refine sameRun_append (a := c :: a) (by simp) (.inr fun d hd e he' => ?_)
        cases he'
        rw [hb d hd]
        exact fun e' => hc e'.symm

/-- **C71.** Where a text is cut between something that is no space and a space, its words are the words of the two
parts. -/
theorem C71_append {u : ReTables} (h : u.Ok) {b : Str} (hb : SpaceStart u b) : ∀ {a : Str}, SolidEnd u a →
    words u (a ++ b) = words u a ++ words u b := by
  intro a
  refine words_induction u (P := fun a => SolidEnd u a → words u (a ++ b) = words u a ++ words u b) ?_ ?_ a
  · intro _; rfl
  · intro a ha ih he
    have h1 := firstWord_append h ha he hb
    have h2 := (firstWord_drop (u := u) ha).1
    have h3 : (a ++ b).drop (firstWord u a).length = a.drop (firstWord u a).length ++ b := by
      rw [List.drop_append_of_le_length]
      have := congrArg List.length h2
      rw [List.length_append] at this
      omega
    rw [words_cons (s := a ++ b) (by simp [ha]), h1, h3, ih, words_cons ha, List.cons_append]
    intro c hc
    refine he c ?_
    rw [h2, List.getLast?_append]
    rw [Option.mem_def] at hc
    rw [hc]; rfl

end Re
end Tok
