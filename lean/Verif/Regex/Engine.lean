import Verif.Regex.Model

/-!
# What holds for every regular expression; runs of a class; literals
-/

namespace Tok
namespace Re

open NS PreTokenizer

theorem iterate_suffix {f : Str → List Str} (hf : ∀ s, ∀ t ∈ f s, ∃ w, s = w ++ t) : ∀ (k : Nat) (s : Str),
    ∀ t ∈ iterate f k s, ∃ w, s = w ++ t
  | 0, s, t, h => by
    rw [iterate, List.mem_singleton] at h
    exact ⟨[], by rw [h]; rfl⟩
  | k + 1, s, t, h => by
    rw [iterate, List.mem_append] at h
    rcases h with h | h
    · obtain ⟨x, hx, ht⟩ := List.mem_flatMap.1 h
      obtain ⟨w, hw⟩ := hf s x (List.mem_filter.1 hx).1
      obtain ⟨v, hv⟩ := iterate_suffix hf k x t ht
      exact ⟨w ++ v, by rw [hw, hv, List.append_assoc]⟩
    · rw [List.mem_singleton] at h
      exact ⟨[], by rw [h]; rfl⟩

/-- What a match leaves is the end of the text. -/
theorem run_suffix (n : Nat) : ∀ (r : Re) (s : Str), ∀ t ∈ run n r s, ∃ w, s = w ++ t
  | .eps, s, t, h => by
    rw [run, List.mem_singleton] at h
    exact ⟨[], by rw [h]; rfl⟩
  | .cls p, [], t, h => by rw [run] at h; cases h
  | .cls p, c :: s, t, h => by
    rw [run] at h
    by_cases hp : p c = true
    · rw [if_pos hp, List.mem_singleton] at h
      exact ⟨[c], by rw [h]; rfl⟩
    · rw [if_neg hp] at h; cases h
  | .seq a b, s, t, h => by
    rw [run] at h
    obtain ⟨x, hx, ht⟩ := List.mem_flatMap.1 h
    obtain ⟨w, hw⟩ := run_suffix n a s x hx
    obtain ⟨v, hv⟩ := run_suffix n b x t ht
    exact ⟨w ++ v, by rw [hw, hv, List.append_assoc]⟩
  | .alt a b, s, t, h => by
    rw [run, List.mem_append] at h
    rcases h with h | h
    · exact run_suffix n a s t h
    · exact run_suffix n b s t h
  | .opt a, s, t, h => by
    rw [run, List.mem_append] at h
    rcases h with h | h
    · exact run_suffix n a s t h
    · rw [List.mem_singleton] at h
      exact ⟨[], by rw [h]; rfl⟩
  | .star a, s, t, h => by
    rw [run] at h
    exact iterate_suffix (run_suffix n a) _ s t h
  | .notAhead a, s, t, h => by
    rw [run] at h
    split at h
    · rw [List.mem_singleton] at h
      exact ⟨[], by rw [h]; rfl⟩
    · cases h
  | .start, s, t, h => by
    rw [run] at h
    split at h
    · rw [List.mem_singleton] at h
      exact ⟨[], by rw [h]; rfl⟩
    · cases h
  | .stop, s, t, h => by
    rw [run] at h
    split at h
    · rw [List.mem_singleton] at h
      exact ⟨[], by rw [h]; rfl⟩
    · cases h

/-- The first match: where it is, and that there is none before it. -/
theorem find_some {n : Nat} {r : Re} : ∀ {s : Str} {b : Nat} {m : Range} {t : Str}, find n r b s = some (m, t) →
    ∃ gap w, s = gap ++ w ++ t ∧ m = (b + blen gap, b + blen gap + blen w) ∧ (run n r (w ++ t)).head? = some t ∧
      ∀ x y, gap = x ++ y → y ≠ [] → run n r (y ++ w ++ t) = []
  | [], b, m, t, h => by
    rw [find] at h
    cases hr : (run n r []).head? with
    | none => rw [hr] at h; cases h
    | some t' =>
      rw [hr] at h
      simp only [Option.map_some, Option.some.injEq, Prod.mk.injEq] at h
      obtain ⟨h1, rfl⟩ := h
      obtain ⟨w, hw⟩ := run_suffix n r [] t' (List.mem_of_mem_head? (by rw [hr]; exact rfl))
      obtain ⟨rfl, rfl⟩ := List.append_eq_nil_iff.1 hw.symm
      refine ⟨[], [], rfl, by rw [← h1]; simp, hr, ?_⟩
      intro x y he hy
      exact absurd (List.append_eq_nil_iff.1 he.symm).2 hy
  | c :: s, b, m, t, h => by
    rw [find] at h
    cases hr : (run n r (c :: s)).head? with
    | some t' =>
      rw [hr] at h
      simp only [Option.some.injEq, Prod.mk.injEq] at h
      obtain ⟨h1, rfl⟩ := h
      obtain ⟨w, hw⟩ := run_suffix n r (c :: s) t' (List.mem_of_mem_head? (by rw [hr]; exact rfl))
      refine ⟨[], w, by simpa using hw, ?_, by rw [← hw]; exact hr, ?_⟩
      · rw [← h1, hw, blen_append]
        simp
      · intro x y he hy
        exact absurd (List.append_eq_nil_iff.1 he.symm).2 hy
    | none =>
      rw [hr] at h
      obtain ⟨gap, w, h1, h2, h3, h4⟩ := find_some (s := s) h
      refine ⟨c :: gap, w, by rw [h1]; simp, by rw [h2, blen_cons]; simp [Nat.add_assoc], h3, ?_⟩
      intro x y he hy
      cases x with
      | nil =>
        have he : c :: gap = y := he
        rw [← he]
        have : c :: gap ++ w ++ t = c :: s := by rw [h1]; simp
        rw [this]
        exact List.head?_eq_none_iff.1 hr
      | cons d x =>
        injection he with _ he
        exact h4 x y he hy

theorem find_none {n : Nat} {r : Re} : ∀ {s : Str} {b : Nat}, find n r b s = none → ∀ x y, s = x ++ y → run n r y = []
  | [], b, h, x, y, he => by
    obtain ⟨rfl, rfl⟩ := List.append_eq_nil_iff.1 he.symm
    rw [find, Option.map_eq_none_iff] at h
    exact List.head?_eq_none_iff.1 h
  | c :: s, b, h, x, y, he => by
    rw [find] at h
    cases hr : (run n r (c :: s)).head? with
    | some t' => rw [hr] at h; cases h
    | none =>
      rw [hr] at h
      cases x with
      | nil => have he : c :: s = y := he; rw [← he]; exact List.head?_eq_none_iff.1 hr
      | cons d x =>
        injection he with _ he
        exact find_none (s := s) h x y he

/-- The text cut at the matches: for each of them the text since the one before, and the match. No match begins earlier,
of those that begin there it is the preferred one. -/
inductive Leftmost (n : Nat) (r : Re) : Str → List (Str × Str) → Prop
  | done {s} : (∀ x y, s = x ++ y → y ≠ [] → run n r y = []) → Leftmost n r s []
  | hit {gap w t l} : (∀ x y, gap = x ++ y → y ≠ [] → run n r (y ++ w ++ t) = []) → w ≠ [] →
      (run n r (w ++ t)).head? = some t → Leftmost n r t l → Leftmost n r (gap ++ w ++ t) ((gap, w) :: l)

/-- The ranges of the matches of a text cut at its matches. -/
def rangesOf : Nat → List (Str × Str) → List Range
  | _, [] => []
  | b, (gap, w) :: l => (b + blen gap, b + blen gap + blen w) :: rangesOf (b + blen gap + blen w) l

theorem blen_pos {s : Str} (h : s ≠ []) : 0 < blen s := by
  cases s with
  | nil => exact absurd rfl h
  | cons c s =>
    rw [blen_cons]
    have := Char.utf8Size_pos c
    omega

/-- `find_iter` for a pattern that nowhere prefers the empty match. -/
theorem findFrom_leftmost {n : Nat} {r : Re} (hr : ∀ s, (run n r s).head? ≠ some s) : ∀ (k : Nat) (s : Str) (b : Nat), s.length < k →
    ∃ l, findFrom n r k b s = rangesOf b l ∧ Leftmost n r s l
  | 0, _, _, h => absurd h (Nat.not_lt_zero _)
  | k + 1, s, b, h => by
    rw [findFrom]
    cases hf : find n r b s with
    | none => exact ⟨[], rfl, .done fun x y he _ => find_none hf x y he⟩
    | some v =>
      obtain ⟨m, t⟩ := v
      obtain ⟨gap, w, h1, h2, h3, h4⟩ := find_some hf
      have hw : w ≠ [] := by
        rintro rfl
        exact hr t h3
      have hpos := blen_pos hw
      have hlen : t.length < k := by
        have : 0 < w.length := by cases w with | nil => exact absurd rfl hw | cons _ _ => simp
        rw [h1] at h
        simp only [List.length_append] at h
        omega
      obtain ⟨l, g1, g2⟩ := findFrom_leftmost hr k t (b + blen gap + blen w) hlen
      have hm : m.1 < m.2 := by rw [h2]; show _ < _; omega
      refine ⟨(gap, w) :: l, ?_, ?_⟩
      · show (if m.1 < m.2 then m :: findFrom n r k m.2 t else _) = _
        rw [if_pos hm, h2]
        exact congrArg (List.cons _) g1
      · rw [h1]; exact .hit h4 hw h3 g2

/-- **C71.** The matches of `find_iter` are in order, do not overlap, and are on character boundaries, for every regular
expression. -/
theorem findFrom_engine {n : Nat} {r : Re} (whole : Str) : ∀ (k : Nat) (s pre : Str), whole = pre ++ s →
    EngineMatches whole (blen pre) (findFrom n r k (blen pre) s)
  | 0, _, _, _ => trivial
  | k + 1, s, pre, h => by
    rw [findFrom]
    cases hf : find n r (blen pre) s with
    | none => trivial
    | some v =>
      obtain ⟨m, t⟩ := v
      obtain ⟨gap, w, h1, h2, _, _⟩ := find_some hf
      have e : m.2 = blen (pre ++ gap ++ w) := by rw [h2, blen_append, blen_append]
      have hw : whole = (pre ++ gap ++ w) ++ t := by rw [h, h1]; simp
      have c1 : CutAt whole m.1 := ⟨pre ++ gap, w ++ t, by rw [hw]; simp, by rw [h2, blen_append]⟩
      have c2 : CutAt whole m.2 := ⟨pre ++ gap ++ w, t, hw, e.symm⟩
      have hle : blen pre ≤ m.1 := by rw [h2]; exact Nat.le_add_right ..
      have hle2 : m.1 ≤ m.2 := by rw [h2]; exact Nat.le_add_right ..
      show EngineMatches whole _ (if m.1 < m.2 then m :: findFrom n r k m.2 t else _)
      by_cases hm : m.1 < m.2
      · rw [if_pos hm]
        refine ⟨hle, hle2, c1, c2, ?_⟩
        have := findFrom_engine (n := n) (r := r) whole k t _ hw
        rwa [← e] at this
      · rw [if_neg hm]
        cases t with
        | nil => trivial
        | cons c t =>
          have := findFrom_engine (n := n) (r := r) whole k t (pre ++ gap ++ w ++ [c]) (by rw [hw]; simp)
          rw [blen_append, ← e] at this
          simp only [blen_cons, blen_nil, Nat.add_zero] at this
          exact engineMatches_mono (by omega) this

theorem C71_engine (r : Re) (s : Str) : EngineMatches s 0 (findIter r s) :=
  findFrom_engine s _ s [] rfl

theorem leftmost_text {n : Nat} {r : Re} {s : Str} {l : List (Str × Str)} (h : Leftmost n r s l) :
    ∃ t, s = l.flatMap (fun x => x.1 ++ x.2) ++ t ∧ ∀ x y, t = x ++ y → y ≠ [] → run n r y = [] := by
  induction h with
  | done h => exact ⟨_, rfl, h⟩
  | hit h1 h2 h3 _ ih =>
    obtain ⟨t, g1, g2⟩ := ih
    exact ⟨t, by rw [List.flatMap_cons, List.append_assoc _ _ t, ← g1], g2⟩

/-- The texts of the ranges. -/
theorem rangesOf_text {n : Nat} {r : Re} {s : Str} {l : List (Str × Str)} (h : Leftmost n r s l) : ∀ pre : Str,
    (rangesOf (blen pre) l).map (textAt (pre ++ s)) = l.map (·.2) := by
  induction h with
  | done _ => intro pre; rfl
  | @hit gap w t l h1 h2 h3 _ ih =>
    intro pre
    have g := ih (pre ++ gap ++ w)
    rw [blen_append, blen_append] at g
    have e : pre ++ gap ++ w ++ t = pre ++ (gap ++ w ++ t) := by simp
    rw [e] at g
    rw [rangesOf, List.map_cons, List.map_cons, g]
    congr 1
    have := textAt_mid (pre ++ gap) w t
    rw [blen_append] at this
    rw [← e]; exact this

/-! ## Runs of a class -/

/-- The places where a run of a class can end, the last one first. -/
def stops (p : Char → Bool) : Str → List Str
  | [] => [[]]
  | c :: s => if p c then stops p s ++ [c :: s] else [c :: s]

theorem iterate_cls (n : Nat) (p : Char → Bool) : ∀ (k : Nat) (s : Str), s.length ≤ k →
    iterate (run n (.cls p)) k s = stops p s
  | 0, [], _ => rfl
  | 0, _ :: _, h => absurd h (Nat.not_succ_le_zero _)
  | k + 1, [], _ => by rw [iterate, run]; rfl
  | k + 1, c :: s, h => by
    rw [iterate, run, stops]
    by_cases hp : p c = true
    · rw [if_pos hp, if_pos hp, List.filter_cons_of_pos (by simp), List.filter_nil, List.flatMap_singleton,
        iterate_cls n p k s (by simp only [List.length_cons] at h; omega)]
    · rw [if_neg hp, if_neg hp]; rfl

theorem run_star (n : Nat) (p : Char → Bool) (s : Str) : run n (.star (.cls p)) s = stops p s := by
  rw [run, iterate_cls n p _ s (Nat.le_refl _)]

theorem run_plus_cons (n : Nat) (p : Char → Bool) (c : Char) (s : Str) :
    run n (plus (.cls p)) (c :: s) = if p c then stops p s else [] := by
  rw [plus, run, run]
  by_cases hp : p c = true
  · rw [if_pos hp, if_pos hp, List.flatMap_singleton, run_star]
  · rw [if_neg hp, if_neg hp]; rfl

theorem run_plus_nil (n : Nat) (p : Char → Bool) : run n (plus (.cls p)) [] = [] := by
  rw [plus, run, run]; rfl

theorem stops_head (p : Char → Bool) : ∀ s, (stops p s).head? = some (s.dropWhile p)
  | [] => rfl
  | c :: s => by
    rw [stops]
    by_cases hp : p c = true
    · rw [if_pos hp, List.head?_append, stops_head p s, List.dropWhile_cons_of_pos hp]; rfl
    · rw [if_neg hp, List.dropWhile_cons_of_neg hp]; rfl

/-- A literal matches where the text is. -/
theorem run_lit (n : Nat) : ∀ (w s : Str), run n (lit w) s = if w.isPrefixOf s then [s.drop w.length] else []
  | [], s => by rw [lit, run]; rfl
  | c :: w, [] => by rw [lit, run, run]; rfl
  | c :: w, d :: s => by
    rw [lit, run, run, List.isPrefixOf]
    by_cases h : d = c
    · subst h
      simp [run_lit n w s]
    · have : (c == d) = false := by simpa using fun e => h e.symm
      simp [h, this]

end Re
end Tok
