import Verif.Regex.ByteLevel

/-!
# C71: what can be said about the words of `ByteLevel`
-/

namespace Tok
namespace Re

open NS PreTokenizer

theorem sameRun_prefix (u : ReTables) : ∀ s, ∃ t, s = sameRun u s ++ t
  | [] => ⟨[], rfl⟩
  | c :: _ => ⟨_, congrArg (List.cons c) (List.takeWhile_append_dropWhile (p := fun d => kind u d = kind u c)).symm⟩

theorem sameRun_ne {u : ReTables} {s : Str} (h : s ≠ []) : sameRun u s ≠ [] := by
  cases s with
  | nil => exact absurd rfl h
  | cons c s => simp [sameRun]

theorem spaceWord_prefix (u : ReTables) (s : Str) : ∃ t, s = spaceWord u s ++ t := by
  obtain ⟨t, ht⟩ := sameRun_prefix u s
  unfold spaceWord
  split
  · exact ⟨t, ht⟩
  · by_cases hn : sameRun u s = []
    · exact ⟨s, by rw [hn]; rfl⟩
    · refine ⟨(sameRun u s).getLast hn :: t, ?_⟩
      have := List.dropLast_concat_getLast hn
      conv => lhs; rw [ht, ← this]
      simp

theorem spaceWord_ne {u : ReTables} {s : Str} (h : s ≠ []) : spaceWord u s ≠ [] := by
  have hn := sameRun_ne (u := u) h
  unfold spaceWord
  split
  · exact hn
  · rename_i hc
    intro e
    have h1 : (sameRun u s).length - 1 = 0 := by rw [← List.length_dropLast, e]; rfl
    have h2 : 0 < (sameRun u s).length := List.length_pos_iff.2 hn
    exact hc (.inr (by omega))

/-- The cases of the first word. -/
theorem firstWord_cases (u : ReTables) {s : Str} (hs : s ≠ []) :
    (firstWord u s ∈ contractions ∧ ∃ t, s = firstWord u s ++ t) ∨
    (contractions.find? (·.isPrefixOf s) = none ∧ ∃ c t, s = c :: t ∧
      ((kind u c ≠ .space ∧ firstWord u s = sameRun u s) ∨
       (kind u c = .space ∧ c = ' ' ∧ solidStart u t = true ∧ firstWord u s = ' ' :: sameRun u t) ∨
       (kind u c = .space ∧ ¬(c = ' ' ∧ solidStart u t = true) ∧ firstWord u s = spaceWord u s))) := by
  rw [firstWord.eq_def]
  cases hf : contractions.find? (·.isPrefixOf s) with
  | some w =>
    refine .inl ⟨List.mem_of_find?_eq_some hf, ?_⟩
    have := List.find?_some hf
    obtain ⟨t, ht⟩ := List.isPrefixOf_iff_prefix.1 this
    exact ⟨t, ht.symm⟩
  | none =>
    refine .inr ⟨rfl, ?_⟩
    cases s with
    | nil => exact absurd rfl hs
    | cons c t =>
      refine ⟨c, t, rfl, ?_⟩
      by_cases h1 : kind u c = .space
      · by_cases h2 : c = ' ' ∧ solidStart u t = true
        · exact .inr (.inl ⟨h1, h2.1, h2.2, by simp only [h1, ne_eq, not_true_eq_false, if_false]; rw [if_pos h2]⟩)
        · exact .inr (.inr ⟨h1, h2, by simp only [h1, ne_eq, not_true_eq_false, if_false]; rw [if_neg h2]⟩)
      · exact .inl ⟨h1, by simp only [ne_eq, h1, not_false_eq_true, if_true]⟩

theorem firstWord_prefix (u : ReTables) (s : Str) : s ≠ [] → ∃ t, s = firstWord u s ++ t := by
  intro hs
  rcases firstWord_cases u hs with ⟨_, h⟩ | ⟨_, c, t, rfl, h⟩
  · exact h
  · rcases h with ⟨_, h⟩ | ⟨_, h1, _, h⟩ | ⟨_, _, h⟩
    · rw [h]; exact sameRun_prefix u _
    · obtain ⟨x, hx⟩ := sameRun_prefix u t
      refine ⟨x, ?_⟩
      conv => lhs; rw [hx, h1]
      rw [h]; rfl
    · rw [h]; exact spaceWord_prefix u _

theorem firstWord_ne {u : ReTables} {s : Str} (hs : s ≠ []) : firstWord u s ≠ [] := by
  rcases firstWord_cases u hs with ⟨h, _⟩ | ⟨_, c, t, rfl, h⟩
  · intro e
    rw [e] at h
    revert h; decide
  · rcases h with ⟨_, h⟩ | ⟨_, h1, _, h⟩ | ⟨_, _, h⟩
    · rw [h]; exact sameRun_ne hs
    · rw [h]; simp
    · rw [h]; exact spaceWord_ne hs

theorem firstWord_drop {u : ReTables} {s : Str} (hs : s ≠ []) :
    s = firstWord u s ++ s.drop (firstWord u s).length ∧ (s.drop (firstWord u s).length).length < s.length := by
  obtain ⟨t, ht⟩ := firstWord_prefix u s hs
  have hd : s.drop (firstWord u s).length = t := by
    conv => lhs; rw [ht]
    have : (firstWord u (firstWord u s ++ t)) = firstWord u s := by rw [← ht]
    rw [this, List.drop_left]
  refine ⟨by rw [hd]; exact ht, ?_⟩
  have : 0 < (firstWord u s).length := List.length_pos_iff.2 (firstWord_ne hs)
  have h0 : 0 < s.length := List.length_pos_iff.2 hs
  rw [List.length_drop]
  omega

theorem wordsFrom_enough (u : ReTables) : ∀ (k : Nat) (s : Str) (j : Nat), s.length ≤ k → s.length ≤ j →
    wordsFrom u k s = wordsFrom u j s
  | 0, s, j, h, _ => by
    have : s = [] := List.length_eq_zero_iff.1 (by omega)
    subst this
    cases j with
    | zero => rfl
    | succ j => rw [wordsFrom, wordsFrom, if_pos rfl]
  | k + 1, s, 0, _, h => by
    have : s = [] := List.length_eq_zero_iff.1 (by omega)
    subst this
    rw [wordsFrom, wordsFrom, if_pos rfl]
  | k + 1, s, j + 1, h1, h2 => by
    rw [wordsFrom, wordsFrom]
    by_cases hs : s = []
    · rw [if_pos hs, if_pos hs]
    · rw [if_neg hs, if_neg hs]
      have := (firstWord_drop (u := u) hs).2
      rw [wordsFrom_enough u k _ j (by omega) (by omega)]

theorem words_nil (u : ReTables) : words u [] = [] := rfl

theorem words_cons {u : ReTables} {s : Str} (hs : s ≠ []) :
    words u s = firstWord u s :: words u (s.drop (firstWord u s).length) := by
  unfold words
  have h0 : 0 < s.length := List.length_pos_iff.2 hs
  obtain ⟨m, hm⟩ : ∃ m, s.length = m + 1 := ⟨_, (Nat.succ_pred_eq_of_pos h0).symm⟩
  have := (firstWord_drop (u := u) hs).2
  rw [hm, wordsFrom, if_neg hs, wordsFrom_enough u m _ _ (by omega) (Nat.le_refl _)]

/-- Induction along the words. -/
theorem words_induction (u : ReTables) {P : Str → Prop} (nil : P [])
    (cons : ∀ s, s ≠ [] → P (s.drop (firstWord u s).length) → P s) : ∀ s, P s := by
  intro s
  generalize hn : s.length = n
  induction n using Nat.strongRecOn generalizing s with
  | ind n ih =>
    by_cases hs : s = []
    · rw [hs]; exact nil
    · have := (firstWord_drop (u := u) hs).2
      exact cons s hs (ih _ (by omega) _ rfl)

/-- The words are the text. -/
theorem words_flatten (u : ReTables) : ∀ s, (words u s).flatten = s := by
  refine words_induction u (P := fun s => (words u s).flatten = s) rfl ?_
  intro s hs ih
  rw [words_cons hs, List.flatten_cons, ih, ← (firstWord_drop hs).1]

/-- The text cut at the matches of the pattern: nothing is between them, and they are the words. -/
theorem leftmost_words {u : ReTables} (h : u.Ok) {n : Nat} {s : Str} {l : List (Str × Str)}
    (hl : Leftmost n (byteLevel u) s l) : l = (words u s).map fun w => ([], w) := by
  induction hl with
  | @done s hd =>
    by_cases hs : s = []
    · rw [hs]; rfl
    · have := hd [] s rfl hs
      have h2 := byteLevel_head h n hs
      rw [this] at h2; cases h2
  | @hit gap w t l h1 h2 h3 _ ih =>
    have hgap : gap = [] := by
      by_cases hg : gap = []
      · exact hg
      · have := h1 [] gap rfl hg
        have h4 := byteLevel_head h n (s := gap ++ w ++ t) (by simp [hg])
        rw [this] at h4; cases h4
    subst hgap
    have hs : w ++ t ≠ [] := by simp [h2]
    rw [byteLevel_head h n hs, Option.some.injEq] at h3
    have hw : firstWord u (w ++ t) = w := by
      have := (firstWord_drop (u := u) hs).1
      rw [h3] at this
      exact (List.append_cancel_right this).symm
    show _ = (words u (w ++ t)).map _
    rw [words_cons hs, h3, hw, ih]
    rfl

theorem byteLevel_progress {u : ReTables} (h : u.Ok) (n : Nat) (s : Str) : (run n (byteLevel u) s).head? ≠ some s := by
  by_cases hs : s = []
  · rw [hs, byteLevel_nil h]; simp
  · rw [byteLevel_head h n hs]
    intro e
    have := (firstWord_drop (u := u) hs).2
    rw [Option.some.inj e] at this
    exact Nat.lt_irrefl _ this

/-- Where the words are. -/
def tiles : Nat → List Str → List Range
  | _, [] => []
  | b, w :: l => (b, b + blen w) :: tiles (b + blen w) l

theorem rangesOf_tiles : ∀ (ws : List Str) (b : Nat), rangesOf b (ws.map fun w => ([], w)) = tiles b ws
  | [], _ => rfl
  | w :: ws, b => by
    rw [List.map_cons, rangesOf, tiles]
    simp [rangesOf_tiles ws]

theorem cutAt_tiles : ∀ (ws : List Str) (pre : Str),
    cutAt (pre ++ ws.flatten) (blen pre) (tiles (blen pre) ws) = ws.map fun w => (w, true)
  | [], pre => by
    rw [tiles, cutAt, if_pos (by simp)]; rfl
  | w :: ws, pre => by
    rw [tiles, cutAt, if_pos rfl, List.nil_append, List.map_cons]
    have e : pre ++ (w :: ws).flatten = pre ++ w ++ ws.flatten := by simp
    have h := cutAt_tiles ws (pre ++ w)
    rw [blen_append] at h
    rw [e, h]
    congr 2
    exact textAt_mid pre w ws.flatten

/-- **C71.** The pattern of `ByteLevel` finds the words, one after the other. -/
theorem C71_matches {u : ReTables} (h : u.Ok) (s : Str) : findIter (byteLevel u) s = tiles 0 (words u s) := by
  obtain ⟨l, h1, h2⟩ := findFrom_leftmost (byteLevel_progress h s.length) (s.length + 1) s 0 (Nat.lt_succ_self _)
  rw [findIter, h1, leftmost_words h h2, rangesOf_tiles]

/-- **C71.** Cut at its matches the text falls into its words, and nothing is left between them. -/
theorem C71_cut {u : ReTables} (h : u.Ok) (s : Str) :
    cutAt s 0 (findIter (byteLevel u) s) = (words u s).map fun w => (w, true) := by
  rw [C71_matches h]
  have := cutAt_tiles (words u s) []
  rw [List.nil_append, words_flatten] at this
  exact this

/-- A word is one of these. -/
inductive IsWord (u : ReTables) : Str → Prop
  | contraction {w} : w ∈ contractions → IsWord u w
  | run {k w} : k ≠ .space → w ≠ [] → (∀ c ∈ w, kind u c = k) → IsWord u w
  | blank {k w} : k ≠ .space → w ≠ [] → (∀ c ∈ w, kind u c = k) → IsWord u (' ' :: w)
  | spaces {w} : w ≠ [] → (∀ c ∈ w, kind u c = .space) → IsWord u w

theorem sameRun_kind {u : ReTables} {c : Char} {s : Str} : ∀ d ∈ sameRun u (c :: s), kind u d = kind u c := by
  intro d hd
  rw [sameRun, List.mem_cons] at hd
  rcases hd with rfl | hd
  · rfl
  · have := List.all_eq_true.1 (List.all_takeWhile (l := s) (p := fun d => decide (kind u d = kind u c))) d hd
    simpa using this

theorem spaceWord_kind {u : ReTables} {c : Char} {s : Str} : ∀ d ∈ spaceWord u (c :: s), kind u d = kind u c := by
  intro d hd
  unfold spaceWord at hd
  split at hd
  · exact sameRun_kind d hd
  · exact sameRun_kind d (List.dropLast_subset _ hd)

theorem firstWord_isWord {u : ReTables} {s : Str} (hs : s ≠ []) : IsWord u (firstWord u s) := by
  rcases firstWord_cases u hs with ⟨h, _⟩ | ⟨_, c, t, rfl, h⟩
  · exact .contraction h
  · rcases h with ⟨h0, h⟩ | ⟨_, h1, h2, h⟩ | ⟨h0, _, h⟩
    · rw [h]; exact .run h0 (sameRun_ne hs) sameRun_kind
    · rw [h]
      cases t with
      | nil => simp [solidStart] at h2
      | cons d t => exact .blank (by simpa [solidStart] using h2) (sameRun_ne (by simp)) sameRun_kind
    · rw [h]
      exact .spaces (spaceWord_ne hs) fun d hd => by rw [spaceWord_kind d hd, h0]

/-- **C71.** Every word is a contraction, a run of letters, of numbers or of other characters that are no spaces, with
at most one blank before it, or spaces; together they are the text. -/
theorem C71_words (u : ReTables) (s : Str) : (words u s).flatten = s ∧ ∀ w ∈ words u s, w ≠ [] ∧ IsWord u w := by
  refine ⟨words_flatten u s, ?_⟩
  refine words_induction u (P := fun s => ∀ w ∈ words u s, w ≠ [] ∧ IsWord u w) ?_ ?_ s
  · intro w hw; cases hw
  · intro s hs ih w hw
    rw [words_cons hs, List.mem_cons] at hw
    rcases hw with rfl | hw
    · exact ⟨firstWord_ne hs, firstWord_isWord hs⟩
    · exact ih w hw

/-! ## Words are as long as possible -/

theorem takeWhile_stop {p : Char → Bool} : ∀ {s : Str} {d : Char} {t : Str}, s = s.takeWhile p ++ d :: t → p d = false
  | [], d, t, h => by simp at h
  | c :: s, d, t, h => by
    by_cases hc : p c = true
    · rw [List.takeWhile_cons_of_pos hc, List.cons_append] at h
      injection h with _ h
      exact takeWhile_stop h
    · rw [List.takeWhile_cons_of_neg hc, List.nil_append] at h
      injection h with h _
      rw [← h]
      simpa using hc

theorem sameRun_stop {u : ReTables} {c : Char} {s : Str} {d : Char} {t : Str} (h : c :: s = sameRun u (c :: s) ++ d :: t) :
    kind u d ≠ kind u c := by
  rw [sameRun, List.cons_append] at h
  injection h with _ h
  simpa using takeWhile_stop h

theorem firstWord_head {u : ReTables} {d : Char} {t : Str} : ∃ x, firstWord u (d :: t) = d :: x := by
  obtain ⟨y, hy⟩ := firstWord_prefix u (d :: t) (by simp)
  cases hf : firstWord u (d :: t) with
  | nil => exact absurd hf (firstWord_ne (by simp))
  | cons e x =>
    rw [hf] at hy
    injection hy with h1 _
    exact ⟨x, by rw [h1]⟩

/-- What follows a word: a run of one kind is followed by something of another kind; the spaces before something that is no
space are such that the last of them is a blank that goes with it, or is a word of its own. -/
def Follows (u : ReTables) (w v : Str) : Prop :=
  (∀ k r, k ≠ .space → w ∉ contractions → (w = r ∨ w = ' ' :: r) → r ≠ [] → (∀ c ∈ r, kind u c = k) →
    ∃ d x, v = d :: x ∧ kind u d ≠ k) ∧
  ((∀ c ∈ w, kind u c = .space) →
    (∃ d x, v = ' ' :: d :: x ∧ kind u d ≠ .space) ∨ (∃ d, v = [d] ∧ kind u d = .space ∧ d ≠ ' ') ∨
    ∃ c d x, w = [c] ∧ c ≠ ' ' ∧ v = d :: x ∧ kind u d ≠ .space)

theorem contraction_solid {u : ReTables} (h : u.Ok) {w : Str} (hw : w ∈ contractions) : ∀ c ∈ w, kind u c ≠ .space := by
  intro c hc e
  have hm : c ∈ "'strevmld".toList := by
    have : ∀ w ∈ contractions, ∀ c ∈ w, c ∈ "'strevmld".toList := by decide
    exact this w hw c hc
  have := h.ascii c hm
  rw [kind_space.1 e] at this
  cases this

theorem no_contraction {u : ReTables} (h : u.Ok) {c : Char} (hc : kind u c = .space) (t : Str) :
    contractions.find? (·.isPrefixOf (c :: t)) = none := by
  rw [List.find?_eq_none]
  intro w hw hp
  obtain ⟨x, hx⟩ := List.isPrefixOf_iff_prefix.1 hp
  cases w with
  | nil => revert hw; decide
  | cons d w =>
    injection hx with h1 _
    exact contraction_solid h hw d (by simp) (by rw [h1]; exact hc)

theorem firstWord_follows {u : ReTables} (h : u.Ok) {s : Str} (hs : s ≠ []) (hr : s.drop (firstWord u s).length ≠ []) :
    Follows u (firstWord u s) (firstWord u (s.drop (firstWord u s).length)) := by
  obtain ⟨d, t, ht⟩ : ∃ d t, s.drop (firstWord u s).length = d :: t := by
    cases hx : s.drop (firstWord u s).length with
    | nil => exact absurd hx hr
    | cons d t => exact ⟨d, t, rfl⟩
  have hsplit := (firstWord_drop (u := u) hs).1
  rw [ht] at hsplit ⊢
  obtain ⟨x, hx⟩ := firstWord_head (u := u) (d := d) (t := t)
  rcases firstWord_cases u hs with ⟨hc, _⟩ | ⟨_, c, t', hs', hcase⟩
  · refine ⟨fun k r _ hn => absurd hc hn, fun hall => ?_⟩
    exfalso
    cases hw : firstWord u s with
    | nil => exact firstWord_ne hs hw
    | cons e y =>
      have he : e ∈ firstWord u s := by rw [hw]; simp
      exact contraction_solid h hc e he (hall e he)
  · rcases hcase with ⟨h0, hw⟩ | ⟨h0, hb, hsol, hw⟩ | ⟨h0, hnb, hw⟩
    · -- a run
      rw [hw] at hsplit ⊢
      subst hs'
      have hstop := sameRun_stop hsplit
      refine ⟨fun k r hk _ hr' hne hall => ?_, fun hall => ?_⟩
      · refine ⟨d, x, hx, ?_⟩
        have hck : kind u c = k := by
          rcases hr' with e | e
          · refine hall c ?_
            rw [← e, sameRun]; simp
          · rw [sameRun] at e
            injection e with e1 _
            rw [e1, kind_blank h] at h0
            exact absurd rfl h0
        rw [← hck]; exact hstop
      · exact absurd (hall c (by rw [sameRun]; simp)) h0
    · -- a blank and a run
      rw [hw] at hsplit ⊢
      subst hs'
      rw [hb, List.cons_append] at hsplit
      injection hsplit with _ hsplit
      cases t' with
      | nil => simp [solidStart] at hsol
      | cons e y =>
        have hsol : kind u e ≠ .space := by simpa [solidStart] using hsol
        have hstop := sameRun_stop hsplit
        refine ⟨fun k r hk _ hr' hne hall => ?_, fun hall => ?_⟩
        · refine ⟨d, x, hx, ?_⟩
          have hek : kind u e = k := by
            rcases hr' with e' | e'
            · have := hall ' ' (by rw [← e']; simp)
              rw [kind_blank h] at this
              exact absurd this.symm hk
            · injection e' with _ e'
              refine hall e ?_
              rw [← e', sameRun]; simp
          rw [← hek]; exact hstop
        · exact absurd (hall e (by rw [sameRun]; simp)) hsol
    · -- spaces
      rw [hw] at hsplit ⊢
      subst hs'
      refine ⟨fun k r hk _ hr' hne hall => ?_, fun _ => ?_⟩
      · exfalso
        obtain ⟨e, r', rfl⟩ : ∃ e r', r = e :: r' := by
          cases r with
          | nil => exact absurd rfl hne
          | cons e r' => exact ⟨e, r', rfl⟩
        have he : e ∈ spaceWord u (c :: t') := by
          rcases hr' with e' | e' <;> rw [e'] <;> simp
        have := spaceWord_kind e he
        rw [hall e (by simp), h0] at this
        exact hk this
      · unfold spaceWord at hsplit hw ⊢
        by_cases hcond : sameRun u (c :: t') = c :: t' ∨ (sameRun u (c :: t')).length = 1
        · rw [if_pos hcond] at hsplit ⊢
          rcases hcond with hall | hone
          · rw [hall] at hsplit
            have := congrArg List.length hsplit
            simp at this
          · have hstop := sameRun_stop hsplit
            rw [h0] at hstop
            have h1 : sameRun u (c :: t') = [c] := by
              rw [sameRun] at hone ⊢
              rw [List.length_cons] at hone
              rw [List.length_eq_zero_iff.1 (Nat.succ.inj hone)]
            rw [h1] at hsplit ⊢
            refine .inr (.inr ⟨c, d, x, rfl, ?_, hx, hstop⟩)
            rintro rfl
            refine hnb ⟨rfl, ?_⟩
            injection hsplit with _ e
            rw [e]
            simpa [solidStart] using hstop
        · rw [if_neg hcond] at hsplit ⊢
          -- the last space and what follows the run
          have hne := sameRun_ne (u := u) (s := c :: t') (by simp)
          obtain ⟨y, hy⟩ := sameRun_prefix u (c :: t')
          have hlast := List.dropLast_concat_getLast hne
          have hyne : y ≠ [] := by
            rintro rfl
            rw [List.append_nil] at hy
            exact hcond (.inl hy.symm)
          obtain ⟨f, z, rfl⟩ : ∃ f z, y = f :: z := by
            cases y with
            | nil => exact absurd rfl hyne
            | cons f z => exact ⟨f, z, rfl⟩
          have hf : kind u f ≠ .space := by
            have := sameRun_stop hy
            rwa [h0] at this
          have hdt : d :: t = (sameRun u (c :: t')).getLast hne :: f :: z := by
            have e1 : c :: t' = (sameRun u (c :: t')).dropLast ++ ((sameRun u (c :: t')).getLast hne :: f :: z) := by
              conv => lhs; rw [hy, ← hlast]
              simp
            rw [e1] at hsplit
            have e2 : sameRun u ((sameRun u (c :: t')).dropLast ++ ((sameRun u (c :: t')).getLast hne :: f :: z)) =
                sameRun u (c :: t') := by rw [← e1]
            rw [e2] at hsplit
            exact (List.append_cancel_left hsplit).symm
          injection hdt with hd ht'
          have hdk : kind u d = .space := by
            rw [hd, ← h0]
            exact sameRun_kind _ (List.getLast_mem hne)
          rw [ht']
          by_cases hdb : d = ' '
          · left
            have : firstWord u (d :: f :: z) = ' ' :: sameRun u (f :: z) := by
              rw [firstWord.eq_def, no_contraction h hdk]
              simp only [hdk, ne_eq, not_true_eq_false, if_false]
              rw [if_pos ⟨hdb, by simpa [solidStart] using hf⟩]
            rw [this, sameRun]
            exact ⟨f, _, rfl, hf⟩
          · right; left
            have hone : sameRun u (d :: f :: z) = [d] := by
              rw [sameRun, List.takeWhile_cons_of_neg]
              rw [hdk]
              simpa using hf
            have : firstWord u (d :: f :: z) = [d] := by
              rw [firstWord.eq_def, no_contraction h hdk]
              simp only [hdk, ne_eq, not_true_eq_false, if_false]
              rw [if_neg (fun e => hdb e.1), spaceWord, hone, if_pos (.inr rfl)]
            exact ⟨d, this, hdk, hdb⟩

/-- **C71.** Words are as long as possible: see `Follows`. -/
theorem C71_maximal {u : ReTables} (h : u.Ok) (s : Str) : ∀ a b w v, words u s = a ++ w :: v :: b → Follows u w v := by
  refine words_induction u (P := fun s => ∀ a b w v, words u s = a ++ w :: v :: b → Follows u w v) ?_ ?_ s
  · intro a b w v e
    rw [words_nil] at e
    cases a <;> cases e
  · intro s hs ih a b w v e
    rw [words_cons hs] at e
    cases a with
    | cons y a =>
      injection e with _ e
      exact ih a b w v e
    | nil =>
      injection e with e1 e2
      have hr : s.drop (firstWord u s).length ≠ [] := by
        intro hn
        rw [hn, words_nil] at e2
        cases e2
      rw [words_cons hr] at e2
      injection e2 with e2 _
      rw [← e1, ← e2]
      exact firstWord_follows h hs hr

end Re
end Tok
