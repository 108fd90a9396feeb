import Verif.PreTokenizers.Spec

/-!
# The patterns and loops of the pre-tokenizers find the pieces of the specification
-/

namespace Tok.PreTokenizer
open NS

/-! ## predicates -/

theorem marked_run (p : Char → Bool) : ∀ (u s : Str), (∀ c ∈ u, p c = false) → (∀ c ∈ s.head?, p c = true) →
    marked p (u ++ s) = (if u = [] then [] else [(u, false)]) ++ marked p s
  | [], s, _, _ => by simp
  | c :: u, s, hu, hs => by
    rw [List.cons_append, marked, if_neg (by simp [hu c (by simp)]), marked_run p u s (fun d hd => hu d (by simp [hd])) hs]
    rw [if_neg (List.cons_ne_nil c u)]
    by_cases hn : u = []
    · subst hn
      cases s with
      | nil => simp [marked]
      | cons d s =>
        have : p d = true := hs d (by simp)
        simp [marked, this]
    · simp [hn]

theorem predLoop_marked (p : Char → Bool) : ∀ (s u : Str) (b : Nat), (∀ c ∈ u, p c = false) →
    predLoop p b (b + blen u) s = piecesAt b (marked p (u ++ s))
  | [], u, b, hu => by
    rw [marked_run p u [] hu (by simp), predLoop]
    by_cases hn : u = []
    · subst hn; simp [marked, piecesAt]
    · have := blen_pos hn
      simp [hn, marked, piecesAt, this]
  | c :: s, u, b, hu => by
    rw [predLoop]
    by_cases hc : p c = true
    · rw [if_pos hc, marked_run p u (c :: s) hu (by simp [hc])]
      have := predLoop_marked p s [] (b + blen u + c.utf8Size) (by simp)
      simp only [blen_nil, Nat.add_zero, List.nil_append] at this
      rw [this]
      by_cases hn : u = []
      · subst hn; simp [marked, hc, piecesAt]
      · have := blen_pos hn
        simp [hn, marked, hc, piecesAt, this]
    · rw [if_neg hc]
      have := predLoop_marked p s (u ++ [c]) b (by
        intro x hx
        rcases List.mem_append.1 hx with hx | hx
        · exact hu x hx
        · simp only [List.mem_singleton] at hx; subst hx; simpa using hc)
      rw [List.append_assoc, List.singleton_append] at this
      rw [← this]; simp [Nat.add_assoc]

theorem findPred_marked (p : Char → Bool) {s : Str} (hs : s ≠ []) : findPred p s = piecesAt 0 (marked p s) := by
  unfold findPred
  rw [if_neg hs]
  simpa using predLoop_marked p s [] 0 (by simp)

theorem marked_text (p : Char → Bool) : ∀ s : Str, (marked p s).flatMap (·.1) = s
  | [] => rfl
  | c :: s => by
    have ih := marked_text p s
    rw [marked]
    split
    · simp [ih]
    · split <;> rename_i h
      · rw [h] at ih; simpa using ih
      · simp [ih]

/-- Two neighbours are not both unmarked. -/
theorem marked_alternate (p : Char → Bool) : ∀ (s t : Str) (r : List (Str × Bool)), marked p s = (t, false) :: r →
    ∀ x ∈ r.head?, x.2 = true
  | [], t, r, h => by simp [marked] at h
  | c :: s, t, r, h => by
    rw [marked] at h
    split at h
    · simp at h
    · split at h
      · rename_i t' r' heq
        simp only [List.cons.injEq, Prod.mk.injEq] at h
        rw [← h.2]; exact marked_alternate p s t' r' heq
      · rename_i r' hr'
        simp only [List.cons.injEq, Prod.mk.injEq] at h
        rw [← h.2]
        intro x hx
        cases hm : marked p s with
        | nil => rw [hm] at hx; simp at hx
        | cons y l =>
          rw [hm] at hx
          simp only [List.head?_cons, Option.mem_def, Option.some.injEq] at hx
          subst hx
          obtain ⟨y1, y2⟩ := y
          cases y2 with
          | true => rfl
          | false => exact absurd hm (hr' y1 l)

theorem joinRuns_cons (x : Str) (b : Bool) (ps : List (Str × Bool)) : joinRuns ((x, b) :: ps) =
    match joinRuns ps with
    | (y, b') :: rest => if b = b' then (x ++ y, b) :: rest else (x, b) :: (y, b') :: rest
    | [] => [(x, b)] := rfl

/-- The key of a run. -/
def keyed {α κ : Type} (k : α → κ) (l : List (List α)) : List (List α × Option κ) := l.map fun w => (w, w.head?.map k)

theorem joinRuns_marked (p : Char → Bool) : ∀ s : Str,
    (joinRuns (marked p s)).map (fun x => (x.1, some x.2)) = keyed p (runs p s)
  | [] => rfl
  | c :: s => by
    have ih := joinRuns_marked p s
    have key : ∀ (L : List (Str × Bool)) (R : List Str), L.map (fun x => (x.1, some x.2)) = keyed p R → ∀ b, b = p c →
        (match L with
          | (y, b') :: rest => if b = b' then ([c] ++ y, b) :: rest else ([c], b) :: (y, b') :: rest
          | [] => [([c], b)]).map (fun x : Str × Bool => (x.1, some x.2)) =
        keyed p (addRun p c R) := by
      intro L R h b hb
      subst hb
      cases L with
      | nil =>
        cases R with
        | nil => rfl
        | cons w R => simp [keyed] at h
      | cons x L =>
        obtain ⟨y, b'⟩ := x
        cases R with
        | nil => simp [keyed] at h
        | cons w R =>
          simp only [keyed, List.map_cons, List.cons.injEq, Prod.mk.injEq] at h
          obtain ⟨⟨h1, h2⟩, h3⟩ := h
          subst h1
          cases y with
          | nil => simp at h2
          | cons d g =>
            simp only [List.head?_cons, Option.map_some, Option.some.injEq] at h2
            subst h2
            simp only
            by_cases hk : p c = p d
            · simp [hk, keyed, h3, addRun]
            · simp [hk, keyed, h3, addRun]
    rw [marked, runs]
    by_cases hc : p c = true
    · rw [if_pos hc, joinRuns_cons]
      exact key _ _ ih true hc.symm
    · rw [if_neg hc]
      have hc' : p c = false := by simpa using hc
      cases hm : marked p s with
      | nil =>
        rw [hm] at ih
        exact key [] _ ih false hc'.symm
      | cons x l =>
        rw [hm] at ih
        obtain ⟨t, b⟩ := x
        cases b with
        | true => exact key _ _ ih false hc'.symm
        | false =>
          refine Eq.trans ?_ (key _ _ ih false hc'.symm)
          simp only
          rw [joinRuns_cons, joinRuns_cons]
          cases joinRuns l with
          | nil => rfl
          | cons z L =>
            obtain ⟨y, b⟩ := z
            cases b <;> rfl

theorem filter_joinRuns_marked (p : Char → Bool) : ∀ s : Str,
    (joinRuns (marked p s)).filter (!·.2) = (marked p s).filter (!·.2)
  | [] => rfl
  | c :: s => by
    have ih := filter_joinRuns_marked p s
    rw [marked]
    by_cases hc : p c = true
    · rw [if_pos hc, joinRuns_cons]
      rw [List.filter_cons_of_neg (by simp), ← ih]
      cases joinRuns (marked p s) with
      | nil => rfl
      | cons z L =>
        obtain ⟨y, b⟩ := z
        cases b <;> rfl
    · rw [if_neg hc]
      have aux : ∀ (t t' : Str) (r : List (Str × Bool)), (∀ x ∈ r.head?, x.2 = true) →
          (joinRuns ((t, false) :: r)).filter (!·.2) = (t, false) :: (joinRuns r).filter (!·.2) := by
        intro t t' r hr
        rw [joinRuns_cons]
        cases r with
        | nil => rfl
        | cons x r =>
          obtain ⟨x1, x2⟩ := x
          have : x2 = true := hr (x1, x2) (by simp)
          subst this
          obtain ⟨y, rest, h⟩ := joinRuns_head x1 true r
          rw [h]; rfl
      cases hm : marked p s with
      | nil => rfl
      | cons x l =>
        obtain ⟨t, b⟩ := x
        rw [hm] at ih
        cases b with
        | true =>
          simp only
          rw [aux _ [] _ (by simp), List.filter_cons_of_pos (by simp), ih]
        | false =>
          have hl := marked_alternate p s t l hm
          simp only
          rw [aux _ [] _ hl, List.filter_cons_of_pos (by simp)]
          rw [aux _ [] _ hl, List.filter_cons_of_pos (by simp)] at ih
          simp only [List.cons.injEq, true_and] at ih
          rw [ih]

/-- All elements of a run have the same key. -/
theorem runs_key {α κ : Type} [DecidableEq κ] (k : α → κ) : ∀ (l : List α) (w : List α), w ∈ runs k l →
    w ≠ [] ∧ ∀ a ∈ w, ∀ b ∈ w, k a = k b
  | [], w, h => by simp [runs] at h
  | a :: l, w, h => by
    have ih := runs_key k l
    rw [runs, addRun.eq_def] at h
    split at h
    · rename_i b g gs heq
      rw [heq] at ih
      split at h
      · rename_i hk
        rcases List.mem_cons.1 h with rfl | h
        · refine ⟨by simp, ?_⟩
          have := (ih (b :: g) (by simp)).2
          have hb : ∀ x ∈ a :: b :: g, k x = k b := by
            intro x hx
            rcases List.mem_cons.1 hx with rfl | hx
            · exact hk
            · exact this x hx b (by simp)
          intro x hx y hy
          rw [hb x hx, hb y hy]
        · exact ih w (by simp [h])
      · rcases List.mem_cons.1 h with rfl | h
        · simp
        · exact ih w h
    · rcases List.mem_cons.1 h with rfl | h
      · simp
      · exact ih w h

theorem runs_flatten {α κ : Type} [DecidableEq κ] (k : α → κ) : ∀ l : List α, (runs k l).flatten = l
  | [] => rfl
  | a :: l => by
    have ih := runs_flatten k l
    rw [runs, addRun.eq_def]
    split
    · rename_i b g gs heq
      rw [heq] at ih
      split <;> simp [← ih]
    · simp [ih]

/-- The words are what removing the marked characters leaves. -/
theorem wordsBy_eq (p : Char → Bool) (s : Str) : wordsBy p s = kept .removed (marked p s) := by
  have h := joinRuns_marked p s
  show _ = ((marked p s).filter (!·.2)).map (·.1)
  rw [← filter_joinRuns_marked]
  unfold wordsBy
  have hk := runs_key p s
  generalize runs p s = R at *
  generalize joinRuns (marked p s) = L at *
  induction R generalizing L with
  | nil =>
    cases L with
    | nil => rfl
    | cons x L => simp [keyed] at h
  | cons w R ih =>
    cases L with
    | nil => simp [keyed] at h
    | cons x L =>
      simp only [keyed, List.map_cons, List.cons.injEq, Prod.mk.injEq] at h
      obtain ⟨⟨h1, h2⟩, h3⟩ := h
      have := ih (fun v hv => hk v (by simp [hv])) L h3
      obtain ⟨hne, hall⟩ := hk w (by simp)
      cases w with
      | nil => exact absurd rfl hne
      | cons d g =>
        simp only [List.head?_cons, Option.map_some, Option.some.injEq] at h2
        rw [List.filter_cons, List.filter_cons, h2, this]
        have : ((d :: g).all fun c => !p c) = !p d := by
          cases hp : p d with
          | true => simp [hp]
          | false =>
            simp only [Bool.not_false, List.all_eq_true, Bool.not_eq_true']
            intro x hx
            rw [hall x hx d (by simp), hp]
        rw [this]
        cases p d <;> simp [h1]

theorem runs_eq (p : Char → Bool) (s : Str) : runs p s = kept .contiguous (marked p s) := by
  have h := congrArg (List.map Prod.fst) (joinRuns_marked p s)
  simp only [keyed, List.map_map, Function.comp_def, List.map_id'] at h
  rw [← h]; rfl

/-! ## regular expressions -/

theorem strGet_getD {s : Str} {a b : Nat} (ha : CutAt s a) (hb : CutAt s b) (h : a ≤ b) :
    ∃ m pre post, s = pre ++ m ++ post ∧ blen pre = a ∧ a + blen m = b ∧ strGet s a b = some m := by
  obtain ⟨x, y, h1, h2⟩ := ha
  obtain ⟨x', y', h3, h4⟩ := hb
  rw [h1] at h3
  obtain ⟨m, rfl, rfl⟩ := append_le_blen h3 (by omega)
  rw [blen_append] at h4
  exact ⟨m, x, y', by rw [h1]; simp, h2, by omega, strGet_eq_some.2 ⟨x, y', by rw [h1]; simp, h2, by omega⟩⟩

theorem regexLoop_cut (s : Str) : ∀ (ms : List Range) (b : Nat), CutAt s b → EngineMatches s b ms →
    regexLoop (blen s) b ms = piecesAt b (cutAt s b ms) ∧ ∀ t, strGet s b (blen s) = some t →
      (cutAt s b ms).flatMap (·.1) = t
  | [], b, hb, _ => by
    rw [regexLoop, cutAt]
    by_cases h : b = blen s
    · rw [if_neg (by simpa using h), if_pos h]
      refine ⟨rfl, fun t ht => ?_⟩
      obtain ⟨p, q, h1, h2, h3⟩ := strGet_eq_some.1 ht
      have : blen t = 0 := by omega
      rw [blen_eq_zero.1 this]; rfl
    · rw [if_pos h, if_neg h]
      obtain ⟨m, pre, post, h1, h2, h3, h4⟩ := strGet_getD hb (b := blen s) ⟨s, [], by simp, rfl⟩ (cutAt_le hb)
      rw [h4]
      refine ⟨by simp [piecesAt, h3], fun t ht => ?_⟩
      cases ht; simp
  | m :: ms, b, hb, h => by
    obtain ⟨h1, h2, h3, h4, h5⟩ := h
    obtain ⟨g1, g2⟩ := regexLoop_cut s ms m.2 h4 h5
    rw [regexLoop, cutAt, g1]
    obtain ⟨x, pre, post, e1, e2, e3, e4⟩ := strGet_getD h3 h4 h2
    obtain ⟨y, pre', post', f1, f2, f3, f4⟩ := strGet_getD hb h3 h1
    obtain ⟨z, pre2, post2, k1, k2, k3, k4⟩ := strGet_getD h4 (b := blen s) ⟨s, [], by simp, rfl⟩ (cutAt_le h4)
    have g2 := g2 z k4
    have htext : ∀ t, strGet s b (blen s) = some t → t = y ++ x ++ z := by
      intro t ht
      obtain ⟨p, q, t1, t2, t3⟩ := strGet_eq_some.1 ht
      have hq : q = [] := by
        have := congrArg blen t1
        simp only [blen_append] at this
        exact blen_eq_zero.1 (by omega)
      subst hq
      have a1 : pre = pre' ++ y := (append_inj_blen (p := pre) (q := x ++ post) (p' := pre' ++ y) (q' := post')
        (by rw [← f1, e1]; simp) (by simp; omega)).1
      have a2 : pre2 = pre ++ x := (append_inj_blen (p := pre2) (q := z ++ post2) (p' := pre ++ x) (q' := post)
        (by rw [← e1, k1]; simp) (by simp; omega)).1
      have a3 : post2 = [] := by
        have := congrArg blen k1
        simp only [blen_append] at this
        exact blen_eq_zero.1 (by omega)
      subst a3
      have a4 : p = pre' := (append_inj_blen (p := p) (q := t ++ []) (p' := pre') (q' := y ++ post')
        (by rw [← List.append_assoc, ← List.append_assoc, ← f1, t1]) (by omega)).1
      subst a4
      have : p ++ t = p ++ (y ++ x ++ z) := by
        have e : s = p ++ t := by rw [t1]; simp
        rw [← e, k1, a2, a1]; simp
      exact List.append_cancel_left this
    rw [e4]
    by_cases hbm : b = m.1
    · have hy : y = [] := blen_eq_zero.1 (by omega)
      rw [if_neg (by simpa using hbm), if_pos hbm]
      refine ⟨?_, fun t ht => ?_⟩
      · simp only [List.nil_append, Option.getD_some, piecesAt, hbm, e3]
      · rw [htext t ht, hy]; simp [g2]
    · rw [if_pos hbm, if_neg hbm, f4]
      refine ⟨?_, fun t ht => ?_⟩
      · simp only [List.singleton_append, Option.getD_some, piecesAt, f3, e3]
      · rw [htext t ht]; simp [g2]

theorem findRegex_cut {s : Str} {ms : List Range} (hs : s ≠ []) (h : EngineMatches s 0 ms) :
    findRegex ms s = piecesAt 0 (cutAt s 0 ms) ∧ (cutAt s 0 ms).flatMap (·.1) = s := by
  unfold findRegex
  rw [if_neg hs]
  obtain ⟨h1, h2⟩ := regexLoop_cut s ms 0 (cutAt_zero s) h
  exact ⟨h1, h2 s (strGet_eq_some.2 ⟨[], [], by simp, rfl, by simp⟩)⟩

/-- In the empty text only empty pieces are found. -/
theorem cutAt_nil {ms : List Range} (h : EngineMatches [] 0 ms) : (cutAt [] 0 ms).flatMap (·.1) = [] :=
  (regexLoop_cut [] ms 0 (cutAt_zero []) h).2 [] (strGet_eq_some.2 ⟨[], [], rfl, rfl, rfl⟩)

theorem invert_piecesAt : ∀ (ps : List (Str × Bool)) (b : Nat),
    invert (piecesAt b ps) = piecesAt b (ps.map fun x => (x.1, !x.2))
  | [], _ => rfl
  | (x, m) :: ps, b => by
    have := invert_piecesAt ps (b + blen x)
    simp only [invert] at this
    simp [invert, piecesAt, this]

end Tok.PreTokenizer
