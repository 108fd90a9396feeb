import Verif.PreTokenizers.Runs

/-!
# The loops of `Whitespace`, `FixedLength` and `UnicodeScripts`
-/

namespace Tok.PreTokenizer
open NS

theorem runs_head {α κ : Type} [DecidableEq κ] (k : α → κ) (a : α) (l : List α) :
    ∃ g gs, runs k (a :: l) = (a :: g) :: gs := by
  rw [runs, addRun.eq_def]
  split
  · split
    · exact ⟨_, _, rfl⟩
    · exact ⟨_, _, rfl⟩
  · exact ⟨_, _, rfl⟩

/-- A run that cannot be extended. -/
theorem runs_append {α κ : Type} [DecidableEq κ] (k : α → κ) (x : κ) : ∀ (w s : List α), w ≠ [] → (∀ a ∈ w, k a = x) →
    (∀ b ∈ s.head?, k b ≠ x) → runs k (w ++ s) = w :: runs k s
  | [], _, h, _, _ => absurd rfl h
  | [a], s, _, hw, hs => by
    have ha : k a = x := hw a (by simp)
    cases s with
    | nil => simp [runs, addRun]
    | cons b s =>
      have hb : k b ≠ x := hs b (by simp)
      obtain ⟨g, gs, h⟩ := runs_head k b s
      rw [List.singleton_append, runs, h, addRun, if_neg (by rw [ha]; exact fun h => hb h.symm)]
  | a :: b :: w, s, _, hw, hs => by
    have ih := runs_append k x (b :: w) s (by simp) (fun a ha => hw a (by simp [ha])) hs
    rw [List.cons_append, runs, ih, addRun, if_pos (by rw [hw a (by simp), hw b (by simp)])]

/-- An unwanted element in front changes nothing. -/
theorem filter_addRun {α κ : Type} [DecidableEq κ] (k : α → κ) (q : α → Bool) (a : α)
    (hq : ∀ b, k b = k a → q b = false) (R : List (List α)) :
    (addRun k a R).filter (·.all q) = R.filter (·.all q) := by
  have ha := hq a rfl
  rw [addRun.eq_def]
  split
  · rename_i b g gs
    split
    · rename_i h
      simp [ha, hq b h.symm]
    · simp [ha]
  · simp [ha]

theorem filter_runs_all {α κ : Type} [DecidableEq κ] (k : α → κ) (q : α → Bool) (l : List α) (h : ∀ a ∈ l, q a = true) :
    (runs k l).filter (·.all q) = runs k l := by
  rw [List.filter_eq_self]
  intro w hw
  rw [List.all_eq_true]
  intro a ha
  have := runs_flatten k l
  exact h a (by rw [← this]; exact List.mem_flatten.2 ⟨w, hw, ha⟩)

/-! ## `Whitespace` -/

/-- The runs that are not spaces. -/
def wordRuns (u : CharTables) (s : Str) : List Str := (runs (wordKind u) s).filter fun w => w.all fun c => wordKind u c ≠ 2

theorem wordRuns_space {u : CharTables} {c : Char} {s : Str} (h : wordKind u c = 2) : wordRuns u (c :: s) = wordRuns u s := by
  unfold wordRuns
  rw [runs]
  exact filter_addRun (wordKind u) (fun c => decide (wordKind u c ≠ 2)) c (fun b hb => by simp [hb, h]) _

theorem wordRuns_append {u : CharTables} {w s : Str} {x : Nat} (hw : w ≠ []) (ha : ∀ c ∈ w, wordKind u c = x) (hx : x ≠ 2)
    (hs : ∀ b ∈ s.head?, wordKind u b ≠ x) : wordRuns u (w ++ s) = w :: wordRuns u s := by
  unfold wordRuns
  rw [runs_append _ x w s hw ha hs, List.filter_cons_of_pos]
  rw [List.all_eq_true]
  intro c hc
  simpa [ha c hc] using hx

/-- The text of a range. -/
def textAt (s : Str) (r : Range) : Str := (strGet s r.1 r.2).getD []

theorem textAt_mid (a b c : Str) : textAt (a ++ b ++ c) (blen a, blen a + blen b) = b := by
  unfold textAt
  rw [strGet_eq_some.2 ⟨a, c, rfl, rfl, rfl⟩]; rfl

theorem engineMatches_mono {s : Str} {ms : List Range} {a b : Nat} (h : a ≤ b) (hm : EngineMatches s b ms) :
    EngineMatches s a ms := by
  cases ms with
  | nil => trivial
  | cons m ms => exact ⟨Nat.le_trans h hm.1, hm.2⟩

def kindOf (k : Bool) : Nat := if k then 0 else 1

theorem wordMatches_spec (u : CharTables) (whole : Str) : ∀ (s pre : Str),
    (whole = pre ++ s → EngineMatches whole (blen pre) (wordMatches u none (blen pre) s) ∧
      (wordMatches u none (blen pre) s).map (textAt whole) = wordRuns u s) ∧
    ∀ (w : Str) (k : Bool), whole = pre ++ w ++ s → w ≠ [] → (∀ c ∈ w, wordKind u c = kindOf k) →
      EngineMatches whole (blen pre) (wordMatches u (some (blen pre, k)) (blen pre + blen w) s) ∧
      (wordMatches u (some (blen pre, k)) (blen pre + blen w) s).map (textAt whole) = wordRuns u (w ++ s)
  | [], pre => by
    refine ⟨fun _ => ⟨trivial, rfl⟩, fun w k hw hne hk => ?_⟩
    rw [wordMatches]
    refine ⟨⟨Nat.le_refl _, Nat.le_add_right .., ⟨pre, w, by simpa using hw, rfl⟩,
      ⟨pre ++ w, [], by simpa using hw, by simp⟩, trivial⟩, ?_⟩
    rw [wordRuns_append hne hk (by cases k <;> simp [kindOf]) (by simp)]
    have := textAt_mid pre w []
    rw [← hw] at this
    simp only [List.map_cons, List.map_nil, this]
    rfl
  | c :: s, pre => by
    have step : ∀ (q : Str) (k : Bool), whole = q ++ c :: s → wordKind u c = kindOf k →
        EngineMatches whole (blen q) (wordMatches u (some (blen q, k)) (blen q + c.utf8Size) s) ∧
        (wordMatches u (some (blen q, k)) (blen q + c.utf8Size) s).map (textAt whole) = wordRuns u (c :: s) := by
      intro q k hq hc
      have := (wordMatches_spec u whole s q).2 [c] k (by rw [hq]; simp) (by simp) (by simpa using hc)
      simpa using this
    have skip : ∀ q : Str, whole = q ++ c :: s → wordKind u c = 2 →
        EngineMatches whole (blen q) (wordMatches u none (blen q + c.utf8Size) s) ∧
        (wordMatches u none (blen q + c.utf8Size) s).map (textAt whole) = wordRuns u (c :: s) := by
      intro q hq hc
      obtain ⟨h1, h2⟩ := (wordMatches_spec u whole s (q ++ [c])).1 (by rw [hq]; simp)
      simp only [blen_append, blen_cons, blen_nil, Nat.add_zero] at h1 h2
      exact ⟨engineMatches_mono (by omega) h1, by rw [h2, wordRuns_space hc]⟩
    refine ⟨fun hp => ?_, fun w k hw hne hk => ?_⟩
    · rw [wordMatches]
      by_cases hc : u.reWord c = true
      · rw [if_pos hc]; exact step pre true hp (by simp [wordKind, hc, kindOf])
      · rw [if_neg hc]
        by_cases hs : u.reSpace c = true
        · rw [if_pos hs]; exact skip pre hp (by simp [wordKind, hc, hs])
        · rw [if_neg hs]; exact step pre false hp (by simp [wordKind, hc, hs, kindOf])
    · have hw' : whole = (pre ++ w) ++ c :: s := by rw [hw]
      have more : wordKind u c = kindOf k →
          EngineMatches whole (blen pre) (wordMatches u (some (blen pre, k)) (blen pre + blen w + c.utf8Size) s) ∧
          (wordMatches u (some (blen pre, k)) (blen pre + blen w + c.utf8Size) s).map (textAt whole)
            = wordRuns u (w ++ c :: s) := by
        intro hc
        have := (wordMatches_spec u whole s pre).2 (w ++ [c]) k (by rw [hw]; simp) (by simp) (by
          intro d hd
          rcases List.mem_append.1 hd with hd | hd
          · exact hk d hd
          · simp only [List.mem_singleton] at hd; rw [hd]; exact hc)
        simpa [Nat.add_assoc] using this
      have close : ∀ ms : List Range, wordKind u c ≠ kindOf k →
          EngineMatches whole (blen (pre ++ w)) ms ∧ ms.map (textAt whole) = wordRuns u (c :: s) →
          EngineMatches whole (blen pre) ((blen pre, blen pre + blen w) :: ms) ∧
          ((blen pre, blen pre + blen w) :: ms).map (textAt whole) = wordRuns u (w ++ c :: s) := by
        intro ms hc hms
        refine ⟨⟨Nat.le_refl _, Nat.le_add_right .., ⟨pre, w ++ c :: s, by rw [hw]; simp, rfl⟩,
          ⟨pre ++ w, c :: s, hw', by simp⟩, by simpa using hms.1⟩, ?_⟩
        rw [wordRuns_append hne hk (by cases k <;> simp [kindOf]) (by simpa using hc), List.map_cons, hms.2]
        have := textAt_mid pre w (c :: s)
        rw [← hw] at this
        rw [this]
      rw [wordMatches]
      by_cases hc : u.reWord c = true
      · rw [if_pos hc]
        cases k with
        | true => exact more (by simp [wordKind, hc, kindOf])
        | false =>
          refine close _ (by simp [wordKind, hc, kindOf]) ?_
          have := step (pre ++ w) true hw' (by simp [wordKind, hc, kindOf])
          simpa using this
      · rw [if_neg hc]
        by_cases hs : u.reSpace c = true
        · rw [if_pos hs]
          refine close _ (by cases k <;> simp [wordKind, hc, hs, kindOf]) ?_
          have := skip (pre ++ w) hw' (by simp [wordKind, hc, hs])
          simpa using this
        · rw [if_neg hs]
          cases k with
          | true =>
            refine close _ (by simp [wordKind, hc, hs, kindOf]) ?_
            have := step (pre ++ w) false hw' (by simp [wordKind, hc, hs, kindOf])
            simpa using this
          | false => exact more (by simp [wordKind, hc, hs, kindOf])

theorem cutAt_marked (s : Str) : ∀ (ms : List Range) (b : Nat),
    ((cutAt s b ms).filter (·.2)).map (·.1) = ms.map (textAt s)
  | [], b => by
    rw [cutAt]; split <;> simp
  | m :: ms, b => by
    rw [cutAt]
    have := cutAt_marked s ms m.2
    split <;> simp [this, textAt]

/-! ## `FixedLength` -/

theorem charIndices_take : ∀ (n b : Nat) (s : Str), (charIndices b s).take n = charIndices b (s.take n)
  | 0, _, _ => by simp [charIndices]
  | _ + 1, _, [] => rfl
  | n + 1, b, c :: s => by simp [charIndices, charIndices_take n]

theorem charIndices_drop : ∀ (n b : Nat) (s : Str),
    (charIndices b s).drop n = charIndices (b + blen (s.take n)) (s.drop n)
  | 0, _, _ => by simp
  | _ + 1, _, [] => rfl
  | n + 1, b, c :: s => by
    simp only [charIndices, List.drop_succ_cons, charIndices_drop n, List.take_succ_cons, blen_cons]
    rw [Nat.add_assoc]

theorem charIndices_last : ∀ (b : Nat) (c : Char) (s : Str),
    ((charIndices b (c :: s)).getLast?).map (fun p => p.1 + p.2.utf8Size) = some (b + blen (c :: s))
  | b, c, [] => by simp [charIndices]
  | b, c, d :: s => by
    have := charIndices_last (b + c.utf8Size) d s
    rw [charIndices, charIndices, List.getLast?_cons_cons, ← charIndices, this]
    simp; omega

theorem chunkRange_eq {len b : Nat} {s : Str} (h : s ≠ []) : chunkRange len (charIndices b s) = (b, b + blen s) := by
  cases s with
  | nil => exact absurd rfl h
  | cons c s =>
    unfold chunkRange
    rw [charIndices_last]
    rfl

theorem chunks_ranges {n : Nat} (hn : 0 < n) (whole : Str) : ∀ (fuel : Nat) (pre s : Str), whole = pre ++ s →
    ((chunks n fuel (charIndices (blen pre) s)).map (chunkRange (blen whole))).map (fun r => strGet whole r.1 r.2)
      = (chunks n fuel s).map some
  | 0, _, _, _ => rfl
  | fuel + 1, pre, [], _ => by simp [chunks, charIndices]
  | fuel + 1, pre, c :: s, hw => by
    have hne : (c :: s).take n ≠ [] := by
      cases n with
      | zero => omega
      | succ n => simp
    have hc : charIndices (blen pre) (c :: s) ≠ [] := by simp [charIndices]
    have ih := chunks_ranges hn whole fuel (pre ++ (c :: s).take n) ((c :: s).drop n) (by
      rw [List.append_assoc, List.take_append_drop]; exact hw)
    rw [chunks, if_neg hc, chunks, if_neg (by simp), charIndices_take, charIndices_drop, ← blen_append]
    simp only [List.map_cons]
    rw [ih, chunkRange_eq hne]
    congr 1
    exact strGet_eq_some.2 ⟨pre, (c :: s).drop n, by rw [List.append_assoc, List.take_append_drop]; exact hw, rfl, rfl⟩

theorem pieceCount_succ {n len : Nat} (hn : 0 < n) (hl : 0 < len) : pieceCount n len = pieceCount n (len - n) + 1 := by
  unfold pieceCount
  by_cases h : n ≤ len
  · have h1 : len / n = (len - n) / n + 1 := by rw [Nat.div_eq_sub_div hn h]
    have h2 : len % n = (len - n) % n := by rw [Nat.mod_eq_sub_mod h]
    rw [h1, h2]; omega
  · have h0 : len - n = 0 := by omega
    rw [h0, Nat.div_eq_of_lt (by omega), Nat.mod_eq_of_lt (by omega : len < n)]
    simp; omega

theorem chunks_eq {n : Nat} (hn : 0 < n) : ∀ (fuel : Nat) (s : Str), s.length ≤ fuel →
    chunks n fuel s = (List.range (pieceCount n s.length)).map fun i => (s.drop (i * n)).take n
  | 0, s, h => by
    have : s = [] := List.eq_nil_of_length_eq_zero (by omega)
    subst this; simp [chunks, pieceCount]
  | fuel + 1, [], _ => by simp [chunks, pieceCount]
  | fuel + 1, c :: s, h => by
    rw [chunks, if_neg (by simp), chunks_eq hn fuel _ (by simp at h ⊢; omega),
      pieceCount_succ (len := (c :: s).length) hn (by simp), List.range_succ_eq_map]
    simp only [List.length_drop, List.map_cons, Nat.zero_mul, List.drop_zero, List.map_map, List.cons.injEq, true_and]
    apply List.map_congr_left
    intro i _
    simp only [Function.comp_apply, List.drop_drop]
    rw [show n + i * n = (i + 1) * n by rw [Nat.add_mul]; omega]

/-! ## `UnicodeScripts` -/

theorem fixedScript_eq (u : CharTables) (c : Char) :
    scriptOf u c = if fixedScript u c = .any then none else some (fixedScript u c) := by
  unfold scriptOf fixedScript
  have e : c.toNat = 0x30FC ↔ c = 'ー' := by
    refine ⟨fun h => ?_, fun h => by rw [h]; decide⟩
    have := congrArg Char.ofNat h
    rw [Char.ofNat_toNat] at this
    rw [this]
  by_cases h1 : c = 'ー'
  · rw [if_pos h1, if_pos (e.2 h1)]; rfl
  · rw [if_neg h1, if_neg (fun h => h1 (e.1 h))]
    by_cases h2 : c = ' '
    · rw [if_pos (.inl h2), if_pos h2]; rfl
    · rw [if_neg h2]
      cases hs : u.script c <;> simp [h2]

theorem coloured_some (u : CharTables) : ∀ (s : Str) (k : Script), ∀ x ∈ coloured u (some k) s, x.2.isSome = true
  | [], _, x, h => by simp [coloured] at h
  | c :: s, k, x, h => by
    rw [coloured] at h
    have : ∃ k', (scriptOf u c).or (some k) = some k' := by cases scriptOf u c <;> exact ⟨_, rfl⟩
    obtain ⟨k', hk⟩ := this
    rw [hk] at h
    rcases List.mem_cons.1 h with rfl | h
    · rfl
    · exact coloured_some u s k' x h

theorem coloured_head (u : CharTables) (c : Char) (s : Str) (l : Option Script) :
    (coloured u l (c :: s)).head? = some (c, (scriptOf u c).or l) := rfl

theorem strGet_mid (a b c : Str) : strGet (a ++ b ++ c) (blen a) (blen a + blen b) = some b :=
  strGet_eq_some.2 ⟨a, c, rfl, rfl, rfl⟩

theorem scripts_open (u : CharTables) (whole : Str) : ∀ (s pre w : Str) (k : Script), whole = pre ++ w ++ s → w ≠ [] →
    k ≠ .any →
    (windows (blen pre :: (scriptStarts u (some k) (blen pre + blen w) s ++ [blen whole]))).map
        (fun r => strGet whole r.1 r.2) =
      (runs (·.2) (w.map (fun c => (c, some k)) ++ coloured u (some k) s)).map fun g => some (g.map (·.1))
  | [], pre, w, k, hw, hne, _ => by
    have hr := runs_append (fun x : Char × Option Script => x.2) (some k) (w.map fun c => (c, some k)) []
      (by simpa using hne) (by simp) (by simp)
    simp only [scriptStarts, List.nil_append, windows, List.map_cons, List.map_nil, coloured, hr, runs]
    rw [List.map_map]
    have := strGet_mid pre w []
    rw [← hw] at this
    rw [show blen whole = blen pre + blen w by rw [hw]; simp, this]
    simp [Function.comp_def]
  | c :: s, pre, w, k, hw, hne, hk => by
    have hw' : whole = (pre ++ w) ++ c :: s := by rw [hw]
    have more : (scriptOf u c).or (some k) = some k →
        (windows (blen pre :: (scriptStarts u (some k) (blen pre + blen w + c.utf8Size) s ++ [blen whole]))).map
          (fun r => strGet whole r.1 r.2) =
        (runs (·.2) (w.map (fun c => (c, some k)) ++ coloured u (some k) (c :: s))).map fun g => some (g.map (·.1)) := by
      intro hc
      have ih := scripts_open u whole s pre (w ++ [c]) k (by rw [hw]; simp) (by simp) hk
      rw [coloured, hc]
      simp only [List.map_append, List.map_cons, List.map_nil, List.append_assoc, List.singleton_append, blen_append,
        blen_cons, blen_nil, Nat.add_zero, ← Nat.add_assoc] at ih
      exact ih
    have hf := fixedScript_eq u c
    rw [scriptStarts]
    by_cases ha : fixedScript u c = .any
    · rw [if_neg (by simp [ha]), if_neg (by simp [ha])]
      exact more (by rw [hf, if_pos ha]; rfl)
    · rw [if_neg ha] at hf
      rw [if_pos (show some (fixedScript u c) ≠ some .any by simpa using ha)]
      by_cases hs : fixedScript u c = k
      · rw [if_neg (by simp [hs]), hs]
        exact more (by rw [hf, hs]; rfl)
      · rw [if_pos ⟨by simpa using ha, by simpa using hk, by simpa using fun h => hs h.symm⟩]
        have ih := scripts_open u whole s (pre ++ w) [c] (fixedScript u c) (by rw [hw]; simp) (by simp) ha
        rw [runs_append (fun x : Char × Option Script => x.2) (some k) (w.map fun c => (c, some k)) _
          (by simpa using hne) (by simp) (by rw [coloured_head, hf]; simpa using hs)]
        rw [List.cons_append, windows, List.map_cons, List.map_cons]
        have hg := strGet_mid pre w (c :: s)
        rw [← hw] at hg
        simp only [hg]
        congr 1
        · simp [Function.comp_def]
        · rw [coloured, hf]
          simpa using ih

theorem scripts_closed (u : CharTables) (whole : Str) : ∀ (s pre : Str), whole = pre ++ s →
    (windows (scriptStarts u none (blen pre) s ++ [blen whole])).map (fun r => strGet whole r.1 r.2) =
      ((runs (·.2) (coloured u none s)).filter fun w => w.all (·.2.isSome)).map fun g => some (g.map (·.1))
  | [], pre, hw => rfl
  | c :: s, pre, hw => by
    have hf := fixedScript_eq u c
    rw [scriptStarts]
    by_cases ha : fixedScript u c = .any
    · rw [if_neg (by simp [ha]), if_neg (by simp [ha])]
      have ih := scripts_closed u whole s (pre ++ [c]) (by rw [hw]; simp)
      rw [if_pos ha] at hf
      rw [coloured, hf, runs]
      have := filter_addRun (fun x : Char × Option Script => x.2) (fun x => x.2.isSome) (c, none) (by
        intro b hb; rw [hb]; rfl) (runs (·.2) (coloured u none s))
      rw [show (none : Option Script).or none = none from rfl, this, ← ih]
      simp
    · rw [if_neg ha] at hf
      rw [if_pos (show some (fixedScript u c) ≠ some .any by simpa using ha), if_pos ⟨by simpa using ha, by simp, by simp⟩]
      have h := scripts_open u whole s pre [c] (fixedScript u c) (by rw [hw]; simp) (by simp) ha
      rw [coloured, hf]
      have hc : (some (fixedScript u c)).or none = some (fixedScript u c) := rfl
      rw [hc]
      rw [filter_runs_all (fun x : Char × Option Script => x.2) (fun x => x.2.isSome)]
      · simpa using h
      · intro x hx
        rcases List.mem_cons.1 hx with rfl | hx
        · rfl
        · exact coloured_some u s _ x hx

end Tok.PreTokenizer
