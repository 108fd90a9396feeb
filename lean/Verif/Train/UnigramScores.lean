import Verif.Train.UnigramCover

/-!
# C61: the seeds of Unigram training, and the scores of the trained model
-/

namespace Tok.Train

open Tok.Unigram

/-! ### Seeds -/

theorem count_rec (k : Nat) (ch : Char) : ∀ (s : Str) (m : AMap Char Nat), m.WF →
    let m' := s.foldl (fun m c => if c = '\x00' then m else AMap.insert m c ((m.get c).getD 0 + k)) m
    m'.WF ∧ m'.get ch = if ch = '\x00' ∨ ch ∉ s then m.get ch else some ((m.get ch).getD 0 + k * s.count ch)
  | [], m, h => ⟨h, by simp⟩
  | c :: s, m, h => by
    simp only [List.foldl_cons]
    by_cases hc : c = '\x00'
    · rw [if_pos hc]
      obtain ⟨h1, h2⟩ := count_rec k ch s m h
      refine ⟨h1, ?_⟩
      rw [h2]
      by_cases h0 : ch = '\x00'
      · simp [h0]
      · have : ch ≠ c := fun e => h0 (e.trans hc)
        simp [h0, this, Ne.symm this]
    · rw [if_neg hc]
      obtain ⟨h1, h2⟩ := count_rec k ch s _ (h.insert c ((m.get c).getD 0 + k))
      refine ⟨h1, ?_⟩
      rw [h2, AMap.get_insert]
      by_cases hce : c = ch
      · subst hce
        rw [if_pos rfl]
        simp only [hc, false_or, List.mem_cons, true_or, not_true_eq_false, if_false, Option.getD_some, List.count_cons_self]
        by_cases hm : c ∈ s
        · simp only [hm, not_true_eq_false, if_false, Nat.mul_succ]
          congr 1; omega
        · have := List.count_eq_zero_of_not_mem hm
          simp [hm, this]
      · simp [hce, Ne.symm hce]

/-- How often a character is in the corpus. -/
def corpusFreq (sentences : List (Str × Nat)) (ch : Char) : Nat := (sentences.map fun st => st.2 * st.1.count ch).sum

theorem charCounts_get (ch : Char) (sentences : List (Str × Nat)) :
    (charCounts sentences).WF ∧ (charCounts sentences).get ch =
      if ch ≠ '\x00' ∧ ∃ st ∈ sentences, ch ∈ st.1 then some (corpusFreq sentences ch) else none := by
  have key : ∀ (l : List (Str × Nat)) (m : AMap Char Nat), m.WF →
      let m' := l.foldl (fun m st => st.1.foldl (fun m c =>
        if c = '\x00' then m else AMap.insert m c ((m.get c).getD 0 + st.2)) m) m
      m'.WF ∧ m'.get ch = if ch ≠ '\x00' ∧ ∃ st ∈ l, ch ∈ st.1 then some ((m.get ch).getD 0 + corpusFreq l ch) else m.get ch := by
    intro l
    induction l with
    | nil => intro m h; exact ⟨h, by simp⟩
    | cons st l ih =>
      intro m h
      obtain ⟨g1, g2⟩ := count_rec st.2 ch st.1 m h
      obtain ⟨k1, k2⟩ := ih _ g1
      refine ⟨k1, ?_⟩
      simp only [List.foldl_cons]
      rw [k2, g2]
      by_cases h0 : ch = '\x00'
      · simp [h0]
      · by_cases hs : ch ∈ st.1
        · by_cases hl : ∃ st ∈ l, ch ∈ st.1
          · simp [h0, hs, hl, corpusFreq, Nat.add_assoc]
          · have hz : corpusFreq l ch = 0 := by
              have : ∀ l : List (Str × Nat), (¬ ∃ st ∈ l, ch ∈ st.1) → corpusFreq l ch = 0 := by
                intro l
                induction l with
                | nil => intro _; rfl
                | cons a l ih =>
                  intro h
                  have h1 : ch ∉ a.1 := fun e => h ⟨a, by simp, e⟩
                  have h2 := ih (fun ⟨b, hb, e⟩ => h ⟨b, by simp [hb], e⟩)
                  simp only [corpusFreq, List.map_cons, List.sum_cons, List.count_eq_zero_of_not_mem h1, Nat.mul_zero,
                    Nat.zero_add] at *
                  exact h2
              exact this l hl
            have e : corpusFreq (st :: l) ch = st.2 * st.1.count ch + corpusFreq l ch := rfl
            simp [h0, hs, hl, e, hz]
        · have e : corpusFreq (st :: l) ch = corpusFreq l ch := by
            simp [corpusFreq, List.count_eq_zero_of_not_mem hs]
          have e2 : (∃ st' ∈ st :: l, ch ∈ st'.1) ↔ ∃ st' ∈ l, ch ∈ st'.1 := by simp [hs]
          simp only [e, e2]
          simp [h0, hs]
  obtain ⟨h1, h2⟩ := key sentences [] AMap.WF.nil
  exact ⟨h1, by rw [charCounts, h2]; simp [AMap.get]⟩

theorem pushSeeds_eq {size : Nat} : ∀ (l : List (Nat × Str)) (acc : List Scored), pushSeeds size acc l =
    acc ++ (l.take (max 1 (size - acc.length))).map fun p => (p.2, (p.1 : Rat))
  | [], acc => by simp [pushSeeds]
  | p :: l, acc => by
    simp only [pushSeeds]
    split
    · rename_i h
      simp only [List.length_append, List.length_cons, List.length_nil] at h
      rw [show max 1 (size - acc.length) = 0 + 1 by omega, List.take_succ_cons]
      simp
    · rename_i h
      simp only [List.length_append, List.length_cons, List.length_nil] at h
      rw [pushSeeds_eq l, show max 1 (size - acc.length) = max 1 (size - (acc ++ [(p.2, (p.1 : Rat))]).length) + 1 by
        simp only [List.length_append, List.length_cons, List.length_nil]; omega, List.take_succ_cons]
      simp

theorem sorted_rev {κ : Type} (le : κ → κ → Bool) (ht : ∀ a b, le a b = true ∨ le b a = true)
    (htr : ∀ a b c, le a b = true → le b c = true → le a c = true) (l : List (Nat × κ)) :
    (sortLe (revLe le) l).Pairwise fun a b => b.1 ≤ a.1 := by
  have := sortLe_sorted (le := revLe le)
    (fun a b => by
      unfold revLe
      simp only [Bool.or_eq_true, decide_eq_true_eq, Bool.and_eq_true]
      rcases Nat.lt_trichotomy a.1 b.1 with h | h | h
      · exact .inr (.inl h)
      · rcases ht a.2 b.2 with g | g
        · exact .inr (.inr ⟨h.symm, g⟩)
        · exact .inl (.inr ⟨h, g⟩)
      · exact .inl (.inl h))
    (fun a b c h1 h2 => by
      unfold revLe at *
      simp only [Bool.or_eq_true, decide_eq_true_eq, Bool.and_eq_true] at *
      rcases h1 with h1 | ⟨h1, g1⟩ <;> rcases h2 with h2 | ⟨h2, g2⟩
      · exact .inl (by omega)
      · exact .inl (by omega)
      · exact .inl (by omega)
      · exact .inr ⟨by omega, htr _ _ _ g2 g1⟩) l
  apply this.imp
  intro a b h
  unfold revLe at h
  simp only [Bool.or_eq_true, decide_eq_true_eq, Bool.and_eq_true] at h
  omega

theorem charsLe_total : ∀ a b, charsLe a b = true ∨ charsLe b a = true
  | [], b => .inl (by cases b <;> rfl)
  | a :: s, [] => .inr rfl
  | a :: s, b :: t => by
    simp only [charsLe, Bool.or_eq_true, decide_eq_true_eq, Bool.and_eq_true]
    rcases Nat.lt_trichotomy a.val.toNat b.val.toNat with h | h | h
    · exact .inl (.inl h)
    · have h : a.val = b.val := UInt32.toNat_inj.1 h
      rcases charsLe_total s t with g | g
      · exact .inl (.inr ⟨h, g⟩)
      · exact .inr (.inr ⟨h.symm, g⟩)
    · exact .inr (.inl h)

theorem charsLe_trans : ∀ a b c, charsLe a b = true → charsLe b c = true → charsLe a c = true
  | [], _, c, _, _ => by cases c <;> rfl
  | _ :: _, [], _, h, _ => by cases h
  | _ :: _, _ :: _, [], _, h => by cases h
  | a :: s, b :: t, c :: r, h1, h2 => by
    simp only [charsLe, Bool.or_eq_true, decide_eq_true_eq, Bool.and_eq_true] at *
    rcases h1 with h1 | ⟨h1, g1⟩ <;> rcases h2 with h2 | ⟨h2, g2⟩
    · exact .inl (UInt32.lt_trans h1 h2)
    · exact .inl (h2 ▸ h1)
    · exact .inl (h1 ▸ h2)
    · exact .inr ⟨h1.trans h2, charsLe_trans _ _ _ g1 g2⟩

/-- **C61, seeds.** The seeds are first the characters of the corpus but `\0`, by falling frequency, then substrings of the
suffix array that have between two and `max_piece_length` characters, none of them `\0`, by falling product of frequency and
length, until there are `seed_size` (but one at least). The scores are the logarithms of these numbers, minus the logarithm
of their sum. -/
theorem C61_seeds (c : UniCfg) (ln : Rat → Rat) (suffix sentences : List (Str × Nat)) :
    ∃ (chars : List (Char × Nat)) (ranked : List (Str × Nat)),
      (chars.map (·.1)).Nodup ∧
      (∀ ch n, (ch, n) ∈ chars ↔ ch ≠ '\x00' ∧ (∃ st ∈ sentences, ch ∈ st.1) ∧ n = corpusFreq sentences ch) ∧
      chars.Pairwise (fun a b => b.2 ≤ a.2) ∧
      ranked.Perm ((suffix.filter fun p => 2 ≤ p.1.length ∧ p.1.length ≤ c.maxPiece ∧ '\x00' ∉ p.1).map
        fun p => (p.1, p.2 * p.1.length)) ∧
      ranked.Pairwise (fun a b => b.2 ≤ a.2) ∧
      let all : List (Str × Nat) := chars.map (fun p => ([p.1], p.2)) ++ ranked.take (max 1 (c.seedSize - chars.length))
      c.seeds ln suffix sentences = all.map fun p => (p.1, ln p.2 - ln ((all.map fun q => (q.2 : Rat)).sum)) := by
  let cs := sortLe (revLe fun a b : Char => decide (a.val ≤ b.val)) ((charCounts sentences).map fun p => (p.2, p.1))
  let rs := sortLe (revLe charsLe) (c.substrings suffix)
  have hcp := sortLe_perm (revLe fun a b : Char => decide (a.val ≤ b.val)) ((charCounts sentences).map fun p => (p.2, p.1))
  have hrp := sortLe_perm (revLe charsLe) (c.substrings suffix)
  have hcs : (cs.map fun p => (p.2, p.1)).Perm (charCounts sentences) := by
    have := hcp.map (fun p : Nat × Char => (p.2, p.1))
    rw [List.map_map] at this
    simpa [Function.comp_def] using this
  refine ⟨cs.map fun p => (p.2, p.1), rs.map fun p => (p.2, p.1), ?_, ?_, ?_, ?_, ?_, ?_⟩
  · exact (hcs.map _).nodup_iff.2 (charCounts_get 'a' sentences).1
  · intro ch n
    rw [hcs.mem_iff]
    obtain ⟨h1, h2⟩ := charCounts_get ch sentences
    constructor
    · intro h
      have := AMap.get_eq_some_of_mem h1 h
      rw [h2] at this
      split at this
      · rename_i h
        exact ⟨h.1, h.2, (Option.some.inj this).symm⟩
      · cases this
    · rintro ⟨g1, g2, rfl⟩
      apply AMap.mem_of_get_eq_some
      rw [h2, if_pos ⟨g1, g2⟩]
  · rw [List.pairwise_map]
    exact sorted_rev _ (fun a b => by simpa using UInt32.le_total a.val b.val)
      (fun a b c h1 h2 => by simp only [decide_eq_true_eq] at *; exact UInt32.le_trans h1 h2) _
  · have := hrp.map (fun p : Nat × Str => (p.2, p.1))
    refine this.trans ?_
    unfold UniCfg.substrings
    rw [List.map_map]
    refine List.Perm.of_eq ?_
    have hf : (fun p : Str × Nat => decide (1 < p.1.length) && !p.1.contains '\x00' && c.validPiece p.1) =
        fun p => decide (2 ≤ p.1.length ∧ p.1.length ≤ c.maxPiece ∧ '\x00' ∉ p.1) := by
      funext p
      rw [Bool.eq_iff_iff]
      simp only [UniCfg.validPiece, Bool.and_eq_true, decide_eq_true_eq, Bool.not_eq_true', List.contains_eq_mem,
        decide_eq_false_iff_not, List.isEmpty_eq_false_iff]
      constructor
      · rintro ⟨⟨h1, h2⟩, -, h3⟩; exact ⟨h1, h3, h2⟩
      · rintro ⟨h1, h3, h2⟩
        exact ⟨⟨h1, h2⟩, by intro e; rw [e] at h1; simp at h1, h3⟩
    rw [hf]
    rfl
  · rw [List.pairwise_map]
    exact sorted_rev _ charsLe_total charsLe_trans _
  · dsimp only
    unfold UniCfg.seeds toLogProb
    simp only [pushSeeds_eq]
    simp only [List.map_append, List.map_map, List.map_take, List.length_map, Function.comp_def]
    rfl

/-! ### Scores -/

/-- Filling up stops only when the size is reached. -/
theorem fillPieces_full {limit : Nat} : ∀ (l acc : List Scored) (ins : List Str), ∃ pre suf, l = pre ++ suf ∧
    (∀ p ∈ pre, p.1 ∈ ins ∨ p.1 ∈ (fillPieces limit acc ins l).map (·.1)) ∧
    (∀ p ∈ fillPieces limit acc ins l, p ∈ acc ∨ p ∈ pre) ∧
    (suf = [] ∨ (fillPieces limit acc ins l).length = limit)
  | [], acc, ins => ⟨[], [], rfl, by simp, by simp [fillPieces], .inl rfl⟩
  | p :: l, acc, ins => by
    unfold fillPieces
    split
    · rename_i hp
      obtain ⟨pre, suf, rfl, h2, h3, h4⟩ := fillPieces_full l acc ins
      refine ⟨p :: pre, suf, rfl, ?_, ?_, h4⟩
      · intro q hq
        rcases List.mem_cons.1 hq with rfl | hq
        · exact .inl hp
        · exact h2 q hq
      · intro q hq
        exact (h3 q hq).imp_right (by intro h; simp [h])
    · rename_i hp
      dsimp only
      split
      · rename_i hl
        exact ⟨[p], l, rfl, by simp, by simp, .inr hl⟩
      · obtain ⟨pre, suf, rfl, h2, h3, h4⟩ := fillPieces_full l (acc ++ [p]) (p.1 :: ins)
        refine ⟨p :: pre, suf, rfl, ?_, ?_, h4⟩
        · have hpin : p.1 ∈ (fillPieces limit (acc ++ [p]) (p.1 :: ins) (pre ++ suf)).map (·.1) := by
            obtain ⟨added, e, -⟩ := fillPieces_spec (limit := limit) (pre ++ suf) (acc ++ [p]) (p.1 :: ins)
            rw [e]
            simp
          intro q hq
          rcases List.mem_cons.1 hq with rfl | hq
          · exact .inr hpin
          · rcases h2 q hq with h | h
            · rcases List.mem_cons.1 h with e | h
              · exact .inr (e ▸ hpin)
              · exact .inl h
            · exact .inr h
        · intro q hq
          rcases h3 q hq with h | h
          · rw [List.mem_append] at h
            rcases h with h | h
            · exact .inl h
            · right; simp at h; simp [h]
          · right; simp [h]

theorem requiredPieces_scores {ex : AMap Str Rat} {ms : Rat} : ∀ (l : List Str) (pen : Rat),
    (∀ p ∈ requiredPieces ex ms pen l, ex.get p.1 = some p.2 ∨ ex.get p.1 = none) ∧
    ∀ (k : Nat) t, (l.filter fun s => (ex.get s).isNone)[k]? = some t →
      (t, ms + (pen + (k : Rat) / 10000)) ∈ requiredPieces ex ms pen l
  | [], _ => by simp [requiredPieces]
  | s :: l, pen => by
    unfold requiredPieces
    cases hs : ex.get s with
    | some t =>
      obtain ⟨h1, h2⟩ := requiredPieces_scores (ex := ex) (ms := ms) l pen
      refine ⟨?_, ?_⟩
      · intro p hp
        rcases List.mem_cons.1 hp with rfl | hp
        · exact .inl hs
        · exact h1 p hp
      · intro k t' h
        rw [List.filter_cons, if_neg (by simp [hs])] at h
        exact List.mem_cons_of_mem _ (h2 k t' h)
    | none =>
      obtain ⟨h1, h2⟩ := requiredPieces_scores (ex := ex) (ms := ms) l (pen + 1 / 10000)
      refine ⟨?_, ?_⟩
      · intro p hp
        rcases List.mem_cons.1 hp with rfl | hp
        · exact .inr hs
        · exact h1 p hp
      · intro k t' h
        rw [List.filter_cons, if_pos (by simp [hs])] at h
        cases k with
        | zero =>
          simp at h
          subst h
          have : ms + (pen + ((0 : Nat) : Rat) / 10000) = ms + pen := by
            rw [show ((0 : Nat) : Rat) / 10000 = 0 by decide +kernel, Rat.add_zero]
          rw [this]
          exact List.mem_cons_self
        | succ k =>
          simp only [List.getElem?_cons_succ] at h
          have := h2 k t' h
          have e : pen + ((k + 1 : Nat) : Rat) / 10000 = pen + 1 / 10000 + (k : Rat) / 10000 := by grind
          rw [e]
          exact List.mem_cons_of_mem _ this

theorem notMin_spec : ∀ (rest : List Scored), rest ≠ [] → (∃ t, (t, notMin rest) ∈ rest)
  | [], h => absurd rfl h
  | p :: l, _ => by
    have : ∀ (l : List Scored) (m : Rat), (l.foldl (fun m q => if m < q.2 then q.2 else m) m) = m ∨
        ∃ t, (t, l.foldl (fun m q => if m < q.2 then q.2 else m) m) ∈ l := by
      intro l
      induction l with
      | nil => intro m; exact .inl rfl
      | cons q l ih =>
        intro m
        rw [List.foldl_cons]
        split
        · rcases ih q.2 with h | ⟨t, h⟩
          · right
            rw [h]
            exact ⟨q.1, by simp⟩
          · exact .inr ⟨t, by simp [h]⟩
        · rcases ih m with h | ⟨t, h⟩
          · exact .inl h
          · exact .inr ⟨t, by simp [h]⟩
    rcases this l p.2 with h | ⟨t, h⟩
    · exact ⟨p.1, by simp only [notMin]; rw [h]; simp⟩
    · exact ⟨t, by simp only [notMin]; simp [h]⟩

/-- **C61, scores.** Training ends with pieces `rest` and their scores. The entries of the model after the special tokens,
which score 0, are pieces of `rest` with the same score, and the needed characters that are not in `rest`. The `k`-th of these
scores the least score in `rest` plus `k` / 10000. A piece of `rest` is left out only if the size is reached, and those left
out are the last ones (whatever their scores, see `C61_better_left_out`). -/
theorem C61_scores {c : UniCfg} {ar : Arith} {order : List Char → List Char} (ho : SetOrder order)
    {suffix sentences : List (Str × Nat)} {fuel : Nat} {u : Unigram}
    (h : c.doTrain ar order suffix sentences fuel = some (.ok u)) :
    ∃ rest heads pieces, c.emLoop ar sentences fuel (c.seeds ar.ln suffix sentences) = some (some rest) ∧
      u.vocab = heads ++ pieces ∧ (∀ p ∈ heads, p.2 = 0) ∧
      (∀ p ∈ pieces, p ∈ rest ∨ p.1 ∉ rest.map (·.1)) ∧
      (rest ≠ [] → ∀ m, IsMinScore rest m → ∃ missing : List Char, missing.Nodup ∧
        (∀ ch, ch ∈ missing ↔ Needed c sentences ch ∧ [ch] ∉ rest.map (·.1)) ∧
        ∀ (k : Nat) ch, missing[k]? = some ch → ([ch], m + (k : Rat) / 10000) ∈ pieces) ∧
      ∃ pre suf, rest = pre ++ suf ∧ (∀ p ∈ pre, p.1 = "<UNK>".toList ∨ p.1 ∈ pieces.map (·.1)) ∧
        (suf = [] ∨ heads.length + pieces.length = c.vocabSize) ∧
        ∀ p ∈ pieces, p ∈ pre ∨ ∃ ch, p.1 = [ch] ∧ Needed c sentences ch := by
  unfold UniCfg.doTrain at h
  dsimp only at h
  split at h
  · cases h
  simp only [Option.map_eq_some_iff] at h
  obtain ⟨r, hloop, h⟩ := h
  split at h
  · cases h
  rename_i rest
  split at h
  · cases h
  rename_i tm htm
  split at h
  case h_2 => cases h
  case h_3 => cases h
  rename_i v hfin
  cases h
  unfold UniCfg.finalize at hfin
  split at hfin
  · cases hfin
  rename_i limit hlim
  dsimp only at hfin
  split at hfin
  · cases hfin
  rename_i w hfrom
  cases hfin
  obtain ⟨e1, e2, -⟩ := from_inv hfrom
  obtain ⟨hnd, hmem⟩ := ho (sentences.flatMap (·.1) ++ c.alphabet)
  have hneed : ∀ ch, Needed c sentences ch ↔ ch ∈ order (sentences.flatMap (·.1) ++ c.alphabet) := by
    intro ch
    rw [hmem]
    simp only [Needed, List.mem_append, List.mem_flatMap]
    exact Or.comm
  have hunk1 : ∀ ch : Char, unkPiece ≠ [ch] := by intro ch; simp [unkPiece]
  let ex : AMap Str Rat := AMap.extend [] ((unkPiece, notMin rest) :: rest)
  have hex : ∀ t, ex.get t = ((((unkPiece, notMin rest) :: rest).reverse.find? fun p => p.1 = t).map (·.2)) := by
    intro t
    have := get_extend ((unkPiece, notMin rest) :: rest) ([] : AMap Str Rat) t
    simpa [AMap.get] using this
  have hexsome : ∀ t sc, t ≠ unkPiece → ex.get t = some sc → (t, sc) ∈ rest := by
    intro t sc ht hs
    rw [hex, Option.map_eq_some_iff] at hs
    obtain ⟨p, hp, rfl⟩ := hs
    have h1 := List.mem_of_find?_eq_some hp
    have h2 := List.find?_some hp
    simp only [decide_eq_true_eq] at h2
    rw [List.mem_reverse] at h1
    rcases List.mem_cons.1 h1 with rfl | h1
    · exact absurd h2.symm ht
    · rw [← h2]; exact h1
  have hexnone : ∀ t, ex.get t = none → t ∉ rest.map (·.1) := by
    intro t hs hm
    rw [hex, Option.map_eq_none_iff, List.find?_eq_none] at hs
    obtain ⟨p, hp, rfl⟩ := List.mem_map.1 hm
    exact hs p (by simp [hp]) (by simp)
  let req := c.required order sentences
  have hreq : ∀ t, t ∈ req ↔ ∃ ch, t = [ch] ∧ Needed c sentences ch := by
    intro t
    simp only [req, UniCfg.required, List.mem_map]
    constructor
    · rintro ⟨ch, h1, rfl⟩; exact ⟨ch, rfl, (hneed ch).2 h1⟩
    · rintro ⟨ch, rfl, h1⟩; exact ⟨ch, (hneed ch).1 h1, rfl⟩
  let first := requiredPieces ex tm.minScore 0 req
  have hft : first.map (·.1) = req := requiredPieces_texts _ _
  obtain ⟨added, a1, a2, a3, a4, -⟩ := fillPieces_spec (limit := limit) ((unkPiece, notMin rest) :: rest) first
    (req ++ [unkPiece])
  obtain ⟨pre, suf, b1, b2, b3, b4⟩ := fillPieces_full (limit := limit) ((unkPiece, notMin rest) :: rest) first
    (req ++ [unkPiece])
  have hperm := sortLe_perm (fun a b : Scored => decide (b.2 ≤ a.2)) (fillPieces limit first
    (req ++ [unkPiece]) ((unkPiece, notMin rest) :: rest))
  obtain ⟨s1, s2⟩ := requiredPieces_scores (ex := ex) (ms := tm.minScore) req 0
  have hheadlen : c.heads.length + limit = c.vocabSize := by
    rw [heads_length]
    unfold UniCfg.limit at hlim
    dsimp only at hlim
    generalize c.special.length + (if c.unkPlace.2 = true then 1 else 0) = n at *
    split at hlim
    · rename_i hle
      cases hlim
      omega
    · cases hlim
  refine ⟨rest, c.heads, _, hloop, e1, ?_, ?_, ?_, ?_⟩
  · intro p hp
    unfold UniCfg.heads at hp
    rcases List.mem_append.1 hp with hp | hp
    · split at hp
      · simp at hp; rw [hp]
      · cases hp
    · obtain ⟨t, -, rfl⟩ := List.mem_map.1 hp
      rfl
  · intro p hp
    have hp := hperm.subset hp
    rw [a1] at hp
    rcases List.mem_append.1 hp with hp | hp
    · obtain ⟨ch, hch, -⟩ := (hreq p.1).1 (by rw [← hft]; exact List.mem_map_of_mem hp)
      rcases s1 p hp with h | h
      · exact .inl (hexsome _ _ (by rw [hch]; exact (hunk1 ch).symm) h)
      · exact .inr (hexnone _ h)
    · rcases List.mem_cons.1 (a2.subset hp) with rfl | h
      · exact absurd (by simp) (a4 _ hp)
      · exact .inl h
  · intro hne m hm
    have hmin : tm.minScore = m := by
      apply (made_of_from htm).minScore
      obtain ⟨t, ht⟩ := notMin_spec rest hne
      refine ⟨hm.1.imp fun t h => by simp [h], ?_⟩
      intro p hp
      rcases List.mem_cons.1 hp with rfl | hp
      · exact hm.2 (t, notMin rest) ht
      · exact hm.2 p hp
    refine ⟨(order (sentences.flatMap (·.1) ++ c.alphabet)).filter fun ch => (ex.get [ch]).isNone, hnd.filter _, ?_, ?_⟩
    · intro ch
      rw [List.mem_filter, ← hneed]
      constructor
      · rintro ⟨h1, h2⟩
        exact ⟨h1, hexnone _ (by simpa using h2)⟩
      · rintro ⟨h1, h2⟩
        refine ⟨h1, ?_⟩
        cases hg : ex.get [ch] with
        | none => rfl
        | some sc => exact absurd (List.mem_map_of_mem (f := (·.1)) (hexsome _ sc (hunk1 ch).symm hg)) h2
    · intro k ch hk
      rw [hperm.mem_iff, a1, List.mem_append]
      left
      have this := s2 k [ch] (by
        have e : (req.filter fun s => (ex.get s).isNone) =
            ((order (sentences.flatMap (·.1) ++ c.alphabet)).filter fun ch => (ex.get [ch]).isNone).map fun ch => [ch] := by
          simp only [req, UniCfg.required]
          rw [List.filter_map]
          rfl
        rw [e, List.getElem?_map, hk]
        rfl)
      rw [Rat.zero_add] at this
      rw [← hmin]
      exact this
  · cases pre with
    | nil =>
      rw [List.nil_append] at b1
      have hl : (fillPieces limit first (req ++ [unkPiece]) ((unkPiece, notMin rest) :: rest)).length = limit :=
        b4.resolve_left (by rw [← b1]; simp)
      refine ⟨[], rest, rfl, by simp, .inr (by rw [hperm.length_eq, hl]; exact hheadlen), ?_⟩
      intro p hp
      right
      rcases b3 p (hperm.subset hp) with h | h
      · exact (hreq p.1).1 (by rw [← hft]; exact List.mem_map_of_mem h)
      · cases h
    | cons q pre =>
      rw [List.cons_append, List.cons.injEq] at b1
      obtain ⟨rfl, b1⟩ := b1
      refine ⟨pre, suf, b1, ?_, ?_, ?_⟩
      · intro p hp
        rcases b2 p (by simp [hp]) with h | h
        · rcases List.mem_append.1 h with h | h
          · right
            rw [(hperm.map _).mem_iff, a1, List.map_append, List.mem_append, hft]
            exact .inl h
          · left; simpa [unkPiece] using h
        · right
          rw [(hperm.map _).mem_iff]
          exact h
      · rcases b4 with h | h
        · exact .inl h
        · right; rw [hperm.length_eq, h]; exact hheadlen
      · intro p hp
        have hp := hperm.subset hp
        rw [a1] at hp
        rcases List.mem_append.1 hp with hp | hp
        · right
          exact (hreq p.1).1 (by rw [← hft]; exact List.mem_map_of_mem hp)
        · have : p ∈ fillPieces limit first (req ++ [unkPiece]) ((unkPiece, notMin rest) :: rest) := by
            rw [a1]; simp [hp]
          rcases b3 p this with h | h
          · right
            exact (hreq p.1).1 (by rw [← hft]; exact List.mem_map_of_mem h)
          · rcases List.mem_cons.1 h with rfl | h
            · exact absurd (by simp) (a4 _ hp)
            · exact .inl h

/-! ### A sample -/

/-- The entries of the model trained, if there is one. -/
def trainedVocab : Option (Outcome UniTrainErr Unigram) → List Scored
  | some (.ok u) => u.vocab
  | _ => []

/-- The counts expected on the corpus `aaa`, twice: it is mostly one piece. -/
def aaaArith : Arith where
  ln x := x
  digamma x := x
  expected u _ := u.vocab.map fun p => match p.1.length with
    | 1 => 1
    | 2 => 1
    | 3 => 2
    | _ => 0
  heap := listHeap
  steps := 100

def aaaCfg : UniCfg := { vocabSize := 5, special := ["<s>".toList], alphabet := ['b', 'c'] }

/-- **C61, what is wrong (`C61_better_left_out`).** The pieces are pushed in the order of training, not by score: there is
room for one more piece after the characters, and `aa` gets it although `aaa`, which is left out, has a better score. (`b` and
`c`, which are not in the corpus, get the least score plus 0 and plus 1/10000.) -/
theorem C61_better_left_out :
    aaaCfg.emLoop aaaArith [("aaa".toList, 2)] 3 (aaaCfg.seeds aaaArith.ln [("aa".toList, 4), ("aaa".toList, 2)]
      [("aaa".toList, 2)]) = some (some [("a".toList, -3), ("aa".toList, -3), ("aaa".toList, -2)]) ∧
    trainedVocab (aaaCfg.doTrain aaaArith dedupOrder [("aa".toList, 4), ("aaa".toList, 2)] [("aaa".toList, 2)] 3) =
      [("<s>".toList, 0), ("c".toList, -3 + 1 / 10000), ("a".toList, -3), ("b".toList, -3), ("aa".toList, -3)] := by
  constructor <;> decide +kernel

/-- The seeds of this corpus. -/
example : aaaCfg.seeds (fun x => x) [("aa".toList, 4), ("aaa".toList, 2), ("a\x00".toList, 7)] [("aaa".toList, 2)] =
    [("a".toList, 6 - 20), ("aa".toList, 8 - 20), ("aaa".toList, 6 - 20)] := by decide +kernel

end Tok.Train
