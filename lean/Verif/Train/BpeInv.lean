import Verif.Train.BpeRound

/-!
# The invariant of the training loop
-/

namespace Tok.Train

/-- A non-empty run of initial ids of some word. -/
def Factor (words0 : List (List Nat)) (x : Seg) : Prop := x ≠ [] ∧ ∃ w ∈ words0, x <:+: w

/-- What is assumed of the initial words: `str` gives the string of a run of initial symbols, as the trainer would build it,
and two different runs have different strings. -/
structure Readable (pre : Option Str) (words0 : List (List Nat)) (str : Seg → Str) : Prop where
  inj : ∀ x y, Factor words0 x → Factor words0 y → str x = str y → x = y
  cat : ∀ x y, x ≠ [] → y ≠ [] → Factor words0 (x ++ y) → str (x ++ y) = str x ++ stripPre pre (str y)

/-- `word_to_id` and `id_to_word` are inverse. -/
structure VocOk (v : Voc) : Prop where
  inv : ∀ (t : Str) (i : Nat), v.w2id.get t = some i ↔ v.id2w[i]? = some t
  wf : v.w2id.WF
  len : v.w2id.length = v.id2w.length

theorem VocOk.inj {v : Voc} (h : VocOk v) {i j : Nat} {t : Str} (hi : v.id2w[i]? = some t) (hj : v.id2w[j]? = some t) :
    i = j := by
  rw [← h.inv] at hi hj
  rw [hi] at hj
  exact Option.some.inj hj

theorem VocOk.nil : VocOk ⟨[], []⟩ := ⟨by intro t i; simp [AMap.get], AMap.WF.nil, rfl⟩

theorem add_mono (v : Voc) (s : Str) : ∀ (i : Nat) t, v.id2w[i]? = some t → (v.add s).id2w[i]? = some t := by
  intro i t h
  unfold Voc.add
  split
  · exact h
  · simp only
    have := (List.getElem?_eq_some_iff.1 h).1
    rw [List.getElem?_append_left this]
    exact h

theorem add_ok {v : Voc} (h : VocOk v) (s : Str) : VocOk (v.add s) := by
  unfold Voc.add
  split
  · exact h
  · rename_i hn
    refine ⟨fun t i => ?_, h.wf.insert _ _, ?_⟩
    · simp only [AMap.get_insert]
      by_cases hs : s = t
      · subst hs
        rw [if_pos rfl]
        constructor
        · rintro ⟨⟩; simp
        · intro hi
          rw [List.getElem?_append] at hi
          split at hi
          · rw [← h.inv] at hi; rw [hi] at hn; cases hn
          · have : i - v.id2w.length = 0 := by
              have := (List.getElem?_eq_some_iff.1 hi).1
              simp at this; omega
            congr 1; omega
      · rw [if_neg hs, h.inv]
        constructor
        · intro hi
          have := (List.getElem?_eq_some_iff.1 hi).1
          rw [List.getElem?_append_left this]; exact hi
        · intro hi
          rw [List.getElem?_append] at hi
          split at hi
          · exact hi
          · have h1 := List.mem_of_getElem? hi
            simp at h1
            exact absurd h1.symm hs
    · simp only [List.length_append, List.length_singleton]
      rw [AMap.length_insert h.wf, hn, h.len]
      simp

theorem add_get {v : Voc} (h : VocOk v) (s : Str) :
    (v.add s).id2w[(v.w2id.get s).getD v.id2w.length]? = some s := by
  unfold Voc.add
  cases hs : v.w2id.get s with
  | some i => simp only [Option.getD_some]; exact (h.inv _ _).1 hs
  | none => simp

theorem add_list {v : Voc} (h : VocOk v) (s : Str) :
    (v.add s).id2w = if s ∈ v.id2w then v.id2w else v.id2w ++ [s] := by
  unfold Voc.add
  cases hs : v.w2id.get s with
  | some i => rw [if_pos (List.mem_of_getElem? ((h.inv _ _).1 hs))]
  | none =>
    rw [if_neg]
    intro hm
    obtain ⟨i, hi⟩ := List.getElem?_of_mem hm
    rw [← h.inv, hs] at hi
    cases hi

theorem allowed_iff (maxLen : Option Nat) (n : Nat) : Allowed maxLen n ↔ n = 2 ∨ fits maxLen n = true := by
  unfold Allowed fits
  cases maxLen with
  | none => simp
  | some m => simp

/-- Tokens formed so far: the initial symbols and the results of the merges. -/
def Seen (words0 : List (List Nat)) (hist : List (Seg × Seg)) (z : Seg) : Prop :=
  (∃ w ∈ words0, ∃ a ∈ w, z = [a]) ∨ ∃ h ∈ hist, z = h.1 ++ h.2

/-- The id of a token formed so far. -/
def IdOf (words0 : List (List Nat)) (str : Seg → Str) (id2w : List Str) (hist : List (Seg × Seg)) (i : Nat) (z : Seg) : Prop :=
  Seen words0 hist z ∧ id2w[i]? = some (str z)

/-- The invariant; `hist` are the merges, as pairs of tokens. -/
structure Inv (cfg : BpeCfg) (counts : List Nat) (words0 : List (List Nat)) (str : Seg → Str) (s : St)
    (hist : List (Seg × Seg)) : Prop where
  voc : VocOk s.voc
  len : s.words.length = words0.length
  rep : ∀ i, i < words0.length → Rep str s.voc.id2w (run hist (singles (words0.getD i []))) (s.words.getD i [])
  hok : ∀ h ∈ hist, h.1 ≠ [] ∧ h.2 ≠ [] ∧ Factor words0 (h.1 ++ h.2) ∧ run hist (singles (h.1 ++ h.2)) = [h.1 ++ h.2]
  has : ∀ z, Seen words0 hist z → ∃ i : Nat, s.voc.id2w[i]? = some (str z)
  keys : ∀ p, (s.pc.get p).isSome → (∃ z, IdOf words0 str s.voc.id2w hist p.1 z) ∧ ∃ z, IdOf words0 str s.voc.id2w hist p.2 z
  exact : ∀ p z1 z2, IdOf words0 str s.voc.id2w hist p.1 z1 → IdOf words0 str s.voc.id2w hist p.2 z2 →
    (∀ m ∈ s.merges, m.1 ≠ p) → Allowed cfg.maxLen (z1.length + z2.length) → pcGet s.pc p = total p s.words counts
  gone : ∀ m ∈ s.merges, ∀ w ∈ s.words, occ m.1 w = 0
  mseen : ∀ m ∈ s.merges, ∃ h ∈ hist, IdOf words0 str s.voc.id2w hist m.1.1 h.1 ∧ IdOf words0 str s.voc.id2w hist m.1.2 h.2 ∧
    IdOf words0 str s.voc.id2w hist m.2 (h.1 ++ h.2)
  fresh : s.merges.Pairwise fun m m' => m'.2 ≠ m.1.1 ∧ m'.2 ≠ m.1.2 ∧ m'.2 ≠ m.2 ∧ m'.1 ≠ m.1
  fresh' : ∀ m ∈ s.merges, m.2 ≠ m.1.1 ∧ m.2 ≠ m.1.2
  qnodup : (s.queue.map (·.pair)).Nodup
  qok : ∀ e ∈ s.queue,
    (∃ z1 z2, IdOf words0 str s.voc.id2w hist e.pair.1 z1 ∧ IdOf words0 str s.voc.id2w hist e.pair.2 z2 ∧
      Allowed cfg.maxLen (z1.length + z2.length)) ∧ (∀ m ∈ s.merges, m.1 ≠ e.pair) ∧ (s.pc.get e.pair).isSome ∧
      pcGet s.pc e.pair ≤ e.count ∧ e.pos.Nodup ∧ (∀ i ∈ e.pos, i < s.words.length) ∧
      ∀ i, 0 < occ e.pair (s.words.getD i []) → i ∈ e.pos
  qall : ∀ p z1 z2, IdOf words0 str s.voc.id2w hist p.1 z1 → IdOf words0 str s.voc.id2w hist p.2 z2 →
    Allowed cfg.maxLen (z1.length + z2.length) → 0 < total p s.words counts → ∃ e ∈ s.queue, e.pair = p

section
variable {cfg : BpeCfg} {counts : List Nat} {words0 : List (List Nat)} {str : Seg → Str} {s : St} {hist : List (Seg × Seg)}

theorem Seen.factor (hh : ∀ h ∈ hist, Factor words0 (h.1 ++ h.2)) {z : Seg} (h : Seen words0 hist z) : Factor words0 z := by
  rcases h with ⟨w, hw, a, ha, rfl⟩ | ⟨h, hm, rfl⟩
  · obtain ⟨u, v, rfl⟩ := List.append_of_mem ha
    exact ⟨by simp, _, hw, u, v, by simp⟩
  · exact hh h hm

theorem seen_run (w : List Nat) (hw : w ∈ words0) : ∀ (hist : List (Seg × Seg)) (z : Seg), z ∈ run hist (singles w) →
    Seen words0 hist z := by
  suffices h : ∀ (hist pre : List (Seg × Seg)) (l : List Seg), (∀ z ∈ l, Seen words0 pre z) →
      ∀ z ∈ run hist l, Seen words0 (pre ++ hist) z by
    intro hist z hz
    refine h hist [] (singles w) (fun z hz => ?_) z hz
    obtain ⟨a, ha, rfl⟩ := List.mem_map.1 hz
    exact .inl ⟨w, hw, a, ha, rfl⟩
  intro hist
  induction hist with
  | nil => intro pre l h z hz; simpa using h z hz
  | cons x hist ih =>
    intro pre l h z hz
    have := ih (pre ++ [x]) (mgS x.1 x.2 l) (fun z hz => ?_) z hz
    · simpa using this
    · rcases mem_mgS _ _ _ _ hz with hz | rfl
      · rcases h z hz with h | ⟨y, hy, rfl⟩
        · exact .inl h
        · exact .inr ⟨y, by simp [hy], rfl⟩
      · exact .inr ⟨x, by simp, rfl⟩

namespace Inv
variable (hI : Inv cfg counts words0 str s hist) (hb : Readable cfg.pre words0 str)
include hI

theorem factor {z : Seg} (h : Seen words0 hist z) : Factor words0 z := h.factor fun h hm => (hI.hok h hm).2.2.1

include hb in
theorem uniq {i : Nat} {z z' : Seg} (h : IdOf words0 str s.voc.id2w hist i z) (h' : IdOf words0 str s.voc.id2w hist i z') :
    z = z' := by
  refine hb.inj _ _ (hI.factor h.1) (hI.factor h'.1) ?_
  rw [← Option.some.injEq, ← h.2, h'.2]

/-- The word at `i`, as tokens. -/
theorem getD_mem {i : Nat} (hi : i < s.words.length) : words0.getD i [] ∈ words0 := by
  rw [hI.len] at hi
  rw [List.getD_eq_getElem?_getD, List.getElem?_eq_getElem hi]; exact List.getElem_mem hi

omit hI in
theorem word_index {w : List Sym} (hw : w ∈ s.words) : ∃ i, i < s.words.length ∧ s.words.getD i [] = w := by
  obtain ⟨i, hi, rfl⟩ := List.getElem_of_mem hw
  exact ⟨i, hi, by rw [List.getD_eq_getElem?_getD, List.getElem?_eq_getElem hi]; rfl⟩

theorem sym_id {w : List Sym} (hw : w ∈ s.words) {a : Sym} (ha : a ∈ w) :
    ∃ z, IdOf words0 str s.voc.id2w hist a.1 z ∧ a.2 = z.length := by
  obtain ⟨i, hi, rfl⟩ := word_index hw
  have hr := hI.rep i (by rw [← hI.len]; exact hi)
  obtain ⟨z, hz, h1, h2⟩ := hr.mem ha
  exact ⟨z, ⟨seen_run _ (hI.getD_mem hi) hist z hz, h1⟩, h2⟩

include hb in
/-- Where two ids stand side by side, so do their tokens. -/
theorem adjacent {p : Pair} {x y : Seg} (hx : IdOf words0 str s.voc.id2w hist p.1 x)
    (hy : IdOf words0 str s.voc.id2w hist p.2 y) {w : List Sym} (hw : w ∈ s.words) (ho : 0 < occ p w) :
    Factor words0 (x ++ y) ∧ run hist (singles (x ++ y)) = [x, y] := by
  obtain ⟨i, hi, rfl⟩ := word_index hw
  obtain ⟨u, a, b, v, hw', hp⟩ := (occ_pos_iff p _).1 ho
  have hr := hI.rep i (by rw [← hI.len]; exact hi)
  have hmem := fun z hz => seen_run _ (hI.getD_mem hi) hist z hz
  rw [hw'] at hr
  obtain ⟨A, B, hAB, _, h2⟩ := hr.split
  cases h2 with
  | cons ha hla h2 =>
    cases h2 with
    | @cons _ _ C _ hb' hlb h2 =>
      rename_i z z' 
      rw [hAB] at hmem
      subst hp
      obtain rfl := hI.uniq hb hx ⟨hmem _ (by simp), ha⟩
      obtain rfl := hI.uniq hb hy ⟨hmem _ (by simp), hb'⟩
      have := region hist (words0.getD i []) (A := A) (B := [x, y]) (C := C) (by rw [hAB]; simp)
      simp only [List.flatten_cons, List.flatten_nil, List.append_nil] at this
      have hf := hI.factor hx.1
      exact ⟨⟨by simp [hf.1], _, hI.getD_mem hi, this.2⟩, this.1.symm⟩

include hb in
/-- The string of a pair that occurs is not the string of any token formed so far. -/
theorem new_token {p : Pair} {x y : Seg} (hx : IdOf words0 str s.voc.id2w hist p.1 x)
    (hy : IdOf words0 str s.voc.id2w hist p.2 y) {w : List Sym} (hw : w ∈ s.words) (ho : 0 < occ p w) {z : Seg}
    (hz : Seen words0 hist z) : str z ≠ str (x ++ y) := by
  obtain ⟨h1, h2⟩ := hI.adjacent hb hx hy hw ho
  intro he
  obtain rfl := hb.inj _ _ (hI.factor hz) h1 he
  have hxn := (hI.factor hx.1).1
  have hyn := (hI.factor hy.1).1
  rcases hz with ⟨w, _, a, _, hz⟩ | ⟨h, hm, hz⟩
  · have := congrArg List.length hz
    have := List.length_pos_iff.2 hxn
    have := List.length_pos_iff.2 hyn
    simp at *
    omega
  · have := (hI.hok h hm).2.2.2
    rw [← hz, h2] at this
    simp at this

/-- The sum of a pair with a token not formed so far is zero. -/
theorem total_unseen {q : Pair} (hq : (¬ ∃ z, IdOf words0 str s.voc.id2w hist q.1 z) ∨
    ¬ ∃ z, IdOf words0 str s.voc.id2w hist q.2 z) : (∀ w ∈ s.words, occ q w = 0) ∧ pcGet s.pc q = 0 := by
  refine ⟨fun w hw => ?_, ?_⟩
  · apply Nat.eq_zero_of_not_pos
    intro h
    obtain ⟨u, a, b, v, hw', rfl⟩ := (occ_pos_iff q _).1 h
    obtain ⟨z, h1, _⟩ := hI.sym_id hw (a := a) (by rw [hw']; simp)
    obtain ⟨z', h1', _⟩ := hI.sym_id hw (a := b) (by rw [hw']; simp)
    exact hq.elim (fun h => h ⟨_, h1⟩) fun h => h ⟨_, h1'⟩
  · unfold pcGet
    cases h : s.pc.get q with
    | none => rfl
    | some c =>
      obtain ⟨h1, h2⟩ := hI.keys q (by rw [h]; rfl)
      exact (hq.elim (fun h => h h1) fun h => h h2).elim

end Inv
end

end Tok.Train
