import Verif.Train.BpeLoop

/-!
# The state before the loop
-/

namespace Tok.Train

/-! ## Counting pairs -/

theorem windows_count (p : Pair) : ∀ w : List Sym, ((windows w).map fun q => (if q = p then 1 else 0 : Nat)).sum = occ p w
  | [] => rfl
  | [a] => rfl
  | a :: b :: rest => by
    have := windows_count p (b :: rest)
    rw [windows, occ, List.map_cons, List.sum_cons, this]

theorem mem_windows (p : Pair) : ∀ w : List Sym, p ∈ windows w ↔ 0 < occ p w
  | [] => by simp [windows, occ]
  | [a] => by simp [windows, occ]
  | a :: b :: rest => by
    have := mem_windows p (b :: rest)
    rw [windows, occ, List.mem_cons, this]
    by_cases h : (a.1, b.1) = p
    · simp [h]; omega
    · rw [if_neg h]
      constructor
      · rintro (h' | h')
        · exact absurd h'.symm h
        · omega
      · intro h'; exact .inr (by omega)

/-- The changes of `count_pairs`. -/
def firstChanges (words : List (List Sym)) : List ((Pair × Int) × Nat) :=
  words.zipIdx.flatMap fun p => (windows p.1).map fun q => ((q, 1), p.2)

theorem sum_windows (counts : List Nat) (p : Pair) (i : Nat) : ∀ l : List Pair,
    ((l.map fun q => (((q, 1), i) : (Pair × Int) × Nat)).map fun c : (Pair × Int) × Nat =>
      (if c.1.1 = p then c.1.2 * (counts.getD c.2 0 : Nat) else 0 : Int)).sum =
      counts.getD i 0 * ((l.map fun q => (if q = p then 1 else 0 : Nat)).sum : Nat)
  | [] => by simp
  | q :: l => by
    rw [List.map_cons, List.map_cons, List.sum_cons, sum_windows counts p i l, List.map_cons, List.sum_cons]
    simp only
    push_cast
    rw [Int.mul_add]
    split <;> simp

theorem sum_first (counts : List Nat) (p : Pair) : ∀ (words : List (List Sym)) (k : Nat),
    (((words.zipIdx k).flatMap fun p => (windows p.1).map fun q => (((q, 1), p.2) : (Pair × Int) × Nat)).map
      fun c : (Pair × Int) × Nat => (if c.1.1 = p then c.1.2 * (counts.getD c.2 0 : Nat) else 0 : Int)).sum =
      sumN (fun i => (counts.getD (k + i) 0 : Int) * (occ p (words.getD i []) : Nat)) words.length
  | [], k => by simp [sumN]
  | w :: ws, k => by
    rw [List.zipIdx_cons, List.flatMap_cons, List.map_append, List.sum_append, sum_first counts p ws (k + 1), List.length_cons,
      sumN_shift, sum_windows, windows_count]
    congr 1
    refine sumN_congr fun i _ => ?_
    rw [show k + 1 + i = k + (i + 1) by omega]
    simp

theorem countPairs_exact (words : List (List Sym)) (counts : List Nat) (p : Pair) :
    pcGet (countPairs words counts).1 p = total p words counts := by
  unfold countPairs
  rw [changes_pcGet, sum_first counts p words 0, total_eq]
  simp [pcGet, AMap.get]

theorem mem_firstChanges {words : List (List Sym)} {c : (Pair × Int) × Nat} (h : c ∈ firstChanges words) :
    c.1.2 = 1 ∧ c.2 < words.length ∧ 0 < occ c.1.1 (words.getD c.2 []) := by
  unfold firstChanges at h
  obtain ⟨⟨w, i⟩, hw, h⟩ := List.mem_flatMap.1 h
  obtain ⟨q, hq, rfl⟩ := List.mem_map.1 h
  rw [List.mem_zipIdx_iff_getElem?] at hw
  refine ⟨rfl, (List.getElem?_eq_some_iff.1 hw).1, ?_⟩
  simp only [List.getD_eq_getElem?_getD, hw, Option.getD_some]
  exact (mem_windows q w).1 hq

theorem countPairs_at {words : List (List Sym)} {counts : List Nat} {p : Pair} {i : Nat} :
    At (countPairs words counts).2 p i ↔ 0 < occ p (words.getD i []) := by
  show At ((firstChanges words).foldl (applyChange counts) ([], [])).2 p i ↔ _
  rw [changes_at]
  constructor
  · rintro (⟨c, hc, rfl, _, rfl⟩ | ⟨l, h, _⟩)
    · exact (mem_firstChanges hc).2.2
    · cases h
  · intro h
    refine .inl ⟨((p, 1), i), ?_, rfl, Int.zero_lt_one, rfl⟩
    have hi := occ_getD_lt h
    unfold firstChanges
    refine List.mem_flatMap.2 ⟨(words.getD i [], i), ?_, List.mem_map.2 ⟨p, (mem_windows _ _).2 h, rfl⟩⟩
    rw [List.mem_zipIdx_iff_getElem?]
    simp [List.getD_eq_getElem?_getD, List.getElem?_eq_getElem hi]

theorem countPairs_keys {words : List (List Sym)} {counts : List Nat} {p : Pair}
    (h : ((countPairs words counts).1.get p).isSome) : ∃ w ∈ words, 0 < occ p w := by
  change (((firstChanges words).foldl (applyChange counts) ([], [])).1.get p).isSome at h
  rw [changes_isSome] at h
  rcases h with ⟨c, hc, rfl⟩ | h
  · obtain ⟨_, h1, h2⟩ := mem_firstChanges hc
    exact ⟨_, getD_mem_syms h1, h2⟩
  · cases h

theorem countPairs_key {words : List (List Sym)} {counts : List Nat} {p : Pair} {w : List Sym} (hw : w ∈ words)
    (h : 0 < occ p w) : ((countPairs words counts).1.get p).isSome := by
  show (((firstChanges words).foldl (applyChange counts) ([], [])).1.get p).isSome
  rw [changes_isSome]
  obtain ⟨i, hi, rfl⟩ := List.getElem_of_mem hw
  refine .inl ⟨((p, 1), i), ?_, rfl⟩
  refine List.mem_flatMap.2 ⟨(words[i], i), ?_, List.mem_map.2 ⟨p, (mem_windows _ _).2 h, rfl⟩⟩
  rw [List.mem_zipIdx_iff_getElem?]
  simp

/-- The invariant holds before the loop. -/
theorem start_inv {cfg : BpeCfg} {counts : List Nat} {str : Seg → Str} {v : Voc} {words : List (List Sym)}
    (hv : VocOk v) (hs : ∀ w ∈ words, ∀ a ∈ w, a.2 = 1 ∧ v.id2w[a.1]? = some (str [a.1])) :
    Inv cfg counts (words.map (·.map (·.1))) str
      ⟨v, words, (countPairs words counts).1, pushAll (countPairs words counts) [], []⟩ [] := by
  have hpwf : PosWF (countPairs words counts).2 := changes_posWF counts _ _ ⟨AMap.WF.nil, by intro q l h; cases h⟩
  have hid : ∀ w ∈ words, ∀ a ∈ w, IdOf (words.map (·.map (·.1))) str v.id2w [] a.1 [a.1] := fun w hw a ha =>
    ⟨.inl ⟨w.map (·.1), List.mem_map.2 ⟨w, hw, rfl⟩, a.1, List.mem_map.2 ⟨a, ha, rfl⟩, rfl⟩, (hs w hw a ha).2⟩
  have hone : ∀ {i z}, IdOf (words.map (·.map (·.1))) str v.id2w [] i z → z.length = 1 := by
    rintro i z ⟨⟨_, _, a, _, rfl⟩ | ⟨h, hm, _⟩, _⟩
    · rfl
    · cases hm
  have hocc : ∀ {p : Pair} {w : List Sym}, w ∈ words → 0 < occ p w →
      IdOf (words.map (·.map (·.1))) str v.id2w [] p.1 [p.1] ∧ IdOf (words.map (·.map (·.1))) str v.id2w [] p.2 [p.2] := by
    intro p w hw h
    obtain ⟨u, a, b, t, hw', rfl⟩ := (occ_pos_iff p w).1 h
    exact ⟨hid w hw a (by rw [hw']; simp), hid w hw b (by rw [hw']; simp)⟩
  refine {
    voc := hv
    len := by simp
    rep := ?_
    hok := by simp
    has := ?_
    keys := ?_
    exact := fun p _ _ _ _ _ _ => countPairs_exact words counts p
    gone := by simp
    mseen := by simp
    fresh := .nil
    fresh' := by simp
    qnodup := pushAll_nodup hpwf .nil (by simp)
    qok := ?_
    qall := ?_ }
  · intro i hi
    have hi : i < words.length := by simpa using hi
    have hm := getD_mem_syms hi
    have e : (words.map (·.map (·.1))).getD i [] = (words.getD i []).map (·.1) := by
      simp [List.getD_eq_getElem?_getD, List.getElem?_eq_getElem hi]
    rw [e, run_nil]
    have : ∀ w : List Sym, (∀ a ∈ w, a.2 = 1 ∧ v.id2w[a.1]? = some (str [a.1])) → Rep str v.id2w (singles (w.map (·.1))) w := by
      intro w
      induction w with
      | nil => intro _; exact .nil
      | cons a w ih =>
        intro h
        exact .cons (h a (by simp)).2 (by rw [(h a (by simp)).1]; rfl) (ih fun b hb => h b (by simp [hb]))
    exact this _ (hs _ hm)
  · rintro z (⟨w', hw', a, ha, rfl⟩ | ⟨h, hm, _⟩)
    · obtain ⟨w, hw, rfl⟩ := List.mem_map.1 hw'
      obtain ⟨b, hb, rfl⟩ := List.mem_map.1 ha
      exact ⟨_, (hs w hw b hb).2⟩
    · cases hm
  · intro p hp
    obtain ⟨w, hw, h⟩ := countPairs_keys hp
    exact ⟨⟨_, (hocc hw h).1⟩, _, (hocc hw h).2⟩
  · intro e he
    rcases (mem_pushAll hpwf [] e).1 he with ⟨h1, c, h2, h3, h4⟩ | he
    · obtain ⟨hl, hne⟩ := hpwf.2 _ _ h1
      obtain ⟨i, hi⟩ := List.exists_mem_of_ne_nil _ hne
      have ho := countPairs_at.1 ⟨_, h1, hi⟩
      obtain ⟨k1, k2⟩ := hocc (getD_mem_syms (occ_getD_lt ho)) ho
      refine ⟨⟨_, _, k1, k2, .inl rfl⟩, by simp, by simp only; rw [h2]; rfl, ?_, hl, fun j hj => ?_, fun j hj => ?_⟩
      · simp only [pcGet, h2, Option.getD_some, h4]; omega
      · exact occ_getD_lt (countPairs_at.1 ⟨_, h1, hj⟩)
      · obtain ⟨l, g1, g2⟩ := (countPairs_at (counts := counts)).2 hj
        rw [h1] at g1
        cases g1
        exact g2
    · cases he
  · intro p z1 z2 _ _ _ h4
    obtain ⟨i, hi, ho⟩ := total_pos h4
    obtain ⟨l, hl, _⟩ := (countPairs_at (counts := counts)).2 ho
    have hx := countPairs_exact words counts p
    have hk := countPairs_key (counts := counts) (getD_mem_syms hi) ho
    cases hc : (countPairs words counts).1.get p with
    | none => rw [hc] at hk; cases hk
    | some c =>
      unfold pcGet at hx
      rw [hc] at hx
      simp only [Option.getD_some] at hx
      simp only at h4
      exact ⟨⟨p, c.toNat, l⟩, (mem_pushAll hpwf [] _).2 (.inl ⟨hl, c, hc, by omega, rfl⟩), rfl⟩

/-! ## The vocabulary -/

theorem foldl_add_ok {α : Type} (f : α → Str) : ∀ (l : List α) {v : Voc}, VocOk v → VocOk (l.foldl (fun v a => v.add (f a)) v)
  | [], _, h => h
  | a :: l, _, h => foldl_add_ok f l (add_ok h (f a))

theorem addSpecials_ok (cfg : BpeCfg) {v : Voc} (h : VocOk v) : VocOk (addSpecials cfg v) := foldl_add_ok id cfg.specials h

theorem computeAlphabet_ok (cfg : BpeCfg) (order : AMap Char Nat → AMap Char Nat) (wc : AMap Str Nat) {v : Voc}
    (h : VocOk v) : VocOk (computeAlphabet cfg order wc v) := foldl_add_ok (fun p : Char × Nat => [p.1]) _ h

/-- The character is in the vocabulary by itself. -/
def Known (v : Voc) (c : Char) : Prop := [c] ∈ v.id2w

theorem known_iff {v : Voc} (h : VocOk v) (c : Char) : Known v c ↔ (v.w2id.get [c]).isSome := by
  unfold Known
  constructor
  · intro hm
    obtain ⟨i, hi⟩ := List.getElem?_of_mem hm
    rw [(h.inv _ _).2 hi]
    rfl
  · intro hm
    obtain ⟨i, hi⟩ := Option.isSome_iff_exists.1 hm
    exact List.mem_of_getElem? ((h.inv _ _).1 hi)

theorem mem_add (v : Voc) (h : VocOk v) (s t : Str) : t ∈ (v.add s).id2w ↔ t ∈ v.id2w ∨ t = s := by
  rw [add_list h]
  split
  · rename_i hs
    constructor
    · exact .inl
    · rintro (h | rfl)
      · exact h
      · exact hs
  · simp

theorem atomStr_length (cfg : BpeCfg) (first last : Bool) (c c' : Char) (h : [c'] = atomStr cfg first last c) : c' = c := by
  have hmem : c ∈ atomStr cfg first last c := by
    unfold atomStr
    cases first <;> cases last <;> cases cfg.pre <;> cases cfg.suf <;> simp
  rw [← h] at hmem
  exact (List.mem_singleton.1 hmem).symm

theorem known_add (cfg : BpeCfg) {v : Voc} (h : VocOk v) (first last : Bool) {c : Char} (hc : Known v c) (c' : Char) :
    Known (v.add (atomStr cfg first last c)) c' ↔ Known v c' := by
  unfold Known
  rw [mem_add v h]
  constructor
  · rintro (h | h)
    · exact h
    · rw [atomStr_length cfg first last c c' h]; exact hc
  · exact .inl

/-- The strings of the symbols of a word: those of its characters that are known. -/
def wordStrs (cfg : BpeCfg) (K : Char → Bool) : Bool → Str → List Str
  | _, [] => []
  | first, c :: rest =>
    if K c then atomStr cfg first rest.isEmpty c :: wordStrs cfg K false rest else wordStrs cfg K false rest

/-- The symbols have these strings, and length one. -/
def Spells (id2w : List Str) : List Sym → List Str → Prop
  | [], [] => True
  | a :: w, t :: ts => a.2 = 1 ∧ id2w[a.1]? = some t ∧ Spells id2w w ts
  | _, _ => False

theorem Spells.mono {v v' : List Str} (hv : ∀ (i : Nat) t, v[i]? = some t → v'[i]? = some t) : ∀ {w : List Sym} {ts : List Str},
    Spells v w ts → Spells v' w ts
  | [], [], _ => trivial
  | _ :: _, _ :: _, h => ⟨h.1, hv _ _ h.2.1, h.2.2.mono hv⟩
  | [], _ :: _, h => h.elim
  | _ :: _, [], h => h.elim

theorem Spells.mem {v : List Str} : ∀ {w : List Sym} {ts : List Str}, Spells v w ts → ∀ a ∈ w, a.2 = 1 ∧ ∃ t, v[a.1]? = some t
  | [], [], _, a, ha => by cases ha
  | b :: w, t :: ts, h, a, ha => by
    rcases List.mem_cons.1 ha with rfl | ha
    · exact ⟨h.1, t, h.2.1⟩
    · exact h.2.2.mem a ha
  | [], _ :: _, h, _, _ => h.elim
  | _ :: _, [], h, _, _ => h.elim

theorem tokenizeChars_spec (cfg : BpeCfg) (K : Char → Bool) : ∀ (word : Str) (first : Bool) (v : Voc), VocOk v →
    (∀ c, K c = true ↔ Known v c) →
    (let r := tokenizeChars cfg first word v
     VocOk r.1 ∧ (∀ c, K c = true ↔ Known r.1 c) ∧ (∀ (i : Nat) t, v.id2w[i]? = some t → r.1.id2w[i]? = some t) ∧
     (∀ t ∈ r.1.id2w, t ∈ v.id2w ∨ t ∈ wordStrs cfg K first word) ∧
     Spells r.1.id2w r.2 (wordStrs cfg K first word))
  | [], first, v, hv, hK => ⟨hv, hK, fun _ _ h => h, fun _ h => .inl h, trivial⟩
  | c :: rest, first, v, hv, hK => by
    simp only [tokenizeChars]
    cases hc : v.w2id.get [c] with
    | none =>
      have hk : ¬ K c = true := by rw [hK, known_iff hv, hc]; simp
      obtain ⟨h1, h2, h3, h4, h5⟩ := tokenizeChars_spec cfg K rest false v hv hK
      refine ⟨h1, h2, h3, ?_, ?_⟩
      · rw [wordStrs, if_neg hk]; exact h4
      · rw [wordStrs, if_neg hk]; exact h5
    | some i0 =>
      have hk : K c = true := by rw [hK, known_iff hv, hc]; rfl
      generalize hs : atomStr cfg first rest.isEmpty c = s
      have hv1 := add_ok hv s
      have hK1 : ∀ c', K c' = true ↔ Known (v.add s) c' := fun c' => by
        rw [hK, ← hs, known_add cfg hv _ _ ((hK c).1 hk)]
      obtain ⟨h1, h2, h3, h4, h5⟩ := tokenizeChars_spec cfg K rest false (v.add s) hv1 hK1
      have hm : s ∈ (v.add s).id2w := (mem_add v hv s s).2 (.inr rfl)
      obtain ⟨i, hi⟩ := List.getElem?_of_mem hm
      have hg := (hv1.inv _ _).2 hi
      simp only [hg, Option.getD_some]
      refine ⟨h1, h2, fun i t h => h3 i t (add_mono v s i t h), fun t ht => ?_, ?_⟩
      · rw [wordStrs, if_pos hk, hs]
        rcases h4 t ht with h | h
        · rcases (mem_add v hv s t).1 h with h | rfl
          · exact .inl h
          · exact .inr (by simp)
        · exact .inr (by simp [h])
      · rw [wordStrs, if_pos hk, hs]
        exact ⟨rfl, h3 _ _ hi, h5⟩

/-- The words have these strings. -/
def SpellsAll (id2w : List Str) : List (List Sym) → List (List Str) → Prop
  | [], [] => True
  | w :: ws, t :: ts => Spells id2w w t ∧ SpellsAll id2w ws ts
  | _, _ => False

theorem tokenizeWords_spec (cfg : BpeCfg) (K : Char → Bool) : ∀ (wc : AMap Str Nat) (v : Voc), VocOk v →
    (∀ c, K c = true ↔ Known v c) →
    (let r := tokenizeWords cfg wc v
     VocOk r.1 ∧ (∀ c, K c = true ↔ Known r.1 c) ∧ (∀ (i : Nat) t, v.id2w[i]? = some t → r.1.id2w[i]? = some t) ∧
     (∀ t ∈ r.1.id2w, t ∈ v.id2w ∨ ∃ p ∈ wc, t ∈ wordStrs cfg K true p.1) ∧
     SpellsAll r.1.id2w r.2 (wc.map fun p => wordStrs cfg K true p.1))
  | [], v, hv, hK => ⟨hv, hK, fun _ _ h => h, fun _ h => .inl h, trivial⟩
  | (word, n) :: wc, v, hv, hK => by
    simp only [tokenizeWords]
    obtain ⟨h1, h2, h3, h4, h5⟩ := tokenizeChars_spec cfg K word true v hv hK
    obtain ⟨g1, g2, g3, g4, g5⟩ := tokenizeWords_spec cfg K wc _ h1 h2
    refine ⟨g1, g2, fun i t h => g3 i t (h3 i t h), fun t ht => ?_, ?_, g5⟩
    · rcases g4 t ht with h | ⟨p, hp, h⟩
      · rcases h4 t h with h | h
        · exact .inl h
        · exact .inr ⟨(word, n), by simp, h⟩
      · exact .inr ⟨p, by simp [hp], h⟩
    · exact h5.mono g3

end Tok.Train
