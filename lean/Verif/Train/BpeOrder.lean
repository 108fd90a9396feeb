import Verif.Train.BpeTrain

/-!
# Alphabet, maximal length, and the order in which hash maps are visited (C41)
-/

namespace Tok.Train

open Tok.Bpe

/-! ## Sorting -/

section
variable {α : Type} (key : α → Nat)

theorem insertByKey_perm (a : α) : ∀ l, (insertByKey key a l).Perm (a :: l)
  | [] => .refl _
  | b :: l => by
    rw [insertByKey]
    split
    · exact .refl _
    · exact ((insertByKey_perm a l).cons b).trans (.swap a b l)

theorem sortByKey_perm : ∀ l : List α, (sortByKey key l).Perm l
  | [] => .refl _
  | a :: l => (insertByKey_perm key a _).trans ((sortByKey_perm l).cons a)

theorem insertByKey_sorted (a : α) : ∀ l : List α, l.Pairwise (fun x y => key x ≤ key y) →
    (insertByKey key a l).Pairwise fun x y => key x ≤ key y
  | [], _ => by simp [insertByKey]
  | b :: l, h => by
    rw [insertByKey]
    split
    · rename_i hab
      refine List.pairwise_cons.2 ⟨fun x hx => ?_, h⟩
      rcases List.mem_cons.1 hx with rfl | hx
      · exact hab
      · exact Nat.le_trans hab ((List.pairwise_cons.1 h).1 x hx)
    · rename_i hab
      refine List.pairwise_cons.2 ⟨fun x hx => ?_, insertByKey_sorted a l (List.pairwise_cons.1 h).2⟩
      rcases List.mem_cons.1 ((insertByKey_perm key a l).subset hx) with rfl | hx
      · omega
      · exact (List.pairwise_cons.1 h).1 x hx

theorem sortByKey_sorted : ∀ l : List α, (sortByKey key l).Pairwise fun x y => key x ≤ key y
  | [] => .nil
  | a :: l => insertByKey_sorted key a _ (sortByKey_sorted l)

end

/-- Strictly increasing lists with the same elements are the same. -/
theorem increasing_unique : ∀ {l l' : List Char}, l.Pairwise (fun x y => x.toNat < y.toNat) →
    l'.Pairwise (fun x y => x.toNat < y.toNat) → (∀ c, c ∈ l ↔ c ∈ l') → l = l'
  | [], [], _, _, _ => rfl
  | [], b :: _, _, _, h => by have := (h b).2 (by simp); cases this
  | a :: _, [], _, _, h => by have := (h a).1 (by simp); cases this
  | a :: l, b :: l', h1, h2, h => by
    rw [List.pairwise_cons] at h1 h2
    have hab : a = b := by
      rcases List.mem_cons.1 ((h a).1 (by simp)) with e | ha
      · exact e
      · rcases List.mem_cons.1 ((h b).2 (by simp)) with e | hb
        · exact e.symm
        · have := h1.1 b hb
          have := h2.1 a ha
          omega
    subst hab
    congr 1
    refine increasing_unique h1.2 h2.2 fun c => ?_
    have hc := h c
    simp only [List.mem_cons] at hc
    constructor
    · intro hm
      rcases hc.1 (.inr hm) with rfl | hm'
      · have := h1.1 c hm; omega
      · exact hm'
    · intro hm
      rcases hc.2 (.inr hm) with rfl | hm'
      · have := h2.1 c hm; omega
      · exact hm'

/-! ## The alphabet -/

/-- How often a character occurs in the words; a character of the initial alphabet counts as if it were most frequent. -/
def charFreq (cfg : BpeCfg) (wc : AMap Str Nat) (c : Char) : Nat :=
  if c ∈ cfg.initialAlphabet then 2 ^ 64 - 1 else (wc.map fun p => p.2 * p.1.count c).sum

/-- The character is in some word or in the initial alphabet. -/
def InText (cfg : BpeCfg) (wc : AMap Str Nat) (c : Char) : Prop := c ∈ cfg.initialAlphabet ∨ ∃ p ∈ wc, c ∈ p.1

theorem bumpChar_get (n : Nat) (m : AMap Char Nat) (c d : Char) :
    (bumpChar n m c).get d = if c = d then some ((m.get d).getD 0 + n) else m.get d := by
  unfold bumpChar
  rw [AMap.get_insert]
  split
  · rename_i h; subst h; rfl
  · rfl

theorem bumpWord_get (n : Nat) : ∀ (w : Str) (m : AMap Char Nat) (d : Char), m.WF →
    (w.foldl (bumpChar n) m).WF ∧
    ((w.foldl (bumpChar n) m).get d).isSome = ((m.get d).isSome || decide (d ∈ w)) ∧
    ((w.foldl (bumpChar n) m).get d).getD 0 = (m.get d).getD 0 + n * w.count d
  | [], m, d, h => ⟨h, by simp, by simp⟩
  | c :: w, m, d, h => by
    obtain ⟨h1, h2, h3⟩ := bumpWord_get n w (bumpChar n m c) d (h.insert _ _)
    refine ⟨h1, ?_, ?_⟩
    · rw [List.foldl_cons, h2, bumpChar_get]
      by_cases hc : c = d
      · subst hc; simp
      · simp [if_neg hc, Ne.symm hc]
    · rw [List.foldl_cons, h3, bumpChar_get, List.count_cons]
      by_cases hc : c = d
      · subst hc; simp [Nat.mul_add]; omega
      · simp [hc]

theorem bumpWords_get : ∀ (wc : AMap Str Nat) (m : AMap Char Nat) (d : Char), m.WF →
    (wc.foldl (fun m p => p.1.foldl (bumpChar p.2) m) m).WF ∧
    ((wc.foldl (fun m p => p.1.foldl (bumpChar p.2) m) m).get d).isSome = ((m.get d).isSome || wc.any fun p => decide (d ∈ p.1)) ∧
    ((wc.foldl (fun m p => p.1.foldl (bumpChar p.2) m) m).get d).getD 0 = (m.get d).getD 0 + (wc.map fun p => p.2 * p.1.count d).sum
  | [], m, d, h => ⟨h, by simp, by simp⟩
  | p :: wc, m, d, h => by
    obtain ⟨g1, g2, g3⟩ := bumpWord_get p.2 p.1 m d h
    obtain ⟨h1, h2, h3⟩ := bumpWords_get wc _ d g1
    refine ⟨h1, ?_, ?_⟩
    · rw [List.foldl_cons, h2, g2, List.any_cons, Bool.or_assoc]
    · rw [List.foldl_cons, h3, g3, List.map_cons, List.sum_cons]; omega

theorem setAll_get : ∀ (l : List Char) (m : AMap Char Nat) (d : Char), m.WF →
    (l.foldl (fun m c => m.insert c (2 ^ 64 - 1)) m).WF ∧
    (l.foldl (fun m c => m.insert c (2 ^ 64 - 1)) m).get d = if d ∈ l then some (2 ^ 64 - 1) else m.get d
  | [], m, d, h => ⟨h, by simp⟩
  | c :: l, m, d, h => by
    obtain ⟨h1, h2⟩ := setAll_get l (m.insert c (2 ^ 64 - 1)) d (h.insert _ _)
    refine ⟨h1, ?_⟩
    rw [List.foldl_cons, h2, AMap.get_insert]
    by_cases hd : d ∈ l
    · simp [hd]
    · by_cases hc : c = d
      · subst hc; simp
      · simp [hd, hc, Ne.symm hc]

theorem alphabetOf_spec (cfg : BpeCfg) (wc : AMap Str Nat) : (alphabetOf cfg wc).WF ∧
    ∀ c n, (c, n) ∈ alphabetOf cfg wc ↔ InText cfg wc c ∧ n = charFreq cfg wc c := by
  have hw : (alphabetOf cfg wc).WF := (setAll_get cfg.initialAlphabet _ 'a' (bumpWords_get wc [] 'a' .nil).1).1
  refine ⟨hw, fun c n => ?_⟩
  have hg : (alphabetOf cfg wc).get c = some n ↔ InText cfg wc c ∧ n = charFreq cfg wc c := by
    obtain ⟨h1, h2, h3⟩ := bumpWords_get wc [] c .nil
    unfold alphabetOf
    rw [(setAll_get cfg.initialAlphabet _ c h1).2]
    unfold InText charFreq
    by_cases hi : c ∈ cfg.initialAlphabet
    · simp only [hi, if_true, Option.some.injEq, true_or, true_and]
      exact eq_comm
    · simp only [hi, if_false, false_or]
      simp only [AMap.get, List.find?_nil, Option.map_none, Option.isSome_none, Bool.false_or, Option.getD_none,
        Nat.zero_add] at h2 h3
      constructor
      · intro h
        have h' := h
        unfold AMap.get at h'
        rw [h'] at h2 h3
        simp only [Option.isSome_some, Option.getD_some] at h2 h3
        have := List.any_eq_true.1 h2.symm
        simp only [decide_eq_true_eq] at this
        exact ⟨this, h3⟩
      · rintro ⟨⟨p, hp, hc⟩, rfl⟩
        have : (wc.any fun p => decide (c ∈ p.1)) = true := List.any_eq_true.2 ⟨p, hp, by simpa using hc⟩
        rw [this] at h2
        obtain ⟨x, hx⟩ := Option.isSome_iff_exists.1 h2
        unfold AMap.get
        rw [hx] at h3 ⊢
        rw [← h3]
        rfl
  rw [← hg]
  exact ⟨fun h => AMap.get_eq_some_of_mem hw h, fun h => AMap.mem_of_get_eq_some h⟩

/-- The order in which a hash map is visited. -/
def IsOrder (order : AMap Char Nat → AMap Char Nat) : Prop := ∀ m, (order m).Perm m

/-- The kept characters. -/
def keptList (cfg : BpeCfg) (order : AMap Char Nat → AMap Char Nat) (wc : AMap Str Nat) : List Char := (keptChars cfg order wc).map (·.1)

theorem keptChars_sub {cfg : BpeCfg} {order : AMap Char Nat → AMap Char Nat} (ho : IsOrder order) (wc : AMap Str Nat) :
    ∃ d, (d ++ keptChars cfg order wc).Perm (alphabetOf cfg wc) ∧ d.length = toRemove cfg (alphabetOf cfg wc) ∧
      ∀ x ∈ d, ∀ y ∈ keptChars cfg order wc, x.2 ≤ y.2 := by
  unfold keptChars
  simp only
  generalize alphabetOf cfg wc = m
  have hlen : toRemove cfg m ≤ m.length := by unfold toRemove; split <;> omega
  by_cases hn : toRemove cfg m > 0
  · simp only [if_pos hn]
    have hp := (sortByKey_perm (·.2) (order m)).trans (ho m)
    have hs := sortByKey_sorted (fun p : Char × Nat => p.2) (order m)
    generalize sortByKey (fun p : Char × Nat => p.2) (order m) = l at hp hs
    refine ⟨l.take (toRemove cfg m), ?_, ?_, fun x hx y hy => ?_⟩
    · refine ((sortByKey_perm _ _).append_left _).trans ?_
      rw [List.take_append_drop]
      exact hp
    · rw [List.length_take, hp.length_eq]; omega
    · have hy := (sortByKey_perm _ _).subset hy
      rw [← List.take_append_drop (toRemove cfg m) l, List.pairwise_append] at hs
      exact hs.2.2 x hx y hy
  · simp only [if_neg hn]
    exact ⟨[], ((sortByKey_perm _ _).trans (ho m)), by simp; omega, by simp⟩

theorem keptList_increasing {cfg : BpeCfg} {order : AMap Char Nat → AMap Char Nat} (ho : IsOrder order) (wc : AMap Str Nat) :
    (keptList cfg order wc).Pairwise fun x y => x.toNat < y.toNat := by
  obtain ⟨d, hp, _, _⟩ := keptChars_sub (cfg := cfg) ho wc
  have hw : (alphabetOf cfg wc).WF := (alphabetOf_spec cfg wc).1
  have hnd : (keptList cfg order wc).Nodup := by
    have := (hp.map Prod.fst).nodup_iff.2 hw
    rw [List.map_append, List.nodup_append] at this
    exact this.2.1
  have hs : (keptList cfg order wc).Pairwise fun x y => x.toNat ≤ y.toNat := by
    unfold keptList keptChars
    rw [List.pairwise_map]
    exact sortByKey_sorted _ _
  refine (hs.and hnd).imp fun {x y} h => ?_
  rcases Nat.lt_or_ge x.toNat y.toNat with h' | h'
  · exact h'
  · exact absurd (Char.toNat_inj.1 (by omega)) h.2

/-- **C41.** The characters of the vocabulary come in increasing order; they are characters of the words or of the initial
alphabet, all of them unless there is a limit, else as many as the limit allows; and no character left out is more frequent
than one kept. -/
theorem C41_alphabet {cfg : BpeCfg} {order : AMap Char Nat → AMap Char Nat} (ho : IsOrder order) (wc : AMap Str Nat) :
    (keptList cfg order wc).Pairwise (fun x y => x.toNat < y.toNat) ∧
    (∀ c ∈ keptList cfg order wc, InText cfg wc c) ∧
    (∀ c d, c ∈ keptList cfg order wc → InText cfg wc d → d ∉ keptList cfg order wc → charFreq cfg wc d ≤ charFreq cfg wc c) ∧
    (cfg.limitAlphabet = none → ∀ c, InText cfg wc c → c ∈ keptList cfg order wc) ∧
    ∀ limit, cfg.limitAlphabet = some limit → (keptList cfg order wc).length ≤ limit ∧
      ((keptList cfg order wc).length < limit → ∀ c, InText cfg wc c → c ∈ keptList cfg order wc) := by
  obtain ⟨d, hp, hd, hle⟩ := keptChars_sub (cfg := cfg) ho wc
  obtain ⟨hw, hspec⟩ := alphabetOf_spec cfg wc
  have hmem : ∀ c, c ∈ keptList cfg order wc → (c, charFreq cfg wc c) ∈ keptChars cfg order wc := by
    intro c hc
    obtain ⟨⟨c', n⟩, hx, rfl⟩ := List.mem_map.1 hc
    have := (hspec c' n).1 (hp.subset (List.mem_append_right _ hx))
    rw [← this.2]; exact hx
  have hall : ∀ c, InText cfg wc c → c ∉ keptList cfg order wc → (c, charFreq cfg wc c) ∈ d := by
    intro c hc hn
    rcases List.mem_append.1 (hp.symm.subset ((hspec c _).2 ⟨hc, rfl⟩)) with h | h
    · exact h
    · exact absurd (List.mem_map.2 ⟨_, h, rfl⟩) hn
  have hnil : d = [] → ∀ c, InText cfg wc c → c ∈ keptList cfg order wc := by
    intro h c hc
    refine Decidable.byContradiction fun hn => ?_
    have := hall c hc hn
    rw [h] at this
    cases this
  have hlen : d.length + (keptList cfg order wc).length = (alphabetOf cfg wc).length := by
    have := hp.length_eq
    rw [List.length_append] at this
    unfold keptList
    rw [List.length_map]
    exact this
  refine ⟨keptList_increasing ho wc, fun c hc => ?_, fun c e hc he hn => hle _ (hall e he hn) _ (hmem c hc), fun hl => ?_, ?_⟩
  · exact ((hspec c _).1 (hp.subset (List.mem_append_right _ (hmem c hc)))).1
  · refine hnil (List.length_eq_zero_iff.1 ?_)
    rw [hd, toRemove, hl]
  · intro limit hl
    unfold toRemove at hd
    rw [hl] at hd
    simp only at hd
    refine ⟨by omega, fun hlt => hnil (List.length_eq_zero_iff.1 ?_)⟩
    omega

/-- The limit of the alphabet leaves no character out: there are no more characters in the words and in the initial alphabet. -/
def EnoughRoom (cfg : BpeCfg) (words : List Str) : Prop :=
  ∀ n, cfg.limitAlphabet = some n → ∃ l : List Char, l.length ≤ n ∧ (∀ c ∈ cfg.initialAlphabet, c ∈ l) ∧
    ∀ w ∈ words, ∀ c ∈ w, c ∈ l

theorem EnoughRoom.of_none {cfg : BpeCfg} (h : cfg.limitAlphabet = none) (words : List Str) : EnoughRoom cfg words := by
  intro n hn
  rw [h] at hn
  cases hn

theorem length_le_of_subset {α : Type} : ∀ {l l' : List α}, l.Nodup → (∀ x ∈ l, x ∈ l') → l.length ≤ l'.length
  | [], _, _, _ => Nat.zero_le _
  | a :: l, l', h, hs => by
    obtain ⟨s, t, rfl⟩ := List.append_of_mem (hs a (by simp))
    have hn := List.nodup_cons.1 h
    have := length_le_of_subset (l' := s ++ t) hn.2 fun x hx => by
      have hx' := hs x (by simp [hx])
      have hne : x ≠ a := fun e => hn.1 (e ▸ hx)
      simpa [hne] using hx'
    simp only [List.length_cons, List.length_append] at this ⊢
    omega

theorem room_kept {cfg : BpeCfg} {order : AMap Char Nat → AMap Char Nat} (ho : IsOrder order) {wc : AMap Str Nat}
    (h : EnoughRoom cfg (wc.map (·.1))) {c : Char} (hc : InText cfg wc c) : c ∈ keptList cfg order wc := by
  obtain ⟨h1, h2, -, h4, h5⟩ := C41_alphabet (cfg := cfg) ho wc
  cases hl : cfg.limitAlphabet with
  | none => exact h4 hl _ hc
  | some n =>
    obtain ⟨l, l1, l2, l3⟩ := h n hl
    have hin : ∀ d, InText cfg wc d → d ∈ l := by
      rintro d (hd | ⟨p, hp, hd⟩)
      · exact l2 d hd
      · exact l3 p.1 (List.mem_map_of_mem hp) d hd
    refine Decidable.byContradiction fun hnot => ?_
    have hlen : ¬ (keptList cfg order wc).length < n := fun hlt => hnot ((h5 n hl).2 hlt _ hc)
    have hnd : (keptList cfg order wc).Nodup := by
      rw [List.nodup_iff_pairwise_ne]
      exact h1.imp fun hlt he => by rw [he] at hlt; exact absurd hlt (Nat.lt_irrefl _)
    have := length_le_of_subset (l := c :: keptList cfg order wc) (l' := l) (List.nodup_cons.2 ⟨hnot, hnd⟩) (by
      intro d hd
      rcases List.mem_cons.1 hd with rfl | hd
      · exact hin _ hc
      · exact hin _ (h2 d hd))
    simp only [List.length_cons] at this
    omega

/-- Keep the first of equal strings. -/
def firsts (l : List Str) : List Str := l.foldl (fun v s => if s ∈ v then v else v ++ [s]) []

theorem foldl_add_list : ∀ (l : List Str) (v : Voc), VocOk v →
    (l.foldl Voc.add v).id2w = l.foldl (fun v s => if s ∈ v then v else v ++ [s]) v.id2w
  | [], v, _ => rfl
  | s :: l, v, h => by rw [List.foldl_cons, foldl_add_list l _ (add_ok h s), add_list h]; rfl

theorem alphabetVoc_list (cfg : BpeCfg) (order : AMap Char Nat → AMap Char Nat) (wc : AMap Str Nat) :
    alphabetVoc cfg order wc = (cfg.specials ++ (keptList cfg order wc).map fun c => [c]).foldl Voc.add ⟨[], []⟩ := by
  unfold alphabetVoc computeAlphabet addSpecials keptList
  rw [List.foldl_append, List.map_map, List.foldl_map]
  rfl

/-- **C41.** The vocabulary before the words are read: the special tokens, then the kept characters, each string once; so the
special tokens have the first ids. -/
theorem C41_first_tokens (cfg : BpeCfg) (order : AMap Char Nat → AMap Char Nat) (wc : AMap Str Nat) :
    (alphabetVoc cfg order wc).id2w = firsts (cfg.specials ++ (keptList cfg order wc).map fun c => [c]) ∧
    ∀ (i : Nat) t, (alphabetVoc cfg order wc).id2w[i]? = some t → (start cfg order wc).voc.id2w[i]? = some t := by
  refine ⟨?_, (start_spec cfg order wc).2.2.1⟩
  rw [alphabetVoc_list, foldl_add_list _ _ .nil]
  rfl

/-- If the limit leaves room for them, all characters of the words are kept. -/
theorem C41_all_kept {cfg : BpeCfg} {order : AMap Char Nat → AMap Char Nat} (ho : IsOrder order) (wc : AMap Str Nat)
    (hl : EnoughRoom cfg (wc.map (·.1))) {p : Str × Nat} (hp : p ∈ wc) {c : Char} (hc : c ∈ p.1) : kept cfg order wc c = true := by
  have h1 := room_kept ho hl (.inr ⟨p, hp, hc⟩)
  unfold kept
  rw [(C41_first_tokens cfg order wc).1]
  have : ∀ (l : List Str) (v : List Str) (s : Str), s ∈ l ∨ s ∈ v → s ∈ l.foldl (fun v s => if s ∈ v then v else v ++ [s]) v := by
    intro l
    induction l with
    | nil => intro v s h; simpa using h
    | cons t l ih =>
      intro v s h
      refine ih _ s ?_
      rcases h with h | h
      · rcases List.mem_cons.1 h with rfl | h
        · right; simp only; split <;> simp [*]
        · exact .inl h
      · right; simp only; split <;> simp [*]
  simp only [decide_eq_true_eq]
  exact this _ _ _ (.inl (List.mem_append_right _ (List.mem_map.2 ⟨c, h1, rfl⟩)))

/-! ## Order -/

theorem total_zip (p : Pair) : ∀ (ws : List (List Sym)) (ns : List Nat),
    total p ws ns = ((ws.zip ns).map fun x => x.2 * occ p x.1).sum
  | [], _ => by simp [total]
  | _ :: _, [] => by simp [total]
  | w :: ws, n :: ns => by simp [total, total_zip p ws ns]

/-- The same words with the same counts, in any order. -/
structure SamePairs (ws : List (List Sym)) (ns : List Nat) (ws' : List (List Sym)) (ns' : List Nat) : Prop where
  len : ws.length = ns.length
  len' : ws'.length = ns'.length
  perm : (ws.zip ns).Perm (ws'.zip ns')

theorem SamePairs.words {ws ws' : List (List Sym)} {ns ns' : List Nat} (h : SamePairs ws ns ws' ns') : ws.Perm ws' := by
  have := h.perm.map Prod.fst
  rwa [List.map_fst_zip (by rw [h.len]; exact Nat.le_refl _), List.map_fst_zip (by rw [h.len']; exact Nat.le_refl _)] at this

theorem SamePairs.total {ws ws' : List (List Sym)} {ns ns' : List Nat} (h : SamePairs ws ns ws' ns') (p : Pair) :
    total p ws ns = total p ws' ns' := by
  rw [total_zip, total_zip]
  exact (h.perm.map _).sum_nat

theorem SamePairs.map {ws ws' : List (List Sym)} {ns ns' : List Nat} (h : SamePairs ws ns ws' ns') (f : List Sym → List Sym) :
    SamePairs (ws.map f) ns (ws'.map f) ns' := by
  refine ⟨by simp [h.len], by simp [h.len'], ?_⟩
  rw [List.zip_map_left, List.zip_map_left]
  exact h.perm.map _

theorem Eligible.perm {maxLen : Option Nat} {ws ws' : List (List Sym)} (h : ws.Perm ws') {p : Pair} (he : Eligible maxLen ws p) :
    Eligible maxLen ws' p := by
  obtain ⟨w, hw, r⟩ := he
  exact ⟨w, h.subset hw, r⟩

theorem Greedy.perm {cfg : BpeCfg} {ns : List Nat} {vocab : List Str} {ws : List (List Sym)} {ms : List (Pair × Nat)} {v : List Str}
    {w : List (List Sym)} (h : Greedy cfg ns vocab ws ms v w) : ∀ {ws' ns'}, SamePairs ws ns ws' ns' →
    ∃ w', Greedy cfg ns' vocab ws' ms v w' := by
  induction h with
  | done vocab words hd =>
    intro ws' ns' hs
    refine ⟨ws', .done _ _ (hd.imp id fun hd p hp => ?_)⟩
    rw [← hs.total]
    exact hd p (hp.perm hs.words.symm)
  | merge vocab words p a b r vocab1 ms vocab' words' h1 h2 h3 h4 h5 h6 h7 _ ih =>
    intro ws' ns' hs
    obtain ⟨w', hw'⟩ := ih (hs.map (mergeSyms p r))
    refine ⟨w', .merge _ _ p a b r vocab1 ms _ _ h1 ⟨h2.1.perm hs.words, fun q hq => ?_⟩ (by rw [← hs.total]; exact h3) h4 h5 h6 h7 hw'⟩
    rw [← hs.total, ← hs.total]
    exact h2.2 q (hq.perm hs.words.symm)

theorem tokenizeChars_plain {cfg : BpeCfg} (hp : cfg.pre = none) (hs : cfg.suf = none) : ∀ (w : Str) (first : Bool) (v : Voc),
    (tokenizeChars cfg first w v).1 = v
  | [], _, v => rfl
  | c :: w, first, v => by
    rw [tokenizeChars]
    cases hc : v.w2id.get [c] with
    | none => exact tokenizeChars_plain hp hs w false v
    | some i =>
      have : atomStr cfg first w.isEmpty c = [c] := by
        unfold atomStr; rw [hp, hs]; cases first <;> cases w.isEmpty <;> rfl
      simp only [this]
      have hadd : v.add [c] = v := by unfold Voc.add; rw [hc]
      rw [hadd]
      exact tokenizeChars_plain hp hs w false v

theorem tokenizeWords_plain {cfg : BpeCfg} (hp : cfg.pre = none) (hs : cfg.suf = none) (v : Voc) : ∀ (wc : AMap Str Nat),
    tokenizeWords cfg wc v = (v, wc.map fun p => (tokenizeChars cfg true p.1 v).2)
  | [] => rfl
  | (w, n) :: wc => by
    simp only [tokenizeWords]
    rw [tokenizeChars_plain hp hs, tokenizeWords_plain hp hs v wc]
    rfl

/-- **C41.** Without prefix, suffix and limit of the alphabet, the vocabulary and the merges depend neither on the order in
which the words are visited nor on the order in which the characters are. -/
theorem C41_order {cfg : BpeCfg} (hp : cfg.pre = none) (hs : cfg.suf = none) (hl : cfg.limitAlphabet = none)
    {order order' : AMap Char Nat → AMap Char Nat} (ho : IsOrder order) (ho' : IsOrder order') {wc wc' : AMap Str Nat}
    (hperm : wc.Perm wc') {s s' : St} (h : Trained cfg order wc s) (h' : Trained cfg order' wc' s') :
    s.merges = s'.merges ∧ s.voc.id2w = s'.voc.id2w := by
  have hsep : ∀ wc, Separated cfg wc := fun wc => ⟨by simp [hp], by simp [hs]⟩
  obtain ⟨_, _, _, _, _, g⟩ := trained_inv (hsep wc) h
  obtain ⟨_, _, _, _, _, g'⟩ := trained_inv (hsep wc') h'
  have hk : keptList cfg order wc = keptList cfg order' wc' := by
    obtain ⟨a1, a2, _, a4, _⟩ := C41_alphabet (cfg := cfg) ho wc
    obtain ⟨b1, b2, _, b4, _⟩ := C41_alphabet (cfg := cfg) ho' wc'
    have hit : ∀ {wc wc' : AMap Str Nat}, wc.Perm wc' → ∀ c, InText cfg wc c → InText cfg wc' c := by
      rintro wc wc' hp c (h | ⟨p, hm, h⟩)
      · exact .inl h
      · exact .inr ⟨p, hp.subset hm, h⟩
    refine increasing_unique a1 b1 fun c => ⟨fun hc => b4 hl c (hit hperm c (a2 c hc)), fun hc => a4 hl c (hit hperm.symm c (b2 c hc))⟩
  have hv : alphabetVoc cfg order wc = alphabetVoc cfg order' wc' := by rw [alphabetVoc_list, alphabetVoc_list, hk]
  have e1 : (start cfg order wc).voc = alphabetVoc cfg order wc := by rw [start_eq, tokenizeWords_plain hp hs]
  have e2 : (start cfg order' wc').voc = alphabetVoc cfg order' wc' := by rw [start_eq, tokenizeWords_plain hp hs]
  have w1 : (start cfg order wc).words = wc.map fun p => (tokenizeChars cfg true p.1 (alphabetVoc cfg order wc)).2 := by
    rw [start_eq, tokenizeWords_plain hp hs]
  have w2 : (start cfg order' wc').words = wc'.map fun p => (tokenizeChars cfg true p.1 (alphabetVoc cfg order' wc')).2 := by
    rw [start_eq, tokenizeWords_plain hp hs]
  rw [e1, w1] at g
  rw [e2, w2, ← hv] at g'
  have hsame : SamePairs (wc.map fun p => (tokenizeChars cfg true p.1 (alphabetVoc cfg order wc)).2) (wc.map (·.2))
      (wc'.map fun p => (tokenizeChars cfg true p.1 (alphabetVoc cfg order wc)).2) (wc'.map (·.2)) := by
    refine ⟨by simp, by simp, ?_⟩
    rw [List.zip_map', List.zip_map']
    exact hperm.map _
  obtain ⟨w', g2⟩ := g.perm hsame
  have hnd : (alphabetVoc cfg order wc).id2w.Nodup := by
    rw [List.nodup_iff_pairwise_ne, List.pairwise_iff_getElem]
    intro i j hi hj hij e
    have := (alphabetVoc_ok cfg order wc).inj (i := i) (j := j) (t := (alphabetVoc cfg order wc).id2w[i]) (by simp) (by rw [e]; simp)
    omega
  obtain ⟨r1, r2, _⟩ := Greedy.unique hnd g2 g'
  exact ⟨r1, r2⟩

/-- **C41.** Without prefix and suffix the vocabulary is not larger than allowed, or than the special tokens and characters
together. -/
theorem C41_size {cfg : BpeCfg} (hp : cfg.pre = none) (hs : cfg.suf = none) {order : AMap Char Nat → AMap Char Nat}
    {wc : AMap Str Nat} {s : St} (h : Reached cfg order wc s) :
    s.voc.id2w.length ≤ max cfg.vocabSize (cfg.specials.length + (keptList cfg order wc).length) := by
  have h1 := (C41_vocab h).2.2.2
  have e1 : (start cfg order wc).voc = alphabetVoc cfg order wc := by rw [start_eq, tokenizeWords_plain hp hs]
  have h2 : ∀ (l v : List Str), (l.foldl (fun v s => if s ∈ v then v else v ++ [s]) v).length ≤ v.length + l.length := by
    intro l
    induction l with
    | nil => intro v; simp
    | cons t l ih =>
      intro v
      have := ih (if t ∈ v then v else v ++ [t])
      rw [List.foldl_cons, List.length_cons]
      split at this
      · rw [if_pos (by assumption)]; omega
      · rw [if_neg (by assumption)]; rw [List.length_append, List.length_singleton] at this; omega
  have h3 := h2 (cfg.specials ++ (keptList cfg order wc).map fun c => [c]) []
  rw [e1, (C41_first_tokens cfg order wc).1] at h1
  unfold firsts at h1
  rw [List.length_append, List.length_map, List.length_nil] at h3
  omega

/-! ## Maximal length -/

theorem greedy_len {cfg : BpeCfg} (hp : cfg.pre = none) {ns : List Nat} {vocab : List Str} {ws : List (List Sym)}
    {ms : List (Pair × Nat)} {v : List Str} {w : List (List Sym)} (h : Greedy cfg ns vocab ws ms v w) :
    (∀ w ∈ ws, ∀ a ∈ w, ∃ t, vocab[a.1]? = some t ∧ t.length = a.2) →
    ∀ m ∈ ms, ∃ t, v[m.2]? = some t ∧ Allowed cfg.maxLen t.length := by
  induction h with
  | done => intro _ m hm; cases hm
  | merge vocab words p a b r vocab1 ms vocab' words' h1 h2 h3 h4 h5 h6 h7 h8 ih =>
    intro hlen m hm
    have hmono : ∀ (i : Nat) t, vocab[i]? = some t → vocab1[i]? = some t := by
      intro i t h
      rw [h6]
      split
      · exact h
      · rw [List.getElem?_append_left (List.getElem?_eq_some_iff.1 h).1]; exact h
    obtain ⟨w, hw, u, x, y, z, hw', hpair, hall⟩ := h2.1
    obtain ⟨tx, kx, lx⟩ := hlen w hw x (by rw [hw']; simp)
    obtain ⟨ty, ky, ly⟩ := hlen w hw y (by rw [hw']; simp)
    have hpx : x.1 = p.1 := by rw [← hpair]
    have hpy : y.1 = p.2 := by rw [← hpair]
    rw [hpx, h4] at kx; cases kx
    rw [hpy, h5] at ky; cases ky
    have hst : unprefixed cfg.pre b = b := by rw [hp]; rfl
    rw [hst] at h7
    rcases List.mem_cons.1 hm with rfl | hm
    · refine ⟨a ++ b, greedy_mono h8 _ _ h7, ?_⟩
      rw [List.length_append, lx, ly]
      exact hall
    · refine ih (fun w1 hw1 c hc => ?_) m hm
      obtain ⟨w0, hw0, rfl⟩ := List.mem_map.1 hw1
      have : ∀ (n : Nat) (w0 : List Sym), w0.length ≤ n → (∀ a ∈ w0, ∃ t, vocab[a.1]? = some t ∧ t.length = a.2) →
          ∀ c ∈ mergeSyms p r w0, ∃ t, vocab1[c.1]? = some t ∧ t.length = c.2 := by
        intro n
        induction n with
        | zero =>
          intro w0 hn _ c hc
          have : w0 = [] := List.length_eq_zero_iff.1 (by omega)
          subst this
          cases hc
        | succ n ihn =>
          intro w0 hn hl c hc
          match w0, hn, hl, hc with
          | [], _, _, hc => cases hc
          | [d], _, hl, hc =>
            simp only [mergeSyms, List.mem_singleton] at hc
            subst hc
            obtain ⟨t, k1, k2⟩ := hl c (by simp)
            exact ⟨t, hmono _ _ k1, k2⟩
          | d :: e :: rest, hn, hl, hc =>
            rw [mergeSyms] at hc
            split at hc
            · rename_i hde
              rcases List.mem_cons.1 hc with rfl | hc
              · obtain ⟨t, k1, k2⟩ := hl d (by simp)
                obtain ⟨t', k3, k4⟩ := hl e (by simp)
                rw [show d.1 = p.1 by rw [← hde], h4] at k1; cases k1
                rw [show e.1 = p.2 by rw [← hde], h5] at k3; cases k3
                exact ⟨a ++ b, h7, by rw [List.length_append, k2, k4]⟩
              · exact ihn rest (by simp at hn; omega) (fun x hx => hl x (by simp [hx])) c hc
            · rcases List.mem_cons.1 hc with rfl | hc
              · obtain ⟨t, k1, k2⟩ := hl c (by simp)
                exact ⟨t, hmono _ _ k1, k2⟩
              · exact ihn (e :: rest) (by simp at hn ⊢; omega) (fun x hx => hl x (by rw [List.mem_cons]; exact .inr hx)) c hc
      exact this _ w0 (Nat.le_refl _) (hlen w0 hw0) c hc

/-- **C41.** Without prefix and suffix: with a maximal token length, every token made by a merge has two characters or is
shorter than the maximum. -/
theorem C41_max_length {cfg : BpeCfg} (hp : cfg.pre = none) (hs : cfg.suf = none) {order : AMap Char Nat → AMap Char Nat}
    {wc : AMap Str Nat} {s : St} (h : Trained cfg order wc s) {n : Nat} (hn : cfg.maxLen = some n) :
    ∀ m ∈ s.merges, ∃ t, s.voc.id2w[m.2]? = some t ∧ (t.length = 2 ∨ t.length < n) := by
  obtain ⟨_, _, _, _, _, g⟩ := trained_inv (⟨by simp [hp], by simp [hs]⟩ : Separated cfg wc) h
  have hlen : ∀ w ∈ (start cfg order wc).words, ∀ a ∈ w, ∃ t, (start cfg order wc).voc.id2w[a.1]? = some t ∧ t.length = a.2 := by
    intro w hw a ha
    obtain ⟨_, _, _, _, h5⟩ := start_spec cfg order wc
    obtain ⟨p, hpm, hsp⟩ := h5.mem w hw
    have : ∀ (w : List Sym) (word : Str) (first : Bool), Spells (start cfg order wc).voc.id2w w (wordStrs cfg (kept cfg order wc) first word) →
        ∀ a ∈ w, ∃ t, (start cfg order wc).voc.id2w[a.1]? = some t ∧ t.length = a.2 := by
      intro w word
      induction word generalizing w with
      | nil =>
        intro first h a ha
        cases w with
        | nil => cases ha
        | cons _ _ => exact h.elim
      | cons c rest ih =>
        intro first h a ha
        rw [wordStrs] at h
        split at h
        · cases w with
          | nil => exact h.elim
          | cons x w =>
            rcases List.mem_cons.1 ha with rfl | ha
            · refine ⟨_, h.2.1, ?_⟩
              rw [h.1]
              unfold atomStr
              rw [hp, hs]
              cases first <;> cases rest.isEmpty <;> rfl
            · exact ih w false h.2.2 a ha
        · exact ih w false h a ha
    exact this w p.1 true hsp a ha
  intro m hm
  obtain ⟨t, h1, h2⟩ := greedy_len hp g hlen m hm
  exact ⟨t, h1, h2.imp id fun h => h n hn⟩

end Tok.Train
