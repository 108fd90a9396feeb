import Verif.Train.BpeTable

/-!
# What BPE training computes (C41)
-/

namespace Tok.Train

open Tok.Bpe

/-- The loop ends in this state. -/
def Trained (cfg : BpeCfg) (order : AMap Char Nat → AMap Char Nat) (wc : AMap Str Nat) (s : St) : Prop :=
  ∃ k, ∀ fuel, k ≤ fuel → loop cfg (wc.map (·.2)) fuel (start cfg order wc) = .stop s

/-- The loop gets to this state. -/
def Reached (cfg : BpeCfg) (order : AMap Char Nat → AMap Char Nat) (wc : AMap Str Nat) (s : St) : Prop :=
  ∃ fuel, loop cfg (wc.map (·.2)) fuel (start cfg order wc) = .more s ∨ loop cfg (wc.map (·.2)) fuel (start cfg order wc) = .stop s

/-- The vocabulary before the words are read. -/
def alphabetVoc (cfg : BpeCfg) (order : AMap Char Nat → AMap Char Nat) (wc : AMap Str Nat) : Voc :=
  computeAlphabet cfg order wc (addSpecials cfg ⟨[], []⟩)

/-- The character is kept. -/
def kept (cfg : BpeCfg) (order : AMap Char Nat → AMap Char Nat) (wc : AMap Str Nat) (c : Char) : Bool :=
  decide ([c] ∈ (alphabetVoc cfg order wc).id2w)

theorem alphabetVoc_ok (cfg : BpeCfg) (order : AMap Char Nat → AMap Char Nat) (wc : AMap Str Nat) :
    VocOk (alphabetVoc cfg order wc) := computeAlphabet_ok cfg order wc (addSpecials_ok cfg .nil)

theorem start_eq (cfg : BpeCfg) (order : AMap Char Nat → AMap Char Nat) (wc : AMap Str Nat) :
    start cfg order wc =
      ⟨(tokenizeWords cfg wc (alphabetVoc cfg order wc)).1, (tokenizeWords cfg wc (alphabetVoc cfg order wc)).2,
       (countPairs (tokenizeWords cfg wc (alphabetVoc cfg order wc)).2 (wc.map (·.2))).1,
       pushAll (countPairs (tokenizeWords cfg wc (alphabetVoc cfg order wc)).2 (wc.map (·.2))) [], []⟩ := rfl

theorem start_spec (cfg : BpeCfg) (order : AMap Char Nat → AMap Char Nat) (wc : AMap Str Nat) :
    (let s := start cfg order wc
     VocOk s.voc ∧ (∀ c, kept cfg order wc c = true ↔ [c] ∈ s.voc.id2w) ∧
     (∀ (i : Nat) t, (alphabetVoc cfg order wc).id2w[i]? = some t → s.voc.id2w[i]? = some t) ∧
     (∀ t ∈ s.voc.id2w, t ∈ (alphabetVoc cfg order wc).id2w ∨ ∃ p ∈ wc, t ∈ wordStrs cfg (kept cfg order wc) true p.1) ∧
     SpellsAll s.voc.id2w s.words (wc.map fun p => wordStrs cfg (kept cfg order wc) true p.1)) := by
  rw [start_eq]
  exact tokenizeWords_spec cfg (kept cfg order wc) wc _ (alphabetVoc_ok cfg order wc) fun c => by
    unfold kept Known; simp

theorem Spells.means {id2w : List Str} : ∀ {w : List Sym} {l : List Atom}, Spells id2w w (l.map Atom.str) →
    Means id2w (w.map (·.1)) l
  | [], [], _ => trivial
  | _ :: _, _ :: _, h => ⟨h.2.1, h.2.2.means⟩
  | [], _ :: _, h => h.elim
  | _ :: _, [], h => h.elim

theorem SpellsAll.mem {α : Type} {id2w : List Str} {f : α → List Str} : ∀ {ws : List (List Sym)} {l : List α},
    SpellsAll id2w ws (l.map f) → ∀ w ∈ ws, ∃ a ∈ l, Spells id2w w (f a)
  | [], [], _, w, hw => by cases hw
  | v :: ws, a :: l, h, w, hw => by
    rcases List.mem_cons.1 hw with rfl | hw
    · exact ⟨a, by simp, h.1⟩
    · obtain ⟨b, hb, h'⟩ := SpellsAll.mem h.2 w hw
      exact ⟨b, by simp [hb], h'⟩
  | [], _ :: _, h, _, _ => h.elim
  | _ :: _, [], h, _, _ => h.elim

theorem SpellsAll.get {α : Type} {id2w : List Str} {f : α → List Str} : ∀ {ws : List (List Sym)} {l : List α},
    SpellsAll id2w ws (l.map f) → ws.length = l.length ∧ ∀ (i : Nat) a, l[i]? = some a → ∃ w, ws[i]? = some w ∧ Spells id2w w (f a)
  | [], [], _ => ⟨rfl, by simp⟩
  | v :: ws, a :: l, h => by
    obtain ⟨h1, h2⟩ := SpellsAll.get h.2
    refine ⟨by simp [h1], fun i b hb => ?_⟩
    cases i with
    | zero => simp at hb; subst hb; exact ⟨v, rfl, h.1⟩
    | succ i => exact h2 i b (by simpa using hb)
  | [], _ :: _, h => h.elim
  | _ :: _, [], h => h.elim

/-- The string of a token, from the initial ids. -/
abbrev tokenStr (cfg : BpeCfg) (order : AMap Char Nat → AMap Char Nat) (wc : AMap Str Nat) : Seg → Str :=
  segStr cfg.pre (start cfg order wc).voc.id2w

/-- The words as lists of initial ids. -/
abbrev initIds (cfg : BpeCfg) (order : AMap Char Nat → AMap Char Nat) (wc : AMap Str Nat) : List Seg :=
  (start cfg order wc).words.map (·.map (·.1))

theorem start_inv' (cfg : BpeCfg) (order : AMap Char Nat → AMap Char Nat) (wc : AMap Str Nat) (hsep : Separated cfg wc) :
    Inv cfg (wc.map (·.2)) (initIds cfg order wc) (tokenStr cfg order wc) (start cfg order wc) [] ∧
      Readable cfg.pre (initIds cfg order wc) (tokenStr cfg order wc) ∧
      Shaped cfg.pre (initIds cfg order wc) (tokenStr cfg order wc) := by
  obtain ⟨h1, _, _, _, h5⟩ := start_spec cfg order wc
  let bad : Char → Prop := fun c => (∃ r, cfg.pre = some (c :: r)) ∨ ∃ r, cfg.suf = some (r ++ [c])
  have hbad : ∀ p ∈ wc, ∀ c ∈ p.1, ¬ bad c := by
    rintro p hp c hc (⟨r, h⟩ | ⟨r, h⟩)
    · exact hsep.pre c r h p hp hc
    · exact hsep.suf c r h p hp hc
  have hP : ∀ c r, cfg.pre.getD [] = c :: r → bad c := by
    intro c r h
    cases hp : cfg.pre with
    | none => rw [hp] at h; simp at h
    | some p => rw [hp] at h; exact .inl ⟨r, by rw [← h]; exact hp⟩
  have hS : ∀ c r, cfg.suf.getD [] = r ++ [c] → bad c := by
    intro c r h
    cases hp : cfg.suf with
    | none => rw [hp] at h; simp at h
    | some p => rw [hp] at h; exact .inr ⟨r, by rw [← h]; exact hp⟩
  have hw : ∀ w ∈ initIds cfg order wc, ∃ l, Means (start cfg order wc).voc.id2w w l ∧
      Shape (cfg.pre.getD []) (cfg.suf.getD []) bad l := by
    intro w hw
    obtain ⟨w', hw', rfl⟩ := List.mem_map.1 hw
    obtain ⟨p, hp, h⟩ := h5.mem w' hw'
    rw [← wordAtoms_str] at h
    exact ⟨_, h.means, wordAtoms_shape cfg _ p.1 bad (hbad p hp)⟩
  refine ⟨?_, readable h1 hP hS hw, shaped hP hw⟩
  refine start_inv h1 fun w hw a ha => ?_
  obtain ⟨p, hp, h⟩ := h5.mem w hw
  obtain ⟨g1, t, g2⟩ := h.mem a ha
  refine ⟨g1, ?_⟩
  show (start cfg order wc).voc.id2w[a.1]? = _
  have g3 : (start cfg order wc).voc.id2w[a.1]? = some t := g2
  simp [segStr, List.getD_eq_getElem?_getD, g3]

section
variable {cfg : BpeCfg} {order : AMap Char Nat → AMap Char Nat} {wc : AMap Str Nat}

/-- **C41.** Training ends without panic, and what it computes is textbook training. -/
theorem C41_textbook (hsep : Separated cfg wc) :
    ∃ s, Trained cfg order wc s ∧
      Greedy cfg (wc.map (·.2)) (start cfg order wc).voc.id2w (start cfg order wc).words s.merges s.voc.id2w s.words := by
  obtain ⟨hI, hb, _⟩ := start_inv' cfg order wc hsep
  obtain ⟨k, s', ms, hist', q, h1, h2, h3, h4⟩ := loop_spec hb _ _ _ _ hI rfl rfl
  refine ⟨{ s' with queue := q }, ⟨k, h1⟩, ?_⟩
  rw [show s'.merges = ms by rw [h3]; rfl]
  exact h4

theorem trained_inv (hsep : Separated cfg wc) {s : St} (h : Trained cfg order wc s) :
    ∃ s' hist q, s = { s' with queue := q } ∧
      Inv cfg (wc.map (·.2)) (initIds cfg order wc) (tokenStr cfg order wc) s' hist ∧
      Greedy cfg (wc.map (·.2)) (start cfg order wc).voc.id2w (start cfg order wc).words s.merges s.voc.id2w s.words := by
  obtain ⟨hI, hb, _⟩ := start_inv' cfg order wc hsep
  obtain ⟨k, s', ms, hist', q, h1, h2, h3, h4⟩ := loop_spec hb _ _ _ _ hI rfl rfl
  obtain ⟨k', h'⟩ := h
  have e := (h1 (max k k') (by omega)).symm.trans (h' (max k k') (by omega))
  cases e
  refine ⟨s', hist', q, rfl, h2, ?_⟩
  simp only
  rw [show s'.merges = ms by rw [h3]; rfl]
  exact h4

/-- **C41.** Whenever the loop goes on, the maintained count of each pair that may be merged is what counting again would
give; and each entry of the queue has at least that count, with the count of its pair maintained as well. -/
theorem C41_counts (hsep : Separated cfg wc) {fuel : Nat} {s : St}
    (h : loop cfg (wc.map (·.2)) fuel (start cfg order wc) = .more s) :
    (∀ p, Eligible cfg.maxLen s.words p → (s.pc.get p).getD 0 = total p s.words (wc.map (·.2))) ∧
    ∀ e ∈ s.queue, s.pc.get e.pair = some (total e.pair s.words (wc.map (·.2)) : Int) ∧
      total e.pair s.words (wc.map (·.2)) ≤ e.count := by
  obtain ⟨hI, hb, _⟩ := start_inv' cfg order wc hsep
  obtain ⟨hist', hI'⟩ := loop_inv hb fuel _ _ hI s h
  refine ⟨fun p hp => ?_, fun e he => hI'.entry_exact he⟩
  obtain ⟨z1, z2, h1, h2, h3⟩ := hI'.eligible hp
  refine hI'.exact p z1 z2 h1 h2 (fun m hm e => ?_) h3
  obtain ⟨w, hw, u, a, b, v, hw', hp', _⟩ := hp
  have := hI'.gone m hm w hw
  have := occ_split hw' hp'
  rw [e] at *
  omega

/-! ## The vocabulary, whatever the prefix and the words -/

/-- What holds of the vocabulary and the merges. -/
structure VocInv (cfg : BpeCfg) (n0 : Nat) (s : St) : Prop where
  voc : VocOk s.voc
  merges : ∀ m ∈ s.merges, ∃ a b, s.voc.id2w[m.1.1]? = some a ∧ s.voc.id2w[m.1.2]? = some b ∧
    s.voc.id2w[m.2]? = some (a ++ stripPre cfg.pre b)
  size : s.voc.id2w.length ≤ max cfg.vocabSize n0

theorem doMerge_voc {n0 : Nat} {s s' : St} {counts : List Nat} {top : Entry} {q : List Entry} (h : VocInv cfg n0 s)
    (hlt : s.voc.id2w.length < cfg.vocabSize) (hd : doMerge cfg counts s top q = .more s') : VocInv cfg n0 s' := by
  unfold doMerge at hd
  split at hd
  · rename_i a b ha hb
    simp only at hd
    split at hd
    · simp only [Out.more.injEq] at hd
      subst hd
      refine ⟨add_ok h.voc _, fun m hm => ?_, ?_⟩
      · rcases List.mem_append.1 hm with hm | hm
        · obtain ⟨x, y, h1, h2, h3⟩ := h.merges m hm
          exact ⟨x, y, add_mono _ _ _ _ h1, add_mono _ _ _ _ h2, add_mono _ _ _ _ h3⟩
        · rw [List.mem_singleton] at hm
          subst hm
          exact ⟨a, b, add_mono _ _ _ _ ha, add_mono _ _ _ _ hb, add_get h.voc _⟩
      · simp only [add_list h.voc]
        split
        · exact h.size
        · rw [List.length_append, List.length_singleton]; omega
    · cases hd
  · cases hd

theorem step_voc {n0 : Nat} {s : St} {counts : List Nat} (h : VocInv cfg n0 s) :
    (∀ s', step cfg counts s = .more s' → VocInv cfg n0 s') ∧ ∀ s', step cfg counts s = .stop s' → VocInv cfg n0 s' := by
  unfold step
  split
  · exact ⟨fun s' h' => (by cases h'), fun s' h' => (by cases h'; exact h)⟩
  · rename_i hlt
    split
    · exact ⟨fun s' h' => (by cases h'), fun s' h' => (by cases h'; exact h)⟩
    · split
      · exact ⟨fun s' h' => (by cases h'), fun s' h' => (by cases h')⟩
      · split
        · exact ⟨fun s' h' => (by cases h'; exact ⟨h.voc, h.merges, h.size⟩), fun s' h' => (by cases h')⟩
        · split
          · exact ⟨fun s' h' => (by cases h'), fun s' h' => (by cases h'; exact ⟨h.voc, h.merges, h.size⟩)⟩
          · refine ⟨fun s' h' => doMerge_voc h (by rw [← h.voc.len]; omega) h', fun s' h' => ?_⟩
            unfold doMerge at h'
            split at h'
            · simp only at h'
              split at h' <;> cases h'
            · cases h'

theorem loop_voc {n0 : Nat} {counts : List Nat} : ∀ (fuel : Nat) {s : St}, VocInv cfg n0 s →
    ∀ s', loop cfg counts fuel s = .more s' ∨ loop cfg counts fuel s = .stop s' → VocInv cfg n0 s'
  | 0, s, h, s', h' => by rcases h' with h' | h' <;> cases h'; exact h
  | fuel + 1, s, h, s', h' => by
    rw [loop] at h'
    obtain ⟨h1, h2⟩ := step_voc (counts := counts) h
    generalize step cfg counts s = o at h' h1 h2
    cases o with
    | panic => rcases h' with h' | h' <;> cases h'
    | stop s1 => rcases h' with h' | h' <;> cases h'; exact h2 _ rfl
    | more s1 => exact loop_voc fuel (h1 _ rfl) s' h'

theorem reached_voc {s : St} (h : Reached cfg order wc s) : VocInv cfg (start cfg order wc).voc.id2w.length s := by
  obtain ⟨fuel, h⟩ := h
  refine loop_voc fuel ⟨(start_spec cfg order wc).1, ?_, Nat.le_max_right _ _⟩ s h
  intro m hm
  cases hm

theorem Trained.reached {s : St} (h : Trained cfg order wc s) : Reached cfg order wc s := by
  obtain ⟨k, h⟩ := h
  exact ⟨k, .inr (h k (Nat.le_refl _))⟩

/-- **C41.** In every state that training gets to, whatever the settings: the ids are `0, …, n - 1`, each for one token; the
parts and the result of every merge are tokens, and the result is the left part followed by the right part without its
prefix; and the vocabulary is not larger than allowed, or than it was before the first merge. -/
theorem C41_vocab {s : St} (h : Reached cfg order wc s) :
    s.voc.id2w.Nodup ∧ (∀ t i, s.voc.w2id.get t = some i ↔ s.voc.id2w[i]? = some t) ∧
    (∀ m ∈ s.merges, ∃ a b, s.voc.id2w[m.1.1]? = some a ∧ s.voc.id2w[m.1.2]? = some b ∧
      s.voc.id2w[m.2]? = some (a ++ unprefixed cfg.pre b)) ∧
    s.voc.id2w.length ≤ max cfg.vocabSize (start cfg order wc).voc.id2w.length := by
  have hv := reached_voc h
  refine ⟨?_, hv.voc.inv, by simpa only [stripPre_eq] using hv.merges, hv.size⟩
  rw [List.nodup_iff_pairwise_ne, List.pairwise_iff_getElem]
  intro i j hi hj hij e
  have : i = j := hv.voc.inj (t := s.voc.id2w[i]) (by simp) (by rw [e]; simp)
  omega

/-! ## The trained model -/

theorem mapM_some {α β : Type} (f : α → Option β) (g : α → β) : ∀ (l : List α), (∀ a ∈ l, f a = some (g a)) → l.mapM f = some (l.map g)
  | [], _ => rfl
  | a :: l, h => by
    simp only [List.mapM_cons, h a (by simp), mapM_some f g l fun b hb => h b (by simp [hb]), List.map_cons]
    rfl

/-- The table of merges of the model. -/
def mergeTable (ms : List (Pair × Nat)) : AMap (Nat × Nat) (Nat × Nat) := AMap.extend [] (ms.zipIdx.map fun p => (p.1.1, (p.2, p.1.2)))

theorem finish_spec {s : St} (hv : VocOk s.voc) (b : Bpe) :
    ∃ b', finish cfg s b = some b' ∧ b'.vocab.WF ∧ (∀ t i, b'.vocab.get t = some i ↔ s.voc.id2w[i]? = some t) ∧
      b'.vocabR = AMap.extend [] (b'.vocab.map fun p => (p.2, p.1)) ∧ b'.merges = mergeTable s.merges ∧
      b'.pre = cfg.pre ∧ b'.suf = cfg.suf ∧ b'.useDropout = b.useDropout ∧ b'.ignoreMerges = b.ignoreMerges ∧
      b'.unk = b.unk ∧ b'.byteFallback = b.byteFallback ∧ b'.fuseUnk = b.fuseUnk := by
  have hm : s.voc.w2id.mapM (fun p => (s.voc.id2w[p.2]?).map fun t => (t, p.2)) = some (s.voc.w2id.map id) := by
    refine mapM_some _ _ _ fun p hp => ?_
    have := (hv.inv p.1 p.2).1 (AMap.get_eq_some_of_mem hv.wf hp)
    rw [this]
    rfl
  unfold finish
  rw [hm, List.map_id]
  refine ⟨_, rfl, AMap.WF.extend .nil _, fun t i => ?_, rfl, rfl, rfl, rfl, rfl, rfl, rfl, rfl, rfl⟩
  simp only
  rw [AMap.get_extend_wf hv.wf]
  simp only [AMap.get, List.find?_nil, Option.map_none, Option.or_none]
  exact hv.inv t i

theorem fresh_nodup {ms : List (Pair × Nat)} (hf : FreshMerges ms) : AMap.WF (ms.zipIdx.map fun p => (p.1.1, (p.2, p.1.2))) := by
  unfold AMap.WF
  rw [List.map_map]
  have : (ms.zipIdx.map ((·.1) ∘ fun p : (Pair × Nat) × Nat => (p.1.1, (p.2, p.1.2)))) = ms.map (·.1) := by
    rw [show ((·.1) ∘ fun p : (Pair × Nat) × Nat => (p.1.1, (p.2, p.1.2))) = (·.1) ∘ Prod.fst from rfl, ← List.map_map,
      List.zipIdx_map_fst]
  rw [this, List.nodup_iff_pairwise_ne, List.pairwise_map]
  exact hf.1.imp fun h => h.2.2.symm

theorem table_of {ms : List (Pair × Nat)} (hf : FreshMerges ms) : TableOf (mergeFn (mergeTable ms)) ms := by
  intro a b i r
  have hwf := fresh_nodup hf
  unfold mergeFn mergeTable
  rw [AMap.get_extend_wf hwf, show AMap.get ([] : AMap (Nat × Nat) (Nat × Nat)) (a, b) = none from rfl, Option.or_none]
  constructor
  · intro h
    obtain ⟨p, hp, e⟩ := List.mem_map.1 (AMap.mem_of_get_eq_some h)
    simp only [Prod.mk.injEq] at e
    rw [List.mem_zipIdx_iff_getElem?] at hp
    rw [← e.2.1, hp, ← e.2.2, ← e.1]
  · intro h
    refine AMap.get_eq_some_of_mem hwf (List.mem_map.2 ⟨(((a, b), r), i), ?_, rfl⟩)
    rw [List.mem_zipIdx_iff_getElem?]
    exact h

theorem buildMerges_table {vocab : AMap Str Nat} {n : Nat} (f : Pair × Nat → Str × Str) : ∀ (ms : List (Pair × Nat)) (i : Nat)
    (acc : AMap (Nat × Nat) (Nat × Nat)), (∀ m ∈ ms, ∀ i, buildMerge vocab n i (f m).1 (f m).2 = .ok (m.1, (i, m.2))) →
    buildMerges vocab n i (ms.map f) acc = .ok (acc.extend ((ms.zipIdx i).map fun p => (p.1.1, (p.2, p.1.2))))
  | [], i, acc, _ => rfl
  | m :: ms, i, acc, h => by
    rw [List.map_cons, buildMerges, h m (by simp) i]
    simp only
    rw [buildMerges_table f ms (i + 1) _ fun m' hm' => h m' (by simp [hm'])]
    rfl

/-- The merges as strings. -/
def mergeStrs (s : St) : List (Str × Str) := s.merges.map fun m => (s.voc.id2w.getD m.1.1 [], s.voc.id2w.getD m.1.2 [])

theorem Inv.freshMerges {counts : List Nat} {words0 : List Seg} {str : Seg → Str} {s : St} {hist : List (Seg × Seg)}
    (hI : Inv cfg counts words0 str s hist) : FreshMerges s.merges :=
  ⟨hI.fresh.imp fun h => ⟨h.1, h.2.1, h.2.2.2⟩, hI.fresh'⟩

theorem inv_built {counts : List Nat} {words0 : List Seg} {str : Seg → Str} {s : St} {hist : List (Seg × Seg)}
    (hI : Inv cfg counts words0 str s hist) (hb : Readable cfg.pre words0 str) (hs : Shaped cfg.pre words0 str) {b b' : Bpe}
    (hf : finish cfg s b = some b') :
    Built b' ∧ TableOf (mergeFn b'.merges) s.merges ∧ build b'.vocab (mergeStrs s) b' = .ok b' := by
  obtain ⟨b1, h1, hwf, hget, hR, hM, hpre, hsuf, _⟩ := finish_spec (cfg := cfg) hI.voc b
  rw [hf] at h1
  cases h1
  have hstr : ∀ m ∈ s.merges, ∃ x y c t P d u, s.voc.id2w[m.1.1]? = some (str x) ∧ s.voc.id2w[m.1.2]? = some (str y) ∧
      s.voc.id2w[m.2]? = some (str x ++ c :: t) ∧ str y = cfg.pre.getD [] ++ c :: t ∧ (P = [] ∨ P = cfg.pre.getD []) ∧
      str x = P ++ d :: u ∧ ∀ e r, cfg.pre.getD [] = e :: r → d ≠ e := by
    intro m hm
    obtain ⟨⟨x, y⟩, hh, g1, g2, g3⟩ := hI.mseen m hm
    obtain ⟨k1, k2, k3, _⟩ := hI.hok _ hh
    obtain ⟨c, t, e1⟩ := hs.right x y k1 k2 k3
    obtain ⟨P, d, u, e2, e3, e4⟩ := hs.left x (hI.factor g1.1)
    have := hb.cat x y k1 k2 k3
    refine ⟨x, y, c, t, P, d, u, g1.2, g2.2, ?_, e1, e2, e3, e4⟩
    rw [g3.2, this, e1]
    rw [(strip_atom cfg.pre _ rfl (c :: t) []).2]
  have hbuild : build b'.vocab (mergeStrs s) b' = .ok b' := by
    unfold build mergeStrs
    rw [buildMerges_table, hpre]
    · simp only
      rw [← hR]
      unfold mergeTable at hM
      rw [← hM, ← hpre]
    · intro m hm i
      obtain ⟨x, y, c, t, P, d, u, g1, g2, g3, e1, _⟩ := hstr m hm
      simp only [List.getD_eq_getElem?_getD, g1, g2, Option.getD_some]
      unfold buildMerge
      rw [(hget _ _).2 g1, (hget _ _).2 g2]
      simp only
      have l1 := le_maxLen ((hget _ _).2 g1)
      have l3 := le_maxLen ((hget _ _).2 g3)
      rw [if_neg (by omega), hpre, e1, blen_append]
      rw [blen_append] at l3
      rw [if_neg (by omega), if_neg (by omega), dropBytes_append]
      simp only
      rw [(hget _ _).2 g3]
  have hsane : MergesSane (b'.pre.getD []) (mergeStrs s) := by
    rw [hpre]
    constructor
    · intro ab hab
      obtain ⟨m, hm, rfl⟩ := List.mem_map.1 hab
      obtain ⟨x, y, c, t, P, d, u, g1, g2, g3, e1, _⟩ := hstr m hm
      simp only [List.getD_eq_getElem?_getD, g2, Option.getD_some]
      exact ⟨c :: t, e1, by simp⟩
    · intro ab hab
      obtain ⟨m, hm, rfl⟩ := List.mem_map.1 hab
      obtain ⟨x, y, c, t, P, d, u, g1, g2, g3, e1, e2, e3, e4⟩ := hstr m hm
      simp only [List.getD_eq_getElem?_getD, g1, Option.getD_some]
      rw [e3]
      rcases e2 with rfl | rfl
      · unfold strip
        split
        · rename_i hp
          cases hc : cfg.pre.getD [] with
          | nil => simp
          | cons e r =>
            rw [hc] at hp
            simp [List.isPrefixOf] at hp
            exact absurd hp.1.symm (e4 e r hc)
        · simp
      · rw [strip_prefix]; simp
    · intro ab hab
      obtain ⟨m, hm, rfl⟩ := List.mem_map.1 hab
      obtain ⟨x, y, c, t, P, d, u, g1, g2, g3, e1, e2, e3, e4⟩ := hstr m hm
      simp only [List.getD_eq_getElem?_getD, g1, Option.getD_some]
      intro b2 _ hp
      rw [e3] at hp ⊢
      rcases e2 with rfl | rfl
      · cases hc : cfg.pre.getD [] with
        | nil => exact List.nil_prefix
        | cons e r =>
          rw [hc] at hp
          obtain ⟨z, hz⟩ := hp
          simp only [List.nil_append, List.cons_append, List.cons.injEq] at hz
          exact absurd hz.1.symm (e4 e r hc)
      · exact List.prefix_append _ _
  refine ⟨⟨⟨mergeStrs s, b', hbuild, hsane⟩, hwf, fun t t' i h h' => ?_⟩, ?_, hbuild⟩
  · rw [hget] at h h'
    rw [h] at h'
    exact Option.some.inj h'
  · rw [hM]
    exact table_of hI.freshMerges

/-- **C41.** Writing the result into the model does not panic; the model is one that the builder makes from its vocabulary and
the merges as strings, so it is sane in the sense of C15, C16 and C20, and the rank of a merge is its position. -/
theorem C41_built (hsep : Separated cfg wc) {s : St} (h : Trained cfg order wc s) (b : Bpe) :
    ∃ b', finish cfg s b = some b' ∧ Built b' ∧ build b'.vocab (mergeStrs s) b' = .ok b' ∧
      (∀ t i, b'.vocab.get t = some i ↔ s.voc.id2w[i]? = some t) ∧ TableOf (mergeFn b'.merges) s.merges := by
  obtain ⟨s', hist, q, rfl, hI, _⟩ := trained_inv hsep h
  obtain ⟨_, hb, hs⟩ := start_inv' cfg order wc hsep
  obtain ⟨b', h1, _, h2, _⟩ := finish_spec (cfg := cfg) (s := { s' with queue := q }) hI.voc b
  obtain ⟨h3, h4, h5⟩ := inv_built (b := b) (b' := b') hI hb hs h1
  exact ⟨b', h1, h3, h5, h2, h4⟩

theorem init_spells {b' : Bpe} {id2w : List Str} (hget : ∀ t i, b'.vocab.get t = some i ↔ id2w[i]? = some t)
    (hpre : b'.pre = cfg.pre) (hsuf : b'.suf = cfg.suf) {K : Char → Bool} : ∀ (w : Str) (first : Bool) (syms : List Sym)
    (o : List (Nat × Nat)), (∀ c ∈ w, K c = true) → Spells id2w syms (wordStrs cfg K first w) →
    ∃ l, initLoop b' first w (o, none) = some (o ++ l, none) ∧ l.map (·.1) = syms.map (·.1)
  | [], first, [], o, _, _ => ⟨[], by simp [initLoop], rfl⟩
  | [], _, _ :: _, _, _, h => h.elim
  | c :: rest, first, syms, o, hk, h => by
    rw [wordStrs, if_pos (hk c (by simp))] at h
    cases syms with
    | nil => exact h.elim
    | cons a syms =>
      obtain ⟨_, h2, h3⟩ := h
      have hc : charSym b' first rest.isEmpty c = atomStr cfg first rest.isEmpty c := by
        rw [charSym_eq, ← atomOf_str, hpre, hsuf]; simp [atomOf, Atom.str]
      obtain ⟨l, g1, g2⟩ := init_spells hget hpre hsuf rest false syms (o ++ [(a.1, c.utf8Size)])
        (fun d hd => hk d (by simp [hd])) h3
      refine ⟨(a.1, c.utf8Size) :: l, ?_, by simp [g2]⟩
      rw [initLoop, stepChar, hc, (hget _ _).2 h2]
      simp only [flushUnk]
      rw [g1]
      simp

/-- **C41.** The trained model tokenizes a training word, all of whose characters were kept, into the symbols the trainer ended
with. -/
theorem C41_retokenize (hsep : Separated cfg wc) {s : St} (h : Trained cfg order wc s) {b b' : Bpe}
    (hf : finish cfg s b = some b') (hd : b.useDropout = false) (hi : b.ignoreMerges = false) (coins : Nat → Bool)
    {i : Nat} {w : Str} {n : Nat} (hw : wc[i]? = some (w, n)) (hk : ∀ c ∈ w, kept cfg order wc c = true) :
    ∃ ts syms, tokenize b' coins w = .ok ts ∧ s.words[i]? = some syms ∧ ts.map (·.id) = syms.map (·.1) := by
  obtain ⟨s', hist, q, rfl, hI, hg⟩ := trained_inv hsep h
  obtain ⟨_, hb, hs⟩ := start_inv' cfg order wc hsep
  obtain ⟨b1, h1, _, hget, _, _, hpre, hsuf, hdr, hig, _⟩ := finish_spec (cfg := cfg) (s := { s' with queue := q }) hI.voc b
  rw [hf] at h1
  cases h1
  obtain ⟨hB, hT, _⟩ := inv_built (b := b) (b' := b') hI hb hs hf
  obtain ⟨_, _, _, _, h5⟩ := start_spec cfg order wc
  obtain ⟨syms0, e1, e2⟩ := h5.get.2 i _ hw
  simp only at hg hget
  have hmono := greedy_mono hg
  obtain ⟨l, e3, e4⟩ := init_spells hget hpre hsuf w true syms0 [] hk (e2.mono hmono)
  have hfin : s'.words[i]? = some (applyMerges s'.merges syms0) := by
    rw [greedy_words hg, List.getElem?_map, e1]
    rfl
  by_cases hne : w = []
  · subst hne
    have hs0 : syms0 = [] := by
      cases syms0 with
      | nil => rfl
      | cons _ _ => exact e2.elim
    subst hs0
    refine ⟨[], _, by simp [tokenize], hfin, ?_⟩
    have : ∀ ms, applyMerges ms [] = [] := by
      intro ms
      induction ms with
      | nil => rfl
      | cons m ms ih => exact ih
    rw [this]
    rfl
  · have hinit : initSyms b' w = some l := by
      unfold initSyms
      rw [e3]
      simp [flushUnk]
    have := C15_tokenize_textbook hB hne coins (by rw [hdr]; exact hd) (by rw [hig, hi]; intro h; cases h)
    rw [hinit] at this
    obtain ⟨ts, l', k1, k2, k3⟩ := this
    have k4 := C41_merges_in_order hT hI.freshMerges l
    have k5 := C15_textbook_unique k2 k4
    subst k5
    refine ⟨ts, _, k1, hfin, ?_⟩
    rw [k3.1]
    exact applyMerges_ids _ _ _ e4

end

end Tok.Train
