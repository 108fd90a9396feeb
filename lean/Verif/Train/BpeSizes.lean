import Verif.Train.BpeExamples
import Verif.Bpe.Strings

/-!
# C115: a smaller vocabulary is the beginning of a larger one

Training with a smaller `vocab_size`, or a larger `min_frequency`, does the same merges and stops earlier. A longer list of
merges only joins tokens of the shorter one.
-/

namespace Tok.Bpe

/-! ## A longer table of merges -/

/-- `m'` has all merges of `m`, and others of higher ranks. -/
structure Longer (m m' : MergeFn) : Prop where
  same : ∀ a b p, m a b = some p → m' a b = some p
  later : ∀ a b r x, m' a b = some (r, x) → m a b = none → ∀ c d r' x', m c d = some (r', x') → r' < r

theorem Longer.step {m m' : MergeFn} (h : Longer m m') {w w' : List (Nat × Nat)} (hs : TextbookStep m w w') :
    TextbookStep m' w w' := by
  cases hs with
  | mk pre a b post r x hm best =>
    refine .mk pre a b post r x (h.same _ _ _ hm) fun pre' c d post' r' x' e hm' => ?_
    cases hc : m c.1 d.1 with
    | none => exact .inl (h.later _ _ _ _ hm' hc _ _ _ _ hm)
    | some p =>
      rw [h.same _ _ _ hc] at hm'
      exact best pre' c d post' r' x' e (hc.trans hm')

theorem Longer.star {m m' : MergeFn} (h : Longer m m') {w w' : List (Nat × Nat)} (hs : Star (TextbookStep m) w w') :
    Star (TextbookStep m') w w' := by
  induction hs with
  | refl => exact .refl _
  | tail _ h1 ih => exact .tail ih (h.step h1)

/-- The result for the longer table is what it makes of the result for the shorter one. -/
theorem Longer.textbook {m m' : MergeFn} (h : Longer m m') {w v u : List (Nat × Nat)} (hv : Textbook m w v)
    (hu : Textbook m' w u) : Textbook m' v u := by
  have walk : ∀ {a b}, Star (TextbookStep m') a b → Star (TextbookStep m') a u → Star (TextbookStep m') b u := by
    intro a b s
    induction s with
    | refl => exact id
    | tail s h1 ih =>
      intro s2
      rcases star_cases_head (ih s2) with he | ⟨d, h', s'⟩
      · rw [he] at h1
        cases h1 with
        | mk pre a b post r x hm best => rw [hu.2 _ _ _ _ rfl] at hm; cases hm
      · rw [textbookStep_det h1 h']; exact s'
  exact ⟨walk (h.star hv.1) hu.1, hu.2⟩

/-! ## Groups of symbols -/

/-- Each symbol of the second list stands for some consecutive symbols of the first. -/
inductive Grp (str : Nat → Str) : List (Nat × Nat) → List (Nat × Nat) → Prop
  | nil : Grp str [] []
  | cons (g : List (Nat × Nat)) (x : Nat × Nat) (l l' : List (Nat × Nat)) (ne : g ≠ []) (len : x.2 = (g.map (·.2)).sum)
      (val : str x.1 = (g.map fun y => str y.1).flatten) (h : Grp str l l') : Grp str (g ++ l) (x :: l')

theorem Grp.refl (str : Nat → Str) : ∀ l, Grp str l l
  | [] => .nil
  | x :: l => .cons [x] x l l (by simp) (by simp) (by simp) (Grp.refl str l)

theorem Grp.append {str : Nat → Str} {l1 l1' l2 l2' : List (Nat × Nat)} (h1 : Grp str l1 l1') (h2 : Grp str l2 l2') :
    Grp str (l1 ++ l2) (l1' ++ l2') := by
  induction h1 with
  | nil => exact h2
  | cons g x l l' ne len val h ih => rw [List.append_assoc]; exact .cons g x _ _ ne len val ih

theorem Grp.split {str : Nat → Str} : ∀ {pre : List (Nat × Nat)} {v rest : List (Nat × Nat)}, Grp str v (pre ++ rest) →
    ∃ v1 v2, v = v1 ++ v2 ∧ Grp str v1 pre ∧ Grp str v2 rest
  | [], v, rest, h => ⟨[], v, rfl, .nil, h⟩
  | p :: pre, v, rest, h => by
    cases h with
    | cons g x l l' ne len val h =>
      obtain ⟨v1, v2, rfl, h1, h2⟩ := Grp.split h
      exact ⟨g ++ v1, v2, by simp, .cons g p _ _ ne len val h1, h2⟩

theorem Grp.step {str : Nat → Str} {m : MergeFn} (hm : ∀ a b r x, m a b = some (r, x) → str x = str a ++ str b)
    {v u u' : List (Nat × Nat)} (h : Grp str v u) (hs : TextbookStep m u u') : Grp str v u' := by
  cases hs with
  | mk pre a b post r x hx best =>
    obtain ⟨v1, v2, rfl, h1, h2⟩ := Grp.split h
    refine h1.append ?_
    cases h2 with
    | cons g _ l l' ne len val h2 =>
      cases h2 with
      | cons g2 _ l2 l2' ne2 len2 val2 h2 =>
        rw [← List.append_assoc]
        refine .cons (g ++ g2) _ _ _ (by simp [ne]) ?_ ?_ h2
        · simp only [len, len2, List.map_append, List.sum_append]
        · simp only [hm _ _ _ _ hx, val, val2, List.map_append, List.flatten_append]

theorem Grp.star {str : Nat → Str} {m : MergeFn} (hm : ∀ a b r x, m a b = some (r, x) → str x = str a ++ str b)
    {v u : List (Nat × Nat)} (hs : Star (TextbookStep m) v u) : Grp str v u := by
  induction hs with
  | refl => exact .refl _ _
  | tail _ h1 ih => exact ih.step hm h1

/-! ## Groups of tokens -/

/-- The token stands for these ones: it goes from the start of the first to the end of the last, and reads as they do. -/
structure Covers (g : List Token) (t : Token) : Prop where
  start : g.head?.map (·.offsets.1) = some t.offsets.1
  stop : g.getLast?.map (·.offsets.2) = some t.offsets.2
  value : t.value = (g.map (·.value)).flatten

/-- Each token of the second list stands for some consecutive tokens of the first, all of them in turn. -/
inductive Coarser : List Token → List Token → Prop
  | nil : Coarser [] []
  | cons (g : List Token) (t : Token) (ts ts' : List Token) (h : Covers g t) (hr : Coarser ts ts') : Coarser (g ++ ts) (t :: ts')

theorem offsetsFrom_append : ∀ (a b : List Nat) (pos : Nat),
    offsetsFrom pos (a ++ b) = offsetsFrom pos a ++ offsetsFrom (pos + a.sum) b
  | [], b, pos => by simp [offsetsFrom]
  | n :: a, b, pos => by
    simp only [List.cons_append, offsetsFrom, offsetsFrom_append a b, List.sum_cons]
    rw [Nat.add_assoc]

theorem offsetsFrom_ends : ∀ (a : List Nat) (pos : Nat), a ≠ [] → (offsetsFrom pos a).head?.map (·.1) = some pos ∧
    (offsetsFrom pos a).getLast?.map (·.2) = some (pos + a.sum)
  | [], _, h => (h rfl).elim
  | [n], pos, _ => by simp [offsetsFrom]
  | n :: k :: a, pos, _ => by
    obtain ⟨_, h2⟩ := offsetsFrom_ends (k :: a) (pos + n) (by simp)
    refine ⟨by simp [offsetsFrom], ?_⟩
    rw [offsetsFrom, List.getLast?_cons_of_ne_nil (by simp [offsetsFrom]), h2, List.sum_cons (a := n), Nat.add_assoc]

theorem Grp.tokens {str : Nat → Str} {v u : List (Nat × Nat)} (h : Grp str v u) : ∀ {pos : Nat} {ts ts' : List Token},
    ts.map (fun t => (t.offsets, t.value)) = (offsetsFrom pos (v.map (·.2))).zip (v.map fun y => str y.1) →
    ts'.map (fun t => (t.offsets, t.value)) = (offsetsFrom pos (u.map (·.2))).zip (u.map fun y => str y.1) → Coarser ts ts' := by
  induction h with
  | nil =>
    intro pos ts ts' h1 h2
    simp [offsetsFrom] at h1 h2
    subst h1; subst h2
    exact .nil
  | cons g x l l' ne len val h ih =>
    intro pos ts ts' h1 h2
    rw [List.map_append, List.map_append, offsetsFrom_append, List.zip_append (by
      have : ∀ (a : List Nat) pos, (offsetsFrom pos a).length = a.length := by
        intro a
        induction a with
        | nil => intro _; rfl
        | cons n a ih => intro pos; simp [offsetsFrom, ih]
      simp [this]), List.map_eq_append_iff] at h1
    obtain ⟨t1, t2, rfl, k1, k2⟩ := h1
    rw [List.map_cons, List.map_cons, offsetsFrom, List.zip_cons_cons, List.map_eq_cons_iff] at h2
    obtain ⟨t, t3, rfl, k3, k4⟩ := h2
    rw [len] at k3 k4
    refine .cons t1 t t2 t3 ?_ (ih k2 k4)
    have hlen : ∀ (a : List Nat) pos, (offsetsFrom pos a).length = a.length := by
      intro a
      induction a with
      | nil => intro _; rfl
      | cons n a ih => intro pos; simp [offsetsFrom, ih]
    have e1 : t1.map (·.offsets) = offsetsFrom pos (g.map (·.2)) := by
      have := congrArg (List.map (·.1)) k1
      rw [List.map_map, List.map_fst_zip (by simp [hlen])] at this
      exact this
    have e2 : t1.map (·.value) = g.map fun y => str y.1 := by
      have := congrArg (List.map (·.2)) k1
      rw [List.map_map, List.map_snd_zip (by simp [hlen])] at this
      exact this
    obtain ⟨o1, o2⟩ := offsetsFrom_ends (g.map (·.2)) pos (by simp [ne])
    rw [← e1] at o1 o2
    rw [Prod.mk.injEq] at k3
    refine ⟨?_, ?_, ?_⟩
    · rw [k3.1, ← o1, List.head?_map, Option.map_map]; rfl
    · rw [k3.1, ← o2, List.getLast?_map, Option.map_map]; rfl
    · rw [k3.2, val, e2]

/-- Without prefix, a merge puts two tokens together, none of them empty. -/
theorem merged_concat {b : Bpe} (h : Built b) (hp : b.pre = none) {x y r z : Nat} (hm : mergeFn b.merges x y = some (r, z)) :
    ∃ a c, b.vocab.get a = some x ∧ b.vocab.get c = some y ∧ b.vocab.get (a ++ c) = some z ∧ a ≠ [] ∧ c ≠ [] := by
  obtain ⟨⟨merges, cfg, h1, h2⟩, -, -⟩ := h
  have ep : cfg.pre = none := by rw [← hp, (build_merges h1).2]
  rw [ep] at h2
  obtain ⟨⟨⟨a, c⟩, k1, k2, k3, b', k4, k5⟩, -⟩ := (C20_build_get h1 x y r z).1 hm
  rw [ep] at k4
  have e : b' = c := by
    have k := dropBytes_iff.2 k4
    have k' : dropBytes (blen ([] : Str)) ([] ++ c) = some c := dropBytes_append _ _
    exact Option.some.inj (k.symm.trans k')
  subst e
  have hmem := List.mem_of_getElem? k1
  obtain ⟨c', e1, e2⟩ := h2.right _ hmem
  have e3 := h2.left _ hmem
  refine ⟨a, b', k2, k3, k5, ?_, ?_⟩
  · rintro rfl
    exact e3 (by simp [strip])
  · rintro rfl
    have : ([] : Str) = [] ++ c' := e1
    exact e2 (by simpa using this.symm)

/-- Two models, the second with more merges, later ones, and more tokens: if a word has the same symbols to begin with, then the
second one gives the tokens of the first one joined in groups. -/
theorem coarser_of_longer {small large : Bpe} (hB : Built small) (hB' : Built large) (hp : large.pre = none)
    (hlong : Longer (mergeFn small.merges) (mergeFn large.merges))
    (hup : ∀ t i, small.vocab.get t = some i → large.vocab.get t = some i) {w : Str} {l : List (Nat × Nat)}
    (hl : initSyms small w = some l) (hl' : initSyms large w = some l) (hd : small.useDropout = false)
    (hd' : large.useDropout = false) (hi : small.ignoreMerges = false) (hi' : large.ignoreMerges = false)
    (coins coins' : Nat → Bool) :
    ∃ ts ts', tokenize small coins w = .ok ts ∧ tokenize large coins' w = .ok ts' ∧ Coarser ts ts' := by
  by_cases hw : w = []
  · subst hw
    exact ⟨[], [], rfl, rfl, .nil⟩
  have t1 := C15_tokenize_textbook hB hw coins hd (fun e => by rw [hi] at e; cases e)
  have t2 := C15_tokenize_textbook hB' hw coins' hd' (fun e => by rw [hi'] at e; cases e)
  rw [hl] at t1
  rw [hl'] at t2
  obtain ⟨ts, v, r1, r2, r3⟩ := t1
  obtain ⟨ts', u, r1', r2', r3'⟩ := t2
  refine ⟨ts, ts', r1, r1', ?_⟩
  have hst := (hlong.textbook r2 r2').1
  have hmem : ∀ (i : Nat) t, large.vocab.get t = some i → tokOf large.vocab i = t := fun i t k => tokOf_get hB'.wf hB'.distinct k
  have hg := Grp.star (str := tokOf large.vocab) (fun a c r x k => by
    obtain ⟨x1, x2, k1, k2, k3, _⟩ := merged_concat hB' hp k
    rw [hmem _ _ k1, hmem _ _ k2, hmem _ _ k3]) hst
  have htok : ∀ (ts : List Token) (v : List (Nat × Nat)), ts.map (·.id) = v.map (·.1) →
      ts.map (·.offsets) = offsetsFrom 0 (v.map (·.2)) → (∀ t ∈ ts, large.vocab.get t.value = some t.id) →
      ts.map (fun t => (t.offsets, t.value)) =
        (offsetsFrom 0 (v.map (·.2))).zip (v.map fun y => tokOf large.vocab y.1) := by
    intro ts v k1 k2 k3
    rw [← k2, show (v.map fun y => tokOf large.vocab y.1) = ts.map (·.value) from ?_, List.zip_map']
    rw [show (fun y : Nat × Nat => tokOf large.vocab y.1) = (fun i => tokOf large.vocab i) ∘ (·.1) from rfl, ← List.map_map,
      ← k1, List.map_map]
    exact List.map_congr_left fun t ht => hmem _ _ (k3 t ht)
  exact hg.tokens (htok ts v r3.1 r3.2.1 fun t ht => hup _ _ (r3.2.2 t ht)) (htok ts' u r3'.1 r3'.2.1 r3'.2.2)

theorem letters_initLoop {b b' : Bpe} (hp : b.pre = none) (hp' : b'.pre = none) (hs : b.suf = b'.suf)
    (hup : ∀ t i, b.vocab.get t = some i → b'.vocab.get t = some i) : ∀ (w : Str) (first : Bool) (st : InitSt),
    (∀ g ∈ letters [] (b.suf.getD []) first w, ∃ i, b.vocab.get g = some i) → initLoop b first w st = initLoop b' first w st
  | [], _, _, _ => rfl
  | c :: w, first, st, hk => by
    rw [letters] at hk
    have e1 : charSym b first w.isEmpty c = charSym b' first w.isEmpty c := by simp [charSym, hp, hp', hs]
    have e2 : charSym b first w.isEmpty c = (if first then [] else []) ++ [c] ++ if w = [] then b.suf.getD [] else [] := by
      rw [charSym_eq, hp]
      cases first <;> cases w <;> simp
    obtain ⟨i, hi⟩ := hk _ List.mem_cons_self
    rw [← e2] at hi
    have e : stepChar b st first w.isEmpty c = stepChar b' st first w.isEmpty c := by
      unfold stepChar
      simp only [hi, ← e1, hup _ _ hi]
    rw [initLoop, initLoop, e]
    cases stepChar b' st first w.isEmpty c with
    | none => rfl
    | some st' => exact letters_initLoop hp hp' hs hup w false st' fun g hg => hk g (List.mem_cons_of_mem _ hg)

/-- **C115.** The same for the files: a model built from more merges, none of them twice, and a larger vocabulary gives the
tokens of the smaller model joined in groups, on words whose characters the smaller one knows. -/
theorem C115_merge_lists {vocab vocab' : AMap Str Nat} {merges more : List (Str × Str)} {cfg small large : Bpe}
    (h : build vocab merges cfg = .ok small) (h' : build vocab' (merges ++ more) cfg = .ok large) (hwf : vocab.WF)
    (hwf' : vocab'.WF) (hd : IdsDistinct vocab) (hd' : IdsDistinct vocab')
    (hup : ∀ t i, vocab.get t = some i → vocab'.get t = some i) (hn : (merges ++ more).Nodup)
    (hne : ∀ ab ∈ merges ++ more, ab.1 ≠ [] ∧ ab.2 ≠ []) (hp : cfg.pre = none) (hdr : cfg.useDropout = false)
    (hi : cfg.ignoreMerges = false) {w : Str} (hk : ∀ g ∈ letters [] (cfg.suf.getD []) true w, ∃ i, vocab.get g = some i)
    (coins coins' : Nat → Bool) :
    ∃ ts ts', tokenize small coins w = .ok ts ∧ tokenize large coins' w = .ok ts' ∧ Coarser ts ts' := by
  have e := (build_merges h).2
  have e' := (build_merges h').2
  have ev : small.vocab = vocab := by rw [e]
  have ev' : large.vocab = vocab' := by rw [e']
  have ep : small.pre = none := by rw [e]; exact hp
  have ep' : large.pre = none := by rw [e']; exact hp
  have sane : ∀ l : List (Str × Str), (∀ ab ∈ l, ab.1 ≠ [] ∧ ab.2 ≠ []) → MergesSane (cfg.pre.getD []) l := by
    intro l hl
    rw [hp]
    refine ⟨fun ab hab => ⟨ab.2, rfl, (hl ab hab).2⟩, fun ab hab => ?_, fun ab hab b' _ _ => List.nil_prefix⟩
    simpa [strip] using (hl ab hab).1
  have hs := sane merges fun ab hab => hne ab (by simp [hab])
  have hs' := sane _ hne
  have hB : Built small := ⟨⟨merges, cfg, by rw [ev]; exact h, hs⟩, by rw [ev]; exact hwf, by rw [ev]; exact hd⟩
  have hB' : Built large := ⟨⟨_, cfg, by rw [ev']; exact h', hs'⟩, by rw [ev']; exact hwf', by rw [ev']; exact hd'⟩
  have rank : ∀ {l : List (Str × Str)}, l.Nodup → ∀ {ab : Str × Str} {r r' : Nat}, l[r]? = some ab → l[r']? = some ab → r = r' := by
    intro l hl ab r r' h1 h2
    obtain ⟨g1, h1⟩ := List.getElem?_eq_some_iff.1 h1
    obtain ⟨g2, h2⟩ := List.getElem?_eq_some_iff.1 h2
    rw [List.nodup_iff_pairwise_ne, List.pairwise_iff_getElem] at hl
    rcases Nat.lt_trichotomy r r' with h | h | h
    · exact (hl _ _ g1 g2 h (h1.trans h2.symm)).elim
    · exact h
    · exact (hl _ _ g2 g1 h (h2.trans h1.symm)).elim
  have hlong : Longer (mergeFn small.merges) (mergeFn large.merges) := by
    have key : ∀ {a b : Nat} {ab : Str × Str} {z r : Nat}, merges[r]? = some ab →
        Resolves vocab (blen (cfg.pre.getD [])) ab a b z → mergeFn large.merges a b = some (r, z) := by
      intro a b ab z r h1 h2
      have h1' : (merges ++ more)[r]? = some ab := by
        rw [List.getElem?_append_left (List.getElem?_eq_some_iff.1 h1).1]; exact h1
      refine (C20_build_get h' a b r z).2 ⟨⟨ab, h1', hup _ _ h2.1, hup _ _ h2.2.1, ?_⟩, fun r' ab' z' h3 h4 => ?_⟩
      · obtain ⟨b', k1, k2⟩ := h2.2.2
        exact ⟨b', k1, hup _ _ k2⟩
      · have e1 : ab' = ab := Prod.ext (hd' _ _ _ h4.1 (hup _ _ h2.1)) (hd' _ _ _ h4.2.1 (hup _ _ h2.2.1))
        rw [e1] at h3
        exact Nat.le_of_eq (rank hn h3 h1')
    constructor
    · rintro a b ⟨r, z⟩ hm
      obtain ⟨⟨ab, h1, h2⟩, -⟩ := (C20_build_get h a b r z).1 hm
      exact key h1 h2
    · intro a b r x hm h0 c d r' x' hm'
      obtain ⟨⟨ab, h1, -⟩, -⟩ := (C20_build_get h c d r' x').1 hm'
      have l1 := (List.getElem?_eq_some_iff.1 h1).1
      refine Nat.lt_of_not_le fun hle => ?_
      obtain ⟨⟨ab2, k1, k2⟩, -⟩ := (C20_build_get h' a b r x).1 hm
      rw [List.getElem?_append_left (by omega)] at k1
      obtain ⟨i, j, z, g1, g2, g3⟩ := (C20_build_ok_iff vocab merges cfg).1 ⟨small, h⟩ _ (List.mem_of_getElem? k1)
      have e1 : i = a := Option.some.inj ((hup _ _ g1).symm.trans k2.1)
      have e2 : j = b := Option.some.inj ((hup _ _ g2).symm.trans k2.2.1)
      subst e1; subst e2
      have : mergeFn small.merges i j = some (r, z) := by
        refine (C20_build_get h i j r z).2 ⟨⟨ab2, k1, g1, g2, g3⟩, fun r' ab' z' h3 h4 => ?_⟩
        have e1 : ab' = ab2 := Prod.ext (hd _ _ _ h4.1 g1) (hd _ _ _ h4.2.1 g2)
        rw [e1] at h3
        exact Nat.le_of_eq (rank (hn.sublist (List.sublist_append_left _ _)) h3 k1)
      rw [h0] at this
      cases this
  obtain ⟨l, h1, h2⟩ := initLoop_letters (b := small) w true [] (by
    rw [show small.pre.getD [] = [] by rw [ep]; rfl, show small.suf = cfg.suf by rw [e], ev]; exact hk)
  refine coarser_of_longer hB hB' ep' hlong (by rw [ev, ev']; exact hup) (l := l) ?_ ?_ (by rw [e]; exact hdr) (by rw [e']; exact hdr)
    (by rw [e]; exact hi) (by rw [e']; exact hi) coins coins'
  · unfold initSyms; rw [h1]; simp [flushUnk]
  · unfold initSyms
    rw [← letters_initLoop (b := small) ep ep' (by rw [e, e']) (by rw [ev, ev']; exact hup) w true _ (by
      rw [show small.suf = cfg.suf by rw [e], ev]; exact hk), h1]
    simp [flushUnk]

/-- The vocabulary of the example: `a`, `b`, `c`, `ab`, `abc`. -/
def abcVocab : AMap Str Nat := [(['a'], 0), (['b'], 1), (['c'], 2), (['a', 'b'], 3), (['a', 'b', 'c'], 4)]

/-- The hypotheses are met: the second merge is left out. -/
example : ∃ small large ts ts', build abcVocab [(['a'], ['b'])] ⟨[], [], [], false, none, none, none, false, false, false⟩ = .ok small ∧
    build abcVocab ([(['a'], ['b'])] ++ [(['a', 'b'], ['c'])]) ⟨[], [], [], false, none, none, none, false, false, false⟩ = .ok large ∧
    tokenize small (fun _ => false) ['a', 'b', 'c', 'b'] = .ok ts ∧ tokenize large (fun _ => false) ['a', 'b', 'c', 'b'] = .ok ts' ∧
    Coarser ts ts' := by
  have hd : IdsDistinct abcVocab := by
    intro s t i h1 h2
    have m1 := AMap.mem_of_get_eq_some h1
    have m2 := AMap.mem_of_get_eq_some h2
    simp only [abcVocab, List.mem_cons, Prod.mk.injEq, List.not_mem_nil, or_false] at m1 m2
    rcases m1 with m1 | m1 | m1 | m1 | m1 <;> rcases m2 with m2 | m2 | m2 | m2 | m2 <;> first
      | exact m1.1.trans m2.1.symm
      | (exfalso; have := m1.2; have := m2.2; omega)
  obtain ⟨ts, ts', h⟩ := C115_merge_lists (vocab := abcVocab) (vocab' := abcVocab) (merges := [(['a'], ['b'])])
    (more := [(['a', 'b'], ['c'])]) (cfg := ⟨[], [], [], false, none, none, none, false, false, false⟩) rfl rfl
    (by unfold AMap.WF; decide) (by unfold AMap.WF; decide) hd hd (fun _ _ h => h) (by decide) (by simp) rfl rfl rfl
    (w := ['a', 'b', 'c', 'b']) (by
      intro g hg
      simp [letters] at hg
      rcases hg with rfl | rfl | rfl | rfl
      · exact ⟨0, rfl⟩
      · exact ⟨1, rfl⟩
      · exact ⟨2, rfl⟩
      · exact ⟨1, rfl⟩) (fun _ => false) (fun _ => false)
  exact ⟨_, _, ts, ts', rfl, rfl, h⟩

end Tok.Bpe

namespace Tok.Train

open Tok.Bpe

/-! ## The loop -/

theorem add_prefix (v : Voc) (t : Str) : v.id2w <+: (v.add t).id2w := by
  unfold Voc.add
  split
  · exact List.prefix_refl _
  · exact List.prefix_append _ _

/-- Training goes on from the first state to the second. -/
def Extends (s s' : St) : Prop := s.merges <+: s'.merges ∧ s.voc.id2w <+: s'.voc.id2w

theorem Extends.refl (s : St) : Extends s s := ⟨List.prefix_refl _, List.prefix_refl _⟩

theorem step_extends {cfg : BpeCfg} {counts : List Nat} {s : St} :
    (∀ s', step cfg counts s = .more s' → Extends s s') ∧ ∀ s', step cfg counts s = .stop s' → Extends s s' := by
  unfold step
  split
  · exact ⟨fun s' h' => (by cases h'), fun s' h' => (by cases h'; exact .refl _)⟩
  · split
    · exact ⟨fun s' h' => (by cases h'), fun s' h' => (by cases h'; exact .refl _)⟩
    · split
      · exact ⟨fun s' h' => (by cases h'), fun s' h' => (by cases h')⟩
      · split
        · exact ⟨fun s' h' => (by cases h'; exact .refl s), fun s' h' => (by cases h')⟩
        · split
          · exact ⟨fun s' h' => (by cases h'), fun s' h' => (by cases h'; exact .refl s)⟩
          · unfold doMerge
            split
            · simp only
              split
              · exact ⟨fun s' h' => (by cases h'; exact ⟨List.prefix_append _ _, add_prefix _ _⟩), fun s' h' => (by cases h')⟩
              · exact ⟨fun s' h' => (by cases h'), fun s' h' => (by cases h')⟩
            · exact ⟨fun s' h' => (by cases h'), fun s' h' => (by cases h')⟩

theorem loop_extends {cfg : BpeCfg} {counts : List Nat} : ∀ (fuel : Nat) {s s' : St}, loop cfg counts fuel s = .stop s' → Extends s s'
  | 0, _, _, h => by cases h
  | fuel + 1, s, s', h => by
    rw [loop] at h
    obtain ⟨h1, h2⟩ := step_extends (cfg := cfg) (counts := counts) (s := s)
    generalize step cfg counts s = o at h h1 h2
    cases o with
    | panic => cases h
    | stop s1 => cases h; exact h2 _ rfl
    | more s1 =>
      obtain ⟨k1, k2⟩ := h1 _ rfl
      obtain ⟨k3, k4⟩ := loop_extends fuel h
      exact ⟨k1.trans k3, k2.trans k4⟩

/-- The same settings with another size and another frequency. -/
abbrev BpeCfg.sized (cfg : BpeCfg) (n f : Nat) : BpeCfg := { cfg with vocabSize := n, minFrequency := f }

theorem step_sized {cfg : BpeCfg} {n f : Nat} (hn : n ≤ cfg.vocabSize) (hf : cfg.minFrequency ≤ f) (counts : List Nat) (s : St) :
    (∃ q, step (cfg.sized n f) counts s = .stop { s with queue := q }) ∨ step (cfg.sized n f) counts s = step cfg counts s := by
  unfold step
  simp only
  by_cases h1 : s.voc.w2id.length ≥ n
  · rw [if_pos h1]; exact .inl ⟨s.queue, rfl⟩
  · rw [if_neg h1]
    cases hp : popMax s.queue with
    | none => exact .inl ⟨s.queue, rfl⟩
    | some tq =>
      obtain ⟨top, q⟩ := tq
      simp only
      cases hc : s.pc.get top.pair with
      | none =>
        simp only
        by_cases h2 : s.voc.w2id.length ≥ cfg.vocabSize
        · omega
        · rw [if_neg h2]; exact .inr rfl
      | some c =>
        simp only
        by_cases h2 : s.voc.w2id.length ≥ cfg.vocabSize
        · omega
        · rw [if_neg h2]
          by_cases h3 : top.count ≠ toU64 c
          · rw [if_pos h3, if_pos h3]; exact .inr rfl
          · rw [if_neg h3, if_neg h3]
            by_cases h4 : top.count < 1 ∨ f > top.count
            · rw [if_pos h4]; exact .inl ⟨q, rfl⟩
            · rw [if_neg h4, if_neg (fun h5 => h4 (h5.imp id fun h5 => Nat.lt_of_lt_of_le h5 hf))]; exact .inr rfl

theorem loop_sized {cfg : BpeCfg} {n f : Nat} (hn : n ≤ cfg.vocabSize) (hf : cfg.minFrequency ≤ f) {counts : List Nat} :
    ∀ (fuel : Nat) {s0 s s' : St}, loop (cfg.sized n f) counts fuel s0 = .stop s → loop cfg counts fuel s0 = .stop s' → Extends s s'
  | 0, _, _, _, h, _ => by cases h
  | fuel + 1, s0, s, s', h, h' => by
    have hall := loop_extends (fuel + 1) h'
    rw [loop] at h h'
    rcases step_sized hn hf counts s0 with ⟨q, e⟩ | e
    · rw [e] at h
      cases h
      exact hall
    · rw [e] at h
      generalize step cfg counts s0 = o at h h'
      cases o with
      | panic => cases h
      | stop s1 => cases h; cases h'; exact .refl _
      | more s1 => exact loop_sized hn hf fuel h h'

theorem tokenizeChars_sized (cfg : BpeCfg) (n f : Nat) : ∀ (w : Str) (first : Bool) (v : Voc),
    tokenizeChars (cfg.sized n f) first w v = tokenizeChars cfg first w v
  | [], _, _ => rfl
  | c :: w, first, v => by
    simp only [tokenizeChars, tokenizeChars_sized cfg n f w]
    rfl

theorem tokenizeWords_sized (cfg : BpeCfg) (n f : Nat) : ∀ (wc : AMap Str Nat) (v : Voc),
    tokenizeWords (cfg.sized n f) wc v = tokenizeWords cfg wc v
  | [], _ => rfl
  | (w, k) :: wc, v => by
    simp only [tokenizeWords, tokenizeChars_sized, tokenizeWords_sized cfg n f wc]

theorem start_sized (cfg : BpeCfg) (n f : Nat) (order : AMap Char Nat → AMap Char Nat) (wc : AMap Str Nat) :
    start (cfg.sized n f) order wc = start cfg order wc := by
  rw [start_eq, start_eq, tokenizeWords_sized]
  rfl

/-- **C115.** Training on the same words with a smaller size, or a larger minimal frequency, gives the beginning of the merges
and the beginning of the vocabulary: the same tokens with the same ids. -/
theorem C115_prefix {cfg : BpeCfg} {n f : Nat} (hn : n ≤ cfg.vocabSize) (hf : cfg.minFrequency ≤ f)
    {order : AMap Char Nat → AMap Char Nat} {wc : AMap Str Nat} {s s' : St} (h : Trained (cfg.sized n f) order wc s)
    (h' : Trained cfg order wc s') : s.merges <+: s'.merges ∧ s.voc.id2w <+: s'.voc.id2w := by
  obtain ⟨k, h⟩ := h
  obtain ⟨k', h'⟩ := h'
  rw [start_sized] at h
  exact loop_sized hn hf (max k k') (h _ (Nat.le_max_left _ _)) (h' _ (Nat.le_max_right _ _))

/-! ## The tokens of a word -/

theorem greedy_new {cfg : BpeCfg} {ns : List Nat} {vocab : List Str} {ws : List (List Sym)} {ms : List (Pair × Nat)} {v : List Str}
    {w : List (List Sym)} (h : Greedy cfg ns vocab ws ms v w) : ∀ t ∈ v, t ∈ vocab ∨ ∃ m ∈ ms, v[m.2]? = some t := by
  induction h with
  | done => exact fun t ht => .inl ht
  | merge vocab words p a b r vocab1 ms vocab' words' h1 h2 h3 h4 h5 h6 h7 h8 ih =>
    intro t ht
    rcases ih t ht with ht | ⟨m, hm, e⟩
    · rw [h6] at ht
      split at ht
      · exact .inl ht
      · rcases List.mem_append.1 ht with ht | ht
        · exact .inl ht
        · rw [List.mem_singleton] at ht
          subst ht
          exact .inr ⟨(p, r), by simp, greedy_mono h8 _ _ h7⟩
    · exact .inr ⟨m, by simp [hm], e⟩

/-- A token of one character was there before the first merge. -/
theorem single_start {cfg : BpeCfg} (hp : cfg.pre = none) {order : AMap Char Nat → AMap Char Nat}
    {wc : AMap Str Nat} (hsep : Separated cfg wc) {s : St} (h : Trained cfg order wc s) {c : Char} (hc : [c] ∈ s.voc.id2w) :
    [c] ∈ (start cfg order wc).voc.id2w := by
  obtain ⟨_, _, _, _, _, g⟩ := trained_inv hsep h
  rcases greedy_new g _ hc with hc | ⟨m, hm, e⟩
  · exact hc
  · obtain ⟨b', hfin, hB, _, hget, hT⟩ := C41_built hsep h noBpe
    obtain ⟨b1, h1, _, _, _, _, hpre, _⟩ := finish_spec (cfg := cfg) (s := s) (reached_voc h.reached).voc noBpe
    rw [hfin] at h1
    cases h1
    obtain ⟨i, hi⟩ := List.getElem?_of_mem hm
    obtain ⟨x, y, _, _, k3, k4, k5⟩ := merged_concat hB (hpre.trans hp) ((hT m.1.1 m.1.2 i m.2).2 hi)
    rw [hget, e] at k3
    have := congrArg List.length (Option.some.inj k3)
    rw [List.length_append] at this
    have := List.length_pos_iff.2 k4
    have := List.length_pos_iff.2 k5
    simp at *
    omega

/-- The tokens of a word: none is empty; only the last one contains the character `e`, at the end of the suffix, which is not
the whole token. -/
def Ended (id2w : List Str) (x : Str) (e : Char) : List Sym → Prop
  | [] => True
  | a :: v => (∃ t, id2w[a.1]? = some t ∧ t ≠ [] ∧ (v ≠ [] → e ∉ t) ∧ (e ∈ t → ∃ z, z ≠ [] ∧ t = z ++ x)) ∧ Ended id2w x e v

theorem Ended.tail {id2w : List Str} {x : Str} {e : Char} : ∀ {u v : List Sym}, Ended id2w x e (u ++ v) → Ended id2w x e v
  | [], _, h => h
  | _ :: u, _, h => Ended.tail (u := u) h.2

theorem Ended.mono {id2w id2w' : List Str} (hm : ∀ (i : Nat) t, id2w[i]? = some t → id2w'[i]? = some t) {x : Str} {e : Char} :
    ∀ {w : List Sym}, Ended id2w x e w → Ended id2w' x e w
  | [], _ => trivial
  | _ :: _, ⟨⟨t, h1, h2⟩, h3⟩ => ⟨⟨t, hm _ _ h1, h2⟩, h3.mono hm⟩

theorem Ended.merge {id2w id2w' : List Str} (hm : ∀ (i : Nat) t, id2w[i]? = some t → id2w'[i]? = some t) {x : Str} {e : Char}
    {p : Pair} {r : Nat} {a b : Str} (ha : id2w[p.1]? = some a) (hb : id2w[p.2]? = some b) (hr : id2w'[r]? = some (a ++ b)) :
    ∀ (n : Nat) (w : List Sym), w.length ≤ n → Ended id2w x e w → Ended id2w' x e (mergeSyms p r w)
  | 0, [], _, _ => by simp [mergeSyms, Ended]
  | n + 1, [], _, _ => by simp [mergeSyms, Ended]
  | n + 1, [d], _, h => by rw [mergeSyms]; exact h.mono hm; simp
  | n + 1, d :: f :: rest, hn, h => by
    rw [mergeSyms]
    split
    · rename_i hdf
      obtain ⟨⟨t, k1, k2, k3, k4⟩, ⟨t', k1', k2', k3', k4'⟩, hrest⟩ := h
      rw [show d.1 = p.1 by rw [← hdf], ha] at k1; cases k1
      rw [show f.1 = p.2 by rw [← hdf], hb] at k1'; cases k1'
      refine ⟨⟨a ++ b, hr, by simp [k2], fun hv => ?_, fun he => ?_⟩, Ended.merge hm ha hb hr n rest (by simp at hn; omega) hrest⟩
      · have hne : rest ≠ [] := by
          rintro rfl
          exact hv (by simp [mergeSyms])
        rw [List.mem_append]
        rintro (h | h)
        · exact k3 (by simp) h
        · exact k3' hne h
      · rcases List.mem_append.1 he with he | he
        · exact (k3 (by simp) he).elim
        · obtain ⟨z, hz, rfl⟩ := k4' he
          exact ⟨a ++ z, by simp [k2], by simp⟩
    · obtain ⟨⟨t, k1, k2, k3, k4⟩, hrest⟩ := h
      exact ⟨⟨t, hm _ _ k1, k2, fun _ => k3 (by simp), k4⟩, Ended.merge hm ha hb hr n (f :: rest) (by simp at hn ⊢; omega) hrest⟩

theorem greedy_ended {cfg : BpeCfg} (hp : cfg.pre = none) {ns : List Nat} {vocab : List Str} {ws : List (List Sym)}
    {ms : List (Pair × Nat)} {v : List Str} {w : List (List Sym)} (h : Greedy cfg ns vocab ws ms v w) {x : Str} {e : Char}
    (he : e ∈ x) : (∀ w ∈ ws, Ended vocab x e w) → ∀ c, c :: x ∈ v → c :: x ∈ vocab := by
  induction h with
  | done => exact fun _ c hc => hc
  | merge vocab words p a b r vocab1 ms vocab' words' h1 h2 h3 h4 h5 h6 h7 h8 ih =>
    intro hw c hc
    have hmono : ∀ (i : Nat) t, vocab[i]? = some t → vocab1[i]? = some t := by
      intro i t h
      rw [h6]
      split
      · exact h
      · rw [List.getElem?_append_left (List.getElem?_eq_some_iff.1 h).1]; exact h
    have hst : unprefixed cfg.pre b = b := by rw [hp]; rfl
    rw [hst] at h6 h7
    have hc1 := ih (fun w1 hw1 => by
      obtain ⟨w0, hw0, rfl⟩ := List.mem_map.1 hw1
      exact Ended.merge hmono h4 h5 h7 _ w0 (Nat.le_refl _) (hw w0 hw0)) c hc
    rw [h6] at hc1
    split at hc1
    · exact hc1
    · rcases List.mem_append.1 hc1 with hc1 | hc1
      · exact hc1
      · exfalso
        rw [List.mem_singleton] at hc1
        obtain ⟨w0, hw0, u, d, f, rest, e0, hpair, _⟩ := h2.1
        have hE := hw w0 hw0
        rw [e0] at hE
        obtain ⟨⟨t, k1, k2, k3, k4⟩, ⟨t', k1', k2', k3', k4'⟩, hrest⟩ := hE.tail
        rw [show d.1 = p.1 by rw [← hpair], h4] at k1; cases k1
        rw [show f.1 = p.2 by rw [← hpair], h5] at k1'; cases k1'
        have hin : e ∈ a ++ b := by rw [← hc1]; simp [he]
        rcases List.mem_append.1 hin with h | h
        · exact k3 (by simp) h
        · obtain ⟨z, hz, rfl⟩ := k4' h
          have l1 := congrArg List.length hc1
          have l2 := List.length_pos_iff.2 k2
          have l3 := List.length_pos_iff.2 hz
          simp only [List.length_cons, List.length_append] at l1
          omega

theorem start_ended {cfg : BpeCfg} (hp : cfg.pre = none) {x r : Str} {e : Char} (hx : cfg.suf = some x) (hr : x = r ++ [e])
    (K : Char → Bool) {id2w : List Str} : ∀ (word : Str) (first : Bool) (w : List Sym), e ∉ word →
    Spells id2w w (wordStrs cfg K first word) → Ended id2w x e w
  | [], _, [], _, _ => trivial
  | [], _, _ :: _, _, h => h.elim
  | c :: rest, first, w, he, h => by
    rw [wordStrs] at h
    have hrest : e ∉ rest := fun h => he (by simp [h])
    have hc : e ≠ c := fun h => he (by simp [h])
    split at h
    · cases w with
      | nil => exact h.elim
      | cons a w =>
        refine ⟨⟨_, h.2.1, ?_⟩, start_ended hp hx hr K rest false w hrest h.2.2⟩
        have ea : atomStr cfg first rest.isEmpty c = c :: if rest.isEmpty then x else [] := by
          unfold atomStr
          rw [hp, hx]
          cases first <;> cases rest.isEmpty <;> rfl
        rw [ea]
        refine ⟨by simp, fun hw hm => ?_, fun hm => ?_⟩
        · cases rest with
          | nil =>
            cases w with
            | nil => exact hw rfl
            | cons _ _ => exact h.2.2.elim
          | cons _ _ => simp at hm; exact hc hm
        · cases rest with
          | nil => exact ⟨[c], by simp, by simp⟩
          | cons _ _ => simp at hm; exact (hc hm).elim
    · exact start_ended hp hx hr K rest false w hrest h

/-- What is looked up for a character was there before the first merge, or is not there at the end. -/
theorem letter_start {cfg : BpeCfg} (hp : cfg.pre = none) {order : AMap Char Nat → AMap Char Nat} {wc : AMap Str Nat}
    (hsep : Separated cfg wc) {s : St} (h : Trained cfg order wc s) {c : Char} (hc : c :: cfg.suf.getD [] ∈ s.voc.id2w) :
    c :: cfg.suf.getD [] ∈ (start cfg order wc).voc.id2w := by
  cases hx : cfg.suf with
  | none => rw [hx] at hc; exact single_start hp hsep h hc
  | some x =>
    rw [hx] at hc
    rcases List.eq_nil_or_concat x with rfl | ⟨r, e, hr⟩
    · exact single_start hp hsep h hc
    · rw [List.concat_eq_append] at hr
      obtain ⟨_, _, _, _, _, g⟩ := trained_inv hsep h
      refine greedy_ended hp g (e := e) (by rw [hr]; simp) (fun w hw => ?_) c hc
      obtain ⟨_, _, _, _, h5⟩ := start_spec cfg order wc
      obtain ⟨p, hpm, hsp⟩ := h5.mem w hw
      exact start_ended hp hx hr _ p.1 true w (hsep.suf e r (by rw [hx, hr]) p hpm) hsp

theorem mem_firsts {t : Str} : ∀ (l v : List Str), t ∈ v ∨ t ∈ l → t ∈ l.foldl (fun v s => if s ∈ v then v else v ++ [s]) v
  | [], v, h => h.elim id (fun h => by cases h)
  | a :: l, v, h => by
    rw [List.foldl_cons]
    refine mem_firsts l _ ?_
    rcases h with h | h
    · left; split
      · exact h
      · simp [h]
    · rcases List.mem_cons.1 h with rfl | h
      · left; split
        · assumption
        · simp
      · exact .inr h

theorem special_start {cfg : BpeCfg} {order : AMap Char Nat → AMap Char Nat} {wc : AMap Str Nat} {t : Str} (ht : t ∈ cfg.specials) :
    t ∈ (start cfg order wc).voc.id2w := by
  obtain ⟨h1, h2⟩ := C41_first_tokens cfg order wc
  have : t ∈ (alphabetVoc cfg order wc).id2w := by
    rw [h1]
    exact mem_firsts _ _ (.inr (List.mem_append.2 (.inl ht)))
  obtain ⟨i, hi⟩ := List.getElem?_of_mem this
  exact List.mem_of_getElem? (h2 _ _ hi)

theorem same_initLoop {b b' : Bpe} (hp : b.pre = none) (hp' : b'.pre = none) (hs : b.suf = b'.suf)
    (hf : b.byteFallback = false) (hf' : b'.byteFallback = false) (hu : b.unk = b'.unk) (hz : b.fuseUnk = b'.fuseUnk)
    (hc : ∀ c : Char, b.vocab.get [c] = b'.vocab.get [c])
    (hx : ∀ c : Char, b.vocab.get (c :: b'.suf.getD []) = b'.vocab.get (c :: b'.suf.getD [])) (hk : ∀ u, b.unk = some u → b.vocab.get u = b'.vocab.get u) :
    ∀ (w : Str) (first : Bool) (st : InitSt), initLoop b first w st = initLoop b' first w st
  | [], _, _ => rfl
  | c :: w, first, st => by
    have e : stepChar b st first w.isEmpty c = stepChar b' st first w.isEmpty c := by
      have e1 : charSym b first w.isEmpty c = charSym b' first w.isEmpty c := by simp [charSym, hp, hp', hs]
      have e2 : charSym b' first w.isEmpty c = if w.isEmpty then c :: b'.suf.getD [] else [c] := by
        rw [charSym_eq, hp']
        cases first <;> cases w <;> simp
      have e0 : b.vocab.get (charSym b' first w.isEmpty c) = b'.vocab.get (charSym b' first w.isEmpty c) := by
        rw [e2]
        split
        · exact hx c
        · exact hc c
      unfold stepChar
      simp only [e1, e0, hf, hf', Bool.false_eq_true, if_false]
      have e3 : stepUnk b st c.utf8Size = stepUnk b' st c.utf8Size := by
        unfold stepUnk
        rw [← hu, ← hz]
        cases h : b.unk with
        | none => rfl
        | some u => simp only [hk u h]
      rw [e3]
    rw [initLoop, initLoop, e]
    cases stepChar b' st first w.isEmpty c with
    | none => rfl
    | some st' => exact same_initLoop hp hp' hs hf hf' hu hz hc hx hk w false st'

theorem initLoop_some {b : Bpe} (hf : b.byteFallback = false) (hk : ∀ u, b.unk = some u → ∃ i, b.vocab.get u = some i) :
    ∀ (w : Str) (first : Bool) (st : InitSt), ∃ st', initLoop b first w st = some st'
  | [], _, st => ⟨st, rfl⟩
  | c :: w, first, st => by
    have : ∃ st', stepChar b st first w.isEmpty c = some st' := by
      unfold stepChar
      simp only [hf, Bool.false_eq_true, if_false]
      cases b.vocab.get (charSym b first w.isEmpty c) with
      | some i => exact ⟨_, rfl⟩
      | none =>
        simp only
        unfold stepUnk
        cases h : b.unk with
        | none => exact ⟨_, rfl⟩
        | some u =>
          obtain ⟨i, hi⟩ := hk u h
          simp only [hi]
          split <;> exact ⟨_, rfl⟩
    obtain ⟨st', e⟩ := this
    rw [initLoop, e]
    exact initLoop_some hf hk w false st'

/-- **C115.** Two models trained on the same words, without prefix (and the end of the suffix, if there is one, in no word), the first with a smaller size or a larger minimal
frequency: on every word, trained on or not, known or not, the second gives the tokens of the first joined in groups. So a
larger vocabulary never puts a boundary where there was none, and never gives more tokens. -/
theorem C115_tokens {cfg : BpeCfg} (hp : cfg.pre = none) {n f : Nat} (hn : n ≤ cfg.vocabSize) (hf : cfg.minFrequency ≤ f)
    {order : AMap Char Nat → AMap Char Nat} {wc : AMap Str Nat} (hsep : Separated cfg wc) {s s' : St}
    (h : Trained (cfg.sized n f) order wc s) (h' : Trained cfg order wc s') {b small large : Bpe}
    (hb : finish (cfg.sized n f) s b = some small) (hb' : finish cfg s' b = some large) (hd : b.useDropout = false)
    (hi : b.ignoreMerges = false) (hbf : b.byteFallback = false) (hu : ∀ u, b.unk = some u → u ∈ cfg.specials)
    (coins coins' : Nat → Bool) (w : Str) :
    ∃ ts ts', tokenize small coins w = .ok ts ∧ tokenize large coins' w = .ok ts' ∧ Coarser ts ts' := by
  have hsep' : Separated (cfg.sized n f) wc := ⟨hsep.pre, hsep.suf⟩
  obtain ⟨hm, hv⟩ := C115_prefix hn hf h h'
  obtain ⟨_, q1, hB, _, hget, hT⟩ := C41_built hsep' h b
  rw [hb] at q1; cases q1
  obtain ⟨_, q1, hB', _, hget', hT'⟩ := C41_built hsep h' b
  rw [hb'] at q1; cases q1
  obtain ⟨_, q1, _, _, _, _, pre1, suf1, dr1, ig1, un1, bf1, fu1⟩ :=
    finish_spec (cfg := cfg.sized n f) (s := s) (reached_voc h.reached).voc b
  rw [hb] at q1; cases q1
  obtain ⟨_, q1, _, _, _, _, pre2, suf2, dr2, ig2, un2, bf2, fu2⟩ := finish_spec (cfg := cfg) (s := s') (reached_voc h'.reached).voc b
  rw [hb'] at q1; cases q1
  have hup : ∀ t i, small.vocab.get t = some i → large.vocab.get t = some i := by
    intro t i k
    rw [hget] at k
    rw [hget']
    obtain ⟨more, e⟩ := hv
    rw [← e, List.getElem?_append_left (List.getElem?_eq_some_iff.1 k).1]
    exact k
  have hsame : ∀ t, (t ∈ s'.voc.id2w → t ∈ s.voc.id2w) → small.vocab.get t = large.vocab.get t := by
    intro t k
    cases h1 : small.vocab.get t with
    | some i => exact (hup _ _ h1).symm
    | none =>
      cases h2 : large.vocab.get t with
      | none => rfl
      | some i =>
        obtain ⟨j, hj⟩ := List.getElem?_of_mem (k (List.mem_of_getElem? ((hget' _ _).1 h2)))
        rw [(hget _ _).2 hj] at h1
        cases h1
  have hold : ∀ t, t ∈ (start cfg order wc).voc.id2w → t ∈ s.voc.id2w := by
    intro t ht
    obtain ⟨_, _, _, _, _, g⟩ := trained_inv hsep' h
    rw [start_sized] at g
    obtain ⟨i, hi⟩ := List.getElem?_of_mem ht
    exact List.mem_of_getElem? (greedy_mono g _ _ hi)
  have hinit : initSyms small w = initSyms large w := by
    unfold initSyms
    rw [same_initLoop (b := small) (b' := large) (pre1.trans hp) (pre2.trans hp) (suf1.trans suf2.symm) (bf1.trans hbf)
      (bf2.trans hbf) (un1.trans un2.symm) (fu1.trans fu2.symm)
      (fun c => hsame _ fun hc => hold _ (single_start hp hsep h' hc))
      (fun c => hsame _ fun hc => hold _ (by rw [suf2] at hc ⊢; exact letter_start hp hsep h' hc))
      (fun u e => hsame _ fun _ => hold _ (special_start (hu u (un1 ▸ e))))]
  have hsome : ∃ l, initSyms small w = some l := by
    obtain ⟨st, e⟩ := initLoop_some (b := small) (bf1.trans hbf) (fun u e => by
      obtain ⟨i, hi⟩ := List.getElem?_of_mem (hold _ (special_start (order := order) (wc := wc) (hu u (un1 ▸ e))))
      exact ⟨i, (hget _ _).2 hi⟩) w true ([], none)
    exact ⟨flushUnk st, by rw [initSyms, e]; rfl⟩
  obtain ⟨l, hl⟩ := hsome
  have hlong : Longer (mergeFn small.merges) (mergeFn large.merges) := by
    obtain ⟨more, e⟩ := hm
    constructor
    · rintro a c ⟨r, x⟩ k
      rw [hT] at k
      rw [hT', ← e, List.getElem?_append_left (List.getElem?_eq_some_iff.1 k).1]
      exact k
    · intro a c r x k k0 a' c' r' x' k'
      rw [hT] at k'
      rw [hT'] at k
      have l1 := (List.getElem?_eq_some_iff.1 k').1
      refine Nat.lt_of_not_le fun hle => ?_
      rw [← e, List.getElem?_append_left (by omega), ← hT, k0] at k
      cases k
  exact coarser_of_longer hB hB' (pre2.trans hp) hlong hup hl (hinit ▸ hl) (dr1.trans hd) (dr2.trans hd) (ig1.trans hi)
    (ig2.trans hi) coins coins'

theorem Coarser.length_le {ts ts' : List Token} (h : Coarser ts ts') : ts'.length ≤ ts.length := by
  induction h with
  | nil => exact Nat.le_refl _
  | cons g t ts ts' hc _ ih =>
    have : g ≠ [] := by
      rintro rfl
      have := hc.start
      cases this
    have := List.length_pos_iff.2 this
    rw [List.length_append, List.length_cons]
    omega

/-- The tokens of a word, by the model trained on `hugCounts` with these settings. -/
def hugTokens (cfg : BpeCfg) (w : Str) : Option (List Str) :=
  match loop cfg (hugCounts.map (·.2)) 40 (start cfg id hugCounts) with
  | .stop s => (finish cfg s noBpe).bind fun b =>
    match tokenize b (fun _ => false) w with
    | .ok ts => some (ts.map (·.value))
    | _ => none
  | _ => none

/-- The hypotheses are met, on a word not trained on. -/
example : ∃ s s' small large ts ts', Trained ((plainCfg 10).sized 8 0) id hugCounts s ∧ Trained (plainCfg 10) id hugCounts s' ∧
    finish ((plainCfg 10).sized 8 0) s noBpe = some small ∧ finish (plainCfg 10) s' noBpe = some large ∧
    tokenize small (fun _ => false) "hugbun".toList = .ok ts ∧ tokenize large (fun _ => false) "hugbun".toList = .ok ts' ∧
    Coarser ts ts' := by
  obtain ⟨s, hs, _⟩ := C41_textbook (order := id) (hug_separated 8)
  obtain ⟨s', hs', _⟩ := C41_textbook (order := id) (hug_separated 10)
  obtain ⟨small, hb, _⟩ := C41_built (hug_separated 8) hs noBpe
  obtain ⟨large, hb', _⟩ := C41_built (hug_separated 10) hs' noBpe
  obtain ⟨ts, ts', h⟩ := C115_tokens (cfg := plainCfg 10) rfl (n := 8) (f := 0) (by decide) (by decide) (hug_separated 10) hs hs' hb hb' rfl rfl rfl
    (by simp [noBpe]) (fun _ => false) (fun _ => false) "hugbun".toList
  exact ⟨s, s', small, large, ts, ts', hs, hs', hb, hb', h⟩

example : hugTokens (plainCfg 8) "hugbun".toList = some ["h".toList, "ug".toList, "b".toList, "u".toList, "n".toList] ∧
    hugTokens (plainCfg 10) "hugbun".toList = some ["hug".toList, "b".toList, "un".toList] := by decide +kernel

/-- With a suffix. -/
example : Separated { plainCfg 20 with suf := some "</w>".toList } hugCounts ∧
    hugTokens { plainCfg 12 with suf := some "</w>".toList } "hugbun".toList =
      some ["hu".toList, "g".toList, "b".toList, "u".toList, "n</w>".toList] ∧
    hugTokens { plainCfg 20 with suf := some "</w>".toList } "hugbun".toList =
      some ["hu".toList, "g".toList, "bun</w>".toList] := by
  refine ⟨⟨by simp [plainCfg], fun c r h p hp hc => ?_⟩, by decide +kernel, by decide +kernel⟩
  have e : c = '>' := by
    have : "</w>".toList = r ++ [c] := Option.some.inj h
    have := congrArg List.getLast? this
    rw [List.getLast?_append] at this
    exact (Option.some.inj this).symm
  subst e
  revert hc
  revert p
  decide +kernel

end Tok.Train
