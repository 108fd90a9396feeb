import Verif.Bpe.Tokenize

/-!
# C73: what a list of merges says, on strings

`C15_tokenize_textbook` speaks of ids and of the merge table of the model. Here is the algorithm as one would describe it
from the files: symbols are strings, the rank of a pair is its place in the list.
-/

namespace Tok.Bpe

/-- The place of a pair in the list, the last one if it is there several times. -/
def RankOf (merges : List (Str × Str)) (ab : Str × Str) (r : Nat) : Prop :=
  merges[r]? = some ab ∧ ∀ r', merges[r']? = some ab → r' ≤ r

/-- Two symbols joined; the second one loses the prefix of continuing symbols. -/
def joined (p a b : Str) : Str := a ++ b.drop p.length

/-- Join the neighbours whose pair comes first in the list, the leftmost ones if there are several. -/
inductive ListStep (p : Str) (merges : List (Str × Str)) : List Str → List Str → Prop
  | mk (pre : List Str) (a b : Str) (post : List Str) (r : Nat) (h : RankOf merges (a, b) r)
      (best : ∀ pre' c d post' r', pre ++ a :: b :: post = pre' ++ c :: d :: post' → RankOf merges (c, d) r' →
        r < r' ∨ (r = r' ∧ pre.length ≤ pre'.length)) :
      ListStep p merges (pre ++ a :: b :: post) (pre ++ joined p a b :: post)

/-- Join neighbours until no pair of the list is left. -/
def Applied (p : Str) (merges : List (Str × Str)) (w w' : List Str) : Prop :=
  Star (ListStep p merges) w w' ∧ ∀ pre a b post, w' = pre ++ a :: b :: post → (a, b) ∉ merges

/-- The symbols of a word before anything is joined: its characters, all but the first with the prefix, the last one with
the suffix. -/
def letters (p x : Str) : Bool → Str → List Str
  | _, [] => []
  | first, c :: cs => ((if first then [] else p) ++ [c] ++ if cs = [] then x else []) :: letters p x false cs

/-! ## There is one result -/

theorem listStep_det {p : Str} {merges : List (Str × Str)} {w w1 w2 : List Str} (h1 : ListStep p merges w w1)
    (h2 : ListStep p merges w w2) : w1 = w2 := by
  cases h1 with
  | mk pre a b post r hr best =>
    generalize hw : pre ++ a :: b :: post = w at h2
    cases h2 with
    | mk pre' c d post' r' hr' best' =>
      have k1 := best _ _ _ _ _ hw hr'
      have k2 := best' _ _ _ _ _ hw.symm hr
      obtain ⟨rfl, h⟩ := List.append_inj hw (by omega)
      injection h with h3 h
      injection h with h4 h
      subst h3; subst h4; subst h
      rfl

theorem applied_no_step {p : Str} {merges : List (Str × Str)} {w w' : List Str}
    (hi : ∀ pre a b post, w = pre ++ a :: b :: post → (a, b) ∉ merges) (h : ListStep p merges w w') : False := by
  cases h with
  | mk pre a b post r hr best => exact hi _ _ _ _ rfl (List.mem_of_getElem? hr.1)

/-- **C73.** The list of merges determines the result. -/
theorem C73_unique {p : Str} {merges : List (Str × Str)} {w w1 w2 : List Str} (h1 : Applied p merges w w1)
    (h2 : Applied p merges w w2) : w1 = w2 := by
  obtain ⟨s1, i1⟩ := h1
  obtain ⟨s2, i2⟩ := h2
  have walk : ∀ {a b}, Star (ListStep p merges) a b → Star (ListStep p merges) a w2 → Star (ListStep p merges) b w2 := by
    intro a b s
    induction s with
    | refl => exact id
    | tail s h ih =>
      intro s2
      rcases star_cases_head (ih s2) with he | ⟨d, h', s'⟩
      · rw [he] at h; exact (applied_no_step i2 h).elim
      · rw [listStep_det h h']; exact s'
  rcases star_cases_head (walk s1 s2) with he | ⟨_, h', _⟩
  · exact he
  · exact (applied_no_step i1 h').elim

/-! ## The model does it -/

/-- The symbols have these ids. -/
def Named (vocab : AMap Str Nat) (gs : List Str) (l : List (Nat × Nat)) : Prop := gs.map vocab.get = l.map fun x => some x.1

theorem merge_named {vocab : AMap Str Nat} {merges : List (Str × Str)} {cfg b : Bpe} (h : build vocab merges cfg = .ok b)
    (hd : IdsDistinct vocab) (hs : MergesSane (cfg.pre.getD []) merges) {a c : Str} {i j : Nat} (ha : vocab.get a = some i)
    (hc : vocab.get c = some j) :
    (∀ r z, mergeFn b.merges i j = some (r, z) → RankOf merges (a, c) r ∧ vocab.get (joined (cfg.pre.getD []) a c) = some z) ∧
    ∀ r, RankOf merges (a, c) r → ∃ z, mergeFn b.merges i j = some (r, z) := by
  have key : ∀ ab z, Resolves vocab (blen (cfg.pre.getD [])) ab i j z → ab = (a, c) := by
    rintro ⟨x, y⟩ z ⟨h1, h2, _⟩
    exact Prod.ext (hd _ _ _ h1 ha) (hd _ _ _ h2 hc)
  have back : ∀ r : Nat, merges[r]? = some (a, c) → ∃ z, Resolves vocab (blen (cfg.pre.getD [])) (a, c) i j z := by
    intro r hr
    obtain ⟨x, y, z, h1, h2, h3⟩ := (C20_build_ok_iff vocab merges cfg).1 ⟨b, h⟩ _ (List.mem_of_getElem? hr)
    have e1 : x = i := Option.some.inj (h1.symm.trans ha)
    have e2 : y = j := Option.some.inj (h2.symm.trans hc)
    exact ⟨z, ha, hc, h3⟩
  constructor
  · intro r z hm
    obtain ⟨⟨ab, h1, h2⟩, h3⟩ := (C20_build_get h i j r z).1 hm
    have e := key ab z h2
    subst e
    refine ⟨⟨h1, fun r' hr' => ?_⟩, ?_⟩
    · obtain ⟨z', hz'⟩ := back r' hr'
      exact h3 r' _ z' hr' hz'
    · obtain ⟨_, _, b', hcut, hz⟩ := h2
      obtain ⟨b2, hb2, _⟩ := hs.right _ (List.mem_of_getElem? h1)
      have e : b' = b2 := by
        have k := dropBytes_iff.2 hcut
        rw [hb2, dropBytes_append] at k
        exact (Option.some.inj k).symm
      have hb2 : c = cfg.pre.getD [] ++ b2 := hb2
      rw [joined, hb2, List.drop_left]
      rw [← e]; exact hz
  · rintro r ⟨h1, h2⟩
    obtain ⟨z, hz⟩ := back r h1
    refine ⟨z, (C20_build_get h i j r z).2 ⟨⟨_, h1, hz⟩, ?_⟩⟩
    intro r' ab z' hr' hz'
    have e := key ab z' hz'
    subst e
    exact h2 r' hr'

/-- A pair of neighbours among the ids is one among the symbols. -/
theorem named_split {vocab : AMap Str Nat} {gs : List Str} {pre : List (Nat × Nat)} {a b : Nat × Nat} {post : List (Nat × Nat)}
    (hn : Named vocab gs (pre ++ a :: b :: post)) : ∃ gpre g h gpost, gs = gpre ++ g :: h :: gpost ∧ Named vocab gpre pre ∧
      vocab.get g = some a.1 ∧ vocab.get h = some b.1 ∧ Named vocab gpost post ∧ gpre.length = pre.length := by
  unfold Named at hn ⊢
  rw [List.map_append, List.map_cons, List.map_cons, List.map_eq_append_iff] at hn
  obtain ⟨gpre, gr, rfl, h1, h2⟩ := hn
  obtain ⟨g, gr, rfl, h3, h4⟩ := List.map_eq_cons_iff.1 h2
  obtain ⟨h, gr, rfl, h5, h6⟩ := List.map_eq_cons_iff.1 h4
  exact ⟨gpre, g, h, gr, rfl, h1, h3, h5, h6, by simpa using congrArg List.length h1⟩

theorem named_join {vocab : AMap Str Nat} {gpre : List Str} {g h : Str} {gpost : List Str} {l : List (Nat × Nat)}
    (hn : Named vocab (gpre ++ g :: h :: gpost) l) : ∃ pre a b post, l = pre ++ a :: b :: post ∧
      vocab.get g = some a.1 ∧ vocab.get h = some b.1 ∧ pre.length = gpre.length := by
  unfold Named at hn
  have hn := hn.symm
  rw [List.map_append, List.map_cons, List.map_cons, List.map_eq_append_iff] at hn
  obtain ⟨pre, gr, rfl, h1, h2⟩ := hn
  obtain ⟨a, gr, rfl, h3, h4⟩ := List.map_eq_cons_iff.1 h2
  obtain ⟨b, gr, rfl, h5, h6⟩ := List.map_eq_cons_iff.1 h4
  exact ⟨pre, a, b, gr, rfl, h3.symm, h5.symm, by simpa using congrArg List.length h1⟩

theorem named_step {vocab : AMap Str Nat} {merges : List (Str × Str)} {cfg b : Bpe} (h : build vocab merges cfg = .ok b)
    (hd : IdsDistinct vocab) (hs : MergesSane (cfg.pre.getD []) merges) {gs : List Str} {l l' : List (Nat × Nat)}
    (hn : Named vocab gs l) (ht : TextbookStep (mergeFn b.merges) l l') :
    ∃ gs', ListStep (cfg.pre.getD []) merges gs gs' ∧ Named vocab gs' l' := by
  cases ht with
  | mk pre x y post r z hm best =>
    obtain ⟨gpre, g, g', gpost, rfl, h1, h2, h3, h4, h5⟩ := named_split hn
    obtain ⟨k1, _⟩ := merge_named h hd hs h2 h3
    obtain ⟨k1, k2⟩ := k1 _ _ hm
    refine ⟨_, .mk gpre g g' gpost r k1 ?_, ?_⟩
    · intro pre' c d post' r' e hr'
      have hn' := hn
      rw [e] at hn'
      obtain ⟨q, x', y', q', e1, e2, e3, e4⟩ := named_join hn'
      obtain ⟨z', hz'⟩ := (merge_named h hd hs e2 e3).2 r' hr'
      have := best q x' y' q' r' z' e1 hz'
      rw [e4, ← h5] at this
      exact this
    · unfold Named at *
      rw [List.map_append, List.map_cons, List.map_append, List.map_cons, h1, h4, k2]

theorem named_textbook {vocab : AMap Str Nat} {merges : List (Str × Str)} {cfg b : Bpe} (h : build vocab merges cfg = .ok b)
    (hd : IdsDistinct vocab) (hs : MergesSane (cfg.pre.getD []) merges) {gs : List Str} {l l' : List (Nat × Nat)}
    (hn : Named vocab gs l) (ht : Textbook (mergeFn b.merges) l l') :
    ∃ gs', Applied (cfg.pre.getD []) merges gs gs' ∧ Named vocab gs' l' := by
  obtain ⟨t1, t2⟩ := ht
  have : ∃ gs', Star (ListStep (cfg.pre.getD []) merges) gs gs' ∧ Named vocab gs' l' := by
    clear t2
    induction t1 with
    | refl => exact ⟨gs, .refl _, hn⟩
    | tail _ hs' ih =>
      obtain ⟨g1, k1, k2⟩ := ih
      obtain ⟨g2, k3, k4⟩ := named_step h hd hs k2 hs'
      exact ⟨g2, .tail k1 k3, k4⟩
  obtain ⟨gs', k1, k2⟩ := this
  refine ⟨gs', ⟨k1, ?_⟩, k2⟩
  rintro pre x y post rfl hm
  obtain ⟨q, x', y', q', e1, e2, e3, _⟩ := named_join k2
  have hz := t2 q x' y' q' e1
  obtain ⟨r, hr⟩ := List.getElem?_of_mem hm
  have : ∃ r, RankOf merges (x, y) r := by
    -- the last occurrence
    have hex : ∀ n, (∃ r, merges.length ≤ r + n ∧ merges[r]? = some (x, y)) → ∃ r, RankOf merges (x, y) r := by
      intro n
      induction n with
      | zero =>
        rintro ⟨r, h1, h2⟩
        have := (List.getElem?_eq_some_iff.1 h2).1
        omega
      | succ n ih =>
        rintro ⟨r, h1, h2⟩
        by_cases hl : ∀ r', merges[r']? = some (x, y) → r' ≤ r
        · exact ⟨r, h2, hl⟩
        · obtain ⟨r', hl⟩ := Classical.not_forall.1 hl
          obtain ⟨h3, h4⟩ := Classical.not_imp.1 hl
          exact ih ⟨r', by omega, h3⟩
    exact hex merges.length ⟨r, by omega, hr⟩
  obtain ⟨r, hr⟩ := this
  obtain ⟨z, hz'⟩ := (merge_named h hd hs e2 e3).2 r hr
  rw [hz] at hz'
  cases hz'

theorem initLoop_letters {b : Bpe} : ∀ (w : Str) (first : Bool) (o : List (Nat × Nat)),
    (∀ g ∈ letters (b.pre.getD []) (b.suf.getD []) first w, ∃ i, b.vocab.get g = some i) →
    ∃ l, initLoop b first w (o, none) = some (o ++ l, none) ∧ Named b.vocab (letters (b.pre.getD []) (b.suf.getD []) first w) l
  | [], _, o, _ => ⟨[], by simp [initLoop], rfl⟩
  | c :: cs, first, o, hk => by
    rw [letters] at hk ⊢
    have e : charSym b first cs.isEmpty c = (if first then [] else b.pre.getD []) ++ [c] ++ if cs = [] then b.suf.getD [] else [] := by
      rw [charSym_eq]
      cases cs <;> simp
    rw [← e] at hk ⊢
    obtain ⟨i, hi⟩ := hk _ List.mem_cons_self
    obtain ⟨l, h1, h2⟩ := initLoop_letters cs false (o ++ [(i, c.utf8Size)]) (fun g hg => hk g (List.mem_cons_of_mem _ hg))
    refine ⟨(i, c.utf8Size) :: l, ?_, ?_⟩
    · simp only [initLoop, stepChar, hi, flushUnk]
      rw [h1]
      simp
    · unfold Named at *
      rw [List.map_cons, List.map_cons, h2, hi]

/-- **C73.** A word whose symbols are all in the vocabulary is tokenized as the list of merges says: the values of the
tokens are what is left when the list is applied, their ids those of the vocabulary. (Without dropout; with `ignore_merges`
if the word is not itself a token.) -/
theorem C73_merge_list {vocab : AMap Str Nat} {merges : List (Str × Str)} {cfg b : Bpe} (h : build vocab merges cfg = .ok b)
    (hwf : vocab.WF) (hd : IdsDistinct vocab) (hs : MergesSane (cfg.pre.getD []) merges) {w : Str} (hw : w ≠ [])
    (coins : Nat → Bool) (hdrop : cfg.useDropout = false) (hi : cfg.ignoreMerges = true → vocab.get w = none)
    (hk : ∀ g ∈ letters (cfg.pre.getD []) (cfg.suf.getD []) true w, ∃ i, vocab.get g = some i) :
    ∃ ts, tokenize b coins w = .ok ts ∧
      Applied (cfg.pre.getD []) merges (letters (cfg.pre.getD []) (cfg.suf.getD []) true w) (ts.map (·.value)) ∧
      ∀ t ∈ ts, vocab.get t.value = some t.id := by
  have e := (build_merges h).2
  have ev : b.vocab = vocab := by rw [e]
  have ep : b.pre = cfg.pre := by rw [e]
  have es : b.suf = cfg.suf := by rw [e]
  have ed : b.useDropout = cfg.useDropout := by rw [e]
  have ei : b.ignoreMerges = cfg.ignoreMerges := by rw [e]
  have hb : Built b := by
    refine ⟨⟨merges, cfg, ?_, hs⟩, ?_, ?_⟩ <;> rw [ev] <;> assumption
  obtain ⟨l, h1, h2⟩ := initLoop_letters (b := b) w true [] (by rw [ep, es, ev]; exact hk)
  have hl : initSyms b w = some l := by
    unfold initSyms; rw [h1]; simp [flushUnk]
  have ht := C15_tokenize_textbook hb hw coins (by rw [ed]; exact hdrop) (by rw [ei, ev]; exact hi)
  rw [hl] at ht
  obtain ⟨ts, l', t1, t2, t3, _, t5⟩ := ht
  rw [ep, es, ev] at h2
  obtain ⟨gs, k1, k2⟩ := named_textbook h hd hs h2 t2
  have hv : ts.map (·.value) = gs := by
    have e1 : (ts.map (·.value)).map vocab.get = gs.map vocab.get := by
      have e2 : l'.map (fun x => some x.1) = (l'.map (·.1)).map some := by rw [List.map_map]; rfl
      rw [k2, e2, ← t3, List.map_map, List.map_map]
      exact List.map_congr_left fun t ht => by rw [← ev]; exact t5 t ht
    have hinj : ∀ (as gs : List Str), (∀ a ∈ as, ∃ i, vocab.get a = some i) → as.map vocab.get = gs.map vocab.get → as = gs := by
      intro as
      induction as with
      | nil => intro gs _ h; exact (List.map_eq_nil_iff.1 h.symm).symm
      | cons a as ih =>
        intro gs hk h
        cases gs with
        | nil => cases h
        | cons g gs =>
          rw [List.map_cons, List.map_cons] at h
          injection h with h3 h4
          obtain ⟨i, hi⟩ := hk a List.mem_cons_self
          rw [hd _ _ _ hi (h3 ▸ hi), ih gs (fun a ha => hk a (List.mem_cons_of_mem _ ha)) h4]
    refine hinj _ _ ?_ e1
    intro a ha
    obtain ⟨t, ht, rfl⟩ := List.mem_map.1 ha
    exact ⟨_, by rw [← ev]; exact t5 t ht⟩
  exact ⟨ts, t1, by rw [hv]; exact k1, fun t ht => by rw [← ev]; exact t5 t ht⟩

end Tok.Bpe
