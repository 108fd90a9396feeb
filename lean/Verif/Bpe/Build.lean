import Verif.BaseLemmas
import Verif.Bpe.Model
import Verif.Bpe.WordProps

/-!
# C20: the builder resolves merges faithfully

and the table it builds is coherent, so that C15–C17 apply to every built model.
-/

namespace Tok.Bpe

/-- The right part of a merge without the continuing prefix: what remains after its first
`prefixLen` bytes. -/
def CutPrefix (prefixLen : Nat) (b b' : Str) : Prop := ∃ p, b = p ++ b' ∧ blen p = prefixLen

theorem dropBytes_iff {n : Nat} {b b' : Str} : dropBytes n b = some b' ↔ CutPrefix n b b' := by
  constructor
  · intro h
    obtain ⟨p, h1, h2⟩ := dropBytes_eq_some h
    exact ⟨p, h1, h2⟩
  · rintro ⟨p, rfl, rfl⟩; exact dropBytes_append _ _

theorem le_maxLen {vocab : AMap Str Nat} {s : Str} {i : Nat} (h : vocab.get s = some i) :
    blen s ≤ maxLen vocab := by
  unfold maxLen
  exact foldl_max_le _ _ _ (.inl (List.mem_map.2 ⟨_, AMap.mem_of_get_eq_some h, rfl⟩))

/-- A listed merge the vocabulary can resolve: both parts and the concatenation are tokens. -/
def Resolves (vocab : AMap Str Nat) (prefixLen : Nat) (ab : Str × Str) (x y z : Nat) : Prop :=
  vocab.get ab.1 = some x ∧ vocab.get ab.2 = some y ∧
    ∃ b', CutPrefix prefixLen ab.2 b' ∧ vocab.get (ab.1 ++ b') = some z

theorem buildMerge_ok {vocab : AMap Str Nat} {n i : Nat} {a b : Str}
    {r : (Nat × Nat) × (Nat × Nat)} :
    buildMerge vocab n i a b = .ok r ↔ ∃ x y z, Resolves vocab n (a, b) x y z ∧ r = ((x, y), (i, z)) := by
  unfold buildMerge Resolves
  constructor
  · intro h
    cases ha : vocab.get a with
    | none => rw [ha] at h; cases h
    | some x =>
      rw [ha] at h
      cases hb : vocab.get b with
      | none => rw [hb] at h; cases h
      | some y =>
        rw [hb] at h
        simp only at h
        split at h
        · cases h
        · split at h
          · cases h
          · split at h
            · cases h
            · split at h
              · cases h
              · rename_i b' hd
                split at h
                · cases h
                · rename_i z hz
                  injection h with h
                  exact ⟨x, y, z, ⟨rfl, rfl, b', dropBytes_iff.1 hd, hz⟩, h.symm⟩
  · rintro ⟨x, y, z, ⟨ha, hb, b', hd, hz⟩, rfl⟩
    simp only at ha hb hd hz
    have h1 := le_maxLen ha
    have h2 := le_maxLen hz
    rw [dropBytes_iff.symm] at hd
    obtain ⟨p, hp1, hp2⟩ := dropBytes_eq_some hd
    have hbl : blen b = blen p + blen b' := by rw [hp1]; simp
    rw [blen_append] at h2
    rw [ha, hb]
    simp only [hd, hz]
    rw [if_neg (by omega), if_neg (by omega), if_neg (by omega)]

theorem buildMerges_ok {vocab : AMap Str Nat} {n : Nat} : ∀ {ms : List (Str × Str)} {i : Nat}
    {acc mm : AMap (Nat × Nat) (Nat × Nat)}, buildMerges vocab n i ms acc = .ok mm ↔
    ∃ rs : List ((Nat × Nat) × (Nat × Nat)), rs.length = ms.length ∧ mm = acc.extend rs ∧
      ∀ k ab r, ms[k]? = some ab → rs[k]? = some r →
        ∃ x y z, Resolves vocab n ab x y z ∧ r = ((x, y), (i + k, z)) := by
  intro ms
  induction ms with
  | nil =>
    intro i acc mm
    simp only [buildMerges, Outcome.ok.injEq]
    constructor
    · rintro rfl; exact ⟨[], rfl, rfl, by intro k ab r h; simp at h⟩
    · rintro ⟨rs, hl, rfl, _⟩
      have : rs = [] := List.length_eq_zero_iff.1 hl
      subst this; rfl
  | cons ab ms ih =>
    intro i acc mm
    obtain ⟨a, b⟩ := ab
    rw [buildMerges]
    cases hb : buildMerge vocab n i a b with
    | err e =>
      simp only [reduceCtorEq, false_iff]
      rintro ⟨rs, hl, _, h⟩
      cases rs with
      | nil => cases hl
      | cons r rs =>
        have := h 0 (a, b) r rfl rfl
        rw [Nat.add_zero, ← buildMerge_ok, hb] at this; cases this
    | panic =>
      simp only [reduceCtorEq, false_iff]
      rintro ⟨rs, hl, _, h⟩
      cases rs with
      | nil => cases hl
      | cons r rs =>
        have := h 0 (a, b) r rfl rfl
        rw [Nat.add_zero, ← buildMerge_ok, hb] at this; cases this
    | ok r =>
      simp only [ih]
      constructor
      · rintro ⟨rs, hl, rfl, h⟩
        refine ⟨r :: rs, by simp [hl], rfl, ?_⟩
        intro k ab r' hk hr
        cases k with
        | zero =>
          simp at hk hr; subst hk; subst hr
          rw [Nat.add_zero]; exact buildMerge_ok.1 hb
        | succ k =>
          simp at hk hr
          obtain ⟨x, y, z, h1, h2⟩ := h k ab r' hk hr
          exact ⟨x, y, z, h1, by rw [h2]; simp; omega⟩
      · rintro ⟨rs, hl, rfl, h⟩
        cases rs with
        | nil => cases hl
        | cons r' rs =>
          have h0 := h 0 (a, b) r' rfl rfl
          rw [Nat.add_zero, ← buildMerge_ok, hb] at h0
          injection h0 with h0; subst h0
          refine ⟨rs, by simpa using hl, rfl, ?_⟩
          intro k ab r' hk hr
          obtain ⟨x, y, z, h1, h2⟩ := h (k + 1) ab r' (by simpa using hk) (by simpa using hr)
          exact ⟨x, y, z, h1, by rw [h2]; simp; omega⟩

/-- **C20.** `build` succeeds exactly when every listed merge can be resolved. -/
theorem C20_build_ok_iff (vocab : AMap Str Nat) (merges : List (Str × Str)) (cfg : Bpe) :
    (∃ b, build vocab merges cfg = .ok b) ↔
      ∀ ab ∈ merges, ∃ x y z, Resolves vocab (blen (cfg.pre.getD [])) ab x y z := by
  unfold build
  generalize blen (cfg.pre.getD []) = n
  constructor
  · rintro ⟨b, h⟩ ab hab
    cases hm : buildMerges vocab n 0 merges [] with
    | ok mm =>
      obtain ⟨rs, hl, _, h3⟩ := buildMerges_ok.1 hm
      obtain ⟨k, hk, hk'⟩ := List.getElem_of_mem hab
      obtain ⟨x, y, z, h4, _⟩ := h3 k ab rs[k] (by rw [List.getElem?_eq_getElem hk, hk'])
        (List.getElem?_eq_getElem _)
      exact ⟨x, y, z, h4⟩
    | err e => rw [hm] at h; cases h
    | panic => rw [hm] at h; cases h
  · intro h
    have key : ∀ (ms : List (Str × Str)) (i : Nat) (acc : AMap (Nat × Nat) (Nat × Nat)),
        (∀ ab ∈ ms, ∃ x y z, Resolves vocab n ab x y z) → ∃ mm, buildMerges vocab n i ms acc = .ok mm := by
      intro ms
      induction ms with
      | nil => intro i acc _; exact ⟨_, rfl⟩
      | cons ab ms ih =>
        intro i acc hms
        obtain ⟨x, y, z, h1⟩ := hms ab List.mem_cons_self
        have := (buildMerge_ok (i := i)).2 ⟨x, y, z, h1, rfl⟩
        rw [buildMerges, this]
        exact ih _ _ (fun ab h => hms ab (List.mem_cons_of_mem _ h))
    obtain ⟨mm, hmm⟩ := key merges 0 [] h
    rw [hmm]; exact ⟨_, rfl⟩

theorem build_merges {vocab : AMap Str Nat} {merges : List (Str × Str)} {cfg b : Bpe}
    (h : build vocab merges cfg = .ok b) :
    buildMerges vocab (blen (cfg.pre.getD [])) 0 merges [] = .ok b.merges ∧
      b = { cfg with vocab := vocab, vocabR := AMap.extend [] (vocab.map fun p => (p.2, p.1)),
                     merges := b.merges } := by
  unfold build at h
  cases hm : buildMerges vocab (blen (cfg.pre.getD [])) 0 merges [] with
  | ok mm => rw [hm] at h; injection h with h; subst h; exact ⟨rfl, rfl⟩
  | err e => rw [hm] at h; cases h
  | panic => rw [hm] at h; cases h

/-- **C20.** The merge of a pair of ids in a built model: its rank is the last position in the list
of a merge of two tokens with these ids, and its result is the id of the concatenation. -/
theorem C20_build_get {vocab : AMap Str Nat} {merges : List (Str × Str)} {cfg b : Bpe}
    (h : build vocab merges cfg = .ok b) (x y r z : Nat) :
    mergeFn b.merges x y = some (r, z) ↔
      (∃ ab, merges[r]? = some ab ∧ Resolves vocab (blen (cfg.pre.getD [])) ab x y z) ∧
      ∀ r' ab z', merges[r']? = some ab → Resolves vocab (blen (cfg.pre.getD [])) ab x y z' → r' ≤ r := by
  obtain ⟨h1, _⟩ := build_merges h
  generalize blen (cfg.pre.getD []) = n at h1 ⊢
  obtain ⟨rs, hl, hmm, hrs⟩ := buildMerges_ok.1 h1
  have resolve_unique : ∀ {ab x y z x' y' z'}, Resolves vocab n ab x y z →
      Resolves vocab n ab x' y' z' → x = x' ∧ y = y' ∧ z = z' := by
    rintro ab x y z x' y' z' ⟨a1, a2, b1, a3, a4⟩ ⟨c1, c2, b2, c3, c4⟩
    rw [← dropBytes_iff] at a3 c3
    rw [a3] at c3; injection c3 with c3; subst c3
    rw [a1] at c1; rw [a2] at c2; rw [a4] at c4
    injection c1 with c1; injection c2 with c2; injection c4 with c4
    exact ⟨c1, c2, c4⟩
  have hat : ∀ (k : Nat) r, rs[k]? = some r → ∃ ab x y z, merges[k]? = some ab ∧ Resolves vocab n ab x y z ∧
      r = ((x, y), (k, z)) := by
    intro k r hk
    have hlt : k < merges.length := by
      rw [List.getElem?_eq_some_iff] at hk; obtain ⟨hk, _⟩ := hk; omega
    obtain ⟨x, y, z, h1, h2⟩ := hrs k _ r (List.getElem?_eq_getElem hlt) hk
    exact ⟨_, x, y, z, List.getElem?_eq_getElem hlt, h1, by simpa using h2⟩
  unfold mergeFn
  rw [hmm, get_extend]
  -- the last matching entry
  have hlast : (rs.reverse.find? fun p => decide (p.1 = (x, y))).map (·.2) = some (r, z) ↔
      rs[r]? = some ((x, y), (r, z)) ∧ ∀ r' v, rs[r']? = some ((x, y), v) → r' ≤ r := by
    rw [Option.map_eq_some_iff]
    constructor
    · rintro ⟨⟨k, v⟩, hf, rfl⟩
      rw [List.find?_eq_some_iff_append] at hf
      obtain ⟨hk, as, bs, hrev, hno⟩ := hf
      simp at hk; subst hk
      have hrs' : rs = bs.reverse ++ ((x, y), (r, z)) :: as.reverse := by
        have := congrArg List.reverse hrev
        simpa using this
      have hpos : rs[bs.length]? = some ((x, y), (r, z)) := by
        rw [hrs', List.getElem?_append_right (by simp)]; simp
      obtain ⟨_, _, _, _, _, _, heq⟩ := hat _ _ hpos
      have hr : r = bs.length := by
        simp only [Prod.mk.injEq] at heq; exact heq.2.1
      refine ⟨by rw [hr] at hpos ⊢; exact hpos, ?_⟩
      intro r' v hr'
      rcases Nat.lt_or_ge r r' with hlt | hge
      · exfalso
        rw [hrs', List.getElem?_append_right (by simp; omega)] at hr'
        have : r' - bs.reverse.length = (r' - bs.length - 1) + 1 := by simp; omega
        rw [this, List.getElem?_cons_succ] at hr'
        have hm := List.mem_of_getElem? hr'
        have := hno _ (List.mem_reverse.1 hm)
        simp at this
      · exact hge
    · rintro ⟨h1, h2⟩
      cases hf : rs.reverse.find? fun p => decide (p.1 = (x, y)) with
      | none =>
        rw [List.find?_eq_none] at hf
        have := hf _ (List.mem_reverse.2 (List.mem_of_getElem? h1))
        simp at this
      | some p =>
        rw [List.find?_eq_some_iff_append] at hf
        obtain ⟨hk, as, bs, hrev, hno⟩ := hf
        obtain ⟨k, v⟩ := p
        simp at hk; subst hk
        have hrs' : rs = bs.reverse ++ ((x, y), v) :: as.reverse := by
          have := congrArg List.reverse hrev
          simpa using this
        have hpos : rs[bs.length]? = some ((x, y), v) := by
          rw [hrs', List.getElem?_append_right (by simp)]; simp
        have hle := h2 _ _ hpos
        rcases Nat.lt_or_ge bs.length r with hlt | hge
        · exfalso
          rw [hrs', List.getElem?_append_right (by simp; omega)] at h1
          have : r - bs.reverse.length = (r - bs.length - 1) + 1 := by simp; omega
          rw [this, List.getElem?_cons_succ] at h1
          have hm := List.mem_of_getElem? h1
          have := hno _ (List.mem_reverse.1 hm)
          simp at this
        · have : r = bs.length := by omega
          rw [this] at h1
          rw [h1] at hpos
          injection hpos with hpos
          exact ⟨_, rfl, by rw [← hpos, this]⟩
  have hget0 : AMap.get ([] : AMap (Nat × Nat) (Nat × Nat)) (x, y) = none := rfl
  rw [hget0, Option.or_none, hlast]
  constructor
  · rintro ⟨h1, h2⟩
    obtain ⟨ab, x', y', z', h3, h4, h5⟩ := hat _ _ h1
    simp only [Prod.mk.injEq] at h5
    obtain ⟨⟨rfl, rfl⟩, _, rfl⟩ := h5
    refine ⟨⟨ab, h3, h4⟩, ?_⟩
    intro r' ab' z' hr' hres
    have hlt : r' < rs.length := by
      rw [List.getElem?_eq_some_iff] at hr'; obtain ⟨hk, _⟩ := hr'; omega
    obtain ⟨ab2, x2, y2, z2, k1, k2, k3⟩ := hat r' _ (List.getElem?_eq_getElem hlt)
    rw [hr'] at k1; injection k1 with k1; subst k1
    obtain ⟨rfl, rfl, rfl⟩ := resolve_unique hres k2
    exact h2 r' _ (by rw [List.getElem?_eq_getElem hlt, k3])
  · rintro ⟨⟨ab, h1, h2⟩, h3⟩
    have hlt : r < rs.length := by
      rw [List.getElem?_eq_some_iff] at h1; obtain ⟨hk, _⟩ := h1; omega
    obtain ⟨ab2, x2, y2, z2, k1, k2, k3⟩ := hat r _ (List.getElem?_eq_getElem hlt)
    rw [h1] at k1; injection k1 with k1; subst k1
    obtain ⟨rfl, rfl, rfl⟩ := resolve_unique h2 k2
    refine ⟨by rw [List.getElem?_eq_getElem hlt, k3], ?_⟩
    intro r' v hr'
    obtain ⟨ab3, x3, y3, z3, k4, k5, k6⟩ := hat r' _ hr'
    simp only [Prod.mk.injEq] at k6
    obtain ⟨⟨rfl, rfl⟩, _⟩ := k6
    exact h3 r' ab3 z3 k4 k5

/-! ## coherence of built tables -/

/-- A token without the continuing prefix, if it carries it. -/
def strip (p s : Str) : Str := if p.isPrefixOf s then s.drop p.length else s

/-- The merge list is sane with respect to the continuing prefix `p` (empty when there is none): the
right part is the prefix followed by some text, the left part has some text, and joining does not
create the prefix by accident. Without prefix this only says that no part is empty. -/
structure MergesSane (p : Str) (merges : List (Str × Str)) : Prop where
  right : ∀ ab ∈ merges, ∃ b', ab.2 = p ++ b' ∧ b' ≠ []
  left : ∀ ab ∈ merges, strip p ab.1 ≠ []
  noAccident : ∀ ab ∈ merges, ∀ b', ab.2 = p ++ b' → p <+: ab.1 ++ b' → p <+: ab.1

/-- The token of an id. -/
def tokOf (vocab : AMap Str Nat) (i : Nat) : Str :=
  ((vocab.find? fun p => p.2 = i).map (·.1)).getD []

/-- Different tokens have different ids. -/
def IdsDistinct (vocab : AMap Str Nat) : Prop :=
  ∀ s t i, vocab.get s = some i → vocab.get t = some i → s = t

theorem tokOf_get {vocab : AMap Str Nat} (hw : vocab.WF) (hd : IdsDistinct vocab) {s : Str} {i : Nat}
    (h : vocab.get s = some i) : tokOf vocab i = s := by
  unfold tokOf
  cases hf : vocab.find? fun p => decide (p.2 = i) with
  | none =>
    rw [List.find?_eq_none] at hf
    have := hf _ (AMap.mem_of_get_eq_some h)
    simp at this
  | some p =>
    have h1 := List.mem_of_find?_eq_some hf
    have h2 := List.find?_some hf
    simp at h2; subst h2
    exact hd _ _ _ (AMap.get_eq_some_of_mem hw h1) h

/-- The size of an id: the number of bytes its token stands for. -/
def idSize (p : Str) (vocab : AMap Str Nat) (i : Nat) : Nat :=
  max 1 (blen (strip p (tokOf vocab i)))

theorem strip_prefix (p s : Str) : strip p (p ++ s) = s := by
  unfold strip
  rw [if_pos (by rw [List.isPrefixOf_iff_prefix]; exact List.prefix_append _ _)]
  simp

theorem strip_append {p a b' : Str} (h : p <+: a ++ b' → p <+: a) :
    strip p (a ++ b') = strip p a ++ b' := by
  unfold strip
  simp only [List.isPrefixOf_iff_prefix]
  by_cases hp : p <+: a
  · have hp' : p <+: a ++ b' := hp.trans (List.prefix_append _ _)
    rw [if_pos hp, if_pos hp', List.drop_append_of_le_length hp.length_le]
  · have hp' : ¬ p <+: a ++ b' := fun h2 => hp (h h2)
    rw [if_neg hp, if_neg hp']

/-- **C20/C15.** The table of every built model whose ids are distinct and whose merges are sane is
coherent. -/
theorem C20_build_coherent {vocab : AMap Str Nat} {merges : List (Str × Str)} {cfg b : Bpe}
    (h : build vocab merges cfg = .ok b) (hw : vocab.WF) (hd : IdsDistinct vocab)
    (hs : MergesSane (cfg.pre.getD []) merges) :
    Coherent (mergeFn b.merges) (idSize (cfg.pre.getD []) vocab) where
  pos := by intro i; unfold idSize; omega
  add := by
    intro x y r z hm
    obtain ⟨⟨ab, hab, hx, hy, b', hcut, hz⟩, _⟩ := (C20_build_get h x y r z).1 hm
    have hmem := List.mem_of_getElem? hab
    obtain ⟨b2, hb2, hne⟩ := hs.right ab hmem
    have hl := hs.left ab hmem
    have hbb : b' = b2 := by
      have h1 := dropBytes_iff.2 hcut
      rw [hb2, dropBytes_append] at h1; injection h1 with h1; exact h1.symm
    subst hbb
    have hacc := hs.noAccident ab hmem b' hb2
    unfold idSize
    rw [tokOf_get hw hd hx, tokOf_get hw hd hy, tokOf_get hw hd hz, strip_append hacc, blen_append,
      hb2, strip_prefix]
    have := blen_pos hne
    have := blen_pos hl
    omega
  rank := by
    intro x y x' y' r z z' h1 h2
    obtain ⟨⟨ab, hab, hx, hy, b', hcut, hz⟩, _⟩ := (C20_build_get h x y r z).1 h1
    obtain ⟨⟨ab2, hab2, hx2, hy2, b2, hcut2, hz2⟩, _⟩ := (C20_build_get h x' y' r z').1 h2
    rw [hab] at hab2; injection hab2 with hab2; subst hab2
    rw [← dropBytes_iff] at hcut hcut2
    rw [hcut] at hcut2; injection hcut2 with hcut2; subst hcut2
    rw [hz] at hz2; injection hz2

/-! ## example -/

/-- Vocabulary of the examples. -/
def sampleVocab : AMap Str Nat :=
  [(['a'], 0), (['b'], 1), (['c'], 2), (['a', 'b'], 3), (['a', 'b', 'c'], 4), (['u'], 5), (['é'], 6)]

def sampleMergeList : List (Str × Str) := [(['a'], ['b']), (['a', 'b'], ['c'])]

def sampleCfg : Bpe := { vocab := [], vocabR := [], merges := [] }

def sampleBpe : Bpe :=
  { vocab := sampleVocab
    vocabR := [(6, ['é']), (5, ['u']), (4, ['a', 'b', 'c']), (3, ['a', 'b']), (2, ['c']), (1, ['b']), (0, ['a'])]
    merges := [((3, 2), (1, 4)), ((0, 1), (0, 3))] }

theorem sample_build : build sampleVocab sampleMergeList sampleCfg = .ok sampleBpe := by decide

theorem sampleVocab_wf : sampleVocab.WF := by unfold AMap.WF; decide

theorem sampleVocab_distinct : IdsDistinct sampleVocab := by
  intro s t i hs ht
  have h1 := AMap.mem_of_get_eq_some hs
  have h2 := AMap.mem_of_get_eq_some ht
  simp only [sampleVocab, List.mem_cons, Prod.mk.injEq, List.not_mem_nil, or_false] at h1 h2
  rcases h1 with h | h | h | h | h | h | h <;> rcases h2 with k | k | k | k | k | k | k <;>
    first
      | (exfalso; have := h.2; have := k.2; omega)
      | (rw [h.1, k.1])

theorem sampleMerges_sane : MergesSane [] sampleMergeList where
  right := by intro ab h; simp [sampleMergeList] at h; rcases h with rfl | rfl <;> exact ⟨_, rfl, by simp⟩
  left := by intro ab h; simp [sampleMergeList] at h; rcases h with rfl | rfl <;> simp [strip]
  noAccident := by intro ab h b' _ _; exact List.nil_prefix

example : Coherent (mergeFn sampleBpe.merges) (idSize [] sampleVocab) :=
  C20_build_coherent sample_build sampleVocab_wf sampleVocab_distinct sampleMerges_sane

/-- A merge whose concatenation is missing and longer than every token: the write into the buffer
panics instead of returning the error. -/
theorem C20_missing_concatenation_panics :
    build [(['a'], 0), (['b'], 1)] [(['a'], ['b'])] sampleCfg = .panic := by decide

end Tok.Bpe
