import Verif.Bpe.Unknown

/-!
# C15/C16/C17 for `BPE::tokenize` of a built model, and C46 for its vocabulary
-/

namespace Tok.Bpe

/-- A model as the builder returns it, with distinct ids and a sane merge list. -/
structure Built (b : Bpe) : Prop where
  intro ::
  ex : ∃ merges cfg, build b.vocab merges cfg = .ok b ∧ MergesSane (cfg.pre.getD []) merges
  wf : b.vocab.WF
  distinct : IdsDistinct b.vocab

theorem Built.coherent {b : Bpe} (h : Built b) : ∃ size, Coherent (mergeFn b.merges) size := by
  obtain ⟨⟨merges, cfg, h1, h2⟩, hw, hd⟩ := h
  exact ⟨_, C20_build_coherent h1 hw hd h2⟩

theorem get_swap {vocab : AMap Str Nat} (hw : vocab.WF) (hd : IdsDistinct vocab) (i : Nat) (s : Str) :
    (AMap.extend [] (vocab.map fun p => (p.2, p.1))).get i = some s ↔ vocab.get s = some i := by
  rw [get_extend]
  have hn : AMap.get ([] : AMap Nat Str) i = none := rfl
  rw [hn, Option.or_none, Option.map_eq_some_iff]
  constructor
  · rintro ⟨p, hf, rfl⟩
    have h1 := List.mem_of_find?_eq_some hf
    have h2 := List.find?_some hf
    simp at h2; subst h2
    rw [List.mem_reverse, List.mem_map] at h1
    obtain ⟨q, hq, rfl⟩ := h1
    exact AMap.get_eq_some_of_mem hw hq
  · intro h
    cases hf : ((vocab.map fun p => (p.2, p.1)).reverse.find? fun p => decide (p.1 = i)) with
    | none =>
      rw [List.find?_eq_none] at hf
      have := hf (i, s) (List.mem_reverse.2 (List.mem_map.2 ⟨_, AMap.mem_of_get_eq_some h, rfl⟩))
      simp at this
    | some p =>
      have h1 := List.mem_of_find?_eq_some hf
      have h2 := List.find?_some hf
      simp at h2; subst h2
      rw [List.mem_reverse, List.mem_map] at h1
      obtain ⟨q, hq, rfl⟩ := h1
      exact ⟨_, rfl, hd _ _ _ (AMap.get_eq_some_of_mem hw hq) h⟩

/-- **C46 (BPE).** In a built model `token_to_id` and `id_to_token` are inverse. -/
theorem C46_bpe_vocab_inverse {b : Bpe} (h : Built b) (s : Str) (i : Nat) :
    b.vocab.get s = some i ↔ b.vocabR.get i = some s := by
  obtain ⟨⟨merges, cfg, h1, h2⟩, hw, hd⟩ := h
  have h3 := (build_merges h1).2
  have h4 : b.vocabR = AMap.extend [] (b.vocab.map fun p => (p.2, p.1)) := congrArg Bpe.vocabR h3
  rw [h4, get_swap hw hd]

/-- The ids of symbols all have a token. -/
def IdsKnown (b : Bpe) (l : List (Nat × Nat)) : Prop := ∀ x ∈ l, ∃ s, b.vocab.get s = some x.1

theorem star_ids {b : Bpe} (h : Built b) {w w' : List (Nat × Nat)}
    (hs : Star (AnyStep (mergeFn b.merges)) w w') (hk : IdsKnown b w) : IdsKnown b w' := by
  induction hs with
  | refl => exact hk
  | tail _ hs ih =>
    cases hs with
    | mk pre a c post r x hm =>
      obtain ⟨⟨merges, cfg, h1, h2⟩, hw, hd⟩ := h
      obtain ⟨⟨ab, _, _, _, b', _, hz⟩, _⟩ := (C20_build_get h1 _ _ _ _).1 hm
      intro y hy
      rcases List.mem_append.1 hy with hy | hy
      · exact ih y (by simp [hy])
      · rcases List.mem_cons.1 hy with rfl | hy
        · exact ⟨_, hz⟩
        · exact ih y (by simp [hy])

/-- The tokens for symbols: ids, vocabulary entries and consecutive offsets. -/
def TokensFor (b : Bpe) (l : List (Nat × Nat)) (ts : List Token) : Prop :=
  ts.map (·.id) = l.map (·.1) ∧ ts.map (·.offsets) = offsetsFrom 0 (l.map (·.2)) ∧
    ∀ t ∈ ts, b.vocab.get t.value = some t.id

theorem tokensFrom_spec {b : Bpe} (h : Built b) : ∀ (l : List (Nat × Nat)) (pos : Nat), IdsKnown b l →
    ∃ ts, tokensFrom b.vocabR pos l = some ts ∧ ts.map (·.id) = l.map (·.1) ∧
      ts.map (·.offsets) = offsetsFrom pos (l.map (·.2)) ∧ ∀ t ∈ ts, b.vocab.get t.value = some t.id := by
  intro l
  induction l with
  | nil => intro pos _; exact ⟨[], rfl, rfl, rfl, by simp⟩
  | cons x xs ih =>
    intro pos hk
    obtain ⟨id, n⟩ := x
    obtain ⟨s, hs⟩ := hk _ List.mem_cons_self
    obtain ⟨ts, h1, h2, h3, h4⟩ := ih (pos + n) (fun y hy => hk y (List.mem_cons_of_mem _ hy))
    have hr := (C46_bpe_vocab_inverse h s id).1 hs
    refine ⟨⟨id, s, (pos, pos + n)⟩ :: ts, by simp [tokensFrom, hr, h1], by simp [h2], by simp [h3, offsetsFrom], ?_⟩
    intro t ht
    rcases List.mem_cons.1 ht with rfl | ht
    · exact hs
    · exact h4 t ht

/-- **C15.** End to end: without dropout and without the whole-word shortcut, `tokenize` of a
non-empty word returns the tokens of the textbook BPE of its initial symbols; it fails only if these
cannot be formed (C18). -/
theorem C15_tokenize_textbook {b : Bpe} (h : Built b) {w : Str} (hw : w ≠ []) (coins : Nat → Bool)
    (hd : b.useDropout = false) (hi : b.ignoreMerges = true → b.vocab.get w = none) :
    match initSyms b w with
    | none => ∃ e, tokenize b coins w = .err e
    | some l => ∃ ts l', tokenize b coins w = .ok ts ∧ Textbook (mergeFn b.merges) l l' ∧
        TokensFor b l' ts := by
  have ht : tokenize b coins w = mergeToTokens b (fun _ => false) w := by
    unfold tokenize
    rw [if_neg hw, hd]
    simp only [Bool.false_eq_true, if_false]
    cases him : b.ignoreMerges with
    | false => rfl
    | true => rw [hi him]; rfl
  rw [ht]
  unfold mergeToTokens mergeWord
  cases hs : initSyms b w with
  | none => exact ⟨_, rfl⟩
  | some l =>
    obtain ⟨size, hc⟩ := h.coherent
    have hok := initSyms_ok hs
    obtain ⟨w', h1, h2, h3, _⟩ := mergeAll_spec hc l (fun x hx => (hok x hx).1) (fun _ => false)
    simp only [h1, wordToTokens]
    obtain ⟨ts, h4, h5, h6, h7⟩ := tokensFrom_spec h (symsOf w') 0
      (star_ids h h2 (fun x hx => (hok x hx).2))
    simp only [h4]
    exact ⟨ts, symsOf w', rfl, h3 (fun _ => rfl), h5, h6, h7⟩

/-- **C16.** End to end, for any dropout draws: the offsets of the tokens tile the symbols of the
word, and every token carries the vocabulary entry of its id; `tokenize` never panics. -/
theorem C16_tokenize_tiles {b : Bpe} (h : Built b) {w : Str} {l : List (Nat × Nat)}
    (hl : initSyms b w = some l) (coins : Nat → Bool) :
    ∃ ts, tokenize b coins w = .ok ts ∧ (∀ t ∈ ts, b.vocab.get t.value = some t.id) ∧
      (b.unk ≠ none → (b.byteFallback = true → b.pre = none ∧ b.suf = none) →
        TilesFrom 0 (ts.map (·.offsets)) (blen w)) := by
  have hok := initSyms_ok hl
  have main : ∀ coins, ∃ ts, mergeToTokens b coins w = .ok ts ∧
      (∀ t ∈ ts, b.vocab.get t.value = some t.id) ∧
      (b.unk ≠ none → (b.byteFallback = true → b.pre = none ∧ b.suf = none) →
        TilesFrom 0 (ts.map (·.offsets)) (blen w)) := by
    intro coins
    obtain ⟨size, hc⟩ := h.coherent
    obtain ⟨w', h1, h2, _, _⟩ := mergeAll_spec hc l (fun x hx => (hok x hx).1) coins
    obtain ⟨ts, h4, h5, h6, h7⟩ := tokensFrom_spec h (symsOf w') 0
      (star_ids h h2 (fun x hx => (hok x hx).2))
    refine ⟨ts, by unfold mergeToTokens mergeWord; simp only [hl, h1, wordToTokens, h4], h7, ?_⟩
    intro hu hp
    rw [h6, ← C18_total_length hl hu hp, ← (star_lens h2).1]
    have := offsetsFrom_tiles ((symsOf w').map (·.2)) 0
    rwa [Nat.zero_add] at this
  unfold tokenize
  by_cases hw : w = []
  · rw [if_pos hw]
    refine ⟨[], rfl, by simp, ?_⟩
    intro _ _; subst hw; rfl
  · rw [if_neg hw]
    cases hd : b.useDropout with
    | true => exact main coins
    | false =>
      simp only [Bool.false_eq_true, if_false]
      cases hi : b.ignoreMerges with
      | false => exact main _
      | true =>
        simp only [if_true]
        cases hv : b.vocab.get w with
        | none => exact main _
        | some id =>
          refine ⟨_, rfl, ?_, ?_⟩
          · intro t ht; simp at ht; subst ht; exact hv
          · intro _ _; exact ⟨rfl, Nat.zero_le _, rfl⟩

/-- **C16.** If moreover every character is a token of its own (no prefix, no suffix), each token's
value is exactly the text of the word it covers, whatever the draws. -/
theorem C16_values_are_text {b : Bpe} (h : Built b) (hpre : b.pre = none) (hsuf : b.suf = none)
    {w : Str} (hk : ∀ c ∈ w, ∃ i, b.vocab.get [c] = some i) (coins : Nat → Bool) :
    ∃ ts gs, tokenize b coins w = .ok ts ∧ gs.flatten = w ∧ ts.map (·.value) = gs ∧
      ts.map (·.offsets) = offsetsFrom 0 (gs.map blen) := by
  have hcs : ∀ f l c, charSym b f l c = [c] := by
    intro f l c; rw [charSym_eq, hpre, hsuf]; cases f <;> cases l <;> simp
  -- the initial symbols
  have hinit : ∀ (w : Str) (first : Bool) (o : List (Nat × Nat)), (∀ c ∈ w, ∃ i, b.vocab.get [c] = some i) →
      initLoop b first w (o, none) =
        some (o ++ w.map (fun c => ((b.vocab.get [c]).getD 0, c.utf8Size)), none) := by
    intro w
    induction w with
    | nil => intro _ o _; simp [initLoop]
    | cons c cs ih =>
      intro first o hk
      obtain ⟨i, hi⟩ := hk c List.mem_cons_self
      simp only [initLoop, stepChar, hcs, hi, flushUnk]
      rw [ih _ _ (fun c hc => hk c (List.mem_cons_of_mem _ hc))]
      simp [hi]
  have hl : initSyms b w = some (w.map (fun c => ((b.vocab.get [c]).getD 0, c.utf8Size))) := by
    unfold initSyms; rw [hinit w true [] hk]; simp [flushUnk]
  have hok := initSyms_ok hl
  have htok : ∀ {s i}, b.vocab.get s = some i → tokOf b.vocab i = s := fun hs => tokOf_get h.wf h.distinct hs
  have main : ∀ coins, ∃ ts gs, mergeToTokens b coins w = .ok ts ∧ gs.flatten = w ∧ ts.map (·.value) = gs ∧
      ts.map (·.offsets) = offsetsFrom 0 (gs.map blen) := by
    intro coins
    obtain ⟨size, hc⟩ := h.coherent
    obtain ⟨w', h1, h2, _, _⟩ := mergeAll_spec hc _ (fun x hx => (hok x hx).1) coins
    obtain ⟨ts, h4, h5, h6, h7⟩ := tokensFrom_spec h (symsOf w') 0
      (star_ids h h2 (fun x hx => (hok x hx).2))
    -- invariant along the merges: texts concatenate to the word and lengths are their byte lengths
    have hconcat : ∀ {v}, Star (AnyStep (mergeFn b.merges))
        (w.map (fun c => ((b.vocab.get [c]).getD 0, c.utf8Size))) v →
        (v.map fun x => tokOf b.vocab x.1).flatten = w ∧ ∀ x ∈ v, x.2 = blen (tokOf b.vocab x.1) := by
      intro v hv
      generalize hv0 : w.map (fun c => ((b.vocab.get [c]).getD 0, c.utf8Size)) = v0 at hv
      induction hv with
      | refl =>
        subst hv0
        have hmap : ∀ w : Str, (∀ c ∈ w, ∃ i, b.vocab.get [c] = some i) →
            ((w.map (fun c => ((b.vocab.get [c]).getD 0, c.utf8Size))).map fun x => tokOf b.vocab x.1).flatten = w := by
          intro w
          induction w with
          | nil => intro _; rfl
          | cons c cs ih =>
            intro hk
            obtain ⟨i, hi⟩ := hk c List.mem_cons_self
            have := ih (fun c hc => hk c (List.mem_cons_of_mem _ hc))
            simp only [List.map_cons, List.flatten_cons, hi, Option.getD_some, htok hi, this]
            rfl
        refine ⟨hmap w hk, ?_⟩
        intro x hx
        obtain ⟨c, hc, rfl⟩ := List.mem_map.1 hx
        obtain ⟨i, hi⟩ := hk c hc
        simp [hi, htok hi]
      | tail _ hs ih =>
        obtain ⟨ih1, ih2⟩ := ih
        cases hs with
        | mk pre a d post r x hm =>
          have hbp : ∃ merges cfg, build b.vocab merges cfg = .ok b := by
            obtain ⟨⟨merges, cfg, k1, _⟩, _, _⟩ := h; exact ⟨merges, cfg, k1⟩
          obtain ⟨merges, cfg, k1⟩ := hbp
          obtain ⟨⟨ab, _, hx1, hy1, b', hcut, hz⟩, _⟩ := (C20_build_get k1 _ _ _ _).1 hm
          have hcp : cfg.pre = none := by
            have := (build_merges k1).2
            have := congrArg Bpe.pre this
            simpa [hpre] using this.symm
          rw [hcp] at hcut
          obtain ⟨p0, hp1, hp2⟩ := hcut
          have hp0 : p0 = [] := blen_eq_zero.1 (by simpa using hp2)
          subst hp0
          simp only [List.nil_append] at hp1
          subst hp1
          have ht : tokOf b.vocab x = tokOf b.vocab a.1 ++ tokOf b.vocab d.1 := by
            rw [htok hz, htok hx1, htok hy1]
          refine ⟨?_, ?_⟩
          · rw [← ih1]; simp [ht]
          · intro y hy
            rcases List.mem_append.1 hy with hy | hy
            · exact ih2 y (by simp [hy])
            · rcases List.mem_cons.1 hy with rfl | hy
              · have e1 := ih2 a (by simp)
                have e2 := ih2 d (by simp)
                simp only [ht, blen_append]; omega
              · exact ih2 y (by simp [hy])
    obtain ⟨hc1, hc2⟩ := hconcat h2
    have hval : ts.map (·.value) = (symsOf w').map fun x => tokOf b.vocab x.1 := by
      have e1 : ts.map (·.value) = (ts.map (·.id)).map (tokOf b.vocab) := by
        rw [List.map_map]
        apply List.map_congr_left
        intro t ht
        exact (htok (h7 t ht)).symm
      rw [e1, h5, List.map_map]; rfl
    refine ⟨ts, _, by unfold mergeToTokens mergeWord; simp only [hl, h1, wordToTokens, h4], hc1, hval, ?_⟩
    rw [h6, List.map_map]
    congr 1
    apply List.map_congr_left
    intro x hx
    exact hc2 x hx
  unfold tokenize
  by_cases hw : w = []
  · rw [if_pos hw]
    exact ⟨[], [], rfl, by simp [hw], rfl, rfl⟩
  · rw [if_neg hw]
    cases hd : b.useDropout with
    | true => exact main coins
    | false =>
      simp only [Bool.false_eq_true, if_false]
      cases hi : b.ignoreMerges with
      | false => exact main _
      | true =>
        simp only [if_true]
        cases hv : b.vocab.get w with
        | none => exact main _
        | some id => exact ⟨_, [w], rfl, by simp, rfl, by simp [offsetsFrom]⟩

theorem sample_built : Built sampleBpe :=
  ⟨⟨sampleMergeList, sampleCfg, sample_build, sampleMerges_sane⟩, sampleVocab_wf, sampleVocab_distinct⟩

example : tokenize sampleBpe (fun _ => false) ['a', 'b', 'c', 'é', 'a', 'b'] =
    .ok [⟨4, ['a', 'b', 'c'], (0, 3)⟩, ⟨6, ['é'], (3, 5)⟩, ⟨3, ['a', 'b'], (5, 7)⟩] := by decide

example : ∃ ts l', tokenize sampleBpe (fun _ => false) ['a', 'b', 'c'] = .ok ts ∧
    Textbook (mergeFn sampleBpe.merges) [(0, 1), (1, 1), (2, 1)] l' ∧ TokensFor sampleBpe l' ts :=
  C15_tokenize_textbook sample_built (w := ['a', 'b', 'c']) (by simp) _ rfl (by intro h; cases h)

example : ∀ c ∈ (['a', 'b', 'c', 'é'] : Str), ∃ i, sampleBpe.vocab.get [c] = some i := by
  intro c hc
  simp at hc
  rcases hc with rfl | rfl | rfl | rfl
  · exact ⟨0, rfl⟩
  · exact ⟨1, rfl⟩
  · exact ⟨2, rfl⟩
  · exact ⟨6, rfl⟩

end Tok.Bpe
