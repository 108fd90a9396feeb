import Verif.Tokenizer.CharBpe

/-!
# C94: a trained BPE tokenizer with Metaspace gives texts back

As `SentencePieceBPETokenizer` makes it.
-/

namespace Tok
namespace Tokenizer

open AddedVocab PreTokenizer Metaspace

theorem of_firsts {l : List Str} {s : Str} (h : s ∈ Train.firsts l) : s ∈ l := by
  have : ∀ (l : List Str) (v : List Str) (s : Str), s ∈ l.foldl (fun v s => if s ∈ v then v else v ++ [s]) v → s ∈ l ∨ s ∈ v := by
    intro l
    induction l with
    | nil => intro v s h; exact .inr (by simpa using h)
    | cons a l ih =>
      intro v s h
      rcases ih _ _ h with h | h
      · exact .inl (List.mem_cons_of_mem _ h)
      · dsimp only at h
        split at h
        · exact .inr h
        · rcases List.mem_append.1 h with h | h
          · exact .inr h
          · exact .inl (by simp_all)
  simpa using this l [] s h

theorem atomStr_ne (cfg : Train.BpeCfg) (first last : Bool) (c : Char) : Train.atomStr cfg first last c ≠ [] := by
  unfold Train.atomStr
  cases first <;> cases last <;> cases cfg.pre <;> cases cfg.suf <;> simp

theorem wordStrs_ne (cfg : Train.BpeCfg) (K : Char → Bool) : ∀ (first : Bool) (w : Str), ∀ t ∈ Train.wordStrs cfg K first w, t ≠ []
  | _, [], t, h => by cases h
  | first, c :: rest, t, h => by
    rw [Train.wordStrs] at h
    split at h
    · rcases List.mem_cons.1 h with rfl | h
      · exact atomStr_ne cfg _ _ c
      · exact wordStrs_ne cfg K _ _ t h
    · exact wordStrs_ne cfg K _ _ t h

theorem greedy_ne {cfg : Train.BpeCfg} {counts vocab words ms vocab' words'}
    (h : Train.Greedy cfg counts vocab words ms vocab' words') (hv : ∀ t ∈ vocab, t ≠ []) : ∀ t ∈ vocab', t ≠ [] := by
  induction h with
  | done => exact hv
  | merge vocab words p a b r vocab1 ms vocab' words' h1 h2 h3 h4 h5 h6 h7 h8 ih =>
    refine ih fun t ht => ?_
    rw [h6] at ht
    split at ht
    · exact hv t ht
    · rcases List.mem_append.1 ht with ht | ht
      · exact hv t ht
      · have := hv a (List.mem_of_getElem? h4)
        simp_all

/-- A trained vocabulary has no empty token, if no special token is empty. -/
theorem trained_nonempty {cfg : Train.BpeCfg} {order : AMap Char Nat → AMap Char Nat} {wc : AMap Str Nat} {st : Train.St}
    (hsep : Train.Separated cfg wc) (hst : Train.Trained cfg order wc st) {b b' : Bpe.Bpe}
    (hf : Train.finish cfg st b = some b') (hsp : ∀ x ∈ cfg.specials, x ≠ []) : b'.vocab.get [] = none := by
  obtain ⟨b1, g1, -, -, g3, -⟩ := Train.C41_built hsep hst b
  rw [hf] at g1
  cases g1
  obtain ⟨-, -, -, -, -, hg⟩ := Train.trained_inv hsep hst
  obtain ⟨-, -, -, s4, -⟩ := Train.start_spec cfg order wc
  have hstart : ∀ t ∈ (Train.start cfg order wc).voc.id2w, t ≠ [] := by
    intro t ht
    rcases s4 t ht with h | ⟨p, -, h⟩
    · rw [(Train.C41_first_tokens cfg order wc).1] at h
      rcases List.mem_append.1 (of_firsts h) with h | h
      · exact hsp t h
      · obtain ⟨c, -, rfl⟩ := List.mem_map.1 h
        simp
    · exact wordStrs_ne _ _ _ _ t h
  cases h : b'.vocab.get [] with
  | none => rfl
  | some i => exact absurd rfl (greedy_ne hg hstart [] (List.mem_of_getElem? ((g3 _ _).1 h)))

/-- **C94.** A BPE tokenizer with Metaspace is trained on any texts, with whatever size of the vocabulary, minimal frequency and
longest token; the alphabet is not cut. Training ends, and then every text, seen or not, without special tokens, whose characters
(normalized, with marks for spaces) were seen, is encoded without error and decoded to its normalized form, as C69 says. -/
theorem C94_trained {t : Tokenizer} {u z v r sch} (h : MetaRecipe t u z v r sch) {build : List (Str × Nat) → Bool}
    (hb : Save.Automata build) {norm : Norm} {tree : Train.Tree} {cfg : Train.BpeCfg} {order : AMap Char Nat → AMap Char Nat}
    (ho : Train.IsOrder order) (hp : cfg.pre = none) (hsuf : cfg.suf = none) {specials : List AddedToken}
    (hplain : ∀ a ∈ specials, PlainToken a)
    (hroom : Train.EnoughRoom cfg (tree.leaves.map (metaForm u z r sch))) (b : Bpe.Bpe) (coins : Str → Nat → Bool) :
    ∃ k t', (∀ fuel, k ≤ fuel → t.train build norm tree (bpeTrainer cfg order fuel specials b coins) = (t', .ok ())) ∧
      (∀ a ∈ specials, ∃ i, t'.vocab.get a.content = some i) ∧
      (Surrounds t.settings (IsSpecialId t'.added) → ∀ s : Str, s ≠ [] →
        (∀ ch ∈ metaForm u z r sch s, ∃ q ∈ tree.leaves, q ≠ [] ∧ ch ∈ metaForm u z r sch q) →
        (∀ a ∈ specials, ¬ a.content <:+: s ∧ ¬ a.content <:+: z.text u s ∧ ¬ a.content <:+: metaForm u z r sch s) →
        ∀ add skip : Bool, (add = true → skip = true) →
        ∃ e, t'.encode (.raw s, none) add = .ok e ∧ t'.decode skip e.ids = some (restored sch (unsub r (z.text u s)))) := by
  obtain ⟨wc, hwc, hwf, hfed⟩ := pipeline_feeds h.pipeline h.added tree
  have hsep : Train.Separated { cfg with specials := specials.map (·.content) } wc := ⟨by simp [hp], by simp [hsuf]⟩
  have hroom' : Train.EnoughRoom { cfg with specials := specials.map (·.content) } (wc.map (·.1)) := by
    intro n hn
    obtain ⟨l, l1, l2, l3⟩ := hroom n hn
    refine ⟨l, l1, l2, fun w hw c hc => ?_⟩
    obtain ⟨p, hp, rfl⟩ := List.mem_map.1 hw
    obtain ⟨q, hq, hw⟩ := (hfed p.1).1 ⟨p.2, hp⟩
    exact l3 _ (List.mem_map_of_mem hq) c ((wordsOf_meta hw).1.subset hc)
  obtain ⟨k, st, b', hst, hf, hk⟩ := bpeTrainer_total (cfg := cfg) (order := order) (specials := specials) (b := b)
    (coins := coins) (wc := wc) hsep
  obtain ⟨g1, g2, g3, -, -, g6, g7, g8, -⟩ := trained_bpe (cfg := { cfg with specials := specials.map (·.content) }) hp ho hroom'
    hsep hst hf
  have g3 : b'.suf = none := g3.trans hsuf
  have hne : b'.vocab.get [] = none := trained_nonempty hsep hst hf (by
    intro x hx
    obtain ⟨a, ha, rfl⟩ := List.mem_map.1 hx
    exact (hplain a ha).2.2.2.2)
  obtain ⟨a1, a2⟩ := addTokens_plain hb g6 (norm := norm) specials fun a ha => normalForm_raw norm (hplain a ha).1
  have hraw : ∀ a ∈ tokensOf [Op.add norm specials], a ∈ specials := fun a ha => by simpa [tokensOf] using ha
  have hclean : Clean (tokensOf [Op.add norm specials]) (after build (bpeView b') empty [.add norm specials]) :=
    after_clean g6 build _ (fun _ h => h) (.inr fun a ha => (hplain a (hraw a ha)).1) (inv_empty _)
      ⟨rfl, by simp [empty, AMap.get], by simp [empty]⟩
  refine ⟨k, t.withBpe b' coins (after build (bpeView b') empty [.add norm specials]), fun fuel hfuel => ?_,
    fun a ha => g7 _ (List.mem_map_of_mem ha), fun hset s hs hseen hfree add skip hskip => ?_⟩
  · unfold train
    rw [hwc]
    simp only [hk fuel hfuel, h.added]
    have a1' : (empty.addTokens build (ofBpe b' coins).view norm specials).2.isSome = true := a1
    have a2' : (empty.addTokens build (ofBpe b' coins).view norm specials).1 = _ := a2
    rw [a1', a2']
    rfl
  · refine C69_text (t := t.withBpe b' coins (after build (bpeView b') empty [.add norm specials])) (r := r) (sch := sch)
      ⟨⟨h.pipeline.normalizer, h.pipeline.preTok, h.pipeline.unicode, h.pipeline.safe, h.pipeline.sound, h.pipeline.anywhere,
        after_tries g6 (automata_nonempty hb) [.add norm specials] (inv_empty _) (by simp [TriesOk, empty]), ?_, fun i a ha => ?_⟩,
        h.decoder, g6, h.mark⟩
      (C69_bpe g1 g2 g3 hne (fun _ => rfl) rfl) (build := build) (ops := [.add norm specials]) rfl
      (fun a ha => (hplain a (hraw a ha)).1) hset hs (fun w hw c hc => ?_) (fun a ha => hfree a (hraw a ha)) hskip
    · exact addTokens_encodeSpecial ..
    · obtain ⟨-, k1, k2, k3, -⟩ := hplain a (hraw a (hclean.token i a ha))
      exact ⟨k1, k2, k3⟩
    · obtain ⟨q, hq, hqne, hch⟩ := hseen c (hw.subset hc)
      obtain ⟨w', hw1, hw2⟩ := wordsOf_char (v := v) hqne hch
      obtain ⟨n, hn⟩ := (hfed w').2 ⟨q, hq, hw1⟩
      exact g8 c ⟨w', List.mem_map.2 ⟨_, hn, rfl⟩, hw2⟩

/-- **C94.** In particular every text it was trained on. -/
theorem C94_seen {t : Tokenizer} {u z v r sch} (h : MetaRecipe t u z v r sch) {build : List (Str × Nat) → Bool}
    (hb : Save.Automata build) {norm : Norm} {tree : Train.Tree} {cfg : Train.BpeCfg} {order : AMap Char Nat → AMap Char Nat}
    (ho : Train.IsOrder order) (hp : cfg.pre = none) (hsuf : cfg.suf = none) {specials : List AddedToken}
    (hplain : ∀ a ∈ specials, PlainToken a)
    (hroom : Train.EnoughRoom cfg (tree.leaves.map (metaForm u z r sch))) (b : Bpe.Bpe) (coins : Str → Nat → Bool) :
    ∃ k t', (∀ fuel, k ≤ fuel → t.train build norm tree (bpeTrainer cfg order fuel specials b coins) = (t', .ok ())) ∧
      (Surrounds t.settings (IsSpecialId t'.added) → ∀ s ∈ tree.leaves, s ≠ [] →
        (∀ a ∈ specials, ¬ a.content <:+: s ∧ ¬ a.content <:+: z.text u s ∧ ¬ a.content <:+: metaForm u z r sch s) →
        ∀ add skip : Bool, (add = true → skip = true) →
        ∃ e, t'.encode (.raw s, none) add = .ok e ∧ t'.decode skip e.ids = some (restored sch (unsub r (z.text u s)))) := by
  obtain ⟨k, t', h1, -, h2⟩ := C94_trained h hb (norm := norm) ho hp hsuf hplain hroom b coins
  exact ⟨k, t', h1, fun hset s hin hs => h2 hset s hs fun ch hch => ⟨s, hin, hs, hch⟩⟩

end Tokenizer
end Tok
