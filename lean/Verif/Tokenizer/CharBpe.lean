import Verif.Tokenizer.TrainedBert
import Verif.Bpe.Suffix

/-!
# C93: BPE tokenizers with an end-of-word suffix give the words of texts back

As `CharBPETokenizer` makes them: any normalizer, a pre-tokenizer that makes words, BPE with a suffix and the BPE decoder.
-/

namespace Tok
namespace Tokenizer

open AddedVocab PreTokenizer Dec

/-- A tokenizer with BPE with the end-of-word suffix `x` and its decoder; any normalizer and pre-tokenizer. The tokens dropped by
dropout may be any. -/
structure IsSuffixBpe (t : Tokenizer) (u : Unicode) (z : Normalizer) (v : CharTables) (y : PreTokenizer) (b : Bpe.Bpe) (x : Str)
    (coins : Str → Nat → Bool) : Prop where
  pipeline : IsPipeline t u z v y
  model : ∀ s, t.model s = bpeResult (Bpe.tokenize b (coins s) s)
  view : t.view = bpeView b
  ok : t.view.Ok
  built : Bpe.Built b
  pre : b.pre = none
  suf : b.suf = some x
  merges : b.useDropout = true ∨ b.ignoreMerges = false
  decoder : t.decoder = some (.bpe x)

/-- The tokens of the words. -/
theorem suffix_tokens {t : Tokenizer} {u z v y b x coins} (h : IsSuffixBpe t u z v y b x coins) {T : List AddedToken}
    (hinv : Inv t.view t.added) (hclean : Clean T t.added) (skip : Bool) : ∀ words : List Str,
    (∀ s ∈ words, Bpe.Spellable b.vocab x s ∧ ∀ c ∈ t.added.specials, ¬ c <:+: s ++ x) →
    ∃ (tss : List (List Token)) (l : List (Str × List Str)), words.mapM t.model = .ok tss ∧
      decodeTokens t.view t.added skip (tss.flatten.map (·.id)) = (l.map (·.2)).flatten ∧ l.map (·.1) = words ∧
      ∀ p ∈ l, Bpe.Ended x p.1 p.2
  | [], _ => ⟨[], [], rfl, rfl, rfl, by simp⟩
  | s :: words, hs => by
    obtain ⟨tss, l, h1, h2, h3, h4⟩ := suffix_tokens h hinv hclean skip words fun y hy => hs y (by simp [hy])
    obtain ⟨hsp, hfree⟩ := hs s (by simp)
    have hx : b.suf.getD [] = x := by rw [h.suf]; rfl
    obtain ⟨ts, gs, last, k1, k2, k3, -, k4⟩ := Bpe.C93_ended h.built h.pre h.merges (hx ▸ hsp) (coins s)
    rw [hx] at k2
    have hval : ∀ tk ∈ ts, tk.value <:+: s ++ x := by
      intro tk htk
      have hm : tk.value ∈ ts.map (·.value) := List.mem_map_of_mem htk
      have hflat : s ++ x = (ts.map (·.value)).flatten := by rw [k2, k3]; simp
      rw [hflat]
      obtain ⟨a, c, e⟩ := List.append_of_mem hm
      rw [e]
      exact ⟨a.flatten, c.flatten, by simp⟩
    have hd := decodeTokens_plain (m := t.view) (av := t.added) skip ts fun tk htk =>
      ⟨shows_model h.ok hinv hclean (by rw [h.view]; exact k4 tk htk), fun hin => hfree _ hin (hval tk htk)⟩
    refine ⟨ts :: tss, (s, ts.map (·.value)) :: l, ?_, ?_, by rw [List.map_cons, h3], fun p hp => ?_⟩
    · rw [List.mapM_cons, h.model, k1, h1]; rfl
    · have happ : ∀ a c : List Nat, decodeTokens t.view t.added skip (a ++ c) =
          decodeTokens t.view t.added skip a ++ decodeTokens t.view t.added skip c := by
        intro a c; simp [decodeTokens]
      rw [List.flatten_cons, List.map_append, happ, h2, hd]; rfl
    · rcases List.mem_cons.1 hp with rfl | hp
      · exact ⟨gs, last, k2, k3⟩
      · exact h4 p hp

/-- **C93.** If every word can be spelled and the suffix is not mistaken for a part of a word, then what was encoded is decoded to
the words of the normalized text, with single spaces between. No added token occurs in the text, before or after normalization,
or in a word with its suffix. -/
theorem C93_text {t : Tokenizer} {u z v y b x coins} (h : IsSuffixBpe t u z v y b x coins) (hx : x ≠ [])
    {build : List (Str × Nat) → Bool} {ops : List Op} (hav : t.added = after build t.view AddedVocab.empty ops)
    (hraw : ∀ a ∈ tokensOf ops, a.normalized = false) (hset : Surrounds t.settings (IsSpecialId t.added)) {s : Str}
    {words : List Str} (hwords : words = wordsOf u z v y s) (hne : words ≠ [])
    (hsp : ∀ w ∈ words, Bpe.Spellable b.vocab x w ∧ Clear x w)
    (hfree : ∀ a ∈ tokensOf ops, ¬ a.content <:+: s ∧ ¬ a.content <:+: z.text u s ∧ ∀ w ∈ words, ¬ a.content <:+: w ++ x)
    {add skip : Bool} (hskip : add = true → skip = true) :
    ∃ e, t.encode (.raw s, none) add = .ok e ∧ t.decode skip e.ids = some ([' '].intercalate words) := by
  have hm := h.ok
  have hinv : Inv t.view t.added := hav ▸ (after_inv hm build ops (inv_empty _)).1
  have hclean : Clean (tokensOf ops) t.added := by
    rw [hav]
    exact after_clean hm build ops (fun _ h => h) (.inr hraw) (inv_empty _)
      ⟨rfl, by simp [AddedVocab.empty, AMap.get], by simp [AddedVocab.empty]⟩
  have hpat : ∀ p ∈ t.added.trie ++ t.added.normTrie, ∃ a ∈ tokensOf ops, a.content = p.1 := by
    intro p hp
    obtain ⟨a, a1, a2⟩ := hclean.pattern p.1 p.2 hp
    exact ⟨a, hclean.token _ _ a1, a2⟩
  have hspec : ∀ c ∈ t.added.specials, ∃ a ∈ tokensOf ops, a.content = c := by
    intro c hc
    obtain ⟨i, hi⟩ := hinv.special _ hc
    obtain ⟨tk, j1, j2⟩ := (hinv.inverse _ i).1 hi
    exact ⟨tk, hclean.token _ _ j1, j2⟩
  have hs : s ≠ [] := by
    rintro rfl
    exact hne (by rw [hwords]; rfl)
  obtain ⟨tss, l, k1, k2, k3, k4⟩ := suffix_tokens h hinv hclean skip words fun w hw => ⟨(hsp w hw).1, fun c hc => by
    obtain ⟨a, a1, a2⟩ := hspec c hc
    exact a2 ▸ (hfree a a1).2.2 w hw⟩
  have hcut : words = (cut v false y (z.text u s)).filter (· ≠ []) := by rw [hwords, wordsOf, if_neg hs]
  rw [hcut] at k1
  obtain ⟨e, e1, e2, e3⟩ := pipeline_tokens h.pipeline hset.1 hs
    (fun p hp => by
      obtain ⟨a, a1, a2⟩ := hpat p (by simp [hp])
      exact a2 ▸ (hfree a a1).1)
    (fun p hp => by
      obtain ⟨a, a1, a2⟩ := hpat p (by simp [hp])
      exact a2 ▸ (hfree a a1).2.1) k1
  refine around_ids hinv hclean.cache hset h.decoder e1 e2 ?_ hskip
  have hl : l ≠ [] := by rintro rfl; exact hne k3.symm
  obtain ⟨out, o1, o2⟩ := C93_decoded (oc := t.checked) hx hl fun p hp => ⟨k4 p hp, by
    have : p.1 ∈ l.map (·.1) := List.mem_map_of_mem hp
    rw [k3] at this
    exact (hsp _ this).2⟩
  rw [e3, k2]
  show (Dec.bpe t.checked x _).map List.flatten = _
  rw [o1, Option.map_some, o2, k3]

/-! ## Trained -/

/-- A tokenizer like `CharBPETokenizer` before training: any normalizer and pre-tokenizer, the BPE decoder for the suffix; nothing is
added. The model may be any. -/
structure CharRecipe (t : Tokenizer) (u : Unicode) (z : Normalizer) (v : CharTables) (y : PreTokenizer) (x : Str) : Prop where
  pipeline : IsPipeline t u z v y
  decoder : t.decoder = some (.bpe x)
  added : t.added = empty

/-- A word of characters that were seen in words, the last one at the end of a word. -/
def EndSeen (words : List Str) (w : Str) : Prop :=
  (∀ c ∈ w, ∃ w' ∈ words, c ∈ w') ∧ ∃ c, w.getLast? = some c ∧ ∃ w' ∈ words, w'.getLast? = some c

theorem wordStrs_last {cfg : Train.BpeCfg} (hp : cfg.pre = none) {K : Char → Bool} : ∀ (w : Str) (first : Bool) (c : Char),
    w.getLast? = some c → K c = true → (c :: cfg.suf.getD []) ∈ Train.wordStrs cfg K first w
  | [], _, _, h, _ => by cases h
  | [d], first, c, h, hk => by
    obtain rfl : d = c := by simpa using h
    rw [Train.wordStrs, if_pos hk]
    refine List.mem_cons.2 (.inl ?_)
    unfold Train.atomStr
    cases first <;> simp [hp] <;> cases cfg.suf <;> simp
  | d :: e :: w, first, c, h, hk => by
    have := wordStrs_last hp (K := K) (e :: w) false c (by simpa using h) hk
    rw [Train.wordStrs]
    split
    · exact List.mem_cons_of_mem _ this
    · exact this

/-- What a BPE model trained without prefix is. -/
theorem trained_bpe {cfg : Train.BpeCfg} (hp : cfg.pre = none) {order : AMap Char Nat → AMap Char Nat} (ho : Train.IsOrder order) {wc : AMap Str Nat} (hroom : Train.EnoughRoom cfg (wc.map (·.1)))
    (hsep : Train.Separated cfg wc) {st : Train.St} (hst : Train.Trained cfg order wc st) {b b' : Bpe.Bpe}
    (hf : Train.finish cfg st b = some b') :
    Bpe.Built b' ∧ b'.pre = none ∧ b'.suf = cfg.suf ∧ b'.useDropout = b.useDropout ∧ b'.ignoreMerges = b.ignoreMerges ∧
      (bpeView b').Ok ∧ (∀ y ∈ cfg.specials, ∃ i, b'.vocab.get y = some i) ∧
      (∀ c, (∃ w ∈ wc.map (·.1), c ∈ w) → ∃ i, b'.vocab.get [c] = some i) ∧
      ∀ w, EndSeen (wc.map (·.1)) w → Bpe.Spellable b'.vocab (cfg.suf.getD []) w := by
  obtain ⟨b1, g1, g2, -, g3, -⟩ := Train.C41_built hsep hst b
  rw [hf] at g1
  cases g1
  obtain ⟨v1, -⟩ := Train.C41_vocab hst.reached
  obtain ⟨b2, f1, f2, -, -, -, f3, f4, f5, f6, -⟩ := Train.finish_spec (cfg := cfg) (s := st) (Train.reached_voc hst.reached).voc b
  rw [hf] at f1
  cases f1
  have hlen : st.voc.id2w.length ≤ b'.vocab.length := by
    have := Save.length_le_of_subset (l := st.voc.id2w) (l' := b'.vocab.map (·.1)) v1 (by
      intro w hw
      obtain ⟨i, hi⟩ := List.mem_iff_getElem?.1 hw
      exact List.mem_map.2 ⟨(w, i), AMap.mem_of_get_eq_some ((g3 w i).2 hi), rfl⟩)
    simpa using this
  have hstart : ∀ y ∈ (Train.start cfg order wc).voc.id2w, ∃ i, b'.vocab.get y = some i := by
    intro y hy
    obtain ⟨fuel, hfu⟩ := hst.reached
    obtain ⟨i, hi⟩ := List.mem_iff_getElem?.1 (Train.loop_grows fuel hfu y hy)
    exact ⟨i, (g3 _ _).2 hi⟩
  obtain ⟨-, s2, s3, -, s5⟩ := Train.start_spec cfg order wc
  have hfirst : ∀ y, y ∈ cfg.specials ++ (Train.keptList cfg order wc).map (fun c => [c]) →
      y ∈ (Train.start cfg order wc).voc.id2w := by
    intro y hy
    have hm : y ∈ (Train.alphabetVoc cfg order wc).id2w := by
      rw [(Train.C41_first_tokens cfg order wc).1]
      exact firsts_mem hy
    obtain ⟨i, hi⟩ := List.mem_iff_getElem?.1 hm
    exact List.mem_of_getElem? (s3 i _ hi)
  have hchar : ∀ c, (∃ w' ∈ wc.map (·.1), c ∈ w') → [c] ∈ (Train.start cfg order wc).voc.id2w := by
    rintro c ⟨w', hw', hc⟩
    obtain ⟨p, hp', rfl⟩ := List.mem_map.1 hw'
    exact hfirst _ (List.mem_append_right _ (List.mem_map.2 ⟨c, Train.room_kept ho hroom (.inr ⟨p, hp', hc⟩), rfl⟩))
  have hend : ∀ c, (∃ w' ∈ wc.map (·.1), w'.getLast? = some c) → (c :: cfg.suf.getD []) ∈ (Train.start cfg order wc).voc.id2w := by
    rintro c ⟨w', hw', hc⟩
    have hk := (s2 c).2 (hchar c ⟨w', hw', List.mem_of_getLast? hc⟩)
    obtain ⟨p, hp', rfl⟩ := List.mem_map.1 hw'
    have ht := wordStrs_last hp (K := Train.kept cfg order wc) p.1 true c hc hk
    obtain ⟨i, hi⟩ := List.mem_iff_getElem?.1 hp'
    obtain ⟨syms, -, e2⟩ := s5.get.2 i _ hi
    generalize Train.wordStrs cfg (Train.kept cfg order wc) true p.1 = l at ht e2
    induction l generalizing syms with
    | nil => cases ht
    | cons a l ih =>
      cases syms with
      | nil => exact e2.elim
      | cons z syms =>
        obtain ⟨-, e3, e4⟩ := e2
        rcases List.mem_cons.1 ht with rfl | ht
        · exact List.mem_of_getElem? e3
        · exact ih syms ht e4
  refine ⟨g2, by rw [f3, hp], f4, f5, f6, ⟨fun s i hi => ?_, fun c i => Bpe.C46_bpe_vocab_inverse g2 c i⟩,
    fun y hy => hstart _ (hfirst _ (List.mem_append_left _ hy)), fun c hc => hstart _ (hchar c hc), ?_⟩
  · have := (List.getElem?_eq_some_iff.1 ((g3 s i).1 hi)).1
    show i < b'.vocab.length
    omega
  · rintro w ⟨w1, w2⟩
    induction w with
    | nil => obtain ⟨c, hc, -⟩ := w2; cases hc
    | cons c w ih =>
      cases w with
      | nil =>
        obtain ⟨d, hd, w3⟩ := w2
        obtain rfl : c = d := by simpa using hd
        exact hstart _ (hend _ w3)
      | cons d w =>
        refine ⟨hstart _ (hchar c (w1 c (by simp))), ih (fun e he => w1 e (by simp [he])) ?_⟩
        obtain ⟨e, he, w3⟩ := w2
        exact ⟨e, by simpa using he, w3⟩

/-- Special tokens as a trainer is mostly given them. -/
def PlainToken (a : AddedToken) : Prop :=
  a.normalized = false ∧ a.lstrip = false ∧ a.rstrip = false ∧ a.singleWord = false ∧ a.content ≠ []

/-- What training does, if the last character of the suffix is neither in it before nor in the words. -/
theorem train_suffixBpe {t : Tokenizer} {u z v y x} (h : CharRecipe t u z v y x) {build : List (Str × Nat) → Bool}
    (hb : Save.Automata build) {norm : Norm} {tree : Train.Tree} {cfg : Train.BpeCfg} {order : AMap Char Nat → AMap Char Nat}
    (ho : Train.IsOrder order) (hp : cfg.pre = none) (hsuf : cfg.suf = some x) {specials : List AddedToken}
    (hplain : ∀ a ∈ specials, PlainToken a) {words : List Str} (hwords : words = tree.leaves.flatMap (wordsOf u z v y))
    (hroom : Train.EnoughRoom cfg words) (hlast : ∀ r c, x = r ++ [c] → ∀ w ∈ words, c ∉ w) (b : Bpe.Bpe)
    (hi : b.useDropout = true ∨ b.ignoreMerges = false) (coins : Str → Nat → Bool) :
    ∃ k b', (∀ fuel, k ≤ fuel → t.train build norm tree (bpeTrainer cfg order fuel specials b coins) =
        (t.withBpe b' coins (after build (bpeView b') empty [.add norm specials]), .ok ())) ∧
      IsSuffixBpe (t.withBpe b' coins (after build (bpeView b') empty [.add norm specials])) u z v y b' x coins ∧
      (∀ a ∈ specials, ∃ i, b'.vocab.get a.content = some i) ∧ ∀ w, EndSeen words w → Bpe.Spellable b'.vocab x w := by
  obtain ⟨wc, hwc, hwf, hfed⟩ := pipeline_feeds h.pipeline h.added tree
  have hmem : ∀ w, w ∈ wc.map (·.1) ↔ w ∈ words := by
    intro w
    rw [hwords, List.mem_flatMap, ← hfed]
    constructor
    · intro hw
      obtain ⟨p, hp, rfl⟩ := List.mem_map.1 hw
      exact ⟨p.2, hp⟩
    · rintro ⟨n, hn⟩
      exact List.mem_map.2 ⟨_, hn, rfl⟩
  have hsep : Train.Separated { cfg with specials := specials.map (·.content) } wc := by
    refine ⟨by simp [hp], fun c r e p hp => hlast r c ?_ p.1 ((hmem _).1 (List.mem_map_of_mem hp))⟩
    have e : cfg.suf = some (r ++ [c]) := e
    rw [hsuf] at e
    exact Option.some.inj e
  have hroom' : Train.EnoughRoom { cfg with specials := specials.map (·.content) } (wc.map (·.1)) := by
    intro n hn
    obtain ⟨l, l1, l2, l3⟩ := hroom n hn
    exact ⟨l, l1, l2, fun w hw => l3 w ((hmem w).1 hw)⟩
  obtain ⟨k, st, b', hst, hf, hk⟩ := bpeTrainer_total (cfg := cfg) (order := order) (specials := specials) (b := b)
    (coins := coins) (wc := wc) hsep
  obtain ⟨g1, g2, g3, g4, g5, g6, g7, -, g8⟩ := trained_bpe (cfg := { cfg with specials := specials.map (·.content) }) hp ho hroom'
    hsep hst hf
  simp only [hsuf, Option.getD_some] at g3 g8
  obtain ⟨a1, a2⟩ := addTokens_plain hb g6 (norm := norm) specials fun a ha => normalForm_raw norm (hplain a ha).1
  have hraw : ∀ a ∈ tokensOf [Op.add norm specials], a ∈ specials := fun a ha => by simpa [tokensOf] using ha
  have hclean : Clean (tokensOf [Op.add norm specials]) (after build (bpeView b') empty [.add norm specials]) :=
    after_clean g6 build _ (fun _ h => h) (.inr fun a ha => (hplain a (hraw a ha)).1) (inv_empty _)
      ⟨rfl, by simp [empty, AMap.get], by simp [empty]⟩
  refine ⟨k, b', fun fuel hfuel => ?_, ?_, fun a ha => g7 _ (List.mem_map_of_mem ha), fun w hw => g8 w ?_⟩
  · unfold train
    rw [hwc]
    simp only [hk fuel hfuel, h.added]
    have a1' : (empty.addTokens build (ofBpe b' coins).view norm specials).2.isSome = true := a1
    have a2' : (empty.addTokens build (ofBpe b' coins).view norm specials).1 = _ := a2
    rw [a1', a2']
    rfl
  · refine ⟨⟨h.pipeline.normalizer, h.pipeline.preTok, h.pipeline.unicode, h.pipeline.safe, h.pipeline.sound,
      h.pipeline.anywhere, after_tries g6 (automata_nonempty hb) [.add norm specials] (inv_empty _) (by simp [TriesOk, empty]),
      ?_, fun i a ha => ?_⟩, fun _ => rfl, rfl, g6, g1, g2, g3, by rw [g4, g5]; exact hi, h.decoder⟩
    · exact addTokens_encodeSpecial ..
    · obtain ⟨-, k1, k2, k3, -⟩ := hplain a (hraw a (hclean.token i a ha))
      exact ⟨k1, k2, k3⟩
  · obtain ⟨w1, c, w2, w3, w4, w5⟩ := hw
    refine ⟨fun d hd => ?_, c, w2, w3, (hmem _).2 w4, w5⟩
    obtain ⟨w', k1, k2⟩ := w1 d hd
    exact ⟨w', (hmem _).2 k1, k2⟩

/-- **C93.** A tokenizer like `CharBPETokenizer` is trained on any texts, with whatever size of the vocabulary, minimal frequency
and longest token; the last character of the suffix is neither in it before nor in the words of the texts, and the alphabet is not
cut. Training ends, and then every text, seen or not, without special tokens, whose words are of characters that were seen, the
last one at the end of a word, is encoded without error and decoded to its words, with single spaces between. -/
theorem C93_trained {t : Tokenizer} {u z v y} {r : Str} {c : Char} (h : CharRecipe t u z v y (r ++ [c])) (hr : c ∉ r)
    {build : List (Str × Nat) → Bool} (hb : Save.Automata build) {norm : Norm} {tree : Train.Tree} {cfg : Train.BpeCfg}
    {order : AMap Char Nat → AMap Char Nat} (ho : Train.IsOrder order) (hp : cfg.pre = none) (hsuf : cfg.suf = some (r ++ [c]))
    {specials : List AddedToken} (hplain : ∀ a ∈ specials, PlainToken a) {words : List Str}
    (hwords : words = tree.leaves.flatMap (wordsOf u z v y)) (hroom : Train.EnoughRoom cfg words) (hlast : ∀ w ∈ words, c ∉ w)
    (b : Bpe.Bpe) (hi : b.useDropout = true ∨ b.ignoreMerges = false) (coins : Str → Nat → Bool) :
    ∃ k t', (∀ fuel, k ≤ fuel → t.train build norm tree (bpeTrainer cfg order fuel specials b coins) = (t', .ok ())) ∧
      (∀ a ∈ specials, ∃ i, t'.vocab.get a.content = some i) ∧
      (Surrounds t.settings (IsSpecialId t'.added) → ∀ s : Str, wordsOf u z v y s ≠ [] →
        (∀ w ∈ wordsOf u z v y s, EndSeen words w) →
        (∀ a ∈ specials, ¬ a.content <:+: s ∧ ¬ a.content <:+: z.text u s ∧
          ∀ w ∈ wordsOf u z v y s, ¬ a.content <:+: w ++ (r ++ [c])) →
        ∀ add skip : Bool, (add = true → skip = true) →
        ∃ e, t'.encode (.raw s, none) add = .ok e ∧ t'.decode skip e.ids = some ([' '].intercalate (wordsOf u z v y s))) := by
  obtain ⟨k, b', h1, h2, h3, h4⟩ := train_suffixBpe h hb (norm := norm) ho hp hsuf hplain hwords hroom
    (fun r' c' e w hw => by
      obtain ⟨-, e⟩ := List.append_inj' e rfl
      cases e
      exact hlast w hw) b hi coins
  refine ⟨k, _, h1, h3, fun hset s hne hseen hfree add skip hskip => ?_⟩
  refine C93_text h2 (by simp) (build := build) (ops := [.add norm specials]) rfl (fun a ha => ?_) hset rfl hne
    (fun w hw => ⟨h4 w (hseen w hw), clear_of_last (fun hc => ?_) hr⟩) (fun a ha => ?_) hskip
  · exact (hplain a (by simpa [tokensOf] using ha)).1
  · obtain ⟨w', k1, k2⟩ := (hseen w hw).1 c hc
    exact hlast w' k1 k2
  · exact hfree a (by simpa [tokensOf] using ha)

end Tokenizer
end Tok
