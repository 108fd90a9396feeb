import Verif.Tokenizer.Trained
import Verif.Tokenizer.Streaming
import Verif.Train.BpeExamples
import Verif.Save.Behave

/-!
# Training a BPE tokenizer (C63, C78)

`TokenizerImpl::train` with `BpeTrainer`. The word cache of the model is not modelled here: C78 is about a model that was not
used before it was trained (the cache outlives training, see C19).
-/

namespace Tok
namespace Tokenizer

open AddedVocab ByteLevel

/-- The parts of a BPE model; `coins` are the random choices of dropout. -/
def ofBpe (b : Bpe.Bpe) (coins : Str → Nat → Bool) : NewModel :=
  ⟨fun w => bpeResult (Bpe.tokenize b (coins w) w), bpeView b, b.vocab⟩

/-- `BpeTrainer::train` (`bpe/trainer.rs:634-636`, `455-626`) as a trainer of the model `b`; the loop is given `fuel` rounds. -/
def bpeTrainer (cfg : Train.BpeCfg) (order : AMap Char Nat → AMap Char Nat) (fuel : Nat) (specials : List AddedToken)
    (b : Bpe.Bpe) (coins : Str → Nat → Bool) (wc : AMap Str Nat) : Except EncErr (NewModel × List AddedToken) :=
  match Train.loop { cfg with specials := specials.map (·.content) } (wc.map (·.2)) fuel
      (Train.start { cfg with specials := specials.map (·.content) } order wc) with
  | .stop s =>
    match Train.finish { cfg with specials := specials.map (·.content) } s b with
    | some b' => .ok (ofBpe b' coins, specials)
    | none => .error (.model 1)
  | _ => .error (.model 2)

section
variable {cfg : Train.BpeCfg} {order : AMap Char Nat → AMap Char Nat} {specials : List AddedToken} {b : Bpe.Bpe}
  {coins : Str → Nat → Bool} {wc : AMap Str Nat}

theorem bpeTrainer_ok {fuel : Nat} {m : NewModel} {sp : List AddedToken}
    (h : bpeTrainer cfg order fuel specials b coins wc = .ok (m, sp)) :
    sp = specials ∧ ∃ s b', Train.Trained { cfg with specials := specials.map (·.content) } order wc s ∧
      Train.finish { cfg with specials := specials.map (·.content) } s b = some b' ∧ m = ofBpe b' coins := by
  unfold bpeTrainer at h
  split at h
  · rename_i s hs
    split at h
    · rename_i b' hb'
      cases h
      exact ⟨rfl, s, b', ⟨fuel, Train.loop_stop_mono hs⟩, hb', rfl⟩
    · cases h
  · cases h

/-- Training ends, whatever the words are. -/
theorem bpeTrainer_total (hsep : Train.Separated { cfg with specials := specials.map (·.content) } wc) :
    ∃ k s b', Train.Trained { cfg with specials := specials.map (·.content) } order wc s ∧
      Train.finish { cfg with specials := specials.map (·.content) } s b = some b' ∧
      ∀ fuel, k ≤ fuel → bpeTrainer cfg order fuel specials b coins wc = .ok (ofBpe b' coins, specials) := by
  obtain ⟨s, ⟨k, hk⟩, -⟩ := Train.C41_textbook (order := order) hsep
  obtain ⟨b', hb', -⟩ := Train.C41_built hsep ⟨k, hk⟩ b
  refine ⟨k, s, b', ⟨k, hk⟩, hb', fun fuel hf => ?_⟩
  unfold bpeTrainer
  rw [hk fuel hf]
  simp only [hb']

end

/-- **C63 for BPE.** What is trained is textbook BPE training on the pieces of the sequences, and encoding a training sequence
gives, for every piece, the symbols that training ended with for the piece. -/
theorem C63_bpe {t t' : Tokenizer} {build : List (Str × Nat) → Bool} {norm : Norm} {tree : Train.Tree}
    {cfg : Train.BpeCfg} {order : AMap Char Nat → AMap Char Nat} {fuel : Nat} {specials : List AddedToken} {b : Bpe.Bpe}
    {coins : Str → Nat → Bool}
    (h : t.train build norm tree (bpeTrainer cfg order fuel specials b coins) = (t', .ok ())) (he : t.added = empty)
    (ho : Train.IsOrder order) (hl : ∀ wc, tree.eval t.trainWords = .ok wc → Train.EnoughRoom cfg (wc.map (·.1)))
    (hsep : ∀ wc, tree.eval t.trainWords = .ok wc → Train.Separated { cfg with specials := specials.map (·.content) } wc)
    (hd : b.useDropout = false) (hi : b.ignoreMerges = false)
    (hraw : ∀ x ∈ specials, x.normalized = false) (hno : ∀ x ∈ specials, ∀ s ∈ tree.leaves, ¬ x.content <:+: s) :
    ∃ wc, ∃ st : Train.St, tree.eval t.trainWords = .ok wc ∧
      Train.Greedy { cfg with specials := specials.map (·.content) } (wc.map (·.2))
        (Train.start { cfg with specials := specials.map (·.content) } order wc).voc.id2w
        (Train.start { cfg with specials := specials.map (·.content) } order wc).words st.merges st.voc.id2w st.words ∧
      (∀ c i, t'.vocab.get c = some i ↔ st.voc.id2w[i]? = some c) ∧
      ∀ s ∈ tree.leaves, ∀ typeId ty word,
        ∃ p e, ∃ toks : List (List Token), t.preTokenized s = .ok p ∧ t'.encodeText none typeId ty word s = .ok e ∧
          toks.length = p.splits.length ∧
          (∀ (i : Nat) x ts, p.splits[i]? = some x → toks[i]? = some ts →
            x.tokens = some ts ∨ (x.tokens = none ∧ ∃ (j n : Nat) (syms : List Train.Sym),
              wc[j]? = some (x.normalized.norm, n) ∧ st.words[j]? = some syms ∧ ts.map (·.id) = syms.map (·.1))) ∧
          e.ids = toks.flatten.map (·.id) := by
  obtain ⟨wc, m, sp, hwc, htr, hmod, hvoc⟩ := train_ok h
  obtain ⟨-, st, b', hst, hb', rfl⟩ := bpeTrainer_ok htr
  have hs := hsep wc hwc
  obtain ⟨st', hst', hg⟩ := Train.C41_textbook (order := order) hs
  obtain rfl : st' = st := by
    obtain ⟨k, hk⟩ := hst
    obtain ⟨k', hk'⟩ := hst'
    have e := (hk (max k k') (by omega)).symm.trans (hk' (max k k') (by omega))
    cases e
    rfl
  obtain ⟨b1, g1, -, -, g2, -⟩ := Train.C41_built hs hst b
  rw [hb'] at g1
  cases g1
  refine ⟨wc, st', hwc, hg, by rw [hvoc]; exact g2, fun s hs' typeId ty word => ?_⟩
  refine C63_trained h (Good := fun w ts => ∃ (j n : Nat) (syms : List Train.Sym),
      wc[j]? = some (w, n) ∧ st'.words[j]? = some syms ∧ ts.map (·.id) = syms.map (·.1)) ?_ hs'
    (C63_same_pieces h he fun wc m sp htr x hx => ?_) typeId ty word
  · intro wc1 m1 sp1 hwc1 htr1 v n hv hn
    rw [hwc] at hwc1
    cases hwc1
    rw [htr] at htr1
    cases htr1
    obtain ⟨j, hj⟩ := List.mem_iff_getElem?.1 hv
    obtain ⟨ts, syms, k1, k2, k3⟩ := Train.C41_retokenize hs hst hb' hd hi (coins v) hj
      (fun c hc => Train.C41_all_kept ho wc (by exact hl wc hwc) hv hc)
    exact ⟨ts, by simp only [ofBpe, k1]; rfl, j, n, syms, hj, k2, k3⟩
  · obtain ⟨rfl, -⟩ := bpeTrainer_ok htr
    exact ⟨hraw x hx, hno x hx s hs'⟩

/-! ## C78: a trained byte-level tokenizer -/

/-- A byte-level tokenizer before training: no normalizer, the byte-level pre-tokenizer without prefix space, the byte-level
decoder, nothing added, no truncation or padding, no post-processor or the byte-level one. The model may be any. -/
structure ByteRecipe (t : Tokenizer) (re : Str → List Range) (useRegex : Bool) : Prop where
  normalizer : t.normalizer = some
  preTok : ∀ p, t.preTok p = mapErr (fun _ => .preTok 0) (preTokenize ⟨false, useRegex⟩ re p)
  decoder : t.decoder = some .byteLevel
  added : t.added = empty
  settings : Untouched t.settings

/-- The options of the trainer: neither prefix nor suffix, the 256 characters in the alphabet from the start, and no limit for
the alphabet, or one that leaves room for them when there are no others. -/
structure ByteOptions (cfg : Train.BpeCfg) : Prop where
  pre : cfg.pre = none
  suf : cfg.suf = none
  alphabet : ∀ x : UInt8, byteChar x ∈ cfg.initialAlphabet
  limit : cfg.limitAlphabet = none ∨
    ∃ n, cfg.limitAlphabet = some n ∧ 256 ≤ n ∧ ∀ c ∈ cfg.initialAlphabet, ∃ x : UInt8, c = byteChar x

/-- Cutting a text never fails, and gives spelled pieces. -/
theorem recipe_cuts {t : Tokenizer} {re : Str → List Range} {u : Bool} (h : ByteRecipe t re u)
    (hre : ∀ s, NS.EngineMatches s 0 (re s)) (s : Str) :
    ∃ l, t.trainWords s = .ok l ∧ ∀ w ∈ l, ∃ x, w = spell x := by
  have hm : (⟨fun _ => none, fun _ => none, 0⟩ : ModelView).Ok := ⟨by simp, by simp⟩
  have hneat : ∀ pats, Neat t.cl t.added pats := fun pats =>
    .inl fun p _ x hx => by rw [h.added] at hx; simp [empty, AMap.get] at hx
  obtain ⟨p0, p, e1, e2, e3, e4, e5, e6, e7⟩ := C27_extract_partial (cl := t.cl) (norm := some) (F := fun n => n) hm
    (build := fun l => l.all fun p => p.1 ≠ []) (by
      intro l hl p hp
      simpa using List.all_eq_true.1 hl p hp) [] (av := t.added) h.added (hneat _) (hneat _) s (fun n hn => ⟨rfl, hn⟩)
  have hfree : ∀ x ∈ p.splits, x.tokens = none := by
    intro x hx
    cases hxt : x.tokens with
    | none => rfl
    | some ts =>
      exfalso
      have hno : ∀ pats, FoundBy t.cl t.added pats x → False := by
        rintro pats ⟨id, tk, l, c, r, f1, -⟩
        rw [h.added] at f1
        simp [empty, AMap.get] at f1
      rcases e7 x hx (by rw [hxt]; rfl) with hx' | hx'
      · exact hno _ (e6 x hx' (by rw [hxt]; rfl))
      · exact hno _ hx'
  obtain ⟨p1, p2, q1, q2, q3, q4, q5⟩ := pretokenize_pieces (cfg := ⟨false, u⟩) rfl hre e4
  have hpre : t.preTokenized s = .ok p2 := by
    unfold preTokenized
    rw [h.normalizer, e1]
    show t.preTok p = _
    rw [h.preTok, q1]; rfl
  refine ⟨p2.splits.map (·.normalized.norm), by rw [trainWords, hpre, ← getSplits_texts]; rfl, ?_⟩
  intro w hw
  obtain ⟨x, hx, rfl⟩ := List.mem_map.1 hw
  obtain ⟨i, hi⟩ := List.mem_iff_getElem?.1 hx
  have hlt : i < p1.splits.length := by
    have := (List.getElem?_eq_some_iff.1 hi).1
    omega
  have h1 := List.getElem?_eq_getElem hlt
  have hnone : (p1.splits[i]).tokens = none := by
    cases ht : (p1.splits[i]).tokens with
    | none => rfl
    | some ts =>
      have := hfree _ (q3 _ (List.getElem_mem hlt) (by rw [ht]; rfl))
      rw [ht] at this
      cases this
  exact ⟨_, ((q5 i _ x h1 hi).2 hnone).2⟩

/-- Counting the words never fails; all of them are spelled. -/
theorem recipe_feeds {t : Tokenizer} {re : Str → List Range} {u : Bool} (h : ByteRecipe t re u)
    (hre : ∀ s, NS.EngineMatches s 0 (re s)) (tree : Train.Tree) :
    ∃ wc, tree.eval t.trainWords = .ok wc ∧ ∀ p ∈ wc, ∃ x, p.1 = spell x := by
  obtain ⟨m, h1, h2, h3⟩ := Train.C42_counts t.trainWords (fun s => (t.trainWords s).toOption.getD []) tree tree.leaves
    (.refl _) (by
      intro s _
      obtain ⟨l, hl, -⟩ := recipe_cuts h hre s
      rw [hl]; rfl)
  refine ⟨m, h1, fun p hp => ?_⟩
  have hg := AMap.get_eq_some_of_mem h2 hp
  rw [h3] at hg
  unfold Train.entry at hg
  split at hg
  · cases hg
  rename_i hc
  have hin := List.count_pos_iff.1 (Nat.pos_of_ne_zero hc)
  obtain ⟨s, -, hs⟩ := List.mem_flatMap.1 hin
  obtain ⟨l, hl, hw⟩ := recipe_cuts h hre s
  rw [hl] at hs
  exact hw _ hs

theorem byteChars_bound {l : List Char} (hn : l.Nodup) (h : ∀ c ∈ l, ∃ x : UInt8, c = byteChar x) : l.length ≤ 256 := by
  have key : ∀ n, (∀ x : UInt8, x.toNat < n) → l.length ≤ n := by
    intro n hx
    have := Save.length_le_of_subset (l' := (List.range n).map fun i => byteChar (UInt8.ofNat i)) hn (by
      intro c hc
      obtain ⟨x, e⟩ := h c hc
      exact List.mem_map.2 ⟨x.toNat, List.mem_range.2 (hx x), by rw [e, UInt8.ofNat_toNat]⟩)
    simpa using this
  exact key 256 fun x => x.toNat_lt

/-- The 256 characters are in the vocabulary. -/
theorem bytes_kept {cfg : Train.BpeCfg} (h : ByteOptions cfg) {order : AMap Char Nat → AMap Char Nat} (ho : Train.IsOrder order)
    {wc : AMap Str Nat} (hwc : ∀ p ∈ wc, ∃ x, p.1 = spell x) (x : UInt8) : byteChar x ∈ Train.keptList cfg order wc := by
  obtain ⟨h1, h2, -, h4, h5⟩ := Train.C41_alphabet (cfg := cfg) ho wc
  have hin : Train.InText cfg wc (byteChar x) := .inl (h.alphabet x)
  rcases h.limit with hl | ⟨n, hl, hn, hi⟩
  · exact h4 hl _ hin
  · refine Decidable.byContradiction fun hnot => ?_
    obtain ⟨k1, k2⟩ := h5 n hl
    have hlen : ¬ (Train.keptList cfg order wc).length < n := fun hlt => hnot (k2 hlt _ hin)
    have hnd : (Train.keptList cfg order wc).Nodup := by
      rw [List.nodup_iff_pairwise_ne]
      exact h1.imp fun hlt he => by rw [he] at hlt; exact absurd hlt (Nat.lt_irrefl _)
    have := byteChars_bound (l := byteChar x :: Train.keptList cfg order wc) (List.nodup_cons.2 ⟨hnot, hnd⟩) (by
      intro c hc
      rcases List.mem_cons.1 hc with e | hc
      · exact ⟨x, e⟩
      · rcases h2 c hc with hc' | ⟨p, hp, hc'⟩
        · exact hi c hc'
        · obtain ⟨y, hy⟩ := hwc p hp
          rw [hy] at hc'
          obtain ⟨z, -, rfl⟩ := List.mem_map.1 hc'
          exact ⟨z, rfl⟩)
    simp only [List.length_cons] at this
    omega

theorem firsts_mem {l : List Str} {s : Str} (h : s ∈ l) : s ∈ Train.firsts l := by
  have : ∀ (l : List Str) (v : List Str) (s : Str), s ∈ l ∨ s ∈ v → s ∈ l.foldl (fun v s => if s ∈ v then v else v ++ [s]) v := by
    intro l
    induction l with
    | nil => intro v s h; simpa using h
    | cons t l ih =>
      intro v s h
      refine ih _ s ?_
      rcases h with h | h
      · rcases List.mem_cons.1 h with rfl | h
        · right; simp only; split <;> simp [*]
        · exact .inl h
      · right; simp only; split <;> simp [*]
  exact this _ _ _ (.inl h)

/-- What the trained model is. -/
theorem trained_byteBpe {cfg : Train.BpeCfg} (h : ByteOptions cfg) {order : AMap Char Nat → AMap Char Nat}
    (ho : Train.IsOrder order) {wc : AMap Str Nat} (hwc : ∀ p ∈ wc, ∃ x, p.1 = spell x) {st : Train.St}
    (hst : Train.Trained cfg order wc st) {b b' : Bpe.Bpe} (hf : Train.finish cfg st b = some b') :
    Bpe.Built b' ∧ b'.pre = none ∧ b'.suf = none ∧ (∀ x : UInt8, ∃ i, b'.vocab.get [byteChar x] = some i) ∧
      (∀ s i, b'.vocab.get s = some i → i < b'.vocab.length) ∧ b'.useDropout = b.useDropout ∧
      (∀ x ∈ cfg.specials, ∃ i, b'.vocab.get x = some i) ∧
      b'.vocab.length ≤ max cfg.vocabSize (cfg.specials.length + cfg.initialAlphabet.length) := by
  have hsep : Train.Separated cfg wc := ⟨by simp [h.pre], by simp [h.suf]⟩
  obtain ⟨b1, g1, g2, -, g3, -⟩ := Train.C41_built hsep hst b
  rw [hf] at g1
  cases g1
  obtain ⟨v1, -, -, v4⟩ := Train.C41_vocab hst.reached
  obtain ⟨b2, f1, f2, -, -, -, f3, f4, f5, -⟩ := Train.finish_spec (cfg := cfg) (s := st) (Train.reached_voc hst.reached).voc b
  rw [hf] at f1
  cases f1
  have hlen : st.voc.id2w.length ≤ b'.vocab.length := by
    have := Save.length_le_of_subset (l := st.voc.id2w) (l' := b'.vocab.map (·.1)) v1 (by
      intro w hw
      obtain ⟨i, hi⟩ := List.mem_iff_getElem?.1 hw
      exact List.mem_map.2 ⟨(w, i), AMap.mem_of_get_eq_some ((g3 w i).2 hi), rfl⟩)
    simpa using this
  have hlen' : b'.vocab.length ≤ st.voc.id2w.length := by
    have := Save.length_le_of_subset (l := b'.vocab.map (·.1)) (l' := st.voc.id2w) (show (b'.vocab.map (·.1)).Nodup from f2) (by
      intro w hw
      obtain ⟨p, hp, rfl⟩ := List.mem_map.1 hw
      exact List.mem_of_getElem? ((g3 p.1 p.2).1 (AMap.get_eq_some_of_mem f2 hp)))
    simpa using this
  have hkept : (Train.keptList cfg order wc).length ≤ cfg.initialAlphabet.length := by
    obtain ⟨h1, h2, -⟩ := Train.C41_alphabet (cfg := cfg) ho wc
    refine Save.length_le_of_subset ?_ fun c hc => ?_
    · rw [List.nodup_iff_pairwise_ne]
      exact h1.imp fun hlt he => by rw [he] at hlt; exact absurd hlt (Nat.lt_irrefl _)
    · rcases h2 c hc with hc' | ⟨p, hp, hc'⟩
      · exact hc'
      · obtain ⟨y, hy⟩ := hwc p hp
        rw [hy] at hc'
        obtain ⟨z, -, rfl⟩ := List.mem_map.1 hc'
        exact h.alphabet z
  have hsize := Train.C41_size h.pre h.suf hst.reached
  obtain ⟨st', hst', hg⟩ := Train.C41_textbook (order := order) hsep
  obtain rfl : st' = st := by
    obtain ⟨k, hk⟩ := hst
    obtain ⟨k', hk'⟩ := hst'
    have e := (hk (max k k') (by omega)).symm.trans (hk' (max k k') (by omega))
    cases e
    rfl
  have hin : ∀ x, x ∈ cfg.specials ++ (Train.keptList cfg order wc).map (fun c => [c]) → ∃ i, b'.vocab.get x = some i := by
    intro x hx
    have hm : x ∈ (Train.alphabetVoc cfg order wc).id2w := by
      rw [(Train.C41_first_tokens cfg order wc).1]
      exact firsts_mem hx
    obtain ⟨i, hi⟩ := List.mem_iff_getElem?.1 hm
    exact ⟨i, (g3 _ _).2 (Train.greedy_mono hg i _ ((Train.C41_first_tokens cfg order wc).2 i _ hi))⟩
  refine ⟨g2, by rw [f3, h.pre], by rw [f4, h.suf], fun x => ?_, fun s i hi => ?_, f5, fun x hx => ?_, by omega⟩
  · exact hin _ (List.mem_append_right _ (List.mem_map.2 ⟨_, bytes_kept h ho hwc x, rfl⟩))
  · have := (List.getElem?_eq_some_iff.1 ((g3 s i).1 hi)).1
    omega
  · exact hin _ (List.mem_append_left _ hx)

open Tok.Stream in
/-- What a trained tokenizer is: every text is encoded without error, decoding the ids gives the text, and so does streaming
them. -/
def KeepsTexts (t : Tokenizer) : Prop :=
  ∀ (s : Str) (add : Bool), ∃ e, t.encode (.raw s, none) add = .ok e ∧ t.decode false e.ids = some s ∧
    Streams (t.decode false) e.ids s

theorem addTokens_plain {build : List (Str × Nat) → Bool} (hb : Save.Automata build) {m : ModelView} (hm : m.Ok) {norm : Norm}
    (ts : List AddedToken) (h : ∀ x ∈ ts, normalForm norm x = some none) :
    (empty.addTokens build m norm ts).2.isSome ∧
      (empty.addTokens build m norm ts).1 = after build m empty [.add norm ts] := by
  obtain ⟨av, h1, h2⟩ := Save.loadAdded_plain hb hm (norm := norm) (ts.map fun x => (0, x)) (by
    intro x hx
    obtain ⟨y, hy, rfl⟩ := List.mem_map.1 hx
    exact h y hy)
  have e : (ts.map fun x => ((0 : Nat), x)).map (·.2) = ts := by rw [List.map_map]; exact List.map_id _
  unfold Save.loadAdded at h1
  rw [e] at h1 h2
  split at h1
  · rename_i av' n hadd
    cases h1
    rw [hadd, ← h2]
    exact ⟨rfl, rfl⟩
  · cases h1

/-- A tokenizer with a BPE model and added tokens put in. -/
def withBpe (t : Tokenizer) (b : Bpe.Bpe) (coins : Str → Nat → Bool) (av : AddedVocab) : Tokenizer :=
  { t with model := (ofBpe b coins).model, view := bpeView b, vocab := b.vocab, added := av }

/-- What training a byte-level tokenizer does. -/
theorem train_byteBpe {t : Tokenizer} {re : Str → List Range} {u : Bool} (h : ByteRecipe t re u)
    (hre : ∀ s, NS.EngineMatches s 0 (re s)) {build : List (Str × Nat) → Bool} (hb : Save.Automata build)
    {cfg : Train.BpeCfg} (hcfg : ByteOptions cfg) {order : AMap Char Nat → AMap Char Nat} (ho : Train.IsOrder order)
    (specials : List AddedToken) (b : Bpe.Bpe) (coins : Str → Nat → Bool) (tree : Train.Tree) :
    ∃ k b', (∀ fuel, k ≤ fuel → t.train build none tree (bpeTrainer cfg order fuel specials b coins) =
        (t.withBpe b' coins (after build (bpeView b') empty [.add none specials]), .ok ())) ∧
      IsByteBpe (t.withBpe b' coins (after build (bpeView b') empty [.add none specials])) b' re u coins ∧
      b'.useDropout = b.useDropout ∧ (∀ x ∈ specials, ∃ i, b'.vocab.get x.content = some i) ∧
      b'.vocab.length ≤ max cfg.vocabSize (specials.length + cfg.initialAlphabet.length) := by
  obtain ⟨wc, hwc, hsp⟩ := recipe_feeds h hre tree
  have hcfg' : ByteOptions { cfg with specials := specials.map (·.content) } :=
    ⟨hcfg.pre, hcfg.suf, hcfg.alphabet, hcfg.limit⟩
  obtain ⟨k, st, b', hst, hf, hk⟩ := bpeTrainer_total (cfg := cfg) (order := order) (specials := specials) (b := b)
    (coins := coins) (wc := wc) ⟨by simp [hcfg.pre], by simp [hcfg.suf]⟩
  obtain ⟨g1, g2, g3, g4, g5, g6, g7, g8⟩ := trained_byteBpe hcfg' ho hsp hst hf
  have hm : (bpeView b').Ok := ⟨g5, fun c i => Bpe.C46_bpe_vocab_inverse g1 c i⟩
  obtain ⟨a1, a2⟩ := addTokens_plain hb hm (norm := none) specials fun x _ => normalForm_none x
  refine ⟨k, b', fun fuel hfuel => ?_, ?_, g6, fun x hx => g7 _ (List.mem_map_of_mem hx), by simpa using g8⟩
  · unfold train
    rw [hwc]
    simp only [hk fuel hfuel, h.added]
    have a1' : (empty.addTokens build (ofBpe b' coins).view none specials).2.isSome = true := a1
    have a2' : (empty.addTokens build (ofBpe b' coins).view none specials).1 = _ := a2
    rw [a1', a2']
    rfl
  · exact ⟨h.normalizer, h.preTok, fun w => rfl, rfl, h.decoder, g1, ⟨g2, g3⟩, g4, g5⟩

theorem automata_nonempty {build : List (Str × Nat) → Bool} (hb : Save.Automata build) :
    ∀ l, build l = true → ∀ p ∈ l, p.1 ≠ [] := by
  intro l hl p hp
  have hne : l ≠ [] := by rintro rfl; cases hp
  exact ((hb l hne).1 hl).2 p hp

/-- **C78.** Training a byte-level BPE tokenizer, on whatever texts, with whatever size of the vocabulary, minimal frequency and
longest token, however the runtime groups the texts: it succeeds, and the tokenizer then loses nothing, of any text. The special
tokens may be any that do not strip spaces and that the decoder takes for themselves; each of them has an id. -/
theorem C78_trained {t : Tokenizer} {re : Str → List Range} {u : Bool} (h : ByteRecipe t re u)
    (hre : ∀ s, NS.EngineMatches s 0 (re s)) {build : List (Str × Nat) → Bool} (hb : Save.Automata build)
    {cfg : Train.BpeCfg} (hcfg : ByteOptions cfg) {order : AMap Char Nat → AMap Char Nat} (ho : Train.IsOrder order)
    {specials : List AddedToken} (hstrip : ∀ x ∈ specials, x.lstrip = false ∧ x.rstrip = false)
    (hlit : ∀ x ∈ specials, Literal x.content) (b : Bpe.Bpe) (coins : Str → Nat → Bool) (tree : Train.Tree) :
    ∃ k t', (∀ fuel, k ≤ fuel → t.train build none tree (bpeTrainer cfg order fuel specials b coins) = (t', .ok ())) ∧
      KeepsTexts t' ∧ ∀ x ∈ specials, ∃ i, t'.vocab.get x.content = some i := by
  obtain ⟨k, b', h1, h2, -, h3, -⟩ := train_byteBpe h hre hb hcfg ho specials b coins tree
  refine ⟨k, _, h1, fun s add => ?_, h3⟩
  obtain ⟨e, g1, g2⟩ := C44_lossless h2 hre (automata_nonempty hb) rfl rfl (by simpa [tokensOf] using hstrip)
    (by simpa [tokensOf] using hlit) h.settings s add
  exact ⟨e, g1, g2, Stream.C77_decoded (by rw [h2.decoder]; exact .inr (.inl rfl)) g2⟩

end Tokenizer

namespace Save
open AddedVocab Tokenizer

theorem automata_perm {build : List (Str × Nat) → Bool} (hb : Automata build) (l l' : List (Str × Nat)) (h : l.Perm l') :
    build l = build l' := by
  by_cases hl : l = []
  · subst hl
    rw [List.nil_perm.1 h]
  · have hl' : l' ≠ [] := by
      rintro rfl
      exact hl (List.perm_nil.1 h)
    rw [Bool.eq_iff_iff, hb l hl, hb l' hl', (h.map _).nodup_iff]
    exact ⟨fun g => ⟨g.1, fun p hp => g.2 p (h.mem_iff.2 hp)⟩, fun g => ⟨g.1, fun p hp => g.2 p (h.mem_iff.1 hp)⟩⟩

theorem automata_nodup {build : List (Str × Nat) → Bool} (hb : Automata build) (l : List (Str × Nat)) (h : build l = true) :
    (l.map (·.1)).Nodup := by
  by_cases hl : l = []
  · subst hl; exact List.nodup_nil
  · exact ((hb l hl).1 h).1

/-- **C78.** A byte-level BPE tokenizer (settings of GPT-2, any BPE model) is trained on whatever texts; the result is saved;
what is saved is loaded; the tokenizer that is loaded encodes and decodes as the one that was trained, and loses nothing, of any
text. -/
theorem C78_saved (w : World) (hre : ∀ s, NS.EngineMatches s 0 (w.byteLevel s)) (e : Env) (skip : Bool)
    {build : List (Str × Nat) → Bool} (hb : Automata build) {cfg : Train.BpeCfg} (hcfg : ByteOptions cfg)
    {order : AMap Char Nat → AMap Char Nat} (ho : Train.IsOrder order) {specials : List AddedToken}
    (hsize : cfg.vocabSize ≤ 4294967296) (hsize' : specials.length + cfg.initialAlphabet.length ≤ 4294967296)
    (hstrip : ∀ x ∈ specials, x.lstrip = false ∧ x.rstrip = false) (hlit : ∀ x ∈ specials, ByteLevel.Literal x.content)
    (hdup : specials.Pairwise NotUndone) {b : Bpe.Bpe} (hd : b.useDropout = false) (tree : Train.Tree) :
    ∃ k c j c', (∀ fuel, k ≤ fuel → (w.tokenizer (gpt2Conf empty b)).train build none tree
          (bpeTrainer cfg order fuel specials b w.coins) = (w.tokenizer c, .ok ())) ∧
      save c = some j ∧ load e skip build w.norm j = .ok c' ∧
      Alike (w.tokenizer c) (w.tokenizer c') ∧ KeepsTexts (w.tokenizer c') := by
  have hrec : ByteRecipe (w.tokenizer (gpt2Conf empty b)) w.byteLevel true :=
    ⟨rfl, fun _ => rfl, rfl, rfl, rfl, rfl, .inr ⟨true, false, rfl⟩⟩
  obtain ⟨k, b', h1, h2, h3, h4, h5⟩ := train_byteBpe hrec hre hb hcfg ho specials b w.coins tree
  have hm : (bpeView b').Ok := byteView_ok h2
  have hav := addTokens_plain hb hm (norm := none) specials fun x _ => normalForm_none x
  have hinv := (after_inv hm build [.add none specials] (inv_empty _)).1
  have hclean : Clean (tokensOf [.add none specials]) (after build (bpeView b') empty [.add none specials]) :=
    after_clean hm build _ (fun _ h => h) (.inl rfl) (inv_empty _) ⟨rfl, by simp [empty, AMap.get], by simp [empty]⟩
  have hids : ∀ s i, b'.vocab.get s = some i → i < 4294967296 := fun s i hi => by
    have := h2.ids s i hi
    omega
  have hfits : (gpt2Conf (after build (bpeView b') empty [.add none specials]) b').Fits e := by
    refine ⟨nofun, nofun, fun i t ht => ?_, nofun, ?_, ?_, ?_,
      .bpe h2.built hids rfl (by rw [h3, hd]; rfl)⟩
    · have hin : t ∈ specials := by simpa [tokensOf] using hclean.token i t ht
      obtain ⟨j, hj⟩ := h4 t hin
      have hg := (hinv.inverse t.content i).2 ⟨t, ht, rfl⟩
      rcases hinv.model _ _ hg with hg' | ⟨hg', -⟩
      · exact hids _ _ hg'
      · have : b'.vocab.get t.content = none := hg'
        rw [hj] at this
        cases this
    · intro n hn; cases hn; simp [PreCfg.Fits]
    · intro n hn; cases hn; simp [ProcCfg.Fits]
    · intro n hn; cases hn; simp [DecCfg.Fits]
  have hhist : History build (bpeView b') (after build (bpeView b') empty [.add none specials]) none := by
    cases hr : empty.addTokens build (bpeView b') none specials with
    | mk av o =>
      rw [hr] at hav
      cases o with
      | none => simp at hav
      | some n =>
        rw [← hav.2]
        exact .add (.new none) hr (fun t _ i t' h => by simp [empty, AMap.get] at h) hdup
  obtain ⟨j, c', g1, g2, g3⟩ := C66_alike_partial w skip (automata_perm hb) (automata_nodup hb) hfits hm hhist (by
    intro p hp; cases hp; simp [ProcCfg.Counted])
  refine ⟨k, gpt2Conf (after build (bpeView b') empty [.add none specials]) b', j, c', h1, g1, g2, g3, fun s add => ?_⟩
  obtain ⟨enc, k1, k2⟩ := C44_lossless h2 hre (automata_nonempty hb) rfl rfl (by simpa [tokensOf] using hstrip)
    (by simpa [tokensOf] using hlit) hrec.settings s add
  have hdec : (w.tokenizer c').decode false = (w.tokenizer (gpt2Conf _ b')).decode false := funext fun ids => g3.decode false ids
  refine ⟨enc, ?_, ?_, ?_⟩
  · exact (g3.encode .byte _ add).trans k1
  · rw [hdec]; exact k2
  · rw [hdec]
    exact Stream.C77_decoded (t := w.tokenizer (gpt2Conf _ b')) (.inr (.inl rfl)) k2

end Save
end Tok
