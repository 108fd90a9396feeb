import Verif.Tokenizer.Vocab
import Verif.Tokenizer.Early
import Verif.Bpe.Tokenize
import Verif.Codec.ByteLevel

/-!
# C44: byte-level BPE loses nothing

`encode` followed by `decode` gives the text back, whatever the text, the regular expression, the merges, the dropout
and the added tokens.
-/

namespace Tok
namespace AddedVocab

/-! ## Added vocabularies without normalizer -/

/-- What holds after a history of additions without normalizer: nothing is cached, every token comes from the
history, every pattern is the content of its token. -/
structure Clean (T : List AddedToken) (av : AddedVocab) : Prop where
  cache : av.cache = []
  token : ∀ i t, av.rmap.get i = some t → t ∈ T
  pattern : ∀ c i, (c, i) ∈ av.trie ++ av.normTrie → ∃ t, av.rmap.get i = some t ∧ t.content = c

theorem normalForm_none (t : AddedToken) : normalForm none t = some none := by
  unfold normalForm; split <;> rfl

theorem normalForm_raw (norm : Norm) {t : AddedToken} (h : t.normalized = false) : normalForm norm t = some none := by
  unfold normalForm; rw [h]; rfl

theorem addLoop_clean {m : ModelView} (hm : m.Ok) {T : List AddedToken} {norm : Norm}
    (hq : ∀ t ∈ T, normalForm norm t = some none) : ∀ (ts : List AddedToken)
    {av : AddedVocab} {next : Nat} (ign : Nat), (∀ t ∈ ts, t ∈ T) → Inv m av → Fresh m av next → Clean T av →
    Clean T (addLoop m norm ts av next ign).1
  | [], _, _, _, _, _, _, h => h
  | t :: ts, av, next, ign, hT, hi, hf, h => by
    have hT' : ∀ t ∈ ts, t ∈ T := fun u hu => hT u (by simp [hu])
    rw [addLoop]
    split
    · exact addLoop_clean hm hq ts _ hT' hi hf h
    · rename_i hc
      split
      · exact addLoop_clean hm hq ts _ hT' hi hf h
      · simp only [hq t (hT t (by simp))]
        obtain ⟨h1, h2, _⟩ := store_inv hm hi hf hc none
        refine addLoop_clean hm hq ts ign hT' h1 h2 ⟨h.cache, ?_, ?_⟩
        · intro i u hu
          simp only [store] at hu
          rw [AMap.get_insert] at hu
          split at hu
          · cases hu; exact hT _ List.mem_cons_self
          · exact h.token i u hu
        · intro c i hci
          obtain ⟨u, g1, g2⟩ := h.pattern c i hci
          simp only [store]
          rw [AMap.get_insert]
          split
          · rename_i e
            exact ⟨t, rfl, by rw [← g2]; exact (id_old hm hi hf t (by rw [e]; exact g1)).symm⟩
          · exact ⟨u, g1, g2⟩

theorem refresh_clean {build : List (Str × Nat) → Bool} {T : List AddedToken} {av : AddedVocab} (hwf : av.rmap.WF)
    (h : Clean T av) : Clean T (av.refresh build).1 := by
  have key : ∀ f : Nat × AddedToken → Bool, ∀ c i, (c, i) ∈ (av.rmap.filter f).map (fun p => (p.2.content, p.1)) →
      ∃ t, av.rmap.get i = some t ∧ t.content = c := by
    intro f c i hp
    obtain ⟨q, hq, e⟩ := List.mem_map.1 hp
    cases e
    exact ⟨q.2, AMap.get_eq_some_of_mem hwf (List.mem_filter.1 hq).1, rfl⟩
  have k1 := key (fun p => !p.2.normalized)
  have k2 := key (fun p => p.2.normalized)
  have e : ((av.rmap.filter fun p => p.2.normalized).map fun p => ((av.cache.get p.1).getD p.2.content, p.1))
      = (av.rmap.filter fun p => p.2.normalized).map fun p => (p.2.content, p.1) := by
    rw [h.cache]; rfl
  unfold refresh
  simp only [e]
  split
  · split
    · refine ⟨h.cache, h.token, fun c i hci => ?_⟩
      rcases List.mem_append.1 hci with hci | hci
      · exact k1 c i hci
      · exact k2 c i hci
    · refine ⟨h.cache, h.token, fun c i hci => ?_⟩
      rcases List.mem_append.1 hci with hci | hci
      · exact k1 c i hci
      · exact h.pattern c i (List.mem_append_right _ hci)
  · exact h

theorem recache_none {norm : Norm} : ∀ (l : List (Nat × AddedToken)) (c : AMap Nat Str),
    (∀ x ∈ l, normalForm norm x.2 = some none) → recache norm l c = (c, true)
  | [], _, _ => rfl
  | (i, t) :: l, c, h => by
    rw [recache, h (i, t) (by simp)]
    exact recache_none l c fun x hx => h x (by simp [hx])

/-- No normalizer is used, or none of the tokens is to be normalized. -/
theorem after_clean {m : ModelView} (hm : m.Ok) (build : List (Str × Nat) → Bool) {T : List AddedToken} :
    ∀ (ops : List Op) {av : AddedVocab}, (∀ t ∈ tokensOf ops, t ∈ T) →
      (normsOf ops = [] ∨ ∀ t ∈ T, t.normalized = false) → Inv m av → Clean T av → Clean T (after build m av ops)
  | [], _, _, _, _, h => h
  | op :: ops, av, hT, hN, hi, h => by
    show Clean T (after build m (apply build m av op) ops)
    have hi' := (apply_inv hm build hi op).1
    cases op with
    | add norm ts =>
      have hq : ∀ t ∈ T, normalForm norm t = some none := by
        intro t ht
        rcases hN with hN | hN
        · cases norm with
          | some f => simp [normsOf] at hN
          | none => exact normalForm_none t
        · exact normalForm_raw norm (hN t ht)
      have hN' : normsOf ops = [] ∨ ∀ t ∈ T, t.normalized = false := by
        rcases hN with hN | hN
        · left; cases norm <;> simp_all [normsOf]
        · exact .inr hN
      refine after_clean hm build ops (fun t ht => hT t (by simp [tokensOf, ht])) hN' hi' ?_
      show Clean T (av.addTokens build m norm ts).1
      have h1 := addLoop_clean hm hq ts 0 (fun t ht => hT t (by simp [tokensOf, ht])) hi nextId_fresh h
      have h2 := (addLoop_inv hm norm ts 0 hi nextId_fresh).1
      unfold addTokens
      cases hl : addLoop m norm ts av (av.nextId m) 0 with
      | mk r ign =>
        rw [hl] at h1 h2
        cases ign with
        | none => exact h1
        | some ign => exact refresh_clean h2.wfr h1
    | renormalize norm =>
      have hq : ∀ x ∈ av.rmap, normalForm norm x.2 = some none := by
        intro x hx
        rcases hN with hN | hN
        · cases norm with
          | some f => simp [normsOf] at hN
          | none => exact normalForm_none _
        · exact normalForm_raw norm (hN _ (h.token x.1 x.2 (AMap.get_eq_some_of_mem hi.wfr hx)))
      have hN' : normsOf ops = [] ∨ ∀ t ∈ T, t.normalized = false := by
        rcases hN with hN | hN
        · left; cases norm <;> simp_all [normsOf]
        · exact .inr hN
      refine after_clean hm build ops hT hN' hi' ?_
      show Clean T (av.refreshNormalized build norm).1
      unfold refreshNormalized
      simp only [recache_none _ _ hq, if_true]
      exact refresh_clean (build := build) (av := { av with cache := [] }) hi.wfr ⟨rfl, h.token, h.pattern⟩
    | setEncodeSpecial b =>
      have hN' : normsOf ops = [] ∨ ∀ t ∈ T, t.normalized = false := by
        rcases hN with hN | hN
        · left; simpa [normsOf] using hN
        · exact .inr hN
      exact after_clean hm build ops hT hN' hi' ⟨h.cache, h.token, h.pattern⟩

end AddedVocab

namespace ByteLevel

/-! ## Bytes of tokens -/

/-- The bytes the decoder takes a token for. -/
def tokBytes (t : Str) : List UInt8 := (t.mapM charByte).getD (strBytes t)

/-- A text the decoder takes for itself: ASCII, or with a character that stands for no byte. -/
def Literal (t : Str) : Prop := (∀ c ∈ t, c.toNat < 128) ∨ ∃ c ∈ t, ∀ b, byteChar b ≠ c

theorem charByte_eq_none {c : Char} (h : ∀ b, byteChar b ≠ c) : charByte c = none := by
  cases hc : charByte c with
  | none => rfl
  | some b => exact absurd (C29_inverse' hc) (h b)

theorem mapM_none {t : Str} (h : ∃ c ∈ t, charByte c = none) : t.mapM charByte = none := by
  obtain ⟨c, hc, hn⟩ := h
  induction t with
  | nil => simp at hc
  | cons d t ih =>
    rw [List.mapM_cons]
    rcases List.mem_cons.1 hc with rfl | hc
    · simp [hn]
    · cases charByte d with
      | none => rfl
      | some b => simp [ih hc]

theorem ascii_byte {c : Char} (hc : c.toNat < 128) {b : UInt8} (h : charByte c = some b) :
    String.utf8EncodeChar c = [b] := by
  have e := C29_inverse' h
  have ha := C29_alphabet b
  rw [e] at ha
  split at ha
  · have hb : c.toNat.toUInt8 = b := by rw [ha]; simp
    have hv : c.val.toNat ≤ 127 := by
      have : c.toNat = c.val.toNat := rfl
      omega
    rw [String.utf8EncodeChar, if_pos hv]
    show [c.toNat.toUInt8] = [b]
    rw [hb]
  · omega

theorem tokBytes_ascii : ∀ {t : Str}, (∀ c ∈ t, c.toNat < 128) → tokBytes t = strBytes t := by
  have key : ∀ (t : Str) (bs : List UInt8), (∀ c ∈ t, c.toNat < 128) → t.mapM charByte = some bs → bs = strBytes t := by
    intro t
    induction t with
    | nil => intro bs _ h; cases h; rfl
    | cons c t ih =>
      intro bs hc h
      rw [List.mapM_cons] at h
      cases h1 : charByte c with
      | none => rw [h1] at h; cases h
      | some b =>
        rw [h1] at h
        cases h2 : t.mapM charByte with
        | none => rw [h2] at h; cases h
        | some bs' =>
          rw [h2] at h; cases h
          have := ih bs' (fun d hd => hc d (by simp [hd])) h2
          rw [this]
          show b :: strBytes t = String.utf8EncodeChar c ++ strBytes t
          rw [ascii_byte (hc c (by simp)) h1]; rfl
  intro t h
  unfold tokBytes
  cases ht : t.mapM charByte with
  | none => rfl
  | some bs => exact key t bs h ht

theorem tokBytes_literal {t : Str} (h : Literal t) : tokBytes t = strBytes t := by
  rcases h with h | ⟨c, hc, hb⟩
  · exact tokBytes_ascii h
  · unfold tokBytes
    rw [mapM_none ⟨c, hc, charByte_eq_none hb⟩]; rfl

theorem tokBytes_pieces {toks : List Str} {s : Str} (h : toks.flatten = spell s) :
    toks.flatMap tokBytes = strBytes s := by
  obtain ⟨bss, rfl, h2⟩ := pieces_bytes toks _ h
  rw [List.flatMap_map, List.flatMap_def, ← h2]
  congr 1
  conv => rhs; rw [← List.map_id bss]
  apply List.map_congr_left
  intro t _
  unfold tokBytes
  rw [mapM_charByte]; rfl

/-- The pre-tokenizer without prefix space, piece by piece: first the text is cut (`p1`), then every piece to be
tokenized is spelled. -/
theorem pretokenize_pieces {cfg : Config} (haps : cfg.addPrefixSpace = false) {re : Str → List Range}
    (hre : ∀ s, NS.EngineMatches s 0 (re s)) {p : PTS} (hp : p.Good) :
    ∃ p1 p2 : PTS, preTokenize cfg re p = .ok p2 ∧ p1.text = p.text ∧
      (∀ x ∈ p1.splits, x.tokens.isSome → x ∈ p.splits) ∧
      p2.splits.length = p1.splits.length ∧
      ∀ (i : Nat) (s s' : Split), p1.splits[i]? = some s → p2.splits[i]? = some s' →
        (s.tokens.isSome → s' = s) ∧
        (s.tokens = none → s'.tokens = none ∧ s'.normalized.norm = spell s.normalized.norm) := by
  obtain ⟨p1, outs, h1, h2, h3, h4, h5⟩ := PTS.split_total (p := p) (f := splitFn cfg re)
    (P := fun n o => o.flatMap (·.normalized.norm) = withSpace cfg.addPrefixSpace n.norm ∧
      ∀ x ∈ o, x.tokens = none ∧ (x.normalized.norm ≠ [] → x.normalized.Good p.original))
    (fun s hs hn i => splitFn_good cfg hre (hp s hs hn) i)
  obtain ⟨q, k1, k2, k3, k4, _⟩ := PTS.split_good hp (f := splitFn cfg re)
    (fun n => withSpace cfg.addPrefixSpace n.norm) (fun n i hn => splitFn_good cfg hre hn i)
  rw [h1] at k1; cases k1
  obtain ⟨p2, g1, g2, g3, g4, g5⟩ := PTS.normalize_good k3 (f := normalizeFn) (fun n => spell n.norm)
    (fun n hn => normalizeFn_good hn)
  obtain ⟨_, l1, l2⟩ := (PTS.C13_normalize p1 p2 normalizeFn).1 g1
  refine ⟨p1, p2, by unfold preTokenize; rw [h1]; exact g1, ?_, ?_, l1, ?_⟩
  · rw [k4, haps]
    have : (fun n : NS => withSpace false n.norm) = (·.norm) := by funext n; simp [withSpace]
    rw [this, PTS.mapText_norm]
  · intro x hx hs
    rw [h4, List.mem_flatten] at hx
    obtain ⟨out, ho, hx⟩ := hx
    obtain ⟨i, hi⟩ := List.mem_iff_getElem?.1 ho
    have hlt : i < p.splits.length := by rw [← h3]; exact (List.getElem?_eq_some_iff.1 hi).1
    have hs' : p.splits[i]? = some p.splits[i] := List.getElem?_eq_getElem hlt
    obtain ⟨g1, g2⟩ := h5 i _ out hs' hi
    cases ht : p.splits[i].tokens with
    | some ts =>
      rw [g1 (by rw [ht]; rfl)] at hx
      simp only [List.mem_singleton] at hx
      rw [hx]; exact List.getElem_mem _
    | none =>
      obtain ⟨o, ⟨_, g4⟩, rfl⟩ := g2 ht
      obtain ⟨hx1, _⟩ := List.mem_filter.1 hx
      rw [(g4 x hx1).1] at hs; cases hs
  · intro i s s' hs hs'
    obtain ⟨m1, m2⟩ := l2 i s s' hs hs'
    refine ⟨m1, fun hn => ⟨(m2 hn).1, ?_⟩⟩
    obtain ⟨m, e1, e2, _⟩ := normalizeFn_good (k3 s (List.mem_of_getElem? hs) hn)
    rw [(m2 hn).2] at e1; cases e1
    exact e2

end ByteLevel

namespace Tokenizer
open ByteLevel AddedVocab

/-- An outcome as the result of `Model::tokenize`. -/
def bpeResult : Outcome Bpe.TokErr (List Token) → Except EncErr (List Token)
  | .ok ts => .ok ts
  | .err _ => .error (.model 1)
  | .panic => .error (.model 2)

/-- A byte-level BPE tokenizer: no normalizer, the byte-level pre-tokenizer without prefix space, a BPE model that
knows the 256 characters, its vocabulary, the byte-level decoder. The tokens dropped by dropout may be any. -/
structure IsByteBpe (t : Tokenizer) (b : Bpe.Bpe) (re : Str → List Range) (useRegex : Bool)
    (coins : Str → Nat → Bool) : Prop where
  normalizer : t.normalizer = some
  preTok : ∀ p, t.preTok p = mapErr (fun _ => .preTok 0) (preTokenize ⟨false, useRegex⟩ re p)
  model : ∀ w, t.model w = bpeResult (Bpe.tokenize b (coins w) w)
  view : t.view = bpeView b
  decoder : t.decoder = some .byteLevel
  built : Bpe.Built b
  affixes : b.pre = none ∧ b.suf = none
  alphabet : ∀ x : UInt8, ∃ i, b.vocab.get [byteChar x] = some i
  ids : ∀ s i, b.vocab.get s = some i → i < b.vocab.length

/-- The settings that leave the ids alone: no truncation, no padding, no post-processor or the byte-level one. -/
def Untouched (s : Post.Settings) : Prop :=
  s.truncation = none ∧ s.padding = none ∧
    (s.processor = none ∨ ∃ aps trim, s.processor = some (.byteLevel aps trim))

theorem setSequenceId_ids (e : Encoding) (q : Nat) : (e.setSequenceId q).ids = e.ids := by cases e; rfl

theorem processOffsets_ids (ws : Char → Bool) (aps : Bool) (e : Encoding) :
    (processOffsets ws aps e).ids = e.ids := by cases e; rfl

theorem withOverflowing_ids (f : List Encoding → List Encoding) (e : Encoding) :
    (withOverflowing f e).ids = e.ids := by cases e; rfl

theorem prepare_ids (i : Nat) (e : Encoding) : (Post.prepare i e).ids = e.ids := by cases e; rfl

theorem merge_one_ids (e : Encoding) : (Encoding.merge [e] false).ids = e.ids := by
  show (Encoding.mergeWith .empty e false).ids = e.ids
  rw [Encoding.mergeWith]; rfl

theorem untouched_ids {s : Post.Settings} (h : Untouched s) (ws : Char → Bool) (checked add : Bool) (e : Encoding) :
    ∃ out, s.postProcess ws checked e none add = .ok out ∧ out.ids = e.ids := by
  obtain ⟨h1, h2, h3⟩ := h
  unfold Post.Settings.postProcess Post.Settings.truncate Post.Settings.finish Post.Settings.padOne
  rw [h1, h2]
  rcases h3 with h3 | ⟨aps, trim, h3⟩
  · rw [h3]; exact ⟨e, rfl, rfl⟩
  · rw [h3]
    refine ⟨_, rfl, ?_⟩
    simp only [ByteLevel.processEncodings]
    cases trim
    · simp [merge_one_ids, setSequenceId_ids, prepare_ids]
    · simp [merge_one_ids, setSequenceId_ids, prepare_ids, withOverflowing_ids, processOffsets_ids]

theorem initSyms_known {b : Bpe.Bpe} (hpre : b.pre = none) (hsuf : b.suf = none) {w : Str}
    (hk : ∀ c ∈ w, ∃ i, b.vocab.get [c] = some i) :
    Bpe.initSyms b w = some (w.map (fun c => ((b.vocab.get [c]).getD 0, c.utf8Size))) := by
  have hcs : ∀ f l c, Bpe.charSym b f l c = [c] := by
    intro f l c; simp [Bpe.charSym, hpre, hsuf]
  have hinit : ∀ (w : Str) (first : Bool) (o : List (Nat × Nat)), (∀ c ∈ w, ∃ i, b.vocab.get [c] = some i) →
      Bpe.initLoop b first w (o, none) =
        some (o ++ w.map (fun c => ((b.vocab.get [c]).getD 0, c.utf8Size)), none) := by
    intro w
    induction w with
    | nil => intro _ o _; simp [Bpe.initLoop]
    | cons c cs ih =>
      intro first o hk
      obtain ⟨i, hi⟩ := hk c List.mem_cons_self
      simp only [Bpe.initLoop, Bpe.stepChar, hcs, hi, Bpe.flushUnk]
      rw [ih _ _ (fun c hc => hk c (List.mem_cons_of_mem _ hc))]
      simp [hi]
  unfold Bpe.initSyms; rw [hinit w true [] hk]; simp [Bpe.flushUnk]

theorem byteView_ok {t : Tokenizer} {b re u coins} (h : IsByteBpe t b re u coins) : (bpeView b).Ok :=
  ⟨h.ids, fun c i => Bpe.C46_bpe_vocab_inverse h.built c i⟩

/-- A token of the model shows its own text, also if it has been added. -/
theorem shows_model {m : ModelView} (hm : m.Ok) {av : AddedVocab} {T : List AddedToken} (hi : Inv m av)
    (hc : Clean T av) {i : Nat} {c : Str} (h : m.toId c = some i) : Shows m av i c := by
  have h1 := (hm.inv c i).1 h
  cases hr : av.rmap.get i with
  | none => exact .model hr h1
  | some t =>
    have : t.content = c := by
      rcases hi.model _ _ ((hi.inverse t.content i).2 ⟨t, hr, rfl⟩) with k | ⟨_, k⟩
      · have := (hm.inv _ _).1 k
        rw [h1] at this; exact (Option.some.inj this).symm
      · have := hm.lt _ _ h; omega
    rw [← this]
    exact .plain hr (by rw [hc.cache]; rfl)

theorem decodeTokens_shows {m : ModelView} {av : AddedVocab} : ∀ (l : List Token),
    (∀ x ∈ l, Shows m av x.id x.value) → decodeTokens m av false (l.map (·.id)) = l.map (·.value)
  | [], _ => rfl
  | x :: l, h => by
    have ih := decodeTokens_shows l fun y hy => h y (by simp [hy])
    unfold decodeTokens at ih ⊢
    rw [List.map_cons, List.filterMap_cons, shows_iff.1 (h x (by simp)), ih]; rfl

theorem flatMap_of_get' {α β : Type} {G T : α → List β} : ∀ (ss r : List α), r.length = ss.length →
    (∀ (i : Nat) s s', ss[i]? = some s → r[i]? = some s' → G s' = T s) → r.flatMap G = ss.flatMap T
  | [], [], _, _ => rfl
  | [], _ :: _, h, _ => by simp at h
  | _ :: _, [], h, _ => by simp at h
  | s :: ss, o :: r, hl, h => by
    rw [List.flatMap_cons, List.flatMap_cons, h 0 s o rfl rfl, flatMap_of_get' ss r (by simpa using hl)]
    intro i t t' ht ho
    exact h (i + 1) t t' (by simpa using ht) (by simpa using ho)

/-- **C44.** Byte-level BPE is lossless: every text is encoded without error, and decoding the ids gives exactly the
text back. The added tokens may be any that do not strip spaces and that the decoder takes for themselves. -/
theorem C44_lossless {t : Tokenizer} {b : Bpe.Bpe} {re : Str → List Range} {u : Bool} {coins : Str → Nat → Bool}
    (h : IsByteBpe t b re u coins) (hre : ∀ s, NS.EngineMatches s 0 (re s))
    {build : List (Str × Nat) → Bool} (hb : ∀ l, build l = true → ∀ p ∈ l, p.1 ≠ []) {ops : List Op}
    (hav : t.added = after build (bpeView b) empty ops) (hnorm : normsOf ops = [])
    (hstrip : ∀ x ∈ tokensOf ops, x.lstrip = false ∧ x.rstrip = false)
    (hlit : ∀ x ∈ tokensOf ops, Literal x.content)
    (hs : Untouched t.settings) (s : Str) (add : Bool) :
    ∃ e, t.encode (.raw s, none) add = .ok e ∧ t.decode false e.ids = some s := by
  have hm := byteView_ok h
  have hinv : Inv (bpeView b) t.added := hav ▸ (after_inv hm build ops (inv_empty _)).1
  have hclean : Clean (tokensOf ops) t.added := by
    rw [hav]
    exact after_clean hm build ops (fun _ h => h) (.inl hnorm) (inv_empty _)
      ⟨rfl, by simp [empty, AMap.get], by simp [empty]⟩
  have hneat : ∀ pats, Neat t.cl t.added pats := fun pats =>
    .inl fun p _ x hx => (hstrip x (hclean.token _ _ hx)).2
  -- extraction
  obtain ⟨p0, p, e1, e2, e3, e4, e5, e6, e7⟩ := C27_extract_partial (cl := t.cl) (norm := some) (F := fun n => n) hm hb
    ops hav (hneat _) (hneat _) s (fun n hn => ⟨rfl, hn⟩)
  have htext : p.text = s := by rw [e5, PTS.mapText_norm, e2]
  have hfound : ∀ x ∈ p.splits, x.tokens.isSome → ∃ tok : Token, x.tokens = some [tok] ∧
      tok.value = x.normalized.norm ∧ Shows (bpeView b) t.added tok.id tok.value ∧
      tokBytes tok.value = strBytes x.normalized.norm := by
    intro x hx hxs
    have : ∃ pats, (∀ q ∈ pats, q ∈ t.added.trie ++ t.added.normTrie) ∧ FoundBy t.cl t.added pats x := by
      rcases e7 x hx hxs with hx' | hx'
      · exact ⟨_, fun q hq => List.mem_append_left _ hq, e6 x hx' hxs⟩
      · exact ⟨_, fun q hq => List.mem_append_right _ hq, hx'⟩
    obtain ⟨pats, hp, id, tk, l, c, r, f1, f2, f3, _, _, f4, f5, f6⟩ := this
    obtain ⟨tk', g1, g2⟩ := hclean.pattern c id (hp _ f2)
    rw [f1] at g1; cases g1
    have hT := hclean.token _ _ f1
    have hc : x.normalized.norm = tk.content := by
      rw [f3, f4 (hstrip _ hT).1, f5 (hstrip _ hT).2, g2]; simp
    refine ⟨_, f6, rfl, ?_, ?_⟩
    · show Shows _ _ id x.normalized.norm
      rw [hc]; exact .plain f1 (by rw [hclean.cache]; rfl)
    · show tokBytes x.normalized.norm = _
      rw [hc]; exact tokBytes_literal (hlit _ hT)
  -- pre-tokenization
  obtain ⟨p1, p2, q1, q2, q3, q4, q5⟩ := pretokenize_pieces (cfg := ⟨false, u⟩) rfl hre e4
  have hpre : t.preTokenized s = .ok p2 := by
    unfold preTokenized
    rw [h.normalizer, e1]
    show t.preTok p = _
    rw [h.preTok, q1]; rfl
  -- the model on a spelled piece
  have hword : ∀ w : Str, ∃ ts, t.model (spell w) = .ok ts ∧ (ts.map (·.value)).flatten = spell w ∧
      ∀ x ∈ ts, Shows (bpeView b) t.added x.id x.value := by
    intro w
    have hk : ∀ c ∈ spell w, ∃ i, b.vocab.get [c] = some i := by
      intro c hc
      obtain ⟨x, _, rfl⟩ := List.mem_map.1 hc
      exact h.alphabet x
    obtain ⟨ts, gs, g1, g2, g3, _⟩ := Bpe.C16_values_are_text h.built h.affixes.1 h.affixes.2 hk (coins (spell w))
    obtain ⟨l, hl⟩ : ∃ l, Bpe.initSyms b (spell w) = some l := by
      exact ⟨_, initSyms_known h.affixes.1 h.affixes.2 hk⟩
    obtain ⟨ts', k1, k2, _⟩ := Bpe.C16_tokenize_tiles h.built hl (coins (spell w))
    rw [g1] at k1; cases k1
    refine ⟨ts, by rw [h.model, g1]; rfl, by rw [g3, g2], fun x hx => shows_model hm hinv hclean (k2 x hx)⟩
  -- tokenization
  obtain ⟨r, hr⟩ : ∃ r, p2.tokenize (fun n => t.model n.norm) = .ok r := by
    obtain ⟨r, hr⟩ := PTS.mapUntokenized_total
      (g := fun n => (t.model n.norm).map fun ts => (⟨n, some ts⟩ : Split)) p2.splits fun x hx hn => by
        obtain ⟨i, hi⟩ := List.mem_iff_getElem?.1 hx
        have hlt : i < p1.splits.length := by rw [← q4]; exact (List.getElem?_eq_some_iff.1 hi).1
        obtain ⟨m1, m2⟩ := q5 i _ x (List.getElem?_eq_getElem hlt) hi
        cases ht : p1.splits[i].tokens with
        | some ts => rw [m1 (by rw [ht]; rfl), ht] at hn; cases hn
        | none =>
          obtain ⟨ts, k1, _⟩ := hword p1.splits[i].normalized.norm
          exact ⟨⟨x.normalized, some ts⟩, by rw [(m2 ht).2, k1]; rfl⟩
    exact ⟨⟨p2.original, r⟩, by unfold PTS.tokenize; rw [hr]; rfl⟩
  obtain ⟨_, r2, r3⟩ := (PTS.C13_tokenize p2 r _).1 hr
  -- every final piece shows its tokens and has the bytes of the piece of `p1`
  have hpiece : ∀ (i : Nat) (s s' : Split), p1.splits[i]? = some s → r.splits[i]? = some s' → ∃ ts, s'.tokens = some ts ∧
      (∀ x ∈ ts, Shows (bpeView b) t.added x.id x.value) ∧
      (ts.map (·.value)).flatMap tokBytes = strBytes s.normalized.norm := by
    intro i x x' hx hx'
    have hlt : i < p2.splits.length := by rw [q4]; exact (List.getElem?_eq_some_iff.1 hx).1
    have h2 : p2.splits[i]? = some p2.splits[i] := List.getElem?_eq_getElem hlt
    obtain ⟨m1, m2⟩ := q5 i _ _ hx h2
    obtain ⟨m3, m4⟩ := r3 i _ _ h2 hx'
    cases ht : x.tokens with
    | some ts =>
      have e1 := m1 (by rw [ht]; rfl)
      have e2 := m3 (by rw [e1, ht]; rfl)
      rw [e1] at e2; subst e2
      obtain ⟨tok, k1, k2, k3, k4⟩ := hfound _ (q3 _ (List.mem_of_getElem? hx) (by rw [ht]; rfl)) (by rw [ht]; rfl)
      refine ⟨[tok], k1, by simpa using k3, by simpa using k4⟩
    | none =>
      obtain ⟨n1, n2⟩ := m2 ht
      obtain ⟨_, ts, n3, n4⟩ := m4 n1
      rw [n2] at n4
      obtain ⟨ts', k1, k2, k3⟩ := hword x.normalized.norm
      rw [n4] at k1; cases k1
      exact ⟨ts, n3, k3, tokBytes_pieces k2⟩
  have hlen : r.splits.length = p1.splits.length := r2.trans q4
  have hget : ∀ x' ∈ r.splits, ∃ (x : Split) (i : Nat), p1.splits[i]? = some x ∧ r.splits[i]? = some x' := by
    intro x' hx'
    obtain ⟨i, hi⟩ := List.mem_iff_getElem?.1 hx'
    have hlt : i < p1.splits.length := by rw [← hlen]; exact (List.getElem?_eq_some_iff.1 hi).1
    exact ⟨_, i, List.getElem?_eq_getElem hlt, hi⟩
  have hall : ∀ x ∈ r.splits, x.tokens.isSome := by
    intro x' hx'
    obtain ⟨x, i, g1, g2⟩ := hget x' hx'
    obtain ⟨ts, g3, _⟩ := hpiece i x x' g1 g2
    rw [g3]; rfl
  obtain ⟨enc, i1, _, i3⟩ := PTS.C13_into_encoding hall none 0 .byte (by simp)
  have hids : enc.ids = (r.splits.flatMap fun x => x.tokens.getD []).map (·.id) := by
    have hpar : enc.Parallel := (intoEncoding_wf i1).parallel
    rw [(rows_unzip hpar).1, i3, List.map_flatMap]
    have hz : ∀ (l : List Split) (k : Nat), (l.zipIdx k).flatMap (fun a => List.map (fun x => x.1)
        ((a.1.tokens.getD []).map fun t => (t.id, 0, t.value, some ((none : Option Nat).getD a.2),
          PTS.tokenOffsets r.original .byte a.1.normalized t, 0, 1)))
        = (l.flatMap fun x => x.tokens.getD []).map (·.id) := by
      intro l
      induction l with
      | nil => intro k; rfl
      | cons x l ih =>
        intro k
        rw [List.zipIdx_cons, List.flatMap_cons, ih (k + 1), List.flatMap_cons, List.map_append]
        congr 1
        simp
    exact hz r.splits 0
  have henc : t.encodeSequence 0 .byte (.raw s) = .ok enc := by
    have hlim : t.limit 0 = none := by unfold limit; rw [hs.1]
    show (t.preTokenized s).bind (fun p => t.doTokenize (t.limit 0) p 0 none .byte) = _
    rw [hpre, hlim]
    show ((p2.tokenize fun n => t.model n.norm).bind fun q => mapErr (fun _ => EncErr.notTokenized)
      (q.intoEncoding none 0 .byte)) = _
    rw [hr]
    show mapErr (fun _ => EncErr.notTokenized) (r.intoEncoding none 0 .byte) = _
    rw [i1]; rfl
  obtain ⟨out, o1, o2⟩ := untouched_ids hs t.ws t.checked add enc
  refine ⟨out, ?_, ?_⟩
  · show (t.encodeSequence 0 .byte (.raw s)).bind _ = _
    rw [henc]
    show ((Except.ok none : Except EncErr (Option Encoding)).bind fun pair =>
      mapErr .post (t.settings.postProcess t.ws t.checked enc pair add)) = _
    show mapErr EncErr.post (t.settings.postProcess t.ws t.checked enc none add) = _
    rw [o1]; rfl
  · have hshow : ∀ x ∈ (r.splits.flatMap fun x => x.tokens.getD []), Shows (bpeView b) t.added x.id x.value := by
      intro x hx
      obtain ⟨x', hx', hm⟩ := List.mem_flatMap.1 hx
      obtain ⟨y, i, g1, g2⟩ := hget x' hx'
      obtain ⟨ts, g3, g4, _⟩ := hpiece i y x' g1 g2
      rw [g3] at hm
      exact g4 x hm
    unfold decode AddedVocab.decode
    rw [h.decoder, h.view, o2, hids, decodeTokens_shows _ hshow]
    have hbytes : ((r.splits.flatMap fun x => x.tokens.getD []).map (·.value)).flatMap tokBytes = strBytes s := by
      rw [List.map_flatMap, List.flatMap_assoc]
      rw [flatMap_of_get' (T := fun x : Split => strBytes x.normalized.norm) p1.splits r.splits hlen]
      · rw [← htext, ← q2]
        unfold PTS.text strBytes
        rw [List.flatMap_assoc]
      · intro i y y' hy hy'
        obtain ⟨ts, g3, _, g5⟩ := hpiece i y y' hy hy'
        rw [g3]; exact g5
    show ((Dec.Decoder.decodeChain t.checked .byteLevel _).map List.flatten) = some s
    rw [Dec.Decoder.decodeChain]
    show some (List.flatten (ByteLevel.decodeChain _)) = some s
    unfold ByteLevel.decodeChain
    rw [show (fun t : Str => (t.mapM charByte).getD (strBytes t)) = tokBytes from rfl, hbytes, fromUtf8Lossy_strBytes]
    simp

/-! ### A byte-level tokenizer -/

/-- The 256 characters, numbered by their bytes, and two merged tokens. -/
def byteVocab : AMap Str Nat :=
  (bytesChar.map fun p => ([Char.ofNat p.2], p.1)) ++ [("Ġa".toList, 256), ("he".toList, 257)]

def byteMerges : List (Str × Str) := [("Ġ".toList, "a".toList), ("h".toList, "e".toList)]

def byteBpe : Bpe.Bpe :=
  { vocab := byteVocab
    vocabR := AMap.extend [] (byteVocab.map fun p => (p.2, p.1))
    merges := [((104, 101), (1, 257)), ((32, 97), (0, 256))] }

theorem byteVocab_wf : byteVocab.WF := by
  have : ((byteVocab.map fun p => p.1.map Char.toNat)).Nodup := by decide +kernel
  have h : ((byteVocab.map (·.1)).map fun s => s.map Char.toNat).Nodup := by rw [List.map_map]; exact this
  exact List.Pairwise.of_map _ (fun a b hn he => hn (congrArg _ he)) h

theorem byteVocab_ids : ∀ (s : Str) (i : Nat), byteVocab.get s = some i →
    i < byteVocab.length ∧ byteVocab.find? (fun p => p.2 == i) = some (s, i) := by
  have h1 : (byteVocab.map (·.2)).Nodup := by decide +kernel
  have h2 : ∀ i ∈ byteVocab.map (·.2), i < byteVocab.length := by decide +kernel
  intro s i h
  have hm := AMap.mem_of_get_eq_some h
  refine ⟨h2 i (List.mem_map.2 ⟨_, hm, rfl⟩), ?_⟩
  generalize (byteVocab : List (Str × Nat)) = l at h1 hm
  induction l with
  | nil => cases hm
  | cons x l ih =>
    rw [List.map_cons, List.nodup_cons] at h1
    rcases List.mem_cons.1 hm with rfl | hm
    · simp
    · have : x.2 ≠ i := fun e => h1.1 (List.mem_map.2 ⟨_, hm, e.symm⟩)
      rw [List.find?_cons]
      rw [show (x.2 == i) = false by simpa using this]
      exact ih h1.2 hm

theorem byteBpe_built : Bpe.Built byteBpe where
  ex := by
    refine ⟨byteMerges, Bpe.sampleCfg, ?_, ?_⟩
    · have : Bpe.buildMerges byteVocab 0 0 byteMerges [] = .ok [((104, 101), (1, 257)), ((32, 97), (0, 256))] := by
        decide +kernel
      show Bpe.build byteVocab byteMerges Bpe.sampleCfg = .ok byteBpe
      unfold Bpe.build
      rw [show blen (Bpe.sampleCfg.pre.getD []) = 0 from rfl, this]; rfl
    · refine ⟨?_, ?_, fun ab h b' _ _ => List.nil_prefix⟩
      · intro ab h
        simp only [byteMerges, List.mem_cons, List.not_mem_nil, or_false] at h
        rcases h with rfl | rfl <;> exact ⟨_, rfl, by decide⟩
      · intro ab h
        simp only [byteMerges, List.mem_cons, List.not_mem_nil, or_false] at h
        rcases h with rfl | rfl <;> decide
  wf := byteVocab_wf
  distinct := by
    intro s t i hs ht
    have h1 := (byteVocab_ids s i hs).2
    rw [(byteVocab_ids t i ht).2] at h1
    exact (congrArg Prod.fst (Option.some.inj h1)).symm

/-- Two words of one text are found. -/
def byteRe : Str → List Range := fun s => if s = "he a".toList then [(0, 2), (2, 4)] else []

theorem byteRe_ok : ∀ s, NS.EngineMatches s 0 (byteRe s) := by
  intro s
  unfold byteRe
  split
  · rename_i h
    subst h
    exact ⟨by decide, by decide, ⟨[], _, rfl, rfl⟩, ⟨"he".toList, " a".toList, by decide, by decide⟩,
      by decide, by decide, ⟨"he".toList, " a".toList, by decide, by decide⟩,
      ⟨"he a".toList, [], by decide, by decide⟩, trivial⟩
  · trivial

/-- Accept any list of patterns without an empty one. -/
def buildAny (l : List (Str × Nat)) : Bool := l.all fun p => p.1 ≠ []

/-- A byte-level tokenizer with added tokens. -/
def byteSample (ops : List Op) : Tokenizer where
  cl := asciiClasses
  ws := fun c => c == ' '
  checked := true
  added := after buildAny (bpeView byteBpe) empty ops
  normalizer := some
  preTok := fun p => mapErr (fun _ => .preTok 0) (preTokenize ⟨false, true⟩ byteRe p)
  model := fun w => bpeResult (Bpe.tokenize byteBpe (fun _ => false) w)
  view := bpeView byteBpe
  vocab := byteVocab
  settings := ⟨none, none, some (.byteLevel false true)⟩
  decoder := some .byteLevel

theorem byteSample_ok (ops : List Op) : IsByteBpe (byteSample ops) byteBpe byteRe true (fun _ _ => false) where
  normalizer := rfl
  preTok := fun _ => rfl
  model := fun _ => rfl
  view := rfl
  decoder := rfl
  built := byteBpe_built
  affixes := ⟨rfl, rfl⟩
  alphabet := by
    intro x
    obtain ⟨c, hc⟩ := Option.isSome_iff_exists.1 (C29_defined x)
    have hb : byteChar x = Char.ofNat c := by unfold byteChar; rw [hc]; rfl
    refine ⟨x.toNat, AMap.get_eq_some_of_mem byteVocab_wf ?_⟩
    rw [hb]
    exact List.mem_append_left _ (List.mem_map.2 ⟨(x.toNat, c), AMap.mem_of_get_eq_some hc, rfl⟩)
  ids := fun s i h => (byteVocab_ids s i h).1

/-- The history: an end-of-text token, and a word. -/
def byteOps : List Op := [.add none [.ofStr "<|end|>".toList true, .ofStr "said".toList false]]

/-- All texts, with this tokenizer. -/
example (s : Str) (add : Bool) : ∃ e, (byteSample byteOps).encode (.raw s, none) add = .ok e ∧
    (byteSample byteOps).decode false e.ids = some s := by
  refine C44_lossless (byteSample_ok byteOps) byteRe_ok (build := buildAny) (ops := byteOps) ?_
    (by dsimp only [byteSample]) (by simp [byteOps, normsOf]) ?_ ?_ ⟨rfl, rfl, .inr ⟨_, _, rfl⟩⟩ s add
  · intro l h p hp
    simpa using List.all_eq_true.1 h p hp
  · decide
  · intro x hx
    refine .inl ?_
    revert x
    decide +kernel

example : ((byteSample byteOps).encode (.raw "he a<|end|>he said é".toList, none) true).toOption.map
    (fun e => (e.ids, e.tokens.map String.ofList, e.offsets)) =
    some ([257, 256, 258, 257, 32, 259, 32, 195, 169],
      ["he", "Ġa", "<|end|>", "he", "Ġ", "said", "Ġ", "Ã", "©"],
      [(0, 2), (3, 4), (4, 11), (11, 13), (14, 14), (14, 18), (19, 19), (19, 21), (19, 21)]) := by decide +kernel

/-- Finding: an added token made of visible Latin-1 characters is taken by the decoder for bytes; here `é` comes
back as U+FFFD. -/
theorem C44_added_latin1 : ((byteSample [.add none [.ofStr "é".toList false]]).encode (.raw "é".toList, none)
    true).toOption.map (·.ids) = some [233] ∧
    (byteSample [.add none [.ofStr "é".toList false]]).decode false [233] = some [Char.ofNat 0xFFFD] := by
  decide +kernel

/-- An added token that strips spaces loses them. -/
theorem C44_added_strip :
    ((byteSample [.add none [{ content := "<m>".toList, lstrip := true }]]).encode (.raw "a <m>".toList, none)
      true).toOption.map (·.ids) = some [97, 258] ∧
    (byteSample [.add none [{ content := "<m>".toList, lstrip := true }]]).decode false [97, 258]
      = some "a<m>".toList := by
  decide +kernel

end Tokenizer
end Tok
