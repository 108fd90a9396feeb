import Verif.Save.File
import Verif.Save.RoundTrip
import Verif.Save.Bpe
import Verif.Save.Added

/-!
# C65: a saved file is loaded again as the same tokenizer
-/

namespace Tok.Save
open Json

/-! ## Models -/

/-- Every id is of type `u32`. -/
def IdsFit (v : AMap Str Nat) : Prop := ∀ c i, v.get c = some i → i < 4294967296

/-- What is true of the models that exist: built by the builder, with a map from tokens to different ids, numbers of their
types; the dropout is a probability. -/
inductive Mod.Fits : Mod → Prop
  | bpe {d b} (h : Bpe.Built b) (hi : IdsFit b.vocab) (hd : dropoutOk d = true) (ha : b.useDropout = activeDropout d) :
      Mod.Fits (.bpe d b)
  | wordPiece {w : WordPiece} (h : w.vocab.WF) (hd : Bpe.IdsDistinct w.vocab) (hi : IdsFit w.vocab)
      (hm : w.maxInputChars < 18446744073709551616) : Mod.Fits (.wordPiece w)
  | wordLevel {w : WordLevel} (h : w.vocab.WF) (hd : Bpe.IdsDistinct w.vocab) (hi : IdsFit w.vocab) :
      Mod.Fits (.wordLevel w)
  | unigram {u vocab unk bf} (h : Unigram.from vocab unk bf = .ok u)
      (hu : ∀ i, u.unkId = some i → i < 18446744073709551616) : Mod.Fits (.unigram u)

/-- Models of the same kind, with the same options, the same vocabulary and the same tokens for every word. -/
inductive SameMod : Mod → Mod → Prop
  | bpe {d b b'} (hv : ∀ c, b'.vocab.get c = b.vocab.get c) (hr : ∀ i, b'.vocabR.get i = b.vocabR.get i)
      (ho : Bpe.SameOptions b b') (hm : SameMerges (Bpe.mergeFn b.merges) (Bpe.mergeFn b'.merges))
      (ht : ∀ coins w, Bpe.tokenize b' coins w = Bpe.tokenize b coins w) : SameMod (.bpe d b) (.bpe d b')
  | wordPiece {w w' : WordPiece} (hv : ∀ c, w'.vocab.get c = w.vocab.get c) (hu : w'.unkToken = w.unkToken)
      (hp : w'.continuingPrefix = w.continuingPrefix) (hm : w'.maxInputChars = w.maxInputChars)
      (ht : ∀ s, w'.tokenize s = w.tokenize s) : SameMod (.wordPiece w) (.wordPiece w')
  | wordLevel {w w' : WordLevel} (hv : ∀ c, w'.vocab.get c = w.vocab.get c) (hu : w'.unkToken = w.unkToken)
      (ht : ∀ s, w'.tokenize s = w.tokenize s) : SameMod (.wordLevel w) (.wordLevel w')
  | unigram (u) : SameMod (.unigram u) (.unigram u)

theorem asMap_writeVocab {l : List (Str × Nat)} (h : ∀ p ∈ l, p.2 < 4294967296) :
    asMap asU32 (writeVocab l) = some l := by
  unfold asMap writeVocab
  exact mapM_map fun p hp => by simp [asU32_int (h p hp)]

theorem ordered_fits {v : AMap Str Nat} {vr : AMap Nat Str} (hi : Inverse v vr) (h : IdsFit v) :
    ∀ p ∈ ordered vr, p.2 < 4294967296 := fun p hp => h p.1 p.2 ((hi _ _).2 (mem_ordered.1 hp))

theorem readMergeList_write (l : List (Str × Str)) : readMergeList (.arr (l.map writeMerge)) = some l := by
  have : (l.map writeMerge).mapM readMerge = some l := mapM_map fun m _ => by simp [readMerge, writeMerge, asStr]
  simp [readMergeList, asList, this]

theorem orNull_ofOpt_str (b : Option Str) : orNull asStr (ofOpt .str b) = some b := by cases b <;> rfl

theorem orNull_ofOpt_float (b : Option Rat) : orNull asFloat (ofOpt .float b) = some b := by cases b <;> rfl

theorem orNull_bool (b : Bool) : orNull asBool (.bool b) = some (some b) := rfl

theorem readModel_bpe {fs : Fields} (h : Json.get fs "type".toList = some (.str "BPE".toList)) :
    readModel (.obj fs) = readBpe fs := by
  simp only [readModel, h, if_true]

theorem orNull_ofOpt_usize {b : Option Nat} (h : ∀ i, b = some i → i < 18446744073709551616) :
    orNull asUsize (ofOpt (fun n : Nat => .int n) b) = some b := by
  cases b with
  | none => rfl
  | some n => simp [ofOpt, orNull, asUsize_int (h n rfl)]

theorem length_le_of_subset {α : Type} : ∀ {l l' : List α}, l.Nodup → (∀ x ∈ l, x ∈ l') → l.length ≤ l'.length
  | [], _, _, _ => Nat.zero_le _
  | a :: l, l', h, hs => by
    obtain ⟨s, t, rfl⟩ := List.append_of_mem (hs a (by simp))
    have hn := List.nodup_cons.1 h
    have := length_le_of_subset (l' := s ++ t) hn.2 fun x hx => by
      have hx' := hs x (by simp [hx])
      have hne : x ≠ a := fun e => hn.1 (e ▸ hx)
      simpa [hne] using hx'
    simp only [List.length_cons, List.length_append] at this ⊢
    omega

theorem wf_nodup {K V : Type} [DecidableEq K] {m : AMap K V} (h : m.WF) : m.Nodup :=
  (List.pairwise_map.1 h).imp fun h e => h (by rw [e])

theorem length_eq_of_get {K V : Type} [DecidableEq K] {m m' : AMap K V} (hw : m.WF) (hw' : m'.WF)
    (h : ∀ k, m'.get k = m.get k) : m'.length = m.length := by
  apply Nat.le_antisymm
  · exact length_le_of_subset (wf_nodup hw') fun p hp =>
      AMap.mem_of_get_eq_some ((h p.1).symm.trans (AMap.get_eq_some_of_mem hw' hp))
  · exact length_le_of_subset (wf_nodup hw) fun p hp =>
      AMap.mem_of_get_eq_some ((h p.1).trans (AMap.get_eq_some_of_mem hw hp))

theorem IdsFit.congr {v v' : AMap Str Nat} (h : IdsFit v) (hv : ∀ c, v'.get c = v.get c) : IdsFit v' :=
  fun c i hc => h c i (hv c ▸ hc)

theorem distinct_congr {v v' : AMap Str Nat} (h : Bpe.IdsDistinct v) (hv : ∀ c, v'.get c = v.get c) :
    Bpe.IdsDistinct v' := fun s t i h1 h2 => h s t i (hv s ▸ h1) (hv t ▸ h2)

theorem bpeView_eq {b b' : Bpe.Bpe} (hw : b.vocab.WF) (hw' : b'.vocab.WF) (hv : ∀ c, b'.vocab.get c = b.vocab.get c)
    (hr : ∀ i, b'.vocabR.get i = b.vocabR.get i) : Tokenizer.bpeView b' = Tokenizer.bpeView b := by
  unfold Tokenizer.bpeView
  rw [funext hv, funext hr, length_eq_of_get hw hw' hv]

theorem turned_eq {v v' : AMap Str Nat} (hw : v.WF) (hd : Bpe.IdsDistinct v) (hw' : v'.WF)
    (hv : ∀ c, v'.get c = v.get c) (i : Nat) : (Tokenizer.turned v').get i = (Tokenizer.turned v).get i := by
  have hd' : Bpe.IdsDistinct v' := fun s t i h1 h2 => hd s t i (hv s ▸ h1) (hv t ▸ h2)
  have : ∀ c, (Tokenizer.turned v').get i = some c ↔ (Tokenizer.turned v).get i = some c := fun c =>
    ((Bpe.get_swap hw' hd' i c).trans (by rw [hv])).trans (Bpe.get_swap hw hd i c).symm
  cases hx : (Tokenizer.turned v).get i with
  | some c => exact (this c).2 hx
  | none =>
    cases hy : (Tokenizer.turned v').get i with
    | none => rfl
    | some c => rw [(this c).1 hy] at hx; cases hx

theorem turnedView_eq {v v' : AMap Str Nat} (hw : v.WF) (hd : Bpe.IdsDistinct v) (hw' : v'.WF)
    (hv : ∀ c, v'.get c = v.get c) :
    (⟨v'.get, (Tokenizer.turned v').get, v'.length⟩ : ModelView) = ⟨v.get, (Tokenizer.turned v).get, v.length⟩ := by
  rw [funext hv, funext (turned_eq hw hd hw' hv), length_eq_of_get hw hw' hv]

/-- **C65.** A model that was written is read again: the same kind of model, the same options and vocabulary, the same
tokens for every word, and the same answers to `token_to_id`, `id_to_token` and `get_vocab_size`. It can be written and
read once more. -/
theorem C65_model {m : Mod} (h : m.Fits) : ∃ j m', writeModel m = some j ∧ readModel j = .ok m' ∧ SameMod m m' ∧
    m'.view = m.view ∧ m'.Fits := by
  cases h with
  | @bpe d b h hi hd ha =>
    obtain ⟨s, b', h1, h2, h3, h4, h5, h6, h7, h8⟩ := C39_bpe h
    have hs : s.dropout = b.useDropout ∧ s.vocab = ordered b.vocabR := by
      unfold saveBpe at h1
      cases hm : mergeNames b with
      | none => rw [hm] at h1; cases h1
      | some ms => rw [hm] at h1; cases h1; exact ⟨rfl, rfl⟩
    have hv : asMap asU32 (writeVocab s.vocab) = some s.vocab := by
      rw [hs.2]; exact asMap_writeVocab (ordered_fits (Bpe.C46_bpe_vocab_inverse h) hi)
    refine ⟨_, .bpe d b', by rw [writeModel, h1]; rfl, ?_, .bpe h4 h5 h6 h7 h8, bpeView_eq h.wf h3.wf h4 h5,
      .bpe h3 (hi.congr h4) hd (h6.dropout.trans ha)⟩
    have hr : ∀ fs, fs = [("type".toList, Json.str "BPE".toList), ("dropout".toList, ofOpt Json.float d),
        ("unk_token".toList, ofOpt Json.str s.unk), ("continuing_subword_prefix".toList, ofOpt Json.str s.pre),
        ("end_of_word_suffix".toList, ofOpt Json.str s.suf), ("fuse_unk".toList, Json.bool s.fuseUnk),
        ("byte_fallback".toList, Json.bool s.byteFallback), ("ignore_merges".toList, Json.bool s.ignoreMerges),
        ("vocab".toList, writeVocab s.vocab), ("merges".toList, Json.arr (s.merges.map writeMerge))] →
        readBpeFields fs = some (d, s) := by
      rintro fs rfl
      simp [readBpeFields, opt, req, Json.get, orNull_ofOpt_str, orNull_ofOpt_float, orNull_bool, hv,
        readMergeList_write]
      rw [← ha, ← hs.1]
    rw [readModel_bpe (by simp [Json.get]), readBpe, hr _ rfl]
    simp only [hd, h2, if_true]
  | @wordPiece w h hd hi hm =>
    obtain ⟨h1, h2, h3⟩ := C39_wordpiece h hd
    have hv := asMap_writeVocab (ordered_fits (inverse_swap h hd) hi)
    refine ⟨_, .wordPiece (loadWordPiece (saveWordPiece w)), rfl, ?_, .wordPiece h1 rfl h2 rfl h3,
      turnedView_eq h hd (AMap.WF.nil.extend _) h1,
      .wordPiece (AMap.WF.nil.extend _) (distinct_congr hd h1) (hi.congr h1) hm⟩
    have hv : asMap asU32 (writeVocab (ordered (swap w.vocab))) = some (ordered (swap w.vocab)) := hv
    simp [readModel, Json.get, readWordPiece, req, saveWordPiece, asStr, asUsize_int hm, hv, orErr]
  | @wordLevel w h hd hi =>
    obtain ⟨h1, h2⟩ := C39_wordlevel h hd
    have hv : asMap asU32 (writeVocab (ordered (swap w.vocab))) = some (ordered (swap w.vocab)) :=
      asMap_writeVocab (ordered_fits (inverse_swap h hd) hi)
    refine ⟨_, .wordLevel (loadWordLevel (saveWordLevel w)), rfl, ?_, .wordLevel h1 rfl h2,
      turnedView_eq h hd (AMap.WF.nil.extend _) h1,
      .wordLevel (AMap.WF.nil.extend _) (distinct_congr hd h1) (hi.congr h1)⟩
    simp [readModel, Json.get, readWordLevel, req, saveWordLevel, asStr, hv, orErr]
  | @unigram u vocab unk bf h hu =>
    have h1 := C39_unigram h
    have hv : (u.vocab.map writeUni).mapM readUni = some u.vocab :=
      mapM_map fun p _ => by simp [readUni, writeUni, asStr, asFloat]
    refine ⟨_, .unigram u, rfl, ?_, .unigram u, rfl, .unigram h hu⟩
    unfold saveUnigram at h1
    simp [readModel, Json.get, readUnigram, req, opt, dflt, saveUnigram, orNull_ofOpt_usize hu, asList, hv, asBool, h1,
      Except.toOption, orErr]

/-! ## Parameters and added tokens -/

/-- The numbers are of type `usize`. -/
def TruncFits (t : TruncParams) : Prop := t.maxLength < 18446744073709551616 ∧ t.stride < 18446744073709551616

/-- The numbers are of type `usize` or `u32`. -/
structure PadFits (p : PadParams) : Prop where
  fixed : ∀ n, p.strategy = .fixed n → n < 18446744073709551616
  multiple : ∀ n, p.multipleOf = some n → n < 18446744073709551616
  id : p.pt.id < 4294967296
  typeId : p.pt.typeId < 4294967296

theorem asEnum_direction (d : Encoding.Direction) : asEnum directions (writeDirection d) = some d := by cases d <;> rfl

theorem asEnum_strategy (d : TruncStrategy) : asEnum strategies (writeStrategy d) = some d := by cases d <;> rfl

/-- **C65.** The parameters of truncation that were written are read again. -/
theorem C65_truncation {t : TruncParams} (h : TruncFits t) : readTruncation (writeTruncation t) = some t := by
  simp [readTruncation, writeTruncation, dflt, req, Json.get, asEnum_direction, asEnum_strategy, asUsize_int h.1,
    asUsize_int h.2]

/-- **C65.** The parameters of padding that were written are read again. -/
theorem C65_padding {p : PadParams} (h : PadFits p) : readPadding (writePadding p) = some p := by
  have hs : readPadStrategy (writePadStrategy p.strategy) = some p.strategy := by
    have := h.fixed
    cases hp : p.strategy with
    | batchLongest => simp [readPadStrategy, writePadStrategy]
    | fixed n => simp [readPadStrategy, writePadStrategy, asUsize_int (this n hp)]
  simp [readPadding, writePadding, opt, req, Json.get, asEnum_direction, hs, orNull_ofOpt_usize h.multiple,
    asU32_int h.id, asU32_int h.typeId, asStr]

theorem readAddedToken_write {x : Nat × AddedToken} (h : x.1 < 4294967296) :
    readAddedToken (writeAddedToken x) = some x := by
  simp [readAddedToken, writeAddedToken, req, Json.get, asU32_int h, asStr, asBool]

/-! ## The file -/

/-- What is true of the tokenizers that exist. -/
structure Conf.Fits (e : Env) (c : Conf) : Prop where
  truncation : ∀ t, c.truncation = some t → TruncFits t
  padding : ∀ p, c.padding = some p → PadFits p
  added : ∀ i t, c.added.rmap.get i = some t → i < 4294967296
  normalizer : ∀ n, c.normalizer = some n → n.Fits e
  preTok : ∀ n, c.preTok = some n → n.Fits e
  proc : ∀ n, c.proc = some n → n.Fits
  decoder : ∀ n, c.decoder = some n → n.Fits e
  model : c.model.Fits

/-- The added tokens after loading, compared with those that were saved: same ids, same properties; normal forms, special
tokens and patterns as they follow from these; special tokens are searched for in texts. -/
structure ReloadedAdded (norm : AddedVocab.Norm) (av av' : AddedVocab) : Prop where
  map : ∀ c, av'.map.get c = av.map.get c
  rmap : ∀ i, av'.rmap.get i = av.rmap.get i
  cache : ∀ i t, av.rmap.get i = some t → AddedVocab.normalForm norm t = some (av'.cache.get i)
  specials : ∀ c, c ∈ av'.specials ↔ ∃ i t, av.rmap.get i = some t ∧ t.special = true ∧ t.content = c
  trie : ∀ c i, (c, i) ∈ av'.trie ↔ ∃ t, av.rmap.get i = some t ∧ t.normalized = false ∧ c = t.content
  normTrie : ∀ c i, (c, i) ∈ av'.normTrie ↔ ∃ t, av.rmap.get i = some t ∧ t.normalized = true ∧
    c = (av'.cache.get i).getD t.content
  encode : av'.encodeSpecial = false

/-- Both missing, or both there and the same. -/
inductive SameProcOpt : Option ProcCfg → Option ProcCfg → Prop
  | none : SameProcOpt none none
  | some {c c'} (h : SameProc c c') : SameProcOpt (some c) (some c')

/-- The same tokenizer, but for what is computed anew. -/
structure SameConf (norm : Option NormCfg → AddedVocab.Norm) (c c' : Conf) : Prop where
  truncation : c'.truncation = c.truncation
  padding : c'.padding = c.padding
  normalizer : c'.normalizer = c.normalizer
  preTok : c'.preTok = c.preTok
  decoder : c'.decoder = c.decoder
  proc : SameProcOpt c.proc c'.proc
  model : SameMod c.model c'.model
  view : c'.model.view = c.model.view
  added : ReloadedAdded (norm c.normalizer) c.added c'.added

theorem orNull_some {α : Type} {w : α → Json} {r : Json → Option α} {a : α} {b : α} {fs : Fields} (h : w a = .obj fs)
    (hr : r (w a) = some b) : orNull r (ofOpt w (some a)) = some (some b) := by
  rw [ofOpt, h, orNull, ← h, hr]
  · rfl
  · intro h'; cases h'

theorem writeNorm_obj (n : NormCfg) : ∃ fs, writeNorm n = .obj fs := by
  cases n <;> first
    | exact ⟨_, by rw [writeNorm]⟩
    | exact ⟨_, by rw [writeNorm]; rfl⟩

theorem writePre_obj (n : PreCfg) : ∃ fs, writePre n = .obj fs := by
  cases n <;> first
    | exact ⟨_, by rw [writePre]⟩
    | exact ⟨_, by rw [writePre]; rfl⟩

theorem writeDec_obj (n : DecCfg) : ∃ fs, writeDec n = .obj fs := by
  cases n <;> first
    | exact ⟨_, by rw [writeDec]⟩
    | exact ⟨_, by rw [writeDec]; rfl⟩

theorem writeProc_obj (n : ProcCfg) : ∃ fs, writeProc n = .obj fs := by
  cases n <;> first
    | exact ⟨_, by rw [writeProc]⟩
    | exact ⟨_, by rw [writeProc]; rfl⟩

mutual
theorem sameProc_fits : ∀ {c c' : ProcCfg}, SameProc c c' → c.Fits → c'.Fits
  | _, _, .roberta _ _ _ _, h => h
  | _, _, .bert _ _, h => h
  | _, _, .byteLevel _, h => h
  | _, _, @SameProc.template t t' h, hf => by
    have hf : TemplateFits t := hf
    exact ⟨h.single ▸ hf.single, h.pair ▸ hf.pair, h.map, fun p hp =>
      hf.ids p (AMap.mem_of_get_eq_some ((h.specials p.1).symm.trans (AMap.get_eq_some_of_mem h.map hp)))⟩
  | _, _, @SameProc.sequence _ _ h, hf => sameProcs_fit h hf

theorem sameProcs_fit : ∀ {l l' : List ProcCfg}, SameProcs l l' → ProcCfg.AllFit l → ProcCfg.AllFit l'
  | _, _, .nil, h => h
  | _, _, .cons h hl, hf => ⟨sameProc_fits h hf.1, sameProcs_fit hl hf.2⟩
end

theorem sameProcOpt_fits {o o' : Option ProcCfg} (h : SameProcOpt o o') (hf : ∀ n, o = some n → n.Fits) :
    ∀ n, o' = some n → n.Fits := by
  intro n hn
  cases h with
  | none => cases hn
  | some hs => cases hn; exact sameProc_fits hs (hf _ rfl)

theorem orNull_truncation {o : Option TruncParams} (h : ∀ t, o = some t → TruncFits t) :
    orNull readTruncation (ofOpt writeTruncation o) = some o := by
  cases o with
  | none => rfl
  | some t => exact orNull_some rfl (C65_truncation (h t rfl))

theorem orNull_padding {o : Option PadParams} (h : ∀ t, o = some t → PadFits t) :
    orNull readPadding (ofOpt writePadding o) = some o := by
  cases o with
  | none => rfl
  | some t => exact orNull_some rfl (C65_padding (h t rfl))

theorem orNull_pre {e : Env} {o : Option PreCfg} (h : ∀ t, o = some t → t.Fits e) :
    orNull (readPre e) (ofOpt writePre o) = some o := by
  cases o with
  | none => rfl
  | some t => obtain ⟨fs, hf⟩ := writePre_obj t; exact orNull_some hf (C65_pre_tokenizer t (h t rfl))

theorem orNull_dec {e : Env} {o : Option DecCfg} (h : ∀ t, o = some t → t.Fits e) :
    orNull (readDec e) (ofOpt writeDec o) = some o := by
  cases o with
  | none => rfl
  | some t => obtain ⟨fs, hf⟩ := writeDec_obj t; exact orNull_some hf (C65_decoder t (h t rfl))

theorem orNull_proc {o : Option ProcCfg} (h : ∀ t, o = some t → t.Fits) :
    ∃ o', orNull readProc (ofOpt writeProc o) = some o' ∧ SameProcOpt o o' := by
  cases o with
  | none => exact ⟨none, rfl, .none⟩
  | some t =>
    obtain ⟨fs, hf⟩ := writeProc_obj t
    obtain ⟨t', h1, h2⟩ := C65_post_processor t (h t rfl)
    exact ⟨some t', orNull_some hf h1, .some h2⟩

theorem readNormOpt_write {e : Env} {o : Option NormCfg} (h : ∀ t, o = some t → t.Fits e) {fs : Fields}
    (hf : Json.get fs "normalizer".toList = some (ofOpt writeNorm o)) : readNormOpt e fs = .ok o := by
  cases o with
  | none => unfold readNormOpt; rw [hf]; rfl
  | some t =>
    obtain ⟨gs, hg⟩ := writeNorm_obj t
    unfold readNormOpt
    rw [hf, ofOpt, hg]
    show mapOk some (readNorm e (.obj gs)) = _
    rw [← hg, C65_normalizer t (h t rfl)]
    rfl

/-- **C65.** A tokenizer can be saved; what is saved can be loaded, whether or not the deserializer skips unknown keys; what
is loaded is the same tokenizer, but for what `ReloadedAdded` and `Recounted` say, and can be saved in turn. The added tokens may have any history;
their normal forms can be computed and their automata be built, as is checked whenever the normalizer is replaced. -/
theorem C65_file {e : Env} (skip : Bool) {build : List (Str × Nat) → Bool} {norm : Option NormCfg → AddedVocab.Norm}
    (hb : ∀ l l' : List (Str × Nat), l.Perm l' → build l = build l') {c : Conf} (h : c.Fits e) (hok : c.model.view.Ok)
    {ops : List AddedVocab.Op} (hav : AddedVocab.after build c.model.view .empty ops = c.added)
    (hr : (c.added.refreshNormalized build (norm c.normalizer)).2 = true) :
    ∃ j c', save c = some j ∧ load e skip build norm j = .ok c' ∧ SameConf norm c c' ∧ c'.Fits e := by
  obtain ⟨j, m', hm1, hm2, hm3, hm4, hm5⟩ := C65_model h.model
  obtain ⟨o', ho1, ho2⟩ := orNull_proc h.proc
  obtain ⟨av', ha⟩ := (C39_added_loads hok hb ops (norm c.normalizer) hav).2 hr
  have hi : AddedVocab.Inv c.model.view c.added := hav ▸ (AddedVocab.after_inv hok build ops (AddedVocab.inv_empty _)).1
  obtain ⟨a1, a2, a3, a4, a5, a6, a7⟩ := C39_added hok build ops (norm c.normalizer) hav ha
  have htok : ((saveAdded c.added).map writeAddedToken).mapM readAddedToken = some (saveAdded c.added) :=
    mapM_map fun x hx => readAddedToken_write
      (h.added x.1 x.2 (AMap.get_eq_some_of_mem hi.wfr ((sortBy_perm _ _).mem_iff.1 hx)))
  refine ⟨_, ⟨c.truncation, c.padding, av', c.normalizer, c.preTok, o', c.decoder, m'⟩, by rw [save, hm1]; rfl, ?_,
    ⟨rfl, rfl, rfl, rfl, rfl, ho2, hm3, hm4, a1, a2, a3, a4, a5, a6, a7⟩,
    ⟨h.truncation, h.padding, fun i t hi => h.added i t (a2 i ▸ hi), h.normalizer, h.preTok, fun n hn => ?_, h.decoder,
      hm5⟩⟩
  rotate_left
  · exact sameProcOpt_fits ho2 h.proc n hn
  generalize hfs : [("version".toList, Json.str "1.0".toList),
    ("truncation".toList, ofOpt writeTruncation c.truncation), ("padding".toList, ofOpt writePadding c.padding),
    ("added_tokens".toList, Json.arr ((saveAdded c.added).map writeAddedToken)),
    ("normalizer".toList, ofOpt writeNorm c.normalizer), ("pre_tokenizer".toList, ofOpt writePre c.preTok),
    ("post_processor".toList, ofOpt writeProc c.proc), ("decoder".toList, ofOpt writeDec c.decoder),
    ("model".toList, j)] = fs
  have hk : fs.any (fun f => !knownKeys.contains f.1) = false := by
    rw [← hfs]; simp [knownKeys]
  have hv : versionOk fs = true := by rw [← hfs]; simp [versionOk, Json.get]
  have hrest : readRest e fs = some ⟨c.truncation, c.padding, saveAdded c.added, c.preTok, o', c.decoder⟩ := by
    rw [← hfs]
    simp [readRest, opt, dflt, Json.get, orNull_truncation h.truncation, orNull_padding h.padding, asList, htok,
      orNull_pre h.preTok, ho1, orNull_dec h.decoder]
  have hnorm : readNormOpt e fs = .ok c.normalizer := readNormOpt_write h.normalizer (by rw [← hfs]; simp [Json.get])
  have hmod : readModelField fs = .ok m' := by
    have : Json.get fs "model".toList = some j := by rw [← hfs]; simp [Json.get]
    rw [readModelField, this]; exact hm2
  have hl : load e skip build norm (.obj fs) =
      .ok ⟨c.truncation, c.padding, av', c.normalizer, c.preTok, o', c.decoder, m'⟩ := by
    rw [load, hk, hv, hrest, hnorm, hmod]
    simp only [Bool.and_false, Bool.false_eq_true, if_false, Bool.not_true, hm4, ha]
  rw [← hfs] at hl
  exact hl

end Tok.Save
