import Verif.Save.Config
import Verif.BaseLemmas

/-!
# C65: what was saved is what is loaded
-/

namespace Tok.Save
open Json

/-! ## Which settings can be in use -/

mutual
/-- The patterns compile and the charsmaps are accepted, as they are in every normalizer that exists. -/
def NormCfg.Fits (e : Env) : NormCfg → Prop
  | .sequence l => NormCfg.AllFit e l
  | .precompiled s => e.charsmap s = true
  | .replace c => e.compiles c.pattern = true
  | _ => True

/-- So for each of the elements. -/
def NormCfg.AllFit (e : Env) : List NormCfg → Prop
  | [] => True
  | n :: l => n.Fits e ∧ NormCfg.AllFit e l
end

mutual
/-- The patterns compile, the lengths are of type `usize`. -/
def PreCfg.Fits (e : Env) : PreCfg → Prop
  | .sequence l => PreCfg.AllFit e l
  | .split p _ _ => e.compiles p = true
  | .fixedLength n => n < 18446744073709551616
  | _ => True

/-- So for each of the elements. -/
def PreCfg.AllFit (e : Env) : List PreCfg → Prop
  | [] => True
  | n :: l => n.Fits e ∧ PreCfg.AllFit e l
end

mutual
/-- The patterns compile, the numbers are of type `usize`. -/
def DecCfg.Fits (e : Env) : DecCfg → Prop
  | .sequence l => DecCfg.AllFit e l
  | .replace c => e.compiles c.pattern = true
  | .strip _ a b => a < 18446744073709551616 ∧ b < 18446744073709551616
  | _ => True

/-- So for each of the elements. -/
def DecCfg.AllFit (e : Env) : List DecCfg → Prop
  | [] => True
  | n :: l => n.Fits e ∧ DecCfg.AllFit e l
end

/-! ## The parts -/

theorem asNat_int {b n : Nat} (h : n < b) : asNat b (.int n) = some n := by
  simp [asNat, h]

theorem asU32_int {n : Nat} (h : n < 4294967296) : asU32 (.int n) = some n := asNat_int h

theorem asUsize_int {n : Nat} (h : n < 18446744073709551616) : asUsize (.int n) = some n := asNat_int h

theorem readPat_writePat (p : Pat) : readPat (writePat p) = some p := by
  cases p <;> simp [writePat, readPat]

theorem readCompiled_writePat {e : Env} {p : Pat} (h : e.compiles p = true) : readCompiled e (writePat p) = some p := by
  simp [readCompiled, readPat_writePat, h]

theorem asEnum_behavior (b : NS.Behavior) : asEnum behaviors (writeBehavior b) = some b := by cases b <;> rfl

theorem asEnum_scheme (b : Metaspace.Scheme) : asEnum schemes (writeScheme b) = some b := by cases b <;> rfl

theorem orNull_ofOpt_bool (b : Option Bool) : orNull asBool (ofOpt .bool b) = some b := by
  cases b <;> rfl

/-! ## Normalizers -/

mutual
/-- **C65.** A normalizer that was written is read again with the same settings, however sequences are nested. -/
theorem C65_normalizer {e : Env} : ∀ c : NormCfg, c.Fits e → readNorm e (writeNorm c) = .ok c
  | .bert a b c d, _ => by
    simp [writeNorm, readNorm, req, Json.get, asStr, normTagged, normUntagged, readBertNorm, asBool, opt,
      orNull_ofOpt_bool, orErr, orTry]
  | .strip a b, _ => by
    simp [writeNorm, readNorm, req, Json.get, asStr, normTagged, readStripNorm, asBool, orErr]
  | .stripAccents, _ => by simp [writeNorm, writeUnit, readNorm, req, Json.get, asStr, normTagged, readUnit, tagged, orErr]
  | .nfc, _ => by simp [writeNorm, writeUnit, readNorm, req, Json.get, asStr, normTagged, readUnit, tagged, orErr]
  | .nfd, _ => by simp [writeNorm, writeUnit, readNorm, req, Json.get, asStr, normTagged, readUnit, tagged, orErr]
  | .nfkc, _ => by simp [writeNorm, writeUnit, readNorm, req, Json.get, asStr, normTagged, readUnit, tagged, orErr]
  | .nfkd, _ => by simp [writeNorm, writeUnit, readNorm, req, Json.get, asStr, normTagged, readUnit, tagged, orErr]
  | .sequence l, h => by
    have ih := norms_roundtrip l h
    simp [writeNorm, readNorm, req, Json.get, asStr, normTagged, readNormField, readNormArr, ih, mapOk]
  | .lowercase, _ => by simp [writeNorm, writeUnit, readNorm, req, Json.get, asStr, normTagged, readUnit, tagged, orErr]
  | .nmt, _ => by simp [writeNorm, writeUnit, readNorm, req, Json.get, asStr, normTagged, readUnit, tagged, orErr]
  | .precompiled s, h => by
    have h : e.charsmap s = true := h
    simp [writeNorm, readNorm, req, Json.get, asStr, normTagged, readPrecompiled, orPanic, h]
  | .replace c, h => by
    have h : e.compiles c.pattern = true := h
    simp [writeNorm, writeReplace, readNorm, req, Json.get, asStr, normTagged, readReplace, readCompiled_writePat h, orErr]
  | .prepend s, _ => by simp [writeNorm, readNorm, req, Json.get, asStr, normTagged, readPrepend, orErr]
  | .byteLevel, _ => by simp [writeNorm, writeUnit, readNorm, req, Json.get, asStr, normTagged, readUnit, tagged, orErr]

theorem norms_roundtrip {e : Env} : ∀ l : List NormCfg, NormCfg.AllFit e l → readNorms e (writeNorms l) = .ok l
  | [], _ => rfl
  | n :: l, h => by
    rw [writeNorms, readNorms, C65_normalizer n h.1, norms_roundtrip l h.2]; rfl
end

/-! ## Structures used in more than one place -/

theorem read_byteLevel {c : ByteLevelCfg} {fs : Fields} (h : writeByteLevel c = .obj fs) : readByteLevel fs = some c := by
  cases h
  simp [readByteLevel, tagged, req, dflt, Json.get, asStr, asBool]

theorem read_metaspace {c : MetaspaceCfg} {fs : Fields} (h : writeMetaspace c = .obj fs) : readMetaspace fs = some c := by
  cases h
  simp [readMetaspace, tagged, req, opt, dflt, Json.get, asStr, asChar, asEnum_scheme, orNull, asBool]

/-! ## Pre-tokenizers -/

mutual
/-- **C65.** A pre-tokenizer that was written is read again with the same settings. -/
theorem C65_pre_tokenizer {e : Env} : ∀ c : PreCfg, c.Fits e → readPre e (writePre c) = some c
  | .bert, _ => by simp [writePre, writeUnit, readPre, req, Json.get, asStr, preTagged, readUnit, tagged]
  | .byteLevel c, _ => by
    have := read_byteLevel (c := c) rfl
    simp [writePre, writeByteLevel, readPre, req, Json.get, asStr, preTagged]
    simpa using this
  | .delimiter c, _ => by
    simp [writePre, readPre, req, Json.get, asStr, preTagged, preUntagged, readUnit, tagged, readByteLevel, readDelimiter,
      asChar]
  | .metaspace c, _ => by
    have := read_metaspace (c := c) rfl
    simp [writePre, writeMetaspace, readPre, req, Json.get, asStr, preTagged]
    simpa using this
  | .whitespace, _ => by simp [writePre, writeUnit, readPre, req, Json.get, asStr, preTagged, readUnit, tagged]
  | .sequence l, h => by
    have ih := pres_roundtrip l h
    simp [writePre, readPre, req, Json.get, asStr, preTagged, readSequence, tagged, readPreField, readPreArr, ih]
  | .split p b i, h => by
    have h : e.compiles p = true := h
    simp [writePre, readPre, req, Json.get, asStr, preTagged, readSplit, tagged, readPat_writePat, asEnum_behavior, asBool, h]
  | .punctuation b, _ => by
    simp [writePre, readPre, req, dflt, Json.get, asStr, preTagged, readPunctuation, tagged, asEnum_behavior]
  | .whitespaceSplit, _ => by simp [writePre, writeUnit, readPre, req, Json.get, asStr, preTagged, readUnit, tagged]
  | .digits b, _ => by simp [writePre, readPre, req, Json.get, asStr, preTagged, readDigits, tagged, asBool]
  | .unicodeScripts, _ => by simp [writePre, writeUnit, readPre, req, Json.get, asStr, preTagged, readUnit, tagged]
  | .fixedLength n, h => by
    have h : n < 18446744073709551616 := h
    simp [writePre, readPre, req, dflt, Json.get, asStr, preTagged, readFixedLength, tagged, asUsize_int h]

theorem pres_roundtrip {e : Env} : ∀ l : List PreCfg, PreCfg.AllFit e l → readPres e (writePres l) = some l
  | [], _ => rfl
  | n :: l, h => by
    rw [writePres, readPres, C65_pre_tokenizer n h.1, pres_roundtrip l h.2]; rfl
end

/-! ## Decoders -/

mutual
/-- **C65.** A decoder that was written is read again with the same settings. -/
theorem C65_decoder {e : Env} : ∀ c : DecCfg, c.Fits e → readDec e (writeDec c) = some c
  | .bpe s, _ => by simp [writeDec, readDec, req, Json.get, asStr, decTagged, readBpeDec]
  | .byteLevel c, _ => by
    have := read_byteLevel (c := c) rfl
    simp [writeDec, writeByteLevel, readDec, req, Json.get, asStr, decTagged]
    simpa using this
  | .wordPiece p c, _ => by simp [writeDec, readDec, req, Json.get, asStr, asBool, decTagged, readWordPieceDec]
  | .metaspace c, _ => by
    have := read_metaspace (c := c) rfl
    simp [writeDec, writeMetaspace, readDec, req, Json.get, asStr, decTagged]
    simpa using this
  | .ctc p d c, _ => by simp [writeDec, readDec, req, Json.get, asStr, asBool, decTagged, readCtc]
  | .sequence l, h => by
    have ih := decs_roundtrip l h
    simp [writeDec, readDec, req, Json.get, asStr, decTagged, readSequence, tagged, readDecField, readDecArr, ih]
  | .replace c, h => by
    have h : e.compiles c.pattern = true := h
    simp [writeDec, writeReplace, readDec, req, Json.get, asStr, decTagged, readReplace, readCompiled_writePat h]
  | .fuse, _ => by simp [writeDec, writeUnit, readDec, req, Json.get, asStr, decTagged, readUnit, tagged]
  | .strip c a b, h => by
    have h : a < 18446744073709551616 ∧ b < 18446744073709551616 := h
    simp [writeDec, readDec, req, Json.get, asStr, asChar, decTagged, readStripDec, asUsize_int h.1, asUsize_int h.2]
  | .byteFallback, _ => by simp [writeDec, writeUnit, readDec, req, Json.get, asStr, decTagged, readUnit, tagged]

theorem decs_roundtrip {e : Env} : ∀ l : List DecCfg, DecCfg.AllFit e l → readDecs e (writeDecs l) = some l
  | [], _ => rfl
  | n :: l, h => by
    rw [writeDecs, readDecs, C65_decoder n h.1, decs_roundtrip l h.2]; rfl
end

/-! ## Post-processors -/

/-- A type id is of type `u32`. -/
def PieceFits : Post.Piece → Prop
  | .sequence _ n => n < 4294967296
  | .special _ n => n < 4294967296

/-- What is true of every template: its numbers are of type `u32`, its special tokens are a map. -/
structure TemplateFits (t : Post.Template) : Prop where
  single : ∀ p ∈ t.single, PieceFits p
  pair : ∀ p ∈ t.pair, PieceFits p
  map : t.specials.WF
  ids : ∀ p ∈ t.specials, ∀ i ∈ p.2.ids, i < 4294967296

/-- The counts are those of the pieces, as they are when the template comes from the builder with both templates given, or
from a file. -/
def Counted (t : Post.Template) : Prop :=
  t.addedSingle = Post.countAdded t.single t.specials ∧ t.addedPair = Post.countAdded t.pair t.specials

mutual
/-- The numbers are of type `u32`, the maps are maps. -/
def ProcCfg.Fits : ProcCfg → Prop
  | .roberta s c _ _ => s.2 < 4294967296 ∧ c.2 < 4294967296
  | .bert s c => s.2 < 4294967296 ∧ c.2 < 4294967296
  | .byteLevel _ => True
  | .template t => TemplateFits t
  | .sequence l => ProcCfg.AllFit l

/-- So for each of the elements. -/
def ProcCfg.AllFit : List ProcCfg → Prop
  | [] => True
  | n :: l => n.Fits ∧ ProcCfg.AllFit l
end

/-- Templates with the same pieces and the same map; the second has the counts of the pieces. -/
structure Recounted (t t' : Post.Template) : Prop where
  single : t'.single = t.single
  pair : t'.pair = t.pair
  specials : ∀ k, t'.specials.get k = t.specials.get k
  addedSingle : t'.addedSingle = Post.countAdded t.single t.specials
  addedPair : t'.addedPair = Post.countAdded t.pair t.specials
  map : t'.specials.WF

mutual
/-- The same processors with the same settings, but for the counts of templates. -/
inductive SameProc : ProcCfg → ProcCfg → Prop
  | roberta (s c t a) : SameProc (.roberta s c t a) (.roberta s c t a)
  | bert (s c) : SameProc (.bert s c) (.bert s c)
  | byteLevel (c) : SameProc (.byteLevel c) (.byteLevel c)
  | template {t t'} (h : Recounted t t') : SameProc (.template t) (.template t')
  | sequence {l l'} (h : SameProcs l l') : SameProc (.sequence l) (.sequence l')

/-- So for each of the elements. -/
inductive SameProcs : List ProcCfg → List ProcCfg → Prop
  | nil : SameProcs [] []
  | cons {c c' l l'} (h : SameProc c c') (hl : SameProcs l l') : SameProcs (c :: l) (c' :: l')
end

theorem mapM_map {α β : Type} {w : α → β} {r : β → Option α} : ∀ {l : List α}, (∀ a ∈ l, r (w a) = some a) →
    (l.map w).mapM r = some l
  | [], _ => rfl
  | a :: l, h => by
    rw [List.map_cons, List.mapM_cons, h a (by simp), mapM_map fun b hb => h b (by simp [hb])]; rfl

theorem readMark_writeMark {m : Str × Nat} (h : m.2 < 4294967296) : readMark (writeMark m) = some m := by
  simp [readMark, writeMark, asStr, asU32_int h]

theorem readPiece_writePiece {p : Post.Piece} (h : PieceFits p) : readPiece (writePiece p) = some p := by
  cases p with
  | sequence i n =>
    have h : n < 4294967296 := h
    cases i <;> simp [writePiece, readPiece, req, Json.get, asEnum, seqs, asU32_int h]
  | special s n =>
    have h : n < 4294967296 := h
    simp [writePiece, readPiece, req, Json.get, asStr, asU32_int h]

theorem readSpecial_writeSpecial {t : Post.SpecialToken} (h : ∀ i ∈ t.ids, i < 4294967296) :
    readSpecial (writeSpecial t) = some t := by
  have h1 : (t.ids.map fun n : Nat => Json.int n).mapM asU32 = some t.ids := mapM_map fun i hi => asU32_int (h i hi)
  have h2 : (t.tokens.map Json.str).mapM asStr = some t.tokens := mapM_map fun i hi => rfl
  simp [writeSpecial, readSpecial, req, Json.get, asStr, asList, h1, h2]

theorem insertByKey_perm {α : Type} (p : Str × α) : ∀ l, (insertByKey p l).Perm (p :: l)
  | [] => .refl _
  | q :: l => by
    rw [insertByKey]
    split
    · exact .refl _
    · exact ((insertByKey_perm p l).cons q).trans (.swap p q l)

theorem byKey_perm {α : Type} : ∀ l : List (Str × α), (byKey l).Perm l
  | [] => .refl _
  | p :: l => (insertByKey_perm p (byKey l)).trans ((byKey_perm l).cons p)

theorem get_of_perm {K V : Type} [DecidableEq K] {m m' : AMap K V} (hw : m.WF) (h : m.Perm m') (k : K) :
    m'.get k = m.get k := by
  have hw' : m'.WF := (h.map _).nodup_iff.1 hw
  have : ∀ v, m'.get k = some v ↔ m.get k = some v := fun v =>
    ⟨fun hv => AMap.get_eq_some_of_mem hw (h.mem_iff.2 (AMap.mem_of_get_eq_some hv)),
     fun hv => AMap.get_eq_some_of_mem hw' (h.mem_iff.1 (AMap.mem_of_get_eq_some hv))⟩
  cases hx : m.get k with
  | some v => exact (this v).2 hx
  | none =>
    cases hy : m'.get k with
    | none => rfl
    | some v => rw [(this v).1 hy] at hx; cases hx

theorem extend_get {K V : Type} [DecidableEq K] {l : List (K × V)} (hw : AMap.WF l) (k : K) :
    (AMap.extend [] l).get k = AMap.get l k := by
  rw [get_extend]
  have : AMap.get l.reverse k = AMap.get l k := get_of_perm hw (List.reverse_perm l).symm k
  rw [show (l.reverse.find? fun p => p.1 = k).map (·.2) = AMap.get l k from this]
  simp [AMap.get]

theorem countAdded_cong {spt spt' : Post.Tokens} (h : ∀ k, spt'.get k = spt.get k) (l : List Post.Piece) :
    Post.countAdded l spt' = Post.countAdded l spt := by
  unfold Post.countAdded
  congr 1
  refine List.map_congr_left fun p _ => ?_
  cases p <;> simp [Post.pieceAdded, h]

theorem read_template {t : Post.Template} (h : TemplateFits t) {fs : Fields} (hf : writeTemplate t = .obj fs) :
    ∃ t', readTemplate fs = some t' ∧ Recounted t t' := by
  cases hf
  have h1 : (t.single.map writePiece).mapM readPiece = some t.single :=
    mapM_map fun p hp => readPiece_writePiece (h.single p hp)
  have h2 : (t.pair.map writePiece).mapM readPiece = some t.pair :=
    mapM_map fun p hp => readPiece_writePiece (h.pair p hp)
  have h3 : ((byKey t.specials).map fun p => (p.1, writeSpecial p.2)).mapM
      (fun f => (readSpecial f.2).map fun x => (f.1, x)) = some (byKey t.specials) :=
    mapM_map fun p hp => by
      simp only [readSpecial_writeSpecial (h.ids p ((byKey_perm _).mem_iff.1 hp)), Option.map_some]
  have hg : ∀ k, (AMap.extend [] (byKey t.specials)).get k = t.specials.get k := fun k => by
    rw [extend_get (((byKey_perm t.specials).map _).nodup_iff.2 h.map),
      get_of_perm h.map (byKey_perm t.specials).symm]
  refine ⟨Post.ofJson t.single t.pair (AMap.extend [] (byKey t.specials)), ?_, rfl, rfl, hg, countAdded_cong hg _,
    countAdded_cong hg _, AMap.WF.nil.extend _⟩
  simp [readTemplate, req, Json.get, asList, asMap, h1, h2, h3]

mutual
/-- **C65.** A post-processor that was written is read again with the same settings; the counts of a template are those of
its pieces. -/
theorem C65_post_processor : ∀ c : ProcCfg, c.Fits → ∃ c', readProc (writeProc c) = some c' ∧ SameProc c c'
  | .roberta s c t a, h => by
    refine ⟨_, ?_, .roberta s c t a⟩
    have h : s.2 < 4294967296 ∧ c.2 < 4294967296 := h
    simp [writeProc, readProc, procUntagged, readRoberta, req, Json.get, readMark_writeMark h.1, readMark_writeMark h.2,
      asBool]
  | .bert s c, h => by
    refine ⟨_, ?_, .bert s c⟩
    have h : s.2 < 4294967296 ∧ c.2 < 4294967296 := h
    simp [writeProc, readProc, procUntagged, readRoberta, readBertProc, req, Json.get, readMark_writeMark h.1,
      readMark_writeMark h.2]
  | .byteLevel c, _ => by
    refine ⟨_, ?_, .byteLevel c⟩
    have := read_byteLevel (c := c) rfl
    simp [writeProc, writeByteLevel, readProc, procUntagged, readRoberta, readBertProc, req, Json.get]
    rw [show readByteLevel _ = some c by simpa using this]
  | .template t, h => by
    obtain ⟨t', h1, h2⟩ := read_template h rfl
    refine ⟨_, ?_, .template h2⟩
    simp [writeProc, writeTemplate, readProc, procUntagged, readRoberta, readBertProc, readByteLevel, tagged, req, Json.get,
      asStr]
    rw [show readTemplate _ = some t' by simpa using h1]
  | .sequence l, h => by
    obtain ⟨l', h1, h2⟩ := procs_roundtrip l h
    refine ⟨_, ?_, .sequence h2⟩
    simp [writeProc, readProc, procUntagged, readRoberta, readBertProc, readByteLevel, readTemplate, readSequence, tagged,
      req, Json.get, asStr, readProcField, readProcArr, h1]

theorem procs_roundtrip : ∀ l : List ProcCfg, ProcCfg.AllFit l →
    ∃ l', readProcs (writeProcs l) = some l' ∧ SameProcs l l'
  | [], _ => ⟨[], rfl, .nil⟩
  | n :: l, h => by
    obtain ⟨n', h1, h2⟩ := C65_post_processor n h.1
    obtain ⟨l', h3, h4⟩ := procs_roundtrip l h.2
    exact ⟨n' :: l', by rw [writeProcs, readProcs, h1, h3]; rfl, .cons h2 h4⟩
end

end Tok.Save
