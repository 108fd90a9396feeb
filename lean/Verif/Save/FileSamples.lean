import Verif.Save.FileRoundTrip
import Verif.Save.Reread

/-!
# C65: the order of the fields, examples, and what loading accepts or refuses
-/

namespace Tok.Save
open Json

/-! ## The order of the fields -/

theorem get_perm {fs fs' : Fields} (h : fs.Perm fs') (hd : (fs.map (·.1)).Nodup) (k : Str) :
    Json.get fs' k = Json.get fs k := by
  induction h with
  | nil => rfl
  | cons x _ ih =>
    obtain ⟨a, v⟩ := x
    rw [Json.get, Json.get, ih (List.nodup_cons.1 (by simpa using hd)).2]
  | swap x y l =>
    obtain ⟨a, v⟩ := x
    obtain ⟨b, w⟩ := y
    have hab : b ≠ a := by
      intro e
      subst e
      simp at hd
    simp only [Json.get]
    by_cases h1 : a = k
    · subst h1; simp [hab]
    · simp [h1]
  | trans h1 _ ih1 ih2 => rw [ih2 ((h1.map _).nodup_iff.1 hd), ih1 hd]

theorem readNormField_eq (e : Env) : ∀ fs, readNormField e fs =
    (Json.get fs "normalizers".toList).elim (.err ()) (readNormArr e)
  | [] => by rw [readNormField]; rfl
  | (k, v) :: fs => by
    rw [readNormField, Json.get]
    split
    · rfl
    · exact readNormField_eq e fs

theorem readPreField_eq (e : Env) : ∀ fs, readPreField e fs =
    (Json.get fs "pretokenizers".toList).elim none (readPreArr e)
  | [] => by rw [readPreField]; rfl
  | (k, v) :: fs => by
    rw [readPreField, Json.get]
    split
    · rfl
    · exact readPreField_eq e fs

theorem readDecField_eq (e : Env) : ∀ fs, readDecField e fs =
    (Json.get fs "decoders".toList).elim none (readDecArr e)
  | [] => by rw [readDecField]; rfl
  | (k, v) :: fs => by
    rw [readDecField, Json.get]
    split
    · rfl
    · exact readDecField_eq e fs

theorem readProcField_eq : ∀ fs, readProcField fs = (Json.get fs "processors".toList).elim none readProcArr
  | [] => by rw [readProcField]; rfl
  | (k, v) :: fs => by
    rw [readProcField, Json.get]
    split
    · rfl
    · exact readProcField_eq fs

/-- **C65.** The order of the fields in the file, and in the object of a component or of a model, makes no difference. -/
theorem C65_order {fs fs' : Fields} (h : fs.Perm fs') (hd : (fs.map (·.1)).Nodup) (e : Env) (skip : Bool)
    (build : List (Str × Nat) → Bool) (norm : Option NormCfg → AddedVocab.Norm) :
    load e skip build norm (.obj fs') = load e skip build norm (.obj fs) ∧ readNorm e (.obj fs') = readNorm e (.obj
        fs) ∧
    readPre e (.obj fs') = readPre e (.obj fs) ∧ readDec e (.obj fs') = readDec e (.obj fs) ∧
    readProc (.obj fs') = readProc (.obj fs) ∧ readModel (.obj fs') = readModel (.obj fs) := by
  have hg : Json.get fs' = Json.get fs := funext (get_perm h hd)
  have hany : fs'.any (fun f => !knownKeys.contains f.1) = fs.any (fun f => !knownKeys.contains f.1) := by
    rw [Bool.eq_iff_iff, List.any_eq_true, List.any_eq_true]
    exact ⟨fun ⟨x, hx, h'⟩ => ⟨x, h.mem_iff.2 hx, h'⟩, fun ⟨x, hx, h'⟩ => ⟨x, h.mem_iff.1 hx, h'⟩⟩
  refine ⟨?_, ?_, ?_, ?_, ?_, ?_⟩
  · have h1 : readRest e fs' = readRest e fs := by simp only [readRest, opt, dflt, hg]
    have h2 : versionOk fs' = versionOk fs := by simp only [versionOk, hg]
    have h3 : readNormOpt e fs' = readNormOpt e fs := by simp only [readNormOpt, hg]
    have h4 : readModelField fs' = readModelField fs := by simp only [readModelField, hg]
    rw [load, load, hany, h1, h2, h3, h4]
  · have h1 : readNormField e fs' = readNormField e fs := by rw [readNormField_eq, readNormField_eq, hg]
    have h2 : normTagged e fs' = normTagged e fs := by
      funext sub t
      unfold normTagged readBertNorm readStripNorm readUnit tagged readPrecompiled readReplace readPrepend req opt
      rw [hg]
    have h3 : normUntagged e fs' = normUntagged e fs := by
      funext sub
      unfold normUntagged readBertNorm readStripNorm readUnit tagged readPrecompiled readReplace readPrepend req opt
      rw [hg]
    rw [readNorm, readNorm, h1, h2, h3, req, req, hg]
  · have h1 : readPreField e fs' = readPreField e fs := by rw [readPreField_eq, readPreField_eq, hg]
    have h2 : preTagged e fs' = preTagged e fs := by
      funext sub t
      unfold preTagged readUnit readByteLevel readDelimiter readMetaspace readSequence readSplit
        readPunctuation readDigits readFixedLength tagged req opt dflt
      rw [hg]
    have h3 : preUntagged e fs' = preUntagged e fs := by
      funext sub
      unfold preUntagged readUnit readByteLevel readDelimiter readMetaspace readSequence readSplit
        readPunctuation readDigits readFixedLength tagged req opt dflt
      rw [hg]
    rw [readPre, readPre, h1, h2, h3, req, req, hg]
  · have h1 : readDecField e fs' = readDecField e fs := by rw [readDecField_eq, readDecField_eq, hg]
    have h2 : decTagged e fs' = decTagged e fs := by
      funext sub t
      unfold decTagged readBpeDec readByteLevel readWordPieceDec readMetaspace readCtc readSequence readReplace
        readUnit tagged readStripDec req opt dflt
      rw [hg]
    have h3 : decUntagged e fs' = decUntagged e fs := by
      funext sub
      unfold decUntagged readBpeDec readByteLevel readWordPieceDec readMetaspace readCtc readSequence readReplace
        readUnit tagged readStripDec req opt dflt
      rw [hg]
    rw [readDec, readDec, h1, h2, h3, req, req, hg]
  · have h1 : readProcField fs' = readProcField fs := by rw [readProcField_eq, readProcField_eq, hg]
    have h3 : procUntagged fs' = procUntagged fs := by
      funext sub
      unfold procUntagged readRoberta readBertProc readByteLevel readTemplate readSequence tagged req dflt
      rw [hg]
    rw [readProc, readProc, h1, h3]
  · have h1 : readBpeFields fs' = readBpeFields fs := by simp only [readBpeFields, req, opt, hg]
    have h2 : readWordPiece fs' = readWordPiece fs := by simp only [readWordPiece, req, hg]
    have h3 : readWordLevel fs' = readWordLevel fs := by simp only [readWordLevel, req, hg]
    have h4 : readUnigram fs' = readUnigram fs := by simp only [readUnigram, req, opt, dflt, hg]
    rw [readModel, readModel, hg, h2, h3, h4, readBpe, readBpe, h1]

/-! ## Examples -/

/-- Everything compiles; charsmaps of even length are accepted. -/
def sampleEnv : Env := ⟨fun _ => true, fun s => s.length % 2 = 0⟩

/-- Sequences in sequences. -/
def sampleNorm : NormCfg :=
  .sequence [.bert true false (some true) true, .sequence [.nfkc, .replace ⟨.regex " {2,}".toList, " ".toList⟩],
    .precompiled "AAEC".toList, .prepend "▁".toList, .byteLevel]

def samplePre : PreCfg :=
  .sequence [.split (.str "é".toList) .mergedWithNext true, .sequence [.digits true, .fixedLength 3],
    .metaspace ⟨'▁', .first, false⟩, .byteLevel ⟨false, true, true⟩, .delimiter ' ', .punctuation .contiguous]

def sampleDec : DecCfg :=
  .sequence [.replace ⟨.str "▁".toList, " ".toList⟩, .byteFallback, .fuse, .strip ' ' 1 0, .sequence [.bpe "</w>".toList]]

/-- Two templates whose special tokens are in a map with its keys not in order. -/
def sampleProc : ProcCfg :=
  .sequence [.byteLevel ⟨true, false, true⟩,
    .template ⟨[.special "[S]".toList 0, .sequence .A 0], [.sequence .A 0, .special "[E]".toList 1, .sequence .B 1], 2, 1,
      [("[S]".toList, ⟨"[S]".toList, [7, 8], ["[S".toList, "]".toList]⟩), ("[E]".toList, ⟨"[E]".toList, [9], ["[E]".toList]⟩)]⟩]

theorem sampleNorm_fits : sampleNorm.Fits sampleEnv :=
  ⟨trivial, ⟨trivial, rfl, trivial⟩, show sampleEnv.charsmap _ = true by decide, trivial, trivial, trivial⟩

theorem samplePre_fits : samplePre.Fits sampleEnv :=
  ⟨rfl, ⟨trivial, by show (3 : Nat) < _; omega, trivial⟩, trivial, trivial, trivial, trivial, trivial⟩

theorem sampleDec_fits : sampleDec.Fits sampleEnv :=
  ⟨rfl, trivial, trivial, ⟨by omega, by omega⟩, ⟨trivial, trivial⟩, trivial⟩

theorem sampleProc_fits : sampleProc.Fits :=
  ⟨trivial, ⟨by simp [PieceFits], by simp [PieceFits], show List.Nodup _ by decide, by decide⟩, trivial⟩

example : readNorm sampleEnv (writeNorm sampleNorm) = .ok sampleNorm := C65_normalizer _ sampleNorm_fits
example : readPre sampleEnv (writePre samplePre) = some samplePre := C65_pre_tokenizer _ samplePre_fits
example : readDec sampleEnv (writeDec sampleDec) = some sampleDec := C65_decoder _ sampleDec_fits
example : ∃ c', readProc (writeProc sampleProc) = some c' ∧ SameProc sampleProc c' := C65_post_processor _ sampleProc_fits

/-- A file written by hand, without `type` and with a `null`, is read; so the theorems on reading again apply. -/
example : readNorm sampleEnv (.obj [("lowercase".toList, .bool true), ("strip_accents".toList, .null),
    ("clean_text".toList, .bool false), ("handle_chinese_chars".toList, .bool true)]) = .ok (.bert false true none true) := rfl

/-- A tokenizer with a BPE model, all components, and added tokens with a history. -/
def sampleConf : Conf :=
  ⟨some ⟨512, .onlyFirst, 16, .left⟩, some ⟨.fixed 8, .right, some 4, ⟨0, 0, "[PAD]".toList⟩⟩,
    AddedVocab.after (fun _ => true) (Mod.bpe none holeBpe).view .empty
      [.add none [.ofStr "<s>".toList true, .ofStr "ab".toList false], .setEncodeSpecial true],
    some sampleNorm, some samplePre, some sampleProc, some sampleDec, .bpe none holeBpe⟩

theorem sampleMod_fits : (Mod.bpe none holeBpe).Fits := by
  refine .bpe hole_built (fun c i h => ?_) rfl rfl
  have : ∀ p ∈ holeBpe.vocab, p.2 < 4294967296 := by decide
  exact this (c, i) (AMap.mem_of_get_eq_some h)

theorem sampleConf_fits : sampleConf.Fits sampleEnv where
  truncation t h := by cases h; exact ⟨by decide, by decide⟩
  padding p h := by
    cases h
    exact ⟨fun n h => by cases h; decide, fun n h => by cases h; decide, by decide, by decide⟩
  added i t h := by
    have : ∀ p ∈ sampleConf.added.rmap, p.1 < 4294967296 := by decide +kernel
    exact this (i, t) (AMap.mem_of_get_eq_some h)
  normalizer n h := by cases h; exact sampleNorm_fits
  preTok n h := by cases h; exact samplePre_fits
  proc n h := by cases h; exact sampleProc_fits
  decoder n h := by cases h; exact sampleDec_fits
  model := sampleMod_fits

theorem bpeView_ok {b : Bpe.Bpe} (h : Bpe.Built b) (hs : ∀ c i, b.vocab.get c = some i → i < b.vocab.length) :
    (Tokenizer.bpeView b).Ok :=
  ⟨hs, fun c i => Bpe.C46_bpe_vocab_inverse h c i⟩

example : ∃ j c', save sampleConf = some j ∧ load sampleEnv false (fun _ => true) (fun _ => none) j = .ok c' ∧
    SameConf (fun _ => none) sampleConf c' ∧ c'.Fits sampleEnv :=
  C65_file false (fun _ _ _ => rfl) sampleConf_fits
    (bpeView_ok hole_built (by
      intro c i h
      have : ∀ p ∈ holeBpe.vocab, p.2 < holeBpe.vocab.length := by decide
      exact this (c, i) (AMap.mem_of_get_eq_some h)))
    rfl (by decide +kernel)

example : [("prepend".toList, Json.str "x".toList), ("type".toList, .str "Prepend".toList)].Perm
    [("type".toList, Json.str "Prepend".toList), ("prepend".toList, .str "x".toList)] := .swap _ _ _

/-! ## What loading accepts and refuses -/

/-- **C65 (finding).** The pre-tokenizer that splits at a character has two names: the wrapper expects `Delimiter`
(`pre_tokenizers/mod.rs:79`), the structure `CharDelimiterSplit`. An object with the first as its `type` cannot be read,
whatever else it has. -/
theorem C65_delimiter_unreadable (e : Env) {fs : Fields} (h : Json.get fs "type".toList = some (.str "Delimiter".toList)) :
    readPre e (.obj fs) = none := by
  have ht : req fs "type".toList asStr = some "Delimiter".toList := by rw [req, h]; rfl
  have hd : readDelimiter fs = none := by rw [readDelimiter, tagged, ht]; rfl
  rw [readPre, ht, Option.bind_some, show preTagged e fs (readPreField e fs) "Delimiter".toList = some (readDelimiter fs)
    from rfl, hd]

/-- **C65 (finding).** A charsmap that is refused makes loading panic (`.expect`, `normalizers/mod.rs:147-150`), also inside
sequences, instead of giving an error. -/
theorem C65_charsmap_panics (e : Env) {s : Str} (h : e.charsmap s = false) :
    readNorm e (.obj [("type".toList, .str "Precompiled".toList), ("precompiled_charsmap".toList, .str s)]) = .panic ∧
    ∀ skip build norm, load e skip build norm (.obj [("normalizer".toList,
      .obj [("type".toList, .str "Precompiled".toList), ("precompiled_charsmap".toList, .str s)])]) = .panic := by
  have h1 : readNorm e (.obj [("type".toList, .str "Precompiled".toList), ("precompiled_charsmap".toList, .str s)]) =
      .panic := by
    simp [readNorm, req, Json.get, asStr, normTagged, readPrecompiled, h, orPanic]
  refine ⟨h1, fun skip build norm => ?_⟩
  simp at h1
  simp [load, knownKeys, versionOk, Json.get, readRest, opt, dflt, readNormOpt, h1, mapOk]

/-- **C65 (finding).** The `type` of a post-processor is not looked at: `BertProcessing` with the two fields of
`RobertaProcessing` is read as the latter. -/
theorem C65_bert_read_as_roberta {s c : Str × Nat} (hs : s.2 < 4294967296) (hc : c.2 < 4294967296) (t a : Bool) :
    readProc (.obj [("type".toList, .str "BertProcessing".toList), ("sep".toList, writeMark s), ("cls".toList, writeMark c),
      ("trim_offsets".toList, .bool t), ("add_prefix_space".toList, .bool a)]) = some (.roberta s c t a) := by
  simp [readProc, procUntagged, readRoberta, req, Json.get, readMark_writeMark hs, readMark_writeMark hc, asBool]

/-- **C65 (finding).** A `type` that is not known is no error: the structures are tried in order. With a misspelled `type` a
normalizer is read as another one that has the same field. -/
theorem C65_unknown_type (e : Env) {t s : Str} (ht : t ∉ ["Bert".toList, "Strip".toList, "StripAccents".toList, "NFC".toList,
    "NFD".toList, "NFKC".toList, "NFKD".toList, "Sequence".toList, "Lowercase".toList, "Nmt".toList, "Precompiled".toList,
    "Replace".toList, "Prepend".toList, "ByteLevel".toList]) :
    readNorm e (.obj [("type".toList, .str t), ("prepend".toList, .str s)]) = .ok (.prepend s) := by
  simp at ht
  simp [readNorm, readNormField, req, Json.get, asStr, normTagged, ht, normUntagged, readBertNorm, readStripNorm, readUnit,
    tagged, readPrecompiled, readReplace, readPrepend, orErr, orTry, mapOk]

example : readNorm sampleEnv (.obj [("type".toList, .str "Append".toList), ("prepend".toList, .str "x".toList)]) =
    .ok (.prepend "x".toList) := C65_unknown_type _ (by decide)

/-- **C65 (finding).** A `Metaspace` in the old format with `add_prefix_space` false and without `prepend_scheme` is always
refused: the scheme that is missing counts as `always` (`pre_tokenizers/metaspace.rs:42-67`). -/
theorem C65_old_metaspace_refused {fs : Fields} (h : Json.get fs "add_prefix_space".toList = some (.bool false))
    (hp : Json.get fs "prepend_scheme".toList = none) (e : Env)
    (ht : Json.get fs "type".toList = some (.str "Metaspace".toList)) :
    readPre e (.obj fs) = none ∧ readDec e (.obj fs) = none := by
  have : readMetaspace fs = none := by
    simp only [readMetaspace, opt, dflt, h, hp]
    split
    · simp [orNull, asBool]
    · rfl
  have ht : req fs "type".toList asStr = some "Metaspace".toList := by rw [req, ht]; rfl
  constructor
  · rw [readPre, ht, Option.bind_some, show preTagged e fs (readPreField e fs) "Metaspace".toList =
      some ((readMetaspace fs).map .metaspace) from rfl, this]
    rfl
  · rw [readDec, ht, Option.bind_some, show decTagged e fs (readDecField e fs) "Metaspace".toList =
      some ((readMetaspace fs).map .metaspace) from rfl, this]
    rfl

/-- **C65 (finding).** Special tokens of a template are read without the check of `SpecialToken::new` that there are as many
ids as texts. -/
theorem C65_special_token_unchecked : ∃ j t, readSpecial j = some t ∧ Post.SpecialToken.new t.id t.ids t.tokens = none :=
  ⟨writeSpecial ⟨"[S]".toList, [1, 2], ["[S]".toList]⟩, _, readSpecial_writeSpecial (by decide), by decide⟩

/-- **C65 (finding).** Parameters of truncation are read without the check of `with_truncation`: a file may have a stride
that is larger than the length. -/
theorem C65_truncation_unchecked : ∃ j t, readTruncation j = some t ∧
    ∀ checked, (⟨none, none, none⟩ : Post.Settings).truncationOk checked t = some false :=
  ⟨writeTruncation ⟨2, .longestFirst, 5, .right⟩, _, C65_truncation ⟨by decide, by decide⟩, by decide⟩

/-- **C65 (finding).** `dropout` is a public field of `BPE`. If it is set to a number that is not a probability, the
tokenizer works and is saved, but the file is not accepted. -/
theorem C65_dropout_out_of_range : ∃ m j, writeModel m = some j ∧ readModel j = .err () :=
  ⟨.bpe (some 2) holeBpe, _, rfl, rfl⟩

/-- **C65 (finding).** The counts of a template are computed anew when it is loaded: a template whose counts were not those
of its pieces (from `set_single`, or from the builder with one template only) inserts the same tokens but reports other
numbers. -/
theorem C65_counts_change : ∃ c c', ProcCfg.Fits (.template c) ∧ readProc (writeProc (.template c)) = some (.template c') ∧
    c.addedSingle ≠ c'.addedSingle :=
  ⟨⟨[.special "[S]".toList 0, .sequence .A 0], [], 0, 0, [("[S]".toList, ⟨"[S]".toList, [7], ["[S]".toList]⟩)]⟩, _,
    ⟨by simp [PieceFits], by simp, show List.Nodup _ by decide, by decide⟩, rfl, by decide⟩

end Tok.Save
