import Verif.Save.FileSamples

/-!
# C95: fields that are missing in tokenizer.json
-/

namespace Tok.Save.Defaults

open Json

/-- An object with one more field. -/
def with' (fs : Fields) (k : Str) (v : Json) : Json := .obj ((k, v) :: fs)

/-- **C95, version.** A file with another version than `1.0` is refused, whatever else is in it. -/
theorem C95_version {fs : Fields} {v : Json} (h : Json.get fs "version".toList = some v) (hv : v ≠ .str "1.0".toList) (e : Env)
    (skip : Bool) (build : List (Str × Nat) → Bool) (norm : Option NormCfg → AddedVocab.Norm) :
    load e skip build norm (.obj fs) = .err () := by
  have : versionOk fs = false := by
    unfold versionOk
    rw [h]
    cases v with
    | str s =>
      have : s ≠ "1.0".toList := fun hs => hv (by rw [hs])
      exact decide_eq_false this
    | _ => rfl
  rw [load, this]
  simp

/-- The values that stand for a missing part of the file. -/
def fileDefaults : List (Str × Json) :=
  [("version".toList, .str "1.0".toList), ("truncation".toList, .null), ("padding".toList, .null), ("added_tokens".toList, .arr []),
    ("normalizer".toList, .null), ("pre_tokenizer".toList, .null), ("post_processor".toList, .null), ("decoder".toList, .null)]

theorem get_with {fs : Fields} {k : Str} (v : Json) (x : Str) :
    Json.get ((k, v) :: fs) x = if k = x then some v else Json.get fs x := rfl

/-- **C95, file.** A missing version is version `1.0`, no added tokens are an empty list of them, and any other part but the model may
be missing, with the meaning of `null`. -/
theorem C95_file {fs : Fields} {d : Str × Json} (hd : d ∈ fileDefaults) (h : Json.get fs d.1 = none) (e : Env)
    (skip : Bool) (build : List (Str × Nat) → Bool) (norm : Option NormCfg → AddedVocab.Norm) :
    load e skip build norm (with' fs d.1 d.2) = load e skip build norm (.obj fs) := by
  have hk : knownKeys.contains d.1 = true := by
    have : ∀ d ∈ fileDefaults, knownKeys.contains d.1 = true := by decide +kernel
    exact this d hd
  have key : versionOk ((d.1, d.2) :: fs) = versionOk fs ∧ readRest e ((d.1, d.2) :: fs) = readRest e fs ∧
      readNormOpt e ((d.1, d.2) :: fs) = readNormOpt e fs ∧ readModelField ((d.1, d.2) :: fs) = readModelField fs := by
    simp only [fileDefaults, List.mem_cons, List.not_mem_nil, or_false] at hd
    rcases hd with rfl | rfl | rfl | rfl | rfl | rfl | rfl | rfl <;> simp at h <;>
      simp [versionOk, readRest, readNormOpt, readModelField, opt, dflt, get_with, h, orNull, asList]
  rw [with', load, load, key.1, key.2.1, key.2.2.1, key.2.2.2, List.any_cons, hk]
  rfl

/-- **C95, model.** Without a model nothing is loaded (there may be a panic: a bad character map of the normalizer). -/
theorem C95_no_model {fs : Fields} (h : Json.get fs "model".toList = none) (e : Env) (skip : Bool)
    (build : List (Str × Nat) → Bool) (norm : Option NormCfg → AddedVocab.Norm) (c : Conf) :
    load e skip build norm (.obj fs) ≠ .ok c := by
  intro hc
  have hm : readModelField fs = .err () := by unfold readModelField; rw [h]
  rw [load, hm] at hc
  repeat' split at hc
  all_goals first | (cases hc; done) | contradiction

/-- The options of a BPE model that may be missing. -/
def bpeOptions : List Str :=
  ["dropout".toList, "unk_token".toList, "continuing_subword_prefix".toList, "end_of_word_suffix".toList, "fuse_unk".toList,
    "byte_fallback".toList, "ignore_merges".toList]

/-- **C95, BPE.** An option of BPE that is missing is as `null`; `fuse_unk`, `byte_fallback` and `ignore_merges` are then `false`. -/
theorem C95_bpe {fs : Fields} {k : Str} (hk : k ∈ bpeOptions) (h : Json.get fs k = none)
    (ht : Json.get fs "type".toList = some (.str "BPE".toList)) :
    readModel (with' fs k .null) = readModel (.obj fs) ∧
    (k ∈ ["fuse_unk".toList, "byte_fallback".toList, "ignore_merges".toList] →
      readModel (with' fs k (.bool false)) = readModel (.obj fs)) := by
  have hne : k ≠ "type".toList := by
    have : ∀ k ∈ bpeOptions, k ≠ "type".toList := by decide +kernel
    exact this k hk
  have hr : ∀ v, readModel (with' fs k v) = readBpe ((k, v) :: fs) := by
    intro v
    rw [with', readModel, get_with, if_neg hne, ht]
    rfl
  have hr0 : readModel (.obj fs) = readBpe fs := by
    rw [readModel, ht]
    rfl
  constructor
  · rw [hr, hr0]
    have : readBpeFields ((k, .null) :: fs) = readBpeFields fs := by
      simp only [bpeOptions, List.mem_cons, List.not_mem_nil, or_false] at hk
      rcases hk with rfl | rfl | rfl | rfl | rfl | rfl | rfl <;> simp at h <;>
        simp [readBpeFields, opt, req, get_with, h, orNull]
    unfold readBpe
    rw [this]
  · intro hk'
    rw [hr, hr0]
    have : readBpeFields ((k, .bool false) :: fs) = readBpeFields fs := by
      simp only [List.mem_cons, List.not_mem_nil, or_false] at hk'
      rcases hk' with rfl | rfl | rfl <;> simp at h <;>
        simp [readBpeFields, opt, req, get_with, h, orNull, asBool]
    unfold readBpe
    rw [this]

/-- **C95, dropout.** A BPE model that is read without dropout is read with dropout `p` exactly if `0 ≤ p ≤ 1`. -/
theorem C95_dropout {fs : Fields} (ht : Json.get fs "type".toList = some (.str "BPE".toList))
    (h : Json.get fs "dropout".toList = none) {m : Mod} (hm : readModel (.obj fs) = .ok m) (p : Rat) :
    (∃ m', readModel (with' fs "dropout".toList (.float p)) = .ok m') ↔ 0 ≤ p ∧ p ≤ 1 := by
  have hr : readModel (with' fs "dropout".toList (.float p)) = readBpe (("dropout".toList, .float p) :: fs) := by
    rw [with', readModel, get_with, if_neg (by decide +kernel), ht]
    rfl
  have hr0 : readModel (.obj fs) = readBpe fs := by
    rw [readModel, ht]
    rfl
  rw [hr0] at hm
  rw [hr]
  unfold readBpe at hm ⊢
  cases hf : readBpeFields fs with
  | none => rw [hf] at hm; cases hm
  | some x =>
    obtain ⟨d, s⟩ := x
    have hf' : d = none ∧ readBpeFields (("dropout".toList, .float p) :: fs) =
        some (some p, { s with dropout := activeDropout (some p) }) := by
      simp at h
      simp only [readBpeFields, opt, req, get_with] at hf ⊢
      simp [h, orNull, asFloat, Option.bind_eq_some_iff] at hf ⊢
      obtain ⟨a1, h1, a2, h2, a3, h3, a4, h4, a5, h5, a6, h6, a7, h7, a8, h8, rfl, rfl⟩ := hf
      exact ⟨rfl, a1, h1, a2, h2, a3, h3, a4, h4, a5, h5, a6, h6, a7, h7, a8, h8, rfl, rfl, rfl, rfl, rfl, rfl, rfl, rfl⟩
    rw [hf'.2]
    rw [hf, hf'.1] at hm
    have hb : ∃ b, loadBpe s = .ok b := by
      dsimp only [dropoutOk] at hm
      simp only [if_true] at hm
      cases hl : loadBpe s with
      | ok b => exact ⟨b, rfl⟩
      | err e => rw [hl] at hm; cases hm
      | panic => rw [hl] at hm; cases hm
    obtain ⟨b, hb⟩ : ∃ b, loadBpe { s with dropout := activeDropout (some p) } = .ok b := by
      unfold loadBpe at hb ⊢
      rw [Bpe.C20_build_ok_iff] at hb ⊢
      exact hb
    dsimp only
    rw [hb]
    by_cases hp : 0 ≤ p ∧ p ≤ 1
    · have : dropoutOk (some p) = true := by simp [dropoutOk, hp]
      rw [if_pos this]
      exact ⟨fun _ => hp, fun _ => ⟨_, rfl⟩⟩
    · have : ¬ dropoutOk (some p) = true := by
        intro h
        simp only [dropoutOk, Bool.and_eq_true, decide_eq_true_eq] at h
        exact hp h
      rw [if_neg this]
      refine ⟨fun h => ?_, fun h => absurd h hp⟩
      obtain ⟨_, h⟩ := h
      cases h

/-- **C95, components.** What is taken for the fields of components that may be missing. -/
theorem C95_components (e : Env) (fs : Fields) :
    (Json.get fs "type".toList = some (.str "Punctuation".toList) → Json.get fs "behavior".toList = none →
      readPre e (.obj fs) = some (.punctuation .isolated)) ∧
    (Json.get fs "type".toList = some (.str "FixedLength".toList) → Json.get fs "length".toList = none →
      readPre e (.obj fs) = some (.fixedLength 5)) ∧
    (Json.get fs "type".toList = some (.str "ByteLevel".toList) → Json.get fs "use_regex".toList = none →
      readPre e (.obj fs) = readPre e (with' fs "use_regex".toList (.bool true)) ∧
      readDec e (.obj fs) = readDec e (with' fs "use_regex".toList (.bool true)) ∧
      readProc (.obj fs) = readProc (with' fs "use_regex".toList (.bool true))) ∧
    (Json.get fs "type".toList = some (.str "Metaspace".toList) → Json.get fs "prepend_scheme".toList = none →
      readPre e (.obj fs) = readPre e (with' fs "prepend_scheme".toList (.str "always".toList)) ∧
      readDec e (.obj fs) = readDec e (with' fs "prepend_scheme".toList (.str "always".toList))) ∧
    (Json.get fs "type".toList = some (.str "Metaspace".toList) → Json.get fs "split".toList = none →
      readPre e (.obj fs) = readPre e (with' fs "split".toList (.bool true)) ∧
      readDec e (.obj fs) = readDec e (with' fs "split".toList (.bool true))) ∧
    (Json.get fs "direction".toList = none →
      readTruncation (.obj fs) = readTruncation (with' fs "direction".toList (.str "Right".toList))) ∧
    (Json.get fs "type".toList = some (.str "Unigram".toList) → Json.get fs "byte_fallback".toList = none →
      readModel (.obj fs) = readModel (with' fs "byte_fallback".toList (.bool false))) := by
  refine ⟨fun ht h => ?_, fun ht h => ?_, fun ht h => ?_, fun ht h => ?_, fun ht h => ?_, fun h => ?_, fun ht h => ?_⟩
  · simp at h ht
    simp [readPre, req, ht, asStr, preTagged, readPunctuation, tagged, dflt, h]
  · simp at h ht
    simp [readPre, req, ht, asStr, preTagged, readFixedLength, tagged, dflt, h]
  · simp at h ht
    refine ⟨?_, ?_, ?_⟩
    · simp [with', readPre, req, get_with, ht, asStr, preTagged, readByteLevel, tagged, dflt, h, asBool]
    · simp [with', readDec, req, get_with, ht, asStr, decTagged, readByteLevel, tagged, dflt, h, asBool]
    · simp [with', readProc, procUntagged, readRoberta, readBertProc, readTemplate, readSequence, req, get_with, ht, asStr,
        readByteLevel, tagged, dflt, h, asBool]
  · simp at h ht
    refine ⟨?_, ?_⟩
    · simp [with', readPre, req, get_with, ht, asStr, preTagged, readMetaspace, tagged, dflt, opt, h, asEnum, schemes]
    · simp [with', readDec, req, get_with, ht, asStr, decTagged, readMetaspace, tagged, dflt, opt, h, asEnum, schemes]
  · simp at h ht
    refine ⟨?_, ?_⟩
    · simp [with', readPre, req, get_with, ht, asStr, preTagged, readMetaspace, tagged, dflt, opt, h, asBool, orNull]
    · simp [with', readDec, req, get_with, ht, asStr, decTagged, readMetaspace, tagged, dflt, opt, h, asBool, orNull]
  · simp at h
    simp [with', readTruncation, req, get_with, dflt, h, asEnum, directions]
  · simp at h ht
    simp [with', readModel, readUnigram, opt, req, get_with, ht, dflt, h, asBool]

/-! ## Examples -/

/-- A file with a model and nothing else. -/
def smallFile (version : List (Str × Json)) : Fields :=
  version ++ [("model".toList, .obj [("type".toList, .str "BPE".toList), ("vocab".toList, .obj [("a".toList, .int 0)]),
    ("merges".toList, .arr [])])]

/-- No regular expression, no character map. -/
def plainEnv : Env := { compiles := fun _ => false, charsmap := fun _ => false }

/-- It is loaded. -/
example : ∃ c, load plainEnv false buildStrict (fun _ => none) (.obj (smallFile [])) = .ok c ∧ c.model.view.size = 1 := ⟨_, rfl, rfl⟩

/-- So it is with a version. -/
example : load plainEnv false buildStrict (fun _ => none) (with' (smallFile []) "version".toList (.str "1.0".toList)) =
    load plainEnv false buildStrict (fun _ => none) (.obj (smallFile [])) :=
  C95_file (d := ("version".toList, .str "1.0".toList)) (List.Mem.head _) rfl _ _ _ _

/-- But not with another one. -/
example : load plainEnv false buildStrict (fun _ => none) (.obj (smallFile [("version".toList, .str "2.0".toList)])) = .err () :=
  C95_version (v := .str "2.0".toList) rfl (by intro h; injection h with h; revert h; decide +kernel) _ _ _ _

/-- The fields of the model. -/
def smallModel : Fields :=
  [("type".toList, .str "BPE".toList), ("vocab".toList, .obj [("a".toList, .int 0)]), ("merges".toList, .arr [])]

/-- Dropout 0 is accepted. -/
example : ∃ m, readModel (with' smallModel "dropout".toList (.float 0)) = .ok m :=
  (C95_dropout (fs := smallModel) rfl rfl (m := .bpe none { vocab := [("a".toList, 0)], vocabR := [(0, "a".toList)], merges := [] }) rfl
    0).2 ⟨by decide +kernel, by decide +kernel⟩

example : readPre plainEnv (.obj [("type".toList, .str "Punctuation".toList)]) = some (.punctuation .isolated) :=
  (C95_components plainEnv _).1 rfl rfl

end Tok.Save.Defaults
