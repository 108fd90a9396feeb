import Verif.Save.Interp
import Verif.Save.FileRoundTrip
import Verif.Tokenizer.Llama

/-!
# C67: from the file to the behaviour

Files in the form in which they are published are loaded, and what is loaded has the properties proved of the parts.
-/

namespace Tok.Bpe

/-- The model without its affixes. -/
def Bpe.bare (b : Bpe) : Bpe := { b with pre := none, suf := none }

/-- Empty affixes are none. -/
theorem tokenize_bare {b : Bpe} (hp : b.pre.getD [] = []) (hs : b.suf.getD [] = []) (coins : Nat → Bool) (w : Str) :
    tokenize b coins w = tokenize b.bare coins w := by
  have hc : ∀ f l c, charSym b f l c = charSym b.bare f l c := by
    intro f l c
    unfold charSym Bpe.bare
    cases hx : b.pre with
    | none =>
      cases hy : b.suf with
      | none => rfl
      | some y =>
        rw [hy] at hs
        simp only [Option.getD_some] at hs
        subst hs
        cases f <;> cases l <;> simp
    | some x =>
      rw [hx] at hp
      simp only [Option.getD_some] at hp
      subst hp
      cases hy : b.suf with
      | none => cases f <;> cases l <;> simp
      | some y =>
        rw [hy] at hs
        simp only [Option.getD_some] at hs
        subst hs
        cases f <;> cases l <;> simp
  have hu : ∀ st n, stepUnk b st n = stepUnk b.bare st n := fun _ _ => rfl
  have hst : ∀ st f l c, stepChar b st f l c = stepChar b.bare st f l c := by
    intro st f l c
    unfold stepChar
    rw [hc, hu]
    rfl
  have hl : ∀ (w : Str) (f : Bool) (st : InitSt), initLoop b f w st = initLoop b.bare f w st := by
    intro w
    induction w with
    | nil => intro f st; rfl
    | cons c cs ih => intro f st; rw [initLoop, initLoop, hst]; simp only [ih]
  have hm : ∀ coins w, mergeToTokens b coins w = mergeToTokens b.bare coins w := by
    intro coins w
    have : initSyms b w = initSyms b.bare w := by unfold initSyms; rw [hl]
    unfold mergeToTokens mergeWord
    rw [this]
    rfl
  unfold tokenize
  rw [hm, hm]
  rfl

theorem build_bare {vocab : AMap Str Nat} {merges : List (Str × Str)} {cfg b : Bpe} (hp : cfg.pre.getD [] = [])
    (h : build vocab merges cfg = .ok b) : build vocab merges cfg.bare = .ok b.bare := by
  unfold build at h ⊢
  rw [hp] at h
  have : cfg.bare.pre.getD [] = [] := rfl
  rw [this]
  cases hm : buildMerges vocab (blen []) 0 merges [] with
  | ok mm => rw [hm] at h; cases h; rfl
  | err e => rw [hm] at h; cases h
  | panic => rw [hm] at h; cases h

end Tok.Bpe

namespace Tok.Save
open Json AddedVocab

/-! ## Loading added tokens -/

/-- What is assumed of the automata (crate `daachorse`): they can be built if the patterns are different and not empty, and
only then. -/
def Automata (build : List (Str × Nat) → Bool) : Prop :=
  ∀ l : List (Str × Nat), l ≠ [] → (build l = true ↔ (l.map (·.1)).Nodup ∧ ∀ p ∈ l, p.1 ≠ [])

theorem addLoop_plain {m : ModelView} {norm : Norm} : ∀ (ts : List AddedToken) (av : AddedVocab) (next ign : Nat),
    (∀ t ∈ ts, normalForm norm t = some none) →
    ∃ av' k, addLoop m norm ts av next ign = (av', some k) ∧ av'.cache = av.cache
  | [], av, _, ign, _ => ⟨av, ign, rfl, rfl⟩
  | t :: ts, av, next, ign, h => by
    rw [addLoop]
    split
    · exact addLoop_plain ts av next _ fun x hx => h x (List.mem_cons_of_mem _ hx)
    · split
      · exact addLoop_plain ts av next _ fun x hx => h x (List.mem_cons_of_mem _ hx)
      · rw [h t List.mem_cons_self]
        obtain ⟨av', k, h1, h2⟩ := addLoop_plain (m := m) (norm := norm) ts
          (av.store ((av.tokenToId m t.content).getD next) t none)
          (if (av.tokenToId m t.content).isSome then next else next + 1) ign fun x hx => h x (List.mem_cons_of_mem _ hx)
        exact ⟨av', k, h1, h2⟩

/-- Added tokens whose normal forms are themselves are loaded. -/
theorem loadAdded_plain {build : List (Str × Nat) → Bool} (hb : Automata build) {m : ModelView} (hm : m.Ok) {norm : Norm}
    (l : List (Nat × AddedToken)) (h : ∀ x ∈ l, normalForm norm x.2 = some none) :
    ∃ av, loadAdded build m norm l = some av ∧ av = after build m empty [.add norm (l.map (·.2))] := by
  obtain ⟨av', k, h1, h2⟩ := addLoop_plain (m := m) (l.map (·.2)) empty (empty.nextId m) 0 (norm := norm) (by
    intro t ht
    obtain ⟨x, hx, rfl⟩ := List.mem_map.1 ht
    exact h x hx)
  have hi := (after_inv hm build [.add norm (l.map (·.2))] (inv_empty m)).1
  have hadd : empty.addTokens build m norm (l.map (·.2)) =
      ((av'.refresh build).1, if (av'.refresh build).2 then some ((l.map (·.2)).length - k) else none) := by
    unfold addTokens; rw [h1]
  have hafter : after build m empty [.add norm (l.map (·.2))] = (av'.refresh build).1 := by
    simp only [after, List.foldl, AddedVocab.apply, hadd]
  obtain ⟨e1, e2, _, e4, _⟩ := refresh_same build av'
  rw [hafter] at hi
  have hcont : ∀ a ∈ av'.rmap, ∀ b ∈ av'.rmap, a.2.content = b.2.content → a.1 = b.1 := by
    rintro ⟨i, t⟩ ha ⟨j, u⟩ hb he
    have w := hi.wfr
    rw [e2] at w
    have g1 := (hi.inverse t.content i).2 ⟨t, by rw [e2]; exact AMap.get_eq_some_of_mem w ha, rfl⟩
    have g2 := (hi.inverse t.content j).2 ⟨u, by rw [e2]; exact AMap.get_eq_some_of_mem w hb, he.symm⟩
    rw [g1] at g2
    exact Option.some.inj g2
  have hne : ∀ a ∈ av'.rmap, a.2.content ≠ [] := by
    rintro ⟨i, t⟩ ha
    have w := hi.wfr
    rw [e2] at w
    exact hi.nonempty _ i ((hi.inverse t.content i).2 ⟨t, by rw [e2]; exact AMap.get_eq_some_of_mem w ha, rfl⟩)
  have hnd : ∀ f : Nat × AddedToken → Bool, (((av'.rmap.filter f).map fun p => (p.2.content, p.1)).map (·.1)).Nodup := by
    intro f
    have w := hi.wfr
    rw [e2] at w
    rw [List.map_map]
    refine List.pairwise_map.2 (((List.pairwise_map.1 w).filter f).imp_of_mem ?_)
    intro a b ha hb hab he
    exact hab (hcont a (List.mem_filter.1 ha).1 b (List.mem_filter.1 hb).1 he)
  have hnormed : ((av'.rmap.filter fun p => p.2.normalized).map fun p => ((av'.cache.get p.1).getD p.2.content, p.1)) =
      ((av'.rmap.filter fun p => p.2.normalized).map fun p => (p.2.content, p.1)) := by
    rw [h2]; rfl
  have hok : ∀ f : Nat × AddedToken → Bool, (((av'.rmap.filter f).map fun p => (p.2.content, p.1)).isEmpty ||
      build ((av'.rmap.filter f).map fun p => (p.2.content, p.1))) = true := by
    intro f
    by_cases he : ((av'.rmap.filter f).map fun p => (p.2.content, p.1)) = []
    · rw [he]; rfl
    · rw [(hb _ he).2 ⟨hnd f, ?_⟩, Bool.or_true]
      intro p hp
      obtain ⟨a, ha, rfl⟩ := List.mem_map.1 hp
      exact hne a (List.mem_filter.1 ha).1
  have hr : (av'.refresh build).2 = true := by
    unfold refresh
    simp only [hnormed]
    rw [if_pos (hok _), if_pos (hok _)]
  refine ⟨(av'.refresh build).1, ?_, hafter.symm⟩
  unfold loadAdded
  rw [hadd, hr]
  rfl

/-! ## Vocabularies in a file -/

/-- The vocabulary of a file: no token is there twice, the ids are `0 ..< n` in any order. -/
structure VocabOk (vocab : List (Str × Nat)) : Prop where
  tokens : (vocab.map (·.1)).Nodup
  ids : (vocab.map (·.2)).Nodup
  below : ∀ p ∈ vocab, p.2 < vocab.length
  small : vocab.length ≤ 4294967296

theorem readVocab_wf (vocab : List (Str × Nat)) : (readVocab vocab).WF := AMap.WF.nil.extend _

theorem nodup_inj {α β : Type} (f : α → β) : ∀ {l : List α}, (l.map f).Nodup → ∀ a ∈ l, ∀ b ∈ l, f a = f b → a = b
  | [], _, _, h, _, _, _ => absurd h (by simp)
  | x :: l, h, a, ha, b, hb, e => by
    rw [List.map_cons, List.nodup_cons] at h
    rcases List.mem_cons.1 ha with ha' | ha'
    · rcases List.mem_cons.1 hb with hb' | hb'
      · rw [ha', hb']
      · exact absurd (List.mem_map.2 ⟨b, hb', by rw [← e, ha']⟩) h.1
    · rcases List.mem_cons.1 hb with hb' | hb'
      · exact absurd (List.mem_map.2 ⟨a, ha', by rw [e, hb']⟩) h.1
      · exact nodup_inj f h.2 a ha' b hb' e

theorem readVocab_distinct {vocab : List (Str × Nat)} (h : VocabOk vocab) : Bpe.IdsDistinct (readVocab vocab) := by
  intro s t i h1 h2
  have := nodup_inj (·.2) h.ids _ ((readVocab_get h.tokens s i).1 h1) _ ((readVocab_get h.tokens t i).1 h2) rfl
  exact congrArg Prod.fst this

theorem readVocab_length {vocab : List (Str × Nat)} (h : VocabOk vocab) : (readVocab vocab).length = vocab.length := by
  apply Nat.le_antisymm
  · refine length_le_of_subset (wf_nodup (readVocab_wf vocab)) fun p hp => ?_
    exact (readVocab_get (show AMap.WF vocab from h.tokens) p.1 p.2).1 (AMap.get_eq_some_of_mem (readVocab_wf vocab) hp)
  · refine length_le_of_subset (wf_nodup (show AMap.WF vocab from h.tokens)) fun p hp => ?_
    exact AMap.mem_of_get_eq_some ((readVocab_get (show AMap.WF vocab from h.tokens) p.1 p.2).2 hp)

/-- The merges of a file: the parts and their concatenation are in the vocabulary, no part is empty. -/
structure MergesOk (vocab : List (Str × Nat)) (merges : List (Str × Str)) : Prop where
  left : ∀ m ∈ merges, m.1 ≠ [] ∧ m.1 ∈ vocab.map (·.1)
  right : ∀ m ∈ merges, m.2 ≠ [] ∧ m.2 ∈ vocab.map (·.1)
  whole : ∀ m ∈ merges, m.1 ++ m.2 ∈ vocab.map (·.1)

/-- The lines of the old format (`"a b"`). -/
def mergeLines (merges : List (Str × Str)) : Json := .arr (merges.map fun m => .str (m.1 ++ [' '] ++ m.2))

/-- The parts can be told apart in a line, and no line looks like a version. -/
def LinesOk (merges : List (Str × Str)) : Prop :=
  ∀ m ∈ merges, ' ' ∉ m.1 ∧ ' ' ∉ m.2 ∧ ¬ "#version".toList <+: m.1 ++ [' '] ++ m.2

theorem readMerges_lines {merges : List (Str × Str)} (h : LinesOk merges) :
    readMerges (merges.map fun m => m.1 ++ [' '] ++ m.2) = .ok merges := by
  unfold readMerges
  rw [List.filter_eq_self.2]
  · have key : ∀ (ms : List (Str × Str)) (k : Nat), LinesOk ms →
        readMergesLoop k (ms.map fun m => m.1 ++ [' '] ++ m.2) = .ok ms := by
      intro ms
      induction ms with
      | nil => intro k _; rfl
      | cons m ms ih =>
        intro k hm
        obtain ⟨h1, h2, _⟩ := hm m List.mem_cons_self
        have hsp : splitSpace (m.1 ++ [' '] ++ m.2) = [m.1, m.2] := by
          unfold splitSpace
          rw [List.append_assoc, List.singleton_append, splitSpaceLoop_append _ h1, splitSpaceLoop_end _ h2]
          rfl
        rw [List.map_cons, readMergesLoop]
        simp only [hsp]
        rw [ih (k + 1) fun m' hm' => hm m' (List.mem_cons_of_mem _ hm')]; rfl
    exact key merges 0 h
  · intro s hs
    obtain ⟨m, hm, rfl⟩ := List.mem_map.1 hs
    rw [Bool.not_eq_true', ← Bool.not_eq_true, List.isPrefixOf_iff_prefix]
    exact (h m hm).2.2

theorem readMergeList_lines {merges : List (Str × Str)} (h : LinesOk merges) :
    readMergeList (mergeLines merges) = some merges := by
  have hs : asList asStr (mergeLines merges) = some (merges.map fun m => m.1 ++ [' '] ++ m.2) := by
    unfold asList mergeLines
    rw [← List.map_id (merges.map fun m => m.1 ++ [' '] ++ m.2)]
    simp only [List.map_map]
    clear h
    induction merges with
    | nil => rfl
    | cons m ms ih =>
      simp only [List.map_cons, List.mapM_cons]
      rw [ih]
      rfl
  cases merges with
  | nil => rfl
  | cons m ms =>
    have hp : asList readMerge (mergeLines (m :: ms)) = none := by
      simp [asList, mergeLines, readMerge]
    rw [readMergeList, hp, hs]
    simp only [Option.bind_some, readMerges_lines h]
    rfl

/-- A BPE model is built from such a vocabulary and such merges, if its prefix is missing or empty. -/
theorem loadBpe_ok {s : SavedBpe} (hv : VocabOk s.vocab) (hm : MergesOk s.vocab s.merges) (hp : s.pre.getD [] = []) :
    ∃ b, loadBpe s = .ok b ∧ b.vocab = readVocab s.vocab ∧ Bpe.Built b.bare ∧ b.pre = s.pre ∧ b.suf = s.suf ∧
      b.byteFallback = s.byteFallback ∧
      ∀ i j r k, b.merges.get (i, j) = some (r, k) → ∃ m ∈ s.merges, b.vocab.get m.1 = some i ∧ b.vocab.get m.2 = some j ∧
        b.vocab.get (m.1 ++ m.2) = some k := by
  have hg : ∀ c ∈ s.vocab.map (·.1), ∃ i, (readVocab s.vocab).get c = some i := by
    intro c hc
    obtain ⟨p, hp, rfl⟩ := List.mem_map.1 hc
    exact ⟨p.2, (readVocab_get hv.tokens p.1 p.2).2 hp⟩
  obtain ⟨b, hb⟩ := (Bpe.C20_build_ok_iff (readVocab s.vocab) s.merges
    { vocab := [], vocabR := [], merges := [], useDropout := s.dropout, unk := s.unk, pre := s.pre, suf := s.suf,
      fuseUnk := s.fuseUnk, byteFallback := s.byteFallback, ignoreMerges := s.ignoreMerges }).2 (by
    intro m hmm
    obtain ⟨x, hx⟩ := hg _ (hm.left m hmm).2
    obtain ⟨y, hy⟩ := hg _ (hm.right m hmm).2
    obtain ⟨z, hz⟩ := hg _ (hm.whole m hmm)
    exact ⟨x, y, z, hx, hy, m.2, ⟨[], rfl, by rw [show s.pre.getD [] = [] from hp]⟩, hz⟩)
  obtain ⟨_, e⟩ := Bpe.build_merges hb
  have ev : b.vocab = readVocab s.vocab := by rw [e]
  have hbuilt := Bpe.build_bare hp hb
  rw [← ev] at hbuilt
  refine ⟨b, hb, ev, ⟨⟨s.merges, _, hbuilt, ?_⟩, ?_, ?_⟩, by rw [e], by rw [e], by rw [e], ?_⟩
  · exact ⟨fun m hmm => ⟨m.2, rfl, (hm.right m hmm).1⟩, fun m hmm => (by
      show Bpe.strip [] m.1 ≠ []
      simpa [Bpe.strip] using (hm.left m hmm).1), fun _ _ _ _ _ => List.nil_prefix⟩
  · show b.vocab.WF
    rw [ev]; exact readVocab_wf _
  · show Bpe.IdsDistinct b.vocab
    rw [ev]; exact readVocab_distinct hv
  · intro i j r k hk
    obtain ⟨⟨m, h1, h2, h3, b', ⟨q, h4, h5⟩, h6⟩, _⟩ := (Bpe.C20_build_get hb i j r k).1 hk
    rw [show s.pre.getD [] = [] from hp] at h5
    have hq : q = [] := by
      cases q with
      | nil => rfl
      | cons c q =>
        exfalso
        simp only [blen, List.map_cons, List.sum_cons, List.map_nil, List.sum_nil] at h5
        have := c.utf8Size_pos
        omega
    subst hq
    rw [List.nil_append] at h4
    rw [ev]
    exact ⟨m, List.mem_of_getElem? h1, h2, h3, by rw [h4]; exact h6⟩

/-! ## Files -/

/-- A file with its nine parts. -/
def file (truncation padding tokens normalizer preTok proc decoder model : Json) : Json :=
  .obj [("version".toList, .str "1.0".toList), ("truncation".toList, truncation), ("padding".toList, padding),
    ("added_tokens".toList, tokens), ("normalizer".toList, normalizer), ("pre_tokenizer".toList, preTok),
    ("post_processor".toList, proc), ("decoder".toList, decoder), ("model".toList, model)]

/-- A field with `Option<NormalizerWrapper>`. -/
inductive NormField (e : Env) : Json → Option NormCfg → Prop
  | null : NormField e .null none
  | some {fs n} (h : readNorm e (.obj fs) = .ok n) : NormField e (.obj fs) (some n)

/-- A file is loaded part by part. -/
theorem load_file {e : Env} {skip : Bool} {build : List (Str × Nat) → Bool} {norm : Option NormCfg → AddedVocab.Norm}
    {jt jp jn jy jo jd jm : Json} {t : Option TruncParams} {p : Option PadParams} {n : Option NormCfg} {y : Option PreCfg}
    {o : Option ProcCfg} {d : Option DecCfg} {m : Mod} {tokens : List (Nat × AddedToken)} {av : AddedVocab}
    (ht : orNull readTruncation jt = some t) (hp : orNull readPadding jp = some p)
    (hi : ∀ x ∈ tokens, x.1 < 4294967296) (hn : NormField e jn n) (hy : orNull (readPre e) jy = some y)
    (ho : orNull readProc jo = some o) (hd : orNull (readDec e) jd = some d) (hm : readModel jm = .ok m)
    (ha : loadAdded build m.view (norm n) tokens = some av) :
    load e skip build norm (file jt jp (.arr (tokens.map writeAddedToken)) jn jy jo jd jm) = .ok ⟨t, p, av, n, y, o, d, m⟩ := by
  have htok : (tokens.map writeAddedToken).mapM readAddedToken = some tokens :=
    mapM_map fun x hx => readAddedToken_write (hi x hx)
  unfold file
  generalize hfs : [("version".toList, Json.str "1.0".toList), ("truncation".toList, jt), ("padding".toList, jp),
    ("added_tokens".toList, Json.arr (tokens.map writeAddedToken)), ("normalizer".toList, jn), ("pre_tokenizer".toList, jy),
    ("post_processor".toList, jo), ("decoder".toList, jd), ("model".toList, jm)] = fs
  have hk : fs.any (fun f => !knownKeys.contains f.1) = false := by rw [← hfs]; simp [knownKeys]
  have hver : versionOk fs = true := by rw [← hfs]; simp [versionOk, Json.get]
  have hrest : readRest e fs = some ⟨t, p, tokens, y, o, d⟩ := by
    rw [← hfs]
    simp [readRest, opt, dflt, Json.get, ht, hp, asList, htok, hy, ho, hd]
  have hnorm : readNormOpt e fs = .ok n := by
    have hg : Json.get fs "normalizer".toList = some jn := by rw [← hfs]; simp [Json.get]
    unfold readNormOpt
    rw [hg]
    cases hn with
    | null => rfl
    | some h => simp only [h]; rfl
  have hmod : readModelField fs = .ok m := by
    have : Json.get fs "model".toList = some jm := by rw [← hfs]; simp [Json.get]
    rw [readModelField, this]; exact hm
  rw [load, hk, hver, hrest, hnorm, hmod]
  simp only [Bool.and_false, Bool.false_eq_true, if_false, Bool.not_true, ha]

/-! ## GPT-2 -/

/-- `ByteLevel` as it was written before it had `use_regex`. -/
def oldByteLevel (aps trim : Bool) : Json :=
  .obj [("type".toList, .str "ByteLevel".toList), ("add_prefix_space".toList, .bool aps), ("trim_offsets".toList, .bool trim)]

/-- The file `tokenizer.json` in the form (from memory) published for GPT-2: the model has no `type` and no `byte_fallback`, its affixes are
empty, the merges are lines. -/
def gpt2File (vocab : List (Str × Nat)) (merges : List (Str × Str)) (tokens : List (Nat × AddedToken)) : Json :=
  file .null .null (.arr (tokens.map writeAddedToken)) .null (oldByteLevel false true) (oldByteLevel true false)
    (oldByteLevel true true)
    (.obj [("dropout".toList, .null), ("unk_token".toList, .null), ("continuing_subword_prefix".toList, .str []),
      ("end_of_word_suffix".toList, .str []), ("fuse_unk".toList, .bool false), ("vocab".toList, writeVocab vocab),
      ("merges".toList, mergeLines merges)])

/-- The settings of a tokenizer loaded from such a file. -/
def gpt2Conf (av : AddedVocab) (b : Bpe.Bpe) : Conf :=
  ⟨none, none, av, none, some (.byteLevel ⟨false, true, true⟩), some (.byteLevel ⟨true, false, true⟩),
    some (.byteLevel ⟨true, true, true⟩), .bpe none b⟩

/-- What is loaded from such a file. -/
theorem gpt2File_loaded (w : World) (e : Env) (skip : Bool) {build : List (Str × Nat) → Bool} (hb : Automata build)
    {vocab : List (Str × Nat)} (hv : VocabOk vocab) {merges : List (Str × Str)} (hm : MergesOk vocab merges)
    (hl : LinesOk merges) {tokens : List (Nat × AddedToken)} (hi : ∀ x ∈ tokens, x.1 < 4294967296) :
    ∃ b av, load e skip build w.norm (gpt2File vocab merges tokens) = .ok (gpt2Conf av b) ∧
      loadBpe ⟨false, none, some [], some [], false, false, false, vocab, merges⟩ = .ok b ∧
      b.vocab = readVocab vocab ∧ Bpe.Built b.bare ∧ b.pre = some [] ∧ b.suf = some [] ∧
      (∀ s i, b.vocab.get s = some i → i < b.vocab.length) ∧ (Tokenizer.bpeView b).Ok ∧
      loadAdded build (Tokenizer.bpeView b) none tokens = some av ∧
      av = after build (Tokenizer.bpeView b) empty [.add none (tokens.map (·.2))] := by
  obtain ⟨b, h1, h2, h3, h4, h5, _, _⟩ := loadBpe_ok (s := ⟨false, none, some [], some [], false, false, false, vocab, merges⟩)
    hv hm rfl
  have hids : ∀ s i, b.vocab.get s = some i → i < b.vocab.length := by
    intro s i h
    rw [h2, readVocab_length hv]
    rw [h2] at h
    exact hv.below _ ((readVocab_get hv.tokens s i).1 h)
  have hok : (Tokenizer.bpeView b).Ok := ⟨hids, fun c i => Bpe.C46_bpe_vocab_inverse h3 c i⟩
  obtain ⟨av, a1, a2⟩ := loadAdded_plain hb hok (norm := none) tokens fun x _ => normalForm_none x.2
  have hvoc : asMap asU32 (writeVocab vocab) = some vocab :=
    asMap_writeVocab fun p hp => Nat.lt_of_lt_of_le (hv.below p hp) hv.small
  have hmod : ∀ fs, fs = [("dropout".toList, Json.null), ("unk_token".toList, Json.null),
      ("continuing_subword_prefix".toList, Json.str []), ("end_of_word_suffix".toList, Json.str []),
      ("fuse_unk".toList, Json.bool false), ("vocab".toList, writeVocab vocab), ("merges".toList, mergeLines merges)] →
      readModel (.obj fs) = .ok (.bpe none b) := by
    intro fs hfs
    have hf : readBpeFields fs = some (none, ⟨false, none, some [], some [], false, false, false, vocab, merges⟩) := by
      rw [hfs]
      simp [readBpeFields, opt, req, Json.get, orNull, asStr, asBool, hvoc, readMergeList_lines hl, activeDropout]
    have hr : readBpe fs = .ok (.bpe none b) := by
      rw [readBpe, hf]
      simp only [dropoutOk, h1, if_true]
    have ht : Json.get fs "type".toList = none := by rw [hfs]; simp [Json.get]
    rw [readModel, ht]
    simp only [hr, orTry]
  refine ⟨b, av, ?_, h1, h2, h3, h4, h5, hids, hok, a1, a2⟩
  refine load_file rfl rfl hi .null ?_ ?_ ?_ (hmod _ rfl) a1
  · simp [oldByteLevel, orNull, readPre, req, Json.get, asStr, preTagged, readByteLevel, tagged, asBool, dflt]
  · simp [oldByteLevel, orNull, readProc, procUntagged, readRoberta, readBertProc, req, Json.get, asStr, readByteLevel,
      tagged, asBool, dflt]
  · simp [oldByteLevel, orNull, readDec, req, Json.get, asStr, decTagged, readByteLevel, tagged, asBool, dflt]

/-- **C67.** A file in the form of GPT-2's is loaded, and the tokenizer encodes every text without error and decodes it to
what it was. -/
theorem C67_gpt2 (w : World) (hre : ∀ s, NS.EngineMatches s 0 (w.byteLevel s)) (e : Env) (skip : Bool)
    {build : List (Str × Nat) → Bool} (hb : Automata build)
    {vocab : List (Str × Nat)} (hv : VocabOk vocab) (halpha : ∀ x : UInt8, [ByteLevel.byteChar x] ∈ vocab.map (·.1))
    {merges : List (Str × Str)} (hm : MergesOk vocab merges) (hl : LinesOk merges)
    {tokens : List (Nat × AddedToken)} (hi : ∀ x ∈ tokens, x.1 < 4294967296)
    (hstrip : ∀ x ∈ tokens, x.2.lstrip = false ∧ x.2.rstrip = false)
    (hlit : ∀ x ∈ tokens, ByteLevel.Literal x.2.content) :
    ∃ c, load e skip build w.norm (gpt2File vocab merges tokens) = .ok c ∧
      ∀ s add, ∃ enc, (w.tokenizer c).encode (.raw s, none) add = .ok enc ∧ (w.tokenizer c).decode false enc.ids = some s := by
  obtain ⟨b, av, h0, _, h2, h3, h4, h5, hids, _, _, a2⟩ := gpt2File_loaded w e skip hb hv hm hl hi
  refine ⟨gpt2Conf av b, h0, ?_⟩
  · intro s add
    refine Tokenizer.C44_lossless (b := b.bare) (re := w.byteLevel) (u := true) (coins := w.coins) ?_ hre (build := build) ?_
      (ops := [.add none (tokens.map (·.2))]) a2 rfl ?_ ?_ ?_ s add
    · exact
        { normalizer := rfl
          preTok := fun _ => rfl
          model := fun x => by
            show Tokenizer.bpeResult _ = _
            rw [Bpe.tokenize_bare (by rw [h4]; rfl) (by rw [h5]; rfl)]
          view := rfl
          decoder := rfl
          built := h3
          affixes := ⟨rfl, rfl⟩
          alphabet := fun x => by
            obtain ⟨p, hp, he⟩ := List.mem_map.1 (halpha x)
            refine ⟨p.2, ?_⟩
            show b.vocab.get _ = _
            rw [h2, ← he]
            exact (readVocab_get hv.tokens p.1 p.2).2 hp
          ids := hids }
    · intro l hl p hp
      exact ((hb l (by intro h; rw [h] at hp; cases hp)).1 hl).2 p hp
    · intro x hx
      simp only [tokensOf, List.append_nil] at hx
      obtain ⟨y, hy, rfl⟩ := List.mem_map.1 hx
      exact hstrip y hy
    · intro x hx
      simp only [tokensOf, List.append_nil] at hx
      obtain ⟨y, hy, rfl⟩ := List.mem_map.1 hx
      exact hlit y hy
    · exact ⟨rfl, rfl, .inr ⟨true, false, rfl⟩⟩

end Tok.Save
