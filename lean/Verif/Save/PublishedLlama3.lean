import Verif.Save.PublishedLlama
import Verif.Tokenizer.Llama3
import Verif.Bindings.SharedModels

/-!
# C108: the files of tokenizers like those of Llama 3 and Qwen
-/

namespace Tok.AddedVocab

/-- The first token that is added, if the model does not have it, has the first id that is not the model's. -/
theorem addTokens_first {build : List (Str × Nat) → Bool} {m : ModelView} {norm : Norm} {t : AddedToken} (ts : List AddedToken)
    (hne : t.content ≠ []) (hm : m.toId t.content = none) (hn : normalForm norm t = some none) :
    (empty.addTokens build m norm (t :: ts)).1.map.get t.content = some m.size := by
  obtain ⟨ign, r, e, h1, -⟩ := addTokens_fst build m norm empty (t :: ts)
  rw [h1]
  have hnext : empty.nextId m = m.size := rfl
  have hk : (addLoop m norm (t :: ts) empty (empty.nextId m) 0).1.map.get t.content = some m.size := by
    rw [addLoop, if_neg hne, if_neg (by simp [present, empty, AMap.get])]
    simp only [hn]
    refine SharedModels.addLoop_keeps m norm ts _ _ _ _ _ ?_
    show ((empty.map).insert t.content _).get t.content = _
    rw [AMap.get_insert, if_pos rfl]
    unfold tokenToId
    rw [hm, hnext]; rfl
  rw [e] at hk
  exact hk

end Tok.AddedVocab

namespace Tok.Save
open Json AddedVocab

/-- `Split` on a regular expression, the matches being pieces. -/
def splitJson (re : Str) : Json :=
  .obj [("type".toList, .str "Split".toList), ("pattern".toList, .obj [("Regex".toList, .str re)]),
    ("behavior".toList, .str "Isolated".toList), ("invert".toList, .bool false)]

/-- A BPE model; the two affixes are `null` or empty. -/
def bytesModel (affix : Option Str) (ignore : Bool) (vocab : List (Str × Nat)) (merges : List (Str × Str)) : Json :=
  .obj [("type".toList, .str "BPE".toList), ("dropout".toList, .null), ("unk_token".toList, .null),
    ("continuing_subword_prefix".toList, (affix.map .str).getD .null), ("end_of_word_suffix".toList, (affix.map .str).getD .null),
    ("fuse_unk".toList, .bool false), ("byte_fallback".toList, .bool false), ("ignore_merges".toList, .bool ignore),
    ("vocab".toList, writeVocab vocab), ("merges".toList, mergeLines merges)]

/-- A file with `Sequence [Split, ByteLevel]`; normalizer and post-processor are left open. -/
def bytesFile (jn jo : Json) (trim trim' aps : Bool) (re : Str) (affix : Option Str) (ignore : Bool) (vocab : List (Str × Nat))
    (merges : List (Str × Str)) (tokens : List (Nat × AddedToken)) : Json :=
  file .null .null (.arr (tokens.map writeAddedToken)) jn
    (.obj [("type".toList, .str "Sequence".toList), ("pretokenizers".toList, .arr [splitJson re,
      writeByteLevel ⟨false, trim, false⟩])])
    jo (writeByteLevel ⟨aps, trim', aps⟩) (bytesModel affix ignore vocab merges)

/-- The file `tokenizer.json` in the form (from memory) published for Llama 3. -/
def llama3File (re bos : Str) (id : Nat) (vocab : List (Str × Nat)) (merges : List (Str × Str)) (tokens : List (Nat × AddedToken)) :
    Json :=
  bytesFile .null
    (.obj [("type".toList, .str "Sequence".toList), ("processors".toList, .arr [writeByteLevel ⟨true, false, true⟩,
      .obj [("type".toList, .str "TemplateProcessing".toList),
        ("single".toList, .arr [
          .obj [("SpecialToken".toList, .obj [("id".toList, .str bos), ("type_id".toList, .int 0)])],
          .obj [("Sequence".toList, .obj [("id".toList, .str "A".toList), ("type_id".toList, .int 0)])]]),
        ("pair".toList, .arr [
          .obj [("SpecialToken".toList, .obj [("id".toList, .str bos), ("type_id".toList, .int 0)])],
          .obj [("Sequence".toList, .obj [("id".toList, .str "A".toList), ("type_id".toList, .int 0)])],
          .obj [("SpecialToken".toList, .obj [("id".toList, .str bos), ("type_id".toList, .int 1)])],
          .obj [("Sequence".toList, .obj [("id".toList, .str "B".toList), ("type_id".toList, .int 1)])]]),
        ("special_tokens".toList, .obj [(bos, .obj [("id".toList, .str bos),
          ("ids".toList, .arr [.int id]), ("tokens".toList, .arr [.str bos])])])]])])
    true true true re none true vocab merges tokens

/-- The file `tokenizer.json` in the form (from memory) published for Qwen 2. -/
def qwenFile (re : Str) (vocab : List (Str × Nat)) (merges : List (Str × Str)) (tokens : List (Nat × AddedToken)) : Json :=
  bytesFile (.obj [("type".toList, .str "NFC".toList)]) (writeByteLevel ⟨false, false, false⟩) false false false re (some []) false
    vocab merges tokens

theorem loadBpe_options {s : SavedBpe} {b : Bpe.Bpe} (h : loadBpe s = .ok b) :
    b.ignoreMerges = s.ignoreMerges ∧ b.useDropout = s.dropout := by
  unfold loadBpe Bpe.build at h
  dsimp only at h
  split at h
  · cases h; exact ⟨rfl, rfl⟩
  · cases h
  · cases h

/-- Such a file is loaded, and gives a tokenizer that cuts, then spells the bytes. -/
theorem bytesFile_loaded (w : World) (hu : w.uni.Ok) (hre : ∀ p s, NS.EngineMatches s 0 (w.matches' p s))
    (hby : ∀ s, NS.EngineMatches s 0 (w.byteLevel s)) (e : Env) (skip' : Bool)
    {build : List (Str × Nat) → Bool} (hb : Automata build)
    {jn jo : Json} {n : Option NormCfg} {o : Option ProcCfg} (hn : NormField e jn n) (ho : orNull readProc jo = some o)
    {z : Normalizer} (hz : w.normalizer n = z.apply w.uni) (hsafe : z.Safe)
    {re : Str} (hc : e.compiles (.regex re) = true) {affix : Option Str} (haff : affix.getD [] = []) {ignore trim trim' aps : Bool}
    {vocab : List (Str × Nat)} (hv : VocabOk vocab) (halpha : ∀ x : UInt8, [ByteLevel.byteChar x] ∈ vocab.map (·.1))
    {merges : List (Str × Str)} (hm : MergesOk vocab merges) (hl : LinesOk merges)
    {tokens : List (Nat × AddedToken)} (hi : ∀ x ∈ tokens, x.1 < 4294967296)
    (hraw : ∀ x ∈ tokens, x.2.normalized = false)
    (hplain : ∀ x ∈ tokens, x.2.lstrip = false ∧ x.2.rstrip = false ∧ x.2.singleWord = false) :
    ∃ c b, load e skip' build w.norm (bytesFile jn jo trim trim' aps re affix ignore vocab merges tokens) = .ok c ∧
      b.vocab = readVocab vocab ∧ b.ignoreMerges = ignore ∧ b.useDropout = false ∧
      Tokenizer.IsSplitBytes (w.tokenizer c) w.uni z w.tables [.split (w.matches' (.regex re)) .isolated false] false w.byteLevel
        b w.coins ∧
      (w.tokenizer c).settings = ⟨none, none, o.map (·.toProc)⟩ ∧
      (w.tokenizer c).added = after build (w.tokenizer c).view empty [.add (w.norm n) (tokens.map (·.2))] := by
  obtain ⟨b, h1, h2, h3, h4, h5, _, _⟩ := loadBpe_ok (s := ⟨false, none, affix, affix, false, false, ignore, vocab, merges⟩)
    hv hm haff
  obtain ⟨h6, h7⟩ := loadBpe_options h1
  have hids : ∀ s i, b.vocab.get s = some i → i < b.vocab.length := by
    intro s i h
    rw [h2, readVocab_length hv]
    rw [h2] at h
    exact hv.below _ ((readVocab_get hv.tokens s i).1 h)
  have hok : (Tokenizer.bpeView b).Ok := ⟨hids, fun c i => Bpe.C46_bpe_vocab_inverse h3 c i⟩
  have hnf : ∀ x ∈ tokens, normalForm (w.norm n) x.2 = some none := fun x hx => normalForm_raw _ (hraw x hx)
  obtain ⟨av, a1, a2⟩ := loadAdded_plain hb hok (norm := w.norm n) tokens hnf
  have hvoc : asMap asU32 (writeVocab vocab) = some vocab :=
    asMap_writeVocab fun p hp => Nat.lt_of_lt_of_le (hv.below p hp) hv.small
  have hmod : readModel (bytesModel affix ignore vocab merges) = .ok (.bpe none b) := by
    unfold bytesModel
    generalize hfs : [("type".toList, Json.str "BPE".toList), ("dropout".toList, Json.null), ("unk_token".toList, Json.null),
      ("continuing_subword_prefix".toList, (affix.map Json.str).getD .null),
      ("end_of_word_suffix".toList, (affix.map Json.str).getD .null),
      ("fuse_unk".toList, Json.bool false), ("byte_fallback".toList, Json.bool false), ("ignore_merges".toList, Json.bool ignore),
      ("vocab".toList, writeVocab vocab), ("merges".toList, mergeLines merges)] = fs
    have hf : readBpeFields fs = some (none, ⟨false, none, affix, affix, false, false, ignore, vocab, merges⟩) := by
      rw [← hfs]
      cases affix <;>
        simp [readBpeFields, opt, req, Json.get, orNull, asStr, asBool, hvoc, readMergeList_lines hl, activeDropout]
    have hr : readBpe fs = .ok (.bpe none b) := by
      rw [readBpe, hf]
      simp only [dropoutOk, h1, if_true]
    have ht : Json.get fs "type".toList = some (.str "BPE".toList) := by rw [← hfs]; simp [Json.get]
    rw [readModel, ht]
    simp [hr]
  refine ⟨⟨none, none, av, n, some (.sequence [.split (.regex re) .isolated false, .byteLevel ⟨false, trim, false⟩]), o,
    some (.byteLevel ⟨aps, trim', aps⟩), .bpe none b⟩, b.bare, ?_, h2, h6, h7, ?_, rfl, a2⟩
  · refine load_file rfl rfl hi hn ?_ ho ?_ hmod a1
    · simp [splitJson, writeByteLevel, orNull, readPre, readPreField, readPreArr, readPres, req, Json.get, asStr, preTagged,
        readSequence, tagged, readSplit, readPat, asEnum, behaviors, hc, readByteLevel, dflt, asBool]
    · simp [writeByteLevel, orNull, readDec, req, Json.get, asStr, decTagged, readByteLevel, tagged, asBool, dflt]
  · have hclean : Clean (tokens.map (·.2)) av := by
      rw [a2]
      refine after_clean hok build _ (fun t ht => by simpa [tokensOf] using ht) (.inr ?_) (inv_empty _)
        ⟨rfl, by simp [empty, AMap.get], by simp [empty]⟩
      intro t ht
      obtain ⟨y, hy, rfl⟩ := List.mem_map.1 ht
      exact hraw y hy
    have hfrom : ∀ i t, av.rmap.get i = some t → ∃ y ∈ tokens, y.2 = t := fun i t h => List.mem_map.1 (hclean.token i t h)
    exact
      { pipeline :=
          { normalizer := hz
            preTok := rfl
            unicode := hu
            safe := hsafe
            sound := ⟨hre _, hby, trivial⟩
            anywhere := ⟨trivial, trivial, trivial⟩
            tries := a2 ▸ after_tries hok (fun l hl p hp =>
              ((hb l (by intro h; rw [h] at hp; cases hp)).1 hl).2 p hp) _ (inv_empty _) (by simp [TriesOk, empty])
            bare := by
              refine ⟨?_, fun i t h => ?_⟩
              · show av.encodeSpecial = false
                rw [a2]
                exact addTokens_encodeSpecial empty _
              · obtain ⟨y, hy, rfl⟩ := hfrom i t h
                exact hplain y hy }
        engine := hby
        keeps := by
          intro y hy
          rw [List.mem_singleton] at hy
          subst hy
          exact keeps_split _ (hre _) (by simp) _
        decoder := rfl
        model := fun x => by
          show Tokenizer.bpeResult _ = _
          rw [Bpe.tokenize_bare (by rw [h4]; exact haff) (by rw [h5]; exact haff)]
        view := rfl
        built := h3
        affixes := ⟨rfl, rfl⟩
        alphabet := fun x => by
          obtain ⟨p, hp, he⟩ := List.mem_map.1 (halpha x)
          refine ⟨p.2, ?_⟩
          show b.vocab.get _ = _
          rw [h2, ← he]
          exact (readVocab_get hv.tokens p.1 p.2).2 hp
        ids := hids }

/-- The template in a file in the form of Llama 3's: the token `bos`, with the id `id`, in front of every text. -/
def llama3Template (bos : Str) (id : Nat) : Post.Template :=
  Post.ofJson [.special bos 0, .sequence .A 0] [.special bos 0, .sequence .A 0, .special bos 1, .sequence .B 1] [(bos, ⟨bos, [id], [bos]⟩)]

/-- What loading a file in the form of Llama 3's gives. -/
theorem llama3_loaded (w : World) (hu : w.uni.Ok) (hre : ∀ p s, NS.EngineMatches s 0 (w.matches' p s))
    (hby : ∀ s, NS.EngineMatches s 0 (w.byteLevel s)) (e : Env) (skip' : Bool)
    {build : List (Str × Nat) → Bool} (hb : Automata build) {re : Str} (hc : e.compiles (.regex re) = true)
    {vocab : List (Str × Nat)} (hv : VocabOk vocab) (halpha : ∀ x : UInt8, [ByteLevel.byteChar x] ∈ vocab.map (·.1))
    {merges : List (Str × Str)} (hm : MergesOk vocab merges) (hl : LinesOk merges) (hsmall : vocab.length < 4294967296)
    {bos : AddedToken} (hbos : bos.special = true) (hne : bos.content ≠ [])
    {tokens : List (Nat × AddedToken)} (hi : ∀ x ∈ tokens, x.1 < 4294967296)
    (honce : ∀ x ∈ tokens, x.2.content = bos.content → x.2.special = true)
    (hraw : ∀ x ∈ (vocab.length, bos) :: tokens, x.2.normalized = false)
    (hplain : ∀ x ∈ (vocab.length, bos) :: tokens, x.2.lstrip = false ∧ x.2.rstrip = false ∧ x.2.singleWord = false)
    (hout : ∀ x ∈ (vocab.length, bos) :: tokens, x.2.content ∉ vocab.map (·.1)) :
    ∃ c b, load e skip' build w.norm (llama3File re bos.content vocab.length vocab merges ((vocab.length, bos) :: tokens)) = .ok c ∧
      b.vocab = readVocab vocab ∧ b.ignoreMerges = true ∧ b.useDropout = false ∧
      Tokenizer.IsSplitBytes (w.tokenizer c) w.uni (.sequence []) w.tables [.split (w.matches' (.regex re)) .isolated false] false
        w.byteLevel b w.coins ∧
      (w.tokenizer c).added = after build (w.tokenizer c).view empty [.add (w.norm none) (((vocab.length, bos) :: tokens).map (·.2))] ∧
      Clean (((vocab.length, bos) :: tokens).map (·.2)) (w.tokenizer c).added ∧
      (∀ x ∈ (vocab.length, bos) :: tokens, b.vocab.get x.2.content = none) ∧
      Tokenizer.Around (w.tokenizer c).settings (Tokenizer.IsSpecialId (w.tokenizer c).added) ∧
      (w.tokenizer c).settings = ⟨none, none, some (.sequence [.byteLevel true false, .template (llama3Template bos.content vocab.length)])⟩ ∧
      Tokenizer.IsSpecialId (w.tokenizer c).added vocab.length := by
  let tm : Post.Template := llama3Template bos.content vocab.length
  obtain ⟨c, b, h1, h2, h3, h4, h5, h6, h7⟩ := bytesFile_loaded w hu hre hby e skip' hb (jn := .null) (n := none)
    (jo := .obj [("type".toList, .str "Sequence".toList), ("processors".toList, .arr [writeByteLevel ⟨true, false, true⟩,
      .obj [("type".toList, .str "TemplateProcessing".toList),
        ("single".toList, .arr [
          .obj [("SpecialToken".toList, .obj [("id".toList, .str bos.content), ("type_id".toList, .int 0)])],
          .obj [("Sequence".toList, .obj [("id".toList, .str "A".toList), ("type_id".toList, .int 0)])]]),
        ("pair".toList, .arr [
          .obj [("SpecialToken".toList, .obj [("id".toList, .str bos.content), ("type_id".toList, .int 0)])],
          .obj [("Sequence".toList, .obj [("id".toList, .str "A".toList), ("type_id".toList, .int 0)])],
          .obj [("SpecialToken".toList, .obj [("id".toList, .str bos.content), ("type_id".toList, .int 1)])],
          .obj [("Sequence".toList, .obj [("id".toList, .str "B".toList), ("type_id".toList, .int 1)])]]),
        ("special_tokens".toList, .obj [(bos.content, .obj [("id".toList, .str bos.content),
          ("ids".toList, .arr [.int vocab.length]), ("tokens".toList, .arr [.str bos.content])])])]])])
    (o := some (.sequence [.byteLevel ⟨true, false, true⟩, .template tm])) .null (by
      simp [tm, llama3Template, writeByteLevel, orNull, readProc, readProcField, readProcArr, readProcs, procUntagged, readRoberta, readBertProc, req,
        Json.get, asStr, readByteLevel, tagged, readTemplate, asList, readPiece, asEnum, seqs, asMap, readSpecial, asU32, asNat,
        hsmall, AMap.extend, AMap.insert, readSequence, asBool, dflt])
    (z := .sequence []) rfl trivial hc (affix := none) rfl (ignore := true) (trim := true) (trim' := true) (aps := true)
    hv halpha hm hl (tokens := (vocab.length, bos) :: tokens) (by
      intro x hx
      rcases List.mem_cons.1 hx with rfl | hx
      · exact hsmall
      · exact hi x hx) hraw hplain
  have hT : ∀ x ∈ tokensOf [Op.add (w.norm none) (((vocab.length, bos) :: tokens).map (·.2))],
      ∃ y ∈ (vocab.length, bos) :: tokens, y.2 = x := by
    intro x hx
    simp only [tokensOf, List.append_nil] at hx
    exact List.mem_map.1 hx
  have hraw' : ∀ x ∈ tokensOf [Op.add (w.norm none) (((vocab.length, bos) :: tokens).map (·.2))], x.normalized = false := by
    intro x hx
    obtain ⟨y, hy, rfl⟩ := hT x hx
    exact hraw y hy
  have hnone : ∀ x ∈ (vocab.length, bos) :: tokens, b.vocab.get x.2.content = none := by
    intro x hx
    cases hg : b.vocab.get x.2.content with
    | none => rfl
    | some i =>
      rw [h2, readVocab_get hv.tokens] at hg
      exact absurd (List.mem_map.2 ⟨_, hg, rfl⟩) (hout x hx)
  have hm' := h5.ok
  have hinv : Inv (w.tokenizer c).view (w.tokenizer c).added := h7 ▸ (after_inv hm' build _ (inv_empty _)).1
  have hclean : Clean (((vocab.length, bos) :: tokens).map (·.2)) (w.tokenizer c).added := by
    rw [h7]
    exact after_clean hm' build _ (fun t ht => by simpa [tokensOf] using ht) (.inr fun t ht => hraw' t (by simpa [tokensOf] using ht))
      (inv_empty _) ⟨rfl, by simp [empty, AMap.get], by simp [empty]⟩
  have hid : Tokenizer.IsSpecialId (w.tokenizer c).added vocab.length := by
    have hg : (w.tokenizer c).added.map.get bos.content = some vocab.length := by
      rw [h7]
      have hsize : (w.tokenizer c).view.size = vocab.length := by
        rw [h5.view]
        show b.vocab.length = _
        rw [h2, readVocab_length hv]
      have hto : (w.tokenizer c).view.toId bos.content = none := by
        rw [h5.view]
        exact hnone (vocab.length, bos) (by simp)
      rw [← hsize]
      exact addTokens_first (build := build) (tokens.map (·.2)) hne hto (normalForm_raw _ (hraw (vocab.length, bos) (by simp)))
    obtain ⟨t, t1, t2⟩ := (hinv.inverse _ _).1 hg
    obtain ⟨y, hy, rfl⟩ := List.mem_map.1 (hclean.token _ _ t1)
    refine ⟨y.2, t1, ?_⟩
    rcases List.mem_cons.1 hy with rfl | hy
    · exact hbos
    · exact honce y hy t2
  have hset : Tokenizer.Around (w.tokenizer c).settings (Tokenizer.IsSpecialId (w.tokenizer c).added) := by
    refine .inr ⟨true, false, .template tm, h6, rfl, rfl, .inr (.inl ⟨tm, [.special bos.content 0], 0, [], rfl, rfl, fun p hp => ?_⟩)⟩
    simp only [List.append_nil, List.mem_singleton] at hp
    refine ⟨_, _, ⟨bos.content, [vocab.length], [bos.content]⟩, hp, by simp [tm, llama3Template, Post.ofJson, AMap.get], rfl,
      fun i hi => ?_⟩
    simp only [List.mem_singleton] at hi
    rw [hi]
    exact hid
  exact ⟨c, b, h1, h2, h3, h4, h5, h7, hclean, hnone, hset, h6, hid⟩

/-- **C108.** A file in the form of Llama 3's is loaded, and then: every text, encoded without the special token in front, is decoded to
what it was; a text without added tokens is decoded to what it was whether the special token is put in front and skipped or not;
and there every word that is in the vocabulary is one token. -/
theorem C108_llama3 (w : World) (hu : w.uni.Ok) (hre : ∀ p s, NS.EngineMatches s 0 (w.matches' p s))
    (hby : ∀ s, NS.EngineMatches s 0 (w.byteLevel s)) (e : Env) (skip' : Bool)
    {build : List (Str × Nat) → Bool} (hb : Automata build) {re : Str} (hc : e.compiles (.regex re) = true)
    {vocab : List (Str × Nat)} (hv : VocabOk vocab) (halpha : ∀ x : UInt8, [ByteLevel.byteChar x] ∈ vocab.map (·.1))
    {merges : List (Str × Str)} (hm : MergesOk vocab merges) (hl : LinesOk merges) (hsmall : vocab.length < 4294967296)
    {bos : AddedToken} (hbos : bos.special = true) (hne : bos.content ≠ [])
    {tokens : List (Nat × AddedToken)} (hi : ∀ x ∈ tokens, x.1 < 4294967296)
    (honce : ∀ x ∈ tokens, x.2.content = bos.content → x.2.special = true)
    (hraw : ∀ x ∈ (vocab.length, bos) :: tokens, x.2.normalized = false)
    (hplain : ∀ x ∈ (vocab.length, bos) :: tokens, x.2.lstrip = false ∧ x.2.rstrip = false ∧ x.2.singleWord = false)
    (hlit : ∀ x ∈ (vocab.length, bos) :: tokens, ByteLevel.Literal x.2.content)
    (hout : ∀ x ∈ (vocab.length, bos) :: tokens, x.2.content ∉ vocab.map (·.1)) :
    ∃ c, load e skip' build w.norm (llama3File re bos.content vocab.length vocab merges ((vocab.length, bos) :: tokens)) = .ok c ∧
      (∀ s, ∃ enc, (w.tokenizer c).encode (.raw s, none) false = .ok enc ∧ (w.tokenizer c).decode false enc.ids = some s) ∧
      ∀ s, s ≠ [] → (∀ x ∈ (vocab.length, bos) :: tokens, ¬ x.2.content <:+: s) →
        (∀ add skip, (add = true → skip = true) → ∃ enc, (w.tokenizer c).encode (.raw s, none) add = .ok enc ∧
          (w.tokenizer c).decode skip enc.ids = some s) ∧
        ∃ (enc : Encoding) (tss : List (List Token)), (w.tokenizer c).encode (.raw s, none) false = .ok enc ∧
          enc.ids = tss.flatten.map (·.id) ∧
          tss.map (fun ts => ts.flatMap (·.value)) =
            PreTokenizer.solid (PreTokenizer.cut w.tables false (.sequence [.split (w.matches' (.regex re)) .isolated false,
              .byteLevel ⟨false, false⟩ w.byteLevel]) s) ∧
          ∀ ts ∈ tss, ∀ i, (ts.flatMap (·.value), i) ∈ vocab → ts.map (·.id) = [i] := by
  have hid : ∀ s : Str, (Normalizer.sequence []).text w.uni s = s := fun s => by simp [Normalizer.text, Normalizer.textAll]
  obtain ⟨c, b, h1, h2, h3, h4, h5, h7, hclean, hnone, hset, -, -⟩ := llama3_loaded w hu hre hby e skip' hb hc hv halpha hm hl hsmall
    hbos hne hi honce hraw hplain hout
  have hT : ∀ x ∈ tokensOf [Op.add (w.norm none) (((vocab.length, bos) :: tokens).map (·.2))],
      ∃ y ∈ (vocab.length, bos) :: tokens, y.2 = x := by
    intro x hx
    simp only [tokensOf, List.append_nil] at hx
    exact List.mem_map.1 hx
  have hraw' : ∀ x ∈ tokensOf [Op.add (w.norm none) (((vocab.length, bos) :: tokens).map (·.2))], x.normalized = false := by
    intro x hx
    obtain ⟨y, hy, rfl⟩ := hT x hx
    exact hraw y hy
  have hlit' : ∀ x ∈ tokensOf [Op.add (w.norm none) (((vocab.length, bos) :: tokens).map (·.2))],
      ByteLevel.Literal x.content := by
    intro x hx
    obtain ⟨y, hy, rfl⟩ := hT x hx
    exact hlit y hy
  have hout' : ∀ x ∈ tokensOf [Op.add (w.norm none) (((vocab.length, bos) :: tokens).map (·.2))], x.special = true →
      b.vocab.get x.content = none := by
    intro x hx _
    obtain ⟨y, hy, rfl⟩ := hT x hx
    exact hnone y hy
  have hset' : Tokenizer.Around (w.tokenizer c).settings fun _ => True := Tokenizer.around_mono hset fun _ _ => trivial
  refine ⟨c, h1, fun s => ?_, fun s hs hfree => ⟨fun add skip hskip => ?_, ?_⟩⟩
  · exact Tokenizer.C108_lossless h5 hid h7 (.inr hraw') (by simp [normsOf, World.norm]) hlit' hset s
  · have := Tokenizer.C108_normalized h5 h7 (.inr hraw') (by simp [normsOf, World.norm]) hlit' hset hs (fun x hx => by
      obtain ⟨y, hy, rfl⟩ := hT x hx
      rw [hid]
      exact ⟨hfree y hy, hfree y hy⟩) hskip (fun _ => hout')
    rwa [hid] at this
  · have hpat : ∀ p ∈ (w.tokenizer c).added.trie ++ (w.tokenizer c).added.normTrie, ¬ p.1 <:+: s := by
      intro p hp
      obtain ⟨x, x1, x2⟩ := hclean.pattern p.1 p.2 hp
      obtain ⟨y, hy, hyx⟩ := List.mem_map.1 (hclean.token _ _ x1)
      rw [← x2, ← hyx]
      exact hfree y hy
    obtain ⟨enc, tss, e1, e2, e3, e4⟩ := Tokenizer.C108_whole h5 h3 h4 hset' hs (fun p hp => hpat p (by simp [hp])) (fun p hp => by
      rw [hid]; exact hpat p (by simp [hp]))
    rw [hid] at e2
    refine ⟨enc, tss, e1, e4, e2, fun ts hts i hi => e3 ts hts i ?_⟩
    rw [h2]
    exact (readVocab_get hv.tokens _ _).2 hi

/-- **C108.** A file in the form of Qwen 2's is loaded, and then a text in which no added token is written, neither as it is nor in
normal form C, is decoded to its normal form C. -/
theorem C108_qwen (w : World) (hu : w.uni.Ok) (hre : ∀ p s, NS.EngineMatches s 0 (w.matches' p s))
    (hby : ∀ s, NS.EngineMatches s 0 (w.byteLevel s)) (e : Env) (skip' : Bool)
    {build : List (Str × Nat) → Bool} (hb : Automata build) {re : Str} (hc : e.compiles (.regex re) = true)
    {vocab : List (Str × Nat)} (hv : VocabOk vocab) (halpha : ∀ x : UInt8, [ByteLevel.byteChar x] ∈ vocab.map (·.1))
    {merges : List (Str × Str)} (hm : MergesOk vocab merges) (hl : LinesOk merges)
    {tokens : List (Nat × AddedToken)} (hi : ∀ x ∈ tokens, x.1 < 4294967296)
    (hraw : ∀ x ∈ tokens, x.2.normalized = false)
    (hplain : ∀ x ∈ tokens, x.2.lstrip = false ∧ x.2.rstrip = false ∧ x.2.singleWord = false)
    (hlit : ∀ x ∈ tokens, ByteLevel.Literal x.2.content)
    (hout : ∀ x ∈ tokens, x.2.content ∉ vocab.map (·.1)) :
    ∃ c, load e skip' build w.norm (qwenFile re vocab merges tokens) = .ok c ∧
      ∀ s, s ≠ [] → (∀ x ∈ tokens, ¬ x.2.content <:+: s ∧ ¬ x.2.content <:+: (w.uni.nfc s).map (·.1)) →
        ∀ add skip, (add = true → skip = true) → ∃ enc, (w.tokenizer c).encode (.raw s, none) add = .ok enc ∧
          (w.tokenizer c).decode skip enc.ids = some ((w.uni.nfc s).map (·.1)) := by
  obtain ⟨c, b, h1, h2, h3, h4, h5, h6, h7⟩ := bytesFile_loaded w hu hre hby e skip' hb
    (jn := .obj [("type".toList, .str "NFC".toList)]) (n := some .nfc) (jo := writeByteLevel ⟨false, false, false⟩)
    (o := some (.byteLevel ⟨false, false, false⟩)) (.some (by
      simp [readNorm, req, Json.get, asStr, normTagged, readUnit, tagged, orErr])) (by
      simp [writeByteLevel, orNull, readProc, procUntagged, readRoberta, readBertProc, req, Json.get, asStr, readByteLevel,
        tagged, asBool, dflt])
    (z := .nfc) rfl trivial hc (affix := some []) rfl (ignore := false) (trim := false) (trim' := false) (aps := false)
    hv halpha hm hl hi hraw hplain
  have hT : ∀ x ∈ tokensOf [Op.add (w.norm (some .nfc)) (tokens.map (·.2))], ∃ y ∈ tokens, y.2 = x := by
    intro x hx
    simp only [tokensOf, List.append_nil] at hx
    exact List.mem_map.1 hx
  refine ⟨c, h1, fun s hs hfree add skip hskip => ?_⟩
  refine Tokenizer.C108_normalized h5 h7 (.inr fun x hx => ?_) ?_ (fun x hx => ?_) ?_ hs (fun x hx => ?_) hskip (fun _ x hx _ => ?_)
  · obtain ⟨y, hy, rfl⟩ := hT x hx
    exact hraw y hy
  · intro f hf t h0
    simp only [normsOf, World.norm, Option.toList_some, List.append_nil, List.mem_singleton] at hf
    subst hf
    obtain ⟨n', h1, _⟩ := Normalizer.C56_normalizer hu (whole := t) .nfc trivial (NS.good_ofStr t)
    have h1 : (w.toNorm .nfc).apply w.uni (NS.ofStr t) = some n' := h1
    simp only [h1, Option.map_some] at h0
    cases h0
  · obtain ⟨y, hy, rfl⟩ := hT x hx
    exact hlit y hy
  · exact .inl (by rw [h6]; exact ⟨rfl, rfl, .inl (.inr ⟨false, false, rfl⟩)⟩)
  · obtain ⟨y, hy, rfl⟩ := hT x hx
    exact hfree y hy
  · obtain ⟨y, hy, rfl⟩ := hT x hx
    cases hg : b.vocab.get y.2.content with
    | none => rfl
    | some i =>
      rw [h2, readVocab_get hv.tokens] at hg
      exact absurd (List.mem_map.2 ⟨_, hg, rfl⟩) (hout y hy)

end Tok.Save
