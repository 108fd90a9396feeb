import Verif.Save.PublishedGpt2
import Verif.Tokenizer.Roberta
import Verif.Tokenizer.AddLocal
import Verif.Tokenizer.Pairs

/-!
# C120: a file in the form of RoBERTa's

Byte-level BPE with `<s>` and `</s>` in the vocabulary of the model, put around the texts by `RobertaProcessing`. The tokens of the
file may strip spaces around them, as `<mask>` does, or be found only as whole words: for texts in which no token of the file
occurs it makes no difference.
-/

namespace Tok.Save
open Json AddedVocab

/-- The file `tokenizer.json` in the form (from memory) published for RoBERTa: as GPT-2's, with `RobertaProcessing`. -/
def robertaFile (cls sep : Nat) (vocab : List (Str × Nat)) (merges : List (Str × Str)) (tokens : List (Nat × AddedToken)) : Json :=
  file .null .null (.arr (tokens.map writeAddedToken)) .null (oldByteLevel false true)
    (.obj [("type".toList, .str "RobertaProcessing".toList), ("sep".toList, writeMark ("</s>".toList, sep)),
      ("cls".toList, writeMark ("<s>".toList, cls)), ("trim_offsets".toList, .bool true),
      ("add_prefix_space".toList, .bool false)])
    (oldByteLevel true true)
    (.obj [("dropout".toList, .null), ("unk_token".toList, .null), ("continuing_subword_prefix".toList, .str []),
      ("end_of_word_suffix".toList, .str []), ("fuse_unk".toList, .bool false), ("vocab".toList, writeVocab vocab),
      ("merges".toList, mergeLines merges)])

/-- The settings of a tokenizer loaded from such a file. -/
def robertaConf (cls sep : Nat) (av : AddedVocab) (b : Bpe.Bpe) : Conf :=
  ⟨none, none, av, none, some (.byteLevel ⟨false, true, true⟩),
    some (.roberta ("</s>".toList, sep) ("<s>".toList, cls) true false), some (.byteLevel ⟨true, true, true⟩), .bpe none b⟩

theorem readProc_roberta {s c : Str × Nat} (t a : Bool) (hs : s.2 < 4294967296) (hc : c.2 < 4294967296) :
    readProc (.obj [("type".toList, .str "RobertaProcessing".toList), ("sep".toList, writeMark s), ("cls".toList, writeMark c),
      ("trim_offsets".toList, .bool t), ("add_prefix_space".toList, .bool a)]) = some (.roberta s c t a) := by
  simp [readProc, procUntagged, readRoberta, req, Json.get, readMark_writeMark hs, readMark_writeMark hc, asBool]

/-- What is loaded from such a file. -/
theorem robertaFile_loaded (w : World) (e : Env) (skip : Bool) {build : List (Str × Nat) → Bool} (hb : Automata build)
    {cls sep : Nat} (hcls : cls < 4294967296) (hsep : sep < 4294967296)
    {vocab : List (Str × Nat)} (hv : VocabOk vocab) {merges : List (Str × Str)} (hm : MergesOk vocab merges)
    (hl : LinesOk merges) {tokens : List (Nat × AddedToken)} (hi : ∀ x ∈ tokens, x.1 < 4294967296) :
    ∃ b av, load e skip build w.norm (robertaFile cls sep vocab merges tokens) = .ok (robertaConf cls sep av b) ∧
      b.vocab = readVocab vocab ∧ Bpe.Built b.bare ∧ b.pre = some [] ∧ b.suf = some [] ∧
      (∀ s i, b.vocab.get s = some i → i < b.vocab.length) ∧ (Tokenizer.bpeView b).Ok ∧
      loadAdded build (Tokenizer.bpeView b) none tokens = some av ∧
      av = after build (Tokenizer.bpeView b) empty [.add none (tokens.map (·.2))] := by
  obtain ⟨b, h1, h2, h3, h4, h5, _, _⟩ := loadBpe_ok (s := ⟨false, none, some [], some [], false, false, false, vocab, merges⟩)
    hv hm rfl
  have hids : ∀ s i, b.vocab.get s = some i → i < b.vocab.length := by
    intro s i h
    rw [h2, readVocab_length hv]
    rw [h2] at h
    exact hv.below _ ((readVocab_get hv.tokens s i).1 h)
  have hok : (Tokenizer.bpeView b).Ok := ⟨hids, fun c i => Bpe.C46_bpe_vocab_inverse h3 c i⟩
  obtain ⟨av, a1, a2⟩ := loadAdded_plain hb hok (norm := none) tokens fun x _ => normalForm_none x.2
  have hvoc : asMap asU32 (writeVocab vocab) = some vocab :=
    asMap_writeVocab fun p hp => Nat.lt_of_lt_of_le (hv.below p hp) hv.small
  have hmod : ∀ fs, fs = [("dropout".toList, Json.null), ("unk_token".toList, Json.null),
      ("continuing_subword_prefix".toList, Json.str []), ("end_of_word_suffix".toList, Json.str []),
      ("fuse_unk".toList, Json.bool false), ("vocab".toList, writeVocab vocab), ("merges".toList, mergeLines merges)] →
      readModel (.obj fs) = .ok (.bpe none b) := by
    intro fs hfs
    have hf : readBpeFields fs = some (none, ⟨false, none, some [], some [], false, false, false, vocab, merges⟩) := by
      rw [hfs]
      simp [readBpeFields, opt, req, Json.get, orNull, asStr, asBool, hvoc, readMergeList_lines hl, activeDropout]
    have hr : readBpe fs = .ok (.bpe none b) := by
      rw [readBpe, hf]
      simp only [dropoutOk, h1, if_true]
    have ht : Json.get fs "type".toList = none := by rw [hfs]; simp [Json.get]
    rw [readModel, ht]
    simp only [hr, orTry]
  refine ⟨b, av, ?_, h2, h3, h4, h5, hids, hok, a1, a2⟩
  refine load_file rfl rfl hi .null ?_ ?_ ?_ (hmod _ rfl) a1
  · simp [oldByteLevel, orNull, readPre, req, Json.get, asStr, preTagged, readByteLevel, tagged, asBool, dflt]
  · rw [orNull, readProc_roberta true false hsep hcls]
    · rfl
    · intro h; cases h
  · simp [oldByteLevel, orNull, readDec, req, Json.get, asStr, decTagged, readByteLevel, tagged, asBool, dflt]

/-- The ids that `RobertaProcessing` gives. -/
theorem roberta_ids {s : Post.Settings} {m : Post.Marks} {trim aps : Bool} (h1 : s.truncation = none) (h2 : s.padding = none)
    (h3 : s.processor = some (.roberta m trim aps)) (ws : Char → Bool) (checked : Bool) (e : Encoding) :
    (∃ out, s.postProcess ws checked e none false = .ok out ∧ out.ids = e.ids) ∧
    (∃ out, s.postProcess ws checked e none true = .ok out ∧ out.ids = m.cls.2 :: (e.ids ++ [m.sep.2])) ∧
    ∀ o : Encoding, ∃ out, s.postProcess ws checked e (some o) true = .ok out ∧
      out.ids = m.cls.2 :: (e.ids ++ m.sep.2 :: m.sep.2 :: (o.ids ++ [m.sep.2])) := by
  have hf : ∀ e : Encoding, (Post.robertaFirst m e).ids = m.cls.2 :: (e.ids ++ [m.sep.2]) := fun e => rfl
  have ho : ∀ e : Encoding, (Post.robertaOther m e).ids = m.sep.2 :: (e.ids ++ [m.sep.2]) := fun e => rfl
  have ht : ∀ (e : Encoding) l, (e.setTypeIds l).ids = e.ids := fun e l => by cases e; rfl
  have hx : ∀ e : Encoding, (Post.trimAll ws aps e).ids = e.ids := fun e => by
    simp [Post.trimAll, Tokenizer.withOverflowing_ids, Tokenizer.processOffsets_ids]
  unfold Post.Settings.postProcess Post.Settings.truncate Post.Settings.finish Post.Settings.padOne
  rw [h1, h2, h3]
  refine ⟨⟨_, rfl, ?_⟩, ⟨_, rfl, ?_⟩, fun o => ⟨_, rfl, ?_⟩⟩ <;> cases trim <;>
    simp [Post.robertaProcess, Post.mapFirst, Encoding.merge_ids_flatMap, Tokenizer.prepare_ids, hf, ho, ht, hx]

/-- No token of the file occurs in the text. -/
def FreeOf (tokens : List (Nat × AddedToken)) (s : Str) : Prop := ∀ x ∈ tokens, ¬ x.2.content <:+: s

/-- **C120.** A file in the form of RoBERTa's is loaded. The texts in which no token of the file occurs are encoded without error;
`<s>` is put before a text and `</s>` behind it, and between the texts of a pair are two `</s>`; nothing else is added to the ids
the texts have without special tokens. These are decoded to the text itself; so are the others if special tokens are skipped, and
if not, the special tokens are where they were put. -/
theorem C120_roberta (w : World) (hre : ∀ s, NS.EngineMatches s 0 (w.byteLevel s)) (e : Env) (skip : Bool)
    {build : List (Str × Nat) → Bool} (hb : Automata build) {cls sep : Nat}
    {vocab : List (Str × Nat)} (hv : VocabOk vocab) (halpha : ∀ x : UInt8, [ByteLevel.byteChar x] ∈ vocab.map (·.1))
    (hcls : ("<s>".toList, cls) ∈ vocab) (hsep : ("</s>".toList, sep) ∈ vocab)
    {merges : List (Str × Str)} (hm : MergesOk vocab merges) (hl : LinesOk merges)
    {tokens : List (Nat × AddedToken)} (hi : ∀ x ∈ tokens, x.1 < 4294967296)
    (hlit : ∀ x ∈ tokens, ByteLevel.Literal x.2.content)
    (hmarks : ∀ m ∈ ["<s>".toList, "</s>".toList], (∃ x ∈ tokens, x.2.content = m) ∧
      ∀ x ∈ tokens, x.2.content = m → x.2.special = true) :
    ∃ c, load e skip build w.norm (robertaFile cls sep vocab merges tokens) = .ok c ∧
      ∃ ids : Str → List Nat, ∀ a, FreeOf tokens a →
        (∃ enc, (w.tokenizer c).encode (.raw a, none) false = .ok enc ∧ enc.ids = ids a ∧
          ∀ skip, (w.tokenizer c).decode skip enc.ids = some a) ∧
        (∃ enc, (w.tokenizer c).encode (.raw a, none) true = .ok enc ∧ enc.ids = cls :: (ids a ++ [sep]) ∧
          (w.tokenizer c).decode true enc.ids = some a ∧
          (w.tokenizer c).decode false enc.ids = some ("<s>".toList ++ a ++ "</s>".toList)) ∧
        ∀ b, FreeOf tokens b →
          ∃ enc, (w.tokenizer c).encode (.raw a, some (.raw b)) true = .ok enc ∧
            enc.ids = cls :: (ids a ++ sep :: sep :: (ids b ++ [sep])) ∧
            (w.tokenizer c).decode true enc.ids = some (a ++ b) ∧
            (w.tokenizer c).decode false enc.ids =
              some ("<s>".toList ++ a ++ "</s>".toList ++ "</s>".toList ++ b ++ "</s>".toList) := by
  obtain ⟨b, av, h0, h2, h3, h4, h5, hids, hok, a1, a2⟩ := robertaFile_loaded w e skip hb
    (Nat.lt_of_lt_of_le (hv.below _ hcls) hv.small) (Nat.lt_of_lt_of_le (hv.below _ hsep) hv.small) hv hm hl hi
  refine ⟨robertaConf cls sep av b, h0, ?_⟩
  generalize htt : w.tokenizer (robertaConf cls sep av b) = t
  have hget : ∀ c i, (c, i) ∈ vocab → b.vocab.get c = some i := by
    intro c i h
    rw [h2]
    exact (readVocab_get hv.tokens _ _).2 h
  have hinv : Inv (Tokenizer.bpeView b) av := a2 ▸ (after_inv hok build _ (inv_empty _)).1
  have hclean : Clean (tokens.map (·.2)) av := by
    rw [a2]
    exact after_clean hok build _ (fun t ht => by simpa [tokensOf] using ht) (.inl rfl) (inv_empty _)
      ⟨rfl, by simp [empty, AMap.get], by simp [empty]⟩
  -- the marks
  have hspec : ∀ m ∈ ["<s>".toList, "</s>".toList], ∀ j, (m, j) ∈ vocab → Tokenizer.IsSpecialId av j := by
    intro m hmem j hj
    obtain ⟨⟨x, x1, x2⟩, hall⟩ := hmarks m hmem
    obtain ⟨i, g⟩ := addTokens_has (build := build) (m := Tokenizer.bpeView b) empty (tokens.map (·.2))
      (norm := none) (fun t _ => normalForm_none t) (List.mem_map.2 ⟨x, x1, rfl⟩) (by
        rw [x2]
        simp only [List.mem_cons, List.not_mem_nil, or_false] at hmem
        rcases hmem with rfl | rfl <;> decide)
    have g : av.map.get x.2.content = some i := by rw [a2]; exact g
    have hvb : (Tokenizer.bpeView b).toId m = some j := hget _ _ hj
    have hib : i = j := by
      rw [x2] at g
      rcases hinv.model _ _ g with k | ⟨k, _⟩
      · rw [hvb] at k; exact (Option.some.inj k).symm
      · rw [hvb] at k; cases k
    obtain ⟨t, t1, t2⟩ := (hinv.inverse _ _).1 g
    obtain ⟨y, hy, rfl⟩ := List.mem_map.1 (hclean.token _ _ t1)
    exact ⟨y.2, by rw [← hib]; exact t1, hall y hy (by rw [t2, x2])⟩
  -- the texts
  let t0 : Tokenizer := { t with added := empty }
  have hrob : Tokenizer.IsRoberta t0 Normalizer.sample w.tables b.bare ⟨false, true⟩ w.byteLevel w.coins := by
    subst htt
    exact
      { pipeline :=
          { normalizer := rfl
            preTok := rfl
            unicode := Normalizer.sample_ok
            safe := trivial
            sound := hre
            anywhere := trivial
            tries := by simp [TriesOk, t0, empty]
            bare := ⟨rfl, fun i t h => by simp [t0, empty, AMap.get] at h⟩ }
        model := fun x => by
          show Tokenizer.bpeResult _ = _
          rw [Bpe.tokenize_bare (by rw [h4]; rfl) (by rw [h5]; rfl)]
        view := rfl
        decoder := rfl
        built := h3
        affixes := ⟨rfl, rfl⟩
        alphabet := fun x => by
          obtain ⟨p, hp, he⟩ := List.mem_map.1 (halpha x)
          exact ⟨p.2, he ▸ hget p.1 p.2 hp⟩
        ids := hids }
  have hset : t.settings.truncation = none ∧ t.settings.padding = none ∧
      t.settings.processor = some (.roberta ⟨("</s>".toList, sep), ("<s>".toList, cls)⟩ true false) := by
    subst htt
    exact ⟨rfl, rfl, rfl⟩
  have hview : t.view = Tokenizer.bpeView b ∧ t.added = av ∧ t.normalizer = some ∧ t.decoder = some .byteLevel := by
    subst htt
    exact ⟨rfl, rfl, rfl, rfl⟩
  have hlim : ∀ i, t.limit i = none := fun i => by unfold Tokenizer.limit; rw [hset.1]
  obtain ⟨k, hadd⟩ : ∃ k, empty.addTokens build (Tokenizer.bpeView b) none (tokens.map (·.2)) = (av, some k) := by
    unfold loadAdded at a1
    split at a1
    · rename_i k hk
      cases a1
      exact ⟨k, hk⟩
    · cases a1
  have hnodup : ∀ l, build l = true → (l.map (·.1)).Nodup := by
    intro l hl
    by_cases hne : l = []
    · subst hne; exact List.nodup_nil
    · exact ((hb l hne).1 hl).1
  have htext : ∀ s, FreeOf tokens s → ∃ ts : List Token, (∀ x ∈ ts, b.vocab.get x.value = some x.id ∧ x.value ∉ av.specials) ∧
      (ts.map (·.value)).flatten = ByteLevel.spell s ∧
      ∀ i, ∃ e, t.encodeSequence i .byte (.raw s) = .ok e ∧ e.ids = ts.map (·.id) := by
    intro s hs
    have hsame : t0.encodeSequence 0 .byte (.raw s) = t.encodeSequence 0 .byte (.raw s) := by
      show t0.encodeText _ _ _ _ _ = t.encodeText _ _ _ _ _
      unfold Tokenizer.encodeText Tokenizer.preTokenized
      show ((Tokenizer.mapErr _ (extractAndNormalize t0.cl empty t0.normalizer s)).bind _).bind _ = _
      rw [C114_extract hok hnodup (ops := []) trivial (av := empty) rfl (norm := none) (ts := tokens.map (·.2))
        (fun x _ => .inl rfl) hadd (cl := t0.cl) (normalizer := t0.normalizer) (s := s) ?_]
      · rw [← hview.2.1]; rfl
      · show Absent none t.normalizer _ _
        rw [hview.2.2.1]
        refine absent_plain fun x hx => ?_
        obtain ⟨y, hy, rfl⟩ := List.mem_map.1 hx
        exact hs y hy
    obtain ⟨e, ts, e1, _, e3, e4, e5⟩ := Tokenizer.roberta_sequence hrob (s := s) hset.1 (by simp [t0, empty])
    rw [hsame] at e1
    refine ⟨ts, fun x hx => ⟨e4 x hx, fun hsp => ?_⟩, by rw [e5]; rfl, fun i => ?_⟩
    · obtain ⟨i, hi⟩ := hinv.special _ hsp
      obtain ⟨tk, k1, k2⟩ := (hinv.inverse _ i).1 hi
      obtain ⟨y, hy, rfl⟩ := List.mem_map.1 (hclean.token _ _ k1)
      by_cases hne : y.2.content = []
      · exact hs y hy (by rw [hne]; exact List.nil_infix)
      · refine hs y hy (ByteLevel.literal_infix hne (hlit y hy) (aps := false) ?_)
        have e5 : (ts.map (·.value)).flatten = ByteLevel.spell (ByteLevel.withSpace false s) := e5
        rw [← e5, k2]
        obtain ⟨l, r, hl⟩ := List.append_of_mem (List.mem_map_of_mem (f := (·.value)) hx)
        exact ⟨l.flatten, r.flatten, by rw [hl]; simp⟩
    · have key := Tokenizer.encodeSequenceWith_ids t none 0 i .byte (.raw s)
      have q : ∀ i, t.encodeSequence i .byte (.raw s) = t.encodeSequenceWith none i .byte (.raw s) := by
        intro i
        unfold Tokenizer.encodeSequence
        rw [hlim]
      rw [← q, ← q, e1] at key
      cases hx : t.encodeSequence i .byte (.raw s) with
      | error er => rw [hx] at key; cases key
      | ok e' =>
        rw [hx] at key
        exact ⟨e', rfl, by rw [← e3]; exact (Except.ok.inj key).symm⟩
  let ids : Str → List Nat := fun s => match t.encode (.raw s, none) false with
    | .ok e => e.ids
    | .error _ => []
  have hpost := fun e => roberta_ids hset.1 hset.2.1 hset.2.2 t.ws t.checked e
  have hbare : ∀ s, FreeOf tokens s → ∀ ts : List Token,
      (∀ i, ∃ e, t.encodeSequence i .byte (.raw s) = .ok e ∧ e.ids = ts.map (·.id)) →
      ∃ enc, t.encode (.raw s, none) false = .ok enc ∧ enc.ids = ts.map (·.id) := by
    intro s _ ts hts
    obtain ⟨e, e1, e2⟩ := hts 0
    obtain ⟨out, o1, o2⟩ := (hpost e).1
    refine ⟨out, ?_, by rw [o2, e2]⟩
    show (t.encodeSequence 0 .byte (.raw s)).bind _ = _
    rw [e1]
    show Tokenizer.mapErr EncErr.post (t.settings.postProcess t.ws t.checked e none false) = _
    rw [o1]; rfl
  have hidsof : ∀ s, ∀ enc, t.encode (.raw s, none) false = .ok enc → ids s = enc.ids := by
    intro s enc h
    show (match t.encode (.raw s, none) false with
    | .ok e => e.ids
    | .error _ => []) = _
    rw [h]
  have hdec : ∀ (skip : Bool) (l : List Nat) (toks : List Str) (s : Str), decodeTokens (Tokenizer.bpeView b) av skip l = toks →
      toks.flatten = ByteLevel.spell s → t.decode skip l = some s := by
    intro skip l toks s h1 h2
    unfold Tokenizer.decode AddedVocab.decode
    rw [hview.1, hview.2.1, hview.2.2.2, h1]
    show ((Dec.Decoder.decodeChain t.checked .byteLevel _).map List.flatten) = _
    rw [Dec.Decoder.decodeChain]
    show some (List.flatten (ByteLevel.decodeChain _)) = _
    rw [ByteLevel.C29_roundtrip _ _ h2]
    simp
  have hsplit : ∀ (skip : Bool) (l l' : List Nat), decodeTokens (Tokenizer.bpeView b) av skip (l ++ l') =
      decodeTokens (Tokenizer.bpeView b) av skip l ++ decodeTokens (Tokenizer.bpeView b) av skip l' := by
    intro skip l l'; simp [decodeTokens]
  have hplain : ∀ (skip : Bool) (ts : List Token), (∀ x ∈ ts, b.vocab.get x.value = some x.id ∧ x.value ∉ av.specials) →
      decodeTokens (Tokenizer.bpeView b) av skip (ts.map (·.id)) = ts.map (·.value) := fun skip ts h =>
    Tokenizer.decodeTokens_plain skip ts fun x hx => ⟨Tokenizer.shows_model hok hinv hclean (h x hx).1, (h x hx).2⟩
  have hskipped : ∀ m ∈ ["<s>".toList, "</s>".toList], ∀ j, (m, j) ∈ vocab →
      decodeTokens (Tokenizer.bpeView b) av true [j] = [] := fun m hm j hj =>
    Tokenizer.decodeTokens_special hinv hclean.cache fun i hi => by
      rw [List.mem_singleton] at hi
      exact hi ▸ hspec m hm j hj
  have hkept : ∀ m j, (m, j) ∈ vocab → decodeTokens (Tokenizer.bpeView b) av false [j] = [m] := fun m j hj =>
    Tokenizer.decodeTokens_shows [⟨j, m, (0, 0)⟩] fun x hx => by
      rw [List.mem_singleton] at hx
      subst hx
      exact Tokenizer.shows_model hok hinv hclean (hget m j hj)
  have hs1 : ByteLevel.spell "<s>".toList = "<s>".toList := by decide +kernel
  have hs2 : ByteLevel.spell "</s>".toList = "</s>".toList := by decide +kernel
  refine ⟨ids, fun a ha => ?_⟩
  obtain ⟨ta, ha1, ha2, ha3⟩ := htext a ha
  obtain ⟨ea, ea1, ea2⟩ := hbare a ha ta ha3
  have hia : ids a = ta.map (·.id) := by rw [hidsof a ea ea1, ea2]
  refine ⟨⟨ea, ea1, (hidsof a ea ea1).symm, fun skip => ?_⟩, ?_, fun c hc => ?_⟩
  · rw [ea2]
    exact hdec skip _ _ _ (hplain skip ta ha1) ha2
  · obtain ⟨e, e1, e2⟩ := ha3 0
    obtain ⟨out, o1, o2⟩ := (hpost e).2.1
    have hout : out.ids = [cls] ++ (ta.map (·.id) ++ [sep]) := by rw [o2, e2]; rfl
    refine ⟨out, ?_, by rw [o2, e2, hia], ?_, ?_⟩
    · show (t.encodeSequence 0 .byte (.raw a)).bind _ = _
      rw [e1]
      show Tokenizer.mapErr EncErr.post (t.settings.postProcess t.ws t.checked e none true) = _
      rw [o1]; rfl
    · refine hdec true _ (ta.map (·.value)) _ ?_ ha2
      rw [hout, hsplit, hsplit, hplain true ta ha1, hskipped _ (by simp) _ hcls, hskipped _ (by simp) _ hsep]
      simp
    · refine hdec false _ (["<s>".toList] ++ (ta.map (·.value) ++ ["</s>".toList])) _ ?_ ?_
      · rw [hout, hsplit, hsplit, hplain false ta ha1, hkept _ _ hcls, hkept _ _ hsep]
      · rw [ByteLevel.spell_append, ByteLevel.spell_append, hs1, hs2, ← ha2]
        simp only [List.flatten_append, List.flatten_cons, List.flatten_nil, List.append_nil, List.append_assoc]
  · obtain ⟨tc, hc1, hc2, hc3⟩ := htext c hc
    obtain ⟨ec, ec1, ec2⟩ := hbare c hc tc hc3
    have hic : ids c = tc.map (·.id) := by rw [hidsof c ec ec1, ec2]
    obtain ⟨e, e1, e2⟩ := ha3 0
    obtain ⟨o, f1, f2⟩ := hc3 1
    obtain ⟨out, o1, o2⟩ := (hpost e).2.2 o
    have hout : out.ids = [cls] ++ (ta.map (·.id) ++ ([sep] ++ ([sep] ++ (tc.map (·.id) ++ [sep])))) := by
      rw [o2, e2, f2]; rfl
    refine ⟨out, ?_, by rw [o2, e2, f2, hia, hic], ?_, ?_⟩
    · show (t.encodeSequence 0 .byte (.raw a)).bind _ = _
      rw [e1]
      show (((t.encodeSequence 1 .byte (.raw c)).map some).bind _) = _
      rw [f1]
      show Tokenizer.mapErr EncErr.post (t.settings.postProcess t.ws t.checked e (some o) true) = _
      rw [o1]; rfl
    · refine hdec true _ (ta.map (·.value) ++ tc.map (·.value)) _ ?_ ?_
      · rw [hout, hsplit, hsplit, hsplit, hsplit, hsplit, hplain true ta ha1, hplain true tc hc1, hskipped _ (by simp) _ hcls,
          hskipped _ (by simp) _ hsep]
        simp
      · rw [List.flatten_append, ha2, hc2, ByteLevel.spell_append]
    · refine hdec false _ (["<s>".toList] ++ (ta.map (·.value) ++ (["</s>".toList] ++ (["</s>".toList] ++
        (tc.map (·.value) ++ ["</s>".toList]))))) _ ?_ ?_
      · rw [hout, hsplit, hsplit, hsplit, hsplit, hsplit, hplain false ta ha1, hplain false tc hc1, hkept _ _ hcls, hkept _ _ hsep]
      · simp only [ByteLevel.spell_append, hs1, hs2, ← ha2, ← hc2, List.flatten_append, List.flatten_cons, List.flatten_nil,
          List.append_nil, List.append_assoc]

end Tok.Save
