import Verif.Save.Published

/-!
# C67: the file of a tokenizer like Llama's
-/

namespace Tok.AddedVocab

theorem addLoop_keeps {m : ModelView} {norm : Norm} : ∀ (ts : List AddedToken) (av : AddedVocab) (next ign : Nat) (c : Str),
    (∃ i, av.map.get c = some i) → ∃ i, (addLoop m norm ts av next ign).1.map.get c = some i
  | [], _, _, _, _, h => h
  | t :: ts, av, next, ign, c, h => by
    rw [addLoop]
    split
    · exact addLoop_keeps ts _ _ _ c h
    · split
      · exact addLoop_keeps ts _ _ _ c h
      · dsimp only
        split
        · exact h
        · refine addLoop_keeps ts _ _ _ c ?_
          simp only [store]
          rw [AMap.get_insert]
          split
          · exact ⟨_, rfl⟩
          · exact h

/-- Every token that is not empty has an id after it has been added. -/
theorem addLoop_has {m : ModelView} {norm : Norm} : ∀ (ts : List AddedToken) (av : AddedVocab) (next ign : Nat),
    (∀ t ∈ ts, normalForm norm t = some none) → ∀ t ∈ ts, t.content ≠ [] →
    ∃ i, (addLoop m norm ts av next ign).1.map.get t.content = some i
  | t :: ts, av, next, ign, hn, u, hu, hne => by
    have ih := fun av next ign => addLoop_has (m := m) ts av next ign (fun x hx => hn x (List.mem_cons_of_mem _ hx)) u
    rcases List.mem_cons.1 hu with rfl | hu
    · rw [addLoop, if_neg hne]
      split
      · rename_i hp
        refine addLoop_keeps ts _ _ _ _ ?_
        unfold present at hp
        split at hp
        · rename_i i hi; exact ⟨i, hi⟩
        · cases hp
      · rw [hn u List.mem_cons_self]
        refine addLoop_keeps ts _ _ _ _ ?_
        simp only [store]
        rw [AMap.get_insert, if_pos rfl]
        exact ⟨_, rfl⟩
    · rw [addLoop]
      split
      · exact ih _ _ _ hu hne
      · split
        · exact ih _ _ _ hu hne
        · rw [hn t List.mem_cons_self]
          exact ih _ _ _ hu hne

theorem addLoop_encodeSpecial {m : ModelView} {norm : Norm} : ∀ (ts : List AddedToken) (av : AddedVocab) (next ign : Nat),
    (addLoop m norm ts av next ign).1.encodeSpecial = av.encodeSpecial
  | [], _, _, _ => rfl
  | t :: ts, av, next, ign => by
    rw [addLoop]
    split
    · exact addLoop_encodeSpecial ts _ _ _
    · split
      · exact addLoop_encodeSpecial ts _ _ _
      · dsimp only
        split
        · rfl
        · rw [addLoop_encodeSpecial ts]; rfl

theorem addTokens_encodeSpecial {build : List (Str × Nat) → Bool} {m : ModelView} {norm : Norm} (av : AddedVocab)
    (ts : List AddedToken) : (av.addTokens build m norm ts).1.encodeSpecial = av.encodeSpecial := by
  have h := addLoop_encodeSpecial (m := m) (norm := norm) ts av (av.nextId m) 0
  unfold addTokens
  cases hl : addLoop m norm ts av (av.nextId m) 0 with
  | mk r ign =>
    rw [hl] at h
    cases ign with
    | none => exact h
    | some k =>
      have : (r.refresh build).1.encodeSpecial = r.encodeSpecial := by
        unfold refresh
        dsimp only
        split
        · split <;> rfl
        · rfl
      exact this.trans h

theorem addTokens_has {build : List (Str × Nat) → Bool} {m : ModelView} {norm : Norm} (av : AddedVocab)
    (ts : List AddedToken) (hn : ∀ t ∈ ts, normalForm norm t = some none) {t : AddedToken} (ht : t ∈ ts)
    (hne : t.content ≠ []) : ∃ i, (av.addTokens build m norm ts).1.map.get t.content = some i := by
  have h := addLoop_has (m := m) (norm := norm) ts av (av.nextId m) 0 hn t ht hne
  unfold addTokens
  cases hl : addLoop m norm ts av (av.nextId m) 0 with
  | mk r ign =>
    rw [hl] at h
    cases ign with
    | none => exact h
    | some k =>
      obtain ⟨e1, _⟩ := refresh_same build r
      show ∃ i, (r.refresh build).1.map.get _ = some i
      rw [e1]; exact h

end Tok.AddedVocab

namespace Tok.Save
open Json AddedVocab

/-- A text without `▁` that occurs after spaces are replaced was there before. -/
theorem infix_sub {c s : Str} (hc : '▁' ∉ c) (hne : c ≠ []) (h : c <:+: '▁' :: Metaspace.sub '▁' s) : c <:+: s := by
  obtain ⟨l, r, he⟩ := h
  cases l with
  | nil =>
    cases c with
    | nil => exact absurd rfl hne
    | cons x c =>
      simp only [List.nil_append, List.cons_append, List.cons.injEq] at he
      exact absurd (he.1 ▸ List.mem_cons_self) hc
  | cons x l =>
    simp only [List.cons_append, List.cons.injEq] at he
    obtain ⟨l1, l2, rfl, h1, _⟩ := List.map_eq_append_iff.1 he.2.symm
    obtain ⟨l3, l4, rfl, _, h2⟩ := List.map_eq_append_iff.1 h1
    refine ⟨l3, l2, ?_⟩
    have : l4 = c := by
      rw [← h2] at hc ⊢
      clear h2 h1 he
      induction l4 with
      | nil => rfl
      | cons a l4 ih =>
        rw [List.map_cons, List.mem_cons, not_or] at hc
        rw [List.map_cons, ← ih hc.2]
        congr 1
        split at hc
        · exact absurd rfl hc.1
        · rename_i h; rw [if_neg h]
    rw [this]

/-- The file `tokenizer.json` in the form (from memory) published for Llama 2. -/
def llamaFile (bos : Nat) (vocab : List (Str × Nat)) (merges : List (Str × Str)) (tokens : List (Nat × AddedToken)) : Json :=
  file .null .null (.arr (tokens.map writeAddedToken))
    (.obj [("type".toList, .str "Sequence".toList), ("normalizers".toList, .arr [
      .obj [("type".toList, .str "Prepend".toList), ("prepend".toList, .str "▁".toList)],
      .obj [("type".toList, .str "Replace".toList), ("pattern".toList, .obj [("String".toList, .str " ".toList)]),
        ("content".toList, .str "▁".toList)]])])
    .null
    (.obj [("type".toList, .str "TemplateProcessing".toList),
      ("single".toList, .arr [
        .obj [("SpecialToken".toList, .obj [("id".toList, .str "<s>".toList), ("type_id".toList, .int 0)])],
        .obj [("Sequence".toList, .obj [("id".toList, .str "A".toList), ("type_id".toList, .int 0)])]]),
      ("pair".toList, .arr [
        .obj [("SpecialToken".toList, .obj [("id".toList, .str "<s>".toList), ("type_id".toList, .int 0)])],
        .obj [("Sequence".toList, .obj [("id".toList, .str "A".toList), ("type_id".toList, .int 0)])],
        .obj [("SpecialToken".toList, .obj [("id".toList, .str "<s>".toList), ("type_id".toList, .int 1)])],
        .obj [("Sequence".toList, .obj [("id".toList, .str "B".toList), ("type_id".toList, .int 1)])]]),
      ("special_tokens".toList, .obj [("<s>".toList, .obj [("id".toList, .str "<s>".toList),
        ("ids".toList, .arr [.int bos]), ("tokens".toList, .arr [.str "<s>".toList])])])])
    (.obj [("type".toList, .str "Sequence".toList), ("decoders".toList, .arr [
      .obj [("type".toList, .str "Replace".toList), ("pattern".toList, .obj [("String".toList, .str "▁".toList)]),
        ("content".toList, .str " ".toList)],
      .obj [("type".toList, .str "ByteFallback".toList)],
      .obj [("type".toList, .str "Fuse".toList)],
      .obj [("type".toList, .str "Strip".toList), ("content".toList, .str " ".toList), ("start".toList, .int 1),
        ("stop".toList, .int 0)]])])
    (.obj [("type".toList, .str "BPE".toList), ("dropout".toList, .null), ("unk_token".toList, .str "<unk>".toList),
      ("continuing_subword_prefix".toList, .null), ("end_of_word_suffix".toList, .null), ("fuse_unk".toList, .bool true),
      ("byte_fallback".toList, .bool true), ("vocab".toList, writeVocab vocab), ("merges".toList, mergeLines merges)])

/-- A literal pattern of one character matches where that character is, and it compiles. -/
def Literal1 (w : World) (e : Env) (c : Char) : Prop :=
  e.compiles (.str [c]) = true ∧ w.matches' (.str [c]) = occurrences c 0

/-- No merge takes or makes a byte token. -/
def NoByteNames (merges : List (Str × Str)) : Prop :=
  ∀ m ∈ merges, ∀ y, ¬ Dec.IsByteToken m.1 y ∧ ¬ Dec.IsByteToken m.2 y ∧ ¬ Dec.IsByteToken (m.1 ++ m.2) y

/-- A file in the form of Llama's is loaded, and gives a tokenizer like Llama's with the added tokens listed. -/
theorem llamaFile_loaded (w : World) (hu : w.uni.Ok) (e : Env) (hsp : Literal1 w e ' ') (hmk : Literal1 w e '▁') (skip' : Bool)
    {build : List (Str × Nat) → Bool} (hb : Automata build)
    {vocab : List (Str × Nat)} (hv : VocabOk vocab) (hbytes : ∀ y, byteToken y ∈ vocab.map (·.1))
    (hmark : "▁".toList ∈ vocab.map (·.1)) {bos : Nat} (hbos : ("<s>".toList, bos) ∈ vocab)
    {merges : List (Str × Str)} (hm : MergesOk vocab merges) (hl : LinesOk merges) (hnb : NoByteNames merges)
    {tokens : List (Nat × AddedToken)} (hi : ∀ x ∈ tokens, x.1 < 4294967296)
    (hraw : ∀ x ∈ tokens, x.2.normalized = false)
    (hplain : ∀ x ∈ tokens, x.2.lstrip = false ∧ x.2.rstrip = false ∧ x.2.singleWord = false)
    (hspecial : ∀ x ∈ tokens, x.2.special = true) (hstart : ∃ x ∈ tokens, x.2.content = "<s>".toList) :
    ∃ c b ops, load e skip' build w.norm (llamaFile bos vocab merges tokens) = .ok c ∧
      Tokenizer.IsLlama (w.tokenizer c) w.uni w.tables b w.coins ∧
      (w.tokenizer c).added = after build (Tokenizer.bpeView b) empty ops ∧
      (∀ x ∈ tokensOf ops, ∃ y ∈ tokens, y.2 = x) ∧
      Tokenizer.Surrounds (w.tokenizer c).settings (Tokenizer.IsSpecialId (w.tokenizer c).added) := by
  obtain ⟨b, h1, h2, h3, h4, h5, h6, h7⟩ := loadBpe_ok
    (s := ⟨false, some "<unk>".toList, none, none, true, true, false, vocab, merges⟩) hv hm rfl
  have hbare : b.bare = b := by
    unfold Bpe.Bpe.bare
    cases b
    simp only at h4 h5
    subst h4 h5
    rfl
  rw [hbare] at h3
  simp only at h2
  have hids : ∀ s i, b.vocab.get s = some i → i < b.vocab.length := by
    intro s i h
    rw [h2, readVocab_length hv]
    rw [h2] at h
    exact hv.below _ ((readVocab_get hv.tokens s i).1 h)
  have hhas : ∀ c ∈ vocab.map (·.1), b.vocab.get c ≠ none := by
    intro c hc
    obtain ⟨p, hp, rfl⟩ := List.mem_map.1 hc
    rw [h2, (readVocab_get hv.tokens p.1 p.2).2 hp]
    simp
  have hok : (Tokenizer.bpeView b).Ok := ⟨hids, fun c i => Bpe.C46_bpe_vocab_inverse h3 c i⟩
  let nc : NormCfg := .sequence [.prepend "▁".toList, .replace ⟨.str " ".toList, "▁".toList⟩]
  have hnf : ∀ x ∈ tokens, normalForm (w.norm (some nc)) x.2 = some none := fun x hx => normalForm_raw _ (hraw x hx)
  obtain ⟨av, a1, a2⟩ := loadAdded_plain hb hok (norm := w.norm (some nc)) tokens hnf
  have hvoc : asMap asU32 (writeVocab vocab) = some vocab :=
    asMap_writeVocab fun p hp => Nat.lt_of_lt_of_le (hv.below p hp) hv.small
  have hbs : bos < 4294967296 := Nat.lt_of_lt_of_le (hv.below _ hbos) hv.small
  have hmod : ∀ fs, fs = [("type".toList, Json.str "BPE".toList), ("dropout".toList, .null),
      ("unk_token".toList, .str "<unk>".toList), ("continuing_subword_prefix".toList, .null),
      ("end_of_word_suffix".toList, .null), ("fuse_unk".toList, .bool true), ("byte_fallback".toList, .bool true),
      ("vocab".toList, writeVocab vocab), ("merges".toList, mergeLines merges)] →
      readModel (.obj fs) = .ok (.bpe none b) := by
    intro fs hfs
    have hf : readBpeFields fs =
        some (none, ⟨false, some "<unk>".toList, none, none, true, true, false, vocab, merges⟩) := by
      rw [hfs]
      simp [readBpeFields, opt, req, Json.get, orNull, asStr, asBool, hvoc, readMergeList_lines hl, activeDropout]
    rw [readModel_bpe (by rw [hfs]; simp [Json.get]), readBpe, hf]
    simp only [dropoutOk, h1, if_true]
  let tm : Post.Template := Post.ofJson [.special "<s>".toList 0, .sequence .A 0]
    [.special "<s>".toList 0, .sequence .A 0, .special "<s>".toList 1, .sequence .B 1]
    [("<s>".toList, ⟨"<s>".toList, [bos], ["<s>".toList]⟩)]
  refine ⟨⟨none, none, av, some nc, none, some (.template tm),
    some (.sequence [.replace ⟨.str "▁".toList, " ".toList⟩, .byteFallback, .fuse, .strip ' ' 1 0]), .bpe none b⟩, b,
    [.add (w.norm (some nc)) (tokens.map (·.2))], ?_, ?_⟩
  · have c1 : e.compiles (.str [' ']) = true := hsp.1
    have c2 : e.compiles (.str ['▁']) = true := hmk.1
    refine load_file rfl rfl hi (.some ?_) rfl ?_ ?_ (hmod _ rfl) a1
    · simp [nc, readNorm, readNormField, readNormArr, readNorms, req, Json.get, asStr, normTagged, readPrepend, readReplace,
        readCompiled, readPat, c1, orErr, mapOk]
    · simp [tm, orNull, readProc, procUntagged, readRoberta, readBertProc, req, Json.get, asStr, readByteLevel,
        tagged, readTemplate, asList, readPiece, asEnum, seqs, asMap, readSpecial, asU32, asNat, hbs, AMap.extend, AMap.insert]
    · simp [orNull, readDec, readDecField, readDecArr, readDecs, req, Json.get, asStr, decTagged, readReplace,
        readCompiled, readPat, c2, readUnit, readSequence, tagged, readStripDec, asChar, asUsize, asNat]
  · have hT : ∀ x ∈ tokensOf [Op.add (w.norm (some nc)) (tokens.map (·.2))], ∃ y ∈ tokens, y.2 = x := by
      intro x hx
      simp only [tokensOf, List.append_nil] at hx
      exact List.mem_map.1 hx
    have hinv : Inv (Tokenizer.bpeView b) av := a2 ▸ (after_inv hok build _ (inv_empty _)).1
    have hclean : Clean (tokens.map (·.2)) av := by
      rw [a2]
      refine after_clean hok build _ (fun t ht => by simpa [tokensOf] using ht) (.inr ?_) (inv_empty _)
        ⟨rfl, by simp [empty, AMap.get], by simp [empty]⟩
      intro t ht
      obtain ⟨y, hy, rfl⟩ := List.mem_map.1 ht
      exact hraw y hy
    have hfrom : ∀ i t, av.rmap.get i = some t → ∃ y ∈ tokens, y.2 = t := fun i t h => List.mem_map.1 (hclean.token i t h)
    have hd : (Dec.Decoder.sequence (w.toDecs
        [.replace ⟨.str "▁".toList, " ".toList⟩, .byteFallback, .fuse, .strip ' ' 1 0])) = Tokenizer.llamaDecoder := by
      show Dec.Decoder.sequence [.replace (w.matches' (.str ['▁'])) [' '], .byteFallback, .fuse, .strip ' ' 1 0] = _
      rw [hmk.2]; rfl
    have hz : w.toNorm nc = Tokenizer.llamaNormalizer := by
      show Normalizer.sequence [.prepend ['▁'], .replace (w.matches' (.str [' '])) ['▁']] = _
      rw [hsp.2]; rfl
    refine ⟨?_, a2, hT, ?_⟩
    · exact
        { pipeline :=
            { normalizer := by
                show (w.toNorm nc).apply w.uni = _
                rw [hz]
              preTok := rfl
              unicode := hu
              safe := Tokenizer.llama_safe
              sound := trivial
              anywhere := trivial
              tries := a2 ▸ after_tries hok (fun l hl p hp =>
                ((hb l (by intro h; rw [h] at hp; cases hp)).1 hl).2 p hp) _ (inv_empty _) (by simp [TriesOk, empty])
              bare := by
                refine ⟨?_, fun i t h => ?_⟩
                · show av.encodeSpecial = false
                  rw [a2]
                  exact addTokens_encodeSpecial empty _
                · obtain ⟨y, hy, rfl⟩ := hfrom i t h
                  exact hplain y hy }
          decoder := by
            show some _ = _
            exact congrArg some hd
          model := fun _ => rfl
          view := rfl
          built := h3
          affixes := ⟨h4, h5⟩
          fallback := h6
          bytes := fun y => hhas _ (hbytes y)
          mark := hhas _ hmark
          merges := by
            intro i j r k hk t y hy
            obtain ⟨m, m1, m2, m3, m4⟩ := h7 i j r k hk
            obtain ⟨n1, n2, n3⟩ := hnb m m1 y
            refine ⟨fun ht => n1 ?_, fun ht => n2 ?_, fun ht => n3 ?_⟩
            · rwa [← h3.distinct _ _ _ ht m2]
            · rwa [← h3.distinct _ _ _ ht m3]
            · rwa [← h3.distinct _ _ _ ht m4]
          ids := hids }
    · refine ⟨rfl, rfl, .inr ?_⟩
      refine .inl ⟨tm, [.special "<s>".toList 0], 0, [], rfl, rfl, fun p hp => ?_⟩
      simp only [List.append_nil, List.mem_singleton] at hp
      refine ⟨_, _, ⟨"<s>".toList, [bos], ["<s>".toList]⟩, hp, rfl, rfl, fun i hi => ?_⟩
      simp only [List.mem_singleton] at hi
      rw [hi]
      clear hi i
      obtain ⟨x, x1, x2⟩ := hstart
      obtain ⟨i, g⟩ := addTokens_has (build := build) (m := Tokenizer.bpeView b) empty (tokens.map (·.2))
        (norm := w.norm (some nc)) (by
          intro t ht
          obtain ⟨y, hy, rfl⟩ := List.mem_map.1 ht
          exact hnf y hy) (List.mem_map.2 ⟨x, x1, rfl⟩) (by rw [x2]; decide)
      have g : av.map.get x.2.content = some i := by rw [a2]; exact g
      have hvb : (Tokenizer.bpeView b).toId "<s>".toList = some bos := by
        show b.vocab.get _ = _
        rw [h2]
        exact (readVocab_get hv.tokens _ _).2 hbos
      have hib : i = bos := by
        rw [x2] at g
        rcases hinv.model _ _ g with k | ⟨k, _⟩
        · rw [hvb] at k; exact (Option.some.inj k).symm
        · rw [hvb] at k; cases k
      obtain ⟨t, t1, _⟩ := (hinv.inverse _ _).1 g
      obtain ⟨y, hy, rfl⟩ := hfrom _ _ t1
      exact ⟨y.2, by rw [← hib]; exact t1, hspecial y hy⟩

/-- What no added token of the file has in common with a text. -/
theorem llamaFile_free {tokens : List (Nat × AddedToken)}
    (hnames : ∀ x ∈ tokens, '▁' ∉ x.2.content ∧ ∀ y, x.2.content ≠ byteToken y)
    {ts : List AddedToken} (hT : ∀ x ∈ ts, ∃ y ∈ tokens, y.2 = x) {s : Str} (hfree : ∀ x ∈ tokens, ¬ x.2.content <:+: s) :
    ∀ x ∈ ts, ¬ x.content <:+: s ∧ ¬ x.content <:+: '▁' :: Metaspace.sub '▁' s := by
  intro x hx
  obtain ⟨y, hy, rfl⟩ := hT x hx
  refine ⟨hfree y hy, fun h => hfree y hy (infix_sub (hnames y hy).1 ?_ h)⟩
  intro h0
  exact hfree y hy (by rw [h0]; exact List.nil_infix)

/-- **C67.** A file in the form of Llama's is loaded, and the tokenizer encodes every text in which no added token occurs,
and gives it back exactly if it has no `▁`. -/
theorem C67_llama (w : World) (hu : w.uni.Ok) (e : Env) (hsp : Literal1 w e ' ') (hmk : Literal1 w e '▁') (skip' : Bool)
    {build : List (Str × Nat) → Bool} (hb : Automata build)
    {vocab : List (Str × Nat)} (hv : VocabOk vocab) (hbytes : ∀ y, byteToken y ∈ vocab.map (·.1))
    (hmark : "▁".toList ∈ vocab.map (·.1)) {bos : Nat} (hbos : ("<s>".toList, bos) ∈ vocab)
    {merges : List (Str × Str)} (hm : MergesOk vocab merges) (hl : LinesOk merges) (hnb : NoByteNames merges)
    {tokens : List (Nat × AddedToken)} (hi : ∀ x ∈ tokens, x.1 < 4294967296)
    (hraw : ∀ x ∈ tokens, x.2.normalized = false)
    (hplain : ∀ x ∈ tokens, x.2.lstrip = false ∧ x.2.rstrip = false ∧ x.2.singleWord = false)
    (hspecial : ∀ x ∈ tokens, x.2.special = true) (hstart : ∃ x ∈ tokens, x.2.content = "<s>".toList)
    (hnames : ∀ x ∈ tokens, '▁' ∉ x.2.content ∧ ∀ y, x.2.content ≠ byteToken y) :
    ∃ c, load e skip' build w.norm (llamaFile bos vocab merges tokens) = .ok c ∧
      ∀ s, (∀ x ∈ tokens, ¬ x.2.content <:+: s) → ∀ add skip, (add = true → skip = true) →
        ∃ enc, (w.tokenizer c).encode (.raw s, none) add = .ok enc ∧
          ((w.tokenizer c).decode skip enc.ids = some s ↔ '▁' ∉ s) := by
  obtain ⟨c, b, ops, h1, h2, h3, h4, h5⟩ := llamaFile_loaded w hu e hsp hmk skip' hb hv hbytes hmark hbos hm hl hnb hi hraw hplain
    hspecial hstart
  refine ⟨c, h1, fun s hfree add skip hskip => ?_⟩
  refine Tokenizer.C64_lossless h2 h3 (fun x hx => ?_) (fun x hx => ?_) h5 (llamaFile_free hnames h4 hfree) hskip
  · obtain ⟨y, hy, rfl⟩ := h4 x hx
    exact hraw y hy
  · obtain ⟨y, hy, rfl⟩ := h4 x hx
    exact (hnames y hy).2

end Tok.Save
