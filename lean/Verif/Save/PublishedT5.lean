import Verif.Tokenizer.T5
import Verif.Tokenizer.TrainedMeta

/-!
# C106: the file of a tokenizer like T5's
-/

namespace Tok.Save
open Json AddedVocab

/-- `Metaspace` as it was written before it had `prepend_scheme` and `split`. -/
def oldMetaspace : Json :=
  .obj [("type".toList, .str "Metaspace".toList), ("replacement".toList, .str "▁".toList), ("str_rep".toList, .str "▁".toList),
    ("add_prefix_space".toList, .bool true)]

/-- The file `tokenizer.json` in the form (from memory) published for T5. -/
def t5File (charsmap : Str) (unk eos : Nat) (vocab : List (Str × Rat)) (tokens : List (Nat × AddedToken)) : Json :=
  file .null .null (.arr (tokens.map writeAddedToken))
    (.obj [("type".toList, .str "Precompiled".toList), ("precompiled_charsmap".toList, .str charsmap)])
    (.obj [("type".toList, .str "Sequence".toList), ("pretokenizers".toList, .arr [
      .obj [("type".toList, .str "WhitespaceSplit".toList)], oldMetaspace])])
    (.obj [("type".toList, .str "TemplateProcessing".toList),
      ("single".toList, .arr [
        .obj [("Sequence".toList, .obj [("id".toList, .str "A".toList), ("type_id".toList, .int 0)])],
        .obj [("SpecialToken".toList, .obj [("id".toList, .str "</s>".toList), ("type_id".toList, .int 0)])]]),
      ("pair".toList, .arr [
        .obj [("Sequence".toList, .obj [("id".toList, .str "A".toList), ("type_id".toList, .int 0)])],
        .obj [("SpecialToken".toList, .obj [("id".toList, .str "</s>".toList), ("type_id".toList, .int 0)])],
        .obj [("Sequence".toList, .obj [("id".toList, .str "B".toList), ("type_id".toList, .int 0)])],
        .obj [("SpecialToken".toList, .obj [("id".toList, .str "</s>".toList), ("type_id".toList, .int 0)])]]),
      ("special_tokens".toList, .obj [("</s>".toList, .obj [("id".toList, .str "</s>".toList),
        ("ids".toList, .arr [.int eos]), ("tokens".toList, .arr [.str "</s>".toList])])])])
    oldMetaspace
    (.obj [("type".toList, .str "Unigram".toList), ("unk_id".toList, .int unk), ("vocab".toList, .arr (vocab.map writeUni))])

/-- A file in the form of T5's is loaded, and gives a tokenizer like T5's with the added tokens listed. -/
theorem t5File_loaded (w : World) (hu : w.uni.Ok) (hsp : w.tables.ws ' ' = true) (e : Env) (skip' : Bool)
    {charsmap : Str} (hcm : e.charsmap charsmap = true) {build : List (Str × Nat) → Bool} (hb : Automata build)
    {vocab : List (Str × Rat)} (hn : (vocab.map (·.1)).Nodup) {unk eos : Nat} (hunk : unk < vocab.length)
    (hsmall : vocab.length ≤ 4294967296) (heos : (vocab.map (·.1))[eos]? = some "</s>".toList)
    {tokens : List (Nat × AddedToken)} (hi : ∀ x ∈ tokens, x.1 < 4294967296)
    (hraw : ∀ x ∈ tokens, x.2.normalized = false)
    (hplain : ∀ x ∈ tokens, x.2.lstrip = false ∧ x.2.rstrip = false ∧ x.2.singleWord = false)
    (hspecial : ∀ x ∈ tokens, x.2.special = true) (hend : ∃ x ∈ tokens, x.2.content = "</s>".toList) :
    ∃ c g ops, load e skip' build w.norm (t5File charsmap unk eos vocab tokens) = .ok c ∧
      Unigram.from vocab (some unk) false = .ok g ∧
      (∀ x, (w.tokenizer c).model x = Tokenizer.uniResult (g.tokenize x)) ∧ (w.tokenizer c).view = Tokenizer.unigramView g ∧
      Tokenizer.IsT5 (w.tokenizer c) w.uni (.precompiled (w.charsmap charsmap)) w.tables '▁' ∧
      (w.tokenizer c).added = after build (Tokenizer.unigramView g) empty ops ∧
      (∀ x ∈ tokensOf ops, ∃ y ∈ tokens, y.2 = x) ∧
      Tokenizer.Surrounds (w.tokenizer c).settings (Tokenizer.IsSpecialId (w.tokenizer c).added) := by
  obtain ⟨g, hg⟩ : ∃ g, Unigram.from vocab (some unk) false = .ok g := by
    unfold Unigram.from
    rw [if_neg (by rintro ⟨_, h⟩; rw [h] at hunk; exact Nat.not_lt_zero _ hunk), if_neg (by
      rintro ⟨k, h1, h2⟩
      cases h1
      omega)]
    exact ⟨_, rfl⟩
  have hok := Tokenizer.unigramView_ok hg hn
  let nc : NormCfg := .precompiled charsmap
  have hnf : ∀ x ∈ tokens, normalForm (w.norm (some nc)) x.2 = some none := fun x hx => normalForm_raw _ (hraw x hx)
  obtain ⟨av, a1, a2⟩ := loadAdded_plain hb hok (norm := w.norm (some nc)) tokens hnf
  have hlt : eos < vocab.length := by
    have := (List.getElem?_eq_some_iff.1 heos).1
    simpa using this
  have hbs : eos < 4294967296 := Nat.lt_of_lt_of_le hlt hsmall
  have hks : unk < 18446744073709551616 := Nat.lt_of_lt_of_le (Nat.lt_of_lt_of_le hunk hsmall) (by decide)
  have hvoc : (vocab.map writeUni).mapM readUni = some vocab := by
    have h : vocab.map (fun a => readUni (writeUni a)) = vocab.map fun x => some x :=
      List.map_congr_left fun x _ => rfl
    exact mapM_map fun x _ => rfl
  have hmod : readModel (.obj [("type".toList, .str "Unigram".toList), ("unk_id".toList, .int unk),
      ("vocab".toList, .arr (vocab.map writeUni))]) = .ok (.unigram g) := by
    have hk' : asUsize (.int (unk : Int)) = some unk := asUsize_int hks
    simp [readModel, Json.get, readUnigram, opt, req, dflt, orNull, hk', asList, hvoc, loadUnigram, hg, Except.toOption, orErr]
  let tm : Post.Template := Post.ofJson [.sequence .A 0, .special "</s>".toList 0]
    [.sequence .A 0, .special "</s>".toList 0, .sequence .B 0, .special "</s>".toList 0]
    [("</s>".toList, ⟨"</s>".toList, [eos], ["</s>".toList]⟩)]
  refine ⟨⟨none, none, av, some nc, some (.sequence [.whitespaceSplit, .metaspace ⟨'▁', .always, true⟩]), some (.template tm),
    some (.metaspace ⟨'▁', .always, true⟩), .unigram g⟩, g,
    [.add (w.norm (some nc)) (tokens.map (·.2))], ?_, hg, fun x => ?_, rfl, ?_⟩
  · refine load_file rfl rfl hi (.some ?_) ?_ ?_ ?_ hmod a1
    · simp [nc, readNorm, req, Json.get, asStr, normTagged, readPrecompiled, hcm, orPanic]
    · simp [oldMetaspace, orNull, readPre, readPreField, readPreArr, readPres, req, Json.get, asStr, preTagged, readUnit,
        readSequence, tagged, readMetaspace, asChar, opt, dflt, asBool]
    · simp [tm, orNull, readProc, procUntagged, readRoberta, readBertProc, req, Json.get, asStr, readByteLevel,
        tagged, readTemplate, asList, readPiece, asEnum, seqs, asMap, readSpecial, asU32, asNat, hbs, AMap.extend, AMap.insert]
    · simp [oldMetaspace, orNull, readDec, readDecField, req, Json.get, asStr, decTagged,
        tagged, readMetaspace, asChar, opt, dflt, asBool]
  · obtain ⟨ts, h⟩ := Unigram.C49_total hg x
    show uniResult (g.tokenize x) = _
    rw [h]; rfl
  · have hT : ∀ x ∈ tokensOf [Op.add (w.norm (some nc)) (tokens.map (·.2))], ∃ y ∈ tokens, y.2 = x := by
      intro x hx
      simp only [tokensOf, List.append_nil] at hx
      exact List.mem_map.1 hx
    have hinv : Inv (Tokenizer.unigramView g) av := a2 ▸ (after_inv hok build _ (inv_empty _)).1
    have hclean : Clean (tokens.map (·.2)) av := by
      rw [a2]
      refine after_clean hok build _ (fun t ht => by simpa [tokensOf] using ht) (.inr ?_) (inv_empty _)
        ⟨rfl, by simp [empty, AMap.get], by simp [empty]⟩
      intro t ht
      obtain ⟨y, hy, rfl⟩ := List.mem_map.1 ht
      exact hraw y hy
    have hfrom : ∀ i t, av.rmap.get i = some t → ∃ y ∈ tokens, y.2 = t := fun i t h => List.mem_map.1 (hclean.token i t h)
    refine ⟨?_, a2, hT, ?_⟩
    · exact
        { pipeline :=
            { normalizer := rfl
              preTok := rfl
              unicode := hu
              safe := trivial
              sound := ⟨trivial, trivial, trivial⟩
              anywhere := ⟨trivial, (nomatch ·), trivial⟩
              tries := a2 ▸ after_tries hok (fun l hl p hp =>
                ((hb l (by intro h; rw [h] at hp; cases hp)).1 hl).2 p hp) _ (inv_empty _) (by simp [TriesOk, empty])
              bare := by
                refine ⟨?_, fun i t h => ?_⟩
                · show av.encodeSpecial = false
                  rw [a2]
                  exact addTokens_encodeSpecial empty _
                · obtain ⟨y, hy, rfl⟩ := hfrom i t h
                  exact hplain y hy }
          decoder := rfl
          view := hok
          space := hsp }
    · refine ⟨rfl, rfl, .inr ?_⟩
      refine .inl ⟨tm, [], 0, [.special "</s>".toList 0], rfl, rfl, fun p hp => ?_⟩
      simp only [List.nil_append, List.mem_singleton] at hp
      refine ⟨_, _, ⟨"</s>".toList, [eos], ["</s>".toList]⟩, hp, rfl, rfl, fun i hi => ?_⟩
      simp only [List.mem_singleton] at hi
      rw [hi]
      clear hi i
      obtain ⟨x, x1, x2⟩ := hend
      obtain ⟨i, hgi⟩ := addTokens_has (build := build) (m := Tokenizer.unigramView g) empty (tokens.map (·.2))
        (norm := w.norm (some nc)) (by
          intro t ht
          obtain ⟨y, hy, rfl⟩ := List.mem_map.1 ht
          exact hnf y hy) (List.mem_map.2 ⟨x, x1, rfl⟩) (by rw [x2]; decide)
      have hgi : av.map.get x.2.content = some i := by rw [a2]; exact hgi
      have hvb : (Tokenizer.unigramView g).toId "</s>".toList = some eos := by
        rw [hok.2]
        show g.vocab[eos]?.map (·.1) = _
        rw [(Unigram.made_of_from hg).vocab_eq, ← List.getElem?_map, heos]
      have hib : i = eos := by
        rw [x2] at hgi
        rcases hinv.model _ _ hgi with k | ⟨k, _⟩
        · rw [hvb] at k; exact (Option.some.inj k).symm
        · rw [hvb] at k; cases k
      obtain ⟨t, t1, _⟩ := (hinv.inverse _ _).1 hgi
      obtain ⟨y, hy, rfl⟩ := hfrom _ _ t1
      exact ⟨y.2, by rw [← hib]; exact t1, hspecial y hy⟩

/-- A text without the mark that occurs in a marked word occurs in the word. -/
theorem infix_marked {c y : Str} (hc : '▁' ∉ c) (hne : c ≠ []) (h : c <:+: '▁' :: y) : c <:+: y := by
  obtain ⟨l, r, he⟩ := h
  cases l with
  | nil =>
    cases c with
    | nil => exact absurd rfl hne
    | cons x c =>
      simp only [List.nil_append, List.cons_append, List.cons.injEq] at he
      exact absurd (he.1 ▸ List.mem_cons_self) hc
  | cons x l =>
    simp only [List.cons_append, List.cons.injEq] at he
    exact ⟨l, r, he.2⟩

/-- **C106.** A file in the form of T5's is loaded. The tokenizer encodes every text whose characters, after the charsmap has been
applied, are in the vocabulary or white space, that has no `▁` and in which neither an added token nor `<unk>` is written; what is
decoded are its words with single spaces between. -/
theorem C106_published (w : World) (hu : w.uni.Ok) (hsp : w.tables.ws ' ' = true) (e : Env) (skip' : Bool)
    {charsmap : Str} (hcm : e.charsmap charsmap = true) {build : List (Str × Nat) → Bool} (hb : Automata build)
    {vocab : List (Str × Rat)} (hn : (vocab.map (·.1)).Nodup) {unk eos : Nat} (hsmall : vocab.length ≤ 4294967296)
    (hunk : (vocab.map (·.1))[unk]? = some "<unk>".toList) (heos : (vocab.map (·.1))[eos]? = some "</s>".toList)
    (hmark : "▁".toList ∈ vocab.map (·.1))
    {tokens : List (Nat × AddedToken)} (hi : ∀ x ∈ tokens, x.1 < 4294967296)
    (hraw : ∀ x ∈ tokens, x.2.normalized = false)
    (hplain : ∀ x ∈ tokens, x.2.lstrip = false ∧ x.2.rstrip = false ∧ x.2.singleWord = false)
    (hspecial : ∀ x ∈ tokens, x.2.special = true) (hend : ∃ x ∈ tokens, x.2.content = "</s>".toList)
    (hnames : ∀ x ∈ tokens, '▁' ∉ x.2.content) :
    ∃ c, load e skip' build w.norm (t5File charsmap unk eos vocab tokens) = .ok c ∧
      ∀ s n, s ≠ [] → n = (Normalizer.precompiled (w.charsmap charsmap)).text w.uni s → '▁' ∉ n →
        (∀ x ∈ n, w.tables.ws x = false → [x] ∈ vocab.map (·.1)) → ¬ "<unk>".toList <:+: n →
        (∀ x ∈ tokens, ¬ x.2.content <:+: s ∧ ¬ x.2.content <:+: n) → ∀ add skip, (add = true → skip = true) →
        ∃ enc, (w.tokenizer c).encode (.raw s, none) add = .ok enc ∧
          (w.tokenizer c).decode skip enc.ids = some ([' '].intercalate (PreTokenizer.wordsBy w.tables.ws n)) := by
  have hlt : unk < vocab.length := by
    have := (List.getElem?_eq_some_iff.1 hunk).1
    simpa using this
  obtain ⟨c, g, ops, h1, h2, h3, h4, h5, h6, h7, h8⟩ := t5File_loaded w hu hsp e skip' hcm hb hn hlt hsmall heos hi hraw hplain
    hspecial hend
  refine ⟨c, h1, ?_⟩
  rintro s n hs rfl hr hch hnu hfree add skip hskip
  have hwords := wordsBy_words w.tables.ws ((Normalizer.precompiled (w.charsmap charsmap)).text w.uni s)
  have hP : ∀ y ∈ PreTokenizer.wordsBy w.tables.ws ((Normalizer.precompiled (w.charsmap charsmap)).text w.uni s),
      ∀ w', w' <:+: '▁' :: y → (∀ c ∈ w', ∃ sc, ([c], sc) ∈ vocab) ∧ ∀ x, vocab[unk]? = some x → ¬ x.1 <:+: w' := by
    intro y hy w' hw'
    refine ⟨fun x hx => ?_, fun x hx hin => ?_⟩
    · have hmem : [x] ∈ vocab.map (·.1) := by
        rcases List.mem_cons.1 (hw'.subset hx) with rfl | hx'
        · exact hmark
        · exact hch x ((hwords y hy).2.1.subset hx') ((hwords y hy).2.2 x hx')
      obtain ⟨p, p1, p2⟩ := List.mem_map.1 hmem
      exact ⟨p.2, by rw [← p2]; exact p1⟩
    · rw [List.getElem?_map, hx] at hunk
      simp only [Option.map_some, Option.some.injEq] at hunk
      rw [hunk] at hin
      exact hnu ((infix_marked (by decide) (by decide) (hin.trans hw')).trans (hwords y hy).2.1)
  have hF : ∀ x ∈ tokensOf ops, ¬ x.content <:+: s ∧
      ¬ x.content <:+: (Normalizer.precompiled (w.charsmap charsmap)).text w.uni s ∧
      ∀ y ∈ PreTokenizer.wordsBy w.tables.ws ((Normalizer.precompiled (w.charsmap charsmap)).text w.uni s),
        ¬ x.content <:+: '▁' :: y := by
    intro x hx
    obtain ⟨y, hy, rfl⟩ := h7 x hx
    refine ⟨(hfree y hy).1, (hfree y hy).2, fun v hv hin => ?_⟩
    refine (hfree y hy).2 ((infix_marked (hnames y hy) ?_ hin).trans (hwords v hv).2.1)
    intro h0
    exact (hfree y hy).1 (by rw [h0]; exact List.nil_infix)
  obtain ⟨enc, d, e1, e2, rfl, _⟩ := Tokenizer.C106_plain h5 (Tokenizer.C69_unigram h2 h3 h4) (build := build) (ops := ops)
    (by rw [h4]; exact h6) (fun x hx => by
      obtain ⟨y, hy, rfl⟩ := h7 x hx
      exact hraw y hy) h8 hs hr hP hF hskip
  exact ⟨enc, e1, e2⟩

end Tok.Save
