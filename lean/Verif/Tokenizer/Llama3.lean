import Verif.Tokenizer.Stable
import Verif.Added.SkipExact

/-!
# C108: byte-level tokenizers that cut with other pre-tokenizers first, like the published ones of Llama 3, Qwen or StarCoder

No new code: the composition of C58, C29, C16 and C35, for pre-tokenizers `Sequence [Split, …, ByteLevel]`, post-processors
`Sequence [ByteLevel, TemplateProcessing]`, normalizers (`NFC`) and `ignore_merges`.
-/

namespace Tok
open Encoding AddedVocab PreTokenizer ByteLevel

/-! ## Pre-tokenizers that keep every character -/

/-- The pieces together are the text. -/
def KeepsText (v : CharTables) (y : PreTokenizer) : Prop := ∀ first s, (cut v first y s).flatten = s

theorem kept_whole {b : NS.Behavior} (hb : b ≠ .removed) (ps : List (Str × Bool)) :
    (NS.kept b ps).flatten = ps.flatMap (·.1) := by
  rw [NS.C11_partition]
  congr 1
  funext p
  rw [if_neg fun h => hb h.1]

theorem cutAt_text {s : Str} {ms : List Range} (h : NS.EngineMatches s 0 ms) : (cutAt s 0 ms).flatMap (·.1) = s := by
  by_cases hs : s = []
  · subst hs; exact cutAt_nil h
  · exact (findRegex_cut hs h).2

theorem keeps_split (v : CharTables) {re : Str → List Range} (hre : ∀ s, NS.EngineMatches s 0 (re s)) {b : NS.Behavior}
    (hb : b ≠ .removed) (inv : Bool) : KeepsText v (.split re b inv) := by
  intro first s
  rw [cut, kept_whole hb, List.flatMap_map]
  exact cutAt_text (hre s)

theorem keeps_punctuation (v : CharTables) {b : NS.Behavior} (hb : b ≠ .removed) : KeepsText v (.punctuation b) := by
  intro first s
  rw [cut, kept_whole hb, marked_text]

theorem keeps_digits (v : CharTables) (individual : Bool) : KeepsText v (.digits individual) := by
  intro first s
  rw [cut]
  cases individual with
  | true => rw [if_pos rfl, ← List.flatMap_def, marked_text]
  | false => rw [if_neg (by simp)]; exact runs_flatten _ _

theorem flatten_solid (l : List Str) : (solid l).flatten = l.flatten := by
  unfold solid
  induction l with
  | nil => rfl
  | cons x l ih =>
    rw [List.filter_cons]
    split
    · simp only [List.flatten_cons]; rw [ih]
    · rename_i h
      have : x = [] := by simpa using h
      simp only [List.flatten_cons, this]; rw [ih]; rfl

theorem spell_flatten (l : List Str) : (l.flatMap spell) = spell l.flatten := by
  induction l with
  | nil => rfl
  | cons x l ih => rw [List.flatMap_cons, ih]; unfold spell strBytes; simp

/-- The pieces that are given to the model: together they spell the text. -/
theorem cut_spelled {v : CharTables} {re : Str → List Range} (hre : ∀ s, NS.EngineMatches s 0 (re s)) (r : Bool) :
    ∀ (l : List PreTokenizer), (∀ y ∈ l, KeepsText v y) → ∀ first s,
      (cutAll v first (l ++ [.byteLevel ⟨false, r⟩ re]) s).flatten = spell s
  | [], _, first, s => by
    have h1 : ∀ l : List Str, l.flatMap (cutAll v false []) = l := by
      intro l
      induction l with
      | nil => rfl
      | cons x l ih => rw [List.flatMap_cons, ih, cutAll]; rfl
    have hw : withSpace false s = s := by simp [withSpace]
    rw [List.nil_append, cutAll, h1, flatten_solid, cut]
    simp only [hw]
    rw [← List.flatMap_def, spell_flatten]
    split
    · rw [← List.flatMap_def, cutAt_text (hre s)]
    · simp
  | y :: l, h, first, s => by
    have ih := cut_spelled hre r l (fun z hz => h z (by simp [hz])) false
    rw [List.cons_append, cutAll, List.flatMap_def, List.flatten_flatten, List.map_map]
    have : (List.flatten ∘ cutAll v false (l ++ [.byteLevel ⟨false, r⟩ re])) = spell := by funext w; exact ih w
    rw [this, ← List.flatMap_def, spell_flatten, flatten_solid, h y (by simp)]

/-! ## Post-processing with `Sequence [ByteLevel, …]` -/

namespace Tokenizer

/-- The settings that add nothing but special tokens around the text, also behind a byte-level post-processor. -/
def Around (s : Post.Settings) (special : Nat → Prop) : Prop :=
  Surrounds s special ∨ ∃ aps trim q, s = ⟨none, none, some (.sequence [.byteLevel aps trim, q])⟩ ∧
    Surrounds ⟨none, none, some q⟩ special

theorem around_mono {s : Post.Settings} {P Q : Nat → Prop} (h : Around s P) (hPQ : ∀ i, P i → Q i) : Around s Q := by
  have key : ∀ {s}, Surrounds s P → Surrounds s Q := by
    rintro s ⟨h1, h2, h3⟩
    refine ⟨h1, h2, ?_⟩
    rcases h3 with h3 | ⟨tm, as, ty, bs, h3, h4, h5⟩ | ⟨m, h3, h4, h5⟩
    · exact .inl h3
    · refine .inr (.inl ⟨tm, as, ty, bs, h3, h4, fun p hp => ?_⟩)
      obtain ⟨id, ty, tok, k1, k2, k3, k4⟩ := h5 p hp
      exact ⟨id, ty, tok, k1, k2, k3, fun i hi => hPQ i (k4 i hi)⟩
    · exact .inr (.inr ⟨m, h3, hPQ _ h4, hPQ _ h5⟩)
  rcases h with h | ⟨aps, trim, q, h1, h2⟩
  · exact .inl (key h)
  · exact .inr ⟨aps, trim, q, h1, key h2⟩

theorem around_uniform {s : Post.Settings} {special : Nat → Prop} (h : Around s special) (ws : Char → Bool)
    (checked add : Bool) :
    ∃ pre post, (∀ i ∈ pre ++ post, special i) ∧ (add = false → pre ++ post = []) ∧
      ∀ e : Encoding, e.WF → e.seqRanges = [] → e.overflowing = [] →
        ∃ out, s.postProcess ws checked e none add = .ok out ∧ out.ids = pre ++ e.ids ++ post := by
  rcases h with h | ⟨aps, trim, q, rfl, h⟩
  · exact surrounds_uniform h ws checked add
  · obtain ⟨pre, post, h1, h2, h3⟩ := surrounds_uniform h ws checked add
    refine ⟨pre, post, h1, h2, fun e he hr ho => ?_⟩
    let e' := if trim then processOffsets ws aps e else e
    have he' : e'.WF := by
      show (if trim then processOffsets ws aps e else e).WF
      split
      · exact Post.processOffsets_wf ws aps he
      · exact he
    have hi : e'.ids = e.ids := by
      show (if trim then processOffsets ws aps e else e).ids = _
      split
      · exact processOffsets_ids ws aps e
      · rfl
    have hr' : e'.seqRanges = [] := by
      show (if trim then processOffsets ws aps e else e).seqRanges = _
      split
      · rw [Post.processOffsets_seqRanges, hr]
      · exact hr
    have ho' : e'.overflowing = [] := by
      show (if trim then processOffsets ws aps e else e).overflowing = _
      split
      · rw [Post.processOffsets_overflowing, ho]
      · exact ho
    obtain ⟨out, o1, o2⟩ := h3 e' he' hr' ho'
    refine ⟨out, ?_, by rw [o2, hi]⟩
    have key : ByteLevel.processEncodings ws aps trim [Post.prepare 0 e] = [Post.prepare 0 e'] := by
      show _ = [Post.prepare 0 (if trim then processOffsets ws aps e else e)]
      cases e with
      | mk i ty k w o s a ov sr =>
        have hr : sr = [] := hr
        have ho : ov = [] := ho
        subst hr ho
        cases trim <;> rfl
    rw [← o1]
    unfold Post.Settings.postProcess Post.Settings.truncate Post.Settings.finish Post.Settings.padOne
    simp only
    unfold Post.Proc.process
    simp only [Post.Proc.processEncodings, Post.processAll, Option.bind_some, key]
    rw [Option.bind_fun_some]

/-! ## Decoding what was encoded -/

/-- A tokenizer that cuts a normalized text with pre-tokenizers that keep all characters, then spells the bytes: `ByteLevel`
without prefix space comes last, the BPE model knows the 256 characters. The tokens dropped by dropout may be any, and so may be
`ignore_merges`. -/
structure IsSplitBytes (t : Tokenizer) (u : Unicode) (z : Normalizer) (v : CharTables) (l : List PreTokenizer) (r : Bool)
    (re : Str → List Range) (b : Bpe.Bpe) (coins : Str → Nat → Bool) : Prop where
  pipeline : IsPipeline t u z v (.sequence (l ++ [.byteLevel ⟨false, r⟩ re]))
  engine : ∀ s, NS.EngineMatches s 0 (re s)
  keeps : ∀ y ∈ l, KeepsText v y
  decoder : t.decoder = some .byteLevel
  model : ∀ w, t.model w = bpeResult (Bpe.tokenize b (coins w) w)
  view : t.view = bpeView b
  built : Bpe.Built b
  affixes : b.pre = none ∧ b.suf = none
  alphabet : ∀ x : UInt8, ∃ i, b.vocab.get [byteChar x] = some i
  ids : ∀ s i, b.vocab.get s = some i → i < b.vocab.length

/-- The content of a token that was added as special. -/
def specialText (ops : List Op) (s : Str) : Bool := (tokensOf ops).any fun x => x.special && x.content == s

/-- A text cut into added tokens and the rest, put together again; with `skip`, without the special tokens. -/
def readable (ops : List Op) (skip : Bool) (ps : List (Option Nat × Str)) : Str :=
  ps.flatMap fun x => if skip && x.1.isSome && specialText ops x.2 then [] else x.2

theorem carved_found {pats : List (Str × Nat)} {s : Str} {ps : List (Option Nat × Str)} (h : Carved pats s ps) :
    ∀ x ∈ ps, ∀ id, x.1 = some id → (x.2, id) ∈ pats := by
  have hp : ∀ s : Str, ∀ x ∈ plainPart s, ∀ id, x.1 = some id → (x.2, id) ∈ pats := by
    intro s x hx id h
    unfold plainPart at hx
    split at hx
    · cases hx
    · rw [List.mem_singleton] at hx
      rw [hx] at h; cases h
  induction h with
  | done _ => exact hp _
  | hit h1 _ _ _ ih =>
    intro x hx id hid
    rcases List.mem_append.1 hx with hx | hx
    · exact hp _ x hx id hid
    · rcases List.mem_cons.1 hx with rfl | hx
      · cases hid; exact h1
      · exact ih x hx id hid

theorem extracted_found {u : Unicode} {z : Normalizer} {t1 t2 : List (Str × Nat)} {C1 C2 : Str → List (Option Nat × Str)}
    (h1 : Carves t1 C1) (h2 : Carves t2 C2) (s : Str) :
    ∀ x ∈ extracted u z C1 C2 s, ∀ id, x.1 = some id → (x.2, id) ∈ t1 ++ t2 := by
  intro x hx id hid
  obtain ⟨y, hy, hx⟩ := List.mem_flatMap.1 hx
  split at hx
  · rw [List.mem_singleton] at hx
    subst hx
    exact List.mem_append_left _ (carved_found (h1 s) x hy id hid)
  · exact List.mem_append_right _ (carved_found (h2 _) x hx id hid)

theorem mapM_append_ok {ε α β : Type} {f : α → Except ε β} : ∀ {l l' : List α} {r r' : List β}, l.mapM f = .ok r →
    l'.mapM f = .ok r' → (l ++ l').mapM f = .ok (r ++ r')
  | [], _, _, _, h, h' => by cases h; exact h'
  | a :: l, l', r, r', h, h' => by
    rw [List.mapM_cons] at h
    cases ha : f a with
    | error e => rw [ha] at h; cases h
    | ok x =>
      cases hl : l.mapM f with
      | error e => rw [ha, hl] at h; cases h
      | ok xs =>
        rw [ha, hl] at h; cases h
        rw [List.cons_append, List.mapM_cons, ha, mapM_append_ok hl h']; rfl

theorem decodeTokens_append (m : ModelView) (av : AddedVocab) (skip : Bool) (l l' : List Nat) :
    decodeTokens m av skip (l ++ l') = decodeTokens m av skip l ++ decodeTokens m av skip l' := by
  simp [decodeTokens]

theorem strBytes_append (a b : Str) : strBytes (a ++ b) = strBytes a ++ strBytes b := by
  unfold strBytes; simp

section
variable {t : Tokenizer} {u : Unicode} {z : Normalizer} {v : CharTables} {l : List PreTokenizer} {r : Bool}
  {re : Str → List Range} {b : Bpe.Bpe} {coins : Str → Nat → Bool}

theorem IsSplitBytes.ok (h : IsSplitBytes t u z v l r re b coins) : t.view.Ok := by
  rw [h.view]; exact ⟨h.ids, fun c i => Bpe.C46_bpe_vocab_inverse h.built c i⟩

/-- The model on words that spell a text. -/
theorem splitBytes_words (h : IsSplitBytes t u z v l r re b coins) : ∀ (ws : List Str),
    (∀ w ∈ ws, ∀ c ∈ w, ∃ x, c = byteChar x) →
    ∃ tss, (ws.map fun w => ((none : Option Nat), w)).mapM (unitTokens t.model) = .ok tss ∧
      tss.flatten.flatMap (·.value) = ws.flatten ∧ ∀ x ∈ tss.flatten, t.view.toId x.value = some x.id
  | [], _ => ⟨[], rfl, rfl, by simp⟩
  | w :: ws, hw => by
    obtain ⟨tss, k1, k2, k3⟩ := splitBytes_words h ws fun x hx => hw x (by simp [hx])
    have hk : ∀ c ∈ w, ∃ i, b.vocab.get [c] = some i := by
      intro c hc
      obtain ⟨x, hx⟩ := hw w List.mem_cons_self c hc
      rw [hx]; exact h.alphabet x
    obtain ⟨ts, gs, g1, g2, g3, _⟩ := Bpe.C16_values_are_text h.built h.affixes.1 h.affixes.2 hk (coins w)
    obtain ⟨ts', q1, q2, _⟩ := Bpe.C16_tokenize_tiles h.built (initSyms_known h.affixes.1 h.affixes.2 hk) (coins w)
    rw [g1] at q1; cases q1
    refine ⟨ts :: tss, ?_, ?_, ?_⟩
    · have : unitTokens t.model (none, w) = .ok ts := by
        show t.model w = _
        rw [h.model, g1]; rfl
      rw [List.map_cons, List.mapM_cons, this, k1]; rfl
    · rw [List.flatten_cons, List.flatMap_append, k2, List.flatten_cons, List.flatMap_def, g3, g2]
    · intro x hx
      rw [List.flatten_cons] at hx
      rcases List.mem_append.1 hx with hx | hx
      · rw [h.view]; exact q2 x hx
      · exact k3 x hx

/-- The units of a text spell what can be read. -/
theorem splitBytes_units (h : IsSplitBytes t u z v l r re b coins)
    {build : List (Str × Nat) → Bool} {ops : List Op} (hav : t.added = after build t.view AddedVocab.empty ops)
    (hraw : normsOf ops = [] ∨ ∀ x ∈ tokensOf ops, x.normalized = false)
    (hN : ∀ f ∈ normsOf ops, ∀ s, f s ≠ none)
    (hlit : ∀ x ∈ tokensOf ops, Literal x.content) {skip : Bool}
    (hout : skip = true → ∀ x ∈ tokensOf ops, x.special = true → b.vocab.get x.content = none) :
    ∀ (ps : List (Option Nat × Str)),
      (∀ x ∈ ps, ∀ id, x.1 = some id → (x.2, id) ∈ t.added.trie ++ t.added.normTrie) →
      ∃ tss, (units v (.sequence (l ++ [.byteLevel ⟨false, r⟩ re])) ps).mapM (unitTokens t.model) = .ok tss ∧
        (decodeTokens t.view t.added skip (tss.flatten.map (·.id))).flatMap tokBytes = strBytes (readable ops skip ps)
  | [], _ => ⟨[], rfl, rfl⟩
  | x :: ps, hx => by
    obtain ⟨tss, k1, k2⟩ := splitBytes_units h hav hraw hN hlit hout ps fun y hy => hx y (by simp [hy])
    have hm := h.ok
    have hinv : Inv t.view t.added := hav ▸ (after_inv hm build ops (inv_empty _)).1
    have hclean : Clean (tokensOf ops) t.added := by
      rw [hav]
      exact after_clean hm build ops (fun _ h => h) hraw (inv_empty _)
        ⟨rfl, by simp [AddedVocab.empty, AMap.get], by simp [AddedVocab.empty]⟩
    have hsp : ∀ s, s ∈ t.added.specials ↔ EverSpecial ops s := by
      intro s
      rw [hav, after_specials hm build ops hN (inv_empty _)]
      simp [AddedVocab.empty]
    suffices ∃ ts, (units v (.sequence (l ++ [.byteLevel ⟨false, r⟩ re])) [x]).mapM (unitTokens t.model) = .ok ts ∧
        (decodeTokens t.view t.added skip (ts.flatten.map (·.id))).flatMap tokBytes = strBytes (readable ops skip [x]) by
      obtain ⟨ts, j1, j2⟩ := this
      refine ⟨ts ++ tss, ?_, ?_⟩
      · have := mapM_append_ok j1 k1
        unfold units at this ⊢
        rw [← List.flatMap_append] at this
        exact this
      · rw [List.flatten_append, List.map_append, decodeTokens_append, List.flatMap_append, j2, k2, ← strBytes_append]
        congr 1
        unfold readable
        rw [← List.flatMap_append]; rfl
    obtain ⟨o, w⟩ := x
    cases o with
    | some id =>
      have hp := hx (some id, w) (by simp) id rfl
      obtain ⟨tk, g1, g2⟩ := hclean.pattern w id hp
      have hT := hclean.token _ _ g1
      have hne : w ≠ [] := (h.pipeline.tries _ hp).1
      refine ⟨[[⟨id, w, (0, blen w)⟩]], rfl, ?_⟩
      have hshow : (t.added.simpleIdToToken id).or (t.view.toToken id) = some w := by
        rw [← g2]; exact shows_iff.1 (.plain g1 (by rw [hclean.cache]; rfl))
      have hspec : t.added.specials.contains w = specialText ops w := by
        rw [Bool.eq_iff_iff, List.contains_iff_mem, hsp]
        unfold EverSpecial specialText
        rw [List.any_eq_true]
        constructor
        · rintro ⟨_, y, y1, y2, y3⟩; exact ⟨y, y1, by simp [y2, y3]⟩
        · rintro ⟨y, y1, y2⟩
          simp only [Bool.and_eq_true, beq_iff_eq] at y2
          exact ⟨hne, y, y1, y2⟩
      simp only [List.flatten_cons, List.flatten_nil, List.append_nil, List.map_cons, List.map_nil, decodeTokens,
        List.filterMap_cons, List.filterMap_nil, hshow, readable, List.flatMap_cons, List.flatMap_nil,
        Option.isSome_some, Bool.and_true]
      rw [Option.filter_some, hspec]
      cases skip <;> cases hc : specialText ops w <;>
        simp [tokBytes_literal (hlit tk hT), ← g2, strBytes]
    | none =>
      have hflat := cut_spelled (v := v) h.engine r l h.keeps false w
      have hcut : (cut v false (.sequence (l ++ [.byteLevel ⟨false, r⟩ re])) w) =
          cutAll v false (l ++ [.byteLevel ⟨false, r⟩ re]) w := by rw [cut]
      rw [← hcut, ← flatten_solid] at hflat
      obtain ⟨ts, j1, j2, j3⟩ := splitBytes_words h (solid (cut v false (.sequence (l ++ [.byteLevel ⟨false, r⟩ re])) w)) (by
        intro w' hw' c hc
        have : c ∈ spell w := by rw [← hflat]; exact List.mem_flatten.2 ⟨w', hw', hc⟩
        obtain ⟨x, _, rfl⟩ := List.mem_map.1 this
        exact ⟨x, rfl⟩)
      refine ⟨ts, ?_, ?_⟩
      · unfold units
        rw [List.flatMap_cons, List.flatMap_nil, List.append_nil]
        exact j1
      · rw [hflat] at j2
        have hdec : decodeTokens t.view t.added skip (ts.flatten.map (·.id)) = ts.flatten.map (·.value) := by
          cases skip with
          | false =>
            have := decodeTokens_shows (m := t.view) (av := t.added) ts.flatten
              fun y hy => shows_model hm hinv hclean (j3 y hy)
            exact this
          | true =>
            refine decodeTokens_plain true ts.flatten fun y hy => ⟨shows_model hm hinv hclean (j3 y hy), fun hc => ?_⟩
            obtain ⟨_, tk, t1, t2, t3⟩ := (hsp _).1 hc
            have := hout rfl tk t1 t2
            have hy' := j3 y hy
            rw [h.view] at hy'
            have hy' : b.vocab.get y.value = some y.id := hy'
            rw [← t3, this] at hy'; cases hy'
        rw [hdec]
        have := tokBytes_pieces (toks := ts.flatten.map (·.value)) (s := w) (by rw [← List.flatMap_def]; exact j2)
        rw [this]
        simp [readable]

/-- From the ids of a text to what decoding the encoding gives: special tokens around are skipped. -/
theorem wrapped_ids (hinv : Inv t.view t.added) (hcache : t.added.cache = [])
    (hset : Around t.settings (IsSpecialId t.added)) {s d : Str} {e : Encoding} {dec : Dec.Decoder}
    (hd : t.decoder = some dec) (e1 : t.encodeSequence 0 .byte (.raw s) = .ok e) (hlim : t.limit 0 = none)
    (e2 : e.overflowing = [])
    {add skip : Bool} (e5 : dec.decode t.checked (decodeTokens t.view t.added skip e.ids) = some d)
    (hskip : add = true → skip = true) :
    ∃ e, t.encode (.raw s, none) add = .ok e ∧ t.decode skip e.ids = some d := by
  obtain ⟨hwf, hsr⟩ := encodeSequence_wf (lim := t.limit 0) (i := .raw s) e1 hlim
  obtain ⟨pre, post, o3, o4, o5⟩ := around_uniform hset t.ws t.checked add
  obtain ⟨out, o1, o2⟩ := o5 e hwf hsr e2
  refine ⟨out, ?_, ?_⟩
  · show (t.encodeSequence 0 .byte (.raw s)).bind _ = _
    rw [e1]
    show mapErr EncErr.post (t.settings.postProcess t.ws t.checked e none add) = _
    rw [o1]; rfl
  · have hside : ∀ l, (∀ i ∈ l, i ∈ pre ++ post) → decodeTokens t.view t.added skip l = [] := by
      intro l hl
      cases ha : add with
      | true =>
        rw [hskip ha]
        exact decodeTokens_special hinv hcache fun i hi => o3 i (hl i hi)
      | false =>
        have : l = [] := by
          cases l with
          | nil => rfl
          | cons i l => have := hl i (by simp); rw [o4 ha] at this; cases this
        rw [this]; rfl
    unfold decode AddedVocab.decode
    rw [hd, o2, decodeTokens_append, decodeTokens_append, hside pre (by simp +contextual), hside post (by simp +contextual)]
    simpa using e5

/-- **C108.** What was encoded is decoded to the text cut at its added tokens, the rest normalized, put together again; special tokens
that a template puts around the text are to be skipped when decoding, and then those in the text are skipped too. -/
theorem C108_text (h : IsSplitBytes t u z v l r re b coins)
    {build : List (Str × Nat) → Bool} {ops : List Op} (hav : t.added = after build t.view AddedVocab.empty ops)
    (hraw : normsOf ops = [] ∨ ∀ x ∈ tokensOf ops, x.normalized = false)
    (hN : ∀ f ∈ normsOf ops, ∀ s, f s ≠ none)
    (hlit : ∀ x ∈ tokensOf ops, Literal x.content) (hset : Around t.settings (IsSpecialId t.added)) :
    ∃ C1 C2, Carves t.added.trie C1 ∧ Carves t.added.normTrie C2 ∧
      ∀ (s : Str) (add skip : Bool), (add = true → skip = true) →
        (skip = true → ∀ x ∈ tokensOf ops, x.special = true → b.vocab.get x.content = none) →
        ∃ e, t.encode (.raw s, none) add = .ok e ∧
          t.decode skip e.ids = some (readable ops skip (extracted u z C1 C2 s)) := by
  obtain ⟨C1, C2, hC1, hC2, he⟩ := C58_encode h.pipeline
  refine ⟨C1, C2, hC1, hC2, fun s add skip hskip hout => ?_⟩
  have hm := h.ok
  have hinv : Inv t.view t.added := hav ▸ (after_inv hm build ops (inv_empty _)).1
  have hclean : Clean (tokensOf ops) t.added := by
    rw [hav]
    exact after_clean hm build ops (fun _ h => h) hraw (inv_empty _)
      ⟨rfl, by simp [AddedVocab.empty, AMap.get], by simp [AddedVocab.empty]⟩
  obtain ⟨tss, k1, k2⟩ := splitBytes_units h hav hraw hN hlit hout (extracted u z C1 C2 s) (extracted_found hC1 hC2 s)
  have hno := he s 0 .byte none (by simp)
  rw [k1] at hno
  obtain ⟨e, e1, e2, e3⟩ := hno
  have htr : t.settings.truncation = none := by
    rcases hset with h | ⟨_, _, _, h, _⟩
    · exact h.1
    · rw [h]
  have hlim : t.limit 0 = none := by unfold limit; rw [htr]
  have e1' : t.encodeSequence 0 .byte (.raw s) = .ok e := by
    show t.encodeText (t.limit 0) 0 .byte none s = _
    rw [hlim]; exact e1
  have hwf := (encodeSequence_wf (lim := t.limit 0) (i := .raw s) e1' hlim).1
  have hids : e.ids = tss.flatten.map (·.id) := by
    rw [(rows_unzip hwf.parallel).1]
    have := congrArg (List.map Prod.fst) e3
    rw [List.map_map] at this
    rw [show (Prod.fst ∘ Row.bare) = fun r : Encoding.Row => r.1 from rfl] at this
    rw [this]
    exact (unitRows_ids 0 none tss).1
  refine wrapped_ids hinv hclean.cache hset h.decoder e1' hlim e2 ?_ hskip
  rw [hids]
  show (Dec.Decoder.decodeChain t.checked .byteLevel _).map List.flatten = _
  rw [Dec.Decoder.decodeChain]
  show some (List.flatten (ByteLevel.decodeChain _)) = _
  unfold ByteLevel.decodeChain
  rw [show (fun t : Str => (t.mapM charByte).getD (strBytes t)) = tokBytes from rfl, k2, fromUtf8Lossy_strBytes]
  simp

theorem readable_all (ops : List Op) (ps : List (Option Nat × Str)) : readable ops false ps = ps.flatMap (·.2) := by
  simp [readable]

theorem extracted_text (hz : ∀ s, z.text u s = s) {t1 t2 : List (Str × Nat)} {C1 C2 : Str → List (Option Nat × Str)}
    (h1 : Carves t1 C1) (h2 : Carves t2 C2) (s : Str) : (extracted u z C1 C2 s).flatMap (·.2) = s := by
  conv => rhs; rw [← (h1 s).text]
  unfold extracted
  rw [List.flatMap_assoc]
  congr 1
  funext x
  obtain ⟨o, w⟩ := x
  cases o with
  | some id => simp
  | none => simp only [hz]; exact (h2 w).text

/-- **C108.** If the normalizer changes nothing, every text comes back as it was, added tokens included. -/
theorem C108_lossless (h : IsSplitBytes t u z v l r re b coins) (hz : ∀ s, z.text u s = s)
    {build : List (Str × Nat) → Bool} {ops : List Op} (hav : t.added = after build t.view AddedVocab.empty ops)
    (hraw : normsOf ops = [] ∨ ∀ x ∈ tokensOf ops, x.normalized = false)
    (hN : ∀ f ∈ normsOf ops, ∀ s, f s ≠ none)
    (hlit : ∀ x ∈ tokensOf ops, Literal x.content) (hset : Around t.settings (IsSpecialId t.added)) (s : Str) :
    ∃ e, t.encode (.raw s, none) false = .ok e ∧ t.decode false e.ids = some s := by
  obtain ⟨C1, C2, hC1, hC2, he⟩ := C108_text h hav hraw hN hlit hset
  obtain ⟨e, e1, e2⟩ := he s false false (fun h => h) (fun h => by cases h)
  refine ⟨e, e1, ?_⟩
  rw [e2, readable_all, extracted_text hz hC1 hC2]

/-- **C108.** A text in which no added token occurs, before or after normalization, comes back normalized, whether special tokens are put
around it and skipped or not. -/
theorem C108_normalized (h : IsSplitBytes t u z v l r re b coins)
    {build : List (Str × Nat) → Bool} {ops : List Op} (hav : t.added = after build t.view AddedVocab.empty ops)
    (hraw : normsOf ops = [] ∨ ∀ x ∈ tokensOf ops, x.normalized = false)
    (hN : ∀ f ∈ normsOf ops, ∀ s, f s ≠ none)
    (hlit : ∀ x ∈ tokensOf ops, Literal x.content) (hset : Around t.settings (IsSpecialId t.added))
    {s : Str} (hs : s ≠ []) (hfree : ∀ x ∈ tokensOf ops, ¬ x.content <:+: s ∧ ¬ x.content <:+: z.text u s)
    {add skip : Bool} (hskip : add = true → skip = true)
    (hout : skip = true → ∀ x ∈ tokensOf ops, x.special = true → b.vocab.get x.content = none) :
    ∃ e, t.encode (.raw s, none) add = .ok e ∧ t.decode skip e.ids = some (z.text u s) := by
  obtain ⟨C1, C2, hC1, hC2, he⟩ := C108_text h hav hraw hN hlit hset
  obtain ⟨e, e1, e2⟩ := he s add skip hskip hout
  refine ⟨e, e1, ?_⟩
  have hm := h.ok
  have hclean : Clean (tokensOf ops) t.added := by
    rw [hav]
    exact after_clean hm build ops (fun _ h => h) hraw (inv_empty _)
      ⟨rfl, by simp [AddedVocab.empty, AMap.get], by simp [AddedVocab.empty]⟩
  have hpat : ∀ p ∈ t.added.trie ++ t.added.normTrie, p.1 ≠ [] ∧ ¬ p.1 <:+: s ∧ ¬ p.1 <:+: z.text u s := by
    intro p hp
    obtain ⟨x, x1, x2⟩ := hclean.pattern p.1 p.2 hp
    exact ⟨(h.pipeline.tries p hp).1, x2 ▸ hfree x (hclean.token _ _ x1)⟩
  rw [e2, extracted_none hC1 hC2 hs (fun p hp => ⟨(hpat p (by simp [hp])).1, (hpat p (by simp [hp])).2.1⟩)
    (fun p hp => ⟨(hpat p (by simp [hp])).1, (hpat p (by simp [hp])).2.2⟩)]
  unfold plainPart
  split
  · rename_i hz; rw [hz]; rfl
  · simp [readable]

/-- The model on words that spell a text, with `ignore_merges` and no dropout: a word of the vocabulary is one token. -/
theorem splitBytes_whole (h : IsSplitBytes t u z v l r re b coins) (hig : b.ignoreMerges = true) (hd : b.useDropout = false) :
    ∀ (ws : List Str), (∀ w ∈ ws, ∀ c ∈ w, ∃ x, c = byteChar x) → (∀ w ∈ ws, w ≠ []) →
    ∃ tss, (ws.map fun w => ((none : Option Nat), w)).mapM (unitTokens t.model) = .ok tss ∧
      tss.map (fun ts => ts.flatMap (·.value)) = ws ∧
      ∀ ts ∈ tss, ∀ i, b.vocab.get (ts.flatMap (·.value)) = some i → ts.map (·.id) = [i]
  | [], _, _ => ⟨[], rfl, rfl, by simp⟩
  | w :: ws, hw, hne => by
    obtain ⟨tss, k1, k2, k3⟩ := splitBytes_whole h hig hd ws (fun x hx => hw x (by simp [hx])) fun x hx => hne x (by simp [hx])
    have hk : ∀ c ∈ w, ∃ i, b.vocab.get [c] = some i := by
      intro c hc
      obtain ⟨x, hx⟩ := hw w List.mem_cons_self c hc
      rw [hx]; exact h.alphabet x
    obtain ⟨ts, gs, g1, g2, g3, _⟩ := Bpe.C16_values_are_text h.built h.affixes.1 h.affixes.2 hk (coins w)
    have hval : ts.flatMap (·.value) = w := by rw [List.flatMap_def, g3, g2]
    refine ⟨ts :: tss, ?_, ?_, ?_⟩
    · have : unitTokens t.model (none, w) = .ok ts := by
        show t.model w = _
        rw [h.model, g1]; rfl
      rw [List.map_cons, List.mapM_cons, this, k1]; rfl
    · rw [List.map_cons, k2, hval]
    · intro x hx i hi
      rcases List.mem_cons.1 hx with rfl | hx
      · rw [hval] at hi
        unfold Bpe.tokenize at g1
        rw [if_neg (hne w (by simp)), if_neg (by rw [hd]; simp), if_pos hig, hi] at g1
        cases g1; rfl
      · exact k3 x hx i hi

/-- **C108.** With `ignore_merges` and no dropout, a text in which no added token occurs is encoded word by word, a word being what
the pre-tokenizers leave: a word that is in the vocabulary is one token, whatever the merges are. -/
theorem C108_whole (h : IsSplitBytes t u z v l r re b coins) (hig : b.ignoreMerges = true) (hd : b.useDropout = false)
    (hset : Around t.settings fun _ => True)
    {s : Str} (hs : s ≠ []) (hfree : ∀ p ∈ t.added.trie, ¬ p.1 <:+: s) (hfree' : ∀ p ∈ t.added.normTrie, ¬ p.1 <:+: z.text u s) :
    ∃ (e : Encoding) (tss : List (List Token)), t.encode (.raw s, none) false = .ok e ∧
      tss.map (fun ts => ts.flatMap (·.value)) = solid (cut v false (.sequence (l ++ [.byteLevel ⟨false, r⟩ re])) (z.text u s)) ∧
      (∀ ts ∈ tss, ∀ i, b.vocab.get (ts.flatMap (·.value)) = some i → ts.map (·.id) = [i]) ∧
      e.ids = tss.flatten.map (·.id) := by
  obtain ⟨C1, C2, hC1, hC2, he⟩ := C58_encode h.pipeline
  have hex := extracted_none (u := u) (z := z) hC1 hC2 hs (fun p hp => ⟨(h.pipeline.tries p (by simp [hp])).1, hfree p hp⟩)
    (fun p hp => ⟨(h.pipeline.tries p (by simp [hp])).1, hfree' p hp⟩)
  have hflat := cut_spelled (v := v) h.engine r l h.keeps false (z.text u s)
  have hcut : (cut v false (.sequence (l ++ [.byteLevel ⟨false, r⟩ re])) (z.text u s)) =
      cutAll v false (l ++ [.byteLevel ⟨false, r⟩ re]) (z.text u s) := by rw [cut]
  rw [← hcut, ← flatten_solid] at hflat
  obtain ⟨tss, k1, k2, k3⟩ := splitBytes_whole h hig hd
    (solid (cut v false (.sequence (l ++ [.byteLevel ⟨false, r⟩ re])) (z.text u s))) (by
      intro w' hw' c hc
      have : c ∈ spell (z.text u s) := by rw [← hflat]; exact List.mem_flatten.2 ⟨w', hw', hc⟩
      obtain ⟨x, _, rfl⟩ := List.mem_map.1 this
      exact ⟨x, rfl⟩) (by
      intro w hw
      unfold solid at hw
      simpa using (List.mem_filter.1 hw).2)
  have hu : (units v (.sequence (l ++ [.byteLevel ⟨false, r⟩ re])) (extracted u z C1 C2 s)).mapM (unitTokens t.model) = .ok tss := by
    rw [hex]
    unfold plainPart
    split
    · rename_i h0
      have : solid (cut v false (.sequence (l ++ [.byteLevel ⟨false, r⟩ re])) (z.text u s)) = [] := by
        cases hc : solid (cut v false (.sequence (l ++ [.byteLevel ⟨false, r⟩ re])) (z.text u s)) with
        | nil => rfl
        | cons a as =>
          have ha : a ∈ solid (cut v false (.sequence (l ++ [.byteLevel ⟨false, r⟩ re])) (z.text u s)) := by rw [hc]; simp
          have hane : a ≠ [] := by
            unfold solid at ha
            simpa using (List.mem_filter.1 ha).2
          rw [hc, h0] at hflat
          simp only [spell, strBytes, List.flatMap_nil, List.map_nil, List.flatten_cons, List.append_eq_nil_iff] at hflat
          exact absurd hflat.1 hane
      rw [this] at k1
      exact k1
    · unfold units
      rw [List.flatMap_cons, List.flatMap_nil, List.append_nil]
      exact k1
  have hno := he s 0 .byte none (by simp)
  rw [hu] at hno
  obtain ⟨e, e1, e2, e3⟩ := hno
  have htr : t.settings.truncation = none := by
    rcases hset with h | ⟨_, _, _, h, _⟩
    · exact h.1
    · rw [h]
  have hlim : t.limit 0 = none := by unfold limit; rw [htr]
  have e1' : t.encodeSequence 0 .byte (.raw s) = .ok e := by
    show t.encodeText (t.limit 0) 0 .byte none s = _
    rw [hlim]; exact e1
  obtain ⟨hwf, hsr⟩ := encodeSequence_wf (lim := t.limit 0) (i := .raw s) e1' hlim
  have hids : e.ids = tss.flatten.map (·.id) := by
    rw [(rows_unzip hwf.parallel).1]
    have := congrArg (List.map Prod.fst) e3
    rw [List.map_map] at this
    rw [show (Prod.fst ∘ Row.bare) = fun r : Encoding.Row => r.1 from rfl] at this
    rw [this]
    exact (unitRows_ids 0 none tss).1
  obtain ⟨pre, post, _, o4, o5⟩ := around_uniform hset t.ws t.checked false
  obtain ⟨out, o1, o2⟩ := o5 e hwf hsr e2
  refine ⟨out, tss, ?_, k2, k3, ?_⟩
  · show (t.encodeSequence 0 .byte (.raw s)).bind _ = _
    rw [e1']
    show mapErr EncErr.post (t.settings.postProcess t.ws t.checked e none false) = _
    rw [o1]; rfl
  · obtain ⟨rfl, rfl⟩ := List.append_eq_nil_iff.1 (o4 rfl)
    rw [o2, List.nil_append, List.append_nil, hids]

end
end Tokenizer
end Tok
