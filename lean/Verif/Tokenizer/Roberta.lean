import Verif.Tokenizer.Apart
import Verif.Tokenizer.LlamaSamples

/-!
# Byte-level BPE with special tokens around the text (C44)

A tokenizer like RoBERTa's: byte-level BPE, with or without the prefix space, and a post-processor that puts special tokens around
the text. Decoding without special tokens gives the text back, with the prefix space if there was none.
-/

namespace Tok
open NS AddedVocab ByteLevel PreTokenizer

namespace ByteLevel

/-! ### ASCII texts in a spelled text -/

/-- A character is spelled as itself, or with characters that are not ASCII. -/
theorem spell_char (c : Char) : (String.utf8EncodeChar c).map byteChar = [c] ∨
    ∀ d ∈ (String.utf8EncodeChar c).map byteChar, 128 ≤ d.toNat := by
  by_cases h : ∃ d ∈ (String.utf8EncodeChar c).map byteChar, d.toNat < 128
  · left
    obtain ⟨d, hd, hlt⟩ := h
    obtain ⟨b, hb, rfl⟩ := List.mem_map.1 hd
    -- the byte is ASCII, so the character is
    have ha := C29_alphabet b
    have hbn : (byteChar b).toNat = b.toNat := by
      split at ha
      · exact ha
      · omega
    have hc : c.val.toNat ≤ 127 := by
      refine Classical.byContradiction fun hn => ?_
      have hbig := hb
      rw [String.utf8EncodeChar, if_neg hn] at hbig
      split at hbig
      · simp only [List.mem_cons, List.not_mem_nil, or_false] at hbig
        rcases hbig with rfl | rfl <;> (rw [hbn] at hlt; simp at hlt; omega)
      · split at hbig
        · simp only [List.mem_cons, List.not_mem_nil, or_false] at hbig
          rcases hbig with rfl | rfl | rfl <;> (rw [hbn] at hlt; simp at hlt; omega)
        · simp only [List.mem_cons, List.not_mem_nil, or_false] at hbig
          rcases hbig with rfl | rfl | rfl | rfl <;> (rw [hbn] at hlt; simp at hlt; omega)
    rw [String.utf8EncodeChar, if_pos hc] at hb ⊢
    have hbe : b = UInt8.ofNat c.val.toNat := by simpa using hb
    rw [← hbe]
    have : byteChar b = c := by
      apply Char.ext
      apply UInt32.toNat.inj
      have h1 : (byteChar b).val.toNat = b.toNat := hbn
      have h2 : c.toNat = c.val.toNat := rfl
      rw [h1, hbe]
      simp
      omega
    simp [this]
  · right
    intro d hd
    refine Classical.byContradiction fun hn => h ⟨d, hd, by omega⟩

theorem infix_skip {α : Type} {x a b : List α} (hx : x ≠ []) (h : ∀ d ∈ a, d ∉ x) (hi : x <:+: a ++ b) : x <:+: b := by
  induction a with
  | nil => exact hi
  | cons d a ih =>
    rw [List.cons_append, List.infix_cons_iff] at hi
    rcases hi with hp | hi
    · obtain ⟨y, x, rfl⟩ := List.exists_cons_of_ne_nil hx
      obtain ⟨r, hr⟩ := hp
      simp only [List.cons_append, List.cons.injEq] at hr
      exact absurd (hr.1 ▸ List.mem_cons_self) (h d List.mem_cons_self)
    · exact ih (fun e he => h e (List.mem_cons_of_mem _ he)) hi

theorem prefix_spell : ∀ {s x : Str}, (∀ c ∈ x, c.toNat < 128) → x <+: spell s → x <+: s
  | [], x, _, h => h
  | c :: s, [], _, _ => List.nil_prefix
  | c :: s, y :: x, hx, h => by
    rw [← spell_eq_flatMap, List.flatMap_cons, spell_eq_flatMap] at h
    rcases spell_char c with hc | hc
    · rw [hc] at h
      obtain ⟨r, hr⟩ := h
      simp only [List.cons_append, List.nil_append, List.cons.injEq] at hr
      obtain ⟨rfl, hr⟩ := hr
      obtain ⟨q, hq⟩ := prefix_spell (s := s) (x := x) (fun d hd => hx d (List.mem_cons_of_mem _ hd)) ⟨r, hr⟩
      exact ⟨q, by rw [List.cons_append, hq]⟩
    · have hne : (String.utf8EncodeChar c).map byteChar ≠ [] := by
        intro h0
        have := congrArg List.length h0
        rw [List.length_map, String.length_utf8EncodeChar] at this
        have := c.utf8Size_pos
        simp at *
      obtain ⟨d, l, hd⟩ := List.exists_cons_of_ne_nil hne
      rw [hd] at h hc
      obtain ⟨r, hr⟩ := h
      simp only [List.cons_append, List.cons.injEq] at hr
      have h1 := hc d List.mem_cons_self
      have h2 := hx y List.mem_cons_self
      rw [hr.1] at h2
      omega

/-- An ASCII text that is in a spelled text is in the text. -/
theorem infix_spell {x : Str} (hne : x ≠ []) (hx : ∀ c ∈ x, c.toNat < 128) : ∀ {s : Str}, x <:+: spell s → x <:+: s
  | [], h => h
  | c :: s, h => by
    rw [← spell_eq_flatMap, List.flatMap_cons, spell_eq_flatMap] at h
    rcases spell_char c with hc | hc
    · have hcs : spell (c :: s) = c :: spell s := by
        rw [← spell_eq_flatMap, List.flatMap_cons, spell_eq_flatMap, hc]; rfl
      rw [hc, List.singleton_append, List.infix_cons_iff] at h
      rw [List.infix_cons_iff]
      rcases h with h | h
      · exact .inl (prefix_spell hx (hcs ▸ h))
      · exact .inr (infix_spell hne hx h)
    · refine List.infix_cons_iff.2 (.inr (infix_spell hne hx (infix_skip hne (fun d hd hd' => ?_) h)))
      have h1 := hc d hd
      have h2 := hx d hd'
      omega

/-- A text the decoder takes for itself is in a spelled text, also with a prefix space, only if it is in the text. -/
theorem literal_infix {x : Str} (hne : x ≠ []) (h : Literal x) {aps : Bool} {s : Str}
    (hi : x <:+: spell (withSpace aps s)) : x <:+: s := by
  have hall : ∀ c ∈ x, ∃ b, byteChar b = c := by
    intro c hc
    obtain ⟨l, r, e⟩ := hi
    have : c ∈ spell (withSpace aps s) := by rw [← e]; simp [hc]
    obtain ⟨b, _, hb⟩ := List.mem_map.1 this
    exact ⟨b, hb⟩
  rcases h with h | ⟨c, hc, hb⟩
  · have hin := infix_spell hne h hi
    unfold withSpace at hin
    split at hin
    · rw [List.infix_cons_iff] at hin
      rcases hin with hp | hin
      · obtain ⟨y, x, rfl⟩ := List.exists_cons_of_ne_nil hne
        obtain ⟨r, hr⟩ := hp
        simp only [List.cons_append, List.cons.injEq] at hr
        obtain ⟨b, hb⟩ := hall y List.mem_cons_self
        rw [hr.1] at hb
        have ha := C29_alphabet b
        rw [hb] at ha
        have h32 : ' '.toNat = 32 := rfl
        rw [h32] at ha
        split at ha
        · rename_i hv
          rw [← ha] at hv
          exact absurd hv (by decide)
        · omega
      · exact hin
    · exact hin
  · obtain ⟨b, hb'⟩ := hall c hc
    exact absurd hb' (hb b)

end ByteLevel

namespace Tokenizer

/-- A byte-level BPE tokenizer with or without prefix space: no normalizer, a BPE model that knows the 256 characters, its
vocabulary, the byte-level decoder. The merges dropped by dropout may be any. -/
structure IsRoberta (t : Tokenizer) (u : Unicode) (v : CharTables) (b : Bpe.Bpe) (cfg : ByteLevel.Config) (re : Str → List Range)
    (coins : Str → Nat → Bool) : Prop where
  pipeline : IsPipeline t u (.sequence []) v (.byteLevel cfg re)
  model : ∀ w, t.model w = bpeResult (Bpe.tokenize b (coins w) w)
  view : t.view = bpeView b
  decoder : t.decoder = some .byteLevel
  built : Bpe.Built b
  affixes : b.pre = none ∧ b.suf = none
  alphabet : ∀ x : UInt8, ∃ i, b.vocab.get [byteChar x] = some i
  ids : ∀ s i, b.vocab.get s = some i → i < b.vocab.length

theorem bpe_spelled {t : Tokenizer} {u v b cfg re coins} (h : IsRoberta t u v b cfg re coins) (w : Str) :
    ∃ ts, t.model (spell w) = .ok ts ∧ (ts.map (·.value)).flatten = spell w ∧
      ∀ x ∈ ts, b.vocab.get x.value = some x.id := by
  have hk : ∀ c ∈ spell w, ∃ i, b.vocab.get [c] = some i := by
    intro c hc
    obtain ⟨x, _, rfl⟩ := List.mem_map.1 hc
    exact h.alphabet x
  obtain ⟨ts, gs, g1, g2, g3, _⟩ := Bpe.C16_values_are_text h.built h.affixes.1 h.affixes.2 hk (coins (spell w))
  obtain ⟨l, hl⟩ : ∃ l, Bpe.initSyms b (spell w) = some l := ⟨_, initSyms_known h.affixes.1 h.affixes.2 hk⟩
  obtain ⟨ts', k1, k2, _⟩ := Bpe.C16_tokenize_tiles h.built hl (coins (spell w))
  rw [g1] at k1; cases k1
  exact ⟨ts, by rw [h.model, g1]; rfl, by rw [g3, g2], k2⟩

theorem bpe_spelled_all {t : Tokenizer} {u v b cfg re coins} (h : IsRoberta t u v b cfg re coins) : ∀ ws : List Str,
    ∃ tss, ((ws.map spell).filter (· ≠ [])).mapM t.model = .ok tss ∧
      (tss.flatten.map (·.value)).flatten = spell ws.flatten ∧ ∀ x ∈ tss.flatten, b.vocab.get x.value = some x.id
  | [] => ⟨[], rfl, rfl, by simp⟩
  | w :: ws => by
    obtain ⟨tss, h1, h2, h3⟩ := bpe_spelled_all h ws
    rw [List.map_cons, List.flatten_cons, spell_append]
    by_cases hw : spell w = []
    · refine ⟨tss, ?_, by rw [hw, h2]; rfl, h3⟩
      rw [hw, List.filter_cons_of_neg (by simp)]
      exact h1
    · obtain ⟨ts, g1, g2, g3⟩ := bpe_spelled h w
      refine ⟨ts :: tss, ?_, ?_, ?_⟩
      · rw [List.filter_cons_of_pos (by simpa using hw), List.mapM_cons, g1, h1]; rfl
      · rw [List.flatten_cons, List.map_append, List.flatten_append, g2, h2]
      · intro x hx
        rw [List.flatten_cons, List.mem_append] at hx
        exact hx.elim (g3 x) (h3 x)

/-- The tokens of a text without added tokens. -/
theorem roberta_sequence {t : Tokenizer} {u v b cfg re coins} (h : IsRoberta t u v b cfg re coins)
    (htr : t.settings.truncation = none) {s : Str} (h1 : ∀ p ∈ t.added.trie ++ t.added.normTrie, ¬ p.1 <:+: s) :
    ∃ e, ∃ ts : List Token, t.encodeSequence 0 .byte (.raw s) = .ok e ∧ e.overflowing = [] ∧ e.ids = ts.map (·.id) ∧
      (∀ x ∈ ts, b.vocab.get x.value = some x.id) ∧ (ts.map (·.value)).flatten = spell (withSpace cfg.addPrefixSpace s) := by
  have hlim : t.limit 0 = none := by unfold limit; rw [htr]
  have hseq : t.encodeSequence 0 .byte (.raw s) = t.encodeText none 0 .byte none s := by
    show t.encodeText (t.limit 0) 0 .byte none s = _
    rw [hlim]
  have htext : Normalizer.text u (.sequence []) s = s := by rw [Normalizer.text, Normalizer.textAll]
  by_cases hs : s = []
  · subst hs
    obtain ⟨C1, C2, hC1, hC2, he⟩ := C58_encode h.pipeline
    have hno := he [] 0 .byte none (by simp)
    have hc : C1 [] = [] := carved_nil (fun p hp => (h.pipeline.tries p (by simp [hp])).1) rfl (hC1 [])
    have hu : units v (.byteLevel cfg re) (extracted u (.sequence []) C1 C2 []) = [] := by
      rw [extracted, hc]; rfl
    rw [hu] at hno
    obtain ⟨e, e1, e2, e3⟩ := hno
    rw [← hseq] at e1
    have hwf := (encodeSequence_wf (lim := t.limit 0) (i := .raw []) e1 hlim).1
    have hrows : e.rows = [] := List.map_eq_nil_iff.1 (by rw [e3]; rfl)
    refine ⟨e, [], e1, e2, by rw [(rows_unzip hwf.parallel).1, hrows]; rfl, by simp, ?_⟩
    simp [withSpace, spell]
  · have key := C58_no_added h.pipeline hs (fun p hp => h1 p (by simp [hp]))
      (fun p hp => by rw [htext]; exact h1 p (by simp [hp])) 0 (ty := .byte) (by simp) none
    rw [htext] at key
    let w := withSpace cfg.addPrefixSpace s
    let ws : List Str := if cfg.useRegex then (cutAt w 0 (re w)).map (·.1) else [w]
    have hws : ws.flatten = w := by
      show (if cfg.useRegex then (cutAt w 0 (re w)).map (·.1) else [w]).flatten = w
      split
      · have := (regexLoop_cut w (re w) 0 (cutAt_zero w) (h.pipeline.sound w)).2 w
          (strGet_eq_some.2 ⟨[], [], by simp, rfl, by simp⟩)
        rw [← List.flatMap_def]
        exact this
      · simp
    have hcut : cut v false (.byteLevel cfg re) s = ws.map spell := by rw [cut]
    obtain ⟨tss, g1, g2, g3⟩ := bpe_spelled_all h ws
    rw [hcut, g1] at key
    obtain ⟨e, e1, e2, e3⟩ := key
    rw [← hseq] at e1
    have hwf := (encodeSequence_wf (lim := t.limit 0) (i := .raw s) e1 hlim).1
    refine ⟨e, tss.flatten, e1, e2, ?_, g3, by rw [g2, hws]⟩
    rw [← (unitRows_ids 0 none tss).1, ← e3, List.map_map, (rows_unzip hwf.parallel).1]
    rfl

/-- **C44, with special tokens around.** A byte-level BPE tokenizer, with or without prefix space, whose post-processor puts only
special tokens around the text: decoding without special tokens gives the text back, with the prefix space if one was added. The
text contains none of the added tokens; these are ASCII or have a character that stands for no byte. -/
theorem C44_surrounded {t : Tokenizer} {u v b cfg re coins} (h : IsRoberta t u v b cfg re coins)
    {build : List (Str × Nat) → Bool} {ops : List Op} (hav : t.added = after build (bpeView b) empty ops)
    (hnorm : normsOf ops = []) (hlit : ∀ x ∈ tokensOf ops, Literal x.content)
    (hset : Surrounds t.settings (IsSpecialId t.added)) {s : Str} (hfree : ∀ x ∈ tokensOf ops, ¬ x.content <:+: s)
    {add skip : Bool} (hskip : add = true → skip = true) :
    ∃ e, t.encode (.raw s, none) add = .ok e ∧ t.decode skip e.ids = some (withSpace cfg.addPrefixSpace s) := by
  have hm : (bpeView b).Ok := ⟨h.ids, fun c i => Bpe.C46_bpe_vocab_inverse h.built c i⟩
  have hinv : Inv (bpeView b) t.added := hav ▸ (after_inv hm build ops (inv_empty _)).1
  have hclean : Clean (tokensOf ops) t.added := by
    rw [hav]
    exact after_clean hm build ops (fun _ h => h) (.inl hnorm) (inv_empty _)
      ⟨rfl, by simp [empty, AMap.get], by simp [empty]⟩
  have hlim : t.limit 0 = none := by unfold limit; rw [hset.1]
  obtain ⟨e, ts, e1, e2, e3, e4, e5⟩ := roberta_sequence h hset.1 (s := s) fun p hp => by
    obtain ⟨x, x1, x2⟩ := hclean.pattern p.1 p.2 hp
    exact x2 ▸ hfree x (hclean.token _ _ x1)
  have hplain : ∀ x ∈ ts, x.value ∉ t.added.specials := by
    intro x hx hsp
    obtain ⟨i, hi⟩ := hinv.special _ hsp
    obtain ⟨tk, k1, k2⟩ := (hinv.inverse _ i).1 hi
    have hT := hclean.token _ _ k1
    by_cases hne : tk.content = []
    · exact hfree tk hT (by rw [hne]; exact List.nil_infix)
    · refine hfree tk hT (literal_infix hne (hlit tk hT) (aps := cfg.addPrefixSpace) ?_)
      rw [← e5, k2]
      obtain ⟨l, r, hl⟩ := List.append_of_mem (List.mem_map_of_mem (f := (·.value)) hx)
      exact ⟨l.flatten, r.flatten, by rw [hl]; simp⟩
  obtain ⟨hwf, hsr⟩ := encodeSequence_wf (lim := t.limit 0) (i := .raw s) e1 hlim
  obtain ⟨out, pre, post, o1, o2, o3, o4⟩ := surrounds_ids hset t.ws t.checked add hwf hsr e2
  refine ⟨out, ?_, ?_⟩
  · show (t.encodeSequence 0 .byte (.raw s)).bind _ = _
    rw [e1]
    show mapErr EncErr.post (t.settings.postProcess t.ws t.checked e none add) = _
    rw [o1]; rfl
  · have hdec : decodeTokens (bpeView b) t.added skip out.ids = ts.map (·.value) := by
      have hts := decodeTokens_plain (m := bpeView b) (av := t.added) skip ts fun x hx =>
        ⟨shows_model hm hinv hclean (e4 x hx), hplain x hx⟩
      have hside : ∀ l, (∀ i ∈ l, i ∈ pre ++ post) → decodeTokens (bpeView b) t.added skip l = [] := by
        intro l hl
        cases ha : add with
        | true =>
          rw [hskip ha]
          exact decodeTokens_special hinv hclean.cache fun i hi => o3 i (hl i hi)
        | false =>
          have : l = [] := by
            cases l with
            | nil => rfl
            | cons i l => have := hl i (by simp); rw [o4 ha] at this; cases this
          rw [this]; rfl
      have hsplit : ∀ l l' : List Nat, decodeTokens (bpeView b) t.added skip (l ++ l') =
          decodeTokens (bpeView b) t.added skip l ++ decodeTokens (bpeView b) t.added skip l' := by
        intro l l'; simp [decodeTokens]
      rw [o2, hsplit, hsplit, hside pre (by simp +contextual), hside post (by simp +contextual), e3, hts]
      simp
    unfold decode AddedVocab.decode
    rw [h.decoder, h.view, hdec]
    show ((Dec.Decoder.decodeChain t.checked .byteLevel _).map List.flatten) = _
    rw [Dec.Decoder.decodeChain]
    show some (List.flatten (ByteLevel.decodeChain _)) = _
    rw [C29_roundtrip _ _ e5]
    simp

/-! ### A tokenizer -/

/-- Two special tokens and one that is not, around and in a text. -/
def robertaOps : List Op := [.add none [.ofStr "<s>".toList true, .ofStr "</s>".toList true, .ofStr "<|x|>".toList false]]

/-- As `byteSample`, with prefix space, and `<s>` and `</s>` around every text. -/
def robertaSample : Tokenizer :=
  { byteSample robertaOps with
    preTok := fun p => mapErr (fun _ => .preTok 0) (preTokenize ⟨true, true⟩ byteRe p)
    settings := ⟨none, none, some (.roberta ⟨("</s>".toList, 259), ("<s>".toList, 258)⟩ true true)⟩ }

theorem robertaSample_added : robertaSample.added = after buildAny (bpeView byteBpe) empty robertaOps := by
  dsimp only [robertaSample, byteSample]

theorem robertaSample_ok : IsRoberta robertaSample Normalizer.sample asciiTables byteBpe ⟨true, true⟩ byteRe (fun _ _ => false) where
  pipeline :=
    { normalizer := by
        funext n
        show some n = _
        rw [Normalizer.apply, Normalizer.applyAll]
      preTok := rfl
      unicode := Normalizer.sample_ok
      safe := trivial
      sound := byteRe_ok
      anywhere := trivial
      tries := robertaSample_added ▸ after_tries (byteView_ok (byteSample_ok [])) (fun l h p hp => by simpa using List.all_eq_true.1 h p hp) robertaOps
        (inv_empty _) (by simp [TriesOk, empty])
      bare := by
        refine ⟨by decide +kernel, fun i t ht => ?_⟩
        have hc : Clean (tokensOf robertaOps) robertaSample.added := robertaSample_added ▸
          after_clean (byteView_ok (byteSample_ok [])) buildAny robertaOps (fun _ h => h) (.inl rfl) (inv_empty _)
            ⟨rfl, by simp [empty, AMap.get], by simp [empty]⟩
        have hT := hc.token i t ht
        revert hT
        generalize t = x
        have : ∀ x ∈ tokensOf robertaOps, x.lstrip = false ∧ x.rstrip = false ∧ x.singleWord = false := by decide
        exact this x }
  model := fun _ => rfl
  view := rfl
  decoder := rfl
  built := byteBpe_built
  affixes := ⟨rfl, rfl⟩
  alphabet := (byteSample_ok []).alphabet
  ids := (byteSample_ok []).ids

/-- Every text without these tokens. -/
example (s : Str) (h : ∀ x ∈ ["<s>", "</s>", "<|x|>"], ¬ x.toList <:+: s) :
    ∃ e, robertaSample.encode (.raw s, none) true = .ok e ∧ robertaSample.decode true e.ids = some (withSpace true s) := by
  refine C44_surrounded robertaSample_ok (build := buildAny) (ops := robertaOps) robertaSample_added rfl ?_ ⟨rfl, rfl, .inr (.inr ⟨_, .inr ⟨_, _, rfl⟩, ?_, ?_⟩)⟩
    ?_ (fun _ => rfl)
  · intro x hx
    refine .inl ?_
    revert x
    decide
  · have : (robertaSample.added.rmap.get 258).map (·.special) = some true := by decide +kernel
    obtain ⟨x, h1, h2⟩ := Option.map_eq_some_iff.1 this
    exact ⟨x, h1, h2⟩
  · have : (robertaSample.added.rmap.get 259).map (·.special) = some true := by decide +kernel
    obtain ⟨x, h1, h2⟩ := Option.map_eq_some_iff.1 this
    exact ⟨x, h1, h2⟩
  · intro x hx
    have : ∀ x ∈ tokensOf robertaOps, ∃ y ∈ ["<s>", "</s>", "<|x|>"], y.toList = x.content := by decide
    obtain ⟨y, hy, he⟩ := this x hx
    exact he ▸ h y hy

/-- With the prefix space a text that begins with a word comes back with a space in front: not the text itself. -/
theorem C44_prefix_space : (robertaSample.encode (.raw "he a".toList, none) true).toOption.map (·.ids) = some [258, 32, 257, 256, 259] ∧
    robertaSample.decode true [258, 32, 257, 256, 259] = some " he a".toList := by
  decide +kernel

end Tokenizer
end Tok
