import Verif.Tokenizer.Pipeline
import Verif.Tokenizer.Lossless
import Verif.Bpe.ByteFallback
import Verif.Post.Template

/-!
# C64: a tokenizer like Llama's loses nothing but the difference between `▁` and a space

Normalizer: prepend `▁`, replace spaces by `▁`. No pre-tokenizer. BPE with byte fallback. Decoder: replace `▁` by a space,
byte fallback, fuse, strip one leading space.
-/

namespace Tok

/-! ## The matches of a one-character pattern -/

/-- Where a character occurs in a text that begins at byte `b`. -/
def occurrences (c : Char) : Nat → Str → List Range
  | _, [] => []
  | b, x :: s => if x = c then (b, b + x.utf8Size) :: occurrences c (b + x.utf8Size) s else occurrences c (b + x.utf8Size) s

theorem occurrences_matches (c : Char) (s : Str) : ∀ (q p : Str), s = p ++ q → ∀ b, b ≤ blen p →
    NS.EngineMatches s b (occurrences c (blen p) q)
  | [], _, _, _, _ => trivial
  | x :: q, p, hs, b, hb => by
    have hp : blen (p ++ [x]) = blen p + x.utf8Size := by simp
    have hs' : s = (p ++ [x]) ++ q := by simp [hs]
    rw [occurrences]
    split
    · refine ⟨hb, by simp only; omega, ⟨p, x :: q, hs, rfl⟩, ⟨p ++ [x], q, hs', hp⟩, ?_⟩
      have := occurrences_matches c s q (p ++ [x]) hs' (blen (p ++ [x])) (Nat.le_refl _)
      rw [hp] at this; exact this
    · have := occurrences_matches c s q (p ++ [x]) hs' b (by omega)
      rw [hp] at this; exact this

theorem occurrences_head (c : Char) : ∀ (q : Str) (b : Nat), ∀ m ∈ occurrences c b q, m.1 < m.2
  | [], _, m, h => by simp [occurrences] at h
  | x :: q, b, m, h => by
    rw [occurrences] at h
    split at h
    · rcases List.mem_cons.1 h with rfl | h
      · have := x.utf8Size_pos; simp only; omega
      · exact occurrences_head c q _ m h
    · exact occurrences_head c q _ m h

/-- Substituting for them is substituting character by character. -/
theorem substitute_occurrences (c : Char) (content s : Str) : ∀ (q p g : Str), s = p ++ g ++ q →
    Normalizer.substitute content s (blen p) (occurrences c (blen (p ++ g)) q) =
      g ++ q.flatMap fun x => if x = c then content else [x]
  | [], p, g, hs => by
    have : strGet s (blen p) (blen s) = some g :=
      strGet_eq_some.2 ⟨p, [], by simp [hs], rfl, by rw [hs]; simp⟩
    simp [occurrences, Normalizer.substitute, this]
  | x :: q, p, g, hs => by
    have hpg : blen (p ++ g) + x.utf8Size = blen (p ++ g ++ [x]) := by simp; omega
    rw [occurrences]
    split
    · rename_i hx
      have hg : strGet s (blen p) (blen (p ++ g)) = some g :=
        strGet_eq_some.2 ⟨p, x :: q, hs, rfl, by simp⟩
      have ih := substitute_occurrences c content s q (p ++ g ++ [x]) [] (by simp [hs])
      rw [List.append_nil] at ih
      rw [Normalizer.substitute]
      simp only [hpg]
      rw [hg, ih]
      simp [hx]
    · rename_i hx
      have ih := substitute_occurrences c content s q p (g ++ [x]) (by simp [hs])
      rw [hpg, List.append_assoc]
      rw [ih]
      simp [hx]

theorem substitute_char (c d : Char) (s : Str) :
    Normalizer.substitute [d] s 0 (occurrences c 0 s) = s.map fun x => if x = c then d else x := by
  have := substitute_occurrences c [d] s s [] [] rfl
  simp only [blen_nil, List.append_nil, List.nil_append] at this
  rw [this]
  clear this
  induction s with
  | nil => rfl
  | cons x s ih =>
    rw [List.flatMap_cons, List.map_cons, ih]
    split <;> rfl

theorem replaceOne_char (c d : Char) (t : Str) :
    Dec.replaceOne (fun t => NS.findRegex (occurrences c 0 t) t) [d] t = some (t.map fun x => if x = c then d else x) := by
  by_cases ht : t = []
  · subst ht; rfl
  · obtain ⟨ps, e1, e2, e3, _⟩ := Normalizer.replace_eq (content := [d]) (occurrences c 0 t) 0 (NS.cutAt_zero _)
      (occurrences_matches c t t [] rfl 0 (Nat.le_refl _))
    have hps : t = ps.flatMap (·.1) := by
      obtain ⟨p, q, hs, hp, hq⟩ := strGet_eq_some.1 e2
      have hp : p = [] := blen_eq_zero.1 hp
      subst hp
      have hq2 : q = [] := by
        have := congrArg blen hs
        simp at this
        exact blen_eq_zero.1 (by omega)
      subst hq2
      simpa using hs
    rw [Dec.C33_replace (ps := ps) (by simp only [NS.findRegex, if_neg ht]; exact e1.symm) hps, ← e3, substitute_char]

theorem replace_char (c d : Char) : ∀ ts : List Str,
    Dec.replace (fun t => NS.findRegex (occurrences c 0 t) t) [d] ts =
      some (ts.map fun t => t.map fun x => if x = c then d else x)
  | [] => rfl
  | t :: ts => by
    have ih := replace_char c d ts
    unfold Dec.replace at ih ⊢
    rw [List.mapM_cons, replaceOne_char, ih]; rfl

/-! ## Reading `▁` as a space in the tokens -/

open Dec Bpe Metaspace in
theorem byteToken_chars {t : Str} {y : UInt8} (h : IsByteToken t y) : ' ' ∉ t ∧ '▁' ∉ t := by
  have hex : ∀ c v, IsHex c v → c ≠ ' ' ∧ c ≠ '▁' := by
    intro c v hc
    have := hexVal_eq.2 hc
    constructor <;> (rintro rfl; revert this; simp [hexVal])
  obtain ⟨x, z, v, rfl, _, h⟩ := h
  have hx : x ≠ ' ' ∧ x ≠ '▁' := by
    rcases h with ⟨p, q, hp, _⟩ | ⟨rfl, _⟩
    · exact hex _ _ hp
    · decide
  have hz : z ≠ ' ' ∧ z ≠ '▁' := by
    rcases h with ⟨p, q, _, hq, _⟩ | ⟨_, hq⟩
    · exact hex _ _ hq
    · exact hex _ _ hq
  simp only [List.mem_cons, List.not_mem_nil, or_false, not_or]
  refine ⟨⟨by decide, by decide, by decide, hx.1.symm, hz.1.symm, by decide⟩,
    ⟨by decide, by decide, by decide, hx.2.symm, hz.2.symm, by decide⟩⟩

open Dec Bpe Metaspace in
theorem spells_unsub {P : Char → Prop} (hP : ¬ P '▁') {w : Str} {vs : List Str} (h : Spells P w vs) :
    Spells P (unsub '▁' w) (vs.map (unsub '▁')) := by
  induction h with
  | nil => exact .nil
  | @text x w vs hne hx h ih =>
    have e : unsub '▁' (x ++ w) = unsub '▁' x ++ unsub '▁' w := by simp [unsub]
    rw [e, List.map_cons]
    refine .text (by simpa [unsub] using hne) (fun y hy => ?_) ih
    have hm : '▁' ∉ x := by
      intro hm
      have : ' ' ∈ unsub '▁' x := List.mem_map.2 ⟨'▁', hm, by simp⟩
      exact (byteToken_chars hy).1 this
    rw [unsub_of_not_mem hm] at hy
    exact hx y hy
  | @char c w vs hc h ih =>
    have hne : c ≠ '▁' := fun e => hP (e ▸ hc)
    have e : unsub '▁' (c :: w) = c :: unsub '▁' w := by simp [unsub, hne]
    have e2 : ((strBytes [c]).map byteToken).map (unsub '▁') = (strBytes [c]).map byteToken := by
      rw [List.map_map]
      apply List.map_congr_left
      intro y _
      exact unsub_of_not_mem (byteToken_chars (byteToken_isByteToken y)).2
    rw [e, List.map_append, e2]
    exact .char hc ih

namespace Tokenizer
open AddedVocab Bpe Metaspace

/-- The normalizer of Llama. -/
def llamaNormalizer : Normalizer := .sequence [.prepend ['▁'], .replace (occurrences ' ' 0) ['▁']]

/-- The decoder of Llama. -/
def llamaDecoder : Dec.Decoder :=
  .sequence [.replace (occurrences '▁' 0) [' '], .byteFallback, .fuse, .strip ' ' 1 0]

/-- A tokenizer like Llama's: its normalizer and decoder, no pre-tokenizer, a BPE model with byte fallback that knows `▁` and
all byte tokens, which no merge takes or makes. The tokens dropped by dropout may be any. -/
structure IsLlama (t : Tokenizer) (u : Unicode) (v : CharTables) (b : Bpe.Bpe) (coins : Str → Nat → Bool) : Prop where
  pipeline : IsPipeline t u llamaNormalizer v (.sequence [])
  decoder : t.decoder = some llamaDecoder
  model : ∀ w, t.model w = bpeResult (Bpe.tokenize b (coins w) w)
  view : t.view = bpeView b
  built : Bpe.Built b
  affixes : b.pre = none ∧ b.suf = none
  fallback : b.byteFallback = true
  bytes : ∀ y, b.vocab.get (byteToken y) ≠ none
  mark : b.vocab.get ['▁'] ≠ none
  merges : NoByteMerges b
  ids : ∀ s i, b.vocab.get s = some i → i < b.vocab.length

theorem llama_text (u : Unicode) {s : Str} (hs : s ≠ []) :
    llamaNormalizer.text u s = '▁' :: sub '▁' s := by
  simp only [llamaNormalizer, Normalizer.text, Normalizer.textAll, if_neg hs]
  rw [if_neg (by simp), substitute_char]
  simp [sub]

theorem llama_safe : llamaNormalizer.Safe := by
  simp only [llamaNormalizer, Normalizer.Safe, Normalizer.SafeAll]
  refine ⟨by simp, fun s => ⟨occurrences_matches ' ' s s [] rfl 0 (Nat.le_refl _), fun h => ?_⟩, trivial⟩
  have := occurrences_head ' ' s 0 (0, 0) (List.mem_of_mem_head? (by rw [h]; rfl))
  simp at this

/-- The decoder on tokens that spell `▁` and a text. -/
theorem llama_decode {oc : Bool} {P : Char → Prop} (hP : ¬ P '▁') {w : Str} {vs : List Str} (h : Spells P ('▁' :: w) vs) :
    llamaDecoder.decode oc vs = some (unsub '▁' w) := by
  obtain ⟨out, h1, h2⟩ := C64_fallback (spells_unsub hP h)
  have e : unsub '▁' ('▁' :: w) = ' ' :: unsub '▁' w := by simp [unsub]
  simp only [llamaDecoder, Dec.Decoder.decode, Dec.Decoder.decodeChain, Dec.Decoder.decodeSeq]
  rw [replace_char]
  simp only
  rw [show (fun t : Str => t.map fun x => if x = '▁' then ' ' else x) = unsub '▁' from rfl, h1]
  simp only [Dec.fuse, h2, e]
  simp [Dec.strip, Dec.stripOne, Dec.startCut, Dec.stopCut]

/-- The rows of a single text whose tokens are known. -/
theorem llama_sequence {t : Tokenizer} {u v b coins} (h : IsLlama t u v b coins) (htr : t.settings.truncation = none)
    {s : Str} (hs : s ≠ []) (h1 : ∀ p ∈ t.added.trie, ¬ p.1 <:+: s)
    (h2 : ∀ p ∈ t.added.normTrie, ¬ p.1 <:+: '▁' :: sub '▁' s) :
    ∃ e, ∃ ts : List Token, t.encodeSequence 0 .byte (.raw s) = .ok e ∧ e.WF ∧ e.overflowing = [] ∧ e.ids = ts.map (·.id) ∧
      (∀ x ∈ ts, b.vocab.get x.value = some x.id) ∧
      Spells (fun c => b.vocab.get [c] = none) ('▁' :: sub '▁' s) (ts.map (·.value)) := by
  have hz := llama_text u hs
  obtain ⟨ts, g1, g2, g3⟩ := C64_spells h.built h.affixes.1 h.affixes.2 h.fallback h.bytes h.merges
    (w := '▁' :: sub '▁' s) (fun _ y hy => by
      have := (byteToken_chars hy).2
      simp at this) (coins ('▁' :: sub '▁' s))
  have hno := C58_no_added h.pipeline hs h1 (by rw [hz]; exact h2) 0 (ty := .byte) (by simp) none
  have hcut : ((PreTokenizer.cut v false (.sequence []) (llamaNormalizer.text u s)).filter (· ≠ [])).mapM t.model
      = .ok [ts] := by
    rw [hz]
    simp only [PreTokenizer.cut, PreTokenizer.cutAll]
    rw [List.filter_cons_of_pos (by simp), List.filter_nil, List.mapM_cons, h.model, g1]
    rfl
  rw [hcut] at hno
  obtain ⟨e, e1, e2, e3⟩ := hno
  have hlim : t.limit 0 = none := by unfold limit; rw [htr]
  have e1' : t.encodeSequence 0 .byte (.raw s) = .ok e := by
    show t.encodeText (t.limit 0) 0 .byte none s = _
    rw [hlim]; exact e1
  have hwf := (encodeSequence_wf (lim := t.limit 0) (i := .raw s) e1' hlim).1
  refine ⟨e, ts, e1', hwf, e2, ?_, g2, g3⟩
  rw [(rows_unzip hwf.parallel).1]
  have := congrArg (List.map Prod.fst) e3
  rw [List.map_map] at this
  rw [show (Prod.fst ∘ Row.bare) = fun r : Encoding.Row => r.1 from rfl] at this
  rw [this]
  simp [unitRows]

theorem carved_nil {pats : List (Str × Nat)} (hne : ∀ p ∈ pats, p.1 ≠ []) {s : Str} {ps : List (Option Nat × Str)}
    (hs : s = []) (h : Carved pats s ps) : ps = [] := by
  cases h with
  | done _ => subst hs; rfl
  | hit hm =>
    simp at hs
    exact absurd hs.2.1 (hne _ hm)

/-- Without text there are no tokens. -/
theorem llama_empty {t : Tokenizer} {u v b coins} (h : IsLlama t u v b coins) (htr : t.settings.truncation = none) :
    ∃ e, t.encodeSequence 0 .byte (.raw []) = .ok e ∧ e.WF ∧ e.overflowing = [] ∧ e.ids = [] := by
  obtain ⟨C1, C2, hC1, _, he⟩ := C58_encode h.pipeline
  have hno := he [] 0 .byte none (by simp)
  have hc : C1 [] = [] := carved_nil (fun p hp => (h.pipeline.tries p (by simp [hp])).1) rfl (hC1 [])
  have hu : units v (.sequence []) (extracted u llamaNormalizer C1 C2 []) = [] := by
    rw [extracted, hc]; rfl
  rw [hu] at hno
  obtain ⟨e, e1, e2, e3⟩ := hno
  have hlim : t.limit 0 = none := by unfold limit; rw [htr]
  have e1' : t.encodeSequence 0 .byte (.raw []) = .ok e := by
    show t.encodeText (t.limit 0) 0 .byte none [] = _
    rw [hlim]; exact e1
  have hwf := (encodeSequence_wf (lim := t.limit 0) (i := .raw []) e1' hlim).1
  refine ⟨e, e1', hwf, e2, ?_⟩
  rw [(rows_unzip hwf.parallel).1]
  have : e.rows = [] := List.map_eq_nil_iff.1 (by rw [e3]; rfl)
  rw [this]; rfl

/-! ### Post-processing that adds special tokens around -/

/-- The settings that add nothing but special tokens around the text: no truncation, no padding; no post-processor, the
byte-level one, a template with the text once, or Bert's or Roberta's post-processor. -/
def Surrounds (s : Post.Settings) (special : Nat → Prop) : Prop :=
  s.truncation = none ∧ s.padding = none ∧
    ((s.processor = none ∨ ∃ aps trim, s.processor = some (.byteLevel aps trim)) ∨
      (∃ tm as ty bs, s.processor = some (.template tm) ∧ tm.single = as ++ Post.Piece.sequence .A ty :: bs ∧
        ∀ p ∈ as ++ bs, ∃ id ty tok, p = .special id ty ∧ tm.specials.get id = some tok ∧
          tok.ids.length = tok.tokens.length ∧ ∀ i ∈ tok.ids, special i) ∨
      ∃ m : Post.Marks, (s.processor = some (.bert m) ∨ ∃ trim aps, s.processor = some (.roberta m trim aps)) ∧
        special m.cls.2 ∧ special m.sep.2)

/-- The ids put before and after those of the text: the same for all texts. -/
theorem surrounds_uniform {s : Post.Settings} {special : Nat → Prop} (h : Surrounds s special) (ws : Char → Bool)
    (checked add : Bool) :
    ∃ pre post, (∀ i ∈ pre ++ post, special i) ∧ (add = false → pre ++ post = []) ∧
      ∀ e : Encoding, e.WF → e.seqRanges = [] → e.overflowing = [] →
        ∃ out, s.postProcess ws checked e none add = .ok out ∧ out.ids = pre ++ e.ids ++ post := by
  obtain ⟨h1, h2, h3⟩ := h
  rcases h3 with h3 | ⟨tm, as, ty, bs, h3, h4, h5⟩ | ⟨m, h3, h4, h5⟩
  · refine ⟨[], [], by simp, by simp, fun e _ _ _ => ?_⟩
    obtain ⟨out, o1, o2⟩ := untouched_ids ⟨h1, h2, h3⟩ ws checked add e
    exact ⟨out, o1, by simpa using o2⟩
  · let ids (l : List Post.Piece) : List Nat := (l.flatMap (Post.pieceRows tm.specials add Encoding.empty none)).map (·.1)
    have hids : ∀ l : List Post.Piece, (∀ p ∈ l, p ∈ as ++ bs) →
        (∀ i ∈ ids l, special i) ∧ (add = false → ids l = []) ∧
          ∀ e, (l.flatMap (Post.pieceRows tm.specials add e none)).map (·.1) = ids l := by
      intro l hl
      refine ⟨?_, ?_, ?_⟩
      · intro i hi
        obtain ⟨r, hr, rfl⟩ := List.mem_map.1 hi
        obtain ⟨p, hp, hr⟩ := List.mem_flatMap.1 hr
        obtain ⟨id, ty', tok, rfl, k1, _, k3⟩ := h5 p (hl p hp)
        simp only [Post.pieceRows, k1, Option.elim] at hr
        split at hr
        · obtain ⟨q, hq, rfl⟩ := List.mem_map.1 hr
          exact k3 _ (List.of_mem_zip hq).1
        · simp at hr
      · intro ha
        simp only [ids, List.map_eq_nil_iff, List.flatMap_eq_nil_iff]
        intro p hp
        obtain ⟨id, ty', tok, rfl, _⟩ := h5 p (hl p hp)
        simp [Post.pieceRows, ha]
      · intro e
        simp only [ids, List.flatMap_def]
        congr 2
        apply List.map_congr_left
        intro p hp
        obtain ⟨id, ty', tok, rfl, _⟩ := h5 p (hl p hp)
        rfl
    refine ⟨ids as, ids bs, ?_, ?_, fun e he hr ho => ?_⟩
    · intro i hi
      rcases List.mem_append.1 hi with hi | hi
      · exact (hids as (by simp +contextual)).1 i hi
      · exact (hids bs (by simp +contextual)).1 i hi
    · intro ha
      rw [(hids as (by simp +contextual)).2.1 ha, (hids bs (by simp +contextual)).2.1 ha]; rfl
    have hu : ∀ p ∈ tm.chosen (none : Option Encoding).isSome, Post.Usable tm.specials add false p := by
      intro p hp
      change p ∈ tm.single at hp
      rw [h4] at hp
      rcases List.mem_append.1 hp with hp | hp
      · obtain ⟨id, ty', tok, rfl, g1, g2, _⟩ := h5 p (by simp [hp])
        exact fun _ => ⟨tok, g1, g2⟩
      · rcases List.mem_cons.1 hp with rfl | hp
        · trivial
        · obtain ⟨id, ty', tok, rfl, g1, g2, _⟩ := h5 p (by simp [hp])
          exact fun _ => ⟨tok, g1, g2⟩
    obtain ⟨os, g0, _, _, g3, _, g5⟩ := Post.template_ok he ⟨hr, by simp [ho]⟩ (pair := none) (by simp)
      (tm.chosen (none : Option Encoding).isSome) hu
    have hw : ∀ d ∈ os.filterMap id, d.WF := fun d hd => (g5 d hd).1
    refine ⟨Encoding.merge (os.filterMap id) false, ?_, ?_⟩
    · unfold Post.Settings.postProcess Post.Settings.truncate Post.Settings.finish Post.Settings.padOne
      rw [h1, h2, h3]
      simp only
      rw [Post.template_process, g0]; rfl
    · rw [(rows_unzip (Encoding.merge_wf hw false).parallel).1, C05_merge_list hw, g3]
      show (tm.single.flatMap _).map _ = _
      rw [h4, List.flatMap_append, List.flatMap_cons, List.map_append, List.map_append, ← List.append_assoc,
        (hids as (by simp +contextual)).2.2 e, (hids bs (by simp +contextual)).2.2 e]
      congr 2
      simp only [Post.pieceRows, Post.inputOf, Option.elim, List.map_map]
      rw [(rows_unzip he.parallel).1]
      exact List.map_congr_left fun r _ => rfl
  · have hmem : ∀ i ∈ (if add then [m.cls.2] else []) ++ (if add then [m.sep.2] else []), special i := by
      cases add <;> simp [h4, h5]
    refine ⟨if add then [m.cls.2] else [], if add then [m.sep.2] else [], hmem, fun ha => by simp [ha], fun e _ _ _ => ?_⟩
    unfold Post.Settings.postProcess Post.Settings.truncate Post.Settings.finish Post.Settings.padOne
    rw [h1, h2]
    rcases h3 with h3 | ⟨trim, aps, h3⟩
    · rw [h3]
      refine ⟨_, rfl, ?_⟩
      cases add
      · simp [Post.bertProcess, merge_one_ids, prepare_ids]
      · have : ∀ e : Encoding, (Post.bertFirst m e).ids = m.cls.2 :: (e.ids ++ [m.sep.2]) := fun e => rfl
        simp [Post.bertProcess, Post.mapFirst, merge_one_ids, prepare_ids, this]
    · rw [h3]
      refine ⟨_, rfl, ?_⟩
      have hf : ∀ e : Encoding, (Post.robertaFirst m e).ids = m.cls.2 :: (e.ids ++ [m.sep.2]) := fun e => rfl
      have ht : ∀ (e : Encoding) l, (e.setTypeIds l).ids = e.ids := fun e l => by cases e; rfl
      have hx : ∀ e : Encoding, (Post.trimAll ws aps e).ids = e.ids := fun e => by
        simp [Post.trimAll, withOverflowing_ids, processOffsets_ids]
      cases add <;> cases trim <;>
        simp [Post.robertaProcess, Post.mapFirst, merge_one_ids, prepare_ids, hf, ht, hx]

theorem surrounds_ids {s : Post.Settings} {special : Nat → Prop} (h : Surrounds s special) (ws : Char → Bool)
    (checked add : Bool) {e : Encoding} (he : e.WF) (hr : e.seqRanges = []) (ho : e.overflowing = []) :
    ∃ out pre post, s.postProcess ws checked e none add = .ok out ∧ out.ids = pre ++ e.ids ++ post ∧
      (∀ i ∈ pre ++ post, special i) ∧ (add = false → pre ++ post = []) := by
  obtain ⟨pre, post, h1, h2, h3⟩ := surrounds_uniform h ws checked add
  obtain ⟨out, h4, h5⟩ := h3 e he hr ho
  exact ⟨out, pre, post, h4, h5, h1, h2⟩

/-! ### Decoding what was encoded -/

theorem spells_values {P : Char → Prop} {w : Str} {vs : List Str} (h : Spells P w vs) :
    ∀ x ∈ vs, (∃ y, x = byteToken y) ∨ x <:+: w := by
  induction h with
  | nil => simp
  | @text x w vs _ _ _ ih =>
    intro y hy
    rcases List.mem_cons.1 hy with rfl | hy
    · exact .inr ⟨[], w, by simp⟩
    · rcases ih y hy with h | ⟨l, r, h⟩
      · exact .inl h
      · exact .inr ⟨x ++ l, r, by rw [← h]; simp⟩
  | @char c w vs _ _ ih =>
    intro y hy
    rcases List.mem_append.1 hy with hy | hy
    · obtain ⟨z, _, rfl⟩ := List.mem_map.1 hy
      exact .inl ⟨z, rfl⟩
    · rcases ih y hy with h | ⟨l, r, h⟩
      · exact .inl h
      · exact .inr ⟨c :: l, r, by rw [← h]; simp⟩

theorem unsub_sub_all (s : Str) : unsub '▁' (sub '▁' s) = unsub '▁' s := by
  unfold unsub sub
  rw [List.map_map]
  apply List.map_congr_left
  intro c _
  simp only [Function.comp_apply]
  by_cases h : c = ' '
  · simp [h]
  · rw [if_neg h]

/-- The id of an added token that is special. -/
def IsSpecialId (av : AddedVocab) (i : Nat) : Prop := ∃ x, av.rmap.get i = some x ∧ x.special = true

theorem decodeTokens_special {m : ModelView} {av : AddedVocab} (hi : Inv m av) (hc : av.cache = []) {l : List Nat}
    (h : ∀ i ∈ l, IsSpecialId av i) : decodeTokens m av true l = [] := by
  unfold decodeTokens
  rw [List.filterMap_eq_nil_iff]
  intro i hil
  obtain ⟨x, h1, h2⟩ := h i hil
  have : (av.simpleIdToToken i).or (m.toToken i) = some x.content :=
    shows_iff.1 (.plain h1 (by rw [hc]; rfl))
  rw [this]
  simp [hi.flagged i x h1 h2]

theorem decodeTokens_plain {m : ModelView} {av : AddedVocab} (skip : Bool) : ∀ (l : List Token),
    (∀ x ∈ l, Shows m av x.id x.value ∧ x.value ∉ av.specials) →
      decodeTokens m av skip (l.map (·.id)) = l.map (·.value)
  | [], _ => rfl
  | x :: l, h => by
    have ih := decodeTokens_plain skip l fun y hy => h y (by simp [hy])
    obtain ⟨h1, h2⟩ := h x (by simp)
    unfold decodeTokens at ih ⊢
    have hf : (some x.value).filter (fun t => !skip || !av.specials.contains t) = some x.value :=
      Option.filter_eq_some_iff.2 ⟨rfl, by simp [h2]⟩
    rw [List.map_cons, List.filterMap_cons, shows_iff.1 h1, ih, hf]; rfl

/-- The tokens that decoding finds in an encoded text: they spell it, with a mark in front. -/
theorem llama_tokens {t : Tokenizer} {u v b coins} (h : IsLlama t u v b coins)
    {build : List (Str × Nat) → Bool} {ops : List Op} (hav : t.added = after build (bpeView b) empty ops)
    (hraw : ∀ x ∈ tokensOf ops, x.normalized = false) (hbyte : ∀ x ∈ tokensOf ops, ∀ y, x.content ≠ byteToken y)
    (hset : Surrounds t.settings (IsSpecialId t.added)) {s : Str}
    (hfree : ∀ x ∈ tokensOf ops, ¬ x.content <:+: s ∧ ¬ x.content <:+: '▁' :: sub '▁' s)
    {add skip : Bool} (hskip : add = true → skip = true) :
    ∃ e vs, t.encode (.raw s, none) add = .ok e ∧ decodeTokens t.view t.added skip e.ids = vs ∧
      ((s = [] ∧ vs = []) ∨ Spells (fun c => b.vocab.get [c] = none) ('▁' :: sub '▁' s) vs) := by
  have hm : (bpeView b).Ok := ⟨h.ids, fun c i => Bpe.C46_bpe_vocab_inverse h.built c i⟩
  have hinv : Inv (bpeView b) t.added := hav ▸ (after_inv hm build ops (inv_empty _)).1
  have hclean : Clean (tokensOf ops) t.added := by
    rw [hav]
    exact after_clean hm build ops (fun _ h => h) (.inr hraw) (inv_empty _)
      ⟨rfl, by simp [empty, AMap.get], by simp [empty]⟩
  have htr := hset.1
  have hlim : t.limit 0 = none := by unfold limit; rw [htr]
  -- the tokens of the text
  have key : ∃ e, ∃ ts : List Token, t.encodeSequence 0 .byte (.raw s) = .ok e ∧ e.overflowing = [] ∧
      e.ids = ts.map (·.id) ∧ (∀ x ∈ ts, b.vocab.get x.value = some x.id ∧ x.value ∉ t.added.specials) ∧
      ((s = [] ∧ ts.map (·.value) = []) ∨ Spells (fun c => b.vocab.get [c] = none) ('▁' :: sub '▁' s) (ts.map (·.value))) := by
    by_cases hs : s = []
    · subst hs
      obtain ⟨e, e1, _, e2, e3⟩ := llama_empty h htr
      exact ⟨e, [], e1, e2, by rw [e3]; rfl, by simp, .inl ⟨rfl, rfl⟩⟩
    · have hpat : ∀ p ∈ t.added.trie ++ t.added.normTrie, ∃ x ∈ tokensOf ops, x.content = p.1 := by
        intro p hp
        obtain ⟨x, x1, x2⟩ := hclean.pattern p.1 p.2 hp
        exact ⟨x, hclean.token _ _ x1, x2⟩
      obtain ⟨e, ts, e1, _, e2, e3, e4, e5⟩ := llama_sequence h htr hs
        (fun p hp => by
          obtain ⟨x, x1, x2⟩ := hpat p (by simp [hp])
          exact x2 ▸ (hfree x x1).1)
        (fun p hp => by
          obtain ⟨x, x1, x2⟩ := hpat p (by simp [hp])
          exact x2 ▸ (hfree x x1).2)
      refine ⟨e, ts, e1, e2, e3, fun x hx => ⟨e4 x hx, fun hsp => ?_⟩, ?_⟩
      · obtain ⟨i, hi⟩ := hinv.special _ hsp
        obtain ⟨tk, k1, k2⟩ := (hinv.inverse _ i).1 hi
        have hT := hclean.token _ _ k1
        rcases spells_values e5 x.value (List.mem_map_of_mem hx) with ⟨y, hy⟩ | hin
        · exact hbyte tk hT y (k2.trans hy)
        · exact (hfree tk hT).2 (k2 ▸ hin)
      · exact .inr e5
  obtain ⟨e, ts, e1, e2, e3, e4, e5⟩ := key
  obtain ⟨hwf, hsr⟩ := encodeSequence_wf (lim := t.limit 0) (i := .raw s) e1 hlim
  obtain ⟨out, pre, post, o1, o2, o3, o4⟩ := surrounds_ids hset t.ws t.checked add hwf hsr e2
  refine ⟨out, ts.map (·.value), ?_, ?_, e5⟩
  · show (t.encodeSequence 0 .byte (.raw s)).bind _ = _
    rw [e1]
    show mapErr EncErr.post (t.settings.postProcess t.ws t.checked e none add) = _
    rw [o1]; rfl
  · have hdec : decodeTokens (bpeView b) t.added skip out.ids = ts.map (·.value) := by
      have hts := decodeTokens_plain (m := bpeView b) (av := t.added) skip ts fun x hx =>
        ⟨shows_model hm hinv hclean (e4 x hx).1, (e4 x hx).2⟩
      have hside : ∀ l, (∀ i ∈ l, i ∈ pre ++ post) → decodeTokens (bpeView b) t.added skip l = [] := by
        intro l hl
        cases ha : add with
        | true =>
          rw [hskip ha]
          exact decodeTokens_special hinv hclean.cache fun i hi => o3 i (hl i hi)
        | false =>
          have : l = [] := by
            cases l with
            | nil => rfl
            | cons i l => have := hl i (by simp); rw [o4 ha] at this; cases this
          rw [this]; rfl
      have hsplit : ∀ l l' : List Nat, decodeTokens (bpeView b) t.added skip (l ++ l') =
          decodeTokens (bpeView b) t.added skip l ++ decodeTokens (bpeView b) t.added skip l' := by
        intro l l'; simp [decodeTokens]
      rw [o2, hsplit, hsplit, hside pre (by simp +contextual), hside post (by simp +contextual), e3, hts]
      simp
    rw [h.view]; exact hdec

/-- C64: a tokenizer like Llama's decodes what it encoded to the text itself, but for `▁`, which comes back as a space:
whatever the characters of the text, known to the vocabulary or not. Special tokens that a template puts around the text
are to be skipped when decoding. No added token occurs in the text, before or after normalization; none is to be looked for in
normalized form, none is a byte token. -/
theorem C64_text {t : Tokenizer} {u v b coins} (h : IsLlama t u v b coins)
    {build : List (Str × Nat) → Bool} {ops : List Op} (hav : t.added = after build (bpeView b) empty ops)
    (hraw : ∀ x ∈ tokensOf ops, x.normalized = false) (hbyte : ∀ x ∈ tokensOf ops, ∀ y, x.content ≠ byteToken y)
    (hset : Surrounds t.settings (IsSpecialId t.added)) {s : Str}
    (hfree : ∀ x ∈ tokensOf ops, ¬ x.content <:+: s ∧ ¬ x.content <:+: '▁' :: sub '▁' s)
    {add skip : Bool} (hskip : add = true → skip = true) :
    ∃ e, t.encode (.raw s, none) add = .ok e ∧ t.decode skip e.ids = some (unsub '▁' s) := by
  obtain ⟨e, vs, h1, h2, h3⟩ := llama_tokens h hav hraw hbyte hset hfree hskip
  refine ⟨e, h1, ?_⟩
  unfold decode AddedVocab.decode
  rw [h.decoder, h2]
  rcases h3 with ⟨rfl, rfl⟩ | h3
  · rfl
  · show llamaDecoder.decode _ _ = _
    rw [llama_decode (fun hc => h.mark hc) h3, unsub_sub_all]

/-- C64: the text comes back as it was exactly if it has no `▁`. -/
theorem C64_lossless {t : Tokenizer} {u v b coins} (h : IsLlama t u v b coins)
    {build : List (Str × Nat) → Bool} {ops : List Op} (hav : t.added = after build (bpeView b) empty ops)
    (hraw : ∀ x ∈ tokensOf ops, x.normalized = false) (hbyte : ∀ x ∈ tokensOf ops, ∀ y, x.content ≠ byteToken y)
    (hset : Surrounds t.settings (IsSpecialId t.added)) {s : Str}
    (hfree : ∀ x ∈ tokensOf ops, ¬ x.content <:+: s ∧ ¬ x.content <:+: '▁' :: sub '▁' s)
    {add skip : Bool} (hskip : add = true → skip = true) :
    ∃ e, t.encode (.raw s, none) add = .ok e ∧ (t.decode skip e.ids = some s ↔ '▁' ∉ s) := by
  obtain ⟨e, h1, h2⟩ := C64_text h hav hraw hbyte hset hfree hskip
  refine ⟨e, h1, ?_⟩
  rw [h2]
  constructor
  · intro he hm
    have he := Option.some.inj he
    rw [← he] at hm
    obtain ⟨c, _, hc⟩ := List.mem_map.1 hm
    split at hc
    · cases hc
    · rename_i hne; exact hne hc
  · intro hm; rw [unsub_of_not_mem hm]

end Tokenizer
end Tok
