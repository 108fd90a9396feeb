import Verif.Tokenizer.Llama
import Verif.Tokenizer.Offsets

/-!
# C69: tokenizers with `Metaspace`, like those of XLM-R or T5, give the normalized text back

`encode` followed by `decode`, for any normalizer, any model that spells the words it knows, and special tokens around.
-/

namespace Tok
open Encoding AddedVocab PreTokenizer Metaspace

/-! ## The words of `Metaspace` -/

theorem marked_shape (r : Char) : ∀ s : Str,
    (∀ x ∈ marked (· == r) s, x.2 = true → x.1 = [r]) ∧ (∀ x ∈ marked (· == r) s, x.2 = false → r ∉ x.1)
  | [] => by simp [marked]
  | c :: s => by
    obtain ⟨h1, h2⟩ := marked_shape r s
    rw [marked]
    by_cases hc : c = r
    · subst hc
      simp only [beq_self_eq_true, if_true]
      refine ⟨fun x hx ht => ?_, fun x hx hf => ?_⟩
      · rcases List.mem_cons.1 hx with rfl | hx
        · rfl
        · exact h1 x hx ht
      · rcases List.mem_cons.1 hx with rfl | hx
        · cases hf
        · exact h2 x hx hf
    · rw [if_neg (by simpa using hc)]
      split
      · rename_i t l he
        rw [he] at h1 h2
        refine ⟨fun x hx ht => ?_, fun x hx hf => ?_⟩
        · rcases List.mem_cons.1 hx with rfl | hx
          · cases ht
          · exact h1 x (by simp [hx]) ht
        · rcases List.mem_cons.1 hx with rfl | hx
          · have := h2 (t, false) (by simp) rfl
            simp only [List.mem_cons, not_or]
            exact ⟨fun e => hc e.symm, this⟩
          · exact h2 x (by simp [hx]) hf
      · refine ⟨fun x hx ht => ?_, fun x hx hf => ?_⟩
        · rcases List.mem_cons.1 hx with rfl | hx
          · cases ht
          · exact h1 x hx ht
        · rcases List.mem_cons.1 hx with rfl | hx
          · simpa using fun e => hc e.symm
          · exact h2 x hx hf

/-- The words: together the text of Metaspace; the replacement only at their beginning. -/
theorem meta_words (v : CharTables) (first : Bool) (r : Char) (sch : Scheme) (s : Str) :
    ((cut v first (.metaspace ⟨r, sch, true⟩) s).filter (· ≠ [])).flatten = metaText ⟨r, sch, true⟩ first s ∧
    ∀ w ∈ (cut v first (.metaspace ⟨r, sch, true⟩) s).filter (· ≠ []), w ≠ [] ∧ r ∉ w.tail ∧
      w <:+: metaText ⟨r, sch, true⟩ first s := by
  have hf : ∀ l : List Str, (l.filter (· ≠ [])).flatten = l.flatten := by
    intro l
    induction l with
    | nil => rfl
    | cons w l ih =>
      by_cases hw : w = []
      · subst hw; simpa using ih
      · rw [List.filter_cons_of_pos (by simpa using hw), List.flatten_cons, ih, List.flatten_cons]
  have hin : ∀ (l : List Str), ∀ w ∈ l, w <:+: l.flatten := by
    intro l w hw
    obtain ⟨a, b, rfl⟩ := List.append_of_mem hw
    exact ⟨a.flatten, b.flatten, by simp⟩
  simp only [cut, if_true]
  obtain ⟨h1, h2⟩ := marked_shape r (metaText ⟨r, sch, true⟩ first s)
  have ht : (NS.kept .mergedWithNext (marked (· == r) (metaText ⟨r, sch, true⟩ first s))).flatten =
      metaText ⟨r, sch, true⟩ first s := by
    show (NS.joinNext _).flatten = _
    rw [NS.joinNext_flatten, marked_text]
  refine ⟨by rw [hf, ht], fun w hw => ?_⟩
  obtain ⟨hw, hne⟩ := List.mem_filter.1 hw
  refine ⟨by simpa using hne, joinNext_shape _ h1 h2 w hw, ?_⟩
  have := hin _ w hw
  rwa [ht] at this

/-- Replacing the replacement by a space first makes no difference. -/
theorem sub_unsub {r : Char} (s : Str) : sub r (unsub r s) = sub r s := by
  unfold sub unsub
  rw [List.map_map]
  apply List.map_congr_left
  intro c _
  simp only [Function.comp_apply]
  by_cases h : c = r
  · subst h; simp
  · rw [if_neg h]

theorem metaText_unsub (cfg : Config) (first : Bool) (s : Str) :
    metaText cfg first (unsub cfg.replacement s) = metaText cfg first s := by
  unfold metaText; simp only [sub_unsub]

theorem not_mem_unsub {r : Char} (hr : r ≠ ' ') (s : Str) : r ∉ unsub r s := by
  intro h
  obtain ⟨c, _, hc⟩ := List.mem_map.1 h
  split at hc
  · exact hr hc.symm
  · rename_i hne; exact hne hc

/-- The decoder on tokens that spell the text of Metaspace, the first of them within the first word. -/
theorem meta_decode {r : Char} (hr : r ≠ ' ') {sch : Scheme} (hsch : sch ≠ .first) (first : Bool) (s : Str) {toks : List Str}
    (h : toks.flatten = metaText ⟨r, sch, true⟩ first s) (hf : ∀ t ∈ toks.head?, t ≠ [] ∧ r ∉ t.tail) :
    (Metaspace.decodeChain r sch toks).flatten = restored sch (unsub r s) := by
  obtain ⟨p', h1, h2⟩ := C31_roundtrip_partial ⟨r, sch, true⟩ (unsub r s) (not_mem_unsub hr s)
  obtain ⟨p'', g1, g2, _⟩ := ofStr_result ⟨r, sch, true⟩ (unsub r s)
  rw [h1] at g1; cases g1
  refine h2 toks ?_ (fun _ => hf)
  rw [h, g2, show r = (⟨r, sch, true⟩ : Config).replacement from rfl, metaText_unsub]
  unfold metaText; simp [hsch]

namespace Tokenizer

/-! ## Encoding and decoding around a model -/

/-- The model spells every word that satisfies `P`: its tokens are entries of the vocabulary, put together the word. -/
def Faithful (t : Tokenizer) (P : Str → Prop) : Prop := ∀ w, w ≠ [] → P w → ∃ ts, t.model w = .ok ts ∧
  (ts.map (·.value)).flatten = w ∧ ∀ x ∈ ts, x.value ≠ [] ∧ t.view.toId x.value = some x.id

theorem Faithful.words {t : Tokenizer} {P : Str → Prop} (h : Faithful t P) : ∀ ws : List Str,
    (∀ w ∈ ws, w ≠ [] ∧ P w) → ∃ tss, ws.mapM t.model = .ok tss ∧
      tss.map (fun ts => (ts.map (·.value)).flatten) = ws ∧
      ∀ ts ∈ tss, ∀ x ∈ ts, x.value ≠ [] ∧ t.view.toId x.value = some x.id
  | [], _ => ⟨[], rfl, rfl, by simp⟩
  | w :: ws, hw => by
    obtain ⟨tss, h1, h2, h3⟩ := Faithful.words h ws fun x hx => hw x (by simp [hx])
    obtain ⟨ts, g1, g2, g3⟩ := h w (hw w (by simp)).1 (hw w (by simp)).2
    refine ⟨ts :: tss, by rw [List.mapM_cons, g1, h1]; rfl, by simp [g2, h2], fun x hx => ?_⟩
    rcases List.mem_cons.1 hx with rfl | hx
    · exact g3
    · exact h3 x hx

/-- From the ids of a text to what decoding the encoding gives: special tokens around are skipped. -/
theorem around_ids {t : Tokenizer} (hinv : Inv t.view t.added) (hcache : t.added.cache = [])
    (hset : Surrounds t.settings (IsSpecialId t.added)) {s d : Str} {e : Encoding} {dec : Dec.Decoder}
    (hd : t.decoder = some dec) (e1 : t.encodeSequence 0 .byte (.raw s) = .ok e) (e2 : e.overflowing = [])
    {add skip : Bool} (e5 : dec.decode t.checked (decodeTokens t.view t.added skip e.ids) = some d)
    (hskip : add = true → skip = true) :
    ∃ e, t.encode (.raw s, none) add = .ok e ∧ t.decode skip e.ids = some d := by
  have hlim : t.limit 0 = none := by unfold limit; rw [hset.1]
  obtain ⟨hwf, hsr⟩ := encodeSequence_wf (lim := t.limit 0) (i := .raw s) e1 hlim
  obtain ⟨out, pre, post, o1, o2, o3, o4⟩ := surrounds_ids hset t.ws t.checked add hwf hsr e2
  refine ⟨out, ?_, ?_⟩
  · show (t.encodeSequence 0 .byte (.raw s)).bind _ = _
    rw [e1]
    show mapErr EncErr.post (t.settings.postProcess t.ws t.checked e none add) = _
    rw [o1]; rfl
  · have hdec : decodeTokens t.view t.added skip out.ids = decodeTokens t.view t.added skip e.ids := by
      have hside : ∀ l, (∀ i ∈ l, i ∈ pre ++ post) → decodeTokens t.view t.added skip l = [] := by
        intro l hl
        cases ha : add with
        | true =>
          rw [hskip ha]
          exact decodeTokens_special hinv hcache fun i hi => o3 i (hl i hi)
        | false =>
          have : l = [] := by
            cases l with
            | nil => rfl
            | cons i l => have := hl i (by simp); rw [o4 ha] at this; cases this
          rw [this]; rfl
      have hsplit : ∀ l l' : List Nat, decodeTokens t.view t.added skip (l ++ l') =
          decodeTokens t.view t.added skip l ++ decodeTokens t.view t.added skip l' := by
        intro l l'; simp [decodeTokens]
      rw [o2, hsplit, hsplit, hside pre (by simp +contextual), hside post (by simp +contextual)]
      simp
    unfold decode AddedVocab.decode
    rw [hd, hdec]
    exact e5

/-- The same for tokens of the model none of which is special. -/
theorem around {t : Tokenizer} (hm : t.view.Ok) {T : List AddedToken} (hinv : Inv t.view t.added)
    (hclean : Clean T t.added) (hset : Surrounds t.settings (IsSpecialId t.added)) {s d : Str}
    {e : Encoding} {ts : List Token} {dec : Dec.Decoder} (hd : t.decoder = some dec)
    (e1 : t.encodeSequence 0 .byte (.raw s) = .ok e) (e2 : e.overflowing = []) (e3 : e.ids = ts.map (·.id))
    (e4 : ∀ x ∈ ts, t.view.toId x.value = some x.id ∧ x.value ∉ t.added.specials)
    (e5 : dec.decode t.checked (ts.map (·.value)) = some d)
    {add skip : Bool} (hskip : add = true → skip = true) :
    ∃ e, t.encode (.raw s, none) add = .ok e ∧ t.decode skip e.ids = some d := by
  refine around_ids hinv hclean.cache hset hd e1 e2 ?_ hskip
  rw [e3, decodeTokens_plain (m := t.view) (av := t.added) skip ts fun x hx =>
    ⟨shows_model hm hinv hclean (e4 x hx).1, (e4 x hx).2⟩]
  exact e5

/-- The tokens of a text in which no added token occurs. -/
theorem pipeline_tokens {t : Tokenizer} {u : Unicode} {z : Normalizer} {v : CharTables} {y : PreTokenizer}
    (h : IsPipeline t u z v y) (htr : t.settings.truncation = none) {s : Str} (hs : s ≠ [])
    (h1 : ∀ p ∈ t.added.trie, ¬ p.1 <:+: s) (h2 : ∀ p ∈ t.added.normTrie, ¬ p.1 <:+: z.text u s)
    {tss : List (List Token)} (hw : ((cut v false y (z.text u s)).filter (· ≠ [])).mapM t.model = .ok tss) :
    ∃ e, t.encodeSequence 0 .byte (.raw s) = .ok e ∧ e.overflowing = [] ∧ e.ids = tss.flatten.map (·.id) := by
  have hno := C58_no_added h hs h1 h2 0 (ty := .byte) (by simp) none
  rw [hw] at hno
  obtain ⟨e, e1, e2, e3⟩ := hno
  have hlim : t.limit 0 = none := by unfold limit; rw [htr]
  have e1' : t.encodeSequence 0 .byte (.raw s) = .ok e := by
    show t.encodeText (t.limit 0) 0 .byte none s = _
    rw [hlim]; exact e1
  have hwf := (encodeSequence_wf (lim := t.limit 0) (i := .raw s) e1' hlim).1
  refine ⟨e, e1', e2, ?_⟩
  rw [(rows_unzip hwf.parallel).1]
  have := congrArg (List.map Prod.fst) e3
  rw [List.map_map] at this
  rw [show (Prod.fst ∘ Row.bare) = fun r : Encoding.Row => r.1 from rfl] at this
  rw [this]
  unfold unitRows
  clear this e3 hw
  have : ∀ (tss : List (List Token)) (n : Nat), ((tss.zipIdx n).flatMap fun x =>
      x.1.map fun tok => (tok.id, 0, tok.value, some ((none : Option Nat).getD x.2), 0, 1)).map Prod.fst =
        tss.flatten.map (·.id) := by
    intro tss
    induction tss with
    | nil => intro _; rfl
    | cons ts tss ih =>
      intro n
      rw [List.zipIdx_cons, List.flatMap_cons, List.map_append, ih]
      simp [Function.comp_def]
  exact this tss 0

/-- The encoding of no text. -/
theorem pipeline_empty {t : Tokenizer} {u : Unicode} {z : Normalizer} {v : CharTables} {y : PreTokenizer}
    (h : IsPipeline t u z v y) (htr : t.settings.truncation = none) :
    ∃ e, t.encodeSequence 0 .byte (.raw []) = .ok e ∧ e.overflowing = [] ∧ e.ids = [] := by
  obtain ⟨C1, C2, hC1, _, he⟩ := C58_encode h
  have hno := he [] 0 .byte none (by simp)
  have hc : C1 [] = [] := carved_nil (fun p hp => (h.tries p (by simp [hp])).1) rfl (hC1 [])
  have hu : units v y (extracted u z C1 C2 []) = [] := by
    rw [extracted, hc]; rfl
  rw [hu] at hno
  obtain ⟨e, e1, e2, e3⟩ := hno
  have hlim : t.limit 0 = none := by unfold limit; rw [htr]
  have e1' : t.encodeSequence 0 .byte (.raw []) = .ok e := by
    show t.encodeText (t.limit 0) 0 .byte none [] = _
    rw [hlim]; exact e1
  have hwf := (encodeSequence_wf (lim := t.limit 0) (i := .raw []) e1' hlim).1
  refine ⟨e, e1', e2, ?_⟩
  rw [(rows_unzip hwf.parallel).1]
  have : e.rows = [] := List.map_eq_nil_iff.1 (by rw [e3]; rfl)
  rw [this]; rfl

/-! ## C69 -/

/-- A tokenizer with Metaspace: its pre-tokenizer cuts words, its decoder has the same settings; any normalizer. The ids of the
model belong to one token each. -/
structure IsMeta (t : Tokenizer) (u : Unicode) (z : Normalizer) (v : CharTables) (r : Char) (sch : Scheme) : Prop where
  pipeline : IsPipeline t u z v (.metaspace ⟨r, sch, true⟩)
  decoder : t.decoder = some (.metaspace r sch)
  view : t.view.Ok
  mark : r ≠ ' '

/-- **C69.** What was encoded is decoded to the normalized text, in which the replacement reads as a space, and without the space
it begins with, if one is prepended. No added token occurs in the text, before or after normalization, nor in what Metaspace
makes of it; none is looked for in normalized form. -/
theorem C69_text {t : Tokenizer} {u z v r sch} (h : IsMeta t u z v r sch) {P : Str → Prop} (hP : Faithful t P)
    {build : List (Str × Nat) → Bool} {ops : List Op} (hav : t.added = after build t.view empty ops)
    (hraw : ∀ x ∈ tokensOf ops, x.normalized = false) (hset : Surrounds t.settings (IsSpecialId t.added)) {s : Str}
    (hs : s ≠ []) (hw : ∀ w, w <:+: metaText ⟨r, sch, true⟩ false (z.text u s) → P w)
    (hfree : ∀ x ∈ tokensOf ops, ¬ x.content <:+: s ∧ ¬ x.content <:+: z.text u s ∧
      ¬ x.content <:+: metaText ⟨r, sch, true⟩ false (z.text u s))
    {add skip : Bool} (hskip : add = true → skip = true) :
    ∃ e, t.encode (.raw s, none) add = .ok e ∧ t.decode skip e.ids = some (restored sch (unsub r (z.text u s))) := by
  have hm := h.view
  have hinv : Inv t.view t.added := hav ▸ (after_inv hm build ops (inv_empty _)).1
  have hclean : Clean (tokensOf ops) t.added := by
    rw [hav]
    exact after_clean hm build ops (fun _ h => h) (.inr hraw) (inv_empty _)
      ⟨rfl, by simp [AddedVocab.empty, AMap.get], by simp [AddedVocab.empty]⟩
  have hpat : ∀ p ∈ t.added.trie ++ t.added.normTrie, ∃ x ∈ tokensOf ops, x.content = p.1 := by
    intro p hp
    obtain ⟨x, x1, x2⟩ := hclean.pattern p.1 p.2 hp
    exact ⟨x, hclean.token _ _ x1, x2⟩
  obtain ⟨w1, w2⟩ := meta_words v false r sch (z.text u s)
  obtain ⟨tss, k1, k2, k3⟩ := hP.words _ fun w hwm => ⟨(w2 w hwm).1, hw w (w2 w hwm).2.2⟩
  obtain ⟨e, e1, e2, e3⟩ := pipeline_tokens h.pipeline hset.1 hs
    (fun p hp => by
      obtain ⟨x, x1, x2⟩ := hpat p (by simp [hp])
      exact x2 ▸ (hfree x x1).1)
    (fun p hp => by
      obtain ⟨x, x1, x2⟩ := hpat p (by simp [hp])
      exact x2 ▸ (hfree x x1).2.1) k1
  have hflat : (tss.flatten.map (·.value)).flatten = metaText ⟨r, sch, true⟩ false (z.text u s) := by
    rw [← w1, ← k2, List.map_flatten, List.flatten_flatten, List.map_map]; rfl
  refine around hm hinv hclean hset h.decoder e1 e2 e3 (fun x hx => ?_) ?_ hskip
  · obtain ⟨ts, hts, hxt⟩ := List.mem_flatten.1 hx
    refine ⟨(k3 ts hts x hxt).2, fun hsp => ?_⟩
    obtain ⟨i, hi⟩ := hinv.special _ hsp
    obtain ⟨tk, j1, j2⟩ := (hinv.inverse _ i).1 hi
    refine (hfree tk (hclean.token _ _ j1)).2.2 ?_
    obtain ⟨a, b, hab⟩ := List.append_of_mem (List.mem_map_of_mem (f := (·.value)) hx)
    rw [j2, ← hflat, hab]
    exact ⟨a.flatten, b.flatten, by simp⟩
  · show ((some (Metaspace.decodeChain r sch _)).map List.flatten) = _
    rw [Option.map_some, meta_decode h.mark h.pipeline.anywhere false (z.text u s) hflat]
    intro x hx
    -- the first token is in the first word
    cases tss with
    | nil => simp at hx
    | cons ts tss =>
      rw [List.map_cons] at k2
      have hmem : (ts.map (·.value)).flatten ∈ (cut v false (.metaspace ⟨r, sch, true⟩) (z.text u s)).filter (· ≠ []) := by
        rw [← k2]; simp
      obtain ⟨hne, htail, _⟩ := w2 _ hmem
      cases ts with
      | nil => simp at hne
      | cons y ts =>
        simp only [List.flatten_cons, List.cons_append, List.map_cons, List.head?_cons, Option.mem_def,
          Option.some.injEq] at hx
        subst hx
        have hy := (k3 (y :: ts) (by simp) y (by simp)).1
        refine ⟨hy, fun hr => htail ?_⟩
        cases hv : y.value with
        | nil => exact absurd hv hy
        | cons c l =>
          rw [hv] at hr
          simp only [List.map_cons, List.flatten_cons, hv, List.cons_append, List.tail_cons, List.mem_append]
          exact .inl hr

/-- **C69.** Nothing is made of no text. -/
theorem C69_empty {t : Tokenizer} {u z v r sch} (h : IsMeta t u z v r sch)
    {build : List (Str × Nat) → Bool} {ops : List Op} (hav : t.added = after build t.view empty ops)
    (hraw : ∀ x ∈ tokensOf ops, x.normalized = false) (hset : Surrounds t.settings (IsSpecialId t.added))
    {add skip : Bool} (hskip : add = true → skip = true) :
    ∃ e, t.encode (.raw [], none) add = .ok e ∧ t.decode skip e.ids = some [] := by
  have hm := h.view
  have hinv : Inv t.view t.added := hav ▸ (after_inv hm build ops (inv_empty _)).1
  have hclean : Clean (tokensOf ops) t.added := by
    rw [hav]
    exact after_clean hm build ops (fun _ h => h) (.inr hraw) (inv_empty _)
      ⟨rfl, by simp [AddedVocab.empty, AMap.get], by simp [AddedVocab.empty]⟩
  obtain ⟨e, e1, e2, e3⟩ := pipeline_empty h.pipeline hset.1
  exact around hm hinv hclean hset h.decoder e1 e2 (ts := []) (by rw [e3]; rfl) (by simp) rfl hskip

/-! ## Models that spell -/

/-- The result of a Unigram model as the model of a tokenizer. -/
def uniResult : Outcome UniErr (List Token) → Except EncErr (List Token)
  | .ok ts => .ok ts
  | .err _ => .error (.model 0)
  | .panic => .error (.model 1)

theorem fuse_clear : ∀ l : List (Str × Bool), (∀ x ∈ l, x.2 = false) → Unigram.fuse l = l.map (·.1)
  | [], _ => rfl
  | (p, false) :: l, h => by
    rw [Unigram.fuse, fuse_clear l fun x hx => h x (by simp [hx])]; rfl
  | (p, true) :: l, h => by have := h (p, true) (by simp); cases this

/-- **C69.** Unigram spells the words whose characters are all in the vocabulary and in which the unknown token is not
written. -/
theorem C69_unigram {t : Tokenizer} {vocab : List (Str × Rat)} {k : Nat} {bf : Bool} {g : Unigram}
    (hg : Unigram.from vocab (some k) bf = .ok g) (hmod : ∀ w, t.model w = uniResult (g.tokenize w))
    (hview : t.view = unigramView g) :
    Faithful t fun w => (∀ c ∈ w, ∃ sc, ([c], sc) ∈ vocab) ∧ ∀ x, vocab[k]? = some x → ¬ x.1 <:+: w := by
  intro w hw ⟨hk, hunk⟩
  have hv : vocab ≠ [] := by
    rintro rfl
    simp [Unigram.from] at hg
  obtain ⟨ts, h1⟩ := Unigram.C49_total hg w
  obtain ⟨ps, h2, h3, h4⟩ := Unigram.C49_tokenize hg h1
  have h2' := h2
  unfold Unigram.encode at h2'
  rw [if_neg hw, if_pos (Unigram.from_flags hg).1] at h2'
  obtain ⟨xs, ⟨x1, x2⟩, _, x3⟩ := Unigram.C23_optimal hg (Unigram.minOf_isMin hv) h2'
  have hx : ∀ x ∈ xs, x.text ≠ [] ∧ (∃ i, x.id = some i ∧ Unigram.LastIn vocab x.text i x.score) ∧ x.text <:+: w := by
    intro x hxm
    have hin : x.text <:+: w := by
      obtain ⟨a, b, rfl⟩ := List.append_of_mem hxm
      rw [← x1]
      exact ⟨(a.map (·.text)).flatten, (b.map (·.text)).flatten, by simp⟩
    rcases x2 x hxm with ⟨a, b⟩ | ⟨c, a, b, _⟩
    · exact ⟨a, b, hin⟩
    · obtain ⟨sc, hsc⟩ := hk c (hin.subset (by rw [a]; simp))
      exact absurd hsc (b sc)
  have hps : ps = xs.map (·.text) := by
    rw [x3, fuse_clear, List.map_map]
    · rfl
    · intro y hy
      obtain ⟨x, hxm, rfl⟩ := List.mem_map.1 hy
      obtain ⟨_, ⟨i, e1, e2⟩, hin⟩ := hx x hxm
      show decide (x.id = some k) = false
      rw [decide_eq_false_iff_not, e1]
      intro e
      cases e
      exact hunk _ e2.1 hin
  have hp : ∀ p ∈ ps, p ≠ [] ∧ ∃ i sc, Unigram.LastIn vocab p i sc := by
    intro p hp
    rw [hps] at hp
    obtain ⟨x, hxm, rfl⟩ := List.mem_map.1 hp
    obtain ⟨a, ⟨i, _, b⟩, _⟩ := hx x hxm
    exact ⟨a, i, _, b⟩
  -- one token for each piece
  have htok : ∀ (ps : List Str) (pos : Nat) (ts : List Token), (∀ p ∈ ps, p ≠ [] ∧ ∃ i sc, Unigram.LastIn vocab p i sc) →
      Unigram.TokensSpec vocab (some k) bf pos ps ts → (ts.map (·.value)).flatten = ps.flatten ∧
        ∀ x ∈ ts, x.value ≠ [] ∧ ∃ sc, Unigram.LastIn vocab x.value x.id sc := by
    intro ps
    induction ps with
    | nil => intro pos ts _ h; cases h; simp
    | cons p ps ih =>
      intro pos ts hp h
      obtain ⟨g, r, rfl, h5, h6⟩ := h
      obtain ⟨r1, r2⟩ := ih _ _ (fun q hq => hp q (by simp [hq])) h6
      obtain ⟨hne, i, sc, hl⟩ := hp p (by simp)
      have hmem : (p, sc) ∈ vocab := List.mem_of_getElem? hl.1
      rcases h5 with ⟨j, sc', h5, rfl⟩ | ⟨h5, _⟩ | ⟨h5, _⟩
      · refine ⟨by simp [r1], fun x hx => ?_⟩
        rcases List.mem_append.1 hx with hx | hx
        · simp only [List.mem_singleton] at hx
          subst hx; exact ⟨hne, sc', h5⟩
        · exact r2 x hx
      · exact absurd hmem (h5 sc)
      · exact absurd hmem (h5 sc)
  obtain ⟨t1, t2⟩ := htok ps 0 ts hp h4
  refine ⟨ts, by rw [hmod, h1]; rfl, by rw [t1, h3], fun x hx => ?_⟩
  obtain ⟨hne, sc, hl⟩ := t2 x hx
  refine ⟨hne, ?_⟩
  rw [hview]
  exact ((Unigram.made_of_from hg).ids _ _).2 ⟨sc, hl⟩

/-- **C69.** BPE without prefix and suffix spells the words whose characters are all in the vocabulary. -/
theorem C69_bpe {t : Tokenizer} {b : Bpe.Bpe} {coins : Str → Nat → Bool} (hb : Bpe.Built b) (hpre : b.pre = none)
    (hsuf : b.suf = none) (hne : b.vocab.get [] = none) (hmod : ∀ w, t.model w = bpeResult (Bpe.tokenize b (coins w) w))
    (hview : t.view = bpeView b) : Faithful t fun w => ∀ c ∈ w, ∃ i, b.vocab.get [c] = some i := by
  intro w _ hk
  obtain ⟨ts, gs, g1, g2, g3, _⟩ := Bpe.C16_values_are_text hb hpre hsuf hk (coins w)
  obtain ⟨ts', k1, k2, _⟩ := Bpe.C16_tokenize_tiles hb (initSyms_known hpre hsuf hk) (coins w)
  rw [g1] at k1; cases k1
  refine ⟨ts, by rw [hmod, g1]; rfl, by rw [g3, g2], fun x hx => ⟨fun e => ?_, ?_⟩⟩
  · have := k2 x hx
    rw [e, hne] at this; cases this
  · rw [hview]; exact k2 x hx

end Tokenizer
end Tok
