import Verif.Tokenizer.BertText
import Verif.Tokenizer.Apart
import Verif.Tokenizer.Lossless

/-!
# C105: encoding what was decoded

No new code. Encoding, decoding and encoding again: when are the ids the same?
-/

namespace Tok
open PreTokenizer Metaspace AddedVocab Dec

/-! ## The words of BERT's pre-tokenizer, put together and cut again -/

theorem runs_join {α κ : Type} [DecidableEq κ] (k : α → κ) {x : κ} {c : α} {g : List α} {gs : List (List α)} {s : List α}
    (hs : runs k s = (c :: g) :: gs) (hc : k c = x) : ∀ w : List α, (∀ a ∈ w, k a = x) → runs k (w ++ s) = (w ++ c :: g) :: gs
  | [], _ => hs
  | a :: w, h => by
    have ih := runs_join k hs hc w fun b hb => h b (List.mem_cons_of_mem _ hb)
    rw [List.cons_append, runs, ih]
    cases w with
    | nil =>
      rw [List.nil_append, addRun, if_pos ((h a List.mem_cons_self).trans hc.symm)]; rfl
    | cons b w =>
      rw [List.cons_append, addRun, if_pos ((h a List.mem_cons_self).trans (h b (by simp)).symm)]; rfl

/-- The words of a text for the pre-tokenizer of BERT. -/
def bertCut (v : CharTables) (s : Str) : List Str := (cut v false .bert s).filter (· ≠ [])

theorem bertCut_space (v : CharTables) {c : Char} (hc : v.ws c = true) (s : Str) : bertCut v (c :: s) = bertCut v s := by
  have h := (C72_white v (a := [c]) (b := s) (.inr ⟨c, by simp, hc⟩)).2
  unfold PreTokenizer.Parts solid at h
  unfold bertCut
  rw [show c :: s = [c] ++ s from rfl, h]
  have : cut v false .bert [c] = [] := by
    simp [cut, wordsBy, runs, addRun, hc]
  rw [this]; rfl

/-- A word in front of a text: it is a word of its own, if whitespace or punctuation follows. -/
theorem bertCut_word (v : CharTables) {w : Str} (hne : w ≠ []) (hw : ∀ c ∈ w, v.ws c = false)
    {s : Str} (hk : (∃ c, w = [c] ∧ Punct v c = true) ∨
      (∀ c ∈ w, Punct v c = false) ∧ ∀ c ∈ s.head?, v.ws c = true ∨ Punct v c = true) :
    bertCut v (w ++ s) = w :: bertCut v s := by
  have hm : ∀ r : Str, (∀ c ∈ r.head?, (∀ c ∈ w, Punct v c = false) → Punct v c = true) →
      (marked (Punct v) (w ++ r)).map (·.1) = w :: (marked (Punct v) r).map (·.1) := by
    intro r hr
    rcases hk with ⟨c, rfl, hc⟩ | ⟨hk, _⟩
    · rw [List.singleton_append, marked, if_pos hc]; rfl
    · rw [marked_run _ w r hk (fun c hc => hr c hc hk)]
      simp [hne]
  have hall : w.all (fun c => !v.ws c) = true := by simpa using hw
  unfold bertCut cut wordsBy
  cases s with
  | nil =>
    have h1 : runs v.ws (w ++ []) = [w] := by
      have := runs_append v.ws false w [] hne hw (by simp)
      simpa [runs] using this
    rw [h1]
    have := hm [] (by simp)
    rw [List.append_nil] at this
    simp [hall, this, hne, runs, marked]
  | cons c s =>
    by_cases hc : v.ws c = true
    · have h1 := runs_append v.ws false w (c :: s) hne hw (by simp [hc])
      have := hm [] (by simp)
      rw [List.append_nil] at this
      rw [h1, List.filter_cons_of_pos (by simpa using hw), List.flatMap_cons, this]
      simp [marked, hne]
    · have hc' : v.ws c = false := by simpa using hc
      obtain ⟨g, gs, hg⟩ : ∃ g gs, runs v.ws (c :: s) = (c :: g) :: gs := by
        obtain ⟨g, gs, h⟩ := runs_head v.ws c s
        exact ⟨g, gs, h⟩
      rw [runs_join v.ws hg hc' w hw, hg]
      have hgw : ∀ d ∈ c :: g, v.ws d = false := by
        intro d hd
        have := runs_key v.ws (c :: s) (c :: g) (by rw [hg]; simp)
        rw [this.2 d hd c (by simp), hc']
      have := hm (c :: g) (by
        intro d hd hpl
        simp only [List.head?_cons, Option.mem_def, Option.some.injEq] at hd
        subst hd
        rcases hk with ⟨e, rfl, he⟩ | ⟨_, hk⟩
        · rw [hpl e (by simp)] at he; cases he
        · rcases hk c (by simp) with h | h
          · rw [hc'] at h; cases h
          · exact h)
      rw [List.filter_cons_of_pos (by
        simp only [List.all_append, Bool.and_eq_true, List.all_eq_true]
        exact ⟨by simpa using hw, by simpa using hgw⟩), List.filter_cons_of_pos (by simpa using hgw), List.flatMap_cons, List.flatMap_cons, this]
      simp [hne]

/-- What a word of BERT's pre-tokenizer looks like. -/
def IsBertWord (v : CharTables) (w : Str) : Prop :=
  w ≠ [] ∧ (∀ c ∈ w, v.ws c = false) ∧ ((∃ c, w = [c] ∧ Punct v c = true) ∨ ∀ c ∈ w, Punct v c = false)

theorem isTight_punct (v : CharTables) {w : Str} (h : isTight w = true) : ∃ c, w = [c] ∧ Punct v c = true := by
  have hp : ∀ d ∈ ['.', '?', '!', ','], Punct v d = true := by
    intro d hd
    unfold Punct
    simp only [List.mem_cons, List.not_mem_nil, or_false] at hd
    rcases hd with rfl | rfl | rfl | rfl <;> rw [Bool.or_eq_true] <;> exact .inl (by decide)
  unfold isTight at h
  simp only [Bool.or_eq_true, beq_iff_eq] at h
  rcases h with ((h | h) | h) | h
  · exact ⟨'.', h, hp _ (by simp)⟩
  · exact ⟨'?', h, hp _ (by simp)⟩
  · exact ⟨'!', h, hp _ (by simp)⟩
  · exact ⟨',', h, hp _ (by simp)⟩

/-- Words put together as the decoder does are cut into the same words. -/
theorem bertCut_glue (v : CharTables) (hsp : v.ws ' ' = true) (clean : Bool) : ∀ ws : List Str, (∀ w ∈ ws, IsBertWord v w) →
    bertCut v (glue (tightIf clean) ws) = ws := by
  have tail : ∀ ws : List Str, (∀ w ∈ ws, IsBertWord v w) →
      bertCut v (ws.flatMap fun w => if tightIf clean w then w else ' ' :: w) = ws ∧
      ∀ c ∈ (ws.flatMap fun w => if tightIf clean w then w else ' ' :: w).head?, v.ws c = true ∨ Punct v c = true := by
    intro ws
    induction ws with
    | nil =>
      intro _
      refine ⟨by simp [bertCut, cut, wordsBy, runs], by simp⟩
    | cons w ws ih =>
      intro h
      obtain ⟨h1, h2, h3⟩ := h w List.mem_cons_self
      obtain ⟨i1, i2⟩ := ih fun x hx => h x (List.mem_cons_of_mem _ hx)
      have hword : bertCut v (w ++ ws.flatMap fun w => if tightIf clean w then w else ' ' :: w) = w :: ws := by
        rw [bertCut_word v h1 h2 (h3.imp id fun h => ⟨h, i2⟩), i1]
      rw [List.flatMap_cons]
      split
      · rename_i ht
        refine ⟨hword, ?_⟩
        obtain ⟨c, rfl, hc⟩ := isTight_punct v (w := w) (by
          unfold tightIf at ht
          rw [Bool.and_eq_true] at ht
          exact ht.2)
        intro d hd
        simp only [List.singleton_append, List.head?_cons, Option.mem_def, Option.some.injEq] at hd
        subst hd
        exact .inr hc
      · refine ⟨by rw [List.cons_append, bertCut_space v hsp, hword], ?_⟩
        intro d hd
        simp only [List.cons_append, List.head?_cons, Option.mem_def, Option.some.injEq] at hd
        subst hd
        exact .inl hsp
  intro ws h
  cases ws with
  | nil => simp [glue, bertCut, cut, wordsBy, runs]
  | cons w ws =>
    obtain ⟨h1, h2, h3⟩ := h w List.mem_cons_self
    obtain ⟨i1, i2⟩ := tail ws fun x hx => h x (List.mem_cons_of_mem _ hx)
    rw [glue, bertCut_word v h1 h2 (h3.imp id fun h => ⟨h, i2⟩), i1]

namespace Tokenizer

/-! ## Texts with the same words -/

/-- The ids of a text without added tokens: those of its words, and around them the same for all texts. -/
theorem encode_words {t : Tokenizer} {u : Unicode} {z : Normalizer} {v : CharTables} {y : PreTokenizer}
    (h : IsPipeline t u z v y) {special : Nat → Prop} (hset : Surrounds t.settings special) (add : Bool) :
    ∃ pre post : List Nat,
      (∀ s, s ≠ [] → (∀ p ∈ t.added.trie, ¬ p.1 <:+: s) → (∀ p ∈ t.added.normTrie, ¬ p.1 <:+: z.text u s) →
        ∀ tss, ((cut v false y (z.text u s)).filter (· ≠ [])).mapM t.model = .ok tss →
          ∃ e, t.encode (.raw s, none) add = .ok e ∧ e.ids = pre ++ tss.flatten.map (·.id) ++ post) ∧
      ∃ e, t.encode (.raw [], none) add = .ok e ∧ e.ids = pre ++ post := by
  obtain ⟨pre, post, _, _, h3⟩ := surrounds_uniform hset t.ws t.checked add
  have hlim : t.limit 0 = none := by unfold limit; rw [hset.1]
  have fin : ∀ {s : Str} {e : Encoding}, t.encodeSequence 0 .byte (.raw s) = .ok e → e.overflowing = [] →
      ∃ out, t.encode (.raw s, none) add = .ok out ∧ out.ids = pre ++ e.ids ++ post := by
    intro s e e1 e2
    obtain ⟨hwf, hsr⟩ := encodeSequence_wf (lim := t.limit 0) (i := .raw s) e1 hlim
    obtain ⟨out, o1, o2⟩ := h3 e hwf hsr e2
    refine ⟨out, ?_, o2⟩
    show (t.encodeSequence 0 .byte (.raw s)).bind _ = _
    rw [e1]
    show mapErr EncErr.post (t.settings.postProcess t.ws t.checked e none add) = _
    rw [o1]; rfl
  refine ⟨pre, post, fun s hs h1 h2 tss hw => ?_, ?_⟩
  · obtain ⟨e, e1, e2, e3⟩ := pipeline_tokens h hset.1 hs h1 h2 hw
    rw [← e3]
    exact fin e1 e2
  · obtain ⟨e, e1, e2, e3⟩ := pipeline_empty h hset.1
    have := fin e1 e2
    rwa [e3, List.append_nil] at this

/-- **C105.** Two texts without added tokens that have the same words after normalization are encoded to the same ids. -/
theorem C105_same_words {t : Tokenizer} {u : Unicode} {z : Normalizer} {v : CharTables} {y : PreTokenizer}
    (h : IsPipeline t u z v y) {special : Nat → Prop} (hset : Surrounds t.settings special) {add : Bool} {s d : Str}
    (hs : s ≠ []) (h1 : ∀ p ∈ t.added.trie, ¬ p.1 <:+: s) (h2 : ∀ p ∈ t.added.normTrie, ¬ p.1 <:+: z.text u s)
    (g1 : ∀ p ∈ t.added.trie, ¬ p.1 <:+: d) (g2 : ∀ p ∈ t.added.normTrie, ¬ p.1 <:+: z.text u d)
    (hsame : if d = [] then (cut v false y (z.text u s)).filter (· ≠ []) = []
      else (cut v false y (z.text u d)).filter (· ≠ []) = (cut v false y (z.text u s)).filter (· ≠ []))
    {e : Encoding} (he : t.encode (.raw s, none) add = .ok e) :
    ∃ e', t.encode (.raw d, none) add = .ok e' ∧ e'.ids = e.ids := by
  obtain ⟨pre, post, hall, hnil⟩ := encode_words h hset add
  have hm : ∃ tss, ((cut v false y (z.text u s)).filter (· ≠ [])).mapM t.model = .ok tss := by
    have key := C58_no_added h hs h1 h2 0 (ty := .byte) (by simp) none
    cases hm : ((cut v false y (z.text u s)).filter (· ≠ [])).mapM t.model with
    | ok tss => exact ⟨tss, rfl⟩
    | error er =>
      rw [hm] at key
      have hlim : t.limit 0 = none := by unfold limit; rw [hset.1]
      have hseq : t.encodeSequence 0 .byte (.raw s) = t.encodeText none 0 .byte none s := by
        show t.encodeText (t.limit 0) 0 .byte none s = _
        rw [hlim]
      have : t.encode (.raw s, none) add = .error er := by
        show (t.encodeSequence 0 .byte (.raw s)).bind _ = _
        rw [hseq, key]; rfl
      rw [he] at this; cases this
  obtain ⟨tss, hm⟩ := hm
  obtain ⟨e0, k1, k2⟩ := hall s hs h1 h2 tss hm
  rw [he] at k1
  cases k1
  by_cases hd : d = []
  · rw [if_pos hd] at hsame
    subst hd
    obtain ⟨e', j1, j2⟩ := hnil
    rw [hsame] at hm
    cases hm
    exact ⟨e', j1, by rw [j2, k2]; simp⟩
  · rw [if_neg hd] at hsame
    obtain ⟨e', j1, j2⟩ := hall d hd g1 g2 tss (by rw [hsame]; exact hm)
    exact ⟨e', j1, by rw [j2, k2]⟩

/-- The patterns of the added tokens are the contents of the tokens that were added. -/
theorem patterns_of {t : Tokenizer} (hm : t.view.Ok) {build : List (Str × Nat) → Bool} {ops : List Op}
    (hav : t.added = after build t.view AddedVocab.empty ops) (hraw : ∀ x ∈ tokensOf ops, x.normalized = false) :
    ∀ p ∈ t.added.trie ++ t.added.normTrie, ∃ x ∈ tokensOf ops, x.content = p.1 := by
  have hclean : Clean (tokensOf ops) t.added := by
    rw [hav]
    exact after_clean hm build ops (fun _ h => h) (.inr hraw) (inv_empty _)
      ⟨rfl, by simp [AddedVocab.empty, AMap.get], by simp [AddedVocab.empty]⟩
  intro p hp
  obtain ⟨x, x1, x2⟩ := hclean.pattern p.1 p.2 hp
  exact ⟨x, hclean.token _ _ x1, x2⟩

/-! ## BERT -/

/-- **C105.** A tokenizer like BERT's, and a text all whose words the vocabulary can write: the decoded text, with single spaces
and without those before `.`, `?`, `!` and `,`, is encoded to the same ids, if the normalizer leaves it as it is and no added
token occurs in it. -/
theorem C105_bert {t : Tokenizer} {u z v w clean} (h : IsBert t u z v w clean)
    {build : List (Str × Nat) → Bool} {ops : List Op} (hav : t.added = after build t.view AddedVocab.empty ops)
    (hraw : ∀ x ∈ tokensOf ops, x.normalized = false ∧ ¬ w.continuingPrefix <+: x.content)
    (hset : Surrounds t.settings (IsSpecialId t.added)) {s : Str} (hs : s ≠ [])
    (hwords : ∀ x ∈ (cut v false .bert (z.text u s)).filter (· ≠ []), Writable w x)
    (hfree : ∀ x ∈ tokensOf ops, ¬ x.content <:+: s ∧ ¬ x.content <:+: z.text u s)
    {add skip : Bool} (hskip : add = true → skip = true) :
    ∃ e d, t.encode (.raw s, none) add = .ok e ∧ t.decode skip e.ids = some d ∧
      d = glue (tightIf clean) ((cut v false .bert (z.text u s)).filter (· ≠ [])) ∧
      (z.text u d = d → (∀ x ∈ tokensOf ops, ¬ x.content <:+: d) →
        ∃ e', t.encode (.raw d, none) add = .ok e' ∧ e'.ids = e.ids) := by
  classical
  obtain ⟨e, e1, e2⟩ := C70_bert h hav hraw hset (known := fun x => decide (Writable w x)) (by simp) hs hfree hskip
  have hall : ((cut v false .bert (z.text u s)).filter (· ≠ [])).filterMap
      (givenBack w (fun x => decide (Writable w x)) (skip && t.added.specials.contains w.unkToken)) =
        (cut v false .bert (z.text u s)).filter (· ≠ []) := by
    have : ∀ l : List Str, (∀ x ∈ l, Writable w x) → l.filterMap
        (givenBack w (fun x => decide (Writable w x)) (skip && t.added.specials.contains w.unkToken)) = l := by
      intro l hl
      induction l with
      | nil => rfl
      | cons x l ih =>
        rw [List.filterMap_cons, givenBack, if_pos (by simpa using hl x (by simp)), ih fun y hy => hl y (by simp [hy])]
    exact this _ hwords
  rw [hall] at e2
  refine ⟨e, _, e1, e2, rfl, fun hz hf => ?_⟩
  have hpat := patterns_of h.wordPiece.ok hav fun x hx => (hraw x hx).1
  have hglue : bertCut v (glue (tightIf clean) ((cut v false .bert (z.text u s)).filter (· ≠ []))) =
      (cut v false .bert (z.text u s)).filter (· ≠ []) :=
    bertCut_glue v h.space clean _ fun x hx => by
      obtain ⟨b1, _, b3, b4⟩ := bert_words v _ x hx
      exact ⟨b1, b3, b4⟩
  refine C105_same_words h.wordPiece.pipeline hset hs (fun p hp => ?_) (fun p hp => ?_) (fun p hp => ?_) (fun p hp => ?_) ?_ e1
  · obtain ⟨x, x1, x2⟩ := hpat p (by simp [hp])
    exact x2 ▸ (hfree x x1).1
  · obtain ⟨x, x1, x2⟩ := hpat p (by simp [hp])
    exact x2 ▸ (hfree x x1).2
  · obtain ⟨x, x1, x2⟩ := hpat p (by simp [hp])
    exact x2 ▸ hf x x1
  · obtain ⟨x, x1, x2⟩ := hpat p (by simp [hp])
    rw [hz]
    exact x2 ▸ hf x x1
  · split
    · rename_i hd
      rw [hd] at hglue
      rw [← hglue]
      simp [bertCut, cut, wordsBy, runs]
    · rw [hz]
      exact hglue

/-! ## Metaspace -/

/-- The words of Metaspace depend only on what it makes of the text. -/
theorem cut_meta_congr (v : CharTables) {r : Char} {sch : Scheme} {s d : Str}
    (h : metaText ⟨r, sch, true⟩ false d = metaText ⟨r, sch, true⟩ false s) :
    cut v false (.metaspace ⟨r, sch, true⟩) d = cut v false (.metaspace ⟨r, sch, true⟩) s := by
  simp only [cut, h]

theorem metaText_restored {r : Char} (hr : r ≠ ' ') {sch : Scheme} (x : Str)
    (hx : sch = .never ∨ ∀ l, unsub r x = ' ' :: l → ∃ c m, l = c :: m ∧ c ≠ ' ') (hsch : sch ≠ .first) :
    metaText ⟨r, sch, true⟩ false (restored sch (unsub r x)) = metaText ⟨r, sch, true⟩ false x := by
  rw [← metaText_unsub ⟨r, sch, true⟩ false x]
  show _ = metaText ⟨r, sch, true⟩ false (unsub r x)
  unfold restored
  split
  · rename_i h
    obtain ⟨hn, hh⟩ := h
    have hal : sch = .always := by cases sch <;> simp_all
    subst hal
    rcases hx with hx | hx
    · cases hx
    · cases hu : unsub r x with
      | nil => rw [hu] at hh; cases hh
      | cons c l =>
        rw [hu] at hh
        simp only [List.head?_cons, Option.some.injEq] at hh
        subst hh
        obtain ⟨c, m, rfl, hc⟩ := hx l hu
        have hcr : c ≠ r := by
          intro e
          have := not_mem_unsub hr x
          rw [hu] at this
          exact this (by simp [e])
        simp [metaText, sub, hc, hcr]
  · rfl

/-- **C105.** A tokenizer with Metaspace: the decoded text is encoded to the same ids exactly if nothing is prepended, or the
text does not begin with two spaces, nor is it a single one; if the normalizer leaves the decoded text as it is and no added token
occurs in it. -/
theorem C105_meta {t : Tokenizer} {u z v r sch} (h : IsMeta t u z v r sch) {P : Str → Prop} (hP : Faithful t P)
    {build : List (Str × Nat) → Bool} {ops : List Op} (hav : t.added = after build t.view AddedVocab.empty ops)
    (hraw : ∀ x ∈ tokensOf ops, x.normalized = false) (hset : Surrounds t.settings (IsSpecialId t.added)) {s : Str}
    (hs : s ≠ []) (hw : ∀ w, w <:+: metaText ⟨r, sch, true⟩ false (z.text u s) → P w)
    (hfree : ∀ x ∈ tokensOf ops, ¬ x.content <:+: s ∧ ¬ x.content <:+: z.text u s ∧
      ¬ x.content <:+: metaText ⟨r, sch, true⟩ false (z.text u s))
    {add skip : Bool} (hskip : add = true → skip = true) :
    ∃ e d, t.encode (.raw s, none) add = .ok e ∧ t.decode skip e.ids = some d ∧
      d = restored sch (unsub r (z.text u s)) ∧
      (z.text u d = d → (∀ x ∈ tokensOf ops, ¬ x.content <:+: d) →
        (sch = .never ∨ ∀ l, unsub r (z.text u s) = ' ' :: l → ∃ c m, l = c :: m ∧ c ≠ ' ') →
        ∃ e', t.encode (.raw d, none) add = .ok e' ∧ e'.ids = e.ids) := by
  obtain ⟨e, e1, e2⟩ := C69_text h hP hav hraw hset hs hw hfree hskip
  refine ⟨e, _, e1, e2, rfl, fun hz hf hx => ?_⟩
  have hpat := patterns_of h.view hav hraw
  have hsch : sch ≠ .first := h.pipeline.anywhere
  have hmt := metaText_restored h.mark (z.text u s) hx hsch
  refine C105_same_words h.pipeline hset hs (fun p hp => ?_) (fun p hp => ?_) (fun p hp => ?_) (fun p hp => ?_) ?_ e1
  · obtain ⟨x, x1, x2⟩ := hpat p (by simp [hp])
    exact x2 ▸ (hfree x x1).1
  · obtain ⟨x, x1, x2⟩ := hpat p (by simp [hp])
    exact x2 ▸ (hfree x x1).2.1
  · obtain ⟨x, x1, x2⟩ := hpat p (by simp [hp])
    exact x2 ▸ hf x x1
  · obtain ⟨x, x1, x2⟩ := hpat p (by simp [hp])
    rw [hz]
    exact x2 ▸ hf x x1
  · split
    · rename_i hd
      rw [hd] at hmt
      rw [← cut_meta_congr v hmt]
      simp [cut, metaText, sub, marked, NS.kept, NS.joinNext]
    · rw [hz, cut_meta_congr v hmt]

/-- **C105.** And otherwise not: of a text that begins with two spaces one is lost by each round, of a single space nothing
stays. -/
theorem C105_meta_only {t : Tokenizer} {u z v r sch} (h : IsMeta t u z v r sch) {P : Str → Prop} (hP : Faithful t P)
    {build : List (Str × Nat) → Bool} {ops : List Op} (hav : t.added = after build t.view AddedVocab.empty ops)
    (hraw : ∀ x ∈ tokensOf ops, x.normalized = false) (hset : Surrounds t.settings (IsSpecialId t.added)) {s : Str}
    (hs : s ≠ []) (hw : ∀ w, w <:+: metaText ⟨r, sch, true⟩ false (z.text u s) → P w)
    (hfree : ∀ x ∈ tokensOf ops, ¬ x.content <:+: s ∧ ¬ x.content <:+: z.text u s ∧
      ¬ x.content <:+: metaText ⟨r, sch, true⟩ false (z.text u s))
    {add skip : Bool} (hskip : add = true → skip = true) (hsch : sch ≠ .never) {l : Str}
    (hl : unsub r (z.text u s) = ' ' :: l) (hl' : ∀ c m, l = c :: m → c = ' ')
    (hz : z.text u l = l) (hf : ∀ x ∈ tokensOf ops, ¬ x.content <:+: l) :
    ∃ e e', t.encode (.raw s, none) add = .ok e ∧ t.decode skip e.ids = some l ∧
      t.encode (.raw l, none) add = .ok e' ∧ e'.ids ≠ e.ids := by
  obtain ⟨e, e1, e2⟩ := C69_text h hP hav hraw hset hs hw hfree hskip
  have hd : restored sch (unsub r (z.text u s)) = l := by
    rw [restored, hl]; simp [hsch]
  rw [hd] at e2
  have hfirst : sch ≠ .first := h.pipeline.anywhere
  have hal : sch = .always := by cases sch <;> simp_all
  subst hal
  have hrl : r ∉ l := fun hin => not_mem_unsub h.mark (z.text u s) (by rw [hl]; simp [hin])
  have hmx : metaText ⟨r, .always, true⟩ false (z.text u s) = r :: sub r l := by
    rw [show r = (⟨r, Scheme.always, true⟩ : Config).replacement from rfl, ← metaText_unsub]
    show metaText ⟨r, .always, true⟩ false (unsub r (z.text u s)) = _
    rw [hl]
    simp [metaText, sub]
  cases l with
  | nil =>
    have hpat := patterns_of h.view hav hraw
    obtain ⟨pre, post, hall, e', k1, k2⟩ := encode_words h.pipeline hset add
    obtain ⟨w1, w2⟩ := meta_words v false r .always (z.text u s)
    obtain ⟨tss, j1, j2, j3⟩ := hP.words _ fun w hwm => ⟨(w2 w hwm).1, hw w (w2 w hwm).2.2⟩
    obtain ⟨e0, i1, i2⟩ := hall s hs
      (fun p hp => by
        obtain ⟨x, x1, x2⟩ := hpat p (by simp [hp])
        exact x2 ▸ (hfree x x1).1)
      (fun p hp => by
        obtain ⟨x, x1, x2⟩ := hpat p (by simp [hp])
        exact x2 ▸ (hfree x x1).2.1) tss j1
    rw [e1] at i1
    cases i1
    refine ⟨e, e', e1, e2, k1, fun he => ?_⟩
    rw [k2, i2] at he
    have : tss.flatten = [] := by
      have := congrArg List.length he
      simp only [List.length_append, List.length_map] at this
      exact List.eq_nil_of_length_eq_zero (by omega)
    have hflat : (tss.flatten.map (·.value)).flatten = metaText ⟨r, .always, true⟩ false (z.text u s) := by
      rw [← w1, ← j2, List.map_flatten, List.flatten_flatten, List.map_map]; rfl
    rw [this, hmx] at hflat
    cases hflat
  | cons c m =>
    obtain rfl := hl' c m rfl
    have hml : metaText ⟨r, .always, true⟩ false (z.text u (' ' :: m)) = sub r (' ' :: m) := by
      rw [hz]
      simp [metaText, sub]
    have hsuf : ∀ x : Str, x <:+: sub r (' ' :: m) → x <:+: metaText ⟨r, .always, true⟩ false (z.text u s) := by
      intro x hx
      rw [hmx]
      exact hx.trans (List.suffix_cons _ _).isInfix
    obtain ⟨e', k1, k2⟩ := C69_text (s := ' ' :: m) h hP hav hraw hset (by simp)
      (fun w hwm => hw w (hsuf w (hml ▸ hwm)))
      (fun x hx => ⟨hf x hx, by rw [hz]; exact hf x hx, fun hin => (hfree x hx).2.2 (hsuf _ (hml ▸ hin))⟩) hskip
    refine ⟨e, e', e1, e2, k1, fun he => ?_⟩
    rw [he, e2, hz, unsub_of_not_mem hrl] at k2
    simp only [restored, ne_eq, reduceCtorEq, not_false_eq_true, List.head?_cons, and_self, if_true, List.tail_cons,
      Option.some.injEq] at k2
    have := congrArg List.length k2
    simp at this

/-! ## Llama and byte-level BPE -/

/-- **C105.** A tokenizer like Llama's: whatever the text, known to the vocabulary or not, with `▁` or not, what it is decoded
to is encoded to the same ids. -/
theorem C105_llama {t : Tokenizer} {u v b coins} (h : IsLlama t u v b coins)
    {build : List (Str × Nat) → Bool} {ops : List Op} (hav : t.added = after build (Tokenizer.bpeView b) AddedVocab.empty ops)
    (hraw : ∀ x ∈ tokensOf ops, x.normalized = false) (hbyte : ∀ x ∈ tokensOf ops, ∀ y, x.content ≠ byteToken y)
    (hset : Surrounds t.settings (IsSpecialId t.added)) {s : Str}
    (hfree : ∀ x ∈ tokensOf ops, ¬ x.content <:+: s ∧ ¬ x.content <:+: '▁' :: sub '▁' s)
    {add skip : Bool} (hskip : add = true → skip = true) :
    ∃ e d, t.encode (.raw s, none) add = .ok e ∧ t.decode skip e.ids = some d ∧ d = unsub '▁' s ∧
      ((∀ x ∈ tokensOf ops, ¬ x.content <:+: d) → ∃ e', t.encode (.raw d, none) add = .ok e' ∧ e'.ids = e.ids) := by
  obtain ⟨e, e1, e2⟩ := C64_text h hav hraw hbyte hset hfree hskip
  refine ⟨e, _, e1, e2, rfl, fun hf => ?_⟩
  have hm : t.view.Ok := by
    rw [h.view]
    exact ⟨h.ids, fun c i => Bpe.C46_bpe_vocab_inverse h.built c i⟩
  have hpat := patterns_of hm (by rw [h.view]; exact hav) hraw
  by_cases hs : s = []
  · subst hs
    exact ⟨e, e1, rfl⟩
  · have hd : unsub '▁' s ≠ [] := by simpa [unsub] using hs
    have hz : llamaNormalizer.text u (unsub '▁' s) = llamaNormalizer.text u s := by
      rw [llama_text u hd, llama_text u hs, sub_unsub]
    have htext : ∀ x ∈ tokensOf ops, ¬ x.content <:+: llamaNormalizer.text u s := by
      intro x hx
      rw [llama_text u hs]
      exact (hfree x hx).2
    refine C105_same_words h.pipeline hset hs (fun p hp => ?_) (fun p hp => ?_) (fun p hp => ?_) (fun p hp => ?_) ?_ e1
    · obtain ⟨x, x1, x2⟩ := hpat p (by simp [hp])
      exact x2 ▸ (hfree x x1).1
    · obtain ⟨x, x1, x2⟩ := hpat p (by simp [hp])
      exact x2 ▸ htext x x1
    · obtain ⟨x, x1, x2⟩ := hpat p (by simp [hp])
      exact x2 ▸ hf x x1
    · obtain ⟨x, x1, x2⟩ := hpat p (by simp [hp])
      rw [hz]
      exact x2 ▸ htext x x1
    · rw [if_neg hd, hz]

/-- **C105.** Byte-level BPE: whatever the text and the added tokens in it, what it is decoded to is encoded to the same
encoding. -/
theorem C105_byteLevel {t : Tokenizer} {b : Bpe.Bpe} {re : Str → List Range} {u : Bool} {coins : Str → Nat → Bool}
    (h : IsByteBpe t b re u coins) (hre : ∀ s, NS.EngineMatches s 0 (re s))
    {build : List (Str × Nat) → Bool} (hb : ∀ l, build l = true → ∀ p ∈ l, p.1 ≠ []) {ops : List Op}
    (hav : t.added = after build (bpeView b) AddedVocab.empty ops) (hnorm : normsOf ops = [])
    (hstrip : ∀ x ∈ tokensOf ops, x.lstrip = false ∧ x.rstrip = false)
    (hlit : ∀ x ∈ tokensOf ops, ByteLevel.Literal x.content)
    (hs : Untouched t.settings) (s : Str) (add : Bool) :
    ∃ e d, t.encode (.raw s, none) add = .ok e ∧ t.decode false e.ids = some d ∧ t.encode (.raw d, none) add = .ok e := by
  obtain ⟨e, e1, e2⟩ := C44_lossless h hre hb hav hnorm hstrip hlit hs s add
  exact ⟨e, s, e1, e2, e1⟩

end Tokenizer
end Tok
