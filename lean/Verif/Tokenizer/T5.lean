import Verif.Tokenizer.Stable

/-!
# C106: tokenizers that split at white space and then use `Metaspace`, like the published ones of T5 and XLM-R

No new code: the composition of C58, C31, C49/C16 and C35, for the pre-tokenizer `Sequence [WhitespaceSplit, Metaspace]`.
-/

namespace Tok
open Encoding AddedVocab PreTokenizer Metaspace

/-- A word without the mark it may begin with, other marks read as spaces. -/
def unmarked (r : Char) (w : Str) : Str := unsub r (if w.head? = some r then w.tail else w)

theorem unmarked_of_not_mem {r : Char} {w : Str} (h : r ∉ w) : unmarked r w = w := by
  unfold unmarked
  rw [if_neg, unsub_of_not_mem h]
  intro hh
  exact h (List.mem_of_mem_head? hh)

/-- What Metaspace makes of a word without spaces: the mark and the word, or the word that begins with the mark. -/
theorem metaText_word {r : Char} {w : Str} (hne : w ≠ []) (hsp : ' ' ∉ w) :
    metaText ⟨r, .always, true⟩ false w = r :: (if w.head? = some r then w.tail else w) := by
  have hsub : sub r w = w := by
    unfold sub
    conv => rhs; rw [← List.map_id w]
    apply List.map_congr_left
    intro c hc
    have : c ≠ ' ' := by rintro rfl; exact hsp hc
    rw [if_neg this]; rfl
  unfold metaText
  simp only [hsub]
  cases w with
  | nil => exact absurd rfl hne
  | cons c w =>
    by_cases hc : c = r
    · subst hc; simp
    · simp [hc]

theorem wordsBy_words (sep : Char → Bool) (s : Str) : ∀ w ∈ wordsBy sep s, w ≠ [] ∧ w <:+: s ∧ ∀ c ∈ w, sep c = false := by
  intro w hw
  obtain ⟨h1, h2⟩ := List.mem_filter.1 hw
  refine ⟨(runs_key sep s w h1).1, ?_, by simpa using h2⟩
  obtain ⟨a, b, hab⟩ := List.append_of_mem h1
  have := runs_flatten sep s
  rw [hab] at this
  exact ⟨a.flatten, b.flatten, by rw [← this]; simp⟩

theorem solid_wordsBy (sep : Char → Bool) (s : Str) : solid (wordsBy sep s) = wordsBy sep s := by
  unfold solid
  rw [List.filter_eq_self]
  intro w hw
  simpa using (wordsBy_words sep s w hw).1

/-- The words of a text, and of each those of Metaspace. -/
theorem cut_t5 (v : CharTables) (r : Char) (s : Str) :
    (cut v false (.sequence [.whitespaceSplit, .metaspace ⟨r, .always, true⟩]) s).filter (· ≠ []) =
      (wordsBy v.ws s).flatMap fun w => (cut v false (.metaspace ⟨r, .always, true⟩) w).filter (· ≠ []) := by
  have key : ∀ l : List Str, l.filter (· ≠ []) = solid l := fun _ => rfl
  rw [key, cut, cutAll, cut, solid_wordsBy]
  have h1 : ∀ w, cutAll v false [.metaspace ⟨r, .always, true⟩] w = solid (cut v false (.metaspace ⟨r, .always, true⟩) w) := by
    intro w
    rw [cutAll]
    have : ∀ l : List Str, l.flatMap (cutAll v false []) = l := by
      intro l
      induction l with
      | nil => rfl
      | cons x l ih => rw [List.flatMap_cons, ih, cutAll]; rfl
    exact this _
  have h2 : ∀ ws : List Str, solid (ws.flatMap (cutAll v false [.metaspace ⟨r, .always, true⟩])) =
      ws.flatMap fun w => solid (cut v false (.metaspace ⟨r, .always, true⟩) w) := by
    intro ws
    induction ws with
    | nil => rfl
    | cons w ws ih =>
      rw [List.flatMap_cons, solid_append, ih, h1, List.flatMap_cons]
      congr 1
      unfold solid
      rw [List.filter_filter]; simp
  exact h2 _

/-- Words with single spaces between are cut into the same words. -/
theorem wordsBy_join {sep : Char → Bool} (hsp : sep ' ' = true) : ∀ ws : List Str, (∀ w ∈ ws, w ≠ [] ∧ ∀ c ∈ w, sep c = false) →
    wordsBy sep ([' '].intercalate ws) = ws
  | [], _ => rfl
  | [w], h => by
    obtain ⟨h1, h2⟩ := h w (by simp)
    have h3 : runs sep w = [w] := by
      have := runs_append sep false w [] h1 h2 (by simp)
      simpa [runs] using this
    simp [List.intercalate, List.intersperse, wordsBy, h3]
    exact h2
  | w :: w' :: ws, h => by
    have ih := wordsBy_join hsp (w' :: ws) fun x hx => h x (List.mem_cons_of_mem _ hx)
    have h0 := wordsBy_join hsp [w] fun x hx => h x (by simp at hx; simp [hx])
    have he : [' '].intercalate (w :: w' :: ws) = w ++ ([' '] ++ [' '].intercalate (w' :: ws)) := by
      simp [List.intercalate, List.intersperse]
    rw [he, wordsBy_append sep (.inl (by simp [hsp])), wordsBy_append sep (.inr ⟨' ', by simp, hsp⟩), ih]
    have hw : wordsBy sep w = [w] := by simpa [List.intercalate, List.intersperse] using h0
    rw [hw]
    simp [wordsBy, runs, addRun, hsp]
termination_by ws => ws.length

/-- The decoder on tokens that spell marked words, the first of them within the first word. -/
theorem t5_decode {r : Char} {ws : List Str} (hws : ∀ w ∈ ws, w ≠ [] ∧ ' ' ∉ w) {toks : List Str}
    (h : toks.flatten = ws.flatMap fun w => metaText ⟨r, .always, true⟩ false w) (hf : ∀ t ∈ toks.head?, t ≠ [] ∧ r ∉ t.tail) :
    (Metaspace.decodeChain r .always toks).flatten = [' '].intercalate (ws.map (unmarked r)) := by
  have hun : ∀ a b : Str, unsub r (a ++ b) = unsub r a ++ unsub r b := by intro a b; simp [unsub]
  have htail : ∀ ws : List Str, (∀ w ∈ ws, w ≠ [] ∧ ' ' ∉ w) →
      unsub r (ws.flatMap fun w => metaText ⟨r, .always, true⟩ false w) = (ws.map (unmarked r)).flatMap (' ' :: ·) := by
    intro ws hws
    induction ws with
    | nil => rfl
    | cons w ws ih =>
      obtain ⟨h1, h2⟩ := hws w (by simp)
      rw [List.flatMap_cons, hun, ih fun x hx => hws x (by simp [hx]), metaText_word h1 h2, List.map_cons, List.flatMap_cons]
      rw [show unsub r (r :: if w.head? = some r then w.tail else w) = ' ' :: unmarked r w by simp [unsub, unmarked]]
  have hjoin : ∀ ws : List Str, ws ≠ [] → [' '].intercalate ws = (ws.flatMap (' ' :: ·)).tail := by
    intro ws
    induction ws with
    | nil => intro h; exact absurd rfl h
    | cons w ws ih =>
      intro _
      cases ws with
      | nil => simp [List.intercalate, List.intersperse]
      | cons w' ws =>
        have := ih (by simp)
        rw [List.flatMap_cons]
        simp only [List.cons_append, List.tail_cons]
        rw [show [' '].intercalate (w :: w' :: ws) = w ++ ([' '] ++ [' '].intercalate (w' :: ws)) by
          simp [List.intercalate, List.intersperse], this]
        simp
  cases ws with
  | nil =>
    cases toks with
    | nil => rfl
    | cons t toks =>
      obtain ⟨h1, _⟩ := hf t (by simp)
      rw [List.flatten_cons, List.flatMap_nil] at h
      exact absurd (List.append_eq_nil_iff.1 h).1 h1
  | cons w ws =>
    have ht := htail _ hws
    rw [hjoin _ (by simp), ← ht, ← h]
    cases toks with
    | nil =>
      obtain ⟨h1, h2⟩ := hws w (by simp)
      rw [List.flatMap_cons, metaText_word h1 h2] at h
      cases h
    | cons t toks =>
      obtain ⟨h1, h2⟩ := hf t (by simp)
      obtain ⟨g1, g2⟩ := hws w (by simp)
      cases t with
      | nil => exact absurd rfl h1
      | cons c t =>
        rw [List.flatMap_cons, metaText_word g1 g2, List.flatten_cons, List.cons_append, List.cons_append,
          List.cons.injEq] at h
        obtain ⟨rfl, _⟩ := h
        simp only [List.tail_cons] at h2
        rw [decode_first (by simp) h2, List.flatten_cons, hun]
        rw [show unsub c (c :: t) = ' ' :: unsub c t by simp [unsub], List.cons_append, List.tail_cons, unsub_of_not_mem h2]

namespace Tokenizer

/-- A tokenizer that splits at white space, then marks the words, like the published ones of T5 and XLM-R; any normalizer. The
ids of the model belong to one token each. -/
structure IsT5 (t : Tokenizer) (u : Unicode) (z : Normalizer) (v : CharTables) (r : Char) : Prop where
  pipeline : IsPipeline t u z v (.sequence [.whitespaceSplit, .metaspace ⟨r, .always, true⟩])
  decoder : t.decoder = some (.metaspace r .always)
  view : t.view.Ok
  space : v.ws ' ' = true

theorem t5_words {v : CharTables} (hsp : v.ws ' ' = true) (s : Str) : ∀ w ∈ wordsBy v.ws s, w ≠ [] ∧ ' ' ∉ w := by
  intro w hw
  obtain ⟨h1, _, h3⟩ := wordsBy_words v.ws s w hw
  exact ⟨h1, fun hc => by have := h3 _ hc; rw [hsp] at this; cases this⟩

/-- **C106.** What was encoded is decoded to the words of the normalized text, with single spaces between; a mark that a word
begins with is lost, any other reads as a space. No added token occurs in the text, before or after normalization, nor in a word
with the mark; none is looked for in normalized form. -/
theorem C106_text {t : Tokenizer} {u z v r} (h : IsT5 t u z v r) {P : Str → Prop} (hP : Faithful t P)
    {build : List (Str × Nat) → Bool} {ops : List Op} (hav : t.added = after build t.view AddedVocab.empty ops)
    (hraw : ∀ x ∈ tokensOf ops, x.normalized = false) (hset : Surrounds t.settings (IsSpecialId t.added)) {s : Str}
    (hs : s ≠ []) (hw : ∀ x ∈ wordsBy v.ws (z.text u s), ∀ w, w <:+: metaText ⟨r, .always, true⟩ false x → P w)
    (hfree : ∀ x ∈ tokensOf ops, ¬ x.content <:+: s ∧ ¬ x.content <:+: z.text u s ∧
      ∀ y ∈ wordsBy v.ws (z.text u s), ¬ x.content <:+: metaText ⟨r, .always, true⟩ false y)
    {add skip : Bool} (hskip : add = true → skip = true) :
    ∃ e, t.encode (.raw s, none) add = .ok e ∧
      t.decode skip e.ids = some ([' '].intercalate ((wordsBy v.ws (z.text u s)).map (unmarked r))) := by
  have hm := h.view
  have hinv : Inv t.view t.added := hav ▸ (after_inv hm build ops (inv_empty _)).1
  have hclean : Clean (tokensOf ops) t.added := by
    rw [hav]
    exact after_clean hm build ops (fun _ h => h) (.inr hraw) (inv_empty _)
      ⟨rfl, by simp [AddedVocab.empty, AMap.get], by simp [AddedVocab.empty]⟩
  have hpat := patterns_of hm hav hraw
  have hword := t5_words h.space (z.text u s)
  generalize hW : wordsBy v.ws (z.text u s) = W at *
  have hcut := cut_t5 v r (z.text u s)
  rw [hW] at hcut
  -- every piece belongs to a word
  have hpiece : ∀ x ∈ W.flatMap fun w => (cut v false (.metaspace ⟨r, .always, true⟩) w).filter (· ≠ []),
      x ≠ [] ∧ r ∉ x.tail ∧ ∃ y ∈ W, x <:+: metaText ⟨r, .always, true⟩ false y := by
    intro x hx
    obtain ⟨y, hy, hx⟩ := List.mem_flatMap.1 hx
    obtain ⟨_, w2⟩ := meta_words v false r .always y
    obtain ⟨a, b, c⟩ := w2 x hx
    exact ⟨a, b, y, hy, c⟩
  have hflatW : (W.flatMap fun w => (cut v false (.metaspace ⟨r, .always, true⟩) w).filter (· ≠ [])).flatten =
      W.flatMap fun w => metaText ⟨r, .always, true⟩ false w := by
    clear hpiece hcut hW hw hfree hword
    induction W with
    | nil => rfl
    | cons w W ih =>
      rw [List.flatMap_cons, List.flatten_append, ih, (meta_words v false r .always w).1, List.flatMap_cons]
  obtain ⟨tss, k1, k2, k3⟩ := hP.words _ fun x hx => by
    obtain ⟨a, _, y, hy, c⟩ := hpiece x hx
    exact ⟨a, hw y hy x c⟩
  obtain ⟨e, e1, e2, e3⟩ := pipeline_tokens h.pipeline hset.1 hs
    (fun p hp => by
      obtain ⟨x, x1, x2⟩ := hpat p (by simp [hp])
      exact x2 ▸ (hfree x x1).1)
    (fun p hp => by
      obtain ⟨x, x1, x2⟩ := hpat p (by simp [hp])
      exact x2 ▸ (hfree x x1).2.1) (tss := tss) (by rw [hcut]; exact k1)
  have hflat : (tss.flatten.map (·.value)).flatten = W.flatMap fun w => metaText ⟨r, .always, true⟩ false w := by
    rw [← hflatW, ← k2, List.map_flatten, List.flatten_flatten, List.map_map]; rfl
  refine around hm hinv hclean hset h.decoder e1 e2 e3 (fun x hx => ?_) ?_ hskip
  · obtain ⟨ts, hts, hxt⟩ := List.mem_flatten.1 hx
    refine ⟨(k3 ts hts x hxt).2, fun hsp => ?_⟩
    obtain ⟨i, hi⟩ := hinv.special _ hsp
    obtain ⟨tk, j1, j2⟩ := (hinv.inverse _ i).1 hi
    have hmem : (ts.map (·.value)).flatten ∈ W.flatMap fun w => (cut v false (.metaspace ⟨r, .always, true⟩) w).filter (· ≠ []) := by
      rw [← k2]
      exact List.mem_map.2 ⟨ts, hts, rfl⟩
    obtain ⟨_, _, y, hy, c⟩ := hpiece _ hmem
    refine (hfree tk (hclean.token _ _ j1)).2.2 y hy (List.IsInfix.trans ?_ c)
    obtain ⟨a, b, hab⟩ := List.append_of_mem (List.mem_map_of_mem (f := (·.value)) hxt)
    rw [j2, hab]
    exact ⟨a.flatten, b.flatten, by simp⟩
  · show ((some (Metaspace.decodeChain r .always _)).map List.flatten) = _
    rw [Option.map_some, t5_decode hword hflat]
    intro x hx
    cases tss with
    | nil => simp at hx
    | cons ts tss =>
      rw [List.map_cons] at k2
      obtain ⟨hne, htail, _⟩ := hpiece ((ts.map (·.value)).flatten) (by rw [← k2]; simp)
      cases ts with
      | nil => simp at hne
      | cons y ts =>
        simp only [List.flatten_cons, List.cons_append, List.map_cons, List.head?_cons, Option.mem_def,
          Option.some.injEq] at hx
        subst hx
        have hy := (k3 (y :: ts) (by simp) y (by simp)).1
        refine ⟨hy, fun hr => htail ?_⟩
        cases hv : y.value with
        | nil => exact absurd hv hy
        | cons c l =>
          rw [hv] at hr
          simp only [List.map_cons, List.flatten_cons, hv, List.cons_append, List.tail_cons, List.mem_append]
          exact .inl hr

/-- **C106.** A text without the mark is decoded to the words of the normalized text, with single spaces between. Encoding these
gives the same ids again, if the normalizer leaves them as they are and no added token occurs. -/
theorem C106_plain {t : Tokenizer} {u z v r} (h : IsT5 t u z v r) {P : Str → Prop} (hP : Faithful t P)
    {build : List (Str × Nat) → Bool} {ops : List Op} (hav : t.added = after build t.view AddedVocab.empty ops)
    (hraw : ∀ x ∈ tokensOf ops, x.normalized = false) (hset : Surrounds t.settings (IsSpecialId t.added)) {s : Str}
    (hs : s ≠ []) (hr : r ∉ z.text u s)
    (hw : ∀ x ∈ wordsBy v.ws (z.text u s), ∀ w, w <:+: r :: x → P w)
    (hfree : ∀ x ∈ tokensOf ops, ¬ x.content <:+: s ∧ ¬ x.content <:+: z.text u s ∧
      ∀ y ∈ wordsBy v.ws (z.text u s), ¬ x.content <:+: r :: y)
    {add skip : Bool} (hskip : add = true → skip = true) :
    ∃ e d, t.encode (.raw s, none) add = .ok e ∧ t.decode skip e.ids = some d ∧
      d = [' '].intercalate (wordsBy v.ws (z.text u s)) ∧
      (z.text u d = d → (∀ x ∈ tokensOf ops, ¬ x.content <:+: d) →
        ∃ e', t.encode (.raw d, none) add = .ok e' ∧ e'.ids = e.ids) := by
  have hword := t5_words h.space (z.text u s)
  have hnr : ∀ w ∈ wordsBy v.ws (z.text u s), r ∉ w := fun w hw hc => hr ((wordsBy_words v.ws _ w hw).2.1.subset hc)
  have hmt : ∀ w ∈ wordsBy v.ws (z.text u s), metaText ⟨r, .always, true⟩ false w = r :: w := by
    intro w hw
    rw [metaText_word (hword w hw).1 (hword w hw).2, if_neg]
    intro hh
    exact hnr w hw (List.mem_of_mem_head? hh)
  obtain ⟨e, e1, e2⟩ := C106_text h hP hav hraw hset hs
    (fun x hx w hwx => hw x hx w (by rw [hmt x hx] at hwx; exact hwx))
    (fun x hx => ⟨(hfree x hx).1, (hfree x hx).2.1, fun y hy => by rw [hmt y hy]; exact (hfree x hx).2.2 y hy⟩) hskip
  have hid : (wordsBy v.ws (z.text u s)).map (unmarked r) = wordsBy v.ws (z.text u s) := by
    conv => rhs; rw [← List.map_id (wordsBy v.ws (z.text u s))]
    exact List.map_congr_left fun w hw => unmarked_of_not_mem (hnr w hw)
  rw [hid] at e2
  refine ⟨e, _, e1, e2, rfl, fun hz hf => ?_⟩
  have hpat := patterns_of h.view hav hraw
  have hjoin := wordsBy_join h.space (wordsBy v.ws (z.text u s)) fun w hw =>
    ⟨(wordsBy_words v.ws _ w hw).1, (wordsBy_words v.ws _ w hw).2.2⟩
  refine C105_same_words h.pipeline hset hs (fun p hp => ?_) (fun p hp => ?_) (fun p hp => ?_) (fun p hp => ?_) ?_ e1
  · obtain ⟨x, x1, x2⟩ := hpat p (by simp [hp])
    exact x2 ▸ (hfree x x1).1
  · obtain ⟨x, x1, x2⟩ := hpat p (by simp [hp])
    exact x2 ▸ (hfree x x1).2.1
  · obtain ⟨x, x1, x2⟩ := hpat p (by simp [hp])
    exact x2 ▸ hf x x1
  · obtain ⟨x, x1, x2⟩ := hpat p (by simp [hp])
    rw [hz]
    exact x2 ▸ hf x x1
  · rw [cut_t5, cut_t5]
    split
    · rename_i hd
      rw [hd] at hjoin
      rw [← hjoin]; rfl
    · rw [hz, hjoin]

end Tokenizer
end Tok
