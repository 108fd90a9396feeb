import Verif.Save.PublishedBert
import Verif.Tokenizer.BertText

/-!
# C70: the text a tokenizer loaded from a file like BERT's gives back
-/

namespace Tok.Save
open Json AddedVocab

/-- **C70.** A file in the form of BERT's is loaded. A text in which none of the tokens of the file occurs, before or after
normalization, is encoded with `[CLS]` and `[SEP]`, and decoding gives the words of the normalized text that can be written
with the vocabulary, with single spaces between, but none before `.`, `?`, `!` and `,`. The other words are lost. The tokens of
the file are special, and do not begin with `##`. -/
theorem C70_published (w : World) (hu : w.uni.Ok) (hsp : w.tables.ws ' ' = true) (e : Env) (skip : Bool)
    {build : List (Str × Nat) → Bool} (hb : Automata build)
    {vocab : List (Str × Nat)} (hv : VocabOk vocab) {cls sep : Nat} {tokens : List (Nat × AddedToken)}
    (hplain : ∀ x ∈ tokens, x.2.normalized = false ∧ x.2.lstrip = false ∧ x.2.rstrip = false ∧ x.2.singleWord = false ∧
      x.2.special = true)
    (hid : ∀ x ∈ tokens, x.2.content ≠ [] ∧ (x.2.content, x.1) ∈ vocab ∧ ¬ "##".toList <+: x.2.content)
    (hhas : "[UNK]".toList ∈ tokens.map (·.2.content) ∧ ("[CLS]".toList, cls) ∈ tokens.map (fun x => (x.2.content, x.1)) ∧
      ("[SEP]".toList, sep) ∈ tokens.map (fun x => (x.2.content, x.1))) :
    ∃ c, load e skip build w.norm (bertFile cls sep vocab tokens) = .ok c ∧
      ∃ wp : WordPiece, wp.unkToken = "[UNK]".toList ∧ wp.continuingPrefix = "##".toList ∧ wp.maxInputChars = 100 ∧
        (∀ t i, wp.vocab.get t = some i ↔ (t, i) ∈ vocab) ∧
        ∀ (known : Str → Bool), (∀ x, known x = true ↔ Tokenizer.Writable wp x) → ∀ (s n : Str), s ≠ [] →
          n = (Normalizer.bert true true none true).text w.uni s →
          (∀ x ∈ tokens, ¬ x.2.content <:+: s ∧ ¬ x.2.content <:+: n) →
          ∃ enc, (w.tokenizer c).encode (.raw s, none) true = .ok enc ∧ (w.tokenizer c).decode true enc.ids =
            some (Dec.glue Dec.isTight (((PreTokenizer.cut w.tables false .bert n).filter (· ≠ [])).filter known)) := by
  have hin : ∀ {a : Str} {i : Nat}, (a, i) ∈ tokens.map (fun x => (x.2.content, x.1)) → (a, i) ∈ vocab := by
    intro a i h
    obtain ⟨x, hx, h⟩ := List.mem_map.1 h
    rw [← h]; exact (hid x hx).2.1
  have hsmall : ∀ {a : Str} {i : Nat}, (a, i) ∈ tokens.map (fun x => (x.2.content, x.1)) → i < 4294967296 :=
    fun h => Nat.lt_of_lt_of_le (hv.below _ (hin h)) hv.small
  obtain ⟨c, wp, tm, l1, l2, l3, l4, hget, l5, hok, hav, ⟨_, p2⟩, p3, hpipe, htm, hset, hdec⟩ :=
    bertFile_loaded w hu e skip hb hv (hsmall hhas.2.1) (hsmall hhas.2.2) (fun x hx => (hplain x hx).1)
      (fun x hx => ⟨(hplain x hx).2.1, (hplain x hx).2.2.1, (hplain x hx).2.2.2.1⟩)
      (fun x hx => ⟨(hid x hx).1, (hid x hx).2.1⟩)
  refine ⟨c, l1, wp, l2, l3, l4, hget, fun known hkn s n hs hn hfree => ?_⟩
  subst hn
  have hview : (w.tokenizer c).view = (Mod.wordPiece wp).view := by
    show c.model.view = _
    rw [l5]
  have hops : tokensOf [Op.add (w.norm (some (.bert true true none true))) (tokens.map (·.2))] = tokens.map (·.2) := by
    simp [tokensOf]
  have hinv : Inv (Mod.wordPiece wp).view c.added := hav ▸ (after_inv hok build _ (inv_empty _)).1
  have hclean : Clean (tokens.map (·.2)) c.added := by
    rw [hav]
    refine after_clean hok build _ (fun t ht => by simpa [tokensOf] using ht) (.inr ?_) (inv_empty _)
      ⟨rfl, by simp [AddedVocab.empty, AMap.get], by simp [AddedVocab.empty]⟩
    intro t ht
    obtain ⟨y, hy, rfl⟩ := List.mem_map.1 ht
    exact (hplain y hy).1
  have hspecial : ∀ {a : Str} {i : Nat}, (a, i) ∈ tokens.map (fun x => (x.2.content, x.1)) →
      ∃ x, c.added.rmap.get i = some x ∧ x.special = true ∧ x.content = a := by
    intro a i h
    have h := (p2 (a, i)).2 h
    rw [p3] at h
    obtain ⟨q, hq, e⟩ := List.mem_map.1 h
    have hg := AMap.get_eq_some_of_mem hinv.wfr (List.mem_filter.1 hq).1
    obtain ⟨y, hy, e'⟩ := List.mem_map.1 (hclean.token _ _ hg)
    cases e
    exact ⟨q.2, hg, by rw [← e']; exact (hplain y hy).2.2.2.2, rfl⟩
  have hunk : ∃ i, ("[UNK]".toList, i) ∈ tokens.map (fun x => (x.2.content, x.1)) := by
    obtain ⟨x, hx, e⟩ := List.mem_map.1 hhas.1
    exact ⟨x.1, List.mem_map.2 ⟨x, hx, by rw [e]⟩⟩
  obtain ⟨iu, hiu⟩ := hunk
  have hbert : Tokenizer.IsBert (w.tokenizer c) w.uni (.bert true true none true) w.tables wp true := by
    refine ⟨⟨hpipe, fun s => ?_, by rw [hview]; rfl, by rw [hview]; exact hok, by rw [hdec, l3]⟩, hsp, ?_, ?_, ?_⟩
    · show w.toModel c.model s = _
      rw [l5]; rfl
    · rw [l3]
      exact ⟨'#', ['#'], rfl, by simp, by unfold PreTokenizer.Punct; rw [Bool.or_eq_true]; exact .inl (by decide)⟩
    · rw [l2]
      exact ⟨iu, (hget _ _).2 (hin hiu)⟩
    · rw [l2, l3]
      exact ⟨by decide, by decide, by decide, by decide, by decide⟩
  have hcontains : (w.tokenizer c).added.specials.contains wp.unkToken = true := by
    obtain ⟨x, x1, x2, x3⟩ := hspecial hiu
    have := hinv.flagged _ _ x1 x2
    rw [x3] at this
    rw [l2]
    exact List.contains_iff_mem.2 this
  obtain ⟨enc, r1, r2⟩ := Tokenizer.C70_bert hbert (build := build)
    (ops := [.add (w.norm (some (.bert true true none true))) (tokens.map (·.2))]) (by rw [hview]; exact hav)
    (by
      rw [hops]
      intro x hx
      obtain ⟨y, hy, rfl⟩ := List.mem_map.1 hx
      exact ⟨(hplain y hy).1, by rw [l3]; exact (hid y hy).2.2⟩)
    (by
      rw [hset]
      refine ⟨rfl, rfl, .inr (.inl ⟨tm, [.special "[CLS]".toList 0], 0, [.special "[SEP]".toList 0], rfl, htm.single, ?_⟩)⟩
      intro p hp
      simp only [List.cons_append, List.nil_append, List.mem_cons, List.not_mem_nil, or_false] at hp
      rcases hp with rfl | rfl
      · refine ⟨_, _, _, rfl, htm.cls, rfl, fun i hi => ?_⟩
        simp only [List.mem_singleton] at hi
        subst hi
        obtain ⟨x, x1, x2, _⟩ := hspecial hhas.2.1
        exact ⟨x, x1, x2⟩
      · refine ⟨_, _, _, rfl, htm.sep, rfl, fun i hi => ?_⟩
        simp only [List.mem_singleton] at hi
        subst hi
        obtain ⟨x, x1, x2, _⟩ := hspecial hhas.2.2
        exact ⟨x, x1, x2⟩) hkn hs
    (by
      rw [hops]
      intro x hx
      obtain ⟨y, hy, rfl⟩ := List.mem_map.1 hx
      exact hfree y hy) (add := true) (skip := true) (fun h => h)
  refine ⟨enc, r1, ?_⟩
  rw [r2, hcontains]
  have hgb : ∀ l : List Str, l.filterMap (Tokenizer.givenBack wp known (true && true)) = l.filter known := by
    intro l
    induction l with
    | nil => rfl
    | cons x l ih =>
      rw [List.filterMap_cons, List.filter_cons, ih]
      cases hk : known x <;> simp [Tokenizer.givenBack, hk]
  rw [hgb]
  rfl

end Tok.Save
