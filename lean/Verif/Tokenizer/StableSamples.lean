import Verif.Tokenizer.Stable
import Verif.Tokenizer.MetaSamples

/-!
# Encoding what was decoded (C105): tokenizers that meet the conditions, and what happens without them
-/

namespace Tok
open PreTokenizer Metaspace AddedVocab Dec
namespace Tokenizer

/-! ## BERT -/

/-- Letters, endings and punctuation. -/
def bertVocab : AMap Str Nat :=
  [("[UNK]".toList, 0), ("a".toList, 1), ("b".toList, 2), ("##a".toList, 3), ("##b".toList, 4), (".".toList, 5),
    ("ab".toList, 6), ("##bb".toList, 7)]

def bertPiece : WordPiece := ⟨bertVocab, "[UNK]".toList, "##".toList, 100⟩

def bertOps : List Op :=
  [.add none [{ content := "[CLS]".toList, normalized := false, special := true },
    { content := "[SEP]".toList, normalized := false, special := true }]]

/-- A tokenizer like BERT's. -/
def stableBert : Tokenizer where
  cl := asciiClasses
  ws := (· == ' ')
  checked := true
  added := after buildAny (wordPieceView bertPiece) AddedVocab.empty bertOps
  normalizer := Normalizer.lowercase.apply Normalizer.sample
  preTok := fun p => mapErr (fun _ => .preTok 0) (PreTokenizer.bert.apply asciiTables p)
  model := fun w => mapErr (fun _ => .model 0) (bertPiece.tokenize w)
  view := wordPieceView bertPiece
  vocab := bertVocab
  settings := ⟨none, none, some (.bert ⟨("[SEP]".toList, 9), ("[CLS]".toList, 8)⟩)⟩
  decoder := some (.wordPiece "##".toList true)

theorem stableBert_added : stableBert.added.trie = [("[SEP]".toList, 9), ("[CLS]".toList, 8)] ∧
    stableBert.added.normTrie = [] ∧
    stableBert.added.rmap = [(9, { content := "[SEP]".toList, normalized := false, special := true }),
      (8, { content := "[CLS]".toList, normalized := false, special := true })] ∧
    stableBert.added.encodeSpecial = false := by decide +kernel

theorem bertPiece_view : (wordPieceView bertPiece).Ok := by
  have h1 : ∀ p ∈ (bertVocab : List (Str × Nat)), p.2 < bertVocab.length ∧ (turned bertVocab).get p.2 = some p.1 := by
    decide +kernel
  have h2 : ∀ p ∈ (turned bertVocab : List (Nat × Str)), bertVocab.get p.2 = some p.1 := by decide +kernel
  refine ⟨fun c i h => (h1 _ (AMap.mem_of_get_eq_some h)).1, fun c i => ⟨fun h => (h1 _ (AMap.mem_of_get_eq_some h)).2, fun h => ?_⟩⟩
  exact h2 _ (AMap.mem_of_get_eq_some h)

theorem stableBert_ok : IsBert stableBert Normalizer.sample .lowercase asciiTables bertPiece true where
  wordPiece :=
    { pipeline :=
        { normalizer := rfl
          preTok := rfl
          unicode := Normalizer.sample_ok
          safe := trivial
          sound := trivial
          anywhere := trivial
          tries := by
            intro p hp
            obtain ⟨h1, h2, h3, _⟩ := stableBert_added
            rw [h1, h2] at hp
            simp only [List.append_nil, List.mem_cons, List.not_mem_nil, or_false] at hp
            rw [h3]
            rcases hp with rfl | rfl
            · exact ⟨by decide, _, rfl⟩
            · exact ⟨by decide, _, rfl⟩
          bare := by
            obtain ⟨_, _, h3, h4⟩ := stableBert_added
            refine ⟨h4, fun i t h => ?_⟩
            rw [h3] at h
            have := AMap.mem_of_get_eq_some h
            simp only [List.mem_cons, Prod.mk.injEq, List.not_mem_nil, or_false] at this
            rcases this with ⟨_, rfl⟩ | ⟨_, rfl⟩ <;> exact ⟨rfl, rfl, rfl⟩ }
      model := fun _ => rfl
      view := rfl
      ok := bertPiece_view
      decoder := rfl }
  space := rfl
  pre := ⟨'#', ['#'], rfl, by simp, by decide⟩
  unk := ⟨0, rfl⟩
  unkText := ⟨by decide, by decide, by decide, by decide, by decide⟩

theorem stableBert_settings : Surrounds stableBert.settings (IsSpecialId stableBert.added) := by
  refine ⟨rfl, rfl, .inr (.inr ⟨⟨("[SEP]".toList, 9), ("[CLS]".toList, 8)⟩, .inl rfl, ?_, ?_⟩)⟩
  · exact ⟨_, by rw [stableBert_added.2.2.1]; rfl, rfl⟩
  · exact ⟨_, by rw [stableBert_added.2.2.1]; rfl, rfl⟩

theorem longest_exists (w : WordPiece) (k : Nat) {s : Str} {c : Char} {i : Nat} (hc : w.vocab.get (w.shown k [c]) = some i) :
    ∀ n, n ≤ s.length → (∀ m', m' <+: c :: s → n + 1 < m'.length → w.vocab.get (w.shown k m') = none) →
      ∃ m id, w.IsLongest k (c :: s) m id
  | 0, _, h => ⟨[c], i, by simp, by simp, hc, h⟩
  | n + 1, hn, h => by
    cases hg : w.vocab.get (w.shown k (c :: s.take (n + 1))) with
    | some id =>
      refine ⟨c :: s.take (n + 1), id, by simp, ?_, hg, fun m' h1 h2 => h m' h1 ?_⟩
      · rw [List.cons_prefix_cons]; exact ⟨rfl, List.take_prefix _ _⟩
      · rw [List.length_cons, List.length_take, Nat.min_eq_left hn] at h2; exact h2
    | none =>
      refine longest_exists w k hc n (by omega) fun m' h1 h2 => ?_
      by_cases h3 : n + 1 + 1 < m'.length
      · exact h m' h1 h3
      · have : m' = c :: s.take (n + 1) := by
          rw [List.prefix_iff_eq_take.1 h1, show m'.length = n + 2 by omega]; rfl
        rw [this]; exact hg

/-- Every word of `a` and `b` can be written. -/
theorem bertPiece_writes {x : Str} (hx : ∀ c ∈ x, c = 'a' ∨ c = 'b') (hl : x.length ≤ 100) : Writable bertPiece x := by
  have key : ∀ (n : Nat) (x : Str), x.length ≤ n → (∀ c ∈ x, c = 'a' ∨ c = 'b') → ∀ k, ∃ ts, bertPiece.Greedy k x ts := by
    intro n
    induction n with
    | zero =>
      intro x hx _ k
      cases x with
      | nil => exact ⟨[], .nil k⟩
      | cons c x => simp at hx
    | succ n ih =>
      intro x hn hx k
      cases x with
      | nil => exact ⟨[], .nil k⟩
      | cons c x =>
        have hc : ∃ i, bertPiece.vocab.get (bertPiece.shown k [c]) = some i := by
          rcases hx c (by simp) with rfl | rfl
          · cases k with
            | zero => exact ⟨1, by decide⟩
            | succ k => exact ⟨3, by rw [WordPiece.shown]; decide⟩
          · cases k with
            | zero => exact ⟨2, by decide⟩
            | succ k => exact ⟨4, by rw [WordPiece.shown]; decide⟩
        obtain ⟨i, hi⟩ := hc
        obtain ⟨m, id, hm⟩ := longest_exists bertPiece k hi (s := x) x.length (Nat.le_refl _) (fun m' h1 h2 => by
          have := h1.length_le; rw [List.length_cons] at this; omega)
        obtain ⟨r, hr⟩ := hm.2.1
        have hne := hm.1
        rw [← hr] at hm hn hx
        have hpos := List.length_pos_iff.2 hne
        obtain ⟨ts, hts⟩ := ih r (by rw [List.length_append] at hn; omega) (fun d hd => hx d (by simp [hd])) (k + blen m)
        rw [← hr]
        exact ⟨_, .cons hm hts⟩
  exact ⟨hl, key _ x (Nat.le_refl _) hx 0⟩

theorem mem_glue {tight : Str → Bool} {ws : List Str} {c : Char} (h : c ∈ glue tight ws) : c = ' ' ∨ ∃ x ∈ ws, c ∈ x := by
  cases ws with
  | nil => simp [glue] at h
  | cons w ws =>
    rw [glue, List.mem_append, List.mem_flatMap] at h
    rcases h with h | ⟨x, hx, h⟩
    · exact .inr ⟨w, by simp, h⟩
    · split at h
      · exact .inr ⟨x, by simp [hx], h⟩
      · rcases List.mem_cons.1 h with h | h
        · exact .inl h
        · exact .inr ⟨x, by simp [hx], h⟩

/-- A text of which no character has another lower case. -/
theorem lower_fixed {u : Unicode} : ∀ {s : Str}, (∀ c ∈ s, u.lower c = [c]) → Normalizer.lowercase.text u s = s
  | [], _ => rfl
  | c :: s, h => by
    have ih := lower_fixed (u := u) (s := s) fun d hd => h d (by simp [hd])
    show (c :: s).flatMap u.lower = _
    rw [List.flatMap_cons, h c (by simp)]
    show c :: s.flatMap u.lower = _
    rw [show s.flatMap u.lower = s from ih]

/-- Texts of `a`, `b`, full stops and spaces, in upper or lower case, not too long. -/
example (s : Str) (hs : s ≠ []) (h : ∀ c ∈ s, c ∈ [' ', 'a', 'b', 'A', 'B', '.']) (hl : s.length ≤ 100) :
    ∃ e d e', stableBert.encode (.raw s, none) true = .ok e ∧ stableBert.decode true e.ids = some d ∧
      stableBert.encode (.raw d, none) true = .ok e' ∧ e'.ids = e.ids := by
  have hlow : ∀ c ∈ [' ', 'a', 'b', '.'], Normalizer.sample.lower c = [c] := by decide
  have hl1 : ∀ c ∈ Normalizer.lowercase.text Normalizer.sample s, c ∈ [' ', 'a', 'b', '.'] := by
    intro c hc
    obtain ⟨d, hd, hc⟩ := List.mem_flatMap.1 hc
    have key : ∀ d ∈ [' ', 'a', 'b', 'A', 'B', '.'], ∀ c ∈ Normalizer.sample.lower d, c ∈ [' ', 'a', 'b', '.'] := by decide
    exact key d (h d hd) c hc
  have hT : ∀ x ∈ tokensOf bertOps, (x.normalized = false ∧ ¬ bertPiece.continuingPrefix <+: x.content) ∧ '[' ∈ x.content := by
    decide
  have hno : ∀ {w l : Str}, '[' ∈ w → '[' ∉ l → ¬ w <:+: l := fun hw hl hin => hl (hin.subset hw)
  have hlen : (Normalizer.lowercase.text Normalizer.sample s).length = s.length := by
    have key : ∀ d ∈ [' ', 'a', 'b', 'A', 'B', '.'], (Normalizer.sample.lower d).length = 1 := by decide
    have : ∀ s : Str, (∀ c ∈ s, c ∈ [' ', 'a', 'b', 'A', 'B', '.']) → (s.flatMap Normalizer.sample.lower).length = s.length := by
      intro s h
      induction s with
      | nil => rfl
      | cons c s ih =>
        rw [List.flatMap_cons, List.length_append, key c (h c (by simp)), ih fun d hd => h d (by simp [hd]), List.length_cons]
        omega
    exact this s h
  have hwords : ∀ x ∈ (cut asciiTables false .bert (Normalizer.lowercase.text Normalizer.sample s)).filter (· ≠ []),
      Writable bertPiece x ∧ ∀ c ∈ x, c ∈ ['a', 'b', '.'] := by
    intro x hx
    obtain ⟨b1, b2, b3, b4⟩ := bert_words asciiTables _ x hx
    have hch : ∀ c ∈ x, c ∈ ['a', 'b', '.'] := by
      intro c hc
      have h1 := hl1 c (b2.subset hc)
      have h2 := b3 c hc
      simp only [List.mem_cons, List.not_mem_nil, or_false] at h1 ⊢
      rcases h1 with rfl | h1
      · cases h2
      · exact h1
    refine ⟨?_, hch⟩
    rcases b4 with ⟨c, rfl, hp⟩ | b4
    · have := hch c (by simp)
      simp only [List.mem_cons, List.not_mem_nil, or_false] at this
      rcases this with rfl | rfl | rfl
      · exact bertPiece_writes (by simp) (by decide)
      · exact bertPiece_writes (by simp) (by decide)
      · exact ⟨by decide, [⟨5, ".".toList, (0, 1)⟩], .cons (m := ['.']) (rest := []) ⟨by simp, by simp, by decide, fun m' h1 h2 => by
          have := h1.length_le; simp at this h2; omega⟩ (.nil _)⟩
    · refine bertPiece_writes (fun c hc => ?_) ?_
      · have h1 := hch c hc
        have h2 := b4 c hc
        simp only [List.mem_cons, List.not_mem_nil, or_false] at h1
        rcases h1 with rfl | rfl | rfl
        · exact .inl rfl
        · exact .inr rfl
        · revert h2; decide
      · exact Nat.le_trans b2.length_le (by rw [hlen]; exact hl)
  obtain ⟨e, d, e1, e2, rfl, e3⟩ := C105_bert stableBert_ok (build := buildAny) (ops := bertOps) rfl (fun x hx => (hT x hx).1)
    stableBert_settings hs (fun x hx => (hwords x hx).1)
    (fun x hx => ⟨hno (hT x hx).2 fun hc => by have := h _ hc; revert this; decide,
      hno (hT x hx).2 fun hc => by have := hl1 _ hc; revert this; decide⟩) (add := true) (skip := true) (fun h => h)
  have hd : ∀ c ∈ glue (tightIf true) ((cut asciiTables false .bert (Normalizer.lowercase.text Normalizer.sample s)).filter
      (· ≠ [])), c ∈ [' ', 'a', 'b', '.'] := by
    intro c hc
    rcases mem_glue hc with rfl | ⟨x, hx, hc⟩
    · decide
    · have := (hwords x hx).2 c hc
      exact List.mem_cons_of_mem _ this
  obtain ⟨e', k1, k2⟩ := e3 (lower_fixed fun c hc => hlow c (hd c hc))
    fun x hx => hno (hT x hx).2 fun hc => by have := hd _ hc; revert this; decide
  exact ⟨e, _, e', e1, e2, k1, k2⟩

example : (stableBert.encode (.raw "ABBA  ab .b".toList, none) true).toOption.map (fun e => (e.ids, stableBert.decode true e.ids)) =
    some ([8, 6, 4, 3, 6, 5, 2, 9], some "abba ab. b".toList) := by decide +kernel

/-- Without the condition on the words: an unknown word is decoded to nothing, or to the unknown token, of which the pre-tokenizer
makes three words. -/
theorem C105_unknown_word :
    (stableBert.encode (.raw "x".toList, none) false).toOption.map (fun e => (e.ids, stableBert.decode false e.ids)) =
      some ([0], some "[UNK]".toList) ∧
    (stableBert.encode (.raw "[UNK]".toList, none) false).toOption.map (·.ids) = some [0, 0, 0] := by decide +kernel

/-! ## Metaspace -/

/-- Texts of capital and small `a` and `b` and spaces that do not begin with two spaces, and are not a single one. -/
example (s : Str) (hs : s ≠ []) (h : ∀ c ∈ s, c ∈ [' ', 'a', 'b', 'A', 'B']) (h2 : ∀ l, s = ' ' :: l → ∃ c m, l = c :: m ∧ c ≠ ' ') :
    ∃ e d e', (metaSample .lowercase .always).encode (.raw s, none) true = .ok e ∧
      (metaSample .lowercase .always).decode true e.ids = some d ∧
      (metaSample .lowercase .always).encode (.raw d, none) true = .ok e' ∧ e'.ids = e.ids := by
  have hlow : ∀ c ∈ [' ', 'a', 'b'], Normalizer.sample.lower c = [c] := by decide
  have key : ∀ d ∈ [' ', 'a', 'b', 'A', 'B'], ∃ e ∈ [' ', 'a', 'b'], Normalizer.sample.lower d = [e] ∧ (e = ' ' ↔ d = ' ') := by
    decide
  have hl : ∀ c ∈ Normalizer.lowercase.text Normalizer.sample s, c ∈ [' ', 'a', 'b'] := by
    intro c hc
    obtain ⟨d, hd, hc⟩ := List.mem_flatMap.1 hc
    obtain ⟨e, he, h1, _⟩ := key d (h d hd)
    rw [h1, List.mem_singleton] at hc
    exact hc ▸ he
  have hmt : ∀ c ∈ metaText ⟨'▁', .always, true⟩ false (Normalizer.lowercase.text Normalizer.sample s),
      c ∈ ['▁', 'a', 'b'] := by
    have hsub : ∀ c ∈ sub '▁' (Normalizer.lowercase.text Normalizer.sample s), c ∈ ['▁', 'a', 'b'] := by
      intro c hc
      obtain ⟨d, hd, rfl⟩ := List.mem_map.1 hc
      have := hl d hd
      simp only [List.mem_cons, List.not_mem_nil, or_false] at this
      rcases this with rfl | rfl | rfl <;> decide
    intro c hc
    unfold metaText at hc
    simp only at hc
    split at hc
    · rcases List.mem_cons.1 hc with rfl | hc
      · decide
      · exact hsub c hc
    · exact hsub c hc
  have hT : ∀ x ∈ tokensOf metaOps, x.normalized = false ∧ '<' ∈ x.content := by decide
  have hno : ∀ {w l : Str}, '<' ∈ w → '<' ∉ l → ¬ w <:+: l := fun hw hl hin => hl (hin.subset hw)
  have hmark : '▁' ∉ Normalizer.lowercase.text Normalizer.sample s := fun hc => by have := hl _ hc; revert this; decide
  obtain ⟨e, d, e1, e2, rfl, e3⟩ := C105_meta (metaSample_ok (z := .lowercase) (sch := .always) (by trivial) (by decide))
    (C69_unigram metaUni_from (fun _ => rfl) rfl) rfl
    (fun x hx => (hT x hx).1) (metaSample_settings _ _) hs (fun w hw => ⟨fun c hc => by
      have := hmt c (hw.subset hc)
      simp only [List.mem_cons, List.not_mem_nil, or_false] at this
      rcases this with rfl | rfl | rfl
      · exact ⟨-3, by decide +kernel⟩
      · exact ⟨-4, by decide +kernel⟩
      · exact ⟨-4, by decide +kernel⟩, fun x hx => by
      cases hx
      exact hno (by decide) fun hc => by have := hmt _ (hw.subset hc); revert this; decide⟩)
    (fun x hx => ⟨hno (hT x hx).2 fun hc => by have := h _ hc; revert this; decide,
      hno (hT x hx).2 fun hc => by have := hl _ hc; revert this; decide,
      hno (hT x hx).2 fun hc => by have := hmt _ hc; revert this; decide⟩) (add := true) (skip := true) (fun h => h)
  rw [unsub_of_not_mem hmark] at e2 e3
  have hd : ∀ c ∈ restored .always (Normalizer.lowercase.text Normalizer.sample s), c ∈ [' ', 'a', 'b'] := by
    intro c hc
    unfold restored at hc
    split at hc
    · exact hl c (List.mem_of_mem_tail hc)
    · exact hl c hc
  obtain ⟨e', k1, k2⟩ := e3 (lower_fixed fun c hc => hlow c (hd c hc))
    (fun x hx => hno (hT x hx).2 fun hc => by have := hd _ hc; revert this; decide) (.inr fun l hsl => by
      cases s with
      | nil => exact absurd rfl hs
      | cons c s =>
        obtain ⟨e, _, h1, h3⟩ := key c (h c (by simp))
        have hsl : Normalizer.sample.lower c ++ s.flatMap Normalizer.sample.lower = ' ' :: l := hsl
        rw [h1, List.singleton_append, List.cons.injEq] at hsl
        obtain ⟨m, n, rfl, hm⟩ := h2 s (by rw [h3.1 hsl.1])
        obtain ⟨e', _, h1', h3'⟩ := key m (h m (by simp))
        refine ⟨e', n.flatMap Normalizer.sample.lower, ?_, fun he => hm (h3'.1 he)⟩
        rw [← hsl.2, List.flatMap_cons, h1']; rfl)
  exact ⟨e, _, e', e1, e2, k1, k2⟩

/-- A round for a text: the ids, and what they are decoded to. -/
def turn (t : Tokenizer) (s : Str) : Option (List Nat × Option Str) :=
  (t.encode (.raw s, none) false).toOption.map fun e => (e.ids, t.decode true e.ids)

/-- Finding: a space at the beginning of a text is taken for the one that is prepended; with each round one more is lost. -/
theorem C105_meta_shrinks :
    turn (metaSample .lowercase .always) "  ab".toList = some ([1, 4, 3], some " ab".toList) ∧
    turn (metaSample .lowercase .always) " ab".toList = some ([4, 3], some "ab".toList) ∧
    turn (metaSample .lowercase .always) "ab".toList = some ([4, 3], some "ab".toList) ∧
    turn (metaSample .lowercase .always) " ".toList = some ([1], some []) ∧
    turn (metaSample .lowercase .always) [] = some ([], some []) := by decide +kernel

/-- Where a character is in a text of ASCII characters. -/
def whereIs (c : Char) (s : Str) : List Range := s.zipIdx.filterMap fun x => if x.1 = c then some (x.2, x.2 + 1) else none

/-- Without the condition on the normalizer: one that replaces `a` by `b` and `b` by nothing. -/
theorem C105_normalizer_again :
    turn (metaSample (.sequence [.replace (whereIs 'b') [], .replace (whereIs 'a') "b".toList]) .always)
      "aa".toList = some ([1, 5], some "bb".toList) ∧
    turn (metaSample (.sequence [.replace (whereIs 'b') [], .replace (whereIs 'a') "b".toList]) .always)
      "bb".toList = some ([], some []) := by
  decide +kernel

/-- The text `"  ab"` meets the conditions of `C105_meta_only`. -/
example : ∃ e e', (metaSample .lowercase .always).encode (.raw "  ab".toList, none) true = .ok e ∧
    (metaSample .lowercase .always).decode true e.ids = some " ab".toList ∧
    (metaSample .lowercase .always).encode (.raw " ab".toList, none) true = .ok e' ∧ e'.ids ≠ e.ids := by
  have hz : Normalizer.lowercase.text Normalizer.sample "  ab".toList = "  ab".toList := by decide +kernel
  have hmt : metaText ⟨'▁', .always, true⟩ false "  ab".toList = "▁▁ab".toList := by decide +kernel
  have hT : ∀ x ∈ tokensOf metaOps, x.normalized = false ∧ '<' ∈ x.content := by decide
  have hno : ∀ {w l : Str}, '<' ∈ w → '<' ∉ l → ¬ w <:+: l := fun hw hl hin => hl (hin.subset hw)
  refine C105_meta_only (metaSample_ok (z := .lowercase) (sch := .always) (by trivial) (by decide))
    (C69_unigram metaUni_from (fun _ => rfl) rfl) rfl
    (fun x hx => (hT x hx).1) (metaSample_settings _ _) (by decide) (fun w hw => ⟨fun c hc => ?_, fun x hx => ?_⟩)
    (fun x hx => ⟨hno (hT x hx).2 (by decide), hno (hT x hx).2 (by rw [hz]; decide), hno (hT x hx).2 (by rw [hz, hmt]; decide)⟩)
    (fun h => h) (by decide) (l := " ab".toList) (by rw [hz]; decide +kernel) (by
      intro c m h
      have : " ab".toList = [' ', 'a', 'b'] := by decide
      rw [this] at h
      cases h; rfl) (by decide +kernel)
    (fun x hx => hno (hT x hx).2 (by decide))
  · rw [hz, hmt] at hw
    have key : ∀ c ∈ "▁▁ab".toList, c = '▁' ∨ c = 'a' ∨ c = 'b' := by decide
    rcases key c (hw.subset hc) with rfl | rfl | rfl
    · exact ⟨-3, by decide +kernel⟩
    · exact ⟨-4, by decide +kernel⟩
    · exact ⟨-4, by decide +kernel⟩
  · cases hx
    rw [hz, hmt] at hw
    exact hno (by decide) fun hc => absurd (hw.subset hc) (by decide)

/-! ## Llama and byte-level BPE -/

/-- All texts without `<`. -/
example (s : Str) (h : '<' ∉ s) : ∃ e e', (llamaSample llamaBpe).encode (.raw s, none) true = .ok e ∧
    (llamaSample llamaBpe).decode true e.ids = some (unsub '▁' s) ∧
    (llamaSample llamaBpe).encode (.raw (unsub '▁' s), none) true = .ok e' ∧ e'.ids = e.ids := by
  have hs : ∀ {l : Str}, '<' ∉ l → ¬ "<s>".toList <:+: l := fun hl hin => hl (hin.subset (by decide))
  obtain ⟨h1, h2, h3, h4⟩ := llamaSample_hyps (hs h)
  obtain ⟨e, _, e1, e2, rfl, e3⟩ := C105_llama llamaSample_ok (build := buildAny) (ops := llamaOps) rfl h1 h2 h3 h4
    (add := true) (skip := true) (fun h => h)
  obtain ⟨e', k1, k2⟩ := e3 fun x hx => (llamaSample_hyps (s := unsub '▁' s) (hs fun hc => by
    obtain ⟨c, h5, h6⟩ := List.mem_map.1 hc
    split at h6
    · cases h6
    · exact h (h6 ▸ h5))).2.2.2 x hx |>.1
  exact ⟨e, e', e1, e2, k1, k2⟩

/-- All texts, with the added tokens in it. -/
example (s : Str) (add : Bool) : ∃ e d, (byteSample byteOps).encode (.raw s, none) add = .ok e ∧
    (byteSample byteOps).decode false e.ids = some d ∧ (byteSample byteOps).encode (.raw d, none) add = .ok e := by
  refine C105_byteLevel (byteSample_ok byteOps) byteRe_ok (build := buildAny) (ops := byteOps) ?_
    (by dsimp only [byteSample]) (by simp [byteOps, normsOf]) ?_ ?_ ⟨rfl, rfl, .inr ⟨_, _, rfl⟩⟩ s add
  · intro l h p hp
    simpa using List.all_eq_true.1 h p hp
  · decide
  · intro x hx
    refine .inl ?_
    revert x
    decide +kernel

end Tokenizer
end Tok
