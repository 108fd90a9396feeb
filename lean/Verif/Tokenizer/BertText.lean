import Verif.Tokenizer.Meta
import Verif.Codec.Wrapper

/-!
# C70: tokenizers like BERT's give the words of the normalized text back

`encode` followed by `decode`, for any normalizer, WordPiece, its decoder with or without cleanup, and special tokens around.
-/

namespace Tok
namespace Dec

/-! ## The cleanup -/

/-- The punctuation that is written without a space before it. -/
def isTight (w : Str) : Bool := w == ".".toList || w == "?".toList || w == "!".toList || w == ",".toList

/-- Words put together with single spaces, except that none is put before a word that is `tight`. -/
def glue (tight : Str → Bool) : List Str → Str
  | [] => []
  | w :: ws => w ++ ws.flatMap fun w => if tight w then w else ' ' :: w

theorem glue_intercalate : ∀ ws : List Str, glue (fun _ => false) ws = [' '].intercalate ws
  | [] => rfl
  | [w] => by simp [glue, List.intercalate, List.intersperse]
  | w :: w' :: ws => by
    have := glue_intercalate (w' :: ws)
    simp only [glue, List.intercalate, List.intersperse, List.flatten_cons] at this ⊢
    rw [← this]; simp

/-- A word the cleanup leaves as it is, also after a space. -/
def Plain (w : Str) : Prop := ' ' ∉ w ∧ '\'' ∉ w ∧ ∀ c ∈ w.head?, c ∉ ['.', '?', '!', ',']

/-- A word of one character, or one the cleanup does not touch. -/
def Neat (w : Str) : Prop := (∃ c, c ≠ ' ' ∧ w = [c]) ∨ Plain w

theorem absent_of_mem {pat to s : Str} {c : Char} (hc : c ∈ pat) (hs : c ∉ s) : strReplace pat to s = s := by
  apply strReplace_absent (fun e => by rw [e] at hc; cases hc)
  rintro a b rfl
  exact hs (by simp [hc])

/-- Every pattern of the cleanup has a space. -/
theorem cleanup_nospace {s : Str} (h : ' ' ∉ s) : cleanup s = s := by
  unfold cleanup
  simp only
  iterate 11 rw [absent_of_mem (c := ' ') (by decide) h]

theorem absent_cons {pat to s : Str} (hp : ∃ q, pat = ' ' :: q) (hs : ' ' ∉ s) (hq : ¬ pat.tail <+: s) :
    strReplace pat to (' ' :: s) = ' ' :: s := by
  obtain ⟨q, rfl⟩ := hp
  apply strReplace_absent (by simp)
  intro a b e
  cases a with
  | nil =>
    simp only [List.nil_append, List.cons_append, List.cons.injEq, true_and] at e
    exact hq ⟨b, e.symm⟩
  | cons x a =>
    simp only [List.cons_append, List.append_assoc, List.cons.injEq] at e
    exact hs (by rw [e.2]; simp)

theorem cleanup_plain {s : Str} (h : Plain s) : cleanup (' ' :: s) = ' ' :: s := by
  obtain ⟨h1, h2, h3⟩ := h
  have hh : ∀ c ∈ ['.', '?', '!', ','], ¬ [c] <+: s := by
    rintro c hc ⟨b, rfl⟩
    exact h3 c rfl hc
  have hq : ∀ q : Str, '\'' ∈ q → ¬ q <+: s := fun q hq hp => h2 (hp.subset hq)
  have hs : ∀ q : Str, ' ' ∈ q → ¬ q <+: s := fun q hq hp => h1 (hp.subset hq)
  have hd : ∀ (pat to : Str), (∃ q, pat = ' ' :: q) → ¬ pat.tail <+: s → strReplace pat to (' ' :: s) = ' ' :: s :=
    fun _ _ hp hq => absent_cons hp h1 hq
  unfold cleanup
  simp only
  rw [hd " .".toList _ ⟨_, rfl⟩ (hh '.' (by decide)), hd " ?".toList _ ⟨_, rfl⟩ (hh '?' (by decide)),
    hd " !".toList _ ⟨_, rfl⟩ (hh '!' (by decide)), hd " ,".toList _ ⟨_, rfl⟩ (hh ',' (by decide)),
    hd " ' ".toList _ ⟨_, rfl⟩ (hq _ (by decide)), hd " n't".toList _ ⟨_, rfl⟩ (hq _ (by decide)),
    hd " 'm".toList _ ⟨_, rfl⟩ (hq _ (by decide)), hd " do not".toList _ ⟨_, rfl⟩ (hs _ (by decide)),
    hd " 's".toList _ ⟨_, rfl⟩ (hq _ (by decide)), hd " 've".toList _ ⟨_, rfl⟩ (hq _ (by decide)),
    hd " 're".toList _ ⟨_, rfl⟩ (hq _ (by decide))]

/-- The cleanup of a word after a space. -/
theorem cleanup_neat {w : Str} (h : Neat w) : cleanup (' ' :: w) = if isTight w then w else ' ' :: w := by
  rcases h with ⟨c, hc, rfl⟩ | h
  · by_cases ht : c ∈ ['.', '?', '!', ',', '\'']
    · simp only [List.mem_cons, List.not_mem_nil, or_false] at ht
      rcases ht with rfl | rfl | rfl | rfl | rfl <;> decide +kernel
    · simp only [List.mem_cons, List.not_mem_nil, or_false, not_or] at ht
      rw [cleanup_plain ⟨by simpa using fun e => hc e.symm, by simpa using fun e => ht.2.2.2.2 e.symm, by simp [ht]⟩, if_neg]
      simp [isTight, ht]
  · rw [cleanup_plain h, if_neg]
    intro ht
    simp only [isTight, Bool.or_eq_true, beq_iff_eq] at ht
    rcases ht with ((rfl | rfl) | rfl) | rfl <;> exact h.2.2 _ rfl (by decide)

/-! ## The decoder on words -/

/-- The space before a word, with and without cleanup. -/
def tightIf (clean : Bool) (w : Str) : Bool := clean && isTight w

/-- The tokens of a word: its beginning and the rest in parts that have the prefix. -/
def Parts (pre w : Str) (vs : List Str) : Prop :=
  ∃ (t : Str) (ms : List Str), vs = t :: ms.map (pre ++ ·) ∧ w = t ++ ms.flatten ∧ t ≠ [] ∧ ¬ pre <+: t

theorem parts_of_greedy {m : WordPiece} {w : Str} {ts : List Token} (h : m.Greedy 0 w ts) (hne : w ≠ [])
    (hp : ¬ m.continuingPrefix <+: w) : Parts m.continuingPrefix w (ts.map (·.value)) := by
  have tail : ∀ {k : Nat} {s : Str} {ts : List Token}, m.Greedy k s ts → 0 < k →
      ∃ ms : List Str, ts.map (·.value) = ms.map (m.continuingPrefix ++ ·) ∧ s = ms.flatten := by
    intro k s ts h
    induction h with
    | nil => intro _; exact ⟨[], rfl, rfl⟩
    | @cons start x rest id ts h1 _ ih =>
      intro hk
      obtain ⟨ms, e1, e2⟩ := ih (by omega)
      obtain ⟨j, rfl⟩ := Nat.exists_eq_succ_of_ne_zero (by omega : start ≠ 0)
      exact ⟨x :: ms, by simp [WordPiece.shown, e1], by simp [← e2]⟩
  generalize hz : 0 = z at h
  cases h with
  | nil => exact absurd rfl hne
  | @cons start x rest id ts h1 h2 =>
    subst hz
    obtain ⟨ms, e1, e2⟩ := tail h2 (by have := blen_pos h1.1; omega)
    refine ⟨x, ms, by simp [WordPiece.shown, e1], by rw [e2], h1.1, fun hx => hp (hx.trans (List.prefix_append _ _))⟩

/-- What the decoder makes of a token that is not the first. -/
def later (pre : Str) (clean : Bool) (t : Str) : Str := wordPieceOne pre clean 1 t

theorem wordPiece_later (pre : Str) (clean : Bool) (t : Str) (l : List Str) :
    (wordPiece pre clean (t :: l)).flatten = wordPieceOne pre clean 0 t ++ l.flatMap (later pre clean) := by
  have : ∀ (l : List Str) (n : Nat), ((l.zipIdx (n + 1)).map fun p => wordPieceOne pre clean p.2 p.1).flatten =
      l.flatMap (later pre clean) := by
    intro l
    induction l with
    | nil => intro _; rfl
    | cons x l ih =>
      intro n
      rw [List.zipIdx_cons, List.map_cons, List.flatten_cons, ih, List.flatMap_cons]
      congr 1
  rw [wordPiece, List.zipIdx_cons, List.map_cons, List.flatten_cons, this]

/-- A part of a word. -/
theorem later_part {pre : Str} {clean : Bool} {m : Str} (h : clean = true → ' ' ∉ m) : later pre clean (pre ++ m) = m := by
  unfold later wordPieceOne
  rw [if_pos (show (1 : Nat) ≠ 0 by decide), stripPrefix_append]
  cases clean
  · rfl
  · exact cleanup_nospace (h rfl)

theorem neat_prefix {t m : Str} (h : Neat (t ++ m)) (ht : t ≠ []) : Neat t := by
  rcases h with ⟨c, hc, e⟩ | ⟨h1, h2, h3⟩
  · cases t with
    | nil => exact absurd rfl ht
    | cons x t =>
      simp only [List.cons_append, List.cons.injEq, List.append_eq_nil_iff] at e
      exact .inl ⟨c, hc, by rw [e.1, e.2.1]⟩
  · refine .inr ⟨fun h => h1 (by simp [h]), fun h => h2 (by simp [h]), fun c hc => h3 c ?_⟩
    cases t with
    | nil => exact absurd rfl ht
    | cons x t => exact hc

theorem neat_nospace {w : Str} (h : Neat w) : ' ' ∉ w := by
  rcases h with ⟨c, hc, rfl⟩ | h
  · simpa using fun e => hc e.symm
  · exact h.1

theorem tight_whole {t m : Str} (h : Neat (t ++ m)) (ht : t ≠ []) : isTight t = isTight (t ++ m) := by
  rcases h with ⟨c, hc, e⟩ | h
  · cases t with
    | nil => exact absurd rfl ht
    | cons x t =>
      simp only [List.cons_append, List.cons.injEq, List.append_eq_nil_iff] at e
      rw [e.2.2, List.append_nil]
  · have key : ∀ w : Str, Plain w → isTight w = false := by
      intro w hw
      rw [Bool.eq_false_iff]
      intro ht
      simp only [isTight, Bool.or_eq_true, beq_iff_eq] at ht
      rcases ht with ((rfl | rfl) | rfl) | rfl <;> exact hw.2.2 _ rfl (by decide)
    rw [key _ h, key t]
    rcases neat_prefix (.inr h) ht with ⟨c, hc, rfl⟩ | h'
    · exact ⟨by simpa using fun e => hc e.symm, fun h' => h.2.1 (List.mem_append_left _ h'), fun d hd => h.2.2 d (by simpa using hd)⟩
    · exact h'

/-- **C70, the decoder.** The tokens of words, with and without cleanup. -/
theorem wordPiece_words {pre : Str} {clean : Bool} {l : List (Str × List Str)} (hp : ∀ p ∈ l, Parts pre p.1 p.2)
    (hc : clean = true → ∀ p ∈ l, Neat p.1) :
    (wordPiece pre clean (l.map (·.2)).flatten).flatten = glue (tightIf clean) (l.map (·.1)) := by
  -- the parts of one word
  have parts : ∀ ms : List Str, (clean = true → ' ' ∉ ms.flatten) →
      (ms.map (pre ++ ·)).flatMap (later pre clean) = ms.flatten := by
    intro ms
    induction ms with
    | nil => intro _; rfl
    | cons m ms ih =>
      intro h
      rw [List.map_cons, List.flatMap_cons, ih fun hcl hin => h hcl (by simp only [List.flatten_cons]; simp [hin]),
        later_part fun hcl hin => h hcl (by simp [hin])]
      rfl
  have tailOk : ∀ {w t : Str} {ms : List Str}, (clean = true → Neat w) → w = t ++ ms.flatten → clean = true →
      ' ' ∉ ms.flatten := by
    intro w t ms hw e hcl hin
    exact neat_nospace (hw hcl) (by rw [e]; simp [hin])
  -- a word that is not the first
  have one : ∀ {w : Str} {vs : List Str}, (clean = true → Neat w) → Parts pre w vs →
      vs.flatMap (later pre clean) = if tightIf clean w then w else ' ' :: w := by
    rintro w vs hw ⟨t, ms, rfl, e, ht, hpt⟩
    rw [List.flatMap_cons, parts ms (tailOk hw e)]
    have hnone : stripPrefix pre t = none := by simp [stripPrefix, hpt]
    unfold later wordPieceOne
    rw [if_pos (show (1 : Nat) ≠ 0 by decide), hnone]
    cases hcl : clean
    · simp [tightIf, e]
    · have hn := hw hcl
      rw [e] at hn
      simp only [if_true, tightIf, Bool.true_and]
      rw [cleanup_neat (neat_prefix hn ht), tight_whole hn ht, e]
      cases isTight (t ++ ms.flatten) <;> simp
  have all : ∀ l : List (Str × List Str), (∀ p ∈ l, Parts pre p.1 p.2) → (clean = true → ∀ p ∈ l, Neat p.1) →
      (l.map (·.2)).flatten.flatMap (later pre clean) =
        (l.map (·.1)).flatMap fun w => if tightIf clean w then w else ' ' :: w := by
    intro l
    induction l with
    | nil => intro _ _; rfl
    | cons p l ih =>
      intro hp hc
      rw [List.map_cons, List.map_cons, List.flatten_cons, List.flatMap_append, List.flatMap_cons,
        ih (fun x hx => hp x (by simp [hx])) (fun h x hx => hc h x (by simp [hx])),
        one (fun h => hc h p (by simp)) (hp p (by simp))]
  cases l with
  | nil => rfl
  | cons p l =>
    obtain ⟨w, vs⟩ := p
    have hw : clean = true → Neat w := fun h => hc h (w, vs) (by simp)
    obtain ⟨t, ms, e', e, ht, hpt⟩ := hp (w, vs) (by simp)
    change vs = _ at e'
    change w = _ at e
    subst e'
    rw [List.map_cons, List.map_cons, List.flatten_cons, List.cons_append, wordPiece_later, List.flatMap_append,
      parts ms (tailOk hw e), all l (fun x hx => hp x (by simp [hx])) (fun h x hx => hc h x (by simp [hx]))]
    have h0 : wordPieceOne pre clean 0 t = t := by
      unfold wordPieceOne
      rw [if_neg (show ¬ (0 : Nat) ≠ 0 by decide)]
      cases hcl : clean
      · rfl
      · exact cleanup_nospace fun hin => neat_nospace (hw hcl) (by rw [e]; simp [hin])
    rw [h0, glue, e, List.append_assoc]

end Dec

namespace Tokenizer
open Encoding AddedVocab PreTokenizer Dec

/-! ## C70 -/

/-- A tokenizer with WordPiece and its decoder; any normalizer and pre-tokenizer. -/
structure IsWordPiece (t : Tokenizer) (u : Unicode) (z : Normalizer) (v : CharTables) (y : PreTokenizer) (w : WordPiece)
    (clean : Bool) : Prop where
  pipeline : IsPipeline t u z v y
  model : ∀ s, t.model s = mapErr (fun _ => .model 0) (w.tokenize s)
  view : t.view = wordPieceView w
  ok : t.view.Ok
  decoder : t.decoder = some (.wordPiece w.continuingPrefix clean)

/-- The words that can be written: not too long, with a greedy segmentation. -/
def Writable (w : WordPiece) (s : Str) : Prop := s.length ≤ w.maxInputChars ∧ ∃ ts, w.Greedy 0 s ts

/-- How a word is given back: as it is if it can be written, else as the unknown token, or not at all if that is special and
special tokens are skipped. -/
def givenBack (w : WordPiece) (known : Str → Bool) (skipped : Bool) (s : Str) : Option Str :=
  if known s then some s else if skipped then none else some w.unkToken

theorem decodeTokens_shown {m : ModelView} {av : AddedVocab} (skip : Bool) {i : Nat} {c : Str} (h : Shows m av i c) :
    decodeTokens m av skip [i] = if skip && av.specials.contains c then [] else [c] := by
  unfold decodeTokens
  rw [List.filterMap_cons, shows_iff.1 h]
  have hf : (some c).filter (fun t => !skip || !av.specials.contains t) =
      if skip && av.specials.contains c then none else some c := by
    rw [Option.filter_some]
    cases skip <;> cases av.specials.contains c <;> rfl
  rw [hf]
  cases skip && av.specials.contains c <;> rfl

/-- The tokens of the words. -/
theorem wordPiece_tokens {t : Tokenizer} {u z v y w clean} (h : IsWordPiece t u z v y w clean) {T : List AddedToken}
    (hinv : Inv t.view t.added) (hclean : Clean T t.added) {known : Str → Bool} (skip : Bool)
    (hu : ¬ w.continuingPrefix <+: w.unkToken) (hune : w.unkToken ≠ []) : ∀ words : List Str,
    (∀ s ∈ words, s ≠ [] ∧ ¬ w.continuingPrefix <+: s ∧ (known s = true ↔ Writable w s) ∧
      (known s = false → ∃ i, w.vocab.get w.unkToken = some i) ∧
      ∀ ts, w.Greedy 0 s ts → ∀ x ∈ ts, x.value ∉ t.added.specials) →
    ∃ (tss : List (List Token)) (l : List (Str × List Str)), words.mapM t.model = .ok tss ∧
      decodeTokens t.view t.added skip (tss.flatten.map (·.id)) = (l.map (·.2)).flatten ∧
      l.map (·.1) = words.filterMap (givenBack w known (skip && t.added.specials.contains w.unkToken)) ∧
      ∀ p ∈ l, Parts w.continuingPrefix p.1 p.2
  | [], _ => ⟨[], [], rfl, rfl, rfl, by simp⟩
  | s :: words, hs => by
    obtain ⟨tss, l, h1, h2, h3, h4⟩ := wordPiece_tokens h hinv hclean skip hu hune words fun x hx => hs x (by simp [hx])
    obtain ⟨hne, hpre, hkn, hunk, hsp⟩ := hs s (by simp)
    have happ : ∀ a b : List Nat, decodeTokens t.view t.added skip (a ++ b) =
        decodeTokens t.view t.added skip a ++ decodeTokens t.view t.added skip b := by
      intro a b; simp [decodeTokens]
    cases hk : known s with
    | true =>
      obtain ⟨hlen, ts, hg⟩ := hkn.1 hk
      have htok : w.tokenize s = .ok ts := (WordPiece.C21_tokenize w s _).2 (.inl ⟨hlen, ts, hg, rfl⟩)
      have hd := decodeTokens_plain (m := t.view) (av := t.added) skip ts fun x hx =>
        ⟨shows_model h.ok hinv hclean (by rw [h.view]; exact (WordPiece.C21_greedy_tiles hg).2.1 x hx), hsp ts hg x hx⟩
      refine ⟨ts :: tss, (s, ts.map (·.value)) :: l, ?_, ?_, ?_, fun p hp => ?_⟩
      · rw [List.mapM_cons, h.model, htok, h1]; rfl
      · rw [List.flatten_cons, List.map_append, happ, h2, hd]; rfl
      · rw [List.map_cons, h3, List.filterMap_cons, givenBack, if_pos hk]
      · rcases List.mem_cons.1 hp with rfl | hp
        · exact parts_of_greedy hg hne hpre
        · exact h4 p hp
    | false =>
      obtain ⟨i, hi⟩ := hunk hk
      have hnot : ¬ Writable w s := fun hw => by rw [hkn.2 hw] at hk; cases hk
      have htok : w.tokenize s = .ok [⟨i, w.unkToken, (0, blen s)⟩] := by
        refine (WordPiece.C21_tokenize w s _).2 (.inr ⟨?_, .inl ⟨i, hi, rfl⟩⟩)
        rcases Nat.lt_or_ge w.maxInputChars s.length with h' | h'
        · exact .inl h'
        · exact .inr fun hg => hnot ⟨h', hg⟩
      have hd := decodeTokens_shown skip (shows_model h.ok hinv hclean (c := w.unkToken) (i := i) (by rw [h.view]; exact hi))
      have hm : (s :: words).mapM t.model = .ok ([⟨i, w.unkToken, (0, blen s)⟩] :: tss) := by
        rw [List.mapM_cons, h.model, htok, h1]; rfl
      cases hb : skip && t.added.specials.contains w.unkToken with
      | true =>
        refine ⟨_, l, hm, ?_, ?_, h4⟩
        · rw [List.flatten_cons, List.map_append, happ, h2, List.map_singleton, hd, hb]; rfl
        · rw [List.filterMap_cons, givenBack, if_neg (by simp [hk]), if_pos rfl, h3, hb]
      | false =>
        refine ⟨_, (w.unkToken, [w.unkToken]) :: l, hm, ?_, ?_, fun p hp => ?_⟩
        · rw [List.flatten_cons, List.map_append, happ, h2, List.map_singleton, hd, hb]; rfl
        · rw [List.map_cons, List.filterMap_cons, givenBack, if_neg (by simp [hk]), if_neg (by simp), h3, hb]
        · rcases List.mem_cons.1 hp with rfl | hp
          · exact ⟨w.unkToken, [], rfl, by simp, hune, hu⟩
          · exact h4 p hp

/-- The tokens of a word: parts of it, or texts that begin with the prefix. -/
theorem greedy_values {w : WordPiece} {s : Str} {ts : List Token} (h : w.Greedy 0 s ts) (hne : s ≠ [])
    (hp : ¬ w.continuingPrefix <+: s) : ∀ x ∈ ts, x.value <:+: s ∨ w.continuingPrefix <+: x.value := by
  intro x hx
  obtain ⟨t, ms, e1, e2, _, _⟩ := parts_of_greedy h hne hp
  have hm : x.value ∈ ts.map (·.value) := List.mem_map_of_mem hx
  rw [e1] at hm
  rcases List.mem_cons.1 hm with e | hm
  · rw [e, e2]; exact .inl (List.prefix_append _ _).isInfix
  · obtain ⟨m, _, e⟩ := List.mem_map.1 hm
    rw [← e]; exact .inr (List.prefix_append _ _)

/-- **C70.** What was encoded is decoded to the words of the normalized text, with single spaces between, none before `.`, `?`,
`!` and `,` if there is a cleanup. A word that cannot be written stands as the unknown token, or is left out when this is
skipped. No added token occurs in the text, before or after normalization, in a word, nor begins with the prefix; none is
looked for in normalized form. -/
theorem C70_text {t : Tokenizer} {u z v y w clean} (h : IsWordPiece t u z v y w clean)
    {build : List (Str × Nat) → Bool} {ops : List Op} (hav : t.added = after build t.view AddedVocab.empty ops)
    (hraw : ∀ x ∈ tokensOf ops, x.normalized = false) (hset : Surrounds t.settings (IsSpecialId t.added)) {s : Str}
    (hs : s ≠ []) {words : List Str} (hwords : words = (cut v false y (z.text u s)).filter (· ≠ []))
    (hpre : ∀ x ∈ words, ¬ w.continuingPrefix <+: x) {known : Str → Bool}
    (hkn : ∀ x ∈ words, known x = true ↔ Writable w x)
    (hunk : (∃ x ∈ words, known x = false) → ∃ i, w.vocab.get w.unkToken = some i)
    (hu : w.unkToken ≠ [] ∧ ¬ w.continuingPrefix <+: w.unkToken)
    (hneat : clean = true → ∀ x ∈ w.unkToken :: words, Neat x)
    (hfree : ∀ x ∈ tokensOf ops, ¬ x.content <:+: s ∧ ¬ x.content <:+: z.text u s ∧ (∀ r ∈ words, ¬ x.content <:+: r) ∧
      ¬ w.continuingPrefix <+: x.content)
    {add skip : Bool} (hskip : add = true → skip = true) :
    ∃ e, t.encode (.raw s, none) add = .ok e ∧ t.decode skip e.ids =
      some (glue (tightIf clean) (words.filterMap (givenBack w known (skip && t.added.specials.contains w.unkToken)))) := by
  have hm := h.ok
  have hinv : Inv t.view t.added := hav ▸ (after_inv hm build ops (inv_empty _)).1
  have hclean : Clean (tokensOf ops) t.added := by
    rw [hav]
    exact after_clean hm build ops (fun _ h => h) (.inr hraw) (inv_empty _)
      ⟨rfl, by simp [AddedVocab.empty, AMap.get], by simp [AddedVocab.empty]⟩
  have hpat : ∀ p ∈ t.added.trie ++ t.added.normTrie, ∃ x ∈ tokensOf ops, x.content = p.1 := by
    intro p hp
    obtain ⟨x, x1, x2⟩ := hclean.pattern p.1 p.2 hp
    exact ⟨x, hclean.token _ _ x1, x2⟩
  have hspec : ∀ c ∈ t.added.specials, ∃ x ∈ tokensOf ops, x.content = c := by
    intro c hc
    obtain ⟨i, hi⟩ := hinv.special _ hc
    obtain ⟨tk, j1, j2⟩ := (hinv.inverse _ i).1 hi
    exact ⟨tk, hclean.token _ _ j1, j2⟩
  have hne : ∀ x ∈ words, x ≠ [] := by
    intro x hx
    rw [hwords] at hx
    simpa using (List.mem_filter.1 hx).2
  obtain ⟨tss, l, k1, k2, k3, k4⟩ := wordPiece_tokens h hinv hclean (known := known) skip hu.2 hu.1 words fun x hx =>
    ⟨hne x hx, hpre x hx, hkn x hx, fun hk => hunk ⟨x, hx, hk⟩, fun ts hg tk htk hsp => by
      obtain ⟨a, a1, a2⟩ := hspec _ hsp
      rcases greedy_values hg (hne x hx) (hpre x hx) tk htk with h' | h'
      · exact (hfree a a1).2.2.1 x hx (a2 ▸ h')
      · exact (hfree a a1).2.2.2 (a2 ▸ h')⟩
  rw [hwords] at k1
  obtain ⟨e, e1, e2, e3⟩ := pipeline_tokens h.pipeline hset.1 hs
    (fun p hp => by
      obtain ⟨x, x1, x2⟩ := hpat p (by simp [hp])
      exact x2 ▸ (hfree x x1).1)
    (fun p hp => by
      obtain ⟨x, x1, x2⟩ := hpat p (by simp [hp])
      exact x2 ▸ (hfree x x1).2.1) k1
  refine around_ids hinv hclean.cache hset h.decoder e1 e2 ?_ hskip
  rw [e3, k2]
  show ((some (wordPiece w.continuingPrefix clean _)).map List.flatten) = _
  rw [Option.map_some, wordPiece_words k4, k3]
  intro hcl p hp
  have hp' : p.1 ∈ l.map (·.1) := List.mem_map_of_mem hp
  rw [k3] at hp'
  obtain ⟨x, hx, hxp⟩ := List.mem_filterMap.1 hp'
  unfold givenBack at hxp
  split at hxp
  · rw [← Option.some.inj hxp]; exact hneat hcl _ (by simp [hx])
  · split at hxp
    · cases hxp
    · rw [← Option.some.inj hxp]; exact hneat hcl _ (by simp)

/-! ### The pre-tokenizer of BERT -/

theorem marked_kinds (p : Char → Bool) : ∀ s : Str, ∀ x ∈ marked p s,
    if x.2 then ∃ c, x.1 = [c] ∧ p c = true else ∀ c ∈ x.1, p c = false
  | [], x, hx => by simp [marked] at hx
  | c :: s, x, hx => by
    have ih := marked_kinds p s
    rw [marked] at hx
    split at hx
    · rename_i hc
      rcases List.mem_cons.1 hx with rfl | hx
      · exact ⟨c, rfl, hc⟩
      · exact ih x hx
    · rename_i hc
      have hc : p c = false := by simpa using hc
      split at hx
      · rename_i t r he
        rcases List.mem_cons.1 hx with rfl | hx
        · have := ih (t, false) (by rw [he]; simp)
          simp only [Bool.false_eq_true, if_false, List.mem_cons] at this ⊢
          rintro a (rfl | ha)
          · exact hc
          · exact this a ha
        · exact ih x (by rw [he]; simp [hx])
      · rcases List.mem_cons.1 hx with rfl | hx
        · simpa using hc
        · exact ih x hx

/-- The words: parts of the text without whitespace, either one punctuation character or without punctuation. -/
theorem bert_words (v : CharTables) (s : Str) : ∀ x ∈ (cut v false .bert s).filter (· ≠ []), x ≠ [] ∧ x <:+: s ∧
    (∀ c ∈ x, v.ws c = false) ∧ ((∃ c, x = [c] ∧ Punct v c = true) ∨ ∀ c ∈ x, Punct v c = false) := by
  intro x hx
  have hin : ∀ (l : List Str), ∀ w ∈ l, w <:+: l.flatten := by
    intro l w hw
    obtain ⟨a, b, rfl⟩ := List.append_of_mem hw
    exact ⟨a.flatten, b.flatten, by simp⟩
  obtain ⟨hx, hne⟩ := List.mem_filter.1 hx
  obtain ⟨r, hr, hx⟩ := List.mem_flatMap.1 hx
  obtain ⟨q, hq, rfl⟩ := List.mem_map.1 hx
  obtain ⟨hr, hall⟩ := List.mem_filter.1 hr
  have h1 : q.1 <:+: r := by
    have := hin _ q.1 (List.mem_map_of_mem (f := (·.1)) hq)
    rwa [← List.flatMap_def, marked_text] at this
  have h2 : r <:+: s := by
    have := hin _ r hr
    rwa [runs_flatten] at this
  refine ⟨by simpa using hne, h1.trans h2, fun c hc => ?_, ?_⟩
  · have := List.all_eq_true.1 hall c (h1.subset hc)
    simpa using this
  · have := marked_kinds (Punct v) r q hq
    split at this
    · exact .inl this
    · exact .inr this

/-- A tokenizer like BERT's: any normalizer; the pre-tokenizer of BERT, WordPiece with a prefix that begins with punctuation and
is longer than one character, as `##`, and its decoder. The unknown token is in the vocabulary, and is something like `[UNK]`. -/
structure IsBert (t : Tokenizer) (u : Unicode) (z : Normalizer) (v : CharTables) (w : WordPiece) (clean : Bool) : Prop where
  wordPiece : IsWordPiece t u z v .bert w clean
  space : v.ws ' ' = true
  pre : ∃ c p, w.continuingPrefix = c :: p ∧ p ≠ [] ∧ Punct v c = true
  unk : ∃ i, w.vocab.get w.unkToken = some i
  unkText : w.unkToken ≠ [] ∧ ¬ w.continuingPrefix <+: w.unkToken ∧ Plain w.unkToken

/-- **C70.** With the pre-tokenizer of BERT no condition on the words is left: whatever the text, if no added token occurs in it
before or after normalization, and none begins with the prefix. -/
theorem C70_bert {t : Tokenizer} {u z v w clean} (h : IsBert t u z v w clean)
    {build : List (Str × Nat) → Bool} {ops : List Op} (hav : t.added = after build t.view AddedVocab.empty ops)
    (hraw : ∀ x ∈ tokensOf ops, x.normalized = false ∧ ¬ w.continuingPrefix <+: x.content)
    (hset : Surrounds t.settings (IsSpecialId t.added)) {known : Str → Bool} (hkn : ∀ x, known x = true ↔ Writable w x)
    {s : Str} (hs : s ≠ []) (hfree : ∀ x ∈ tokensOf ops, ¬ x.content <:+: s ∧ ¬ x.content <:+: z.text u s)
    {add skip : Bool} (hskip : add = true → skip = true) :
    ∃ e, t.encode (.raw s, none) add = .ok e ∧ t.decode skip e.ids =
      some (glue (tightIf clean) (((cut v false .bert (z.text u s)).filter (· ≠ [])).filterMap
        (givenBack w known (skip && t.added.specials.contains w.unkToken)))) := by
  obtain ⟨c, p, e1, e2, e3⟩ := h.pre
  have hascii : ∀ d ∈ ['.', '?', '!', ',', '\''], Punct v d = true := by
    intro d hd
    unfold Punct
    simp only [List.mem_cons, List.not_mem_nil, or_false] at hd
    rcases hd with rfl | rfl | rfl | rfl | rfl <;> rw [Bool.or_eq_true] <;> exact .inl (by decide)
  refine C70_text h.wordPiece hav (fun x hx => (hraw x hx).1) hset hs rfl (fun x hx hp => ?_) (fun x _ => hkn x)
    (fun _ => h.unk) ⟨h.unkText.1, h.unkText.2.1⟩ (fun _ x hx => ?_)
    (fun x hx => ⟨(hfree x hx).1, (hfree x hx).2, fun r hr hin => ?_, (hraw x hx).2⟩) hskip
  · obtain ⟨_, _, _, h4⟩ := bert_words v _ x hx
    rw [e1] at hp
    obtain ⟨q, rfl⟩ := hp
    rcases h4 with ⟨d, h4, _⟩ | h4
    · simp only [List.cons_append, List.cons.injEq, List.append_eq_nil_iff] at h4
      exact e2 h4.2.1
    · rw [h4 c (by simp)] at e3; cases e3
  · rcases List.mem_cons.1 hx with rfl | hx
    · exact .inr h.unkText.2.2
    · obtain ⟨h1, _, h3, h4⟩ := bert_words v _ x hx
      have hsp : ' ' ∉ x := fun hin => by have := h3 _ hin; rw [h.space] at this; cases this
      rcases h4 with ⟨d, rfl, _⟩ | h4
      · exact .inl ⟨d, fun e => hsp (by simp [e]), rfl⟩
      · refine .inr ⟨hsp, fun hin => ?_, fun d hd hd' => ?_⟩
        · have := h4 _ hin; rw [hascii _ (by decide)] at this; cases this
        · have hdx : d ∈ x := by
            cases x with
            | nil => exact absurd rfl h1
            | cons a x => simp only [List.head?_cons, Option.mem_def, Option.some.injEq] at hd; simp [hd]
          have := h4 _ hdx
          rw [hascii d (by simp only [List.mem_cons, List.not_mem_nil, or_false] at hd' ⊢; rcases hd' with h | h | h | h <;> simp [h])] at this
          cases this
  · exact (hfree x hx).2 (hin.trans (bert_words v _ r hr).2.1)

/-- **C70.** Nothing is made of no text. -/
theorem C70_empty {t : Tokenizer} {u z v y w clean} (h : IsWordPiece t u z v y w clean)
    {build : List (Str × Nat) → Bool} {ops : List Op} (hav : t.added = after build t.view AddedVocab.empty ops)
    (hraw : ∀ x ∈ tokensOf ops, x.normalized = false) (hset : Surrounds t.settings (IsSpecialId t.added))
    {add skip : Bool} (hskip : add = true → skip = true) :
    ∃ e, t.encode (.raw [], none) add = .ok e ∧ t.decode skip e.ids = some [] := by
  have hm := h.ok
  have hinv : Inv t.view t.added := hav ▸ (after_inv hm build ops (inv_empty _)).1
  have hclean : Clean (tokensOf ops) t.added := by
    rw [hav]
    exact after_clean hm build ops (fun _ h => h) (.inr hraw) (inv_empty _)
      ⟨rfl, by simp [AddedVocab.empty, AMap.get], by simp [AddedVocab.empty]⟩
  obtain ⟨e, e1, e2, e3⟩ := pipeline_empty h.pipeline hset.1
  exact around hm hinv hclean hset h.decoder e1 e2 (ts := []) (by rw [e3]; rfl) (by simp) rfl hskip

end Tokenizer
end Tok
