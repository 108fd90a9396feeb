import Verif.Tokenizer.Training
import Verif.Train.UnigramCover

/-!
# Training a tokenizer: files, the single trainers, findings (C63)
-/

namespace Tok
namespace Tokenizer

open AddedVocab

/-! ## Files -/

/-- **C63.** The lines of a file: together they are the file, none is empty, `\n` is nowhere but at the end of a line, and
every line but the last has it. -/
theorem C63_lines (s : Str) : (linesWithEnding s).flatten = s ∧
    (∀ l ∈ linesWithEnding s, ∃ a b, l = a ++ b ∧ '\n' ∉ a ∧ (b = ['\n'] ∨ (b = [] ∧ a ≠ []))) ∧
    ∀ l ∈ (linesWithEnding s).dropLast, ∃ a, l = a ++ ['\n'] := by
  induction s with
  | nil => simp [linesWithEnding]
  | cons c cs ih =>
    obtain ⟨h1, h2, h3⟩ := ih
    rw [linesWithEnding]
    by_cases hc : c = '\n'
    · rw [if_pos hc]
      subst hc
      refine ⟨by simp [h1], ?_, ?_⟩
      · intro l hl
        rcases List.mem_cons.1 hl with rfl | hl
        · exact ⟨[], ['\n'], rfl, by simp, .inl rfl⟩
        · exact h2 l hl
      · intro l hl
        cases he : linesWithEnding cs with
        | nil => rw [he] at hl; simp at hl
        | cons x xs =>
          rw [he, List.dropLast_cons_cons] at hl
          rcases List.mem_cons.1 hl with rfl | hl
          · exact ⟨[], rfl⟩
          · exact h3 l (by rw [he]; exact hl)
    · rw [if_neg hc]
      cases he : linesWithEnding cs with
      | nil =>
        rw [he] at h1
        simp only [List.flatten_nil] at h1
        subst h1
        refine ⟨rfl, ?_, by simp⟩
        intro l hl
        rw [List.mem_singleton.1 hl]
        exact ⟨[c], [], rfl, by simpa using fun h => hc h.symm, .inr ⟨rfl, by simp⟩⟩
      | cons x xs =>
        rw [he] at h1 h2 h3
        refine ⟨by simpa using h1, ?_, ?_⟩
        · intro l hl
          rcases List.mem_cons.1 hl with rfl | hl
          · obtain ⟨a, b, rfl, ha, hb⟩ := h2 x (by simp)
            refine ⟨c :: a, b, rfl, by simpa using ⟨fun h => hc h.symm, ha⟩, ?_⟩
            rcases hb with hb | ⟨hb, -⟩
            · exact .inl hb
            · exact .inr ⟨hb, by simp⟩
          · exact h2 l (by simp [hl])
        · intro l hl
          cases xs with
          | nil => simp at hl
          | cons y ys =>
            rw [List.dropLast_cons_cons] at hl h3
            rcases List.mem_cons.1 hl with rfl | hl
            · obtain ⟨a, rfl⟩ := h3 x (by simp)
              exact ⟨c :: a, rfl⟩
            · exact h3 l (by simp [hl])

example : linesWithEnding "a\r\n\nb".toList = ["a\r\n".toList, "\n".toList, "b".toList] := by decide +kernel

/-- **C63.** If all lines can be read, training from files is training with the lines. -/
theorem C63_files (t : Tokenizer) (build : List (Str × Nat) → Bool) (norm : Norm) (group : List Str → Train.Tree)
    (lines : List Str) (trainer : AMap Str Nat → Except EncErr (NewModel × List AddedToken)) :
    t.trainFromFiles build norm group (lines.map .ok) trainer = t.train build norm (group lines) trainer := by
  have h : ∀ l : List Str, shunt (ε := Unit) (l.map .ok) = (l, none) := by
    intro l
    induction l with
    | nil => rfl
    | cons a l ih => simp only [List.map_cons, shunt, ih]
  unfold trainFromFiles
  rw [h]
  rfl

/-- **C63, finding.** If a line cannot be read (say, it is not UTF-8), the result is an error, but the tokenizer has been trained
with the lines before it all the same. -/
theorem C63_read_error (t : Tokenizer) (build : List (Str × Nat) → Bool) (norm : Norm) (group : List Str → Train.Tree)
    (before : List Str) (after : List (Except Unit Str))
    (trainer : AMap Str Nat → Except EncErr (NewModel × List AddedToken)) :
    t.trainFromFiles build norm group (before.map .ok ++ .error () :: after) trainer =
      ((t.train build norm (group before) trainer).1, .error (.preTok 0)) := by
  have h : ∀ l : List Str, shunt (l.map .ok ++ Except.error () :: after) = (l, some ()) := by
    intro l
    induction l with
    | nil => rfl
    | cons a l ih => simp only [List.map_cons, List.cons_append, shunt, ih]
  unfold trainFromFiles
  rw [h]
  rfl

/-- An error of the trainer or of cutting a sequence leaves the tokenizer as it was. -/
theorem C63_error_keeps (t : Tokenizer) (build : List (Str × Nat) → Bool) (norm : Norm) (tree : Train.Tree)
    (trainer : AMap Str Nat → Except EncErr (NewModel × List AddedToken)) {e : EncErr}
    (h : tree.eval t.trainWords = .error e ∨ ∃ wc, tree.eval t.trainWords = .ok wc ∧ trainer wc = .error e) :
    t.train build norm tree trainer = (t, .error e) := by
  unfold train
  rcases h with h | ⟨wc, h1, h2⟩
  · rw [h]
  · rw [h1]
    simp only [h2]

/-! ## The trainers -/

/-- The parts of a WordLevel model. -/
def ofWordLevel (w : WordLevel) : NewModel :=
  ⟨fun s => mapErr (fun _ => .model 0) (w.tokenize s), wordLevelView w, w.vocab⟩

/-- The parts of a WordPiece model. -/
def ofWordPiece (w : WordPiece) : NewModel :=
  ⟨fun s => mapErr (fun _ => .model 0) (w.tokenize s), wordPieceView w, w.vocab⟩

/-- The parts of a Unigram model. -/
def ofUnigram (u : Unigram) : NewModel :=
  ⟨fun s => match u.tokenize s with
    | .ok ts => .ok ts
    | .err _ => .error (.model 0)
    | .panic => .error (.model 1), unigramView u, u.tokenToIds⟩

/-- `WordLevelTrainer::train` (`wordlevel/trainer.rs:38-88`) as a trainer. -/
def wordLevelTrainer (specials : List AddedToken) (minFrequency vocabSize : Nat) (w : WordLevel) (wc : AMap Str Nat) :
    Except EncErr (NewModel × List AddedToken) :=
  .ok (ofWordLevel { w with vocab := Train.wordLevelTrain (specials.map (·.content)) minFrequency vocabSize wc }, specials)

/-- **C63 for WordLevel.** If the size of the vocabulary is no limit and every word is frequent enough, every piece of a training
sequence becomes one token with the text of the piece. -/
theorem C63_wordLevel {t t' : Tokenizer} {build : List (Str × Nat) → Bool} {norm : Norm} {tree : Train.Tree}
    {specials : List AddedToken} {minFrequency vocabSize : Nat} {w : WordLevel}
    (h : t.train build norm tree (wordLevelTrainer specials minFrequency vocabSize w) = (t', .ok ())) (he : t.added = empty)
    (hmin : minFrequency ≤ 1) (hnd : (specials.map (·.content)).Nodup)
    (hsize : ∀ wc, tree.eval t.trainWords = .ok wc → specials.length + wc.length ≤ vocabSize)
    (hraw : ∀ x ∈ specials, x.normalized = false) (hno : ∀ x ∈ specials, ∀ s ∈ tree.leaves, ¬ x.content <:+: s)
    (hword : ∀ x ∈ specials, ∀ wc n, tree.eval t.trainWords = .ok wc → (x.content, n) ∉ wc)
    {s : Str} (hs : s ∈ tree.leaves) (typeId : Nat) (ty : PTS.OffsetType) (word : Option Nat) :
    ∃ p e, ∃ toks : List (List Token), t.preTokenized s = .ok p ∧ t'.encodeText none typeId ty word s = .ok e ∧
      toks.length = p.splits.length ∧
      (∀ (i : Nat) x ts, p.splits[i]? = some x → toks[i]? = some ts →
        x.tokens = some ts ∨ (x.tokens = none ∧ ∃ id, ts = [⟨id, x.normalized.norm, (0, blen x.normalized.norm)⟩])) ∧
      e.ids = toks.flatten.map (·.id) := by
  refine C63_trained h (Good := fun word ts => ∃ id, ts = [⟨id, word, (0, blen word)⟩]) ?_ hs
    (C63_same_pieces h he fun wc m sp htr x hx => ?_) typeId ty word
  · intro wc m sp hwc htr v n hv hn
    cases htr
    obtain ⟨words, h1, hw, -, h2⟩ := Train.C40_vocab (specials.map (·.content)) minFrequency vocabSize (fed_wf hwc) hnd
      (fun c hc n => by
        obtain ⟨x, hx, rfl⟩ := List.mem_map.1 hc
        exact hword x hx wc n hwc)
    have hin : v ∈ (specials.map (·.content) ++ words.map (·.1)).take vocabSize := by
      rw [List.take_of_length_le]
      · exact List.mem_append_right _ (List.mem_map.2 ⟨(v, n), (h1 _).2 ⟨hv, by simp only; omega⟩, rfl⟩)
      · have := hsize wc hwc
        have hl : words.length ≤ wc.length :=
          Train.length_le_of_nodup_subset (List.Pairwise.of_map (·.1) (fun a b hab h => hab (by rw [h])) hw) fun p hp => ((h1 p).1 hp).1
        simp only [List.length_append, List.length_map]
        omega
    obtain ⟨i, hi⟩ := List.mem_iff_getElem?.1 hin
    refine ⟨[⟨i, v, (0, blen v)⟩], ?_, i, rfl⟩
    simp only [ofWordLevel, WordLevel.tokenize, (h2 v i).2 hi]
    rfl
  · cases htr
    exact ⟨hraw x hx, hno x hx s hs⟩

/-- What a training that succeeds puts into the tokenizer. -/
theorem train_ok {t t' : Tokenizer} {build : List (Str × Nat) → Bool} {norm : Norm} {tree : Train.Tree}
    {trainer : AMap Str Nat → Except EncErr (NewModel × List AddedToken)}
    (h : t.train build norm tree trainer = (t', .ok ())) : ∃ wc m sp, tree.eval t.trainWords = .ok wc ∧
      trainer wc = .ok (m, sp) ∧ t'.model = m.model ∧ t'.vocab = m.vocab := by
  unfold train at h
  split at h
  · cases h
  rename_i wc hwc
  split at h
  · cases h
  rename_i m sp htr
  simp only [Prod.mk.injEq] at h
  exact ⟨wc, m, sp, hwc, htr, by rw [← h.1], by rw [← h.1]⟩

/-- `WordPieceTrainer::train` (`wordpiece/trainer.rs:169-181`) as a trainer; the loop is given `fuel` rounds. -/
def wordPieceTrainer (cfg : Train.BpeCfg) (order : AMap Char Nat → AMap Char Nat) (fuel : Nat) (specials : List AddedToken)
    (w : WordPiece) (wc : AMap Str Nat) : Except EncErr (NewModel × List AddedToken) :=
  match Train.loop cfg (wc.map (·.2)) fuel (Train.start cfg order wc) with
  | .stop s =>
    match Train.trainWordPiece cfg s w with
    | some w' => .ok (ofWordPiece w', specials)
    | none => .error (.model 1)
  | _ => .error (.model 2)

/-- **C63 for WordPiece.** Every piece of a training sequence that is not too long is cut greedily, longest first, into entries
of the trained vocabulary. -/
theorem C63_wordPiece {t t' : Tokenizer} {build : List (Str × Nat) → Bool} {norm : Norm} {tree : Train.Tree}
    {cfg : Train.BpeCfg} {order : AMap Char Nat → AMap Char Nat} {fuel : Nat} {specials : List AddedToken} {w : WordPiece}
    (h : t.train build norm tree (wordPieceTrainer cfg order fuel specials w) = (t', .ok ())) (he : t.added = empty)
    (ho : Train.IsOrder order) (hl : ∀ wc, tree.eval t.trainWords = .ok wc → Train.EnoughRoom cfg (wc.map (·.1)))
    {pre : Str} (hp : cfg.pre = some pre) (hsuf : cfg.suf = none)
    (hraw : ∀ x ∈ specials, x.normalized = false) (hno : ∀ x ∈ specials, ∀ s ∈ tree.leaves, ¬ x.content <:+: s)
    (hlen : ∀ wc, tree.eval t.trainWords = .ok wc → ∀ q ∈ wc, q.1.length ≤ w.maxInputChars) :
    ∃ w' : WordPiece, t'.vocab = w'.vocab ∧ w'.continuingPrefix = pre ∧ ∀ s ∈ tree.leaves, ∀ typeId ty word,
      ∃ p e, ∃ toks : List (List Token), t.preTokenized s = .ok p ∧ t'.encodeText none typeId ty word s = .ok e ∧
        toks.length = p.splits.length ∧
        (∀ (i : Nat) x ts, p.splits[i]? = some x → toks[i]? = some ts →
          x.tokens = some ts ∨ (x.tokens = none ∧ w'.Greedy 0 x.normalized.norm ts)) ∧
        e.ids = toks.flatten.map (·.id) := by
  obtain ⟨wc, m, sp, hwc, htr, hmod, hvoc⟩ := train_ok h
  have hsp : ∀ wc m sp, wordPieceTrainer cfg order fuel specials w wc = .ok (m, sp) → sp = specials ∧
      ∃ st w', Train.Reached cfg order wc st ∧ Train.trainWordPiece cfg st w = some w' ∧ m = ofWordPiece w' := by
    intro wc m sp htr
    unfold wordPieceTrainer at htr
    split at htr
    · rename_i st hst
      split at htr
      · rename_i w' hw'
        cases htr
        exact ⟨rfl, st, w', ⟨fuel, .inr hst⟩, hw', rfl⟩
      · cases htr
    · cases htr
  obtain ⟨-, st, w', hr, hw', rfl⟩ := hsp wc m sp htr
  obtain ⟨w1, g1, -, -, -, -, g2⟩ := Train.C62_vocab hr w
  rw [hw'] at g1
  cases g1
  refine ⟨w', hvoc, by rw [g2, hp]; rfl, fun s hs typeId ty word => ?_⟩
  refine C63_trained h (Good := w'.Greedy 0) ?_ hs (C63_same_pieces h he fun wc m sp htr x hx => ?_) typeId ty word
  · intro wc1 m1 sp1 hwc1 htr1 v n hv hn
    rw [hwc] at hwc1
    cases hwc1
    rw [htr] at htr1
    cases htr1
    obtain ⟨ts, k1, k2⟩ := Train.C62_corpus ho (hl wc hwc) hp hsuf hr hw' hv (hlen wc hwc _ hv)
    exact ⟨ts, by simp only [ofWordPiece, k1]; rfl, k2⟩
  · obtain ⟨rfl, -⟩ := hsp wc m sp htr
    exact ⟨hraw x hx, hno x hx s hs⟩

/-- `UnigramTrainer::train` (`unigram/trainer.rs:644-647`) as a trainer; `suffix` finds the frequent substrings, the loop is given
`fuel` rounds. -/
def unigramTrainer (c : Train.UniCfg) (ar : Train.Arith) (order : List Char → List Char)
    (suffix : AMap Str Nat → List (Str × Nat)) (fuel : Nat) (specials : List AddedToken) (wc : AMap Str Nat) :
    Except EncErr (NewModel × List AddedToken) :=
  match c.doTrain ar order (suffix wc) wc fuel with
  | some (.ok u) => .ok (ofUnigram u, specials)
  | _ => .error (.model 2)

/-- **C63 for Unigram.** The tokens of a piece of a training sequence spell the piece, and are entries of the trained vocabulary,
if the piece does not contain the unknown token. -/
theorem C63_unigram {t t' : Tokenizer} {build : List (Str × Nat) → Bool} {norm : Norm} {tree : Train.Tree}
    {c : Train.UniCfg} {ar : Train.Arith} {order : List Char → List Char} {suffix : AMap Str Nat → List (Str × Nat)} {fuel : Nat}
    {specials : List AddedToken}
    (h : t.train build norm tree (unigramTrainer c ar order suffix fuel specials) = (t', .ok ())) (he : t.added = empty)
    (ho : Train.SetOrder order)
    (hraw : ∀ x ∈ specials, x.normalized = false) (hno : ∀ x ∈ specials, ∀ s ∈ tree.leaves, ¬ x.content <:+: s)
    (hunk : ∀ wc, tree.eval t.trainWords = .ok wc → ∀ q ∈ wc, ∀ u, c.unk = some u → ¬ u <:+: q.1) :
    ∃ u : Unigram, t'.vocab = u.tokenToIds ∧ ∀ s ∈ tree.leaves, ∀ typeId ty word,
      ∃ p e, ∃ toks : List (List Token), t.preTokenized s = .ok p ∧ t'.encodeText none typeId ty word s = .ok e ∧
        toks.length = p.splits.length ∧
        (∀ (i : Nat) x ts, p.splits[i]? = some x → toks[i]? = some ts →
          x.tokens = some ts ∨ (x.tokens = none ∧ (ts.map (·.value)).flatten = x.normalized.norm ∧
            ∀ k ∈ ts, u.vocab[k.id]?.map (·.1) = some k.value)) ∧
        e.ids = toks.flatten.map (·.id) := by
  obtain ⟨wc, m, sp, hwc, htr, hmod, hvoc⟩ := train_ok h
  have hsp : ∀ wc m sp, unigramTrainer c ar order suffix fuel specials wc = .ok (m, sp) → sp = specials ∧
      ∃ u, c.doTrain ar order (suffix wc) wc fuel = some (.ok u) ∧ m = ofUnigram u := by
    intro wc m sp htr
    unfold unigramTrainer at htr
    split at htr
    · rename_i u hu
      cases htr
      exact ⟨rfl, u, hu, rfl⟩
    · cases htr
  obtain ⟨-, u, hu, rfl⟩ := hsp wc m sp htr
  refine ⟨u, hvoc, fun s hs typeId ty word => ?_⟩
  refine C63_trained h (Good := fun v ts => (ts.map (·.value)).flatten = v ∧ ∀ k ∈ ts, u.vocab[k.id]?.map (·.1) = some k.value) ?_
    hs (C63_same_pieces h he fun wc m sp htr x hx => ?_) typeId ty word
  · intro wc1 m1 sp1 hwc1 htr1 v n hv hn
    rw [hwc] at hwc1
    cases hwc1
    rw [htr] at htr1
    cases htr1
    obtain ⟨ts, k1, k2⟩ := Train.C61_corpus ho hu hv (hunk wc hwc _ hv)
    exact ⟨ts, by simp only [ofUnigram, k1], k2⟩
  · obtain ⟨rfl, -⟩ := hsp wc m sp htr
    exact ⟨hraw x hx, hno x hx s hs⟩

/-! ## Cases and findings -/

/-- An untrained WordLevel tokenizer that cuts at spaces. -/
def untrained : Tokenizer :=
  let w : WordLevel := ⟨[], "[UNK]".toList⟩
  { plain (wordLevelView w) [] (ofWordLevel w).model with preTok := atSpaces }

/-- Its trainer. -/
def sampleTrainer (specials : List Str) : AMap Str Nat → Except EncErr (NewModel × List AddedToken) :=
  wordLevelTrainer (specials.map fun s => .ofStr s true) 0 30000 ⟨[], "[UNK]".toList⟩

/-- Two sequences. -/
def sampleTree (a b : Str) : Train.Tree := .node (.leaf a) (.node .unit (.leaf b))

/-- What training made of the tokenizer `t`, and whether it succeeded. -/
def trainedOn (t : Tokenizer) (specials : List Str) (a b : Str) : Tokenizer × Bool :=
  let r := t.train (fun _ => true) none (sampleTree a b) (sampleTrainer specials)
  (r.1, r.2.toOption.isSome)

/-- The tokens a tokenizer makes of a text. -/
def shownTokens (t : Tokenizer) (s : Str) : Option (List (Nat × Str)) :=
  (t.encodeText none 0 .byte none s).toOption.map fun e => e.ids.zip e.tokens

example : (trainedOn untrained ["[UNK]".toList] "b a b".toList "c".toList).2 = true ∧
    shownTokens (trainedOn untrained ["[UNK]".toList] "b a b".toList "c".toList).1 "b a b".toList =
      some [(1, "b".toList), (2, "a".toList), (1, "b".toList)] := by decide +kernel


/-- The counts of the sample. -/
theorem sample_counts : (sampleTree "b a b".toList "c".toList).eval untrained.trainWords =
    .ok [("c".toList, 1), ("b".toList, 2), ("a".toList, 1)] := by
  have h : ((sampleTree "b a b".toList "c".toList).eval untrained.trainWords).toOption =
    some [("c".toList, 1), ("b".toList, 2), ("a".toList, 1)] := by decide +kernel
  revert h
  cases (sampleTree "b a b".toList "c".toList).eval untrained.trainWords with
  | error e => intro h; cases h
  | ok wc => intro h; rw [Option.some.inj h]

/-- The hypotheses of `C63_wordLevel` hold for the sample. -/
example : ∃ t', untrained.train (fun _ => true) none (sampleTree "b a b".toList "c".toList) (sampleTrainer ["[UNK]".toList]) =
    (t', .ok ()) ∧ ∃ p e, ∃ toks : List (List Token), untrained.preTokenized "b a b".toList = .ok p ∧
      t'.encodeText none 0 .byte none "b a b".toList = .ok e ∧ toks.length = p.splits.length ∧
      (∀ (i : Nat) x ts, p.splits[i]? = some x → toks[i]? = some ts →
        x.tokens = some ts ∨ (x.tokens = none ∧ ∃ id, ts = [⟨id, x.normalized.norm, (0, blen x.normalized.norm)⟩])) ∧
      e.ids = toks.flatten.map (·.id) := by
  have h : (trainedOn untrained ["[UNK]".toList] "b a b".toList "c".toList).2 = true := by decide +kernel
  have h' : untrained.train (fun _ => true) none (sampleTree "b a b".toList "c".toList) (sampleTrainer ["[UNK]".toList]) =
      ((trainedOn untrained ["[UNK]".toList] "b a b".toList "c".toList).1, .ok ()) := by
    unfold trainedOn at h ⊢
    simp only at h ⊢
    generalize untrained.train (fun _ => true) none (sampleTree "b a b".toList "c".toList) (sampleTrainer ["[UNK]".toList]) = r at *
    obtain ⟨a, b⟩ := r
    cases b with
    | error e => cases h
    | ok u => rfl
  refine ⟨_, h', C63_wordLevel h' rfl (by decide) (by decide) ?_ (by decide) (by decide) ?_ (by decide) 0 .byte none⟩
  · intro wc hwc
    rw [sample_counts] at hwc
    cases hwc
    decide
  · intro x hx wc n hwc
    rw [sample_counts] at hwc
    cases hwc
    simp only [List.map_cons, List.map_nil, List.mem_singleton] at hx
    rw [hx]
    intro hin
    have := List.mem_map_of_mem (f := (·.1)) hin
    simp only at this
    revert this
    decide

/-- A WordPiece tokenizer, trained. -/
def piecesTrained : Tokenizer × Bool :=
  let r := untrained.train (fun _ => true) none (sampleTree "ab abc".toList "ab".toList)
    (wordPieceTrainer Train.hashCfg id 20 [.ofStr "[UNK]".toList true] Train.defaultWordPiece)
  (r.1, r.2.toOption.isSome)

example : piecesTrained.2 = true ∧ shownTokens piecesTrained.1 "abc ab acb".toList =
    some [(6, "abc".toList), (5, "ab".toList), (0, "a".toList), (4, "##c".toList), (3, "##b".toList)] := by
  decide +kernel

/-- **C63, finding.** The special tokens are looked for only after training. In the training text they are parts of words, and the
pieces around them have not been seen: `a`, of a training sequence, is unknown. -/
theorem C63_special_cuts : ∃ t, trainedOn untrained ["[UNK]".toList, "<s>".toList] "b a<s>b".toList "c".toList = (t, true) ∧
    t.vocab.get "a<s>b".toList = some 2 ∧
    shownTokens t "b a<s>b".toList = some [(3, "b".toList), (0, "[UNK]".toList), (1, "<s>".toList), (3, "b".toList)] := by
  refine ⟨(trainedOn untrained ["[UNK]".toList, "<s>".toList] "b a<s>b".toList "c".toList).1, Prod.ext rfl ?_, ?_, ?_⟩
  · decide +kernel
  · decide +kernel
  · decide +kernel

/-- A tokenizer to which the special token `<s>` was added before training. -/
def early : Tokenizer :=
  { untrained with added := (untrained.added.addTokens (fun _ => true) untrained.view none [.ofStr "<s>".toList true]).1 }

example : shownTokens early "<s>".toList = some [(0, "<s>".toList)] := by decide +kernel

/-- **C63, finding.** Added tokens found in the training text are counted as words: the model gets an entry for them, with an id
of its own. -/
theorem C63_added_fed : ∃ t, trainedOn early ["[UNK]".toList] "b a<s>b".toList "c".toList = (t, true) ∧
    t.vocab.get "<s>".toList = some 2 ∧ t.tokenToId "<s>".toList = some 0 := by
  refine ⟨(trainedOn early ["[UNK]".toList] "b a<s>b".toList "c".toList).1, Prod.ext rfl ?_, ?_, ?_⟩
  · decide +kernel
  · decide +kernel
  · decide +kernel

/-- **C63, finding.** Training does not renumber the added tokens. If a special token of the trainer gets the id of one of them, that
one is not found any more; its text still has the id. -/
theorem C63_added_lost : ∃ t, trainedOn early ["[UNK]".toList] "b a".toList "c".toList = (t, true) ∧
    t.tokenToId "<s>".toList = some 0 ∧ t.idToToken 0 = some "[UNK]".toList ∧
    shownTokens t "b <s>".toList = some [(2, "b".toList), (0, "[UNK]".toList)] := by
  refine ⟨(trainedOn early ["[UNK]".toList] "b a".toList "c".toList).1, Prod.ext rfl ?_, ?_, ?_, ?_⟩
  · decide +kernel
  · decide +kernel
  · decide +kernel
  · decide +kernel

/-- **C63, finding.** Naming it as a special token of the trainer does not help: then it and the unknown token of the model share
an id, and what was unknown is decoded as `<s>`. -/
theorem C63_ids_collide : ∃ t, trainedOn early ["[UNK]".toList, "<s>".toList] "b a".toList "c".toList = (t, true) ∧
    shownTokens t "b <s> ?".toList = some [(3, "b".toList), (0, "<s>".toList), (0, "[UNK]".toList)] ∧
    t.decode false [3, 0] = some "b <s>".toList := by
  refine ⟨(trainedOn early ["[UNK]".toList, "<s>".toList] "b a".toList "c".toList).1, Prod.ext rfl ?_, ?_, ?_⟩
  · decide +kernel
  · decide +kernel
  · decide +kernel

end Tokenizer
end Tok
