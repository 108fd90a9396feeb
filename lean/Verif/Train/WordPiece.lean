import Verif.Train.BpeOrder
import Verif.Train.BpeExamples
import Verif.Models.WordPiece

/-!
# Training WordPiece (C62)

Model of `models/wordpiece/trainer.rs` and `WordPiece::from_bpe`. The trainer is the BPE trainer; the merges are thrown away.
-/

namespace Tok.Train

open Tok.Bpe

/-- `BPE::default()` as far as the trainer reads or keeps it (`bpe/model.rs:69-88`, `model.rs:310-314`). -/
def defaultBpe : Bpe := ⟨[], [], [], false, none, none, none, false, false, false⟩

/-- `WordPiece::default()` (`wordpiece/mod.rs:144-154`). -/
def defaultWordPiece : WordPiece := ⟨[], "[UNK]".toList, "##".toList, 100⟩

/-- `WordPiece::from_bpe` (`wordpiece/mod.rs:198-210`); `unk` is the unknown token of the BPE model. -/
def fromBpe (b : Bpe) : WordPiece :=
  { vocab := b.vocab
    unkToken := (b.unk.getD defaultWordPiece.unkToken)
    continuingPrefix := (b.pre.getD defaultWordPiece.continuingPrefix)
    maxInputChars := defaultWordPiece.maxInputChars }

/-- `WordPieceTrainer::train` (`wordpiece/trainer.rs:169-181`), once the loop has ended in state `s`: only vocabulary and prefix
of the model are replaced. `none` is a panic. (The special tokens returned are those of the settings.) -/
def trainWordPiece (cfg : BpeCfg) (s : St) (w : WordPiece) : Option WordPiece :=
  (finish cfg s defaultBpe).map fun b =>
    { w with vocab := (fromBpe b).vocab, continuingPrefix := (fromBpe b).continuingPrefix }

/-! ## Specification -/

/-- The word begins with a character of the corpus and goes on with characters that go on a word of the corpus. -/
def Coverable (wc : AMap Str Nat) : Str → Prop
  | [] => True
  | c :: cs => (∃ p ∈ wc, c ∈ p.1) ∧ ∀ d ∈ cs, ∃ p ∈ wc, d ∈ p.1.tail

/-! ## The vocabulary only grows -/

section
variable {cfg : BpeCfg} {order : AMap Char Nat → AMap Char Nat} {wc : AMap Str Nat}

theorem step_grows {counts : List Nat} {s s' : St} (h : step cfg counts s = .more s' ∨ step cfg counts s = .stop s') :
    ∀ t ∈ s.voc.id2w, t ∈ s'.voc.id2w := by
  have hadd : ∀ (v : Voc) (x t : Str), t ∈ v.id2w → t ∈ (v.add x).id2w := by
    intro v x t ht
    unfold Voc.add
    split
    · exact ht
    · simp [ht]
  unfold step at h
  intro t ht
  split at h
  · rcases h with h | h <;> cases h; exact ht
  split at h
  · rcases h with h | h <;> cases h; exact ht
  split at h
  · rcases h with h | h <;> cases h
  split at h
  · rcases h with h | h <;> cases h; exact ht
  split at h
  · rcases h with h | h <;> cases h; exact ht
  unfold doMerge at h
  split at h
  · simp only at h
    split at h
    · rcases h with h | h <;> cases h
      exact hadd _ _ t ht
    · rcases h with h | h <;> cases h
  · rcases h with h | h <;> cases h

theorem loop_grows {counts : List Nat} : ∀ (fuel : Nat) {s s' : St},
    (loop cfg counts fuel s = .more s' ∨ loop cfg counts fuel s = .stop s') → ∀ t ∈ s.voc.id2w, t ∈ s'.voc.id2w
  | 0, s, s', h, t, ht => by rcases h with h | h <;> cases h; exact ht
  | fuel + 1, s, s', h, t, ht => by
    rw [loop] at h
    have g := @step_grows cfg counts s
    generalize step cfg counts s = o at h g
    cases o with
    | panic => rcases h with h | h <;> cases h
    | stop s1 => rcases h with h | h <;> cases h; exact g (.inr rfl) t ht
    | more s1 => exact loop_grows fuel h t (g (.inl rfl) t ht)

theorem wordStrs_mem {K : Char → Bool} (hs : cfg.suf = none) : ∀ (w : Str) (first : Bool), (∀ c ∈ w, K c = true) →
    (first = true → ∀ c cs, w = c :: cs → [c] ∈ wordStrs cfg K first w) ∧
    ∀ d ∈ (if first then w.tail else w), (cfg.pre.getD [] ++ [d]) ∈ wordStrs cfg K first w
  | [], first, _ => by cases first <;> simp
  | c :: cs, first, hk => by
    obtain ⟨_, ih⟩ := wordStrs_mem hs cs false fun d hd => hk d (by simp [hd])
    rw [wordStrs, if_pos (hk c (by simp))]
    have ha : ∀ last, atomStr cfg first last c = if first then [c] else cfg.pre.getD [] ++ [c] := by
      intro last
      unfold atomStr
      cases first <;> cases last <;> simp [hs] <;> cases cfg.pre <;> simp
    rw [ha]
    refine ⟨fun hf c' cs' e => ?_, fun d hd => ?_⟩
    · cases e
      rw [hf]
      simp
    · cases first with
      | true => exact List.mem_cons_of_mem _ (ih d (by simpa using hd))
      | false =>
        simp only [Bool.false_eq_true, if_false] at hd ⊢
        rcases List.mem_cons.1 hd with rfl | hd
        · simp
        · exact List.mem_cons_of_mem _ (ih d (by simpa using hd))

/-- A word can be segmented if each of its characters is an entry, with the prefix unless it is the first. -/
theorem greedy_exists {w : WordPiece} : ∀ (n : Nat) (start : Nat) (s : Str), s.length ≤ n →
    (∀ c cs, s = c :: cs → (w.vocab.get (w.shown start [c])).isSome) →
    (∀ d ∈ s.tail, (w.vocab.get (w.continuingPrefix ++ [d])).isSome) → ∃ ts, w.Greedy start s ts
  | _, start, [], _, _, _ => ⟨[], .nil _⟩
  | 0, _, _ :: _, h, _, _ => by simp at h
  | n + 1, start, c :: cs, hn, h1, h2 => by
    cases hl : w.longest start (c :: cs) (cs.length + 1) with
    | none =>
      have := WordPiece.longest_none w start _ _ hl [c] ⟨cs, rfl⟩ (by simp) (by simp)
      have h1 := h1 c cs rfl
      rw [this] at h1
      cases h1
    | some tr =>
      obtain ⟨m, id, e, hm, -⟩ := WordPiece.longest_some w start _ _ (by simp) (by
        intro m' hp hlt
        have := hp.length_le
        simp at this hlt
        omega) tr.1 tr.2 hl
      obtain ⟨a, m', rfl⟩ : ∃ a m', m = a :: m' := by
        cases m with
        | nil => exact absurd rfl hm.1
        | cons a m' => exact ⟨a, m', rfl⟩
      simp only [List.cons_append, List.cons.injEq] at e
      obtain ⟨rfl, e⟩ := e
      have hpos : 0 < start + blen (c :: m') := by
        have := Char.utf8Size_pos c
        simp only [blen, List.map_cons, List.sum_cons]
        omega
      have hlen : tr.2.length ≤ n := by
        have := congrArg List.length e
        simp only [List.length_append, List.length_cons] at this hn
        omega
      obtain ⟨ts, hts⟩ := greedy_exists n (start + blen (c :: m')) tr.2 hlen
        (by
          intro d ds ed
          have := h2 d (by simp [e, ed])
          obtain ⟨k, hk⟩ := Nat.exists_eq_add_of_lt hpos
          rw [show start + blen (c :: m') = k + 1 by omega]
          exact this)
        (by
          intro d hd
          exact h2 d (by simp [e, List.mem_of_mem_tail hd]))
      have : c :: cs = (c :: m') ++ tr.2 := by simp [e]
      rw [this] at hm ⊢
      exact ⟨_, .cons hm hts⟩

/-- The entries of the trained model: ids `0, …, n - 1`, each for one token, in every state training gets to. -/
theorem C62_vocab {s : St} (h : Reached cfg order wc s) (w : WordPiece) :
    ∃ w', trainWordPiece cfg s w = some w' ∧ (∀ t i, w'.vocab.get t = some i ↔ s.voc.id2w[i]? = some t) ∧
      s.voc.id2w.Nodup ∧ w'.unkToken = w.unkToken ∧ w'.maxInputChars = w.maxInputChars ∧
      w'.continuingPrefix = cfg.pre.getD "##".toList := by
  obtain ⟨b, h1, _, h2, _, _, h3, _⟩ := finish_spec (cfg := cfg) (reached_voc h).voc defaultBpe
  refine ⟨{ w with vocab := b.vocab, continuingPrefix := (fromBpe b).continuingPrefix }, by rw [trainWordPiece, h1]; rfl, h2, (C41_vocab h).1, rfl, rfl, ?_⟩
  simp only [fromBpe, h3]
  rfl

/-- **C62.** If the trainer has a prefix and no suffix, and its limit of the alphabet has room for all characters, the trained
model segments every word that begins with a character of the corpus and goes on with characters that go on words of the corpus. -/
theorem C62_covers (ho : IsOrder order) (hl : EnoughRoom cfg (wc.map (·.1))) {p : Str} (hp : cfg.pre = some p) (hs : cfg.suf = none)
    {s : St} (h : Reached cfg order wc s) {w w' : WordPiece} (hw : trainWordPiece cfg s w = some w') {word : Str}
    (hc : Coverable wc word) (hlen : word.length ≤ w.maxInputChars) :
    ∃ ts, w'.tokenize word = .ok ts ∧ w'.Greedy 0 word ts := by
  obtain ⟨w1, h1, h2, _, _, h3, h4⟩ := C62_vocab h w
  rw [hw] at h1
  cases h1
  obtain ⟨g1, g2, g3, g4, g5⟩ := start_spec cfg order wc
  have hkept : ∀ q ∈ wc, ∀ c ∈ q.1, kept cfg order wc c = true := fun q hq c hc => C41_all_kept ho wc hl hq hc
  have hin : ∀ t ∈ (start cfg order wc).voc.id2w, (w'.vocab.get t).isSome := by
    intro t ht
    obtain ⟨fuel, hf⟩ := h
    obtain ⟨i, hi⟩ := List.mem_iff_getElem?.1 (loop_grows fuel hf t ht)
    rw [(h2 t i).2 hi]
    rfl
  have hpre : w'.continuingPrefix = p := by rw [h4, hp]; rfl
  have hatoms : ∀ q ∈ wc, ∀ t ∈ wordStrs cfg (kept cfg order wc) true q.1, t ∈ (start cfg order wc).voc.id2w := by
    intro q hq t ht
    obtain ⟨i, hi⟩ := List.mem_iff_getElem?.1 hq
    obtain ⟨syms, -, e2⟩ := g5.get.2 i _ hi
    generalize wordStrs cfg (kept cfg order wc) true q.1 = l at ht e2
    induction l generalizing syms with
    | nil => cases ht
    | cons a l ih =>
      cases syms with
      | nil => exact e2.elim
      | cons x syms =>
        obtain ⟨-, e3, e4⟩ := e2
        rcases List.mem_cons.1 ht with rfl | ht
        · exact List.mem_of_getElem? e3
        · exact ih syms ht e4
  have hG : ∃ ts, w'.Greedy 0 word ts := by
    cases word with
    | nil => exact ⟨[], .nil _⟩
    | cons c cs =>
      obtain ⟨⟨q, hq, hcq⟩, hds⟩ := hc
      refine greedy_exists _ 0 (c :: cs) (Nat.le_refl _) ?_ ?_
      · intro c' cs' e
        cases e
        exact hin [c] ((g2 c).1 (hkept q hq c hcq))
      · intro d hd
        obtain ⟨r, hr, hdr⟩ := hds d hd
        rw [hpre]
        have := (wordStrs_mem (K := kept cfg order wc) hs r.1 true (hkept r hr)).2 d (by simpa using hdr)
        rw [hp] at this
        exact hin _ (hatoms r hr _ this)
  obtain ⟨ts, hts⟩ := hG
  exact ⟨ts, (WordPiece.C21_tokenize w' word (.ok ts)).2 (.inl ⟨by rw [h3]; exact hlen, ts, hts, rfl⟩), hts⟩

/-- **C62.** In particular the words it was trained on. -/
theorem C62_corpus (ho : IsOrder order) (hl : EnoughRoom cfg (wc.map (·.1))) {p : Str} (hp : cfg.pre = some p) (hs : cfg.suf = none)
    {s : St} (h : Reached cfg order wc s) {w w' : WordPiece} (hw : trainWordPiece cfg s w = some w') {q : Str × Nat}
    (hq : q ∈ wc) (hlen : q.1.length ≤ w.maxInputChars) : ∃ ts, w'.tokenize q.1 = .ok ts ∧ w'.Greedy 0 q.1 ts := by
  refine C62_covers ho hl hp hs h hw ?_ hlen
  obtain ⟨word, n⟩ := q
  cases word with
  | nil => trivial
  | cons c cs => exact ⟨⟨_, hq, by simp⟩, fun d hd => ⟨_, hq, by simpa using hd⟩⟩

end

/-! ## Cases -/

/-- What the trained model makes of a word. -/
def trainedTokens (cfg : BpeCfg) (wc : AMap Str Nat) (fuel : Nat) (word : Str) : Option (Option (List Str)) :=
  match loop cfg (wc.map (·.2)) fuel (start cfg id wc) with
  | .stop s => (trainWordPiece cfg s defaultWordPiece).map fun w => ((w.tokenize word).toOption).map (·.map (·.value))
  | _ => none

/-- The hypotheses are met: words of the corpus and others, in pieces. `hashCfg` has the prefix `##`. -/
example : trainedTokens { hashCfg with vocabSize := 16 } hugCounts 50 ['h', 'u', 'g', 's'] = some (some [['h', 'u', 'g'], ['#', '#', 's']]) ∧
    trainedTokens { hashCfg with vocabSize := 16 } hugCounts 50 ['s', 'u', 'n'] = some (some [['s'], ['#', '#', 'u', 'n']]) ∧
    Coverable hugCounts ['s', 'u', 'n'] := by
  refine ⟨by decide +kernel, by decide +kernel, ⟨_, by simp [hugCounts]; right; right; right; right; rfl, by simp⟩, ?_⟩
  intro d hd
  simp only [List.mem_cons, List.not_mem_nil, or_false] at hd
  exact ⟨(['p', 'u', 'n'], 12), by simp [hugCounts], by simpa using hd⟩

/-- **C62, finding.** A trainer without prefix (`WordPieceTrainer::default()`, or `set_continuing_subword_prefix(None)`) does
not take the prefix `##` from the model: the trained model cannot tokenize a training word. -/
theorem C62_no_prefix : ∃ (cfg : BpeCfg) (wc : AMap Str Nat) (word : Str) (n : Nat), cfg.pre = none ∧ cfg.suf = none ∧
    cfg.limitAlphabet = none ∧ (word, n) ∈ wc ∧ trainedTokens cfg wc 20 word = some none :=
  ⟨plainCfg 2, [(['a', 'b'], 1)], ['a', 'b'], 1, rfl, rfl, rfl, by simp, by decide +kernel⟩

/-- **C62, finding.** An `end_of_word_suffix` is used in training, but not by the model. -/
theorem C62_suffix : ∃ (cfg : BpeCfg) (wc : AMap Str Nat) (word : Str) (n : Nat), cfg.pre = some ['#', '#'] ∧
    cfg.limitAlphabet = none ∧ (word, n) ∈ wc ∧ trainedTokens cfg wc 20 word = some none :=
  ⟨{ hashCfg with suf := some ['_'] }, [(['a', 'b'], 1)], ['a', 'b'], 1, rfl, rfl, by simp, by decide +kernel⟩

/-- With a limit of the alphabet, a word with a character left out is unknown as a whole. -/
theorem C62_limit : ∃ (cfg : BpeCfg) (wc : AMap Str Nat) (word : Str) (n : Nat), cfg.pre = some ['#', '#'] ∧
    cfg.suf = none ∧ (word, n) ∈ wc ∧ trainedTokens cfg wc 20 word = some none :=
  ⟨{ hashCfg with limitAlphabet := some 1 }, [(['a', 'a', 'b'], 1)], ['a', 'a', 'b'], 1, rfl, rfl, by simp, by decide +kernel⟩

end Tok.Train
