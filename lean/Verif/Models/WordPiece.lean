import Verif.BaseLemmas

/-!
# WordPiece (C21) and WordLevel (C22)

Model of `models/wordpiece/mod.rs` and `models/wordlevel/mod.rs`.
-/

namespace Tok

/-- `WordPiece` (`wordpiece/mod.rs:124-130`); `vocab_r` is only used by `id_to_token`. -/
structure WordPiece where
  vocab : AMap Str Nat
  unkToken : Str
  continuingPrefix : Str
  maxInputChars : Nat

namespace WordPiece

/-- `substr` (`wordpiece/mod.rs:246-250`): the part of the word, with the prefix unless it is the first. -/
def candidate (w : WordPiece) (start : Nat) (m : Str) : Str :=
  if start > 0 then w.continuingPrefix ++ m else m

/-- The inner loop (`wordpiece/mod.rs:245-260`) over the text `rest` from `start` on: it looks up
`sequence[start..end]`, `end` moving left by one character each time. The number is that of the characters
of the current part. (`substr.chars().last()` is a character of the text, which is not empty.) It returns the
token and the text after it. -/
def longest (w : WordPiece) (start : Nat) (rest : Str) : Nat → Option (Token × Str)
  | 0 => none
  | k + 1 =>
    let m := rest.take (k + 1)
    match w.vocab.get (w.candidate start m) with
    | some id => some (⟨id, w.candidate start m, (start, start + blen m)⟩, rest.drop (k + 1))
    | none => longest w start rest k

/-- The outer loop (`wordpiece/mod.rs:241-269`); `none` is `is_bad`. `start` always moves, so the number of
characters bounds the number of rounds. -/
def pieces (w : WordPiece) : Nat → Nat → Str → Option (List Token)
  | _, _, [] => some []
  | 0, _, _ :: _ => none
  | fuel + 1, start, c :: cs =>
    match w.longest start (c :: cs) (cs.length + 1) with
    | none => none
    | some (t, rest) => (pieces w fuel t.offsets.2 rest).map (t :: ·)

/-- The single unknown token (`wordpiece/mod.rs:226-234`, `271-279`); the error is `MissingUnkToken`. -/
def unknown (w : WordPiece) (s : Str) : Except Unit (List Token) :=
  match w.vocab.get w.unkToken with
  | some id => .ok [⟨id, w.unkToken, (0, blen s)⟩]
  | none => .error ()

/-- `tokenize` (`wordpiece/mod.rs:224-283`). -/
def tokenize (w : WordPiece) (s : Str) : Except Unit (List Token) :=
  if s.length > w.maxInputChars then w.unknown s
  else match w.pieces s.length 0 s with
    | none => w.unknown s
    | some ts => .ok ts

/-! ## Specification -/

/-- How the part `m` of a word is written in the vocabulary: as it is at the beginning of the word (byte `0`),
with the prefix anywhere else. -/
def shown (w : WordPiece) : Nat → Str → Str
  | 0, m => m
  | _ + 1, m => w.continuingPrefix ++ m

theorem candidate_eq (w : WordPiece) (start : Nat) (m : Str) : w.candidate start m = w.shown start m := by
  cases start <;> simp [candidate, shown]

/-- `m` is the longest part at the beginning of `s` that is a vocabulary entry, `id` being its id. -/
def IsLongest (w : WordPiece) (start : Nat) (s m : Str) (id : Nat) : Prop :=
  m ≠ [] ∧ m <+: s ∧ w.vocab.get (w.shown start m) = some id ∧
  ∀ m', m' <+: s → m.length < m'.length → w.vocab.get (w.shown start m') = none

/-- The greedy segmentation of `s`, which begins at byte `start` of the word. -/
inductive Greedy (w : WordPiece) : Nat → Str → List Token → Prop
  | nil (start) : Greedy w start [] []
  | cons {start m rest id ts} : w.IsLongest start (m ++ rest) m id → Greedy w (start + blen m) rest ts →
      Greedy w start (m ++ rest) (⟨id, w.shown start m, (start, start + blen m)⟩ :: ts)

theorem longest_some (w : WordPiece) (start : Nat) (rest : Str) : ∀ (k : Nat), k ≤ rest.length →
    (∀ m', m' <+: rest → k < m'.length → w.vocab.get (w.shown start m') = none) →
    ∀ t r, w.longest start rest k = some (t, r) → ∃ m id, rest = m ++ r ∧ w.IsLongest start rest m id ∧
      t = ⟨id, w.shown start m, (start, start + blen m)⟩
  | 0, _, _, _, _, h => by cases h
  | k + 1, hk, hm, t, r, h => by
    rw [longest, candidate_eq] at h
    cases hv : w.vocab.get (w.shown start (rest.take (k + 1))) with
    | some id =>
      rw [hv] at h; cases h
      refine ⟨rest.take (k + 1), id, (List.take_append_drop _ _).symm, ⟨?_, List.take_prefix _ _, hv, ?_⟩, rfl⟩
      · intro h; have := congrArg List.length h; rw [List.length_take, Nat.min_eq_left hk] at this; simp at this
      · intro m' hp hl
        rw [List.length_take] at hl
        exact hm m' hp (by omega)
    | none =>
      rw [hv] at h
      refine longest_some w start rest k (by omega) (fun m' hp hl => ?_) t r h
      rcases Nat.lt_or_ge (k + 1) m'.length with h' | h'
      · exact hm m' hp h'
      · have : m' = rest.take (k + 1) := by
          rw [List.prefix_iff_eq_take.1 hp, show m'.length = k + 1 by omega]
        rw [this]; exact hv

theorem longest_none (w : WordPiece) (start : Nat) (rest : Str) : ∀ (k : Nat), w.longest start rest k = none →
    ∀ m', m' <+: rest → m' ≠ [] → m'.length ≤ k → w.vocab.get (w.shown start m') = none
  | 0, _, m', _, hne, hl => by
    have := List.length_pos_iff.2 hne; omega
  | k + 1, h, m', hp, hne, hl => by
    rw [longest, candidate_eq] at h
    cases hv : w.vocab.get (w.shown start (rest.take (k + 1))) with
    | some id => rw [hv] at h; cases h
    | none =>
      rw [hv] at h
      rcases Nat.lt_or_ge m'.length (k + 1) with h' | h'
      · exact longest_none w start rest k h m' hp hne (by omega)
      · have : m' = rest.take (k + 1) := by
          rw [List.prefix_iff_eq_take.1 hp, show m'.length = k + 1 by omega]
        rw [this]; exact hv

theorem IsLongest.unique {w : WordPiece} {start : Nat} {s m m' : Str} {i i' : Nat}
    (h : w.IsLongest start s m i) (h' : w.IsLongest start s m' i') : m = m' ∧ i = i' := by
  have hl : m.length = m'.length := by
    rcases Nat.lt_trichotomy m.length m'.length with hlt | he | hlt
    · have := h.2.2.2 m' h'.2.1 hlt; rw [h'.2.2.1] at this; cases this
    · exact he
    · have := h'.2.2.2 m h.2.1 hlt; rw [h.2.2.1] at this; cases this
  have : m = m' := by rw [List.prefix_iff_eq_take.1 h.2.1, List.prefix_iff_eq_take.1 h'.2.1, hl]
  subst this
  have := h.2.2.1.symm.trans h'.2.2.1
  exact ⟨rfl, Option.some.inj this⟩

/-- **C21 (uniqueness).** A word has at most one greedy segmentation. -/
theorem C21_greedy_unique {w : WordPiece} {start : Nat} {s : Str} {ts ts' : List Token}
    (h : w.Greedy start s ts) (h' : w.Greedy start s ts') : ts = ts' := by
  induction h generalizing ts' with
  | nil =>
    generalize hs : ([] : Str) = s at h'
    cases h' with
    | nil => rfl
    | cons h1 _ => exact absurd (List.append_eq_nil_iff.1 hs.symm).1 h1.1
  | @cons start m rest id ts h1 h2 ih =>
    generalize hs : m ++ rest = s at h'
    cases h' with
    | nil => exact absurd (List.append_eq_nil_iff.1 hs).1 h1.1
    | @cons _ m' rest' id' ts' g1 g2 =>
      rw [← hs] at g1
      obtain ⟨rfl, rfl⟩ := h1.unique g1
      have := List.append_cancel_left hs
      subst this
      rw [ih g2]

theorem pieces_greedy (w : WordPiece) : ∀ (fuel start : Nat) (s : Str) (ts : List Token), s.length ≤ fuel →
    (w.pieces fuel start s = some ts ↔ w.Greedy start s ts)
  | fuel, start, [], ts, _ => by
    have : w.pieces fuel start [] = some [] := by cases fuel <;> rfl
    rw [this]
    constructor
    · intro h; cases h; exact .nil _
    · intro h
      rw [C21_greedy_unique h (.nil _)]
  | 0, start, c :: cs, ts, hl => by simp at hl
  | fuel + 1, start, c :: cs, ts, hl => by
    rw [pieces]
    cases hn : w.longest start (c :: cs) (cs.length + 1) with
    | none =>
      constructor
      · intro h; cases h
      · intro h
        generalize hs : c :: cs = s at h hn
        cases h with
        | nil => cases hs
        | @cons _ m rest id ts h1 h2 =>
          have hl := congrArg List.length hs
          simp only [List.length_cons, List.length_append] at hl
          have := longest_none w start _ _ hn m h1.2.1 h1.1 (by omega)
          rw [h1.2.2.1] at this; cases this
    | some p =>
      obtain ⟨t, r⟩ := p
      obtain ⟨m, id, h1, h2, rfl⟩ := longest_some w start (c :: cs) (cs.length + 1) (by simp)
        (fun m' hp hlt => by have := hp.length_le; simp at this; omega) t r hn
      have hlr : r.length ≤ fuel := by
        have := congrArg List.length h1
        have := List.length_pos_iff.2 h2.1
        simp at *; omega
      have ih := pieces_greedy w fuel (start + blen m) r
      simp only
      constructor
      · intro h
        simp only [Option.map_eq_some_iff] at h
        obtain ⟨ts', h3, rfl⟩ := h
        rw [h1] at h2 ⊢
        exact .cons h2 ((ih ts' hlr).1 h3)
      · intro h
        generalize hs : c :: cs = s at h h1 h2
        cases h with
        | nil => cases hs
        | @cons _ m' r' id' ts' g1 g2 =>
          obtain ⟨rfl, rfl⟩ := h2.unique g1
          have := List.append_cancel_left h1
          subst this
          rw [(ih ts' hlr).2 g2]; rfl

/-- **C21.** The result is the greedy segmentation if the word is not too long and has one; else it is the
unknown token alone, over the whole word. It is an error exactly when the unknown token is needed and
missing. -/
theorem C21_tokenize (w : WordPiece) (s : Str) (r : Except Unit (List Token)) : w.tokenize s = r ↔
    (s.length ≤ w.maxInputChars ∧ ∃ ts, w.Greedy 0 s ts ∧ r = .ok ts) ∨
    ((w.maxInputChars < s.length ∨ ¬ ∃ ts, w.Greedy 0 s ts) ∧
      ((∃ id, w.vocab.get w.unkToken = some id ∧ r = .ok [⟨id, w.unkToken, (0, blen s)⟩]) ∨
       (w.vocab.get w.unkToken = none ∧ r = .error ()))) := by
  have hu : ∀ r, w.unknown s = r ↔ ((∃ id, w.vocab.get w.unkToken = some id ∧
      r = .ok [⟨id, w.unkToken, (0, blen s)⟩]) ∨ (w.vocab.get w.unkToken = none ∧ r = .error ())) := by
    intro r
    unfold unknown
    cases w.vocab.get w.unkToken with
    | none => simp [eq_comm]
    | some id => simp [eq_comm]
  unfold tokenize
  by_cases hl : s.length > w.maxInputChars
  · rw [if_pos hl, hu]
    constructor
    · intro h; exact .inr ⟨.inl hl, h⟩
    · rintro (⟨h, _⟩ | ⟨_, h⟩)
      · omega
      · exact h
  · rw [if_neg hl]
    have hp := fun ts => pieces_greedy w s.length 0 s ts (Nat.le_refl _)
    cases hx : w.pieces s.length 0 s with
    | none =>
      have hno : ¬ ∃ ts, w.Greedy 0 s ts := by
        rintro ⟨ts, h⟩; rw [(hp ts).2 h] at hx; cases hx
      simp only
      rw [hu]
      constructor
      · intro h; exact .inr ⟨.inr hno, h⟩
      · rintro (⟨_, ts, h, _⟩ | ⟨_, h⟩)
        · exact absurd ⟨ts, h⟩ hno
        · exact h
    | some ts =>
      have hg := (hp ts).1 hx
      simp only
      constructor
      · rintro rfl; exact .inl ⟨by omega, ts, hg, rfl⟩
      · rintro (⟨_, ts', h, rfl⟩ | ⟨h | h, _⟩)
        · rw [C21_greedy_unique hg h]
        · omega
        · exact absurd ⟨ts, hg⟩ h

/-- Tokens lie one after the other from `start` to `stop`. -/
def Tile : Nat → Nat → List Token → Prop
  | start, stop, [] => start = stop
  | start, stop, t :: ts => t.offsets.1 = start ∧ t.offsets.1 < t.offsets.2 ∧ Tile t.offsets.2 stop ts

/-- **C21.** The offsets of a greedy segmentation tile the word, each token is a vocabulary entry with its id,
namely the text at its offsets, with the prefix except at the beginning. -/
theorem C21_greedy_tiles {w : WordPiece} {start : Nat} {s : Str} {ts : List Token} (h : w.Greedy start s ts) :
    Tile start (start + blen s) ts ∧ (∀ t ∈ ts, w.vocab.get t.value = some t.id) ∧
    ∃ ms : List Str, ms.flatten = s ∧ ms.map blen = ts.map (fun t => t.offsets.2 - t.offsets.1) ∧
      ts.map (·.value) = (List.zip ts ms).map (fun p => w.shown p.1.offsets.1 p.2) := by
  induction h with
  | nil => exact ⟨by simp [Tile], by simp, [], rfl, rfl, rfl⟩
  | @cons start m rest id ts h1 h2 ih =>
    obtain ⟨i1, i2, ms, i3, i4, i5⟩ := ih
    have hp := blen_pos h1.1
    refine ⟨⟨rfl, by simp only; omega, ?_⟩, ?_, m :: ms, by simp [i3], by simp [i4], by simp [i5]⟩
    · rw [blen_append, ← Nat.add_assoc]; exact i1
    · intro t ht
      rcases List.mem_cons.1 ht with rfl | ht
      · exact h1.2.2.1
      · exact i2 t ht

/-- "hugs" with "hu", "hug", "##s": the longest match is taken. -/
def sample : WordPiece := ⟨[("hu".toList, 1), ("hug".toList, 2), ("##s".toList, 3), ("[UNK]".toList, 0)],
  "[UNK]".toList, "##".toList, 100⟩

example : sample.tokenize "hugs".toList = .ok [⟨2, "hug".toList, (0, 3)⟩, ⟨3, "##s".toList, (3, 4)⟩] := rfl
example : sample.tokenize "hugé".toList = .ok [⟨0, "[UNK]".toList, (0, 5)⟩] := rfl
example : sample.Greedy 0 "hugs".toList [⟨2, "hug".toList, (0, 3)⟩, ⟨3, "##s".toList, (3, 4)⟩] :=
  (pieces_greedy sample 4 0 _ _ (Nat.le_refl _)).1 (by decide)

end WordPiece

/-- `WordLevel` (`wordlevel/mod.rs:99-103`). -/
structure WordLevel where
  vocab : AMap Str Nat
  unkToken : Str

namespace WordLevel

/-- `tokenize` (`wordlevel/mod.rs:162-178`). -/
def tokenize (w : WordLevel) (s : Str) : Except Unit (List Token) :=
  match w.vocab.get s with
  | some id => .ok [⟨id, s, (0, blen s)⟩]
  | none =>
    match w.vocab.get w.unkToken with
    | some id => .ok [⟨id, w.unkToken, (0, blen s)⟩]
    | none => .error ()

/-- **C22.** One token over the whole word: the word itself if it is known, else the unknown token. -/
theorem C22_tokenize (w : WordLevel) (s : Str) (ts : List Token) : w.tokenize s = .ok ts ↔
    ∃ t : Token, ts = [t] ∧ t.offsets = (0, blen s) ∧ w.vocab.get t.value = some t.id ∧
      (t.value = s ∨ (w.vocab.get s = none ∧ t.value = w.unkToken)) := by
  unfold tokenize
  cases h : w.vocab.get s with
  | some id =>
    simp only
    constructor
    · intro h'; cases h'; exact ⟨_, rfl, rfl, h, .inl rfl⟩
    · rintro ⟨⟨i, v, o⟩, rfl, h1, h2, h3 | ⟨h3, _⟩⟩
      · simp only at *; subst h3 h1; rw [h] at h2; cases h2; rfl
      · cases h3
  | none =>
    cases hu : w.vocab.get w.unkToken with
    | some id =>
      simp only
      constructor
      · intro h'; cases h'; exact ⟨_, rfl, rfl, hu, .inr ⟨trivial, rfl⟩⟩
      · rintro ⟨⟨i, v, o⟩, rfl, h1, h2, h3 | ⟨_, h3⟩⟩
        · simp only at *; subst h3; rw [h] at h2; cases h2
        · simp only at *; subst h3 h1; rw [hu] at h2; cases h2; rfl
    | none =>
      simp only
      constructor
      · intro h'; cases h'
      · rintro ⟨⟨i, v, o⟩, rfl, h1, h2, h3 | ⟨_, h3⟩⟩
        · simp only at *; subst h3; rw [h] at h2; cases h2
        · simp only at *; subst h3; rw [hu] at h2; cases h2

/-- **C22.** It is an error exactly when neither is in the vocabulary. -/
theorem C22_error (w : WordLevel) (s : Str) : w.tokenize s = .error () ↔
    w.vocab.get s = none ∧ w.vocab.get w.unkToken = none := by
  unfold tokenize
  cases w.vocab.get s <;> cases w.vocab.get w.unkToken <;> simp

example : (WordLevel.mk [("a".toList, 5), ("<unk>".toList, 1)] "<unk>".toList).tokenize "bé".toList
    = .ok [⟨1, "<unk>".toList, (0, 3)⟩] := rfl

end WordLevel
end Tok
