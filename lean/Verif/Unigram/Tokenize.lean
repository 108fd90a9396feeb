import Verif.Unigram.C24

/-!
# C49: `Unigram::tokenize`, ids, offsets and byte fallback
-/

namespace Tok.Unigram

variable {vocab : List (Str × Rat)} {unk : Option Nat} {u : Unigram} {bf : Bool}

/-- The tokens of one piece at byte range `off`: the vocabulary entry, or the byte tokens, or the unknown
token. -/
def PieceSpec (vocab : List (Str × Rat)) (unk : Option Nat) (bf : Bool) (off : Range) (p : Str)
    (g : List Token) : Prop :=
  (∃ i sc, LastIn vocab p i sc ∧ g = [⟨i, p, off⟩]) ∨
  ((∀ sc, (p, sc) ∉ vocab) ∧ bf = true ∧ g.map (·.value) = (strBytes p).map byteToken ∧
    ∀ t ∈ g, t.offsets = off ∧ ∃ sc, LastIn vocab t.value t.id sc) ∨
  ((∀ sc, (p, sc) ∉ vocab) ∧ (bf = false ∨ ∃ b ∈ strBytes p, ∀ sc, (byteToken b, sc) ∉ vocab) ∧
    ∃ k, unk = some k ∧ g = [⟨k, p, off⟩])

/-- The tokens of consecutive pieces, the first of which starts at byte `pos`. -/
def TokensSpec (vocab : List (Str × Rat)) (unk : Option Nat) (bf : Bool) :
    Nat → List Str → List Token → Prop
  | _, [], ts => ts = []
  | pos, p :: ps, ts => ∃ g r, ts = g ++ r ∧ PieceSpec vocab unk bf (pos, pos + blen p) p g ∧
      TokensSpec vocab unk bf (pos + blen p) ps r

theorem from_flags (h : Unigram.from vocab unk bf = .ok u) : u.isOptimized = true ∧ u.byteFallback = bf := by
  unfold Unigram.from at h
  split at h
  · cases h
  · split at h
    · cases h
    · cases h; exact ⟨rfl, rfl⟩

theorem Made.get_none (hu : Made vocab unk u) (t : Str) :
    u.tokenToIds.get t = none ↔ ∀ sc, (t, sc) ∉ vocab := by
  constructor
  · intro h sc hm
    obtain ⟨i, sc', hl⟩ := exists_last hm
    rw [(hu.ids t i).2 ⟨sc', hl⟩] at h
    cases h
  · intro h
    cases hg : u.tokenToIds.get t with
    | none => rfl
    | some i =>
      obtain ⟨sc, hl⟩ := (hu.ids t i).1 hg
      exact absurd (List.mem_of_getElem? hl.1) (h sc)

theorem byteTokens_spec (hu : Made vocab unk u) (off : Range) : ∀ (bs : List UInt8),
    match bs.mapM (fun b => (u.tokenToIds.get (byteToken b)).map fun id =>
      (⟨id, byteToken b, off⟩ : Token)) with
    | none => ∃ b ∈ bs, ∀ sc, (byteToken b, sc) ∉ vocab
    | some g => g.map (·.value) = bs.map byteToken ∧
        ∀ t ∈ g, t.offsets = off ∧ ∃ sc, LastIn vocab t.value t.id sc
  | [] => by simp
  | b :: bs => by
    have ih := byteTokens_spec hu off bs
    rw [List.mapM_cons]
    cases hb : u.tokenToIds.get (byteToken b) with
    | none => exact ⟨b, by simp, (hu.get_none _).1 hb⟩
    | some i =>
      simp only [Option.map_some, Option.bind_eq_bind, Option.bind_some]
      cases hr : bs.mapM (fun b => (u.tokenToIds.get (byteToken b)).map fun id =>
          (⟨id, byteToken b, off⟩ : Token)) with
      | none =>
        rw [hr] at ih
        obtain ⟨b', hb', h⟩ := ih
        exact ⟨b', by simp [hb'], h⟩
      | some g =>
        rw [hr] at ih
        refine ⟨by simp [ih.1], ?_⟩
        intro t ht
        rcases List.mem_cons.1 ht with rfl | ht
        · exact ⟨rfl, (hu.ids _ _).1 hb⟩
        · exact ih.2 t ht

theorem pieceTokens_spec (hu : Made vocab unk u) (hbf : u.byteFallback = bf) (pos : Nat) (p : Str) :
    match u.pieceTokens pos p with
    | some g => PieceSpec vocab unk bf (pos, pos + blen p) p g
    | none => unk = none ∧ ∀ sc, (p, sc) ∉ vocab := by
  unfold pieceTokens
  cases hg : u.tokenToIds.get p with
  | some i =>
    obtain ⟨sc, hl⟩ := (hu.ids p i).1 hg
    exact .inl ⟨i, sc, hl, rfl⟩
  | none =>
    have hno := (hu.get_none p).1 hg
    have hbt := byteTokens_spec hu (pos, pos + blen p) (strBytes p)
    dsimp only
    rw [hbf]
    cases bf with
    | false =>
      simp only [Bool.false_eq_true, if_false, hu.unk_eq]
      cases hk : unk with
      | none => exact ⟨rfl, hno⟩
      | some k => exact .inr (.inr ⟨hno, .inl rfl, k, rfl, rfl⟩)
    | true =>
      simp only [if_true, byteTokens]
      cases hm : (strBytes p).mapM (fun b => (u.tokenToIds.get (byteToken b)).map fun id =>
          (⟨id, byteToken b, (pos, pos + blen p)⟩ : Token)) with
      | some g =>
        rw [hm] at hbt
        exact .inr (.inl ⟨hno, rfl, hbt⟩)
      | none =>
        rw [hm] at hbt
        simp only [hu.unk_eq]
        cases hk : unk with
        | none => exact ⟨rfl, hno⟩
        | some k => exact .inr (.inr ⟨hno, .inr hbt, k, rfl, rfl⟩)

theorem tokenizePieces_spec (hu : Made vocab unk u) (hbf : u.byteFallback = bf) : ∀ (ps : List Str) (pos : Nat),
    match u.tokenizePieces pos ps with
    | some ts => TokensSpec vocab unk bf pos ps ts
    | none => unk = none ∧ ∃ p ∈ ps, ∀ sc, (p, sc) ∉ vocab
  | [], pos => rfl
  | p :: ps, pos => by
    have h1 := pieceTokens_spec hu hbf pos p
    have ih := tokenizePieces_spec hu hbf ps (pos + blen p)
    simp only [tokenizePieces]
    cases hp : u.pieceTokens pos p with
    | none => rw [hp] at h1; exact ⟨h1.1, p, by simp, h1.2⟩
    | some g =>
      rw [hp] at h1
      simp only [Option.bind_some]
      cases hr : u.tokenizePieces (pos + blen p) ps with
      | none =>
        rw [hr] at ih
        obtain ⟨h2, q, hq, h3⟩ := ih
        exact ⟨h2, q, by simp [hq], h3⟩
      | some r =>
        rw [hr] at ih
        exact ⟨g, r, rfl, h1, ih⟩

/-- **C49, general part.** The tokens of a sentence are those of the pieces of an optimal segmentation
(C23), consecutive pieces covering consecutive byte ranges from 0 on. -/
theorem C49_tokenize (hu : Unigram.from vocab unk bf = .ok u) {s : Str} {ts : List Token}
    (h : u.tokenize s = .ok ts) : ∃ ps, u.encode s = .ok ps ∧ ps.flatten = s ∧
      TokensSpec vocab unk bf 0 ps ts := by
  obtain ⟨ho, hb⟩ := from_flags hu
  unfold tokenize at h
  cases he : u.encode s with
  | panic => rw [he] at h; cases h
  | err x => rw [he] at h; cases h
  | ok ps =>
    rw [he] at h
    dsimp only at h
    refine ⟨ps, rfl, ?_, ?_⟩
    · unfold encode at he
      split at he
      · rename_i hs; cases he; simp [hs]
      · exact C23_concat hu he
    · have := tokenizePieces_spec (made_of_from hu) hb ps 0
      cases hp : u.tokenizePieces 0 ps with
      | none => rw [hp] at h; cases h
      | some r => rw [hp] at h this; cases h; exact this

/-- **C49.** With an unknown id, tokenization always succeeds. -/
theorem C49_total {k : Nat} (hu : Unigram.from vocab (some k) bf = .ok u) (s : Str) :
    ∃ ts, u.tokenize s = .ok ts := by
  obtain ⟨ho, hb⟩ := from_flags hu
  unfold tokenize
  obtain ⟨ps, he⟩ : ∃ ps, u.encode s = .ok ps := by
    unfold encode
    split
    · exact ⟨_, rfl⟩
    · exact C23_total hu s
  rw [he]
  dsimp only
  have := tokenizePieces_spec (made_of_from hu) hb ps 0
  cases hp : u.tokenizePieces 0 ps with
  | none => rw [hp] at this; cases this.1
  | some r => exact ⟨r, rfl⟩

/-- What a token stands for: its own text, or, for the token `<0xNN>`, one byte. -/
def Spells (t : Token) (bs : List UInt8) : Prop :=
  bs = strBytes t.value ∨ ∃ b, t.value = byteToken b ∧ bs = [b]

theorem bytes_spell : ∀ (bs : List UInt8) (g : List Token), g.map (·.value) = bs.map byteToken →
    ∃ l : List (Token × List UInt8), l.map (·.1) = g ∧ (∀ x ∈ l, Spells x.1 x.2) ∧ (l.map (·.2)).flatten = bs
  | [], g, h => ⟨[], by simpa using h.symm, by simp, rfl⟩
  | b :: bs, [], h => by simp at h
  | b :: bs, t :: g, h => by
    simp only [List.map_cons, List.cons.injEq] at h
    obtain ⟨l, h1, h2, h3⟩ := bytes_spell bs g h.2
    refine ⟨(t, [b]) :: l, by simp [h1], ?_, by simp [h3]⟩
    intro x hx
    rcases List.mem_cons.1 hx with rfl | hx
    · exact .inr ⟨b, h.1, rfl⟩
    · exact h2 x hx

theorem tokens_spell (hall : ∀ b : UInt8, ∃ sc, (byteToken b, sc) ∈ vocab) :
    ∀ (ps : List Str) (pos : Nat) (ts : List Token), TokensSpec vocab unk true pos ps ts →
      (∀ t ∈ ts, ∃ sc, LastIn vocab t.value t.id sc) ∧
      ∃ l : List (Token × List UInt8), l.map (·.1) = ts ∧ (∀ x ∈ l, Spells x.1 x.2) ∧
        (l.map (·.2)).flatten = strBytes ps.flatten
  | [], pos, ts, h => by
    cases h
    exact ⟨by simp, [], rfl, by simp, rfl⟩
  | p :: ps, pos, ts, ⟨g, r, hts, hg, hr⟩ => by
    subst hts
    obtain ⟨hi, l, h1, h2, h3⟩ := tokens_spell hall ps _ r hr
    have hgl : (∀ t ∈ g, ∃ sc, LastIn vocab t.value t.id sc) ∧
        ∃ l : List (Token × List UInt8), l.map (·.1) = g ∧ (∀ x ∈ l, Spells x.1 x.2) ∧
          (l.map (·.2)).flatten = strBytes p := by
      rcases hg with ⟨i, sc, hl, rfl⟩ | ⟨-, -, hv, ht⟩ | ⟨-, hb, -⟩
      · refine ⟨by intro t ht; simp at ht; subst ht; exact ⟨sc, hl⟩,
          [(⟨i, p, (pos, pos + blen p)⟩, strBytes p)], rfl, ?_, by simp⟩
        intro x hx
        simp at hx; subst hx
        exact .inl rfl
      · exact ⟨fun t h => (ht t h).2, bytes_spell _ _ hv⟩
      · rcases hb with hb | ⟨b, -, hb⟩
        · cases hb
        · obtain ⟨sc, hsc⟩ := hall b
          exact absurd hsc (hb sc)
    obtain ⟨gi, l', g1, g2, g3⟩ := hgl
    refine ⟨?_, l' ++ l, by simp [g1, h1], ?_, by simp [g3, h3]⟩
    · intro t ht
      rcases List.mem_append.1 ht with h | h
      · exact gi t h
      · exact hi t h
    · intro x hx
      rcases List.mem_append.1 hx with h | h
      · exact g2 x h
      · exact h2 x h

/-- **C49.** With byte fallback and all byte tokens in the vocabulary, the tokens spell the sentence byte for
byte, and every token carries the id of its own text (no unknown token stands in for anything). -/
theorem C49_spells (hu : Unigram.from vocab unk true = .ok u)
    (hall : ∀ b : UInt8, ∃ sc, (byteToken b, sc) ∈ vocab) {s : Str} {ts : List Token}
    (h : u.tokenize s = .ok ts) :
    (∀ t ∈ ts, ∃ sc, LastIn vocab t.value t.id sc) ∧
    ∃ l : List (Token × List UInt8), l.map (·.1) = ts ∧ (∀ x ∈ l, Spells x.1 x.2) ∧
      (l.map (·.2)).flatten = strBytes s := by
  obtain ⟨ps, -, hps, ht⟩ := C49_tokenize hu h
  rw [← hps]
  exact tokens_spell hall ps 0 ts ht

/-- All byte tokens, an unknown token and one word. -/
def byteVocab : List (Str × Rat) :=
  ("<unk>".toList, 0) :: ("a".toList, -1) :: (List.range 256).map (fun n => (byteToken (UInt8.ofNat n), -5))

theorem byteVocab_all : ∀ b : UInt8, ∃ sc, (byteToken b, sc) ∈ byteVocab := by
  intro b
  refine ⟨-5, ?_⟩
  simp only [byteVocab, List.mem_cons, List.mem_map, List.mem_range]
  exact .inr (.inr ⟨b.toNat, b.toNat_lt, by simp⟩)

/-- `"aé"` with a vocabulary lacking `é`: the word, then two byte tokens, both at bytes 1..3. -/
example : (match Unigram.from byteVocab (some 0) true with
    | .ok u => decide (u.tokenize "aé".toList = .ok [⟨1, "a".toList, (0, 1)⟩,
        ⟨2 + 0xC3, "<0xC3>".toList, (1, 3)⟩, ⟨2 + 0xA9, "<0xA9>".toList, (1, 3)⟩])
    | .error _ => false) = true := by decide +kernel

end Tok.Unigram
