import Verif.Models.Renaming
import Verif.Unigram.Tokenize

/-!
# C116: the order of a Unigram vocabulary

The ids of a Unigram model are the positions in its list of pieces, so other ids are another order of the pieces.
-/

namespace Tok.Unigram
open Tok.Bpe (andThen)

/-- `vocab'` has the pieces of `vocab` in another order: piece `i` is now at `f i`. -/
structure Reordered (f : Nat → Nat) (vocab vocab' : List (Str × Rat)) : Prop where
  inj : ∀ i j, f i = f j → i = j
  onto : ∀ j, ∃ i, f i = j
  piece : ∀ i, vocab'[f i]? = vocab[i]?

/-- No piece is listed twice. -/
def Single (vocab : List (Str × Rat)) : Prop := (vocab.map (·.1)).Nodup

section
variable {f : Nat → Nat} {vocab vocab' : List (Str × Rat)}

theorem Single.last (h : Single vocab) {t : Str} {i : Nat} {sc : Rat} : LastIn vocab t i sc ↔ vocab[i]? = some (t, sc) := by
  refine ⟨fun h => h.1, fun h1 => ⟨h1, fun j sc' hj h2 => ?_⟩⟩
  have e1 : (vocab.map (·.1))[i]? = some t := by rw [List.getElem?_map, h1]; rfl
  have e2 : (vocab.map (·.1))[j]? = some t := by rw [List.getElem?_map, h2]; rfl
  have hp := List.pairwise_iff_getElem.1 h
  obtain ⟨hi, e1⟩ := List.getElem?_eq_some_iff.1 e1
  obtain ⟨hj', e2⟩ := List.getElem?_eq_some_iff.1 e2
  exact hp i j hi hj' hj (e1.trans e2.symm)

theorem Reordered.mem (h : Reordered f vocab vocab') (p : Str × Rat) : p ∈ vocab' ↔ p ∈ vocab := by
  constructor
  · intro hp
    obtain ⟨j, hj⟩ := List.mem_iff_getElem?.1 hp
    obtain ⟨i, rfl⟩ := h.onto j
    rw [h.piece] at hj
    exact List.mem_of_getElem? hj
  · intro hp
    obtain ⟨i, hi⟩ := List.mem_iff_getElem?.1 hp
    rw [← h.piece] at hi
    exact List.mem_of_getElem? hi

theorem Reordered.single (h : Reordered f vocab vocab') (hs : Single vocab) : Single vocab' := by
  refine List.pairwise_iff_getElem.2 fun i j hi hj hij he => ?_
  rw [List.length_map] at hi hj
  obtain ⟨a, rfl⟩ := h.onto i
  obtain ⟨b, rfl⟩ := h.onto j
  have e1 : vocab[a]? = some vocab'[f a] := by rw [← h.piece]; exact List.getElem?_eq_getElem hi
  have e2 : vocab[b]? = some vocab'[f b] := by rw [← h.piece]; exact List.getElem?_eq_getElem hj
  simp only [List.getElem_map] at he
  have hl1 : LastIn vocab vocab'[f a].1 a vocab'[f a].2 := hs.last.2 e1
  have hl2 : LastIn vocab vocab'[f b].1 b vocab'[f b].2 := hs.last.2 e2
  rw [← he] at hl2
  have := (hl1.unique hl2).1
  subst this
  omega

/-- Lists sorted by length with the same elements are the same. -/
theorem sorted_same {α : Type} : ∀ {l l' : List (List α)}, l.Pairwise (fun a b => a.length < b.length) →
    l'.Pairwise (fun a b => a.length < b.length) → (∀ x, x ∈ l ↔ x ∈ l') → l = l'
  | [], [], _, _, _ => rfl
  | [], y :: _, _, _, h => by have := (h y).2 (by simp); cases this
  | x :: _, [], _, _, h => by have := (h x).1 (by simp); cases this
  | x :: l, y :: l', h1, h2, h => by
    rw [List.pairwise_cons] at h1 h2
    have hxy : x = y := by
      rcases List.mem_cons.1 ((h x).1 (by simp)) with e | hx
      · exact e
      · rcases List.mem_cons.1 ((h y).2 (by simp)) with e | hy
        · exact e.symm
        · have := h1.1 y hy
          have := h2.1 x hx
          omega
    subst hxy
    rw [sorted_same h1.2 h2.2 fun z => ?_]
    constructor
    · intro hz
      rcases List.mem_cons.1 ((h z).1 (by simp [hz])) with rfl | h'
      · have := h1.1 z hz; omega
      · exact h'
    · intro hz
      rcases List.mem_cons.1 ((h z).2 (by simp [hz])) with rfl | h'
      · have := h2.1 z hz; omega
      · exact h'

variable {unk : Option Nat} {bf : Bool} {u u' : Unigram}

/-- What two models made of the same pieces in another order have in common. -/
structure Alike (f : Nat → Nat) (u u' : Unigram) : Prop where
  inj : ∀ i j, f i = f j → i = j
  ids : ∀ t, u'.tokenToIds.get t = (u.tokenToIds.get t).map f
  items : ∀ i : Nat, u'.vocab[f i]? = u.vocab[i]?
  search : ∀ bs, u'.trie.search bs = u.trie.search bs
  minScore : u'.minScore = u.minScore
  unk : u'.unkId = u.unkId.map f
  fuse : u'.fuseUnk = u.fuseUnk
  opt : u'.isOptimized = true ∧ u.isOptimized = true
  bytes : u'.byteFallback = u.byteFallback

theorem alike_of_from (h : Reordered f vocab vocab') (hs : Single vocab) (hu : Unigram.from vocab unk bf = .ok u)
    (hu' : Unigram.from vocab' (unk.map f) bf = .ok u') : Alike f u u' := by
  have m := made_of_from hu
  have m' := made_of_from hu'
  have hs' := h.single hs
  refine ⟨h.inj, fun t => ?_, fun i => ?_, fun bs => ?_, ?_, ?_, ?_, ⟨(from_flags hu').1, (from_flags hu).1⟩, ?_⟩
  · cases hg : u.tokenToIds.get t with
    | some i =>
      obtain ⟨sc, hl⟩ := (m.ids t i).1 hg
      refine (m'.ids t (f i)).2 ⟨sc, hs'.last.2 ?_⟩
      rw [h.piece]
      exact hl.1
    | none =>
      cases hg' : u'.tokenToIds.get t with
      | none => rfl
      | some j =>
        obtain ⟨sc, hl⟩ := (m'.ids t j).1 hg'
        obtain ⟨i, rfl⟩ := h.onto j
        have := hl.1
        rw [h.piece] at this
        rw [(m.ids t i).2 ⟨sc, hs.last.2 this⟩] at hg
        cases hg
  · rw [m'.vocab_eq, m.vocab_eq, h.piece]
  · rw [m'.trie_eq, m.trie_eq]
    refine sorted_same (Trie.C25_order _ _).1 (Trie.C25_order _ _).1 fun p => ?_
    rw [Trie.C25_exactly, Trie.C25_exactly]
    have : p ∈ vocab'.map (fun p => strBytes p.1) ↔ p ∈ vocab.map (fun p => strBytes p.1) := by
      simp only [List.mem_map, h.mem]
    rw [this]
  · by_cases hv : vocab = []
    · have hv' : vocab' = [] := by
        cases hc : vocab' with
        | nil => rfl
        | cons p l =>
          have := (h.mem p).1 (by rw [hc]; simp)
          rw [hv] at this
          cases this
      unfold Unigram.from at hu hu'
      split at hu
      · cases hu
      · split at hu
        · cases hu
        · split at hu'
          · cases hu'
          · split at hu'
            · cases hu'
            · cases hu
              cases hu'
              simp [hv, hv']
    · have h1 := minOf_isMin hv
      rw [m.minScore _ h1]
      refine m'.minScore _ ⟨?_, fun p hp => h1.2 p ((h.mem p).1 hp)⟩
      obtain ⟨t, ht⟩ := h1.1
      exact ⟨t, (h.mem _).2 ht⟩
  · rw [m'.unk_eq, m.unk_eq]
  · rw [m'.fuse, m.fuse]
  · rw [(from_flags hu').2, (from_flags hu).2]

theorem from_reordered (h : Reordered f vocab vocab') (hu : Unigram.from vocab unk bf = .ok u) :
    ∃ u', Unigram.from vocab' (unk.map f) bf = .ok u' := by
  unfold Unigram.from at hu ⊢
  split at hu
  · cases hu
  · rename_i h1
    split at hu
    · cases hu
    · rename_i h2
      rw [if_neg, if_neg]
      · exact ⟨_, rfl⟩
      · rintro ⟨k, hk, hl⟩
        cases unk with
        | none => cases hk
        | some i =>
          cases hk
          refine h2 ⟨i, rfl, ?_⟩
          have := h.piece i
          rw [List.getElem?_eq_none hl] at this
          exact List.getElem?_eq_none_iff.1 this.symm
      · rintro ⟨hk, hv⟩
        cases unk with
        | none => cases hk
        | some i =>
          refine h1 ⟨rfl, ?_⟩
          cases hc : vocab with
          | nil => rfl
          | cons p l =>
            have := (h.mem p).2 (by rw [hc]; simp)
            rw [hv] at this
            cases this

/-! ## The same segmentation -/

variable (a : Alike f u u')
include a

theorem lookup_alike (bs : List UInt8) : u'.lookup bs = (u.lookup bs).map fun m => (m.1, f m.2.1, m.2.2) := by
  unfold lookup
  cases fromUtf8 bs with
  | none => rfl
  | some tok =>
    simp only [Option.bind_some]
    rw [a.ids]
    cases u.tokenToIds.get tok with
    | none => rfl
    | some i =>
      simp only [Option.map_some, Option.bind_some]
      rw [a.items]
      cases u.vocab[i]? <;> rfl

theorem lookups_alike (rest : Str) : u'.lookups rest = (u.lookups rest).map (·.map fun m => (m.1, f m.2.1, m.2.2)) := by
  unfold lookups
  rw [a.search]
  induction u.trie.search (strBytes rest) with
  | nil => rfl
  | cons x l ih =>
    rw [List.mapM_cons, List.mapM_cons, ih, lookup_alike a]
    cases u.lookup x with
    | none => rfl
    | some m => cases l.mapM u.lookup <;> rfl

/-- The candidate with the other id. -/
def Edge.renumber (f : Nat → Nat) (e : Edge) : Edge := { e with id := e.id.map f }

theorem edgesAt_alike (pos : Nat) (c : Char) (ms : List (Nat × Nat × Rat)) :
    u'.edgesAt pos c (ms.map fun m => (m.1, f m.2.1, m.2.2)) = (u.edgesAt pos c ms).map (·.renumber f) := by
  unfold edgesAt
  rw [List.map_append, List.map_map, List.map_map, List.any_map]
  have hs : u'.unkScore = u.unkScore := by unfold unkScore; rw [a.minScore]
  congr 1
  rw [show ((fun m : Nat × Nat × Rat => decide (m.1 = c.utf8Size)) ∘ fun m : Nat × Nat × Rat => (m.1, f m.2.1, m.2.2)) =
    fun m => decide (m.1 = c.utf8Size) from rfl]
  split
  · rfl
  · rw [hs, a.unk]; rfl

omit a in
/-- The same best paths, with the other ids. -/
def SameCells (f : Nat → Nat) (T T' : Nat → Cell) : Prop :=
  ∀ p, (T' p).score = (T p).score ∧ (T' p).startsAt = (T p).startsAt ∧ ((T p).startsAt ≠ none → (T' p).id = f (T p).id)

omit a in
theorem relax_alike (base : Rat) {T T' : Nat → Cell} (h : SameCells f T T') (e : Edge) :
    (∃ x, relax base T e = .error x ∧ relax base T' (e.renumber f) = .error x) ∨
    ∃ S S', relax base T e = .ok S ∧ relax base T' (e.renumber f) = .ok S' ∧ SameCells f S S' := by
  unfold relax
  rw [show (e.renumber f).stop = e.stop from rfl, show (e.renumber f).score = e.score from rfl,
    show (e.renumber f).start = e.start from rfl, show (e.renumber f).id = e.id.map f from rfl, (h e.stop).1, (h e.stop).2.1]
  split
  · cases e.id with
    | none => exact .inl ⟨_, rfl, rfl⟩
    | some i =>
      refine .inr ⟨_, _, rfl, rfl, fun p => ?_⟩
      unfold upd
      split
      · exact ⟨rfl, rfl, fun _ => rfl⟩
      · exact h p
  · exact .inr ⟨_, _, rfl, rfl, h⟩

omit a in
theorem relaxAll_alike (base : Rat) : ∀ (es : List Edge) {T T' : Nat → Cell}, SameCells f T T' →
    (∃ x, relaxAll base es T = .error x ∧ relaxAll base (es.map (·.renumber f)) T' = .error x) ∨
    ∃ S S', relaxAll base es T = .ok S ∧ relaxAll base (es.map (·.renumber f)) T' = .ok S' ∧ SameCells f S S'
  | [], T, T', h => .inr ⟨T, T', rfl, rfl, h⟩
  | e :: es, T, T', h => by
    rw [List.map_cons, relaxAll, relaxAll]
    rcases relax_alike base h e with ⟨x, h1, h2⟩ | ⟨S, S', h1, h2, h3⟩
    · rw [h1, h2]; exact .inl ⟨x, rfl, rfl⟩
    · rw [h1, h2]; exact relaxAll_alike base es h3

theorem optLoop_alike : ∀ (s : Str) (pos : Nat) {T T' : Nat → Cell}, SameCells f T T' →
    (∃ x, optLoop u pos s T = .err x ∧ optLoop u' pos s T' = .err x) ∨
    (optLoop u pos s T = .panic ∧ optLoop u' pos s T' = .panic) ∨
    ∃ S S', optLoop u pos s T = .ok S ∧ optLoop u' pos s T' = .ok S' ∧ SameCells f S S'
  | [], _, T, T', h => .inr (.inr ⟨T, T', by simp [optLoop], by simp [optLoop], h⟩)
  | c :: cs, pos, T, T', h => by
    rw [optLoop, optLoop, lookups_alike a]
    cases u.lookups (c :: cs) with
    | none => exact .inr (.inl ⟨rfl, rfl⟩)
    | some ms =>
      dsimp only [Option.map_some]
      rw [edgesAt_alike a, (h pos).1]
      rcases relaxAll_alike (T pos).score (u.edgesAt pos c ms) h with ⟨x, h1, h2⟩ | ⟨S, S', h1, h2, h3⟩
      · rw [h1, h2]; exact .inl ⟨x, rfl, rfl⟩
      · rw [h1, h2]; exact optLoop_alike cs _ h3

theorem backtrack_alike (s : Str) {T T' : Nat → Cell} (h : SameCells f T T') : ∀ (fuel p : Nat) (token results : List Str),
    backtrack u' s T' fuel p token results = backtrack u s T fuel p token results := by
  intro fuel
  induction fuel with
  | zero =>
    intro p token results
    rw [backtrack, backtrack]
  | succ fuel ih =>
    intro p token results
    rw [backtrack, backtrack]
    split
    · rfl
    · rw [(h p).2.1]
      cases hst : (T p).startsAt with
      | none => rfl
      | some st =>
        dsimp only
        cases strGet s st p with
        | none => rfl
        | some piece =>
          dsimp only
          have hid : (some (T' p).id = u'.unkId) ↔ some (T p).id = u.unkId := by
            rw [a.unk, (h p).2.2 (by rw [hst]; simp)]
            cases u.unkId with
            | none => simp
            | some k =>
              simp only [Option.map_some, Option.some.injEq]
              exact ⟨a.inj _ _, fun h => by rw [h]⟩
          simp only [hid, a.fuse, ih]

theorem encode_alike (s : Str) : u'.encode s = u.encode s := by
  unfold encode encodeOptimized
  rw [a.opt.1, a.opt.2]
  by_cases hs : s = []
  · rw [if_pos hs, if_pos hs]
  rw [if_neg hs, if_neg hs, if_pos rfl, if_pos rfl]
  rcases optLoop_alike a s 0 (T := fun _ => Cell.default) (T' := fun _ => Cell.default)
    (fun p => ⟨rfl, rfl, fun h => absurd rfl h⟩) with ⟨x, h1, h2⟩ | ⟨h1, h2⟩ | ⟨S, S', h1, h2, h3⟩
  · rw [h1, h2]
  · rw [h1, h2]
  · rw [h1, h2]
    dsimp only
    rw [backtrack_alike a s h3]

theorem byteTokens_alike (off : Range) (piece : Str) :
    u'.byteTokens off piece = (u.byteTokens off piece).map (·.map (·.renumber f)) := by
  unfold byteTokens
  induction strBytes piece with
  | nil => rfl
  | cons x l ih =>
    rw [List.mapM_cons, List.mapM_cons, ih, a.ids]
    cases u.tokenToIds.get (byteToken x) with
    | none => rfl
    | some i =>
      simp only [Option.map_some]
      generalize (l.mapM fun b => (u.tokenToIds.get (byteToken b)).map fun id => Token.mk id (byteToken b) off) = r
      cases r <;> rfl

theorem pieceTokens_alike (offset : Nat) (piece : Str) :
    u'.pieceTokens offset piece = (u.pieceTokens offset piece).map (·.map (·.renumber f)) := by
  unfold pieceTokens
  dsimp only
  rw [a.ids, byteTokens_alike a, a.bytes, a.unk]
  cases u.tokenToIds.get piece with
  | some i => rfl
  | none =>
    dsimp only [Option.map_none]
    have hno : ∀ k : Option Nat, (k.map f).map (fun k => [Token.mk k piece (offset, offset + blen piece)]) =
        (k.map fun k => [Token.mk k piece (offset, offset + blen piece)]).map (·.map (·.renumber f)) := by
      intro k; cases k <;> rfl
    split
    · rename_i ts hts
      split at hts
      · cases hb : u.byteTokens (offset, offset + blen piece) piece with
        | none => rw [hb] at hts; cases hts
        | some l => rw [hb] at hts; cases hts; rename_i hbf; simp [hbf]
      · cases hts
    · rename_i hts
      split at hts
      · rename_i hbf
        cases hb : u.byteTokens (offset, offset + blen piece) piece with
        | none => rw [if_pos hbf]; exact hno _
        | some l => rw [hb] at hts; cases hts
      · rename_i hbf
        rw [if_neg hbf]
        exact hno _

theorem tokenizePieces_alike : ∀ (ps : List Str) (offset : Nat),
    u'.tokenizePieces offset ps = (u.tokenizePieces offset ps).map (·.map (·.renumber f))
  | [], _ => rfl
  | p :: ps, offset => by
    rw [tokenizePieces, tokenizePieces, pieceTokens_alike a, tokenizePieces_alike ps]
    cases u.pieceTokens offset p with
    | none => rfl
    | some ts =>
      simp only [Option.map_some, Option.bind_some]
      cases u.tokenizePieces (offset + blen p) ps with
      | none => rfl
      | some r => simp

theorem tokenize_alike (s : Str) : u'.tokenize s = andThen (·.map (·.renumber f)) (u.tokenize s) := by
  unfold tokenize
  rw [encode_alike a]
  cases u.encode s with
  | panic => rfl
  | err x => rfl
  | ok ps =>
    dsimp only
    rw [tokenizePieces_alike a]
    cases u.tokenizePieces 0 ps <;> rfl

end

/-- **C116.** Unigram: no piece being listed twice, the model of the same pieces in another order gives every text the same tokens, with
the ids of the new order. -/
theorem C116_unigram {f : Nat → Nat} {vocab vocab' : List (Str × Rat)} (h : Reordered f vocab vocab') (hs : Single vocab)
    {unk : Option Nat} {bf : Bool} {u : Unigram} (hu : Unigram.from vocab unk bf = .ok u) :
    ∃ u', Unigram.from vocab' (unk.map f) bf = .ok u' ∧
      ∀ s, u'.tokenize s = andThen (·.map (·.renumber f)) (u.tokenize s) := by
  obtain ⟨u', hu'⟩ := from_reordered h hu
  exact ⟨u', hu', tokenize_alike (alike_of_from h hs hu hu')⟩

/-- The four pieces, backwards. -/
example : ∃ u u', Unigram.from [("<unk>".toList, 0), ("a".toList, -1), ("b".toList, -1), ("ab".toList, -3)] (some 0) false = .ok u ∧
    Unigram.from [("ab".toList, -3), ("b".toList, -1), ("a".toList, -1), ("<unk>".toList, 0)] (some 3) false = .ok u' ∧
    (∀ s, u'.tokenize s = andThen (·.map (·.renumber fun i => if i ≤ 3 then 3 - i else i)) (u.tokenize s)) ∧
    u.tokenize "abx".toList = .ok [⟨1, "a".toList, (0, 1)⟩, ⟨2, "b".toList, (1, 2)⟩, ⟨0, "x".toList, (2, 3)⟩] := by
  have h : Reordered (fun i => if i ≤ 3 then 3 - i else i) [("<unk>".toList, 0), ("a".toList, -1), ("b".toList, -1), ("ab".toList, -3)]
      [("ab".toList, -3), ("b".toList, -1), ("a".toList, -1), ("<unk>".toList, 0)] := by
    refine ⟨fun i j h => ?_, fun j => ⟨if j ≤ 3 then 3 - j else j, ?_⟩, fun i => ?_⟩
    · split at h <;> split at h <;> omega
    · by_cases hj : j ≤ 3
      · rw [if_pos hj, if_pos (by omega)]; omega
      · rw [if_neg hj, if_neg hj]
    · match i with
      | 0 => rfl
      | 1 => rfl
      | 2 => rfl
      | 3 => rfl
      | i + 4 => rw [if_neg (by omega), List.getElem?_eq_none (by simp), List.getElem?_eq_none (by simp)]
  obtain ⟨u', h1, h2⟩ := C116_unigram h (by unfold Single; decide +kernel) (unk := some 0) (bf := false) rfl
  exact ⟨_, u', rfl, h1, h2, by decide +kernel⟩

/-- **C116 (negation for pieces listed twice).** Of two entries for one piece the last one counts: `ab` is one token in one order, two
tokens in the other. -/
theorem C116_unigram_twice : ∃ vocab vocab' f u u', Reordered f vocab vocab' ∧
    Unigram.from vocab (some 0) false = .ok u ∧ Unigram.from vocab' (some (f 0)) false = .ok u' ∧
    u.tokenize "ab".toList = .ok [⟨4, "ab".toList, (0, 2)⟩] ∧
    u'.tokenize "ab".toList = .ok [⟨2, "a".toList, (0, 1)⟩, ⟨3, "b".toList, (1, 2)⟩] := by
  refine ⟨[("<unk>".toList, 0), ("a".toList, 0), ("a".toList, -100), ("b".toList, 0), ("ab".toList, -50)],
    [("<unk>".toList, 0), ("a".toList, -100), ("a".toList, 0), ("b".toList, 0), ("ab".toList, -50)],
    fun i => if i = 1 then 2 else if i = 2 then 1 else i, _, _, ⟨fun i j h => ?_, fun j =>
      ⟨if j = 1 then 2 else if j = 2 then 1 else j, ?_⟩, fun i => ?_⟩, rfl, rfl, by decide +kernel, by decide +kernel⟩
  · split at h <;> split at h <;> (try split at h) <;> (try split at h) <;> omega
  · split
    · rename_i h; rw [h]; rfl
    · split
      · rename_i h; rw [h]; rfl
      · rfl
  · match i with
    | 0 => rfl
    | 1 => rfl
    | 2 => rfl
    | 3 => rfl
    | 4 => rfl
    | i + 5 =>
      rw [if_neg (by omega), if_neg (by omega), List.getElem?_eq_none (by simp), List.getElem?_eq_none (by simp)]

end Tok.Unigram
