import Verif.Save.RoundTrip
import Verif.Post.Syntax
import Verif.Encoding.Model

/-!
# C86: `Encoding` pickled in Python

`bindings/python/src/encoding.rs:50-72`: the state of a pickled `Encoding` is its JSON by the derived `Serialize` of
`tokenizer/encoding.rs:10-31`, read again by the derived `Deserialize`. The text of the JSON is `serde_json`'s business and not
modelled (nor its limit of 128 for the depth of nesting).
-/

namespace Tok.Py

open Tok.Save Tok.Save.Json

/-! ## Writing -/

/-- A `usize` as key of a JSON object: `serde_json` writes its decimal digits as a string. -/
def writeKey (n : Nat) : Str := Nat.toDigits 10 n

/-- `Range<usize>`: `serde` writes the two fields. -/
def writeRange (r : Range) : Json := .obj [("start".toList, .int r.1), ("end".toList, .int r.2)]

/-- `AHashMap<usize, Range<usize>>`, in the order in which the map is visited. -/
def writeRanges (l : List (Nat × Range)) : Json := .obj (l.map fun p => (writeKey p.1, writeRange p.2))

/-- `Vec<u32>`. -/
def writeNats (l : List Nat) : Json := .arr (l.map fun n : Nat => .int n)

/-- `Offsets`, a pair. -/
def writeOffsets (r : Range) : Json := .arr [.int r.1, .int r.2]

/-- `Option<u32>`. -/
def writeWord : Option Nat → Json := ofOpt fun n : Nat => .int n

mutual
/-- `encoding.rs:10` `Serialize` for `Encoding`; `order`: how the hash map of ranges is visited. -/
def writeEnc (order : List (Nat × Range) → List (Nat × Range)) : Encoding → Json
  | .mk i t k w o s a ov sr => .obj [("ids".toList, writeNats i), ("type_ids".toList, writeNats t),
      ("tokens".toList, .arr (k.map .str)), ("words".toList, .arr (w.map writeWord)), ("offsets".toList, .arr (o.map writeOffsets)),
      ("special_tokens_mask".toList, writeNats s), ("attention_mask".toList, writeNats a),
      ("overflowing".toList, .arr (writeEncs order ov)), ("sequence_ranges".toList, writeRanges (order sr))]

/-- `Vec<Encoding>`. -/
def writeEncs (order : List (Nat × Range) → List (Nat × Range)) : List Encoding → List Json
  | [] => []
  | e :: l => writeEnc order e :: writeEncs order l
end

/-! ## Reading -/

/-- A `usize` read from the key of a JSON object: a JSON number (no leading zeros) below `2^64`. -/
def readKey (s : Str) : Option Nat :=
  if s = [] ∨ (s.head? = some '0' ∧ s.length ≠ 1) then none
  else (Post.digitsVal 0 s).bind fun n => if n < 18446744073709551616 then some n else none

/-- `Range<usize>`. -/
def readRange : Json → Option Range
  | .obj fs => do return (← req fs "start".toList asUsize, ← req fs "end".toList asUsize)
  | _ => none

/-- One entry of `AHashMap<usize, Range<usize>>`. -/
def readEntry (f : Str × Json) : Option (Nat × Range) := do return (← readKey f.1, ← readRange f.2)

/-- `AHashMap<usize, Range<usize>>`: the entries are inserted one after the other. -/
def readRanges : Json → Option (AMap Nat Range)
  | .obj fs => (fs.mapM readEntry).map fun l => l.foldl (fun m p => m.insert p.1 p.2) []
  | _ => none

/-- `Offsets`. -/
def readOffsets : Json → Option Range
  | .arr [a, b] => do return (← asUsize a, ← asUsize b)
  | _ => none

mutual
/-- `encoding.rs:10` `Deserialize` for `Encoding`: every field must be there. -/
def readEnc : Json → Option Encoding
  | .obj fs => do
    let i ← req fs "ids".toList (asList asU32)
    let t ← req fs "type_ids".toList (asList asU32)
    let k ← req fs "tokens".toList (asList asStr)
    let w ← req fs "words".toList (asList (orNull asU32))
    let o ← req fs "offsets".toList (asList readOffsets)
    let s ← req fs "special_tokens_mask".toList (asList asU32)
    let a ← req fs "attention_mask".toList (asList asU32)
    let ov ← readOverflowing fs
    let sr ← req fs "sequence_ranges".toList readRanges
    return .mk i t k w o s a ov sr
  | _ => none

/-- The field `overflowing`. -/
def readOverflowing : Fields → Option (List Encoding)
  | [] => none
  | (k, v) :: fs => if k = "overflowing".toList then readEncArr v else readOverflowing fs

/-- `Vec<Encoding>`. -/
def readEncArr : Json → Option (List Encoding)
  | .arr l => readEncs l
  | _ => none

/-- The elements of `Vec<Encoding>`. -/
def readEncs : List Json → Option (List Encoding)
  | [] => some []
  | j :: l =>
    match readEnc j with
    | none => none
    | some e => (readEncs l).map (e :: ·)
end

/-! ## The spec -/

mutual
/-- Equal encodings (`PartialEq`, `encoding.rs:10`): the same lists, equal overflowing encodings, and the same ranges for the
same sequences, in whatever order a hash map holds them. -/
inductive SameEnc : Encoding → Encoding → Prop where
  | mk {i t : List Nat} {k : List Str} {w : List (Option Nat)} {o : List Range} {s a : List Nat} {ov ov' : List Encoding}
      {sr sr' : AMap Nat Range} (hov : SameEncs ov ov') (hsr : sr'.Perm sr) :
      SameEnc (.mk i t k w o s a ov sr) (.mk i t k w o s a ov' sr')

/-- One by one. -/
inductive SameEncs : List Encoding → List Encoding → Prop where
  | nil : SameEncs [] []
  | cons {e e' l l'} (h : SameEnc e e') (hl : SameEncs l l') : SameEncs (e :: l) (e' :: l')
end

mutual
/-- The numbers are those of the types of the fields: `u32` and `usize`; a hash map has no key twice. -/
def EncFits : Encoding → Prop
  | .mk i t _ w o s a ov sr =>
    (∀ n ∈ i ++ t ++ s ++ a, n < 2 ^ 32) ∧ (∀ x ∈ w, ∀ n, x = some n → n < 2 ^ 32) ∧
    (∀ r ∈ o, r.1 < 2 ^ 64 ∧ r.2 < 2 ^ 64) ∧ (∀ p ∈ sr, p.1 < 2 ^ 64 ∧ p.2.1 < 2 ^ 64 ∧ p.2.2 < 2 ^ 64) ∧
    (sr.map (·.1)).Nodup ∧ EncsFit ov

/-- All of them. -/
def EncsFit : List Encoding → Prop
  | [] => True
  | e :: l => EncFits e ∧ EncsFit l
end

/-! ## The round trip -/

theorem toDigits_head (n : Nat) : 0 < n → (Nat.toDigits 10 n).head? ≠ some '0' := by
  induction n using Nat.strongRecOn with
  | ind n ih =>
    intro h
    rw [Nat.toDigits_eq_if (by omega)]
    split
    · rename_i hl
      have : ∀ m < 10, 0 < m → Nat.digitChar m ≠ '0' := by decide
      simpa using this n hl h
    · rename_i hl
      have := ih (n / 10) (by omega) (by omega)
      have hne : Nat.toDigits 10 (n / 10) ≠ [] := Nat.toDigits_ne_nil
      cases he : Nat.toDigits 10 (n / 10) with
      | nil => exact absurd he hne
      | cons a l => rw [he] at this; simpa using this

theorem readKey_writeKey {n : Nat} (h : n < 2 ^ 64) : readKey (writeKey n) = some n := by
  have hne : Nat.toDigits 10 n ≠ [] := Nat.toDigits_ne_nil
  have h0 : ¬ ((Nat.toDigits 10 n).head? = some '0' ∧ (Nat.toDigits 10 n).length ≠ 1) := by
    rintro ⟨h1, h2⟩
    cases n with
    | zero => simp at h2
    | succ n => exact toDigits_head _ (by omega) h1
  unfold readKey writeKey
  rw [if_neg (fun h => h.elim hne h0), Post.digitsVal_eq _ _ (Post.digits_all n),
    Nat.ofDigitChars_ten_toDigits]
  simp only [Option.bind_some]
  rw [if_pos (by simpa using h)]

theorem readRange_writeRange {r : Range} (h : r.1 < 2 ^ 64 ∧ r.2 < 2 ^ 64) : readRange (writeRange r) = some r := by
  simp [readRange, writeRange, req, Json.get, asUsize_int h.1, asUsize_int h.2]

theorem foldl_insert_perm : ∀ (l m : List (Nat × Range)), ((m ++ l).map (·.1)).Nodup →
    (l.foldl (fun m p => AMap.insert m p.1 p.2) m).Perm (m ++ l)
  | [], m, _ => by simp
  | p :: l, m, h => by
    have hp : ∀ q ∈ m, ¬ q.1 = p.1 := by
      intro q hq e
      rw [List.map_append, List.nodup_append] at h
      exact h.2.2 q.1 (List.mem_map.2 ⟨q, hq, rfl⟩) p.1 (by simp) e
    have hi : AMap.insert m p.1 p.2 = p :: m := by
      unfold AMap.insert
      rw [List.filter_eq_self.2 fun q hq => by simpa using hp q hq]
    rw [List.foldl_cons, hi]
    have hperm : (p :: m ++ l).Perm (m ++ p :: l) := by
      rw [List.cons_append]; exact List.perm_middle.symm
    exact (foldl_insert_perm l (p :: m) ((hperm.map _).nodup_iff.2 h)).trans hperm

theorem readRanges_writeRanges {l : List (Nat × Range)} (hn : (l.map (·.1)).Nodup)
    (h : ∀ p ∈ l, p.1 < 2 ^ 64 ∧ p.2.1 < 2 ^ 64 ∧ p.2.2 < 2 ^ 64) :
    ∃ m, readRanges (writeRanges l) = some m ∧ m.Perm l := by
  refine ⟨_, ?_, foldl_insert_perm l [] (by simpa using hn)⟩
  unfold readRanges writeRanges
  dsimp only
  rw [mapM_map (w := fun p => (writeKey p.1, writeRange p.2)) (r := readEntry)]
  · rfl
  · intro p hp
    simp [readEntry, readKey_writeKey (h p hp).1, readRange_writeRange (h p hp).2]

theorem asList_nats {l : List Nat} (h : ∀ n ∈ l, n < 2 ^ 32) : asList asU32 (writeNats l) = some l := by
  unfold asList writeNats
  exact mapM_map fun n hn => asU32_int (h n hn)

theorem asList_strs (l : List Str) : asList asStr (.arr (l.map .str)) = some l := by
  unfold asList
  exact mapM_map fun n hn => rfl

theorem asList_words {l : List (Option Nat)} (h : ∀ x ∈ l, ∀ n, x = some n → n < 2 ^ 32) :
    asList (orNull asU32) (.arr (l.map writeWord)) = some l := by
  unfold asList
  refine mapM_map fun x hx => ?_
  cases x with
  | none => rfl
  | some n => simp [writeWord, ofOpt, orNull, asU32_int (h _ hx n rfl)]

theorem asList_offsets {l : List Range} (h : ∀ r ∈ l, r.1 < 2 ^ 64 ∧ r.2 < 2 ^ 64) :
    asList readOffsets (.arr (l.map writeOffsets)) = some l := by
  unfold asList
  refine mapM_map fun r hr => ?_
  simp [readOffsets, writeOffsets, asUsize_int (h r hr).1, asUsize_int (h r hr).2]

mutual
/-- **C86.** An encoding that is pickled and unpickled is equal to what it was, with its overflowing encodings however nested,
in whatever order the hash map of ranges is written. -/
theorem C86_pickle {order : List (Nat × Range) → List (Nat × Range)} (ho : ∀ l, (order l).Perm l) :
    ∀ e : Encoding, EncFits e → ∃ e', readEnc (writeEnc order e) = some e' ∧ SameEnc e e'
  | .mk i t k w o s a ov sr, h => by
    unfold EncFits at h
    obtain ⟨h1, h2, h3, h4, h5, h6⟩ := h
    obtain ⟨ov', hov, hsame⟩ := encs_roundtrip ho ov h6
    obtain ⟨sr', hsr, hperm⟩ := readRanges_writeRanges (l := order sr) (((ho sr).map _).nodup_iff.2 h5)
      (fun p hp => h4 p ((ho sr).mem_iff.1 hp))
    refine ⟨_, ?_, .mk hsame (hperm.trans (ho sr))⟩
    have hi := asList_nats (l := i) fun n hn => h1 n (by simp [hn])
    have ht := asList_nats (l := t) fun n hn => h1 n (by simp [hn])
    have hs := asList_nats (l := s) fun n hn => h1 n (by simp [hn])
    have ha := asList_nats (l := a) fun n hn => h1 n (by simp [hn])
    simp [writeEnc, readEnc, req, Json.get, hi, ht, hs, ha, asList_strs, asList_words h2, asList_offsets h3, hsr,
      readOverflowing, readEncArr, hov]

theorem encs_roundtrip {order : List (Nat × Range) → List (Nat × Range)} (ho : ∀ l, (order l).Perm l) :
    ∀ l : List Encoding, EncsFit l → ∃ l', readEncs (writeEncs order l) = some l' ∧ SameEncs l l'
  | [], _ => ⟨[], rfl, .nil⟩
  | e :: l, h => by
    unfold EncsFit at h
    obtain ⟨e', he, hs⟩ := C86_pickle ho e h.1
    obtain ⟨l', hl, hss⟩ := encs_roundtrip ho l h.2
    exact ⟨e' :: l', by simp [writeEncs, readEncs, he, hl], .cons hs hss⟩
end

/-! ## What the accessors say -/

theorem SameEnc.lists {e e' : Encoding} (h : SameEnc e e') : e'.ids = e.ids ∧ e'.typeIds = e.typeIds ∧ e'.tokens = e.tokens ∧
    e'.words = e.words ∧ e'.offsets = e.offsets ∧ e'.specialMask = e.specialMask ∧ e'.attnMask = e.attnMask ∧
    e'.overflowing.length = e.overflowing.length ∧ e'.seqRanges.Perm e.seqRanges := by
  have hlen : ∀ {l l' : List Encoding}, SameEncs l l' → l'.length = l.length := by
    intro l
    induction l with
    | nil => intro l' h; cases h; rfl
    | cons a l ih => intro l' h; cases h with | cons _ hl => simp [ih hl]
  cases h with
  | mk hov hsr => exact ⟨rfl, rfl, rfl, rfl, rfl, rfl, rfl, hlen hov, hsr⟩

/-- **C86, accessors.** All that Python can ask of an encoding about sequences, words and characters is the same of an equal
one (about the sequence of a token: see `C86_tokens`). -/
theorem C86_accessors {e e' : Encoding} (h : SameEnc e e') (hw : (e.seqRanges.map (·.1)).Nodup) :
    e'.nSequences = e.nSequences ∧ (∀ q, e'.sequenceRange q = e.sequenceRange q) ∧ e'.getSequenceIds = e.getSequenceIds ∧
    (∀ w q, e'.wordToTokens w q = e.wordToTokens w q) ∧ (∀ w q, e'.wordToChars w q = e.wordToChars w q) ∧
    (∀ p q, e'.charToToken p q = e.charToToken p q) := by
  obtain ⟨h1, h2, h3, h4, h5, h6, h7, -, hp⟩ := h.lists
  have hn : e'.nSequences = e.nSequences := by
    unfold Encoding.nSequences
    rw [hp.length_eq, hp.isEmpty_eq]
  have hlen : e'.len = e.len := congrArg List.length h1
  have hr : ∀ q, e'.sequenceRange q = e.sequenceRange q := by
    intro q
    unfold Encoding.sequenceRange
    rw [get_of_perm hw hp.symm q, hlen]
  have hwt : ∀ w q, e'.wordToTokens w q = e.wordToTokens w q := by
    intro w q
    unfold Encoding.wordToTokens
    rw [hr q, h4]
  refine ⟨hn, hr, ?_, hwt, ?_, ?_⟩
  · unfold Encoding.getSequenceIds
    rw [hn, hlen]
    simp only [hr]
  · intro w q
    unfold Encoding.wordToChars
    rw [hwt, h5]
  · intro p q
    unfold Encoding.charToToken
    rw [hr q, h5]

/-- **C86, tokens.** If no token belongs to two sequences, what is said about a token is the same, too. -/
theorem C86_tokens {e e' : Encoding} (h : SameEnc e e') (hw : (e.seqRanges.map (·.1)).Nodup)
    (hd : ∀ p ∈ e.seqRanges, ∀ q ∈ e.seqRanges, ∀ i, p.2.1 ≤ i → i < p.2.2 → q.2.1 ≤ i → i < q.2.2 → p.1 = q.1) (i : Nat) :
    e'.tokenToSequence i = e.tokenToSequence i ∧ e'.tokenToChars i = e.tokenToChars i ∧ e'.tokenToWord i = e.tokenToWord i ∧
    ∀ q, e'.charToWord i q = e.charToWord i q := by
  obtain ⟨h1, h2, h3, h4, h5, h6, h7, -, hp⟩ := h.lists
  obtain ⟨-, -, -, -, -, hct⟩ := C86_accessors h hw
  have hts : ∀ i, e'.tokenToSequence i = e.tokenToSequence i := by
    intro i
    unfold Encoding.tokenToSequence
    rw [show e'.len = e.len from congrArg List.length h1, hp.isEmpty_eq]
    split
    · rfl
    split
    · rfl
    -- the one sequence that has the token is found in any order
    have found : ∀ {l : List (Nat × Range)} {q : Nat},
        l.findSome? (fun (q, r) => if r.1 ≤ i ∧ i < r.2 then some q else none) = some q →
        ∃ p ∈ l, p.1 = q ∧ p.2.1 ≤ i ∧ i < p.2.2 := by
      intro l q hl
      obtain ⟨p, hpl, hpq⟩ := List.exists_of_findSome?_eq_some hl
      dsimp only at hpq
      split at hpq
      · rename_i hh
        exact ⟨p, hpl, Option.some.inj hpq, hh⟩
      · cases hpq
    have lost : ∀ {l : List (Nat × Range)},
        l.findSome? (fun (q, r) => if r.1 ≤ i ∧ i < r.2 then some q else none) = none →
        ∀ p ∈ l, ¬ (p.2.1 ≤ i ∧ i < p.2.2) := by
      intro l hl p hpl hh
      have := List.findSome?_eq_none_iff.1 hl p hpl
      dsimp only at this
      rw [if_pos hh] at this
      cases this
    cases h1' : e'.seqRanges.findSome? (fun (q, r) => if r.1 ≤ i ∧ i < r.2 then some q else none) with
    | none =>
      cases h2' : e.seqRanges.findSome? (fun (q, r) => if r.1 ≤ i ∧ i < r.2 then some q else none) with
      | none => rfl
      | some q =>
        obtain ⟨p, hpl, -, hh⟩ := found h2'
        exact absurd hh (lost h1' p (hp.mem_iff.2 hpl))
    | some q' =>
      obtain ⟨p', hpl', rfl, hh'⟩ := found h1'
      cases h2' : e.seqRanges.findSome? (fun (q, r) => if r.1 ≤ i ∧ i < r.2 then some q else none) with
      | none => exact absurd hh' (lost h2' p' (hp.mem_iff.1 hpl'))
      | some q =>
        obtain ⟨p, hpl, rfl, hh⟩ := found h2'
        rw [hd p' (hp.mem_iff.1 hpl') p hpl i hh'.1 hh'.2 hh.1 hh.2]
  have htw : ∀ i, e'.tokenToWord i = e.tokenToWord i := by
    intro i
    unfold Encoding.tokenToWord
    rw [hts, h4]
  refine ⟨hts i, ?_, htw i, fun q => ?_⟩
  · unfold Encoding.tokenToChars
    rw [hts, h5]
  · unfold Encoding.charToWord
    rw [hct]
    split
    · rfl
    · rw [htw]

/-! ## A case -/

/-- Two sequences, one overflowing encoding. -/
def samplePickle : Encoding :=
  .mk [5, 6, 7] [0, 0, 1] ["a".toList, "é".toList, "[SEP]".toList] [some 0, some 1, none] [(0, 1), (2, 3), (0, 0)]
    [0, 0, 1] [1, 1, 1] [.mk [8] [0] ["b".toList] [some 2] [(4, 5)] [0] [1] [] [(0, (0, 1))]] [(0, (0, 2)), (12, (2, 3))]

/-- Hypotheses met: written backwards, it is read with the ranges backwards. -/
example : EncFits samplePickle ∧ ∃ e', readEnc (writeEnc List.reverse samplePickle) = some e' ∧ SameEnc samplePickle e' :=
  have h : EncFits samplePickle := by
    simp only [samplePickle, EncFits, EncsFit]
    refine ⟨by decide, ?_, by decide, by decide, by decide, ⟨by decide, ?_, by decide, by decide, by decide, trivial⟩, trivial⟩ <;>
      simp
  ⟨h, C86_pickle (fun l => List.reverse_perm l) _ h⟩

example : ((readEnc (writeEnc List.reverse samplePickle)).map fun e =>
    (e.ids, e.words, (e.seqRanges : List (Nat × Nat × Nat)), e.overflowing.map (·.tokens), e.tokenToSequence 2)) =
    some ([5, 6, 7], [some 0, some 1, none], [(0, (0, 2)), (12, (2, 3))], [["b".toList]], some 12) := by rfl

/-- Keys are numbers as JSON writes them. -/
example : readKey "12".toList = some 12 ∧ readKey "012".toList = none ∧ readKey "".toList = none ∧
    readKey "18446744073709551616".toList = none ∧ readKey "+1".toList = none := by decide +kernel

end Tok.Py
