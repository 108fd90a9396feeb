import Verif.Encoding.Props4

/-!
# The sequences of an encoding (C06, C07)

`get_sequence_ids`, and encodings that carry no labels: those of one text without a post-processor that labels them.
-/

namespace Tok
namespace Encoding

/-- The sequences are numbered from 0, each has a range, and no other has. -/
def Numbered (e : Encoding) : Prop := ∀ q, (∃ r, (q, r) ∈ e.seqRanges) ↔ q < e.seqRanges.length

/-- Overwriting a part of a list. -/
theorem splice_getElem? {α : Type} (l : List α) (a b : Nat) (x : α) (h1 : a ≤ b) (h2 : b ≤ l.length) (t : Nat) :
    (l.take a ++ List.replicate (b - a) x ++ l.drop b)[t]? = if a ≤ t ∧ t < b then some x else l[t]? := by
  simp only [List.getElem?_append, List.length_append, List.length_take, List.length_replicate, List.getElem?_take,
    List.getElem?_replicate, List.getElem?_drop, Nat.min_eq_left (Nat.le_trans h1 h2)]
  by_cases g1 : t < a
  · rw [if_pos (by omega), if_pos g1, if_pos g1, if_neg (by omega)]
  · by_cases g2 : t < b
    · rw [if_pos (by omega), if_neg g1, if_pos (by omega), if_pos (by omega)]
    · rw [if_neg (by omega), if_neg (by omega)]
      congr 1
      omega

/-- **C06 (sequence ids).** `get_sequence_ids` says for every token which sequence it belongs to, and nothing for the tokens that
belong to none (special tokens, padding), if the sequences are numbered from 0. -/
theorem C06_sequence_ids {e : Encoding} (h : e.WF) (hk : AMap.WF e.seqRanges) (hd : RangesDisjoint e) (hn : Numbered e)
    (hne : e.seqRanges ≠ []) :
    ∃ ids, e.getSequenceIds = some ids ∧ ids.length = e.len ∧
      ∀ t < e.len, ∀ q, ids[t]? = some (some q) ↔ ∃ r, (q, r) ∈ e.seqRanges ∧ r.1 ≤ t ∧ t < r.2 := by
  have key : ∀ k ≤ e.seqRanges.length, ∃ ids, (List.range k).foldlM
      (fun (acc : List (Option Nat)) q =>
        let r := e.sequenceRange q
        if r.1 ≤ r.2 ∧ r.2 ≤ acc.length then
          some (acc.take r.1 ++ List.replicate (r.2 - r.1) (some q) ++ acc.drop r.2)
        else none)
      (List.replicate e.len none) = some ids ∧ ids.length = e.len ∧
      ∀ t < e.len, ∀ q, ids[t]? = some (some q) ↔ q < k ∧ ∃ r, (q, r) ∈ e.seqRanges ∧ r.1 ≤ t ∧ t < r.2 := by
    intro k
    induction k with
    | zero =>
      intro _
      refine ⟨_, rfl, by simp, fun t ht q => ?_⟩
      simp [ht]
    | succ k ih =>
      intro hle
      obtain ⟨ids, h1, h2, h3⟩ := ih (by omega)
      obtain ⟨r, hr⟩ := (hn k).2 (by omega)
      have hsr : e.sequenceRange k = r := by
        unfold sequenceRange; rw [AMap.get_eq_some_of_mem hk hr]; rfl
      have hb := h.ranges k r hr
      have hl : e.len = e.ids.length := rfl
      rw [List.range_succ, List.foldlM_append, h1]
      refine ⟨ids.take r.1 ++ List.replicate (r.2 - r.1) (some k) ++ ids.drop r.2, ?_, ?_, ?_⟩
      · have hc : r.1 ≤ r.2 ∧ r.2 ≤ ids.length := ⟨hb.1, by omega⟩
        simp only [List.foldlM_cons, List.foldlM_nil, hsr, Option.bind_eq_bind, Option.bind_some, if_pos hc]
        rfl
      · simp only [List.length_append, List.length_take, List.length_replicate, List.length_drop]; omega
      · intro t ht q
        rw [splice_getElem? _ _ _ _ hb.1 (by omega)]
        split
        · rename_i hin
          constructor
          · intro hq
            cases hq
            exact ⟨by omega, r, hr, hin⟩
          · rintro ⟨-, r', hr', hin'⟩
            rw [hd q r' k r hr' hr t hin'.1 hin'.2 hin.1 hin.2]
        · rename_i hin
          rw [h3 t ht q]
          constructor
          · rintro ⟨g1, g2⟩; exact ⟨by omega, g2⟩
          · rintro ⟨g1, r', hr', g2⟩
            refine ⟨?_, r', hr', g2⟩
            rcases Nat.lt_succ_iff_lt_or_eq.1 g1 with g | rfl
            · exact g
            · have : r' = r := by
                have a := AMap.get_eq_some_of_mem hk hr
                have b := AMap.get_eq_some_of_mem hk hr'
                rw [a] at b
                cases b; rfl
              subst this
              exact absurd g2 hin
  obtain ⟨ids, h1, h2, h3⟩ := key _ (Nat.le_refl _)
  have hns : e.nSequences = e.seqRanges.length := by
    unfold nSequences
    rw [if_neg (by cases hs : e.seqRanges with | nil => exact absurd hs hne | cons _ _ => simp)]
  refine ⟨ids, by unfold getSequenceIds; rw [hns]; exact h1, h2, fun t ht q => ?_⟩
  rw [h3 t ht q]
  constructor
  · exact fun g => g.2
  · exact fun g => ⟨(hn q).1 (by obtain ⟨r, hr, -⟩ := g; exact ⟨r, hr⟩), g⟩

/-- **C06 (no labels).** An encoding without labels is one sequence, number 0, with all its tokens. -/
theorem C06_unlabelled {e : Encoding} (h0 : e.seqRanges = []) : e.nSequences = 1 ∧ e.sequenceRange 0 = (0, e.len) ∧
    e.getSequenceIds = some (List.replicate e.len (some 0)) ∧ ∀ t < e.len, e.tokenToSequence t = some 0 := by
  have h1 : e.nSequences = 1 := by unfold nSequences; rw [h0]; rfl
  have h2 : ∀ q, e.sequenceRange q = (0, e.len) := by intro q; unfold sequenceRange; rw [h0]; rfl
  refine ⟨h1, h2 0, ?_, fun t ht => ?_⟩
  · unfold getSequenceIds
    rw [h1, show List.range 1 = [0] from rfl]
    simp only [List.foldlM_cons, List.foldlM_nil, h2, List.length_replicate]
    rw [if_pos ⟨Nat.zero_le _, Nat.le_refl _⟩]
    simp
  · unfold tokenToSequence
    rw [if_neg (by omega), h0]
    rfl

/-- **C06 (finding).** An encoding that carries only the label of a second sequence, as `$B` of a template has it, is said to
consist of tokens of sequence 0 by `get_sequence_ids`, of sequence 1 by `token_to_sequence`. -/
theorem C06_second_alone {e : Encoding} (h0 : e.seqRanges = []) :
    (e.setSequenceId 1).getSequenceIds = some (List.replicate e.len (some 0)) ∧
      ∀ t < e.len, (e.setSequenceId 1).tokenToSequence t = some 1 := by
  cases e with
  | mk i ty k w o s a ov sr =>
    change sr = [] at h0
    subst h0
    have hs : (mk i ty k w o s a ov []).setSequenceId 1 = mk i ty k w o s a ov [(1, (0, i.length))] := rfl
    rw [hs]
    refine ⟨?_, fun t ht => ?_⟩
    · unfold getSequenceIds
      rw [show (mk i ty k w o s a ov [(1, (0, i.length))]).nSequences = 1 from rfl, show List.range 1 = [0] from rfl]
      simp only [List.foldlM_cons, List.foldlM_nil, List.length_replicate,
        show (mk i ty k w o s a ov [(1, (0, i.length))]).sequenceRange 0 = (0, i.length) from rfl, len, ids]
      rw [if_pos ⟨Nat.zero_le _, Nat.le_refl _⟩]
      simp
    · change t < i.length at ht
      unfold tokenToSequence
      rw [if_neg (show ¬ t > (mk i ty k w o s a ov [(1, (0, i.length))]).len from Nat.not_lt.2 (Nat.le_of_lt ht))]
      simp [seqRanges, ht]

/-- **C07 (token lookups, no labels).** -/
theorem C07_unlabelled_lookups {e : Encoding} (h : e.WF) (h0 : e.seqRanges = []) {t : Nat} (ht : t < e.len) :
    (∃ o, e.offsets[t]? = some o ∧ e.tokenToChars t = some (0, o)) ∧
    (∃ w, e.words[t]? = some w ∧ e.tokenToWord t = w.map fun w => (0, w)) := by
  have hq := (C06_unlabelled h0).2.2.2 t ht
  have hl1 := h.parallel.2.2.2.1
  have hl2 := h.parallel.2.2.1
  unfold len at ht
  refine ⟨⟨e.offsets[t]'(by omega), List.getElem?_eq_getElem _, ?_⟩,
    ⟨e.words[t]'(by omega), List.getElem?_eq_getElem _, ?_⟩⟩
  · unfold tokenToChars; rw [hq, List.getElem?_eq_getElem (by omega)]
  · unfold tokenToWord; rw [hq, List.getElem?_eq_getElem (by omega)]
    cases e.words[t]'(by omega) <;> rfl

/-- **C07 (char to token, no labels).** A character of the text is found in the first token whose offsets contain it. -/
theorem C07_unlabelled_char {e : Encoding} (h : e.WF) (h0 : e.seqRanges = []) (pos t : Nat) : e.charToToken pos 0 = some t ↔
    (∃ o, e.offsets[t]? = some o ∧ o.1 ≤ pos ∧ pos < o.2) ∧
      ∀ u < t, ∀ o, e.offsets[u]? = some o → ¬ (o.1 ≤ pos ∧ pos < o.2) := by
  have hr := (C06_unlabelled h0).2.1
  have hlen := h.parallel.2.2.2.1
  rw [C07_char_to_token h pos 0 t, hr]
  constructor
  · rintro ⟨-, h2, h3, h4⟩
    exact ⟨h3, fun u hu => h4 u (Nat.zero_le _) hu⟩
  · rintro ⟨⟨o, ho, h3⟩, h4⟩
    refine ⟨Nat.zero_le _, ?_, ⟨o, ho, h3⟩, fun u _ hu => h4 u hu⟩
    have := (List.getElem?_eq_some_iff.1 ho).1
    unfold len
    simp only
    omega

/-- **C07 (char to word, no labels).** -/
theorem C07_unlabelled_word {e : Encoding} (h : e.WF) (h0 : e.seqRanges = []) (pos : Nat) :
    e.charToWord pos 0 = match e.charToToken pos 0 with
      | none => none
      | some t => e.words[t]?.join := by
  unfold charToWord
  cases hc : e.charToToken pos 0 with
  | none => rfl
  | some t =>
    obtain ⟨-, h2, -⟩ := (C07_char_to_token h pos 0 t).1 hc
    rw [(C06_unlabelled h0).2.1] at h2
    obtain ⟨w, hw, hw'⟩ := (C07_unlabelled_lookups h h0 h2).2
    simp only [hw', hw, Option.join]
    cases w <;> rfl

/-- **C01 (tokens).** An encoding made of tokens has their entries, marks none as special, attends to all, and is not labelled. -/
theorem C01_from_tokens (ts : List Token) (typeId : Nat) (i : Nat) (t : Token) (h : ts[i]? = some t) :
    (fromTokens ts typeId).len = ts.length ∧ (fromTokens ts typeId).ids[i]? = some t.id ∧
    (fromTokens ts typeId).tokens[i]? = some t.value ∧ (fromTokens ts typeId).offsets[i]? = some t.offsets ∧
    (fromTokens ts typeId).typeIds[i]? = some typeId ∧ (fromTokens ts typeId).words[i]? = some none ∧
    (fromTokens ts typeId).specialMask[i]? = some 0 ∧ (fromTokens ts typeId).attnMask[i]? = some 1 ∧
    (fromTokens ts typeId).overflowing = [] ∧ (fromTokens ts typeId).seqRanges = [] := by
  obtain ⟨hi, rfl⟩ := List.getElem?_eq_some_iff.1 h
  simp [fromTokens, len, ids, tokens, offsets, typeIds, words, specialMask, attnMask, overflowing, seqRanges, hi]

/-! ## Examples -/

example : sampleWords.seqRanges = [] ∧ sampleWords.len = 3 := ⟨rfl, rfl⟩

/-- A pair, between special tokens. -/
def samplePair : Encoding :=
  merge [fromTokens [⟨0, "[CLS]".toList, (0, 0)⟩] 0, sampleEnc.setSequenceId 0, fromTokens [⟨1, "[SEP]".toList, (0, 0)⟩] 0,
    sampleEnc.setSequenceId 1] false

example : samplePair.seqRanges.length = 2 ∧ samplePair.getSequenceIds =
    some [none, some 0, some 0, some 0, none, some 1, some 1, some 1] ∧ Numbered samplePair := by
  refine ⟨by decide +kernel, by decide +kernel, fun q => ?_⟩
  have e1 : samplePair.seqRanges = [(1, (5, 8)), (0, (1, 4))] := by decide +kernel
  rw [e1]
  constructor
  · rintro ⟨r, hr⟩
    rcases List.mem_cons.1 hr with h | h
    · cases h; decide
    · rcases List.mem_cons.1 h with h | h
      · cases h; decide
      · cases h
  · intro h
    match q, h with
    | 0, _ => exact ⟨(1, 4), by simp⟩
    | 1, _ => exact ⟨(5, 8), by simp⟩

end Encoding
end Tok
