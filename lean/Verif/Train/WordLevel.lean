import Verif.Text.Utf8
import Verif.Save.Vocab

/-!
# Model of `models/wordlevel/trainer.rs`; C40
-/

namespace Tok.Train

/-- `<=` on strings: byte by byte. -/
def bytesLe : List UInt8 → List UInt8 → Bool
  | [], _ => true
  | _ :: _, [] => false
  | a :: s, b :: t => a < b || (a == b && bytesLe s t)

/-- `cmp` (`wordlevel/trainer.rs:47-53`), as `l <= r`. -/
def cmpLe (l r : Str × Nat) : Bool :=
  if l.2 ≠ r.2 then decide (r.2 < l.2) else bytesLe (strBytes l.1) (strBytes r.1)

/-- Put an element before the first one that is not smaller. -/
def insertWord (a : Str × Nat) : List (Str × Nat) → List (Str × Nat)
  | [] => [a]
  | b :: l => if cmpLe a b then a :: b :: l else b :: insertWord a l

/-- `ordered_counts.sort_by(cmp)` (`wordlevel/trainer.rs:43-55`). -/
def sortWords (l : List (Str × Nat)) : List (Str × Nat) := l.foldr insertWord []

/-- `WordLevelTrainer::do_train` (`wordlevel/trainer.rs:38-79`): the new vocabulary. The order of the word counts is that of
the hash map. -/
def wordLevelTrain (specials : List Str) (minFrequency vocabSize : Nat) (wc : AMap Str Nat) : AMap Str Nat :=
  AMap.extend [] ((specials ++ ((sortWords wc).filter fun p => p.2 ≥ minFrequency).map (·.1)).take vocabSize).zipIdx

/-! ## Sorting -/

theorem bytesLe_refl : ∀ s, bytesLe s s = true
  | [] => rfl
  | a :: s => by rw [bytesLe, bytesLe_refl s]; simp

theorem bytesLe_total : ∀ s t, bytesLe s t = true ∨ bytesLe t s = true
  | [], _ => .inl rfl
  | _ :: _, [] => .inr rfl
  | a :: s, b :: t => by
    simp only [bytesLe, Bool.or_eq_true, Bool.and_eq_true, decide_eq_true_eq, beq_iff_eq]
    rcases bytesLe_total s t with h | h
    · by_cases hab : a < b
      · exact .inl (.inl hab)
      · by_cases he : a = b
        · exact .inl (.inr ⟨he, h⟩)
        · exact .inr (.inl (by rw [UInt8.lt_iff_toNat_lt] at *; have := mt UInt8.toNat_inj.1 he; omega))
    · by_cases hab : b < a
      · exact .inr (.inl hab)
      · by_cases he : b = a
        · exact .inr (.inr ⟨he, h⟩)
        · exact .inl (.inl (by rw [UInt8.lt_iff_toNat_lt] at *; have := mt UInt8.toNat_inj.1 he; omega))

theorem bytesLe_trans : ∀ {s t u}, bytesLe s t = true → bytesLe t u = true → bytesLe s u = true
  | [], _, _, _, _ => rfl
  | _ :: _, [], _, h, _ => by cases h
  | _ :: _, _ :: _, [], _, h => by cases h
  | a :: s, b :: t, c :: u, h1, h2 => by
    simp only [bytesLe, Bool.or_eq_true, Bool.and_eq_true, decide_eq_true_eq, beq_iff_eq] at h1 h2 ⊢
    rcases h1 with h1 | ⟨rfl, h1⟩
    · rcases h2 with h2 | ⟨rfl, h2⟩
      · left; rw [UInt8.lt_iff_toNat_lt] at *; omega
      · exact .inl h1
    · rcases h2 with h2 | ⟨rfl, h2⟩
      · exact .inl h2
      · exact .inr ⟨rfl, bytesLe_trans h1 h2⟩

theorem bytesLe_antisymm : ∀ {s t}, bytesLe s t = true → bytesLe t s = true → s = t
  | [], [], _, _ => rfl
  | [], _ :: _, _, h => by cases h
  | _ :: _, [], h, _ => by cases h
  | a :: s, b :: t, h1, h2 => by
    simp only [bytesLe, Bool.or_eq_true, Bool.and_eq_true, decide_eq_true_eq, beq_iff_eq] at h1 h2
    rcases h1 with h1 | ⟨rfl, h1⟩
    · rcases h2 with h2 | ⟨rfl, _⟩
      · exfalso; rw [UInt8.lt_iff_toNat_lt] at *; omega
      · exfalso; rw [UInt8.lt_iff_toNat_lt] at *; omega
    · rcases h2 with h2 | ⟨_, h2⟩
      · exfalso; rw [UInt8.lt_iff_toNat_lt] at *; omega
      · rw [bytesLe_antisymm h1 h2]

/-- What the order means: more frequent first, then by the bytes. -/
def Before (l r : Str × Nat) : Prop :=
  r.2 < l.2 ∨ (l.2 = r.2 ∧ bytesLe (strBytes l.1) (strBytes r.1) = true)

theorem cmpLe_iff (l r : Str × Nat) : cmpLe l r = true ↔ Before l r := by
  unfold cmpLe Before
  by_cases h : l.2 = r.2
  · rw [if_neg (by simp [h])]
    simp [h]
  · rw [if_pos h]
    simp [h]

theorem Before.trans {a b c : Str × Nat} (h1 : Before a b) (h2 : Before b c) : Before a c := by
  rcases h1 with h1 | ⟨h1, k1⟩ <;> rcases h2 with h2 | ⟨h2, k2⟩
  · exact .inl (by omega)
  · exact .inl (by omega)
  · exact .inl (by omega)
  · exact .inr ⟨by omega, bytesLe_trans k1 k2⟩

theorem Before.total (a b : Str × Nat) : Before a b ∨ Before b a := by
  unfold Before
  rcases Nat.lt_trichotomy a.2 b.2 with h | h | h
  · exact .inr (.inl h)
  · rcases bytesLe_total (strBytes a.1) (strBytes b.1) with k | k
    · exact .inl (.inr ⟨h, k⟩)
    · exact .inr (.inr ⟨h.symm, k⟩)
  · exact .inl (.inl h)

theorem Before.antisymm {a b : Str × Nat} (h1 : Before a b) (h2 : Before b a) : a = b := by
  rcases h1 with h1 | ⟨h1, k1⟩ <;> rcases h2 with h2 | ⟨h2, k2⟩ <;> first | omega | skip
  have := strBytes_inj (bytesLe_antisymm k1 k2)
  exact Prod.ext this h1

theorem insertWord_perm (a : Str × Nat) : ∀ l, (insertWord a l).Perm (a :: l)
  | [] => .refl _
  | b :: l => by
    rw [insertWord]
    split
    · exact .refl _
    · exact ((insertWord_perm a l).cons b).trans (.swap a b l)

theorem sortWords_perm : ∀ l, (sortWords l).Perm l
  | [] => .refl _
  | a :: l => (insertWord_perm a _).trans ((sortWords_perm l).cons a)

theorem insertWord_sorted (a : Str × Nat) : ∀ l, l.Pairwise Before → (insertWord a l).Pairwise Before
  | [], _ => by simp [insertWord]
  | b :: l, h => by
    rw [insertWord]
    rw [List.pairwise_cons] at h
    split
    · rename_i hab
      rw [cmpLe_iff] at hab
      refine List.pairwise_cons.2 ⟨fun c hc => ?_, List.pairwise_cons.2 h⟩
      rcases List.mem_cons.1 hc with rfl | hc
      · exact hab
      · exact hab.trans (h.1 c hc)
    · rename_i hab
      rw [cmpLe_iff] at hab
      refine List.pairwise_cons.2 ⟨fun c hc => ?_, insertWord_sorted a l h.2⟩
      rcases List.mem_cons.1 ((insertWord_perm a l).subset hc) with rfl | hc
      · exact (Before.total _ _).resolve_left hab
      · exact h.1 c hc

theorem sortWords_sorted : ∀ l, (sortWords l).Pairwise Before
  | [] => .nil
  | a :: l => insertWord_sorted a _ (sortWords_sorted l)

theorem sorted_words_unique : ∀ {l l' : List (Str × Nat)}, l.Perm l' → l.Pairwise Before → l'.Pairwise Before → l = l'
  | [], l', hp, _, _ => hp.symm.eq_nil.symm
  | a :: l, [], hp, _, _ => by have := hp.eq_nil; cases this
  | a :: l, b :: l', hp, h, h' => by
    have hab : a = b := by
      have h1 : a ∈ b :: l' := hp.subset List.mem_cons_self
      have h2 : b ∈ a :: l := hp.symm.subset List.mem_cons_self
      rw [List.pairwise_cons] at h h'
      rcases List.mem_cons.1 h1 with h1 | h1
      · exact h1
      · rcases List.mem_cons.1 h2 with h2 | h2
        · exact h2.symm
        · exact (h.1 b h2).antisymm (h'.1 a h1)
    subst hab
    rw [sorted_words_unique ((List.perm_cons a).1 hp) (List.pairwise_cons.1 h).2 (List.pairwise_cons.1 h').2]

/-! ## C40 -/

/-- **C40.** The trained vocabulary does not depend on the order of the hash map. -/
theorem C40_order (specials : List Str) (minFrequency vocabSize : Nat) {wc wc' : AMap Str Nat} (h : wc.Perm wc') :
    wordLevelTrain specials minFrequency vocabSize wc = wordLevelTrain specials minFrequency vocabSize wc' := by
  unfold wordLevelTrain
  rw [sorted_words_unique ((sortWords_perm wc).trans (h.trans (sortWords_perm wc').symm)) (sortWords_sorted _)
    (sortWords_sorted _)]

/-- **C40.** The trained vocabulary: the special tokens, then the words that are frequent enough, the more frequent first
and those of equal frequency by their bytes, all cut at `vocab_size`; the ids are the positions. Provided that no special
token is repeated or a word of the corpus. -/
theorem C40_vocab (specials : List Str) (minFrequency vocabSize : Nat) {wc : AMap Str Nat} (hw : wc.WF)
    (hs : specials.Nodup) (hd : ∀ s ∈ specials, ∀ n, (s, n) ∉ wc) :
    ∃ words : List (Str × Nat), (∀ p, p ∈ words ↔ p ∈ wc ∧ minFrequency ≤ p.2) ∧ (words.map (·.1)).Nodup ∧
      words.Pairwise Before ∧
      ∀ w i, (wordLevelTrain specials minFrequency vocabSize wc).get w = some i ↔
        ((specials ++ words.map (·.1)).take vocabSize)[i]? = some w := by
  refine ⟨(sortWords wc).filter fun p => p.2 ≥ minFrequency, fun p => ?_, ?_, (sortWords_sorted wc).filter _,
    fun w i => ?_⟩
  · rw [List.mem_filter, (sortWords_perm wc).mem_iff]; simp
  · have : ((sortWords wc).map (·.1)).Nodup := ((sortWords_perm wc).map _).nodup_iff.2 hw
    exact this.sublist (List.filter_sublist.map _)
  · unfold wordLevelTrain
    generalize hL : (specials ++ ((sortWords wc).filter fun p => p.2 ≥ minFrequency).map (·.1)).take vocabSize = L
    have hnd : L.Nodup := by
      rw [← hL]
      refine List.Nodup.sublist (List.take_sublist _ _) ?_
      refine List.nodup_append.2 ⟨hs, ?_, ?_⟩
      · have : ((sortWords wc).map (·.1)).Nodup := ((sortWords_perm wc).map _).nodup_iff.2 hw
        exact this.sublist (List.filter_sublist.map _)
      · rintro a ha b hb rfl
        obtain ⟨⟨x, n⟩, hp, rfl⟩ := List.mem_map.1 hb
        exact hd _ ha n ((sortWords_perm wc).subset (List.mem_filter.1 hp).1)
    have hwf : AMap.WF L.zipIdx := by unfold AMap.WF; rw [show L.zipIdx.map (·.1) = L by simp]; exact hnd
    rw [show AMap.extend [] L.zipIdx = Save.readVocab L.zipIdx from rfl, Save.readVocab_get hwf,
      List.mem_zipIdx_iff_getElem?]

/-- Finding: a special token that is also a word of the corpus is counted twice: it gets the id of the word, and the id of
the special token is not used. The ids are then not `0..n-1`. -/
theorem C40_special_in_corpus : ∃ wc : AMap Str Nat, wc.WF ∧
    let v := wordLevelTrain ["[UNK]".toList] 0 10 wc
    v.length = 2 ∧ v.get "[UNK]".toList = some 1 ∧ v.get "b".toList = some 2 ∧ ∀ p ∈ v, p.2 ≠ 0 :=
  ⟨[("b".toList, 1), ("[UNK]".toList, 5)], by unfold AMap.WF; decide, by decide +kernel⟩

example : wordLevelTrain ["[UNK]".toList] 2 3 [("b".toList, 2), ("c".toList, 1), ("d".toList, 5), ("a".toList, 2)] =
    [("a".toList, 2), ("d".toList, 1), ("[UNK]".toList, 0)] := by decide +kernel

example : AMap.WF [("b".toList, 2), ("c".toList, 1), ("d".toList, 5), ("a".toList, 2)] ∧
    ∀ s ∈ ["[UNK]".toList], s ∉ ["b".toList, "c".toList, "d".toList, "a".toList] := by
  unfold AMap.WF; decide

end Tok.Train
