import Verif.Train.BpeSizes
import Verif.Train.WordPiece
import Verif.Train.WordLevel

/-!
# C115 for the other trainers that count words
-/

namespace Tok.Train

open Tok.Bpe

/-- **C115.** The same for the WordPiece trainer: the smaller vocabulary is the beginning of the larger one. -/
theorem C115_wordpiece {cfg : BpeCfg} {n f : Nat} (hn : n ≤ cfg.vocabSize) (hf : cfg.minFrequency ≤ f)
    {order : AMap Char Nat → AMap Char Nat} {wc : AMap Str Nat} {s s' : St} (h : Trained (cfg.sized n f) order wc s)
    (h' : Trained cfg order wc s') {w small large : WordPiece} (hs : trainWordPiece (cfg.sized n f) s w = some small)
    (hl : trainWordPiece cfg s' w = some large) {t : Str} {i : Nat} (ht : small.vocab.get t = some i) :
    large.vocab.get t = some i := by
  obtain ⟨_, more, e⟩ := C115_prefix hn hf h h'
  obtain ⟨_, h1, h2, _⟩ := C62_vocab h.reached w
  rw [hs] at h1; cases h1
  obtain ⟨_, h1, h2', _⟩ := C62_vocab h'.reached w
  rw [hl] at h1; cases h1
  rw [h2] at ht
  rw [h2', ← e, List.getElem?_append_left (List.getElem?_eq_some_iff.1 ht).1]
  exact ht

/-- Words that begin alike and words that end alike. -/
def overlapCounts : AMap Str Nat := [("abc".toList, 6), ("ab".toList, 8), ("xcde".toList, 5), ("ycde".toList, 5)]

/-- **C115, finding.** But a WordPiece model with a larger vocabulary may need more tokens for a word, and put boundaries where
there were none: it takes the longest token at each place, not the merges. -/
theorem C115_wordpiece_more : ∃ (cfg : BpeCfg) (n : Nat) (wc : AMap Str Nat) (word : Str) (ts ts' : List Str), n ≤ cfg.vocabSize ∧
    trainedTokens (cfg.sized n cfg.minFrequency) wc 30 word = some (some ts) ∧ trainedTokens cfg wc 30 word = some (some ts') ∧
    ts = ["ab".toList, "##cde".toList] ∧ ts' = ["abc".toList, "##d".toList, "##e".toList] :=
  ⟨{ hashCfg with vocabSize := 15 }, 14, overlapCounts, "abcde".toList, _, _, by decide, by decide +kernel, by decide +kernel, rfl, rfl⟩

theorem frequent_prefix {f f' : Nat} (hf : f' ≤ f) : ∀ {l : List (Str × Nat)}, l.Pairwise Before →
    (l.filter fun p => decide (p.2 ≥ f)) <+: l.filter fun p => decide (p.2 ≥ f')
  | [], _ => List.prefix_refl _
  | p :: l, h => by
    obtain ⟨h1, h2⟩ := List.pairwise_cons.1 h
    by_cases hp : p.2 ≥ f
    · rw [List.filter_cons_of_pos (by simpa using hp), List.filter_cons_of_pos (by simp; omega), List.prefix_cons_inj]
      exact frequent_prefix hf h2
    · rw [List.filter_cons_of_neg (by simpa using hp)]
      have : (l.filter fun p => decide (p.2 ≥ f)) = [] := by
        rw [List.filter_eq_nil_iff]
        intro q hq
        have := h1 q hq
        unfold Before at this
        simp
        omega
      rw [this]
      exact List.nil_prefix

theorem take_prefix {α : Type} {l l' : List α} (h : l <+: l') {n n' : Nat} (hn : n ≤ n') : l.take n <+: l'.take n' := by
  obtain ⟨m, rfl⟩ := h
  rw [List.prefix_take_iff]
  refine ⟨(List.take_prefix _ _).trans (List.prefix_append _ _), ?_⟩
  rw [List.length_take]
  omega

theorem wordLevel_get {specials : List Str} {f n : Nat} {wc : AMap Str Nat} (hw : wc.WF) (hs : specials.Nodup)
    (hd : ∀ s ∈ specials, ∀ n, (s, n) ∉ wc) (w : Str) (i : Nat) :
    (wordLevelTrain specials f n wc).get w = some i ↔
      ((specials ++ ((sortWords wc).filter fun p => p.2 ≥ f).map (·.1)).take n)[i]? = some w := by
  obtain ⟨words, h1, h2, h3, h4⟩ := C40_vocab specials f n hw hs hd
  have hnd : ((sortWords wc).map (·.1)).Nodup := ((sortWords_perm wc).map _).nodup_iff.2 hw
  have hnd' : (sortWords wc).Nodup := by
    rw [List.nodup_iff_pairwise_ne] at hnd ⊢
    rw [List.pairwise_map] at hnd
    exact hnd.imp fun h e => h (by rw [e])
  have hn2 : words.Nodup := by
    rw [List.nodup_iff_pairwise_ne] at h2 ⊢
    rw [List.pairwise_map] at h2
    exact h2.imp fun h e => h (by rw [e])
  have e : words = (sortWords wc).filter fun p => p.2 ≥ f := by
    refine sorted_words_unique ?_ h3 ((sortWords_sorted wc).filter _)
    refine (List.perm_ext_iff_of_nodup hn2 (hnd'.sublist List.filter_sublist)).2 fun p => ?_
    rw [h1, List.mem_filter, (sortWords_perm wc).mem_iff]
    simp
  rw [h4, e]

/-- **C115.** The same for the WordLevel trainer, if no special token is a word: a word that the smaller vocabulary has keeps its
id in the larger one. -/
theorem C115_wordlevel {specials : List Str} {f f' n n' : Nat} (hn : n ≤ n') (hf : f' ≤ f) {wc : AMap Str Nat} (hw : wc.WF)
    (hs : specials.Nodup) (hd : ∀ s ∈ specials, ∀ n, (s, n) ∉ wc) {w : Str} {i : Nat}
    (h : (wordLevelTrain specials f n wc).get w = some i) : (wordLevelTrain specials f' n' wc).get w = some i := by
  rw [wordLevel_get hw hs hd] at h ⊢
  have hp := take_prefix ((List.prefix_append_right_inj specials).2 ((frequent_prefix hf (sortWords_sorted wc)).map (·.1))) hn
  obtain ⟨m, e⟩ := hp
  rw [← e, List.getElem?_append_left (List.getElem?_eq_some_iff.1 h).1]
  exact h

example : (wordLevelTrain ["[UNK]".toList] 2 3 [("b".toList, 2), ("c".toList, 1), ("d".toList, 5), ("a".toList, 2)]).get "a".toList = some 2 ∧
    (wordLevelTrain ["[UNK]".toList] 1 10 [("b".toList, 2), ("c".toList, 1), ("d".toList, 5), ("a".toList, 2)]).get "a".toList = some 2 := by
  have h : (wordLevelTrain ["[UNK]".toList] 2 3 [("b".toList, 2), ("c".toList, 1), ("d".toList, 5), ("a".toList, 2)]).get "a".toList = some 2 := by
    decide +kernel
  refine ⟨h, C115_wordlevel (by omega) (by omega) (by unfold AMap.WF; decide +kernel) (by decide +kernel) (by
    intro s hs n hm
    rw [List.mem_singleton] at hs
    subst hs
    simp at hm) h⟩

/-- **C115, finding.** A special token that is also a word gets another id when the vocabulary grows. -/
theorem C115_wordlevel_shift : ∃ wc : AMap Str Nat, wc.WF ∧ (wordLevelTrain ["[UNK]".toList] 0 1 wc).get "[UNK]".toList = some 0 ∧
    (wordLevelTrain ["[UNK]".toList] 0 2 wc).get "[UNK]".toList = some 1 :=
  ⟨[("b".toList, 1), ("[UNK]".toList, 5)], by unfold AMap.WF; decide, by decide +kernel, by decide +kernel⟩

end Tok.Train
