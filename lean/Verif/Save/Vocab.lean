import Verif.Save.Model
import Verif.Tokenizer.Vocab

/-!
# C39: vocabularies and vocabulary files
-/

namespace Tok.Save

/-- The two maps are inverse to each other. -/
def Inverse (vocab : AMap Str Nat) (vr : AMap Nat Str) : Prop := ∀ c i, vocab.get c = some i ↔ vr.get i = some c

theorem mem_ordered {vr : AMap Nat Str} {c : Str} {i : Nat} : (c, i) ∈ ordered vr ↔ vr.get i = some c := by
  unfold ordered
  cases hm : (vr.map (·.1)).max? with
  | none =>
    rw [List.max?_eq_none_iff, List.map_eq_nil_iff] at hm
    subst hm
    simp [AMap.get]
  | some mx =>
    simp only [List.mem_filterMap, List.mem_range, Option.map_eq_some_iff, Prod.mk.injEq]
    constructor
    · rintro ⟨j, _, t, h1, rfl, rfl⟩; exact h1
    · intro h
      refine ⟨i, ?_, c, h, rfl, rfl⟩
      have := AddedVocab.le_max? _ _ hm i (List.mem_map.2 ⟨_, AMap.mem_of_get_eq_some h, rfl⟩)
      omega

theorem ordered_increasing (vr : AMap Nat Str) : ((ordered vr).map (·.2)).Pairwise (· < ·) := by
  unfold ordered
  cases (vr.map (·.1)).max? with
  | none => exact .nil
  | some mx =>
    rw [List.map_filterMap]
    refine List.Pairwise.sublist ?_ (List.pairwise_lt_range (n := mx + 1))
    generalize List.range (mx + 1) = l
    induction l with
    | nil => exact .slnil
    | cons i l ih =>
      rw [List.filterMap_cons]
      cases vr.get i with
      | none => exact .cons _ ih
      | some t => exact ih.cons_cons _

theorem wf_of_inverse {vocab : AMap Str Nat} {vr : AMap Nat Str} (h : Inverse vocab vr) :
    AMap.WF (ordered vr) := by
  unfold AMap.WF
  have hp := ordered_increasing vr
  rw [List.pairwise_map] at hp
  rw [List.Nodup, List.pairwise_map]
  refine hp.imp_of_mem ?_
  rintro ⟨c, i⟩ ⟨d, j⟩ hc hd hlt he
  simp only at hlt he
  subst he
  have h1 := (h c i).2 (mem_ordered.1 hc)
  have h2 := (h c j).2 (mem_ordered.1 hd)
  rw [h1] at h2
  cases h2
  omega

theorem readVocab_get {l : List (Str × Nat)} (h : AMap.WF l) (c : Str) (i : Nat) :
    (readVocab l).get c = some i ↔ (c, i) ∈ l := by
  unfold readVocab
  rw [AMap.get_extend_wf h, show AMap.get ([] : AMap Str Nat) c = none from rfl, Option.or_none]
  exact ⟨AMap.mem_of_get_eq_some, AMap.get_eq_some_of_mem h⟩

/-- **C39.** A vocabulary without repeated ids, saved and read back, is the same, whether the ids are consecutive or have
holes; the entries are written by increasing id. -/
theorem C39_vocab {vocab : AMap Str Nat} {vr : AMap Nat Str} (h : Inverse vocab vr) :
    (∀ c, (readVocab (ordered vr)).get c = vocab.get c) ∧ ((ordered vr).map (·.2)).Pairwise (· < ·) ∧
    (readVocab (ordered vr)).WF := by
  refine ⟨fun c => Option.ext fun i => ?_, ordered_increasing vr, AMap.WF.nil.extend _⟩
  rw [readVocab_get (wf_of_inverse h), mem_ordered, h c i]

/-- The map that the builders compute (`models/wordpiece/mod.rs:103-108`, `models/wordlevel/mod.rs:82-87`,
`models/bpe/model.rs:244-248`) is inverse if no two tokens have the same id. -/
theorem inverse_swap {vocab : AMap Str Nat} (hw : vocab.WF) (hd : Bpe.IdsDistinct vocab) :
    Inverse vocab (AMap.extend [] (vocab.map fun p => (p.2, p.1))) := fun c i => (Bpe.get_swap hw hd i c).symm

/-- Finding: of two tokens with the same id, one is lost by saving and reloading. -/
theorem C39_shared_id_lost : ∃ vocab : AMap Str Nat, vocab.WF ∧ vocab.get "a".toList = some 0 ∧
    vocab.get "b".toList = some 0 ∧
    (readVocab (ordered (AMap.extend [] (vocab.map fun p => (p.2, p.1))))).get "a".toList = none :=
  ⟨[("a".toList, 0), ("b".toList, 0)], by unfold AMap.WF; decide, rfl, rfl, by decide⟩

/-! Example: a vocabulary with holes. -/

example : (readVocab (ordered [(7, "c".toList), (0, "a".toList), (3, "b".toList)])) =
    [("c".toList, 7), ("b".toList, 3), ("a".toList, 0)] := by decide

example : Inverse [("c".toList, 7), ("a".toList, 0), ("b".toList, 3)]
    (AMap.extend [] ([("c".toList, 7), ("a".toList, 0), ("b".toList, 3)].map fun p => (p.2, p.1))) :=
  inverse_swap (by unfold AMap.WF; decide) (by
    intro s t i hs ht
    have h1 := AMap.mem_of_get_eq_some hs
    have h2 := AMap.mem_of_get_eq_some ht
    simp only [List.mem_cons, Prod.mk.injEq, List.not_mem_nil, or_false] at h1 h2
    rcases h1 with h | h | h <;> rcases h2 with k | k | k <;>
      first
        | (exfalso; have := h.2; have := k.2; omega)
        | (rw [h.1, k.1]))

/-! ## Sorting -/

theorem insertBy_perm {α : Type} (key : α → Nat) (a : α) : ∀ l : List α, (insertBy key a l).Perm (a :: l)
  | [] => .refl _
  | b :: l => by
    rw [insertBy]
    split
    · exact .refl _
    · exact ((insertBy_perm key a l).cons b).trans (.swap a b l)

theorem sortBy_perm {α : Type} (key : α → Nat) : ∀ l : List α, (sortBy key l).Perm l
  | [] => .refl _
  | a :: l => (insertBy_perm key a _).trans ((sortBy_perm key l).cons a)

theorem insertBy_sorted {α : Type} (key : α → Nat) (a : α) : ∀ l : List α, (l.Pairwise fun a b => key a ≤ key b) →
    (insertBy key a l).Pairwise fun a b => key a ≤ key b
  | [], _ => List.pairwise_singleton _ _
  | b :: l, h => by
    rw [insertBy]
    obtain ⟨h1, h2⟩ := List.pairwise_cons.1 h
    split
    · rename_i hab
      refine List.pairwise_cons.2 ⟨fun x hx => ?_, h⟩
      rcases List.mem_cons.1 hx with rfl | hx
      · exact hab
      · have := h1 x hx; omega
    · rename_i hab
      refine List.pairwise_cons.2 ⟨fun x hx => ?_, insertBy_sorted key a l h2⟩
      rcases List.mem_cons.1 ((insertBy_perm key a l).subset hx) with rfl | hx
      · omega
      · exact h1 x hx

theorem sortBy_sorted {α : Type} (key : α → Nat) : ∀ l : List α, (sortBy key l).Pairwise fun a b => key a ≤ key b
  | [] => .nil
  | a :: l => insertBy_sorted key a _ (sortBy_sorted key l)

theorem sorted_unique {α : Type} {key : α → Nat} : ∀ {l l' : List α}, l.Perm l' → (l.map key).Nodup →
    (l.Pairwise fun a b => key a ≤ key b) → (l'.Pairwise fun a b => key a ≤ key b) → l = l'
  | [], l', hp, _, _, _ => hp.nil_eq
  | a :: l, l', hp, hn, hs, hs' => by
    cases l' with
    | nil => exact absurd hp.symm.nil_eq (by simp)
    | cons b l' =>
      have hab : a = b := by
        have ha : a ∈ b :: l' := hp.subset List.mem_cons_self
        have hb : b ∈ a :: l := hp.symm.subset List.mem_cons_self
        rcases List.mem_cons.1 ha with h | h
        · exact h
        · rcases List.mem_cons.1 hb with h' | h'
          · exact h'.symm
          · have h1 := (List.pairwise_cons.1 hs').1 a h
            have h2 := (List.pairwise_cons.1 hs).1 b h'
            rw [List.map_cons, List.nodup_cons] at hn
            exact absurd (List.mem_map.2 ⟨b, h', by omega⟩) hn.1
      subst hab
      rw [List.map_cons, List.nodup_cons] at hn
      rw [sorted_unique (List.Perm.cons_inv hp) hn.2 (List.pairwise_cons.1 hs).2 (List.pairwise_cons.1 hs').2]

/-- Whatever an unstable sort does with ties, there are none when the keys are distinct: the sorted list is
determined. -/
theorem C39_sort_determined {α : Type} {key : α → Nat} {l l' : List α} (hp : l'.Perm l) (hn : (l.map key).Nodup)
    (hs : l'.Pairwise fun a b => key a ≤ key b) : l' = sortBy key l :=
  sorted_unique (hp.trans (sortBy_perm key l).symm) ((hp.map key).nodup_iff.2 hn) hs (sortBy_sorted key l)

/-! ## Lines -/

theorem linesLoop_append (a : Str) (ha : '\n' ∉ a) : ∀ (acc rest : Str),
    linesLoop (a ++ '\n' :: rest) acc
    = (if (acc ++ a).getLast? = some '\r' then (acc ++ a).dropLast else acc ++ a) :: linesLoop rest [] := by
  induction a with
  | nil => intro acc rest; rw [List.nil_append, linesLoop, if_pos rfl, List.append_nil]
  | cons c a ih =>
    intro acc rest
    rw [List.cons_append, linesLoop, if_neg (fun h : c = _ => ha (h ▸ List.mem_cons_self)),
      ih (fun h => ha (List.mem_cons_of_mem _ h))]
    simp

theorem lines_flat (l : List Str) (hn : ∀ s ∈ l, '\n' ∉ s) (hr : ∀ s ∈ l, s.getLast? ≠ some '\r') :
    lines (l.flatMap fun s => s ++ ['\n']) = l := by
  unfold lines
  induction l with
  | nil => rfl
  | cons s l ih =>
    rw [List.flatMap_cons, List.append_assoc, List.singleton_append, linesLoop_append s (hn s List.mem_cons_self),
      List.nil_append, if_neg (hr s List.mem_cons_self), ih (fun s h => hn s (List.mem_cons_of_mem _ h))
        (fun s h => hr s (List.mem_cons_of_mem _ h))]

theorem trimEnd_id {ws : Char → Bool} {s : Str} (h : ∀ c, s.getLast? = some c → ws c = false) : trimEnd ws s = s := by
  unfold trimEnd
  rw [List.getLast?_eq_head?_reverse] at h
  cases hr : s.reverse with
  | nil => rw [List.reverse_eq_nil_iff] at hr; rw [hr]; rfl
  | cons c cs =>
    rw [hr] at h
    rw [List.dropWhile_cons_of_neg (by rw [h c rfl]; simp), ← hr, List.reverse_reverse]

/-! ## `vocab.txt` of WordPiece -/

/-- The ids are `0..n-1`. -/
def Consecutive (vocab : AMap Str Nat) : Prop := (vocab.map (·.2)).Perm (List.range vocab.length)

/-- **C39.** A WordPiece vocabulary with ids `0..n-1` whose tokens contain no line break and do not end with whitespace
is read back from `vocab.txt` as it was. -/
theorem C39_wordpiece_file {ws : Char → Bool} (hcr : ws '\r' = true) {vocab : AMap Str Nat} (hw : vocab.WF)
    (hids : Consecutive vocab) (hn : ∀ c i, vocab.get c = some i → '\n' ∉ c)
    (hend : ∀ c i x, vocab.get c = some i → c.getLast? = some x → ws x = false) (c : Str) :
    (readWordPieceFile ws (wordPieceFile vocab)).get c = vocab.get c := by
  have hp := sortBy_perm (fun x : Str × Nat => x.2) vocab
  have hget : ∀ x ∈ sortBy (fun x : Str × Nat => x.2) vocab, vocab.get x.1 = some x.2 := fun x hx =>
    AMap.get_eq_some_of_mem hw (hp.subset hx)
  have hl : lines (wordPieceFile vocab) = (sortBy (fun x : Str × Nat => x.2) vocab).map (·.1) := by
    rw [← lines_flat ((sortBy (fun x : Str × Nat => x.2) vocab).map (·.1))]
    · unfold wordPieceFile
      rw [List.flatMap_map]
    · intro s hs
      obtain ⟨x, hx, rfl⟩ := List.mem_map.1 hs
      exact hn _ _ (hget x hx)
    · intro s hs h
      obtain ⟨x, hx, rfl⟩ := List.mem_map.1 hs
      have := hend _ _ _ (hget x hx) h
      rw [hcr] at this
      cases this
  have hsnd : (sortBy (fun x : Str × Nat => x.2) vocab).map (·.2) = List.range vocab.length := by
    refine sorted_unique (key := id) ((hp.map _).trans hids) ?_ ?_ ?_
    · rw [List.map_id]
      exact ((hp.map _).trans hids).nodup_iff.2 List.nodup_range
    · exact List.pairwise_map.2 (sortBy_sorted _ _)
    · exact List.pairwise_lt_range.imp Nat.le_of_lt
  have hzip : ∀ (l : List (Str × Nat)) (k : Nat), l.map (·.2) = List.range' k l.length →
      (∀ x ∈ l, ∀ y, x.1.getLast? = some y → ws y = false) →
      ((l.map (·.1)).zipIdx k).map (fun x => (trimEnd ws x.1, x.2)) = l := by
    intro l
    induction l with
    | nil => intro k _ _; rfl
    | cons x l ih =>
      intro k hk ht
      rw [List.map_cons, List.length_cons, List.range'_succ, List.cons.injEq] at hk
      rw [List.map_cons, List.zipIdx_cons, List.map_cons, ih (k + 1) hk.2 fun y hy => ht y (List.mem_cons_of_mem _ hy),
        trimEnd_id (ht x List.mem_cons_self), ← hk.1]
  unfold readWordPieceFile
  rw [hl, hzip _ 0 (by rw [hsnd, hp.length_eq, List.range_eq_range']) fun x hx y hy => hend _ _ _ (hget x hx) hy]
  refine Option.ext fun i => ?_
  have hwf : AMap.WF (sortBy (fun x : Str × Nat => x.2) vocab) := (hp.map _).nodup_iff.2 hw
  exact (readVocab_get hwf c i).trans ⟨fun h => hget _ h, fun h => hp.symm.subset (AMap.mem_of_get_eq_some h)⟩

/-- Findings: holes in the ids are closed, and a token that ends with a space loses it (here it then replaces another
token). -/
theorem C39_wordpiece_file_fails : ∃ ws : Char → Bool, ws '\r' = true ∧
    (readWordPieceFile ws (wordPieceFile [("a".toList, 0), ("b".toList, 2)])).get "b".toList = some 1 ∧
    (readWordPieceFile ws (wordPieceFile [("a".toList, 0), ("a ".toList, 1)])) = [("a".toList, 1)] :=
  ⟨fun c => c = ' ' ∨ c = '\r', rfl, by decide +kernel, by decide +kernel⟩

example : Consecutive [("b".toList, 1), ("[UNK]".toList, 0), ("##c".toList, 2)] ∧
    wordPieceFile [("b".toList, 1), ("[UNK]".toList, 0), ("##c".toList, 2)] = "[UNK]\nb\n##c\n".toList := by
  refine ⟨?_, by decide +kernel⟩
  unfold Consecutive
  decide

/-! ## `merges.txt` of BPE -/

theorem splitSpaceLoop_append (a : Str) (ha : ' ' ∉ a) : ∀ (acc rest : Str),
    splitSpaceLoop (a ++ ' ' :: rest) acc = (acc ++ a) :: splitSpaceLoop rest [] := by
  induction a with
  | nil => intro acc rest; rw [List.nil_append, splitSpaceLoop, if_pos rfl, List.append_nil]
  | cons c a ih =>
    intro acc rest
    rw [List.cons_append, splitSpaceLoop, if_neg (fun h : c = _ => ha (h ▸ List.mem_cons_self)),
      ih (fun h => ha (List.mem_cons_of_mem _ h))]
    simp

theorem splitSpaceLoop_end (a : Str) (ha : ' ' ∉ a) : ∀ acc : Str, splitSpaceLoop a acc = [acc ++ a] := by
  induction a with
  | nil => intro acc; rw [splitSpaceLoop, List.append_nil]
  | cons c a ih =>
    intro acc
    rw [splitSpaceLoop, if_neg (fun h : c = _ => ha (h ▸ List.mem_cons_self)), ih (fun h => ha (List.mem_cons_of_mem _ h))]
    simp

/-- A merge that `merges.txt` can express. -/
structure Writable (m : Str × Str) : Prop where
  left : ' ' ∉ m.1 ∧ '\n' ∉ m.1
  right : ' ' ∉ m.2 ∧ '\n' ∉ m.2 ∧ m.2.getLast? ≠ some '\r'
  version : ¬ "#version".toList <+: m.1

/-- **C39.** Merges are read back from `merges.txt` as they were written, in the same order, if no part contains a space or
line break, no right part ends with a carriage return and no left part begins with `#version`. -/
theorem C39_merges_file {ms : List (Str × Str)} (h : ∀ m ∈ ms, Writable m) :
    readMerges (lines (mergesFile ms)) = .ok ms := by
  have hl : lines (mergesFile ms) = "#version: 0.2".toList :: ms.map fun m => m.1 ++ [' '] ++ m.2 := by
    rw [← lines_flat ("#version: 0.2".toList :: ms.map fun m => m.1 ++ [' '] ++ m.2)]
    · unfold mergesFile
      rw [List.flatMap_cons, List.flatMap_map]
      congr 2
    · intro s hs
      rcases List.mem_cons.1 hs with rfl | hs
      · decide
      · obtain ⟨m, hm, rfl⟩ := List.mem_map.1 hs
        have := h m hm
        simp [this.left.2, this.right.2.1]
    · intro s hs
      rcases List.mem_cons.1 hs with rfl | hs
      · decide
      · obtain ⟨m, hm, rfl⟩ := List.mem_map.1 hs
        have := (h m hm).right.2.2
        intro he
        by_cases hne : m.2 = []
        · rw [hne, List.append_nil, List.getLast?_append] at he
          simp at he
        · rw [List.getLast?_append, Option.or_of_isSome (by simpa using hne)] at he
          exact this he
  unfold readMerges
  rw [hl, List.filter_cons_of_neg (by decide), List.filter_eq_self.2]
  · have key : ∀ (ms : List (Str × Str)) (k : Nat), (∀ m ∈ ms, Writable m) →
        readMergesLoop k (ms.map fun m => m.1 ++ [' '] ++ m.2) = .ok ms := by
      intro ms
      induction ms with
      | nil => intro k _; rfl
      | cons m ms ih =>
        intro k hm
        have hw := hm m List.mem_cons_self
        have hsp : splitSpace (m.1 ++ [' '] ++ m.2) = [m.1, m.2] := by
          unfold splitSpace
          rw [List.append_assoc, List.singleton_append, splitSpaceLoop_append _ hw.left.1,
            splitSpaceLoop_end _ hw.right.1]
          rfl
        rw [List.map_cons, readMergesLoop]
        simp only [hsp]
        rw [ih (k + 1) fun m' hm' => hm m' (List.mem_cons_of_mem _ hm')]; rfl
    exact key ms 0 h
  · intro s hs
    obtain ⟨m, hm, rfl⟩ := List.mem_map.1 hs
    have hv := (h m hm).version
    rw [Bool.not_eq_true', ← Bool.not_eq_true, List.isPrefixOf_iff_prefix]
    intro hp
    apply hv
    rw [List.append_assoc] at hp
    by_cases hlen : "#version".toList.length ≤ m.1.length
    · exact List.prefix_of_prefix_length_le hp (List.prefix_append _ _) hlen
    · exfalso
      have h1 : m.1 ++ [' '] <+: m.1 ++ ([' '] ++ m.2) := by
        rw [← List.append_assoc]; exact List.prefix_append _ _
      have h2 : m.1 ++ [' '] <+: "#version".toList :=
        List.prefix_of_prefix_length_le h1 hp (by simp at hlen ⊢; omega)
      have : ' ' ∈ "#version".toList := h2.subset (by simp)
      revert this
      decide

/-- Findings: a merge whose left part begins with `#version` is silently left out, a part with a space makes the file
unreadable. -/
theorem C39_merges_file_fails :
    (readMerges (lines (mergesFile [("#version".toList, "s".toList), ("a".toList, "b".toList)]))).toOption
      = some [("a".toList, "b".toList)] ∧
    (readMerges (lines (mergesFile [("a".toList, "b".toList), ("a b".toList, "c".toList)]))).toOption = none := by
  decide +kernel

example : ∀ m ∈ [("a".toList, "b".toList), ("ab".toList, "#version".toList)], Writable m := by
  intro m hm
  simp only [List.mem_cons, List.not_mem_nil, or_false] at hm
  rcases hm with rfl | rfl
  · exact ⟨by decide, by decide, by decide⟩
  · exact ⟨by decide, by decide, by decide⟩

/-! ## Word models and Unigram -/

theorem wordPiece_cong {w w' : WordPiece} (hv : ∀ c, w'.vocab.get c = w.vocab.get c) (hu : w'.unkToken = w.unkToken)
    (hp : w'.continuingPrefix = w.continuingPrefix) (hm : w'.maxInputChars = w.maxInputChars) (s : Str) :
    w'.tokenize s = w.tokenize s := by
  have h1 : ∀ st m, w'.candidate st m = w.candidate st m := by
    intro st m; unfold WordPiece.candidate; rw [hp]
  have h2 : ∀ st rest k, w'.longest st rest k = w.longest st rest k := by
    intro st rest k
    induction k with
    | zero => rfl
    | succ k ih => rw [WordPiece.longest, WordPiece.longest]; simp only [h1, hv, ih]
  have h3 : ∀ n st s, w'.pieces n st s = w.pieces n st s := by
    intro n
    induction n with
    | zero => intro st s; cases s <;> rfl
    | succ n ih =>
      intro st s
      cases s with
      | nil => rfl
      | cons c cs => rw [WordPiece.pieces, WordPiece.pieces, h2]; simp only [ih]
  unfold WordPiece.tokenize WordPiece.unknown
  rw [hm, hu, hv, h3]

/-- **C39.** A WordPiece model saved and loaded again has the same vocabulary and options, and tokenizes every word in the
same way, if no two tokens have the same id. -/
theorem C39_wordpiece {w : WordPiece} (hw : w.vocab.WF) (hd : Bpe.IdsDistinct w.vocab) :
    (∀ c, (loadWordPiece (saveWordPiece w)).vocab.get c = w.vocab.get c) ∧
    (loadWordPiece (saveWordPiece w)).continuingPrefix = w.continuingPrefix ∧
    ∀ s, (loadWordPiece (saveWordPiece w)).tokenize s = w.tokenize s :=
  have hv := (C39_vocab (inverse_swap hw hd)).1
  ⟨hv, rfl, wordPiece_cong hv rfl rfl rfl⟩

/-- **C39.** The same for a WordLevel model. -/
theorem C39_wordlevel {w : WordLevel} (hw : w.vocab.WF) (hd : Bpe.IdsDistinct w.vocab) :
    (∀ c, (loadWordLevel (saveWordLevel w)).vocab.get c = w.vocab.get c) ∧
    ∀ s, (loadWordLevel (saveWordLevel w)).tokenize s = w.tokenize s := by
  have hv : ∀ c, (loadWordLevel (saveWordLevel w)).vocab.get c = w.vocab.get c := (C39_vocab (inverse_swap hw hd)).1
  refine ⟨hv, fun s => ?_⟩
  unfold WordLevel.tokenize
  rw [hv, hv]; rfl

/-- **C39.** A Unigram model made from a list of pieces is the same model after saving and loading. -/
theorem C39_unigram {vocab : List (Str × Rat)} {unkId : Option Nat} {bf : Bool} {u : Unigram}
    (h : Unigram.from vocab unkId bf = .ok u) : loadUnigram (saveUnigram u) = .ok u := by
  have h0 := h
  unfold Unigram.from at h
  split at h
  · cases h
  · split at h
    · cases h
    · cases h; exact h0

example : ∀ s, (loadWordPiece (saveWordPiece ⟨Bpe.sampleVocab, "u".toList, "##".toList, 100⟩)).tokenize s
    = WordPiece.tokenize ⟨Bpe.sampleVocab, "u".toList, "##".toList, 100⟩ s :=
  (C39_wordpiece (w := ⟨Bpe.sampleVocab, "u".toList, "##".toList, 100⟩) Bpe.sampleVocab_wf Bpe.sampleVocab_distinct).2.2

example : ∃ u, Unigram.from [("<unk>".toList, 0), ("a".toList, -1)] (some 0) true = .ok u ∧
    loadUnigram (saveUnigram u) = .ok u :=
  ⟨_, rfl, C39_unigram (vocab := [("<unk>".toList, 0), ("a".toList, -1)]) (unkId := some 0) (bf := true) rfl⟩

end Tok.Save
