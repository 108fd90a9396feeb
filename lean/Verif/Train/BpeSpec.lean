import Verif.Train.BpeModel

/-!
# Textbook BPE training, and what one merge does to one word
-/

namespace Tok.Train

/-! ## Specification -/

/-- How often two ids stand side by side in a word. -/
def occ (p : Pair) : List Sym → Nat
  | a :: b :: rest => (if (a.1, b.1) = p then 1 else 0) + occ p (b :: rest)
  | _ => 0

/-- How often a pair occurs in the corpus. -/
def total (p : Pair) : List (List Sym) → List Nat → Nat
  | w :: ws, n :: ns => n * occ p w + total p ws ns
  | _, _ => 0

/-- Replace the pair from left to right by the symbol `r`, whose length is the sum of the lengths. -/
def mergeSyms (p : Pair) (r : Nat) : List Sym → List Sym
  | a :: b :: rest => if (a.1, b.1) = p then (r, a.2 + b.2) :: mergeSyms p r rest else a :: mergeSyms p r (b :: rest)
  | l => l

/-- A pair that may be merged: two initial symbols, or a result shorter than the maximal length. -/
def Allowed (maxLen : Option Nat) (n : Nat) : Prop := n = 2 ∨ ∀ m, maxLen = some m → n < m

/-- The pair occurs somewhere and may be merged. -/
def Eligible (maxLen : Option Nat) (words : List (List Sym)) (p : Pair) : Prop :=
  ∃ w ∈ words, ∃ u a b v, w = u ++ a :: b :: v ∧ (a.1, b.1) = p ∧ Allowed maxLen (a.2 + b.2)

/-- Lexicographic order of pairs of ids. -/
def PairLe (p q : Pair) : Prop := p.1 < q.1 ∨ (p.1 = q.1 ∧ p.2 ≤ q.2)

/-- `p` is the most frequent pair that may be merged, and the smallest of those. -/
def Best (maxLen : Option Nat) (words : List (List Sym)) (counts : List Nat) (p : Pair) : Prop :=
  Eligible maxLen words p ∧ ∀ q, Eligible maxLen words q →
    total q words counts < total p words counts ∨ (total q words counts = total p words counts ∧ PairLe p q)

/-- A token without the prefix of continuing parts, if it begins with it. -/
def unprefixed (pre : Option Str) (s : Str) : Str :=
  (pre.bind fun p => if p <+: s then some (s.drop p.length) else none).getD s

/-- Textbook BPE training from a vocabulary and the words: the list of merges, the final vocabulary and the final words.
As long as the vocabulary is too small, and some pair occurs often enough, merge the best pair everywhere. -/
inductive Greedy (cfg : BpeCfg) (counts : List Nat) :
    List Str → List (List Sym) → List (Pair × Nat) → List Str → List (List Sym) → Prop
  | done (vocab words) (h : cfg.vocabSize ≤ vocab.length ∨
      ∀ p, Eligible cfg.maxLen words p → total p words counts < max 1 cfg.minFrequency) :
      Greedy cfg counts vocab words [] vocab words
  | merge (vocab words p a b r vocab1 ms vocab' words') (h1 : vocab.length < cfg.vocabSize)
      (h2 : Best cfg.maxLen words counts p) (h3 : max 1 cfg.minFrequency ≤ total p words counts)
      (h4 : vocab[p.1]? = some a) (h5 : vocab[p.2]? = some b)
      (h6 : vocab1 = if a ++ unprefixed cfg.pre b ∈ vocab then vocab else vocab ++ [a ++ unprefixed cfg.pre b])
      (h7 : vocab1[r]? = some (a ++ unprefixed cfg.pre b))
      (h8 : Greedy cfg counts vocab1 (words.map (mergeSyms p r)) ms vocab' words') :
      Greedy cfg counts vocab words ((p, r) :: ms) vocab' words'

theorem stripPre_eq (pre : Option Str) (s : Str) : stripPre pre s = unprefixed pre s := by
  unfold stripPre unprefixed
  cases pre with
  | none => rfl
  | some p =>
    simp only [Option.bind_some]
    by_cases h : p <+: s
    · rw [if_pos h, if_pos (List.isPrefixOf_iff_prefix.2 h)]; rfl
    · rw [if_neg h, if_neg (fun h' => h (List.isPrefixOf_iff_prefix.1 h'))]; rfl

/-! ## One word -/

/-- The sum of the changes of a pair. -/
def chSum (p : Pair) (ch : List (Pair × Int)) : Int := (ch.map fun c => if c.1 = p then c.2 else 0).sum

theorem chSum_nil (p : Pair) : chSum p [] = 0 := rfl

theorem chSum_append (p : Pair) (a b : List (Pair × Int)) : chSum p (a ++ b) = chSum p a + chSum p b := by
  simp [chSum]

theorem chSum_cons (p : Pair) (c : Pair × Int) (l : List (Pair × Int)) :
    chSum p (c :: l) = (if c.1 = p then c.2 else 0) + chSum p l := by
  simp [chSum]

theorem mergeWord_syms (c1 c2 r : Nat) (maxLen : Option Nat) : ∀ (prev : Option Sym) (w : List Sym),
    (mergeWord c1 c2 r maxLen prev w).1 = mergeSyms (c1, c2) r w
  | _, [] => by simp only [mergeWord, mergeSyms]
  | _, [a] => by simp only [mergeWord, mergeSyms]
  | prev, a :: b :: rest => by
    simp only [mergeWord, mergeSyms, Prod.mk.injEq]
    split
    · simp only [mergeWord_syms c1 c2 r maxLen _ rest]
    · simp only [mergeWord_syms c1 c2 r maxLen _ (b :: rest)]

theorem occ_cons (p : Pair) (a : Sym) (l : List Sym) :
    occ p (a :: l) = (match l.head? with | some b => if (a.1, b.1) = p then 1 else 0 | none => 0) + occ p l := by
  cases l <;> simp [occ]

/-- What is known about the lengths of the symbols with a given id. -/
structure LenOk (ok : Nat → Nat → Prop) (c1 c2 r : Nat) (w : List Sym) : Prop where
  syms : ∀ a ∈ w, ok a.1 a.2
  new : ∀ n1 n2, ok c1 n1 → ok c2 n2 → ok r (n1 + n2)

/-- The pair gets all its changes: it does not contain the new id, or is short enough. -/
def Tracked (maxLen : Option Nat) (ok : Nat → Nat → Prop) (r : Nat) (p : Pair) : Prop :=
  (p.1 ≠ r ∧ p.2 ≠ r) ∨ ∀ n1 n2, ok p.1 n1 → ok p.2 n2 → fits maxLen (n1 + n2) = true

theorem chSum_prev {maxLen : Option Nat} {ok : Nat → Nat → Prop} {c r : Nat} {p : Pair} (ht : Tracked maxLen ok r p)
    {q a new : Sym} (hq : ok q.1 q.2) (hn : ok new.1 new.2) (ha : a.1 = c) (hr : new.1 = r) :
    chSum p (prevChanges maxLen (some q) a new) =
      (if (q.1, r) = p then 1 else 0) - (if (q.1, c) = p then 1 else 0) := by
  subst ha hr
  simp only [prevChanges, chSum_cons]
  by_cases hp : (q.1, new.1) = p
  · subst hp
    have hf : fits maxLen (q.2 + new.2) = true := by
      rcases ht with ⟨_, h⟩ | h
      · exact absurd rfl h
      · exact h _ _ hq hn
    rw [if_pos hf, chSum_cons, chSum_nil]
    simp only [if_true]
    split <;> omega
  · rw [if_neg hp]
    by_cases hf : fits maxLen (q.2 + new.2) = true
    · rw [if_pos hf, chSum_cons, chSum_nil, if_neg hp]; split <;> omega
    · rw [if_neg hf, chSum_nil]; split <;> omega

theorem chSum_next {maxLen : Option Nat} {ok : Nat → Nat → Prop} {c r : Nat} {p : Pair} (ht : Tracked maxLen ok r p)
    {q b new : Sym} (hq : ok q.1 q.2) (hn : ok new.1 new.2) (ha : b.1 = c) (hr : new.1 = r) :
    chSum p (nextChanges maxLen b new (some q)) =
      (if (r, q.1) = p then 1 else 0) - (if (c, q.1) = p then 1 else 0) := by
  subst ha hr
  simp only [nextChanges, chSum_cons]
  by_cases hp : (new.1, q.1) = p
  · subst hp
    have hf : fits maxLen (q.2 + new.2) = true := by
      rcases ht with ⟨h, _⟩ | h
      · exact absurd rfl h
      · rw [Nat.add_comm]; exact h _ _ hn hq
    rw [if_pos hf, chSum_cons, chSum_nil]
    simp only [if_true]
    split <;> omega
  · rw [if_neg hp]
    by_cases hf : fits maxLen (q.2 + new.2) = true
    · rw [if_pos hf, chSum_cons, chSum_nil, if_neg hp]; split <;> omega
    · rw [if_neg hf, chSum_nil]; split <;> omega

/-- The changes of a merge are exactly the changes of the numbers of occurrences, for every pair but the merged one. -/
theorem merge_law {maxLen : Option Nat} {ok : Nat → Nat → Prop} {c1 c2 r : Nat} {p : Pair} (hp : p ≠ (c1, c2))
    (ht : Tracked maxLen ok r p) : ∀ (prev : Option Sym) (w : List Sym), (∀ q, prev = some q → ok q.1 q.2) →
    LenOk ok c1 c2 r w →
    (occ p (prev.toList ++ mergeSyms (c1, c2) r w) : Int) =
      occ p (prev.toList ++ w) + chSum p (mergeWord c1 c2 r maxLen prev w).2
  | prev, [], _, _ => by simp only [mergeWord, mergeSyms, chSum_nil]; omega
  | prev, [a], _, _ => by simp only [mergeWord, mergeSyms, chSum_nil]; omega
  | prev, a :: b :: rest, hprev, hok => by
    simp only [mergeWord, mergeSyms, Prod.mk.injEq]
    have hr : ∀ l : List Sym, (∀ x ∈ l, x ∈ a :: b :: rest) → LenOk ok c1 c2 r l := fun l h =>
      ⟨fun x hx => hok.syms x (h x hx), hok.new⟩
    by_cases hab : a.1 = c1 ∧ b.1 = c2
    · rw [if_pos hab, if_pos hab]
      have hnew : ok r (a.2 + b.2) := hok.new _ _ (hab.1 ▸ hok.syms a (by simp)) (hab.2 ▸ hok.syms b (by simp))
      have ih := merge_law hp ht (some (r, a.2 + b.2)) rest (by rintro q ⟨⟩; exact hnew) (hr _ (by simp +contextual))
      simp only [Option.toList_some, List.singleton_append] at ih
      simp only [chSum_append]
      -- the pair itself
      have hself : (if (a.1, b.1) = p then 1 else 0 : Nat) = 0 := by
        rw [if_neg]; rw [hab.1, hab.2]; exact fun h => hp h.symm
      have hnext : chSum p (nextChanges maxLen b (r, a.2 + b.2) rest.head?) =
          ((match rest.head? with | some q => if (r, q.1) = p then 1 else 0 | none => 0 : Nat) : Int) -
          ((match rest.head? with | some q => if (b.1, q.1) = p then 1 else 0 | none => 0 : Nat) : Int) := by
        cases hd : rest.head? with
        | none => simp [nextChanges, chSum]
        | some q =>
          have hq : q ∈ rest := List.mem_of_mem_head? (by rw [hd]; exact rfl)
          rw [chSum_next ht (hok.syms q (by simp [hq])) hnew rfl rfl]
          simp only; split <;> split <;> simp
      have e1 : occ p (a :: b :: rest) = occ p (b :: rest) := by rw [occ, hself]; omega
      have e2 := occ_cons p b rest
      have e3 := occ_cons p (r, a.2 + b.2) rest
      cases prev with
      | none =>
        simp only [Option.toList_none, List.nil_append, prevChanges, chSum_nil]
        rw [e1]
        simp only at e3
        omega
      | some q =>
        have hq := chSum_prev (new := (r, a.2 + b.2)) ht (hprev q rfl) hnew hab.1 rfl
        rw [hq]
        simp only [Option.toList_some, List.singleton_append]
        have e4 : occ p (q :: (r, a.2 + b.2) :: mergeSyms (c1, c2) r rest) =
          (if (q.1, r) = p then 1 else 0) + occ p ((r, a.2 + b.2) :: mergeSyms (c1, c2) r rest) := by rw [occ]
        have e5 : occ p (q :: a :: b :: rest) = (if (q.1, a.1) = p then 1 else 0) + occ p (a :: b :: rest) := by rw [occ]
        rw [e4, e5, e1]
        simp only at e3
        rw [hab.1]
        by_cases h1 : (q.1, r) = p <;> by_cases h2 : (q.1, c1) = p <;> simp only [h1, h2, if_true, if_false] <;> omega
    · rw [if_neg hab, if_neg hab]
      have ih := merge_law hp ht (some a) (b :: rest) (by rintro q ⟨⟩; exact hok.syms a (by simp))
        (hr _ (by intro x hx; exact List.mem_cons_of_mem _ hx))
      simp only [Option.toList_some, List.singleton_append] at ih
      cases prev with
      | none => simpa using ih
      | some q =>
        simp only [Option.toList_some, List.singleton_append]
        rw [occ, occ]
        push_cast
        omega

theorem occ_pos_iff (p : Pair) : ∀ w : List Sym, 0 < occ p w ↔ ∃ u a b v, w = u ++ a :: b :: v ∧ (a.1, b.1) = p
  | [] => by simp [occ]
  | [a] => by
    simp only [occ]
    refine ⟨fun h => absurd h (by omega), ?_⟩
    rintro ⟨u, x, y, v, h, _⟩
    have := congrArg List.length h
    simp at this
    omega
  | a :: b :: rest => by
    rw [occ]
    have ih := occ_pos_iff p (b :: rest)
    constructor
    · intro h
      by_cases hab : (a.1, b.1) = p
      · exact ⟨[], a, b, rest, rfl, hab⟩
      · rw [if_neg hab] at h
        obtain ⟨u, x, y, v, h1, h2⟩ := ih.1 (by omega)
        exact ⟨a :: u, x, y, v, by rw [h1]; rfl, h2⟩
    · rintro ⟨u, x, y, v, h1, h2⟩
      cases u with
      | nil =>
        simp only [List.nil_append, List.cons.injEq] at h1
        obtain ⟨rfl, rfl, rfl⟩ := h1
        rw [if_pos h2]; omega
      | cons c u =>
        simp only [List.cons_append, List.cons.injEq] at h1
        have := ih.2 ⟨u, x, y, v, h1.2, h2⟩
        omega

/-- A merge that finds nothing changes nothing. -/
theorem mergeSyms_of_occ_zero (p : Pair) (r : Nat) : ∀ w, occ p w = 0 → mergeSyms p r w = w
  | [], _ => rfl
  | [a], _ => rfl
  | a :: b :: rest, h => by
    rw [occ] at h
    have hab : (a.1, b.1) ≠ p := fun he => by rw [if_pos he] at h; omega
    rw [mergeSyms, if_neg hab, mergeSyms_of_occ_zero p r (b :: rest) (by omega)]

theorem mergeSyms_head (p : Pair) (r : Nat) : ∀ (a : Sym) (l : List Sym), ∃ x t, mergeSyms p r (a :: l) = x :: t ∧
    (x = a ∨ x.1 = r)
  | a, [] => ⟨a, [], rfl, .inl rfl⟩
  | a, b :: l => by
    rw [mergeSyms]
    split
    · exact ⟨_, _, rfl, .inr rfl⟩
    · exact ⟨_, _, rfl, .inl rfl⟩

/-- After the merge the pair does not occur, if the new id is new. -/
theorem occ_merged (p : Pair) (r : Nat) (h1 : p.1 ≠ r) (h2 : p.2 ≠ r) : ∀ w, occ p (mergeSyms p r w) = 0
  | [] => rfl
  | [a] => rfl
  | a :: b :: rest => by
    rw [mergeSyms]
    split
    · have ih := occ_merged p r h1 h2 rest
      rw [occ_cons, ih]
      cases (mergeSyms p r rest).head? with
      | none => rfl
      | some q => simp only; rw [if_neg]; rintro rfl; exact h1 rfl
    · rename_i hab
      have ih := occ_merged p r h1 h2 (b :: rest)
      obtain ⟨x, t, hx, hor⟩ := mergeSyms_head p r b rest
      rw [hx] at ih ⊢
      rw [occ, ih, if_neg]
      rintro rfl
      rcases hor with rfl | h
      · exact hab rfl
      · exact h2 h

/-- Pairs without the new id do not become more frequent. -/
theorem occ_mergeSyms_le (p q : Pair) (r : Nat) (h1 : q.1 ≠ r) (h2 : q.2 ≠ r) : ∀ w, occ q (mergeSyms p r w) ≤ occ q w
  | [] => Nat.le_refl _
  | [a] => Nat.le_refl _
  | a :: b :: rest => by
    rw [mergeSyms]
    split
    · have ih := occ_mergeSyms_le p q r h1 h2 rest
      rw [occ_cons, occ, occ_cons]
      have : (match (mergeSyms p r rest).head? with
          | some b_1 => if ((r, a.2 + b.2).1, b_1.1) = q then 1 else 0
          | none => 0) = 0 := by
        cases (mergeSyms p r rest).head? with
        | none => rfl
        | some q => simp only; rw [if_neg]; rintro rfl; exact h1 rfl
      rw [this]
      omega
    · have ih := occ_mergeSyms_le p q r h1 h2 (b :: rest)
      obtain ⟨x, t, hx, hor⟩ := mergeSyms_head p r b rest
      rw [hx] at ih ⊢
      rw [occ, occ]
      rcases hor with rfl | h
      · omega
      · rw [if_neg (by rintro rfl; exact h2 h)]
        omega

theorem mem_mergeSyms (p : Pair) (r : Nat) : ∀ (w : List Sym) (x : Sym), x ∈ mergeSyms p r w → x ∈ w ∨
    (x.1 = r ∧ ∃ u a b v, w = u ++ a :: b :: v ∧ (a.1, b.1) = p ∧ x.2 = a.2 + b.2)
  | [], x, h => .inl h
  | [a], x, h => .inl h
  | a :: b :: rest, x, h => by
    rw [mergeSyms] at h
    split at h
    · rename_i hab
      rcases List.mem_cons.1 h with rfl | h
      · exact .inr ⟨rfl, [], a, b, rest, rfl, hab, rfl⟩
      · rcases mem_mergeSyms p r rest x h with h | ⟨h1, u, y, z, v, h2, h3⟩
        · exact .inl (by simp [h])
        · exact .inr ⟨h1, a :: b :: u, y, z, v, by rw [h2]; rfl, h3⟩
    · rcases List.mem_cons.1 h with rfl | h
      · exact .inl (by simp)
      · rcases mem_mergeSyms p r (b :: rest) x h with h | ⟨h1, u, y, z, v, h2, h3⟩
        · exact .inl (List.mem_cons_of_mem _ h)
        · exact .inr ⟨h1, a :: u, y, z, v, by rw [h2]; rfl, h3⟩

/-- The changes concern pairs of ids of the word and the new id; a change upwards concerns the new id and a result that is
short enough. -/
theorem changes_spec (c1 c2 r : Nat) (maxLen : Option Nat) (ok : Nat → Nat → Prop) :
    ∀ (prev : Option Sym) (w : List Sym), (∀ q, prev = some q → ok q.1 q.2) → LenOk ok c1 c2 r w →
    ∀ ch ∈ (mergeWord c1 c2 r maxLen prev w).2,
      (∃ n1, ok ch.1.1 n1) ∧ (∃ n2, ok ch.1.2 n2) ∧
      (ch.2 > 0 → ch.2 = 1 ∧ (ch.1.1 = r ∨ ch.1.2 = r) ∧
        ∃ n1 n2, ok ch.1.1 n1 ∧ ok ch.1.2 n2 ∧ fits maxLen (n1 + n2) = true)
  | prev, [], _, _ => by simp [mergeWord]
  | prev, [a], _, _ => by simp [mergeWord]
  | prev, a :: b :: rest, hprev, hok => by
    have hr : ∀ l : List Sym, (∀ x ∈ l, x ∈ a :: b :: rest) → LenOk ok c1 c2 r l := fun l h =>
      ⟨fun x hx => hok.syms x (h x hx), hok.new⟩
    intro ch hch
    simp only [mergeWord] at hch
    split at hch
    · rename_i hab
      have hnew : ok r (a.2 + b.2) := hok.new _ _ (hab.1 ▸ hok.syms a (by simp)) (hab.2 ▸ hok.syms b (by simp))
      simp only [List.mem_append] at hch
      rcases hch with (hch | hch) | hch
      · cases prev with
        | none => simp [prevChanges] at hch
        | some q =>
          simp only [prevChanges, List.mem_cons] at hch
          rcases hch with rfl | hch
          · exact ⟨⟨_, hprev q rfl⟩, ⟨_, hok.syms a (by simp)⟩, fun h => by simp at h⟩
          · split at hch
            · rename_i hf
              rw [List.mem_singleton] at hch
              subst hch
              exact ⟨⟨_, hprev q rfl⟩, ⟨_, hnew⟩, fun _ => ⟨rfl, .inr rfl, _, _, hprev q rfl, hnew, hf⟩⟩
            · simp at hch
      · cases hd : rest.head? with
        | none => simp [nextChanges, hd] at hch
        | some q =>
          have hq : q ∈ rest := List.mem_of_mem_head? (by rw [hd]; exact rfl)
          have hqo := hok.syms q (by simp [hq])
          simp only [nextChanges, hd, List.mem_cons] at hch
          rcases hch with rfl | hch
          · exact ⟨⟨_, hok.syms b (by simp)⟩, ⟨_, hqo⟩, fun h => by simp at h⟩
          · split at hch
            · rename_i hf
              rw [List.mem_singleton] at hch
              subst hch
              exact ⟨⟨_, hnew⟩, ⟨_, hqo⟩, fun _ => ⟨rfl, .inl rfl, _, _, hnew, hqo, by rw [Nat.add_comm]; exact hf⟩⟩
            · simp at hch
      · exact changes_spec c1 c2 r maxLen ok (some (r, a.2 + b.2)) rest (by rintro q ⟨⟩; exact hnew)
          (hr _ (by simp +contextual)) ch hch
    · exact changes_spec c1 c2 r maxLen ok (some a) (b :: rest) (by rintro q ⟨⟩; exact hok.syms a (by simp))
        (hr _ (fun x hx => List.mem_cons_of_mem _ hx)) ch hch

end Tok.Train
