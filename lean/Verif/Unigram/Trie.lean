import Verif.BaseLemmas

/-!
# The vocabulary trie (`models/unigram/trie.rs`)
-/

namespace Tok

/-- `trie.rs:78-81` `Node<Label> { is_leaf, children }`; a `Trie` (`trie.rs:20-22`) is its root node. -/
inductive Trie (L : Type) where
  | node (isLeaf : Bool) (children : List (L × Trie L))

namespace Trie
variable {L : Type} [DecidableEq L]

/-- `node.is_leaf`. -/
def isLeaf : Trie L → Bool
  | node b _ => b

/-- `node.children` (a hash map). -/
def children : Trie L → AMap L (Trie L)
  | node _ ch => ch

/-- `trie.rs:83-90` `Node::default()`. -/
def empty : Trie L := node false []

/-- `trie.rs:25-31` `Trie::push`: walk down with `entry(label).or_default()`, mark the last node. -/
def push : List L → Trie L → Trie L
  | [], t => node true t.children
  | l :: ls, t => node t.isLeaf (t.children.insert l (push ls ((t.children.get l).getD empty)))

/-- `trie.rs:4-17` `TrieBuilder`: `push` every key, then `build`. -/
def build (keys : List (List L)) : Trie L := keys.foldl (fun t k => t.push k) empty

/-- `trie.rs:52-66` `TrieIterator::next`, all items: `pre` is `self.prefix`, the list argument is what the
byte iterator still yields. -/
def searchFrom : Trie L → List L → List L → List (List L)
  | _, _, [] => []
  | t, pre, l :: rest =>
    match t.children.get l with
    | none => []
    | some c =>
      if c.isLeaf then (pre ++ [l]) :: searchFrom c (pre ++ [l]) rest
      else searchFrom c (pre ++ [l]) rest

/-- `trie.rs:33-42` `common_prefix_search`. -/
def search (t : Trie L) (text : List L) : List (List L) := searchFrom t [] text

/-- Is `k` stored? (Specification device.) -/
def has : Trie L → List L → Bool
  | t, [] => t.isLeaf
  | t, l :: ls => match t.children.get l with
    | none => false
    | some c => c.has ls

theorem has_empty (k : List L) : (empty : Trie L).has k = false := by
  cases k <;> rfl

theorem has_push : ∀ (k : List L) (t : Trie L) (k' : List L),
    (t.push k).has k' = (decide (k' = k) || t.has k')
  | [], t, [] => by simp [push, has, isLeaf]
  | [], t, l :: ls => by simp [push, has, children]
  | l :: ls, t, [] => by simp [push, has, isLeaf]
  | l :: ls, t, m :: ms => by
    have e : (t.push (l :: ls)).children =
        t.children.insert l (push ls ((t.children.get l).getD empty)) := rfl
    simp only [has, e, AMap.get_insert]
    by_cases h : l = m
    · subst h
      simp only [if_true]
      rw [has_push]
      cases hc : (AMap.get t.children l) with
      | none => simp [has_empty]
      | some c => simp
    · rw [if_neg h]
      simp [Ne.symm h]

theorem has_foldl (keys : List (List L)) : ∀ (t : Trie L) (k : List L),
    (keys.foldl (fun t k => t.push k) t).has k = (decide (k ∈ keys) || t.has k) := by
  induction keys with
  | nil => intro t k; simp
  | cons a keys ih =>
    intro t k
    rw [List.foldl_cons, ih, has_push]
    by_cases h1 : k ∈ keys <;> by_cases h2 : k = a <;> simp [h1, h2]

theorem has_build (keys : List (List L)) (k : List L) : (build keys).has k = decide (k ∈ keys) := by
  rw [build, has_foldl, has_empty, Bool.or_false]

theorem mem_searchFrom : ∀ (text : List L) (t : Trie L) (pre p : List L),
    p ∈ searchFrom t pre text ↔ ∃ q, q ≠ [] ∧ p = pre ++ q ∧ q <+: text ∧ t.has q = true
  | [], t, pre, p => by
    simp only [searchFrom, List.not_mem_nil, false_iff, not_exists]
    rintro q ⟨hq, -, hp, -⟩
    exact hq (List.prefix_nil.1 hp)
  | l :: rest, t, pre, p => by
    simp only [searchFrom]
    cases hc : t.children.get l with
    | none =>
      simp only [List.not_mem_nil, false_iff, not_exists]
      rintro q ⟨hq, -, hp, hh⟩
      cases q with
      | nil => exact hq rfl
      | cons m q =>
        obtain ⟨rfl, -⟩ := List.cons_prefix_cons.1 hp
        simp [has, hc] at hh
    | some c =>
      have key : (∃ q, q ≠ [] ∧ p = pre ++ q ∧ q <+: l :: rest ∧ t.has q = true) ↔
          (p = pre ++ [l] ∧ c.isLeaf = true) ∨ p ∈ searchFrom c (pre ++ [l]) rest := by
        rw [mem_searchFrom rest c]
        constructor
        · rintro ⟨q, hq, hp, hpre, hh⟩
          cases q with
          | nil => exact absurd rfl hq
          | cons m q =>
            obtain ⟨rfl, h2⟩ := List.cons_prefix_cons.1 hpre
            simp only [has, hc] at hh
            cases q with
            | nil => exact .inl ⟨hp, by simpa [has] using hh⟩
            | cons m' q => exact .inr ⟨m' :: q, by simp, by simp [hp], h2, hh⟩
        · rintro (⟨hp, hl⟩ | ⟨q, hq, hp, hpre, hh⟩)
          · exact ⟨[l], by simp, hp, by simp, by simpa [has, hc] using hl⟩
          · exact ⟨l :: q, by simp, by simp [hp], List.cons_prefix_cons.2 ⟨rfl, hpre⟩,
              by simpa only [has, hc] using hh⟩
      rw [key]
      by_cases hl : c.isLeaf <;> simp [hl]

theorem searchFrom_sorted : ∀ (text : List L) (t : Trie L) (pre : List L),
    (searchFrom t pre text).Pairwise (fun a b => a.length < b.length)
  | [], _, _ => by simp [searchFrom]
  | l :: rest, t, pre => by
    simp only [searchFrom]
    cases hc : t.children.get l with
    | none => simp
    | some c =>
      dsimp only
      have ih := searchFrom_sorted rest c (pre ++ [l])
      split
      · refine List.pairwise_cons.2 ⟨?_, ih⟩
        intro p hp
        obtain ⟨q, hq, rfl, -⟩ := (mem_searchFrom ..).1 hp
        have := List.length_pos_iff.2 hq
        simp; omega
      · exact ih

/-- **C25.** The search yields exactly the inserted non-empty keys that are prefixes of the text … -/
theorem C25_exactly (keys : List (List L)) (text p : List L) :
    p ∈ (build keys).search text ↔ p ∈ keys ∧ p ≠ [] ∧ p <+: text := by
  rw [search, mem_searchFrom]
  simp only [has_build, decide_eq_true_eq, List.nil_append]
  constructor
  · rintro ⟨q, h1, rfl, h3, h4⟩; exact ⟨h4, h1, h3⟩
  · rintro ⟨h1, h2, h3⟩; exact ⟨p, h2, rfl, h3, h1⟩

/-- … each once, shortest first. -/
theorem C25_order (keys : List (List L)) (text : List L) :
    ((build keys).search text).Pairwise (fun a b => a.length < b.length) ∧
    ((build keys).search text).Nodup := by
  have h := searchFrom_sorted text (build keys) []
  refine ⟨h, ?_⟩
  exact h.imp (fun {a b} hab he => by rw [he] at hab; omega)

/-- `"ab"`, `"abcd"`, `"x"` and the empty key inserted (one of them twice), searched in `"abcde"`. -/
example : (build ["ab".toList, "abcd".toList, "x".toList, [], "ab".toList]).search "abcde".toList =
    ["ab".toList, "abcd".toList] := by decide

end Trie
end Tok
