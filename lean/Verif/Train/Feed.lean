import Verif.BaseLemmas

/-!
# Counting the words of a corpus: model of `feed`; C42

`BpeTrainer::feed` (`models/bpe/trainer.rs:643-675`), `WordLevelTrainer::feed` (`models/wordlevel/trainer.rs:95-126`) and
`UnigramTrainer::feed` (`models/unigram/trainer.rs:628-657`) are the same text; `WordPieceTrainer::feed` calls the first.
Counts are natural numbers: overflow of `u64`/`u32` is not modelled.
-/

namespace Tok.Train

variable {ε : Type}

/-- `*map.entry(k).or_default() += v`. -/
def bump (m : AMap Str Nat) (k : Str) (v : Nat) : AMap Str Nat := m.insert k ((m.get k).getD 0 + v)

/-- The closure of `map`: the words of one sequence, counted. -/
def countWords (ws : List Str) : AMap Str Nat := ws.foldl (fun m w => bump m w 1) []

/-- The closure of `map` with `process`. -/
def countOne (process : Str → Except ε (List Str)) (s : Str) : Except ε (AMap Str Nat) := (process s).map countWords

/-- The inner loop of the closure of `reduce`. -/
def addAll (acc ws : AMap Str Nat) : AMap Str Nat := ws.foldl (fun m p => bump m p.1 p.2) acc

/-- The closure of `reduce`. -/
def combine : Except ε (AMap Str Nat) → Except ε (AMap Str Nat) → Except ε (AMap Str Nat)
  | .error e, _ => .error e
  | .ok _, .error e => .error e
  | .ok acc, .ok ws => .ok (addAll acc ws)

/-- How `reduce` may group the sequences: the runtime may use the identity anywhere and combine in any tree. The
sequences come in any order (`par_bridge` does not keep it). Without parallelism it is the tree
`((unit, s0), s1), ..`. -/
inductive Tree
  | unit
  | leaf (s : Str)
  | node (l r : Tree)

/-- The sequences of a tree. -/
def Tree.leaves : Tree → List Str
  | .unit => []
  | .leaf s => [s]
  | .node l r => l.leaves ++ r.leaves

/-- The result of `reduce` for a tree, hence of `feed`. -/
def Tree.eval (process : Str → Except ε (List Str)) : Tree → Except ε (AMap Str Nat)
  | .unit => .ok []
  | .leaf s => countOne process s
  | .node l r => combine (l.eval process) (r.eval process)

/-! ## Lemmas -/

/-- A number as a map entry: words that do not occur have none. -/
def entry (n : Nat) : Option Nat := if n = 0 then none else some n

theorem entry_getD (n : Nat) : (entry n).getD 0 = n := by unfold entry; split <;> simp_all

theorem bump_get (m : AMap Str Nat) (k k' : Str) (v : Nat) :
    (bump m k v).get k' = if k = k' then some ((m.get k).getD 0 + v) else m.get k' := by
  unfold bump; rw [AMap.get_insert]

theorem countWords_get' : ∀ (ws : List Str) (m : AMap Str Nat) (k : Str),
    ((ws.foldl (fun m w => bump m w 1) m).get k) = if k ∈ ws then some ((m.get k).getD 0 + ws.count k) else m.get k
  | [], m, k => by simp
  | w :: ws, m, k => by
    rw [List.foldl_cons, countWords_get' ws, bump_get]
    by_cases h1 : w = k
    · subst h1
      simp only [if_true, List.mem_cons, true_or, List.count_cons_self, Option.getD_some]
      split
      · congr 1; omega
      · rename_i h; rw [List.count_eq_zero_of_not_mem h]
    · have h2 : k ≠ w := fun e => h1 e.symm
      simp only [if_neg h1, List.mem_cons, h2, false_or]
      rw [List.count_cons_of_ne h1]

theorem countWords_get (ws : List Str) (k : Str) : (countWords ws).get k = entry (ws.count k) := by
  unfold countWords entry
  rw [countWords_get']
  by_cases h : k ∈ ws
  · have := List.count_pos_iff.2 h
    rw [if_pos h, if_neg (by omega)]
    show some (0 + _) = _
    rw [Nat.zero_add]
  · rw [if_neg h, List.count_eq_zero_of_not_mem h, if_pos rfl]; rfl

theorem foldl_bump_wf {α : Type} (f : α → Str) (g : α → Nat) : ∀ (l : List α) (m : AMap Str Nat), m.WF →
    (l.foldl (fun m p => bump m (f p) (g p)) m).WF
  | [], _, h => h
  | _ :: l, _, h => foldl_bump_wf f g l _ (h.insert _ _)

theorem addAll_get : ∀ (ws : AMap Str Nat) (acc : AMap Str Nat) (k : Str), ws.WF →
    (addAll acc ws).get k = match ws.get k with
      | some n => some ((acc.get k).getD 0 + n)
      | none => acc.get k
  | [], acc, k, _ => rfl
  | (w, n) :: ws, acc, k, h => by
    have h' : AMap.WF ws := (List.nodup_cons.1 h).2
    have hw : AMap.get ws w = none := by
      cases hx : AMap.get ws w with
      | none => rfl
      | some x =>
        exact absurd (List.mem_map.2 ⟨_, AMap.mem_of_get_eq_some hx, rfl⟩) (List.nodup_cons.1 h).1
    show (addAll (bump acc w n) ws).get k = _
    rw [addAll_get ws _ k h', bump_get]
    by_cases hk : w = k
    · subst hk
      rw [hw]
      simp [AMap.get]
    · have : AMap.get ((w, n) :: ws) k = AMap.get ws k := by
        unfold AMap.get
        rw [List.find?_cons_of_neg]
        simpa using hk
      rw [this, if_neg hk]

/-! ## C42 -/

/-- **C42.** However the runtime groups the sequences and in whatever order they arrive, `feed` counts every word as often
as it occurs, if no sequence fails; words that do not occur are not there. -/
theorem C42_counts (process : Str → Except ε (List Str)) (words : Str → List Str) : ∀ (t : Tree) (items : List Str),
    t.leaves.Perm items → (∀ s ∈ items, process s = .ok (words s)) →
    ∃ m, t.eval process = .ok m ∧ m.WF ∧ ∀ k, m.get k = entry ((items.flatMap words).count k) := by
  have key : ∀ t : Tree, (∀ s ∈ t.leaves, process s = .ok (words s)) →
      ∃ m, t.eval process = .ok m ∧ m.WF ∧ ∀ k, m.get k = entry ((t.leaves.flatMap words).count k) := by
    intro t
    induction t with
    | unit => intro _; exact ⟨[], rfl, AMap.WF.nil, fun k => rfl⟩
    | leaf s =>
      intro h
      refine ⟨countWords (words s), ?_, foldl_bump_wf id (fun _ => 1) _ _ AMap.WF.nil, fun k => ?_⟩
      · show (process s).map countWords = _
        rw [h s (by simp [Tree.leaves])]; rfl
      · rw [countWords_get]
        simp [Tree.leaves]
    | node l r ihl ihr =>
      intro h
      obtain ⟨m1, e1, w1, g1⟩ := ihl fun s hs => h s (by simp [Tree.leaves, hs])
      obtain ⟨m2, e2, w2, g2⟩ := ihr fun s hs => h s (by simp [Tree.leaves, hs])
      refine ⟨addAll m1 m2, by rw [Tree.eval, e1, e2]; rfl, foldl_bump_wf (fun p : Str × Nat => p.1) (fun p => p.2) m2 _ w1, fun k => ?_⟩
      rw [addAll_get _ _ _ w2, g2, g1]
      simp only [Tree.leaves, List.flatMap_append, List.count_append]
      generalize (l.leaves.flatMap words).count k = a
      generalize (r.leaves.flatMap words).count k = b
      rw [entry_getD]
      unfold entry
      by_cases hb : b = 0
      · simp [hb]
      · simp [hb]
  intro t items hp h
  obtain ⟨m, h1, h2, h3⟩ := key t fun s hs => h s (hp.subset hs)
  refine ⟨m, h1, h2, fun k => ?_⟩
  rw [h3]
  congr 1
  exact (hp.flatMap_right words).count_eq k

/-- **C42.** If some sequence fails, `feed` fails with the error of one that does. -/
theorem C42_error (process : Str → Except ε (List Str)) {t : Tree} {items : List Str} (hp : t.leaves.Perm items) :
    ((∃ s ∈ items, ∃ e, process s = .error e) ↔ ∃ e, t.eval process = .error e) ∧
    ∀ e, t.eval process = .error e → ∃ s ∈ items, process s = .error e := by
  have key : ∀ t : Tree, ((∃ s ∈ t.leaves, ∃ e, process s = .error e) → ∃ e, t.eval process = .error e) ∧
      ∀ e, t.eval process = .error e → ∃ s ∈ t.leaves, process s = .error e := by
    intro t
    induction t with
    | unit => exact ⟨(fun ⟨s, hs, _⟩ => by cases hs), (fun e h => by cases h)⟩
    | leaf s =>
      constructor
      · rintro ⟨s', hs, e, he⟩
        simp only [Tree.leaves, List.mem_singleton] at hs
        subst hs
        refine ⟨e, ?_⟩
        show (process s').map countWords = _
        rw [he]; rfl
      · intro e he
        have he : (process s).map countWords = _ := he
        refine ⟨s, by simp [Tree.leaves], ?_⟩
        cases hx : process s with
        | error e' => rw [hx] at he; cases he; rfl
        | ok v => rw [hx] at he; cases he
    | node l r ihl ihr =>
      constructor
      · rintro ⟨s, hs, e, he⟩
        rw [Tree.eval]
        cases hl : l.eval process with
        | error e => exact ⟨e, rfl⟩
        | ok m =>
          rcases List.mem_append.1 hs with hs | hs
          · obtain ⟨e', he'⟩ := ihl.1 ⟨s, hs, e, he⟩
            rw [hl] at he'; cases he'
          · obtain ⟨e', he'⟩ := ihr.1 ⟨s, hs, e, he⟩
            rw [he']; exact ⟨e', rfl⟩
      · intro e he
        rw [Tree.eval] at he
        cases hl : l.eval process with
        | error e' =>
          rw [hl] at he
          cases he
          obtain ⟨s, hs, h⟩ := ihl.2 e hl
          exact ⟨s, List.mem_append.2 (.inl hs), h⟩
        | ok m =>
          rw [hl] at he
          cases hr : r.eval process with
          | error e' =>
            rw [hr] at he
            cases he
            obtain ⟨s, hs, h⟩ := ihr.2 e hr
            exact ⟨s, List.mem_append.2 (.inr hs), h⟩
          | ok m' => rw [hr] at he; cases he
  refine ⟨⟨?_, ?_⟩, fun e he => ?_⟩
  · rintro ⟨s, hs, h⟩; exact (key t).1 ⟨s, hp.symm.subset hs, h⟩
  · rintro ⟨e, he⟩
    obtain ⟨s, hs, h⟩ := (key t).2 e he
    exact ⟨s, hp.subset hs, e, h⟩
  · obtain ⟨s, hs, h⟩ := (key t).2 e he
    exact ⟨s, hp.subset hs, h⟩

/-- **C42.** Two schedules of the same sequences both fail, or give the same counts. -/
theorem C42_schedule (process : Str → Except ε (List Str)) {t t' : Tree} (hp : t.leaves.Perm t'.leaves) :
    (∃ e e', t.eval process = .error e ∧ t'.eval process = .error e') ∨
    ∃ m m', t.eval process = .ok m ∧ t'.eval process = .ok m' ∧ ∀ k, m.get k = m'.get k := by
  by_cases h : ∃ s ∈ t'.leaves, ∃ e, process s = .error e
  · obtain ⟨e, he⟩ := (C42_error process hp).1.1 h
    obtain ⟨e', he'⟩ := (C42_error process (List.Perm.refl t'.leaves)).1.1 h
    exact .inl ⟨e, e', he, he'⟩
  · have hw : ∀ s ∈ t'.leaves, process s = .ok ((process s).toOption.getD []) := by
      intro s hs
      cases hx : process s with
      | error e => exact absurd ⟨s, hs, e, hx⟩ h
      | ok v => rfl
    obtain ⟨m, h1, _, h3⟩ := C42_counts process _ t t'.leaves hp hw
    obtain ⟨m', h1', _, h3'⟩ := C42_counts process _ t' t'.leaves (List.Perm.refl _) hw
    exact .inr ⟨m, m', h1, h1', fun k => by rw [h3, h3']⟩

/-! Example: two schedules of three sequences. -/

def sampleProcess (s : Str) : Except Unit (List Str) := if s = ['!'] then .error () else .ok (s.map fun c => [c])

example : (Tree.eval sampleProcess (.node (.node .unit (.leaf "aba".toList)) (.leaf "bc".toList))).toOption.map
    (fun m => (m.get ['a'], m.get ['b'], m.get ['c'], m.get ['d'])) = some (some 2, some 2, some 1, none) := by decide

example : (Tree.node (.node .unit (.leaf "aba".toList)) (.leaf "bc".toList)).leaves.Perm
    (Tree.node (.leaf "bc".toList) (.node (.leaf "aba".toList) .unit)).leaves := by
  decide

end Tok.Train
