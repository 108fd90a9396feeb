import Verif.Train.UnigramModel
import Verif.Unigram.Tokenize

/-!
# C61: what the Unigram trainer yields
-/

namespace Tok.Train

open Tok.Unigram

/-! ### Specification -/

/-- A hash set visited in some order: each element once. -/
def SetOrder (order : List Char → List Char) : Prop := ∀ l, (order l).Nodup ∧ ∀ ch, ch ∈ order l ↔ ch ∈ l

/-- The characters that a trained model has to know: those of the corpus and those asked for. -/
def Needed (c : UniCfg) (sentences : List (Str × Nat)) (ch : Char) : Prop :=
  ch ∈ c.alphabet ∨ ∃ st ∈ sentences, ch ∈ st.1

/-- What is expected of the entries of a trained model: first `heads`, then `pieces`. -/
structure UniTrained (c : UniCfg) (suffix sentences : List (Str × Nat)) (u : Unigram) (heads pieces : List Scored) :
    Prop where
  vocab : u.vocab = heads ++ pieces
  /-- It is a model as `Unigram::from` makes it. -/
  made : Unigram.from u.vocab u.unkId false = .ok u
  /-- The special tokens come first, in the given order, preceded by the unknown token if it is not one of them. -/
  specials : heads.map (·.1) = c.special ∧ (∀ t, c.unk = some t → t ∈ c.special) ∨
    ∃ t, c.unk = some t ∧ t ∉ c.special ∧ heads.map (·.1) = t :: c.special
  /-- The unknown id is that of the unknown token. -/
  unk : match c.unk with
    | none => u.unkId = none
    | some t => ∃ i, u.unkId = some i ∧ heads[i]?.map (·.1) = some t
  /-- No piece comes twice. -/
  nodup : (pieces.map (·.1)).Nodup
  /-- Every character needed is a piece. -/
  chars : ∀ ch, Needed c sentences ch → [ch] ∈ pieces.map (·.1)
  /-- A piece is a character needed, or a substring reported by the suffix array, not too long. -/
  origin : ∀ t ∈ pieces.map (·.1), (∃ ch, t = [ch] ∧ Needed c sentences ch) ∨
    (1 < t.length ∧ t.length ≤ c.maxPiece ∧ '\x00' ∉ t ∧ ∃ n, (t, n) ∈ suffix)
  /-- Best scores first. -/
  sorted : pieces.Pairwise fun a b => b.2 ≤ a.2
  /-- The size is kept to, if the characters needed leave room. -/
  size : ∀ req : List Char, (∀ ch, Needed c sentences ch → ch ∈ req) → req.length + heads.length < c.vocabSize →
    u.vocab.length ≤ c.vocabSize

/-! ### Sorting -/

theorem insertLe_perm {α : Type} (le : α → α → Bool) (a : α) : ∀ l, (insertLe le a l).Perm (a :: l)
  | [] => .refl _
  | b :: l => by
    unfold insertLe
    split
    · exact .refl _
    · exact ((insertLe_perm le a l).cons b).trans (.swap a b l)

theorem sortLe_perm {α : Type} (le : α → α → Bool) : ∀ l, (sortLe le l).Perm l
  | [] => .refl _
  | a :: l => (insertLe_perm le a _).trans ((sortLe_perm le l).cons a)

theorem insertLe_sorted {α : Type} {le : α → α → Bool} (ht : ∀ a b, le a b = true ∨ le b a = true)
    (htr : ∀ a b c, le a b = true → le b c = true → le a c = true) (a : α) :
    ∀ l, l.Pairwise (fun x y => le x y = true) → (insertLe le a l).Pairwise (fun x y => le x y = true)
  | [], _ => by simp [insertLe]
  | b :: l, h => by
    have h' := List.pairwise_cons.1 h
    unfold insertLe
    split
    · rename_i hab
      refine List.pairwise_cons.2 ⟨?_, h⟩
      intro x hx
      rcases List.mem_cons.1 hx with rfl | hx
      · exact hab
      · exact htr _ _ _ hab (h'.1 x hx)
    · rename_i hab
      refine List.pairwise_cons.2 ⟨?_, insertLe_sorted ht htr a l h'.2⟩
      intro x hx
      rcases List.mem_cons.1 ((insertLe_perm le a l).subset hx) with rfl | hx
      · exact (ht x b).resolve_left hab
      · exact h'.1 x hx

theorem sortLe_sorted {α : Type} {le : α → α → Bool} (ht : ∀ a b, le a b = true ∨ le b a = true)
    (htr : ∀ a b c, le a b = true → le b c = true → le a c = true) :
    ∀ l, (sortLe le l).Pairwise (fun x y => le x y = true)
  | [] => .nil
  | a :: l => insertLe_sorted ht htr a _ (sortLe_sorted ht htr l)

theorem sortScored_sorted (l : List Scored) :
    (sortLe (fun a b : Scored => decide (b.2 ≤ a.2)) l).Pairwise fun a b => b.2 ≤ a.2 := by
  have := sortLe_sorted (le := fun a b : Scored => decide (b.2 ≤ a.2))
    (fun a b => by simpa using Rat.le_total)
    (fun a b c h1 h2 => by simp only [decide_eq_true_eq] at *; exact Rat.le_trans h2 h1) l
  exact this.imp (fun h => by simpa using h)

/-! ### The loop only ever drops pieces -/

/-- All texts of the first list occur in the second. -/
def TextsIn (l l' : List Scored) : Prop := ∀ p ∈ l, p.1 ∈ l'.map (·.1)

theorem TextsIn.trans {a b c : List Scored} (h1 : TextsIn a b) (h2 : TextsIn b c) : TextsIn a c := by
  intro p hp
  obtain ⟨q, hq, e⟩ := List.mem_map.1 (h1 p hp)
  rw [← e]
  exact h2 q hq

theorem mStep_texts {dg : Rat → Rat} {rest out : List Scored} {ex : List Rat} (h : mStep dg rest ex = some out) :
    TextsIn out rest := by
  unfold mStep at h
  split at h
  · cases h
  · cases h
    intro p hp
    obtain ⟨q, hq, rfl⟩ := List.mem_map.1 hp
    exact List.mem_map.2 ⟨q.2, (List.of_mem_zip (a := q.1) (b := q.2) (List.mem_filter.1 hq).1).2, rfl⟩

theorem emRounds_texts {ar : Arith} {st : List (Str × Nat)} : ∀ (n : Nat) {rest out : List Scored},
    emRounds ar st n rest = some out → TextsIn out rest
  | 0, rest, out, h => by
    cases h
    exact fun p hp => List.mem_map_of_mem hp
  | n + 1, rest, out, h => by
    simp only [emRounds, Option.bind_eq_some_iff] at h
    obtain ⟨mid, h1, h2⟩ := h
    refine (emRounds_texts n h2).trans ?_
    unfold emRound at h1
    split at h1
    · cases h1
    · exact mStep_texts h1

theorem pushUntil_mem {size : Nat} : ∀ (l acc : List Scored), ∀ p ∈ pushUntil size acc l, p ∈ acc ∨ p ∈ l
  | [], acc, p, h => .inl h
  | q :: l, acc, p, h => by
    unfold pushUntil at h
    split at h
    · exact .inl h
    · rcases pushUntil_mem l _ p h with h | h
      · rcases List.mem_append.1 h with h | h
        · exact .inl h
        · exact .inr (by simp at h; simp [h])
      · exact .inr (by simp [h])

theorem prune_mem {c : UniCfg} {ar : Arith} {st : List (Str × Nat)} {rest out : List Scored}
    (h : c.prune ar st rest = some out) : ∀ p ∈ out, p ∈ rest := by
  unfold UniCfg.prune at h
  split at h
  · cases h
  · simp only [Option.bind_eq_some_iff, Option.map_eq_some_iff] at h
    obtain ⟨alts, -, paths, -, rfl⟩ := h
    intro p hp
    have key : ∀ (q : Scored) (v : Verdict), (q, v) ∈ ((rest.zip alts).zipIdx.map fun p =>
        (p.1.1, verdictOf ar st paths (rest.length + 1) (p.2 + 1) p.1.2)) → q ∈ rest := by
      intro q v hq
      obtain ⟨x, hx, e⟩ := List.mem_map.1 hq
      cases e
      have := List.mem_zipIdx' (x := x.1) (i := x.2) hx
      have h2 : x.1 ∈ rest.zip alts := by rw [this.2]; exact List.getElem_mem _
      exact (List.of_mem_zip (a := x.1.1) (b := x.1.2) h2).1
    rcases pushUntil_mem _ _ p hp with h | h
    · obtain ⟨x, hx, e⟩ := List.mem_filterMap.1 h
      obtain ⟨q, v⟩ := x
      dsimp only [keptPiece] at e
      split at e <;> cases e
      exact key _ _ hx
    · obtain ⟨x, hx, rfl⟩ := List.mem_map.1 h
      obtain ⟨y, hy, e⟩ := List.mem_filterMap.1 ((sortLe_perm _ _).subset hx)
      obtain ⟨q, v⟩ := y
      dsimp only [candidatePiece] at e
      split at e <;> cases e
      exact key _ _ hy

theorem emLoop_texts {c : UniCfg} {ar : Arith} {st : List (Str × Nat)} : ∀ (fuel : Nat) {rest out : List Scored},
    c.emLoop ar st fuel rest = some (some out) → TextsIn out rest
  | 0, rest, out, h => by cases h
  | fuel + 1, rest, out, h => by
    unfold UniCfg.emLoop at h
    split at h
    · cases h
    · rename_i mid h1
      split at h
      · cases h; exact emRounds_texts _ h1
      · split at h
        · cases h
        · rename_i r h2
          exact ((emLoop_texts fuel h).trans (fun p hp => List.mem_map_of_mem (prune_mem h2 p hp))).trans
            (emRounds_texts _ h1)

/-! ### The seeds -/

theorem charCounts_mem {sentences : List (Str × Nat)} {ch : Char} {n : Nat} (h : (ch, n) ∈ charCounts sentences) :
    ∃ st ∈ sentences, ch ∈ st.1 := by
  have hin : ∀ {m : AMap Char Nat} {k v : _} {x : Char × Nat}, x ∈ AMap.insert m k v → x.1 = k ∨ x ∈ m := by
    intro m k v x hx
    rcases List.mem_cons.1 hx with rfl | hx
    · exact .inl rfl
    · exact .inr (List.mem_filter.1 hx).1
  have inner : ∀ (s : Str) (k : Nat) (m : AMap Char Nat), ∀ x ∈ s.foldl (fun m c =>
      if c = '\x00' then m else AMap.insert m c ((m.get c).getD 0 + k)) m, x ∈ m ∨ x.1 ∈ s := by
    intro s k
    induction s with
    | nil => intro m x hx; exact .inl hx
    | cons c s ih =>
      intro m x hx
      rw [List.foldl_cons] at hx
      rcases ih _ x hx with h | h
      · split at h
        · exact .inl h
        · rcases hin h with h | h
          · exact .inr (by simp [h])
          · exact .inl h
      · exact .inr (by simp [h])
  have outer : ∀ (l : List (Str × Nat)) (m : AMap Char Nat), ∀ x ∈ l.foldl (fun m st => st.1.foldl (fun m c =>
      if c = '\x00' then m else AMap.insert m c ((m.get c).getD 0 + st.2)) m) m, x ∈ m ∨ ∃ st ∈ l, x.1 ∈ st.1 := by
    intro l
    induction l with
    | nil => intro m x hx; exact .inl hx
    | cons st l ih =>
      intro m x hx
      rw [List.foldl_cons] at hx
      rcases ih _ x hx with h | ⟨s, hs, h⟩
      · rcases inner _ _ _ x h with h | h
        · exact .inl h
        · exact .inr ⟨st, by simp, h⟩
      · exact .inr ⟨s, by simp [hs], h⟩
  rcases outer sentences [] _ h with h | h
  · cases h
  · exact h

theorem pushSeeds_mem {size : Nat} : ∀ (l : List (Nat × Str)) (acc : List Scored), ∀ p ∈ pushSeeds size acc l,
    p ∈ acc ∨ ∃ q ∈ l, q.2 = p.1
  | [], acc, p, h => .inl h
  | q :: l, acc, p, h => by
    simp only [pushSeeds] at h
    have key : p ∈ acc ++ [(q.2, (q.1 : Rat))] → p ∈ acc ∨ ∃ x ∈ q :: l, x.2 = p.1 := by
      intro h
      rcases List.mem_append.1 h with h | h
      · exact .inl h
      · right
        refine ⟨q, by simp, ?_⟩
        simp at h
        rw [h]
    split at h
    · exact key h
    · rcases pushSeeds_mem l _ p h with h | ⟨x, hx, e⟩
      · exact key h
      · exact .inr ⟨x, by simp [hx], e⟩

theorem seeds_origin {c : UniCfg} {ln : Rat → Rat} {suffix sentences : List (Str × Nat)} {p : Scored}
    (h : p ∈ c.seeds ln suffix sentences) : (∃ ch, p.1 = [ch] ∧ Needed c sentences ch) ∨
      (1 < p.1.length ∧ p.1.length ≤ c.maxPiece ∧ '\x00' ∉ p.1 ∧ ∃ n, (p.1, n) ∈ suffix) := by
  simp only [UniCfg.seeds, toLogProb] at h
  obtain ⟨q, hq, rfl⟩ := List.mem_map.1 h
  rcases pushSeeds_mem _ _ q hq with h | ⟨x, hx, e⟩
  · left
    obtain ⟨y, hy, rfl⟩ := List.mem_map.1 h
    have hy := (sortLe_perm _ _).subset hy
    obtain ⟨z, hz, rfl⟩ := List.mem_map.1 hy
    obtain ⟨st, h1, h2⟩ := charCounts_mem (ch := z.1) (n := z.2) hz
    exact ⟨z.1, rfl, .inr ⟨st, h1, h2⟩⟩
  · right
    have hx := (sortLe_perm _ _).subset hx
    unfold UniCfg.substrings at hx
    obtain ⟨z, hz, rfl⟩ := List.mem_map.1 hx
    obtain ⟨h1, h2⟩ := List.mem_filter.1 hz
    simp only [Bool.and_eq_true, decide_eq_true_eq, Bool.not_eq_true', UniCfg.validPiece] at h2
    rw [← e]
    refine ⟨h2.1.1, h2.2.2, ?_, z.2, h1⟩
    have := h2.1.2
    simpa using this

/-! ### `finalize` -/

theorem requiredPieces_texts {ex : AMap Str Rat} {ms : Rat} : ∀ (l : List Str) (pen : Rat),
    (requiredPieces ex ms pen l).map (·.1) = l
  | [], _ => rfl
  | s :: l, pen => by
    unfold requiredPieces
    split <;> simp [requiredPieces_texts l]

/-- What `fillPieces` adds. -/
theorem fillPieces_spec {limit : Nat} : ∀ (l acc : List Scored) (ins : List Str), ∃ added,
    fillPieces limit acc ins l = acc ++ added ∧ added.Sublist l ∧ (added.map (·.1)).Nodup ∧
    (∀ p ∈ added, p.1 ∉ ins) ∧ (acc.length < limit → (acc ++ added).length ≤ limit)
  | [], acc, ins => ⟨[], by simp [fillPieces], .refl _, by simp, by simp, by intro h; simp; omega⟩
  | p :: l, acc, ins => by
    unfold fillPieces
    split
    · obtain ⟨added, h1, h2, h3, h4, h5⟩ := fillPieces_spec l acc ins
      exact ⟨added, h1, h2.cons _, h3, h4, h5⟩
    · rename_i hp
      dsimp only
      split
      · rename_i hl
        refine ⟨[p], rfl, ?_, by simp, ?_, fun _ => by omega⟩
        · exact (List.nil_sublist l).cons_cons p
        · intro q hq
          simp at hq
          rw [hq]; exact hp
      · rename_i hl
        obtain ⟨added, h1, h2, h3, h4, h5⟩ := fillPieces_spec l (acc ++ [p]) (p.1 :: ins)
        refine ⟨p :: added, by rw [h1]; simp, h2.cons_cons p, ?_, ?_, ?_⟩
        · rw [List.map_cons, List.nodup_cons]
          refine ⟨?_, h3⟩
          intro hm
          obtain ⟨q, hq, e⟩ := List.mem_map.1 hm
          exact h4 q hq (by rw [e]; simp)
        · intro q hq
          rcases List.mem_cons.1 hq with rfl | hq
          · exact hp
          · exact fun hm => h4 q hq (by simp [hm])
        · intro h
          simp only [List.length_append, List.length_cons, List.length_nil] at h5 hl ⊢
          have := h5 (by omega)
          omega

theorem map_fst_zero (l : List Str) : List.map ((fun x : Scored => x.1) ∘ fun t => (t, 0)) l = l := by
  induction l with
  | nil => rfl
  | cons a l ih => simp [ih]

theorem heads_texts (c : UniCfg) : c.heads.map (·.1) = c.special ∧ (∀ t, c.unk = some t → t ∈ c.special) ∨
    ∃ t, c.unk = some t ∧ t ∉ c.special ∧ c.heads.map (·.1) = t :: c.special := by
  unfold UniCfg.heads UniCfg.unkPlace
  cases hu : c.unk with
  | none => left; simp [map_fst_zero]
  | some t =>
    cases hi : c.special.findIdx? (· == t) with
    | some i =>
      left
      refine ⟨by simp [hi, map_fst_zero], ?_⟩
      intro t' ht
      cases ht
      obtain ⟨h1, h2, -⟩ := List.findIdx?_eq_some_iff_getElem.1 hi
      rw [← beq_iff_eq.1 h2]
      exact List.getElem_mem h1
    | none =>
      right
      refine ⟨t, rfl, ?_, by simp [hi, map_fst_zero]⟩
      intro hm
      have := List.findIdx?_eq_none_iff.1 hi t hm
      simp at this

theorem heads_unk (c : UniCfg) : match c.unk with
    | none => c.unkPlace.1 = none
    | some t => ∃ i, c.unkPlace.1 = some i ∧ c.heads[i]?.map (·.1) = some t := by
  unfold UniCfg.heads UniCfg.unkPlace
  cases hu : c.unk with
  | none => rfl
  | some t =>
    cases hi : c.special.findIdx? (· == t) with
    | some i =>
      obtain ⟨h1, h2, -⟩ := List.findIdx?_eq_some_iff_getElem.1 hi
      refine ⟨i, by simp [hi], ?_⟩
      simp [hi, h1]
      exact beq_iff_eq.1 h2
    | none => exact ⟨0, by simp [hi], by simp [hi]⟩

theorem heads_length (c : UniCfg) : c.heads.length = c.special.length + if c.unkPlace.2 then 1 else 0 := by
  unfold UniCfg.heads
  split <;> simp <;> omega

theorem from_inv {vocab : List Scored} {unk : Option Nat} {bf : Bool} {u : Unigram} (h : Unigram.from vocab unk bf = .ok u) :
    u.vocab = vocab ∧ u.unkId = unk ∧ u.byteFallback = bf := by
  unfold Unigram.from at h
  split at h
  · cases h
  · split at h
    · cases h
    · cases h; exact ⟨rfl, rfl, rfl⟩

theorem length_le_of_nodup_subset {α : Type} [DecidableEq α] {l r : List α} (h : l.Nodup) (hs : ∀ x ∈ l, x ∈ r) :
    l.length ≤ r.length := by
  induction l generalizing r with
  | nil => simp
  | cons a l ih =>
    have h' := List.nodup_cons.1 h
    have ha := hs a (by simp)
    have := ih (r := r.erase a) h'.2 (fun x hx => (List.mem_erase_of_ne (by rintro rfl; exact h'.1 hx)).2 (hs x (by simp [hx])))
    rw [List.length_erase_of_mem ha] at this
    have : 0 < r.length := List.length_pos_of_mem ha
    simp only [List.length_cons]
    omega

/-- **C61.** Whatever numbers the arithmetic yields and in whatever order hash maps are visited: if training returns a
model, its entries are as `UniTrained` says. -/
theorem C61_model {c : UniCfg} {ar : Arith} {order : List Char → List Char} (ho : SetOrder order)
    {suffix sentences : List (Str × Nat)} {fuel : Nat} {u : Unigram}
    (h : c.doTrain ar order suffix sentences fuel = some (.ok u)) :
    ∃ heads pieces, UniTrained c suffix sentences u heads pieces := by
  unfold UniCfg.doTrain at h
  dsimp only at h
  split at h
  · cases h
  simp only [Option.map_eq_some_iff] at h
  obtain ⟨r, hloop, h⟩ := h
  split at h
  · cases h
  rename_i rest
  split at h
  · cases h
  rename_i tm htm
  split at h
  case h_2 => cases h
  case h_3 => cases h
  rename_i v hfin
  cases h
  have htexts := emLoop_texts fuel hloop
  have hbf := (from_inv htm).2.2
  unfold UniCfg.finalize at hfin
  split at hfin
  · cases hfin
  rename_i limit hlim
  dsimp only at hfin
  split at hfin
  · cases hfin
  rename_i w hfrom
  cases hfin
  rw [hbf] at hfrom
  obtain ⟨e1, e2, -⟩ := from_inv hfrom
  obtain ⟨hnd, hmem⟩ := ho (sentences.flatMap (·.1) ++ c.alphabet)
  have hneed : ∀ ch, Needed c sentences ch ↔ ch ∈ order (sentences.flatMap (·.1) ++ c.alphabet) := by
    intro ch
    rw [hmem]
    simp only [Needed, List.mem_append, List.mem_flatMap]
    exact Or.comm
  have hreq : ∀ t, t ∈ c.required order sentences ↔ ∃ ch, t = [ch] ∧ Needed c sentences ch := by
    intro t
    simp only [UniCfg.required, List.mem_map]
    constructor
    · rintro ⟨ch, h1, rfl⟩; exact ⟨ch, rfl, (hneed ch).2 h1⟩
    · rintro ⟨ch, rfl, h1⟩; exact ⟨ch, (hneed ch).1 h1, rfl⟩
  have hreqnd : (c.required order sentences).Nodup := by
    unfold UniCfg.required
    exact (List.pairwise_map.2 (hnd.imp (fun hne e => hne (by simpa using e))))
  generalize hreqdef : c.required order sentences = req at *
  generalize hfirst : requiredPieces (AMap.extend [] ((unkPiece, notMin rest) :: rest)) tm.minScore 0 req = first at *
  have hft : first.map (·.1) = req := by rw [← hfirst]; exact requiredPieces_texts _ _
  obtain ⟨added, a1, a2, a3, a4, a5⟩ := fillPieces_spec (limit := limit) ((unkPiece, notMin rest) :: rest) first
    (req ++ [unkPiece])
  rw [a1] at hfrom e1
  have hperm := sortLe_perm (fun a b : Scored => decide (b.2 ≤ a.2)) (first ++ added)
  refine ⟨c.heads, _, e1, by rw [e1, e2]; exact hfrom, heads_texts c, ?_, ?_, ?_, ?_, sortScored_sorted _, ?_⟩
  · have := heads_unk c
    rw [e2]
    exact this
  · rw [(hperm.map _).nodup_iff, List.map_append, hft, List.nodup_append]
    refine ⟨hreqnd, a3, ?_⟩
    intro a ha b hb e
    obtain ⟨p, hp, rfl⟩ := List.mem_map.1 hb
    exact a4 p hp (by simp [← e, ha])
  · intro ch hch
    rw [(hperm.map _).mem_iff, List.map_append, List.mem_append, hft]
    exact .inl ((hreq _).2 ⟨ch, rfl, hch⟩)
  · intro t ht
    rw [(hperm.map _).mem_iff, List.map_append, List.mem_append, hft] at ht
    rcases ht with ht | ht
    · exact .inl ((hreq t).1 ht)
    · obtain ⟨p, hp, rfl⟩ := List.mem_map.1 ht
      rcases List.mem_cons.1 (a2.subset hp) with rfl | hr
      · exact absurd (by simp) (a4 _ hp)
      · obtain ⟨q, hq, e⟩ := List.mem_map.1 (htexts p hr)
        rw [← e]
        exact seeds_origin hq
  · intro req' hreq' hlt
    rw [e1]
    have h1 : req.length ≤ req'.length := by
      rw [← hreqdef]
      unfold UniCfg.required
      rw [List.length_map]
      exact length_le_of_nodup_subset hnd (fun ch h => hreq' ch ((hneed ch).2 h))
    have h2 : first.length = req.length := by rw [← hft]; simp
    unfold UniCfg.limit at hlim
    dsimp only at hlim
    rw [← heads_length] at hlim
    split at hlim <;> cases hlim
    have := a5 (by omega)
    rw [List.length_append, hperm.length_eq]
    omega

end Tok.Train
