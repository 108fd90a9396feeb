import Verif.Train.BpeExamples

/-!
# C74: BPE training with 32-bit pair counts

`Train/BpeModel` counts pairs with integers. The code counts with `i32`: the count of a word (`u64`) is cut to 32 bits
(`counts[i] as i32`), and sums and products either wrap around (the usual release build) or panic (a build with overflow
checks). Here is the same training with these operations; everything else is as before.
-/

namespace Tok.Train

/-- What an addition or multiplication of two `i32` gives, from the exact result; `none` is a panic. -/
abbrev CountArith := Int → Option Int

/-- The 32-bit number, with sign, of the same remainder modulo `2 ^ 32`. -/
def wrap32 (x : Int) : Int := Int.bmod x (2 ^ 32)

/-- Release builds. -/
def wrapping : CountArith := fun x => some (wrap32 x)

/-- Builds with overflow checks. -/
def checked : CountArith := fun x => if -2 ^ 31 ≤ x ∧ x < 2 ^ 31 then some x else none

/-- `count as i32` of a `u64`. -/
def castI32 (n : Nat) : Int := wrap32 n

/-- `*pair_counts.entry(pair).or_default() += n`. -/
def bumpPair32 (ar : CountArith) (m : AMap Pair Int) (p : Pair) (n : Int) : Option (AMap Pair Int) :=
  match ar ((m.get p).getD 0 + n) with
  | some x => some (m.insert p x)
  | none => none

/-- One change (`trainer.rs:583-590`), as `applyChange`; in `count_pairs` (`trainer.rs:432-433`) a change by one. -/
def applyChange32 (ar : CountArith) (counts : List Nat) (st : Stats) (ch : (Pair × Int) × Nat) : Option Stats :=
  match ar (ch.1.2 * castI32 (counts.getD ch.2 0)) with
  | none => none
  | some n =>
    match bumpPair32 ar st.1 ch.1.1 n with
    | none => none
    | some m => some (m, if ch.1.2 > 0 then addPos st.2 ch.1.1 ch.2 else st.2)

/-- A list of changes. -/
def applyAll32 (ar : CountArith) (counts : List Nat) : List ((Pair × Int) × Nat) → Stats → Option Stats
  | [], st => some st
  | ch :: l, st =>
    match applyChange32 ar counts st ch with
    | some st => applyAll32 ar counts l st
    | none => none

/-- `count_pairs` (`trainer.rs:414-454`), as `countPairs`. -/
def countPairs32 (ar : CountArith) (words : List (List Sym)) (counts : List Nat) : Option Stats :=
  applyAll32 ar counts (words.zipIdx.flatMap fun p => (windows p.1).map fun q => ((q, 1), p.2)) ([], [])

/-- As `doMerge` (`trainer.rs:529-601`). -/
def doMerge32 (ar : CountArith) (cfg : BpeCfg) (counts : List Nat) (s : St) (top : Entry) (q : List Entry) : Out :=
  match s.voc.id2w[top.pair.1]?, s.voc.id2w[top.pair.2]? with
  | some a, some b =>
    let tok := a ++ stripPre cfg.pre b
    let r := (s.voc.w2id.get tok).getD s.voc.id2w.length
    if top.pos.all (· < s.words.length) then
      match applyAll32 ar counts (changesAt top.pair.1 top.pair.2 r cfg.maxLen s.words top.pos) (s.pc, []) with
      | some st =>
        .more ⟨s.voc.add tok, mergeAt top.pair.1 top.pair.2 r cfg.maxLen s.words top.pos, st.1, pushAll st q,
          s.merges ++ [(top.pair, r)]⟩
      | none => .panic
    else .panic
  | _, _ => .panic

/-- As `step` (`trainer.rs:508-607`). -/
def step32 (ar : CountArith) (cfg : BpeCfg) (counts : List Nat) (s : St) : Out :=
  if s.voc.w2id.length ≥ cfg.vocabSize then .stop s
  else
    match popMax s.queue with
    | none => .stop s
    | some (top, q) =>
      match s.pc.get top.pair with
      | none => .panic
      | some c =>
        if top.count ≠ toU64 c then .more { s with queue := { top with count := toU64 c } :: q }
        else if top.count < 1 ∨ cfg.minFrequency > top.count then .stop { s with queue := q }
        else doMerge32 ar cfg counts s top q

/-- As `loop`. -/
def loop32 (ar : CountArith) (cfg : BpeCfg) (counts : List Nat) : Nat → St → Out
  | 0, s => .more s
  | fuel + 1, s =>
    match step32 ar cfg counts s with
    | .more s' => loop32 ar cfg counts fuel s'
    | o => o

/-- As `start` (`trainer.rs:465-502`). -/
def start32 (ar : CountArith) (cfg : BpeCfg) (order : AMap Char Nat → AMap Char Nat) (wc : AMap Str Nat) : Option St :=
  let v := computeAlphabet cfg order wc (addSpecials cfg ⟨[], []⟩)
  let (v, words) := tokenizeWords cfg wc v
  match countPairs32 ar words (wc.map (·.2)) with
  | some st => some ⟨v, words, st.1, pushAll st [], []⟩
  | none => none

/-- Training, at most `fuel` iterations of the loop. -/
def train32 (ar : CountArith) (cfg : BpeCfg) (order : AMap Char Nat → AMap Char Nat) (wc : AMap Str Nat) (fuel : Nat) : Out :=
  match start32 ar cfg order wc with
  | some s => loop32 ar cfg (wc.map (·.2)) fuel s
  | none => .panic

/-- Results that are 32-bit numbers are exact. -/
def CountArith.Exact (ar : CountArith) : Prop := ∀ x : Int, -2 ^ 31 ≤ x → x < 2 ^ 31 → ar x = some x

theorem wrap32_exact {x : Int} (h1 : -2 ^ 31 ≤ x) (h2 : x < 2 ^ 31) : wrap32 x = x := by
  unfold wrap32
  rw [Int.bmod_eq_of_le] <;> omega

theorem wrapping_exact : wrapping.Exact := fun x h1 h2 => by rw [wrapping, wrap32_exact h1 h2]

theorem checked_exact : checked.Exact := fun x h1 h2 => by rw [checked, if_pos ⟨h1, h2⟩]

/-! ## Bounds -/

/-- How much the changes upwards, or downwards, weigh. -/
def ups (counts : List Nat) (l : List ((Pair × Int) × Nat)) : Nat :=
  (l.map fun ch => if ch.1.2 > 0 then counts.getD ch.2 0 else 0).sum

def downs (counts : List Nat) (l : List ((Pair × Int) × Nat)) : Nat :=
  (l.map fun ch => if ch.1.2 > 0 then 0 else counts.getD ch.2 0).sum

/-- All counts are between `-d` and `u`. -/
def Bounded (m : AMap Pair Int) (d u : Nat) : Prop := ∀ p, -(d : Int) ≤ (m.get p).getD 0 ∧ (m.get p).getD 0 ≤ u

theorem applyAll32_eq {ar : CountArith} (har : ar.Exact) {counts : List Nat} : ∀ (l : List ((Pair × Int) × Nat)) (st : Stats) (d u : Nat),
    (∀ ch ∈ l, ch.1.2 = 1 ∨ ch.1.2 = -1) → Bounded st.1 d u → d + downs counts l < 2 ^ 31 → u + ups counts l < 2 ^ 31 →
    applyAll32 ar counts l st = some (l.foldl (applyChange counts) st) ∧
      Bounded (l.foldl (applyChange counts) st).1 (d + downs counts l) (u + ups counts l)
  | [], st, d, u, _, hb, _, _ => ⟨rfl, by simpa [downs, ups] using hb⟩
  | ((q, x), i) :: l, st, d, u, hl, hb, hd, hu => by
    have hc : x = 1 ∨ x = -1 := hl ((q, x), i) (by simp)
    have hdc : downs counts (((q, x), i) :: l) = (if x > 0 then 0 else counts.getD i 0) + downs counts l := by simp [downs]
    have huc : ups counts (((q, x), i) :: l) = (if x > 0 then counts.getD i 0 else 0) + ups counts l := by simp [ups]
    rw [hdc] at hd ⊢
    rw [huc] at hu ⊢
    obtain ⟨n, hn⟩ : ∃ n, counts.getD i 0 = n := ⟨_, rfl⟩
    rw [hn] at hd hu ⊢
    obtain ⟨dn, hdn⟩ : ∃ dn, (if x > 0 then 0 else n) = dn := ⟨_, rfl⟩
    obtain ⟨un, hun⟩ : ∃ un, (if x > 0 then n else 0) = un := ⟨_, rfl⟩
    rw [hdn] at hd ⊢
    rw [hun] at hu ⊢
    have hx : -(dn : Int) ≤ x * n ∧ x * n ≤ un ∧ n ≤ dn + un := by
      rcases hc with rfl | rfl
      · rw [if_pos (by decide)] at hdn hun; omega
      · rw [if_neg (by decide)] at hdn hun; omega
    have ea : applyChange counts st ((q, x), i) =
        (st.1.insert q ((st.1.get q).getD 0 + x * n), if x > 0 then addPos st.2 q i else st.2) := by
      simp only [applyChange, bumpPair, hn]
    have hb' : Bounded (applyChange counts st ((q, x), i)).1 (d + dn) (u + un) := by
      intro p
      rw [ea]
      simp only [AMap.get_insert]
      have g := hb p
      by_cases e : q = p
      · subst e
        simp only [if_true, Option.getD_some]
        omega
      · rw [if_neg e]
        omega
    have e : applyChange32 ar counts st ((q, x), i) = some (applyChange counts st ((q, x), i)) := by
      have h1 : castI32 (counts.getD i 0) = n := by
        rw [hn]
        refine wrap32_exact (by omega) ?_
        rcases hc with rfl | rfl
        · rw [if_pos (by decide)] at hdn hun; omega
        · rw [if_neg (by decide)] at hdn hun; omega
      have h3 := hb q
      unfold applyChange32 bumpPair32
      simp only
      rw [h1, har _ (by omega) (by omega)]
      simp only
      rw [har _ (by omega) (by omega), ea]
    rw [applyAll32, e]
    have := applyAll32_eq har (counts := counts) l (applyChange counts st ((q, x), i)) _ _
      (fun x hx => hl x (List.mem_cons_of_mem _ hx)) hb' (by omega) (by omega)
    simp only [List.foldl_cons]
    refine ⟨this.1, ?_⟩
    have h := this.2
    rw [Nat.add_assoc, Nat.add_assoc] at h
    exact h

/-! ## What one merge costs -/

def upN (l : List (Pair × Int)) : Nat := (l.map fun c => if c.2 > 0 then 1 else 0).sum

def downN (l : List (Pair × Int)) : Nat := (l.map fun c => if c.2 > 0 then 0 else 1).sum

theorem upN_append (a b : List (Pair × Int)) : upN (a ++ b) = upN a + upN b := by simp [upN]

theorem downN_append (a b : List (Pair × Int)) : downN (a ++ b) = downN a + downN b := by simp [downN]

theorem prevChanges_bound (maxLen : Option Nat) (prev : Option Sym) (a new : Sym) :
    upN (prevChanges maxLen prev a new) ≤ 1 ∧ downN (prevChanges maxLen prev a new) ≤ 1 ∧
      ∀ c ∈ prevChanges maxLen prev a new, c.2 = 1 ∨ c.2 = -1 := by
  cases prev with
  | none => simp [prevChanges, upN, downN]
  | some p =>
    unfold prevChanges
    cases h : fits maxLen (p.2 + new.2) <;> simp [upN, downN, h]

theorem nextChanges_bound (maxLen : Option Nat) (b new : Sym) (next : Option Sym) :
    upN (nextChanges maxLen b new next) ≤ 1 ∧ downN (nextChanges maxLen b new next) ≤ 1 ∧
      ∀ c ∈ nextChanges maxLen b new next, c.2 = 1 ∨ c.2 = -1 := by
  cases next with
  | none => simp [nextChanges, upN, downN]
  | some n =>
    unfold nextChanges
    cases h : fits maxLen (n.2 + new.2) <;> simp [upN, downN, h]

theorem mergeWord_bound (c1 c2 r : Nat) (maxLen : Option Nat) : ∀ (n : Nat) (w : List Sym), w.length ≤ n → ∀ prev : Option Sym,
    (mergeWord c1 c2 r maxLen prev w).1.length ≤ w.length ∧
    upN (mergeWord c1 c2 r maxLen prev w).2 ≤ 2 * (w.length - (mergeWord c1 c2 r maxLen prev w).1.length) ∧
    downN (mergeWord c1 c2 r maxLen prev w).2 ≤ 2 * (w.length - (mergeWord c1 c2 r maxLen prev w).1.length) ∧
    ∀ c ∈ (mergeWord c1 c2 r maxLen prev w).2, c.2 = 1 ∨ c.2 = -1
  | _, [], _, prev => by simp [mergeWord, upN, downN]
  | _, [a], _, prev => by simp [mergeWord, upN, downN]
  | 0, a :: b :: rest, h, prev => by simp at h
  | n + 1, a :: b :: rest, h, prev => by
    simp only [List.length_cons] at h
    unfold mergeWord
    split
    · have ih := mergeWord_bound c1 c2 r maxLen n rest (by omega) (some (r, a.2 + b.2))
      have hp := prevChanges_bound maxLen prev a (r, a.2 + b.2)
      have hn := nextChanges_bound maxLen b (r, a.2 + b.2) rest.head?
      simp only [List.length_cons, upN_append, downN_append, List.mem_append]
      obtain ⟨i1, i2, i3, i4⟩ := ih
      obtain ⟨p1, p2, p3⟩ := hp
      obtain ⟨n1, n2, n3⟩ := hn
      refine ⟨by omega, by omega, by omega, ?_⟩
      rintro c ((hc | hc) | hc)
      · exact p3 c hc
      · exact n3 c hc
      · exact i4 c hc
    · have ih := mergeWord_bound c1 c2 r maxLen n (b :: rest) (by simpa using h) (some a)
      simp only [List.length_cons] at ih ⊢
      obtain ⟨i1, i2, i3, i4⟩ := ih
      exact ⟨by omega, by omega, by omega, i4⟩

/-- How many symbols the words have, each as often as the word occurs. -/
def weight (counts : List Nat) (words : List (List Sym)) : Nat :=
  ((List.range words.length).map fun i => counts.getD i 0 * (words.getD i []).length).sum

theorem sum_le_of_nodup {f : Nat → Nat} : ∀ {l m : List Nat}, l.Nodup → (∀ x ∈ l, x ∈ m) → (l.map f).sum ≤ (m.map f).sum
  | [], m, _, _ => by simp
  | x :: l, m, hn, hm => by
    have hx := hm x (by simp)
    have hp : (m.map f).Perm ((x :: m.erase x).map f) := (List.perm_cons_erase hx).map f
    rw [hp.sum_nat, List.map_cons, List.map_cons, List.sum_cons, List.sum_cons]
    have := sum_le_of_nodup (f := f) (m := m.erase x) (List.nodup_cons.1 hn).2 (fun y hy => by
      rw [List.mem_erase_of_ne]
      · exact hm y (by simp [hy])
      · rintro rfl; exact (List.nodup_cons.1 hn).1 hy)
    omega

theorem ups_flatMap (counts : List Nat) (f : Nat → List (Pair × Int)) (pos : List Nat) :
    ups counts (pos.flatMap fun i => (f i).map fun ch => (ch, i)) = (pos.map fun i => counts.getD i 0 * upN (f i)).sum ∧
    downs counts (pos.flatMap fun i => (f i).map fun ch => (ch, i)) = (pos.map fun i => counts.getD i 0 * downN (f i)).sum := by
  induction pos with
  | nil => simp [ups, downs]
  | cons i pos ih =>
    have h1 : ∀ l : List (Pair × Int), ups counts (l.map fun ch => (ch, i)) = counts.getD i 0 * upN l := by
      intro l
      induction l with
      | nil => simp [ups, upN]
      | cons c l ih =>
        simp only [ups, upN, List.map_cons, List.sum_cons, Nat.mul_add] at ih ⊢
        rw [ih]
        split <;> simp
    have h2 : ∀ l : List (Pair × Int), downs counts (l.map fun ch => (ch, i)) = counts.getD i 0 * downN l := by
      intro l
      induction l with
      | nil => simp [downs, downN]
      | cons c l ih =>
        simp only [downs, downN, List.map_cons, List.sum_cons, Nat.mul_add] at ih ⊢
        rw [ih]
        split <;> simp
    have a1 : ∀ a b, ups counts (a ++ b) = ups counts a + ups counts b := by intro a b; simp [ups]
    have a2 : ∀ a b, downs counts (a ++ b) = downs counts a + downs counts b := by intro a b; simp [downs]
    rw [List.flatMap_cons, a1, a2, h1, h2, ih.1, ih.2]
    simp

theorem mergeAt_length (c1 c2 r : Nat) (maxLen : Option Nat) (words : List (List Sym)) (pos : List Nat) :
    (mergeAt c1 c2 r maxLen words pos).length = words.length := by simp [mergeAt]

theorem mergeAt_getD (c1 c2 r : Nat) (maxLen : Option Nat) (words : List (List Sym)) (pos : List Nat) (i : Nat) :
    (mergeAt c1 c2 r maxLen words pos).getD i [] =
      if i ∈ pos then (mergeWord c1 c2 r maxLen none (words.getD i [])).1 else words.getD i [] := by
  simp only [mergeAt, List.getD_eq_getElem?_getD, List.getElem?_map, List.getElem?_zipIdx]
  cases h : words[i]? with
  | none => simp [mergeWord]
  | some w => simp

theorem sum_map_add (l : List Nat) (f g : Nat → Nat) : (l.map fun i => f i + g i).sum = (l.map f).sum + (l.map g).sum := by
  induction l with
  | nil => rfl
  | cons a l ih => simp only [List.map_cons, List.sum_cons, ih]; omega

theorem sum_map_le {l : List Nat} {f g : Nat → Nat} (h : ∀ i ∈ l, f i ≤ g i) : (l.map f).sum ≤ (l.map g).sum := by
  induction l with
  | nil => simp
  | cons a l ih =>
    have := ih fun i hi => h i (List.mem_cons_of_mem _ hi)
    have := h a (by simp)
    simp only [List.map_cons, List.sum_cons]; omega

theorem merge_costs (counts : List Nat) (c1 c2 r : Nat) (maxLen : Option Nat) (words : List (List Sym)) {pos : List Nat}
    (hn : pos.Nodup) (hp : ∀ i ∈ pos, i < words.length) :
    weight counts (mergeAt c1 c2 r maxLen words pos) ≤ weight counts words ∧
    ups counts (changesAt c1 c2 r maxLen words pos) ≤
      2 * (weight counts words - weight counts (mergeAt c1 c2 r maxLen words pos)) ∧
    downs counts (changesAt c1 c2 r maxLen words pos) ≤
      2 * (weight counts words - weight counts (mergeAt c1 c2 r maxLen words pos)) ∧
    ∀ ch ∈ changesAt c1 c2 r maxLen words pos, ch.1.2 = 1 ∨ ch.1.2 = -1 := by
  let d : Nat → Nat := fun i => (words.getD i []).length - ((mergeAt c1 c2 r maxLen words pos).getD i []).length
  have hb := fun i => mergeWord_bound c1 c2 r maxLen _ (words.getD i []) (Nat.le_refl _) none
  have hle : ∀ i, ((mergeAt c1 c2 r maxLen words pos).getD i []).length ≤ (words.getD i []).length := by
    intro i
    rw [mergeAt_getD]
    split
    · exact (hb i).1
    · exact Nat.le_refl _
  have hw : weight counts words = weight counts (mergeAt c1 c2 r maxLen words pos) +
      ((List.range words.length).map fun i => counts.getD i 0 * d i).sum := by
    unfold weight
    rw [mergeAt_length, ← sum_map_add]
    congr 1
    refine List.map_congr_left fun i _ => ?_
    rw [← Nat.mul_add]
    congr 1
    have := hle i
    show _ = _ + ((words.getD i []).length - ((mergeAt c1 c2 r maxLen words pos).getD i []).length)
    omega
  have hd : ∀ i ∈ pos, d i = (words.getD i []).length - (mergeWord c1 c2 r maxLen none (words.getD i [])).1.length := by
    intro i hi
    show (words.getD i []).length - ((mergeAt c1 c2 r maxLen words pos).getD i []).length = _
    rw [mergeAt_getD, if_pos hi]
  have hs : (pos.map fun i => counts.getD i 0 * d i).sum ≤ ((List.range words.length).map fun i => counts.getD i 0 * d i).sum :=
    sum_le_of_nodup hn fun i hi => List.mem_range.2 (hp i hi)
  have hdouble : ∀ g : Nat → Nat, (∀ i ∈ pos, g i ≤ 2 * d i) →
      (pos.map fun i => counts.getD i 0 * g i).sum ≤ 2 * (pos.map fun i => counts.getD i 0 * d i).sum := by
    intro g hg
    have : (pos.map fun i => counts.getD i 0 * g i).sum ≤ (pos.map fun i => counts.getD i 0 * d i + counts.getD i 0 * d i).sum := by
      refine sum_map_le fun i hi => ?_
      rw [← Nat.mul_add]
      exact Nat.mul_le_mul_left _ (by have := hg i hi; omega)
    rw [sum_map_add] at this
    omega
  have hf := ups_flatMap counts (fun i => (mergeWord c1 c2 r maxLen none (words.getD i [])).2) pos
  refine ⟨by omega, ?_, ?_, ?_⟩
  · unfold changesAt
    rw [hf.1]
    have := hdouble (fun i => upN (mergeWord c1 c2 r maxLen none (words.getD i [])).2) fun i hi => by
      rw [hd i hi]; exact (hb i).2.1
    omega
  · unfold changesAt
    rw [hf.2]
    have := hdouble (fun i => downN (mergeWord c1 c2 r maxLen none (words.getD i [])).2) fun i hi => by
      rw [hd i hi]; exact (hb i).2.2.1
    omega
  · intro ch hch
    obtain ⟨i, _, h⟩ := List.mem_flatMap.1 hch
    obtain ⟨c, hc, rfl⟩ := List.mem_map.1 h
    exact (hb i).2.2.2 c hc

/-! ## The two trainings are the same -/

/-- The words have `n0` symbols at first; each merge costs at most two changes up and two down. -/
structure Small (counts : List Nat) (n0 : Nat) (s : St) : Prop where
  weight : weight counts s.words ≤ n0
  bounded : Bounded s.pc (2 * (n0 - Train.weight counts s.words)) (n0 + 2 * (n0 - Train.weight counts s.words))
  pos : ∀ e ∈ s.queue, e.pos.Nodup

theorem addPos_nodup {m : AMap Pair (List Nat)} (h : ∀ p ∈ m, p.2.Nodup) (q : Pair) (i : Nat) : ∀ p ∈ addPos m q i, p.2.Nodup := by
  intro p hp
  unfold addPos at hp
  have hl : ((m.get q).getD []).Nodup := by
    cases hg : m.get q with
    | none => simp
    | some l => exact h _ (AMap.mem_of_get_eq_some hg)
  rcases AMap.mem_insert hp with rfl | hp
  · simp only
    split
    · exact hl
    · rename_i hi
      exact List.nodup_cons.2 ⟨hi, hl⟩
  · exact h p hp

theorem foldl_nodup (counts : List Nat) : ∀ (l : List ((Pair × Int) × Nat)) (st : Stats), (∀ p ∈ st.2, p.2.Nodup) →
    ∀ p ∈ (l.foldl (applyChange counts) st).2, p.2.Nodup
  | [], _, h => h
  | ch :: l, st, h => by
    refine foldl_nodup counts l (applyChange counts st ch) ?_
    unfold applyChange
    simp only
    split
    · exact addPos_nodup h _ _
    · exact h

theorem pushAll_posNodup {st : Stats} {q : List Entry} (h1 : ∀ p ∈ st.2, p.2.Nodup) (h2 : ∀ e ∈ q, e.pos.Nodup) :
    ∀ e ∈ pushAll st q, e.pos.Nodup := by
  intro e he
  rcases List.mem_append.1 he with he | he
  · obtain ⟨p, hp, h⟩ := List.mem_filterMap.1 he
    split at h
    · split at h
      · cases h; exact h1 p hp
      · cases h
    · cases h
  · exact h2 e he

theorem popMax_mem {e : Entry} : ∀ {q q' : List Entry}, popMax q = some (e, q') → ∀ x, x ∈ e :: q' → x ∈ q
  | [], _, h, _, _ => by cases h
  | f :: q, q', h, x, hx => by
    unfold popMax at h
    cases hq : popMax q with
    | none =>
      rw [hq] at h
      cases h
      simp at hx
      simp [hx]
    | some r =>
      obtain ⟨m, q1⟩ := r
      rw [hq] at h
      have ih := popMax_mem hq
      simp only at h
      split at h <;> cases h
      · rcases List.mem_cons.1 hx with rfl | hx
        · simp
        · exact List.mem_cons_of_mem _ (ih x hx)
      · rcases List.mem_cons.1 hx with rfl | hx
        · exact List.mem_cons_of_mem _ (ih x (by simp))
        · rcases List.mem_cons.1 hx with rfl | hx
          · simp
          · exact List.mem_cons_of_mem _ (ih x (by simp [hx]))

theorem doMerge32_eq {ar : CountArith} (har : ar.Exact) {cfg : BpeCfg} {counts : List Nat} {n0 : Nat} (hn : 3 * n0 < 2 ^ 31) {s : St}
    (hs : Small counts n0 s) {top : Entry} {q : List Entry} (ht : top.pos.Nodup) (hq : ∀ e ∈ q, e.pos.Nodup) :
    doMerge32 ar cfg counts s top q = doMerge cfg counts s top q ∧
      ∀ s', doMerge cfg counts s top q = .more s' → Small counts n0 s' := by
  unfold doMerge32 doMerge
  cases ha : s.voc.id2w[top.pair.1]? with
  | none => exact ⟨rfl, fun _ h => by cases h⟩
  | some a =>
  cases hb : s.voc.id2w[top.pair.2]? with
  | none => exact ⟨rfl, fun _ h => by cases h⟩
  | some b =>
    simp only
    by_cases hall : (top.pos.all fun x => decide (x < s.words.length)) = true
    · rw [if_pos hall, if_pos hall]
      obtain ⟨k1, k2, k3, k4⟩ := merge_costs counts top.pair.1 top.pair.2
        ((s.voc.w2id.get (a ++ stripPre cfg.pre b)).getD s.voc.id2w.length) cfg.maxLen s.words ht
        (fun i hi => by simpa using List.all_eq_true.1 hall i hi)
      have hw := hs.weight
      obtain ⟨e1, e2⟩ := applyAll32_eq har (counts := counts) (changesAt top.pair.1 top.pair.2
        ((s.voc.w2id.get (a ++ stripPre cfg.pre b)).getD s.voc.id2w.length) cfg.maxLen s.words top.pos) (s.pc, []) _ _ k4
        hs.bounded (by omega) (by omega)
      rw [e1]
      refine ⟨rfl, fun s' h => ?_⟩
      cases h
      refine ⟨by simp only; omega, ?_, pushAll_posNodup (foldl_nodup counts _ _ (by simp)) hq⟩
      intro p
      have := e2 p
      simp only at this ⊢
      omega
    · rw [if_neg hall, if_neg hall]
      exact ⟨rfl, fun _ h => by cases h⟩

theorem step32_eq {ar : CountArith} (har : ar.Exact) {cfg : BpeCfg} {counts : List Nat} {n0 : Nat} (hn : 3 * n0 < 2 ^ 31) {s : St}
    (hs : Small counts n0 s) : step32 ar cfg counts s = step cfg counts s ∧
      ∀ s', step cfg counts s = .more s' → Small counts n0 s' := by
  unfold step32 step
  by_cases h0 : s.voc.w2id.length ≥ cfg.vocabSize
  · rw [if_pos h0, if_pos h0]
    exact ⟨rfl, fun _ h => by cases h⟩
  · rw [if_neg h0, if_neg h0]
    cases hpop : popMax s.queue with
    | none => exact ⟨rfl, fun _ h => by cases h⟩
    | some x =>
      obtain ⟨top, q⟩ := x
      have hm := popMax_mem hpop
      simp only
      cases hg : s.pc.get top.pair with
      | none => exact ⟨rfl, fun _ h => by cases h⟩
      | some c =>
        simp only
        by_cases h1 : top.count ≠ toU64 c
        · rw [if_pos h1, if_pos h1]
          refine ⟨rfl, fun _ h => ?_⟩
          cases h
          refine ⟨hs.weight, hs.bounded, fun e he => ?_⟩
          rcases List.mem_cons.1 he with rfl | he
          · exact hs.pos top (hm _ (by simp))
          · exact hs.pos e (hm _ (by simp [he]))
        · rw [if_neg h1, if_neg h1]
          by_cases h2 : top.count < 1 ∨ cfg.minFrequency > top.count
          · rw [if_pos h2, if_pos h2]
            exact ⟨rfl, fun _ h => by cases h⟩
          · rw [if_neg h2, if_neg h2]
            exact doMerge32_eq har hn hs (hs.pos top (hm _ (by simp))) (q := q) fun e he => hs.pos e (hm _ (by simp [he]))

theorem loop32_eq {ar : CountArith} (har : ar.Exact) {cfg : BpeCfg} {counts : List Nat} {n0 : Nat} (hn : 3 * n0 < 2 ^ 31) :
    ∀ (fuel : Nat) {s : St}, Small counts n0 s → loop32 ar cfg counts fuel s = loop cfg counts fuel s
  | 0, _, _ => rfl
  | fuel + 1, s, hs => by
    obtain ⟨h1, h2⟩ := step32_eq har (cfg := cfg) hn hs
    rw [loop32, loop, h1]
    cases h : step cfg counts s with
    | panic => rfl
    | stop s' => rfl
    | more s' => exact loop32_eq har hn fuel (h2 s' h)

/-- The number of characters of the words, each as often as the word occurs. -/
def characters (wc : AMap Str Nat) : Nat := (wc.map fun p => p.2 * p.1.length).sum

theorem tokenizeChars_length (cfg : BpeCfg) : ∀ (first : Bool) (w : Str) (v : Voc), (tokenizeChars cfg first w v).2.length ≤ w.length
  | _, [], _ => Nat.le_refl _
  | first, c :: w, v => by
    unfold tokenizeChars
    split
    · exact Nat.le_succ_of_le (tokenizeChars_length cfg false w v)
    · exact Nat.succ_le_succ (tokenizeChars_length cfg false w _)

theorem tokenizeWords_length (cfg : BpeCfg) : ∀ (wc : AMap Str Nat) (v : Voc),
    (tokenizeWords cfg wc v).2.length = wc.length ∧
      ∀ i, ((tokenizeWords cfg wc v).2.getD i []).length ≤ ((wc.map (·.1)).getD i []).length
  | [], _ => ⟨rfl, fun _ => by simp [tokenizeWords]⟩
  | (w, n) :: wc, v => by
    obtain ⟨h1, h2⟩ := tokenizeWords_length cfg wc (tokenizeChars cfg true w v).1
    unfold tokenizeWords
    refine ⟨by simp only [List.length_cons, h1], fun i => ?_⟩
    cases i with
    | zero => exact tokenizeChars_length cfg true w v
    | succ i => exact h2 i

theorem range_sum {β : Type} (f : β → Nat) (z : β) (l : List β) : ((List.range l.length).map fun i => f (l.getD i z)).sum = (l.map f).sum := by
  congr 1
  refine List.ext_getElem (by simp) fun i h1 h2 => ?_
  simp at h1 h2 ⊢
  rw [List.getElem?_eq_getElem h1]; rfl

theorem start_weight (cfg : BpeCfg) (wc : AMap Str Nat) (v : Voc) :
    weight (wc.map (·.2)) (tokenizeWords cfg wc v).2 ≤ characters wc := by
  obtain ⟨h1, h2⟩ := tokenizeWords_length cfg wc v
  unfold weight characters
  rw [h1, ← range_sum _ ([], 0) wc]
  refine sum_map_le fun i hi => ?_
  have := h2 i
  have hi := List.mem_range.1 hi
  simp only [List.getD_eq_getElem?_getD, List.getElem?_map, List.getElem?_eq_getElem hi, Option.map_some, Option.getD_some] at this ⊢
  exact Nat.mul_le_mul_left _ this

theorem windows_length : ∀ w : List Sym, (windows w).length ≤ w.length
  | [] => by simp [windows]
  | [_] => by simp [windows]
  | a :: b :: w => by
    have := windows_length (b :: w)
    simp only [windows, List.length_cons] at this ⊢
    omega

theorem ones : ∀ l : List Pair, upN (l.map fun q => (q, 1)) = l.length ∧ downN (l.map fun q => (q, 1)) = 0
  | [] => ⟨rfl, rfl⟩
  | a :: l => by
    obtain ⟨h1, h2⟩ := ones l
    simp only [upN, downN, List.map_cons, List.sum_cons, List.length_cons] at h1 h2 ⊢
    rw [h1, h2]
    simp
    omega

theorem start_ups (counts : List Nat) (words : List (List Sym)) :
    ups counts (words.zipIdx.flatMap fun p => (windows p.1).map fun q => ((q, 1), p.2)) ≤ weight counts words ∧
    downs counts (words.zipIdx.flatMap fun p => (windows p.1).map fun q => ((q, 1), p.2)) = 0 := by
  have hz : words.zipIdx = (List.range words.length).map fun i => (words.getD i [], i) := by
    refine List.ext_getElem (by simp) fun i h1 h2 => ?_
    simp at h1 h2 ⊢
    rw [List.getElem?_eq_getElem h1]; rfl
  have e : (words.zipIdx.flatMap fun p => (windows p.1).map fun q => (((q, 1), p.2) : (Pair × Int) × Nat)) =
      (List.range words.length).flatMap fun i => ((windows (words.getD i [])).map fun q => ((q, 1) : Pair × Int)).map fun ch => (ch, i) := by
    rw [hz, List.flatMap_map]
    simp [List.map_map, Function.comp_def]
  rw [e, (ups_flatMap counts (fun i => (windows (words.getD i [])).map fun q => (q, 1)) _).1,
    (ups_flatMap counts (fun i => (windows (words.getD i [])).map fun q => (q, 1)) _).2]
  constructor
  · refine sum_map_le fun i _ => Nat.mul_le_mul_left _ ?_
    refine Nat.le_trans ?_ (windows_length _)
    rw [(ones _).1]
    exact Nat.le_refl _
  · induction List.range words.length with
    | nil => rfl
    | cons i l ih =>
      rw [List.map_cons, List.sum_cons, ih, (ones _).2]
      rfl

/-- **C74.** If the words have, each as often as it occurs, fewer than `2 ^ 31 / 3` characters together, then training with
32-bit counts is training with exact counts: nothing overflows, whatever an overflow does. -/
theorem C74_exact {ar : CountArith} (har : ar.Exact) (cfg : BpeCfg) (order : AMap Char Nat → AMap Char Nat) (wc : AMap Str Nat)
    (hn : 3 * characters wc < 2 ^ 31) (fuel : Nat) :
    train32 ar cfg order wc fuel = loop cfg (wc.map (·.2)) fuel (start cfg order wc) := by
  have hw := start_weight cfg wc (alphabetVoc cfg order wc)
  obtain ⟨u1, u2⟩ := start_ups (wc.map (·.2)) (tokenizeWords cfg wc (alphabetVoc cfg order wc)).2
  obtain ⟨e1, e2⟩ := applyAll32_eq har (counts := wc.map (·.2))
    ((tokenizeWords cfg wc (alphabetVoc cfg order wc)).2.zipIdx.flatMap fun p => (windows p.1).map fun q => ((q, 1), p.2))
    ([], []) 0 0 (by
      intro ch hch
      obtain ⟨p, _, h⟩ := List.mem_flatMap.1 hch
      obtain ⟨q, _, rfl⟩ := List.mem_map.1 h
      exact .inl rfl) (by intro p; simp [AMap.get]) (by omega) (by omega)
  have hst : start32 ar cfg order wc = some (start cfg order wc) := by
    rw [start_eq]
    unfold start32
    show (match countPairs32 ar (tokenizeWords cfg wc (alphabetVoc cfg order wc)).2 (wc.map (·.2)) with
      | some st => some _
      | none => none) = _
    unfold countPairs32
    rw [e1]
    rfl
  unfold train32
  rw [hst]
  refine loop32_eq har (n0 := Train.weight (wc.map (·.2)) (start cfg order wc).words) ?_ fuel ?_
  · rw [start_eq]; simp only; omega
  · refine ⟨Nat.le_refl _, ?_, ?_⟩
    · rw [start_eq]
      simp only [Nat.sub_self]
      intro p
      have := e2 p
      unfold countPairs
      omega
    · rw [start_eq]
      exact pushAll_posNodup (st := countPairs _ _) (foldl_nodup _ _ ([], []) (by simp)) (by simp)

/-- **C74.** Such a corpus is trained on as the textbook says, in both builds. -/
theorem C74_textbook {ar : CountArith} (har : ar = wrapping ∨ ar = checked) {cfg : BpeCfg} {order : AMap Char Nat → AMap Char Nat}
    {wc : AMap Str Nat} (hsep : Separated cfg wc) (hn : 3 * characters wc < 2 ^ 31) :
    ∃ s k, (∀ fuel, k ≤ fuel → train32 ar cfg order wc fuel = .stop s) ∧
      Greedy cfg (wc.map (·.2)) (start cfg order wc).voc.id2w (start cfg order wc).words s.merges s.voc.id2w s.words := by
  have har : ar.Exact := by
    rcases har with rfl | rfl
    · exact wrapping_exact
    · exact checked_exact
  obtain ⟨s, ⟨k, hk⟩, h⟩ := C41_textbook (order := order) hsep
  exact ⟨s, k, fun fuel hf => by rw [C74_exact har cfg order wc hn, hk fuel hf], h⟩

/-! ## Beyond the bound -/

/-- What is left at the end; `some none` is a panic. -/
def outcome32 (ar : CountArith) (cfg : BpeCfg) (wc : AMap Str Nat) (fuel : Nat) : Option (Option (List (Pair × Nat))) :=
  match train32 ar cfg id wc fuel with
  | .stop s => some (some s.merges)
  | .panic => some none
  | .more _ => none

/-- **C74, finding.** A word that occurs `2 ^ 31` times has a negative count: its pairs are not merged at all, in neither
build, and there is no error. With exact counts they are. -/
theorem C74_lost : outcome32 wrapping (plainCfg 10) [(['a', 'b'], 2 ^ 31)] 20 = some (some []) ∧
    outcome32 checked (plainCfg 10) [(['a', 'b'], 2 ^ 31)] 20 = some (some []) ∧
    (outcome (plainCfg 10) [(['a', 'b'], 2 ^ 31)] 20).map (·.2.2) = some [((0, 1), 2)] := by
  refine ⟨?_, ?_, ?_⟩ <;> decide +kernel

/-- **C74, finding.** A pair that two words have `2 ^ 30` times each: the sum is negative in one build, a panic in the
other. -/
theorem C74_sum : outcome32 wrapping (plainCfg 4) [(['a', 'b'], 2 ^ 30), (['a', 'b', 'c'], 2 ^ 30)] 20 = some (some [((1, 2), 3)]) ∧
    outcome32 checked (plainCfg 4) [(['a', 'b'], 2 ^ 30), (['a', 'b', 'c'], 2 ^ 30)] 20 = some none ∧
    (outcome (plainCfg 4) [(['a', 'b'], 2 ^ 30), (['a', 'b', 'c'], 2 ^ 30)] 20).map (·.2.2) = some [((0, 1), 3)] := by
  refine ⟨?_, ?_, ?_⟩ <;> decide +kernel

/-- **C74, finding.** Counts are cut to 32 bits: of `ab`, `2 ^ 32 + 1` times, and `cd`, twice, `cd` is merged first. -/
theorem C74_cut : outcome32 wrapping (plainCfg 5) [(['a', 'b'], 2 ^ 32 + 1), (['c', 'd'], 2)] 20 = some (some [((2, 3), 4)]) ∧
    (outcome (plainCfg 5) [(['a', 'b'], 2 ^ 32 + 1), (['c', 'd'], 2)] 20).map (·.2.2) = some [((0, 1), 4)] := by
  refine ⟨?_, ?_⟩ <;> decide +kernel

/-- The corpus of the earlier examples is within the bound, and still is a million times. -/
example : 3 * characters hugCounts < 2 ^ 31 ∧ 3 * characters (hugCounts.map fun p => (p.1, 1000000 * p.2)) < 2 ^ 31 := by
  decide +kernel

example : ∃ s k, (∀ fuel, k ≤ fuel → train32 wrapping (plainCfg 10) id hugCounts fuel = .stop s) ∧
    Greedy (plainCfg 10) (hugCounts.map (·.2)) (start (plainCfg 10) id hugCounts).voc.id2w (start (plainCfg 10) id hugCounts).words
      s.merges s.voc.id2w s.words := C74_textbook (.inl rfl) (hug_separated 10) (by decide +kernel)

end Tok.Train
