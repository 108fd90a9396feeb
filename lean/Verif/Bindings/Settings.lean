import Verif.Encoding.Model

/-!
# C87: truncation and padding as set from Python and Node

Python: `bindings/python/src/tokenizer.rs:931-1147`, keyword arguments and the dictionaries given back. Node:
`bindings/node/src/tokenizer.rs:15-140, 389-433`, `bindings/node/src/encoding.rs:30-75, 195-236`.
-/

namespace Tok.Py

open Encoding

/-! ## Python values -/

/-- Python objects, as far as they matter here. -/
inductive PyVal where
  | none
  | bool (b : Bool)
  | int (n : Int)
  | str (s : Str)
  | other
deriving DecidableEq

/-- `extract::<u32>` and `extract::<usize>` (`pyo3`): an integer in range; `bool` is a subclass of `int`. -/
def PyVal.asNat (bound : Nat) : PyVal → Option Nat
  | .int (.ofNat n) => if n < bound then some n else Option.none
  | .bool b => some b.toNat
  | _ => Option.none

/-- `extract::<String>`. -/
def PyVal.asStr : PyVal → Option Str
  | .str s => some s
  | _ => Option.none

/-- `extract::<Option<usize>>`. -/
def PyVal.asOptNat (bound : Nat) : PyVal → Option (Option Nat)
  | .none => some Option.none
  | v => (v.asNat bound).map some

/-- Keyword arguments, in the order in which they are given. -/
abbrev Kwargs := List (Str × PyVal)

/-! ## Padding -/

/-- `"left"`, `"right"` (`tokenizer.rs:1058-1066`, `:963-971`). -/
def directionOf (s : Str) : Option Direction :=
  if s = "left".toList then some .left else if s = "right".toList then some .right else Option.none

/-- `PaddingParams::default` (`utils/padding.rs:31-42`). -/
def padDefault : PadParams := ⟨.batchLongest, .right, Option.none, ⟨0, 0, "[PAD]".toList⟩⟩

/-- What `length` (and `max_length`) says: `None` is the longest of the batch (`tokenizer.rs:1080-1096`). -/
def padStrategyOf (v : PyVal) : Option PadStrategy :=
  (v.asOptNat (2 ^ 64)).map fun
    | some l => .fixed l
    | Option.none => .batchLongest

/-- One keyword argument of `enable_padding` (`tokenizer.rs:1053-1099`); `none` is an exception. -/
def padStep (p : PadParams) (kv : Str × PyVal) : Option PadParams :=
  if kv.1 = "direction".toList then (kv.2.asStr.bind directionOf).map fun d => { p with direction := d }
  else if kv.1 = "pad_to_multiple_of".toList then
    (kv.2.asOptNat (2 ^ 64)).map fun
      | some m => { p with multipleOf := some m }
      | Option.none => p
  else if kv.1 = "pad_id".toList then (kv.2.asNat (2 ^ 32)).map fun n => { p with pt := { p.pt with id := n } }
  else if kv.1 = "pad_type_id".toList then (kv.2.asNat (2 ^ 32)).map fun n => { p with pt := { p.pt with typeId := n } }
  else if kv.1 = "pad_token".toList then kv.2.asStr.map fun s => { p with pt := { p.pt with token := s } }
  else if kv.1 = "max_length".toList then (padStrategyOf kv.2).map fun s => { p with strategy := s }
  else if kv.1 = "length".toList then (padStrategyOf kv.2).map fun s => { p with strategy := s }
  else some p

/-- `enable_padding` (`tokenizer.rs:1049-1104`): the parameters that are set; `none`: an exception, nothing is set. -/
def enablePadding (kw : Kwargs) : Option PadParams := kw.foldlM padStep padDefault

/-- `as_ref` of the directions (`utils/padding.rs:12-19`, `utils/truncation.rs:13-20`). -/
def directionName : Direction → Str
  | .left => "left".toList
  | .right => "right".toList

/-- `Option<usize>` in Python. -/
def ofOptNat : Option Nat → PyVal
  | Option.none => .none
  | some n => .int n

/-- The property `padding` (`tokenizer.rs:1119-1147`). -/
def getPadding (p : PadParams) : Kwargs :=
  [("length".toList, match p.strategy with | .batchLongest => .none | .fixed n => .int n),
   ("pad_to_multiple_of".toList, ofOptNat p.multipleOf), ("pad_id".toList, .int p.pt.id), ("pad_token".toList, .str p.pt.token),
   ("pad_type_id".toList, .int p.pt.typeId), ("direction".toList, .str (directionName p.direction))]

/-! ## Truncation -/

/-- `tokenizer.rs:950-961`. -/
def strategyOf (s : Str) : Option TruncStrategy :=
  if s = "longest_first".toList then some .longestFirst
  else if s = "only_first".toList then some .onlyFirst
  else if s = "only_second".toList then some .onlySecond
  else Option.none

/-- One keyword argument of `enable_truncation` (`tokenizer.rs:943-977`). -/
def truncStep (t : TruncParams) (kv : Str × PyVal) : Option TruncParams :=
  if kv.1 = "stride".toList then (kv.2.asNat (2 ^ 64)).map fun n => { t with stride := n }
  else if kv.1 = "strategy".toList then (kv.2.asStr.bind strategyOf).map fun s => { t with strategy := s }
  else if kv.1 = "direction".toList then (kv.2.asStr.bind directionOf).map fun d => { t with direction := d }
  else some t

/-- `enable_truncation` (`tokenizer.rs:931-977`) up to the check of `with_truncation` (`Post/Process`,
`Settings.truncationOk`). -/
def enableTruncation (maxLength : Nat) (kw : Kwargs) : Option TruncParams :=
  kw.foldlM truncStep ⟨maxLength, .longestFirst, 0, .right⟩

/-- `as_ref` of `TruncationStrategy` (`utils/truncation.rs:60-68`). -/
def strategyName : TruncStrategy → Str
  | .longestFirst => "longest_first".toList
  | .onlyFirst => "only_first".toList
  | .onlySecond => "only_second".toList

/-- The property `truncation` (`tokenizer.rs:1005-1020`), but `max_length`. -/
def getTruncation (t : TruncParams) : Kwargs :=
  [("stride".toList, .int t.stride), ("strategy".toList, .str (strategyName t.strategy)),
   ("direction".toList, .str (directionName t.direction))]

/-! ## The spec -/

/-- The value given last among those that `sel` selects. -/
def given (sel : Str × PyVal → Bool) : Kwargs → Option PyVal
  | [] => none
  | kv :: l => (given sel l).or (if sel kv then some kv.2 else none)

/-- Under this name. -/
def named (k : String) (kv : Str × PyVal) : Bool := kv.1 = k.toList

/-- `v` is the number `n`. -/
def IsNum (v : PyVal) (n : Nat) : Prop := v = .int n ∨ (v = .bool false ∧ n = 0) ∨ (v = .bool true ∧ n = 1)

/-- `v` names the direction `d`. -/
def IsDir (v : PyVal) (d : Direction) : Prop :=
  (v = .str "left".toList ∧ d = .left) ∨ (v = .str "right".toList ∧ d = .right)

/-- `v` names the strategy `s`. -/
def IsStrategy (v : PyVal) (s : TruncStrategy) : Prop :=
  (v = .str "longest_first".toList ∧ s = .longestFirst) ∨ (v = .str "only_first".toList ∧ s = .onlyFirst) ∨
  (v = .str "only_second".toList ∧ s = .onlySecond)

/-- What was given is what the field says; nothing given: the default. -/
def Says (o : Option PyVal) (dflt : α) (is : PyVal → α → Prop) (a : α) : Prop :=
  match o with
  | none => a = dflt
  | some v => is v a

/-- The settings are what the arguments say. -/
structure PaddingSaid (kw : Kwargs) (p : PadParams) : Prop where
  direction : Says (given (named "direction") kw) .right IsDir p.direction
  padId : Says (given (named "pad_id") kw) 0 IsNum p.pt.id
  typeId : Says (given (named "pad_type_id") kw) 0 IsNum p.pt.typeId
  token : Says (given (named "pad_token") kw) "[PAD]".toList (fun v s => v = .str s) p.pt.token
  /-- `None` is the same as not given. -/
  multiple : Says (given (fun kv => named "pad_to_multiple_of" kv && kv.2 ≠ .none) kw) none
    (fun v m => ∃ n, m = some n ∧ IsNum v n) p.multipleOf
  /-- `max_length` is an old name of `length`; `None` is the longest of the batch. -/
  strategy : Says (given (fun kv => named "length" kv || named "max_length" kv) kw) .batchLongest
    (fun v s => (v = .none ∧ s = .batchLongest) ∨ ∃ n, s = .fixed n ∧ IsNum v n) p.strategy

/-- An argument with a value that is refused. -/
def BadPadding (kv : Str × PyVal) : Prop :=
  (named "direction" kv ∧ ¬ ∃ d, IsDir kv.2 d) ∨ (named "pad_id" kv ∧ ¬ ∃ n < 2 ^ 32, IsNum kv.2 n) ∨
  (named "pad_type_id" kv ∧ ¬ ∃ n < 2 ^ 32, IsNum kv.2 n) ∨ (named "pad_token" kv ∧ ¬ ∃ s, kv.2 = .str s) ∨
  ((named "pad_to_multiple_of" kv ∨ named "length" kv ∨ named "max_length" kv) ∧ kv.2 ≠ .none ∧ ¬ ∃ n < 2 ^ 64, IsNum kv.2 n)

/-- The settings are what the arguments say. -/
structure TruncationSaid (maxLength : Nat) (kw : Kwargs) (t : TruncParams) : Prop where
  maxLength : t.maxLength = maxLength
  stride : Says (given (named "stride") kw) 0 IsNum t.stride
  strategy : Says (given (named "strategy") kw) .longestFirst IsStrategy t.strategy
  direction : Says (given (named "direction") kw) .right IsDir t.direction

/-- An argument with a value that is refused. -/
def BadTruncation (kv : Str × PyVal) : Prop :=
  (named "stride" kv ∧ ¬ ∃ n < 2 ^ 64, IsNum kv.2 n) ∨ (named "strategy" kv ∧ ¬ ∃ s, IsStrategy kv.2 s) ∨
  (named "direction" kv ∧ ¬ ∃ d, IsDir kv.2 d)

/-! ## Proofs -/

theorem asNat_some {b : Nat} {v : PyVal} {n : Nat} (hb : 1 < b) : v.asNat b = some n ↔ n < b ∧ IsNum v n := by
  unfold PyVal.asNat IsNum
  cases v with
  | int k =>
    cases k with
    | ofNat m =>
      by_cases h : m < b
      · simp [h]; constructor
        · rintro rfl; exact ⟨h, rfl⟩
        · rintro ⟨-, h⟩; omega
      · simp [h]; omega
    | negSucc m => simp
  | bool x => cases x <;> simp <;> omega
  | _ => simp

theorem directionOf_some {v : PyVal} {d : Direction} : v.asStr.bind directionOf = some d ↔ IsDir v d := by
  unfold IsDir
  cases v with
  | str s =>
    simp only [PyVal.asStr, Option.bind_some, directionOf, PyVal.str.injEq]
    split
    · subst s; cases d <;> simp
    · split
      · subst s; cases d <;> simp
      · simp_all
  | _ => simp [PyVal.asStr]

theorem strategyOf_some {v : PyVal} {d : TruncStrategy} : v.asStr.bind strategyOf = some d ↔ IsStrategy v d := by
  unfold IsStrategy
  cases v with
  | str s =>
    simp only [PyVal.asStr, Option.bind_some, strategyOf, PyVal.str.injEq]
    split
    · subst s; cases d <;> simp
    · split
      · subst s; cases d <;> simp
      · split
        · subst s; cases d <;> simp
        · simp_all
  | _ => simp [PyVal.asStr]

/-- The projection of a fold is what was given last. -/
theorem foldlM_given {P β : Type} {step : P → Str × PyVal → Option P} (π : P → β) (sel : Str × PyVal → Bool)
    (is : PyVal → β → Prop) (h1 : ∀ p kv p', step p kv = some p' → sel kv = true → is kv.2 (π p'))
    (h2 : ∀ p kv p', step p kv = some p' → sel kv = false → π p' = π p) :
    ∀ (kw : Kwargs) (p p' : P), kw.foldlM step p = some p' → Says (given sel kw) (π p) is (π p')
  | [], p, p', h => by
    cases h
    exact rfl
  | kv :: l, p, p', h => by
    rw [List.foldlM_cons] at h
    obtain ⟨q, hq, h⟩ := Option.bind_eq_some_iff.1 h
    have ih := foldlM_given π sel is h1 h2 l q p' h
    unfold given
    cases hg : given sel l with
    | some v =>
      rw [hg] at ih
      exact ih
    | none =>
      rw [hg] at ih
      cases hs : sel kv with
      | true =>
        show is kv.2 (π p')
        rw [show π p' = π q from ih]
        exact h1 _ _ _ hq hs
      | false =>
        show π p' = π p
        rw [show π p' = π q from ih]
        exact h2 _ _ _ hq hs

/-- A fold whose steps fail on the same arguments whatever the state. -/
theorem foldlM_none {P : Type} {step : P → Str × PyVal → Option P} {bad : Str × PyVal → Prop}
    (h : ∀ p kv, step p kv = none ↔ bad kv) : ∀ (kw : Kwargs) (p : P), kw.foldlM step p = none ↔ ∃ kv ∈ kw, bad kv
  | [], p => by simp
  | kv :: l, p => by
    rw [List.foldlM_cons]
    cases hs : step p kv with
    | none => simp [(h p kv).1 hs]
    | some q =>
      have : ¬ bad kv := fun hb => by rw [(h p kv).2 hb] at hs; cases hs
      simp [foldlM_none h l q, this]

theorem map_none {α β : Type} {o : Option α} {f : α → β} : o.map f = none ↔ ¬ ∃ a, o = some a := by
  cases o <;> simp

theorem asNat_none {b : Nat} {v : PyVal} (hb : 1 < b) : (¬ ∃ n, v.asNat b = some n) ↔ ¬ ∃ n < b, IsNum v n := by
  simp only [asNat_some hb]

theorem asOptNat_some {b : Nat} {v : PyVal} {m : Option Nat} (hb : 1 < b) : v.asOptNat b = some m ↔
    (v = .none ∧ m = none) ∨ ∃ n, m = some n ∧ n < b ∧ IsNum v n := by
  unfold PyVal.asOptNat
  split
  · simp [IsNum, eq_comm]
  · rename_i h
    simp only [Option.map_eq_some_iff, asNat_some hb]
    constructor
    · rintro ⟨n, h1, rfl⟩; exact .inr ⟨n, rfl, h1⟩
    · rintro (⟨h1, -⟩ | ⟨n, rfl, h1⟩)
      · exact absurd h1 h
      · exact ⟨n, h1, rfl⟩

/-- The names are different. -/
theorem pad_names : (["direction", "pad_to_multiple_of", "pad_id", "pad_type_id", "pad_token", "max_length", "length"].map
    String.toList).Nodup := by decide

theorem asOptNat_none {b : Nat} {v : PyVal} (hb : 1 < b) : (¬ ∃ m, v.asOptNat b = some m) ↔
    v ≠ .none ∧ ¬ ∃ n < b, IsNum v n := by
  simp only [asOptNat_some hb]
  constructor
  · intro h
    exact ⟨fun e => h ⟨none, .inl ⟨e, rfl⟩⟩, fun ⟨n, h1, h2⟩ => h ⟨some n, .inr ⟨n, rfl, h1, h2⟩⟩⟩
  · rintro ⟨h1, h2⟩ ⟨m, ⟨h, -⟩ | ⟨n, -, h3, h4⟩⟩
    · exact h1 h
    · exact h2 ⟨n, h3, h4⟩

theorem padStrategyOf_none {v : PyVal} : (¬ ∃ m, padStrategyOf v = some m) ↔ v ≠ .none ∧ ¬ ∃ n < 2 ^ 64, IsNum v n := by
  rw [← asOptNat_none (by omega)]
  unfold padStrategyOf
  cases v.asOptNat (2 ^ 64) <;> simp

theorem asStr_none {v : PyVal} : (¬ ∃ s, v.asStr = some s) ↔ ¬ ∃ s, v = .str s := by
  cases v <;> simp [PyVal.asStr]

theorem padStep_none (p : PadParams) (kv : Str × PyVal) : padStep p kv = none ↔ BadPadding kv := by
  obtain ⟨k, v⟩ := kv
  unfold padStep BadPadding named
  dsimp only
  have hn := pad_names
  simp only [List.map_cons, List.map_nil, List.nodup_cons, List.mem_cons, List.not_mem_nil, or_false, not_or] at hn
  generalize "direction".toList = k1 at *
  generalize "pad_to_multiple_of".toList = k2 at *
  generalize "pad_id".toList = k3 at *
  generalize "pad_type_id".toList = k4 at *
  generalize "pad_token".toList = k5 at *
  generalize "max_length".toList = k6 at *
  generalize "length".toList = k7 at *
  obtain ⟨⟨a1, a2, a3, a4, a5, a6⟩, ⟨b1, b2, b3, b4, b5⟩, ⟨c1, c2, c3, c4⟩, ⟨d1, d2, d3⟩, ⟨e1, e2⟩, f1, -⟩ := hn
  simp only [decide_eq_true_eq]
  split
  · subst k
    rw [map_none]
    simp only [directionOf_some, a1, a2, a3, a4, a5, a6, true_and, false_and, or_false]
  split
  · subst k
    rw [map_none, asOptNat_none (by omega)]
    simp only [Ne.symm a1, b1, b2, b3, b4, b5, true_and, false_and, false_or, true_or]
  split
  · subst k
    rw [map_none, asNat_none (by omega)]
    simp only [Ne.symm a2, Ne.symm b1, c1, c2, c3, c4, true_and, false_and, false_or, or_false]
  split
  · subst k
    rw [map_none, asNat_none (by omega)]
    simp only [Ne.symm a3, Ne.symm b2, Ne.symm c1, d1, d2, d3, true_and, false_and, false_or, or_false]
  split
  · subst k
    rw [map_none, asStr_none]
    simp only [Ne.symm a4, Ne.symm b3, Ne.symm c2, Ne.symm d1, e1, e2, true_and, false_and, false_or, or_false]
  split
  · subst k
    rw [map_none, padStrategyOf_none]
    simp only [Ne.symm a5, Ne.symm b4, Ne.symm c3, Ne.symm d2, Ne.symm e1, f1, true_and, false_and, false_or, or_true]
  split
  · subst k
    rw [map_none, padStrategyOf_none]
    simp only [Ne.symm a6, Ne.symm b5, Ne.symm c4, Ne.symm d3, Ne.symm e2, Ne.symm f1, true_and, false_and, false_or, or_false, or_true]
  · simp only [*, false_and, or_false, reduceCtorEq]

/-- **C87.** `enable_padding` raises exactly if one of the arguments has a value that is refused (and then changes nothing). -/
theorem C87_padding_refused (kw : Kwargs) : enablePadding kw = none ↔ ∃ kv ∈ kw, BadPadding kv :=
  foldlM_none padStep_none kw padDefault

theorem padStep_ne {p p' : PadParams} {kv : Str × PyVal} (h : padStep p kv = some p') :
    (named "direction" kv = true → IsDir kv.2 p'.direction) ∧ (named "direction" kv = false → p'.direction = p.direction) ∧
    (named "pad_id" kv = true → IsNum kv.2 p'.pt.id) ∧ (named "pad_id" kv = false → p'.pt.id = p.pt.id) ∧
    (named "pad_type_id" kv = true → IsNum kv.2 p'.pt.typeId) ∧ (named "pad_type_id" kv = false → p'.pt.typeId = p.pt.typeId) ∧
    (named "pad_token" kv = true → kv.2 = .str p'.pt.token) ∧ (named "pad_token" kv = false → p'.pt.token = p.pt.token) ∧
    ((named "pad_to_multiple_of" kv && kv.2 ≠ .none) = true → ∃ n, p'.multipleOf = some n ∧ IsNum kv.2 n) ∧
    ((named "pad_to_multiple_of" kv && kv.2 ≠ .none) = false → p'.multipleOf = p.multipleOf) ∧
    ((named "length" kv || named "max_length" kv) = true →
      (kv.2 = .none ∧ p'.strategy = .batchLongest) ∨ ∃ n, p'.strategy = .fixed n ∧ IsNum kv.2 n) ∧
    ((named "length" kv || named "max_length" kv) = false → p'.strategy = p.strategy) := by
  obtain ⟨k, v⟩ := kv
  unfold padStep at h
  unfold named
  dsimp only at h ⊢
  have hn := pad_names
  simp only [List.map_cons, List.map_nil, List.nodup_cons, List.mem_cons, List.not_mem_nil, or_false, not_or] at hn
  generalize "direction".toList = k1 at *
  generalize "pad_to_multiple_of".toList = k2 at *
  generalize "pad_id".toList = k3 at *
  generalize "pad_type_id".toList = k4 at *
  generalize "pad_token".toList = k5 at *
  generalize "max_length".toList = k6 at *
  generalize "length".toList = k7 at *
  obtain ⟨⟨a1, a2, a3, a4, a5, a6⟩, ⟨b1, b2, b3, b4, b5⟩, ⟨c1, c2, c3, c4⟩, ⟨d1, d2, d3⟩, ⟨e1, e2⟩, f1, -⟩ := hn
  simp only [decide_eq_true_eq, decide_eq_false_iff_not, Bool.and_eq_true, Bool.or_eq_true, Bool.or_eq_false_iff,
    Bool.and_eq_false_iff]
  have strat : ∀ {s : PadStrategy}, padStrategyOf v = some s →
      (v = .none ∧ s = .batchLongest) ∨ ∃ n, s = .fixed n ∧ IsNum v n := by
    intro s hs
    unfold padStrategyOf at hs
    obtain ⟨m, hm, rfl⟩ := Option.map_eq_some_iff.1 hs
    rcases (asOptNat_some (by omega)).1 hm with ⟨h1, rfl⟩ | ⟨n, rfl, -, h1⟩
    · exact .inl ⟨h1, rfl⟩
    · exact .inr ⟨n, rfl, h1⟩
  split at h
  · subst k
    obtain ⟨d, hd, rfl⟩ := Option.map_eq_some_iff.1 h
    have := directionOf_some.1 hd
    simp_all
  split at h
  · subst k
    obtain ⟨m, hm, rfl⟩ := Option.map_eq_some_iff.1 h
    rcases (asOptNat_some (by omega)).1 hm with ⟨rfl, rfl⟩ | ⟨n, rfl, -, h1⟩
    · simp_all [Ne.symm a1]
    · have : v ≠ .none := by rintro rfl; simp [IsNum] at h1
      simp_all [Ne.symm a1]
  split at h
  · subst k
    obtain ⟨n, hn, rfl⟩ := Option.map_eq_some_iff.1 h
    have := ((asNat_some (by omega)).1 hn).2
    simp_all
  split at h
  · subst k
    obtain ⟨n, hn, rfl⟩ := Option.map_eq_some_iff.1 h
    have := ((asNat_some (by omega)).1 hn).2
    simp_all
  split at h
  · subst k
    obtain ⟨t, ht, rfl⟩ := Option.map_eq_some_iff.1 h
    have : v = .str t := by cases v <;> simp_all [PyVal.asStr]
    simp_all
  split at h
  · subst k
    obtain ⟨t, ht, rfl⟩ := Option.map_eq_some_iff.1 h
    have := strat ht
    simp_all
  split at h
  · subst k
    obtain ⟨t, ht, rfl⟩ := Option.map_eq_some_iff.1 h
    have := strat ht
    simp_all
  · cases h
    simp_all

/-- **C87, padding.** What `enable_padding` sets is what its arguments say, whatever their order; names it does not know are
ignored. -/
theorem C87_padding {kw : Kwargs} {p : PadParams} (h : enablePadding kw = some p) : PaddingSaid kw p where
  direction := foldlM_given (fun p => p.direction) _ _ (fun _ _ _ h => (padStep_ne h).1) (fun _ _ _ h => (padStep_ne h).2.1) kw _ _ h
  padId := foldlM_given (fun p => p.pt.id) _ _ (fun _ _ _ h => (padStep_ne h).2.2.1) (fun _ _ _ h => (padStep_ne h).2.2.2.1) kw _ _ h
  typeId := foldlM_given (fun p => p.pt.typeId) _ _ (fun _ _ _ h => (padStep_ne h).2.2.2.2.1)
    (fun _ _ _ h => (padStep_ne h).2.2.2.2.2.1) kw _ _ h
  token := foldlM_given (fun p => p.pt.token) _ (fun v s => v = .str s) (fun _ _ _ h => (padStep_ne h).2.2.2.2.2.2.1)
    (fun _ _ _ h => (padStep_ne h).2.2.2.2.2.2.2.1) kw _ _ h
  multiple := foldlM_given (fun p => p.multipleOf) _ (fun v m => ∃ n, m = some n ∧ IsNum v n)
    (fun _ _ _ h => (padStep_ne h).2.2.2.2.2.2.2.2.1) (fun _ _ _ h => (padStep_ne h).2.2.2.2.2.2.2.2.2.1) kw _ _ h
  strategy := foldlM_given (fun p => p.strategy) _
    (fun v s => (v = .none ∧ s = .batchLongest) ∨ ∃ n, s = .fixed n ∧ IsNum v n)
    (fun _ _ _ h => (padStep_ne h).2.2.2.2.2.2.2.2.2.2.1) (fun _ _ _ h => (padStep_ne h).2.2.2.2.2.2.2.2.2.2.2) kw _ _ h

theorem trunc_names : (["stride", "strategy", "direction"].map String.toList).Nodup := by decide

theorem truncStep_none (t : TruncParams) (kv : Str × PyVal) : truncStep t kv = none ↔ BadTruncation kv := by
  obtain ⟨k, v⟩ := kv
  unfold truncStep BadTruncation named
  dsimp only
  have hn := trunc_names
  simp only [List.map_cons, List.map_nil, List.nodup_cons, List.mem_cons, List.not_mem_nil, or_false, not_or] at hn
  generalize "stride".toList = k1 at *
  generalize "strategy".toList = k2 at *
  generalize "direction".toList = k3 at *
  obtain ⟨⟨a1, a2⟩, a3, -⟩ := hn
  simp only [decide_eq_true_eq]
  split
  · subst k
    rw [map_none, asNat_none (by omega)]
    simp only [a1, a2, true_and, false_and, or_false]
  split
  · subst k
    rw [map_none]
    simp only [strategyOf_some, Ne.symm a1, a3, true_and, false_and, or_false, false_or]
  split
  · subst k
    rw [map_none]
    simp only [directionOf_some, Ne.symm a2, Ne.symm a3, true_and, false_and, false_or]
  · simp only [*, false_and, or_false, reduceCtorEq]

/-- **C87.** `enable_truncation` raises because of an argument exactly if one of them has a value that is refused. -/
theorem C87_truncation_refused (n : Nat) (kw : Kwargs) : enableTruncation n kw = none ↔ ∃ kv ∈ kw, BadTruncation kv :=
  foldlM_none truncStep_none kw _

theorem truncStep_ne {t t' : TruncParams} {kv : Str × PyVal} (h : truncStep t kv = some t') :
    t'.maxLength = t.maxLength ∧
    (named "stride" kv = true → IsNum kv.2 t'.stride) ∧ (named "stride" kv = false → t'.stride = t.stride) ∧
    (named "strategy" kv = true → IsStrategy kv.2 t'.strategy) ∧ (named "strategy" kv = false → t'.strategy = t.strategy) ∧
    (named "direction" kv = true → IsDir kv.2 t'.direction) ∧ (named "direction" kv = false → t'.direction = t.direction) := by
  obtain ⟨k, v⟩ := kv
  unfold truncStep at h
  unfold named
  dsimp only at h ⊢
  have hn := trunc_names
  simp only [List.map_cons, List.map_nil, List.nodup_cons, List.mem_cons, List.not_mem_nil, or_false, not_or] at hn
  generalize "stride".toList = k1 at *
  generalize "strategy".toList = k2 at *
  generalize "direction".toList = k3 at *
  obtain ⟨⟨a1, a2⟩, a3, -⟩ := hn
  simp only [decide_eq_true_eq, decide_eq_false_iff_not]
  split at h
  · subst k
    obtain ⟨n, hn, rfl⟩ := Option.map_eq_some_iff.1 h
    have := ((asNat_some (by omega)).1 hn).2
    simp_all
  split at h
  · subst k
    obtain ⟨n, hn, rfl⟩ := Option.map_eq_some_iff.1 h
    have := strategyOf_some.1 hn
    simp_all
  split at h
  · subst k
    obtain ⟨n, hn, rfl⟩ := Option.map_eq_some_iff.1 h
    have := directionOf_some.1 hn
    simp_all
  · cases h
    simp_all

/-- **C87, truncation.** What `enable_truncation` sets is what its arguments say. -/
theorem C87_truncation {n : Nat} {kw : Kwargs} {t : TruncParams} (h : enableTruncation n kw = some t) :
    TruncationSaid n kw t where
  maxLength := by
    have : ∀ (kw : Kwargs) (t t' : TruncParams), kw.foldlM truncStep t = some t' → t'.maxLength = t.maxLength := by
      intro kw
      induction kw with
      | nil => intro t t' h; cases h; rfl
      | cons kv l ih =>
        intro t t' h
        rw [List.foldlM_cons] at h
        obtain ⟨q, hq, h⟩ := Option.bind_eq_some_iff.1 h
        rw [ih q t' h, (truncStep_ne hq).1]
    exact this kw _ _ h
  stride := foldlM_given (fun t => t.stride) _ _ (fun _ _ _ h => (truncStep_ne h).2.1) (fun _ _ _ h => (truncStep_ne h).2.2.1) kw _ _ h
  strategy := foldlM_given (fun t => t.strategy) _ _ (fun _ _ _ h => (truncStep_ne h).2.2.2.1)
    (fun _ _ _ h => (truncStep_ne h).2.2.2.2.1) kw _ _ h
  direction := foldlM_given (fun t => t.direction) _ _ (fun _ _ _ h => (truncStep_ne h).2.2.2.2.2.1)
    (fun _ _ _ h => (truncStep_ne h).2.2.2.2.2.2) kw _ _ h

/-! ### What is read can be set -/

theorem given_none {sel : Str × PyVal → Bool} : ∀ {kw : Kwargs}, (∀ x ∈ kw, sel x = false) → given sel kw = none
  | [], _ => rfl
  | kv :: l, h => by
    rw [given, given_none fun x hx => h x (by simp [hx]), h kv (by simp)]; rfl

theorem given_one {sel : Str × PyVal → Bool} {v : PyVal} : ∀ {kw : Kwargs}, (∃ x ∈ kw, sel x = true) →
    (∀ x ∈ kw, sel x = true → x.2 = v) → given sel kw = some v
  | [], h, _ => by simp at h
  | kv :: l, h, hv => by
    rw [given]
    by_cases hl : ∃ x ∈ l, sel x = true
    · rw [given_one hl fun x hx => hv x (by simp [hx])]; rfl
    · have hkv : sel kv = true := by
        obtain ⟨x, hx, hs⟩ := h
        rcases List.mem_cons.1 hx with rfl | hx
        · exact hs
        · exact absurd ⟨x, hx, hs⟩ hl
      rw [given_none fun x hx => by
        cases hs : sel x with
        | false => rfl
        | true => exact absurd ⟨x, hx, hs⟩ hl]
      simp [hkv, hv kv (by simp) hkv]

theorem isNum_int {m n : Nat} (h : IsNum (.int m) n) : n = m := by
  rcases h with h | ⟨h, -⟩ | ⟨h, -⟩
  · cases h; rfl
  · cases h
  · cases h

theorem isDir_name {d d' : Direction} (h : IsDir (.str (directionName d)) d') : d' = d := by
  rcases h with ⟨h, rfl⟩ | ⟨h, rfl⟩ <;> cases d <;> first | rfl | (exfalso; revert h; decide)

theorem isStrategy_name {s s' : TruncStrategy} (h : IsStrategy (.str (strategyName s)) s') : s' = s := by
  rcases h with ⟨h, rfl⟩ | ⟨h, rfl⟩ | ⟨h, rfl⟩ <;> cases s <;> first | rfl | (exfalso; revert h; decide)

theorem isDir_ex (d : Direction) : ∃ d', IsDir (.str (directionName d)) d' := by
  cases d
  · exact ⟨_, .inl ⟨rfl, rfl⟩⟩
  · exact ⟨_, .inr ⟨rfl, rfl⟩⟩

theorem isStrategy_ex (s : TruncStrategy) : ∃ s', IsStrategy (.str (strategyName s)) s' := by
  cases s
  · exact ⟨_, .inl ⟨rfl, rfl⟩⟩
  · exact ⟨_, .inr (.inl ⟨rfl, rfl⟩)⟩
  · exact ⟨_, .inr (.inr ⟨rfl, rfl⟩)⟩

theorem not_named {k k' : String} {v : PyVal} (h : k'.toList ≠ k.toList) : ¬ named k (k'.toList, v) = true := by
  simpa [named] using h

/-- A value that is given once. -/
theorem given_perm {kw l : Kwargs} (hp : kw.Perm l) (hn : (l.map (·.1)).Nodup) {k : String} {v : PyVal}
    (hk : (k.toList, v) ∈ l) : given (named k) kw = some v := by
  refine given_one ⟨_, hp.mem_iff.2 hk, by simp [named]⟩ fun x hx hs => ?_
  have hx' := hp.mem_iff.1 hx
  have hs' : x.1 = k.toList := by simpa [named] using hs
  have : x = (k.toList, v) := by
    clear hx hs hp
    induction l with
    | nil => cases hk
    | cons y l ih =>
      rw [List.map_cons, List.nodup_cons] at hn
      rcases List.mem_cons.1 hk with rfl | hk'
      · rcases List.mem_cons.1 hx' with rfl | hx'
        · rfl
        · exact absurd (List.mem_map.2 ⟨x, hx', hs'⟩) hn.1
      · rcases List.mem_cons.1 hx' with rfl | hx'
        · exact absurd (List.mem_map.2 ⟨(k.toList, v), hk', hs'.symm⟩ : x.1 ∈ l.map (·.1)) hn.1
        · exact ih hn.2 hk' hx'
  rw [this]

/-- **C87, back again.** `enable_truncation(**tokenizer.truncation)` sets what is set, in whatever order the dictionary is. -/
theorem C87_truncation_again {t : TruncParams} (hs : t.stride < 2 ^ 64) {kw : Kwargs} (hp : kw.Perm (getTruncation t)) :
    enableTruncation t.maxLength kw = some t := by
  have hn : ((getTruncation t).map (·.1)).Nodup := trunc_names
  cases h : enableTruncation t.maxLength kw with
  | none =>
    exfalso
    obtain ⟨kv, hkv, hb⟩ := (C87_truncation_refused _ _).1 h
    unfold BadTruncation at hb
    have hkv := hp.mem_iff.1 hkv
    simp only [getTruncation, List.mem_cons, List.not_mem_nil, or_false] at hkv
    rcases hkv with rfl | rfl | rfl
    · rcases hb with ⟨-, hb⟩ | ⟨hb, -⟩ | ⟨hb, -⟩
      · exact hb ⟨_, hs, .inl rfl⟩
      · exact not_named (by decide) hb
      · exact not_named (by decide) hb
    · rcases hb with ⟨hb, -⟩ | ⟨-, hb⟩ | ⟨hb, -⟩
      · exact not_named (by decide) hb
      · exact hb (isStrategy_ex _)
      · exact not_named (by decide) hb
    · rcases hb with ⟨hb, -⟩ | ⟨hb, -⟩ | ⟨-, hb⟩
      · exact not_named (by decide) hb
      · exact not_named (by decide) hb
      · exact hb (isDir_ex _)
  | some t' =>
    obtain ⟨h1, h2, h3, h4⟩ := C87_truncation h
    rw [given_perm hp hn (v := .int t.stride) (by simp [getTruncation])] at h2
    rw [given_perm hp hn (v := .str (strategyName t.strategy)) (by simp [getTruncation])] at h3
    rw [given_perm hp hn (v := .str (directionName t.direction)) (by simp [getTruncation])] at h4
    obtain ⟨a, b, c, d⟩ := t
    obtain ⟨a', b', c', d'⟩ := t'
    have e1 : a' = a := h1
    have e2 : c' = c := isNum_int h2
    have e3 : b' = b := isStrategy_name h3
    have e4 : d' = d := isDir_name h4
    subst e1 e2 e3 e4
    rfl

/-- The numbers are `u32` and `usize`. -/
structure PadFits (p : PadParams) : Prop where
  id : p.pt.id < 2 ^ 32
  typeId : p.pt.typeId < 2 ^ 32
  multiple : ∀ m, p.multipleOf = some m → m < 2 ^ 64
  size : ∀ n, p.strategy = .fixed n → n < 2 ^ 64

/-- **C87, back again.** `enable_padding(**tokenizer.padding)` sets what is set, in whatever order the dictionary is. -/
theorem C87_padding_again {p : PadParams} (hf : PadFits p) {kw : Kwargs} (hp : kw.Perm (getPadding p)) :
    enablePadding kw = some p := by
  have hn : ((getPadding p).map (·.1)).Nodup := by
    show (["length", "pad_to_multiple_of", "pad_id", "pad_token", "pad_type_id", "direction"].map String.toList).Nodup
    decide
  have hin : ∀ kv ∈ kw, kv ∈ getPadding p := fun kv h => hp.mem_iff.1 h
  cases h : enablePadding kw with
  | none =>
    exfalso
    obtain ⟨kv, hkv, hb⟩ := (C87_padding_refused _).1 h
    have hkv := hin kv hkv
    simp only [getPadding, List.mem_cons, List.not_mem_nil, or_false] at hkv
    unfold BadPadding at hb
    rcases hkv with rfl | rfl | rfl | rfl | rfl | rfl
    · rcases hb with ⟨hb, -⟩ | ⟨hb, -⟩ | ⟨hb, -⟩ | ⟨hb, -⟩ | ⟨-, hb, hc⟩
      · exact not_named (by decide) hb
      · exact not_named (by decide) hb
      · exact not_named (by decide) hb
      · exact not_named (by decide) hb
      · cases hs : p.strategy with
        | batchLongest => rw [hs] at hb; exact hb rfl
        | fixed n => rw [hs] at hc; exact hc ⟨n, hf.size n hs, .inl rfl⟩
    · rcases hb with ⟨hb, -⟩ | ⟨hb, -⟩ | ⟨hb, -⟩ | ⟨hb, -⟩ | ⟨-, hb, hc⟩
      · exact not_named (by decide) hb
      · exact not_named (by decide) hb
      · exact not_named (by decide) hb
      · exact not_named (by decide) hb
      · cases hs : p.multipleOf with
        | none => rw [hs] at hb; exact hb rfl
        | some n => rw [hs] at hc; exact hc ⟨n, hf.multiple n hs, .inl rfl⟩
    · rcases hb with ⟨hb, -⟩ | ⟨-, hc⟩ | ⟨hb, -⟩ | ⟨hb, -⟩ | ⟨hb | hb | hb, -⟩
      · exact not_named (by decide) hb
      · exact hc ⟨_, hf.id, .inl rfl⟩
      all_goals exact not_named (by decide) hb
    · rcases hb with ⟨hb, -⟩ | ⟨hb, -⟩ | ⟨hb, -⟩ | ⟨-, hc⟩ | ⟨hb | hb | hb, -⟩
      · exact not_named (by decide) hb
      · exact not_named (by decide) hb
      · exact not_named (by decide) hb
      · exact hc ⟨_, rfl⟩
      all_goals exact not_named (by decide) hb
    · rcases hb with ⟨hb, -⟩ | ⟨hb, -⟩ | ⟨-, hc⟩ | ⟨hb, -⟩ | ⟨hb | hb | hb, -⟩
      · exact not_named (by decide) hb
      · exact not_named (by decide) hb
      · exact hc ⟨_, hf.typeId, .inl rfl⟩
      all_goals exact not_named (by decide) hb
    · rcases hb with ⟨-, hc⟩ | ⟨hb, -⟩ | ⟨hb, -⟩ | ⟨hb, -⟩ | ⟨hb | hb | hb, -⟩
      · exact hc (isDir_ex _)
      all_goals exact not_named (by decide) hb
  | some p' =>
    obtain ⟨h1, h2, h3, h4, h5, h6⟩ := C87_padding h
    rw [given_perm hp hn (v := .str (directionName p.direction)) (by simp [getPadding])] at h1
    rw [given_perm hp hn (v := .int p.pt.id) (by simp [getPadding])] at h2
    rw [given_perm hp hn (v := .int p.pt.typeId) (by simp [getPadding])] at h3
    rw [given_perm hp hn (v := .str p.pt.token) (by simp [getPadding])] at h4
    have e5 : p'.multipleOf = p.multipleOf := by
      have hsel : ∀ x ∈ kw, named "pad_to_multiple_of" x = true → x.2 = ofOptNat p.multipleOf := by
        intro x hx hs
        have hx := hin x hx
        simp only [getPadding, List.mem_cons, List.not_mem_nil, or_false] at hx
        rcases hx with rfl | rfl | rfl | rfl | rfl | rfl
        · exact absurd hs (not_named (by decide))
        · rfl
        all_goals exact absurd hs (not_named (by decide))
      cases hm : p.multipleOf with
      | none =>
        rw [given_none (by
          intro x hx
          cases hs : named "pad_to_multiple_of" x with
          | false => rfl
          | true => simp [hsel x hx hs, hm, ofOptNat])] at h5
        exact h5
      | some m =>
        rw [given_one (v := .int m) ⟨("pad_to_multiple_of".toList, ofOptNat p.multipleOf),
          hp.mem_iff.2 (by simp [getPadding]), by simp [named, hm, ofOptNat]⟩ (by
          intro x hx hs
          rw [Bool.and_eq_true] at hs
          rw [hsel x hx hs.1, hm]; rfl)] at h5
        obtain ⟨n, h5, h6⟩ := h5
        rw [h5, isNum_int h6]
    have e6 : p'.strategy = p.strategy := by
      have hsel : ∀ x ∈ kw, (named "length" x || named "max_length" x) = true →
          x.2 = match p.strategy with | .batchLongest => .none | .fixed n => .int n := by
        intro x hx hs
        have hx := hin x hx
        simp only [getPadding, List.mem_cons, List.not_mem_nil, or_false] at hx
        rw [Bool.or_eq_true] at hs
        rcases hx with rfl | rfl | rfl | rfl | rfl | rfl
        · rfl
        all_goals exact hs.elim (fun hs => absurd hs (not_named (by decide))) (fun hs => absurd hs (not_named (by decide)))
      rw [given_one ⟨("length".toList, match p.strategy with | .batchLongest => .none | .fixed n => .int n),
        hp.mem_iff.2 (by simp [getPadding]), by simp [named]⟩ hsel] at h6
      cases hs : p.strategy with
      | batchLongest =>
        rw [hs] at h6
        rcases h6 with ⟨-, h6⟩ | ⟨n, -, h6⟩
        · exact h6
        · simp [IsNum] at h6
      | fixed m =>
        rw [hs] at h6
        rcases h6 with ⟨h6, -⟩ | ⟨n, h6, h7⟩
        · cases h6
        · rw [h6, isNum_int h7]
    obtain ⟨a, b, c, ⟨d, e, f⟩⟩ := p
    obtain ⟨a', b', c', ⟨d', e', f'⟩⟩ := p'
    have e1 : b' = b := isDir_name h1
    have e2 : d' = d := isNum_int h2
    have e3 : e' = e := isNum_int h3
    have e4 : f' = f := by cases h4; rfl
    dsimp only at e5 e6
    subst e1 e2 e3 e4 e5 e6
    rfl

/-! ## Node -/

/-- What JavaScript code may pass as a direction. -/
inductive JsDir where
  | text (s : Str)
  | padEnum (d : Direction)   -- `PaddingDirection`, an enumeration with numbers
  | truncEnum (d : Direction) -- `TruncationDirection`, an enumeration with strings (`string_enum`)

/-- The text of a `TruncationDirection` in JavaScript (`bindings/node/index.d.ts:301-304`). -/
def truncEnumText : Direction → Str
  | .left => "Left".toList
  | .right => "Right".toList

/-- `PaddingOptions`, `TruncationOptions` (`node/src/tokenizer.rs:49-56, 111-116`). -/
structure NodePadding where
  maxLength : Option Nat := none
  direction : Option JsDir := none
  multipleOf : Option Nat := none
  padId : Option Nat := none
  typeId : Option Nat := none
  token : Option Str := none

structure NodeTruncation where
  strategy : Option TruncStrategy := none
  direction : Option JsDir := none
  stride : Option Nat := none

/-- `Either<String, PaddingDirection>` and its use (`node/src/tokenizer.rs:61-70`): text is taken first (`napi` asks for the type
of the value), a number is the enumeration. -/
def nodePadDir : Option JsDir → Option Direction
  | none => some .right
  | some (.text s) => directionOf s
  | some (.padEnum d) => some d
  | some (.truncEnum d) => directionOf (truncEnumText d)

/-- `Either<String, JsTruncationDirection>` (`node/src/tokenizer.rs:121-130`): the values of the enumeration are texts, so
they are always taken as text. A number is refused. -/
def nodeTruncDir (dflt : Direction) : Option JsDir → Option Direction
  | none => some dflt
  | some (.text s) => directionOf s
  | some (.padEnum _) => none
  | some (.truncEnum d) => directionOf (truncEnumText d)

/-- `set_padding` with options (`node/src/tokenizer.rs:58-83, 420-428`); without, padding is switched off. -/
def nodeSetPadding : Option NodePadding → Option (Option PadParams)
  | none => some none
  | some o => (nodePadDir o.direction).map fun d => some
      ⟨match o.maxLength with | some n => .fixed n | none => .batchLongest, d, o.multipleOf,
        ⟨o.padId.getD 0, o.typeId.getD 0, o.token.getD "[PAD]".toList⟩⟩

/-- `set_truncation` (`node/src/tokenizer.rs:118-137, 389-408`), up to `with_truncation`, whose error is a panic here. -/
def nodeSetTruncation (maxLength : Nat) : Option NodeTruncation → Option TruncParams
  | none => some ⟨maxLength, .longestFirst, 0, .right⟩
  | some o => (nodeTruncDir .right o.direction).map fun d => ⟨maxLength, o.strategy.getD .longestFirst, o.stride.getD 0, d⟩

/-- `Encoding.truncate` in Node (`node/src/encoding.rs:209-236`): without a direction it is the left. `none`: an exception or
a panic. -/
def nodeTruncate (e : Encoding) (length : Nat) (stride : Option Nat) (dir : Option JsDir) : Option Encoding :=
  (nodeTruncDir .left dir).bind fun d => e.truncate length (stride.getD 0) d

/-- `Encoding.truncate` in Python (`python/src/encoding.rs:456-471`). -/
def pyTruncate (e : Encoding) (length stride : Nat) (dir : Str := "right".toList) : Option Encoding :=
  (directionOf dir).bind fun d => e.truncate length stride d

/-- The keyword arguments of Python that say the same as options of Node. -/
def padKwargs (o : NodePadding) (d : Option Direction) : Kwargs :=
  (o.maxLength.toList.map fun n => ("length".toList, .int n)) ++ (d.toList.map fun d => ("direction".toList, .str (directionName d))) ++
  (o.multipleOf.toList.map fun n => ("pad_to_multiple_of".toList, .int n)) ++ (o.padId.toList.map fun n => ("pad_id".toList, .int n)) ++
  (o.typeId.toList.map fun n => ("pad_type_id".toList, .int n)) ++ (o.token.toList.map fun s => ("pad_token".toList, .str s))

/-- **C87, Node.** Options of Node set the padding that the same arguments set in Python. -/
theorem C87_node_padding {o : NodePadding} {d : Option Direction}
    (hd : o.direction = d.map fun d => .text (directionName d))
    (h1 : ∀ n, o.maxLength = some n → n < 2 ^ 32) (h2 : ∀ n, o.multipleOf = some n → n < 2 ^ 32)
    (h3 : ∀ n, o.padId = some n → n < 2 ^ 32) (h4 : ∀ n, o.typeId = some n → n < 2 ^ 32) :
    nodeSetPadding (some o) = (enablePadding (padKwargs o d)).map some := by
  have num : ∀ {b n : Nat}, n < b → (PyVal.int n).asNat b = some n := fun {b n} h => by
    show (if n < b then some n else none) = some n
    rw [if_pos h]
  have onum : ∀ {b n : Nat}, n < b → (PyVal.int n).asOptNat b = some (some n) := fun {b n} h => by
    show ((PyVal.int n).asNat b).map some = _
    rw [num h]; rfl
  obtain ⟨ml, dir, mo, pi, ti, tk⟩ := o
  dsimp only at hd h1 h2 h3 h4
  have s1 : ∀ p : PadParams, (ml.toList.map fun n : Nat => ("length".toList, PyVal.int n)).foldlM padStep p =
      some { p with strategy := ml.elim p.strategy .fixed } := by
    intro p
    cases ml with
    | none => rfl
    | some n =>
      have : padStep p ("length".toList, .int n) = (padStrategyOf (.int n)).map fun s => { p with strategy := s } := by
        simp [padStep]
      simp only [Option.toList_some, List.map_cons, List.map_nil, List.foldlM_cons, List.foldlM_nil, this, padStrategyOf,
        onum (Nat.lt_trans (h1 n rfl) (by omega : 2 ^ 32 < 2 ^ 64))]
      rfl
  have s2 : ∀ p : PadParams, (d.toList.map fun d => ("direction".toList, PyVal.str (directionName d))).foldlM padStep p =
      some { p with direction := d.getD p.direction } := by
    intro p
    cases d with
    | none => rfl
    | some d => cases d <;> rfl
  have s3 : ∀ p : PadParams, (mo.toList.map fun n : Nat => ("pad_to_multiple_of".toList, PyVal.int n)).foldlM padStep p =
      some { p with multipleOf := mo.or p.multipleOf } := by
    intro p
    cases mo with
    | none => rfl
    | some n =>
      have : padStep p ("pad_to_multiple_of".toList, .int n) = ((PyVal.int n).asOptNat (2 ^ 64)).map fun
          | some m => { p with multipleOf := some m }
          | Option.none => p := by simp [padStep]
      simp only [Option.toList_some, List.map_cons, List.map_nil, List.foldlM_cons, List.foldlM_nil, this,
        onum (Nat.lt_trans (h2 n rfl) (by omega : 2 ^ 32 < 2 ^ 64))]
      rfl
  have s4 : ∀ p : PadParams, (pi.toList.map fun n : Nat => ("pad_id".toList, PyVal.int n)).foldlM padStep p =
      some { p with pt := { p.pt with id := pi.getD p.pt.id } } := by
    intro p
    cases pi with
    | none => rfl
    | some n =>
      have : padStep p ("pad_id".toList, .int n) = ((PyVal.int n).asNat (2 ^ 32)).map fun n =>
          { p with pt := { p.pt with id := n } } := by simp [padStep]
      simp only [Option.toList_some, List.map_cons, List.map_nil, List.foldlM_cons, List.foldlM_nil, this, num (h3 n rfl)]
      rfl
  have s5 : ∀ p : PadParams, (ti.toList.map fun n : Nat => ("pad_type_id".toList, PyVal.int n)).foldlM padStep p =
      some { p with pt := { p.pt with typeId := ti.getD p.pt.typeId } } := by
    intro p
    cases ti with
    | none => rfl
    | some n =>
      have : padStep p ("pad_type_id".toList, .int n) = ((PyVal.int n).asNat (2 ^ 32)).map fun n =>
          { p with pt := { p.pt with typeId := n } } := by simp [padStep]
      simp only [Option.toList_some, List.map_cons, List.map_nil, List.foldlM_cons, List.foldlM_nil, this, num (h4 n rfl)]
      rfl
  have s6 : ∀ p : PadParams, (tk.toList.map fun s => ("pad_token".toList, PyVal.str s)).foldlM padStep p =
      some { p with pt := { p.pt with token := tk.getD p.pt.token } } := by
    intro p
    cases tk with
    | none => rfl
    | some s => rfl
  have hdir : nodePadDir dir = some (d.getD .right) := by
    subst hd
    cases d with
    | none => rfl
    | some d => cases d <;> rfl
  unfold enablePadding padKwargs nodeSetPadding
  simp only [List.foldlM_append, s1, s2, s3, s4, s5, s6, Option.bind_eq_bind, Option.bind_some, hdir, Option.map_some]
  cases ml <;> cases mo <;> rfl

/-- **C87, finding.** The values of `TruncationDirection` are refused in Node, although the declared type takes them; in small
letters they are the directions they stand for. -/
theorem C87_node_enum_refused (n : Nat) (d : Direction) (o : NodeTruncation) (e : Encoding) (st : Option Nat) :
    nodeSetTruncation n (some { o with direction := some (.truncEnum d) }) = none ∧
    nodeTruncate e n st (some (.truncEnum d)) = none ∧
    directionOf ((truncEnumText d).map Char.toLower) = some d := by
  cases d <;> exact ⟨rfl, rfl, by decide⟩

/-- **C87, Node's `set_truncation`.** Exactly the texts `left` and `right` are directions (the right one if there is none), all
else of the options is taken over, and the length is that of the first argument. -/
theorem C87_node_truncation (n : Nat) (o : NodeTruncation) (p : TruncParams) : nodeSetTruncation n (some o) = some p ↔
    p.maxLength = n ∧ p.strategy = o.strategy.getD .longestFirst ∧ p.stride = o.stride.getD 0 ∧
    (o.direction = none ∧ p.direction = .right ∨ o.direction = some (.text "left".toList) ∧ p.direction = .left ∨
      o.direction = some (.text "right".toList) ∧ p.direction = .right) := by
  have hdir : ∀ d, nodeTruncDir .right o.direction = some d ↔
      (o.direction = none ∧ d = .right ∨ o.direction = some (.text "left".toList) ∧ d = .left ∨
        o.direction = some (.text "right".toList) ∧ d = .right) := by
    intro d
    cases hd : o.direction with
    | none => simp [nodeTruncDir, eq_comm]
    | some x =>
      cases x with
      | text s =>
        simp only [nodeTruncDir, directionOf, Option.some.injEq, JsDir.text.injEq, reduceCtorEq, false_and, false_or]
        split
        · rename_i h; subst h; simp [eq_comm]
        · split
          · rename_i h; subst h; simp [eq_comm]
          · rename_i h1 h2
            exact ⟨nofun, fun h => h.elim (fun h => absurd h.1 h1) fun h => absurd h.1 h2⟩
      | padEnum e => simp [nodeTruncDir]
      | truncEnum e => cases e <;> simp [nodeTruncDir, truncEnumText, directionOf]
  obtain ⟨a, b, c, d⟩ := p
  unfold nodeSetTruncation
  simp only [Option.map_eq_some_iff, hdir, TruncParams.mk.injEq]
  constructor
  · rintro ⟨x, h, rfl, rfl, rfl, rfl⟩; exact ⟨rfl, rfl, rfl, h⟩
  · rintro ⟨rfl, rfl, rfl, h⟩; exact ⟨d, h, rfl, rfl, rfl, rfl⟩

/-- **C87, finding.** `set_padding()` without options switches padding off, where Python's `enable_padding()` switches it on. -/
theorem C87_node_padding_off : nodeSetPadding none = some none ∧ enablePadding [] = some padDefault := ⟨rfl, rfl⟩

/-- Three tokens. -/
def sampleThree : Encoding := Encoding.fromTokens
  [⟨1, "a".toList, (0, 1)⟩, ⟨2, "b".toList, (1, 2)⟩, ⟨3, "c".toList, (2, 3)⟩] 0

/-- **C87, finding.** `Encoding.truncate` without a direction keeps the end in Node and the beginning in Python (and in the
parameters of both). -/
theorem C87_node_truncate_left :
    (nodeTruncate sampleThree 2 none none).map (·.ids) = some [2, 3] ∧ (pyTruncate sampleThree 2 0).map (·.ids) = some [1, 2] ∧
    (nodeSetTruncation 2 none).map (·.direction) = some .right := by decide +kernel

/-! ## Cases -/

/-- Hypotheses met: arguments in some order, one unknown. -/
example : PaddingSaid [("pad_id".toList, .int 3), ("colour".toList, .other), ("length".toList, .int 8),
    ("direction".toList, .str "left".toList)] ⟨.fixed 8, .left, none, ⟨3, 0, "[PAD]".toList⟩⟩ :=
  C87_padding rfl

example : enablePadding [("direction".toList, .str "up".toList)] = none :=
  (C87_padding_refused _).2 ⟨("direction".toList, .str "up".toList), by simp, .inl ⟨rfl, by rintro ⟨d, ⟨h, -⟩ | ⟨h, -⟩⟩ <;> revert h <;> decide⟩⟩

example : enablePadding (getPadding ⟨.fixed 8, .left, some 4, ⟨3, 1, "<p>".toList⟩⟩).reverse =
    some ⟨.fixed 8, .left, some 4, ⟨3, 1, "<p>".toList⟩⟩ :=
  C87_padding_again ⟨by decide, by decide, by simp, by simp⟩ (List.reverse_perm _)

example : TruncationSaid 512 [("strategy".toList, .str "only_second".toList), ("stride".toList, .bool true)]
    ⟨512, .onlySecond, 1, .right⟩ := C87_truncation rfl

example : enableTruncation 512 (getTruncation ⟨512, .onlyFirst, 7, .left⟩).reverse = some ⟨512, .onlyFirst, 7, .left⟩ :=
  C87_truncation_again (t := ⟨512, .onlyFirst, 7, .left⟩) (by decide) (List.reverse_perm _)

example : nodeSetPadding (some { maxLength := some 8, direction := some (.text "left".toList) }) =
    (enablePadding [("length".toList, .int 8), ("direction".toList, .str "left".toList)]).map some :=
  C87_node_padding (d := some .left) rfl (by simp) (by simp) (by simp) (by simp)

end Tok.Py
