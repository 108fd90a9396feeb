import Verif.Unigram.C24

/-!
# Unigram with rounded scores: the model

`Verif.Unigram.Model` adds scores exactly. The code adds `f64`s. Every finite `f64` is a rational number, and an
addition of two of them is the exact sum, rounded. So the definitions here are those of
`Verif.Unigram.Model` in which every addition and subtraction of scores is followed by a function `fl`. What is
assumed about `fl` is said in the theorems (`Rounding`); infinities and NaN are outside the model.

Only the functions in which scores are added are repeated. With `fl = id` they are those of
`Verif.Unigram.Model` (`encodeOptimizedR_id`, `encodeUnoptimizedR_id`).
-/

namespace Tok.Unigram

/-- `model.rs:171, 277`, rounded. -/
def unkScoreR (fl : Rat → Rat) (u : Unigram) : Rat := fl (u.minScore - kUnkPenalty)

/-- `model.rs:295-302` and `model.rs:309-316`, rounded. -/
def relaxR (fl : Rat → Rat) (base : Rat) (T : Nat → Cell) (e : Edge) : Except UniErr (Nat → Cell) :=
  if (T e.stop).startsAt = none ∨ (T e.stop).score < fl (e.score + base) then
    match e.id with
    | none => .error .missingUnkId
    | some i => .ok (upd T e.stop ⟨i, fl (e.score + base), some e.start⟩)
  else .ok T

/-- All of a list, stopping at the first error. -/
def relaxAllR (fl : Rat → Rat) (base : Rat) : List Edge → (Nat → Cell) → Except UniErr (Nat → Cell)
  | [], T => .ok T
  | e :: es, T =>
    match relaxR fl base T e with
    | .error x => .error x
    | .ok T' => relaxAllR fl base es T'

/-- `model.rs:281-317`, `model.rs:176-206`: the candidates starting at byte `pos`. -/
def edgesAtR (fl : Rat → Rat) (u : Unigram) (pos : Nat) (c : Char) (ms : List (Nat × Nat × Rat)) : List Edge :=
  ms.map (fun m => ⟨pos, pos + m.1, some m.2.1, m.2.2⟩) ++
  if ms.any (fun m => m.1 = c.utf8Size) then []
  else [⟨pos, pos + c.utf8Size, u.unkId, u.unkScoreR fl⟩]

/-- `model.rs:279-319`, the main loop. -/
def optLoopR (fl : Rat → Rat) (u : Unigram) : Nat → Str → (Nat → Cell) → Outcome UniErr (Nat → Cell)
  | _, [], T => .ok T
  | pos, c :: cs, T =>
    match u.lookups (c :: cs) with
    | none => .panic
    | some ms =>
      match relaxAllR fl (T pos).score (u.edgesAtR fl pos c ms) T with
      | .error x => .err x
      | .ok T' => optLoopR fl u (pos + c.utf8Size) cs T'

/-- `model.rs:255-344` `Unigram::encode_optimized`. -/
def encodeOptimizedR (fl : Rat → Rat) (u : Unigram) (s : Str) : Outcome UniErr (List Str) :=
  match optLoopR fl u 0 s (fun _ => Cell.default) with
  | .ok T => backtrack u s T (blen s) (blen s) [] []
  | .err x => .err x
  | .panic => .panic

/-- `model.rs:170-209` `Unigram::populate_nodes`, the loop. -/
def populateLoopR (fl : Rat → Rat) (u : Unigram) : Nat → Str → Lattice → Option Lattice
  | _, [], l => some l
  | pos, c :: cs, l =>
    match (u.trie.search (strBytes (c :: cs))).mapM u.lookupChecked with
    | none => none
    | some ms =>
      let l1 := ms.foldl (fun l m => l.insert pos m.1 m.2.2 m.2.1) l
      let l2 :=
        if ms.any (fun m => m.1 = c.utf8Size) then l1
        else match u.unkId with
          | some k => l1.insert pos c.utf8Size (u.unkScoreR fl) k
          | none => l1
      populateLoopR fl u (pos + c.utf8Size) cs l2

/-- `lattice.rs:185-194`: the best left node. The sums with the score of the right node are compared. -/
def bestLeftR (fl : Rat → Rat) (bt : Nat → Rat) (rscore : Rat) :
    List Nat → Option (Nat × Rat) → Option (Nat × Rat)
  | [], best => best
  | l :: ls, none => bestLeftR fl bt rscore ls (some (l, fl (bt l + rscore)))
  | l :: ls, some (b, sc) =>
    if sc < fl (bt l + rscore) then bestLeftR fl bt rscore ls (some (l, fl (bt l + rscore)))
    else bestLeftR fl bt rscore ls (some (b, sc))

/-- `lattice.rs:183-202`: all nodes beginning at one position. -/
def viterbiNodesR (fl : Rat → Rat) (L : Lattice) (ends : List Nat) : List Nat → VState → Option VState
  | [], st => some st
  | r :: rs, st =>
    match bestLeftR fl st.bt ((L.nodes[r]?.map (·.score)).getD 0) ends none with
    | none => none
    | some (b, sc) =>
      viterbiNodesR fl L ends rs
        { prev := fun n => if n = r then some b else st.prev n
          bt := fun n => if n = r then sc else st.bt n }

/-- `lattice.rs:177-208`: all positions. -/
def viterbiLoopR (fl : Rat → Rat) (L : Lattice) : Nat → Str → VState → Option VState
  | pos, rest, st =>
    match rest with
    | [] => if (L.beginNodes pos).isEmpty then none
            else viterbiNodesR fl L (L.endNodes pos) (L.beginNodes pos) st
    | c :: cs =>
      if (L.beginNodes pos).isEmpty then none
      else match viterbiNodesR fl L (L.endNodes pos) (L.beginNodes pos) st with
        | none => none
        | some st' => viterbiLoopR fl L (pos + c.utf8Size) cs st'

/-- `lattice.rs:176-224` `Lattice::viterbi`. -/
def viterbiR (fl : Rat → Rat) (L : Lattice) : Option (List Nat) :=
  match viterbiLoopR fl L 0 L.sentence ⟨fun _ => none, fun _ => 0⟩ with
  | none => some []
  | some st =>
    match L.beginNodes L.len with
    | [] => none
    | root :: _ =>
      match st.prev root with
      | none => some []
      | some n => (viterbiBack st L.len n).map List.reverse

/-- `model.rs:346-380` `Unigram::encode_unoptimized` (with `alpha = None`). -/
def encodeUnoptimizedR (fl : Rat → Rat) (u : Unigram) (s : Str) : Outcome UniErr (List Str) :=
  match populateLoopR fl u 0 s (Lattice.from s u.bosId u.eosId) with
  | none => .panic
  | some L =>
    match viterbiR fl L with
    | none => .panic
    | some path =>
      if u.fuseUnk then fuseLoop u L path [] []
      else match path.mapM (fun n => (L.nodes[n]?).bind L.piece) with
        | none => .panic
        | some r => .ok r

/-! ### Without rounding it is the exact model -/

theorem relaxAllR_id (base : Rat) : ∀ (es : List Edge) (T : Nat → Cell),
    relaxAllR id base es T = relaxAll base es T
  | [], _ => rfl
  | e :: es, T => by
    have h : relaxR id base T e = relax base T e := rfl
    simp only [relaxAllR, relaxAll, h]
    cases relax base T e with
    | error x => rfl
    | ok T' => exact relaxAllR_id base es T'

theorem optLoopR_id (u : Unigram) : ∀ (s : Str) (pos : Nat) (T : Nat → Cell),
    optLoopR id u pos s T = optLoop u pos s T
  | [], _, _ => rfl
  | c :: cs, pos, T => by
    have h : ∀ ms, u.edgesAtR id pos c ms = u.edgesAt pos c ms := fun _ => rfl
    simp only [optLoopR, optLoop, h, relaxAllR_id]
    cases u.lookups (c :: cs) with
    | none => rfl
    | some ms =>
      dsimp only
      cases relaxAll (T pos).score (u.edgesAt pos c ms) T with
      | error x => rfl
      | ok T' => exact optLoopR_id u cs _ T'

theorem encodeOptimizedR_id (u : Unigram) (s : Str) : u.encodeOptimizedR id s = u.encodeOptimized s := by
  simp only [encodeOptimizedR, encodeOptimized, optLoopR_id]
  rfl

theorem populateLoopR_id (u : Unigram) : ∀ (s : Str) (pos : Nat) (L : Lattice),
    populateLoopR id u pos s L = populateLoop u pos s L
  | [], _, _ => rfl
  | c :: cs, pos, L => by
    simp only [populateLoopR, populateLoop]
    cases (u.trie.search (strBytes (c :: cs))).mapM u.lookupChecked with
    | none => rfl
    | some ms => exact populateLoopR_id u cs _ _

theorem bestLeftR_id (bt : Nat → Rat) (r : Rat) : ∀ (ls : List Nat) (best : Option (Nat × Rat)),
    bestLeftR id bt r ls best = bestLeft bt r ls best
  | [], _ => by simp [bestLeftR, bestLeft]
  | l :: ls, none => by simp only [bestLeftR, bestLeft]; exact bestLeftR_id bt r ls _
  | l :: ls, some (b, sc) => by
    simp only [bestLeftR, bestLeft, id_eq, bestLeftR_id bt r ls]

theorem viterbiNodesR_id (L : Lattice) (ends : List Nat) : ∀ (rs : List Nat) (st : VState),
    viterbiNodesR id L ends rs st = viterbiNodes L ends rs st
  | [], _ => rfl
  | r :: rs, st => by
    simp only [viterbiNodesR, viterbiNodes, bestLeftR_id]
    cases bestLeft st.bt ((L.nodes[r]?.map (·.score)).getD 0) ends none with
    | none => rfl
    | some x => exact viterbiNodesR_id L ends rs _

theorem viterbiLoopR_id (L : Lattice) : ∀ (rest : Str) (pos : Nat) (st : VState),
    viterbiLoopR id L pos rest st = viterbiLoop L pos rest st
  | [], pos, st => by rw [viterbiLoopR, viterbiLoop]; simp only [viterbiNodesR_id]
  | c :: cs, pos, st => by
    rw [viterbiLoopR, viterbiLoop]
    simp only [viterbiNodesR_id]
    cases viterbiNodes L (L.endNodes pos) (L.beginNodes pos) st with
    | none => rfl
    | some st' => simp only [viterbiLoopR_id L cs]

theorem viterbiR_id (L : Lattice) : viterbiR id L = L.viterbi := by
  simp only [viterbiR, Lattice.viterbi, viterbiLoopR_id]
  rfl

theorem encodeUnoptimizedR_id (u : Unigram) (s : Str) :
    u.encodeUnoptimizedR id s = u.encodeUnoptimized s := by
  simp only [encodeUnoptimizedR, encodeUnoptimized, populateLoopR_id, viterbiR_id]
  rfl

end Tok.Unigram
