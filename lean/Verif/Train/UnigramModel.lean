import Verif.Unigram.C47
import Verif.Train.Feed

/-!
# Model of the Unigram trainer (`models/unigram/trainer.rs`)

Scores are rationals. What the code computes with `f64::ln`, `digamma` and the E step (`run_e_step`, modelled over the
reals in `Verif.Unigram.EStep`) is a parameter (`Arith`): the theorems hold for whatever numbers these yield. The suffix
array of crate `esaxx_rs` is a parameter as well, and so is the order in which hash sets and maps are visited. Sums of `u32`
do not wrap around. The progress bar is left out.
-/

namespace Tok.Train

open Tok.Unigram

/-- `trainer.rs:46-70` `UnigramTrainer`, of special tokens the content. -/
structure UniCfg where
  vocabSize : Nat := 8000
  nSub : Nat := 2
  shrink : Rat := 3 / 4
  special : List Str := []
  alphabet : List Char := []
  unk : Option Str := none
  maxPiece : Nat := 16
  seedSize : Nat := 1000000

/-- What is left open of the computation with floating-point numbers, and of the search for the second best
segmentation. -/
structure Arith where
  /-- `f64::ln` -/
  ln : Rat → Rat
  /-- `trainer.rs:16-30` `digamma` -/
  digamma : Rat → Rat
  /-- The expected counts that `run_e_step` returns (`trainer.rs:452-493`) -/
  expected : Unigram → List (Str × Nat) → List Rat
  /-- The priority queue of `Lattice::nbest` -/
  heap : Heap
  /-- Bound of the iterations of `Lattice::nbest` -/
  steps : Nat

/-- A piece and its score. -/
abbrev Scored := Str × Rat

/-- Insert into a sorted list, before the first element that is not smaller. -/
def insertLe {α : Type} (le : α → α → Bool) (a : α) : List α → List α
  | [] => [a]
  | b :: l => if le a b then a :: b :: l else b :: insertLe le a l

/-- A stable sort (`sort_by`, `sort_by_key`). -/
def sortLe {α : Type} (le : α → α → Bool) (l : List α) : List α := l.foldr (insertLe le) []

/-- `trainer.rs:38-44` `to_log_prob`. -/
def toLogProb (ln : Rat → Rat) (l : List Scored) : List Scored :=
  l.map fun p => (p.1, ln p.2 - ln (l.map (·.2)).sum)

/-- `trainer.rs:204-221`: how often each character but `\0` occurs. The order is that of the hash map; the list is sorted
next. -/
def charCounts (sentences : List (Str × Nat)) : AMap Char Nat :=
  sentences.foldl (fun m st => st.1.foldl (fun m c =>
    if c = '\x00' then m else AMap.insert m c ((m.get c).getD 0 + st.2)) m) []

/-- Order of slices of characters. -/
def charsLe : Str → Str → Bool
  | [], _ => true
  | _ :: _, [] => false
  | a :: s, b :: t => decide (a.val < b.val) || (decide (a.val = b.val) && charsLe s t)

/-- `Reverse((count, key))`: larger first. -/
def revLe {κ : Type} (le : κ → κ → Bool) (a b : Nat × κ) : Bool :=
  decide (b.1 < a.1) || (decide (a.1 = b.1) && le b.2 a.2)

/-- `trainer.rs:93-104` `is_valid_sentencepiece`. -/
def UniCfg.validPiece (c : UniCfg) (s : Str) : Bool := !s.isEmpty && decide (s.length ≤ c.maxPiece)

/-- `trainer.rs:235-253`: the substrings taken from the suffix array. -/
def UniCfg.substrings (c : UniCfg) (suffix : List (Str × Nat)) : List (Nat × Str) :=
  (suffix.filter fun p => decide (1 < p.1.length) && !p.1.contains '\x00' && c.validPiece p.1).map
    fun p => (p.2 * p.1.length, p.1)

/-- `trainer.rs:260-270`: push until `seed_size` is reached. -/
def pushSeeds (size : Nat) : List Scored → List (Nat × Str) → List Scored
  | acc, [] => acc
  | acc, p :: l =>
    let acc := acc ++ [(p.2, (p.1 : Rat))]
    if acc.length ≥ size then acc else pushSeeds size acc l

/-- `trainer.rs:190-274` `make_seed_sentence_pieces`; `suffix` is what the suffix array yields. -/
def UniCfg.seeds (c : UniCfg) (ln : Rat → Rat) (suffix sentences : List (Str × Nat)) : List Scored :=
  let chars := sortLe (revLe fun a b => decide (a.val ≤ b.val)) ((charCounts sentences).map fun p => (p.2, p.1))
  let start : List Scored := chars.map fun p => ([p.2], (p.1 : Rat))
  toLogProb ln (pushSeeds c.seedSize start (sortLe (revLe charsLe) (c.substrings suffix)))

/-- `trainer.rs:181-189` `required_chars`, in the order given by `order`. -/
def UniCfg.required (c : UniCfg) (order : List Char → List Char) (sentences : List (Str × Nat)) : List Str :=
  (order (sentences.flatMap (·.1) ++ c.alphabet)).map fun ch => [ch]

/-- The piece used for unknown characters during training (`trainer.rs:556`). -/
def unkPiece : Str := "<UNK>".toList

/-- A number in place of NaN, the score of `unkPiece`. The code never finds NaN smaller than anything; here the greatest
of the other scores has the same effect on `min_score`. If the text `<UNK>` occurs in a sentence, the code computes with NaN
and panics, which is not modelled. -/
def notMin : List Scored → Rat
  | [] => 0
  | p :: l => l.foldl (fun m q => if m < q.2 then q.2 else m) p.2

/-- `Unigram::from(pieces.clone(), Some(0), false)` (`trainer.rs:583, 592, 614`), `pieces` being `unkPiece` and `rest`. -/
def trainingModel (rest : List Scored) : Except UniErr Unigram :=
  Unigram.from ((unkPiece, notMin rest) :: rest) (some 0) false

/-- `trainer.rs:494-532` `run_m_step`, of the pieces but `unkPiece`; `none` is the `panic!`. -/
def mStep (digamma : Rat → Rat) (rest : List Scored) (expected : List Rat) : Option (List Scored) :=
  if rest.length + 1 ≠ expected.length then none
  else
    let kept := (expected.tail.zip rest).filter fun p => decide (¬ p.1 < 1 / 2)
    let logsum := digamma (kept.map (·.1)).sum
    some (kept.map fun p => (p.2.1, digamma p.1 - logsum))

/-- `trainer.rs:586-605`: one round of E and M steps. -/
def emRound (ar : Arith) (sentences : List (Str × Nat)) (rest : List Scored) : Option (List Scored) :=
  match trainingModel rest with
  | .error _ => none
  | .ok u => mStep ar.digamma rest (ar.expected u sentences)

/-- `n` rounds. -/
def emRounds (ar : Arith) (sentences : List (Str × Nat)) : Nat → List Scored → Option (List Scored)
  | 0, rest => some rest
  | n + 1, rest => (emRound ar sentences rest).bind (emRounds ar sentences n)

/-- The vocabulary ids of nodes. -/
def nodeIds (L : Lattice) (ns : List Nat) : List Nat := ns.filterMap fun n => L.nodes[n]?.map (·.id)

/-- `trainer.rs:295-315`: whether to keep the piece with this text always, and its alternatives. -/
def alternativesOf (ar : Arith) (u : Unigram) (token : Str) : Option (Bool × List Nat) :=
  (u.populateNodes (Lattice.from token u.bosId u.eosId)).bind fun L =>
  (L.nbest ar.heap ar.steps 2).bind fun nb =>
  match nb with
  | [] => none
  | [_] => some (true, [])
  | a :: b :: _ =>
    if 2 ≤ a.length then some (false, [])
    else if a.length = 1 then some (true, nodeIds L b)
    else some (true, [])

/-- `trainer.rs:329-338`: the ids on the best path through a sentence. -/
def bestIds (u : Unigram) (s : Str) : Option (List Nat) :=
  (u.populateNodes (Lattice.from s u.bosId u.eosId)).bind fun L => L.viterbi.map (nodeIds L)

/-- `freq` (`trainer.rs:320-358`) for a piece, `paths` being the best paths of the sentences. Adding up chunk by chunk gives
the same sum. -/
def freqOf (sentences : List (Str × Nat)) (paths : List (List Nat)) (id : Nat) : Nat :=
  ((sentences.zip paths).map fun p => p.1.2 * p.2.count id).sum

/-- `inverted` (`trainer.rs:320-358`) for a piece. -/
def invertedOf (paths : List (List Nat)) (id : Nat) : List Nat :=
  paths.zipIdx.flatMap fun p => (p.1.filter fun j => j == id).map fun _ => p.2

/-- `trainer.rs:393-415`: the loss of a piece. `nPieces` is `alternatives.len()`, the number of all pieces: where the comment
in the code (and SentencePiece) has the number of alternatives of this piece, the code takes the length of the table. -/
def lossOf (ln : Rat → Rat) (f : Rat) (freq : Nat → Nat) (sum : Nat) (nPieces : Nat) (id : Nat) (alts : List Nat) : Rat :=
  let logprobSp := ln (freq id) - ln sum
  let logsumAlt := ln (sum + freq id * (nPieces - 1 : Nat))
  let logprobAlt := (alts.map fun n => ln (freq n + freq id) - logsumAlt).sum
  f * (logprobSp - logprobAlt)

/-- What the loop of `trainer.rs:374-419` does with a piece. -/
inductive Verdict
  | drop
  | keep
  | candidate (loss : Rat)

/-- A piece that goes to `new_pieces` at once (`trainer.rs:379-381`). -/
def keptPiece (p : Scored × Verdict) : Option Scored := match p.2 with
  | .keep => some p.1
  | _ => none

/-- A piece that goes to `candidates` (`trainer.rs:416`). -/
def candidatePiece (p : Scored × Verdict) : Option (Scored × Rat) := match p.2 with
  | .candidate loss => some (p.1, loss)
  | _ => none

/-- `trainer.rs:378-418`, for one piece. -/
def verdictOf (ar : Arith) (sentences : List (Str × Nat)) (paths : List (List Nat)) (nPieces id : Nat)
    (alt : Bool × List Nat) : Verdict :=
  let freq := freqOf sentences paths
  let sum := ((List.range nPieces).map freq).sum
  if freq id = 0 ∧ alt.1 = false then .drop
  else if alt.2.isEmpty then .keep
  else
    let f : Nat := ((invertedOf paths id).map fun n => ((sentences[n]?.map (·.2)).getD 0)).sum
    if f = 0 then .drop
    else .candidate (lossOf ar.ln ((f : Rat) / ((sentences.map (·.2)).sum : Nat)) freq sum nPieces id alt.2)

/-- `trainer.rs:424-429`: push candidates until the size is reached exactly. -/
def pushUntil (size : Nat) : List Scored → List Scored → List Scored
  | acc, [] => acc
  | acc, p :: l => if acc.length + 1 = size then acc else pushUntil size (acc ++ [p]) l

/-- `trainer.rs:420` / `trainer.rs:567`: `desired_vocab_size`. -/
def UniCfg.desired (c : UniCfg) : Nat := c.vocabSize * 11 / 10

/-- `trainer.rs:421-422`: `pruned_size` (the conversion to `usize` rounds towards zero, and gives 0 if negative). -/
def UniCfg.prunedSize (c : UniCfg) (n : Nat) : Nat := max c.desired ((n : Rat) * c.shrink).floor.toNat

/-- `trainer.rs:275-433` `prune_sentence_pieces`, of the pieces but `unkPiece`, which is always kept; `none`: a panic. -/
def UniCfg.prune (c : UniCfg) (ar : Arith) (sentences : List (Str × Nat)) (rest : List Scored) : Option (List Scored) :=
  match trainingModel rest with
  | .error _ => none
  | .ok u =>
    (rest.mapM fun p => alternativesOf ar u p.1).bind fun alts =>
    (sentences.mapM fun st => bestIds u st.1).map fun paths =>
    let verdicts := (rest.zip alts).zipIdx.map fun p =>
      (p.1.1, verdictOf ar sentences paths (rest.length + 1) (p.2 + 1) p.1.2)
    let kept := verdicts.filterMap keptPiece
    let candidates := verdicts.filterMap candidatePiece
    let sorted := sortLe (fun a b => decide (b.2 ≤ a.2)) candidates
    pushUntil (c.prunedSize (rest.length + 1)) kept (sorted.map (·.1))

/-- `trainer.rs:584-615`: the loop. `none`: still running after `fuel` rounds; `some none`: a panic. -/
def UniCfg.emLoop (c : UniCfg) (ar : Arith) (sentences : List (Str × Nat)) : Nat → List Scored → Option (Option (List Scored))
  | 0, _ => none
  | fuel + 1, rest =>
    match emRounds ar sentences c.nSub rest with
    | none => some none
    | some rest =>
      if rest.length + 1 ≤ c.desired then some (some rest)
      else match c.prune ar sentences rest with
        | none => some none
        | some rest => UniCfg.emLoop c ar sentences fuel rest

/-- `trainer.rs:118-131`: the required characters with their scores; `pen` is `min_score_penalty`. -/
def requiredPieces (existing : AMap Str Rat) (minScore : Rat) : Rat → List Str → List Scored
  | _, [] => []
  | pen, s :: l =>
    match existing.get s with
    | some t => (s, t) :: requiredPieces existing minScore pen l
    | none => (s, minScore + pen) :: requiredPieces existing minScore (pen + 1 / 10000) l

/-- `trainer.rs:133-147`: the id of the unknown token, and whether it has to be added. -/
def UniCfg.unkPlace (c : UniCfg) : Option Nat × Bool :=
  match c.unk with
  | none => (none, false)
  | some unk =>
    match c.special.findIdx? (· == unk) with
    | some i => (some i, false)
    | none => (some 0, true)

/-- `trainer.rs:154-164`: push the pieces of the model that are not there yet, until the size is reached exactly. -/
def fillPieces (limit : Nat) : List Scored → List Str → List Scored → List Scored
  | acc, _, [] => acc
  | acc, inserted, p :: l =>
    if p.1 ∈ inserted then fillPieces limit acc inserted l
    else
      let acc := acc ++ [p]
      if acc.length = limit then acc else fillPieces limit acc (p.1 :: inserted) l

/-- `trainer.rs:148-152`: `vocab_size_without_special_tokens`; `none`: the subtraction underflows. -/
def UniCfg.limit (c : UniCfg) : Option Nat :=
  let n := c.special.length + if c.unkPlace.2 then 1 else 0
  if n ≤ c.vocabSize then some (c.vocabSize - n) else none

/-- `trainer.rs:167-174`: the special tokens, the unknown token first if it is not among them. -/
def UniCfg.heads (c : UniCfg) : List Scored :=
  (if c.unkPlace.2 then [(c.unk.getD [], 0)] else []) ++ c.special.map fun t => (t, 0)

/-- `trainer.rs:107-180` `finalize`; `u` is the model trained last, its entries `unkPiece` and `rest`. -/
def UniCfg.finalize (c : UniCfg) (u : Unigram) (rest : List Scored) (required : List Str) : Outcome UniErr Unigram :=
  match c.limit with
  | none => .panic
  | some limit =>
    let existing := AMap.extend [] ((unkPiece, notMin rest) :: rest)
    let first := requiredPieces existing u.minScore 0 required
    let pieces := fillPieces limit first (required ++ [unkPiece]) ((unkPiece, notMin rest) :: rest)
    let sorted := sortLe (fun a b => decide (b.2 ≤ a.2)) pieces
    match Unigram.from (c.heads ++ sorted) c.unkPlace.1 u.byteFallback with
    | .error e => .err e
    | .ok v => .ok v

/-- `UnigramTrainerError` and the errors of `Unigram::from`. -/
inductive UniTrainErr where
  | vocabularyTooSmall
  | model (e : UniErr)
deriving DecidableEq, Repr

/-- `trainer.rs:533-622` `do_train`. `none`: still running after `fuel` rounds. -/
def UniCfg.doTrain (c : UniCfg) (ar : Arith) (order : List Char → List Char) (suffix sentences : List (Str × Nat))
    (fuel : Nat) : Option (Outcome UniTrainErr Unigram) :=
  let required := c.required order sentences
  if c.vocabSize < required.length then some (.err .vocabularyTooSmall)
  else
    (c.emLoop ar sentences fuel (c.seeds ar.ln suffix sentences)).map fun r =>
    match r with
    | none => .panic
    | some rest =>
      match trainingModel rest with
      | .error e => .err (.model e)
      | .ok u =>
        match c.finalize u rest required with
        | .ok v => .ok v
        | .err e => .err (.model e)
        | .panic => .panic

end Tok.Train
