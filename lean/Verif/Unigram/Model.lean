import Verif.Unigram.Trie
import Verif.Text.Utf8
import Verif.Norm.Model

/-!
# Model of `models/unigram/model.rs` and `models/unigram/lattice.rs`

Scores are exact rational numbers: infinities and NaN are outside the model. The encoders with rounded sums, as
`f64` has them, are in `Verif.Unigram.Round`. Vocabulary
ids are natural numbers (the code stores them as `u32`). The cache around `encode` is in
`Verif.SharedCache`. Sampling (`alpha`) is in `Verif.Unigram.Sample`.
-/

namespace Tok

/-- `model.rs:80-88` `UnigramError`. -/
inductive UniErr where
  | emptyVocabulary
  | unkIdNotInVocabulary
  | missingUnkId
deriving DecidableEq, Repr

/-- `model.rs:19-35` `Unigram`, without the cache and the sampling parameters. -/
structure Unigram where
  tokenToIds : AMap Str Nat
  vocab : List (Str × Rat)
  trie : Trie UInt8
  minScore : Rat
  unkId : Option Nat
  bosId : Nat
  eosId : Nat
  fuseUnk : Bool
  isOptimized : Bool
  byteFallback : Bool

namespace Unigram

/-- `model.rs:124-131`: the running minimum, `none` being the initial `f64::INFINITY`. -/
def minOf : Option Rat → List (Str × Rat) → Option Rat
  | m, [] => m
  | none, (_, s) :: l => minOf (some s) l
  | some m, (_, s) :: l => if s < m then minOf (some s) l else minOf (some m) l

/-- `model.rs:104-152` `Unigram::from`. With an empty vocabulary `min_score` is infinite in the code and 0
here; no score is then ever compared (every non-empty sentence is an error). -/
def «from» (vocab : List (Str × Rat)) (unkId : Option Nat) (byteFallback : Bool) :
    Except UniErr Unigram :=
  if unkId.isSome ∧ vocab = [] then .error .emptyVocabulary
  else if ∃ k ∈ unkId, vocab.length ≤ k then .error .unkIdNotInVocabulary
  else .ok {
    tokenToIds := AMap.extend [] (vocab.zipIdx.map (fun p => (p.1.1, p.2)))
    vocab := vocab
    trie := Trie.build (vocab.map (fun p => strBytes p.1))
    minScore := (minOf none vocab).getD 0
    unkId := unkId
    bosId := vocab.length + 1
    eosId := vocab.length + 2
    fuseUnk := true
    isOptimized := true
    byteFallback := byteFallback }

/-- `model.rs:78` `K_UNK_PENALTY`. -/
def kUnkPenalty : Rat := 10

/-- `model.rs:171, 277`. -/
def unkScore (u : Unigram) : Rat := u.minScore - kUnkPenalty

/-- One result of the prefix search, looked up: `(byte length, id, score)`
(`model.rs:289-294`). `none`: one of the `unwrap`s panics. -/
def lookup (u : Unigram) (bytes : List UInt8) : Option (Nat × Nat × Rat) :=
  (fromUtf8 bytes).bind fun tok =>
  (u.tokenToIds.get tok).bind fun id =>
  (u.vocab[id]?).map fun item => (bytes.length, id, item.2)

/-- All matches at the start of `rest` (`model.rs:285-306` looks them up one after the other). -/
def lookups (u : Unigram) (rest : Str) : Option (List (Nat × Nat × Rat)) :=
  (u.trie.search (strBytes rest)).mapM u.lookup

/-- `model.rs:257-266` `BestPathNode`. -/
structure Cell where
  id : Nat
  score : Rat
  startsAt : Option Nat
deriving DecidableEq

/-- `best_path_ends_at[k] = c` (the vector as a function of the index). -/
def upd (T : Nat → Cell) (k : Nat) (c : Cell) : Nat → Cell := fun p => if p = k then c else T p

/-- A candidate piece of the sentence: byte range, id (`none`: an unknown piece and no `unk_id`), score. -/
structure Edge where
  start : Nat
  stop : Nat
  id : Option Nat
  score : Rat
deriving DecidableEq

/-- `model.rs:295-302` and `model.rs:309-316`: replace the target if it has no path or a worse one. -/
def relax (base : Rat) (T : Nat → Cell) (e : Edge) : Except UniErr (Nat → Cell) :=
  if (T e.stop).startsAt = none ∨ (T e.stop).score < e.score + base then
    match e.id with
    | none => .error .missingUnkId
    | some i => .ok (upd T e.stop ⟨i, e.score + base, some e.start⟩)
  else .ok T

/-- All of a list, stopping at the first error. -/
def relaxAll (base : Rat) : List Edge → (Nat → Cell) → Except UniErr (Nat → Cell)
  | [], T => .ok T
  | e :: es, T =>
    match relax base T e with
    | .error x => .error x
    | .ok T' => relaxAll base es T'

/-- The candidates starting at byte `pos`, where the sentence continues with `c :: …`
(`model.rs:281-317`, `model.rs:176-206`): the matches, then the unknown character if none of them is exactly
one character. -/
def edgesAt (u : Unigram) (pos : Nat) (c : Char) (ms : List (Nat × Nat × Rat)) : List Edge :=
  ms.map (fun m => ⟨pos, pos + m.1, some m.2.1, m.2.2⟩) ++
  if ms.any (fun m => m.1 = c.utf8Size) then []
  else [⟨pos, pos + c.utf8Size, u.unkId, u.unkScore⟩]

/-- `model.rs:279-319`, the main loop; `pos` is `starts_at`, `rest` is `sentence[starts_at..]`. -/
def optLoop (u : Unigram) : Nat → Str → (Nat → Cell) → Outcome UniErr (Nat → Cell)
  | _, [], T => .ok T
  | pos, c :: cs, T =>
    match u.lookups (c :: cs) with
    | none => .panic
    | some ms =>
      match relaxAll (T pos).score (u.edgesAt pos c ms) T with
      | .error x => .err x
      | .ok T' => optLoop u (pos + c.utf8Size) cs T'

/-- `model.rs:320-343`, the backtracking loop. `fuel` bounds the iterations (`0` is only reached if
`starts_at < ends_at` failed; `C23_never_panics` shows it is not). -/
def backtrack (u : Unigram) (s : Str) (T : Nat → Cell) :
    Nat → Nat → List Str → List Str → Outcome UniErr (List Str)
  | fuel, endsAt, token, results =>
    if endsAt = 0 then
      .ok ((if token.isEmpty then results else results ++ [token.reverse.flatten]).reverse)
    else
      match fuel with
      | 0 => .panic
      | fuel + 1 =>
        match (T endsAt).startsAt with
        | none => .panic
        | some st =>
          match strGet s st endsAt with
          | none => .panic
          | some piece =>
            if u.fuseUnk = true ∧ some (T endsAt).id = u.unkId then
              backtrack u s T fuel st (token ++ [piece]) results
            else if token.isEmpty then
              backtrack u s T fuel st [] (results ++ [piece])
            else
              backtrack u s T fuel st [] (results ++ [token.reverse.flatten] ++ [piece])

/-- `model.rs:267-275` `BestPathNode::default()`. -/
def Cell.default : Cell := ⟨0, 0, none⟩

/-- `model.rs:255-344` `Unigram::encode_optimized`. -/
def encodeOptimized (u : Unigram) (s : Str) : Outcome UniErr (List Str) :=
  match optLoop u 0 s (fun _ => Cell.default) with
  | .ok T => backtrack u s T (blen s) (blen s) [] []
  | .err x => .err x
  | .panic => .panic

/-! ### The lattice -/

/-- `lattice.rs:84-96` `Node`, without the mutable fields `prev` and `backtrace_score`. -/
structure LNode where
  id : Nat
  pos : Nat
  length : Nat
  score : Rat
deriving DecidableEq

/-- `lattice.rs:50-61` `Lattice`. A node is its index in `nodes` (`node_id`); `beginNodes`/`endNodes` hold
such indices. -/
structure Lattice where
  sentence : Str
  len : Nat
  nodes : List LNode
  beginNodes : Nat → List Nat
  endNodes : Nat → List Nat

/-- Append to one of the vectors. -/
def pushAt (f : Nat → List Nat) (k x : Nat) : Nat → List Nat := fun p => if p = k then f p ++ [x] else f p

/-- `lattice.rs:138-164` `Lattice::from`. -/
def Lattice.from (s : Str) (bos eos : Nat) : Lattice where
  sentence := s
  len := blen s
  nodes := [⟨bos, 0, 0, 0⟩, ⟨eos, blen s, 0, 0⟩]
  beginNodes := pushAt (fun _ => []) (blen s) 1
  endNodes := pushAt (fun _ => []) 0 0

/-- `lattice.rs:166-174` `Lattice::insert`. -/
def Lattice.insert (l : Lattice) (pos length : Nat) (score : Rat) (id : Nat) : Lattice :=
  { l with
    nodes := l.nodes ++ [⟨id, pos, length, score⟩]
    beginNodes := pushAt l.beginNodes pos l.nodes.length
    endNodes := pushAt l.endNodes (pos + length) l.nodes.length }

/-- `model.rs:189-196`: as `lookup`, with the `assert_eq!(item.0, tok)`. -/
def lookupChecked (u : Unigram) (bytes : List UInt8) : Option (Nat × Nat × Rat) :=
  (fromUtf8 bytes).bind fun tok =>
  (u.tokenToIds.get tok).bind fun id =>
  (u.vocab[id]?).bind fun item => if item.1 = tok then some (bytes.length, id, item.2) else none

/-- `model.rs:170-209` `Unigram::populate_nodes`, the loop. -/
def populateLoop (u : Unigram) : Nat → Str → Lattice → Option Lattice
  | _, [], l => some l
  | pos, c :: cs, l =>
    match (u.trie.search (strBytes (c :: cs))).mapM u.lookupChecked with
    | none => none
    | some ms =>
      let l1 := ms.foldl (fun l m => l.insert pos m.1 m.2.2 m.2.1) l
      let l2 :=
        if ms.any (fun m => m.1 = c.utf8Size) then l1
        else match u.unkId with
          | some k => l1.insert pos c.utf8Size u.unkScore k
          | none => l1
      populateLoop u (pos + c.utf8Size) cs l2

/-- `model.rs:170-209` `Unigram::populate_nodes`. -/
def populateNodes (u : Unigram) (l : Lattice) : Option Lattice := populateLoop u 0 l.sentence l

/-- The mutable fields of the nodes: `prev` and `backtrace_score`. -/
structure VState where
  prev : Nat → Option Nat
  bt : Nat → Rat

/-- `lattice.rs:185-194`: the best left node (first of the maximal ones). -/
def bestLeft (bt : Nat → Rat) (rscore : Rat) : List Nat → Option (Nat × Rat) → Option (Nat × Rat)
  | [], best => best
  | l :: ls, none => bestLeft bt rscore ls (some (l, bt l + rscore))
  | l :: ls, some (b, sc) =>
    if sc < bt l + rscore then bestLeft bt rscore ls (some (l, bt l + rscore))
    else bestLeft bt rscore ls (some (b, sc))

/-- `lattice.rs:183-202`: all nodes beginning at one position; `none`: `return vec![]`. -/
def viterbiNodes (L : Lattice) (ends : List Nat) : List Nat → VState → Option VState
  | [], st => some st
  | r :: rs, st =>
    match bestLeft st.bt ((L.nodes[r]?.map (·.score)).getD 0) ends none with
    | none => none
    | some (b, sc) =>
      viterbiNodes L ends rs
        { prev := fun n => if n = r then some b else st.prev n
          bt := fun n => if n = r then sc else st.bt n }

/-- `lattice.rs:177-208`: all positions; `none`: `return vec![]`. -/
def viterbiLoop (L : Lattice) : Nat → Str → VState → Option VState
  | pos, rest, st =>
    match rest with
    | [] => if (L.beginNodes pos).isEmpty then none
            else viterbiNodes L (L.endNodes pos) (L.beginNodes pos) st
    | c :: cs =>
      if (L.beginNodes pos).isEmpty then none
      else match viterbiNodes L (L.endNodes pos) (L.beginNodes pos) st with
        | none => none
        | some st' => viterbiLoop L (pos + c.utf8Size) cs st'

/-- `lattice.rs:210-223`: follow `prev` until it is `None` (`results` before the final reversal).
`fuel` bounds the iterations. -/
def viterbiBack (st : VState) : Nat → Nat → Option (List Nat)
  | fuel, n =>
    match st.prev n with
    | none => some []
    | some m =>
      match fuel with
      | 0 => none
      | fuel + 1 => (viterbiBack st fuel m).map (n :: ·)

/-- `lattice.rs:176-224` `Lattice::viterbi`: node indices. `none` is an endless loop or a missing end
node; neither happens (`C24_agree_partial`). -/
def Lattice.viterbi (L : Lattice) : Option (List Nat) :=
  match viterbiLoop L 0 L.sentence ⟨fun _ => none, fun _ => 0⟩ with
  | none => some []
  | some st =>
    match L.beginNodes L.len with
    | [] => none
    | root :: _ =>
      match st.prev root with
      | none => some []
      | some n => (viterbiBack st L.len n).map List.reverse

/-- `lattice.rs:226-228` `Lattice::piece`. -/
def Lattice.piece (L : Lattice) (n : LNode) : Option Str := strGet L.sentence n.pos (n.pos + n.length)

/-- `model.rs:355-372`, the fusing loop. -/
def fuseLoop (u : Unigram) (L : Lattice) : List Nat → Str → List Str → Outcome UniErr (List Str)
  | [], token, results => .ok (if token.isEmpty then results else results ++ [token])
  | n :: ns, token, results =>
    match (L.nodes[n]?).bind (fun nd => (L.piece nd).map (fun p => (nd, p))) with
    | none => .panic
    | some (nd, item) =>
      match u.unkId with
      | none => .err .missingUnkId
      | some k =>
        if nd.id = k then fuseLoop u L ns (token ++ item) results
        else fuseLoop u L ns [] ((if token.isEmpty then results else results ++ [token]) ++ [item])

/-- `model.rs:346-380` `Unigram::encode_unoptimized` (with `alpha = None`). -/
def encodeUnoptimized (u : Unigram) (s : Str) : Outcome UniErr (List Str) :=
  match u.populateNodes (Lattice.from s u.bosId u.eosId) with
  | none => .panic
  | some L =>
    match L.viterbi with
    | none => .panic
    | some path =>
      if u.fuseUnk then fuseLoop u L path [] []
      else match path.mapM (fun n => (L.nodes[n]?).bind L.piece) with
        | none => .panic
        | some r => .ok r

/-- `model.rs:231-253` `Unigram::encode` (no sampling, empty cache). -/
def encode (u : Unigram) (s : Str) : Outcome UniErr (List Str) :=
  if s = [] then .ok []
  else if u.isOptimized then u.encodeOptimized s else u.encodeUnoptimized s

/-- `model.rs:454-461`: the byte tokens of a piece, if all of them exist. -/
def byteTokens (u : Unigram) (off : Range) (piece : Str) : Option (List Token) :=
  (strBytes piece).mapM fun b => (u.tokenToIds.get (byteToken b)).map fun id => ⟨id, byteToken b, off⟩

/-- `model.rs:447-474`: one piece; `none` is the error `MissingUnkId`. -/
def pieceTokens (u : Unigram) (offset : Nat) (piece : Str) : Option (List Token) :=
  let off := (offset, offset + blen piece)
  match u.tokenToIds.get piece with
  | some id => some [⟨id, piece, off⟩]
  | none =>
    match (if u.byteFallback then u.byteTokens off piece else none) with
    | some ts => some ts
    | none => u.unkId.map (fun k => [⟨k, piece, off⟩])

/-- `model.rs:444-476`, the loop over the pieces. -/
def tokenizePieces (u : Unigram) : Nat → List Str → Option (List Token)
  | _, [] => some []
  | offset, p :: ps =>
    (u.pieceTokens offset p).bind fun ts => (tokenizePieces u (offset + blen p) ps).map (ts ++ ·)

/-- `model.rs:443-477` `Unigram::tokenize`. -/
def tokenize (u : Unigram) (s : Str) : Outcome UniErr (List Token) :=
  match u.encode s with
  | .panic => .panic
  | .err x => .err x
  | .ok ps => match u.tokenizePieces 0 ps with
    | none => .err .missingUnkId
    | some ts => .ok ts

end Unigram
end Tok
