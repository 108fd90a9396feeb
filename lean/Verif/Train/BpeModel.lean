import Verif.Bpe.Model
import Verif.Tokenizer.Vocab

/-!
# Model of `models/bpe/trainer.rs` and `Word::merge` (`models/bpe/word.rs`)

Simplifications, in one place: pair counts (`i32`) are integers and word counts (`u64`) natural numbers, so overflow is
outside the model; `usize::MAX` as maximal token length is no limit; a hash map or hash set is visited in the order of the
list (the order of the word counts is arbitrary, the one of the alphabet is a parameter); the parallel `map`/`reduce` and
`flat_map` run in order (the counts are sums, the positions sets); progress reports are left out.
-/

namespace Tok.Train

/-- A symbol of a word: id and length. `Word::merge` reads neither `prev` nor `next`. -/
abbrev Sym := Nat × Nat

abbrev Pair := Nat × Nat

/-- The options of `BpeTrainer` (`trainer.rs:188-213`). -/
structure BpeCfg where
  minFrequency : Nat := 0
  vocabSize : Nat := 30000
  specials : List Str := []
  limitAlphabet : Option Nat := none
  initialAlphabet : List Char := []
  pre : Option Str := none
  suf : Option Str := none
  maxLen : Option Nat := none

/-! ## `Word::merge` -/

/-- `len < max_length` (`word.rs:140, 153`). -/
def fits (maxLen : Option Nat) (len : Nat) : Bool :=
  match maxLen with
  | some m => len < m
  | none => true

/-- The changes before a new symbol (`word.rs:138-143`). -/
def prevChanges (maxLen : Option Nat) (prev : Option Sym) (first new : Sym) : List (Pair × Int) :=
  match prev with
  | none => []
  | some p => ((p.1, first.1), -1) :: (if fits maxLen (p.2 + new.2) then [((p.1, new.1), 1)] else [])

/-- The changes after a new symbol (`word.rs:151-156`). -/
def nextChanges (maxLen : Option Nat) (second new : Sym) (next : Option Sym) : List (Pair × Int) :=
  match next with
  | none => []
  | some n => ((second.1, n.1), -1) :: (if fits maxLen (n.2 + new.2) then [((new.1, n.1), 1)] else [])

/-- `Word::merge` (`word.rs:107-161`), from symbol `i` on, `prev` being the symbol before it: the new symbols and the
changes. -/
def mergeWord (c1 c2 r : Nat) (maxLen : Option Nat) : Option Sym → List Sym → List Sym × List (Pair × Int)
  | _, [] => ([], [])
  | _, [a] => ([a], [])
  | prev, a :: b :: rest =>
    if a.1 = c1 ∧ b.1 = c2 then
      let new : Sym := (r, a.2 + b.2)
      let (w, ch) := mergeWord c1 c2 r maxLen (some new) rest
      (new :: w, prevChanges maxLen prev a new ++ nextChanges maxLen b new rest.head? ++ ch)
    else
      let (w, ch) := mergeWord c1 c2 r maxLen (some a) (b :: rest)
      (a :: w, ch)

/-! ## Vocabulary -/

/-- `word_to_id` and `id_to_word`. -/
structure Voc where
  w2id : AMap Str Nat
  id2w : List Str

/-- `if !w2id.contains_key(..) { id2w.push(..); w2id.insert(..) }` (`trainer.rs:291-294, 349-352, 389-392`). -/
def Voc.add (v : Voc) (s : Str) : Voc :=
  match v.w2id.get s with
  | some _ => v
  | none => ⟨v.w2id.insert s v.id2w.length, v.id2w ++ [s]⟩

/-- `add_special_tokens` (`trainer.rs:283-296`). -/
def addSpecials (cfg : BpeCfg) (v : Voc) : Voc := cfg.specials.foldl Voc.add v

/-- `*alphabet.entry(c).or_default() += n`. -/
def bumpChar (n : Nat) (m : AMap Char Nat) (c : Char) : AMap Char Nat := m.insert c ((m.get c).getD 0 + n)

/-- The characters with their frequencies (`trainer.rs:306-316`). -/
def alphabetOf (cfg : BpeCfg) (wc : AMap Str Nat) : AMap Char Nat :=
  cfg.initialAlphabet.foldl (fun m c => m.insert c (2 ^ 64 - 1))
    (wc.foldl (fun m p => p.1.foldl (bumpChar p.2) m) [])

/-- Put an element before the first one whose key is not smaller. -/
def insertByKey (key : α → Nat) (a : α) : List α → List α
  | [] => [a]
  | b :: l => if key a ≤ key b then a :: b :: l else b :: insertByKey key a l

/-- `sort_unstable_by_key`. -/
def sortByKey (key : α → Nat) (l : List α) : List α := l.foldr (insertByKey key) []

/-- `alphabet.len().saturating_sub(limit)` (`trainer.rs:323-326`). -/
def toRemove (cfg : BpeCfg) (alphabet : AMap Char Nat) : Nat :=
  match cfg.limitAlphabet with
  | some limit => alphabet.length - limit
  | none => 0

/-- The characters kept, in order (`trainer.rs:318-335`). `order` is the order in which the hash map is visited; an unstable
sort may exchange characters of the same frequency, which a different order does as well. -/
def keptChars (cfg : BpeCfg) (order : AMap Char Nat → AMap Char Nat) (wc : AMap Str Nat) : List (Char × Nat) :=
  let alphabet := alphabetOf cfg wc
  let kept := order alphabet
  let n := toRemove cfg alphabet
  let kept := if n > 0 then (sortByKey (·.2) kept).drop n else kept
  sortByKey (·.1.toNat) kept

/-- `compute_alphabet` (`trainer.rs:299-354`). -/
def computeAlphabet (cfg : BpeCfg) (order : AMap Char Nat → AMap Char Nat) (wc : AMap Str Nat) (v : Voc) : Voc :=
  (keptChars cfg order wc).foldl (fun v p => v.add [p.1]) v

/-! ## Words -/

/-- The string of a symbol (`trainer.rs:370-387`). -/
def atomStr (cfg : BpeCfg) (first last : Bool) (c : Char) : Str :=
  let s : Str := [c]
  let s := if !first then
      match cfg.pre with
      | some p => p ++ s
      | none => s
    else s
  if last then
    match cfg.suf with
    | some x => s ++ x
    | none => s
  else s

/-- The symbols of a word (`trainer.rs:370-396`). -/
def tokenizeChars (cfg : BpeCfg) : Bool → Str → Voc → Voc × List Sym
  | _, [], v => (v, [])
  | first, c :: rest, v =>
    match v.w2id.get [c] with
    | none => tokenizeChars cfg false rest v
    | some _ =>
      let s := atomStr cfg first rest.isEmpty c
      let v1 := v.add s
      let (v2, w) := tokenizeChars cfg false rest v1
      (v2, ((v1.w2id.get s).getD 0, 1) :: w)

/-- `tokenize_words` (`trainer.rs:357-406`). -/
def tokenizeWords (cfg : BpeCfg) : AMap Str Nat → Voc → Voc × List (List Sym)
  | [], v => (v, [])
  | (word, _) :: rest, v =>
    let (v1, w) := tokenizeChars cfg true word v
    let (v2, ws) := tokenizeWords cfg rest v1
    (v2, w :: ws)

/-! ## Counting pairs -/

/-- `word.get_chars().windows(2)`. -/
def windows : List Sym → List Pair
  | a :: b :: rest => (a.1, b.1) :: windows (b :: rest)
  | _ => []

/-- `pair_counts` and `where_to_update`. -/
abbrev Stats := AMap Pair Int × AMap Pair (List Nat)

/-- `*pair_counts.entry(pair).or_default() += n`. -/
def bumpPair (m : AMap Pair Int) (p : Pair) (n : Int) : AMap Pair Int := m.insert p ((m.get p).getD 0 + n)

/-- `where_to_update.entry(pair).or_default().insert(i)`. -/
def addPos (m : AMap Pair (List Nat)) (p : Pair) (i : Nat) : AMap Pair (List Nat) :=
  let l := (m.get p).getD []
  m.insert p (if i ∈ l then l else i :: l)

/-- One change (`trainer.rs:566-572`); in `count_pairs` each window is a change by one (`trainer.rs:423-430`). -/
def applyChange (counts : List Nat) (st : Stats) (ch : (Pair × Int) × Nat) : Stats :=
  (bumpPair st.1 ch.1.1 (ch.1.2 * counts.getD ch.2 0),
   if ch.1.2 > 0 then addPos st.2 ch.1.1 ch.2 else st.2)

/-- `count_pairs` (`trainer.rs:408-452`). -/
def countPairs (words : List (List Sym)) (counts : List Nat) : Stats :=
  (words.zipIdx.flatMap fun p => (windows p.1).map fun q => ((q, 1), p.2)).foldl (applyChange counts) ([], [])

/-! ## The queue -/

/-- `Merge` (`trainer.rs:14-19`). -/
structure Entry where
  pair : Pair
  count : Nat
  pos : List Nat
deriving DecidableEq, Repr

/-- `self.cmp(other)` is not `Less` (`trainer.rs:30-38`): the larger count, then the smaller pair. -/
def Entry.above (e f : Entry) : Bool :=
  f.count < e.count || (f.count == e.count && (e.pair.1 < f.pair.1 || (e.pair.1 == f.pair.1 && e.pair.2 ≤ f.pair.2)))

/-- `queue.pop()`: the greatest entry. -/
def popMax : List Entry → Option (Entry × List Entry)
  | [] => none
  | e :: q =>
    match popMax q with
    | none => some (e, [])
    | some (m, q') => if e.above m then some (e, m :: q') else some (m, e :: q')

/-- `where_to_update.drain()...queue.push(..)` (`trainer.rs:490-500, 573-582`). -/
def pushAll (st : Stats) (queue : List Entry) : List Entry :=
  (st.2.filterMap fun p =>
    match st.1.get p.1 with
    | some c => if c > 0 then some ⟨p.1, c.toNat, p.2⟩ else none
    | none => none) ++ queue

/-! ## The loop -/

/-- `count as u64` of an `i32`. -/
def toU64 (c : Int) : Nat := if c < 0 then (2 ^ 64 + c).toNat else c.toNat

/-- The variables of `do_train`. -/
structure St where
  voc : Voc
  words : List (List Sym)
  pc : AMap Pair Int
  queue : List Entry
  merges : List (Pair × Nat) := []

/-- How one iteration, or the loop, ends. -/
inductive Out where
  | panic
  | stop (s : St)
  | more (s : St)

/-- `if let Some(rest) = part_b.strip_prefix(prefix) { part_b = rest }` (`trainer.rs:527-531`). -/
def stripPre (pre : Option Str) (s : Str) : Str :=
  match pre with
  | none => s
  | some p => if p.isPrefixOf s then s.drop p.length else s

/-- The changes of all words in `pos`, with the index of the word (`trainer.rs:551-563`). -/
def changesAt (c1 c2 r : Nat) (maxLen : Option Nat) (words : List (List Sym)) (pos : List Nat) : List ((Pair × Int) × Nat) :=
  pos.flatMap fun i => (mergeWord c1 c2 r maxLen none (words.getD i [])).2.map fun ch => (ch, i)

/-- The words after the merge: those in `pos` are changed. -/
def mergeAt (c1 c2 r : Nat) (maxLen : Option Nat) (words : List (List Sym)) (pos : List Nat) : List (List Sym) :=
  words.zipIdx.map fun p => if p.2 ∈ pos then (mergeWord c1 c2 r maxLen none p.1).1 else p.1

/-- The rest of an iteration, once the pair is chosen (`trainer.rs:525-582`). -/
def doMerge (cfg : BpeCfg) (counts : List Nat) (s : St) (top : Entry) (q : List Entry) : Out :=
  match s.voc.id2w[top.pair.1]?, s.voc.id2w[top.pair.2]? with
  | some a, some b =>
    let tok := a ++ stripPre cfg.pre b
    let r := (s.voc.w2id.get tok).getD s.voc.id2w.length
    if top.pos.all (· < s.words.length) then
      let st := (changesAt top.pair.1 top.pair.2 r cfg.maxLen s.words top.pos).foldl (applyChange counts) (s.pc, [])
      .more ⟨s.voc.add tok, mergeAt top.pair.1 top.pair.2 r cfg.maxLen s.words top.pos, st.1, pushAll st q,
        s.merges ++ [(top.pair, r)]⟩
    else .panic
  | _, _ => .panic

/-- One iteration (`trainer.rs:507-587`). -/
def step (cfg : BpeCfg) (counts : List Nat) (s : St) : Out :=
  if s.voc.w2id.length ≥ cfg.vocabSize then .stop s
  else
    match popMax s.queue with
    | none => .stop s
    | some (top, q) =>
      match s.pc.get top.pair with
      | none => .panic
      | some c =>
        if top.count ≠ toU64 c then .more { s with queue := { top with count := toU64 c } :: q }
        else if top.count < 1 ∨ cfg.minFrequency > top.count then .stop { s with queue := q }
        else doMerge cfg counts s top q

/-- `fuel` iterations of the loop, fewer if it ends. -/
def loop (cfg : BpeCfg) (counts : List Nat) : Nat → St → Out
  | 0, s => .more s
  | fuel + 1, s =>
    match step cfg counts s with
    | .more s' => loop cfg counts fuel s'
    | o => o

/-- Everything before the loop (`trainer.rs:464-500`). -/
def start (cfg : BpeCfg) (order : AMap Char Nat → AMap Char Nat) (wc : AMap Str Nat) : St :=
  let v := computeAlphabet cfg order wc (addSpecials cfg ⟨[], []⟩)
  let (v, words) := tokenizeWords cfg wc v
  let st := countPairs words (wc.map (·.2))
  ⟨v, words, st.1, pushAll st [], []⟩

/-- The fields written into the model (`trainer.rs:592-612`); the others keep their value. `none` is an index out of
`id_to_word`. -/
def finish (cfg : BpeCfg) (s : St) (b : Bpe.Bpe) : Option Bpe.Bpe :=
  match s.voc.w2id.mapM (fun p => (s.voc.id2w[p.2]?).map fun t => (t, p.2)) with
  | none => none
  | some l =>
    let vocab := AMap.extend [] l
    some { b with
      vocab := vocab
      vocabR := AMap.extend [] (vocab.map fun p => (p.2, p.1))
      merges := AMap.extend [] (s.merges.zipIdx.map fun p => (p.1.1, (p.2, p.1.2)))
      pre := cfg.pre
      suf := cfg.suf }

end Tok.Train
