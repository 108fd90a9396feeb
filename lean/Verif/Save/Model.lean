import Verif.Bpe.Model
import Verif.Unigram.Model
import Verif.Models.WordPiece
import Verif.Added.Vocab

/-!
# Model of saving and reloading

`models/mod.rs` (`OrderedVocabIter`), `models/*/serialization.rs`, the vocabulary and merge files, and the added tokens of
`tokenizer/serialization.rs`. The text of JSON is not modelled: an object is the list of its entries in the order in which
they are written, an array a list, numbers and strings are themselves.
-/

namespace Tok.Save

/-- `OrderedVocabIter::serialize` (`models/mod.rs:33-58`): the entries of the object, by increasing id. The warning about
holes is left out; `max + 1` does not overflow (`u32::MAX` is no id). -/
def ordered (vr : AMap Nat Str) : List (Str × Nat) :=
  match (vr.map (·.1)).max? with
  | some mx => (List.range (mx + 1)).filterMap fun i => (vr.get i).map fun t => (t, i)
  | none => []

/-- An object read into a hash map, as `map.next_value()` (`models/bpe/serialization.rs:128`) or entry by entry
(`models/bpe/model.rs:417-427`, `models/wordlevel/mod.rs:121-131`). -/
def readVocab (l : List (Str × Nat)) : AMap Str Nat := AMap.extend [] l

/-- Put an element before the first one with a larger or equal key. -/
def insertBy {α : Type} (key : α → Nat) (a : α) : List α → List α
  | [] => [a]
  | b :: l => if key a ≤ key b then a :: b :: l else b :: insertBy key a l

/-- `vocab.sort_unstable_by_key(|k| *k.1)` and the like. When keys tie, the code may give another order. -/
def sortBy {α : Type} (key : α → Nat) (l : List α) : List α := l.foldr (insertBy key) []

/-! ## Files -/

/-- `BufRead::lines`: split after every `\n`, which is removed together with a `\r` before it; what follows the last `\n`
is a line if it is not empty. `acc` is the line so far. -/
def linesLoop : Str → Str → List Str
  | [], acc => if acc = [] then [] else [acc]
  | c :: cs, acc =>
    if c = '\n' then (if acc.getLast? = some '\r' then acc.dropLast else acc) :: linesLoop cs []
    else linesLoop cs (acc ++ [c])

/-- `BufRead::lines`. -/
def lines (s : Str) : List Str := linesLoop s []

/-- `str::trim_end`; `ws` is `char::is_whitespace`. -/
def trimEnd (ws : Char → Bool) (s : Str) : Str := (s.reverse.dropWhile ws).reverse

/-- The content of `vocab.txt` (`WordPiece::save`, `models/wordpiece/mod.rs:304-311`). -/
def wordPieceFile (vocab : AMap Str Nat) : Str := (sortBy (·.2) vocab).flatMap fun x => x.1 ++ ['\n']

/-- `WordPiece::read_file`, `read_bytes` (`models/wordpiece/mod.rs:160-187`) on a given content. -/
def readWordPieceFile (ws : Char → Bool) (s : Str) : AMap Str Nat :=
  AMap.extend [] ((lines s).zipIdx.map fun x => (trimEnd ws x.1, x.2))

/-- `str::split(' ')`; `acc` is the part so far. -/
def splitSpaceLoop : Str → Str → List Str
  | [], acc => [acc]
  | c :: cs, acc => if c = ' ' then acc :: splitSpaceLoop cs [] else splitSpaceLoop cs (acc ++ [c])

/-- `str::split(' ')`. -/
def splitSpace (s : Str) : List Str := splitSpaceLoop s []

/-- The loop of `convert_merges_to_hashmap` (`models/bpe/model.rs:375-383`); `error` is `BadMerges` with the number of the
line. -/
def readMergesLoop : Nat → List Str → Except Nat (List (Str × Str))
  | _, [] => .ok []
  | rank, l :: ls =>
    match splitSpace l with
    | [a, b] => (readMergesLoop (rank + 1) ls).map fun ms => (a, b) :: ms
    | _ => .error (rank + 1)

/-- `convert_merges_to_hashmap` (`models/bpe/model.rs:369-386`). -/
def readMerges (ls : List Str) : Except Nat (List (Str × Str)) :=
  readMergesLoop 0 (ls.filter fun l => !("#version".toList.isPrefixOf l))

/-- The content of `merges.txt` (`BPE::save`, `models/bpe/model.rs:653-661`), given the names of the merges. -/
def mergesFile (ms : List (Str × Str)) : Str :=
  "#version: 0.2\n".toList ++ ms.flatMap fun m => m.1 ++ [' '] ++ m.2 ++ ['\n']

/-! ## Models -/

/-- The names of the merges by rank (`models/bpe/serialization.rs:27-36`, `models/bpe/model.rs:647-658`);
`self.vocab_r[..]` panics on an unknown id. -/
def mergeNames (b : Bpe.Bpe) : Option (List (Str × Str)) :=
  (sortBy (fun m => m.2.1) b.merges).mapM fun m =>
    (b.vocabR.get m.1.1).bind fun x => (b.vocabR.get m.1.2).map fun y => (x, y)

/-- The fields of a saved BPE model (`models/bpe/serialization.rs:14-43`). -/
structure SavedBpe where
  dropout : Bool
  unk : Option Str
  pre : Option Str
  suf : Option Str
  fuseUnk : Bool
  byteFallback : Bool
  ignoreMerges : Bool
  vocab : List (Str × Nat)
  merges : List (Str × Str)

/-- `Serialize for BPE` (`models/bpe/serialization.rs:9-45`). The dropout is only remembered as in `Bpe`. -/
def saveBpe (b : Bpe.Bpe) : Option SavedBpe :=
  (mergeNames b).map fun ms =>
    ⟨b.useDropout, b.unk, b.pre, b.suf, b.fuseUnk, b.byteFallback, b.ignoreMerges, ordered b.vocabR, ms⟩

/-- `Deserialize for BPE` (`models/bpe/serialization.rs:76-156`): the options that are there replace the builder's
defaults. -/
def loadBpe (s : SavedBpe) : Outcome Bpe.BuildErr Bpe.Bpe :=
  Bpe.build (readVocab s.vocab) s.merges
    { vocab := [], vocabR := [], merges := [], useDropout := s.dropout, unk := s.unk, pre := s.pre, suf := s.suf,
      fuseUnk := s.fuseUnk, byteFallback := s.byteFallback, ignoreMerges := s.ignoreMerges }

/-- `Serialize for Unigram` (`models/unigram/serialization.rs:8-22`). -/
def saveUnigram (u : Unigram) : Option Nat × List (Str × Rat) × Bool := (u.unkId, u.vocab, u.byteFallback)

/-- `Deserialize for Unigram` (`models/unigram/serialization.rs:46-76`). -/
def loadUnigram (s : Option Nat × List (Str × Rat) × Bool) : Except UniErr Unigram := Unigram.from s.2.1 s.1 s.2.2

/-- `vocab_r` as the builders make it (`models/wordpiece/mod.rs:103-108`, `models/wordlevel/mod.rs:82-87`). -/
def swap (v : AMap Str Nat) : AMap Nat Str := AMap.extend [] (v.map fun p => (p.2, p.1))

/-- `Serialize for WordPiece` (`models/wordpiece/serialization.rs:9-29`). -/
def saveWordPiece (w : WordPiece) : Str × Str × Nat × List (Str × Nat) :=
  (w.unkToken, w.continuingPrefix, w.maxInputChars, ordered (swap w.vocab))

/-- `Deserialize for WordPiece` (`models/wordpiece/serialization.rs:57-108`). -/
def loadWordPiece (s : Str × Str × Nat × List (Str × Nat)) : WordPiece := ⟨readVocab s.2.2.2, s.1, s.2.1, s.2.2.1⟩

/-- `Serialize for WordLevel` (`models/wordlevel/serialization.rs:9-21`). -/
def saveWordLevel (w : WordLevel) : List (Str × Nat) × Str := (ordered (swap w.vocab), w.unkToken)

/-- `Deserialize for WordLevel` (`models/wordlevel/serialization.rs:43-80`). -/
def loadWordLevel (s : List (Str × Nat) × Str) : WordLevel := ⟨readVocab s.1, s.2⟩

/-! ## Added tokens -/

/-- `Serialize for AddedVocabulary` (`tokenizer/added_vocabulary.rs:582-605`). -/
def saveAdded (av : AddedVocab) : List (Nat × AddedToken) := sortBy (·.1) av.rmap

/-- The end of `TokenizerVisitor::visit_map` (`tokenizer/serialization.rs:150-170`): the tokens are added, in the order of
the file, to a new added vocabulary; the ids of the file are only used for a warning. `none` is an error. -/
def loadAdded (build : List (Str × Nat) → Bool) (m : ModelView) (norm : AddedVocab.Norm)
    (l : List (Nat × AddedToken)) : Option AddedVocab :=
  match AddedVocab.empty.addTokens build m norm (l.map (·.2)) with
  | (av, some _) => some av
  | (_, none) => none

end Tok.Save
