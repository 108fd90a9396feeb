import Verif.PreTokenizers.Loops
import Verif.Added.Match

/-!
# The fixed regular expressions of the code

The engines (`onig`, `fancy-regex`, `regex`) are not part of the repository. What they do is modelled here for the
constructs the fixed patterns of the code are made of: Perl-like semantics, where alternatives are tried in order and
repetitions are greedy and give back.
-/

namespace Tok

/-- The regular expressions the code contains. -/
inductive Re where
  | eps
  | cls (p : Char → Bool)
  | seq (a b : Re)
  | alt (a b : Re)
  | opt (a : Re)
  | star (a : Re)
  /-- `(?!a)` -/
  | notAhead (a : Re)
  /-- `^` -/
  | start
  /-- `$` (of the crate `regex`: the end of the text only) -/
  | stop

namespace Re

/-- The repetitions of `f`, longest first; a repetition that consumes nothing is not tried. -/
def iterate (f : Str → List Str) : Nat → Str → List Str
  | 0, s => [s]
  | k + 1, s => ((f s).filter fun t => t.length < s.length).flatMap (iterate f k) ++ [s]

/-- The ways to match a beginning of `s`, the preferred one first; a way is given by what it leaves of `s`. `n` is the
length of the whole text: `s` is its end. -/
def run (n : Nat) : Re → Str → List Str
  | .eps, s => [s]
  | .cls _, [] => []
  | .cls p, c :: s => if p c then [s] else []
  | .seq a b, s => (run n a s).flatMap (run n b)
  | .alt a b, s => run n a s ++ run n b s
  | .opt a, s => run n a s ++ [s]
  | .star a, s => iterate (run n a) s.length s
  | .notAhead a, s => if run n a s = [] then [s] else []
  | .start, s => if s.length = n then [s] else []
  | .stop, s => if s = [] then [s] else []

/-- `a+` -/
def plus (a : Re) : Re := .seq a (.star a)

/-- A text taken literally (`regex::escape`). -/
def lit : Str → Re
  | [] => .eps
  | c :: s => .seq (.cls (· == c)) (lit s)

/-- The first match in `s` (which is at byte `b`) and what is left after it: `find` of the engines. -/
def find (n : Nat) (r : Re) : Nat → Str → Option (Range × Str)
  | b, [] => (run n r []).head?.map fun t => ((b, b), t)
  | b, c :: s =>
    match (run n r (c :: s)).head? with
    | some t => some ((b, b + (blen (c :: s) - blen t)), t)
    | none => find n r (b + c.utf8Size) s

/-- `find_iter` (`utils/onig.rs:25-37`, `utils/fancy.rs:23-35`): the matches one after the other. An engine reports empty
matches too, here they are passed over: no pattern of the code that is used with `find_iter` matches the empty text. -/
def findFrom (n : Nat) (r : Re) : Nat → Nat → Str → List Range
  | 0, _, _ => []
  | k + 1, b, s =>
    match find n r b s with
    | none => []
    | some (m, t) =>
      if m.1 < m.2 then m :: findFrom n r k m.2 t
      else
        match t with
        | [] => []
        | c :: t => findFrom n r k (m.2 + c.utf8Size) t

/-- The matches in a text. -/
def findIter (r : Re) (s : Str) : List Range := findFrom s.length r (s.length + 1) 0 s

end Re

/-- The classes `\p{L}`, `\p{N}` and `\s` of the engine. -/
structure ReTables where
  letter : Char → Bool
  number : Char → Bool
  space : Char → Bool

namespace Re

/-- `r"'s|'t|'re|'ve|'m|'ll|'d| ?\p{L}+| ?\p{N}+| ?[^\s\p{L}\p{N}]+|\s+(?!\S)|\s+"`
(`pre_tokenizers/byte_level.rs:43-46`). -/
def byteLevel (u : ReTables) : Re :=
  .alt (lit "'s".toList) <| .alt (lit "'t".toList) <| .alt (lit "'re".toList) <| .alt (lit "'ve".toList) <|
  .alt (lit "'m".toList) <| .alt (lit "'ll".toList) <| .alt (lit "'d".toList) <|
  .alt (.seq (.opt (.cls (· == ' '))) (plus (.cls u.letter))) <|
  .alt (.seq (.opt (.cls (· == ' '))) (plus (.cls u.number))) <|
  .alt (.seq (.opt (.cls (· == ' '))) (plus (.cls fun c => !(u.space c || u.letter c || u.number c)))) <|
  .alt (.seq (plus (.cls u.space)) (.notAhead (.cls fun c => !u.space c))) <|
  plus (.cls u.space)

/-- `r"\w+|[^\w\s]+"` (`pre_tokenizers/whitespace.rs:22`). -/
def word (u : CharTables) : Re :=
  .alt (plus (.cls u.reWord)) (plus (.cls fun c => !(u.reWord c || u.reSpace c)))

/-- `r"^\w"` (`added_vocabulary.rs:99`). -/
def startsWithWord (cl : AddedVocab.Classes) : Re := .seq .start (.cls cl.isWord)

/-- `r"\w$"` (`added_vocabulary.rs:100`). -/
def endsWithWord (cl : AddedVocab.Classes) : Re := .seq (.cls cl.isWord) .stop

/-- `r"^\s*"` (`added_vocabulary.rs:101`). -/
def spaceAtStart (cl : AddedVocab.Classes) : Re := .seq .start (.star (.cls cl.isSpace))

/-- `r"\s*$"` (`added_vocabulary.rs:102`). -/
def spaceAtEnd (cl : AddedVocab.Classes) : Re := .seq (.star (.cls cl.isSpace)) .stop

end Re
end Tok
