import Verif.PreTokenizers.Model

/-!
# What each pre-tokenizer is documented to do, as functions on plain text (C57)
-/

namespace Tok.PreTokenizer

/-- Put an element in front: into the first run if the keys agree, else as a new run. -/
def addRun {α κ : Type} [DecidableEq κ] (k : α → κ) (a : α) : List (List α) → List (List α)
  | (b :: g) :: gs => if k a = k b then (a :: b :: g) :: gs else [a] :: (b :: g) :: gs
  | gs => [a] :: gs

/-- Maximal runs of neighbours with the same key. -/
def runs {α κ : Type} [DecidableEq κ] (k : α → κ) : List α → List (List α)
  | [] => []
  | a :: l => addRun k a (runs k l)

/-- Every character satisfying `p` by itself, marked; the others in maximal runs. -/
def marked (p : Char → Bool) : Str → List (Str × Bool)
  | [] => []
  | c :: s =>
    if p c then ([c], true) :: marked p s
    else
      match marked p s with
      | (t, false) :: r => (c :: t, false) :: r
      | r => ([c], false) :: r

/-- The text from byte `b` on, cut at the given ranges, which are marked; nothing is put between ranges that touch. -/
def cutAt (s : Str) : Nat → List Range → List (Str × Bool)
  | b, [] => if b = blen s then [] else [((strGet s b (blen s)).getD [], false)]
  | b, m :: ms =>
    (if b = m.1 then [] else [((strGet s b m.1).getD [], false)]) ++
      ((strGet s m.1 m.2).getD [], true) :: cutAt s m.2 ms

/-- The words for a predicate that tells the separators. -/
def wordsBy (sep : Char → Bool) (s : Str) : List Str := (runs sep s).filter fun w => w.all fun c => !sep c

/-- Punctuation: an ASCII character that is neither control character, space, letter nor digit, or one Unicode calls
punctuation. -/
def Punct (u : CharTables) (c : Char) : Bool :=
  (c.toNat < 128 && 32 < c.toNat && c.toNat ≠ 127 && !c.isAlphanum) || u.punct c

/-- The kind of a character for `\w+|[^\w\s]+`: word, other, space. -/
def wordKind (u : CharTables) (c : Char) : Nat := if u.reWord c then 0 else if u.reSpace c then 2 else 1

/-- The number of pieces of at most `n` characters. -/
def pieceCount (n len : Nat) : Nat := len / n + if len % n = 0 then 0 else 1

/-- The script of a character: the kana are Han, as is `ー`; a space has none, nor has a character of no script. -/
def scriptOf (u : CharTables) (c : Char) : Option Script :=
  if c = 'ー' then some .han
  else if c = ' ' ∨ u.script c = .any then none
  else if u.script c = .hiragana ∨ u.script c = .katakana then some .han
  else some (u.script c)

/-- Every character with its script, or else that of the last character that has one. -/
def coloured (u : CharTables) : Option Script → Str → List (Char × Option Script)
  | _, [] => []
  | last, c :: s => (c, (scriptOf u c).or last) :: coloured u ((scriptOf u c).or last) s

/-- The texts that are not empty. -/
def solid (l : List Str) : List Str := l.filter (· ≠ [])

mutual
/-- The pieces of a text (some of which may be empty and are dropped). `first` tells whether the text begins at the very
beginning of the original one. -/
def cut (u : CharTables) (first : Bool) : PreTokenizer → Str → List Str
  | .bert, s => (wordsBy u.ws s).flatMap fun w => (marked (Punct u) w).map (·.1)
  | .byteLevel cfg re, s =>
    let t := ByteLevel.withSpace cfg.addPrefixSpace s
    (if cfg.useRegex then (cutAt t 0 (re t)).map (·.1) else [t]).map ByteLevel.spell
  | .delimiter c, s => wordsBy (· == c) s
  | .metaspace cfg, s =>
    let t := Metaspace.metaText cfg first s
    if cfg.split then NS.kept .mergedWithNext (marked (· == cfg.replacement) t) else [t]
  | .whitespace, s => (runs (wordKind u) s).filter fun w => w.all fun c => wordKind u c ≠ 2
  | .split re b inv, s => NS.kept b ((cutAt s 0 (re s)).map fun x => (x.1, x.2 != inv))
  | .punctuation b, s => NS.kept b (marked (Punct u) s)
  | .whitespaceSplit, s => wordsBy u.ws s
  | .digits individual, s => if individual then (marked u.numeric s).map (·.1) else runs u.numeric s
  | .unicodeScripts, s =>
    ((runs (·.2) (coloured u none s)).filter fun w => w.all (·.2.isSome)).map fun w => w.map (·.1)
  | .fixedLength n, s => (List.range (pieceCount n s.length)).map fun i => (s.drop (i * n)).take n
  | .sequence l, s => cutAll u first l s

/-- The pieces a sequence makes: each pre-tokenizer cuts the pieces of the one before. -/
def cutAll (u : CharTables) (first : Bool) : List PreTokenizer → Str → List Str
  | [], s => [s]
  | z :: l, s => (solid (cut u first z s)).flatMap (cutAll u false l)
end

mutual
/-- Regular expressions report matches in order, lengths are positive. -/
def Sound : PreTokenizer → Prop
  | .byteLevel _ re => ∀ s, NS.EngineMatches s 0 (re s)
  | .split re _ _ => ∀ s, NS.EngineMatches s 0 (re s)
  | .fixedLength n => 0 < n
  | .sequence l => SoundAll l
  | _ => True

def SoundAll : List PreTokenizer → Prop
  | [] => True
  | z :: l => Sound z ∧ SoundAll l
end

mutual
/-- It does not matter where the text begins: no `Metaspace` with the scheme `first`. -/
def Anywhere : PreTokenizer → Prop
  | .metaspace cfg => cfg.scheme ≠ .first
  | .sequence l => AnywhereAll l
  | _ => True

def AnywhereAll : List PreTokenizer → Prop
  | [] => True
  | z :: l => Anywhere z ∧ AnywhereAll l
end

/-- Only the first pre-tokenizer of a sequence may depend on where the text begins. -/
def FirstOnly : PreTokenizer → Prop
  | .sequence [] => True
  | .sequence (z :: l) => FirstOnly z ∧ AnywhereAll l
  | _ => True

end PreTokenizer

/-- The pieces of a pre-tokenized string, with their tokens if they have some. -/
def PTS.view (p : PTS) : List (Str × Option (List Token)) := p.splits.map fun s => (s.normalized.norm, s.tokens)

end Tok
