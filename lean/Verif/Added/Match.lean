import Verif.Added.Vocab
import Verif.Pre.Pieces

/-!
# Model of `tokenizer/added_vocabulary.rs`: finding added tokens in a text; C27
-/

namespace Tok
namespace AddedVocab

/-- The regex classes `\w` and `\s`. -/
structure Classes where
  isWord : Char → Bool
  isSpace : Char → Bool

/-- The better of two patterns: the text must begin with it, and it must be longer. -/
def better (s : Str) (best : Option (Str × Nat)) (p : Str × Nat) : Option (Str × Nat) :=
  if p.1.isPrefixOf s then
    match best with
    | none => some p
    | some b => if b.1.length < p.1.length then some p else some b
  else best

/-- The longest of the patterns the text begins with. -/
def longest (pats : List (Str × Nat)) (s : Str) : Option (Str × Nat) := pats.foldl (better s) none

/-- `leftmost_find_iter` of a `LeftmostLongest` automaton (crate `daachorse`, not part of the repository; used at
`added_vocabulary.rs:444`): start, end and value of the matches. `pos` is the byte position, `skip` the number of
characters of the current match still to be passed. -/
def scan (pats : List (Str × Nat)) : Nat → Nat → Str → List (Nat × Nat × Nat)
  | _, _, [] => []
  | pos, skip + 1, c :: cs => scan pats (pos + c.utf8Size) skip cs
  | pos, 0, c :: cs =>
    match longest pats (c :: cs) with
    | some p => (pos, pos + blen p.1, p.2) :: scan pats (pos + c.utf8Size) (p.1.length - 1) cs
    | none => scan pats (pos + c.utf8Size) 0 cs

/-- `ends_with_word` (`added_vocabulary.rs:104-106`). -/
def endsWithWord (cl : Classes) (s : Str) : Bool :=
  match s.getLast? with
  | some c => cl.isWord c
  | none => false

/-- `starts_with_word` (`added_vocabulary.rs:108-110`). -/
def startsWithWord (cl : Classes) : Str → Bool
  | c :: _ => cl.isWord c
  | [] => false

/-- `space_leftmost_at_end` (`added_vocabulary.rs:112-118`). -/
def spaceLeftmostAtEnd (cl : Classes) (s : Str) : Nat := blen (s.reverse.dropWhile cl.isSpace).reverse

/-- `space_rightmost_at_start` (`added_vocabulary.rs:119-125`). -/
def spaceRightmostAtStart (cl : Classes) (s : Str) : Nat := blen (s.takeWhile cl.isSpace)

/-- The body of the loop of `find_matches` (`added_vocabulary.rs:445-481`): the splits pushed and the new
`start_offset`; `none` is a panic (unknown id, position inside a character). The text before and after the match is
taken in any case, the code does it only if it needs it. -/
def matchStep (cl : Classes) (av : AddedVocab) (s : Str) (off : Nat) (m : Nat × Nat × Nat) :
    Option (List (Option Nat × Range) × Nat) :=
  match av.rmap.get m.2.2, takeBytes m.1 s, dropBytes m.2.1 s with
  | some t, some before, some after =>
    if av.encodeSpecial ∧ t.content ∈ av.specials then some ([], off)
    else if t.singleWord ∧ (endsWithWord cl before ∨ startsWithWord cl after) then some ([], off)
    else
      let start := if t.lstrip then max (spaceLeftmostAtEnd cl before) off else m.1
      let stop := if t.rstrip then m.2.1 + spaceRightmostAtStart cl after else m.2.1
      some ((if off < start then [(none, (off, start))] else []) ++ [(some m.2.2, (start, stop))], stop)
  | _, _, _ => none

/-- The loop of `find_matches` and what follows it (`added_vocabulary.rs:444-489`). -/
def findLoop (cl : Classes) (av : AddedVocab) (s : Str) :
    Nat → List (Nat × Nat × Nat) → Option (List (Option Nat × Range))
  | off, [] => some (if off ≠ blen s then [(none, (off, blen s))] else [])
  | off, m :: ms => (matchStep cl av s off m).bind fun r => (findLoop cl av s r.2 ms).map (r.1 ++ ·)

/-- `find_matches` (`added_vocabulary.rs:430-490`). -/
def findMatches (cl : Classes) (av : AddedVocab) (pats : List (Str × Nat)) (s : Str) :
    Option (List (Option Nat × Range)) :=
  if s = [] then some [(none, (0, 0))]
  else if pats = [] then some [(none, (0, blen s))]
  else findLoop cl av s 0 (scan pats 0 0 s)

/-- One split of `split_with_indices` (`added_vocabulary.rs:502-513`). -/
def toSplit (n : NS) (x : Option Nat × Range) : Option Split :=
  match n.sliceNormalized x.2 with
  | some (some sl) => some ⟨sl, x.1.map fun id => [⟨id, sl.norm, (0, blen sl.norm)⟩]⟩
  | _ => none

/-- `split_with_indices` (`added_vocabulary.rs:495-515`). -/
def splitWithIndices (cl : Classes) (av : AddedVocab) (pats : List (Str × Nat)) (n : NS) : Option (List Split) :=
  (findMatches cl av pats n.norm).bind fun l => l.mapM (toSplit n)

/-- A result of `split`: a panic is the error. -/
def orPanic {α : Type} : Option α → Except Unit α
  | some a => .ok a
  | none => .error ()

/-- `extract_and_normalize` (`added_vocabulary.rs:523-564`). `norm` is what the normalizer makes of a piece (its
errors are ignored by the code, `norm` then returns what it left behind); `none` is a panic. -/
def extractAndNormalize (cl : Classes) (av : AddedVocab) (norm : NS → Option NS) (s : Str) : Except Unit PTS :=
  (PTS.split (PTS.ofStr s) fun _ n => orPanic (splitWithIndices cl av av.trie n)).bind fun p =>
    p.split fun _ n => orPanic ((norm n).bind (splitWithIndices cl av av.normTrie))

/-! ## Leftmost-longest matches -/

/-- The text cut at its leftmost-longest matches: for each of them the text since the one before, the pattern and its
value. No pattern occurs earlier, none of the patterns found at the same place is longer. -/
inductive Hits (pats : List (Str × Nat)) : Str → List (Str × Str × Nat) → Prop
  | done {s} : (∀ u v, s = u ++ v → v ≠ [] → ∀ p ∈ pats, ¬ p.1 <+: v) → Hits pats s []
  | hit {gap p id rest hs} : (p, id) ∈ pats →
      (∀ q ∈ pats, q.1 <+: p ++ rest → q.1.length ≤ p.length) →
      (∀ u v, gap = u ++ v → v ≠ [] → ∀ q ∈ pats, ¬ q.1 <+: v ++ p ++ rest) →
      Hits pats rest hs → Hits pats (gap ++ p ++ rest) ((gap, p, id) :: hs)

/-- Their byte positions. -/
def hitOffsets : Nat → List (Str × Str × Nat) → List (Nat × Nat × Nat)
  | _, [] => []
  | b, (g, p, id) :: hs => (b + blen g, b + blen g + blen p, id) :: hitOffsets (b + blen g + blen p) hs

/-- `best` is the longest of `pats` that `s` begins with. -/
def IsBest (s : Str) (pats : List (Str × Nat)) : Option (Str × Nat) → Prop
  | none => ∀ q ∈ pats, ¬ q.1 <+: s
  | some p => p ∈ pats ∧ p.1 <+: s ∧ ∀ q ∈ pats, q.1 <+: s → q.1.length ≤ p.1.length

theorem better_best {s : Str} {pats : List (Str × Nat)} {best : Option (Str × Nat)} (h : IsBest s pats best)
    (p : Str × Nat) : IsBest s (pats ++ [p]) (better s best p) := by
  unfold better
  by_cases hp : p.1.isPrefixOf s = true
  · rw [if_pos hp]
    have hp := List.isPrefixOf_iff_prefix.1 hp
    cases best with
    | none =>
      refine ⟨by simp, hp, fun q hq hqs => ?_⟩
      rcases List.mem_append.1 hq with hq | hq
      · exact absurd hqs (h q hq)
      · simp at hq; rw [hq]; exact Nat.le_refl _
    | some b =>
      obtain ⟨h1, h2, h3⟩ := h
      simp only
      by_cases hl : b.1.length < p.1.length
      · rw [if_pos hl]
        refine ⟨by simp, hp, fun q hq hqs => ?_⟩
        rcases List.mem_append.1 hq with hq | hq
        · have := h3 q hq hqs; omega
        · simp at hq; rw [hq]; exact Nat.le_refl _
      · rw [if_neg hl]
        refine ⟨by simp [h1], h2, fun q hq hqs => ?_⟩
        rcases List.mem_append.1 hq with hq | hq
        · exact h3 q hq hqs
        · simp at hq; rw [hq]; omega
  · rw [if_neg hp]
    have hp : ¬ p.1 <+: s := fun h => hp (List.isPrefixOf_iff_prefix.2 h)
    cases best with
    | none =>
      intro q hq
      rcases List.mem_append.1 hq with hq | hq
      · exact h q hq
      · simp at hq; rw [hq]; exact hp
    | some b =>
      obtain ⟨h1, h2, h3⟩ := h
      refine ⟨by simp [h1], h2, fun q hq hqs => ?_⟩
      rcases List.mem_append.1 hq with hq | hq
      · exact h3 q hq hqs
      · simp at hq; rw [hq] at hqs; exact absurd hqs hp

theorem foldl_best {s : Str} : ∀ (todo pats : List (Str × Nat)) (best : Option (Str × Nat)), IsBest s pats best →
    IsBest s (pats ++ todo) (todo.foldl (better s) best)
  | [], pats, best, h => by simpa using h
  | p :: todo, pats, best, h => by
    have := foldl_best todo (pats ++ [p]) _ (better_best h p)
    simpa using this

theorem longest_best (pats : List (Str × Nat)) (s : Str) : IsBest s pats (longest pats s) :=
  foldl_best pats [] none (by intro q hq; cases hq)

theorem longest_some {pats : List (Str × Nat)} {s : Str} {p : Str × Nat} (h : longest pats s = some p) :
    p ∈ pats ∧ p.1 <+: s ∧ ∀ q ∈ pats, q.1 <+: s → q.1.length ≤ p.1.length := by
  have := longest_best pats s
  rw [h] at this; exact this

theorem longest_none {pats : List (Str × Nat)} {s : Str} (h : longest pats s = none) :
    ∀ q ∈ pats, ¬ q.1 <+: s := by
  have := longest_best pats s
  rw [h] at this; exact this

theorem scan_skip (pats : List (Str × Nat)) : ∀ (a b : Str) (pos : Nat),
    scan pats pos a.length (a ++ b) = scan pats (pos + blen a) 0 b
  | [], b, pos => by simp
  | c :: a, b, pos => by
    rw [List.length_cons, List.cons_append, scan, scan_skip pats a b, blen_cons]
    congr 1; omega

theorem scan_hits {pats : List (Str × Nat)} (hne : ∀ p ∈ pats, p.1 ≠ []) : ∀ (n : Nat) (s : Str) (pos : Nat),
    s.length ≤ n → ∃ hs, Hits pats s hs ∧ scan pats pos 0 s = hitOffsets pos hs := by
  intro n
  induction n with
  | zero =>
    intro s pos h
    have : s = [] := List.eq_nil_of_length_eq_zero (by omega)
    subst this
    refine ⟨[], .done ?_, by simp [scan, hitOffsets]⟩
    intro u v h1 h2
    have := List.append_eq_nil_iff.1 h1.symm
    exact absurd this.2 h2
  | succ n ih =>
    intro s pos h
    cases s with
    | nil =>
      refine ⟨[], .done ?_, by simp [scan, hitOffsets]⟩
      intro u v h1 h2
      have := List.append_eq_nil_iff.1 h1.symm
      exact absurd this.2 h2
    | cons c cs =>
      rw [scan]
      cases hl : longest pats (c :: cs) with
      | some p =>
        obtain ⟨h1, ⟨rest, h2⟩, h3⟩ := longest_some hl
        cases hp : p.1 with
        | nil => exact absurd hp (hne p h1)
        | cons d ds =>
          rw [hp, List.cons_append, List.cons.injEq] at h2
          obtain ⟨rfl, rfl⟩ := h2
          obtain ⟨hs, g1, g2⟩ := ih rest (pos + d.utf8Size + blen ds) (by simp at h; omega)
          refine ⟨([], p.1, p.2) :: hs, ?_, ?_⟩
          · have := Hits.hit (pats := pats) (gap := []) (p := p.1) (id := p.2) (rest := rest) h1
              (by rw [hp]; rw [hp] at h3; exact h3)
              (by intro u v e hv; exact absurd (List.append_eq_nil_iff.1 e.symm).2 hv) g1
            simpa [hp] using this
          · simp only [hp, List.length_cons, Nat.add_sub_cancel, scan_skip, hitOffsets, blen_nil, Nat.add_zero,
              blen_cons, ← Nat.add_assoc, g2]
      | none =>
        obtain ⟨hs, g1, g2⟩ := ih cs (pos + c.utf8Size) (by simp at h; omega)
        have hno := longest_none hl
        simp only [g2]
        cases g1 with
        | done hd =>
          refine ⟨[], .done ?_, rfl⟩
          intro u v e hv p hp
          cases u with
          | nil => rw [List.nil_append] at e; rw [← e]; exact hno p hp
          | cons d u =>
            rw [List.cons_append, List.cons.injEq] at e
            exact hd u v e.2 hv p hp
        | @hit gap p id rest hs k1 k2 k3 k4 =>
          refine ⟨(c :: gap, p, id) :: hs, ?_, ?_⟩
          · have := Hits.hit (gap := c :: gap) k1 k2 (by
              intro u v e hv q hq
              cases u with
              | nil => rw [List.nil_append] at e; rw [← e]; simpa using hno q hq
              | cons d u =>
                rw [List.cons_append, List.cons.injEq] at e
                exact k3 u v e.2 hv q hq) k4
            simpa using this
          · simp [hitOffsets, Nat.add_assoc]

/-! ## The pieces -/

/-- The byte ranges of consecutive pieces. -/
def rangesAt : Nat → List (Option Nat × Str) → List (Option Nat × Range)
  | _, [] => []
  | b, (tag, x) :: ps => (tag, (b, b + blen x)) :: rangesAt (b + blen x) ps

/-- May the token be taken, given the text before and after it? Special tokens may be switched off; a `single_word`
token must not touch a word. -/
def Accept (cl : Classes) (av : AddedVocab) (t : AddedToken) (before after : Str) : Prop :=
  ¬ (av.encodeSpecial = true ∧ t.content ∈ av.specials) ∧
  (t.singleWord = true → (∀ c, before.getLast? = some c → cl.isWord c = false) ∧
    ∀ c, after.head? = some c → cl.isWord c = false)

/-- The ids of the matches that are taken. -/
inductive Taken (cl : Classes) (av : AddedVocab) : Str → Str → List (Str × Str × Nat) → List Nat → Prop
  | nil {b s} : Taken cl av b s [] []
  | keep {b g p rest id hs ids t} : av.rmap.get id = some t → Accept cl av t (b ++ g) rest →
      Taken cl av (b ++ g ++ p) rest hs ids → Taken cl av b (g ++ p ++ rest) ((g, p, id) :: hs) (id :: ids)
  | drop {b g p rest id hs ids t} : av.rmap.get id = some t → ¬ Accept cl av t (b ++ g) rest →
      Taken cl av (b ++ g ++ p) rest hs ids → Taken cl av b (g ++ p ++ rest) ((g, p, id) :: hs) ids

/-- A piece with a tag: the token, with the spaces around it if it strips them (all of them, up to the piece of the
token before). -/
def TaggedOk (cl : Classes) (av : AddedVocab) (pats : List (Str × Nat)) (prev : Option (Option Nat)) (before : Str)
    (id : Nat) (x after : Str) : Prop :=
  ∃ t l p r, av.rmap.get id = some t ∧ (p, id) ∈ pats ∧ x = l ++ p ++ r ∧
    Accept cl av t (before ++ l) (r ++ after) ∧
    (∀ c ∈ l, cl.isSpace c = true) ∧ (∀ c ∈ r, cl.isSpace c = true) ∧
    (t.lstrip = false → l = []) ∧ (t.rstrip = false → r = []) ∧
    (t.lstrip = true → prev = some none → ∀ c, before.getLast? = some c → cl.isSpace c = false) ∧
    (t.rstrip = true → ∀ c, after.head? = some c → cl.isSpace c = false)

/-- Every piece is what it should be: `prev` is the tag of the piece before (if any), `before` the text before. A
piece without tag is not empty and does not follow another one. -/
def PiecesOk (cl : Classes) (av : AddedVocab) (pats : List (Str × Nat)) : Option (Option Nat) → Str →
    List (Option Nat × Str) → Prop
  | _, _, [] => True
  | prev, before, (tag, x) :: ps =>
    (match tag with
      | none => x ≠ [] ∧ prev ≠ some none
      | some id => TaggedOk cl av pats prev before id x (ps.flatMap (·.2))) ∧
    PiecesOk cl av pats (some tag) (before ++ x) ps

theorem getLast?_some_iff {s : Str} {c : Char} : s.getLast? = some c ↔ ∃ u, s = u ++ [c] := by
  rcases List.eq_nil_or_concat s with rfl | ⟨u, d, rfl⟩
  · simp
  · rw [List.concat_eq_append, List.getLast?_concat]
    constructor
    · rintro ⟨⟩; exact ⟨u, rfl⟩
    · rintro ⟨u', e⟩
      have := List.append_inj_right' e rfl
      simp at this; rw [this]

theorem endsWithWord_false {cl : Classes} {s : Str} :
    endsWithWord cl s = false ↔ ∀ c, s.getLast? = some c → cl.isWord c = false := by
  unfold endsWithWord
  cases s.getLast? <;> simp

theorem startsWithWord_false {cl : Classes} {s : Str} :
    startsWithWord cl s = false ↔ ∀ c, s.head? = some c → cl.isWord c = false := by
  unfold startsWithWord
  cases s <;> simp

/-- Trailing spaces. -/
theorem trailing (f : Char → Bool) (s : Str) : ∃ l, s = (s.reverse.dropWhile f).reverse ++ l ∧
    (∀ c ∈ l, f c = true) ∧ ∀ c, (s.reverse.dropWhile f).reverse.getLast? = some c → f c = false := by
  refine ⟨(s.reverse.takeWhile f).reverse, ?_, ?_, ?_⟩
  · rw [← List.reverse_append, List.takeWhile_append_dropWhile, List.reverse_reverse]
  · intro c hc
    rw [List.mem_reverse] at hc
    have : ∀ (l : List Char), ∀ c ∈ l.takeWhile f, f c = true := by
      intro l
      induction l with
      | nil => simp
      | cons d l ih =>
        intro c hc
        rw [List.takeWhile_cons] at hc
        split at hc
        · rcases List.mem_cons.1 hc with rfl | h
          · assumption
          · exact ih c h
        · cases hc
    exact this _ c hc
  · intro c hc
    rw [List.getLast?_reverse] at hc
    have : ∀ (l : List Char), (l.dropWhile f).head? = some c → f c = false := by
      intro l
      induction l with
      | nil => simp
      | cons d l ih =>
        rw [List.dropWhile_cons]
        split
        · exact ih
        · rename_i hd
          intro h; simp at h; subst h; simpa using hd
    exact this _ hc

/-- Leading spaces. -/
theorem leading (f : Char → Bool) (s : Str) : ∃ rest, s = s.takeWhile f ++ rest ∧
    (∀ c ∈ s.takeWhile f, f c = true) ∧ ∀ c, rest.head? = some c → f c = false := by
  induction s with
  | nil => exact ⟨[], rfl, by simp, by simp⟩
  | cons d s ih =>
    rw [List.takeWhile_cons]
    by_cases hd : f d = true
    · obtain ⟨rest, g1, g2, g3⟩ := ih
      rw [if_pos hd]
      refine ⟨rest, by rw [List.cons_append, ← g1], ?_, g3⟩
      intro c hc
      rcases List.mem_cons.1 hc with rfl | h
      · exact hd
      · exact g2 c h
    · rw [if_neg hd]
      exact ⟨d :: s, rfl, by simp, by intro c hc; simp at hc; subst hc; simpa using hd⟩

/-- The tokens cannot get in each other's way: none of them strips spaces on its right, or no pattern begins with
one. -/
def Neat (cl : Classes) (av : AddedVocab) (pats : List (Str × Nat)) : Prop :=
  (∀ p ∈ pats, ∀ t, av.rmap.get p.2 = some t → t.rstrip = false) ∨
  (∀ p ∈ pats, ∀ c, p.1.head? = some c → cl.isSpace c = false)

/-- A run of spaces at the start of `g ++ p ++ rest` ends before `p`. -/
theorem spaces_in_gap {f : Char → Bool} : ∀ {r g p x : Str}, (∀ c ∈ r, f c = true) → p ≠ [] →
    (∀ c, p.head? = some c → f c = false) → r <+: g ++ (p ++ x) → r <+: g
  | [], g, _, _, _, _, _, _ => List.nil_prefix
  | c :: r, [], p, x, h, hp, hh, hpre => by
    cases p with
    | nil => exact absurd rfl hp
    | cons d p =>
      simp only [List.nil_append, List.cons_append, List.cons_prefix_cons] at hpre
      have := hh d rfl
      rw [← hpre.1, h c (by simp)] at this
      cases this
  | c :: r, d :: g, p, x, h, hp, hh, hpre => by
    simp only [List.cons_append, List.cons_prefix_cons] at hpre ⊢
    exact ⟨hpre.1, spaces_in_gap (fun e he => h e (by simp [he])) hp hh hpre.2⟩

theorem prefix_total {a b c d : Str} (h : a ++ b = c ++ d) : (∃ w, c = a ++ w) ∨ ∃ w, a = c ++ w := by
  rcases List.append_eq_append_iff.1 h with ⟨w, h1, _⟩ | ⟨w, h1, _⟩
  · exact .inl ⟨w, h1⟩
  · exact .inr ⟨w, h1⟩

/-- The loop: `pre` is the text already cut into pieces, `done` the text up to the end of the last match (accepted or
not), `q` the rest. -/
theorem findLoop_pieces {cl : Classes} {av : AddedVocab} {pats : List (Str × Nat)} {s : Str}
    (hne : ∀ p ∈ pats, p.1 ≠ []) (hid : ∀ p ∈ pats, ∃ t, av.rmap.get p.2 = some t) (hneat : Neat cl av pats)
    {q : Str} {hs : List (Str × Str × Nat)} (hh : Hits pats q hs) :
    ∀ (done pre : Str) (prev : Option (Option Nat)), s = done ++ q → prev ≠ some none →
    ((∃ u, done = pre ++ u) ∨ ∃ r, pre = done ++ r ∧ r <+: q ∧ (∀ c ∈ r, cl.isSpace c = true) ∧
      (∀ p ∈ pats, ∀ c, p.1.head? = some c → cl.isSpace c = false)) →
    ∃ ps ids, findLoop cl av s (blen pre) (hitOffsets (blen done) hs) = some (rangesAt (blen pre) ps) ∧
      s = pre ++ ps.flatMap (·.2) ∧ PiecesOk cl av pats prev pre ps ∧ Taken cl av done q hs ids ∧
      ps.filterMap (·.1) = ids := by
  induction hh with
  | @done q hq =>
    intro done pre prev hs hprev hcase
    have : ∃ w, s = pre ++ w := by
      rcases hcase with ⟨u, rfl⟩ | ⟨r, rfl, ⟨w, rfl⟩, _⟩
      · exact ⟨u ++ q, by rw [hs]; simp⟩
      · exact ⟨w, by rw [hs]; simp⟩
    obtain ⟨w, hw⟩ := this
    refine ⟨if w = [] then [] else [(none, w)], [], ?_, ?_, ?_, .nil, ?_⟩
    · rw [hitOffsets, findLoop]
      subst hw
      rw [blen_append]
      by_cases hw : w = []
      · subst hw; simp [rangesAt]
      · have := blen_pos hw
        rw [if_pos (by omega), if_neg hw]; rfl
    · split
      · simpa [‹w = []›] using hw
      · simpa using hw
    · split
      · exact trivial
      · exact ⟨⟨‹_›, hprev⟩, trivial⟩
    · split <;> rfl
  | @hit gap p id rest hs hp hlong hgap hrest ih =>
    intro done pre prev hs' hprev hcase
    obtain ⟨t, ht⟩ := hid _ hp
    -- what is pending before the match
    have hw : ∃ w, done ++ gap = pre ++ w := by
      rcases hcase with ⟨u, rfl⟩ | ⟨r, rfl, hr, hsp, hn⟩
      · exact ⟨u ++ gap, by simp⟩
      · obtain ⟨w, rfl⟩ := spaces_in_gap hsp (hne _ hp) (hn _ hp) (by simpa using hr)
        exact ⟨w, by simp⟩
    obtain ⟨w, hw⟩ := hw
    have htake : takeBytes (blen done + blen gap) s = some (pre ++ w) := by
      rw [hs', ← hw, ← blen_append, show done ++ (gap ++ p ++ rest) = (done ++ gap) ++ (p ++ rest) by simp]
      exact takeBytes_append _ _
    have hdrop : dropBytes (blen done + blen gap + blen p) s = some rest := by
      rw [hs', ← blen_append, ← blen_append, show done ++ (gap ++ p ++ rest) = (done ++ gap ++ p) ++ rest by simp]
      exact dropBytes_append _ _
    have hb : blen done + blen gap + blen p = blen (done ++ gap ++ p) := by simp [blen_append, Nat.add_assoc]
    rw [hitOffsets, findLoop]
    simp only [matchStep, ht, htake, hdrop]
    -- acceptance
    by_cases hacc : Accept cl av t (done ++ gap) rest
    · have h1 : ¬ (av.encodeSpecial = true ∧ t.content ∈ av.specials) := hacc.1
      have h2 : ¬ (t.singleWord = true ∧ (endsWithWord cl (pre ++ w) = true ∨ startsWithWord cl rest = true)) := by
        rintro ⟨hsw, h⟩
        obtain ⟨g1, g2⟩ := hacc.2 hsw
        rw [hw] at g1
        rw [← endsWithWord_false] at g1
        rw [← startsWithWord_false] at g2
        rw [g1, g2] at h
        simp at h
      rw [if_neg h1, if_neg h2]
      -- the left side
      have hl : ∃ w1 l, w = w1 ++ l ∧ (∀ c ∈ l, cl.isSpace c = true) ∧ (t.lstrip = false → l = []) ∧
          (t.lstrip = true → w1 ≠ [] → ∀ c, w1.getLast? = some c → cl.isSpace c = false) ∧
          (if t.lstrip then max (spaceLeftmostAtEnd cl (pre ++ w)) (blen pre) else blen done + blen gap)
            = blen pre + blen w1 := by
        by_cases hls : t.lstrip = true
        · obtain ⟨l, g1, g2, g3⟩ := trailing cl.isSpace w
          refine ⟨_, l, g1, g2, fun h => (by rw [hls] at h; cases h), fun _ _ => g3, ?_⟩
          rw [if_pos hls]
          unfold spaceLeftmostAtEnd
          rw [List.reverse_append]
          by_cases he : w.reverse.dropWhile cl.isSpace = []
          · rw [he]
            have : (w.reverse ++ pre.reverse).dropWhile cl.isSpace = pre.reverse.dropWhile cl.isSpace := by
              rw [List.dropWhile_append, he]; rfl
            rw [this]
            obtain ⟨l', k1, _, _⟩ := trailing cl.isSpace pre
            have : blen (pre.reverse.dropWhile cl.isSpace).reverse ≤ blen pre := by
              conv => rhs; rw [k1, blen_append]
              omega
            simp only [List.reverse_nil, blen_nil]
            omega
          · rw [List.dropWhile_append, if_neg (by simpa using he), List.reverse_append, List.reverse_reverse,
              blen_append]
            omega
        · refine ⟨w, [], by simp, by simp, fun _ => rfl, fun h => absurd h hls, ?_⟩
          rw [if_neg hls, ← blen_append, hw, blen_append]
      -- the right side
      have hr : ∃ r rest', rest = r ++ rest' ∧ (∀ c ∈ r, cl.isSpace c = true) ∧ (t.rstrip = false → r = []) ∧
          (t.rstrip = true → ∀ c, rest'.head? = some c → cl.isSpace c = false) ∧
          (if t.rstrip then blen done + blen gap + blen p + spaceRightmostAtStart cl rest
            else blen done + blen gap + blen p) = blen done + blen gap + blen p + blen r := by
        by_cases hrs : t.rstrip = true
        · obtain ⟨rest', g1, g2, g3⟩ := leading cl.isSpace rest
          exact ⟨_, rest', g1, g2, fun h => (by rw [hrs] at h; cases h), fun _ => g3, by rw [if_pos hrs]; rfl⟩
        · exact ⟨[], rest, rfl, by simp, fun _ => rfl, fun h => absurd h hrs, by rw [if_neg hrs]; simp⟩
      obtain ⟨w1, l, rfl, hl1, hl2, hl3, hl4⟩ := hl
      obtain ⟨r, rest', hre, hr1, hr2, hr3, hr4⟩ := hr
      rw [hl4, hr4]
      have hpre' : blen done + blen gap + blen p + blen r = blen (done ++ gap ++ p ++ r) := by
        simp [blen_append, Nat.add_assoc]
      obtain ⟨ps, ids, k1, k2, k3, k4, k5⟩ := ih (done ++ gap ++ p) (done ++ gap ++ p ++ r) (some (some id))
        (by rw [hs']; simp) (by simp) (by
          by_cases hrn : r = []
          · exact .inl ⟨[], by simp [hrn]⟩
          · right
            refine ⟨r, rfl, ⟨rest', hre.symm⟩, hr1, ?_⟩
            rcases hneat with hn | hn
            · exact absurd (hr2 (hn _ hp t ht)) hrn
            · exact hn)
      have k1' : findLoop cl av s (blen done + blen gap + blen p + blen r)
          (hitOffsets (blen done + blen gap + blen p) hs) = some (rangesAt (blen (done ++ gap ++ p ++ r)) ps) := by
        rw [hpre', hb]; exact k1
      simp only [Option.bind_some, k1', Option.map_some]
      have htext : done ++ gap ++ p ++ r = pre ++ w1 ++ (l ++ p ++ r) := by rw [hw]; simp
      have hpiece : TaggedOk cl av pats (if w1 = [] then prev else some none) (pre ++ w1) id (l ++ p ++ r)
          (ps.flatMap (·.2)) := by
        have hafter : rest' = ps.flatMap (·.2) := by
          have : done ++ gap ++ p ++ r ++ rest' = done ++ gap ++ p ++ r ++ ps.flatMap (·.2) := by
            rw [← k2, hs', hre]; simp
          exact List.append_cancel_left this
        rw [← hafter]
        refine ⟨t, l, p, r, ht, hp, rfl, ?_, hl1, hr1, hl2, hr2, ?_, hr3⟩
        · rw [show pre ++ w1 ++ l = done ++ gap by rw [hw]; simp, ← hre]; exact hacc
        · intro h1 h2 c hc
          by_cases hw1 : w1 = []
          · rw [if_pos hw1] at h2; exact absurd h2 hprev
          · rw [List.getLast?_append, List.getLast?_eq_some_getLast hw1] at hc
            exact hl3 h1 hw1 c (by rw [List.getLast?_eq_some_getLast hw1]; simpa using hc)
      have htk : Taken cl av done (gap ++ p ++ rest) ((gap, p, id) :: hs) (id :: ids) := .keep ht hacc k4
      by_cases hw1 : w1 = []
      · subst hw1
        refine ⟨(some id, l ++ p ++ r) :: ps, id :: ids, ?_, ?_, ?_, htk, ?_⟩
        · have e : blen pre + blen (l ++ p ++ r) = blen (done ++ gap ++ p ++ r) := by
            rw [htext]; simp [blen_append]
          simp only [blen_nil, Nat.add_zero, Nat.lt_irrefl, if_false, List.nil_append, rangesAt, e, ← hpre',
            List.singleton_append]
        · rw [k2, List.flatMap_cons, htext]; simp
        · refine ⟨by simpa using hpiece, ?_⟩
          rw [show pre ++ (l ++ p ++ r) = done ++ gap ++ p ++ r by rw [htext]; simp]
          exact k3
        · simp [k5]
      · refine ⟨(none, w1) :: (some id, l ++ p ++ r) :: ps, id :: ids, ?_, ?_, ?_, htk, ?_⟩
        · have e : blen pre + blen w1 + blen (l ++ p ++ r) = blen (done ++ gap ++ p ++ r) := by
            rw [htext]; simp [blen_append, Nat.add_assoc]
          have := blen_pos hw1
          rw [if_pos (by omega)]
          simp only [rangesAt, e, ← hpre', List.cons_append, List.nil_append]
        · rw [k2, List.flatMap_cons, List.flatMap_cons, htext]; simp
        · refine ⟨⟨hw1, hprev⟩, ?_, ?_⟩
          · rw [if_neg hw1] at hpiece; exact hpiece
          · rw [show pre ++ w1 ++ (l ++ p ++ r) = done ++ gap ++ p ++ r from htext.symm]
            exact k3
        · simp [k5]
    · -- dropped
      have hstep : (if av.encodeSpecial = true ∧ t.content ∈ av.specials then
            some (([] : List (Option Nat × Range)), blen pre)
          else if t.singleWord = true ∧ (endsWithWord cl (pre ++ w) = true ∨ startsWithWord cl rest = true) then
            some ([], blen pre)
          else some ((if blen pre < (if t.lstrip then max (spaceLeftmostAtEnd cl (pre ++ w)) (blen pre)
              else blen done + blen gap) then [(none, (blen pre, if t.lstrip then
                max (spaceLeftmostAtEnd cl (pre ++ w)) (blen pre) else blen done + blen gap))] else []) ++
              [(some id, (if t.lstrip then max (spaceLeftmostAtEnd cl (pre ++ w)) (blen pre)
                else blen done + blen gap, if t.rstrip then blen done + blen gap + blen p +
                spaceRightmostAtStart cl rest else blen done + blen gap + blen p))],
              if t.rstrip then blen done + blen gap + blen p + spaceRightmostAtStart cl rest
                else blen done + blen gap + blen p)) = some ([], blen pre) := by
        by_cases h1 : av.encodeSpecial = true ∧ t.content ∈ av.specials
        · rw [if_pos h1]
        · rw [if_neg h1, if_pos]
          by_cases hsw : t.singleWord = true
          · refine ⟨hsw, ?_⟩
            rcases hx : endsWithWord cl (pre ++ w) with _ | _
            · rcases hy : startsWithWord cl rest with _ | _
              · exfalso
                apply hacc
                refine ⟨h1, fun _ => ⟨?_, startsWithWord_false.1 hy⟩⟩
                rw [hw]; exact endsWithWord_false.1 hx
              · exact .inr rfl
            · exact .inl rfl
          · exact absurd ⟨h1, fun h => absurd h hsw⟩ hacc
      simp only [hstep, Option.bind_some, List.nil_append]
      obtain ⟨ps, ids, k1, k2, k3, k4, k5⟩ := ih (done ++ gap ++ p) pre prev (by rw [hs']; simp) hprev
        (.inl ⟨w ++ p, by rw [hw]; simp⟩)
      rw [hb, k1]
      exact ⟨ps, ids, by simp, k2, k3, .drop ht hacc k4, k5⟩

/-- **C27 (coverage).** The pieces found in a text are consecutive and cover it; a tagged piece is the token with the
spaces it strips, and the tokens are the leftmost-longest matches that may be taken, in order; the other pieces hold
the rest. Missing: tokens that strip spaces on their right together with tokens that begin with a space
(`C27_overlap`, `C27_inverted`). -/
theorem C27_find_partial {cl : Classes} {av : AddedVocab} {pats : List (Str × Nat)} {s : Str} (hs : s ≠ [])
    (hne : ∀ p ∈ pats, p.1 ≠ []) (hid : ∀ p ∈ pats, ∃ t, av.rmap.get p.2 = some t) (hneat : Neat cl av pats) :
    ∃ hits ps ids, Hits pats s hits ∧ findMatches cl av pats s = some (rangesAt 0 ps) ∧ s = ps.flatMap (·.2) ∧
      PiecesOk cl av pats none [] ps ∧ Taken cl av [] s hits ids ∧ ps.filterMap (·.1) = ids := by
  unfold findMatches
  rw [if_neg hs]
  by_cases hp : pats = []
  · subst hp
    refine ⟨[], [(none, s)], [], .done (by simp), ?_, by simp, ⟨⟨hs, by simp⟩, trivial⟩, .nil, rfl⟩
    rw [if_pos rfl]; simp [rangesAt]
  · rw [if_neg hp]
    obtain ⟨hits, h1, h2⟩ := scan_hits hne s.length s 0 (Nat.le_refl _)
    obtain ⟨ps, ids, k1, k2, k3, k4, k5⟩ := findLoop_pieces hne hid hneat h1 [] [] none rfl (by simp)
      (.inl ⟨[], rfl⟩)
    rw [h2]
    exact ⟨hits, ps, ids, h1, k1, k2, k3, k4, k5⟩

/-- The conditions on single pieces, wherever they are. -/
theorem PiecesOk.get {cl : Classes} {av : AddedVocab} {pats : List (Str × Nat)} : ∀ {xs ys : List (Option Nat × Str)}
    {tag : Option Nat} {x : Str} {prev : Option (Option Nat)} {before : Str},
    PiecesOk cl av pats prev before (xs ++ (tag, x) :: ys) →
    match tag with
    | none => x ≠ [] ∧ (xs.getLast?.map (·.1)).or prev ≠ some none
    | some id => TaggedOk cl av pats ((xs.getLast?.map (·.1)).or prev) (before ++ xs.flatMap (·.2)) id x
        (ys.flatMap (·.2))
  | [], ys, tag, x, prev, before, h => by simpa using h.1
  | (tag', x') :: xs, ys, tag, x, prev, before, h => by
    have := PiecesOk.get h.2
    have e : ((((tag', x') :: xs).getLast?).map (·.1)).or prev = ((xs.getLast?).map (·.1)).or (some tag') := by
      cases xs with
      | nil => rfl
      | cons y xs =>
        rw [List.getLast?_cons_cons, List.getLast?_eq_some_getLast (by simp : y :: xs ≠ [])]
        rfl
    rw [e, List.flatMap_cons, ← List.append_assoc]
    exact this

/-- **C27 (single pieces).** Everything said about a tagged piece, at its place in the list. -/
theorem C27_tagged_partial {cl : Classes} {av : AddedVocab} {pats : List (Str × Nat)} {s : Str} (hs : s ≠ [])
    (hne : ∀ p ∈ pats, p.1 ≠ []) (hid : ∀ p ∈ pats, ∃ t, av.rmap.get p.2 = some t) (hneat : Neat cl av pats) :
    ∃ ps, findMatches cl av pats s = some (rangesAt 0 ps) ∧ s = ps.flatMap (·.2) ∧
      (∀ xs x ys, ps = xs ++ (none, x) :: ys → x ≠ [] ∧ ∀ y, xs.getLast? = some y → y.1 ≠ none) ∧
      (∀ xs id x ys, ps = xs ++ (some id, x) :: ys →
        TaggedOk cl av pats (xs.getLast?.map (·.1)) (xs.flatMap (·.2)) id x (ys.flatMap (·.2))) := by
  obtain ⟨hits, ps, ids, _, h2, h3, h4, _⟩ := C27_find_partial hs hne hid hneat
  refine ⟨ps, h2, h3, ?_, ?_⟩
  · rintro xs x ys rfl
    have := PiecesOk.get h4
    refine ⟨this.1, fun y hy hn => this.2 ?_⟩
    rw [hy]; simp [hn]
  · rintro xs id x ys rfl
    simpa using PiecesOk.get h4

/-! Two tokens that do strip, and a text in which they find spaces on both sides. -/

def asciiClasses : Classes := ⟨fun c => c.isAlphanum || c == '_', fun c => c == ' '⟩

def sampleAv : AddedVocab := (empty.addTokens (fun _ => true) sampleModel none
  [{ content := "<a>".toList, lstrip := true, rstrip := true, normalized := false },
   { content := "ab".toList, singleWord := true, normalized := false },
   { content := "abc".toList, normalized := false }]).1

example : sampleAv.trie = [("abc".toList, 5), ("ab".toList, 4), ("<a>".toList, 3)] ∧
    findMatches asciiClasses sampleAv sampleAv.trie "x  <a>  abab ab abcd".toList
      = some [(none, (0, 1)), (some 3, (1, 8)), (none, (8, 13)), (some 4, (13, 15)), (none, (15, 16)),
        (some 5, (16, 19)), (none, (19, 20))] := by decide +kernel

example : Neat asciiClasses sampleAv sampleAv.trie := .inr (by decide +kernel)

/-- **C27, negation.** A token that strips spaces on its right, followed by one that begins with a space: the two
pieces overlap. -/
theorem C27_overlap : ∃ av : AddedVocab, av = (empty.addTokens (fun _ => true) sampleModel none
    [{ content := "<a>".toList, rstrip := true, normalized := false },
     { content := " b".toList, normalized := false }]).1 ∧
    findMatches asciiClasses av av.trie "<a> b".toList = some [(some 3, (0, 4)), (some 4, (3, 5))] :=
  ⟨_, rfl, by decide +kernel⟩

/-- **C27, negation.** The same with a token that strips spaces on its left: the piece ends before it begins, and the
slice is refused (`expect("AddedVocabulary bad split")` panics). -/
theorem C27_inverted : ∃ av : AddedVocab, av = (empty.addTokens (fun _ => true) sampleModel none
    [{ content := "<a>".toList, rstrip := true, normalized := false },
     { content := " ".toList, lstrip := true, normalized := false }]).1 ∧
    findMatches asciiClasses av av.trie "<a>  ".toList = some [(some 3, (0, 5)), (some 4, (5, 4)), (some 4, (4, 5))] ∧
    splitWithIndices asciiClasses av av.trie (NS.ofStr "<a>  ".toList) = none :=
  ⟨_, rfl, by decide +kernel⟩

/-! ## Splitting -/

/-- The tokens of a piece. -/
def pieceTokens (p : Option Nat × Str) : Option (List Token) := p.1.map fun id => [⟨id, p.2, (0, blen p.2)⟩]

theorem mapM_toSplit {whole : Str} {n : NS} (hg : n.Good whole) : ∀ (ps : List (Option Nat × Str)) (pre : Str),
    n.norm = pre ++ ps.flatMap (·.2) →
    ∃ out : List Split, (rangesAt (blen pre) ps).mapM (toSplit n) = some out ∧
      out.map (fun x => (x.tokens, x.normalized.norm)) = ps.map (fun p => (pieceTokens p, p.2)) ∧
      ∀ x ∈ out, x.normalized.norm ≠ [] → x.normalized.Good whole
  | [], _, _ => ⟨[], rfl, rfl, by simp⟩
  | (tag, x) :: ps, pre, h => by
    obtain ⟨out, h1, h2, h3⟩ := mapM_toSplit hg ps (pre ++ x) (by rw [h]; simp)
    obtain ⟨sl, g1, g2, g3⟩ := NS.slice_good hg (a := blen pre) (b := blen pre + blen x) (m := x)
      (strGet_eq_some.2 ⟨pre, ps.flatMap (·.2), by rw [h]; simp, rfl, rfl⟩)
    refine ⟨⟨sl, tag.map fun id => [⟨id, sl.norm, (0, blen sl.norm)⟩]⟩ :: out, ?_, ?_, ?_⟩
    · rw [blen_append] at h1
      rw [rangesAt, List.mapM_cons, toSplit, g1, h1]; rfl
    · rw [List.map_cons, List.map_cons, h2, g2]; rfl
    · intro y hy
      rcases List.mem_cons.1 hy with rfl | hy
      · intro hne; exact g3 (by rw [← g2]; exact hne)
      · exact h3 y hy

/-- **C27 (splitting).** `split_with_indices` does not panic; its splits are the pieces, a tagged one with one token
that covers it. -/
theorem C27_split_partial {cl : Classes} {av : AddedVocab} {pats : List (Str × Nat)} {whole : Str} {n : NS}
    (hg : n.Good whole) (hne : ∀ p ∈ pats, p.1 ≠ []) (hid : ∀ p ∈ pats, ∃ t, av.rmap.get p.2 = some t)
    (hneat : Neat cl av pats) :
    ∃ ps out, splitWithIndices cl av pats n = some out ∧ n.norm = ps.flatMap (·.2) ∧
      (n.norm ≠ [] → findMatches cl av pats n.norm = some (rangesAt 0 ps) ∧ PiecesOk cl av pats none [] ps) ∧
      (n.norm = [] → ps = [(none, [])]) ∧
      out.map (fun x => (x.tokens, x.normalized.norm)) = ps.map (fun p => (pieceTokens p, p.2)) ∧
      ∀ x ∈ out, x.normalized.norm ≠ [] → x.normalized.Good whole := by
  by_cases hn : n.norm = []
  · obtain ⟨out, h1, h2, h3⟩ := mapM_toSplit hg [(none, [])] [] (by simp [hn])
    refine ⟨_, out, ?_, by simp [hn], fun h => absurd hn h, fun _ => rfl, h2, h3⟩
    unfold splitWithIndices findMatches
    rw [if_pos hn]; exact h1
  · obtain ⟨hits, ps, ids, _, h2, h3, h4, _⟩ := C27_find_partial hn hne hid hneat
    obtain ⟨out, g1, g2, g3⟩ := mapM_toSplit hg ps [] (by simpa using h3)
    refine ⟨ps, out, ?_, h3, fun _ => ⟨h2, h4⟩, fun h => absurd h hn, g2, g3⟩
    unfold splitWithIndices
    rw [h2]; exact g1

/-- A split by a function that may also give tokens to pieces. -/
theorem PTS_split_tagged {p : PTS} (hg : p.Good) {f : Nat → NS → Except Unit (List Split)} (T : NS → Str)
    (P : Split → Prop) (hP : ∀ s ∈ p.splits, s.tokens.isSome → P s)
    (h : ∀ n i, n.Good p.original → ∃ o, f i n = .ok o ∧ o.flatMap (·.normalized.norm) = T n ∧
      ∀ x ∈ o, x.normalized.norm ≠ [] → (x.tokens.isSome → P x) ∧ x.normalized.Good p.original) :
    ∃ p', p.split f = .ok p' ∧ p'.original = p.original ∧ p'.Good ∧ p'.text = p.mapText T ∧
      ∀ s ∈ p'.splits, s.tokens.isSome → P s := by
  obtain ⟨p', outs, h1, h2, h3, h4, h5⟩ := PTS.split_total (p := p) (f := f)
    (P := fun n o => o.flatMap (·.normalized.norm) = T n ∧
      ∀ x ∈ o, x.normalized.norm ≠ [] → (x.tokens.isSome → P x) ∧ x.normalized.Good p.original)
    (fun s hs hn i => h s.normalized i (hg s hs hn))
  have hmem : ∀ x ∈ p'.splits, (x ∈ p.splits ∧ x.tokens.isSome) ∨
      ((x.tokens.isSome → P x) ∧ x.normalized.Good p.original) := by
    intro x hx
    rw [h4, List.mem_flatten] at hx
    obtain ⟨out, ho, hx⟩ := hx
    obtain ⟨i, hi⟩ := List.mem_iff_getElem?.1 ho
    have hlt : i < p.splits.length := by rw [← h3]; exact (List.getElem?_eq_some_iff.1 hi).1
    have hs : p.splits[i]? = some p.splits[i] := List.getElem?_eq_getElem hlt
    obtain ⟨g1, g2⟩ := h5 i _ out hs hi
    cases ht : p.splits[i].tokens with
    | some ts =>
      rw [g1 (by rw [ht]; rfl)] at hx
      simp only [List.mem_singleton] at hx
      rw [hx]
      exact .inl ⟨List.getElem_mem hlt, by rw [ht]; rfl⟩
    | none =>
      obtain ⟨o, ⟨_, g4⟩, rfl⟩ := g2 ht
      obtain ⟨hx1, hx2⟩ := List.mem_filter.1 hx
      exact .inr (g4 x hx1 (by simpa using hx2))
  refine ⟨p', h1, h2, ?_, ?_, ?_⟩
  · intro x hx hn
    rcases hmem x hx with ⟨_, h⟩ | ⟨_, h⟩
    · rw [hn] at h; cases h
    · rw [h2]; exact h
  · unfold PTS.text PTS.mapText
    rw [h4]
    refine PTS.flatMap_flatten_of (F := fun _ => []) _ _ h3 fun i s out hs ho => ?_
    obtain ⟨g1, g2⟩ := h5 i s out hs ho
    cases ht : s.tokens with
    | some ts => rw [g1 (by rw [ht]; rfl)]; simp
    | none =>
      obtain ⟨o, ⟨g3, _⟩, rfl⟩ := g2 ht
      simp only [Option.isSome_none, Bool.false_eq_true, if_false]
      rw [← g3]; exact PTS.flatMap_filter_nonempty o
  · intro x hx hs
    rcases hmem x hx with ⟨h, _⟩ | ⟨h, _⟩
    · exact hP x h hs
    · exact h hs

/-! ## The whole extraction, after every history -/

/-- The patterns are not empty and belong to added tokens. -/
def TriesOk (av : AddedVocab) : Prop := ∀ p ∈ av.trie ++ av.normTrie, p.1 ≠ [] ∧ ∃ t, av.rmap.get p.2 = some t

theorem TriesOk.mono {av av' : AddedVocab} (h : TriesOk av) (h1 : av'.trie = av.trie) (h2 : av'.normTrie = av.normTrie)
    (h3 : ∀ i t, av.rmap.get i = some t → ∃ t', av'.rmap.get i = some t') : TriesOk av' := by
  intro p hp
  rw [h1, h2] at hp
  obtain ⟨g1, t, g2⟩ := h p hp
  exact ⟨g1, h3 _ _ g2⟩

theorem addLoop_tries {m : ModelView} (norm : Norm) : ∀ (ts : List AddedToken) (av : AddedVocab) (next ign : Nat),
    (addLoop m norm ts av next ign).1.trie = av.trie ∧ (addLoop m norm ts av next ign).1.normTrie = av.normTrie ∧
    ∀ i t, av.rmap.get i = some t → ∃ t', (addLoop m norm ts av next ign).1.rmap.get i = some t'
  | [], av, next, ign => ⟨rfl, rfl, fun i t h => ⟨t, h⟩⟩
  | t :: ts, av, next, ign => by
    rw [addLoop]
    split
    · exact addLoop_tries norm ts _ _ _
    · split
      · exact addLoop_tries norm ts _ _ _
      · simp only
        cases hn : normalForm norm t with
        | none => exact ⟨rfl, rfl, fun i t h => ⟨t, h⟩⟩
        | some form =>
          simp only
          obtain ⟨h1, h2, h3⟩ := addLoop_tries (m := m) norm ts
            (av.store ((av.tokenToId m t.content).getD next) t form)
            (if (av.tokenToId m t.content).isSome then next else next + 1) ign
          refine ⟨h1, h2, fun i u hu => ?_⟩
          by_cases hi : (av.tokenToId m t.content).getD next = i
          · exact h3 i t (by simp [store, AMap.get_insert, hi])
          · exact h3 i u (by simp [store, AMap.get_insert, hi, hu])

theorem refresh_tries {build : List (Str × Nat) → Bool} (hb : ∀ l, build l = true → ∀ p ∈ l, p.1 ≠ [])
    {av : AddedVocab} (hwf : av.rmap.WF) (h : TriesOk av) : TriesOk (av.refresh build).1 := by
  have hkey : ∀ (f : Nat × AddedToken → Bool) (g : Nat × AddedToken → Str), ∀ p ∈ (av.rmap.filter f).map (fun p => (g p, p.1)),
      ∃ t, av.rmap.get p.2 = some t := by
    intro f g p hp
    obtain ⟨q, hq, rfl⟩ := List.mem_map.1 hp
    exact ⟨q.2, AMap.get_eq_some_of_mem hwf (List.mem_filter.1 hq).1⟩
  unfold refresh
  simp only
  split
  · rename_i h1
    have p1 : ∀ p ∈ (av.rmap.filter fun p => !p.2.normalized).map (fun p => (p.2.content, p.1)),
        p.1 ≠ [] ∧ ∃ t, av.rmap.get p.2 = some t := by
      intro p hp
      refine ⟨?_, hkey _ (fun p => p.2.content) p hp⟩
      rcases Bool.or_eq_true_iff.1 h1 with h1 | h1
      · rw [List.isEmpty_iff] at h1; rw [h1] at hp; cases hp
      · exact hb _ h1 p hp
    split
    · rename_i h2
      intro p hp
      rcases List.mem_append.1 hp with hp | hp
      · exact p1 p hp
      · refine ⟨?_, hkey _ (fun p => (av.cache.get p.1).getD p.2.content) p hp⟩
        rcases Bool.or_eq_true_iff.1 h2 with h2 | h2
        · rw [List.isEmpty_iff] at h2
          simp only [h2] at hp; cases hp
        · exact hb _ h2 p hp
    · intro p hp
      rcases List.mem_append.1 hp with hp | hp
      · exact p1 p hp
      · exact h p (List.mem_append.2 (.inr hp))
  · exact h

theorem after_tries {m : ModelView} (hm : m.Ok) {build : List (Str × Nat) → Bool}
    (hb : ∀ l, build l = true → ∀ p ∈ l, p.1 ≠ []) : ∀ (ops : List Op) {av : AddedVocab}, Inv m av → TriesOk av →
    TriesOk (after build m av ops)
  | [], _, _, h => h
  | op :: ops, av, hi, h => by
    refine after_tries hm hb ops (apply_inv hm build hi op).1 ?_
    cases op with
    | add norm ts =>
      show TriesOk (av.addTokens build m norm ts).1
      obtain ⟨h1, h2, h3⟩ := addLoop_tries (m := m) norm ts av (av.nextId m) 0
      obtain ⟨g1, _⟩ := addLoop_inv hm norm ts 0 hi nextId_fresh
      have ht := h.mono h1 h2 h3
      unfold addTokens
      cases hl : addLoop m norm ts av (av.nextId m) 0 with
      | mk r ign =>
        rw [hl] at ht g1
        cases ign with
        | none => exact ht
        | some ign => exact refresh_tries hb g1.wfr ht
    | renormalize norm =>
      show TriesOk (av.refreshNormalized build norm).1
      unfold refreshNormalized
      simp only
      have ht : TriesOk { av with cache := (recache norm av.rmap []).1 } := h
      split
      · exact refresh_tries hb (av := { av with cache := (recache norm av.rmap []).1 }) hi.wfr ht
      · exact ht
    | setEncodeSpecial b => exact h

theorem refresh_patterns {build : List (Str × Nat) → Bool} {av : AddedVocab} (hwf : av.rmap.WF)
    (h : (av.refresh build).2 = true) :
    (∀ c i, (c, i) ∈ (av.refresh build).1.trie ↔
      ∃ t, (av.refresh build).1.rmap.get i = some t ∧ t.normalized = false ∧ c = t.content) ∧
    (∀ c i, (c, i) ∈ (av.refresh build).1.normTrie ↔
      ∃ t, (av.refresh build).1.rmap.get i = some t ∧ t.normalized = true ∧
        c = ((av.refresh build).1.cache.get i).getD t.content) := by
  have hget : ∀ i t, (i, t) ∈ av.rmap ↔ av.rmap.get i = some t := fun i t =>
    ⟨AMap.get_eq_some_of_mem hwf, AMap.mem_of_get_eq_some⟩
  unfold refresh at h ⊢
  simp only at h ⊢
  split at h
  · rename_i h1
    rw [if_pos h1]
    split at h
    · rename_i h2
      rw [if_pos h2]
      constructor
      · intro c i
        simp only [List.mem_map, List.mem_filter]
        constructor
        · rintro ⟨⟨j, t⟩, ⟨k1, k2⟩, k3⟩
          simp only [Prod.mk.injEq] at k3
          obtain ⟨rfl, rfl⟩ := k3
          exact ⟨t, (hget _ _).1 k1, by simpa using k2, rfl⟩
        · rintro ⟨t, k1, k2, rfl⟩
          exact ⟨(i, t), ⟨(hget _ _).2 k1, by simpa using k2⟩, rfl⟩
      · intro c i
        simp only [List.mem_map, List.mem_filter]
        constructor
        · rintro ⟨⟨j, t⟩, ⟨k1, k2⟩, k3⟩
          simp only [Prod.mk.injEq] at k3
          obtain ⟨rfl, rfl⟩ := k3
          exact ⟨t, (hget _ _).1 k1, by simpa using k2, rfl⟩
        · rintro ⟨t, k1, k2, rfl⟩
          exact ⟨(i, t), ⟨(hget _ _).2 k1, by simpa using k2⟩, rfl⟩
    · cases h
  · cases h

theorem recache_other {norm : Norm} : ∀ (l : List (Nat × AddedToken)) (c : AMap Nat Str) (i : Nat),
    (∀ t, (i, t) ∉ l) → (recache norm l c).1.get i = c.get i
  | [], _, _, _ => rfl
  | (j, t) :: l, c, i, h => by
    have hl : ∀ t, (i, t) ∉ l := fun u hu => h u (by simp [hu])
    have hj : j ≠ i := fun e => h t (by simp [e])
    rw [recache]
    cases hn : normalForm norm t with
    | none => rfl
    | some form =>
      cases form with
      | none => exact recache_other l c i hl
      | some s =>
        simp only
        rw [recache_other l _ i hl, AMap.get_insert, if_neg hj]

theorem recache_all' {f : Str → Option Str} : ∀ (l : List (Nat × AddedToken)) (c : AMap Nat Str),
    (l.map (·.1)).Nodup → (∀ i t, (i, t) ∈ l → c.get i = none) → (recache (some f) l c).2 = true →
    ∀ i t, (i, t) ∈ l → t.normalized = true →
      ∃ s, f t.content = some s ∧ ((recache (some f) l c).1.get i).getD t.content = s
  | [], _, _, _, _, _, _, h, _ => by cases h
  | (j, u) :: l, c, hnd, hc, hr, i, t, hm, hn => by
    rw [List.map_cons, List.nodup_cons] at hnd
    have hj : ∀ v, (j, v) ∉ l := fun v hv => hnd.1 (List.mem_map.2 ⟨(j, v), hv, rfl⟩)
    rw [recache] at hr ⊢
    cases hf : normalForm (some f) u with
    | none => rw [hf] at hr; cases hr
    | some form =>
      rw [hf] at hr
      have hc0 : c.get j = none := hc j u (List.mem_cons_self ..)
      have key : ∀ c', (∀ i t, (i, t) ∈ l → c'.get i = none) → (recache (some f) l c').2 = true →
          c'.get j = form → ∃ s, f t.content = some s ∧ ((recache (some f) l c').1.get i).getD t.content = s := by
        intro c' hc' hr' hcj
        rcases List.mem_cons.1 hm with e | hm
        · simp only [Prod.mk.injEq] at e
          obtain ⟨e1, e2⟩ := e
          rw [e1, e2]
          rw [e2] at hn
          rw [recache_other l c' _ hj, hcj]
          unfold normalForm at hf
          rw [if_pos hn] at hf
          simp only at hf
          cases hx : f u.content with
          | none => rw [hx] at hf; cases hf
          | some s =>
            rw [hx] at hf
            simp only [Option.some.injEq] at hf
            refine ⟨s, rfl, ?_⟩
            rw [← hf]
            by_cases he : s = u.content
            · rw [if_pos he]; exact he.symm
            · rw [if_neg he]; rfl
        · exact recache_all' l c' hnd.2 hc' hr' i t hm hn
      cases form with
      | none => exact key c (fun i t h => hc i t (List.mem_cons_of_mem _ h)) hr hc0
      | some s =>
        refine key (c.insert j s) (fun i t h => ?_) hr (by rw [AMap.get_insert, if_pos rfl])
        have hne : j ≠ i := fun e => hj t (by rw [e]; exact h)
        rw [AMap.get_insert, if_neg hne]
        exact hc i t (List.mem_cons_of_mem _ h)

theorem recache_all {f : Str → Option Str} {l : AMap Nat AddedToken} (hwf : l.WF)
    (hr : (recache (some f) l []).2 = true) {i : Nat} {t : AddedToken} (hm : (i, t) ∈ l) (hn : t.normalized = true) :
    ∃ s, f t.content = some s ∧ ((recache (some f) l []).1.get i).getD t.content = s :=
  recache_all' l [] hwf (fun _ _ _ => rfl) hr i t hm hn

/-- A split with the token `id` found by one of the patterns: the pattern with spaces around it, and one token covering
all of it. -/
def FoundBy (cl : Classes) (av : AddedVocab) (pats : List (Str × Nat)) (x : Split) : Prop :=
  ∃ id t l p r, av.rmap.get id = some t ∧ (p, id) ∈ pats ∧ x.normalized.norm = l ++ p ++ r ∧
    (∀ c ∈ l, cl.isSpace c = true) ∧ (∀ c ∈ r, cl.isSpace c = true) ∧
    (t.lstrip = false → l = []) ∧ (t.rstrip = false → r = []) ∧
    x.tokens = some [⟨id, x.normalized.norm, (0, blen x.normalized.norm)⟩]

/-- **C27 (extraction).** After every history of additions, extracting the added tokens and normalizing the rest does
not panic, keeps the text (without normalizer) or replaces it by its normalization. First the tokens that are not
normalized are found in the raw text (`p1`), then the others in the normalized rest; every token found covers its
piece; the remaining pieces are in order for what follows. `norm` must not panic and leave sound pieces. -/
theorem C27_extract_partial {cl : Classes} {m : ModelView} (hm : m.Ok) {build : List (Str × Nat) → Bool}
    (hb : ∀ l, build l = true → ∀ p ∈ l, p.1 ≠ []) (ops : List Op) {av : AddedVocab}
    (hav : av = after build m empty ops) (hn1 : Neat cl av av.trie) (hn2 : Neat cl av av.normTrie)
    {norm : NS → Option NS} {F : NS → NS} (s : Str)
    (hF : ∀ n, n.Good s → norm n = some (F n) ∧ (F n).Good s) :
    ∃ p1 p : PTS, extractAndNormalize cl av norm s = .ok p ∧ p1.text = s ∧ p.original = s ∧ p.Good ∧
      p.text = p1.mapText (fun n => (F n).norm) ∧
      (∀ x ∈ p1.splits, x.tokens.isSome → FoundBy cl av av.trie x) ∧
      (∀ x ∈ p.splits, x.tokens.isSome → x ∈ p1.splits ∨ FoundBy cl av av.normTrie x) := by
  have htr : TriesOk av := hav ▸ after_tries hm hb ops (inv_empty m) (by simp [TriesOk, empty])
  have ht1 : ∀ p ∈ av.trie, p.1 ≠ [] ∧ ∃ t, av.rmap.get p.2 = some t := fun p hp => htr p (by simp [hp])
  have ht2 : ∀ p ∈ av.normTrie, p.1 ≠ [] ∧ ∃ t, av.rmap.get p.2 = some t := fun p hp => htr p (by simp [hp])
  -- one call of `split_with_indices`
  have one : ∀ {pats : List (Str × Nat)}, (∀ p ∈ pats, p.1 ≠ [] ∧ ∃ t, av.rmap.get p.2 = some t) →
      Neat cl av pats → ∀ n : NS, n.Good s → ∃ o, splitWithIndices cl av pats n = some o ∧
        o.flatMap (·.normalized.norm) = n.norm ∧ ∀ x ∈ o, x.normalized.norm ≠ [] →
          (x.tokens.isSome → FoundBy cl av pats x) ∧ x.normalized.Good s := by
    intro pats hp hneat n hg
    obtain ⟨ps, out, h1, h2, h3, h4, h5, h6⟩ := C27_split_partial hg (fun p h => (hp p h).1) (fun p h => (hp p h).2) hneat
    refine ⟨out, h1, ?_, fun x hx hne => ⟨fun htk => ?_, h6 x hx hne⟩⟩
    · rw [h2]
      have := congrArg (fun l => l.flatMap (·.2)) h5
      simpa [List.flatMap_map] using this
    · obtain ⟨i, hi⟩ := List.mem_iff_getElem?.1 hx
      have e := congrArg (fun l => l[i]?) h5
      simp only [List.getElem?_map, hi, Option.map_some] at e
      cases hpi : ps[i]? with
      | none => rw [hpi] at e; cases e
      | some pc =>
        rw [hpi] at e
        simp only [Option.map_some, Option.some.injEq, Prod.mk.injEq] at e
        obtain ⟨e1, e2⟩ := e
        obtain ⟨tag, y⟩ := pc
        cases tag with
        | none => rw [e1] at htk; cases htk
        | some id =>
          by_cases hnn : n.norm = []
          · have := h4 hnn
            rw [this] at hpi
            cases i with
            | zero => simp at hpi
            | succ i => simp at hpi
          · obtain ⟨_, hok⟩ := h3 hnn
            obtain ⟨xs, ys, hxy, _⟩ : ∃ xs ys, ps = xs ++ (some id, y) :: ys ∧ xs.length = i := by
              have hlt := (List.getElem?_eq_some_iff.1 hpi).1
              refine ⟨ps.take i, ps.drop (i + 1), ?_, by simp; omega⟩
              rw [← (List.getElem?_eq_some_iff.1 hpi).2, ← List.drop_eq_getElem_cons hlt, List.take_append_drop]
            rw [hxy] at hok
            obtain ⟨t, l, p, r, ht, k1, k2, _, k3, k4, k5, k6, _⟩ := PiecesOk.get hok
            exact ⟨id, t, l, p, r, ht, k1, e2.trans k2, k3, k4, k5, k6,
              by rw [e1, pieceTokens]; simp only [Option.map_some, e2]⟩
  obtain ⟨p1, h1, h2, h3, h4, h5⟩ := PTS_split_tagged (PTS.good_ofStr s)
    (f := fun _ n => orPanic (splitWithIndices cl av av.trie n)) (fun n => n.norm)
    (fun x => FoundBy cl av av.trie x)
    (by
      intro x hx ht
      simp only [PTS.ofStr, PTS.ofNS, List.mem_singleton] at hx
      rw [hx] at ht; cases ht)
    (by
      intro n _ hg
      obtain ⟨o, g1, g2, g3⟩ := one ht1 hn1 n hg
      exact ⟨o, by rw [g1]; rfl, g2, g3⟩)
  have h2 : p1.original = s := h2
  obtain ⟨p, k1, k2, k3, k4, k5⟩ := PTS_split_tagged h3
    (f := fun _ n => orPanic ((norm n).bind (splitWithIndices cl av av.normTrie))) (fun n => (F n).norm)
    (fun x => x ∈ p1.splits ∨ FoundBy cl av av.normTrie x) (fun x hx _ => .inl hx)
    (by
      intro n _ hg
      rw [h2] at hg ⊢
      obtain ⟨f1, f2⟩ := hF n hg
      obtain ⟨o, g1, g2, g3⟩ := one ht2 hn2 (F n) f2
      exact ⟨o, by rw [f1]; simp only [Option.bind_some, g1]; rfl, g2,
        fun x hx hne => ⟨fun h => .inr ((g3 x hx hne).1 h), (g3 x hx hne).2⟩⟩)
  refine ⟨p1, p, ?_, ?_, k2.trans h2, k3, k4, h5, k5⟩
  · unfold extractAndNormalize
    rw [h1]; exact k1
  · rw [h4, PTS.mapText_norm]
    simp [PTS.text, PTS.ofStr, PTS.ofNS, NS.ofStr]

/-- **C27 (patterns).** After a successful addition the tokens that are not normalized are searched for by their
content, the others by their cached form or, if there is none, by their content. -/
theorem C27_patterns {m : ModelView} (hm : m.Ok) {build : List (Str × Nat) → Bool} {norm : Norm} {av r : AddedVocab}
    (hi : Inv m av) {ts : List AddedToken} {k : Nat} (h : av.addTokens build m norm ts = (r, some k)) :
    (∀ c i, (c, i) ∈ r.trie ↔ ∃ t, r.rmap.get i = some t ∧ t.normalized = false ∧ c = t.content) ∧
    (∀ c i, (c, i) ∈ r.normTrie ↔ ∃ t, r.rmap.get i = some t ∧ t.normalized = true ∧
      c = (r.cache.get i).getD t.content) := by
  obtain ⟨g1, _⟩ := addLoop_inv hm norm ts 0 hi nextId_fresh
  unfold addTokens at h
  cases hl : addLoop m norm ts av (av.nextId m) 0 with
  | mk r' ign =>
    rw [hl] at h g1
    cases ign with
    | none => simp at h
    | some ign =>
      simp only [Prod.mk.injEq] at h
      have h2 : (r'.refresh build).2 = true := by
        cases hx : (r'.refresh build).2 with
        | true => rfl
        | false => rw [hx] at h; simp at h
      rw [← h.1]
      exact refresh_patterns g1.wfr h2

/-- **C27 (patterns).** After a successful change of the normalizer the normalized tokens are searched for by their new
normal form. -/
theorem C27_patterns_renormalized {m : ModelView} {build : List (Str × Nat) → Bool} {f : Str → Option Str}
    {av r : AddedVocab} (hi : Inv m av) (h : av.refreshNormalized build (some f) = (r, true)) :
    r.rmap = av.rmap ∧
    (∀ c i, (c, i) ∈ r.trie ↔ ∃ t, av.rmap.get i = some t ∧ t.normalized = false ∧ c = t.content) ∧
    (∀ c i, (c, i) ∈ r.normTrie ↔ ∃ t, av.rmap.get i = some t ∧ t.normalized = true ∧ f t.content = some c) := by
  unfold refreshNormalized at h
  simp only at h
  cases hr : (recache (some f) av.rmap []).2 with
  | false => rw [hr] at h; simp at h
  | true =>
    rw [hr] at h
    simp only [if_true] at h
    have hs := refresh_same build { av with cache := (recache (some f) av.rmap []).1 }
    have h2 : (AddedVocab.refresh build { av with cache := (recache (some f) av.rmap []).1 }).2 = true := by rw [h]
    have hp := refresh_patterns (av := { av with cache := (recache (some f) av.rmap []).1 }) hi.wfr h2
    rw [h] at hs hp
    simp only at hs hp
    refine ⟨hs.2.1, ?_, ?_⟩
    · rw [hs.2.1] at hp; exact hp.1
    · intro c i
      rw [hp.2 c i, hs.2.1, hs.2.2.2.1]
      constructor
      · rintro ⟨t, k1, k2, k3⟩
        refine ⟨t, k1, k2, ?_⟩
        obtain ⟨s, e1, e2⟩ := recache_all hi.wfr hr (AMap.mem_of_get_eq_some k1) k2
        rw [e2] at k3; rw [k3]; exact e1
      · rintro ⟨t, k1, k2, k3⟩
        refine ⟨t, k1, k2, ?_⟩
        obtain ⟨s, e1, e2⟩ := recache_all hi.wfr hr (AMap.mem_of_get_eq_some k1) k2
        rw [k3] at e1; cases e1
        exact e2.symm

/-- Without normalizer the text is unchanged. -/
theorem C27_extract_text_partial {cl : Classes} {m : ModelView} (hm : m.Ok) {build : List (Str × Nat) → Bool}
    (hb : ∀ l, build l = true → ∀ p ∈ l, p.1 ≠ []) (ops : List Op) {av : AddedVocab}
    (hav : av = after build m empty ops) (hn1 : Neat cl av av.trie) (hn2 : Neat cl av av.normTrie) (s : Str) :
    ∃ p : PTS, extractAndNormalize cl av some s = .ok p ∧ p.text = s := by
  obtain ⟨p1, p, h1, h2, _, _, h3, _⟩ := C27_extract_partial (norm := some) (F := fun n => n) hm hb ops hav hn1 hn2 s
    (fun n hn => ⟨rfl, hn⟩)
  exact ⟨p, h1, by rw [h3, PTS.mapText_norm, h2]⟩

example : (extractAndNormalize asciiClasses sampleAv some "x  <a>  abab ab".toList).toOption.map
    (fun p => p.splits.map fun x => (String.ofList x.normalized.norm, x.tokens.map (·.map (·.id)), x.normalized.offsetsOriginal))
    = some [("x", none, (0, 1)), ("  <a>  ", some [3], (1, 8)), ("abab ", none, (8, 13)), ("ab", some [4], (13, 15))] := by
  decide +kernel

end AddedVocab
end Tok
