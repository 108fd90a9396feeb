import Verif.Norm.C10

/-!
# `tokenizer/pattern.rs` and `NormalizedString::split`: model and proofs (C11, C12)
-/

namespace Tok
namespace NS

/-- The loop of `find_matches` for a predicate (`pattern.rs:94-119`): `last` is `last_offset`, `b` the byte
position of the next character (`last_seen` is the end of the previous one, so `b` at the end). -/
def predLoop (p : Char → Bool) : Nat → Nat → Str → Matches
  | last, b, [] => if b > last then [((last, b), false)] else []
  | last, b, c :: cs =>
    if p c then
      (if last < b then [((last, b), false)] else []) ++ ((b, b + c.utf8Size), true) ::
        predLoop p (b + c.utf8Size) (b + c.utf8Size) cs
    else predLoop p last (b + c.utf8Size) cs

/-- `find_matches` for `F: Fn(char) -> bool` (`pattern.rs:85-121`). -/
def findPred (p : Char → Bool) (s : Str) : Matches :=
  if s = [] then [((0, 0), false)] else predLoop p 0 0 s

/-- `find_matches` for `char` (`pattern.rs:15-20`). -/
def findChar (c : Char) (s : Str) : Matches := findPred (· == c) s

/-- The loop of `find_matches` for a regex (`pattern.rs:46-59`): `len` is `inside.len()`. -/
def regexLoop (len : Nat) : Nat → List Range → Matches
  | prev, [] => if prev ≠ len then [((prev, len), false)] else []
  | prev, m :: ms =>
    (if prev ≠ m.1 then [((prev, m.1), false)] else []) ++ ((m.1, m.2), true) :: regexLoop len m.2 ms

/-- `find_matches` for `&Regex` and `&SysRegex` (`pattern.rs:40-81`); the matches of the engine are given. -/
def findRegex (ms : List Range) (s : Str) : Matches :=
  if s = [] then [((0, 0), false)] else regexLoop (blen s) 0 ms

/-- `find_matches` for `&str` (`pattern.rs:22-32`): the empty pattern matches nothing; its range ends at
the number of *characters*. `ms` are the matches of the escaped pattern. -/
def findStr (pat : Str) (ms : List Range) (s : Str) : Matches :=
  if pat = [] then [((0, s.length), false)] else findRegex ms s

/-- `Invert` (`pattern.rs:127-137`). -/
def invert (ms : Matches) : Matches := ms.map fun m => (m.1, !m.2)

/-! ## C12 -/

/-- The contract of `Pattern`: contiguous ordered ranges of `s`, on character boundaries, from byte `b` to
the end. -/
def Covers (s : Str) : Nat → Matches → Prop
  | b, [] => b = blen s
  | b, m :: ms => m.1.1 = b ∧ b ≤ m.1.2 ∧ CutAt s b ∧ CutAt s m.1.2 ∧ Covers s m.1.2 ms

theorem covers_piecesAt : ∀ (ps : List (Str × Bool)) (pre : Str),
    Covers (pre ++ ps.flatMap (·.1)) (blen pre) (piecesAt (blen pre) ps)
  | [], pre => by simp [piecesAt, Covers]
  | (p, m) :: ps, pre => by
    have := covers_piecesAt ps (pre ++ p)
    rw [blen_append, List.append_assoc] at this
    refine ⟨rfl, by simp only; omega, ⟨pre, _, rfl, rfl⟩, ⟨pre ++ p, ps.flatMap (·.1), by simp, by simp⟩, ?_⟩
    simpa [piecesAt] using this

/-- Conversely, a list meeting the contract consists of the offsets of consecutive pieces. -/
theorem piecesAt_of_covers {s : Str} : ∀ (ms : Matches) (pre post : Str), s = pre ++ post →
    Covers s (blen pre) ms → ∃ ps : List (Str × Bool), post = ps.flatMap (·.1) ∧ ms = piecesAt (blen pre) ps
  | [], pre, post, hs, h => by
    have : blen post = 0 := by rw [hs, Covers] at h; simp at h; exact h
    exact ⟨[], by rw [blen_eq_zero.1 this]; rfl, rfl⟩
  | ((a, b), f) :: ms, pre, post, hs, h => by
    obtain ⟨h1, h2, h3, h4, h5⟩ := h
    simp only at h1 h2 h4 h5
    subst h1
    obtain ⟨x, y, hx, hb⟩ := h4
    rw [hs] at hx
    obtain ⟨m, rfl, rfl⟩ := append_le_blen hx (by omega)
    rw [blen_append] at hb
    obtain ⟨ps, hp1, hp2⟩ := piecesAt_of_covers (s := s) ms (pre ++ m) y (by rw [hs]; simp) (by rw [blen_append, hb]; exact h5)
    exact ⟨(m, f) :: ps, by rw [hp1]; rfl, by rw [hp2]; simp [piecesAt, hb]⟩

theorem predLoop_pieces (p : Char → Bool) : ∀ (s u : Str) (b : Nat), (∀ c ∈ u, p c = false) →
    ∃ ps : List (Str × Bool), predLoop p b (b + blen u) s = piecesAt b ps ∧ u ++ s = ps.flatMap (·.1) ∧
      (∀ x ∈ ps, x.2 = true → ∃ c, x.1 = [c] ∧ p c = true) ∧
      (∀ x ∈ ps, x.2 = false → x.1 ≠ [] ∧ ∀ c ∈ x.1, p c = false) ∧
      (∀ a q r c, ps ≠ a ++ (q, false) :: (r, false) :: c)
  | [], u, b, hu => by
    by_cases hne : u = []
    · subst hne
      refine ⟨[], by simp [predLoop, piecesAt], by simp, by simp, by simp, by simp⟩
    · have := blen_pos hne
      refine ⟨[(u, false)], by simp [predLoop, piecesAt, this], by simp, by simp, ?_, ?_⟩
      · intro x hx _
        simp only [List.mem_singleton] at hx; subst hx
        exact ⟨hne, hu⟩
      · intro a q r c h
        have := congrArg List.length h
        simp at this; omega
  | c :: s, u, b, hu => by
    rw [predLoop]
    by_cases hc : p c = true
    · rw [if_pos hc]
      obtain ⟨ps, h1, h2, h3, h4, h5⟩ := predLoop_pieces p s [] (b + blen u + c.utf8Size) (by simp)
      simp only [blen_nil, Nat.add_zero, List.nil_append] at h1 h2
      rw [h1]
      by_cases hne : u = []
      · subst hne
        refine ⟨([c], true) :: ps, by simp [piecesAt], by simp [h2], ?_, ?_, ?_⟩
        · intro x hx ht
          rcases List.mem_cons.1 hx with rfl | hx
          · exact ⟨c, rfl, hc⟩
          · exact h3 x hx ht
        · intro x hx ht
          rcases List.mem_cons.1 hx with rfl | hx
          · cases ht
          · exact h4 x hx ht
        · intro a q r d h
          cases a with
          | nil => simp at h
          | cons y a => simp only [List.cons_append, List.cons.injEq] at h; exact h5 a q r d h.2
      · have hpos := blen_pos hne
        refine ⟨(u, false) :: ([c], true) :: ps, by simp [piecesAt, hpos], by simp [h2], ?_, ?_, ?_⟩
        · intro x hx ht
          rcases List.mem_cons.1 hx with rfl | hx
          · cases ht
          rcases List.mem_cons.1 hx with rfl | hx
          · exact ⟨c, rfl, hc⟩
          · exact h3 x hx ht
        · intro x hx ht
          rcases List.mem_cons.1 hx with rfl | hx
          · exact ⟨hne, hu⟩
          rcases List.mem_cons.1 hx with rfl | hx
          · cases ht
          · exact h4 x hx ht
        · intro a q r d h
          cases a with
          | nil => simp at h
          | cons y a =>
            simp only [List.cons_append, List.cons.injEq] at h
            cases a with
            | nil => simp at h
            | cons z a => simp only [List.cons_append, List.cons.injEq] at h; exact h5 a q r d h.2.2
    · rw [if_neg hc]
      obtain ⟨ps, h1, h2, h3⟩ := predLoop_pieces p s (u ++ [c]) b (by
        intro x hx
        rcases List.mem_append.1 hx with hx | hx
        · exact hu x hx
        · simp only [List.mem_singleton] at hx; subst hx; simpa using hc)
      refine ⟨ps, ?_, by simpa using h2, h3⟩
      rw [← h1]; simp [Nat.add_assoc]

/-- **C12.** A predicate (or char) pattern cuts a non-empty text into pieces: the matches are exactly the
single characters satisfying it, the rest are maximal non-empty stretches of other characters. -/
theorem C12_predicate (p : Char → Bool) {s : Str} (hs : s ≠ []) :
    ∃ ps : List (Str × Bool), findPred p s = piecesAt 0 ps ∧ s = ps.flatMap (·.1) ∧
      (∀ x ∈ ps, x.2 = true → ∃ c, x.1 = [c] ∧ p c = true) ∧
      (∀ x ∈ ps, x.2 = false → x.1 ≠ [] ∧ ∀ c ∈ x.1, p c = false) ∧
      (∀ a q r c, ps ≠ a ++ (q, false) :: (r, false) :: c) := by
  unfold findPred
  rw [if_neg hs]
  simpa using predLoop_pieces p s [] 0 (by simp)

/-- **C12.** Predicate patterns meet the contract on every text. -/
theorem C12_predicate_covers (p : Char → Bool) (s : Str) : Covers s 0 (findPred p s) := by
  by_cases hs : s = []
  · subst hs
    simp only [findPred, if_true, Covers]
    exact ⟨trivial, Nat.le_refl _, cutAt_zero _, cutAt_zero _, rfl⟩
  · obtain ⟨ps, h1, h2, _⟩ := C12_predicate p hs
    rw [h1, h2]
    simpa using covers_piecesAt ps []

/-- **C12.** A `char` pattern: the matches are exactly the occurrences of that character. -/
theorem C12_char (c : Char) {s : Str} (hs : s ≠ []) :
    ∃ ps : List (Str × Bool), findChar c s = piecesAt 0 ps ∧ s = ps.flatMap (·.1) ∧
      (∀ x ∈ ps, x.2 = true → x.1 = [c]) ∧
      (∀ x ∈ ps, x.2 = false → x.1 ≠ [] ∧ c ∉ x.1) ∧
      (∀ a q r d, ps ≠ a ++ (q, false) :: (r, false) :: d) := by
  obtain ⟨ps, h1, h2, h3, h4, h5⟩ := C12_predicate (· == c) hs
  refine ⟨ps, h1, h2, fun x hx ht => ?_, fun x hx hf => ⟨(h4 x hx hf).1, fun hm => ?_⟩, h5⟩
  · obtain ⟨d, hd, hp⟩ := h3 x hx ht
    rw [hd, eq_of_beq hp]
  · have := (h4 x hx hf).2 c hm
    simp at this

example : findChar '-' "é-a".toList = [((0, 2), false), ((2, 3), true), ((3, 4), false)] := by decide

example : findPred (· == '-') "é-a--".toList
    = [((0, 2), false), ((2, 3), true), ((3, 4), false), ((4, 5), true), ((5, 6), true)] := by decide

/-- What a regex engine guarantees: matches in order, not overlapping, on character boundaries. -/
def EngineMatches (s : Str) : Nat → List Range → Prop
  | _, [] => True
  | b, m :: ms => b ≤ m.1 ∧ m.1 ≤ m.2 ∧ CutAt s m.1 ∧ CutAt s m.2 ∧ EngineMatches s m.2 ms

theorem regexLoop_covers (s : Str) : ∀ (ms : List Range) (b : Nat), CutAt s b → EngineMatches s b ms →
    Covers s b (regexLoop (blen s) b ms) ∧
      ((regexLoop (blen s) b ms).filter (·.2)).map (·.1) = ms
  | [], b, hb, _ => by
    rw [regexLoop]
    by_cases h : b = blen s
    · rw [if_neg (by simpa using h)]; exact ⟨h, rfl⟩
    · rw [if_pos h]
      refine ⟨⟨rfl, cutAt_le hb, hb, ⟨s, [], by simp, rfl⟩, rfl⟩, rfl⟩
  | m :: ms, b, hb, h => by
    obtain ⟨h1, h2, h3, h4, h5⟩ := h
    obtain ⟨g1, g2⟩ := regexLoop_covers s ms m.2 h4 h5
    rw [regexLoop]
    by_cases hbm : b = m.1
    · rw [if_neg (by simpa using hbm)]
      refine ⟨⟨hbm.symm, by simp only; omega, hb, h4, g1⟩, ?_⟩
      simp [g2]
    · rw [if_pos hbm]
      refine ⟨⟨rfl, h1, hb, h3, ⟨rfl, h2, h3, h4, g1⟩⟩, ?_⟩
      simp [g2]

/-- **C12.** Regex patterns meet the contract, and flag exactly the matches of the engine. -/
theorem C12_regex {s : Str} {ms : List Range} (h : EngineMatches s 0 ms) :
    Covers s 0 (findRegex ms s) ∧ (s ≠ [] → ((findRegex ms s).filter (·.2)).map (·.1) = ms) := by
  unfold findRegex
  by_cases hs : s = []
  · rw [if_pos hs]
    subst hs
    exact ⟨⟨rfl, Nat.le_refl _, cutAt_zero _, cutAt_zero _, rfl⟩, fun h => absurd rfl h⟩
  · rw [if_neg hs]
    obtain ⟨h1, h2⟩ := regexLoop_covers s ms 0 (cutAt_zero s) h
    exact ⟨h1, fun _ => h2⟩

example : EngineMatches "ab cd".toList 0 [(0, 2), (3, 5)] ∧
    findRegex [(0, 2), (3, 5)] "ab cd".toList = [((0, 2), true), ((2, 3), false), ((3, 5), true)] :=
  ⟨⟨by decide, by decide, ⟨[], "ab cd".toList, rfl, rfl⟩, ⟨"ab".toList, " cd".toList, rfl, rfl⟩, by decide, by decide,
    ⟨"ab ".toList, "cd".toList, rfl, rfl⟩, ⟨"ab cd".toList, [], rfl, rfl⟩, trivial⟩, by decide⟩

/-- **C12.** A non-empty string pattern is a regex pattern. -/
theorem C12_string {s pat : Str} {ms : List Range} (hp : pat ≠ []) (h : EngineMatches s 0 ms) :
    Covers s 0 (findStr pat ms s) := by
  unfold findStr; rw [if_neg hp]; exact (C12_regex h).1

/-- **C12.** `Invert` keeps the ranges, hence the contract, and flips every flag. -/
theorem C12_invert (ms : Matches) : (invert ms).map (·.1) = ms.map (·.1) ∧
    (invert ms).map (·.2) = ms.map (!·.2) ∧ invert (invert ms) = ms := by
  refine ⟨?_, ?_, ?_⟩ <;> simp [invert, Function.comp_def]

theorem C12_invert_covers {s : Str} : ∀ {ms : Matches} {b : Nat}, Covers s b ms → Covers s b (invert ms)
  | [], _, h => h
  | _ :: _, _, ⟨h1, h2, h3, h4, h5⟩ => ⟨h1, h2, h3, h4, C12_invert_covers h5⟩

/-- Where it fails: the empty string pattern counts characters instead of bytes. -/
theorem C12_empty_string_pattern_does_not_cover (ms : List Range) :
    ¬ Covers ['é'] 0 (findStr [] ms ['é']) := by
  simp only [findStr, if_true, Covers]
  rintro ⟨_, _, _, _, h⟩
  revert h; decide

/-- On a text of one-byte characters it does cover. -/
theorem C12_empty_string_pattern_ascii {s : Str} (h : s.length = blen s) (ms : List Range) :
    Covers s 0 (findStr [] ms s) := by
  simp only [findStr, if_true, Covers]
  rw [h]
  exact ⟨trivial, Nat.zero_le _, cutAt_zero s, ⟨s, [], by simp, rfl⟩, rfl⟩

/-! ## `split` -/

/-- `SplitDelimiterBehavior` (`normalizer.rs:82-88`). -/
inductive Behavior
  | removed | isolated | mergedWithPrevious | mergedWithNext | contiguous
deriving DecidableEq, Repr

/-- `if let Some(((_, end), _)) = acc.last_mut() { *end = e } else { acc.push(..) }`, the accumulator
being kept in reverse. -/
def extendLast (acc : Matches) (r : Range) : Matches :=
  match acc with
  | [] => [(r, false)]
  | ((s, _), f) :: rest => ((s, r.2), f) :: rest

/-- `if let Some(((start, _), _)) = acc.last_mut() { *start = s } else { acc.push(..) }`, same. -/
def extendFirst (acc : Matches) (r : Range) : Matches :=
  match acc with
  | [] => [(r, false)]
  | ((_, e), f) :: rest => ((r.1, e), f) :: rest

/-- The fold of `Contiguous` (`normalizer.rs:711-729`). -/
def contiguousFold : Bool → Matches → Matches → Matches
  | _, acc, [] => acc
  | prev, acc, (r, m) :: ms =>
    contiguousFold m (if m = prev then extendLast acc r else (r, false) :: acc) ms

/-- The fold of `MergedWithPrevious` (`normalizer.rs:730-748`). -/
def prevFold : Bool → Matches → Matches → Matches
  | _, acc, [] => acc
  | prev, acc, (r, m) :: ms =>
    prevFold m (if m && !prev then extendLast acc r else (r, false) :: acc) ms

/-- The fold of `MergedWithNext` over the reversed matches (`normalizer.rs:749-770`); the accumulator in
reverse is already the final order. -/
def nextFold : Bool → Matches → Matches → Matches
  | _, acc, [] => acc
  | prev, acc, (r, m) :: ms =>
    nextFold m (if m && !prev then extendFirst acc r else (r, false) :: acc) ms

/-- The ranges to keep or remove (`normalizer.rs:701-766`). -/
def splitRanges (b : Behavior) (ms : Matches) : Matches :=
  match b with
  | .isolated => ms.map fun m => (m.1, false)
  | .removed => ms
  | .contiguous => (contiguousFold false [] ms).reverse
  | .mergedWithPrevious => (prevFold false [] ms).reverse
  | .mergedWithNext => nextFold false [] ms.reverse

/-- `split` (`normalizer.rs:694-787`) for the matches found in the normalized text; `none` is a panic
("bad split", or inside `slice`). -/
def split (n : NS) (ms : Matches) (b : Behavior) : Option (List NS) :=
  ((splitRanges b ms).filter (!·.2)).mapM fun m => (n.sliceNormalized m.1).bind id

/-! ## what each behaviour means, on pieces -/

/-- Each delimiter goes to the text on its left, if that is not itself a delimiter. -/
def joinPrev : List (Str × Bool) → List Str
  | (t, false) :: (d, true) :: ps => (t ++ d) :: joinPrev ps
  | (x, _) :: ps => x :: joinPrev ps
  | [] => []

/-- Each delimiter goes to the text on its right, if that is not itself a delimiter. -/
def joinNext : List (Str × Bool) → List Str
  | (d, true) :: (t, false) :: ps => (d ++ t) :: joinNext ps
  | (x, _) :: ps => x :: joinNext ps
  | [] => []

/-- Runs of pieces of one kind are joined; each run with its kind. -/
def joinRuns : List (Str × Bool) → List (Str × Bool)
  | [] => []
  | (x, b) :: ps =>
    match joinRuns ps with
    | (y, b') :: rest => if b = b' then (x ++ y, b) :: rest else (x, b) :: (y, b') :: rest
    | [] => [(x, b)]

/-- What the behaviour keeps of the pieces. -/
def kept : Behavior → List (Str × Bool) → List Str
  | .isolated, ps => ps.map (·.1)
  | .removed, ps => (ps.filter (!·.2)).map (·.1)
  | .contiguous, ps => (joinRuns ps).map (·.1)
  | .mergedWithPrevious, ps => joinPrev ps
  | .mergedWithNext, ps => joinNext ps

/-! ## the folds compute that -/

/-- Consecutive ranges to keep. -/
def segs (b : Nat) (xs : List Str) : Matches := piecesAt b (xs.map fun x => (x, false))

@[simp] theorem segs_nil (b : Nat) : segs b [] = [] := rfl
@[simp] theorem segs_cons (b : Nat) (x : Str) (xs : List Str) :
    segs b (x :: xs) = ((b, b + blen x), false) :: segs (b + blen x) xs := rfl

theorem joinPrev_true (x : Str) (ps : List (Str × Bool)) : joinPrev ((x, true) :: ps) = x :: joinPrev ps := by
  rw [joinPrev]; simp

theorem joinPrev_false_false (t x : Str) (ps : List (Str × Bool)) :
    joinPrev ((t, false) :: (x, false) :: ps) = t :: joinPrev ((x, false) :: ps) := by
  rw [joinPrev]; simp

theorem joinPrev_single (t : Str) : joinPrev [(t, false)] = [t] := rfl

theorem prevFold_pieces : ∀ (ps : List (Str × Bool)),
    (∀ (b : Nat) (acc : Matches), prevFold true acc (piecesAt b ps) = (segs b (joinPrev ps)).reverse ++ acc) ∧
    (∀ (a : Nat) (t : Str) (acc : Matches),
      prevFold false (((a, a + blen t), false) :: acc) (piecesAt (a + blen t) ps)
        = (segs a (joinPrev ((t, false) :: ps))).reverse ++ acc)
  | [] => ⟨fun _ _ => rfl, fun a t acc => by simp [piecesAt, prevFold, joinPrev_single]⟩
  | (x, true) :: ps => by
    obtain ⟨h1, _⟩ := prevFold_pieces ps
    refine ⟨fun b acc => ?_, fun a t acc => ?_⟩
    · rw [piecesAt, prevFold, joinPrev_true]
      simp only [Bool.not_true, Bool.and_false, Bool.false_eq_true, if_false]
      rw [h1]; simp
    · rw [piecesAt, prevFold, joinPrev]
      simp only [Bool.not_false, Bool.and_true, if_true, extendLast]
      rw [h1]; simp [Nat.add_assoc]
  | (x, false) :: ps => by
    obtain ⟨_, h2⟩ := prevFold_pieces ps
    refine ⟨fun b acc => ?_, fun a t acc => ?_⟩
    · rw [piecesAt, prevFold]
      simp only [Bool.false_and, Bool.false_eq_true, if_false]
      exact h2 b x acc
    · rw [piecesAt, prevFold, joinPrev_false_false]
      simp only [Bool.false_and, Bool.false_eq_true, if_false]
      rw [h2]; simp

theorem splitRanges_prev (ps : List (Str × Bool)) (b : Nat) :
    splitRanges .mergedWithPrevious (piecesAt b ps) = segs b (joinPrev ps) := by
  unfold splitRanges
  simp only
  match ps with
  | [] => rfl
  | (x, true) :: ps =>
    rw [piecesAt, prevFold]
    simp only [Bool.not_false, Bool.and_true, if_true, extendLast]
    rw [(prevFold_pieces ps).1, joinPrev_true]; simp
  | (x, false) :: ps =>
    rw [piecesAt, prevFold]
    simp only [Bool.false_and, Bool.false_eq_true, if_false]
    rw [(prevFold_pieces ps).2]; simp

theorem nextFold_snoc (ms : Matches) (r : Range) (m : Bool) : ∀ (prev : Bool) (acc : Matches),
    nextFold prev acc (ms ++ [(r, m)]) =
      nextFold ((ms.getLast?.map (·.2)).getD prev) (nextFold prev acc ms) [(r, m)] := by
  induction ms with
  | nil => intro prev acc; rfl
  | cons x ms ih =>
    intro prev acc
    obtain ⟨r', m'⟩ := x
    rw [List.cons_append, nextFold, ih]
    conv => rhs; rw [nextFold]
    have : ((((r', m') :: ms).getLast?).map (·.2)).getD prev = ((ms.getLast?).map (·.2)).getD m' := by
      cases ms with
      | nil => rfl
      | cons y ms => simp [List.getLast?_cons]
    rw [this]
    rfl

theorem joinNext_false (x : Str) (ps : List (Str × Bool)) : joinNext ((x, false) :: ps) = x :: joinNext ps := by
  rw [joinNext]; simp

theorem joinNext_true_true (t x : Str) (ps : List (Str × Bool)) :
    joinNext ((t, true) :: (x, true) :: ps) = t :: joinNext ((x, true) :: ps) := by
  rw [joinNext]; simp

theorem nextFold_pieces : ∀ (ps : List (Str × Bool)) (b : Nat),
    nextFold false [] (piecesAt b ps).reverse = segs b (joinNext ps)
  | [], b => rfl
  | (x, m) :: ps, b => by
    rw [piecesAt, List.reverse_cons, nextFold_snoc, nextFold_pieces ps]
    rw [nextFold, nextFold, List.getLast?_reverse]
    match ps, m with
    | [], false => rfl
    | [], true => rfl
    | (y, false) :: ps, true =>
      rw [joinNext_false, joinNext]
      simp [piecesAt, Nat.add_assoc, extendFirst]
    | (y, true) :: ps, true =>
      rw [joinNext_true_true]
      simp [piecesAt]
    | y :: ps, false =>
      rw [joinNext_false]
      simp

theorem joinRuns_head (x : Str) (b : Bool) (ps : List (Str × Bool)) :
    ∃ y rest, joinRuns ((x, b) :: ps) = (y, b) :: rest := by
  rw [joinRuns]
  split
  · split
    · exact ⟨_, _, rfl⟩
    · exact ⟨_, _, rfl⟩
  · exact ⟨_, _, rfl⟩

theorem joinRuns_same (t x : Str) (k : Bool) (ps : List (Str × Bool)) :
    joinRuns ((t, k) :: (x, k) :: ps) = joinRuns ((t ++ x, k) :: ps) := by
  rw [joinRuns, joinRuns, joinRuns]
  cases h : joinRuns ps with
  | nil => simp
  | cons y rest =>
    obtain ⟨y, b⟩ := y
    by_cases hb : k = b
    · subst hb; simp
    · simp [hb]

theorem joinRuns_diff (t x : Str) {k k' : Bool} (h : k ≠ k') (ps : List (Str × Bool)) :
    joinRuns ((t, k) :: (x, k') :: ps) = (t, k) :: joinRuns ((x, k') :: ps) := by
  obtain ⟨y, rest, he⟩ := joinRuns_head x k' ps
  rw [joinRuns, he]
  simp [h]

theorem contiguousFold_pieces : ∀ (ps : List (Str × Bool)) (a : Nat) (t : Str) (k : Bool) (acc : Matches),
    contiguousFold k (((a, a + blen t), false) :: acc) (piecesAt (a + blen t) ps)
      = (segs a ((joinRuns ((t, k) :: ps)).map (·.1))).reverse ++ acc
  | [], a, t, k, acc => by simp [piecesAt, contiguousFold, joinRuns]
  | (x, m) :: ps, a, t, k, acc => by
    rw [piecesAt, contiguousFold]
    by_cases h : m = k
    · subst h
      rw [if_pos rfl, joinRuns_same, extendLast]
      simp only
      have := contiguousFold_pieces ps a (t ++ x) m acc
      rw [blen_append, ← Nat.add_assoc] at this
      exact this
    · rw [if_neg h, joinRuns_diff _ _ (Ne.symm h), contiguousFold_pieces ps]
      simp

theorem splitRanges_contiguous (ps : List (Str × Bool)) (b : Nat) :
    splitRanges .contiguous (piecesAt b ps) = segs b ((joinRuns ps).map (·.1)) := by
  unfold splitRanges
  simp only
  match ps with
  | [] => rfl
  | (x, m) :: ps =>
    rw [piecesAt, contiguousFold]
    have : (if m = false then extendLast [] (b, b + blen x) else [((b, b + blen x), false)])
        = [((b, b + blen x), false)] := by cases m <;> rfl
    rw [this, contiguousFold_pieces]; simp

theorem splitRanges_isolated (ps : List (Str × Bool)) (b : Nat) :
    splitRanges .isolated (piecesAt b ps) = segs b (ps.map (·.1)) := by
  unfold splitRanges
  simp only
  induction ps generalizing b with
  | nil => rfl
  | cons p ps ih =>
    obtain ⟨x, m⟩ := p
    rw [piecesAt, List.map_cons, ih]; simp

/-! ## C11 -/

/-- Joining only joins. -/
theorem joinPrev_flatten : ∀ ps : List (Str × Bool), (joinPrev ps).flatten = ps.flatMap (·.1)
  | [] => rfl
  | [(x, m)] => by cases m <;> simp [joinPrev]
  | (t, false) :: (d, true) :: ps => by rw [joinPrev]; simp [joinPrev_flatten ps]
  | (t, false) :: (d, false) :: ps => by
    rw [joinPrev_false_false, List.flatten_cons, joinPrev_flatten ((d, false) :: ps)]; simp
  | (t, true) :: p :: ps => by
    rw [joinPrev_true, List.flatten_cons, joinPrev_flatten (p :: ps)]; simp

theorem joinNext_flatten : ∀ ps : List (Str × Bool), (joinNext ps).flatten = ps.flatMap (·.1)
  | [] => rfl
  | [(x, m)] => by cases m <;> simp [joinNext]
  | (t, true) :: (d, false) :: ps => by rw [joinNext]; simp [joinNext_flatten ps]
  | (t, true) :: (d, true) :: ps => by
    rw [joinNext_true_true, List.flatten_cons, joinNext_flatten ((d, true) :: ps)]; simp
  | (t, false) :: p :: ps => by
    rw [joinNext_false, List.flatten_cons, joinNext_flatten (p :: ps)]; simp

theorem joinRuns_flatten : ∀ ps : List (Str × Bool), ((joinRuns ps).map (·.1)).flatten = ps.flatMap (·.1)
  | [] => rfl
  | (x, b) :: ps => by
    have ih := joinRuns_flatten ps
    rw [joinRuns, List.flatMap_cons, ← ih]
    split
    · rename_i y b' rest h
      rw [h]
      split <;> simp
    · rename_i h; rw [h]; simp

/-- Runs alternate in kind. -/
theorem joinRuns_alternate : ∀ ps : List (Str × Bool), ∀ a x y c,
    joinRuns ps = a ++ x :: y :: c → x.2 ≠ y.2
  | [], a, x, y, c, h => by simp [joinRuns] at h
  | (t, b) :: ps, a, x, y, c, h => by
    have ih := joinRuns_alternate ps
    rw [joinRuns] at h
    split at h
    · rename_i z b' rest hz
      by_cases hb : b = b'
      · rw [if_pos hb] at h
        cases a with
        | nil =>
          simp only [List.nil_append, List.cons.injEq] at h
          have := ih [] (z, b') y c (by rw [hz, h.2]; rfl)
          rw [← h.1]; simp only at this ⊢; rw [hb]; exact this
        | cons d a =>
          simp only [List.cons_append, List.cons.injEq] at h
          exact ih ((z, b') :: a) x y c (by rw [hz, h.2]; rfl)
      · rw [if_neg hb] at h
        cases a with
        | nil =>
          simp only [List.nil_append, List.cons.injEq] at h
          rw [← h.1, ← h.2.1]; exact hb
        | cons d a =>
          simp only [List.cons_append, List.cons.injEq] at h
          exact ih a x y c (by rw [hz, h.2])
    · have := congrArg List.length h
      simp at this; omega

theorem flatMap_filter_pieces (ps : List (Str × Bool)) :
    (ps.filter (!·.2)).flatMap (·.1) = ps.flatMap fun p => if p.2 then [] else p.1 := by
  induction ps with
  | nil => rfl
  | cons p ps ih => obtain ⟨x, m⟩ := p; cases m <;> simp [ih]

/-- **C11.** The kept pieces make up the whole text, except for `Removed` where exactly the delimiters are
missing. -/
theorem C11_partition (b : Behavior) (ps : List (Str × Bool)) :
    (kept b ps).flatten = ps.flatMap fun p => if b = .removed ∧ p.2 = true then [] else p.1 := by
  cases b with
  | removed =>
    simp only [kept, true_and]
    rw [← List.flatMap_def, flatMap_filter_pieces]
  | isolated => simp [kept, ← List.flatMap_def]
  | mergedWithPrevious => simp only [kept]; rw [joinPrev_flatten]; simp
  | mergedWithNext => simp only [kept]; rw [joinNext_flatten]; simp
  | contiguous => simp only [kept]; rw [joinRuns_flatten]; simp

/-- Slicing consecutive pieces. -/
theorem mapM_segs {n : NS} (h : Reachable n) : ∀ (ps : List (Str × Bool)) (pre post : Str),
    n.norm = pre ++ ps.flatMap (·.1) ++ post →
    ∃ out, ((piecesAt (blen pre) ps).filter (!·.2)).mapM (fun m => (n.sliceNormalized m.1).bind id) = some out ∧
      out.map (·.norm) = (ps.filter (!·.2)).map (·.1) ∧
      ∀ x ∈ out, Reachable x ∧ (x.norm ≠ [] → ∀ whole, n.Within whole → x.Within whole)
  | [], pre, post, _ => ⟨[], rfl, rfl, by simp⟩
  | (p, true) :: ps, pre, post, hn => by
    obtain ⟨out, h1, h2, h3⟩ := mapM_segs h ps (pre ++ p) post (by rw [hn]; simp)
    refine ⟨out, ?_, by simpa using h2, h3⟩
    rw [piecesAt]
    simpa using h1
  | (p, false) :: ps, pre, post, hn => by
    obtain ⟨out, h1, h2, h3⟩ := mapM_segs h ps (pre ++ p) post (by rw [hn]; simp)
    have hg : strGet n.norm (blen pre) (blen pre + blen p) = some p :=
      strGet_eq_some.2 ⟨pre, ps.flatMap (·.1) ++ post, by rw [hn]; simp, rfl, rfl⟩
    obtain ⟨x, hx1, hx2⟩ := C10_slice_text h hg
    refine ⟨x :: out, ?_, by simp [h2, hx2], ?_⟩
    · rw [piecesAt]
      rw [blen_append] at h1
      simp only [Bool.not_false, List.filter_cons_of_pos, List.mapM_cons, hx1, h1]
      rfl
    · intro y hy
      rcases List.mem_cons.1 hy with rfl | hy
      · refine ⟨.sliceNormalized h hx1, fun hne => ?_⟩
        obtain ⟨n', s, e, g1, _, _, _, _, _, _, g⟩ := C10_slice_normalized h hg (by rw [← hx2]; exact hne)
        rw [g1] at hx1
        simp only [Option.some.injEq] at hx1
        subst hx1; exact g
      · exact h3 y hy

theorem piecesAt_filter_removed (ps : List (Str × Bool)) (b : Behavior) (k : Nat) :
    ∃ qs : List (Str × Bool), splitRanges b (piecesAt k ps) = piecesAt k qs ∧
      qs.flatMap (·.1) = ps.flatMap (·.1) ∧ (qs.filter (!·.2)).map (·.1) = kept b ps := by
  have hmap : ∀ xs : List Str, ((xs.map fun x => (x, false)).filter (!·.2)).map (·.1) = xs := by
    intro xs; rw [List.filter_eq_self.2 (by simp)]; simp [Function.comp_def]
  have hflat : ∀ xs : List Str, (xs.map fun x => (x, false)).flatMap (·.1) = xs.flatten := by
    intro xs; rw [List.flatMap_map]; simp [List.flatMap_id']
  cases b with
  | removed => exact ⟨ps, rfl, rfl, rfl⟩
  | isolated =>
    exact ⟨(ps.map fun p => p.1).map fun x => (x, false), by exact splitRanges_isolated ps k,
      by rw [hflat, ← List.flatMap_def], hmap _⟩
  | mergedWithPrevious =>
    exact ⟨(joinPrev ps).map fun x => (x, false), splitRanges_prev ps k, by rw [hflat, joinPrev_flatten], hmap _⟩
  | mergedWithNext =>
    exact ⟨(joinNext ps).map fun x => (x, false), nextFold_pieces ps k, by rw [hflat, joinNext_flatten], hmap _⟩
  | contiguous =>
    exact ⟨((joinRuns ps).map fun p => p.1).map fun x => (x, false), by exact splitRanges_contiguous ps k,
      by rw [hflat, joinRuns_flatten], hmap _⟩

/-- **C11.** `split` on a pattern that covers the text never panics and yields exactly the pieces its
behaviour asks for; each non-empty one reports the offsets of its source. -/
theorem C11_split {n : NS} (h : Reachable n) {ps : List (Str × Bool)} (hps : n.norm = ps.flatMap (·.1))
    (b : Behavior) :
    ∃ out, n.split (piecesAt 0 ps) b = some out ∧ out.map (·.norm) = kept b ps ∧
      ∀ x ∈ out, Reachable x ∧ (x.norm ≠ [] → ∀ whole, n.Within whole → x.Within whole) := by
  obtain ⟨qs, h1, h2, h3⟩ := piecesAt_filter_removed ps b 0
  obtain ⟨out, g1, g2, g3⟩ := mapM_segs h qs [] [] (by rw [hps, ← h2]; simp)
  refine ⟨out, ?_, by rw [g2, h3], g3⟩
  unfold split
  rw [h1]; exact g1

/-- **C11**, for any pattern meeting the contract. -/
theorem C11_split_covers {n : NS} (h : Reachable n) {ms : Matches} (hm : Covers n.norm 0 ms) (b : Behavior) :
    ∃ ps out, ms = piecesAt 0 ps ∧ n.norm = ps.flatMap (·.1) ∧ n.split ms b = some out ∧
      out.map (·.norm) = kept b ps ∧
      (out.map (·.norm)).flatten = ps.flatMap fun p => if b = .removed ∧ p.2 = true then [] else p.1 := by
  obtain ⟨ps, h1, h2⟩ := piecesAt_of_covers ms [] n.norm rfl hm
  simp only [blen_nil] at h2
  obtain ⟨out, g1, g2, _⟩ := C11_split h h1 b
  exact ⟨ps, out, h2, h1, by rw [h2]; exact g1, g2, by rw [g2]; exact C11_partition b ps⟩

/-- **C11.** `Contiguous` pieces alternate between delimiters and text. -/
theorem C11_contiguous_alternates (ps : List (Str × Bool)) :
    kept .contiguous ps = (joinRuns ps).map (·.1) ∧
      ∀ a x y c, joinRuns ps = a ++ x :: y :: c → x.2 ≠ y.2 :=
  ⟨rfl, joinRuns_alternate ps⟩


/-- Splitting on the empty string pattern panics on a text that is not ASCII. -/
theorem C11_empty_pattern_panics (ms : List Range) (b : Behavior) :
    (ofStr ['é']).split (findStr [] ms ['é']) b = none := by
  have : findStr [] ms ['é'] = [((0, 1), false)] := rfl
  rw [this]
  cases b <;> decide

end NS
end Tok
