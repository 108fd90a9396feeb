import Verif.Regex.Engine

/-!
# C71: the words of the pattern of `ByteLevel`
-/

namespace Tok
namespace Re

open NS PreTokenizer

/-! ## What the words are -/

/-- What kind of character it is. -/
inductive Kind where
  | letter | number | other | space
  deriving DecidableEq

/-- The classes of Unicode exclude each other; the blank is a space, and the characters of the contractions are not. -/
structure _root_.Tok.ReTables.Ok (u : ReTables) : Prop where
  letter_space : ∀ c, u.letter c = true → u.space c = false
  number_space : ∀ c, u.number c = true → u.space c = false
  letter_number : ∀ c, u.letter c = true → u.number c = false
  blank : u.space ' ' = true
  ascii : ∀ c ∈ "'strevmld".toList, u.space c = false

def kind (u : ReTables) (c : Char) : Kind :=
  if u.space c then .space else if u.letter c then .letter else if u.number c then .number else .other

/-- The longest beginning of a text that is of one kind. -/
def sameRun (u : ReTables) : Str → Str
  | [] => []
  | c :: s => c :: s.takeWhile fun d => kind u d = kind u c

/-- The text begins with a character that is no space. -/
def solidStart (u : ReTables) : Str → Bool
  | [] => false
  | c :: _ => kind u c ≠ .space

/-- `'s`, `'t`, `'re`, `'ve`, `'m`, `'ll`, `'d` -/
def contractions : List Str :=
  ["'s".toList, "'t".toList, "'re".toList, "'ve".toList, "'m".toList, "'ll".toList, "'d".toList]

/-- The word of a text that begins with spaces: all of them if nothing follows or if there is just one, otherwise the last
one is left to what follows. -/
def spaceWord (u : ReTables) (s : Str) : Str :=
  if sameRun u s = s ∨ (sameRun u s).length = 1 then sameRun u s else (sameRun u s).dropLast

/-- The first word of a text: a contraction, a run of one kind (with one blank before it, if there is one), or spaces. -/
def firstWord (u : ReTables) (s : Str) : Str :=
  match contractions.find? (·.isPrefixOf s) with
  | some w => w
  | none =>
    match s with
    | [] => []
    | c :: t =>
      if kind u c ≠ .space then sameRun u (c :: t)
      else if c = ' ' ∧ solidStart u t then ' ' :: sameRun u t
      else spaceWord u (c :: t)

/-- The words of a text. -/
def wordsFrom (u : ReTables) : Nat → Str → List Str
  | 0, _ => []
  | k + 1, s => if s = [] then [] else firstWord u s :: wordsFrom u k (s.drop (firstWord u s).length)

def words (u : ReTables) (s : Str) : List Str := wordsFrom u s.length s

/-! ## That these are the words -/

theorem kind_space {u : ReTables} {c : Char} : kind u c = .space ↔ u.space c = true := by
  unfold kind
  split
  · simp [*]
  · split
    · simp [*]
    · split <;> simp [*]

theorem kind_letter {u : ReTables} (h : u.Ok) (c : Char) : u.letter c = decide (kind u c = .letter) := by
  unfold kind
  cases hl : u.letter c with
  | true => simp [h.letter_space c hl]
  | false =>
    cases u.space c <;> cases u.number c <;> simp

theorem kind_number {u : ReTables} (h : u.Ok) (c : Char) : u.number c = decide (kind u c = .number) := by
  unfold kind
  cases hl : u.number c with
  | true =>
    have := h.letter_number c
    have h2 := h.number_space c hl
    cases hx : u.letter c with
    | true => rw [this hx] at hl; cases hl
    | false => simp [h2]
  | false =>
    split
    · rfl
    · split <;> simp_all

theorem kind_other {u : ReTables} (c : Char) :
    (!(u.space c || u.letter c || u.number c)) = decide (kind u c = .other) := by
  unfold kind
  cases u.space c <;> cases u.letter c <;> cases u.number c <;> simp

theorem kind_space' {u : ReTables} (c : Char) : u.space c = decide (kind u c = .space) := by
  cases h : u.space c with
  | true => simp [kind_space.2 h]
  | false =>
    have : kind u c ≠ .space := fun e => by rw [kind_space.1 e] at h; cases h
    simp [this]

theorem kind_blank {u : ReTables} (h : u.Ok) : kind u ' ' = .space := kind_space.2 h.blank

/-- The characters of a kind. -/
def isKind (u : ReTables) (k : Kind) (c : Char) : Bool := decide (kind u c = k)

/-- The alternatives after the contractions, in terms of the kinds. -/
def bodyRe (u : ReTables) : Re :=
  .alt (.seq (.opt (.cls (· == ' '))) (plus (.cls (isKind u .letter)))) <|
  .alt (.seq (.opt (.cls (· == ' '))) (plus (.cls (isKind u .number)))) <|
  .alt (.seq (.opt (.cls (· == ' '))) (plus (.cls (isKind u .other)))) <|
  .alt (.seq (plus (.cls (isKind u .space))) (.notAhead (.cls fun c => !isKind u .space c))) <|
  plus (.cls (isKind u .space))

theorem byteLevel_run {u : ReTables} (h : u.Ok) (n : Nat) (s : Str) :
    run n (byteLevel u) s = (contractions.filter (·.isPrefixOf s)).map (fun w => s.drop w.length) ++ run n (bodyRe u) s := by
  have e1 : u.letter = isKind u .letter := funext fun c => kind_letter h c
  have e2 : u.number = isKind u .number := funext fun c => kind_number h c
  have e3 : (fun c => !(u.space c || u.letter c || u.number c)) = isKind u .other := funext fun c => kind_other c
  have e4 : u.space = isKind u .space := funext fun c => kind_space' c
  have e5 : (fun c => !u.space c) = fun c => !isKind u .space c := funext fun c => by rw [e4]
  have hb : byteLevel u = .alt (lit "'s".toList) (.alt (lit "'t".toList) (.alt (lit "'re".toList) (.alt (lit "'ve".toList)
      (.alt (lit "'m".toList) (.alt (lit "'ll".toList) (.alt (lit "'d".toList) (bodyRe u))))))) := by
    unfold byteLevel bodyRe
    rw [e3, e5, e1, e2, e4]
  have step : ∀ (w : Str) (l : List Str), (List.filter (·.isPrefixOf s) (w :: l)).map (fun w => s.drop w.length) =
      (if w.isPrefixOf s then [s.drop w.length] else []) ++ (l.filter (·.isPrefixOf s)).map (fun w => s.drop w.length) := by
    intro w l
    by_cases hw : w.isPrefixOf s = true
    · rw [if_pos hw, List.filter_cons, if_pos hw]; rfl
    · rw [if_neg hw, List.filter_cons, if_neg hw]; rfl
  rw [hb, contractions]
  simp only [run, run_lit, step, List.filter_nil, List.map_nil, List.append_assoc, List.nil_append]

theorem plus_head (n : Nat) (p : Char → Bool) (c : Char) (s : Str) :
    (run n (plus (.cls p)) (c :: s)).head? = if p c then some (s.dropWhile p) else none := by
  rw [run_plus_cons]
  by_cases h : p c = true
  · rw [if_pos h, if_pos h, stops_head]
  · rw [if_neg h, if_neg h]; rfl

/-- ` ?p+` at a character that is no blank. -/
theorem blank_plus_other (n : Nat) (p : Char → Bool) (c : Char) (s : Str) (hc : c ≠ ' ') :
    run n (.seq (.opt (.cls (· == ' '))) (plus (.cls p))) (c :: s) = run n (plus (.cls p)) (c :: s) := by
  rw [run, run, run, if_neg (by simpa using hc), List.nil_append, List.flatMap_singleton]

/-- ` ?p+` at a blank. -/
theorem blank_plus_blank (n : Nat) (p : Char → Bool) (s : Str) (hp : p ' ' = false) :
    run n (.seq (.opt (.cls (· == ' '))) (plus (.cls p))) (' ' :: s) = run n (plus (.cls p)) s := by
  rw [run, run, run, if_pos (by decide), List.singleton_append, List.flatMap_cons, List.flatMap_singleton, run_plus_cons n p ' ' s,
    hp]
  simp

/-- Where a run of spaces ends that may not end before something else. -/
theorem lastStop (n : Nat) (p : Char → Bool) : ∀ t : Str,
    ((stops p t).flatMap (run n (.notAhead (.cls fun c => !p c)))).head? =
      if t.dropWhile p = [] then some [] else if t.takeWhile p = [] then none
      else some (t.drop ((t.takeWhile p).length - 1))
  | [] => rfl
  | c :: t => by
    rw [stops]
    by_cases hp : p c = true
    · rw [if_pos hp, List.flatMap_append, List.head?_append, lastStop n p t, List.dropWhile_cons_of_pos hp,
        List.takeWhile_cons_of_pos hp, List.flatMap_singleton]
      have hq : run n (.notAhead (.cls fun c => !p c)) (c :: t) = [c :: t] := by
        rw [run, run]; simp [hp]
      rw [hq]
      by_cases h1 : t.dropWhile p = []
      · rw [if_pos h1, if_pos h1]; rfl
      · rw [if_neg h1, if_neg h1, if_neg (List.cons_ne_nil c (t.takeWhile p))]
        by_cases h2 : t.takeWhile p = []
        · rw [if_pos h2, h2]; rfl
        · rw [if_neg h2]
          have : 0 < (t.takeWhile p).length := List.length_pos_iff.2 h2
          obtain ⟨m, hm⟩ : ∃ m, (t.takeWhile p).length = m + 1 := ⟨_, (Nat.succ_pred_eq_of_pos this).symm⟩
          rw [List.length_cons, hm]
          rfl
    · rw [if_neg hp, List.flatMap_singleton, List.dropWhile_cons_of_neg hp, List.takeWhile_cons_of_neg hp, if_neg (by simp),
        if_pos rfl]
      rw [run, run]; simp [hp]

theorem drop_takeWhile (p : Char → Bool) (s : Str) : s.drop (s.takeWhile p).length = s.dropWhile p := by
  have h := List.takeWhile_append_dropWhile (p := p) (l := s)
  conv => lhs; rw [← h]
  rw [List.takeWhile_append_dropWhile]
  induction s with
  | nil => rfl
  | cons c s ih =>
    by_cases hp : p c = true
    · rw [List.takeWhile_cons_of_pos hp, List.dropWhile_cons_of_pos hp]
      exact ih (List.takeWhile_append_dropWhile)
    · rw [List.takeWhile_cons_of_neg hp, List.dropWhile_cons_of_neg hp]; rfl

theorem sameRun_drop (u : ReTables) (c : Char) (s : Str) :
    (c :: s).drop (sameRun u (c :: s)).length = s.dropWhile (isKind u (kind u c)) := by
  rw [sameRun, List.length_cons, List.drop_succ_cons]
  exact drop_takeWhile _ s

/-- The alternatives for spaces. -/
theorem space_head {u : ReTables} (n : Nat) {c : Char} (hc : kind u c = .space) (t : Str) :
    ((run n (.seq (plus (.cls (isKind u .space))) (.notAhead (.cls fun c => !isKind u .space c))) (c :: t)).head?.or
      (run n (plus (.cls (isKind u .space))) (c :: t)).head?) =
      some ((c :: t).drop (spaceWord u (c :: t)).length) := by
  have hk : isKind u .space c = true := by simp [isKind, hc]
  have hr : sameRun u (c :: t) = c :: t.takeWhile (isKind u .space) := by
    rw [sameRun, hc]; rfl
  rw [run, run_plus_cons, if_pos hk, lastStop, stops_head, spaceWord, hr]
  by_cases h1 : t.dropWhile (isKind u .space) = []
  · have : t.takeWhile (isKind u .space) = t := by
      have := List.takeWhile_append_dropWhile (p := isKind u .space) (l := t)
      rwa [h1, List.append_nil] at this
    rw [if_pos h1, this, if_pos (.inl rfl)]
    simp
  · have hne : c :: t.takeWhile (isKind u .space) ≠ c :: t := by
      intro e
      injection e with _ e
      have := drop_takeWhile (isKind u .space) t
      rw [e] at this
      exact h1 (by rw [← this]; simp)
    rw [if_neg h1]
    by_cases h2 : t.takeWhile (isKind u .space) = []
    · rw [if_pos h2, h2, if_pos (.inr rfl)]
      have := drop_takeWhile (isKind u .space) t
      rw [h2] at this
      simp only [Option.none_or, List.length_singleton, List.drop_succ_cons, List.drop_zero]
      rw [← this]; rfl
    · rw [if_neg h2, if_neg (by
        rintro (h | h)
        · exact hne h
        · rw [List.length_cons] at h
          exact h2 (List.length_eq_zero_iff.1 (by omega)))]
      have hp : 0 < (t.takeWhile (isKind u .space)).length := List.length_pos_iff.2 h2
      obtain ⟨m, hm⟩ : ∃ m, (t.takeWhile (isKind u .space)).length = m + 1 := ⟨_, (Nat.succ_pred_eq_of_pos hp).symm⟩
      rw [List.length_dropLast, List.length_cons, hm]
      rfl

theorem run_alt (n : Nat) (a b : Re) (s : Str) : run n (.alt a b) s = run n a s ++ run n b s := by rw [run]

theorem head_or (a b : List Str) : (a ++ b).head? = a.head?.or b.head? := List.head?_append

/-- The first match of the alternatives after the contractions. -/
theorem body_head {u : ReTables} (h : u.Ok) (n : Nat) (c : Char) (t : Str) :
    (run n (bodyRe u) (c :: t)).head? = some ((c :: t).drop (
      if kind u c ≠ .space then sameRun u (c :: t)
      else if c = ' ' ∧ solidStart u t then ' ' :: sameRun u t
      else spaceWord u (c :: t)).length) := by
  have hb : ∀ k, k ≠ .space → isKind u k ' ' = false := by
    intro k hk
    simp [isKind, kind_blank h, Ne.symm hk]
  have alts : ∀ s, (run n (bodyRe u) s).head? =
      (run n (.seq (.opt (.cls (· == ' '))) (plus (.cls (isKind u .letter)))) s).head?.or
      ((run n (.seq (.opt (.cls (· == ' '))) (plus (.cls (isKind u .number)))) s).head?.or
      ((run n (.seq (.opt (.cls (· == ' '))) (plus (.cls (isKind u .other)))) s).head?.or
      ((run n (.seq (plus (.cls (isKind u .space))) (.notAhead (.cls fun c => !isKind u .space c))) s).head?.or
      (run n (plus (.cls (isKind u .space))) s).head?))) := by
    intro s
    rw [bodyRe, run_alt, run_alt, run_alt, run_alt, head_or, head_or, head_or, head_or]
  rw [alts]
  have solid : ∀ d t, kind u d ≠ .space → ∀ x : Option Str,
      ((run n (plus (.cls (isKind u .letter))) (d :: t)).head?.or
      ((run n (plus (.cls (isKind u .number))) (d :: t)).head?.or
      ((run n (plus (.cls (isKind u .other))) (d :: t)).head?.or x))) =
      some ((d :: t).drop (sameRun u (d :: t)).length) := by
    intro d t hd x
    rw [sameRun_drop, plus_head, plus_head, plus_head]
    cases hk : kind u d with
    | letter => simp [isKind, hk]
    | number => simp [isKind, hk]
    | other => simp [isKind, hk]
    | space => exact absurd hk hd
  have spaces : ∀ d t, kind u d = .space → ∀ k, k ≠ .space → run n (plus (.cls (isKind u k))) (d :: t) = [] := by
    intro d t hd k hk
    rw [run_plus_cons, if_neg]
    simp [isKind, hd, Ne.symm hk]
  by_cases hs : kind u c = .space
  · rw [if_neg (by simpa using hs)]
    by_cases hc : c = ' '
    · subst hc
      rw [blank_plus_blank n _ t (hb .letter (by decide)), blank_plus_blank n _ t (hb .number (by decide)),
        blank_plus_blank n _ t (hb .other (by decide))]
      cases t with
      | nil =>
        rw [if_neg (by simp [solidStart]), run_plus_nil, run_plus_nil, run_plus_nil]
        exact space_head n hs []
      | cons d t =>
        by_cases hd : kind u d = .space
        · rw [if_neg (by simp [solidStart, hd]), spaces d t hd _ (by decide), spaces d t hd _ (by decide),
            spaces d t hd _ (by decide)]
          exact space_head n hs (d :: t)
        · rw [if_pos ⟨rfl, by simpa [solidStart] using hd⟩]
          exact solid d t hd _
    · rw [if_neg (fun x => hc x.1), blank_plus_other n _ c t hc, blank_plus_other n _ c t hc, blank_plus_other n _ c t hc,
        spaces c t hs _ (by decide), spaces c t hs _ (by decide), spaces c t hs _ (by decide)]
      exact space_head n hs t
  · have hc : c ≠ ' ' := by rintro rfl; exact hs (kind_blank h)
    rw [if_pos hs, blank_plus_other n _ c t hc, blank_plus_other n _ c t hc, blank_plus_other n _ c t hc]
    exact solid c t hs _

theorem find_head (l : List Str) (p : Str → Bool) (f : Str → Str) :
    ((l.filter p).map f).head? = (l.find? p).map f := by
  rw [List.head?_map, List.head?_filter]

/-- The first match of the pattern at a place is the first word of the text there. -/
theorem byteLevel_head {u : ReTables} (h : u.Ok) (n : Nat) {s : Str} (hs : s ≠ []) :
    (run n (byteLevel u) s).head? = some (s.drop (firstWord u s).length) := by
  rw [byteLevel_run h, head_or, find_head, firstWord.eq_def]
  cases hf : contractions.find? (·.isPrefixOf s) with
  | some w => rfl
  | none =>
    cases s with
    | nil => exact absurd rfl hs
    | cons c t => exact body_head h n c t

theorem byteLevel_nil {u : ReTables} (h : u.Ok) (n : Nat) : run n (byteLevel u) [] = [] := by
  rw [byteLevel_run h]
  have : contractions.filter (·.isPrefixOf ([] : Str)) = [] := by decide
  rw [this, bodyRe]
  simp [run, run_plus_nil]

end Re
end Tok
