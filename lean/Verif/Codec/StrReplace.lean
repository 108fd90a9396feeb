import Verif.BaseLemmas

/-!
# `str::replace`

The standard library's `str::replace`, used by the decoders. Matching is done on characters, which on
UTF-8 text finds the same places as matching on bytes.
-/

namespace Tok

/-- The scan for a non-empty pattern; `skip` characters of a match are still to be passed over. -/
def replaceGo (pat to : Str) : Nat → Str → Str
  | _, [] => []
  | k + 1, _ :: cs => replaceGo pat to k cs
  | 0, c :: cs =>
    if pat <+: c :: cs then to ++ replaceGo pat to (pat.length - 1) cs else c :: replaceGo pat to 0 cs

/-- `str::replace(pat, to)`. An empty pattern matches before every character and at the end. -/
def strReplace (pat to s : Str) : Str :=
  if pat = [] then to ++ s.flatMap (fun c => c :: to) else replaceGo pat to 0 s

/-- What replacing means: as long as the pattern occurs, its first occurrence becomes `to` and the rest after
it is treated in the same way. -/
inductive Replaced (pat to : Str) : Str → Str → Prop
  | done {s} : (∀ a b, s ≠ a ++ pat ++ b) → Replaced pat to s s
  | step {a b r} : (∀ a' b', a ++ pat ++ b = a' ++ pat ++ b' → a.length ≤ a'.length) → Replaced pat to b r →
      Replaced pat to (a ++ pat ++ b) (a ++ to ++ r)

theorem replaceGo_skip (pat to : Str) : ∀ (k : Nat) (s : Str), replaceGo pat to k s = replaceGo pat to 0 (s.drop k)
  | 0, s => by simp
  | k + 1, [] => by simp [replaceGo]
  | k + 1, c :: cs => by rw [replaceGo, replaceGo_skip pat to k cs, List.drop_succ_cons]

theorem Replaced.cons {pat to : Str} {c : Char} {cs r : Str} (hn : ¬ pat <+: c :: cs)
    (h : Replaced pat to cs r) : Replaced pat to (c :: cs) (c :: r) := by
  have hne : ∀ a b, c :: cs = a ++ pat ++ b → ∃ a', a = c :: a' ∧ cs = a' ++ pat ++ b := by
    intro a b e
    cases a with
    | nil => exact absurd ⟨b, by simpa using e.symm⟩ hn
    | cons d a =>
      simp only [List.cons_append, List.cons.injEq] at e
      exact ⟨a, by rw [e.1], e.2⟩
  cases h with
  | done h =>
    refine .done fun a b e => ?_
    obtain ⟨a', rfl, e'⟩ := hne a b e
    exact h a' b e'
  | @step a b r hf hr =>
    have := Replaced.step (pat := pat) (to := to) (a := c :: a) (b := b) (r := r) ?_ hr
    · simpa using this
    · intro a' b' e
      obtain ⟨a'', rfl, e'⟩ := hne a' b' (by simpa using e)
      have := hf a'' b' e'
      simpa using this

theorem replaceGo_spec {pat to : Str} (hp : pat ≠ []) : ∀ (n : Nat) (s : Str), s.length ≤ n →
    Replaced pat to s (replaceGo pat to 0 s)
  | _, [], _ => .done fun a b e => by
      have := congrArg List.length e
      have := List.length_pos_iff.2 hp
      simp at *
      omega
  | 0, _ :: _, h => by simp at h
  | n + 1, c :: cs, h => by
    rw [replaceGo]
    by_cases hc : pat <+: c :: cs
    · rw [if_pos hc, replaceGo_skip]
      obtain ⟨b, hb⟩ := hc
      have hb' : cs.drop (pat.length - 1) = b := by
        obtain ⟨d, pat', rfl⟩ := List.exists_cons_of_ne_nil hp
        simp only [List.cons_append, List.cons.injEq] at hb
        simp [← hb.2]
      rw [hb']
      have hlen : b.length ≤ n := by
        have := congrArg List.length hb
        have := List.length_pos_iff.2 hp
        simp at *
        omega
      have := Replaced.step (pat := pat) (to := to) (a := []) (b := b) (by simp) (replaceGo_spec hp n b hlen)
      rw [← hb]
      simpa using this
    · rw [if_neg hc]
      exact (replaceGo_spec hp n cs (by simpa using h)).cons hc

/-- `str::replace` replaces. -/
theorem strReplace_spec {pat : Str} (to s : Str) (hp : pat ≠ []) : Replaced pat to s (strReplace pat to s) := by
  unfold strReplace; rw [if_neg hp]; exact replaceGo_spec hp _ s (Nat.le_refl _)

/-- `Replaced` determines the result. -/
theorem Replaced.unique {pat to : Str} {s r r' : Str} (h : Replaced pat to s r) (h' : Replaced pat to s r') :
    r = r' := by
  induction h generalizing r' with
  | done hn =>
    cases h' with
    | done _ => rfl
    | step _ _ => exact absurd rfl (hn _ _)
  | @step a b r hf _ ih =>
    generalize hs : a ++ pat ++ b = s at h'
    cases h' with
    | done hn => exact absurd hs.symm (hn _ _)
    | @step a' b' r' hf' hr' =>
      have l1 := hf a' b' hs
      have l2 := hf' a b hs.symm
      obtain ⟨e1, e2⟩ := List.append_inj (by simpa using hs) (Nat.le_antisymm l1 l2)
      subst e1
      rw [ih (by rw [List.append_cancel_left e2]; exact hr')]

theorem strReplace_eq {pat to s r : Str} (hp : pat ≠ []) (h : Replaced pat to s r) : strReplace pat to s = r :=
  (strReplace_spec to s hp).unique h

/-- A pattern that does not occur changes nothing. -/
theorem strReplace_absent {pat to s : Str} (hp : pat ≠ []) (h : ∀ a b, s ≠ a ++ pat ++ b) :
    strReplace pat to s = s := strReplace_eq hp (.done h)

theorem strReplace_empty (s : Str) : strReplace [] [] s = s := by
  simp only [strReplace, if_true, List.nil_append]
  induction s with
  | nil => rfl
  | cons c s ih => rw [List.flatMap_cons, ih]; rfl

/-- Leftmost matches, without overlap: "aaaa" has two "aa"s, "aaa" one. -/
example : strReplace "aa".toList "b".toList "aaa aaaa".toList = "ba bb".toList ∧
    strReplace [] "-".toList "ab".toList = "-a-b-".toList := by decide

end Tok
