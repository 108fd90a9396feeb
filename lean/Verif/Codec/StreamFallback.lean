import Verif.Codec.Stream
import Verif.Bpe.ByteFallback

/-!
# Streaming tokens that spell a text (C77)

Byte fallback is not prefix-stable (`C34_byte_fallback_fails`), but it is on the beginnings of a list of tokens that spells a
text, and so is stripping a leading space after it.
-/

namespace Tok.Stream
open Bpe Dec

variable {P : Char → Prop}

/-- Byte fallback, the results put together. -/
def fallbackText (ts : List Str) : Str := ((byteFallback ts).getD []).flatten

theorem fallbackText_spells {w : Str} {vs : List Str} (h : Spells P w vs) : fallbackText vs = w := by
  obtain ⟨out, h1, h2⟩ := C64_fallback h
  rw [fallbackText, h1]; exact h2

theorem byteToken_inj {a b : UInt8} (h : byteToken a = byteToken b) : a = b := by
  have h1 := byteOf_some (byteToken_isByteToken a)
  rw [h, byteOf_some (byteToken_isByteToken b)] at h1
  simpa using h1.symm

/-- Byte tokens in front of two lists. -/
theorem byteTokens_prefix {xs ys : List UInt8} (h : xs.map byteToken <+: ys.map byteToken) : xs <+: ys := by
  induction xs generalizing ys with
  | nil => exact List.nil_prefix
  | cons x xs ih =>
    cases ys with
    | nil => simp at h
    | cons y ys =>
      rw [List.map_cons, List.map_cons, List.cons_prefix_cons] at h
      rw [List.cons_prefix_cons]
      exact ⟨byteToken_inj h.1, ih h.2⟩

theorem char_prefix {c d : Char} (h : strBytes [c] <+: strBytes [d]) : c = d := by
  have := strBytes_prefix.1 h
  simpa using this

/-- What is left after tokens that spell a beginning. -/
theorem Spells.cancel {w1 : Str} {r : List Str} (h : Spells P w1 r) : ∀ {w t}, Spells P w (r ++ t) →
    ∃ w', w = w1 ++ w' ∧ Spells P w' t := by
  induction h with
  | nil => intro w t h; exact ⟨w, rfl, h⟩
  | @text x w1 r hne hx _ ih =>
    intro w t h
    obtain ⟨w0, rfl, h0⟩ := h.head hx
    obtain ⟨w', rfl, h'⟩ := ih h0
    exact ⟨w', by simp, h'⟩
  | @char c w1 r hc _ ih =>
    intro w t h
    rw [List.append_assoc] at h
    generalize hv : (strBytes [c]).map byteToken ++ (r ++ t) = vs at h
    cases h with
    | nil =>
      simp only [List.append_eq_nil_iff, List.map_eq_nil_iff] at hv
      exact absurd hv.1 (strBytes_char_ne c)
    | @text x w0 vs hne hx h0 =>
      cases hb : strBytes [c] with
      | nil => exact absurd hb (strBytes_char_ne c)
      | cons y ys =>
        rw [hb, List.map_cons, List.cons_append, List.cons.injEq] at hv
        exact absurd (hv.1 ▸ byteToken_isByteToken y) (hx y)
    | @char d w0 vs hd h0 =>
      have hcd : c = d := by
        rcases List.append_eq_append_iff.1 hv with ⟨l, h1, _⟩ | ⟨l, h1, _⟩
        · exact char_prefix (byteTokens_prefix ⟨l, h1.symm⟩)
        · exact (char_prefix (byteTokens_prefix ⟨l, h1.symm⟩)).symm
      subst hcd
      have hv := List.append_cancel_left hv
      subst hv
      obtain ⟨w', rfl, h'⟩ := ih h0
      exact ⟨w', rfl, h'⟩

theorem Spells.append {w1 w2 : Str} {r t : List Str} (h : Spells P w1 r) (h2 : Spells P w2 t) :
    Spells P (w1 ++ w2) (r ++ t) := by
  induction h with
  | nil => exact h2
  | text hne hx _ ih => rw [List.append_assoc]; exact .text hne hx ih
  | char hc _ ih => rw [List.append_assoc]; exact .char hc ih

/-- A beginning of tokens that spell a text spells a text as well, or ends with part of a character. -/
theorem Spells.front {w : Str} {T : List Str} (h : Spells P w T) : ∀ {r}, r <+: T →
    (∃ w', Spells P w' r) ∨ ∃ r0 w0 bs c, Spells P w0 r0 ∧ r = r0 ++ bs.map byteToken ∧ bs ≠ [] ∧ bs <+: strBytes [c] ∧
      bs ≠ strBytes [c] := by
  induction h with
  | nil => intro r hr; rw [List.prefix_nil] at hr; subst hr; exact .inl ⟨_, .nil⟩
  | @text x w T hne hx h ih =>
    intro r hr
    cases r with
    | nil => exact .inl ⟨_, .nil⟩
    | cons y r =>
      rw [List.cons_prefix_cons] at hr
      obtain ⟨rfl, hr⟩ := hr
      rcases ih hr with ⟨w', h'⟩ | ⟨r0, w0, bs, c, h1, rfl, h3⟩
      · exact .inl ⟨_, .text hne hx h'⟩
      · exact .inr ⟨y :: r0, _, bs, c, .text hne hx h1, rfl, h3⟩
  | @char c w T hc h ih =>
    intro r hr
    obtain ⟨q, hq⟩ := hr
    rcases List.append_eq_append_iff.1 hq with ⟨l, h1, h2⟩ | ⟨l, h1, h2⟩
    · -- part of the character
      obtain ⟨a, b, h3, h4, h5⟩ := List.map_eq_append_iff.1 h1
      by_cases ha : a = []
      · subst ha
        simp only [List.map_nil] at h4
        subst h4
        exact .inl ⟨_, .nil⟩
      · by_cases hb : b = []
        · subst hb
          rw [List.append_nil] at h3
          rw [← h4, ← h3]
          refine .inl ⟨[c], ?_⟩
          have := Spells.char hc (Spells.nil (P := P))
          simpa using this
        · refine .inr ⟨[], [], a, c, .nil, by simpa using h4.symm, ha, ⟨b, h3.symm⟩, ?_⟩
          rw [h3]
          intro he
          exact hb (List.append_right_eq_self.1 he.symm)
    · rcases ih ⟨q, h2.symm⟩ with ⟨w', h'⟩ | ⟨r0, w0, bs, d, k1, k2, k3⟩
      · exact .inl ⟨_, by rw [h1]; exact Spells.char hc h'⟩
      · exact .inr ⟨(strBytes [c]).map byteToken ++ r0, _, bs, d, .char hc k1, by rw [h1, k2]; simp, k3⟩

/-- Tokens that end with part of a character are decoded to a text that is not complete. -/
theorem fallback_part {w : Str} {r : List Str} (h : Spells P w r) {bs : List UInt8} {c : Char} (h1 : bs ≠ [])
    (h2 : bs <+: strBytes [c]) (h3 : bs ≠ strBytes [c]) : ∀ p : Str,
    ∃ out, byteFallbackLoop (strBytes p) (r ++ bs.map byteToken) = some (out ++ [['�']]) := by
  induction h with
  | nil =>
    intro p
    rw [List.nil_append]
    have := byteFallbackLoop_run bs (strBytes p) []
    rw [List.append_nil] at this
    rw [this, byteFallbackLoop, flush, if_neg (by simp [h1])]
    have hno : fromUtf8 (strBytes p ++ bs) = none := by
      cases hu : fromUtf8 (strBytes p ++ bs) with
      | none => rfl
      | some s =>
        obtain ⟨q, _, hq⟩ := strBytes_inj_append (fromUtf8_eq_some.1 hu).symm
        rw [← hq] at h1 h2 h3
        have := strBytes_prefix.1 h2
        rcases List.prefix_cons_iff.1 this with rfl | ⟨q', rfl, hq'⟩
        · exact absurd rfl h1
        · rw [List.prefix_nil] at hq'; subst hq'; exact absurd rfl h3
    rw [hno]
    have hl : (strBytes p ++ bs).length = (strBytes p ++ bs).length - 1 + 1 := by
      have := List.length_pos_iff.2 h1
      simp only [List.length_append]; omega
    refine ⟨List.replicate ((strBytes p ++ bs).length - 1) ['�'], ?_⟩
    simp only
    rw [hl, List.replicate_succ']
    simp
  | @text x w r _ hx _ ih =>
    intro p
    obtain ⟨out, ho⟩ := ih []
    rw [show strBytes [] = [] from rfl] at ho
    refine ⟨flush (strBytes p) ++ x :: out, ?_⟩
    rw [List.cons_append, byteFallbackLoop, byteOf_none hx]
    simp [ho]
  | @char d w r _ _ ih =>
    intro p
    obtain ⟨out, ho⟩ := ih (p ++ [d])
    exact ⟨out, by rw [List.append_assoc, byteFallbackLoop_run, ← strBytes_append', ho]⟩

/-- One leading space less. -/
def stripSpace : Str → Str
  | ' ' :: s => s
  | s => s

theorem stripSpace_append {s : Str} (hs : s ≠ []) (t : Str) : stripSpace (s ++ t) = stripSpace s ++ t := by
  cases s with
  | nil => exact absurd rfl hs
  | cons c s =>
    by_cases hc : c = ' '
    · subst hc; rfl
    · have h1 : ∀ u, stripSpace (c :: u) = c :: u := by
        intro u; unfold stripSpace; split
        · rename_i h; simp at h; exact absurd h.1 hc
        · rfl
      rw [List.cons_append, h1, h1]; rfl

theorem spells_ne {w : Str} {r : List Str} (h : Spells P w r) (hr : r ≠ []) : w ≠ [] := by
  cases h with
  | nil => exact absurd rfl hr
  | text hne => simp [hne]
  | char => simp

/-- A beginning whose text is complete spells a text. -/
theorem spells_of_complete {w : Str} {T r : List Str} (h : Spells P w T) (hr : r <+: T)
    (hc : complete (stripSpace (fallbackText r))) : ∃ w', Spells P w' r := by
  rcases Spells.front h hr with h' | ⟨r0, w0, bs, c, h1, rfl, h3, h4, h5⟩
  · exact h'
  · exfalso
    obtain ⟨out, ho⟩ := fallback_part h1 h3 h4 h5 []
    rw [show strBytes [] = [] from rfl] at ho
    have ht : fallbackText (r0 ++ bs.map byteToken) = out.flatten ++ ['�'] := by
      rw [fallbackText, byteFallback, ho]; simp
    rw [ht] at hc
    by_cases hn : out.flatten = []
    · rw [hn] at hc
      exact hc (by decide)
    · rw [stripSpace_append hn] at hc
      exact hc (by simp)

/-- **C77.** Decoding with byte fallback, then stripping one leading space, is prefix-stable on tokens that spell a text. -/
theorem stableOn_spells {w : Str} {T : List Str} (h : Spells P w T) :
    StableOn (fun ts => stripSpace (fallbackText ts)) T := by
  refine ⟨rfl, fun p hp hc => ?_, fun r b c hT hrb hr hb hbc => ?_⟩
  · obtain ⟨wp, h1⟩ := spells_of_complete h hp hc
    obtain ⟨q, rfl⟩ := hp
    obtain ⟨wq, rfl, _⟩ := Spells.cancel h1 h
    show stripSpace (fallbackText p) <+: stripSpace (fallbackText (p ++ q))
    rw [fallbackText_spells h, fallbackText_spells h1]
    by_cases hp0 : p = []
    · subst hp0
      have := fallbackText_spells h1
      rw [← this]
      exact List.nil_prefix
    · rw [stripSpace_append (spells_ne h1 hp0)]; exact List.prefix_append _ _
  · have hp1 : r ++ b <+: T := (List.prefix_append _ c).trans hT
    have hp2 : r <+: T := (List.prefix_append _ b).trans hp1
    obtain ⟨wr, hr'⟩ := spells_of_complete h hp2 hr
    obtain ⟨wrb, hrb'⟩ := spells_of_complete h hp1 hb
    obtain ⟨wb, rfl, hb'⟩ := Spells.cancel hr' hrb'
    obtain ⟨t, ht⟩ := hp2
    have hbct : b ++ c <+: t := by
      obtain ⟨q, hq⟩ := hT
      rw [← ht, List.append_assoc, List.append_assoc] at hq
      exact ⟨q, by simpa using List.append_cancel_left hq⟩
    have hS : ∃ wt, Spells P wt t := by
      rw [← ht] at h
      obtain ⟨wt, _, h'⟩ := Spells.cancel hr' h
      exact ⟨wt, h'⟩
    obtain ⟨wt, hwt⟩ := hS
    have hbc' : ∃ wbc, Spells P wbc (b ++ c) := by
      rcases hbc with hbc | hbc
      · exact spells_of_complete hwt hbct hbc
      · rw [← ht, List.append_assoc] at hbc
        rw [List.append_cancel_left hbc]; exact ⟨wt, hwt⟩
    obtain ⟨wbc, hbc'⟩ := hbc'
    obtain ⟨wc, rfl, hc'⟩ := Spells.cancel hb' hbc'
    have hall : Spells P (wr ++ (wb ++ wc)) (r ++ (b ++ c)) := Spells.append hr' hbc'
    show ∃ x, stripSpace (fallbackText (r ++ b ++ c)) = stripSpace (fallbackText (r ++ b)) ++ x ∧
      stripSpace (fallbackText (b ++ c)) = stripSpace (fallbackText b) ++ x
    rw [List.append_assoc, fallbackText_spells hall, fallbackText_spells hrb', fallbackText_spells hbc',
      fallbackText_spells hb']
    by_cases hb0 : b = []
    · have hr0 := hrb hb0
      subst hb0 hr0
      have e1 : [] = wr := fallbackText_spells hr'
      have e2 : [] = wb := fallbackText_spells hb'
      subst e1 e2
      exact ⟨_, rfl, rfl⟩
    · have hwb := spells_ne hb' hb0
      refine ⟨wc, ?_, stripSpace_append hwb _⟩
      rw [← List.append_assoc, stripSpace_append (by simp [hwb])]

end Tok.Stream
