import Verif.Bpe.Tokenize
import Verif.Codec.Wrapper

/-!
# BPE with byte fallback spells every word, and the byte-fallback decoder reads it back (C64)
-/

namespace Tok.Bpe
open Dec

/-- The token texts that spell a text: pieces of it, not empty, that do not look like a byte token, and, for a character satisfying
`P`, the tokens `<0xNN>` of its bytes. -/
inductive Spells (P : Char → Prop) : Str → List Str → Prop
  | nil : Spells P [] []
  | text {x w vs} : x ≠ [] → (∀ y, ¬ IsByteToken x y) → Spells P w vs → Spells P (x ++ w) (x :: vs)
  | char {c w vs} : P c → Spells P w vs → Spells P (c :: w) ((strBytes [c]).map byteToken ++ vs)

/-- No merge takes or makes a token that looks like a byte token. -/
def NoByteMerges (b : Bpe) : Prop :=
  ∀ i j r k, b.merges.get (i, j) = some (r, k) → ∀ s y, IsByteToken s y →
    b.vocab.get s ≠ some i ∧ b.vocab.get s ≠ some j ∧ b.vocab.get s ≠ some k

theorem strBytes_char_ne (c : Char) : strBytes [c] ≠ [] := by
  intro h
  have := congrArg List.length h
  simp [strBytes] at this
  have := c.utf8Size_pos
  omega

theorem not_byteToken_single (c : Char) (y : UInt8) : ¬ IsByteToken [c] y := by
  rintro ⟨_, _, _, h, _⟩; simp at h

/-- A first token that is no byte token is the beginning of the text. -/
theorem Spells.head {P : Char → Prop} {w d : Str} {post : List Str} (h : Spells P w (d :: post))
    (hd : ∀ y, ¬ IsByteToken d y) : ∃ w', w = d ++ w' ∧ Spells P w' post := by
  generalize hv : d :: post = vs at h
  cases h with
  | nil => cases hv
  | text _ _ h => cases hv; exact ⟨_, rfl, h⟩
  | @char c w vs _ h =>
    cases hb : strBytes [c] with
    | nil => exact absurd hb (strBytes_char_ne c)
    | cons y ys =>
      rw [hb] at hv
      simp only [List.map_cons, List.cons_append, List.cons.injEq] at hv
      exact absurd (hv.1 ▸ byteToken_isByteToken y) (hd y)

/-- Joining two neighbouring pieces that are no byte tokens. -/
theorem Spells.merge {P : Char → Prop} {w : Str} {vs : List Str} (h : Spells P w vs) :
    ∀ {pre a d post}, vs = pre ++ a :: d :: post → (∀ y, ¬ IsByteToken a y) → (∀ y, ¬ IsByteToken d y) →
      (∀ y, ¬ IsByteToken (a ++ d) y) → Spells P w (pre ++ (a ++ d) :: post) := by
  induction h with
  | nil => intro pre a d post hv; simp at hv
  | @text x w vs hne hx h ih =>
    intro pre a d post hv ha hd had
    cases pre with
    | nil =>
      simp only [List.nil_append, List.cons.injEq] at hv
      obtain ⟨rfl, rfl⟩ := hv
      obtain ⟨w', rfl, h'⟩ := h.head hd
      rw [← List.append_assoc]
      exact .text (by simp [hne]) had h'
    | cons p pre =>
      simp only [List.cons_append, List.cons.injEq] at hv
      obtain ⟨rfl, rfl⟩ := hv
      exact .text hne hx (ih rfl ha hd had)
  | @char c w vs hc h ih =>
    intro pre a d post hv ha hd had
    have : ∃ as, pre = (strBytes [c]).map byteToken ++ as ∧ vs = as ++ a :: d :: post := by
      rcases List.append_eq_append_iff.1 hv with ⟨as, h1, h2⟩ | ⟨bs, h1, h2⟩
      · exact ⟨as, h1, h2⟩
      · cases bs with
        | nil => exact ⟨[], by simpa using h1.symm, by simpa using h2.symm⟩
        | cons e es =>
          simp only [List.cons_append, List.cons.injEq] at h2
          have : a ∈ (strBytes [c]).map byteToken := by rw [h1, h2.1]; simp
          obtain ⟨y, _, rfl⟩ := List.mem_map.1 this
          exact absurd (byteToken_isByteToken y) (ha y)
    obtain ⟨as, rfl, rfl⟩ := this
    rw [List.append_assoc]
    exact .char hc (ih rfl ha hd had)

/-- **C64.** A BPE model with byte fallback and all 256 byte tokens spells every word, whatever the dropout draws: no
character is lost, and every token is the vocabulary entry of its id. -/
theorem C64_spells {b : Bpe} (h : Built b) (hpre : b.pre = none) (hsuf : b.suf = none) (hf : b.byteFallback = true)
    (hall : ∀ y, b.vocab.get (byteToken y) ≠ none) (hm : NoByteMerges b) {w : Str}
    (hw : b.ignoreMerges = true → ∀ y, ¬ IsByteToken w y) (coins : Nat → Bool) :
    ∃ ts, tokenize b coins w = .ok ts ∧ (∀ t ∈ ts, b.vocab.get t.value = some t.id) ∧
      Spells (fun c => b.vocab.get [c] = none) w (ts.map (·.value)) := by
  have hcs : ∀ f l c, charSym b f l c = [c] := by
    intro f l c; rw [charSym_eq, hpre, hsuf]; cases f <;> cases l <;> simp
  have htok : ∀ {s i}, b.vocab.get s = some i → tokOf b.vocab i = s := fun hs => tokOf_get h.wf h.distinct hs
  have hbytes : ∀ xs : List UInt8, ∃ ids, byteIds b.vocab xs = some ids ∧ ids.map (tokOf b.vocab) = xs.map byteToken := by
    intro xs
    induction xs with
    | nil => exact ⟨[], rfl, rfl⟩
    | cons x xs ih =>
      obtain ⟨ids, h1, h2⟩ := ih
      obtain ⟨i, hi⟩ := Option.ne_none_iff_exists'.1 (hall x)
      exact ⟨i :: ids, by rw [byteIds, hi]; simp only [h1], by rw [List.map_cons, List.map_cons, h2, htok hi]⟩
  -- the initial symbols
  have hinit : ∀ (w : Str) (first : Bool) (o : List (Nat × Nat)), ∃ l, initLoop b first w (o, none) = some (o ++ l, none) ∧
      Spells (fun c => b.vocab.get [c] = none) w (l.map fun x => tokOf b.vocab x.1) := by
    intro w
    induction w with
    | nil => intro _ o; exact ⟨[], by simp [initLoop], .nil⟩
    | cons c cs ih =>
      intro first o
      cases hc : b.vocab.get [c] with
      | some i =>
        obtain ⟨l, h1, h2⟩ := ih false (o ++ [(i, c.utf8Size)])
        refine ⟨(i, c.utf8Size) :: l, ?_, ?_⟩
        · simp only [initLoop, stepChar, hcs, hc, flushUnk]
          rw [h1]; simp
        · rw [List.map_cons, htok hc]
          exact Spells.text (x := [c]) (by simp) (not_byteToken_single c) h2
      | none =>
        obtain ⟨ids, g1, g2⟩ := hbytes (strBytes [c])
        obtain ⟨l, h1, h2⟩ := ih false (o ++ ids.map fun t => (t, 1))
        refine ⟨(ids.map fun t => (t, 1)) ++ l, ?_, ?_⟩
        · simp only [initLoop, stepChar, hcs, hc, hf, if_true, g1]
          rw [h1]; simp
        · rw [List.map_append, List.map_map]
          rw [show (ids.map ((fun x : Nat × Nat => tokOf b.vocab x.1) ∘ fun t => (t, 1))) = ids.map (tokOf b.vocab) from rfl, g2]
          exact .char hc h2
  obtain ⟨l, hl0, hsp⟩ := hinit w true []
  have hl : initSyms b w = some l := by unfold initSyms; rw [hl0]; simp [flushUnk]
  have hok := initSyms_ok hl
  have main : ∀ coins, ∃ ts, mergeToTokens b coins w = .ok ts ∧ (∀ t ∈ ts, b.vocab.get t.value = some t.id) ∧
      Spells (fun c => b.vocab.get [c] = none) w (ts.map (·.value)) := by
    intro coins
    obtain ⟨size, hc⟩ := h.coherent
    obtain ⟨w', h1, h2, _, _⟩ := mergeAll_spec hc _ (fun x hx => (hok x hx).1) coins
    obtain ⟨ts, h4, h5, _, h7⟩ := tokensFrom_spec h (symsOf w') 0
      (star_ids h h2 (fun x hx => (hok x hx).2))
    have hstar : ∀ {v}, Star (AnyStep (mergeFn b.merges)) l v →
        Spells (fun c => b.vocab.get [c] = none) w (v.map fun x => tokOf b.vocab x.1) := by
      intro v hv
      induction hv with
      | refl => exact hsp
      | tail _ hs ih =>
        cases hs with
        | mk pre a d post r x hx =>
          obtain ⟨merges, cfg, k1⟩ : ∃ merges cfg, build b.vocab merges cfg = .ok b := by
            obtain ⟨⟨merges, cfg, k1, _⟩, _, _⟩ := h; exact ⟨merges, cfg, k1⟩
          obtain ⟨⟨ab, _, hx1, hy1, b', hcut, hz⟩, _⟩ := (C20_build_get k1 _ _ _ _).1 hx
          have hcp : cfg.pre = none := by
            have := congrArg Bpe.pre (build_merges k1).2
            simpa [hpre] using this.symm
          rw [hcp] at hcut
          obtain ⟨p0, hp1, hp2⟩ := hcut
          have hp0 : p0 = [] := blen_eq_zero.1 (by simpa using hp2)
          subst hp0
          simp only [List.nil_append] at hp1
          subst hp1
          have ht : tokOf b.vocab x = tokOf b.vocab a.1 ++ tokOf b.vocab d.1 := by
            rw [htok hz, htok hx1, htok hy1]
          have hno := hm _ _ _ _ hx
          rw [List.map_append, List.map_cons, ht]
          refine ih.merge (by simp) ?_ ?_ ?_
          · intro y hy; rw [htok hx1] at hy; exact (hno _ y hy).1 hx1
          · intro y hy; rw [htok hy1] at hy; exact (hno _ y hy).2.1 hy1
          · intro y hy; rw [htok hx1, htok hy1] at hy; exact (hno _ y hy).2.2 hz
    have hval : ts.map (·.value) = (symsOf w').map fun x => tokOf b.vocab x.1 := by
      have e1 : ts.map (·.value) = (ts.map (·.id)).map (tokOf b.vocab) := by
        rw [List.map_map]
        apply List.map_congr_left
        intro t ht
        exact (htok (h7 t ht)).symm
      rw [e1, h5, List.map_map]; rfl
    exact ⟨ts, by unfold mergeToTokens mergeWord; simp only [hl, h1, wordToTokens, h4], h7, hval ▸ hstar h2⟩
  unfold tokenize
  by_cases hw0 : w = []
  · rw [if_pos hw0]
    subst hw0; exact ⟨[], rfl, by simp, .nil⟩
  · rw [if_neg hw0]
    cases hd : b.useDropout with
    | true => exact main coins
    | false =>
      simp only [Bool.false_eq_true, if_false]
      cases hi : b.ignoreMerges with
      | false => exact main _
      | true =>
        simp only [if_true]
        cases hv : b.vocab.get w with
        | none => exact main _
        | some id =>
          refine ⟨_, rfl, ?_, ?_⟩
          · intro t ht; simp at ht; subst ht; exact hv
          · have := Spells.text (P := fun c => b.vocab.get [c] = none) hw0 (hw hi) .nil
            simpa using this

/-! ### reading it back -/

theorem flush_strBytes (p : Str) : (flush (strBytes p)).flatten = p := by
  unfold flush
  by_cases h : strBytes p = []
  · rw [if_pos h]
    cases p with
    | nil => rfl
    | cons c cs =>
      have : strBytes (c :: cs) = strBytes [c] ++ strBytes cs := by simp [strBytes]
      rw [this] at h
      exact absurd (List.append_eq_nil_iff.1 h).1 (strBytes_char_ne c)
  · rw [if_neg h, fromUtf8_strBytes]; simp

theorem strBytes_append' (p q : Str) : strBytes (p ++ q) = strBytes p ++ strBytes q := by simp [strBytes]

theorem fallback_spells {P : Char → Prop} {w : Str} {vs : List Str} (h : Spells P w vs) : ∀ p : Str,
    ∃ out, byteFallbackLoop (strBytes p) vs = some out ∧ out.flatten = p ++ w := by
  induction h with
  | nil => intro p; exact ⟨_, rfl, by rw [flush_strBytes]; simp⟩
  | @text x w vs hne hx h ih =>
    intro p
    obtain ⟨out, h1, h2⟩ := ih []
    refine ⟨flush (strBytes p) ++ x :: out, ?_, ?_⟩
    · rw [byteFallbackLoop, byteOf_none hx]
      rw [show strBytes [] = [] from rfl] at h1
      rw [h1]; rfl
    · rw [List.flatten_append, flush_strBytes, List.flatten_cons, h2]; simp
  | @char c w vs _ h ih =>
    intro p
    obtain ⟨out, h1, h2⟩ := ih (p ++ [c])
    exact ⟨out, by rw [byteFallbackLoop_run, ← strBytes_append', h1], by rw [h2]; simp⟩

/-- **C64.** The byte-fallback decoder gives back the text that tokens spell. -/
theorem C64_fallback {P : Char → Prop} {w : Str} {vs : List Str} (h : Spells P w vs) :
    ∃ out, byteFallback vs = some out ∧ out.flatten = w := by
  obtain ⟨out, h1, h2⟩ := fallback_spells h []
  exact ⟨out, h1, by simpa using h2⟩

end Tok.Bpe
