import Verif.Bpe.Tokenize
import Verif.Codec.Decoders

/-!
# BPE with an end-of-word suffix

The tokens of a word that can be spelled, and what the BPE decoder makes of the tokens of words (C93).
-/

namespace Tok.Bpe

/-- A word the model can spell, `x` being the end-of-word suffix: its characters are tokens, the last one with the suffix. -/
def Spellable (vocab : AMap Str Nat) (x : Str) : Str → Prop
  | [] => False
  | [c] => ∃ i, vocab.get (c :: x) = some i
  | c :: d :: w => (∃ i, vocab.get [c] = some i) ∧ Spellable vocab x (d :: w)

/-- Texts that make up a word, the last one having the suffix in addition. -/
def Ended (x w : Str) (vs : List Str) : Prop :=
  ∃ (gs : List Str) (last : Str), vs = gs ++ [last ++ x] ∧ w = gs.flatten ++ last

/-- Symbols that make up a word, and the bytes of it that they stand for. -/
def Makes (vocab : AMap Str Nat) (x : Str) : List (Nat × Nat) → Str → Prop
  | [], _ => False
  | [a], w => tokOf vocab a.1 = w ++ x ∧ a.2 = blen w
  | a :: b :: l, w => ∃ g w', w = g ++ w' ∧ tokOf vocab a.1 = g ∧ a.2 = blen g ∧ Makes vocab x (b :: l) w'

theorem makes_merge {vocab : AMap Str Nat} {x : Str} {a d : Nat × Nat} {y : Nat}
    (h : tokOf vocab y = tokOf vocab a.1 ++ tokOf vocab d.1) (post : List (Nat × Nat)) : ∀ (pre : List (Nat × Nat)) (w : Str),
    Makes vocab x (pre ++ a :: d :: post) w → Makes vocab x (pre ++ (y, a.2 + d.2) :: post) w
  | [], w, hm => by
    obtain ⟨g, w', rfl, h1, h2, h3⟩ := hm
    cases post with
    | nil =>
      obtain ⟨h4, h5⟩ := h3
      exact ⟨by rw [h, h1, h4, List.append_assoc], by simp [h2, h5]⟩
    | cons p post =>
      obtain ⟨g', w'', rfl, h4, h5, h6⟩ := h3
      exact ⟨g ++ g', w'', by simp, by rw [h, h1, h4], by simp [h2, h5], h6⟩
  | [p], w, hm => by
    obtain ⟨g, w', rfl, h1, h2, h3⟩ := hm
    exact ⟨g, w', rfl, h1, h2, makes_merge h post [] w' h3⟩
  | p :: q :: pre, w, hm => by
    obtain ⟨g, w', rfl, h1, h2, h3⟩ := hm
    exact ⟨g, w', rfl, h1, h2, makes_merge h post (q :: pre) w' h3⟩

theorem makes_ended {vocab : AMap Str Nat} {x : Str} : ∀ {l : List (Nat × Nat)} {w : Str}, Makes vocab x l w →
    ∃ (gs : List Str) (last : Str), (l.map fun a => tokOf vocab a.1) = gs ++ [last ++ x] ∧ w = gs.flatten ++ last ∧
      l.map (·.2) = (gs ++ [last]).map blen
  | [], _, h => h.elim
  | [a], w, h => ⟨[], w, by simp [h.1], by simp, by simp [h.2]⟩
  | a :: b :: l, w, h => by
    obtain ⟨g, w', rfl, h1, h2, h3⟩ := h
    obtain ⟨gs, last, e1, e2, e3⟩ := makes_ended h3
    exact ⟨g :: gs, last, by rw [List.map_cons, e1, h1]; rfl, by simp [e2], by rw [List.map_cons, e3, h2]; rfl⟩

/-- **C93, the tokens of a word.** Without prefix and without the whole-word shortcut, a word that can be spelled becomes tokens
whose texts make it up, the last one with the suffix; the offsets are those of the parts of the word. -/
theorem C93_ended {b : Bpe} (h : Built b) (hpre : b.pre = none) (hi : b.useDropout = true ∨ b.ignoreMerges = false) {w : Str}
    (hk : Spellable b.vocab (b.suf.getD []) w) (coins : Nat → Bool) :
    ∃ (ts : List Token) (gs : List Str) (last : Str), tokenize b coins w = .ok ts ∧
      ts.map (·.value) = gs ++ [last ++ b.suf.getD []] ∧ w = gs.flatten ++ last ∧
      ts.map (·.offsets) = offsetsFrom 0 ((gs ++ [last]).map blen) ∧ ∀ t ∈ ts, b.vocab.get t.value = some t.id := by
  have htok : ∀ {s i}, b.vocab.get s = some i → tokOf b.vocab i = s := fun hs => tokOf_get h.wf h.distinct hs
  have hcs : ∀ f l c, charSym b f l c = c :: (if l then b.suf.getD [] else []) := by
    intro f l c; rw [charSym_eq, hpre]; cases f <;> simp
  -- the initial symbols
  have hinit : ∀ (w : Str) (first : Bool) (o : List (Nat × Nat)), Spellable b.vocab (b.suf.getD []) w →
      ∃ l, initLoop b first w (o, none) = some (o ++ l, none) ∧ Makes b.vocab (b.suf.getD []) l w := by
    intro w
    induction w with
    | nil => intro _ _ hk; exact hk.elim
    | cons c cs ih =>
      intro first o hk
      cases cs with
      | nil =>
        obtain ⟨i, hi⟩ := hk
        refine ⟨[(i, c.utf8Size)], ?_, by rw [htok hi]; rfl, by simp⟩
        simp only [initLoop, stepChar, hcs, List.isEmpty_nil, if_true, hi, flushUnk]
      | cons d cs =>
        obtain ⟨⟨i, hi⟩, hk⟩ := hk
        obtain ⟨l, l1, l2⟩ := ih false (o ++ [(i, c.utf8Size)]) hk
        refine ⟨(i, c.utf8Size) :: l, ?_, ?_⟩
        · rw [initLoop, stepChar, hcs]
          simp only [List.isEmpty_cons, Bool.false_eq_true, if_false, hi, flushUnk]
          rw [l1]
          simp
        · cases l with
          | nil => exact l2.elim
          | cons p l => exact ⟨[c], d :: cs, rfl, htok hi, by simp, l2⟩
  obtain ⟨l, hl, hl'⟩ := hinit w true [] hk
  have hl : initSyms b w = some l := by unfold initSyms; rw [hl]; simp [flushUnk]
  have hok := initSyms_ok hl
  have main : ∀ coins, ∃ (ts : List Token) (gs : List Str) (last : Str), mergeToTokens b coins w = .ok ts ∧
      ts.map (·.value) = gs ++ [last ++ b.suf.getD []] ∧ w = gs.flatten ++ last ∧
      ts.map (·.offsets) = offsetsFrom 0 ((gs ++ [last]).map blen) ∧ ∀ t ∈ ts, b.vocab.get t.value = some t.id := by
    intro coins
    obtain ⟨size, hc⟩ := h.coherent
    obtain ⟨w', h1, h2, _, _⟩ := mergeAll_spec hc _ (fun x hx => (hok x hx).1) coins
    obtain ⟨ts, h4, h5, h6, h7⟩ := tokensFrom_spec h (symsOf w') 0
      (star_ids h h2 (fun x hx => (hok x hx).2))
    have hmade : ∀ {v}, Star (AnyStep (mergeFn b.merges)) l v → Makes b.vocab (b.suf.getD []) v w := by
      intro v hv
      induction hv with
      | refl => exact hl'
      | tail _ hs ih =>
        cases hs with
        | mk pre a d post r x hm =>
          obtain ⟨merges, cfg, k1⟩ : ∃ merges cfg, build b.vocab merges cfg = .ok b := by
            obtain ⟨⟨merges, cfg, k1, _⟩, _, _⟩ := h; exact ⟨merges, cfg, k1⟩
          obtain ⟨⟨ab, _, hx1, hy1, b', hcut, hz⟩, _⟩ := (C20_build_get k1 _ _ _ _).1 hm
          have hcp : cfg.pre = none := by
            have := (build_merges k1).2
            have := congrArg Bpe.pre this
            simpa [hpre] using this.symm
          rw [hcp] at hcut
          obtain ⟨p0, hp1, hp2⟩ := hcut
          have hp0 : p0 = [] := blen_eq_zero.1 (by simpa using hp2)
          subst hp0
          simp only [List.nil_append] at hp1
          subst hp1
          exact makes_merge (by rw [htok hz, htok hx1, htok hy1]) post pre w ih
    obtain ⟨gs, last, e1, e2, e3⟩ := makes_ended (hmade h2)
    have hval : ts.map (·.value) = (symsOf w').map fun x => tokOf b.vocab x.1 := by
      have e1 : ts.map (·.value) = (ts.map (·.id)).map (tokOf b.vocab) := by
        rw [List.map_map]
        apply List.map_congr_left
        intro t ht
        exact (htok (h7 t ht)).symm
      rw [e1, h5, List.map_map]; rfl
    exact ⟨ts, gs, last, by unfold mergeToTokens mergeWord; simp only [hl, h1, wordToTokens, h4], by rw [hval, e1], e2,
      by rw [h6, e3], h7⟩
  have hw : w ≠ [] := by rintro rfl; exact hk.elim
  unfold tokenize
  rw [if_neg hw]
  cases hd : b.useDropout with
  | true => exact main coins
  | false =>
    have hi : b.ignoreMerges = false := by
      rcases hi with hi | hi
      · rw [hd] at hi; cases hi
      · exact hi
    simp only [hi, Bool.false_eq_true, if_false]
    exact main _

end Tok.Bpe

namespace Tok.Dec

open Bpe (Ended)

/-- The suffix is not mistaken for a part of the word: where the word is followed by it, it occurs nowhere before. -/
def Clear (x w : Str) : Prop := ∀ a b, w ++ x = a ++ x ++ b → b = []

theorem clear_of_last {c : Char} {x w : Str} (h : c ∉ w) (hx : c ∉ x) : Clear (x ++ [c]) w := by
  intro a b e
  have hw : c ∉ w ++ x := by simp [h, hx]
  rw [← List.append_assoc] at e
  have e' : (w ++ x) ++ [c] = (a ++ x) ++ c :: b := by rw [e]; simp
  generalize w ++ x = l at hw e'
  generalize a ++ x = m at e'
  induction l generalizing m with
  | nil =>
    cases m with
    | nil => simpa using e'.symm
    | cons y m => simp at e'
  | cons z l ih =>
    cases m with
    | nil =>
      simp only [List.cons_append, List.nil_append, List.cons.injEq] at e'
      exact absurd (e'.1 ▸ List.mem_cons_self) hw
    | cons y m =>
      simp only [List.cons_append, List.cons.injEq] at e'
      exact ih (fun hc => hw (List.mem_cons_of_mem _ hc)) m e'.2

/-- Tokens of a word but the last one stay as they are. -/
theorem inner_stays {x to w : Str} {gs : List Str} {last : Str} (hx : x ≠ []) (hc : Clear x w) (e : w = gs.flatten ++ last)
    {g : Str} (hg : g ∈ gs) : strReplace x to g = g := by
  apply strReplace_absent hx
  rintro a b rfl
  obtain ⟨l, r, rfl⟩ := List.append_of_mem hg
  have := hc (l.flatten ++ a) (b ++ r.flatten ++ last ++ x) (by rw [e]; simp)
  simp [hx] at this

theorem inner_map {x to w : Str} {gs : List Str} {last : Str} (hx : x ≠ []) (hc : Clear x w) (e : w = gs.flatten ++ last) :
    gs.map (strReplace x to) = gs :=
  (List.map_congr_left (g := id) fun _ hg => inner_stays hx hc e hg).trans (List.map_id _)

/-- The suffix of the last one is replaced. -/
theorem last_replaced {x to w : Str} {gs : List Str} {last : Str} (hx : x ≠ []) (hc : Clear x w) (e : w = gs.flatten ++ last) :
    strReplace x to (last ++ x) = last ++ to := by
  apply strReplace_eq hx
  have := Replaced.step (pat := x) (to := to) (a := last) (b := []) (r := []) ?_ (.done fun a b => by simp [hx])
  · simpa using this
  · intro a' b' e'
    have hb := hc (gs.flatten ++ a') b' (by rw [e]; simpa using e')
    subst hb
    have := congrArg List.length e'
    simp at this
    omega

/-- **C93, the decoder.** The tokens of words become the words, with single spaces between. -/
theorem C93_decoded {oc : Bool} {x : Str} (hx : x ≠ []) {l : List (Str × List Str)} (hl : l ≠ [])
    (h : ∀ p ∈ l, Ended x p.1 p.2 ∧ Clear x p.1) :
    ∃ out, bpe oc x (l.map (·.2)).flatten = some out ∧ out.flatten = [' '].intercalate (l.map (·.1)) := by
  -- words followed by others
  have front : ∀ l : List (Str × List Str), (∀ p ∈ l, Ended x p.1 p.2 ∧ Clear x p.1) →
      ((l.map (·.2)).flatten.map (strReplace x [' '])).flatten = l.flatMap fun p => p.1 ++ [' '] := by
    intro l
    induction l with
    | nil => intro _; rfl
    | cons p l ih =>
      intro h
      obtain ⟨⟨gs, last, e1, e2⟩, hc⟩ := h p (by simp)
      rw [List.map_cons, List.flatten_cons, List.map_append, List.flatten_append, ih fun q hq => h q (by simp [hq]),
        List.flatMap_cons, e1, List.map_append, inner_map hx hc e2,
        List.map_singleton, last_replaced hx hc e2, e2]
      simp
  have key : ∀ l : List (Str × List Str), l ≠ [] → ∃ (l' : List (Str × List Str)) (p : Str × List Str), l = l' ++ [p] := by
    intro l hl
    exact ⟨l.dropLast, l.getLast hl, (List.dropLast_concat_getLast hl).symm⟩
  obtain ⟨l', p, rfl⟩ := key l hl
  obtain ⟨⟨gs, last, e1, e2⟩, hc⟩ := h p (by simp)
  have hsplit : ((l' ++ [p]).map (·.2)).flatten = ((l'.map (·.2)).flatten ++ gs) ++ [last ++ x] := by
    rw [List.map_append, List.flatten_append]; simp [e1]
  have hb : bpe oc x (((l'.map (·.2)).flatten ++ gs) ++ [last ++ x]) =
      some ((((l'.map (·.2)).flatten ++ gs).map (strReplace x [' '])) ++ [strReplace x [] (last ++ x)]) := by
    generalize (l'.map (·.2)).flatten ++ gs = init
    unfold bpe
    rw [if_neg (by simp)]
    congr 1
    rw [List.zipIdx_append, List.map_append]
    congr 1
    · refine (List.map_congr_left (g := strReplace x [' '] ∘ Prod.fst) ?_).trans ?_
      · intro p hp
        obtain ⟨y, i⟩ := p
        have := (List.mem_zipIdx hp).2.1
        rw [if_neg]
        · rfl
        · simp at this ⊢
          omega
      · rw [← List.map_map, List.zipIdx_map_fst]
    · simp
  refine ⟨_, by rw [hsplit]; exact hb, ?_⟩
  rw [List.flatten_append, List.map_append, List.flatten_append, front l' fun q hq => h q (by simp [hq]),
    inner_map hx hc e2, last_replaced hx hc e2]
  have join : ∀ (l : List (Str × List Str)) (w : Str), (l.flatMap fun p => p.1 ++ [' ']) ++ w =
      [' '].intercalate (l.map (·.1) ++ [w]) := by
    intro l w
    induction l with
    | nil => simp [List.intercalate]
    | cons q l ih =>
      rw [List.flatMap_cons, List.append_assoc, ih, List.map_cons, List.cons_append]
      cases l <;> simp [List.intercalate]
  rw [List.map_append, List.map_singleton, ← join, e2]
  simp

end Tok.Dec
