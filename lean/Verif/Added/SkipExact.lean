import Verif.Added.Vocab

/-!
# What skipping special tokens skips (C28)

For every history, without conditions on the tokens: skipping drops exactly the ids whose decoded text is the content of some
token that was ever added as special.
-/

namespace Tok
namespace AddedVocab

/-- The contents of the tokens that a history adds as special, at whatever time. -/
def EverSpecial (ops : List Op) (s : Str) : Prop := s ≠ [] ∧ ∃ t ∈ tokensOf ops, t.special = true ∧ t.content = s

theorem store_specials {av : AddedVocab} {id : Nat} {t : AddedToken} {form : Option Str} (hc : t.content ≠ []) (s : Str) :
    s ∈ (av.store id t form).specials ↔ s ∈ av.specials ∨ (t.special = true ∧ t.content = s) := by
  simp only [store]
  split
  · rename_i h
    rw [List.mem_cons]
    constructor
    · rintro (rfl | h1)
      · exact .inr ⟨h.1, rfl⟩
      · exact .inl h1
    · rintro (h1 | ⟨_, rfl⟩)
      · exact .inr h1
      · exact .inl rfl
  · rename_i h
    constructor
    · exact .inl
    · rintro (h1 | ⟨h1, rfl⟩)
      · exact h1
      · refine Classical.byContradiction fun hn => h ⟨h1, hc, hn⟩

theorem normalForm_total {norm : Norm} (hN : ∀ f, norm = some f → ∀ s, f s ≠ none) (t : AddedToken) :
    ∃ form, normalForm norm t = some form := by
  unfold normalForm
  split
  · cases norm with
    | none => exact ⟨_, rfl⟩
    | some f =>
      simp only
      cases hf : f t.content with
      | none => exact absurd hf (hN f rfl _)
      | some u => exact ⟨_, rfl⟩
  · exact ⟨_, rfl⟩

theorem addLoop_specials {m : ModelView} (hm : m.Ok) {norm : Norm} (hN : ∀ f, norm = some f → ∀ s, f s ≠ none) :
    ∀ (ts : List AddedToken) {av : AddedVocab} {next : Nat} (ign : Nat), Inv m av → Fresh m av next → ∀ s,
      s ∈ (addLoop m norm ts av next ign).1.specials ↔
        s ∈ av.specials ∨ (s ≠ [] ∧ ∃ t ∈ ts, t.special = true ∧ t.content = s)
  | [], av, next, ign, _, _, s => by simp [addLoop]
  | t :: ts, av, next, ign, hi, hf, s => by
    have split1 : (s ≠ [] ∧ ∃ u ∈ t :: ts, u.special = true ∧ u.content = s) ↔
        (s ≠ [] ∧ t.special = true ∧ t.content = s) ∨ (s ≠ [] ∧ ∃ u ∈ ts, u.special = true ∧ u.content = s) := by
      constructor
      · rintro ⟨h1, u, hu, h2⟩
        rcases List.mem_cons.1 hu with rfl | hu
        · exact .inl ⟨h1, h2⟩
        · exact .inr ⟨h1, u, hu, h2⟩
      · rintro (⟨h1, h2⟩ | ⟨h1, u, hu, h2⟩)
        · exact ⟨h1, t, List.mem_cons_self, h2⟩
        · exact ⟨h1, u, List.mem_cons_of_mem _ hu, h2⟩
    rw [split1, addLoop]
    split
    · rename_i hc
      rw [addLoop_specials hm hN ts _ hi hf]
      constructor
      · rintro (h | h)
        · exact .inl h
        · exact .inr (.inr h)
      · rintro (h | ⟨h1, -, h2⟩ | h)
        · exact .inl h
        · exact absurd (h2.symm.trans hc) h1
        · exact .inr h
    · rename_i hc
      split
      · rename_i hpr
        rw [addLoop_specials hm hN ts _ hi hf]
        constructor
        · rintro (h | h)
          · exact .inl h
          · exact .inr (.inr h)
        · rintro (h | ⟨h1, h2, h3⟩ | h)
          · exact .inl h
          · left
            unfold present at hpr
            split at hpr
            · rename_i id _
              rw [← h3]
              exact hi.flagged _ _ (of_decide_eq_true hpr) h2
            · cases hpr
          · exact .inr h
      · simp only
        obtain ⟨form, hform⟩ := normalForm_total hN t
        rw [hform]
        simp only
        obtain ⟨h1, h2, -⟩ := store_inv hm hi hf hc form
        rw [addLoop_specials hm hN ts _ h1 h2, store_specials hc]
        constructor
        · rintro ((h | ⟨h, rfl⟩) | h)
          · exact .inl h
          · exact .inr (.inl ⟨hc, h, rfl⟩)
          · exact .inr (.inr h)
        · rintro (h | ⟨-, h⟩ | h)
          · exact .inl (.inl h)
          · exact .inl (.inr h)
          · exact .inr h

theorem after_specials {m : ModelView} (hm : m.Ok) (build : List (Str × Nat) → Bool) :
    ∀ (ops : List Op) {av : AddedVocab}, (∀ f ∈ normsOf ops, ∀ s, f s ≠ none) → Inv m av → ∀ s,
      s ∈ (after build m av ops).specials ↔ s ∈ av.specials ∨ EverSpecial ops s
  | [], av, _, _, s => by simp [after, EverSpecial, tokensOf]
  | op :: ops, av, hN, hi, s => by
    show s ∈ (after build m (apply build m av op) ops).specials ↔ _
    have hi' := (apply_inv hm build hi op).1
    cases op with
    | add norm ts =>
      rw [after_specials hm build ops (fun f hf => hN f (by simp [normsOf, hf])) hi']
      obtain ⟨ign, r, e, -, -, h3, -⟩ := addTokens_fst build m norm av ts
      have g := addLoop_specials hm (norm := norm) (fun f hf => hN f (by simp [normsOf, hf])) ts 0 hi nextId_fresh s
      rw [e] at g
      rw [show (apply build m av (.add norm ts)).specials = r.specials from h3, g]
      unfold EverSpecial
      simp only [tokensOf, List.mem_append]
      constructor
      · rintro ((h | ⟨h1, t, h2, h4⟩) | ⟨h1, t, h2, h4⟩)
        · exact .inl h
        · exact .inr ⟨h1, t, .inl h2, h4⟩
        · exact .inr ⟨h1, t, .inr h2, h4⟩
      · rintro (h | ⟨h1, t, h2 | h2, h4⟩)
        · exact .inl (.inl h)
        · exact .inl (.inr ⟨h1, t, h2, h4⟩)
        · exact .inr ⟨h1, t, h2, h4⟩
    | renormalize norm =>
      rw [after_specials hm build ops (fun f hf => hN f (by simp [normsOf, hf])) hi']
      have : (apply build m av (.renormalize norm)).specials = av.specials := by
        show (av.refreshNormalized build norm).1.specials = _
        unfold refreshNormalized
        simp only
        split
        · exact (refresh_same build { av with cache := (recache norm av.rmap []).1 }).2.2.1
        · rfl
      rw [this]
      rfl
    | setEncodeSpecial b =>
      rw [after_specials hm build ops (fun f hf => hN f (by simpa [normsOf] using hf)) hi']
      rfl

/-- **C28, exactly.** After every history with a normalizer that does not fail, decoding with `skip_special_tokens` gives the texts
of the known ids in order, but those whose text is the content of some token that was ever added as special: whether the token
of the id is flagged special does not matter. -/
theorem C28_exact {m : ModelView} (hm : m.Ok) (build : List (Str × Nat) → Bool) (ops : List Op)
    (hN : ∀ f ∈ normsOf ops, ∀ s, f s ≠ none) (ids : List Nat) :
    Texts m (after build m empty ops) (fun i => ∀ s, Shows m (after build m empty ops) i s → ¬ EverSpecial ops s) ids
      (decodeTokens m (after build m empty ops) true ids) := by
  have key : ∀ s, s ∈ (after build m empty ops).specials ↔ EverSpecial ops s := fun s => by
    rw [after_specials hm build ops hN (inv_empty m)]
    simp [empty]
  generalize after build m empty ops = av at *
  induction ids with
  | nil => exact .nil
  | cons i ids ih =>
    unfold decodeTokens
    rw [List.filterMap_cons]
    cases hs : (av.simpleIdToToken i).or (m.toToken i) with
    | none => exact .unknown (fun s hs' => by rw [shows_iff, hs] at hs'; cases hs') ih
    | some s =>
      by_cases hx : s ∈ av.specials
      · have : (Option.filter (fun t => !true || !av.specials.contains t) (some s)) = none := by simp [hx]
        simp only [this]
        exact .skip (shows_iff.2 hs) (fun hn => hn s (shows_iff.2 hs) ((key s).1 hx)) ih
      · have : (Option.filter (fun t => !true || !av.specials.contains t) (some s)) = some s := by simp [hx]
        simp only [this]
        refine .keep (shows_iff.2 hs) (fun s' hs' hn => hx ?_) ih
        rw [shows_iff, hs] at hs'
        cases hs'
        exact (key s).2 hn

/-- The history of `C28_flag_not_cleared`: the text is one that was special. -/
example : EverSpecial [.add none [.ofStr "<s>".toList true], .add none [.ofStr "<s>".toList false]] "<s>".toList :=
  ⟨by decide, .ofStr "<s>".toList true, by decide, rfl, rfl⟩

/-- The history of `C28_form_not_skipped`: the text shown is not. -/
example : ¬ EverSpecial [.add (some upX) [{ content := "<x>".toList, special := true, normalized := true }]] "<X>".toList := by
  rintro ⟨-, t, ht, -, h2⟩
  simp only [tokensOf, List.append_nil, List.mem_singleton] at ht
  subst ht
  revert h2
  decide

end AddedVocab
end Tok
