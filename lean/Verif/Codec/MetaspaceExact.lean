import Verif.Codec.Metaspace

/-!
# What the Metaspace decoder gives for any segmentation (C31)
-/

namespace Tok.Metaspace

theorem filterMap_filter {r : Char} : ∀ (t : Str), ' ' ∉ t →
    (t.filterMap fun c => if c = r then none else some c) = (unsub r t).filter (· ≠ ' ')
  | [], _ => rfl
  | c :: t, h => by
    have ih := filterMap_filter (r := r) t fun hc => h (by simp [hc])
    unfold unsub at ih ⊢
    rw [List.filterMap_cons, List.map_cons]
    by_cases hc : c = r
    · simp only [if_pos hc, ih, List.filter_cons]
      simp
    · have : c ≠ ' ' := by rintro rfl; exact h (by simp)
      simp only [if_neg hc, ih, List.filter_cons]
      simp [this]

theorem decode_head {r : Char} {scheme : Scheme} (hs : scheme ≠ .never) {t : Str} (h : ' ' ∉ t) (ts : List Str) :
    (decodeChain r scheme ((r :: t) :: ts)).flatten = (unsub r t).filter (· ≠ ' ') ++ unsub r ts.flatten := by
  unfold decodeChain
  rw [List.zipIdx_cons, List.map_cons, List.flatten_cons, decode_later r scheme ts 0]
  congr 1
  simp only [true_and, hs, not_false_eq_true, if_true, ne_eq]
  rw [List.filterMap_cons]
  simp only [if_true]
  exact filterMap_filter t h

theorem space_not_sub {r : Char} (hr : r ≠ ' ') (s : Str) : ' ' ∉ sub r s := by
  unfold sub
  intro h
  obtain ⟨c, -, hc⟩ := List.mem_map.1 h
  split at hc
  · exact hr hc
  · rename_i hn; exact hn hc

/-- **C31, exactly.** Whatever the tokens the text is cut into, decoding them gives the text (without the space it begins with),
but without the spaces that fall into the first token; so the text comes back if and only if the first token contains no
replacement but the one it begins with. -/
theorem C31_exact (cfg : Config) (hs : cfg.scheme ≠ .never) (hr0 : cfg.replacement ≠ ' ') {s : Str} (hne : s ≠ [])
    (hr : cfg.replacement ∉ s) :
    ∃ p', preTokenize cfg (PTS.ofStr s) = .ok p' ∧ ∀ (t : Str) (ts : List Str), t ≠ [] → t ++ ts.flatten = p'.text →
      (decodeChain cfg.replacement cfg.scheme (t :: ts)).flatten =
        ((restored cfg.scheme s).take (t.length - 1)).filter (· ≠ ' ') ++ (restored cfg.scheme s).drop (t.length - 1) ∧
      ((decodeChain cfg.replacement cfg.scheme (t :: ts)).flatten = restored cfg.scheme s ↔ cfg.replacement ∉ t.tail) := by
  obtain ⟨p', h1, h2, -⟩ := ofStr_result cfg s
  refine ⟨p', h1, fun t ts htne ht => ?_⟩
  rw [h2] at ht
  have hsch : cfg.scheme = .always ∨ (cfg.scheme = .first ∧ true = true) := by
    cases h : cfg.scheme <;> simp_all
  have key : ∃ v, metaText cfg true s = cfg.replacement :: v ∧ unsub cfg.replacement v = restored cfg.scheme s ∧ ' ' ∉ v := by
    cases s with
    | nil => exact absurd rfl hne
    | cons c s =>
      have hr' : cfg.replacement ∉ s := fun h => hr (by simp [h])
      by_cases hc : c = ' '
      · subst hc
        refine ⟨sub cfg.replacement s, by simp [metaText, sub], ?_, space_not_sub hr0 _⟩
        rw [unsub_sub hr']; simp [restored, hs]
      · have hcr : c ≠ cfg.replacement := by rintro rfl; exact hr (by simp)
        refine ⟨sub cfg.replacement (c :: s), ?_, ?_, space_not_sub hr0 _⟩
        · rw [metaText, if_pos]
          exact ⟨by simp [sub], by simp [sub, hc, hcr], hsch⟩
        · rw [unsub_sub hr]; simp [restored, hc]
  obtain ⟨v, k1, k2, k3⟩ := key
  obtain ⟨c, t', rfl⟩ := List.exists_cons_of_ne_nil htne
  rw [k1] at ht
  simp only [List.cons_append, List.cons.injEq] at ht
  obtain ⟨rfl, rfl⟩ := ht
  have hsp : ' ' ∉ t' := fun h => k3 (List.mem_append_left _ h)
  have hun : restored cfg.scheme s = unsub cfg.replacement t' ++ unsub cfg.replacement ts.flatten := by
    rw [← k2, unsub, unsub, unsub, List.map_append]
  have hl : (unsub cfg.replacement t').length = t'.length := by simp [unsub]
  have e1 : (restored cfg.scheme s).take t'.length = unsub cfg.replacement t' := by rw [hun, ← hl, List.take_left]
  have e2 : (restored cfg.scheme s).drop t'.length = unsub cfg.replacement ts.flatten := by rw [hun, ← hl, List.drop_left]
  rw [decode_head hs hsp]
  simp only [List.length_cons, Nat.add_sub_cancel, List.tail_cons]
  refine ⟨by rw [e1, e2], ?_⟩
  rw [hun, List.append_cancel_right_eq, List.filter_eq_self]
  constructor
  · intro hall hm
    have : ' ' ∈ unsub cfg.replacement t' := List.mem_map.2 ⟨_, hm, by simp⟩
    simpa using hall _ this
  · intro hm c hc
    rw [unsub_of_not_mem hm] at hc
    simp only [ne_eq, decide_not, Bool.not_eq_eq_eq_not, Bool.not_true, decide_eq_false_iff_not]
    rintro rfl
    exact hsp hc

example : let cfg : Config := ⟨'▁', .always, false⟩
    cfg.scheme ≠ .never ∧ cfg.replacement ≠ ' ' ∧ cfg.replacement ∉ " a b c".toList ∧
    ∃ p', preTokenize cfg (PTS.ofStr " a b c".toList) = .ok p' ∧ "▁a▁b".toList ++ ["▁c".toList].flatten = p'.text ∧
      (decodeChain '▁' .always ["▁a▁b".toList, "▁c".toList]).flatten = "ab c".toList :=
  ⟨by decide, by decide, by decide, _, rfl, by decide +kernel, by decide +kernel⟩

end Tok.Metaspace
