import Verif.Save.Vocab
import Verif.Added.Match

/-!
# C39: added tokens saved and reloaded
-/

namespace Tok.AddedVocab

/-! ## The ids of added tokens have no holes -/

/-- The ids from the model's size up to `next` are those of added tokens, and no larger id is used. -/
structure Contig (m : ModelView) (av : AddedVocab) (next : Nat) : Prop where
  fresh : Fresh m av next
  full : ∀ j, m.size ≤ j → j < next → ∃ t, av.rmap.get j = some t

/-- Below an id in use, all ids are in use, down to the model's size. -/
def NoHoles (m : ModelView) (av : AddedVocab) : Prop :=
  ∀ i t, av.rmap.get i = some t → ∀ j, m.size ≤ j → j ≤ i → ∃ t', av.rmap.get j = some t'

theorem Contig.noHoles {m : ModelView} {av : AddedVocab} {next : Nat} (h : Contig m av next) : NoHoles m av := by
  intro i t hi j h1 h2
  have := h.fresh.2 i t hi
  exact h.full j h1 (by omega)

theorem NoHoles.contig {m : ModelView} {av : AddedVocab} (hw : av.rmap.WF) (h : NoHoles m av) :
    Contig m av (av.nextId m) := by
  refine ⟨nextId_fresh, fun j h1 h2 => ?_⟩
  unfold nextId at h2
  cases hx : (av.rmap.map (·.1)).max? with
  | none => rw [hx] at h2; simp only at h2; omega
  | some mx =>
    rw [hx] at h2
    simp only at h2
    have hmem : mx ∈ av.rmap.map (·.1) := (List.max?_eq_some_iff.1 hx).1
    obtain ⟨⟨i, t⟩, hm, rfl⟩ := List.mem_map.1 hmem
    have hg := AMap.get_eq_some_of_mem hw hm
    split at h2
    · exact h i t hg j h1 (by simpa using Nat.lt_succ_iff.1 h2)
    · omega

theorem store_rmap {av : AddedVocab} {id : Nat} {t : AddedToken} {form : Option Str} (i : Nat) :
    (av.store id t form).rmap.get i = if id = i then some t else av.rmap.get i := by
  unfold store
  simp only
  rw [AMap.get_insert]

theorem store_contig {m : ModelView} (hm : m.Ok) {av : AddedVocab} (hi : Inv m av) {next : Nat} (h : Contig m av next)
    {t : AddedToken} (hc : t.content ≠ []) (form : Option Str) :
    Contig m (av.store ((av.tokenToId m t.content).getD next) t form)
      (if (av.tokenToId m t.content).isSome then next else next + 1) := by
  refine ⟨(store_inv hm hi h.fresh hc form).2.1, fun j h1 h2 => ?_⟩
  rw [store_rmap]
  split
  · exact ⟨t, rfl⟩
  · rename_i hne
    refine h.full j h1 ?_
    split at h2
    · exact h2
    · rename_i hs
      have : av.tokenToId m t.content = none := by
        cases hx : av.tokenToId m t.content with
        | none => rfl
        | some x => rw [hx] at hs; simp at hs
      rw [this, Option.getD_none] at hne
      omega

theorem addLoop_contig {m : ModelView} (hm : m.Ok) (norm : Norm) : ∀ (ts : List AddedToken) {av : AddedVocab}
    {next : Nat} (ign : Nat), Inv m av → Contig m av next → NoHoles m (addLoop m norm ts av next ign).1
  | [], _, _, _, _, h => h.noHoles
  | t :: ts, av, next, ign, hi, h => by
    rw [addLoop]
    split
    · exact addLoop_contig hm norm ts _ hi h
    · rename_i hc
      split
      · exact addLoop_contig hm norm ts _ hi h
      · simp only
        cases hn : normalForm norm t with
        | none => exact h.noHoles
        | some form =>
          exact addLoop_contig hm norm ts ign (store_inv hm hi h.fresh hc form).1 (store_contig hm hi h hc form)

theorem NoHoles.congr {m : ModelView} {av av' : AddedVocab} (h : NoHoles m av) (e : av'.rmap = av.rmap) :
    NoHoles m av' := by
  unfold NoHoles; rw [e]; exact h

theorem renormalize_rmap (build : List (Str × Nat) → Bool) (norm : Norm) (av : AddedVocab) :
    (av.refreshNormalized build norm).1.rmap = av.rmap := by
  unfold refreshNormalized
  simp only
  split
  · exact (refresh_same build { av with cache := (recache norm av.rmap []).1 }).2.1
  · rfl

theorem after_noHoles {m : ModelView} (hm : m.Ok) (build : List (Str × Nat) → Bool) : ∀ (ops : List Op)
    {av : AddedVocab}, Inv m av → NoHoles m av → NoHoles m (after build m av ops)
  | [], _, _, h => h
  | op :: ops, av, hi, h => by
    refine after_noHoles hm build ops (apply_inv hm build hi op).1 ?_
    cases op with
    | add norm ts =>
      obtain ⟨ign, r, e, _, h2, _, _⟩ := addTokens_fst build m norm av ts
      have := addLoop_contig hm norm ts 0 hi (h.contig hi.wfr)
      rw [e] at this
      exact this.congr h2
    | renormalize norm => exact h.congr (renormalize_rmap build norm av)
    | setEncodeSpecial b => exact h

/-- **C26.** After every history, the ids of the added tokens the model does not know are consecutive, starting at the
model's size. -/
theorem C26_no_holes {m : ModelView} (hm : m.Ok) (build : List (Str × Nat) → Bool) (ops : List Op) {i : Nat}
    {t : AddedToken} (h : (after build m empty ops).rmap.get i = some t) {j : Nat} (h1 : m.size ≤ j) (h2 : j ≤ i) :
    ∃ t', (after build m empty ops).rmap.get j = some t' :=
  after_noHoles hm build ops (inv_empty m) (fun i t hi => by simp [empty, AMap.get] at hi) i t h j h1 h2

end Tok.AddedVocab

namespace Tok.Save
open Tok.AddedVocab

/-! ## Reloading -/

/-- The state after the entries `done` have been added again. -/
structure Again (m : ModelView) (norm : Norm) (done : List (Nat × AddedToken)) (av : AddedVocab) (next : Nat) : Prop where
  inv : Inv m av
  contig : Contig m av next
  mem : ∀ i t, av.rmap.get i = some t ↔ (i, t) ∈ done
  cache : ∀ i t, (i, t) ∈ done → normalForm norm t = some (av.cache.get i)
  specials : ∀ c, c ∈ av.specials ↔ ∃ i t, (i, t) ∈ done ∧ t.special = true ∧ t.content = c
  flag : av.encodeSpecial = false

theorem Again.step {m : ModelView} (hm : m.Ok) {norm : Norm} {done : List (Nat × AddedToken)} {av : AddedVocab}
    {next : Nat} (h : Again m norm done av next) {i : Nat} {t : AddedToken} {form : Option Str}
    (hid : (av.tokenToId m t.content).getD next = i) (hc : t.content ≠ []) (hnew : ∀ u, (i, u) ∉ done)
    (hf : normalForm norm t = some form) :
    Again m norm (done ++ [(i, t)]) (av.store i t form)
      (if (av.tokenToId m t.content).isSome then next else next + 1) := by
  have s1 := store_inv hm h.inv h.contig.fresh hc form
  have s2 := store_contig hm h.inv h.contig hc form
  rw [hid] at s1 s2
  have hci : av.cache.get i = none := by
    cases hx : av.cache.get i with
    | none => rfl
    | some s =>
      obtain ⟨u, hu⟩ := h.inv.cached i s hx
      exact absurd ((h.mem i u).1 hu) (hnew u)
  have hcache : ∀ j, (av.store i t form).cache.get j = if i = j then form else av.cache.get j := by
    intro j
    unfold store
    cases form with
    | none =>
      simp only
      split
      · rename_i e; rw [← e, hci]
      · rfl
    | some s => simp only; rw [AMap.get_insert]
  refine ⟨s1.1, s2, ?_, ?_, ?_, h.flag⟩
  · intro j u
    rw [store_rmap, List.mem_append, List.mem_singleton, Prod.mk.injEq]
    by_cases e : i = j
    · rw [if_pos e]
      constructor
      · intro hu; exact .inr ⟨e.symm, (Option.some.inj hu).symm⟩
      · rintro (hu | ⟨_, hu⟩)
        · exact absurd (e ▸ hu) (hnew u)
        · rw [hu]
    · rw [if_neg e, h.mem]
      exact ⟨.inl, fun hu => hu.resolve_right fun hu => e hu.1.symm⟩
  · intro j u hu
    rw [hcache]
    rcases List.mem_append.1 hu with hu | hu
    · have : i ≠ j := fun e => hnew u (e ▸ hu)
      rw [if_neg this]
      exact h.cache j u hu
    · rw [List.mem_singleton, Prod.mk.injEq] at hu
      obtain ⟨rfl, rfl⟩ := hu
      rw [if_pos rfl]; exact hf
  · intro c
    have hs : c ∈ (av.store i t form).specials ↔ c ∈ av.specials ∨ (t.special = true ∧ t.content = c) := by
      unfold store
      simp only
      split
      · rename_i hx
        rw [List.mem_cons]
        constructor
        · rintro (e | e)
          · exact .inr ⟨hx.1, e.symm⟩
          · exact .inl e
        · rintro (e | e)
          · exact .inr e
          · exact .inl e.2.symm
      · rename_i hx
        constructor
        · exact .inl
        · rintro (e | ⟨e1, e2⟩)
          · exact e
          · rw [← e2]
            by_cases hin : t.content ∈ av.specials
            · exact hin
            · exact absurd ⟨e1, hc, hin⟩ hx
    rw [hs, h.specials]
    constructor
    · rintro (⟨j, u, h1, h2⟩ | h2)
      · exact ⟨j, u, List.mem_append.2 (.inl h1), h2⟩
      · exact ⟨i, t, List.mem_append.2 (.inr (by simp)), h2⟩
    · rintro ⟨j, u, h1, h2⟩
      rcases List.mem_append.1 h1 with h1 | h1
      · exact .inl ⟨j, u, h1, h2⟩
      · rw [List.mem_singleton, Prod.mk.injEq] at h1
        exact .inr (h1.2 ▸ h2)

theorem reload_loop {m : ModelView} (hm : m.Ok) {src : AddedVocab} (hsrc : Inv m src) (hnh : NoHoles m src)
    {norm : Norm} {L : List (Nat × AddedToken)} (hL : ∀ i t, src.rmap.get i = some t ↔ (i, t) ∈ L)
    (hsort : L.Pairwise fun a b => a.1 < b.1) : ∀ (todo done : List (Nat × AddedToken)) (av : AddedVocab)
    (next ign : Nat), done ++ todo = L → Again m norm done av next →
    (∃ r next', addLoop m norm (todo.map (·.2)) av next ign = (r, some ign) ∧ Again m norm L r next' ∧
      ∀ p ∈ todo, normalForm norm p.2 ≠ none) ∨
    ((∃ p ∈ todo, normalForm norm p.2 = none) ∧
      ∃ r, addLoop m norm (todo.map (·.2)) av next ign = (r, none)) := by
  intro todo
  induction todo with
  | nil =>
    intro done av next ign hd h
    rw [List.append_nil] at hd
    subst hd
    exact .inl ⟨av, next, rfl, h, fun p hp => by cases hp⟩
  | cons p todo ih =>
    obtain ⟨i, t⟩ := p
    intro done av next ign hd h
    have hin : (i, t) ∈ L := by rw [← hd]; simp
    have hsi := (hL i t).2 hin
    have hmap := (hsrc.inverse t.content i).2 ⟨t, hsi, rfl⟩
    have hdl : ∀ j u, (j, u) ∈ done → j < i := by
      intro j u hj
      rw [← hd, List.pairwise_append] at hsort
      exact hsort.2.2 _ hj _ List.mem_cons_self
    have hnew : ∀ u, (i, u) ∉ done := fun u hu => by have := hdl i u hu; omega
    have hne : t.content ≠ [] := hsrc.nonempty _ _ hmap
    -- the content is not there yet
    have hget : av.map.get t.content = none := by
      cases hx : av.map.get t.content with
      | none => rfl
      | some j =>
        obtain ⟨u, hu, hc⟩ := (h.inv.inverse _ _).1 hx
        have hj := (h.mem _ _).1 hu
        have hjL : (j, u) ∈ L := by rw [← hd]; exact List.mem_append.2 (.inl hj)
        have := (hsrc.inverse t.content j).2 ⟨u, (hL j u).2 hjL, hc⟩
        rw [hmap] at this
        cases this
        exact absurd hj (hnew u)
    have hpres : av.present t = false := by unfold present; rw [hget]
    have hid : (av.tokenToId m t.content).getD next = i := by
      unfold tokenToId
      rw [hget, Option.none_or]
      rcases hsrc.model _ _ hmap with k | ⟨k, k'⟩
      · rw [k]; rfl
      · rw [k, Option.getD_none]
        rcases Nat.lt_trichotomy next i with hlt | heq | hgt
        · obtain ⟨u, hu⟩ := hnh i t hsi next h.contig.fresh.1 (by omega)
          have huL := (hL _ _).1 hu
          rw [← hd] at huL
          have hud : (next, u) ∈ done := by
            rcases List.mem_append.1 huL with g | g
            · exact g
            · exfalso
              rcases List.mem_cons.1 g with g | g
              · cases g; omega
              · rw [← hd, List.pairwise_append, List.pairwise_cons] at hsort
                have := hsort.2.1.1 _ g
                simp only at this; omega
          have := h.contig.fresh.2 _ _ ((h.mem _ _).2 hud)
          omega
        · exact heq
        · obtain ⟨u, hu⟩ := h.contig.full i k' hgt
          exact absurd ((h.mem _ _).1 hu) (hnew u)
    rw [List.map_cons, addLoop, if_neg hne, hpres]
    simp only [Bool.false_eq_true, if_false]
    cases hf : normalForm norm t with
    | none => exact .inr ⟨⟨(i, t), List.mem_cons_self, hf⟩, av, rfl⟩
    | some form =>
      simp only [hid]
      have hstep := h.step hm hid hne hnew hf
      rcases ih (done ++ [(i, t)]) _ _ ign (by simp [hd]) hstep with ⟨r, n', h1, h2, h3⟩ | ⟨⟨p, h1, h2⟩, r, h3⟩
      · refine .inl ⟨r, n', h1, h2, fun p hp => ?_⟩
        rcases List.mem_cons.1 hp with rfl | hp
        · simp [hf]
        · exact h3 p hp
      · exact .inr ⟨⟨p, List.mem_cons_of_mem _ h1, h2⟩, r, h3⟩

theorem saveAdded_mem {av : AddedVocab} (hw : av.rmap.WF) (i : Nat) (t : AddedToken) :
    av.rmap.get i = some t ↔ (i, t) ∈ saveAdded av := by
  unfold saveAdded
  rw [(sortBy_perm _ _).mem_iff]
  exact ⟨AMap.mem_of_get_eq_some, AMap.get_eq_some_of_mem hw⟩

theorem saveAdded_sorted {av : AddedVocab} (hw : av.rmap.WF) : (saveAdded av).Pairwise fun a b => a.1 < b.1 := by
  have h1 : (saveAdded av).Pairwise fun a b => a.1 ≤ b.1 := sortBy_sorted _ _
  have h2 : (saveAdded av).Pairwise fun a b => a.1 ≠ b.1 := by
    have : ((saveAdded av).map (·.1)).Nodup := ((sortBy_perm _ _).map _).nodup_iff.2 hw
    exact List.pairwise_map.1 this
  exact (h1.and h2).imp fun ⟨a, b⟩ => Nat.lt_of_le_of_ne a b

theorem again_empty (m : ModelView) (norm : Norm) : Again m norm [] empty (empty.nextId m) :=
  ⟨inv_empty m, NoHoles.contig (inv_empty m).wfr (fun i t hi => by simp [empty, AMap.get] at hi),
    (by simp [empty, AMap.get]), (by intro i t h; cases h), (by simp [empty]), rfl⟩

/-- **C39.** What the added tokens look like when they have been saved and loaded again, whatever their history: the same
contents have the same ids and the same properties; the normal forms are those of the current normalizer; the special
tokens are those whose flag is set; the patterns searched for are the contents and the normal forms. -/
theorem C39_added {m : ModelView} (hm : m.Ok) (build : List (Str × Nat) → Bool) (ops : List Op) (norm : Norm)
    {av av' : AddedVocab} (hav : after build m empty ops = av) (h : loadAdded build m norm (saveAdded av) = some av') :
    (∀ c, av'.map.get c = av.map.get c) ∧ (∀ i, av'.rmap.get i = av.rmap.get i) ∧
    (∀ i t, av.rmap.get i = some t → normalForm norm t = some (av'.cache.get i)) ∧
    (∀ c, c ∈ av'.specials ↔ ∃ i t, av.rmap.get i = some t ∧ t.special = true ∧ t.content = c) ∧
    (∀ c i, (c, i) ∈ av'.trie ↔ ∃ t, av.rmap.get i = some t ∧ t.normalized = false ∧ c = t.content) ∧
    (∀ c i, (c, i) ∈ av'.normTrie ↔ ∃ t, av.rmap.get i = some t ∧ t.normalized = true ∧
      c = (av'.cache.get i).getD t.content) ∧
    av'.encodeSpecial = false := by
  have hi : Inv m av := hav ▸ (after_inv hm build ops (inv_empty m)).1
  have hn : NoHoles m av := hav ▸ after_noHoles hm build ops (inv_empty m)
    (fun i t hi => by simp [empty, AMap.get] at hi)
  rcases reload_loop (norm := norm) hm hi hn (saveAdded_mem hi.wfr) (saveAdded_sorted hi.wfr) (saveAdded av) [] empty
    (empty.nextId m) 0 rfl (again_empty m norm) with ⟨r, n', h1, h2, _⟩ | ⟨_, r, h1⟩
  · unfold loadAdded addTokens at h
    rw [h1] at h
    simp only at h
    cases hb : (r.refresh build).2 with
    | false => rw [hb] at h; simp at h
    | true =>
      rw [hb] at h
      simp only [if_true, Option.some.injEq] at h
      obtain ⟨e1, e2, e3, e4, e5⟩ := refresh_same build r
      obtain ⟨p1, p2⟩ := refresh_patterns h2.inv.wfr hb
      rw [h] at e1 e2 e3 e4 e5 p1 p2
      have hr : ∀ i, av'.rmap.get i = av.rmap.get i := by
        intro i
        refine Option.ext fun t => ?_
        rw [e2, h2.mem, ← saveAdded_mem hi.wfr]
      refine ⟨?_, hr, ?_, ?_, ?_, ?_, by rw [e5]; exact h2.flag⟩
      · intro c
        refine Option.ext fun i => ?_
        rw [e1, h2.inv.inverse, hi.inverse]
        rw [e2] at hr
        rw [hr]
      · intro i t ht
        rw [e4]
        exact h2.cache i t ((saveAdded_mem hi.wfr i t).1 ht)
      · intro c
        rw [e3, h2.specials]
        simp only [saveAdded_mem hi.wfr]
      · intro c i; rw [p1, hr]
      · intro c i; rw [p2, hr]
  · unfold loadAdded addTokens at h
    rw [h1] at h
    simp at h

theorem recache_ok_iff {norm : Norm} : ∀ (l : List (Nat × AddedToken)) (c : AMap Nat Str),
    (recache norm l c).2 = true ↔ ∀ p ∈ l, normalForm norm p.2 ≠ none
  | [], c => by simp [recache]
  | (i, t) :: l, c => by
    rw [recache]
    cases hn : normalForm norm t with
    | none => simp [hn]
    | some form =>
      cases form with
      | none => simp only; rw [recache_ok_iff l c]; simp [hn]
      | some s => simp only; rw [recache_ok_iff l _]; simp [hn]

theorem recache_get {norm : Norm} : ∀ (l : List (Nat × AddedToken)) (c : AMap Nat Str), (l.map (·.1)).Nodup →
    (∀ i t, (i, t) ∈ l → c.get i = none) → (recache norm l c).2 = true → ∀ i t, (i, t) ∈ l →
    normalForm norm t = some ((recache norm l c).1.get i)
  | [], _, _, _, _, _, _, h => by cases h
  | (j, u) :: l, c, hnd, hc, hr, i, t, hm => by
    rw [List.map_cons, List.nodup_cons] at hnd
    have hj : ∀ v, (j, v) ∉ l := fun v hv => hnd.1 (List.mem_map.2 ⟨(j, v), hv, rfl⟩)
    have hc0 : c.get j = none := hc j u List.mem_cons_self
    rw [recache] at hr ⊢
    cases hf : normalForm norm u with
    | none => rw [hf] at hr; cases hr
    | some form =>
      rw [hf] at hr
      cases form with
      | none =>
        simp only at hr ⊢
        rcases List.mem_cons.1 hm with e | e
        · cases e
          rw [recache_other l c j hj, hc0]; exact hf
        · exact recache_get l c hnd.2 (fun i t h => hc i t (List.mem_cons_of_mem _ h)) hr i t e
      | some s =>
        simp only at hr ⊢
        rcases List.mem_cons.1 hm with e | e
        · cases e
          rw [recache_other l _ j hj, AMap.get_insert, if_pos rfl]; exact hf
        · refine recache_get l _ hnd.2 (fun i t h => ?_) hr i t e
          have : j ≠ i := fun e => hj t (e ▸ h)
          rw [AMap.get_insert, if_neg this]
          exact hc i t (List.mem_cons_of_mem _ h)

theorem refresh_ok_perm {build : List (Str × Nat) → Bool} (hb : ∀ l l' : List (Str × Nat), l.Perm l' → build l = build l')
    {av av' : AddedVocab} (hp : av.rmap.Perm av'.rmap) (hc : ∀ i t, (i, t) ∈ av.rmap → av.cache.get i = av'.cache.get i) :
    (av.refresh build).2 = (av'.refresh build).2 := by
  have p1 : ((av.rmap.filter fun p => !p.2.normalized).map fun p => (p.2.content, p.1)).Perm
      ((av'.rmap.filter fun p => !p.2.normalized).map fun p => (p.2.content, p.1)) := (hp.filter _).map _
  have p2 : ((av.rmap.filter fun p => p.2.normalized).map fun p => ((av.cache.get p.1).getD p.2.content, p.1)).Perm
      ((av'.rmap.filter fun p => p.2.normalized).map fun p => ((av'.cache.get p.1).getD p.2.content, p.1)) := by
    have : ((av.rmap.filter fun p => p.2.normalized).map fun p => ((av.cache.get p.1).getD p.2.content, p.1))
        = ((av.rmap.filter fun p => p.2.normalized).map fun p => ((av'.cache.get p.1).getD p.2.content, p.1)) := by
      apply List.map_congr_left
      rintro ⟨i, t⟩ hm
      simp only
      rw [hc i t (List.mem_filter.1 hm).1]
    rw [this]
    exact (hp.filter _).map _
  unfold refresh
  simp only
  rw [← hb _ _ p1, ← hb _ _ p2, ← p1.isEmpty_eq, ← p2.isEmpty_eq]
  split
  · split <;> rfl
  · rfl

theorem nodup_of_keys {α : Type} {l : List (Nat × α)} (h : (l.map (·.1)).Nodup) : l.Nodup :=
  (List.pairwise_map.1 h).imp fun h e => h (by rw [e])

/-- **C39.** Loading succeeds exactly if the normal forms of the added tokens can be computed again in the state that was
saved, provided that the order of the patterns does not matter for building an automaton. -/
theorem C39_added_loads {m : ModelView} (hm : m.Ok) {build : List (Str × Nat) → Bool}
    (hb : ∀ l l' : List (Str × Nat), l.Perm l' → build l = build l') (ops : List Op) (norm : Norm)
    {av : AddedVocab} (hav : after build m empty ops = av) :
    (∃ av', loadAdded build m norm (saveAdded av) = some av') ↔ (av.refreshNormalized build norm).2 = true := by
  have hi : Inv m av := hav ▸ (after_inv hm build ops (inv_empty m)).1
  have hn : NoHoles m av := hav ▸ after_noHoles hm build ops (inv_empty m)
    (fun i t hi => by simp [empty, AMap.get] at hi)
  have hmem : ∀ p : Nat × AddedToken, p ∈ saveAdded av ↔ p ∈ av.rmap := fun p => (sortBy_perm _ _).mem_iff
  unfold loadAdded addTokens refreshNormalized
  rcases reload_loop (norm := norm) hm hi hn (saveAdded_mem hi.wfr) (saveAdded_sorted hi.wfr) (saveAdded av) [] empty
    (empty.nextId m) 0 rfl (again_empty m norm) with ⟨r, n', h1, h2, h3⟩ | ⟨⟨p, hp, hpn⟩, r, h1⟩
  · have hr : (recache norm av.rmap []).2 = true := (recache_ok_iff _ _).2 fun p hp => h3 p ((hmem p).2 hp)
    rw [h1]
    simp only [hr, if_true]
    have hperm : r.rmap.Perm av.rmap := by
      refine (List.perm_ext_iff_of_nodup ?_ ?_).2 ?_
      · exact nodup_of_keys h2.inv.wfr
      · exact nodup_of_keys hi.wfr
      · rintro ⟨i, t⟩
        rw [← hmem, ← h2.mem]
        exact ⟨AMap.get_eq_some_of_mem h2.inv.wfr, AMap.mem_of_get_eq_some⟩
    have := refresh_ok_perm hb (av := r) (av' := { av with cache := (recache norm av.rmap []).1 }) hperm (by
      intro i t hit
      have hit' := hperm.subset hit
      have e1 := h2.cache i t ((hmem _).2 hit')
      have e2 := recache_get av.rmap [] hi.wfr (fun _ _ _ => rfl) hr i t hit'
      rw [e1] at e2
      exact Option.some.inj e2)
    rw [← this]
    cases (r.refresh build).2 <;> simp
  · have hr : (recache norm av.rmap []).2 = false := by
      cases hx : (recache norm av.rmap []).2 with
      | false => rfl
      | true => exact absurd hpn ((recache_ok_iff _ _).1 hx p ((hmem p).1 hp))
    rw [h1]
    simp [hr]

/-! Examples: a history with a token of the model, a token added again with other properties, and a normalizer. -/

def sampleOps : List Op :=
  [.add none [.ofStr "<s>".toList true, .ofStr ['b'] false], .add (some upX) [.ofStr "<x>".toList false],
   .add none [.ofStr "<s>".toList false], .renormalize (some upX)]

example : saveAdded (after (fun _ => true) sampleModel empty sampleOps) =
    [(1, .ofStr ['b'] false), (3, .ofStr "<s>".toList false), (4, .ofStr "<x>".toList false)] := by decide +kernel

example : ∃ av', loadAdded (fun _ => true) sampleModel (some upX)
    (saveAdded (after (fun _ => true) sampleModel empty sampleOps)) = some av' :=
  (C39_added_loads sampleModel_ok (fun _ _ _ => rfl) sampleOps (some upX) rfl).2 (by decide +kernel)

example : (loadAdded (fun _ => true) sampleModel (some upX)
    (saveAdded (after (fun _ => true) sampleModel empty sampleOps))).map (fun av => (av.map, av.cache, av.specials)) =
    some ([("<x>".toList, 4), ("<s>".toList, 3), (['b'], 1)], [(4, "<X>".toList)], []) := by decide +kernel

/-- Finding: the ids in the file are not used. If the model has been replaced by one of another size after the tokens were
added, they get other ids when the tokenizer is loaded. -/
theorem C39_ids_recomputed : ∃ m m' : ModelView, m.Ok ∧ m'.Ok ∧
    (after (fun _ => true) m empty [.add none [.ofStr "<s>".toList true]]).map.get "<s>".toList = some 0 ∧
    (loadAdded (fun _ => true) m' none
      (saveAdded (after (fun _ => true) m empty [.add none [.ofStr "<s>".toList true]]))).bind
        (fun av => av.map.get "<s>".toList) = some 3 :=
  ⟨⟨fun _ => none, fun _ => none, 0⟩, sampleModel,
    ⟨(fun _ _ h => by cases h), (fun _ _ => ⟨(fun h => by cases h), (fun h => by cases h)⟩)⟩, sampleModel_ok,
    by decide +kernel, by decide +kernel⟩

/-- Finding: whether special tokens are to be searched for in the text is not saved. -/
theorem C39_encode_special_lost : ∃ ops : List Op,
    (after (fun _ => true) sampleModel empty ops).encodeSpecial = true ∧
    (loadAdded (fun _ => true) sampleModel none (saveAdded (after (fun _ => true) sampleModel empty ops))).map
      (·.encodeSpecial) = some false :=
  ⟨[.add none [.ofStr "<s>".toList true], .setEncodeSpecial true], by decide +kernel, by decide +kernel⟩

end Tok.Save
