import Verif.Save.Behave

/-!
# C66: saving what was loaded gives the same file
-/

namespace Tok.Save
open Json

theorem sorted_ext {α : Type} {R : α → α → Prop} (hR : ∀ a b, R a b → ¬ R b a) : ∀ {l l' : List α}, l.Pairwise R →
    l'.Pairwise R → (∀ a, a ∈ l' ↔ a ∈ l) → l' = l
  | [], [], _, _, _ => rfl
  | [], b :: l', _, _, h => absurd ((h b).1 (by simp)) (by simp)
  | a :: l, [], _, _, h => absurd ((h a).2 (by simp)) (by simp)
  | a :: l, b :: l', h1, h2, h => by
    rw [List.pairwise_cons] at h1 h2
    have hab : b = a := by
      rcases List.mem_cons.1 ((h a).2 (by simp)) with e | e
      · exact e.symm
      · rcases List.mem_cons.1 ((h b).1 (by simp)) with e' | e'
        · exact e'
        · exact absurd (h2.1 a e) (hR _ _ (h1.1 b e'))
    subst hab
    have hn : b ∉ l := fun hb => by have := h1.1 b hb; exact hR _ _ this this
    have hn' : b ∉ l' := fun hb => by have := h2.1 b hb; exact hR _ _ this this
    rw [sorted_ext hR h1.2 h2.2 fun x => ?_]
    constructor
    · intro hx
      rcases List.mem_cons.1 ((h x).1 (List.mem_cons_of_mem _ hx)) with e | e
      · subst e; exact absurd hx hn'
      · exact e
    · intro hx
      rcases List.mem_cons.1 ((h x).2 (List.mem_cons_of_mem _ hx)) with e | e
      · subst e; exact absurd hx hn
      · exact e

/-! ## Vocabularies -/

theorem ordered_sorted (vr : AMap Nat Str) : (ordered vr).Pairwise fun a b => a.2 < b.2 := by
  unfold ordered
  split
  · refine List.pairwise_filterMap.2 (List.pairwise_lt_range.imp ?_)
    intro i j hij a ha b hb
    cases hx : vr.get i with
    | none => rw [hx] at ha; cases ha
    | some t =>
      cases hy : vr.get j with
      | none => rw [hy] at hb; cases hb
      | some u => rw [hx] at ha; rw [hy] at hb; cases ha; cases hb; exact hij
  · exact .nil

theorem ordered_congr {vr vr' : AMap Nat Str} (h : ∀ i, vr'.get i = vr.get i) : ordered vr' = ordered vr :=
  sorted_ext (R := fun a b => a.2 < b.2) (fun _ _ h h' => Nat.lt_asymm h h') (ordered_sorted vr) (ordered_sorted vr')
    fun p => by rw [show p = (p.1, p.2) from rfl, mem_ordered, mem_ordered, h]

theorem saveAdded_congr {av av' : AddedVocab} (hw : av.rmap.WF) (hw' : av'.rmap.WF)
    (h : ∀ i, av'.rmap.get i = av.rmap.get i) : saveAdded av' = saveAdded av :=
  sorted_ext (R := fun a b => a.1 < b.1) (fun _ _ h h' => Nat.lt_asymm h h') (saveAdded_sorted hw) (saveAdded_sorted hw')
    fun p => by rw [show p = (p.1, p.2) from rfl, ← saveAdded_mem hw', ← saveAdded_mem hw, h]

/-! ## Merges -/

theorem Built.merges_wf {b : Bpe.Bpe} (h : Bpe.Built b) : b.merges.WF := by
  obtain ⟨⟨merges, cfg, hb, _⟩, _, _⟩ := h
  obtain ⟨hbm, _⟩ := Bpe.build_merges hb
  obtain ⟨rs, _, hmm, _⟩ := Bpe.buildMerges_ok.1 hbm
  rw [hmm]; exact AMap.WF.nil.extend _

/-- No two merges have the same rank. -/
theorem Built.ranks {b : Bpe.Bpe} (h : Bpe.Built b) {x y r z x' y' z'} (h1 : Bpe.mergeFn b.merges x y = some (r, z))
    (h2 : Bpe.mergeFn b.merges x' y' = some (r, z')) : x = x' ∧ y = y' := by
  obtain ⟨⟨merges, cfg, hb, _⟩, _, _⟩ := h
  have hget := Bpe.C20_build_get hb
  obtain ⟨⟨ab, hab, a1, a2, _⟩, _⟩ := (hget _ _ _ _).1 h1
  obtain ⟨⟨ab', hab', c1, c2, _⟩, _⟩ := (hget _ _ _ _).1 h2
  rw [hab] at hab'; cases hab'
  rw [a1] at c1; rw [a2] at c2
  exact ⟨Option.some.inj c1, Option.some.inj c2⟩

/-- The pairs of a model in the order of their ranks. -/
def pairs (b : Bpe.Bpe) : List (Nat × Nat) := (sortBy (fun m => m.2.1) b.merges).map (·.1)

theorem mergeNames_pairs (b : Bpe.Bpe) : mergeNames b =
    (pairs b).mapM fun k => (b.vocabR.get k.1).bind fun x => (b.vocabR.get k.2).map fun y => (x, y) := by
  unfold mergeNames pairs
  rw [List.mapM_map]
  rfl

/-- The rank of a pair. -/
def rank (b : Bpe.Bpe) (k : Nat × Nat) : Nat := ((Bpe.mergeFn b.merges k.1 k.2).map (·.1)).getD 0

theorem mem_pairs {b : Bpe.Bpe} (hw : b.merges.WF) (k : Nat × Nat) :
    k ∈ pairs b ↔ (Bpe.mergeFn b.merges k.1 k.2).isSome := by
  unfold pairs Bpe.mergeFn
  rw [List.mem_map]
  constructor
  · rintro ⟨⟨k', v⟩, hm, rfl⟩
    rw [AMap.get_eq_some_of_mem hw ((sortBy_perm _ _).mem_iff.1 hm)]; rfl
  · intro h
    obtain ⟨v, hv⟩ := Option.isSome_iff_exists.1 h
    exact ⟨(k, v), (sortBy_perm _ _).mem_iff.2 (AMap.mem_of_get_eq_some hv), rfl⟩

theorem pairs_sorted {b : Bpe.Bpe} (h : Bpe.Built b) : (pairs b).Pairwise fun k k' => rank b k < rank b k' := by
  have hw := Built.merges_wf h
  unfold pairs
  rw [List.pairwise_map]
  have hk : (sortBy (fun m => m.2.1) b.merges).Pairwise fun m m' => m.1 ≠ m'.1 := by
    have : ((sortBy (fun m => m.2.1) b.merges).map (·.1)).Nodup := ((sortBy_perm _ _).map _).nodup_iff.2 hw
    exact List.pairwise_map.1 this
  refine ((sortBy_sorted (fun m => m.2.1) b.merges).and hk).imp_of_mem ?_
  rintro ⟨⟨x, y⟩, r, z⟩ ⟨⟨x', y'⟩, r', z'⟩ ha hb ⟨h1, h2⟩
  have e1 : Bpe.mergeFn b.merges x y = some (r, z) := AMap.get_eq_some_of_mem hw ((sortBy_perm _ _).mem_iff.1 ha)
  have e2 : Bpe.mergeFn b.merges x' y' = some (r', z') := AMap.get_eq_some_of_mem hw ((sortBy_perm _ _).mem_iff.1 hb)
  simp only [rank, e1, e2, Option.map_some, Option.getD_some]
  simp only at h1 h2
  rcases Nat.lt_or_eq_of_le h1 with h1 | h1
  · exact h1
  · subst h1
    obtain ⟨rfl, rfl⟩ := Built.ranks h e1 e2
    exact absurd rfl h2

theorem pairs_congr {b b' : Bpe.Bpe} (h : Bpe.Built b) (h' : Bpe.Built b')
    (hs : SameMerges (Bpe.mergeFn b.merges) (Bpe.mergeFn b'.merges)) : pairs b' = pairs b := by
  have hmem : ∀ k, k ∈ pairs b' ↔ k ∈ pairs b := by
    intro k
    rw [mem_pairs (Built.merges_wf h'), mem_pairs (Built.merges_wf h)]
    have := congrArg Option.isSome (hs.1 k.1 k.2)
    simpa using this
  refine sorted_ext (R := fun k k' => rank b k < rank b k') (fun _ _ a b => Nat.lt_asymm a b) (pairs_sorted h) ?_ hmem
  refine (pairs_sorted h').imp_of_mem ?_
  rintro ⟨x, y⟩ ⟨x', y'⟩ ha hb hlt
  obtain ⟨⟨r', z'⟩, e1⟩ := Option.isSome_iff_exists.1 ((mem_pairs (Built.merges_wf h') _).1 ha)
  obtain ⟨⟨s', u'⟩, e2⟩ := Option.isSome_iff_exists.1 ((mem_pairs (Built.merges_wf h') _).1 hb)
  obtain ⟨⟨r, z⟩, e3⟩ := Option.isSome_iff_exists.1 ((mem_pairs (Built.merges_wf h) _).1 ((hmem _).1 ha))
  obtain ⟨⟨s, u⟩, e4⟩ := Option.isSome_iff_exists.1 ((mem_pairs (Built.merges_wf h) _).1 ((hmem _).1 hb))
  simp only at e1 e2 e3 e4
  simp only [rank, e1, e2, e3, e4, Option.map_some, Option.getD_some] at hlt ⊢
  exact (hs.2 _ _ _ _ _ _ _ _ _ _ _ _ e3 e1 e4 e2).2 hlt

theorem saveBpe_congr {b b' : Bpe.Bpe} (h : Bpe.Built b) (h' : Bpe.Built b') (hr : ∀ i, b'.vocabR.get i = b.vocabR.get i)
    (ho : Bpe.SameOptions b b') (hm : SameMerges (Bpe.mergeFn b.merges) (Bpe.mergeFn b'.merges)) :
    saveBpe b' = saveBpe b := by
  have hn : mergeNames b' = mergeNames b := by
    rw [mergeNames_pairs, mergeNames_pairs, pairs_congr h h' hm]
    simp only [hr]
  unfold saveBpe
  rw [hn, ordered_congr hr, ho.dropout, ho.unk, ho.pre, ho.suf, ho.fuse, ho.bytes, ho.ignore]

theorem writeModel_congr {m m' : Mod} (h : m.Fits) (h' : m'.Fits) (hs : SameMod m m') : writeModel m' = writeModel m := by
  cases hs with
  | bpe hv hr ho hm ht =>
    cases h with
    | bpe hb _ _ _ =>
      cases h' with
      | bpe hb' _ _ _ => simp only [writeModel, saveBpe_congr hb hb' hr ho hm]
  | wordPiece hv hu hp hm ht =>
    cases h with
    | wordPiece hw hd _ _ =>
      cases h' with
      | wordPiece hw' _ _ _ =>
        simp only [writeModel, saveWordPiece, hu, hp, hm]
        rw [show ordered (swap _) = ordered (swap _) from ordered_congr (turned_eq hw hd hw' hv)]
  | wordLevel hv hu ht =>
    cases h with
    | wordLevel hw hd _ =>
      cases h' with
      | wordLevel hw' _ _ =>
        simp only [writeModel, saveWordLevel, hu]
        rw [show ordered (swap _) = ordered (swap _) from ordered_congr (turned_eq hw hd hw' hv)]
  | unigram u => rfl

/-! ## Templates -/

theorem strLe_total (a b : Str) : strLe a b = true ∨ strLe b a = true := by
  simpa [strLe] using List.le_total a b

theorem strLe_trans {a b c : Str} (h : strLe a b = true) (h' : strLe b c = true) : strLe a c = true := by
  simp only [strLe, decide_eq_true_eq] at *
  exact List.le_trans h h'

theorem strLe_antisymm {a b : Str} (h : strLe a b = true) (h' : strLe b a = true) : a = b := by
  simp only [strLe, decide_eq_true_eq] at *
  exact List.le_antisymm h h'

theorem insertByKey_sorted {α : Type} (p : Str × α) : ∀ {l : List (Str × α)}, l.Pairwise (fun a b => strLe a.1 b.1 = true) →
    (insertByKey p l).Pairwise fun a b => strLe a.1 b.1 = true
  | [], _ => by simp [insertByKey]
  | q :: l, h => by
    unfold insertByKey
    rw [List.pairwise_cons] at h
    split
    · rename_i hp
      refine List.pairwise_cons.2 ⟨fun x hx => ?_, List.pairwise_cons.2 h⟩
      rcases List.mem_cons.1 hx with rfl | hx
      · exact hp
      · exact strLe_trans hp (h.1 x hx)
    · rename_i hp
      refine List.pairwise_cons.2 ⟨fun x hx => ?_, insertByKey_sorted p h.2⟩
      rcases List.mem_cons.1 ((insertByKey_perm p l).mem_iff.1 hx) with rfl | hx
      · exact (strLe_total _ _).resolve_left hp
      · exact h.1 x hx

theorem byKey_sorted {α : Type} : ∀ l : List (Str × α), (byKey l).Pairwise fun a b => strLe a.1 b.1 = true
  | [] => .nil
  | p :: l => insertByKey_sorted p (byKey_sorted l)

theorem byKey_strict {α : Type} {l : AMap Str α} (hw : l.WF) :
    (byKey l).Pairwise fun a b => strLe a.1 b.1 = true ∧ a.1 ≠ b.1 := by
  have : ((byKey l).map (·.1)).Nodup := ((byKey_perm l).map _).nodup_iff.2 hw
  exact (byKey_sorted l).and (List.pairwise_map.1 this)

theorem byKey_congr {α : Type} {l l' : AMap Str α} (hw : l.WF) (hw' : l'.WF) (h : ∀ k, l'.get k = l.get k) :
    byKey l' = byKey l := by
  refine sorted_ext (R := fun a b => strLe a.1 b.1 = true ∧ a.1 ≠ b.1) (fun a b h h' => h.2 (strLe_antisymm h.1 h'.1))
    (byKey_strict hw) (byKey_strict hw') fun p => ?_
  rw [(byKey_perm l).mem_iff, (byKey_perm l').mem_iff]
  constructor
  · intro hp; exact AMap.mem_of_get_eq_some ((h p.1).symm.trans (AMap.get_eq_some_of_mem hw' hp))
  · intro hp; exact AMap.mem_of_get_eq_some ((h p.1).trans (AMap.get_eq_some_of_mem hw hp))

mutual
theorem writeProc_congr : ∀ {c c' : ProcCfg}, SameProc c c' → c.Fits → writeProc c' = writeProc c
  | _, _, .roberta _ _ _ _, _ => rfl
  | _, _, .bert _ _, _ => rfl
  | _, _, .byteLevel _, _ => rfl
  | _, _, @SameProc.template t t' h, hf => by
    have hf : TemplateFits t := hf
    rw [writeProc, writeProc, writeTemplate, writeTemplate, h.single, h.pair, byKey_congr hf.map h.map h.specials]
  | _, _, @SameProc.sequence _ _ h, hf => by rw [writeProc, writeProc, writeProcs_congr h hf]

theorem writeProcs_congr : ∀ {l l' : List ProcCfg}, SameProcs l l' → ProcCfg.AllFit l → writeProcs l' = writeProcs l
  | _, _, .nil, _ => rfl
  | _, _, .cons h hl, hf => by rw [writeProcs, writeProcs, writeProc_congr h hf.1, writeProcs_congr hl hf.2]
end

theorem writeProcOpt_congr {o o' : Option ProcCfg} (h : SameProcOpt o o') (hf : ∀ n, o = some n → n.Fits) :
    ofOpt writeProc o' = ofOpt writeProc o := by
  cases h with
  | none => rfl
  | some hs => exact writeProc_congr hs (hf _ rfl)

theorem loadAdded_wfr {build : List (Str × Nat) → Bool} {m : ModelView} (hok : m.Ok) {norm : AddedVocab.Norm}
    {l : List (Nat × AddedToken)} {av : AddedVocab} (h : loadAdded build m norm l = some av) : av.rmap.WF := by
  have hw := (AddedVocab.after_inv hok build [.add norm (l.map (·.2))] (AddedVocab.inv_empty m)).1.wfr
  unfold loadAdded at h
  cases hx : AddedVocab.empty.addTokens build m norm (l.map (·.2)) with
  | mk r o =>
    rw [hx] at h
    cases o with
    | none => cases h
    | some k =>
      cases h
      simpa [AddedVocab.after, AddedVocab.apply, hx] using hw

/-- **C66.** What was loaded is saved as the very file it was loaded from, whatever the history of the tokenizer that had
been saved first: saving and loading once more changes nothing. -/
theorem C66_same_file {e : Env} (skip : Bool) {build : List (Str × Nat) → Bool} {norm : Option NormCfg → AddedVocab.Norm}
    (hb : ∀ l l' : List (Str × Nat), l.Perm l' → build l = build l') {c : Conf} (h : c.Fits e) (hok : c.model.view.Ok)
    {ops : List AddedVocab.Op} (hav : AddedVocab.after build c.model.view .empty ops = c.added)
    (hr : (c.added.refreshNormalized build (norm c.normalizer)).2 = true) :
    ∃ j c', save c = some j ∧ load e skip build norm j = .ok c' ∧ save c' = some j := by
  obtain ⟨j, c', h1, h2, h3, h4⟩ := C65_file skip hb h hok hav hr
  refine ⟨j, c', h1, h2, ?_⟩
  have hi : AddedVocab.Inv c.model.view c.added := hav ▸ (AddedVocab.after_inv hok build ops (AddedVocab.inv_empty _)).1
  obtain ⟨l, hl⟩ := load_added h2
  rw [h3.view] at hl
  rw [← h1, save, save, writeModel_congr h.model h4.model h3.model, saveAdded_congr hi.wfr (loadAdded_wfr hok hl) h3.added.rmap,
    h3.truncation, h3.padding, h3.normalizer, h3.preTok, h3.decoder, writeProcOpt_congr h3.proc h.proc]

end Tok.Save
