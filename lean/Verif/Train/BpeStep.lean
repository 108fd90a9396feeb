import Verif.Train.BpeInv

/-!
# One merge keeps the invariant
-/

namespace Tok.Train

section
variable {cfg : BpeCfg} {counts : List Nat} {words0 : List (List Nat)} {str : Seg → Str} {s : St} {hist : List (Seg × Seg)}

theorem getD_mem_syms {words : List (List Sym)} {i : Nat} (hi : i < words.length) : words.getD i [] ∈ words := by
  rw [List.getD_eq_getElem?_getD, List.getElem?_eq_getElem hi]; exact List.getElem_mem hi

theorem occ_getD_lt {words : List (List Sym)} {q : Pair} {i : Nat} (h : 0 < occ q (words.getD i [])) : i < words.length := by
  apply Classical.byContradiction
  intro hi
  rw [List.getD_eq_getElem?_getD, List.getElem?_eq_none (by omega)] at h
  simp [occ] at h

/-- The next state of a merge. -/
def nextSt (cfg : BpeCfg) (counts : List Nat) (s : St) (top : Entry) (q : List Entry) (tok : Str) : St :=
  let r := (s.voc.w2id.get tok).getD s.voc.id2w.length
  let st := (changesAt top.pair.1 top.pair.2 r cfg.maxLen s.words top.pos).foldl (applyChange counts) (s.pc, [])
  ⟨s.voc.add tok, mergeAt top.pair.1 top.pair.2 r cfg.maxLen s.words top.pos, st.1, pushAll st q, s.merges ++ [(top.pair, r)]⟩

theorem merge_inv (hb : Readable cfg.pre words0 str) (hI : Inv cfg counts words0 str s hist) {top : Entry} {q : List Entry}
    (hq : s.queue.Perm (top :: q)) (hpos : 0 < total top.pair s.words counts) :
    ∃ x y, s.voc.id2w[top.pair.1]? = some (str x) ∧ s.voc.id2w[top.pair.2]? = some (str y) ∧
      (let tok := str x ++ stripPre cfg.pre (str y)
       doMerge cfg counts s top q = .more (nextSt cfg counts s top q tok) ∧
       (nextSt cfg counts s top q tok).words =
         s.words.map (mergeSyms top.pair ((s.voc.w2id.get tok).getD s.voc.id2w.length)) ∧
       Inv cfg counts words0 str (nextSt cfg counts s top q tok) (hist ++ [(x, y)])) := by
  -- the chosen pair
  have htop : top ∈ s.queue := hq.symm.subset List.mem_cons_self
  have hqs : ∀ e ∈ q, e ∈ s.queue := fun e he => hq.symm.subset (List.mem_cons_of_mem _ he)
  obtain ⟨⟨x, y, hx, hy, hal⟩, hnm, _, _, hnd, hlt, hcomp⟩ := hI.qok top htop
  obtain ⟨i0, hi0, ho0⟩ := total_pos hpos
  have hw0 := getD_mem_syms hi0
  obtain ⟨hfac, hrun⟩ := hI.adjacent hb hx hy hw0 ho0
  have hnew : ∀ z, Seen words0 hist z → str z ≠ str (x ++ y) := fun z hz => hI.new_token hb hx hy hw0 ho0 hz
  have hxn := (hI.factor hx.1).1
  have hyn := (hI.factor hy.1).1
  have hcat := hb.cat x y hxn hyn hfac
  refine ⟨x, y, hx.2, hy.2, ?_⟩
  simp only
  generalize htok : str x ++ stripPre cfg.pre (str y) = tok
  rw [htok] at hcat
  have hall : top.pos.all (· < s.words.length) = true := by
    rw [List.all_eq_true]; intro i hi; simpa using hlt i hi
  have hdo : doMerge cfg counts s top q = .more (nextSt cfg counts s top q tok) := by
    unfold doMerge
    simp only [hx.2, hy.2, htok, hall, if_true]
    rfl
  -- the new id
  generalize hr : (s.voc.w2id.get tok).getD s.voc.id2w.length = r
  have hvok := add_ok hI.voc tok
  have hmono := add_mono s.voc tok
  have hget : (s.voc.add tok).id2w[r]? = some tok := by rw [← hr]; exact add_get hI.voc tok
  have hrs : (s.voc.add tok).id2w[r]? = some (str (x ++ y)) := by rw [hget, hcat]
  -- old tokens keep their ids, which differ from the new one
  have hold : ∀ {i z}, IdOf words0 str s.voc.id2w hist i z → i ≠ r := by
    rintro i z ⟨h1, h2⟩ rfl
    have := hmono _ _ h2
    rw [hrs] at this
    exact hnew z h1 (Option.some.inj this).symm
  have hrun' : ¬ ∃ z, IdOf words0 str s.voc.id2w hist r z := fun ⟨z, hz⟩ => hold hz rfl
  have hlift : ∀ {i z}, IdOf words0 str s.voc.id2w hist i z →
      IdOf words0 str (s.voc.add tok).id2w (hist ++ [(x, y)]) i z := by
    rintro i z ⟨h1, h2⟩
    refine ⟨?_, hmono _ _ h2⟩
    rcases h1 with h1 | ⟨h, hm, rfl⟩
    · exact .inl h1
    · exact .inr ⟨h, by simp [hm], rfl⟩
  have hrid : IdOf words0 str (s.voc.add tok).id2w (hist ++ [(x, y)]) r (x ++ y) := ⟨.inr ⟨(x, y), by simp, rfl⟩, hrs⟩
  have hseen : ∀ z, Seen words0 (hist ++ [(x, y)]) z → Seen words0 hist z ∨ z = x ++ y := by
    rintro z (h | ⟨h, hm, rfl⟩)
    · exact .inl (.inl h)
    · rcases List.mem_append.1 hm with hm | hm
      · exact .inl (.inr ⟨h, hm, rfl⟩)
      · rw [List.mem_singleton] at hm; subst hm; exact .inr rfl
  have hcases : ∀ {i z}, IdOf words0 str (s.voc.add tok).id2w (hist ++ [(x, y)]) i z →
      (IdOf words0 str s.voc.id2w hist i z ∧ i ≠ r) ∨ (i = r ∧ z = x ++ y) := by
    rintro i z ⟨h1, h2⟩
    rcases hseen z h1 with h1 | rfl
    · obtain ⟨j, hj⟩ := hI.has z h1
      have : i = j := hvok.inj h2 (hmono _ _ hj)
      subst this
      exact .inl ⟨⟨h1, hj⟩, hold ⟨h1, hj⟩⟩
    · exact .inr ⟨hvok.inj h2 hrs, rfl⟩
  have huniq : ∀ {i z z'}, IdOf words0 str (s.voc.add tok).id2w (hist ++ [(x, y)]) i z →
      IdOf words0 str (s.voc.add tok).id2w (hist ++ [(x, y)]) i z' → z = z' := by
    intro i z z' h h'
    rcases hcases h with ⟨h1, h2⟩ | ⟨h1, h2⟩ <;> rcases hcases h' with ⟨h3, h4⟩ | ⟨h3, h4⟩
    · exact hI.uniq hb h1 h3
    · exact absurd h3 h2
    · exact absurd h1 h4
    · rw [h2, h4]
  -- words
  have hwords : mergeAt top.pair.1 top.pair.2 r cfg.maxLen s.words top.pos = s.words.map (mergeSyms top.pair r) :=
    mergeAt_eq hcomp
  -- lengths
  generalize hokd : (fun i n => ∃ z, IdOf words0 str (s.voc.add tok).id2w (hist ++ [(x, y)]) i z ∧ n = z.length) = ok
  have okdef : ∀ i n, ok i n ↔ ∃ z, IdOf words0 str (s.voc.add tok).id2w (hist ++ [(x, y)]) i z ∧ n = z.length := by
    intro i n; rw [← hokd]
  have hok : ∀ w ∈ s.words, LenOk ok top.pair.1 top.pair.2 r w := by
    intro w hw
    refine ⟨fun a ha => ?_, fun n1 n2 h1 h2 => ?_⟩
    · obtain ⟨z, h1, h2⟩ := hI.sym_id hw ha
      exact (okdef _ _).2 ⟨z, hlift h1, h2⟩
    · obtain ⟨z1, g1, rfl⟩ := (okdef _ _).1 h1
      obtain ⟨z2, g2, rfl⟩ := (okdef _ _).1 h2
      obtain rfl := huniq g1 (hlift hx)
      obtain rfl := huniq g2 (hlift hy)
      exact (okdef _ _).2 ⟨_, hrid, by simp⟩
  -- statistics
  generalize hst : (changesAt top.pair.1 top.pair.2 r cfg.maxLen s.words top.pos).foldl (applyChange counts) (s.pc, []) = st
  have hstat : ∀ p, p ≠ top.pair → Tracked cfg.maxLen ok r p →
      pcGet st.1 p = pcGet s.pc p + total p (s.words.map (mergeSyms top.pair r)) counts - total p s.words counts := by
    intro p hp ht
    rw [← hst]
    exact stats_after (s.pc, []) hnd hlt hcomp hp ht hok
  have hpwf : PosWF st.2 := by
    rw [← hst]
    exact changes_posWF counts _ _ ⟨AMap.WF.nil, by intro q l h; cases h⟩
  have hchs : ∀ c ∈ changesAt top.pair.1 top.pair.2 r cfg.maxLen s.words top.pos,
      (∃ z, IdOf words0 str (s.voc.add tok).id2w (hist ++ [(x, y)]) c.1.1.1 z) ∧
      (∃ z, IdOf words0 str (s.voc.add tok).id2w (hist ++ [(x, y)]) c.1.1.2 z) ∧ c.2 < s.words.length ∧
      (c.1.2 > 0 → (c.1.1.1 = r ∨ c.1.1.2 = r) ∧ ∃ z1 z2,
        IdOf words0 str (s.voc.add tok).id2w (hist ++ [(x, y)]) c.1.1.1 z1 ∧
        IdOf words0 str (s.voc.add tok).id2w (hist ++ [(x, y)]) c.1.1.2 z2 ∧ Allowed cfg.maxLen (z1.length + z2.length)) := by
    intro c hc
    unfold changesAt at hc
    obtain ⟨i, hi, hc⟩ := List.mem_flatMap.1 hc
    obtain ⟨ch, hch, rfl⟩ := List.mem_map.1 hc
    obtain ⟨⟨n1, h1⟩, ⟨n2, h2⟩, h3⟩ := changes_spec top.pair.1 top.pair.2 r cfg.maxLen ok none (s.words.getD i [])
      (by simp) (hok _ (getD_mem_syms (hlt i hi))) ch hch
    obtain ⟨z1, h1, _⟩ := (okdef _ _).1 h1
    obtain ⟨z2, h2, _⟩ := (okdef _ _).1 h2
    refine ⟨⟨z1, h1⟩, ⟨z2, h2⟩, hlt i hi, fun h0 => ?_⟩
    obtain ⟨_, h4, m1, m2, h5, h6, h7⟩ := h3 h0
    obtain ⟨z3, g5, rfl⟩ := (okdef _ _).1 h5
    obtain ⟨z4, g6, rfl⟩ := (okdef _ _).1 h6
    exact ⟨h4, z3, z4, g5, g6, (allowed_iff _ _).2 (.inr h7)⟩
  have hat : ∀ p i, At st.2 p i → (p.1 = r ∨ p.2 = r) ∧ i < s.words.length ∧ ∃ z1 z2,
      IdOf words0 str (s.voc.add tok).id2w (hist ++ [(x, y)]) p.1 z1 ∧
      IdOf words0 str (s.voc.add tok).id2w (hist ++ [(x, y)]) p.2 z2 ∧ Allowed cfg.maxLen (z1.length + z2.length) := by
    intro p i h
    rw [← hst, changes_at] at h
    rcases h with ⟨c, hc, rfl, h0, rfl⟩ | ⟨l, h, _⟩
    · obtain ⟨_, _, h1, h2⟩ := hchs c hc
      obtain ⟨h3, h4⟩ := h2 h0
      exact ⟨h3, h1, h4⟩
    · cases h
  -- pairs with the new id
  have hRzero : ∀ p : Pair, p.1 = r ∨ p.2 = r → (∀ w ∈ s.words, occ p w = 0) ∧ pcGet s.pc p = 0 := by
    intro p h
    refine hI.total_unseen (h.imp (fun h => ?_) fun h => ?_) <;> rw [h] <;> exact hrun'
  have hRtrack : ∀ (p : Pair) z1 z2, (p.1 = r ∨ p.2 = r) →
      IdOf words0 str (s.voc.add tok).id2w (hist ++ [(x, y)]) p.1 z1 →
      IdOf words0 str (s.voc.add tok).id2w (hist ++ [(x, y)]) p.2 z2 → Allowed cfg.maxLen (z1.length + z2.length) →
      Tracked cfg.maxLen ok r p := by
    intro p z1 z2 hor h1 h2 h3
    refine .inr fun n1 n2 k1 k2 => ?_
    obtain ⟨z3, g1, rfl⟩ := (okdef _ _).1 k1
    obtain ⟨z4, g2, rfl⟩ := (okdef _ _).1 k2
    obtain rfl := huniq g1 h1
    obtain rfl := huniq g2 h2
    rcases (allowed_iff _ _).1 h3 with h3 | h3
    · exfalso
      have l1 := List.length_pos_iff.2 hxn
      have l2 := List.length_pos_iff.2 hyn
      have hlen : ∀ {i z}, IdOf words0 str (s.voc.add tok).id2w (hist ++ [(x, y)]) i z → 1 ≤ z.length ∧ (i = r → 2 ≤ z.length) := by
        intro i z h
        rcases hcases h with ⟨h, hi⟩ | ⟨rfl, rfl⟩
        · exact ⟨List.length_pos_iff.2 (hI.factor h.1).1, fun e => absurd e hi⟩
        · rw [List.length_append]; exact ⟨by omega, fun _ => by omega⟩
      have := hlen h1
      have := hlen h2
      rcases hor with h | h
      · have := (hlen h1).2 h; omega
      · have := (hlen h2).2 h; omega
    · exact h3
  have hptop : top.pair.1 ≠ r ∧ top.pair.2 ≠ r := ⟨hold hx, hold hy⟩
  have hRne : ∀ p : Pair, p.1 = r ∨ p.2 = r → p ≠ top.pair := by
    rintro p h rfl
    exact h.elim hptop.1 hptop.2
  -- a word with a pair containing the new id was recorded
  have hRat : ∀ (p : Pair) z1 z2, (p.1 = r ∨ p.2 = r) →
      IdOf words0 str (s.voc.add tok).id2w (hist ++ [(x, y)]) p.1 z1 →
      IdOf words0 str (s.voc.add tok).id2w (hist ++ [(x, y)]) p.2 z2 → Allowed cfg.maxLen (z1.length + z2.length) →
      ∀ i, 0 < occ p ((s.words.map (mergeSyms top.pair r)).getD i []) → At st.2 p i := by
    intro p z1 z2 hor h1 h2 h3 i hi
    have hlt' : i < s.words.length := by simpa using occ_getD_lt hi
    rw [getD_map_syms _ rfl] at hi
    have hz := (hRzero p hor).1 _ (getD_mem_syms hlt')
    have hl := merge_law (c1 := top.pair.1) (c2 := top.pair.2) (hRne p hor) (hRtrack p z1 z2 hor h1 h2 h3) none
      (s.words.getD i []) (by simp) (hok _ (getD_mem_syms hlt'))
    simp only [Option.toList_none, List.nil_append] at hl
    rw [hz] at hl
    have hs : 0 < chSum p (mergeWord top.pair.1 top.pair.2 r cfg.maxLen none (s.words.getD i [])).2 := by
      have : (0 : Int) < (occ p (mergeSyms top.pair r (s.words.getD i [])) : Nat) := by omega
      have e : mergeSyms top.pair r (s.words.getD i []) = mergeSyms (top.pair.1, top.pair.2) r (s.words.getD i []) := rfl
      rw [e] at this
      omega
    obtain ⟨c, hc, rfl, hc0⟩ := chSum_pos hs
    have hip : i ∈ top.pos := by
      refine hcomp i ?_
      apply Nat.pos_of_ne_zero
      intro h0
      rw [mergeSyms_of_occ_zero _ _ _ h0, hz] at hi
      omega
    rw [← hst, changes_at]
    refine .inl ⟨(c, i), ?_, rfl, hc0, rfl⟩
    unfold changesAt
    exact List.mem_flatMap.2 ⟨i, hip, List.mem_map.2 ⟨c, hc, rfl⟩⟩
  have hnext : nextSt cfg counts s top q tok = ⟨s.voc.add tok, s.words.map (mergeSyms top.pair r), st.1, pushAll st q,
      s.merges ++ [(top.pair, r)]⟩ := by
    unfold nextSt
    simp only [hr, hst, hwords]
  rw [hdo, hnext]
  refine ⟨rfl, rfl, ?_⟩
  -- exactness
  have hexact : ∀ p z1 z2, IdOf words0 str (s.voc.add tok).id2w (hist ++ [(x, y)]) p.1 z1 →
      IdOf words0 str (s.voc.add tok).id2w (hist ++ [(x, y)]) p.2 z2 → (∀ m ∈ s.merges ++ [(top.pair, r)], m.1 ≠ p) →
      Allowed cfg.maxLen (z1.length + z2.length) →
      pcGet st.1 p = total p (s.words.map (mergeSyms top.pair r)) counts := by
    intro p z1 z2 h1 h2 h3 h4
    have hne : p ≠ top.pair := fun e => h3 (top.pair, r) (by simp) e.symm
    by_cases hor : p.1 = r ∨ p.2 = r
    · rw [hstat p hne (hRtrack p z1 z2 hor h1 h2 h4)]
      obtain ⟨k1, k2⟩ := hRzero p hor
      rw [k2, total_zero k1]
      omega
    · have hor : p.1 ≠ r ∧ p.2 ≠ r := ⟨fun h => hor (.inl h), fun h => hor (.inr h)⟩
      rw [hstat p hne (.inl hor)]
      have k1 := (hcases h1).resolve_right fun h => hor.1 h.1
      have k2 := (hcases h2).resolve_right fun h => hor.2 h.1
      rw [hI.exact p z1 z2 k1.1 k2.1 (fun m hm => h3 m (by simp [hm])) h4]
      omega
  refine {
    voc := hvok
    len := by simp [hI.len]
    rep := ?_
    hok := ?_
    has := ?_
    keys := ?_
    exact := hexact
    gone := ?_
    mseen := ?_
    fresh := ?_
    fresh' := ?_
    qnodup := ?_
    qok := ?_
    qall := ?_ }
  · -- rep
    intro i hi
    rw [run_snoc, getD_map_syms _ rfl]
    refine Rep.merge hmono hrs (hI.rep i hi) fun z hz j hj => ?_
    have hs : Seen words0 hist z := seen_run _ (hI.getD_mem (by rw [hI.len]; exact hi)) hist z hz
    constructor
    · constructor
      · rintro rfl; exact hI.uniq hb ⟨hs, hj⟩ hx
      · rintro rfl; exact hI.voc.inj hj hx.2
    · constructor
      · rintro rfl; exact hI.uniq hb ⟨hs, hj⟩ hy
      · rintro rfl; exact hI.voc.inj hj hy.2
  · -- hist
    intro h hm
    rcases List.mem_append.1 hm with hm | hm
    · obtain ⟨h1, h2, h3, h4⟩ := hI.hok h hm
      refine ⟨h1, h2, h3, ?_⟩
      rw [run_snoc, h4, mgS_one]
    · rw [List.mem_singleton] at hm
      subst hm
      exact ⟨hxn, hyn, hfac, by rw [run_snoc, hrun, mgS_two]⟩
  · -- has
    intro z hz
    rcases hseen z hz with hz | rfl
    · obtain ⟨i, hi⟩ := hI.has z hz
      exact ⟨i, hmono _ _ hi⟩
    · exact ⟨r, hrs⟩
  · -- keys
    intro p hp
    simp only at hp
    rw [← hst, changes_isSome] at hp
    rcases hp with ⟨c, hc, rfl⟩ | hp
    · exact ⟨(hchs c hc).1, (hchs c hc).2.1⟩
    · obtain ⟨⟨z1, h1⟩, z2, h2⟩ := hI.keys p hp
      exact ⟨⟨z1, hlift h1⟩, z2, hlift h2⟩
  · -- gone
    intro m hm w hw
    obtain ⟨w0, hw0, rfl⟩ := List.mem_map.1 hw
    rcases List.mem_append.1 hm with hm | hm
    · obtain ⟨_, _, h1, h2, _⟩ := hI.mseen m hm
      have := occ_mergeSyms_le top.pair m.1 r (hold h1) (hold h2) w0
      have := hI.gone m hm w0 hw0
      omega
    · rw [List.mem_singleton] at hm
      subst hm
      exact occ_merged _ _ hptop.1 hptop.2 _
  · -- mseen
    intro m hm
    rcases List.mem_append.1 hm with hm | hm
    · obtain ⟨h, h3, h1, h2, h4⟩ := hI.mseen m hm
      exact ⟨h, by simp [h3], hlift h1, hlift h2, hlift h4⟩
    · rw [List.mem_singleton] at hm
      subst hm
      exact ⟨(x, y), by simp, hlift hx, hlift hy, hrid⟩
  · -- fresh
    refine List.pairwise_append.2 ⟨hI.fresh, by simp, fun m hm m' hm' => ?_⟩
    rw [List.mem_singleton] at hm'
    subst hm'
    obtain ⟨_, _, h1, h2, h3⟩ := hI.mseen m hm
    exact ⟨(hold h1).symm, (hold h2).symm, (hold h3).symm, fun e => hnm m hm e.symm⟩
  · -- fresh'
    intro m hm
    rcases List.mem_append.1 hm with hm | hm
    · exact hI.fresh' m hm
    · rw [List.mem_singleton] at hm
      subst hm
      exact ⟨hptop.1.symm, hptop.2.symm⟩
  · -- qnodup
    have h1 := (hq.map (·.pair)).nodup_iff.1 hI.qnodup
    rw [List.map_cons, List.nodup_cons] at h1
    refine pushAll_nodup hpwf h1.2 fun e he => ?_
    cases hg : st.2.get e.pair with
    | none => rfl
    | some l =>
      exfalso
      obtain ⟨hl, hne⟩ := hpwf.2 _ _ hg
      obtain ⟨i, hi⟩ := List.exists_mem_of_ne_nil _ hne
      obtain ⟨hor, _⟩ := hat e.pair i ⟨l, hg, hi⟩
      obtain ⟨⟨z1, z2, k1, k2, _⟩, _⟩ := hI.qok e (hqs e he)
      exact hor.elim (hold k1) (hold k2)
  · -- qok
    intro e he
    rcases (mem_pushAll hpwf q e).1 he with ⟨h1, c, h2, h3, h4⟩ | he
    · obtain ⟨hl, hne⟩ := hpwf.2 _ _ h1
      obtain ⟨i, hi⟩ := List.exists_mem_of_ne_nil _ hne
      obtain ⟨hor, _, z1, z2, k1, k2, k3⟩ := hat e.pair i ⟨_, h1, hi⟩
      refine ⟨⟨z1, z2, k1, k2, k3⟩, fun m hm => ?_, by simp only; rw [h2]; rfl, ?_, hl, fun j hj => ?_, fun j hj => ?_⟩
      · rcases List.mem_append.1 hm with hm | hm
        · rintro he
          obtain ⟨_, _, g1, g2, _⟩ := hI.mseen m hm
          rw [he] at g1 g2
          exact hor.elim (hold g1) (hold g2)
        · rw [List.mem_singleton] at hm
          subst hm
          exact fun he => hRne _ hor he.symm
      · simp only [pcGet, h2, Option.getD_some, h4]; omega
      · simp only [List.length_map]
        exact (hat e.pair j ⟨_, h1, hj⟩).2.1
      · obtain ⟨l, g1, g2⟩ := hRat e.pair z1 z2 hor k1 k2 k3 j hj
        rw [h1] at g1
        cases g1
        exact g2
    · obtain ⟨⟨z1, z2, k1, k2, k3⟩, g1, g2, g3, g4, g5, g6⟩ := hI.qok e (hqs e he)
      have hne : top.pair ≠ e.pair := by
        have h1 := (hq.map (·.pair)).nodup_iff.1 hI.qnodup
        rw [List.map_cons, List.nodup_cons] at h1
        exact fun h => h1.1 (h ▸ List.mem_map.2 ⟨e, he, rfl⟩)
      have hm : ∀ m ∈ s.merges ++ [(top.pair, r)], m.1 ≠ e.pair := by
        intro m hm
        rcases List.mem_append.1 hm with hm | hm
        · exact g1 m hm
        · rw [List.mem_singleton] at hm; subst hm; exact hne
      refine ⟨⟨z1, z2, hlift k1, hlift k2, k3⟩, hm, ?_, ?_, g4, by simpa using g5, fun i hi => ?_⟩
      · simp only
        rw [← hst, changes_isSome]
        exact .inr g2
      · have e1 := hexact e.pair z1 z2 (hlift k1) (hlift k2) hm k3
        have e2 := hI.exact e.pair z1 z2 k1 k2 g1 k3
        have e3 := total_mono (f := mergeSyms top.pair r) (occ_mergeSyms_le top.pair e.pair r (hold k1) (hold k2)) s.words counts
        simp only
        omega
      · refine g6 i ?_
        simp only [getD_map_syms _ (show mergeSyms top.pair r [] = [] from rfl)] at hi
        have := occ_mergeSyms_le top.pair e.pair r (hold k1) (hold k2) (s.words.getD i [])
        omega
  · -- qall
    intro p z1 z2 h1 h2 h3 h4
    simp only at h4 ⊢
    by_cases hor : p.1 = r ∨ p.2 = r
    · obtain ⟨i, _, hi⟩ := total_pos h4
      obtain ⟨l, hl, _⟩ := hRat p z1 z2 hor h1 h2 h3 i hi
      have hm : ∀ m ∈ s.merges ++ [(top.pair, r)], m.1 ≠ p := by
        intro m hm he
        rcases List.mem_append.1 hm with hm | hm
        · obtain ⟨_, _, g1, g2, _⟩ := hI.mseen m hm
          rw [he] at g1 g2
          exact hor.elim (hold g1) (hold g2)
        · rw [List.mem_singleton] at hm
          subst hm
          exact hRne _ hor he.symm
      have hex := hexact p z1 z2 h1 h2 hm h3
      have hc : ∃ c, st.1.get p = some c ∧ 0 < c := by
        unfold pcGet at hex
        cases hc : st.1.get p with
        | none => rw [hc] at hex; simp at hex; omega
        | some c => rw [hc] at hex; simp at hex; exact ⟨c, rfl, by omega⟩
      obtain ⟨c, hc, hc0⟩ := hc
      exact ⟨⟨p, c.toNat, l⟩, (mem_pushAll hpwf q _).2 (.inl ⟨hl, c, hc, hc0, rfl⟩), rfl⟩
    · have hor : p.1 ≠ r ∧ p.2 ≠ r := ⟨fun h => hor (.inl h), fun h => hor (.inr h)⟩
      have k1 := (hcases h1).resolve_right fun h => hor.1 h.1
      have k2 := (hcases h2).resolve_right fun h => hor.2 h.1
      have := total_mono (f := mergeSyms top.pair r) (occ_mergeSyms_le top.pair p r hor.1 hor.2) s.words counts
      obtain ⟨e, he, rfl⟩ := hI.qall p z1 z2 k1.1 k2.1 h3 (by omega)
      refine ⟨e, (mem_pushAll hpwf q e).2 (.inr ?_), rfl⟩
      rcases List.mem_cons.1 (hq.subset he) with rfl | he
      · exfalso
        have : total e.pair (s.words.map (mergeSyms e.pair r)) counts = 0 := total_zero fun w hw => by
          obtain ⟨w0, _, rfl⟩ := List.mem_map.1 hw
          exact occ_merged _ _ hptop.1 hptop.2 _
        omega
      · exact he

end

end Tok.Train
