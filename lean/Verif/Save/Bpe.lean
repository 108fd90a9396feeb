import Verif.Save.Vocab
import Verif.Bpe.Tokenize

/-!
# C39: a BPE model saved and reloaded
-/

namespace Tok.Bpe

/-! ## Only the order of the ranks matters -/

/-- The entry with another rank. -/
def Merge.rerank (g : Nat → Nat) (x : Merge) : Merge := { x with rank := g x.rank }

/-- Strictly increasing. -/
def Increasing (g : Nat → Nat) : Prop := ∀ i j, i < j → g i < g j

theorem Increasing.lt_iff {g : Nat → Nat} (h : Increasing g) {i j : Nat} : g i < g j ↔ i < j := by
  constructor
  · intro hg
    rcases Nat.lt_trichotomy i j with h1 | h1 | h1
    · exact h1
    · subst h1; omega
    · have := h j i h1; omega
  · exact h i j

theorem Increasing.eq_iff {g : Nat → Nat} (h : Increasing g) {i j : Nat} : g i = g j ↔ i = j := by
  constructor
  · intro hg
    rcases Nat.lt_trichotomy i j with h1 | h1 | h1
    · have := h i j h1; omega
    · exact h1
    · have := h j i h1; omega
  · exact fun e => e ▸ rfl

variable {g : Nat → Nat} {m m' : MergeFn}

theorem rerank_le (hg : Increasing g) (a b : Merge) : (a.rerank g).le (b.rerank g) = a.le b := by
  unfold Merge.le Merge.rerank
  simp only [hg.lt_iff]
  congr 2
  rw [Bool.eq_iff_iff, beq_iff_eq, beq_iff_eq, hg.eq_iff]

theorem popMin_rerank (hg : Increasing g) : ∀ q : List Merge,
    popMin (q.map (Merge.rerank g)) = (popMin q).map fun r => (r.1.rerank g, r.2.map (Merge.rerank g))
  | [] => rfl
  | x :: q => by
    rw [List.map_cons, popMin, popMin, popMin_rerank hg q]
    cases popMin q with
    | none => rfl
    | some r =>
      obtain ⟨y, ys⟩ := r
      simp only [Option.map_some, rerank_le hg]
      split <;> rfl

/-- The same merges with other ranks. -/
def Reranked (g : Nat → Nat) (m m' : MergeFn) : Prop := ∀ a b, m a b = (m' a b).map fun r => (g r.1, r.2)

theorem initQueue_rerank (h : Reranked g m m') : ∀ (w : List Symbol) (k : Nat),
    initQueue m k w = (initQueue m' k w).map (Merge.rerank g)
  | [], _ => rfl
  | [_], _ => rfl
  | a :: b :: rest, k => by
    rw [initQueue, initQueue, h a.c b.c, initQueue_rerank h (b :: rest) (k + 1)]
    cases m' a.c b.c <;> rfl

theorem pushFor_rerank (h : Reranked g m m') (pos c1 c2 : Nat) :
    pushFor m pos c1 c2 = (pushFor m' pos c1 c2).map (Merge.rerank g) := by
  unfold pushFor
  rw [h c1 c2]
  cases m' c1 c2 <;> rfl

theorem pushesAt_rerank (h : Reranked g m m') (syms : List Symbol) (pos : Nat) :
    pushesAt m syms pos = (pushesAt m' syms pos).map (List.map (Merge.rerank g)) := by
  unfold pushesAt
  cases syms[pos]? with
  | none => rfl
  | some cur =>
    simp only [pushFor_rerank h]
    have h1 : ∀ (o : Option Symbol) (p q : Nat → Nat) (c : Nat) (f : Symbol → List Merge),
        o.map (fun s => (f s).map (Merge.rerank g)) = (o.map f).map (List.map (Merge.rerank g)) := by
      intro o _ _ _ f; cases o <;> rfl
    have key : ∀ (c1 c2 : Prop) [Decidable c1] [Decidable c2] (a b : Option (List Merge)),
        (match (if c1 then a.map (List.map (Merge.rerank g)) else some []),
            (if c2 then b.map (List.map (Merge.rerank g)) else some []) with
          | some a, some b => some (a ++ b)
          | _, _ => none)
        = (match (if c1 then a else some []), (if c2 then b else some []) with
          | some a, some b => some (a ++ b)
          | _, _ => none).map (List.map (Merge.rerank g)) := by
      intro c1 c2 _ _ a b
      by_cases h1 : c1 <;> by_cases h2 : c2 <;> simp only [h1, h2, if_true, if_false] <;> cases a <;> cases b <;> simp
    simp only [h1 _ id id 0]
    exact key _ _ _ _

theorem applyTop_rerank (h : Reranked g m m') (syms : List Symbol) (top : Merge) :
    applyTop m syms (top.rerank g)
    = (applyTop m' syms top).map fun r => (r.1, r.2.map (Merge.rerank g)) := by
  unfold applyTop
  simp only [Merge.rerank]
  cases syms[top.pos]? with
  | none => rfl
  | some cur =>
    simp only
    split
    · rfl
    · split
      · rfl
      · split
        · rfl
        · cases syms[cur.next.toNat]? with
          | none => rfl
          | some right =>
            simp only [h cur.c right.c]
            cases m' cur.c right.c with
            | none => rfl
            | some r =>
              obtain ⟨r, id⟩ := r
              simp only [Option.map_some]
              by_cases hid : id = top.newId
              · simp only [hid, ne_eq, not_true_eq_false, if_false, pushesAt_rerank h]
                cases pushesAt m' _ _ <;> rfl
              · simp only [hid, ne_eq, not_false_eq_true, if_true]
                rfl

theorem mergeLoop_rerank (hg : Increasing g) (h : Reranked g m m') : ∀ (fuel : Nat) (coins : Nat → Bool) (s : St),
    mergeLoop m fuel coins ⟨s.syms, s.queue.map (Merge.rerank g), s.skip.map (Merge.rerank g)⟩
    = (mergeLoop m' fuel coins s).map fun s =>
      ⟨s.syms, s.queue.map (Merge.rerank g), s.skip.map (Merge.rerank g)⟩ := by
  intro fuel
  induction fuel with
  | zero =>
    intro coins s
    rw [mergeLoop, mergeLoop, popMin_rerank hg]
    cases popMin s.queue <;> rfl
  | succ fuel ih =>
    intro coins s
    rw [mergeLoop, mergeLoop, popMin_rerank hg]
    cases popMin s.queue with
    | none => rfl
    | some r =>
      obtain ⟨top, rest⟩ := r
      simp only [Option.map_some]
      split
      · have := ih (fun i => coins (i + 1)) ⟨s.syms, rest, s.skip ++ [top]⟩
        simp only [List.map_append, List.map_cons, List.map_nil] at this
        exact this
      · rw [applyTop_rerank h]
        cases applyTop m' s.syms top with
        | none => rfl
        | some r =>
          obtain ⟨syms', pushes⟩ := r
          simp only [Option.map_some]
          have := ih (fun i => coins (i + 1)) ⟨syms', rest ++ s.skip ++ pushes, []⟩
          simp only [List.map_append, List.map_nil] at this
          exact this

/-- The result of merging depends on the ranks only through their order. -/
theorem mergeAll_rerank (hg : Increasing g) (h : Reranked g m m') (coins : Nat → Bool) (w : List Symbol) :
    mergeAll m coins w = mergeAll m' coins w := by
  unfold mergeAll
  have := mergeLoop_rerank hg h (enoughFuel w.length) coins ⟨w, initQueue m' 0 w, []⟩
  rw [initQueue_rerank h]
  simp only [List.map_nil] at this
  rw [this]
  cases mergeLoop m' _ coins _ <;> rfl

/-! ## Models that look the same from outside -/

/-- The same options. -/
structure SameOptions (b b' : Bpe) : Prop where
  dropout : b'.useDropout = b.useDropout
  unk : b'.unk = b.unk
  pre : b'.pre = b.pre
  suf : b'.suf = b.suf
  fuse : b'.fuseUnk = b.fuseUnk
  bytes : b'.byteFallback = b.byteFallback
  ignore : b'.ignoreMerges = b.ignoreMerges

theorem byteIds_cong {v v' : AMap Str Nat} (hv : ∀ c, v'.get c = v.get c) : ∀ l, byteIds v' l = byteIds v l
  | [] => rfl
  | x :: xs => by rw [byteIds, byteIds, hv, byteIds_cong hv xs]

theorem initSyms_cong {b b' : Bpe} (ho : SameOptions b b') (hv : ∀ c, b'.vocab.get c = b.vocab.get c) (w : Str) :
    initSyms b' w = initSyms b w := by
  have hs : ∀ f l c, charSym b' f l c = charSym b f l c := by
    intro f l c; unfold charSym; rw [ho.pre, ho.suf]
  have hu : ∀ st n, stepUnk b' st n = stepUnk b st n := by
    intro st n; unfold stepUnk; rw [ho.unk, ho.fuse]; simp only [hv]
  have hc : ∀ st f l c, stepChar b' st f l c = stepChar b st f l c := by
    intro st f l c
    unfold stepChar
    simp only [hs, hv, hu, ho.bytes, byteIds_cong hv]
  have hl : ∀ (w : Str) (f : Bool) (st : InitSt), initLoop b' f w st = initLoop b f w st := by
    intro w
    induction w with
    | nil => intro f st; rfl
    | cons c cs ih => intro f st; rw [initLoop, initLoop, hc]; simp only [ih]
  unfold initSyms
  rw [hl]

theorem tokensFrom_cong {v v' : AMap Nat Str} (hv : ∀ i, v'.get i = v.get i) : ∀ (l : List (Nat × Nat)) (pos : Nat),
    tokensFrom v' pos l = tokensFrom v pos l
  | [], _ => rfl
  | (id, n) :: rest, pos => by rw [tokensFrom, tokensFrom, hv, tokensFrom_cong hv rest]

/-- Models with the same options and lookups, and merges that differ only in the numbers used as ranks, tokenize every
word in the same way, also with dropout. -/
theorem tokenize_cong {b b' : Bpe} (ho : SameOptions b b') (hv : ∀ c, b'.vocab.get c = b.vocab.get c)
    (hr : ∀ i, b'.vocabR.get i = b.vocabR.get i) (hg : Increasing g)
    (hm : Reranked g (mergeFn b.merges) (mergeFn b'.merges)) (coins : Nat → Bool) (w : Str) :
    tokenize b' coins w = tokenize b coins w := by
  have hw : ∀ coins w, mergeWord b' coins w = mergeWord b coins w := by
    intro coins w
    unfold mergeWord
    rw [initSyms_cong ho hv, ho.unk]
    simp only [mergeAll_rerank hg hm]
  have ht : ∀ coins w, mergeToTokens b' coins w = mergeToTokens b coins w := by
    intro coins w
    unfold mergeToTokens wordToTokens
    rw [hw]
    simp only [tokensFrom_cong hr]
  unfold tokenize
  rw [ho.dropout, ho.ignore, hv, ht, ht]

end Tok.Bpe

namespace Tok.Save
open Tok.Bpe

/-- The merges have the same results, and the same order of ranks. -/
def SameMerges (m m' : MergeFn) : Prop :=
  (∀ x y, (m' x y).map (·.2) = (m x y).map (·.2)) ∧
  ∀ x y x2 y2 r z r' z' s u s' u', m x y = some (r, z) → m' x y = some (r', z') →
    m x2 y2 = some (s, u) → m' x2 y2 = some (s', u') → (r < s ↔ r' < s')

theorem SameMerges.of_reranked {g : Nat → Nat} {m m' : MergeFn} (hg : Increasing g) (h : Reranked g m m') :
    SameMerges m m' := by
  refine ⟨fun x y => ?_, ?_⟩
  · rw [h x y]; cases m' x y <;> rfl
  · intro x y x2 y2 r z r' z' s u s' u' h1 h2 h3 h4
    rw [h x y, h2] at h1
    rw [h x2 y2, h4] at h3
    cases h1; cases h3
    exact hg.lt_iff

theorem mapM_of_get {α β : Type} {f : α → Option β} : ∀ (l : List α), (∀ a ∈ l, ∃ b, f a = some b) →
    ∃ bs, l.mapM f = some bs ∧ bs.length = l.length ∧
      ∀ (k : Nat) a, l[k]? = some a → ∃ b, bs[k]? = some b ∧ f a = some b
  | [], _ => ⟨[], rfl, rfl, fun k a h => by simp at h⟩
  | a :: l, h => by
    obtain ⟨b, hb⟩ := h a List.mem_cons_self
    obtain ⟨bs, h1, h2, h3⟩ := mapM_of_get l fun x hx => h x (List.mem_cons_of_mem _ hx)
    refine ⟨b :: bs, ?_, by simp [h2], ?_⟩
    · rw [List.mapM_cons, hb, h1]; rfl
    · intro k x hx
      cases k with
      | zero => simp at hx; subst hx; exact ⟨b, rfl, hb⟩
      | succ k => simpa using h3 k x (by simpa using hx)

/-- The rank at each position, continued beyond the end. -/
def rankAt (l : List ((Nat × Nat) × (Nat × Nat))) (k : Nat) : Nat :=
  match l[k]? with
  | some e => e.2.1
  | none => (l.map (fun e => e.2.1)).foldl max 0 + 1 + k

theorem rankAt_increasing {l : List ((Nat × Nat) × (Nat × Nat))} (h : l.Pairwise fun a b => a.2.1 < b.2.1) :
    Increasing (rankAt l) := by
  intro i j hij
  unfold rankAt
  cases hi : l[i]? with
  | none =>
    have : l[j]? = none := by
      rw [List.getElem?_eq_none_iff] at hi ⊢; omega
    rw [this]; simp only; omega
  | some e =>
    cases hj : l[j]? with
    | none =>
      have := foldl_max_le (l.map (fun e => e.2.1)) 0 e.2.1 (.inl (List.mem_map.2 ⟨e, List.mem_of_getElem? hi, rfl⟩))
      simp only; omega
    | some e' =>
      obtain ⟨hi', rfl⟩ := List.getElem?_eq_some_iff.1 hi
      obtain ⟨hj', rfl⟩ := List.getElem?_eq_some_iff.1 hj
      exact List.pairwise_iff_getElem.1 h i j hi' hj' hij

/-- **C39.** A built BPE model can be saved; what is saved can be loaded; the loaded model has the same vocabulary in both
directions, the same options, the same merges in the same order of ranks, and tokenizes every word in the same way, with
and without dropout. It can be saved and loaded again. -/
theorem C39_bpe {b : Bpe} (h : Built b) : ∃ s b', saveBpe b = some s ∧ loadBpe s = .ok b' ∧ Built b' ∧
    (∀ c, b'.vocab.get c = b.vocab.get c) ∧ (∀ i, b'.vocabR.get i = b.vocabR.get i) ∧ SameOptions b b' ∧
    SameMerges (mergeFn b.merges) (mergeFn b'.merges) ∧
    ∀ coins w, tokenize b' coins w = tokenize b coins w := by
  have hinv : Inverse b.vocab b.vocabR := C46_bpe_vocab_inverse h
  obtain ⟨⟨merges, cfg, hb, hsane⟩, hw, hd⟩ := h
  obtain ⟨hbm, hbe⟩ := build_merges hb
  have hpre : b.pre = cfg.pre := by rw [hbe]
  have hget := C20_build_get hb
  rw [← hpre] at hget hsane
  generalize hn : blen (b.pre.getD []) = n at hget
  have hmwf : b.merges.WF := by
    obtain ⟨rs, _, hmm, _⟩ := buildMerges_ok.1 hbm
    rw [hmm]; exact AMap.WF.nil.extend _
  obtain ⟨L, hL⟩ : ∃ L, sortBy (fun m : (Nat × Nat) × (Nat × Nat) => m.2.1) b.merges = L := ⟨_, rfl⟩
  have hperm : L.Perm b.merges := hL ▸ sortBy_perm _ _
  have hmem : ∀ {x y r z}, ((x, y), (r, z)) ∈ L ↔ mergeFn b.merges x y = some (r, z) := by
    intro x y r z
    unfold mergeFn
    exact ⟨fun hx => AMap.get_eq_some_of_mem hmwf (hperm.subset hx),
      fun hx => hperm.symm.subset (AMap.mem_of_get_eq_some hx)⟩
  have resolve_unique : ∀ {ab x y z x' y' z'}, Resolves b.vocab n ab x y z →
      Resolves b.vocab n ab x' y' z' → x = x' ∧ y = y' ∧ z = z' := by
    rintro ab x y z x' y' z' ⟨a1, a2, b1, a3, a4⟩ ⟨c1, c2, b2, c3, c4⟩
    rw [← dropBytes_iff] at a3 c3
    rw [a3] at c3; injection c3 with c3; subst c3
    rw [a1] at c1; rw [a2] at c2; rw [a4] at c4
    injection c1 with c1; injection c2 with c2; injection c4 with c4
    exact ⟨c1, c2, c4⟩
  have hkeys : L.Pairwise fun a b => a.1 ≠ b.1 := by
    have : (L.map (·.1)).Nodup := (hperm.map _).nodup_iff.2 hmwf
    exact List.pairwise_map.1 this
  have hrank : L.Pairwise fun a b => a.2.1 < b.2.1 := by
    have hs : L.Pairwise fun a b => a.2.1 ≤ b.2.1 := hL ▸ sortBy_sorted _ _
    refine (hs.and hkeys).imp_of_mem ?_
    rintro ⟨⟨x, y⟩, r, z⟩ ⟨⟨x', y'⟩, r', z'⟩ ha hb ⟨h1, h2⟩
    simp only at h1 h2 ⊢
    rcases Nat.lt_or_eq_of_le h1 with h1 | h1
    · exact h1
    · subst h1
      obtain ⟨⟨ab, hab, hres⟩, _⟩ := (hget _ _ _ _).1 (hmem.1 ha)
      obtain ⟨⟨ab', hab', hres'⟩, _⟩ := (hget _ _ _ _).1 (hmem.1 hb)
      rw [hab] at hab'; cases hab'
      obtain ⟨e1, e2, _⟩ := resolve_unique hres hres'
      exact absurd (by rw [e1, e2]) h2
  -- the names
  have hname : ∀ e ∈ L, ∃ ab, ab ∈ merges ∧ Resolves b.vocab n ab e.1.1 e.1.2 e.2.2 ∧
      ((b.vocabR.get e.1.1).bind fun x => (b.vocabR.get e.1.2).map fun y => (x, y)) = some ab := by
    rintro ⟨⟨x, y⟩, r, z⟩ he
    obtain ⟨⟨ab, hab, hres⟩, _⟩ := (hget _ _ _ _).1 (hmem.1 he)
    refine ⟨ab, List.mem_of_getElem? hab, hres, ?_⟩
    simp only
    rw [(hinv _ _).1 hres.1, (hinv _ _).1 hres.2.1]; rfl
  obtain ⟨ns, hns, hnl, hnk⟩ := mapM_of_get L (fun e he => by
    obtain ⟨ab, _, _, h3⟩ := hname e he; exact ⟨ab, h3⟩)
  have hmn : mergeNames b = some ns := by unfold mergeNames; rw [hL]; exact hns
  -- what each name resolves to
  have hat : ∀ (k : Nat) ab, ns[k]? = some ab → ∃ x y r z, L[k]? = some ((x, y), (r, z)) ∧ ab ∈ merges ∧
      Resolves b.vocab n ab x y z := by
    intro k ab hk
    have hlt : k < L.length := by
      rw [List.getElem?_eq_some_iff] at hk; obtain ⟨hk, _⟩ := hk; omega
    obtain ⟨ab', h1, h2⟩ := hnk k _ (List.getElem?_eq_getElem hlt)
    rw [hk] at h1; cases h1
    obtain ⟨ab2, g1, g2, g3⟩ := hname _ (List.getElem_mem hlt)
    rw [h2] at g3; cases g3
    exact ⟨_, _, _, _, List.getElem?_eq_getElem hlt, g1, g2⟩
  -- the vocabulary
  have hv : ∀ c, (readVocab (ordered b.vocabR)).get c = b.vocab.get c := (C39_vocab hinv).1
  have hvw : (readVocab (ordered b.vocabR)).WF := (C39_vocab hinv).2.2
  have hvd : IdsDistinct (readVocab (ordered b.vocabR)) := by
    intro s t i hs ht; rw [hv] at hs ht; exact hd s t i hs ht
  have hres : ∀ {ab x y z}, Resolves (readVocab (ordered b.vocabR)) n ab x y z ↔ Resolves b.vocab n ab x y z := by
    intro ab x y z; unfold Resolves; simp only [hv]
  -- the options
  obtain ⟨cfg', hcfg'⟩ : ∃ cfg' : Bpe, cfg' =
    { vocab := [], vocabR := [], merges := [], useDropout := b.useDropout,
      unk := b.unk, pre := b.pre, suf := b.suf, fuseUnk := b.fuseUnk, byteFallback := b.byteFallback,
      ignoreMerges := b.ignoreMerges } := ⟨_, rfl⟩
  have hcpre : cfg'.pre = b.pre := by rw [hcfg']
  obtain ⟨b', hb'⟩ := (C20_build_ok_iff (readVocab (ordered b.vocabR)) ns cfg').2 (by
    intro ab hab
    obtain ⟨k, hk⟩ := List.getElem?_of_mem hab
    obtain ⟨x, y, r, z, _, _, h3⟩ := hat k ab hk
    rw [hcpre, hn]
    exact ⟨x, y, z, hres.2 h3⟩)
  have hb'e := (build_merges hb').2
  have hb'v : b'.vocab = readVocab (ordered b.vocabR) := congrArg Bpe.vocab hb'e
  have hopt : SameOptions b b' := by
    have e1 := congrArg Bpe.useDropout hb'e
    have e2 := congrArg Bpe.unk hb'e
    have e3 := congrArg Bpe.pre hb'e
    have e4 := congrArg Bpe.suf hb'e
    have e5 := congrArg Bpe.fuseUnk hb'e
    have e6 := congrArg Bpe.byteFallback hb'e
    have e7 := congrArg Bpe.ignoreMerges hb'e
    rw [hcfg'] at e1 e2 e3 e4 e5 e6 e7
    exact ⟨e1, e2, e3, e4, e5, e6, e7⟩
  have hsub : ∀ ab ∈ ns, ab ∈ merges := by
    intro ab hab
    obtain ⟨k, hk⟩ := List.getElem?_of_mem hab
    obtain ⟨_, _, _, _, _, h2, _⟩ := hat k ab hk
    exact h2
  have hbuilt : Built b' := by
    refine ⟨⟨ns, cfg', by rw [hb'v]; exact hb', ?_⟩, by rw [hb'v]; exact hvw, by rw [hb'v]; exact hvd⟩
    rw [hcpre]
    exact ⟨fun ab h => hsane.right ab (hsub ab h), fun ab h => hsane.left ab (hsub ab h),
      fun ab h => hsane.noAccident ab (hsub ab h)⟩
  -- the merges
  have hget' := C20_build_get hb'
  rw [hcpre, hn] at hget'
  have hre : Reranked (rankAt L) (mergeFn b.merges) (mergeFn b'.merges) := by
    intro x y
    refine Option.ext fun rz => ?_
    obtain ⟨r, z⟩ := rz
    rw [← hmem, Option.map_eq_some_iff]
    constructor
    · intro hm
      obtain ⟨k, hk⟩ := List.getElem?_of_mem hm
      refine ⟨(k, z), ?_, by simp only [rankAt, hk]⟩
      rw [hget']
      obtain ⟨ab, h1, h2⟩ := hnk k _ hk
      obtain ⟨x', y', r', z', g1, _, g3⟩ := hat k ab h1
      rw [hk] at g1; cases g1
      refine ⟨⟨ab, h1, hres.2 g3⟩, fun k' ab' z'' hk' hr' => ?_⟩
      obtain ⟨x', y', r', z', i1, _, i3⟩ := hat k' ab' hk'
      obtain ⟨rfl, rfl, _⟩ := resolve_unique (hres.1 hr') i3
      rcases Nat.lt_trichotomy k k' with hlt | heq | hgt
      · obtain ⟨q1, q2⟩ := List.getElem?_eq_some_iff.1 hk
        obtain ⟨q3, q4⟩ := List.getElem?_eq_some_iff.1 i1
        have := List.pairwise_iff_getElem.1 hkeys k k' q1 q3 hlt
        rw [q2, q4] at this
        exact absurd rfl this
      · omega
      · omega
    · rintro ⟨⟨k, z'⟩, hk, he⟩
      rw [hget'] at hk
      obtain ⟨⟨ab, h1, h2⟩, _⟩ := hk
      obtain ⟨x', y', r', z'', g1, _, g3⟩ := hat k ab h1
      obtain ⟨rfl, rfl, rfl⟩ := resolve_unique (hres.1 h2) g3
      simp only [rankAt, g1, Prod.mk.injEq] at he
      obtain ⟨rfl, rfl⟩ := he
      exact List.mem_of_getElem? g1
  have hv' : ∀ c, b'.vocab.get c = b.vocab.get c := by rw [hb'v]; exact hv
  have hr' : ∀ i, b'.vocabR.get i = b.vocabR.get i := by
    intro i
    refine Option.ext fun c => ?_
    rw [← C46_bpe_vocab_inverse hbuilt c i, hv', hinv c i]
  have hinc := rankAt_increasing hrank
  refine ⟨_, b', by unfold saveBpe; rw [hmn]; rfl, ?_, hbuilt, hv', hr', hopt, .of_reranked hinc hre,
    tokenize_cong hopt hv' hr' hinc hre⟩
  unfold loadBpe
  rw [hcfg'] at hb'
  exact hb'

/-- **C39.** The same through the two files `vocab.json` and `merges.txt`, if the merges can be written. The options are
not in the files: they are given again. -/
theorem C39_bpe_files {b : Bpe} (h : Built b) {ns : List (Str × Str)} (hns : mergeNames b = some ns)
    (hw : ∀ m ∈ ns, Writable m) : ∃ ms b', readMerges (lines (mergesFile ns)) = .ok ms ∧
    build (readVocab (ordered b.vocabR)) ms { b with vocab := [], vocabR := [], merges := [] } = .ok b' ∧
    ∀ coins w, tokenize b' coins w = tokenize b coins w := by
  obtain ⟨s, b', h1, h2, _, _, _, _, _, h3⟩ := C39_bpe h
  refine ⟨ns, b', C39_merges_file hw, ?_, h3⟩
  unfold saveBpe at h1
  rw [hns] at h1
  cases h1
  exact h2

/-! Example: the sample model of C20, with a repeated merge so that the ranks are not consecutive. -/

/-- `a b` is listed twice: it has rank 2. -/
def holeMerges : List (Str × Str) := sampleMergeList ++ sampleMergeList.take 1

def holeBpe : Bpe := { sampleBpe with merges := [((0, 1), (2, 3)), ((3, 2), (1, 4))] }

theorem hole_build : build sampleVocab holeMerges sampleCfg = .ok holeBpe := by decide

theorem hole_built : Built holeBpe := by
  refine ⟨⟨holeMerges, sampleCfg, hole_build, ?_⟩, sampleVocab_wf, sampleVocab_distinct⟩
  have h : ∀ ab ∈ holeMerges, ab ∈ sampleMergeList := by decide
  exact ⟨fun ab k => sampleMerges_sane.right ab (h ab k), fun ab k => sampleMerges_sane.left ab (h ab k),
    fun ab k => sampleMerges_sane.noAccident ab (h ab k)⟩

example : mergeNames holeBpe = some [("ab".toList, "c".toList), ("a".toList, "b".toList)] := by decide

/-- The merges get other ranks, in the same order. -/
example : (saveBpe holeBpe).map (fun s => match loadBpe s with | .ok b' => b'.merges | _ => []) =
    some [((0, 1), (1, 3)), ((3, 2), (0, 4))] := by decide

example : ∃ s b', saveBpe holeBpe = some s ∧ loadBpe s = .ok b' ∧
    ∀ coins w, tokenize b' coins w = tokenize holeBpe coins w := by
  obtain ⟨s, b', h1, h2, h3⟩ := C39_bpe hole_built
  exact ⟨s, b', h1, h2, h3.2.2.2.2.2⟩

end Tok.Save
