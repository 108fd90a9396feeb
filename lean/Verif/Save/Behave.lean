import Verif.Save.Interp
import Verif.Save.FileRoundTrip

/-!
# C66: a tokenizer that was saved and loaded does what it did before
-/

namespace Tok.Save
open AddedVocab

/-! ## Added tokens: the same patterns give the same pieces -/

/-- No pattern has two values. -/
def OneValue (l : List (Str × Nat)) : Prop := ∀ c i j, (c, i) ∈ l → (c, j) ∈ l → i = j

theorem longest_congr {l l' : List (Str × Nat)} (h : ∀ p, p ∈ l' ↔ p ∈ l) (hv : OneValue l) (s : Str) :
    longest l' s = longest l s := by
  cases h1 : longest l s with
  | none =>
    cases h2 : longest l' s with
    | none => rfl
    | some p =>
      obtain ⟨a, b, _⟩ := longest_some h2
      exact absurd b (longest_none h1 p ((h p).1 a))
  | some p =>
    obtain ⟨a, b, m⟩ := longest_some h1
    cases h2 : longest l' s with
    | none => exact absurd b (longest_none h2 p ((h p).2 a))
    | some q =>
      obtain ⟨a', b', m'⟩ := longest_some h2
      have hl : q.1.length = p.1.length :=
        Nat.le_antisymm (m q ((h q).1 a') b') (m' p ((h p).2 a) b)
      have he : q.1 = p.1 := (List.prefix_of_prefix_length_le b' b (by omega)).eq_of_length hl
      obtain ⟨c, i⟩ := p
      obtain ⟨d, j⟩ := q
      simp only at he
      subst he
      rw [hv _ _ _ a ((h _).1 a')]

theorem scan_congr {l l' : List (Str × Nat)} (h : ∀ p, p ∈ l' ↔ p ∈ l) (hv : OneValue l) : ∀ (s : Str) (pos skip : Nat),
    scan l' pos skip s = scan l pos skip s
  | [], _, _ => by simp [scan]
  | c :: s, pos, skip + 1 => by rw [scan, scan, scan_congr h hv s]
  | c :: s, pos, 0 => by
    rw [scan, scan, longest_congr h hv]
    cases longest l (c :: s) with
    | none => exact scan_congr h hv s _ _
    | some p => simp only [scan_congr h hv s]

/-- The parts of the added vocabulary that `find_matches` looks at besides the patterns. -/
structure SameLook (av av' : AddedVocab) : Prop where
  rmap : ∀ i, av'.rmap.get i = av.rmap.get i
  specials : ∀ c, c ∈ av'.specials ↔ c ∈ av.specials
  encode : av'.encodeSpecial = av.encodeSpecial

theorem matchStep_congr {av av' : AddedVocab} (h : SameLook av av') (cl : Classes) (s : Str) (off : Nat)
    (m : Nat × Nat × Nat) : matchStep cl av' s off m = matchStep cl av s off m := by
  unfold matchStep
  simp only [h.rmap, h.specials, h.encode]

theorem findLoop_congr {av av' : AddedVocab} (h : SameLook av av') (cl : Classes) (s : Str) :
    ∀ (ms : List (Nat × Nat × Nat)) (off : Nat), findLoop cl av' s off ms = findLoop cl av s off ms
  | [], _ => rfl
  | m :: ms, off => by
    rw [findLoop, findLoop, matchStep_congr h]
    congr 1
    funext r
    rw [findLoop_congr h cl s ms]

theorem findMatches_congr {av av' : AddedVocab} (h : SameLook av av') {l l' : List (Str × Nat)}
    (hl : ∀ p, p ∈ l' ↔ p ∈ l) (hv : OneValue l) (cl : Classes) (s : Str) :
    findMatches cl av' l' s = findMatches cl av l s := by
  have hn : l' = [] ↔ l = [] := by
    rw [List.eq_nil_iff_forall_not_mem, List.eq_nil_iff_forall_not_mem]
    simp only [hl]
  unfold findMatches
  simp only [hn, scan_congr hl hv, findLoop_congr h]

theorem splitWithIndices_congr {av av' : AddedVocab} (h : SameLook av av') {l l' : List (Str × Nat)}
    (hl : ∀ p, p ∈ l' ↔ p ∈ l) (hv : OneValue l) (cl : Classes) (n : NS) :
    splitWithIndices cl av' l' n = splitWithIndices cl av l n := by
  unfold splitWithIndices
  rw [findMatches_congr h hl hv]

theorem extract_congr {av av' : AddedVocab} (h : SameLook av av') (ht : ∀ p, p ∈ av'.trie ↔ p ∈ av.trie)
    (hv : OneValue av.trie) (hn : ∀ p, p ∈ av'.normTrie ↔ p ∈ av.normTrie) (hvn : OneValue av.normTrie) (cl : Classes)
    (norm : NS → Option NS) (s : Str) : av'.extractAndNormalize cl norm s = av.extractAndNormalize cl norm s := by
  unfold extractAndNormalize
  simp only [splitWithIndices_congr h ht hv]
  congr 1
  funext p
  congr 1
  funext _ n
  congr 2
  funext m
  exact splitWithIndices_congr h hn hvn cl m

/-! ## Post-processors -/

mutual
/-- Every template of the processor has the counts of its pieces. -/
def ProcCfg.Counted : ProcCfg → Prop
  | .template t => Save.Counted t
  | .sequence l => ProcCfg.AllCounted l
  | _ => True

/-- So for each of the elements. -/
def ProcCfg.AllCounted : List ProcCfg → Prop
  | [] => True
  | p :: l => p.Counted ∧ ProcCfg.AllCounted l
end

theorem applyTemplate_congr {a b : Post.Tokens} (h : ∀ k, b.get k = a.get k) (add : Bool) :
    ∀ (ps : List Post.Piece) (es : List Encoding), Post.applyTemplate b add es ps = Post.applyTemplate a add es ps
  | [], _ => by rw [Post.applyTemplate, Post.applyTemplate]
  | p :: ps, es => by
    have hp : Post.applyPiece b add es p = Post.applyPiece a add es p := by
      cases p with
      | sequence id ty => rfl
      | special id ty => simp only [Post.applyPiece, h]
    rw [Post.applyTemplate, Post.applyTemplate, hp]
    cases Post.applyPiece a add es p with
    | none => rfl
    | some r => simp only [applyTemplate_congr h add ps]

mutual
theorem proc_congr : ∀ {c c' : ProcCfg}, SameProc c c' → c.Counted →
    (∀ pair, c'.toProc.added pair = c.toProc.added pair) ∧
    ∀ ws add es, c'.toProc.processEncodings ws add es = c.toProc.processEncodings ws add es
  | _, _, .roberta _ _ _ _, _ => ⟨fun _ => rfl, fun _ _ _ => rfl⟩
  | _, _, .bert _ _, _ => ⟨fun _ => rfl, fun _ _ _ => rfl⟩
  | _, _, .byteLevel _, _ => ⟨fun _ => rfl, fun _ _ _ => rfl⟩
  | _, _, @SameProc.template t t' h, hc => by
    rw [ProcCfg.Counted] at hc
    refine ⟨fun pair => ?_, fun ws add es => ?_⟩
    · simp only [ProcCfg.toProc, Post.Proc.added, h.addedSingle, h.addedPair, hc.1, hc.2]
    · simp only [ProcCfg.toProc, Post.Proc.processEncodings, Post.Template.processEncodings, h.single, h.pair,
        applyTemplate_congr h.specials]
  | _, _, @SameProc.sequence l l' h, hc => by
    rw [ProcCfg.Counted] at hc
    have := procs_congr h hc
    refine ⟨fun pair => ?_, fun ws add es => ?_⟩
    · simp only [ProcCfg.toProc, Post.Proc.added, this.1]
    · simp only [ProcCfg.toProc, Post.Proc.processEncodings, this.2]

theorem procs_congr : ∀ {c c' : List ProcCfg}, SameProcs c c' → ProcCfg.AllCounted c →
    (∀ pair, Post.addedAll pair (ProcCfg.toProcs c') = Post.addedAll pair (ProcCfg.toProcs c)) ∧
    ∀ ws add es, Post.processAll ws add (ProcCfg.toProcs c') es = Post.processAll ws add (ProcCfg.toProcs c) es
  | _, _, .nil, _ => ⟨fun _ => rfl, fun _ _ _ => rfl⟩
  | _, _, @SameProcs.cons c c' l l' h hl, hc => by
    rw [ProcCfg.AllCounted] at hc
    obtain ⟨a1, a2⟩ := proc_congr h hc.1
    obtain ⟨b1, b2⟩ := procs_congr hl hc.2
    refine ⟨fun pair => ?_, fun ws add es => ?_⟩
    · simp only [ProcCfg.toProcs, Post.addedAll, a1, b1]
    · simp only [ProcCfg.toProcs, Post.processAll, a2]
      congr 1
      funext es'
      exact b2 ws add es'
end

theorem postProcess_congr {t : Option TruncParams} {p : Option PadParams} {o o' : Option ProcCfg} (h : SameProcOpt o o')
    (hc : ∀ x, o = some x → x.Counted) (ws : Char → Bool) (checked : Bool) (e : Encoding) (pair : Option Encoding)
    (add : Bool) :
    (⟨t, p, o'.map (·.toProc)⟩ : Post.Settings).postProcess ws checked e pair add =
      (⟨t, p, o.map (·.toProc)⟩ : Post.Settings).postProcess ws checked e pair add := by
  cases h with
  | none => rfl
  | @some c c' h =>
    obtain ⟨h1, h2⟩ := proc_congr h (hc c rfl)
    simp only [Option.map_some, Post.Settings.postProcess, Post.Settings.truncate, Post.Settings.added, Option.elim,
      h1, Post.Settings.finish, Post.Proc.process, h2, Post.Settings.padOne]
    rfl

/-! ## Histories of the added tokens -/

/-- A content may be added again with other properties, but not as a token that is no longer special, nor as one that is no
longer normalized. -/
def NotUndone (old new : AddedToken) : Prop :=
  old.content = new.content → (old.special = true → new.special = true) ∧ (old.normalized = true → new.normalized = true)

/-- The added tokens of a tokenizer whose normalizer is now `norm`: tokens have been added with the normalizer of the
tokenizer (`TokenizerImpl::add_tokens`, `tokenizer/mod.rs:1227-1239`), the normalizer has been replaced (`with_normalizer`,
`tokenizer/mod.rs:592-597`), each time without an error; nothing was undone. -/
inductive History (build : List (Str × Nat) → Bool) (m : ModelView) : AddedVocab → Norm → Prop
  | new (norm) : History build m empty norm
  | add {av norm ts av' n} (h : History build m av norm) (ha : av.addTokens build m norm ts = (av', some n))
      (hold : ∀ t ∈ ts, ∀ i t', av.rmap.get i = some t' → NotUndone t' t) (hts : ts.Pairwise NotUndone) :
      History build m av' norm
  | renormalize {av norm norm' av'} (h : History build m av norm) (hr : av.refreshNormalized build norm' = (av', true)) :
      History build m av' norm'

/-- The cached forms and the special tokens are those of the tokens that are there. -/
structure Fresh' (norm : Norm) (av : AddedVocab) : Prop where
  cache : ∀ i t, av.rmap.get i = some t → normalForm norm t = some (av.cache.get i)
  specials : ∀ c, c ∈ av.specials ↔ ∃ i t, av.rmap.get i = some t ∧ t.special = true ∧ t.content = c
  encode : av.encodeSpecial = false

theorem normalForm_same {norm : Norm} {t t' : AddedToken} (hc : t'.content = t.content) (hn : t'.normalized = t.normalized) :
    normalForm norm t' = normalForm norm t := by
  unfold normalForm
  rw [hc, hn]

theorem store_fresh {m : ModelView} (hm : m.Ok) {norm : Norm} {av : AddedVocab} (hi : Inv m av) {next : Nat}
    (hf : Fresh m av next) {t : AddedToken} (hne : t.content ≠ []) {form : Option Str}
    (hform : normalForm norm t = some form) (h : Fresh' norm av)
    (hold : ∀ i t', av.rmap.get i = some t' → NotUndone t' t) :
    Fresh' norm (av.store ((av.tokenToId m t.content).getD next) t form) := by
  have hid := fun t' => id_old hm hi hf t (t' := t')
  have hinv := (store_inv hm hi hf hne form).1
  generalize (av.tokenToId m t.content).getD next = id at *
  have hgetr : ∀ i, (av.store id t form).rmap.get i = if id = i then some t else av.rmap.get i := by
    intro i; exact AMap.get_insert _ _ _ _
  refine ⟨?_, ?_, h.encode⟩
  · intro i u hu
    rw [hgetr] at hu
    by_cases he : id = i
    · rw [if_pos he] at hu
      cases hu
      subst he
      rw [hform]
      cases form with
      | some s => simp [store, AMap.get_insert]
      | none =>
        simp only [store]
        cases hr : av.rmap.get id with
        | none =>
          cases hc : av.cache.get id with
          | none => rfl
          | some s =>
            obtain ⟨t', ht'⟩ := hi.cached id s hc
            rw [hr] at ht'; cases ht'
        | some t' =>
          have hcont := hid t' hr
          have hcache := h.cache id t' hr
          cases hn : t'.normalized with
          | true =>
            have := (hold id t' hr hcont).2 hn
            rw [normalForm_same hcont (hn.trans this.symm), hform] at hcache
            exact hcache
          | false =>
            have : normalForm norm t' = some none := by simp [normalForm, hn]
            rw [this] at hcache
            exact hcache
    · rw [if_neg he] at hu
      rw [h.cache i u hu]
      cases form with
      | none => rfl
      | some s => simp [store, AMap.get_insert, he]
  · intro c
    constructor
    · intro hc
      have : c ∈ av.specials ∨ (t.special = true ∧ c = t.content) := by
        simp only [store] at hc
        split at hc
        · rename_i hs
          rcases List.mem_cons.1 hc with e | e
          · exact .inr ⟨hs.1, e⟩
          · exact .inl e
        · exact .inl hc
      rcases this with hc | ⟨hs, rfl⟩
      · obtain ⟨i, t', h1, h2, h3⟩ := (h.specials c).1 hc
        by_cases he : id = i
        · subst he
          have hcont := hid t' h1
          exact ⟨id, t, by rw [hgetr, if_pos rfl], (hold id t' h1 hcont).1 h2, hcont.symm.trans h3⟩
        · exact ⟨i, t', by rw [hgetr, if_neg he]; exact h1, h2, h3⟩
      · exact ⟨id, t, by rw [hgetr, if_pos rfl], hs, rfl⟩
    · rintro ⟨i, t', h1, h2, rfl⟩
      exact hinv.flagged i t' h1 h2

theorem addLoop_fresh {m : ModelView} (hm : m.Ok) {norm : Norm} : ∀ (ts : List AddedToken) {av : AddedVocab} {next ign : Nat}
    {av' : AddedVocab} {k : Nat}, Inv m av → Fresh m av next → Fresh' norm av →
    (∀ t ∈ ts, ∀ i t', av.rmap.get i = some t' → NotUndone t' t) → ts.Pairwise NotUndone →
    addLoop m norm ts av next ign = (av', some k) → Fresh' norm av' ∧ Inv m av'
  | [], av, next, ign, av', k, hi, _, h, _, _, e => by
    rw [addLoop] at e; cases e; exact ⟨h, hi⟩
  | t :: ts, av, next, ign, av', k, hi, hf, h, hold, hts, e => by
    rw [List.pairwise_cons] at hts
    rw [addLoop] at e
    have hold' : ∀ u ∈ ts, ∀ i t', av.rmap.get i = some t' → NotUndone t' u := fun u hu =>
      hold u (List.mem_cons_of_mem _ hu)
    by_cases hc : t.content = []
    · rw [if_pos hc] at e
      exact addLoop_fresh hm ts hi hf h hold' hts.2 e
    · rw [if_neg hc] at e
      by_cases hp : av.present t = true
      · rw [if_pos hp] at e
        exact addLoop_fresh hm ts hi hf h hold' hts.2 e
      · rw [if_neg hp] at e
        cases hform : normalForm norm t with
        | none => rw [hform] at e; cases e
        | some form =>
          rw [hform] at e
          obtain ⟨h1, h2, _⟩ := store_inv hm hi hf hc form
          refine addLoop_fresh hm ts h1 h2 (store_fresh hm hi hf hc hform h
            (fun i t' => hold t (List.mem_cons_self) i t')) ?_ hts.2 e
          intro u hu i t' ht'
          have hgetr : (av.store ((av.tokenToId m t.content).getD next) t form).rmap.get i =
            if (av.tokenToId m t.content).getD next = i then some t else av.rmap.get i := AMap.get_insert _ _ _ _
          rw [hgetr] at ht'
          split at ht'
          · cases ht'; exact hts.1 u hu
          · exact hold' u hu i t' ht'

/-- The added tokens are up to date: loading them again would change nothing. -/
abbrev Current (norm : Norm) (av : AddedVocab) : Prop := ReloadedAdded norm av av

theorem refresh_current {norm : Norm} {build : List (Str × Nat) → Bool} {av : AddedVocab} (hw : av.rmap.WF)
    (h : Fresh' norm av) (hr : (av.refresh build).2 = true) : Current norm (av.refresh build).1 := by
  obtain ⟨e1, e2, e3, e4, e5⟩ := refresh_same build av
  obtain ⟨p1, p2⟩ := refresh_patterns hw hr
  exact ⟨fun _ => rfl, fun _ => rfl, by rw [e2, e4]; exact h.cache, by rw [e2, e3]; exact h.specials, p1, p2,
    e5.trans h.encode⟩

theorem Current.fresh {norm : Norm} {av : AddedVocab} (h : Current norm av) : Fresh' norm av :=
  ⟨h.cache, h.specials, h.encode⟩

theorem current_empty (norm : Norm) : Current norm empty := by
  constructor <;> simp [empty, AMap.get]

/-- The automata of the current state can be built. -/
theorem refreshNormalized_ok {norm : Norm} {build : List (Str × Nat) → Bool} {av : AddedVocab} (hw : av.rmap.WF)
    (h : Fresh' norm av) (hr : (av.refresh build).2 = true) : (av.refreshNormalized build norm).2 = true := by
  have hmem : ∀ i t, (i, t) ∈ av.rmap → av.rmap.get i = some t := fun i t => AMap.get_eq_some_of_mem hw
  have hok : (recache norm av.rmap []).2 = true := (recache_ok_iff _ _).2 fun p hp => by
    rw [h.cache p.1 p.2 (hmem p.1 p.2 hp)]; simp
  unfold refreshNormalized
  simp only [hok, if_true]
  have hl : ((av.rmap.filter fun p => p.2.normalized).map fun p =>
        (((recache norm av.rmap []).1.get p.1).getD p.2.content, p.1)) =
      ((av.rmap.filter fun p => p.2.normalized).map fun p => ((av.cache.get p.1).getD p.2.content, p.1)) := by
    apply List.map_congr_left
    rintro ⟨i, t⟩ hm
    have hm := (List.mem_filter.1 hm).1
    have e1 := recache_get av.rmap [] hw (fun _ _ _ => rfl) hok i t hm
    rw [h.cache i t (hmem i t hm)] at e1
    simp only [Option.some.inj e1]
  unfold refresh at hr ⊢
  simp only [hl] at hr ⊢
  split at hr
  · rename_i h1
    rw [if_pos h1]
    split at hr
    · rename_i h2; rw [if_pos h2]
    · cases hr
  · cases hr

theorem refresh_again {build : List (Str × Nat) → Bool} {av : AddedVocab} (hr : (av.refresh build).2 = true) :
    ((av.refresh build).1.refresh build).2 = true := by
  obtain ⟨e1, e2, e3, e4, e5⟩ := refresh_same build av
  unfold refresh at hr
  rw [refresh, e2, e4]
  simp only at hr ⊢
  split at hr
  · rename_i h1
    rw [if_pos h1]
    split at hr
    · rename_i h2; rw [if_pos h2]
    · cases hr
  · cases hr

/-- **C66.** The added tokens of a tokenizer are up to date, as long as nothing was undone; they come about by a sequence of
calls; the automata can be built again. -/
theorem C66_current {build : List (Str × Nat) → Bool} {m : ModelView} (hm : m.Ok) {av : AddedVocab} {norm : Norm}
    (h : History build m av norm) : Current norm av ∧ (∃ ops, after build m empty ops = av) ∧
    (av.refresh build).2 = true := by
  induction h with
  | new norm => exact ⟨current_empty norm, ⟨[], rfl⟩, rfl⟩
  | @add av norm ts av' n _ ha hold hts ih =>
    obtain ⟨h1, ⟨ops, h2⟩, h3⟩ := ih
    have hi : Inv m av := h2 ▸ (after_inv hm build ops (inv_empty m)).1
    have hops : ∃ ops, after build m empty ops = av' := ⟨ops ++ [.add norm ts], by
      unfold after at h2 ⊢
      rw [List.foldl_append, h2]
      simp only [List.foldl, AddedVocab.apply, ha]⟩
    unfold addTokens at ha
    cases hl : addLoop m norm ts av (av.nextId m) 0 with
    | mk r o =>
      rw [hl] at ha
      cases o with
      | none => simp at ha
      | some k =>
        simp only [Prod.mk.injEq] at ha
        obtain ⟨e1, e2⟩ := ha
        have hr : (r.refresh build).2 = true := by
          cases hx : (r.refresh build).2 with
          | true => rfl
          | false => rw [hx] at e2; simp at e2
        obtain ⟨f1, f2⟩ := addLoop_fresh hm ts hi nextId_fresh h1.fresh hold hts hl
        have := refresh_current f2.wfr f1 hr
        have := refresh_again hr
        rw [← e1] at hops ⊢
        exact ⟨by assumption, hops, by assumption⟩
  | @renormalize av norm norm' av' _ hr ih =>
    obtain ⟨h1, ⟨ops, h2⟩, h3⟩ := ih
    have hi : Inv m av := h2 ▸ (after_inv hm build ops (inv_empty m)).1
    have hops : ∃ ops, after build m empty ops = av' := ⟨ops ++ [.renormalize norm'], by
      unfold after at h2 ⊢
      rw [List.foldl_append, h2]
      simp only [List.foldl, AddedVocab.apply, hr]⟩
    unfold refreshNormalized at hr
    simp only at hr
    cases hok : (recache norm' av.rmap []).2 with
    | false => rw [hok] at hr; simp at hr
    | true =>
      rw [hok] at hr
      simp only [if_true] at hr
      have hf : Fresh' norm' { av with cache := (recache norm' av.rmap []).1 } :=
        ⟨fun i t hit => recache_get av.rmap [] hi.wfr (fun _ _ _ => rfl) hok i t (AMap.mem_of_get_eq_some hit),
          h1.specials, h1.encode⟩
      have hr2 : (AddedVocab.refresh build { av with cache := (recache norm' av.rmap []).1 }).2 = true := by rw [hr]
      have g1 := refresh_current (av := { av with cache := (recache norm' av.rmap []).1 }) hi.wfr hf hr2
      have g2 := refresh_again hr2
      rw [hr] at g1 g2
      exact ⟨g1, hops, g2⟩

/-! ## The same behaviour -/

/-- The two tokenizers cannot be told apart by encoding, decoding, or asking for the vocabulary. -/
structure Alike (t t' : Tokenizer) : Prop where
  encode : ∀ ty input add, t'.encodeAs ty input add = t.encodeAs ty input add
  encodeBatch : ∀ order ty inputs add, t'.encodeBatch order ty inputs add = t.encodeBatch order ty inputs add
  decode : ∀ skip ids, t'.decode skip ids = t.decode skip ids
  decodeBatch : ∀ order sentences skip, t'.decodeBatch order sentences skip = t.decodeBatch order sentences skip
  tokenToId : ∀ c, t'.tokenToId c = t.tokenToId c
  idToToken : ∀ i, t'.idToToken i = t.idToToken i
  vocab : ∀ withAdded c, (t'.getVocab withAdded).get c = (t.getVocab withAdded).get c
  size : ∀ withAdded, t'.getVocabSize withAdded = t.getVocabSize withAdded

theorem model_congr {m m' : Mod} (h : SameMod m m') (w : World) : w.toModel m' = w.toModel m ∧
    ∀ c, m'.vocab.get c = m.vocab.get c := by
  cases h with
  | bpe hv hr ho hm ht => exact ⟨funext fun s => by simp only [World.toModel, ht], hv⟩
  | wordPiece hv hu hp hm ht => exact ⟨funext fun s => by simp only [World.toModel, ht], hv⟩
  | wordLevel hv hu ht => exact ⟨funext fun s => by simp only [World.toModel, ht], hv⟩
  | unigram u => exact ⟨rfl, fun _ => rfl⟩

theorem load_added {e : Env} {skip : Bool} {build : List (Str × Nat) → Bool} {norm : Option NormCfg → Norm} {j : Json}
    {c : Conf} (h : load e skip build norm j = .ok c) : ∃ l, loadAdded build c.model.view (norm c.normalizer) l = some c.added := by
  unfold load at h
  repeat' (split at h)
  all_goals first
    | cases h; done
    | (cases h; exact ⟨_, by assumption⟩)

theorem oneValue_trie {m : ModelView} {norm : Norm} {av : AddedVocab} (hi : Inv m av) (h : Current norm av) :
    OneValue av.trie := by
  intro c i j h1 h2
  obtain ⟨t, a1, _, a3⟩ := (h.trie c i).1 h1
  obtain ⟨u, b1, _, b3⟩ := (h.trie c j).1 h2
  have e1 := (hi.inverse c i).2 ⟨t, a1, a3.symm⟩
  have e2 := (hi.inverse c j).2 ⟨u, b1, b3.symm⟩
  rw [e1] at e2
  exact Option.some.inj e2

theorem oneValue_of_nodup {l : List (Str × Nat)} (h : (l.map (·.1)).Nodup) : OneValue l := by
  intro c i j h1 h2
  have e1 := AMap.get_eq_some_of_mem (m := l) h h1
  have e2 := AMap.get_eq_some_of_mem (m := l) h h2
  rw [e1] at e2
  exact Option.some.inj e2

theorem oneValue_normTrie {build : List (Str × Nat) → Bool} (hbd : ∀ l, build l = true → (l.map (·.1)).Nodup)
    {norm : Norm} {av : AddedVocab} (h : Current norm av) (hr : (av.refresh build).2 = true) :
    OneValue av.normTrie := by
  have hn : OneValue ((av.rmap.filter fun p => p.2.normalized).map fun p =>
      ((av.cache.get p.1).getD p.2.content, p.1)) := by
    unfold refresh at hr
    simp only at hr
    split at hr
    · split at hr
      · rename_i h2
        rw [Bool.or_eq_true] at h2
        rcases h2 with h2 | h2
        · rw [List.isEmpty_iff.1 h2]
          intro c i j h1; cases h1
        · exact oneValue_of_nodup (hbd _ h2)
      · cases hr
    · cases hr
  have hmem : ∀ c i, (c, i) ∈ av.normTrie → (c, i) ∈ ((av.rmap.filter fun p => p.2.normalized).map fun p =>
      ((av.cache.get p.1).getD p.2.content, p.1)) := by
    intro c i hc
    obtain ⟨t, h1, h2, h3⟩ := (h.normTrie c i).1 hc
    exact List.mem_map.2 ⟨(i, t), List.mem_filter.2 ⟨AMap.mem_of_get_eq_some h1, h2⟩, by rw [h3]⟩
  exact fun c i j h1 h2 => hn c i j (hmem c i h1) (hmem c j h2)

theorem loadAdded_wf {build : List (Str × Nat) → Bool} {m : ModelView} {norm : Norm} {l : List (Nat × AddedToken)}
    {av : AddedVocab} (h : loadAdded build m norm l = some av) : av.map.WF := by
  have hw := AddedVocab.after_map_wf build m [.add norm (l.map (·.2))] empty AMap.WF.nil
  unfold loadAdded at h
  cases hx : empty.addTokens build m norm (l.map (·.2)) with
  | mk r o =>
    rw [hx] at h
    cases o with
    | none => cases h
    | some k =>
      cases h
      simpa [after, AddedVocab.apply, hx] using hw

theorem filter_length_eq {K V : Type} [DecidableEq K] {m m' : AMap K V} (hw : m.WF) (hw' : m'.WF)
    (h : ∀ k, m'.get k = m.get k) (p : K × V → Bool) : (m'.filter p).length = (m.filter p).length := by
  apply Nat.le_antisymm
  · exact length_le_of_subset ((wf_nodup hw').filter p) fun x hx => by
      rw [List.mem_filter] at hx ⊢
      exact ⟨AMap.mem_of_get_eq_some ((h x.1).symm.trans (AMap.get_eq_some_of_mem hw' hx.1)), hx.2⟩
  · exact length_le_of_subset ((wf_nodup hw).filter p) fun x hx => by
      rw [List.mem_filter] at hx ⊢
      exact ⟨AMap.mem_of_get_eq_some ((h x.1).trans (AMap.get_eq_some_of_mem hw hx.1)), hx.2⟩

/-- Tokenizers that differ in what `SameConf` leaves open only, with added tokens up to date, behave the same. -/
theorem alike_of_same {w : World} {build : List (Str × Nat) → Bool} (hbd : ∀ l, build l = true → (l.map (·.1)).Nodup)
    {c c' : Conf} (h : SameConf w.norm c c') (hi : Inv c.model.view c.added) (hw' : c'.added.map.WF)
    (hcur : Current (w.norm c.normalizer) c.added) (hr : (c.added.refresh build).2 = true)
    (hc : ∀ p, c.proc = some p → p.Counted) : Alike (w.tokenizer c) (w.tokenizer c') := by
  have ha := h.added
  have hcache : ∀ i t, c.added.rmap.get i = some t → c'.added.cache.get i = c.added.cache.get i := by
    intro i t hit
    have e1 := ha.cache i t hit
    rw [hcur.cache i t hit] at e1
    exact (Option.some.inj e1).symm
  have hlook : SameLook c.added c'.added :=
    ⟨ha.rmap, fun x => (ha.specials x).trans (hcur.specials x).symm, ha.encode.trans hcur.encode.symm⟩
  have htrie : ∀ p, p ∈ c'.added.trie ↔ p ∈ c.added.trie := fun p =>
    (ha.trie p.1 p.2).trans (hcur.trie p.1 p.2).symm
  have hnorm : ∀ p, p ∈ c'.added.normTrie ↔ p ∈ c.added.normTrie := by
    rintro ⟨x, i⟩
    rw [ha.normTrie, hcur.normTrie]
    constructor
    · rintro ⟨t, h1, h2, h3⟩; exact ⟨t, h1, h2, by rw [h3, hcache i t h1]⟩
    · rintro ⟨t, h1, h2, h3⟩; exact ⟨t, h1, h2, by rw [h3, hcache i t h1]⟩
  have hextract := extract_congr hlook htrie (oneValue_trie hi hcur) hnorm (oneValue_normTrie hbd hcur hr)
  obtain ⟨hm1, hm2⟩ := model_congr h.model w
  have hpre : ∀ s, (w.tokenizer c').preTokenized s = (w.tokenizer c).preTokenized s := by
    intro s
    simp only [Tokenizer.preTokenized, World.tokenizer, hextract, h.normalizer, h.preTok]
  have hdo : ∀ lim p ty word o, (w.tokenizer c').doTokenize lim p ty word o = (w.tokenizer c).doTokenize lim p ty word o := by
    intro lim p ty word o
    have : (w.tokenizer c').tokenizeIn p lim = (w.tokenizer c).tokenizeIn p lim := by
      cases lim <;> simp only [Tokenizer.tokenizeIn, World.tokenizer, hm1]
    rw [Tokenizer.doTokenize, this]
    rfl
  have htext : ∀ lim ty o word s, (w.tokenizer c').encodeText lim ty o word s = (w.tokenizer c).encodeText lim ty o word s := by
    intro lim ty o word s
    simp only [Tokenizer.encodeText, hpre, hdo]
  have hseq : ∀ ty o i, (w.tokenizer c').encodeSequence ty o i = (w.tokenizer c).encodeSequence ty o i := by
    intro ty o i
    have hlim : (w.tokenizer c').limit ty = (w.tokenizer c).limit ty := by
      simp only [Tokenizer.limit, World.tokenizer, h.truncation]
    cases i <;> simp only [Tokenizer.encodeSequence, Tokenizer.encodeSequenceWith, htext, hlim]
  have hpost : ∀ e pair add, (w.tokenizer c').settings.postProcess w.ws w.checked e pair add =
      (w.tokenizer c).settings.postProcess w.ws w.checked e pair add := by
    intro e pair add
    simp only [World.tokenizer, h.truncation, h.padding]
    exact postProcess_congr h.proc hc w.ws w.checked e pair add
  have henc : ∀ ty input add, (w.tokenizer c').encodeAs ty input add = (w.tokenizer c).encodeAs ty input add := by
    intro ty input add
    have hpost' : ∀ e pair, (w.tokenizer c').settings.postProcess (w.tokenizer c').ws (w.tokenizer c').checked e pair add =
      (w.tokenizer c).settings.postProcess (w.tokenizer c).ws (w.tokenizer c).checked e pair add :=
      fun e pair => hpost e pair add
    simp only [Tokenizer.encodeAs, Tokenizer.encodeBy, hseq, hpost']
  have hid : ∀ i, c'.added.simpleIdToToken i = c.added.simpleIdToToken i := by
    intro i
    unfold simpleIdToToken
    rw [ha.rmap]
    cases hit : c.added.rmap.get i with
    | none => rfl
    | some t => rw [Option.map_some, Option.map_some, hcache i t hit]
  have hdec : ∀ skip ids, (w.tokenizer c').decode skip ids = (w.tokenizer c).decode skip ids := by
    intro skip ids
    have hs : ∀ t, c'.added.specials.contains t = c.added.specials.contains t := by
      intro t
      rw [Bool.eq_iff_iff, List.contains_iff_mem, List.contains_iff_mem]
      exact hlook.specials t
    have ht : decodeTokens c'.model.view c'.added skip ids = decodeTokens c.model.view c.added skip ids := by
      simp only [decodeTokens, hid, hs, h.view]
    simp only [Tokenizer.decode, World.tokenizer, AddedVocab.decode, ht, h.decoder]
  refine ⟨henc, ?_, hdec, ?_, ?_, ?_, ?_, ?_⟩
  · intro order ty inputs add
    have : (w.tokenizer c').settings.padding = (w.tokenizer c).settings.padding := h.padding
    simp only [Tokenizer.encodeBatch, henc, this]
  · intro order sentences skip
    simp only [Tokenizer.decodeBatch, hdec]
  · intro x
    simp only [Tokenizer.tokenToId, World.tokenizer, AddedVocab.tokenToId, ha.map, h.view]
  · intro i
    simp only [Tokenizer.idToToken, World.tokenizer, hid, h.view]
  · intro wa x
    cases wa with
    | false => simp only [Tokenizer.getVocab, World.tokenizer, Bool.false_eq_true, if_false, hm2]
    | true =>
      simp only [Tokenizer.getVocab, World.tokenizer, if_true, AMap.get_extend_wf hw', AMap.get_extend_wf hi.wf, hm2,
        ha.map]
  · intro wa
    simp only [Tokenizer.getVocabSize, World.tokenizer, h.view, length_eq_of_get hi.wf hw' ha.map,
      filter_length_eq hi.wf hw' ha.map]

/-- **C66.** A tokenizer is saved; what is saved is loaded; the tokenizer that is loaded encodes and decodes every input, one
or a batch, exactly as the one that was saved, errors included, and gives the same answers about its vocabulary.

The added tokens may have any history in which nothing was undone (`History`). The counts of a template are those of its
pieces, which fails only if `set_single` or `set_pair` was used (`C65_counts_change`). An automaton can be built or not
whatever the order of the patterns, and not if a pattern is there twice (crate `daachorse`).

Missing, because it is false: tokenizers with `encode_special_tokens` (`C66_encode_special_lost`) and Unigram models with `alpha` or
`nbest_size` (`C65_sampling_lost`, `C65_sampling_differs`), which are not saved. -/
theorem C66_alike_partial {e : Env} (w : World) (skip : Bool) {build : List (Str × Nat) → Bool}
    (hb : ∀ l l' : List (Str × Nat), l.Perm l' → build l = build l') (hbd : ∀ l, build l = true → (l.map (·.1)).Nodup)
    {c : Conf} (h : c.Fits e) (hok : c.model.view.Ok) (hh : History build c.model.view c.added (w.norm c.normalizer))
    (hc : ∀ p, c.proc = some p → p.Counted) :
    ∃ j c', save c = some j ∧ load e skip build w.norm j = .ok c' ∧ Alike (w.tokenizer c) (w.tokenizer c') := by
  obtain ⟨hcur, ⟨ops, hops⟩, hr⟩ := C66_current hok hh
  have hi : Inv c.model.view c.added := hops ▸ (after_inv hok build ops (inv_empty _)).1
  obtain ⟨j, c', h1, h2, h3, _⟩ := C65_file skip hb h hok hops (refreshNormalized_ok hi.wfr hcur.fresh hr)
  obtain ⟨l, hl⟩ := load_added h2
  exact ⟨j, c', h1, h2, alike_of_same hbd h3 hi (loadAdded_wf hl) hcur hr hc⟩

end Tok.Save
