import Verif.Codec.Wrapper

/-!
# Model of `tokenizer/added_vocabulary.rs`: ids and decoding; C26, C28

Extraction of added tokens from text is in `Added/Match.lean`.
-/

namespace Tok

/-- `AddedToken` (`added_vocabulary.rs:17-30`). -/
structure AddedToken where
  content : Str
  singleWord : Bool := false
  lstrip : Bool := false
  rstrip : Bool := false
  normalized : Bool := true
  special : Bool := false
deriving DecidableEq, Repr

/-- `AddedToken::from` (`added_vocabulary.rs:35-42`). -/
def AddedToken.ofStr (content : Str) (special : Bool) : AddedToken :=
  { content := content, normalized := !special, special := special }

/-- What the added vocabulary uses of a model: `token_to_id`, `id_to_token`, `get_vocab_size`. -/
structure ModelView where
  toId : Str → Option Nat
  toToken : Nat → Option Str
  size : Nat

/-- `AddedVocabulary` (`added_vocabulary.rs:142-167`). The two automata are represented by their lists of patterns;
`None` is the empty list. -/
structure AddedVocab where
  map : AMap Str Nat
  rmap : AMap Nat AddedToken
  specials : List Str
  cache : AMap Nat Str
  trie : List (Str × Nat)
  normTrie : List (Str × Nat)
  encodeSpecial : Bool

namespace AddedVocab

/-- `AddedVocabulary::new` (`added_vocabulary.rs:181-191`). -/
def empty : AddedVocab := ⟨[], [], [], [], [], [], false⟩

/-- `token_to_id` (`added_vocabulary.rs:214-219`). -/
def tokenToId (m : ModelView) (av : AddedVocab) (c : Str) : Option Nat := (av.map.get c).or (m.toId c)

/-- `id_to_token` (`added_vocabulary.rs:226-231`). -/
def idToToken (m : ModelView) (av : AddedVocab) (i : Nat) : Option Str :=
  ((av.rmap.get i).map (·.content)).or (m.toToken i)

/-- `simple_id_to_token` (`added_vocabulary.rs:239-246`). -/
def simpleIdToToken (av : AddedVocab) (i : Nat) : Option Str :=
  (av.rmap.get i).map fun t => (av.cache.get i).getD t.content

/-- The initial `next_id` of `add_tokens` (`added_vocabulary.rs:282-292`). -/
def nextId (m : ModelView) (av : AddedVocab) : Nat :=
  match (av.rmap.map (·.1)).max? with
  | none => m.size
  | some mx => if mx ≥ m.size ∨ m.size = 0 then mx + 1 else m.size

/-- A normalizer, as far as added tokens are concerned: the text it makes of a text; `none` is an error. -/
abbrev Norm := Option (Str → Option Str)

/-- `added_vocabulary.rs:316-325`: the form to be cached (`some none`: nothing to cache); `none` is an error. -/
def normalForm (norm : Norm) (t : AddedToken) : Option (Option Str) :=
  if t.normalized then
    match norm with
    | none => some none
    | some f =>
      match f t.content with
      | none => none
      | some s => some (if s = t.content then none else some s)
  else some none

/-- `added_vocabulary.rs:316-338`: the token stored under its id. -/
def store (av : AddedVocab) (id : Nat) (t : AddedToken) (form : Option Str) : AddedVocab :=
  { av with
    cache := match form with
      | none => av.cache
      | some s => av.cache.insert id s
    map := av.map.insert t.content id
    specials := if t.special ∧ t.content ≠ [] ∧ t.content ∉ av.specials then t.content :: av.specials
      else av.specials
    rmap := av.rmap.insert id t }

/-- Is the token there already with the same properties? (`added_vocabulary.rs:301-306`) -/
def present (av : AddedVocab) (t : AddedToken) : Bool :=
  match av.map.get t.content with
  | some id => av.rmap.get id = some t
  | none => false

/-- The loop of `add_tokens` (`added_vocabulary.rs:294-339`); the second component is the number of ignored tokens,
`none` if a normalization failed (the tokens before it stay). -/
def addLoop (m : ModelView) (norm : Norm) : List AddedToken → AddedVocab → Nat → Nat → AddedVocab × Option Nat
  | [], av, _, ign => (av, some ign)
  | t :: ts, av, next, ign =>
    if t.content = [] then addLoop m norm ts av next (ign + 1)
    else if av.present t then addLoop m norm ts av next (ign + 1)
    else
      let found := av.tokenToId m t.content
      match normalForm norm t with
      | none => (av, none)
      | some form =>
        addLoop m norm ts (av.store (found.getD next) t form) (if found.isSome then next else next + 1) ign

/-- `refresh_added_tokens` (`added_vocabulary.rs:379-424`). `build` says whether an automaton can be built from
a list of patterns; the flag is `false` on an error. -/
def refresh (build : List (Str × Nat) → Bool) (av : AddedVocab) : AddedVocab × Bool :=
  let plain := (av.rmap.filter fun p => !p.2.normalized).map fun p => (p.2.content, p.1)
  let normed := (av.rmap.filter fun p => p.2.normalized).map fun p => ((av.cache.get p.1).getD p.2.content, p.1)
  if plain.isEmpty || build plain then
    if normed.isEmpty || build normed then ({ av with trie := plain, normTrie := normed }, true)
    else ({ av with trie := plain }, false)
  else (av, false)

/-- `add_tokens`, `add_special_tokens` (`added_vocabulary.rs:263-345`): the new state and, unless there is an
error, the number of added tokens. -/
def addTokens (build : List (Str × Nat) → Bool) (m : ModelView) (norm : Norm) (av : AddedVocab)
    (ts : List AddedToken) : AddedVocab × Option Nat :=
  match addLoop m norm ts av (av.nextId m) 0 with
  | (av', none) => (av', none)
  | (av', some ign) =>
    let r := refresh build av'
    (r.1, if r.2 then some (ts.length - ign) else none)

/-- The loop of `refresh_normalized_tokens` (`added_vocabulary.rs:360-371`). -/
def recache (norm : Norm) : List (Nat × AddedToken) → AMap Nat Str → AMap Nat Str × Bool
  | [], c => (c, true)
  | (i, t) :: l, c =>
    match normalForm norm t with
    | none => (c, false)
    | some none => recache norm l c
    | some (some s) => recache norm l (c.insert i s)

/-- `refresh_normalized_tokens` (`added_vocabulary.rs:355-373`). -/
def refreshNormalized (build : List (Str × Nat) → Bool) (norm : Norm) (av : AddedVocab) : AddedVocab × Bool :=
  let r := recache norm av.rmap []
  let av' := { av with cache := r.1 }
  if r.2 then refresh build av' else (av', false)

/-! ## Histories -/

/-- The calls that change an added vocabulary. -/
inductive Op
  | add (norm : Norm) (ts : List AddedToken)
  | renormalize (norm : Norm)
  | setEncodeSpecial (b : Bool)

/-- The state after a call, whether it succeeds or not. -/
def apply (build : List (Str × Nat) → Bool) (m : ModelView) (av : AddedVocab) : Op → AddedVocab
  | .add norm ts => (av.addTokens build m norm ts).1
  | .renormalize norm => (av.refreshNormalized build norm).1
  | .setEncodeSpecial b => { av with encodeSpecial := b }

/-- The state after a history of calls. -/
def after (build : List (Str × Nat) → Bool) (m : ModelView) (av : AddedVocab) (ops : List Op) : AddedVocab :=
  ops.foldl (apply build m) av

end AddedVocab

/-- Model ids are smaller than the vocabulary size, and a bijection between tokens and ids. -/
structure ModelView.Ok (m : ModelView) : Prop where
  lt : ∀ c i, m.toId c = some i → i < m.size
  inv : ∀ c i, m.toId c = some i ↔ m.toToken i = some c

namespace AddedVocab

/-- The invariant of the two maps. -/
structure Inv (m : ModelView) (av : AddedVocab) : Prop where
  wf : av.map.WF
  wfr : av.rmap.WF
  inverse : ∀ c i, av.map.get c = some i ↔ ∃ t, av.rmap.get i = some t ∧ t.content = c
  model : ∀ c i, av.map.get c = some i → m.toId c = some i ∨ (m.toId c = none ∧ m.size ≤ i)
  nonempty : ∀ c i, av.map.get c = some i → c ≠ []
  special : ∀ c, c ∈ av.specials → ∃ i, av.map.get c = some i
  flagged : ∀ i t, av.rmap.get i = some t → t.special = true → t.content ∈ av.specials
  cached : ∀ i s, av.cache.get i = some s → ∃ t, av.rmap.get i = some t

theorem inv_empty (m : ModelView) : Inv m empty :=
  ⟨AMap.WF.nil, AMap.WF.nil, by simp [empty, AMap.get], by simp [empty, AMap.get], by simp [empty, AMap.get],
    by simp [empty], by simp [empty, AMap.get], by simp [empty, AMap.get]⟩

/-- Every id in use is below `next`, which is no model id. -/
def Fresh (m : ModelView) (av : AddedVocab) (next : Nat) : Prop :=
  m.size ≤ next ∧ ∀ i t, av.rmap.get i = some t → i < next

theorem le_max? : ∀ (l : List Nat) (mx : Nat), l.max? = some mx → ∀ x ∈ l, x ≤ mx := by
  intro l mx h x hx
  exact List.max?_le_iff h |>.1 (Nat.le_refl _) x hx

theorem nextId_fresh {m : ModelView} {av : AddedVocab} : Fresh m av (av.nextId m) := by
  unfold nextId
  have hk : ∀ i t, av.rmap.get i = some t → i ∈ av.rmap.map (·.1) := fun i t h =>
    List.mem_map.2 ⟨(i, t), AMap.mem_of_get_eq_some h, rfl⟩
  cases h : (av.rmap.map (·.1)).max? with
  | none =>
    rw [List.max?_eq_none_iff] at h
    refine ⟨Nat.le_refl _, fun i t hi => ?_⟩
    have := hk i t hi
    rw [h] at this
    cases this
  | some mx =>
    have hle := le_max? _ _ h
    simp only
    split
    · rename_i hc
      refine ⟨?_, fun i t hi => Nat.lt_succ_of_le (hle _ (hk i t hi))⟩
      rcases hc with hc | hc <;> omega
    · refine ⟨Nat.le_refl _, fun i t hi => ?_⟩
      have := hle _ (hk i t hi)
      omega

theorem or_eq_some {α} {a b : Option α} {x : α} : a.or b = some x ↔ a = some x ∨ (a = none ∧ b = some x) := by
  cases a <;> simp

/-- What is known of the id a token gets. -/
theorem id_cases {m : ModelView} (av : AddedVocab) (next : Nat) (t : AddedToken) :
    ∀ id, (av.tokenToId m t.content).getD next = id →
      (av.map.get t.content = some id ∨
        (av.map.get t.content = none ∧ m.toId t.content = some id) ∨
        (av.map.get t.content = none ∧ m.toId t.content = none ∧ id = next ∧
          (av.tokenToId m t.content).isSome = false)) := by
  intro id e
  unfold tokenToId at e ⊢
  cases h1 : av.map.get t.content with
  | some j => rw [h1] at e; simp at e; exact .inl (by rw [e])
  | none =>
    rw [h1] at e
    cases h2 : m.toId t.content with
    | some j => rw [h2] at e; simp at e; exact .inr (.inl ⟨rfl, by rw [e]⟩)
    | none => rw [h2] at e; simp at e; exact .inr (.inr ⟨rfl, rfl, e.symm, by simp⟩)

/-- What was under the id had the same content. -/
theorem id_old {m : ModelView} (hm : m.Ok) {av : AddedVocab} (h : Inv m av) {next : Nat} (hf : Fresh m av next)
    (t : AddedToken) {t' : AddedToken} (ht' : av.rmap.get ((av.tokenToId m t.content).getD next) = some t') :
    t'.content = t.content := by
  have hid := id_cases (m := m) av next t _ rfl
  generalize (av.tokenToId m t.content).getD next = id at *
  have h1 := (h.inverse t'.content id).2 ⟨t', ht', rfl⟩
  rcases hid with g | ⟨g1, g2⟩ | ⟨g1, g2, g3, _⟩
  · obtain ⟨t'', k1, k2⟩ := (h.inverse _ _).1 g
    rw [ht'] at k1; cases k1; exact k2
  · rcases h.model _ _ h1 with k | ⟨_, k⟩
    · have := (hm.inv _ _).1 k
      rw [(hm.inv _ _).1 g2] at this
      exact (Option.some.inj this).symm
    · have := hm.lt _ _ g2; omega
  · have := hf.2 id t' ht'; omega

/-- One token stored. -/
theorem store_inv {m : ModelView} (hm : m.Ok) {av : AddedVocab} (h : Inv m av) {next : Nat} (hf : Fresh m av next)
    {t : AddedToken} (hc : t.content ≠ []) (form : Option Str) :
    Inv m (av.store ((av.tokenToId m t.content).getD next) t form) ∧
    Fresh m (av.store ((av.tokenToId m t.content).getD next) t form)
      (if (av.tokenToId m t.content).isSome then next else next + 1) ∧
    (∀ c i, av.map.get c = some i →
      (av.store ((av.tokenToId m t.content).getD next) t form).map.get c = some i) := by
  have hid := id_cases (m := m) av next t _ rfl
  have hold := fun t' => id_old hm h hf t (t' := t')
  generalize hn : (if (av.tokenToId m t.content).isSome then next else next + 1) = next'
  have hnext : next ≤ next' := by rw [← hn]; split <;> omega
  generalize he : (av.tokenToId m t.content).getD next = id at *
  have hget : ∀ c, (av.store id t form).map.get c = if t.content = c then some id else av.map.get c := by
    intro c; exact AMap.get_insert _ _ _ _
  have hgetr : ∀ i, (av.store id t form).rmap.get i = if id = i then some t else av.rmap.get i := by
    intro i; exact AMap.get_insert _ _ _ _
  -- an id already given to the content is kept
  have hkeep : ∀ i, av.map.get t.content = some i → i = id := by
    intro i hi
    rcases hid with g | ⟨g, _⟩ | ⟨g, _⟩
    · rw [g] at hi; exact (Option.some.inj hi).symm
    · rw [g] at hi; cases hi
    · rw [g] at hi; cases hi
  refine ⟨⟨h.wf.insert _ _, h.wfr.insert _ _, ?_, ?_, ?_, ?_, ?_, ?_⟩, ⟨by have := hf.1; omega, ?_⟩, ?_⟩
  · intro c i
    rw [hget, hgetr]
    by_cases hcc : t.content = c
    · rw [if_pos hcc]
      constructor
      · rintro ⟨⟩; exact ⟨t, by simp, hcc⟩
      · rintro ⟨t', h1, h2⟩
        by_cases hi : id = i
        · rw [hi]
        · rw [if_neg hi] at h1
          have := (h.inverse c i).2 ⟨t', h1, h2⟩
          rw [← hcc] at this
          exact absurd (hkeep i this).symm hi
    · rw [if_neg hcc, h.inverse]
      constructor
      · rintro ⟨t', h1, h2⟩
        refine ⟨t', ?_, h2⟩
        rw [if_neg]
        · exact h1
        · rintro rfl
          exact hcc ((hold t' h1).symm.trans h2)
      · rintro ⟨t', h1, h2⟩
        by_cases hi : id = i
        · rw [if_pos hi] at h1; cases h1; exact absurd h2 hcc
        · rw [if_neg hi] at h1; exact ⟨t', h1, h2⟩
  · intro c i hi
    rw [hget] at hi
    by_cases hcc : t.content = c
    · rw [if_pos hcc] at hi
      cases hi
      subst hcc
      rcases hid with g | ⟨_, g⟩ | ⟨_, g, g', _⟩
      · exact h.model _ _ g
      · exact .inl g
      · exact .inr ⟨g, by rw [g']; exact hf.1⟩
    · rw [if_neg hcc] at hi; exact h.model _ _ hi
  · intro c i hi
    rw [hget] at hi
    by_cases hcc : t.content = c
    · rw [← hcc]; exact hc
    · rw [if_neg hcc] at hi; exact h.nonempty _ _ hi
  · intro c hcs
    rw [show (av.store id t form).map.get c = _ from hget c]
    by_cases hcc : t.content = c
    · exact ⟨id, by rw [if_pos hcc]⟩
    · rw [if_neg hcc]
      refine h.special c ?_
      simp only [store] at hcs
      split at hcs
      · rcases List.mem_cons.1 hcs with e | e
        · exact absurd e.symm hcc
        · exact e
      · exact hcs
  · intro i t' ht' hs
    rw [hgetr] at ht'
    simp only [store]
    by_cases hi : id = i
    · rw [if_pos hi] at ht'
      cases ht'
      split
      · simp
      · rename_i hn
        exact Classical.byContradiction fun hx => hn ⟨hs, hc, hx⟩
    · rw [if_neg hi] at ht'
      have := h.flagged i t' ht' hs
      split
      · exact List.mem_cons_of_mem _ this
      · exact this
  · intro i s hs
    rw [hgetr]
    by_cases hi : id = i
    · exact ⟨t, by rw [if_pos hi]⟩
    · rw [if_neg hi]
      simp only [store] at hs
      cases form with
      | none => exact h.cached i s hs
      | some f =>
        simp only at hs
        rw [AMap.get_insert, if_neg hi] at hs
        exact h.cached i s hs
  · intro i t' ht'
    rw [hgetr] at ht'
    by_cases hi : id = i
    · subst hi
      rcases hid with g | ⟨_, g⟩ | ⟨g, _, g', g''⟩
      · obtain ⟨t'', k1, _⟩ := (h.inverse _ _).1 g
        have := hf.2 _ _ k1; omega
      · have := hm.lt _ _ g
        have := hf.1; omega
      · rw [g'', if_neg (by simp)] at hn; omega
    · rw [if_neg hi] at ht'
      have := hf.2 _ _ ht'; omega
  · intro c i hi
    rw [hget]
    by_cases hcc : t.content = c
    · rw [if_pos hcc]
      subst hcc
      rw [hkeep i hi]
    · rw [if_neg hcc]; exact hi

theorem addLoop_inv {m : ModelView} (hm : m.Ok) (norm : Norm) : ∀ (ts : List AddedToken) {av : AddedVocab}
    {next : Nat} (ign : Nat), Inv m av → Fresh m av next →
    Inv m (addLoop m norm ts av next ign).1 ∧
      ∀ c i, av.map.get c = some i → (addLoop m norm ts av next ign).1.map.get c = some i
  | [], av, next, ign, h, _ => ⟨h, fun _ _ hi => hi⟩
  | t :: ts, av, next, ign, h, hf => by
    rw [addLoop]
    split
    · exact addLoop_inv hm norm ts _ h hf
    · rename_i hc
      split
      · exact addLoop_inv hm norm ts _ h hf
      · simp only
        cases hn : normalForm norm t with
        | none => exact ⟨h, fun _ _ hi => hi⟩
        | some form =>
          obtain ⟨h1, h2, h3⟩ := store_inv hm h hf hc form
          obtain ⟨g1, g2⟩ := addLoop_inv hm norm ts ign h1 h2
          exact ⟨g1, fun c i hi => g2 c i (h3 c i hi)⟩

/-- The maps are not touched by a refresh. -/
theorem refresh_same (build : List (Str × Nat) → Bool) (av : AddedVocab) :
    (av.refresh build).1.map = av.map ∧ (av.refresh build).1.rmap = av.rmap ∧
    (av.refresh build).1.specials = av.specials ∧ (av.refresh build).1.cache = av.cache ∧
    (av.refresh build).1.encodeSpecial = av.encodeSpecial := by
  unfold refresh
  simp only
  split
  · split <;> exact ⟨rfl, rfl, rfl, rfl, rfl⟩
  · exact ⟨rfl, rfl, rfl, rfl, rfl⟩

theorem Inv.congr {m : ModelView} {av av' : AddedVocab} (h : Inv m av) (h1 : av'.map = av.map)
    (h2 : av'.rmap = av.rmap) (h3 : av'.specials = av.specials)
    (h4 : ∀ i s, av'.cache.get i = some s → ∃ t, av.rmap.get i = some t) : Inv m av' :=
  ⟨h1 ▸ h.wf, h2 ▸ h.wfr, by rw [h1, h2]; exact h.inverse, by rw [h1]; exact h.model, by rw [h1]; exact h.nonempty,
    by rw [h1, h3]; exact h.special, by rw [h2, h3]; exact h.flagged, by rw [h2]; exact h4⟩

theorem addTokens_fst (build : List (Str × Nat) → Bool) (m : ModelView) (norm : Norm) (av : AddedVocab)
    (ts : List AddedToken) : ∃ ign r, addLoop m norm ts av (av.nextId m) 0 = (r, ign) ∧
      (av.addTokens build m norm ts).1.map = r.map ∧ (av.addTokens build m norm ts).1.rmap = r.rmap ∧
      (av.addTokens build m norm ts).1.specials = r.specials ∧ (av.addTokens build m norm ts).1.cache = r.cache := by
  unfold addTokens
  cases hl : addLoop m norm ts av (av.nextId m) 0 with
  | mk r ign =>
    refine ⟨ign, r, rfl, ?_⟩
    cases ign with
    | none => exact ⟨rfl, rfl, rfl, rfl⟩
    | some ign =>
      obtain ⟨h1, h2, h3, h4, _⟩ := refresh_same build r
      exact ⟨h1, h2, h3, h4⟩

theorem recache_keys (norm : Norm) : ∀ (l : List (Nat × AddedToken)) (c : AMap Nat Str) (i : Nat) (s : Str),
    (recache norm l c).1.get i = some s → c.get i = some s ∨ ∃ t, (i, t) ∈ l
  | [], c, i, s, h => .inl h
  | (j, t) :: l, c, i, s, h => by
    rw [recache] at h
    cases hn : normalForm norm t with
    | none => rw [hn] at h; exact .inl h
    | some f =>
      rw [hn] at h
      cases f with
      | none =>
        rcases recache_keys norm l c i s h with g | ⟨t', g⟩
        · exact .inl g
        · exact .inr ⟨t', List.mem_cons_of_mem _ g⟩
      | some f =>
        rcases recache_keys norm l _ i s h with g | ⟨t', g⟩
        · rw [AMap.get_insert] at g
          by_cases hj : j = i
          · subst hj; exact .inr ⟨t, List.mem_cons_self⟩
          · rw [if_neg hj] at g; exact .inl g
        · exact .inr ⟨t', List.mem_cons_of_mem _ g⟩

theorem apply_inv {m : ModelView} (hm : m.Ok) (build : List (Str × Nat) → Bool) {av : AddedVocab} (h : Inv m av)
    (op : Op) : Inv m (apply build m av op) ∧
      ∀ c i, av.map.get c = some i → (apply build m av op).map.get c = some i := by
  cases op with
  | add norm ts =>
    obtain ⟨ign, r, e, h1, h2, h3, h4⟩ := addTokens_fst build m norm av ts
    obtain ⟨g1, g2⟩ := addLoop_inv hm norm ts 0 h nextId_fresh
    rw [e] at g1 g2
    refine ⟨g1.congr h1 h2 h3 (fun i s hs => g1.cached i s (h4 ▸ hs)), fun c i hi => ?_⟩
    show (av.addTokens build m norm ts).1.map.get c = some i
    rw [h1]; exact g2 c i hi
  | renormalize norm =>
    have key : ∀ i s, (recache norm av.rmap []).1.get i = some s → ∃ t, av.rmap.get i = some t := by
      intro i s hs
      rcases recache_keys norm _ _ _ _ hs with g | ⟨t, g⟩
      · simp [AMap.get] at g
      · exact ⟨t, AMap.get_eq_some_of_mem h.wfr g⟩
    have hh : (av.refreshNormalized build norm).1.map = av.map ∧ (av.refreshNormalized build norm).1.rmap = av.rmap ∧
        (av.refreshNormalized build norm).1.specials = av.specials ∧
        (av.refreshNormalized build norm).1.cache = (recache norm av.rmap []).1 := by
      unfold refreshNormalized
      simp only
      split
      · obtain ⟨h1, h2, h3, h4, _⟩ := refresh_same build { av with cache := (recache norm av.rmap []).1 }
        exact ⟨h1, h2, h3, h4⟩
      · exact ⟨rfl, rfl, rfl, rfl⟩
    refine ⟨h.congr hh.1 hh.2.1 hh.2.2.1 (fun i s hs => key i s (hh.2.2.2 ▸ hs)), fun c i hi => ?_⟩
    show (av.refreshNormalized build norm).1.map.get c = some i
    rw [hh.1]; exact hi
  | setEncodeSpecial b => exact ⟨h.congr rfl rfl rfl h.cached, fun _ _ hi => hi⟩

theorem after_inv {m : ModelView} (hm : m.Ok) (build : List (Str × Nat) → Bool) : ∀ (ops : List Op) {av : AddedVocab},
    Inv m av → Inv m (after build m av ops) ∧
      ∀ c i, av.map.get c = some i → (after build m av ops).map.get c = some i
  | [], av, h => ⟨h, fun _ _ hi => hi⟩
  | op :: ops, av, h => by
    obtain ⟨h1, h2⟩ := apply_inv hm build h op
    obtain ⟨g1, g2⟩ := after_inv hm build ops h1
    exact ⟨g1, fun c i hi => g2 c i (h2 c i hi)⟩

/-! ## C26 -/

/-- **C26.** After every history the two maps are inverse to each other: `token_to_id` and `id_to_token` on added
tokens. -/
theorem C26_inverse {m : ModelView} (hm : m.Ok) (build : List (Str × Nat) → Bool) (ops : List Op) (c : Str) (i : Nat) :
    (after build m empty ops).map.get c = some i ↔
      ∃ t, (after build m empty ops).rmap.get i = some t ∧ t.content = c :=
  (after_inv hm build ops (inv_empty m)).1.inverse c i

/-- **C26.** `token_to_id` and `id_to_token` are inverse on all tokens, added or not. -/
theorem C26_lookup {m : ModelView} (hm : m.Ok) (build : List (Str × Nat) → Bool) (ops : List Op) (c : Str) (i : Nat) :
    (after build m empty ops).tokenToId m c = some i ↔ (after build m empty ops).idToToken m i = some c := by
  have h := (after_inv hm build ops (inv_empty m)).1
  generalize after build m empty ops = av at h
  unfold tokenToId idToToken
  rw [or_eq_some, or_eq_some]
  constructor
  · rintro (h1 | ⟨h1, h2⟩)
    · obtain ⟨t, g1, g2⟩ := (h.inverse c i).1 h1
      exact .inl (by rw [g1, ← g2]; rfl)
    · right
      refine ⟨?_, (hm.inv c i).1 h2⟩
      cases hr : av.rmap.get i with
      | none => rfl
      | some t =>
        have g := (h.inverse _ _).2 ⟨t, hr, rfl⟩
        rcases h.model _ _ g with k | ⟨_, k⟩
        · have := (hm.inv _ _).1 k
          rw [(hm.inv _ _).1 h2] at this
          have e := Option.some.inj this
          rw [← e, h1] at g; cases g
        · have := hm.lt _ _ h2; omega
  · rintro (h1 | ⟨h1, h2⟩)
    · obtain ⟨t, g1, g2⟩ := Option.map_eq_some_iff.1 h1
      exact .inl ((h.inverse c i).2 ⟨t, g1, g2⟩)
    · right
      refine ⟨?_, (hm.inv c i).2 h2⟩
      cases hr : av.map.get c with
      | none => rfl
      | some j =>
        obtain ⟨t, g1, _⟩ := (h.inverse _ _).1 hr
        rcases h.model _ _ hr with k | ⟨k, _⟩
        · rw [(hm.inv c i).2 h2] at k
          cases k
          rw [Option.map_eq_none_iff, g1] at h1; cases h1
        · rw [(hm.inv c i).2 h2] at k; cases k

/-- **C26.** Different added contents have different ids. -/
theorem C26_distinct {m : ModelView} (hm : m.Ok) (build : List (Str × Nat) → Bool) (ops : List Op) {c c' : Str} {i : Nat}
    (h : (after build m empty ops).map.get c = some i) (h' : (after build m empty ops).map.get c' = some i) :
    c = c' := by
  obtain ⟨t, g1, g2⟩ := (C26_inverse hm build ops c i).1 h
  obtain ⟨t', k1, k2⟩ := (C26_inverse hm build ops c' i).1 h'
  rw [g1] at k1; cases k1
  exact g2.symm.trans k2

/-- **C26.** An added content the model knows has the model's id; any other one has an id no model token uses. -/
theorem C26_model {m : ModelView} (hm : m.Ok) (build : List (Str × Nat) → Bool) (ops : List Op) {c : Str} {i : Nat}
    (h : (after build m empty ops).map.get c = some i) :
    (∀ j, m.toId c = some j → i = j) ∧ (m.toId c = none → m.toToken i = none ∧ ∀ c', m.toId c' ≠ some i) := by
  rcases (after_inv hm build ops (inv_empty m)).1.model c i h with k | ⟨k, k'⟩
  · rw [k]
    exact ⟨fun j hj => Option.some.inj hj, fun hn => (by cases hn)⟩
  · refine ⟨fun j hj => (by rw [k] at hj; cases hj), fun _ => ?_⟩
    have : ∀ c', m.toId c' ≠ some i := fun c' hc => by have := hm.lt _ _ hc; omega
    refine ⟨?_, this⟩
    cases ht : m.toToken i with
    | none => rfl
    | some c' => exact absurd ((hm.inv c' i).2 ht) (this c')

/-- **C26.** An id once assigned never changes. -/
theorem C26_stable {m : ModelView} (hm : m.Ok) (build : List (Str × Nat) → Bool) (ops ops' : List Op) {c : Str} {i : Nat}
    (h : (after build m empty ops).map.get c = some i) :
    (after build m empty (ops ++ ops')).map.get c = some i := by
  rw [after, List.foldl_append]
  exact (after_inv hm build ops' (after_inv hm build ops (inv_empty m)).1).2 c i h

/-- A token that adds nothing: empty, or there already with the same properties. -/
def Known (av : AddedVocab) (t : AddedToken) : Prop :=
  t.content = [] ∨ ∃ i, av.map.get t.content = some i ∧ av.rmap.get i = some t

theorem addLoop_known {m : ModelView} (norm : Norm) {av : AddedVocab} : ∀ (ts : List AddedToken) (next ign : Nat),
    (∀ t ∈ ts, Known av t) → addLoop m norm ts av next ign = (av, some (ign + ts.length))
  | [], _, _, _ => rfl
  | t :: ts, next, ign, h => by
    have ih := addLoop_known (m := m) norm ts next (ign + 1) fun u hu => h u (by simp [hu])
    rw [addLoop, ih, List.length_cons]
    have hk := h t (by simp)
    have e : ign + 1 + ts.length = ign + (ts.length + 1) := by omega
    by_cases hc : t.content = []
    · rw [if_pos hc, e]
    · rw [if_neg hc, if_pos, e]
      rcases hk with hk | ⟨i, h1, h2⟩
      · exact absurd hk hc
      · simp [present, h1, h2]

/-- **C26.** Empty and duplicate additions change no token, whatever state the vocabulary is in, and are not
counted. -/
theorem C26_ignored (build : List (Str × Nat) → Bool) (m : ModelView) (norm : Norm) (av : AddedVocab)
    (ts : List AddedToken) (h : ∀ t ∈ ts, Known av t) :
    (av.addTokens build m norm ts).1.map = av.map ∧ (av.addTokens build m norm ts).1.rmap = av.rmap ∧
    (av.addTokens build m norm ts).1.specials = av.specials ∧ (av.addTokens build m norm ts).1.cache = av.cache ∧
    (∀ n, (av.addTokens build m norm ts).2 = some n → n = 0) := by
  have hl := addLoop_known (m := m) norm ts (av.nextId m) 0 h
  obtain ⟨ign, r, e, h1, h2, h3, h4⟩ := addTokens_fst build m norm av ts
  rw [hl] at e
  cases e
  refine ⟨h1, h2, h3, h4, fun n hn => ?_⟩
  unfold addTokens at hn
  rw [hl] at hn
  simp only at hn
  split at hn
  · simp at hn; exact hn.symm
  · cases hn

/-- **C26.** A new token gets the model's id if the model knows it, its old id if it was there, and otherwise the
first number that is not below the vocabulary size nor used by an added token or one before it. -/
theorem C26_new_id {m : ModelView} (build : List (Str × Nat) → Bool) {norm : Norm} {av : AddedVocab}
    {t : AddedToken} {r : AddedVocab} {n : Nat} (hc : t.content ≠ [])
    (h : av.addTokens build m norm [t] = (r, some n)) :
    ∃ i, r.map.get t.content = some i ∧ r.rmap.get i = some t ∧
      (∀ j, av.map.get t.content = some j → i = j) ∧
      (av.map.get t.content = none → ∀ j, m.toId t.content = some j → i = j) ∧
      (av.map.get t.content = none → m.toId t.content = none → m.size ≤ i ∧
        (∀ j u, av.rmap.get j = some u → j < i) ∧
        (i = m.size ∨ ∃ j u, (j, u) ∈ av.rmap ∧ i = j + 1)) := by
  obtain ⟨ign, r', e, h1, h2, _, _⟩ := addTokens_fst build m norm av [t]
  rw [h] at h1 h2
  simp only at h1 h2
  rw [addLoop, if_neg hc] at e
  by_cases hp : av.present t = true
  · rw [if_pos hp, addLoop] at e
    cases e
    unfold present at hp
    cases hg : av.map.get t.content with
    | none => rw [hg] at hp; cases hp
    | some i =>
      rw [hg] at hp
      exact ⟨i, by rw [h1, hg], by rw [h2]; simpa using hp, fun j hj => Option.some.inj hj, by simp, by simp⟩
  · rw [if_neg hp] at e
    simp only at e
    cases hn : normalForm norm t with
    | none =>
      rw [hn] at e
      have : (av.addTokens build m norm [t]).2 = none := by
        unfold addTokens
        rw [addLoop, if_neg hc, if_neg hp]
        simp only [hn]
      rw [h] at this; cases this
    | some form =>
      rw [hn] at e
      simp only [addLoop] at e
      cases e
      refine ⟨(av.tokenToId m t.content).getD (av.nextId m), ?_, ?_, ?_, ?_, ?_⟩
      · rw [h1]; simp [store, AMap.get_insert]
      · rw [h2]; simp [store, AMap.get_insert]
      · intro j hj; simp [tokenToId, hj]
      · intro h0 j hj; simp [tokenToId, h0, hj]
      · intro h0 h0'
        have hf := nextId_fresh (m := m) (av := av)
        simp only [tokenToId, h0, h0', Option.or_none, Option.getD_none]
        refine ⟨hf.1, hf.2, ?_⟩
        unfold nextId
        cases hmx : (av.rmap.map (·.1)).max? with
        | none => exact .inl rfl
        | some mx =>
          simp only
          split
          · right
            obtain ⟨p, hp, rfl⟩ := List.mem_map.1 (List.max?_mem hmx)
            exact ⟨p.1, p.2, hp, rfl⟩
          · exact .inl rfl

/-- A model with three tokens; `a` is one of them, `<s>` and `<e>` are new, `<s>` is added twice. -/
def sampleModel : ModelView :=
  ⟨fun c => if c = ['a'] then some 0 else if c = ['b'] then some 1 else if c = ['c'] then some 2 else none,
   fun i => if i = 0 then some ['a'] else if i = 1 then some ['b'] else if i = 2 then some ['c'] else none, 3⟩

theorem sampleModel_ok : sampleModel.Ok := by
  constructor
  · intro c i h
    simp only [sampleModel] at h ⊢
    split at h
    · cases h; decide
    · split at h
      · cases h; decide
      · split at h
        · cases h; decide
        · cases h
  · intro c i
    simp only [sampleModel]
    constructor
    · intro h
      split at h
      · cases h; simp_all
      · split at h
        · cases h; simp_all
        · split at h
          · cases h; simp_all
          · cases h
    · intro h
      split at h
      · cases h; simp_all
      · split at h
        · cases h; simp_all
        · split at h
          · cases h; simp_all
          · cases h

example : (after (fun _ => true) sampleModel empty
    [.add none [.ofStr "<s>".toList true, .ofStr ['b'] false, .ofStr [] true],
     .add none [.ofStr "<e>".toList true, .ofStr "<s>".toList true]]).map
    = [("<e>".toList, 4), (['b'], 1), ("<s>".toList, 3)] := by decide +kernel

/-- Where the ids of the model are not `0..n-1`: a new token is given the id of a model token. -/
theorem C26_sparse_ids_collide : ∃ m : ModelView, (∀ c i, m.toId c = some i ↔ m.toToken i = some c) ∧ m.size = 1 ∧
    m.toId ['a'] = some 1 ∧
    (after (fun _ => true) m empty [.add none [.ofStr "<s>".toList true]]).tokenToId m "<s>".toList = some 1 := by
  refine ⟨⟨fun c => if c = ['a'] then some 1 else none, fun i => if i = 1 then some ['a'] else none, 1⟩, ?_, rfl,
    rfl, by decide +kernel⟩
  intro c i
  simp only
  constructor <;> (intro h; split at h <;> simp_all)

/-! ## C28 -/

/-- The tokens of `TokenizerImpl::decode` (`tokenizer/mod.rs:936-947`). -/
def decodeTokens (m : ModelView) (av : AddedVocab) (skip : Bool) (ids : List Nat) : List Str :=
  ids.filterMap fun id =>
    ((av.simpleIdToToken id).or (m.toToken id)).filter fun t => !skip || !av.specials.contains t

/-- `TokenizerImpl::decode` (`tokenizer/mod.rs:935-953`). -/
def decode (oc : Bool) (m : ModelView) (av : AddedVocab) (d : Option Dec.Decoder) (skip : Bool) (ids : List Nat) :
    Option Str :=
  match d with
  | some d => d.decode oc (decodeTokens m av skip ids)
  | none => some ([' '].intercalate (decodeTokens m av skip ids))

/-- What an id stands for when decoding: the added token (in its normalized form), or the model's token. -/
inductive Shows (m : ModelView) (av : AddedVocab) (i : Nat) : Str → Prop
  | plain {t} : av.rmap.get i = some t → av.cache.get i = none → Shows m av i t.content
  | normal {t s} : av.rmap.get i = some t → av.cache.get i = some s → Shows m av i s
  | model {s} : av.rmap.get i = none → m.toToken i = some s → Shows m av i s

/-- The texts of the ids that stand for something and that `keep` keeps, in order. -/
inductive Texts (m : ModelView) (av : AddedVocab) (keep : Nat → Prop) : List Nat → List Str → Prop
  | nil : Texts m av keep [] []
  | keep {i s ids out} : Shows m av i s → keep i → Texts m av keep ids out → Texts m av keep (i :: ids) (s :: out)
  | skip {i s ids out} : Shows m av i s → ¬ keep i → Texts m av keep ids out → Texts m av keep (i :: ids) out
  | unknown {i ids out} : (∀ s, ¬ Shows m av i s) → Texts m av keep ids out → Texts m av keep (i :: ids) out

theorem shows_iff {m : ModelView} {av : AddedVocab} {i : Nat} {s : Str} :
    Shows m av i s ↔ (av.simpleIdToToken i).or (m.toToken i) = some s := by
  unfold simpleIdToToken
  constructor
  · rintro (⟨h1, h2⟩ | ⟨h1, h2⟩ | ⟨h1, h2⟩) <;> simp [h1, h2]
  · intro h
    cases hr : av.rmap.get i with
    | none => rw [hr] at h; exact .model hr (by simpa using h)
    | some t =>
      rw [hr] at h
      cases hc : av.cache.get i with
      | none => rw [hc] at h; simp at h; subst h; exact .plain hr hc
      | some u => rw [hc] at h; simp at h; subst h; exact .normal hr hc

/-- **C28.** Without skipping, all known tokens are decoded, in order; unknown ids are ignored. -/
theorem C28_all (m : ModelView) (av : AddedVocab) (ids : List Nat) :
    Texts m av (fun _ => True) ids (decodeTokens m av false ids) := by
  induction ids with
  | nil => exact .nil
  | cons i ids ih =>
    unfold decodeTokens
    rw [List.filterMap_cons]
    cases h : (av.simpleIdToToken i).or (m.toToken i) with
    | none => exact .unknown (fun s hs => by rw [shows_iff, h] at hs; cases hs) ih
    | some s => exact .keep (shows_iff.2 h) trivial ih

/-- The special tokens are what the flags say, and normalized forms are not mistaken for special tokens. -/
structure Plain (av : AddedVocab) : Prop where
  flag : ∀ i t, av.rmap.get i = some t → t.content ∈ av.specials → t.special = true
  form : ∀ i s t, av.cache.get i = some s → av.rmap.get i = some t → t.special = false ∧ s ∉ av.specials

/-- **C28 (skipping).** Exactly the ids of tokens flagged special are skipped. Missing: the code compares the
*decoded form* with the set of *contents ever added as special*; they must agree (`Plain`, see
`C28_history` for when they do, and `C28_form_not_skipped`, `C28_flag_not_cleared` for when they do not). -/
theorem C28_skip_partial {m : ModelView} (hm : m.Ok) {av : AddedVocab} (h : Inv m av) (hp : Plain av) (ids : List Nat) :
    Texts m av (fun i => ¬ ∃ t, av.rmap.get i = some t ∧ t.special = true) ids (decodeTokens m av true ids) := by
  induction ids with
  | nil => exact .nil
  | cons i ids ih =>
    unfold decodeTokens
    rw [List.filterMap_cons]
    cases hs : (av.simpleIdToToken i).or (m.toToken i) with
    | none => exact .unknown (fun s hs' => by rw [shows_iff, hs] at hs'; cases hs') ih
    | some s =>
      have hshow := shows_iff.2 hs
      have key : s ∈ av.specials ↔ ∃ t, av.rmap.get i = some t ∧ t.special = true := by
        rcases hshow with ⟨h1, h2⟩ | ⟨h1, h2⟩ | ⟨h1, h2⟩
        · constructor
          · intro hx; exact ⟨_, h1, hp.flag _ _ h1 hx⟩
          · rintro ⟨t', h3, h4⟩
            rw [h1] at h3; cases h3
            exact h.flagged _ _ h1 h4
        · obtain ⟨g1, g2⟩ := hp.form _ _ _ h2 h1
          constructor
          · intro hx; exact absurd hx g2
          · rintro ⟨t', h3, h4⟩
            rw [h1] at h3; cases h3
            rw [g1] at h4; cases h4
        · constructor
          · intro hx
            exfalso
            obtain ⟨j, hj⟩ := h.special _ hx
            rcases h.model _ _ hj with k | ⟨k, _⟩
            · rw [(hm.inv _ _).2 h2] at k
              cases k
              obtain ⟨t, g, _⟩ := (h.inverse _ _).1 hj
              rw [h1] at g; cases g
            · rw [(hm.inv _ _).2 h2] at k; cases k
          · rintro ⟨t', h3, _⟩
            rw [h1] at h3; cases h3
      by_cases hx : s ∈ av.specials
      · have : (Option.filter (fun t => !true || !av.specials.contains t) (some s)) = none := by simp [hx]
        simp only [this]
        exact .skip hshow (fun hn => hn (key.1 hx)) ih
      · have : (Option.filter (fun t => !true || !av.specials.contains t) (some s)) = some s := by simp [hx]
        simp only [this]
        exact .keep hshow (fun hn => hx (key.2 hn)) ih

/-! ### When the flags and the set of special tokens agree -/

/-- The tokens added in a history. -/
def tokensOf : List Op → List AddedToken
  | [] => []
  | .add _ ts :: ops => ts ++ tokensOf ops
  | _ :: ops => tokensOf ops

/-- The normalizers used in a history. -/
def normsOf : List Op → List (Str → Option Str)
  | [] => []
  | .add norm _ :: ops => norm.toList ++ normsOf ops
  | .renormalize norm :: ops => norm.toList ++ normsOf ops
  | .setEncodeSpecial _ :: ops => normsOf ops

/-- Where the parts of the state come from. -/
structure From (T : List AddedToken) (N : List (Str → Option Str)) (av : AddedVocab) : Prop where
  token : ∀ i t, av.rmap.get i = some t → t ∈ T
  special : ∀ c ∈ av.specials, ∃ t ∈ T, t.content = c ∧ t.special = true
  cache : ∀ i s, av.cache.get i = some s → ∃ t f, av.rmap.get i = some t ∧ t.normalized = true ∧ f ∈ N ∧
    f t.content = some s

theorem normalForm_some {norm : Norm} {t : AddedToken} {s : Str} (h : normalForm norm t = some (some s)) :
    t.normalized = true ∧ ∃ f, norm = some f ∧ f t.content = some s := by
  unfold normalForm at h
  split at h
  · rename_i hn
    refine ⟨hn, ?_⟩
    cases norm with
    | none => simp at h
    | some f =>
      simp only at h
      cases hf : f t.content with
      | none => rw [hf] at h; cases h
      | some u =>
        rw [hf] at h
        simp only [Option.some.injEq] at h
        split at h
        · cases h
        · cases h; exact ⟨f, rfl, hf⟩
  · simp at h

theorem store_from {T : List AddedToken} {N : List (Str → Option Str)}
    (hsame : ∀ t ∈ T, ∀ t' ∈ T, t.content = t'.content → t = t') {av : AddedVocab} (h : From T N av)
    {t : AddedToken} (ht : t ∈ T) {norm : Norm} (hN : ∀ f, norm = some f → f ∈ N) {id : Nat}
    (hold : ∀ t', av.rmap.get id = some t' → t'.content = t.content) {form : Option Str}
    (hform : normalForm norm t = some form) : From T N (av.store id t form) := by
  have hgetr : ∀ i, (av.store id t form).rmap.get i = if id = i then some t else av.rmap.get i := by
    intro i; exact AMap.get_insert _ _ _ _
  refine ⟨?_, ?_, ?_⟩
  · intro i t' hi
    rw [hgetr] at hi
    split at hi
    · cases hi; exact ht
    · exact h.token i t' hi
  · intro c hc
    simp only [store] at hc
    split at hc
    · rename_i hs
      rcases List.mem_cons.1 hc with e | e
      · exact ⟨t, ht, e.symm, hs.1⟩
      · exact h.special c e
    · exact h.special c hc
  · intro i s hs
    rw [hgetr]
    have keep : av.cache.get i = some s → ∃ t' f, (if id = i then some t else av.rmap.get i) = some t' ∧
        t'.normalized = true ∧ f ∈ N ∧ f t'.content = some s := by
      intro hs
      obtain ⟨t', f, h1, h2, h3, h4⟩ := h.cache i s hs
      by_cases hi : id = i
      · subst hi
        have := hsame _ (h.token _ _ h1) _ ht (hold _ h1)
        subst this
        exact ⟨t', f, by rw [if_pos rfl], h2, h3, h4⟩
      · exact ⟨t', f, by rw [if_neg hi, h1], h2, h3, h4⟩
    cases form with
    | none => exact keep hs
    | some u =>
      simp only [store] at hs
      rw [AMap.get_insert] at hs
      by_cases hi : id = i
      · rw [if_pos hi] at hs
        cases hs
        obtain ⟨h2, f, h3, h4⟩ := normalForm_some hform
        exact ⟨t, f, by rw [if_pos hi], h2, hN f h3, h4⟩
      · rw [if_neg hi] at hs; exact keep hs

theorem addLoop_from {m : ModelView} (hm : m.Ok) {T : List AddedToken} {N : List (Str → Option Str)}
    (hsame : ∀ t ∈ T, ∀ t' ∈ T, t.content = t'.content → t = t') {norm : Norm} (hN : ∀ f, norm = some f → f ∈ N) :
    ∀ (ts : List AddedToken) {av : AddedVocab} {next : Nat} (ign : Nat), (∀ t ∈ ts, t ∈ T) → Inv m av →
      Fresh m av next → From T N av → From T N (addLoop m norm ts av next ign).1
  | [], _, _, _, _, _, _, h => h
  | t :: ts, av, next, ign, hT, hi, hf, h => by
    have hT' : ∀ t ∈ ts, t ∈ T := fun u hu => hT u (by simp [hu])
    rw [addLoop]
    split
    · exact addLoop_from hm hsame hN ts _ hT' hi hf h
    · rename_i hc
      split
      · exact addLoop_from hm hsame hN ts _ hT' hi hf h
      · simp only
        cases hn : normalForm norm t with
        | none => exact h
        | some form =>
          obtain ⟨h1, h2, _⟩ := store_inv hm hi hf hc form
          exact addLoop_from hm hsame hN ts ign hT' h1 h2
            (store_from hsame h (hT t (by simp)) hN (fun t' => id_old hm hi hf t) hn)

theorem From.congr {T : List AddedToken} {N : List (Str → Option Str)} {av av' : AddedVocab} (h : From T N av)
    (h2 : av'.rmap = av.rmap) (h3 : av'.specials = av.specials) (h4 : av'.cache = av.cache) : From T N av' :=
  ⟨by rw [h2]; exact h.token, by rw [h3]; exact h.special, by rw [h2, h4]; exact h.cache⟩

theorem recache_from {N : List (Str → Option Str)} {norm : Norm} (hN : ∀ f, norm = some f → f ∈ N) :
    ∀ (l : List (Nat × AddedToken)) (c : AMap Nat Str) (i : Nat) (s : Str),
    (recache norm l c).1.get i = some s → c.get i = some s ∨
      ∃ t f, (i, t) ∈ l ∧ t.normalized = true ∧ f ∈ N ∧ f t.content = some s
  | [], c, i, s, h => .inl h
  | (j, t) :: l, c, i, s, h => by
    have up : (∃ t' f, (i, t') ∈ l ∧ t'.normalized = true ∧ f ∈ N ∧ f t'.content = some s) →
        ∃ t' f, (i, t') ∈ (j, t) :: l ∧ t'.normalized = true ∧ f ∈ N ∧ f t'.content = some s :=
      fun ⟨t', f, h1, h2⟩ => ⟨t', f, List.mem_cons_of_mem _ h1, h2⟩
    rw [recache] at h
    cases hn : normalForm norm t with
    | none => rw [hn] at h; exact .inl h
    | some form =>
      rw [hn] at h
      cases form with
      | none => exact (recache_from hN l c i s h).imp_right up
      | some u =>
        rcases recache_from hN l _ i s h with g | g
        · rw [AMap.get_insert] at g
          by_cases hj : j = i
          · rw [if_pos hj] at g
            cases g
            obtain ⟨h2, f, h3, h4⟩ := normalForm_some hn
            exact .inr ⟨t, f, by rw [hj]; exact List.mem_cons_self, h2, hN f h3, h4⟩
          · rw [if_neg hj] at g; exact .inl g
        · exact .inr (up g)

theorem after_from {m : ModelView} (hm : m.Ok) (build : List (Str × Nat) → Bool) {T : List AddedToken}
    {N : List (Str → Option Str)} (hsame : ∀ t ∈ T, ∀ t' ∈ T, t.content = t'.content → t = t') :
    ∀ (ops : List Op) {av : AddedVocab}, (∀ t ∈ tokensOf ops, t ∈ T) → (∀ f ∈ normsOf ops, f ∈ N) → Inv m av →
      From T N av → From T N (after build m av ops)
  | [], _, _, _, _, h => h
  | op :: ops, av, hT, hN, hi, h => by
    show From T N (after build m (apply build m av op) ops)
    have hi' := (apply_inv hm build hi op).1
    cases op with
    | add norm ts =>
      refine after_from hm build hsame ops (fun t ht => hT t (by simp [tokensOf, ht]))
        (fun f hf => hN f (by simp [normsOf, hf])) hi' ?_
      obtain ⟨ign, r, e, _, h2, h3, h4⟩ := addTokens_fst build m norm av ts
      have g := addLoop_from hm hsame (N := N) (norm := norm)
        (fun f hf => hN f (by simp [normsOf, hf])) ts 0 (fun t ht => hT t (by simp [tokensOf, ht])) hi nextId_fresh h
      rw [e] at g
      exact g.congr h2 h3 h4
    | renormalize norm =>
      refine after_from hm build hsame ops (fun t ht => hT t ht) (fun f hf => hN f (by simp [normsOf, hf])) hi' ?_
      have key : From T N { av with cache := (recache norm av.rmap []).1 } := by
        refine ⟨h.token, h.special, fun i s hs => ?_⟩
        rcases recache_from (N := N) (fun f hf => hN f (by simp [normsOf, hf])) _ _ _ _ hs with g | ⟨t, f, g1, g2⟩
        · simp [AMap.get] at g
        · exact ⟨t, f, AMap.get_eq_some_of_mem hi.wfr g1, g2⟩
      show From T N (av.refreshNormalized build norm).1
      unfold refreshNormalized
      simp only
      split
      · obtain ⟨_, h2, h3, h4, _⟩ := refresh_same build { av with cache := (recache norm av.rmap []).1 }
        exact key.congr h2 h3 h4
      · exact key
    | setEncodeSpecial b =>
      exact after_from hm build hsame ops (fun t ht => hT t ht) (fun f hf => hN f hf) hi' (h.congr rfl rfl rfl)

/-- **C28 (histories).** After every history in which no content is added with two different sets of properties,
special tokens are not normalized (the default, `AddedToken::from`) and no normalized token has the text of a special
token as normalized form, skipping drops exactly the ids of the special tokens. -/
theorem C28_history_partial {m : ModelView} (hm : m.Ok) (build : List (Str × Nat) → Bool) (ops : List Op)
    (hsame : ∀ t ∈ tokensOf ops, ∀ t' ∈ tokensOf ops, t.content = t'.content → t = t')
    (hraw : ∀ t ∈ tokensOf ops, t.special = true → t.normalized = false)
    (hform : ∀ f ∈ normsOf ops, ∀ t ∈ tokensOf ops, ∀ t' ∈ tokensOf ops, t.normalized = true → t'.special = true →
      f t.content ≠ some t'.content)
    (ids : List Nat) :
    Texts m (after build m empty ops)
      (fun i => ¬ ∃ t, (after build m empty ops).rmap.get i = some t ∧ t.special = true) ids
      (decodeTokens m (after build m empty ops) true ids) := by
  have hi := (after_inv hm build ops (inv_empty m)).1
  have hfr : From (tokensOf ops) (normsOf ops) (after build m empty ops) :=
    after_from hm build hsame ops (fun _ h => h) (fun _ h => h) (inv_empty m)
      ⟨by simp [empty, AMap.get], by simp [empty], by simp [empty, AMap.get]⟩
  refine C28_skip_partial hm hi ⟨?_, ?_⟩ ids
  · intro i t h1 h2
    obtain ⟨t', g1, g2, g3⟩ := hfr.special _ h2
    rw [hsame _ (hfr.token _ _ h1) _ g1 g2.symm]
    exact g3
  · intro i s t h1 h2
    obtain ⟨t', f, g1, g2, g3, g4⟩ := hfr.cache _ _ h1
    rw [h2] at g1
    cases g1
    refine ⟨?_, fun hs => ?_⟩
    · cases hsp : t.special with
      | false => rfl
      | true =>
        have := hraw _ (hfr.token _ _ h2) hsp
        rw [this] at g2; cases g2
    · obtain ⟨t', k1, k2, k3⟩ := hfr.special _ hs
      exact hform f g3 t (hfr.token _ _ h2) t' k1 g2 k3 (by rw [k2]; exact g4)

/-- A normalizer that writes `X` for `x`. -/
def upX : Str → Option Str := fun s => some (s.map fun c => if c = 'x' then 'X' else c)

example : decodeTokens sampleModel (after (fun _ => true) sampleModel empty
    [.add (some upX) [.ofStr "<s>".toList true, .ofStr "xy".toList false]]) true [3, 0, 4, 3, 9]
    = [['a'], "Xy".toList] := by decide +kernel

/-- The hypotheses of `C28_history_partial` for that history. -/
example : ∀ f ∈ normsOf [Op.add (some upX) [.ofStr "<s>".toList true, .ofStr "xy".toList false]],
    ∀ t ∈ tokensOf [Op.add (some upX) [.ofStr "<s>".toList true, .ofStr "xy".toList false]],
    ∀ t' ∈ tokensOf [Op.add (some upX) [.ofStr "<s>".toList true, .ofStr "xy".toList false]],
    t.normalized = true → t'.special = true → f t.content ≠ some t'.content := by decide +kernel

/-- **C28, negation.** A special token that is normalized to another text is *not* skipped: the set of special tokens
holds its content, the decoded text is its normalized form. -/
theorem C28_form_not_skipped :
    (after (fun _ => true) sampleModel empty
      [.add (some upX) [{ content := "<x>".toList, special := true, normalized := true }]]).rmap.get 3
        = some { content := "<x>".toList, special := true, normalized := true } ∧
    decodeTokens sampleModel (after (fun _ => true) sampleModel empty
      [.add (some upX) [{ content := "<x>".toList, special := true, normalized := true }]]) true [3]
        = ["<X>".toList] := by decide +kernel

/-- **C28, negation.** A token added again as not special is still skipped. -/
theorem C28_flag_not_cleared :
    (after (fun _ => true) sampleModel empty [.add none [.ofStr "<s>".toList true],
      .add none [.ofStr "<s>".toList false]]).rmap.get 3 = some (.ofStr "<s>".toList false) ∧
    decodeTokens sampleModel (after (fun _ => true) sampleModel empty [.add none [.ofStr "<s>".toList true],
      .add none [.ofStr "<s>".toList false]]) true [3] = [] := by decide +kernel

/-- **C28, negation.** A token added again as not normalized is still decoded in its old normalized form. -/
theorem C28_stale_form :
    (after (fun _ => true) sampleModel empty [.add (some upX) [.ofStr "<x>".toList false],
      .add (some upX) [.ofStr "<x>".toList true]]).rmap.get 3 = some (.ofStr "<x>".toList true) ∧
    decodeTokens sampleModel (after (fun _ => true) sampleModel empty [.add (some upX) [.ofStr "<x>".toList false],
      .add (some upX) [.ofStr "<x>".toList true]]) true [3] = ["<X>".toList] := by decide +kernel

/-- The text of a decoded sequence: the decoder applied to the kept texts, or these joined by spaces. -/
theorem C28_decode (oc : Bool) (m : ModelView) (av : AddedVocab) (skip : Bool) (ids : List Nat) :
    (∀ d, decode oc m av (some d) skip ids = d.decode oc (decodeTokens m av skip ids)) ∧
    decode oc m av none skip ids = some ([' '].intercalate (decodeTokens m av skip ids)) := ⟨fun _ => rfl, rfl⟩

/-- An error of the normalizer leaves the tokens before it added, but not searched for: the automata are those of
before. -/
theorem C26_error_midway :
    let r := empty.addTokens (fun _ => true) sampleModel (some fun s => if s = ['?'] then none else some s)
      [.ofStr "<s>".toList true, .ofStr ['?'] false, .ofStr "<e>".toList true]
    r.2 = none ∧ r.1.map = [("<s>".toList, 3)] ∧ r.1.trie = [] := by decide +kernel

end AddedVocab
end Tok
