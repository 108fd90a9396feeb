import Verif.Added.Vocab

/-!
# C101: ids of tokenizers whose models are shared, assigned and trained

In the Python and the Node bindings a model is an `Arc<RwLock<ModelWrapper>>` (`bindings/python/src/models.rs:31-34`,
`bindings/node/src/models.rs:16-21`). `Tokenizer(model)`, `tokenizer.model = model` and the getter `tokenizer.model` copy the `Arc`,
so several tokenizers may hold one model. Training writes through the lock (`bindings/python/src/trainers.rs:95-100`). The added
vocabulary belongs to the tokenizer; nothing looks at it again when the model changes.
-/

namespace Tok.SharedModels

open AddedVocab

/-- The objects of a program: the contents of the locks, and for every tokenizer the lock it holds, its normalizer and its added
vocabulary. (Of a model only the ids of its tokens are kept.) -/
structure World where
  cells : Nat → ModelView
  held : Nat → Nat
  norm : Nat → Norm
  added : Nat → AddedVocab

/-- What a program does. `fresh k c`: tokenizer `k` is a new one around the model in lock `c` (`bindings/python/src/tokenizer.rs:680-684`,
which makes a `TokenizerImpl::new(model.clone())`). `assign k c`: the setter of `model`
(`bindings/python/src/tokenizer.rs:1886-1891`, `bindings/node/src/tokenizer.rs:223-226`). `normalizer`, `add`, `train`: the setter of
the normalizer, `add_tokens` and `add_special_tokens`, and `train` or `train_from_iterator`. -/
inductive Deed where
  | fresh (k c : Nat)
  | assign (k c : Nat)
  | normalizer (k : Nat) (n : Norm)
  | add (k : Nat) (ts : List AddedToken)
  | train (k : Nat) (m : ModelView) (specials : List AddedToken)

/-- A function changed at one place. -/
def put {α : Type} (f : Nat → α) (k : Nat) (a : α) : Nat → α := fun i => if i = k then a else f i

/-- The model of a tokenizer. -/
def World.model (w : World) (k : Nat) : ModelView := w.cells (w.held k)

/-- One deed. `train` (`tokenizer/mod.rs:1492-1539`) leaves the model the trainer makes in the lock and adds the trainer's special
tokens to the tokenizer it was called on; what the trainer makes is a parameter here (`Train/*.lean`), and trainings that fail,
which leave everything as it was, are left out. -/
def World.step (build : List (Str × Nat) → Bool) (w : World) : Deed → World
  | .fresh k c => { w with held := put w.held k c, norm := put w.norm k none, added := put w.added k .empty }
  | .assign k c => { w with held := put w.held k c }
  | .normalizer k n => { w with norm := put w.norm k n, added := put w.added k ((w.added k).refreshNormalized build n).1 }
  | .add k ts => { w with added := put w.added k ((w.added k).addTokens build (w.model k) (w.norm k) ts).1 }
  | .train k m specials =>
    { w with cells := put w.cells (w.held k) m
             added := put w.added k ((w.added k).addTokens build m (w.norm k) specials).1 }

/-- All tokenizers new. -/
def World.start (cells : Nat → ModelView) : World := ⟨cells, fun _ => 0, fun _ => none, fun _ => .empty⟩

/-- A program. -/
def World.run (build : List (Str × Nat) → Bool) (w : World) (ds : List Deed) : World := ds.foldl (World.step build) w

/-! ## Specification -/

/-- What `token_to_id` and `id_to_token` of tokenizer `k` should be: inverse to each other, and on the tokens of the model what the
model says, so that an id the model gives stands for the token the model means. -/
def World.Agrees (w : World) (k : Nat) : Prop :=
  (∀ c i, (w.added k).tokenToId (w.model k) c = some i ↔ (w.added k).idToToken (w.model k) i = some c) ∧
  ∀ c i, (w.model k).toId c = some i →
    (w.added k).tokenToId (w.model k) c = some i ∧ (w.added k).idToToken (w.model k) i = some c

/-- The claim for all programs. -/
def AlwaysAgrees : Prop := ∀ (build : List (Str × Nat) → Bool) (cells : Nat → ModelView) (ds : List Deed) (k : Nat),
  (∀ c, (cells c).Ok) → (∀ j m sp, .train j m sp ∈ ds → m.Ok) → ((World.start cells).run build ds).Agrees k

/-- Every added token has the id the model has for it, or is unknown to the model and has an id the model does not use. -/
def Fits (m : ModelView) (av : AddedVocab) : Prop := ∀ c i, av.map.get c = some i →
  m.toId c = some i ∨ (m.toId c = none ∧ m.size ≤ i)

/-- The deed does not put a model under added tokens that do not fit it: when a tokenizer gets a model, the tokens it has already
fit it; when a model is trained, the tokens of all tokenizers that hold it fit what comes out. -/
def Careful (w : World) : Deed → Prop
  | .assign k c => Fits (w.cells c) (w.added k)
  | .train k m _ => ∀ j, w.held j = w.held k → Fits m (w.added j)
  | _ => True

/-- A program all of whose deeds are careful. -/
def CarefulRun (build : List (Str × Nat) → Bool) : World → List Deed → Prop
  | _, [] => True
  | w, d :: ds => Careful w d ∧ CarefulRun build (w.step build d) ds

/-- All ids below the size are in use, as after training. -/
def Dense (m : ModelView) : Prop := ∀ i, i < m.size → m.toToken i ≠ none

/-! ## Proofs -/

@[simp] theorem put_same {α : Type} (f : Nat → α) (k : Nat) (a : α) : put f k a k = a := by simp [put]

theorem put_other {α : Type} (f : Nat → α) {k i : Nat} (a : α) (h : i ≠ k) : put f k a i = f i := by simp [put, h]

/-- The invariant of an added vocabulary with another model. -/
theorem Inv.refit {m m' : ModelView} {av : AddedVocab} (h : Inv m av) (hf : Fits m' av) : Inv m' av :=
  ⟨h.wf, h.wfr, h.inverse, hf, h.nonempty, h.special, h.flagged, h.cached⟩

/-- `token_to_id` and `id_to_token` as they should be, for one model and one added vocabulary. -/
def Right (m : ModelView) (av : AddedVocab) : Prop :=
  (∀ c i, av.tokenToId m c = some i ↔ av.idToToken m i = some c) ∧
  ∀ c i, m.toId c = some i → av.tokenToId m c = some i ∧ av.idToToken m i = some c

/-- Added tokens that fit, with two maps that are inverse to each other. -/
theorem right_of_fits {m m' : ModelView} (hm : m'.Ok) {av : AddedVocab} (h : Inv m av) (hf : Fits m' av) : Right m' av := by
  constructor
  · intro c i
    unfold tokenToId idToToken
    rw [or_eq_some, or_eq_some]
    constructor
    · rintro (h1 | ⟨h1, h2⟩)
      · obtain ⟨t, g1, g2⟩ := (h.inverse c i).1 h1
        exact .inl (by rw [g1, ← g2]; rfl)
      · refine .inr ⟨?_, (hm.inv c i).1 h2⟩
        cases hr : av.rmap.get i with
        | none => rfl
        | some t =>
          have g := (h.inverse _ _).2 ⟨t, hr, rfl⟩
          rcases hf _ _ g with k | ⟨_, k⟩
          · have := (hm.inv _ _).1 k
            rw [(hm.inv _ _).1 h2] at this
            rw [← Option.some.inj this, h1] at g
            cases g
          · have := hm.lt _ _ h2; omega
    · rintro (h1 | ⟨h1, h2⟩)
      · obtain ⟨t, g1, g2⟩ := Option.map_eq_some_iff.1 h1
        exact .inl ((h.inverse c i).2 ⟨t, g1, g2⟩)
      · refine .inr ⟨?_, (hm.inv c i).2 h2⟩
        cases hr : av.map.get c with
        | none => rfl
        | some j =>
          obtain ⟨t, g1, _⟩ := (h.inverse _ _).1 hr
          rcases hf _ _ hr with k | ⟨k, _⟩
          · rw [(hm.inv c i).2 h2] at k
            cases k
            rw [Option.map_eq_none_iff, g1] at h1
            cases h1
          · rw [(hm.inv c i).2 h2] at k; cases k
  · intro c i hc
    have key : av.map.get c = none ∨ av.map.get c = some i := by
      cases hr : av.map.get c with
      | none => exact .inl rfl
      | some j =>
        rcases hf _ _ hr with k | ⟨k, _⟩
        · rw [hc] at k; exact .inr k.symm
        · rw [hc] at k; cases k
    have keyr : av.rmap.get i = none ∨ ∃ t, av.rmap.get i = some t ∧ t.content = c := by
      cases hr : av.rmap.get i with
      | none => exact .inl rfl
      | some t =>
        have g := (h.inverse _ _).2 ⟨t, hr, rfl⟩
        rcases hf _ _ g with k | ⟨_, k⟩
        · have := (hm.inv _ _).1 k
          rw [(hm.inv _ _).1 hc] at this
          exact .inr ⟨t, rfl, (Option.some.inj this).symm⟩
        · have := hm.lt _ _ hc; omega
    constructor
    · unfold tokenToId
      rcases key with k | k
      · rw [k]; simpa using hc
      · rw [k]; rfl
    · unfold idToToken
      rcases keyr with k | ⟨t, k, e⟩
      · rw [k]; simpa using (hm.inv _ _).1 hc
      · rw [k, ← e]; rfl

/-- Added tokens that do not fit are never right, whatever the two maps. -/
theorem fits_of_right {m : ModelView} (hm : m.Ok) (hd : Dense m) {av : AddedVocab} (h : Right m av) : Fits m av := by
  intro c i hi
  have h1 : av.tokenToId m c = some i := by unfold tokenToId; rw [hi]; rfl
  cases hc : m.toId c with
  | some j =>
    have := (h.2 c j hc).1
    rw [h1] at this
    exact .inl this.symm
  | none =>
    refine .inr ⟨rfl, Nat.le_of_not_lt fun hlt => ?_⟩
    cases ht : m.toToken i with
    | none => exact hd i hlt ht
    | some c' =>
      have h2 := (h.2 c' i ((hm.inv _ _).2 ht)).2
      rw [(h.1 c i).1 h1] at h2
      cases h2
      rw [(hm.inv _ _).2 ht] at hc
      cases hc

/-- An id given to a content stays, whatever the model has become. -/
theorem addLoop_keeps (m : ModelView) (norm : Norm) : ∀ (ts : List AddedToken) (av : AddedVocab) (next ign : Nat) (c : Str) (i : Nat),
    av.map.get c = some i → (addLoop m norm ts av next ign).1.map.get c = some i
  | [], _, _, _, _, _, h => h
  | t :: ts, av, next, ign, c, i, h => by
    rw [addLoop]
    split
    · exact addLoop_keeps m norm ts _ _ _ c i h
    · split
      · exact addLoop_keeps m norm ts _ _ _ c i h
      · simp only
        cases hn : normalForm norm t with
        | none => exact h
        | some form =>
          refine addLoop_keeps m norm ts _ _ _ c i ?_
          show (av.map.insert t.content _).get c = some i
          rw [AMap.get_insert]
          split
          · rename_i e
            subst e
            unfold tokenToId
            rw [h]; rfl
          · exact h

theorem addTokens_keeps (build : List (Str × Nat) → Bool) (m : ModelView) (norm : Norm) (ts : List AddedToken) (av : AddedVocab)
    (c : Str) (i : Nat) (h : av.map.get c = some i) : (av.addTokens build m norm ts).1.map.get c = some i := by
  obtain ⟨ign, r, e, h1, -⟩ := addTokens_fst build m norm av ts
  rw [h1]
  have := addLoop_keeps m norm ts av (av.nextId m) 0 c i h
  rw [e] at this
  exact this

/-- Everything in order. -/
structure Good (w : World) : Prop where
  ok : ∀ c, (w.cells c).Ok
  inv : ∀ k, Inv (w.model k) (w.added k)

theorem Good.start {cells : Nat → ModelView} (h : ∀ c, (cells c).Ok) : Good (.start cells) := ⟨h, fun _ => inv_empty _⟩

theorem Good.agrees {w : World} (h : Good w) (k : Nat) : w.Agrees k := right_of_fits (h.ok _) (h.inv k) (h.inv k).model

theorem model_put {w : World} {j c : Nat} {m : ModelView} (n : Nat → Norm) (a : Nat → AddedVocab) :
    (⟨put w.cells c m, w.held, n, a⟩ : World).model j = if w.held j = c then m else w.model j := by
  simp only [World.model, put]

theorem Good.step {build : List (Str × Nat) → Bool} {w : World} (h : Good w) {d : Deed} (hc : Careful w d)
    (hd : ∀ k m sp, d = .train k m sp → m.Ok) : Good (w.step build d) := by
  cases d with
  | fresh k c =>
    refine ⟨h.ok, fun j => ?_⟩
    by_cases hj : j = k
    · subst hj
      simp only [World.step, World.model, put_same]
      exact inv_empty _
    · simp only [World.step, World.model, put_other _ _ hj]
      exact h.inv j
  | assign k c =>
    refine ⟨h.ok, fun j => ?_⟩
    by_cases hj : j = k
    · subst hj
      simp only [World.step, World.model, put_same]
      exact Inv.refit (h.inv j) hc
    · simp only [World.step, World.model, put_other _ _ hj]
      exact h.inv j
  | normalizer k n =>
    refine ⟨h.ok, fun j => ?_⟩
    by_cases hj : j = k
    · subst hj
      simp only [World.step, World.model, put_same]
      exact (apply_inv (h.ok _) build (h.inv j) (.renormalize n)).1
    · simp only [World.step, World.model, put_other _ _ hj]
      exact h.inv j
  | add k ts =>
    refine ⟨h.ok, fun j => ?_⟩
    by_cases hj : j = k
    · subst hj
      simp only [World.step, World.model, put_same]
      exact (apply_inv (h.ok _) build (h.inv j) (.add (w.norm j) ts)).1
    · simp only [World.step, World.model, put_other _ _ hj]
      exact h.inv j
  | train k m sp =>
    have hm := hd k m sp rfl
    refine ⟨fun c => ?_, fun j => ?_⟩
    · show (put w.cells (w.held k) m c).Ok
      unfold put
      split
      · exact hm
      · exact h.ok c
    · have hfit : w.held j = w.held k → Inv m (w.added j) := fun e => Inv.refit (h.inv j) (hc j e)
      show Inv (World.model ⟨put w.cells (w.held k) m, w.held, _, _⟩ j) _
      rw [model_put]
      by_cases hj : j = k
      · subst hj
        rw [if_pos rfl]
        simp only [World.step, put_same]
        exact (apply_inv hm build (hfit rfl) (.add (w.norm j) sp)).1
      · simp only [World.step, put_other _ _ hj]
        split
        · rename_i e; exact hfit e
        · exact h.inv j

theorem Good.run {build : List (Str × Nat) → Bool} : ∀ {ds : List Deed} {w : World}, Good w → CarefulRun build w ds →
    (∀ k m sp, .train k m sp ∈ ds → m.Ok) → Good (w.run build ds)
  | [], _, h, _, _ => h
  | d :: ds, w, h, hc, hm => by
    have h1 := h.step (build := build) hc.1 fun k m sp e => hm k m sp (by rw [e]; exact List.mem_cons_self)
    exact Good.run (ds := ds) h1 hc.2 fun k m sp e => hm k m sp (List.mem_cons_of_mem _ e)

/-- **C101 (partial).** In a program that never puts a model under added tokens that do not fit it, `token_to_id` and
`id_to_token` of all tokenizers are inverse to each other and agree with the model, whatever is shared, assigned, added and
trained. Missing: programs that are not careful; `C101_collides` shows that the claim is false for them, `C101_exact` that the
condition is the right one. -/
theorem C101_careful_partial {build : List (Str × Nat) → Bool} {cells : Nat → ModelView} {ds : List Deed}
    (hcells : ∀ c, (cells c).Ok) (hm : ∀ k m sp, .train k m sp ∈ ds → m.Ok) (hc : CarefulRun build (.start cells) ds) (k : Nat) :
    ((World.start cells).run build ds).Agrees k :=
  (Good.run (.start hcells) hc hm).agrees k

/-- **C101.** The condition is exact: after a careful program, a training leaves a tokenizer that holds the trained model in order
if and only if the tokens it had before fit what came out, and an assignment of a model if and only if the tokens the tokenizer
has fit that model. (For models whose ids have no gaps.) -/
theorem C101_exact {build : List (Str × Nat) → Bool} {cells : Nat → ModelView} {ds : List Deed}
    (hcells : ∀ c, (cells c).Ok) (hm : ∀ k m sp, .train k m sp ∈ ds → m.Ok) (hc : CarefulRun build (.start cells) ds) :
    let w := (World.start cells).run build ds
    (∀ (k : Nat) (m : ModelView) (sp : List AddedToken), m.Ok → Dense m → ∀ j, w.held j = w.held k →
      ((w.step build (.train k m sp)).Agrees j ↔ Fits m (w.added j))) ∧
    ∀ k c, Dense (w.cells c) → ((w.step build (.assign k c)).Agrees k ↔ Fits (w.cells c) (w.added k)) := by
  intro w
  have hg : Good w := Good.run (.start hcells) hc hm
  clear_value w
  refine ⟨fun k m sp hmk hd j hj => ?_, fun k c hd => ?_⟩
  · have hmod : (w.step build (.train k m sp)).model j = m := by
      show World.model ⟨put w.cells (w.held k) m, w.held, _, _⟩ j = m
      rw [model_put, if_pos hj]
    unfold World.Agrees
    rw [hmod]
    by_cases e : j = k
    · subst e
      simp only [World.step, put_same]
      constructor
      · intro h c i hi
        exact fits_of_right hmk hd h c i (addTokens_keeps build m _ sp _ c i hi)
      · intro hf
        have hi := (apply_inv hmk build (Inv.refit (hg.inv j) hf) (.add (w.norm j) sp)).1
        exact right_of_fits hmk hi hi.model
    · simp only [World.step, put_other _ _ e]
      exact ⟨fits_of_right hmk hd, right_of_fits hmk (hg.inv j)⟩
  · have hmod : (w.step build (.assign k c)).model k = w.cells c := by simp [World.step, World.model]
    unfold World.Agrees
    rw [hmod]
    exact ⟨fits_of_right (hg.ok c) hd, right_of_fits (hg.ok c) (hg.inv k)⟩

/-- **C101.** What a deed leaves alone: a tokenizer that is not the one it is done to and does not hold the lock that is written
has the same model and the same added tokens afterwards. A tokenizer that shares the trained model has the new model, and the
added tokens it had: the special tokens of the training are added to the tokenizer that was trained only. -/
theorem C101_others (build : List (Str × Nat) → Bool) (w : World) (j : Nat) :
    (∀ k c, j ≠ k → (w.step build (.assign k c)).model j = w.model j ∧ (w.step build (.assign k c)).added j = w.added j) ∧
    (∀ k ts, (w.step build (.add k ts)).model j = w.model j ∧
      (j ≠ k → (w.step build (.add k ts)).added j = w.added j)) ∧
    (∀ k m sp, j ≠ k → (w.step build (.train k m sp)).added j = w.added j ∧
      (w.held j = w.held k → (w.step build (.train k m sp)).model j = m) ∧
      (w.held j ≠ w.held k → (w.step build (.train k m sp)).model j = w.model j)) := by
  refine ⟨fun k c h => ?_, fun k ts => ⟨rfl, fun h => put_other _ _ h⟩, fun k m sp h => ⟨put_other _ _ h, fun e => ?_, fun e => ?_⟩⟩
  · simp only [World.step, World.model, put_other _ _ h, and_self]
  · show World.model ⟨put w.cells (w.held k) m, w.held, _, _⟩ j = m
    rw [model_put, if_pos e]
  · show World.model ⟨put w.cells (w.held k) m, w.held, _, _⟩ j = _
    rw [model_put, if_neg e]

/-! ### Training again -/

/-- The model has the given ids for the special tokens. (All four trainers number the special tokens before anything else, so
that their ids depend on the list only: `C41_first_tokens`, `C40_vocab`, `C61_model`.) -/
def Numbers (ids : Str → Nat) (sp : List AddedToken) (m : ModelView) : Prop := ∀ t ∈ sp, m.toId t.content = some (ids t.content)

/-- The added tokens are of `sp` and have these ids. -/
def Only (ids : Str → Nat) (sp : List AddedToken) (av : AddedVocab) : Prop :=
  ∀ c i, av.map.get c = some i → ids c = i ∧ ∃ t ∈ sp, t.content = c

theorem Only.fits {ids : Str → Nat} {sp : List AddedToken} {m : ModelView} {av : AddedVocab} (h : Only ids sp av) (hm : Numbers ids sp m) : Fits m av := by
  intro c i hi
  obtain ⟨h1, t, h2, h3⟩ := h c i hi
  have := hm t h2
  rw [h3, h1] at this
  exact .inl this

theorem addLoop_only {ids : Str → Nat} {sp : List AddedToken} {m : ModelView} (hm : Numbers ids sp m) (norm : Norm) : ∀ (ts : List AddedToken)
    (av : AddedVocab) (next ign : Nat), (∀ t ∈ ts, t ∈ sp) → Only ids sp av → Only ids sp (addLoop m norm ts av next ign).1
  | [], _, _, _, _, h => h
  | t :: ts, av, next, ign, hs, h => by
    have hs' : ∀ t ∈ ts, t ∈ sp := fun t ht => hs t (List.mem_cons_of_mem _ ht)
    rw [addLoop]
    split
    · exact addLoop_only hm norm ts _ _ _ hs' h
    · split
      · exact addLoop_only hm norm ts _ _ _ hs' h
      · simp only
        cases hn : normalForm norm t with
        | none => exact h
        | some form =>
          refine addLoop_only hm norm ts _ _ _ hs' fun c i hi => ?_
          change (av.map.insert t.content _).get c = some i at hi
          rw [AMap.get_insert] at hi
          split at hi
          · rename_i e
            subst e
            cases hi
            cases hg : av.map.get t.content with
            | some i =>
              have : (av.tokenToId m t.content).getD next = i := by unfold tokenToId; rw [hg]; rfl
              rw [this]
              exact h _ _ hg
            | none =>
              have ht := hs t List.mem_cons_self
              have : (av.tokenToId m t.content).getD next = ids t.content := by unfold tokenToId; rw [hg, hm t ht]; rfl
              exact ⟨this.symm, t, ht, rfl⟩
          · exact h c i hi

theorem again_careful {build : List (Str × Nat) → Bool} {ids : Str → Nat} {sp : List AddedToken} : ∀ {ds : List Deed} {w : World},
    (∀ k, Only ids sp (w.added k)) → (∀ c, Numbers ids sp (w.cells c) ∨ ∀ k, w.held k = c → (w.added k).map = []) →
    (∀ d ∈ ds, ∃ k m, d = .train k m sp ∧ Numbers ids sp m) → CarefulRun build w ds
  | [], _, _, _, _ => trivial
  | d :: ds, w, h, hc, hd => by
    obtain ⟨k, m, rfl, hm⟩ := hd d List.mem_cons_self
    refine ⟨fun j _ => (h j).fits hm, again_careful (ds := ds) (fun j => ?_) (fun c => ?_) fun d hd' => hd d (List.mem_cons_of_mem _ hd')⟩
    · by_cases hj : j = k
      · subst hj
        simp only [World.step, put_same]
        obtain ⟨ign, r, e, h1, -⟩ := addTokens_fst build m (w.norm j) (w.added j) sp
        have := addLoop_only hm (w.norm j) sp (w.added j) ((w.added j).nextId m) 0 (fun _ ht => ht) (h j)
        rw [e] at this
        intro c i hi
        rw [h1] at hi
        exact this c i hi
      · simp only [World.step, put_other _ _ hj]
        exact h j
    · by_cases e : c = w.held k
      · left
        show Numbers ids sp (put w.cells (w.held k) m c)
        rw [e, put_same]
        exact hm
      · rcases hc c with h1 | h1
        · left
          show Numbers ids sp (put w.cells (w.held k) m c)
          rw [put_other _ _ e]
          exact h1
        · refine .inr fun j hj => ?_
          by_cases hjk : j = k
          · subst hjk; exact absurd hj.symm e
          · simp only [World.step, put_other _ _ hjk]
            exact h1 j hj

/-- **C101.** Tokenizers that are only trained, any number of times, on anything, shared or not, with the same special tokens, which
get the same ids every time: their ids stay in order. -/
theorem C101_again {build : List (Str × Nat) → Bool} {cells : Nat → ModelView} {ds : List Deed} {ids : Str → Nat} {sp : List AddedToken}
    (hcells : ∀ c, (cells c).Ok) (hd : ∀ d ∈ ds, ∃ k m, d = .train k m sp ∧ Numbers ids sp m ∧ m.Ok) (k : Nat) :
    ((World.start cells).run build ds).Agrees k := by
  refine C101_careful_partial hcells (fun k m sp' hmem => ?_) (again_careful (ids := ids) (sp := sp) ?_ ?_ ?_) k
  · obtain ⟨_, _, e, _, h⟩ := hd _ hmem
    cases e; exact h
  · intro k c i hi; cases hi
  · intro c; exact .inr fun _ _ => rfl
  · intro d hmem
    obtain ⟨k, m, e, h, _⟩ := hd d hmem
    exact ⟨k, m, e, h⟩

/-! ### Where it goes wrong -/

/-- No tokens yet. -/
def blank : Nat → ModelView := fun _ => ⟨fun _ => none, fun _ => none, 0⟩

/-- A model of two tokens. -/
def twoView : ModelView := ⟨fun c => if c = ['a'] then some 0 else if c = ['b'] then some 1 else none,
  fun i => if i = 0 then some ['a'] else if i = 1 then some ['b'] else none, 2⟩

theorem twoView_ok : twoView.Ok := by
  refine ⟨fun c i h => ?_, fun c i => ?_⟩
  · simp only [twoView] at h ⊢
    split at h
    · cases h; decide
    · split at h
      · cases h; decide
      · cases h
  · simp only [twoView]
    constructor
    · intro h
      split at h
      · rename_i e; cases h; simp [e]
      · split at h
        · rename_i e; cases h; simp [e]
        · cases h
    · intro h
      split at h
      · rename_i e; cases h; simp [e]
      · split at h
        · rename_i e; cases h; simp [e]
        · cases h

theorem blank_ok (c : Nat) : (blank c).Ok := ⟨by simp [blank], by simp [blank]⟩

/-- Two tokenizers around one model; the second one has a token added; the first one is trained. -/
def sharing : List Deed := [.fresh 0 0, .fresh 1 0, .add 1 [.ofStr "<x>".toList true], .train 0 twoView []]

/-- **C101 is false in general.** Two tokenizers hold one model, one has a token added before the other is trained: then id 0, which
the model gives for `a`, is decoded as `<x>` by the second tokenizer, and the two tokens have the same id. The first tokenizer is
in order. -/
theorem C101_collides : ¬ AlwaysAgrees ∧
    (let w := (World.start blank).run (fun _ => true) sharing
     (w.model 1).toId "a".toList = some 0 ∧ (w.added 1).idToToken (w.model 1) 0 = some "<x>".toList ∧
     (w.added 1).tokenToId (w.model 1) "a".toList = some 0 ∧ (w.added 1).tokenToId (w.model 1) "<x>".toList = some 0 ∧
     (w.added 0).idToToken (w.model 0) 0 = some "a".toList) := by
  refine ⟨fun h => ?_, by decide +kernel⟩
  have h1 := (h (fun _ => true) blank sharing 1 blank_ok (by
    intro j m sp hmem
    simp only [sharing, List.mem_cons, List.not_mem_nil, or_false, reduceCtorEq, false_or, Deed.train.injEq] at hmem
    rw [hmem.2.1]; exact twoView_ok)).2 "a".toList 0 (by decide +kernel)
  exact absurd h1.2 (by decide +kernel)

/-- Only the order of the two deeds is wrong: the token added after the training is all right. -/
example : CarefulRun (fun _ => true) (.start blank) [.fresh 0 0, .fresh 1 0, .train 0 twoView [], .add 1 [.ofStr "<x>".toList true],
    .assign 0 0] ∧
    (let w := (World.start blank).run (fun _ => true) [.fresh 0 0, .fresh 1 0, .train 0 twoView [], .add 1 [.ofStr "<x>".toList true]]
     (w.added 1).tokenToId (w.model 1) "<x>".toList = some 2 ∧ (w.added 0).tokenToId (w.model 0) "<x>".toList = none ∧
     (w.added 1).tokenToId (w.model 1) "b".toList = some 1) := by
  refine ⟨⟨trivial, trivial, fun j _ c i h => ?_, trivial, fun c i h => ?_, trivial⟩, by decide +kernel⟩
  · simp only [World.step, World.start, put] at h
    split at h
    · cases h
    · split at h <;> cases h
  · exact absurd h (by
      have : ((((((World.start blank).step (fun _ => true) (.fresh 0 0)).step (fun _ => true) (.fresh 1 0)).step (fun _ => true)
        (.train 0 twoView [])).step (fun _ => true) (.add 1 [.ofStr "<x>".toList true])).added 0).map = [] := by decide +kernel
      rw [this]; simp [AMap.get])

/-- A token added before the training does not fit. -/
example : ¬ Fits twoView ((empty.addTokens (fun _ => true) (blank 0) none [.ofStr "c".toList true]).1) := by
  intro h
  have := h "c".toList 0 (by decide +kernel)
  revert this
  decide +kernel

/-- Trained twice with the same special token, by two tokenizers that share the model. -/
example : ∀ d ∈ [Deed.train 0 twoView [.ofStr "a".toList true], .train 1 twoView [.ofStr "a".toList true]],
    ∃ k m, d = .train k m [.ofStr "a".toList true] ∧ Numbers (fun _ => 0) [.ofStr "a".toList true] m ∧ m.Ok := by
  have h : Numbers (fun _ => 0) [.ofStr "a".toList true] twoView := by
    intro t ht
    simp only [List.mem_cons, List.not_mem_nil, or_false] at ht
    subst ht
    decide +kernel
  intro d hd
  simp only [List.mem_cons, List.not_mem_nil, or_false] at hd
  rcases hd with rfl | rfl
  · exact ⟨0, twoView, rfl, h, twoView_ok⟩
  · exact ⟨1, twoView, rfl, h, twoView_ok⟩

/-- `twoView` has no gaps. -/
example : Dense twoView := by
  intro i hi
  simp only [twoView] at hi ⊢
  match i, hi with
  | 0, _ => simp
  | 1, _ => simp

end Tok.SharedModels
