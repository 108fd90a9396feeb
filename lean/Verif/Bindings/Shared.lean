import Verif.Save.Behave

/-!
# C89: normalizers shared between Python objects and tokenizers

A `PyNormalizer` holds one or several `Arc<RwLock<..>>` (`bindings/python/src/normalizers.rs:53-55, 868-872`). Setting
`tokenizer.normalizer` clones the `Arc`s (`bindings/python/src/tokenizer.rs:1905-1913`), and the getter gives them back
(`tokenizer.rs:1895-1901`): object and tokenizer share what is behind the locks. The attributes of a normalizer are set behind the
lock (`setter!`, `normalizers.rs:213-225`), so a tokenizer normalizes differently from then on. But the forms under which added
tokens are looked for in normalized text are computed when tokens are added and when a normalizer is assigned
(`tokenizer/mod.rs:592-597`), not then.

Simplified: normalizers never fail (a custom one in Python can), and the automata can always be built.
-/

namespace Tok.Py

open Tok.AddedVocab Tok.Save

/-- What a Python program has: what is behind each lock, and the tokenizers: the locks of the normalizer
(`PyNormalizerTypeWrapper`, `normalizers.rs:868-872`; a single one is a list of one), and the added tokens. -/
structure Shop where
  cells : Nat → Str → Str
  held : Nat → Option (List Nat)
  added : Nat → AddedVocab

/-- `PyNormalizerTypeWrapper::normalize` (`normalizers.rs:945-965`): one after the other. -/
def through (cells : Nat → Str → Str) : List Nat → Str → Str
  | [], s => s
  | c :: l, s => through cells l (cells c s)

/-- The normalizer of a tokenizer, as the added vocabulary sees it. -/
def Shop.norm (w : Shop) (k : Nat) : AddedVocab.Norm := (w.held k).map fun l s => some (through w.cells l s)

/-- What a program can do. -/
inductive Deed
  /-- An attribute is set (`setter!`, `normalizers.rs:213-225`), or an element of a `Sequence` is replaced (`__setitem__`,
  `normalizers.rs:488-520`): there is something else behind the lock. -/
  | change (cell : Nat) (f : Str → Str)
  /-- `tokenizer.normalizer = n` (`tokenizer.rs:1905-1913`, `tokenizer/mod.rs:592-597`). -/
  | assign (k : Nat) (n : Option (List Nat))
  /-- `add_tokens`, `add_special_tokens` (`tokenizer/mod.rs:1227-1239`). -/
  | add (k : Nat) (ts : List AddedToken)

/-- One value of a function replaced. -/
def updAt {α : Type} (f : Nat → α) (k : Nat) (a : α) : Nat → α := fun i => if i = k then a else f i

/-- One deed. `m`: the models of the tokenizers, which do not change. -/
def Shop.step (m : Nat → ModelView) (w : Shop) : Deed → Shop
  | .change c f => { w with cells := updAt w.cells c f }
  | .assign k n =>
    let w' := { w with held := updAt w.held k n }
    { w' with added := updAt w'.added k ((w'.added k).refreshNormalized (fun _ => true) (w'.norm k)).1 }
  | .add k ts => { w with added := updAt w.added k ((w.added k).addTokens (fun _ => true) (m k) (w.norm k) ts).1 }

/-- At the beginning the tokenizers have no normalizer and no added tokens. -/
def Shop.start (cells : Nat → Str → Str) : Shop := ⟨cells, fun _ => none, fun _ => .empty⟩

/-- After a program. -/
def Shop.after (m : Nat → ModelView) (cells : Nat → Str → Str) (ds : List Deed) : Shop :=
  ds.foldl (Shop.step m) (Shop.start cells)

/-! ## The claim -/

/-- What the normalizer of the tokenizer makes of a text now. -/
def Shop.normalize (w : Shop) (k : Nat) (s : Str) : Str :=
  match w.held k with
  | none => s
  | some l => l.foldl (fun s c => w.cells c s) s

/-- The tokens that are to be looked for in normalized text are looked for there in the form that the normalizer gives them. -/
def Shop.InSync (w : Shop) (k : Nat) : Prop :=
  ∀ c i, (c, i) ∈ (w.added k).normTrie ↔
    ∃ t, (w.added k).rmap.get i = some t ∧ t.normalized = true ∧ c = w.normalize k t.content

/-- The full claim. -/
def AlwaysInSync : Prop := ∀ (m : Nat → ModelView) (_ : ∀ k, (m k).Ok) (cells : Nat → Str → Str) (ds : List Deed) (k : Nat),
  (Shop.after m cells ds).InSync k

/-- Has something behind a lock that the tokenizer holds been changed since its normalizer was assigned? (The locks it holds, and
the answer, so far.) -/
def staleStep (k : Nat) (x : Option (List Nat) × Bool) : Deed → Option (List Nat) × Bool
  | .change c _ => (x.1, x.2 || (match x.1 with | none => false | some l => decide (c ∈ l)))
  | .assign k' n => if k' = k then (n, false) else x
  | .add _ _ => x

/-- The same, after a program. -/
def stale (k : Nat) (ds : List Deed) : Bool := (ds.foldl (staleStep k) (none, false)).2

/-! ## Proofs -/

theorem through_eq (cells : Nat → Str → Str) : ∀ (l : List Nat) (s : Str), through cells l s = l.foldl (fun s c => cells c s) s
  | [], _ => rfl
  | _ :: l, _ => through_eq cells l _

theorem through_updAt {cells : Nat → Str → Str} {c : Nat} {f : Str → Str} : ∀ {l : List Nat} {s : Str}, c ∉ l →
    through (updAt cells c f) l s = through cells l s
  | [], _, _ => rfl
  | d :: l, s, h => by
    rw [List.mem_cons, not_or] at h
    rw [through, through, through_updAt h.2, updAt, if_neg (Ne.symm h.1)]

/-- The form under which a token is looked for in normalized text. -/
def formOf (n : AddedVocab.Norm) (s : Str) : Str :=
  match n with
  | none => s
  | some f => (f s).getD s

theorem formOf_norm (w : Shop) (k : Nat) (s : Str) : formOf (w.norm k) s = w.normalize k s := by
  unfold formOf Shop.norm Shop.normalize
  cases w.held k with
  | none => rfl
  | some l => simp [through_eq]

/-- A normalizer that does not fail. -/
def Total (n : AddedVocab.Norm) : Prop := ∀ f, n = some f → ∀ s, f s ≠ none

theorem norm_total (w : Shop) (k : Nat) : Total (w.norm k) := by
  intro f hf s
  unfold Shop.norm at hf
  cases h : w.held k with
  | none => rw [h] at hf; cases hf
  | some l => rw [h] at hf; cases hf; simp

theorem normalForm_total {n : AddedVocab.Norm} (hn : Total n) (t : AddedToken) :
    normalForm n t = some (if t.normalized = true ∧ formOf n t.content ≠ t.content then some (formOf n t.content) else none) := by
  unfold normalForm formOf
  by_cases h : t.normalized = true
  · cases n with
    | none => simp [h]
    | some f =>
      cases hf : f t.content with
      | none => exact absurd hf (hn f rfl _)
      | some s => by_cases hs : s = t.content <;> simp [h, hs, hf]
  · simp [h]

/-- The cached forms are those of the tokens there, by the normalizer. -/
structure Cached (n : AddedVocab.Norm) (av : AddedVocab) : Prop where
  right : ∀ i s, av.cache.get i = some s → ∃ t, av.rmap.get i = some t ∧ s = formOf n t.content
  there : ∀ i t, av.rmap.get i = some t → t.normalized = true → formOf n t.content ≠ t.content →
    av.cache.get i = some (formOf n t.content)

theorem Cached.form {n : AddedVocab.Norm} {av : AddedVocab} (h : Cached n av) {i : Nat} {t : AddedToken}
    (ht : av.rmap.get i = some t) (hn : t.normalized = true) : (av.cache.get i).getD t.content = formOf n t.content := by
  by_cases hc : formOf n t.content = t.content
  · cases hs : av.cache.get i with
    | none => exact hc.symm
    | some s =>
      obtain ⟨t', h1, h2⟩ := h.right i s hs
      rw [ht] at h1
      cases h1
      exact h2
  · rw [h.there i t ht hn hc]
    rfl

theorem store_cached {m : ModelView} (hm : m.Ok) {n : AddedVocab.Norm} {av : AddedVocab} (hi : Inv m av)
    {next : Nat} (hf : Fresh m av next) {t : AddedToken} {form : Option Str}
    (hform : form = if t.normalized = true ∧ formOf n t.content ≠ t.content then some (formOf n t.content) else none)
    (h : Cached n av) : Cached n (av.store ((av.tokenToId m t.content).getD next) t form) := by
  have hid := fun t' => id_old hm hi hf t (t' := t')
  generalize (av.tokenToId m t.content).getD next = id at *
  have hgetr : ∀ i, (av.store id t form).rmap.get i = if id = i then some t else av.rmap.get i := by
    intro i; exact AMap.get_insert _ _ _ _
  have hgetc : ∀ i, (av.store id t form).cache.get i =
      if id = i then form.or (av.cache.get i) else av.cache.get i := by
    intro i
    cases form with
    | none => simp [store]
    | some s => simp [store, AMap.get_insert]
  constructor
  · intro i s hs
    rw [hgetc] at hs
    rw [hgetr]
    by_cases he : id = i
    · subst he
      rw [if_pos rfl] at hs ⊢
      rcases or_eq_some.1 hs with hs | ⟨_, hs⟩
      · rw [hform] at hs
        split at hs
        · cases hs; exact ⟨t, rfl, rfl⟩
        · cases hs
      · obtain ⟨t', h1, h2⟩ := h.right _ _ hs
        exact ⟨t, rfl, by rw [← hid t' h1]; exact h2⟩
    · rw [if_neg he] at hs ⊢
      exact h.right i s hs
  · intro i u hu hn hne
    rw [hgetr] at hu
    rw [hgetc]
    by_cases he : id = i
    · rw [if_pos he] at hu ⊢
      cases hu
      rw [hform, if_pos ⟨hn, hne⟩]
      rfl
    · rw [if_neg he] at hu ⊢
      exact h.there i u hu hn hne

theorem addLoop_cached {m : ModelView} (hm : m.Ok) {n : AddedVocab.Norm} (hn : Total n) : ∀ (ts : List AddedToken)
    {av : AddedVocab} {next ign : Nat}, Inv m av → Fresh m av next → Cached n av →
    ∃ av' k, addLoop m n ts av next ign = (av', some k) ∧ Inv m av' ∧ Cached n av'
  | [], av, next, ign, hi, _, h => ⟨av, ign, by rw [addLoop], hi, h⟩
  | t :: ts, av, next, ign, hi, hf, h => by
    rw [addLoop]
    by_cases hc : t.content = []
    · rw [if_pos hc]
      exact addLoop_cached hm hn ts hi hf h
    · rw [if_neg hc]
      by_cases hp : av.present t = true
      · rw [if_pos hp]
        exact addLoop_cached hm hn ts hi hf h
      · rw [if_neg hp, normalForm_total hn]
        obtain ⟨h1, h2, _⟩ := store_inv hm hi hf hc
          (if t.normalized = true ∧ formOf n t.content ≠ t.content then some (formOf n t.content) else none)
        exact addLoop_cached hm hn ts h1 h2 (store_cached hm hi hf rfl h)

theorem recache_none {n : AddedVocab.Norm} {i : Nat} : ∀ (l : List (Nat × AddedToken)) (c : AMap Nat Str), i ∉ l.map (·.1) →
    (recache n l c).1.get i = c.get i
  | [], _, _ => rfl
  | (j, t) :: l, c, h => by
    rw [List.map_cons, List.mem_cons, not_or] at h
    rw [recache]
    cases normalForm n t with
    | none => rfl
    | some form =>
      cases form with
      | none => exact recache_none l c h.2
      | some s =>
        show (recache n l (c.insert j s)).1.get i = _
        rw [recache_none l _ h.2, AMap.get_insert, if_neg (Ne.symm h.1)]

theorem recache_cached {m : ModelView} {n : AddedVocab.Norm} (hn : Total n) {av : AddedVocab} (hi : Inv m av) :
    (recache n av.rmap []).2 = true ∧ Cached n { av with cache := (recache n av.rmap []).1 } := by
  have hok : (recache n av.rmap []).2 = true := (recache_ok_iff _ _).2 fun p _ => by rw [normalForm_total hn]; simp
  have hget : ∀ i t, av.rmap.get i = some t → some ((recache n av.rmap []).1.get i) = normalForm n t := fun i t ht =>
    (recache_get av.rmap [] hi.wfr (fun _ _ _ => rfl) hok i t (AMap.mem_of_get_eq_some ht)).symm
  refine ⟨hok, fun i s hs => ?_, fun i t ht hnn hne => ?_⟩
  · have hs : (recache n av.rmap []).1.get i = some s := hs
    cases ht : av.rmap.get i with
    | none =>
      rw [recache_none av.rmap [] fun hm => ?_] at hs
      · cases hs
      · obtain ⟨⟨j, t⟩, hm', rfl⟩ := List.mem_map.1 hm
        rw [AMap.get_eq_some_of_mem hi.wfr hm'] at ht
        cases ht
    | some t =>
      refine ⟨t, rfl, ?_⟩
      have := hget i t ht
      rw [hs, normalForm_total hn] at this
      split at this
      · exact Option.some.inj (Option.some.inj this)
      · cases this
  · have := hget i t ht
    rw [normalForm_total hn, if_pos ⟨hnn, hne⟩] at this
    exact Option.some.inj this

theorem refresh_true (av : AddedVocab) : (av.refresh fun _ => true).2 = true := by
  unfold refresh
  simp

/-- The tokens looked for are those there. -/
def Listed (n : AddedVocab.Norm) (av : AddedVocab) : Prop :=
  ∀ c i, (c, i) ∈ av.normTrie ↔ ∃ t, av.rmap.get i = some t ∧ t.normalized = true ∧ c = formOf n t.content

theorem refresh_listed {n : AddedVocab.Norm} {av : AddedVocab} (hw : av.rmap.WF) (h : Cached n av) :
    Cached n (av.refresh fun _ => true).1 ∧ Listed n (av.refresh fun _ => true).1 := by
  obtain ⟨_, e2, _, e4, _⟩ := refresh_same (fun _ => true) av
  have hc : Cached n (av.refresh fun _ => true).1 := ⟨by rw [e2, e4]; exact h.right, by rw [e2, e4]; exact h.there⟩
  refine ⟨hc, fun c i => ?_⟩
  rw [(refresh_patterns hw (refresh_true av)).2 c i]
  constructor
  · rintro ⟨t, h1, h2, h3⟩
    exact ⟨t, h1, h2, by rw [h3, hc.form h1 h2]⟩
  · rintro ⟨t, h1, h2, h3⟩
    exact ⟨t, h1, h2, by rw [h3, hc.form h1 h2]⟩

/-- What holds of a tokenizer whose normalizer has not changed since it was assigned. -/
def Fresher (w : Shop) (k : Nat) : Prop := Cached (w.norm k) (w.added k) ∧ Listed (w.norm k) (w.added k)

theorem good_add {m : ModelView} (hm : m.Ok) {n : AddedVocab.Norm} (hn : Total n) {av : AddedVocab} (hi : Inv m av)
    (h : Cached n av) (ts : List AddedToken) :
    Cached n (av.addTokens (fun _ => true) m n ts).1 ∧ Listed n (av.addTokens (fun _ => true) m n ts).1 := by
  obtain ⟨av', k, e, h1, h2⟩ := addLoop_cached hm hn ts (ign := 0) hi nextId_fresh h
  unfold addTokens
  rw [e]
  exact refresh_listed h1.wfr h2

theorem good_assign {m : ModelView} {n : AddedVocab.Norm} (hn : Total n) {av : AddedVocab} (hi : Inv m av) :
    Cached n (av.refreshNormalized (fun _ => true) n).1 ∧ Listed n (av.refreshNormalized (fun _ => true) n).1 := by
  obtain ⟨h1, h2⟩ := recache_cached hn hi
  unfold refreshNormalized
  simp only [h1, if_true]
  exact refresh_listed (av := { av with cache := (recache n av.rmap []).1 }) hi.wfr h2

theorem avInv_step {m : Nat → ModelView} (hm : ∀ k, (m k).Ok) {w : Shop} (h : ∀ k, Inv (m k) (w.added k)) (d : Deed) (k : Nat) :
    Inv (m k) ((w.step m d).added k) := by
  cases d with
  | change c f => exact h k
  | assign k' n =>
    show Inv (m k) (updAt w.added k' _ k)
    unfold updAt
    split
    · rename_i e; subst e
      exact (apply_inv (hm k) (fun _ => true) (h k) (.renormalize _)).1
    · exact h k
  | add k' ts =>
    show Inv (m k) (updAt w.added k' _ k)
    unfold updAt
    split
    · rename_i e; subst e
      exact (apply_inv (hm k) (fun _ => true) (h k) (.add _ ts)).1
    · exact h k

theorem norm_assign_other {w : Shop} {k k' : Nat} (n : Option (List Nat)) (a : Nat → AddedVocab) (h : k' ≠ k) :
    Shop.norm { w with held := updAt w.held k' n, added := a } k = w.norm k := by
  show (updAt w.held k' n k).map _ = _
  rw [updAt, if_neg (Ne.symm h)]
  rfl

/-- One deed: the locks that the tokenizer holds, and the forms if nothing has been changed behind them. -/
theorem good_step {m : Nat → ModelView} (hm : ∀ k, (m k).Ok) {w : Shop} (hi : ∀ k, Inv (m k) (w.added k)) {k : Nat}
    {x : Option (List Nat) × Bool} (hh : w.held k = x.1) (hg : x.2 = false → Fresher w k) (d : Deed) :
    (w.step m d).held k = (staleStep k x d).1 ∧ ((staleStep k x d).2 = false → Fresher (w.step m d) k) := by
  cases d with
  | change c f =>
    refine ⟨hh, fun hs => ?_⟩
    simp only [staleStep, Bool.or_eq_false_iff] at hs
    have hn : (w.step m (.change c f)).norm k = w.norm k := by
      unfold Shop.norm Shop.step
      simp only [hh]
      cases hx : x.1 with
      | none => rfl
      | some l =>
        rw [hx] at hs
        have hc : c ∉ l := of_decide_eq_false hs.2
        simp only [Option.map_some]
        congr 1
        funext s
        rw [through_updAt hc]
    unfold Fresher
    rw [hn]
    exact hg hs.1
  | assign k' n =>
    by_cases e : k' = k
    · subst e
      have e1 : staleStep k' x (.assign k' n) = (n, false) := if_pos rfl
      rw [e1]
      have e2 : (w.step m (.assign k' n)).held k' = n := by
        show updAt w.held k' n k' = n
        rw [updAt, if_pos rfl]
      refine ⟨e2, fun _ => ?_⟩
      have e3 : (w.step m (.assign k' n)).added k' =
          ((w.added k').refreshNormalized (fun _ => true) ((w.step m (.assign k' n)).norm k')).1 := by
        show updAt w.added k' _ k' = _
        rw [updAt, if_pos rfl]
        rfl
      unfold Fresher
      rw [e3]
      exact good_assign (norm_total _ _) (hi k')
    · have e1 : staleStep k x (.assign k' n) = x := if_neg e
      rw [e1]
      have ha : (w.step m (.assign k' n)).added k = w.added k := by
        show updAt w.added k' _ k = _
        rw [updAt, if_neg (Ne.symm e)]
      have hn : (w.step m (.assign k' n)).norm k = w.norm k := norm_assign_other n _ e
      refine ⟨?_, fun hs => ?_⟩
      · show updAt w.held k' n k = _
        rw [updAt, if_neg (Ne.symm e)]
        exact hh
      · unfold Fresher
        rw [ha, hn]
        exact hg hs
  | add k' ts =>
    refine ⟨hh, fun hs => ?_⟩
    have hn : (w.step m (.add k' ts)).norm k = w.norm k := rfl
    have hg := hg hs
    unfold Fresher
    rw [hn]
    by_cases e : k' = k
    · subst e
      have ha : (w.step m (.add k' ts)).added k' =
          ((w.added k').addTokens (fun _ => true) (m k') (w.norm k') ts).1 := by
        show updAt w.added k' _ k' = _
        rw [updAt, if_pos rfl]
      rw [ha]
      exact good_add (hm k') (norm_total _ _) (hi k') hg.1 ts
    · have ha : (w.step m (.add k' ts)).added k = w.added k := by
        show updAt w.added k' _ k = _
        rw [updAt, if_neg (Ne.symm e)]
      rw [ha]
      exact hg

theorem good_steps {m : Nat → ModelView} (hm : ∀ k, (m k).Ok) {k : Nat} : ∀ (ds : List Deed) {w : Shop}
    {x : Option (List Nat) × Bool}, (∀ k, Inv (m k) (w.added k)) → w.held k = x.1 → (x.2 = false → Fresher w k) →
    (ds.foldl (staleStep k) x).2 = false → Fresher (ds.foldl (Shop.step m) w) k
  | [], _, _, _, _, hg, hs => hg hs
  | d :: ds, _, _, hi, hh, hg, hs => by
    obtain ⟨h1, h2⟩ := good_step hm hi hh hg d
    exact good_steps hm ds (avInv_step hm hi d) h1 h2 hs

/-- **C89, partial.** After every program, a tokenizer looks for added tokens in normalized text in the form that its normalizer
gives them, unless what is behind a lock of its normalizer was changed after the normalizer was assigned (missing: that case, in
which the claim is false, `C89_stale`). -/
theorem C89_in_sync_partial {m : Nat → ModelView} (hm : ∀ k, (m k).Ok) (cells : Nat → Str → Str) (ds : List Deed) (k : Nat)
    (h : stale k ds = false) : (Shop.after m cells ds).InSync k := by
  have : Fresher (Shop.after m cells ds) k := by
    refine good_steps hm ds (x := (none, false)) (fun k => inv_empty (m k)) rfl (fun _ => ⟨⟨?_, ?_⟩, ?_⟩) h
    · intro i s hs; cases hs
    · intro i t ht; cases ht
    · intro c i
      refine ⟨fun h => absurd h (List.not_mem_nil), ?_⟩
      rintro ⟨t, ht, _⟩
      cases ht
  intro c i
  rw [this.2 c i]
  simp only [formOf_norm]

/-- **C89, the remedy.** Assigning the normalizer once more (any, in particular the one that is there) puts things right. -/
theorem C89_assign {m : Nat → ModelView} (hm : ∀ k, (m k).Ok) (cells : Nat → Str → Str) (ds : List Deed) (k : Nat)
    (n : Option (List Nat)) : (Shop.after m cells (ds ++ [.assign k n])).InSync k := by
  refine C89_in_sync_partial hm cells _ k ?_
  unfold stale
  rw [List.foldl_append]
  simp [staleStep]

/-! ## The finding -/

/-- A model without tokens. -/
def noModel : ModelView := ⟨fun _ => none, fun _ => none, 0⟩

theorem noModel_ok : noModel.Ok := ⟨(fun _ _ h => by cases h), (fun _ _ => by simp [noModel])⟩

/-- `n = BertNormalizer(lowercase=False, ..)`; `tokenizer.normalizer = n`; `tokenizer.add_tokens(["[TOK]"])`; `n.lowercase = True`. -/
def staleProgram : List Deed :=
  [.assign 0 (some [0]), .add 0 [AddedToken.ofStr "[TOK]".toList false], .change 0 (·.map Char.toLower)]

/-- **C89, violated.** After that the tokenizer looks for "[TOK]" in lowercased text, where it cannot be; only assigning the
normalizer again makes it look for "[tok]". -/
theorem C89_stale : ¬ AlwaysInSync ∧
    ((Shop.after (fun _ => noModel) (fun _ s => s) staleProgram).added 0).normTrie = [("[TOK]".toList, 0)] ∧
    (Shop.after (fun _ => noModel) (fun _ s => s) staleProgram).normalize 0 "[TOK]".toList = "[tok]".toList ∧
    ((Shop.after (fun _ => noModel) (fun _ s => s) (staleProgram ++ [.assign 0 (some [0])])).added 0).normTrie =
      [("[tok]".toList, 0)] := by
  refine ⟨fun h => ?_, by decide +kernel, by decide +kernel, by decide +kernel⟩
  have := (h (fun _ => noModel) (fun _ => noModel_ok) (fun _ s => s) staleProgram 0 "[TOK]".toList 0).1 (by decide +kernel)
  obtain ⟨t, h1, _, h3⟩ := this
  have e : ((Shop.after (fun _ => noModel) (fun _ s => s) staleProgram).added 0).rmap.get 0 =
      some (AddedToken.ofStr "[TOK]".toList false) := by decide +kernel
  rw [e] at h1
  cases h1
  revert h3
  decide +kernel

/-- A program to which the theorem applies: the normalizer of one tokenizer is changed, another tokenizer holds other locks; the
first one is then put right. -/
example : stale 1 (staleProgram ++ [.assign 1 (some [1, 2]), .add 1 [AddedToken.ofStr "x".toList false], .change 0 id]) = false ∧
    stale 0 staleProgram = true ∧ stale 0 (staleProgram ++ [.assign 0 (some [0])]) = false := by decide +kernel

end Tok.Py
