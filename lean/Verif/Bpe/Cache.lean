import Verif.Bpe.Tokenize

/-!
# C19: the thread-local BPE caches are transparent

A world with any number of model instances and threads. Every step is one of the public operations;
`tokenize` reads the generation id of the cache before it touches the thread-local map
(`model.rs:576-578`), so another thread may clear the cache in between: the model lets `tokenize` use
any generation id the instance has ever had, which covers every interleaving.
-/

namespace Tok.Bpe

/-- `MAX_LENGTH` (`utils/cache.rs:10`). -/
def maxCachedLength : Nat := 256

/-- The observable part of a `BPE` instance: its tables and options, and its `BpeCache`
(`model.rs:37-40`): `none` when built with capacity 0. -/
structure Instance where
  bpe : Bpe
  cache : Option (Nat × Nat)

/-- The world: `NEXT_CACHE_ID` (`model.rs:26`), the instances, and `BPE_LOCAL_CACHE` of each thread
(`model.rs:83-91`) as a list of entries `((cache id, sequence), word)`. `owner` is a ghost: the
instance that was given a generation id. -/
structure World where
  nextId : Nat
  instances : List Instance
  locals : Nat → AMap (Nat × Str) (List Symbol)
  owner : Nat → Option Nat

/-- The world before anything is created. -/
def World.init : World := ⟨0, [], fun _ => [], fun _ => none⟩

/-- `local.len()`: the number of entries of one generation. -/
def genSize (m : AMap (Nat × Str) (List Symbol)) (cid : Nat) : Nat :=
  (m.filter fun e => e.1.1 = cid).length

/-- `tokenize` with the cache (`model.rs:562-590`, `601-612`), on the local map of the calling
thread, for the generation id `cid` read from the cache. -/
def tokenizeCached (b : Bpe) (cid capacity : Nat) (coins : Nat → Bool) (w : Str)
    (loc : AMap (Nat × Str) (List Symbol)) :
    Outcome TokErr (List Token) × AMap (Nat × Str) (List Symbol) :=
  if w = [] then (.ok [], loc)
  else if b.useDropout then (mergeToTokens b coins w, loc)
  else
    match (if b.ignoreMerges then b.vocab.get w else none) with
    | some id => (.ok [⟨id, w, (0, blen w)⟩], loc)
    | none =>
      match loc.get (cid, w) with
      | some hit => (wordToTokens b hit, loc)
      | none =>
        match mergeWord b (fun _ => false) w with
        | .ok word =>
          (wordToTokens b word,
            if blen w < maxCachedLength ∧ genSize loc cid < capacity then loc.insert (cid, w) word
            else loc)
        | .err e => (.err e, loc)
        | .panic => (.panic, loc)

/-- The operations of any thread. -/
inductive Op where
  /-- `BpeBuilder::build` (cache of the given capacity, `model.rs:243-246`). -/
  | create (b : Bpe) (capacity : Nat)
  /-- `clone` (`model.rs:346-365`). -/
  | clone (inst : Nat)
  /-- `clear_cache` (`model.rs:440-444`). -/
  | clear (inst : Nat)
  /-- `resize_cache` (`model.rs:447-451`). -/
  | resize (inst : Nat) (capacity : Nat)
  /-- `tokenize` in a thread, having read generation `cid`. -/
  | tokenize (thread inst cid : Nat) (coins : Nat → Bool) (w : Str)

/-- One step: the new world and what `tokenize` returned. -/
inductive Step : World → Op → Option (Outcome TokErr (List Token)) → World → Prop
  | create (W : World) (b : Bpe) (cap : Nat) : Step W (.create b cap) none
      (if cap = 0 then { W with instances := W.instances ++ [⟨b, none⟩] }
       else { W with nextId := W.nextId + 1
                     instances := W.instances ++ [⟨b, some (W.nextId, cap)⟩]
                     owner := fun i => if i = W.nextId then some W.instances.length else W.owner i })
  | cloneCached (W : World) (inst : Nat) (x : Instance) (cid cap : Nat) (h : W.instances[inst]? = some x)
      (hc : x.cache = some (cid, cap)) : Step W (.clone inst) none
      { W with nextId := W.nextId + 1
               instances := W.instances ++ [⟨x.bpe, some (W.nextId, cap)⟩]
               owner := fun i => if i = W.nextId then some W.instances.length else W.owner i }
  | cloneUncached (W : World) (inst : Nat) (x : Instance) (h : W.instances[inst]? = some x)
      (hc : x.cache = none) : Step W (.clone inst) none
      { W with instances := W.instances ++ [⟨x.bpe, none⟩] }
  | clear (W : World) (inst : Nat) (x : Instance) (cid cap : Nat) (h : W.instances[inst]? = some x)
      (hc : x.cache = some (cid, cap)) : Step W (.clear inst) none
      { W with nextId := W.nextId + 1
               instances := W.instances.set inst ⟨x.bpe, some (W.nextId, cap)⟩
               owner := fun i => if i = W.nextId then some inst else W.owner i }
  | clearNone (W : World) (inst : Nat) (x : Instance) (h : W.instances[inst]? = some x)
      (hc : x.cache = none) : Step W (.clear inst) none W
  | resize (W : World) (inst cap' : Nat) (x : Instance) (h : W.instances[inst]? = some x) :
      Step W (.resize inst cap') none
      { W with instances := W.instances.set inst ⟨x.bpe, x.cache.map fun c => (c.1, cap')⟩ }
  | tokenizeUncached (W : World) (thread inst cid : Nat) (coins : Nat → Bool) (w : Str) (x : Instance)
      (h : W.instances[inst]? = some x) (hc : x.cache = none) :
      Step W (.tokenize thread inst cid coins w) (some (tokenize x.bpe coins w)) W
  | tokenizeCached (W : World) (thread inst cid cap : Nat) (coins : Nat → Bool) (w : Str) (x : Instance)
      (h : W.instances[inst]? = some x) (hc : x.cache ≠ none) (ho : W.owner cid = some inst) :
      Step W (.tokenize thread inst cid coins w)
        (some (tokenizeCached x.bpe cid cap coins w (W.locals thread)).1)
        { W with locals := fun t => if t = thread then
            (tokenizeCached x.bpe cid cap coins w (W.locals thread)).2 else W.locals t }

/-- Worlds reachable by any history. -/
inductive Reachable : World → Prop
  | init : Reachable .init
  | step {W W' op r} : Reachable W → Step W op r W' → Reachable W'

/-- Every cached word is the word of the instance that owns its generation. -/
def CacheInv (W : World) : Prop :=
  (∀ cid inst, W.owner cid = some inst → cid < W.nextId ∧ ∃ x, W.instances[inst]? = some x) ∧
  ∀ t cid w word, (W.locals t).get (cid, w) = some word →
    ∃ inst x, W.owner cid = some inst ∧ W.instances[inst]? = some x ∧
      mergeWord x.bpe (fun _ => false) w = .ok word

theorem tokenizeCached_inv {b : Bpe} {cid cap : Nat} {coins : Nat → Bool} {w : Str}
    {loc : AMap (Nat × Str) (List Symbol)} {k : Nat × Str} {word : List Symbol}
    (h : (tokenizeCached b cid cap coins w loc).2.get k = some word) :
    loc.get k = some word ∨ (k = (cid, w) ∧ mergeWord b (fun _ => false) w = .ok word) := by
  unfold tokenizeCached at h
  split at h
  · exact .inl h
  · split at h
    · exact .inl h
    · split at h
      · exact .inl h
      · split at h
        · exact .inl h
        · split at h
          · rename_i word' hw
            simp only at h
            split at h
            · rw [AMap.get_insert] at h
              split at h
              · rename_i hk
                injection h with h; subst h
                exact .inr ⟨hk.symm, hw⟩
              · exact .inl h
            · exact .inl h
          · exact .inl h
          · exact .inl h

theorem step_inv {W W' : World} {op : Op} {r} (hs : Step W op r W') (h : CacheInv W) : CacheInv W' := by
  obtain ⟨h1, h2⟩ := h
  -- adding an instance and a fresh id
  have hadd : ∀ (y : Instance), CacheInv ⟨W.nextId + 1, W.instances ++ [y], W.locals,
      fun i => if i = W.nextId then some W.instances.length else W.owner i⟩ := by
    intro y
    refine ⟨?_, ?_⟩
    · intro cid inst ho
      simp only at ho ⊢
      split at ho
      · rename_i hc
        injection ho with ho; subst ho
        exact ⟨by omega, y, by simp⟩
      · obtain ⟨h3, x, h4⟩ := h1 cid inst ho
        refine ⟨by omega, x, ?_⟩
        rw [List.getElem?_append_left]
        · exact h4
        · rw [List.getElem?_eq_some_iff] at h4; exact h4.1
    · intro t cid w word hg
      obtain ⟨inst, x, ho, hx, hm⟩ := h2 t cid w word hg
      have hlt := (h1 cid inst ho).1
      refine ⟨inst, x, ?_, ?_, hm⟩
      · simp only; rw [if_neg (by omega)]; exact ho
      · simp only
        rw [List.getElem?_append_left]
        · exact hx
        · rw [List.getElem?_eq_some_iff] at hx; exact hx.1
  have happ : ∀ (y : Instance), CacheInv { W with instances := W.instances ++ [y] } := by
    intro y
    refine ⟨?_, ?_⟩
    · intro cid inst ho
      obtain ⟨h3, x, h4⟩ := h1 cid inst ho
      refine ⟨h3, x, ?_⟩
      simp only
      rw [List.getElem?_append_left]
      · exact h4
      · rw [List.getElem?_eq_some_iff] at h4; exact h4.1
    · intro t cid w word hg
      obtain ⟨inst, x, ho, hx, hm⟩ := h2 t cid w word hg
      refine ⟨inst, x, ho, ?_, hm⟩
      simp only
      rw [List.getElem?_append_left]
      · exact hx
      · rw [List.getElem?_eq_some_iff] at hx; exact hx.1
  have hset : ∀ (inst : Nat) (x y : Instance), W.instances[inst]? = some x → y.bpe = x.bpe →
      ∀ (j : Nat) (z : Instance), W.instances[j]? = some z → ∃ z' : Instance, (W.instances.set inst y)[j]? = some z' ∧ z'.bpe = z.bpe := by
    intro inst x y hx hy j z hz
    rw [List.getElem?_set]
    by_cases hj : inst = j
    · subst hj
      have hlt : inst < W.instances.length := by rw [List.getElem?_eq_some_iff] at hx; exact hx.1
      rw [hx] at hz; injection hz with hz; subst hz
      exact ⟨y, by simp [hlt], hy⟩
    · rw [if_neg hj]; exact ⟨z, hz, rfl⟩
  cases hs with
  | create b cap =>
    split
    · exact happ _
    · exact hadd _
  | cloneCached inst x cid cap hx hc => exact hadd _
  | cloneUncached inst x hx hc => exact happ _
  | clearNone => exact ⟨h1, h2⟩
  | clear inst x cid cap hx hc =>
    have hs := hset inst x ⟨x.bpe, some (W.nextId, cap)⟩ hx rfl
    refine ⟨?_, ?_⟩
    · intro cid' inst' ho
      simp only at ho ⊢
      split at ho
      · injection ho with ho; subst ho
        obtain ⟨z', hz', _⟩ := hs _ _ hx
        exact ⟨by omega, z', hz'⟩
      · obtain ⟨h3, z, h4⟩ := h1 cid' inst' ho
        obtain ⟨z', hz', _⟩ := hs _ _ h4
        exact ⟨by omega, z', hz'⟩
    · intro t cid' w word hg
      obtain ⟨inst', z, ho, hz, hm⟩ := h2 t cid' w word hg
      have hlt := (h1 cid' inst' ho).1
      obtain ⟨z', hz', hb⟩ := hs _ _ hz
      refine ⟨inst', z', ?_, hz', by rw [hb]; exact hm⟩
      simp only; rw [if_neg (by omega)]; exact ho
  | resize inst cap' x hx =>
    have hs := hset inst x ⟨x.bpe, x.cache.map fun c => (c.1, cap')⟩ hx rfl
    refine ⟨?_, ?_⟩
    · intro cid' inst' ho
      obtain ⟨h3, z, h4⟩ := h1 cid' inst' ho
      obtain ⟨z', hz', _⟩ := hs _ _ h4
      exact ⟨h3, z', hz'⟩
    · intro t cid' w word hg
      obtain ⟨inst', z, ho, hz, hm⟩ := h2 t cid' w word hg
      obtain ⟨z', hz', hb⟩ := hs _ _ hz
      exact ⟨inst', z', ho, hz', by rw [hb]; exact hm⟩
  | tokenizeUncached => exact ⟨h1, h2⟩
  | tokenizeCached thread inst cid cap coins w x hx hc ho =>
    refine ⟨h1, ?_⟩
    intro t cid' w' word hg
    simp only at hg
    split at hg
    · rename_i ht
      subst ht
      rcases tokenizeCached_inv hg with hg | ⟨hk, hm⟩
      · exact h2 _ cid' w' word hg
      · injection hk with hk1 hk2
        subst hk1; subst hk2
        exact ⟨inst, x, ho, hx, hm⟩
    · exact h2 t cid' w' word hg

theorem reachable_inv {W : World} (h : Reachable W) : CacheInv W := by
  induction h with
  | init => exact ⟨(by intro _ _ h; cases h), (by intro _ _ _ _ h; cases h)⟩
  | step _ hs ih => exact step_inv hs ih

/-- **C19.** After any history of creations, clones, clears, resizes and tokenizations by any number of
threads, with any interleaving, `tokenize` returns what the model without cache returns. -/
theorem C19_bpe_cache_transparent {W W' : World} (hW : Reachable W) {thread inst cid : Nat}
    {coins : Nat → Bool} {w : Str} {r} (hs : Step W (.tokenize thread inst cid coins w) r W')
    {x : Instance} (hx : W.instances[inst]? = some x) : r = some (tokenize x.bpe coins w) := by
  obtain ⟨_, h2⟩ := reachable_inv hW
  cases hs with
  | tokenizeUncached _ _ _ _ _ x' hx' hc => rw [hx] at hx'; injection hx' with hx'; rw [hx']
  | tokenizeCached _ _ _ cap _ _ x' hx' hc ho =>
    rw [hx] at hx'; injection hx' with hx'; subst hx'
    congr 1
    unfold tokenizeCached tokenize
    by_cases hw : w = []
    · rw [if_pos hw, if_pos hw]
    · rw [if_neg hw, if_neg hw]
      cases hd : x.bpe.useDropout with
      | true => rfl
      | false =>
        simp only [Bool.false_eq_true, if_false]
        have main : ((match (W.locals thread).get (cid, w) with
            | some hit => (wordToTokens x.bpe hit, W.locals thread)
            | none =>
              match mergeWord x.bpe (fun _ => false) w with
              | .ok word =>
                (wordToTokens x.bpe word,
                  if blen w < maxCachedLength ∧ genSize (W.locals thread) cid < cap then
                    (W.locals thread).insert (cid, w) word else W.locals thread)
              | .err e => (.err e, W.locals thread)
              | .panic => (.panic, W.locals thread)) :
              Outcome TokErr (List Token) × AMap (Nat × Str) (List Symbol)).1 =
            mergeToTokens x.bpe (fun _ => false) w := by
          unfold mergeToTokens
          cases hl : (W.locals thread).get (cid, w) with
          | some hit =>
            obtain ⟨inst', x', ho', hx', hm⟩ := h2 _ _ _ _ hl
            rw [ho] at ho'; injection ho' with ho'; subst ho'
            rw [hx] at hx'; injection hx' with hx'; subst hx'
            rw [hm]
          | none =>
            simp only
            cases mergeWord x.bpe (fun _ => false) w <;> rfl
        cases hi : x.bpe.ignoreMerges with
        | false => exact main
        | true =>
          simp only [if_true]
          cases hv : x.bpe.vocab.get w with
          | some id => rfl
          | none => exact main

/-- A history in which the second call of thread 7 hits the cache filled by the first. -/
example : ∃ W r W', Reachable W ∧ (W.locals 7).get (0, ['a', 'b']) ≠ none ∧
    Step W (.tokenize 7 0 0 (fun _ => false) ['a', 'b']) (some r) W' ∧
    r = .ok [⟨3, ['a', 'b'], (0, 2)⟩] := by
  have s1 : Reachable _ := .step .init (.create .init sampleBpe 10)
  have s2 := Reachable.step s1 (.tokenizeCached _ 7 0 0 10 (fun _ => false) ['a', 'b']
    ⟨sampleBpe, some (0, 10)⟩ rfl (by simp) rfl)
  refine ⟨_, _, _, s2, ?_, .tokenizeCached _ 7 0 0 10 (fun _ => false) ['a', 'b']
    ⟨sampleBpe, some (0, 10)⟩ rfl (by simp) rfl, ?_⟩
  · decide
  · decide

/-- **C45 (BPE).** Sequences of 256 bytes or more are never put in the cache, and a call adds at most
one entry, only while the generation is below the capacity. -/
theorem C45_bpe_cache_bounded (b : Bpe) (cid cap : Nat) (coins : Nat → Bool) (w : Str)
    (loc : AMap (Nat × Str) (List Symbol)) :
    (tokenizeCached b cid cap coins w loc).2 = loc ∨
    ∃ word, (tokenizeCached b cid cap coins w loc).2 = loc.insert (cid, w) word ∧
      blen w < 256 ∧ genSize loc cid < cap ∧ loc.get (cid, w) = none := by
  unfold tokenizeCached
  split
  · exact .inl rfl
  · split
    · exact .inl rfl
    · split
      · exact .inl rfl
      · split
        · exact .inl rfl
        · rename_i hn
          split
          · rename_i word hw
            simp only
            split
            · rename_i hb
              exact .inr ⟨word, rfl, hb.1, hb.2, hn⟩
            · exact .inl rfl
          · exact .inl rfl
          · exact .inl rfl

end Tok.Bpe
