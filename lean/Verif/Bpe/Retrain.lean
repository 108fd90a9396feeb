import Verif.Bpe.Cache
import Verif.Train.BpeExamples

/-!
# C96: the word cache of a BPE model that is trained again or gets other options

`Bpe/Cache.lean` is about models that do not change. Here the tables and options of one instance may be replaced:
`BpeTrainer::do_train` writes the new vocabulary and merges into the model (`models/bpe/trainer.rs:609-627`), and the
Python setters write single fields (`bindings/python/src/models.rs:380-450`). Neither touches the cache.
-/

namespace Tok.Bpe.Retrain

/-- One `BPE` instance with a cache. `kept` is the generation that was current when the model was last changed,
`since` are the generations begun since then (or since its creation); `had` is a ghost: which model was there in
which generation. -/
structure Sys where
  bpe : Bpe
  gen : Nat
  cap : Nat
  kept : Option Nat
  since : List Nat
  locals : Nat → AMap (Nat × Str) (List Symbol)
  had : List (Nat × Bpe)

/-- The operations. -/
inductive Op where
  /-- `clear_cache` (`model.rs:440-444`); the new generation is one nobody has had (`BpeCache::clear`,
  `model.rs:69-74`, `NEXT_CACHE_ID`; that these numbers are never handed out twice is in `Bpe/Cache.lean`). -/
  | clear (gen : Nat)
  /-- `resize_cache` (`model.rs:447-451`). -/
  | resize (cap : Nat)
  /-- Training (`trainer.rs:609-627`) or a setter (`bindings/python/src/models.rs:380-450`). Both need the model for
  themselves (`&mut`, or the write lock), so no call of `tokenize` is under way. -/
  | change (b : Bpe)
  /-- `tokenize` in a thread, having read generation `cid`. It is the current one, or one from before a concurrent
  `clear_cache`; nothing from before the last change, except the generation that was current then. -/
  | tokenize (thread cid : Nat) (coins : Nat → Bool) (w : Str)

/-- The generations a call of `tokenize` may have read. -/
def Sys.usable (s : Sys) (cid : Nat) : Prop := s.kept = some cid ∨ cid ∈ s.since

/-- One step: the new state and what `tokenize` returned. -/
inductive Step : Sys → Op → Option (Outcome TokErr (List Token)) → Sys → Prop
  | clear {s : Sys} {g : Nat} : (∀ p ∈ s.had, p.1 ≠ g) → (∀ t w, (s.locals t).get (g, w) = none) →
      Step s (.clear g) none { s with gen := g, since := g :: s.since, had := (g, s.bpe) :: s.had }
  | resize {s : Sys} {cap : Nat} : Step s (.resize cap) none { s with cap := cap }
  | change {s : Sys} {b : Bpe} :
      Step s (.change b) none { s with bpe := b, kept := some s.gen, since := [], had := (s.gen, b) :: s.had }
  | tokenize {s : Sys} {t cid : Nat} {coins : Nat → Bool} {w : Str} : s.usable cid →
      Step s (.tokenize t cid coins w) (some (tokenizeCached s.bpe cid s.cap coins w (s.locals t)).1)
        { s with locals := fun u => if u = t then (tokenizeCached s.bpe cid s.cap coins w (s.locals t)).2 else s.locals u }

/-- A fresh instance (`BpeBuilder::build`, `Clone`): nothing is stored under its generation. -/
def fresh (b : Bpe) (gen cap : Nat) (locals : Nat → AMap (Nat × Str) (List Symbol)) : Sys :=
  ⟨b, gen, cap, none, [gen], locals, [(gen, b)]⟩

/-- A history: the operations, oldest first. -/
inductive Steps : Sys → List Op → Sys → Prop
  | nil {s} : Steps s [] s
  | cons {s op r s1 ops s2} : Step s op r s1 → Steps s1 ops s2 → Steps s (op :: ops) s2

/-- Where a history leads that begins with a fresh instance of `b`. -/
def Run (b : Bpe) (ops : List Op) (s : Sys) : Prop :=
  ∃ gen cap locals, (∀ t w, (locals t).get (gen, w) = none) ∧ Steps (fresh b gen cap locals) ops s

/-- What holds after any history. -/
structure Inv (s : Sys) : Prop where
  cur : (s.gen, s.bpe) ∈ s.had
  gen : s.usable s.gen
  live : ∀ cid, s.usable cid → (cid, s.bpe) ∈ s.had
  new : ∀ cid ∈ s.since, ∀ b, (cid, b) ∈ s.had → b = s.bpe
  stored : ∀ t cid w word, (∃ b, (cid, b) ∈ s.had) → (s.locals t).get (cid, w) = some word →
    ∃ b, (cid, b) ∈ s.had ∧ mergeWord b (fun _ => false) w = .ok word

theorem step_inv {s s' : Sys} {op : Op} {r} (h : Inv s) (hs : Step s op r s') : Inv s' := by
  cases hs with
  | @clear g h1 h2 =>
    refine ⟨List.mem_cons_self, .inr List.mem_cons_self, ?_, ?_, ?_⟩
    · intro cid hu
      rcases hu with hu | hu
      · exact List.mem_cons_of_mem _ (h.live cid (.inl hu))
      · rcases List.mem_cons.1 hu with rfl | hu
        · exact List.mem_cons_self
        · exact List.mem_cons_of_mem _ (h.live cid (.inr hu))
    · intro cid hc b hb
      rcases List.mem_cons.1 hb with e | hb'
      · cases e; rfl
      · rcases List.mem_cons.1 hc with rfl | hc
        · exact absurd rfl (h1 _ hb')
        · exact h.new cid hc b hb'
    · intro t cid w word ⟨b, hb⟩ hg
      simp only at hg
      rcases List.mem_cons.1 hb with e | hb
      · cases e; rw [h2] at hg; cases hg
      · obtain ⟨b', h3, h4⟩ := h.stored t cid w word ⟨b, hb⟩ hg
        exact ⟨b', List.mem_cons_of_mem _ h3, h4⟩
  | resize => exact ⟨h.cur, h.gen, h.live, h.new, h.stored⟩
  | @change b =>
    refine ⟨List.mem_cons_self, .inl rfl, ?_, (fun _ hc => nomatch hc), ?_⟩
    · intro cid hu
      rcases hu with hu | hu
      · simp only [Option.some.injEq] at hu; subst hu; exact List.mem_cons_self
      · cases hu
    · intro t cid w word ⟨b', hb⟩ hg
      have : ∃ b, (cid, b) ∈ s.had := by
        rcases List.mem_cons.1 hb with e | hb
        · cases e; exact ⟨_, h.cur⟩
        · exact ⟨_, hb⟩
      obtain ⟨b', h3, h4⟩ := h.stored t cid w word this hg
      exact ⟨b', List.mem_cons_of_mem _ h3, h4⟩
  | @tokenize t cid coins w hu =>
    refine ⟨h.cur, h.gen, h.live, h.new, ?_⟩
    intro t' cid' w' word hb hg
    simp only at hg hb
    split at hg
    · rename_i ht; subst ht
      rcases tokenizeCached_inv hg with hg | ⟨hk, hm⟩
      · exact h.stored _ _ _ _ hb hg
      · cases hk
        exact ⟨s.bpe, h.live _ hu, hm⟩
    · exact h.stored _ _ _ _ hb hg

theorem fresh_inv {b : Bpe} {gen cap : Nat} {locals} (h : ∀ t w, (locals t).get (gen, w) = none) :
    Inv (fresh b gen cap locals) :=
  ⟨by simp [fresh], .inr (by simp [fresh]), by simp [fresh, Sys.usable], by simp [fresh],
    fun t cid w word ⟨b, hb⟩ hg => by simp [fresh] at hb hg; rw [hb.1, h] at hg; cases hg⟩

theorem steps_inv {s s' : Sys} {ops : List Op} (h : Steps s ops s') (hi : Inv s) : Inv s' := by
  induction h with
  | nil => exact hi
  | cons hs _ ih => exact ih (step_inv hi hs)

theorem run_inv {b : Bpe} {s : Sys} {ops : List Op} (h : Run b ops s) : Inv s := by
  obtain ⟨gen, cap, locals, h1, h2⟩ := h
  exact steps_inv h2 (fresh_inv h1)

/-- The result of a call: that of the current model, or the current names of the ids that are stored. -/
theorem cached_cases (b : Bpe) (cid cap : Nat) (coins : Nat → Bool) (w : Str) (loc : AMap (Nat × Str) (List Symbol)) :
    (tokenizeCached b cid cap coins w loc).1 = Bpe.tokenize b coins w ∨
      ∃ word, loc.get (cid, w) = some word ∧ (tokenizeCached b cid cap coins w loc).1 = wordToTokens b word := by
  unfold tokenizeCached Bpe.tokenize
  by_cases hw : w = []
  · rw [if_pos hw, if_pos hw]; exact .inl rfl
  rw [if_neg hw, if_neg hw]
  cases b.useDropout with
  | true => exact .inl rfl
  | false =>
    simp only [Bool.false_eq_true, if_false]
    cases hl : loc.get (cid, w) with
    | some word =>
      cases b.ignoreMerges with
      | false => exact .inr ⟨word, rfl, rfl⟩
      | true =>
        cases hv : b.vocab.get w with
        | some id => simp
        | none => exact .inr ⟨word, rfl, by simp⟩
    | none =>
      left
      cases b.ignoreMerges with
      | false => simp only [Bool.false_eq_true, if_false, mergeToTokens]; cases mergeWord b (fun _ => false) w <;> rfl
      | true =>
        cases hv : b.vocab.get w with
        | some id => simp
        | none => simp only [if_true, mergeToTokens]; cases mergeWord b (fun _ => false) w <;> rfl

/-- **C96, what comes out.** After any history, a call gives what the current model gives, or the ids some earlier
model of the same generation gave for the word, named by the current vocabulary. -/
theorem C96_exact {b0 : Bpe} {s s' : Sys} {ops : List Op} (h : Run b0 ops s) {t cid : Nat} {coins : Nat → Bool} {w : Str} {r}
    (hs : Step s (.tokenize t cid coins w) r s') :
    r = some (Bpe.tokenize s.bpe coins w) ∨
      ∃ b word, (cid, b) ∈ s.had ∧ mergeWord b (fun _ => false) w = .ok word ∧ r = some (wordToTokens s.bpe word) := by
  have hi := run_inv h
  cases hs with
  | tokenize hu =>
    rcases cached_cases s.bpe cid s.cap coins w (s.locals t) with e | ⟨word, hl, e⟩
    · left; rw [e]
    · obtain ⟨b, h1, h2⟩ := hi.stored t cid w word ⟨_, hi.live _ hu⟩ hl
      exact .inr ⟨b, word, h1, h2, by rw [e]⟩

/-- What a stored word gives is what the model gives, if the model that stored it merges as the current one. -/
theorem same_result {b b' : Bpe} {cid cap : Nat} {coins : Nat → Bool} {w : Str} {loc : AMap (Nat × Str) (List Symbol)}
    (hl : ∀ word, loc.get (cid, w) = some word → mergeWord b' (fun _ => false) w = .ok word)
    (he : mergeWord b' (fun _ => false) w = mergeWord b (fun _ => false) w) :
    (tokenizeCached b cid cap coins w loc).1 = Bpe.tokenize b coins w := by
  unfold tokenizeCached Bpe.tokenize
  by_cases hw : w = []
  · rw [if_pos hw, if_pos hw]
  rw [if_neg hw, if_neg hw]
  cases b.useDropout with
  | true => rfl
  | false =>
    simp only [Bool.false_eq_true, if_false]
    cases hg : loc.get (cid, w) with
    | some word =>
      have := hl word hg
      rw [he] at this
      cases b.ignoreMerges with
      | false => simp [mergeToTokens, this]
      | true => cases hv : b.vocab.get w <;> simp [mergeToTokens, this]
    | none =>
      cases b.ignoreMerges with
      | false => simp only [Bool.false_eq_true, if_false, mergeToTokens]; cases mergeWord b (fun _ => false) w <;> rfl
      | true =>
        cases hv : b.vocab.get w with
        | some id => simp
        | none => simp only [if_true, mergeToTokens]; cases mergeWord b (fun _ => false) w <;> rfl

/-- The operation replaces the model. -/
def Op.changes : Op → Bool
  | .change _ => true
  | _ => false

/-- As long as the model stays, generations begun since its last change stay so, and the current one is among them. -/
theorem since_steps {s s' : Sys} {ops : List Op} (h : Steps s ops s') (hb : ∀ op ∈ ops, op.changes = false)
    (hg : s.gen ∈ s.since) : s'.gen ∈ s'.since ∧ s'.bpe = s.bpe := by
  induction h with
  | nil => exact ⟨hg, rfl⟩
  | @cons s op r s1 ops s2 hs _ ih =>
    have hb' := hb op List.mem_cons_self
    have ih := ih fun o ho => hb o (List.mem_cons_of_mem _ ho)
    cases hs with
    | clear => exact ih List.mem_cons_self
    | resize => exact ih hg
    | change => cases hb'
    | tokenize => exact ih hg

/-- **C96, after `clear_cache`.** Whatever was done to the model before: after `clear_cache`, until the next change, calls that
do not overlap with another `clear_cache` give what the model gives without a cache. -/
theorem C96_cleared {b0 : Bpe} {s s1 s2 s3 : Sys} {before after : List Op} {g : Nat} {r0 r}
    (h : Run b0 before s) (hc : Step s (.clear g) r0 s1) (h2 : Steps s1 after s2) (hn : ∀ op ∈ after, op.changes = false)
    {t : Nat} {coins : Nat → Bool} {w : Str} (hs : Step s2 (.tokenize t s2.gen coins w) r s3) :
    r = some (Bpe.tokenize s.bpe coins w) := by
  have hi := steps_inv h2 (step_inv (run_inv h) hc)
  have hg : s2.gen ∈ s2.since ∧ s2.bpe = s.bpe := by
    cases hc with
    | clear => have := since_steps h2 hn List.mem_cons_self; exact this
  cases hs with
  | tokenize hu =>
    rw [← hg.2]
    congr 1
    refine same_result (b' := s2.bpe) (fun word hl => ?_) rfl
    obtain ⟨b, h3, h4⟩ := hi.stored t _ w word ⟨_, hi.cur⟩ hl
    rw [hi.new _ hg.1 b h3] at h4
    exact h4

/-- The two models differ at most in `dropout` and `ignore_merges`. -/
def Alike (b b' : Bpe) : Prop :=
  b.vocab = b'.vocab ∧ b.merges = b'.merges ∧ b.unk = b'.unk ∧ b.pre = b'.pre ∧ b.suf = b'.suf ∧
    b.fuseUnk = b'.fuseUnk ∧ b.byteFallback = b'.byteFallback

theorem alike_stepChar {b b' : Bpe} (h : Alike b b') (st : InitSt) (f l : Bool) (c : Char) :
    stepChar b st f l c = stepChar b' st f l c := by
  obtain ⟨h1, -, h3, h4, h5, h6, h7⟩ := h
  simp only [stepChar, charSym, stepUnk, h1, h3, h4, h5, h6, h7]

theorem alike_initLoop {b b' : Bpe} (h : Alike b b') : ∀ (w : Str) (f : Bool) (st : InitSt),
    initLoop b f w st = initLoop b' f w st
  | [], _, _ => rfl
  | c :: cs, f, st => by
    rw [initLoop, initLoop, alike_stepChar h]
    cases stepChar b' st f cs.isEmpty c with
    | none => rfl
    | some st' => exact alike_initLoop h cs false st'

theorem alike_mergeWord {b b' : Bpe} (h : Alike b b') (coins : Nat → Bool) (w : Str) : mergeWord b coins w = mergeWord b' coins w := by
  rw [mergeWord, mergeWord, initSyms, initSyms, alike_initLoop h, h.2.1, h.2.2.1]

theorem Alike.trans {a b c : Bpe} (h : Alike a b) (h' : Alike b c) : Alike a c :=
  ⟨h.1.trans h'.1, h.2.1.trans h'.2.1, h.2.2.1.trans h'.2.2.1, h.2.2.2.1.trans h'.2.2.2.1,
    h.2.2.2.2.1.trans h'.2.2.2.2.1, h.2.2.2.2.2.1.trans h'.2.2.2.2.2.1, h.2.2.2.2.2.2.trans h'.2.2.2.2.2.2⟩

theorem Alike.symm {a b : Bpe} (h : Alike a b) : Alike b a :=
  ⟨h.1.symm, h.2.1.symm, h.2.2.1.symm, h.2.2.2.1.symm, h.2.2.2.2.1.symm, h.2.2.2.2.2.1.symm, h.2.2.2.2.2.2.symm⟩

theorem had_steps {b0 : Bpe} {s s' : Sys} {ops : List Op} (h : Steps s ops s') (hb : ∀ b, Op.change b ∈ ops → Alike b b0)
    (hh : ∀ p ∈ s.had, Alike p.2 b0) (hc : Alike s.bpe b0) : (∀ p ∈ s'.had, Alike p.2 b0) ∧ Alike s'.bpe b0 := by
  induction h with
  | nil => exact ⟨hh, hc⟩
  | @cons s op r s1 ops s2 hs _ ih =>
    have ih := ih fun b h => hb b (List.mem_cons_of_mem _ h)
    cases hs with
    | clear => exact ih (fun p hp => (List.mem_cons.1 hp).elim (fun e => e ▸ hc) (hh p)) hc
    | resize => exact ih hh hc
    | @change b =>
      have := hb b List.mem_cons_self
      exact ih (fun p hp => (List.mem_cons.1 hp).elim (fun e => e ▸ this) (hh p)) this
    | tokenize => exact ih hh hc

/-- **C96, harmless setters.** Setting `dropout` and `ignore_merges` as often as one likes, between calls from any threads, never
lets a stale result come out. -/
theorem C96_options {b0 : Bpe} {s s' : Sys} {ops : List Op} (h : Run b0 ops s) (hb : ∀ b, Op.change b ∈ ops → Alike b b0)
    {t cid : Nat} {coins : Nat → Bool} {w : Str} {r} (hs : Step s (.tokenize t cid coins w) r s') :
    r = some (Bpe.tokenize s.bpe coins w) := by
  have hi := run_inv h
  obtain ⟨gen, cap, locals, -, h2⟩ := h
  have ha := had_steps h2 hb (by simp [fresh, Alike]) (by simp [fresh, Alike])
  cases hs with
  | tokenize hu =>
    congr 1
    refine same_result (b' := s.bpe) (fun word hl => ?_) rfl
    obtain ⟨b, h3, h4⟩ := hi.stored t _ w word ⟨_, hi.live _ hu⟩ hl
    rw [alike_mergeWord ((ha.1 _ h3).trans ha.2.symm)] at h4
    exact h4

/-- **C96, stale results.** If the same thread has tokenized the word before (shorter than 256 bytes, without dropout, not
found whole by `ignore_merges`, the cache not full) and then the model is replaced by any other (again without dropout, the
word not found whole), the answer is the old ids with the new names, whatever the new model would say. -/
theorem C96_stale {b' : Bpe} {s s1 s2 s3 : Sys} {t cid : Nat} {coins coins' : Nat → Bool} {w : Str}
    {r r' r0} {word : List Symbol} (hw : w ≠ []) (hm : mergeWord s.bpe (fun _ => false) w = .ok word)
    (hd : s.bpe.useDropout = false) (hi : s.bpe.ignoreMerges = true → s.bpe.vocab.get w = none)
    (hd' : b'.useDropout = false) (hi' : b'.ignoreMerges = true → b'.vocab.get w = none)
    (hlen : blen w < 256) (hcap : genSize (s.locals t) cid < s.cap) (hnew : (s.locals t).get (cid, w) = none)
    (hs : Step s (.tokenize t cid coins w) r s1) (hc : Step s1 (.change b') r0 s2)
    (hs' : Step s2 (.tokenize t cid coins' w) r' s3) :
    r = some (Bpe.tokenize s.bpe coins w) ∧ r' = some (wordToTokens b' word) := by
  have main : ∀ (b : Bpe), b.useDropout = false → (b.ignoreMerges = true → b.vocab.get w = none) →
      (if b.ignoreMerges then b.vocab.get w else none) = none := by
    intro b _ h
    cases hb : b.ignoreMerges with
    | false => rfl
    | true => exact h hb
  cases hs with
  | tokenize hu =>
    cases hc with
    | change =>
      cases hs' with
      | tokenize hu' =>
        constructor
        · congr 1
          exact same_result (b' := s.bpe) (fun word hl => by rw [hnew] at hl; cases hl) rfl
        · congr 1
          have hget : (tokenizeCached s.bpe cid s.cap coins w (s.locals t)).2.get (cid, w) = some word := by
            unfold tokenizeCached
            rw [if_neg hw, hd, main _ hd hi, hnew, hm]
            simp only [Bool.false_eq_true, if_false]
            rw [if_pos ⟨hlen, hcap⟩, AMap.get_insert, if_pos rfl]
          simp only [if_true]
          rw [tokenizeCached, if_neg hw, hd', main _ hd' hi']
          simp only [Bool.false_eq_true, if_false]
          rw [hget]

/-! ## Samples -/

open Train in
/-- A model trained (`loop`, `finish`) in at most 20 rounds. -/
def trainModel (cfg : BpeCfg) (wc : AMap Str Nat) (b : Bpe) : Option Bpe :=
  match loop cfg (wc.map (·.2)) 20 (start cfg id wc) with
  | .stop s => finish cfg s b
  | _ => none

open Train in
theorem trainModel_trained {cfg : BpeCfg} {wc : AMap Str Nat} {b b' : Bpe} (h : trainModel cfg wc b = some b') :
    ∃ s, Trained cfg id wc s ∧ finish cfg s b = some b' := by
  unfold trainModel at h
  split at h
  · rename_i s hs
    exact ⟨s, ⟨20, loop_stop_mono hs⟩, h⟩
  · cases h

/-- Trained on `ab`. -/
def onAb : Bpe :=
  { Train.noBpe with
    vocab := [(['a'], 0), (['b'], 1), (['a', 'b'], 2)]
    vocabR := [(2, ['a', 'b']), (1, ['b']), (0, ['a'])]
    merges := [((0, 1), (0, 2))] }

/-- The same model trained again, on `ba`. -/
def onBa : Bpe :=
  { onAb with
    vocab := [(['a'], 0), (['b'], 1), (['b', 'a'], 2)]
    vocabR := [(2, ['b', 'a']), (1, ['b']), (0, ['a'])]
    merges := [((1, 0), (0, 2))] }

/-- The same model trained again, on `a` and `b`. -/
def onA : Bpe := { onAb with vocab := [(['a'], 0), (['b'], 1)], vocabR := [(1, ['b']), (0, ['a'])], merges := [] }

theorem onAb_trained : trainModel (Train.plainCfg 10) [(['a', 'b'], 1)] Train.noBpe = some onAb := by decide +kernel
theorem onBa_trained : trainModel (Train.plainCfg 10) [(['b', 'a'], 1)] onAb = some onBa := by decide +kernel
theorem onA_trained : trainModel (Train.plainCfg 10) [(['a'], 1), (['b'], 1)] onAb = some onA := by decide +kernel

/-- A fresh model given the tables of `b`, used for `w`, and changed to `b'`. -/
theorem sample_run {b b' : Bpe} {w : Str} {word : List Symbol} (hw : w ≠ [])
    (hm : mergeWord b (fun _ => false) w = .ok word) (hd : b.useDropout = false) (hi : b.ignoreMerges = false)
    (hd' : b'.useDropout = false) (hi' : b'.ignoreMerges = false) (hlen : blen w < 256) :
    ∃ s s', Run Train.noBpe [.change b, .tokenize 0 0 (fun _ => false) w, .change b'] s ∧ s.bpe = b' ∧ s.gen = 0 ∧
      Step s (.tokenize 0 0 (fun _ => false) w) (some (wordToTokens b' word)) s' := by
  have h1 : Step (fresh Train.noBpe 0 10 fun _ => []) (.change b) none _ := .change
  have h2 : Step _ (.tokenize 0 0 (fun _ => false) w) _ _ :=
    Step.tokenize (s := ⟨b, 0, 10, some 0, [], fun _ => [], [(0, b), (0, Train.noBpe)]⟩) (t := 0) (cid := 0) (.inl rfl)
  have h3 : Step _ (.change b') none _ := Step.change
    (s := ⟨b, 0, 10, some 0, [],
      fun u => if u = 0 then (tokenizeCached b 0 10 (fun _ => false) w []).2 else [], [(0, b), (0, Train.noBpe)]⟩)
  have h4 : Step _ (.tokenize 0 0 (fun _ => false) w) _ _ := Step.tokenize
    (s := ⟨b', 0, 10, some 0, [],
      fun u => if u = 0 then (tokenizeCached b 0 10 (fun _ => false) w []).2 else [],
      [(0, b'), (0, b), (0, Train.noBpe)]⟩) (t := 0) (cid := 0) (.inl rfl)
  have h5 := (C96_stale (word := word) hw hm hd (by simp [hi]) hd' (by simp [hi']) hlen (by simp [genSize]) rfl h2 h3 h4).2
  rw [h5] at h4
  exact ⟨_, _, ⟨0, 10, fun _ => [], fun _ _ => rfl, .cons h1 (.cons h2 (.cons h3 .nil))⟩, rfl, rfl, h4⟩

open Train in
/-- **C96, negation: trained again.** A model trained on `ab`, used for `ab`, and then trained on `ba`: it now makes of `ab` the
one token `ba`, although its own tables give `a`, `b`. -/
theorem C96_trained_again : ∃ b b' st st' s s', Trained (plainCfg 10) id [(['a', 'b'], 1)] st ∧ finish (plainCfg 10) st noBpe = some b ∧
    Trained (plainCfg 10) id [(['b', 'a'], 1)] st' ∧ finish (plainCfg 10) st' b = some b' ∧
    Run noBpe [.change b, .tokenize 0 0 (fun _ => false) ['a', 'b'], .change b'] s ∧ s.bpe = b' ∧ s.gen = 0 ∧
    Bpe.tokenize b' (fun _ => false) ['a', 'b'] = .ok [⟨0, ['a'], (0, 1)⟩, ⟨1, ['b'], (1, 2)⟩] ∧
    Step s (.tokenize 0 0 (fun _ => false) ['a', 'b']) (some (.ok [⟨2, ['b', 'a'], (0, 2)⟩])) s' := by
  obtain ⟨st, h1, h2⟩ := trainModel_trained onAb_trained
  obtain ⟨st', h3, h4⟩ := trainModel_trained onBa_trained
  obtain ⟨s, s', h5, h6, h7, h8⟩ := sample_run (b := onAb) (b' := onBa) (w := ['a', 'b']) (word := [⟨2, -1, -1, 2⟩]) (by simp)
    (by decide +kernel) rfl rfl rfl rfl (by decide +kernel)
  exact ⟨onAb, onBa, st, st', s, s', h1, h2, h3, h4, h5, h6, h7, by decide +kernel, h8⟩

open Train in
/-- **C96, negation: trained again, panic.** If the new vocabulary is smaller, the old ids have no names and `tokenize`
panics (`vocab_r[&id]`, `model.rs:559`). -/
theorem C96_trained_again_panics : ∃ b b' st st' s s', Trained (plainCfg 10) id [(['a', 'b'], 1)] st ∧
    finish (plainCfg 10) st noBpe = some b ∧ Trained (plainCfg 10) id [(['a'], 1), (['b'], 1)] st' ∧
    finish (plainCfg 10) st' b = some b' ∧
    Run noBpe [.change b, .tokenize 0 0 (fun _ => false) ['a', 'b'], .change b'] s ∧ s.bpe = b' ∧ s.gen = 0 ∧
    Bpe.tokenize b' (fun _ => false) ['a', 'b'] = .ok [⟨0, ['a'], (0, 1)⟩, ⟨1, ['b'], (1, 2)⟩] ∧
    Step s (.tokenize 0 0 (fun _ => false) ['a', 'b']) (some .panic) s' := by
  obtain ⟨st, h1, h2⟩ := trainModel_trained onAb_trained
  obtain ⟨st', h3, h4⟩ := trainModel_trained onA_trained
  obtain ⟨s, s', h5, h6, h7, h8⟩ := sample_run (b := onAb) (b' := onA) (w := ['a', 'b']) (word := [⟨2, -1, -1, 2⟩]) (by simp)
    (by decide +kernel) rfl rfl rfl rfl (by decide +kernel)
  exact ⟨onAb, onA, st, st', s, s', h1, h2, h3, h4, h5, h6, h7, by decide +kernel, h8⟩

/-- A model with an unknown token. -/
def withUnk : Bpe := { onA with unk := some ['b'] }

/-- **C96, negation: `fuse_unk` set.** A model that was used for `xx` before `fuse_unk` was set does not fuse. -/
theorem C96_setter : ∃ s s', Run Train.noBpe [.change withUnk, .tokenize 0 0 (fun _ => false) ['x', 'x'],
      .change { withUnk with fuseUnk := true }] s ∧ s.bpe = { withUnk with fuseUnk := true } ∧
    Bpe.tokenize s.bpe (fun _ => false) ['x', 'x'] = .ok [⟨1, ['b'], (0, 2)⟩] ∧
    Step s (.tokenize 0 0 (fun _ => false) ['x', 'x']) (some (.ok [⟨1, ['b'], (0, 1)⟩, ⟨1, ['b'], (1, 2)⟩])) s' := by
  obtain ⟨s, s', h5, h6, h7, h8⟩ := sample_run (b := withUnk) (b' := { withUnk with fuseUnk := true }) (w := ['x', 'x'])
    (word := [⟨1, -1, 1, 1⟩, ⟨1, 0, -1, 1⟩]) (by simp) (by decide +kernel) rfl rfl rfl rfl (by decide +kernel)
  exact ⟨s, s', h5, h6, by rw [h6]; decide +kernel, h8⟩

/-- `C96_cleared` on the first sample: after `clear_cache` the new tables are used. -/
example : ∃ s s1 s2, Run Train.noBpe [.change onAb, .tokenize 0 0 (fun _ => false) ['a', 'b'], .change onBa] s ∧
    Step s (.clear 1) none s1 ∧
    Step s1 (.tokenize 0 1 (fun _ => false) ['a', 'b']) (some (.ok [⟨0, ['a'], (0, 1)⟩, ⟨1, ['b'], (1, 2)⟩])) s2 := by
  have h1 : Step (fresh Train.noBpe 0 10 fun _ => []) (.change onAb) none _ := .change
  have h2 := Step.tokenize (s := ⟨onAb, 0, 10, some 0, [], fun _ => [], [(0, onAb), (0, Train.noBpe)]⟩) (t := 0) (cid := 0)
    (coins := fun _ => false) (w := ['a', 'b']) (.inl rfl)
  have h3 := Step.change (s := ⟨onAb, 0, 10, some 0, [],
      fun u => if u = 0 then (tokenizeCached onAb 0 10 (fun _ => false) ['a', 'b'] []).2 else [],
      [(0, onAb), (0, Train.noBpe)]⟩) (b := onBa)
  have hr : Run Train.noBpe [.change onAb, .tokenize 0 0 (fun _ => false) ['a', 'b'], .change onBa] _ :=
    ⟨0, 10, fun _ => [], fun _ _ => rfl, .cons h1 (.cons h2 (.cons h3 .nil))⟩
  have h4 := Step.clear (s := ⟨onBa, 0, 10, some 0, [],
      fun u => if u = 0 then (tokenizeCached onAb 0 10 (fun _ => false) ['a', 'b'] []).2 else [],
      [(0, onBa), (0, onAb), (0, Train.noBpe)]⟩) (g := 1) (by simp) (by
        intro t w
        simp only
        split
        · rw [show (tokenizeCached onAb 0 10 (fun _ => false) ['a', 'b'] []).2 = [((0, ['a', 'b']), [⟨2, -1, -1, 2⟩])] by
            decide +kernel]
          simp [AMap.get]
        · rfl)
  have h5 := Step.tokenize (t := 0) (cid := 1) (coins := fun _ => false) (w := ['a', 'b'])
    (s := ⟨onBa, 1, 10, some 0, [1],
      fun u => if u = 0 then (tokenizeCached onAb 0 10 (fun _ => false) ['a', 'b'] []).2 else [],
      [(1, onBa), (0, onBa), (0, onAb), (0, Train.noBpe)]⟩) (.inr (by simp))
  have h6 := C96_cleared hr h4 .nil (by simp) h5
  rw [h6] at h5
  rw [show Bpe.tokenize onBa (fun _ => false) ['a', 'b'] = .ok [⟨0, ['a'], (0, 1)⟩, ⟨1, ['b'], (1, 2)⟩] by decide +kernel] at h5
  exact ⟨_, _, _, hr, h4, h5⟩

/-- `C96_options` where it says something: `dropout` switched on and off again between two calls for the same word. -/
example : ∃ s s' r, Run onAb [.tokenize 0 0 (fun _ => false) ['a', 'b'], .change { onAb with useDropout := true },
      .change { onAb with ignoreMerges := true }] s ∧ (s.locals 0).get (0, ['a', 'b']) = some [⟨2, -1, -1, 2⟩] ∧
    Step s (.tokenize 0 0 (fun _ => false) ['a', 'b']) (some r) s' ∧ r = .ok [⟨2, ['a', 'b'], (0, 2)⟩] := by
  have h1 := Step.tokenize (s := fresh onAb 0 10 fun _ => []) (t := 0) (cid := 0) (coins := fun _ => false) (w := ['a', 'b'])
    (.inr (by simp [fresh]))
  have h2 := Steps.cons h1 (.cons (.change (b := { onAb with useDropout := true }))
    (.cons (.change (b := { onAb with ignoreMerges := true })) .nil))
  refine ⟨_, _, _, ⟨0, 10, fun _ => [], fun _ _ => rfl, h2⟩, by decide +kernel, .tokenize (.inl rfl), ?_⟩
  decide +kernel

end Tok.Bpe.Retrain
