import Verif.Train.BpeOrder

/-!
# Examples and limits of BPE training (C41)
-/

namespace Tok.Train

open Tok.Bpe

theorem loop_stop_mono {cfg : BpeCfg} {counts : List Nat} : ∀ {k : Nat} {s s' : St}, loop cfg counts k s = .stop s' →
    ∀ fuel, k ≤ fuel → loop cfg counts fuel s = .stop s'
  | 0, _, _, h, _, _ => by cases h
  | k + 1, s, s', h, fuel, hf => by
    obtain ⟨fuel, rfl⟩ : ∃ f, fuel = f + 1 := ⟨fuel - 1, by omega⟩
    rw [loop] at h ⊢
    generalize step cfg counts s = o at h
    cases o with
    | panic => cases h
    | stop s1 => exact h
    | more s1 => exact loop_stop_mono h fuel (by omega)

/-- What is left of a state at the end. -/
def outcome (cfg : BpeCfg) (wc : AMap Str Nat) (fuel : Nat) : Option (List Str × List (List Nat) × List (Pair × Nat)) :=
  match loop cfg (wc.map (·.2)) fuel (start cfg id wc) with
  | .stop s => some (s.voc.id2w, s.words.map (·.map (·.1)), s.merges)
  | _ => none

theorem outcome_trained {cfg : BpeCfg} {wc : AMap Str Nat} {fuel : Nat} {v ws ms} (h : outcome cfg wc fuel = some (v, ws, ms)) :
    ∃ s, Trained cfg id wc s ∧ s.voc.id2w = v ∧ s.words.map (·.map (·.1)) = ws ∧ s.merges = ms := by
  unfold outcome at h
  split at h
  · rename_i s hs
    simp only [Option.some.injEq, Prod.mk.injEq] at h
    exact ⟨s, ⟨fuel, loop_stop_mono hs⟩, h.1, h.2.1, h.2.2⟩
  · cases h

/-- A configuration without options. -/
def plainCfg (vocabSize : Nat) : BpeCfg :=
  { minFrequency := 0, vocabSize := vocabSize, specials := [], limitAlphabet := none, initialAlphabet := [], pre := none,
    suf := none, maxLen := none }

/-- `hug` 10 times, `pug` 5 times, and so on. -/
def hugCounts : AMap Str Nat :=
  [(['h', 'u', 'g'], 10), (['p', 'u', 'g'], 5), (['p', 'u', 'n'], 12), (['b', 'u', 'n'], 4), (['h', 'u', 'g', 's'], 5)]

def noBpe : Bpe := ⟨[], [], [], false, none, none, none, false, false, false⟩

theorem hug_outcome : outcome (plainCfg 10) hugCounts 20 =
    some ([['b'], ['g'], ['h'], ['n'], ['p'], ['s'], ['u'], ['u', 'g'], ['u', 'n'], ['h', 'u', 'g']],
      [[9], [4, 7], [4, 8], [0, 8], [9, 5]], [((6, 1), 7), ((6, 3), 8), ((2, 7), 9)]) := by decide +kernel

theorem hug_separated (n : Nat) : Separated (plainCfg n) hugCounts := ⟨by simp [plainCfg], by simp [plainCfg]⟩

theorem id_order : IsOrder id := fun _ => .refl _

example : ∃ s, Trained (plainCfg 10) id hugCounts s ∧
    Greedy (plainCfg 10) (hugCounts.map (·.2)) (start (plainCfg 10) id hugCounts).voc.id2w (start (plainCfg 10) id hugCounts).words
      s.merges s.voc.id2w s.words := C41_textbook (hug_separated 10)

/-- The counts after the first merge. -/
example : ∃ s, loop (plainCfg 10) (hugCounts.map (·.2)) 1 (start (plainCfg 10) id hugCounts) = .more s ∧
    Eligible none s.words (2, 7) ∧ total (2, 7) s.words (hugCounts.map (·.2)) = 15 ∧ (s.pc.get (2, 7)).getD 0 = 15 := by
  refine ⟨_, rfl, ⟨[(2, 1), (7, 2)], by decide +kernel, [], (2, 1), (7, 2), [], rfl, rfl, .inr (by simp)⟩, by decide +kernel,
    by decide +kernel⟩

/-- All hypotheses of `C41_retokenize` hold for `hugs`. -/
example : ∃ s b' ts syms, Trained (plainCfg 10) id hugCounts s ∧ finish (plainCfg 10) s noBpe = some b' ∧
    tokenize b' (fun _ => false) ['h', 'u', 'g', 's'] = .ok ts ∧ s.words[4]? = some syms ∧ ts.map (·.id) = syms.map (·.1) := by
  obtain ⟨s, hs, _, _, _⟩ := outcome_trained hug_outcome
  obtain ⟨b', hf, _⟩ := C41_built (hug_separated 10) hs noBpe
  obtain ⟨ts, syms, h⟩ := C41_retokenize (hug_separated 10) hs hf rfl rfl (fun _ => false) (i := 4) (w := ['h', 'u', 'g', 's']) (n := 5)
    rfl fun c hc => C41_all_kept id_order hugCounts (.of_none rfl _) (p := (['h', 'u', 'g', 's'], 5)) (by simp [hugCounts]) hc
  exact ⟨s, b', ts, syms, hs, hf, h⟩

/-- The order of the words does not matter. -/
example : ∃ s s', Trained (plainCfg 10) id hugCounts s ∧ Trained (plainCfg 10) List.reverse hugCounts.reverse s' ∧
    s.merges = s'.merges ∧ s.voc.id2w = s'.voc.id2w := by
  obtain ⟨s, hs, _⟩ := C41_textbook (order := id) (hug_separated 10)
  obtain ⟨s', hs', _⟩ := C41_textbook (cfg := plainCfg 10) (order := List.reverse) (wc := hugCounts.reverse)
    ⟨by simp [plainCfg], by simp [plainCfg]⟩
  exact ⟨s, s', hs, hs', C41_order rfl rfl rfl id_order (fun m => m.reverse_perm) (List.reverse_perm _).symm hs hs'⟩

/-- The WordPiece configuration: prefix `##`, with words that do not contain `#`. -/
def hashCfg : BpeCfg := { plainCfg 40 with pre := some ['#', '#'] }

example : Separated hashCfg hugCounts := by
  refine ⟨fun c r h p hp => ?_, by simp [hashCfg, plainCfg]⟩
  simp only [hashCfg, Option.some.injEq, List.cons.injEq] at h
  obtain ⟨rfl, _⟩ := h
  simp only [hugCounts, List.mem_cons, List.not_mem_nil, or_false] at hp
  rcases hp with rfl | rfl | rfl | rfl | rfl <;> decide

/-- A limit of three characters. -/
def limitCfg (n : Nat) : BpeCfg := { plainCfg 10 with limitAlphabet := some n }

example : keptList (limitCfg 3) id hugCounts = ['g', 'p', 'u'] := by decide +kernel

/-! ## What does not hold -/

/-- The conclusion of `C41_retokenize` for the word at `i`. -/
def retokenizes (cfg : BpeCfg) (wc : AMap Str Nat) (fuel i : Nat) : Option Bool :=
  match loop cfg (wc.map (·.2)) fuel (start cfg id wc) with
  | .stop s =>
    match finish cfg s noBpe with
    | none => none
    | some b' =>
      match wc[i]?, s.words[i]? with
      | some p, some syms =>
        match tokenize b' (fun _ => false) p.1 with
        | .ok ts => some (ts.map (·.id) == syms.map (·.1))
        | _ => some false
      | _, _ => none
  | _ => none

/-- **C41, finding.** With a prefix whose first character is in the text, two different runs of symbols may get the same string
and so the same id; a pair is then merged twice, and the trained model does not tokenize a training word into the symbols the
trainer ended with. -/
theorem C41_prefix_in_text : ∃ (cfg : BpeCfg) (wc : AMap Str Nat) (fuel i : Nat), wc.WF ∧ cfg.limitAlphabet = none ∧
    retokenizes cfg wc fuel i = some false ∧ ∃ v ws ms, outcome cfg wc fuel = some (v, ws, ms) ∧ ¬ (ms.map (·.1)).Nodup := by
  refine ⟨hashCfg, [(['#', '#', '#', '#', '#'], 3), (['#', '#', '#', '#', 'a'], 2)], 50, 0, by unfold AMap.WF; decide, rfl, by decide +kernel, ?_⟩
  cases h : outcome hashCfg [(['#', '#', '#', '#', '#'], 3), (['#', '#', '#', '#', 'a'], 2)] 50 with
  | none => exact absurd h (by decide +kernel)
  | some x =>
    refine ⟨_, _, _, rfl, ?_⟩
    have : (outcome hashCfg [(['#', '#', '#', '#', '#'], 3), (['#', '#', '#', '#', 'a'], 2)] 50).map
        (fun x => decide (x.2.2.map (·.1)).Nodup) = some false := by decide +kernel
    rw [h] at this
    simpa using this

/-- **C41, finding.** With a suffix, the ids of the symbols that have it come in the order in which the words are visited. -/
theorem C41_order_suffix : ∃ (cfg : BpeCfg) (wc wc' : AMap Str Nat), cfg.pre = none ∧ cfg.limitAlphabet = none ∧ wc.Perm wc' ∧
    (start cfg id wc).voc.id2w ≠ (start cfg id wc').voc.id2w := by
  refine ⟨{ plainCfg 10 with suf := some ['_'] }, [(['a'], 1), (['b'], 1)], [(['b'], 1), (['a'], 1)], rfl, rfl, .swap _ _ _, ?_⟩
  decide +kernel

/-- **C41, finding.** With a limit of the alphabet, which of several equally frequent characters is kept depends on the order
in which a hash map is visited. -/
theorem C41_limit_ties : ∃ (cfg : BpeCfg) (wc : AMap Str Nat) (order order' : AMap Char Nat → AMap Char Nat),
    cfg.pre = none ∧ cfg.suf = none ∧ IsOrder order ∧ IsOrder order' ∧ keptList cfg order wc ≠ keptList cfg order' wc := by
  refine ⟨limitCfg 1, [(['a', 'b'], 1)], id, List.reverse, rfl, rfl, id_order, fun m => m.reverse_perm, ?_⟩
  decide +kernel

/-- **C41, finding.** A maximal token length of one does not stop the trainer from making tokens of two characters. -/
theorem C41_max_length_exempt : ∃ (cfg : BpeCfg) (wc : AMap Str Nat) (v : List Str) (ws : List (List Nat)) (ms : List (Pair × Nat)),
    cfg.maxLen = some 1 ∧ outcome cfg wc 20 = some (v, ws, ms) ∧ ['a', 'b'] ∈ v ∧ ['a', 'b'] ∉ cfg.specials := by
  refine ⟨{ plainCfg 10 with maxLen := some 1 }, [(['a', 'b'], 1)], [['a'], ['b'], ['a', 'b']], [[2]], [((0, 1), 2)], rfl, ?_, by decide,
    by decide⟩
  decide +kernel

/-- **C41, finding.** With a suffix (or prefix) the vocabulary may exceed both its maximal size and the number of characters
and special tokens, because the symbols with the suffix are tokens of their own. -/
theorem C41_size_suffix : ∃ (cfg : BpeCfg) (wc : AMap Str Nat) (v : List Str) (ws : List (List Nat)) (ms : List (Pair × Nat)),
    outcome cfg wc 20 = some (v, ws, ms) ∧ max cfg.vocabSize (cfg.specials.length + (keptList cfg id wc).length) < v.length := by
  refine ⟨{ plainCfg 2 with suf := some ['_'] }, [(['a', 'b'], 1)], [['a'], ['b'], ['b', '_']], [[0, 2]], [], ?_, ?_⟩ <;>
    decide +kernel

/-- Special tokens come first, and a special token that training would make keeps its id. -/
example : outcome { plainCfg 6 with specials := [['<', 's', '>'], ['a', 'b']] } [(['a', 'b', 'c'], 2)] 20 =
    some ([['<', 's', '>'], ['a', 'b'], ['a'], ['b'], ['c'], ['a', 'b', 'c']], [[5]], [((2, 3), 1), ((1, 4), 5)]) := by decide +kernel

example : ∃ s, Trained { plainCfg 20 with maxLen := some 3 } id hugCounts s ∧
    ∀ m ∈ s.merges, ∃ t, s.voc.id2w[m.2]? = some t ∧ (t.length = 2 ∨ t.length < 3) := by
  obtain ⟨s, hs, _⟩ := C41_textbook (cfg := { plainCfg 20 with maxLen := some 3 }) (order := id) (wc := hugCounts)
    ⟨by simp [plainCfg], by simp [plainCfg]⟩
  exact ⟨s, hs, C41_max_length rfl rfl hs rfl⟩

end Tok.Train
