import Verif.Train.UnigramCover
import Verif.Unigram.C60Model

/-!
# C61: when the loop of the Unigram trainer does not end
-/

namespace Tok.Train

open Tok.Unigram

/-- A lattice over one character that is a piece has one path. -/
theorem one_path {vocab : List (Str × Rat)} {unk : Option Nat} {u : Unigram} (hM : Made vocab unk u) {m : Rat}
    (hm : IsMinScore vocab m) {ch : Char} {sc0 : Rat} (hv : ([ch], sc0) ∈ vocab) {is js : List Nat}
    (hi : IdxPath (u.edgesFrom 0 [ch]) 0 (blen [ch]) is) (hj : IdxPath (u.edgesFrom 0 [ch]) 0 (blen [ch]) js) : is = js := by
  have hedge : ∀ e ∈ u.edgesFrom 0 [ch], ∃ i sc, LastIn vocab [ch] i sc ∧ e = ⟨0, blen [ch], some i, sc⟩ := by
    intro e he
    obtain ⟨a, b, x, h1, hx, rfl⟩ := (hM.mem_edgesFrom hm _ 0 e).1 he
    have hne := hx.ne_nil
    obtain ⟨rfl, hb, ht⟩ : a = [] ∧ b = [] ∧ x.text = [ch] := by
      have hl := congrArg List.length h1
      have hpos : 0 < x.text.length := by
        cases hxt : x.text with
        | nil => exact absurd hxt hne
        | cons a l => simp
      simp only [List.length_append, List.length_cons, List.length_nil] at hl
      have ha : a = [] := List.length_eq_zero_iff.1 (by omega)
      have hb : b = [] := List.length_eq_zero_iff.1 (by omega)
      subst ha; subst hb
      exact ⟨rfl, rfl, by simpa using h1.symm⟩
    rcases hx with ⟨-, i, h2, h3⟩ | ⟨c, h2, h3, -⟩
    · rw [ht] at h3
      exact ⟨i, x.score, h3, by simp [ht, h2]⟩
    · rw [ht] at h2
      cases h2
      exact absurd hv (h3 sc0)
  have hpos : 0 < blen [ch] := by
    have := Char.utf8Size_pos ch
    simpa [blen] using this
  have shape : ∀ ks, IdxPath (u.edgesFrom 0 [ch]) 0 (blen [ch]) ks → ∃ k e, ks = [k] ∧ (u.edgesFrom 0 [ch])[k]? = some e := by
    intro ks hk
    cases ks with
    | nil => simp only [IdxPath] at hk; omega
    | cons k ks =>
      obtain ⟨e, he, -, h2⟩ := hk
      obtain ⟨i, sc, -, rfl⟩ := hedge e (List.mem_of_getElem? he)
      cases ks with
      | nil => exact ⟨k, _, rfl, he⟩
      | cons k' ks =>
        obtain ⟨e', he', h3, -⟩ := h2
        obtain ⟨i', sc', -, rfl⟩ := hedge e' (List.mem_of_getElem? he')
        simp only at h3
        omega
  obtain ⟨i, e, rfl, he⟩ := shape is hi
  obtain ⟨j, f, rfl, hf⟩ := shape js hj
  obtain ⟨a, sa, la, rfl⟩ := hedge e (List.mem_of_getElem? he)
  obtain ⟨b, sb, lb, rfl⟩ := hedge f (List.mem_of_getElem? hf)
  have hab : a = b := by
    rcases Nat.lt_trichotomy a b with h | h | h
    · exact absurd lb.1 (la.2 b sb h)
    · exact h
    · exact absurd la.1 (lb.2 a sa h)
  subst hab
  have := la.1.symm.trans lb.1
  cases this
  have hnd := hM.nodup_edgesFrom hm [ch] 0
  obtain ⟨h1, h1'⟩ := List.getElem?_eq_some_iff.1 he
  obtain ⟨h2, h2'⟩ := List.getElem?_eq_some_iff.1 hf
  rw [(List.getElem_inj hnd).1 (h1'.trans h2'.symm)]

/-- A piece of one character is always kept. -/
theorem alternativesOf_char {ar : Arith} (hH : ar.heap.Ok) {rest : List Scored} {u : Unigram}
    (hu : trainingModel rest = .ok u) {ch : Char} {sc : Rat} (hp : ([ch], sc) ∈ rest) {alt : Bool × List Nat}
    (h : alternativesOf ar u [ch] = some alt) : alt = (true, []) := by
  unfold trainingModel at hu
  have hM := made_of_from hu
  have hm := minOf_isMin (vocab := (unkPiece, notMin rest) :: rest) (by simp)
  obtain ⟨h1, hF, h2, h3⟩ := C47_model hu [ch]
  unfold alternativesOf at h
  rw [h1, Option.bind_some] at h
  simp only [Option.bind_eq_some_iff] at h
  obtain ⟨nb, hnb, h⟩ := h
  obtain ⟨paths, rfl, sp⟩ := C47_nbest hF h2 h3 hH hnb
  match paths, sp, h with
  | [], _, h => cases h
  | [a], _, h => simp at h; exact h.symm
  | a :: b :: l, sp, h =>
    exfalso
    have := one_path hM hm (sc0 := sc) (by simp [hp]) (sp.paths a (by simp)) (sp.paths b (by simp))
    subst this
    have := sp.nodup
    simp at this

/-- All pieces are single characters. -/
def Singles (rest : List Scored) : Prop := ∀ p ∈ rest, ∃ ch, p.1 = [ch]

theorem mapM_some_length {α β : Type} {f : α → Option β} : ∀ {l : List α} {r : List β}, l.mapM f = some r →
    r.length = l.length ∧ ∀ p ∈ l.zip r, f p.1 = some p.2
  | [], r, h => by cases h; simp
  | a :: l, r, h => by
    rw [List.mapM_cons] at h
    cases ha : f a with
    | none => rw [ha] at h; cases h
    | some b =>
      rw [ha] at h
      cases hl : l.mapM f with
      | none => rw [hl] at h; cases h
      | some bs =>
        rw [hl] at h
        cases h
        obtain ⟨h1, h2⟩ := mapM_some_length hl
        refine ⟨by simp [h1], ?_⟩
        intro p hp
        simp only [List.zip_cons_cons, List.mem_cons] at hp
        rcases hp with rfl | hp
        · exact ha
        · exact h2 p hp

/-- Pruning does not remove single characters. -/
theorem prune_singles {c : UniCfg} {ar : Arith} (hH : ar.heap.Ok) {st : List (Str × Nat)} {rest out : List Scored}
    (hs : Singles rest) (h : c.prune ar st rest = some out) : out = rest := by
  unfold UniCfg.prune at h
  split at h
  · cases h
  rename_i u hu
  simp only [Option.bind_eq_some_iff, Option.map_eq_some_iff] at h
  obtain ⟨alts, halts, paths, -, rfl⟩ := h
  obtain ⟨hlen, hall⟩ := mapM_some_length halts
  have halt : ∀ p ∈ rest.zip alts, p.2 = (true, []) := by
    intro p hp
    obtain ⟨ch, hch⟩ := hs p.1 (List.of_mem_zip (a := p.1) (b := p.2) hp).1
    have := hall p hp
    rw [hch] at this
    exact alternativesOf_char hH hu (sc := p.1.2) (by rw [← hch]; exact (List.of_mem_zip (a := p.1) (b := p.2) hp).1) this
  have key : ∀ (l : List (Scored × (Bool × List Nat))) (k : Nat), (∀ p ∈ l, p.2 = (true, [])) →
      (l.zipIdx k).map (fun p => (p.1.1, verdictOf ar st paths (rest.length + 1) (p.2 + 1) p.1.2)) =
        l.map fun p => (p.1, Verdict.keep) := by
    intro l
    induction l with
    | nil => intro k _; rfl
    | cons p l ih =>
      intro k h
      rw [List.zipIdx_cons, List.map_cons, List.map_cons, ih _ (fun q hq => h q (by simp [hq]))]
      congr 1
      rw [h p (by simp)]
      simp [verdictOf]
  rw [key _ 0 halt]
  have hz : (rest.zip alts).map (·.1) = rest := by
    rw [List.map_fst_zip (by omega)]
  have e1 : List.filterMap keptPiece ((rest.zip alts).map fun p => (p.1, Verdict.keep)) = rest := by
    rw [List.filterMap_map]
    have : (keptPiece ∘ fun p : Scored × (Bool × List Nat) => (p.1, Verdict.keep)) = some ∘ fun p => p.1 := rfl
    rw [this, List.filterMap_eq_map]
    exact hz
  have e2 : List.filterMap candidatePiece ((rest.zip alts).map fun p => (p.1, Verdict.keep)) = [] := by
    rw [List.filterMap_map, List.filterMap_eq_nil_iff]
    intro a _
    rfl
  rw [e1, e2]
  rfl

/-- The M step keeps every piece that is expected often enough. -/
theorem mStep_keeps {dg : Rat → Rat} {rest out : List Scored} {ex : List Rat} (h : mStep dg rest ex = some out)
    (hx : ∀ x ∈ ex.tail, 1 / 2 ≤ x) : out.map (·.1) = rest.map (·.1) := by
  unfold mStep at h
  split at h
  · cases h
  rename_i hl
  cases h
  have hlen : ex.tail.length = rest.length := by rw [List.length_tail]; omega
  have : (ex.tail.zip rest).filter (fun p => decide (¬ p.1 < 1 / 2)) = ex.tail.zip rest := by
    rw [List.filter_eq_self]
    intro p hp
    have := hx p.1 (List.of_mem_zip (a := p.1) (b := p.2) hp).1
    simpa using Rat.not_lt.2 this
  rw [this, List.map_map]
  have e : ((fun x : Scored => x.1) ∘ fun p : Rat × Scored => (p.2.1, dg p.1 - dg ((ex.tail.zip rest).map (·.1)).sum)) =
      (fun p : Scored => p.1) ∘ (fun p : Rat × Scored => p.2) := rfl
  rw [e, ← List.map_map, List.map_snd_zip (by omega)]

/-- The pieces are characters of the corpus. -/
def CorpusChars (sentences : List (Str × Nat)) (l : List Scored) : Prop :=
  ∀ p ∈ l, ∃ ch, p.1 = [ch] ∧ ∃ st ∈ sentences, ch ∈ st.1

theorem CorpusChars.congr {sentences : List (Str × Nat)} {l l' : List Scored} (h : CorpusChars sentences l)
    (e : l'.map (·.1) = l.map (·.1)) : CorpusChars sentences l' := by
  intro p hp
  have : p.1 ∈ l.map (·.1) := by rw [← e]; exact List.mem_map_of_mem hp
  obtain ⟨q, hq, e'⟩ := List.mem_map.1 this
  rw [← e']
  exact h q hq

theorem emRounds_keeps {ar : Arith} {st : List (Str × Nat)}
    (hex : ∀ u, CorpusChars st u.vocab.tail → ∀ x ∈ (ar.expected u st).tail, 1 / 2 ≤ x) :
    ∀ (n : Nat) {rest out : List Scored}, CorpusChars st rest → emRounds ar st n rest = some out →
      out.map (·.1) = rest.map (·.1)
  | 0, rest, out, _, h => by cases h; rfl
  | n + 1, rest, out, hc, h => by
    simp only [emRounds, Option.bind_eq_some_iff] at h
    obtain ⟨mid, h1, h2⟩ := h
    unfold emRound at h1
    split at h1
    · cases h1
    rename_i u hu
    have hv := (from_inv hu).1
    have e1 := mStep_keeps h1 (hex u (by rw [hv]; exact hc))
    rw [emRounds_keeps hex n (hc.congr e1) h2, e1]

theorem emLoop_stuck {c : UniCfg} {ar : Arith} (hH : ar.heap.Ok) {st : List (Str × Nat)}
    (hex : ∀ u, CorpusChars st u.vocab.tail → ∀ x ∈ (ar.expected u st).tail, 1 / 2 ≤ x) :
    ∀ (fuel : Nat) {rest out : List Scored}, CorpusChars st rest → c.desired < rest.length + 1 →
      c.emLoop ar st fuel rest ≠ some (some out)
  | 0, rest, out, _, _ => by intro h; cases h
  | fuel + 1, rest, out, hc, hl => by
    intro h
    unfold UniCfg.emLoop at h
    split at h
    · cases h
    rename_i mid h1
    have e1 := emRounds_keeps hex _ hc h1
    have hlen : mid.length = rest.length := by simpa using congrArg List.length e1
    have hc' := hc.congr e1
    rw [if_neg (by omega)] at h
    split at h
    · cases h
    rename_i r h2
    rw [prune_singles hH (fun p hp => (hc' p hp).imp fun ch h => h.1) h2] at h
    exact emLoop_stuck hH hex fuel hc' (by omega) h

theorem charCounts_has {sentences : List (Str × Nat)} {ch : Char} (h0 : ch ≠ '\x00')
    (h : ∃ st ∈ sentences, ch ∈ st.1) : ∃ n, (ch, n) ∈ charCounts sentences := by
  have hins : ∀ (m : AMap Char Nat) (k : Char) (v : Nat) (x : Char), (x = k ∨ ∃ n, (x, n) ∈ m) →
      ∃ n, (x, n) ∈ AMap.insert m k v := by
    intro m k v x hx
    by_cases hk : x = k
    · exact ⟨v, by subst hk; simp [AMap.insert]⟩
    · obtain ⟨n, hn⟩ := hx.resolve_left hk
      exact ⟨n, by simp only [AMap.insert, List.mem_cons, List.mem_filter]; exact .inr ⟨hn, by simpa using hk⟩⟩
  have inner : ∀ (s : Str) (k : Nat) (m : AMap Char Nat), (ch ∈ s ∨ ∃ n, (ch, n) ∈ m) → ∃ n, (ch, n) ∈ s.foldl (fun m c =>
      if c = '\x00' then m else AMap.insert m c ((m.get c).getD 0 + k)) m := by
    intro s k
    induction s with
    | nil => intro m h; simpa using h
    | cons c s ih =>
      intro m h
      rw [List.foldl_cons]
      apply ih
      by_cases hs : ch ∈ s
      · exact .inl hs
      · right
        by_cases hc : c = '\x00'
        · rw [if_pos hc]
          rcases h with h | h
          · rcases List.mem_cons.1 h with e | h
            · exact absurd (e.trans hc) h0
            · exact absurd h hs
          · exact h
        · rw [if_neg hc]
          apply hins
          rcases h with h | h
          · rcases List.mem_cons.1 h with e | h
            · exact .inl e
            · exact absurd h hs
          · exact .inr h
  have outer : ∀ (l : List (Str × Nat)) (m : AMap Char Nat), ((∃ st ∈ l, ch ∈ st.1) ∨ ∃ n, (ch, n) ∈ m) →
      ∃ n, (ch, n) ∈ l.foldl (fun m st => st.1.foldl (fun m c =>
        if c = '\x00' then m else AMap.insert m c ((m.get c).getD 0 + st.2)) m) m := by
    intro l
    induction l with
    | nil => intro m h; simpa using h
    | cons st l ih =>
      intro m h
      rw [List.foldl_cons]
      apply ih
      rcases h with ⟨s, hs, h⟩ | h
      · rcases List.mem_cons.1 hs with rfl | hs
        · exact .inr (inner _ _ _ (.inl h))
        · exact .inl ⟨s, hs, h⟩
      · exact .inr (inner _ _ _ (.inr h))
  exact outer sentences [] (.inl h)

/-- **C61, what is wrong.** If no substring is long enough and short enough to be a seed and the corpus has as many different
characters as 1.1 times the vocabulary size, rounded down (for sizes below 10: as many as the size, which is allowed),
training never returns a model. All that is assumed of the E step is that a character of the corpus is expected at least
half a time. -/
theorem C61_never_returns {c : UniCfg} {ar : Arith} (hH : ar.heap.Ok) {order : List Char → List Char}
    {suffix sentences : List (Str × Nat)} (hsuf : ∀ p ∈ suffix, p.1.length ≤ 1 ∨ c.maxPiece < p.1.length)
    (hex : ∀ u, CorpusChars sentences u.vocab.tail → ∀ x ∈ (ar.expected u sentences).tail, 1 / 2 ≤ x)
    {chs : List Char} (hnd : chs.Nodup) (hchs : ∀ ch ∈ chs, ch ≠ '\x00' ∧ ∃ st ∈ sentences, ch ∈ st.1)
    (hlen : c.desired ≤ chs.length) (fuel : Nat) (u : Unigram) :
    c.doTrain ar order suffix sentences fuel ≠ some (.ok u) := by
  intro h
  unfold UniCfg.doTrain at h
  dsimp only at h
  split at h
  · cases h
  simp only [Option.map_eq_some_iff] at h
  obtain ⟨r, hloop, h⟩ := h
  split at h
  · cases h
  rename_i rest
  have hsub : c.substrings suffix = [] := by
    unfold UniCfg.substrings
    rw [List.map_eq_nil_iff, List.filter_eq_nil_iff]
    intro p hp
    simp only [Bool.and_eq_true, decide_eq_true_eq, UniCfg.validPiece]
    rcases hsuf p hp with h | h <;> (intro h'; omega)
  have hseed : (c.seeds ar.ln suffix sentences).map (·.1) =
      (sortLe (revLe fun a b : Char => decide (a.val ≤ b.val)) ((charCounts sentences).map fun p => (p.2, p.1))).map
        fun p => [p.2] := by
    unfold UniCfg.seeds toLogProb
    rw [hsub]
    simp [sortLe, pushSeeds, List.map_map, Function.comp_def]
  have hperm := sortLe_perm (revLe fun a b : Char => decide (a.val ≤ b.val)) ((charCounts sentences).map fun p => (p.2, p.1))
  refine emLoop_stuck hH hex fuel ?_ ?_ hloop
  · intro p hp
    have : p.1 ∈ (c.seeds ar.ln suffix sentences).map (·.1) := List.mem_map_of_mem hp
    rw [hseed] at this
    obtain ⟨q, hq, e⟩ := List.mem_map.1 this
    obtain ⟨z, hz, rfl⟩ := List.mem_map.1 (hperm.subset hq)
    exact ⟨z.1, e.symm, charCounts_mem (ch := z.1) (n := z.2) hz⟩
  · have hl : (c.seeds ar.ln suffix sentences).length = (charCounts sentences).length := by
      have := congrArg List.length hseed
      simpa [hperm.length_eq] using this
    have : chs.length ≤ ((charCounts sentences).map (·.1)).length := by
      apply length_le_of_nodup_subset hnd
      intro ch hch
      obtain ⟨h1, h2⟩ := hchs ch hch
      obtain ⟨n, hn⟩ := charCounts_has h1 h2
      exact List.mem_map.2 ⟨_, hn, rfl⟩
    rw [List.length_map] at this
    omega

/-- The expected counts for a vocabulary of single characters: how often each occurs. -/
def countArith : Arith where
  ln x := if x = 1 then 0 else 11 / 10
  digamma x := if x = 1 then -577 / 1000 else 923 / 1000
  expected u sentences := u.vocab.map fun p => match p.1 with
    | [ch] => ((sentences.map fun st => st.2 * st.1.count ch).sum : Nat)
    | _ => 0
  heap := listHeap
  steps := 100

def abcCfg : UniCfg := { vocabSize := 3 }

/-- The hypotheses of `C61_never_returns` are met by the corpus `abc` and vocabulary size 3 (which is not too small: there are
three characters). -/
example (fuel : Nat) (u : Unigram) :
    abcCfg.doTrain countArith dedupOrder [] [("abc".toList, 1)] fuel ≠ some (.ok u) := by
  refine C61_never_returns listHeap_ok (by simp) ?_ (chs := "abc".toList) (by decide) (by decide) (by decide) fuel u
  intro u hc x hx
  have : (countArith.expected u [("abc".toList, 1)]).tail = u.vocab.tail.map fun p => match p.1 with
      | [ch] => ((([("abc".toList, 1)] : List (Str × Nat)).map fun st => st.2 * st.1.count ch).sum : Nat)
      | _ => 0 := by
    simp only [countArith, List.map_tail]
  rw [this] at hx
  obtain ⟨p, hp, rfl⟩ := List.mem_map.1 hx
  obtain ⟨ch, h1, st, hst, h2⟩ := hc p hp
  rw [h1]
  simp only [List.mem_singleton] at hst
  subst hst
  have : ∀ ch ∈ "abc".toList, (1 / 2 : Rat) ≤
      ((([("abc".toList, 1)] : List (Str × Nat)).map fun st => st.2 * st.1.count ch).sum : Nat) := by decide +kernel
  exact this ch h2

/-- It is not that the run panics: it goes on for ever. -/
theorem C61_hangs (fuel : Nat) : abcCfg.doTrain countArith dedupOrder [] [("abc".toList, 1)] fuel = none := by
  have fix : emRounds countArith [("abc".toList, 1)] 2 [("c".toList, -3/2), ("b".toList, -3/2), ("a".toList, -3/2)] =
      some [("c".toList, -3/2), ("b".toList, -3/2), ("a".toList, -3/2)] := by decide +kernel
  have fixp : abcCfg.prune countArith [("abc".toList, 1)] [("c".toList, -3/2), ("b".toList, -3/2), ("a".toList, -3/2)] =
      some [("c".toList, -3/2), ("b".toList, -3/2), ("a".toList, -3/2)] := by decide +kernel
  have first : emRounds countArith [("abc".toList, 1)] 2 (abcCfg.seeds countArith.ln [] [("abc".toList, 1)]) =
      some [("c".toList, -3/2), ("b".toList, -3/2), ("a".toList, -3/2)] := by decide +kernel
  have loop : ∀ n rest, emRounds countArith [("abc".toList, 1)] 2 rest =
      some [("c".toList, -3/2), ("b".toList, -3/2), ("a".toList, -3/2)] →
      abcCfg.emLoop countArith [("abc".toList, 1)] n rest = none := by
    intro n
    induction n with
    | zero => intro rest _; rfl
    | succ n ih =>
      intro rest h
      have hn : abcCfg.nSub = 2 := rfl
      unfold UniCfg.emLoop
      rw [hn, h]
      simp only [fixp]
      rw [if_neg (by decide), ih _ fix]
  unfold UniCfg.doTrain
  dsimp only
  rw [if_neg (by decide), loop fuel _ first]
  rfl

end Tok.Train
