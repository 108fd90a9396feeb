import Verif.Tokenizer.TrainedBpe
import Verif.Tokenizer.Meta
import Verif.Save.PublishedLlama

/-!
# C84: a trained Unigram tokenizer with Metaspace gives texts back
-/

namespace Tok
namespace Tokenizer

open AddedVocab PreTokenizer Metaspace

/-! ## What is fed to the trainer -/

/-- Without added tokens the trainer is fed the words that the pre-tokenizer makes of the normalized text. -/
theorem pipeline_trainWords {t : Tokenizer} {u : Unicode} {z : Normalizer} {v : CharTables} {y : PreTokenizer}
    (h : IsPipeline t u z v y) (he : t.added = empty) {s : Str} (hs : s ≠ []) :
    t.trainWords s = .ok ((cut v false y (z.text u s)).filter (· ≠ [])) := by
  obtain ⟨C1, C2, hC1, hC2, hp⟩ := preTokenized_view h
  obtain ⟨p, p1, -, -, p4⟩ := hp s
  have hu : units v y (extracted u z C1 C2 s) = ((cut v false y (z.text u s)).filter (· ≠ [])).map fun w => (none, w) := by
    rw [extracted_none hC1 hC2 hs (by rw [he]; simp [empty]) (by rw [he]; simp [empty])]
    unfold plainPart units
    split
    · rename_i hz
      have hn := cut_nil v false y h.sound
      rw [solid] at hn
      rw [hz, hn]; rfl
    · simp
  rw [hu] at p4
  have := congrArg (List.map Prod.fst) p4
  unfold PTS.view shown at this
  rw [List.map_map, List.map_map, List.map_map] at this
  unfold trainWords
  rw [p1]
  refine congrArg Except.ok ?_
  show (p.getSplits .original .byte).map (·.1) = _
  rw [getSplits_texts]
  refine this.trans ?_
  exact List.map_id _

theorem pipeline_trainWords_nil {t : Tokenizer} {u : Unicode} {z : Normalizer} {v : CharTables} {y : PreTokenizer}
    (h : IsPipeline t u z v y) : t.trainWords [] = .ok [] := by
  obtain ⟨C1, C2, hC1, hC2, hp⟩ := preTokenized_view h
  obtain ⟨p, p1, -, -, p4⟩ := hp []
  have hc : C1 [] = [] := carved_nil (fun p hp => (h.tries p (by simp [hp])).1) rfl (hC1 [])
  have hu : units v y (extracted u z C1 C2 []) = [] := by rw [extracted, hc]; rfl
  rw [hu] at p4
  have := congrArg (List.map Prod.fst) p4
  unfold PTS.view shown at this
  rw [List.map_map] at this
  unfold trainWords
  rw [p1]
  refine congrArg Except.ok ?_
  show (p.getSplits .original .byte).map (·.1) = _
  rw [getSplits_texts]
  exact this

/-- The words of a text that the trainer is fed. -/
def wordsOf (u : Unicode) (z : Normalizer) (v : CharTables) (y : PreTokenizer) (s : Str) : List Str :=
  if s = [] then [] else (cut v false y (z.text u s)).filter (· ≠ [])

/-- Counting never fails, and what is counted are the words of the texts. -/
theorem pipeline_feeds {t : Tokenizer} {u : Unicode} {z : Normalizer} {v : CharTables} {y : PreTokenizer}
    (h : IsPipeline t u z v y) (he : t.added = empty) (tree : Train.Tree) :
    ∃ wc, tree.eval t.trainWords = .ok wc ∧ wc.WF ∧
      ∀ w, (∃ n, (w, n) ∈ wc) ↔ ∃ s ∈ tree.leaves, w ∈ wordsOf u z v y s := by
  obtain ⟨m, h1, h2, h3⟩ := Train.C42_counts t.trainWords (wordsOf u z v y) tree tree.leaves (.refl _) (by
    intro s _
    unfold wordsOf
    split
    · rename_i hs; rw [hs]; exact pipeline_trainWords_nil h
    · rename_i hs; exact pipeline_trainWords h he hs)
  refine ⟨m, h1, h2, fun w => ?_⟩
  rw [← List.mem_flatMap, ← List.count_pos_iff]
  constructor
  · rintro ⟨n, hn⟩
    have hg := AMap.get_eq_some_of_mem h2 hn
    rw [h3] at hg
    unfold Train.entry at hg
    split at hg
    · cases hg
    · omega
  · intro hc
    have hg := h3 w
    unfold Train.entry at hg
    rw [if_neg (by omega)] at hg
    exact ⟨_, AMap.mem_of_get_eq_some hg⟩

/-! ## The vocabulary of the trained model -/

/-- The ids of a Unigram model without repetitions belong to one token each. -/
theorem unigramView_ok {vocab : List (Str × Rat)} {unk : Option Nat} {bf : Bool} {g : Unigram}
    (hg : Unigram.from vocab unk bf = .ok g) (hn : (vocab.map (·.1)).Nodup) : (unigramView g).Ok := by
  have hmade := Unigram.made_of_from hg
  have hv := (tokenToIds_length hg).1
  have key : ∀ c i, g.tokenToIds.get c = some i ↔ vocab[i]?.map (·.1) = some c := by
    intro c i
    rw [hmade.ids]
    constructor
    · rintro ⟨sc, h1, -⟩
      rw [h1]; rfl
    · intro hi
      cases hx : vocab[i]? with
      | none => rw [hx] at hi; cases hi
      | some x =>
        rw [hx] at hi
        obtain ⟨a, sc⟩ := x
        cases hi
        refine ⟨sc, hx, ?_⟩
        intro j sc' hlt hj
        have h1 : (vocab.map (·.1))[i]? = some a := by rw [List.getElem?_map, hx]; rfl
        have h2 : (vocab.map (·.1))[j]? = some a := by rw [List.getElem?_map, hj]; rfl
        have := (List.getElem?_inj (List.getElem?_eq_some_iff.1 h1).1 hn).1 (h1.trans h2.symm)
        omega
  refine ⟨fun c i hi => ?_, fun c i => ?_⟩
  · have := (key c i).1 hi
    show i < g.vocab.length
    rw [hv]
    cases hx : vocab[i]? with
    | none => rw [hx] at this; cases this
    | some x => exact (List.getElem?_eq_some_iff.1 hx).1
  · show g.tokenToIds.get c = some i ↔ g.vocab[i]?.map (·.1) = some c
    rw [hv]; exact key c i

/-! ## C84 -/

/-- A tokenizer with Metaspace before training: any normalizer, the pre-tokenizer cuts words, the decoder has the same settings,
nothing is added. The model may be any. -/
structure MetaRecipe (t : Tokenizer) (u : Unicode) (z : Normalizer) (v : CharTables) (r : Char) (sch : Scheme) : Prop where
  pipeline : IsPipeline t u z v (.metaspace ⟨r, sch, true⟩)
  decoder : t.decoder = some (.metaspace r sch)
  mark : r ≠ ' '
  added : t.added = empty

/-- What Metaspace makes of a text: normalized, with marks for spaces. -/
abbrev metaForm (u : Unicode) (z : Normalizer) (r : Char) (sch : Scheme) (s : Str) : Str :=
  metaText ⟨r, sch, true⟩ false (z.text u s)

/-- The texts that a trainer keeps for tokens of its own: special tokens and the unknown token. -/
def Reserved (c : Train.UniCfg) (x : Str) : Prop := x ∈ c.special ∨ c.unk = some x

/-- The suffix array reports substrings of the sentences (those with the separator `\0` are thrown away by the trainer). -/
def Substrings (suffix : AMap Str Nat → List (Str × Nat)) : Prop :=
  ∀ wc, ∀ p ∈ suffix wc, '\x00' ∉ p.1 → ∃ q ∈ wc, p.1 <:+: q.1

theorem wordsOf_meta {u : Unicode} {z : Normalizer} {v : CharTables} {r : Char} {sch : Scheme} {s w : Str}
    (h : w ∈ wordsOf u z v (.metaspace ⟨r, sch, true⟩) s) : w <:+: metaForm u z r sch s ∧ s ≠ [] := by
  unfold wordsOf at h
  split at h
  · cases h
  · rename_i hs
    exact ⟨((meta_words v false r sch (z.text u s)).2 w h).2.2, hs⟩

theorem wordsOf_char {u : Unicode} {z : Normalizer} {v : CharTables} {r : Char} {sch : Scheme} {s : Str} {ch : Char}
    (hs : s ≠ []) (h : ch ∈ metaForm u z r sch s) : ∃ w ∈ wordsOf u z v (.metaspace ⟨r, sch, true⟩) s, ch ∈ w := by
  unfold wordsOf
  rw [if_neg hs]
  rw [metaForm, ← (meta_words v false r sch (z.text u s)).1] at h
  obtain ⟨w, h1, h2⟩ := List.mem_flatten.1 h
  exact ⟨w, h1, h2⟩

/-- **C84.** A Unigram tokenizer with Metaspace is trained on texts in which its special tokens and the unknown token are not
written. Then every text, seen or not, whose characters (normalized, with marks for spaces) were seen in training or given as
the initial alphabet, is encoded without error and decoded to its normalized form, as C69 says. -/
theorem C84_trained {t t' : Tokenizer} {u z v r sch} (h : MetaRecipe t u z v r sch) {build : List (Str × Nat) → Bool}
    (hb : Save.Automata build) {norm : Norm} {tree : Train.Tree} {c : Train.UniCfg} {ar : Train.Arith}
    {order : List Char → List Char} {suffix : AMap Str Nat → List (Str × Nat)} {fuel : Nat} {specials : List AddedToken}
    (htr : t.train build norm tree (unigramTrainer c ar order suffix fuel specials) = (t', .ok ()))
    (hc : c.special = specials.map (·.content)) (ho : Train.SetOrder order) (hsub : Substrings suffix)
    (hplain : ∀ x ∈ specials, x.normalized = false ∧ x.lstrip = false ∧ x.rstrip = false ∧ x.singleWord = false)
    (hnd : (specials.map (·.content)).Nodup) (hset : Surrounds t.settings (IsSpecialId t'.added))
    (hres : ∀ x, Reserved c x → (∀ ch ∈ c.alphabet, x ≠ [ch]) ∧ ∀ s ∈ tree.leaves, ¬ x <:+: metaForm u z r sch s)
    {s : Str} (hs : s ≠ [])
    (hseen : ∀ ch ∈ metaForm u z r sch s, ch ∈ c.alphabet ∨ ∃ q ∈ tree.leaves, q ≠ [] ∧ ch ∈ metaForm u z r sch q)
    (hfree : ∀ x, Reserved c x → x ≠ [] ∧ ¬ x <:+: s ∧ ¬ x <:+: z.text u s ∧ ¬ x <:+: metaForm u z r sch s)
    {add skip : Bool} (hskip : add = true → skip = true) :
    ∃ e, t'.encode (.raw s, none) add = .ok e ∧ t'.decode skip e.ids = some (restored sch (unsub r (z.text u s))) := by
  obtain ⟨wc, hwc, hwf, hwords⟩ := pipeline_feeds h.pipeline h.added tree
  unfold train at htr
  rw [hwc] at htr
  simp only at htr
  cases htrn : unigramTrainer c ar order suffix fuel specials wc with
  | error e => rw [htrn] at htr; simp at htr
  | ok msp =>
    rw [htrn] at htr
    obtain ⟨m, sp⟩ := msp
    have hsp : sp = specials ∧ ∃ g, c.doTrain ar order (suffix wc) wc fuel = some (.ok g) ∧ m = ofUnigram g := by
      unfold unigramTrainer at htrn
      split at htrn
      · rename_i g hg
        cases htrn
        exact ⟨rfl, g, hg, rfl⟩
      · cases htrn
    obtain ⟨rfl, g, hg, rfl⟩ := hsp
    simp only [h.added, Prod.mk.injEq] at htr
    obtain ⟨rfl, -⟩ := htr
    obtain ⟨heads, pieces, T⟩ := Train.C61_model ho hg
    have hheads : ∀ x ∈ heads.map (·.1), Reserved c x := by
      intro x hx
      rcases T.specials with ⟨e, -⟩ | ⟨k, hk, -, e⟩
      · rw [e] at hx; exact .inl hx
      · rw [e] at hx
        rcases List.mem_cons.1 hx with rfl | hx
        · exact .inr hk
        · exact .inl hx
    have hneed : ∀ ch, Train.Needed c wc ch → ch ∈ c.alphabet ∨ ∃ q ∈ tree.leaves, ch ∈ metaForm u z r sch q := by
      rintro ch (hch | ⟨st, hst, hch⟩)
      · exact .inl hch
      · obtain ⟨q, hq, hw⟩ := (hwords st.1).1 ⟨st.2, hst⟩
        exact .inr ⟨q, hq, (wordsOf_meta hw).1.subset hch⟩
    have hdisj : ∀ x ∈ heads.map (·.1), x ∉ pieces.map (·.1) := by
      intro x hx hp
      obtain ⟨r1, r2⟩ := hres x (hheads x hx)
      rcases T.origin x hp with ⟨ch, rfl, hn⟩ | ⟨-, -, h0, n, hn⟩
      · rcases hneed ch hn with hch | ⟨q, hq, hch⟩
        · exact r1 ch hch rfl
        · obtain ⟨a, b, e⟩ := List.append_of_mem hch
          exact r2 q hq ⟨a, b, by rw [e]; simp⟩
      · obtain ⟨st, hst, hin⟩ := hsub wc _ hn h0
        obtain ⟨q, hq, hw⟩ := (hwords st.1).1 ⟨st.2, hst⟩
        exact r2 q hq (hin.trans (wordsOf_meta hw).1)
    have hhnd : (heads.map (·.1)).Nodup := by
      rcases T.specials with ⟨e, -⟩ | ⟨k, hk, hk', e⟩
      · rw [e, hc]; exact hnd
      · rw [e, List.nodup_cons, hc]
        exact ⟨hc ▸ hk', hnd⟩
    have hvnd : (g.vocab.map (·.1)).Nodup := by
      rw [T.vocab, List.map_append, List.nodup_append]
      exact ⟨hhnd, T.nodup, fun a ha b hb' e => hdisj a ha (e ▸ hb')⟩
    have hview : (unigramView g).Ok := unigramView_ok T.made hvnd
    have hav : (empty.addTokens build (unigramView g) norm sp).1 = after build (unigramView g) empty [.add norm sp] := rfl
    have hraw : ∀ x ∈ tokensOf [Op.add norm sp], x.normalized = false := by
      intro x hx
      exact (hplain x (by simpa [tokensOf] using hx)).1
    have hclean : Clean (tokensOf [Op.add norm sp]) (after build (unigramView g) empty [.add norm sp]) :=
      after_clean hview build _ (fun _ h => h) (.inr hraw) (inv_empty _) ⟨rfl, by simp [empty, AMap.get], by simp [empty]⟩
    refine C69_text (t := { t with
        model := (ofUnigram g).model, view := unigramView g, vocab := g.tokenToIds,
        added := (empty.addTokens build (unigramView g) norm sp).1 }) (u := u) (z := z) (v := v) (r := r) (sch := sch)
      (P := fun w => (∀ ch ∈ w, Train.Needed c wc ch) ∧ ∀ k, c.unk = some k → ¬ k <:+: w)
      ⟨?_, h.decoder, hview, h.mark⟩ ?_ (build := build) (ops := [.add norm sp]) hav hraw hset hs ?_ ?_ hskip
    · refine ⟨h.pipeline.normalizer, h.pipeline.preTok, h.pipeline.unicode, h.pipeline.safe, h.pipeline.sound,
        h.pipeline.anywhere, ?_, ?_⟩
      · exact after_tries hview (automata_nonempty hb) [.add norm sp] (inv_empty _) (by simp [TriesOk, empty])
      · refine ⟨?_, fun i x hx => ?_⟩
        · exact addTokens_encodeSpecial ..
        · have := hclean.token i x hx
          exact (hplain x (by simpa [tokensOf] using this)).2
    · rintro w hw ⟨hw1, hw2⟩
      obtain ⟨ts, k1, k2, k3⟩ := Train.C61_covers ho hg hw1 hw2
      refine ⟨ts, by show (match g.tokenize w with | .ok ts => _ | .err _ => _ | .panic => _) = _; rw [k1], k2, fun x hx => ?_⟩
      have hx3 := k3 x hx
      refine ⟨?_, (hview.inv _ _).2 hx3⟩
      have hmem : x.value ∈ g.vocab.map (·.1) := by
        cases hi : g.vocab[x.id]? with
        | none => rw [hi] at hx3; cases hx3
        | some y =>
          rw [hi] at hx3
          rw [← Option.some.inj hx3]
          exact List.mem_map_of_mem (List.mem_of_getElem? hi)
      rw [T.vocab, List.map_append, List.mem_append] at hmem
      rcases hmem with hm | hm
      · exact (hfree _ (hheads _ hm)).1
      · rcases T.origin _ hm with ⟨ch, e, -⟩ | ⟨hl, -⟩
        · rw [e]; simp
        · intro e; rw [e] at hl; simp at hl
    · intro w hw
      refine ⟨fun ch hch => ?_, fun k hk hin => ?_⟩
      · rcases hseen ch (hw.subset hch) with hch | ⟨q, hq, hqne, hch⟩
        · exact .inl hch
        · obtain ⟨w', hw1, hw2⟩ := wordsOf_char (v := v) hqne hch
          obtain ⟨n, hn⟩ := (hwords w').2 ⟨q, hq, hw1⟩
          exact .inr ⟨_, hn, hw2⟩
      · exact (hfree k (.inr hk)).2.2.2 (hin.trans hw)
    · intro x hx
      have hx' : x ∈ sp := by simpa [tokensOf] using hx
      exact (hfree _ (.inl (hc ▸ List.mem_map_of_mem hx'))).2

/-- **C84.** In particular every text it was trained on. -/
theorem C84_seen {t t' : Tokenizer} {u z v r sch} (h : MetaRecipe t u z v r sch) {build : List (Str × Nat) → Bool}
    (hb : Save.Automata build) {norm : Norm} {tree : Train.Tree} {c : Train.UniCfg} {ar : Train.Arith}
    {order : List Char → List Char} {suffix : AMap Str Nat → List (Str × Nat)} {fuel : Nat} {specials : List AddedToken}
    (htr : t.train build norm tree (unigramTrainer c ar order suffix fuel specials) = (t', .ok ()))
    (hc : c.special = specials.map (·.content)) (ho : Train.SetOrder order) (hsub : Substrings suffix)
    (hplain : ∀ x ∈ specials, x.normalized = false ∧ x.lstrip = false ∧ x.rstrip = false ∧ x.singleWord = false)
    (hnd : (specials.map (·.content)).Nodup) (hset : Surrounds t.settings (IsSpecialId t'.added))
    (hres : ∀ x, Reserved c x → (∀ ch ∈ c.alphabet, x ≠ [ch]) ∧
      ∀ s ∈ tree.leaves, ¬ x <:+: s ∧ ¬ x <:+: z.text u s ∧ ¬ x <:+: metaForm u z r sch s)
    {s : Str} (hs : s ≠ []) (hin : s ∈ tree.leaves) {add skip : Bool} (hskip : add = true → skip = true) :
    ∃ e, t'.encode (.raw s, none) add = .ok e ∧ t'.decode skip e.ids = some (restored sch (unsub r (z.text u s))) :=
  C84_trained h hb htr hc ho hsub hplain hnd hset (fun x hx => ⟨(hres x hx).1, fun q hq => ((hres x hx).2 q hq).2.2⟩) hs
    (fun _ hch => .inr ⟨s, hin, hs, hch⟩)
    (fun x hx => ⟨fun e => ((hres x hx).2 s hin).1 (e ▸ List.nil_infix), (hres x hx).2 s hin⟩) hskip

end Tokenizer
end Tok
