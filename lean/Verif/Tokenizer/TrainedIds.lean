import Verif.Tokenizer.TrainedAny
import Verif.Tokenizer.TrainedBert
import Verif.Bindings.SharedModels

/-!
# C101 for the trainers of BPE and WordPiece

The ids of special tokens depend on the list of special tokens only, so training again with the same list is safe, also for
tokenizers that share a model.
-/

namespace Tok.SharedModels

open AddedVocab Tokenizer

/-- Nothing moves in the vocabulary of BPE training. -/
theorem step_stays {cfg : Train.BpeCfg} {counts : List Nat} {s s' : Train.St}
    (h : Train.step cfg counts s = .more s' ∨ Train.step cfg counts s = .stop s') :
    ∀ (i : Nat) t, s.voc.id2w[i]? = some t → s'.voc.id2w[i]? = some t := by
  unfold Train.step at h
  intro i t ht
  split at h
  · rcases h with h | h <;> cases h; exact ht
  split at h
  · rcases h with h | h <;> cases h; exact ht
  split at h
  · rcases h with h | h <;> cases h
  split at h
  · rcases h with h | h <;> cases h; exact ht
  split at h
  · rcases h with h | h <;> cases h; exact ht
  unfold Train.doMerge at h
  split at h
  · simp only at h
    split at h
    · rcases h with h | h <;> cases h
      exact Train.add_mono _ _ i t ht
    · rcases h with h | h <;> cases h
  · rcases h with h | h <;> cases h

theorem loop_stays {cfg : Train.BpeCfg} {counts : List Nat} : ∀ (fuel : Nat) {s s' : Train.St},
    (Train.loop cfg counts fuel s = .more s' ∨ Train.loop cfg counts fuel s = .stop s') →
    ∀ (i : Nat) t, s.voc.id2w[i]? = some t → s'.voc.id2w[i]? = some t
  | 0, s, s', h, i, t, ht => by rcases h with h | h <;> cases h; exact ht
  | fuel + 1, s, s', h, i, t, ht => by
    rw [Train.loop] at h
    have g := @step_stays cfg counts s
    generalize Train.step cfg counts s = o at h g
    cases o with
    | panic => rcases h with h | h <;> cases h
    | stop s1 => rcases h with h | h <;> cases h; exact g (.inr rfl) i t ht
    | more s1 => exact loop_stays fuel h i t (g (.inl rfl) i t ht)

theorem foldl_firsts_prefix : ∀ (l v : List Str) (i : Nat) t, v[i]? = some t →
    (l.foldl (fun v s => if s ∈ v then v else v ++ [s]) v)[i]? = some t
  | [], _, _, _, h => h
  | s :: l, v, i, t, h => by
    rw [List.foldl_cons]
    refine foldl_firsts_prefix l _ i t ?_
    split
    · exact h
    · rw [List.getElem?_append_left (List.getElem?_eq_some_iff.1 h).1]; exact h

/-- The special tokens, each once, are the first entries of the vocabulary in every state training gets to. -/
theorem special_first {cfg : Train.BpeCfg} {order : AMap Char Nat → AMap Char Nat} {wc : AMap Str Nat} {s : Train.St}
    (h : Train.Reached cfg order wc s) (i : Nat) (t : Str) (hi : (Train.firsts cfg.specials)[i]? = some t) :
    s.voc.id2w[i]? = some t := by
  obtain ⟨fuel, hf⟩ := h
  refine loop_stays fuel hf i t ((Train.C41_first_tokens cfg order wc).2 i t ?_)
  rw [(Train.C41_first_tokens cfg order wc).1]
  unfold Train.firsts at hi ⊢
  rw [List.foldl_append]
  exact foldl_firsts_prefix _ _ i t hi

/-- The place of a special token among those given, without repetitions. -/
def placeOf (sp : List AddedToken) (c : Str) : Nat := (Train.firsts (sp.map (·.content))).idxOf c

theorem place {sp : List AddedToken} {t : AddedToken} (h : t ∈ sp) :
    (Train.firsts (sp.map (·.content)))[placeOf sp t.content]? = some t.content := by
  have hm : t.content ∈ Train.firsts (sp.map (·.content)) := firsts_mem (List.mem_map_of_mem h)
  unfold placeOf
  have := List.idxOf_lt_length_iff.2 hm
  rw [List.getElem?_eq_getElem this, List.getElem_idxOf]

/-- The result of a training with `BpeTrainer` or `WordPieceTrainer`, with any options and any words, given these special tokens. -/
inductive ByTrainer (sp : List AddedToken) : ModelView → Prop
  | bpe {cfg order fuel b coins wc} {m : NewModel} : bpeTrainer cfg order fuel sp b coins wc = .ok (m, sp) → ByTrainer sp m.view
  | wordPiece {cfg order fuel w wc} {m : NewModel} : cfg.specials = sp.map (·.content) →
      wordPieceTrainer cfg order fuel sp w wc = .ok (m, sp) → ByTrainer sp m.view

/-- The ids of a BPE model that was trained, whatever the options. -/
theorem trained_bpeView {cfg : Train.BpeCfg} {order : AMap Char Nat → AMap Char Nat} {wc : AMap Str Nat} {st : Train.St}
    (h : Train.Reached cfg order wc st) {b b' : Bpe.Bpe} (hb : Train.finish cfg st b = some b') :
    (bpeView b').Ok ∧ ∀ t i, b'.vocab.get t = some i ↔ st.voc.id2w[i]? = some t := by
  obtain ⟨b1, h1, h2, h3, h4, -⟩ := Train.finish_spec (cfg := cfg) (Train.reached_voc h).voc b
  rw [hb] at h1
  cases h1
  have hlen : st.voc.id2w.length ≤ b'.vocab.length := by
    have := Save.length_le_of_subset (l := st.voc.id2w) (l' := b'.vocab.map (·.1)) (Train.C41_vocab h).1 (by
      intro x hx
      obtain ⟨i, hi⟩ := List.mem_iff_getElem?.1 hx
      exact List.mem_map.2 ⟨(x, i), AMap.mem_of_get_eq_some ((h3 x i).2 hi), rfl⟩)
    simpa using this
  refine ⟨⟨fun c i hi => ?_, fun c i => ?_⟩, h3⟩
  · show i < b'.vocab.length
    have := (List.getElem?_eq_some_iff.1 ((h3 c i).1 hi)).1
    omega
  · show b'.vocab.get c = some i ↔ b'.vocabR.get i = some c
    rw [h4]
    refine Save.inverse_swap h2 ?_ c i
    intro s s' i h1 h2
    rw [h3] at h1 h2
    exact Option.some.inj (h1.symm.trans h2)

theorem byTrainer {sp : List AddedToken} {m : ModelView} (h : ByTrainer sp m) : m.Ok ∧ Numbers (placeOf sp) sp m := by
  cases h with
  | bpe h =>
    rename_i cfg order fuel b coins wc m
    obtain ⟨-, s, b', h1, h2, rfl⟩ := bpeTrainer_ok h
    obtain ⟨g1, g2⟩ := trained_bpeView h1.reached h2
    exact ⟨g1, fun t ht => (g2 _ _).2 (special_first h1.reached _ _ (place ht))⟩
  | wordPiece hc h =>
    rename_i cfg order fuel w wc m
    unfold wordPieceTrainer at h
    split at h
    · rename_i st hst
      split at h
      · rename_i w' hw'
        cases h
        have hr : Train.Reached cfg order wc st := ⟨fuel, .inr hst⟩
        refine ⟨trained_wordPieceView hr hw', fun t ht => ?_⟩
        obtain ⟨w1, k1, k2, -⟩ := Train.C62_vocab hr w
        rw [hw'] at k1
        cases k1
        refine (k2 _ _).2 (special_first hr _ _ ?_)
        rw [hc]
        exact place ht
      · cases h
    · cases h

/-- **C101.** Tokenizers whose models, shared or not, are trained with `BpeTrainer` or `WordPieceTrainer` any number of times on any
words and with any options, but always with the same special tokens: `token_to_id` and `id_to_token` stay inverse to each other
and agree with the models, and every special token keeps its id, which is its place in the list. -/
theorem C101_trainers {build : List (Str × Nat) → Bool} {cells : Nat → ModelView} {ds : List Deed} {sp : List AddedToken}
    (hcells : ∀ c, (cells c).Ok) (hd : ∀ d ∈ ds, ∃ k m, d = .train k m sp ∧ ByTrainer sp m) (k : Nat) :
    ((World.start cells).run build ds).Agrees k ∧ ∀ d ∈ ds, ∀ j m, d = .train j m sp → ∀ t ∈ sp,
      m.toId t.content = some (placeOf sp t.content) := by
  refine ⟨C101_again (ids := placeOf sp) (sp := sp) hcells (fun d hmem => ?_) k, fun d hmem j m e t ht => ?_⟩
  · obtain ⟨k, m, e, h⟩ := hd d hmem
    exact ⟨k, m, e, (byTrainer h).2, (byTrainer h).1⟩
  · obtain ⟨k', m', e', h⟩ := hd d hmem
    rw [e] at e'
    cases e'
    exact (byTrainer h).2 t ht

/-- A training with two special tokens, one of them given twice. -/
example : (match bpeTrainer (Train.plainCfg 10) id 100
      [.ofStr "<s>".toList true, .ofStr "</s>".toList true, .ofStr "<s>".toList true]
      Train.defaultBpe (fun _ _ => false) [("ab".toList, 2)] with
    | .ok (m, sp) => m.view.toId "<s>".toList == some 0 && m.view.toId "</s>".toList == some 1 &&
        m.view.toId "ab".toList == some 4 && sp.length == 3
    | .error _ => false) = true := by decide +kernel

end Tok.SharedModels
