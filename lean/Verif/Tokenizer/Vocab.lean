import Verif.Tokenizer.Model
import Verif.Unigram.Model
import Verif.Bpe.Tokenize
import Verif.Models.WordPiece

/-!
# C46: listing and size of the vocabulary
-/

namespace Tok

namespace AMap
variable {K V : Type} [DecidableEq K]

theorem get_none_iff {m : AMap K V} {k : K} : m.get k = none ↔ k ∉ m.map (·.1) := by
  unfold get
  rw [Option.map_eq_none_iff, List.find?_eq_none]
  constructor
  · intro h hk
    obtain ⟨p, hp, rfl⟩ := List.mem_map.1 hk
    exact h p hp (by simp)
  · intro h p hp he
    exact h (List.mem_map.2 ⟨p, hp, by simpa using he⟩)

theorem length_insert {m : AMap K V} (h : m.WF) (k : K) (v : V) :
    (m.insert k v).length = m.length + if (m.get k).isSome then 0 else 1 := by
  unfold insert
  by_cases hk : k ∈ m.map (·.1)
  · have : (m.get k).isSome := by
      cases hg : m.get k with
      | none => exact absurd hk (get_none_iff.1 hg)
      | some v => rfl
    rw [if_pos this, List.length_cons]
    have key : ∀ (l : List (K × V)), (l.map (·.1)).Nodup → k ∈ l.map (·.1) →
        (l.filter fun p => ¬ p.1 = k).length + 1 = l.length := by
      intro l
      induction l with
      | nil => intro _ hk; simp at hk
      | cons x l ih =>
        intro hn hk
        rw [List.map_cons, List.nodup_cons] at hn
        by_cases hx : x.1 = k
        · have hf : (l.filter fun p => ¬ p.1 = k) = l := List.filter_eq_self.2 (by
            intro p hp
            simp only [decide_eq_true_eq]
            intro he
            exact hn.1 (List.mem_map.2 ⟨p, hp, he.trans hx.symm⟩))
          rw [List.filter_cons_of_neg (by simp [hx]), hf]; rfl
        · rw [List.filter_cons_of_pos (by simp [hx]), List.length_cons, ih hn.2 ?_]; rfl
          rcases List.mem_cons.1 hk with h1 | h1
          · exact absurd h1.symm hx
          · exact h1
    have := key m h hk
    omega
  · rw [get_none_iff.2 hk]
    have hf : (m.filter fun p => ¬ p.1 = k) = m := List.filter_eq_self.2 (by
      intro p hp
      simp only [decide_eq_true_eq]
      intro he
      exact hk (List.mem_map.2 ⟨p, hp, he⟩))
    rw [hf]; rfl

/-- Two maps with different keys: the size of one extended by the other. -/
theorem length_extend : ∀ (l : List (K × V)) {m : AMap K V}, m.WF → (l.map (·.1)).Nodup →
    (m.extend l).length + (l.filter fun x => (m.get x.1).isSome).length = m.length + l.length
  | [], m, _, _ => rfl
  | x :: l, m, hm, hl => by
    rw [List.map_cons, List.nodup_cons] at hl
    have ih := length_extend l (hm.insert x.1 x.2) hl.2
    show ((m.insert x.1 x.2).extend l).length + _ = _
    have hf : (l.filter fun y => ((m.insert x.1 x.2).get y.1).isSome)
        = l.filter fun y => (m.get y.1).isSome := by
      apply List.filter_congr
      intro y hy
      rw [get_insert, if_neg]
      intro he
      exact hl.1 (List.mem_map.2 ⟨y, hy, he.symm⟩)
    rw [hf, length_insert hm] at ih
    by_cases hx : (m.get x.1).isSome
    · rw [if_pos hx] at ih
      rw [List.filter_cons_of_pos (by simpa using hx), List.length_cons, List.length_cons]; omega
    · rw [if_neg hx] at ih
      rw [List.filter_cons_of_neg (by simpa using hx), List.length_cons]; omega

theorem get_extend_wf {l : AMap K V} (hl : l.WF) (m : AMap K V) (k : K) :
    (m.extend l).get k = (l.get k).or (m.get k) := by
  rw [get_extend]
  congr 1
  cases h : l.get k with
  | none =>
    rw [Option.map_eq_none_iff, List.find?_eq_none]
    intro p hp he
    exact get_none_iff.1 h (List.mem_map.2 ⟨p, by simpa using hp, by simpa using he⟩)
  | some v =>
    have hmem := mem_of_get_eq_some h
    cases hf : l.reverse.find? fun p => p.1 = k with
    | none =>
      rw [List.find?_eq_none] at hf
      exact absurd (show decide (k = k) = true by simp) (hf (k, v) (by simpa using hmem))
    | some p =>
      have h1 := List.mem_of_find?_eq_some hf
      have h2 : p.1 = k := by simpa using List.find?_some hf
      have h3 : l.get p.1 = some p.2 := get_eq_some_of_mem hl (by simpa using h1)
      rw [h2, h] at h3
      cases h3; rfl

end AMap

namespace AddedVocab

theorem addLoop_wf (m : ModelView) (norm : Norm) : ∀ (ts : List AddedToken) (av : AddedVocab) (next ign : Nat),
    av.map.WF → (addLoop m norm ts av next ign).1.map.WF
  | [], av, next, ign, h => h
  | t :: ts, av, next, ign, h => by
    unfold addLoop
    split
    · exact addLoop_wf m norm ts _ _ _ h
    · split
      · exact addLoop_wf m norm ts _ _ _ h
      · simp only
        split
        · exact h
        · exact addLoop_wf m norm ts _ _ _ (h.insert _ _)

theorem after_map_wf (build : List (Str × Nat) → Bool) (m : ModelView) : ∀ (ops : List Op) (av : AddedVocab),
    av.map.WF → (after build m av ops).map.WF
  | [], _, h => h
  | op :: ops, av, h => after_map_wf build m ops _ (by
      cases op with
      | add norm ts =>
        obtain ⟨ign, r, e, h1, _⟩ := addTokens_fst build m norm av ts
        show (av.addTokens build m norm ts).1.map.WF
        have := addLoop_wf m norm ts av (av.nextId m) 0 h
        rw [e] at this
        rw [h1]; exact this
      | renormalize norm =>
        show (av.refreshNormalized build norm).1.map.WF
        have : (av.refreshNormalized build norm).1.map = av.map := by
          unfold refreshNormalized
          simp only
          split
          · exact (refresh_same build { av with cache := (recache norm av.rmap []).1 }).1
          · rfl
        rw [this]; exact h
      | setEncodeSpecial b => exact h)

end AddedVocab

namespace Tokenizer

/-- The lookup functions of the model agree with the vocabulary it lists. -/
structure Lists (t : Tokenizer) : Prop where
  wf : t.vocab.WF
  toId : ∀ c, t.view.toId c = t.vocab.get c

/-- **C46.** After every history of additions, the listing contains each token once, with the id `token_to_id`
gives it; without the added tokens it is that of the model. -/
theorem C46_listing {t : Tokenizer} (h : t.Lists) (build : List (Str × Nat) → Bool) (ops : List AddedVocab.Op)
    (ha : t.added = AddedVocab.after build t.view .empty ops) :
    (((t.getVocab true).map (·.1)).Nodup ∧ ∀ c i, (c, i) ∈ t.getVocab true ↔ t.tokenToId c = some i) ∧
    (((t.getVocab false).map (·.1)).Nodup ∧ ∀ c i, (c, i) ∈ t.getVocab false ↔ t.view.toId c = some i) := by
  have hwf : t.added.map.WF := ha ▸ AddedVocab.after_map_wf build t.view ops _ AMap.WF.nil
  have mem : ∀ {m : AMap Str Nat}, m.WF → ∀ c i, (c, i) ∈ m ↔ m.get c = some i := fun hm c i =>
    ⟨AMap.get_eq_some_of_mem hm, AMap.mem_of_get_eq_some⟩
  have hx : (t.getVocab true).WF := h.wf.extend _
  refine ⟨⟨hx, fun c i => ?_⟩, ⟨h.wf, fun c i => ?_⟩⟩
  · rw [mem hx, show t.getVocab true = t.vocab.extend t.added.map from rfl, AMap.get_extend_wf hwf]
    rw [tokenToId, AddedVocab.tokenToId, h.toId]
  · rw [show t.getVocab false = t.vocab from rfl, mem h.wf, h.toId]

/-- Two lists without repetition of the same tokens are equally long. -/
theorem length_eq_of_mem_iff {α : Type} [DecidableEq α] {a b : List α} (ha : a.Nodup) (hb : b.Nodup)
    (h : ∀ x, x ∈ a ↔ x ∈ b) : a.length = b.length :=
  (List.Perm.length_eq ((List.perm_ext_iff_of_nodup ha hb).2 h))

/-- **C46.** If the model counts its vocabulary right, the size is the number of the tokens that have an id: every
list of them without repetition has that length. -/
theorem C46_size {t : Tokenizer} (h : t.Lists) (hs : t.view.size = t.vocab.length)
    (build : List (Str × Nat) → Bool) (ops : List AddedVocab.Op)
    (ha : t.added = AddedVocab.after build t.view .empty ops) {tokens : List Str} (hn : tokens.Nodup) :
    ((∀ c, c ∈ tokens ↔ (t.tokenToId c).isSome) → t.getVocabSize true = tokens.length) ∧
    ((∀ c, c ∈ tokens ↔ (t.view.toId c).isSome) → t.getVocabSize false = tokens.length) := by
  have hwf : t.added.map.WF := ha ▸ AddedVocab.after_map_wf build t.view ops _ AMap.WF.nil
  have hl := C46_listing h build ops ha
  have keys : ∀ {m : AMap Str Nat} {f : Str → Option Nat}, (∀ c i, (c, i) ∈ m ↔ f c = some i) →
      ∀ c, c ∈ m.map (·.1) ↔ (f c).isSome := by
    intro m f hf c
    rw [List.mem_map, Option.isSome_iff_exists]
    constructor
    · rintro ⟨⟨c', i⟩, h1, rfl⟩; exact ⟨i, (hf _ _).1 h1⟩
    · rintro ⟨i, hi⟩; exact ⟨(c, i), (hf _ _).2 hi, rfl⟩
  refine ⟨fun hc => ?_, fun hc => ?_⟩
  · have h1 := length_eq_of_mem_iff hl.1.1 hn fun c => (keys hl.1.2 c).trans (hc c).symm
    rw [List.length_map] at h1
    rw [← h1]
    have := AMap.length_extend t.added.map h.wf hwf
    simp only [getVocabSize, getVocab, if_true, hs, h.toId]
    omega
  · have h1 := length_eq_of_mem_iff hl.2.1 hn fun c => (keys hl.2.2 c).trans (hc c).symm
    rw [List.length_map] at h1
    rw [← h1, getVocabSize, if_neg (by simp), hs]; rfl

/-! ## The models -/

/-- `vocab_r` (`bpe/model.rs:163`, `wordpiece/mod.rs:108-112`, `wordlevel/mod.rs:78-82`): the vocabulary turned
around. -/
def turned (v : AMap Str Nat) : AMap Nat Str := AMap.extend [] (v.map fun p => (p.2, p.1))

/-- `token_to_id`, `id_to_token`, `get_vocab_size` of BPE (`bpe/model.rs:597-599`, `614-620`). -/
def bpeView (b : Bpe.Bpe) : ModelView := ⟨b.vocab.get, b.vocabR.get, b.vocab.length⟩

/-- The same of WordPiece (`wordpiece/mod.rs:220-222`, `285-291`). -/
def wordPieceView (w : WordPiece) : ModelView := ⟨w.vocab.get, (turned w.vocab).get, w.vocab.length⟩

/-- The same of WordLevel (`wordlevel/mod.rs:180-194`). -/
def wordLevelView (w : WordLevel) : ModelView := ⟨w.vocab.get, (turned w.vocab).get, w.vocab.length⟩

/-- The same of Unigram (`unigram/model.rs:439-441`, `479-485`). -/
def unigramView (u : Unigram) : ModelView := ⟨u.tokenToIds.get, fun i => u.vocab[i]?.map (·.1), u.vocab.length⟩

/-- **C46.** The vocabularies of BPE, WordPiece and WordLevel (hash maps) meet the conditions of the two theorems,
that of Unigram (`get_vocab` clones `token_to_ids`, `unigram/model.rs:435-437`) at least the first. -/
theorem C46_models (t : Tokenizer) (hw : t.vocab.WF) :
    (∀ b : Bpe.Bpe, t.vocab = b.vocab → t.view = bpeView b → t.Lists ∧ t.view.size = t.vocab.length) ∧
    (∀ w : WordPiece, t.vocab = w.vocab → t.view = wordPieceView w → t.Lists ∧ t.view.size = t.vocab.length) ∧
    (∀ w : WordLevel, t.vocab = w.vocab → t.view = wordLevelView w → t.Lists ∧ t.view.size = t.vocab.length) ∧
    (∀ u : Unigram, t.vocab = u.tokenToIds → t.view = unigramView u → t.Lists) :=
  ⟨fun b h1 h2 => ⟨⟨hw, fun c => by rw [h1, h2]; rfl⟩, by rw [h1, h2]; rfl⟩,
    fun w h1 h2 => ⟨⟨hw, fun c => by rw [h1, h2]; rfl⟩, by rw [h1, h2]; rfl⟩,
    fun w h1 h2 => ⟨⟨hw, fun c => by rw [h1, h2]; rfl⟩, by rw [h1, h2]; rfl⟩,
    fun u h1 h2 => ⟨hw, fun c => by rw [h1, h2]; rfl⟩⟩

/-- The pieces of a Unigram vocabulary without repetition. -/
theorem tokenToIds_length {vocab : List (Str × Rat)} {unk : Option Nat} {bf : Bool} {u : Unigram}
    (h : Unigram.from vocab unk bf = .ok u) :
    u.vocab = vocab ∧ u.tokenToIds = AMap.extend [] (vocab.zipIdx.map fun p => (p.1.1, p.2)) := by
  unfold Unigram.from at h
  split at h
  · cases h
  · split at h
    · cases h
    · cases h; exact ⟨rfl, rfl⟩

/-- **C46.** A Unigram model counts its vocabulary right if no piece is repeated. -/
theorem C46_unigram {vocab : List (Str × Rat)} {unk : Option Nat} {bf : Bool} {u : Unigram}
    (h : Unigram.from vocab unk bf = .ok u) (hn : (vocab.map (·.1)).Nodup) :
    u.tokenToIds.WF ∧ (unigramView u).size = u.tokenToIds.length := by
  obtain ⟨h1, h2⟩ := tokenToIds_length h
  have hk : (vocab.zipIdx.map fun p => ((p.1.1, p.2) : Str × Nat)).map (·.1) = vocab.map (·.1) := by
    rw [List.map_map, show ((fun x : Str × Nat => x.1) ∘ fun p : (Str × Rat) × Nat => (p.1.1, p.2))
      = (fun x : Str × Rat => x.1) ∘ Prod.fst from rfl, ← List.map_map, List.zipIdx_map_fst]
  refine ⟨h2 ▸ AMap.WF.nil.extend _, ?_⟩
  have := AMap.length_extend (vocab.zipIdx.map fun p => ((p.1.1, p.2) : Str × Nat)) (m := []) AMap.WF.nil
    (by rw [hk]; exact hn)
  have hf : ((vocab.zipIdx.map fun p => ((p.1.1, p.2) : Str × Nat)).filter fun x =>
      (AMap.get ([] : AMap Str Nat) x.1).isSome) = [] := List.filter_eq_nil_iff.2 (by
    intro x _; simp [AMap.get])
  rw [hf] at this
  show u.vocab.length = u.tokenToIds.length
  rw [h1, h2]
  simpa using this.symm

/-- A tokenizer around a model, with nothing else set. -/
def plain (view : ModelView) (vocab : AMap Str Nat) (model : Str → Except EncErr (List Token)) : Tokenizer where
  cl := ⟨fun c => c.isAlphanum, fun c => c = ' '⟩
  ws := fun c => c = ' '
  checked := true
  added := .empty
  normalizer := some
  preTok := .ok
  model := model
  view := view
  vocab := vocab
  settings := ⟨none, none, none⟩
  decoder := none

/-- Finding: with a piece repeated, `get_vocab_size` of Unigram counts it twice, so the size is not the number of
listed tokens. -/
theorem C46_unigram_repeated : ∃ u t, Unigram.from [("a".toList, 0), ("a".toList, -1)] none false = .ok u ∧
    t = plain (unigramView u) u.tokenToIds (fun _ => .ok []) ∧
    t.getVocab true = [("a".toList, 1)] ∧ t.getVocabSize true = 2 ∧
    t.idToToken 0 = some "a".toList ∧ t.tokenToId "a".toList = some 1 :=
  ⟨_, _, rfl, rfl, by decide +kernel, by decide +kernel, by decide +kernel, by decide +kernel⟩

/-- **C46.** `id_to_token` gives an added token's content, or the normalized form if one is kept for it; only the other
ids are asked from the model. It gives nothing exactly if the id is neither that of an added token nor one of the
model's. -/
theorem C46_id_to_token (t : Tokenizer) (i : Nat) :
    (∀ s, t.idToToken i = some s ↔ AddedVocab.Shows t.view t.added i s) ∧
    (t.idToToken i = none ↔ t.added.rmap.get i = none ∧ t.view.toToken i = none) := by
  refine ⟨fun s => AddedVocab.shows_iff.symm, ?_⟩
  unfold idToToken AddedVocab.simpleIdToToken
  cases t.added.rmap.get i with
  | none => simp
  | some a => cases t.added.cache.get i <;> simp

/-- Finding: the name that `id_to_token` gives to an added token that is searched in the normalized text is the
normalized form, which `token_to_id` need not know. -/
theorem C46_id_to_token_normalized : ∃ t : Tokenizer, t.tokenToId "AB".toList = some 0 ∧
    t.idToToken 0 = some "ab".toList ∧ t.tokenToId "ab".toList = none :=
  ⟨{ plain ⟨fun _ => none, fun _ => none, 0⟩ [] (fun _ => .ok []) with
     added := .after (fun _ => true) ⟨fun _ => none, fun _ => none, 0⟩ .empty
      [.add (some fun s => some (s.map Char.toLower)) [.ofStr "AB".toList false]] },
    by decide +kernel, by decide +kernel, by decide +kernel⟩

/-- A word-level tokenizer with two words and two added tokens, one of them a word of the model. -/
def sampleVocab : Tokenizer :=
  let w : WordLevel := ⟨[("a".toList, 0), ("b".toList, 1)], "a".toList⟩
  let t := plain (wordLevelView w) w.vocab fun _ => .ok []
  { t with added := .after (fun _ => true) t.view .empty [.add none [.ofStr "b".toList false, .ofStr "<s>".toList true]] }

example : (sampleVocab.getVocab true).map (·.2) = [1, 2, 0] ∧ sampleVocab.getVocabSize true = 3 ∧
    sampleVocab.getVocabSize false = 2 := by decide +kernel

example : sampleVocab.idToToken 1 = some "b".toList ∧ sampleVocab.idToToken 0 = some "a".toList ∧
    sampleVocab.idToToken 2 = some "<s>".toList ∧ sampleVocab.idToToken 3 = none := by decide +kernel

example : sampleVocab.getVocabSize true = ["a".toList, "b".toList, "<s>".toList].length :=
  (C46_size ((C46_models sampleVocab (by unfold AMap.WF; decide)).2.2.1 _ rfl rfl).1 rfl (fun _ => true) _ rfl (by decide)).1 (by
    have hl := C46_listing ((C46_models sampleVocab (by unfold AMap.WF; decide)).2.2.1 _ rfl rfl).1 (fun _ => true) _ rfl
    intro c
    rw [Option.isSome_iff_exists]
    constructor
    · intro h
      rcases List.mem_cons.1 h with rfl | h
      · exact ⟨0, by decide +kernel⟩
      · rcases List.mem_cons.1 h with rfl | h
        · exact ⟨1, by decide +kernel⟩
        · rw [List.mem_singleton.1 h]; exact ⟨2, by decide +kernel⟩
    · rintro ⟨i, hi⟩
      have := (hl.1.2 c i).2 hi
      rw [show sampleVocab.getVocab true = [("b".toList, 1), ("<s>".toList, 2), ("a".toList, 0)] by
        decide +kernel] at this
      simp only [List.mem_cons, Prod.mk.injEq, List.not_mem_nil, or_false] at this
      rcases this with ⟨rfl, _⟩ | ⟨rfl, _⟩ | ⟨rfl, _⟩ <;> simp)

end Tokenizer
end Tok
