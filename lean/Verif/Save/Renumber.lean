import Verif.Save.Interp
import Verif.Save.PublishedSamples
import Verif.Tokenizer.Renumber
import Verif.Unigram.Reorder
import Verif.Tokenizer.Vocab

/-!
# C117: tokenizers given by their settings, with other ids
-/

namespace Tok.Save

/-- The two models are built from the same vocabulary with other ids: `f i` instead of `i`. The ids of Unigram are the places in its
list, so its pieces are in another order. -/
inductive Mod.Renumbered (f : Nat → Nat) : Mod → Mod → Prop
  | bpe {vocab merges cfg b b'} (d : Option Rat) (h : Bpe.build vocab merges cfg = .ok b)
      (h' : Bpe.build (Tok.renumber f vocab) merges cfg = .ok b') : Mod.Renumbered f (.bpe d b) (.bpe d b')
  | wordPiece (w : WordPiece) : Mod.Renumbered f (.wordPiece w) (.wordPiece { w with vocab := Tok.renumber f w.vocab })
  | wordLevel (w : WordLevel) : Mod.Renumbered f (.wordLevel w) (.wordLevel { w with vocab := Tok.renumber f w.vocab })
  | unigram {vocab vocab' unk bf u u'} (h : Unigram.Reordered f vocab vocab') (hs : Unigram.Single vocab)
      (hu : Unigram.from vocab unk bf = .ok u) (hu' : Unigram.from vocab' (unk.map f) bf = .ok u') :
      Mod.Renumbered f (.unigram u) (.unigram u')

/-- The settings are the same but for the ids. -/
structure Conf.Renumbered (f : Nat → Nat) (c c' : Conf) : Prop where
  truncation : c'.truncation = c.truncation
  padding : c'.padding = c.padding.map (PadParams.renumber f)
  added : c'.added = c.added.renumber f
  normalizer : c'.normalizer = c.normalizer
  preTok : c'.preTok = c.preTok
  proc : c'.proc.map (·.toProc) = (c.proc.map (·.toProc)).map (Post.Proc.renumber f)
  decoder : c'.decoder = c.decoder
  model : c.model.Renumbered f c'.model

theorem renumber_turned {f : Nat → Nat} (hf : ∀ i j, f i = f j → i = j) (vocab : AMap Str Nat) (i : Nat) :
    (Tokenizer.turned (Tok.renumber f vocab)).get (f i) = (Tokenizer.turned vocab).get i := by
  have h1 : Tokenizer.turned (Tok.renumber f vocab) = (Tokenizer.turned vocab).ren f id := by
    have := ren_extend hf (id : Str → Str) (vocab.map fun p => (p.2, p.1)) []
    unfold Tokenizer.turned Tok.renumber
    rw [← this, List.map_map, List.map_map]
    rfl
  have h2 := ren_get hf (id : Str → Str) (Tokenizer.turned vocab) i
  rw [h1, h2, Option.map_id]
  rfl

theorem plainResult_map {f : Nat → Nat} (x : Except Unit (List Token)) :
    plainResult (x.map (·.map (Token.renumber f))) = (plainResult x).map (·.map (Token.renumber f)) := by
  cases x <;> rfl

/-- **C117.** Two tokenizers whose settings are the same but for the ids, the map of ids being injective: one is the other with other
ids, so all of `Tokenizer.C117_encode`, `C117_encodeBatch` and `C117_decode` hold of them. -/
theorem C117_conf (w : World) {f : Nat → Nat} (hf : ∀ i j, f i = f j → i = j) {c c' : Conf} (h : c.Renumbered f c') :
    Tokenizer.Renumbered f (w.tokenizer c) (w.tokenizer c') := by
  have hm : (∀ s, w.toModel c'.model s = (w.toModel c.model s).map (·.map (Token.renumber f))) ∧
      (∀ x, c'.model.view.toId x = (c.model.view.toId x).map f) ∧
      ∀ i, c'.model.view.toToken (f i) = c.model.view.toToken i := by
    have := h.model
    generalize c.model = m at this
    generalize c'.model = m' at this
    cases this with
    | bpe d hb hb' =>
      rename_i b b'
      rw [Bpe.build_renumber hf, hb] at hb'
      cases hb'
      refine ⟨fun s => ?_, fun x => renumber_get f b.vocab x, fun i => ?_⟩
      · show Tokenizer.bpeResult _ = _
        rw [Bpe.C116_tokenize hf]
        show _ = Except.map _ (Tokenizer.bpeResult (Bpe.tokenize b (w.coins s) s))
        cases Bpe.tokenize b (w.coins s) s <;> rfl
      · have := ren_get hf (id : Str → Str) b.vocabR i
        rw [Option.map_id] at this
        exact this
    | wordPiece m =>
      refine ⟨fun s => ?_, fun x => renumber_get f m.vocab x, fun i => renumber_turned hf m.vocab i⟩
      show plainResult _ = Except.map _ (plainResult (m.tokenize s))
      rw [WordPiece.C116_ids]
      exact plainResult_map _
    | wordLevel m =>
      refine ⟨fun s => ?_, fun x => renumber_get f m.vocab x, fun i => renumber_turned hf m.vocab i⟩
      show plainResult _ = Except.map _ (plainResult (m.tokenize s))
      rw [WordLevel.C116_ids]
      exact plainResult_map _
    | unigram hr hs hu hu' =>
      rename_i u u'
      have a := Unigram.alike_of_from hr hs hu hu'
      refine ⟨fun s => ?_, a.ids, fun i => ?_⟩
      · show uniResult _ = Except.map _ (uniResult (u.tokenize s))
        rw [Unigram.tokenize_alike a]
        cases u.tokenize s <;> rfl
      · show (u'.vocab[f i]?).map _ = (u.vocab[i]?).map _
        rw [a.items]
  exact {
    inj := hf, cl := rfl, ws := rfl, checked := rfl, added := h.added
    normalizer := by show w.normalizer c'.normalizer = _; rw [h.normalizer]; rfl
    preTok := by
      intro p
      show w.preTok c'.preTok _ = (w.preTok c.preTok p).map _
      rw [h.preTok]
      cases c.preTok with
      | none => rfl
      | some n =>
        show Tokenizer.mapErr _ ((w.toPre n).apply w.tables (p.renumber f)) = Except.map _ (Tokenizer.mapErr _ ((w.toPre n).apply w.tables p))
        rw [PreTokenizer.renumber_apply]
        cases (w.toPre n).apply w.tables p <;> rfl
    model := hm.1, toId := hm.2.1, toToken := hm.2.2
    settings := by
      show Post.Settings.mk _ _ _ = Post.Settings.mk _ _ _
      rw [h.truncation, h.padding, h.proc]
      rfl
    decoder := by show c'.decoder.map _ = c.decoder.map _; rw [h.decoder] }

/-- Words, `[CLS]` and `[SEP]` around them, padding, and an added token. -/
def sampleIds : Conf where
  truncation := none
  padding := some ⟨.fixed 7, .right, none, ⟨4, 0, "[PAD]".toList⟩⟩
  added := (AddedVocab.empty.addTokens (fun _ => true) ⟨fun _ => none, fun _ => none, 5⟩ none
    [{ content := "<x>".toList, normalized := false }]).1
  normalizer := none
  preTok := some .whitespaceSplit
  proc := some (.bert ("[SEP]".toList, 3) ("[CLS]".toList, 2))
  decoder := none
  model := .wordLevel ⟨[("a".toList, 0), ("b".toList, 1), ("[CLS]".toList, 2), ("[SEP]".toList, 3), ("[PAD]".toList, 4)], "a".toList⟩

/-- The same with the ids in the other direction, and moved. -/
def sampleTurn (i : Nat) : Nat := if i ≤ 5 then 105 - i else i + 100

def sampleIds' : Conf :=
  { sampleIds with
    padding := some ⟨.fixed 7, .right, none, ⟨101, 0, "[PAD]".toList⟩⟩
    added := sampleIds.added.renumber sampleTurn
    proc := some (.bert ("[SEP]".toList, 102) ("[CLS]".toList, 103))
    model := .wordLevel ⟨[("a".toList, 105), ("b".toList, 104), ("[CLS]".toList, 103), ("[SEP]".toList, 102), ("[PAD]".toList, 101)],
      "a".toList⟩ }

example : sampleIds.Renumbered sampleTurn sampleIds' ∧ (∀ i j, sampleTurn i = sampleTurn j → i = j) ∧
    ((fileWorld.tokenizer sampleIds).encode (.raw "b <x> a".toList, none) true).toOption.map (·.ids) = some [2, 1, 5, 0, 3, 4, 4] ∧
    ((fileWorld.tokenizer sampleIds').encode (.raw "b <x> a".toList, none) true).toOption.map (·.ids)
      = some [103, 104, 100, 105, 102, 101, 101] := by
  refine ⟨⟨rfl, rfl, rfl, rfl, rfl, rfl, rfl, Mod.Renumbered.wordLevel _⟩, fun i j h => ?_, by decide +kernel, by decide +kernel⟩
  unfold sampleTurn at h
  split at h <;> split at h <;> omega

end Tok.Save
