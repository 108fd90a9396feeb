import Verif.Save.Again
import Verif.Save.FileSamples

/-!
# C66: examples, and what is lost by saving
-/

namespace Tok.Save
open Json AddedVocab

/-! ## Examples -/

/-- Texts are their own normal forms; no pattern matches. -/
def plainWorld : World where
  cl := asciiClasses
  ws c := c == ' '
  checked := true
  uni := ⟨fun c => c == ' ', fun _ => false, fun _ => false, fun _ => false, fun c => [c], fun s => s.map (·, 0),
    fun s => s.map (·, 0), fun s => s.map (·, 0), fun s => s.map (·, 0), fun s => s.map ([·])⟩
  tables := ⟨fun c => c == ' ', fun _ => false, fun _ => false, fun _ => false, fun _ => false, fun _ => .any⟩
  matches' _ _ := []
  byteLevel _ := []
  charsmap _ _ := none
  coins _ _ := false

/-- The automaton is built unless a pattern is there twice. -/
def noTwice (l : List (Str × Nat)) : Bool := decide (l.map (·.1)).Nodup

theorem noTwice_perm (l l' : List (Str × Nat)) (h : l.Perm l') : noTwice l = noTwice l' := by
  unfold noTwice
  rw [Bool.eq_iff_iff, decide_eq_true_eq, decide_eq_true_eq]
  exact (h.map _).nodup_iff

theorem noTwice_nodup (l : List (Str × Nat)) (h : noTwice l = true) : (l.map (·.1)).Nodup := of_decide_eq_true h

theorem holeView_ok : (Mod.bpe none holeBpe).view.Ok :=
  bpeView_ok hole_built (by
    intro c i h
    have : ∀ p ∈ holeBpe.vocab, p.2 < holeBpe.vocab.length := by decide
    exact this (c, i) (AMap.mem_of_get_eq_some h))

/-- The calls by which the added tokens of the example come about: the second makes `ab` a special token. -/
def sampleAdded (norm : Norm) : AddedVocab :=
  (((empty.addTokens noTwice (Mod.bpe none holeBpe).view none [.ofStr "<s>".toList true, .ofStr "ab".toList false]).1
    ).refreshNormalized noTwice norm).1

/-- `sampleConf` with another history, and a normalizer that changes what is added. -/
def movedConf : Conf :=
  { sampleConf with
    added := sampleAdded (plainWorld.norm (some (.prepend "_".toList)))
    normalizer := some (.prepend "_".toList) }

theorem movedConf_fits : movedConf.Fits sampleEnv :=
  { sampleConf_fits with
    added := fun i t h => by
      have : ∀ p ∈ movedConf.added.rmap, p.1 < 4294967296 := by decide +kernel
      exact this (i, t) (AMap.mem_of_get_eq_some h)
    normalizer := fun n h => by cases h; trivial }

instance (t t' : AddedToken) : Decidable (NotUndone t t') := by unfold NotUndone; infer_instance

theorem movedConf_history : History noTwice movedConf.model.view movedConf.added (plainWorld.norm movedConf.normalizer) := by
  refine .renormalize (.add (n := 2) (.new none) (Prod.ext rfl ?_) ?_ ?_) (Prod.ext rfl ?_)
  rotate_left 3
  · decide +kernel
  · decide +kernel
  · intro t _ i t' h; cases h
  · decide +kernel

example : ∃ j c', save movedConf = some j ∧ load sampleEnv true noTwice plainWorld.norm j = .ok c' ∧
    Alike (plainWorld.tokenizer movedConf) (plainWorld.tokenizer c') :=
  C66_alike_partial plainWorld true noTwice_perm noTwice_nodup movedConf_fits holeView_ok movedConf_history
    (by intro p h; cases h; exact ⟨trivial, ⟨by decide, by decide⟩, trivial⟩)

example : (plainWorld.tokenizer movedConf).idToToken 3 = some "_ab".toList := by decide +kernel

/-! ## What is lost -/

/-- `movedConf` without decoder, and with added tokens that come about by these calls. -/
def confAfter (ops : List AddedVocab.Op) : Conf :=
  { movedConf with decoder := none, added := after noTwice movedConf.model.view empty ops }

theorem confAfter_loads (ops : List AddedVocab.Op) (h1 : ∀ p ∈ (confAfter ops).added.rmap, p.1 < 4294967296)
    (h2 : ((confAfter ops).added.refreshNormalized noTwice (plainWorld.norm movedConf.normalizer)).2 = true) :
    ∃ j c', save (confAfter ops) = some j ∧ load sampleEnv false noTwice plainWorld.norm j = .ok c' ∧
      ReloadedAdded (plainWorld.norm movedConf.normalizer) (confAfter ops).added c'.added ∧ c'.decoder = none := by
  obtain ⟨j, c', a, b, c, _⟩ := C65_file (e := sampleEnv) (c := confAfter ops) false (norm := plainWorld.norm) noTwice_perm
    { movedConf_fits with
      added := fun i t h => h1 (i, t) (AMap.mem_of_get_eq_some h)
      decoder := fun n h => nomatch h } holeView_ok rfl h2
  exact ⟨j, c', a, b, c.added, c.decoder⟩

/-- The normalizer of the examples. -/
abbrev movedNorm : Norm := plainWorld.norm movedConf.normalizer

/-- **C66 (finding).** A token is added, and then added again as one that is not normalized. Its normal form stays in the
cache (`tokenizer/added_vocabulary.rs:316-330` writes the cache, but does not clear it), so its id still gives the normal
form; after saving and loading it gives the content. -/
theorem C66_stale_form : ∃ c j c', c = confAfter [.add movedNorm [.ofStr "zz".toList false],
      .add movedNorm [{ AddedToken.ofStr "zz".toList false with normalized := false }]] ∧
    save c = some j ∧ load sampleEnv false noTwice plainWorld.norm j = .ok c' ∧
    (plainWorld.tokenizer c).idToToken 7 = some "_zz".toList ∧ (plainWorld.tokenizer c').idToToken 7 = some "zz".toList := by
  obtain ⟨j, c', h1, h2, h3, h4⟩ := confAfter_loads [.add movedNorm [.ofStr "zz".toList false],
      .add movedNorm [{ AddedToken.ofStr "zz".toList false with normalized := false }]] (by decide +kernel) (by decide +kernel)
  refine ⟨_, j, c', rfl, h1, h2, by decide +kernel, ?_⟩
  have hr : c'.added.rmap.get 7 = some { AddedToken.ofStr "zz".toList false with normalized := false } :=
    (h3.rmap 7).trans (by decide +kernel)
  have hc := h3.cache 7 { AddedToken.ofStr "zz".toList false with normalized := false } (by decide +kernel)
  have hc : c'.added.cache.get 7 = none := (Option.some.inj hc).symm
  simp [Tokenizer.idToToken, World.tokenizer, simpleIdToToken, hr, hc, AddedToken.ofStr]

/-- **C66 (finding).** A token is added as a special one, and then added again as one that is not special. It stays special
(`tokenizer/added_vocabulary.rs:331-337` adds to the set of special tokens, but does not remove), so decoding skips it;
after saving and loading it is not skipped. -/
theorem C66_stale_special : ∃ c j c', c = confAfter [.add movedNorm [.ofStr "zz".toList true],
      .add movedNorm [{ AddedToken.ofStr "zz".toList true with special := false }]] ∧
    save c = some j ∧ load sampleEnv false noTwice plainWorld.norm j = .ok c' ∧
    (plainWorld.tokenizer c).decode true [7] = some [] ∧ (plainWorld.tokenizer c').decode true [7] = some "zz".toList := by
  obtain ⟨j, c', h1, h2, h3, h4⟩ := confAfter_loads [.add movedNorm [.ofStr "zz".toList true],
      .add movedNorm [{ AddedToken.ofStr "zz".toList true with special := false }]] (by decide +kernel) (by decide +kernel)
  refine ⟨_, j, c', rfl, h1, h2, by decide +kernel, ?_⟩
  have hr : c'.added.rmap.get 7 = some { AddedToken.ofStr "zz".toList true with special := false } :=
    (h3.rmap 7).trans (by decide +kernel)
  have hc := h3.cache 7 { AddedToken.ofStr "zz".toList true with special := false } (by decide +kernel)
  have hc : c'.added.cache.get 7 = none := (Option.some.inj hc).symm
  have hs : "zz".toList ∉ c'.added.specials := by
    intro h
    obtain ⟨i, t, g1, g2, g3⟩ := (h3.specials _).1 h
    have : ∀ p ∈ (confAfter [.add movedNorm [.ofStr "zz".toList true],
      .add movedNorm [{ AddedToken.ofStr "zz".toList true with special := false }]]).added.rmap, p.2.special = false := by
      decide +kernel
    rw [this (i, t) (AMap.mem_of_get_eq_some g1)] at g2
    cases g2
  simp [AddedToken.ofStr] at hr hs
  simp [Tokenizer.decode, AddedVocab.decode, decodeTokens, World.tokenizer, simpleIdToToken, h4, List.filterMap, hr, hc, hs,
    List.intercalate, Option.filter]

/-- **C66 (finding).** `encode_special_tokens` is not saved. -/
theorem C66_encode_special_lost : ∃ c j c', c = confAfter [.setEncodeSpecial true] ∧ save c = some j ∧
    load sampleEnv false noTwice plainWorld.norm j = .ok c' ∧ c.added.encodeSpecial = true ∧
    c'.added.encodeSpecial = false := by
  obtain ⟨j, c', h1, h2, h3, h4⟩ := confAfter_loads [.setEncodeSpecial true] (by decide +kernel) (by decide +kernel)
  exact ⟨_, j, c', rfl, h1, h2, rfl, h3.encode⟩

end Tok.Save
