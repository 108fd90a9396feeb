import Verif.Tokenizer.AddLocal
import Verif.Save.EncodeSpecialFile

/-!
# C114 for tokenizers loaded from a file
-/

namespace Tok.Save
open Json AddedVocab Tokenizer

/-- A loaded tokenizer has the tokens of the file, added without an error. -/
theorem load_history {w : World} {e : Env} {skip : Bool} {build : List (Str × Nat) → Bool} {j : Json} {c : Conf}
    (h : load e skip build w.norm j = .ok c) : ∃ ts, AllSucceed build c.model.view AddedVocab.empty [.add (w.norm c.normalizer) ts] ∧
      c.added = after build c.model.view AddedVocab.empty [.add (w.norm c.normalizer) ts] := by
  obtain ⟨l, hl⟩ := load_added h
  unfold loadAdded at hl
  split at hl
  · rename_i av' k hk
    cases hl
    refine ⟨l.map (·.2), ⟨?_, trivial⟩, ?_⟩
    · show (AddedVocab.empty.addTokens _ _ _ _).2.isSome = true
      rw [hk]; rfl
    · show _ = (AddedVocab.empty.addTokens _ _ _ _).1
      rw [hk]
  · cases hl

/-- **C114.** Load any file, call whatever changes the added tokens as long as it succeeds, then add new tokens: inputs in which
these do not occur are encoded as before. -/
theorem C114_loaded (w : World) (e : Env) (skip : Bool) {build : List (Str × Nat) → Bool} (hb : Automata build) {j : Json} {c : Conf}
    (h : load e skip build w.norm j = .ok c) (hok : c.model.view.Ok) {ops : List Op}
    (hs : AllSucceed build c.model.view c.added ops) {ts : List AddedToken} {av av' : AddedVocab} {k : Nat}
    (hav : av = after build c.model.view c.added ops) (hnew : ∀ x ∈ ts, New av x)
    (hadd : av.addTokens build c.model.view (w.norm c.normalizer) ts = (av', some k)) (ty : PTS.OffsetType)
    (input : Input × Option Input) (add : Bool)
    (ha : ∀ i, i = input.1 ∨ input.2 = some i → ∀ s ∈ textsOf i, Absent (w.norm c.normalizer) (w.normalizer c.normalizer) ts s) :
    (w.tokenizer { c with added := av }).encodeAs ty input add = (w.tokenizer { c with added := av' }).encodeAs ty input add := by
  obtain ⟨ts0, h1, h2⟩ := load_history h
  have hall : AllSucceed build c.model.view AddedVocab.empty (.add (w.norm c.normalizer) ts0 :: ops) := by
    refine ⟨h1.1, ?_⟩
    rw [h2] at hs
    exact hs
  have hist : av = after build c.model.view AddedVocab.empty (.add (w.norm c.normalizer) ts0 :: ops) := by
    rw [hav, h2]
    rfl
  exact C114_encode (t := w.tokenizer { c with added := av }) hok
    (fun l hl => by
      by_cases hne : l = []
      · subst hne; exact List.nodup_nil
      · exact ((hb l hne).1 hl).1) hall hist hnew hadd ty input add ha

/-- **C46.** What a loaded tokenizer lists is what it finds, whatever its model. -/
theorem C46_loaded (w : World) (c : Conf) (hw : c.model.vocab.WF) : (w.tokenizer c).Lists := by
  obtain ⟨h1, h2, h3, h4⟩ := C46_models (w.tokenizer c) hw
  cases hm : c.model with
  | bpe d b => exact (h1 b (by simp only [World.tokenizer, hm]; rfl) (by simp only [World.tokenizer, hm]; rfl)).1
  | wordPiece m => exact (h2 m (by simp only [World.tokenizer, hm]; rfl) (by simp only [World.tokenizer, hm]; rfl)).1
  | wordLevel m => exact (h3 m (by simp only [World.tokenizer, hm]; rfl) (by simp only [World.tokenizer, hm]; rfl)).1
  | unigram u => exact h4 u (by simp only [World.tokenizer, hm]; rfl) (by simp only [World.tokenizer, hm]; rfl)

/-- A small file: two words and a special token. -/
def wordFile : Json := .obj [("version".toList, .str "1.0".toList), ("added_tokens".toList, .arr [writeAddedToken (2, .ofStr "<s>".toList true)]),
  ("model".toList, .obj [("type".toList, .str "WordLevel".toList),
    ("vocab".toList, .obj [("a".toList, .int 0), ("b".toList, .int 1)]), ("unk_token".toList, .str "a".toList)])]

/-- Its model. -/
def wordModel : WordLevel := ⟨readVocab [("a".toList, 0), ("b".toList, 1)], "a".toList⟩

/-- What is loaded. -/
def wordConf : Conf :=
  ⟨none, none, (AddedVocab.empty.addTokens buildStrict (Mod.wordLevel wordModel).view none [.ofStr "<s>".toList true]).1,
    none, none, none, none, .wordLevel wordModel⟩

theorem wordFile_loaded : load anyEnv false buildStrict splitWorld.norm wordFile = .ok wordConf := rfl

theorem wordModel_view : wordConf.model.view.Ok := by
  have h1 : ∀ p ∈ (wordModel.vocab : List (Str × Nat)), p.2 < wordModel.vocab.length ∧ (turned wordModel.vocab).get p.2 = some p.1 := by
    decide +kernel
  have h2 : ∀ p ∈ (turned wordModel.vocab : List (Nat × Str)), wordModel.vocab.get p.2 = some p.1 := by decide +kernel
  refine ⟨fun c i h => (h1 _ (AMap.mem_of_get_eq_some h)).1, fun c i => ⟨fun h => (h1 _ (AMap.mem_of_get_eq_some h)).2, fun h => ?_⟩⟩
  exact h2 _ (AMap.mem_of_get_eq_some h)

example : wordConf.model.vocab.WF ∧ (splitWorld.tokenizer wordConf).getVocab true =
    [("<s>".toList, 2), ("b".toList, 1), ("a".toList, 0)] := by
  constructor
  · unfold AMap.WF; decide +kernel
  · decide +kernel

/-- Two tokens that are not in the text. -/
def wordMore : List AddedToken := [.ofStr "<e>".toList true, .ofStr "zz".toList false]

example : (splitWorld.tokenizer wordConf).encode (.raw "a<s>".toList, none) true = (splitWorld.tokenizer { wordConf with
      added := (wordConf.added.addTokens buildStrict wordConf.model.view none wordMore).1 }).encode (.raw "a<s>".toList, none) true := by
  refine C114_loaded splitWorld anyEnv false buildStrict_ok wordFile_loaded wordModel_view (ops := []) trivial (ts := wordMore)
    (k := 2) rfl ?_ (Prod.ext rfl (by decide +kernel)) _ _ _ ?_
  · unfold New
    decide +kernel
  · rintro i (rfl | h)
    · intro s hs
      rw [List.mem_singleton.1 hs]
      exact absent_plain (by decide +kernel)
    · cases h

example : ((splitWorld.tokenizer wordConf).encode (.raw "a<s>".toList, none) true).toOption.map (·.ids) = some [0, 2] := by
  decide +kernel

end Tok.Save
