import Verif.Save.PublishedGpt2
import Verif.Save.PublishedSamples
import Verif.Regex.Samples

/-!
# C73: examples
-/

namespace Tok

namespace Bpe

/-- Words with the prefix `##` and the suffix `_`: `ab` is joined, then `c` is joined to it. -/
def markedVocab : AMap Str Nat :=
  [("a".toList, 0), ("##b".toList, 1), ("##c_".toList, 2), ("ab".toList, 3), ("abc_".toList, 4), ("##c".toList, 5),
    ("##d_".toList, 6)]

def markedMerges : List (Str × Str) := [("a".toList, "##b".toList), ("ab".toList, "##c_".toList)]

def markedCfg : Bpe := ⟨[], [], [], false, none, some "##".toList, some "_".toList, false, false, false⟩

example : letters "##".toList "_".toList true "abcd".toList = ["a", "##b", "##c", "##d_"].map String.toList := by decide

example : ∃ b, build markedVocab markedMerges markedCfg = .ok b ∧ ∃ ts, tokenize b (fun _ => false) "abcd".toList = .ok ts ∧
    Applied "##".toList markedMerges (["a", "##b", "##c", "##d_"].map String.toList) (ts.map (·.value)) ∧
      ∀ t ∈ ts, markedVocab.get t.value = some t.id := by
  refine ⟨_, rfl, ?_⟩
  exact C73_merge_list (vocab := markedVocab) (merges := markedMerges) (cfg := markedCfg) rfl (by unfold AMap.WF; decide +kernel) (by
    intro s t i hs ht
    have key : ∀ p ∈ markedVocab, ∀ q ∈ markedVocab, p.2 = q.2 → p.1 = q.1 := by decide +kernel
    exact key _ (AMap.mem_of_get_eq_some hs) _ (AMap.mem_of_get_eq_some ht) rfl) ⟨by
      intro m hm
      simp only [markedMerges, List.mem_cons, List.not_mem_nil, or_false] at hm
      rcases hm with rfl | rfl
      · exact ⟨"b".toList, by decide, by decide⟩
      · exact ⟨"c_".toList, by decide, by decide⟩, by decide +kernel, by
      intro m hm
      simp only [markedMerges, List.mem_cons, List.not_mem_nil, or_false] at hm
      rcases hm with rfl | rfl
      · rintro t _ ⟨t', h⟩; simp [markedCfg] at h
      · rintro t _ ⟨t', h⟩; simp [markedCfg] at h⟩ (by decide) _ rfl (by intro h; cases h) (by
    intro g hg
    have hg : g ∈ ["a", "##b", "##c", "##d_"].map String.toList := hg
    have : (markedVocab.get g).isSome := by revert g; decide +kernel
    exact Option.isSome_iff_exists.1 this)

/-- A pair that is in the list twice has its last place: `bc` is joined although `ab` comes first. -/
theorem C73_duplicate : ∃ b, build [("a".toList, 0), ("b".toList, 1), ("c".toList, 2), ("ab".toList, 3), ("bc".toList, 4)]
      [("a".toList, "b".toList), ("b".toList, "c".toList), ("a".toList, "b".toList)] sampleCfg = .ok b ∧
    tokenize b (fun _ => false) "abc".toList = .ok [⟨0, "a".toList, (0, 1)⟩, ⟨4, "bc".toList, (1, 3)⟩] :=
  ⟨_, rfl, rfl⟩

end Bpe

namespace Save
open Json AddedVocab

/-- As `fileWorld`, with the regular expression of `ByteLevel`. -/
def gpt2World : World := { fileWorld with byteLevel := Re.findIter (Re.byteLevel Re.asciiRe) }

theorem gpt2Vocab_bytes (x : UInt8) : [ByteLevel.byteChar x] ∈ gpt2Vocab.map (·.1) := by
  obtain ⟨c, hc⟩ := Option.isSome_iff_exists.1 (ByteLevel.C29_defined x)
  have hb : ByteLevel.byteChar x = Char.ofNat c := by unfold ByteLevel.byteChar; rw [hc]; rfl
  rw [hb]
  exact List.mem_map.2 ⟨([Char.ofNat c], x.toNat), List.mem_append_left _ (List.mem_append_left _
    (List.mem_map.2 ⟨(x.toNat, c), AMap.mem_of_get_eq_some hc, rfl⟩)), rfl⟩

theorem gpt2Merges_ok : MergesOk gpt2Vocab Tokenizer.byteMerges := ⟨by decide +kernel, by decide +kernel, by decide +kernel⟩

/-- The hypotheses of `C73_gpt2` and `C73_two_parts` hold for this file. -/
example : ∃ c, load fileEnv false buildStrict gpt2World.norm (gpt2File gpt2Vocab Tokenizer.byteMerges gpt2Tokens) = .ok c ∧
    ∃ C, Tokenizer.Carves (gpt2Tokens.map fun x => (x.2.content, x.1)) C ∧ ∀ a,
      ∃ A, Tokenizer.Each (Gpt2Tokens gpt2Vocab Tokenizer.byteMerges) (gpt2Units Re.asciiRe C a) A ∧
        ∀ add, ∃ enc, (gpt2World.tokenizer c).encode (.raw a, none) add = .ok enc := by
  obtain ⟨c, h, C, hC, hc⟩ := C73_gpt2 gpt2World Re.asciiRe_ok rfl fileEnv false buildStrict_ok gpt2Vocab_ok gpt2Vocab_bytes
    gpt2Merges_ok (by unfold LinesOk; decide +kernel) (tokens := gpt2Tokens) (by decide) ⟨true, by decide⟩ (by decide +kernel)
  exact ⟨c, h, C, hC, fun a => by
    obtain ⟨A, g1, g2, _⟩ := hc a
    exact ⟨A, g1, fun add => by obtain ⟨e, he, _⟩ := g2 add; exact ⟨e, he⟩⟩⟩

example : ∃ c, load fileEnv false buildStrict gpt2World.norm (gpt2File gpt2Vocab Tokenizer.byteMerges gpt2Tokens) = .ok c ∧
    ∃ x y z, (gpt2World.tokenizer c).encode (.raw "he".toList, none) false = .ok x ∧
      (gpt2World.tokenizer c).encode (.raw " he's".toList, none) false = .ok y ∧
      (gpt2World.tokenizer c).encode (.raw "he he's".toList, none) false = .ok z ∧ z.ids = x.ids ++ y.ids := by
  obtain ⟨c, h, hc⟩ := C73_two_parts gpt2World Re.asciiRe_ok rfl fileEnv false buildStrict_ok gpt2Vocab_ok gpt2Vocab_bytes
    gpt2Merges_ok (by unfold LinesOk; decide +kernel) (tokens := gpt2Tokens) (by decide) ⟨true, by decide⟩ (by decide +kernel)
  exact ⟨c, h, hc "he".toList " he's".toList (by decide) (by decide) (by unfold Re.SolidEnd; decide) (by unfold Re.SpaceStart; decide)
    (by decide +kernel)⟩

/-- What it does with one text: `he` and `Ġa` are joined, the token of the file is found. -/
example : ((match load fileEnv false buildStrict gpt2World.norm (gpt2File gpt2Vocab Tokenizer.byteMerges gpt2Tokens) with
    | .ok c => some c
    | _ => none).bind fun c => ((gpt2World.tokenizer c).encode (.raw "he  a<|endoftext|>é".toList, none) true).toOption.map
      fun (e : Encoding) => (e.ids, e.offsets)) =
    some ([257, 32, 256, 258, 195, 169], [(0, 2), (2, 3), (3, 5), (5, 18), (18, 20), (18, 20)]) := by decide +kernel

end Save
end Tok
