import Verif.Save.PublishedSamples
import Verif.Save.PublishedGpt2
import Verif.Regex.Fixed

/-!
# C67 with the regular expressions of the library

C67 assumes of the matches of the byte-level pattern only that they are ordered, and of literal patterns that they are found where the
character is. Here both are what the patterns themselves give (C71), so that nothing is assumed of them but the semantics of
regular expressions.
-/

namespace Tok.Save
open Json AddedVocab

/-- The regular expressions are matched as `Re.run` says: the fixed one of `ByteLevel`, and literal ones, all of which compile. -/
structure World.Engine (w : World) (e : Env) (u : ReTables) : Prop where
  byteLevel : w.byteLevel = Re.findIter (Re.byteLevel u)
  literal : ∀ s : Str, s ≠ [] → e.compiles (.str s) = true ∧ w.matches' (.str s) = Re.findIter (Re.lit s)

/-- **C67.** As `C67_gpt2`. -/
theorem C67_gpt2_engine (w : World) (e : Env) {u : ReTables} (hw : w.Engine e u) (skip : Bool)
    {build : List (Str × Nat) → Bool} (hb : Automata build)
    {vocab : List (Str × Nat)} (hv : VocabOk vocab) (halpha : ∀ x : UInt8, [ByteLevel.byteChar x] ∈ vocab.map (·.1))
    {merges : List (Str × Str)} (hm : MergesOk vocab merges) (hl : LinesOk merges)
    {tokens : List (Nat × AddedToken)} (hi : ∀ x ∈ tokens, x.1 < 4294967296)
    (hstrip : ∀ x ∈ tokens, x.2.lstrip = false ∧ x.2.rstrip = false)
    (hlit : ∀ x ∈ tokens, ByteLevel.Literal x.2.content) :
    ∃ c, load e skip build w.norm (gpt2File vocab merges tokens) = .ok c ∧
      ∀ s add, ∃ enc, (w.tokenizer c).encode (.raw s, none) add = .ok enc ∧ (w.tokenizer c).decode false enc.ids = some s :=
  C67_gpt2 w (fun s => by rw [hw.byteLevel]; exact Re.C71_engine _ s) e skip hb hv halpha hm hl hi hstrip hlit

/-- **C67.** As `C67_llama`. -/
theorem C67_llama_engine (w : World) (hu : w.uni.Ok) (e : Env) {u : ReTables} (hw : w.Engine e u) (skip' : Bool)
    {build : List (Str × Nat) → Bool} (hb : Automata build)
    {vocab : List (Str × Nat)} (hv : VocabOk vocab) (hbytes : ∀ y, byteToken y ∈ vocab.map (·.1))
    (hmark : "▁".toList ∈ vocab.map (·.1)) {bos : Nat} (hbos : ("<s>".toList, bos) ∈ vocab)
    {merges : List (Str × Str)} (hm : MergesOk vocab merges) (hl : LinesOk merges) (hnb : NoByteNames merges)
    {tokens : List (Nat × AddedToken)} (hi : ∀ x ∈ tokens, x.1 < 4294967296)
    (hraw : ∀ x ∈ tokens, x.2.normalized = false)
    (hplain : ∀ x ∈ tokens, x.2.lstrip = false ∧ x.2.rstrip = false ∧ x.2.singleWord = false)
    (hspecial : ∀ x ∈ tokens, x.2.special = true) (hstart : ∃ x ∈ tokens, x.2.content = "<s>".toList)
    (hnames : ∀ x ∈ tokens, '▁' ∉ x.2.content ∧ ∀ y, x.2.content ≠ byteToken y) :
    ∃ c, load e skip' build w.norm (llamaFile bos vocab merges tokens) = .ok c ∧
      ∀ s, (∀ x ∈ tokens, ¬ x.2.content <:+: s) → ∀ add skip, (add = true → skip = true) →
        ∃ enc, (w.tokenizer c).encode (.raw s, none) add = .ok enc ∧
          ((w.tokenizer c).decode skip enc.ids = some s ↔ '▁' ∉ s) := by
  have key : ∀ c : Char, Literal1 w e c := fun c => by
    obtain ⟨h1, h2⟩ := hw.literal [c] (by simp)
    exact ⟨h1, by rw [h2]; exact funext (Re.C71_char c)⟩
  exact C67_llama w hu e (key ' ') (key '▁') skip' hb hv hbytes hmark hbos hm hl hnb hi hraw hplain hspecial hstart hnames

/-- The settings of the examples, with all literal patterns and the byte-level pattern of the library. -/
def engineWorld (u : ReTables) : World :=
  { fileWorld with
    byteLevel := Re.findIter (Re.byteLevel u)
    matches' := fun p => match p with | .str s => Re.findIter (Re.lit s) | .regex _ => fun _ => [] }

example (u : ReTables) : (engineWorld u).Engine fileEnv u := ⟨rfl, fun _ _ => ⟨rfl, rfl⟩⟩

end Tok.Save
