import Verif.Tokenizer.Batch
import Verif.Tokenizer.Early
import Verif.Tokenizer.Words

/-!
# Concrete tokenizers for the theorems of `Batch`, `Fast`, `Early` and `Words`
-/

namespace Tok
open Encoding
namespace Tokenizer

/-! ## Batches (C43) -/

/-! One token per character, `!` is an error of the model, padding to the longest. -/

/-- One token per character. -/
def charModel (s : Str) : Except EncErr (List Token) :=
  if '!' ∈ s then .error (.model 1) else .ok (s.zipIdx.map fun c => ⟨c.1.toNat, [c.1], (c.2, c.2 + 1)⟩)

/-- A tokenizer with that model. -/
def charSample : Tokenizer :=
  { plain ⟨fun _ => none, fun i => some [Char.ofNat i], 0⟩ [] charModel with
    settings := ⟨none, some ⟨.batchLongest, .right, some 2, ⟨0, 0, "_".toList⟩⟩, none⟩ }

example : (charSample.encodeBatch [1, 0] .byte [(.raw "abc".toList, none), (.raw "d".toList, some (.raw "e".toList))]
    false).toOption.map (·.map fun e => (e.ids, e.attnMask)) =
    some [([97, 98, 99, 0], [1, 1, 1, 0]), ([100, 101, 0, 0], [1, 1, 0, 0])] := by decide +kernel

example : (match charSample.encodeBatch [1, 0] .byte [(.raw "a!".toList, none), (.raw "!".toList, none)] false with
    | .ok _ => none
    | .error e => some e) = some (.model 1) := by decide +kernel

example : (charSample.encodeAs .byte (.words ["ab".toList, "c".toList], none) false).toOption.map
    (fun e => (e.ids, e.words, e.offsets)) =
    some ([97, 98, 99, 0], [some 0, some 0, some 1, none], [(0, 1), (1, 2), (0, 1), (0, 0)]) := by decide +kernel

/-! ## `encode_fast` (C48) -/

/-! Examples: Bert marks, truncation to five tokens, padding. -/

/-- The tokenizer of the batch examples with Bert's post-processor and truncation. -/
def bertSample : Tokenizer :=
  { charSample with
    settings := ⟨some ⟨5, .longestFirst, 0, .right⟩, some ⟨.batchLongest, .right, some 4, ⟨0, 0, "_".toList⟩⟩,
      some (.bert ⟨("S".toList, 2), ("C".toList, 1)⟩)⟩ }

example : (bertSample.encodeFast (.raw "abc".toList, some (.raw "de".toList)) true).toOption.map
    (fun e => (e.ids, e.specialMask, e.attnMask, e.overflowing.map (·.ids))) =
    some ([1, 97, 2, 100, 2, 0, 0, 0], [1, 0, 1, 0, 1, 1, 1, 1], [1, 1, 1, 1, 1, 0, 0, 0],
      [[1, 98, 2, 100, 2, 0, 0, 0], [1, 98, 2, 101, 2, 0, 0, 0], [1, 99, 2, 100, 2, 0, 0, 0],
        [1, 99, 2, 101, 2, 0, 0, 0], [1, 97, 2, 101, 2, 0, 0, 0]]) := by decide +kernel

example : (bertSample.encodeAs .byte (.raw "abc".toList, some (.raw "de".toList)) true).toOption.map
    (fun e => (e.ids, e.offsets, e.tokens.length)) =
    some ([1, 97, 2, 100, 2, 0, 0, 0], [(0, 0), (0, 1), (0, 0), (0, 1), (0, 0), (0, 0), (0, 0), (0, 0)], 8) := by
  decide +kernel

/-- Finding: without a post-processor `encode_fast` also loses the type ids: those of the second input are 0. -/
theorem C48_type_ids_lost : ∃ e e',
    charSample.encode (.raw "ab".toList, some (.raw "cd".toList)) false = .ok e ∧
    charSample.encodeFast (.raw "ab".toList, some (.raw "cd".toList)) false = .ok e' ∧
    e.typeIds = [0, 0, 1, 1] ∧ e'.typeIds = [0, 0, 0, 0] := by
  have h : ∀ x : Except EncErr Encoding, ∀ ts, x.toOption.map (·.typeIds) = some ts →
      ∃ e, x = .ok e ∧ e.typeIds = ts := by
    intro x ts h
    cases x with
    | error e => cases h
    | ok e => exact ⟨e, rfl, Option.some.inj h⟩
  obtain ⟨e, h1, h2⟩ := h (charSample.encode (.raw "ab".toList, some (.raw "cd".toList)) false) [0, 0, 1, 1]
    (by decide +kernel)
  obtain ⟨e', h3, h4⟩ := h (charSample.encodeFast (.raw "ab".toList, some (.raw "cd".toList)) false) [0, 0, 0, 0]
    (by decide +kernel)
  exact ⟨e, e', h1, h3, h2, h4⟩

/-! ## Early exit (C38) -/

/-! One token per character, words separated at spaces. -/

/-- Split at spaces and drop them, as `WhitespaceSplit` does. -/
def atSpaces (p : PTS) : Except EncErr PTS :=
  p.split fun _ n =>
    match n.split (NS.findChar ' ' n.norm) .removed with
    | some ns => .ok (ns.map fun x => ⟨x, none⟩)
    | none => .error (.preTok 0)

/-- The tokenizer of the examples with a limit. -/
def spaceSample (tr : TruncParams) : Tokenizer :=
  { charSample with preTok := atSpaces, settings := ⟨some tr, none, some (.bert ⟨("S".toList, 2), ("C".toList, 1)⟩)⟩ }

example : ((spaceSample ⟨5, .longestFirst, 0, .right⟩).encodeFully .byte
      (.raw "ab cd ef".toList, some (.raw "xyz".toList)) true).toOption.map (fun e => (e.ids, e.overflowing.length))
      = some ([1, 97, 2, 120, 2], 17) ∧
    ((spaceSample ⟨5, .longestFirst, 0, .right⟩).encodeAs .byte
      (.raw "ab cd ef".toList, some (.raw "xyz".toList)) true).toOption.map (fun e => (e.ids, e.overflowing.length))
      = some ([1, 97, 2, 120, 2], 17) := by decide +kernel

example : ((spaceSample ⟨4, .onlyFirst, 0, .left⟩).encodeFully .byte
      (.raw "ab cd ef".toList, none) true).toOption.map (fun e => (e.ids, e.words, e.offsets))
      = some ([1, 101, 102, 2], [none, some 2, some 2, none], [(0, 0), (6, 7), (7, 8), (0, 0)]) ∧
    ((spaceSample ⟨4, .onlyFirst, 0, .left⟩).encodeAs .byte
      (.raw "ab cd ef".toList, none) true).toOption.map (fun e => (e.ids, e.words, e.offsets))
      = some ([1, 101, 102, 2], [none, some 1, some 1, none], [(0, 0), (6, 7), (7, 8), (0, 0)]) := by decide +kernel

/-- Finding: when both inputs reach the limit and the number of places is odd, the early exit decides which input
gets the place left over: the ids differ from those after complete tokenization. -/
theorem C38_odd_room : ∃ t : Tokenizer, ∃ input e e', t.encodeFully .byte input false = .ok e ∧
    t.encodeAs .byte input false = .ok e' ∧ e.ids = [97, 98, 120] ∧ e'.ids = [97, 120, 121] := by
  have h : ∀ x : Except EncErr Encoding, ∀ ts, x.toOption.map (·.ids) = some ts →
      ∃ e, x = .ok e ∧ e.ids = ts := by
    intro x ts h
    cases x with
    | error e => cases h
    | ok e => exact ⟨e, rfl, Option.some.inj h⟩
  let t := spaceSample ⟨3, .longestFirst, 0, .right⟩
  let input : Input × Option Input := (.raw "a b c d e f".toList, some (.raw "xyzw".toList))
  obtain ⟨e, h1, h2⟩ := h (t.encodeFully .byte input false) [97, 98, 120] (by decide +kernel)
  obtain ⟨e', h3, h4⟩ := h (t.encodeAs .byte input false) [97, 120, 121] (by decide +kernel)
  exact ⟨t, input, e, e', h1, h3, h2, h4⟩

/-! ## Lists of words (C55) -/

/-! Words `ab` and `c`; a word `!` that the model refuses. -/

example : ∃ es, Each (fun w e => charSample.encodeSequence 0 .byte (.raw w) = .ok e) ["ab".toList, "c".toList] es ∧
    es.flatMap (·.ids) = [97, 98, 99] :=
  ⟨_, .cons rfl (.cons rfl .nil), by decide +kernel⟩

example : ∃ e, charSample.encodeSequence 0 .byte (.words ["ab".toList, "c".toList]) = .ok e ∧
    e.words = [some 0, some 0, some 1] ∧ e.offsets = [(0, 1), (1, 2), (0, 1)] := ⟨_, rfl, by decide +kernel⟩

example : charSample.encodeSequenceWith none 0 .byte (.words ["ab".toList, "!".toList, "c".toList]) = .error (.model 1) :=
  (C55_words charSample none 0 (by decide) _).2 ["ab".toList] "!".toList ["c".toList] _ rfl
    (fun v hv => by rw [List.mem_singleton.1 hv]; exact ⟨_, rfl⟩) rfl

end Tokenizer
end Tok
