import Verif.Post.C37
import Verif.Tokenizer.Pairs

/-!
# C121: Bert and Roberta processors one after another

A `Sequence` (`processors/sequence.rs:59-69`) hands the result of each processor to the next. `BertProcessing` and
`RobertaProcessing` write a fresh special mask (`bert.rs:75-81`, `roberta.rs:105-111`) and a fresh sequence range, so that what an
earlier processor has inserted counts as text.
-/

namespace Tok.Post
open Encoding

/-- A processor that puts a token before and a token behind the text. -/
structure Wrapper where
  /-- The tokens. -/
  marks : Marks
  /-- `none` for Bert, `trim_offsets` and `add_prefix_space` for Roberta. -/
  roberta : Option (Bool × Bool)

/-- The processor itself. -/
def Wrapper.proc (x : Wrapper) : Proc :=
  match x.roberta with
  | none => .bert x.marks
  | some (trim, aps) => .roberta x.marks trim aps

/-- One step: the token before, what there was, the token behind; only these two are special, and everything between them is
the text. -/
theorem wrapper_step (ws : Char → Bool) (x : Wrapper) (e : Encoding) :
    ∃ o, x.proc.processEncodings ws true [e] = some [o] ∧
      o.ids = x.marks.cls.2 :: (e.ids ++ [x.marks.sep.2]) ∧
      o.specialMask = 1 :: (List.replicate e.ids.length 0 ++ [1]) ∧
      o.seqRanges = [(0, (1, 1 + e.ids.length))] := by
  rcases x with ⟨m, _ | ⟨trim, aps⟩⟩
  · exact ⟨bertFirst m e, rfl, rfl, rfl, rfl⟩
  · have hx : ∀ d : Encoding, (trimAll ws aps d).ids = d.ids := fun d => by
      simp [trimAll, Tokenizer.withOverflowing_ids, Tokenizer.processOffsets_ids]
    have ht : ∀ (d : Encoding) l, (d.setTypeIds l).ids = d.ids := fun d l => by cases d; rfl
    have hr : ∀ d : Encoding, d.ids = e.ids → (robertaFirst m d).ids = m.cls.2 :: (e.ids ++ [m.sep.2]) ∧
        (robertaFirst m d).specialMask = 1 :: (List.replicate e.ids.length 0 ++ [1]) ∧
        (robertaFirst m d).seqRanges = [(0, (1, 1 + e.ids.length))] := fun d hd => by
      rw [← hd]; exact ⟨rfl, rfl, rfl⟩
    cases trim
    · exact ⟨_, rfl, hr _ (ht _ _)⟩
    · exact ⟨_, rfl, hr _ ((ht _ _).trans (hx e))⟩

/-- All the steps. -/
theorem wrappers_all (ws : Char → Bool) : ∀ (xs : List Wrapper), xs ≠ [] → ∀ e : Encoding,
    ∃ o, processAll ws true (xs.map Wrapper.proc) [e] = some [o] ∧
      o.ids = (xs.reverse.map (·.marks.cls.2)) ++ e.ids ++ xs.map (·.marks.sep.2) ∧
      o.specialMask = 1 :: (List.replicate (e.ids.length + 2 * (xs.length - 1)) 0 ++ [1]) ∧
      o.seqRanges = [(0, (1, 1 + (e.ids.length + 2 * (xs.length - 1))))]
  | [], h, _ => absurd rfl h
  | [x], _, e => by
    obtain ⟨o, h1, h2, h3, h4⟩ := wrapper_step ws x e
    exact ⟨o, by simp [processAll, h1], by simp [h2], by simp [h3], by simp [h4]⟩
  | x :: y :: ys, _, e => by
    obtain ⟨o, h1, h2, _, _⟩ := wrapper_step ws x e
    obtain ⟨q, g1, g2, g3, g4⟩ := wrappers_all ws (y :: ys) (by simp) o
    have hl : o.ids.length + 2 * ((y :: ys).length - 1) = e.ids.length + 2 * ((x :: y :: ys).length - 1) := by
      simp [h2]; omega
    refine ⟨q, ?_, ?_, ?_, ?_⟩
    · rw [List.map_cons, processAll, h1]
      exact g1
    · rw [g2, h2]; simp
    · rw [g3, hl]
    · rw [g4, hl]

/-- **C121.** One or more Bert and Roberta processors one after another put their tokens around the text, those of the first
innermost, as many as they report. But only the two outermost have special mask 1, and the range of the text holds the
tokens of all processors but the last.

Missing, because it is false from two processors on (`C121_unmarked`): all inserted tokens have mask 1, the range holds the text only. -/
theorem C121_chain_partial (ws : Char → Bool) (xs : List Wrapper) (hx : xs ≠ []) (e : Encoding) :
    ∃ out, (Proc.sequence (xs.map Wrapper.proc)).process ws e none true = some out ∧
      out.ids = (xs.reverse.map (·.marks.cls.2)) ++ e.ids ++ xs.map (·.marks.sep.2) ∧
      out.ids.length = e.ids.length + (Proc.sequence (xs.map Wrapper.proc)).added false ∧
      out.specialMask = 1 :: (List.replicate (e.ids.length + 2 * (xs.length - 1)) 0 ++ [1]) ∧
      out.seqRanges = [(0, (1, 1 + (e.ids.length + 2 * (xs.length - 1))))] := by
  obtain ⟨o, h1, h2, h3, h4⟩ := wrappers_all ws xs hx (prepare 0 e)
  rw [Tokenizer.prepare_ids] at h2 h3 h4
  have ha : ∀ ys : List Wrapper, addedAll false (ys.map Wrapper.proc) = 2 * ys.length := by
    intro ys
    induction ys with
    | nil => rfl
    | cons y ys ih =>
      rcases y with ⟨m, _ | ⟨t, a⟩⟩ <;> simp [addedAll, Wrapper.proc, Proc.added, bertAdded, robertaAdded, ih] <;> omega
  have hi : (merge [o] false).ids = o.ids := by simp [merge_ids_flatMap]
  refine ⟨merge [o] false, by simp only [Proc.process, Proc.processEncodings, h1]; rfl, by rw [hi, h2], ?_, ?_, ?_⟩
  · rw [hi, h2, Proc.added, ha]; simp; omega
  · rw [← h3]
    show (empty.mergeWith o false).specialMask = _
    rw [mergeWith_eq]; cases o; rfl
  · show (empty.mergeWith o false).seqRanges = _
    rw [mergeWith_seqRanges, h4]
    simp [empty, AMap.extend, AMap.insert, len]

/-- **C121 fails as soon as there are two**: a token that was inserted is not marked as special. -/
theorem C121_unmarked (ws : Char → Bool) (x y : Wrapper) (e : Encoding) :
    ∃ out, (Proc.sequence [x.proc, y.proc]).process ws e none true = some out ∧
      out.ids[1]? = some x.marks.cls.2 ∧ out.specialMask[1]? = some 0 ∧
      ∃ r, out.seqRanges = [(0, r)] ∧ r.1 ≤ 1 ∧ 1 < r.2 := by
  obtain ⟨out, h1, h2, _, h4, h5⟩ := C121_chain_partial ws [x, y] (by simp) e
  refine ⟨out, h1, by simp [h2], ?_, _, h5, by simp, by simp⟩
  rw [h4]
  simp [List.replicate_succ]

/-- Bert twice, around a text of tokens. -/
example : ∃ out, (Proc.sequence [.bert sampleMarks, .bert sampleMarks]).process (fun _ => false) sampleEnc none true = some out ∧
    out.specialMask[1]? = some 0 := by
  obtain ⟨out, h, _, h2, _⟩ := C121_unmarked (fun _ => false) ⟨sampleMarks, none⟩ ⟨sampleMarks, none⟩ sampleEnc
  exact ⟨out, h, h2⟩

end Tok.Post
