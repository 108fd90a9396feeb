import Verif.Tokenizer.Early

/-!
# C55: an input given as a list of words
-/

namespace Tok
open Encoding
namespace Tokenizer

/-- The same token, said to come from word `i`. -/
def ofWord (i : Nat) : Row → Row
  | (id, ty, tok, _, off, sp, at') => (id, ty, tok, some i, off, sp, at')

theorem intoEncoding_word (p : PTS) (i typeId : Nat) {ty : PTS.OffsetType} (hty : ty ≠ .none) :
    (∀ e, p.intoEncoding none typeId ty = .ok e → ∃ e', p.intoEncoding (some i) typeId ty = .ok e' ∧
      e'.overflowing = [] ∧ e'.rows = e.rows.map (ofWord i)) ∧
    (∀ er, p.intoEncoding none typeId ty = .error er → p.intoEncoding (some i) typeId ty = .error er) := by
  by_cases hall : ∀ s ∈ p.splits, s.tokens.isSome
  · obtain ⟨e, h1, _, h3⟩ := PTS.C13_into_encoding hall none typeId ty hty
    obtain ⟨e', g1, g2, g3⟩ := PTS.C13_into_encoding hall (some i) typeId ty hty
    rw [h1, g1]
    refine ⟨fun x hx => ?_, fun er h => (by cases h)⟩
    cases hx
    refine ⟨_, rfl, g2, ?_⟩
    rw [g3, h3, List.map_flatMap]
    congr 1
    funext x
    rw [List.map_map]; rfl
  · have hex : ∃ s ∈ p.splits, s.tokens = none := by
      refine Classical.byContradiction fun hn => hall fun s hs => ?_
      cases ht : s.tokens with
      | none => exact absurd ⟨s, hs, ht⟩ hn
      | some _ => rfl
    rw [(PTS.C13_into_encoding_error p none typeId ty).2 hex, (PTS.C13_into_encoding_error p (some i) typeId ty).2 hex]
    exact ⟨fun e h => (by cases h), fun er h => h⟩

theorem encodeText_word (t : Tokenizer) (lim : Option (Nat × Direction)) (typeId : Nat) {ty : PTS.OffsetType}
    (hty : ty ≠ .none) (i : Nat) (s : Str) :
    (∀ e, t.encodeText lim typeId ty none s = .ok e → ∃ e', t.encodeText lim typeId ty (some i) s = .ok e' ∧
      e'.overflowing = [] ∧ e'.WF ∧ e'.rows = e.rows.map (ofWord i)) ∧
    (∀ er, t.encodeText lim typeId ty none s = .error er → t.encodeText lim typeId ty (some i) s = .error er) := by
  unfold encodeText
  cases t.preTokenized s with
  | error e => exact ⟨fun e h => (by cases h), fun er h => h⟩
  | ok p =>
    show (∀ e, t.doTokenize lim p typeId none ty = .ok e → ∃ e', t.doTokenize lim p typeId (some i) ty = .ok e' ∧ _) ∧
      ∀ er, t.doTokenize lim p typeId none ty = .error er → t.doTokenize lim p typeId (some i) ty = .error er
    unfold doTokenize
    cases t.tokenizeIn p lim with
    | error e => exact ⟨fun e h => (by cases h), fun er h => h⟩
    | ok q =>
      show (∀ e, mapErr _ (q.intoEncoding none typeId ty) = .ok e →
          ∃ e', mapErr _ (q.intoEncoding (some i) typeId ty) = .ok e' ∧ _) ∧
        ∀ er, mapErr _ (q.intoEncoding none typeId ty) = .error er →
          mapErr _ (q.intoEncoding (some i) typeId ty) = .error er
      obtain ⟨h1, h2⟩ := intoEncoding_word q i typeId hty
      cases hq : q.intoEncoding none typeId ty with
      | error e => rw [h2 e hq]; exact ⟨fun e h => (by cases h), fun er h => h⟩
      | ok e =>
        obtain ⟨e', g1, g2, g3⟩ := h1 e hq
        rw [g1]
        refine ⟨fun x hx => ?_, fun er h => (by cases h)⟩
        cases hx
        exact ⟨_, rfl, g2, intoEncoding_wf g1, g3⟩

theorem merge_plain {es : List Encoding} (hes : ∀ e ∈ es, e.overflowing = []) :
    (merge es false).overflowing = [] := by
  have : ∀ (l : List Encoding) (acc : Encoding), acc.overflowing = [] → (∀ e ∈ l, e.overflowing = []) →
      (l.foldl (fun acc s => acc.mergeWith s false) acc).overflowing = [] := by
    intro l
    induction l with
    | nil => intro acc h _; exact h
    | cons x xs ih =>
      intro acc h hx
      refine ih _ ?_ fun e he => hx e (List.mem_cons_of_mem _ he)
      have := C05_merge_overflow_count acc x false
      rw [h, hx x List.mem_cons_self] at this
      exact List.eq_nil_of_length_eq_zero (by simpa using this)
  exact this es Encoding.empty rfl hes

theorem rowsIds {e : Encoding} (h : e.Parallel) : e.rows.map (·.1) = e.ids := by
  unfold rows
  rw [List.map_fst_zip]
  obtain ⟨h1, h2, h3, h4, h5, h6⟩ := h
  simp only [List.length_zip, h1, h2, h3, h4, h5, h6]
  omega

theorem text_wf {t : Tokenizer} {lim : Option (Nat × Direction)} {typeId : Nat} {ty : PTS.OffsetType}
    {word : Option Nat} {s : Str} {e : Encoding} (h : t.encodeText lim typeId ty word s = .ok e) : e.WF := by
  unfold encodeText doTokenize at h
  cases hp : t.preTokenized s with
  | error e => rw [hp] at h; cases h
  | ok p =>
    rw [hp] at h
    cases hq : t.tokenizeIn p lim with
    | error e => simp only [Except.bind, hq] at h; cases h
    | ok q =>
      simp only [Except.bind, hq] at h
      cases hi : q.intoEncoding word typeId ty with
      | error e => rw [hi] at h; cases h
      | ok x => rw [hi] at h; cases h; exact intoEncoding_wf hi

theorem mapM_all {α β ε : Type} {P : β → Prop} {f : α → Except ε β} (hf : ∀ a b, f a = .ok b → P b) :
    ∀ (l : List α) (bs : List β), l.mapM f = .ok bs → ∀ b ∈ bs, P b
  | [], bs, h => by cases h; intro b hb; cases hb
  | a :: l, bs, h => by
    rw [List.mapM_cons] at h
    cases ha : f a with
    | error e => rw [ha] at h; cases h
    | ok b =>
      cases hl : l.mapM f with
      | error e => rw [ha, hl] at h; cases h
      | ok bs' =>
        rw [ha, hl] at h
        cases h
        intro x hx
        rcases List.mem_cons.1 hx with rfl | hx
        · exact hf _ _ ha
        · exact mapM_all hf l bs' hl x hx

theorem sequence_wf {t : Tokenizer} {lim : Option (Nat × Direction)} {typeId : Nat} {ty : PTS.OffsetType}
    {i : Input} {e : Encoding} (h : t.encodeSequenceWith lim typeId ty i = .ok e) : e.WF := by
  cases i with
  | raw s => exact text_wf h
  | words l =>
    simp only [encodeSequenceWith] at h
    cases hm : (l.zipIdx.mapM fun x => t.encodeText lim typeId ty (some x.2) x.1) with
    | error e => rw [hm] at h; cases h
    | ok es =>
      rw [hm] at h
      cases h
      exact Encoding.merge_wf (mapM_all (fun _ _ => text_wf) _ _ hm) false

theorem mapM_words (t : Tokenizer) (lim : Option (Nat × Direction)) (typeId : Nat) {ty : PTS.OffsetType}
    (hty : ty ≠ .none) : ∀ (l : List Str) (es : List Encoding) (k : Nat),
    Each (fun w e => t.encodeSequenceWith lim typeId ty (.raw w) = .ok e) l es →
    ∃ es', ((l.zipIdx k).mapM fun x => t.encodeText lim typeId ty (some x.2) x.1) = .ok es' ∧
      (∀ e ∈ es', e.overflowing = [] ∧ e.WF) ∧
      (es'.map rows).flatten = (es.zipIdx k).flatMap fun x => x.1.rows.map (ofWord x.2)
  | [], _, k, h => by cases h; exact ⟨[], rfl, fun e he => (by cases he), rfl⟩
  | w :: l, _, k, h => by
    cases h with
    | @cons _ e _ es h1 h2 =>
      obtain ⟨e', g1, g2, g3, g4⟩ := (encodeText_word t lim typeId hty k w).1 e h1
      obtain ⟨es', i1, i2, i3⟩ := mapM_words t lim typeId hty l es (k + 1) h2
      refine ⟨e' :: es', ?_, ?_, ?_⟩
      · rw [List.zipIdx_cons, List.mapM_cons, g1, i1]; rfl
      · intro x hx
        rcases List.mem_cons.1 hx with rfl | hx
        · exact ⟨g2, g3⟩
        · exact i2 x hx
      · rw [List.map_cons, List.flatten_cons, List.zipIdx_cons, List.flatMap_cons, i3, g4]

/-- **C55.** A list of words is encoded word by word: the tokens are those that each word gives as a text of its own,
in order, with the offsets inside that word, each token with the index of its word in the list; there is no overflowing
part. If some word cannot be encoded, the first such word gives the error. -/
theorem C55_words (t : Tokenizer) (lim : Option (Nat × Direction)) (typeId : Nat) {ty : PTS.OffsetType}
    (hty : ty ≠ .none) (l : List Str) :
    (∀ es, Each (fun w e => t.encodeSequenceWith lim typeId ty (.raw w) = .ok e) l es →
      ∃ e, t.encodeSequenceWith lim typeId ty (.words l) = .ok e ∧ e.overflowing = [] ∧
        e.rows = es.zipIdx.flatMap fun x => x.1.rows.map (ofWord x.2)) ∧
    (∀ pre w post er, l = pre ++ w :: post →
      (∀ v ∈ pre, ∃ e, t.encodeSequenceWith lim typeId ty (.raw v) = .ok e) →
      t.encodeSequenceWith lim typeId ty (.raw w) = .error er →
      t.encodeSequenceWith lim typeId ty (.words l) = .error er) := by
  constructor
  · intro es h
    obtain ⟨es', h1, h2, h3⟩ := mapM_words t lim typeId hty l es 0 h
    refine ⟨merge es' false, ?_, merge_plain fun e he => (h2 e he).1, ?_⟩
    · show Except.map _ ((l.zipIdx).mapM _) = _
      rw [h1]; rfl
    · rw [C05_merge_list fun e he => (h2 e he).2, h3]
  · rintro pre w post er rfl hpre hw
    have key : ∀ (pre : List Str) (k : Nat), (∀ v ∈ pre, ∃ e, t.encodeSequenceWith lim typeId ty (.raw v) = .ok e) →
        (((pre ++ w :: post).zipIdx k).mapM fun x => t.encodeText lim typeId ty (some x.2) x.1) = .error er := by
      intro pre
      induction pre with
      | nil =>
        intro k _
        rw [List.nil_append, List.zipIdx_cons, List.mapM_cons, (encodeText_word t lim typeId hty k w).2 er hw]; rfl
      | cons v pre ih =>
        intro k hv
        obtain ⟨e, he⟩ := hv v List.mem_cons_self
        obtain ⟨e', he', _⟩ := (encodeText_word t lim typeId hty k v).1 e he
        rw [List.cons_append, List.zipIdx_cons, List.mapM_cons, he',
          ih (k + 1) fun x hx => hv x (List.mem_cons_of_mem _ hx)]; rfl
    show Except.map _ (((pre ++ w :: post).zipIdx).mapM _) = _
    rw [key pre 0 hpre]; rfl

/-- **C55.** The same with the limit that the truncation settings give, as `encode` does it. -/
theorem C55_sequence (t : Tokenizer) (typeId : Nat) {ty : PTS.OffsetType} (hty : ty ≠ .none) (l : List Str)
    {es : List Encoding} (h : Each (fun w e => t.encodeSequence typeId ty (.raw w) = .ok e) l es) :
    ∃ e, t.encodeSequence typeId ty (.words l) = .ok e ∧ e.overflowing = [] ∧
      e.ids = es.flatMap (·.ids) ∧
      e.rows = es.zipIdx.flatMap fun x => x.1.rows.map (ofWord x.2) := by
  obtain ⟨e, h1, h2, h3⟩ := (C55_words t (t.limit typeId) typeId hty l).1 es h
  refine ⟨e, h1, h2, ?_, h3⟩
  have hwf : ∀ i e, t.encodeSequence typeId ty i = .ok e → e.WF := by
    intro i e he
    exact sequence_wf he
  have hr : ∀ {e : Encoding}, e.WF → e.rows.map (·.1) = e.ids := fun he => rowsIds he.parallel
  rw [← hr (hwf _ _ h1), h3]
  have hz : ∀ (l : List Str) (es : List Encoding) (k : Nat),
      Each (fun w e => t.encodeSequence typeId ty (.raw w) = .ok e) l es →
      ((es.zipIdx k).flatMap fun x => x.1.rows.map (ofWord x.2)).map (·.1) = es.flatMap (·.ids) := by
    intro l es k h
    induction h generalizing k with
    | nil => rfl
    | cons h1 _ ih =>
      rw [List.zipIdx_cons, List.flatMap_cons, List.flatMap_cons, List.map_append, ih, List.map_map]
      congr 1
      exact hr (hwf _ _ h1)
  exact hz l es 0 h

/-! Examples are in `Tokenizer/Samples.lean`. -/

end Tokenizer
end Tok
