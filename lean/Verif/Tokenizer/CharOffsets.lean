import Verif.Post.Remap
import Verif.Tokenizer.Fast
import Verif.Tokenizer.Exact

/-!
# C119: `encode_char_offsets` is `encode` with the offsets counted in characters

Python's `encode` is `encode_char_offsets`: the offsets it returns are used as indices of Python strings. Rust's `encode` counts
bytes.
-/

namespace Tok

/-- The same in everything but the offsets; those are related one by one, also in the overflowing parts. -/
inductive Encoding.SameBut (Q : Range → Range → Prop) : Encoding → Encoding → Prop
  | mk {i t k w o o' s a ov ov' sr} (ho : Each Q o o') (hl : ov.length = ov'.length)
      (hv : ∀ p ∈ ov.zip ov', SameBut Q p.1 p.2) :
      SameBut Q (.mk i t k w o s a ov sr) (.mk i t k w o' s a ov' sr)

namespace Encoding

/-- The same without overflowing parts. -/
def SameButPlain (Q : Range → Range → Prop) (e e' : Encoding) : Prop :=
  ∃ i t k w o o' s a sr, e = mk i t k w o s a [] sr ∧ e' = mk i t k w o' s a [] sr ∧ Each Q o o'

theorem each_maps {α β γ : Type} {Q : β → γ → Prop} {f : α → β} {g : α → γ} : ∀ {l : List α}, (∀ x ∈ l, Q (f x) (g x)) →
    Each Q (l.map f) (l.map g)
  | [], _ => .nil
  | x :: l, h => .cons (h x (by simp)) (each_maps fun y hy => h y (by simp [hy]))

theorem remap_beside {Q : Range → Range → Prop} {f g : Range → Range} (hQ : ∀ c, Q (f c) (g c)) (e : Encoding) :
    SameBut Q (e.remap f) (e.remap g) := by
  cases e with
  | mk i t k w o s a ov sr =>
    rw [remap_mk, remap_mk]
    refine .mk (each_maps fun c _ => hQ c) (by simp) fun p hp => ?_
    rw [List.zip_map', List.mem_map] at hp
    obtain ⟨x, hx, rfl⟩ := hp
    have := List.sizeOf_lt_of_mem hx
    exact remap_beside hQ x
termination_by sizeOf e
decreasing_by
  subst_vars
  simp only [mk.sizeOf_spec]; omega

/-- The `k`-th offsets of a list, counted from one; 0 stands for those of the inserted tokens. -/
def lookOffsets (T : List Range) (c : Range) : Range := if c.1 = 0 then (0, 0) else T.getD (c.1 - 1) (0, 0)

theorem lookOffsets_range (x y z : List Range) :
    (((List.range y.length).map fun k => (x.length + k + 1, 0)).map (lookOffsets (x ++ y ++ z))) = y := by
  rw [List.map_map]
  apply List.ext_getElem
  · simp
  · intro k h1 h2
    simp only [List.getElem_map, List.getElem_range, Function.comp, lookOffsets]
    rw [if_neg (by omega), show x.length + k + 1 - 1 = x.length + k by omega, List.append_assoc, List.getD_eq_getElem?_getD,
      List.getElem?_append_right (by omega), show x.length + k - x.length = k by omega, List.getElem?_append_left h2,
      List.getElem?_eq_getElem h2]
    rfl

theorem lookOffsets_related {Q : Range → Range → Prop} (h0 : Q (0, 0) (0, 0)) {T T' : List Range} (h : Each Q T T') (c : Range) :
    Q (lookOffsets T c) (lookOffsets T' c) := by
  unfold lookOffsets
  split
  · exact h0
  · have := h.get (c.1 - 1)
    rw [List.getD_eq_getElem?_getD, List.getD_eq_getElem?_getD]
    cases h1 : T[c.1 - 1]? <;> cases h2 : T'[c.1 - 1]? <;> rw [h1, h2] at this <;> cases this
    · exact h0
    · rename_i h; exact h

/-- Two inputs each: they come from the same encodings by replacing the offsets, in two ways. -/
theorem besidePlain_codes {Q : Range → Range → Prop} (h0 : Q (0, 0) (0, 0)) {a a' : Encoding} {b b' : Option Encoding}
    (ha : SameButPlain Q a a') (hb : Both (SameButPlain Q) b b') :
    ∃ (f g : Range → Range) (A : Encoding) (B : Option Encoding), f (0, 0) = (0, 0) ∧ g (0, 0) = (0, 0) ∧ (∀ c, Q (f c) (g c)) ∧
      a = A.remap f ∧ a' = A.remap g ∧ b = B.map (remap f) ∧ b' = B.map (remap g) := by
  obtain ⟨i, t, k, w, o, o', s, m, sr, rfl, rfl, hQ⟩ := ha
  have hl := hQ.length
  cases hb with
  | none =>
    refine ⟨lookOffsets o, lookOffsets o', mk i t k w ((List.range o.length).map fun k => (k + 1, 0)) s m [] sr, none, rfl, rfl,
      lookOffsets_related h0 hQ, ?_, ?_, rfl, rfl⟩
    · have := lookOffsets_range [] o []
      simp only [List.length_nil, Nat.zero_add, List.nil_append, List.append_nil] at this
      rw [remap_mk, this]; rfl
    · have := lookOffsets_range [] o' []
      simp only [List.length_nil, Nat.zero_add, List.nil_append, List.append_nil] at this
      rw [remap_mk, hl, this]; rfl
  | @some b b' hb =>
    obtain ⟨i', t', k', w', u, u', s', m', sr', rfl, rfl, hQ'⟩ := hb
    have hl' := hQ'.length
    refine ⟨lookOffsets (o ++ u), lookOffsets (o' ++ u'), mk i t k w ((List.range o.length).map fun k => (k + 1, 0)) s m [] sr,
      some (mk i' t' k' w' ((List.range u.length).map fun k => (o.length + k + 1, 0)) s' m' [] sr'), rfl, rfl,
      lookOffsets_related h0 (hQ.append hQ'), ?_, ?_, ?_, ?_⟩
    · have := lookOffsets_range [] o u
      simp only [List.length_nil, Nat.zero_add, List.nil_append] at this
      rw [remap_mk, this]; rfl
    · have := lookOffsets_range [] o' u'
      simp only [List.length_nil, Nat.zero_add, List.nil_append] at this
      rw [remap_mk, hl, this]; rfl
    · have := lookOffsets_range o u []
      simp only [List.append_nil] at this
      rw [Option.map_some, remap_mk, this]; rfl
    · have := lookOffsets_range o' u' []
      simp only [List.append_nil] at this
      rw [Option.map_some, remap_mk, hl, hl', this]; rfl

theorem mergeWith_plain (i t k w o s a sr i1 t1 k1 w1 u s1 a1 sr1) :
    (mk i t k w o s a [] sr).mergeWith (mk i1 t1 k1 w1 u s1 a1 [] sr1) false =
      mk (i ++ i1) (t ++ t1) (k ++ k1) (w ++ w1) (o ++ u) (s ++ s1) (a ++ a1) []
        (AMap.extend sr (sr1.map fun x => (x.1, (i.length + x.2.1, i.length + x.2.2)))) := by
  rw [mergeWith_eq]
  have : (u.map fun o : Range => (o.1 + 0, o.2 + 0)) = u := by simp
  show mk (i ++ i1) (t ++ t1) (k ++ k1) (w ++ w1) (o ++ u.map fun o : Range => (o.1 + 0, o.2 + 0)) (s ++ s1) (a ++ a1) [] _ = _
  rw [this]
  rfl

theorem SameButPlain.mergeWith {Q : Range → Range → Prop} {e e' p p' : Encoding} (h : SameButPlain Q e e') (hp : SameButPlain Q p p') :
    SameButPlain Q (e.mergeWith p false) (e'.mergeWith p' false) := by
  obtain ⟨i, t, k, w, o, o', s, a, sr, rfl, rfl, hQ⟩ := h
  obtain ⟨i1, t1, k1, w1, u, u', s1, a1, sr1, rfl, rfl, hQ'⟩ := hp
  exact ⟨_, _, _, _, o ++ u, o' ++ u', _, _, _, mergeWith_plain .., mergeWith_plain .., hQ.append hQ'⟩

theorem SameButPlain.merge {Q : Range → Range → Prop} {es es' : List Encoding} (h : Each (SameButPlain Q) es es') :
    SameButPlain Q (merge es false) (merge es' false) := by
  have : ∀ {es es' : List Encoding}, Each (SameButPlain Q) es es' → ∀ {acc acc' : Encoding}, SameButPlain Q acc acc' →
      SameButPlain Q (es.foldl (fun acc s => acc.mergeWith s false) acc) (es'.foldl (fun acc s => acc.mergeWith s false) acc') := by
    intro es es' h
    induction h with
    | nil => intro acc acc' h; exact h
    | cons h _ ih => intro acc acc' ha; exact ih (ha.mergeWith h)
  exact this h ⟨[], [], [], [], [], [], [], [], [], rfl, rfl, .nil⟩

theorem SameBut.len {Q : Range → Range → Prop} {e e' : Encoding} (h : SameBut Q e e') : e.len = e'.len := by
  cases h; rfl

theorem SameBut.pad {Q : Range → Range → Prop} (h0 : Q (0, 0) (0, 0)) (target : Nat) (pt : PadTok) (dir : Direction)
    {e e' : Encoding} (h : SameBut Q e e') : SameBut Q (e.pad target pt dir) (e'.pad target pt dir) := by
  induction h with
  | @mk i t k w o o' s a ov ov' sr ho hl hv ih =>
    have hrep : ∀ n, Each Q (List.replicate n (0, 0)) (List.replicate n (0, 0)) := by
      intro n
      induction n with
      | zero => exact .nil
      | succ n ih => exact .cons h0 ih
    have hov : ∀ p ∈ (ov.map fun o => Encoding.pad o target pt dir).zip (ov'.map fun o => Encoding.pad o target pt dir),
        SameBut Q p.1 p.2 := by
      intro p hp
      rw [List.zip_map, List.mem_map] at hp
      obtain ⟨x, hx, rfl⟩ := hp
      exact ih x hx
    rw [pad_eq, pad_eq]
    by_cases hc : (Encoding.mk i t k w o s a ov sr).len ≥ target
    · rw [if_pos hc, if_pos (show (Encoding.mk i t k w o' s a ov' sr).len ≥ target from hc)]
      exact .mk ho (by simpa using hl) hov
    · rw [if_neg hc, if_neg (show ¬ (Encoding.mk i t k w o' s a ov' sr).len ≥ target from hc)]
      cases dir with
      | left => exact .mk ((hrep _).append ho) (by simpa using hl) hov
      | right => exact .mk (ho.append (hrep _)) (by simpa using hl) hov

theorem SameButPlain.mono {Q R : Range → Range → Prop} {e e' : Encoding} (h : SameButPlain Q e e') (hs : ∀ o o', Q o o' → R o o') :
    SameButPlain R e e' := by
  obtain ⟨i, t, k, w, o, o', s, a, sr, h1, h2, h3⟩ := h
  exact ⟨i, t, k, w, o, o', s, a, sr, h1, h2, h3.imp hs⟩

end Encoding

open Encoding

namespace Tokenizer
open Post PTS

/-- The same part of a text, in bytes and in characters. -/
def SamePart (s : Str) (o o' : Range) : Prop :=
  ∃ p m q, s = p ++ m ++ q ∧ m ≠ [] ∧ o = (blen p, blen p + blen m) ∧ o' = (p.length, p.length + m.length)

theorem charItems (orig : Str) (word : Option Nat) (typeId : Nat) : ∀ (ss : List Split) (i : Nat),
    encodingItems orig word typeId .char i ss = (encodingItems orig word typeId .byte i ss).map fun x =>
      (x.1, x.2.1, (convert orig x.2.2.1).getD x.2.2.1, x.2.2.2)
  | [], _ => rfl
  | s :: ss, i => by
    rw [encodingItems, encodingItems, charItems orig word typeId ss (i + 1), List.map_append, List.map_map]
    rfl

theorem encodeText_beside {t : Tokenizer} {u : Unicode} {z : Normalizer} {v : CharTables} {y : PreTokenizer}
    (h : IsLibrary t u z v y) (hm : ∀ w ts, w ≠ [] → t.model w = .ok ts → InWord w ts) (lim : Option (Nat × Direction))
    (typeId : Nat) (word : Option Nat) (s : Str) :
    Agree (SameButPlain (SamePart s)) (t.encodeText lim typeId .byte word s) (t.encodeText lim typeId .char word s) := by
  have hbyte := @C59_offsets t u z v y h hm lim typeId .byte (by simp) word s
  have hbyte' : ∀ e, t.encodeText lim typeId .byte word s = .ok e → e.WF → ∀ o ∈ e.offsets, Delimits s .byte o := by
    intro e he hw o ho
    rw [offsets_eq_rows hw.parallel] at ho
    obtain ⟨r, hr, rfl⟩ := List.mem_map.1 ho
    exact (hbyte he).1 r hr
  have steps : ∀ ty, t.encodeText lim typeId ty word s = (t.preTokenized s).bind fun p => (t.tokenizeIn p lim).bind fun q =>
      mapErr (fun _ => EncErr.notTokenized) (q.intoEncoding word typeId ty) := fun _ => rfl
  cases hp : t.preTokenized s with
  | error er => rw [steps, steps, hp]; exact .error er
  | ok p =>
    cases hq : t.tokenizeIn p lim with
    | error er =>
      rw [steps, steps, hp]
      show Agree _ ((t.tokenizeIn p lim).bind _) ((t.tokenizeIn p lim).bind _)
      rw [hq]; exact .error er
    | ok q =>
      have hs : ∀ ty, t.encodeText lim typeId ty word s = mapErr (fun _ => EncErr.notTokenized) (q.intoEncoding word typeId ty) := by
        intro ty
        rw [steps, hp]
        show (t.tokenizeIn p lim).bind _ = _
        rw [hq]; rfl
      obtain ⟨p1, p2, p3⟩ := preTokenized_lined h hp
      have out := tokenizeIn_out hm (fun x hx => ⟨p3 x hx, fun ts hts => (p1.tokens x hx ts hts).2⟩) hq
      have horig : q.original = s := out.1.trans p2
      rw [hs] at hbyte'
      rw [hs, hs]
      by_cases he : q.splits = []
      · simp only [intoEncoding, he, if_true]
        exact .ok ⟨[], [], [], [], [], [], [], [], [], rfl, rfl, .nil⟩
      · by_cases ha : q.splits.all (·.tokens.isSome)
        · unfold intoEncoding at hbyte' ⊢
          rw [if_neg he, if_neg (not_not_intro ha)] at hbyte' ⊢
          rw [if_neg he, if_neg (not_not_intro ha)]
          have hd := hbyte' _ rfl (C01_reachable_wf (.items _))
          simp only at hd ⊢
          refine .ok ?_
          rw [horig] at hd ⊢
          rw [charItems]
          generalize encodingItems s word typeId .byte 0 q.splits = xs at hd
          unfold fromItems at hd ⊢
          simp only [offsets_mk] at hd
          refine ⟨_, _, _, _, _, _, _, _, _, rfl, ?_, each_maps (f := (·.2.2.1)) (g := fun x => (convert s x.2.2.1).getD x.2.2.1) (l := xs) ?_⟩
          · simp [Function.comp_def]
          · intro x hx
            obtain ⟨p, m, r, h1, h2, h3⟩ := hd x.2.2.1 (List.mem_map.2 ⟨x, hx, rfl⟩)
            simp only [reduceCtorEq, if_false] at h3
            refine ⟨p, m, r, h1, h2, h3, ?_⟩
            rw [h3, h1, C14_convert p m r (.inl h2)]
            rfl
        · unfold intoEncoding
          rw [if_neg he, if_pos ha, if_neg he, if_pos ha]
          exact .error _

theorem encodeSequence_beside {t : Tokenizer} {u : Unicode} {z : Normalizer} {v : CharTables} {y : PreTokenizer}
    (h : IsLibrary t u z v y) (hm : ∀ w ts, w ≠ [] → t.model w = .ok ts → InWord w ts) (typeId : Nat) (i : Input) :
    Agree (SameButPlain fun o o' => ∃ s ∈ i.texts, SamePart s o o') (t.encodeSequence typeId .byte i)
      (t.encodeSequence typeId .char i) := by
  unfold encodeSequence encodeSequenceWith
  cases i with
  | raw s =>
    dsimp only
    have := encodeText_beside h hm (t.limit typeId) typeId none s
    revert this
    generalize t.encodeText (t.limit typeId) typeId .byte none s = x
    generalize t.encodeText (t.limit typeId) typeId .char none s = y
    intro this
    cases this with
    | ok h => exact .ok (h.mono fun o o' ho => ⟨s, by simp [Input.texts], ho⟩)
    | error e => exact .error e
  | words l =>
    refine (agree_mapM (S := SameButPlain fun o o' => ∃ s ∈ l, SamePart s o o') fun x hx => ?_).map fun es es' h => SameButPlain.merge h
    have hmem : x.1 ∈ l := by
      obtain ⟨y1, y2⟩ := List.mem_zipIdx' hx
      rw [y2]; exact List.getElem_mem _
    have := encodeText_beside h hm (t.limit typeId) typeId (some x.2) x.1
    revert this
    generalize t.encodeText (t.limit typeId) typeId .byte (some x.2) x.1 = a
    generalize t.encodeText (t.limit typeId) typeId .char (some x.2) x.1 = b
    intro this
    cases this with
    | ok h => exact .ok (h.mono fun o o' ho => ⟨x.1, hmem, ho⟩)
    | error e => exact .error e

/-- Offsets of an inserted token, or the same part of one of the texts in bytes and in characters. -/
def SameOffsets (texts : List Str) (o o' : Range) : Prop := o = (0, 0) ∧ o' = (0, 0) ∨ ∃ s ∈ texts, SamePart s o o'

theorem encodeAs_same {t : Tokenizer} {u : Unicode} {z : Normalizer} {v : CharTables} {y : PreTokenizer}
    (h : IsLibrary t u z v y) (hm : ∀ w ts, w ≠ [] → t.model w = .ok ts → InWord w ts)
    (hk : ∀ p ∈ t.settings.processor, NoTrim p) (input : Input × Option Input) (add : Bool) :
    Agree (SameBut (SameOffsets (inputTexts input))) (t.encodeAs .byte input add) (t.encodeAs .char input add) := by
  unfold encodeAs encodeBy
  refine (encodeSequence_beside h hm 0 input.1).bind fun a a' ha => ?_
  have ho : Agree (Both (SameButPlain fun o o' => ∃ s ∈ inputTexts input, SamePart s o o'))
      (optional (fun i => t.encodeSequence 1 .byte i) input.2) (optional (fun i => t.encodeSequence 1 .char i) input.2) := by
    cases hi : input.2 with
    | none => exact .ok .none
    | some i =>
      exact (encodeSequence_beside h hm 1 i).map fun _ _ h =>
        .some (h.mono fun o o' ⟨s, hs, hp⟩ => ⟨s, by unfold inputTexts; rw [hi]; exact List.mem_append_right _ hs, hp⟩)
  refine ho.bind fun b b' hb => agree_mapErr _ ?_
  have ha' : SameButPlain (SameOffsets (inputTexts input)) a a' :=
    ha.mono fun o o' ⟨s, hs, hp⟩ => .inr ⟨s, List.mem_append_left _ hs, hp⟩
  have hb' : Both (SameButPlain (SameOffsets (inputTexts input))) b b' := by
    cases hb with
    | none => exact .none
    | some hb => exact .some (hb.mono fun o o' h => .inr h)
  obtain ⟨f, g, A, B, f0, g0, hQ, rfl, rfl, rfl, rfl⟩ := besidePlain_codes (.inl ⟨rfl, rfl⟩) ha' hb'
  rw [remap_postProcess f0 t.ws t.checked hk, remap_postProcess g0 t.ws t.checked hk]
  cases t.settings.postProcess t.ws t.checked A B add with
  | error er => exact .error er
  | ok e => exact .ok (remap_beside hQ e)

/-- **C119.** `encode_char_offsets` fails exactly as `encode` does, and otherwise returns the same encoding except for the offsets;
those at the same place, also in the overflowing parts, are both `(0, 0)` or select the same part of the same text, one of the texts
of the input: the former by the numbers of characters, the latter by the numbers of bytes before its start and its end. -/
theorem C119_char {t : Tokenizer} {u : Unicode} {z : Normalizer} {v : CharTables} {y : PreTokenizer}
    (h : IsLibrary t u z v y) (hm : ∀ w ts, w ≠ [] → t.model w = .ok ts → InWord w ts)
    (hk : ∀ p ∈ t.settings.processor, NoTrim p) (input : Input × Option Input) (add : Bool) :
    (∀ er, t.encodeAs .byte input add = .error er ↔ t.encodeAs .char input add = .error er) ∧
    ∀ e, t.encodeAs .byte input add = .ok e →
      ∃ e', t.encodeAs .char input add = .ok e' ∧ SameBut (SameOffsets (inputTexts input)) e e' := by
  have key := encodeAs_same h hm hk input add
  revert key
  generalize t.encodeAs .byte input add = x
  generalize t.encodeAs .char input add = y
  intro key
  cases key with
  | error e => exact ⟨fun er => Iff.rfl, fun e h => by cases h⟩
  | ok h =>
    refine ⟨fun er => ⟨fun h => (by cases h), fun h => (by cases h)⟩, fun e he => ?_⟩
    cases he
    exact ⟨_, rfl, h⟩

theorem padEncodings_same {α : Type} {Q : α → Range → Range → Prop} (h0 : ∀ x, Q x (0, 0) (0, 0)) (p : PadParams) {xs : List α}
    {es es' : List Encoding} (hl : xs.length = es.length) (hl' : xs.length = es'.length)
    (h : ∀ (k : Nat) (x : α), xs[k]? = some x → ∃ e e', es[k]? = some e ∧ es'[k]? = some e' ∧ SameBut (Q x) e e') :
    (padEncodings es p).length = xs.length ∧ (padEncodings es' p).length = xs.length ∧
    ∀ (k : Nat) (x : α), xs[k]? = some x → ∃ e e', (padEncodings es p)[k]? = some e ∧ (padEncodings es' p)[k]? = some e' ∧
      SameBut (Q x) e e' := by
  have hlen : es.map Encoding.len = es'.map Encoding.len := by
    apply List.ext_getElem
    · simp only [List.length_map]; omega
    · intro k h1 h2
      have h1 : k < es.length := by simpa using h1
      obtain ⟨e, e', g1, g2, g3⟩ := h k xs[k] (List.getElem?_eq_getElem (by omega))
      rw [List.getElem?_eq_getElem h1] at g1
      rw [List.getElem?_eq_getElem (by omega)] at g2
      cases g1; cases g2
      simpa using g3.len
  have ht : padTarget es p = padTarget es' p := by unfold padTarget; rw [hlen]
  have he : es'.isEmpty = es.isEmpty := by
    cases es <;> cases es' <;> simp_all
  unfold padEncodings
  rw [he, ← ht]
  split
  · exact ⟨hl.symm, hl'.symm, h⟩
  · refine ⟨by simp [hl], by simp [hl'], fun k x hx => ?_⟩
    obtain ⟨e, e', g1, g2, g3⟩ := h k x hx
    refine ⟨_, _, by rw [List.getElem?_map, g1]; rfl, by rw [List.getElem?_map, g2]; rfl, g3.pad (h0 x) _ _ _⟩

/-- **C119, for batches.** With the same schedule `encode_batch_char_offsets` fails as `encode_batch` does; otherwise the encodings of
each input are related in the same way, after padding too. -/
theorem C119_batch {t : Tokenizer} {u : Unicode} {z : Normalizer} {v : CharTables} {y : PreTokenizer}
    (h : IsLibrary t u z v y) (hm : ∀ w ts, w ≠ [] → t.model w = .ok ts → InWord w ts)
    (hk : ∀ p ∈ t.settings.processor, NoTrim p) {order : List Nat} (inputs : List (Input × Option Input)) (add : Bool)
    (ho : order.Perm (List.range inputs.length)) :
    (∀ er, t.encodeBatch order .byte inputs add = .error er ↔ t.encodeBatch order .char inputs add = .error er) ∧
    ∀ es, t.encodeBatch order .byte inputs add = .ok es → ∃ es', t.encodeBatch order .char inputs add = .ok es' ∧
      es.length = inputs.length ∧ es'.length = inputs.length ∧
      ∀ (k : Nat) x, inputs[k]? = some x → ∃ e e', es[k]? = some e ∧ es'[k]? = some e' ∧ SameBut (SameOffsets (inputTexts x)) e e' := by
  have hs := fun x => encodeAs_same h hm hk x add
  have hstep : parStep (fun i => t.encodeAs .byte i add) inputs = parStep (fun i => t.encodeAs .char i add) inputs := by
    funext saved i
    unfold parStep
    cases saved with
    | some e => rfl
    | none =>
      cases inputs[i]? with
      | none => rfl
      | some x =>
        have := hs x
        dsimp only
        revert this
        generalize t.encodeAs .byte x add = a
        generalize t.encodeAs .char x add = b
        intro this
        cases this <;> rfl
  have s1 := (parCollect_spec ho (fun i => t.encodeAs .byte i add)).1
  have s2 := (parCollect_spec ho (fun i => t.encodeAs .char i add)).1
  unfold encodeBatch
  cases hf : order.foldl (parStep (fun i => t.encodeAs .byte i add) inputs) none with
  | some er =>
    have e1 : parCollect order (fun i => t.encodeAs .byte i add) inputs = .error er := by unfold parCollect; rw [hf]
    have e2 : parCollect order (fun i => t.encodeAs .char i add) inputs = .error er := by unfold parCollect; rw [← hstep, hf]
    rw [e1, e2]
    exact ⟨fun _ => Iff.rfl, fun es h => by cases h⟩
  | none =>
    have e1 : ∃ es, parCollect order (fun i => t.encodeAs .byte i add) inputs = .ok es := ⟨_, by unfold parCollect; rw [hf]⟩
    have e2 : ∃ es, parCollect order (fun i => t.encodeAs .char i add) inputs = .ok es :=
      ⟨_, by unfold parCollect; rw [← hstep, hf]⟩
    obtain ⟨es, e1⟩ := e1
    obtain ⟨es', e2⟩ := e2
    have p1 := (s1 es).1 e1
    have p2 := (s2 es').1 e2
    rw [e1, e2]
    have hall : ∀ (k : Nat) x, inputs[k]? = some x →
        ∃ e e', es[k]? = some e ∧ es'[k]? = some e' ∧ SameBut (SameOffsets (inputTexts x)) e e' := by
      intro k x hx
      have q1 := p1.get k
      have q2 := p2.get k
      rw [hx] at q1 q2
      have hsx := hs x
      cases h1 : es[k]? with
      | none => rw [h1] at q1; cases q1
      | some e =>
        cases h2 : es'[k]? with
        | none => rw [h2] at q2; cases q2
        | some e' =>
          rw [h1] at q1
          rw [h2] at q2
          cases q1 with
          | some q1 =>
            cases q2 with
            | some q2 =>
              rw [q1, q2] at hsx
              cases hsx with
              | ok g => exact ⟨e, e', rfl, rfl, g⟩
    refine ⟨fun er => ⟨fun h => (by cases h), fun h => (by cases h)⟩, fun out hout => ?_⟩
    cases hp : t.settings.padding with
    | none =>
      rw [hp] at hout
      cases hout
      exact ⟨es', rfl, p1.length.symm, p2.length.symm, hall⟩
    | some p =>
      rw [hp] at hout
      cases hout
      obtain ⟨l1, l2, l3⟩ := padEncodings_same (Q := fun x => SameOffsets (inputTexts x)) (fun _ => .inl ⟨rfl, rfl⟩) p
        p1.length p2.length hall
      exact ⟨_, rfl, l1, l2, l3⟩

/-- Each word a token, spaces in front included, and a post-processor that trims offsets. -/
def wideSpace : Tokenizer :=
  { cutPipeline with
    preTok := fun p => mapErr (fun _ => .preTok 0) ((PreTokenizer.sequence []).apply asciiTables p)
    model := fun w => .ok [⟨7, w, (0, blen w)⟩]
    ws := fun c => c = ' ' || c = Char.ofNat 0x3000
    settings := ⟨none, none, some (.byteLevel false true)⟩ }

/-- **C119 does not hold with a post-processor that trims offsets.** `process_offsets` counts white space in characters, and takes
that off offsets in bytes: with `encode`, the offsets of a token that begins with an ideographic space start inside that
character. -/
theorem C119_trim : ∃ (t : Tokenizer) (s : Str) (e : Encoding), t.encodeAs .byte (.raw s, none) true = .ok e ∧
    e.offsets = [(1, 4)] ∧ (∀ o ∈ e.offsets, ¬ ∃ p q, s = p ++ q ∧ o.1 = blen p) ∧
    (t.encodeAs .char (.raw s, none) true).toOption.map (·.offsets) = some [(1, 2)] := by
  have h : (wideSpace.encodeAs .byte (.raw [Char.ofNat 0x3000, 'a'], none) true).toOption.map (·.offsets) = some [(1, 4)] := by
    decide +kernel
  cases he : wideSpace.encodeAs .byte (.raw [Char.ofNat 0x3000, 'a'], none) true with
  | error er => rw [he] at h; cases h
  | ok e =>
    rw [he] at h
    have h : e.offsets = [(1, 4)] := by simpa [Except.toOption] using h
    refine ⟨wideSpace, _, e, he, h, ?_, by decide +kernel⟩
    rw [h]
    intro o ho
    rw [List.mem_singleton] at ho
    subst ho
    rintro ⟨p, q, h1, h2⟩
    cases p with
    | nil => cases h2
    | cons c p =>
      injection h1 with h1 _
      subst h1
      have : blen (Char.ofNat 0x3000 :: p) = 3 + blen p := rfl
      rw [this] at h2
      have h2 : (1 : Nat) = 3 + blen p := h2
      omega

/-! ## Concrete cases -/

example (inputs : List (Input × Option Input)) (es : List Encoding)
    (h : cutPipeline.encodeBatch (List.range inputs.length) .byte inputs true = .ok es) :
    ∃ es', cutPipeline.encodeBatch (List.range inputs.length) .char inputs true = .ok es' ∧ es'.length = es.length := by
  obtain ⟨es', h1, h2, h3, _⟩ := (C119_batch cutPipeline_ok (fun _ _ => piece_inWord) (fun p hp => by cases hp; exact .bert _)
    inputs true (List.Perm.refl _)).2 es h
  exact ⟨es', h1, by omega⟩

example (input : Input × Option Input) (e : Encoding) (h : cutPipeline.encodeAs .byte input true = .ok e) :
    ∃ e', cutPipeline.encodeAs .char input true = .ok e' ∧ SameBut (SameOffsets (inputTexts input)) e e' :=
  (C119_char cutPipeline_ok (fun _ _ => piece_inWord) (fun p hp => by cases hp; exact .bert _) input true).2 e h

example : (cutPipeline.encodeAs .byte (.raw "é hugs".toList, none) true).toOption.map
      (fun e => [(e.ids, e.offsets)] ++ e.overflowing.map fun o => (o.ids, o.offsets)) =
    some [([1, 0, 3, 2, 0, 0], [(0, 0), (0, 2), (3, 6), (0, 0), (0, 0), (0, 0)]),
      ([1, 4, 2, 0, 0, 0], [(0, 0), (6, 7), (0, 0), (0, 0), (0, 0), (0, 0)])] := by
  decide +kernel

example : (cutPipeline.encodeAs .char (.raw "é hugs".toList, none) true).toOption.map
      (fun e => [(e.ids, e.offsets)] ++ e.overflowing.map fun o => (o.ids, o.offsets)) =
    some [([1, 0, 3, 2, 0, 0], [(0, 0), (0, 1), (2, 5), (0, 0), (0, 0), (0, 0)]),
      ([1, 4, 2, 0, 0, 0], [(0, 0), (5, 6), (0, 0), (0, 0), (0, 0), (0, 0)])] := by
  decide +kernel

end Tokenizer
end Tok
