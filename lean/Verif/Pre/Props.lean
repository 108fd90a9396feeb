import Verif.Pre.Offsets
import Verif.Encoding.Props2

/-!
# Pre-tokenization (C13), early exit (C38), `encode_fast` (C48, the part in `into_encoding`)
-/

namespace Tok
namespace NS

/-- What every operation other than slicing does: the original and its place in the text stay. -/
def SameSource (n n' : NS) : Prop := n'.orig = n.orig ∧ n'.shift = n.shift

theorem SameSource.refl (n : NS) : SameSource n n := ⟨rfl, rfl⟩

theorem SameSource.trans {a b c : NS} (h1 : SameSource a b) (h2 : SameSource b c) : SameSource a c :=
  ⟨h2.1.trans h1.1, h2.2.trans h1.2⟩

theorem SameSource.within {n n' : NS} {whole : Str} (h : SameSource n n') (hw : n.Within whole) :
    n'.Within whole := by
  unfold Within offsetsOriginal at *; rw [h.1, h.2]; exact hw

theorem transformRange_source {n n' : NS} {r ds init} (h : n.transformRange r ds init = some n') :
    SameSource n n' := by
  unfold transformRange at h
  split at h
  · split at h
    · cases h
    · split at h
      · cases h; exact ⟨rfl, rfl⟩
      · cases h
  · cases h

theorem transformRangeOriginal_source {n n' : NS} {r ds init}
    (h : n.transformRangeOriginal r ds init = some n') : SameSource n n' := by
  unfold transformRangeOriginal at h
  split at h
  · cases h; exact .refl _
  · exact transformRange_source h

theorem lrstrip_source {n n' : NS} {ws l r} (h : n.lrstrip ws l r = some n') : SameSource n n' := by
  have key : ∀ x y : Nat, (if x > 0 ∨ y > 0 then n.transform (stripDest n.norm x y) x else some n) = some n' →
      SameSource n n' := by
    intro x y hx
    split at hx
    · exact transformRangeOriginal_source hx
    · cases hx; exact .refl _
  exact key _ _ h

/-- The operations that normalizers are made of, in any sequence. -/
inductive Edits : NS → NS → Prop
  | refl (n) : Edits n n
  | transform {n a b ds init} : Edits n a → a.transform ds init = some b → Edits n b
  | filter {n a b keep} : Edits n a → a.filter keep = some b → Edits n b
  | prepend {n a b s} : Edits n a → a.prepend s = some b → Edits n b
  | append {n a b s} : Edits n a → a.append s = some b → Edits n b
  | map {n a b f} : Edits n a → a.map f = some b → Edits n b
  | mapChars {n a b f} : Edits n a → a.mapChars f = some b → Edits n b
  | clear {n a b k} : Edits n a → a.clear = some (b, k) → Edits n b
  | lrstrip {n a b ws l r} : Edits n a → a.lrstrip ws l r = some b → Edits n b
  | replace {n a b ms content} : Edits n a → a.replace ms content = some b → Edits n b

theorem edits_reachable {n n' : NS} (h : Edits n n') (hn : Reachable n) : Reachable n' := by
  induction h with
  | refl => exact hn
  | transform _ h ih => exact .transform ih h
  | filter _ h ih => exact .filter ih h
  | prepend _ h ih => exact .prepend ih h
  | append _ h ih => exact .append ih h
  | map _ h ih => exact .map ih h
  | mapChars _ h ih => exact .mapChars ih h
  | clear _ h ih => exact .clear ih h
  | lrstrip _ h ih => exact .lrstrip ih h
  | replace _ h ih => exact .replace ih h

theorem edits_source {n n' : NS} (h : Edits n n') : SameSource n n' := by
  induction h with
  | refl => exact .refl _
  | transform _ h ih => exact ih.trans (transformRangeOriginal_source h)
  | filter _ h ih => exact ih.trans (transformRangeOriginal_source h)
  | prepend _ h ih =>
    refine ih.trans ?_
    unfold NS.prepend at h
    split at h
    · cases h; exact .refl _
    · exact transformRange_source h
  | append _ h ih =>
    refine ih.trans ?_
    unfold NS.append at h
    split at h <;> exact transformRange_source h
  | map _ h ih => exact ih.trans (transformRangeOriginal_source h)
  | mapChars _ h ih => exact ih.trans (transformRangeOriginal_source h)
  | clear _ h ih =>
    refine ih.trans ?_
    unfold NS.clear at h
    simp only [Option.map_eq_some_iff, Prod.mk.injEq] at h
    obtain ⟨x, hx, rfl, _⟩ := h
    exact transformRangeOriginal_source hx
  | lrstrip _ h ih =>
    exact ih.trans (lrstrip_source h)
  | replace _ h ih =>
    refine ih.trans ?_
    unfold NS.replace at h
    simp only [Option.map_eq_some_iff] at h
    obtain ⟨x, _, rfl⟩ := h
    exact ⟨rfl, rfl⟩

/-- What a pre-tokenizer makes of a piece: edits and slices; a slice that is kept is not empty. -/
inductive Derived : NS → NS → Prop
  | edits {n n'} : Edits n n' → Derived n n'
  | slice {n a m b r} : Derived n a → a.sliceNormalized r = some (some m) → m.norm ≠ [] → Edits m b →
      Derived n b

theorem derived_ok {n n' : NS} (h : Derived n n') (hn : Reachable n) :
    Reachable n' ∧ ∀ whole, n.Within whole → n'.Within whole := by
  induction h with
  | edits h => exact ⟨edits_reachable h hn, fun w hw => (edits_source h).within hw⟩
  | @slice a m b r h1 h2 hne h3 ih =>
    obtain ⟨i1, i2⟩ := ih
    refine ⟨edits_reachable h3 (.sliceNormalized i1 h2), fun w hw => (edits_source h3).within ?_⟩
    cases hm : strGet a.norm r.1 r.2 with
    | none =>
      have := C10_slice_invalid hm
      rw [show ((r.1, r.2) : Range) = r from rfl, h2] at this
      cases this
    | some x =>
      obtain ⟨n', g1, g2⟩ := C10_slice_text i1 hm
      rw [show ((r.1, r.2) : Range) = r from rfl, h2] at g1
      cases g1
      obtain ⟨_, _, _, g1, _, _, _, _, _, _, g3⟩ := C10_slice_normalized i1 hm (by rw [← g2]; exact hne)
      rw [show ((r.1, r.2) : Range) = r from rfl, h2] at g1
      cases g1
      exact g3 w (i2 w hw)

end NS

namespace PTS
variable {ε : Type}

/-- The text of a pre-tokenized string: the texts of its splits. -/
def text (p : PTS) : Str := p.splits.flatMap (·.normalized.norm)

/-! ## C13: `split`, `normalize`, `tokenize` -/

/-- The pieces that replace the split at index `i`. -/
def Replaces (f : Nat → NS → Except ε (List Split)) (i : Nat) (s : Split) (out : List Split) : Prop :=
  if s.tokens.isSome then out = [s]
  else ∃ o, f i s.normalized = .ok o ∧ out = o.filter (fun x => x.normalized.norm ≠ [])

theorem splitLoop_ok (f : Nat → NS → Except ε (List Split)) : ∀ (ss : List Split) (i : Nat) (r : List Split),
    splitLoop f i ss = .ok r ↔ ∃ outs : List (List Split), outs.length = ss.length ∧ r = outs.flatten ∧
      ∀ k s out, ss[k]? = some s → outs[k]? = some out → Replaces f (i + k) s out
  | [], i, r => by
    simp only [splitLoop, List.length_nil, List.length_eq_zero_iff, List.getElem?_nil]
    constructor
    · intro h; cases h; exact ⟨[], rfl, rfl, by simp⟩
    · rintro ⟨outs, rfl, rfl, _⟩; rfl
  | s :: ss, i, r => by
    have step : (∃ outs : List (List Split), outs.length = (s :: ss).length ∧ r = outs.flatten ∧
        ∀ k t out, (s :: ss)[k]? = some t → outs[k]? = some out → Replaces f (i + k) t out) ↔
        ∃ o r', Replaces f i s o ∧ splitLoop f (i + 1) ss = .ok r' ∧ r = o ++ r' := by
      constructor
      · rintro ⟨outs, h1, h2, h3⟩
        cases outs with
        | nil => simp at h1
        | cons o outs =>
          refine ⟨o, outs.flatten, h3 0 s o rfl rfl, (splitLoop_ok f ss (i + 1) _).2
            ⟨outs, by simpa using h1, rfl, ?_⟩, by simpa using h2⟩
          intro k t out ht ho
          have := h3 (k + 1) t out (by simpa using ht) (by simpa using ho)
          rwa [show i + (k + 1) = i + 1 + k by omega] at this
      · rintro ⟨o, r', h1, h2, h3⟩
        obtain ⟨outs, g1, g2, g3⟩ := (splitLoop_ok f ss (i + 1) r').1 h2
        refine ⟨o :: outs, by simp [g1], by rw [h3, g2]; rfl, ?_⟩
        intro k t out ht ho
        cases k with
        | zero => simp only [List.getElem?_cons_zero, Option.some.injEq] at ht ho; subst ht ho; exact h1
        | succ k =>
          have := g3 k t out (by simpa using ht) (by simpa using ho)
          rwa [show i + (k + 1) = i + 1 + k by omega]
    rw [step, splitLoop]
    by_cases hs : s.tokens.isSome
    · rw [if_pos hs]
      cases hl : splitLoop f (i + 1) ss with
      | error e => simp [Except.map]
      | ok r' =>
        simp only [Except.map, Replaces, if_pos hs]
        constructor
        · intro h; cases h; exact ⟨_, _, rfl, rfl, rfl⟩
        · rintro ⟨_, _, rfl, h, rfl⟩; cases h; rfl
    · rw [if_neg hs]
      cases hf : f i s.normalized with
      | error e =>
        simp only [Replaces, if_neg hs, hf]
        constructor
        · intro h; cases h
        · rintro ⟨_, _, ⟨_, h, _⟩, _⟩; cases h
      | ok o =>
        cases hl : splitLoop f (i + 1) ss with
        | error e =>
          constructor
          · intro h; cases h
          · rintro ⟨_, _, _, h, _⟩; cases h
        | ok r' =>
          simp only [Replaces, if_neg hs, hf]
          constructor
          · intro h; cases h; exact ⟨_, _, ⟨_, rfl, rfl⟩, rfl, rfl⟩
          · rintro ⟨_, _, ⟨_, h, rfl⟩, h', rfl⟩; cases h; cases h'; rfl

/-- **C13.** `split` replaces each split in place: a tokenized one stays as it is, another one becomes the
non-empty pieces its function returns for it. -/
theorem C13_split_in_place (p p' : PTS) (f : Nat → NS → Except ε (List Split)) :
    p.split f = .ok p' ↔ p'.original = p.original ∧ ∃ outs : List (List Split),
      outs.length = p.splits.length ∧ p'.splits = outs.flatten ∧
      ∀ (i : Nat) (s : Split) out, p.splits[i]? = some s → outs[i]? = some out →
        (s.tokens.isSome → out = [s]) ∧
        (s.tokens = none → ∃ o, f i s.normalized = .ok o ∧ out = o.filter (fun x => x.normalized.norm ≠ [])) := by
  obtain ⟨po, ps⟩ := p'
  have : p.split f = .ok ⟨po, ps⟩ ↔ po = p.original ∧ splitLoop f 0 p.splits = .ok ps := by
    unfold split
    cases splitLoop f 0 p.splits with
    | error e => simp [Except.map]
    | ok r => simp only [Except.map, Except.ok.injEq, PTS.mk.injEq]; constructor <;> (rintro ⟨rfl, rfl⟩; exact ⟨rfl, rfl⟩)
  rw [this, splitLoop_ok]
  constructor
  · rintro ⟨h0, outs, h1, h2, h3⟩
    refine ⟨h0, outs, h1, h2, fun i s out hs ho => ?_⟩
    have := h3 i s out hs ho
    rw [Nat.zero_add, Replaces] at this
    cases hx : s.tokens with
    | none => rw [hx, if_neg (by simp)] at this; exact ⟨by simp, fun _ => this⟩
    | some ts => rw [hx, if_pos (by rfl)] at this; exact ⟨fun _ => this, by simp⟩
  · rintro ⟨h0, outs, h1, h2, h3⟩
    refine ⟨h0, outs, h1, h2, fun i s out hs ho => ?_⟩
    have := h3 i s out hs ho
    rw [Nat.zero_add, Replaces]
    cases hx : s.tokens with
    | none => rw [if_neg (by simp)]; exact this.2 hx
    | some ts => rw [if_pos (by rfl)]; exact this.1 (by simp [hx])

theorem flatMap_filter_nonempty (o : List Split) :
    (o.filter (fun x => x.normalized.norm ≠ [])).flatMap (·.normalized.norm)
      = o.flatMap (·.normalized.norm) := by
  induction o with
  | nil => rfl
  | cons x o ih =>
    by_cases h : x.normalized.norm = []
    · rw [List.filter_cons_of_neg (by simp [h]), ih, List.flatMap_cons, h, List.nil_append]
    · rw [List.filter_cons_of_pos (by simp [h]), List.flatMap_cons, ih, List.flatMap_cons]

theorem splitLoop_text (f : Nat → NS → Except ε (List Split)) : ∀ (ss : List Split) (i : Nat) (r : List Split),
    (∀ k s o, ss[k]? = some s → s.tokens = none → f (i + k) s.normalized = .ok o →
      o.flatMap (·.normalized.norm) = s.normalized.norm) →
    splitLoop f i ss = .ok r → r.flatMap (·.normalized.norm) = ss.flatMap (·.normalized.norm)
  | [], _, r, _, h => by cases h; rfl
  | s :: ss, i, r, hf, h => by
    have hrec : ∀ r', splitLoop f (i + 1) ss = .ok r' →
        r'.flatMap (·.normalized.norm) = ss.flatMap (·.normalized.norm) := by
      intro r' hr
      refine splitLoop_text f ss (i + 1) r' (fun k t o ht hn ho => ?_) hr
      exact hf (k + 1) t o (by simpa using ht) hn (by rwa [show i + (k + 1) = i + 1 + k by omega])
    rw [splitLoop] at h
    by_cases hs : s.tokens.isSome
    · rw [if_pos hs] at h
      cases hl : splitLoop f (i + 1) ss with
      | error e => rw [hl] at h; cases h
      | ok r' => rw [hl] at h; cases h; rw [List.flatMap_cons, List.flatMap_cons, hrec r' hl]
    · rw [if_neg hs] at h
      have hn : s.tokens = none := by simpa using hs
      cases hfo : f i s.normalized with
      | error e => rw [hfo] at h; cases h
      | ok o =>
        cases hl : splitLoop f (i + 1) ss with
        | error e => rw [hfo, hl] at h; cases h
        | ok r' =>
          rw [hfo, hl] at h; cases h
          rw [List.flatMap_append, flatMap_filter_nonempty, hrec r' hl, List.flatMap_cons,
            hf 0 s o rfl hn hfo]

/-- **C13.** A split function that keeps the text of every piece keeps the whole text. -/
theorem C13_split_text {p p' : PTS} {f : Nat → NS → Except ε (List Split)}
    (hf : ∀ i s o, p.splits[i]? = some s → s.tokens = none → f i s.normalized = .ok o →
      o.flatMap (·.normalized.norm) = s.normalized.norm)
    (h : p.split f = .ok p') : p'.text = p.text := by
  unfold split at h
  cases hl : splitLoop f 0 p.splits with
  | error e => rw [hl] at h; cases h
  | ok r =>
    rw [hl] at h; cases h
    exact splitLoop_text f p.splits 0 r (by simpa using hf) hl

theorem mapUntokenized_ok (g : NS → Except ε Split) : ∀ (ss r : List Split), mapUntokenized g ss = .ok r ↔
    r.length = ss.length ∧ ∀ (i : Nat) s s', ss[i]? = some s → r[i]? = some s' →
      (s.tokens.isSome → s' = s) ∧ (s.tokens = none → g s.normalized = .ok s')
  | [], r => by
    simp only [mapUntokenized, List.length_nil, List.length_eq_zero_iff, List.getElem?_nil]
    constructor
    · intro h; cases h; simp
    · rintro ⟨rfl, _⟩; rfl
  | s :: ss, r => by
    have step : (r.length = (s :: ss).length ∧ ∀ (i : Nat) t t', (s :: ss)[i]? = some t → r[i]? = some t' →
        (t.tokens.isSome → t' = t) ∧ (t.tokens = none → g t.normalized = .ok t')) ↔
        ∃ x r', r = x :: r' ∧ ((s.tokens.isSome → x = s) ∧ (s.tokens = none → g s.normalized = .ok x)) ∧
          mapUntokenized g ss = .ok r' := by
      constructor
      · rintro ⟨h1, h2⟩
        cases r with
        | nil => simp at h1
        | cons x r =>
          refine ⟨x, r, rfl, h2 0 s x rfl rfl, (mapUntokenized_ok g ss r).2 ⟨by simpa using h1, ?_⟩⟩
          intro i t t' ht ht'
          exact h2 (i + 1) t t' (by simpa using ht) (by simpa using ht')
      · rintro ⟨x, r', rfl, h1, h2⟩
        obtain ⟨g1, g2⟩ := (mapUntokenized_ok g ss r').1 h2
        refine ⟨by simp [g1], ?_⟩
        intro i t t' ht ht'
        cases i with
        | zero => simp only [List.getElem?_cons_zero, Option.some.injEq] at ht ht'; subst ht ht'; exact h1
        | succ i => exact g2 i t t' (by simpa using ht) (by simpa using ht')
    rw [step, mapUntokenized]
    by_cases hs : s.tokens.isSome
    · rw [if_pos hs]
      have hn : s.tokens ≠ none := by intro h; rw [h] at hs; cases hs
      cases hl : mapUntokenized g ss with
      | error e =>
        constructor
        · intro h; cases h
        · rintro ⟨_, _, _, _, h⟩; cases h
      | ok r' =>
        constructor
        · intro h; cases h; exact ⟨_, _, rfl, ⟨fun _ => rfl, fun h => absurd h hn⟩, rfl⟩
        · rintro ⟨x, r'', rfl, ⟨h1, _⟩, h⟩; cases h; rw [h1 hs]; rfl
    · rw [if_neg hs]
      have hn : s.tokens = none := by simpa using hs
      cases hg : g s.normalized with
      | error e =>
        constructor
        · intro h; cases h
        · rintro ⟨_, _, _, ⟨_, h⟩, _⟩; cases h hn
      | ok x =>
        cases hl : mapUntokenized g ss with
        | error e =>
          constructor
          · intro h; cases h
          · rintro ⟨_, _, _, _, h⟩; cases h
        | ok r' =>
          constructor
          · intro h; cases h; exact ⟨_, _, rfl, ⟨fun h => absurd h hs, fun _ => rfl⟩, rfl⟩
          · rintro ⟨y, r'', rfl, ⟨_, h1⟩, h⟩
            cases h; cases h1 hn; rfl

/-- **C13.** `normalize` applies its function to the splits without tokens and touches nothing else. -/
theorem C13_normalize (p p' : PTS) (f : NS → Except ε NS) :
    p.normalize f = .ok p' ↔ p'.original = p.original ∧ p'.splits.length = p.splits.length ∧
      ∀ (i : Nat) (s s' : Split), p.splits[i]? = some s → p'.splits[i]? = some s' →
        (s.tokens.isSome → s' = s) ∧
        (s.tokens = none → s'.tokens = none ∧ f s.normalized = .ok s'.normalized) := by
  obtain ⟨po, ps⟩ := p'
  have h1 : p.normalize f = .ok ⟨po, ps⟩ ↔ po = p.original ∧
      mapUntokenized (fun n => (f n).map fun n' => ⟨n', none⟩) p.splits = .ok ps := by
    unfold normalize
    cases mapUntokenized (fun n => (f n).map fun n' => (⟨n', none⟩ : Split)) p.splits with
    | error e => simp [Except.map]
    | ok r => simp only [Except.map, Except.ok.injEq, PTS.mk.injEq]; constructor <;> (rintro ⟨rfl, rfl⟩; exact ⟨rfl, rfl⟩)
  rw [h1, mapUntokenized_ok]
  refine and_congr_right fun _ => and_congr_right fun _ => ?_
  refine forall_congr' fun i => forall_congr' fun s => forall_congr' fun s' => imp_congr_right fun _ =>
    imp_congr_right fun _ => and_congr_right fun _ => imp_congr_right fun _ => ?_
  obtain ⟨n', t'⟩ := s'
  cases f s.normalized with
  | error e => simp [Except.map]
  | ok x =>
    simp only [Except.map, Except.ok.injEq, Split.mk.injEq]
    constructor
    · rintro ⟨rfl, rfl⟩; exact ⟨rfl, rfl⟩
    · rintro ⟨rfl, rfl⟩; exact ⟨rfl, rfl⟩

/-- **C13.** `tokenize` gives every split without tokens the tokens of the model and changes nothing else. -/
theorem C13_tokenize (p p' : PTS) (f : NS → Except ε (List Token)) :
    p.tokenize f = .ok p' ↔ p'.original = p.original ∧ p'.splits.length = p.splits.length ∧
      ∀ (i : Nat) (s s' : Split), p.splits[i]? = some s → p'.splits[i]? = some s' →
        (s.tokens.isSome → s' = s) ∧
        (s.tokens = none → s'.normalized = s.normalized ∧ ∃ ts, s'.tokens = some ts ∧ f s.normalized = .ok ts) := by
  obtain ⟨po, ps⟩ := p'
  have h1 : p.tokenize f = .ok ⟨po, ps⟩ ↔ po = p.original ∧
      mapUntokenized (fun n => (f n).map fun ts => ⟨n, some ts⟩) p.splits = .ok ps := by
    unfold tokenize
    cases mapUntokenized (fun n => (f n).map fun ts => (⟨n, some ts⟩ : Split)) p.splits with
    | error e => simp [Except.map]
    | ok r => simp only [Except.map, Except.ok.injEq, PTS.mk.injEq]; constructor <;> (rintro ⟨rfl, rfl⟩; exact ⟨rfl, rfl⟩)
  rw [h1, mapUntokenized_ok]
  refine and_congr_right fun _ => and_congr_right fun _ => ?_
  refine forall_congr' fun i => forall_congr' fun s => forall_congr' fun s' => imp_congr_right fun _ =>
    imp_congr_right fun _ => and_congr_right fun _ => imp_congr_right fun _ => ?_
  obtain ⟨n', t'⟩ := s'
  cases f s.normalized with
  | error e => simp [Except.map]
  | ok x =>
    simp only [Except.map, Except.ok.injEq, Split.mk.injEq]
    constructor
    · rintro ⟨rfl, rfl⟩; exact ⟨rfl, _, rfl, rfl⟩
    · rintro ⟨rfl, ts, rfl, rfl⟩; exact ⟨rfl, rfl⟩

/-! ## C13: offsets -/

/-- **C13.** In the normalized referential the pieces lie one after the other: each reports exactly the bytes
it occupies in the text, from the first to the last. -/
theorem C13_get_splits_normalized (p : PTS) :
    (p.getSplits .normalized .byte).map (·.1) = p.splits.map (·.normalized.norm) ∧
    ∀ a x b, p.getSplits .normalized .byte = a ++ x :: b →
      x.2.1 = (blen (a.flatMap (·.1)), blen (a.flatMap (·.1)) + blen x.1) ∧
      strGet p.text x.2.1.1 x.2.1.2 = some x.1 := by
  have key : ∀ (ss : List Split) (off : Nat),
      (getSplitsLoop p.original .normalized .byte off ss).map (·.1) = ss.map (·.normalized.norm) ∧
      ∀ a x b, getSplitsLoop p.original .normalized .byte off ss = a ++ x :: b →
        x.2.1 = (off + blen (a.flatMap (·.1)), off + blen (a.flatMap (·.1)) + blen x.1) := by
    intro ss
    induction ss with
    | nil => intro off; refine ⟨rfl, fun a x b h => ?_⟩; simp [getSplitsLoop] at h
    | cons s ss ih =>
      intro off
      obtain ⟨ih1, ih2⟩ := ih (off + blen s.normalized.norm)
      have e : getSplitsLoop p.original .normalized .byte off (s :: ss) =
          (s.normalized.norm, (off, off + blen s.normalized.norm), s.tokens) ::
            getSplitsLoop p.original .normalized .byte (off + blen s.normalized.norm) ss := rfl
      refine ⟨by rw [e, List.map_cons, ih1, List.map_cons], fun a x b h => ?_⟩
      rw [e] at h
      cases a with
      | nil =>
        simp only [List.nil_append, List.cons.injEq] at h
        rw [← h.1]; simp
      | cons y a =>
        simp only [List.cons_append, List.cons.injEq] at h
        rw [ih2 a x b h.2, ← h.1]
        simp [Nat.add_assoc]
  obtain ⟨k1, k2⟩ := key p.splits 0
  refine ⟨k1, fun a x b h => ?_⟩
  have := k2 a x b h
  simp only [Nat.zero_add] at this
  refine ⟨this, ?_⟩
  rw [this]
  refine strGet_eq_some.2 ⟨a.flatMap (·.1), b.flatMap (·.1), ?_, rfl, rfl⟩
  have e : p.text = (p.getSplits .normalized .byte).flatMap (·.1) := by
    unfold text
    rw [List.flatMap_def, List.flatMap_def]
    exact congrArg List.flatten k1.symm
  rw [e, h]; simp

/-- Every split comes from the text: it went through normalizing and slicing only, and its offsets delimit
its source. -/
def Sound (p : PTS) : Prop := ∀ s ∈ p.splits, NS.Reachable s.normalized ∧ s.normalized.Within p.original

/-- The histories a pipeline produces: pre-tokenizers that edit and slice, normalizers, models. -/
inductive Built : PTS → Prop
  | ofStr (s : Str) : Built (ofStr s)
  | ofNS {s : Str} {n : NS} : NS.Edits (NS.ofStr s) n → Built (ofNS n)
  | split {p p' : PTS} {ε : Type} {f : Nat → NS → Except ε (List Split)} : Built p →
      (∀ i n o, f i n = .ok o → ∀ x ∈ o, x.normalized.norm ≠ [] → NS.Derived n x.normalized) →
      p.split f = .ok p' → Built p'
  | normalize {p p' : PTS} {ε : Type} {f : NS → Except ε NS} : Built p →
      (∀ n n', f n = .ok n' → NS.Edits n n') → p.normalize f = .ok p' → Built p'
  | tokenize {p p' : PTS} {ε : Type} {f : NS → Except ε (List Token)} : Built p →
      p.tokenize f = .ok p' → Built p'

theorem mem_getElem? {α} {l : List α} {x : α} (h : x ∈ l) : ∃ i : Nat, l[i]? = some x := List.mem_iff_getElem?.1 h

/-- **C13.** Through any pipeline the offsets of every split in the original text delimit its source. -/
theorem C13_original_offsets {p : PTS} (h : Built p) : p.Sound := by
  induction h with
  | ofStr s =>
    intro x hx
    simp only [PTS.ofStr, ofNS, List.mem_singleton] at hx
    subst hx
    exact ⟨.ofStr s, NS.within_ofStr s⟩
  | @ofNS s n he =>
    intro x hx
    simp only [ofNS, List.mem_singleton] at hx
    subst hx
    refine ⟨NS.edits_reachable he (.ofStr s), ?_⟩
    have h := NS.edits_source he
    have ho : n.orig = s := h.1
    show n.Within n.orig
    rw [ho]
    exact h.within (NS.within_ofStr s)
  | @split p p' ε f _ hf hs ih =>
    obtain ⟨h0, outs, h1, h2, h3⟩ := (C13_split_in_place p p' f).1 hs
    intro x hx
    rw [h2, List.mem_flatten] at hx
    obtain ⟨o, ho, hxo⟩ := hx
    obtain ⟨i, hi⟩ := mem_getElem? ho
    have hlt : i < p.splits.length := by rw [← h1]; exact (List.getElem?_eq_some_iff.1 hi).1
    have hsi := List.getElem?_eq_getElem hlt
    have := h3 i _ _ hsi hi
    have hmem := List.getElem_mem hlt
    rw [h0]
    cases ht : p.splits[i].tokens with
    | some ts =>
      rw [this.1 (by simp [ht]), List.mem_singleton] at hxo
      subst hxo
      exact ih _ hmem
    | none =>
      obtain ⟨o', g1, g2⟩ := this.2 ht
      rw [g2, List.mem_filter] at hxo
      have hd := NS.derived_ok (hf _ _ _ g1 x hxo.1 (by simpa using hxo.2)) (ih _ hmem).1
      exact ⟨hd.1, hd.2 _ (ih _ hmem).2⟩
  | @normalize p p' ε f _ hf hs ih =>
    obtain ⟨h0, h1, h2⟩ := (C13_normalize p p' f).1 hs
    intro x hx
    obtain ⟨i, hi⟩ := mem_getElem? hx
    have hlt : i < p.splits.length := by rw [← h1]; exact (List.getElem?_eq_some_iff.1 hi).1
    have := h2 i _ _ (List.getElem?_eq_getElem hlt) hi
    have hmem := List.getElem_mem hlt
    rw [h0]
    cases ht : p.splits[i].tokens with
    | some ts => rw [this.1 (by simp [ht])]; exact ih _ hmem
    | none =>
      have he := hf _ _ (this.2 ht).2
      exact ⟨NS.edits_reachable he (ih _ hmem).1, (NS.edits_source he).within (ih _ hmem).2⟩
  | @tokenize p p' ε f _ hs ih =>
    obtain ⟨h0, h1, h2⟩ := (C13_tokenize p p' f).1 hs
    intro x hx
    obtain ⟨i, hi⟩ := mem_getElem? hx
    have hlt : i < p.splits.length := by rw [← h1]; exact (List.getElem?_eq_some_iff.1 hi).1
    have := h2 i _ _ (List.getElem?_eq_getElem hlt) hi
    have hmem := List.getElem_mem hlt
    rw [h0]
    cases ht : p.splits[i].tokens with
    | some ts => rw [this.1 (by simp [ht])]; exact ih _ hmem
    | none => rw [(this.2 ht).1]; exact ih _ hmem

/-- A pre-tokenized string made from a slice of a normalized string (`pre_tokenizer.rs:303-313`) takes the text of the slice for the
original, but the split still counts from the beginning of the text it was sliced from: its offsets are not in the original. -/
theorem C13_of_slice : ∃ n, NS.Derived (NS.ofStr "ab cd".toList) n ∧ (ofNS n).original = "cd".toList ∧
    ((ofNS n).getSplits .original .byte).map (fun x => (x.1, x.2.1)) = [("cd".toList, (3, 5))] ∧ ¬ (ofNS n).Sound := by
  obtain ⟨m, h1, h2⟩ : ∃ m, (NS.ofStr "ab cd".toList).sliceNormalized (3, 5) = some (some m) ∧ m.orig = "cd".toList ∧
      m.norm = "cd".toList ∧ m.shift = 3 := by
    refine ⟨_, rfl, ?_⟩
    decide +kernel
  refine ⟨m, .slice (.edits (.refl _)) h1 (by rw [h2.2.1]; decide) (.refl _), h2.1, ?_, fun h => ?_⟩
  · show [(m.norm, m.offsetsOriginal)] = _
    unfold NS.offsetsOriginal
    rw [h2.2.1, h2.2.2, h2.1]
    decide +kernel
  · obtain ⟨a, b, h3, h4⟩ := NS.within_iff.1 (h _ (List.mem_singleton.2 rfl)).2
    have h5 := congrArg blen (show m.orig = a ++ m.orig ++ b from h3)
    rw [blen_append, blen_append] at h5
    have : blen a = 3 := h4.trans h2.2.2
    omega

/-- The offsets of a split of a sound pre-tokenized string. -/
theorem Sound.splits_original {p : PTS} (h : p.Sound) : ∀ s ∈ p.splits, ∃ a b : Str,
    p.original = a ++ s.normalized.orig ++ b ∧
    s.normalized.offsetsOriginal = (blen a, blen a + blen s.normalized.orig) ∧
    (s.normalized.orig ≠ [] → convert p.original s.normalized.offsetsOriginal
      = some (a.length, a.length + s.normalized.orig.length)) := by
  intro s hs
  obtain ⟨a, b, h1, h2⟩ := NS.within_iff.1 (h s hs).2
  have ho : s.normalized.offsetsOriginal = (blen a, blen a + blen s.normalized.orig) := by
    unfold NS.offsetsOriginal; rw [h2]
  refine ⟨a, b, h1, ho, fun hne => ?_⟩
  rw [h1, ho]
  exact C14_convert a _ b (.inl hne)

/-- **C13.** So `get_splits` in the original referential: the offsets of a split delimit the source it was
made from, in bytes, and in characters for a split with a non-empty source. -/
theorem C13_get_splits_original {p : PTS} (h : Built p) : ∀ s ∈ p.splits, ∃ a b : Str,
    p.original = a ++ s.normalized.orig ++ b ∧
    s.normalized.offsetsOriginal = (blen a, blen a + blen s.normalized.orig) ∧
    (s.normalized.orig ≠ [] → convert p.original s.normalized.offsetsOriginal
      = some (a.length, a.length + s.normalized.orig.length)) := (C13_original_offsets h).splits_original

/-- The offsets of a token in a sound pre-tokenized string. -/
theorem Sound.token_offsets {p : PTS} (h : p.Sound) {s : Split} (hs : s ∈ p.splits) {t : Token} {m : Str}
    (ht : strGet s.normalized.norm t.offsets.1 t.offsets.2 = some m) (hm : m ≠ []) :
    ∃ (a src b : Str) (f l : Range), s.normalized.al[t.offsets.1]? = some f ∧
      s.normalized.al[t.offsets.2 - 1]? = some l ∧ strGet s.normalized.orig f.1 l.2 = some src ∧
      p.original = a ++ src ++ b ∧ blen a = s.normalized.shift + f.1 ∧
      tokenOffsets p.original .byte s.normalized t = (blen a, blen a + blen src) ∧
      (src ≠ [] ∨ b ≠ [] → tokenOffsets p.original .char s.normalized t = (a.length, a.length + src.length)) := by
  obtain ⟨hr, hw⟩ := h s hs
  obtain ⟨n', f, l, g1, g2, g3, g4, g5, g6, _, g8⟩ := NS.C10_slice_normalized hr ht hm
  obtain ⟨a, b, e1, e2⟩ := NS.within_iff.1 (g8 _ hw)
  have hlt : t.offsets.1 < t.offsets.2 := by
    obtain ⟨x, y, _, hx, hy⟩ := strGet_eq_some.1 ht
    have := blen_pos hm; omega
  have hl : t.offsets.2 ≤ s.normalized.al.length := by
    rw [(NS.C08_wellFormed hr).one_per_byte]
    obtain ⟨x, y, hx, hx', hy⟩ := strGet_eq_some.1 ht
    have := congrArg blen hx
    simp only [blen_append] at this; omega
  have hc : s.normalized.convertNormalized t.offsets = some (f.1, l.2) := by
    unfold NS.convertNormalized
    rw [if_neg (by omega), if_neg (by omega), slice?_eq_some (by omega) hl]
    have hne : (s.normalized.al.take t.offsets.2).drop t.offsets.1 ≠ [] := by
      rw [← List.length_pos_iff, List.length_drop, List.length_take]; omega
    obtain ⟨y, ys, hy⟩ := List.exists_cons_of_ne_nil hne
    have e1 : y = f := by
      have : ((s.normalized.al.take t.offsets.2).drop t.offsets.1)[0]? = some y := by rw [hy]; rfl
      rw [List.getElem?_drop, List.getElem?_take_of_lt (by omega), Nat.add_zero, g3] at this
      cases this; rfl
    have e2 : (y :: ys).getLast (by simp) = l := by
      have hll : (y :: ys).length = t.offsets.2 - t.offsets.1 := by
        rw [← hy, List.length_drop, List.length_take]; omega
      have : (y :: ys)[(y :: ys).length - 1]? = some l := by
        rw [hll, ← hy, List.getElem?_drop, List.getElem?_take_of_lt (by omega), ← g4]
        congr 1; omega
      rw [← List.getLast?_eq_getElem?, List.getLast?_eq_some_getLast (by simp)] at this
      exact Option.some.inj this
    rw [hy]
    simp only [Option.bind_some, NS.expandAlignments, Option.some.injEq]
    rw [e2, e1]
  have hsh : n'.shift = s.normalized.shift + f.1 := by
    have := congrArg Prod.fst g6; simpa [NS.offsetsOriginal] using this
  have hend : s.normalized.shift + l.2 = blen a + blen n'.orig := by
    have := congrArg Prod.snd g6; simp only [NS.offsetsOriginal] at this; omega
  have hb : (match s.normalized.convertNormalized t.offsets with
      | some r => (s.normalized.offsetsOriginal.1 + r.1, s.normalized.offsetsOriginal.1 + r.2)
      | none => t.offsets) = (blen a, blen a + blen n'.orig) := by
    rw [hc]
    simp only [NS.offsetsOriginal]
    exact Prod.ext (by simp only; omega) (by simp only; omega)
  have hby : tokenOffsets p.original .byte s.normalized t = (blen a, blen a + blen n'.orig) := hb
  have hch : tokenOffsets p.original .char s.normalized t
      = (convert p.original (tokenOffsets p.original .byte s.normalized t)).getD
          (tokenOffsets p.original .byte s.normalized t) := rfl
  refine ⟨a, n'.orig, b, f, l, g3, g4, g5, e1, by omega, hby, fun hne => ?_⟩
  rw [hch, hby, e1, C14_convert a n'.orig b hne]; rfl

/-- **C13.** Token offsets. A token whose offsets select the non-empty text `m` of its split is given the
bytes of the original text from which `m` was made (from the source of the first to that of the last
byte); in characters, the numbers of characters before these positions. -/
theorem C13_token_offsets {p : PTS} (h : Built p) {s : Split} (hs : s ∈ p.splits) {t : Token} {m : Str}
    (ht : strGet s.normalized.norm t.offsets.1 t.offsets.2 = some m) (hm : m ≠ []) :
    ∃ (a src b : Str) (f l : Range), s.normalized.al[t.offsets.1]? = some f ∧
      s.normalized.al[t.offsets.2 - 1]? = some l ∧ strGet s.normalized.orig f.1 l.2 = some src ∧
      p.original = a ++ src ++ b ∧ blen a = s.normalized.shift + f.1 ∧
      tokenOffsets p.original .byte s.normalized t = (blen a, blen a + blen src) ∧
      (src ≠ [] ∨ b ≠ [] → tokenOffsets p.original .char s.normalized t = (a.length, a.length + src.length)) :=
  (C13_original_offsets h).token_offsets hs ht hm

/-- **C13.** `into_encoding`: one row per token, split by split, in order. -/
theorem C13_into_encoding {p : PTS} (hall : ∀ s ∈ p.splits, s.tokens.isSome) (word : Option Nat) (typeId : Nat)
    (ty : OffsetType) (hty : ty ≠ .none) :
    ∃ e, p.intoEncoding word typeId ty = .ok e ∧ e.overflowing = [] ∧
      e.rows = p.splits.zipIdx.flatMap fun si => (si.1.tokens.getD []).map fun t =>
        (t.id, typeId, t.value, some (word.getD si.2), tokenOffsets p.original ty si.1.normalized t, 0, 1) := by
  have hrows : ∀ items : List (Nat × Str × Range × Option Nat × Nat), (Encoding.fromItems items).rows
      = items.map fun x => (x.1, x.2.2.2.2, x.2.1, x.2.2.2.1, x.2.2.1, 0, 1) := by
    intro items
    induction items with
    | nil => rfl
    | cons x xs ih =>
      unfold Encoding.fromItems Encoding.rows at *
      simp only [Encoding.ids, Encoding.typeIds, Encoding.tokens, Encoding.words, Encoding.offsets,
        Encoding.specialMask, Encoding.attnMask, List.map_cons, List.zip_cons_cons] at *
      rw [ih]
  have hitems : ∀ (ss : List Split) (i : Nat), (encodingItems p.original word typeId ty i ss).map
      (fun x => ((x.1, x.2.2.2.2, x.2.1, x.2.2.2.1, x.2.2.1, 0, 1) : Encoding.Row))
      = (ss.zipIdx i).flatMap fun si => (si.1.tokens.getD []).map fun t =>
        (t.id, typeId, t.value, some (word.getD si.2), tokenOffsets p.original ty si.1.normalized t, 0, 1) := by
    intro ss
    induction ss with
    | nil => intro i; rfl
    | cons s ss ih =>
      intro i
      rw [encodingItems, List.map_append, ih, List.zipIdx_cons, List.flatMap_cons, List.map_map]
      rfl
  unfold intoEncoding
  by_cases he : p.splits = []
  · rw [if_pos he, he]; exact ⟨_, rfl, rfl, rfl⟩
  · rw [if_neg he, if_neg (by simp only [Decidable.not_not, List.all_eq_true]; exact hall)]
    cases ty with
    | none => exact absurd rfl hty
    | byte => exact ⟨_, rfl, rfl, by rw [hrows, hitems]⟩
    | char => exact ⟨_, rfl, rfl, by rw [hrows, hitems]⟩

/-- A split without tokens is the only reason for `into_encoding` to fail. -/
theorem C13_into_encoding_error (p : PTS) (word : Option Nat) (typeId : Nat) (ty : OffsetType) :
    p.intoEncoding word typeId ty = .error () ↔ ∃ s ∈ p.splits, s.tokens = none := by
  unfold intoEncoding
  by_cases he : p.splits = []
  · rw [if_pos he, he]; simp
  · rw [if_neg he]
    by_cases ha : p.splits.all (·.tokens.isSome)
    · rw [if_neg (by simp [ha])]
      have : ¬ ∃ s ∈ p.splits, s.tokens = none := by
        rintro ⟨s, hs, hn⟩
        have := List.all_eq_true.1 ha s hs
        rw [hn] at this; cases this
      cases ty <;> simp [this]
    · rw [if_pos ha]
      simp only [true_iff]
      simp only [List.all_eq_true, Option.isSome_iff_ne_none, ne_eq] at ha
      simpa using ha

/-- **C48** (the part in `into_encoding`). Without offsets the ids and the masks are the same. -/
theorem C48_fast_ids (p : PTS) (word : Option Nat) (typeId : Nat) (ty : OffsetType) :
    (∀ e, p.intoEncoding word typeId ty = .ok e → ∃ e', p.intoEncoding word typeId .none = .ok e' ∧
      e'.ids = e.ids ∧ e'.specialMask = e.specialMask ∧ e'.attnMask = e.attnMask) ∧
    (p.intoEncoding word typeId ty = .error () ↔ p.intoEncoding word typeId .none = .error ()) := by
  have hids : ∀ (ss : List Split) (i : Nat) (ty : OffsetType), (encodingItems p.original word typeId ty i ss).map (·.1)
      = ss.flatMap fun s => (s.tokens.getD []).map (·.id) := by
    intro ss
    induction ss with
    | nil => intro i ty; rfl
    | cons s ss ih =>
      intro i ty
      rw [encodingItems, List.map_append, ih, List.flatMap_cons, List.map_map]; rfl
  have hnone : ((p.splits.flatMap fun s => (s.tokens.getD []).map fun t =>
      ((t.id, [], (0, 0), none, 0) : Nat × Str × Range × Option Nat × Nat)).map (·.1))
      = p.splits.flatMap fun s => (s.tokens.getD []).map (·.id) := by
    rw [List.map_flatMap]
    congr 1
    funext s
    rw [List.map_map]; rfl
  refine ⟨fun e h => ?_, by rw [C13_into_encoding_error, C13_into_encoding_error]⟩
  unfold intoEncoding at *
  by_cases he : p.splits = []
  · rw [if_pos he] at *; cases h; exact ⟨_, rfl, rfl, rfl, rfl⟩
  · rw [if_neg he] at *
    by_cases ha : ¬ p.splits.all (·.tokens.isSome)
    · rw [if_pos ha] at h; cases h
    · rw [if_neg ha] at *
      have mk : ∀ items : List (Nat × Str × Range × Option Nat × Nat),
          items.map (·.1) = (p.splits.flatMap fun s => (s.tokens.getD []).map (·.id)) →
          ∀ items' : List (Nat × Str × Range × Option Nat × Nat),
          items'.map (·.1) = (p.splits.flatMap fun s => (s.tokens.getD []).map (·.id)) →
          (Encoding.fromItems items').ids = (Encoding.fromItems items).ids ∧
          (Encoding.fromItems items').specialMask = (Encoding.fromItems items).specialMask ∧
          (Encoding.fromItems items').attnMask = (Encoding.fromItems items).attnMask := by
        intro xs hx ys hy
        have hl : xs.length = ys.length := by
          have := congrArg List.length (hx.trans hy.symm); simpa using this
        refine ⟨by show ys.map (·.1) = xs.map (·.1); rw [hx, hy], ?_, ?_⟩
        · show ys.map (fun _ => 0) = xs.map (fun _ => 0)
          rw [List.map_const', List.map_const', hl]
        · show ys.map (fun _ => 1) = xs.map (fun _ => 1)
          rw [List.map_const', List.map_const', hl]
      cases ty with
      | none => cases h; exact ⟨_, rfl, rfl, rfl, rfl⟩
      | byte => cases h; exact ⟨_, rfl, mk _ (hids _ _ _) _ hnone⟩
      | char => cases h; exact ⟨_, rfl, mk _ (hids _ _ _) _ hnone⟩

end PTS
end Tok
