import Verif.Tokenizer.Cong

/-!
# C48: `encode_fast`
-/

namespace Tok
open Encoding

theorem Each.mapMem {α β γ δ : Type} {R : α → β → Prop} {S : γ → δ → Prop} {f : α → γ} {g : β → δ} {as bs}
    (h : Each R as bs) (hs : ∀ a b, a ∈ as → R a b → S (f a) (g b)) : Each S (as.map f) (bs.map g) := by
  induction h with
  | nil => exact .nil
  | cons h _ ih =>
    exact .cons (hs _ _ List.mem_cons_self h) (ih fun a b ha => hs a b (List.mem_cons_of_mem _ ha))

theorem Each.flatMapMem {α β γ δ : Type} {R : α → β → Prop} {S : γ → δ → Prop} {f : α → List γ} {g : β → List δ}
    {as bs} (h : Each R as bs) (hs : ∀ a b, a ∈ as → R a b → Each S (f a) (g b)) :
    Each S (as.flatMap f) (bs.flatMap g) := by
  induction h with
  | nil => exact .nil
  | cons h _ ih =>
    rw [List.flatMap_cons, List.flatMap_cons]
    exact (hs _ _ List.mem_cons_self h).append (ih fun a b ha => hs a b (List.mem_cons_of_mem _ ha))

theorem each_map_eq {α β γ : Type} {f : α → γ} {g : β → γ} : ∀ {as : List α} {bs : List β},
    as.map f = bs.map g ↔ Each (fun a b => f a = g b) as bs
  | [], [] => ⟨fun _ => .nil, fun _ => rfl⟩
  | [], _ :: _ => ⟨fun h => (by cases h), fun h => (by cases h)⟩
  | _ :: _, [] => ⟨fun h => (by cases h), fun h => (by cases h)⟩
  | a :: as, b :: bs => by
    rw [List.map_cons, List.map_cons, List.cons.injEq, each_map_eq (as := as) (bs := bs)]
    exact ⟨fun ⟨h1, h2⟩ => .cons h1 h2, fun h => by cases h with | cons h1 h2 => exact ⟨h1, h2⟩⟩

/-! ## Encodings with the same ids -/

/-- What is compared: ids, masks and sequence ranges, also those of the overflowing parts. -/
inductive Core
  | mk (ids specialMask attnMask : List Nat) (seqRanges : AMap Nat Range) (overflowing : List Core)

/-- The compared part of an encoding. -/
def Encoding.core (e : Encoding) : Core :=
  .mk e.ids e.specialMask e.attnMask e.seqRanges (e.overflowing.attach.map fun o => core o.1)
termination_by sizeOf e
decreasing_by exact sizeOf_mem_overflowing o.2

/-- The same ids, special-tokens masks, attention masks and sequence ranges, and so for the overflowing parts. -/
def SameIds (e e' : Encoding) : Prop := e.core = e'.core

theorem core_eq (e : Encoding) : e.core = .mk e.ids e.specialMask e.attnMask e.seqRanges (e.overflowing.map core) := by
  rw [core]
  congr 1
  rw [List.map_subtype (g := core)]
  · simp
  · intro y hy; rfl

theorem sameIds_iff {e e' : Encoding} : SameIds e e' ↔ e.ids = e'.ids ∧ e.specialMask = e'.specialMask ∧
    e.attnMask = e'.attnMask ∧ e.seqRanges = e'.seqRanges ∧ Each SameIds e.overflowing e'.overflowing := by
  unfold SameIds
  rw [core_eq e, core_eq e', Core.mk.injEq, each_map_eq]

theorem sameIds_mk {i t k w o s a ov sr i' t' k' w' o' s' a' ov' sr'} (h1 : i = i') (h2 : s = s') (h3 : a = a')
    (h4 : sr = sr') (h5 : Each SameIds ov ov') :
    SameIds (mk i t k w o s a ov sr) (mk i' t' k' w' o' s' a' ov' sr') :=
  sameIds_iff.2 ⟨h1, h2, h3, h4, h5⟩

theorem SameIds.len {e e' : Encoding} (h : SameIds e e') : e.len = e'.len := by
  rw [Encoding.len, Encoding.len, (sameIds_iff.1 h).1]

theorem SameIds.merge (g g' : Bool) : ∀ (n : Nat) {e e' p p' : Encoding}, sizeOf e + sizeOf p ≤ n → SameIds e e' →
    SameIds p p' → SameIds (e.mergeWith p g) (e'.mergeWith p' g')
  | 0, e, _, p, _, h, _, _ => by
    cases e; simp only [mk.sizeOf_spec] at h; omega
  | n + 1, e, e', p, p', h, he, hp => by
    obtain ⟨a1, a2, a3, a4, a5⟩ := sameIds_iff.1 he
    obtain ⟨b1, b2, b3, b4, b5⟩ := sameIds_iff.1 hp
    rw [mergeWith_eq, mergeWith_eq]
    refine sameIds_mk (by rw [a1, b1]) (by rw [a2, b2]) (by rw [a3, b3]) ?_ ?_
    · rw [a4, b4, he.len]
    · refine Each.append (a5.flatMapMem fun so so' hm hs => .cons ?_ (b5.mapMem fun po po' hm' hs' => ?_))
        (b5.mapMem fun po po' hm' hs' => ?_)
      · exact SameIds.merge g g' n (by have := sizeOf_mem_overflowing hm; omega) hs hp
      · exact SameIds.merge g g' n (by
          have := sizeOf_mem_overflowing hm; have := sizeOf_mem_overflowing hm'; omega) hs hs'
      · exact SameIds.merge g g' n (by have := sizeOf_mem_overflowing hm'; omega) he hs'

theorem SameIds.pad (k : Nat) (pt : PadTok) (d : Direction) : ∀ (n : Nat) {e e' : Encoding}, sizeOf e ≤ n →
    SameIds e e' → SameIds (e.pad k pt d) (e'.pad k pt d)
  | 0, e, _, h, _ => by cases e; simp only [mk.sizeOf_spec] at h; omega
  | n + 1, e, e', h, he => by
    obtain ⟨a1, a2, a3, a4, a5⟩ := sameIds_iff.1 he
    have ov := a5.mapMem (S := SameIds) (f := fun o => o.pad k pt d) (g := fun o => o.pad k pt d)
      fun o o' hm hs => SameIds.pad k pt d n (by have := sizeOf_mem_overflowing hm; omega) hs
    rw [pad_eq, pad_eq, he.len]
    split
    · cases e; cases e'; exact sameIds_mk a1 a2 a3 a4 ov
    · cases d with
      | left => exact sameIds_mk (by rw [a1]) (by rw [a2]) (by rw [a3]) (by rw [a4]) ov
      | right => exact sameIds_mk (by rw [a1]) (by rw [a2]) (by rw [a3]) a4 ov

theorem SameIds.surround {e e' : Encoding} (h : SameIds e e') (b a : List (Str × Nat)) (inner inner' : List Nat)
    (ty q : Nat) {ov ov' : List Encoding} (ho : Each SameIds ov ov') :
    SameIds (Post.surround b a inner ty q ov e) (Post.surround b a inner' ty q ov' e') := by
  obtain ⟨a1, a2, a3, a4, a5⟩ := sameIds_iff.1 h
  unfold Post.surround
  exact sameIds_mk (by rw [a1]) (by rw [a1]) (by rw [a1]) (by rw [a1]) ho

theorem SameIds.setSequenceId {e e' : Encoding} (h : SameIds e e') (q : Nat) :
    SameIds (e.setSequenceId q) (e'.setSequenceId q) := by
  obtain ⟨a1, a2, a3, a4, a5⟩ := sameIds_iff.1 h
  cases e; cases e'
  simp only [ids, specialMask, attnMask, seqRanges, overflowing] at a1 a2 a3 a4 a5
  exact sameIds_mk a1 a2 a3 (by rw [a1, a4]) a5

theorem SameIds.setTypeIds {e e' : Encoding} (h : SameIds e e') (ts ts' : List Nat) :
    SameIds (e.setTypeIds ts) (e'.setTypeIds ts') := by
  obtain ⟨a1, a2, a3, a4, a5⟩ := sameIds_iff.1 h
  cases e; cases e'
  exact sameIds_mk a1 a2 a3 a4 a5

theorem SameIds.setOverflowing {e e' : Encoding} (h : SameIds e e') {ov ov' : List Encoding}
    (ho : Each SameIds ov ov') : SameIds (e.setOverflowing ov) (e'.setOverflowing ov') := by
  obtain ⟨a1, a2, a3, a4, a5⟩ := sameIds_iff.1 h
  cases e; cases e'
  exact sameIds_mk a1 a2 a3 a4 ho

theorem SameIds.processOffsets {e e' : Encoding} (h : SameIds e e') (ws : Char → Bool) (aps : Bool) :
    SameIds (ByteLevel.processOffsets ws aps e) (ByteLevel.processOffsets ws aps e') := by
  obtain ⟨a1, a2, a3, a4, a5⟩ := sameIds_iff.1 h
  cases e; cases e'
  exact sameIds_mk a1 a2 a3 a4 a5

theorem overflowing_each {e e' : Encoding} (h : SameIds e e') : Each SameIds e.overflowing e'.overflowing :=
  (sameIds_iff.1 h).2.2.2.2

/-- Every step of post-processing keeps the relation. -/
theorem sameIds_cong : Cong SameIds where
  refl _ := rfl
  len := SameIds.len
  types h ts := h.setTypeIds ts ts
  seq h q := h.setSequenceId q
  prep := by
    intro e e' h i
    unfold Post.prepare
    have h1 := h.setSequenceId i
    exact (h1.setOverflowing ((overflowing_each h1).map fun _ _ hs => hs.setSequenceId i)).setTypeIds _ _
  bert1 h m := h.surround _ _ _ _ _ _ ((overflowing_each h).map fun _ _ hs => hs.surround _ _ _ _ _ _ .nil)
  bert2 h m := h.surround _ _ _ _ _ _ ((overflowing_each h).map fun _ _ hs => hs.surround _ _ _ _ _ _ .nil)
  roberta1 h m := h.surround _ _ _ _ _ _ ((overflowing_each h).map fun _ _ hs => hs.surround _ _ _ _ _ _ .nil)
  roberta2 h m := h.surround _ _ _ _ _ _ ((overflowing_each h).map fun _ _ hs => hs.surround _ _ _ _ _ _ .nil)
  trim := by
    intro e e' h ws aps
    have h1 := h.processOffsets ws aps
    have := h1.setOverflowing ((overflowing_each h1).map fun _ _ hs => hs.processOffsets ws aps)
    unfold Post.trimAll
    revert this
    cases ByteLevel.processOffsets ws aps e
    cases ByteLevel.processOffsets ws aps e'
    exact id
  merge h1 h2 := SameIds.merge false false _ (Nat.le_refl _) h1 h2
  pad h n pt d := SameIds.pad n pt d _ (Nat.le_refl _) h

/-! ## Truncation -/

/-- Related results: the same error, or related values. -/
inductive Agree {ε α β : Type} (R : α → β → Prop) : Except ε α → Except ε β → Prop
  | ok {a b} (h : R a b) : Agree R (.ok a) (.ok b)
  | error (e : ε) : Agree R (.error e) (.error e)

theorem Agree.bind {ε α β γ δ : Type} {R : α → β → Prop} {S : γ → δ → Prop} {x : Except ε α} {y : Except ε β}
    {f : α → Except ε γ} {g : β → Except ε δ} (h : Agree R x y) (hs : ∀ a b, R a b → Agree S (f a) (g b)) :
    Agree S (x.bind f) (y.bind g) := by
  cases h with
  | ok h => exact hs _ _ h
  | error e => exact .error e

theorem Agree.map {ε α β γ δ : Type} {R : α → β → Prop} {S : γ → δ → Prop} {x : Except ε α} {y : Except ε β}
    {f : α → γ} {g : β → δ} (h : Agree R x y) (hs : ∀ a b, R a b → S (f a) (g b)) :
    Agree S (x.map f) (y.map g) := by
  cases h with
  | ok h => exact .ok (hs _ _ h)
  | error e => exact .error e

theorem SameIds.part {e e' : Encoding} (h : SameIds e e') (hw : e.Parallel) (hw' : e'.Parallel) {r : Range}
    (h1 : r.1 ≤ r.2) (h2 : r.2 ≤ e.len) : Both SameIds (e.part r) (e'.part r) := by
  obtain ⟨a1, a2, a3, a4, a5⟩ := sameIds_iff.1 h
  rw [part_some hw h1 h2, part_some hw' h1 (h.len ▸ h2)]
  exact .some (sameIds_mk (by rw [a1]) (by rw [a2]) (by rw [a3]) rfl .nil)

theorem both_mapM {α β γ : Type} {S : β → γ → Prop} {f : α → Option β} {g : α → Option γ} : ∀ {l : List α},
    (∀ a ∈ l, Both S (f a) (g a)) → Both (Each S) (l.mapM f) (l.mapM g)
  | [], _ => by simp only [List.mapM_nil]; exact .some .nil
  | a :: l, h => by
    have h1 := h a List.mem_cons_self
    have h2 := both_mapM (S := S) (f := f) (g := g) fun b hb => h b (List.mem_cons_of_mem _ hb)
    rw [List.mapM_cons, List.mapM_cons]
    cases hfa : f a with
    | none => rw [hfa] at h1; cases hga : g a with
      | none => exact .none
      | some y => rw [hga] at h1; cases h1
    | some x => rw [hfa] at h1; cases hga : g a with
      | none => rw [hga] at h1; cases h1
      | some y =>
        rw [hga] at h1
        cases h1 with
        | some h1 =>
          cases hfl : l.mapM f with
          | none => rw [hfl] at h2; cases hgl : l.mapM g with
            | none => exact .none
            | some ys => rw [hgl] at h2; cases h2
          | some xs => rw [hfl] at h2; cases hgl : l.mapM g with
            | none => rw [hgl] at h2; cases h2
            | some ys =>
              rw [hgl] at h2
              cases h2 with
              | some h2 => exact .some (.cons h1 h2)

/-- Both encodings are well formed, with the same ids. -/
def SameWF (e e' : Encoding) : Prop := SameIds e e' ∧ e.WF ∧ e'.WF

theorem SameWF.truncate {e e' : Encoding} (h : SameWF e e') (n stride : Nat) (d : Direction) :
    Both SameWF (e.truncate n stride d) (e'.truncate n stride d) := by
  obtain ⟨h1, h2, h3⟩ := h
  have hl := h1.len
  by_cases hn : n ≥ e.len
  · rw [C02_truncate_fits e n stride d hn, C02_truncate_fits e' n stride d (hl ▸ hn)]
    exact .some ⟨h1, h2, h3⟩
  · by_cases h0 : n = 0
    · have hwf : ∀ x : Encoding, x.WF → (mk [] [] [] [] [] [] [] [x] []).WF := by
        intro x hx
        refine .intro _ ?_ ?_ ?_
        · simp [Parallel, ids, typeIds, tokens, words, offsets, specialMask, attnMask]
        · intro q r hm; cases hm
        · intro o ho; simp [overflowing] at ho; subst ho; exact hx
      unfold Encoding.truncate
      have hn' : ¬ n ≥ e'.len := by omega
      rw [if_neg hn, if_pos h0, if_neg hn', if_pos h0]
      exact .some ⟨sameIds_mk rfl rfl rfl rfl (.cons h1 .nil), hwf _ h2, hwf _ h3⟩
    · by_cases hs : stride < n
      · obtain ⟨r, rs, main, ovs, a1, a2, a3, a4, a5, _⟩ := truncate_cut h2.parallel (by omega) hs (by omega) d
        obtain ⟨r', rs', main', ovs', b1, b2, b3, b4, b5, _⟩ :=
          truncate_cut h3.parallel (maxLen := n) (by omega) hs (by omega) d
        rw [← hl, a1] at b1
        cases b1
        have w1 := truncate_wf h2 a4
        have w2 := truncate_wf h3 b4
        rw [a4, b4]
        have hm := h1.part h2.parallel h3.parallel (a5 r List.mem_cons_self).1 (a5 r List.mem_cons_self).2
        rw [a2, b2] at hm
        have ho := both_mapM (S := SameIds) (f := e.part) (g := e'.part) (l := rs) fun w hw =>
          h1.part h2.parallel h3.parallel (a5 w (List.mem_cons_of_mem _ hw)).1 (a5 w (List.mem_cons_of_mem _ hw)).2
        rw [a3, b3] at ho
        cases hm with
        | some hm =>
          cases ho with
          | some ho => exact .some ⟨hm.setOverflowing ho, w1, w2⟩
      · rw [(C02_truncate_panics_iff h2 n stride d).2 (by omega), (C02_truncate_panics_iff h3 n stride d).2 (by omega)]
        exact .none

theorem agree_orPanic {α β : Type} {R : α → β → Prop} {x : Option α} {y : Option β} (h : Both R x y) :
    Agree R (orPanic x) (orPanic y) := by
  cases h with
  | none => exact .error _
  | some h => exact .ok h

theorem SameWF.truncateEncodings {e e' : Encoding} {o o' : Option Encoding} (he : SameWF e e') (ho : Both SameWF o o')
    (p : TruncParams) : Agree (fun x y => SameWF x.1 y.1 ∧ Both SameWF x.2 y.2)
      (truncateEncodings e o p) (truncateEncodings e' o' p) := by
  have hl := he.1.len
  unfold Tok.truncateEncodings
  cases ho with
  | none =>
    simp only [Option.map_none, Option.getD_none, Nat.add_zero, ← hl]
    split
    · exact (agree_orPanic (he.truncate _ _ _)).bind fun a b hab => .ok ⟨hab, .none⟩
    · split
      · split
        · exact (agree_orPanic (he.truncate _ _ _)).bind fun a b hab => .ok ⟨hab, .none⟩
        · split
          · exact (agree_orPanic (he.truncate _ _ _)).bind fun a b hab => .ok ⟨hab, .none⟩
          · exact .error _
        · exact .error _
      · exact .ok ⟨he, .none⟩
  | @some a b hab =>
    have hl' := hab.1.len
    simp only [Option.map_some, Option.getD_some, ← hl, ← hl']
    split
    · exact (agree_orPanic (he.truncate _ _ _)).bind fun x y hxy =>
        (agree_orPanic (hab.truncate _ _ _)).bind fun x' y' hxy' => .ok ⟨hxy, .some hxy'⟩
    · split
      · split
        · exact (agree_orPanic (he.truncate _ _ _)).bind fun x y hxy =>
            (agree_orPanic (hab.truncate _ _ _)).bind fun x' y' hxy' => .ok ⟨hxy, .some hxy'⟩
        · split
          · exact (agree_orPanic (he.truncate _ _ _)).bind fun x y hxy => .ok ⟨hxy, .some hab⟩
          · exact .error _
        · split
          · exact (agree_orPanic (hab.truncate _ _ _)).bind fun x y hxy => .ok ⟨he, .some hxy⟩
          · exact .error _
      · exact .ok ⟨he, .some hab⟩

theorem Both.isSome {α β : Type} {R : α → β → Prop} {x : Option α} {y : Option β} (h : Both R x y) :
    x.isSome = y.isSome := by cases h <;> rfl

theorem Both.imp {α β : Type} {R S : α → β → Prop} {x : Option α} {y : Option β} (h : Both R x y)
    (hs : ∀ a b, R a b → S a b) : Both S x y := by
  cases h with
  | none => exact .none
  | some h => exact .some (hs _ _ h)

theorem SameWF.postProcess {e e' : Encoding} {o o' : Option Encoding} (he : SameWF e e') (ho : Both SameWF o o')
    (ws : Char → Bool) (checked : Bool) (s : Post.Settings) (add : Bool) :
    Agree SameIds (s.postProcess ws checked e o add) (s.postProcess ws checked e' o' add) := by
  have ht : Agree (fun x y => SameWF x.1 y.1 ∧ Both SameWF x.2 y.2)
      (s.truncate checked e o add) (s.truncate checked e' o' add) := by
    unfold Post.Settings.truncate
    rw [ho.isSome]
    split
    · exact .ok ⟨he, ho⟩
    · simp only
      split
      · split
        · exact .error _
        · exact he.truncateEncodings ho _
      · exact he.truncateEncodings ho _
  unfold Post.Settings.postProcess
  revert ht
  generalize s.truncate checked e o add = x
  generalize s.truncate checked e' o' add = y
  intro ht
  cases ht with
  | error er => exact .error er
  | @ok a b hab =>
    simp only
    have hf := sameIds_cong.finish ws s add hab.1.1 (hab.2.imp fun _ _ h => h.1)
    revert hf
    generalize s.finish ws a.1 a.2 add = x
    generalize s.finish ws b.1 b.2 add = y
    intro hf
    cases hf with
    | none => exact .error _
    | some hf => exact .ok (sameIds_cong.padOne s hf)

/-! ## The whole pipeline -/

namespace Tokenizer

theorem intoEncoding_wf {p : PTS} {word : Option Nat} {typeId : Nat} {ty : PTS.OffsetType} {e : Encoding}
    (h : p.intoEncoding word typeId ty = .ok e) : e.WF := by
  apply C01_reachable_wf
  unfold PTS.intoEncoding at h
  split at h
  · cases h; exact .default
  · split at h
    · cases h
    · split at h <;> (cases h; exact .items _)

theorem fromItems_ids (xs : List (Nat × Str × Range × Option Nat × Nat)) :
    (Encoding.fromItems xs).ids = xs.map (·.1) := rfl

/-- Whatever the kind of offsets, the encodings have the same ids. -/
theorem intoEncoding_agree (p : PTS) (word word' : Option Nat) (typeId typeId' : Nat) (ty ty' : PTS.OffsetType) :
    Agree SameWF (p.intoEncoding word typeId ty) (p.intoEncoding word' typeId' ty') := by
  have hids : ∀ (word : Option Nat) (typeId : Nat) (ty : PTS.OffsetType) (ss : List Split) (i : Nat),
      (PTS.encodingItems p.original word typeId ty i ss).map (·.1)
      = ss.flatMap fun s => (s.tokens.getD []).map (·.id) := by
    intro word typeId ty ss
    induction ss with
    | nil => intro i; rfl
    | cons s ss ih =>
      intro i
      rw [PTS.encodingItems, List.map_append, ih, List.flatMap_cons, List.map_map]; rfl
  have hnone : ((p.splits.flatMap fun s => (s.tokens.getD []).map fun t =>
      ((t.id, [], (0, 0), none, 0) : Nat × Str × Range × Option Nat × Nat)).map (·.1))
      = p.splits.flatMap fun s => (s.tokens.getD []).map (·.id) := by
    rw [List.map_flatMap]
    congr 1
    funext s
    rw [List.map_map]; rfl
  have build : ∀ xs ys : List (Nat × Str × Range × Option Nat × Nat), xs.map (·.1) = ys.map (·.1) →
      SameWF (Encoding.fromItems xs) (Encoding.fromItems ys) := by
    intro xs ys h
    have hl : xs.length = ys.length := by simpa using congrArg List.length h
    refine ⟨?_, C01_reachable_wf (.items _), C01_reachable_wf (.items _)⟩
    unfold Encoding.fromItems
    refine sameIds_mk h ?_ ?_ rfl .nil
    · rw [List.map_const', List.map_const', hl]
    · rw [List.map_const', List.map_const', hl]
  by_cases he : p.splits = []
  · simp only [PTS.intoEncoding, he, if_true]
    exact .ok ⟨rfl, C01_reachable_wf .default, C01_reachable_wf .default⟩
  · by_cases ha : p.splits.all (·.tokens.isSome)
    · have eq : ∀ (word : Option Nat) (typeId : Nat) (ty : PTS.OffsetType), ∃ xs,
          p.intoEncoding word typeId ty = .ok (Encoding.fromItems xs) ∧
          xs.map (·.1) = p.splits.flatMap fun s => (s.tokens.getD []).map (·.id) := by
        intro word typeId ty
        unfold PTS.intoEncoding
        rw [if_neg he, if_neg (not_not_intro ha)]
        cases ty with
        | none => exact ⟨_, rfl, hnone⟩
        | byte => exact ⟨_, rfl, hids _ _ _ _ _⟩
        | char => exact ⟨_, rfl, hids _ _ _ _ _⟩
      obtain ⟨xs, h1, h2⟩ := eq word typeId ty
      obtain ⟨ys, g1, g2⟩ := eq word' typeId' ty'
      rw [h1, g1]
      exact .ok (build _ _ (h2.trans g2.symm))
    · unfold PTS.intoEncoding
      rw [if_neg he, if_pos ha, if_neg he, if_pos ha]
      exact .error _

theorem agree_mapErr {ε ε' α β : Type} {R : α → β → Prop} (f : ε → ε') {x : Except ε α} {y : Except ε β}
    (h : Agree R x y) : Agree R (mapErr f x) (mapErr f y) := by
  cases h with
  | ok h => exact .ok h
  | error e => exact .error _

theorem agree_refl {ε α : Type} (x : Except ε α) : Agree (fun a b => a = b) x x := by
  cases x with
  | ok a => exact .ok rfl
  | error e => exact .error e

theorem encodeText_agree (t : Tokenizer) (lim : Option (Nat × Encoding.Direction)) (typeId : Nat)
    (ty ty' : PTS.OffsetType) (word : Option Nat) (s : Str) :
    Agree SameWF (t.encodeText lim typeId ty word s) (t.encodeText lim typeId ty' word s) := by
  unfold encodeText doTokenize
  refine (agree_refl (t.preTokenized s)).bind fun p _ h => ?_
  subst h
  refine (agree_refl (t.tokenizeIn p lim)).bind fun q _ h => ?_
  subst h
  exact agree_mapErr _ (intoEncoding_agree q _ _ _ _ _ _)

theorem agree_mapM {ε α β γ : Type} {S : β → γ → Prop} {f : α → Except ε β} {g : α → Except ε γ} : ∀ {l : List α},
    (∀ a ∈ l, Agree S (f a) (g a)) → Agree (Each S) (l.mapM f) (l.mapM g)
  | [], _ => by simp only [List.mapM_nil]; exact .ok .nil
  | a :: l, h => by
    rw [List.mapM_cons, List.mapM_cons]
    exact (h a List.mem_cons_self).bind fun x y hxy =>
      (agree_mapM (S := S) fun b hb => h b (List.mem_cons_of_mem _ hb)).bind fun xs ys hs => .ok (.cons hxy hs)

theorem encodeSequence_agree (t : Tokenizer) (typeId : Nat) (ty ty' : PTS.OffsetType) (i : Input) :
    Agree SameWF (t.encodeSequence typeId ty i) (t.encodeSequence typeId ty' i) := by
  unfold encodeSequence encodeSequenceWith
  cases i with
  | raw s => exact encodeText_agree t _ _ _ _ _ _
  | words l =>
    refine (agree_mapM fun x _ => encodeText_agree t (t.limit typeId) typeId ty ty' (some x.2) x.1).map
      fun es es' h => ⟨sameIds_cong.mergeList (h.imp fun _ _ h => h.1), ?_, ?_⟩
    · refine merge_wf (fun e he => ?_) false
      have : ∀ {as bs : List Encoding}, Each SameWF as bs → ∀ e ∈ as, e.WF := by
        intro as bs h
        induction h with
        | nil => intro e he; cases he
        | cons h _ ih =>
          intro e he
          rcases List.mem_cons.1 he with rfl | he
          · exact h.2.1
          · exact ih e he
      exact this h e he
    · refine merge_wf (fun e he => ?_) false
      have : ∀ {as bs : List Encoding}, Each SameWF as bs → ∀ e ∈ bs, e.WF := by
        intro as bs h
        induction h with
        | nil => intro e he; cases he
        | cons h _ ih =>
          intro e he
          rcases List.mem_cons.1 he with rfl | he
          · exact h.2.2
          · exact ih e he
      exact this h e he

/-- **C48.** For every configuration and input, `encode_fast` fails exactly as `encode` does, and otherwise returns
an encoding with the same ids, special-tokens and attention masks (and sequence ranges), and so for each overflowing
part; the same holds for `encode_char_offsets`. -/
theorem C48_fast (t : Tokenizer) (ty : PTS.OffsetType) (input : Input × Option Input) (add : Bool) :
    (∀ er, t.encodeAs ty input add = .error er ↔ t.encodeFast input add = .error er) ∧
    (∀ e, t.encodeAs ty input add = .ok e → ∃ e', t.encodeFast input add = .ok e' ∧ SameIds e e') := by
  have key : Agree SameIds (t.encodeAs ty input add) (t.encodeFast input add) := by
    unfold encodeFast encodeAs encodeBy
    refine (encodeSequence_agree t 0 ty .none input.1).bind fun e e' he => ?_
    have ho : Agree (Both SameWF) (optional (fun i => t.encodeSequence 1 ty i) input.2)
        (optional (fun i => t.encodeSequence 1 .none i) input.2) := by
      cases input.2 with
      | none => exact .ok .none
      | some i => exact (encodeSequence_agree t 1 ty .none i).map fun _ _ h => .some h
    exact ho.bind fun o o' hoo => agree_mapErr _ (he.postProcess hoo _ _ _ _)
  revert key
  generalize t.encodeAs ty input add = x
  generalize t.encodeFast input add = y
  intro key
  cases key with
  | error e => exact ⟨fun er => Iff.rfl, fun e h => by cases h⟩
  | ok h =>
    refine ⟨fun er => ⟨fun h => (by cases h), fun h => (by cases h)⟩, fun e he => ?_⟩
    cases he
    exact ⟨_, rfl, h⟩

/-! Examples are in `Tokenizer/Samples.lean`. -/

end Tokenizer
end Tok
