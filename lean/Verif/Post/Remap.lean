import Verif.Encoding.Remap
import Verif.Tokenizer.OffsetsAll

/-!
# C119: post-processing encodings with other offsets

Post-processors that do not trim offsets only copy them; those of the tokens that are inserted are `(0, 0)`.
-/

namespace Tok.Post
open Encoding

variable {f : Range → Range} (h0 : f (0, 0) = (0, 0))
include h0

theorem remap_specialEncoding (t : SpecialToken) (ty : Nat) : (specialEncoding t ty).remap f = specialEncoding t ty := by
  unfold specialEncoding
  rw [remap_mk, List.map_replicate, h0]
  rfl

theorem remap_applyPiece (spt : Tokens) (add : Bool) (es : List Encoding) (p : Piece) :
    applyPiece spt add (es.map (Encoding.remap f)) p
      = (applyPiece spt add es p).map fun x => (x.1.map (Encoding.remap f), x.2.map (Encoding.remap f)) := by
  cases p with
  | sequence id ty =>
    simp only [applyPiece, List.getElem?_map]
    cases es[id.index]? with
    | none => rfl
    | some e => simp only [Option.map_some, remap_len, remap_setTypeIds, remap_setSequenceId, List.map_set]
  | special id ty =>
    simp only [applyPiece]
    split
    · cases spt.get id with
      | none => rfl
      | some t => simp only [Option.map_some, remap_specialEncoding h0]
    · rfl

theorem remap_applyTemplate (spt : Tokens) (add : Bool) : ∀ (ps : List Piece) (es : List Encoding),
    applyTemplate spt add (es.map (Encoding.remap f)) ps = (applyTemplate spt add es ps).map (·.map (Encoding.remap f))
  | [], es => rfl
  | p :: ps, es => by
    rw [applyTemplate, applyTemplate, remap_applyPiece h0]
    cases applyPiece spt add es p with
    | none => rfl
    | some x =>
      obtain ⟨o, es'⟩ := x
      simp only [Option.map_some]
      rw [remap_applyTemplate spt add ps es', Option.map_map, Option.map_map]
      congr 1
      funext l
      simp only [Function.comp, List.map_append]
      cases o <;> rfl

theorem remap_surround (before after : List (Str × Nat)) (inner : List Nat) (ty q : Nat) (ov : List Encoding) (e : Encoding) :
    surround before after inner ty q (ov.map (Encoding.remap f)) (e.remap f) = (surround before after inner ty q ov e).remap f := by
  unfold surround
  rw [remap_mk]
  simp [Function.comp_def, h0]

omit h0 in
theorem remap_mapFirst {g h : Encoding → Encoding} (hg : ∀ e, g (e.remap f) = (g e).remap f)
    (hh : ∀ e, h (e.remap f) = (h e).remap f) (es : List Encoding) :
    mapFirst g h (es.map (Encoding.remap f)) = (mapFirst g h es).map (Encoding.remap f) := by
  cases es with
  | nil => rfl
  | cons e es =>
    simp only [mapFirst, List.map_cons, List.map_map, hg]
    congr 1
    exact List.map_congr_left fun e _ => hh e

theorem remap_around (before after : List (Str × Nat)) (inner : Encoding → List Nat)
    (hi : ∀ e, inner (e.remap f) = inner e) (main : List Nat) (ty q : Nat) (e : Encoding) :
    surround before after main ty q ((e.remap f).overflowing.map fun o => surround before after (inner o) ty q [] o) (e.remap f)
      = (surround before after main ty q (e.overflowing.map fun o => surround before after (inner o) ty q [] o) e).remap f := by
  rw [← remap_surround h0, remap_overflowing, List.map_map, List.map_map]
  congr 1
  refine List.map_congr_left fun o _ => ?_
  simp only [Function.comp]
  rw [hi]
  exact remap_surround h0 before after (inner o) ty q [] o

theorem remap_bert (m : Marks) (add : Bool) (es : List Encoding) :
    bertProcess m add (es.map (Encoding.remap f)) = (bertProcess m add es).map (Encoding.remap f) := by
  unfold bertProcess
  split
  · refine remap_mapFirst (fun e => ?_) (fun e => ?_) es
    · unfold bertFirst
      rw [remap_typeIds]
      exact remap_around h0 [m.cls] [m.sep] Encoding.typeIds (remap_typeIds f) e.typeIds 0 0 e
    · unfold bertOther
      rw [remap_typeIds]
      exact remap_around h0 [] [m.sep] Encoding.typeIds (remap_typeIds f) e.typeIds 1 1 e
  · rfl

theorem remap_roberta (ws : Char → Bool) (m : Marks) (aps add : Bool) (es : List Encoding) :
    robertaProcess ws m false aps add (es.map (Encoding.remap f)) = (robertaProcess ws m false aps add es).map (Encoding.remap f) := by
  unfold robertaProcess
  dsimp only
  simp only [Bool.false_eq_true, if_false]
  have hz : (es.map (Encoding.remap f)).map (fun e => e.setTypeIds (List.replicate e.len 0))
      = (es.map fun e => e.setTypeIds (List.replicate e.len 0)).map (Encoding.remap f) := by
    rw [List.map_map, List.map_map]
    refine List.map_congr_left fun e _ => ?_
    simp only [Function.comp]
    rw [remap_len, remap_setTypeIds]
  rw [hz]
  split
  · refine remap_mapFirst (fun e => ?_) (fun e => ?_) _
    · unfold robertaFirst
      rw [remap_typeIds]
      exact remap_around h0 [m.cls] [m.sep] (fun o => List.replicate o.ids.length 0) (fun o => by simp) e.typeIds 0 0 e
    · unfold robertaOther
      have : List.replicate (e.remap f).ids.length 0 = List.replicate e.ids.length 0 := by simp
      rw [this]
      exact remap_around h0 [m.sep] [m.sep] (fun o => List.replicate o.ids.length 0) (fun o => by simp) _ 0 1 e
  · rfl

omit h0 in
theorem remap_byteLevel (ws : Char → Bool) (aps : Bool) (es : List Encoding) :
    ByteLevel.processEncodings ws aps false (es.map (Encoding.remap f))
      = (ByteLevel.processEncodings ws aps false es).map (Encoding.remap f) := by
  show ((es.map (Encoding.remap f)).zipIdx.map fun p => p.1.setSequenceId p.2)
    = (es.zipIdx.map fun p => p.1.setSequenceId p.2).map (Encoding.remap f)
  rw [List.zipIdx_map, List.map_map, List.map_map]
  exact List.map_congr_left fun p _ => remap_setSequenceId f p.1 p.2

set_option linter.unusedSectionVars false in
mutual
theorem remap_proc (ws : Char → Bool) (add : Bool) : ∀ (p : Proc), NoTrim p → ∀ (es : List Encoding),
    p.processEncodings ws add (es.map (Encoding.remap f)) = (p.processEncodings ws add es).map (·.map (Encoding.remap f))
  | .roberta m trim aps, hk, es => by
    have : trim = false := by cases hk; rfl
    subst this
    simp only [Proc.processEncodings, Option.map_some, remap_roberta h0]
  | .bert m, _, es => by simp only [Proc.processEncodings, Option.map_some, remap_bert h0]
  | .byteLevel aps trim, hk, es => by
    have : trim = false := by cases hk; rfl
    subst this
    simp only [Proc.processEncodings, Option.map_some, remap_byteLevel]
  | .template t, _, es => by
    simp only [Proc.processEncodings, Template.processEncodings, List.length_map]
    split
    · exact remap_applyTemplate h0 _ _ _ _
    · exact remap_applyTemplate h0 _ _ _ _
    · rfl
  | .sequence ps, hk, es => by
    simp only [Proc.processEncodings]
    exact remap_procs ws add ps (by cases hk; assumption) es

theorem remap_procs (ws : Char → Bool) (add : Bool) : ∀ (ps : List Proc), (∀ p ∈ ps, NoTrim p) → ∀ (es : List Encoding),
    processAll ws add ps (es.map (Encoding.remap f)) = (processAll ws add ps es).map (·.map (Encoding.remap f))
  | [], _, es => by simp only [processAll, Option.map_some]
  | p :: ps, hk, es => by
    simp only [processAll]
    rw [remap_proc ws add p (hk p (by simp)) es]
    cases p.processEncodings ws add es with
    | none => rfl
    | some es' => exact remap_procs ws add ps (fun q hq => hk q (by simp [hq])) es'
end

omit h0 in
theorem remap_prepare (i : Nat) (e : Encoding) : prepare i (e.remap f) = (prepare i e).remap f := by
  unfold prepare
  dsimp only
  rw [remap_setSequenceId]
  generalize e.setSequenceId i = e
  have : (e.remap f).setOverflowing ((e.remap f).overflowing.map (·.setSequenceId i))
      = (e.setOverflowing (e.overflowing.map (·.setSequenceId i))).remap f := by
    rw [← remap_setOverflowing, remap_overflowing, List.map_map, List.map_map]
    congr 1
    exact List.map_congr_left fun o _ => remap_setSequenceId f o i
  rw [this, remap_len, remap_setTypeIds]

theorem remap_process (ws : Char → Bool) {p : Proc} (hk : NoTrim p) (e : Encoding) (pair : Option Encoding) (add : Bool) :
    p.process ws (e.remap f) (pair.map (Encoding.remap f)) add = (p.process ws e pair add).map (Encoding.remap f) := by
  have key : ∀ es : List Encoding, (p.processEncodings ws add (es.map (Encoding.remap f))).map (merge · false)
      = ((p.processEncodings ws add es).map (merge · false)).map (Encoding.remap f) := by
    intro es
    rw [remap_proc h0 ws add p hk, Option.map_map, Option.map_map]
    congr 1
    funext l
    exact remap_merge f l
  unfold Proc.process
  cases pair with
  | none =>
    have := key [prepare 0 e]
    simp only [List.map_cons, List.map_nil, ← remap_prepare] at this
    exact this
  | some o =>
    have := key [prepare 0 e, prepare 1 o]
    simp only [List.map_cons, List.map_nil, ← remap_prepare] at this
    exact this

omit h0 in
theorem remap_defaultProcess (es : List Encoding) :
    defaultProcess (es.map (Encoding.remap f)) = (defaultProcess es).map (Encoding.remap f) := by
  have : defaultMerge (es.map (Encoding.remap f)) = (defaultMerge es).remap f := by
    unfold defaultMerge
    rw [List.zipIdx_map, List.foldl_map]
    have : ∀ (l : List (Encoding × Nat)) (acc : Encoding),
        l.foldl (fun acc p => acc.mergeWith ((p.1.remap f).setSequenceId p.2) false) (acc.remap f)
          = (l.foldl (fun acc p => acc.mergeWith (p.1.setSequenceId p.2) false) acc).remap f := by
      intro l
      induction l with
      | nil => intro acc; rfl
      | cons p l ih =>
        intro acc
        rw [List.foldl_cons, List.foldl_cons, remap_setSequenceId, remap_mergeWith]
        exact ih _
    have h := this es.zipIdx empty
    rw [remap_empty] at h
    exact h
  match es, this with
  | [], h => exact congrArg (fun x => [x]) h
  | [e], _ => rfl
  | e :: e' :: es, h => exact congrArg (fun x => [x]) h

/-- Post-processing (truncation, special tokens, padding) of encodings with other offsets: the same encoding, with the other
offsets. -/
theorem remap_postProcess (ws : Char → Bool) (checked : Bool) {s : Settings} (hk : ∀ p ∈ s.processor, NoTrim p) (e : Encoding)
    (pair : Option Encoding) (add : Bool) :
    s.postProcess ws checked (e.remap f) (pair.map (Encoding.remap f)) add
      = (s.postProcess ws checked e pair add).map (Encoding.remap f) := by
  have ht : s.truncate checked (e.remap f) (pair.map (Encoding.remap f)) add
      = (s.truncate checked e pair add).map fun x => (x.1.remap f, x.2.map (Encoding.remap f)) := by
    unfold Settings.truncate
    rw [Option.isSome_map]
    cases s.truncation with
    | none => rfl
    | some tr =>
      dsimp only
      split
      · cases usizeSub checked tr.maxLength (s.added pair.isSome) with
        | none => rfl
        | some m => exact remap_truncateEncodings f e pair _
      · exact remap_truncateEncodings f e pair _
  have hfin : ∀ (e : Encoding) (pair : Option Encoding),
      s.finish ws (e.remap f) (pair.map (Encoding.remap f)) add = (s.finish ws e pair add).map (Encoding.remap f) := by
    intro e pair
    unfold Settings.finish
    cases hp : s.processor with
    | some p => exact remap_process h0 ws (hk p hp) e pair add
    | none =>
      dsimp only
      have : inputList (e.remap f) (pair.map (Encoding.remap f)) = (inputList e pair).map (Encoding.remap f) := by
        cases pair <;> rfl
      rw [this, remap_defaultProcess]
      match defaultProcess (inputList e pair) with
      | [] => rfl
      | [x] => rfl
      | _ :: _ :: _ => rfl
  have hpad : ∀ e : Encoding, s.padOne (e.remap f) = (s.padOne e).remap f := by
    intro e
    unfold Settings.padOne
    cases s.padding with
    | none => rfl
    | some p =>
      dsimp only
      have h := remap_padEncodings h0 [e] p
      rw [List.map_singleton] at h
      rw [h]
      cases padEncodings [e] p <;> rfl
  unfold Settings.postProcess
  rw [ht]
  cases s.truncate checked e pair add with
  | error er => rfl
  | ok x =>
    obtain ⟨e', pair'⟩ := x
    simp only [Except.map]
    rw [hfin]
    cases s.finish ws e' pair' add with
    | none => rfl
    | some out => simp only [Option.map_some, hpad]

end Tok.Post
