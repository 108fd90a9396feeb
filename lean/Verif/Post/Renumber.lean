import Verif.Encoding.Renumber
import Verif.Models.Renaming
import Verif.Post.Process

/-!
# C117: post-processing with other ids

The ids in the settings (special tokens of the post-processor, padding token) are replaced as those of the tokens are.
-/

namespace Tok.Post
open Encoding

/-- The two tokens with other ids. -/
def Marks.renumber (f : Nat → Nat) (m : Marks) : Marks := ⟨(m.sep.1, f m.sep.2), (m.cls.1, f m.cls.2)⟩

/-- The special token with other ids. -/
def SpecialToken.renumber (f : Nat → Nat) (t : SpecialToken) : SpecialToken := { t with ids := t.ids.map f }

/-- The template with other ids. -/
def Template.renumber (f : Nat → Nat) (t : Template) : Template :=
  { t with specials := t.specials.ren id (SpecialToken.renumber f) }

mutual
/-- The post-processor with other ids. -/
def Proc.renumber (f : Nat → Nat) : Proc → Proc
  | .roberta m trim aps => .roberta (m.renumber f) trim aps
  | .bert m => .bert (m.renumber f)
  | .byteLevel aps trim => .byteLevel aps trim
  | .template t => .template (t.renumber f)
  | .sequence ps => .sequence (renumberAll f ps)

/-- All of them. -/
def renumberAll (f : Nat → Nat) : List Proc → List Proc
  | [] => []
  | p :: ps => p.renumber f :: renumberAll f ps
end

/-- The settings with other ids. -/
def Settings.renumber (f : Nat → Nat) (s : Settings) : Settings :=
  ⟨s.truncation, s.padding.map (PadParams.renumber f), s.processor.map (Proc.renumber f)⟩

variable (f : Nat → Nat)

theorem renumber_specialEncoding (t : SpecialToken) (ty : Nat) :
    specialEncoding (t.renumber f) ty = (specialEncoding t ty).renumber f := by
  unfold specialEncoding SpecialToken.renumber
  rw [renumber_mk, List.length_map]
  rfl

theorem renumber_applyPiece (spt : Tokens) (add : Bool) (es : List Encoding) (p : Piece) :
    applyPiece (spt.ren id (SpecialToken.renumber f)) add (es.map (Encoding.renumber f)) p
      = (applyPiece spt add es p).map fun x => (x.1.map (Encoding.renumber f), x.2.map (Encoding.renumber f)) := by
  cases p with
  | sequence id ty =>
    simp only [applyPiece, List.getElem?_map]
    cases es[id.index]? with
    | none => rfl
    | some e =>
      simp only [Option.map_some, renumber_len, renumber_setTypeIds, renumber_setSequenceId, List.map_set]
  | special id ty =>
    simp only [applyPiece]
    split
    · have := ren_get (g := fun x : Str => x) (fun _ _ h => h) (SpecialToken.renumber f) spt id
      have h2 : (spt.ren _root_.id (SpecialToken.renumber f)).get id = (spt.get id).map (SpecialToken.renumber f) := this
      rw [h2]
      cases spt.get id with
      | none => rfl
      | some t => simp only [Option.map_some, renumber_specialEncoding]
    · rfl

theorem renumber_applyTemplate (spt : Tokens) (add : Bool) : ∀ (ps : List Piece) (es : List Encoding),
    applyTemplate (spt.ren id (SpecialToken.renumber f)) add (es.map (Encoding.renumber f)) ps
      = (applyTemplate spt add es ps).map (·.map (Encoding.renumber f))
  | [], es => rfl
  | p :: ps, es => by
    rw [applyTemplate, applyTemplate, renumber_applyPiece]
    cases applyPiece spt add es p with
    | none => rfl
    | some x =>
      obtain ⟨o, es'⟩ := x
      simp only [Option.map_some]
      rw [renumber_applyTemplate spt add ps es', Option.map_map, Option.map_map]
      congr 1
      funext l
      simp only [Function.comp, List.map_append]
      cases o <;> rfl

theorem renumber_surround (before after : List (Str × Nat)) (inner : List Nat) (ty q : Nat) (ov : List Encoding) (e : Encoding) :
    surround (before.map fun p => (p.1, f p.2)) (after.map fun p => (p.1, f p.2)) inner ty q (ov.map (Encoding.renumber f))
      (e.renumber f) = (surround before after inner ty q ov e).renumber f := by
  unfold surround
  rw [renumber_mk]
  simp [Function.comp_def]

theorem renumber_mapFirst {g h g' h' : Encoding → Encoding} (hg : ∀ e, g' (e.renumber f) = (g e).renumber f)
    (hh : ∀ e, h' (e.renumber f) = (h e).renumber f) (es : List Encoding) :
    mapFirst g' h' (es.map (Encoding.renumber f)) = (mapFirst g h es).map (Encoding.renumber f) := by
  cases es with
  | nil => rfl
  | cons e es =>
    simp only [mapFirst, List.map_cons, List.map_map, hg]
    congr 1
    exact List.map_congr_left fun e _ => hh e

theorem renumber_around (before after : List (Str × Nat)) (inner : Encoding → List Nat)
    (hi : ∀ e, inner (e.renumber f) = inner e) (main : List Nat) (ty q : Nat) (e : Encoding) :
    surround (before.map fun p => (p.1, f p.2)) (after.map fun p => (p.1, f p.2)) main ty q
        ((e.renumber f).overflowing.map fun o => surround (before.map fun p => (p.1, f p.2)) (after.map fun p => (p.1, f p.2))
          (inner o) ty q [] o) (e.renumber f)
      = (surround before after main ty q (e.overflowing.map fun o => surround before after (inner o) ty q [] o) e).renumber f := by
  rw [← renumber_surround, renumber_overflowing, List.map_map, List.map_map]
  congr 1
  refine List.map_congr_left fun o _ => ?_
  simp only [Function.comp]
  rw [hi]
  exact renumber_surround f before after (inner o) ty q [] o

theorem renumber_bert (m : Marks) (add : Bool) (es : List Encoding) :
    bertProcess (m.renumber f) add (es.map (Encoding.renumber f)) = (bertProcess m add es).map (Encoding.renumber f) := by
  unfold bertProcess
  split
  · refine renumber_mapFirst f (fun e => ?_) (fun e => ?_) es
    · unfold bertFirst
      rw [renumber_typeIds]
      exact renumber_around f [m.cls] [m.sep] Encoding.typeIds (renumber_typeIds f) e.typeIds 0 0 e
    · unfold bertOther
      rw [renumber_typeIds]
      exact renumber_around f [] [m.sep] Encoding.typeIds (renumber_typeIds f) e.typeIds 1 1 e
  · rfl

theorem renumber_processOffsets (ws : Char → Bool) (aps : Bool) (e : Encoding) :
    ByteLevel.processOffsets ws aps (e.renumber f) = (ByteLevel.processOffsets ws aps e).renumber f := by
  cases e
  rw [renumber_mk]
  simp only [ByteLevel.processOffsets]
  rw [renumber_mk]

theorem renumber_trimAll (ws : Char → Bool) (aps : Bool) (e : Encoding) :
    trimAll ws aps (e.renumber f) = (trimAll ws aps e).renumber f := by
  unfold trimAll
  cases e
  rw [renumber_mk]
  simp only [ByteLevel.processOffsets, ByteLevel.withOverflowing]
  rw [renumber_mk, List.map_map, List.map_map]
  congr 1
  exact List.map_congr_left fun o _ => renumber_processOffsets f ws aps o

theorem renumber_roberta (ws : Char → Bool) (m : Marks) (trim aps add : Bool) (es : List Encoding) :
    robertaProcess ws (m.renumber f) trim aps add (es.map (Encoding.renumber f))
      = (robertaProcess ws m trim aps add es).map (Encoding.renumber f) := by
  have ht : (if trim then (es.map (Encoding.renumber f)).map (trimAll ws aps) else es.map (Encoding.renumber f))
      = (if trim then es.map (trimAll ws aps) else es).map (Encoding.renumber f) := by
    cases trim
    · rfl
    · simp only [if_true, List.map_map]
      exact List.map_congr_left fun e _ => renumber_trimAll f ws aps e
  unfold robertaProcess
  dsimp only
  rw [ht]
  generalize (if trim then es.map (trimAll ws aps) else es) = es
  have hz : (es.map (Encoding.renumber f)).map (fun e => e.setTypeIds (List.replicate e.len 0))
      = (es.map fun e => e.setTypeIds (List.replicate e.len 0)).map (Encoding.renumber f) := by
    rw [List.map_map, List.map_map]
    refine List.map_congr_left fun e _ => ?_
    simp only [Function.comp]
    rw [renumber_len, renumber_setTypeIds]
  rw [hz]
  split
  · refine renumber_mapFirst f (fun e => ?_) (fun e => ?_) _
    · unfold robertaFirst
      rw [renumber_typeIds]
      exact renumber_around f [m.cls] [m.sep] (fun o => List.replicate o.ids.length 0) (fun o => by simp) e.typeIds 0 0 e
    · unfold robertaOther
      have : List.replicate (e.renumber f).ids.length 0 = List.replicate e.ids.length 0 := by simp
      rw [this]
      exact renumber_around f [m.sep] [m.sep] (fun o => List.replicate o.ids.length 0) (fun o => by simp) _ 0 1 e
  · rfl

theorem renumber_byteLevel (ws : Char → Bool) (aps trim : Bool) (es : List Encoding) :
    ByteLevel.processEncodings ws aps trim (es.map (Encoding.renumber f))
      = (ByteLevel.processEncodings ws aps trim es).map (Encoding.renumber f) := by
  have ht : (if trim then (es.map (Encoding.renumber f)).map (trimAll ws aps) else es.map (Encoding.renumber f))
      = (if trim then es.map (trimAll ws aps) else es).map (Encoding.renumber f) := by
    cases trim
    · rfl
    · simp only [if_true, List.map_map]
      exact List.map_congr_left fun e _ => renumber_trimAll f ws aps e
  show ((if trim then (es.map (Encoding.renumber f)).map (trimAll ws aps) else es.map (Encoding.renumber f)).zipIdx.map
      fun p => p.1.setSequenceId p.2) = ((if trim then es.map (trimAll ws aps) else es).zipIdx.map
      fun p => p.1.setSequenceId p.2).map (Encoding.renumber f)
  rw [ht]
  generalize (if trim then es.map (trimAll ws aps) else es) = es
  rw [List.zipIdx_map, List.map_map, List.map_map]
  exact List.map_congr_left fun p _ => renumber_setSequenceId f p.1 p.2

mutual
theorem renumber_proc (ws : Char → Bool) (add : Bool) : ∀ (p : Proc) (es : List Encoding),
    (p.renumber f).processEncodings ws add (es.map (Encoding.renumber f))
      = (p.processEncodings ws add es).map (·.map (Encoding.renumber f))
  | .roberta m trim aps, es => by
    simp only [Proc.renumber, Proc.processEncodings, Option.map_some, renumber_roberta]
  | .bert m, es => by
    simp only [Proc.renumber, Proc.processEncodings, Option.map_some, renumber_bert]
  | .byteLevel aps trim, es => by
    simp only [Proc.renumber, Proc.processEncodings, Option.map_some, renumber_byteLevel]
  | .template t, es => by
    simp only [Proc.renumber, Proc.processEncodings, Template.processEncodings, List.length_map, Template.renumber]
    split
    · exact renumber_applyTemplate f _ _ _ _
    · exact renumber_applyTemplate f _ _ _ _
    · rfl
  | .sequence ps, es => by
    simp only [Proc.renumber, Proc.processEncodings]
    exact renumber_procs ws add ps es

theorem renumber_procs (ws : Char → Bool) (add : Bool) : ∀ (ps : List Proc) (es : List Encoding),
    processAll ws add (renumberAll f ps) (es.map (Encoding.renumber f))
      = (processAll ws add ps es).map (·.map (Encoding.renumber f))
  | [], es => by simp only [renumberAll, processAll, Option.map_some]
  | p :: ps, es => by
    simp only [renumberAll, processAll]
    rw [renumber_proc ws add p es]
    cases p.processEncodings ws add es with
    | none => rfl
    | some es' => exact renumber_procs ws add ps es'
end

theorem renumber_prepare (i : Nat) (e : Encoding) : prepare i (e.renumber f) = (prepare i e).renumber f := by
  unfold prepare
  dsimp only
  rw [renumber_setSequenceId]
  generalize e.setSequenceId i = e
  have : (e.renumber f).setOverflowing ((e.renumber f).overflowing.map (·.setSequenceId i))
      = (e.setOverflowing (e.overflowing.map (·.setSequenceId i))).renumber f := by
    rw [← renumber_setOverflowing, renumber_overflowing, List.map_map, List.map_map]
    congr 1
    exact List.map_congr_left fun o _ => renumber_setSequenceId f o i
  rw [this, renumber_len, renumber_setTypeIds]

theorem renumber_process (ws : Char → Bool) (p : Proc) (e : Encoding) (pair : Option Encoding) (add : Bool) :
    (p.renumber f).process ws (e.renumber f) (pair.map (Encoding.renumber f)) add
      = (p.process ws e pair add).map (Encoding.renumber f) := by
  have key : ∀ es : List Encoding, ((p.renumber f).processEncodings ws add (es.map (Encoding.renumber f))).map (merge · false)
      = ((p.processEncodings ws add es).map (merge · false)).map (Encoding.renumber f) := by
    intro es
    rw [renumber_proc, Option.map_map, Option.map_map]
    congr 1
    funext l
    exact renumber_merge f l false
  unfold Proc.process
  cases pair with
  | none =>
    have := key [prepare 0 e]
    simp only [List.map_cons, List.map_nil, ← renumber_prepare] at this
    exact this
  | some o =>
    have := key [prepare 0 e, prepare 1 o]
    simp only [List.map_cons, List.map_nil, ← renumber_prepare] at this
    exact this

theorem renumber_defaultProcess (es : List Encoding) :
    defaultProcess (es.map (Encoding.renumber f)) = (defaultProcess es).map (Encoding.renumber f) := by
  have : defaultMerge (es.map (Encoding.renumber f)) = (defaultMerge es).renumber f := by
    unfold defaultMerge
    rw [List.zipIdx_map, List.foldl_map]
    have : ∀ (l : List (Encoding × Nat)) (acc : Encoding),
        l.foldl (fun acc p => acc.mergeWith ((p.1.renumber f).setSequenceId p.2) false) (acc.renumber f)
          = (l.foldl (fun acc p => acc.mergeWith (p.1.setSequenceId p.2) false) acc).renumber f := by
      intro l
      induction l with
      | nil => intro acc; rfl
      | cons p l ih =>
        intro acc
        rw [List.foldl_cons, List.foldl_cons, renumber_setSequenceId, renumber_mergeWith]
        exact ih _
    have h := this es.zipIdx empty
    rw [renumber_empty] at h
    exact h
  match es, this with
  | [], h => exact congrArg (fun x => [x]) h
  | [e], _ => rfl
  | e :: e' :: es, h => exact congrArg (fun x => [x]) h

mutual
theorem renumber_added (isPair : Bool) : ∀ p : Proc, (p.renumber f).added isPair = p.added isPair
  | .roberta .. => rfl
  | .bert .. => rfl
  | .byteLevel .. => rfl
  | .template .. => rfl
  | .sequence ps => by
    simp only [Proc.renumber, Proc.added]
    exact renumber_addedAll isPair ps

theorem renumber_addedAll (isPair : Bool) : ∀ ps : List Proc, addedAll isPair (renumberAll f ps) = addedAll isPair ps
  | [] => rfl
  | p :: ps => by
    simp only [renumberAll, addedAll]
    rw [renumber_added isPair p, renumber_addedAll isPair ps]
end

/-- **C117.** Post-processing (truncation, special tokens, padding) of encodings with other ids, the settings having the same
other ids: the same encoding, with the other ids. -/
theorem C117_postProcess (ws : Char → Bool) (checked : Bool) (s : Settings) (e : Encoding) (pair : Option Encoding) (add : Bool) :
    (s.renumber f).postProcess ws checked (e.renumber f) (pair.map (Encoding.renumber f)) add
      = (s.postProcess ws checked e pair add).map (Encoding.renumber f) := by
  have hn : ∀ b, (s.renumber f).added b = s.added b := by
    intro b
    unfold Settings.added Settings.renumber
    cases s.processor with
    | none => rfl
    | some p => exact renumber_added f b p
  have ht : (s.renumber f).truncate checked (e.renumber f) (pair.map (Encoding.renumber f)) add
      = (s.truncate checked e pair add).map fun x => (x.1.renumber f, x.2.map (Encoding.renumber f)) := by
    unfold Settings.truncate
    rw [hn, Option.isSome_map]
    show (match s.truncation with | none => _ | some tr => _) = _
    cases s.truncation with
    | none => rfl
    | some tr =>
      dsimp only
      split
      · cases usizeSub checked tr.maxLength (s.added pair.isSome) with
        | none => rfl
        | some m => exact renumber_truncateEncodings f e pair _
      · exact renumber_truncateEncodings f e pair _
  have hfin : ∀ (e : Encoding) (pair : Option Encoding),
      (s.renumber f).finish ws (e.renumber f) (pair.map (Encoding.renumber f)) add
        = (s.finish ws e pair add).map (Encoding.renumber f) := by
    intro e pair
    unfold Settings.finish Settings.renumber
    dsimp only
    cases s.processor with
    | some p => exact renumber_process f ws p e pair add
    | none =>
      dsimp only [Option.map_none]
      have : inputList (e.renumber f) (pair.map (Encoding.renumber f)) = (inputList e pair).map (Encoding.renumber f) := by
        cases pair <;> rfl
      rw [this, renumber_defaultProcess]
      match defaultProcess (inputList e pair) with
      | [] => rfl
      | [x] => rfl
      | _ :: _ :: _ => rfl
  have hpad : ∀ e : Encoding, (s.renumber f).padOne (e.renumber f) = (s.padOne e).renumber f := by
    intro e
    unfold Settings.padOne Settings.renumber
    dsimp only
    cases s.padding with
    | none => rfl
    | some p =>
      dsimp only [Option.map_some]
      have h := renumber_padEncodings f [e] p
      rw [List.map_singleton] at h
      rw [h]
      cases padEncodings [e] p <;> rfl
  unfold Settings.postProcess
  rw [ht]
  cases s.truncate checked e pair add with
  | error er => rfl
  | ok x =>
    obtain ⟨e', pair'⟩ := x
    simp only [Except.map]
    rw [hfin]
    cases s.finish ws e' pair' add with
    | none => rfl
    | some out => simp only [Option.map_some, hpad]

end Tok.Post
