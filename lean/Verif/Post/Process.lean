import Verif.Post.Template

/-!
# C37: `post_process`, the last stage of encoding

`tokenizer/mod.rs:661-674` (`with_truncation`) and `tokenizer/mod.rs:1260-1326` (`post_process`,
`get_n_added_tokens`).
-/

namespace Tok.Post
open Encoding

/-! ## Model -/

/-- The settings of `TokenizerImpl` (`tokenizer/mod.rs:512-529`) that `post_process` reads. -/
structure Settings where
  truncation : Option TruncParams
  padding : Option PadParams
  processor : Option Proc

/-- `tokenizer/mod.rs:1319-1325` `get_n_added_tokens`. -/
def Settings.added (s : Settings) (isPair : Bool) : Nat := s.processor.elim 0 (·.added isPair)

/-- `a - b` on `usize` (64 bit): with overflow checks a panic when negative, otherwise wrapping. -/
def usizeSub (checked : Bool) (a b : Nat) : Option Nat :=
  if b ≤ a then some (a - b) else if checked then none else some (2 ^ 64 + a - b)

/-- Step 1 of `post_process` (`tokenizer/mod.rs:1273-1291`). -/
def Settings.truncate (checked : Bool) (s : Settings) (e : Encoding) (pair : Option Encoding)
    (add : Bool) : Except TruncError (Encoding × Option Encoding) :=
  match s.truncation with
  | none => .ok (e, pair)
  | some tr =>
    let n := s.added pair.isSome
    if add && decide (0 < n) then
      match usizeSub checked tr.maxLength n with
      | none => .error .panic
      | some m => truncateEncodings e pair { tr with maxLength := m }
    else truncateEncodings e pair tr

/-- The list of inputs (`tokenizer/mod.rs:1297-1301`). -/
def inputList (e : Encoding) (pair : Option Encoding) : List Encoding :=
  match pair with
  | some o => [e, o]
  | none => [e]

/-- Step 2 of `post_process` (`tokenizer/mod.rs:1293-1308`); `none` is a panic. `ws` stands for
`char::is_whitespace`. -/
def Settings.finish (ws : Char → Bool) (s : Settings) (e : Encoding) (pair : Option Encoding)
    (add : Bool) : Option Encoding :=
  match s.processor with
  | some p => p.process ws e pair add
  | none =>
    match defaultProcess (inputList e pair) with
    | [x] => some x
    | _ => none

/-- Step 3 of `post_process` (`tokenizer/mod.rs:1310-1317`). -/
def Settings.padOne (s : Settings) (e : Encoding) : Encoding :=
  match s.padding with
  | none => e
  | some p => (padEncodings [e] p).headD e

/-- `tokenizer/mod.rs:1265-1317` `post_process`. -/
def Settings.postProcess (ws : Char → Bool) (checked : Bool) (s : Settings) (e : Encoding)
    (pair : Option Encoding) (add : Bool) : Except TruncError Encoding :=
  match s.truncate checked e pair add with
  | .error er => .error er
  | .ok (e', pair') =>
    match s.finish ws e' pair' add with
    | none => .error .panic
    | some out => .ok (s.padOne out)

/-- `tokenizer/mod.rs:661-674` `with_truncation`: `none` is a panic, `some false` the error. -/
def Settings.truncationOk (checked : Bool) (s : Settings) (tr : TruncParams) : Option Bool :=
  (usizeSub checked tr.maxLength (s.added false)).map fun m => !decide (m < tr.stride)

/-! ## Processors whose reported count is right -/

/-- Processors that keep the number of encodings. -/
inductive Keeps : Proc → Prop
  | roberta (m trim aps) : Keeps (.roberta m trim aps)
  | bert (m) : Keeps (.bert m)
  | byteLevel (aps trim) : Keeps (.byteLevel aps trim)
  | sequence {ps} (h : ∀ p ∈ ps, Keeps p) : Keeps (.sequence ps)

/-- Processors that add nothing. -/
inductive Neutral : Proc → Prop
  | byteLevel (aps trim) : Neutral (.byteLevel aps trim)
  | sequence {ps} (h : ∀ p ∈ ps, Neutral p) : Neutral (.sequence ps)

/-- A template that uses each input once, knows its special tokens and reports how many it adds. -/
structure Template.Good (t : Template) : Prop where
  known : ∀ id ty, .special id ty ∈ t.single ++ t.pair → ∃ tok, t.specials.get id = some tok
  single : uses .A t.single = 1 ∧ uses .B t.single = 0
  pair : uses .A t.pair = 1 ∧ uses .B t.pair = 1
  countSingle : t.addedSingle = countAdded t.single t.specials
  countPair : t.addedPair = countAdded t.pair t.specials

/-- Processors that add as many tokens as they report: Bert, Roberta, byte-level, good templates, and
sequences in which at most one template occurs, followed by processors that add nothing. -/
inductive WellCounted : Proc → Prop
  | keeps {p} (h : Keeps p) : WellCounted p
  | template {t} (h : t.Good) : WellCounted (.template t)
  | sequence {before p after} (hb : ∀ q ∈ before, Keeps q) (hp : WellCounted p)
      (ha : ∀ q ∈ after, Neutral q) : WellCounted (.sequence (before ++ p :: after))

/-- A template from the builder that uses each input once is good. -/
theorem good_built {single pair : Option (List Piece)} {spt : Option Tokens} {t : Template}
    (h : build single pair spt = some t) (hs : uses .A t.single = 1 ∧ uses .B t.single = 0)
    (hp : uses .A t.pair = 1 ∧ uses .B t.pair = 1) : t.Good :=
  let ⟨h1, _, _, h4, h5⟩ := C35_built h
  ⟨h1, hs, hp, h4, h5⟩

/-! ## Measures -/

/-- A size of encodings that processing changes only by the number of inserted tokens. -/
structure Measure (M : Encoding → Nat) : Prop where
  around : ∀ (b a : List (Str × Nat)) (inner : List Nat) (inner' : Encoding → List Nat) (ty q : Nat)
    (e : Encoding), M (surround b a inner ty q
      (e.overflowing.map fun o => surround b a (inner' o) ty q [] o) e) = M e + b.length + a.length
  trim : ∀ ws aps e, M (trimAll ws aps e) = M e
  types : ∀ (e : Encoding) ts, M (e.setTypeIds ts) = M e
  seq : ∀ (e : Encoding) q, M (e.setSequenceId q) = M e
  prep : ∀ (e : Encoding) i, M (prepare i e) = M e
  special : ∀ tok ty, M (specialEncoding tok ty) = tok.ids.length

theorem setTypeIds_len (e : Encoding) (ts : List Nat) : (e.setTypeIds ts).len = e.len := by
  cases e; rfl

theorem setTypeIds_overflowing (e : Encoding) (ts : List Nat) :
    (e.setTypeIds ts).overflowing = e.overflowing := by cases e; rfl

theorem setSequenceId_overflowing (e : Encoding) (q : Nat) :
    (e.setSequenceId q).overflowing = e.overflowing := by cases e; rfl

theorem prepare_overflowing' (i : Nat) (e : Encoding) :
    (prepare i e).overflowing = e.overflowing.map (·.setSequenceId i) := by
  cases e; rfl

theorem measure_len : Measure len where
  around b a inner inner' ty q e := by rw [surround_len]; omega
  trim := trimAll_len
  types := setTypeIds_len
  seq := setSequenceId_len
  prep e i := prepare_len i e
  special tok ty := rfl

/-- The largest number of tokens in a part. -/
def widest (e : Encoding) : Nat := (e.overflowing.map len).foldl max e.len

theorem foldl_max_add (k : Nat) : ∀ (l : List Nat) (a : Nat),
    (l.map (· + k)).foldl max (a + k) = l.foldl max a + k := by
  intro l
  induction l with
  | nil => intro a; rfl
  | cons x xs ih =>
    intro a
    rw [List.map_cons, List.foldl_cons, List.foldl_cons,
      show max (a + k) (x + k) = max a x + k by omega, ih]

theorem measure_widest : Measure widest where
  around b a inner inner' ty q e := by
    have h1 : (surround b a inner ty q
        (e.overflowing.map fun o => surround b a (inner' o) ty q [] o) e).overflowing =
        e.overflowing.map fun o => surround b a (inner' o) ty q [] o := rfl
    rw [widest, h1, surround_len, List.map_map, Nat.add_assoc (widest e), widest,
      ← foldl_max_add (b.length + a.length), List.map_map]
    congr 1
    · omega
    · apply List.map_congr_left
      intro o _
      simp only [Function.comp_apply, surround_len]; omega
  trim ws aps e := by
    rw [widest, trimAll_overflowing, trimAll_len, List.map_map]
    show _ = (e.overflowing.map len).foldl max e.len
    congr 1
    apply List.map_congr_left
    intro o _
    exact processOffsets_len ws aps o
  types e ts := by rw [widest, setTypeIds_len, setTypeIds_overflowing]; rfl
  seq e q := by rw [widest, setSequenceId_len, setSequenceId_overflowing]; rfl
  prep e i := by
    rw [widest, prepare_len, prepare_overflowing', List.map_map]
    show _ = (e.overflowing.map len).foldl max e.len
    congr 1
    apply List.map_congr_left
    intro o _
    exact setSequenceId_len o i
  special tok ty := rfl

/-- Sum of the sizes. -/
def total (M : Encoding → Nat) (es : List Encoding) : Nat := (es.map M).sum

theorem total_map {M : Encoding → Nat} {f : Encoding → Encoding} (h : ∀ e, M (f e) = M e)
    (es : List Encoding) : total M (es.map f) = total M es := by
  simp only [total, List.map_map]
  congr 1
  apply List.map_congr_left
  intro e _; exact h e

theorem total_byteLevel {M : Encoding → Nat} (hM : Measure M) (ws aps trim) (es : List Encoding) :
    total M (ByteLevel.processEncodings ws aps trim es) = total M es ∧
    (ByteLevel.processEncodings ws aps trim es).length = es.length := by
  have key : ∀ (l : List Encoding) (n : Nat),
      total M ((l.zipIdx n).map fun p => p.1.setSequenceId p.2) = total M l := by
    intro l
    induction l with
    | nil => intro n; rfl
    | cons x xs ih =>
      intro n
      have := ih (n + 1)
      simp only [total, List.zipIdx_cons, List.map_cons, List.sum_cons] at *
      rw [hM.seq, this]
  have e1 : ByteLevel.processEncodings ws aps trim es =
      ((if trim then es.map (trimAll ws aps) else es).zipIdx).map fun p => p.1.setSequenceId p.2 := rfl
  rw [e1, key]
  cases trim
  · simp
  · refine ⟨?_, by simp⟩
    simp only [if_true]
    exact total_map (hM.trim ws aps) es

theorem total_mapFirst {M : Encoding → Nat} {f g : Encoding → Encoding} {a b : Nat}
    (hf : ∀ e, M (f e) = M e + a) (hg : ∀ e, M (g e) = M e + b) {es : List Encoding}
    (hl : es.length = 1 ∨ es.length = 2) :
    total M (mapFirst f g es) = total M es + if es.length = 2 then a + b else a := by
  rcases es with _ | ⟨x, _ | ⟨y, _ | ⟨z, t⟩⟩⟩
  · simp at hl
  · simp [mapFirst, total, hf]
  · simp [mapFirst, total, hf, hg]; omega
  · simp at hl

theorem length_mapFirst (f g : Encoding → Encoding) (es : List Encoding) :
    (mapFirst f g es).length = es.length := by
  cases es <;> simp [mapFirst]

/-- What a processor does to the total size. -/
def Adds (M : Encoding → Nat) (ws : Char → Bool) (add : Bool) (p : Proc) (es : List Encoding) : Prop :=
  ∃ es', p.processEncodings ws add es = some es' ∧
    total M es' = total M es + if add then p.added (decide (es.length = 2)) else 0

/-- The same, keeping the number of encodings. -/
def AddsKeep (M : Encoding → Nat) (ws : Char → Bool) (add : Bool) (p : Proc) (es : List Encoding) :
    Prop :=
  ∃ es', p.processEncodings ws add es = some es' ∧ es'.length = es.length ∧
    total M es' = total M es + if add then p.added (decide (es.length = 2)) else 0

theorem addsKeep_all {M : Encoding → Nat} {ws : Char → Bool} {add : Bool} {es₀ : List Encoding} :
    ∀ (ps : List Proc), (∀ p ∈ ps, ∀ es : List Encoding, es.length = es₀.length →
      AddsKeep M ws add p es) → ∀ es : List Encoding, es.length = es₀.length →
    ∃ es', processAll ws add ps es = some es' ∧ es'.length = es.length ∧
      total M es' = total M es + if add then addedAll (decide (es.length = 2)) ps else 0 := by
  intro ps
  induction ps with
  | nil => intro _ es _; exact ⟨es, by simp [processAll], rfl, by simp [addedAll]⟩
  | cons p ps ih =>
    intro h es hl
    obtain ⟨es₁, h1, h2, h3⟩ := h p List.mem_cons_self es hl
    obtain ⟨es₂, k1, k2, k3⟩ := ih (fun q hq => h q (List.mem_cons_of_mem _ hq)) es₁ (by omega)
    refine ⟨es₂, by simp [processAll, h1, k1], by omega, ?_⟩
    rw [k3, h3, h2]
    cases add <;> simp [addedAll] ; omega

theorem keeps_adds {M : Encoding → Nat} (hM : Measure M) (ws : Char → Bool) (add : Bool) {p : Proc}
    (h : Keeps p) : ∀ es : List Encoding, (es.length = 1 ∨ es.length = 2) → AddsKeep M ws add p es := by
  induction h with
  | bert m =>
    intro es hl
    refine ⟨_, by simp only [Proc.processEncodings]; rfl, ?_⟩
    cases add
    · simp [bertProcess]
    · simp only [bertProcess, if_true]
      refine ⟨length_mapFirst _ _ _, ?_⟩
      rw [total_mapFirst (M := M) (a := 2) (b := 1) (fun e => ?_) (fun e => ?_) hl]
      · rcases hl with h | h <;> simp [h, Proc.added, bertAdded]
      · exact hM.around [m.cls] [m.sep] _ typeIds 0 0 e
      · exact hM.around [] [m.sep] _ typeIds 1 1 e
  | roberta m trim aps =>
    intro es hl
    refine ⟨_, by simp only [Proc.processEncodings]; rfl, ?_⟩
    have hpre : total M ((if trim then es.map (trimAll ws aps) else es).map fun e =>
        e.setTypeIds (List.replicate e.len 0)) = total M es := by
      rw [total_map (fun e => hM.types e _)]
      cases trim
      · rfl
      · simp only [if_true]; exact total_map (hM.trim ws aps) es
    have hlen : ((if trim then es.map (trimAll ws aps) else es).map fun e =>
        e.setTypeIds (List.replicate e.len 0)).length = es.length := by
      cases trim <;> simp
    cases add
    · simp only [robertaProcess]
      exact ⟨hlen, by simpa using hpre⟩
    · simp only [robertaProcess, if_true]
      refine ⟨by rw [length_mapFirst]; exact hlen, ?_⟩
      rw [total_mapFirst (M := M) (a := 2) (b := 2) (fun e => ?_) (fun e => ?_) (by rw [hlen]; exact hl),
        hpre, hlen]
      · rcases hl with h | h <;> simp [h, Proc.added, robertaAdded]
      · exact hM.around [m.cls] [m.sep] _ (fun o => List.replicate o.ids.length 0) 0 0 e
      · exact hM.around [m.sep] [m.sep] _ (fun o => List.replicate o.ids.length 0) 0 1 e
  | byteLevel aps trim =>
    intro es hl
    refine ⟨_, by simp only [Proc.processEncodings]; rfl, ?_⟩
    obtain ⟨h1, h2⟩ := total_byteLevel hM ws aps trim es
    exact ⟨h2, by rw [h1]; cases add <;> simp [Proc.added]⟩
  | sequence h ih =>
    intro es hl
    obtain ⟨es', h1, h2, h3⟩ := addsKeep_all (M := M) (ws := ws) (add := add) (es₀ := es) _
      (fun p hp es' hl' => ih p hp es' (by omega)) es rfl
    exact ⟨es', by simpa [Proc.processEncodings] using h1, h2, by rw [h3]; cases add <;> simp [Proc.added]⟩

theorem neutral_added {p : Proc} (h : Neutral p) (b : Bool) : p.added b = 0 := by
  induction h with
  | byteLevel => simp [Proc.added]
  | sequence h ih =>
    rename_i ps
    simp only [Proc.added]
    clear h
    induction ps with
    | nil => simp [addedAll]
    | cons q qs ih' =>
      simp only [addedAll]
      rw [ih q List.mem_cons_self, ih' fun x hx => ih x (List.mem_cons_of_mem _ hx)]

theorem neutral_all {M : Encoding → Nat} {ws : Char → Bool} {add : Bool} : ∀ (ps : List Proc),
    (∀ p ∈ ps, ∀ es : List Encoding, ∃ es', p.processEncodings ws add es = some es' ∧
      total M es' = total M es) →
    ∀ es : List Encoding, ∃ es', processAll ws add ps es = some es' ∧ total M es' = total M es := by
  intro ps
  induction ps with
  | nil => intro _ es; exact ⟨es, by simp [processAll], rfl⟩
  | cons p ps ih =>
    intro h es
    obtain ⟨es₁, h1, h3⟩ := h p List.mem_cons_self es
    obtain ⟨es₂, k1, k3⟩ := ih (fun q hq => h q (List.mem_cons_of_mem _ hq)) es₁
    exact ⟨es₂, by simp [processAll, h1, k1], by omega⟩

theorem neutral_adds {M : Encoding → Nat} (hM : Measure M) (ws : Char → Bool) (add : Bool) {p : Proc}
    (h : Neutral p) : ∀ es : List Encoding, ∃ es', p.processEncodings ws add es = some es' ∧
      total M es' = total M es := by
  induction h with
  | byteLevel aps trim =>
    intro es
    exact ⟨_, by simp only [Proc.processEncodings], (total_byteLevel hM ws aps trim es).1⟩
  | sequence h ih =>
    intro es
    obtain ⟨es', h1, h3⟩ := neutral_all (M := M) (ws := ws) (add := add) _ ih es
    exact ⟨es', by simpa [Proc.processEncodings] using h1, h3⟩

theorem addedAll_neutral {ps : List Proc} (h : ∀ p ∈ ps, Neutral p) (b : Bool) : addedAll b ps = 0 := by
  have := neutral_added (.sequence h) b
  simpa [Proc.added] using this

theorem addedAll_append (b : Bool) : ∀ (ps qs : List Proc),
    addedAll b (ps ++ qs) = addedAll b ps + addedAll b qs := by
  intro ps
  induction ps with
  | nil => simp [addedAll]
  | cons p ps ih => intro qs; simp only [List.cons_append, addedAll, ih]; omega

theorem processAll_append (ws : Char → Bool) (add : Bool) : ∀ (ps qs : List Proc) (es : List Encoding),
    processAll ws add (ps ++ qs) es = (processAll ws add ps es).bind (processAll ws add qs) := by
  intro ps
  induction ps with
  | nil => simp [processAll]
  | cons p ps ih =>
    intro qs es
    simp only [List.cons_append, processAll]
    cases p.processEncodings ws add es with
    | none => rfl
    | some es' => simpa using ih qs es'

/-- The size of a template's output, whatever the inputs. -/
theorem template_total {M : Encoding → Nat} (hM : Measure M) (spt : Tokens) (add : Bool)
    (es : List Encoding) : ∀ (ps : List Piece),
    (∀ id ty, .special id ty ∈ ps → ∃ tok, spt.get id = some tok) →
    (0 < uses .A ps → 1 ≤ es.length) → (0 < uses .B ps → 2 ≤ es.length) →
    ∃ os, ps.mapM (pieceOut spt add es) = some os ∧
      total M (os.filterMap id) = uses .A ps * (es[0]?).elim 0 M + uses .B ps * (es[1]?).elim 0 M +
        if add then countAdded ps spt else 0 := by
  intro ps
  induction ps with
  | nil => intro _ _ _; exact ⟨[], by simp, by simp [uses, total, countAdded]⟩
  | cons p ps ih =>
    intro hk ha hb
    have hcons : ∀ s, uses s (p :: ps) = uses s [p] + uses s ps := by
      intro s; simp only [uses, List.countP_cons, List.countP_nil]; omega
    have hca : countAdded (p :: ps) spt = pieceAdded spt p + countAdded ps spt := by simp [countAdded]
    obtain ⟨os, h1, h2⟩ := ih (fun id ty hm => hk id ty (List.mem_cons_of_mem _ hm))
      (fun h => ha (by rw [hcons]; omega)) (fun h => hb (by rw [hcons]; omega))
    have step : ∃ o, pieceOut spt add es p = some o ∧ total M o.toList =
        uses .A [p] * (es[0]?).elim 0 M + uses .B [p] * (es[1]?).elim 0 M +
          if add then pieceAdded spt p else 0 := by
      cases p with
      | sequence s ty =>
        cases s with
        | A =>
          have := ha (by rw [hcons]; simp [uses]; omega)
          have he : es[0]? = some es[0] := List.getElem?_eq_getElem (by omega)
          refine ⟨some (fill 0 ty es[0]), by simp [pieceOut, Seq.index, he], ?_⟩
          simp [total, uses, fill, hM.seq, hM.types, he, pieceAdded]
        | B =>
          have := hb (by rw [hcons]; simp [uses]; omega)
          have he : es[1]? = some es[1] := List.getElem?_eq_getElem (by omega)
          refine ⟨some (fill 1 ty es[1]), by simp [pieceOut, Seq.index, he], ?_⟩
          simp [total, uses, fill, hM.seq, hM.types, he, pieceAdded]
      | special id ty =>
        cases add with
        | false => exact ⟨none, by simp [pieceOut], by simp [total, uses]⟩
        | true =>
          obtain ⟨tok, ht⟩ := hk id ty List.mem_cons_self
          exact ⟨some (specialEncoding tok ty), by simp [pieceOut, ht],
            by simp [total, uses, pieceAdded, ht, hM.special]⟩
    obtain ⟨o, h3, h4⟩ := step
    refine ⟨o :: os, by simp [List.mapM_cons, h1, h3], ?_⟩
    have h5 : total M ((o :: os).filterMap id) = total M o.toList + total M (os.filterMap id) := by
      cases o <;> simp [total]
    rw [h5, h2, h4, hcons, hcons, hca, Nat.add_mul, Nat.add_mul]
    cases add <;> simp <;> omega

theorem wellCounted_adds {M : Encoding → Nat} (hM : Measure M) (ws : Char → Bool) (add : Bool) {p : Proc}
    (h : WellCounted p) : ∀ es : List Encoding, (es.length = 1 ∨ es.length = 2) → Adds M ws add p es := by
  induction h with
  | keeps h =>
    intro es hl
    obtain ⟨es', h1, _, h3⟩ := keeps_adds hM ws add h es hl
    exact ⟨es', h1, h3⟩
  | template h =>
    rename_i t
    intro es hl
    rcases hl with hl | hl
    · obtain ⟨os, h1, h2⟩ := template_total hM t.specials add es t.single
        (fun id ty hm => h.known id ty (by simp [hm])) (by omega) (by rw [h.single.2]; omega)
      refine ⟨os.filterMap id, ?_, ?_⟩
      · simp only [Proc.processEncodings, Template.processEncodings, hl]
        rw [applyTemplate_eq t.specials add es _ _ (fun _ _ => rfl), h1]; rfl
      · rw [h2, h.single.1, h.single.2]
        rcases es with _ | ⟨x, _ | ⟨y, r⟩⟩
        · simp at hl
        · cases add <;> simp [total, Proc.added, h.countSingle]
        · simp at hl
    · obtain ⟨os, h1, h2⟩ := template_total hM t.specials add es t.pair
        (fun id ty hm => h.known id ty (by simp [hm])) (by omega) (by omega)
      refine ⟨os.filterMap id, ?_, ?_⟩
      · simp only [Proc.processEncodings, Template.processEncodings, hl]
        rw [applyTemplate_eq t.specials add es _ _ (fun _ _ => rfl), h1]; rfl
      · rw [h2, h.pair.1, h.pair.2]
        rcases es with _ | ⟨x, _ | ⟨y, _ | ⟨z, r⟩⟩⟩
        · simp at hl
        · simp at hl
        · cases add <;> simp [total, Proc.added, h.countPair]
        · simp at hl
  | sequence hb hp ha ih =>
    rename_i before p after
    intro es hl
    obtain ⟨es₁, h1, h2, h3⟩ := keeps_adds hM ws add (.sequence hb) es hl
    obtain ⟨es₂, k1, k3⟩ := ih es₁ (by omega)
    obtain ⟨es₃, l1, l3⟩ := neutral_adds hM ws add (.sequence ha) es₂
    simp only [Proc.processEncodings] at h1 l1
    refine ⟨es₃, ?_, ?_⟩
    · simp only [Proc.processEncodings]
      rw [processAll_append, h1, Option.bind_some, processAll, k1, Option.bind_some, l1]
    · rw [l3, k3, h3, h2]
      cases add
      · simp
      · simp only [Proc.added, if_true, addedAll_append, addedAll, addedAll_neutral ha]; omega

end Tok.Post
