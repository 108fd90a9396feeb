import Verif.Post.Bert

/-!
# C35: template post-processing
-/

namespace Tok.Post
open Encoding

/-! ## What the result looks like -/

/-- The tokens of a special piece, each with mask 1. -/
def specialRows (tok : SpecialToken) (ty : Nat) : List Row :=
  (tok.ids.zip tok.tokens).map fun p => mark (p.2, p.1) ty

/-- The input a sequence piece stands for. -/
def inputOf (e : Encoding) (pair : Option Encoding) : Seq → Option Encoding
  | .A => some e
  | .B => pair

/-- The tokens a piece stands for: the input with the type id of the piece, or the special tokens. -/
def pieceRows (spt : Tokens) (add : Bool) (e : Encoding) (pair : Option Encoding) : Piece → List Row
  | .sequence s ty => ((inputOf e pair s).elim [] rows).map (retype ty)
  | .special id ty => if add then (spt.get id).elim [] (specialRows · ty) else []

/-- The tokens a piece can stand for in some part of the result: for a sequence, those of its main part
with the type id of the piece, or those of one of its overflowing parts. -/
def Alt (spt : Tokens) (add : Bool) (e : Encoding) (pair : Option Encoding) (c : List Row) (p : Piece) :
    Prop :=
  c = pieceRows spt add e pair p ∨
  ∃ s ty x o, p = .sequence s ty ∧ inputOf e pair s = some x ∧ o ∈ x.overflowing ∧ c = o.rows

/-- Where sequence `s` is when the pieces, standing for the tokens `cs`, are laid out from position `n`:
the place of the last piece for it. -/
def placeOf (s : Seq) : Nat → List Piece → List (List Row) → Option Range
  | n, p :: ps, c :: cs =>
    match placeOf s (n + c.length) ps cs with
    | some r => some r
    | none => match p with
      | .sequence s' _ => if s' = s then some (n, n + c.length) else none
      | .special _ _ => none
  | _, _, _ => none

/-- The encoding is the concatenation of `cs`, and its sequence ranges are the places of the two
sequences. -/
def Instance (tmpl : List Piece) (cs : List (List Row)) (out : Encoding) : Prop :=
  out.rows = cs.flatten ∧ out.seqRanges.get 0 = placeOf .A 0 tmpl cs ∧
  out.seqRanges.get 1 = placeOf .B 0 tmpl cs ∧ ∀ q, 2 ≤ q → out.seqRanges.get q = none

/-- A piece that can be filled: the second sequence only if there is one, a special token (when they
are added) only if known, with as many ids as texts. -/
def Usable (spt : Tokens) (add : Bool) (isPair : Bool) : Piece → Prop
  | .sequence .A _ => True
  | .sequence .B _ => isPair = true
  | .special id _ => add = true → ∃ tok, spt.get id = some tok ∧ tok.ids.length = tok.tokens.length

/-- The template used. -/
def Template.chosen (t : Template) (isPair : Bool) : List Piece := if isPair then t.pair else t.single

/-! ## The inputs need no threading -/

/-- What a sequence piece makes of its input. -/
def fill (i ty : Nat) (e : Encoding) : Encoding :=
  (e.setTypeIds (List.replicate e.len ty)).setSequenceId i

theorem fill_fill (i a b : Nat) (e : Encoding) : fill i b (fill i a e) = fill i b e := by
  cases e
  simp only [fill, setTypeIds, setSequenceId, len, ids_mk, AMap.insert, mk.injEq, List.cons.injEq,
    true_and]
  simp

/-- One piece, from the original inputs. -/
def pieceOut (spt : Tokens) (add : Bool) (es : List Encoding) : Piece → Option (Option Encoding)
  | .sequence s ty => (es[s.index]?).map fun e => some (fill s.index ty e)
  | .special id ty => if add then (spt.get id).map fun t => some (specialEncoding t ty) else some none

theorem applyTemplate_eq (spt : Tokens) (add : Bool) (es : List Encoding) : ∀ (ps : List Piece) es',
    (∀ i ty : Nat, (es'[i]?).map (fill i ty) = (es[i]?).map (fill i ty)) →
    applyTemplate spt add es' ps = (ps.mapM (pieceOut spt add es)).map (·.filterMap id) := by
  intro ps
  induction ps with
  | nil => intro es' _; rfl
  | cons p ps ih =>
    intro es' h
    rw [applyTemplate, List.mapM_cons]
    cases p with
    | sequence s ty =>
      have hs := h s.index ty
      simp only [applyPiece, pieceOut]
      cases he' : es'[s.index]? with
      | none =>
        rw [he'] at hs
        cases he : es[s.index]? with
        | none => rfl
        | some e => rw [he] at hs; cases hs
      | some e' =>
        rw [he'] at hs
        cases he : es[s.index]? with
        | none => rw [he] at hs; cases hs
        | some e =>
          rw [he] at hs
          simp only [Option.map_some, Option.some.injEq] at hs
          have hinv : ∀ i ty' : Nat, ((es'.set s.index (fill s.index ty e'))[i]?).map (fill i ty') =
              (es[i]?).map (fill i ty') := by
            intro i ty'
            rw [List.getElem?_set]
            by_cases hi : s.index = i
            · subst hi
              have hlt : s.index < es'.length := by
                rw [List.getElem?_eq_some_iff] at he'; exact he'.1
              simp only [if_true, hlt, Option.map_some]
              have := h s.index ty'
              rw [he'] at this
              rw [fill_fill]
              exact this
            · simp only [hi, if_false]; exact h i ty'
          have := ih _ hinv
          unfold fill at this hs
          simp only [this, Option.map_some]
          cases hm : ps.mapM (pieceOut spt add es) with
          | none => simp
          | some os => simp [fill, hs]
    | special id ty =>
      simp only [applyPiece, pieceOut]
      cases add with
      | false =>
        simp only [Bool.false_eq_true, if_false]
        rw [ih es' h]
        cases hm : ps.mapM (pieceOut spt false es) <;> simp
      | true =>
        simp only [if_true]
        cases hg : spt.get id with
        | none => rfl
        | some tok =>
          simp only [Option.map_some]
          rw [ih es' h]
          cases hm : ps.mapM (pieceOut spt true es) <;> simp

/-! ## Special pieces -/

theorem specialEncoding_rows {tok : SpecialToken} (h : tok.ids.length = tok.tokens.length) (ty : Nat) :
    (specialEncoding tok ty).rows = specialRows tok ty := by
  have hz : ∃ l : List (Str × Nat), tok.ids = l.map (·.2) ∧ tok.tokens = l.map (·.1) :=
    ⟨tok.tokens.zip tok.ids, by rw [List.map_snd_zip (by omega)], by rw [List.map_fst_zip (by omega)]⟩
  obtain ⟨l, h1, h2⟩ := hz
  unfold specialEncoding specialRows
  rw [h1, h2]
  have := marks_rows l ty [] []
  simp only [List.map_const'] at this
  simp only [List.length_map]
  rw [this]
  clear this h1 h2
  induction l with
  | nil => rfl
  | cons x xs ih => simp [ih]

theorem specialEncoding_wf {tok : SpecialToken} (h : tok.ids.length = tok.tokens.length) (ty : Nat) :
    (specialEncoding tok ty).WF := by
  refine .intro _ ?_ ?_ ?_
  · simp [specialEncoding, Parallel, h]
  · intro q r hm; cases hm
  · intro o ho; cases ho

theorem length_specialRows {tok : SpecialToken} (h : tok.ids.length = tok.tokens.length) (ty : Nat) :
    (specialRows tok ty).length = tok.ids.length := by
  simp [specialRows, h]

/-! ## Sequence pieces -/

theorem fill_prepare_parts {e : Encoding} (h : e.WF) (hf : Fresh e) (i ty : Nat) :
    Fills (fill i ty (prepare i e)) i [] [] (partsOf (·.map (retype ty)) id e) := by
  have hov : (fill i ty (prepare i e)).overflowing = e.overflowing.map (·.setSequenceId i) := by
    cases e; rfl
  have hw : (fill i ty (prepare i e)).WF := setSequenceId_wf (setTypeIds_wf (prepare_wf h i) ty) i
  refine ⟨?_, ?_⟩
  · simp only [parts, partsOf, List.map_cons, List.cons.injEq]
    refine ⟨?_, ?_⟩
    · unfold fill
      rw [setSequenceId_rows, setTypeIds_rows (prepare_wf h i).parallel, prepare_rows h.parallel,
        map_retype_retype]
      simp
    · rw [hov, List.map_map, List.map_map]
      apply List.map_congr_left
      intro o _
      simp [setSequenceId_rows]
  · intro c hc
    rcases List.mem_cons.1 hc with rfl | hc
    · refine ⟨hw, ?_⟩
      have h0 := hf.1
      cases e
      simp only [seqRanges_mk] at h0
      subst h0
      simp [fill, prepare, setSequenceId, setTypeIds, setOverflowing, AMap.insert, len]
    · rw [hov] at hc
      obtain ⟨x, hx, rfl⟩ := List.mem_map.1 hc
      exact ⟨setSequenceId_wf (h.over x hx) i, by
        rw [setSequenceId_seqRanges _ _ (hf.2 x hx), setSequenceId_len]; rfl⟩

/-- The inputs given to the processors. -/
def inputs (e : Encoding) (pair : Option Encoding) : List Encoding :=
  match pair with
  | some o => [prepare 0 e, prepare 1 o]
  | none => [prepare 0 e]

theorem inputs_get (e : Encoding) (pair : Option Encoding) (s : Seq) :
    (inputs e pair)[s.index]? = (inputOf e pair s).map (prepare s.index) := by
  cases s <;> cases pair <;> rfl

/-- The sequence ranges of the encoding of a piece. -/
def pieceRanges (p : Piece) (n : Nat) : AMap Nat Range :=
  match p with
  | .sequence s _ => [(s.index, (0, n))]
  | .special _ _ => []

/-- Everything about one usable piece. -/
theorem piece_ok {spt : Tokens} {add : Bool} {e : Encoding} {pair : Option Encoding} (he : e.WF)
    (hef : Fresh e) (hp : ∀ o, pair = some o → o.WF ∧ Fresh o) (p : Piece)
    (hu : Usable spt add pair.isSome p) :
    ∃ x, pieceOut spt add (inputs e pair) p = some x ∧
      match x with
      | none => (∃ id ty, p = .special id ty) ∧ ∀ c, Alt spt add e pair c p ↔ c = []
      | some x => (∀ d ∈ x.parts, d.WF ∧ Alt spt add e pair d.rows p ∧
          d.seqRanges = pieceRanges p d.len) ∧
        (∀ c, Alt spt add e pair c p → ∃ d ∈ x.parts, d.rows = c) ∧
        x.rows = pieceRows spt add e pair p := by
  cases p with
  | sequence s ty =>
    have hx : ∃ x, inputOf e pair s = some x ∧ x.WF ∧ Fresh x := by
      cases s with
      | A => exact ⟨e, rfl, he, hef⟩
      | B =>
        simp only [Usable, Option.isSome_iff_exists] at hu
        obtain ⟨o, ho⟩ := hu
        exact ⟨o, ho, hp o ho⟩
    obtain ⟨x, hx, hxw, hxf⟩ := hx
    have hf := fill_prepare_parts hxw hxf s.index ty
    refine ⟨some (fill s.index ty (prepare s.index x)), ?_, ?_, ?_, ?_⟩
    · simp [pieceOut, inputs_get, hx]
    · intro d hd
      obtain ⟨r, hr, hre⟩ := fills_mem hf hd
      refine ⟨(hf.2 d hd).1, ?_, ?_⟩
      · simp only [List.nil_append, List.append_nil] at hre
        simp only [partsOf, List.mem_cons, List.mem_map] at hr
        rcases hr with hr | ⟨o, ho, hr⟩
        · left
          rw [hre, hr]; simp [pieceRows, hx]
        · right
          exact ⟨s, ty, x, o, rfl, hx, ho, by rw [hre, ← hr]; rfl⟩
      · have := (hf.2 d hd).2
        simpa [pieceRanges] using this
    · intro c hc
      have hmem : c ∈ partsOf (·.map (retype ty)) id x := by
        rcases hc with hc | ⟨s', ty', x', o, hs, hx', ho, hc⟩
        · subst hc; simp [partsOf, pieceRows, hx]
        · cases hs
          rw [hx] at hx'
          cases hx'
          subst hc
          simp only [partsOf, List.mem_cons, List.mem_map]
          exact .inr ⟨o, ho, rfl⟩
      obtain ⟨d, hd, e⟩ := fills_mem' hf hmem
      exact ⟨d, hd, by simpa using e⟩
    · have := List.head_eq_of_cons_eq hf.1
      rw [this]; simp [pieceRows, hx]
  | special id ty =>
    cases add with
    | false =>
      refine ⟨none, rfl, ⟨_, _, rfl⟩, ?_⟩
      intro c
      constructor
      · rintro (h | ⟨_, _, _, _, h, _⟩)
        · exact h
        · cases h
      · intro h; exact .inl h
    | true =>
      obtain ⟨tok, hg, hl⟩ := hu rfl
      have hr := specialEncoding_rows hl ty
      refine ⟨some (specialEncoding tok ty), by simp [pieceOut, hg], ?_, ?_, ?_⟩
      · intro d hd
        simp [parts, specialEncoding] at hd
        subst hd
        exact ⟨specialEncoding_wf hl ty, .inl (by simp only [pieceRows, hg]; exact hr), rfl⟩
      · rintro c (h | ⟨_, _, _, _, h, _⟩)
        · refine ⟨_, by simp [parts]; exact .inl rfl, ?_⟩
          rw [hr, h]; simp [pieceRows, hg]
        · cases h
      · rw [hr]; simp [pieceRows, hg]

/-- The range of `q` in pieces laid out one after the other, as a function of their tokens. -/
def Placed (tmpl : List Piece) (cs : List (List Row)) (ds : List Encoding) : Prop :=
  ∀ n, rangeFrom 0 n ds = placeOf .A n tmpl cs ∧ rangeFrom 1 n ds = placeOf .B n tmpl cs ∧
    ∀ q, 2 ≤ q → rangeFrom q n ds = none

theorem placed_cons {tmpl cs ds} (h : Placed tmpl cs ds) {p : Piece} {d : Encoding} (hw : d.WF)
    (hs : d.seqRanges = pieceRanges p d.len) : Placed (p :: tmpl) (d.rows :: cs) (d :: ds) := by
  intro n
  obtain ⟨h0, h1, h2⟩ := h (n + d.len)
  have hl := rows_length hw.parallel
  simp only [rangeFrom, placeOf, hl, h0, h1]
  refine ⟨?_, ?_, ?_⟩
  · cases placeOf .A (n + d.len) tmpl cs with
    | some r => rfl
    | none =>
      rw [hs]
      cases p with
      | sequence s ty => cases s <;> simp [pieceRanges, get_singleton, Seq.index]
      | special => rfl
  · cases placeOf .B (n + d.len) tmpl cs with
    | some r => rfl
    | none =>
      rw [hs]
      cases p with
      | sequence s ty => cases s <;> simp [pieceRanges, get_singleton, Seq.index]
      | special => rfl
  · intro q hq
    rw [h2 q hq, hs]
    cases p with
    | sequence s ty =>
      cases s <;> simp only [pieceRanges, get_singleton, Seq.index]
      · rw [if_neg (by omega)]; rfl
      · rw [if_neg (by omega)]; rfl
    | special => rfl

theorem placed_skip {tmpl cs ds} (h : Placed tmpl cs ds) (id : Str) (ty : Nat) :
    Placed (.special id ty :: tmpl) ([] :: cs) ds := by
  intro n
  obtain ⟨h0, h1, h2⟩ := h n
  simp only [placeOf, List.length_nil, Nat.add_zero]
  refine ⟨?_, ?_, h2⟩
  · rw [h0]; cases placeOf .A n tmpl cs <;> rfl
  · rw [h1]; cases placeOf .B n tmpl cs <;> rfl

/-- All that is needed about a template, piece by piece. -/
theorem template_ok {spt : Tokens} {add : Bool} {e : Encoding} {pair : Option Encoding} (he : e.WF)
    (hef : Fresh e) (hp : ∀ o, pair = some o → o.WF ∧ Fresh o) :
    ∀ (tmpl : List Piece), (∀ p ∈ tmpl, Usable spt add pair.isSome p) →
    ∃ os, tmpl.mapM (pieceOut spt add (inputs e pair)) = some os ∧
      (∀ ds, Each (fun d x => d ∈ x.parts) ds (os.filterMap id) →
        ∃ cs, Each (Alt spt add e pair) cs tmpl ∧ (ds.map rows).flatten = cs.flatten ∧
          Placed tmpl cs ds ∧ ∀ d ∈ ds, d.WF ∧ AMap.WF d.seqRanges) ∧
      (∀ cs, Each (Alt spt add e pair) cs tmpl →
        ∃ ds, Each (fun d x => d ∈ x.parts) ds (os.filterMap id) ∧ (ds.map rows).flatten = cs.flatten ∧
          Placed tmpl cs ds ∧ ∀ d ∈ ds, d.WF ∧ AMap.WF d.seqRanges) ∧
      ((os.filterMap id).map rows).flatten = tmpl.flatMap (pieceRows spt add e pair) ∧
      Placed tmpl (tmpl.map (pieceRows spt add e pair)) (os.filterMap id) ∧
      ∀ d ∈ os.filterMap id, d.WF ∧ AMap.WF d.seqRanges := by
  intro tmpl
  induction tmpl with
  | nil =>
    intro _
    have hnil : Placed [] [] [] := fun n => ⟨rfl, rfl, fun _ _ => rfl⟩
    refine ⟨[], rfl, ?_, ?_, rfl, hnil, by intro d h; cases h⟩
    · intro ds h
      cases h
      exact ⟨[], .nil, rfl, hnil, by intro d h; cases h⟩
    · intro cs h
      cases h
      exact ⟨[], .nil, rfl, hnil, by intro d h; cases h⟩
  | cons p ps ih =>
    intro hu
    obtain ⟨os, hos, h1, h2, h3, h4, h5⟩ := ih (fun q hq => hu q (List.mem_cons_of_mem _ hq))
    obtain ⟨x, hx, hxs⟩ := piece_ok he hef hp p (hu p List.mem_cons_self)
    refine ⟨x :: os, ?_, ?_⟩
    · rw [List.mapM_cons, hx, hos]; rfl
    have wfRange : ∀ d : Encoding, d.seqRanges = pieceRanges p d.len → AMap.WF d.seqRanges := by
      intro d h
      rw [h]
      cases p
      · exact wf_singleton
      · exact List.nodup_nil
    cases x with
    | none =>
      obtain ⟨⟨id, ty, rfl⟩, ha⟩ := hxs
      have hpr : pieceRows spt add e pair (.special id ty) = [] := (ha _).1 (.inl rfl)
      simp only [List.filterMap_cons, id_eq]
      refine ⟨?_, ?_, ?_, ?_, h5⟩
      · intro ds hds
        obtain ⟨cs, k1, k2, k3, k4⟩ := h1 ds hds
        exact ⟨[] :: cs, .cons ((ha _).2 rfl) k1, by simpa using k2, placed_skip k3 _ _, k4⟩
      · intro cs hcs
        cases hcs with
        | cons hc hcs =>
          have := (ha _).1 hc
          subst this
          obtain ⟨ds, k1, k2, k3, k4⟩ := h2 _ hcs
          exact ⟨ds, k1, by simpa using k2, placed_skip k3 _ _, k4⟩
      · rw [List.flatMap_cons, hpr, h3]; rfl
      · rw [List.map_cons, hpr]; exact placed_skip h4 _ _
    | some x =>
      obtain ⟨ha, hb, hc⟩ := hxs
      simp only [List.filterMap_cons, id_eq]
      have hxm : x ∈ x.parts := by simp [parts]
      obtain ⟨g1, g2, g3⟩ := ha x hxm
      refine ⟨?_, ?_, ?_, ?_, ?_⟩
      · intro ds hds
        cases hds with
        | @cons d _ ds _ hd hds =>
          obtain ⟨cs, k1, k2, k3, k4⟩ := h1 ds hds
          obtain ⟨j1, j2, j3⟩ := ha d hd
          refine ⟨d.rows :: cs, .cons j2 k1, by simp [k2], placed_cons k3 j1 j3, ?_⟩
          intro d' hd'
          rcases List.mem_cons.1 hd' with rfl | hd'
          · exact ⟨j1, wfRange _ j3⟩
          · exact k4 d' hd'
      · intro cs hcs
        cases hcs with
        | @cons c _ cs _ hcc hcs =>
          obtain ⟨ds, k1, k2, k3, k4⟩ := h2 _ hcs
          obtain ⟨d, hd, rfl⟩ := hb c hcc
          obtain ⟨j1, j2, j3⟩ := ha d hd
          refine ⟨d :: ds, .cons hd k1, by simp [k2], placed_cons k3 j1 j3, ?_⟩
          intro d' hd'
          rcases List.mem_cons.1 hd' with rfl | hd'
          · exact ⟨j1, wfRange _ j3⟩
          · exact k4 d' hd'
      · rw [List.map_cons, List.flatten_cons, h3, hc]; rfl
      · rw [List.map_cons, ← hc]; exact placed_cons h4 g1 g3
      · intro d' hd'
        rcases List.mem_cons.1 hd' with rfl | hd'
        · exact ⟨g1, wfRange _ g3⟩
        · exact h5 d' hd'

theorem template_process (ws : Char → Bool) (t : Template) (e : Encoding) (pair : Option Encoding)
    (add : Bool) : (Proc.template t).process ws e pair add =
      ((t.chosen pair.isSome).mapM (pieceOut t.specials add (inputs e pair))).map
        fun os => merge (os.filterMap id) false := by
  have key : ∀ es : List Encoding, ∀ ps, applyTemplate t.specials add es ps =
      (ps.mapM (pieceOut t.specials add es)).map (·.filterMap id) :=
    fun es ps => applyTemplate_eq _ _ _ _ _ (fun _ _ => rfl)
  cases pair with
  | none =>
    show ((applyTemplate t.specials add [prepare 0 e] t.single).map _) = _
    rw [key, Option.map_map]; rfl
  | some o =>
    show ((applyTemplate t.specials add [prepare 0 e, prepare 1 o] t.pair).map _) = _
    rw [key, Option.map_map]; rfl

theorem instance_of_placed {tmpl cs ds} (h : Placed tmpl cs ds) (hr : (ds.map rows).flatten = cs.flatten)
    (hw : ∀ d ∈ ds, d.WF ∧ AMap.WF d.seqRanges) : Instance tmpl cs (merge ds false) := by
  obtain ⟨h0, h1, h2⟩ := h 0
  refine ⟨?_, ?_, ?_, ?_⟩
  · rw [C05_merge_list (fun d hd => (hw d hd).1), hr]
  · rw [merge_ranges _ _ _ (fun d hd => (hw d hd).2), h0]
  · rw [merge_ranges _ _ _ (fun d hd => (hw d hd).2), h1]
  · intro q hq
    rw [merge_ranges _ _ _ (fun d hd => (hw d hd).2), h2 q hq]

/-- **C35.** The result is the pieces of the template in order: each sequence piece is its input with
the type id of the piece, each special piece its tokens with mask 1 (nothing when special tokens are
off); each sequence range is the place of the last piece for that sequence. Every overflowing part is an
instance of the template too, over one part of the input for each sequence piece, and each choice
occurs. -/
theorem C35_template (ws : Char → Bool) (t : Template) (add : Bool) {e : Encoding}
    {pair : Option Encoding} (he : e.WF) (hef : Fresh e) (hp : ∀ o, pair = some o → o.WF ∧ Fresh o)
    (hu : ∀ p ∈ t.chosen pair.isSome, Usable t.specials add pair.isSome p) :
    let tmpl := t.chosen pair.isSome
    ∃ out, (Proc.template t).process ws e pair add = some out ∧
      Instance tmpl (tmpl.map (pieceRows t.specials add e pair)) out ∧
      (∀ o ∈ out.parts, ∃ cs, Each (Alt t.specials add e pair) cs tmpl ∧ Instance tmpl cs o) ∧
      (∀ cs, Each (Alt t.specials add e pair) cs tmpl → ∃ o ∈ out.parts, Instance tmpl cs o) := by
  intro tmpl
  obtain ⟨os, h0, h1, h2, h3, h4, h5⟩ := template_ok he hef hp tmpl hu
  refine ⟨merge (os.filterMap id) false, ?_, ?_, ?_, ?_⟩
  · rw [template_process, h0]; rfl
  · exact instance_of_placed h4 (by rw [h3, List.flatMap]) h5
  · intro o ho
    obtain ⟨ds, hds, rfl⟩ := (C05_merge_list_parts _ _ _).1 ho
    obtain ⟨cs, k1, k2, k3, k4⟩ := h1 ds hds
    exact ⟨cs, k1, instance_of_placed k3 k2 k4⟩
  · intro cs hcs
    obtain ⟨ds, k1, k2, k3, k4⟩ := h2 cs hcs
    exact ⟨_, (C05_merge_list_parts _ _ _).2 ⟨ds, k1, rfl⟩, instance_of_placed k3 k2 k4⟩

/-! ## How many tokens -/

/-- How often a template uses a sequence. -/
def uses (s : Seq) (tmpl : List Piece) : Nat :=
  tmpl.countP fun p => match p with
    | .sequence s' _ => s' == s
    | .special _ _ => false

theorem length_pieceRows {spt : Tokens} {add : Bool} {e : Encoding} {pair : Option Encoding}
    (he : e.WF) (hp : ∀ o, pair = some o → o.WF) (p : Piece)
    (hu : Usable spt add pair.isSome p) :
    (pieceRows spt add e pair p).length =
      uses .A [p] * e.len + uses .B [p] * pair.elim 0 len + (if add then pieceAdded spt p else 0) := by
  cases p with
  | sequence s ty =>
    cases s with
    | A => simp [pieceRows, inputOf, uses, rows_length he.parallel, pieceAdded]
    | B =>
      cases pair with
      | none => simp [Usable] at hu
      | some o => simp [pieceRows, inputOf, uses, rows_length (hp o rfl).parallel, pieceAdded]
  | special id ty =>
    cases add with
    | false => simp [pieceRows, uses]
    | true =>
      obtain ⟨tok, hg, hl⟩ := hu rfl
      simp [pieceRows, uses, hg, pieceAdded, length_specialRows hl]

theorem length_template {spt : Tokens} {add : Bool} {e : Encoding} {pair : Option Encoding}
    (he : e.WF) (hp : ∀ o, pair = some o → o.WF) : ∀ (tmpl : List Piece),
    (∀ p ∈ tmpl, Usable spt add pair.isSome p) →
    (tmpl.map (pieceRows spt add e pair)).flatten.length =
      uses .A tmpl * e.len + uses .B tmpl * pair.elim 0 len +
        (if add then countAdded tmpl spt else 0) := by
  intro tmpl
  induction tmpl with
  | nil => intro _; cases add <;> simp [uses, countAdded]
  | cons p ps ih =>
    intro hu
    have h1 := length_pieceRows he hp p (hu p List.mem_cons_self)
    have h2 := ih (fun q hq => hu q (List.mem_cons_of_mem _ hq))
    have hc : ∀ s, uses s (p :: ps) = uses s [p] + uses s ps := by
      intro s
      show List.countP _ ([p] ++ ps) = _
      rw [List.countP_append]; rfl
    rw [List.map_cons, List.flatten_cons, List.length_append, h1, h2, hc, hc, Nat.add_mul, Nat.add_mul]
    cases add <;> simp [countAdded] <;> omega

theorem merge_rows_len {out : Encoding} (h : out.WF) : out.len = out.rows.length :=
  (rows_length h.parallel).symm

/-- **C35 (count).** When a template uses the first sequence once, and the second once if there is one,
the number of tokens grows by the number counted from the template when special tokens are on, and not
at all when they are off. -/
theorem C35_count (ws : Char → Bool) (t : Template) (add : Bool) {e : Encoding}
    {pair : Option Encoding} (he : e.WF) (hef : Fresh e) (hp : ∀ o, pair = some o → o.WF ∧ Fresh o)
    (hu : ∀ p ∈ t.chosen pair.isSome, Usable t.specials add pair.isSome p)
    (ha : uses .A (t.chosen pair.isSome) = 1)
    (hb : pair.isSome = true → uses .B (t.chosen pair.isSome) = 1) {out}
    (ho : (Proc.template t).process ws e pair add = some out) :
    out.len = e.len + pair.elim 0 len +
      (if add then countAdded (t.chosen pair.isSome) t.specials else 0) := by
  obtain ⟨os, h0, h1, h2, h3, h4, h5⟩ := template_ok he hef hp (t.chosen pair.isSome) hu
  rw [template_process, h0] at ho
  cases ho
  rw [merge_rows_len (merge_wf (fun d hd => (h5 d hd).1) false), C05_merge_list (fun d hd => (h5 d hd).1),
    h3, List.flatMap, length_template he (fun o ho => (hp o ho).1) _ hu, ha]
  cases pair with
  | none => simp
  | some o => rw [hb rfl]; simp

/-- **C35 (validation).** A template from the builder has been checked: every special token it uses is
known, the pair template uses both sequences, and the numbers it reports are those counted from the
templates. -/
theorem C35_built {single pair : Option (List Piece)} {spt : Option Tokens} {t : Template}
    (h : build single pair spt = some t) :
    (∀ id ty, .special id ty ∈ t.single ++ t.pair → ∃ tok, t.specials.get id = some tok) ∧
    1 ≤ uses .A t.pair ∧ 1 ≤ uses .B t.pair ∧
    t.addedSingle = countAdded t.single t.specials ∧ t.addedPair = countAdded t.pair t.specials := by
  unfold build at h
  split at h
  · rename_i hv
    cases h
    simp only [validate, Bool.and_eq_true, List.isEmpty_iff] at hv
    obtain ⟨hb, hm⟩ := hv
    have hknown : ∀ id ty, Piece.special id ty ∈ single.getD [] ++ pair.getD [] →
        ∃ tok, AMap.get (spt.getD []) id = some tok := by
      intro id ty hmem
      rw [missing, List.filterMap_eq_nil_iff] at hm
      have := hm _ hmem
      simp only [ite_eq_left_iff, Bool.not_eq_true, Option.isSome_eq_false_iff, Option.isNone_iff_eq_none,
        reduceCtorEq, imp_false] at this
      exact Option.ne_none_iff_exists'.1 this
    have huse : 1 ≤ uses .A (pair.getD [.sequence .A 0, .sequence .B 1]) ∧
        1 ≤ uses .B (pair.getD [.sequence .A 0, .sequence .B 1]) := by
      cases pair with
      | none => exact ⟨by decide, by decide⟩
      | some p =>
        simp only [hasBoth, Bool.and_eq_true, List.any_eq_true] at hb
        obtain ⟨⟨x, hx, hx'⟩, y, hy, hy'⟩ := hb
        refine ⟨List.countP_pos_iff.2 ⟨x, hx, ?_⟩, List.countP_pos_iff.2 ⟨y, hy, ?_⟩⟩
        · split at hx' <;> simp_all
        · split at hy' <;> simp_all
    refine ⟨?_, huse.1, huse.2, ?_, ?_⟩
    · intro id ty hmem
      refine hknown id ty ?_
      simp only [List.mem_append] at hmem ⊢
      rcases hmem with h | h
      · cases single with
        | none => simp at h
        | some s => exact .inl h
      · cases pair with
        | none => simp at h
        | some s => exact .inr h
    · cases single <;> simp [countAdded, pieceAdded]
    · cases pair <;> simp [countAdded, pieceAdded]
  · cases h

/-- **C35 (added_tokens).** For a template from the builder using each sequence once, with special
tokens whose ids and texts match in number: encoding with special tokens adds exactly `added_tokens`
tokens, and without them none. -/
theorem C35_added (ws : Char → Bool) {single pair₀ : Option (List Piece)} {spt : Option Tokens}
    {t : Template} (hb : build single pair₀ spt = some t) (add : Bool) {e : Encoding}
    {pair : Option Encoding} (he : e.WF) (hef : Fresh e) (hp : ∀ o, pair = some o → o.WF ∧ Fresh o)
    (htok : ∀ id tok, t.specials.get id = some tok → tok.ids.length = tok.tokens.length)
    (hs : uses .A t.single = 1 ∧ uses .B t.single = 0) (hpr : uses .A t.pair = 1 ∧ uses .B t.pair = 1) :
    ∃ out, (Proc.template t).process ws e pair add = some out ∧
      out.len = e.len + pair.elim 0 len +
        (if add then (Proc.template t).added pair.isSome else 0) := by
  obtain ⟨hk, _, _, c1, c2⟩ := C35_built hb
  have hu : ∀ p ∈ t.chosen pair.isSome, Usable t.specials add pair.isSome p := by
    intro p hm
    cases p with
    | sequence s ty =>
      cases s with
      | A => trivial
      | B =>
        cases pair with
        | some o => rfl
        | none =>
          have := hs.2
          rw [uses, List.countP_eq_zero] at this
          exact absurd rfl (this _ hm)
    | special id ty =>
      intro _
      have : Piece.special id ty ∈ t.single ++ t.pair := by
        rw [List.mem_append]
        cases pair
        · exact .inl hm
        · exact .inr hm
      obtain ⟨tok, ht⟩ := hk id ty this
      exact ⟨tok, ht, htok id tok ht⟩
  obtain ⟨out, ho, _⟩ := C35_template ws t add he hef hp hu
  refine ⟨out, ho, ?_⟩
  rw [C35_count ws t add he hef hp hu (by cases pair <;> simp [Template.chosen, *])
    (by cases pair <;> simp [Template.chosen, *]) ho]
  cases pair <;> simp [Template.chosen, Proc.added, c1, c2]

/-- **C35 (ranges).** The place of a sequence read off the template: right after the tokens of the
pieces before its last piece. -/
theorem C35_place (s : Seq) (ty : Nat) (post : List Piece) (cpost : List (List Row)) (c : List Row)
    (hno : uses s post = 0) : ∀ (pre : List Piece) (cpre : List (List Row)) (n : Nat),
    cpre.length = pre.length →
    placeOf s n (pre ++ .sequence s ty :: post) (cpre ++ c :: cpost) =
      some (n + cpre.flatten.length, n + cpre.flatten.length + c.length) := by
  have hnone : ∀ (ps : List Piece) (cs : List (List Row)) (n : Nat), uses s ps = 0 →
      placeOf s n ps cs = none := by
    intro ps
    induction ps with
    | nil => intro cs n _; cases cs <;> rfl
    | cons p ps ih =>
      intro cs n h
      cases cs with
      | nil => rfl
      | cons c cs =>
        rw [uses, List.countP_eq_zero] at h
        simp only [placeOf]
        rw [ih cs _ (by
          rw [uses, List.countP_eq_zero]
          exact fun a ha => h a (List.mem_cons_of_mem _ ha))]
        have := h p List.mem_cons_self
        cases p <;> simp_all
  intro pre
  induction pre with
  | nil =>
    intro cpre n hl
    cases cpre with
    | nil => simp [placeOf, hnone post cpost _ hno]
    | cons => simp at hl
  | cons p ps ih =>
    intro cpre n hl
    cases cpre with
    | nil => simp at hl
    | cons c' cs =>
      simp only [List.length_cons, Nat.add_right_cancel_iff] at hl
      simp only [List.cons_append, placeOf]
      rw [ih cs _ hl]
      simp [Nat.add_assoc]

/-- **C35 (defined).** `process` with a template panics exactly when a piece asks for a second sequence
that is not there, or (special tokens on) for an unknown special token. -/
theorem C35_defined (ws : Char → Bool) (t : Template) (add : Bool) (e : Encoding)
    (pair : Option Encoding) :
    (Proc.template t).process ws e pair add = none ↔
      (pair = none ∧ ∃ ty, .sequence .B ty ∈ t.chosen pair.isSome) ∨
      (add = true ∧ ∃ id ty, .special id ty ∈ t.chosen pair.isSome ∧ t.specials.get id = none) := by
  rw [template_process, Option.map_eq_none_iff]
  have hm : ∀ (l : List Piece), l.mapM (pieceOut t.specials add (inputs e pair)) = none ↔
      ∃ p ∈ l, pieceOut t.specials add (inputs e pair) p = none := by
    intro l
    induction l with
    | nil => simp
    | cons p ps ih =>
      rw [List.mapM_cons]
      cases hp : pieceOut t.specials add (inputs e pair) p with
      | none => simp [hp]
      | some x =>
        cases hq : ps.mapM (pieceOut t.specials add (inputs e pair)) with
        | none =>
          have := ih.1 hq
          obtain ⟨p', h1, h2⟩ := this
          simp
          exact .inr ⟨p', h1, h2⟩
        | some os =>
          have h3 : ¬ ∃ p ∈ ps, pieceOut t.specials add (inputs e pair) p = none := by
            rw [← ih, hq]; simp
          simp [hp]
          intro p' h1 h2
          exact h3 ⟨p', h1, h2⟩
  rw [hm]
  constructor
  · rintro ⟨p, hp, h⟩
    cases p with
    | sequence s ty =>
      simp only [pieceOut, Option.map_eq_none_iff, inputs_get] at h
      cases s with
      | A => simp [inputOf] at h
      | B => exact .inl ⟨h, ty, hp⟩
    | special id ty =>
      simp only [pieceOut] at h
      cases add with
      | false => simp at h
      | true =>
        simp only [if_true, Option.map_eq_none_iff] at h
        exact .inr ⟨rfl, id, ty, hp, h⟩
  · rintro (⟨rfl, ty, hp⟩ | ⟨rfl, id, ty, hp, h⟩)
    · exact ⟨_, hp, rfl⟩
    · exact ⟨_, hp, by simp [pieceOut, h]⟩

/-! ## Examples and findings -/

/-- A Bert-like template. -/
def sampleTemplate : Option Template :=
  build (parseTemplate "[CLS] $A [SEP]".toList) (parseTemplate "[CLS] $A [SEP] $B:1 [SEP]:1".toList)
    (some (Tokens.ofList [⟨"[CLS]".toList, [1], ["[CLS]".toList]⟩, ⟨"[SEP]".toList, [0], ["[SEP]".toList]⟩]))

example : ∃ t, sampleTemplate = some t ∧ t.addedSingle = 2 ∧ t.addedPair = 3 ∧
    (uses .A t.single = 1 ∧ uses .B t.single = 0) ∧ (uses .A t.pair = 1 ∧ uses .B t.pair = 1) ∧
    ((Proc.template t).process (fun _ => false) sampleEnc (some sampleEnc) true).map
      (fun o => (o.typeIds, o.specialMask, o.seqRanges.get 0, o.seqRanges.get 1)) =
      some ([0, 0, 0, 0, 0, 1, 1, 1, 1], [1, 0, 0, 0, 1, 0, 0, 0, 1], some (1, 4), some (5, 8)) :=
  ⟨_, rfl, by decide +kernel, by decide +kernel, by decide +kernel, by decide +kernel, by decide +kernel⟩

/-- **C35 (finding).** Replacing a template by `set_single` keeps the old number of added tokens: the
processor then reports 0 and inserts 2. -/
theorem C35_stale_count : ∃ t t' : Template, ∃ e out,
    build none none (some (Tokens.ofList [⟨['c'], [1], [['c']]⟩])) = some t ∧
    t' = t.setSingle [.special ['c'] 0, .sequence .A 0, .special ['c'] 0] ∧
    (Proc.template t').process (fun _ => false) e none true = some out ∧
    (Proc.template t').added false = 0 ∧ out.len = e.len + 2 :=
  ⟨_, _, sampleEnc, _, rfl, rfl, rfl, by decide +kernel, by decide +kernel⟩

/-- **C35 (finding).** The builder accepts a template for one sequence that asks for the second one;
encoding one sequence then panics. -/
theorem C35_single_with_B : ∃ t : Template, build (some [.sequence .B 0]) none none = some t ∧
    (Proc.template t).process (fun _ => false) sampleEnc none true = none :=
  ⟨_, rfl, by decide +kernel⟩

/-- **C35 (finding).** The type id of a sequence piece reaches the main part only: with the template
`$A:7`, an overflowing part keeps type id 0. -/
theorem C35_overflow_type_ids : ∃ t : Template, ∃ e out, build (some [.sequence .A 7]) none none = some t ∧
    sampleEnc.truncate 2 0 .right = some e ∧
    (Proc.template t).process (fun _ => false) e none true = some out ∧
    out.typeIds = [7, 7] ∧ out.overflowing.map typeIds = [[0]] :=
  ⟨_, _, _, rfl, rfl, rfl, by decide +kernel, by decide +kernel⟩

/-- **C35 (finding).** Special tokens read from JSON are not checked (`SpecialToken` derives
`Deserialize`): with two ids and one text the result is no longer parallel. -/
theorem C35_unchecked_special : ∃ out,
    (Proc.template (ofJson [.special ['c'] 0] [] [(['c'], ⟨['c'], [1, 2], [['c']]⟩)])).process
      (fun _ => false) sampleEnc none true = some out ∧ out.ids.length = 2 ∧ out.tokens.length = 1 :=
  ⟨_, rfl, by decide +kernel, by decide +kernel⟩

/-- **C35 (finding).** `$1` is the first sequence with type id 1, so the default `TemplateProcessing`
(`pair` is `$1`) drops the second sequence of a pair. -/
theorem C35_default_drops_pair :
    parseTemplate "$1".toList = some Template.default.pair ∧
    ∃ out, (Proc.template .default).process (fun _ => false) sampleEnc (some sampleEnc) true = some out ∧
      out.len = sampleEnc.len ∧ out.seqRanges.get 1 = none :=
  ⟨by decide +kernel, _, rfl, by decide +kernel, by decide +kernel⟩

end Tok.Post
