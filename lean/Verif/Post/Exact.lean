import Verif.Post.C37

/-!
# What sequences of post-processors insert (C54)

For every nesting of processors whose templates use each input once: how many tokens are inserted, how many encodings the next
processor gets, and when processing panics.
-/

namespace Tok.Post
open Encoding

/-! ## Specification -/

/-- A template that uses each input once and knows its special tokens. Nothing is said about the counts it has stored. -/
structure Template.Once (t : Template) : Prop where
  known : ∀ id ty, .special id ty ∈ t.single ++ t.pair → ∃ tok, t.specials.get id = some tok
  single : uses .A t.single = 1 ∧ uses .B t.single = 0
  pair : uses .A t.pair = 1 ∧ uses .B t.pair = 1

/-- All templates in a processor are such. -/
inductive TemplatesOnce : Proc → Prop
  | roberta (m trim aps) : TemplatesOnce (.roberta m trim aps)
  | bert (m) : TemplatesOnce (.bert m)
  | byteLevel (aps trim) : TemplatesOnce (.byteLevel aps trim)
  | template {t} (h : t.Once) : TemplatesOnce (.template t)
  | sequence {ps} (h : ∀ p ∈ ps, TemplatesOnce p) : TemplatesOnce (.sequence ps)

/-- The tokens of the special pieces of a template. -/
def specialTokens (spt : Tokens) : List Piece → Nat
  | [] => 0
  | .special id _ :: ps => ((spt.get id).elim 0 fun tok => tok.ids.length) + specialTokens spt ps
  | .sequence _ _ :: ps => specialTokens spt ps

mutual
/-- The number of tokens inserted when `k` encodings come in, and the number of encodings that come out; `none`: it panics.
Bert puts two marks around the first encoding and one after each other, Roberta two around each. A template wants one or two
encodings and makes one of every piece. -/
def inserts (add : Bool) : Proc → Nat → Option (Nat × Nat)
  | .bert _, k => some (if add then 2 + (k - 1) else 0, k)
  | .roberta _ _ _, k => some (if add then 2 + 2 * (k - 1) else 0, k)
  | .byteLevel _ _, k => some (0, k)
  | .template t, k =>
    if k = 1 then some (if add then (specialTokens t.specials t.single, t.single.length) else (0, 1))
    else if k = 2 then some (if add then (specialTokens t.specials t.pair, t.pair.length) else (0, 2))
    else none
  | .sequence ps, k => insertsAll add ps k

/-- One after the other. -/
def insertsAll (add : Bool) : List Proc → Nat → Option (Nat × Nat)
  | [], k => some (0, k)
  | p :: ps, k => (inserts add p k).bind fun r => (insertsAll add ps r.2).map fun r' => (r.1 + r'.1, r'.2)
end

/-! ## Proofs -/

theorem total_mapFirst_any {M : Encoding → Nat} {f g : Encoding → Encoding} {a b : Nat}
    (hf : ∀ e, M (f e) = M e + a) (hg : ∀ e, M (g e) = M e + b) {es : List Encoding} (hne : es ≠ []) :
    total M (mapFirst f g es) = total M es + (a + b * (es.length - 1)) := by
  cases es with
  | nil => exact absurd rfl hne
  | cons x xs =>
    have key : ∀ l : List Encoding, total M (l.map g) = total M l + b * l.length := by
      intro l
      induction l with
      | nil => rfl
      | cons y l ih =>
        simp only [total, List.map_cons, List.sum_cons, List.length_cons, hg] at *
        rw [ih, Nat.mul_add]
        omega
    have := key xs
    simp only [mapFirst, total, List.map_cons, List.sum_cons, hf, List.length_cons, Nat.add_sub_cancel] at *
    rw [this]
    omega

theorem specialTokens_eq (spt : Tokens) : ∀ ps : List Piece, countAdded ps spt = specialTokens spt ps
  | [] => rfl
  | .special id ty :: ps => by
    have := specialTokens_eq spt ps
    simp only [countAdded, List.map_cons, List.sum_cons, specialTokens, pieceAdded] at *
    rw [this]
  | .sequence s ty :: ps => by
    have := specialTokens_eq spt ps
    simp only [countAdded, List.map_cons, List.sum_cons, specialTokens, pieceAdded] at *
    rw [this, Nat.zero_add]

/-- How many encodings a template makes. -/
theorem template_length (spt : Tokens) (add : Bool) (es : List Encoding) : ∀ (ps : List Piece) {os : List (Option Encoding)},
    ps.mapM (pieceOut spt add es) = some os →
      (os.filterMap id).length = if add then ps.length else uses .A ps + uses .B ps
  | [], os, h => by
    simp only [List.mapM_nil] at h
    cases h
    cases add <;> simp [uses]
  | p :: ps, os, h => by
    rw [List.mapM_cons] at h
    cases ho : pieceOut spt add es p with
    | none => rw [ho] at h; cases h
    | some o =>
      cases hr : ps.mapM (pieceOut spt add es) with
      | none => rw [ho, hr] at h; cases h
      | some rest =>
        rw [ho, hr] at h
        cases h
        have ih := template_length spt add es ps hr
        have hcons : ∀ s, uses s (p :: ps) = uses s [p] + uses s ps := by
          intro s; simp only [uses, List.countP_cons, List.countP_nil]; omega
        have h5 : ((o :: rest).filterMap id).length = o.toList.length + (rest.filterMap id).length := by
          cases o <;> simp; omega
        have h6 : o.toList.length = if add then 1 else uses .A [p] + uses .B [p] := by
          cases p with
          | sequence s ty =>
            change (es[s.index]?).map (fun e => some (fill s.index ty e)) = some o at ho
            cases hs : es[s.index]? with
            | none => rw [hs] at ho; cases ho
            | some e =>
              rw [hs] at ho
              cases ho
              cases s <;> cases add <;> simp [uses]
          | special i ty =>
            change (if add = true then Option.map (fun t => some (specialEncoding t ty)) (AMap.get spt i) else some none) =
              some o at ho
            cases add with
            | false => cases ho; simp [uses]
            | true =>
              simp only [if_true] at ho
              cases hs : spt.get i with
              | none => rw [hs] at ho; cases ho
              | some tok => rw [hs] at ho; cases ho; rfl
        rw [h5, h6, ih, hcons, hcons]
        cases add
        · simp; omega
        · simp; omega

/-- What a processor does, exactly. -/
def Does (M : Encoding → Nat) (ws : Char → Bool) (add : Bool) (p : Proc) (es : List Encoding) : Prop :=
  match inserts add p es.length with
  | none => p.processEncodings ws add es = none
  | some (n, k) => k ≠ 0 ∧ ∃ es', p.processEncodings ws add es = some es' ∧ es'.length = k ∧ total M es' = total M es + n

theorem does_all {M : Encoding → Nat} {ws : Char → Bool} {add : Bool} : ∀ (ps : List Proc),
    (∀ p ∈ ps, ∀ es : List Encoding, es ≠ [] → Does M ws add p es) → ∀ es : List Encoding, es ≠ [] →
    match insertsAll add ps es.length with
    | none => processAll ws add ps es = none
    | some (n, k) => k ≠ 0 ∧ ∃ es', processAll ws add ps es = some es' ∧ es'.length = k ∧ total M es' = total M es + n := by
  intro ps
  induction ps with
  | nil =>
    intro _ es hne
    rw [insertsAll]
    exact ⟨by simpa using hne, es, by simp [processAll], rfl, by simp⟩
  | cons p ps ih =>
    intro h es hne
    have h1 := h p List.mem_cons_self es hne
    unfold Does at h1
    rw [insertsAll, processAll]
    cases hi : inserts add p es.length with
    | none =>
      rw [hi] at h1
      simp only at h1
      simp only [Option.bind_none, h1]
    | some r =>
      obtain ⟨n, k⟩ := r
      rw [hi] at h1
      obtain ⟨hk, es1, e1, e2, e3⟩ := h1
      have h2 := ih (fun q hq => h q (List.mem_cons_of_mem _ hq)) es1 (by rintro rfl; exact hk (by simpa using e2.symm))
      rw [e2] at h2
      simp only [Option.bind_some, e1]
      cases hj : insertsAll add ps k with
      | none =>
        rw [hj] at h2
        simpa using h2
      | some r' =>
        obtain ⟨n', k'⟩ := r'
        rw [hj] at h2
        obtain ⟨hk', es2, g1, g2, g3⟩ := h2
        simp only [Option.map_some]
        exact ⟨hk', es2, g1, g2, by omega⟩

theorem uses_length {s : Seq} {ps : List Piece} (h : uses s ps = 1) : ps.length ≠ 0 := by
  cases ps with
  | nil => simp [uses] at h
  | cons _ _ => simp

theorem does {M : Encoding → Nat} (hM : Measure M) (ws : Char → Bool) (add : Bool) {p : Proc} (h : TemplatesOnce p) :
    ∀ es : List Encoding, es ≠ [] → Does M ws add p es := by
  induction h with
  | bert m =>
    intro es hne
    have hl : es.length ≠ 0 := by simpa using hne
    unfold Does
    rw [inserts]
    refine ⟨hl, bertProcess m add es, by simp only [Proc.processEncodings], ?_⟩
    cases add
    · simp [bertProcess]
    · simp only [bertProcess, if_true]
      refine ⟨length_mapFirst _ _ _, ?_⟩
      rw [total_mapFirst_any (M := M) (a := 2) (b := 1) (fun e => ?_) (fun e => ?_) hne]
      · simp
      · exact hM.around [m.cls] [m.sep] _ typeIds 0 0 e
      · exact hM.around [] [m.sep] _ typeIds 1 1 e
  | roberta m trim aps =>
    intro es hne
    have hl : es.length ≠ 0 := by simpa using hne
    unfold Does
    rw [inserts]
    refine ⟨hl, robertaProcess ws m trim aps add es, by simp only [Proc.processEncodings], ?_⟩
    have hpre : total M ((if trim then es.map (trimAll ws aps) else es).map fun e =>
        e.setTypeIds (List.replicate e.len 0)) = total M es := by
      rw [total_map (fun e => hM.types e _)]
      cases trim
      · rfl
      · simp only [if_true]; exact total_map (hM.trim ws aps) es
    have hlen : ((if trim then es.map (trimAll ws aps) else es).map fun e =>
        e.setTypeIds (List.replicate e.len 0)).length = es.length := by
      cases trim <;> simp
    cases add
    · simp only [robertaProcess]
      exact ⟨hlen, by simpa using hpre⟩
    · simp only [robertaProcess, if_true]
      refine ⟨by rw [length_mapFirst]; exact hlen, ?_⟩
      rw [total_mapFirst_any (M := M) (a := 2) (b := 2) (fun e => ?_) (fun e => ?_)
        (by intro h0; rw [h0] at hlen; exact hl hlen.symm), hpre, hlen]
      · exact hM.around [m.cls] [m.sep] _ (fun o => List.replicate o.ids.length 0) 0 0 e
      · exact hM.around [m.sep] [m.sep] _ (fun o => List.replicate o.ids.length 0) 0 1 e
  | byteLevel aps trim =>
    intro es hne
    have hl : es.length ≠ 0 := by simpa using hne
    unfold Does
    rw [inserts]
    refine ⟨hl, ByteLevel.processEncodings ws aps trim es, by simp only [Proc.processEncodings], ?_⟩
    obtain ⟨h1, h2⟩ := total_byteLevel hM ws aps trim es
    exact ⟨h2, by rw [h1]; rfl⟩
  | template h =>
    rename_i t
    intro es hne
    unfold Does
    rw [inserts]
    by_cases h1 : es.length = 1
    · rw [if_pos h1]
      obtain ⟨os, g1, g2⟩ := template_total hM t.specials add es t.single
        (fun id ty hm => h.known id ty (by simp [hm])) (by omega) (by rw [h.single.2]; omega)
      have g3 := template_length t.specials add es t.single g1
      have g4 : t.processEncodings add es = some (os.filterMap id) := by
        simp only [Template.processEncodings, h1]
        rw [applyTemplate_eq t.specials add es _ _ (fun _ _ => rfl), g1]; rfl
      rcases es with _ | ⟨x, _ | ⟨y, r⟩⟩
      · simp at h1
      · rw [h.single.1, h.single.2, specialTokens_eq] at g2
        rw [h.single.1, h.single.2] at g3
        cases add
        · exact ⟨by decide, _, by rw [Proc.processEncodings]; exact g4, by simpa using g3, by rw [g2]; simp [total]⟩
        · exact ⟨uses_length h.single.1, _, by rw [Proc.processEncodings]; exact g4, by simpa using g3, by
            rw [g2]; simp [total]⟩
      · simp at h1
    · rw [if_neg h1]
      by_cases h2 : es.length = 2
      · rw [if_pos h2]
        obtain ⟨os, g1, g2⟩ := template_total hM t.specials add es t.pair
          (fun id ty hm => h.known id ty (by simp [hm])) (by omega) (by omega)
        have g3 := template_length t.specials add es t.pair g1
        have g4 : t.processEncodings add es = some (os.filterMap id) := by
          simp only [Template.processEncodings, h2]
          rw [applyTemplate_eq t.specials add es _ _ (fun _ _ => rfl), g1]; rfl
        rcases es with _ | ⟨x, _ | ⟨y, _ | ⟨z, r⟩⟩⟩
        · simp at h2
        · simp at h2
        · rw [h.pair.1, h.pair.2, specialTokens_eq] at g2
          rw [h.pair.1, h.pair.2] at g3
          cases add
          · exact ⟨by decide, _, by rw [Proc.processEncodings]; exact g4, by simpa using g3, by rw [g2]; simp [total]⟩
          · exact ⟨uses_length h.pair.1, _, by rw [Proc.processEncodings]; exact g4, by simpa using g3, by
              rw [g2]; simp [total]⟩
        · simp at h2
      · rw [if_neg h2]
        simp only [Proc.processEncodings, Template.processEncodings]
  | sequence h ih =>
    rename_i ps
    intro es hne
    unfold Does
    rw [inserts, Proc.processEncodings]
    exact does_all ps ih es hne

/-- **C54, exactly.** For every processor, nested in any way, whose templates use each input once and know their special tokens:
processing panics exactly when a template gets more than two encodings; otherwise the result has the tokens of the inputs and
those of `inserts`. -/
theorem C54_exact (ws : Char → Bool) {p : Proc} (h : TemplatesOnce p) (e : Encoding) (pair : Option Encoding) (add : Bool) :
    match inserts add p (if pair.isSome then 2 else 1) with
    | none => p.process ws e pair add = none
    | some (n, _) => ∃ out, p.process ws e pair add = some out ∧ out.len = e.len + pair.elim 0 len + n := by
  have key : ∀ es : List Encoding, es ≠ [] → (es.length = if pair.isSome then 2 else 1) →
      total len es = e.len + pair.elim 0 len → p.process ws e pair add = (p.processEncodings ws add es).map (merge · false) →
      match inserts add p (if pair.isSome then 2 else 1) with
      | none => p.process ws e pair add = none
      | some (n, _) => ∃ out, p.process ws e pair add = some out ∧ out.len = e.len + pair.elim 0 len + n := by
    intro es hne hl ht hp
    have hd := does measure_len ws add h es hne
    unfold Does at hd
    rw [hl] at hd
    rw [hp]
    cases hi : inserts add p (if pair.isSome then 2 else 1) with
    | none => rw [hi] at hd; simp only at hd ⊢; rw [hd]; rfl
    | some r =>
      obtain ⟨n, k⟩ := r
      rw [hi] at hd
      obtain ⟨-, es', e1, -, e3⟩ := hd
      refine ⟨_, by rw [e1]; rfl, ?_⟩
      rw [merge_len, ← ht]
      exact e3
  cases pair with
  | none => exact key [prepare 0 e] (by simp) rfl (by simp [total, prepare_len]) rfl
  | some o => exact key [prepare 0 e, prepare 1 o] (by simp) rfl (by simp [total, prepare_len]) rfl

/-- **C54.** So what a processor reports is right exactly when it equals what `inserts` says. -/
theorem C54_report_right_iff (ws : Char → Bool) {p : Proc} (h : TemplatesOnce p) (e : Encoding) (pair : Option Encoding) :
    (∃ out, p.process ws e pair true = some out ∧ out.len = e.len + pair.elim 0 len + p.added pair.isSome) ↔
      ∃ k, inserts true p (if pair.isSome then 2 else 1) = some (p.added pair.isSome, k) := by
  have key := C54_exact ws h e pair true
  cases hi : inserts true p (if pair.isSome then 2 else 1) with
  | none =>
    rw [hi] at key
    simp only at key
    rw [key]
    simp
  | some r =>
    obtain ⟨n, k⟩ := r
    rw [hi] at key
    obtain ⟨out, h1, h2⟩ := key
    constructor
    · rintro ⟨out', g1, g2⟩
      rw [h1] at g1
      cases g1
      exact ⟨k, by rw [show n = p.added pair.isSome by omega]⟩
    · rintro ⟨k', hk⟩
      cases hk
      exact ⟨out, h1, h2⟩

/-- A template followed by Bert: for one text the template inserts 2 tokens and Bert, which sees three encodings, 4; they report 4. -/
example : ∃ t, sampleTemplate = some t ∧ inserts true (.sequence [.template t, .bert sampleMarks]) 1 = some (6, 3) ∧
    (Proc.sequence [.template t, .bert sampleMarks]).added false = 4 := ⟨_, rfl, by decide +kernel, by decide +kernel⟩

end Tok.Post
