import Verif.Tokenizer.Batch

/-!
# Relations between encodings that post-processing keeps
-/

namespace Tok
open Encoding

/-- A relation that every step of the post-processors keeps. -/
structure Cong (R : Encoding → Encoding → Prop) : Prop where
  refl : ∀ e, R e e
  len : ∀ {e e'}, R e e' → e.len = e'.len
  types : ∀ {e e'}, R e e' → ∀ ts, R (e.setTypeIds ts) (e'.setTypeIds ts)
  seq : ∀ {e e'}, R e e' → ∀ q, R (e.setSequenceId q) (e'.setSequenceId q)
  prep : ∀ {e e'}, R e e' → ∀ i, R (Post.prepare i e) (Post.prepare i e')
  bert1 : ∀ {e e'}, R e e' → ∀ m, R (Post.bertFirst m e) (Post.bertFirst m e')
  bert2 : ∀ {e e'}, R e e' → ∀ m, R (Post.bertOther m e) (Post.bertOther m e')
  roberta1 : ∀ {e e'}, R e e' → ∀ m, R (Post.robertaFirst m e) (Post.robertaFirst m e')
  roberta2 : ∀ {e e'}, R e e' → ∀ m, R (Post.robertaOther m e) (Post.robertaOther m e')
  trim : ∀ {e e'}, R e e' → ∀ ws aps, R (Post.trimAll ws aps e) (Post.trimAll ws aps e')
  merge : ∀ {e e' p p'}, R e e' → R p p' → R (e.mergeWith p false) (e'.mergeWith p' false)
  pad : ∀ {e e'}, R e e' → ∀ n pt d, R (e.pad n pt d) (e'.pad n pt d)

/-- Related if both are there, or both missing. -/
inductive Both {α β : Type} (R : α → β → Prop) : Option α → Option β → Prop
  | none : Both R none none
  | some {a b} (h : R a b) : Both R (some a) (some b)

theorem Both.map {α β γ δ : Type} {R : α → β → Prop} {S : γ → δ → Prop} {f : α → γ} {g : β → δ} {a b}
    (h : Both R a b) (hs : ∀ a b, R a b → S (f a) (g b)) : Both S (a.map f) (b.map g) := by
  cases h with
  | none => exact .none
  | some h => exact .some (hs _ _ h)

theorem Each.map {α β γ δ : Type} {R : α → β → Prop} {S : γ → δ → Prop} {f : α → γ} {g : β → δ} {as bs}
    (h : Each R as bs) (hs : ∀ a b, R a b → S (f a) (g b)) : Each S (as.map f) (bs.map g) := by
  induction h with
  | nil => exact .nil
  | cons h _ ih => exact .cons (hs _ _ h) ih

theorem Each.append {α β : Type} {R : α → β → Prop} {as bs as' bs'} (h : Each R as bs) (h' : Each R as' bs') :
    Each R (as ++ as') (bs ++ bs') := by
  induction h with
  | nil => exact h'
  | cons h _ ih => exact .cons h ih

theorem Each.refl {α : Type} {R : α → α → Prop} (h : ∀ a, R a a) : ∀ l, Each R l l
  | [] => .nil
  | a :: l => .cons (h a) (Each.refl h l)

theorem Each.get {α β : Type} {R : α → β → Prop} {as bs} (h : Each R as bs) : ∀ i : Nat, Both R as[i]? bs[i]? := by
  induction h with
  | nil => intro i; simpa using Both.none
  | cons h _ ih =>
    intro i
    cases i with
    | zero => simpa using Both.some h
    | succ i => simpa using ih i

theorem Each.set {α β : Type} {R : α → β → Prop} {as bs} (h : Each R as bs) {a b} (hab : R a b) :
    ∀ i, Each R (as.set i a) (bs.set i b) := by
  induction h with
  | nil => intro i; exact .nil
  | cons h ht ih =>
    intro i
    cases i with
    | zero => exact .cons hab ht
    | succ i => exact .cons h (ih i)

theorem Each.zipIdx_map {α β γ δ : Type} {R : α → β → Prop} {S : γ → δ → Prop} {f : α → Nat → γ} {g : β → Nat → δ}
    {as bs} (h : Each R as bs) (hs : ∀ a b i, R a b → S (f a i) (g b i)) :
    ∀ n, Each S ((as.zipIdx n).map fun p => f p.1 p.2) ((bs.zipIdx n).map fun p => g p.1 p.2) := by
  induction h with
  | nil => intro n; exact .nil
  | cons h _ ih => intro n; exact .cons (hs _ _ _ h) (ih (n + 1))

namespace Cong
variable {R : Encoding → Encoding → Prop}

theorem applyPiece (h : Cong R) (spt : Post.Tokens) (add : Bool) {es es' : List Encoding} (he : Each R es es')
    (p : Post.Piece) : Both (fun x y => Each R x.1.toList y.1.toList ∧ Each R x.2 y.2)
      (Post.applyPiece spt add es p) (Post.applyPiece spt add es' p) := by
  cases p with
  | sequence id ty =>
    simp only [Post.applyPiece]
    have hg := he.get id.index
    cases ha : es[id.index]? with
    | none =>
      cases hb : es'[id.index]? with
      | none => exact .none
      | some b => rw [ha, hb] at hg; cases hg
    | some a =>
      cases hb : es'[id.index]? with
      | none => rw [ha, hb] at hg; cases hg
      | some b =>
        rw [ha, hb] at hg
        cases hg with
        | some hg =>
          simp only
          rw [h.len hg]
          have := h.seq (h.types hg (List.replicate b.len ty)) id.index
          exact .some ⟨.cons this .nil, he.set this _⟩
  | special id ty =>
    unfold Post.applyPiece
    cases add with
    | false => exact .some ⟨.nil, he⟩
    | true =>
      simp only [if_true]
      cases spt.get id with
      | none => exact .none
      | some tok => exact .some ⟨.cons (h.refl _) .nil, he⟩

theorem applyTemplate (h : Cong R) (spt : Post.Tokens) (add : Bool) : ∀ (ps : List Post.Piece)
    {es es' : List Encoding}, Each R es es' →
    Both (Each R) (Post.applyTemplate spt add es ps) (Post.applyTemplate spt add es' ps)
  | [], _, _, _ => .some .nil
  | p :: ps, es, es', he => by
    unfold Post.applyTemplate
    have hp := h.applyPiece spt add he p
    revert hp
    cases Post.applyPiece spt add es p with
    | none =>
      cases Post.applyPiece spt add es' p with
      | none => intro _; exact .none
      | some y => intro hp; cases hp
    | some x =>
      cases Post.applyPiece spt add es' p with
      | none => intro hp; cases hp
      | some y =>
        intro hp
        cases hp with
        | some hp =>
          have ih := h.applyTemplate spt add ps hp.2
          simp only
          revert ih
          cases Post.applyTemplate spt add x.2 ps with
          | none => cases Post.applyTemplate spt add y.2 ps with
            | none => intro _; exact .none
            | some b => intro hb; cases hb
          | some a => cases Post.applyTemplate spt add y.2 ps with
            | none => intro hb; cases hb
            | some b =>
              intro hb
              cases hb with
              | some hb => exact .some (hp.1.append hb)

theorem mapFirst {R S : Encoding → Encoding → Prop} {f g f' g' : Encoding → Encoding}
    (hf : ∀ e e', R e e' → S (f e) (f' e')) (hg : ∀ e e', R e e' → S (g e) (g' e')) {es es' : List Encoding}
    (h : Each R es es') : Each S (Post.mapFirst f g es) (Post.mapFirst f' g' es') := by
  cases h with
  | nil => exact .nil
  | cons h ht => exact .cons (hf _ _ h) (ht.map hg)

mutual
theorem processEncodings (h : Cong R) (ws : Char → Bool) (add : Bool) : ∀ (p : Post.Proc) {es es' : List Encoding},
    Each R es es' → Both (Each R) (p.processEncodings ws add es) (p.processEncodings ws add es')
  | .roberta m trim aps, es, es', he => by
    unfold Post.Proc.processEncodings Post.robertaProcess
    refine .some ?_
    have h1 : Each R (if trim then es.map (Post.trimAll ws aps) else es)
        (if trim then es'.map (Post.trimAll ws aps) else es') := by
      cases trim with
      | false => exact he
      | true => exact he.map fun a b hab => h.trim hab ws aps
    have h2 := h1.map (S := R) (f := fun e => e.setTypeIds (List.replicate e.len 0))
      (g := fun e => e.setTypeIds (List.replicate e.len 0)) fun a b hab => by rw [h.len hab]; exact h.types hab _
    cases add with
    | false => exact h2
    | true => exact mapFirst (R := R) (S := R) (fun a b hab => h.roberta1 hab m) (fun a b hab => h.roberta2 hab m) h2
  | .bert m, es, es', he => by
    unfold Post.Proc.processEncodings Post.bertProcess
    refine .some ?_
    cases add with
    | false => exact he
    | true => exact mapFirst (R := R) (S := R) (fun a b hab => h.bert1 hab m) (fun a b hab => h.bert2 hab m) he
  | .byteLevel aps trim, es, es', he => by
    unfold Post.Proc.processEncodings ByteLevel.processEncodings
    refine .some ?_
    have h1 : Each R (if trim then es.map (Post.trimAll ws aps) else es)
        (if trim then es'.map (Post.trimAll ws aps) else es') := by
      cases trim with
      | false => exact he
      | true => exact he.map fun a b hab => h.trim hab ws aps
    exact h1.zipIdx_map (S := R) (f := fun e i => e.setSequenceId i) (g := fun e i => e.setSequenceId i)
      (fun a b i hab => h.seq hab i) 0
  | .template t, es, es', he => by
    unfold Post.Proc.processEncodings Post.Template.processEncodings
    rw [he.length]
    split
    · exact h.applyTemplate _ _ _ he
    · exact h.applyTemplate _ _ _ he
    · exact .none
  | .sequence ps, es, es', he => by
    unfold Post.Proc.processEncodings
    exact h.processAll ws add ps he

theorem processAll (h : Cong R) (ws : Char → Bool) (add : Bool) : ∀ (ps : List Post.Proc) {es es' : List Encoding},
    Each R es es' → Both (Each R) (Post.processAll ws add ps es) (Post.processAll ws add ps es')
  | [], es, es', he => by unfold Post.processAll; exact .some he
  | p :: ps, es, es', he => by
    unfold Post.processAll
    have h1 := h.processEncodings ws add p he
    revert h1
    cases p.processEncodings ws add es with
    | none => cases p.processEncodings ws add es' with
      | none => intro _; exact .none
      | some b => intro hb; cases hb
    | some a => cases p.processEncodings ws add es' with
      | none => intro hb; cases hb
      | some b =>
        intro hb
        cases hb with
        | some hb => exact h.processAll ws add ps hb
end

theorem foldl_merge (h : Cong R) {es es' : List Encoding} (he : Each R es es') : ∀ {a a' : Encoding}, R a a' →
    R (es.foldl (fun acc s => acc.mergeWith s false) a) (es'.foldl (fun acc s => acc.mergeWith s false) a') := by
  induction he with
  | nil => intro a a' ha; exact ha
  | cons hh _ ih => intro a a' ha; exact ih (h.merge ha hh)

theorem mergeList (h : Cong R) {es es' : List Encoding} (he : Each R es es') :
    R (Encoding.merge es false) (Encoding.merge es' false) := h.foldl_merge he (h.refl _)

theorem inputList (_ : Cong R) {e e' : Encoding} {o o' : Option Encoding} (he : R e e') (ho : Both R o o') :
    Each R (Post.inputList e o) (Post.inputList e' o') := by
  cases ho with
  | none => exact .cons he .nil
  | some ho => exact .cons he (.cons ho .nil)

theorem process (h : Cong R) (ws : Char → Bool) (add : Bool) (p : Post.Proc) {e e' : Encoding}
    {o o' : Option Encoding} (he : R e e') (ho : Both R o o') :
    Both R (p.process ws e o add) (p.process ws e' o' add) := by
  unfold Post.Proc.process
  cases ho with
  | none =>
    exact (h.processEncodings ws add p (.cons (h.prep he 0) .nil)).map fun _ _ hab => h.mergeList hab
  | some ho =>
    exact (h.processEncodings ws add p (.cons (h.prep he 0) (.cons (h.prep ho 1) .nil))).map
      fun _ _ hab => h.mergeList hab

theorem defaultMerge (h : Cong R) {es es' : List Encoding} (he : Each R es es') :
    R (Post.defaultMerge es) (Post.defaultMerge es') := by
  unfold Post.defaultMerge
  have key : ∀ {es es' : List Encoding}, Each R es es' → ∀ (n : Nat) {a a' : Encoding}, R a a' →
      R ((es.zipIdx n).foldl (fun acc p => acc.mergeWith (p.1.setSequenceId p.2) false) a)
        ((es'.zipIdx n).foldl (fun acc p => acc.mergeWith (p.1.setSequenceId p.2) false) a') := by
    intro es es' he
    induction he with
    | nil => intro n a a' ha; exact ha
    | cons hh _ ih => intro n a a' ha; exact ih (n + 1) (h.merge ha (h.seq hh n))
  exact key he 0 (h.refl _)

theorem defaultProcess (h : Cong R) {es es' : List Encoding} (he : Each R es es') :
    Each R (Post.defaultProcess es) (Post.defaultProcess es') := by
  cases he with
  | nil => exact .cons (h.defaultMerge .nil) .nil
  | cons h1 ht =>
    cases ht with
    | nil => exact .cons h1 .nil
    | cons h2 ht => exact .cons (h.defaultMerge (.cons h1 (.cons h2 ht))) .nil

theorem finish (h : Cong R) (ws : Char → Bool) (s : Post.Settings) (add : Bool) {e e' : Encoding}
    {o o' : Option Encoding} (he : R e e') (ho : Both R o o') :
    Both R (s.finish ws e o add) (s.finish ws e' o' add) := by
  unfold Post.Settings.finish
  cases s.processor with
  | some p => exact h.process ws add p he ho
  | none =>
    simp only
    have := h.defaultProcess (h.inputList he ho)
    revert this
    generalize Post.defaultProcess (Post.inputList e o) = l
    generalize Post.defaultProcess (Post.inputList e' o') = l'
    intro hl
    cases hl with
    | nil => exact .none
    | cons h1 ht =>
      cases ht with
      | nil => exact .some h1
      | cons _ _ => exact .none

theorem padOne (h : Cong R) (s : Post.Settings) {e e' : Encoding} (he : R e e') :
    R (s.padOne e) (s.padOne e') := by
  rw [Tokenizer.padOne_eq, Tokenizer.padOne_eq]
  cases s.padding with
  | none => exact he
  | some p =>
    have : padTarget [e] p = padTarget [e'] p := by simp only [padTarget, List.map_cons, List.map_nil, h.len he]
    simp only
    rw [this]; exact h.pad he _ _ _

end Cong
end Tok
