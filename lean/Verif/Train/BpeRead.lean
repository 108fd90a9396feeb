import Verif.Train.BpeStart

/-!
# When the string of a token determines its symbols

With a continuing-subword prefix or an end-of-word suffix, the characters of the text have to differ from the first character of
the prefix and the last of the suffix.
-/

namespace Tok.Train

/-- The prefix and the suffix can be told from the text: the first character of the prefix, and the last of the suffix, are in
no word. -/
structure Separated (cfg : BpeCfg) (wc : AMap Str Nat) : Prop where
  pre : ∀ c r, cfg.pre = some (c :: r) → ∀ p ∈ wc, c ∉ p.1
  suf : ∀ c r, cfg.suf = some (r ++ [c]) → ∀ p ∈ wc, c ∉ p.1

/-- A symbol taken apart: prefix, character and suffix. -/
abbrev Atom := Str × Char × Str

def Atom.str (a : Atom) : Str := a.1 ++ a.2.1 :: a.2.2

/-- The parts of a symbol. -/
def atomOf (cfg : BpeCfg) (first last : Bool) (c : Char) : Atom :=
  (if first then [] else cfg.pre.getD [], c, if last then cfg.suf.getD [] else [])

theorem atomOf_str (cfg : BpeCfg) (first last : Bool) (c : Char) : (atomOf cfg first last c).str = atomStr cfg first last c := by
  unfold Atom.str atomOf atomStr
  cases first <;> cases last <;> cases cfg.pre <;> cases cfg.suf <;> simp

/-- The symbols of a word taken apart. -/
def wordAtoms (cfg : BpeCfg) (K : Char → Bool) : Bool → Str → List Atom
  | _, [] => []
  | first, c :: rest =>
    if K c then atomOf cfg first rest.isEmpty c :: wordAtoms cfg K false rest else wordAtoms cfg K false rest

theorem wordAtoms_str (cfg : BpeCfg) (K : Char → Bool) : ∀ (first : Bool) (w : Str),
    (wordAtoms cfg K first w).map Atom.str = wordStrs cfg K first w
  | _, [] => rfl
  | first, c :: rest => by
    rw [wordAtoms, wordStrs]
    split
    · rw [List.map_cons, atomOf_str, wordAtoms_str cfg K false rest]
    · exact wordAtoms_str cfg K false rest

/-- A run of symbols of a word: only the first may lack the prefix, only the last may have the suffix. -/
structure Shape (P S : Str) (bad : Char → Prop) (l : List Atom) : Prop where
  pre : ∀ a ∈ l, a.1 = [] ∨ a.1 = P
  suf : ∀ a ∈ l, a.2.2 = [] ∨ a.2.2 = S
  tail : ∀ u a v, l = u ++ a :: v → u ≠ [] → a.1 = P
  init : ∀ u a v, l = u ++ a :: v → v ≠ [] → a.2.2 = []
  good : ∀ a ∈ l, ¬ bad a.2.1

theorem Shape.infix {P S : Str} {bad : Char → Prop} {l l' : List Atom} (h : Shape P S bad l) (hi : l' <:+: l) :
    Shape P S bad l' := by
  refine ⟨fun a ha => h.pre a (hi.subset ha), fun a ha => h.suf a (hi.subset ha), fun u a v e hu => ?_, fun u a v e hv => ?_,
    fun a ha => h.good a (hi.subset ha)⟩ <;> obtain ⟨s, t, rfl⟩ := hi <;> subst e
  · exact h.tail (s ++ u) a (v ++ t) (by simp) (by simp [hu])
  · exact h.init (s ++ u) a (v ++ t) (by simp) (by simp [hv])

theorem wordAtoms_all (cfg : BpeCfg) (K : Char → Bool) : ∀ (w : Str) (first : Bool) (a : Atom), a ∈ wordAtoms cfg K first w →
    ((first = false → a.1 = cfg.pre.getD []) ∧ (a.1 = [] ∨ a.1 = cfg.pre.getD []) ∧ (a.2.2 = [] ∨ a.2.2 = cfg.suf.getD []) ∧
      a.2.1 ∈ w)
  | [], _, a, h => by cases h
  | c :: rest, first, a, h => by
    rw [wordAtoms] at h
    split at h
    · rcases List.mem_cons.1 h with rfl | h
      · unfold atomOf
        cases first <;> cases hr : rest.isEmpty <;> simp
      · obtain ⟨h1, h2, h3, h4⟩ := wordAtoms_all cfg K rest false a h
        exact ⟨fun _ => h1 rfl, h2, h3, by simp [h4]⟩
    · obtain ⟨h1, h2, h3, h4⟩ := wordAtoms_all cfg K rest false a h
      exact ⟨fun _ => h1 rfl, h2, h3, by simp [h4]⟩

theorem wordAtoms_init (cfg : BpeCfg) (K : Char → Bool) : ∀ (w : Str) (first : Bool) (u : List Atom) (a : Atom) (v : List Atom),
    wordAtoms cfg K first w = u ++ a :: v → v ≠ [] → a.2.2 = []
  | [], _, u, a, v, h, _ => by simp [wordAtoms] at h
  | c :: rest, first, u, a, v, h, hv => by
    rw [wordAtoms] at h
    split at h
    · cases u with
      | nil =>
        rw [List.nil_append, List.cons.injEq] at h
        obtain ⟨rfl, h⟩ := h
        have : rest.isEmpty = false := by
          cases rest with
          | nil => rw [wordAtoms] at h; exact absurd h.symm hv
          | cons _ _ => rfl
        simp [atomOf, this]
      | cons b u =>
        rw [List.cons_append, List.cons.injEq] at h
        exact wordAtoms_init cfg K rest false u a v h.2 hv
    · exact wordAtoms_init cfg K rest false u a v h hv

theorem wordAtoms_tail (cfg : BpeCfg) (K : Char → Bool) : ∀ (w : Str) (first : Bool) (u : List Atom) (a : Atom) (v : List Atom),
    wordAtoms cfg K first w = u ++ a :: v → u ≠ [] → a.1 = cfg.pre.getD []
  | [], _, u, a, v, h, _ => by simp [wordAtoms] at h
  | c :: rest, first, u, a, v, h, hu => by
    rw [wordAtoms] at h
    split at h
    · cases u with
      | nil => exact absurd rfl hu
      | cons b u =>
        rw [List.cons_append, List.cons.injEq] at h
        exact (wordAtoms_all cfg K rest false a (by rw [h.2]; simp)).1 rfl
    · exact (wordAtoms_all cfg K rest false a (by rw [h]; simp)).1 rfl

theorem wordAtoms_shape (cfg : BpeCfg) (K : Char → Bool) (w : Str) (bad : Char → Prop) (hbad : ∀ c ∈ w, ¬ bad c) :
    Shape (cfg.pre.getD []) (cfg.suf.getD []) bad (wordAtoms cfg K true w) :=
  ⟨fun a h => (wordAtoms_all cfg K w true a h).2.1, fun a h => (wordAtoms_all cfg K w true a h).2.2.1,
    wordAtoms_tail cfg K w true, wordAtoms_init cfg K w true, fun a h => hbad _ (wordAtoms_all cfg K w true a h).2.2.2⟩

/-- The string of a run: the first symbol, then the others without prefix. -/
def joinAtoms : List Atom → Str
  | [] => []
  | a :: r => a.str ++ r.flatMap fun b => b.2.1 :: b.2.2

theorem shape_nonempty {P S : Str} {bad : Char → Prop} : ∀ {l : List Atom}, Shape P S bad l →
    (∀ c r, S = r ++ [c] → bad c) → S ≠ [] → l.flatMap (fun b => b.2.1 :: b.2.2) ≠ S
  | l, h, hS, hne, e => by
    obtain ⟨r, c, hr⟩ : ∃ r c, S = r ++ [c] := ⟨S.dropLast, S.getLast hne, (List.dropLast_concat_getLast hne).symm⟩
    rcases List.eq_nil_or_concat l with rfl | ⟨l0, a, rfl⟩
    · simp at e; exact hne e
    · rw [List.concat_eq_append, List.flatMap_append, List.flatMap_singleton] at e
      rcases h.suf a (by simp) with h0 | h0
      · rw [h0, hr] at e
        have := (List.append_inj_right' e rfl)
        simp only [List.cons.injEq, and_true] at this
        exact h.good a (by simp) (by rw [this]; exact hS c r hr)
      · have := congrArg List.length e
        rw [h0] at this
        simp at this
        omega

theorem tail_inj {P S : Str} {bad : Char → Prop} (hS : ∀ c r, S = r ++ [c] → bad c) : ∀ {l l' : List Atom},
    Shape P S bad l → Shape P S bad l' →
    l.flatMap (fun b => b.2.1 :: b.2.2) = l'.flatMap (fun b => b.2.1 :: b.2.2) → l.map (·.2) = l'.map (·.2)
  | [], [], _, _, _ => rfl
  | [], _ :: _, _, _, e => by simp at e
  | _ :: _, [], _, _, e => by simp at e
  | (p, c, s) :: l, (p', c', s') :: l', h, h', e => by
    simp only [List.flatMap_cons, List.cons_append, List.cons.injEq] at e
    obtain ⟨rfl, e⟩ := e
    have hl := h.infix (l' := l) ⟨[(p, c, s)], [], by simp⟩
    have hl' := h'.infix (l' := l') ⟨[(p', c, s')], [], by simp⟩
    have hs : l ≠ [] → s = [] := fun hn => h.init [] _ _ rfl hn
    have hs' : l' ≠ [] → s' = [] := fun hn => h'.init [] _ _ rfl hn
    have hc := h.suf (p, c, s) (by simp)
    have hc' := h'.suf (p', c, s') (by simp)
    simp only at hc hc'
    simp only [List.map_cons, List.cons.injEq, Prod.mk.injEq, true_and]
    cases l with
    | nil =>
      cases l' with
      | nil => simp at e; exact ⟨e, rfl⟩
      | cons b l' =>
        have hs'' := hs' (by simp)
        subst hs''
        simp only [List.flatMap_nil, List.append_nil, List.nil_append] at e
        rcases hc with rfl | rfl
        · simp at e
        · refine absurd e.symm (shape_nonempty hl' hS ?_)
          intro hn; rw [hn] at e; simp at e
    | cons b l =>
      have hs0 := hs (by simp)
      subst hs0
      cases l' with
      | nil =>
        simp only [List.flatMap_nil, List.append_nil, List.nil_append] at e
        rcases hc' with rfl | rfl
        · simp at e
        · refine absurd e (shape_nonempty hl hS ?_)
          intro hn; rw [hn] at e; simp at e
      | cons b' l' =>
        have hs'' := hs' (by simp)
        subst hs''
        exact ⟨rfl, tail_inj hS hl hl' (by simpa using e)⟩

theorem join_inj {P S : Str} {bad : Char → Prop} (hP : ∀ c r, P = c :: r → bad c) (hS : ∀ c r, S = r ++ [c] → bad c)
    {l l' : List Atom} (h : Shape P S bad l) (h' : Shape P S bad l') (hn : l ≠ []) (hn' : l' ≠ [])
    (e : joinAtoms l = joinAtoms l') : l = l' := by
  obtain ⟨⟨p, c, s⟩, r, rfl⟩ := List.exists_cons_of_ne_nil hn
  obtain ⟨⟨p', c', s'⟩, r', rfl⟩ := List.exists_cons_of_ne_nil hn'
  have hg := h.good (p, c, s) (by simp)
  have hg' := h'.good (p', c', s') (by simp)
  simp only at hg hg'
  simp only [joinAtoms, Atom.str] at e
  have hp : p = p' := by
    have h1 := h.pre (p, c, s) (by simp)
    have h2 := h'.pre (p', c', s') (by simp)
    simp only at h1 h2
    rcases h1 with rfl | rfl <;> rcases h2 with rfl | rfl
    · rfl
    · cases p' with
      | nil => rfl
      | cons d t =>
        simp only [List.nil_append, List.cons_append, List.cons.injEq] at e
        exact absurd (hP d t rfl) (by rw [← e.1]; exact hg)
    · cases p with
      | nil => rfl
      | cons d t =>
        simp only [List.nil_append, List.cons_append, List.cons.injEq] at e
        exact absurd (hP d t rfl) (by rw [e.1]; exact hg')
    · rfl
  subst hp
  rw [List.append_assoc, List.append_assoc] at e
  have e2 : ((p, c, s) :: r).flatMap (fun b : Atom => b.2.1 :: b.2.2) = ((p, c', s') :: r').flatMap fun b : Atom => b.2.1 :: b.2.2 := by
    simpa using List.append_cancel_left e
  have := tail_inj hS h h' e2
  have key : ∀ {a a' : List Atom}, a.map (·.2) = a'.map (·.2) → (∀ x ∈ a, x.1 = P) → (∀ x ∈ a', x.1 = P) → a = a' := by
    intro a
    induction a with
    | nil => intro a' h _ _; cases a' <;> simp at h ⊢
    | cons x a ih =>
      intro a' h h1 h2
      cases a' with
      | nil => simp at h
      | cons y a' =>
        simp only [List.map_cons, List.cons.injEq] at h
        rw [ih h.2 (fun z hz => h1 z (by simp [hz])) (fun z hz => h2 z (by simp [hz]))]
        congr 1
        exact Prod.ext (by rw [h1 x (by simp), h2 y (by simp)]) h.1
  simp only [List.map_cons, List.cons.injEq, Prod.mk.injEq] at this
  obtain ⟨⟨rfl, rfl⟩, h3⟩ := this
  rw [key h3 (fun x hx => ?_) fun x hx => ?_]
  · obtain ⟨u, v, rfl⟩ := List.append_of_mem hx
    exact h.tail ((p, c, s) :: u) x v (by simp) (by simp)
  · obtain ⟨u, v, rfl⟩ := List.append_of_mem hx
    exact h'.tail ((p, c, s) :: u) x v (by simp) (by simp)

/-! ## Ids -/

/-- The string of a run of initial ids. -/
def segStr (pre : Option Str) (id2w : List Str) : Seg → Str
  | [] => []
  | a :: r => id2w.getD a [] ++ r.flatMap fun b => stripPre pre (id2w.getD b [])

theorem strip_atom (pre : Option Str) (P : Str) (hP : P = pre.getD []) (t u : Str) :
    stripPre pre (P ++ t ++ u) = stripPre pre (P ++ t) ++ u ∧ stripPre pre (P ++ t) = t := by
  subst hP
  unfold stripPre
  cases pre with
  | none => simp
  | some p =>
    have : ∀ t : Str, p.isPrefixOf (p ++ t) = true := fun t => by simp
    simp only [Option.getD_some, this, if_true, List.append_assoc]
    simp

/-- The ids stand for these symbols. -/
def Means (id2w : List Str) : Seg → List Atom → Prop
  | [], [] => True
  | a :: x, t :: ts => id2w[a]? = some t.str ∧ Means id2w x ts
  | _, _ => False

theorem Means.infix {id2w : List Str} : ∀ {w : Seg} {l : List Atom}, Means id2w w l → ∀ {x : Seg}, x <:+: w →
    ∃ l', l' <:+: l ∧ Means id2w x l' := by
  have split : ∀ (u v : Seg) (l : List Atom), Means id2w (u ++ v) l → ∃ l1 l2, l = l1 ++ l2 ∧ Means id2w u l1 ∧ Means id2w v l2 := by
    intro u
    induction u with
    | nil => intro v l h; exact ⟨[], l, rfl, trivial, h⟩
    | cons a u ih =>
      intro v l h
      cases l with
      | nil => exact h.elim
      | cons t l =>
        obtain ⟨l1, l2, rfl, h1, h2⟩ := ih v l h.2
        exact ⟨t :: l1, l2, rfl, ⟨h.1, h1⟩, h2⟩
  rintro w l h x ⟨u, v, rfl⟩
  obtain ⟨l1, l2, rfl, h1, h2⟩ := split _ _ _ h
  obtain ⟨l3, l4, rfl, h3, h4⟩ := split _ _ _ h1
  exact ⟨l4, ⟨l3, l2, rfl⟩, h4⟩

theorem Means.join {pre : Option Str} {id2w : List Str} {P S : Str} {bad : Char → Prop} (hP : P = pre.getD []) {x : Seg}
    {l : List Atom} (h : Means id2w x l) (hs : Shape P S bad l) : segStr pre id2w x = joinAtoms l := by
  have aux : ∀ {x : Seg} {l : List Atom}, Means id2w x l → (∀ a ∈ l, a.1 = P) →
      x.flatMap (fun b => stripPre pre (id2w.getD b [])) = l.flatMap fun b => b.2.1 :: b.2.2 := by
    intro x
    induction x with
    | nil => intro l h _; cases l with | nil => rfl | cons _ _ => exact h.elim
    | cons a x ih =>
      intro l h hl
      cases l with
      | nil => exact h.elim
      | cons t l =>
        rw [List.flatMap_cons, List.flatMap_cons, ih h.2 fun a ha => hl a (by simp [ha])]
        congr 1
        rw [List.getD_eq_getElem?_getD, h.1, Option.getD_some, Atom.str, hl t (by simp)]
        exact (strip_atom pre P hP _ []).2
  cases x with
  | nil => cases l with | nil => rfl | cons _ _ => exact h.elim
  | cons a x =>
    cases l with
    | nil => exact h.elim
    | cons t l =>
      rw [segStr, joinAtoms, List.getD_eq_getElem?_getD, h.1, Option.getD_some, aux h.2]
      intro b hb
      obtain ⟨u, v, rfl⟩ := List.append_of_mem hb
      exact hs.tail (t :: u) b v (by simp) (by simp)

theorem Means.uniq {v : Voc} (hv : VocOk v) : ∀ {x y : Seg} {l : List Atom}, Means v.id2w x l → Means v.id2w y l → x = y
  | [], [], [], _, _ => rfl
  | a :: x, b :: y, t :: l, h, h' => by rw [hv.inj h.1 h'.1, Means.uniq hv h.2 h'.2]
  | [], _, _ :: _, h, _ => h.elim
  | _ :: _, _, [], h, _ => h.elim
  | _, [], _ :: _, _, h => h.elim
  | _, _ :: _, [], _, h => h.elim

/-- What the strings of runs look like. -/
structure Shaped (pre : Option Str) (words0 : List Seg) (str : Seg → Str) : Prop where
  left : ∀ x, Factor words0 x → ∃ P c t, (P = [] ∨ P = pre.getD []) ∧ str x = P ++ c :: t ∧ ∀ d r, pre.getD [] = d :: r → c ≠ d
  right : ∀ x y, x ≠ [] → y ≠ [] → Factor words0 (x ++ y) → ∃ c t, str y = pre.getD [] ++ c :: t

theorem shaped {cfg : BpeCfg} {v : Voc} {bad : Char → Prop} (hP : ∀ c r, cfg.pre.getD [] = c :: r → bad c) {words0 : List Seg}
    (hw : ∀ w ∈ words0, ∃ l, Means v.id2w w l ∧ Shape (cfg.pre.getD []) (cfg.suf.getD []) bad l) :
    Shaped cfg.pre words0 (segStr cfg.pre v.id2w) := by
  have hf : ∀ x, Factor words0 x → ∃ l, Means v.id2w x l ∧ Shape (cfg.pre.getD []) (cfg.suf.getD []) bad l := by
    rintro x ⟨_, w, hwm, hi⟩
    obtain ⟨l, h1, h2⟩ := hw w hwm
    obtain ⟨l', h3, h4⟩ := h1.infix hi
    exact ⟨l', h4, h2.infix h3⟩
  constructor
  · intro x hx
    obtain ⟨l, h1, h2⟩ := hf x hx
    obtain ⟨a, x, rfl⟩ := List.exists_cons_of_ne_nil hx.1
    cases l with
    | nil => exact h1.elim
    | cons t l =>
      rw [h1.join rfl h2]
      refine ⟨t.1, t.2.1, _, h2.pre t (by simp), by simp only [joinAtoms, Atom.str, List.append_assoc, List.cons_append]; rfl, ?_⟩
      intro d r hd e
      exact h2.good t (by simp) (by rw [e]; exact hP d r hd)
  · intro x y hx hy hxy
    obtain ⟨l, h1, h2⟩ := hf _ hxy
    obtain ⟨a, x, rfl⟩ := List.exists_cons_of_ne_nil hx
    obtain ⟨b, y, rfl⟩ := List.exists_cons_of_ne_nil hy
    cases l with
    | nil => exact h1.elim
    | cons t l =>
      have : ∀ (x : Seg) (l : List Atom), Means v.id2w (x ++ b :: y) l → ∃ s ∈ l, v.id2w[b]? = some (Atom.str s) := by
        intro x
        induction x with
        | nil => intro l h; cases l with
          | nil => exact h.elim
          | cons s l => exact ⟨s, by simp, h.1⟩
        | cons c x ih => intro l h; cases l with
          | nil => exact h.elim
          | cons s l =>
            obtain ⟨s', hs', g⟩ := ih l h.2
            exact ⟨s', by simp [hs'], g⟩
      obtain ⟨s, hs, g⟩ := this x l h1.2
      obtain ⟨u, w, rfl⟩ := List.append_of_mem hs
      have := h2.tail (t :: u) s w (by simp) (by simp)
      rw [segStr, List.getD_eq_getElem?_getD, g, Option.getD_some, Atom.str, this, List.append_assoc, List.cons_append]
      exact ⟨_, _, rfl⟩

theorem readable {cfg : BpeCfg} {v : Voc} (hv : VocOk v) {bad : Char → Prop} (hP : ∀ c r, cfg.pre.getD [] = c :: r → bad c)
    (hS : ∀ c r, cfg.suf.getD [] = r ++ [c] → bad c) {words0 : List Seg}
    (hw : ∀ w ∈ words0, ∃ l, Means v.id2w w l ∧ Shape (cfg.pre.getD []) (cfg.suf.getD []) bad l) :
    Readable cfg.pre words0 (segStr cfg.pre v.id2w) := by
  have hf : ∀ x, Factor words0 x → ∃ l, Means v.id2w x l ∧ Shape (cfg.pre.getD []) (cfg.suf.getD []) bad l := by
    rintro x ⟨_, w, hwm, hi⟩
    obtain ⟨l, h1, h2⟩ := hw w hwm
    obtain ⟨l', h3, h4⟩ := h1.infix hi
    exact ⟨l', h4, h2.infix h3⟩
  constructor
  · intro x y hx hy e
    obtain ⟨l, h1, h2⟩ := hf x hx
    obtain ⟨l', h3, h4⟩ := hf y hy
    rw [h1.join rfl h2, h3.join rfl h4] at e
    have ne : ∀ {x : Seg} {l : List Atom}, x ≠ [] → Means v.id2w x l → l ≠ [] := by
      rintro x l hx h rfl
      cases x with
      | nil => exact hx rfl
      | cons _ _ => exact h.elim
    have := join_inj hP hS h2 h4 (ne hx.1 h1) (ne hy.1 h3) e
    subst this
    exact Means.uniq hv h1 h3
  · intro x y hx hy hxy
    obtain ⟨l, h1, h2⟩ := hf _ hxy
    obtain ⟨a, x, rfl⟩ := List.exists_cons_of_ne_nil hx
    obtain ⟨b, y, rfl⟩ := List.exists_cons_of_ne_nil hy
    have hb : ∃ t, v.id2w.getD b [] = cfg.pre.getD [] ++ t := by
      rw [List.cons_append] at h1
      cases l with
      | nil => exact h1.elim
      | cons t l =>
        have : ∀ (x : Seg) (l : List Atom), Means v.id2w (x ++ b :: y) l → ∃ s ∈ l, v.id2w[b]? = some (Atom.str s) := by
          intro x
          induction x with
          | nil => intro l h; cases l with
            | nil => exact h.elim
            | cons s l => exact ⟨s, by simp, h.1⟩
          | cons c x ih => intro l h; cases l with
            | nil => exact h.elim
            | cons s l =>
              obtain ⟨s', hs', g⟩ := ih l h.2
              exact ⟨s', by simp [hs'], g⟩
        obtain ⟨s, hs, g⟩ := this x l h1.2
        obtain ⟨u, w, rfl⟩ := List.append_of_mem hs
        have := h2.tail (t :: u) s w (by simp) (by simp)
        rw [List.getD_eq_getElem?_getD, g, Option.getD_some, Atom.str, this]
        exact ⟨_, rfl⟩
    obtain ⟨t, ht⟩ := hb
    simp only [List.cons_append, segStr, List.flatMap_append, List.flatMap_cons, ht]
    rw [(strip_atom cfg.pre _ rfl t _).1]
    simp

end Tok.Train
