import Verif.Bpe.Build

/-!
# C18: initial symbols and unknown characters; C15/C16 end to end
-/

namespace Tok.Bpe

/-! ## specification -/

/-- What a character of the word becomes. -/
inductive CharClass where
  | known (id : Nat)
  | bytes (ids : List Nat)
  | unknown
deriving DecidableEq

/-- The classes of a text, looked up as is. -/
inductive Classified (b : Bpe) (s : Str) : CharClass → Prop
  | known {id} : b.vocab.get s = some id → Classified b s (.known id)
  | bytes {ids} : b.vocab.get s = none → b.byteFallback = true →
      (strBytes s).map (fun x => b.vocab.get (byteToken x)) = ids.map some → Classified b s (.bytes ids)
  | unknownOff : b.vocab.get s = none → b.byteFallback = false → Classified b s .unknown
  | unknownByte {x} : b.vocab.get s = none → x ∈ strBytes s → b.vocab.get (byteToken x) = none →
      Classified b s .unknown

/-- The text looked up for the character at position `i`: with the continuing prefix except at the
start, with the end-of-word suffix at the end. -/
def pieceAt (b : Bpe) (w : Str) (i : Nat) (c : Char) : Str :=
  (if i = 0 then [] else b.pre.getD []) ++ [c] ++ (if i + 1 = w.length then b.suf.getD [] else [])

/-- The classes of the characters of a word, with the byte length of each character. -/
def Classes (b : Bpe) (w : Str) (cls : List (CharClass × Nat)) : Prop :=
  cls.length = w.length ∧ ∀ (i : Nat) c k, w[i]? = some c → cls[i]? = some k →
    Classified b (pieceAt b w i c) k.1 ∧ k.2 = c.utf8Size

/-- The symbols a list of classes should give: in order, unknown characters fused or not. -/
inductive SymsSpec (unk : Option Nat) (fuse : Bool) :
    List (CharClass × Nat) → List (Nat × Nat) → Prop
  | nil : SymsSpec unk fuse [] []
  | known {id n cs out} : SymsSpec unk fuse cs out →
      SymsSpec unk fuse ((.known id, n) :: cs) ((id, n) :: out)
  | bytes {ids n cs out} : SymsSpec unk fuse cs out →
      SymsSpec unk fuse ((.bytes ids, n) :: cs) (ids.map (fun t => (t, 1)) ++ out)
  | dropped {n cs out} : unk = none → SymsSpec unk fuse cs out →
      SymsSpec unk fuse ((.unknown, n) :: cs) out
  | single {u n cs out} : unk = some u → fuse = false → SymsSpec unk fuse cs out →
      SymsSpec unk fuse ((.unknown, n) :: cs) ((u, n) :: out)
  | run {u ns cs out} : unk = some u → fuse = true → ns ≠ [] →
      (∀ c, cs.head? = some c → c.1 ≠ .unknown) → SymsSpec unk fuse cs out →
      SymsSpec unk fuse (ns.map (fun n => (CharClass.unknown, n)) ++ cs) ((u, ns.sum) :: out)

/-- An unknown character is directly followed by a character that falls back to bytes. -/
def UnkThenBytes (cls : List (CharClass × Nat)) : Prop :=
  ∃ p n ids n' q, cls = p ++ (.unknown, n) :: (.bytes ids, n') :: q

/-! ## classification is a function -/

/-- The class the code computes. -/
def classOf (b : Bpe) (s : Str) : CharClass :=
  match b.vocab.get s with
  | some id => .known id
  | none =>
    if b.byteFallback then
      match byteIds b.vocab (strBytes s) with
      | some ids => .bytes ids
      | none => .unknown
    else .unknown

theorem byteIds_some {vocab : AMap Str Nat} : ∀ {xs : List UInt8} {ids : List Nat},
    byteIds vocab xs = some ids ↔ xs.map (fun x => vocab.get (byteToken x)) = ids.map some := by
  intro xs
  induction xs with
  | nil =>
    intro ids
    cases ids with
    | nil => simp [byteIds]
    | cons i is => simp [byteIds]
  | cons x xs ih =>
    intro ids
    rw [byteIds]
    cases hx : vocab.get (byteToken x) with
    | none => cases ids <;> simp [hx]
    | some i =>
      simp only
      cases hxs : byteIds vocab xs with
      | none =>
        cases ids with
        | nil => simp
        | cons j js =>
          simp only [reduceCtorEq, List.map_cons, hx, List.cons.injEq, Option.some.injEq, false_iff,
            not_and]
          intro _ h
          rw [← ih, hxs] at h; cases h
      | some is =>
        cases ids with
        | nil => simp
        | cons j js =>
          simp only [Option.some.injEq, List.cons.injEq, List.map_cons, hx]
          rw [← ih, hxs]; simp

theorem byteIds_none {vocab : AMap Str Nat} : ∀ {xs : List UInt8},
    byteIds vocab xs = none ↔ ∃ x ∈ xs, vocab.get (byteToken x) = none := by
  intro xs
  induction xs with
  | nil => simp [byteIds]
  | cons x xs ih =>
    rw [byteIds]
    cases hx : vocab.get (byteToken x) with
    | none => simp [hx]
    | some i =>
      simp only
      cases hxs : byteIds vocab xs with
      | none => simp only [true_iff]; obtain ⟨y, h1, h2⟩ := ih.1 hxs; exact ⟨y, by simp [h1], h2⟩
      | some is =>
        simp only [reduceCtorEq, false_iff]
        rintro ⟨y, h1, h2⟩
        rcases List.mem_cons.1 h1 with rfl | h1
        · rw [hx] at h2; cases h2
        · rw [ih.2 ⟨y, h1, h2⟩] at hxs; cases hxs

theorem classified_iff {b : Bpe} {s : Str} {k : CharClass} : Classified b s k ↔ k = classOf b s := by
  unfold classOf
  constructor
  · intro h
    cases h with
    | known h => rw [h]
    | bytes h1 h2 h3 => rw [h1, h2, byteIds_some.2 h3]; rfl
    | unknownOff h1 h2 => rw [h1, h2]; rfl
    | unknownByte h1 h2 h3 =>
      rw [h1, byteIds_none.2 ⟨_, h2, h3⟩]
      simp
  · rintro rfl
    cases hs : b.vocab.get s with
    | some id => exact .known hs
    | none =>
      simp only
      cases hb : b.byteFallback with
      | false => exact .unknownOff hs hb
      | true =>
        simp only [if_true]
        cases hi : byteIds b.vocab (strBytes s) with
        | some ids => exact .bytes hs hb (byteIds_some.1 hi)
        | none => obtain ⟨x, h1, h2⟩ := byteIds_none.1 hi; exact .unknownByte hs h1 h2

/-- The classes along the loop. -/
def classesFrom (b : Bpe) : Bool → Str → List (CharClass × Nat)
  | _, [] => []
  | first, c :: cs => (classOf b (charSym b first cs.isEmpty c), c.utf8Size) :: classesFrom b false cs

theorem charSym_eq (b : Bpe) (first last : Bool) (c : Char) :
    charSym b first last c = (if first then [] else b.pre.getD []) ++ [c] ++
      (if last then b.suf.getD [] else []) := by
  unfold charSym
  cases first <;> cases last <;> cases b.pre <;> cases b.suf <;> simp

theorem classesFrom_get (b : Bpe) : ∀ (w : Str) (first : Bool) (i : Nat),
    (classesFrom b first w)[i]? = (w[i]?).map fun c =>
      (classOf b ((if first ∧ i = 0 then [] else b.pre.getD []) ++ [c] ++
        (if i + 1 = w.length then b.suf.getD [] else [])), c.utf8Size) := by
  intro w
  induction w with
  | nil => intro first i; simp [classesFrom]
  | cons c cs ih =>
    intro first i
    cases i with
    | zero =>
      simp only [classesFrom, List.getElem?_cons_zero, Option.map_some, charSym_eq]
      cases cs <;> cases first <;> simp
    | succ i =>
      simp only [classesFrom, List.getElem?_cons_succ, ih]
      simp

theorem classesFrom_length (b : Bpe) : ∀ (w : Str) (first : Bool),
    (classesFrom b first w).length = w.length := by
  intro w
  induction w with
  | nil => intro _; rfl
  | cons c cs ih => intro _; simp [classesFrom, ih]

theorem classes_iff {b : Bpe} {w : Str} {cls : List (CharClass × Nat)} :
    Classes b w cls ↔ cls = classesFrom b true w := by
  constructor
  · rintro ⟨hl, h⟩
    apply List.ext_getElem?
    intro i
    rw [classesFrom_get]
    cases hw : w[i]? with
    | none =>
      rw [List.getElem?_eq_none_iff] at hw
      rw [List.getElem?_eq_none (by omega)]; rfl
    | some c =>
      have hi : i < w.length := by rw [List.getElem?_eq_some_iff] at hw; exact hw.1
      have hci : cls[i]? = some cls[i] := List.getElem?_eq_getElem (by omega)
      obtain ⟨h1, h2⟩ := h i c _ hw hci
      rw [hci]
      rw [classified_iff] at h1
      simp only [Option.map_some, Option.some.injEq]
      refine Prod.ext ?_ h2
      rw [h1]; simp [pieceAt]
  · rintro rfl
    refine ⟨classesFrom_length _ _ _, ?_⟩
    intro i c k hc hk
    rw [classesFrom_get, hc] at hk
    simp only [Option.map_some, Option.some.injEq] at hk
    subst hk
    exact ⟨classified_iff.2 (by simp [pieceAt]), rfl⟩

/-! ## the loop -/

/-- What the loop does with a class. -/
def stepClass (b : Bpe) (st : InitSt) (k : CharClass × Nat) : Option InitSt :=
  match k.1 with
  | .known id => some (flushUnk st ++ [(id, k.2)], none)
  | .bytes ids => some (st.1 ++ ids.map fun t => (t, 1), st.2)
  | .unknown => stepUnk b st k.2

theorem stepChar_eq (b : Bpe) (st : InitSt) (first last : Bool) (c : Char) :
    stepChar b st first last c = stepClass b st (classOf b (charSym b first last c), c.utf8Size) := by
  unfold stepChar stepClass classOf
  simp only
  cases b.vocab.get (charSym b first last c) with
  | some id => rfl
  | none =>
    simp only
    cases b.byteFallback with
    | false => rfl
    | true =>
      simp only [if_true]
      cases byteIds b.vocab (strBytes (charSym b first last c)) with
      | some ids => rfl
      | none => rfl

/-- The loop over classes. -/
def classLoop (b : Bpe) : List (CharClass × Nat) → InitSt → Option InitSt
  | [], st => some st
  | k :: ks, st =>
    match stepClass b st k with
    | none => none
    | some st' => classLoop b ks st'

theorem initLoop_eq (b : Bpe) : ∀ (w : Str) (first : Bool) (st : InitSt),
    initLoop b first w st = classLoop b (classesFrom b first w) st := by
  intro w
  induction w with
  | nil => intro _ _; rfl
  | cons c cs ih =>
    intro first st
    simp only [initLoop, classesFrom, classLoop, stepChar_eq]
    cases stepClass b st (classOf b (charSym b first cs.isEmpty c), c.utf8Size) with
    | none => rfl
    | some st' => exact ih _ _

/-- The id of the unknown token, when there is one. -/
def unkId (b : Bpe) : Option Nat := b.unk.bind b.vocab.get

theorem spec_fuse {u : Nat} {n1 n2 : Nat} {cs out} (h : SymsSpec (some u) true ((.unknown, n1 + n2) :: cs) out) :
    SymsSpec (some u) true ((.unknown, n1) :: (.unknown, n2) :: cs) out := by
  generalize hc : ((CharClass.unknown, n1 + n2) :: cs : List (CharClass × Nat)) = cls at h
  cases h with
  | nil => cases hc
  | known h => simp at hc
  | bytes h => simp at hc
  | dropped h => cases h
  | single h1 h2 => cases h2
  | run h1 h2 h3 h4 h5 =>
    rename_i u' ns cs' out'
    cases ns with
    | nil => exact absurd rfl h3
    | cons m ns =>
      simp only [List.map_cons, List.cons_append, List.cons.injEq, Prod.mk.injEq, true_and] at hc
      obtain ⟨rfl, rfl⟩ := hc
      have := SymsSpec.run (ns := n1 :: n2 :: ns) h1 h2 (by simp) h4 h5
      simp only [List.map_cons, List.cons_append, List.sum_cons] at this ⊢
      rw [← Nat.add_assoc] at this
      exact this

theorem spec_one {u n : Nat} {cs out} {fuse : Bool} (hk : fuse = true → ∀ c, cs.head? = some c → c.1 ≠ .unknown)
    (h : SymsSpec (some u) fuse cs out) :
    SymsSpec (some u) fuse ((.unknown, n) :: cs) ((u, n) :: out) := by
  cases fuse with
  | false => exact .single rfl rfl h
  | true =>
    have := SymsSpec.run (ns := [n]) rfl rfl (by simp) (hk rfl) h
    simpa using this

theorem classLoop_spec {b : Bpe} : ∀ {cls : List (CharClass × Nat)} {st st' : InitSt},
    classLoop b cls st = some st' →
    (st.2 ≠ none → ∃ u, unkId b = some u ∧ ∃ n, st.2 = some (u, n)) →
    (st.2 ≠ none → ∀ c, cls.head? = some c → ∀ ids, c.1 ≠ .bytes ids) →
    ¬ UnkThenBytes cls →
    ∃ out, flushUnk st' = st.1 ++ out ∧
      SymsSpec (unkId b) b.fuseUnk
        ((match st.2 with | some (_, n) => [(CharClass.unknown, n)] | none => []) ++ cls) out := by
  intro cls
  induction cls with
  | nil =>
    intro st st' h hp _ _
    simp only [classLoop, Option.some.injEq] at h
    subst h
    obtain ⟨o, p⟩ := st
    cases p with
    | none => exact ⟨[], by simp [flushUnk], .nil⟩
    | some un =>
      obtain ⟨u, hu, n, hn⟩ := hp (by simp)
      simp only [Option.some.injEq] at hn
      subst hn
      refine ⟨[(u, n)], by simp [flushUnk], ?_⟩
      rw [hu]
      exact spec_one (by intro _ c hc; simp at hc) .nil
  | cons k ks ih =>
    intro st st' h hp hnb hub
    obtain ⟨kc, kn⟩ := k
    have hub' : ¬ UnkThenBytes ks := by
      rintro ⟨p, n, ids, n', q, rfl⟩
      exact hub ⟨(kc, kn) :: p, n, ids, n', q, rfl⟩
    obtain ⟨o, p⟩ := st
    rw [classLoop] at h
    cases kc with
    | known id =>
      simp only [stepClass] at h
      obtain ⟨out, h1, h2⟩ := ih h (by simp) (by simp) hub'
      simp only [List.nil_append] at h2
      cases p with
      | none =>
        refine ⟨(id, kn) :: out, by simpa [flushUnk] using h1, ?_⟩
        exact .known h2
      | some un =>
        obtain ⟨u, hu, n, hn⟩ := hp (by simp)
        simp only [Option.some.injEq] at hn
        subst hn
        refine ⟨(u, n) :: (id, kn) :: out, by simpa [flushUnk] using h1, ?_⟩
        rw [hu] at h2 ⊢
        exact spec_one (by intro _ c hc; simp at hc; subst hc; simp) (.known h2)
    | bytes ids =>
      cases p with
      | some un => exact absurd rfl (hnb (by simp) _ rfl ids)
      | none =>
        simp only [stepClass] at h
        obtain ⟨out, h1, h2⟩ := ih h (by simp) (by simp) hub'
        refine ⟨ids.map (fun t => (t, 1)) ++ out, by simpa using h1, ?_⟩
        simp only [List.nil_append] at h2 ⊢
        exact .bytes h2
    | unknown =>
      have hnb' : ∀ c, ks.head? = some c → ∀ ids, c.1 ≠ .bytes ids := by
        intro c hc ids hi
        cases ks with
        | nil => simp at hc
        | cons k2 ks2 =>
          simp at hc; subst hc
          obtain ⟨k2c, k2n⟩ := k2
          simp only at hi; subst hi
          exact hub ⟨[], kn, ids, k2n, ks2, rfl⟩
      simp only [stepClass, stepUnk] at h
      cases hunk : b.unk with
      | none =>
        rw [hunk] at h
        simp only at h
        have hun : unkId b = none := by simp [unkId, hunk]
        cases p with
        | some un => obtain ⟨u, hu, _⟩ := hp (by simp); rw [hun] at hu; cases hu
        | none =>
          obtain ⟨out, h1, h2⟩ := ih h (by simp) (by simp) hub'
          exact ⟨out, h1, .dropped hun h2⟩
      | some t =>
        rw [hunk] at h
        have hid : unkId b = b.vocab.get t := by simp [unkId, hunk]
        cases p with
        | none =>
          simp only at h
          cases hv : b.vocab.get t with
          | none => rw [hv] at h; cases h
          | some u =>
            rw [hv] at h
            obtain ⟨out, h1, h2⟩ := ih h (by intro _; exact ⟨u, by rw [hid, hv], _, rfl⟩)
              (fun _ => hnb') hub'
            exact ⟨out, h1, h2⟩
        | some un =>
          obtain ⟨u, hu, n, hn⟩ := hp (by simp)
          simp only [Option.some.injEq] at hn
          subst hn
          cases hf : b.fuseUnk with
          | true =>
            rw [hf] at h
            simp only at h
            obtain ⟨out, h1, h2⟩ := ih h (by intro _; exact ⟨u, hu, _, rfl⟩) (fun _ => hnb') hub'
            refine ⟨out, h1, ?_⟩
            rw [hu, hf] at h2
            rw [hu]
            exact spec_fuse h2
          | false =>
            rw [hf] at h
            simp only at h
            rw [← hid, hu] at h
            simp only at h
            obtain ⟨out, h1, h2⟩ := ih h (by intro _; exact ⟨u, hu, _, rfl⟩) (fun _ => hnb') hub'
            refine ⟨(u, n) :: out, by simpa using h1, ?_⟩
            rw [hu, hf] at h2
            rw [hu]
            exact .single rfl rfl h2

/-! ## C18 -/

/-- **C18 (partial).** The initial symbols follow the configuration. Missing from the full claim: an
unknown character directly followed by one that falls back to bytes, where the code emits the byte
symbols first (`C18_bytes_out_of_order`). -/
theorem C18_initial_symbols_partial {b : Bpe} {w : Str} {l : List (Nat × Nat)}
    {cls : List (CharClass × Nat)} (hc : Classes b w cls) (h : initSyms b w = some l)
    (hub : ¬ UnkThenBytes cls) : SymsSpec (unkId b) b.fuseUnk cls l := by
  rw [classes_iff] at hc
  subst hc
  unfold initSyms at h
  rw [Option.map_eq_some_iff] at h
  obtain ⟨st, h1, rfl⟩ := h
  rw [initLoop_eq] at h1
  obtain ⟨out, h2, h3⟩ := classLoop_spec h1 (by simp) (by simp) hub
  simp only [List.nil_append] at h2 h3
  rw [h2]; exact h3

/-- **C18.** Without byte fallback the initial symbols follow the configuration for every word. -/
theorem C18_no_fallback {b : Bpe} {w : Str} {l : List (Nat × Nat)} {cls : List (CharClass × Nat)}
    (hb : b.byteFallback = false) (hc : Classes b w cls) (h : initSyms b w = some l) :
    SymsSpec (unkId b) b.fuseUnk cls l := by
  refine C18_initial_symbols_partial hc h ?_
  rintro ⟨p, n, ids, n', q, hcls⟩
  rw [classes_iff] at hc
  have : (CharClass.bytes ids, n') ∈ classesFrom b true w := by rw [← hc, hcls]; simp
  obtain ⟨i, hi, hi'⟩ := List.getElem_of_mem this
  have h1 : (classesFrom b true w)[i]? = some (CharClass.bytes ids, n') := by
    rw [List.getElem?_eq_getElem hi, hi']
  rw [classesFrom_get, Option.map_eq_some_iff] at h1
  obtain ⟨c, _, h2⟩ := h1
  injection h2 with h2 _
  have := classified_iff.2 h2.symm
  cases this with
  | bytes _ h3 _ => rw [hb] at h3; cases h3

/-- **C18.** With byte fallback and all byte tokens in the vocabulary the initial symbols follow the
configuration for every word. -/
theorem C18_full_fallback {b : Bpe} {w : Str} {l : List (Nat × Nat)} {cls : List (CharClass × Nat)}
    (hf : b.byteFallback = true) (hb : ∀ x, b.vocab.get (byteToken x) ≠ none)
    (hc : Classes b w cls) (h : initSyms b w = some l) :
    SymsSpec (unkId b) b.fuseUnk cls l := by
  refine C18_initial_symbols_partial hc h ?_
  rintro ⟨p, n, ids, n', q, hcls⟩
  rw [classes_iff] at hc
  have : (CharClass.unknown, n) ∈ classesFrom b true w := by rw [← hc, hcls]; simp
  obtain ⟨i, hi, hi'⟩ := List.getElem_of_mem this
  have h1 : (classesFrom b true w)[i]? = some (CharClass.unknown, n) := by
    rw [List.getElem?_eq_getElem hi, hi']
  rw [classesFrom_get, Option.map_eq_some_iff] at h1
  obtain ⟨c, _, h2⟩ := h1
  injection h2 with h2 _
  have := classified_iff.2 h2.symm
  cases this with
  | unknownOff _ h3 => rw [hf] at h3; cases h3
  | unknownByte _ _ h3 => exact hb _ h3

theorem flush_spec_unique {unk : Option Nat} {fuse : Bool} {cls : List (CharClass × Nat)}
    {o1 o2 : List (Nat × Nat)} (h1 : SymsSpec unk fuse cls o1) : SymsSpec unk fuse cls o2 → o1 = o2 := by
  induction h1 generalizing o2 with
  | nil =>
    intro h2
    generalize hc : ([] : List (CharClass × Nat)) = cls at h2
    cases h2 with
    | nil => rfl
    | run h1 h2 h3 h4 h5 => rename_i u' ns cs' out'; cases ns <;> simp_all
    | _ => cases hc
  | known h ih =>
    rename_i id n cs out
    intro h2
    generalize hc : ((CharClass.known id, n) :: cs : List (CharClass × Nat)) = cls at h2
    cases h2 with
    | known h' => simp at hc; obtain ⟨⟨rfl, rfl⟩, rfl⟩ := hc; rw [ih h']
    | run h1 h2 h3 h4 h5 => rename_i u' ns cs' out'; cases ns <;> simp_all
    | _ => simp at hc
  | bytes h ih =>
    rename_i ids n cs out
    intro h2
    generalize hc : ((CharClass.bytes ids, n) :: cs : List (CharClass × Nat)) = cls at h2
    cases h2 with
    | bytes h' => simp at hc; obtain ⟨⟨rfl, rfl⟩, rfl⟩ := hc; rw [ih h']
    | run h1 h2 h3 h4 h5 => rename_i u' ns cs' out'; cases ns <;> simp_all
    | _ => simp at hc
  | dropped hu h ih =>
    rename_i n cs out
    intro h2
    generalize hc : ((CharClass.unknown, n) :: cs : List (CharClass × Nat)) = cls at h2
    cases h2 with
    | dropped _ h' => simp at hc; obtain ⟨rfl, rfl⟩ := hc; exact ih h'
    | single hu' => rw [hu] at hu'; cases hu'
    | run hu' => rw [hu] at hu'; cases hu'
    | _ => simp at hc
  | single hu hf h ih =>
    rename_i u n cs out
    intro h2
    generalize hc : ((CharClass.unknown, n) :: cs : List (CharClass × Nat)) = cls at h2
    cases h2 with
    | dropped hu' h' => rw [hu] at hu'; cases hu'
    | single hu' hf' h' =>
      simp at hc; obtain ⟨rfl, rfl⟩ := hc
      rw [hu] at hu'; injection hu' with hu'; rw [hu', ih h']
    | run hu' hf' => rw [hf] at hf'; cases hf'
    | _ => simp at hc
  | run hu hf hne hh h ih =>
    rename_i u ns cs out
    intro h2
    generalize hc : (ns.map (fun n => (CharClass.unknown, n)) ++ cs : List (CharClass × Nat)) = cls at h2
    cases h2 with
    | nil => cases ns <;> simp_all
    | known h' => cases ns <;> simp_all
    | bytes h' => cases ns <;> simp_all
    | dropped hu' h' => rw [hu] at hu'; cases hu'
    | single hu' hf' => rw [hf] at hf'; cases hf'
    | run hu' hf' hne' hh' h' =>
      rename_i u' ns' cs' out'
      rw [hu] at hu'; injection hu' with hu'; subst hu'
      have key : ∀ (a b : List Nat) (x y : List (CharClass × Nat)),
          a.map (fun n => (CharClass.unknown, n)) ++ x = b.map (fun n => (CharClass.unknown, n)) ++ y →
          (∀ c, x.head? = some c → c.1 ≠ .unknown) → (∀ c, y.head? = some c → c.1 ≠ .unknown) →
          a = b ∧ x = y := by
        intro a
        induction a with
        | nil =>
          intro b x y hxy hx hy
          cases b with
          | nil => simpa using hxy
          | cons m ms =>
            simp only [List.map_nil, List.nil_append, List.map_cons, List.cons_append] at hxy
            subst hxy
            exact absurd rfl (hx _ rfl)
        | cons k ks ihk =>
          intro b x y hxy hx hy
          cases b with
          | nil =>
            simp only [List.map_nil, List.nil_append, List.map_cons, List.cons_append] at hxy
            subst hxy
            exact absurd rfl (hy _ rfl)
          | cons m ms =>
            simp only [List.map_cons, List.cons_append, List.cons.injEq, Prod.mk.injEq, true_and] at hxy
            obtain ⟨rfl, hxy⟩ := hxy
            obtain ⟨rfl, rfl⟩ := ihk ms x y hxy hx hy
            exact ⟨rfl, rfl⟩
      obtain ⟨rfl, rfl⟩ := key _ _ _ _ hc hh hh'
      rw [ih h']

/-- **C18.** The specification determines the symbols. -/
theorem C18_spec_unique {unk : Option Nat} {fuse : Bool} {cls : List (CharClass × Nat)}
    {o1 o2 : List (Nat × Nat)} (h1 : SymsSpec unk fuse cls o1) (h2 : SymsSpec unk fuse cls o2) :
    o1 = o2 := flush_spec_unique h1 h2

theorem classLoop_none {b : Bpe} : ∀ {cls : List (CharClass × Nat)} {st : InitSt},
    (st.2 ≠ none → unkId b ≠ none) →
    (classLoop b cls st = none ↔ b.unk ≠ none ∧ unkId b = none ∧ ∃ n, (CharClass.unknown, n) ∈ cls) := by
  intro cls
  induction cls with
  | nil => intro st _; simp [classLoop]
  | cons k ks ih =>
    intro st hp
    obtain ⟨kc, kn⟩ := k
    obtain ⟨o, p⟩ := st
    rw [classLoop]
    cases kc with
    | known id =>
      simp only [stepClass]
      rw [ih (by simp)]; simp
    | bytes ids =>
      simp only [stepClass]
      rw [ih (st := (o ++ ids.map (fun t => (t, 1)), p)) hp]; simp
    | unknown =>
      simp only [stepClass, stepUnk]
      cases hunk : b.unk with
      | none =>
        simp only
        rw [ih hp]; simp [hunk]
      | some t =>
        have hid : unkId b = b.vocab.get t := by simp [unkId, hunk]
        cases p with
        | none =>
          simp only
          cases hv : b.vocab.get t with
          | none =>
            rw [hid, hv]
            simp only [ne_eq, reduceCtorEq, not_false_eq_true, true_and, true_iff]
            exact ⟨kn, by simp⟩
          | some u =>
            simp only
            rw [ih (by intro _; rw [hid, hv]; simp), hid, hv]; simp
        | some un =>
          have hne := hp (by simp)
          obtain ⟨u, hu⟩ := Option.ne_none_iff_exists'.1 hne
          cases hf : b.fuseUnk with
          | true =>
            simp only
            rw [ih (fun _ => hne), hu]; simp
          | false =>
            simp only
            rw [← hid, hu]
            simp only
            rw [ih (fun _ => hne), hu]; simp

/-- **C18.** The only error: the configured unknown token is needed and is not in the vocabulary. -/
theorem C18_error_iff {b : Bpe} {w : Str} {cls : List (CharClass × Nat)} (hc : Classes b w cls) :
    initSyms b w = none ↔
      ∃ t, b.unk = some t ∧ b.vocab.get t = none ∧ ∃ n, (CharClass.unknown, n) ∈ cls := by
  rw [classes_iff] at hc
  subst hc
  unfold initSyms
  rw [Option.map_eq_none_iff, initLoop_eq, classLoop_none (by simp)]
  cases hu : b.unk with
  | none => simp
  | some t => simp [unkId, hu]

/-- **C18 (finding).** With byte fallback an unknown character followed by a character known only as
bytes comes out after it: in `"zé"` with `z` unknown the bytes of `é` precede the unknown symbol. -/
theorem C18_bytes_out_of_order : ∃ (b : Bpe) (w : Str) (cls : List (CharClass × Nat)) (l : List (Nat × Nat)),
    Classes b w cls ∧ initSyms b w = some l ∧ ¬ SymsSpec (unkId b) b.fuseUnk cls l := by
  let b : Bpe := { vocab := [(['u'], 0), (byteToken 0xC3, 1), (byteToken 0xA9, 2)], vocabR := [],
                   merges := [], unk := some ['u'], byteFallback := true }
  refine ⟨b, ['z', 'é'], [(.unknown, 1), (.bytes [1, 2], 2)], [(1, 1), (2, 1), (0, 1)], ?_, ?_, ?_⟩
  · rw [classes_iff]; decide
  · decide
  · intro h
    have h2 : SymsSpec (unkId b) b.fuseUnk [(.unknown, 1), (.bytes [1, 2], 2)] [(0, 1), (1, 1), (2, 1)] :=
      .single rfl rfl (.bytes (ids := [1, 2]) .nil)
    have := C18_spec_unique h h2
    simp at this

/-- The hypotheses of the partial theorem hold for this word, with fused unknown characters. -/
example : ∃ l, initSyms { sampleBpe with unk := some ['u'], fuseUnk := true } ['x', 'y', 'a'] = some l ∧
    SymsSpec (some 5) true [(.unknown, 1), (.unknown, 1), (.known 0, 1)] l :=
  ⟨[(5, 2), (0, 1)], by decide, C18_no_fallback (b := { sampleBpe with unk := some ['u'], fuseUnk := true })
    (w := ['x', 'y', 'a']) rfl (classes_iff.2 (by decide)) (by decide)⟩

/-! ## lengths and ids of the initial symbols -/

theorem sum_append (a b : List Nat) : (a ++ b).sum = a.sum + b.sum := by simp

theorem classLoop_lens {b : Bpe} (hu : b.unk ≠ none) : ∀ {cls : List (CharClass × Nat)} {st st' : InitSt},
    classLoop b cls st = some st' → (∀ k ∈ cls, ∀ ids, k.1 = .bytes ids → ids.length = k.2) →
    ((flushUnk st').map (·.2)).sum = ((flushUnk st).map (·.2)).sum + (cls.map (·.2)).sum := by
  intro cls
  induction cls with
  | nil => intro st st' h _; simp [classLoop] at h; subst h; simp
  | cons k ks ih =>
    intro st st' h hb
    obtain ⟨kc, kn⟩ := k
    obtain ⟨o, p⟩ := st
    have hb' := fun k hk => hb k (List.mem_cons_of_mem _ hk)
    rw [classLoop] at h
    cases kc with
    | known id =>
      simp only [stepClass] at h
      rw [ih h hb']
      cases p <;> simp [flushUnk] <;> omega
    | bytes ids =>
      simp only [stepClass] at h
      have hl := hb _ List.mem_cons_self ids rfl
      simp only at hl
      rw [ih h hb']
      have hones : ((ids.map fun t => (t, 1)).map (·.2)).sum = ids.length := by
        clear hl h hb; induction ids with
        | nil => rfl
        | cons i is ihi => simp only [List.map_cons, List.sum_cons, List.length_cons, ihi]; omega
      cases p with
      | none => simp only [flushUnk, List.map_append, sum_append, hones, List.map_cons, List.sum_cons]; omega
      | some un =>
        simp only [flushUnk, List.map_append, sum_append, hones, List.map_cons, List.sum_cons,
          List.map_nil, List.sum_nil]; omega
    | unknown =>
      simp only [stepClass, stepUnk] at h
      obtain ⟨t, ht⟩ := Option.ne_none_iff_exists'.1 hu
      rw [ht] at h
      cases p with
      | none =>
        simp only at h
        cases hv : b.vocab.get t with
        | none => rw [hv] at h; cases h
        | some u =>
          rw [hv] at h
          rw [ih h hb']; simp [flushUnk]; omega
      | some un =>
        obtain ⟨ui, ul⟩ := un
        cases hf : b.fuseUnk with
        | true =>
          rw [hf] at h
          simp only at h
          rw [ih h hb']; simp [flushUnk]; omega
        | false =>
          rw [hf] at h
          simp only at h
          cases hv : b.vocab.get t with
          | none => rw [hv] at h; cases h
          | some u =>
            rw [hv] at h
            rw [ih h hb']; simp [flushUnk]; omega

theorem classLoop_inv {b : Bpe} (P : Nat × Nat → Prop)
    (hk : ∀ s id n, b.vocab.get s = some id → 0 < n → P (id, n))  :
    ∀ {cls : List (CharClass × Nat)} {st st' : InitSt}, classLoop b cls st = some st' →
    (∀ k ∈ cls, 0 < k.2 ∧ ((∃ id s, k.1 = .known id ∧ b.vocab.get s = some id) ∨
      (∃ ids, k.1 = .bytes ids ∧ ∀ i ∈ ids, ∃ s, b.vocab.get s = some i) ∨ k.1 = .unknown)) →
    (∀ x ∈ st.1, P x) → (∀ x, st.2 = some x → ∃ s, b.vocab.get s = some x.1 ∧ 0 < x.2) →
    ∀ x ∈ flushUnk st', P x := by
  intro cls
  induction cls with
  | nil =>
    intro st st' h _ h1 h2
    simp [classLoop] at h; subst h
    obtain ⟨o, p⟩ := st
    cases p with
    | none => exact h1
    | some u =>
      intro x hx
      rcases List.mem_append.1 hx with hx | hx
      · exact h1 x hx
      · simp at hx; subst hx
        obtain ⟨s, h3, h4⟩ := h2 _ rfl
        exact hk s _ _ h3 h4
  | cons k ks ih =>
    intro st st' h hcls h1 h2
    obtain ⟨kc, kn⟩ := k
    obtain ⟨o, p⟩ := st
    obtain ⟨hpos, hkc⟩ := hcls _ List.mem_cons_self
    simp only at hpos hkc
    have hcls' := fun k hk => hcls k (List.mem_cons_of_mem _ hk)
    have hfl : ∀ x ∈ flushUnk (o, p), P x := by
      cases p with
      | none => exact h1
      | some u =>
        intro x hx
        rcases List.mem_append.1 hx with hx | hx
        · exact h1 x hx
        · simp at hx; subst hx
          obtain ⟨s, h3, h4⟩ := h2 _ rfl
          exact hk s _ _ h3 h4
    rw [classLoop] at h
    cases kc with
    | known id =>
      simp only [stepClass] at h
      refine ih h hcls' ?_ (by simp)
      intro x hx
      rcases List.mem_append.1 hx with hx | hx
      · exact hfl x hx
      · simp at hx; subst hx
        rcases hkc with ⟨id', s, he, hs⟩ | ⟨ids, he, _⟩ | he
        · cases he; exact hk s _ _ hs hpos
        · cases he
        · cases he
    | bytes ids =>
      simp only [stepClass] at h
      refine ih h hcls' ?_ h2
      intro x hx
      rcases List.mem_append.1 hx with hx | hx
      · exact h1 x hx
      · obtain ⟨i, hi, rfl⟩ := List.mem_map.1 hx
        rcases hkc with ⟨id', s, he, hs⟩ | ⟨ids', he, hids⟩ | he
        · cases he
        · cases he
          obtain ⟨s, hs⟩ := hids i hi
          exact hk s _ _ hs (by omega)
        · cases he
    | unknown =>
      simp only [stepClass, stepUnk] at h
      cases hu : b.unk with
      | none => rw [hu] at h; exact ih h hcls' h1 h2
      | some t =>
        rw [hu] at h
        cases p with
        | none =>
          simp only at h
          cases hv : b.vocab.get t with
          | none => rw [hv] at h; cases h
          | some u =>
            rw [hv] at h
            exact ih h hcls' h1 (by intro x hx; cases hx; exact ⟨t, hv, hpos⟩)
        | some un =>
          obtain ⟨ui, ul⟩ := un
          obtain ⟨s, h3, h4⟩ := h2 _ rfl
          cases hf : b.fuseUnk with
          | true =>
            rw [hf] at h
            simp only at h
            exact ih h hcls' h1 (by intro x hx; cases hx; exact ⟨s, h3, by simp only; omega⟩)
          | false =>
            rw [hf] at h
            simp only at h
            cases hv : b.vocab.get t with
            | none => rw [hv] at h; cases h
            | some u =>
              rw [hv] at h
              refine ih h hcls' ?_ (by intro x hx; cases hx; exact ⟨t, hv, hpos⟩)
              intro x hx
              rcases List.mem_append.1 hx with hx | hx
              · exact h1 x hx
              · simp at hx; subst hx; exact hk s _ _ h3 h4

theorem classesFrom_mem {b : Bpe} : ∀ {w : Str} {first : Bool} {k : CharClass × Nat},
    k ∈ classesFrom b first w → ∃ c s, k = (classOf b s, c.utf8Size) ∧
      ∃ f l, s = charSym b f l c := by
  intro w
  induction w with
  | nil => intro first k h; cases h
  | cons c cs ih =>
    intro first k h
    rcases List.mem_cons.1 h with rfl | h
    · exact ⟨c, _, rfl, _, _, rfl⟩
    · exact ih h

/-- Every initial symbol has a positive length and the id of some token. -/
theorem initSyms_ok {b : Bpe} {w : Str} {l : List (Nat × Nat)} (h : initSyms b w = some l) :
    ∀ x ∈ l, x.2 ≠ 0 ∧ ∃ s, b.vocab.get s = some x.1 := by
  unfold initSyms at h
  rw [Option.map_eq_some_iff] at h
  obtain ⟨st, h1, rfl⟩ := h
  rw [initLoop_eq] at h1
  refine classLoop_inv (fun x => x.2 ≠ 0 ∧ ∃ s, b.vocab.get s = some x.1) ?_ h1 ?_ (by simp) (by simp)
  · intro s id n hs hn; exact ⟨by simp only; omega, s, hs⟩
  · intro k hk
    obtain ⟨c, s, rfl, _⟩ := classesFrom_mem hk
    refine ⟨c.utf8Size_pos, ?_⟩
    have := classified_iff.2 (rfl : classOf b s = classOf b s)
    cases hcl : classOf b s with
    | known id =>
      rw [hcl] at this
      cases this with
      | known h => left; exact ⟨id, s, rfl, h⟩
    | bytes ids =>
      rw [hcl] at this
      cases this with
      | bytes h1 h2 h3 =>
        right; left
        refine ⟨ids, rfl, ?_⟩
        intro i hi
        have : some i ∈ (strBytes s).map fun x => b.vocab.get (byteToken x) := by
          rw [h3]; exact List.mem_map.2 ⟨i, hi, rfl⟩
        obtain ⟨x, _, hx⟩ := List.mem_map.1 this
        exact ⟨_, hx⟩
    | unknown => right; right; rfl

/-- **C18.** With an unknown token configured, and neither prefix nor suffix unless byte fallback is
off, the lengths of the initial symbols add up to the byte length of the word. -/
theorem C18_total_length {b : Bpe} {w : Str} {l : List (Nat × Nat)} (h : initSyms b w = some l)
    (hu : b.unk ≠ none) (hp : b.byteFallback = true → b.pre = none ∧ b.suf = none) :
    (l.map (·.2)).sum = blen w := by
  unfold initSyms at h
  rw [Option.map_eq_some_iff] at h
  obtain ⟨st, h1, rfl⟩ := h
  rw [initLoop_eq] at h1
  rw [classLoop_lens hu h1]
  · have : ∀ (w : Str) (first : Bool), ((classesFrom b first w).map (·.2)).sum = blen w := by
      intro w
      induction w with
      | nil => intro _; rfl
      | cons c cs ih => intro _; simp [classesFrom, ih]
    rw [this]; simp [flushUnk]
  · intro k hk ids hi
    obtain ⟨c, s, rfl, f, l', rfl⟩ := classesFrom_mem hk
    simp only at hi ⊢
    have hcl := classified_iff.2 hi.symm
    cases hcl with
    | bytes _ hb hids =>
      obtain ⟨hpre, hsuf⟩ := hp hb
      have hc : charSym b f l' c = [c] := by
        rw [charSym_eq, hpre, hsuf]; cases f <;> cases l' <;> simp
      rw [hc] at hids
      have := congrArg List.length hids
      simp only [List.length_map, length_strBytes] at this
      simp at this; omega

/-- **C18 (finding).** Without an unknown token, unknown characters disappear and the symbols no
longer cover the word. -/
theorem C18_dropped_without_unk : ∃ (b : Bpe) (w : Str), initSyms b w = some [(0, 1)] ∧ blen w = 2 :=
  ⟨sampleBpe, ['z', 'a'], by decide, by decide⟩

end Tok.Bpe
