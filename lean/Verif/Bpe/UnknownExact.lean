import Verif.Bpe.Unknown

/-!
# C18: what the initial symbols are when unknown characters and byte fallback are mixed

`C18_initial_symbols_partial` leaves out words in which a character that falls back to bytes directly follows an
unknown one. Here is what the code does with every word: the symbols are those of the word with the unknown
characters moved.
-/

namespace Tok.Bpe

/-- Falls back to bytes. -/
def CharClass.isBytes : CharClass → Bool
  | .bytes _ => true
  | _ => false

/-- Is unknown. -/
def CharClass.isUnknown : CharClass → Bool
  | .unknown => true
  | _ => false

/-- Is in the vocabulary. -/
def CharClass.isKnown : CharClass → Bool
  | .known _ => true
  | _ => false

/-- The order in which the characters come out. Known characters and those that fall back to bytes stay. Without
fusing, an unknown character moves behind the characters directly after it that fall back to bytes. With fusing, all
unknown characters up to the next known one (or the end) move to just before it, behind those that fall back to
bytes. -/
inductive Late : Bool → List (CharClass × Nat) → List (CharClass × Nat) → Prop
  | nil {f} : Late f [] []
  | keep {f k cs out} : k.1.isUnknown = false → Late f cs out → Late f (k :: cs) (k :: out)
  | one {n bs rest out} : (∀ k ∈ bs, k.1.isBytes = true) → (∀ k, rest.head? = some k → k.1.isBytes = false) →
      Late false rest out → Late false ((.unknown, n) :: (bs ++ rest)) (bs ++ (.unknown, n) :: out)
  | block {n blk rest out} : (∀ k ∈ blk, k.1.isKnown = false) → (∀ k, rest.head? = some k → k.1.isKnown = true) →
      Late true rest out → Late true ((.unknown, n) :: (blk ++ rest))
        (blk.filter (·.1.isBytes) ++ (.unknown, n) :: blk.filter (·.1.isUnknown) ++ out)

/-- Symbols of characters that fall back to bytes. -/
def byteSyms : List (CharClass × Nat) → List (Nat × Nat)
  | [] => []
  | (.bytes ids, _) :: ks => ids.map (fun t => (t, 1)) ++ byteSyms ks
  | _ :: ks => byteSyms ks

theorem spec_bytes {unk : Option Nat} {f : Bool} : ∀ {bs cs : List (CharClass × Nat)} {out : List (Nat × Nat)},
    (∀ k ∈ bs, k.1.isBytes = true) → SymsSpec unk f cs out → SymsSpec unk f (bs ++ cs) (byteSyms bs ++ out)
  | [], _, _, _, h => h
  | (.bytes ids, n) :: bs, cs, out, hb, h => by
    have := spec_bytes (bs := bs) (fun k hk => hb k (by simp [hk])) h
    simp only [byteSyms, List.append_assoc, List.cons_append]
    exact .bytes this
  | (.known id, n) :: bs, cs, out, hb, h => by simpa [CharClass.isBytes] using hb (.known id, n) (by simp)
  | (.unknown, n) :: bs, cs, out, hb, h => by simpa [CharClass.isBytes] using hb (.unknown, n) (by simp)

theorem spec_bytes_inv {unk : Option Nat} {f : Bool} : ∀ {bs cs : List (CharClass × Nat)} {l : List (Nat × Nat)},
    (∀ k ∈ bs, k.1.isBytes = true) → SymsSpec unk f (bs ++ cs) l → ∃ out, l = byteSyms bs ++ out ∧ SymsSpec unk f cs out
  | [], _, l, _, h => ⟨l, rfl, h⟩
  | (.bytes ids, n) :: bs, cs, l, hb, h => by
    rw [List.cons_append] at h
    generalize hc : ((CharClass.bytes ids, n) :: (bs ++ cs) : List (CharClass × Nat)) = cls at h
    cases h with
    | nil => cases hc
    | known h => simp at hc
    | bytes h =>
      simp only [List.cons.injEq, Prod.mk.injEq, CharClass.bytes.injEq] at hc
      obtain ⟨⟨rfl, rfl⟩, rfl⟩ := hc
      obtain ⟨out, rfl, h2⟩ := spec_bytes_inv (fun k hk => hb k (by simp [hk])) h
      exact ⟨out, by simp [byteSyms], h2⟩
    | dropped h1 h => simp at hc
    | single h1 h2 h => simp at hc
    | run h1 h2 h3 h4 h5 =>
      rename_i ns _ _
      cases ns with
      | nil => exact absurd rfl h3
      | cons m ns => simp at hc
  | (.known id, n) :: bs, cs, out, hb, h => by simpa [CharClass.isBytes] using hb (.known id, n) (by simp)
  | (.unknown, n) :: bs, cs, out, hb, h => by simpa [CharClass.isBytes] using hb (.unknown, n) (by simp)

/-- The loop, with and without a pending unknown symbol. -/
theorem classLoop_late {b : Bpe} {u : Nat} (hu : unkId b = some u) : ∀ (cls : List (CharClass × Nat)),
    (∀ (pre : List (Nat × Nat)) st', classLoop b cls (pre, none) = some st' → ∃ out l, Late b.fuseUnk cls out ∧
      flushUnk st' = pre ++ l ∧ SymsSpec (some u) b.fuseUnk out l) ∧
    (∀ (pre : List (Nat × Nat)) n st', classLoop b cls (pre, some (u, n)) = some st' →
      ∃ out l, Late b.fuseUnk ((.unknown, n) :: cls) out ∧
      flushUnk st' = pre ++ l ∧ SymsSpec (some u) b.fuseUnk out l) := by
  obtain ⟨t, hut, hget⟩ : ∃ t, b.unk = some t ∧ b.vocab.get t = some u := by
    unfold unkId at hu
    cases ht : b.unk with
    | none => simp [ht] at hu
    | some t => exact ⟨t, rfl, by simpa [ht] using hu⟩
  intro cls
  induction cls with
  | nil =>
    constructor
    · intro pre st' h
      simp only [classLoop, Option.some.injEq] at h
      subst h
      exact ⟨[], [], .nil, by simp [flushUnk], .nil⟩
    · intro pre n st' h
      simp only [classLoop, Option.some.injEq] at h
      subst h
      refine ⟨[(.unknown, n)], [(u, n)], ?_, by simp [flushUnk], spec_one (by simp) .nil⟩
      cases b.fuseUnk with
      | false => exact Late.one (bs := []) (rest := []) (by simp) (by simp) .nil
      | true => exact Late.block (blk := []) (rest := []) (by simp) (by simp) .nil
  | cons k ks ih =>
    obtain ⟨ih1, ih2⟩ := ih
    obtain ⟨k, m⟩ := k
    cases k with
    | known id =>
      constructor
      · intro pre st' h
        simp only [classLoop, stepClass, flushUnk] at h
        obtain ⟨out, l, a1, a2, a3⟩ := ih1 _ _ h
        exact ⟨_, (id, m) :: l, .keep rfl a1, by rw [a2]; simp, .known a3⟩
      · intro pre n st' h
        simp only [classLoop, stepClass, flushUnk] at h
        obtain ⟨out, l, a1, a2, a3⟩ := ih1 _ _ h
        refine ⟨(.unknown, n) :: (.known id, m) :: out, (u, n) :: (id, m) :: l, ?_, by rw [a2]; simp,
          spec_one (by simp) (.known a3)⟩
        have a4 : Late b.fuseUnk ((.known id, m) :: ks) ((.known id, m) :: out) := .keep rfl a1
        cases hf : b.fuseUnk with
        | false => rw [hf] at a4; exact Late.one (bs := []) (by simp) (by simp [CharClass.isBytes]) a4
        | true => rw [hf] at a4; exact Late.block (blk := []) (by simp) (by simp [CharClass.isKnown]) a4
    | bytes ids =>
      constructor
      · intro pre st' h
        simp only [classLoop, stepClass] at h
        obtain ⟨out, l, a1, a2, a3⟩ := ih1 _ _ h
        exact ⟨_, ids.map (fun t => (t, 1)) ++ l, .keep rfl a1, by rw [a2]; simp, .bytes a3⟩
      · intro pre n st' h
        simp only [classLoop, stepClass] at h
        obtain ⟨out, l, a1, a2, a3⟩ := ih2 _ _ _ h
        refine ⟨(.bytes ids, m) :: out, ids.map (fun t => (t, 1)) ++ l, ?_, by rw [a2]; simp, .bytes a3⟩
        generalize hf : b.fuseUnk = f at a1
        generalize hc : ((CharClass.unknown, n) :: ks : List (CharClass × Nat)) = cs at a1
        cases a1 with
        | nil => cases hc
        | keep h1 _ => cases hc; simp [CharClass.isUnknown] at h1
        | one h1 h2 h3 =>
          rename_i bs rest o
          simp only [List.cons.injEq, Prod.mk.injEq, true_and] at hc
          obtain ⟨rfl, rfl⟩ := hc
          exact Late.one (bs := (.bytes ids, m) :: bs) (by
            intro k hk
            rcases List.mem_cons.1 hk with rfl | hk
            · rfl
            · exact h1 k hk) h2 h3
        | block h1 h2 h3 =>
          rename_i blk rest o
          simp only [List.cons.injEq, Prod.mk.injEq, true_and] at hc
          obtain ⟨rfl, rfl⟩ := hc
          exact Late.block (blk := (.bytes ids, m) :: blk) (by
            intro k hk
            rcases List.mem_cons.1 hk with rfl | hk
            · rfl
            · exact h1 k hk) h2 h3
    | unknown =>
      constructor
      · intro pre st' h
        simp only [classLoop, stepClass, stepUnk, hut, hget] at h
        exact ih2 _ _ _ h
      · intro pre n st' h
        simp only [classLoop, stepClass, stepUnk, hut, hget] at h
        cases hf : b.fuseUnk with
        | false =>
          rw [hf] at h ih2
          simp only at h
          obtain ⟨out, l, a1, a2, a3⟩ := ih2 _ _ _ h
          refine ⟨(.unknown, n) :: out, (u, n) :: l, Late.one (bs := []) (by simp) (by simp [CharClass.isBytes]) a1,
            by rw [a2]; simp, .single rfl rfl a3⟩
        | true =>
          rw [hf] at h ih2
          simp only at h
          obtain ⟨out, l, a1, a2, a3⟩ := ih2 _ _ _ h
          generalize hc : ((CharClass.unknown, n + m) :: ks : List (CharClass × Nat)) = cs at a1
          cases a1 with
          | nil => cases hc
          | keep h1 _ => cases hc; simp [CharClass.isUnknown] at h1
          | block h1 h2 h3 =>
            rename_i blk rest o
            simp only [List.cons.injEq, Prod.mk.injEq, true_and] at hc
            obtain ⟨rfl, rfl⟩ := hc
            refine ⟨_, l, Late.block (blk := (.unknown, m) :: blk) (by
              intro k hk
              rcases List.mem_cons.1 hk with rfl | hk
              · rfl
              · exact h1 k hk) h2 h3, a2, ?_⟩
            have hb : ∀ k ∈ blk.filter (·.1.isBytes), k.1.isBytes = true := fun k hk => (List.mem_filter.1 hk).2
            rw [List.append_assoc, List.cons_append] at a3
            obtain ⟨l', rfl, a4⟩ := spec_bytes_inv hb a3
            have := spec_bytes hb (spec_fuse a4)
            simpa [CharClass.isBytes, CharClass.isUnknown] using this

/-- **C18.** Every word, with an unknown token: the initial symbols are those of the characters in the order
`Late`. -/
theorem C18_exact {b : Bpe} {w : Str} {l : List (Nat × Nat)} {cls : List (CharClass × Nat)} (hc : Classes b w cls)
    (h : initSyms b w = some l) {u : Nat} (hu : unkId b = some u) :
    ∃ out, Late b.fuseUnk cls out ∧ SymsSpec (some u) b.fuseUnk out l := by
  rw [classes_iff] at hc
  subst hc
  unfold initSyms at h
  rw [Option.map_eq_some_iff] at h
  obtain ⟨st, h1, rfl⟩ := h
  rw [initLoop_eq] at h1
  obtain ⟨out, l, a1, a2, a3⟩ := (classLoop_late hu _).1 _ _ h1
  exact ⟨out, a1, by rw [a2]; simpa using a3⟩

theorem classLoop_no_unk {b : Bpe} (hu : b.unk = none) : ∀ (cls : List (CharClass × Nat)) (pre : List (Nat × Nat)) st',
    classLoop b cls (pre, none) = some st' → ∃ l, flushUnk st' = pre ++ l ∧ SymsSpec none b.fuseUnk cls l := by
  intro cls
  induction cls with
  | nil =>
    intro pre st' h
    simp only [classLoop, Option.some.injEq] at h
    subst h
    exact ⟨[], by simp [flushUnk], .nil⟩
  | cons k ks ih =>
    intro pre st' h
    obtain ⟨k, m⟩ := k
    cases k with
    | known id =>
      simp only [classLoop, stepClass, flushUnk] at h
      obtain ⟨l, a1, a2⟩ := ih _ _ h
      exact ⟨(id, m) :: l, by rw [a1]; simp, .known a2⟩
    | bytes ids =>
      simp only [classLoop, stepClass] at h
      obtain ⟨l, a1, a2⟩ := ih _ _ h
      exact ⟨ids.map (fun t => (t, 1)) ++ l, by rw [a1]; simp, .bytes a2⟩
    | unknown =>
      simp only [classLoop, stepClass, stepUnk, hu] at h
      obtain ⟨l, a1, a2⟩ := ih _ _ h
      exact ⟨l, a1, .dropped rfl a2⟩

/-- **C18.** Without an unknown token the symbols follow the configuration for every word (unknown characters are
dropped). -/
theorem C18_no_unk {b : Bpe} {w : Str} {l : List (Nat × Nat)} {cls : List (CharClass × Nat)} (hc : Classes b w cls)
    (h : initSyms b w = some l) (hu : b.unk = none) : SymsSpec none b.fuseUnk cls l := by
  rw [classes_iff] at hc
  subst hc
  unfold initSyms at h
  rw [Option.map_eq_some_iff] at h
  obtain ⟨st, h1, rfl⟩ := h
  rw [initLoop_eq] at h1
  obtain ⟨l, a1, a2⟩ := classLoop_no_unk hu _ _ _ h1
  rw [a1]
  simpa using a2

/-! ### The order is determined, and it is that of the word unless the two kinds are mixed -/

theorem mem_takeWhile_true {α} {p : α → Bool} : ∀ {l : List α} {x : α}, x ∈ l.takeWhile p → p x = true
  | [], _, h => by simp at h
  | y :: l, x, h => by
    rw [List.takeWhile_cons] at h
    split at h
    · rcases List.mem_cons.1 h with rfl | h
      · assumption
      · exact mem_takeWhile_true h
    · simp at h

/-- A list is cut in one way into a part where `p` holds and a rest that does not start with `p`. -/
theorem span_unique {α} {p : α → Bool} {a b : List α} (h1 : ∀ x ∈ a, p x = true)
    (h2 : ∀ x, b.head? = some x → p x = false) : (a ++ b).takeWhile p = a ∧ (a ++ b).dropWhile p = b := by
  induction a with
  | nil =>
    cases b with
    | nil => simp
    | cons y b => simp [h2 y rfl]
  | cons y a ih =>
    have := ih (fun x hx => h1 x (by simp [hx]))
    simp [h1 y (by simp), this.1, this.2]

/-- The order is a function of the classes. -/
theorem C18_late_unique {f : Bool} {cls o1 o2 : List (CharClass × Nat)} (h1 : Late f cls o1) (h2 : Late f cls o2) :
    o1 = o2 := by
  induction h1 generalizing o2 with
  | nil => cases h2; rfl
  | keep hk _ ih =>
    cases h2 with
    | keep _ h => rw [ih h]
    | one _ _ _ => simp [CharClass.isUnknown] at hk
    | block _ _ _ => simp [CharClass.isUnknown] at hk
  | @one n bs rest out a1 a2 _ ih =>
    generalize hc : (CharClass.unknown, n) :: (bs ++ rest) = cs at h2
    cases h2 with
    | nil => cases hc
    | keep hk h => cases hc; simp [CharClass.isUnknown] at hk
    | one b1 b2 h =>
      simp only [List.cons.injEq, Prod.mk.injEq, true_and] at hc
      obtain ⟨rfl, hc⟩ := hc
      have s1 := span_unique (p := fun k : CharClass × Nat => k.1.isBytes) a1 a2
      have s2 := span_unique (p := fun k : CharClass × Nat => k.1.isBytes) b1 b2
      rw [hc] at s1
      rw [s1.1, s1.2] at s2
      obtain ⟨rfl, rfl⟩ := s2
      rw [ih h]
  | @block n blk rest out a1 a2 _ ih =>
    generalize hc : (CharClass.unknown, n) :: (blk ++ rest) = cs at h2
    cases h2 with
    | nil => cases hc
    | keep hk h => cases hc; simp [CharClass.isUnknown] at hk
    | block b1 b2 h =>
      simp only [List.cons.injEq, Prod.mk.injEq, true_and] at hc
      obtain ⟨rfl, hc⟩ := hc
      have s1 := span_unique (p := fun k : CharClass × Nat => !k.1.isKnown) (by simpa using a1) (by simpa using a2)
      have s2 := span_unique (p := fun k : CharClass × Nat => !k.1.isKnown) (by simpa using b1) (by simpa using b2)
      rw [hc] at s1
      rw [s1.1, s1.2] at s2
      obtain ⟨rfl, rfl⟩ := s2
      rw [ih h]

/-- Nothing is lost or added: the characters come out in another order at most. -/
theorem C18_late_perm {f : Bool} {cls out : List (CharClass × Nat)} (h : Late f cls out) : cls.Perm out := by
  induction h with
  | nil => exact .nil
  | keep _ _ ih => exact ih.cons _
  | one _ _ _ ih =>
    exact (List.perm_middle.symm).trans ((ih.cons _).append_left _)
  | @block n blk rest out a1 _ _ ih =>
    have h1 : blk.Perm (blk.filter (·.1.isBytes) ++ blk.filter (·.1.isUnknown)) := by
      have h2 := List.filter_append_perm (fun k : CharClass × Nat => k.1.isBytes) blk
      have h3 : blk.filter (fun k => !k.1.isBytes) = blk.filter (·.1.isUnknown) := by
        apply List.filter_congr
        intro k hk
        have := a1 k hk
        rcases k with ⟨k, m⟩
        cases k <;> simp_all [CharClass.isBytes, CharClass.isUnknown, CharClass.isKnown]
      rw [h3] at h2
      exact h2.symm
    have h4 := (h1.append ih).cons (CharClass.unknown, n)
    refine h4.trans ?_
    rw [List.append_assoc, List.append_assoc, List.cons_append]
    exact List.perm_middle.symm

/-- The order of the word is kept when no unknown character is directly followed by one that falls back to
bytes. -/
theorem C18_late_same {f : Bool} {cls out : List (CharClass × Nat)} (h : Late f cls out) (hub : ¬ UnkThenBytes cls) :
    out = cls := by
  have hsub : ∀ {p q : List (CharClass × Nat)}, ¬ UnkThenBytes (p ++ q) → ¬ UnkThenBytes q := by
    rintro p q hn ⟨p', n, ids, n', q', rfl⟩
    exact hn ⟨p ++ p', n, ids, n', q', by simp⟩
  induction h with
  | nil => rfl
  | @keep _ k cs _ _ _ ih => rw [ih (hsub (p := [k]) hub)]
  | @one n bs rest out a1 a2 _ ih =>
    cases bs with
    | nil => rw [List.nil_append, List.nil_append, ih (hsub (p := [(.unknown, n)]) hub)]
    | cons k bs =>
      obtain ⟨k, m⟩ := k
      have := a1 (k, m) (by simp)
      cases k with
      | bytes ids => exact absurd ⟨[], n, ids, m, bs ++ rest, rfl⟩ hub
      | known _ => simp [CharClass.isBytes] at this
      | unknown => simp [CharClass.isBytes] at this
  | @block n blk rest out a1 a2 _ ih =>
    have hall : ∀ (blk : List (CharClass × Nat)) (n : Nat), (∀ k ∈ blk, k.1.isKnown = false) →
        ¬ UnkThenBytes ((.unknown, n) :: (blk ++ rest)) →
        blk.filter (·.1.isBytes) = [] ∧ blk.filter (·.1.isUnknown) = blk := by
      intro blk
      induction blk with
      | nil => intros; simp
      | cons k blk ihb =>
        intro n h1 h2
        obtain ⟨k, m⟩ := k
        cases k with
        | bytes ids => exact absurd ⟨[], n, ids, m, blk ++ rest, rfl⟩ h2
        | known i => simpa [CharClass.isKnown] using h1 (.known i, m) (by simp)
        | unknown =>
          have := ihb m (fun k hk => h1 k (by simp [hk])) (hsub (p := [(.unknown, n)]) h2)
          rw [List.filter_cons_of_neg (by simp [CharClass.isBytes]), List.filter_cons_of_pos (by rfl), this.2]
          exact ⟨this.1, rfl⟩
    obtain ⟨e1, e2⟩ := hall blk n a1 hub
    rw [e1, e2, ih (hsub (p := (.unknown, n) :: blk) (by simpa using hub))]
    simp

/-- Every list of classes has an order. -/
theorem late_total (f : Bool) : ∀ (n : Nat) (cls : List (CharClass × Nat)), cls.length ≤ n → ∃ out, Late f cls out
  | _, [], _ => ⟨[], .nil⟩
  | 0, k :: ks, h => by simp at h
  | n + 1, (k, m) :: ks, h => by
    simp only [List.length_cons] at h
    cases hk : k.isUnknown with
    | false =>
      obtain ⟨out, ho⟩ := late_total f n ks (by omega)
      exact ⟨_, .keep hk ho⟩
    | true =>
      have hku : k = .unknown := by cases k <;> simp [CharClass.isUnknown] at hk ⊢
      subst hku
      cases f with
      | false =>
        obtain ⟨out, ho⟩ := late_total false n (ks.dropWhile (·.1.isBytes)) (by
          have := (List.dropWhile_suffix (fun k : CharClass × Nat => k.1.isBytes) (l := ks)).length_le
          omega)
        have h2 := Late.one (n := m) (bs := ks.takeWhile (·.1.isBytes)) (rest := ks.dropWhile (·.1.isBytes)) (by
          intro k hk
          have := mem_takeWhile_true hk
          exact this) (by
          intro k hk
          have := List.head?_dropWhile_not (fun k : CharClass × Nat => k.1.isBytes) ks
          rw [hk] at this
          simpa using this) ho
        rw [List.takeWhile_append_dropWhile] at h2
        exact ⟨_, h2⟩
      | true =>
        obtain ⟨out, ho⟩ := late_total true n (ks.dropWhile (!·.1.isKnown)) (by
          have := (List.dropWhile_suffix (fun k : CharClass × Nat => !k.1.isKnown) (l := ks)).length_le
          omega)
        have h2 := Late.block (n := m) (blk := ks.takeWhile (!·.1.isKnown)) (rest := ks.dropWhile (!·.1.isKnown)) (by
          intro k hk
          have := mem_takeWhile_true hk
          simpa using this) (by
          intro k hk
          have := List.head?_dropWhile_not (fun k : CharClass × Nat => !k.1.isKnown) ks
          rw [hk] at this
          simpa using this) ho
        rw [List.takeWhile_append_dropWhile] at h2
        exact ⟨_, h2⟩

/-- With fusing, in `x é y` with `x`, `y` unknown and `é` in bytes, the bytes come first and `x` and `y` become one
symbol, although they are apart. -/
example : ∃ (b : Bpe) (cls : List (CharClass × Nat)), unkId b = some 0 ∧ b.fuseUnk = true ∧
    Classes b ['x', 'é', 'y'] cls ∧ initSyms b ['x', 'é', 'y'] = some [(1, 1), (2, 1), (0, 2)] := by
  let b : Bpe := { vocab := [(['u'], 0), (byteToken 0xC3, 1), (byteToken 0xA9, 2)], vocabR := [],
                   merges := [], unk := some ['u'], byteFallback := true, fuseUnk := true }
  refine ⟨b, [(.unknown, 1), (.bytes [1, 2], 2), (.unknown, 1)], by decide, rfl, ?_, by decide⟩
  rw [classes_iff]; decide

end Tok.Bpe
