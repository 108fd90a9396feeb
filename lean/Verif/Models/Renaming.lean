import Verif.Models.WordPiece
import Verif.Bpe.Build

/-!
# C116: ids are only names

The same vocabulary with other ids: a token gets the id `f i` instead of `i`, `f` being injective. The models then give the same
tokens, with the other ids.
-/

namespace Tok

/-- The vocabulary with other ids. -/
def renumber (f : Nat → Nat) (vocab : AMap Str Nat) : AMap Str Nat := vocab.map fun p => (p.1, f p.2)

/-- The token with another id. -/
def Token.renumber (f : Nat → Nat) (t : Token) : Token := { t with id := f t.id }

/-- A map with other keys and other values. -/
def AMap.ren {K V K' V' : Type} (g : K → K') (h : V → V') (m : AMap K V) : AMap K' V' := m.map fun p => (g p.1, h p.2)

theorem ren_get {K V K' V' : Type} [DecidableEq K] [DecidableEq K'] {g : K → K'} (hg : ∀ a b, g a = g b → a = b) (h : V → V')
    (m : AMap K V) (k : K) : (m.ren g h).get (g k) = (m.get k).map h := by
  unfold AMap.ren AMap.get
  rw [List.find?_map, Option.map_map, Option.map_map]
  have : ((fun p : K' × V' => decide (p.1 = g k)) ∘ fun p : K × V => (g p.1, h p.2)) = fun p => decide (p.1 = k) := by
    funext p
    simp only [Function.comp]
    exact decide_eq_decide.2 ⟨hg _ _, fun h => by rw [h]⟩
  rw [this]
  rfl

theorem ren_insert {K V K' V' : Type} [DecidableEq K] [DecidableEq K'] {g : K → K'} (hg : ∀ a b, g a = g b → a = b) (h : V → V')
    (m : AMap K V) (k : K) (v : V) : (m.ren g h).insert (g k) (h v) = (m.insert k v).ren g h := by
  unfold AMap.ren AMap.insert
  rw [List.filter_map, List.map_cons]
  have : ((fun p : K' × V' => decide (¬ p.1 = g k)) ∘ fun p : K × V => (g p.1, h p.2)) = fun p => decide (¬ p.1 = k) := by
    funext p
    simp only [Function.comp]
    exact decide_eq_decide.2 ⟨fun h1 h2 => h1 (by rw [h2]), fun h1 h2 => h1 (hg _ _ h2)⟩
  rw [this]

theorem ren_extend {K V K' V' : Type} [DecidableEq K] [DecidableEq K'] {g : K → K'} (hg : ∀ a b, g a = g b → a = b) (h : V → V') :
    ∀ (l : List (K × V)) (m : AMap K V), (m.ren g h).extend (l.map fun p => (g p.1, h p.2)) = (m.extend l).ren g h
  | [], m => rfl
  | p :: l, m => by
    show ((m.ren g h).insert (g p.1) (h p.2)).extend _ = _
    rw [ren_insert hg]
    exact ren_extend hg h l _

theorem renumber_get (f : Nat → Nat) (vocab : AMap Str Nat) (s : Str) : (renumber f vocab).get s = (vocab.get s).map f :=
  ren_get (g := id) (fun _ _ h => h) f vocab s

/-! ## WordLevel and WordPiece -/

/-- **C116.** WordLevel: the same tokens, with the other ids. -/
theorem WordLevel.C116_ids (f : Nat → Nat) (w : WordLevel) (s : Str) :
    WordLevel.tokenize { w with vocab := renumber f w.vocab } s = (w.tokenize s).map (·.map (·.renumber f)) := by
  unfold WordLevel.tokenize
  simp only [renumber_get]
  cases w.vocab.get s with
  | some i => rfl
  | none => cases w.vocab.get w.unkToken <;> rfl

namespace WordPiece

theorem longest_renumber (f : Nat → Nat) (w : WordPiece) (start : Nat) (rest : Str) : ∀ k,
    WordPiece.longest { w with vocab := renumber f w.vocab } start rest k =
      (w.longest start rest k).map fun p => (p.1.renumber f, p.2)
  | 0 => rfl
  | k + 1 => by
    unfold longest
    simp only [renumber_get]
    show (match (w.vocab.get (w.candidate start (rest.take (k + 1)))).map f with
      | some id => some (Token.mk id (w.candidate start (rest.take (k + 1))) (start, start + blen (rest.take (k + 1))), rest.drop (k + 1))
      | none => _) = _
    cases w.vocab.get (w.candidate start (rest.take (k + 1))) with
    | some i => rfl
    | none => exact longest_renumber f w start rest k

theorem pieces_renumber (f : Nat → Nat) (w : WordPiece) : ∀ (fuel start : Nat) (s : Str),
    WordPiece.pieces { w with vocab := renumber f w.vocab } fuel start s = (w.pieces fuel start s).map (·.map (·.renumber f))
  | _, _, [] => by simp [pieces]
  | 0, _, _ :: _ => rfl
  | fuel + 1, start, c :: cs => by
    rw [pieces, pieces, longest_renumber]
    cases w.longest start (c :: cs) (cs.length + 1) with
    | none => rfl
    | some p =>
      obtain ⟨t, r⟩ := p
      show (WordPiece.pieces _ fuel t.offsets.2 r).map _ = ((w.pieces fuel t.offsets.2 r).map _).map _
      rw [pieces_renumber f w fuel, Option.map_map, Option.map_map]
      rfl

/-- **C116.** WordPiece: the same tokens, with the other ids. -/
theorem C116_ids (f : Nat → Nat) (w : WordPiece) (s : Str) :
    WordPiece.tokenize { w with vocab := renumber f w.vocab } s = (w.tokenize s).map (·.map (·.renumber f)) := by
  have hu : WordPiece.unknown { w with vocab := renumber f w.vocab } s = (w.unknown s).map (·.map (·.renumber f)) := by
    unfold unknown
    simp only [renumber_get]
    cases w.vocab.get w.unkToken <;> rfl
  unfold tokenize
  rw [hu, pieces_renumber]
  split
  · rfl
  · cases w.pieces s.length 0 s <;> rfl

end WordPiece

/-! ## BPE -/

namespace Bpe

/-- What succeeds is changed, errors and panics stay. -/
def andThen {ε α β : Type} (g : α → β) : Outcome ε α → Outcome ε β
  | .ok a => .ok (g a)
  | .err e => .err e
  | .panic => .panic

/-- The model with other ids in all its tables. -/
def Bpe.renumber (f : Nat → Nat) (b : Bpe) : Bpe :=
  { b with vocab := Tok.renumber f b.vocab, vocabR := b.vocabR.ren f id,
           merges := b.merges.ren (fun p => (f p.1, f p.2)) fun p => (p.1, f p.2) }

section
variable {f : Nat → Nat} (hf : ∀ i j, f i = f j → i = j)
include hf

theorem pair_inj : ∀ a b : Nat × Nat, (f a.1, f a.2) = (f b.1, f b.2) → a = b := by
  rintro ⟨a, b⟩ ⟨c, d⟩ h
  simp only [Prod.mk.injEq] at h ⊢
  exact ⟨hf _ _ h.1, hf _ _ h.2⟩

omit hf in
theorem maxLen_renumber (vocab : AMap Str Nat) : maxLen (Tok.renumber f vocab) = maxLen vocab := by
  unfold maxLen Tok.renumber
  rw [List.map_map]
  rfl

omit hf in
theorem buildMerge_renumber (vocab : AMap Str Nat) (n i : Nat) (x y : Str) : buildMerge (Tok.renumber f vocab) n i x y =
    andThen (fun p => ((f p.1.1, f p.1.2), (p.2.1, f p.2.2))) (buildMerge vocab n i x y) := by
  unfold buildMerge
  simp only [renumber_get, maxLen_renumber]
  cases vocab.get x with
  | none => rfl
  | some a =>
    cases vocab.get y with
    | none => rfl
    | some b =>
      simp only [Option.map_some]
      split
      · rfl
      · split
        · rfl
        · split
          · rfl
          · cases dropBytes n y with
            | none => rfl
            | some y' =>
              dsimp only
              cases vocab.get (x ++ y') <;> rfl

theorem buildMerges_renumber (vocab : AMap Str Nat) (n : Nat) : ∀ (i : Nat) (merges : List (Str × Str)) (acc : AMap (Nat × Nat) (Nat × Nat)),
    buildMerges (Tok.renumber f vocab) n i merges (acc.ren (fun p => (f p.1, f p.2)) fun p => (p.1, f p.2)) =
      andThen (·.ren (fun p => (f p.1, f p.2)) fun p => (p.1, f p.2)) (buildMerges vocab n i merges acc)
  | _, [], _ => rfl
  | i, (x, y) :: rest, acc => by
    rw [buildMerges, buildMerges, buildMerge_renumber]
    cases buildMerge vocab n i x y with
    | err e => rfl
    | panic => rfl
    | ok p =>
      obtain ⟨k, v⟩ := p
      simp only [andThen]
      rw [ren_insert (g := fun p : Nat × Nat => (f p.1, f p.2)) (pair_inj hf) (fun p : Nat × Nat => (p.1, f p.2)) acc k v]
      exact buildMerges_renumber vocab n (i + 1) rest _

/-- Building with the other ids. -/
theorem build_renumber (vocab : AMap Str Nat) (merges : List (Str × Str)) (cfg : Bpe) :
    build (Tok.renumber f vocab) merges cfg = andThen (·.renumber f) (build vocab merges cfg) := by
  unfold build
  have := buildMerges_renumber hf vocab (blen (cfg.pre.getD [])) 0 merges []
  simp only [AMap.ren, List.map_nil] at this
  rw [this]
  cases buildMerges vocab (blen (cfg.pre.getD [])) 0 merges [] with
  | err e => rfl
  | panic => rfl
  | ok mm =>
    simp only [andThen, Bpe.renumber]
    have he : (AMap.extend [] ((Tok.renumber f vocab).map fun p => (p.2, p.1)) : AMap Nat Str) =
        (AMap.extend [] (vocab.map fun p => (p.2, p.1)) : AMap Nat Str).ren f id := by
      have := ren_extend hf (id : Str → Str) (vocab.map fun p => (p.2, p.1)) []
      rw [← this]
      unfold Tok.renumber AMap.ren
      rw [List.map_map, List.map_map]
      rfl
    rw [he]
    rfl

/-! ### The first symbols -/

def sym (f : Nat → Nat) (p : Nat × Nat) : Nat × Nat := (f p.1, p.2)

def initSt (f : Nat → Nat) (st : InitSt) : InitSt := (st.1.map (sym f), st.2.map (sym f))

omit hf in
theorem byteIds_renumber (vocab : AMap Str Nat) : ∀ bs, byteIds (Tok.renumber f vocab) bs = (byteIds vocab bs).map (·.map f)
  | [] => rfl
  | x :: xs => by
    rw [byteIds, byteIds, renumber_get, byteIds_renumber vocab xs]
    cases vocab.get (byteToken x) with
    | none => rfl
    | some i => cases byteIds vocab xs <;> rfl

omit hf in
theorem flushUnk_renumber (st : InitSt) : flushUnk (initSt f st) = (flushUnk st).map (sym f) := by
  obtain ⟨l, u⟩ := st
  cases u <;> simp [flushUnk, initSt]

omit hf in
theorem stepUnk_renumber (b : Bpe) (st : InitSt) (n : Nat) :
    stepUnk (b.renumber f) (initSt f st) n = (stepUnk b st n).map (initSt f) := by
  obtain ⟨l, u⟩ := st
  unfold stepUnk
  show (match b.unk with
    | none => _
    | some unkToken => match u.map (sym f), b.fuseUnk with
      | some (unkId, unkLen), true => _
      | some (unkId, unkLen), false => (match (Tok.renumber f b.vocab).get unkToken with
        | none => _
        | some i => _)
      | none, _ => (match (Tok.renumber f b.vocab).get unkToken with
        | none => _
        | some i => _)) = _
  cases b.unk with
  | none => rfl
  | some t =>
    simp only [renumber_get]
    cases u with
    | none => cases b.vocab.get t <;> rfl
    | some p =>
      cases b.fuseUnk with
      | true => rfl
      | false => cases b.vocab.get t <;> simp [initSt, sym]

omit hf in
theorem charSym_renumber (b : Bpe) (x y : Bool) (c : Char) : charSym (b.renumber f) x y c = charSym b x y c := rfl

omit hf in
theorem stepChar_renumber (b : Bpe) (st : InitSt) (x y : Bool) (c : Char) :
    stepChar (b.renumber f) (initSt f st) x y c = (stepChar b st x y c).map (initSt f) := by
  unfold stepChar
  simp only [charSym_renumber]
  rw [show (b.renumber f).vocab = Tok.renumber f b.vocab from rfl, renumber_get, byteIds_renumber, flushUnk_renumber, stepUnk_renumber]
  rw [show (b.renumber f).byteFallback = b.byteFallback from rfl]
  cases b.vocab.get (charSym b x y c) with
  | some i => simp [initSt, sym]
  | none =>
    dsimp only [Option.map_none]
    split
    · cases byteIds b.vocab (strBytes (charSym b x y c)) with
      | none => rfl
      | some l => simp [initSt, sym]
    · rfl

omit hf in
theorem initLoop_renumber (b : Bpe) : ∀ (x : Bool) (w : Str) (st : InitSt),
    initLoop (b.renumber f) x w (initSt f st) = (initLoop b x w st).map (initSt f)
  | _, [], _ => rfl
  | x, c :: cs, st => by
    rw [initLoop, initLoop, stepChar_renumber]
    cases stepChar b st x cs.isEmpty c with
    | none => rfl
    | some st' => exact initLoop_renumber b false cs st'

omit hf in
theorem initSyms_renumber (b : Bpe) (w : Str) : initSyms (b.renumber f) w = (initSyms b w).map (·.map (sym f)) := by
  unfold initSyms
  have := initLoop_renumber (f := f) b true w ([], none)
  rw [show initSt f ([], none) = ([], none) from rfl] at this
  rw [this, Option.map_map, Option.map_map]
  congr 1
  funext st
  exact flushUnk_renumber st

/-! ### Merging -/

def Symbol.renumber (f : Nat → Nat) (s : Symbol) : Symbol := { s with c := f s.c }

def Merge.renumber (f : Nat → Nat) (x : Merge) : Merge := { x with newId := f x.newId }

/-- The merges with the other ids. -/
def Same (f : Nat → Nat) (m m' : MergeFn) : Prop := ∀ i j, m' (f i) (f j) = (m i j).map fun p => (p.1, f p.2)

theorem same_merges (b : Bpe) : Same f (mergeFn b.merges) (mergeFn (b.renumber f).merges) := fun i j =>
  ren_get (g := fun p : Nat × Nat => (f p.1, f p.2)) (pair_inj hf) (fun p : Nat × Nat => (p.1, f p.2)) b.merges (i, j)

omit hf in
theorem popMin_renumber : ∀ q : List Merge, popMin (q.map (·.renumber f)) =
    (popMin q).map fun p => (p.1.renumber f, p.2.map (·.renumber f))
  | [] => rfl
  | x :: xs => by
    rw [List.map_cons, popMin, popMin, popMin_renumber xs]
    cases popMin xs with
    | none => rfl
    | some p =>
      obtain ⟨y, ys⟩ := p
      show (if (x.renumber f).le (y.renumber f) = true then _ else _) = _
      rw [show (x.renumber f).le (y.renumber f) = x.le y from rfl]
      dsimp only
      split <;> rfl

omit hf in
theorem addSym_renumber (w : List Symbol) (c n : Nat) :
    addSym (w.map (·.renumber f)) (f c) n = (addSym w c n).map (·.renumber f) := by
  unfold addSym
  rw [List.getLast?_map]
  cases w.getLast? with
  | none => rfl
  | some s => simp [Symbol.renumber, List.map_dropLast]

omit hf in
theorem mkWord_renumber (l : List (Nat × Nat)) : mkWord (l.map (sym f)) = (mkWord l).map (·.renumber f) := by
  have : ∀ (l : List (Nat × Nat)) (w : List Symbol), (l.map (sym f)).foldl (fun w x => addSym w x.1 x.2) (w.map (·.renumber f)) =
      (l.foldl (fun w x => addSym w x.1 x.2) w).map (·.renumber f) := by
    intro l
    induction l with
    | nil => intro w; rfl
    | cons p l ih =>
      intro w
      rw [List.map_cons, List.foldl_cons, List.foldl_cons, ← ih]
      congr 1
      exact addSym_renumber w p.1 p.2
  exact this l []

omit hf in
theorem initQueue_renumber {m m' : MergeFn} (h : Same f m m') : ∀ (k : Nat) (w : List Symbol),
    initQueue m' k (w.map (·.renumber f)) = (initQueue m k w).map (·.renumber f)
  | _, [] => rfl
  | _, [_] => rfl
  | k, a :: b :: rest => by
    have ih := initQueue_renumber h (k + 1) (b :: rest)
    show (match m' (f a.c) (f b.c) with
      | some (r, x) => Merge.mk k r x :: initQueue m' (k + 1) ((b :: rest).map (Symbol.renumber f))
      | none => initQueue m' (k + 1) ((b :: rest).map (Symbol.renumber f))) = _
    rw [h, initQueue, ih]
    cases m a.c b.c <;> rfl

omit hf in
theorem pushFor_renumber {m m' : MergeFn} (h : Same f m m') (pos i j : Nat) :
    pushFor m' pos (f i) (f j) = (pushFor m pos i j).map (·.renumber f) := by
  unfold pushFor
  rw [h]
  cases m i j <;> rfl

omit hf in
theorem map_modify {α β : Type} (g : α → β) (u : α → α) (u' : β → β) (h : ∀ a, u' (g a) = g (u a)) :
    ∀ (l : List α) (i : Nat), (l.map g).modify i u' = (l.modify i u).map g
  | [], i => by simp
  | a :: l, 0 => by simp [h]
  | a :: l, i + 1 => by simp [map_modify g u u' h l i]

omit hf in
theorem mergeSyms_renumber (w : List Symbol) (pos next : Nat) (s : Symbol) (nx : Int) :
    mergeSyms (w.map (·.renumber f)) pos next (s.renumber f) nx = (mergeSyms w pos next s nx).map (·.renumber f) := by
  unfold mergeSyms
  have h1 : ((w.map (·.renumber f)).set pos (s.renumber f)).modify next (fun s => { s with len := 0 }) =
      ((w.set pos s).modify next fun s => { s with len := 0 }).map (·.renumber f) := by
    rw [← List.map_set]
    exact map_modify (Symbol.renumber f) (fun s => { s with len := 0 }) (fun s => { s with len := 0 }) (fun _ => rfl) _ _
  simp only [h1, List.length_map]
  split
  · exact map_modify (Symbol.renumber f) (fun s => { s with prev := (pos : Int) }) (fun s => { s with prev := (pos : Int) })
      (fun _ => rfl) _ _
  · rfl

omit hf in
theorem pushesAt_renumber {m m' : MergeFn} (h : Same f m m') (w : List Symbol) (pos : Nat) :
    pushesAt m' (w.map (·.renumber f)) pos = (pushesAt m w pos).map (·.map (·.renumber f)) := by
  unfold pushesAt
  simp only [List.getElem?_map, List.length_map]
  cases w[pos]? with
  | none => rfl
  | some cur =>
    simp only [Option.map_some]
    rw [show (cur.renumber f).prev = cur.prev from rfl, show (cur.renumber f).next = cur.next from rfl,
      show (cur.renumber f).c = f cur.c from rfl]
    have e1 : (if cur.prev ≥ 0 then ((w[cur.prev.toNat]?).map (·.renumber f)).map
          fun ps => pushFor m' cur.prev.toNat ps.c (f cur.c) else some []) =
        (if cur.prev ≥ 0 then (w[cur.prev.toNat]?).map fun ps => pushFor m cur.prev.toNat ps.c cur.c else some []).map
          (·.map (·.renumber f)) := by
      split
      · rw [Option.map_map, Option.map_map]
        congr 1
        funext ps
        exact pushFor_renumber h _ _ _
      · rfl
    have e2 : (if 0 ≤ cur.next ∧ cur.next.toNat < w.length then ((w[cur.next.toNat]?).map (·.renumber f)).map
          fun ns => pushFor m' pos (f cur.c) ns.c else some []) =
        (if 0 ≤ cur.next ∧ cur.next.toNat < w.length then (w[cur.next.toNat]?).map fun ns => pushFor m pos cur.c ns.c else some []).map
          (·.map (·.renumber f)) := by
      split
      · rw [Option.map_map, Option.map_map]
        congr 1
        funext ns
        exact pushFor_renumber h _ _ _
      · rfl
    rw [e1, e2]
    generalize (if cur.prev ≥ 0 then (w[cur.prev.toNat]?).map fun ps => pushFor m cur.prev.toNat ps.c cur.c else some []) = A
    generalize (if 0 ≤ cur.next ∧ cur.next.toNat < w.length then (w[cur.next.toNat]?).map fun ns => pushFor m pos cur.c ns.c
      else some []) = B
    cases A <;> cases B <;> simp

theorem applyTop_renumber {m m' : MergeFn} (h : Same f m m') (w : List Symbol) (top : Merge) :
    applyTop m' (w.map (·.renumber f)) (top.renumber f) =
      (applyTop m w top).map fun p => (p.1.map (·.renumber f), p.2.map (·.renumber f)) := by
  unfold applyTop
  rw [show (top.renumber f).pos = top.pos from rfl, show (top.renumber f).newId = f top.newId from rfl]
  simp only [List.getElem?_map]
  cases w[top.pos]? with
  | none => rfl
  | some cur =>
    simp only [Option.map_some]
    rw [show (cur.renumber f).len = cur.len from rfl, show (cur.renumber f).next = cur.next from rfl,
      show (cur.renumber f).c = f cur.c from rfl, show (cur.renumber f).prev = cur.prev from rfl]
    split
    · rfl
    · split
      · rfl
      · split
        · rfl
        · cases w[cur.next.toNat]? with
          | none => rfl
          | some right =>
            simp only [Option.map_some]
            rw [show (right.renumber f).c = f right.c from rfl, show (right.renumber f).len = right.len from rfl,
              show (right.renumber f).next = right.next from rfl, h]
            cases m cur.c right.c with
            | none => rfl
            | some p =>
              obtain ⟨r, i⟩ := p
              dsimp only [Option.map_some]
              by_cases hi : i = top.newId
              · subst hi
                rw [if_neg (by simp), if_neg (by simp)]
                rw [show (⟨f top.newId, cur.prev, right.next, cur.len + right.len⟩ : Symbol) =
                  Symbol.renumber f ⟨top.newId, cur.prev, right.next, cur.len + right.len⟩ from rfl, mergeSyms_renumber,
                  pushesAt_renumber h, Option.map_map, Option.map_map]
                rfl
              · rw [if_pos hi, if_pos (fun h => hi (hf _ _ h))]
                rfl

theorem mergeLoop_renumber {m m' : MergeFn} (h : Same f m m') : ∀ (fuel : Nat) (coins : Nat → Bool) (s : St),
    mergeLoop m' fuel coins ⟨s.syms.map (·.renumber f), s.queue.map (·.renumber f), s.skip.map (·.renumber f)⟩ =
      (mergeLoop m fuel coins s).map fun s =>
        ⟨s.syms.map (·.renumber f), s.queue.map (·.renumber f), s.skip.map (·.renumber f)⟩
  | fuel, coins, s => by
    rw [mergeLoop, mergeLoop]
    simp only [popMin_renumber]
    cases popMin s.queue with
    | none => rfl
    | some p =>
      obtain ⟨top, rest⟩ := p
      cases fuel with
      | zero => rfl
      | succ fuel =>
        dsimp only [Option.map_some]
        split
        · have := mergeLoop_renumber h fuel (fun i => coins (i + 1)) ⟨s.syms, rest, s.skip ++ [top]⟩
          simpa using this
        · rw [applyTop_renumber hf h]
          cases applyTop m s.syms top with
          | none => rfl
          | some p =>
            obtain ⟨syms', pushes⟩ := p
            have := mergeLoop_renumber h fuel (fun i => coins (i + 1)) ⟨syms', rest ++ s.skip ++ pushes, []⟩
            simpa using this

theorem mergeAll_renumber {m m' : MergeFn} (h : Same f m m') (coins : Nat → Bool) (w : List Symbol) :
    mergeAll m' coins (w.map (·.renumber f)) = (mergeAll m coins w).map (·.map (·.renumber f)) := by
  unfold mergeAll
  have := mergeLoop_renumber hf h (enoughFuel w.length) coins ⟨w, initQueue m 0 w, []⟩
  simp only [List.map_nil] at this
  rw [List.length_map, initQueue_renumber h, this, Option.map_map, Option.map_map]
  congr 1
  funext s
  simp only [Function.comp]
  rw [List.filter_map]
  rfl

theorem tokensFrom_renumber (vr : AMap Nat Str) : ∀ (pos : Nat) (l : List (Nat × Nat)),
    tokensFrom (vr.ren f id) pos (l.map (sym f)) = (tokensFrom vr pos l).map (·.map (·.renumber f))
  | _, [] => rfl
  | pos, (i, n) :: rest => by
    show tokensFrom _ pos ((f i, n) :: rest.map (sym f)) = _
    rw [tokensFrom, tokensFrom, ren_get hf, tokensFrom_renumber vr (pos + n) rest]
    cases vr.get i with
    | none => rfl
    | some v => cases tokensFrom vr (pos + n) rest <;> rfl

theorem mergeToTokens_renumber (b : Bpe) (coins : Nat → Bool) (w : Str) :
    mergeToTokens (b.renumber f) coins w = andThen (·.map (·.renumber f)) (mergeToTokens b coins w) := by
  unfold mergeToTokens mergeWord
  rw [initSyms_renumber]
  cases initSyms b w with
  | none => rfl
  | some l =>
    dsimp only [Option.map_some]
    rw [mkWord_renumber, mergeAll_renumber hf (same_merges hf b)]
    cases mergeAll (mergeFn b.merges) coins (mkWord l) with
    | none => rfl
    | some w' =>
      simp only [Option.map_some]
      unfold wordToTokens
      have : symsOf (w'.map (·.renumber f)) = (symsOf w').map (sym f) := by
        unfold symsOf
        rw [List.map_map, List.map_map]
        rfl
      rw [this, show (b.renumber f).vocabR = b.vocabR.ren f id from rfl, tokensFrom_renumber hf]
      cases tokensFrom b.vocabR 0 (symsOf w') <;> rfl

/-- **C116.** BPE: the model with the other ids gives the same tokens, with the other ids, also with dropout (if the same merges are
dropped); what is an error or a panic stays one. -/
theorem C116_tokenize (b : Bpe) (coins : Nat → Bool) (w : Str) :
    tokenize (b.renumber f) coins w = andThen (·.map (·.renumber f)) (tokenize b coins w) := by
  unfold tokenize
  rw [show (b.renumber f).useDropout = b.useDropout from rfl, show (b.renumber f).ignoreMerges = b.ignoreMerges from rfl,
    show (b.renumber f).vocab = Tok.renumber f b.vocab from rfl, renumber_get]
  split
  · rfl
  · split
    · exact mergeToTokens_renumber hf b coins w
    · split
      · cases b.vocab.get w with
        | some i => rfl
        | none => exact mergeToTokens_renumber hf b _ w
      · exact mergeToTokens_renumber hf b _ w

/-- **C116.** BPE: a vocabulary and merges make a model if and only if the same vocabulary with other ids and the same merges do, and
then both models give every word the same tokens, with the other ids. -/
theorem C116_bpe (vocab : AMap Str Nat) (merges : List (Str × Str)) (cfg : Bpe) :
    (∀ e, build vocab merges cfg = .err e ↔ build (Tok.renumber f vocab) merges cfg = .err e) ∧
    (build vocab merges cfg = .panic ↔ build (Tok.renumber f vocab) merges cfg = .panic) ∧
    ∀ b, build vocab merges cfg = .ok b → ∃ b', build (Tok.renumber f vocab) merges cfg = .ok b' ∧
      ∀ coins w, (∀ ts, tokenize b coins w = .ok ts → tokenize b' coins w = .ok (ts.map (·.renumber f))) ∧
        (∀ e, tokenize b coins w = .err e → tokenize b' coins w = .err e) ∧
        (tokenize b coins w = .panic → tokenize b' coins w = .panic) := by
  rw [build_renumber hf]
  refine ⟨fun e => ?_, ?_, fun b hb => ⟨b.renumber f, by rw [hb]; rfl, fun coins w => ?_⟩⟩
  · cases build vocab merges cfg <;> simp [andThen]
  · cases build vocab merges cfg <;> simp [andThen]
  · rw [C116_tokenize hf]
    refine ⟨fun ts h => ?_, fun e h => ?_, fun h => ?_⟩ <;> rw [h] <;> rfl

end

/-- `a b ab`, numbered backwards, with the merge `a b`. -/
example : (∃ b b', build [("a".toList, 0), ("b".toList, 1), ("ab".toList, 2)] [("a".toList, "b".toList)] sampleCfg = .ok b ∧
      build (Tok.renumber (fun i => if i ≤ 2 then 2 - i else i) [("a".toList, 0), ("b".toList, 1), ("ab".toList, 2)])
        [("a".toList, "b".toList)] sampleCfg = .ok b' ∧
      tokenize b (fun _ => false) "abb".toList = .ok [⟨2, "ab".toList, (0, 2)⟩, ⟨1, "b".toList, (2, 3)⟩] ∧
      tokenize b' (fun _ => false) "abb".toList = .ok [⟨0, "ab".toList, (0, 2)⟩, ⟨1, "b".toList, (2, 3)⟩]) ∧
    ∀ i j : Nat, (if i ≤ 2 then 2 - i else i) = (if j ≤ 2 then 2 - j else j) → i = j := by
  refine ⟨⟨_, _, rfl, rfl, by decide +kernel, by decide +kernel⟩, fun i j h => ?_⟩
  split at h <;> split at h <;> omega

/-- **C116 (needs different ids).** If two tokens get the same id the tokens change: `a` and `b` both `0`, and the merge of `a` with
itself merges `b` with itself. -/
theorem C116_same_id : ∃ vocab merges f b b',
    build vocab merges sampleCfg = .ok b ∧ build (Tok.renumber f vocab) merges sampleCfg = .ok b' ∧
    tokenize b (fun _ => false) "bb".toList = .ok [⟨1, "b".toList, (0, 1)⟩, ⟨1, "b".toList, (1, 2)⟩] ∧
    tokenize b' (fun _ => false) "bb".toList = .ok [⟨2, "aa".toList, (0, 2)⟩] :=
  ⟨[("a".toList, 0), ("b".toList, 1), ("aa".toList, 2)], [("a".toList, "a".toList)], fun i => if i = 1 then 0 else i, _, _,
    rfl, rfl, by decide +kernel, by decide +kernel⟩

end Bpe
end Tok
