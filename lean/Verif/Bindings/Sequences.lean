/-!
# C98: sequences of normalizers, pre-tokenizers, post-processors and decoders in Python

A Python object for a component holds an `Arc<RwLock<..>>`, or, as a `Sequence`, a list of them
(`bindings/python/src/normalizers.rs:868-872`, `pre_tokenizers.rs:954-958`, `processors.rs:222-226`). Objects share what is behind the locks:
a sequence with the objects it was made of, and the objects that `sequence[i]` gives with the sequence.

What is behind a lock is a component of one of the classes of the library, an object of Python (`custom`), or, after reading JSON, a
sequence inside of a sequence. What components do is not modelled here: a sequence does what its parts do, one after the other.
Locks are free when a method begins (one thread); a lock that a method asks for while it holds it already is waited for for ever.
-/

namespace Tok.PySeq

variable {A : Type}

/-- What is behind a lock: `NormalizerWrapper` and `CustomNormalizer` and so on. `A`: the attributes. -/
inductive Val (A : Type)
  | leaf (cls : Nat) (a : A)
  | custom (k : Nat)
  | seq (l : List (Val A))

/-- One thing to be done to a text. -/
inductive Part (A : Type)
  | leaf (cls : Nat) (a : A)
  | custom (k : Nat)

mutual
/-- What is done, in order. -/
def Val.flat : Val A → List (Part A)
  | .leaf k a => [.leaf k a]
  | .custom k => [.custom k]
  | .seq l => flatAll l
def flatAll : List (Val A) → List (Part A)
  | [] => []
  | v :: l => v.flat ++ flatAll l
end

/-- What is behind each lock; `next` and later ones are not in use. -/
structure World (A : Type) where
  cells : Nat → Val A
  next : Nat

/-- `PyNormalizerTypeWrapper` (`normalizers.rs:868-872`; `pre_tokenizers.rs:954-958`; `processors.rs:222-226`). -/
inductive Ref
  | single (c : Nat)
  | seq (l : List Nat)
deriving DecidableEq

/-- The class of a Python object: of the library, `Sequence`, or the base class (for custom ones). -/
inductive Cls
  | lib (k : Nat)
  | sequence
  | base
deriving DecidableEq

/-- A Python object. -/
structure Obj where
  cls : Cls
  ref : Ref
deriving DecidableEq

def Ref.cells : Ref → List Nat
  | .single c => [c]
  | .seq l => l

/-- What the object does to a text (`normalizers.rs:945-960`, `pre_tokenizers.rs:1026-1040`, `processors.rs:243-263`): the parts in order. -/
def Obj.parts (w : World A) (o : Obj) : List (Part A) := o.ref.cells.flatMap fun c => (w.cells c).flat

/-- How a method ends. `hangs`: it waits for a lock for ever. -/
inductive Res (α : Type)
  | done (a : α)
  | raised
  | panic
  | hangs

/-- `From<I> for PyNormalizerTypeWrapper` (`normalizers.rs:914-931`, `pre_tokenizers.rs:996-1013`, `processors.rs:293-305`): new locks, for a
sequence one for each element. -/
def World.store (w : World A) : Val A → World A × Ref
  | .seq l => (⟨fun c => if c < w.next then w.cells c else (l[c - w.next]?).getD (w.cells c), w.next + l.length⟩,
      .seq (List.range' w.next l.length))
  | v => (⟨fun c => if c = w.next then v else w.cells c, w.next + 1⟩, .single w.next)

/-- `get_as_subtype` (`normalizers.rs:61-106`, `pre_tokenizers.rs:52-107`, `processors.rs:57-81`): the class of an object that is made for what
is there. -/
def World.clsOf (w : World A) : Ref → Cls
  | .seq _ => .sequence
  | .single c =>
    match w.cells c with
    | .leaf k _ => .lib k
    | .custom _ => .base
    | .seq _ => .sequence

/-- A new object of a class of the library, or `custom` (`normalizers.rs:119-123`). -/
def World.make (w : World A) (v : Val A) : World A × Obj :=
  let r := w.store v
  (r.1, ⟨r.1.clsOf r.2, r.2⟩)

/-- `Sequence(list)` (`normalizers.rs:445-460`, `pre_tokenizers.rs:633-650`, `processors.rs:788-805`): the locks of all of them. -/
def sequence (l : List Obj) : Obj := ⟨.sequence, .seq (l.flatMap fun o => o.ref.cells)⟩

/-- The three kinds of components that share. -/
inductive Family
  | normalizers
  | preTokenizers
  | processors
deriving DecidableEq

/-- `s[i]` (`normalizers.rs:473-486`, `pre_tokenizers.rs:656-669`, `processors.rs:811-826`). -/
def getItem (f : Family) (w : World A) (s : Obj) (i : Nat) : Res Obj :=
  match s.ref with
  | .seq l =>
    match l[i]? with
    | some c => .done ⟨w.clsOf (.single c), .single c⟩
    | none => .raised
  | .single c => if f = .normalizers then .done ⟨w.clsOf (.single c), .single c⟩ else .raised

/-- `s[i] = v` (`normalizers.rs:488-520`, `pre_tokenizers.rs:671-699`, `processors.rs:828-857`). In the assignment the right side is evaluated
first, and its read lock is held until the end of the statement, also while the write lock of the element is asked for. -/
def setItem (w : World A) (s : Obj) (i : Nat) (v : Obj) : Res (World A) :=
  match v.ref with
  | .seq _ => .raised
  | .single d =>
    match s.ref with
    | .single _ => .raised
    | .seq l =>
      match l[i]? with
      | none => .raised
      | some c => if c = d then .hangs else .done { w with cells := fun x => if x = c then w.cells d else w.cells x }

/-- `getter!` (`normalizers.rs:194-210`, `pre_tokenizers.rs:206-220`, `processors.rs:182-197`) of an object of class `k`: `unreachable!()` if there
is something else behind the lock. -/
def getAttr (w : World A) (k : Nat) (o : Obj) : Res A :=
  match o.ref with
  | .seq _ => .panic
  | .single c =>
    match w.cells c with
    | .leaf k' a => if k' = k then .done a else .panic
    | _ => .panic

/-- `setter!` (`normalizers.rs:212-224`, `pre_tokenizers.rs:222-244`, `processors.rs:199-219`): nothing is done if there is something else. -/
def setAttr (w : World A) (k : Nat) (o : Obj) (f : A → A) : World A :=
  match o.ref with
  | .seq _ => w
  | .single c =>
    match w.cells c with
    | .leaf k' a => if k' = k then { w with cells := fun x => if x = c then .leaf k (f a) else w.cells x } else w
    | _ => w

mutual
/-- Is there an object of Python inside? -/
def Val.hasCustom : Val A → Bool
  | .leaf _ _ => false
  | .custom _ => true
  | .seq l => anyCustom l
def anyCustom : List (Val A) → Bool
  | [] => false
  | v :: l => v.hasCustom || anyCustom l
end

/-- What is written by `__getstate__` (`normalizers.rs:125-132, 888-903`, `pre_tokenizers.rs:126-133, 970-985`, `processors.rs:102-109, 275-290`);
`none`: custom ones cannot be serialized. -/
def getState (w : World A) (o : Obj) : Option (Val A) :=
  let v : Val A := match o.ref with
    | .single c => w.cells c
    | .seq l => .seq (l.map w.cells)
  if v.hasCustom then none else some v

/-- `pickle` (or `copy.deepcopy`): an object of the same class is made with the arguments of `__getnewargs__`, or without any, and gets
the state (`__setstate__`: `normalizers.rs:134-146`). `args k`: the constructor of class `k` has arguments without a default and there is no
`__getnewargs__` (`normalizers.Replace`, `normalizers.Precompiled` and `decoders.Replace`: `normalizers.rs:729-742, 773-781`,
`decoders.rs:219-228`). That JSON gives back the components is C65. -/
def pickled (args : Nat → Bool) (w : World A) (o : Obj) : Res (World A × Obj) :=
  match getState w o with
  | none => .raised
  | some v =>
    if (match o.cls with | .lib k => args k | _ => false) then .raised
    else .done ((w.store v).1, ⟨o.cls, (w.store v).2⟩)

/-- `Sequence(list)` of decoders (`decoders.rs:616-630`): what they are now is copied, and custom ones are not implemented. -/
def decoderSequence (w : World A) (l : List Obj) : Res (World A × Obj) :=
  let vs := l.flatMap fun o => o.ref.cells.map w.cells
  if vs.any (fun v => match v with | .custom _ => true | _ => false) then .panic
  else .done (⟨fun c => if c = w.next then .seq vs else w.cells c, w.next + 1⟩, ⟨.sequence, .single w.next⟩)

/-! ## Lemmas -/

theorem flatAll_eq : ∀ l : List (Val A), flatAll l = l.flatMap Val.flat
  | [] => rfl
  | v :: l => by rw [flatAll, flatAll_eq l]; rfl

theorem anyCustom_eq : ∀ l : List (Val A), anyCustom l = l.any Val.hasCustom
  | [] => rfl
  | v :: l => by rw [anyCustom, anyCustom_eq l]; rfl

theorem flatMap_congr' {α β : Type} {f g : α → List β} : ∀ {l : List α}, (∀ x ∈ l, f x = g x) → l.flatMap f = l.flatMap g
  | [], _ => rfl
  | x :: l, h => by
    rw [List.flatMap_cons, List.flatMap_cons, h x List.mem_cons_self, flatMap_congr' fun y hy => h y (List.mem_cons_of_mem _ hy)]

/-- The locks of an object are in use. -/
def Obj.Old (w : World A) (o : Obj) : Prop := ∀ c ∈ o.ref.cells, c < w.next

theorem store_next (w : World A) (v : Val A) : w.next ≤ (w.store v).1.next := by
  cases v <;> simp [World.store]

theorem store_old (w : World A) (v : Val A) {c : Nat} (h : c < w.next) : (w.store v).1.cells c = w.cells c := by
  cases v with
  | leaf k a => simp [World.store]; omega
  | custom k => simp [World.store]; omega
  | seq l => simp [World.store]; omega

/-- New locks: none of those in use. -/
theorem store_new (w : World A) (v : Val A) : ∀ c ∈ (w.store v).2.cells, w.next ≤ c ∧ c < (w.store v).1.next := by
  cases v with
  | leaf k a => simp [World.store, Ref.cells]
  | custom k => simp [World.store, Ref.cells]
  | seq l => simp [World.store, Ref.cells, List.mem_range'_1]

theorem range'_flatMap (f : Nat → List (Part A)) (g : Val A → List (Part A)) : ∀ (l : List (Val A)) (n : Nat),
    (∀ i v, l[i]? = some v → f (n + i) = g v) → (List.range' n l.length).flatMap f = l.flatMap g
  | [], _, _ => rfl
  | v :: l, n, h => by
    rw [List.length_cons, List.range'_succ, List.flatMap_cons, List.flatMap_cons, show f n = g v from h 0 v rfl]
    rw [range'_flatMap f g l (n + 1) fun i x hx => by
      have := h (i + 1) x (by simpa using hx)
      rwa [show n + 1 + i = n + (i + 1) by omega]]

theorem store_parts (w : World A) (v : Val A) (k : Cls) : Obj.parts (w.store v).1 ⟨k, (w.store v).2⟩ = v.flat := by
  cases v with
  | leaf k a => simp [World.store, Obj.parts, Ref.cells, Val.flat]
  | custom k => simp [World.store, Obj.parts, Ref.cells, Val.flat]
  | seq l =>
    rw [Val.flat, flatAll_eq]
    unfold Obj.parts
    refine range'_flatMap _ _ l w.next fun i v hv => ?_
    simp only [World.store]
    rw [if_neg (by omega), show w.next + i - w.next = i by omega, hv]
    rfl

/-! ## The claim: sequences are lists of components -/

/-- **C98, a sequence of sequences.** `Sequence([..])` does what its elements do one after the other, not only now: whatever happens to
the elements later also happens to the sequence. -/
theorem C98_sequence (l : List Obj) (w : World A) : (sequence l).parts w = l.flatMap fun o => o.parts w := by
  unfold sequence Obj.parts
  induction l with
  | nil => rfl
  | cons o l ih => simp only [List.flatMap_cons, Ref.cells, List.flatMap_append] at ih ⊢; rw [ih]

/-- **C98, new objects.** A new object does what it was made for, is of the class of that, and leaves the others as they are. -/
theorem C98_new (w : World A) (v : Val A) : (w.make v).2.parts (w.make v).1 = v.flat ∧
    (w.make v).2.cls = (match v with | .leaf k _ => .lib k | .custom _ => .base | .seq _ => .sequence) ∧
    ∀ o : Obj, o.Old w → o.parts (w.make v).1 = o.parts w := by
  refine ⟨store_parts w v _, ?_, fun o ho => ?_⟩
  · cases v <;> simp [World.make, World.store, World.clsOf]
  · unfold Obj.parts
    refine flatMap_congr' fun c hc => ?_
    show ((w.store v).1.cells c).flat = _
    rw [store_old w v (ho c hc)]

/-- **C98, `s[i]`.** It is the part at that place, of its class, and there is an exception exactly if there is no such place. -/
theorem C98_getItem (f : Family) (w : World A) (l : List Nat) (k : Cls) (i : Nat) :
    (∀ h : i < l.length, ∃ o, getItem f w ⟨k, .seq l⟩ i = .done o ∧ o.ref = .single l[i] ∧ o.parts w = (w.cells l[i]).flat ∧
      o.cls = (match w.cells l[i] with | .leaf k _ => .lib k | .custom _ => .base | .seq _ => .sequence)) ∧
    (l.length ≤ i → getItem f w ⟨k, .seq l⟩ i = .raised) := by
  refine ⟨fun h => ⟨⟨w.clsOf (.single l[i]), .single l[i]⟩, ?_, rfl, ?_, ?_⟩, fun h => ?_⟩
  · simp [getItem, List.getElem?_eq_getElem h]
  · simp [Obj.parts, Ref.cells]
  · simp only [World.clsOf]
  · simp [getItem, List.getElem?_eq_none h]

/-- **C98, exactly what `s[i] = v` does**: an exception if `v` is a sequence, `s` not a list of locks or there is no such place; for
ever waiting if `v` shares the element that it replaces; otherwise all objects that share this element now have the value of `v` there. -/
theorem C98_setItem (w : World A) (s v : Obj) (i : Nat) :
    match setItem w s i v with
    | .raised => (∃ l, v.ref = .seq l) ∨ (∃ c, s.ref = .single c) ∨ ∃ l, s.ref = .seq l ∧ l.length ≤ i
    | .panic => False
    | .hangs => ∃ l c, s.ref = .seq l ∧ l[i]? = some c ∧ v.ref = .single c
    | .done w' => ∃ l c d, s.ref = .seq l ∧ l[i]? = some c ∧ v.ref = .single d ∧ c ≠ d ∧
        ∀ o : Obj, o.parts w' = o.ref.cells.flatMap fun x => if x = c then v.parts w else (w.cells x).flat := by
  unfold setItem
  cases hv : v.ref with
  | seq l => exact .inl ⟨l, rfl⟩
  | single d =>
    cases hs : s.ref with
    | single c => exact .inr (.inl ⟨c, rfl⟩)
    | seq l =>
      simp only
      cases hl : l[i]? with
      | none => exact .inr (.inr ⟨l, rfl, List.getElem?_eq_none_iff.1 hl⟩)
      | some c =>
        simp only
        by_cases hc : c = d
        · rw [if_pos hc]; exact ⟨l, c, rfl, hl, by rw [hc]⟩
        · rw [if_neg hc]
          refine ⟨l, c, d, rfl, hl, rfl, hc, fun o => ?_⟩
          unfold Obj.parts
          refine flatMap_congr' fun x _ => ?_
          by_cases hx : x = c
          · simp [hx, hv, Ref.cells]
          · simp [hx]

theorem flatMap_set {α β : Type} (f g : α → List β) : ∀ (l : List α) (i : Nat) (c : α), l[i]? = some c → l.Nodup →
    (∀ x ∈ l, x ≠ c → g x = f x) → l.flatMap g = (l.take i).flatMap f ++ g c ++ (l.drop (i + 1)).flatMap f
  | [], i, c, h, _, _ => by simp at h
  | x :: l, 0, c, h, hd, hg => by
    simp only [List.getElem?_cons_zero, Option.some.injEq] at h
    subst h
    rw [List.nodup_cons] at hd
    simp only [List.flatMap_cons, List.take_zero, List.flatMap_nil, List.nil_append, List.drop_succ_cons, List.drop_zero]
    congr 1
    exact flatMap_congr' fun y hy => hg y (List.mem_cons_of_mem _ hy) fun e => hd.1 (e ▸ hy)
  | x :: l, i + 1, c, h, hd, hg => by
    rw [List.nodup_cons] at hd
    have hm : c ∈ l := List.mem_of_getElem? (by simpa using h)
    rw [List.flatMap_cons, List.take_succ_cons, List.flatMap_cons, List.drop_succ_cons,
      hg x List.mem_cons_self fun e => hd.1 (e ▸ hm),
      flatMap_set f g l i c (by simpa using h) hd.2 fun y hy => hg y (List.mem_cons_of_mem _ hy)]
    simp [List.append_assoc]

/-- **C98, `s[i] = v` as for a list** (`_partial`). If no part of the sequence occurs twice and `v` does not share the element that it
replaces, then afterwards the sequence does the value of `v` in that place and the same as before in the others, and objects that do not share
the element (`v` among them) are as they were. Without these conditions: `C98_hangs`, `C98_swap`, `C98_twice`, `C98_class_changes`. -/
theorem C98_setItem_partial {w : World A} {k : Cls} {l : List Nat} {i c d : Nat} {v : Obj} (hd : l.Nodup) (hi : l[i]? = some c)
    (hv : v.ref = .single d) (hc : c ≠ d) :
    ∃ w', setItem w ⟨k, .seq l⟩ i v = .done w' ∧
      (⟨k, .seq l⟩ : Obj).parts w' = (⟨k, .seq (l.take i)⟩ : Obj).parts w ++ v.parts w ++ (⟨k, .seq (l.drop (i + 1))⟩ : Obj).parts w ∧
      (∀ o : Obj, c ∉ o.ref.cells → o.parts w' = o.parts w) ∧ v.parts w' = v.parts w := by
  have h := C98_setItem w ⟨k, .seq l⟩ v i
  have he : setItem w ⟨k, .seq l⟩ i v = .done { w with cells := fun x => if x = c then w.cells d else w.cells x } := by
    simp [setItem, hv, hi, hc]
  rw [he] at h
  obtain ⟨l', c', d', hl', hi', hv', -, hall⟩ := h
  cases hl'
  rw [hi] at hi'; cases hi'
  have hother : ∀ o : Obj, c ∉ o.ref.cells →
      o.parts { w with cells := fun x => if x = c then w.cells d else w.cells x } = o.parts w := by
    intro o ho
    rw [hall o]
    refine flatMap_congr' fun x hx => ?_
    rw [if_neg (fun e : x = c => ho (e ▸ hx))]
  refine ⟨_, he, ?_, hother, hother v (by rw [hv]; simpa [Ref.cells] using hc)⟩
  rw [hall]
  show l.flatMap _ = _
  rw [flatMap_set (fun x => (w.cells x).flat) _ l i c hi hd fun x _ hx => if_neg hx, if_pos rfl]
  rfl

/-! ## Attributes -/

/-- **C98, attributes.** Through an object of the class of what is behind its lock an attribute can be read and set. Exactly the objects
that share the lock are changed. -/
theorem C98_attributes {w : World A} {k c : Nat} {a : A} {o : Obj} (ho : o.ref = .single c) (hc : w.cells c = .leaf k a) (f : A → A) :
    getAttr w k o = .done a ∧ getAttr (setAttr w k o f) k o = .done (f a) ∧
    ∀ x : Obj, x.parts (setAttr w k o f) =
      x.ref.cells.flatMap fun y => if y = c then [.leaf k (f a)] else (w.cells y).flat := by
  refine ⟨by simp [getAttr, ho, hc], by simp [getAttr, setAttr, ho, hc], fun x => ?_⟩
  unfold Obj.parts
  refine flatMap_congr' fun y _ => ?_
  by_cases hy : y = c
  · simp [setAttr, ho, hc, hy, Val.flat]
  · simp [setAttr, ho, hc, hy]

/-- The class of the object is that of what is behind its lock. -/
def Obj.Right (w : World A) (o : Obj) : Prop :=
  ∀ k, o.cls = .lib k → ∃ c a, o.ref = .single c ∧ w.cells c = .leaf k a

/-- What a Python program can do with components, except for `s[i] = v`. -/
inductive Step : World A → List Obj → World A → List Obj → Prop
  | make {w objs} (v : Val A) : Step w objs (w.make v).1 ((w.make v).2 :: objs)
  | sequence {w objs l} : (∀ o ∈ l, o ∈ objs) → Step w objs w (sequence l :: objs)
  | getItem {w objs s o} (f : Family) (i : Nat) : s ∈ objs → getItem f w s i = .done o → Step w objs w (o :: objs)
  | setAttr {w objs o k} (f : A → A) : o ∈ objs → o.cls = .lib k → Step w objs (setAttr w k o f) objs
  | pickle {w objs o w' o'} (args : Nat → Bool) : o ∈ objs → pickled args w o = .done (w', o') → Step w objs w' (o' :: objs)

/-- Programs without `s[i] = v`. -/
inductive Steps : World A → List Obj → World A → List Obj → Prop
  | nil {w objs} : Steps w objs w objs
  | cons {w objs w1 objs1 w2 objs2} : Step w objs w1 objs1 → Steps w1 objs1 w2 objs2 → Steps w objs w2 objs2

/-- All objects are of the right class, and their locks are in use. -/
def Fine (w : World A) (objs : List Obj) : Prop := ∀ o ∈ objs, o.Right w ∧ o.Old w

theorem Fine.store {w : World A} {objs : List Obj} (h : Fine w objs) (v : Val A) : Fine (w.store v).1 objs := by
  intro o ho
  obtain ⟨h1, h2⟩ := h o ho
  refine ⟨fun k hk => ?_, fun c hc => Nat.lt_of_lt_of_le (h2 c hc) (store_next w v)⟩
  obtain ⟨c, a, h3, h4⟩ := h1 k hk
  exact ⟨c, a, h3, by rw [store_old w v (h2 c (by rw [h3]; exact List.mem_singleton.2 rfl)), h4]⟩

theorem clsOf_right (w : World A) (r : Ref) : Obj.Right w ⟨w.clsOf r, r⟩ := by
  intro k hk
  cases r with
  | seq l => simp [World.clsOf] at hk
  | single c =>
    simp only [World.clsOf] at hk
    cases hc : w.cells c with
    | leaf k' a => rw [hc] at hk; cases hk; exact ⟨c, a, rfl, hc⟩
    | custom j => rw [hc] at hk; cases hk
    | seq l => rw [hc] at hk; cases hk

theorem step_fine {w w' : World A} {objs objs' : List Obj} (h : Step w objs w' objs') (hf : Fine w objs) : Fine w' objs' := by
  cases h with
  | make v =>
    intro o ho
    rcases List.mem_cons.1 ho with rfl | ho
    · exact ⟨clsOf_right _ _, fun c hc => (store_new w v c hc).2⟩
    · exact hf.store v o ho
  | @sequence l hl =>
    intro o ho
    rcases List.mem_cons.1 ho with rfl | ho
    · refine ⟨nofun, fun c hc => ?_⟩
      obtain ⟨x, hx, hc⟩ := List.mem_flatMap.1 hc
      exact (hf x (hl x hx)).2 c hc
    · exact hf o ho
  | @getItem s o f i hs hg =>
    intro o' ho
    rcases List.mem_cons.1 ho with rfl | ho
    · unfold Tok.PySeq.getItem at hg
      cases hr : s.ref with
      | seq l =>
        rw [hr] at hg
        simp only at hg
        cases hl : l[i]? with
        | none => rw [hl] at hg; cases hg
        | some c =>
          rw [hl] at hg
          cases hg
          refine ⟨clsOf_right _ _, fun x hx => ?_⟩
          rw [List.mem_singleton.1 hx]
          exact (hf s hs).2 c (by rw [hr]; exact List.mem_of_getElem? hl)
      | single c =>
        rw [hr] at hg
        simp only at hg
        split at hg
        · cases hg
          refine ⟨clsOf_right _ _, fun x hx => ?_⟩
          rw [List.mem_singleton.1 hx]
          exact (hf s hs).2 c (by rw [hr]; exact List.mem_singleton.2 rfl)
        · cases hg
    · exact hf o' ho
  | @setAttr o k f ho hk =>
    obtain ⟨c, a, hr, hc⟩ := (hf o ho).1 k hk
    have he : Tok.PySeq.setAttr w k o f = { w with cells := fun x => if x = c then .leaf k (f a) else w.cells x } := by
      simp [Tok.PySeq.setAttr, hr, hc]
    rw [he]
    intro x hx
    refine ⟨fun j hj => ?_, (hf x hx).2⟩
    obtain ⟨d, b, h1, h2⟩ := (hf x hx).1 j hj
    by_cases hd : d = c
    · subst hd
      rw [hc] at h2
      cases h2
      exact ⟨d, f a, h1, by simp⟩
    · exact ⟨d, b, h1, by simp [hd, h2]⟩
  | @pickle o w' o' args ho hp =>
    unfold pickled at hp
    cases hg : getState w o with
    | none => rw [hg] at hp; cases hp
    | some v =>
      rw [hg] at hp
      simp only at hp
      generalize hb : (match o.cls with | .lib k => args k | _ => false : Bool) = b at hp
      cases b with
      | true => cases hp
      | false =>
      cases hp
      intro x hx
      rcases List.mem_cons.1 hx with rfl | hx
      · refine ⟨fun k hk => ?_, fun c hc => (store_new w v c hc).2⟩
        obtain ⟨c, a, h1, h2⟩ := (hf o ho).1 k hk
        simp only [getState, h1, h2] at hg
        split at hg
        · cases hg
        · cases hg
          exact ⟨w.next, a, rfl, by simp [World.store]⟩
      · exact hf.store v x hx

/-- **C98, attributes can always be read** in programs without `s[i] = v`. -/
theorem C98_no_panic {w w' : World A} {objs : List Obj} (h : Steps w [] w' objs) {o : Obj} (ho : o ∈ objs) {k : Nat}
    (hk : o.cls = .lib k) : ∃ a, getAttr w' k o = .done a := by
  have main : ∀ {w w' : World A} {objs objs' : List Obj}, Steps w objs w' objs' → Fine w objs → Fine w' objs' := by
    intro w w' objs objs' h
    induction h with
    | nil => exact id
    | cons h _ ih => exact fun hf => ih (step_fine h hf)
  obtain ⟨c, a, h1, h2⟩ := (main h (fun o ho => nomatch ho) o ho).1 k hk
  exact ⟨a, by simp [getAttr, h1, h2]⟩

/-! ## Copies -/

theorem custom_mem : ∀ v : Val A, v.hasCustom = true ↔ ∃ k, Part.custom k ∈ v.flat := by
  suffices h : (∀ v : Val A, v.hasCustom = true ↔ ∃ k, Part.custom k ∈ v.flat) ∧
      ∀ l : List (Val A), anyCustom l = true ↔ ∃ k, Part.custom k ∈ flatAll l from h.1
  refine ⟨fun v => ?_, fun l => ?_⟩
  · exact Val.rec (motive_1 := fun v => v.hasCustom = true ↔ ∃ k, Part.custom k ∈ v.flat)
      (motive_2 := fun l => anyCustom l = true ↔ ∃ k, Part.custom k ∈ flatAll l)
      (fun k a => by simp [Val.hasCustom, Val.flat]) (fun k => by simp [Val.hasCustom, Val.flat])
      (fun l ih => by rw [Val.hasCustom, Val.flat]; exact ih) (by simp [anyCustom, flatAll])
      (fun v l h1 h2 => by
        rw [anyCustom, flatAll, Bool.or_eq_true, h1, h2]
        simp only [List.mem_append, exists_or]) v
  · induction l with
    | nil => simp [anyCustom, flatAll]
    | cons v l ih =>
      rw [anyCustom, flatAll, Bool.or_eq_true, ih]
      rw [Val.rec (motive_1 := fun v => v.hasCustom = true ↔ ∃ k, Part.custom k ∈ v.flat)
      (motive_2 := fun l => anyCustom l = true ↔ ∃ k, Part.custom k ∈ flatAll l)
      (fun k a => by simp [Val.hasCustom, Val.flat]) (fun k => by simp [Val.hasCustom, Val.flat])
      (fun l ih => by rw [Val.hasCustom, Val.flat]; exact ih) (by simp [anyCustom, flatAll])
      (fun v l h1 h2 => by
        rw [anyCustom, flatAll, Bool.or_eq_true, h1, h2]
        simp only [List.mem_append, exists_or]) v]
      simp only [List.mem_append, exists_or]

/-- **C98, copies** (`_partial`). Pickling gives an object of the same class that does the same and shares nothing with those there are;
there is an exception exactly if it contains a custom part or, against the claim, is of a class whose constructor needs arguments and that
does not say which. -/
theorem C98_pickle_partial (args : Nat → Bool) (w : World A) (o : Obj) :
    ((∃ k, Part.custom k ∈ o.parts w) → pickled args w o = .raised) ∧
    ((∃ k, o.cls = .lib k ∧ args k = true) → pickled args w o = .raised) ∧
    ((∀ k, Part.custom k ∉ o.parts w) → (∀ k, o.cls = .lib k → args k = false) → ∃ w' o', pickled args w o = .done (w', o') ∧ o'.cls = o.cls ∧ o'.parts w' = o.parts w ∧
      (∀ x : Obj, x.Old w → x.parts w' = x.parts w ∧ ∀ c ∈ x.ref.cells, c ∉ o'.ref.cells)) := by
  have hval : ∃ v : Val A, getState w o = (if v.hasCustom then none else some v) ∧ v.flat = o.parts w := by
    cases hr : o.ref with
    | single c => exact ⟨w.cells c, by simp [getState, hr], by simp [Obj.parts, hr, Ref.cells]⟩
    | seq l => exact ⟨.seq (l.map w.cells), by simp [getState, hr], by
        rw [Val.flat, flatAll_eq, List.flatMap_map]; simp [Obj.parts, hr, Ref.cells]⟩
  obtain ⟨v, h1, h2⟩ := hval
  rw [← h2]
  unfold pickled
  rw [h1]
  refine ⟨fun h => by simp [(custom_mem v).2 h], ?_, fun h ha => ?_⟩
  · rintro ⟨k, hk, ha⟩
    cases hc : v.hasCustom <;> simp [hk, ha]
  cases hc : v.hasCustom with
  | true =>
    obtain ⟨k, hk⟩ := (custom_mem v).1 hc
    exact absurd hk (h k)
  | false =>
    simp only [Bool.false_eq_true, if_false]
    rw [if_neg (by
      cases hk : o.cls with
      | lib k => simp [ha k hk]
      | sequence => simp
      | base => simp)]
    refine ⟨_, _, rfl, rfl, store_parts w v _, fun x hx => ⟨?_, fun c hc hm => ?_⟩⟩
    · unfold Obj.parts
      exact flatMap_congr' fun c hc => by rw [store_old w v (hx c hc)]
    · have := hx c hc
      have := (store_new w v c hm).1
      omega

/-! ## Where the code does not do what is claimed -/

/-- **C98 fails**: `s[i] = s[i]` (or any object that shares the element) waits for ever. -/
theorem C98_hangs (f : Family) (w : World A) (k : Cls) (l : List Nat) (i : Nat) (h : i < l.length) :
    ∃ o, getItem f w ⟨k, .seq l⟩ i = .done o ∧ setItem w ⟨k, .seq l⟩ i o = .hangs := by
  refine ⟨⟨w.clsOf (.single l[i]), .single l[i]⟩, ?_, ?_⟩
  · simp [getItem, List.getElem?_eq_getElem h]
  · simp [setItem, List.getElem?_eq_getElem h]

/-- **C98 fails**: `s[0], s[1] = s[1], s[0]` does not exchange the elements: both become what the second one was. -/
theorem C98_swap (f : Family) (w : World A) (k : Cls) {c d : Nat} (h : c ≠ d) :
    ∃ x y w1 w2, getItem f w ⟨k, .seq [c, d]⟩ 1 = .done x ∧ getItem f w ⟨k, .seq [c, d]⟩ 0 = .done y ∧
      setItem w ⟨k, .seq [c, d]⟩ 0 x = .done w1 ∧ setItem w1 ⟨k, .seq [c, d]⟩ 1 y = .done w2 ∧
      (⟨k, .seq [c, d]⟩ : Obj).parts w2 = (w.cells d).flat ++ (w.cells d).flat := by
  have h' := Ne.symm h
  refine ⟨_, _, _, _, rfl, rfl, by simp [setItem, h]; rfl, by simp [setItem, h']; rfl, ?_⟩
  simp [Obj.parts, Ref.cells, h]

/-- **C98 fails** for `Sequence([a, a])`: an assignment to the first element also changes the second one, and `a` itself. -/
theorem C98_twice (w : World A) {a v : Obj} {c d : Nat} (ha : a.ref = .single c) (hv : v.ref = .single d) (h : c ≠ d) :
    ∃ w', setItem w (sequence [a, a]) 0 v = .done w' ∧ (sequence [a, a]).parts w' = v.parts w ++ v.parts w ∧
      a.parts w' = v.parts w := by
  refine ⟨_, by simp [setItem, sequence, ha, hv, Ref.cells, h]; rfl, ?_, ?_⟩ <;> simp [Obj.parts, sequence, ha, hv, Ref.cells]

/-- **C98 fails**: after `x = s[i]; s[i] = v`, with `v` of another class, reading an attribute of `x` panics and setting one does nothing. -/
theorem C98_class_changes (f : Family) (w : World A) (k : Cls) {l : List Nat} {i c d j j' : Nat} {a b : A} {v : Obj}
    (hi : l[i]? = some c) (hc : w.cells c = .leaf j a) (hv : v.ref = .single d) (hd : w.cells d = .leaf j' b) (hj : j' ≠ j) :
    ∃ x w', getItem f w ⟨k, .seq l⟩ i = .done x ∧ x.cls = .lib j ∧ getAttr w j x = .done a ∧
      setItem w ⟨k, .seq l⟩ i v = .done w' ∧ getAttr w' j x = .panic ∧ ∀ g, setAttr w' j x g = w' := by
  have hcd : c ≠ d := by
    rintro rfl
    rw [hc] at hd
    cases hd
    exact hj rfl
  refine ⟨⟨w.clsOf (.single c), .single c⟩, { w with cells := fun x => if x = c then w.cells d else w.cells x },
    by simp [getItem, hi], by simp [World.clsOf, hc], by simp [getAttr, hc], by simp [setItem, hv, hi, hcd],
    by simp [getAttr, hd, hj], fun g => by simp [setAttr, hd, hj]⟩

/-- **C98 fails** for a sequence in a sequence (as read from JSON): its elements cannot be had. Pre-tokenizers and post-processors raise
an exception at every place, normalizers give the inner sequence itself at every place. -/
theorem C98_nested (f : Family) (w : World A) (k : Cls) {l : List Nat} {i c : Nat} {vs : List (Val A)} (hi : l[i]? = some c)
    (hc : w.cells c = .seq vs) : ∃ x, getItem f w ⟨k, .seq l⟩ i = .done x ∧ x.cls = .sequence ∧ x.parts w = flatAll vs ∧
      ∀ j, getItem f w x j = if f = .normalizers then .done x else .raised := by
  refine ⟨⟨w.clsOf (.single c), .single c⟩, by simp [getItem, hi], by simp [World.clsOf, hc],
    by simp [Obj.parts, Ref.cells, hc, Val.flat], fun j => ?_⟩
  by_cases hf : f = .normalizers <;> simp [getItem, hf]

/-- **C98, decoders.** A sequence of decoders does what they did when it was made; it shares nothing with them, unlike the other
sequences. A custom decoder in it is a panic. -/
theorem C98_decoders (w : World A) (l : List Obj) :
    ((∃ o ∈ l, ∃ c ∈ o.ref.cells, ∃ k, w.cells c = .custom k) → decoderSequence w l = .panic) ∧
    ((¬ ∃ o ∈ l, ∃ c ∈ o.ref.cells, ∃ k, w.cells c = .custom k) → ∃ w' s, decoderSequence w l = .done (w', s) ∧ s.parts w' = l.flatMap (fun o => o.parts w) ∧
      ∀ o ∈ l, o.Old w → o.parts w' = o.parts w ∧ ∀ c ∈ o.ref.cells, c ∉ s.ref.cells) := by
  have hany : (l.flatMap fun o => o.ref.cells.map w.cells).any (fun v => match v with | .custom _ => true | _ => false) = true ↔
      ∃ o ∈ l, ∃ c ∈ o.ref.cells, ∃ k, w.cells c = .custom k := by
    rw [List.any_eq_true]
    constructor
    · rintro ⟨v, hv, h⟩
      obtain ⟨o, ho, hm⟩ := List.mem_flatMap.1 hv
      obtain ⟨c, hc, rfl⟩ := List.mem_map.1 hm
      refine ⟨o, ho, c, hc, ?_⟩
      cases hw : w.cells c with
      | custom k => exact ⟨k, rfl⟩
      | leaf k a => rw [hw] at h; cases h
      | seq vs => rw [hw] at h; cases h
    · rintro ⟨o, ho, c, hc, k, hk⟩
      exact ⟨w.cells c, List.mem_flatMap.2 ⟨o, ho, List.mem_map.2 ⟨c, hc, rfl⟩⟩, by rw [hk]⟩
  unfold decoderSequence
  refine ⟨fun h => ?_, fun h => ?_⟩
  · simp only
    rw [if_pos (hany.2 h)]
  · simp only
    rw [if_neg (fun hh => h (hany.1 hh))]
    refine ⟨_, _, rfl, ?_, fun o _ hold => ⟨?_, fun c hc hm => ?_⟩⟩
    · simp only [Obj.parts, Ref.cells, List.flatMap_cons, List.flatMap_nil, List.append_nil, if_true, Val.flat, flatAll_eq]
      rw [List.flatMap_assoc]
      exact flatMap_congr' fun o _ => List.flatMap_map ..
    · unfold Obj.parts
      refine flatMap_congr' fun c hc => ?_
      have := hold c hc
      simp only
      rw [if_neg (by omega)]
    · have := hold c hc
      rw [List.mem_singleton.1 hm] at this
      omega

/-! ## Cases -/

/-- Three normalizers: of class 0 (with an attribute), of class 1, custom. -/
def sampleWorld : World Bool := ⟨fun | 0 => .leaf 0 true | 1 => .leaf 1 false | _ => .custom 7, 3⟩

example : ∃ w', setItem sampleWorld (sequence [⟨.lib 0, .single 0⟩, ⟨.lib 1, .single 1⟩]) 0 ⟨.base, .single 2⟩ = .done w' ∧
    (sequence [⟨.lib 0, .single 0⟩, ⟨.lib 1, .single 1⟩]).parts w' = [.custom 7, .leaf 1 false] := by
  obtain ⟨w', h1, h2, -⟩ := C98_setItem_partial (w := sampleWorld) (k := .sequence) (l := [0, 1]) (i := 0) (c := 0) (d := 2)
    (v := ⟨.base, .single 2⟩) (by decide) rfl rfl (by decide)
  exact ⟨w', h1, h2⟩

example : ∃ o, getItem .processors sampleWorld ⟨.sequence, .seq [0, 1]⟩ 1 = .done o ∧
    setItem sampleWorld ⟨.sequence, .seq [0, 1]⟩ 1 o = .hangs := C98_hangs _ _ _ _ _ (by decide)

example : ∃ x w', getItem .normalizers sampleWorld ⟨.sequence, .seq [0]⟩ 0 = .done x ∧ x.cls = .lib 0 ∧
    getAttr sampleWorld 0 x = .done true ∧ setItem sampleWorld ⟨.sequence, .seq [0]⟩ 0 ⟨.lib 1, .single 1⟩ = .done w' ∧
    getAttr w' 0 x = .panic ∧ ∀ g, setAttr w' 0 x g = w' :=
  C98_class_changes .normalizers sampleWorld .sequence rfl rfl rfl rfl (by decide)

example : ∃ w objs o, Steps sampleWorld [] w objs ∧ o ∈ objs ∧ o.cls = .lib 0 := by
  have h1 : Step sampleWorld [] _ _ := .make (.leaf 0 true)
  have h2 := Step.sequence (w := (sampleWorld.make (.leaf 0 true)).1) (objs := [(sampleWorld.make (.leaf 0 true)).2])
    (l := [(sampleWorld.make (.leaf 0 true)).2]) (fun o h => h)
  have h3 := Step.getItem (w := (sampleWorld.make (.leaf 0 true)).1)
    (objs := [sequence [(sampleWorld.make (.leaf 0 true)).2], (sampleWorld.make (.leaf 0 true)).2]) .normalizers 0
    List.mem_cons_self rfl
  exact ⟨_, _, _, .cons h1 (.cons h2 (.cons h3 .nil)), List.mem_cons_self, rfl⟩

example : pickled (fun _ => false) sampleWorld (sequence [⟨.lib 0, .single 0⟩, ⟨.base, .single 2⟩]) = .raised := by
  have h := C98_pickle_partial (fun _ => false) sampleWorld (sequence [⟨.lib 0, .single 0⟩, ⟨.base, .single 2⟩])
  exact h.1 ⟨7, by simp [Obj.parts, sequence, Ref.cells, sampleWorld, Val.flat]⟩

end Tok.PySeq
