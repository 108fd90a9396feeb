import Verif.Norm.Lemmas

/-!
# C90: `str` and `repr` of the objects in Python

`bindings/python/src/utils/serde_pyo3.rs`: a serializer that writes what `Serialize` of a component says as text like Python's. It is
called for `str(..)` (`to_string`) and `repr(..)` (`repr`) of tokenizers, models, normalizers, pre-tokenizers, decoders,
post-processors and trainers. It keeps one text, a level, and for each level a count of elements; only the first few elements of a
sequence are written, and long texts are cut.
-/

namespace Tok.Py

/-- The text of a number, `True`, `None`, or the name of a variant: not empty, and its end is no opening bracket. -/
def plain (t : Str) : Bool :=
  match t.getLast? with
  | none => false
  | some ch => ch ≠ '(' && ch ≠ '[' && ch ≠ '{'

mutual
/-- What a value says of itself (the data model of `serde`, as far as the serializer tells it apart). Booleans, numbers, `None`,
unit structs and unit variants are `atom`s: the text that is written for them (`serde_pyo3.rs:82-137, 173-217`). Bytes are a
sequence of numbers (`serde_pyo3.rs:162-169`). -/
inductive SVal
  | atom (t : Str) (h : plain t = true)
  | str (t : Str)
  /-- A newtype variant. -/
  | newtype (name : Str) (v : SVal)
  | seq (l : SList)
  /-- A tuple or tuple struct (`name` empty), or a tuple variant. -/
  | tuple (name : Str) (l : SList)
  | map (l : SMap)
  | struct (name : Str) (l : SFields)
  /-- A struct variant. -/
  | variant (name : Str) (l : SFields)

inductive SList
  | nil
  | cons (v : SVal) (l : SList)

inductive SMap
  | nil
  | cons (k v : SVal) (l : SMap)

inductive SFields
  | nil
  | cons (name : Str) (v : SVal) (l : SFields)
end

/-- The limits (`serde_pyo3.rs:5-17`). -/
structure SCfg where
  maxElements : Nat
  maxDepth : Nat
  /-- `none`: `usize::MAX`. -/
  maxString : Option Nat

/-- `to_string` (`serde_pyo3.rs:24-40`). -/
def strCfg : SCfg := ⟨6, 20, some 100⟩

/-- `repr` (`serde_pyo3.rs:42-58`). -/
def reprCfg : SCfg := ⟨100, 200, none⟩

/-- The state of the serializer (`serde_pyo3.rs:5-17`). The vector of counts has `max_depth` elements and `level` is below that. -/
structure Ser where
  out : Str
  nums : Nat → Nat
  level : Nat

/-- `self.output += t`. -/
def Ser.push (s : Ser) (t : Str) : Ser := { s with out := s.out ++ t }

/-- `self.num_elements[i] = n`. -/
def Ser.put (s : Ser) (i n : Nat) : Ser := { s with nums := fun j => if j = i then n else s.nums j }

/-- The beginning of a compound value (`serde_pyo3.rs:256-261, 267-272` and so on). -/
def Ser.start (c : SCfg) (s : Ser) (t : Str) : Ser :=
  let s := s.push t
  let s := { s with level := min (c.maxDepth - 1) (s.level + 1) }
  s.put s.level 0

/-- The end of a compound value (`serde_pyo3.rs:385-390` and so on). -/
def Ser.stop (s : Ser) (t : Str) : Ser :=
  let s := s.put s.level 0
  { s with level := s.level - 1 }.push t

/-- Counting one more element (`serde_pyo3.rs:369-370` and so on). -/
def Ser.bump (s : Ser) : Ser := s.put s.level (s.nums s.level + 1)

/-- A comma unless this comes first (`serde_pyo3.rs:372-374` and so on). -/
def Ser.comma (s : Ser) (opening : Char) : Ser := if s.out.getLast? = some opening then s else s.push ", ".toList

/-- An element that is not written (`serde_pyo3.rs:377-380` and so on). -/
def Ser.skip (c : SCfg) (s : Ser) : Ser := if s.nums s.level = c.maxElements then s.push ", ...".toList else s

/-- `serialize_str` (`serde_pyo3.rs:148-158`); `none`: the slice panics. -/
def Ser.quote (c : SCfg) (s : Ser) (t : Str) : Option Ser :=
  match c.maxString with
  | none => some (((s.push "\"".toList).push t).push "\"".toList)
  | some n =>
    if blen t > n then
      match takeBytes n t with
      | none => none
      | some p => some ((((s.push "\"".toList).push p).push "...".toList).push "\"".toList)
    else some (((s.push "\"".toList).push t).push "\"".toList)

/-- The name of a struct (`serde_pyo3.rs:320-324`). -/
def structName (name : Str) : Str :=
  if "Helper".toList.isSuffixOf name then name.take (name.length - 6) else name

mutual
/-- A value (`serde_pyo3.rs:60-349`). -/
def ser (c : SCfg) : SVal → Ser → Option Ser
  | .atom t _, s => some (s.push t)
  | .str t, s => s.quote c t
  | .newtype name v, s => (ser c v ((s.push name).push "(".toList)).map (·.push ")".toList)
  | .seq l, s => (serElems c '[' l (s.start c "[".toList)).map (·.stop "]".toList)
  | .tuple name l, s => (serElems c '(' l (s.start c (name ++ "(".toList))).map (·.stop ")".toList)
  | .map l, s => (serEntries c l (s.start c "{".toList)).map (·.stop "}".toList)
  | .struct name l, s => (serFields c true l (s.start c (structName name ++ "(".toList))).map (·.stop ")".toList)
  | .variant name l, s => (serFields c false l (s.start c (name ++ "(".toList))).map (·.stop ")".toList)

/-- `serialize_element`, or `serialize_field` of tuples, for all elements (`serde_pyo3.rs:358-484`). -/
def serElems (c : SCfg) (opening : Char) : SList → Ser → Option Ser
  | .nil, s => some s
  | .cons v l, s =>
    if s.bump.nums s.level < c.maxElements then (ser c v (s.bump.comma opening)).bind (serElems c opening l)
    else serElems c opening l (s.bump.skip c)

/-- `serialize_key` and `serialize_value` for all entries (`serde_pyo3.rs:496-548`). -/
def serEntries (c : SCfg) : SMap → Ser → Option Ser
  | .nil, s => some s
  | .cons k v l, s =>
    if s.bump.nums s.level < c.maxElements then
      (ser c k (s.bump.comma '{')).bind fun s =>
        if s.nums s.level < c.maxElements then (ser c v (s.push ":".toList)).bind (serEntries c l) else serEntries c l s
    else serEntries c l (s.bump.skip c)

/-- `serialize_field` for all fields of a struct, in which a field called `type` is left out, or of a struct variant, in which it
is not (`serde_pyo3.rs:552-611`). -/
def serFields (c : SCfg) (noType : Bool) : SFields → Ser → Option Ser
  | .nil, s => some s
  | .cons name v l, s =>
    if noType = true ∧ name = "type".toList then serFields c noType l (s.comma '(')
    else (ser c v (((s.comma '(').push name).push "=".toList)).bind (serFields c noType l)
end

/-- `to_string` and `repr` (`serde_pyo3.rs:24-58`); `none`: a panic. -/
def printed (c : SCfg) (v : SVal) : Option Str := (ser c v ⟨[], fun _ => 0, 0⟩).map (·.out)

/-! ## Specification: the text, without a state -/

/-- A text in quotes; if it is too long its beginning, which must end between two characters. -/
def quoted (c : SCfg) (t : Str) : Option Str :=
  match c.maxString with
  | none => some ("\"".toList ++ t ++ "\"".toList)
  | some n =>
    if blen t ≤ n then some ("\"".toList ++ t ++ "\"".toList)
    else (takeBytes n t).map fun p => "\"".toList ++ p ++ "...\"".toList

/-- The texts with commas between, and a sign that there are more. -/
def listed (ts : List Str) (more : Bool) : Str :=
  ", ".toList.intercalate ts ++ if more then ", ...".toList else []

/-- How many there are. -/
def SList.size : SList → Nat
  | .nil => 0
  | .cons _ l => l.size + 1

def SMap.size : SMap → Nat
  | .nil => 0
  | .cons _ _ l => l.size + 1

mutual
/-- The text of a value. -/
def text (c : SCfg) : SVal → Option Str
  | .atom t _ => some t
  | .str t => quoted c t
  | .newtype name v => (text c v).map fun t => name ++ "(".toList ++ t ++ ")".toList
  | .seq l => (elemTexts c (c.maxElements - 1) l).map fun ts => "[".toList ++ listed ts (decide (c.maxElements - 1 < l.size)) ++ "]".toList
  | .tuple name l => (elemTexts c (c.maxElements - 1) l).map fun ts =>
    name ++ "(".toList ++ listed ts (decide (c.maxElements - 1 < l.size)) ++ ")".toList
  | .map l => (entryTexts c (c.maxElements - 1) l).map fun ts =>
    "{".toList ++ listed ts (decide (c.maxElements - 1 < l.size)) ++ "}".toList
  | .struct name l => (fieldTexts c true l).map fun ts => structName name ++ "(".toList ++ listed ts false ++ ")".toList
  | .variant name l => (fieldTexts c false l).map fun ts => name ++ "(".toList ++ listed ts false ++ ")".toList

/-- The texts of the first `n` elements. -/
def elemTexts (c : SCfg) : Nat → SList → Option (List Str)
  | 0, _ => some []
  | _ + 1, .nil => some []
  | n + 1, .cons v l => (text c v).bind fun t => (elemTexts c n l).map (t :: ·)

/-- The texts of the first `n` entries. -/
def entryTexts (c : SCfg) : Nat → SMap → Option (List Str)
  | 0, _ => some []
  | _ + 1, .nil => some []
  | n + 1, .cons k v l => (text c k).bind fun t => (text c v).bind fun u =>
    (entryTexts c n l).map ((t ++ ":".toList ++ u) :: ·)

/-- The texts of the fields, without those called `type`, or with them. -/
def fieldTexts (c : SCfg) (noType : Bool) : SFields → Option (List Str)
  | .nil => some []
  | .cons name v l =>
    if noType = true ∧ name = "type".toList then fieldTexts c noType l
    else (text c v).bind fun t => (fieldTexts c noType l).map ((name ++ "=".toList ++ t) :: ·)
end

/-- No field is called `type`. -/
def SFields.untyped : SFields → Bool
  | .nil => true
  | .cons name _ l => name ≠ "type".toList && l.untyped

/-- Only the first one may be (`#[serde(tag = "type")]` writes it first, and so do the implementations by hand). -/
def SFields.typeFirst : SFields → Bool
  | .nil => true
  | .cons _ _ l => l.untyped

mutual
/-- The value is nested at most so deep, and only first fields are called `type`. -/
def fits : Nat → SVal → Bool
  | _, .atom _ _ => true
  | _, .str _ => true
  | d, .newtype _ v => fits d v
  | d, .seq l => 0 < d && fitsList (d - 1) l
  | d, .tuple _ l => 0 < d && fitsList (d - 1) l
  | d, .map l => 0 < d && fitsMap (d - 1) l
  | d, .struct _ l => 0 < d && (l.typeFirst && fitsFields (d - 1) l)
  | d, .variant _ l => 0 < d && fitsFields (d - 1) l

def fitsList : Nat → SList → Bool
  | _, .nil => true
  | d, .cons v l => fits d v && fitsList d l

def fitsMap : Nat → SMap → Bool
  | _, .nil => true
  | d, .cons k v l => fits d k && (fits d v && fitsMap d l)

def fitsFields : Nat → SFields → Bool
  | _, .nil => true
  | d, .cons _ v l => fits d v && fitsFields d l
end

/-! ## Proofs -/

/-- Its end is no opening bracket. -/
abbrev Closed (t : Str) : Prop := plain t = true

theorem closed_append (a : Str) {t : Str} (h : Closed t) : Closed (a ++ t) := by
  unfold Closed plain at *
  rw [List.getLast?_append]
  cases ht : t.getLast? with
  | none => rw [ht] at h; cases h
  | some x => rw [ht] at h; exact h

theorem closed_quote (a : Str) : Closed (a ++ "\"".toList) := closed_append a (by decide)
theorem closed_paren (a : Str) : Closed (a ++ ")".toList) := closed_append a (by decide)
theorem closed_bracket (a : Str) : Closed (a ++ "]".toList) := closed_append a (by decide)
theorem closed_brace (a : Str) : Closed (a ++ "}".toList) := closed_append a (by decide)

theorem text_closed {c : SCfg} : ∀ (v : SVal) {t : Str}, text c v = some t → Closed t
  | .atom t h, _, e => by rw [text] at e; cases e; exact h
  | .str t, _, e => by
    rw [text, quoted] at e
    split at e
    · cases e; exact closed_quote _
    · split at e
      · cases e; exact closed_quote _
      · obtain ⟨p, _, rfl⟩ := Option.map_eq_some_iff.1 e
        exact closed_append _ (by decide)
  | .newtype name v, _, e => by
    rw [text] at e; obtain ⟨p, _, rfl⟩ := Option.map_eq_some_iff.1 e; exact closed_paren _
  | .seq l, _, e => by
    rw [text] at e; obtain ⟨p, _, rfl⟩ := Option.map_eq_some_iff.1 e; exact closed_bracket _
  | .tuple name l, _, e => by
    rw [text] at e; obtain ⟨p, _, rfl⟩ := Option.map_eq_some_iff.1 e; exact closed_paren _
  | .map l, _, e => by
    rw [text] at e; obtain ⟨p, _, rfl⟩ := Option.map_eq_some_iff.1 e; exact closed_brace _
  | .struct name l, _, e => by
    rw [text] at e; obtain ⟨p, _, rfl⟩ := Option.map_eq_some_iff.1 e; exact closed_paren _
  | .variant name l, _, e => by
    rw [text] at e; obtain ⟨p, _, rfl⟩ := Option.map_eq_some_iff.1 e; exact closed_paren _

theorem closed_last {a t : Str} (h : Closed t) {ch : Char} (hc : ch = '(' ∨ ch = '[' ∨ ch = '{') :
    (a ++ t).getLast? ≠ some ch := by
  have := closed_append a h
  unfold Closed plain at this
  intro e
  rw [e] at this
  rcases hc with rfl | rfl | rfl <;> simp at this

/-- What the serializer does and the text of the value belong together: the text is appended, the level is as before, and so are
the counts up to it. -/
def Agrees (s : Ser) (r : Option Ser) (t : Option Str) : Prop :=
  match t with
  | none => r = none
  | some t => ∃ s', r = some s' ∧ s'.out = s.out ++ t ∧ s'.level = s.level ∧ ∀ i ≤ s.level, s'.nums i = s.nums i

/-- The same inside a compound value, where the count of the level itself may change. -/
def Inside (s : Ser) (r : Option Ser) (t : Option Str) : Prop :=
  match t with
  | none => r = none
  | some t => ∃ s', r = some s' ∧ s'.out = s.out ++ t ∧ s'.level = s.level ∧ ∀ i < s.level, s'.nums i = s.nums i

theorem Agrees.inside {s : Ser} {r : Option Ser} {t : Option Str} (h : Agrees s r t) : Inside s r t := by
  unfold Agrees at h
  unfold Inside
  cases t with
  | none => exact h
  | some t =>
    obtain ⟨s', h1, h2, h3, h4⟩ := h
    exact ⟨s', h1, h2, h3, fun i hi => h4 i (Nat.le_of_lt hi)⟩

/-- Texts, of which the first one may be the first one at all. -/
def joined (first : Bool) (ts : List Str) : Str :=
  if first then ", ".toList.intercalate ts else ts.flatMap (", ".toList ++ ·)

theorem joined_nil (first : Bool) : joined first [] = [] := by cases first <;> rfl

theorem joined_cons (first : Bool) (t : Str) (ts : List Str) :
    joined first (t :: ts) = (if first then t else ", ".toList ++ t) ++ joined false ts := by
  cases first with
  | false => rfl
  | true =>
    have : ∀ (t : Str) (ts : List Str), List.intercalate ", ".toList (t :: ts) = t ++ ts.flatMap (", ".toList ++ ·) := by
      intro t ts
      induction ts generalizing t with
      | nil => simp [List.intercalate]
      | cons u ts ih =>
        have := ih u
        simp only [List.intercalate, List.intersperse, List.flatten_cons, List.flatMap_cons, List.append_assoc] at this ⊢
        rw [this]
    exact this t ts

/-- Is this the first one? -/
def First (s : Ser) (ch : Char) (first : Bool) : Prop := s.out.getLast? = some ch ↔ first = true

theorem comma_out {s : Ser} {ch : Char} {first : Bool} (h : First s ch first) :
    s.comma ch = s.push (if first then [] else ", ".toList) := by
  unfold Ser.comma First at *
  cases first with
  | true => rw [if_pos (h.2 rfl)]; simp [Ser.push]
  | false => rw [if_neg fun e => by have := h.1 e; cases this]; rfl

/-- What was written and counted before. -/
theorem Inside.shift {s s0 : Ser} {p : Str} {r : Option Ser} {t : Option Str} (ho : s.out = s0.out ++ p)
    (hl : s.level = s0.level) (hn : ∀ i < s0.level, s.nums i = s0.nums i) (h : Inside s r t) :
    Inside s0 r (t.map (p ++ ·)) := by
  cases t with
  | none => exact h
  | some t =>
    obtain ⟨s', h1, h2, h3, h4⟩ := h
    exact ⟨s', h1, by rw [h2, ho, List.append_assoc], h3.trans hl, fun i hi => by
      rw [h4 i (by rw [hl]; exact hi), hn i hi]⟩

/-- The whole of a compound value. -/
theorem Agrees.compound {c : SCfg} {s : Ser} {a z : Str} {f : Ser → Option Ser} {t : Option Str} (hd : s.level + 1 ≤ c.maxDepth - 1)
    (h : Inside (s.start c a) (f (s.start c a)) t) :
    Agrees s ((f (s.start c a)).map (·.stop z)) (t.map fun t => a ++ t ++ z) := by
  have hlev : (s.start c a).level = s.level + 1 := Nat.min_eq_right hd
  cases t with
  | none => rw [show f (s.start c a) = none from h]; rfl
  | some t =>
    obtain ⟨s', h1, h2, h3, h4⟩ := h
    rw [h1]
    refine ⟨_, rfl, ?_, ?_, fun i hi => ?_⟩
    · show s'.out ++ z = _
      rw [h2]
      show s.out ++ a ++ t ++ z = _
      simp only [List.append_assoc]
    · show s'.level - 1 = s.level
      rw [h3, hlev]
      rfl
    · show (if i = s'.level then 0 else s'.nums i) = _
      rw [h3, hlev, if_neg (by omega), h4 i (by omega)]
      show (if i = (s.start c a).level then 0 else s.nums i) = _
      rw [hlev, if_neg (by omega)]

theorem skip_elems {c : SCfg} {ch : Char} : ∀ (l : SList) {s : Ser}, c.maxElements ≤ s.nums s.level →
    Inside s (serElems c ch l s) (some [])
  | .nil, s, _ => ⟨s, by rw [serElems], by simp, rfl, fun _ _ => rfl⟩
  | .cons v l, s, h => by
    have hb : s.bump.nums s.level = s.nums s.level + 1 := if_pos rfl
    rw [serElems, hb, if_neg (by omega)]
    have hsk : s.bump.skip c = s.bump := by
      unfold Ser.skip
      show (if s.bump.nums s.level = _ then _ else _) = _
      rw [hb, if_neg (by omega)]
    rw [hsk]
    have := skip_elems (c := c) (ch := ch) l (s := s.bump) (by show _ ≤ s.bump.nums s.level; rw [hb]; omega)
    exact Inside.shift (p := []) (s := s.bump) (s0 := s) (by simp [Ser.bump, Ser.put]) rfl
      (fun i hi => by show (if i = s.level then _ else _) = _; rw [if_neg (by omega)]) this

theorem skip_entries {c : SCfg} : ∀ (l : SMap) {s : Ser}, c.maxElements ≤ s.nums s.level →
    Inside s (serEntries c l s) (some [])
  | .nil, s, _ => ⟨s, by rw [serEntries], by simp, rfl, fun _ _ => rfl⟩
  | .cons k v l, s, h => by
    have hb : s.bump.nums s.level = s.nums s.level + 1 := if_pos rfl
    rw [serEntries, hb, if_neg (by omega)]
    have hsk : s.bump.skip c = s.bump := by
      unfold Ser.skip
      show (if s.bump.nums s.level = _ then _ else _) = _
      rw [hb, if_neg (by omega)]
    rw [hsk]
    have := skip_entries (c := c) l (s := s.bump) (by show _ ≤ s.bump.nums s.level; rw [hb]; omega)
    exact Inside.shift (p := []) (s := s.bump) (s0 := s) (by simp [Ser.bump, Ser.put]) rfl
      (fun i hi => by show (if i = s.level then _ else _) = _; rw [if_neg (by omega)]) this

theorem bump_nums (s : Ser) : s.bump.nums s.level = s.nums s.level + 1 := if_pos rfl

theorem bump_other (s : Ser) {i : Nat} (h : i < s.level) : s.bump.nums i = s.nums i := if_neg (by omega)

theorem first_closed {s : Ser} {a t : Str} (ho : s.out = a ++ t) (h : Closed t) {ch : Char}
    (hc : ch = '(' ∨ ch = '[' ∨ ch = '{') : First s ch false := by
  unfold First
  rw [ho]
  exact ⟨fun e => absurd e (closed_last h hc), fun e => by cases e⟩

/-- A sequence, tuple or map as a whole. -/
theorem whole_list {c : SCfg} {s : Ser} {a z : Str} {f : Ser → Option Ser} {n k : Nat} {t : Option (List Str)}
    (hd : s.level + 1 ≤ c.maxDepth - 1)
    (h : Inside (s.start c a) (f (s.start c a)) (t.map fun ts => joined true ts ++ if n < k then ", ...".toList else [])) :
    Agrees s ((f (s.start c a)).map (·.stop z)) (t.map fun ts => a ++ listed ts (decide (n < k)) ++ z) := by
  have := Agrees.compound (z := z) hd h
  rw [Option.map_map] at this
  refine (congrArg (Agrees s _) ?_).mp this
  congr 1
  funext ts
  simp only [Function.comp, listed, joined, if_true, decide_eq_true_eq]

/-- A struct as a whole. -/
theorem whole_fields {c : SCfg} {s : Ser} {a z : Str} {f : Ser → Option Ser} {t : Option (List Str)}
    (hd : s.level + 1 ≤ c.maxDepth - 1)
    (h : Inside (s.start c a) (f (s.start c a)) (t.map fun ts => joined true ts)) :
    Agrees s ((f (s.start c a)).map (·.stop z)) (t.map fun ts => a ++ listed ts false ++ z) := by
  have := Agrees.compound (z := z) hd h
  rw [Option.map_map] at this
  refine (congrArg (Agrees s _) ?_).mp this
  congr 1
  funext ts
  simp [Function.comp, listed, joined]

theorem start_level {c : SCfg} {s : Ser} {a : Str} (h : s.level + 1 ≤ c.maxDepth - 1) : (s.start c a).level = s.level + 1 :=
  Nat.min_eq_right h

theorem start_nums (c : SCfg) (s : Ser) (a : Str) : (s.start c a).nums (s.start c a).level = 0 := if_pos rfl

mutual
theorem ser_agrees {c : SCfg} (hc : 1 ≤ c.maxElements) : ∀ (v : SVal) {d : Nat} {s : Ser}, s.level + d ≤ c.maxDepth - 1 →
    fits d v = true → Agrees s (ser c v s) (text c v)
  | .atom t h, _, s, _, _ => by rw [ser, text]; exact ⟨_, rfl, rfl, rfl, fun _ _ => rfl⟩
  | .str t, _, s, _, _ => by
    rw [ser, text, Ser.quote, quoted]
    cases c.maxString with
    | none => exact ⟨_, rfl, by simp [Ser.push, List.append_assoc], rfl, fun _ _ => rfl⟩
    | some n =>
      by_cases h : blen t ≤ n
      · simp only [if_pos h, if_neg (Nat.not_lt.2 h)]
        exact ⟨_, rfl, by simp [Ser.push, List.append_assoc], rfl, fun _ _ => rfl⟩
      · simp only [if_neg h, if_pos (Nat.lt_of_not_le h)]
        cases takeBytes n t with
        | none => rfl
        | some p => exact ⟨_, rfl, by simp [Ser.push, List.append_assoc], rfl, fun _ _ => rfl⟩
  | .newtype name v, d, s, hd, hf => by
    rw [fits] at hf
    rw [ser, text]
    have := ser_agrees hc v (s := (s.push name).push "(".toList) hd hf
    cases ht : text c v with
    | none =>
      rw [ht] at this
      rw [show ser c v ((s.push name).push "(".toList) = none from this]
      rfl
    | some t =>
      rw [ht] at this
      obtain ⟨s', h1, h2, h3, h4⟩ := this
      rw [h1]
      exact ⟨_, rfl, by simp [Ser.push, h2, List.append_assoc], h3, h4⟩
  | .seq l, d, s, hd, hf => by
    rw [fits] at hf
    simp only [Bool.and_eq_true, decide_eq_true_eq] at hf
    rw [ser, text]
    have hl : (s.start c "[".toList).level = s.level + 1 := start_level (by omega)
    have := elems_agrees hc l (d := d - 1) (s := s.start c "[".toList) (ch := '[') (first := true) (by simp)
      (by rw [hl]; omega) hf.2 (by simp [First, Ser.start, Ser.put, Ser.push]) (by simp [Ser.start, Ser.put])
    rw [start_nums, Nat.sub_zero] at this
    exact whole_list (a := "[".toList) (f := serElems c '[' l) (by omega) this
  | .tuple name l, d, s, hd, hf => by
    rw [fits] at hf
    simp only [Bool.and_eq_true, decide_eq_true_eq] at hf
    rw [ser, text]
    have hl : (s.start c (name ++ "(".toList)).level = s.level + 1 := start_level (by omega)
    have := elems_agrees hc l (d := d - 1) (s := s.start c (name ++ "(".toList)) (ch := '(') (first := true) (by simp)
      (by rw [hl]; omega) hf.2 (by simp [First, Ser.start, Ser.put, Ser.push]) (by simp [Ser.start, Ser.put])
    rw [start_nums, Nat.sub_zero] at this
    exact whole_list (f := serElems c '(' l) (by omega) this
  | .map l, d, s, hd, hf => by
    rw [fits] at hf
    simp only [Bool.and_eq_true, decide_eq_true_eq] at hf
    rw [ser, text]
    have hl : (s.start c "{".toList).level = s.level + 1 := start_level (by omega)
    have := entries_agrees hc l (d := d - 1) (s := s.start c "{".toList) (first := true)
      (by rw [hl]; omega) hf.2 (by simp [First, Ser.start, Ser.put, Ser.push]) (by simp [Ser.start, Ser.put])
    rw [start_nums, Nat.sub_zero] at this
    exact whole_list (f := serEntries c l) (by omega) this
  | .struct name l, d, s, hd, hf => by
    rw [fits] at hf
    simp only [Bool.and_eq_true, decide_eq_true_eq] at hf
    rw [ser, text]
    have hl : (s.start c (structName name ++ "(".toList)).level = s.level + 1 := start_level (by omega)
    have := fields_agrees hc l (d := d - 1) (s := s.start c (structName name ++ "(".toList)) (noType := true) (first := true)
      (by rw [hl]; omega) hf.2.2 (by simp [First, Ser.start, Ser.put, Ser.push]) (fun _ => .inr ⟨rfl, hf.2.1⟩)
    exact whole_fields (f := serFields c true l) (by omega) this
  | .variant name l, d, s, hd, hf => by
    rw [fits] at hf
    simp only [Bool.and_eq_true, decide_eq_true_eq] at hf
    rw [ser, text]
    have hl : (s.start c (name ++ "(".toList)).level = s.level + 1 := start_level (by omega)
    have := fields_agrees hc l (d := d - 1) (s := s.start c (name ++ "(".toList)) (noType := false) (first := true)
      (by rw [hl]; omega) hf.2 (by simp [First, Ser.start, Ser.put, Ser.push]) (fun h => by cases h)
    exact whole_fields (f := serFields c false l) (by omega) this

theorem elems_agrees {c : SCfg} (hc : 1 ≤ c.maxElements) : ∀ (l : SList) {d : Nat} {s : Ser} {ch : Char} {first : Bool},
    (ch = '(' ∨ ch = '[' ∨ ch = '{') → s.level + d ≤ c.maxDepth - 1 → fitsList d l = true → First s ch first →
    s.nums s.level ≤ c.maxElements - 1 →
    Inside s (serElems c ch l s) ((elemTexts c (c.maxElements - 1 - s.nums s.level) l).map fun ts =>
      joined first ts ++ if c.maxElements - 1 - s.nums s.level < l.size then ", ...".toList else [])
  | .nil, d, s, ch, first, _, _, _, _, _ => by
    have : ∀ n, elemTexts c n .nil = some [] := fun n => by cases n <;> rw [elemTexts]
    rw [this, serElems]
    exact ⟨s, rfl, by simp [joined_nil, SList.size], rfl, fun _ _ => rfl⟩
  | .cons v l, d, s, ch, first, hch, hd, hf, hfirst, hk => by
    rw [fitsList, Bool.and_eq_true] at hf
    rw [serElems, bump_nums]
    by_cases hlt : s.nums s.level + 1 < c.maxElements
    · obtain ⟨m, hm⟩ : ∃ m, c.maxElements - 1 - s.nums s.level = m + 1 := ⟨c.maxElements - 2 - s.nums s.level, by omega⟩
      rw [if_pos hlt, hm, elemTexts, comma_out (s := s.bump) (first := first) hfirst]
      have hv := ser_agrees hc v (s := s.bump.push (if first then [] else ", ".toList)) hd hf.1
      cases ht : text c v with
      | none =>
        rw [ht] at hv
        rw [show ser c v _ = none from hv]
        rfl
      | some t =>
        rw [ht] at hv
        obtain ⟨s2, h1, h2, h3, h4⟩ := hv
        have h3 : s2.level = s.level := h3
        have h5 : s2.nums s2.level = s.nums s.level + 1 := by
          rw [h3, h4 s.level (Nat.le_refl _)]; exact bump_nums s
        rw [h1]
        have ih := elems_agrees hc l (d := d) (s := s2) (ch := ch) (first := false) hch (by rw [h3]; exact hd) hf.2
          (first_closed h2 (text_closed v ht) hch) (by rw [h5]; omega)
        rw [h5, show c.maxElements - 1 - (s.nums s.level + 1) = m by omega] at ih
        have := Inside.shift (s0 := s) (p := (if first then [] else ", ".toList) ++ t)
          (by rw [h2]; simp [Ser.push, Ser.bump, Ser.put]) h3
          (fun i hi => by rw [h4 i (Nat.le_of_lt hi)]; exact bump_other s hi) ih
        simp only [Option.bind_some]
        rw [Option.map_map] at this
        rw [Option.map_map]
        refine (congrArg (Inside s _) ?_).mp this
        congr 1
        funext ts
        simp only [Function.comp, joined_cons, SList.size, Nat.add_lt_add_iff_right]
        cases first <;> simp [List.append_assoc]
    · rw [if_neg hlt, show c.maxElements - 1 - s.nums s.level = 0 by omega, elemTexts]
      have hsk : s.bump.skip c = s.bump.push ", ...".toList := by
        unfold Ser.skip
        show (if s.bump.nums s.level = _ then _ else _) = _
        rw [bump_nums, if_pos (by omega)]
      rw [hsk]
      have := Inside.shift (s0 := s) (s := s.bump.push ", ...".toList) (p := ", ...".toList) rfl rfl
        (fun i hi => bump_other s hi) (skip_elems (c := c) (ch := ch) l (by show _ ≤ s.bump.nums s.level; rw [bump_nums]; omega))
      simpa [SList.size, joined_nil] using this

theorem entries_agrees {c : SCfg} (hc : 1 ≤ c.maxElements) : ∀ (l : SMap) {d : Nat} {s : Ser} {first : Bool},
    s.level + d ≤ c.maxDepth - 1 → fitsMap d l = true → First s '{' first →
    s.nums s.level ≤ c.maxElements - 1 →
    Inside s (serEntries c l s) ((entryTexts c (c.maxElements - 1 - s.nums s.level) l).map fun ts =>
      joined first ts ++ if c.maxElements - 1 - s.nums s.level < l.size then ", ...".toList else [])
  | .nil, d, s, first, _, _, _, _ => by
    have : ∀ n, entryTexts c n .nil = some [] := fun n => by cases n <;> rw [entryTexts]
    rw [this, serEntries]
    exact ⟨s, rfl, by simp [joined_nil, SMap.size], rfl, fun _ _ => rfl⟩
  | .cons k v l, d, s, first, hd, hf, hfirst, hk => by
    rw [fitsMap, Bool.and_eq_true, Bool.and_eq_true] at hf
    rw [serEntries, bump_nums]
    by_cases hlt : s.nums s.level + 1 < c.maxElements
    · obtain ⟨m, hm⟩ : ∃ m, c.maxElements - 1 - s.nums s.level = m + 1 := ⟨c.maxElements - 2 - s.nums s.level, by omega⟩
      rw [if_pos hlt, hm, entryTexts, comma_out (s := s.bump) (first := first) hfirst]
      have hkey := ser_agrees hc k (s := s.bump.push (if first then [] else ", ".toList)) hd hf.1
      cases hkt : text c k with
      | none =>
        rw [hkt] at hkey
        rw [show ser c k _ = none from hkey]
        rfl
      | some kt =>
        rw [hkt] at hkey
        obtain ⟨s1, g1, g2, g3, g4⟩ := hkey
        have g3 : s1.level = s.level := g3
        have g5 : s1.nums s1.level = s.nums s.level + 1 := by
          rw [g3, g4 s.level (Nat.le_refl _)]; exact bump_nums s
        rw [g1]
        simp only [Option.bind_some, g5, if_pos hlt]
        have hv := ser_agrees hc v (d := d) (s := s1.push ":".toList) (by show s1.level + d ≤ _; rw [g3]; exact hd) hf.2.1
        cases ht : text c v with
        | none =>
          rw [ht] at hv
          rw [show ser c v _ = none from hv]
          rfl
        | some t =>
          rw [ht] at hv
          obtain ⟨s2, h1, h2, h3, h4⟩ := hv
          have h3 : s2.level = s1.level := h3
          have h5 : s2.nums s2.level = s.nums s.level + 1 := by
            rw [h3, h4 s1.level (Nat.le_refl _)]; exact g5
          rw [h1]
          have ih := entries_agrees hc l (d := d) (s := s2) (first := false) (by rw [h3, g3]; exact hd) hf.2.2
            (first_closed h2 (text_closed v ht) (by simp)) (by rw [h5]; omega)
          rw [h5, show c.maxElements - 1 - (s.nums s.level + 1) = m by omega] at ih
          have := Inside.shift (s0 := s) (p := (if first then [] else ", ".toList) ++ (kt ++ ":".toList ++ t))
            (by rw [h2]; simp [Ser.push, g2, Ser.bump, Ser.put]) (h3.trans g3)
            (fun i hi => by
              rw [h4 i (by show i ≤ s1.level; omega)]
              show s1.nums i = _
              rw [g4 i (Nat.le_of_lt hi)]; exact bump_other s hi) ih
          simp only [Option.bind_some]
          rw [Option.map_map] at this
          rw [Option.map_map]
          refine (congrArg (Inside s _) ?_).mp this
          congr 1
          funext ts
          simp only [Function.comp, joined_cons, SMap.size, Nat.add_lt_add_iff_right]
          cases first <;> simp [List.append_assoc]
    · rw [if_neg hlt, show c.maxElements - 1 - s.nums s.level = 0 by omega, entryTexts]
      have hsk : s.bump.skip c = s.bump.push ", ...".toList := by
        unfold Ser.skip
        show (if s.bump.nums s.level = _ then _ else _) = _
        rw [bump_nums, if_pos (by omega)]
      rw [hsk]
      have := Inside.shift (s0 := s) (s := s.bump.push ", ...".toList) (p := ", ...".toList) rfl rfl
        (fun i hi => bump_other s hi) (skip_entries (c := c) l (by show _ ≤ s.bump.nums s.level; rw [bump_nums]; omega))
      simpa [SMap.size, joined_nil] using this

theorem fields_agrees {c : SCfg} (hc : 1 ≤ c.maxElements) : ∀ (l : SFields) {d : Nat} {s : Ser} {noType first : Bool},
    s.level + d ≤ c.maxDepth - 1 → fitsFields d l = true → First s '(' first →
    (noType = true → l.untyped = true ∨ (first = true ∧ l.typeFirst = true)) →
    Inside s (serFields c noType l s) ((fieldTexts c noType l).map fun ts => joined first ts)
  | .nil, d, s, noType, first, _, _, _, _ => by
    rw [fieldTexts, serFields]
    exact ⟨s, rfl, by simp [joined_nil], rfl, fun _ _ => rfl⟩
  | .cons name v l, d, s, noType, first, hd, hf, hfirst, hty => by
    rw [fitsFields, Bool.and_eq_true] at hf
    rw [serFields, fieldTexts, comma_out (first := first) hfirst]
    by_cases hn : noType = true ∧ name = "type".toList
    · rw [if_pos hn, if_pos hn]
      rcases hty hn.1 with h | ⟨rfl, h⟩
      · rw [SFields.untyped, Bool.and_eq_true] at h
        exact absurd hn.2 (of_decide_eq_true h.1)
      · have e : s.push (if true = true then [] else ", ".toList) = s := by simp [Ser.push]
        rw [e]
        exact fields_agrees hc l hd hf.2 hfirst (fun _ => .inl h)
    · rw [if_neg hn, if_neg hn]
      have hv := ser_agrees hc v (s := ((s.push (if first then [] else ", ".toList)).push name).push "=".toList) hd hf.1
      cases ht : text c v with
      | none =>
        rw [ht] at hv
        rw [show ser c v _ = none from hv]
        rfl
      | some t =>
        rw [ht] at hv
        obtain ⟨s2, h1, h2, h3, h4⟩ := hv
        have h3 : s2.level = s.level := h3
        rw [h1]
        have ih := fields_agrees hc l (d := d) (s := s2) (noType := noType) (first := false) (by rw [h3]; exact hd) hf.2
          (first_closed h2 (text_closed v ht) (by simp)) (fun h => .inl (by
            rcases hty h with k | ⟨_, k⟩
            · rw [SFields.untyped, Bool.and_eq_true] at k; exact k.2
            · exact k))
        have := Inside.shift (s0 := s) (p := (if first then [] else ", ".toList) ++ (name ++ "=".toList ++ t))
          (by rw [h2]; simp [Ser.push]) h3 (fun i hi => h4 i (Nat.le_of_lt hi)) ih
        simp only [Option.bind_some]
        rw [Option.map_map] at this
        rw [Option.map_map]
        refine (congrArg (Inside s _) ?_).mp this
        congr 1
        funext ts
        simp only [Function.comp, joined_cons]
        cases first <;> simp [List.append_assoc]
end

/-- **C90.** What `str` and `repr` write is the text of the value, which does not depend on any state: of sequences, tuples and maps
the first `max_elements - 1` elements; and it panics exactly if that text does not exist. -/
theorem C90_text {c : SCfg} (hc : 1 ≤ c.maxElements) {v : SVal} (hf : fits (c.maxDepth - 1) v = true) : printed c v = text c v := by
  have := ser_agrees hc v (d := c.maxDepth - 1) (s := ⟨[], fun _ => 0, 0⟩) (by simp) hf
  unfold printed
  cases ht : text c v with
  | none =>
    rw [ht] at this
    rw [show ser c v _ = none from this]
    rfl
  | some t =>
    rw [ht] at this
    obtain ⟨s', h1, h2, _⟩ := this
    rw [h1]
    simp [h2]

/-! ### When it panics -/

mutual
/-- The texts that are shown. -/
def shown (c : SCfg) : SVal → List Str
  | .atom _ _ => []
  | .str t => [t]
  | .newtype _ v => shown c v
  | .seq l => shownList c (c.maxElements - 1) l
  | .tuple _ l => shownList c (c.maxElements - 1) l
  | .map l => shownMap c (c.maxElements - 1) l
  | .struct _ l => shownFields c true l
  | .variant _ l => shownFields c false l

def shownList (c : SCfg) : Nat → SList → List Str
  | 0, _ => []
  | _ + 1, .nil => []
  | n + 1, .cons v l => shown c v ++ shownList c n l

def shownMap (c : SCfg) : Nat → SMap → List Str
  | 0, _ => []
  | _ + 1, .nil => []
  | n + 1, .cons k v l => shown c k ++ (shown c v ++ shownMap c n l)

def shownFields (c : SCfg) (noType : Bool) : SFields → List Str
  | .nil => []
  | .cons name v l =>
    if noType = true ∧ name = "type".toList then shownFields c noType l else shown c v ++ shownFields c noType l
end

/-- A text longer than the limit, with a character across the limit. -/
def Uncut (c : SCfg) (t : Str) : Prop := ∃ n, c.maxString = some n ∧ n < blen t ∧ ∀ p q, t = p ++ q → blen p ≠ n

theorem quoted_none {c : SCfg} {t : Str} : quoted c t = none ↔ Uncut c t := by
  unfold quoted Uncut
  cases c.maxString with
  | none => simp
  | some n =>
    by_cases h : blen t ≤ n
    · simp only [if_pos h, reduceCtorEq, false_iff]
      rintro ⟨m, e, h1, _⟩
      cases e
      omega
    · simp only [if_neg h, Option.map_eq_none_iff]
      constructor
      · intro hn
        refine ⟨n, rfl, by omega, fun p q e hp => ?_⟩
        subst hp
        rw [e, takeBytes_append] at hn
        cases hn
      · rintro ⟨m, e, _, h2⟩
        cases e
        cases ht : takeBytes n t with
        | none => rfl
        | some p =>
          obtain ⟨q, h3, h4⟩ := takeBytes_eq_some ht
          exact absurd h4 (h2 p q h3)

theorem bind_none {α β : Type} {a : Option α} {f : α → Option β} {P Q : Prop} (h1 : a = none ↔ P)
    (h2 : ∀ x, f x = none ↔ Q) : a.bind f = none ↔ P ∨ Q := by
  cases a with
  | none => simp [← h1]
  | some x => simp [← h1, h2 x]

theorem exists_append {l l' : List Str} {P : Str → Prop} : (∃ t ∈ l ++ l', P t) ↔ (∃ t ∈ l, P t) ∨ ∃ t ∈ l', P t := by
  constructor
  · rintro ⟨t, h, hp⟩
    rcases List.mem_append.1 h with h | h
    · exact .inl ⟨t, h, hp⟩
    · exact .inr ⟨t, h, hp⟩
  · rintro (⟨t, h, hp⟩ | ⟨t, h, hp⟩)
    · exact ⟨t, List.mem_append_left _ h, hp⟩
    · exact ⟨t, List.mem_append_right _ h, hp⟩

mutual
theorem text_none {c : SCfg} : ∀ v : SVal, text c v = none ↔ ∃ t ∈ shown c v, Uncut c t
  | .atom t h => by rw [text, shown]; simp
  | .str t => by rw [text, shown, quoted_none]; simp
  | .newtype name v => by rw [text, shown, Option.map_eq_none_iff, text_none v]
  | .seq l => by rw [text, shown, Option.map_eq_none_iff, elemTexts_none l]
  | .tuple name l => by rw [text, shown, Option.map_eq_none_iff, elemTexts_none l]
  | .map l => by rw [text, shown, Option.map_eq_none_iff, entries_none l]
  | .struct name l => by rw [text, shown, Option.map_eq_none_iff, fields_none l]
  | .variant name l => by rw [text, shown, Option.map_eq_none_iff, fields_none l]

theorem elemTexts_none {c : SCfg} : ∀ (l : SList) {n : Nat}, elemTexts c n l = none ↔ ∃ t ∈ shownList c n l, Uncut c t
  | .nil, n => by cases n <;> rw [elemTexts, shownList] <;> simp
  | .cons v l, 0 => by rw [elemTexts, shownList]; simp
  | .cons v l, n + 1 => by
    rw [elemTexts, shownList, exists_append]
    exact bind_none (text_none v) fun t => by rw [Option.map_eq_none_iff, elemTexts_none l]

theorem entries_none {c : SCfg} : ∀ (l : SMap) {n : Nat}, entryTexts c n l = none ↔ ∃ t ∈ shownMap c n l, Uncut c t
  | .nil, n => by cases n <;> rw [entryTexts, shownMap] <;> simp
  | .cons k v l, 0 => by rw [entryTexts, shownMap]; simp
  | .cons k v l, n + 1 => by
    rw [entryTexts, shownMap, exists_append, exists_append]
    exact bind_none (text_none k) fun t => bind_none (text_none v) fun u => by rw [Option.map_eq_none_iff, entries_none l]

theorem fields_none {c : SCfg} : ∀ (l : SFields) {noType : Bool}, fieldTexts c noType l = none ↔
    ∃ t ∈ shownFields c noType l, Uncut c t
  | .nil, n => by rw [fieldTexts, shownFields]; simp
  | .cons name v l, noType => by
    rw [fieldTexts, shownFields]
    by_cases h : noType = true ∧ name = "type".toList
    · rw [if_pos h, if_pos h, fields_none l]
    · rw [if_neg h, if_neg h, exists_append]
      exact bind_none (text_none v) fun t => by rw [Option.map_eq_none_iff, fields_none l]
end

/-- **C90, panics.** `str` panics exactly if a text that is shown is longer than 100 bytes and has a character across the 100th;
`repr` never does. -/
theorem C90_panics {v : SVal} (hf : fits 19 v = true) :
    (printed strCfg v = none ↔ ∃ t ∈ shown strCfg v, 100 < blen t ∧ ∀ p q, t = p ++ q → blen p ≠ 100) := by
  rw [C90_text (c := strCfg) (by decide) hf, text_none]
  simp [Uncut, strCfg]

/-- **C90, panics.** The same, for `repr`. -/
theorem C90_repr {v : SVal} (hf : fits 199 v = true) : printed reprCfg v ≠ none := by
  rw [C90_text (c := reprCfg) (by decide) hf, Ne, text_none]
  simp [Uncut, reprCfg]

/-- The full claim. -/
def StrNeverPanics : Prop := ∀ v : SVal, fits 19 v = true → printed strCfg v ≠ none

/-- `normalizers.Prepend("a" + "é" * 50)`. -/
def samplePrepend : SVal :=
  .struct "Prepend".toList (.cons "type".toList (.str "Prepend".toList) (.cons "prepend".toList
    (.str ('a' :: List.replicate 50 'é')) .nil))

/-- **C90, violated.** `str(normalizers.Prepend("a" + "é" * 50))` panics. -/
theorem C90_str_panics : ¬ StrNeverPanics := fun h =>
  h samplePrepend (by decide +kernel) (by decide +kernel)

/-- Inside so many lists. -/
def wrapped : Nat → SVal → SVal
  | 0, v => v
  | n + 1, v => .seq (.cons (wrapped n v) .nil)

/-- A number. -/
def one : SVal := .atom "1".toList (by decide)

/-- `[1, 1, 1, [[], 1, 1, 1]]`. -/
def fourInFour : SVal :=
  .seq (.cons one (.cons one (.cons one (.cons (.seq (.cons (.seq .nil) (.cons one (.cons one (.cons one .nil))))) .nil))))

/-- Beyond the depth for which there are counts these get mixed up: of the four elements of the inner list only two are written, as
if there were more than five. (This is why the theorems speak of values nested at most 19 deep, or 199.) -/
theorem C90_deep : printed strCfg (wrapped 17 fourInFour) ≠ text strCfg (wrapped 17 fourInFour) ∧
    printed strCfg (wrapped 16 fourInFour) = text strCfg (wrapped 16 fourInFour) := by decide +kernel

/-- `str(pre_tokenizers.Sequence(..))` and so on: what the tests of the file expect, and a map with more than five entries. -/
example : printed strCfg samplePrepend = none ∧
    (printed reprCfg samplePrepend).map (fun t => t.take 12) = some "Prepend(prep".toList ∧
    printed strCfg (.struct "BPEHelper".toList (.cons "type".toList (.str "BPE".toList) (.cons "dropout".toList
      (.atom "None".toList (by decide)) (.cons "vocab".toList (.map
        (.cons (.str "a".toList) (.atom "0".toList (by decide)) (.cons (.str "b".toList) (.atom "1".toList (by decide))
        (.cons (.str "c".toList) (.atom "2".toList (by decide)) (.cons (.str "d".toList) (.atom "3".toList (by decide))
        (.cons (.str "e".toList) (.atom "4".toList (by decide)) (.cons (.str "f".toList) (.atom "5".toList (by decide))
        .nil))))))) .nil)))) =
      some "BPE(dropout=None, vocab={\"a\":0, \"b\":1, \"c\":2, \"d\":3, \"e\":4, ...})".toList := by decide +kernel

example : fits 19 samplePrepend = true ∧ fits 199 samplePrepend = true := by decide +kernel

end Tok.Py
