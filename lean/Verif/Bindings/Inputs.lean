import Verif.Tokenizer.Fast
import Verif.Tokenizer.Samples
import Verif.Text.Utf8

/-!
# C83: what Python passes to `encode`

Model of how the Python bindings take their inputs (`bindings/python/src/tokenizer.rs:267-476, 575-676`): texts, lists and tuples
of words, numpy arrays of words, and pairs of these; by the functions `encode` and `encode_batch` on the one hand, and by
`async_encode` and `async_encode_batch`, which have their own code for it, on the other.
-/

namespace Tok.Py

open Tokenizer

/-- A Python object, as far as the code looks at it: a `str`, a list, a tuple, a contiguous one-dimensional numpy array of strings
(`dtype='U…'`, so many characters wide) or of objects, or anything else. Strings have no lone surrogates (those are refused by
`extract`). -/
inductive Obj where
  | str (s : Str)
  | list (l : List Obj)
  | tuple (l : List Obj)
  | arrU (width : Nat) (l : List Str)
  | arrO (l : List Obj)
  | other

/-- `extract::<String>()`. -/
def asStr : Obj → Option Str
  | .str s => some s
  | _ => none

/-- `extract::<Vec<String>>()` of the objects of a list or tuple. -/
def strs (l : List Obj) : Option (List Str) := l.mapM asStr

/-- `extract::<Vec<Py<PyAny>>>()`: a list, tuple or array (PyO3 refuses a `str`); the elements of an array of strings are `str`s. -/
def elements : Obj → Option (List Obj)
  | .list l => some l
  | .tuple l => some l
  | .arrU _ l => some (l.map .str)
  | .arrO l => some l
  | _ => none

/-- A character in a numpy array of strings: its number in four bytes, in the order of the common machines. -/
def ucs4 (c : Char) : List UInt8 :=
  [UInt8.ofNat c.toNat, UInt8.ofNat (c.toNat / 256), UInt8.ofNat (c.toNat / 65536), UInt8.ofNat (c.toNat / 16777216)]

/-- A string in a numpy array of this width: its characters, and zeros in the rest. -/
def npBytes (width : Nat) (s : Str) : List UInt8 := s.flatMap ucs4 ++ List.replicate (4 * (width - s.length)) 0

/-- `PyArrayUnicode::extract` (`tokenizer.rs:287-350`): the bytes of each element are read as UTF-8. -/
def arrayUnicode : Obj → Option (List Str)
  | .arrU w l => l.mapM fun s => fromUtf8 (npBytes w s)
  | _ => none

/-- `PyArrayStr::extract` (`tokenizer.rs:359-375`). -/
def arrayStr : Obj → Option (List Str)
  | .arrO l => strs l
  | _ => none

/-- `PreTokenizedInputSequence::extract` (`tokenizer.rs:383-409`) and `extract_pretok_seq` (`tokenizer.rs:575-590`): they differ
in the exception only. -/
def preTokSeq (o : Obj) : Option (List Str) :=
  match arrayUnicode o with
  | some l => some l
  | none =>
    match arrayStr o with
    | some l => some l
    | none =>
      match o with
      | .list l => strs l
      | .tuple l => strs l
      | _ => none

/-- `TextInputSequence::extract` (`tokenizer.rs:267-279`) or the one for words. -/
def asInput (words : Bool) (o : Obj) : Option Input :=
  if words then (preTokSeq o).map .words else (asStr o).map .raw

/-- Two inputs. -/
def both (words : Bool) (a b : Obj) : Option (Input × Option Input) :=
  match asInput words a, asInput words b with
  | some x, some y => some (x, some y)
  | _, _ => none

/-- `TextEncodeInput::extract` (`tokenizer.rs:417-438`) and `PreTokenizedEncodeInput::extract` (`tokenizer.rs:445-470`), used by
`encode_batch` and `encode_batch_fast`; `none` is an exception. -/
def encodeInput (words : Bool) (o : Obj) : Option (Input × Option Input) :=
  match asInput words o with
  | some i => some (i, none)
  | none =>
    match elements o with
    | some [a, b] => both words a b
    | _ => none

/-- One item of `build_owned_encode_inputs` (`tokenizer.rs:592-647`), used by `async_encode_batch` and `async_encode_batch_fast`. -/
def ownedInput (words : Bool) (o : Obj) : Option (Input × Option Input) :=
  match o with
  | .tuple [a, b] => both words a b
  | .list [a, b] =>
    if words then both words a b
    else match asStr a, asStr b with
      | some _, some _ => both words a b
      | _, _ => (asInput words o).map (·, none)
  | _ => (asInput words o).map (·, none)

/-- The inputs of `encode` (`tokenizer.rs:1182-1207`) and of `async_encode` (`build_single_owned_encode_input`,
`tokenizer.rs:650-676`). -/
def singleInput (words : Bool) (o : Obj) (pair : Option Obj) : Option (Input × Option Input) :=
  match pair with
  | none => (asInput words o).map (·, none)
  | some p => both words o p

/-- `Tokenizer.encode` (`tokenizer.rs:1182-1217`): positions are counted in characters. Outer `none`: the input is refused. -/
def pyEncode (t : Tokenizer) (words : Bool) (o : Obj) (pair : Option Obj) (add : Bool) : Option (Except EncErr Encoding) :=
  (singleInput words o pair).map fun i => t.encodeAs .char i add

/-- `Tokenizer.async_encode` (`tokenizer.rs:1249-1274`): it calls `encode`, which counts in bytes. -/
def pyAsyncEncode (t : Tokenizer) (words : Bool) (o : Obj) (pair : Option Obj) (add : Bool) : Option (Except EncErr Encoding) :=
  (singleInput words o pair).map fun i => t.encodeAs .byte i add

/-- `Tokenizer.encode_batch` (`tokenizer.rs:1312-1337`). -/
def pyEncodeBatch (t : Tokenizer) (order : List Nat) (words : Bool) (l : List Obj) (add : Bool) :
    Option (Except EncErr (List Encoding)) :=
  (l.mapM (encodeInput words)).map fun is => t.encodeBatch order .char is add

/-- `Tokenizer.async_encode_batch` (`tokenizer.rs:1373-1399`). -/
def pyAsyncEncodeBatch (t : Tokenizer) (order : List Nat) (words : Bool) (l : List Obj) (add : Bool) :
    Option (Except EncErr (List Encoding)) :=
  (l.mapM (ownedInput words)).map fun is => t.encodeBatch order .char is add

/-! ## What is passed on -/

/-- A list, a tuple or an array of objects, all of them strings. -/
inductive IsWords (ws : List Str) : Obj → Prop
  | list : IsWords ws (.list (ws.map .str))
  | tuple : IsWords ws (.tuple (ws.map .str))
  | arr : IsWords ws (.arrO (ws.map .str))

theorem strs_map : ∀ ws : List Str, strs (ws.map .str) = some ws
  | [] => rfl
  | w :: ws => by
    have := strs_map ws
    unfold strs at this ⊢
    rw [List.map_cons, List.mapM_cons, this]; rfl

theorem preTokSeq_words {ws : List Str} {o : Obj} (h : IsWords ws o) : preTokSeq o = some ws := by
  cases h <;> simp [preTokSeq, arrayUnicode, arrayStr, strs_map]

/-- **C83, texts.** A `str` is a text; a tuple or list of two is a pair of texts; for the functions for one text, the batches and
the asynchronous ones alike. -/
theorem C83_text (s p : Str) :
    singleInput false (.str s) none = some (.raw s, none) ∧
    singleInput false (.str s) (some (.str p)) = some (.raw s, some (.raw p)) ∧
    (∀ f ∈ [encodeInput, ownedInput], f false (.str s) = some (.raw s, none) ∧
      f false (.tuple [.str s, .str p]) = some (.raw s, some (.raw p)) ∧
      f false (.list [.str s, .str p]) = some (.raw s, some (.raw p))) := by
  refine ⟨rfl, rfl, ?_⟩
  intro f hf
  simp only [List.mem_cons, List.not_mem_nil, or_false] at hf
  rcases hf with rfl | rfl <;> exact ⟨rfl, rfl, rfl⟩

/-- **C83, words.** A list, tuple or array of objects, all strings, is passed on as these words; two of them in a tuple or list
are a pair. -/
theorem C83_words {ws vs : List Str} {o p : Obj} (ho : IsWords ws o) (hp : IsWords vs p) :
    singleInput true o none = some (.words ws, none) ∧
    singleInput true o (some p) = some (.words ws, some (.words vs)) ∧
    encodeInput true o = some (.words ws, none) ∧
    (∀ f ∈ [encodeInput, ownedInput],
      f true (.tuple [o, p]) = some (.words ws, some (.words vs)) ∧
      f true (.list [o, p]) = some (.words ws, some (.words vs))) := by
  have h1 := preTokSeq_words ho
  have h2 := preTokSeq_words hp
  have hb : both true o p = some (.words ws, some (.words vs)) := by simp [both, asInput, h1, h2]
  have hs : strs [o, p] = none := by cases ho <;> rfl
  refine ⟨by simp [singleInput, asInput, h1], hb, by simp [encodeInput, asInput, h1], ?_⟩
  intro f hf
  simp only [List.mem_cons, List.not_mem_nil, or_false] at hf
  rcases hf with rfl | rfl
  · constructor <;>
      simp only [encodeInput, asInput, preTokSeq, arrayUnicode, arrayStr, hs, elements, hb, if_true, Option.map_none]
  · constructor <;> simp [ownedInput, hb]

/-- The objects for which the batch functions and the asynchronous ones disagree: arrays, and two words. -/
def Odd (words : Bool) : Obj → Prop
  | .arrU _ _ => True
  | .arrO _ => True
  | .list [.str _, .str _] => words = true
  | .tuple [.str _, .str _] => words = true
  | _ => False

theorem both_none {words : Bool} {a b : Obj} (h : words = true) (hh : (∃ s, a = .str s) ∨ ∃ s, b = .str s) :
    both words a b = none := by
  subst h
  rcases hh with ⟨s, rfl⟩ | ⟨s, rfl⟩
  · simp [both, asInput, preTokSeq, arrayUnicode, arrayStr]
  · cases h : asInput true a <;> simp [both, asInput, preTokSeq, arrayUnicode, arrayStr]

theorem asStr_eq_some {o : Obj} {s : Str} (h : asStr o = some s) : o = .str s := by
  cases o <;> simp [asStr] at h; rw [h]

theorem strs_two {a b : Obj} {ws : List Str} (h : strs [a, b] = some ws) : ∃ s t, a = .str s ∧ b = .str t := by
  unfold strs at h
  simp only [List.mapM_cons, List.mapM_nil, Option.pure_def, Option.bind_eq_bind, Option.bind_eq_some_iff] at h
  obtain ⟨s, h1, x, ⟨t, h2, _⟩, _⟩ := h
  exact ⟨s, t, asStr_eq_some h1, asStr_eq_some h2⟩

/-- What both do with two objects in a list or tuple that are not two words. -/
theorem two_same {words : Bool} {a b : Obj} (hodd : words = true → ∀ s t, ¬ (a = .str s ∧ b = .str t)) :
    encodeInput words (.tuple [a, b]) = both words a b ∧ encodeInput words (.list [a, b]) = both words a b := by
  have hs : ∀ o, (o = .tuple [a, b] ∨ o = .list [a, b]) → asInput words o = none := by
    intro o ho
    cases words with
    | false => rcases ho with rfl | rfl <;> rfl
    | true =>
      cases hx : strs [a, b] with
      | none => rcases ho with rfl | rfl <;> simp [asInput, preTokSeq, arrayUnicode, arrayStr, hx]
      | some ws =>
        obtain ⟨s, t, h1, h2⟩ := strs_two hx
        exact absurd ⟨h1, h2⟩ (hodd rfl s t)
  constructor
  · simp only [encodeInput, hs _ (.inl rfl), elements]
  · simp only [encodeInput, hs _ (.inr rfl), elements]

/-- **C83, `_partial`.** Except for arrays and for exactly two words (see `C83_two_words`, `C83_array_pair`), the asynchronous batch
functions take every object as the others do. -/
theorem C83_async_inputs_partial (words : Bool) (o : Obj) (h : ¬ Odd words o) : ownedInput words o = encodeInput words o := by
  have single : ∀ o, (∀ a b, elements o ≠ some [a, b]) → (asInput words o).map (·, none) = encodeInput words o := by
    intro o ho
    unfold encodeInput
    cases asInput words o with
    | some i => rfl
    | none =>
      match he : elements o with
      | none => rfl
      | some [] => rfl
      | some [_] => rfl
      | some [a, b] => exact absurd he (ho a b)
      | some (_ :: _ :: _ :: _) => rfl
  have hodd : ∀ a b, (o = .tuple [a, b] ∨ o = .list [a, b]) → words = true → ∀ s t, ¬ (a = .str s ∧ b = .str t) := by
    rintro a b (rfl | rfl) hw s t ⟨rfl, rfl⟩ <;> exact h hw
  match o, h, hodd with
  | .str s, _, _ => exact single _ (by simp [elements])
  | .other, _, _ => exact single _ (by simp [elements])
  | .arrU _ _, h, _ => exact absurd trivial h
  | .arrO _, h, _ => exact absurd trivial h
  | .tuple [a, b], _, hodd => rw [(two_same (hodd a b (.inl rfl))).1]; rfl
  | .tuple [], _, _ => exact single _ (by simp [elements])
  | .tuple [_], _, _ => exact single _ (by simp [elements])
  | .tuple (_ :: _ :: _ :: _), _, _ => exact single _ (by simp [elements])
  | .list [], _, _ => exact single _ (by simp [elements])
  | .list [_], _, _ => exact single _ (by simp [elements])
  | .list (_ :: _ :: _ :: _), _, _ => exact single _ (by simp [elements])
  | .list [a, b], _, hodd =>
    rw [(two_same (hodd a b (.inr rfl))).2]
    unfold ownedInput
    cases hw : words with
    | true => rfl
    | false =>
      simp only [Bool.false_eq_true, if_false]
      cases ha : asStr a with
      | none => simp only [both, asInput, ha, Bool.false_eq_true, if_false, Option.map_none]; rfl
      | some x =>
        cases hb : asStr b with
        | none => simp only [both, asInput, ha, hb, Bool.false_eq_true, if_false, Option.map_none, Option.map_some]; rfl
        | some y => rfl

/-- **C83, `_partial`.** Without such objects `async_encode_batch` is `encode_batch`. -/
theorem C83_async_batch_partial (t : Tokenizer) (order : List Nat) (words : Bool) (l : List Obj) (add : Bool)
    (h : ∀ o ∈ l, ¬ Odd words o) : pyAsyncEncodeBatch t order words l add = pyEncodeBatch t order words l add := by
  have : l.mapM (ownedInput words) = l.mapM (encodeInput words) := by
    induction l with
    | nil => rfl
    | cons o l ih =>
      rw [List.mapM_cons, List.mapM_cons, C83_async_inputs_partial words o (h o (by simp)), ih fun o ho => h o (by simp [ho])]
  unfold pyAsyncEncodeBatch pyEncodeBatch
  rw [this]

/-- **C83 fails** for exactly two words: `async_encode_batch` refuses the item `["my", "name"]` (it takes it for a pair), which
`encode_batch` encodes. -/
theorem C83_two_words (a b : Str) : encodeInput true (.list [.str a, .str b]) = some (.words [a, b], none) ∧
    ownedInput true (.list [.str a, .str b]) = none ∧ ownedInput true (.tuple [.str a, .str b]) = none := by
  refine ⟨?_, ?_, ?_⟩
  · have := strs_map [a, b]
    simp only [List.map_cons, List.map_nil] at this
    simp [encodeInput, asInput, preTokSeq, arrayUnicode, arrayStr, this]
  · exact both_none (b := .str b) rfl (.inl ⟨a, rfl⟩)
  · exact both_none (b := .str b) rfl (.inl ⟨a, rfl⟩)

/-- **C83 fails** for a pair of texts in an array: taken by `encode_batch`, refused by `async_encode_batch`. -/
theorem C83_array_pair (w : Nat) (a b : Str) : encodeInput false (.arrU w [a, b]) = some (.raw a, some (.raw b)) ∧
    ownedInput false (.arrU w [a, b]) = none := ⟨rfl, rfl⟩

/-! ## `encode` and `async_encode` -/

/-- **C83, `_partial`.** `async_encode` and `encode` refuse the same inputs, fail together, and give the same ids, special mask,
attention mask and sequence ranges, also in what overflows. The offsets differ (`C83_async_offsets`). -/
theorem C83_async_encode_partial (t : Tokenizer) (words : Bool) (o : Obj) (pair : Option Obj) (add : Bool) :
    (pyEncode t words o pair add = none ↔ pyAsyncEncode t words o pair add = none) ∧
    (∀ er, pyEncode t words o pair add = some (.error er) ↔ pyAsyncEncode t words o pair add = some (.error er)) ∧
    ∀ e, pyEncode t words o pair add = some (.ok e) → ∃ e', pyAsyncEncode t words o pair add = some (.ok e') ∧
      SameIds e e' := by
  unfold pyEncode pyAsyncEncode
  cases singleInput words o pair with
  | none => simp
  | some i =>
    obtain ⟨h1, h2⟩ := C48_fast t .char i add
    obtain ⟨h3, h4⟩ := C48_fast t .byte i add
    simp only [Option.map_some, Option.some.injEq, reduceCtorEq, true_and]
    refine ⟨fun er => (h1 er).trans (h3 er).symm, fun e he => ?_⟩
    obtain ⟨f, hf, hs⟩ := h2 e he
    cases hx : t.encodeAs .byte i add with
    | error er => rw [(h3 er).1 hx] at hf; cases hf
    | ok e' =>
      obtain ⟨f', hf', hs'⟩ := h4 e' hx
      rw [hf] at hf'
      cases hf'
      refine ⟨e', rfl, ?_⟩
      unfold SameIds at *
      rw [hs, hs']

/-- A tokenizer that makes one token of a text. -/
def wholeSample : Tokenizer :=
  plain ⟨fun _ => none, fun _ => none, 0⟩ [] fun s => .ok [⟨1, s, (0, blen s)⟩]

/-- **C83 fails** for the offsets of `async_encode`: they count bytes, those of `encode` characters, as Python does. -/
theorem C83_async_offsets : ∃ e e', pyEncode wholeSample false (.str "é".toList) none false = some (.ok e) ∧
    pyAsyncEncode wholeSample false (.str "é".toList) none false = some (.ok e') ∧
    e.offsets = [(0, 1)] ∧ e'.offsets = [(0, 2)] :=
  ⟨_, _, rfl, rfl, by decide +kernel, by decide +kernel⟩

/-! ## numpy arrays of strings -/

theorem encodeChar_small {c : Char} (h : c.toNat < 128) : String.utf8EncodeChar c = [UInt8.ofNat c.toNat] := by
  have hv : c.val.toNat < 128 := h
  unfold String.utf8EncodeChar
  simp only
  rw [if_pos (by omega)]
  rfl

/-- In four bytes of UTF-8 the last is not 0. -/
theorem encodeChar_four {c : Char} (h : c.utf8Size = 4) : ∀ a b d, String.utf8EncodeChar c ≠ [a, b, d, 0] := by
  intro a b d he
  have hv : 65535 < c.val.toNat := by
    have h1 := encodeChar_length c
    unfold String.utf8EncodeChar at h1
    simp only at h1
    split at h1
    · simp at h1; omega
    · split at h1
      · simp at h1; omega
      · split at h1
        · simp at h1; omega
        · rename_i h; omega
  unfold String.utf8EncodeChar at he
  simp only at he
  rw [if_neg (by omega), if_neg (by omega), if_neg (by omega)] at he
  simp only [List.cons.injEq, and_true] at he
  have h4 := congrArg UInt8.toNat he.2.2.2
  simp only [UInt8.toNat_ofNat'] at h4
  have : (c.val.toNat % 64 + 128) % 256 = 0 := by simpa using h4
  omega

theorem blen_le_four (s : Str) : blen s ≤ 4 * s.length := by
  induction s with
  | nil => simp
  | cons c s ih =>
    have := c.utf8Size_le_four
    simp only [blen_cons, List.length_cons]; omega

theorem strBytes_length (s : Str) : (strBytes s).length = blen s := by
  induction s with
  | nil => rfl
  | cons c s ih => rw [strBytes_cons, List.length_append, encodeChar_length, ih, blen_cons]

/-- **C83 fails for numpy arrays of strings, always**: whatever text is in an element, what is passed on for it (if anything) is a
different text. -/
theorem C83_numpy_never_right {w : Nat} (hw : 0 < w) {s : Str} (hs : s.length ≤ w) : fromUtf8 (npBytes w s) ≠ some s := by
  intro h
  rw [fromUtf8_eq_some] at h
  have hlen := congrArg List.length h
  rw [strBytes_length] at hlen
  have hu : (s.flatMap ucs4).length = 4 * s.length := by
    clear h hlen hs
    induction s with
    | nil => rfl
    | cons c s ih => rw [List.flatMap_cons, List.length_append, ih, List.length_cons]; simp [ucs4]; omega
  rw [npBytes, List.length_append, hu, List.length_replicate] at hlen
  have h4 := blen_le_four s
  match s, hs, hlen, h4, h with
  | [], hs, hlen, h4, h => simp at hlen; omega
  | c :: s, hs, hlen, h4, h =>
    have hc : c.utf8Size = 4 := by
      have h1 := blen_le_four s
      have h2 := c.utf8Size_le_four
      simp only [blen_cons, List.length_cons] at hlen h4 hs
      omega
    rw [strBytes_cons, npBytes, List.flatMap_cons, List.append_assoc] at h
    have he := (List.append_inj h (by rw [encodeChar_length, hc]; rfl)).1
    have hlt : c.toNat < 1114112 := by
      have hv := c.valid
      unfold UInt32.isValidChar Nat.isValidChar at hv
      show c.val.toNat < 1114112
      omega
    have : c.toNat / 16777216 = 0 := by omega
    unfold ucs4 at he
    rw [this] at he
    exact encodeChar_four hc _ _ _ he

/-- So the words of such an array are never passed on. -/
theorem C83_numpy_words {w : Nat} (hw : 0 < w) {l : List Str} (hne : l ≠ []) (hl : ∀ s ∈ l, s.length ≤ w) :
    preTokSeq (.arrU w l) ≠ some l ∧ encodeInput true (.arrU w l) ≠ some (.words l, none) ∧
      ownedInput true (.arrU w l) ≠ some (.words l, none) := by
  have h1 : preTokSeq (.arrU w l) ≠ some l := by
    intro h
    have h2 : l.mapM (fun s => fromUtf8 (npBytes w s)) = some l := by
      unfold preTokSeq arrayUnicode arrayStr at h
      simp only at h
      cases hx : l.mapM (fun s => fromUtf8 (npBytes w s)) with
      | none => rw [hx] at h; simp at h
      | some r => rw [hx] at h; simpa using h
    match l, hne, hl, h2 with
    | s :: l, _, hl, h2 =>
      simp only [List.mapM_cons, Option.pure_def, Option.bind_eq_bind, Option.bind_eq_some_iff, Option.some.injEq,
        List.cons.injEq] at h2
      obtain ⟨s', h3, _, _, h4, _⟩ := h2
      subst h4
      exact C83_numpy_never_right hw (hl _ (by simp)) h3
  have h3 : asInput true (.arrU w l) ≠ some (.words l) := by
    intro h
    simp only [asInput, if_true, Option.map_eq_some_iff, Input.words.injEq] at h
    obtain ⟨r, h, rfl⟩ := h
    exact h1 h
  refine ⟨h1, ?_, ?_⟩
  · unfold encodeInput
    cases hx : asInput true (.arrU w l) with
    | some i =>
      intro h
      simp only [Option.some.injEq, Prod.mk.injEq, and_true] at h
      subst h; exact h3 hx
    | none =>
      simp only
      match l with
      | [a, b] => simp [elements, both, asInput, preTokSeq, arrayUnicode, arrayStr]
      | [] => simp [elements]
      | [_] => simp [elements]
      | _ :: _ :: _ :: _ => simp [elements]
  · unfold ownedInput
    intro h
    simp only [Option.map_eq_some_iff, Prod.mk.injEq, and_true] at h
    obtain ⟨i, h, rfl⟩ := h
    exact h3 h

/-- **C83, exactly what numpy arrays of ASCII strings give**: three NUL characters after every character, and four for every
missing one. -/
theorem C83_numpy_ascii {w : Nat} {s : Str} (hs : ∀ c ∈ s, c.toNat < 128) :
    fromUtf8 (npBytes w s) = some (s.flatMap (fun c => [c, '\x00', '\x00', '\x00']) ++
      List.replicate (4 * (w - s.length)) '\x00') := by
  rw [fromUtf8_eq_some, strBytes_append, npBytes]
  have hz : String.utf8EncodeChar '\x00' = [0] := by decide
  have h1 : ∀ n, strBytes (List.replicate n '\x00') = List.replicate n 0 := by
    intro n
    induction n with
    | zero => rfl
    | succ n ih => rw [List.replicate_succ, List.replicate_succ, strBytes_cons, ih, hz]; rfl
  rw [h1]
  congr 1
  induction s with
  | nil => rfl
  | cons c s ih =>
    rw [List.flatMap_cons, List.flatMap_cons, strBytes_append, ih fun c hc => hs c (by simp [hc])]
    congr 1
    have hc := hs c (by simp)
    simp only [strBytes_cons, strBytes_nil, encodeChar_small hc, hz, ucs4]
    have e1 : c.toNat / 256 = 0 := by omega
    have e2 : c.toNat / 65536 = 0 := by omega
    have e3 : c.toNat / 16777216 = 0 := by omega
    rw [e1, e2, e3]
    rfl

/-- So a normalizer that removes NUL characters (as Bert's does) hides it, for ASCII. -/
theorem C83_numpy_cleaned {w : Nat} {s t : Str} (hs : ∀ c ∈ s, c.toNat < 128 ∧ c ≠ '\x00')
    (h : fromUtf8 (npBytes w s) = some t) : t.filter (· != '\x00') = s := by
  rw [C83_numpy_ascii fun c hc => (hs c hc).1] at h
  cases h
  rw [List.filter_append]
  have h2 : (List.replicate (4 * (w - s.length)) '\x00').filter (· != '\x00') = [] := by
    rw [List.filter_eq_nil_iff]; intro a ha; simp at ha; simp [ha.2]
  rw [h2, List.append_nil]
  clear h2
  induction s with
  | nil => rfl
  | cons c s ih =>
    have hc := (hs c (by simp)).2
    have hb : (c != '\x00') = true := by simpa using hc
    rw [List.flatMap_cons, List.filter_append, ih fun c hc => hs c (by simp [hc])]
    simp [hb]

example : preTokSeq (.arrU 2 ["a".toList, "bc".toList])
    = some ["a\x00\x00\x00\x00\x00\x00\x00".toList, "b\x00\x00\x00c\x00\x00\x00".toList] := by decide +kernel

/-- A character beyond ASCII mostly makes the array be refused. -/
example : preTokSeq (.arrU 1 ["é".toList]) = none := by decide +kernel

end Tok.Py
