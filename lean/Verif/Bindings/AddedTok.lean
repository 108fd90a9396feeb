import Verif.Bindings.Settings
import Verif.Added.Vocab

/-!
# C88: `AddedToken` in Python

`bindings/python/src/tokenizer.rs:64-268` and `add_tokens`, `add_special_tokens` (`:1678-1737`): settings that were not given
are decided late, when the token is used. Node: `bindings/node/src/tokenizer.rs:140-180, 258-300, 376-386`.
-/

namespace Tok.Py

/-- `PyAddedToken` (`tokenizer.rs:65-72`). -/
structure PyToken where
  content : Str
  special : Bool := false
  singleWord : Option Bool := none
  lstrip : Option Bool := none
  rstrip : Option Bool := none
  normalized : Option Bool := none
deriving DecidableEq

/-- `extract::<bool>`. -/
def PyVal.asBool : PyVal → Option Bool
  | .bool b => some b
  | _ => Option.none

/-- `get_token` (`tokenizer.rs:85-102`). -/
def PyToken.get (t : PyToken) : AddedToken :=
  let x := AddedToken.ofStr t.content t.special
  let x := match t.singleWord with | some b => { x with singleWord := b } | none => x
  let x := match t.lstrip with | some b => { x with lstrip := b } | none => x
  let x := match t.rstrip with | some b => { x with rstrip := b } | none => x
  match t.normalized with | some b => { x with normalized := b } | none => x

/-- `From<tk::AddedToken>` (`tokenizer.rs:119-130`), used by `get_added_tokens_decoder`. -/
def PyToken.ofAdded (x : AddedToken) : PyToken :=
  { content := x.content, special := x.special, singleWord := some x.singleWord, lstrip := some x.lstrip, rstrip := some x.rstrip,
    normalized := some x.normalized }

/-- One keyword argument of the constructor (`tokenizer.rs:142-154`). -/
def newStep (t : PyToken) (kv : Str × PyVal) : Option PyToken :=
  if kv.1 = "single_word".toList then kv.2.asBool.map fun b => { t with singleWord := some b }
  else if kv.1 = "lstrip".toList then kv.2.asBool.map fun b => { t with lstrip := some b }
  else if kv.1 = "rstrip".toList then kv.2.asBool.map fun b => { t with rstrip := some b }
  else if kv.1 = "normalized".toList then kv.2.asBool.map fun b => { t with normalized := some b }
  else if kv.1 = "special".toList then kv.2.asBool.map fun b => { t with special := b }
  else some t

/-- `__new__` (`tokenizer.rs:139-157`); `none` is an exception. -/
def PyToken.new (content : Option Str) (kw : Kwargs) : Option PyToken := kw.foldlM newStep { content := content.getD [] }

/-- `__getstate__` (`tokenizer.rs:104-116, 159-161`). -/
def PyToken.getState (t : PyToken) : Kwargs :=
  [("content".toList, .str t.get.content), ("single_word".toList, .bool t.get.singleWord), ("lstrip".toList, .bool t.get.lstrip),
   ("rstrip".toList, .bool t.get.rstrip), ("normalized".toList, .bool t.get.normalized), ("special".toList, .bool t.get.special)]

/-- One entry of the state (`tokenizer.rs:166-177`). -/
def setStateStep (t : PyToken) (kv : Str × PyVal) : Option PyToken :=
  if kv.1 = "content".toList then kv.2.asStr.map fun s => { t with content := s }
  else if kv.1 = "single_word".toList then kv.2.asBool.map fun b => { t with singleWord := some b }
  else if kv.1 = "lstrip".toList then kv.2.asBool.map fun b => { t with lstrip := some b }
  else if kv.1 = "rstrip".toList then kv.2.asBool.map fun b => { t with rstrip := some b }
  else if kv.1 = "normalized".toList then kv.2.asBool.map fun b => { t with normalized := some b }
  else if kv.1 = "special".toList then kv.2.asBool.map fun b => { t with special := b }
  else some t

/-- `__setstate__` (`tokenizer.rs:163-183`). -/
def PyToken.setState (t : PyToken) (kw : Kwargs) : Option PyToken := kw.foldlM setStateStep t

/-- `pickle` and `copy`: a token without arguments gets the state (`object.__reduce_ex__`). -/
def PyToken.copied (t : PyToken) : Option PyToken := (PyToken.new none []).bind fun blank => blank.setState t.getState

/-- The setter of `special` (`tokenizer.rs:227-229`). -/
def PyToken.setSpecial (t : PyToken) (b : Bool) : PyToken := { t with special := b }

/-- An element of the list given to `add_tokens` or `add_special_tokens`. -/
inductive TokArg where
  | text (s : Str)
  | token (t : PyToken)
  | other

/-- `add_tokens` (`tokenizer.rs:1679-1692`), one element: the token that is added. -/
def plainArg : TokArg → Option AddedToken
  | .text s => some (PyToken.get { content := s, special := false })
  | .token t => some t.get
  | .other => none

/-- `add_special_tokens` (`tokenizer.rs:1715-1729`), one element: the token that is added, and the object afterwards. -/
def specialArg : TokArg → Option (AddedToken × TokArg)
  | .text s => some (AddedToken.ofStr s true, .text s)
  | .token t => some ((t.setSpecial true).get, .token (t.setSpecial true))
  | .other => none

/-! ## The spec -/

/-- A token as the documentation describes it: what was not given is `false`, but a token is normalized unless it is
special. -/
def documented (t : PyToken) : AddedToken :=
  { content := t.content, singleWord := t.singleWord.getD false, lstrip := t.lstrip.getD false, rstrip := t.rstrip.getD false,
    normalized := t.normalized.getD (!t.special), special := t.special }

theorem get_eq (t : PyToken) : t.get = documented t := by
  obtain ⟨c, s, a, b, d, e⟩ := t
  cases a <;> cases b <;> cases d <;> cases e <;> rfl

/-- **C88.** The token of a Python object is the documented one; a token read from a tokenizer is the one that is there. -/
theorem C88_token (t : PyToken) (x : AddedToken) : t.get = documented t ∧ (PyToken.ofAdded x).get = x :=
  ⟨get_eq t, by rw [get_eq]; rfl⟩

/-- The copy. -/
theorem copied_eq (t : PyToken) : t.copied = some (PyToken.ofAdded t.get) := rfl

/-- **C88, copies.** A copy exists, and all its getters, its text, equality and hash (all functions of `get`), and what
`add_tokens` adds, are the same. -/
theorem C88_copy (t : PyToken) : ∃ t', t.copied = some t' ∧ t'.get = t.get ∧ plainArg (.token t') = plainArg (.token t) := by
  refine ⟨_, copied_eq t, (C88_token t _).2, ?_⟩
  show some _ = some _
  rw [(C88_token t t.get).2]

/-- **C88, violated: exactly when.** `add_special_tokens` adds the same for a copy exactly if `normalized` was given, or the
token was special: otherwise the copy has become one that is to be normalized, and stays so. -/
theorem C88_special_copy (t : PyToken) : ∃ t', t.copied = some t' ∧
    ((specialArg (.token t')).map (·.1) = (specialArg (.token t)).map (·.1) ↔ (t.normalized.isSome ∨ t.special = true)) := by
  refine ⟨_, copied_eq t, ?_⟩
  show some _ = some _ ↔ _
  rw [Option.some.injEq, get_eq, get_eq, get_eq]
  obtain ⟨c, s, a, b, d, e⟩ := t
  cases e with
  | some e => simp [documented, PyToken.setSpecial, PyToken.ofAdded]
  | none => cases s <;> simp [documented, PyToken.setSpecial, PyToken.ofAdded]

/-- The full claim. -/
def CopiesAreAlike : Prop := ∀ t t' : PyToken, t.copied = some t' →
  (specialArg (.token t')).map (·.1) = (specialArg (.token t)).map (·.1)

/-- **C88, violated.** `copy.copy(AddedToken("[CLS]"))` is added as a token to be normalized; `AddedToken("[CLS]")` is not. -/
theorem C88_copy_normalized : ¬ CopiesAreAlike := by
  intro h
  have := h { content := "[CLS]".toList } _ rfl
  revert this
  decide +kernel

/-- **C88, partial.** What is left of the claim (missing: tokens for which `normalized` was not given). -/
theorem C88_copies_alike_partial {t t' : PyToken} (h : t.copied = some t') (hn : t.normalized.isSome ∨ t.special = true) :
    (specialArg (.token t')).map (·.1) = (specialArg (.token t)).map (·.1) := by
  obtain ⟨t'', h1, h2⟩ := C88_special_copy t
  rw [h1] at h
  cases h
  exact h2.2 hn

/-- **C88, the argument changes.** A token given to `add_special_tokens` is special afterwards, in Python too: given to
`add_tokens` of another tokenizer, it is special there, and if `normalized` was not given it is no longer normalized. -/
theorem C88_argument_changes (t : PyToken) : ∃ x a, specialArg (.token t) = some (x, a) ∧ plainArg a = some x ∧
    (plainArg (.token t) = some x ↔ t.special = true) := by
  refine ⟨_, _, rfl, rfl, ?_⟩
  show some _ = some _ ↔ _
  rw [Option.some.injEq, get_eq, get_eq]
  obtain ⟨c, s, a, b, d, e⟩ := t
  cases s <;> cases e <;> simp [documented, PyToken.setSpecial]

/-! ## The constructor -/

/-- What the arguments say. -/
structure TokenSaid (content : Option Str) (kw : Kwargs) (t : PyToken) : Prop where
  content : t.content = content.getD []
  special : Says (given (named "special") kw) false (fun v b => v = .bool b) t.special
  singleWord : Says (given (named "single_word") kw) none (fun v o => ∃ b, o = some b ∧ v = .bool b) t.singleWord
  lstrip : Says (given (named "lstrip") kw) none (fun v o => ∃ b, o = some b ∧ v = .bool b) t.lstrip
  rstrip : Says (given (named "rstrip") kw) none (fun v o => ∃ b, o = some b ∧ v = .bool b) t.rstrip
  normalized : Says (given (named "normalized") kw) none (fun v o => ∃ b, o = some b ∧ v = .bool b) t.normalized

/-- The names of the arguments. -/
def tokenNames : List String := ["single_word", "lstrip", "rstrip", "normalized", "special"]

theorem token_names : (tokenNames.map String.toList).Nodup := by decide

theorem asBool_some {v : PyVal} {b : Bool} : v.asBool = some b ↔ v = .bool b := by
  cases v <;> simp [PyVal.asBool]

theorem newStep_ne {t t' : PyToken} {kv : Str × PyVal} (h : newStep t kv = some t') :
    t'.content = t.content ∧
    (named "special" kv = true → kv.2 = .bool t'.special) ∧ (named "special" kv = false → t'.special = t.special) ∧
    (named "single_word" kv = true → ∃ b, t'.singleWord = some b ∧ kv.2 = .bool b) ∧
    (named "single_word" kv = false → t'.singleWord = t.singleWord) ∧
    (named "lstrip" kv = true → ∃ b, t'.lstrip = some b ∧ kv.2 = .bool b) ∧ (named "lstrip" kv = false → t'.lstrip = t.lstrip) ∧
    (named "rstrip" kv = true → ∃ b, t'.rstrip = some b ∧ kv.2 = .bool b) ∧ (named "rstrip" kv = false → t'.rstrip = t.rstrip) ∧
    (named "normalized" kv = true → ∃ b, t'.normalized = some b ∧ kv.2 = .bool b) ∧
    (named "normalized" kv = false → t'.normalized = t.normalized) := by
  obtain ⟨k, v⟩ := kv
  unfold newStep at h
  unfold named
  dsimp only at h ⊢
  have hn := token_names
  simp only [tokenNames, List.map_cons, List.map_nil, List.nodup_cons, List.mem_cons, List.not_mem_nil, or_false, not_or] at hn
  generalize "single_word".toList = k1 at *
  generalize "lstrip".toList = k2 at *
  generalize "rstrip".toList = k3 at *
  generalize "normalized".toList = k4 at *
  generalize "special".toList = k5 at *
  obtain ⟨⟨a1, a2, a3, a4⟩, ⟨b1, b2, b3⟩, ⟨c1, c2⟩, d1, -⟩ := hn
  simp only [decide_eq_true_eq, decide_eq_false_iff_not]
  repeat' split at h
  all_goals first
    | (cases h; simp_all; done)
    | (subst k; obtain ⟨b, hb, rfl⟩ := Option.map_eq_some_iff.1 h; have := asBool_some.1 hb; simp_all)

/-- **C88, constructor.** What `AddedToken(...)` makes is what its arguments say. -/
theorem C88_new {content : Option Str} {kw : Kwargs} {t : PyToken} (h : PyToken.new content kw = some t) :
    TokenSaid content kw t where
  content := by
    have : ∀ (kw : Kwargs) (t t' : PyToken), kw.foldlM newStep t = some t' → t'.content = t.content := by
      intro kw
      induction kw with
      | nil => intro t t' h; cases h; rfl
      | cons kv l ih =>
        intro t t' h
        rw [List.foldlM_cons] at h
        obtain ⟨q, hq, h⟩ := Option.bind_eq_some_iff.1 h
        rw [ih q t' h, (newStep_ne hq).1]
    exact this kw _ _ h
  special := foldlM_given (fun t => t.special) _ (fun v b => v = .bool b) (fun _ _ _ h => (newStep_ne h).2.1)
    (fun _ _ _ h => (newStep_ne h).2.2.1) kw _ _ h
  singleWord := foldlM_given (fun t => t.singleWord) _ (fun v o => ∃ b, o = some b ∧ v = .bool b)
    (fun _ _ _ h => (newStep_ne h).2.2.2.1) (fun _ _ _ h => (newStep_ne h).2.2.2.2.1) kw _ _ h
  lstrip := foldlM_given (fun t => t.lstrip) _ (fun v o => ∃ b, o = some b ∧ v = .bool b)
    (fun _ _ _ h => (newStep_ne h).2.2.2.2.2.1) (fun _ _ _ h => (newStep_ne h).2.2.2.2.2.2.1) kw _ _ h
  rstrip := foldlM_given (fun t => t.rstrip) _ (fun v o => ∃ b, o = some b ∧ v = .bool b)
    (fun _ _ _ h => (newStep_ne h).2.2.2.2.2.2.2.1) (fun _ _ _ h => (newStep_ne h).2.2.2.2.2.2.2.2.1) kw _ _ h
  normalized := foldlM_given (fun t => t.normalized) _ (fun v o => ∃ b, o = some b ∧ v = .bool b)
    (fun _ _ _ h => (newStep_ne h).2.2.2.2.2.2.2.2.2.1) (fun _ _ _ h => (newStep_ne h).2.2.2.2.2.2.2.2.2.2) kw _ _ h

/-- The names in Python. -/
def isTokenName (kv : Str × PyVal) : Prop := ∃ k ∈ tokenNames, kv.1 = k.toList

/-- **C88, constructor.** It raises exactly if an argument that it knows is not a `bool`. -/
theorem C88_new_refused (content : Option Str) (kw : Kwargs) : PyToken.new content kw = none ↔
    ∃ kv ∈ kw, isTokenName kv ∧ ¬ ∃ b, kv.2 = .bool b := by
  refine foldlM_none (bad := fun kv => isTokenName kv ∧ ¬ ∃ b, kv.2 = .bool b) (fun t kv => ?_) kw _
  obtain ⟨k, v⟩ := kv
  unfold newStep isTokenName
  simp only [tokenNames, List.mem_cons, List.not_mem_nil, or_false, exists_eq_or_imp, exists_eq_left]
  have hb : (¬ ∃ b, v.asBool = some b) ↔ ¬ ∃ b, v = .bool b := by simp only [asBool_some]
  repeat' split
  all_goals first
    | (rename_i hk; rw [map_none, hb]; simp only [hk, true_or, or_true, true_and]; done)
    | (simp_all)

/-! ## Node -/

/-- `AddedToken` of Node (`node/src/tokenizer.rs:155-173`): the settings are decided at once. -/
def nodeToken (content : Str) (special : Bool) (singleWord lstrip rstrip normalized : Option Bool) : AddedToken :=
  let x := AddedToken.ofStr content special
  let x := match singleWord with | some b => { x with singleWord := b } | none => x
  let x := match lstrip with | some b => { x with lstrip := b } | none => x
  let x := match rstrip with | some b => { x with rstrip := b } | none => x
  match normalized with | some b => { x with normalized := b } | none => x

/-- **C88, Node.** The same settings give the same token in Python and in Node. -/
theorem C88_node (c : Str) (s : Bool) (a b d e : Option Bool) : nodeToken c s a b d e = (PyToken.mk c s a b d e).get := rfl

/-! ## Cases -/

example : TokenSaid (some "<x>".toList) [("lstrip".toList, .bool true), ("colour".toList, .none), ("special".toList, .bool true)]
    { content := "<x>".toList, special := true, lstrip := some true } := C88_new rfl

example : (PyToken.new none [("lstrip".toList, .int 1)]) = none :=
  (C88_new_refused _ _).2 ⟨("lstrip".toList, .int 1), by simp, ⟨"lstrip", by simp [tokenNames], rfl⟩, by simp⟩

example : (specialArg (.token { content := "[CLS]".toList })).map (·.1) =
    some { content := "[CLS]".toList, normalized := false, special := true } := by decide

end Tok.Py
