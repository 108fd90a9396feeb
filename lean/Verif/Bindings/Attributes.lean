import Verif.Bindings.AddedTok
import Verif.Norm.Pattern
import Verif.Post.Syntax

/-!
# C99: attributes and constructors of the Python components

The getters, setters and constructors of `bindings/python/src/{pre_tokenizers,decoders,processors,trainers,models}.rs` that change the form
of what they are given. Getters and setters that hand on a `bool`, a number or a text as it is are not repeated here.

Simplified: a hash set of characters is a list of them; a dropout probability is a rational number (`f32` in the code); locks are free.
-/

namespace Tok.PyAttr

open Tok.Post Tok.NS

/-! ## Python objects -/

/-- Python objects, as far as they matter here; `token`: a reference to an `AddedToken`. -/
inductive V where
  | none
  | bool (b : Bool)
  | int (n : Int)
  | float (q : Rat)
  | str (s : Str)
  | list (l : List V)
  | token (k : Nat)
  | other

/-- The `AddedToken` objects there are. -/
structure Heap where
  objs : Nat → Py.PyToken
  next : Nat

/-- `extract::<usize>`, `extract::<u64>`: an integer in range; `bool` is a subclass of `int`. -/
def V.asNat : V → Option Nat
  | .int (.ofNat n) => if n < 2 ^ 64 then some n else Option.none
  | .bool b => some b.toNat
  | _ => Option.none

/-- `extract::<bool>`. -/
def V.asBool : V → Option Bool
  | .bool b => some b
  | _ => Option.none

/-- `extract::<String>`. -/
def V.asStr : V → Option Str
  | .str s => some s
  | _ => Option.none

/-- `extract::<char>`: a text of one character. -/
def V.asChar : V → Option Char
  | .str [c] => some c
  | _ => Option.none

/-- `extract::<f32>`: what `float()` makes of numbers. -/
def V.asFloat : V → Option Rat
  | .float q => some q
  | .int n => some n
  | .bool b => some (if b then 1 else 0)
  | _ => Option.none

/-- `extract::<Option<T>>`. -/
def V.asOpt (f : V → Option α) : V → Option (Option α)
  | .none => some Option.none
  | v => (f v).map some

/-- `extract::<Vec<T>>`. -/
def V.asList (f : V → Option α) : V → Option (List α)
  | .list l => l.mapM f
  | _ => Option.none

/-- `None` or something. -/
def V.ofOpt (f : α → V) : Option α → V
  | some a => f a
  | Option.none => .none

/-! ## Names of variants -/

/-- `Display` of `SplitDelimiterBehavior` (`tokenizer/normalizer.rs:81-94`): the name of the variant, as `serde` gives it. -/
def behaviorDisplay : Behavior → Str
  | .removed => "Removed".toList
  | .isolated => "Isolated".toList
  | .mergedWithPrevious => "MergedWithPrevious".toList
  | .mergedWithNext => "MergedWithNext".toList
  | .contiguous => "Contiguous".toList

/-- `get_behavior` (`pre_tokenizers.rs:451-454, 584-589`); `to_lowercase` of ASCII letters. -/
def getBehavior (b : Behavior) : V := .str ((behaviorDisplay b).map Char.toLower)

/-- `set_behavior` (`pre_tokenizers.rs:456-473, 591-608`) and, for the constructors, `PySplitDelimiterBehavior`
(`utils/normalization.rs:93-111`); `none`: `ValueError`. -/
def behaviorOf (v : V) : Option Behavior :=
  v.asStr.bind fun s =>
    if s = "removed".toList then some .removed
    else if s = "isolated".toList then some .isolated
    else if s = "merged_with_previous".toList then some .mergedWithPrevious
    else if s = "merged_with_next".toList then some .mergedWithNext
    else if s = "contiguous".toList then some .contiguous
    else Option.none

/-- `PrependScheme` (`pre_tokenizers/metaspace.rs:5-14`). -/
inductive Scheme where
  | first
  | never
  | always
deriving DecidableEq

/-- `get_prepend_scheme` of the pre-tokenizer (`pre_tokenizers.rs:763-767`; `Display` by `serde` with `snake_case`, `metaspace.rs:6, 16-20`) and of
the decoder (`decoders.rs:446-456`). -/
def getScheme : Scheme → V
  | .first => .str "first".toList
  | .never => .str "never".toList
  | .always => .str "always".toList

/-- `from_string` (`pre_tokenizers.rs:702-714`), for setters and constructors. -/
def schemeOf (v : V) : Option Scheme :=
  v.asStr.bind fun s =>
    if s = "first".toList then some .first
    else if s = "never".toList then some .never
    else if s = "always".toList then some .always
    else Option.none

/-- `ProgressFormat` (`utils/progress.rs`). -/
inductive Progress where
  | indicatif
  | json
  | silent
deriving DecidableEq

/-- `get_progress_format` (`trainers.rs:231-239`). -/
def getProgress : Progress → V
  | .indicatif => .str "indicatif".toList
  | .json => .str "json".toList
  | .silent => .str "silent".toList

/-- `set_progress_format` (`trainers.rs:242-250`) and the constructor (`trainers.rs:373-381`). -/
def progressOf (v : V) : Option Progress :=
  v.asStr.map fun s => if s = "json".toList then .json else if s = "silent".toList then .silent else .indicatif

/-- `get_delimiter`, `get_replacement`, `get_content` (`pre_tokenizers.rs:505-508, 743-746`, `decoders.rs:426-429, 381-384`). -/
def getChar (c : Char) : V := .str [c]

/-! ## Templates -/

/-- `{:?}` of a piece of a template (`template.rs:88-100`, derived); `esc`: `{:?}` of a text. -/
def debugPiece (esc : Str → Str) : Piece → Str
  | .sequence id t => "Sequence { id: ".toList ++ (match id with | .A => ['A'] | .B => ['B']) ++ ", type_id: ".toList ++ Nat.toDigits 10 t ++ " }".toList
  | .special id t => "SpecialToken { id: ".toList ++ esc id ++ ", type_id: ".toList ++ Nat.toDigits 10 t ++ " }".toList

/-- The pieces with `, ` between them. -/
def debugPieces (esc : Str → Str) : List Piece → Str
  | [] => []
  | [p] => debugPiece esc p
  | p :: l => debugPiece esc p ++ ", ".toList ++ debugPieces esc l

/-- `TemplateProcessing.single` (`processors.rs:747-750`, `template.rs:356-358`): `{:?}` of the template (`template.rs:253-255`, derived). -/
def getSingle (esc : Str → Str) (t : Template) : V := .str ("Template([".toList ++ debugPieces esc t.single ++ "])".toList)

/-- `TemplateProcessing.single = v` (`processors.rs:752-763`, `PyTemplate` `:625-647`). -/
def setSingle (t : Template) (v : V) : Option Template :=
  match v with
  | .str s => (parseTemplate s).map t.setSingle
  | .list l => (l.mapM V.asStr).bind fun ss => (ss.mapM parsePiece).map t.setSingle
  | _ => Option.none

/-! ## Trainers -/

/-- The options of a `BpeTrainer` (and of a `WordPieceTrainer`, except for the progress and the length). -/
structure BpeOptions where
  vocabSize : Nat := 30000
  minFrequency : Nat := 0
  showProgress : Bool := true
  progress : Progress := .indicatif
  specials : List AddedToken := []
  limit : Option Nat := Option.none
  maxLength : Option Nat := Option.none
  initial : List Char := []
  pre : Option Str := Option.none
  suffix : Option Str := Option.none

/-- The object is special from now on. -/
def Heap.mark (h : Heap) (k : Nat) : Heap := { h with objs := fun i => if i = k then (h.objs k).setSpecial true else h.objs i }

/-- The elements of `special_tokens`, one after the other until one is neither a text nor an `AddedToken` (`trainers.rs:276-297, 384-401`; the other
trainers: `:517-538, 606-623, 725-746, 771-788, 886-907, 957-974`). -/
def specialsOf (h : Heap) : List V → Heap × Option (List AddedToken)
  | [] => (h, some [])
  | .str s :: l =>
    let r := specialsOf h l
    (r.1, r.2.map fun ts => AddedToken.ofStr s true :: ts)
  | .token k :: l =>
    let r := specialsOf (h.mark k) l
    (r.1, r.2.map fun ts => ((h.mark k).objs k).get :: ts)
  | _ :: _ => (h, Option.none)

/-- `trainer.special_tokens = v`. -/
def setSpecials (h : Heap) (t : BpeOptions) (v : V) : Heap × Option BpeOptions :=
  match v with
  | .list l =>
    let r := specialsOf h l
    (r.1, r.2.map fun ts => { t with specials := ts })
  | _ => (h, Option.none)

/-- `trainer.special_tokens` (`trainers.rs:263-273`): new objects. -/
def getSpecials (h : Heap) (t : BpeOptions) : Heap × V :=
  (⟨fun i => if i < h.next then h.objs i else
      match t.specials[i - h.next]? with
      | some x => Py.PyToken.ofAdded x
      | Option.none => h.objs i, h.next + t.specials.length⟩,
   .list ((List.range' h.next t.specials.length).map V.token))

/-- `trainer.initial_alphabet` (`trainers.rs:320-327`). -/
def getInitial (t : BpeOptions) : V := .list (t.initial.map getChar)

/-- `trainer.initial_alphabet = v` (`trainers.rs:329-337`). -/
def setInitial (t : BpeOptions) (v : V) : Option BpeOptions := (v.asList V.asChar).map fun l => { t with initial := l }

/-- One keyword argument of the constructor of `BpeTrainer` (`trainers.rs:366-423`); `none`: an exception. -/
def trainerStep (h : Heap) (t : BpeOptions) (k : Str) (v : V) : Heap × Option BpeOptions :=
  if k = "vocab_size".toList then (h, v.asNat.map fun n => { t with vocabSize := n })
  else if k = "min_frequency".toList then (h, v.asNat.map fun n => { t with minFrequency := n })
  else if k = "show_progress".toList then (h, v.asBool.map fun b => { t with showProgress := b })
  else if k = "progress_format".toList then (h, (progressOf v).map fun p => { t with progress := p })
  else if k = "special_tokens".toList then setSpecials h t v
  else if k = "limit_alphabet".toList then (h, v.asNat.map fun n => { t with limit := some n })
  else if k = "max_token_length".toList then (h, (v.asOpt V.asNat).map fun n => { t with maxLength := n })
  else if k = "initial_alphabet".toList then (h, (v.asList V.asStr).map fun l => { t with initial := l.filterMap List.head? })
  else if k = "continuing_subword_prefix".toList then (h, v.asStr.map fun s => { t with pre := some s })
  else if k = "end_of_word_suffix".toList then (h, v.asStr.map fun s => { t with suffix := some s })
  else (h, some t)

/-- `BpeTrainer(**kwargs)`. -/
def newTrainer (h : Heap) (t : BpeOptions) : List (Str × V) → Heap × Option BpeOptions
  | [] => (h, some t)
  | (k, v) :: l =>
    match trainerStep h t k v with
    | (h', some t') => newTrainer h' t' l
    | (h', Option.none) => (h', Option.none)

/-- What the getters give (`trainers.rs:199-357`), under the names of the constructor's arguments. -/
def trainerArgs (specials : V) (t : BpeOptions) : List (Str × V) :=
  [("vocab_size".toList, .int t.vocabSize), ("min_frequency".toList, .int t.minFrequency), ("show_progress".toList, .bool t.showProgress),
   ("progress_format".toList, getProgress t.progress), ("special_tokens".toList, specials),
   ("limit_alphabet".toList, .ofOpt (fun n : Nat => .int n) t.limit), ("max_token_length".toList, .ofOpt (fun n : Nat => .int n) t.maxLength),
   ("initial_alphabet".toList, getInitial t), ("continuing_subword_prefix".toList, .ofOpt .str t.pre),
   ("end_of_word_suffix".toList, .ofOpt .str t.suffix)]

/-! ## `BPE` -/

/-- The options of a `BPE` model. -/
structure BpeModelOptions where
  dropout : Option Rat := Option.none
  unk : Option Str := Option.none
  pre : Option Str := Option.none
  suffix : Option Str := Option.none
  fuseUnk : Bool := false
  byteFallback : Bool := false
  ignoreMerges : Bool := false
deriving DecidableEq

/-- One keyword argument of `BPE` (`models.rs:300-325`); for `dropout` and `unk_token` `None` is as if nothing was given. The capacity of the cache
is only looked at for its type. -/
def modelStep (o : BpeModelOptions) (k : Str) (v : V) : Option BpeModelOptions :=
  if k = "cache_capacity".toList then v.asNat.map fun _ => o
  else if k = "dropout".toList then (v.asOpt V.asFloat).map fun
    | some q => { o with dropout := some q }
    | Option.none => o
  else if k = "unk_token".toList then (v.asOpt V.asStr).map fun
    | some s => { o with unk := some s }
    | Option.none => o
  else if k = "continuing_subword_prefix".toList then v.asStr.map fun s => { o with pre := some s }
  else if k = "end_of_word_suffix".toList then v.asStr.map fun s => { o with suffix := some s }
  else if k = "fuse_unk".toList then v.asBool.map fun b => { o with fuseUnk := b }
  else if k = "byte_fallback".toList then v.asBool.map fun b => { o with byteFallback := b }
  else if k = "ignore_merges".toList then v.asBool.map fun b => { o with ignoreMerges := b }
  else some o

/-- `BPE(**kwargs)` (`models.rs:295-337`); a dropout outside of `[0, 1]` is refused by `BpeBuilder::build` (`models/bpe/model.rs:214-219`). -/
def newModel (kw : List (Str × V)) : Option BpeModelOptions :=
  (kw.foldlM (fun o p => modelStep o p.1 p.2) {}).bind fun o =>
    match o.dropout with
    | some q => if 0 ≤ q ∧ q ≤ 1 then some o else Option.none
    | Option.none => some o

/-- `bpe.dropout = v` (`models.rs:380-383`): not checked. -/
def setDropout (o : BpeModelOptions) (v : V) : Option BpeModelOptions := (v.asOpt V.asFloat).map fun q => { o with dropout := q }

/-- What the getters give (`models.rs:375-446`), under the names of the constructor's arguments. -/
def modelArgs (o : BpeModelOptions) : List (Str × V) :=
  [("dropout".toList, .ofOpt .float o.dropout), ("unk_token".toList, .ofOpt .str o.unk), ("continuing_subword_prefix".toList, .ofOpt .str o.pre),
   ("end_of_word_suffix".toList, .ofOpt .str o.suffix), ("fuse_unk".toList, .bool o.fuseUnk), ("byte_fallback".toList, .bool o.byteFallback),
   ("ignore_merges".toList, .bool o.ignoreMerges)]

/-! ## The claim -/

/-- **C99, behaviors** (`_partial`). What a getter gives can be given to the setter and the constructor exactly for three of the five. -/
theorem C99_behavior_partial (b : Behavior) :
    behaviorOf (getBehavior b) = (if b = .mergedWithPrevious ∨ b = .mergedWithNext then Option.none else some b) := by
  cases b <;> decide +kernel

/-- The full claim for behaviors. -/
def BehaviorsAgain : Prop := ∀ b, behaviorOf (getBehavior b) = some b

/-- **C99 fails**: `split.behavior = split.behavior` is a `ValueError` for `"merged_with_previous"` and `"merged_with_next"`. -/
theorem C99_behavior_fails : ¬ BehaviorsAgain := by
  intro h
  have := h .mergedWithNext
  rw [C99_behavior_partial] at this
  exact absurd this (by decide)

/-- **C99, names.** Each of the five names in the documentation is for one behavior, and nothing else is accepted. -/
theorem C99_behavior_names (v : V) (b : Behavior) : behaviorOf v = some b ↔
    (v = .str "removed".toList ∧ b = .removed) ∨ (v = .str "isolated".toList ∧ b = .isolated) ∨
    (v = .str "merged_with_previous".toList ∧ b = .mergedWithPrevious) ∨ (v = .str "merged_with_next".toList ∧ b = .mergedWithNext) ∨
    (v = .str "contiguous".toList ∧ b = .contiguous) := by
  constructor
  · intro h
    cases v with
    | str s =>
      simp only [behaviorOf, V.asStr, Option.bind_some] at h
      split at h
      · rename_i e; subst e; cases h; simp
      split at h
      · rename_i e; subst e; cases h; simp
      split at h
      · rename_i e; subst e; cases h; simp
      split at h
      · rename_i e; subst e; cases h; simp
      split at h
      · rename_i e; subst e; cases h; simp
      · cases h
    | _ => cases h
  · rintro (⟨rfl, rfl⟩ | ⟨rfl, rfl⟩ | ⟨rfl, rfl⟩ | ⟨rfl, rfl⟩ | ⟨rfl, rfl⟩) <;> decide +kernel

/-- **C99, schemes**: what the getters give can be given to the setters and constructors; three names are accepted. -/
theorem C99_scheme (s : Scheme) (v : V) : schemeOf (getScheme s) = some s ∧ (schemeOf v = some s → v = getScheme s) := by
  refine ⟨by cases s <;> decide +kernel, fun h => ?_⟩
  cases v with
  | str t =>
    simp only [schemeOf, V.asStr, Option.bind_some] at h
    split at h
    · rename_i e; subst e; cases h; rfl
    split at h
    · rename_i e; subst e; cases h; rfl
    split at h
    · rename_i e; subst e; cases h; rfl
    · cases h
  | _ => cases h

/-- **C99, single characters**: a text is accepted exactly if it is one character, and read again it is the same. -/
theorem C99_char (v : V) (c : Char) : v.asChar = some c ↔ v = getChar c := by
  constructor
  · intro h
    cases v with
    | str s =>
      match s with
      | [] => cases h
      | [d] => cases h; rfl
      | _ :: _ :: _ => cases h
    | _ => cases h
  · rintro rfl; rfl

/-- **C99, progress**: what the getter gives can be given again. Every other text is accepted too, for `indicatif`. -/
theorem C99_progress (p : Progress) (s : Str) : progressOf (getProgress p) = some p ∧
    (progressOf (.str s) = some .indicatif ↔ s ≠ "json".toList ∧ s ≠ "silent".toList) := by
  refine ⟨by cases p <;> decide +kernel, ?_⟩
  simp only [progressOf, V.asStr, Option.map_some, Option.some.injEq]
  by_cases h1 : s = "json".toList
  · rw [if_pos h1]; simp [h1]
  · rw [if_neg h1]
    by_cases h2 : s = "silent".toList
    · rw [if_pos h2]; simp [h2]
    · rw [if_neg h2]; simp only [ne_eq, h1, h2, not_false_eq_true, and_self]

/-! ## Templates -/

theorem mapM_none {α β : Type} {f : α → Option β} {x : α} (hx : f x = Option.none) : ∀ (a b : List α), (a ++ x :: b).mapM f = Option.none
  | [], b => by simp [hx]
  | y :: a, b => by
    rw [List.cons_append, List.mapM_cons, mapM_none hx a b]
    cases f y <;> rfl

/-- A text whose third word is `id:` is not a template. -/
theorem parse_id {a b r : Str} (ha : ' ' ∉ a) (hb : ' ' ∉ b) :
    parseTemplate (a ++ ' ' :: (b ++ ' ' :: ("id:".toList ++ ' ' :: r))) = Option.none := by
  unfold parseTemplate
  rw [splitOnChar_append _ ha, splitOnChar_append _ hb, splitOnChar_append _ (by decide +kernel)]
  exact mapM_none (f := parsePiece) (by decide +kernel) [a, b] (splitOnChar ' ' r)

theorem split_start {a w : Str} (c d : Str) (h : a = w ++ ' ' :: (c ++ ' ' :: (d ++ ' ' :: []))) (r : Str) :
    a ++ r = w ++ ' ' :: (c ++ ' ' :: (d ++ ' ' :: r)) := by
  subst h; simp only [List.append_assoc, List.cons_append, List.nil_append]

theorem debugPieces_form (esc : Str → Str) (p : Piece) (l : List Piece) :
    ∃ w r, ' ' ∉ w ∧ debugPieces esc (p :: l) = w ++ ' ' :: ("{".toList ++ ' ' :: ("id:".toList ++ ' ' :: r)) := by
  have hq : ∃ w r, ' ' ∉ w ∧ debugPiece esc p = w ++ ' ' :: ("{".toList ++ ' ' :: ("id:".toList ++ ' ' :: r)) := by
    have h1 : "Sequence { id: ".toList = "Sequence".toList ++ ' ' :: ("{".toList ++ ' ' :: ("id:".toList ++ ' ' :: [])) := by decide +kernel
    have h2 : "SpecialToken { id: ".toList = "SpecialToken".toList ++ ' ' :: ("{".toList ++ ' ' :: ("id:".toList ++ ' ' :: [])) := by
      decide +kernel
    have h3 : ' ' ∉ "Sequence".toList := by decide +kernel
    have h4 : ' ' ∉ "SpecialToken".toList := by decide +kernel
    have a4 : ∀ a b c d e : Str, a ++ b ++ c ++ d ++ e = a ++ (b ++ c ++ d ++ e) := fun a b c d e => by simp only [List.append_assoc]
    cases p with
    | sequence id n => exact ⟨_, _, h3, (a4 _ _ _ _ _).trans (split_start _ _ h1 _)⟩
    | special id n => exact ⟨_, _, h4, (a4 _ _ _ _ _).trans (split_start _ _ h2 _)⟩
  obtain ⟨w, r, hw, hr⟩ := hq
  cases l with
  | nil => exact ⟨w, r, hw, hr⟩
  | cons q l =>
    refine ⟨w, r ++ ", ".toList ++ debugPieces esc (q :: l), hw, ?_⟩
    rw [debugPieces, hr]
    · simp only [List.append_assoc, List.cons_append]
    · nofun

/-- **C99 fails**: `p.single = p.single` never leaves a template as it is. It is a `ValueError`, or, for the empty template, there is a special
token `Template([])` afterwards. -/
theorem C99_template (esc : Str → Str) (t : Template) :
    setSingle t (getSingle esc t) =
      if t.single = [] then some (t.setSingle [.special "Template([])".toList 0]) else Option.none := by
  cases hs : t.single with
  | nil =>
    rw [if_pos rfl]
    simp only [getSingle, hs, debugPieces, setSingle]
    have : parseTemplate ("Template([".toList ++ [] ++ "])".toList) = some [.special "Template([])".toList 0] := by decide +kernel
    rw [this]; rfl
  | cons p l =>
    rw [if_neg (by simp)]
    obtain ⟨w, r, hw, hr⟩ := debugPieces_form esc p l
    simp only [getSingle, hs, setSingle]
    rw [hr]
    have : "Template([".toList ++ (w ++ ' ' :: ("{".toList ++ ' ' :: ("id:".toList ++ ' ' :: r))) ++ "])".toList =
        ("Template([".toList ++ w) ++ ' ' :: ("{".toList ++ ' ' :: ("id:".toList ++ ' ' :: (r ++ "])".toList))) := by
      simp only [List.append_assoc, List.cons_append]
    rw [this, parse_id (fun hm => ?_) (by decide +kernel)]
    · rfl
    · rcases List.mem_append.1 hm with hm | hm
      · revert hm; decide +kernel
      · exact hw hm

/-- **C99**: a template that is written in the syntax of templates is what the setter makes of it (C35 says which these are). -/
theorem C99_template_written (t : Template) {p : List Piece} (hne : p ≠ []) (h : ∀ x ∈ p, Writable x) :
    setSingle t (.str (writeTemplate p)) = some (t.setSingle p) := by
  simp only [setSingle, C51_roundtrip hne h]; rfl

/-! ## Special tokens -/

/-- What a special token is meant to be (C88). -/
def special (h : Heap) : V → Option AddedToken
  | .str s => some (Py.documented { content := s, special := true })
  | .token k => some (Py.documented { h.objs k with special := true })
  | _ => Option.none

theorem mark_special (h : Heap) (k : Nat) (v : V) : special (h.mark k) v = special h v := by
  cases v with
  | token j =>
    simp only [special, Heap.mark]
    by_cases hj : j = k
    · subst hj; simp [Py.PyToken.setSpecial]
    · simp [hj]
  | _ => rfl

theorem specialsOf_ok : ∀ (l : List V) (h : Heap), (specialsOf h l).2 = l.mapM (special h)
  | [], h => rfl
  | v :: l, h => by
    cases v with
    | str s =>
      rw [specialsOf, List.mapM_cons]
      simp only [specialsOf_ok l h, special]
      cases l.mapM (special h) <;> rfl
    | token k =>
      rw [specialsOf, List.mapM_cons]
      have : special (h.mark k) = special h := funext (mark_special h k)
      simp only [specialsOf_ok l (h.mark k), this]
      have e : ((h.mark k).objs k).get = Py.documented { h.objs k with special := true } := by
        rw [Py.get_eq]; simp [Heap.mark, Py.PyToken.setSpecial]
      rw [e]
      simp only [special]
      cases l.mapM (special h) <;> rfl
    | _ => simp [specialsOf, special]

/-- The objects that are reached: those before the first element that is not accepted. -/
def reached : List V → List Nat
  | .str _ :: l => reached l
  | .token k :: l => k :: reached l
  | _ => []

theorem specialsOf_heap : ∀ (l : List V) (h : Heap) (i : Nat),
    (specialsOf h l).1.objs i = if i ∈ reached l then { h.objs i with special := true } else h.objs i
  | [], h, i => rfl
  | v :: l, h, i => by
    cases v with
    | str s => rw [specialsOf, reached]; exact specialsOf_heap l h i
    | token k =>
      rw [specialsOf, reached]
      simp only [specialsOf_heap l (h.mark k) i, List.mem_cons]
      by_cases hi : i = k
      · subst hi; by_cases hm : i ∈ reached l <;> simp [hm, Heap.mark, Py.PyToken.setSpecial]
      · by_cases hm : i ∈ reached l <;> simp [hm, hi, Heap.mark]
    | _ => simp [specialsOf, reached]

/-- **C99, special tokens.** The setter takes the texts and `AddedToken`s as special tokens, and it is an exception exactly if there is anything
else; against the claim that only the trainer changes, the `AddedToken`s given are special afterwards, even if there is an exception. -/
theorem C99_specials (h : Heap) (t : BpeOptions) (l : List V) :
    (setSpecials h t (.list l)).2 = (l.mapM (special h)).map (fun ts => { t with specials := ts }) ∧
    ∀ i, (setSpecials h t (.list l)).1.objs i = if i ∈ reached l then { h.objs i with special := true } else h.objs i := by
  constructor
  · simp only [setSpecials, specialsOf_ok]
  · intro i; exact specialsOf_heap l h i

theorem range'_mapM {α : Type} (f : V → Option α) : ∀ (l : List α) (n : Nat), (∀ i x, l[i]? = some x → f (.token (n + i)) = some x) →
    ((List.range' n l.length).map V.token).mapM f = some l
  | [], _, _ => rfl
  | x :: l, n, hx => by
    rw [List.length_cons, List.range'_succ, List.map_cons, List.mapM_cons, show f (.token n) = some x from hx 0 x rfl,
      range'_mapM f l (n + 1) fun i y hy => by
        have := hx (i + 1) y (by simpa using hy)
        rwa [show n + 1 + i = n + (i + 1) by omega]]
    rfl

theorem getSpecials_special (h : Heap) (t : BpeOptions) (ht : ∀ x ∈ t.specials, x.special = true) {l : List V}
    (hl : (getSpecials h t).2 = .list l) : l.mapM (special (getSpecials h t).1) = some t.specials := by
  cases hl
  refine range'_mapM _ t.specials h.next fun i x hx => ?_
  simp only [special, getSpecials]
  rw [if_neg (by omega), show h.next + i - h.next = i by omega, hx]
  have := ht x (List.mem_of_getElem? hx)
  obtain ⟨c, s, a, b, d, e⟩ := x
  simp only at this
  subst this
  rfl

/-- **C99, special tokens again.** `trainer.special_tokens = trainer.special_tokens` changes nothing. -/
theorem C99_specials_again (h : Heap) (t : BpeOptions) (ht : ∀ x ∈ t.specials, x.special = true) :
    (setSpecials (getSpecials h t).1 t (getSpecials h t).2).2 = some t := by
  have := (C99_specials (getSpecials h t).1 t ((List.range' h.next t.specials.length).map V.token)).1
  rw [getSpecials_special h t ht rfl] at this
  exact this

/-- **C99, special tokens given.** `trainer.special_tokens` is a list of new objects that show the tokens of the trainer, in
their order and with all their options; the objects there were before are as they were. -/
theorem C99_specials_given (h : Heap) (t : BpeOptions) : ∃ l : List Nat, (getSpecials h t).2 = .list (l.map V.token) ∧
    (∀ i ∈ l, h.next ≤ i) ∧ l.Nodup ∧ l.map (fun i => ((getSpecials h t).1.objs i).get) = t.specials ∧
    ∀ i, i < h.next → (getSpecials h t).1.objs i = h.objs i := by
  refine ⟨List.range' h.next t.specials.length, rfl, fun i hi => ?_, List.nodup_range', ?_, fun i hi => ?_⟩
  · exact (List.mem_range'_1.1 hi).1
  · apply List.ext_getElem?
    intro i
    by_cases hi : i < t.specials.length
    · rw [List.getElem?_map, List.getElem?_range' hi, List.getElem?_eq_getElem hi]
      simp only [getSpecials, Option.map_some, Nat.one_mul]
      rw [if_neg (by omega), Nat.add_sub_cancel_left, List.getElem?_eq_getElem hi]
      exact congrArg some (Py.C88_token (Py.PyToken.ofAdded t.specials[i]) t.specials[i]).2
    · rw [List.getElem?_eq_none (by simp; omega), List.getElem?_eq_none (by omega)]
  · simp only [getSpecials, if_pos hi]

/-! ## Alphabets -/

/-- **C99, alphabets.** The setter accepts exactly lists of single characters, and what the getter gives. -/
theorem C99_initial (t : BpeOptions) : setInitial t (getInitial t) = some t ∧
    ∀ l : List V, (setInitial t (.list l)).isSome = true ↔ ∀ v ∈ l, ∃ c, v = getChar c := by
  have hm : ∀ l : List Char, (l.map getChar).mapM V.asChar = some l := by
    intro l
    induction l with
    | nil => rfl
    | cons c l ih => rw [List.map_cons, List.mapM_cons, ih]; rfl
  refine ⟨by simp only [setInitial, getInitial, V.asList, hm]; rfl, fun l => ?_⟩
  simp only [setInitial, V.asList, Option.isSome_map]
  induction l with
  | nil => simp
  | cons v l ih =>
    rw [List.mapM_cons]
    cases hv : v.asChar with
    | none =>
      simp only [Option.bind_eq_bind, Option.bind_none, Option.isSome_none, Bool.false_eq_true, false_iff]
      intro h
      obtain ⟨c, hc⟩ := h v List.mem_cons_self
      rw [(C99_char v c).2 hc] at hv
      cases hv
    | some c =>
      rw [(C99_char v c).1 hv]
      cases hl : l.mapM V.asChar with
      | none =>
        rw [hl] at ih
        simp only [Option.bind_eq_bind, Option.bind_some, Option.bind_none, Option.isSome_none, Bool.false_eq_true, false_iff]
        intro h
        exact absurd (ih.2 fun x hx => h x (List.mem_cons_of_mem _ hx)) (by simp)
      | some cs =>
        rw [hl] at ih
        simp only [Option.bind_eq_bind, Option.bind_some]
        refine ⟨fun _ x hx => ?_, fun _ => rfl⟩
        rcases List.mem_cons.1 hx with rfl | hx
        · exact ⟨c, rfl⟩
        · exact ih.1 rfl x hx

/-- **C99 fails**: constructor and setter differ. The constructor takes the first character of each text, the setter refuses the list. -/
theorem C99_initial_differs (h : Heap) (t : BpeOptions) :
    newTrainer h t [("initial_alphabet".toList, .list [.str "ab".toList, .str []])] = (h, some { t with initial := ['a'] }) ∧
    setInitial t (.list [.str "ab".toList, .str []]) = Option.none := by
  constructor
  · rfl
  · rfl

/-! ## The constructors -/

theorem asNat_ofNat {n : Nat} (h : n < 2 ^ 64) : V.asNat (.int n) = some n := by
  show (if n < 2 ^ 64 then some n else Option.none) = _
  rw [if_pos h]

/-- All numbers fit in 64 bits, and the special tokens are special. -/
structure TrainerFits (t : BpeOptions) : Prop where
  size : t.vocabSize < 2 ^ 64
  freq : t.minFrequency < 2 ^ 64
  limit : ∀ n, t.limit = some n → n < 2 ^ 64
  maxLength : ∀ n, t.maxLength = some n → n < 2 ^ 64
  specials : ∀ x ∈ t.specials, x.special = true

/-- **C99, a trainer from the attributes of a trainer** (`_partial`). The constructor makes the same of them exactly if there are a limit of the
alphabet, a prefix and a suffix; otherwise, against the claim and its documented defaults, `None` is a `TypeError`. -/
theorem C99_trainer_partial (h : Heap) (t : BpeOptions) (ht : TrainerFits t) :
    (newTrainer (getSpecials h t).1 {} (trainerArgs (getSpecials h t).2 t)).2 =
      if t.limit.isSome ∧ t.pre.isSome ∧ t.suffix.isSome then some t else Option.none := by
  have hs := fun u => C99_specials (getSpecials h t).1 u ((List.range' h.next t.specials.length).map V.token)
  rw [getSpecials_special h t ht.specials rfl] at hs
  have hi : (t.initial.map getChar).mapM V.asStr = some (t.initial.map fun c => [c]) := by
    generalize t.initial = l
    induction l with
    | nil => rfl
    | cons c l ih => rw [List.map_cons, List.mapM_cons, ih]; rfl
  have hi2 : ((t.initial.map fun c => [c]).filterMap List.head?) = t.initial := by
    generalize t.initial = l
    induction l with
    | nil => rfl
    | cons c l ih => rw [List.map_cons, List.filterMap_cons, ih]; rfl
  obtain ⟨size, freq, show_, prog, sp, lim, ml, ini, pre, suf⟩ := t
  unfold trainerArgs
  rw [newTrainer, show ∀ h t v, trainerStep h t "vocab_size".toList v = (h, v.asNat.map fun n => { t with vocabSize := n }) from fun _ _ _ => rfl]
  simp only [asNat_ofNat ht.size, Option.map_some]
  rw [newTrainer, show ∀ h t v, trainerStep h t "min_frequency".toList v = (h, v.asNat.map fun n => { t with minFrequency := n }) from
    fun _ _ _ => rfl]
  simp only [asNat_ofNat ht.freq, Option.map_some]
  rw [newTrainer, show ∀ h t v, trainerStep h t "show_progress".toList v = (h, v.asBool.map fun n => { t with showProgress := n }) from
    fun _ _ _ => rfl]
  simp only [V.asBool, Option.map_some]
  rw [newTrainer, show ∀ h t v, trainerStep h t "progress_format".toList v = (h, (progressOf v).map fun n => { t with progress := n }) from
    fun _ _ _ => rfl]
  simp only [(C99_progress prog []).1, Option.map_some]
  rw [newTrainer, show ∀ h t v, trainerStep h t "special_tokens".toList v = setSpecials h t v from fun _ _ _ => rfl]
  obtain ⟨h', hh⟩ : ∃ h', setSpecials (getSpecials h ⟨size, freq, show_, prog, sp, lim, ml, ini, pre, suf⟩).1
      { vocabSize := size, minFrequency := freq, showProgress := show_, progress := prog }
      (getSpecials h ⟨size, freq, show_, prog, sp, lim, ml, ini, pre, suf⟩).2 =
      (h', some { vocabSize := size, minFrequency := freq, showProgress := show_, progress := prog, specials := sp }) :=
    ⟨_, Prod.ext rfl (hs _).1⟩
  simp only [hh]
  rw [newTrainer, show ∀ h t v, trainerStep h t "limit_alphabet".toList v = (h, v.asNat.map fun n => { t with limit := some n }) from
    fun _ _ _ => rfl]
  cases lim with
  | none => simp [V.ofOpt, V.asNat]
  | some lim =>
  rw [show V.ofOpt (fun n : Nat => V.int n) (some lim) = V.int lim from rfl]
  simp only [asNat_ofNat (ht.limit lim rfl), Option.map_some]
  rw [newTrainer, show ∀ h t v, trainerStep h t "max_token_length".toList v = (h, (v.asOpt V.asNat).map fun n => { t with maxLength := n }) from
    fun _ _ _ => rfl]
  have hml : V.asOpt V.asNat (V.ofOpt (fun n : Nat => .int n) ml) = some ml := by
    cases ml with
    | none => rfl
    | some n => simp only [V.ofOpt, V.asOpt, asNat_ofNat (ht.maxLength n rfl), Option.map_some]
  simp only [hml, Option.map_some]
  rw [newTrainer, show ∀ h t v, trainerStep h t "initial_alphabet".toList v =
    (h, (v.asList V.asStr).map fun l => { t with initial := l.filterMap List.head? }) from fun _ _ _ => rfl]
  simp only [getInitial, V.asList] at hi hi2 ⊢
  simp only [hi, Option.map_some, hi2]
  rw [newTrainer, show ∀ h t v, trainerStep h t "continuing_subword_prefix".toList v = (h, v.asStr.map fun n => { t with pre := some n }) from
    fun _ _ _ => rfl]
  cases pre with
  | none => simp [V.ofOpt, V.asStr]
  | some pre =>
  simp only [V.ofOpt, V.asStr, Option.map_some]
  rw [newTrainer, show ∀ h t v, trainerStep h t "end_of_word_suffix".toList v = (h, v.asStr.map fun n => { t with suffix := some n }) from
    fun _ _ _ => rfl]
  cases suf with
  | none => simp [V.asStr]
  | some suf => simp [V.asStr, newTrainer]

/-- **C99 fails**: `BpeTrainer(limit_alphabet=None)`, the documented default, is a `TypeError`, for the prefix and the suffix too; for the maximal
length it is not. -/
theorem C99_none_refused (h : Heap) (t : BpeOptions) :
    newTrainer h t [("limit_alphabet".toList, .none)] = (h, Option.none) ∧
    newTrainer h t [("continuing_subword_prefix".toList, .none)] = (h, Option.none) ∧
    newTrainer h t [("end_of_word_suffix".toList, .none)] = (h, Option.none) ∧
    newTrainer h t [("max_token_length".toList, .none)] = (h, some { t with maxLength := Option.none }) := ⟨rfl, rfl, rfl, rfl⟩

/-- **C99, a `BPE` from the attributes of a `BPE`** (`_partial`): the same exactly if there are a prefix and a suffix, and the dropout is a
probability. -/
theorem C99_model_partial (o : BpeModelOptions) :
    newModel (modelArgs o) = if o.pre.isSome ∧ o.suffix.isSome ∧ ∀ q, o.dropout = some q → 0 ≤ q ∧ q ≤ 1 then some o else Option.none := by
  obtain ⟨d, u, p, s, f, b, i⟩ := o
  have e1 : ∀ o v, modelStep o "dropout".toList v = (v.asOpt V.asFloat).map fun
    | some q => { o with dropout := some q }
    | Option.none => o := fun _ _ => rfl
  have e2 : ∀ o v, modelStep o "unk_token".toList v = (v.asOpt V.asStr).map fun
    | some q => { o with unk := some q }
    | Option.none => o := fun _ _ => rfl
  have e3 : ∀ o v, modelStep o "continuing_subword_prefix".toList v = v.asStr.map fun s => { o with pre := some s } := fun _ _ => rfl
  have e4 : ∀ o v, modelStep o "end_of_word_suffix".toList v = v.asStr.map fun s => { o with suffix := some s } := fun _ _ => rfl
  have e5 : ∀ o v, modelStep o "fuse_unk".toList v = v.asBool.map fun s => { o with fuseUnk := s } := fun _ _ => rfl
  have e6 : ∀ o v, modelStep o "byte_fallback".toList v = v.asBool.map fun s => { o with byteFallback := s } := fun _ _ => rfl
  have e7 : ∀ o v, modelStep o "ignore_merges".toList v = v.asBool.map fun s => { o with ignoreMerges := s } := fun _ _ => rfl
  have ed : (V.ofOpt V.float d).asOpt V.asFloat = some d := by cases d <;> rfl
  have eu : (V.ofOpt V.str u).asOpt V.asStr = some u := by cases u <;> rfl
  unfold newModel modelArgs
  simp only [List.foldlM_cons, List.foldlM_nil, e1, e2, e3, e4, e5, e6, e7, ed, eu, Option.map_some, Option.bind_eq_bind, Option.bind_some]
  cases p with
  | none => simp [V.ofOpt, V.asStr]
  | some p =>
    cases s with
    | none => simp [V.ofOpt, V.asStr]
    | some s => cases d <;> cases u <;> simp [V.ofOpt, V.asStr, V.asBool]

/-- **C99 fails**: the setter of `dropout` takes any number, the constructor only probabilities. -/
theorem C99_dropout (o : BpeModelOptions) (q : Rat) : setDropout o (.float q) = some { o with dropout := some q } ∧
    (newModel [("dropout".toList, .float q)] = if 0 ≤ q ∧ q ≤ 1 then some { dropout := some q } else Option.none) := ⟨rfl, rfl⟩

/-! ## Cases -/

example : behaviorOf (getBehavior .mergedWithNext) = Option.none ∧ behaviorOf (getBehavior .contiguous) = some .contiguous := by
  constructor
  · rw [C99_behavior_partial]; decide
  · rw [C99_behavior_partial]; decide

/-- Two `AddedToken`s. -/
def sampleHeap : Heap := ⟨fun i => if i = 0 then { content := "[CLS]".toList } else { content := "[SEP]".toList }, 2⟩

example : ((setSpecials sampleHeap {} (.list [.token 0, .int 3, .token 1])).1.objs 0).special = true ∧
    ((setSpecials sampleHeap {} (.list [.token 0, .int 3, .token 1])).1.objs 1).special = false ∧
    (setSpecials sampleHeap {} (.list [.token 0, .int 3, .token 1])).2.isNone := by
  have h := C99_specials sampleHeap {} [.token 0, .int 3, .token 1]
  refine ⟨by rw [h.2]; rfl, by rw [h.2]; rfl, by rw [h.1]; rfl⟩

example : TrainerFits { specials := [AddedToken.ofStr "[UNK]".toList true], limit := some 1000, pre := some [], suffix := some "</w>".toList } :=
  ⟨by decide, by decide, fun n h => by cases h; decide, nofun, fun x h => by cases List.mem_singleton.1 h; rfl⟩

example : newModel (modelArgs { pre := some "##".toList, suffix := some [], dropout := some (1 / 2) }) =
    some { pre := some "##".toList, suffix := some [], dropout := some (1 / 2) } := by
  rw [C99_model_partial, if_pos ⟨rfl, rfl, fun q h => by cases h; exact ⟨by decide +kernel, by decide +kernel⟩⟩]

end Tok.PyAttr
