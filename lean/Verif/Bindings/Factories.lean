import Verif.Bindings.Attributes
import Verif.Bindings.Classes

/-!
# C103: components made in Node and in Python

The functions of `bindings/node/src/{normalizers,pre_tokenizers,decoders,processors,models}.rs` that make components, beside the
constructors of `bindings/python/src/{normalizers,pre_tokenizers,decoders,processors,models}.rs` with the same arguments.

A call is written once, with the arguments that are given (`none`: left out), and interpreted for either language. Simplified: numbers
are those that fit into `u32`; `null` of JavaScript is an argument left out, and so it is here for Python (whose `None` is refused by
arguments that are not optional); the conversion of a dropout from `f64` to `f32` is not modelled; patterns are texts (regular
expressions can only be given in Python).
-/

namespace Tok.Factory

open Save

/-! ## Normalizers -/

/-- What can be asked for in both languages. -/
inductive NormCall where
  | bert (cleanText handleChinese stripAccents lowercase : Option Bool)
  | strip (left right : Option Bool)
  | stripAccents
  | nfd
  | nfkd
  | nfc
  | nfkc
  | lowercase
  | nmt
  | replace (pattern content : Str)
  | prepend (s : Str)
  | precompiled (charsmap : Str)
  | sequence (l : List NormCall)

mutual
/-- `bindings/node/src/normalizers.rs:48-188`; `none`: an exception. The elements of a sequence are copied. -/
def nodeNorm (e : Env) : NormCall → Option NormCfg
  | .bert a b c d => some (.bert (a.getD true) (b.getD true) c (d.getD true))
  | .strip a b => some (.strip (a.getD true) (b.getD true))
  | .stripAccents => some .stripAccents
  | .nfd => some .nfd
  | .nfkd => some .nfkd
  | .nfc => some .nfc
  | .nfkc => some .nfkc
  | .lowercase => some .lowercase
  | .nmt => some .nmt
  | .replace p c => if e.compiles (.str p) then some (.replace ⟨.str p, c⟩) else none
  | .prepend s => some (.prepend s)
  | .precompiled b => if e.charsmap b then some (.precompiled b) else none
  | .sequence l => (nodeNorms e l).map .sequence

/-- The elements of a sequence (`normalizers.rs:140-144`). -/
def nodeNorms (e : Env) : List NormCall → Option (List NormCfg)
  | [] => some []
  | c :: l => (nodeNorm e c).bind fun a => (nodeNorms e l).map (a :: ·)
end

/-- `PyNormalizerTypeWrapper`, `PyPreTokenizerTypeWrapper`, `PyPostProcessorTypeWrapper` (`normalizers.rs:869-872`,
`pre_tokenizers.rs:955-958`, `processors.rs:223-226` of `bindings/python/src`). -/
inductive Held (α : Type) where
  | single (a : α)
  | sequence (l : List α)

/-- What is added to the vector of a new sequence (`normalizers.rs:449-452`, `pre_tokenizers.rs:637-642`, `processors.rs:792-797`). -/
def Held.parts : Held α → List α
  | .single a => [a]
  | .sequence l => l

mutual
/-- The constructors of `bindings/python/src/normalizers.rs:303-781`. -/
def pyNorm (e : Env) : NormCall → Option (Held NormCfg)
  | .bert a b c d => some (.single (.bert (a.getD true) (b.getD true) c (d.getD true)))
  | .strip a b => some (.single (.strip (a.getD true) (b.getD true)))
  | .stripAccents => some (.single .stripAccents)
  | .nfd => some (.single .nfd)
  | .nfkd => some (.single .nfkd)
  | .nfc => some (.single .nfc)
  | .nfkc => some (.single .nfkc)
  | .lowercase => some (.single .lowercase)
  | .nmt => some (.single .nmt)
  | .replace p c => if e.compiles (.str p) then some (.single (.replace ⟨.str p, c⟩)) else none
  | .prepend s => some (.single (.prepend s))
  | .precompiled b => if e.charsmap b then some (.single (.precompiled b)) else none
  | .sequence l => (pyNorms e l).map .sequence

/-- The loop over the elements (`normalizers.rs:445-453`). -/
def pyNorms (e : Env) : List NormCall → Option (List NormCfg)
  | [] => some []
  | c :: l => (pyNorm e c).bind fun a => (pyNorms e l).map (a.parts ++ ·)
end

/-- What `PyNormalizerTypeWrapper` does and is saved as (`normalizers.rs:889-904`, `945-959`): a sequence does one after the other. -/
def normOf : Held NormCfg → NormCfg
  | .single n => n
  | .sequence l => .sequence l

/-! ## Pre-tokenizers -/

/-- The names of behaviors in JavaScript (`bindings/node/src/pre_tokenizers.rs:20-37`). -/
def nodeBehavior (s : Str) : Option NS.Behavior :=
  if s = "removed".toList then some .removed
  else if s = "isolated".toList then some .isolated
  else if s = "mergedWithPrevious".toList then some .mergedWithPrevious
  else if s = "mergedWithNext".toList then some .mergedWithNext
  else if s = "contiguous".toList then some .contiguous
  else none

/-- The documented names in JavaScript (`index.d.ts`, `lib/bindings/pre-tokenizers.test.ts`). -/
def jsName : NS.Behavior → Str
  | .removed => "removed".toList
  | .isolated => "isolated".toList
  | .mergedWithPrevious => "mergedWithPrevious".toList
  | .mergedWithNext => "mergedWithNext".toList
  | .contiguous => "contiguous".toList

/-- The documented names in Python. -/
def pyName : NS.Behavior → Str
  | .removed => "removed".toList
  | .isolated => "isolated".toList
  | .mergedWithPrevious => "merged_with_previous".toList
  | .mergedWithNext => "merged_with_next".toList
  | .contiguous => "contiguous".toList

/-- The values of the enumeration `JsSplitDelimiterBehavior` that the package exports (`pre_tokenizers.rs:11-18`,
`index.d.ts:198-204`). -/
def exported : NS.Behavior → Str
  | .removed => "Removed".toList
  | .isolated => "Isolated".toList
  | .mergedWithPrevious => "MergedWithPrevious".toList
  | .mergedWithNext => "MergedWithNext".toList
  | .contiguous => "Contiguous".toList

/-- The match on `prepend_scheme` (`bindings/node/src/pre_tokenizers.rs:165-175`, `decoders.rs:105-115`). -/
def nodeScheme (s : Str) : Option Metaspace.Scheme :=
  if s = "always".toList then some .always
  else if s = "first".toList then some .first
  else if s = "never".toList then some .never
  else none

/-- `from_string` (`bindings/python/src/pre_tokenizers.rs:702-714`). -/
def pyScheme (s : Str) : Option Metaspace.Scheme :=
  if s = "first".toList then some .first
  else if s = "never".toList then some .never
  else if s = "always".toList then some .always
  else none

/-- `metaspace_pre_tokenizer`, `metaspace_decoder` (`bindings/node/src/pre_tokenizers.rs:150-181`, `decoders.rs:91-121`). -/
def nodeMetaspace (replacement scheme : Option Str) (split : Option Bool) : Option MetaspaceCfg :=
  match replacement.getD ['▁'] with
  | [r] => (nodeScheme (scheme.getD "always".toList)).map fun s => ⟨r, s, split.getD true⟩
  | _ => none

/-- `Metaspace` of `bindings/python/src/pre_tokenizers.rs:776-790` and `decoders.rs:465-481`. -/
def pyMetaspace (replacement scheme : Option Str) (split : Option Bool) : Option MetaspaceCfg :=
  match replacement.getD ['▁'] with
  | [r] => (pyScheme (scheme.getD "always".toList)).map fun s => ⟨r, s, split.getD true⟩
  | _ => none

/-- What can be asked for in both languages; a behavior is given by its name in the language. -/
inductive PreCall where
  | byteLevel (addPrefixSpace useRegex : Option Bool)
  | whitespace
  | whitespaceSplit
  | bert
  | metaspace (replacement scheme : Option Str) (split : Option Bool)
  | split (pattern : Str) (behavior : NS.Behavior) (invert : Option Bool)
  | punctuation (behavior : Option NS.Behavior)
  | delimiter (s : Str)
  | digits (individual : Option Bool)
  | sequence (l : List PreCall)

/-- `ByteLevel::default()` (`pre_tokenizers/byte_level.rs:74-82`). -/
def byteLevelDefault : ByteLevelCfg := ⟨true, true, true⟩

mutual
/-- `bindings/node/src/pre_tokenizers.rs:96-255`. -/
def nodePre (e : Env) : PreCall → Option PreCfg
  | .byteLevel a r =>
    let c := byteLevelDefault
    let c := match a with | some a => { c with addPrefixSpace := a } | none => c
    let c := match r with | some r => { c with useRegex := r } | none => c
    some (.byteLevel c)
  | .whitespace => some .whitespace
  | .whitespaceSplit => some .whitespaceSplit
  | .bert => some .bert
  | .metaspace r s b => (nodeMetaspace r s b).map .metaspace
  | .split p b i => (nodeBehavior (jsName b)).bind fun b => if e.compiles (.str p) then some (.split (.str p) b (i.getD false)) else none
  | .punctuation none => some (.punctuation .isolated)
  | .punctuation (some b) => (nodeBehavior (jsName b)).map .punctuation
  | .delimiter [c] => some (.delimiter c)
  | .delimiter _ => none
  | .digits b => some (.digits (b.getD false))
  | .sequence l => (nodePres e l).map .sequence

/-- The elements of a sequence (`pre_tokenizers.rs:218-222`). -/
def nodePres (e : Env) : List PreCall → Option (List PreCfg)
  | [] => some []
  | c :: l => (nodePre e c).bind fun a => (nodePres e l).map (a :: ·)
end

mutual
/-- The constructors of `bindings/python/src/pre_tokenizers.rs:299-889`. -/
def pyPre (e : Env) : PreCall → Option (Held PreCfg)
  | .byteLevel a r => some (.single (.byteLevel ⟨a.getD true, true, r.getD true⟩))
  | .whitespace => some (.single .whitespace)
  | .whitespaceSplit => some (.single .whitespaceSplit)
  | .bert => some (.single .bert)
  | .metaspace r s b => (pyMetaspace r s b).map fun c => .single (.metaspace c)
  | .split p b i => (PyAttr.behaviorOf (.str (pyName b))).bind fun b =>
      if e.compiles (.str p) then some (.single (.split (.str p) b (i.getD false))) else none
  | .punctuation none => some (.single (.punctuation .isolated))
  | .punctuation (some b) => (PyAttr.behaviorOf (.str (pyName b))).map fun b => .single (.punctuation b)
  | .delimiter s => (PyAttr.V.str s).asChar.map fun c => .single (.delimiter c)
  | .digits b => some (.single (.digits (b.getD false)))
  | .sequence l => (pyPres e l).map .sequence

/-- The loop over the elements (`pre_tokenizers.rs:633-643`). -/
def pyPres (e : Env) : List PreCall → Option (List PreCfg)
  | [] => some []
  | c :: l => (pyPre e c).bind fun a => (pyPres e l).map (a.parts ++ ·)
end

/-- What `PyPreTokenizerTypeWrapper` does and is saved as (`pre_tokenizers.rs:971-986`, `1027-1041`). -/
def preOf : Held PreCfg → PreCfg
  | .single n => n
  | .sequence l => .sequence l

/-! ## Decoders -/

/-- What can be asked for in both languages. -/
inductive DecCall where
  | bpe (suffix : Option Str)
  | byteFallback
  | ctc (pad delim : Option Str) (cleanup : Option Bool)
  | fuse
  | metaspace (replacement scheme : Option Str) (split : Option Bool)
  | replace (pattern content : Str)
  | strip (content : Str) (left right : Nat)
  | wordPiece (pre : Option Str) (cleanup : Option Bool)
  | sequence (l : List DecCall)

mutual
/-- `bindings/node/src/decoders.rs:48-177`. `strip_decoder` takes the first character of the text (`:155-157`). -/
def nodeDec (e : Env) : DecCall → Option DecCfg
  | .bpe s => some (.bpe (s.getD "</w>".toList))
  | .byteFallback => some .byteFallback
  | .ctc p d c => some (.ctc (p.getD "<pad>".toList) (d.getD "|".toList) (c.getD true))
  | .fuse => some .fuse
  | .metaspace r s b => (nodeMetaspace r s b).map .metaspace
  | .replace p c => if e.compiles (.str p) then some (.replace ⟨.str p, c⟩) else none
  | .strip s l r => s.head?.map fun c => .strip c l r
  | .wordPiece p c => some (.wordPiece (p.getD "##".toList) (c.getD true))
  | .sequence l => (nodeDecs e l).map .sequence

/-- The elements of a sequence (`decoders.rs:136-145`). -/
def nodeDecs (e : Env) : List DecCall → Option (List DecCfg)
  | [] => some []
  | c :: l => (nodeDec e c).bind fun a => (nodeDecs e l).map (a :: ·)
end

mutual
/-- The constructors of `bindings/python/src/decoders.rs:220-630`; a sequence of decoders is not flattened. -/
def pyDec (e : Env) : DecCall → Option DecCfg
  | .bpe s => some (.bpe (s.getD "</w>".toList))
  | .byteFallback => some .byteFallback
  | .ctc p d c => some (.ctc (p.getD "<pad>".toList) (d.getD "|".toList) (c.getD true))
  | .fuse => some .fuse
  | .metaspace r s b => (pyMetaspace r s b).map .metaspace
  | .replace p c => if e.compiles (.str p) then some (.replace ⟨.str p, c⟩) else none
  | .strip s l r => (PyAttr.V.str s).asChar.map fun c => .strip c l r
  | .wordPiece p c => some (.wordPiece (p.getD "##".toList) (c.getD true))
  | .sequence l => (pyDecs e l).map .sequence

/-- The loop over the elements (`decoders.rs:616-625`). -/
def pyDecs (e : Env) : List DecCall → Option (List DecCfg)
  | [] => some []
  | c :: l => (pyDec e c).bind fun a => (pyDecs e l).map (a :: ·)
end

/-! ## Post-processors -/

/-- What can be asked for in both languages. -/
inductive ProcCall where
  | bert (sep cls : Str × Nat)
  | roberta (sep cls : Str × Nat) (trim addPrefixSpace : Option Bool)
  | byteLevel (trim : Option Bool)
  | template (single : Str) (pair : Option Str) (specials : Option (List (Str × Nat)))
  | sequence (l : List ProcCall)

/-- `From<(String, u32)> for SpecialToken` (`processors/template.rs:202-210`). -/
def specialOf (p : Str × Nat) : Post.SpecialToken := ⟨p.1, [p.2], [p.1]⟩

mutual
/-- `bindings/node/src/processors.rs:44-126`. -/
def nodeProc : ProcCall → Option ProcCfg
  | .bert s c => some (.bert s c)
  | .roberta s c t a => some (.roberta s c (t.getD true) (a.getD true))
  | .byteLevel t =>
    some (.byteLevel (match t with | some t => { byteLevelDefault with trimOffsets := t } | none => byteLevelDefault))
  | .template single pair specials =>
    (Post.parseTemplate single).bind fun a =>
      match pair with
      | none => (Post.build (some a) none (some (Post.Tokens.ofList ((specials.getD []).map specialOf)))).map .template
      | some p => (Post.parseTemplate p).bind fun b =>
          (Post.build (some a) (some b) (some (Post.Tokens.ofList ((specials.getD []).map specialOf)))).map .template
  | .sequence l => (nodeProcs l).map .sequence

/-- The elements of a sequence (`processors.rs:110-119`). -/
def nodeProcs : List ProcCall → Option (List ProcCfg)
  | [] => some []
  | c :: l => (nodeProc c).bind fun a => (nodeProcs l).map (a :: ·)
end

/-- An argument of Python that may be left out and is converted when it is given. -/
def given (f : α → Option β) : Option α → Option (Option β)
  | none => some none
  | some a => (f a).map some

mutual
/-- The constructors of `bindings/python/src/processors.rs:332-805`. The arguments are converted before the body runs. -/
def pyProc : ProcCall → Option (Held ProcCfg)
  | .bert s c => some (.single (.bert s c))
  | .roberta s c t a => some (.single (.roberta s c (t.getD true) (a.getD true)))
  | .byteLevel t =>
    some (.single (.byteLevel (match t with | some t => { byteLevelDefault with trimOffsets := t } | none => byteLevelDefault)))
  | .template single pair specials =>
    (given Post.parseTemplate (some single)).bind fun a => (given Post.parseTemplate pair).bind fun b =>
      (Post.build a b (specials.map fun l => Post.Tokens.ofList (l.map specialOf))).map fun t => .single (.template t)
  | .sequence l => (pyProcs l).map .sequence

/-- The loop over the elements (`processors.rs:788-798`). -/
def pyProcs : List ProcCall → Option (List ProcCfg)
  | [] => some []
  | c :: l => (pyProc c).bind fun a => (pyProcs l).map (a.parts ++ ·)
end

/-- What `PyPostProcessorTypeWrapper` does and is saved as (`processors.rs:228-264`, `276-291`). -/
def procOf : Held ProcCfg → ProcCfg
  | .single n => n
  | .sequence l => .sequence l

/-! ## Models -/

/-- `BpeOptions` (`bindings/node/src/models.rs:164-174`) without the capacity of the cache. -/
structure BpeOpts where
  dropout : Option Rat := none
  unk : Option Str := none
  pre : Option Str := none
  suf : Option Str := none
  fuseUnk : Option Bool := none
  byteFallback : Option Bool := none

/-- `BPE.init` with `apply_to_bpe_builder` (`bindings/node/src/models.rs:48-64, 176-200`). -/
def nodeBpe (vocab : AMap Str Nat) (merges : List (Str × Str)) (o : Option BpeOpts) : Option Mod :=
  let o := o.getD {}
  (Classes.mkBpe (some (vocab, merges)) o.dropout
    { Classes.noBpe with unk := o.unk, pre := o.pre, suf := o.suf, fuseUnk := o.fuseUnk.getD false, byteFallback := o.byteFallback.getD false }).toOption

/-- The keyword arguments of Python for these options. -/
def kwargs (o : BpeOpts) : List (Str × PyAttr.V) :=
  (o.dropout.toList.map fun q => ("dropout".toList, .float q)) ++ (o.unk.toList.map fun s => ("unk_token".toList, .str s)) ++
  (o.pre.toList.map fun s => ("continuing_subword_prefix".toList, .str s)) ++ (o.suf.toList.map fun s => ("end_of_word_suffix".toList, .str s)) ++
  (o.fuseUnk.toList.map fun b => ("fuse_unk".toList, .bool b)) ++ (o.byteFallback.toList.map fun b => ("byte_fallback".toList, .bool b))

/-- `BPE(vocab, merges, **kwargs)` (`bindings/python/src/models.rs:295-337, 455-487`). -/
def pyBpe (vocab : AMap Str Nat) (merges : List (Str × Str)) (kw : List (Str × PyAttr.V)) : Option Mod :=
  (PyAttr.newModel kw).bind fun o =>
    (Classes.mkBpe (some (vocab, merges)) o.dropout
      { Classes.noBpe with unk := o.unk, pre := o.pre, suf := o.suffix, fuseUnk := o.fuseUnk, byteFallback := o.byteFallback,
                           ignoreMerges := o.ignoreMerges }).toOption

/-- `Unigram.init` (`bindings/node/src/models.rs:340-353`). -/
def nodeUnigram (vocab : List (Str × Rat)) (unkId : Option Nat) (byteFallback : Option Bool) : Option Unigram :=
  match Unigram.from vocab unkId (byteFallback.getD false) with
  | .ok u => some u
  | _ => none

/-- `Unigram(vocab, unk_id, byte_fallback)` (`bindings/python/src/models.rs:955-991`), without sampling. -/
def pyUnigram (vocab : Option (List (Str × Rat))) (unkId : Option Nat) (byteFallback : Option Bool) : Option Unigram :=
  match vocab, unkId with
  | some v, u =>
    match Unigram.from v u (byteFallback.getD false) with
    | .ok u => some u
    | _ => none
  | none, none =>
    match Unigram.from [("<unk>".toList, 0)] (some 0) false with
    | .ok u => some u
    | _ => none
  | none, some _ => none

/-! ## The claim -/

/-- Both refuse, or both make something and the two agree. -/
def Agree (R : α → β → Prop) : Option α → Option β → Prop
  | none, none => True
  | some a, some b => R a b
  | _, _ => False

theorem Agree.none_iff {R : α → β → Prop} {x : Option α} {y : Option β} (h : Agree R x y) : x = none ↔ y = none := by
  cases x <;> cases y <;> simp_all [Agree]

theorem agree_self {R : α → α → Prop} (h : ∀ a, R a a) : ∀ x : Option α, Agree R x x
  | none => trivial
  | some a => h a

theorem normAll_append (u : Unicode) : ∀ (l l' : List Normalizer) (n : NS),
    Normalizer.applyAll u (l ++ l') n = (Normalizer.applyAll u l n).bind (Normalizer.applyAll u l')
  | [], l', n => by simp [Normalizer.applyAll]
  | z :: l, l', n => by
    simp only [List.cons_append, Normalizer.applyAll]
    cases Normalizer.apply u z n with
    | none => rfl
    | some m => exact normAll_append u l l' m

theorem toNorms_append (w : World) : ∀ l l' : List NormCfg, w.toNorms (l ++ l') = w.toNorms l ++ w.toNorms l'
  | [], _ => by simp [World.toNorms]
  | n :: l, l' => by simp [World.toNorms, toNorms_append w l l']

/-- What the parts of a Python normalizer do one after the other is what it does. -/
theorem parts_norm (w : World) (h : Held NormCfg) (n : NS) :
    Normalizer.applyAll w.uni (w.toNorms h.parts) n = (w.toNorm (normOf h)).apply w.uni n := by
  cases h with
  | single a => simp [Held.parts, normOf, World.toNorms, Normalizer.applyAll]
  | sequence l => simp [Held.parts, normOf, World.toNorm, Normalizer.apply]

mutual
/-- **C103, normalizers.** -/
theorem C103_normalizers (e : Env) (c : NormCall) :
    Agree (fun a h => ∀ (w : World) (n : NS), (w.toNorm a).apply w.uni n = (w.toNorm (normOf h)).apply w.uni n) (nodeNorm e c) (pyNorm e c) := by
  cases c with
  | bert a b c d => intro w n; rfl
  | strip a b => intro w n; rfl
  | stripAccents => intro w n; rfl
  | nfd => intro w n; rfl
  | nfkd => intro w n; rfl
  | nfc => intro w n; rfl
  | nfkc => intro w n; rfl
  | lowercase => intro w n; rfl
  | nmt => intro w n; rfl
  | replace p c =>
    simp only [nodeNorm, pyNorm]
    split
    · intro w n; rfl
    · trivial
  | prepend s => intro w n; rfl
  | precompiled b =>
    simp only [nodeNorm, pyNorm]
    split
    · intro w n; rfl
    · trivial
  | sequence l =>
    have := norms_agree e l
    simp only [nodeNorm, pyNorm]
    cases h1 : nodeNorms e l <;> cases h2 : pyNorms e l <;> rw [h1, h2] at this
    · trivial
    · exact this.elim
    · exact this.elim
    · intro w n
      exact this w n

theorem norms_agree (e : Env) (l : List NormCall) :
    Agree (fun a b => ∀ (w : World) (n : NS), Normalizer.applyAll w.uni (w.toNorms a) n = Normalizer.applyAll w.uni (w.toNorms b) n)
      (nodeNorms e l) (pyNorms e l) := by
  cases l with
  | nil => intro w n; rfl
  | cons c l =>
    have h1 := C103_normalizers e c
    have h2 := norms_agree e l
    simp only [nodeNorms, pyNorms]
    cases k1 : nodeNorm e c <;> cases k2 : pyNorm e c <;> rw [k1, k2] at h1
    · trivial
    · exact h1.elim
    · exact h1.elim
    · cases k3 : nodeNorms e l <;> cases k4 : pyNorms e l <;> rw [k3, k4] at h2
      · trivial
      · exact h2.elim
      · exact h2.elim
      · intro w n
        rename_i a h as bs
        show Normalizer.applyAll w.uni (w.toNorms (a :: as)) n = Normalizer.applyAll w.uni (w.toNorms (h.parts ++ bs)) n
        rw [toNorms_append, normAll_append, parts_norm, ← h1 w n]
        simp only [World.toNorms, Normalizer.applyAll]
        exact congrArg _ (funext fun m => h2 w m)
end

theorem preAll_append (u : CharTables) : ∀ (l l' : List PreTokenizer) (p : PTS),
    PreTokenizer.applyAll u (l ++ l') p = (PreTokenizer.applyAll u l p).bind (PreTokenizer.applyAll u l')
  | [], l', p => by simp [PreTokenizer.applyAll, Except.bind]
  | z :: l, l', p => by
    simp only [List.cons_append, PreTokenizer.applyAll]
    cases PreTokenizer.apply u z p with
    | error e => rfl
    | ok m => exact preAll_append u l l' m

theorem toPres_append (w : World) : ∀ l l' : List PreCfg, w.toPres (l ++ l') = w.toPres l ++ w.toPres l'
  | [], _ => by simp [World.toPres]
  | n :: l, l' => by simp [World.toPres, toPres_append w l l']

theorem parts_pre (w : World) (h : Held PreCfg) (p : PTS) :
    PreTokenizer.applyAll w.tables (w.toPres h.parts) p = (w.toPre (preOf h)).apply w.tables p := by
  cases h with
  | single a =>
    simp only [Held.parts, preOf, World.toPres, PreTokenizer.applyAll]
    cases PreTokenizer.apply w.tables (w.toPre a) p <;> rfl
  | sequence l => simp [Held.parts, preOf, World.toPre, PreTokenizer.apply]

theorem scheme_same (s : Str) : nodeScheme s = pyScheme s := by
  unfold nodeScheme pyScheme
  split
  · rename_i h; rw [h]; decide
  · rfl

theorem metaspace_same (r s : Option Str) (b : Option Bool) : nodeMetaspace r s b = pyMetaspace r s b := by
  unfold nodeMetaspace pyMetaspace
  simp only [scheme_same]

theorem behavior_js (b : NS.Behavior) : nodeBehavior (jsName b) = some b := by cases b <;> decide
theorem behavior_py (b : NS.Behavior) : PyAttr.behaviorOf (.str (pyName b)) = some b := by cases b <;> decide

mutual
/-- **C103, pre-tokenizers.** -/
theorem C103_preTokenizers (e : Env) (c : PreCall) :
    Agree (fun a h => ∀ (w : World) (p : PTS), (w.toPre a).apply w.tables p = (w.toPre (preOf h)).apply w.tables p) (nodePre e c) (pyPre e c) := by
  cases c with
  | byteLevel a r => intro w p; cases a <;> cases r <;> rfl
  | whitespace => intro w p; rfl
  | whitespaceSplit => intro w p; rfl
  | bert => intro w p; rfl
  | metaspace r s b =>
    simp only [nodePre, pyPre, metaspace_same]
    cases pyMetaspace r s b with
    | none => trivial
    | some c => intro w p; rfl
  | split p b i =>
    simp only [nodePre, pyPre, behavior_js, behavior_py, Option.bind_some]
    split
    · intro w p; rfl
    · trivial
  | punctuation b =>
    cases b with
    | none => intro w p; rfl
    | some b =>
      simp only [nodePre, pyPre, behavior_js, behavior_py]
      intro w p; rfl
  | delimiter s =>
    match s with
    | [] => trivial
    | [c] => intro w p; rfl
    | _ :: _ :: _ => trivial
  | digits b => intro w p; rfl
  | sequence l =>
    have := pres_agree e l
    simp only [nodePre, pyPre]
    cases h1 : nodePres e l <;> cases h2 : pyPres e l <;> rw [h1, h2] at this
    · trivial
    · exact this.elim
    · exact this.elim
    · intro w n
      exact this w n

theorem pres_agree (e : Env) (l : List PreCall) :
    Agree (fun a b => ∀ (w : World) (p : PTS), PreTokenizer.applyAll w.tables (w.toPres a) p = PreTokenizer.applyAll w.tables (w.toPres b) p)
      (nodePres e l) (pyPres e l) := by
  cases l with
  | nil => intro w n; rfl
  | cons c l =>
    have h1 := C103_preTokenizers e c
    have h2 := pres_agree e l
    simp only [nodePres, pyPres]
    cases k1 : nodePre e c <;> cases k2 : pyPre e c <;> rw [k1, k2] at h1
    · trivial
    · exact h1.elim
    · exact h1.elim
    · cases k3 : nodePres e l <;> cases k4 : pyPres e l <;> rw [k3, k4] at h2
      · trivial
      · exact h2.elim
      · exact h2.elim
      · intro w p
        rename_i a h as bs
        show PreTokenizer.applyAll w.tables (w.toPres (a :: as)) p = PreTokenizer.applyAll w.tables (w.toPres (h.parts ++ bs)) p
        rw [toPres_append, preAll_append, parts_pre, ← h1 w p]
        simp only [World.toPres, PreTokenizer.applyAll]
        cases PreTokenizer.apply w.tables (w.toPre a) p with
        | error e => rfl
        | ok m => exact h2 w m
end

/-- The behaviors that JavaScript accepts are the five names and nothing else. -/
theorem C103_behaviors (s : Str) (b : NS.Behavior) : nodeBehavior s = some b ↔ s = jsName b := by
  constructor
  · intro h
    unfold nodeBehavior at h
    split at h
    · cases h; assumption
    split at h
    · cases h; assumption
    split at h
    · cases h; assumption
    split at h
    · cases h; assumption
    split at h
    · cases h; assumption
    · cases h
  · rintro rfl; exact behavior_js b

/-- **C103 fails for the exported enumeration**: none of its values is accepted where a behavior is asked for; the value
with a small first letter is the name of the behavior it stands for. -/
theorem C103_exported (b : NS.Behavior) : nodeBehavior (exported b) = none ∧
    nodeBehavior ((exported b).modifyHead Char.toLower) = some b := by cases b <;> decide

/-- No `strip` decoder in the call is given a text of several characters. -/
def DecCall.Plain : DecCall → Prop
  | .strip s _ _ => s.length ≤ 1
  | .sequence l => PlainAll l
  | _ => True
where
  PlainAll : List DecCall → Prop
    | [] => True
    | c :: l => c.Plain ∧ PlainAll l

mutual
/-- **C103, decoders** (`_partial`): unless a `strip` decoder is given a text of several characters, the two are equal. -/
theorem C103_decoders_partial (e : Env) (c : DecCall) (h : c.Plain) : nodeDec e c = pyDec e c := by
  cases c with
  | bpe s => rfl
  | byteFallback => rfl
  | ctc p d c => rfl
  | fuse => rfl
  | metaspace r s b => simp only [nodeDec, pyDec, metaspace_same]
  | replace p c => rfl
  | strip s l r =>
    match s, h with
    | [], _ => rfl
    | [c], _ => rfl
    | _ :: _ :: _, h => simp [DecCall.Plain] at h
  | wordPiece p c => rfl
  | sequence l => simp only [nodeDec, pyDec, decs_same e l h]

theorem decs_same (e : Env) (l : List DecCall) (h : DecCall.Plain.PlainAll l) : nodeDecs e l = pyDecs e l := by
  cases l with
  | nil => rfl
  | cons c l => simp only [nodeDecs, pyDecs, C103_decoders_partial e c h.1, decs_same e l h.2]
end

/-- **C103 fails for the `strip` decoder**: Python refuses a text of several characters, Node takes the first of them. -/
theorem C103_strip (e : Env) (c d : Char) (s : Str) (l r : Nat) :
    pyDec e (.strip (c :: d :: s) l r) = none ∧ nodeDec e (.strip (c :: d :: s) l r) = nodeDec e (.strip [c] l r) := ⟨rfl, rfl⟩

theorem addedAll_append (b : Bool) : ∀ l l' : List Post.Proc, Post.addedAll b (l ++ l') = Post.addedAll b l + Post.addedAll b l'
  | [], _ => by simp [Post.addedAll]
  | p :: l, l' => by simp [Post.addedAll, addedAll_append b l l', Nat.add_assoc]

theorem processAll_append (ws : Char → Bool) (b : Bool) : ∀ (l l' : List Post.Proc) (es : List Encoding),
    Post.processAll ws b (l ++ l') es = (Post.processAll ws b l es).bind (Post.processAll ws b l')
  | [], _, _ => by simp [Post.processAll]
  | p :: l, l', es => by
    simp only [List.cons_append, Post.processAll]
    cases p.processEncodings ws b es with
    | none => rfl
    | some m => exact processAll_append ws b l l' m

theorem toProcs_append : ∀ l l' : List ProcCfg, ProcCfg.toProcs (l ++ l') = ProcCfg.toProcs l ++ ProcCfg.toProcs l'
  | [], _ => by simp [ProcCfg.toProcs]
  | n :: l, l' => by simp [ProcCfg.toProcs, toProcs_append l l']

/-- Two post-processors report the same number of tokens and do the same to encodings. -/
def SameProc (p q : Post.Proc) : Prop :=
  (∀ b, p.added b = q.added b) ∧ ∀ ws b es, p.processEncodings ws b es = q.processEncodings ws b es

theorem parts_proc (h : Held ProcCfg) : SameProc (.sequence (ProcCfg.toProcs h.parts)) (procOf h).toProc := by
  cases h with
  | single a =>
    refine ⟨fun b => by simp [Held.parts, procOf, ProcCfg.toProcs, Post.Proc.added, Post.addedAll], fun ws b es => ?_⟩
    simp only [Held.parts, procOf, ProcCfg.toProcs, Post.Proc.processEncodings, Post.processAll]
    cases a.toProc.processEncodings ws b es <;> rfl
  | sequence l => exact ⟨fun b => rfl, fun ws b es => rfl⟩

mutual
/-- **C103, post-processors.** -/
theorem C103_processors (c : ProcCall) : Agree (fun a h => SameProc a.toProc (procOf h).toProc) (nodeProc c) (pyProc c) := by
  cases c with
  | bert s c => exact ⟨fun _ => rfl, fun _ _ _ => rfl⟩
  | roberta s c t a => exact ⟨fun _ => rfl, fun _ _ _ => rfl⟩
  | byteLevel t => exact ⟨fun _ => rfl, fun _ _ _ => rfl⟩
  | template single pair specials =>
    simp only [nodeProc, pyProc, given]
    cases Post.parseTemplate single with
    | none => trivial
    | some a =>
      have hsp : ∀ b, (Post.build (some a) b (some (Post.Tokens.ofList ((specials.getD []).map specialOf)))) =
          Post.build (some a) b (specials.map fun l => Post.Tokens.ofList (l.map specialOf)) := by
        intro b
        cases specials <;> rfl
      cases pair with
      | none =>
        simp only [Option.map_some, Option.bind_some, hsp]
        cases Post.build (some a) none (specials.map fun l => Post.Tokens.ofList (l.map specialOf)) with
        | none => trivial
        | some t => exact ⟨fun _ => rfl, fun _ _ _ => rfl⟩
      | some p =>
        simp only [Option.map_some, Option.bind_some, hsp]
        cases Post.parseTemplate p with
        | none => trivial
        | some b =>
          simp only [Option.map_some, Option.bind_some]
          cases Post.build (some a) (some b) (specials.map fun l => Post.Tokens.ofList (l.map specialOf)) with
          | none => trivial
          | some t => exact ⟨fun _ => rfl, fun _ _ _ => rfl⟩
  | sequence l =>
    have := procs_agree l
    simp only [nodeProc, pyProc]
    cases h1 : nodeProcs l <;> cases h2 : pyProcs l <;> rw [h1, h2] at this
    · trivial
    · exact this.elim
    · exact this.elim
    · exact this

theorem procs_agree (l : List ProcCall) :
    Agree (fun a b => SameProc (.sequence (ProcCfg.toProcs a)) (.sequence (ProcCfg.toProcs b))) (nodeProcs l) (pyProcs l) := by
  cases l with
  | nil => exact ⟨fun _ => rfl, fun _ _ _ => rfl⟩
  | cons c l =>
    have h1 := C103_processors c
    have h2 := procs_agree l
    simp only [nodeProcs, pyProcs]
    cases k1 : nodeProc c <;> cases k2 : pyProc c <;> rw [k1, k2] at h1
    · trivial
    · exact h1.elim
    · exact h1.elim
    · cases k3 : nodeProcs l <;> cases k4 : pyProcs l <;> rw [k3, k4] at h2
      · trivial
      · exact h2.elim
      · exact h2.elim
      · rename_i a h as bs
        have hp := parts_proc h
        refine ⟨fun b => ?_, fun ws b es => ?_⟩
        · have e1 := h1.1 b
          have e2 := h2.1 b
          have e3 := hp.1 b
          simp only [Post.Proc.added] at e2 e3
          simp only [Post.Proc.added, ProcCfg.toProcs, toProcs_append, addedAll_append, Post.addedAll, e1, e2, e3]
        · have e1 := h1.2 ws b es
          have e3 := hp.2 ws b es
          simp only [Post.Proc.processEncodings] at e3
          simp only [Post.Proc.processEncodings, ProcCfg.toProcs, toProcs_append, processAll_append, Post.processAll, e1, e3]
          exact congrArg _ (funext fun m => h2.2 ws b m)
end

/-- **C103, the ids of a template.** The token and the id given last for a special name are those the template inserts for it,
in both languages. -/
theorem C103_template_ids {single : Str} {pair : Option Str} {before after : List (Str × Nat)} {name : Str} {i : Nat}
    (hlast : ∀ q ∈ after, q.1 ≠ name) :
    (∀ t, nodeProc (.template single pair (some (before ++ (name, i) :: after))) = some (.template t) →
        t.specials.get name = some ⟨name, [i], [name]⟩) ∧
    (∀ t, pyProc (.template single pair (some (before ++ (name, i) :: after))) = some (.single (.template t)) →
        t.specials.get name = some ⟨name, [i], [name]⟩) := by
  have hget : (Post.Tokens.ofList ((before ++ (name, i) :: after).map specialOf)).get name = some ⟨name, [i], [name]⟩ := by
    have hnone : List.find? (fun p : Str × Post.SpecialToken => decide (p.1 = name))
        ((after.map specialOf).map fun t => (t.id, t)).reverse = none := by
      rw [List.find?_eq_none]
      intro p hp
      simp only [List.mem_reverse, List.map_map, List.mem_map] at hp
      obtain ⟨q, hq, rfl⟩ := hp
      simp [specialOf, hlast q hq]
    rw [Post.Tokens.ofList, get_extend]
    simp only [List.map_append, List.map_cons, List.reverse_append, List.reverse_cons, List.find?_append, hnone, Option.none_or]
    simp [specialOf]
  have hb : ∀ a b t, Post.build a b (some (Post.Tokens.ofList ((before ++ (name, i) :: after).map specialOf))) = some t →
      t.specials.get name = some ⟨name, [i], [name]⟩ := by
    intro a b t h
    simp only [Post.build] at h
    split at h
    · obtain rfl := Option.some.inj h
      exact hget
    · cases h
  constructor
  · intro t h
    simp only [nodeProc, Option.bind_eq_some_iff] at h
    obtain ⟨a, _, h⟩ := h
    split at h
    · obtain ⟨t', h', e⟩ := Option.map_eq_some_iff.1 h
      cases e
      exact hb _ _ _ h'
    · obtain ⟨b, _, h⟩ := Option.bind_eq_some_iff.1 h
      obtain ⟨t', h', e⟩ := Option.map_eq_some_iff.1 h
      cases e
      exact hb _ _ _ h'
  · intro t h
    simp only [pyProc, Option.bind_eq_some_iff] at h
    obtain ⟨a, _, b, _, h⟩ := h
    obtain ⟨t', h', e⟩ := Option.map_eq_some_iff.1 h
    cases e
    exact hb _ _ _ h'

/-- A template that uses a name given twice: the later id counts. -/
example : ∃ t, nodeProc (.template "[CLS] $A".toList none (some [("[CLS]".toList, 1), ("[CLS]".toList, 7)])) = some (.template t) ∧
    t.specials.get "[CLS]".toList = some ⟨"[CLS]".toList, [7], ["[CLS]".toList]⟩ := by
  refine ⟨_, rfl, ?_⟩
  decide +kernel

/-! ## Models -/

theorem kwargs_fold (o : BpeOpts) : (kwargs o).foldlM (fun o p => PyAttr.modelStep o p.1 p.2) {} =
    some ⟨o.dropout, o.unk, o.pre, o.suf, o.fuseUnk.getD false, o.byteFallback.getD false, false⟩ := by
  obtain ⟨d, u, p, s, f, b⟩ := o
  cases d <;> cases u <;> cases p <;> cases s <;> cases f <;> cases b <;> rfl

/-- The documentation of the Node function gives `stripAccents` the default `true`; left out, it takes the value of `lowercase`. -/
theorem C103_bert_default (e : Env) (a b : Option Bool) (l : Bool) :
    Agree (fun x y => ∀ (w : World) (n : NS), (w.toNorm x).apply w.uni n = (w.toNorm y).apply w.uni n)
      (nodeNorm e (.bert a b none (some l))) (nodeNorm e (.bert a b (some l) (some l))) := by
  intro w n
  rfl

/-- **C103, BPE models.** -/
theorem C103_bpe (vocab : AMap Str Nat) (merges : List (Str × Str)) (o : Option BpeOpts) :
    nodeBpe vocab merges o = pyBpe vocab merges (kwargs (o.getD {})) := by
  unfold nodeBpe pyBpe PyAttr.newModel
  rw [kwargs_fold]
  dsimp only [Option.bind_some]
  cases hd : (o.getD {}).dropout with
  | none => rfl
  | some q =>
    dsimp only
    split
    · rfl
    · rename_i hq
      have : dropoutOk (some q) = false := by
        simp only [dropoutOk, Bool.and_eq_false_iff, decide_eq_false_iff_not]
        by_cases h : 0 ≤ q
        · exact .inr fun h' => hq ⟨h, h'⟩
        · exact .inl h
      simp [Classes.mkBpe, this, Except.toOption]

/-- **C103, Unigram models** with a vocabulary. -/
theorem C103_unigram (vocab : List (Str × Rat)) (unkId : Option Nat) (byteFallback : Option Bool) :
    nodeUnigram vocab unkId byteFallback = pyUnigram (some vocab) unkId byteFallback := rfl

/-- Without a vocabulary Python refuses an unknown id, but ignores `byte_fallback` without a word. -/
theorem C103_unigram_ignored (b b' : Option Bool) (k : Nat) :
    pyUnigram none none b = pyUnigram none none b' ∧ pyUnigram none (some k) b = none := ⟨rfl, rfl⟩

/-! ## Whole tokenizers -/

/-- A tokenizer with the components made by calls; the rest is given by `base`. -/
structure Recipe where
  base : Conf
  normalizer : Option NormCall
  preTok : Option PreCall
  proc : Option ProcCall
  decoder : Option DecCall

/-- The components of the recipe made in JavaScript and set on the tokenizer (`bindings/node/src/tokenizer.rs:206-250`);
`none` if one of them is refused. -/
def Recipe.node (e : Env) (r : Recipe) : Option Conf :=
  (given (nodeNorm e) r.normalizer).bind fun n => (given (nodePre e) r.preTok).bind fun p =>
  (given nodeProc r.proc).bind fun q => (given (nodeDec e) r.decoder).bind fun d =>
  some { r.base with normalizer := n, preTok := p, proc := q, decoder := d }

/-- The same in Python (`bindings/python/src/tokenizer.rs:1905-1975`). -/
def Recipe.py (e : Env) (r : Recipe) : Option Conf :=
  (given (pyNorm e) r.normalizer).bind fun n => (given (pyPre e) r.preTok).bind fun p =>
  (given pyProc r.proc).bind fun q => (given (pyDec e) r.decoder).bind fun d =>
  some { r.base with normalizer := n.map normOf, preTok := p.map preOf, proc := q.map procOf, decoder := d }

theorem sameProc_post (ws : Char → Bool) (checked : Bool) (tr : Option TruncParams) (pad : Option PadParams) (p q : Option Post.Proc)
    (h : match p, q with | none, none => True | some a, some b => SameProc a b | _, _ => False)
    (e : Encoding) (pair : Option Encoding) (add : Bool) :
    (⟨tr, pad, p⟩ : Post.Settings).postProcess ws checked e pair add = (⟨tr, pad, q⟩ : Post.Settings).postProcess ws checked e pair add := by
  match p, q, h with
  | none, none, _ => rfl
  | some a, some b, h =>
    have h1 : ∀ x, (⟨tr, pad, some a⟩ : Post.Settings).added x = (⟨tr, pad, some b⟩ : Post.Settings).added x := fun x => h.1 x
    have h2 : ∀ x y, (⟨tr, pad, some a⟩ : Post.Settings).finish ws x y add = (⟨tr, pad, some b⟩ : Post.Settings).finish ws x y add := by
      intro x y
      simp only [Post.Settings.finish, Post.Proc.process, h.2]
    simp only [Post.Settings.postProcess, Post.Settings.truncate, h1, h2]
    rfl

/-- Two tokenizers that differ in the processor alone, and in it only in form, encode and decode alike. -/
theorem same_encode (t : Tokenizer) (q : Option Post.Proc)
    (h : match t.settings.processor, q with | none, none => True | some a, some b => SameProc a b | _, _ => False)
    (ty : PTS.OffsetType) (input : Tokenizer.Input × Option Tokenizer.Input) (add : Bool) :
    ({ t with settings := { t.settings with processor := q } } : Tokenizer).encodeAs ty input add = t.encodeAs ty input add := by
  obtain ⟨cl, ws, ch, ad, no, pr, mo, vi, vo, ⟨tr, pad, p⟩, de⟩ := t
  unfold Tokenizer.encodeAs Tokenizer.encodeBy
  simp only [sameProc_post ws ch tr pad p q h]
  rfl

/-- **C103 for whole tokenizers**: whatever its components, a tokenizer put together in JavaScript and the one put together in
Python by the same calls exist alike; they prepare added tokens, encode every input and decode every sequence of ids alike. -/
theorem C103_tokenizer (e : Env) (r : Recipe) (hd : ∀ d, r.decoder = some d → d.Plain) :
    Agree (fun c c' => ∀ w : World, w.norm c.normalizer = w.norm c'.normalizer ∧
        (∀ ty input add, (w.tokenizer c).encodeAs ty input add = (w.tokenizer c').encodeAs ty input add) ∧
        ∀ skip ids, (w.tokenizer c).decode skip ids = (w.tokenizer c').decode skip ids)
      (r.node e) (r.py e) := by
  obtain ⟨base, n, p, q, d⟩ := r
  unfold Recipe.node Recipe.py
  dsimp only at hd ⊢
  have hN : Agree (fun a h => ∀ w : World, w.norm a = w.norm (h.map normOf) ∧ w.normalizer a = w.normalizer (h.map normOf))
      (given (nodeNorm e) n) (given (pyNorm e) n) := by
    cases n with
    | none => exact fun w => ⟨rfl, rfl⟩
    | some c =>
      have := C103_normalizers e c
      simp only [given]
      cases h1 : nodeNorm e c <;> cases h2 : pyNorm e c <;> rw [h1, h2] at this
      · trivial
      · exact this.elim
      · exact this.elim
      · intro w
        refine ⟨congrArg some (funext fun s => ?_), funext fun m => this w m⟩
        exact congrArg (Option.map _) (this w _)
  have hP : Agree (fun a h => ∀ w : World, w.preTok a = w.preTok (h.map preOf)) (given (nodePre e) p) (given (pyPre e) p) := by
    cases p with
    | none => exact fun w => rfl
    | some c =>
      have := C103_preTokenizers e c
      simp only [given]
      cases h1 : nodePre e c <;> cases h2 : pyPre e c <;> rw [h1, h2] at this
      · trivial
      · exact this.elim
      · exact this.elim
      · intro w
        refine funext fun m => ?_
        simp only [World.preTok, Option.map_some, this w m]
  have hQ : Agree (fun (a : Option ProcCfg) (h : Option (Held ProcCfg)) =>
      match a.map (·.toProc), (h.map procOf).map (·.toProc) with | none, none => True | some a, some b => SameProc a b | _, _ => False)
      (given nodeProc q) (given pyProc q) := by
    cases q with
    | none => trivial
    | some c =>
      have := C103_processors c
      simp only [given]
      cases h1 : nodeProc c <;> cases h2 : pyProc c <;> rw [h1, h2] at this
      · trivial
      · exact this.elim
      · exact this.elim
      · exact this
  have hD : given (nodeDec e) d = given (pyDec e) d := by
    cases d with
    | none => rfl
    | some c => simp only [given, C103_decoders_partial e c (hd c rfl)]
  rw [hD]
  cases k1 : given (nodeNorm e) n <;> cases k2 : given (pyNorm e) n <;> rw [k1, k2] at hN
  · trivial
  · exact hN.elim
  · exact hN.elim
  rename_i n1 n2
  cases k1 : given (nodePre e) p <;> cases k2 : given (pyPre e) p <;> rw [k1, k2] at hP
  · trivial
  · exact hP.elim
  · exact hP.elim
  rename_i p1 p2
  cases k1 : given nodeProc q <;> cases k2 : given pyProc q <;> rw [k1, k2] at hQ
  · trivial
  · exact hQ.elim
  · exact hQ.elim
  rename_i q1 q2
  cases given (pyDec e) d with
  | none => trivial
  | some d =>
    intro w
    refine ⟨(hN w).1, fun ty input add => ?_, fun skip ids => rfl⟩
    have := same_encode (w.tokenizer { base with normalizer := n1, preTok := p1, proc := q1, decoder := d })
      ((q2.map procOf).map (·.toProc)) hQ ty input add
    rw [← this]
    unfold World.tokenizer
    dsimp only
    rw [(hN w).2, hP w]

/-! ## Samples -/

/-- A sequence in a sequence: Python flattens it, Node nests it. -/
example (e : Env) : nodeNorm e (.sequence [.sequence [.nfd, .stripAccents], .lowercase]) =
      some (.sequence [.sequence [.nfd, .stripAccents], .lowercase]) ∧
    (pyNorm e (.sequence [.sequence [.nfd, .stripAccents], .lowercase])).map normOf = some (.sequence [.nfd, .stripAccents, .lowercase]) := ⟨rfl, rfl⟩

/-- A decoder for `strip` that Node makes and Python refuses. -/
example (e : Env) : nodeDec e (.strip "ab".toList 1 0) = some (.strip 'a' 1 0) ∧ pyDec e (.strip "ab".toList 1 0) = none := ⟨rfl, rfl⟩

/-- What is exported as `SplitDelimiterBehavior.MergedWithPrevious` and what must be passed. -/
example : exported .mergedWithPrevious = "MergedWithPrevious".toList ∧ jsName .mergedWithPrevious = "mergedWithPrevious".toList ∧
    pyName .mergedWithPrevious = "merged_with_previous".toList := ⟨rfl, rfl, rfl⟩

/-- A dropout of 3/2 is refused by both. -/
example : nodeBpe [] [] (some { dropout := some (3 / 2) }) = none := by decide +kernel

end Tok.Factory
