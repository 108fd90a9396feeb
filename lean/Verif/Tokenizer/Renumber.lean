import Verif.Post.Renumber
import Verif.PreTokenizers.Model
import Verif.Tokenizer.Model

/-!
# C117: the whole tokenizer with other ids

Every id in a tokenizer — those of the model, of the added tokens, of the post-processor and of the padding token — is replaced: `f i`
instead of `i`.
-/

namespace Tok

/-- The split with other ids. -/
def Split.renumber (f : Nat → Nat) (s : Split) : Split := ⟨s.normalized, s.tokens.map (·.map (Token.renumber f))⟩

/-- The pre-tokenized string with other ids. -/
def PTS.renumber (f : Nat → Nat) (p : PTS) : PTS := ⟨p.original, p.splits.map (Split.renumber f)⟩

/-- The added tokens with other ids. -/
def AddedVocab.renumber (f : Nat → Nat) (av : AddedVocab) : AddedVocab :=
  { av with
    map := av.map.ren id f, rmap := av.rmap.ren f id, cache := av.cache.ren f id
    trie := av.trie.map fun p => (p.1, f p.2), normTrie := av.normTrie.map fun p => (p.1, f p.2) }

namespace PTS
variable {ε : Type} (f : Nat → Nat)

theorem renumber_splitLoop {g g' : Nat → NS → Except ε (List Split)}
    (hg : ∀ i n, g' i n = (g i n).map (·.map (Split.renumber f))) : ∀ (ss : List Split) (i : Nat),
    splitLoop g' i (ss.map (Split.renumber f)) = (splitLoop g i ss).map (·.map (Split.renumber f))
  | [], _ => rfl
  | s :: ss, i => by
    rw [List.map_cons, splitLoop, splitLoop]
    have h1 : (s.renumber f).tokens.isSome = s.tokens.isSome := Option.isSome_map
    have h2 : (s.renumber f).normalized = s.normalized := rfl
    rw [h1, h2, renumber_splitLoop hg ss (i + 1), hg]
    have hf : ∀ out : List Split, (out.map (Split.renumber f)).filter (fun x => x.normalized.norm ≠ [])
        = (out.filter fun x => x.normalized.norm ≠ []).map (Split.renumber f) := by
      intro out
      rw [List.filter_map]
      rfl
    split
    · cases splitLoop g (i + 1) ss <;> rfl
    · cases g i s.normalized with
      | error e => rfl
      | ok out =>
        cases splitLoop g (i + 1) ss with
        | error e => rfl
        | ok more =>
          show Except.ok _ = Except.ok _
          rw [hf]
          exact congrArg Except.ok List.map_append.symm

theorem renumber_split (p : PTS) {g g' : Nat → NS → Except ε (List Split)}
    (hg : ∀ i n, g' i n = (g i n).map (·.map (Split.renumber f))) :
    (p.renumber f).split g' = (p.split g).map (PTS.renumber f) := by
  unfold split
  have : (p.renumber f).splits = p.splits.map (Split.renumber f) := rfl
  rw [this, renumber_splitLoop f hg]
  cases splitLoop g 0 p.splits <;> rfl

/-- What it gives has no tokens. -/
def Plain (g : Nat → NS → Except ε (List Split)) : Prop := ∀ i n out, g i n = .ok out → ∀ x ∈ out, x.tokens = none

theorem renumber_split_plain (p : PTS) {g : Nat → NS → Except ε (List Split)} (hg : Plain g) :
    (p.renumber f).split g = (p.split g).map (PTS.renumber f) := by
  refine renumber_split f p fun i n => ?_
  cases h : g i n with
  | error e => rfl
  | ok out =>
    show Except.ok out = Except.ok (out.map (Split.renumber f))
    congr 1
    have : out.map (Split.renumber f) = out.map id := by
      refine List.map_congr_left fun x hx => ?_
      have := hg i n out h x hx
      cases x with
      | mk n t => simp only at this; subst this; rfl
    rw [this, List.map_id]

theorem renumber_mapUntokenized {g g' : NS → Except ε Split} (hg : ∀ n, g' n = (g n).map (Split.renumber f)) : ∀ ss : List Split,
    mapUntokenized g' (ss.map (Split.renumber f)) = (mapUntokenized g ss).map (·.map (Split.renumber f))
  | [] => rfl
  | s :: ss => by
    rw [List.map_cons, mapUntokenized, mapUntokenized]
    have h1 : (s.renumber f).tokens.isSome = s.tokens.isSome := Option.isSome_map
    have h2 : (s.renumber f).normalized = s.normalized := rfl
    rw [h1, h2, renumber_mapUntokenized hg ss, hg]
    split
    · cases mapUntokenized g ss <;> rfl
    · cases g s.normalized with
      | error e => rfl
      | ok out => cases mapUntokenized g ss <;> rfl

theorem renumber_normalize (p : PTS) (g : NS → Except ε NS) :
    (p.renumber f).normalize g = (p.normalize g).map (PTS.renumber f) := by
  unfold normalize
  have : (p.renumber f).splits = p.splits.map (Split.renumber f) := rfl
  rw [this, renumber_mapUntokenized f (g := fun n => (g n).map fun n' => ⟨n', none⟩)]
  · cases mapUntokenized _ p.splits <;> rfl
  · intro n
    cases g n <;> rfl

theorem renumber_tokenize (p : PTS) {g g' : NS → Except ε (List Token)}
    (hg : ∀ n, g' n = (g n).map (·.map (Token.renumber f))) :
    (p.renumber f).tokenize g' = (p.tokenize g).map (PTS.renumber f) := by
  unfold tokenize
  have : (p.renumber f).splits = p.splits.map (Split.renumber f) := rfl
  rw [this, renumber_mapUntokenized f (g := fun n => (g n).map fun ts => ⟨n, some ts⟩)]
  · cases mapUntokenized _ p.splits <;> rfl
  · intro n
    rw [hg]
    cases g n <;> rfl

theorem renumber_limitLoop {g g' : NS → Except ε (List Token)} (hg : ∀ n, g' n = (g n).map (·.map (Token.renumber f))) (max : Nat) :
    ∀ (ss : List Split) (total : Nat), limitLoop g' max total (ss.map (Split.renumber f))
      = (limitLoop g max total ss).map (·.map (Split.renumber f))
  | [], _ => rfl
  | s :: ss, total => by
    rw [List.map_cons, limitLoop, limitLoop]
    cases s with
    | mk n ts =>
      cases ts with
      | some ts =>
        simp only [Split.renumber, Option.map_some, List.length_map]
        rw [renumber_limitLoop hg max ss]
        cases limitLoop g max (total + ts.length) ss <;> rfl
      | none =>
        simp only [Split.renumber, Option.map_none]
        rw [hg]
        cases g n with
        | error e => rfl
        | ok ts =>
          show (if total + (ts.map (Token.renumber f)).length ≥ max then _ else _) = _
          rw [List.length_map]
          show _ = Except.map _ (if total + ts.length ≥ max then _ else _)
          split
          · rfl
          · rw [renumber_limitLoop hg max ss]
            cases limitLoop g max (total + ts.length) ss <;> rfl

theorem renumber_tokenizeWithLimit (p : PTS) {g g' : NS → Except ε (List Token)}
    (hg : ∀ n, g' n = (g n).map (·.map (Token.renumber f))) (max : Nat) (dir : Encoding.Direction) :
    (p.renumber f).tokenizeWithLimit g' max dir = (p.tokenizeWithLimit g max dir).map (PTS.renumber f) := by
  unfold tokenizeWithLimit
  have : (p.renumber f).splits = p.splits.map (Split.renumber f) := rfl
  cases dir with
  | right =>
    dsimp only
    rw [this, renumber_limitLoop f hg]
    cases limitLoop g max 0 p.splits <;> rfl
  | left =>
    dsimp only
    rw [this, ← List.map_reverse, renumber_limitLoop f hg]
    cases limitLoop g max 0 p.splits.reverse with
    | error e => rfl
    | ok ss =>
      show Except.ok (⟨p.original, (ss.map (Split.renumber f)).reverse⟩ : PTS)
        = Except.ok ⟨p.original, ss.reverse.map (Split.renumber f)⟩
      rw [List.map_reverse]

theorem renumber_fromItems (items : List (Nat × Str × Range × Option Nat × Nat)) :
    Encoding.fromItems (items.map fun x => (f x.1, x.2)) = (Encoding.fromItems items).renumber f := by
  unfold Encoding.fromItems
  rw [Encoding.renumber_mk]
  simp only [List.map_map]
  rfl

theorem renumber_encodingItems (original : Str) (word : Option Nat) (typeId : Nat) (ty : OffsetType) : ∀ (ss : List Split) (i : Nat),
    encodingItems original word typeId ty i (ss.map (Split.renumber f))
      = (encodingItems original word typeId ty i ss).map fun x => (f x.1, x.2)
  | [], _ => rfl
  | s :: ss, i => by
    rw [List.map_cons, encodingItems, encodingItems, renumber_encodingItems original word typeId ty ss, List.map_append]
    congr 1
    cases s with
    | mk n ts =>
      cases ts with
      | none => rfl
      | some ts =>
        simp only [Split.renumber, Option.map_some, Option.getD_some, List.map_map]
        rfl

theorem renumber_intoEncoding (p : PTS) (word : Option Nat) (typeId : Nat) (ty : OffsetType) :
    (p.renumber f).intoEncoding word typeId ty = (p.intoEncoding word typeId ty).map (Encoding.renumber f) := by
  have h1 : (p.renumber f).splits = p.splits.map (Split.renumber f) := rfl
  have h2 : (p.splits.map (Split.renumber f)).all (·.tokens.isSome) = p.splits.all (·.tokens.isSome) := by
    rw [List.all_map]
    congr 1
    funext s
    exact Option.isSome_map
  have h3 : (p.splits.map (Split.renumber f)).flatMap (fun s => (s.tokens.getD []).map fun t =>
        ((t.id, [], (0, 0), none, 0) : Nat × Str × Range × Option Nat × Nat))
      = (p.splits.flatMap fun s => (s.tokens.getD []).map fun t =>
        ((t.id, [], (0, 0), none, 0) : Nat × Str × Range × Option Nat × Nat)).map fun x => (f x.1, x.2) := by
    rw [List.flatMap_map, List.map_flatMap]
    congr 1
    funext s
    cases s with
    | mk n ts =>
      cases ts with
      | none => rfl
      | some ts =>
        simp only [Split.renumber, Option.map_some, Option.getD_some, List.map_map]
        rfl
  have h4 : (p.renumber f).original = p.original := rfl
  unfold intoEncoding
  rw [h1, h2, h3, h4, renumber_fromItems]
  simp only [List.map_eq_nil_iff, renumber_encodingItems, renumber_fromItems]
  split
  · exact congrArg Except.ok (Encoding.renumber_empty f).symm
  · split
    · rfl
    · cases ty <;> rfl

end PTS

/-! ## Pre-tokenizers do not look at ids -/

namespace PreTokenizer
open PTS

theorem plain_map {g : Nat → NS → Except Unit (List Split)} {h : Nat → NS → Option (List NS)}
    (e : ∀ i n, g i n = match h i n with | none => .error () | some out => .ok (out.map fun x => ⟨x, none⟩)) : Plain g := by
  intro i n out hg x hx
  rw [e] at hg
  cases hh : h i n with
  | none => rw [hh] at hg; cases hg
  | some l =>
    rw [hh] at hg
    cases hg
    obtain ⟨y, _, rfl⟩ := List.mem_map.1 hx
    rfl

theorem splitFn_plain (ms : Str → NS.Matches) (b : NS.Behavior) : Plain (splitFn ms b) :=
  plain_map (h := fun _ n => n.split (ms n.norm) b) fun _ _ => rfl

theorem scriptsFn_plain (u : CharTables) : Plain (scriptsFn u) :=
  plain_map (h := fun _ n => (windows (scriptStarts u none 0 n.norm ++ [blen n.norm])).mapM
    fun r => (n.sliceNormalized r).bind id) fun _ _ => rfl

theorem fixedLengthFn_plain (k : Nat) : Plain (fixedLengthFn k) := by
  intro i n out h x hx
  unfold fixedLengthFn at h
  split at h
  · cases h; cases hx
  · split at h
    · cases h
    · split at h
      · cases h
      · cases h
        obtain ⟨y, _, rfl⟩ := List.mem_map.1 hx
        rfl

theorem byteLevelFn_plain (cfg : ByteLevel.Config) (re : Str → List Range) : Plain (ByteLevel.splitFn cfg re) := by
  intro i n out h x hx
  unfold ByteLevel.splitFn at h
  dsimp only at h
  split at h
  · cases h
  · split at h
    · split at h
      · cases h
      · cases h
        obtain ⟨y, _, rfl⟩ := List.mem_map.1 hx
        rfl
    · cases h
      rw [List.mem_singleton.1 hx]

theorem metaspaceFn_plain (cfg : Metaspace.Config) : Plain (Metaspace.splitFn cfg) := by
  intro i n out h x hx
  unfold Metaspace.splitFn at h
  split at h
  · cases h
  · split at h
    · cases h
    · split at h
      · split at h
        · cases h
        · cases h
          obtain ⟨y, _, rfl⟩ := List.mem_map.1 hx
          rfl
      · cases h
        rw [List.mem_singleton.1 hx]

theorem bind_map {α ε : Type} {r : α → α} {g : α → Except ε α} (hg : ∀ p, g (r p) = (g p).map r) (x : Except ε α) :
    (x.map r).bind g = (x.bind g).map r := by
  cases x with
  | error e => rfl
  | ok a => exact hg a

mutual
/-- Every pre-tokenizer leaves the tokens that are there as they are, whatever their ids. -/
theorem renumber_apply (f : Nat → Nat) (u : CharTables) : ∀ (y : PreTokenizer) (p : PTS),
    apply u y (p.renumber f) = (apply u y p).map (PTS.renumber f)
  | .bert, p => by
    simp only [apply, bertPreTokenize]
    rw [renumber_split_plain f p (splitFn_plain _ _)]
    exact bind_map (fun q => renumber_split_plain f q (splitFn_plain _ _)) _
  | .byteLevel cfg re, p => by
    simp only [apply, ByteLevel.preTokenize]
    rw [renumber_split_plain f p (byteLevelFn_plain _ _)]
    exact bind_map (fun q => renumber_normalize f q _) _
  | .delimiter c, p => by
    simp only [apply]; exact renumber_split_plain f p (splitFn_plain _ _)
  | .metaspace cfg, p => by
    simp only [apply, Metaspace.preTokenize]; exact renumber_split_plain f p (metaspaceFn_plain _)
  | .whitespace, p => by
    simp only [apply]; exact renumber_split_plain f p (splitFn_plain _ _)
  | .sequence l, p => by
    simp only [apply]; exact renumber_applyAll f u l p
  | .split re b inv, p => by
    simp only [apply]
    unfold splitRegexFn
    split <;> exact renumber_split_plain f p (splitFn_plain _ _)
  | .punctuation b, p => by
    simp only [apply]; exact renumber_split_plain f p (splitFn_plain _ _)
  | .whitespaceSplit, p => by
    simp only [apply]; exact renumber_split_plain f p (splitFn_plain _ _)
  | .digits ind, p => by
    simp only [apply]
    split <;> exact renumber_split_plain f p (splitFn_plain _ _)
  | .unicodeScripts, p => by
    simp only [apply]; exact renumber_split_plain f p (scriptsFn_plain u)
  | .fixedLength n, p => by
    simp only [apply]; exact renumber_split_plain f p (fixedLengthFn_plain n)

theorem renumber_applyAll (f : Nat → Nat) (u : CharTables) : ∀ (l : List PreTokenizer) (p : PTS),
    applyAll u l (p.renumber f) = (applyAll u l p).map (PTS.renumber f)
  | [], p => by simp only [applyAll]; rfl
  | y :: l, p => by
    simp only [applyAll]
    rw [renumber_apply f u y p]
    exact bind_map (fun q => renumber_applyAll f u l q) _
end

end PreTokenizer

/-! ## Added tokens -/

namespace AddedVocab
variable (f : Nat → Nat)

theorem renumber_longest (s : Str) : ∀ (pats : List (Str × Nat)) (best : Option (Str × Nat)),
    (pats.map fun p => (p.1, f p.2)).foldl (better s) (best.map fun p => (p.1, f p.2))
      = (pats.foldl (better s) best).map fun p => (p.1, f p.2)
  | [], _ => rfl
  | p :: pats, best => by
    rw [List.map_cons, List.foldl_cons, List.foldl_cons]
    have : better s (best.map fun p => (p.1, f p.2)) (p.1, f p.2) = (better s best p).map fun p => (p.1, f p.2) := by
      unfold better
      dsimp only
      split
      · cases best with
        | none => rfl
        | some b =>
          dsimp only [Option.map_some]
          split <;> rfl
      · rfl
    rw [this]
    exact renumber_longest s pats _

theorem renumber_scan (pats : List (Str × Nat)) : ∀ (s : Str) (pos skip : Nat),
    scan (pats.map fun p => (p.1, f p.2)) pos skip s = (scan pats pos skip s).map fun m => (m.1, m.2.1, f m.2.2)
  | [], _, _ => by simp only [scan, List.map_nil]
  | c :: cs, pos, skip + 1 => by
    rw [scan, scan]
    exact renumber_scan pats cs _ _
  | c :: cs, pos, 0 => by
    rw [scan, scan]
    have : longest (pats.map fun p => (p.1, f p.2)) (c :: cs) = (longest pats (c :: cs)).map fun p => (p.1, f p.2) :=
      renumber_longest f (c :: cs) pats none
    rw [this]
    cases longest pats (c :: cs) with
    | none => exact renumber_scan pats cs _ _
    | some p =>
      simp only [Option.map_some, List.map_cons]
      rw [renumber_scan pats cs]

variable {f} (hf : ∀ i j, f i = f j → i = j)
include hf

theorem renumber_matchStep (cl : Classes) (av : AddedVocab) (s : Str) (off : Nat) (m : Nat × Nat × Nat) :
    matchStep cl (av.renumber f) s off (m.1, m.2.1, f m.2.2)
      = (matchStep cl av s off m).map fun r => (r.1.map fun x => (x.1.map f, x.2), r.2) := by
  unfold matchStep
  have h1 : (av.renumber f).rmap.get (f m.2.2) = av.rmap.get m.2.2 := by
    have := ren_get hf (id : AddedToken → AddedToken) av.rmap m.2.2
    rw [Option.map_id] at this
    exact this
  dsimp only
  rw [h1]
  generalize takeBytes m.1 s = b
  generalize dropBytes m.2.1 s = a
  cases av.rmap.get m.2.2 with
  | none => rfl
  | some t =>
    cases b with
    | none => rfl
    | some b =>
      cases a with
      | none => rfl
      | some a =>
        dsimp only
        show (if av.encodeSpecial = true ∧ t.content ∈ av.specials then _ else _) = _
        split
        · rfl
        · split
          · rfl
          · rw [Option.map_some]
            congr 1
            rw [List.map_append]
            congr 1
            congr 1
            generalize (if t.lstrip = true then _ else m.1) = start
            split <;> rfl

theorem renumber_findLoop (cl : Classes) (av : AddedVocab) (s : Str) : ∀ (ms : List (Nat × Nat × Nat)) (off : Nat),
    findLoop cl (av.renumber f) s off (ms.map fun m => (m.1, m.2.1, f m.2.2))
      = (findLoop cl av s off ms).map (·.map fun x => (x.1.map f, x.2))
  | [], off => by
    simp only [List.map_nil, findLoop, Option.map_some]
    split <;> rfl
  | m :: ms, off => by
    rw [List.map_cons, findLoop, findLoop, renumber_matchStep hf]
    cases matchStep cl av s off m with
    | none => rfl
    | some r =>
      simp only [Option.map_some, Option.bind_some]
      rw [renumber_findLoop cl av s ms]
      cases findLoop cl av s r.2 ms with
      | none => rfl
      | some l => simp only [Option.map_some, List.map_append]

theorem renumber_splitWithIndices (cl : Classes) (av : AddedVocab) (pats : List (Str × Nat)) (n : NS) :
    splitWithIndices cl (av.renumber f) (pats.map fun p => (p.1, f p.2)) n
      = (splitWithIndices cl av pats n).map (·.map (Split.renumber f)) := by
  have hm : findMatches cl (av.renumber f) (pats.map fun p => (p.1, f p.2)) n.norm
      = (findMatches cl av pats n.norm).map (·.map fun x => (x.1.map f, x.2)) := by
    unfold findMatches
    split
    · rfl
    · rw [renumber_scan, renumber_findLoop hf]
      simp only [List.map_eq_nil_iff]
      split <;> rfl
  have ht : ∀ x : Option Nat × Range, toSplit n (x.1.map f, x.2) = (toSplit n x).map (Split.renumber f) := by
    intro x
    unfold toSplit
    dsimp only
    match n.sliceNormalized x.2 with
    | none => rfl
    | some none => rfl
    | some (some sl) =>
      dsimp only [Option.map_some, Split.renumber]
      cases x.1 <;> rfl
  have hl : ∀ l : List (Option Nat × Range), (l.map fun x => (x.1.map f, x.2)).mapM (toSplit n)
      = (l.mapM (toSplit n)).map (·.map (Split.renumber f)) := by
    intro l
    induction l with
    | nil => rfl
    | cons x l ih =>
      rw [List.map_cons, List.mapM_cons, List.mapM_cons, ih, ht]
      cases toSplit n x with
      | none => rfl
      | some y => cases l.mapM (toSplit n) <;> rfl
  unfold splitWithIndices
  rw [hm]
  cases findMatches cl av pats n.norm with
  | none => rfl
  | some l => exact hl l

theorem renumber_extract (cl : Classes) (av : AddedVocab) (norm : NS → Option NS) (s : Str) :
    (av.renumber f).extractAndNormalize cl norm s = (av.extractAndNormalize cl norm s).map (PTS.renumber f) := by
  have ho : ∀ x : Option (List Split), AddedVocab.orPanic (x.map (·.map (Split.renumber f)))
      = (AddedVocab.orPanic x).map (·.map (Split.renumber f)) := by
    intro x; cases x <;> rfl
  unfold extractAndNormalize
  have h0 : PTS.ofStr s = (PTS.ofStr s).renumber f := rfl
  rw [h0, PTS.renumber_split f (PTS.ofStr s) (g := fun _ n => AddedVocab.orPanic (splitWithIndices cl av av.trie n))
    (fun i n => by rw [← ho]; exact congrArg AddedVocab.orPanic (renumber_splitWithIndices hf cl av av.trie n)), ← h0]
  cases (PTS.ofStr s).split fun _ n => AddedVocab.orPanic (splitWithIndices cl av av.trie n) with
  | error e => rfl
  | ok p =>
    refine PTS.renumber_split f p (g := fun _ n => AddedVocab.orPanic ((norm n).bind (splitWithIndices cl av av.normTrie)))
      fun i n => ?_
    rw [← ho]
    cases norm n with
    | none => rfl
    | some m => exact congrArg AddedVocab.orPanic (renumber_splitWithIndices hf cl av av.normTrie m)

end AddedVocab

/-! ## The tokenizer -/

namespace Tokenizer

/-- `t'` is `t` with the id `f i` instead of `i` everywhere. The model of `t'` gives the tokens of `t` with the other ids; the
pre-tokenizer, the same in both, does not look at ids (`PreTokenizer.renumber_apply`). -/
structure Renumbered (f : Nat → Nat) (t t' : Tokenizer) : Prop where
  inj : ∀ i j, f i = f j → i = j
  cl : t'.cl = t.cl
  ws : t'.ws = t.ws
  checked : t'.checked = t.checked
  added : t'.added = t.added.renumber f
  normalizer : t'.normalizer = t.normalizer
  preTok : ∀ p, t'.preTok (p.renumber f) = (t.preTok p).map (PTS.renumber f)
  model : ∀ s, t'.model s = (t.model s).map (·.map (Token.renumber f))
  toId : ∀ c, t'.view.toId c = (t.view.toId c).map f
  toToken : ∀ i, t'.view.toToken (f i) = t.view.toToken i
  settings : t'.settings = t.settings.renumber f
  decoder : t'.decoder = t.decoder

variable {f : Nat → Nat} {t t' : Tokenizer}

theorem Renumbered.tokenizeIn (h : Renumbered f t t') (lim : Option (Nat × Encoding.Direction)) (p : PTS) :
    t'.tokenizeIn (p.renumber f) lim = (t.tokenizeIn p lim).map (PTS.renumber f) := by
  cases lim with
  | none => exact PTS.renumber_tokenize f p fun n => h.model n.norm
  | some l => exact PTS.renumber_tokenizeWithLimit f p (fun n => h.model n.norm) l.1 l.2

theorem Renumbered.preTokenized (h : Renumbered f t t') (s : Str) :
    t'.preTokenized s = (t.preTokenized s).map (PTS.renumber f) := by
  unfold Tokenizer.preTokenized
  rw [h.added, h.cl, h.normalizer, AddedVocab.renumber_extract h.inj]
  cases t.added.extractAndNormalize t.cl t.normalizer s with
  | error e => rfl
  | ok p => exact h.preTok p

theorem Renumbered.encodeText (h : Renumbered f t t') (lim : Option (Nat × Encoding.Direction)) (typeId : Nat)
    (ty : PTS.OffsetType) (word : Option Nat) (s : Str) :
    t'.encodeText lim typeId ty word s = (t.encodeText lim typeId ty word s).map (Encoding.renumber f) := by
  unfold Tokenizer.encodeText
  rw [h.preTokenized]
  cases t.preTokenized s with
  | error e => rfl
  | ok p =>
    show t'.doTokenize lim (p.renumber f) typeId word ty = (t.doTokenize lim p typeId word ty).map _
    unfold Tokenizer.doTokenize
    rw [h.tokenizeIn]
    cases t.tokenizeIn p lim with
    | error e => rfl
    | ok q =>
      show mapErr _ ((q.renumber f).intoEncoding word typeId ty) = Except.map _ (mapErr _ (q.intoEncoding word typeId ty))
      rw [PTS.renumber_intoEncoding]
      cases q.intoEncoding word typeId ty <;> rfl

theorem Renumbered.encodeSequence (h : Renumbered f t t') (typeId : Nat) (ty : PTS.OffsetType) (i : Input) :
    t'.encodeSequence typeId ty i = (t.encodeSequence typeId ty i).map (Encoding.renumber f) := by
  unfold Tokenizer.encodeSequence
  have hl : t'.limit typeId = t.limit typeId := by
    unfold limit
    rw [h.settings]
    rfl
  rw [hl]
  cases i with
  | raw s => exact h.encodeText _ _ _ _ s
  | words l =>
    simp only [encodeSequenceWith]
    have : ∀ xs : List (Str × Nat), xs.mapM (fun x => t'.encodeText (t.limit typeId) typeId ty (some x.2) x.1)
        = (xs.mapM fun x => t.encodeText (t.limit typeId) typeId ty (some x.2) x.1).map (·.map (Encoding.renumber f)) := by
      intro xs
      induction xs with
      | nil => rfl
      | cons x xs ih =>
        rw [List.mapM_cons, List.mapM_cons, ih, h.encodeText]
        cases t.encodeText (t.limit typeId) typeId ty (some x.2) x.1 with
        | error e => rfl
        | ok e => cases xs.mapM fun x => t.encodeText (t.limit typeId) typeId ty (some x.2) x.1 <;> rfl
    rw [this]
    cases l.zipIdx.mapM fun x => t.encodeText (t.limit typeId) typeId ty (some x.2) x.1 with
    | error e => rfl
    | ok es => exact congrArg Except.ok (Encoding.renumber_merge f es false)

/-- **C117.** A tokenizer with other ids gives every input — a text, a list of words, a pair of them — the encoding of the original
tokenizer with the other ids: the same tokens, offsets, words, type ids, masks, overflowing parts and ranges, or the same error. -/
theorem C117_encode (h : Renumbered f t t') (ty : PTS.OffsetType) (input : Input × Option Input) (add : Bool) :
    t'.encodeAs ty input add = (t.encodeAs ty input add).map (Encoding.renumber f) := by
  unfold encodeAs encodeBy
  dsimp only
  rw [h.encodeSequence]
  cases t.encodeSequence 0 ty input.1 with
  | error e => rfl
  | ok e =>
    have ho : optional (fun i => t'.encodeSequence 1 ty i) input.2
        = (optional (fun i => t.encodeSequence 1 ty i) input.2).map (Option.map (Encoding.renumber f)) := by
      cases input.2 with
      | none => rfl
      | some i =>
        simp only [optional]
        rw [h.encodeSequence]
        cases t.encodeSequence 1 ty i <;> rfl
    show (optional (fun i => t'.encodeSequence 1 ty i) input.2).bind _
      = Except.map _ ((optional (fun i => t.encodeSequence 1 ty i) input.2).bind _)
    rw [ho]
    cases optional (fun i => t.encodeSequence 1 ty i) input.2 with
    | error e => rfl
    | ok pair =>
      show mapErr EncErr.post (t'.settings.postProcess t'.ws t'.checked (e.renumber f) (pair.map (Encoding.renumber f)) add)
        = Except.map _ (mapErr EncErr.post (t.settings.postProcess t.ws t.checked e pair add))
      rw [h.settings, h.ws, h.checked, Post.C117_postProcess]
      cases t.settings.postProcess t.ws t.checked e pair add <;> rfl

/-- **C117.** The same for batches. -/
theorem C117_encodeBatch (h : Renumbered f t t') (order : List Nat) (ty : PTS.OffsetType) (inputs : List (Input × Option Input))
    (add : Bool) :
    t'.encodeBatch order ty inputs add = (t.encodeBatch order ty inputs add).map (·.map (Encoding.renumber f)) := by
  have hp : parCollect order (fun i => t'.encodeAs ty i add) inputs
      = (parCollect order (fun i => t.encodeAs ty i add) inputs).map (·.map (Encoding.renumber f)) := by
    unfold parCollect
    have h1 : parStep (fun i => t'.encodeAs ty i add) inputs = parStep (fun i => t.encodeAs ty i add) inputs := by
      funext saved i
      unfold parStep
      cases saved with
      | some e => rfl
      | none =>
        cases inputs[i]? with
        | none => rfl
        | some x =>
          dsimp only
          rw [C117_encode h]
          cases t.encodeAs ty x add <;> rfl
    rw [h1]
    cases order.foldl (parStep (fun i => t.encodeAs ty i add) inputs) none with
    | some e => rfl
    | none =>
      show Except.ok _ = Except.ok _
      congr 1
      show _ = List.map _ _
      rw [List.map_filterMap]
      congr 1
      funext x
      dsimp only
      rw [C117_encode h]
      cases t.encodeAs ty x add <;> rfl
  unfold encodeBatch
  rw [hp, h.settings]
  cases parCollect order (fun i => t.encodeAs ty i add) inputs with
  | error e => rfl
  | ok es =>
    show Except.ok _ = Except.ok _
    congr 1
    unfold Post.Settings.renumber
    dsimp only
    cases t.settings.padding with
    | none => rfl
    | some p => exact renumber_padEncodings f es p

/-- **C117.** The other ids decode to the text the original ids decode to, and tokens and ids are looked up with the other ids. -/
theorem C117_decode (h : Renumbered f t t') (skip : Bool) (ids : List Nat) :
    t'.decode skip (ids.map f) = t.decode skip ids ∧ (∀ i, t'.idToToken (f i) = t.idToToken i) ∧
      ∀ c, t'.tokenToId c = (t.tokenToId c).map f := by
  have hs : ∀ i, t'.added.simpleIdToToken (f i) = t.added.simpleIdToToken i := by
    intro i
    rw [h.added]
    have h1 := ren_get h.inj (id : AddedToken → AddedToken) t.added.rmap i
    have h2 := ren_get h.inj (id : Str → Str) t.added.cache i
    rw [Option.map_id] at h1 h2
    show ((t.added.rmap.ren f id).get (f i)).map (fun x => ((t.added.cache.ren f id).get (f i)).getD x.content) = _
    rw [h1, h2]
    rfl
  have ht : AddedVocab.decodeTokens t'.view t'.added skip (ids.map f) = AddedVocab.decodeTokens t.view t.added skip ids := by
    unfold AddedVocab.decodeTokens
    rw [List.filterMap_map]
    congr 1
    funext i
    simp only [Function.comp]
    rw [hs, h.toToken, h.added]
    rfl
  refine ⟨?_, fun i => ?_, fun c => ?_⟩
  · unfold decode AddedVocab.decode
    rw [ht, h.decoder, h.checked]
  · unfold idToToken
    rw [hs, h.toToken]
  · unfold tokenToId AddedVocab.tokenToId
    have h1 := ren_get (g := fun x : Str => x) (fun _ _ h => h) f t.added.map c
    have h2 : t'.added.map.get c = (t.added.map.get c).map f := by
      rw [h.added]
      exact h1
    rw [h2, h.toId]
    cases t.added.map.get c <;> rfl

end Tokenizer
end Tok
