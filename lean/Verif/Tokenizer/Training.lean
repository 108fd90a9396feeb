import Verif.Tokenizer.Samples
import Verif.Train.WordPiece
import Verif.Train.WordLevel
import Verif.Train.Feed

/-!
# Training a tokenizer (C63)

Model of `TokenizerImpl::train` (`tokenizer/mod.rs:1492-1545`); `train_from_files` (`1424-1490`) does the same with the lines
of files. The trainer is a parameter: what it makes of the counted words (`feed` replaces the counts of an earlier `feed`).
-/

namespace Tok
namespace Tokenizer

open AddedVocab

/-- What training puts in the place of the model. -/
structure NewModel where
  model : Str → Except EncErr (List Token)
  view : ModelView
  vocab : AMap Str Nat

/-- The closure given to `feed` (`tokenizer/mod.rs:1518-1529`): the texts of all splits, those of added tokens included. -/
def trainWords (t : Tokenizer) (s : Str) : Except EncErr (List Str) :=
  (t.preTokenized s).map fun p => (p.getSplits .original .byte).map (·.1)

/-- `train` (`tokenizer/mod.rs:1492-1545`); `tree` is how the runtime groups the sequences, `norm` what the normalizer makes of
the contents of special tokens. -/
def train (t : Tokenizer) (build : List (Str × Nat) → Bool) (norm : Norm) (tree : Train.Tree)
    (trainer : AMap Str Nat → Except EncErr (NewModel × List AddedToken)) : Tokenizer × Except EncErr Unit :=
  match tree.eval t.trainWords with
  | .error e => (t, .error e)
  | .ok wc =>
    match trainer wc with
    | .error e => (t, .error e)
    | .ok (m, specials) =>
      let r := t.added.addTokens build m.view norm specials
      ({ t with model := m.model, view := m.view, vocab := m.vocab, added := r.1 },
        if r.2.isSome then .ok () else .error .added)

/-- `Lines::next` until the end (`utils/iter.rs:87-107`, `read_line` of the standard library): a text cut after every `\n`. -/
def linesWithEnding : Str → List Str
  | [] => []
  | c :: cs =>
    if c = '\n' then [c] :: linesWithEnding cs
    else match linesWithEnding cs with
      | [] => [[c]]
      | l :: ls => (c :: l) :: ls

/-- What `ResultShunt` passes on, and the error it keeps (`utils/iter.rs:8-60`). -/
def shunt {ε α : Type} : List (Except ε α) → List α × Option ε
  | [] => ([], none)
  | .error e :: _ => ([], some e)
  | .ok a :: l => (a :: (shunt l).1, (shunt l).2)

/-- `train_from_files` (`tokenizer/mod.rs:1419-1490`) once all files have been found: `lines` are the results of reading the
lines of all files, `group` is how the runtime groups the sequences. An error of reading is code 0 of `preTok`. -/
def trainFromFiles (t : Tokenizer) (build : List (Str × Nat) → Bool) (norm : Norm) (group : List Str → Train.Tree)
    (lines : List (Except Unit Str)) (trainer : AMap Str Nat → Except EncErr (NewModel × List AddedToken)) :
    Tokenizer × Except EncErr Unit :=
  let r := t.train build norm (group (shunt lines).1) trainer
  (r.1, if (shunt lines).2.isSome then .error (.preTok 0) else r.2)

theorem getSplits_texts (p : PTS) : (p.getSplits .original .byte).map (·.1) = p.splits.map (·.normalized.norm) := by
  unfold PTS.getSplits
  generalize 0 = off
  generalize p.splits = ss
  induction ss generalizing off with
  | nil => rfl
  | cons s ss ih => simp only [PTS.getSplitsLoop, List.map_cons, ih]

theorem tree_mem {ε : Type} {process : Str → Except ε (List Str)} : ∀ (tree : Train.Tree) {m : AMap Str Nat},
    tree.eval process = .ok m → ∀ s ∈ tree.leaves, ∃ l, process s = .ok l
  | .unit, _, _, s, hs => by simp [Train.Tree.leaves] at hs
  | .leaf s', m, h, s, hs => by
    simp only [Train.Tree.leaves, List.mem_singleton] at hs
    subst hs
    simp only [Train.Tree.eval, Train.countOne] at h
    cases hp : process s with
    | error e => rw [hp] at h; cases h
    | ok l => exact ⟨l, rfl⟩
  | .node l r, m, h, s, hs => by
    rw [Train.Tree.eval] at h
    cases hl : l.eval process with
    | error e => rw [hl] at h; cases h
    | ok a =>
      cases hr : r.eval process with
      | error e => rw [hl, hr] at h; cases h
      | ok b =>
        rcases List.mem_append.1 hs with hs | hs
        · exact tree_mem l hl s hs
        · exact tree_mem r hr s hs

/-- The counts have one entry per word. -/
theorem fed_wf {t : Tokenizer} {tree : Train.Tree} {wc : AMap Str Nat} (h : tree.eval t.trainWords = .ok wc) : wc.WF := by
  let words : Str → List Str := fun s => match t.trainWords s with
    | .ok l => l
    | .error _ => []
  obtain ⟨m, h1, h2, -⟩ := Train.C42_counts t.trainWords words tree tree.leaves (.refl _) (by
    intro s hs
    obtain ⟨l, hl⟩ := tree_mem tree h s hs
    simp only [words, hl])
  rw [h] at h1
  cases h1
  exact h2

/-- The words the trainer gets: every split of every sequence. -/
theorem fed_words {t : Tokenizer} {tree : Train.Tree} {wc : AMap Str Nat} (h : tree.eval t.trainWords = .ok wc) {s : Str}
    (hs : s ∈ tree.leaves) : ∃ p, t.preTokenized s = .ok p ∧ ∀ x ∈ p.splits, ∃ n, (x.normalized.norm, n) ∈ wc ∧ 0 < n := by
  let words : Str → List Str := fun s => match t.trainWords s with
    | .ok l => l
    | .error _ => []
  obtain ⟨m, h1, -, h2⟩ := Train.C42_counts t.trainWords words tree tree.leaves (.refl _) (by
    intro s hs
    obtain ⟨l, hl⟩ := tree_mem tree h s hs
    simp only [words, hl])
  rw [h] at h1
  cases h1
  obtain ⟨l, hl⟩ := tree_mem tree h s hs
  have hl' := hl
  unfold trainWords at hl
  cases hp : t.preTokenized s with
  | error e => rw [hp] at hl; cases hl
  | ok p =>
    rw [hp] at hl
    refine ⟨p, rfl, fun x hx => ?_⟩
    have : l = p.splits.map (·.normalized.norm) := by
      rw [← getSplits_texts]
      exact (Except.ok.inj hl).symm
    have hin : x.normalized.norm ∈ tree.leaves.flatMap words := by
      refine List.mem_flatMap.2 ⟨s, hs, ?_⟩
      simp only [words, hl', this]
      exact List.mem_map_of_mem hx
    have hc := List.count_pos_iff.2 hin
    have := h2 x.normalized.norm
    unfold Train.entry at this
    rw [if_neg (by omega)] at this
    exact ⟨_, AMap.mem_of_get_eq_some this, hc⟩

/-- **C63.** Suppose the trained model makes of every word it was trained on tokens with the property `Good`. Then encoding a
training sequence gives, piece by piece, tokens with that property (or the added token that the piece is), provided that the
special tokens which training adds do not change how the sequence is cut into pieces. -/
theorem C63_trained {t t' : Tokenizer} {build : List (Str × Nat) → Bool} {norm : Norm} {tree : Train.Tree}
    {trainer : AMap Str Nat → Except EncErr (NewModel × List AddedToken)}
    (h : t.train build norm tree trainer = (t', .ok ())) {Good : Str → List Token → Prop}
    (hgood : ∀ wc m sp, tree.eval t.trainWords = .ok wc → trainer wc = .ok (m, sp) → ∀ word n, (word, n) ∈ wc → 0 < n →
      ∃ ts, m.model word = .ok ts ∧ Good word ts)
    {s : Str} (hs : s ∈ tree.leaves) (hcut : t'.preTokenized s = t.preTokenized s) (typeId : Nat) (ty : PTS.OffsetType)
    (word : Option Nat) :
    ∃ p e, ∃ toks : List (List Token), t.preTokenized s = .ok p ∧ t'.encodeText none typeId ty word s = .ok e ∧
      toks.length = p.splits.length ∧
      (∀ (i : Nat) x ts, p.splits[i]? = some x → toks[i]? = some ts →
        x.tokens = some ts ∨ (x.tokens = none ∧ Good x.normalized.norm ts)) ∧
      e.ids = toks.flatten.map (·.id) := by
  unfold train at h
  split at h
  · cases h
  rename_i wc hwc
  split at h
  · cases h
  rename_i m sp htr
  simp only [Prod.mk.injEq] at h
  obtain ⟨h, -⟩ := h
  obtain ⟨p, hp, hw⟩ := fed_words hwc hs
  have hmod : t'.model = m.model := by rw [← h]
  let g : NS → Except EncErr Split := fun n => (t'.model n.norm).map fun ts => ⟨n, some ts⟩
  obtain ⟨r, hr⟩ := PTS.mapUntokenized_total (g := g) p.splits (by
    intro x hx _
    obtain ⟨n, h1, h2⟩ := hw x hx
    obtain ⟨ts, h3, -⟩ := hgood wc m sp hwc htr _ n h1 h2
    exact ⟨⟨x.normalized, some ts⟩, by simp only [g, hmod, h3]; rfl⟩)
  obtain ⟨hlen, hget⟩ := (PTS.mapUntokenized_ok g p.splits r).1 hr
  have hall : ∀ x ∈ r, x.tokens.isSome := by
    intro x hx
    obtain ⟨i, hi⟩ := List.mem_iff_getElem?.1 hx
    have hlt : i < p.splits.length := by
      have := (List.getElem?_eq_some_iff.1 hi).1
      omega
    have := hget i _ x (List.getElem?_eq_getElem hlt) hi
    cases hx : (p.splits[i]).tokens with
    | some ts => rw [this.1 (by simp [hx]), hx]; rfl
    | none =>
      have h2 := this.2 hx
      simp only [g] at h2
      cases hm : t'.model (p.splits[i]).normalized.norm with
      | error e => rw [hm] at h2; cases h2
      | ok ts => rw [hm] at h2; cases h2; rfl
  refine ⟨p, Encoding.fromItems (PTS.items p.original word typeId ty 0 r), r.map (fun x => x.tokens.getD []), hp, ?_,
    by simp [hlen], ?_, ?_⟩
  · unfold encodeText doTokenize tokenizeIn PTS.tokenize
    rw [hcut, hp]
    simp only [Except.bind]
    have : PTS.mapUntokenized (fun n => (t'.model n.norm).map fun ts => (⟨n, some ts⟩ : Split)) p.splits = .ok r := hr
    rw [this]
    simp only [Except.map]
    rw [PTS.intoEncoding_items (p := ⟨p.original, r⟩) hall]
    rfl
  · intro i x ts hx hts
    rw [List.getElem?_map] at hts
    cases hri : r[i]? with
    | none => rw [hri] at hts; cases hts
    | some y =>
      rw [hri] at hts
      simp only [Option.map_some, Option.some.injEq] at hts
      have := hget i x y hx hri
      cases hxt : x.tokens with
      | some ts' =>
        rw [this.1 (by simp [hxt]), hxt] at hts
        left
        simpa using hts
      | none =>
        have h2 := this.2 hxt
        obtain ⟨n, h1, h1'⟩ := hw x (List.mem_of_getElem? hx)
        obtain ⟨ts', h3, h4⟩ := hgood wc m sp hwc htr _ n h1 h1'
        simp only [g, hmod, h3] at h2
        cases h2
        simp only [Option.getD_some] at hts
        subst hts
        exact .inr ⟨rfl, h4⟩
  · have key : ∀ (l : List Split) (i : Nat), (PTS.items p.original word typeId ty i l).map (·.1) =
        (l.map fun x => x.tokens.getD []).flatten.map (·.id) := by
      intro l
      induction l with
      | nil => intro i; cases ty <;> rfl
      | cons x l ih =>
        intro i
        have := ih (i + 1)
        cases ty with
        | none =>
          simp only [PTS.items, List.flatMap_cons, List.map_append, List.map_map, List.map_cons, List.flatten_cons] at this ⊢
          rw [this]; rfl
        | byte =>
          simp only [PTS.items, PTS.encodingItems, List.map_append, List.map_map, List.map_cons, List.flatten_cons] at this ⊢
          rw [this]; rfl
        | char =>
          simp only [PTS.items, PTS.encodingItems, List.map_append, List.map_map, List.map_cons, List.flatten_cons] at this ⊢
          rw [this]; rfl
    rw [← key r 0]
    rfl


/-! ## Special tokens that do not occur -/

theorem scan_nothing {pats : List (Str × Nat)} : ∀ (s : Str) (pos : Nat), (∀ p ∈ pats, ¬ p.1 <:+: s) → scan pats pos 0 s = []
  | [], _, _ => rfl
  | c :: cs, pos, h => by
    rw [scan]
    have hl : longest pats (c :: cs) = none := by
      cases hl : longest pats (c :: cs) with
      | none => rfl
      | some p =>
        obtain ⟨h1, h2, -⟩ := longest_some hl
        exact absurd h2.isInfix (h p h1)
    rw [hl]
    exact scan_nothing cs _ fun p hp hi => h p hp (hi.trans (List.suffix_cons c cs).isInfix)

theorem findMatches_nothing {cl : Classes} {av : AddedVocab} {pats : List (Str × Nat)} {s : Str}
    (h : ∀ p ∈ pats, ¬ p.1 <:+: s) : findMatches cl av pats s = some [(none, (0, blen s))] := by
  unfold findMatches
  by_cases hs : s = []
  · rw [if_pos hs, hs]; rfl
  · rw [if_neg hs]
    split
    · rfl
    · rw [scan_nothing s 0 h, findLoop, if_pos]
      cases s with
      | nil => exact absurd rfl hs
      | cons c cs =>
        have := Char.utf8Size_pos c
        rw [blen_cons]
        omega

/-- Patterns that do not occur make no difference. -/
theorem extract_nothing {cl : Classes} {av av' : AddedVocab} {norm : NS → Option NS} {s : Str}
    (h : ∀ p ∈ av.trie, ¬ p.1 <:+: s) (h' : ∀ p ∈ av'.trie, ¬ p.1 <:+: s) (hn : av.normTrie = []) (hn' : av'.normTrie = []) :
    av.extractAndNormalize cl norm s = av'.extractAndNormalize cl norm s := by
  have e1 : splitWithIndices cl av av.trie (NS.ofStr s) = splitWithIndices cl av' av'.trie (NS.ofStr s) := by
    unfold splitWithIndices
    have : (NS.ofStr s).norm = s := rfl
    rw [this, findMatches_nothing h, findMatches_nothing h']
  have e2 : splitWithIndices cl av av.normTrie = splitWithIndices cl av' av'.normTrie := by
    funext n
    unfold splitWithIndices
    rw [hn, hn', findMatches_nothing (by simp), findMatches_nothing (by simp)]
  unfold extractAndNormalize
  rw [e2]
  congr 1
  simp only [PTS.split, PTS.ofStr, PTS.ofNS, PTS.splitLoop, e1]

theorem addLoop_tokens {m : ModelView} {norm : Norm} : ∀ (ts : List AddedToken) (av : AddedVocab) (next ign : Nat),
    ∀ x ∈ (addLoop m norm ts av next ign).1.rmap, x ∈ av.rmap ∨ x.2 ∈ ts
  | [], av, next, ign, x, hx => .inl hx
  | t :: ts, av, next, ign, x, hx => by
    have up : ∀ {P : Prop}, P ∨ x.2 ∈ ts → P ∨ x.2 ∈ t :: ts := fun h => h.imp_right (List.mem_cons_of_mem _)
    rw [addLoop] at hx
    split at hx
    · exact up (addLoop_tokens ts _ _ _ x hx)
    split at hx
    · exact up (addLoop_tokens ts _ _ _ x hx)
    simp only at hx
    split at hx
    · exact .inl hx
    · rcases addLoop_tokens ts _ _ _ x hx with h | h
      · simp only [store, AMap.insert] at h
        rcases List.mem_cons.1 h with h | h
        · right; rw [h]; simp
        · exact .inl (List.mem_filter.1 h).1
      · exact .inr (List.mem_cons_of_mem _ h)

/-- The patterns of a vocabulary to which the first tokens were added. -/
theorem added_patterns {build : List (Str × Nat) → Bool} {m : ModelView} {norm : Norm} {ts : List AddedToken}
    (h : (empty.addTokens build m norm ts).2.isSome) (hn : ∀ t ∈ ts, t.normalized = false) :
    (empty.addTokens build m norm ts).1.normTrie = [] ∧
      ∀ p ∈ (empty.addTokens build m norm ts).1.trie, ∃ t ∈ ts, p.1 = t.content := by
  unfold addTokens at h ⊢
  have hr := addLoop_tokens (m := m) (norm := norm) ts empty (empty.nextId m) 0
  cases hl : addLoop m norm ts empty (empty.nextId m) 0 with
  | mk av ign =>
    rw [hl] at h hr
    have hr' : ∀ x ∈ av.rmap, x.2 ∈ ts := fun x hx => (hr x hx).resolve_left (by simp [empty])
    cases ign with
    | none => simp at h
    | some ign =>
      simp only at h ⊢
      have hok : (refresh build av).2 = true := by
        cases hb : (refresh build av).2 with
        | true => rfl
        | false => rw [hb] at h; simp at h
      unfold refresh at hok ⊢
      simp only at hok ⊢
      split
      · rename_i hp
        rw [if_pos hp] at hok
        split
        · constructor
          · simp only [List.map_eq_nil_iff, List.filter_eq_nil_iff]
            intro x hx
            rw [hn _ (hr' x hx)]
            simp
          · intro p hp
            obtain ⟨x, hx, rfl⟩ := List.mem_map.1 hp
            exact ⟨x.2, hr' x (List.mem_filter.1 hx).1, rfl⟩
        · rename_i hq
          rw [if_neg hq] at hok
          cases hok
      · rename_i hp
        rw [if_neg hp] at hok
        cases hok

/-- **C63.** Training a tokenizer without added tokens: a sequence in which none of the special tokens occurs is cut into the
same pieces as before. -/
theorem C63_same_pieces {t t' : Tokenizer} {build : List (Str × Nat) → Bool} {norm : Norm} {tree : Train.Tree}
    {trainer : AMap Str Nat → Except EncErr (NewModel × List AddedToken)}
    (h : t.train build norm tree trainer = (t', .ok ())) (he : t.added = empty) {s : Str}
    (hsp : ∀ wc m sp, trainer wc = .ok (m, sp) → ∀ x ∈ sp, x.normalized = false ∧ ¬ x.content <:+: s) :
    t'.preTokenized s = t.preTokenized s := by
  unfold train at h
  split at h
  · cases h
  split at h
  · cases h
  rename_i m sp htr
  simp only [Prod.mk.injEq] at h
  obtain ⟨h, hok⟩ := h
  have hsome : (t.added.addTokens build m.view norm sp).2.isSome := by
    cases hb : (t.added.addTokens build m.view norm sp).2.isSome with
    | true => rfl
    | false => rw [hb] at hok; cases hok
  rw [he] at hsome h
  obtain ⟨h1, h2⟩ := added_patterns hsome fun x hx => (hsp _ m sp htr x hx).1
  unfold preTokenized
  rw [← h]
  simp only
  rw [he, extract_nothing (av' := empty) (fun p hp hi => ?_) (by simp [empty]) h1 rfl]
  obtain ⟨x, hx, e⟩ := h2 p hp
  exact (hsp _ m sp htr x hx).2 (e ▸ hi)

end Tokenizer
end Tok
