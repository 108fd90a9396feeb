import Verif.Tokenizer.Early
import Verif.Models.WordPiece
import Verif.Normalizers.Props
import Verif.PreTokenizers.Props

/-!
# C58: encoding is the composition of its stages on plain text
-/

namespace Tok
open Encoding
namespace AddedVocab

/-! ## Added tokens that strip nothing -/

/-- A part of the text that is no added token. -/
def plainPart (s : Str) : List (Option Nat × Str) := if s = [] then [] else [(none, s)]

/-- The text cut at the leftmost-longest occurrences of the patterns. -/
inductive Carved (pats : List (Str × Nat)) : Str → List (Option Nat × Str) → Prop
  | done {s} : (∀ u v, s = u ++ v → v ≠ [] → ∀ p ∈ pats, ¬ p.1 <+: v) → Carved pats s (plainPart s)
  | hit {gap p id rest ps} : (p, id) ∈ pats →
      (∀ q ∈ pats, q.1 <+: p ++ rest → q.1.length ≤ p.length) →
      (∀ u v, gap = u ++ v → v ≠ [] → ∀ q ∈ pats, ¬ q.1 <+: v ++ p ++ rest) →
      Carved pats rest ps → Carved pats (gap ++ p ++ rest) (plainPart gap ++ (some id, p) :: ps)

/-- The added tokens strip nothing, need not be single words, and special ones are looked for. -/
def Bare (av : AddedVocab) : Prop :=
  av.encodeSpecial = false ∧
    ∀ i t, av.rmap.get i = some t → t.lstrip = false ∧ t.rstrip = false ∧ t.singleWord = false

theorem plainPart_text (s : Str) : (plainPart s).flatMap (·.2) = s := by
  unfold plainPart; split <;> simp_all

theorem Carved.text {pats : List (Str × Nat)} {s : Str} {ps : List (Option Nat × Str)} (h : Carved pats s ps) :
    ps.flatMap (·.2) = s := by
  induction h with
  | done _ => exact plainPart_text _
  | hit _ _ _ _ ih => simp [plainPart_text, ih]

theorem Carved.solid {pats : List (Str × Nat)} (hne : ∀ p ∈ pats, p.1 ≠ []) {s : Str} {ps : List (Option Nat × Str)}
    (h : Carved pats s ps) : ∀ x ∈ ps, x.2 ≠ [] := by
  have hp : ∀ s : Str, ∀ x ∈ plainPart s, x.2 ≠ [] := by
    intro s x hx
    unfold plainPart at hx
    split at hx
    · cases hx
    · rw [List.mem_singleton] at hx; subst hx; assumption
  induction h with
  | done _ => exact hp _
  | hit hm _ _ _ ih =>
    intro x hx
    rcases List.mem_append.1 hx with hx | hx
    · exact hp _ x hx
    · rcases List.mem_cons.1 hx with rfl | hx
      · exact hne _ hm
      · exact ih x hx

/-- **C58.** There is only one way to cut a text at the patterns, if each pattern has one id. -/
theorem C58_carved_unique {pats : List (Str × Nat)} (hne : ∀ p ∈ pats, p.1 ≠ [])
    (hid : ∀ p ∈ pats, ∀ q ∈ pats, p.1 = q.1 → p.2 = q.2) {s : Str} {ps ps' : List (Option Nat × Str)}
    (h : Carved pats s ps) (h' : Carved pats s ps') : ps = ps' := by
  induction h generalizing ps' with
  | @done s hd =>
    cases h' with
    | done _ => rfl
    | @hit gap p id rest ps hm _ _ _ =>
      refine absurd (List.prefix_append p rest) (hd gap (p ++ rest) (by simp) ?_ _ hm)
      intro he; exact hne _ hm (List.append_eq_nil_iff.1 he).1
  | @hit gap p id rest ps hm hl hg hr ih =>
    generalize hs : gap ++ p ++ rest = s at h'
    cases h' with
    | done hd =>
      refine absurd (List.prefix_append p rest) (hd gap (p ++ rest) (by rw [← hs]; simp) ?_ _ hm)
      intro he; exact hne _ hm (List.append_eq_nil_iff.1 he).1
    | @hit gap' p' id' rest' ps' hm' hl' hg' hr' =>
      rw [List.append_assoc, List.append_assoc] at hs
      have hgap : gap = gap' := by
        rcases List.append_eq_append_iff.1 hs with ⟨w, h1, h2⟩ | ⟨w, h1, h2⟩
        · by_cases hw : w = []
          · rw [h1, hw, List.append_nil]
          · exact absurd ⟨rest, by rw [h2]; simp⟩ (hg' gap w h1 hw _ hm)
        · by_cases hw : w = []
          · rw [h1, hw, List.append_nil]
          · exact absurd ⟨rest', by rw [h2]; simp⟩ (hg gap' w h1 hw _ hm')
      subst hgap
      have hp := List.append_cancel_left hs
      have e1 := hl _ hm' (show p' <+: p ++ rest from ⟨rest', hp.symm⟩)
      have e2 := hl' _ hm (show p <+: p' ++ rest' from ⟨rest, hp⟩)
      obtain ⟨rfl, rfl⟩ := List.append_inj hp (Nat.le_antisymm e2 e1)
      have hi : id = id' := hid _ hm _ hm' rfl
      rw [hi, ih hr']

theorem rangesAt_append : ∀ (xs ys : List (Option Nat × Str)) (b : Nat),
    rangesAt b (xs ++ ys) = rangesAt b xs ++ rangesAt (b + blen (xs.flatMap (·.2))) ys
  | [], ys, b => by simp [rangesAt]
  | (tag, x) :: xs, ys, b => by
    rw [List.cons_append, rangesAt, rangesAt, rangesAt_append xs ys, List.flatMap_cons, blen_append, List.cons_append,
      Nat.add_assoc]

theorem rangesAt_plainPart (s : Str) (b : Nat) :
    rangesAt b (plainPart s) = if b < b + blen s then [(none, (b, b + blen s))] else [] := by
  unfold plainPart
  by_cases h : s = []
  · rw [if_pos h]; subst h; simp [rangesAt]
  · rw [if_neg h, if_pos (by have := blen_pos h; omega)]; rfl

theorem findLoop_carved {cl : Classes} {av : AddedVocab} {pats : List (Str × Nat)} {s : Str}
    (hid : ∀ p ∈ pats, ∃ t, av.rmap.get p.2 = some t) (hpl : Bare av) {q : Str} {hs : List (Str × Str × Nat)}
    (hh : Hits pats q hs) : ∀ done : Str, s = done ++ q →
    ∃ ps, findLoop cl av s (blen done) (hitOffsets (blen done) hs) = some (rangesAt (blen done) ps) ∧ Carved pats q ps := by
  induction hh with
  | @done q hq =>
    intro done hs
    refine ⟨_, ?_, .done hq⟩
    rw [hitOffsets, findLoop, rangesAt_plainPart, hs, blen_append]
    by_cases h0 : blen q = 0
    · simp [h0]
    · rw [if_pos (by omega), if_pos (by omega)]
  | @hit gap p id rest hs hp hlong hgap hrest ih =>
    intro done hs'
    obtain ⟨t, ht⟩ := hid _ hp
    obtain ⟨h1, h2, h3⟩ := hpl.2 _ _ ht
    have htake : takeBytes (blen done + blen gap) s = some (done ++ gap) := by
      rw [hs', ← blen_append, show done ++ (gap ++ p ++ rest) = (done ++ gap) ++ (p ++ rest) by simp]
      exact takeBytes_append _ _
    have hdrop : dropBytes (blen done + blen gap + blen p) s = some rest := by
      rw [hs', ← blen_append, ← blen_append, show done ++ (gap ++ p ++ rest) = (done ++ gap ++ p) ++ rest by simp]
      exact dropBytes_append _ _
    have hb : blen done + blen gap + blen p = blen (done ++ gap ++ p) := by simp [blen_append, Nat.add_assoc]
    obtain ⟨ps, g1, g2⟩ := ih (done ++ gap ++ p) (by rw [hs']; simp)
    refine ⟨_, ?_, .hit hp hlong hgap g2⟩
    rw [hitOffsets, findLoop]
    simp only [matchStep, ht, htake, hdrop, hpl.1, h1, h2, h3, Bool.false_eq_true, false_and, if_false]
    rw [Option.bind_some, hb, g1, rangesAt_append, rangesAt_plainPart, plainPart_text, rangesAt, ← hb]
    simp

theorem findMatches_carved {cl : Classes} {av : AddedVocab} {pats : List (Str × Nat)} {s : Str} (hs : s ≠ [])
    (hne : ∀ p ∈ pats, p.1 ≠ []) (hid : ∀ p ∈ pats, ∃ t, av.rmap.get p.2 = some t) (hpl : Bare av) :
    ∃ ps, findMatches cl av pats s = some (rangesAt 0 ps) ∧ Carved pats s ps := by
  unfold findMatches
  rw [if_neg hs]
  by_cases hp : pats = []
  · subst hp
    refine ⟨plainPart s, ?_, .done (by simp)⟩
    rw [if_pos rfl, rangesAt_plainPart, if_pos (by have := blen_pos hs; omega)]
    simp
  · rw [if_neg hp]
    obtain ⟨hits, h1, h2⟩ := scan_hits hne s.length s 0 (Nat.le_refl _)
    obtain ⟨ps, k1, k2⟩ := findLoop_carved (cl := cl) hid hpl h1 [] rfl
    exact ⟨ps, by rw [h2]; exact k1, k2⟩

/-- The pieces as they are shown by `PTS.view`. -/
def shown (ps : List (Option Nat × Str)) : List (Str × Option (List Token)) := ps.map fun x => (x.2, pieceTokens x)

theorem splitWithIndices_carved (cl : Classes) {av : AddedVocab} {pats : List (Str × Nat)}
    (hne : ∀ p ∈ pats, p.1 ≠ []) (hid : ∀ p ∈ pats, ∃ t, av.rmap.get p.2 = some t) (hpl : Bare av) :
    ∃ C : Str → List (Option Nat × Str), (∀ s, Carved pats s (C s)) ∧ ∀ (whole : Str) (n : NS), n.Good whole →
      ∃ out, splitWithIndices cl av pats n = some out ∧
        ((out.filter fun x => x.normalized.norm ≠ []).map fun x => (x.normalized.norm, x.tokens)) = shown (C n.norm) ∧
        ∀ x ∈ out, x.normalized.norm ≠ [] → x.normalized.Good whole := by
  have h : ∀ s : Str, ∃ ps, Carved pats s ps ∧ (s ≠ [] → findMatches cl av pats s = some (rangesAt 0 ps)) := by
    intro s
    by_cases hs : s = []
    · subst hs
      exact ⟨plainPart [], .done (by
        intro u v e hv
        exact absurd (List.append_eq_nil_iff.1 e.symm).2 hv), fun h => absurd rfl h⟩
    · obtain ⟨ps, h1, h2⟩ := findMatches_carved (cl := cl) hs hne hid hpl
      exact ⟨ps, h2, fun _ => h1⟩
  refine ⟨fun s => (h s).choose, fun s => (h s).choose_spec.1, fun whole n hn => ?_⟩
  have hc := (h n.norm).choose_spec
  dsimp only
  generalize (h n.norm).choose = ps at hc ⊢
  by_cases hnil : n.norm = []
  · have : ps = [] := by
      have hs := hc.1.solid hne
      have ht := hc.1.text
      rw [hnil] at ht
      cases ps with
      | nil => rfl
      | cons x ps => exact absurd (List.append_eq_nil_iff.1 ht).1 (hs x (by simp))
    obtain ⟨out, h1, h2, h3⟩ := mapM_toSplit hn [(none, [])] [] (by simp [hnil])
    refine ⟨out, ?_, ?_, h3⟩
    · unfold splitWithIndices findMatches
      rw [if_pos hnil]; exact h1
    · subst this
      have : out.filter (fun x => x.normalized.norm ≠ []) = [] := by
        rw [List.filter_eq_nil_iff]
        intro x hx
        have := congrArg (List.map Prod.snd) h2
        simp only [List.map_map] at this
        have hm : x.normalized.norm ∈ out.map (Prod.snd ∘ fun x => (x.tokens, x.normalized.norm)) :=
          List.mem_map.2 ⟨x, hx, rfl⟩
        rw [this] at hm
        simpa using hm
      rw [this]; rfl
  · obtain ⟨out, h1, h2, h3⟩ := mapM_toSplit hn ps [] (by simpa using hc.1.text.symm)
    refine ⟨out, ?_, ?_, h3⟩
    · unfold splitWithIndices
      rw [hc.2 hnil]; exact h1
    · have hall : out.filter (fun x => x.normalized.norm ≠ []) = out := by
        rw [List.filter_eq_self]
        intro x hx
        have := congrArg (List.map Prod.snd) h2
        simp only [List.map_map] at this
        have hm : x.normalized.norm ∈ out.map (Prod.snd ∘ fun x => (x.tokens, x.normalized.norm)) :=
          List.mem_map.2 ⟨x, hx, rfl⟩
        rw [this] at hm
        obtain ⟨y, hy, he⟩ := List.mem_map.1 hm
        have := hc.1.solid hne y hy
        simp at he
        simp [← he, this]
      rw [hall]
      have := congrArg (List.map fun y : Option (List Token) × Str => (y.2, y.1)) h2
      simpa [shown, List.map_map, Function.comp_def] using this

end AddedVocab

namespace PTS
open AddedVocab

/-- Splitting by a function that may give tokens to pieces. -/
theorem split_tagged_view {p : PTS} (hg : p.Good) {f : Nat → NS → Except Unit (List Split)}
    (T : NS → List (Str × Option (List Token)))
    (h : ∀ n i, n.Good p.original → ∃ o, f i n = .ok o ∧
      ((o.filter fun x => x.normalized.norm ≠ []).map fun x => (x.normalized.norm, x.tokens)) = T n ∧
      ∀ x ∈ o, x.normalized.norm ≠ [] → x.normalized.Good p.original) :
    ∃ p', p.split f = .ok p' ∧ p'.original = p.original ∧ p'.Good ∧ p'.view = p.splits.flatMap fun s =>
      match s.tokens with
      | some ts => [(s.normalized.norm, some ts)]
      | none => T s.normalized := by
  obtain ⟨p', outs, h1, h2, h3, h4, h5⟩ := split_total (p := p) (f := f)
    (P := fun n o => ((o.filter fun x => x.normalized.norm ≠ []).map fun x => (x.normalized.norm, x.tokens)) = T n ∧
      ∀ x ∈ o, x.normalized.norm ≠ [] → x.normalized.Good p.original) (fun s hs hn i => h s.normalized i (hg s hs hn))
  refine ⟨p', h1, h2, ?_, ?_⟩
  · intro x hx hn
    rw [h4, List.mem_flatten] at hx
    obtain ⟨out, ho, hx⟩ := hx
    obtain ⟨i, hi⟩ := List.mem_iff_getElem?.1 ho
    have hlt : i < p.splits.length := by rw [← h3]; exact (List.getElem?_eq_some_iff.1 hi).1
    have hs : p.splits[i]? = some p.splits[i] := List.getElem?_eq_getElem hlt
    obtain ⟨g1, g2⟩ := h5 i _ out hs hi
    cases ht : p.splits[i].tokens with
    | some ts =>
      rw [g1 (by rw [ht]; rfl), List.mem_singleton] at hx
      rw [hx, ht] at hn; cases hn
    | none =>
      obtain ⟨o, ⟨_, g4⟩, rfl⟩ := g2 ht
      obtain ⟨k1, k2⟩ := List.mem_filter.1 hx
      rw [h2]; exact g4 x k1 (by simpa using k2)
  · unfold view
    rw [h4]
    refine map_flatten_of _ _ h3 fun i s out hs ho => ?_
    obtain ⟨g1, g2⟩ := h5 i s out hs ho
    cases ht : s.tokens with
    | some ts => rw [g1 (by rw [ht]; rfl)]; simp [ht]
    | none =>
      obtain ⟨o, ⟨g3, g4⟩, rfl⟩ := g2 ht
      dsimp only
      rw [← g3]

/-- The tokens of a piece that is shown. -/
def tokensWith {ε : Type} (f : Str → Except ε (List Token)) (x : Str × Option (List Token)) : Except ε (List Token) :=
  match x.2 with
  | some ts => .ok ts
  | none => f x.1

theorem mapUntokenized_view {ε : Type} (f : Str → Except ε (List Token)) : ∀ ss : List Split,
    mapUntokenized (fun n => (f n.norm).map fun ts => (⟨n, some ts⟩ : Split)) ss =
      ((ss.map fun s => (s.normalized.norm, s.tokens)).mapM (tokensWith f)).map fun tss =>
        List.zipWith (fun s ts => ⟨s.normalized, some ts⟩) ss tss
  | [] => rfl
  | s :: ss => by
    rw [mapUntokenized, List.map_cons, List.mapM_cons, mapUntokenized_view f ss]
    cases ht : s.tokens with
    | some ts =>
      simp only [Option.isSome_some, if_true, tokensWith]
      cases (ss.map fun s => (s.normalized.norm, s.tokens)).mapM (tokensWith f) with
      | error e => rfl
      | ok tss =>
        have : s = ⟨s.normalized, some ts⟩ := by rw [← ht]
        simp only [Except.map, bind, Except.bind, pure, Except.pure, List.zipWith_cons_cons]
        rw [← this]
    | none =>
      simp only [Option.isSome_none, Bool.false_eq_true, if_false, tokensWith]
      cases f s.normalized.norm with
      | error e => rfl
      | ok ts =>
        simp only [Except.map, bind, Except.bind]
        cases (ss.map fun s => (s.normalized.norm, s.tokens)).mapM (tokensWith f) with
        | error e => rfl
        | ok tss => rfl

end PTS

namespace Tokenizer
open AddedVocab PreTokenizer

/-! ## The pipeline on plain text -/

/-- A tokenizer made of a normalizer and a pre-tokenizer of the library. Without one of them, take the empty sequence.
The added tokens strip nothing. -/
structure IsPipeline (t : Tokenizer) (u : Unicode) (z : Normalizer) (v : CharTables) (y : PreTokenizer) : Prop where
  normalizer : t.normalizer = z.apply u
  preTok : t.preTok = fun p => mapErr (fun _ => .preTok 0) (y.apply v p)
  unicode : u.Ok
  safe : z.Safe
  sound : y.Sound
  anywhere : y.Anywhere
  tries : TriesOk t.added
  bare : t.added.Bare

/-- A way to cut every text at the leftmost-longest occurrences of the patterns (there is only one, `C58_carved_unique`). -/
def Carves (pats : List (Str × Nat)) (C : Str → List (Option Nat × Str)) : Prop := ∀ s, Carved pats s (C s)

/-- What is passed to the pre-tokenizer: the added tokens found in the text, and between them the added tokens found in
the normalized text, and the rest of that. -/
def extracted (u : Unicode) (z : Normalizer) (C1 C2 : Str → List (Option Nat × Str)) (s : Str) : List (Option Nat × Str) :=
  (C1 s).flatMap fun x =>
    match x.1 with
    | some _ => [x]
    | none => C2 (z.text u x.2)

/-- What is passed to the model: added tokens and words. -/
def units (v : CharTables) (y : PreTokenizer) (ps : List (Option Nat × Str)) : List (Option Nat × Str) :=
  ps.flatMap fun x =>
    match x.1 with
    | some _ => [x]
    | none => ((cut v false y x.2).filter (· ≠ [])).map fun w => (none, w)

/-- The tokens of a unit. -/
def unitTokens {ε : Type} (model : Str → Except ε (List Token)) (x : Option Nat × Str) : Except ε (List Token) :=
  match x.1 with
  | some id => .ok [⟨id, x.2, (0, blen x.2)⟩]
  | none => model x.2

/-- A row without offsets: id, type id, token, word, special, attention. -/
def Row.bare (r : Row) : Nat × Nat × Str × Option Nat × Nat × Nat := (r.1, r.2.1, r.2.2.1, r.2.2.2.1, r.2.2.2.2.2)

/-- The rows of the tokens of consecutive units. -/
def unitRows (typeId : Nat) (word : Option Nat) (tss : List (List Token)) : List (Nat × Nat × Str × Option Nat × Nat × Nat) :=
  tss.zipIdx.flatMap fun x => x.1.map fun tok => (tok.id, typeId, tok.value, some (word.getD x.2), 0, 1)

theorem shown_flatMap {α : Type} (f : α → List (Option Nat × Str)) (l : List α) :
    shown (l.flatMap f) = l.flatMap fun x => shown (f x) := by simp [shown, List.map_flatMap]

theorem preTokenized_view {t : Tokenizer} {u : Unicode} {z : Normalizer} {v : CharTables} {y : PreTokenizer}
    (h : IsPipeline t u z v y) :
    ∃ C1 C2, Carves t.added.trie C1 ∧ Carves t.added.normTrie C2 ∧ ∀ s, ∃ p, t.preTokenized s = .ok p ∧
      p.original = s ∧ p.Good ∧ p.view = shown (units v y (extracted u z C1 C2 s)) := by
  have hne1 : ∀ p ∈ t.added.trie, p.1 ≠ [] := fun p hp => (h.tries p (by simp [hp])).1
  have hne2 : ∀ p ∈ t.added.normTrie, p.1 ≠ [] := fun p hp => (h.tries p (by simp [hp])).1
  obtain ⟨C1, hC1, hs1⟩ := splitWithIndices_carved t.cl hne1 (fun p hp => (h.tries p (by simp [hp])).2) h.bare
  obtain ⟨C2, hC2, hs2⟩ := splitWithIndices_carved t.cl hne2 (fun p hp => (h.tries p (by simp [hp])).2) h.bare
  refine ⟨C1, C2, hC1, hC2, fun s => ?_⟩
  obtain ⟨p1, h1, h2, h3, h4⟩ := PTS.split_tagged_view (PTS.good_ofStr s)
    (f := fun _ n => AddedVocab.orPanic (splitWithIndices t.cl t.added t.added.trie n)) (fun n => shown (C1 n.norm)) (by
      intro n i hn
      obtain ⟨out, g1, g2, g3⟩ := hs1 _ n hn
      exact ⟨out, by rw [g1]; rfl, g2, g3⟩)
  obtain ⟨p2, k1, k2, k3, k4⟩ := PTS.split_tagged_view h3
    (f := fun _ n => AddedVocab.orPanic ((t.normalizer n).bind (splitWithIndices t.cl t.added t.added.normTrie)))
    (fun n => shown (C2 (z.text u n.norm))) (by
      intro n i hn
      obtain ⟨n', m1, m2, m3, _⟩ := Normalizer.C56_normalizer h.unicode z h.safe hn
      obtain ⟨out, g1, g2, g3⟩ := hs2 _ n' m3
      refine ⟨out, ?_, by rw [← m2]; exact g2, g3⟩
      rw [h.normalizer, m1, Option.bind_some, g1]; rfl)
  obtain ⟨p3, j1, j2, j3, j4, j5⟩ := apply_finds v y h.sound (firstOnly_of_anywhere y h.anywhere) p2 k3
  have hv1 : p1.view = shown (C1 s) := by
    rw [h4]
    simp [PTS.ofStr, PTS.ofNS, NS.ofStr]
  have hv2 : p2.view = shown (extracted u z C1 C2 s) := by
    have e : p2.view = p1.view.flatMap fun x =>
        match x.2 with
        | some ts => [(x.1, some ts)]
        | none => shown (C2 (z.text u x.1)) := by
      rw [k4, PTS.view, List.flatMap_map]
    rw [e, hv1, extracted, shown_flatMap, shown, List.flatMap_map]
    congr 1
    funext x
    obtain ⟨tag, w⟩ := x
    cases tag <;> rfl
  have hfull : p2.view = p2.filled := by
    rw [PTS.filled, eq_comm, List.filter_eq_self, hv2]
    intro x hx
    obtain ⟨y, hy, rfl⟩ := List.mem_map.1 hx
    obtain ⟨x', hx', hy⟩ := List.mem_flatMap.1 hy
    have : y.2 ≠ [] := by
      cases ht : x'.1 with
      | some id => rw [ht] at hy; simp at hy; subst hy; exact (hC1 s).solid hne1 _ hx'
      | none => rw [ht] at hy; exact (hC2 _).solid hne2 _ hy
    simp [this]
  refine ⟨p3, ?_, j2.trans (k2.trans h2), j3, ?_⟩
  · unfold preTokenized extractAndNormalize
    rw [h1]
    show (mapErr (fun _ => EncErr.added) (p1.split _)).bind t.preTok = _
    rw [k1, h.preTok]
    show mapErr _ (y.apply v p2) = _
    rw [j1]; rfl
  · rw [j5 hfull, j4]
    have e : (fun n : NS => solid (cut v (atStart n) y n.norm)) = fun n => solid (cut v false y n.norm) := by
      funext n; rw [cut_anywhere v (atStart n) false y h.anywhere]
    rw [e, PTS.recut_text (fun w => solid (cut v false y w)), hv2, units, shown_flatMap, shown, List.flatMap_map]
    congr 1
    funext x
    obtain ⟨tag, w⟩ := x
    cases tag with
    | some id => rfl
    | none => simp [PTS.piece, shown, pieceTokens, solid, List.map_map, Function.comp_def]

theorem tokensWith_shown {ε : Type} (model : Str → Except ε (List Token)) (ps : List (Option Nat × Str)) :
    (shown ps).mapM (PTS.tokensWith model) = ps.mapM (unitTokens model) := by
  induction ps with
  | nil => rfl
  | cons x ps ih =>
    rw [shown, List.map_cons, List.mapM_cons, List.mapM_cons]
    rw [shown] at ih
    rw [ih]
    obtain ⟨tag, w⟩ := x
    cases tag <;> rfl

theorem mapM_length {ε α β : Type} {f : α → Except ε β} : ∀ {l : List α} {r : List β}, l.mapM f = .ok r → r.length = l.length
  | [], r, h => by cases h; rfl
  | a :: l, r, h => by
    rw [List.mapM_cons] at h
    cases hf : f a with
    | error e => rw [hf] at h; cases h
    | ok b =>
      cases hl : l.mapM f with
      | error e => rw [hf, hl] at h; cases h
      | ok bs =>
        rw [hf, hl] at h; cases h
        simp [mapM_length hl]

/-- **C58.** Encoding a text is what the stages do one after the other on plain text: cut at the added tokens, normalize the
rest, cut that at the added tokens, pre-tokenize, give every word to the model. The tokens are those of the units, in
order, their word is the index of the unit; the first error of the model is the error. -/
theorem C58_encode {t : Tokenizer} {u : Unicode} {z : Normalizer} {v : CharTables} {y : PreTokenizer}
    (h : IsPipeline t u z v y) :
    ∃ C1 C2, Carves t.added.trie C1 ∧ Carves t.added.normTrie C2 ∧
      ∀ (s : Str) (typeId : Nat) (ty : PTS.OffsetType) (word : Option Nat), ty ≠ .none →
        match (units v y (extracted u z C1 C2 s)).mapM (unitTokens t.model) with
        | .error e => t.encodeText none typeId ty word s = .error e
        | .ok tss => ∃ e, t.encodeText none typeId ty word s = .ok e ∧ e.overflowing = [] ∧
            e.rows.map Row.bare = unitRows typeId word tss := by
  obtain ⟨C1, C2, hC1, hC2, hp⟩ := preTokenized_view h
  refine ⟨C1, C2, hC1, hC2, fun s typeId ty word hty => ?_⟩
  obtain ⟨p, p1, p2, p3, p4⟩ := hp s
  have ht : p.tokenize (fun n => t.model n.norm) =
      ((units v y (extracted u z C1 C2 s)).mapM (unitTokens t.model)).map fun tss =>
        ⟨p.original, List.zipWith (fun s ts => ⟨s.normalized, some ts⟩) p.splits tss⟩ := by
    unfold PTS.tokenize
    rw [PTS.mapUntokenized_view, show p.splits.map (fun s => (s.normalized.norm, s.tokens)) = p.view from rfl, p4,
      tokensWith_shown]
    cases (units v y (extracted u z C1 C2 s)).mapM (unitTokens t.model) <;> rfl
  have hlen : p.splits.length = (units v y (extracted u z C1 C2 s)).length := by
    have := congrArg List.length p4
    simpa [PTS.view, shown] using this
  have henc : t.encodeText none typeId ty word s = (p.tokenize fun n => t.model n.norm).bind fun q =>
      mapErr (fun _ => EncErr.notTokenized) (q.intoEncoding word typeId ty) := by
    unfold encodeText
    rw [p1]; rfl
  rw [henc, ht]
  cases hm : (units v y (extracted u z C1 C2 s)).mapM (unitTokens t.model) with
  | error e => rfl
  | ok tss =>
    have hl := mapM_length hm
    dsimp only [Except.map, Except.bind]
    obtain ⟨e, e1, e2, e3⟩ := PTS.C13_into_encoding (p := ⟨p.original, List.zipWith (fun s ts => ⟨s.normalized, some ts⟩) p.splits tss⟩)
      (by
        intro x hx
        obtain ⟨i, hi⟩ := List.mem_iff_getElem?.1 hx
        rw [List.getElem?_zipWith] at hi
        split at hi
        · cases hi; rfl
        · cases hi) word typeId ty hty
    refine ⟨e, by rw [e1]; rfl, e2, ?_⟩
    rw [e3, unitRows, List.map_flatMap]
    have key : ∀ (ss : List Split) (tss : List (List Token)) (k : Nat), ss.length = tss.length →
        ((List.zipWith (fun (s : Split) ts => (⟨s.normalized, some ts⟩ : Split)) ss tss).zipIdx k).flatMap (fun si =>
          List.map Row.bare ((si.1.tokens.getD []).map fun t =>
          (t.id, typeId, t.value, some (word.getD si.2), PTS.tokenOffsets p.original ty si.1.normalized t, 0, 1))) =
        (tss.zipIdx k).flatMap fun x => x.1.map fun tok => (tok.id, typeId, tok.value, some (word.getD x.2), 0, 1) := by
      intro ss
      induction ss with
      | nil => intro tss k h; cases tss with
        | nil => rfl
        | cons _ _ => simp at h
      | cons s ss ih =>
        intro tss k h
        cases tss with
        | nil => simp at h
        | cons ts tss =>
          rw [List.zipWith_cons_cons, List.zipIdx_cons, List.zipIdx_cons, List.flatMap_cons, List.flatMap_cons,
            ih tss (k + 1) (by simpa using h)]
          congr 1
          simp [Row.bare, Function.comp_def]
    exact key p.splits tss 0 (by omega)

/-- Without added tokens a text is one part. -/
theorem extracted_none {u : Unicode} {z : Normalizer} {t1 t2 : List (Str × Nat)} {C1 C2 : Str → List (Option Nat × Str)}
    (h1 : Carves t1 C1) (h2 : Carves t2 C2) {s : Str} (hs : s ≠ [])
    (hn1 : ∀ p ∈ t1, p.1 ≠ [] ∧ ¬ p.1 <:+: s) (hn2 : ∀ p ∈ t2, p.1 ≠ [] ∧ ¬ p.1 <:+: z.text u s) :
    extracted u z C1 C2 s = plainPart (z.text u s) := by
  have key : ∀ {pats : List (Str × Nat)} {s : Str} {ps}, (∀ p ∈ pats, p.1 ≠ [] ∧ ¬ p.1 <:+: s) → Carved pats s ps →
      ps = plainPart s := by
    intro pats s ps hn hc
    cases hc with
    | done _ => rfl
    | @hit gap p id rest ps hm => exact absurd ⟨gap, rest, rfl⟩ (hn _ hm).2
  unfold extracted
  rw [key hn1 (h1 s), plainPart, if_neg hs]
  simp [key hn2 (h2 (z.text u s))]

/-- **C58.** A text in which no added token occurs: normalized, cut by the pre-tokenizer, the words are given to the model. -/
theorem C58_no_added {t : Tokenizer} {u : Unicode} {z : Normalizer} {v : CharTables} {y : PreTokenizer}
    (h : IsPipeline t u z v y) {s : Str} (hs : s ≠ []) (h1 : ∀ p ∈ t.added.trie, ¬ p.1 <:+: s)
    (h2 : ∀ p ∈ t.added.normTrie, ¬ p.1 <:+: z.text u s) (typeId : Nat) {ty : PTS.OffsetType} (hty : ty ≠ .none)
    (word : Option Nat) :
    match ((cut v false y (z.text u s)).filter (· ≠ [])).mapM t.model with
    | .error e => t.encodeText none typeId ty word s = .error e
    | .ok tss => ∃ e, t.encodeText none typeId ty word s = .ok e ∧ e.overflowing = [] ∧
        e.rows.map Row.bare = unitRows typeId word tss := by
  obtain ⟨C1, C2, hC1, hC2, he⟩ := C58_encode h
  have := he s typeId ty word hty
  have hu : units v y (extracted u z C1 C2 s) = ((cut v false y (z.text u s)).filter (· ≠ [])).map fun w => (none, w) := by
    rw [extracted_none hC1 hC2 hs (fun p hp => ⟨(h.tries p (by simp [hp])).1, h1 p hp⟩)
      (fun p hp => ⟨(h.tries p (by simp [hp])).1, h2 p hp⟩)]
    unfold plainPart units
    split
    · rename_i hz
      have hn := cut_nil v false y h.sound
      rw [solid] at hn
      rw [hz, hn]; rfl
    · simp
  have hm : ∀ l : List Str, (l.map fun w => ((none : Option Nat), w)).mapM (unitTokens t.model) = l.mapM t.model := by
    intro l
    induction l with
    | nil => rfl
    | cons w l ih => rw [List.map_cons, List.mapM_cons, List.mapM_cons, ih]; rfl
  rw [hu, hm] at this
  exact this

/-! ## BERT -/

/-- What WordPiece makes of a unit: an added token is itself, a word its greedy segmentation, or the unknown token. -/
def Spelled (w : WordPiece) (x : Option Nat × Str) (ts : List Token) : Prop :=
  match x.1 with
  | some id => ts = [⟨id, x.2, (0, blen x.2)⟩]
  | none => (x.2.length ≤ w.maxInputChars ∧ w.Greedy 0 x.2 ts) ∨
      ((w.maxInputChars < x.2.length ∨ ¬ ∃ ts, w.Greedy 0 x.2 ts) ∧
        ∃ id, w.vocab.get w.unkToken = some id ∧ ts = [⟨id, w.unkToken, (0, blen x.2)⟩])

/-- Element by element. -/
def Each {α β : Type} (R : α → β → Prop) : List α → List β → Prop
  | [], [] => True
  | a :: as, b :: bs => R a b ∧ Each R as bs
  | _, _ => False

theorem spelled_mapM {w : WordPiece} {model : Str → Except EncErr (List Token)}
    (hm : model = fun s => mapErr (fun _ => .model 0) (w.tokenize s)) (hunk : ∃ id, w.vocab.get w.unkToken = some id) :
    ∀ us : List (Option Nat × Str), ∃ tss, us.mapM (unitTokens model) = .ok tss ∧ Each (Spelled w) us tss
  | [] => ⟨[], rfl, trivial⟩
  | x :: us => by
    obtain ⟨tss, h1, h2⟩ := spelled_mapM hm hunk us
    have : ∃ ts, unitTokens model x = .ok ts ∧ Spelled w x ts := by
      obtain ⟨tag, s⟩ := x
      cases tag with
      | some id => exact ⟨_, rfl, rfl⟩
      | none =>
        obtain ⟨id, hid⟩ := hunk
        rcases (WordPiece.C21_tokenize w s (w.tokenize s)).1 rfl with ⟨g1, ts, g2, g3⟩ | ⟨g1, ⟨i, g2, g3⟩ | ⟨g2, g3⟩⟩
        · exact ⟨ts, by simp [unitTokens, hm, g3, mapErr], .inl ⟨g1, g2⟩⟩
        · exact ⟨_, by simp [unitTokens, hm, g3, mapErr], .inr ⟨g1, i, g2, rfl⟩⟩
        · rw [hid] at g2; cases g2
    obtain ⟨ts, g1, g2⟩ := this
    exact ⟨ts :: tss, by rw [List.mapM_cons, g1, h1]; rfl, g2, h2⟩

/-- The row of an inserted token. -/
def inserted (m : Str × Nat) (typeId : Nat) : Nat × Nat × Str × Option Nat × Nat × Nat := (m.2, typeId, m.1, none, 1, 1)

theorem bare_ordinary (ty : Nat) {rows : List Row} {tss : List (List Token)} (h : rows.map Row.bare = unitRows ty none tss) :
    (rows.map (Post.ordinary (some ty))).map Row.bare = unitRows ty none tss := by
  rw [← h, List.map_map]
  apply List.map_congr_left
  intro r hr
  have : Row.bare r ∈ unitRows ty none tss := h ▸ List.mem_map_of_mem hr
  obtain ⟨x, _, hx⟩ := List.mem_flatMap.1 this
  obtain ⟨tok, _, hx⟩ := List.mem_map.1 hx
  obtain ⟨r1, r2, r3, r4, r5, r6, r7⟩ := r
  simp only [Row.bare, Prod.mk.injEq] at hx
  obtain ⟨_, e2, _, _, e5, e6⟩ := hx
  simp [Row.bare, Post.ordinary, ← e2, ← e5, ← e6]

/-- **C58.** A BERT tokenizer (any normalizer and pre-tokenizer of the library, WordPiece with its unknown token, no
truncation nor padding) never fails. The encoding is `[CLS]`, the tokens of the units of the first text, `[SEP]`, and for
a pair those of the second text and `[SEP]` with type 1. -/
theorem C58_bert {t : Tokenizer} {u : Unicode} {z : Normalizer} {v : CharTables} {y : PreTokenizer}
    (h : IsPipeline t u z v y) {w : WordPiece} (hm : t.model = fun s => mapErr (fun _ => .model 0) (w.tokenize s))
    (hunk : ∃ id, w.vocab.get w.unkToken = some id) {m : Post.Marks} (hset : t.settings = ⟨none, none, some (.bert m)⟩) :
    ∃ C1 C2, Carves t.added.trie C1 ∧ Carves t.added.normTrie C2 ∧ ∀ (a : Str),
      ∃ A, Each (Spelled w) (units v y (extracted u z C1 C2 a)) A ∧
        (∃ e, t.encode (.raw a, none) true = .ok e ∧
          e.rows.map Row.bare = inserted m.cls 0 :: unitRows 0 none A ++ [inserted m.sep 0]) ∧
        ∀ b : Str, ∃ B, Each (Spelled w) (units v y (extracted u z C1 C2 b)) B ∧
          ∃ e, t.encode (.raw a, some (.raw b)) true = .ok e ∧
            e.rows.map Row.bare = inserted m.cls 0 :: unitRows 0 none A ++ [inserted m.sep 0] ++
              unitRows 1 none B ++ [inserted m.sep 1] := by
  obtain ⟨C1, C2, hC1, hC2, he⟩ := C58_encode h
  refine ⟨C1, C2, hC1, hC2, fun a => ?_⟩
  have one : ∀ (a : Str) (k : Nat), ∃ A, Each (Spelled w) (units v y (extracted u z C1 C2 a)) A ∧
      ∃ e, t.encodeSequence k .byte (.raw a) = .ok e ∧ e.WF ∧ e.rows.map Row.bare = unitRows k none A := by
    intro a k
    obtain ⟨A, h1, h2⟩ := spelled_mapM hm hunk (units v y (extracted u z C1 C2 a))
    have := he a k .byte none (by simp)
    rw [h1] at this
    obtain ⟨e, e1, e2, e3⟩ := this
    have e1' : t.encodeSequence k .byte (.raw a) = .ok e := by
      have hlim : t.limit k = none := by unfold limit; rw [hset]
      show t.encodeText (t.limit k) k .byte none a = _
      rw [hlim]; exact e1
    have hlim : t.limit k = none := by unfold limit; rw [hset]
    exact ⟨A, h2, e, e1', (encodeSequence_wf (lim := t.limit k) (i := .raw a) e1' hlim).1, e3⟩
  obtain ⟨A, a1, e, a2, a3, a4⟩ := one a 0
  refine ⟨A, a1, ?_, ?_⟩
  · obtain ⟨out, o1, o2, _⟩ := Post.C36_bert t.ws m (pair := none) a3 (by simp)
    refine ⟨out, ?_, ?_⟩
    · show (t.encodeSequence 0 .byte (.raw a)).bind _ = _
      rw [a2]
      show mapErr EncErr.post (t.settings.postProcess t.ws t.checked e none true) = _
      rw [hset]
      simp only [Post.Settings.postProcess, Post.Settings.truncate, Post.Settings.finish, o1, Post.Settings.padOne, mapErr]
    · rw [o2.1]
      simp only [List.map_append, bare_ordinary 0 a4]
      simp [Post.mark, Row.bare, inserted]
  · intro b
    obtain ⟨B, b1, e', b2, b3, b4⟩ := one b 1
    refine ⟨B, b1, ?_⟩
    obtain ⟨out, o1, o2, _⟩ := Post.C36_bert t.ws m (pair := some e') a3 (by simpa using b3)
    refine ⟨out, ?_, ?_⟩
    · show (t.encodeSequence 0 .byte (.raw a)).bind _ = _
      rw [a2]
      show ((t.encodeSequence 1 .byte (.raw b)).map some).bind _ = _
      rw [b2]
      show mapErr EncErr.post (t.settings.postProcess t.ws t.checked e (some e') true) = _
      rw [hset]
      simp only [Post.Settings.postProcess, Post.Settings.truncate, Post.Settings.finish, o1, Post.Settings.padOne, mapErr]
    · rw [o2.1]
      simp only [List.map_append, bare_ordinary 0 a4, Option.map_some, Option.getD_some, bare_ordinary 1 b4]
      simp [Post.mark, Row.bare, inserted]

end Tokenizer
end Tok
