import Verif.PreTokenizers.Loops

/-!
# C57: every pre-tokenizer finds the pieces it is documented to find
-/

namespace Tok
namespace PreTokenizer
open NS

/-- The pieces `o` have the texts `T`, up to empty ones, and are good. -/
def Cuts (whole : Str) (T : List Str) (o : List Split) : Prop :=
  solid (o.map (·.normalized.norm)) = solid T ∧
    ∀ x ∈ o, x.tokens = none ∧ (x.normalized.norm ≠ [] → x.normalized.Good whole)

theorem solid_of_flatten {l : List Str} (h : l.flatten = []) : solid l = [] := by
  unfold solid
  rw [List.filter_eq_nil_iff]
  intro x hx
  simpa using List.flatten_eq_nil_iff.1 h x hx

theorem solid_map {f : Str → Str} (hf : ∀ s, f s = [] ↔ s = []) (l : List Str) : solid (l.map f) = (solid l).map f := by
  unfold solid
  rw [List.filter_map]
  congr 1
  apply List.filter_congr
  intro x _
  simp only [Function.comp_apply, ne_eq, hf]

/-! ## one piece -/

theorem cuts_of_pieces {whole : Str} {n : NS} (h : n.Good whole) {ps : List (Str × Bool)}
    (hps : ps.flatMap (·.1) = n.norm) (b : Behavior) :
    ∃ out, n.split (piecesAt 0 ps) b = some out ∧ Cuts whole (kept b ps) (out.map fun x => ⟨x, none⟩) := by
  have hc := covers_piecesAt ps []
  simp only [List.nil_append, blen_nil] at hc
  rw [hps] at hc
  obtain ⟨ps', out, h1, h2, h3, h4, h5⟩ := NS.split_good h hc b
  obtain ⟨out', g1, g2, _⟩ := C11_split h.1 hps.symm b
  rw [h3] at g1; cases g1
  refine ⟨out, h3, ?_, ?_⟩
  · rw [List.map_map, ← g2]; rfl
  · intro x hx
    obtain ⟨y, hy, rfl⟩ := List.mem_map.1 hx
    exact ⟨rfl, h5 y hy⟩

/-- On the empty text a pattern finds nothing but empty pieces. -/
theorem cuts_empty {whole : Str} {n : NS} (h : n.Good whole) (hn : n.norm = []) {f : Bool} (b : Behavior) {T : List Str}
    (hT : T.flatten = []) :
    ∃ out, n.split [((0, 0), f)] b = some out ∧ Cuts whole T (out.map fun x => ⟨x, none⟩) := by
  obtain ⟨out, h1, h2, h3⟩ := cuts_of_pieces h (ps := [([], f)]) (by rw [hn]; rfl) b
  refine ⟨out, h1, ?_, h3⟩
  rw [h2, solid_of_flatten hT, solid_of_flatten]
  rw [C11_partition]; simp

theorem splitFn_cuts {whole : Str} {n : NS} {ms : Str → Matches} {b : Behavior} {T : List Str} (i : Nat)
    (h : ∃ out, n.split (ms n.norm) b = some out ∧ Cuts whole T (out.map fun x => ⟨x, none⟩)) :
    ∃ o, splitFn ms b i n = .ok o ∧ Cuts whole T o := by
  obtain ⟨out, h1, h2⟩ := h
  exact ⟨_, by unfold splitFn; rw [h1], h2⟩

theorem pred_cuts {whole : Str} {n : NS} (h : n.Good whole) (p : Char → Bool) (b : Behavior) (i : Nat) :
    ∃ o, splitFn (findPred p) b i n = .ok o ∧ Cuts whole (kept b (marked p n.norm)) o := by
  apply splitFn_cuts
  by_cases hn : n.norm = []
  · rw [hn, findPred, if_pos rfl]
    exact cuts_empty h hn b (by rw [C11_partition]; rfl)
  · rw [findPred_marked p hn]
    exact cuts_of_pieces h (marked_text p _) b

theorem regex_cuts {whole : Str} {n : NS} (h : n.Good whole) {re : Str → List Range} (b : Behavior) (inv : Bool)
    (hre : EngineMatches n.norm 0 (re n.norm)) (i : Nat) :
    ∃ o, splitRegexFn re b inv i n = .ok o ∧
      Cuts whole (kept b ((cutAt n.norm 0 (re n.norm)).map fun x => (x.1, x.2 != inv))) o := by
  have hflat : ∀ f : Bool → Bool, ((cutAt n.norm 0 (re n.norm)).map fun x => (x.1, f x.2)).flatMap (·.1) =
      (cutAt n.norm 0 (re n.norm)).flatMap (·.1) := by
    intro f; rw [List.flatMap_map]
  by_cases hn : n.norm = []
  · have hnil : ∀ f : Bool → Bool, (kept b ((cutAt n.norm 0 (re n.norm)).map fun x => (x.1, f x.2))).flatten = [] := by
      intro f
      rw [C11_partition]
      have := hflat f
      rw [hn] at this hre ⊢
      rw [cutAt_nil hre] at this
      rw [List.flatMap_eq_nil_iff] at this ⊢
      intro x hx
      split
      · rfl
      · exact this x hx
    unfold splitRegexFn
    cases inv with
    | true =>
      rw [if_pos rfl]
      refine splitFn_cuts i ?_
      simp only [findRegex, hn, if_true, invert, List.map_cons, List.map_nil, Bool.not_false]
      have := hnil (· != true)
      rw [hn] at this
      exact cuts_empty h hn b this
    | false =>
      rw [if_neg (by simp)]
      refine splitFn_cuts i ?_
      simp only [findRegex, hn, if_true]
      have := hnil (· != false)
      rw [hn] at this
      exact cuts_empty h hn b this
  · obtain ⟨h1, h2⟩ := findRegex_cut hn hre
    unfold splitRegexFn
    cases inv with
    | true =>
      rw [if_pos rfl]
      refine splitFn_cuts i ?_
      rw [h1, invert_piecesAt]
      have := cuts_of_pieces h (ps := (cutAt n.norm 0 (re n.norm)).map fun x => (x.1, !x.2)) (by rw [hflat (!·), h2]) b
      simpa using this
    | false =>
      rw [if_neg (by simp)]
      refine splitFn_cuts i ?_
      rw [h1]
      have := cuts_of_pieces h (ps := cutAt n.norm 0 (re n.norm)) h2 b
      simpa using this

theorem whitespace_cuts {whole : Str} {n : NS} (h : n.Good whole) (u : CharTables) (i : Nat) :
    ∃ o, whitespaceFn u i n = .ok o ∧ Cuts whole (wordRuns u n.norm) o := by
  obtain ⟨h1, h2⟩ := (wordMatches_spec u n.norm n.norm []).1 (by simp)
  simp only [blen_nil] at h1 h2
  have := regex_cuts h (re := wordMatches u none 0) .removed true h1 i
  rw [show splitRegexFn (wordMatches u none 0) .removed true = whitespaceFn u from rfl] at this
  have e : kept .removed ((cutAt n.norm 0 (wordMatches u none 0 n.norm)).map fun x => (x.1, x.2 != true)) =
      wordRuns u n.norm := by
    rw [← h2, ← cutAt_marked n.norm _ 0]
    simp only [kept, List.filter_map, List.map_map]
    congr 1
    apply List.filter_congr
    intro x _
    cases hx : x.2 <;> simp [hx]
  rw [e] at this; exact this

/-- Slicing several ranges. -/
theorem slices_cuts {whole : Str} {n : NS} (h : n.Good whole) : ∀ (rs : List Range) (ts : List Str),
    rs.map (fun r => strGet n.norm r.1 r.2) = ts.map some →
    ∃ out, rs.mapM (fun r => (n.sliceNormalized r).bind id) = some out ∧ Cuts whole ts (out.map fun x => ⟨x, none⟩)
  | [], [], _ => ⟨[], rfl, rfl, by simp⟩
  | [], _ :: _, he => by simp at he
  | _ :: _, [], he => by simp at he
  | r :: rs, t :: ts, he => by
    simp only [List.map_cons, List.cons.injEq] at he
    obtain ⟨out, h1, h2, h3⟩ := slices_cuts h rs ts he.2
    obtain ⟨x, g1, g2, g3⟩ := slice_good h he.1
    refine ⟨x :: out, ?_, ?_, ?_⟩
    · rw [List.mapM_cons, h1, show r = (r.1, r.2) from rfl, g1]; rfl
    · simp only [solid, List.map_cons, List.filter_cons] at h2 ⊢
      rw [h2, g2]
    · intro y hy
      simp only [List.map_cons, List.mem_cons] at hy
      rcases hy with rfl | hy
      · exact ⟨rfl, fun hne => g3 (by rw [← g2]; exact hne)⟩
      · exact h3 y hy

theorem fixedLength_cuts {whole : Str} {n : NS} (h : n.Good whole) {len : Nat} (hl : 0 < len) (i : Nat) :
    ∃ o, fixedLengthFn len i n = .ok o ∧
      Cuts whole ((List.range (pieceCount len n.norm.length)).map fun i => (n.norm.drop (i * len)).take len) o := by
  unfold fixedLengthFn
  by_cases hn : n.norm = []
  · rw [if_pos hn]
    exact ⟨[], rfl, by simp [hn, pieceCount, solid], by simp⟩
  · rw [if_neg hn, if_neg (by omega)]
    obtain ⟨out, h1, h2⟩ := slices_cuts h _ _ (chunks_ranges hl n.norm n.norm.length [] n.norm (by simp))
    simp only [blen_nil] at h1
    rw [h1]
    exact ⟨_, rfl, by rw [← chunks_eq hl _ _ (Nat.le_refl _)]; exact h2⟩

theorem scripts_cuts {whole : Str} {n : NS} (h : n.Good whole) (u : CharTables) (i : Nat) :
    ∃ o, scriptsFn u i n = .ok o ∧ Cuts whole
      (((runs (·.2) (coloured u none n.norm)).filter fun w => w.all (·.2.isSome)).map fun w => w.map (·.1)) o := by
  have he := scripts_closed u n.norm n.norm [] (by simp)
  obtain ⟨out, h1, h2⟩ := slices_cuts h _ (((runs (·.2) (coloured u none n.norm)).filter fun w =>
    w.all (·.2.isSome)).map fun w => w.map (·.1)) (by rw [he, List.map_map]; rfl)
  unfold scriptsFn
  simp only [blen_nil] at h1
  rw [h1]
  exact ⟨_, rfl, h2⟩

theorem metaspace_cuts {whole : Str} {n : NS} (h : n.Good whole) (cfg : Metaspace.Config) (i : Nat) (u : CharTables) :
    ∃ o, Metaspace.splitFn cfg i n = .ok o ∧
      Cuts whole (cut u (n.offsetsOriginal.1 == 0) (.metaspace cfg) n.norm) o := by
  obtain ⟨n1, h1, h2, h3, h3'⟩ := Metaspace.replace_space h cfg.replacement
  obtain ⟨n2, h4, h5, h6⟩ := Metaspace.prependFn_good cfg h3
  have ht : n2.norm = Metaspace.metaText cfg (n.offsetsOriginal.1 == 0) n.norm := by
    rw [h6, h2, h3', Metaspace.metaText]
    simp only [beq_iff_eq]
  unfold Metaspace.splitFn
  simp only [h1, h4, cut, ← ht]
  by_cases hs : cfg.split = true
  · rw [if_pos hs, if_pos hs]
    obtain ⟨o, g1, g2⟩ := pred_cuts h5 (· == cfg.replacement) .mergedWithNext i
    unfold splitFn at g1
    rw [findChar]
    revert g1
    cases n2.split (findPred (· == cfg.replacement) n2.norm) .mergedWithNext with
    | none => intro g1; cases g1
    | some out => intro g1; exact ⟨o, g1, g2⟩
  · rw [if_neg hs, if_neg hs]
    refine ⟨_, rfl, rfl, ?_⟩
    intro x hx
    simp only [List.mem_singleton] at hx
    subst hx
    exact ⟨rfl, fun _ => h5⟩

theorem byteLevelSplit_cuts {whole : Str} {n : NS} (h : n.Good whole) (cfg : ByteLevel.Config) {re : Str → List Range}
    (hre : ∀ s, EngineMatches s 0 (re s)) (i : Nat) :
    ∃ o, ByteLevel.splitFn cfg re i n = .ok o ∧
      Cuts whole (let t := ByteLevel.withSpace cfg.addPrefixSpace n.norm
        if cfg.useRegex then (cutAt t 0 (re t)).map (·.1) else [t]) o := by
  have hpre : ∃ m, (if cfg.addPrefixSpace && n.norm.head? ≠ some ' ' then n.prepend [' '] else some n) = some m ∧
      m.norm = ByteLevel.withSpace cfg.addPrefixSpace n.norm ∧ m.Good whole := by
    unfold ByteLevel.withSpace
    by_cases hc : cfg.addPrefixSpace = true ∧ n.norm.head? ≠ some ' '
    · obtain ⟨m, h1, h2, h3⟩ := NS.prepend_good h (s := [' ']) (by simp)
      refine ⟨m, by rw [if_pos (by simpa using hc)]; exact h1, ?_, h3⟩
      rw [h2]
      by_cases hn : n.norm = []
      · rw [if_pos hn, if_neg (by simp [hn]), hn]
      · rw [if_neg hn, if_pos ⟨hc.1, hn, hc.2⟩]; rfl
    · refine ⟨n, by rw [if_neg (by simpa using hc)], ?_, h⟩
      rw [if_neg (by rintro ⟨h1, _, h2⟩; exact hc ⟨h1, h2⟩)]
  obtain ⟨m, h1, h2, h3⟩ := hpre
  unfold ByteLevel.splitFn
  simp only [h1, ← h2]
  by_cases hu : cfg.useRegex = true
  · rw [if_pos hu, if_pos hu]
    obtain ⟨o, g1, g2⟩ := regex_cuts h3 .isolated false (hre m.norm) i
    unfold splitRegexFn splitFn at g1
    rw [if_neg (by simp)] at g1
    revert g1
    cases m.split (findRegex (re m.norm) m.norm) .isolated with
    | none => intro g1; cases g1
    | some out =>
      intro g1
      refine ⟨o, g1, ?_⟩
      have : kept .isolated ((cutAt m.norm 0 (re m.norm)).map fun x => (x.1, x.2 != false)) =
          (cutAt m.norm 0 (re m.norm)).map (·.1) := by simp [kept]
      rw [this] at g2; exact g2
  · rw [if_neg hu, if_neg hu]
    refine ⟨_, rfl, rfl, ?_⟩
    intro x hx
    simp only [List.mem_singleton] at hx
    subst hx
    exact ⟨rfl, fun _ => h3⟩

end PreTokenizer

/-! ## all pieces -/

namespace PTS
open PreTokenizer

/-- Replace every piece that has no tokens yet by pieces with the given texts. -/
def recut (T : NS → List Str) (p : PTS) : List (Str × Option (List Token)) :=
  p.splits.flatMap fun s =>
    match s.tokens with
    | some ts => [(s.normalized.norm, some ts)]
    | none => (T s.normalized).map fun t => (t, none)

theorem map_flatten_of {α β γ : Type} {G : β → γ} {T : α → List γ} : ∀ (ss : List α) (outs : List (List β)),
    outs.length = ss.length →
    (∀ (i : Nat) s out, ss[i]? = some s → outs[i]? = some out → out.map G = T s) → outs.flatten.map G = ss.flatMap T
  | [], [], _, _ => rfl
  | [], _ :: _, h, _ => by simp at h
  | _ :: _, [], h, _ => by simp at h
  | s :: ss, o :: outs, hl, h => by
    rw [List.flatten_cons, List.map_append, List.flatMap_cons, h 0 s o rfl rfl,
      map_flatten_of ss outs (by simpa using hl)]
    intro i t out ht ho
    exact h (i + 1) t out (by simpa using ht) (by simpa using ho)

theorem split_view {p : PTS} (hg : p.Good) {f : Nat → NS → Except Unit (List Split)} (T : NS → List Str)
    (h : ∀ n i, n.Good p.original → ∃ o, f i n = .ok o ∧ Cuts p.original (T n) o) :
    ∃ p', p.split f = .ok p' ∧ p'.original = p.original ∧ p'.Good ∧ p'.view = p.recut fun n => solid (T n) := by
  obtain ⟨p', outs, h1, h2, h3, h4, h5⟩ := split_total (p := p) (f := f)
    (P := fun n o => Cuts p.original (T n) o) (fun s hs hn i => h s.normalized i (hg s hs hn))
  refine ⟨p', h1, h2, ?_, ?_⟩
  · intro x hx hn
    rw [h4, List.mem_flatten] at hx
    obtain ⟨out, ho, hx⟩ := hx
    obtain ⟨i, hi⟩ := List.mem_iff_getElem?.1 ho
    have hlt : i < p.splits.length := by rw [← h3]; exact (List.getElem?_eq_some_iff.1 hi).1
    have hs : p.splits[i]? = some p.splits[i] := List.getElem?_eq_getElem hlt
    obtain ⟨g1, g2⟩ := h5 i _ out hs hi
    cases ht : p.splits[i].tokens with
    | some ts =>
      rw [g1 (by rw [ht]; rfl), List.mem_singleton] at hx
      rw [hx, ht] at hn; cases hn
    | none =>
      obtain ⟨o, ⟨_, g4⟩, rfl⟩ := g2 ht
      obtain ⟨k1, k2⟩ := List.mem_filter.1 hx
      rw [h2]; exact (g4 x k1).2 (by simpa using k2)
  · unfold view recut
    rw [h4]
    refine map_flatten_of _ _ h3 fun i s out hs ho => ?_
    obtain ⟨g1, g2⟩ := h5 i s out hs ho
    cases ht : s.tokens with
    | some ts => rw [g1 (by rw [ht]; rfl)]; simp [ht]
    | none =>
      obtain ⟨o, ⟨g3, g4⟩, rfl⟩ := g2 ht
      dsimp only
      rw [← g3, solid, List.filter_map, List.map_map]
      apply List.map_congr_left
      intro x hx
      rw [(g4 x (List.mem_filter.1 hx).1).1]; rfl

theorem normalize_view {p : PTS} (hg : p.Good) {f : NS → Except Unit NS} (T : Str → Str)
    (h : ∀ n, n.Good p.original → ∃ m, f n = .ok m ∧ m.norm = T n.norm ∧ m.Good p.original) :
    ∃ p', p.normalize f = .ok p' ∧ p'.original = p.original ∧ p'.Good ∧ p'.view = p.recut fun n => [T n.norm] := by
  obtain ⟨p', h1, h2, h3, _, h5⟩ := normalize_good hg (fun n => T n.norm) h
  refine ⟨p', h1, h2, h3, ?_⟩
  obtain ⟨_, _, g3⟩ := (C13_normalize p p' f).1 h1
  unfold view recut
  have : p'.splits = (p'.splits.map fun x => [x]).flatten := by
    rw [← List.flatMap_def, List.flatMap_singleton']
  rw [this]
  refine map_flatten_of _ _ (by simpa using h5) fun i s out hs ho => ?_
  rw [List.getElem?_map] at ho
  cases hx : p'.splits[i]? with
  | none => rw [hx] at ho; cases ho
  | some x =>
    rw [hx] at ho; cases ho
    obtain ⟨k1, k2⟩ := g3 i s x hs hx
    cases ht : s.tokens with
    | some ts => rw [k1 (by rw [ht]; rfl)]; simp [ht]
    | none =>
      obtain ⟨m, q1, q2, _⟩ := h _ (hg _ (List.mem_of_getElem? hs) ht)
      obtain ⟨q3, q4⟩ := k2 ht
      rw [q4] at q1; cases q1
      simp [q2, q3]

/-- The pieces of `view` that have a text or tokens. -/
def filled (p : PTS) : List (Str × Option (List Token)) := p.view.filter fun x => x.1 ≠ [] ∨ x.2.isSome

/-- One piece of a view, cut. -/
def piece (T : Str → List Str) (x : Str × Option (List Token)) : List (Str × Option (List Token)) :=
  match x.2 with
  | some ts => [(x.1, some ts)]
  | none => (T x.1).map fun t => (t, none)

theorem recut_text (T : Str → List Str) (p : PTS) : p.recut (fun n => T n.norm) = p.view.flatMap (piece T) := by
  unfold recut view piece
  rw [List.flatMap_map]

theorem flatMap_filter_of {α β : Type} {f : α → List β} {q : α → Bool} (h : ∀ x, q x = false → f x = []) :
    ∀ l : List α, (l.filter q).flatMap f = l.flatMap f
  | [] => rfl
  | a :: l => by
    rw [List.filter_cons, List.flatMap_cons, ← flatMap_filter_of h l]
    split
    · rw [List.flatMap_cons]
    · rw [h a (Bool.not_eq_true _ ▸ ‹¬q a = true›)]; rfl

/-- Pieces without text do not matter. -/
theorem recut_filled {T : Str → List Str} (hT : T [] = []) (p : PTS) :
    p.recut (fun n => T n.norm) = p.filled.flatMap (piece T) := by
  rw [recut_text, filled, flatMap_filter_of]
  intro x hx
  simp only [decide_eq_false_iff_not, not_or, Decidable.not_not, Bool.not_eq_true, Option.isSome_eq_false_iff,
    Option.isNone_iff_eq_none] at hx
  simp [piece, hx.1, hx.2, hT]

/-- Cutting what has been cut. -/
theorem flatMap_recut (S : NS → List Str) (T : Str → List Str) (p : PTS) :
    (p.recut S).flatMap (piece T) = p.recut fun n => (S n).flatMap T := by
  unfold recut
  rw [List.flatMap_assoc]
  congr 1
  funext s
  cases s.tokens with
  | some ts => rfl
  | none => simp [piece, List.flatMap_map, List.map_flatMap]

theorem filled_of_view {p p' : PTS} {S : NS → List Str} (h : p'.view = p.recut fun n => solid (S n)) :
    p'.filled = p.recut fun n => solid (S n) := by
  unfold filled
  rw [h, List.filter_eq_self]
  intro x hx
  obtain ⟨s, _, hx⟩ := List.mem_flatMap.1 hx
  cases ht : s.tokens with
  | some ts => rw [ht] at hx; simp at hx; simp [hx]
  | none =>
    rw [ht] at hx
    obtain ⟨t, ht, rfl⟩ := List.mem_map.1 hx
    have := (List.mem_filter.1 ht).2
    simp at this
    simp [this]

end PTS

/-! ## the theorem -/

namespace PreTokenizer
open NS

theorem solid_idem (l : List Str) : solid (solid l) = solid l := by simp [solid]

theorem solid_flatMap {α : Type} (f : α → List Str) (l : List α) : solid (l.flatMap f) = l.flatMap fun x => solid (f x) := by
  simp [solid, List.filter_flatMap]

theorem isPunct_eq (u : CharTables) : isPunct u = Punct u := by
  funext c
  unfold isPunct Punct asciiPunct Char.isAlphanum Char.isAlpha Char.isUpper Char.isLower Char.isDigit
  congr 1
  rw [Bool.eq_iff_iff]
  simp [UInt32.le_iff_toNat_le]
  simp only [Char.toNat]
  omega

theorem spell_nil (s : Str) : ByteLevel.spell s = [] ↔ s = [] := by
  refine ⟨fun h => ?_, fun h => by rw [h]; rfl⟩
  cases s with
  | nil => rfl
  | cons c s =>
    rw [← ByteLevel.spell_eq_flatMap, List.flatMap_cons] at h
    have := congrArg List.length (List.append_eq_nil_iff.1 h).1
    have hp := c.utf8Size_pos
    simp at this
    omega

mutual
theorem cut_nil (u : CharTables) (first : Bool) : ∀ z : PreTokenizer, z.Sound → solid (cut u first z []) = []
  | .bert, _ => rfl
  | .byteLevel cfg re, h => by
    have := cutAt_nil ((show ∀ s, EngineMatches s 0 (re s) from h) [])
    have hw : ByteLevel.withSpace cfg.addPrefixSpace [] = [] := by simp [ByteLevel.withSpace]
    simp only [cut, hw]
    apply solid_of_flatten
    split
    · rw [List.map_map, ← List.flatMap_def, List.flatMap_eq_nil_iff]
      intro x hx
      rw [List.flatMap_eq_nil_iff] at this
      simp [this x hx, ByteLevel.spell, strBytes]
    · rfl
  | .delimiter c, _ => rfl
  | .metaspace cfg, _ => by
    have : Metaspace.metaText cfg first [] = [] := by simp [Metaspace.metaText, Metaspace.sub]
    simp only [cut, this]
    split <;> rfl
  | .whitespace, _ => rfl
  | .split re b inv, h => by
    have := cutAt_nil ((show ∀ s, EngineMatches s 0 (re s) from h) [])
    simp only [cut]
    apply solid_of_flatten
    rw [C11_partition, List.flatMap_map]
    rw [List.flatMap_eq_nil_iff] at this ⊢
    intro x hx
    split
    · rfl
    · exact this x hx
  | .punctuation b, _ => by
    cases b <;> rfl
  | .whitespaceSplit, _ => rfl
  | .digits i, _ => by cases i <;> rfl
  | .unicodeScripts, _ => rfl
  | .fixedLength n, _ => by simp [cut, pieceCount, solid]
  | .sequence l, h => cutAll_nil u first l h

theorem cutAll_nil (u : CharTables) (first : Bool) : ∀ l : List PreTokenizer, SoundAll l → solid (cutAll u first l []) = []
  | [], _ => rfl
  | z :: l, h => by rw [cutAll, cut_nil u first z h.1]; rfl
end

mutual
theorem cut_anywhere (u : CharTables) (a b : Bool) : ∀ (z : PreTokenizer), z.Anywhere → cut u a z = cut u b z
  | .metaspace cfg, h => by
    have : cfg.scheme ≠ .first := h
    funext s
    simp [cut, Metaspace.metaText, this]
  | .sequence l, h => by
    funext s
    simp only [cut]
    rw [cutAll_anywhere u a b l h]
  | .bert, _ => rfl
  | .byteLevel .., _ => rfl
  | .delimiter .., _ => rfl
  | .whitespace, _ => rfl
  | .split .., _ => rfl
  | .punctuation .., _ => rfl
  | .whitespaceSplit, _ => rfl
  | .digits .., _ => rfl
  | .unicodeScripts, _ => rfl
  | .fixedLength .., _ => rfl

theorem cutAll_anywhere (u : CharTables) (a b : Bool) : ∀ (l : List PreTokenizer), AnywhereAll l → cutAll u a l = cutAll u b l
  | [], _ => rfl
  | z :: l, h => by
    funext s
    simp only [cutAll]
    rw [cut_anywhere u a b z h.1]
end

/-- Whether a piece begins where the original text begins. -/
def atStart (n : NS) : Bool := n.offsetsOriginal.1 == 0

theorem apply_view (u : CharTables) {p : PTS} (hg : p.Good) : ∀ (z : PreTokenizer), z.Sound → (∀ l, z ≠ .sequence l) →
    ∃ p', z.apply u p = .ok p' ∧ p'.original = p.original ∧ p'.Good ∧
      p'.view = p.recut fun n => solid (cut u (atStart n) z n.norm)
  | .bert, _, _ => by
    obtain ⟨p1, h1, h2, h3, h4⟩ := PTS.split_view hg (fun n => kept .removed (marked u.ws n.norm))
      (fun n i hn => pred_cuts hn u.ws .removed i)
    obtain ⟨p2, g1, g2, g3, g4⟩ := PTS.split_view h3 (fun n => kept .isolated (marked (isPunct u) n.norm))
      (fun n i hn => pred_cuts hn (isPunct u) .isolated i)
    refine ⟨p2, ?_, g2.trans h2, g3, ?_⟩
    · simp only [apply, bertPreTokenize, h1]; exact g1
    · rw [g4, PTS.recut_filled (T := fun s => solid (kept .isolated (marked (isPunct u) s))) rfl, PTS.filled_of_view h4,
        PTS.flatMap_recut]
      congr 1
      funext n
      simp only [cut]
      rw [wordsBy_eq, solid_flatMap, isPunct_eq, solid, PTS.flatMap_filter_of]
      · rfl
      · intro x hx
        have : x = [] := by simpa using hx
        rw [this]; rfl
  | .byteLevel cfg re, h, _ => by
    obtain ⟨p1, h1, h2, h3, h4⟩ := PTS.split_view hg _ (fun n i hn => byteLevelSplit_cuts hn cfg h i)
    obtain ⟨p2, g1, g2, g3, g4⟩ := PTS.normalize_view h3 ByteLevel.spell (fun n hn => ByteLevel.normalizeFn_good hn)
    refine ⟨p2, ?_, g2.trans h2, g3, ?_⟩
    · simp only [apply, ByteLevel.preTokenize, h1]; exact g1
    · rw [g4, PTS.recut_text (fun s => [ByteLevel.spell s]), h4, PTS.flatMap_recut]
      congr 1
      funext n
      simp only [cut]
      rw [solid_map spell_nil]
      exact List.map_eq_flatMap.symm
  | .delimiter c, _, _ => by
    obtain ⟨p1, h1, h2, h3, h4⟩ := PTS.split_view hg (fun n => kept .removed (marked (· == c) n.norm))
      (fun n i hn => pred_cuts hn (· == c) .removed i)
    exact ⟨p1, h1, h2, h3, by simp only [cut, wordsBy_eq]; exact h4⟩
  | .metaspace cfg, _, _ => PTS.split_view hg _ fun n i hn => metaspace_cuts hn cfg i u
  | .whitespace, _, _ => PTS.split_view hg _ fun n i hn => whitespace_cuts hn u i
  | .split re b inv, h, _ => PTS.split_view hg _ fun n i hn => regex_cuts hn b inv (h n.norm) i
  | .punctuation b, _, _ => by
    obtain ⟨p1, h1, h2, h3, h4⟩ := PTS.split_view hg (fun n => kept b (marked (isPunct u) n.norm))
      (fun n i hn => pred_cuts hn (isPunct u) b i)
    exact ⟨p1, h1, h2, h3, by simp only [cut]; rw [← isPunct_eq]; exact h4⟩
  | .whitespaceSplit, _, _ => by
    obtain ⟨p1, h1, h2, h3, h4⟩ := PTS.split_view hg (fun n => kept .removed (marked u.ws n.norm))
      (fun n i hn => pred_cuts hn u.ws .removed i)
    exact ⟨p1, h1, h2, h3, by simp only [cut, wordsBy_eq]; exact h4⟩
  | .digits true, _, _ => PTS.split_view hg _ fun n i hn => pred_cuts hn u.numeric .isolated i
  | .digits false, _, _ => by
    obtain ⟨p1, h1, h2, h3, h4⟩ := PTS.split_view hg (fun n => kept .contiguous (marked u.numeric n.norm))
      (fun n i hn => pred_cuts hn u.numeric .contiguous i)
    exact ⟨p1, h1, h2, h3, by simp only [cut, runs_eq]; exact h4⟩
  | .unicodeScripts, _, _ => PTS.split_view hg _ fun n i hn => scripts_cuts hn u i
  | .fixedLength n, h, _ => PTS.split_view hg _ fun m i hm => fixedLength_cuts hm h i
  | .sequence _, _, h => (h _ rfl).elim

/-- What is to be shown of one pre-tokenizer. -/
def Finds (f : PTS → Except Unit PTS) (T : NS → List Str) : Prop :=
  ∀ p : PTS, p.Good → ∃ p', f p = .ok p' ∧ p'.original = p.original ∧ p'.Good ∧
    p'.filled = (p.recut fun n => solid (T n)) ∧ (p.view = p.filled → p'.view = p'.filled)

theorem Finds.andThen {f g : PTS → Except Unit PTS} {T : NS → List Str} {S : Str → List Str} (hf : Finds f T)
    (hg : Finds g fun n => S n.norm) (hS : solid (S []) = []) :
    Finds (fun p => do g (← f p)) fun n => (solid (T n)).flatMap S := by
  intro p hp
  obtain ⟨p1, h1, h2, h3, h4, h5⟩ := hf p hp
  obtain ⟨p2, g1, g2, g3, g4, g5⟩ := hg p1 h3
  refine ⟨p2, ?_, g2.trans h2, g3, ?_, fun h => g5 (h5 h)⟩
  · simp only [h1]; exact g1
  · rw [g4, PTS.recut_filled (T := fun s => solid (S s)) hS, h4, PTS.flatMap_recut]
    congr 1
    funext n
    rw [solid_flatMap]

theorem firstOnly_of_anywhere : ∀ z : PreTokenizer, z.Anywhere → z.FirstOnly
  | .sequence [], _ => trivial
  | .sequence (z :: _), h => ⟨firstOnly_of_anywhere z h.1, h.2⟩
  | .metaspace _, _ => trivial
  | .bert, _ => trivial
  | .byteLevel .., _ => trivial
  | .delimiter .., _ => trivial
  | .whitespace, _ => trivial
  | .split .., _ => trivial
  | .punctuation .., _ => trivial
  | .whitespaceSplit, _ => trivial
  | .digits .., _ => trivial
  | .unicodeScripts, _ => trivial
  | .fixedLength .., _ => trivial

theorem keep_finds : Finds .ok fun n => [n.norm] := by
  intro p hp
  refine ⟨p, rfl, rfl, hp, ?_, id⟩
  rw [PTS.recut_filled (T := fun s => solid [s]) rfl]
  conv => lhs; rw [← List.flatMap_singleton' p.filled]
  rw [List.flatMap_def, List.flatMap_def]
  congr 1
  apply List.map_congr_left
  rintro ⟨t, ts⟩ hx
  have := (List.mem_filter.1 hx).2
  cases ts with
  | some ts => rfl
  | none =>
    simp at this
    simp [PTS.piece, solid, this]

theorem basic (u : CharTables) (z : PreTokenizer) (h : z.Sound) (hl : ∀ l, z ≠ .sequence l) :
    Finds (z.apply u) fun n => cut u (atStart n) z n.norm := by
  intro p hp
  obtain ⟨p', h1, h2, h3, h4⟩ := apply_view u hp z h hl
  exact ⟨p', h1, h2, h3, PTS.filled_of_view h4, fun _ => h4.trans (PTS.filled_of_view h4).symm⟩

mutual
theorem apply_finds (u : CharTables) : ∀ z : PreTokenizer, z.Sound → z.FirstOnly →
    Finds (z.apply u) fun n => cut u (atStart n) z n.norm
  | .sequence [], _, _ => keep_finds
  | .sequence (z :: l), hs, hf => by
    have := (apply_finds u z hs.1 hf.1).andThen (applyAll_finds u l hs.2 hf.2) (cutAll_nil u false l hs.2)
    exact this
  | .bert, h, _ => basic u _ h (by intro _ h; cases h)
  | .byteLevel .., h, _ => basic u _ h (by intro _ h; cases h)
  | .delimiter .., h, _ => basic u _ h (by intro _ h; cases h)
  | .metaspace _, h, _ => basic u _ h (by intro _ h; cases h)
  | .whitespace, h, _ => basic u _ h (by intro _ h; cases h)
  | .split .., h, _ => basic u _ h (by intro _ h; cases h)
  | .punctuation .., h, _ => basic u _ h (by intro _ h; cases h)
  | .whitespaceSplit, h, _ => basic u _ h (by intro _ h; cases h)
  | .digits .., h, _ => basic u _ h (by intro _ h; cases h)
  | .unicodeScripts, h, _ => basic u _ h (by intro _ h; cases h)
  | .fixedLength .., h, _ => basic u _ h (by intro _ h; cases h)

theorem applyAll_finds (u : CharTables) : ∀ l : List PreTokenizer, SoundAll l → AnywhereAll l →
    Finds (applyAll u l) fun n => cutAll u false l n.norm
  | [], _, _ => keep_finds
  | z :: l, hs, hf => by
    have h := apply_finds u z hs.1 (firstOnly_of_anywhere z hf.1)
    have e : (fun n : NS => cut u (atStart n) z n.norm) = fun n => cut u false z n.norm := by
      funext n; rw [cut_anywhere u (atStart n) false z hf.1]
    rw [e] at h
    exact h.andThen (applyAll_finds u l hs.2 hf.2) (cutAll_nil u false l hs.2)
end

/-- **C57.** A pre-tokenizer never fails and replaces every piece that has no tokens yet by exactly the pieces it is
documented to find (`cut`), in order, empty ones dropped; each knows where in the original text it lies (`Good`). The
regular expressions are only assumed to report matches in order. -/
theorem C57_pretokenize (u : CharTables) (z : PreTokenizer) (hz : z.Sound) (hl : ∀ l, z ≠ .sequence l) {p : PTS}
    (hp : p.Good) :
    ∃ p', z.apply u p = .ok p' ∧ p'.original = p.original ∧ p'.Good ∧
      p'.view = p.splits.flatMap fun s =>
        match s.tokens with
        | some ts => [(s.normalized.norm, some ts)]
        | none => ((cut u (s.normalized.offsetsOriginal.1 == 0) z s.normalized.norm).filter (· ≠ [])).map fun t => (t, none) :=
  apply_view u hp z hz hl

/-- **C57.** A sequence cuts the pieces of each pre-tokenizer with the next; pieces without text aside. Only the first of
a sequence may ask where the text begins. -/
theorem C57_sequence (u : CharTables) (l : List PreTokenizer) (hz : SoundAll l) (hf : FirstOnly (.sequence l)) {p : PTS}
    (hp : p.Good) :
    ∃ p', (PreTokenizer.sequence l).apply u p = .ok p' ∧ p'.original = p.original ∧ p'.Good ∧
      (p'.view.filter fun x => x.1 ≠ [] ∨ x.2.isSome) = p.splits.flatMap fun s =>
        match s.tokens with
        | some ts => [(s.normalized.norm, some ts)]
        | none =>
          ((cutAll u (s.normalized.offsetsOriginal.1 == 0) l s.normalized.norm).filter (· ≠ [])).map fun t => (t, none) :=
  let ⟨p', h1, h2, h3, h4, _⟩ := apply_finds u (.sequence l) hz hf p hp
  ⟨p', h1, h2, h3, h4⟩

theorem atStart_ofStr (s : Str) : atStart (NS.ofStr s) = true := rfl

/-- **C57.** On a fresh text. -/
theorem C57_text (u : CharTables) (z : PreTokenizer) (hz : z.Sound) (hf : z.FirstOnly) (s : Str) :
    ∃ p', z.apply u (PTS.ofStr s) = .ok p' ∧
      (p'.view.filter fun x => x.1 ≠ [] ∨ x.2.isSome) = ((cut u true z s).filter (· ≠ [])).map fun t => (t, none) := by
  obtain ⟨p', h1, _, _, h4, _⟩ := apply_finds u z hz hf _ (PTS.good_ofStr s)
  refine ⟨p', h1, h4.trans ?_⟩
  simp only [PTS.recut, PTS.ofStr, PTS.ofNS, List.flatMap_cons, List.flatMap_nil, List.append_nil, atStart_ofStr]
  rfl

/-! ## what the pieces are -/

theorem key_of {α κ : Type} {k : α → κ} {w : List α} (h : w ≠ [] ∧ ∀ a ∈ w, ∀ b ∈ w, k a = k b) :
    w ≠ [] ∧ ∃ x, ∀ a ∈ w, k a = x := by
  cases w with
  | nil => exact (h.1 rfl).elim
  | cons b w => exact ⟨h.1, k b, fun a ha => h.2 a ha b (by simp)⟩

theorem filter_flatten_runs {α κ : Type} [DecidableEq κ] (k : α → κ) (q : κ → Bool) : ∀ l : List α,
    ((runs k l).filter fun w => w.all fun a => q (k a)).flatten = l.filter fun a => q (k a) := by
  intro l
  conv => rhs; rw [← runs_flatten k l]
  have h := runs_key k l
  generalize runs k l = gs at h
  induction gs with
  | nil => rfl
  | cons g gs ih =>
    obtain ⟨hne, x, hx⟩ := key_of (h g (by simp))
    rw [List.flatten_cons, List.filter_append, ← ih fun w hw => h w (by simp [hw]), List.filter_cons]
    by_cases hq : q x = true
    · have h1 : (g.all fun a => q (k a)) = true := by rw [List.all_eq_true]; intro a ha; rw [hx a ha, hq]
      have h2 : (g.filter fun a => q (k a)) = g := by rw [List.filter_eq_self]; intro a ha; rw [hx a ha, hq]
      rw [if_pos h1, h2]; rfl
    · have h1 : ¬(g.all fun a => q (k a)) = true := by
        cases g with
        | nil => exact (hne rfl).elim
        | cons a g => simp [hx a (by simp), hq]
      have h2 : (g.filter fun a => q (k a)) = [] := by rw [List.filter_eq_nil_iff]; intro a ha; rw [hx a ha]; exact hq
      rw [if_neg h1, h2]; rfl

/-- **C57.** The words between separators: not empty, free of separators, and all the rest of the text. -/
theorem C57_words (sep : Char → Bool) (s : Str) :
    (∀ w ∈ wordsBy sep s, w ≠ [] ∧ ∀ c ∈ w, sep c = false) ∧ (wordsBy sep s).flatten = s.filter fun c => !sep c := by
  refine ⟨fun w hw => ?_, filter_flatten_runs sep (fun b => !b) s⟩
  obtain ⟨h1, h2⟩ := List.mem_filter.1 hw
  refine ⟨(runs_key sep s w h1).1, fun c hc => ?_⟩
  simpa using List.all_eq_true.1 h2 c hc

/-- **C57.** `Whitespace`: every piece is a run of word characters or a run of others that are not spaces, and only spaces
are lost. -/
theorem C57_whitespace (u : CharTables) (b : Bool) (s : Str) :
    (∀ w ∈ cut u b .whitespace s, w ≠ [] ∧
      ((∀ c ∈ w, u.reWord c = true) ∨ ∀ c ∈ w, u.reWord c = false ∧ u.reSpace c = false)) ∧
    (cut u b .whitespace s).flatten = s.filter fun c => u.reWord c || !u.reSpace c := by
  constructor
  · intro w hw
    simp only [cut] at hw
    obtain ⟨h1, h2⟩ := List.mem_filter.1 hw
    obtain ⟨h3, x, h4⟩ := key_of (runs_key (wordKind u) s w h1)
    refine ⟨h3, ?_⟩
    have key : ∀ c ∈ w, (u.reWord c = true ∧ x = 0) ∨ (u.reWord c = false ∧ u.reSpace c = false ∧ x = 1) := by
      intro c hc
      have e := h4 c hc
      have := List.all_eq_true.1 h2 c hc
      unfold wordKind at e this
      by_cases g1 : u.reWord c = true
      · simp [g1] at e; exact .inl ⟨g1, e.symm⟩
      · by_cases g2 : u.reSpace c = true
        · simp [g1, g2] at this
        · simp [g1, g2] at e; exact .inr ⟨by simpa using g1, by simpa using g2, e.symm⟩
    by_cases hx : x = 0
    · left; intro c hc
      rcases key c hc with h | h
      · exact h.1
      · omega
    · right; intro c hc
      rcases key c hc with h | h
      · exact (hx h.2).elim
      · exact ⟨h.1, h.2.1⟩
  · simp only [cut]
    rw [filter_flatten_runs (wordKind u) (fun k => decide (k ≠ 2))]
    apply List.filter_congr
    intro c _
    unfold wordKind
    cases u.reWord c <;> cases u.reSpace c <;> rfl

theorem chunks_props {n : Nat} (hn : 0 < n) : ∀ (fuel : Nat) (s : Str), s.length ≤ fuel →
    (chunks n fuel s).flatten = s ∧ (∀ w ∈ chunks n fuel s, w ≠ [] ∧ w.length ≤ n) ∧
      ∀ w ∈ (chunks n fuel s).dropLast, w.length = n
  | 0, s, h => by
    have : s = [] := List.eq_nil_of_length_eq_zero (by omega)
    subst this; simp [chunks]
  | fuel + 1, [], _ => by simp [chunks]
  | fuel + 1, c :: s, h => by
    obtain ⟨h1, h2, h3⟩ := chunks_props hn fuel ((c :: s).drop n) (by simp at h ⊢; omega)
    rw [chunks, if_neg (by simp)]
    refine ⟨by rw [List.flatten_cons, h1, List.take_append_drop], ?_, ?_⟩
    · intro w hw
      rcases List.mem_cons.1 hw with rfl | hw
      · refine ⟨?_, by rw [List.length_take]; omega⟩
        intro he
        have := congrArg List.length he
        rw [List.length_take] at this
        simp at this; omega
      · exact h2 w hw
    · intro w hw
      cases hc : chunks n fuel ((c :: s).drop n) with
      | nil => rw [hc] at hw; simp at hw
      | cons d ds =>
        rw [hc, List.dropLast_cons_cons, List.mem_cons] at hw
        rcases hw with rfl | hw
        · rw [List.length_take]
          have : (c :: s).drop n ≠ [] := by
            intro he
            rw [he] at hc
            cases fuel <;> simp [chunks] at hc
          have := List.length_pos_iff.2 this
          rw [List.length_drop] at this
          omega
        · rw [← hc] at hw; exact h3 w hw

/-- **C57.** Pieces of fixed length: all but the last have that length, and they make up the text. -/
theorem C57_fixed (u : CharTables) (b : Bool) {n : Nat} (hn : 0 < n) (s : Str) :
    (cut u b (.fixedLength n) s).flatten = s ∧
      (∀ w ∈ cut u b (.fixedLength n) s, w ≠ [] ∧ w.length ≤ n) ∧ ∀ w ∈ (cut u b (.fixedLength n) s).dropLast, w.length = n := by
  have := chunks_props hn s.length s (Nat.le_refl _)
  rw [chunks_eq hn _ _ (Nat.le_refl _)] at this
  exact this

theorem coloured_text (u : CharTables) : ∀ (s : Str) (k : Option Script), (coloured u k s).map (·.1) = s
  | [], _ => rfl
  | c :: s, k => by rw [coloured, List.map_cons, coloured_text u s]

theorem coloured_kept (u : CharTables) : ∀ s : Str, ((coloured u none s).filter (·.2.isSome)).map (·.1) =
    s.dropWhile fun c => (scriptOf u c).isNone
  | [] => rfl
  | c :: s => by
    rw [coloured, List.filter_cons]
    cases hc : scriptOf u c with
    | none =>
      rw [List.dropWhile_cons_of_pos (by simp [hc]), ← coloured_kept u s]
      rfl
    | some k =>
      rw [List.dropWhile_cons_of_neg (by simp [hc])]
      simp only [Option.or_none, Option.isSome_some, if_true, List.map_cons, List.cons.injEq, true_and]
      rw [List.filter_eq_self.2 (fun x hx => coloured_some u s k x hx), coloured_text]

/-- **C57.** `UnicodeScripts` loses exactly the characters before the first that has a script. -/
theorem C57_scripts (u : CharTables) (b : Bool) (s : Str) :
    (cut u b .unicodeScripts s).flatten = s.dropWhile fun c => (scriptOf u c).isNone := by
  simp only [cut]
  rw [← List.map_flatten, filter_flatten_runs (fun x : Char × Option Script => x.2) Option.isSome]
  exact coloured_kept u s

/-- **C57, finding.** `UnicodeScripts` makes no piece of a text without letters, and loses leading spaces. -/
theorem C57_scripts_lose (u : CharTables) (b : Bool) (s : Str) (h : ∀ c ∈ s, c = ' ') : cut u b .unicodeScripts s = [] := by
  have h0 := C57_scripts u b s
  have h1 : (s.dropWhile fun c => (scriptOf u c).isNone) = [] := by
    clear h0
    induction s with
    | nil => rfl
    | cons c s ih =>
      rw [List.dropWhile_cons_of_pos (by rw [h c (by simp)]; simp [scriptOf]), ih fun c hc => h c (by simp [hc])]
  rw [h1] at h0
  have h2 := List.flatten_eq_nil_iff.1 h0
  cases hc : cut u b .unicodeScripts s with
  | nil => rfl
  | cons w ws =>
    exfalso
    have hw := h2 w (by rw [hc]; simp)
    subst hw
    simp only [cut] at hc
    have hm : ([] : Str) ∈ ((runs (·.2) (coloured u none s)).filter fun w => w.all (·.2.isSome)).map fun w => w.map (·.1) := by
      rw [hc]; simp
    obtain ⟨w, hw, he⟩ := List.mem_map.1 hm
    exact (runs_key _ _ w (List.mem_filter.1 hw).1).1 (List.map_eq_nil_iff.1 he)

/-- **C57, finding.** `FixedLength` with length 0 panics on any text. -/
theorem C57_fixed_zero (u : CharTables) {s : Str} (h : s ≠ []) : (PreTokenizer.fixedLength 0).apply u (PTS.ofStr s) = .error () := by
  have : fixedLengthFn 0 0 (NS.ofStr s) = .error () := by
    unfold fixedLengthFn
    rw [if_neg (show ¬(NS.ofStr s).norm = [] from h), if_pos rfl]
  simp [apply, PTS.split, PTS.splitLoop, PTS.ofStr, PTS.ofNS, this, bind, Except.bind, Except.map]

/-- Nothing of the text gets lost. -/
def Keeps : PreTokenizer → Prop
  | .split _ b _ => b ≠ .removed
  | .punctuation b => b ≠ .removed
  | .digits _ => True
  | .fixedLength _ => True
  | _ => False

/-- **C57.** These pre-tokenizers keep the text. -/
theorem C57_keeps (u : CharTables) (b : Bool) (z : PreTokenizer) (hz : z.Sound) (hk : z.Keeps) (s : Str) :
    (cut u b z s).flatten = s := by
  have keep : ∀ {k : Behavior} (hk : k ≠ .removed) (ps : List (Str × Bool)), (kept k ps).flatten = ps.flatMap (·.1) := by
    intro k hk ps
    rw [C11_partition, List.flatMap_def, List.flatMap_def]
    congr 1
    apply List.map_congr_left
    intro x _
    rw [if_neg (by rintro ⟨h, _⟩; exact hk h)]
  cases z with
  | split re k inv =>
    simp only [cut]
    rw [keep hk, List.flatMap_map]
    by_cases hs : s = []
    · subst hs; exact cutAt_nil ((show ∀ s, EngineMatches s 0 (re s) from hz) [])
    · exact (findRegex_cut hs ((show ∀ s, EngineMatches s 0 (re s) from hz) s)).2
  | punctuation k => simp only [cut]; rw [keep hk, marked_text]
  | digits i =>
    cases i with
    | true => simp only [cut, if_true]; rw [← List.flatMap_def, marked_text]
    | false => simp only [cut]; exact runs_flatten _ _
  | fixedLength n => exact (C57_fixed u b hz s).1
  | _ => exact hk.elim

/-! ## examples -/

private def tables : CharTables where
  ws c := c == ' ' || c == '\n'
  punct c := c == '。'
  numeric c := c.isDigit
  reWord c := c.isAlphanum || c == '_'
  reSpace c := c == ' ' || c == '\n'
  script c := if c == 'あ' then .hiragana else if c == '京' then .han else if c.isAlpha then .other 0 else .any

private def texts (z : PreTokenizer) (s : String) : Option (List String) :=
  (z.apply tables (PTS.ofStr s.toList)).toOption.map fun p => p.splits.map fun x => String.ofList x.normalized.norm

example : texts .bert "Hey friend!  How are you?" = some ["Hey", "friend", "!", "How", "are", "you", "?"] := by decide +kernel
example : texts .whitespace "a_b, c!! " = some ["a_b", ",", "c", "!!"] := by decide +kernel
example : texts (.digits false) "Hey 123 x4" = some ["Hey ", "123", " x", "4"] := by decide +kernel
example : texts (.digits true) "a12" = some ["a", "1", "2"] := by decide +kernel
example : texts (.fixedLength 3) "abcdéfg" = some ["abc", "déf", "g"] := by decide +kernel
example : texts .unicodeScripts "  a bあ京 ー c" = some ["a b", "あ京 ー ", "c"] := by decide +kernel
example : texts (.punctuation .mergedWithPrevious) "a!b?" = some ["a!", "b?"] := by decide +kernel
example : texts (.delimiter '-') "a-b--c" = some ["a", "b", "c"] := by decide +kernel
example : texts (.split (fun s => if s = "ab12".toList then [(2, 4)] else []) .removed false) "ab12" = some ["ab"] := by
  decide +kernel
example : texts (.split (fun s => if s = "ab12".toList then [(2, 4)] else []) .removed true) "ab12" = some ["12"] := by
  decide +kernel
example : texts (.sequence [.whitespaceSplit, .digits true]) "ab12 c" = some ["ab", "1", "2", "c"] := by decide +kernel
example : texts (.sequence [.metaspace ⟨'▁', .first, true⟩, .punctuation .isolated]) "a b!" = some ["▁a", "▁b", "!"] := by
  decide +kernel
example : SoundAll [.metaspace ⟨'▁', .first, true⟩, .punctuation .isolated] ∧
    FirstOnly (.sequence [.metaspace ⟨'▁', .first, true⟩, .punctuation .isolated]) ∧
    cutAll tables true [.metaspace ⟨'▁', .first, true⟩, .punctuation .isolated] "a b!".toList =
      ["▁a".toList, "▁b".toList, "!".toList] := by
  refine ⟨⟨trivial, trivial, trivial⟩, ⟨trivial, trivial, trivial⟩, by decide +kernel⟩
example : (PreTokenizer.split (fun _ => []) .isolated true).Sound ∧ (PreTokenizer.split (fun _ => []) .isolated true).Keeps :=
  ⟨fun _ => trivial, fun h => by cases h⟩

end PreTokenizer
end Tok
