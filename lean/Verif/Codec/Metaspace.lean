import Verif.Pre.Pieces

/-!
# Model of `pre_tokenizers/metaspace.rs`; C31
-/

namespace Tok.Metaspace

/-- `PrependScheme` (`metaspace.rs:7-14`). -/
inductive Scheme | first | never | always
deriving DecidableEq, Repr

/-- `Metaspace` (`metaspace.rs:26-32`); `str_rep` is always `replacement` as a string (`80-96`). -/
structure Config where
  replacement : Char
  scheme : Scheme
  split : Bool

/-- The `match` on the scheme (`metaspace.rs:123-137`). -/
def prependFn (cfg : Config) (n : NS) : Option NS :=
  match cfg.scheme with
  | .always => if n.norm.head? ≠ some cfg.replacement then n.prepend [cfg.replacement] else some n
  | .first =>
    if n.norm.head? ≠ some cfg.replacement ∧ n.offsetsOriginal.1 = 0 then n.prepend [cfg.replacement] else some n
  | .never => some n

/-- The closure of `pre_tokenize` (`metaspace.rs:121-143`); an error is a panic. -/
def splitFn (cfg : Config) (_ : Nat) (n : NS) : Except Unit (List Split) :=
  match n.replace (NS.findChar ' ' n.norm) [cfg.replacement] with
  | none => .error ()
  | some n1 =>
    match prependFn cfg n1 with
    | none => .error ()
    | some n2 =>
      if cfg.split then
        match n2.split (NS.findChar cfg.replacement n2.norm) .mergedWithNext with
        | none => .error ()
        | some out => .ok (out.map fun x => ⟨x, none⟩)
      else .ok [⟨n2, none⟩]

/-- `Metaspace::pre_tokenize` (`metaspace.rs:120-145`). -/
def preTokenize (cfg : Config) (p : PTS) : Except Unit PTS := p.split (splitFn cfg)

/-- `Metaspace::decode_chain` (`metaspace.rs:149-171`). -/
def decodeChain (r : Char) (scheme : Scheme) (tokens : List Str) : List Str :=
  tokens.zipIdx.map fun p => p.1.filterMap fun c =>
    if c = r then if p.2 = 0 ∧ scheme ≠ .never then none else some ' ' else some c

/-! ## Specification -/

/-- Spaces written as the replacement. -/
def sub (r : Char) (t : Str) : Str := t.map fun c => if c = ' ' then r else c

/-- The replacement read as a space. -/
def unsub (r : Char) (t : Str) : Str := t.map fun c => if c = r then ' ' else c

/-- The text Metaspace makes of `t`; `start` says whether `t` begins where the original text begins. -/
def metaText (cfg : Config) (start : Bool) (t : Str) : Str :=
  let u := sub cfg.replacement t
  if u ≠ [] ∧ u.head? ≠ some cfg.replacement ∧
    (cfg.scheme = .always ∨ (cfg.scheme = .first ∧ start = true)) then cfg.replacement :: u else u

theorem findChar_pieces (c : Char) (s : Str) :
    ∃ ps : List (Str × Bool), NS.findChar c s = NS.piecesAt 0 ps ∧ s = ps.flatMap (·.1) ∧
      (s ≠ [] → ∀ x ∈ ps, x.1 ≠ []) ∧ (s = [] → ps = [([], false)]) ∧
      (∀ x ∈ ps, x.2 = true → x.1 = [c]) ∧ (∀ x ∈ ps, x.2 = false → c ∉ x.1) ∧
      (∀ a q r d, ps ≠ a ++ (q, false) :: (r, false) :: d) := by
  by_cases hs : s = []
  · subst hs
    refine ⟨[([], false)], rfl, rfl, by simp, by simp, by simp, by simp, ?_⟩
    intro a q r d h
    have := congrArg List.length h
    simp at this
    omega
  · obtain ⟨ps, h1, h2, h3, h4, h5⟩ := NS.C12_predicate (· == c) hs
    refine ⟨ps, h1, h2, fun _ x hx => ?_, fun h => absurd h hs, ?_, ?_, h5⟩
    · cases hb : x.2 with
      | true => obtain ⟨d, h, _⟩ := h3 x hx hb; rw [h]; simp
      | false => exact (h4 x hx hb).1
    · intro x hx hb
      obtain ⟨d, h, hd⟩ := h3 x hx hb
      rw [h]; simp at hd; rw [hd]
    · intro x hx hb hc
      have := (h4 x hx hb).2 c hc
      simp at this

theorem flatMap_sub {r : Char} : ∀ ps : List (Str × Bool), (∀ x ∈ ps, x.2 = true → x.1 = [' ']) →
    (∀ x ∈ ps, x.2 = false → ' ' ∉ x.1) →
    ps.flatMap (fun p => if p.2 then [r] else p.1) = sub r (ps.flatMap (·.1))
  | [], _, _ => rfl
  | (x, b) :: ps, h1, h2 => by
    have ih := flatMap_sub (r := r) ps (fun y hy => h1 y (by simp [hy])) (fun y hy => h2 y (by simp [hy]))
    rw [List.flatMap_cons, List.flatMap_cons, ih, sub, sub, List.map_append]
    congr 1
    cases b with
    | true => rw [show x = [' '] from h1 (x, true) (by simp) rfl]; simp
    | false =>
      have := h2 (x, false) (by simp) rfl
      simp only [Bool.false_eq_true, if_false]
      conv => lhs; rw [← List.map_id x]
      apply List.map_congr_left
      intro c hc
      rw [if_neg]
      · rfl
      · rintro rfl; exact this hc

theorem replace_space {whole : Str} {n : NS} (h : n.Good whole) (r : Char) :
    ∃ m, n.replace (NS.findChar ' ' n.norm) [r] = some m ∧ m.norm = sub r n.norm ∧ m.Good whole ∧
      m.offsetsOriginal = n.offsetsOriginal := by
  obtain ⟨ps, h1, h2, h3, h4, h5, h6, _⟩ := findChar_pieces ' ' n.norm
  have hsrc : ∀ m, n.replace (NS.findChar ' ' n.norm) [r] = some m → m.offsetsOriginal = n.offsetsOriginal := by
    intro m hm
    have := NS.edits_source (.replace (.refl n) hm)
    unfold NS.offsetsOriginal; rw [this.1, this.2]
  by_cases hn : n.norm = []
  · have he : n.replace (NS.findChar ' ' n.norm) [r] = some n := by
      rw [hn]
      simp [NS.replace, NS.findChar, NS.findPred, NS.replaceLoop, hn, dropBytes]
      rw [← hn]
    exact ⟨n, he, by rw [hn]; rfl, h, rfl⟩
  · obtain ⟨m, g1, g2, g3⟩ := NS.replace_good h h2 (h3 hn) [r]
    rw [← h1] at g1
    refine ⟨m, g1, ?_, g3, hsrc m g1⟩
    rw [g2, flatMap_sub ps h5 h6, ← h2]

theorem prependFn_good {whole : Str} (cfg : Config) {n : NS} (h : n.Good whole) :
    ∃ m, prependFn cfg n = some m ∧ m.Good whole ∧
      m.norm = if n.norm ≠ [] ∧ n.norm.head? ≠ some cfg.replacement ∧
          (cfg.scheme = .always ∨ (cfg.scheme = .first ∧ n.offsetsOriginal.1 = 0))
        then cfg.replacement :: n.norm else n.norm := by
  obtain ⟨m, h1, h2, h3⟩ := NS.prepend_good h (s := [cfg.replacement]) (by simp)
  have h2' : m.norm = if n.norm ≠ [] then cfg.replacement :: n.norm else n.norm := by
    rw [h2]
    by_cases hn : n.norm = [] <;> simp [hn]
  unfold prependFn
  cases hs : cfg.scheme with
  | always =>
    simp only
    by_cases hc : n.norm.head? ≠ some cfg.replacement
    · rw [if_pos hc]; exact ⟨m, h1, h3, by rw [h2']; simp [hc]⟩
    · rw [if_neg hc]; exact ⟨n, rfl, h, by simp [hc]⟩
  | first =>
    simp only
    by_cases hc : n.norm.head? ≠ some cfg.replacement ∧ n.offsetsOriginal.1 = 0
    · rw [if_pos hc]; exact ⟨m, h1, h3, by rw [h2']; simp [hc]⟩
    · rw [if_neg hc]; exact ⟨n, rfl, h, by rw [if_neg]; rintro ⟨_, h1, h2⟩; simp at h2; exact hc ⟨h1, h2⟩⟩
  | never => exact ⟨n, rfl, h, by simp⟩

/-- Pieces of `MergedWithNext` on one character: it occurs only at their beginning. -/
theorem joinNext_shape {r : Char} : ∀ ps : List (Str × Bool), (∀ x ∈ ps, x.2 = true → x.1 = [r]) →
    (∀ x ∈ ps, x.2 = false → r ∉ x.1) → ∀ x ∈ NS.joinNext ps, r ∉ x.tail
  | [], _, _, x, hx => by simp [NS.joinNext] at hx
  | (y, false) :: ps, h1, h2, x, hx => by
    rw [NS.joinNext_false] at hx
    rcases List.mem_cons.1 hx with rfl | hx
    · exact fun h => h2 (x, false) (by simp) rfl (List.mem_of_mem_tail h)
    · exact joinNext_shape ps (fun z hz => h1 z (by simp [hz])) (fun z hz => h2 z (by simp [hz])) x hx
  | [(y, true)], h1, h2, x, hx => by
    simp only [NS.joinNext, List.mem_singleton] at hx
    subst hx
    rw [show x = [r] from h1 (x, true) (by simp) rfl]; simp
  | (y, true) :: (z, true) :: ps, h1, h2, x, hx => by
    rw [NS.joinNext_true_true] at hx
    rcases List.mem_cons.1 hx with rfl | hx
    · rw [show x = [r] from h1 (x, true) (by simp) rfl]; simp
    · exact joinNext_shape ((z, true) :: ps) (fun z hz => h1 z (List.mem_cons_of_mem _ hz))
        (fun z hz => h2 z (List.mem_cons_of_mem _ hz)) x hx
  | (y, true) :: (z, false) :: ps, h1, h2, x, hx => by
    rw [NS.joinNext] at hx
    rcases List.mem_cons.1 hx with rfl | hx
    · rw [show y = [r] from h1 (y, true) (by simp) rfl]
      exact h2 (z, false) (by simp) rfl
    · exact joinNext_shape ps (fun z hz => h1 z (by simp [hz])) (fun z hz => h2 z (by simp [hz])) x hx

theorem splitFn_good {whole : Str} (cfg : Config) {n : NS} (h : n.Good whole) (i : Nat) :
    ∃ o, splitFn cfg i n = .ok o ∧
      o.flatMap (·.normalized.norm) = metaText cfg (n.offsetsOriginal.1 == 0) n.norm ∧
      (∀ x ∈ o, x.tokens = none ∧ (x.normalized.norm ≠ [] → x.normalized.Good whole)) ∧
      (cfg.split = true → ∀ x ∈ o, cfg.replacement ∉ x.normalized.norm.tail) ∧
      (cfg.split = false → o.length = 1) := by
  obtain ⟨n1, h1, h2, h3, h3'⟩ := replace_space h cfg.replacement
  obtain ⟨n2, h4, h5, h6⟩ := prependFn_good cfg h3
  have ht : n2.norm = metaText cfg (n.offsetsOriginal.1 == 0) n.norm := by
    rw [h6, h2, h3', metaText]
    simp only [beq_iff_eq]
  unfold splitFn
  simp only [h1, h4]
  by_cases hs : cfg.split = true
  · rw [if_pos hs]
    obtain ⟨ps, g1, g2, _, _, g5, g6, _⟩ := findChar_pieces cfg.replacement n2.norm
    obtain ⟨ps', out, k1, k2, k3, k4, k5⟩ := NS.split_good h5
      (NS.C12_predicate_covers (· == cfg.replacement) n2.norm) .mergedWithNext
    obtain ⟨out', l1, l2, _⟩ := NS.C11_split h5.1 g2 .mergedWithNext
    rw [← g1] at l1
    have : out' = out := by
      have k3' : n2.split (NS.findChar cfg.replacement n2.norm) .mergedWithNext = some out := k3
      rw [l1] at k3'; injection k3'
    subst this
    rw [l1]
    refine ⟨_, rfl, ?_, ?_, ?_, fun hf => by rw [hf] at hs; cases hs⟩
    · rw [← ht, List.flatMap_map, List.flatMap_def, l2]
      rw [show NS.kept .mergedWithNext ps = NS.joinNext ps from rfl, NS.joinNext_flatten, ← g2]
    · intro x hx
      obtain ⟨y, hy, rfl⟩ := List.mem_map.1 hx
      exact ⟨rfl, k5 y hy⟩
    · intro _ x hx
      obtain ⟨y, hy, rfl⟩ := List.mem_map.1 hx
      refine joinNext_shape ps g5 g6 y.norm ?_
      have : y.norm ∈ out'.map (·.norm) := List.mem_map_of_mem hy
      rw [l2] at this; exact this
  · rw [if_neg hs]
    refine ⟨_, rfl, by simp [ht], ?_, fun hf => absurd hf hs, fun _ => rfl⟩
    intro x hx
    simp only [List.mem_singleton] at hx
    subst hx
    exact ⟨rfl, fun _ => h5⟩

/-! ## C31 -/

/-- **C31.** Metaspace never panics; its pieces, put together, are each text it was given with the spaces
replaced and, as the scheme says, one replacement in front. Pieces already tokenized stay. -/
theorem C31_pretokenize (cfg : Config) {p : PTS} (hp : p.Good) :
    ∃ p', preTokenize cfg p = .ok p' ∧ p'.original = p.original ∧ p'.Good ∧
      p'.text = p.splits.flatMap fun s => if s.tokens.isSome then s.normalized.norm
        else metaText cfg (s.normalized.offsetsOriginal.1 == 0) s.normalized.norm := by
  obtain ⟨p1, h1, h2, h3, h4, _⟩ := PTS.split_good hp (f := splitFn cfg)
    (fun n => metaText cfg (n.offsetsOriginal.1 == 0) n.norm) (fun n i hn => by
      obtain ⟨o, g1, g2, g3, _⟩ := splitFn_good cfg hn i
      exact ⟨o, g1, g2, g3⟩)
  exact ⟨p1, h1, h2, h3, h4⟩

theorem ofStr_result (cfg : Config) (s : Str) : ∃ p', preTokenize cfg (PTS.ofStr s) = .ok p' ∧
    p'.text = metaText cfg true s ∧ (∀ x ∈ p'.splits, x.normalized.norm ≠ []) ∧
    (cfg.split = true → ∀ x ∈ p'.splits, cfg.replacement ∉ x.normalized.norm.tail) := by
  obtain ⟨o, h1, h2, h3, h4, _⟩ := splitFn_good cfg (NS.good_ofStr s) 0
  refine ⟨⟨s, o.filter (fun x => x.normalized.norm ≠ [])⟩, ?_, ?_, ?_, ?_⟩
  · unfold preTokenize PTS.split
    simp only [PTS.ofStr, PTS.ofNS, PTS.splitLoop, Option.isSome_none, Bool.false_eq_true, if_false, h1]
    simp [NS.ofStr, Except.map, bind, Except.bind, pure, Except.pure]
  · unfold PTS.text
    rw [PTS.flatMap_filter_nonempty, h2]
    rfl
  · intro x hx; simpa using (List.mem_filter.1 hx).2
  · intro hs x hx; exact h4 hs x (List.mem_filter.1 hx).1

/-- What decoding gives back: the text, except that a space it begins with is lost when one may have been
prepended. -/
def restored (scheme : Scheme) (s : Str) : Str :=
  if scheme ≠ .never ∧ s.head? = some ' ' then s.tail else s

theorem unsub_sub {r : Char} : ∀ {s : Str}, r ∉ s → unsub r (sub r s) = s
  | [], _ => rfl
  | c :: s, h => by
    have ih := unsub_sub (r := r) (s := s) fun hc => h (by simp [hc])
    simp only [unsub, sub, List.map_cons] at ih ⊢
    rw [ih]
    congr 1
    by_cases hc : c = ' '
    · subst hc; simp
    · rw [if_neg hc, if_neg]
      rintro rfl; exact h (by simp)

theorem unsub_of_not_mem {r : Char} : ∀ {s : Str}, r ∉ s → unsub r s = s
  | [], _ => rfl
  | c :: s, h => by
    have ih := unsub_of_not_mem (r := r) (s := s) fun hc => h (by simp [hc])
    simp only [unsub, List.map_cons] at ih ⊢
    rw [ih, if_neg]
    rintro rfl; exact h (by simp)

theorem filterMap_unsub (r : Char) (t : Str) :
    (t.filterMap fun c => if c = r then some ' ' else some c) = unsub r t := by
  unfold unsub
  rw [← List.filterMap_eq_map]
  congr 1
  funext c
  by_cases h : c = r <;> simp [h]

theorem filterMap_drop {r : Char} {t : Str} (h : r ∉ t) :
    (t.filterMap fun c => if c = r then none else some c) = t := by
  induction t with
  | nil => rfl
  | cons c t ih =>
    rw [List.filterMap_cons, if_neg (by rintro rfl; exact h (by simp)), ih fun hc => h (by simp [hc])]

theorem decode_later (r : Char) (scheme : Scheme) : ∀ (ts : List Str) (k : Nat),
    ((ts.zipIdx (k + 1)).map fun p => p.1.filterMap fun c =>
      if c = r then if p.2 = 0 ∧ scheme ≠ .never then none else some ' ' else some c).flatten
      = unsub r ts.flatten
  | [], _ => rfl
  | t :: ts, k => by
    rw [List.zipIdx_cons, List.map_cons, List.flatten_cons, decode_later r scheme ts (k + 1), List.flatten_cons]
    simp only [Nat.add_one_ne_zero, false_and, if_false]
    rw [filterMap_unsub, unsub, unsub, unsub, List.map_append]

theorem decode_never (r : Char) : ∀ (ts : List Str), (decodeChain r .never ts).flatten = unsub r ts.flatten := by
  intro ts
  unfold decodeChain
  have : ∀ (ts : List Str) (k : Nat), ((ts.zipIdx k).map fun p => p.1.filterMap fun c =>
      if c = r then if p.2 = 0 ∧ Scheme.never ≠ .never then none else some ' ' else some c).flatten
      = unsub r ts.flatten := by
    intro ts
    induction ts with
    | nil => intro _; rfl
    | cons t ts ih =>
      intro k
      rw [List.zipIdx_cons, List.map_cons, List.flatten_cons, ih, List.flatten_cons]
      simp only [ne_eq, not_true_eq_false, and_false, if_false]
      rw [filterMap_unsub, unsub, unsub, unsub, List.map_append]
  exact this ts 0

theorem decode_first {r : Char} {scheme : Scheme} (hs : scheme ≠ .never) {t : Str} (h : r ∉ t) (ts : List Str) :
    (decodeChain r scheme ((r :: t) :: ts)).flatten = t ++ unsub r ts.flatten := by
  unfold decodeChain
  rw [List.zipIdx_cons, List.map_cons, List.flatten_cons, decode_later r scheme ts 0]
  congr 1
  simp only [true_and, hs, not_false_eq_true, if_true, ne_eq]
  rw [List.filterMap_cons]
  simp only [if_true]
  exact filterMap_drop h

/-- **C31 (any segmentation).** Missing: when a token may have been prepended to, the first token must not
contain a second replacement character (the decoder drops every one of them:
`C31_first_token_loses_spaces`). With `split` no token cut out of a piece does (`C31_roundtrip_split`). -/
theorem C31_roundtrip_partial (cfg : Config) (s : Str) (hr : cfg.replacement ∉ s) :
    ∃ p', preTokenize cfg (PTS.ofStr s) = .ok p' ∧ ∀ toks : List Str, toks.flatten = p'.text →
      (cfg.scheme ≠ .never → ∀ t ∈ toks.head?, t ≠ [] ∧ cfg.replacement ∉ t.tail) →
      (decodeChain cfg.replacement cfg.scheme toks).flatten = restored cfg.scheme s := by
  obtain ⟨p', h1, h2, _⟩ := ofStr_result cfg s
  refine ⟨p', h1, fun toks ht hf => ?_⟩
  rw [h2] at ht
  by_cases hn : cfg.scheme = .never
  · rw [hn, decode_never, ht, metaText, hn]
    simp only [reduceCtorEq, false_and, or_self, and_false, if_false]
    rw [unsub_sub hr]
    simp [restored]
  · have hf := hf hn
    have hsch : cfg.scheme = .always ∨ (cfg.scheme = .first ∧ true = true) := by
      cases h : cfg.scheme <;> simp_all
    -- the text begins with the replacement
    have key : ∃ v, metaText cfg true s = (if s = [] then [] else cfg.replacement :: v) ∧
        (s ≠ [] → unsub cfg.replacement v = restored cfg.scheme s) := by
      cases s with
      | nil => exact ⟨[], by simp [metaText, sub], by simp⟩
      | cons c s =>
        have hr' : cfg.replacement ∉ s := fun h => hr (by simp [h])
        by_cases hc : c = ' '
        · subst hc
          refine ⟨sub cfg.replacement s, by simp [metaText, sub], fun _ => ?_⟩
          rw [unsub_sub hr']; simp [restored, hn]
        · have hcr : c ≠ cfg.replacement := by rintro rfl; exact hr (by simp)
          refine ⟨sub cfg.replacement (c :: s), ?_, fun _ => ?_⟩
          · rw [metaText, if_pos]
            · simp
            · exact ⟨by simp [sub], by simp [sub, hc, hcr], hsch⟩
          · rw [unsub_sub hr]; simp [restored, hc]
    obtain ⟨v, k1, k2⟩ := key
    rw [k1] at ht
    cases toks with
    | nil =>
      have : s = [] := by
        rcases s with _ | ⟨c, s⟩
        · rfl
        · simp at ht
      subst this
      simp [decodeChain, restored]
    | cons t ts =>
      obtain ⟨g1, g2⟩ := hf t (by simp)
      have hs : s ≠ [] := by
        rintro rfl
        simp at ht
        exact g1 ht.1
      rw [if_neg hs] at ht
      obtain ⟨c, t', rfl⟩ := List.exists_cons_of_ne_nil g1
      simp only [List.flatten_cons, List.cons_append, List.cons.injEq] at ht
      obtain ⟨rfl, rfl⟩ := ht
      simp only [List.tail_cons] at g2
      rw [decode_first hn g2, ← k2 hs, unsub, unsub, List.map_append]
      congr 1
      exact (unsub_of_not_mem g2).symm

/-- **C31.** With `split`: each piece cut into tokens in any way. -/
theorem C31_roundtrip_split (cfg : Config) (hsp : cfg.split = true) (s : Str) (hr : cfg.replacement ∉ s) :
    ∃ p', preTokenize cfg (PTS.ofStr s) = .ok p' ∧ ∀ cuts : List (List Str),
      cuts.map List.flatten = p'.splits.map (·.normalized.norm) → (∀ ts ∈ cuts, ∀ t ∈ ts, t ≠ []) →
      (decodeChain cfg.replacement cfg.scheme cuts.flatten).flatten = restored cfg.scheme s := by
  obtain ⟨p', h1, h2⟩ := C31_roundtrip_partial cfg s hr
  obtain ⟨p'', g1, g2, g3, g4⟩ := ofStr_result cfg s
  rw [h1] at g1; cases g1
  refine ⟨p', h1, fun cuts hc hne => h2 _ ?_ ?_⟩
  · rw [List.flatten_flatten, hc, PTS.text, List.flatMap_def]
  · intro _ t ht
    refine ⟨?_, ?_⟩
    · obtain ⟨ts, hts, htt⟩ := List.mem_flatten.1 (List.mem_of_mem_head? ht)
      exact hne ts hts t htt
    · obtain ⟨ts, hts, htt⟩ := List.mem_flatten.1 (List.mem_of_mem_head? ht)
      cases cuts with
      | nil => simp at hts
      | cons us cuts =>
        cases hsplits : p'.splits with
        | nil => rw [hsplits] at hc; simp at hc
        | cons x xs =>
          rw [hsplits] at hc
          simp only [List.map_cons, List.cons.injEq] at hc
          have hx := g3 x (by rw [hsplits]; simp)
          cases us with
          | nil => exact absurd hc.1.symm hx
          | cons u us =>
            simp only [List.flatten_cons, List.cons_append, List.head?_cons, Option.mem_some_iff] at ht
            subst ht
            have hu := hne (u :: us) (by simp) u (by simp)
            intro hm
            refine g4 hsp x (by rw [hsplits]; simp) ?_
            rw [← hc.1, List.flatten_cons]
            obtain ⟨c, u', rfl⟩ := List.exists_cons_of_ne_nil hu
            simp at hm ⊢
            exact .inl hm

example : let cfg : Config := ⟨'▁', .always, true⟩
    ∃ p', preTokenize cfg (PTS.ofStr "Hé  you".toList) = .ok p' ∧
      p'.splits.map (·.normalized.norm) = ["▁Hé".toList, "▁".toList, "▁you".toList] ∧
      (decodeChain '▁' .always ["▁".toList, "Hé".toList, "▁".toList, "▁yo".toList, "u".toList]).flatten
        = "Hé  you".toList := ⟨_, rfl, by decide +kernel, by decide +kernel⟩

/-- Finding: the decoder drops every replacement character of the first token, not only the prepended one. -/
theorem C31_first_token_loses_spaces : ∃ p',
    preTokenize ⟨'▁', .always, false⟩ (PTS.ofStr "a b".toList) = .ok p' ∧
      p'.splits.map (·.normalized.norm) = ["▁a▁b".toList] ∧
      decodeChain '▁' .always ["▁a▁b".toList] = ["ab".toList] := ⟨_, rfl, by decide +kernel, by decide +kernel⟩

open NS in
/-- The table in the documentation of `split` (`the-final--countdown`, shortened). -/
example : let ps := [("a".toList, false), ("-".toList, true), ("b".toList, false), ("-".toList, true),
      ("-".toList, true), ("c".toList, false)]
    findChar '-' "a-b--c".toList = piecesAt 0 ps ∧
    kept .isolated ps = ["a".toList, "-".toList, "b".toList, "-".toList, "-".toList, "c".toList] ∧
    kept .removed ps = ["a".toList, "b".toList, "c".toList] ∧
    kept .mergedWithPrevious ps = ["a-".toList, "b-".toList, "-".toList, "c".toList] ∧
    kept .mergedWithNext ps = ["a".toList, "-b".toList, "-".toList, "-c".toList] ∧
    kept .contiguous ps = ["a".toList, "-".toList, "b".toList, "--".toList, "c".toList] := by decide

end Tok.Metaspace
