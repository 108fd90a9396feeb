import Verif.Tokenizer.Pairs
import Verif.Text.LossyCut

/-!
# What truncation keeps of a text

Early.lean (C38) says that stopping early changes nothing. Here: which ids are left when truncation is turned on, in terms of what
the same tokenizer gives without truncation and without special tokens.
-/

namespace Tok
open Encoding AddedVocab ByteLevel

namespace Tokenizer

/-- The tokenizer with truncation turned on (`with_truncation`, `tokenizer/mod.rs:661-674`; the check there is left to the
theorems). -/
def truncating (t : Tokenizer) (tr : TruncParams) : Tokenizer :=
  { t with settings := { t.settings with truncation := some tr } }

/-! ## Post-processing an encoding whatever its overflowing parts are -/

/-- An encoding without its overflowing parts. -/
theorem bare_same (e : Encoding) : SameMain true e (e.setOverflowing []) := by
  cases e; exact ⟨rfl, rfl, rfl, rfl, rfl, rfl, rfl, fun _ => rfl⟩

theorem bare_wf {e : Encoding} (h : e.WF) : (e.setOverflowing []).WF :=
  setOverflowing_wf h (by simp)

theorem finish_ids {ws : Char → Bool} {s : Post.Settings} {add : Bool} {e : Encoding} {o : Option Encoding} {out : Encoding}
    (h : s.finish ws (e.setOverflowing []) (o.map (·.setOverflowing [])) add = some out) :
    ∃ out', s.finish ws e o add = some out' ∧ out'.ids = out.ids := by
  have ho : Both (SameMain true) o (o.map (·.setOverflowing [])) := by
    cases o with
    | none => exact .none
    | some o => exact .some (bare_same o)
  have := (sameMain_cong true).finish ws s add (bare_same e) ho
  rw [h] at this
  revert this
  generalize s.finish ws e o add = x
  intro this
  cases this with
  | some h => exact ⟨_, rfl, h.ids⟩

/-- The processor with what is around one text; only the processor counts. -/
theorem around_finish {s : Post.Settings} {special : Nat → Prop} (h : Around s special) (ws : Char → Bool) (add : Bool) :
    ∃ pre post, (∀ i ∈ pre ++ post, special i) ∧ (add = false → pre ++ post = []) ∧
      ∀ e : Encoding, e.WF → e.seqRanges = [] →
        ∃ out, s.finish ws e none add = some out ∧ out.ids = pre ++ e.ids ++ post := by
  obtain ⟨pre, post, h1, h2, h3⟩ := around_uniform h ws true add
  refine ⟨pre, post, h1, h2, fun e he hr => ?_⟩
  obtain ⟨out, o1, o2⟩ := h3 (e.setOverflowing []) (bare_wf he) (by cases e; exact hr) (setOverflowing_over e [])
  obtain ⟨htr, hpd⟩ := around_off h
  unfold Post.Settings.postProcess Post.Settings.truncate at o1
  rw [htr] at o1
  simp only at o1
  cases hf : s.finish ws (e.setOverflowing []) none add with
  | none => rw [hf] at o1; cases o1
  | some out' =>
    rw [hf] at o1
    have : out' = out := by
      have := Except.ok.inj o1
      unfold Post.Settings.padOne at this
      rw [hpd] at this
      exact this
    subst this
    obtain ⟨out, k1, k2⟩ := finish_ids (o := none) hf
    exact ⟨out, k1, by rw [k2, o2, ← (bare_same e).ids]⟩

theorem kept_ids {e t : Encoding} (hwf : e.WF) {k stride : Nat} {d : Direction} (ht : e.truncate k stride d = some t) :
    t.ids = kept d k e.ids := by
  rw [(rows_unzip (truncate_wf hwf ht).parallel).1, truncate_rows hwf ht, ← kept_map, ← (rows_unzip hwf.parallel).1]

/-- Truncating to `n`, if the overlap is smaller. -/
theorem truncate_cut {e : Encoding} (hwf : e.WF) {n stride : Nat} (d : Direction) (hs : stride < n ∨ n = 0 ∨ e.len ≤ n) :
    ∃ t, e.truncate n stride d = some t := by
  cases h : e.truncate n stride d with
  | some t => exact ⟨t, rfl⟩
  | none =>
    have := (C02_truncate_panics_iff hwf n stride d).1 h
    omega

/-- `truncate_encodings` of one input. -/
theorem truncateEncodings_one {e : Encoding} (hwf : e.WF) {p : TruncParams} (hst : p.strategy ≠ .onlySecond)
    (hs : p.stride < p.maxLength ∨ p.maxLength = 0 ∨ e.len ≤ p.maxLength) :
    ∃ t, truncateEncodings e none p = .ok (t, none) ∧ e.truncate p.maxLength p.stride p.direction = some t := by
  obtain ⟨t, ht⟩ := truncate_cut hwf p.direction hs
  refine ⟨t, ?_, ht⟩
  unfold Tok.truncateEncodings
  simp only [Option.map_none, Option.getD_none, Nat.add_zero]
  by_cases h0 : p.maxLength = 0
  · rw [if_pos h0]
    rw [h0] at ht
    simp only [bind, Except.bind, ht]
    rfl
  · rw [if_neg h0]
    by_cases hover : e.len > p.maxLength
    · rw [if_pos hover]
      cases hq : p.strategy with
      | onlySecond => exact absurd hq hst
      | longestFirst =>
        simp only [bind, Except.bind]
        rw [show e.len - (e.len - p.maxLength) = p.maxLength by omega, ht]; rfl
      | onlyFirst =>
        simp only [bind, Except.bind]
        rw [if_pos (by omega), show e.len - (e.len - p.maxLength) = p.maxLength by omega, ht]; rfl
    · rw [if_neg hover]
      rw [C02_truncate_fits e _ _ _ (by omega)] at ht
      cases ht
      rfl

/-! ## C111 -/

/-- What one input gives alone is what its tokenization gives. -/
theorem alone_sequence {t : Tokenizer} (hset : Around t.settings (IsSpecialId t.added)) {ty : PTS.OffsetType} {a : Input} {x : Encoding}
    (hx : t.encodeAs ty (a, none) false = .ok x) (i : Nat) :
    ∃ e, t.encodeSequenceWith none i ty a = .ok e ∧ e.WF ∧ e.seqRanges = [] ∧ e.ids = x.ids := by
  have hlim : t.limit i = none := by unfold limit; rw [(around_off hset).1]
  have := alone_ids hset ty a i
  rw [hx] at this
  unfold encodeSequence at this
  rw [hlim] at this
  cases he : t.encodeSequenceWith none i ty a with
  | error er => rw [he] at this; cases this
  | ok e =>
    rw [he] at this
    have hi := Except.ok.inj this
    obtain ⟨h1, h2⟩ := encodeSequence_wf he rfl
    exact ⟨e, rfl, h1, h2, hi.symm⟩

/-- **C111.** With truncation turned on, one input (a text or a list of words) gives: the special ids in front, of the ids that it
gives without truncation and special tokens as many as there is room for, from the side that is kept, the special ids behind. The
ids around it are the same for all inputs, none without special tokens. -/
theorem C111_one {t : Tokenizer} (hset : Around t.settings (IsSpecialId t.added)) (hwc : t.settings.WellCounted) (add : Bool) :
    ∃ pre post, (∀ i ∈ pre ++ post, IsSpecialId t.added i) ∧ (add = false → pre ++ post = []) ∧
      pre.length + post.length = t.settings.inserted none add ∧
      ∀ (tr : TruncParams) (n : Nat), tr.strategy ≠ .onlySecond → tr.maxLength = pre.length + n + post.length →
        (tr.stride < n ∨ n = 0) →
        ∀ (ty : PTS.OffsetType) (a : Input) (x : Encoding), t.encodeAs ty (a, none) false = .ok x →
          ∃ z, (t.truncating tr).encodeAs ty (a, none) add = .ok z ∧ z.ids = pre ++ kept tr.direction n x.ids ++ post := by
  obtain ⟨pre, post, h1, h2, h3⟩ := around_finish hset t.ws add
  -- the number reported is the number inserted
  have hcount : pre.length + post.length = t.settings.inserted none add := by
    obtain ⟨out, o1, o2⟩ := Post.C37_untruncated t.ws true Encoding.empty none add hwc (around_off hset).1 (around_off hset).2
    obtain ⟨out', p1, p2⟩ := h3 Encoding.empty empty_wf rfl
    unfold Post.Settings.postProcess Post.Settings.truncate at o1
    rw [(around_off hset).1] at o1
    simp only at o1
    rw [p1] at o1
    simp only [Post.Settings.padOne, (around_off hset).2] at o1
    cases o1
    have := congrArg List.length p2
    simp only [List.length_append] at this
    have hl : ∀ e : Encoding, e.len = e.ids.length := fun _ => rfl
    rw [hl] at o2
    have he : Encoding.empty.ids.length = 0 := rfl
    have he' : Encoding.empty.len = 0 := rfl
    simp only [Option.elim_none] at o2
    omega
  refine ⟨pre, post, h1, h2, hcount, fun tr n hst hmax hstride ty a x hx => ?_⟩
  obtain ⟨e, e1, e2, e3, e4⟩ := alone_sequence hset hx 0
  obtain ⟨c, c1, c2⟩ := truncateEncodings_one e2 (p := { tr with maxLength := n }) hst (by simp only; omega)
  simp only at c2
  obtain ⟨out, o1, o2⟩ := h3 c (truncate_wf e2 c2) (truncate_ranges e3 c2)
  have hins : (t.truncating tr).settings.inserted none add = pre.length + post.length := hcount.symm
  have hfull : (t.truncating tr).encodeFully ty (a, none) add = .ok out := by
    have he : (t.truncating tr).encodeSequenceWith none 0 ty a = .ok e := e1
    unfold encodeFully encodeBy
    simp only [he, Except.bind, optional]
    unfold Post.Settings.postProcess
    rw [Post.truncate_room (tr := tr) rfl (by rw [hins]; omega), hins,
      show tr.maxLength - (pre.length + post.length) = n by omega, c1]
    simp only
    have ho : (t.truncating tr).settings.finish (t.truncating tr).ws c none add = some out := o1
    rw [ho]
    simp only [mapErr]
    unfold Post.Settings.padOne
    have : (t.truncating tr).settings.padding = none := (around_off hset).2
    rw [this]
  obtain ⟨z, z1, z2⟩ := C38_encode (t := t.truncating tr) (tr := tr) rfl (input := (a, none))
    (fun ha => by subst ha; have : (t.truncating tr).settings.added false = _ := hins; show _ ≤ _; simp only [Option.isSome_none]; omega)
    (fun _ _ _ h => by cases h) (w := false) (fun h => by cases h) hfull
  exact ⟨z, z1, by rw [← z2.ids, o2, kept_ids e2 c2, e4]⟩

/-- **C111.** `only_second` refuses a single input that is too long. -/
theorem C111_second {t : Tokenizer} (hset : Around t.settings (IsSpecialId t.added)) {tr : TruncParams} (hst : tr.strategy = .onlySecond)
    {add : Bool} {ty : PTS.OffsetType} {a : Input} {x : Encoding} (hx : t.encodeAs ty (a, none) false = .ok x)
    (hroom : t.settings.inserted none add < tr.maxLength) (hlong : tr.maxLength - t.settings.inserted none add < x.ids.length) :
    (t.truncating tr).encodeAs ty (a, none) add = .error (.post .secondSequenceNotProvided) := by
  obtain ⟨e, e1, e2, e3, e4⟩ := alone_sequence hset hx 0
  have hlim : (t.truncating tr).limit 0 = none := (limit_eq (t := t.truncating tr) (tr := tr) rfl 0).1 ⟨hst, rfl⟩
  have he : (t.truncating tr).encodeSequence 0 ty a = .ok e := by
    unfold encodeSequence
    rw [hlim]; exact e1
  unfold encodeAs encodeBy
  simp only [he, Except.bind, optional]
  unfold Post.Settings.postProcess
  have hins : (t.truncating tr).settings.inserted none add = t.settings.inserted none add := rfl
  rw [Post.truncate_room (tr := tr) rfl (by rw [hins]; omega), hins]
  have hl : e.len = x.ids.length := by rw [← e4]; rfl
  have : truncateEncodings e none { tr with maxLength := tr.maxLength - t.settings.inserted none add } = .error .secondSequenceNotProvided := by
    unfold Tok.truncateEncodings
    simp only [Option.map_none, Option.getD_none, Nat.add_zero]
    rw [if_neg (by omega), if_pos (by omega), hst]
  rw [this]
  rfl

theorem frames_finish {s : Post.Settings} {special : Nat → Prop} (h : Frames special s.processor) (ws : Char → Bool) (add : Bool) :
    ∃ pre mid post, (∀ i ∈ pre ++ mid ++ post, special i) ∧ (add = false → pre ++ mid ++ post = []) ∧
      ∀ e o : Encoding, e.WF → e.seqRanges = [] → o.WF → o.seqRanges = [] →
        ∃ out, s.finish ws e (some o) add = some out ∧ out.ids = pre ++ e.ids ++ mid ++ o.ids ++ post := by
  obtain ⟨pre, mid, post, h1, h2, h3⟩ := frames_ids h ws add
  refine ⟨pre, mid, post, h1, h2, fun e o he her ho hor => ?_⟩
  obtain ⟨out, o1, o2⟩ := h3 (e.setOverflowing []) (o.setOverflowing []) (bare_wf he) (by cases e; exact her)
    (setOverflowing_over e []) (bare_wf ho) (by cases o; exact hor) (setOverflowing_over o [])
  obtain ⟨out', k1, k2⟩ := finish_ids (s := ⟨none, none, s.processor⟩) (o := some o) o1
  exact ⟨out', k1, by rw [k2, o2, ← (bare_same e).ids, ← (bare_same o).ids]⟩

/-- **C111.** With truncation turned on, a pair gives: of the ids of either text as many as `truncate_encodings` aims at
(`targets`: with `only_second` all of the first text and of the second what there is room for), from the side that is kept, between
the same special ids as always. -/
theorem C111_pair {t : Tokenizer} (hset : Around t.settings (IsSpecialId t.added)) (hwc : t.settings.WellCounted)
    (hpair : Frames (IsSpecialId t.added) t.settings.processor) (add : Bool) :
    ∃ pre mid post, (∀ i ∈ pre ++ mid ++ post, IsSpecialId t.added i) ∧ (add = false → pre ++ mid ++ post = []) ∧
      ∀ (tr : TruncParams) (n : Nat), tr.maxLength = (pre ++ mid ++ post).length + n →
        ∀ (ty : PTS.OffsetType) (a b : Input) (x y : Encoding),
          t.encodeAs ty (a, none) false = .ok x → t.encodeAs ty (b, none) false = .ok y →
          (tr.strategy = .longestFirst → n % 2 = 0 ∨ x.ids.length ≤ tr.maxLength ∨ y.ids.length < tr.maxLength) →
          ∀ k, targets x.ids.length y.ids.length { tr with maxLength := n } = some k →
            (tr.stride < k.1 ∨ k.1 = 0 ∨ x.ids.length ≤ k.1) → (tr.stride < k.2 ∨ k.2 = 0 ∨ y.ids.length ≤ k.2) →
            ∃ z, (t.truncating tr).encodeAs ty (a, some b) add = .ok z ∧
              z.ids = pre ++ kept tr.direction k.1 x.ids ++ mid ++ kept tr.direction k.2 y.ids ++ post := by
  obtain ⟨pre, mid, post, h1, h2, h3⟩ := frames_finish hpair t.ws add
  have hcount : ∀ o : Encoding, (pre ++ mid ++ post).length = t.settings.inserted (some o) add := by
    intro o
    obtain ⟨out, o1, o2⟩ := Post.C37_untruncated t.ws true Encoding.empty (some Encoding.empty) add hwc (around_off hset).1
      (around_off hset).2
    obtain ⟨out', p1, p2⟩ := h3 Encoding.empty Encoding.empty empty_wf rfl empty_wf rfl
    unfold Post.Settings.postProcess Post.Settings.truncate at o1
    rw [(around_off hset).1] at o1
    simp only at o1
    rw [p1] at o1
    simp only [Post.Settings.padOne, (around_off hset).2] at o1
    cases o1
    have := congrArg List.length p2
    have hl : ∀ e : Encoding, e.len = e.ids.length := fun _ => rfl
    rw [hl] at o2
    have he : Encoding.empty.ids.length = 0 := rfl
    have he' : Encoding.empty.len = 0 := rfl
    simp only [Option.elim_some] at o2
    simp only [List.length_append] at this ⊢
    have hi : t.settings.inserted (some o) add = t.settings.inserted (some Encoding.empty) add := rfl
    omega
  refine ⟨pre, mid, post, h1, h2, fun tr n hmax ty a b x y hx hy hlong k hk hs1 hs2 => ?_⟩
  obtain ⟨e, e1, e2, e3, e4⟩ := alone_sequence hset hx 0
  obtain ⟨o, o1, o2, o3, o4⟩ := alone_sequence hset hy 1
  have hel : e.len = x.ids.length := by rw [← e4]; rfl
  have hol : o.len = y.ids.length := by rw [← o4]; rfl
  obtain ⟨c, c1⟩ := truncate_cut e2 tr.direction (n := k.1) (stride := tr.stride) (by rw [hel]; exact hs1)
  obtain ⟨d, d1⟩ := truncate_cut o2 tr.direction (n := k.2) (stride := tr.stride) (by rw [hol]; exact hs2)
  have hcut : truncateEncodings e (some o) { tr with maxLength := n } = .ok (c, some d) :=
    truncatePair_ok.2 ⟨k, c, d, by rw [hel, hol]; exact hk, c1, d1, rfl⟩
  obtain ⟨out, p1, p2⟩ := h3 c d (truncate_wf e2 c1) (truncate_ranges e3 c1) (truncate_wf o2 d1) (truncate_ranges o3 d1)
  have hins : (t.truncating tr).settings.inserted (some o) add = (pre ++ mid ++ post).length := (hcount o).symm
  have hfull : (t.truncating tr).encodeFully ty (a, some b) add = .ok out := by
    have he : (t.truncating tr).encodeSequenceWith none 0 ty a = .ok e := e1
    have ho : (t.truncating tr).encodeSequenceWith none 1 ty b = .ok o := o1
    unfold encodeFully encodeBy
    simp only [he, ho, Except.bind, optional, Except.map]
    unfold Post.Settings.postProcess
    rw [Post.truncate_room (tr := tr) rfl (by rw [hins]; omega), hins,
      show tr.maxLength - (pre ++ mid ++ post).length = n by omega, hcut]
    simp only
    have hf : (t.truncating tr).settings.finish (t.truncating tr).ws c (some d) add = some out := p1
    rw [hf]
    simp only [mapErr]
    unfold Post.Settings.padOne
    have : (t.truncating tr).settings.padding = none := (around_off hset).2
    rw [this]
  obtain ⟨z, z1, z2⟩ := C38_encode (t := t.truncating tr) (tr := tr) rfl (input := (a, some b))
    (fun ha => by
      subst ha
      have : (t.truncating tr).settings.added true = _ := hins
      simp only [Option.isSome_some]
      omega)
    (fun j e' o' hj hs he' ho' => by
      cases hj
      have he : (t.truncating tr).encodeSequenceWith none 0 ty a = .ok e := e1
      have ho : (t.truncating tr).encodeSequenceWith none 1 ty b = .ok o := o1
      simp only at he'
      rw [he] at he'
      rw [ho] at ho'
      cases he'; cases ho'
      have hr : (t.truncating tr).room tr true add = n := by
        have : tr.maxLength - (t.truncating tr).settings.inserted (some o) add = n := by rw [hins]; omega
        exact this
      rw [hr, hel, hol]
      exact hlong hs)
    (w := false) (fun h => by cases h) hfull
  exact ⟨z, z1, by rw [← z2.ids, p2, kept_ids e2 c1, kept_ids o2 d1, e4, o4]⟩

/-! ## The text that is left -/

theorem kept_front {α β : Type} (f : List α → List β) (hf : ∀ a b, f (a ++ b) = f a ++ f b) (n : Nat) (l : List α) :
    f (kept .right n l) <+: f l := by
  refine ⟨f (l.drop n), ?_⟩
  rw [← hf]
  show f (l.take n ++ l.drop n) = f l
  rw [List.take_append_drop]

theorem kept_back {α β : Type} (f : List α → List β) (hf : ∀ a b, f (a ++ b) = f a ++ f b) (n : Nat) (l : List α) :
    f (kept .left n l) <:+ f l := by
  refine ⟨f (l.take (l.length - n)), ?_⟩
  rw [← hf]
  show f (l.take (l.length - n) ++ l.drop (l.length - n)) = f l
  rw [List.take_append_drop]

section
variable {t : Tokenizer} {u : Unicode} {z : Normalizer} {v : CharTables} {l : List PreTokenizer} {r : Bool}
  {re : Str → List Range} {b : Bpe.Bpe} {coins : Str → Nat → Bool}

/-- **C111.** A text truncated by a byte-level tokenizer like Llama 3's and Qwen's is decoded, when cut on the right, to the first
characters of what the whole text is decoded to, and at most one U+FFFD behind them; when cut on the left, to the last characters,
and at most three U+FFFD in front of them. -/
theorem C111_text (h : IsSplitBytes t u z v l r re b coins)
    {build : List (Str × Nat) → Bool} {ops : List Op} (hav : t.added = after build t.view AddedVocab.empty ops)
    (hraw : normsOf ops = [] ∨ ∀ x ∈ tokensOf ops, x.normalized = false)
    (hN : ∀ f ∈ normsOf ops, ∀ s, f s ≠ none)
    (hlit : ∀ x ∈ tokensOf ops, Literal x.content) (hset : Around t.settings (IsSpecialId t.added))
    (hwc : t.settings.WellCounted) (tr : TruncParams) (hst : tr.strategy ≠ .onlySecond) (s : Str) (add skip : Bool)
    (hroom : t.settings.inserted none add + tr.stride < tr.maxLength ∨ t.settings.inserted none add = tr.maxLength)
    (hskip : add = true → skip = true)
    (hout : skip = true → ∀ x ∈ tokensOf ops, x.special = true → b.vocab.get x.content = none) :
    ∃ x e T d, t.encode (.raw s, none) false = .ok x ∧ t.decode skip x.ids = some T ∧
      (t.truncating tr).encode (.raw s, none) add = .ok e ∧ (t.truncating tr).decode skip e.ids = some d ∧
      (tr.direction = .right → ∃ k, k ≤ T.length ∧ (d = T.take k ∨ k < T.length ∧ d = T.take k ++ ['�'])) ∧
      (tr.direction = .left → ∃ j k, j ≤ 3 ∧ k ≤ T.length ∧ (j ≠ 0 → k ≠ 0) ∧ d = List.replicate j '�' ++ T.drop k) := by
  obtain ⟨C1, C2, hC1, hC2, hal⟩ := splitBytes_alone h hav hraw hN hlit hset
  have hm := h.ok
  have hinv : Inv t.view t.added := hav ▸ (after_inv hm build ops (inv_empty _)).1
  have hclean : Clean (tokensOf ops) t.added := by
    rw [hav]
    exact after_clean hm build ops (fun _ h => h) hraw (inv_empty _)
      ⟨rfl, by simp [AddedVocab.empty, AMap.get], by simp [AddedVocab.empty]⟩
  obtain ⟨x, x1, x2⟩ := hal s
  have hdec : ∀ ids, t.decode skip ids = some (fromUtf8Lossy ((decodeTokens t.view t.added skip ids).flatMap tokBytes)) := by
    intro ids
    unfold decode AddedVocab.decode
    rw [h.decoder]
    show (Dec.Decoder.decodeChain t.checked .byteLevel _).map List.flatten = _
    rw [Dec.Decoder.decodeChain]
    show some (List.flatten (ByteLevel.decodeChain _)) = _
    unfold ByteLevel.decodeChain
    rw [show (fun t : Str => (t.mapM charByte).getD (strBytes t)) = tokBytes from rfl]
    simp
  obtain ⟨pre, post, p1, p2, p3, p4⟩ := C111_one hset hwc add
  obtain ⟨e, e1, e2⟩ := p4 tr (tr.maxLength - t.settings.inserted none add) hst (by omega) (by omega) .byte (.raw s) x x1
  have hside : ∀ l, (∀ i ∈ l, i ∈ pre ++ post) → decodeTokens t.view t.added skip l = [] := by
    intro l hl
    cases ha : add with
    | true =>
      rw [hskip ha]
      exact decodeTokens_special hinv hclean.cache fun i hi => p1 i (hl i hi)
    | false =>
      cases l with
      | nil => rfl
      | cons i l =>
        have := hl i (by simp)
        rw [p2 ha] at this
        cases this
  let f (ids : List Nat) : List UInt8 := (decodeTokens t.view t.added skip ids).flatMap tokBytes
  have hf : ∀ a b, f (a ++ b) = f a ++ f b := by
    intro a b
    show (decodeTokens t.view t.added skip (a ++ b)).flatMap tokBytes = _
    rw [decodeTokens_append, List.flatMap_append]
  have hfe : f e.ids = f (kept tr.direction (tr.maxLength - t.settings.inserted none add) x.ids) := by
    rw [e2, hf, hf]
    have h1 : f pre = [] := by
      show (decodeTokens t.view t.added skip pre).flatMap tokBytes = _
      rw [hside pre (by simp +contextual)]; rfl
    have h2 : f post = [] := by
      show (decodeTokens t.view t.added skip post).flatMap tokBytes = _
      rw [hside post (by simp +contextual)]; rfl
    rw [h1, h2, List.nil_append, List.append_nil]
  have hfx : f x.ids = strBytes (readable ops skip (extracted u z C1 C2 s)) := x2 skip hout
  refine ⟨x, e, _, _, x1, hdec x.ids, e1, hdec e.ids, fun hd => ?_, fun hd => ?_⟩
  · have := kept_front f hf (tr.maxLength - t.settings.inserted none add) x.ids
    rw [← hd, ← hfe, hfx] at this
    have := fromUtf8Lossy_front _ _ this
    show ∃ k, k ≤ (fromUtf8Lossy (f x.ids)).length ∧ (fromUtf8Lossy (f e.ids) = (fromUtf8Lossy (f x.ids)).take k ∨
      k < (fromUtf8Lossy (f x.ids)).length ∧ fromUtf8Lossy (f e.ids) = (fromUtf8Lossy (f x.ids)).take k ++ ['�'])
    rw [hfx, fromUtf8Lossy_strBytes]
    exact this
  · have := kept_back f hf (tr.maxLength - t.settings.inserted none add) x.ids
    rw [← hd, ← hfe, hfx] at this
    have := fromUtf8Lossy_back _ _ this
    show ∃ j k, j ≤ 3 ∧ k ≤ (fromUtf8Lossy (f x.ids)).length ∧ (j ≠ 0 → k ≠ 0) ∧
      fromUtf8Lossy (f e.ids) = List.replicate j '�' ++ (fromUtf8Lossy (f x.ids)).drop k
    rw [hfx, fromUtf8Lossy_strBytes]
    exact this

/-- **C111.** If the normalizer changes nothing, without special tokens: a beginning of the text, or an end of it. -/
theorem C111_lossless (h : IsSplitBytes t u z v l r re b coins) (hz : ∀ s, z.text u s = s)
    {build : List (Str × Nat) → Bool} {ops : List Op} (hav : t.added = after build t.view AddedVocab.empty ops)
    (hraw : normsOf ops = [] ∨ ∀ x ∈ tokensOf ops, x.normalized = false)
    (hN : ∀ f ∈ normsOf ops, ∀ s, f s ≠ none)
    (hlit : ∀ x ∈ tokensOf ops, Literal x.content) (hset : Around t.settings (IsSpecialId t.added))
    (hwc : t.settings.WellCounted) (tr : TruncParams) (hst : tr.strategy ≠ .onlySecond) (hs : tr.stride < tr.maxLength) (s : Str) :
    ∃ e d, (t.truncating tr).encode (.raw s, none) false = .ok e ∧ (t.truncating tr).decode false e.ids = some d ∧
      (tr.direction = .right → ∃ k, k ≤ s.length ∧ (d = s.take k ∨ k < s.length ∧ d = s.take k ++ ['�'])) ∧
      (tr.direction = .left → ∃ j k, j ≤ 3 ∧ k ≤ s.length ∧ (j ≠ 0 → k ≠ 0) ∧ d = List.replicate j '�' ++ s.drop k) := by
  have hin : t.settings.inserted none false = 0 := rfl
  obtain ⟨x, e, T, d, x1, x2, e1, e2, e3, e4⟩ := C111_text h hav hraw hN hlit hset hwc tr hst s false false (.inl (by omega))
    (fun h => h) (fun h => by cases h)
  obtain ⟨y, y1, y2⟩ := C108_lossless h hz hav hraw hN hlit hset s
  rw [x1] at y1
  cases y1
  rw [x2] at y2
  cases y2
  exact ⟨e, d, e1, e2, e3, e4⟩

end

/-! ## Samples -/

theorem pairSample_counted : pairSample.settings.WellCounted := by
  intro p hp
  cases hp
  exact .keeps (.roberta _ _ _)

theorem pairSample_around : Around pairSample.settings (IsSpecialId pairSample.added) :=
  .inl ⟨rfl, rfl, .inr (.inr ⟨_, .inr ⟨_, _, rfl⟩, pairSample_special, pairSample_special⟩)⟩

/-- All inputs, all pairs. -/
example (add : Bool) := C111_one pairSample_around pairSample_counted add
example (add : Bool) := C111_pair pairSample_around pairSample_counted (.roberta pairSample_special pairSample_special) add

/-- Three places for the text, from either side. -/
example : ((pairSample.truncating ⟨5, .longestFirst, 0, .right⟩).encode (.raw "he aé".toList, none) true).toOption.map (·.ids) =
      some [258, 257, 256, 195, 258] ∧
    pairSample.decode true [258, 257, 256, 195, 258] = some "he a�".toList ∧
    ((pairSample.truncating ⟨3, .onlyFirst, 0, .left⟩).encode (.raw "he aé".toList, none) true).toOption.map (·.ids) =
      some [258, 169, 258] ∧
    pairSample.decode true [258, 169, 258] = some "�".toList := by decide +kernel

/-- Four special tokens and three places for a pair; only the second text is cut. -/
example : ((pairSample.truncating ⟨7, .onlySecond, 0, .right⟩).encode (.raw "he a".toList, some (.raw "é".toList)) true).toOption.map
      (·.ids) = some [258, 257, 256, 258, 258, 195, 258] ∧
    targets 2 2 ⟨3, .onlySecond, 0, .right⟩ = some (2, 1) := by decide +kernel

/-- A single text is refused then. -/
example : (match (pairSample.truncating ⟨3, .onlySecond, 0, .right⟩).encode (.raw "he a".toList, none) true with
    | .error (.post .secondSequenceNotProvided) => true | _ => false) = true := by decide +kernel

end Tokenizer
end Tok
