import Verif.Tokenizer.Fast
import Verif.Tokenizer.Batch
import Verif.Tokenizer.Samples
import Verif.Tokenizer.Pairs
import Verif.Post.C37

/-!
# C118: a padded batch is a rectangle

`encode_batch` is what fills the tensors given to a neural network: the rows have to have one length, in each of the seven vectors
of an encoding, and those users who turn the overflowing parts into further rows need the same of them.
-/

namespace Tok

namespace Encoding

/-- All seven vectors have `n` entries. -/
def Wide (n : Nat) (e : Encoding) : Prop :=
  e.ids.length = n ∧ e.typeIds.length = n ∧ e.tokens.length = n ∧ e.words.length = n ∧ e.offsets.length = n ∧
    e.specialMask.length = n ∧ e.attnMask.length = n

theorem WF.wide {e : Encoding} (h : e.WF) {n : Nat} (hn : e.len = n) : e.Wide n := by
  obtain ⟨h1, h2, h3, h4, h5, h6⟩ := h.parallel
  have hn : e.ids.length = n := hn
  exact ⟨hn, by omega, by omega, by omega, by omega, by omega, by omega⟩

end Encoding

open Encoding

namespace Post

/-- Every special token of a template has as many ids as tokens, which `SpecialToken::new` makes sure of, but loading does not. -/
inductive Proc.Even : Proc → Prop
  | roberta (m : Marks) (trim aps : Bool) : Even (.roberta m trim aps)
  | bert (m : Marks) : Even (.bert m)
  | byteLevel (aps trim : Bool) : Even (.byteLevel aps trim)
  | template {t : Template} (h : ∀ id tok, t.specials.get id = some tok → tok.ids.length = tok.tokens.length) : Even (.template t)
  | sequence {ps : List Proc} (h : ∀ p ∈ ps, Even p) : Even (.sequence ps)

theorem map_even {f : Encoding → Encoding} (hf : ∀ e : Encoding, e.WF → (f e).WF) {es : List Encoding} (he : ∀ e ∈ es, e.WF) :
    ∀ e ∈ es.map f, e.WF := by
  intro x hx
  obtain ⟨y, hy, rfl⟩ := List.mem_map.1 hx
  exact hf _ (he y hy)

theorem mapFirst_even {f g : Encoding → Encoding} (hf : ∀ e : Encoding, e.WF → (f e).WF) (hg : ∀ e : Encoding, e.WF → (g e).WF)
    {es : List Encoding} (he : ∀ e ∈ es, e.WF) : ∀ e ∈ mapFirst f g es, e.WF := by
  cases es with
  | nil => exact he
  | cons e es =>
    intro x hx
    rcases List.mem_cons.1 hx with rfl | hx
    · exact hf _ (he e (by simp))
    · obtain ⟨y, hy, rfl⟩ := List.mem_map.1 hx
      exact hg _ (he y (by simp [hy]))

theorem applyTemplate_even {spt : Tokens} (hs : ∀ id tok, spt.get id = some tok → tok.ids.length = tok.tokens.length)
    {add : Bool} : ∀ {ps : List Piece} {es outs : List Encoding}, applyTemplate spt add es ps = some outs → (∀ e ∈ es, e.WF) →
      ∀ e ∈ outs, e.WF
  | [], es, outs, h, _ => by cases h; simp
  | p :: ps, es, outs, h, he => by
    simp only [applyTemplate] at h
    cases h1 : applyPiece spt add es p with
    | none => rw [h1] at h; cases h
    | some r =>
      obtain ⟨o, es'⟩ := r
      rw [h1] at h
      simp only [Option.map_eq_some_iff] at h
      obtain ⟨outs', h2, rfl⟩ := h
      have key : (∀ x ∈ o, x.WF) ∧ ∀ x ∈ es', x.WF := by
        cases p with
        | sequence id ty =>
          simp only [applyPiece] at h1
          cases hg : es[id.index]? with
          | none => rw [hg] at h1; cases h1
          | some e =>
            rw [hg] at h1; cases h1
            have hx := setSequenceId_wf (setTypeIds_wf (he e (List.mem_of_getElem? hg)) ty) id.index
            refine ⟨fun x hx' => by cases hx'; exact hx, fun x hx' => ?_⟩
            rcases List.mem_or_eq_of_mem_set hx' with h | rfl
            · exact he x h
            · exact hx
        | special id ty =>
          simp only [applyPiece] at h1
          split at h1
          · cases hg : spt.get id with
            | none => rw [hg] at h1; cases h1
            | some tok =>
              rw [hg] at h1; cases h1
              refine ⟨fun x hx => ?_, he⟩
              cases hx
              exact specialEncoding_wf (hs id tok hg) ty
          · cases h1; exact ⟨by simp, he⟩
      intro x hx
      rcases List.mem_append.1 hx with hx | hx
      · exact key.1 x (by simpa using hx)
      · exact applyTemplate_even hs h2 key.2 x hx

theorem wf_typeLength {e : Encoding} (h : e.WF) : e.typeIds.length = e.len := h.parallel.1

mutual
theorem process_even (ws : Char → Bool) (add : Bool) : ∀ (p : Proc), p.Even → ∀ {es outs : List Encoding},
    p.processEncodings ws add es = some outs → (∀ e ∈ es, e.WF) → ∀ e ∈ outs, e.WF
  | .roberta m trim aps, _, es, outs, h, he => by
    simp only [Proc.processEncodings, Option.some.injEq] at h
    subst h
    unfold robertaProcess
    have h1 : ∀ e ∈ (if trim = true then es.map (trimAll ws aps) else es), e.WF := by
      split
      · exact map_even (fun e => trimAll_wf ws aps) he
      · exact he
    have h2 := map_even (fun e h => setTypeIds_wf h 0) h1
    dsimp only
    split
    · exact mapFirst_even
        (fun e h => surround_wf h.parallel _ _ (wf_typeLength h) _ _
          (map_even (fun o ho => surround_wf ho.parallel _ _ (by simp [len]) _ _ (by simp)) h.over))
        (fun e h => surround_wf h.parallel _ _ (by simp [len]) _ _
          (map_even (fun o ho => surround_wf ho.parallel _ _ (by simp [len]) _ _ (by simp)) h.over)) h2
    · exact h2
  | .bert m, _, es, outs, h, he => by
    simp only [Proc.processEncodings, Option.some.injEq] at h
    subst h
    unfold bertProcess
    split
    · exact mapFirst_even
        (fun e h => surround_wf h.parallel _ _ (wf_typeLength h) _ _
          (map_even (fun o ho => surround_wf ho.parallel _ _ (wf_typeLength ho) _ _ (by simp)) h.over))
        (fun e h => surround_wf h.parallel _ _ (wf_typeLength h) _ _
          (map_even (fun o ho => surround_wf ho.parallel _ _ (wf_typeLength ho) _ _ (by simp)) h.over)) he
    · exact he
  | .byteLevel aps trim, _, es, outs, h, he => by
    simp only [Proc.processEncodings, Option.some.injEq] at h
    subst h
    unfold ByteLevel.processEncodings
    have h1 : ∀ e ∈ (if trim = true then es.map (trimAll ws aps) else es), e.WF := by
      split
      · exact map_even (fun e => trimAll_wf ws aps) he
      · exact he
    intro e hm
    obtain ⟨y, hy, rfl⟩ := List.mem_map.1 hm
    obtain ⟨y1, y2⟩ := List.mem_zipIdx' hy
    refine setSequenceId_wf (h1 _ ?_) _
    rw [y2]
    exact List.getElem_mem _
  | .template t, hev, es, outs, h, he => by
    simp only [Proc.processEncodings, Template.processEncodings] at h
    have hs : ∀ id tok, t.specials.get id = some tok → tok.ids.length = tok.tokens.length := by cases hev; assumption
    split at h
    · exact applyTemplate_even hs h he
    · exact applyTemplate_even hs h he
    · cases h
  | .sequence ps, hev, es, outs, h, he => by
    simp only [Proc.processEncodings] at h
    exact processAll_even ws add ps (by cases hev; assumption) h he

theorem processAll_even (ws : Char → Bool) (add : Bool) : ∀ (ps : List Proc), (∀ p ∈ ps, p.Even) →
    ∀ {es outs : List Encoding}, processAll ws add ps es = some outs → (∀ e ∈ es, e.WF) → ∀ e ∈ outs, e.WF
  | [], _, es, outs, h, he => by cases h; exact he
  | p :: ps, hev, es, outs, h, he => by
    simp only [processAll, Option.bind_eq_some_iff] at h
    obtain ⟨es', h1, h2⟩ := h
    exact processAll_even ws add ps (fun q hq => hev q (by simp [hq])) h2 (process_even ws add p (hev p (by simp)) h1 he)
end

theorem truncateEncodings_even {e : Encoding} {pair : Option Encoding} {p : TruncParams} {r : Encoding × Option Encoding}
    (h : truncateEncodings e pair p = .ok r) (he : e.WF) (hp : ∀ o ∈ pair, o.WF) : r.1.WF ∧ ∀ o ∈ r.2, o.WF := by
  have one : ∀ {e e' : Encoding} {n k d}, Tok.orPanic (e.truncate n k d) = .ok e' → e.WF → e'.WF :=
    fun h he => truncate_wf he (orPanic_ok.1 h)
  unfold truncateEncodings at h
  simp only [bind, Except.bind, pure, Except.pure] at h
  repeat' split at h
  all_goals first
    | cases h
    | skip
  all_goals
    refine ⟨?_, ?_⟩
  all_goals simp_all
  all_goals first
    | exact one ‹_› he
    | exact one ‹_› hp

theorem finish_even {ws : Char → Bool} {s : Settings} (hev : ∀ p ∈ s.processor, p.Even) {e out : Encoding}
    {pair : Option Encoding} {add : Bool} (h : s.finish ws e pair add = some out) (he : e.WF) (hp : ∀ o ∈ pair, o.WF) :
    out.WF := by
  unfold Settings.finish at h
  cases hs : s.processor with
  | some p =>
    rw [hs] at h
    simp only [Proc.process, Option.map_eq_some_iff] at h
    obtain ⟨outs, h1, rfl⟩ := h
    refine merge_wf (process_even ws add p (hev p hs) h1 ?_) false
    cases pair with
    | none => intro x hx; cases List.mem_singleton.1 hx; exact prepare_wf he 0
    | some o =>
      intro x hx
      simp only [List.mem_cons, List.not_mem_nil, or_false] at hx
      rcases hx with rfl | rfl
      · exact prepare_wf he 0
      · exact prepare_wf (hp o rfl) 1
  | none =>
    rw [hs] at h
    cases pair with
    | none => cases h; exact he
    | some o =>
      cases h
      exact mergeWith_wf _ _ _ _ (Nat.le_refl _) (mergeWith_wf _ _ _ _ (Nat.le_refl _) empty_wf (setSequenceId_wf he 0))
        (setSequenceId_wf (hp o rfl) 1)

theorem postProcess_even {ws : Char → Bool} {checked : Bool} {s : Settings} (hev : ∀ p ∈ s.processor, p.Even)
    {e out : Encoding} {pair : Option Encoding} {add : Bool} (h : s.postProcess ws checked e pair add = .ok out)
    (he : e.WF) (hp : ∀ o ∈ pair, o.WF) : out.WF := by
  unfold Settings.postProcess at h
  split at h
  · cases h
  · rename_i e' pair' h1
    have h2 : e'.WF ∧ ∀ o ∈ pair', o.WF := by
      unfold Settings.truncate at h1
      split at h1
      · cases h1; exact ⟨he, hp⟩
      · dsimp only at h1
        split at h1
        · split at h1
          · cases h1
          · exact truncateEncodings_even h1 he hp
        · exact truncateEncodings_even h1 he hp
    split at h
    · cases h
    · rename_i out' h3
      cases h
      have := finish_even hev h3 h2.1 h2.2
      unfold Settings.padOne
      split
      · exact this
      · simp only [padEncodings, List.isEmpty_cons, Bool.false_eq_true, if_false, List.map_cons, List.headD_cons]
        exact pad_wf _ _ _ _ _ (Nat.le_refl _) this

/-- Without padding, no overflowing part is longer than the encoding it belongs to. -/
theorem overflow_le {ws : Char → Bool} {checked : Bool} {s : Settings} {e : Encoding} {pair : Option Encoding} {add : Bool}
    {out : Encoding} (hw : s.WellCounted) (hpad : s.padding = none) (he : e.WF) (hp : ∀ o, pair = some o → o.WF)
    (hov : e.overflowing = []) (hpov : ∀ o, pair = some o → o.overflowing = [])
    (hroom : ∀ tr, s.truncation = some tr → (if pair.isSome then 2 else 1) + s.inserted pair add ≤ tr.maxLength)
    (h : s.postProcess ws checked e pair add = .ok out) :
    (∀ o ∈ out.overflowing, o.len ≤ out.len) ∧ ∀ tr, s.truncation = some tr → out.len ≤ tr.maxLength := by
  have hwid : widest e + pair.elim 0 widest = e.len + pair.elim 0 len := by
    rw [widest_nil hov]
    cases pair with
    | none => rfl
    | some o => simp [widest_nil (hpov o rfl)]
  have whole : ∀ {x : Encoding}, s.finish ws e pair add = some x → ∀ o ∈ x.overflowing, o.len ≤ x.len := by
    intro x hx o ho
    obtain ⟨x', h1, h2⟩ := finish_len ws hw e pair add
    rw [hx] at h1; cases h1
    have := finish_widest ws hw e pair add hx o (List.mem_cons_of_mem _ ho)
    omega
  cases htr : s.truncation with
  | none =>
    refine ⟨?_, fun tr h => by cases h⟩
    unfold Settings.postProcess Settings.truncate at h
    rw [htr] at h
    simp only at h
    split at h
    · cases h
    · rename_i x hx
      simp only [Settings.padOne, hpad, Except.ok.injEq] at h
      subst h
      exact whole hx
  | some tr =>
    have hr := hroom tr htr
    have hin : s.inserted pair add ≤ tr.maxLength := by omega
    obtain ⟨l1, l2⟩ := C37_length ws checked hw htr hpad he hp hin h
    refine ⟨?_, fun tr' h' => by cases h'; exact l2⟩
    by_cases hfit : e.len + pair.elim 0 len + s.inserted pair add ≤ tr.maxLength
    · unfold Settings.postProcess at h
      rw [truncate_room htr hin] at h
      have hsame : truncateEncodings e pair { tr with maxLength := tr.maxLength - s.inserted pair add } = .ok (e, pair) := by
        unfold truncateEncodings
        have hpl : (pair.map Encoding.len).getD 0 = pair.elim 0 len := by cases pair <;> rfl
        rw [if_neg (by simp only; split at hr <;> omega), if_neg (by simp only [hpl]; omega)]
      rw [hsame] at h
      simp only at h
      split at h
      · cases h
      · rename_i x hx
        simp only [Settings.padOne, hpad, Except.ok.injEq] at h
        subst h
        exact whole hx
    · intro o ho
      have := C37_overflow ws checked hw htr hpad he hp hov hpov hr h o ho
      omega

end Post

namespace Tokenizer
open Post

theorem encodeSequence_even {t : Tokenizer} {typeId : Nat} {ty : PTS.OffsetType} {i : Input} {e : Encoding}
    (h : t.encodeSequence typeId ty i = .ok e) : e.WF := by
  have := encodeSequence_agree t typeId ty ty i
  rw [h] at this
  cases this with
  | ok h => exact h.2.1

theorem encodeAs_parts {t : Tokenizer} {ty : PTS.OffsetType} {input : Input × Option Input} {add : Bool} {e : Encoding}
    (h : t.encodeAs ty input add = .ok e) : ∃ a pair, a.WF ∧ (∀ o, pair = some o → o.WF) ∧ a.overflowing = [] ∧
      (∀ o, pair = some o → o.overflowing = []) ∧ pair.isSome = input.2.isSome ∧
      t.settings.postProcess t.ws t.checked a pair add = .ok e := by
  unfold encodeAs encodeBy at h
  dsimp only at h
  cases ha : t.encodeSequence 0 ty input.1 with
  | error er => rw [ha] at h; cases h
  | ok a =>
    rw [ha] at h
    simp only [Except.bind] at h
    have hpost : ∀ {pair}, mapErr EncErr.post (t.settings.postProcess t.ws t.checked a pair add) = .ok e →
        t.settings.postProcess t.ws t.checked a pair add = .ok e := by
      intro pair h
      cases hq : t.settings.postProcess t.ws t.checked a pair add with
      | error er => rw [hq] at h; cases h
      | ok x => rw [hq] at h; cases h; rfl
    cases hi : input.2 with
    | none =>
      rw [hi] at h
      simp only [optional] at h
      exact ⟨a, none, encodeSequence_even ha, by simp, encodeSequenceWith_whole ha, by simp, rfl, hpost h⟩
    | some j =>
      rw [hi] at h
      simp only [optional] at h
      cases hb : t.encodeSequence 1 ty j with
      | error er => rw [hb] at h; cases h
      | ok b =>
        rw [hb] at h
        refine ⟨a, some b, encodeSequence_even ha, ?_, encodeSequenceWith_whole ha, ?_, rfl, hpost h⟩
        · intro o ho; cases ho; exact encodeSequence_even hb
        · intro o ho; cases ho; exact encodeSequenceWith_whole hb

/-- **C118.** The seven vectors of every encoding that `encode` returns have the same length, and so have those of every overflowing
part; for every configuration, provided that special tokens in templates have as many ids as tokens. -/
theorem C118_parallel {t : Tokenizer} (hev : ∀ p ∈ t.settings.processor, p.Even) {ty : PTS.OffsetType}
    {input : Input × Option Input} {add : Bool} {e : Encoding} (h : t.encodeAs ty input add = .ok e) :
    e.Wide e.ids.length ∧ ∀ o ∈ e.overflowing, o.Wide o.ids.length := by
  obtain ⟨a, pair, h1, h2, _, _, _, h3⟩ := encodeAs_parts h
  have hwf := postProcess_even hev h3 h1 h2
  exact ⟨hwf.wide rfl, fun o ho => (hwf.over o ho).wide rfl⟩

theorem each_mem {α β : Type} {R : α → β → Prop} {as : List α} {bs : List β} (h : Tok.Each R as bs) :
    ∀ b ∈ bs, ∃ a ∈ as, R a b := by
  induction h with
  | nil => intro b hb; cases hb
  | @cons a b as bs h _ ih =>
    intro x hx
    rcases List.mem_cons.1 hx with rfl | hx
    · exact ⟨a, by simp, h⟩
    · obtain ⟨y, hy, hr⟩ := ih x hx
      exact ⟨y, by simp [hy], hr⟩

theorem padTarget_facts (es : List Encoding) (p : PadParams) :
    (∀ size, p.strategy = .fixed size → size ≤ padTarget es p ∧ (p.multipleOf = none → padTarget es p = size)) ∧
    (p.strategy = .batchLongest → (∀ e ∈ es, e.len ≤ padTarget es p) ∧
      (p.multipleOf = none → ∀ b, (∀ e ∈ es, e.len ≤ b) → padTarget es p ≤ b)) ∧
    ∀ m, p.multipleOf = some m → 0 < m → m ∣ padTarget es p := by
  have hround : ∀ n, n ≤ (match p.multipleOf with
      | some m => if m > 0 ∧ n % m > 0 then n + (m - n % m) else n
      | none => n) := by
    intro n
    cases p.multipleOf with
    | none => simp
    | some m => dsimp only; split <;> omega
  refine ⟨fun size hs => ?_, fun hs => ⟨fun e he => ?_, fun hm b hb => ?_⟩, fun m hm h0 => ?_⟩
  · unfold padTarget
    simp only [hs]
    exact ⟨hround size, fun hm => by rw [hm]⟩
  · have := (le_foldl_max (es.map Encoding.len) 0).2 _ (List.mem_map.2 ⟨e, he, rfl⟩)
    unfold padTarget
    simp only [hs]
    exact Nat.le_trans this (hround _)
  · unfold padTarget
    simp only [hs, hm]
    refine Post.foldl_max_le _ _ (Nat.zero_le _) fun x hx => ?_
    obtain ⟨e, he, rfl⟩ := List.mem_map.1 hx
    exact hb e he
  · unfold padTarget
    simp only [hm]
    cases p.strategy with
    | fixed size =>
      obtain ⟨_, h2, _⟩ := roundUp_least (n := size) h0 _ rfl
      simpa only [gt_iff_lt, h0, true_and] using h2
    | batchLongest =>
      obtain ⟨_, h2, _⟩ := roundUp_least (n := (es.map Encoding.len).foldl max 0) h0 _ rfl
      simpa only [gt_iff_lt, h0, true_and] using h2

/-- **C118.** With padding on, the encodings of a batch and their overflowing parts all have the same number `n` of entries in each of
the seven vectors. That holds for padding to the longest, with or without truncation, and for padding to a fixed size, with truncation
to at most that size. The limit of truncation has to leave room for the special tokens and one token of each input. `n` is the fixed
size, if there is no multiple to round to; it is a multiple of what is asked for; and with padding to the longest it does not exceed
the limit. -/
theorem C118_batch {t : Tokenizer} (hwc : t.settings.WellCounted) (hev : ∀ p ∈ t.settings.processor, p.Even) {p : PadParams}
    (hp : t.settings.padding = some p) (ty : PTS.OffsetType) {inputs : List (Input × Option Input)} {add : Bool}
    (hroom : ∀ tr, t.settings.truncation = some tr → ∀ x ∈ inputs,
      (if x.2.isSome then 2 else 1) + (if add then t.settings.added x.2.isSome else 0) ≤ tr.maxLength)
    (hfix : ∀ size, p.strategy = .fixed size → ∃ tr, t.settings.truncation = some tr ∧ tr.maxLength ≤ size)
    {order : List Nat} (ho : order.Perm (List.range inputs.length)) {out : List Encoding}
    (h : t.encodeBatch order ty inputs add = .ok out) :
    ∃ n, (∀ e ∈ out, e.Wide n ∧ ∀ o ∈ e.overflowing, o.Wide n) ∧
      (∀ size, p.strategy = .fixed size → p.multipleOf = none → n = size) ∧
      (∀ m, p.multipleOf = some m → 0 < m → m ∣ n) ∧
      (p.strategy = .batchLongest → p.multipleOf = none → ∀ tr, t.settings.truncation = some tr → n ≤ tr.maxLength) := by
  obtain ⟨es, h1, rfl⟩ := C43_padded_once t ty inputs add ho hp h
  have facts : ∀ e ∈ es, e.WF ∧ (∀ o ∈ e.overflowing, o.len ≤ e.len) ∧ ∀ tr, t.settings.truncation = some tr → e.len ≤ tr.maxLength := by
    intro e he
    obtain ⟨x, hx, hxe⟩ := each_mem h1 e he
    obtain ⟨a, pair, g1, g2, g3, g4, g5, g6⟩ := encodeAs_parts hxe
    have hwf := postProcess_even (s := t.noPadding.settings) hev g6 g1 g2
    refine ⟨hwf, overflow_le (s := t.noPadding.settings) hwc rfl g1 g2 g3 g4 (fun tr htr => ?_) g6⟩
    have := hroom tr htr x hx
    rw [← g5] at this
    exact this
  obtain ⟨p1, p2, p3⟩ := padTarget_facts es p
  have hle : ∀ e ∈ es, e.len ≤ padTarget es p := by
    intro e he
    cases hs : p.strategy with
    | fixed size =>
      obtain ⟨tr, htr, hsz⟩ := hfix size hs
      have := (facts e he).2.2 tr htr
      have := (p1 size hs).1
      omega
    | batchLongest => exact (p2 hs).1 e he
  refine ⟨padTarget es p, ?_, fun size hs hm => (p1 size hs).2 hm, p3, fun hs hm tr htr => (p2 hs).2 hm _ fun e he => (facts e he).2.2 tr htr⟩
  intro e he
  unfold padEncodings at he
  split at he
  · rename_i h0
    rw [List.isEmpty_iff.1 h0] at he; cases he
  · obtain ⟨u, hu, rfl⟩ := List.mem_map.1 he
    obtain ⟨f1, f2, _⟩ := facts u hu
    have hu' := hle u hu
    refine ⟨(pad_wf _ _ _ _ _ (Nat.le_refl _) f1).wide (by rw [pad_len']; omega), fun o ho => ?_⟩
    rw [C04_pad_overflow] at ho
    obtain ⟨v, hv, rfl⟩ := List.mem_map.1 ho
    have := f2 v hv
    exact (pad_wf _ _ _ _ _ (Nat.le_refl _) (f1.over v hv)).wide (by rw [pad_len']; omega)

/-! ## Examples and findings -/

theorem bertSample_even : ∀ p ∈ bertSample.settings.processor, p.Even := by
  intro p hp
  cases hp
  exact .bert _

theorem bertSample_counted : bertSample.settings.WellCounted := by
  intro p hp
  cases hp
  exact .keeps (.bert _)

/-- Truncation to five tokens, padding to a multiple of four. -/
example (inputs : List (Input × Option Input)) (out : List Encoding)
    (h : bertSample.encodeBatch (List.range inputs.length) .byte inputs true = .ok out) :
    ∃ n, (∀ e ∈ out, e.Wide n ∧ ∀ o ∈ e.overflowing, o.Wide n) ∧ 4 ∣ n := by
  obtain ⟨n, h1, _, h3, _⟩ := C118_batch bertSample_counted bertSample_even rfl .byte (add := true)
    (by intro tr htr x _; cases htr; cases h : x.2.isSome <;> rw [show bertSample.settings.added _ = _ from rfl] <;> decide) (by intro size hs; cases hs) (List.Perm.refl _) h
  exact ⟨n, h1, h3 4 rfl (by decide)⟩

example : (bertSample.encodeBatch [0, 1] .byte [(.raw "abcd".toList, none), (.raw "d".toList, none)] true).toOption.map
    (·.map fun e => (e.ids, e.overflowing.map (·.ids))) =
    some [([1, 97, 98, 99, 2, 0, 0, 0], [[1, 100, 2, 0, 0, 0, 0, 0]]), ([1, 100, 2, 0, 0, 0, 0, 0], [])] := by decide +kernel

/-- A tokenizer with a template whose special token has two ids and one token, as a file can say. -/
def unevenSample : Tokenizer :=
  { charSample with
    settings := ⟨none, none, some (.template (ofJson [.special "[X]".toList 0, .sequence .A 0] [.sequence .A 0, .sequence .B 1]
      [("[X]".toList, ⟨"[X]".toList, [7, 8], ["[X]".toList]⟩)]))⟩ }

/-- **C118, finding.** The lengths that `SpecialToken::new` compares are not compared when a template is loaded: such a template gives
encodings with more ids than tokens. -/
theorem C118_uneven : ∃ e, unevenSample.encode (.raw "ab".toList, none) true = .ok e ∧ e.ids.length = 4 ∧ e.tokens.length = 3 := by
  have : (unevenSample.encode (.raw "ab".toList, none) true).toOption.map (fun e => (e.ids.length, e.tokens.length)) = some (4, 3) := by
    decide +kernel
  cases h : unevenSample.encode (.raw "ab".toList, none) true with
  | error er => rw [h] at this; cases this
  | ok e =>
    rw [h] at this
    simp only [Except.toOption, Option.map_some, Option.some.injEq, Prod.mk.injEq] at this
    exact ⟨e, rfl, this.1, this.2⟩

end Tokenizer
end Tok
