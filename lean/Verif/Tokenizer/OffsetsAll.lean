import Verif.Tokenizer.Offsets
import Verif.Tokenizer.PipelineSamples

/-!
# C59, continued: the offsets of what `encode` returns, its overflowing parts included
-/

namespace Tok
open Encoding AddedVocab PTS Post

namespace Encoding

/-- All the offsets of an encoding and of its overflowing parts, at any depth, have the property. -/
inductive Over (P : Range → Prop) : Encoding → Prop
  | intro (e : Encoding) (h : ∀ o ∈ e.offsets, P o) (ho : ∀ x ∈ e.overflowing, Over P x) : Over P e

namespace Over

variable {P : Range → Prop}

theorem here {e : Encoding} (h : e.Over P) : ∀ o ∈ e.offsets, P o := by cases h with | intro _ h _ => exact h

theorem over {e : Encoding} (h : e.Over P) : ∀ x ∈ e.overflowing, x.Over P := by cases h with | intro _ _ h => exact h

theorem mono {Q : Range → Prop} (hpq : ∀ o, P o → Q o) {e : Encoding} (h : e.Over P) : e.Over Q := by
  induction h with
  | intro e h _ ih => exact .intro _ (fun o ho => hpq o (h o ho)) ih

theorem empty : Encoding.empty.Over P := .intro _ (fun _ h => by cases h) (fun _ h => by cases h)

theorem setSequenceId {e : Encoding} (h : e.Over P) (q : Nat) : (e.setSequenceId q).Over P := by
  cases e; exact .intro _ h.here h.over

theorem setTypeIds {e : Encoding} (h : e.Over P) (t : List Nat) : (e.setTypeIds t).Over P := by
  cases e; exact .intro _ h.here h.over

theorem setOverflowing {e : Encoding} (h : e.Over P) {ov : List Encoding} (ho : ∀ x ∈ ov, x.Over P) :
    (e.setOverflowing ov).Over P := by
  cases e; exact .intro _ h.here ho

theorem part {e e' : Encoding} (h : e.Over P) {r : Range} (hp : e.part r = some e') : e'.Over P := by
  unfold Encoding.part at hp
  simp only [Option.bind_eq_bind, Option.bind_eq_some_iff, Option.pure_def, Option.some.injEq] at hp
  obtain ⟨_, _, _, _, _, _, _, _, offs, ho, _, _, _, _, rfl⟩ := hp
  refine .intro _ (fun o hm => h.here o ?_) (fun _ hx => by cases hx)
  unfold slice? at ho
  split at ho
  · cases ho; exact List.mem_of_mem_take (List.mem_of_mem_drop hm) 
  · cases ho

theorem mem_mapM {α β : Type} {f : α → Option β} : ∀ {l : List α} {r : List β}, l.mapM f = some r → ∀ b ∈ r, ∃ a ∈ l, f a = some b
  | [], r, h, b, hb => by cases h; cases hb
  | a :: l, r, h, b, hb => by
    simp only [List.mapM_cons, Option.bind_eq_bind, Option.bind_eq_some_iff, Option.pure_def, Option.some.injEq] at h
    obtain ⟨x, hx, r', hr, rfl⟩ := h
    rcases List.mem_cons.1 hb with rfl | hb
    · exact ⟨a, by simp, hx⟩
    · obtain ⟨a', ha, hf⟩ := mem_mapM hr b hb
      exact ⟨a', by simp [ha], hf⟩

theorem truncate {e e' : Encoding} (h : e.Over P) {n k : Nat} {d : Direction} (ht : e.truncate n k d = some e') :
    e'.Over P := by
  unfold Encoding.truncate at ht
  split at ht
  · cases ht; exact h
  split at ht
  · cases ht
    refine .intro _ (fun _ hx => by cases hx) (fun x hx => ?_)
    cases List.mem_singleton.1 hx; exact h
  split at ht
  · cases ht
  split at ht
  · cases ht
  rename_i r rs _
  cases h1 : e.part r with
  | none => rw [h1] at ht; cases ht
  | some m =>
    cases h2 : rs.mapM e.part with
    | none => rw [h1, h2] at ht; cases ht
    | some ovs =>
      rw [h1, h2] at ht; cases ht
      refine (h.part h1).setOverflowing fun x hx => ?_
      obtain ⟨r, _, hr⟩ := mem_mapM h2 x hx
      exact h.part hr

theorem mergeWith : ∀ (n : Nat) {e p : Encoding}, sizeOf e + sizeOf p ≤ n → e.Over P → p.Over P →
    (e.mergeWith p false).Over P
  | 0, e, p, hn, _, _ => by cases e; cases p; simp only [mk.sizeOf_spec] at hn; omega
  | n + 1, e, p, hn, he, hp => by
    rw [mergeWith_eq]
    refine .intro _ (fun o ho => ?_) (fun o ho => ?_)
    · have ho : o ∈ e.offsets ++ p.offsets.map fun o => (o.1 + 0, o.2 + 0) := ho
      simp only [Nat.add_zero, List.map_id'] at ho
      rcases List.mem_append.1 ho with ho | ho
      · exact he.here o ho
      · exact hp.here o ho
    · have ho' : o ∈ (e.overflowing.flatMap fun so => Encoding.mergeWith so p false ::
            p.overflowing.map fun po => Encoding.mergeWith so po false) ++
          p.overflowing.map fun po => Encoding.mergeWith e po false := ho
      simp only [List.mem_append, List.mem_flatMap, List.mem_cons, List.mem_map] at ho'
      rcases ho' with ⟨so, hso, rfl | ⟨po, hpo, rfl⟩⟩ | ⟨po, hpo, rfl⟩
      · have := sizeOf_mem_overflowing hso
        exact mergeWith n (by omega) (he.over _ hso) hp
      · have := sizeOf_mem_overflowing hso
        have := sizeOf_mem_overflowing hpo
        exact mergeWith n (by omega) (he.over _ hso) (hp.over _ hpo)
      · have := sizeOf_mem_overflowing hpo
        exact mergeWith n (by omega) he (hp.over _ hpo)

theorem merge {es : List Encoding} (h : ∀ e ∈ es, e.Over P) : (Encoding.merge es false).Over P := by
  have : ∀ (es : List Encoding) (acc : Encoding), acc.Over P → (∀ e ∈ es, e.Over P) →
      (es.foldl (fun acc s => acc.mergeWith s false) acc).Over P := by
    intro es
    induction es with
    | nil => intro acc h _; exact h
    | cons e es ih =>
      intro acc h h'
      exact ih _ (mergeWith _ (Nat.le_refl _) h (h' e (by simp))) fun x hx => h' x (by simp [hx])
  exact this es _ .empty h

theorem pad (h0 : P (0, 0)) {e : Encoding} (h : e.Over P) (n : Nat) (pt : PadTok) (d : Direction) :
    (e.pad n pt d).Over P := by
  induction h with
  | intro e h _ ih =>
    have hov : ∀ x ∈ e.overflowing.map (fun o => Encoding.pad o n pt d), x.Over P := by
      intro x hx
      obtain ⟨o, ho, rfl⟩ := List.mem_map.1 hx
      exact ih o ho
    have hr : ∀ k, ∀ o ∈ List.replicate k ((0, 0) : Range), P o := by
      intro k o ho; rw [List.eq_of_mem_replicate ho]; exact h0
    rw [pad_eq]
    split
    · cases e; exact .intro _ h hov
    · cases d with
      | left =>
        refine .intro _ (fun o ho => ?_) hov
        rcases List.mem_append.1 (show o ∈ _ ++ _ from ho) with ho | ho
        · exact hr _ o ho
        · exact h o ho
      | right =>
        refine .intro _ (fun o ho => ?_) hov
        rcases List.mem_append.1 (show o ∈ _ ++ _ from ho) with ho | ho
        · exact h o ho
        · exact hr _ o ho

theorem surround (h0 : P (0, 0)) {e : Encoding} (h : e.Over P) (before after : List (Str × Nat)) (inner : List Nat) (ty q : Nat)
    {ov : List Encoding} (ho : ∀ x ∈ ov, x.Over P) : (surround before after inner ty q ov e).Over P := by
  refine .intro _ (fun o hm => ?_) ho
  have hm : o ∈ before.map (fun _ => ((0, 0) : Range)) ++ e.offsets ++ after.map (fun _ => (0, 0)) := hm
  simp only [List.mem_append, List.mem_map] at hm
  rcases hm with (⟨_, _, rfl⟩ | hm) | ⟨_, _, rfl⟩
  · exact h0
  · exact h.here o hm
  · exact h0

end Over
end Encoding

/-! ## The post-processors -/

namespace Post

/-- Processors that leave the offsets of the tokens as they are. -/
inductive NoTrim : Proc → Prop
  | roberta (m aps) : NoTrim (.roberta m false aps)
  | bert (m) : NoTrim (.bert m)
  | byteLevel (aps) : NoTrim (.byteLevel aps false)
  | template (t) : NoTrim (.template t)
  | sequence {ps} (h : ∀ p ∈ ps, NoTrim p) : NoTrim (.sequence ps)

/-- The property survives the trimming of offsets, or there is none. -/
def Keep (P : Range → Prop) (p : Proc) : Prop :=
  NoTrim p ∨ ∀ ws aps i tok o, P o → P (ByteLevel.trimOne ws aps i tok o)

variable {P : Range → Prop}

theorem trim_over (ht : ∀ ws aps i tok o, P o → P (ByteLevel.trimOne ws aps i tok o)) (ws : Char → Bool) (aps : Bool) {e : Encoding} (h : e.Over P) :
    (ByteLevel.processOffsets ws aps e).Over P := by
  cases e with
  | mk i t k w o s a ov sr =>
    refine .intro _ (fun x hx => ?_) h.over
    have hx : x ∈ (k.zip o).zipIdx.map fun p => ByteLevel.trimOne ws aps p.2 p.1.1 p.1.2 := hx
    obtain ⟨y, hy, rfl⟩ := List.mem_map.1 hx
    have := List.mem_zipIdx' hy
    have hm : y.1 ∈ k.zip o := by
      obtain ⟨h1, h2⟩ := this
      rw [h2]; exact List.getElem_mem _
    exact ht _ _ _ _ _ (h.here _ (List.of_mem_zip (a := y.1.1) (b := y.1.2) hm).2)

theorem trimAll_over (ht : ∀ ws aps i tok o, P o → P (ByteLevel.trimOne ws aps i tok o)) (ws : Char → Bool) (aps : Bool)
    {e : Encoding} (h : e.Over P) : (trimAll ws aps e).Over P := by
  have h1 := trim_over ht ws aps h
  unfold trimAll
  cases hp : ByteLevel.processOffsets ws aps e with
  | mk i t k w o s a ov sr =>
    rw [hp] at h1
    refine .intro _ h1.here (fun x hx => ?_)
    have hx : x ∈ ov.map (ByteLevel.processOffsets ws aps) := hx
    obtain ⟨y, hy, rfl⟩ := List.mem_map.1 hx
    exact trim_over ht ws aps (h1.over y hy)

theorem applyTemplate_over (h0 : P (0, 0)) {spt : Tokens} {add : Bool} : ∀ {ps : List Piece} {es outs : List Encoding},
    applyTemplate spt add es ps = some outs → (∀ e ∈ es, e.Over P) → ∀ e ∈ outs, e.Over P
  | [], es, outs, h, _ => by cases h; simp
  | p :: ps, es, outs, h, he => by
    rw [applyTemplate] at h
    cases h1 : applyPiece spt add es p with
    | none => rw [h1] at h; cases h
    | some x =>
      obtain ⟨o, es'⟩ := x
      rw [h1] at h
      dsimp only at h
      cases h2 : applyTemplate spt add es' ps with
      | none => rw [h2] at h; cases h
      | some outs' =>
        rw [h2] at h; cases h
        have key : (∀ x ∈ o, x.Over P) ∧ ∀ x ∈ es', x.Over P := by
          cases p with
          | sequence id ty =>
            simp only [applyPiece] at h1
            cases hg : es[id.index]? with
            | none => rw [hg] at h1; cases h1
            | some e =>
              rw [hg] at h1; cases h1
              have hx := ((he e (List.mem_of_getElem? hg)).setTypeIds (List.replicate e.len ty)).setSequenceId id.index
              refine ⟨fun x hx' => by cases hx'; exact hx, fun x hx' => ?_⟩
              rcases List.mem_or_eq_of_mem_set hx' with h | rfl
              · exact he x h
              · exact hx
          | special id ty =>
            simp only [applyPiece] at h1
            split at h1
            · cases hg : spt.get id with
              | none => rw [hg] at h1; cases h1
              | some tok =>
                rw [hg] at h1; cases h1
                refine ⟨fun x hx => ?_, he⟩
                cases hx
                refine .intro _ (fun o ho => ?_) (fun _ h => by cases h)
                have ho : o ∈ List.replicate tok.ids.length ((0, 0) : Range) := ho
                rw [List.eq_of_mem_replicate ho]; exact h0
            · cases h1; exact ⟨by simp, he⟩
        intro x hx
        rcases List.mem_append.1 hx with hx | hx
        · exact key.1 x (by simpa using hx)
        · exact applyTemplate_over h0 h2 key.2 x hx

theorem mapFirst_over {f g : Encoding → Encoding} (hf : ∀ e : Encoding, e.Over P → (f e).Over P)
    (hg : ∀ e : Encoding, e.Over P → (g e).Over P) {es : List Encoding} (he : ∀ e ∈ es, e.Over P) :
    ∀ e ∈ mapFirst f g es, e.Over P := by
  cases es with
  | nil => exact he
  | cons e es =>
    intro x hx
    rcases List.mem_cons.1 hx with rfl | hx
    · exact hf _ (he e (by simp))
    · obtain ⟨y, hy, rfl⟩ := List.mem_map.1 hx
      exact hg _ (he y (by simp [hy]))

theorem map_over {f : Encoding → Encoding} (hf : ∀ e : Encoding, e.Over P → (f e).Over P) {es : List Encoding}
    (he : ∀ e ∈ es, e.Over P) : ∀ e ∈ es.map f, e.Over P := by
  intro x hx
  obtain ⟨y, hy, rfl⟩ := List.mem_map.1 hx
  exact hf _ (he y hy)

mutual
/-- The offsets that come out of a post-processor went in, or are `(0, 0)`. -/
theorem process_over (h0 : P (0, 0)) (ws : Char → Bool) (add : Bool) : ∀ (p : Proc), Keep P p → ∀ {es outs : List Encoding},
    p.processEncodings ws add es = some outs → (∀ e ∈ es, e.Over P) → ∀ e ∈ outs, e.Over P
  | .roberta m trim aps, hk, es, outs, h, he => by
    simp only [Proc.processEncodings, Option.some.injEq] at h
    subst h
    unfold robertaProcess
    have h1 : ∀ e ∈ (if trim = true then es.map (trimAll ws aps) else es), e.Over P := by
      split
      · rename_i ht
        rcases hk with hk | hk
        · cases hk; cases ht
        · exact map_over (fun e => trimAll_over hk ws aps) he
      · exact he
    have h2 := map_over (fun e h => Over.setTypeIds h (List.replicate e.len 0)) h1
    dsimp only
    split
    · exact mapFirst_over (fun e h => h.surround h0 _ _ _ _ _ (map_over (fun o ho => ho.surround h0 _ _ _ _ _ (by simp)) h.over))
        (fun e h => h.surround h0 _ _ _ _ _ (map_over (fun o ho => ho.surround h0 _ _ _ _ _ (by simp)) h.over)) h2
    · exact h2
  | .bert m, hk, es, outs, h, he => by
    simp only [Proc.processEncodings, Option.some.injEq] at h
    subst h
    unfold bertProcess
    split
    · exact mapFirst_over (fun e h => h.surround h0 _ _ _ _ _ (map_over (fun o ho => ho.surround h0 _ _ _ _ _ (by simp)) h.over))
        (fun e h => h.surround h0 _ _ _ _ _ (map_over (fun o ho => ho.surround h0 _ _ _ _ _ (by simp)) h.over)) he
    · exact he
  | .byteLevel aps trim, hk, es, outs, h, he => by
    simp only [Proc.processEncodings, Option.some.injEq] at h
    subst h
    unfold ByteLevel.processEncodings
    have h1 : ∀ e ∈ (if trim = true then es.map (trimAll ws aps) else es), e.Over P := by
      split
      · rename_i ht
        rcases hk with hk | hk
        · cases hk; cases ht
        · exact map_over (fun e => trimAll_over hk ws aps) he
      · exact he
    intro e hm
    obtain ⟨y, hy, rfl⟩ := List.mem_map.1 hm
    obtain ⟨y1, y2⟩ := List.mem_zipIdx' hy
    refine Over.setSequenceId (h1 _ ?_) _
    rw [y2]
    exact List.getElem_mem _
  | .template t, hk, es, outs, h, he => by
    simp only [Proc.processEncodings, Template.processEncodings] at h
    split at h
    · exact applyTemplate_over h0 h he
    · exact applyTemplate_over h0 h he
    · cases h
  | .sequence ps, hk, es, outs, h, he => by
    simp only [Proc.processEncodings] at h
    refine processAll_over h0 ws add ps (fun p hp => ?_) h he
    rcases hk with hk | hk
    · cases hk with
      | sequence h => exact .inl (h p hp)
    · exact .inr hk

theorem processAll_over (h0 : P (0, 0)) (ws : Char → Bool) (add : Bool) : ∀ (ps : List Proc), (∀ p ∈ ps, Keep P p) →
    ∀ {es outs : List Encoding}, processAll ws add ps es = some outs → (∀ e ∈ es, e.Over P) → ∀ e ∈ outs, e.Over P
  | [], _, es, outs, h, he => by cases h; exact he
  | p :: ps, hk, es, outs, h, he => by
    simp only [processAll, Option.bind_eq_some_iff] at h
    obtain ⟨es', h1, h2⟩ := h
    exact processAll_over h0 ws add ps (fun q hq => hk q (by simp [hq])) h2
      (process_over h0 ws add p (hk p (by simp)) h1 he)
end

theorem prepare_over {e : Encoding} (h : e.Over P) (i : Nat) : (prepare i e).Over P := by
  unfold prepare
  exact ((h.setSequenceId i).setOverflowing (map_over (fun o ho => ho.setSequenceId i) (h.setSequenceId i).over)).setTypeIds _

theorem orPanic_ok {α} {o : Option α} {a : α} (h : Tok.orPanic o = .ok a) : o = some a := by
  cases o with
  | none => cases h
  | some b => cases h; rfl

theorem truncateEncodings_over {Q : Range → Prop} {e : Encoding} {pair : Option Encoding} {p : TruncParams}
    {r : Encoding × Option Encoding} (h : truncateEncodings e pair p = .ok r) (he : e.Over P) (hp : ∀ o ∈ pair, o.Over Q) :
    r.1.Over P ∧ ∀ o ∈ r.2, o.Over Q := by
  have one : ∀ {P : Range → Prop} {e e' : Encoding} {n k d}, Tok.orPanic (e.truncate n k d) = .ok e' → e.Over P → e'.Over P :=
    fun h he => he.truncate (orPanic_ok h)
  unfold truncateEncodings at h
  simp only [bind, Except.bind, pure, Except.pure] at h
  repeat' split at h
  all_goals first
    | cases h
    | skip
  all_goals
    refine ⟨?_, ?_⟩
  all_goals simp_all
  all_goals first
    | exact one ‹_› he
    | exact one ‹_› hp

theorem finish_over (h0 : P (0, 0)) {ws : Char → Bool} {s : Settings} (hk : ∀ p ∈ s.processor, Keep P p) {e out : Encoding}
    {pair : Option Encoding} {add : Bool} (h : s.finish ws e pair add = some out) (he : e.Over P) (hp : ∀ o ∈ pair, o.Over P) :
    out.Over P := by
  unfold Settings.finish at h
  cases hs : s.processor with
  | some p =>
    rw [hs] at h
    simp only [Proc.process, Option.map_eq_some_iff] at h
    obtain ⟨outs, h1, rfl⟩ := h
    refine Over.merge (process_over h0 ws add p (hk p hs) h1 ?_)
    cases pair with
    | none => intro x hx; cases List.mem_singleton.1 hx; exact prepare_over he 0
    | some o =>
      intro x hx
      simp only [List.mem_cons, List.not_mem_nil, or_false] at hx
      rcases hx with rfl | rfl
      · exact prepare_over he 0
      · exact prepare_over (hp o rfl) 1
  | none =>
    rw [hs] at h
    cases pair with
    | none => cases h; exact he
    | some o =>
      cases h
      exact Over.mergeWith _ (Nat.le_refl _) (Over.mergeWith _ (Nat.le_refl _) .empty (he.setSequenceId 0))
        ((hp o rfl).setSequenceId 1)

theorem postProcess_over (h0 : P (0, 0)) {ws : Char → Bool} {checked : Bool} {s : Settings} (hk : ∀ p ∈ s.processor, Keep P p)
    {e out : Encoding} {pair : Option Encoding} {add : Bool} (h : s.postProcess ws checked e pair add = .ok out)
    (he : e.Over P) (hp : ∀ o ∈ pair, o.Over P) : out.Over P := by
  unfold Settings.postProcess at h
  split at h
  · cases h
  · rename_i e' pair' h1
    have h2 : e'.Over P ∧ ∀ o ∈ pair', o.Over P := by
      unfold Settings.truncate at h1
      split at h1
      · cases h1; exact ⟨he, hp⟩
      · dsimp only at h1
        split at h1
        · split at h1
          · cases h1
          · exact truncateEncodings_over h1 he hp
        · exact truncateEncodings_over h1 he hp
    split at h
    · cases h
    · rename_i out' h3
      cases h
      have := finish_over h0 hk h3 h2.1 h2.2
      unfold Settings.padOne
      split
      · exact this
      · simp only [padEncodings, List.isEmpty_cons, Bool.false_eq_true, if_false, List.map_cons, List.headD_cons]
        exact this.pad h0 _ _ _

end Post

/-! ## What `encode` returns -/

theorem fromItems_over {P : Range → Prop} {e : Encoding} (he : e.overflowing = []) (h : ∀ o ∈ e.offsets, P o) : e.Over P :=
  .intro _ h (fun x hx => by rw [he] at hx; cases hx)

theorem intoEncoding_overflowing {p : PTS} {word : Option Nat} {typeId : Nat} {ty : OffsetType} {e : Encoding}
    (h : p.intoEncoding word typeId ty = .ok e) : e.overflowing = [] := by
  unfold PTS.intoEncoding at h
  split at h
  · cases h; rfl
  · split at h
    · cases h
    · split at h <;> (cases h; rfl)

namespace Tokenizer

/-- The texts of an input. -/
def Input.texts : Input → List Str
  | .raw s => [s]
  | .words l => l

/-- **C59.** The offsets of the encoding of a text delimit parts of it that are not empty, in bytes or in characters, and
both the starts and the ends are in the order of the text; also when the tokenization stops early. -/
theorem C59_text {t : Tokenizer} {u : Unicode} {z : Normalizer} {v : CharTables} {y : PreTokenizer}
    (h : IsLibrary t u z v y) (hm : ∀ w ts, w ≠ [] → t.model w = .ok ts → InWord w ts)
    {typeId : Nat} {ty : OffsetType} (hty : ty ≠ .none) {s : Str}
    {e : Encoding} (he : t.encodeSequence typeId ty (.raw s) = .ok e) :
    e.offsets.length = e.ids.length ∧ (∀ o ∈ e.offsets, Delimits s ty o) ∧
      e.offsets.Pairwise fun o o' => o.1 ≤ o'.1 ∧ o.2 ≤ o'.2 := by
  have he : t.encodeText (t.limit typeId) typeId ty none s = .ok e := he
  obtain ⟨h1, h2⟩ := C59_offsets h hm hty he
  obtain ⟨_, q, _, _, hq⟩ := encodeText_steps he
  have hw := (intoEncoding_wf hq).parallel
  refine ⟨hw.2.2.2.1, ?_, ?_⟩
  · rw [offsets_eq_rows hw]
    intro o ho
    obtain ⟨r, hr, rfl⟩ := List.mem_map.1 ho
    exact h1 r hr
  · rw [offsets_eq_rows hw, List.pairwise_map]
    exact h2

theorem encodeText_over {t : Tokenizer} {u : Unicode} {z : Normalizer} {v : CharTables} {y : PreTokenizer}
    (h : IsLibrary t u z v y) (hm : ∀ w ts, w ≠ [] → t.model w = .ok ts → InWord w ts) {lim : Option (Nat × Direction)}
    {typeId : Nat} {ty : OffsetType} (hty : ty ≠ .none) {word : Option Nat} {s : Str}
    {e : Encoding} (he : t.encodeText lim typeId ty word s = .ok e) : e.Over (Delimits s ty) := by
  obtain ⟨h1, _⟩ := C59_offsets h hm hty he
  obtain ⟨_, q, _, _, hq⟩ := encodeText_steps he
  refine fromItems_over (intoEncoding_overflowing hq) ?_
  rw [offsets_eq_rows (intoEncoding_wf hq).parallel]
  intro o ho
  obtain ⟨r, hr, rfl⟩ := List.mem_map.1 ho
  exact h1 r hr

theorem encodeSequence_over {t : Tokenizer} {u : Unicode} {z : Normalizer} {v : CharTables} {y : PreTokenizer}
    (h : IsLibrary t u z v y) (hm : ∀ w ts, w ≠ [] → t.model w = .ok ts → InWord w ts)
    {typeId : Nat} {ty : OffsetType} (hty : ty ≠ .none) {i : Input}
    {e : Encoding} (he : t.encodeSequence typeId ty i = .ok e) : e.Over fun o => ∃ s ∈ i.texts, Delimits s ty o := by
  cases i with
  | raw s =>
    have he : t.encodeText (t.limit typeId) typeId ty none s = .ok e := he
    exact (encodeText_over h hm hty he).mono fun o ho => ⟨s, by simp [Input.texts], ho⟩
  | words l =>
    have he : (l.zipIdx.mapM fun x => t.encodeText (t.limit typeId) typeId ty (some x.2) x.1).map (Encoding.merge · false) = .ok e := he
    cases hl : l.zipIdx.mapM fun x => t.encodeText (t.limit typeId) typeId ty (some x.2) x.1 with
    | error x => rw [hl] at he; cases he
    | ok es =>
      rw [hl] at he; cases he
      refine Over.merge ?_
      have : ∀ (xs : List (Str × Nat)) (es : List Encoding), (∀ x ∈ xs, x.1 ∈ l) →
          (xs.mapM fun x => t.encodeText (t.limit typeId) typeId ty (some x.2) x.1) = .ok es →
          ∀ e ∈ es, e.Over fun o => ∃ s ∈ l, Delimits s ty o := by
        intro xs
        induction xs with
        | nil => intro es _ h; cases h; simp
        | cons x xs ih =>
          intro es hx hes
          rw [List.mapM_cons] at hes
          cases h1 : t.encodeText (t.limit typeId) typeId ty (some x.2) x.1 with
          | error er => rw [h1] at hes; cases hes
          | ok e1 =>
            cases h2 : xs.mapM fun x => t.encodeText (t.limit typeId) typeId ty (some x.2) x.1 with
            | error er => rw [h1, h2] at hes; cases hes
            | ok es' =>
              rw [h1, h2] at hes; cases hes
              intro e he
              rcases List.mem_cons.1 he with rfl | he
              · exact (encodeText_over h hm hty h1).mono fun o ho => ⟨x.1, hx x (by simp), ho⟩
              · exact ih es' (fun y hy => hx y (by simp [hy])) h2 e he
      refine this _ _ (fun x hx => ?_) hl
      obtain ⟨y1, y2⟩ := List.mem_zipIdx' hx
      rw [y2]; exact List.getElem_mem _

/-- The texts of the one or two inputs of `encode`. -/
def inputTexts (input : Input × Option Input) : List Str := input.1.texts ++ input.2.elim [] Input.texts

theorem encodeAs_over {t : Tokenizer} {u : Unicode} {z : Normalizer} {v : CharTables} {y : PreTokenizer}
    (h : IsLibrary t u z v y) (hm : ∀ w ts, w ≠ [] → t.model w = .ok ts → InWord w ts)
    {ty : OffsetType} (hty : ty ≠ .none) {input : Input × Option Input} {add : Bool} {e : Encoding}
    (he : t.encodeAs ty input add = .ok e) {P : Range → Prop} (h0 : P (0, 0)) (hP : ∀ s ∈ inputTexts input, ∀ o, Delimits s ty o → P o)
    (hk : ∀ p ∈ t.settings.processor, Post.Keep P p) : e.Over P := by
  unfold encodeAs encodeBy at he
  dsimp only at he
  cases h1 : t.encodeSequence 0 ty input.1 with
  | error x => rw [h1] at he; cases he
  | ok e1 =>
    rw [h1] at he
    have he : (optional (fun i => t.encodeSequence 1 ty i) input.2).bind (fun pair =>
      mapErr .post (t.settings.postProcess t.ws t.checked e1 pair add)) = .ok e := he
    cases h2 : optional (fun i => t.encodeSequence 1 ty i) input.2 with
    | error x => rw [h2] at he; cases he
    | ok pair =>
      rw [h2] at he
      have he : mapErr EncErr.post (t.settings.postProcess t.ws t.checked e1 pair add) = .ok e := he
      cases h3 : t.settings.postProcess t.ws t.checked e1 pair add with
      | error x => rw [h3] at he; cases he
      | ok e' =>
        rw [h3] at he; cases he
        refine Post.postProcess_over h0 hk h3 ?_ ?_
        · exact (encodeSequence_over h hm hty h1).mono fun o ⟨s, hs, ho⟩ => hP s (by simp [inputTexts, hs]) o ho
        · intro o ho
          cases hi : input.2 with
          | none => rw [hi] at h2; cases h2; cases ho
          | some i =>
            rw [hi] at h2
            simp only [optional] at h2
            cases h4 : t.encodeSequence 1 ty i with
            | error x => rw [h4] at h2; cases h2
            | ok e2 =>
              rw [h4] at h2; cases h2; cases ho
              exact (encodeSequence_over h hm hty h4).mono fun o ⟨s, hs, ho⟩ => hP s (by simp [inputTexts, hi, hs]) o ho

/-- **C59, of `encode`.** All the offsets of an encoding and of its overflowing parts are `(0, 0)` or delimit a part, not
empty, of a text that was given, at its characters; whatever the truncation and the padding, and whatever the
post-processor, unless it trims offsets. -/
theorem C59_encode {t : Tokenizer} {u : Unicode} {z : Normalizer} {v : CharTables} {y : PreTokenizer}
    (h : IsLibrary t u z v y) (hm : ∀ w ts, w ≠ [] → t.model w = .ok ts → InWord w ts)
    (hk : ∀ p ∈ t.settings.processor, Post.NoTrim p)
    {ty : OffsetType} (hty : ty ≠ .none) {input : Input × Option Input} {add : Bool} {e : Encoding}
    (he : t.encodeAs ty input add = .ok e) : e.Over fun o => o = (0, 0) ∨ ∃ s ∈ inputTexts input, Delimits s ty o :=
  encodeAs_over h hm hty he (.inl rfl) (fun s hs _ ho => .inr ⟨s, hs, ho⟩) fun p hp => .inl (hk p hp)

/-- The size of a text in the unit of the offsets. -/
def sizeIn (ty : OffsetType) (s : Str) : Nat := if ty = .char then s.length else blen s

/-- **C59, with any post-processor.** The offsets never go backwards and never past the end of the text, even when they are
trimmed. -/
theorem C59_inside {t : Tokenizer} {u : Unicode} {z : Normalizer} {v : CharTables} {y : PreTokenizer}
    (h : IsLibrary t u z v y) (hm : ∀ w ts, w ≠ [] → t.model w = .ok ts → InWord w ts)
    {ty : OffsetType} (hty : ty ≠ .none) {input : Input × Option Input} {add : Bool} {e : Encoding}
    (he : t.encodeAs ty input add = .ok e) :
    e.Over fun o => o = (0, 0) ∨ ∃ s ∈ inputTexts input, o.1 ≤ o.2 ∧ o.2 ≤ sizeIn ty s := by
  refine encodeAs_over h hm hty he (.inl rfl) (fun s hs o ho => .inr ⟨s, hs, ?_⟩) fun p hp => .inr ?_
  · obtain ⟨p, m, q, rfl, _, rfl⟩ := ho
    unfold sizeIn
    split <;> simp [blen_append]
  · intro ws aps i tok o ho
    have key : (o.1 ≤ o.2 → (ByteLevel.trimOne ws aps i tok o).1 ≤ (ByteLevel.trimOne ws aps i tok o).2 ∧
          (ByteLevel.trimOne ws aps i tok o).2 ≤ o.2) ∧
        (o = (0, 0) → ByteLevel.trimOne ws aps i tok o = (0, 0)) := by
      obtain ⟨a, b⟩ := o
      unfold ByteLevel.trimOne
      dsimp only
      refine ⟨fun h => ?_, fun h => ?_⟩
      · repeat' split
        all_goals (dsimp only at *; omega)
      · cases h
        repeat' split
        all_goals simp_all
    rcases ho with ho | ⟨s, hs, h1, h2⟩
    · exact .inl (key.2 ho)
    · exact .inr ⟨s, hs, (key.1 h1).1, Nat.le_trans (key.1 h1).2 h2⟩

end Tokenizer
end Tok
