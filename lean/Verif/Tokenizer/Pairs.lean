import Verif.Tokenizer.C109

/-!
# C110: encoding a pair is encoding its two texts
-/

namespace Tok
open ByteLevel

namespace Encoding

theorem mergeWith_ids (e p : Encoding) (g : Bool) : (e.mergeWith p g).ids = e.ids ++ p.ids := by
  rw [mergeWith]; cases e; cases p; rfl

theorem merge_ids_flatMap (es : List Encoding) (g : Bool) : (merge es g).ids = es.flatMap (·.ids) := by
  have key : ∀ (es : List Encoding) (acc : Encoding),
      (es.foldl (fun acc s => acc.mergeWith s g) acc).ids = acc.ids ++ es.flatMap (·.ids) := by
    intro es
    induction es with
    | nil => intro acc; simp
    | cons e es ih => intro acc; rw [List.foldl_cons, ih, mergeWith_ids]; simp
  unfold merge
  rw [key]; rfl

theorem mergeWith_whole {e p : Encoding} (g : Bool) (he : e.overflowing = []) (hp : p.overflowing = []) :
    (e.mergeWith p g).overflowing = [] := by
  cases e with
  | mk a b c d f h i ov r =>
    cases p with
    | mk a' b' c' d' f' h' i' ov' r' =>
      have he : ov = [] := he
      have hp : ov' = [] := hp
      subst he hp
      rw [mergeWith]; rfl

theorem merge_whole {es : List Encoding} (g : Bool) (h : ∀ e ∈ es, e.overflowing = []) : (merge es g).overflowing = [] := by
  have key : ∀ (es : List Encoding) (acc : Encoding), (∀ e ∈ es, e.overflowing = []) → acc.overflowing = [] →
      (es.foldl (fun acc s => acc.mergeWith s g) acc).overflowing = [] := by
    intro es
    induction es with
    | nil => intro acc _ h; exact h
    | cons e es ih =>
      intro acc he ha
      exact ih _ (fun x hx => he x (List.mem_cons_of_mem _ hx)) (mergeWith_whole g ha (he e List.mem_cons_self))
  exact key es _ h rfl

end Encoding

namespace Tokenizer
open AddedVocab Encoding

/-! ## One input: the type id does not change its ids -/

theorem encodingItems_ids (original : Str) (word : Option Nat) (i j : Nat) (ty : PTS.OffsetType) : ∀ (ss : List Split) (k : Nat),
    (PTS.encodingItems original word i ty k ss).map (·.1) = (PTS.encodingItems original word j ty k ss).map (·.1) := by
  intro ss
  induction ss with
  | nil => intro k; rfl
  | cons s ss ih =>
    intro k
    unfold PTS.encodingItems
    simp only [List.map_append, List.map_map]
    rw [ih]
    congr 1

theorem intoEncoding_ids (p : PTS) (word : Option Nat) (i j : Nat) (ty : PTS.OffsetType) :
    (p.intoEncoding word i ty).map (·.ids) = (p.intoEncoding word j ty).map (·.ids) := by
  unfold PTS.intoEncoding
  split
  · rfl
  · split
    · rfl
    · have h : ∀ xs, (Encoding.fromItems xs).ids = xs.map (·.1) := fun _ => rfl
      cases ty with
      | none => rfl
      | byte =>
        refine congrArg Except.ok ?_
        dsimp only
        rw [h, h, encodingItems_ids _ _ i j]
      | char =>
        refine congrArg Except.ok ?_
        dsimp only
        rw [h, h, encodingItems_ids _ _ i j]

theorem intoEncoding_whole {p : PTS} {word : Option Nat} {i : Nat} {ty : PTS.OffsetType} {e : Encoding}
    (h : p.intoEncoding word i ty = .ok e) : e.overflowing = [] := by
  unfold PTS.intoEncoding at h
  split at h
  · cases h; rfl
  · split at h
    · cases h
    · cases ty <;> (simp only at h; cases h; rfl)

theorem encodeText_ids (t : Tokenizer) (lim : Option (Nat × Direction)) (i j : Nat) (ty : PTS.OffsetType) (word : Option Nat)
    (s : Str) : (t.encodeText lim i ty word s).map (·.ids) = (t.encodeText lim j ty word s).map (·.ids) := by
  unfold encodeText doTokenize
  cases t.preTokenized s with
  | error e => rfl
  | ok p =>
    show ((t.tokenizeIn p lim).bind _).map _ = ((t.tokenizeIn p lim).bind _).map _
    cases t.tokenizeIn p lim with
    | error e => rfl
    | ok q =>
      show (mapErr _ (q.intoEncoding word i ty)).map _ = (mapErr _ (q.intoEncoding word j ty)).map _
      have := intoEncoding_ids q word i j ty
      cases h1 : q.intoEncoding word i ty <;> cases h2 : q.intoEncoding word j ty <;> rw [h1, h2] at this <;>
        first | (cases this; done) | rfl | skip
      exact congrArg Except.ok (Except.ok.inj this)

theorem encodeText_whole {t : Tokenizer} {lim : Option (Nat × Direction)} {i : Nat} {ty : PTS.OffsetType} {word : Option Nat}
    {s : Str} {e : Encoding} (h : t.encodeText lim i ty word s = .ok e) : e.overflowing = [] := by
  unfold encodeText doTokenize at h
  cases hp : t.preTokenized s with
  | error e => rw [hp] at h; cases h
  | ok p =>
    rw [hp] at h
    replace h : (t.tokenizeIn p lim).bind (fun q => mapErr (fun _ => EncErr.notTokenized) (q.intoEncoding word i ty)) = .ok e := h
    cases hq : t.tokenizeIn p lim with
    | error e => rw [hq] at h; cases h
    | ok q =>
      rw [hq] at h
      replace h : mapErr (fun _ => EncErr.notTokenized) (q.intoEncoding word i ty) = .ok e := h
      cases hr : q.intoEncoding word i ty with
      | error e => rw [hr] at h; cases h
      | ok e' => rw [hr] at h; cases h; exact intoEncoding_whole hr

theorem mapM_map_ids {α ε : Type} {f g : α → Except ε Encoding} (h : ∀ a, (f a).map (·.ids) = (g a).map (·.ids)) :
    ∀ l : List α, (l.mapM f).map (fun es => es.flatMap (·.ids)) = (l.mapM g).map fun es => es.flatMap (·.ids)
  | [] => rfl
  | a :: l => by
    have ih := mapM_map_ids h l
    have ha := h a
    rw [List.mapM_cons, List.mapM_cons]
    cases h1 : f a <;> cases h2 : g a <;> rw [h1, h2] at ha
    · cases ha; rfl
    · cases ha
    · cases ha
    · have ha := Except.ok.inj ha
      cases h3 : l.mapM f <;> cases h4 : l.mapM g <;> rw [h3, h4] at ih
      · cases ih; rfl
      · cases ih
      · cases ih
      · have ih := Except.ok.inj ih
        refine congrArg Except.ok ?_
        dsimp only at ha ih
        simp only [List.flatMap_cons]
        rw [ha, ih]

theorem encodeSequenceWith_ids (t : Tokenizer) (lim : Option (Nat × Direction)) (i j : Nat) (ty : PTS.OffsetType) (x : Input) :
    (t.encodeSequenceWith lim i ty x).map (·.ids) = (t.encodeSequenceWith lim j ty x).map (·.ids) := by
  cases x with
  | raw s => exact encodeText_ids t lim i j ty none s
  | words l =>
    unfold encodeSequenceWith
    simp only
    have := mapM_map_ids (f := fun x : Str × Nat => t.encodeText lim i ty (some x.2) x.1)
      (g := fun x : Str × Nat => t.encodeText lim j ty (some x.2) x.1) (fun x => encodeText_ids t lim i j ty (some x.2) x.1) l.zipIdx
    generalize (l.zipIdx.mapM fun x : Str × Nat => t.encodeText lim i ty (some x.2) x.1) = a at *
    generalize (l.zipIdx.mapM fun x : Str × Nat => t.encodeText lim j ty (some x.2) x.1) = b at *
    cases a <;> cases b
    · cases this; rfl
    · cases this
    · cases this
    · refine congrArg Except.ok ?_
      have h := Except.ok.inj this
      dsimp only at h ⊢
      rw [merge_ids_flatMap, merge_ids_flatMap, h]

theorem mapM_ok_mem {α β ε : Type} {f : α → Except ε β} : ∀ {l : List α} {bs : List β}, l.mapM f = .ok bs →
    ∀ b ∈ bs, ∃ a, f a = .ok b
  | [], bs, h, b, hb => by cases h; cases hb
  | a :: l, bs, h, b, hb => by
    rw [List.mapM_cons] at h
    cases h1 : f a with
    | error e => rw [h1] at h; cases h
    | ok x =>
      cases h2 : l.mapM f with
      | error e => rw [h1, h2] at h; cases h
      | ok xs =>
        rw [h1, h2] at h
        cases h
        rcases List.mem_cons.1 hb with rfl | hb
        · exact ⟨a, h1⟩
        · exact mapM_ok_mem h2 b hb

theorem encodeSequenceWith_whole {t : Tokenizer} {lim : Option (Nat × Direction)} {i : Nat} {ty : PTS.OffsetType} {x : Input}
    {e : Encoding} (h : t.encodeSequenceWith lim i ty x = .ok e) : e.overflowing = [] := by
  cases x with
  | raw s => exact encodeText_whole h
  | words l =>
    unfold encodeSequenceWith at h
    simp only at h
    cases hm : (l.zipIdx.mapM fun x : Str × Nat => t.encodeText lim i ty (some x.2) x.1) with
    | error e => rw [hm] at h; cases h
    | ok es =>
      rw [hm] at h
      cases h
      refine merge_whole false fun o ho => ?_
      obtain ⟨a, ha⟩ := mapM_ok_mem hm o ho
      exact encodeText_whole ha

/-! ## Post-processing of a pair -/

/-- Post-processors that put nothing but special tokens before, between and behind the two texts. -/
inductive Frames (special : Nat → Prop) : Option Post.Proc → Prop
  | none : Frames special none
  | byteLevel {aps trim} : Frames special (some (.byteLevel aps trim))
  | template {tm ty ty'} {as bs cs : List Post.Piece}
      (h : tm.pair = as ++ Post.Piece.sequence .A ty :: (bs ++ Post.Piece.sequence .B ty' :: cs))
      (hs : ∀ p ∈ as ++ bs ++ cs, ∃ id ty tok, p = .special id ty ∧ tm.specials.get id = some tok ∧
        tok.ids.length = tok.tokens.length ∧ ∀ i ∈ tok.ids, special i) : Frames special (some (.template tm))
  | bert {m} (h : special m.cls.2) (h' : special m.sep.2) : Frames special (some (.bert m))
  | roberta {m trim aps} (h : special m.cls.2) (h' : special m.sep.2) : Frames special (some (.roberta m trim aps))
  | behind {aps trim q} (h : Frames special (some q)) : Frames special (some (.sequence [.byteLevel aps trim, q]))

theorem frames_ids {special : Nat → Prop} {p : Option Post.Proc} (h : Frames special p) (ws : Char → Bool) (add : Bool) :
    ∃ pre mid post, (∀ i ∈ pre ++ mid ++ post, special i) ∧ (add = false → pre ++ mid ++ post = []) ∧
      ∀ e o : Encoding, e.WF → e.seqRanges = [] → e.overflowing = [] → o.WF → o.seqRanges = [] → o.overflowing = [] →
        ∃ out, Post.Settings.finish ws ⟨none, none, p⟩ e (some o) add = some out ∧
          out.ids = pre ++ e.ids ++ mid ++ o.ids ++ post := by
  induction h with
  | none =>
    refine ⟨[], [], [], by simp, by simp, fun e o _ _ _ _ _ _ => ⟨_, rfl, ?_⟩⟩
    simp [Post.defaultMerge, Post.inputList, List.zipIdx, mergeWith_ids, setSequenceId_ids]
    rfl
  | @byteLevel aps trim =>
    refine ⟨[], [], [], by simp, by simp, fun e o _ _ _ _ _ _ => ⟨_, rfl, ?_⟩⟩
    cases trim <;> simp [ByteLevel.processEncodings, merge_ids_flatMap, setSequenceId_ids, prepare_ids, withOverflowing_ids, processOffsets_ids, List.zipIdx]
  | @template tm ty ty' as bs cs h4 h5 =>
    let ids (l : List Post.Piece) : List Nat := (l.flatMap (Post.pieceRows tm.specials add Encoding.empty none)).map (·.1)
    have hids : ∀ l : List Post.Piece, (∀ p ∈ l, p ∈ as ++ bs ++ cs) →
        (∀ i ∈ ids l, special i) ∧ (add = false → ids l = []) ∧
          ∀ e o, (l.flatMap (Post.pieceRows tm.specials add e o)).map (·.1) = ids l := by
      intro l hl
      refine ⟨?_, ?_, ?_⟩
      · intro i hi
        obtain ⟨r, hr, rfl⟩ := List.mem_map.1 hi
        obtain ⟨p, hp, hr⟩ := List.mem_flatMap.1 hr
        obtain ⟨id, ty', tok, rfl, k1, _, k3⟩ := h5 p (hl p hp)
        simp only [Post.pieceRows, k1, Option.elim] at hr
        split at hr
        · obtain ⟨q, hq, rfl⟩ := List.mem_map.1 hr
          exact k3 _ (List.of_mem_zip hq).1
        · simp at hr
      · intro ha
        simp only [ids, List.map_eq_nil_iff, List.flatMap_eq_nil_iff]
        intro p hp
        obtain ⟨id, ty', tok, rfl, _⟩ := h5 p (hl p hp)
        simp [Post.pieceRows, ha]
      · intro e o
        simp only [ids, List.flatMap_def]
        congr 2
        apply List.map_congr_left
        intro p hp
        obtain ⟨id, ty', tok, rfl, _⟩ := h5 p (hl p hp)
        rfl
    have ha := hids as (by simp +contextual)
    have hb := hids bs (by simp +contextual)
    have hc := hids cs (by simp +contextual)
    refine ⟨ids as, ids bs, ids cs, ?_, ?_, fun e o he hr ho he' hr' ho' => ?_⟩
    · intro i hi
      rcases List.mem_append.1 hi with hi | hi
      · rcases List.mem_append.1 hi with hi | hi
        · exact ha.1 i hi
        · exact hb.1 i hi
      · exact hc.1 i hi
    · intro hf
      rw [ha.2.1 hf, hb.2.1 hf, hc.2.1 hf]; rfl
    have hu : ∀ p ∈ tm.chosen (some o).isSome, Post.Usable tm.specials add true p := by
      intro p hp
      change p ∈ tm.pair at hp
      rw [h4] at hp
      have hsp : p ∈ as ++ bs ++ cs → Post.Usable tm.specials add true p := by
        intro hp
        obtain ⟨id, ty', tok, rfl, g1, g2, _⟩ := h5 p hp
        exact fun _ => ⟨tok, g1, g2⟩
      rcases List.mem_append.1 hp with hp | hp
      · exact hsp (by simp [hp])
      · rcases List.mem_cons.1 hp with rfl | hp
        · trivial
        · rcases List.mem_append.1 hp with hp | hp
          · exact hsp (by simp [hp])
          · rcases List.mem_cons.1 hp with rfl | hp
            · rfl
            · exact hsp (by simp [hp])
    obtain ⟨os, g0, _, _, g3, _, g5⟩ := Post.template_ok he ⟨hr, by simp [ho]⟩ (pair := some o)
      (fun x hx => by cases hx; exact ⟨he', hr', by simp [ho']⟩) (tm.chosen (some o).isSome) hu
    have hw : ∀ d ∈ os.filterMap id, d.WF := fun d hd => (g5 d hd).1
    refine ⟨Encoding.merge (os.filterMap id) false, ?_, ?_⟩
    · unfold Post.Settings.finish
      simp only
      rw [Post.template_process, g0]; rfl
    · rw [(rows_unzip (Encoding.merge_wf hw false).parallel).1, C05_merge_list hw, g3]
      show (tm.pair.flatMap _).map _ = _
      have hA : (Post.pieceRows tm.specials add e (some o) (.sequence .A ty)).map (·.1) = e.ids := by
        simp only [Post.pieceRows, Post.inputOf, Option.elim, List.map_map]
        rw [(rows_unzip he.parallel).1]
        exact List.map_congr_left fun r _ => rfl
      have hB : (Post.pieceRows tm.specials add e (some o) (.sequence .B ty')).map (·.1) = o.ids := by
        simp only [Post.pieceRows, Post.inputOf, Option.elim, List.map_map]
        rw [(rows_unzip he'.parallel).1]
        exact List.map_congr_left fun r _ => rfl
      rw [h4, List.flatMap_append, List.flatMap_cons, List.flatMap_append, List.flatMap_cons]
      simp only [List.map_append]
      rw [hA, hB, ha.2.2, hb.2.2, hc.2.2]
      simp [List.append_assoc]
  | @bert m h4 h5 =>
    refine ⟨if add then [m.cls.2] else [], if add then [m.sep.2] else [], if add then [m.sep.2] else [], ?_, ?_,
      fun e o _ _ _ _ _ _ => ⟨_, rfl, ?_⟩⟩
    · cases add <;> simp [h4, h5]
    · intro ha; simp [ha]
    · have h1 : ∀ e : Encoding, (Post.bertFirst m e).ids = m.cls.2 :: (e.ids ++ [m.sep.2]) := fun e => rfl
      have h2 : ∀ e : Encoding, (Post.bertOther m e).ids = e.ids ++ [m.sep.2] := fun e => rfl
      cases add <;> simp [Post.bertProcess, Post.mapFirst, merge_ids_flatMap, prepare_ids, h1, h2]
  | @roberta m trim aps h4 h5 =>
    refine ⟨if add then [m.cls.2] else [], if add then [m.sep.2, m.sep.2] else [], if add then [m.sep.2] else [], ?_, ?_,
      fun e o _ _ _ _ _ _ => ⟨_, rfl, ?_⟩⟩
    · cases add <;> simp [h4, h5]
    · intro ha; simp [ha]
    · have h1 : ∀ e : Encoding, (Post.robertaFirst m e).ids = m.cls.2 :: (e.ids ++ [m.sep.2]) := fun e => rfl
      have h2 : ∀ e : Encoding, (Post.robertaOther m e).ids = m.sep.2 :: (e.ids ++ [m.sep.2]) := fun e => rfl
      have ht : ∀ (e : Encoding) l, (e.setTypeIds l).ids = e.ids := fun e l => by cases e; rfl
      have hx : ∀ e : Encoding, (Post.trimAll ws aps e).ids = e.ids := fun e => by
        simp [Post.trimAll, withOverflowing_ids, processOffsets_ids]
      cases add <;> cases trim <;>
        simp [Post.robertaProcess, Post.mapFirst, merge_ids_flatMap, prepare_ids, h1, h2, ht, hx]
  | @behind aps trim q h ih =>
    obtain ⟨pre, mid, post, h1, h2, h3⟩ := ih
    refine ⟨pre, mid, post, h1, h2, fun e o he hr ho he' hr' ho' => ?_⟩
    let tr (e : Encoding) : Encoding := if trim then processOffsets ws aps e else e
    have htr : ∀ e : Encoding, e.WF → e.seqRanges = [] → e.overflowing = [] →
        (tr e).WF ∧ (tr e).seqRanges = [] ∧ (tr e).overflowing = [] ∧ (tr e).ids = e.ids := by
      intro e he hr ho
      cases trim
      · exact ⟨he, hr, ho, rfl⟩
      · exact ⟨Post.processOffsets_wf ws aps he, (Post.processOffsets_seqRanges ws aps e).trans hr,
          (Post.processOffsets_overflowing ws aps e).trans ho, processOffsets_ids ws aps e⟩
    obtain ⟨k1, k2, k3, k4⟩ := htr e he hr ho
    obtain ⟨l1, l2, l3, l4⟩ := htr o he' hr' ho'
    obtain ⟨out, o1, o2⟩ := h3 (tr e) (tr o) k1 k2 k3 l1 l2 l3
    refine ⟨out, ?_, by rw [o2, k4, l4]⟩
    have key : ByteLevel.processEncodings ws aps trim [Post.prepare 0 e, Post.prepare 1 o] =
        [Post.prepare 0 (tr e), Post.prepare 1 (tr o)] := by
      show _ = [Post.prepare 0 (if trim then processOffsets ws aps e else e),
        Post.prepare 1 (if trim then processOffsets ws aps o else o)]
      cases e with
      | mk i ty k w of s a ov sr =>
        cases o with
        | mk i' ty' k' w' of' s' a' ov' sr' =>
          have hr : sr = [] := hr
          have ho : ov = [] := ho
          have hr' : sr' = [] := hr'
          have ho' : ov' = [] := ho'
          subst hr ho hr' ho'
          cases trim <;> rfl
    rw [← o1]
    unfold Post.Settings.finish Post.Proc.process
    simp only [Post.Proc.processEncodings, Post.processAll, Option.bind_some, key]
    rw [Option.bind_fun_some]

theorem around_off {s : Post.Settings} {special : Nat → Prop} (h : Around s special) : s.truncation = none ∧ s.padding = none := by
  rcases h with h | ⟨_, _, _, h, _⟩
  · exact ⟨h.1, h.2.1⟩
  · rw [h]; exact ⟨rfl, rfl⟩

/-! ## C110 -/

/-- What one text gives when it is encoded alone and nothing is added. -/
theorem alone_ids {t : Tokenizer} (hset : Around t.settings (IsSpecialId t.added)) (ty : PTS.OffsetType) (x : Input) (i : Nat) :
    (t.encodeAs ty (x, none) false).map (·.ids) = (t.encodeSequence i ty x).map (·.ids) := by
  have htr := (around_off hset).1
  have hlim : ∀ i, t.limit i = none := by intro i; unfold limit; rw [htr]
  have h1 : (t.encodeSequence i ty x).map (·.ids) = (t.encodeSequence 0 ty x).map (·.ids) := by
    unfold encodeSequence
    rw [hlim, hlim]
    exact encodeSequenceWith_ids t none i 0 ty x
  rw [h1]
  show ((t.encodeSequence 0 ty x).bind _).map _ = _
  cases he : t.encodeSequence 0 ty x with
  | error e => rfl
  | ok e =>
    obtain ⟨hwf, hsr⟩ := encodeSequence_wf (lim := t.limit 0) he (hlim 0)
    obtain ⟨pre, post, _, o4, o5⟩ := around_uniform hset t.ws t.checked false
    obtain ⟨out, o1, o2⟩ := o5 e hwf hsr (encodeSequenceWith_whole he)
    show (mapErr EncErr.post (t.settings.postProcess t.ws t.checked e none false)).map _ = _
    rw [o1]
    refine congrArg Except.ok ?_
    have h0 := o4 rfl
    rw [List.append_eq_nil_iff] at h0
    dsimp only
    rw [o2, h0.1, h0.2]; simp

/-- **C110.** The ids of a pair are those of its two texts, each encoded alone and without special tokens, in that order; before,
between and behind them are special ids that do not depend on the texts, none if none are asked for. A pair fails to be encoded exactly
if one of its texts does. -/
theorem C110_pair {t : Tokenizer} (hset : Around t.settings (IsSpecialId t.added))
    (hpair : Frames (IsSpecialId t.added) t.settings.processor) (add : Bool) :
    ∃ pre mid post, (∀ i ∈ pre ++ mid ++ post, IsSpecialId t.added i) ∧ (add = false → pre ++ mid ++ post = []) ∧
      ∀ (ty : PTS.OffsetType) (a b : Input),
        (∀ x y, t.encodeAs ty (a, none) false = .ok x → t.encodeAs ty (b, none) false = .ok y →
          ∃ z, t.encodeAs ty (a, some b) add = .ok z ∧ z.ids = pre ++ x.ids ++ mid ++ y.ids ++ post) ∧
        ((∃ er, t.encodeAs ty (a, some b) add = .error er) ↔
          (∃ er, t.encodeAs ty (a, none) false = .error er) ∨ ∃ er, t.encodeAs ty (b, none) false = .error er) := by
  obtain ⟨htr, hpd⟩ := around_off hset
  have hlim : ∀ i, t.limit i = none := by intro i; unfold limit; rw [htr]
  obtain ⟨pre, mid, post, h1, h2, h3⟩ := frames_ids hpair t.ws add
  refine ⟨pre, mid, post, h1, h2, fun ty a b => ?_⟩
  have ha := alone_ids hset ty a 0
  have hb := alone_ids hset ty b 1
  have hok : ∀ e o, t.encodeSequence 0 ty a = .ok e → t.encodeSequence 1 ty b = .ok o →
      ∃ z, t.encodeAs ty (a, some b) add = .ok z ∧ z.ids = pre ++ e.ids ++ mid ++ o.ids ++ post := by
    intro e o he ho
    obtain ⟨w1, r1⟩ := encodeSequence_wf (lim := t.limit 0) he (hlim 0)
    obtain ⟨w2, r2⟩ := encodeSequence_wf (lim := t.limit 1) ho (hlim 1)
    obtain ⟨z, z1, z2⟩ := h3 e o w1 r1 (encodeSequenceWith_whole he) w2 r2 (encodeSequenceWith_whole ho)
    refine ⟨z, ?_, z2⟩
    show (t.encodeSequence 0 ty a).bind _ = _
    rw [he]
    show (optional (fun i => t.encodeSequence 1 ty i) (some b)).bind _ = _
    show ((t.encodeSequence 1 ty b).map some).bind _ = _
    rw [ho]
    show mapErr EncErr.post (t.settings.postProcess t.ws t.checked e (some o) add) = _
    have : t.settings = ⟨none, none, t.settings.processor⟩ := by
      rw [← htr, ← hpd]
    rw [this]
    unfold Post.Settings.postProcess Post.Settings.truncate Post.Settings.padOne
    simp only [z1]
    rfl
  have hbad : (∀ er, t.encodeSequence 0 ty a = .error er → t.encodeAs ty (a, some b) add = .error er) ∧
      ∀ e er, t.encodeSequence 0 ty a = .ok e → t.encodeSequence 1 ty b = .error er → t.encodeAs ty (a, some b) add = .error er := by
    constructor
    · intro er he
      show (t.encodeSequence 0 ty a).bind _ = _
      rw [he]; rfl
    · intro e er he ho
      show (t.encodeSequence 0 ty a).bind _ = _
      rw [he]
      show ((t.encodeSequence 1 ty b).map some).bind _ = _
      rw [ho]; rfl
  cases he : t.encodeSequence 0 ty a with
  | error er =>
    rw [he] at ha
    cases hx : t.encodeAs ty (a, none) false with
    | ok x => rw [hx] at ha; cases ha
    | error er' =>
      refine ⟨fun x y hx' _ => (by cases hx'), fun _ => .inl ⟨er', rfl⟩, fun _ => ⟨er, hbad.1 er he⟩⟩
  | ok e =>
    rw [he] at ha
    cases hx : t.encodeAs ty (a, none) false with
    | error er' => rw [hx] at ha; cases ha
    | ok x =>
      rw [hx] at ha
      have ha := Except.ok.inj ha
      cases ho : t.encodeSequence 1 ty b with
      | error er =>
        rw [ho] at hb
        cases hy : t.encodeAs ty (b, none) false with
        | ok y => rw [hy] at hb; cases hb
        | error er' =>
          exact ⟨fun x y _ hy' => (by cases hy'), fun _ => .inr ⟨er', rfl⟩, fun _ => ⟨er, hbad.2 e er he ho⟩⟩
      | ok o =>
        rw [ho] at hb
        cases hy : t.encodeAs ty (b, none) false with
        | error er' => rw [hy] at hb; cases hb
        | ok y =>
          rw [hy] at hb
          have hb := Except.ok.inj hb
          obtain ⟨z, z1, z2⟩ := hok e o he ho
          refine ⟨fun x' y' hx' hy' => ?_, fun ⟨er, her⟩ => ?_, fun h => ?_⟩
          · cases hx'; cases hy'
            exact ⟨z, z1, by rw [z2]; dsimp only at ha hb; rw [ha, hb]⟩
          · rw [z1] at her; cases her
          · rcases h with ⟨er, h⟩ | ⟨er, h⟩ <;> cases h

/-- **C110.** The tokens that are decoded from a pair, skipping special ones if any were added, are those of the first text and then
those of the second. -/
theorem C110_tokens {t : Tokenizer} (hinv : Inv t.view t.added) (hcache : t.added.cache = [])
    (hset : Around t.settings (IsSpecialId t.added)) (hpair : Frames (IsSpecialId t.added) t.settings.processor)
    {ty : PTS.OffsetType} {a b : Input} {x y : Encoding} (hx : t.encodeAs ty (a, none) false = .ok x)
    (hy : t.encodeAs ty (b, none) false = .ok y) {add skip : Bool} (hskip : add = true → skip = true) :
    ∃ z, t.encodeAs ty (a, some b) add = .ok z ∧
      decodeTokens t.view t.added skip z.ids =
        decodeTokens t.view t.added skip x.ids ++ decodeTokens t.view t.added skip y.ids := by
  obtain ⟨pre, mid, post, h1, h2, h3⟩ := C110_pair hset hpair add
  obtain ⟨z, z1, z2⟩ := (h3 ty a b).1 x y hx hy
  refine ⟨z, z1, ?_⟩
  have hside : ∀ l, (∀ i ∈ l, i ∈ pre ++ mid ++ post) → decodeTokens t.view t.added skip l = [] := by
    intro l hl
    cases ha : add with
    | true =>
      rw [hskip ha]
      exact decodeTokens_special hinv hcache fun i hi => h1 i (hl i hi)
    | false =>
      have : l = [] := by
        cases l with
        | nil => rfl
        | cons i l => have := hl i (by simp); rw [h2 ha] at this; cases this
      rw [this]; rfl
  rw [z2]
  simp only [decodeTokens_append]
  rw [hside pre (by simp +contextual), hside mid (by simp +contextual), hside post (by simp +contextual)]
  simp

section
variable {t : Tokenizer} {u : Unicode} {z : Normalizer} {v : CharTables} {l : List PreTokenizer} {r : Bool}
  {re : Str → List Range} {b : Bpe.Bpe} {coins : Str → Nat → Bool}

/-- The bytes of the tokens of one text. -/
theorem splitBytes_alone (h : IsSplitBytes t u z v l r re b coins)
    {build : List (Str × Nat) → Bool} {ops : List Op} (hav : t.added = after build t.view AddedVocab.empty ops)
    (hraw : normsOf ops = [] ∨ ∀ x ∈ tokensOf ops, x.normalized = false)
    (hN : ∀ f ∈ normsOf ops, ∀ s, f s ≠ none)
    (hlit : ∀ x ∈ tokensOf ops, Literal x.content) (hset : Around t.settings (IsSpecialId t.added)) :
    ∃ C1 C2, Carves t.added.trie C1 ∧ Carves t.added.normTrie C2 ∧
      ∀ (s : Str), ∃ x, t.encodeAs .byte (.raw s, none) false = .ok x ∧ ∀ skip : Bool,
        (skip = true → ∀ x ∈ tokensOf ops, x.special = true → b.vocab.get x.content = none) →
        (decodeTokens t.view t.added skip x.ids).flatMap tokBytes = strBytes (readable ops skip (extracted u z C1 C2 s)) := by
  obtain ⟨C1, C2, hC1, hC2, he⟩ := C58_encode h.pipeline
  refine ⟨C1, C2, hC1, hC2, fun s => ?_⟩
  obtain ⟨tss, k1, -⟩ := splitBytes_units h hav hraw hN hlit (skip := false) (fun h => by cases h) (extracted u z C1 C2 s)
    (extracted_found hC1 hC2 s)
  have hno := he s 0 .byte none (by simp)
  rw [k1] at hno
  obtain ⟨e, e1, e2, e3⟩ := hno
  have htr := (around_off hset).1
  have hlim : t.limit 0 = none := by unfold limit; rw [htr]
  have e1' : t.encodeSequence 0 .byte (.raw s) = .ok e := by
    show t.encodeText (t.limit 0) 0 .byte none s = _
    rw [hlim]; exact e1
  have hwf := (encodeSequence_wf (lim := t.limit 0) (i := .raw s) e1' hlim).1
  have hids : e.ids = tss.flatten.map (·.id) := by
    rw [(rows_unzip hwf.parallel).1]
    have := congrArg (List.map Prod.fst) e3
    rw [List.map_map] at this
    rw [show (Prod.fst ∘ Row.bare) = fun r : Encoding.Row => r.1 from rfl] at this
    rw [this]
    exact (unitRows_ids 0 none tss).1
  have hal := alone_ids hset .byte (.raw s) 0
  rw [e1'] at hal
  cases hx : t.encodeAs .byte (.raw s, none) false with
  | error er => rw [hx] at hal; cases hal
  | ok x =>
    rw [hx] at hal
    refine ⟨x, rfl, fun skip hout => ?_⟩
    obtain ⟨tss', k1', k2⟩ := splitBytes_units h hav hraw hN hlit hout (extracted u z C1 C2 s) (extracted_found hC1 hC2 s)
    rw [k1] at k1'
    cases k1'
    have hal := Except.ok.inj hal
    dsimp only at hal
    rw [hal, hids, k2]

/-- **C110.** A pair encoded by a byte-level tokenizer like Llama 3's and Qwen's is decoded to what its first text gives followed by
what its second text gives. -/
theorem C110_text (h : IsSplitBytes t u z v l r re b coins)
    {build : List (Str × Nat) → Bool} {ops : List Op} (hav : t.added = after build t.view AddedVocab.empty ops)
    (hraw : normsOf ops = [] ∨ ∀ x ∈ tokensOf ops, x.normalized = false)
    (hN : ∀ f ∈ normsOf ops, ∀ s, f s ≠ none)
    (hlit : ∀ x ∈ tokensOf ops, Literal x.content) (hset : Around t.settings (IsSpecialId t.added))
    (hpair : Frames (IsSpecialId t.added) t.settings.processor) :
    ∃ C1 C2, Carves t.added.trie C1 ∧ Carves t.added.normTrie C2 ∧
      ∀ (s s' : Str) (add skip : Bool), (add = true → skip = true) →
        (skip = true → ∀ x ∈ tokensOf ops, x.special = true → b.vocab.get x.content = none) →
        ∃ e, t.encode (.raw s, some (.raw s')) add = .ok e ∧ t.decode skip e.ids =
          some (readable ops skip (extracted u z C1 C2 s) ++ readable ops skip (extracted u z C1 C2 s')) := by
  obtain ⟨C1, C2, hC1, hC2, hal⟩ := splitBytes_alone h hav hraw hN hlit hset
  refine ⟨C1, C2, hC1, hC2, fun s s' add skip hskip hout => ?_⟩
  have hm := h.ok
  have hinv : Inv t.view t.added := hav ▸ (after_inv hm build ops (inv_empty _)).1
  have hclean : Clean (tokensOf ops) t.added := by
    rw [hav]
    exact after_clean hm build ops (fun _ h => h) hraw (inv_empty _)
      ⟨rfl, by simp [AddedVocab.empty, AMap.get], by simp [AddedVocab.empty]⟩
  obtain ⟨x, x1, x2⟩ := hal s
  obtain ⟨y, y1, y2⟩ := hal s'
  obtain ⟨e, e1, e2⟩ := C110_tokens hinv hclean.cache hset hpair x1 y1 hskip
  refine ⟨e, e1, ?_⟩
  unfold decode AddedVocab.decode
  rw [h.decoder, e2]
  show (Dec.Decoder.decodeChain t.checked .byteLevel _).map List.flatten = _
  rw [Dec.Decoder.decodeChain]
  show some (List.flatten (ByteLevel.decodeChain _)) = _
  unfold ByteLevel.decodeChain
  rw [show (fun t : Str => (t.mapM charByte).getD (strBytes t)) = tokBytes from rfl, List.flatMap_append, x2 skip hout,
    y2 skip hout, ← strBytes_append, fromUtf8Lossy_strBytes]
  simp

/-- **C110.** If the normalizer changes nothing: the two texts, one behind the other. -/
theorem C110_lossless (h : IsSplitBytes t u z v l r re b coins) (hz : ∀ s, z.text u s = s)
    {build : List (Str × Nat) → Bool} {ops : List Op} (hav : t.added = after build t.view AddedVocab.empty ops)
    (hraw : normsOf ops = [] ∨ ∀ x ∈ tokensOf ops, x.normalized = false)
    (hN : ∀ f ∈ normsOf ops, ∀ s, f s ≠ none)
    (hlit : ∀ x ∈ tokensOf ops, Literal x.content) (hset : Around t.settings (IsSpecialId t.added))
    (hpair : Frames (IsSpecialId t.added) t.settings.processor) (s s' : Str) :
    ∃ e, t.encode (.raw s, some (.raw s')) false = .ok e ∧ t.decode false e.ids = some (s ++ s') := by
  obtain ⟨C1, C2, hC1, hC2, he⟩ := C110_text h hav hraw hN hlit hset hpair
  obtain ⟨e, e1, e2⟩ := he s s' false false (fun h => h) (fun h => by cases h)
  refine ⟨e, e1, ?_⟩
  rw [e2, readable_all, readable_all, extracted_text hz hC1 hC2, extracted_text hz hC1 hC2]

end

/-! ## Samples -/

/-- The byte-level tokenizer of `Lossless.lean` with RoBERTa's post-processor, `<|end|>` (258) for both marks. -/
def pairSample : Tokenizer :=
  { byteSample byteOps with settings := ⟨none, none, some (.roberta ⟨("<|end|>".toList, 258), ("<|end|>".toList, 258)⟩ true false)⟩ }

theorem pairSample_special : IsSpecialId pairSample.added 258 := by
  refine ⟨.ofStr "<|end|>".toList true, ?_, rfl⟩
  decide +kernel

/-- All pairs of texts. -/
example (add : Bool) := C110_pair (t := pairSample)
  (.inl ⟨rfl, rfl, .inr (.inr ⟨_, .inr ⟨_, _, rfl⟩, pairSample_special, pairSample_special⟩)⟩)
  (.roberta pairSample_special pairSample_special) add

example : (pairSample.encode (.raw "he a".toList, some (.raw "é".toList)) true).toOption.map (·.ids) =
    some [258, 257, 256, 258, 258, 195, 169, 258] := by decide +kernel

example : pairSample.decode true [258, 257, 256, 258, 258, 195, 169, 258] = some "he aé".toList := by decide +kernel

end Tokenizer
end Tok
