import Verif.Tokenizer.Truncated
import Verif.Encoding.Props4

/-!
# C112: the overflowing parts of a truncated text
-/

namespace Tok
open Encoding AddedVocab ByteLevel

namespace Encoding

/-- The ids of an encoding and of its overflowing parts. -/
def windows (e : Encoding) : List (List Nat) := e.ids :: e.overflowing.map (·.ids)

theorem mergeWith_over (e p : Encoding) (g : Bool) : (e.mergeWith p g).overflowing.map (·.ids) =
    e.overflowing.flatMap (fun so => (so.ids ++ p.ids) :: p.overflowing.map (so.ids ++ ·.ids)) ++ p.overflowing.map (e.ids ++ ·.ids) := by
  have h : (e.mergeWith p g).overflowing =
      e.overflowing.flatMap (fun so => mergeWith so p g :: p.overflowing.map fun po => mergeWith so po g) ++
        p.overflowing.map fun po => mergeWith e po g := by
    rw [mergeWith]
    have h1 : ∀ {β : Type} (l : List Encoding) (f : Encoding → β), l.attach.map (fun x => f x.1) = l.map f := by
      intro β l f; simp
    have h2 : ∀ {β : Type} (l : List Encoding) (f : Encoding → List β), l.attach.flatMap (fun x => f x.1) = l.flatMap f := by
      intro β l f; simp [List.flatMap_def]
    cases e with
    | mk a b c d f i j ov r =>
    cases p with
    | mk a' b' c' d' f' i' j' ov' r' =>
    have happ : ∀ {x x' y y' : List Encoding}, x = x' → y = y' → x ++ y = x' ++ y' := by
      intro x x' y y' h h'; rw [h, h']
    refine happ ?_ (h1 ov' fun po => mergeWith (.mk a b c d f i j ov r) po g)
    refine Eq.trans (congrArg (fun f => List.flatMap f ov.attach) (funext fun so => congrArg (_ :: ·)
      (h1 ov' fun po => mergeWith so.1 po g))) (h2 ov fun so => mergeWith so (.mk a' b' c' d' f' i' j' ov' r') g ::
        ov'.map fun po => mergeWith so po g)
  rw [h, List.map_append, List.map_flatMap, List.map_map]
  congr 1
  · congr 1
    funext so
    rw [List.map_cons, mergeWith_ids, List.map_map]
    congr 1
    exact List.map_congr_left fun x _ => mergeWith_ids so x g
  · exact List.map_congr_left fun x _ => mergeWith_ids e x g

/-- Something without overflowing parts in front or behind. -/
theorem windows_front {e p : Encoding} (g : Bool) (he : e.overflowing = []) :
    windows (e.mergeWith p g) = (windows p).map (e.ids ++ ·) := by
  unfold windows
  rw [mergeWith_over, mergeWith_ids, he]
  simp [List.map_map, Function.comp_def]

theorem windows_back {e p : Encoding} (g : Bool) (hp : p.overflowing = []) :
    windows (e.mergeWith p g) = (windows e).map (· ++ p.ids) := by
  unfold windows
  rw [mergeWith_over, mergeWith_ids, hp]
  simp [List.map_map, Function.comp_def, List.flatMap_def, List.map_nil]
  induction e.overflowing with
  | nil => rfl
  | cons a l ih => simp [ih]

theorem windows_merge (ls rs : List Encoding) (x : Encoding) (g : Bool) (hl : ∀ e ∈ ls, e.overflowing = [])
    (hr : ∀ e ∈ rs, e.overflowing = []) :
    windows (merge (ls ++ x :: rs) g) = (windows x).map (fun w => ls.flatMap (·.ids) ++ w ++ rs.flatMap (·.ids)) := by
  have back : ∀ (rs : List Encoding) (acc : Encoding), (∀ e ∈ rs, e.overflowing = []) →
      windows (rs.foldl (fun acc s => acc.mergeWith s g) acc) = (windows acc).map (· ++ rs.flatMap (·.ids)) := by
    intro rs
    induction rs with
    | nil => intro acc _; simp
    | cons e es ih =>
      intro acc h
      rw [List.foldl_cons, ih _ fun y hy => h y (by simp [hy]), windows_back g (h e (by simp)), List.map_map]
      simp [Function.comp_def]
  have hm : merge (ls ++ x :: rs) g = rs.foldl (fun acc s => acc.mergeWith s g) ((merge ls g).mergeWith x g) := by
    unfold merge
    rw [List.foldl_append, List.foldl_cons]
  rw [hm, back rs _ hr, windows_front g (merge_whole g hl), merge_ids_flatMap, List.map_map]
  rfl

end Encoding

namespace Tokenizer

/-! ## Post-processing -/

/-- The ids that pieces with special tokens give. -/
def pieceIds (spt : Post.Tokens) (add : Bool) (l : List Post.Piece) : List Nat :=
  l.flatMap fun p => match p with
    | .special id _ => if add then ((spt.get id).map (·.ids)).getD [] else []
    | .sequence _ _ => []

theorem specials_applied {spt : Post.Tokens} (add : Bool) : ∀ (l : List Post.Piece) (es : List Encoding),
    (∀ p ∈ l, ∃ id ty tok, p = .special id ty ∧ spt.get id = some tok) →
    ∃ os, (∀ rest r, Post.applyTemplate spt add es rest = some r → Post.applyTemplate spt add es (l ++ rest) = some (os ++ r)) ∧
      (∀ e ∈ os, e.overflowing = []) ∧ os.flatMap (·.ids) = pieceIds spt add l
  | [], es, _ => ⟨[], fun _ _ h => h, by simp, rfl⟩
  | p :: l, es, h => by
    obtain ⟨id, ty, tok, rfl, hp⟩ := h p (by simp)
    obtain ⟨os, h1, h2, h3⟩ := specials_applied add l es fun q hq => h q (by simp [hq])
    cases add with
    | false =>
      refine ⟨os, fun rest r hr => ?_, h2, ?_⟩
      · rw [List.cons_append, Post.applyTemplate]
        simp only [Post.applyPiece, Bool.false_eq_true, if_false, h1 rest r hr]
        rfl
      · rw [h3]; simp [pieceIds]
    | true =>
      refine ⟨Post.specialEncoding tok ty :: os, fun rest r hr => ?_, ?_, ?_⟩
      · rw [List.cons_append, Post.applyTemplate]
        simp only [Post.applyPiece, if_true, hp, h1 rest r hr]
        rfl
      · intro e he
        rcases List.mem_cons.1 he with rfl | he
        · rfl
        · exact h2 e he
      · rw [List.flatMap_cons, h3]
        simp [pieceIds, hp, Post.specialEncoding]

theorem single_applied {spt : Post.Tokens} (add : Bool) (as bs : List Post.Piece) (ty : Nat)
    (h : ∀ p ∈ as ++ bs, ∃ id ty tok, p = Post.Piece.special id ty ∧ spt.get id = some tok) (e : Encoding) :
    ∃ os, Post.applyTemplate spt add [e] (as ++ .sequence .A ty :: bs) = some os ∧
      windows (merge os false) = (windows e).map (fun w => pieceIds spt add as ++ w ++ pieceIds spt add bs) := by
  obtain ⟨os, h1, h2, h3⟩ := specials_applied add bs [Post.fill 0 ty e] fun p hp => h p (by simp [hp])
  obtain ⟨os', h1', h2', h3'⟩ := specials_applied add as [e] fun p hp => h p (by simp [hp])
  refine ⟨os' ++ Post.fill 0 ty e :: os, h1' _ _ ?_, ?_⟩
  · rw [Post.applyTemplate]
    show (Post.applyTemplate spt add [Post.fill 0 ty e] bs).map _ = _
    have := h1 [] [] rfl
    rw [List.append_nil, List.append_nil] at this
    rw [this]; rfl
  · rw [windows_merge os' os (Post.fill 0 ty e) false h2' h2, h3, h3']
    have hw : windows (Post.fill 0 ty e) = windows e := by cases e; rfl
    rw [hw]

/-- What processors that put special tokens around one text make of an encoding and its overflowing parts. -/
theorem around_windows {s : Post.Settings} {special : Nat → Prop} (h : Around s special) (ws : Char → Bool) (add : Bool) :
    ∃ pre post, (∀ i ∈ pre ++ post, special i) ∧ (add = false → pre ++ post = []) ∧
      ∀ e : Encoding, ∃ out, s.finish ws e none add = some out ∧ windows out = (windows e).map (fun w => pre ++ w ++ post) := by
  -- one processor
  have hprep : ∀ i e, windows (Post.prepare i e) = windows e := by
    intro i e
    unfold windows
    rw [prepare_ids, Post.prepare_overflowing, List.map_map]
    congr 1
    exact List.map_congr_left fun x _ => by cases x; rfl
  have hone : ∀ e, windows (merge [e] false) = windows e := by
    intro e
    have := windows_merge [] [] e false (by simp) (by simp)
    rw [List.nil_append] at this
    rw [this]; simp
  have hset : ∀ q e, windows (setSequenceId e q) = windows e := by intro q e; cases e; rfl
  have htrim : ∀ aps e, windows (withOverflowing (fun ov => ov.map (processOffsets ws aps)) (processOffsets ws aps e)) = windows e := by
    intro aps e
    have h1 : ∀ (f : List Encoding → List Encoding) (e : Encoding), (withOverflowing f e).overflowing = f e.overflowing := by
      intro f e; cases e; rfl
    unfold windows
    rw [withOverflowing_ids, processOffsets_ids, h1, Post.processOffsets_overflowing, List.map_map]
    congr 1
    exact List.map_congr_left fun x _ => processOffsets_ids ws aps x
  have hbytes : ∀ aps trim e, ∃ e', ByteLevel.processEncodings ws aps trim [e] = [e'] ∧ windows e' = windows e := by
    intro aps trim e
    cases trim with
    | false => exact ⟨_, rfl, hset 0 e⟩
    | true =>
      refine ⟨_, rfl, ?_⟩
      show windows (setSequenceId _ 0) = _
      rw [hset]
      exact htrim aps e
  have surr : ∀ {s : Post.Settings}, Surrounds s special → ∃ pre post, (∀ i ∈ pre ++ post, special i) ∧ (add = false → pre ++ post = []) ∧
      ∀ e : Encoding, (∃ out, s.finish ws e none add = some out ∧ windows out = (windows e).map (fun w => pre ++ w ++ post)) ∧
        ∀ q, s.processor = some q → ∃ os, q.processEncodings ws add [e] = some os ∧
          windows (merge os false) = (windows e).map (fun w => pre ++ w ++ post) := by
    intro s h
    -- it is enough to look at the processor
    have enough : ∀ {q pre post}, s.processor = some q → (∀ e, ∃ os, q.processEncodings ws add [e] = some os ∧
          windows (merge os false) = (windows e).map (fun w => pre ++ w ++ post)) →
        ∀ e : Encoding, (∃ out, s.finish ws e none add = some out ∧ windows out = (windows e).map (fun w => pre ++ w ++ post)) ∧
        ∀ q, s.processor = some q → ∃ os, q.processEncodings ws add [e] = some os ∧
          windows (merge os false) = (windows e).map (fun w => pre ++ w ++ post) := by
      intro q pre post hq h e
      refine ⟨?_, fun q' hq' => ?_⟩
      · obtain ⟨os, h1, h2⟩ := h (Post.prepare 0 e)
        refine ⟨merge os false, ?_, by rw [h2, hprep]⟩
        unfold Post.Settings.finish
        rw [hq]
        show (q.processEncodings ws add [Post.prepare 0 e]).map _ = _
        rw [h1]; rfl
      · rw [hq] at hq'
        cases hq'
        exact h e
    obtain ⟨_, _, h3⟩ := h
    rcases h3 with (h3 | ⟨aps, trim, h3⟩) | ⟨tm, as, ty, bs, h3, h4, h5⟩ | ⟨m, h3, h4, h5⟩
    · refine ⟨[], [], by simp, by simp, fun e => ⟨⟨e, ?_, by simp⟩, fun q hq => by rw [h3] at hq; cases hq⟩⟩
      unfold Post.Settings.finish
      rw [h3]; rfl
    · refine ⟨[], [], by simp, by simp, enough h3 fun e => ?_⟩
      obtain ⟨e', g1, g2⟩ := hbytes aps trim e
      exact ⟨[e'], by rw [Post.Proc.processEncodings, g1], by rw [hone, g2]; simp⟩
    · have hids : ∀ l : List Post.Piece, (∀ p ∈ l, p ∈ as ++ bs) →
          (∀ i ∈ pieceIds tm.specials add l, special i) ∧ (add = false → pieceIds tm.specials add l = []) := by
        intro l hl
        refine ⟨fun i hi => ?_, fun ha => ?_⟩
        · obtain ⟨p, hp, hi⟩ := List.mem_flatMap.1 hi
          obtain ⟨id, ty', tok, rfl, k1, _, k3⟩ := h5 p (hl p hp)
          simp only [k1] at hi
          split at hi
          · exact k3 i hi
          · cases hi
        · unfold pieceIds
          rw [List.flatMap_eq_nil_iff]
          intro p hp
          obtain ⟨id, ty', tok, rfl, _⟩ := h5 p (hl p hp)
          simp [ha]
      have ha := hids as (by simp +contextual)
      have hb := hids bs (by simp +contextual)
      refine ⟨pieceIds tm.specials add as, pieceIds tm.specials add bs, fun i hi => ?_, fun h => ?_, enough h3 fun e => ?_⟩
      · rcases List.mem_append.1 hi with hi | hi
        · exact ha.1 i hi
        · exact hb.1 i hi
      · rw [ha.2 h, hb.2 h]; rfl
      · obtain ⟨os, g1, g2⟩ := single_applied (spt := tm.specials) add as bs ty (fun p hp => by
          obtain ⟨id, ty', tok, h, k1, _⟩ := h5 p hp
          exact ⟨id, ty', tok, h, k1⟩) e
        refine ⟨os, ?_, g2⟩
        show Post.Template.processEncodings tm add [e] = _
        unfold Post.Template.processEncodings
        show Post.applyTemplate tm.specials add [e] tm.single = _
        rw [h4, g1]
    · refine ⟨if add then [m.cls.2] else [], if add then [m.sep.2] else [], by cases add <;> simp [h4, h5], fun ha => by simp [ha], ?_⟩
      rcases h3 with h3 | ⟨trim, aps, h3⟩
      · refine enough h3 fun e => ⟨_, rfl, ?_⟩
        cases add with
        | false =>
          show windows (merge [e] false) = _
          rw [hone]; simp
        | true =>
          show windows (merge [Post.bertFirst m e] false) = _
          rw [hone]
          simp [windows, Post.bertFirst, Post.surround, Encoding.ids, Encoding.overflowing, Function.comp_def]
      · refine enough h3 fun e => ⟨_, rfl, ?_⟩
        have hty : ∀ (e : Encoding) l, windows (e.setTypeIds l) = windows e := by intro e l; cases e; rfl
        have hmain : ∀ e, windows (Post.robertaFirst m e) = (windows e).map (fun w => [m.cls.2] ++ w ++ [m.sep.2]) := by
          intro e
          simp [windows, Post.robertaFirst, Post.surround, Encoding.ids, Encoding.overflowing, Function.comp_def]
        cases add <;> cases trim
        · show windows (merge [setTypeIds e _] false) = _
          rw [hone, hty]; simp
        · show windows (merge [setTypeIds (Post.trimAll ws aps e) _] false) = _
          rw [hone, hty, show windows (Post.trimAll ws aps e) = windows e from htrim aps e]; simp
        · show windows (merge [Post.robertaFirst m (setTypeIds e _)] false) = _
          rw [hone, hmain, hty]; rfl
        · show windows (merge [Post.robertaFirst m (setTypeIds (Post.trimAll ws aps e) _)] false) = _
          rw [hone, hmain, hty, show windows (Post.trimAll ws aps e) = windows e from htrim aps e]; rfl
  rcases h with h | ⟨aps, trim, q, rfl, h⟩
  · obtain ⟨pre, post, h1, h2, h3⟩ := surr h
    exact ⟨pre, post, h1, h2, fun e => (h3 e).1⟩
  · obtain ⟨pre, post, h1, h2, h3⟩ := surr h
    refine ⟨pre, post, h1, h2, fun e => ?_⟩
    obtain ⟨e', g1, g2⟩ := hbytes aps trim (Post.prepare 0 e)
    obtain ⟨os, k1, k2⟩ := (h3 e').2 q rfl
    refine ⟨merge os false, ?_, by rw [k2, g2, hprep]⟩
    show (Post.Proc.processEncodings ws add (.sequence [.byteLevel aps trim, q]) [Post.prepare 0 e]).map _ = _
    rw [Post.Proc.processEncodings, Post.processAll, Post.Proc.processEncodings, g1]
    show (Post.processAll ws add [q] [e']).map _ = _
    rw [Post.processAll, k1]
    rfl

/-! ## Windows sliding over a list -/

/-- The windows `W` of at most `n` places slide over `P`, cut on the right: the first one is the beginning; the others, each without
its first `stride` places, continue it to the end; each but the last one is full, and its last `stride` places are repeated at the
beginning of the next one. Cut on the left: the same from the end. -/
def Slides (d : Direction) (n stride : Nat) (P : List Nat) (W : List (List Nat)) : Prop :=
  match d with
  | .right => ∃ ws, W = P.take n :: ws ∧ P.take n ++ (ws.map (·.drop stride)).flatten = P ∧
      (∀ w ∈ ws, stride < w.length ∧ w.length ≤ n) ∧
      Consecutive (fun a b => a.length = n ∧ a.drop (n - stride) = b.take stride) W
  | .left => ∃ ws, W = P.drop (P.length - n) :: ws ∧
      (ws.reverse.map fun w => w.take (w.length - stride)).flatten ++ P.drop (P.length - n) = P ∧
      (∀ w ∈ ws, stride < w.length ∧ w.length ≤ n) ∧
      Consecutive (fun a b => a.length = n ∧ a.take stride = b.drop (b.length - stride)) W

theorem consecutive_map {α β : Type} {R : α → α → Prop} {S : β → β → Prop} {f : α → β} {l : List α} (h : Consecutive R l)
    (hf : ∀ a ∈ l, ∀ b ∈ l, R a b → S (f a) (f b)) : Consecutive S (l.map f) := by
  intro i x y hx hy
  rw [List.getElem?_map] at hx hy
  obtain ⟨a, ha, rfl⟩ := Option.map_eq_some_iff.1 hx
  obtain ⟨b, hb, rfl⟩ := Option.map_eq_some_iff.1 hy
  exact hf a (List.mem_of_getElem? ha) b (List.mem_of_getElem? hb) (h i a b ha hb)

theorem truncate_slides {e c : Encoding} (hwf : e.WF) (ho : e.overflowing = []) {n stride : Nat} {d : Direction} (h0 : 0 < n)
    (hc : e.truncate n stride d = some c) : Slides d n stride e.ids (windows c) := by
  have hids : ∀ {x : Encoding}, x.Parallel → x.ids = x.rows.map (·.1) := fun h => (rows_unzip h).1
  have hlen : ∀ {x : Encoding}, x.ids.length = x.len := rfl
  by_cases hl : n < e.len
  · have hkept := kept_ids hwf hc
    have hcwf := truncate_wf hwf hc
    cases d with
    | right =>
      obtain ⟨r1, r2, r3⟩ := C02_truncate_right hwf h0 hl hc
      refine ⟨c.overflowing.map (·.ids), by rw [← show c.ids = e.ids.take n from hkept]; rfl, ?_, ?_, ?_⟩
      · have := congrArg (List.map fun r : Row => r.1) r2
        rw [List.map_append, ← hids hcwf.parallel, ← hids hwf.parallel, List.map_flatten, List.map_map] at this
        rw [← show c.ids = e.ids.take n from hkept, List.map_map]
        refine Eq.trans ?_ this
        congr 2
        refine List.map_congr_left fun o ho => ?_
        simp only [Function.comp, hids (r3 o ho).2.2.1, List.map_drop]
      · intro w hw
        obtain ⟨o, ho, rfl⟩ := List.mem_map.1 hw
        exact ⟨(r3 o ho).1, (r3 o ho).2.1⟩
      · have := C02_overlap_right hwf h0 hl hc
        refine consecutive_map (f := Encoding.ids) (S := fun a b : List Nat => a.length = n ∧ a.drop (n - stride) = b.take stride) this fun a ha b hb hab => ⟨hab.1, ?_⟩
        have hp : ∀ x ∈ c :: c.overflowing, x.Parallel := by
          intro x hx
          rcases List.mem_cons.1 hx with rfl | hx
          · exact hcwf.parallel
          · exact (r3 x hx).2.2.1
        rw [hids (hp a ha), hids (hp b hb), ← List.map_drop, hab.2, List.map_take]
    | left =>
      obtain ⟨r1, r2, r3⟩ := C02_truncate_left hwf h0 hl hc
      refine ⟨c.overflowing.map (·.ids), by rw [← show c.ids = e.ids.drop (e.ids.length - n) from hkept]; rfl, ?_, ?_, ?_⟩
      · have := congrArg (List.map fun r : Row => r.1) r2
        rw [List.map_append, ← hids hcwf.parallel, ← hids hwf.parallel, List.map_flatten, List.map_map] at this
        rw [← show c.ids = e.ids.drop (e.ids.length - n) from hkept, ← List.map_reverse, List.map_map]
        refine Eq.trans ?_ this
        congr 2
        refine List.map_congr_left fun o ho => ?_
        have hp := (r3 o (by simpa using ho)).2.2.1
        simp only [Function.comp]
        rw [List.map_take, ← hids hp, hlen]
      · intro w hw
        obtain ⟨o, ho, rfl⟩ := List.mem_map.1 hw
        exact ⟨(r3 o ho).1, (r3 o ho).2.1⟩
      · have := C02_overlap_left hwf h0 hl hc
        refine consecutive_map (f := Encoding.ids) (S := fun a b : List Nat => a.length = n ∧ a.take stride = b.drop (b.length - stride)) this fun a ha b hb hab => ⟨hab.1, ?_⟩
        have hp : ∀ x ∈ c :: c.overflowing, x.Parallel := by
          intro x hx
          rcases List.mem_cons.1 hx with rfl | hx
          · exact hcwf.parallel
          · exact (r3 x hx).2.2.1
        rw [hlen, hids (hp a ha), hids (hp b hb), ← List.map_take, hab.2, List.map_drop]
  · rw [C02_truncate_fits e n stride d (by omega)] at hc
    cases hc
    have hle : e.ids.length ≤ n := by rw [hlen]; omega
    have hw : windows e = [e.ids] := by unfold windows; rw [ho]; rfl
    have hcons : ∀ R : List Nat → List Nat → Prop, Consecutive R [e.ids] := by
      intro R i x y _ hy
      simp at hy
    rw [hw]
    cases d with
    | right => exact ⟨[], by rw [List.take_of_length_le hle], by rw [List.take_of_length_le hle]; simp, by simp, hcons _⟩
    | left =>
      have : e.ids.drop (e.ids.length - n) = e.ids := by rw [show e.ids.length - n = 0 by omega]; rfl
      exact ⟨[], by rw [this], by rw [this]; simp, by simp, hcons _⟩

/-! ## The part of the text that is tokenized -/

theorem items_ids (original : Str) (word : Option Nat) (typeId : Nat) (ty : PTS.OffsetType) : ∀ (ss : List Split) (i : Nat),
    (PTS.items original word typeId ty i ss).map (·.1) = ss.flatMap fun s => (s.tokens.getD []).map (·.id) := by
  intro ss
  induction ss with
  | nil => intro i; cases ty <;> rfl
  | cons s ss ih =>
    intro i
    have ih := ih (i + 1)
    cases ty <;> simp_all [PTS.items, PTS.encodingItems, List.map_flatMap, Function.comp_def]

/-- A beginning, or an end. -/
def IsPart (d : Direction) (P l : List Nat) : Prop :=
  match d with
  | .right => P <+: l
  | .left => P <:+ l

theorem doTokenize_part {t : Tokenizer} {p : PTS} {typeId : Nat} {word : Option Nat} {ty : PTS.OffsetType}
    {e : Encoding} (h : t.doTokenize none p typeId word ty = .ok e) (n : Nat) (d : Direction) :
    ∃ e', t.doTokenize (some (n, d)) p typeId word ty = .ok e' ∧ e'.WF ∧ IsPart d e'.ids e.ids ∧
      (e'.ids = e.ids ∨ n ≤ e'.ids.length) := by
  unfold doTokenize tokenizeIn at h ⊢
  simp only at h ⊢
  cases hP : p.tokenize (fun n => t.model n.norm) with
  | error er => rw [hP] at h; cases h
  | ok P =>
    rw [hP] at h
    simp only [Except.bind] at h
    obtain ⟨h0, hm⟩ := PTS.tokenize_ok_iff.1 hP
    have hall := PTS.tokenize_all hP
    rw [PTS.intoEncoding_items hall] at h
    cases h
    have hid : ∀ xs : List (Nat × Str × Range × Option Nat × Nat), (Encoding.fromItems xs).ids = xs.map (·.1) := fun _ => rfl
    have hcnt : ∀ ss : List Split, (ss.flatMap fun s => (s.tokens.getD []).map (·.id)).length = PTS.count ss := by
      intro ss
      induction ss with
      | nil => rfl
      | cons s ss ih => rw [List.flatMap_cons, List.length_append, ih, PTS.count_cons, List.length_map]
    cases d with
    | right =>
      obtain ⟨a, b, h1, h2, h3⟩ := PTS.limitLoop_prefix _ n _ _ 0 hm
      have h4 : p.tokenizeWithLimit (fun n => t.model n.norm) n .right = .ok ⟨p.original, a⟩ := by
        simp only [PTS.tokenizeWithLimit, h2]; rfl
      have h5 := PTS.intoEncoding_items (p := ⟨p.original, a⟩) (fun s hs => hall s (by rw [h1]; simp [show s ∈ a from hs])) word typeId ty
      refine ⟨_, by rw [h4]; simp only [Except.bind, h5, mapErr], intoEncoding_wf h5, ?_, ?_⟩
      · rw [hid, hid, items_ids, items_ids, h1, List.flatMap_append]
        exact ⟨_, rfl⟩
      · rw [hid, hid, items_ids, items_ids, h1, List.flatMap_append, hcnt]
        rcases h3 with rfl | h3
        · exact .inl (by simp)
        · exact .inr (by simpa using h3)
    | left =>
      obtain ⟨a, b, h1, h2, h3⟩ := PTS.limitLoop_prefix _ n _ _ 0 (PTS.mapUntokenized_reverse _ hm)
      have h1' : P.splits = b.reverse ++ a.reverse := by
        have := congrArg List.reverse h1; simpa using this
      have h4 : p.tokenizeWithLimit (fun n => t.model n.norm) n .left = .ok ⟨p.original, a.reverse⟩ := by
        simp only [PTS.tokenizeWithLimit, h2]; rfl
      have h5 := PTS.intoEncoding_items (p := ⟨p.original, a.reverse⟩)
        (fun s hs => hall s (by rw [h1']; simp [show s ∈ a by simpa using hs])) word typeId ty
      have hrev : PTS.count a.reverse = PTS.count a := by
        unfold PTS.count; rw [List.map_reverse]; exact List.sum_reverse ..
      refine ⟨_, by rw [h4]; simp only [Except.bind, h5, mapErr], intoEncoding_wf h5, ?_, ?_⟩
      · rw [hid, hid, items_ids, items_ids, h1', List.flatMap_append]
        exact ⟨_, rfl⟩
      · rw [hid, hid, items_ids, items_ids, h1', List.flatMap_append, hcnt]
        simp only [hrev]
        rcases h3 with rfl | h3
        · exact .inl (by simp)
        · exact .inr (by simpa using h3)

/-! ## C112 -/

/-- **C112.** With truncation turned on, the encoding of a text and its overflowing parts are windows of at most `n` ids, each
between the same special ids, that slide with the given stride over the ids `P` of a beginning of the text (an end, if cut on the
left). `P` is all that the text gives without truncation, or at least as long as the limit. -/
theorem C112_windows_partial {t : Tokenizer} (hset : Around t.settings (IsSpecialId t.added)) (hwc : t.settings.WellCounted) (add : Bool) :
    ∃ pre post, (∀ i ∈ pre ++ post, IsSpecialId t.added i) ∧ (add = false → pre ++ post = []) ∧
      ∀ (tr : TruncParams) (n : Nat), tr.strategy ≠ .onlySecond → tr.maxLength = pre.length + n + post.length →
        tr.stride < n →
        ∀ (ty : PTS.OffsetType) (s : Str) (x : Encoding), t.encodeAs ty (.raw s, none) false = .ok x →
          ∃ z P W, (t.truncating tr).encodeAs ty (.raw s, none) add = .ok z ∧ windows z = W.map (fun w => pre ++ w ++ post) ∧
            Slides tr.direction n tr.stride P W ∧ IsPart tr.direction P x.ids ∧ (P = x.ids ∨ tr.maxLength ≤ P.length) := by
  obtain ⟨pre, post, h1, h2, h3⟩ := around_windows hset t.ws add
  have hcount : pre.length + post.length = t.settings.inserted none add := by
    obtain ⟨out, o1, o2⟩ := Post.finish_len t.ws hwc Encoding.empty none add
    obtain ⟨out', p1, p2⟩ := h3 Encoding.empty
    rw [o1] at p1
    cases p1
    have := congrArg List.length (List.cons.inj p2).1
    simp only [List.length_append] at this
    have hl : ∀ e : Encoding, e.len = e.ids.length := fun _ => rfl
    rw [hl] at o2
    have he : Encoding.empty.ids.length = 0 := rfl
    have he' : Encoding.empty.len = 0 := rfl
    simp only [Option.elim_none] at o2
    omega
  refine ⟨pre, post, h1, h2, fun tr n hst hmax hstride ty s x hx => ?_⟩
  obtain ⟨e, e1, e2, e3, e4⟩ := alone_sequence hset hx 0
  have hlim : (t.truncating tr).limit 0 = some (tr.maxLength, tr.direction) :=
    (limit_eq (t := t.truncating tr) (tr := tr) rfl 0).2 fun h => hst h.1
  obtain ⟨e', f1, f2, f3, f4⟩ : ∃ e', (t.truncating tr).encodeSequence 0 ty (.raw s) = .ok e' ∧ e'.WF ∧
      IsPart tr.direction e'.ids e.ids ∧ (e'.ids = e.ids ∨ tr.maxLength ≤ e'.ids.length) := by
    have e1 : t.encodeText none 0 ty none s = .ok e := e1
    unfold encodeSequence
    rw [hlim]
    show ∃ e', t.encodeText (some (tr.maxLength, tr.direction)) 0 ty none s = .ok e' ∧ _
    unfold encodeText at e1 ⊢
    cases hp : t.preTokenized s with
    | error er => rw [hp] at e1; cases e1
    | ok p =>
      rw [hp] at e1
      exact doTokenize_part e1 _ _
  have hwhole : e'.overflowing = [] := encodeSequenceWith_whole f1
  obtain ⟨c, c1, c2⟩ := truncateEncodings_one f2 (p := { tr with maxLength := n }) hst (.inl hstride)
  simp only at c2
  obtain ⟨out, o1, o2⟩ := h3 c
  have hins : (t.truncating tr).settings.inserted none add = pre.length + post.length := hcount.symm
  refine ⟨out, e'.ids, windows c, ?_, o2, truncate_slides f2 hwhole (by omega) c2, by rw [← e4]; exact f3, by rw [← e4]; exact f4⟩
  unfold encodeAs encodeBy
  simp only [f1, Except.bind, optional]
  unfold Post.Settings.postProcess
  rw [Post.truncate_room (tr := tr) rfl (by rw [hins]; omega), hins,
    show tr.maxLength - (pre.length + post.length) = n by omega, c1]
  simp only
  have ho : (t.truncating tr).settings.finish (t.truncating tr).ws c none add = some out := o1
  rw [ho]
  simp only [mapErr]
  unfold Post.Settings.padOne
  have : (t.truncating tr).settings.padding = none := (around_off hset).2
  rw [this]

/-- **C112.** If the whole text has no more ids than the limit (that counts the special tokens too), the windows slide over all of
them. -/
theorem C112_all {t : Tokenizer} (hset : Around t.settings (IsSpecialId t.added)) (hwc : t.settings.WellCounted) (add : Bool) :
    ∃ pre post, (∀ i ∈ pre ++ post, IsSpecialId t.added i) ∧ (add = false → pre ++ post = []) ∧
      ∀ (tr : TruncParams) (n : Nat), tr.strategy ≠ .onlySecond → tr.maxLength = pre.length + n + post.length →
        tr.stride < n →
        ∀ (ty : PTS.OffsetType) (s : Str) (x : Encoding), t.encodeAs ty (.raw s, none) false = .ok x →
          x.ids.length ≤ tr.maxLength →
          ∃ z W, (t.truncating tr).encodeAs ty (.raw s, none) add = .ok z ∧ windows z = W.map (fun w => pre ++ w ++ post) ∧
            Slides tr.direction n tr.stride x.ids W := by
  obtain ⟨pre, post, h1, h2, h3⟩ := C112_windows_partial hset hwc add
  refine ⟨pre, post, h1, h2, fun tr n hst hmax hstride ty s x hx hle => ?_⟩
  obtain ⟨z, P, W, z1, z2, z3, z4, z5⟩ := h3 tr n hst hmax hstride ty s x hx
  have : P = x.ids := by
    rcases z5 with h | h
    · exact h
    · unfold IsPart at z4
      split at z4
      · exact z4.eq_of_length (by have := z4.length_le; omega)
      · exact z4.eq_of_length (by have := z4.length_le; omega)
  subst this
  exact ⟨z, W, z1, z2, z3⟩

/-! ## Samples -/

/-- All texts. -/
example (add : Bool) := C112_windows_partial pairSample_around pairSample_counted add
example (add : Bool) := C112_all pairSample_around pairSample_counted add

/-- One word of five letters: all of it, in windows of three that overlap in one. -/
example : ((pairSample.truncating ⟨5, .longestFirst, 1, .right⟩).encode (.raw "abcde".toList, none) true).toOption.map windows =
      some [[258, 97, 98, 99, 258], [258, 99, 100, 101, 258]] ∧
    Slides .right 3 1 [97, 98, 99, 100, 101] [[97, 98, 99], [99, 100, 101]] := by
  refine ⟨by decide +kernel, [[99, 100, 101]], rfl, rfl, by decide, ?_⟩
  intro i x y hx hy
  match i with
  | 0 => cases hx; cases hy; exact ⟨rfl, rfl⟩
  | i + 1 => simp at hy

/-- **C112 (negation).** What comes after the pieces that fill the limit is in no window: of `ab<|end|>cd` with two places only
`ab` is left, and there are no overflowing parts. -/
theorem C112_lost :
    (pairSample.encode (.raw "ab<|end|>cd".toList, none) false).toOption.map (·.ids) = some [97, 98, 258, 99, 100] ∧
    ((pairSample.truncating ⟨2, .longestFirst, 0, .right⟩).encode (.raw "ab<|end|>cd".toList, none) false).toOption.map windows =
      some [[97, 98]] ∧
    ¬ Slides .right 2 0 [97, 98, 258, 99, 100] [[97, 98]] := by
  refine ⟨by decide +kernel, by decide +kernel, ?_⟩
  rintro ⟨ws, h1, h2, -⟩
  have : ws = [] := by simpa using h1.symm
  subst this
  simp at h2

end Tokenizer
end Tok
