import Verif.Tokenizer.EncodeSpecial
import Verif.Tokenizer.Exact

/-!
# C114: added tokens change nothing for texts in which they do not occur
-/

namespace Tok
open Encoding
namespace AddedVocab

/-! ## Patterns that do not occur -/

theorem longest_same {P Q : List (Str × Nat)} (hf : ∀ a i j, (a, i) ∈ P → (a, j) ∈ P → i = j) {s : Str}
    (h : ∀ p : Str × Nat, p.1 <+: s → (p ∈ P ↔ p ∈ Q)) : longest P s = longest Q s := by
  cases hp : longest P s with
  | none =>
    have h1 := longest_none hp
    cases hq : longest Q s with
    | none => rfl
    | some q =>
      obtain ⟨q1, q2, _⟩ := longest_some hq
      exact absurd q2 (h1 q ((h q q2).2 q1))
  | some p =>
    obtain ⟨p1, p2, p3⟩ := longest_some hp
    cases hq : longest Q s with
    | none => exact absurd p2 (longest_none hq p ((h p p2).1 p1))
    | some q =>
      obtain ⟨q1, q2, q3⟩ := longest_some hq
      have hqp := (h q q2).2 q1
      have hl : p.1.length = q.1.length := Nat.le_antisymm (q3 p ((h p p2).1 p1) p2) (p3 q hqp q2)
      have he : p.1 = q.1 := by
        rw [List.prefix_iff_eq_take] at p2 q2
        rw [p2, q2, hl]
      have hi : p.2 = q.2 := hf p.1 _ _ p1 (by rw [he]; exact hqp)
      rw [Prod.ext he hi]

theorem scan_same {P Q : List (Str × Nat)} (hf : ∀ a i j, (a, i) ∈ P → (a, j) ∈ P → i = j) : ∀ (s : Str) (pos k : Nat),
    (∀ p : Str × Nat, p.1 <:+: s → (p ∈ P ↔ p ∈ Q)) → scan P pos k s = scan Q pos k s
  | [], _, _, _ => by simp [scan]
  | c :: cs, pos, k, h => by
    have hcs : ∀ p : Str × Nat, p.1 <:+: cs → (p ∈ P ↔ p ∈ Q) := fun p hp => h p (hp.trans (List.suffix_cons c cs).isInfix)
    cases k with
    | succ k => rw [scan, scan]; exact scan_same hf cs _ _ hcs
    | zero =>
      rw [scan, scan, longest_same hf (s := c :: cs) fun p hp => h p hp.isInfix]
      split
      · rw [scan_same hf cs _ _ hcs]
      · exact scan_same hf cs _ _ hcs

theorem scan_occurs {P : List (Str × Nat)} : ∀ (s : Str) (pos k : Nat), ∀ x ∈ scan P pos k s,
    ∃ a, (a, x.2.2) ∈ P ∧ a <:+: s
  | [], _, _, x, h => by simp [scan] at h
  | c :: cs, pos, k, x, h => by
    have hcs : ∀ {a : Str}, a <:+: cs → a <:+: c :: cs := fun ha => ha.trans (List.suffix_cons c cs).isInfix
    cases k with
    | succ k =>
      rw [scan] at h
      obtain ⟨a, h1, h2⟩ := scan_occurs cs _ _ x h
      exact ⟨a, h1, hcs h2⟩
    | zero =>
      rw [scan] at h
      cases hl : longest P (c :: cs) with
      | none =>
        rw [hl] at h
        obtain ⟨a, h1, h2⟩ := scan_occurs cs _ _ x h
        exact ⟨a, h1, hcs h2⟩
      | some p =>
        rw [hl] at h
        rcases List.mem_cons.1 h with rfl | h
        · obtain ⟨h1, h2, _⟩ := longest_some hl
          exact ⟨p.1, h1, h2.isInfix⟩
        · obtain ⟨a, h1, h2⟩ := scan_occurs cs _ _ x h
          exact ⟨a, h1, hcs h2⟩

/-- An id stands for the same token, special or not, in both. -/
def SameToken (av av' : AddedVocab) (i : Nat) : Prop :=
  av.rmap.get i = av'.rmap.get i ∧ ∀ t, av.rmap.get i = some t → (t.content ∈ av.specials ↔ t.content ∈ av'.specials)

theorem findLoop_same {cl : Classes} {av av' : AddedVocab} (he : av.encodeSpecial = av'.encodeSpecial) {s : Str} :
    ∀ (ms : List (Nat × Nat × Nat)) (off : Nat), (∀ x ∈ ms, SameToken av av' x.2.2) →
      findLoop cl av s off ms = findLoop cl av' s off ms
  | [], _, _ => rfl
  | x :: ms, off, h => by
    obtain ⟨h1, h2⟩ := h x List.mem_cons_self
    have hs : matchStep cl av s off x = matchStep cl av' s off x := by
      unfold matchStep
      rw [← h1]
      cases hx : av.rmap.get x.2.2 with
      | none => rfl
      | some t =>
        have e : (av.encodeSpecial = true ∧ t.content ∈ av.specials) ↔ (av'.encodeSpecial = true ∧ t.content ∈ av'.specials) := by
          rw [he, h2 t hx]
        cases takeBytes x.1 s with
        | none => rfl
        | some b =>
          cases dropBytes x.2.1 s with
          | none => rfl
          | some a => simp only [e]
    rw [findLoop, findLoop, hs]
    congr 1
    funext r
    rw [findLoop_same he ms r.2 fun y hy => h y (by simp [hy])]

theorem findMatches_scan (cl : Classes) (av : AddedVocab) (pats : List (Str × Nat)) (s : Str) :
    findMatches cl av pats s = if s = [] then some [(none, (0, 0))] else findLoop cl av s 0 (scan pats 0 0 s) := by
  unfold findMatches
  by_cases hs : s = []
  · rw [if_pos hs, if_pos hs]
  · rw [if_neg hs, if_neg hs]
    by_cases hp : pats = []
    · have : ∀ (s : Str) (pos : Nat), scan [] pos 0 s = [] := by
        intro s
        induction s with
        | nil => intro pos; simp [scan]
        | cons c s ih => intro pos; rw [scan]; simpa [longest] using ih _
      rw [if_pos hp, hp, this, findLoop, if_pos]
      have := blen_pos hs; omega
    · rw [if_neg hp]

theorem splitWithIndices_same {cl : Classes} {av av' : AddedVocab} (he : av.encodeSpecial = av'.encodeSpecial)
    {P Q : List (Str × Nat)} (hf : ∀ a i j, (a, i) ∈ Q → (a, j) ∈ Q → i = j) {n : NS}
    (h : ∀ p : Str × Nat, p.1 <:+: n.norm → (p ∈ P ↔ p ∈ Q)) (ht : ∀ p ∈ P, SameToken av av' p.2) :
    splitWithIndices cl av P n = splitWithIndices cl av' Q n := by
  unfold splitWithIndices
  rw [findMatches_scan, findMatches_scan, scan_same hf n.norm 0 0 fun p hp => (h p hp).symm]
  by_cases hs : n.norm = []
  · rw [if_pos hs, if_pos hs]
  · rw [if_neg hs, if_neg hs, findLoop_same he]
    intro x hx
    obtain ⟨a, h1, h2⟩ := scan_occurs n.norm 0 0 x hx
    exact ht _ h1

theorem splitLoop_same {f g : Nat → NS → Except Unit (List Split)} : ∀ (l : List Split) (i : Nat),
    (∀ i, ∀ x ∈ l, x.tokens = none → f i x.normalized = g i x.normalized) → PTS.splitLoop f i l = PTS.splitLoop g i l
  | [], _, _ => rfl
  | x :: l, i, h => by
    rw [PTS.splitLoop, PTS.splitLoop, splitLoop_same l (i + 1) fun i y hy => h i y (by simp [hy])]
    cases hx : x.tokens with
    | some ts => rfl
    | none => rw [h i x List.mem_cons_self hx]

theorem toSplit_part {n : NS} : ∀ {l : List (Option Nat × Range)} {out : List Split}, l.mapM (toSplit n) = some out →
    ∀ x ∈ out, ∃ r, n.sliceNormalized r = some (some x.normalized)
  | [], out, h, x, hx => by cases h; cases hx
  | a :: l, out, h, x, hx => by
    rw [List.mapM_cons] at h
    cases ha : toSplit n a with
    | none => rw [ha] at h; cases h
    | some y =>
      cases hr : l.mapM (toSplit n) with
      | none => rw [ha, hr] at h; cases h
      | some ys =>
        rw [ha, hr] at h
        cases h
        rcases List.mem_cons.1 hx with rfl | hx
        · unfold toSplit at ha
          split at ha
          · rename_i sl hsl
            cases ha
            exact ⟨_, hsl⟩
          · cases ha
        · exact toSplit_part hr x hx

/-- **Two added vocabularies** with the same patterns, as far as they occur in the text or in its normalized parts, and the same
tokens for them, cut a text alike. -/
theorem extract_same {cl : Classes} {av av' : AddedVocab} (he : av.encodeSpecial = av'.encodeSpecial)
    (hf : ∀ a i j, (a, i) ∈ av'.trie → (a, j) ∈ av'.trie → i = j)
    (hfn : ∀ a i j, (a, i) ∈ av'.normTrie → (a, j) ∈ av'.normTrie → i = j)
    (ht : ∀ p ∈ av.trie ++ av.normTrie, SameToken av av' p.2) {norm : NS → Option NS} {s : Str}
    (hraw : ∀ p : Str × Nat, p.1 <:+: s → (p ∈ av.trie ↔ p ∈ av'.trie))
    (hnorm : ∀ r n n', (NS.ofStr s).sliceNormalized r = some (some n) → norm n = some n' →
      ∀ p : Str × Nat, p.1 <:+: n'.norm → (p ∈ av.normTrie ↔ p ∈ av'.normTrie)) :
    extractAndNormalize cl av norm s = extractAndNormalize cl av' norm s := by
  have h1 : splitWithIndices cl av av.trie (NS.ofStr s) = splitWithIndices cl av' av'.trie (NS.ofStr s) :=
    splitWithIndices_same he hf hraw fun p hp => ht p (by simp [hp])
  unfold extractAndNormalize
  have e1 : (PTS.split (PTS.ofStr s) fun _ n => orPanic (splitWithIndices cl av av.trie n)) =
      PTS.split (PTS.ofStr s) fun _ n => orPanic (splitWithIndices cl av' av'.trie n) := by
    unfold PTS.split
    rw [splitLoop_same (g := fun _ n => orPanic (splitWithIndices cl av' av'.trie n))]
    intro i x hx _
    have hx : x = ⟨NS.ofStr s, none⟩ := by simpa [PTS.ofStr, PTS.ofNS] using hx
    subst hx
    rw [h1]
  rw [e1]
  cases hq : PTS.split (PTS.ofStr s) fun _ n => orPanic (splitWithIndices cl av' av'.trie n) with
  | error e => rfl
  | ok q =>
    show PTS.split q _ = PTS.split q _
    have hpart : ∀ x ∈ q.splits, ∃ r, (NS.ofStr s).sliceNormalized r = some (some x.normalized) := by
      intro x hx
      unfold PTS.split at hq
      simp only [PTS.ofStr, PTS.ofNS, PTS.splitLoop] at hq
      cases ho : splitWithIndices cl av' av'.trie (NS.ofStr s) with
      | none => rw [ho] at hq; cases hq
      | some out =>
        rw [ho] at hq
        cases hq
        simp only [List.append_nil, List.mem_filter] at hx
        unfold splitWithIndices at ho
        obtain ⟨l, _, hl⟩ := Option.bind_eq_some_iff.1 ho
        exact toSplit_part hl x hx.1
    unfold PTS.split
    rw [splitLoop_same]
    intro i x hx _
    obtain ⟨r, hr⟩ := hpart x hx
    cases hn : norm x.normalized with
    | none => rfl
    | some n' =>
      simp only [Option.bind_some]
      rw [splitWithIndices_same he hfn (hnorm r _ n' hr hn) fun p hp => ht p (by simp [hp])]

/-! ## What an addition adds -/

/-- `pat` is what is searched for to find the token: its content, normalized if there is a normalizer. -/
def Searched (norm : Norm) (x : AddedToken) (pat : Str) : Prop :=
  match norm with
  | none => pat = x.content
  | some f => f x.content = some pat

/-- The cached form of a token is its normalized form. -/
structure FormOk (norm : Norm) (x : AddedToken) (form : Option Str) : Prop where
  some : ∀ s, form = some s → ∃ f, norm = some f ∧ f x.content = some s
  none : x.normalized = true → form = none → Searched norm x x.content

theorem FormOk.searched {norm : Norm} {x : AddedToken} {form : Option Str} (h : FormOk norm x form) (hn : x.normalized = true) :
    Searched norm x (form.getD x.content) := by
  cases form with
  | none => exact h.none hn rfl
  | some s =>
    obtain ⟨f, h1, h2⟩ := h.some s rfl
    rw [h1]
    exact h2

/-- What is known while tokens are being added to `av0`. -/
structure Grown (m : ModelView) (norm : Norm) (ts : List AddedToken) (av0 av : AddedVocab) : Prop where
  inv : Inv m av
  keep : ∀ i u, av0.rmap.get i = some u → av.rmap.get i = some u ∧ av.cache.get i = av0.cache.get i
  new : ∀ i u, av.rmap.get i = some u → av0.rmap.get i = some u ∨
    (av0.rmap.get i = none ∧ u ∈ ts ∧ FormOk norm u (av.cache.get i))
  special : ∀ c i, av0.map.get c = some i → (c ∈ av.specials ↔ c ∈ av0.specials)
  flag : av.encodeSpecial = av0.encodeSpecial

/-- The token is not there yet, or it is there exactly like this. -/
def New (av : AddedVocab) (x : AddedToken) : Prop := av.map.get x.content = none ∨ av.present x = true

theorem present_keep {m : ModelView} {norm : Norm} {ts : List AddedToken} {av0 av : AddedVocab}
    (h : Grown m norm ts av0 av) {x : AddedToken} (hx : av0.present x = true) : av.present x = true := by
  unfold present at hx ⊢
  cases hm : av0.map.get x.content with
  | none => rw [hm] at hx; cases hx
  | some i =>
    rw [hm] at hx
    have hx : av0.rmap.get i = some x := by simpa using hx
    have := (h.inv.inverse x.content i).2 ⟨x, (h.keep i x hx).1, rfl⟩
    rw [this]
    simpa using (h.keep i x hx).1

theorem addLoop_grown {m : ModelView} (hm : m.Ok) {norm : Norm} {ts0 : List AddedToken} {av0 : AddedVocab} (hi : Inv m av0) :
    ∀ (ts : List AddedToken) (av : AddedVocab) (next ign : Nat), (∀ x ∈ ts, x ∈ ts0) → (∀ x ∈ ts, New av0 x) →
      Fresh m av next → Grown m norm ts0 av0 av → Grown m norm ts0 av0 (addLoop m norm ts av next ign).1
  | [], _, _, _, _, _, _, h => h
  | t :: ts, av, next, ign, hsub, hnew, hf, h => by
    have hsub' : ∀ x ∈ ts, x ∈ ts0 := fun x hx => hsub x (by simp [hx])
    have hnew' : ∀ x ∈ ts, New av0 x := fun x hx => hnew x (by simp [hx])
    rw [addLoop]
    split
    · exact addLoop_grown hm hi ts av next _ hsub' hnew' hf h
    · rename_i hc
      split
      · exact addLoop_grown hm hi ts av next _ hsub' hnew' hf h
      · rename_i hp
        have h0 : av0.map.get t.content = none := by
          rcases hnew t List.mem_cons_self with h0 | h0
          · exact h0
          · exact absurd (present_keep h h0) hp
        simp only
        cases hn : normalForm norm t with
        | none => exact h
        | some form =>
          simp only
          obtain ⟨s1, s2, _⟩ := store_inv hm h.inv hf hc form
          have hold := fun t' => id_old hm h.inv hf t (t' := t')
          refine addLoop_grown hm hi ts _ _ ign hsub' hnew' s2 ?_
          generalize (av.tokenToId m t.content).getD next = id at *
          have hid : av0.rmap.get id = none := by
            cases hx : av0.rmap.get id with
            | none => rfl
            | some u =>
              have e := hold u (h.keep id u hx).1
              rw [(hi.inverse t.content id).2 ⟨u, hx, e⟩] at h0
              cases h0
          have hgr : ∀ i, (av.store id t form).rmap.get i = if id = i then some t else av.rmap.get i :=
            fun i => AMap.get_insert _ _ _ _
          have hgc : ∀ i, id ≠ i → (av.store id t form).cache.get i = av.cache.get i := by
            intro i hne
            unfold store
            cases form with
            | none => rfl
            | some s => exact (AMap.get_insert _ _ _ _).trans (if_neg hne)
          refine ⟨s1, ?_, ?_, ?_, h.flag⟩
          · intro i u hu
            have hne : id ≠ i := by rintro rfl; rw [hid] at hu; cases hu
            rw [hgr, if_neg hne, hgc i hne]
            exact h.keep i u hu
          · intro i u hu
            rw [hgr] at hu
            split at hu
            · rename_i he
              subst he
              cases hu
              refine .inr ⟨hid, hsub t List.mem_cons_self, ?_⟩
              cases form with
              | some s =>
                have e : (av.store id t (some s)).cache.get id = some s := (AMap.get_insert _ _ _ _).trans (if_pos rfl)
                rw [e]
                refine ⟨fun s' hs' => ?_, fun _ hx => by cases hx⟩
                cases hs'
                unfold normalForm at hn
                split at hn
                · split at hn
                  · cases hn
                  · rename_i f
                    split at hn
                    · cases hn
                    · rename_i s' hs'
                      split at hn
                      · cases hn
                      · cases hn; exact ⟨f, rfl, hs'⟩
                · cases hn
              | none =>
                show FormOk norm t (av.cache.get id)
                refine ⟨fun s hs => ?_, fun hnt _ => ?_⟩
                · obtain ⟨u, hu⟩ := h.inv.cached id s hs
                  rcases h.new id u hu with h' | ⟨_, _, h'⟩
                  · rw [hid] at h'; cases h'
                  · obtain ⟨f, f1, f2⟩ := h'.some s hs
                    exact ⟨f, f1, by rw [← hold u hu]; exact f2⟩
                · unfold normalForm at hn
                  rw [if_pos hnt] at hn
                  unfold Searched
                  split at hn
                  · rfl
                  · rename_i f
                    split at hn
                    · cases hn
                    · rename_i s' hs'
                      split at hn
                      · rename_i e; subst e; exact hs'
                      · cases hn
            · rename_i hne
              rw [hgc i hne]
              exact h.new i u hu
          · intro c i hci
            rw [← h.special c i hci]
            have hct : c ≠ t.content := by rintro rfl; rw [h0] at hci; cases hci
            show c ∈ (if t.special = true ∧ t.content ≠ [] ∧ t.content ∉ av.specials then t.content :: av.specials
              else av.specials) ↔ _
            split
            · simp [hct]
            · rfl

/-- The patterns are those of the tokens. -/
structure Synced (av : AddedVocab) : Prop where
  raw : ∀ c i, (c, i) ∈ av.trie ↔ ∃ t, av.rmap.get i = some t ∧ t.normalized = false ∧ c = t.content
  normed : ∀ c i, (c, i) ∈ av.normTrie ↔ ∃ t, av.rmap.get i = some t ∧ t.normalized = true ∧
    c = (av.cache.get i).getD t.content

/-- The call is answered without an error. -/
def Succeeds (build : List (Str × Nat) → Bool) (m : ModelView) (av : AddedVocab) : Op → Prop
  | .add norm ts => (av.addTokens build m norm ts).2.isSome = true
  | .renormalize norm => (av.refreshNormalized build norm).2 = true
  | .setEncodeSpecial _ => True

/-- All the calls are. -/
def AllSucceed (build : List (Str × Nat) → Bool) (m : ModelView) : AddedVocab → List Op → Prop
  | _, [] => True
  | av, op :: ops => Succeeds build m av op ∧ AllSucceed build m (apply build m av op) ops

theorem synced_refresh {build : List (Str × Nat) → Bool} {av : AddedVocab} (hwf : av.rmap.WF)
    (h : (av.refresh build).2 = true) : Synced (av.refresh build).1 :=
  ⟨(refresh_patterns hwf h).1, (refresh_patterns hwf h).2⟩

theorem after_synced {m : ModelView} (hm : m.Ok) {build : List (Str × Nat) → Bool} : ∀ (ops : List Op) {av : AddedVocab},
    Inv m av → Synced av → AllSucceed build m av ops → Synced (after build m av ops)
  | [], _, _, h, _ => h
  | op :: ops, av, hi, h, hs => by
    refine after_synced hm ops (apply_inv hm build hi op).1 ?_ hs.2
    have h1 := hs.1
    cases op with
    | add norm ts =>
      show Synced (av.addTokens build m norm ts).1
      have h1 : (av.addTokens build m norm ts).2.isSome = true := h1
      obtain ⟨k, hk⟩ := Option.isSome_iff_exists.1 h1
      obtain ⟨a, b⟩ := C27_patterns (r := (av.addTokens build m norm ts).1) (k := k) hm hi (Prod.ext rfl hk)
      exact ⟨a, b⟩
    | renormalize norm =>
      have h1 : (av.refreshNormalized build norm).2 = true := h1
      show Synced (av.refreshNormalized build norm).1
      unfold refreshNormalized at h1 ⊢
      simp only at h1 ⊢
      split at h1
      · rename_i hr
        rw [if_pos hr]
        exact synced_refresh (av := { av with cache := (recache norm av.rmap []).1 }) hi.wfr h1
      · cases h1
    | setEncodeSpecial b => exact ⟨h.raw, h.normed⟩

/-- The tokens occur neither in the text nor, in the form that is searched for, in a normalized part of it. -/
structure Absent (norm : Norm) (normalizer : NS → Option NS) (ts : List AddedToken) (s : Str) : Prop where
  raw : ∀ x ∈ ts, x.normalized = false → ¬ x.content <:+: s
  normed : ∀ x ∈ ts, x.normalized = true → ∀ pat, Searched norm x pat →
    ∀ r n n', (NS.ofStr s).sliceNormalized r = some (some n) → normalizer n = some n' → ¬ pat <:+: n'.norm

/-- **C114.** New tokens change nothing about how a text is cut in which they do not occur. -/
theorem C114_extract {m : ModelView} (hm : m.Ok) {build : List (Str × Nat) → Bool}
    (hb : ∀ l, build l = true → (l.map (·.1)).Nodup) {ops : List Op} (hs : AllSucceed build m empty ops) {av av' : AddedVocab}
    (hav : av = after build m empty ops) {norm : Norm} {ts : List AddedToken} {k : Nat} (hnew : ∀ x ∈ ts, New av x)
    (hadd : av.addTokens build m norm ts = (av', some k)) {cl : Classes} {normalizer : NS → Option NS} {s : Str}
    (ha : Absent norm normalizer ts s) :
    extractAndNormalize cl av normalizer s = extractAndNormalize cl av' normalizer s := by
  have hi : Inv m av := hav ▸ (after_inv hm build ops (inv_empty _)).1
  have hsy : Synced av := hav ▸ after_synced hm ops (inv_empty _) ⟨by simp [empty, AMap.get], by simp [empty, AMap.get]⟩ hs
  have hsy' : Synced av' := ⟨(C27_patterns hm hi hadd).1, (C27_patterns hm hi hadd).2⟩
  have hg0 : Grown m norm ts av av := ⟨hi, fun _ _ h => ⟨h, rfl⟩, fun _ _ h => .inl h, fun _ _ _ => Iff.rfl, rfl⟩
  have hloop := addLoop_grown hm hi ts av (av.nextId m) 0 (fun _ h => h) hnew nextId_fresh hg0
  -- the refresh
  have hg : Grown m norm ts av av' ∧ ((av'.rmap.filter fun p => p.2.normalized).map fun p =>
      ((av'.cache.get p.1).getD p.2.content, p.1)) = av'.normTrie ∧ (av'.normTrie = [] ∨ build av'.normTrie = true) := by
    unfold addTokens at hadd
    generalize addLoop m norm ts av (av.nextId m) 0 = q at hadd hloop
    obtain ⟨r, ign⟩ := q
    cases ign with
    | none => cases hadd
    | some ign =>
      simp only [Prod.mk.injEq] at hadd
      obtain ⟨h1, h2⟩ := hadd
      have hr : (r.refresh build).2 = true := by
        cases hr : (r.refresh build).2 with
        | true => rfl
        | false => rw [hr] at h2; cases h2
      obtain ⟨e1, e2, e3, e4, e5⟩ := refresh_same build r
      rw [h1] at e1 e2 e3 e4 e5
      have hloop : Grown m norm ts av r := hloop
      refine ⟨⟨hloop.inv.congr e1 e2 e3 (by rw [e4]; exact hloop.inv.cached), by rw [e2, e4]; exact hloop.keep,
        by rw [e2, e4]; exact hloop.new, by rw [e3]; exact hloop.special, by rw [e5]; exact hloop.flag⟩, ?_⟩
      rw [e2, e4]
      unfold refresh at h1 hr
      simp only at h1 hr
      split at hr
      · rename_i c1
        rw [if_pos c1] at h1
        split at hr
        · rename_i c2
          rw [if_pos c2] at h1
          rw [← h1]
          refine ⟨rfl, ?_⟩
          rcases Bool.or_eq_true_iff.1 c2 with c2 | c2
          · exact .inl (by simpa using c2)
          · exact .inr c2
        · cases hr
      · cases hr
  obtain ⟨hg, -, hnt⟩ := hg
  have hsame : ∀ i u, av.rmap.get i = some u → SameToken av av' i := by
    intro i u hu
    refine ⟨by rw [hu, (hg.keep i u hu).1], fun t ht => ?_⟩
    exact (hg.special t.content i ((hi.inverse _ _).2 ⟨t, ht, rfl⟩)).symm
  refine extract_same hg.flag.symm ?_ ?_ ?_ ?_ ?_
  · intro a i j h1 h2
    obtain ⟨t, t1, _, t2⟩ := (hsy'.raw a i).1 h1
    obtain ⟨u, u1, _, u2⟩ := (hsy'.raw a j).1 h2
    have := (hg.inv.inverse a i).2 ⟨t, t1, t2.symm⟩
    rw [(hg.inv.inverse a j).2 ⟨u, u1, u2.symm⟩] at this
    cases this; rfl
  · intro a i j h1 h2
    rcases hnt with hnt | hnt
    · rw [hnt] at h1; cases h1
    · have hnd := hb _ hnt
      have key : ∀ (l : List (Str × Nat)), (l.map (·.1)).Nodup → (a, i) ∈ l → (a, j) ∈ l → i = j := by
        intro l
        induction l with
        | nil => intro _ h; cases h
        | cons x l ih =>
          intro hn h1 h2
          rw [List.map_cons, List.nodup_cons] at hn
          rcases List.mem_cons.1 h1 with rfl | h1
          · rcases List.mem_cons.1 h2 with e | h2
            · cases e; rfl
            · exact absurd (List.mem_map.2 ⟨_, h2, rfl⟩) hn.1
          · rename_i h1'
            rcases List.mem_cons.1 h2 with rfl | h2
            · exact absurd (List.mem_map.2 ⟨(a, i), by assumption, rfl⟩) hn.1
            · exact ih hn.2 (by assumption) h2
      exact key _ hnd h1 h2
  · intro p hp
    rcases List.mem_append.1 hp with hp | hp
    · obtain ⟨t, t1, _⟩ := (hsy.raw p.1 p.2).1 hp
      exact hsame _ _ t1
    · obtain ⟨t, t1, _⟩ := (hsy.normed p.1 p.2).1 hp
      exact hsame _ _ t1
  · rintro ⟨c, i⟩ hp
    rw [hsy.raw, hsy'.raw]
    constructor
    · rintro ⟨t, t1, t2⟩
      exact ⟨t, (hg.keep i t t1).1, t2⟩
    · rintro ⟨t, t1, t2, rfl⟩
      rcases hg.new i t t1 with h | ⟨_, h, _⟩
      · exact ⟨t, h, t2, rfl⟩
      · exact absurd hp (ha.raw t h t2)
  · intro r n n' hr hn
    rintro ⟨c, i⟩ hp
    rw [hsy.normed, hsy'.normed]
    constructor
    · rintro ⟨t, t1, t2, t3⟩
      obtain ⟨k1, k2⟩ := hg.keep i t t1
      exact ⟨t, k1, t2, by rw [k2]; exact t3⟩
    · rintro ⟨t, t1, t2, t3⟩
      rcases hg.new i t t1 with h | ⟨_, h, hform⟩
      · exact ⟨t, h, t2, by rw [← (hg.keep i t h).2]; exact t3⟩
      · have := ha.normed t h t2 _ (hform.searched t2) r n n' hr hn
        rw [← t3] at this
        exact absurd hp this

/-- Without a normalizer it is enough that the contents do not occur in the text. -/
theorem absent_plain {ts : List AddedToken} {s : Str} (h : ∀ x ∈ ts, ¬ x.content <:+: s) : Absent none some ts s := by
  refine ⟨fun x hx _ => h x hx, fun x hx _ pat hp r n n' hr hn => ?_⟩
  cases hn
  have hp : pat = x.content := hp
  subst hp
  obtain ⟨p, q, e, _⟩ := NS.slice_verbatim (NS.verbatim_ofStr s) hr
  intro hin
  exact h x hx (hin.trans ⟨p, q, e.symm⟩)

/-- The token is not there yet with other properties: needed, for a token that is added again in another form is no longer
searched for in its old form. The text `<X>` does not contain the token `<x>`. -/
theorem C114_added_again :
    let av := (empty.addTokens (fun _ => true) sampleModel (some upX) [.ofStr "<x>".toList false]).1
    let av' := (av.addTokens (fun _ => true) sampleModel (some upX) [.ofStr "<x>".toList true]).1
    findMatches ⟨fun _ => false, fun _ => false⟩ av av.normTrie "<X>".toList = some [(some 3, (0, 3))] ∧
    findMatches ⟨fun _ => false, fun _ => false⟩ av' av'.trie "<X>".toList = some [(none, (0, 3))] ∧ av'.normTrie = [] := by
  decide +kernel

/-- **C114, decoding.** The ids that are not those of new tokens are decoded as before, unless special tokens are skipped. -/
theorem C114_decode {m : ModelView} (hm : m.Ok) {build : List (Str × Nat) → Bool} {ops : List Op} {av av' : AddedVocab}
    (hav : av = after build m empty ops) {norm : Norm} {ts : List AddedToken} {o : Option Nat} (hnew : ∀ x ∈ ts, New av x)
    (hadd : av.addTokens build m norm ts = (av', o)) {ids : List Nat}
    (hids : ∀ i ∈ ids, ∀ x ∈ ts, av.map.get x.content = none → av'.map.get x.content ≠ some i) (oc : Bool)
    (d : Option Dec.Decoder) : decode oc m av d false ids = decode oc m av' d false ids := by
  have hi : Inv m av := hav ▸ (after_inv hm build ops (inv_empty _)).1
  have hg0 : Grown m norm ts av av := ⟨hi, fun _ _ h => ⟨h, rfl⟩, fun _ _ h => .inl h, fun _ _ _ => Iff.rfl, rfl⟩
  have hloop := addLoop_grown hm hi ts av (av.nextId m) 0 (fun _ h => h) hnew nextId_fresh hg0
  obtain ⟨ign, r, e, h1, h2, _, h4⟩ := addTokens_fst build m norm av ts
  rw [e] at hloop
  rw [hadd] at h1 h2 h4
  have hloop : Grown m norm ts av r := hloop
  have hsame : decodeTokens m av false ids = decodeTokens m av' false ids := by
    unfold decodeTokens
    have hf : ∀ i ∈ ids, (av.simpleIdToToken i).or (m.toToken i) = (av'.simpleIdToToken i).or (m.toToken i) := by
      intro i hmem
      unfold simpleIdToToken
      rw [h2, h4]
      cases hx : av.rmap.get i with
      | some u =>
        obtain ⟨k1, k2⟩ := hloop.keep i u hx
        rw [k1, k2]
      | none =>
        cases hy : r.rmap.get i with
        | none => rfl
        | some u =>
          rcases hloop.new i u hy with h | ⟨_, h, _⟩
          · rw [hx] at h; cases h
          · exfalso
            have hu := (hloop.inv.inverse u.content i).2 ⟨u, hy, rfl⟩
            refine hids i hmem u h ?_ (by rw [h1]; exact hu)
            cases hc : av.map.get u.content with
            | none => rfl
            | some j =>
              obtain ⟨v, v1, v2⟩ := (hi.inverse _ _).1 hc
              have := (hloop.inv.inverse u.content j).2 ⟨v, (hloop.keep j v v1).1, v2⟩
              rw [hu] at this
              cases this
              rw [hx] at v1; cases v1
    clear hids
    induction ids with
    | nil => rfl
    | cons i ids ih =>
      rw [List.filterMap_cons, List.filterMap_cons, ih fun j hj => hf j (by simp [hj])]
      have := hf i List.mem_cons_self
      simp only [Bool.not_false, Bool.true_or, this]
  cases d with
  | none => simp only [decode, hsame]
  | some d => simp only [decode, hsame]

/-- **C114 fails for decoding that skips special tokens**: the old token `<x>` is decoded as `<X>`; once a special token `<X>` is
added, it is skipped. -/
theorem C114_old_token_skipped :
    let av := (empty.addTokens (fun _ => true) sampleModel (some upX) [.ofStr "<x>".toList false]).1
    let av' := (av.addTokens (fun _ => true) sampleModel (some upX) [.ofStr "<X>".toList true]).1
    av'.map.get "<X>".toList = some 4 ∧ decodeTokens sampleModel av true [3] = ["<X>".toList] ∧
    decodeTokens sampleModel av' true [3] = [] := by decide +kernel

end AddedVocab

namespace Tokenizer
open AddedVocab

/-- The texts of an input. -/
def textsOf : Input → List Str
  | .raw s => [s]
  | .words l => l

/-- **C114.** New tokens change nothing about the encoding of inputs in which they do not occur: ids, tokens, offsets and all the
rest are as before. -/
theorem C114_encode {t : Tokenizer} (hok : t.view.Ok) {build : List (Str × Nat) → Bool}
    (hb : ∀ l, build l = true → (l.map (·.1)).Nodup) {ops : List Op} (hs : AllSucceed build t.view AddedVocab.empty ops)
    (hist : t.added = after build t.view AddedVocab.empty ops) {norm : Norm} {ts : List AddedToken} {av' : AddedVocab} {k : Nat}
    (hnew : ∀ x ∈ ts, New t.added x) (hadd : t.added.addTokens build t.view norm ts = (av', some k)) (ty : PTS.OffsetType)
    (input : Input × Option Input) (add : Bool)
    (ha : ∀ i, i = input.1 ∨ input.2 = some i → ∀ s ∈ textsOf i, Absent norm t.normalizer ts s) :
    t.encodeAs ty input add = { t with added := av' }.encodeAs ty input add := by
  have htext : ∀ s, Absent norm t.normalizer ts s → ∀ lim typeId word,
      t.encodeText lim typeId ty word s = { t with added := av' }.encodeText lim typeId ty word s := by
    intro s h lim typeId word
    unfold encodeText preTokenized
    rw [C114_extract hok hb hs hist hnew hadd h]
    rfl
  have hseq : ∀ i, (∀ s ∈ textsOf i, Absent norm t.normalizer ts s) → ∀ typeId,
      t.encodeSequence typeId ty i = { t with added := av' }.encodeSequence typeId ty i := by
    intro i h typeId
    unfold encodeSequence encodeSequenceWith
    cases i with
    | raw s => exact htext s (h s (by simp [textsOf])) _ _ _
    | words l =>
      show Except.map _ _ = Except.map _ _
      congr 1
      have key : ∀ (l' : List (Str × Nat)), (∀ x ∈ l', Absent norm t.normalizer ts x.1) →
          (l'.mapM fun x => t.encodeText (t.limit typeId) typeId ty (some x.2) x.1) =
          l'.mapM fun x => ({ t with added := av' } : Tokenizer).encodeText (t.limit typeId) typeId ty (some x.2) x.1 := by
        intro l'
        induction l' with
        | nil => intro _; rfl
        | cons x l' ih =>
          intro hx
          rw [List.mapM_cons, List.mapM_cons, htext x.1 (hx x List.mem_cons_self), ih fun y hy => hx y (by simp [hy])]
      exact key _ fun x hx => h x.1 (List.mem_zipIdx' hx |>.2 ▸ List.getElem_mem _)
  unfold encodeAs encodeBy
  simp only [hseq _ (ha _ (.inl rfl))]
  cases h2 : input.2 with
  | none => rfl
  | some j => simp only [optional, hseq _ (ha _ (.inr h2))]

/-- New tokens, one of them found in the form `zz`, and a text without them. -/
example : ∃ (av av' : AddedVocab) (k : Nat), AllSucceed (fun l => decide (l.map (·.1)).Nodup) sampleModel AddedVocab.empty
      [.add none [.ofStr "<s>".toList true]] ∧
    av = after (fun l => decide (l.map (·.1)).Nodup) sampleModel AddedVocab.empty [.add none [.ofStr "<s>".toList true]] ∧
    av.addTokens (fun l => decide (l.map (·.1)).Nodup) sampleModel none [.ofStr "<e>".toList true, .ofStr "zz".toList false] =
      (av', some k) ∧ k = 2 ∧ (∀ x ∈ [AddedToken.ofStr "<e>".toList true, .ofStr "zz".toList false], New av x) ∧
    Absent none some [.ofStr "<e>".toList true, .ofStr "zz".toList false] "a<s>b z".toList ∧
    av'.trie = [("<e>".toList, 4), ("<s>".toList, 3)] ∧ av'.normTrie = [("zz".toList, 5)] ∧
    findMatches ⟨fun _ => false, fun _ => false⟩ av' av'.trie "a<s>b z".toList =
      some [(none, (0, 1)), (some 3, (1, 4)), (none, (4, 7))] := by
  refine ⟨_, _, _, ⟨by unfold Succeeds; decide +kernel, trivial⟩, rfl, rfl, by decide +kernel, ?_, absent_plain ?_, by decide +kernel,
    by decide +kernel, by decide +kernel⟩
  · unfold New
    decide +kernel
  · decide +kernel

end Tokenizer
end Tok
