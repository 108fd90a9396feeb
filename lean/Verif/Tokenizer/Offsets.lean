import Verif.Tokenizer.Order
import Verif.Bpe.Tokenize
import Verif.Unigram.Tokenize

/-!
# C59: the offsets of an encoding lie in the text, at its characters, in its order
-/

namespace Tok
open Encoding AddedVocab PTS

/-- The offsets delimit a part of the text that is not empty: in characters, or in bytes. -/
def Delimits (s : Str) (ty : OffsetType) (o : Range) : Prop :=
  ∃ p m q, s = p ++ m ++ q ∧ m ≠ [] ∧
    o = if ty = .char then (p.length, p.length + m.length) else (blen p, blen p + blen m)

/-- The offsets of a row. -/
def offsetsOf (r : Row) : Range := r.2.2.2.2.1

theorem offsets_eq_rows {e : Encoding} (h : e.Parallel) : e.offsets = e.rows.map offsetsOf := by
  have : ∀ (a b : List Nat) (c : List Str) (d : List (Option Nat)) (f : List Range) (g k : List Nat) (n : Nat),
      a.length = n → b.length = n → c.length = n → d.length = n → f.length = n → g.length = n → k.length = n →
      f = (a.zip (b.zip (c.zip (d.zip (f.zip (g.zip k)))))).map offsetsOf := by
    intro a b c d f g k n h1 h2 h3 h4 h5 h6 h7
    apply List.ext_getElem (by simp; omega)
    intro i hi hi'
    simp [offsetsOf]
  obtain ⟨h1, h2, h3, h4, h5, h6⟩ := h
  exact this e.ids e.typeIds e.tokens e.words e.offsets e.specialMask e.attnMask _ rfl h1 h2 h3 h4 h5 h6

namespace PTS

theorem tokenOffsets_spans {whole : Str} {n : NS} (hn : n.Good whole) {t : Token} (h1 : t.offsets.1 < t.offsets.2)
    (h2 : t.offsets.2 ≤ blen n.norm) :
    ∃ f l, n.spans[t.offsets.1]? = some f ∧ n.spans[t.offsets.2 - 1]? = some l ∧
      tokenOffsets whole .byte n t = (f.1, l.2) := by
  have hlen := (NS.C08_wellFormed hn.1).one_per_byte
  obtain ⟨f, hf⟩ : ∃ f, n.al[t.offsets.1]? = some f := ⟨_, List.getElem?_eq_getElem (by omega)⟩
  obtain ⟨l, hl⟩ : ∃ l, n.al[t.offsets.2 - 1]? = some l := ⟨_, List.getElem?_eq_getElem (by omega)⟩
  refine ⟨_, _, by unfold NS.spans; rw [List.getElem?_map, hf]; rfl, by unfold NS.spans; rw [List.getElem?_map, hl]; rfl, ?_⟩
  have hc : n.convertNormalized t.offsets = some (f.1, l.2) := by
    unfold NS.convertNormalized
    rw [if_neg (by omega), if_neg (by omega), slice?_eq_some (by omega) (by omega)]
    have hne : (n.al.take t.offsets.2).drop t.offsets.1 ≠ [] := by
      rw [← List.length_pos_iff, List.length_drop, List.length_take]; omega
    obtain ⟨y, ys, hy⟩ := List.exists_cons_of_ne_nil hne
    have e1 : y = f := by
      have : ((n.al.take t.offsets.2).drop t.offsets.1)[0]? = some y := by rw [hy]; rfl
      rw [List.getElem?_drop, List.getElem?_take_of_lt (by omega), Nat.add_zero, hf] at this
      cases this; rfl
    have e2 : (y :: ys).getLast (by simp) = l := by
      have hll : (y :: ys).length = t.offsets.2 - t.offsets.1 := by
        rw [← hy, List.length_drop, List.length_take]; omega
      have : (y :: ys)[(y :: ys).length - 1]? = some l := by
        rw [hll, ← hy, List.getElem?_drop, List.getElem?_take_of_lt (by omega), ← hl]
        congr 1; omega
      rw [← List.getLast?_eq_getElem?, List.getLast?_eq_some_getLast (by simp)] at this
      exact Option.some.inj this
    rw [hy]
    simp only [Option.bind_some, NS.expandAlignments, Option.some.injEq]
    rw [e2, e1]
  show (match n.convertNormalized t.offsets with
      | some r => (n.offsetsOriginal.1 + r.1, n.offsetsOriginal.1 + r.2)
      | none => t.offsets) = _
  rw [hc]; rfl

theorem spans_ordered {whole : Str} {n : NS} (hn : n.Good whole) {i j : Nat} {a b : Range} (hij : i ≤ j)
    (ha : n.spans[i]? = some a) (hb : n.spans[j]? = some b) : NS.Upto a b := by
  have hp : n.spans.Pairwise NS.Upto := by
    unfold NS.spans
    rw [List.pairwise_map]
    exact (NS.C08_wellFormed hn.1).ordered.imp fun h => ⟨Nat.add_le_add_left h.1 _, Nat.add_le_add_left h.2 _⟩
  rcases Nat.lt_or_ge i j with h | h
  · obtain ⟨h1, rfl⟩ := List.getElem?_eq_some_iff.1 ha
    obtain ⟨h2, rfl⟩ := List.getElem?_eq_some_iff.1 hb
    exact List.pairwise_iff_getElem.1 hp i j h1 h2 h
  · have : i = j := by omega
    subst this; rw [ha] at hb; cases hb; exact ⟨Nat.le_refl _, Nat.le_refl _⟩

/-- The part of a text between two of its characters, both included. -/
theorem delimits_of_chars {s p1 q1 p2 q2 : Str} {c1 c2 : Char} (h1 : s = p1 ++ c1 :: q1) (h2 : s = p2 ++ c2 :: q2)
    (h : blen p1 ≤ blen p2) : ∃ m, m ≠ [] ∧ s = p1 ++ m ++ q2 ∧ blen p1 + blen m = blen p2 + c2.utf8Size := by
  have he : p1 ++ c1 :: q1 = p2 ++ c2 :: q2 := h1.symm.trans h2
  rcases prefix_total he with ⟨w, hw⟩ | ⟨w, hw⟩
  · refine ⟨w ++ [c2], by simp, by rw [h2, hw]; simp, ?_⟩
    rw [hw]; simp; omega
  · have : w = [] := by
      by_cases hw0 : w = []
      · exact hw0
      · have := blen_pos hw0
        rw [hw] at h; simp at h; omega
    subst this
    simp only [List.append_nil] at hw
    subst hw
    exact ⟨[c2], by simp, by rw [h2]; simp, by simp⟩

theorem tokenOffsets_delimits {whole : Str} {n : NS} (hn : n.Good whole) (hc : n.FromChars whole) {t : Token}
    (h1 : t.offsets.1 < t.offsets.2) (h2 : t.offsets.2 ≤ blen n.norm) (ty : OffsetType) :
    Delimits whole ty (tokenOffsets whole ty n t) ∧ ∃ p m q, whole = p ++ m ++ q ∧ m ≠ [] ∧
      tokenOffsets whole .byte n t = (blen p, blen p + blen m) ∧
      tokenOffsets whole .char n t = (p.length, p.length + m.length) := by
  obtain ⟨f, l, g1, g2, g3⟩ := tokenOffsets_spans hn h1 h2
  obtain ⟨p1, c1, q1, e1, rfl⟩ := hc f (List.mem_of_getElem? g1)
  obtain ⟨p2, c2, q2, e2, rfl⟩ := hc l (List.mem_of_getElem? g2)
  have hle := (spans_ordered hn (by omega) g1 g2).1
  obtain ⟨m, hm, e3, e4⟩ := delimits_of_chars e1 e2 hle
  have hb : tokenOffsets whole .byte n t = (blen p1, blen p1 + blen m) := by rw [g3]; simp [e4]
  have hch : tokenOffsets whole .char n t = (p1.length, p1.length + m.length) := by
    have : tokenOffsets whole .char n t
        = (convert whole (tokenOffsets whole .byte n t)).getD (tokenOffsets whole .byte n t) := rfl
    rw [this, hb]
    conv => lhs; rw [e3]
    rw [C14_convert p1 m q2 (.inl hm)]; rfl
  refine ⟨⟨p1, m, q2, e3, hm, ?_⟩, p1, m, q2, e3, hm, hb, hch⟩
  cases ty with
  | byte => rw [if_neg (by simp)]; exact hb
  | char => rw [if_pos rfl]; exact hch
  | none => rw [if_neg (by simp)]; exact hb

/-- Counting characters instead of bytes keeps the order. -/
theorem upto_chars {s p m q p' m' q' : Str} (h : s = p ++ m ++ q) (h' : s = p' ++ m' ++ q')
    (hle : NS.Upto (blen p, blen p + blen m) (blen p', blen p' + blen m')) :
    NS.Upto (p.length, p.length + m.length) (p'.length, p'.length + m'.length) := by
  have key : ∀ {a b c d : Str}, a ++ b = c ++ d → blen a ≤ blen c → a.length ≤ c.length := by
    intro a b c d he hl
    rcases prefix_total he with ⟨w, rfl⟩ | ⟨w, rfl⟩
    · simp
    · by_cases hw : w = []
      · subst hw; simp
      · have := blen_pos hw; simp at hl; omega
  refine ⟨key (b := m ++ q) (d := m' ++ q') (by rw [← List.append_assoc, ← List.append_assoc, ← h, ← h']) hle.1, ?_⟩
  have := key (a := p ++ m) (c := p' ++ m') (h.symm.trans h') (by simpa using hle.2)
  simpa using this

/-- What the two ways to tokenize have in common. -/
theorem limitLoop_out {ε : Type} {Q : Str → List Token → Prop} {f : NS → Except ε (List Token)} {max : Nat}
    (hf : ∀ n ts, n.norm ≠ [] → f n = .ok ts → Q n.norm ts) : ∀ (ss : List Split) (total : Nat) {rs : List Split},
    (∀ s ∈ ss, s.normalized.norm ≠ [] ∧ ∀ ts, s.tokens = some ts → Q s.normalized.norm ts) →
    limitLoop f max total ss = .ok rs →
    (rs.map (·.normalized)).Sublist (ss.map (·.normalized)) ∧
      ∀ r ∈ rs, ∃ ts, r.tokens = some ts ∧ Q r.normalized.norm ts
  | [], total, rs, hs, h => by cases h; exact ⟨.slnil, by simp⟩
  | s :: ss, total, rs, hs, h => by
    have hs' : ∀ x ∈ ss, x.normalized.norm ≠ [] ∧ ∀ ts, x.tokens = some ts → Q x.normalized.norm ts :=
      fun x hx => hs x (List.mem_cons_of_mem _ hx)
    obtain ⟨k1, k2⟩ := hs s List.mem_cons_self
    have cons : ∀ {x : Split} {ts : List Token} {r : Except ε (List Split)}, x.normalized = s.normalized → x.tokens = some ts →
        Q s.normalized.norm ts → (∀ rs, r = .ok rs → (rs.map (·.normalized)).Sublist (ss.map (·.normalized)) ∧
          ∀ r ∈ rs, ∃ ts, r.tokens = some ts ∧ Q r.normalized.norm ts) → r.map (x :: ·) = .ok rs →
        (rs.map (·.normalized)).Sublist ((s :: ss).map (·.normalized)) ∧
          ∀ r ∈ rs, ∃ ts, r.tokens = some ts ∧ Q r.normalized.norm ts := by
      intro x ts r hx1 hx2 hx3 hr hrs
      cases r with
      | error e => cases hrs
      | ok l =>
        cases hrs
        obtain ⟨i1, i2⟩ := hr l rfl
        refine ⟨by rw [List.map_cons, List.map_cons, hx1]; exact i1.cons_cons _, ?_⟩
        intro y hy
        rcases List.mem_cons.1 hy with rfl | hy
        · exact ⟨ts, hx2, by rw [hx1]; exact hx3⟩
        · exact i2 y hy
    rw [limitLoop] at h
    cases ht : s.tokens with
    | some ts =>
      rw [ht] at h
      exact cons rfl ht (k2 ts ht) (fun rs hr => limitLoop_out hf ss _ hs' hr) h
    | none =>
      rw [ht] at h
      cases hts : f s.normalized with
      | error e => rw [hts] at h; cases h
      | ok ts =>
        rw [hts] at h
        change (if total + ts.length ≥ max then _ else _) = _ at h
        have hw := hf _ ts k1 hts
        split at h
        · cases h
          refine ⟨by simp, ?_⟩
          intro y hy
          rw [List.mem_singleton.1 hy]
          exact ⟨ts, rfl, hw⟩
        · exact cons (x := ⟨s.normalized, some ts⟩) rfl rfl hw (fun rs hr => limitLoop_out hf ss _ hs' hr) h

theorem tokenize_out {ε : Type} {Q : Str → List Token → Prop} {p q : PTS} {f : NS → Except ε (List Token)}
    (hf : ∀ n ts, n.norm ≠ [] → f n = .ok ts → Q n.norm ts) 
    (hs : ∀ s ∈ p.splits, s.normalized.norm ≠ [] ∧ ∀ ts, s.tokens = some ts → Q s.normalized.norm ts) (h : p.tokenize f = .ok q) :
    q.original = p.original ∧ (q.splits.map (·.normalized)).Sublist (p.splits.map (·.normalized)) ∧
      ∀ r ∈ q.splits, ∃ ts, r.tokens = some ts ∧ Q r.normalized.norm ts := by
  obtain ⟨h0, h1, h2⟩ := (C13_tokenize p q f).1 h
  have key : ∀ (i : Nat) (hi : i < p.splits.length) (hi' : i < q.splits.length),
      q.splits[i].normalized = p.splits[i].normalized ∧ ∃ ts, q.splits[i].tokens = some ts ∧ Q q.splits[i].normalized.norm ts := by
    intro i hi hi'
    obtain ⟨g1, g2⟩ := h2 i _ _ (List.getElem?_eq_getElem hi) (List.getElem?_eq_getElem hi')
    cases hts : p.splits[i].tokens with
    | some ts =>
      rw [g1 (by rw [hts]; rfl)]
      exact ⟨rfl, ts, hts, (hs _ (List.getElem_mem hi)).2 ts hts⟩
    | none =>
      obtain ⟨k1, ts, k2, k3⟩ := g2 hts
      exact ⟨k1, ts, k2, by rw [k1]; exact hf _ ts (hs _ (List.getElem_mem hi)).1 k3⟩
  refine ⟨h0, ?_, ?_⟩
  · have : q.splits.map (·.normalized) = p.splits.map (·.normalized) := by
      apply List.ext_getElem (by simp [h1])
      intro i hi hi'
      simp only [List.getElem_map]
      simp only [List.length_map] at hi hi'
      exact (key i hi' hi).1
    rw [this]; exact List.Sublist.refl _
  · intro r hr
    obtain ⟨i, hi, rfl⟩ := List.getElem_of_mem hr
    exact (key i (by omega) hi).2

/-- The rows of the encoding of pieces in order. -/
theorem intoEncoding_lined {p q : PTS} (hp : p.Lined) (h0 : q.original = p.original)
    (hs : (q.splits.map (·.normalized)).Sublist (p.splits.map (·.normalized)))
    (ht : ∀ r ∈ q.splits, ∃ ts, r.tokens = some ts ∧ InWord r.normalized.norm ts) {word : Option Nat} {typeId : Nat}
    {ty : OffsetType} (hty : ty ≠ .none) {e : Encoding} (h : q.intoEncoding word typeId ty = .ok e) :
    (∀ r ∈ e.rows, Delimits p.original ty (offsetsOf r)) ∧ e.rows.Pairwise fun r r' => NS.Upto (offsetsOf r) (offsetsOf r') := by
  obtain ⟨e', g1, _, g3⟩ := C13_into_encoding (p := q) (fun s hs => by
    obtain ⟨ts, hts, _⟩ := ht s hs; rw [hts]; rfl) word typeId ty hty
  rw [h] at g1; cases g1
  have hmem : ∀ s ∈ q.splits, s.normalized.Good p.original ∧ s.normalized.FromChars p.original := by
    intro s hs'
    obtain ⟨x, hx, he⟩ := List.mem_map.1 (hs.subset (List.mem_map_of_mem hs'))
    rw [← he]; exact ⟨hp.good x hx, hp.chars x hx⟩
  have hord : q.splits.Pairwise fun s t => ∀ a ∈ s.normalized.spans, ∀ b ∈ t.normalized.spans, NS.Upto a b := by
    have := hp.order
    rw [← List.pairwise_map (f := fun x : Split => x.normalized) (R := fun x y : NS => ∀ a ∈ x.spans, ∀ b ∈ y.spans, NS.Upto a b)] at this ⊢
    exact this.sublist hs
  have cmp : ∀ {s s' : Split} {t t' : Token}, s ∈ q.splits → s' ∈ q.splits → t.offsets.1 < t.offsets.2 →
      t.offsets.2 ≤ blen s.normalized.norm → t'.offsets.1 < t'.offsets.2 → t'.offsets.2 ≤ blen s'.normalized.norm →
      NS.Upto (tokenOffsets p.original .byte s.normalized t) (tokenOffsets p.original .byte s'.normalized t') →
      NS.Upto (tokenOffsets p.original ty s.normalized t) (tokenOffsets p.original ty s'.normalized t') := by
    intro s s' t t' m1 m2 a1 a2 b1 b2 hle
    cases ty with
    | byte => exact hle
    | none => exact hle
    | char =>
      obtain ⟨-, x, m, y, e1, _, e2, e3⟩ := tokenOffsets_delimits (hmem s m1).1 (hmem s m1).2 a1 a2 .char
      obtain ⟨-, x', m', y', f1, _, f2, f3⟩ := tokenOffsets_delimits (hmem s' m2).1 (hmem s' m2).2 b1 b2 .char
      rw [e2, f2] at hle
      rw [e3, f3]
      exact upto_chars e1 f1 hle
  rw [g3, h0]
  refine ⟨?_, ?_⟩
  · intro r hr
    obtain ⟨si, h1, h2⟩ := List.mem_flatMap.1 hr
    obtain ⟨t, h3, rfl⟩ := List.mem_map.1 h2
    have hm : si.1 ∈ q.splits := by
      have := List.mem_map_of_mem (f := Prod.fst) h1
      rwa [List.zipIdx_map_fst] at this
    obtain ⟨ts, k1, k2⟩ := ht si.1 hm
    rw [k1] at h3
    obtain ⟨l1, l2⟩ := k2.1 t h3
    exact (tokenOffsets_delimits (hmem _ hm).1 (hmem _ hm).2 l1 l2 ty).1
  · have key : ∀ (ss : List Split) (k : Nat), (∀ s ∈ ss, s ∈ q.splits) →
        (ss.Pairwise fun s t => ∀ a ∈ s.normalized.spans, ∀ b ∈ t.normalized.spans, NS.Upto a b) →
        ((ss.zipIdx k).flatMap fun si => (si.1.tokens.getD []).map fun t => ((t.id, typeId, t.value, some (word.getD si.2),
          tokenOffsets p.original ty si.1.normalized t, 0, 1) : Row)).Pairwise fun r r' => NS.Upto (offsetsOf r) (offsetsOf r') := by
      intro ss
      induction ss with
      | nil => intro _ _ _; exact .nil
      | cons s ss ih =>
        intro k hss hpw
        rw [List.pairwise_cons] at hpw
        have hsq := hss s List.mem_cons_self
        obtain ⟨ts, k1, k2⟩ := ht s hsq
        rw [List.zipIdx_cons, List.flatMap_cons, List.pairwise_append]
        refine ⟨?_, ih (k + 1) (fun x hx => hss x (List.mem_cons_of_mem _ hx)) hpw.2, ?_⟩
        · rw [List.pairwise_map]
          dsimp only
          rw [k1]
          refine k2.2.imp_of_mem ?_
          intro t t' m1 m2 hle
          obtain ⟨a1, a2⟩ := k2.1 t m1
          obtain ⟨b1, b2⟩ := k2.1 t' m2
          refine cmp hsq hsq a1 a2 b1 b2 ?_
          obtain ⟨f, l, f1, f2, f3⟩ := tokenOffsets_spans (hmem s hsq).1 a1 a2
          obtain ⟨f', l', f1', f2', f3'⟩ := tokenOffsets_spans (hmem s hsq).1 b1 b2
          rw [f3, f3']
          have hle1 := hle.1; have hle2 := hle.2
          exact ⟨(spans_ordered (hmem s hsq).1 hle1 f1 f1').1, (spans_ordered (hmem s hsq).1 (by omega) f2 f2').2⟩
        · intro r hr r' hr'
          obtain ⟨t, m1, rfl⟩ := List.mem_map.1 hr
          obtain ⟨si, n1, n2⟩ := List.mem_flatMap.1 hr'
          obtain ⟨t', m2, rfl⟩ := List.mem_map.1 n2
          have hsi : si.1 ∈ ss := by
            have := List.mem_map_of_mem (f := Prod.fst) n1
            rwa [List.zipIdx_map_fst] at this
          have hsiq := hss si.1 (List.mem_cons_of_mem _ hsi)
          obtain ⟨ts', k1', k2'⟩ := ht si.1 hsiq
          dsimp only at m1
          rw [k1] at m1
          rw [k1'] at m2
          obtain ⟨a1, a2⟩ := k2.1 t m1
          obtain ⟨b1, b2⟩ := k2'.1 t' m2
          refine cmp hsq hsiq a1 a2 b1 b2 ?_
          obtain ⟨f, l, f1, f2, f3⟩ := tokenOffsets_spans (hmem s hsq).1 a1 a2
          obtain ⟨f', l', f1', f2', f3'⟩ := tokenOffsets_spans (hmem _ hsiq).1 b1 b2
          rw [f3, f3']
          exact ⟨(hpw.1 si.1 hsi f (List.mem_of_getElem? f1) f' (List.mem_of_getElem? f1')).1,
            (hpw.1 si.1 hsi l (List.mem_of_getElem? f2) l' (List.mem_of_getElem? f2')).2⟩
    exact key q.splits 0 (fun _ h => h) hord

end PTS

namespace AddedVocab

theorem rangesAt_order : ∀ (ps : List (Option Nat × Str)) (k : Nat),
    (∀ x ∈ rangesAt k ps, k ≤ x.2.1) ∧ (rangesAt k ps).Pairwise fun x y => x.2.2 ≤ y.2.1
  | [], _ => ⟨by simp [rangesAt], .nil⟩
  | (tag, x) :: ps, k => by
    obtain ⟨h1, h2⟩ := rangesAt_order ps (k + blen x)
    rw [rangesAt]
    refine ⟨?_, List.pairwise_cons.2 ⟨fun m hm => h1 m hm, h2⟩⟩
    intro m hm
    rcases List.mem_cons.1 hm with rfl | hm
    · exact Nat.le_refl _
    · have := h1 m hm; omega

theorem toSplit_slices {n : NS} : ∀ (l : List (Option Nat × Range)) {out : List Split}, l.mapM (toSplit n) = some out →
    (l.map (·.2)).mapM (fun r => (n.sliceNormalized r).bind id) = some (out.map (·.normalized)) ∧
      ∀ x ∈ out, ∀ ts, x.tokens = some ts → ∃ id, ts = [⟨id, x.normalized.norm, (0, blen x.normalized.norm)⟩]
  | [], out, h => by cases h; exact ⟨rfl, by simp⟩
  | x :: l, out, h => by
    rw [List.mapM_cons] at h
    simp only [Option.bind_eq_bind, Option.bind_eq_some_iff, Option.pure_def, Option.some.injEq] at h
    obtain ⟨y, hy, ys, h2, rfl⟩ := h
    obtain ⟨i1, i2⟩ := toSplit_slices l h2
    unfold toSplit at hy
    split at hy
    · rename_i sl hsl
      cases hy
      refine ⟨by rw [List.map_cons, List.mapM_cons, i1, hsl]; rfl, ?_⟩
      intro z hz ts hts
      rcases List.mem_cons.1 hz with rfl | hz
      · obtain ⟨id, _, rfl⟩ := Option.map_eq_some_iff.1 hts
        exact ⟨id, rfl⟩
      · exact i2 z hz ts hts
    · cases hy

/-- The added tokens are found in order. -/
theorem splitWithIndices_inOrder {cl : Classes} {av : AddedVocab} {pats : List (Str × Nat)} {whole : Str} {n : NS}
    (hg : n.Good whole) (hne : ∀ p ∈ pats, p.1 ≠ []) (hid : ∀ p ∈ pats, ∃ t, av.rmap.get p.2 = some t)
    (hneat : Neat cl av pats) {o : List Split} (h : splitWithIndices cl av pats n = some o) :
    (∀ x ∈ o, x.normalized.norm ≠ [] → x.normalized.Good whole ∧
      ∀ ts, x.tokens = some ts → InWord x.normalized.norm ts) ∧ NS.InOrder n (o.map (·.normalized)) := by
  obtain ⟨ps, out, h1, h2, h3, h4, h5, h6⟩ := C27_split_partial hg hne hid hneat
  rw [h] at h1; cases h1
  obtain ⟨l, hl, hps⟩ : ∃ l : List (Option Nat × Range), l.mapM (toSplit n) = some o ∧ l.Pairwise fun x y => x.2.2 ≤ y.2.1 := by
    by_cases hn : n.norm = []
    · refine ⟨_, ?_, List.pairwise_singleton _ (none, (0, 0))⟩
      unfold splitWithIndices findMatches at h
      rw [if_pos hn] at h; exact h
    · refine ⟨rangesAt 0 ps, ?_, (rangesAt_order ps 0).2⟩
      unfold splitWithIndices at h
      rw [(h3 hn).1] at h; exact h
  obtain ⟨k1, k2⟩ := toSplit_slices l hl
  refine ⟨fun x hx hne => ⟨h6 x hx hne, fun ts hts => ?_⟩, ?_⟩
  · obtain ⟨id, rfl⟩ := k2 x hx ts hts
    have := blen_pos hne
    exact ⟨by intro t ht; rw [List.mem_singleton.1 ht]; exact ⟨this, Nat.le_refl _⟩, List.pairwise_singleton _ _⟩
  · refine NS.slices_inOrder hg.1 _ ?_ k1
    rw [List.pairwise_map]; exact hps

end AddedVocab

namespace Tokenizer

/-- A tokenizer made of a normalizer and a pre-tokenizer of the library. Without one of them, take the empty sequence.
The added tokens do not get in each other's way. -/
structure IsLibrary (t : Tokenizer) (u : Unicode) (z : Normalizer) (v : CharTables) (y : PreTokenizer) : Prop where
  normalizer : t.normalizer = z.apply u
  preTok : t.preTok = fun p => mapErr (fun _ => .preTok 0) (y.apply v p)
  unicode : u.Ok
  safe : z.Safe
  sound : y.Sound
  tries : TriesOk t.added
  neat : Neat t.cl t.added t.added.trie ∧ Neat t.cl t.added t.added.normTrie

theorem IsPipeline.library {t : Tokenizer} {u : Unicode} {z : Normalizer} {v : CharTables} {y : PreTokenizer}
    (h : IsPipeline t u z v y) : IsLibrary t u z v y :=
  ⟨h.normalizer, h.preTok, h.unicode, h.safe, h.sound, h.tries,
    .inl fun _ _ t ht => (h.bare.2 _ t ht).2.1, .inl fun _ _ t ht => (h.bare.2 _ t ht).2.1⟩

theorem preTokenized_lined {t : Tokenizer} {u : Unicode} {z : Normalizer} {v : CharTables} {y : PreTokenizer}
    (h : IsLibrary t u z v y) {s : Str} {p : PTS} (hp : t.preTokenized s = .ok p) :
    p.Lined ∧ p.original = s ∧ p.Tight := by
  have hne1 : ∀ p ∈ t.added.trie, p.1 ≠ [] := fun p hp => (h.tries p (by simp [hp])).1
  have hne2 : ∀ p ∈ t.added.normTrie, p.1 ≠ [] := fun p hp => (h.tries p (by simp [hp])).1
  have hid1 : ∀ p ∈ t.added.trie, ∃ x, t.added.rmap.get p.2 = some x := fun p hp => (h.tries p (by simp [hp])).2
  have hid2 : ∀ p ∈ t.added.normTrie, ∃ x, t.added.rmap.get p.2 = some x := fun p hp => (h.tries p (by simp [hp])).2
  unfold preTokenized extractAndNormalize at hp
  cases h1 : PTS.split (PTS.ofStr s) (fun _ n => AddedVocab.orPanic (splitWithIndices t.cl t.added t.added.trie n)) with
  | error e => rw [h1] at hp; cases hp
  | ok p1 =>
    rw [h1] at hp
    obtain ⟨a1, a2, a3⟩ := split_lined (lined_ofStr s) (fun i n o hn ho => by
      cases hw : splitWithIndices t.cl t.added t.added.trie n with
      | none => rw [hw] at ho; cases ho
      | some o' =>
        rw [hw] at ho; cases ho
        exact splitWithIndices_inOrder hn hne1 hid1 h.neat.1 hw) h1
    cases h2 : p1.split (fun _ n => AddedVocab.orPanic ((t.normalizer n).bind (splitWithIndices t.cl t.added t.added.normTrie))) with
    | error e =>
      dsimp only [Except.bind] at hp
      rw [h2] at hp; cases hp
    | ok p2 =>
      dsimp only [Except.bind] at hp
      rw [h2] at hp
      obtain ⟨b1, b2, b3⟩ := split_lined a1 (fun i n o hn ho => by
        rw [h.normalizer] at ho
        obtain ⟨n', m1, m2, m3, _⟩ := Normalizer.C56_normalizer h.unicode z h.safe hn
        rw [m1, Option.bind_some] at ho
        cases hw : splitWithIndices t.cl t.added t.added.normTrie n' with
        | none => rw [hw] at ho; cases ho
        | some o' =>
          rw [hw] at ho; cases ho
          obtain ⟨k1, k2⟩ := splitWithIndices_inOrder m3 hne2 hid2 h.neat.2 hw
          exact ⟨k1, .of_edits (Normalizer.apply_edits u z m1) m3.2.1 k2⟩) h2
      have hp : t.preTok p2 = .ok p := hp
      rw [h.preTok] at hp
      cases h3 : y.apply v p2 with
      | error e =>
        dsimp only at hp
        rw [h3] at hp; cases hp
      | ok p3 =>
        dsimp only at hp
        rw [h3] at hp; cases hp
        obtain ⟨c1, c2, c3⟩ := PreTokenizer.apply_lined v y h.sound b1 h3
        refine ⟨c1, c2.trans (b2.trans a2), c3 (b3 (.inl (a3 (.inr ?_))))⟩
        intro x hx
        simp only [PTS.ofStr, PTS.ofNS, List.mem_singleton] at hx
        subst hx; rfl

/-- What `do_tokenize` gives, whatever the limit. -/
theorem tokenizeIn_out {t : Tokenizer} {Q : Str → List Token → Prop} (hm : ∀ w ts, w ≠ [] → t.model w = .ok ts → Q w ts)
    {p q : PTS} {lim : Option (Nat × Direction)}
    (hall : ∀ s ∈ p.splits, s.normalized.norm ≠ [] ∧ ∀ ts, s.tokens = some ts → Q s.normalized.norm ts)
    (hq : t.tokenizeIn p lim = .ok q) :
    q.original = p.original ∧ (q.splits.map (·.normalized)).Sublist (p.splits.map (·.normalized)) ∧
      ∀ r ∈ q.splits, ∃ ts, r.tokens = some ts ∧ Q r.normalized.norm ts := by
  have hf : ∀ (n : NS) (ts : List Token), n.norm ≠ [] → t.model n.norm = .ok ts → Q n.norm ts := fun n ts hn h => hm _ ts hn h
  match lim, hq with
  | none, hq => exact tokenize_out hf hall hq
  | some (max, .right), hq =>
    have hq : (limitLoop (fun n => t.model n.norm) max 0 p.splits).map (fun s => (⟨p.original, s⟩ : PTS)) = .ok q := hq
    cases hl : limitLoop (fun n => t.model n.norm) max 0 p.splits with
    | error x => rw [hl] at hq; cases hq
    | ok rs =>
      rw [hl] at hq; cases hq
      exact ⟨rfl, limitLoop_out hf _ _ hall hl⟩
  | some (max, .left), hq =>
    have hq : (limitLoop (fun n => t.model n.norm) max 0 p.splits.reverse).map
      (fun s => (⟨p.original, s.reverse⟩ : PTS)) = .ok q := hq
    cases hl : limitLoop (fun n => t.model n.norm) max 0 p.splits.reverse with
    | error x => rw [hl] at hq; cases hq
    | ok rs =>
      rw [hl] at hq; cases hq
      obtain ⟨k1, k2⟩ := limitLoop_out hf _ _ (fun x hx => hall x (List.mem_reverse.1 hx)) hl
      refine ⟨rfl, ?_, fun r hr => k2 r (List.mem_reverse.1 hr)⟩
      have := k1.reverse
      simpa using this

/-- The three steps of `encodeText`. -/
theorem encodeText_steps {t : Tokenizer} {lim : Option (Nat × Direction)} {typeId : Nat} {ty : OffsetType} {word : Option Nat} {s : Str}
    {e : Encoding} (he : t.encodeText lim typeId ty word s = .ok e) :
    ∃ p q : PTS, t.preTokenized s = .ok p ∧ t.tokenizeIn p lim = .ok q ∧ q.intoEncoding word typeId ty = .ok e := by
  unfold encodeText at he
  cases hp : t.preTokenized s with
  | error x => rw [hp] at he; cases he
  | ok p =>
    rw [hp] at he
    have he : (t.tokenizeIn p lim).bind (fun q => mapErr (fun _ => EncErr.notTokenized) (q.intoEncoding word typeId ty)) = .ok e := he
    cases hq : t.tokenizeIn p lim with
    | error x => rw [hq] at he; cases he
    | ok q =>
      rw [hq] at he
      have he : mapErr (fun _ => EncErr.notTokenized) (q.intoEncoding word typeId ty) = .ok e := he
      refine ⟨p, q, rfl, hq, ?_⟩
      cases hi : q.intoEncoding word typeId ty with
      | error x => rw [hi] at he; cases he
      | ok e' => rw [hi] at he; cases he; rfl

/-- **C59.** The offsets of an encoding delimit parts of the text that are not empty, in bytes or in characters, and both
the starts and the ends are in the order of the text; also when the tokenization stops early. -/
theorem C59_offsets {t : Tokenizer} {u : Unicode} {z : Normalizer} {v : CharTables} {y : PreTokenizer}
    (h : IsLibrary t u z v y) (hm : ∀ w ts, w ≠ [] → t.model w = .ok ts → InWord w ts)
    {lim : Option (Nat × Direction)} {typeId : Nat} {ty : OffsetType} (hty : ty ≠ .none) {word : Option Nat} {s : Str}
    {e : Encoding} (he : t.encodeText lim typeId ty word s = .ok e) :
    (∀ r ∈ e.rows, Delimits s ty (offsetsOf r)) ∧
      e.rows.Pairwise fun r r' => (offsetsOf r).1 ≤ (offsetsOf r').1 ∧ (offsetsOf r).2 ≤ (offsetsOf r').2 := by
  obtain ⟨p, q, hp, hq, he⟩ := encodeText_steps he
  obtain ⟨p1, p2, p3⟩ := preTokenized_lined h hp
  have out := tokenizeIn_out hm (fun x hx => ⟨p3 x hx, fun ts hts => (p1.tokens x hx ts hts).2⟩) hq
  have := intoEncoding_lined p1 out.1 out.2.1 out.2.2 hty he
  rw [p2] at this
  exact this

end Tokenizer

/-! ## The models -/

theorem InWord.of_tiles : ∀ {ls : List Nat} {k n : Nat} {ts : List Token}, ts.map (·.offsets) = Bpe.offsetsFrom k ls →
    (∀ l ∈ ls, l ≠ 0) → k + ls.sum ≤ n →
    (∀ t ∈ ts, k ≤ t.offsets.1 ∧ t.offsets.1 < t.offsets.2 ∧ t.offsets.2 ≤ n) ∧
      ts.Pairwise fun t t' => NS.Upto t.offsets t'.offsets
  | [], k, n, ts, h, _, _ => by
    have : ts = [] := by simpa [Bpe.offsetsFrom] using h
    subst this; exact ⟨by simp, .nil⟩
  | l :: ls, k, n, [], h, _, _ => by simp [Bpe.offsetsFrom] at h
  | l :: ls, k, n, t :: ts, h, hl, hn => by
    rw [List.map_cons, Bpe.offsetsFrom, List.cons.injEq] at h
    simp only [List.sum_cons] at hn
    have hl0 := hl l List.mem_cons_self
    obtain ⟨i1, i2⟩ := InWord.of_tiles h.2 (fun x hx => hl x (List.mem_cons_of_mem _ hx)) (n := n) (by omega)
    have ht : t.offsets = (k, k + l) := h.1
    refine ⟨?_, List.pairwise_cons.2 ⟨?_, i2⟩⟩
    · intro x hx
      rcases List.mem_cons.1 hx with rfl | hx
      · rw [ht]; dsimp only; omega
      · have := i1 x hx; omega
    · intro x hx
      have := i1 x hx
      rw [ht]
      exact ⟨by dsimp only; omega, by dsimp only; omega⟩

/-- Word-level tokens lie in their word. -/
theorem WordLevel.inWord {m : WordLevel} {w : Str} {ts : List Token} (hw : w ≠ []) (h : m.tokenize w = .ok ts) : InWord w ts := by
  obtain ⟨t, rfl, h1, _⟩ := (C22_tokenize m w ts).1 h
  have := blen_pos hw
  refine ⟨?_, List.pairwise_singleton _ _⟩
  intro x hx
  rw [List.mem_singleton.1 hx, h1]
  exact ⟨this, Nat.le_refl _⟩

theorem WordPiece.tile_inWord : ∀ {ts : List Token} {a b : Nat}, WordPiece.Tile a b ts →
    a ≤ b ∧ (∀ t ∈ ts, a ≤ t.offsets.1 ∧ t.offsets.1 < t.offsets.2 ∧ t.offsets.2 ≤ b) ∧
      ts.Pairwise fun t t' => NS.Upto t.offsets t'.offsets
  | [], a, b, h => ⟨Nat.le_of_eq h, by simp, .nil⟩
  | t :: ts, a, b, ⟨h1, h2, h3⟩ => by
    obtain ⟨i1, i2, i3⟩ := tile_inWord h3
    refine ⟨by omega, ?_, List.pairwise_cons.2 ⟨?_, i3⟩⟩
    · intro x hx
      rcases List.mem_cons.1 hx with rfl | hx
      · exact ⟨by omega, h2, i1⟩
      · have := i2 x hx; omega
    · intro x hx
      have := i2 x hx
      exact ⟨by omega, by omega⟩

/-- WordPiece tokens lie in their word. -/
theorem WordPiece.inWord {m : WordPiece} {w : Str} {ts : List Token} (hw : w ≠ []) (h : m.tokenize w = .ok ts) : InWord w ts := by
  rcases (C21_tokenize m w (.ok ts)).1 h with ⟨_, ts', h1, h2⟩ | ⟨_, ⟨id, _, h2⟩ | ⟨_, h2⟩⟩
  · cases h2
    obtain ⟨_, h3, h4⟩ := tile_inWord (C21_greedy_tiles h1).1
    exact ⟨fun t ht => by have := h3 t ht; omega, h4⟩
  · cases h2
    have := blen_pos hw
    exact ⟨by intro t ht; rw [List.mem_singleton.1 ht]; exact ⟨this, Nat.le_refl _⟩, List.pairwise_singleton _ _⟩
  · cases h2

namespace Bpe

theorem classLoop_lens_le {b : Bpe} : ∀ {cls : List (CharClass × Nat)} {st st' : InitSt},
    classLoop b cls st = some st' → (∀ k ∈ cls, ∀ ids, k.1 = .bytes ids → ids.length = k.2) →
    ((flushUnk st').map (·.2)).sum ≤ ((flushUnk st).map (·.2)).sum + (cls.map (·.2)).sum := by
  intro cls
  cases hu : b.unk with
  | some t => intro st st' h1 h2; exact Nat.le_of_eq (classLoop_lens (by simp [hu]) h1 h2)
  | none =>
    induction cls with
    | nil => intro st st' h _; simp [classLoop] at h; subst h; simp
    | cons k ks ih =>
      intro st st' h hb
      obtain ⟨kc, kn⟩ := k
      obtain ⟨o, p⟩ := st
      have hb' := fun k hk => hb k (List.mem_cons_of_mem _ hk)
      rw [classLoop] at h
      cases kc with
      | known id =>
        simp only [stepClass] at h
        refine Nat.le_trans (ih h hb') ?_
        cases p <;> simp [flushUnk] <;> omega
      | bytes ids =>
        simp only [stepClass] at h
        have hl := hb _ List.mem_cons_self ids rfl
        simp only at hl
        refine Nat.le_trans (ih h hb') ?_
        have hones : ((ids.map fun t => (t, 1)).map (·.2)).sum = ids.length := by
          clear hl h hb; induction ids with
          | nil => rfl
          | cons i is ihi => simp only [List.map_cons, List.sum_cons, List.length_cons, ihi]; omega
        cases p with
        | none => simp only [flushUnk, List.map_append, sum_append, hones, List.map_cons, List.sum_cons]; omega
        | some un =>
          simp only [flushUnk, List.map_append, sum_append, hones, List.map_cons, List.sum_cons,
            List.map_nil, List.sum_nil]; omega
      | unknown =>
        simp only [stepClass, stepUnk, hu] at h
        refine Nat.le_trans (ih h hb') ?_
        simp

/-- The initial symbols are not longer than the word. -/
theorem initSyms_le {b : Bpe} {w : Str} {l : List (Nat × Nat)} (h : initSyms b w = some l)
    (hp : b.byteFallback = true → b.pre = none ∧ b.suf = none) : (l.map (·.2)).sum ≤ blen w := by
  unfold initSyms at h
  rw [Option.map_eq_some_iff] at h
  obtain ⟨st, h1, rfl⟩ := h
  rw [initLoop_eq] at h1
  refine Nat.le_trans (classLoop_lens_le h1 ?_) ?_
  · intro k hk ids hi
    obtain ⟨c, s, rfl, f, l', rfl⟩ := classesFrom_mem hk
    simp only at hi ⊢
    have hcl := classified_iff.2 hi.symm
    cases hcl with
    | bytes _ hb hids =>
      obtain ⟨hpre, hsuf⟩ := hp hb
      have hc : charSym b f l' c = [c] := by
        rw [charSym_eq, hpre, hsuf]; cases f <;> cases l' <;> simp
      rw [hc] at hids
      have := congrArg List.length hids
      simp only [List.length_map, length_strBytes] at this
      simp at this; omega
  · have : ∀ (w : Str) (first : Bool), ((classesFrom b first w).map (·.2)).sum = blen w := by
      intro w
      induction w with
      | nil => intro _; rfl
      | cons c cs ih => intro _; simp [classesFrom, ih]
    rw [this]; simp [flushUnk]

/-- BPE tokens lie in their word, whatever is drawn for dropout. Byte fallback together with a prefix or a suffix is left
out: the bytes of these count too. -/
theorem inWord {b : Bpe} (h : Built b) (hp : b.byteFallback = true → b.pre = none ∧ b.suf = none) {coins : Nat → Bool}
    {w : Str} {ts : List Token} (hw : w ≠ []) (ht : tokenize b coins w = .ok ts) : InWord w ts := by
  have main : ∀ coins ts, mergeToTokens b coins w = .ok ts → InWord w ts := by
    intro coins ts ht
    unfold mergeToTokens mergeWord at ht
    cases hl : initSyms b w with
    | none => simp only [hl] at ht; cases ht
    | some l =>
      have hok := initSyms_ok hl
      obtain ⟨size, hc⟩ := h.coherent
      obtain ⟨w', h1, h2, _, _⟩ := mergeAll_spec hc l (fun x hx => (hok x hx).1) coins
      obtain ⟨ts', h4, h5, h6, h7⟩ := tokensFrom_spec h (symsOf w') 0 (star_ids h h2 (fun x hx => (hok x hx).2))
      simp only [hl, h1, wordToTokens, h4] at ht
      cases ht
      obtain ⟨k1, k2⟩ := star_lens h2
      obtain ⟨g1, g2⟩ := InWord.of_tiles h6 (n := blen w) (by
        intro x hx
        obtain ⟨y, hy, rfl⟩ := List.mem_map.1 hx
        exact k2 (fun z hz => (hok z hz).1) y hy) (by rw [k1, Nat.zero_add]; exact initSyms_le hl hp)
      exact ⟨fun t ht => (g1 t ht).2, g2⟩
  unfold tokenize at ht
  rw [if_neg hw] at ht
  cases hd : b.useDropout with
  | true => rw [hd] at ht; exact main coins ts ht
  | false =>
    simp only [hd, Bool.false_eq_true, if_false] at ht
    cases hi : b.ignoreMerges with
    | false => simp only [hi, Bool.false_eq_true, if_false] at ht; exact main _ ts ht
    | true =>
      simp only [hi, if_true] at ht
      cases hv : b.vocab.get w with
      | none => rw [hv] at ht; exact main _ ts ht
      | some id =>
        rw [hv] at ht
        cases ht
        have := blen_pos hw
        exact ⟨by intro t ht; rw [List.mem_singleton.1 ht]; exact ⟨this, Nat.le_refl _⟩, List.pairwise_singleton _ _⟩

end Bpe

namespace Unigram

theorem fuse_ne : ∀ (l : List (Str × Bool)), (∀ x ∈ l, x.1 ≠ []) → ∀ p ∈ fuse l, p ≠ []
  | [], _, p, hp => by cases hp
  | (a, false) :: r, h, p, hp => by
    rw [fuse] at hp
    rcases List.mem_cons.1 hp with rfl | hp
    · exact h _ List.mem_cons_self
    · exact fuse_ne r (fun x hx => h x (List.mem_cons_of_mem _ hx)) p hp
  | (a, true) :: r, h, p, hp => by
    have ha := h (a, true) List.mem_cons_self
    have ih := fuse_ne r (fun x hx => h x (List.mem_cons_of_mem _ hx))
    simp only [fuse] at hp
    split at hp
    · rename_i r' q qs he
      rcases List.mem_cons.1 hp with rfl | hp
      · simp [ha]
      · exact ih p (by rw [he]; exact List.mem_cons_of_mem _ hp)
    · rcases List.mem_cons.1 hp with rfl | hp
      · exact ha
      · exact ih p hp

theorem tokens_inWord {vocab : List (Str × Rat)} {unk : Option Nat} {bf : Bool} : ∀ {ps : List Str} {pos n : Nat} {ts : List Token},
    (∀ p ∈ ps, p ≠ []) → pos + blen ps.flatten ≤ n → TokensSpec vocab unk bf pos ps ts →
    (∀ t ∈ ts, pos ≤ t.offsets.1 ∧ t.offsets.1 < t.offsets.2 ∧ t.offsets.2 ≤ n) ∧
      ts.Pairwise fun t t' => NS.Upto t.offsets t'.offsets
  | [], pos, n, ts, _, _, h => by
    have h : ts = [] := h
    subst h; exact ⟨by simp, .nil⟩
  | p :: ps, pos, n, ts, hne, hn, ⟨g, r, h1, h2, h3⟩ => by
    have hp := blen_pos (hne p List.mem_cons_self)
    simp only [List.flatten_cons, blen_append] at hn
    obtain ⟨i1, i2⟩ := tokens_inWord (fun x hx => hne x (List.mem_cons_of_mem _ hx)) (n := n) (by omega) h3
    have hg : ∀ t ∈ g, t.offsets = (pos, pos + blen p) := by
      rcases h2 with ⟨i, sc, _, rfl⟩ | ⟨_, _, _, h⟩ | ⟨_, _, k, _, rfl⟩
      · intro t ht; rw [List.mem_singleton.1 ht]
      · exact fun t ht => (h t ht).1
      · intro t ht; rw [List.mem_singleton.1 ht]
    subst h1
    refine ⟨?_, ?_⟩
    · intro t ht
      rcases List.mem_append.1 ht with ht | ht
      · rw [hg t ht]; dsimp only; omega
      · have := i1 t ht; omega
    · rw [List.pairwise_append]
      refine ⟨?_, i2, ?_⟩
      · refine List.pairwise_of_forall_mem_list ?_
        intro t ht t' ht'
        rw [hg t ht, hg t' ht']; exact ⟨Nat.le_refl _, Nat.le_refl _⟩
      · intro t ht t' ht'
        have := i1 t' ht'
        rw [hg t ht]
        exact ⟨by dsimp only; omega, by dsimp only; omega⟩

theorem encode_ne {vocab : List (Str × Rat)} {unk : Option Nat} {bf : Bool} {u : Unigram} (hu : Unigram.from vocab unk bf = .ok u)
    {w : Str} {ps : List Str} (hw : w ≠ []) (h1 : u.encode w = .ok ps) : ∀ p ∈ ps, p ≠ [] := by
  unfold encode at h1
  rw [if_neg hw, if_pos (from_flags hu).1] at h1
  by_cases hv : vocab = []
  · subst hv
    exact absurd (encodeOptimized_empty hu h1).1 hw
  · have ⟨xs, g1, _, g3⟩ := C23_optimal hu (minOf_isMin hv) h1
    rw [g3]
    refine fuse_ne _ ?_
    intro x hx
    obtain ⟨y, hy, rfl⟩ := List.mem_map.1 hx
    rcases g1.2 y hy with ⟨k, _⟩ | ⟨c, k, _⟩
    · exact k
    · rw [k]; simp

/-- Unigram tokens lie in their word. -/
theorem inWord {vocab : List (Str × Rat)} {unk : Option Nat} {bf : Bool} {u : Unigram} (hu : Unigram.from vocab unk bf = .ok u)
    {w : Str} {ts : List Token} (hw : w ≠ []) (h : u.tokenize w = .ok ts) : InWord w ts := by
  obtain ⟨ps, h1, h2, h3⟩ := C49_tokenize hu h
  obtain ⟨g1, g2⟩ := tokens_inWord (encode_ne hu hw h1) (n := blen w) (by rw [h2]; omega) h3
  exact ⟨fun t ht => (g1 t ht).2, g2⟩

end Unigram
end Tok
