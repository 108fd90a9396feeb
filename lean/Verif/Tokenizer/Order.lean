import Verif.Tokenizer.Pipeline

/-!
# The pieces of a text stay in the order of the text (for C59)
-/

namespace Tok
namespace NS

/-- Where the bytes of a piece come from, in the whole text. -/
def spans (n : NS) : List Range := n.al.map fun a => (n.shift + a.1, n.shift + a.2)

/-- One range begins and ends no later than another. -/
def Upto (a b : Range) : Prop := a.1 ≤ b.1 ∧ a.2 ≤ b.2

/-- The alignments of one piece occur in those of another, except that `(0, 0)` may be new. -/
def Kin (n n' : NS) : Prop := n'.shift = n.shift ∧ ∀ a ∈ n'.al, a = (0, 0) ∨ a ∈ n.al

theorem Kin.refl (n : NS) : Kin n n := ⟨rfl, fun _ h => .inr h⟩

theorem Kin.trans {a b c : NS} (h1 : Kin a b) (h2 : Kin b c) : Kin a c :=
  ⟨h2.1.trans h1.1, fun x hx => (h2.2 x hx).elim .inl fun h => h1.2 x h⟩

theorem Kin.spans {n n' : NS} (h : Kin n n') (hs : n'.Solid) : ∀ a ∈ n'.spans, a ∈ n.spans := by
  intro a ha
  obtain ⟨x, hx, rfl⟩ := List.mem_map.1 ha
  rw [h.1]
  rcases h.2 x hx with rfl | hm
  · exact absurd (hs _ hx) (Nat.lt_irrefl 0)
  · exact List.mem_map_of_mem hm

theorem transformLoop_mem {al : List Range} : ∀ (ds : List (Char × Int)) (off : Nat) (rest : Str) {as : List Range},
    transformLoop al ds off rest = some as → ∀ a ∈ as, a = (0, 0) ∨ a ∈ al
  | [], _, _, _, h, a, ha => by cases h; cases ha
  | (c, ch) :: ds, off, rest, as, h, a, ha => by
    rw [transformLoop] at h
    split at h
    · cases h
    · rename_i align hal
      dsimp only at h
      split at h
      · cases h
      · rename_i as' has
        cases h
        rcases List.mem_append.1 ha with ha | ha
        · rw [(List.mem_replicate.1 ha).2]
          split at hal
          · split at hal
            · exact .inl (Option.some.inj hal).symm
            · exact .inr (List.mem_of_getElem? hal)
          · exact .inr (List.mem_of_getElem? hal)
        · exact transformLoop_mem ds _ _ has a ha

theorem transformRange_kin {n n' : NS} {r : Range} {ds : List (Char × Int)} {init : Nat}
    (h : n.transformRange r ds init = some n') : Kin n n' := by
  unfold transformRange at h
  split at h
  · split at h
    · cases h
    · rename_i as has
      split at h
      · cases h
        refine ⟨rfl, fun a ha => ?_⟩
        rcases List.mem_append.1 ha with ha | ha
        · rcases List.mem_append.1 ha with ha | ha
          · exact .inr (List.mem_of_mem_take ha)
          · exact transformLoop_mem _ _ _ has a ha
        · exact .inr (List.mem_of_mem_drop ha)
      · cases h
  · cases h

theorem transformRangeOriginal_kin {n n' : NS} {r : Range} {ds : List (Char × Int)} {init : Nat}
    (h : n.transformRangeOriginal r ds init = some n') : Kin n n' := by
  unfold transformRangeOriginal at h
  split at h
  · cases h; exact .refl _
  · exact transformRange_kin h

theorem replaceLoop_mem {n : NS} {content : Str} : ∀ (ms : Matches) (last : Nat) {p : Str × List Range},
    replaceLoop n content last ms = some p → ∀ a ∈ p.2, a = (0, 0) ∨ a ∈ n.al
  | [], last, p, h, a, ha => by
    rw [replaceLoop] at h
    split at h
    · split at h
      · cases h; exact .inr (List.mem_of_mem_drop ha)
      · cases h
    · cases h
  | ((s, e), true) :: ms, last, p, h, a, ha => by
    rw [replaceLoop] at h
    split at h
    · rename_i m copied cal h1 h2 h3
      split at h
      · cases h
      · rename_i as has
        split at h
        · cases h
        · rename_i t l hl
          cases h
          rcases List.mem_append.1 ha with ha | ha
          · rcases List.mem_append.1 ha with ha | ha
            · unfold slice? at h3
              split at h3
              · cases h3; exact .inr (List.mem_of_mem_take (List.mem_of_mem_drop ha))
              · cases h3
            · exact transformLoop_mem _ _ _ has a ha
          · exact replaceLoop_mem ms e hl a ha
    · cases h
  | (_, false) :: ms, last, p, h, a, ha => by
    rw [replaceLoop] at h
    exact replaceLoop_mem ms last h a ha

/-- Normalizing a piece invents no sources. -/
theorem edits_kin {n n' : NS} (h : Edits n n') : Kin n n' := by
  induction h with
  | refl => exact .refl _
  | transform _ h ih => exact ih.trans (transformRangeOriginal_kin h)
  | filter _ h ih => exact ih.trans (transformRangeOriginal_kin h)
  | prepend _ h ih =>
    refine ih.trans ?_
    unfold NS.prepend at h
    split at h
    · cases h; exact .refl _
    · exact transformRange_kin h
  | append _ h ih =>
    refine ih.trans ?_
    unfold NS.append at h
    split at h <;> exact transformRange_kin h
  | map _ h ih => exact ih.trans (transformRangeOriginal_kin h)
  | mapChars _ h ih => exact ih.trans (transformRangeOriginal_kin h)
  | clear _ h ih =>
    refine ih.trans ?_
    unfold NS.clear at h
    simp only [Option.map_eq_some_iff, Prod.mk.injEq] at h
    obtain ⟨x, hx, rfl, _⟩ := h
    exact transformRangeOriginal_kin hx
  | @lrstrip a b ws l r _ h ih =>
    have key : ∀ x y : Nat, (if x > 0 ∨ y > 0 then a.transform (stripDest a.norm x y) x else some a) = some b → Kin a b := by
      intro x y hx
      split at hx
      · exact transformRangeOriginal_kin hx
      · cases hx; exact .refl _
    exact ih.trans (key _ _ h)
  | replace _ h ih =>
    refine ih.trans ?_
    unfold NS.replace at h
    simp only [Option.map_eq_some_iff] at h
    obtain ⟨x, hx, rfl⟩ := h
    exact ⟨rfl, fun a ha => replaceLoop_mem _ _ hx a ha⟩

/-- The sources of the bytes in a range. -/
def part (n : NS) (r : Range) : List Range := ((n.al.take r.2).drop r.1).map fun a => (n.shift + a.1, n.shift + a.2)

theorem slice_spans {n x : NS} {r : Range} (hn : n.Reachable) (h : n.sliceNormalized r = some (some x)) :
    ∀ a ∈ x.spans, a ∈ n.part r := by
  unfold sliceNormalized at h
  split at h
  · split at h
    · cases h
    · rename_i or hor
      unfold sliceWith at h
      split at h
      · cases h
      · rename_i al hal
        split at h
        · rename_i hall
          simp only [Option.some.injEq] at h
          subst h
          unfold slice? at hal
          split at hal
          · rename_i hr
            simp only [Option.some.injEq] at hal
            subst hal
            intro a ha
            obtain ⟨c, hc, rfl⟩ := List.mem_map.1 ha
            obtain ⟨b, hb, rfl⟩ := List.mem_map.1 hc
            have h1 := List.all_eq_true.1 hall b hb
            simp only [decide_eq_true_eq] at h1
            have h2 := ((C08_wellFormed hn).valid b (List.mem_of_mem_take (List.mem_of_mem_drop hb))).1
            refine List.mem_map.2 ⟨b, hb, ?_⟩
            dsimp only
            refine Prod.ext ?_ ?_ <;> dsimp only <;> omega
          · cases hal
        · cases h
  · cases h

theorem part_spans (n : NS) (r : Range) : ∀ a ∈ n.part r, a ∈ n.spans := by
  intro a ha
  obtain ⟨x, hx, rfl⟩ := List.mem_map.1 ha
  exact List.mem_map_of_mem (List.mem_of_mem_take (List.mem_of_mem_drop hx))

theorem part_order {n : NS} (h : Reachable n) {r r' : Range} (hr : r.2 ≤ r'.1) :
    ∀ a ∈ n.part r, ∀ b ∈ n.part r', Upto a b := by
  intro a ha b hb
  obtain ⟨x, hx, rfl⟩ := List.mem_map.1 ha
  obtain ⟨y, hy, rfl⟩ := List.mem_map.1 hb
  have hx := List.mem_of_mem_drop hx
  have hy : y ∈ n.al.drop r'.1 := by
    rw [List.drop_take] at hy; exact List.mem_of_mem_take hy
  have hy : y ∈ n.al.drop r.2 := by
    have : n.al.drop r'.1 = (n.al.drop r.2).drop (r'.1 - r.2) := by rw [List.drop_drop]; congr 1; omega
    rw [this] at hy; exact List.mem_of_mem_drop hy
  have := (C08_wellFormed h).ordered
  rw [← List.take_append_drop r.2 n.al, List.pairwise_append] at this
  have := this.2.2 x hx y hy
  exact ⟨Nat.add_le_add_left this.1 _, Nat.add_le_add_left this.2 _⟩

/-- Pieces of `n` in order, each within `n`. -/
def InOrder (n : NS) (out : List NS) : Prop :=
  (∀ x ∈ out, ∀ a ∈ x.spans, a ∈ n.spans) ∧ out.Pairwise fun x y => ∀ a ∈ x.spans, ∀ b ∈ y.spans, Upto a b

theorem slices_mem {n : NS} : ∀ (rs : List Range) {out : List NS},
    rs.mapM (fun r => (n.sliceNormalized r).bind id) = some out → ∀ x ∈ out, ∃ r ∈ rs, n.sliceNormalized r = some (some x)
  | [], out, h, x, hx => by cases h; cases hx
  | r :: rs, out, h, x, hx => by
    rw [List.mapM_cons] at h
    simp only [Option.bind_eq_bind, Option.bind_eq_some_iff, Option.pure_def, Option.some.injEq] at h
    obtain ⟨y, ⟨z, hz, hy⟩, ys, h2, rfl⟩ := h
    rcases List.mem_cons.1 hx with rfl | hx
    · exact ⟨r, by simp, by rw [hz]; exact congrArg some hy⟩
    · obtain ⟨r', h3, h4⟩ := slices_mem rs h2 x hx
      exact ⟨r', by simp [h3], h4⟩

theorem slices_inOrder {n : NS} (hn : Reachable n) : ∀ (rs : List Range) {out : List NS}, rs.Pairwise (fun r r' => r.2 ≤ r'.1) →
    rs.mapM (fun r => (n.sliceNormalized r).bind id) = some out → InOrder n out
  | [], out, _, h => by cases h; exact ⟨by simp, .nil⟩
  | r :: rs, out, hr, h => by
    rw [List.pairwise_cons] at hr
    rw [List.mapM_cons] at h
    simp only [Option.bind_eq_bind, Option.bind_eq_some_iff, Option.pure_def, Option.some.injEq] at h
    obtain ⟨y, ⟨z, hz, hy⟩, ys, h2, rfl⟩ := h
    have hy : n.sliceNormalized r = some (some y) := by rw [hz]; exact congrArg some hy
    obtain ⟨i1, i2⟩ := slices_inOrder hn rs hr.2 h2
    refine ⟨?_, List.pairwise_cons.2 ⟨?_, i2⟩⟩
    · intro x hx a ha
      rcases List.mem_cons.1 hx with rfl | hx
      · exact part_spans n r a (slice_spans hn hy a ha)
      · exact i1 x hx a ha
    · intro x hx a ha b hb
      obtain ⟨r', h3, h4⟩ := slices_mem rs h2 x hx
      exact part_order hn (hr.1 r' h3) a (slice_spans hn hy a ha) b (slice_spans hn h4 b hb)

theorem piecesAt_order : ∀ (ps : List (Str × Bool)) (k : Nat),
    (∀ m ∈ piecesAt k ps, k ≤ m.1.1) ∧ (piecesAt k ps).Pairwise fun m m' => m.1.2 ≤ m'.1.1
  | [], _ => ⟨by simp [piecesAt], .nil⟩
  | (p, f) :: ps, k => by
    obtain ⟨h1, h2⟩ := piecesAt_order ps (k + blen p)
    rw [piecesAt]
    refine ⟨?_, List.pairwise_cons.2 ⟨fun m hm => h1 m hm, h2⟩⟩
    intro m hm
    rcases List.mem_cons.1 hm with rfl | hm
    · exact Nat.le_refl _
    · have := h1 m hm; omega

/-- The pieces of `split` are in order, for every pattern that covers the text. -/
theorem split_inOrder {n : NS} (hn : Reachable n) {ms : Matches} (hm : Covers n.norm 0 ms) {b : Behavior} {out : List NS}
    (h : n.split ms b = some out) : InOrder n out := by
  obtain ⟨ps, h1, h2⟩ := piecesAt_of_covers ms [] n.norm rfl hm
  simp only [blen_nil] at h2
  obtain ⟨qs, g1, -, -⟩ := piecesAt_filter_removed ps b 0
  unfold split at h
  rw [h2, g1] at h
  have hrs : ((((piecesAt 0 qs).filter (!·.2)).map (·.1))).Pairwise fun r r' => r.2 ≤ r'.1 := by
    rw [List.pairwise_map]
    exact ((piecesAt_order qs 0).2).filter _
  refine slices_inOrder hn _ hrs ?_
  rw [← h]
  generalize (piecesAt 0 qs).filter (!·.2) = l
  clear h hrs
  induction l with
  | nil => rfl
  | cons x l ih => rw [List.map_cons, List.mapM_cons, List.mapM_cons, ih]

theorem InOrder.of_edits {n m : NS} {out : List NS} (h : Edits n m) (hs : m.Solid) (ho : InOrder m out) : InOrder n out :=
  ⟨fun x hx a ha => (edits_kin h).spans hs a (ho.1 x hx a ha), ho.2⟩

theorem InOrder.single {n m : NS} (h : Edits n m) (hs : m.Solid) : InOrder n [m] :=
  ⟨by intro x hx; rw [List.mem_singleton.1 hx]; exact (edits_kin h).spans hs, List.pairwise_singleton _ _⟩

/-- Every byte of the piece comes from exactly one character of the whole text. -/
def FromChars (whole : Str) (n : NS) : Prop :=
  ∀ a ∈ n.spans, ∃ p c q, whole = p ++ c :: q ∧ a = (blen p, blen p + c.utf8Size)

theorem fromChars_ofStr (s : Str) : FromChars s (ofStr s) := by
  have key : ∀ (r p : Str), ∀ a ∈ alignFrom (blen p) r, ∃ p' c q, p ++ r = p' ++ c :: q ∧ a = (blen p', blen p' + c.utf8Size) := by
    intro r
    induction r with
    | nil => intro p a ha; cases ha
    | cons c r ih =>
      intro p a ha
      rw [alignFrom] at ha
      rcases List.mem_append.1 ha with ha | ha
      · exact ⟨p, c, r, rfl, (List.mem_replicate.1 ha).2⟩
      · obtain ⟨p', c', q, h1, h2⟩ := ih (p ++ [c]) a (by simpa using ha)
        exact ⟨p', c', q, by rw [← h1]; simp, h2⟩
  intro a ha
  obtain ⟨x, hx, rfl⟩ := List.mem_map.1 ha
  obtain ⟨p', c, q, h1, h2⟩ := key s [] x hx
  exact ⟨p', c, q, h1, by rw [h2]; simp [ofStr]⟩

end NS

/-- Tokens that lie in a word, none of them empty, in order. -/
def InWord (w : Str) (ts : List Token) : Prop :=
  (∀ t ∈ ts, t.offsets.1 < t.offsets.2 ∧ t.offsets.2 ≤ blen w) ∧ ts.Pairwise fun t t' => NS.Upto t.offsets t'.offsets

namespace PTS

/-- Every piece knows where it lies, the pieces are in the order of the text, and tokens lie in their pieces. -/
structure Lined (p : PTS) : Prop where
  good : ∀ s ∈ p.splits, s.normalized.Good p.original
  chars : ∀ s ∈ p.splits, s.normalized.FromChars p.original
  order : p.splits.Pairwise fun s t => ∀ a ∈ s.normalized.spans, ∀ b ∈ t.normalized.spans, NS.Upto a b
  tokens : ∀ s ∈ p.splits, ∀ ts, s.tokens = some ts → s.normalized.norm ≠ [] ∧ InWord s.normalized.norm ts

/-- No piece is empty. -/
def Tight (p : PTS) : Prop := ∀ s ∈ p.splits, s.normalized.norm ≠ []

theorem lined_ofStr (s : Str) : (ofStr s).Lined := by
  have key : ∀ x ∈ (ofStr s).splits, x = ⟨NS.ofStr s, none⟩ := by
    intro x hx
    simpa [ofStr, ofNS] using hx
  refine ⟨?_, ?_, List.pairwise_singleton _ _, ?_⟩
  · intro x hx; rw [key x hx]; exact NS.good_ofStr s
  · intro x hx; rw [key x hx]; exact NS.fromChars_ofStr s
  · intro x hx ts ht; rw [key x hx] at ht; cases ht

/-- A function that cuts pieces into pieces in order. -/
def CutsInOrder (whole : Str) (f : Nat → NS → Except Unit (List Split)) : Prop :=
  ∀ i n o, n.Good whole → f i n = .ok o → (∀ x ∈ o, x.normalized.norm ≠ [] → x.normalized.Good whole ∧
    ∀ ts, x.tokens = some ts → InWord x.normalized.norm ts) ∧ NS.InOrder n (o.map (·.normalized))

theorem split_lined {p p' : PTS} {f : Nat → NS → Except Unit (List Split)} (hp : p.Lined) (hf : CutsInOrder p.original f)
    (h : p.split f = .ok p') : p'.Lined ∧ p'.original = p.original ∧ (Tight p ∨ (∀ s ∈ p.splits, s.tokens = none) → Tight p') := by
  obtain ⟨h0, outs, h1, h2, h3⟩ := (C13_split_in_place p p' f).1 h
  have key : ∀ (i : Nat) (hi : i < p.splits.length) (hi' : i < outs.length), (∀ x ∈ outs[i], x.normalized.Good p.original ∧
      (∀ a ∈ x.normalized.spans, a ∈ p.splits[i].normalized.spans) ∧
      (∀ ts, x.tokens = some ts → x.normalized.norm ≠ [] ∧ InWord x.normalized.norm ts) ∧
      (p.splits[i].normalized.norm ≠ [] ∨ p.splits[i].tokens = none → x.normalized.norm ≠ [])) ∧
      outs[i].Pairwise fun s t => ∀ a ∈ s.normalized.spans, ∀ b ∈ t.normalized.spans, NS.Upto a b := by
    intro i hi hi'
    obtain ⟨g1, g2⟩ := h3 i _ _ (List.getElem?_eq_getElem hi) (List.getElem?_eq_getElem hi')
    have hg := hp.good _ (List.getElem_mem hi)
    cases ht : p.splits[i].tokens with
    | some ts =>
      rw [g1 (by rw [ht]; rfl)]
      refine ⟨?_, List.pairwise_singleton _ _⟩
      intro x hx
      rw [List.mem_singleton.1 hx]
      exact ⟨hg, fun _ h => h, hp.tokens _ (List.getElem_mem hi), fun h => h.elim id (fun h => by cases h)⟩
    | none =>
      obtain ⟨o, k1, k2⟩ := g2 ht
      obtain ⟨j1, j2, j3⟩ := hf i _ o hg k1
      rw [k2]
      refine ⟨?_, ?_⟩
      · intro x hx
        obtain ⟨hx, hne⟩ := List.mem_filter.1 hx
        have hne : x.normalized.norm ≠ [] := by simpa using hne
        exact ⟨(j1 x hx hne).1, j2 _ (List.mem_map_of_mem hx), fun ts hts => ⟨hne, (j1 x hx hne).2 ts hts⟩, fun _ => hne⟩
      · rw [List.pairwise_map] at j3
        exact j3.filter _
  have mem : ∀ x ∈ p'.splits, ∃ (i : Nat) (hi : i < p.splits.length) (hi' : i < outs.length), x ∈ outs[i] := by
    intro x hx
    rw [h2, List.mem_flatten] at hx
    obtain ⟨out, ho, hx⟩ := hx
    obtain ⟨i, hi, rfl⟩ := List.getElem_of_mem ho
    exact ⟨i, by omega, hi, hx⟩
  refine ⟨⟨?_, ?_, ?_, ?_⟩, h0, ?_⟩
  · intro x hx
    obtain ⟨i, hi, hi', hx⟩ := mem x hx
    rw [h0]; exact ((key i hi hi').1 x hx).1
  · intro x hx a ha
    obtain ⟨i, hi, hi', hx⟩ := mem x hx
    rw [h0]; exact hp.chars _ (List.getElem_mem hi) a (((key i hi hi').1 x hx).2.1 a ha)
  · rw [h2, List.pairwise_flatten]
    refine ⟨?_, ?_⟩
    · intro out ho
      obtain ⟨i, hi, rfl⟩ := List.getElem_of_mem ho
      exact (key i (by omega) hi).2
    · rw [List.pairwise_iff_getElem]
      intro i j hi hj hij x hx y hy a ha b hb
      have := List.pairwise_iff_getElem.1 hp.order i j (by omega) (by omega) hij
      exact this a (((key i (by omega) hi).1 x hx).2.1 a ha) b (((key j (by omega) hj).1 y hy).2.1 b hb)
  · intro x hx
    obtain ⟨i, hi, hi', hx⟩ := mem x hx
    exact ((key i hi hi').1 x hx).2.2.1
  · intro ht x hx
    obtain ⟨i, hi, hi', hx⟩ := mem x hx
    exact ((key i hi hi').1 x hx).2.2.2 (ht.imp (fun h => h _ (List.getElem_mem hi)) fun h => h _ (List.getElem_mem hi))

theorem normalize_lined {p p' : PTS} {f : NS → Except Unit NS} (hp : p.Lined)
    (hf : ∀ n n', n.Good p.original → f n = .ok n' → n'.Good p.original ∧ NS.Edits n n' ∧ (n.norm ≠ [] → n'.norm ≠ []))
    (h : p.normalize f = .ok p') : p'.Lined ∧ p'.original = p.original ∧ (Tight p → Tight p') := by
  obtain ⟨h0, h1, h2⟩ := (C13_normalize p p' f).1 h
  have key : ∀ (i : Nat) (hi : i < p.splits.length) (hi' : i < p'.splits.length), p'.splits[i].normalized.Good p.original ∧
      (∀ a ∈ p'.splits[i].normalized.spans, a ∈ p.splits[i].normalized.spans) ∧
      (∀ ts, p'.splits[i].tokens = some ts → p'.splits[i].normalized.norm ≠ [] ∧ InWord p'.splits[i].normalized.norm ts) ∧
      (p.splits[i].normalized.norm ≠ [] → p'.splits[i].normalized.norm ≠ []) := by
    intro i hi hi'
    obtain ⟨g1, g2⟩ := h2 i _ _ (List.getElem?_eq_getElem hi) (List.getElem?_eq_getElem hi')
    have hg := hp.good _ (List.getElem_mem hi)
    cases ht : p.splits[i].tokens with
    | some ts =>
      rw [g1 (by rw [ht]; rfl)]
      exact ⟨hg, fun _ h => h, hp.tokens _ (List.getElem_mem hi), id⟩
    | none =>
      obtain ⟨k1, k2, k3⟩ := hf _ _ hg (g2 ht).2
      exact ⟨k1, (NS.edits_kin k2).spans k1.2.1, fun ts hts => (by rw [(g2 ht).1] at hts; cases hts), k3⟩
  refine ⟨⟨?_, ?_, ?_, ?_⟩, h0, ?_⟩
  · intro x hx
    obtain ⟨i, hi, rfl⟩ := List.getElem_of_mem hx
    rw [h0]; exact (key i (by omega) hi).1
  · intro x hx a ha
    obtain ⟨i, hi, rfl⟩ := List.getElem_of_mem hx
    rw [h0]; exact hp.chars _ (List.getElem_mem (by omega)) a ((key i (by omega) hi).2.1 a ha)
  · rw [List.pairwise_iff_getElem]
    intro i j hi hj hij a ha b hb
    have := List.pairwise_iff_getElem.1 hp.order i j (by omega) (by omega) hij
    exact this a ((key i (by omega) hi).2.1 a ha) b ((key j (by omega) hj).2.1 b hb)
  · intro x hx
    obtain ⟨i, hi, rfl⟩ := List.getElem_of_mem hx
    exact (key i (by omega) hi).2.2.1
  · intro ht x hx
    obtain ⟨i, hi, rfl⟩ := List.getElem_of_mem hx
    exact (key i (by omega) hi).2.2.2 (ht _ (List.getElem_mem (by omega)))

end PTS

/-! ## Normalizers only edit -/

namespace NS

theorem Edits.trans {a b c : NS} (h1 : Edits a b) (h2 : Edits b c) : Edits a c := by
  induction h2 with
  | refl => exact h1
  | transform _ h ih => exact .transform ih h
  | filter _ h ih => exact .filter ih h
  | prepend _ h ih => exact .prepend ih h
  | append _ h ih => exact .append ih h
  | map _ h ih => exact .map ih h
  | mapChars _ h ih => exact .mapChars ih h
  | clear _ h ih => exact .clear ih h
  | lrstrip _ h ih => exact .lrstrip ih h
  | replace _ h ih => exact .replace ih h

end NS

namespace Normalizer
open NS

theorem step_edits {b : Bool} {f : NS → Option NS} (hf : ∀ n n', f n = some n' → Edits n n') {n n' : NS}
    (h : step b f n = some n') : Edits n n' := by
  unfold step at h
  split at h
  · exact hf n n' h
  · cases h; exact .refl _

theorem bind_edits {f g : NS → Option NS} (hf : ∀ n n', f n = some n' → Edits n n') (hg : ∀ n n', g n = some n' → Edits n n')
    {n n' : NS} (h : (f n).bind g = some n') : Edits n n' := by
  obtain ⟨m, h1, h2⟩ := Option.bind_eq_some_iff.1 h
  exact (hf n m h1).trans (hg m n' h2)

mutual
/-- A normalizer is a sequence of the operations of `NormalizedString`. -/
theorem apply_edits (u : Unicode) : ∀ (z : Normalizer) {n n' : NS}, z.apply u n = some n' → Edits n n'
  | .bert c h a l, n, n', he => by
    rw [apply, bertNormalize] at he
    refine bind_edits (fun n n' h => step_edits (fun n n' h => ?_) h) (fun n n' he => bind_edits (fun n n' h => step_edits
      (fun n n' h => ?_) h) (fun n n' he => bind_edits (fun n n' h => step_edits (fun n n' h => ?_) h)
      (fun n n' h => step_edits (fun n n' h => ?_) h) he) he) he
    · exact bind_edits (fun _ _ h => .filter (.refl _) h) (fun _ _ h => .map (.refl _) h) h
    · exact .transform (.refl _) h
    · exact bind_edits (f := fun n => n.transform (u.nfd n.norm) 0) (fun _ _ h => .transform (.refl _) h) (fun _ _ h => .filter (.refl _) h) h
    · exact .mapChars (.refl _) h
  | .strip l r, n, n', he => by
    rw [apply, stripNormalize] at he
    split at he
    · exact .lrstrip (.refl _) he
    · exact bind_edits (fun _ _ h => step_edits (fun _ _ h => .lrstrip (.refl _) h) h)
        (fun _ _ h => step_edits (fun _ _ h => .lrstrip (.refl _) h) h) he
  | .stripAccents, n, n', he => .filter (.refl _) he
  | .nfc, n, n', he => .transform (.refl _) he
  | .nfd, n, n', he => .transform (.refl _) he
  | .nfkc, n, n', he => .transform (.refl _) he
  | .nfkd, n, n', he => .transform (.refl _) he
  | .sequence l, n, n', he => applyAll_edits u l he
  | .lowercase, n, n', he => .mapChars (.refl _) he
  | .nmt, n, n', he => bind_edits (fun _ _ h => .filter (.refl _) h) (fun _ _ h => .map (.refl _) h) he
  | .precompiled t, n, n', he => by
    rw [apply, precompiledNormalize] at he
    split at he
    · exact .transform (.refl _) he
    · cases he; exact .refl _
  | .replace re c, n, n', he => .replace (.refl _) he
  | .prepend s, n, n', he => by
    rw [apply, prependNormalize] at he
    split at he
    · exact .prepend (.refl _) he
    · cases he; exact .refl _
  | .byteLevel, n, n', he => by
    rw [apply, byteLevelNormalize] at he
    split at he
    · exact .transform (.refl _) he
    · cases he; exact .refl _

theorem applyAll_edits (u : Unicode) : ∀ (l : List Normalizer) {n n' : NS}, applyAll u l n = some n' → Edits n n'
  | [], n, n', he => by rw [applyAll] at he; cases he; exact .refl _
  | z :: l, n, n', he => by
    rw [applyAll] at he
    obtain ⟨m, h1, h2⟩ := Option.bind_eq_some_iff.1 he
    exact (apply_edits u z h1).trans (applyAll_edits u l h2)
end

end Normalizer

/-! ## Pre-tokenizers cut in order -/

namespace PreTokenizer
open NS PTS

theorem splitFn_inOrder {whole : Str} {ms : Str → Matches} {b : Behavior}
    (hc : ∀ n : NS, n.Good whole → Covers n.norm 0 (ms n.norm)) : CutsInOrder whole (splitFn ms b) := by
  intro i n o hn h
  unfold splitFn at h
  split at h
  · cases h
  · rename_i out ho
    cases h
    refine ⟨?_, ?_⟩
    · obtain ⟨ps, out', h1, h2, h3, h4, h5⟩ := NS.split_good hn (hc n hn) b
      rw [ho] at h3; cases h3
      intro x hx hne
      obtain ⟨y, hy, rfl⟩ := List.mem_map.1 hx
      exact ⟨h5 y hy hne, fun ts ht => by cases ht⟩
    · rw [List.map_map]
      have := split_inOrder hn.1 (hc n hn) ho
      simpa [Function.comp_def] using this

theorem findPred_inOrder {whole : Str} (p : Char → Bool) (b : Behavior) : CutsInOrder whole (splitFn (findPred p) b) :=
  splitFn_inOrder fun n _ => C12_predicate_covers p n.norm

theorem regex_inOrder {whole : Str} {re : Str → List Range} (hre : ∀ s, EngineMatches s 0 (re s)) (b : Behavior) (inv : Bool) :
    CutsInOrder whole (splitRegexFn re b inv) := by
  unfold splitRegexFn
  split
  · exact splitFn_inOrder fun n _ => C12_invert_covers (C12_regex (hre n.norm)).1
  · exact splitFn_inOrder fun n _ => (C12_regex (hre n.norm)).1

theorem whitespace_inOrder {whole : Str} (u : CharTables) : CutsInOrder whole (whitespaceFn u) :=
  regex_inOrder (re := wordMatches u none 0) (fun s => by
    have := ((wordMatches_spec u s s []).1 (by simp)).1
    simpa using this) .removed true

theorem chunkRange_order {len : Nat} : ∀ (fuel k b : Nat) (s : Str), 0 < k →
    (∀ r ∈ (chunks k fuel (charIndices b s)).map (chunkRange len), b ≤ r.1) ∧
      ((chunks k fuel (charIndices b s)).map (chunkRange len)).Pairwise fun r r' => r.2 ≤ r'.1
  | 0, _, _, _, _ => ⟨by simp [chunks], .nil⟩
  | fuel + 1, k, b, [], _ => ⟨by simp [chunks, charIndices], by simp [chunks, charIndices]⟩
  | fuel + 1, k + 1, b, c :: s, hk => by
    have hne : charIndices b (c :: s) ≠ [] := by simp [charIndices]
    obtain ⟨h1, h2⟩ := chunkRange_order (len := len) fuel (k + 1) (b + blen ((c :: s).take (k + 1))) ((c :: s).drop (k + 1)) hk
    rw [chunks, if_neg hne, charIndices_take, charIndices_drop, List.map_cons]
    have he : chunkRange len (charIndices b ((c :: s).take (k + 1))) = (b, b + blen ((c :: s).take (k + 1))) := by
      unfold chunkRange
      rw [List.take_succ_cons, charIndices_last]
      simp [charIndices]
    rw [he]
    refine ⟨?_, List.pairwise_cons.2 ⟨fun r hr => h1 r hr, h2⟩⟩
    intro r hr
    rcases List.mem_cons.1 hr with rfl | hr
    · exact Nat.le_refl _
    · exact Nat.le_trans (Nat.le_add_right _ _) (h1 r hr)

theorem fixedLength_inOrder {whole : Str} {k : Nat} (hk : 0 < k) : CutsInOrder whole (fixedLengthFn k) := by
  intro i n o hn h
  obtain ⟨o', h1, h2⟩ := fixedLength_cuts hn hk i
  rw [h] at h1; cases h1
  refine ⟨fun x hx hne => ⟨(h2.2 x hx).2 hne, fun ts ht => by rw [(h2.2 x hx).1] at ht; cases ht⟩, ?_⟩
  unfold fixedLengthFn at h
  split at h
  · cases h; exact ⟨by simp, .nil⟩
  · rw [if_neg (by omega)] at h
    split at h
    · cases h
    · rename_i out ho
      cases h
      have := slices_inOrder hn.1 _ (chunkRange_order n.norm.length k 0 n.norm hk).2 ho
      simpa [Function.comp_def] using this

theorem scriptStarts_order (u : CharTables) : ∀ (s : Str) (last : Option Script) (off : Nat),
    (∀ k ∈ scriptStarts u last off s, off ≤ k ∧ k < off + blen s) ∧ (scriptStarts u last off s).Pairwise (· < ·)
  | [], _, _ => ⟨by simp [scriptStarts], .nil⟩
  | c :: s, last, off => by
    rw [scriptStarts]
    generalize (if some (fixedScript u c) ≠ some Script.any then some (fixedScript u c) else last) = l
    obtain ⟨h1, h2⟩ := scriptStarts_order u s l (off + c.utf8Size)
    have hp := c.utf8Size_pos
    have h1' : ∀ k ∈ scriptStarts u l (off + c.utf8Size) s, off < k ∧ k < off + blen (c :: s) := by
      intro k hk
      have := h1 k hk
      simp only [blen_cons]
      omega
    split
    · refine ⟨?_, List.pairwise_cons.2 ⟨fun k hk => (h1' k hk).1, h2⟩⟩
      intro k hk
      rcases List.mem_cons.1 hk with rfl | hk
      · simp only [blen_cons]; omega
      · have := h1' k hk; omega
    · exact ⟨fun k hk => by have := h1' k hk; omega, h2⟩

theorem windows_order : ∀ {l : List Nat}, l.Pairwise (· ≤ ·) →
    (windows l).Pairwise (fun r r' => r.2 ≤ r'.1) ∧ ∀ r ∈ windows l, r.1 ∈ l
  | [], _ => ⟨.nil, by simp [windows]⟩
  | [_], _ => ⟨.nil, by simp [windows]⟩
  | a :: b :: l, h => by
    rw [List.pairwise_cons] at h
    obtain ⟨h1, h2⟩ := windows_order h.2
    rw [windows]
    refine ⟨List.pairwise_cons.2 ⟨?_, h1⟩, ?_⟩
    · intro r hr
      rcases List.mem_cons.1 (h2 r hr) with he | hm
      · exact Nat.le_of_eq he.symm
      · exact (List.pairwise_cons.1 h.2).1 _ hm
    · intro r hr
      rcases List.mem_cons.1 hr with rfl | hr
      · exact List.mem_cons_self
      · exact List.mem_cons_of_mem _ (h2 r hr)

theorem scripts_inOrder {whole : Str} (u : CharTables) : CutsInOrder whole (scriptsFn u) := by
  intro i n o hn h
  obtain ⟨o', h1, h2⟩ := scripts_cuts hn u i
  rw [h] at h1; cases h1
  refine ⟨fun x hx hne => ⟨(h2.2 x hx).2 hne, fun ts ht => by rw [(h2.2 x hx).1] at ht; cases ht⟩, ?_⟩
  unfold scriptsFn at h
  split at h
  · cases h
  · rename_i out ho
    cases h
    obtain ⟨k1, k2⟩ := scriptStarts_order u n.norm none 0
    have hp : (scriptStarts u none 0 n.norm ++ [blen n.norm]).Pairwise (· ≤ ·) := by
      rw [List.pairwise_append]
      refine ⟨k2.imp Nat.le_of_lt, List.pairwise_singleton _ _, ?_⟩
      intro a ha b hb
      rw [List.mem_singleton.1 hb]
      have := k1 a ha; omega
    have := slices_inOrder hn.1 _ (windows_order hp).1 ho
    simpa [Function.comp_def] using this

theorem prependFn_edits {cfg : Metaspace.Config} {n m : NS} (h : Metaspace.prependFn cfg n = some m) : Edits n m := by
  unfold Metaspace.prependFn at h
  split at h
  · split at h
    · exact .prepend (.refl _) h
    · cases h; exact .refl _
  · split at h
    · exact .prepend (.refl _) h
    · cases h; exact .refl _
  · cases h; exact .refl _

theorem metaspace_inOrder {whole : Str} (cfg : Metaspace.Config) : CutsInOrder whole (Metaspace.splitFn cfg) := by
  intro i n o hn h
  obtain ⟨o', h1, h2⟩ := metaspace_cuts hn cfg i ⟨fun _ => false, fun _ => false, fun _ => false, fun _ => false, fun _ => false, fun _ => .any⟩
  rw [h] at h1; cases h1
  refine ⟨fun x hx hne => ⟨(h2.2 x hx).2 hne, fun ts ht => by rw [(h2.2 x hx).1] at ht; cases ht⟩, ?_⟩
  obtain ⟨n1, g1, g2, g3, _⟩ := Metaspace.replace_space hn cfg.replacement
  obtain ⟨n2, g4, g5, _⟩ := Metaspace.prependFn_good cfg g3
  have hsolid := g5.2.1
  have he : Edits n n2 := (Edits.replace (.refl _) g1).trans (prependFn_edits g4)
  unfold Metaspace.splitFn at h
  simp only [g1, g4] at h
  split at h
  · split at h
    · cases h
    · rename_i out ho
      cases h
      have := split_inOrder g5.1 (C12_predicate_covers (· == cfg.replacement) n2.norm) ho
      exact .of_edits he hsolid (by simpa [Function.comp_def] using this)
  · cases h
    exact .single he hsolid

theorem byteLevel_inOrder {whole : Str} (cfg : ByteLevel.Config) {re : Str → List Range} (hre : ∀ s, EngineMatches s 0 (re s)) :
    CutsInOrder whole (ByteLevel.splitFn cfg re) := by
  intro i n o hn h
  obtain ⟨o', h1, h2⟩ := byteLevelSplit_cuts hn cfg hre i
  rw [h] at h1; cases h1
  refine ⟨fun x hx hne => ⟨(h2.2 x hx).2 hne, fun ts ht => by rw [(h2.2 x hx).1] at ht; cases ht⟩, ?_⟩
  unfold ByteLevel.splitFn at h
  dsimp only at h
  split at h
  · cases h
  · rename_i m hm
    have he : Edits n m ∧ m.Solid := by
      split at hm
      · obtain ⟨m', k1, _, k3⟩ := NS.prepend_good hn (s := [' ']) (by simp)
        rw [hm] at k1; cases k1
        exact ⟨.prepend (.refl _) hm, k3.2.1⟩
      · cases hm; exact ⟨.refl _, hn.2.1⟩
    obtain ⟨he, hsolid⟩ := he
    split at h
    · split at h
      · cases h
      · rename_i out ho
        cases h
        have := split_inOrder (edits_reachable he hn.1) (C12_regex (hre m.norm)).1 ho
        exact .of_edits he hsolid (by simpa [Function.comp_def] using this)
    · cases h
      exact .single he hsolid

mutual
/-- Every pre-tokenizer keeps the pieces in the order of the text. -/
theorem apply_lined (u : CharTables) : ∀ (z : PreTokenizer), z.Sound → ∀ {p p' : PTS}, p.Lined → z.apply u p = .ok p' →
    p'.Lined ∧ p'.original = p.original ∧ (Tight p → Tight p')
  | .bert, _, p, p', hp, h => by
    simp only [apply, bertPreTokenize] at h
    cases h1 : p.split (splitFn (findPred u.ws) .removed) with
    | error e => rw [h1] at h; cases h
    | ok p1 =>
      rw [h1] at h
      obtain ⟨a1, a2, a3⟩ := split_lined hp (findPred_inOrder _ _) h1
      obtain ⟨b1, b2, b3⟩ := split_lined a1 (findPred_inOrder _ _) h
      exact ⟨b1, b2.trans a2, fun ht => b3 (.inl (a3 (.inl ht)))⟩
  | .byteLevel cfg re, hs, p, p', hp, h => by
    simp only [apply, ByteLevel.preTokenize] at h
    cases h1 : p.split (ByteLevel.splitFn cfg re) with
    | error e => rw [h1] at h; cases h
    | ok p1 =>
      rw [h1] at h
      obtain ⟨a1, a2, a3⟩ := split_lined hp (byteLevel_inOrder cfg hs) h1
      obtain ⟨b1, b2, b3⟩ := normalize_lined a1 (fun n n' hn he => by
        obtain ⟨m, g1, g2, g3⟩ := ByteLevel.normalizeFn_good hn
        rw [he] at g1; cases g1
        refine ⟨g3, ?_, ?_⟩
        · unfold ByteLevel.normalizeFn at he
          split at he
          · cases he
          · rename_i m hm; cases he; exact .mapChars (.refl _) hm
        · intro hne hnil
          rw [hnil] at g2
          have hl := congrArg List.length g2
          unfold ByteLevel.spell at hl
          rw [List.length_map, length_strBytes] at hl
          have := blen_pos hne
          simp at hl; omega) h
      exact ⟨b1, b2.trans a2, fun ht => b3 (a3 (.inl ht))⟩
  | .delimiter c, _, p, p', hp, h => by
    obtain ⟨a1, a2, a3⟩ := split_lined hp (findPred_inOrder _ _) h
    exact ⟨a1, a2, fun ht => a3 (.inl ht)⟩
  | .metaspace cfg, _, p, p', hp, h => by
    obtain ⟨a1, a2, a3⟩ := split_lined hp (metaspace_inOrder cfg) h
    exact ⟨a1, a2, fun ht => a3 (.inl ht)⟩
  | .whitespace, _, p, p', hp, h => by
    obtain ⟨a1, a2, a3⟩ := split_lined hp (whitespace_inOrder u) h
    exact ⟨a1, a2, fun ht => a3 (.inl ht)⟩
  | .sequence l, hs, p, p', hp, h => applyAll_lined u l hs hp h
  | .split re b inv, hs, p, p', hp, h => by
    obtain ⟨a1, a2, a3⟩ := split_lined hp (regex_inOrder hs b inv) h
    exact ⟨a1, a2, fun ht => a3 (.inl ht)⟩
  | .punctuation b, _, p, p', hp, h => by
    obtain ⟨a1, a2, a3⟩ := split_lined hp (findPred_inOrder _ _) h
    exact ⟨a1, a2, fun ht => a3 (.inl ht)⟩
  | .whitespaceSplit, _, p, p', hp, h => by
    obtain ⟨a1, a2, a3⟩ := split_lined hp (findPred_inOrder _ _) h
    exact ⟨a1, a2, fun ht => a3 (.inl ht)⟩
  | .digits i, _, p, p', hp, h => by
    simp only [apply] at h
    split at h <;>
    · obtain ⟨a1, a2, a3⟩ := split_lined hp (findPred_inOrder _ _) h
      exact ⟨a1, a2, fun ht => a3 (.inl ht)⟩
  | .unicodeScripts, _, p, p', hp, h => by
    obtain ⟨a1, a2, a3⟩ := split_lined hp (scripts_inOrder u) h
    exact ⟨a1, a2, fun ht => a3 (.inl ht)⟩
  | .fixedLength n, hs, p, p', hp, h => by
    obtain ⟨a1, a2, a3⟩ := split_lined hp (fixedLength_inOrder hs) h
    exact ⟨a1, a2, fun ht => a3 (.inl ht)⟩

theorem applyAll_lined (u : CharTables) : ∀ (l : List PreTokenizer), SoundAll l → ∀ {p p' : PTS}, p.Lined →
    applyAll u l p = .ok p' → p'.Lined ∧ p'.original = p.original ∧ (Tight p → Tight p')
  | [], _, p, p', hp, h => by rw [applyAll] at h; cases h; exact ⟨hp, rfl, id⟩
  | z :: l, hs, p, p', hp, h => by
    simp only [applyAll] at h
    cases h1 : z.apply u p with
    | error e => rw [h1] at h; cases h
    | ok p1 =>
      rw [h1] at h
      obtain ⟨a1, a2, a3⟩ := apply_lined u z hs.1 hp h1
      obtain ⟨b1, b2, b3⟩ := applyAll_lined u l hs.2 a1 h
      exact ⟨b1, b2.trans a2, fun ht => b3 (a3 ht)⟩
end

end PreTokenizer
end Tok
