import Verif.Pre.Props

/-!
# Pre-tokenizers that cannot fail

`NS.Good`: the state normalizers and pre-tokenizers keep. `PTS.split_total`, `PTS.normalize_total`: a
pre-tokenizer whose function succeeds on good pieces succeeds.
-/

namespace Tok
namespace NS

/-- A piece of a text that every operation accepts. -/
def Good (whole : Str) (n : NS) : Prop := Reachable n ∧ n.Solid ∧ n.Within whole

theorem good_ofStr (s : Str) : (ofStr s).Good s := ⟨.ofStr s, C09_ofStr_solid s, within_ofStr s⟩

/-- A non-empty slice is solid. -/
theorem slice_solid {n n' : NS} (h : Reachable n) (hs : n.Solid) {r : Range}
    (he : n.sliceNormalized r = some (some n')) : n'.Solid := by
  cases hm : strGet n.norm r.1 r.2 with
  | none =>
    have := C10_slice_invalid hm
    rw [show ((r.1, r.2) : Range) = r from rfl, he] at this
    cases this
  | some m =>
    obtain ⟨x, g1, g2⟩ := C10_slice_text h hm
    rw [show ((r.1, r.2) : Range) = r from rfl, he] at g1
    cases g1
    have hal := (C08_wellFormed (Reachable.sliceNormalized h he)).one_per_byte
    by_cases hne : m = []
    · rw [g2, hne] at hal
      have : n'.al = [] := List.eq_nil_of_length_eq_zero (by simpa using hal)
      intro a ha; rw [this] at ha; cases ha
    · obtain ⟨n'', s, e, g3, _, _, _, _, _, g4, _⟩ := C10_slice_normalized h hm hne
      rw [show ((r.1, r.2) : Range) = r from rfl, he] at g3
      cases g3
      intro a ha
      obtain ⟨i, hi⟩ := List.mem_iff_getElem?.1 ha
      have hlt : i < blen m := by
        have := (List.getElem?_eq_some_iff.1 hi).1
        rw [hal, g2] at this; exact this
      obtain ⟨p, q, h1, h2, h3⟩ := strGet_eq_some.1 hm
      have := g4 (r.1 + i) (by omega) (by omega)
      rw [show r.1 + i - r.1 = i by omega, hi] at this
      have := hs _ (List.mem_of_getElem? this.symm)
      simp only at this
      omega

theorem slice_good {whole : Str} {n : NS} (h : n.Good whole) {a b : Nat} {m : Str}
    (hm : strGet n.norm a b = some m) :
    ∃ n', n.sliceNormalized (a, b) = some (some n') ∧ n'.norm = m ∧ (m ≠ [] → n'.Good whole) := by
  obtain ⟨n', h1, h2⟩ := C10_slice_text h.1 hm
  refine ⟨n', h1, h2, fun hne => ⟨.sliceNormalized h.1 h1, slice_solid h.1 h.2.1 h1, ?_⟩⟩
  obtain ⟨x, _, _, g, _, _, _, _, _, _, g'⟩ := C10_slice_normalized h.1 hm hne
  rw [h1] at g; cases g
  exact g' _ h.2.2

theorem mapM_good {whole : Str} {n : NS} (h : n.Good whole) : ∀ (rs : List Range) (out : List NS),
    rs.mapM (fun r => (n.sliceNormalized r).bind id) = some out → ∀ x ∈ out, x.norm ≠ [] → x.Good whole
  | [], out, ho, x, hx, _ => by cases ho; cases hx
  | r :: rs, out, ho, x, hx, hne => by
    rw [List.mapM_cons] at ho
    cases hs : n.sliceNormalized r with
    | none => rw [hs] at ho; cases ho
    | some o =>
      cases o with
      | none => rw [hs] at ho; cases ho
      | some y =>
        rw [hs] at ho
        cases hr : rs.mapM (fun r => (n.sliceNormalized r).bind id) with
        | none => rw [hr] at ho; cases ho
        | some out' =>
          rw [hr] at ho; cases ho
          rcases List.mem_cons.1 hx with rfl | hx
          · cases hm : strGet n.norm r.1 r.2 with
            | none =>
              have := C10_slice_invalid hm
              rw [show ((r.1, r.2) : Range) = r from rfl, hs] at this
              cases this
            | some m =>
              obtain ⟨z, g1, g2, g3⟩ := slice_good h hm
              rw [show ((r.1, r.2) : Range) = r from rfl, hs] at g1
              cases g1
              exact g3 (by rw [← g2]; exact hne)
          · exact mapM_good h rs out' hr x hx hne

/-- `split` on a covering pattern: the pieces asked for, all of them good. -/
theorem split_good {whole : Str} {n : NS} (h : n.Good whole) {ms : Matches} (hm : Covers n.norm 0 ms)
    (b : Behavior) :
    ∃ ps out, ms = piecesAt 0 ps ∧ n.norm = ps.flatMap (·.1) ∧ n.split ms b = some out ∧
      out.map (·.norm) = kept b ps ∧ ∀ x ∈ out, x.norm ≠ [] → x.Good whole := by
  obtain ⟨ps, h1, h2⟩ := piecesAt_of_covers ms [] n.norm rfl hm
  simp only [blen_nil] at h2
  obtain ⟨out, g1, g2, g3⟩ := C11_split h.1 h1 b
  refine ⟨ps, out, h2, h1, by rw [h2]; exact g1, g2, ?_⟩
  unfold split at g1
  refine mapM_good h (((splitRanges b (piecesAt 0 ps)).filter (!·.2)).map (·.1)) out ?_
  rw [List.mapM_map]; exact g1

theorem prepend_good {whole : Str} {n : NS} (h : n.Good whole) {s : Str} (hs : s ≠ []) :
    ∃ n', n.prepend s = some n' ∧ n'.norm = (if n.norm = [] then [] else s ++ n.norm) ∧ n'.Good whole := by
  by_cases hn : n.norm = []
  · have he : n.prepend s = some n := by unfold NS.prepend; rw [hn]
    exact ⟨n, he, by rw [if_pos hn, hn], h⟩
  · obtain ⟨n', c0, rest, _, h1, h2, _⟩ := C09_prepend h.1 hs hn
    exact ⟨n', h1, by rw [if_neg hn, h2], .prepend h.1 h1, C09_prepend_solid hs h.1 h.2.1 h1,
      (edits_source (.prepend (.refl n) h1)).within h.2.2⟩

theorem mapChars_good {whole : Str} {n : NS} (h : n.Good whole) {f : Char → Str} (hf : ∀ c, f c ≠ []) :
    ∃ n', n.mapChars f = some n' ∧ n'.norm = n.norm.flatMap f ∧ n'.Good whole ∧
      n'.chars = n.chars.flatMap fun c => (f c.1).map fun x => (x, c.2) := by
  obtain ⟨n', h1, h2, h3, _⟩ := C09_mapChars h.1 h.2.1.ready hf
  exact ⟨n', h1, h2, ⟨.mapChars h.1 h1, C09_mapChars_solid hf h.1 h.2.1 h1,
    (edits_source (.mapChars (.refl n) h1)).within h.2.2⟩, h3⟩

theorem replace_good {whole : Str} {n : NS} (h : n.Good whole) {ps : List (Str × Bool)}
    (hps : n.norm = ps.flatMap (·.1)) (hne : ∀ p ∈ ps, p.1 ≠ []) (content : Str) :
    ∃ n', n.replace (piecesAt 0 ps) content = some n' ∧
      n'.norm = ps.flatMap (fun p => if p.2 then content else p.1) ∧ n'.Good whole := by
  obtain ⟨n', h1, h2, _⟩ := C09_replace h.1 hps content
  refine ⟨n', h1, h2, .replace h.1 h1, C09_replace_solid h.1 h.2.1 hps ?_ h1,
    (edits_source (.replace (.refl n) h1)).within h.2.2⟩
  intro p hp; exact hne p (List.mem_of_mem_head? hp)

end NS

namespace PTS
variable {ε : Type}

/-- Every piece still to be tokenized is good. -/
def Good (p : PTS) : Prop := ∀ s ∈ p.splits, s.tokens = none → s.normalized.Good p.original

theorem good_ofStr (s : Str) : (ofStr s).Good := by
  intro x hx _
  simp only [ofStr, ofNS, List.mem_singleton] at hx
  subst hx; exact NS.good_ofStr s

theorem splitLoop_total {f : Nat → NS → Except ε (List Split)} : ∀ (ss : List Split) (i : Nat),
    (∀ s ∈ ss, s.tokens = none → ∀ i, ∃ o, f i s.normalized = .ok o) → ∃ r, splitLoop f i ss = .ok r
  | [], _, _ => ⟨[], rfl⟩
  | s :: ss, i, h => by
    obtain ⟨r, hr⟩ := splitLoop_total ss (i + 1) fun t ht => h t (List.mem_cons_of_mem _ ht)
    rw [splitLoop]
    by_cases hs : s.tokens.isSome
    · rw [if_pos hs, hr]; exact ⟨_, rfl⟩
    · obtain ⟨o, ho⟩ := h s (List.mem_cons_self ..) (by simpa using hs) i
      rw [if_neg hs, ho, hr]; exact ⟨_, rfl⟩

/-- Splitting with a function that succeeds and returns `P`-related pieces. -/
theorem split_total {p : PTS} {f : Nat → NS → Except ε (List Split)} {P : NS → List Split → Prop}
    (h : ∀ s ∈ p.splits, s.tokens = none → ∀ i, ∃ o, f i s.normalized = .ok o ∧ P s.normalized o) :
    ∃ (p' : PTS) (outs : List (List Split)), p.split f = .ok p' ∧ p'.original = p.original ∧ outs.length = p.splits.length ∧
      p'.splits = outs.flatten ∧ ∀ (i : Nat) (s : Split) out, p.splits[i]? = some s → outs[i]? = some out →
        (s.tokens.isSome → out = [s]) ∧
        (s.tokens = none → ∃ o, P s.normalized o ∧ out = o.filter (fun x => x.normalized.norm ≠ [])) := by
  obtain ⟨r, hr⟩ := splitLoop_total (f := f) p.splits 0 fun s hs hn i =>
    let ⟨o, ho, _⟩ := h s hs hn i
    ⟨o, ho⟩
  have hp : p.split f = .ok ⟨p.original, r⟩ := by unfold split; rw [hr]; rfl
  obtain ⟨h0, outs, h1, h2, h3⟩ := (C13_split_in_place p _ f).1 hp
  refine ⟨_, outs, hp, h0, h1, h2, fun i s out hs ho => ⟨(h3 i s out hs ho).1, fun hn => ?_⟩⟩
  obtain ⟨o, g1, g2⟩ := (h3 i s out hs ho).2 hn
  obtain ⟨o', g3, g4⟩ := h s (List.mem_of_getElem? hs) hn i
  rw [g1] at g3; cases g3
  exact ⟨o, g4, g2⟩

/-- What becomes of the text when the pieces returned for a text `t` make up `T t`. -/
def mapText (T : NS → Str) (p : PTS) : Str :=
  p.splits.flatMap fun s => if s.tokens.isSome then s.normalized.norm else T s.normalized

theorem mapText_norm (p : PTS) : p.mapText (·.norm) = p.text := by
  unfold mapText text; congr 1; funext s; simp

theorem hom_flatMap {H : Str → Str} (h0 : H [] = []) (ha : ∀ a b, H (a ++ b) = H a ++ H b) {α : Type}
    (g : α → Str) : ∀ l : List α, H (l.flatMap g) = l.flatMap fun x => H (g x)
  | [] => h0
  | x :: l => by rw [List.flatMap_cons, ha, hom_flatMap h0 ha g l, List.flatMap_cons]

theorem flatMap_flatten_of {α β : Type} {F : α → List β} {G : β → List Char} {T : α → List Char} :
    ∀ (ss : List α) (outs : List (List β)), outs.length = ss.length →
    (∀ (i : Nat) s out, ss[i]? = some s → outs[i]? = some out → out.flatMap G = T s) →
    outs.flatten.flatMap G = ss.flatMap T
  | [], [], _, _ => rfl
  | [], _ :: _, h, _ => by simp at h
  | _ :: _, [], h, _ => by simp at h
  | s :: ss, o :: outs, hl, h => by
    rw [List.flatten_cons, List.flatMap_append, List.flatMap_cons, h 0 s o rfl rfl,
      flatMap_flatten_of (F := F) ss outs (by simpa using hl)]
    intro i t out ht ho
    exact h (i + 1) t out (by simpa using ht) (by simpa using ho)

/-- A pre-tokenizer step: it succeeds on good pieces, its pieces are good and make up `T`. -/
theorem split_good {p : PTS} (hg : p.Good) {f : Nat → NS → Except ε (List Split)} (T : NS → Str)
    (h : ∀ n i, n.Good p.original → ∃ o, f i n = .ok o ∧ o.flatMap (·.normalized.norm) = T n ∧
      ∀ x ∈ o, x.tokens = none ∧ (x.normalized.norm ≠ [] → x.normalized.Good p.original)) :
    ∃ p', p.split f = .ok p' ∧ p'.original = p.original ∧ p'.Good ∧ p'.text = p.mapText T ∧
      ∀ H : Str → Str, H [] = [] → (∀ a b, H (a ++ b) = H a ++ H b) →
        p'.mapText (fun n => H n.norm) = p.mapText fun n => H (T n) := by
  obtain ⟨p', outs, h1, h2, h3, h4, h5⟩ := split_total (p := p) (f := f)
    (P := fun n o => o.flatMap (·.normalized.norm) = T n ∧
      ∀ x ∈ o, x.tokens = none ∧ (x.normalized.norm ≠ [] → x.normalized.Good p.original))
    (fun s hs hn i => h s.normalized i (hg s hs hn))
  have hH : ∀ H : Str → Str, H [] = [] → (∀ a b, H (a ++ b) = H a ++ H b) →
      p'.mapText (fun n => H n.norm) = p.mapText fun n => H (T n) := by
    intro H h0 ha
    unfold mapText
    rw [h4]
    refine flatMap_flatten_of (F := fun _ => []) _ _ h3 fun i s out hs ho => ?_
    obtain ⟨g1, g2⟩ := h5 i s out hs ho
    cases ht : s.tokens with
    | some ts => rw [g1 (by rw [ht]; rfl)]; simp [ht]
    | none =>
      obtain ⟨o, ⟨g3, g4⟩, rfl⟩ := g2 ht
      simp only [Option.isSome_none, Bool.false_eq_true, if_false]
      rw [← g3, ← flatMap_filter_nonempty, hom_flatMap h0 ha]
      rw [List.flatMap_def, List.flatMap_def]
      congr 1
      apply List.map_congr_left
      intro x hx
      rw [(g4 x (List.mem_filter.1 hx).1).1]; rfl
  refine ⟨p', h1, h2, ?_, ?_, hH⟩
  · intro x hx hn
    rw [h4, List.mem_flatten] at hx
    obtain ⟨out, ho, hx⟩ := hx
    obtain ⟨i, hi⟩ := List.mem_iff_getElem?.1 ho
    have hlt : i < p.splits.length := by rw [← h3]; exact (List.getElem?_eq_some_iff.1 hi).1
    have hs : p.splits[i]? = some p.splits[i] := List.getElem?_eq_getElem hlt
    obtain ⟨g1, g2⟩ := h5 i _ out hs hi
    cases ht : p.splits[i].tokens with
    | some ts =>
      rw [g1 (by rw [ht]; rfl)] at hx
      simp only [List.mem_singleton] at hx
      rw [hx, ht] at hn; cases hn
    | none =>
      obtain ⟨o, ⟨_, g4⟩, rfl⟩ := g2 ht
      obtain ⟨hx1, hx2⟩ := List.mem_filter.1 hx
      rw [h2]
      exact (g4 x hx1).2 (by simpa using hx2)
  · rw [← mapText_norm]
    exact hH id rfl (fun _ _ => rfl)

theorem mapUntokenized_total {g : NS → Except ε Split} : ∀ (ss : List Split),
    (∀ s ∈ ss, s.tokens = none → ∃ o, g s.normalized = .ok o) → ∃ r, mapUntokenized g ss = .ok r
  | [], _ => ⟨[], rfl⟩
  | s :: ss, h => by
    obtain ⟨r, hr⟩ := mapUntokenized_total ss fun t ht => h t (List.mem_cons_of_mem _ ht)
    rw [mapUntokenized]
    by_cases hs : s.tokens.isSome
    · rw [if_pos hs, hr]; exact ⟨_, rfl⟩
    · obtain ⟨o, ho⟩ := h s (List.mem_cons_self ..) (by simpa using hs)
      rw [if_neg hs, ho, hr]; exact ⟨_, rfl⟩

theorem flatMap_of_get {α : Type} {G T : α → Str} : ∀ (ss r : List α), r.length = ss.length →
    (∀ (i : Nat) s s', ss[i]? = some s → r[i]? = some s' → G s' = T s) → r.flatMap G = ss.flatMap T
  | [], [], _, _ => rfl
  | [], _ :: _, h, _ => by simp at h
  | _ :: _, [], h, _ => by simp at h
  | s :: ss, o :: r, hl, h => by
    rw [List.flatMap_cons, List.flatMap_cons, h 0 s o rfl rfl, flatMap_of_get ss r (by simpa using hl)]
    intro i t t' ht ho
    exact h (i + 1) t t' (by simpa using ht) (by simpa using ho)

/-- A normalization step. -/
theorem normalize_good {p : PTS} (hg : p.Good) {f : NS → Except ε NS} (T : NS → Str)
    (h : ∀ n, n.Good p.original → ∃ m, f n = .ok m ∧ m.norm = T n ∧ m.Good p.original) :
    ∃ p', p.normalize f = .ok p' ∧ p'.original = p.original ∧ p'.Good ∧ p'.text = p.mapText T ∧
      p'.splits.length = p.splits.length := by
  have hp : ∃ p', p.normalize f = .ok p' := by
    obtain ⟨r, hr⟩ := mapUntokenized_total (g := fun n => (f n).map fun n' => (⟨n', none⟩ : Split)) p.splits
      fun s hs hn => by
        obtain ⟨m, hm, _⟩ := h s.normalized (hg s hs hn)
        exact ⟨⟨m, none⟩, by rw [hm]; rfl⟩
    exact ⟨⟨p.original, r⟩, by unfold normalize; rw [hr]; rfl⟩
  obtain ⟨p', hp⟩ := hp
  obtain ⟨h1, h2, h3⟩ := (C13_normalize p p' f).1 hp
  refine ⟨p', hp, h1, ?_, ?_, h2⟩
  · intro x hx hn
    obtain ⟨i, hi⟩ := List.mem_iff_getElem?.1 hx
    have hlt : i < p.splits.length := by rw [← h2]; exact (List.getElem?_eq_some_iff.1 hi).1
    have hs : p.splits[i]? = some p.splits[i] := List.getElem?_eq_getElem hlt
    obtain ⟨g1, g2⟩ := h3 i _ x hs hi
    cases ht : p.splits[i].tokens with
    | some ts =>
      rw [g1 (by rw [ht]; rfl), ht] at hn; cases hn
    | none =>
      obtain ⟨m, k1, _, k3⟩ := h _ (hg _ (List.mem_of_getElem? hs) ht)
      rw [(g2 ht).2] at k1; cases k1
      rw [h1]; exact k3
  · unfold text mapText
    refine flatMap_of_get _ _ h2 fun i s s' hs hs' => ?_
    obtain ⟨g1, g2⟩ := h3 i s s' hs hs'
    cases ht : s.tokens with
    | some ts => rw [g1 (by rw [ht]; rfl)]; simp
    | none =>
      obtain ⟨m, k1, k2, _⟩ := h _ (hg _ (List.mem_of_getElem? hs) ht)
      rw [(g2 ht).2] at k1; cases k1
      simp [k2]

end PTS
end Tok
