import Verif.Normalizers.Spec

/-!
# C56: the normalizers compute their documented text, and never fail
-/

namespace Tok
namespace NS

theorem cellLoop_solid : ∀ (ds : List (Char × Int)) (prev : Range) (R cs : List Cell), prev.1 < prev.2 →
    (∀ c ∈ R, c.2.1 < c.2.2) → cellLoop none prev R ds = some cs → ∀ c ∈ cs, c.2.1 < c.2.2
  | [], prev, R, cs, _, _, h, c, hc => by simp [cellLoop] at h; subst h; cases hc
  | (d, ch) :: ds, prev, R, cs, hp, hR, h, c, hc => by
    rw [cellLoop_cons] at h
    split at h
    · rw [Option.map_eq_some_iff] at h
      obtain ⟨u, hu, rfl⟩ := h
      rcases List.mem_cons.1 hc with rfl | hc
      · exact hp
      · exact cellLoop_solid ds prev R u hp hR hu c hc
    · cases R with
      | nil => cases h
      | cons x r =>
        simp only at h
        rw [Option.map_eq_some_iff] at h
        obtain ⟨u, hu, rfl⟩ := h
        have hx := hR x List.mem_cons_self
        rcases List.mem_cons.1 hc with rfl | hc
        · exact hx
        · refine cellLoop_solid ds _ _ u ?_ (fun y hy => hR y (List.mem_cons_of_mem _ (List.mem_of_mem_drop hy))) hu c hc
          rcases lastAl_spec x.2 (r.take (-ch).toNat) with h3 | ⟨d, hd, h3⟩
          · rw [h3]; exact hx
          · rw [h3]; exact hR d (List.mem_cons_of_mem _ (List.mem_of_mem_take hd))

theorem within_of_edits {whole : Str} {n n' : NS} (h : n.Good whole) (he : Edits n n') : n'.Within whole :=
  (edits_source he).within h.2.2

/-- A rewriting of the whole text that begins with a character of it. -/
theorem transform_good {whole : Str} {n : NS} (h : n.Good whole) {ds : List (Char × Int)}
    (hf : Fits ds n.norm.length) (hh : ∀ p ∈ ds.head?, p.2 ≤ 0) :
    ∃ n', n.transform ds 0 = some n' ∧ n'.norm = ds.map (·.1) ∧ n'.Good whole ∧ SameSource n n' := by
  obtain ⟨hc, ok⟩ := cells_chars (reachable_ok h.1)
  by_cases hne : n.norm = []
  · have hd : ds = [] := by
      cases ds with
      | nil => rfl
      | cons d ds =>
        rw [hne] at hf
        have := hh d rfl
        obtain ⟨c, ch⟩ := d
        simp only [Fits] at hf
        rw [if_neg (by simp only at this; omega)] at hf
        simp at hf
    subst hd
    have he : n.chars = [] := by
      have := hc.1; rw [hne] at this
      cases hl : n.chars with
      | nil => rfl
      | cons x l => rw [hl] at this; simp [text] at this
    rw [he] at hc
    exact ⟨n, transform_empty hc 0, by rw [hne]; rfl, h, .refl n⟩
  · obtain ⟨n', h1, h2, _⟩ := C09_transform h.1 h.2.1.ready hne (init := 0) hf
    refine ⟨n', h1, h2, ⟨.transform h.1 h1, ?_, within_of_edits h (.transform (.refl n) h1)⟩,
      edits_source (.transform (.refl n) h1)⟩
    rw [transform_cells hc ok (ready_cells hc h.2.1.ready) (by intro e; rw [e] at hc; exact hne hc.1)] at h1
    rw [Option.map_eq_some_iff] at h1
    obtain ⟨out, ho, rfl⟩ := h1
    rw [solid_cells (cs := out) ⟨rfl, rfl⟩]
    have hs := (solid_chars h.1).1 h.2.1
    cases ds with
    | nil => simp [cellLoop] at ho; subst ho; simp
    | cons d ds =>
      obtain ⟨x, ch⟩ := d
      have hch : ¬ ch > 0 := by have := hh _ rfl; simp only at this; omega
      intro c hc'
      have hne' : n.chars ≠ [] := by intro e; rw [e] at hc; exact hne hc.1
      refine cellLoop_solid ((x, ch) :: ds) (n.chars.head hne').2 n.chars out (hs _ (List.head_mem _)) hs ?_ c hc'
      rw [cellLoop_cons, if_neg hch] at ho ⊢
      simpa using ho

theorem filter_good {whole : Str} {n : NS} (h : n.Good whole) (keep : Char → Bool) :
    ∃ n', n.filter keep = some n' ∧ n'.norm = n.norm.filter keep ∧ n'.Good whole ∧ SameSource n n' ∧
      n'.chars = n.chars.filter (fun c => keep c.1) := by
  obtain ⟨n', h1, h2, h3, _⟩ := C09_filter h.1 h.2.1.ready keep
  exact ⟨n', h1, h2, ⟨.filter h.1 h1, C09_filter_solid h.1 h.2.1 h1, within_of_edits h (.filter (.refl n) h1)⟩,
    edits_source (.filter (.refl n) h1), h3⟩

theorem map_good {whole : Str} {n : NS} (h : n.Good whole) (f : Char → Char) :
    ∃ n', n.map f = some n' ∧ n'.norm = n.norm.map f ∧ n'.Good whole ∧ SameSource n n' ∧
      n'.chars = n.chars.map (fun c => (f c.1, c.2)) := by
  obtain ⟨n', h1, h2, h3, _⟩ := C09_map h.1 h.2.1.ready f
  exact ⟨n', h1, h2, ⟨.map h.1 h1, C09_map_solid h.1 h.2.1 h1, within_of_edits h (.map (.refl n) h1)⟩,
    edits_source (.map (.refl n) h1), h3⟩

theorem mapChars_good' {whole : Str} {n : NS} (h : n.Good whole) {f : Char → Str} (hf : ∀ c, f c ≠ []) :
    ∃ n', n.mapChars f = some n' ∧ n'.norm = n.norm.flatMap f ∧ n'.Good whole ∧ SameSource n n' ∧
      n'.chars = n.chars.flatMap fun c => (f c.1).map fun x => (x, c.2) := by
  obtain ⟨n', h1, h2, h3, h4⟩ := mapChars_good h hf
  exact ⟨n', h1, h2, h3, edits_source (.mapChars (.refl n) h1), h4⟩

theorem lrstrip_good {whole : Str} {n : NS} (h : n.Good whole) (ws : Char → Bool) (left right : Bool) :
    ∃ n', n.lrstrip ws left right = some n' ∧
      n'.norm = (bif right then stripRight ws else id) ((bif left then stripLeft ws else id) n.norm) ∧
      n'.Good whole ∧ SameSource n n' ∧
      n'.chars = (bif right then stripRight (ws ·.1) else id)
        ((bif left then stripLeft (ws ·.1) else id) n.chars) := by
  obtain ⟨n', h1, h2, h3, _⟩ := C09_strip h.1 h.2.1.ready ws left right
  exact ⟨n', h1, h2, ⟨.lrstrip h.1 h1, C09_strip_solid h.1 h.2.1 h1, within_of_edits h (.lrstrip (.refl n) h1)⟩,
    edits_source (.lrstrip (.refl n) h1), h3⟩

/-- The number of characters a rewriting uses up. -/
def used : List (Char × Int) → Nat
  | [] => 0
  | (_, ch) :: ds => (if ch > 0 then 0 else 1 + (-ch).toNat) + used ds

theorem used_append : ∀ a b : List (Char × Int), used (a ++ b) = used a + used b
  | [], b => by simp [used]
  | (c, ch) :: a, b => by simp only [List.cons_append, used, used_append a b]; omega

theorem fits_of_used : ∀ (ds : List (Char × Int)) (k : Nat), used ds ≤ k → Fits ds k
  | [], _, _ => trivial
  | (c, ch) :: ds, k, h => by
    simp only [used] at h
    simp only [Fits]
    split
    · rw [if_pos (by assumption)] at h; exact fits_of_used ds k (by omega)
    · rw [if_neg (by assumption)] at h; exact ⟨by omega, fits_of_used ds _ (by omega)⟩

end NS

namespace Normalizer
open NS

/-! ## the steps of BERT -/

theorem isWhitespace_iff (u : Unicode) (c : Char) : isWhitespace u c = true ↔ Blank u c := by
  simp [isWhitespace, Blank, or_assoc]

theorem keep_iff (u : Unicode) (c : Char) :
    (!(c.toNat == 0 || c.toNat == 0xfffd || isControl u c)) = true ↔ ¬ Junk u c := by
  unfold isControl Junk
  by_cases h1 : c = '\t'
  · subst h1; simp
  by_cases h2 : c = '\n'
  · subst h2; simp
  by_cases h3 : c = '\r'
  · subst h3; simp
  simp [h1, h2, h3, and_assoc]

theorem isChinese_iff (c : Char) : isChinese c = true ↔ Chinese c := by
  simp only [isChinese, Chinese, chineseBlocks, Bool.or_eq_true, Bool.and_eq_true, decide_eq_true_eq,
    List.mem_cons, List.not_mem_nil, or_false, exists_eq_or_imp, exists_eq_left, or_assoc]

theorem clean_eq (u : Unicode) : ∀ s : Str,
    (s.filter fun c => !(c.toNat == 0 || c.toNat == 0xfffd || isControl u c)).map
      (fun c => if isWhitespace u c then ' ' else c) = clean u s
  | [] => rfl
  | c :: s => by
    have ih := clean_eq u s
    simp only [clean, List.flatMap_cons, List.filter_cons] at *
    by_cases hj : Junk u c
    · rw [if_neg (by rw [keep_iff]; simpa using hj), if_pos hj, ih]; rfl
    · rw [if_pos (by rw [keep_iff]; exact hj), if_neg hj, List.map_cons, ih]
      by_cases hb : Blank u c
      · rw [if_pos ((isWhitespace_iff u c).2 hb), if_pos hb]; rfl
      · rw [if_neg (by rw [isWhitespace_iff]; exact hb), if_neg hb]; rfl

theorem cleanText_good {u : Unicode} {whole : Str} {n : NS} (h : n.Good whole) :
    ∃ n', cleanText u n = some n' ∧ n'.norm = clean u n.norm ∧ n'.Good whole ∧ SameSource n n' := by
  obtain ⟨a, h1, h2, h3, h4, _⟩ := filter_good h fun c => !(c.toNat == 0 || c.toNat == 0xfffd || isControl u c)
  obtain ⟨b, g1, g2, g3, g4, _⟩ := map_good h3 fun c => if isWhitespace u c then ' ' else c
  refine ⟨b, ?_, ?_, g3, h4.trans g4⟩
  · unfold cleanText; rw [h1]; exact g1
  · rw [g2, h2, clean_eq]

theorem used_chinese : ∀ s : Str, used (s.flatMap chineseChanges) = s.length
  | [] => rfl
  | c :: s => by
    rw [List.flatMap_cons, used_append, used_chinese s]
    unfold chineseChanges
    split <;> simp [used] <;> omega

theorem head_chinese (s : Str) : ∀ p ∈ (s.flatMap chineseChanges).head?, p.2 ≤ 0 := by
  cases s with
  | nil => simp
  | cons c s => rw [List.flatMap_cons]; by_cases h : isChinese c = true <;> simp [chineseChanges, h]

theorem handleChinese_good {whole : Str} {n : NS} (h : n.Good whole) :
    ∃ n', handleChinese n = some n' ∧ n'.norm = spaced n.norm ∧ n'.Good whole ∧ SameSource n n' := by
  obtain ⟨n', h1, h2, h3⟩ := transform_good h (ds := n.norm.flatMap chineseChanges)
    (fits_of_used _ _ (by rw [used_chinese]; exact Nat.le_refl _)) (head_chinese _)
  refine ⟨n', h1, ?_, h3⟩
  rw [h2, spaced, List.map_flatMap]
  congr 1
  funext c
  unfold chineseChanges
  by_cases hc : Chinese c
  · rw [if_pos hc, if_pos ((isChinese_iff c).2 hc)]; rfl
  · rw [if_neg hc, if_neg (by rw [isChinese_iff]; exact hc)]; rfl

theorem bertStripAccents_good {u : Unicode} (hu : u.Ok) {whole : Str} {n : NS} (h : n.Good whole) :
    ∃ n', bertStripAccents u n = some n' ∧ n'.norm = ((u.nfd n.norm).map (·.1)).filter (!u.nonspacing ·) ∧
      n'.Good whole ∧ SameSource n n' := by
  obtain ⟨a, h1, h2, h3, h4⟩ := transform_good h (hu.nfd n.norm).1 (hu.nfd n.norm).2
  obtain ⟨b, g1, g2, g3, g4, _⟩ := filter_good h3 fun c => !u.nonspacing c
  exact ⟨b, by unfold bertStripAccents; rw [h1]; exact g1, by rw [g2, h2], g3, h4.trans g4⟩

/-- A step that is taken or not. -/
theorem step_good {f : NS → Option NS} {T : Str → Str} {whole : Str}
    (hf : ∀ n : NS, n.Good whole → ∃ n', f n = some n' ∧ n'.norm = T n.norm ∧ n'.Good whole ∧ SameSource n n')
    (b : Bool) {n : NS} (h : n.Good whole) :
    ∃ n', step b f n = some n' ∧ n'.norm = (if b then T n.norm else n.norm) ∧ n'.Good whole ∧ SameSource n n' := by
  cases b with
  | true => simpa [step] using hf n h
  | false => exact ⟨n, rfl, rfl, h, .refl n⟩

theorem bert_good {u : Unicode} (hu : u.Ok) (c h : Bool) (a : Option Bool) (l : Bool) {whole : Str} {n : NS}
    (hn : n.Good whole) : ∃ n', bertNormalize u c h a l n = some n' ∧ n'.norm = text u (.bert c h a l) n.norm ∧
      n'.Good whole ∧ SameSource n n' := by
  obtain ⟨n1, a1, a2, a3, a4⟩ := step_good (fun n hn => cleanText_good (u := u) hn) c hn
  obtain ⟨n2, b1, b2, b3, b4⟩ := step_good (fun n hn => handleChinese_good hn) h a3
  obtain ⟨n3, c1, c2, c3, c4⟩ := step_good
    (T := fun s => ((u.nfd s).map (·.1)).filter (!u.nonspacing ·)) (fun n hn => bertStripAccents_good hu hn)
    (a.getD l) b3
  obtain ⟨n4, d1, d2, d3, d4⟩ := step_good (f := (·.mapChars u.lower)) (T := (·.flatMap u.lower))
    (fun n hn => by
      obtain ⟨n', e1, e2, e3, e4, _⟩ := mapChars_good' hn hu.lower
      exact ⟨n', e1, e2, e3, e4⟩) l c3
  refine ⟨n4, ?_, ?_, d3, ((a4.trans b4).trans c4).trans d4⟩
  · unfold bertNormalize; rw [a1]; simp only [Option.bind_some]; rw [b1]; simp only [Option.bind_some]
    rw [c1]; exact d1
  · rw [d2, c2, b2, a2, text]
    have : (a.getD l = true) ↔ (a = some true ∨ (a = none ∧ l = true)) := by
      cases a with
      | none => simp
      | some b => simp
    simp only [this]

/-! ## strip and nmt -/

theorem strip_good {u : Unicode} (l r : Bool) {whole : Str} {n : NS} (h : n.Good whole) :
    ∃ n', stripNormalize u l r n = some n' ∧ n'.norm = text u (.strip l r) n.norm ∧ n'.Good whole ∧ SameSource n n' := by
  obtain ⟨n1, a1, a2, a3, a4, _⟩ := lrstrip_good h u.ws true true
  obtain ⟨n2, b1, b2, b3, b4, _⟩ := lrstrip_good h u.ws true false
  obtain ⟨n3, c1, c2, c3, c4, _⟩ := lrstrip_good h u.ws false true
  unfold stripNormalize
  rw [text]
  cases l <;> cases r
  · exact ⟨n, rfl, rfl, h, .refl n⟩
  · exact ⟨n3, by simp [step, c1], c2, c3, c4⟩
  · exact ⟨n2, by simp [step, b1], b2, b3, b4⟩
  · exact ⟨n1, a1, a2, a3, a4⟩

theorem nmtRemoved_iff (n : Nat) : nmtRemoved n = true ↔ n ∈ nmtJunk := by
  simp only [nmtRemoved, nmtJunk, Bool.or_eq_true, Bool.and_eq_true, decide_eq_true_eq, beq_iff_eq, List.mem_append,
    List.mem_cons, List.not_mem_nil, or_false, List.mem_range'_1]
  omega

theorem nmtSpace_iff (n : Nat) : nmtSpace n = true ↔ n ∈ nmtBlank := by
  simp only [nmtSpace, nmtBlank, Bool.or_eq_true, Bool.and_eq_true, decide_eq_true_eq, beq_iff_eq,
    List.mem_cons, List.not_mem_nil, or_false]
  omega

theorem nmt_eq (u : Unicode) : ∀ s : Str, (s.filter fun c => !nmtRemoved c.toNat).map
    (fun c => if nmtSpace c.toNat then ' ' else c) = text u .nmt s
  | [] => by simp [text]
  | c :: s => by
    have ih := nmt_eq u s
    rw [text] at *
    simp only at ih ⊢
    rw [List.flatMap_cons, List.filter_cons, ← ih]
    by_cases hj : c.toNat ∈ nmtJunk
    · rw [if_neg (by simpa using (nmtRemoved_iff _).2 hj), if_pos hj]; rfl
    · rw [if_pos (by simpa using fun h => hj ((nmtRemoved_iff _).1 h)), if_neg hj, List.map_cons]
      by_cases hb : c.toNat ∈ nmtBlank
      · rw [if_pos ((nmtSpace_iff _).2 hb), if_pos hb]; rfl
      · rw [if_neg (fun h => hb ((nmtSpace_iff _).1 h)), if_neg hb]; rfl

theorem nmt_good {u : Unicode} {whole : Str} {n : NS} (h : n.Good whole) :
    ∃ n', nmtNormalize n = some n' ∧ n'.norm = text u .nmt n.norm ∧ n'.Good whole ∧ SameSource n n' := by
  obtain ⟨a, h1, h2, h3, h4, _⟩ := filter_good h fun c => !nmtRemoved c.toNat
  obtain ⟨b, g1, g2, g3, g4, _⟩ := map_good h3 fun c => if nmtSpace c.toNat then ' ' else c
  exact ⟨b, by unfold nmtNormalize; rw [h1]; exact g1, by rw [g2, h2, nmt_eq u], g3, h4.trans g4⟩

/-! ## precompiled -/

theorem used_zero (s : Str) : used (s.map fun c => (c, (0 : Int))) = s.length := by
  induction s with
  | nil => rfl
  | cons c s ih => simp only [List.map_cons, used, ih]; simp; omega

theorem used_one (l : List (Char × Int)) : used (l.map fun p => (p.1, (1 : Int))) = 0 := by
  induction l with
  | nil => rfl
  | cons c s ih => simp only [List.map_cons, used, ih]; simp

theorem markLast_append (ts : List (Char × Int)) (a b : List (Char × Int)) :
    markLast b.length (ts ++ (a ++ b)) = ts ++ (a ++ b.map fun p => (p.1, 1)) := by
  unfold markLast
  rw [← List.append_assoc, List.length_append, Nat.add_sub_cancel, List.take_left', List.drop_left']
  · simp
  · rfl
  · rfl

theorem addLast_nil (d : Int) : addLast d [] = [] := rfl

theorem addLast_append (d : Int) (ts : List (Char × Int)) (p : Char × Int) :
    addLast d (ts ++ [p]) = ts ++ [(p.1, p.2 + d)] := by simp [addLast]

theorem addLast_map (d : Int) (ts : List (Char × Int)) : (addLast d ts).map (·.1) = ts.map (·.1) := by
  rcases List.eq_nil_or_concat ts with rfl | ⟨l, p, rfl⟩
  · rfl
  · rw [List.concat_eq_append, addLast_append]; simp

theorem markLast_map (k : Nat) (ts : List (Char × Int)) : (markLast k ts).map (·.1) = ts.map (·.1) := by
  unfold markLast
  simp only [List.map_append, List.map_map, Function.comp_def]
  rw [← List.map_append, List.take_append_drop]

/-- Removing characters adds to what the rewriting uses up, unless nothing was written yet. -/
theorem used_addLast {d : Int} (hd : d ≤ 0) (ts : List (Char × Int)) (hle : ∀ p ∈ ts, p.2 ≤ 1) :
    used (addLast d ts) ≤ used ts + (-d).toNat := by
  rcases List.eq_nil_or_concat ts with rfl | ⟨l, p, rfl⟩
  · simp [addLast_nil]
  · rw [List.concat_eq_append, addLast_append, used_append, used_append]
    have := hle p (by simp)
    simp only [used]
    split <;> split <;> omega

/-- What holds for the rewriting of the text so far: it uses up no more characters than there were, and does not begin
with an insertion. -/
structure Sofar (ts : List (Char × Int)) (k : Nat) : Prop where
  used : used ts ≤ k
  head : ∀ p ∈ ts.head?, p.2 ≤ 0
  le : ∀ p ∈ ts, p.2 ≤ 1

theorem head_append_le {ts b : List (Char × Int)} (h : ∀ p ∈ ts.head?, p.2 ≤ 0) (hb : ∀ p ∈ b.head?, p.2 ≤ 0) :
    ∀ p ∈ (ts ++ b).head?, p.2 ≤ 0 := by
  cases ts with
  | nil => exact hb
  | cons x ts => exact h

theorem addLast_head {d : Int} (hd : d ≤ 0) {ts : List (Char × Int)} (h : ∀ p ∈ ts.head?, p.2 ≤ 0) :
    ∀ p ∈ (addLast d ts).head?, p.2 ≤ 0 := by
  rcases List.eq_nil_or_concat ts with rfl | ⟨l, p, rfl⟩
  · simp [addLast_nil]
  · rw [List.concat_eq_append, addLast_append]
    rw [List.concat_eq_append] at h
    cases l with
    | nil =>
      have := h p rfl
      intro q hq
      simp only [List.nil_append, List.head?_cons, Option.mem_def, Option.some.injEq] at hq
      subst hq; simp only; omega
    | cons x l => exact h

theorem replacePart_sofar {ts : List (Char × Int)} {k : Nat} {old new : Str} (hk : Sofar ts k) (ho : old ≠ []) :
    Sofar (replacePart ts old new) (k + old.length) ∧
      (replacePart ts old new).map (·.1) = ts.map (·.1) ++ new := by
  have hpos := List.length_pos_iff.2 ho
  have hmap : (ts ++ new.map fun c => (c, (0 : Int))).map (·.1) = ts.map (·.1) ++ new := by
    simp [Function.comp_def]
  have hz : ∀ (s : Str), ∀ p ∈ (s.map fun c => (c, (0 : Int))), p.2 = 0 := by
    intro s p hp; obtain ⟨c, _, rfl⟩ := List.mem_map.1 hp; rfl
  unfold replacePart
  simp only
  split
  · rename_i hgt
    refine ⟨?_, by rw [markLast_map, hmap]⟩
    have hsplit : new.map (fun c => (c, (0 : Int))) =
        (new.take old.length).map (fun c => (c, (0 : Int))) ++ (new.drop old.length).map (fun c => (c, (0 : Int))) := by
      rw [← List.map_append, List.take_append_drop]
    have hm := markLast_append ts ((new.take old.length).map fun c => (c, (0 : Int)))
      ((new.drop old.length).map fun c => (c, (0 : Int)))
    rw [List.length_map, List.length_drop, ← hsplit] at hm
    rw [hm]
    constructor
    · rw [used_append, used_append, used_zero, used_one]
      have := hk.used
      rw [List.length_take]
      omega
    · refine head_append_le hk.head ?_
      intro p hp
      cases hn : new with
      | nil => rw [hn] at hgt; simp at hgt
      | cons c new =>
        obtain ⟨o, old', rfl⟩ := List.exists_cons_of_ne_nil ho
        rw [hn] at hp
        simp only [List.length_cons, List.take_succ_cons, List.map_cons, List.cons_append, List.head?_cons,
          Option.mem_def, Option.some.injEq] at hp
        subst hp; simp
    · intro p hp
      rcases List.mem_append.1 hp with hp | hp
      · exact hk.le p hp
      rcases List.mem_append.1 hp with hp | hp
      · rw [hz _ p hp]; omega
      · obtain ⟨q, _, rfl⟩ := List.mem_map.1 hp; simp
  split
  · rename_i hge hlt
    have hd : ((new.length : Int) - old.length) ≤ 0 := by omega
    refine ⟨?_, by rw [addLast_map, hmap]⟩
    have hle : ∀ p ∈ ts ++ new.map (fun c => (c, (0 : Int))), p.2 ≤ 1 := by
      intro p hp
      rcases List.mem_append.1 hp with hp | hp
      · exact hk.le p hp
      · rw [hz _ p hp]; omega
    constructor
    · refine Nat.le_trans (used_addLast hd _ hle) ?_
      rw [used_append, used_zero]
      have := hk.used
      omega
    · refine addLast_head hd (head_append_le hk.head ?_)
      intro p hp; rw [hz _ p (List.mem_of_mem_head? hp)]; omega
    · intro p hp
      rcases List.eq_nil_or_concat (ts ++ new.map fun c => (c, (0 : Int))) with he | ⟨l, q, he⟩
      · rw [he] at hp; cases hp
      · rw [List.concat_eq_append] at he
        rw [he] at hp hle
        rw [addLast_append] at hp
        rcases List.mem_append.1 hp with hp | hp
        · exact hle p (by simp [hp])
        · simp only [List.mem_singleton] at hp
          subst hp
          have := hle q (by simp)
          simp only; omega
  · rename_i h1 h2
    refine ⟨⟨?_, head_append_le hk.head ?_, ?_⟩, hmap⟩
    · rw [used_append, used_zero]
      have := hk.used
      omega
    · intro p hp; rw [hz _ p (List.mem_of_mem_head? hp)]; omega
    · intro p hp
      rcases List.mem_append.1 hp with hp | hp
      · exact hk.le p hp
      · rw [hz _ p hp]; omega

/-- State of the loops: the rewriting so far, and if nothing was changed the text so far. -/
def LoopInv (st : List (Char × Int) × Bool) (s t : Str) : Prop :=
  Sofar st.1 s.length ∧ st.1.map (·.1) = t ∧ (st.2 = false → t = s)

theorem charLoop_inv {table : Str → Option Str} {st : List (Char × Int) × Bool} {s t : Str} (h : LoopInv st s t)
    (c : Char) : LoopInv (charLoop table st c) (s ++ [c]) (t ++ (table [c]).getD [c]) := by
  obtain ⟨h1, h2, h3⟩ := h
  unfold charLoop
  cases ht : table [c] with
  | some r =>
    obtain ⟨g1, g2⟩ := replacePart_sofar (old := [c]) (new := r) h1 (by simp)
    refine ⟨by simpa using g1, by simp [g2, h2], by simp⟩
  | none =>
    refine ⟨⟨?_, head_append_le h1.head (by simp), ?_⟩, by simp [h2], ?_⟩
    · rw [used_append]; have := h1.used; simp [used]; omega
    · intro p hp
      rcases List.mem_append.1 hp with hp | hp
      · exact h1.le p hp
      · simp only [List.mem_singleton] at hp; subst hp; simp
    · intro hf; simp [h3 hf]

theorem charsLoop_inv {table : Str → Option Str} : ∀ (g : Str) {st : List (Char × Int) × Bool} {s t : Str},
    LoopInv st s t → LoopInv (g.foldl (charLoop table) st) (s ++ g) (t ++ g.flatMap fun c => (table [c]).getD [c])
  | [], _, _, _, h => by simpa using h
  | c :: g, st, s, t, h => by
    have := charsLoop_inv (table := table) g (charLoop_inv (table := table) h c)
    simpa using this

theorem graphemeLoop_inv {table : Str → Option Str} {st : List (Char × Int) × Bool} {s t : Str} (h : LoopInv st s t)
    {g : Str} (hg : g ≠ []) : LoopInv (graphemeLoop table st g) (s ++ g) (t ++ lookUp table g) := by
  unfold graphemeLoop lookUp
  cases ht : table g with
  | none => simpa using charsLoop_inv (table := table) g h
  | some r =>
    by_cases hl : blen g < 6
    · simp only [hl, if_true]
      obtain ⟨g1, g2⟩ := replacePart_sofar (old := g) (new := r) h.1 hg
      exact ⟨by simpa using g1, by simp [g2, h.2.1], by simp⟩
    · simp only [hl, if_false]
      exact charsLoop_inv (table := table) g h

theorem graphemesLoop_inv {table : Str → Option Str} : ∀ (gs : List Str) {st : List (Char × Int) × Bool} {s t : Str},
    LoopInv st s t → (∀ g ∈ gs, g ≠ []) →
    LoopInv (gs.foldl (graphemeLoop table) st) (s ++ gs.flatten) (t ++ gs.flatMap (lookUp table))
  | [], _, _, _, h, _ => by simpa using h
  | g :: gs, st, s, t, h, hg => by
    have := graphemesLoop_inv (table := table) gs (graphemeLoop_inv (table := table) h (hg g (by simp)))
      (fun x hx => hg x (by simp [hx]))
    simpa using this

theorem precompiled_good {u : Unicode} (hu : u.Ok) (table : Str → Option Str) {whole : Str} {n : NS}
    (h : n.Good whole) : ∃ n', precompiledNormalize u table n = some n' ∧
      n'.norm = text u (.precompiled table) n.norm ∧ n'.Good whole ∧ SameSource n n' := by
  obtain ⟨g1, g2⟩ := hu.graphemes n.norm
  have hinv := graphemesLoop_inv (table := table) (u.graphemes n.norm) (st := ([], false)) (s := []) (t := [])
    ⟨⟨by simp [used], by simp, by simp⟩, rfl, by simp⟩ g2
  rw [List.nil_append, List.nil_append, g1] at hinv
  obtain ⟨h1, h2, h3⟩ := hinv
  unfold precompiledNormalize
  rw [text]
  simp only
  by_cases hm : ((u.graphemes n.norm).foldl (graphemeLoop table) ([], false)).2 = true
  · rw [if_pos hm]
    obtain ⟨n', e1, e2, e3⟩ := transform_good h (fits_of_used _ _ h1.used) h1.head
    exact ⟨n', e1, by rw [e2, h2], e3⟩
  · rw [if_neg hm]
    exact ⟨n, rfl, (h3 (by simpa using hm)).symm, h, .refl n⟩

/-! ## replace, prepend, byte level -/

theorem replace_eq {s content : Str} : ∀ (ms : List Range) (b : Nat), CutAt s b → EngineMatches s b ms →
    ∃ ps, piecesAt b ps = regexLoop (blen s) b ms ∧ strGet s b (blen s) = some (ps.flatMap (·.1)) ∧
      substitute content s b ms = ps.flatMap (fun p => if p.2 then content else p.1) ∧
      (ms.head? ≠ some (b, b) → ∀ p ∈ ps.head?, p.1 ≠ [])
  | [], b, hb, _ => by
    obtain ⟨p, q, hs, hp⟩ := hb
    subst hp
    have hg : strGet s (blen p) (blen s) = some q :=
      strGet_eq_some.2 ⟨p, [], by simp [hs], rfl, by rw [hs]; simp⟩
    rw [regexLoop]
    by_cases h : blen p = blen s
    · rw [if_neg (by simpa using h)]
      have hq : q = [] := by
        rw [hs, blen_append] at h
        exact blen_eq_zero.1 (by omega)
      subst hq
      exact ⟨[], rfl, by rw [hg]; rfl, by rw [substitute, hg]; rfl, by simp⟩
    · rw [if_pos h]
      refine ⟨[(q, false)], by rw [hs]; simp [piecesAt], by rw [hg]; simp, by rw [substitute, hg]; simp, fun _ => ?_⟩
      intro p' hp'
      simp only [List.head?_cons, Option.mem_def, Option.some.injEq] at hp'
      subst hp'
      rintro rfl
      simp at hs; exact h (by rw [hs])
  | m :: ms, b, hb, h => by
    obtain ⟨h1, h2, h3, h4, h5⟩ := h
    obtain ⟨ps, e1, e2, e3, _⟩ := replace_eq ms m.2 h4 h5
    obtain ⟨p, x, q, hs, hp, hx⟩ := cut_two hb h3 h1
    obtain ⟨p', y, q', hs', hp', hy⟩ := cut_two h3 h4 h2
    have hbm : strGet s b m.1 = some x := strGet_eq_some.2 ⟨p, q, hs, hp, hx⟩
    have hmm : strGet s m.1 m.2 = some y := strGet_eq_some.2 ⟨p', q', hs', hp', hy⟩
    have hend : strGet s b (blen s) = some (x ++ y ++ ps.flatMap (·.1)) := by
      obtain ⟨p2, q2, hs2, hp2, he2⟩ := strGet_eq_some.1 e2
      have hq2 : q2 = [] := by
        have := congrArg blen hs2
        simp at this
        exact blen_eq_zero.1 (by omega)
      subst hq2
      refine strGet_eq_some.2 ⟨p, [], ?_, hp, ?_⟩
      · have ha : p ++ x = p' := by
          have : p ++ x ++ q = p' ++ (y ++ q') := by rw [← hs, hs']; simp
          exact (append_inj_blen this (by simp; omega)).1
        have hb2 : p' ++ y = p2 := by
          have : p' ++ y ++ q' = p2 ++ ps.flatMap (·.1) := by rw [← hs', hs2]; simp
          exact (append_inj_blen this (by simp; omega)).1
        rw [hs2, ← hb2, ← ha]; simp
      · have := congrArg blen hs2
        simp at this ⊢
        omega
    have hlen : blen y = m.2 - m.1 := by omega
    rw [regexLoop]
    by_cases hbe : b = m.1
    · rw [if_neg (by simpa using hbe)]
      have hxe : x = [] := blen_eq_zero.1 (by omega)
      subst hxe
      refine ⟨(y, true) :: ps, ?_, by rw [hend]; simp, ?_, ?_⟩
      · rw [piecesAt, List.nil_append, show b + blen y = m.2 by omega, e1, hbe]
      · rw [substitute, hbm, e3]; simp
      · intro hh p0 hp0
        simp only [List.head?_cons, Option.mem_def, Option.some.injEq] at hp0
        subst hp0
        intro hy0
        simp only at hy0
        subst hy0
        apply hh
        simp only [List.head?_cons, Option.some.injEq]
        simp at hlen
        rw [Prod.ext_iff]; exact ⟨hbe.symm, by simp only; omega⟩
    · rw [if_pos hbe]
      refine ⟨(x, false) :: (y, true) :: ps, ?_, by rw [hend]; simp, ?_, ?_⟩
      · rw [piecesAt, piecesAt, show b + blen x = m.1 by omega, show m.1 + blen y = m.2 by omega, e1]; rfl
      · rw [substitute, hbm, e3]; simp
      · intro _ p0 hp0
        simp only [List.head?_cons, Option.mem_def, Option.some.injEq] at hp0
        subst hp0
        rintro rfl
        simp at hx; omega

theorem replaceNormalize_good {re : Str → List Range} {content whole : Str} {n : NS} (h : n.Good whole)
    (hre : EngineMatches n.norm 0 (re n.norm)) (hfirst : (re n.norm).head? ≠ some (0, 0)) :
    ∃ n', replaceNormalize re content n = some n' ∧
      n'.norm = (if n.norm = [] then [] else substitute content n.norm 0 (re n.norm)) ∧ n'.Good whole ∧ SameSource n n' := by
  unfold replaceNormalize findRegex
  by_cases hn : n.norm = []
  · rw [if_pos hn, if_pos hn]
    have he : n.replace [((0, 0), false)] content = some n := by
      simp [NS.replace, replaceLoop, hn, dropBytes]
      rw [← hn]
    exact ⟨n, he, hn, h, .refl n⟩
  · rw [if_neg hn, if_neg hn]
    obtain ⟨ps, e1, e2, e3, e4⟩ := replace_eq (content := content) (re n.norm) 0 (cutAt_zero _) hre
    have hps : n.norm = ps.flatMap (·.1) := by
      obtain ⟨p, q, hs, hp, hq⟩ := strGet_eq_some.1 e2
      have hp : p = [] := blen_eq_zero.1 hp
      subst hp
      have hq2 : q = [] := by
        have := congrArg blen hs
        simp at this
        exact blen_eq_zero.1 (by omega)
      subst hq2
      simpa using hs
    rw [← e1, e3]
    obtain ⟨n', h1, h2, _⟩ := C09_replace h.1 hps content
    exact ⟨n', h1, h2, ⟨.replace h.1 h1, C09_replace_solid h.1 h.2.1 hps (e4 hfirst) h1,
      within_of_edits h (.replace (.refl n) h1)⟩, edits_source (.replace (.refl n) h1)⟩

theorem utf8_ne_nil (c : Char) : (String.utf8EncodeChar c).map ByteLevel.byteChar ≠ [] := by
  intro h
  have := congrArg List.length h
  simp at this
  have := c.utf8Size_pos
  omega

theorem byteLevel_good {u : Unicode} {whole : Str} {n : NS} (h : n.Good whole) :
    ∃ n', byteLevelNormalize n = some n' ∧ n'.norm = text u .byteLevel n.norm ∧ n'.Good whole ∧ SameSource n n' ∧
      n'.chars = n.chars.flatMap fun c => ((String.utf8EncodeChar c.1).map ByteLevel.byteChar).map fun x => (x, c.2) := by
  obtain ⟨n', h1, h2, h3, h4, h5⟩ := mapChars_good' h utf8_ne_nil
  have he : n.mapChars (fun c => (String.utf8EncodeChar c).map ByteLevel.byteChar)
      = n.transform (n.norm.flatMap byteChanges) 0 := by
    unfold NS.mapChars
    congr 2
    funext c
    unfold byteChanges
    rw [List.zipIdx_map, List.map_map]
    apply List.map_congr_left
    intro p _
    simp only [Function.comp_def, Prod.map_fst, Prod.map_snd, id]
  have ht : text u .byteLevel n.norm = n.norm.flatMap fun c => (String.utf8EncodeChar c).map ByteLevel.byteChar := by
    rw [text]; simp only [ByteLevel.spell, strBytes, List.map_flatMap]
  unfold byteLevelNormalize
  by_cases hn : n.norm = []
  · rw [if_neg (by simpa using hn)]
    have hc : n.chars = [] := by
      have := norm_eq_text (reachable_ok h.1); rw [hn] at this
      simpa using this.symm
    exact ⟨n, rfl, by rw [hn, text]; rfl, h, .refl n, by rw [hc]; rfl⟩
  · rw [if_pos hn, ← he]
    exact ⟨n', h1, by rw [h2, ht], h3, h4, h5⟩

/-! ## all of them -/

mutual
/-- **C56.** A normalizer with safe settings never fails on a piece in the state an `encode` call puts it in; the text it
makes is the documented one, the original text and its position are untouched, and the piece is again in such a state. -/
theorem C56_normalizer {u : Unicode} (hu : u.Ok) {whole : Str} : ∀ (z : Normalizer) {n : NS}, z.Safe → n.Good whole →
    ∃ n', z.apply u n = some n' ∧ n'.norm = z.text u n.norm ∧ n'.Good whole ∧ SameSource n n'
  | .bert c h a l, n, _, hn => by rw [apply]; exact bert_good hu c h a l hn
  | .strip l r, n, _, hn => by rw [apply]; exact strip_good l r hn
  | .stripAccents, n, _, hn => by
    rw [apply, text]
    obtain ⟨n', h1, h2, h3, h4, _⟩ := filter_good hn fun c => !u.combining c
    exact ⟨n', h1, h2, h3, h4⟩
  | .nfc, n, _, hn => by rw [apply, text]; exact transform_good hn (hu.nfc _).1 (hu.nfc _).2
  | .nfd, n, _, hn => by rw [apply, text]; exact transform_good hn (hu.nfd _).1 (hu.nfd _).2
  | .nfkc, n, _, hn => by rw [apply, text]; exact transform_good hn (hu.nfkc _).1 (hu.nfkc _).2
  | .nfkd, n, _, hn => by rw [apply, text]; exact transform_good hn (hu.nfkd _).1 (hu.nfkd _).2
  | .sequence l, n, hs, hn => by rw [apply, text]; exact C56_all hu l hs hn
  | .lowercase, n, _, hn => by
    rw [apply, text]
    obtain ⟨n', h1, h2, h3, h4, _⟩ := mapChars_good' hn hu.lower
    exact ⟨n', h1, h2, h3, h4⟩
  | .nmt, n, _, hn => by rw [apply]; exact nmt_good hn
  | .precompiled t, n, _, hn => by rw [apply]; exact precompiled_good hu t hn
  | .replace re c, n, hs, hn => by
    rw [apply, text]; rw [Safe] at hs
    exact replaceNormalize_good hn (hs _).1 (hs _).2
  | .prepend s, n, hs, hn => by
    rw [apply, text]; rw [Safe] at hs
    unfold prependNormalize
    obtain ⟨n', h1, h2, h3⟩ := prepend_good hn hs
    by_cases h0 : n.norm = []
    · rw [if_neg (by simpa using h0)]
      exact ⟨n, rfl, by simp [h0], hn, .refl n⟩
    · rw [if_pos h0]
      exact ⟨n', h1, h2, h3, edits_source (.prepend (.refl n) h1)⟩
  | .byteLevel, n, _, hn => by
    rw [apply]
    obtain ⟨n', h1, h2, h3, h4, _⟩ := byteLevel_good (u := u) hn
    exact ⟨n', h1, h2, h3, h4⟩

theorem C56_all {u : Unicode} (hu : u.Ok) {whole : Str} : ∀ (l : List Normalizer) {n : NS}, SafeAll l → n.Good whole →
    ∃ n', applyAll u l n = some n' ∧ n'.norm = textAll u l n.norm ∧ n'.Good whole ∧ SameSource n n'
  | [], n, _, hn => by rw [applyAll, textAll]; exact ⟨n, rfl, rfl, hn, .refl n⟩
  | z :: l, n, hs, hn => by
    rw [SafeAll] at hs
    obtain ⟨n1, h1, h2, h3, h4⟩ := C56_normalizer hu z hs.1 hn
    obtain ⟨n2, g1, g2, g3, g4⟩ := C56_all hu l hs.2 h3
    rw [applyAll, textAll]
    exact ⟨n2, by simp only [h1]; exact g1, by rw [g2, h2], g3, h4.trans g4⟩
end

end Normalizer
end Tok
