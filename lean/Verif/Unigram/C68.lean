import Verif.Unigram.Sample

/-!
# C68: sampling draws segmentations of the sentence, for `alpha = 1` according to the unigram language model
-/

namespace Tok.Unigram

variable {s : Str} {E : List Edge} {L : Lattice}

/-- What is drawn is a path, every path may be drawn, and the probabilities add up to 1. -/
theorem sample_eq (hF : Full s E) (hL : IsLattice s E L) (hb : BosApart E L) (θ : ℝ) :
    L.sample θ = some ((pathsTo E (blen s) (blen s)).map fun is =>
      (is.map (· + 2), (is.map (edgeProb E θ (L.sampleAlpha θ))).prod)) := by
  unfold Lattice.sample
  rw [hL.len]
  by_cases h0 : blen s = 0
  · simp [h0, pathsTo]
  · rw [if_neg h0, hL.begins_eq hF, if_pos rfl, hL.ends_eq hF, if_pos rfl]
    obtain ⟨id, h1⟩ := hL.eos
    simp only
    rw [draw_eq hF hL hb θ _ (blen s) (blen s) (le_refl _) ⟨s, List.prefix_refl s, rfl⟩ 1 _ h1 rfl]
    simp

theorem path_lt (hE : ∀ e ∈ E, e.start < e.stop) : ∀ (is : List Nat) (p q : Nat), IdxPath E p q is → ∀ i ∈ is, i < E.length
  | [], _, _, _, i, h => by simp at h
  | j :: js, p, q, ⟨e, h1, h2, h3⟩, i, h => by
    rcases List.mem_cons.1 h with rfl | h
    · exact (List.getElem?_eq_some_iff.1 h1).1
    · exact path_lt hE js _ _ h3 i h

theorem prod_pos_of {l : List ℝ} (h : ∀ x ∈ l, 0 < x) : 0 < l.prod := by
  induction l with
  | nil => simp
  | cons a l ih =>
    rw [List.prod_cons]
    exact mul_pos (h a (by simp)) (ih (fun x hx => h x (by simp [hx])))

/-- **C68.** On every lattice in which each position can be reached, for every `theta`: `sample` does not panic, it
draws a path of the lattice, it can draw each path, and the probabilities add up to 1. Node `i + 2` of the lattice is
edge `i`. -/
theorem C68_sample (hF : Full s E) (hL : IsLattice s E L) (hb : BosApart E L) {paths : List (List Nat)}
    (hp : AllPaths E (blen s) paths) (θ : ℝ) :
    ∃ ds, L.sample θ = some ds ∧ (ds.map (·.1)).Perm (paths.map (·.map (· + 2))) ∧ (∀ d ∈ ds, 0 < d.2) ∧
      (ds.map (·.2)).sum = 1 := by
  have hE : ∀ e ∈ E, e.start < e.stop := fun e he => (hF.lt e he).1
  refine ⟨_, sample_eq hF hL hb θ, ?_, ?_, ?_⟩
  · rw [List.map_map]
    exact ((allPaths_exists hE (blen s)).perm hp).map _
  · intro d hd
    obtain ⟨is, his, rfl⟩ := List.mem_map.1 hd
    apply prod_pos_of
    intro x hx
    obtain ⟨i, hi, rfl⟩ := List.mem_map.1 hx
    exact edgeProb_pos (path_lt hE _ _ _ ((mem_pathsTo hE _ _ (le_refl _) _).1 his) i hi)
  · rw [List.map_map]
    exact sum_pathsTo hF θ _ _ _ (le_refl _) ⟨s, List.prefix_refl s, rfl⟩

/-! ### `theta = 1` -/

theorem sampleAlpha_one (L : Lattice) : L.sampleAlpha 1 = L.alpha := by
  have h : L.samplePos 1 = L.sweepPos L.beginNodes L.endNodes := by
    have : ∀ ls r, L.sampleStep 1 ls r = L.sweepStep ls r := by
      intro ls r
      funext al l n
      simp [Lattice.sampleStep, Lattice.sweepStep]
    funext al p
    simp [Lattice.samplePos, Lattice.sweepPos, this]
  rw [Lattice.sampleAlpha, Lattice.alpha, Lattice.sweep, h]

theorem massTo_pos (hF : Full s E) {q : Nat} (hq : ∃ a, a <+: s ∧ q = blen a) : 0 < massTo E q := by
  have hE : ∀ e ∈ E, e.start < e.stop := fun e he => (hF.lt e he).1
  induction q using Nat.strong_induction_on with
  | _ q ih =>
    by_cases h0 : q = 0
    · subst h0; rw [massTo_zero]; exact one_pos
    · rw [massTo_step hE h0]
      obtain ⟨a, ha, hqa⟩ := hq
      apply sum_pos_of
      · rcases hF.reached a ha with h | ⟨e, he, hs⟩
        · omega
        · obtain ⟨i, hi⟩ := List.mem_iff_getElem?.1 he
          have : i ∈ stopping E q := mem_stopping.2 ⟨e, hi, by omega⟩
          intro h
          rw [List.map_eq_nil_iff] at h
          rw [h] at this
          simp at this
      · intro w hw
        obtain ⟨i, hi, rfl⟩ := List.mem_map.1 hw
        obtain ⟨e, he, hes⟩ := mem_stopping.1 hi
        have hlt := hF.lt e (List.mem_of_getElem? he)
        have hso : startOf E i = e.start := by simp [startOf, he]
        apply mul_pos (Real.exp_pos _)
        rw [hso]
        exact ih e.start (by omega) (hF.start e (List.mem_of_getElem? he))

/-- A sum of terms each of which is close to that of another sum is close to that sum. -/
theorem sum_close {ι : Type} {w v : ι → ℝ} {ε : ℝ} : ∀ {l : List ι},
    (∀ i ∈ l, v i * Real.exp (-ε) ≤ w i ∧ w i ≤ v i) →
    (l.map v).sum * Real.exp (-ε) ≤ (l.map w).sum ∧ (l.map w).sum ≤ (l.map v).sum
  | [], _ => by simp
  | i :: l, h => by
    obtain ⟨h1, h2⟩ := sum_close (l := l) (fun j hj => h j (by simp [hj]))
    obtain ⟨h3, h4⟩ := h i (by simp)
    simp only [List.map_cons, List.sum_cons]
    constructor
    · rw [add_mul]; linarith
    · linarith

/-- The logarithm of the probability of choosing an edge. -/
theorem edgeProb_close (hF : Full s E) (hL : IsLattice s E L) (hI : IdsApart E) {i : Nat} {e : Edge}
    (hi : E[i]? = some e) :
    |Real.log (edgeProb E 1 L.alpha i) - ((edgeScore E i : ℝ) + Real.log (massTo E e.start) - Real.log (massTo E e.stop))| ≤
      E.length * Real.exp (-50) := by
  have hE : ∀ e ∈ E, e.start < e.stop := fun e he => (hF.lt e he).1
  have hw : ∀ j f, E[j]? = some f →
      Real.exp (edgeScore E j) * massTo E f.start * Real.exp (-(E.length * Real.exp (-50))) ≤ edgeWeight E 1 L.alpha j ∧
      edgeWeight E 1 L.alpha j ≤ Real.exp (edgeScore E j) * massTo E f.start := by
    intro j f hj
    have hlt := hF.lt f (List.mem_of_getElem? hj)
    obtain ⟨c1, c2, c3⟩ := (alpha_close hF hL hI f.start (by omega) (j + 2)
      ((hL.begins _ _).2 (.inr ⟨j, f, rfl, hj, rfl⟩))).mono (cTo_le f.start)
    have e1 : Real.exp (edgeScore E j) * massTo E f.start =
        Real.exp (edgeScore E j + Real.log (massTo E f.start)) := by
      rw [Real.exp_add, Real.exp_log c1]
    rw [e1, ← Real.exp_add, edgeWeight, one_mul]
    constructor <;> apply Real.exp_le_exp.2 <;> linarith
  have hstop : stopOf E i = e.stop := by simp [stopOf, hi]
  have hlt := hF.lt e (List.mem_of_getElem? hi)
  have hmass : ((stopping E e.stop).map (fun j => Real.exp (edgeScore E j) * massTo E (startOf E j))).sum = massTo E e.stop :=
    (massTo_step hE (by omega)).symm
  obtain ⟨s1, s2⟩ := sum_close (l := stopping E e.stop) (w := edgeWeight E 1 L.alpha)
    (v := fun j => Real.exp (edgeScore E j) * massTo E (startOf E j)) (ε := E.length * Real.exp (-50)) (by
      intro j hj
      obtain ⟨f, hf, -⟩ := mem_stopping.1 hj
      have hso : startOf E j = f.start := by simp [startOf, hf]
      simp only [hso]
      exact hw j f hf)
  rw [hmass] at s1 s2
  obtain ⟨w1, w2⟩ := hw i e hi
  have hms : 0 < massTo E e.start := massTo_pos hF (hF.start e (List.mem_of_getElem? hi))
  have hpos : 0 < Real.exp (edgeScore E i) * massTo E e.start := mul_pos (Real.exp_pos _) hms
  have hne : stopping E e.stop ≠ [] := List.ne_nil_of_mem (mem_stopping.2 ⟨e, hi, rfl⟩)
  have hmt : 0 < massTo E e.stop := by
    have := sum_pos_of (ws := (stopping E e.stop).map (edgeWeight E 1 L.alpha)) (by simpa using hne) (by
      intro w hw
      obtain ⟨j, -, rfl⟩ := List.mem_map.1 hw
      exact Real.exp_pos _)
    linarith
  have hsp : 0 < ((stopping E e.stop).map (edgeWeight E 1 L.alpha)).sum :=
    lt_of_lt_of_le (mul_pos hmt (Real.exp_pos _)) s1
  have lw1 := Real.log_le_log (mul_pos hpos (Real.exp_pos _)) w1
  have hwp : 0 < edgeWeight E 1 L.alpha i := by unfold edgeWeight; exact Real.exp_pos _
  have lw2 := Real.log_le_log hwp w2
  have ls1 := Real.log_le_log (mul_pos hmt (Real.exp_pos _)) s1
  have ls2 := Real.log_le_log hsp s2
  rw [Real.log_mul hpos.ne' (Real.exp_ne_zero _), Real.log_exp, Real.log_mul (Real.exp_ne_zero _) hms.ne',
    Real.log_exp] at lw1
  rw [Real.log_mul (Real.exp_ne_zero _) hms.ne', Real.log_exp] at lw2
  rw [Real.log_mul hmt.ne' (Real.exp_ne_zero _), Real.log_exp] at ls1
  unfold edgeProb
  rw [hstop, Real.log_div hwp.ne' hsp.ne', abs_le]
  constructor <;> linarith

/-- The logarithm of the probability of a path. -/
theorem pathProb_close (hF : Full s E) (hL : IsLattice s E L) (hI : IdsApart E) : ∀ (is : List Nat) (p q : Nat),
    IdxPath E p q is →
    |Real.log ((is.map (edgeProb E 1 L.alpha)).prod) -
      ((idxTotal E is : ℝ) + Real.log (massTo E p) - Real.log (massTo E q))| ≤ is.length * (E.length * Real.exp (-50))
  | [], p, q, h => by
    have : p = q := h
    simp [this, idxTotal]
  | i :: is, p, q, ⟨e, h1, h2, h3⟩ => by
    have hE : ∀ e ∈ E, e.start < e.stop := fun e he => (hF.lt e he).1
    have ih := pathProb_close hF hL hI is _ _ h3
    have he := edgeProb_close hF hL hI h1
    have hp1 : 0 < edgeProb E 1 L.alpha i := edgeProb_pos (List.getElem?_eq_some_iff.1 h1).1
    have hp2 : 0 < (is.map (edgeProb E 1 L.alpha)).prod := by
      apply prod_pos_of
      intro x hx
      obtain ⟨j, hj, rfl⟩ := List.mem_map.1 hx
      exact edgeProb_pos (path_lt hE _ _ _ h3 j hj)
    rw [List.map_cons, List.prod_cons, Real.log_mul hp1.ne' hp2.ne', idxTotal_cons', List.length_cons]
    subst h2
    rw [abs_le] at *
    push_cast
    constructor <;> linarith [ih.1, ih.2, he.1, he.2]

/-- **C68.** With `theta = 1`, paths are drawn with the probability that the unigram language model gives them: the
exponential of their score, divided by the sum over all paths. The error in the logarithm is at most `exp(-50)` for
each piece of the path and each edge of the lattice. -/
theorem C68_theta_one (hF : Full s E) (hL : IsLattice s E L) (hb : BosApart E L) (hI : IdsApart E)
    {paths : List (List Nat)} (hp : AllPaths E (blen s) paths) :
    ∃ ds, L.sample 1 = some ds ∧ ∀ is p, (is.map (· + 2), p) ∈ ds →
      |Real.log p - Real.log (Real.exp (idxTotal E is) / mass E paths)| ≤ is.length * (E.length * Real.exp (-50)) := by
  have hE : ∀ e ∈ E, e.start < e.stop := fun e he => (hF.lt e he).1
  refine ⟨_, sample_eq hF hL hb 1, ?_⟩
  intro is p h
  obtain ⟨js, hjs, hh⟩ := List.mem_map.1 h
  simp only [Prod.mk.injEq] at hh
  obtain ⟨h1, rfl⟩ := hh
  obtain rfl : js = is := by
    have := congrArg (List.map (· - 2)) h1
    simpa [Function.comp_def] using this
  have hpath := (mem_pathsTo hE _ _ (le_refl _) _).1 hjs
  have := pathProb_close hF hL hI js _ _ hpath
  rw [massTo_zero, Real.log_one, add_zero] at this
  have hm : massTo E (blen s) = mass E paths := mass_perm ((allPaths_exists hE (blen s)).perm hp)
  have hpos : 0 < mass E paths := hm ▸ massTo_pos hF ⟨s, List.prefix_refl s, rfl⟩
  rw [Real.log_div (Real.exp_ne_zero _) hpos.ne', Real.log_exp, sampleAlpha_one, ← hm]
  exact this

/-! ### Other values of `theta` -/

theorem sampleStep_fold (L : Lattice) (θ : ℝ) (S : List Nat) {r : Nat} {al : Nat → ℝ} : ∀ (ls : List Nat) (al' : Nat → ℝ),
    r ∉ ls → (∀ n, n ≠ r → al' n = al n) →
    ls.foldl (L.sampleStep θ S r) al' = fun n => if n = r then
      ls.foldl (fun x l => logSumExp x (θ * (L.scoreAt l + al l)) (L.isFirst S l)) (al' r) else al n
  | [], al', _, h => by
    funext n
    by_cases hn : n = r
    · simp [hn]
    · simp [hn, h n hn]
  | l :: ls, al', h1, h2 => by
    have hl : l ≠ r := by intro h; simp [h] at h1
    rw [List.foldl_cons, sampleStep_fold L θ S (r := r) (al := al) ls _ (fun h => h1 (by simp [h]))]
    · funext n
      by_cases hn : n = r
      · simp [hn, Lattice.sampleStep, h2 l hl]
      · simp [hn]
    · intro n hn
      simp [Lattice.sampleStep, hn, h2 n hn]

theorem fold_congr {L : Lattice} {θ : ℝ} {S : List Nat} {al al' : Nat → ℝ} : ∀ {ls : List Nat} {x : ℝ},
    (∀ l ∈ ls, al l = al' l) →
    ls.foldl (fun x l => logSumExp x (θ * (L.scoreAt l + al l)) (L.isFirst S l)) x =
    ls.foldl (fun x l => logSumExp x (θ * (L.scoreAt l + al' l)) (L.isFirst S l)) x
  | [], _, _ => rfl
  | l :: ls, x, h => by
    rw [List.foldl_cons, List.foldl_cons, h l (by simp)]
    exact fold_congr (fun j hj => h j (by simp [hj]))

theorem samplePos_spec (hF : Full s E) (hL : IsLattice s E L) (θ : ℝ) (al : Nat → ℝ) (p : Nat) :
    (∀ n, n ∉ L.beginNodes p → L.samplePos θ al p n = al n) ∧
    ∀ r ∈ L.beginNodes p, L.samplePos θ al p r =
      (L.endNodes p).foldl (fun x l => logSumExp x (θ * (L.scoreAt l + al l)) (L.isFirst (L.endNodes p) l)) (al r) := by
  have hnd : (L.beginNodes p).Nodup := (hL.beginsSorted p).imp (fun h => Nat.ne_of_lt h)
  have main : ∀ (rs : List Nat) (al' : Nat → ℝ), rs.Nodup → (∀ r ∈ rs, r ∈ L.beginNodes p) →
      (∀ l ∈ L.endNodes p, al' l = al l) → (∀ r ∈ rs, al' r = al r) →
      (∀ n, n ∉ rs → rs.foldl (fun al r => (L.endNodes p).foldl (L.sampleStep θ (L.endNodes p) r) al) al' n = al' n) ∧
      ∀ r ∈ rs, rs.foldl (fun al r => (L.endNodes p).foldl (L.sampleStep θ (L.endNodes p) r) al) al' r =
        (L.endNodes p).foldl (fun x l => logSumExp x (θ * (L.scoreAt l + al l)) (L.isFirst (L.endNodes p) l)) (al r) := by
    intro rs
    induction rs with
    | nil => intro al' _ _ _ _; exact ⟨fun _ _ => rfl, by simp⟩
    | cons r rs ih =>
      intro al' hnd hrs hal hal2
      obtain ⟨n1, n2⟩ := List.nodup_cons.1 hnd
      have hr : r ∉ L.endNodes p := hL.begin_end hF (hrs r (by simp))
      have hstep := sampleStep_fold L θ (L.endNodes p) (r := r) (al := al') (L.endNodes p) al' hr (fun _ _ => rfl)
      rw [List.foldl_cons]
      obtain ⟨i1, i2⟩ := ih ((L.endNodes p).foldl (L.sampleStep θ (L.endNodes p) r) al') n2
        (fun x hx => hrs x (by simp [hx])) (by
          intro l hl
          rw [hstep]
          have : l ≠ r := fun h => hr (h ▸ hl)
          simp [this, hal l hl]) (by
          intro x hx
          rw [hstep]
          have : x ≠ r := fun h => n1 (h ▸ hx)
          simp [this, hal2 x (by simp [hx])])
      constructor
      · intro n hn
        rw [i1 n (fun h => hn (by simp [h])), hstep]
        have : n ≠ r := fun h => hn (by simp [h])
        simp [this]
      · intro r' hr'
        rcases List.mem_cons.1 hr' with rfl | h
        · rw [i1 _ n1, hstep]
          simp only [if_true]
          rw [hal2 _ (by simp)]
          exact fold_congr hal
        · exact i2 r' h
  exact main _ al hnd (fun _ h => h) (fun _ _ => rfl) (fun _ _ => rfl)

/-- What the forward pass of `sample` computes. -/
theorem sampleAlpha_spec (hF : Full s E) (hL : IsLattice s E L) (θ : ℝ) :
    L.sampleAlpha θ 0 = 0 ∧ ∀ p ≤ blen s, ∀ r ∈ L.beginNodes p, L.sampleAlpha θ r =
      (L.endNodes p).foldl (fun x l => logSumExp x (θ * (L.scoreAt l + L.sampleAlpha θ l)) (L.isFirst (L.endNodes p) l)) 0 := by
  have hE : ∀ e ∈ E, e.start < e.stop := fun e he => (hF.lt e he).1
  have main : ∀ (k : Nat), ((List.range k).foldl (L.samplePos θ) (fun _ => 0)) 0 = 0 ∧
      (∀ n, (∀ p < k, n ∉ L.beginNodes p) → ((List.range k).foldl (L.samplePos θ) (fun _ => 0)) n = 0) ∧
      ∀ p < k, ∀ r ∈ L.beginNodes p, ((List.range k).foldl (L.samplePos θ) (fun _ => 0)) r =
        (L.endNodes p).foldl (fun x l => logSumExp x
          (θ * (L.scoreAt l + ((List.range k).foldl (L.samplePos θ) (fun _ => 0)) l)) (L.isFirst (L.endNodes p) l)) 0 := by
    intro k
    induction k with
    | zero => exact ⟨rfl, fun _ _ => rfl, by intro p hp; omega⟩
    | succ k ih =>
      obtain ⟨i1, i2, i3⟩ := ih
      rw [List.range_succ, List.foldl_append, List.foldl_cons, List.foldl_nil]
      generalize (List.range k).foldl (L.samplePos θ) (fun _ => 0) = al at i1 i2 i3
      obtain ⟨s1, s2⟩ := samplePos_spec hF hL θ al k
      -- sources of positions up to `k` are not assigned any more
      have hsrc : ∀ p ≤ k, ∀ l ∈ L.endNodes p, L.samplePos θ al k l = al l := by
        intro p hp l hl
        apply s1
        intro hb
        rcases (hL.ends p l).1 hl with ⟨rfl, -⟩ | ⟨i, e, rfl, hi, rfl⟩
        · exact (hL.mem_begin hb).2 rfl
        · have h1 := (hL.mem_begin hb).1
          have := hE e (List.mem_of_getElem? hi)
          simp [beginPos, startOf, hi] at h1
          omega
      refine ⟨?_, ?_, ?_⟩
      · rw [s1 0 (fun h => (hL.mem_begin h).2 rfl), i1]
      · intro n hn
        rw [s1 n (hn k (by omega)), i2 n (fun p hp => hn p (by omega))]
      · intro p hp r hr
        by_cases hpk : p = k
        · subst hpk
          rw [s2 r hr, i2 r (fun q hq h => by
            have a := (hL.mem_begin hr).1
            have b := (hL.mem_begin h).1
            omega)]
          exact fold_congr (fun l hl => (hsrc p (le_refl _) l hl).symm)
        · have hlt : p < k := by omega
          rw [s1 r (fun h => hpk ((hL.mem_begin hr).1.trans (hL.mem_begin h).1.symm)), i3 p hlt r hr]
          exact fold_congr (fun l hl => (hsrc p (by omega) l hl).symm)
  obtain ⟨m1, -, m3⟩ := main (L.len + 1)
  refine ⟨m1, ?_⟩
  intro p hp r hr
  exact m3 p (by rw [hL.len]; omega) r hr

end Tok.Unigram
