import Verif.Unigram.C47
import Mathlib.Analysis.SpecialFunctions.Log.Basic

/-!
# Model of `Lattice::populate_marginal` (`models/unigram/lattice.rs`)

Numbers are reals with the real `exp` and `ln`: rounding, infinities and NaN are outside the model. The cut-off of
`log_sum_exp`, which the code makes on purpose, is modelled.
-/

namespace Tok.Unigram

/-- `lattice.rs:122-134` `log_sum_exp`. -/
noncomputable def logSumExp (x y : ℝ) (init : Bool) : ℝ :=
  if init then y
  else
    let vmin := if x > y then y else x
    let vmax := if x > y then x else y
    if vmax > vmin + 50 then vmax else vmax + Real.log (Real.exp (vmin - vmax) + 1)

/-- `node.borrow().score`. -/
noncomputable def Lattice.scoreAt (L : Lattice) (n : Nat) : ℝ := (((L.nodes[n]?.map (·.score)).getD 0 : Rat) : ℝ)

/-- `lattice.rs:98-102`: two nodes are equal if they have the same vocabulary id. -/
def Lattice.sameId (L : Lattice) (a b : Nat) : Bool := L.nodes[a]?.map (·.id) == L.nodes[b]?.map (·.id)

/-- `*lnode == self.end_nodes[pos][0]` (`lattice.rs:327, 341`), `ns` being the vector. -/
def Lattice.isFirst (L : Lattice) (ns : List Nat) (n : Nat) : Bool :=
  match ns with
  | [] => false
  | m :: _ => L.sameId n m

/-- `lattice.rs:322-328` / `lattice.rs:336-342`: one assignment to entry `r`; the vector is a function of the
index. -/
noncomputable def Lattice.sweepStep (L : Lattice) (ls : List Nat) (r : Nat) (al : Nat → ℝ) (l : Nat) : Nat → ℝ :=
  fun n => if n = r then logSumExp (al r) (L.scoreAt l + al l) (L.isFirst ls l) else al n

/-- `lattice.rs:320-330` / `lattice.rs:334-344`: all assignments for one position. -/
noncomputable def Lattice.sweepPos (L : Lattice) (into from' : Nat → List Nat) (al : Nat → ℝ) (pos : Nat) :
    Nat → ℝ :=
  (into pos).foldl (fun al r => (from' pos).foldl (L.sweepStep (from' pos) r) al) al

/-- The positions in the given order, starting from zeroes. -/
noncomputable def Lattice.sweep (L : Lattice) (into from' : Nat → List Nat) (order : List Nat) : Nat → ℝ :=
  order.foldl (L.sweepPos into from') (fun _ => 0)

/-- `lattice.rs:319-331`, the forward pass. -/
noncomputable def Lattice.alpha (L : Lattice) : Nat → ℝ :=
  L.sweep L.beginNodes L.endNodes (List.range (L.len + 1))

/-- `lattice.rs:332-345`, the backward pass. -/
noncomputable def Lattice.beta (L : Lattice) : Nat → ℝ :=
  L.sweep L.endNodes L.beginNodes (List.range (L.len + 1)).reverse

/-- `expected[id] += x`; `none`: out of bounds. -/
noncomputable def addAt (l : List ℝ) (i : Nat) (x : ℝ) : Option (List ℝ) :=
  if i < l.length then some (l.modify i (· + x)) else none

/-- `lattice.rs:350-358`: one node. -/
noncomputable def Lattice.addNode (L : Lattice) (freq z : ℝ) (expected : List ℝ) (n : Nat) : Option (List ℝ) :=
  (L.nodes[n]?).bind fun nd =>
    addAt expected nd.id (freq * Real.exp (L.alpha n + L.scoreAt n + L.beta n - z))

/-- `lattice.rs:313-361` `Lattice::populate_marginal`: the returned number and the new `expected`; `none`: the code
panics. -/
noncomputable def Lattice.populateMarginal (L : Lattice) (freq : ℝ) (expected : List ℝ) : Option (ℝ × List ℝ) :=
  match L.beginNodes L.len with
  | [] => none
  | eos :: _ =>
    let z := L.alpha eos
    (((List.range L.len).flatMap L.beginNodes).foldlM (L.addNode freq z) expected).map fun ex => (freq * z, ex)

/-! ### Specification -/

/-- The vocabulary id of the edge with index `i`. -/
def edgeId (E : List Edge) (i : Nat) : Nat := (E[i]?.map (fun e => e.id.getD 0)).getD 0

/-- The probability mass, before normalisation, of a list of paths: the sum of the exponentials of their scores. -/
noncomputable def mass (E : List Edge) (paths : List (List Nat)) : ℝ :=
  (paths.map (fun is => Real.exp (idxTotal E is : ℝ))).sum

/-- As `mass`, each path counted as often as the vocabulary id occurs in it. -/
noncomputable def massOf (E : List Edge) (id : Nat) (paths : List (List Nat)) : ℝ :=
  (paths.map (fun is => Real.exp (idxTotal E is : ℝ) * (is.countP (fun i => edgeId E i = id) : ℝ))).sum

/-- `paths` lists all paths of the lattice, each once. -/
structure AllPaths (E : List Edge) (len : Nat) (paths : List (List Nat)) : Prop where
  mem : ∀ is, is ∈ paths ↔ IdxPath E 0 len is
  nodup : paths.Nodup

/-- `x` is the logarithm of `v`, or less, but by no more than `k * exp(-50)`. -/
def Close (k : Nat) (x v : ℝ) : Prop := 0 < v ∧ x ≤ Real.log v ∧ Real.log v ≤ x + k * Real.exp (-50)

/-! ### `log_sum_exp` -/

theorem logSumExp_init (x y : ℝ) : logSumExp x y true = y := by simp [logSumExp]

theorem Close.mono {k k' : Nat} {x v : ℝ} (h : Close k x v) (hk : k ≤ k') : Close k' x v := by
  refine ⟨h.1, h.2.1, h.2.2.trans ?_⟩
  have : (k : ℝ) ≤ k' := by exact_mod_cast hk
  have := mul_le_mul_of_nonneg_right this (Real.exp_pos (-50)).le
  linarith

theorem Close.shift {k : Nat} {x v : ℝ} (h : Close k x v) (s : ℝ) : Close k (s + x) (Real.exp s * v) := by
  obtain ⟨h1, h2, h3⟩ := h
  have : Real.log (Real.exp s * v) = s + Real.log v := by
    rw [Real.log_mul (Real.exp_ne_zero s) h1.ne', Real.log_exp]
  refine ⟨mul_pos (Real.exp_pos s) h1, ?_, ?_⟩ <;> rw [this] <;> linarith

/-- The exact part of `log_sum_exp`: between the largest and the logarithm of the sum. -/
theorem logSumExp_close (x y : ℝ) :
    logSumExp x y false ≤ Real.log (Real.exp x + Real.exp y) ∧
    Real.log (Real.exp x + Real.exp y) ≤ logSumExp x y false + Real.exp (-50) := by
  have key : ∀ a b : ℝ, a ≤ b →
      (if b > a + 50 then b else b + Real.log (Real.exp (a - b) + 1)) ≤ Real.log (Real.exp a + Real.exp b) ∧
      Real.log (Real.exp a + Real.exp b) ≤
        (if b > a + 50 then b else b + Real.log (Real.exp (a - b) + 1)) + Real.exp (-50) := by
    intro a b hab
    have e1 : Real.log (Real.exp a + Real.exp b) = b + Real.log (Real.exp (a - b) + 1) := by
      have : Real.exp a + Real.exp b = Real.exp b * (Real.exp (a - b) + 1) := by
        rw [mul_add, ← Real.exp_add]; ring_nf
      rw [this, Real.log_mul (Real.exp_ne_zero b) (by positivity), Real.log_exp]
    rw [e1]
    split
    · rename_i h
      have h1 : Real.log (Real.exp (a - b) + 1) ≤ Real.exp (a - b) := by
        have := Real.log_le_sub_one_of_pos (x := Real.exp (a - b) + 1) (by positivity)
        linarith
      have h2 : Real.exp (a - b) ≤ Real.exp (-50) := Real.exp_le_exp.2 (by linarith)
      have h3 : 0 ≤ Real.log (Real.exp (a - b) + 1) := Real.log_nonneg (by
        have := Real.exp_pos (a - b); linarith)
      constructor <;> linarith
    · constructor
      · exact le_refl _
      · have := Real.exp_pos (-50); linarith
  unfold logSumExp
  simp only [Bool.false_eq_true, if_false]
  by_cases h : x > y
  · simp only [h, if_true]
    have := key y x h.le
    rwa [add_comm (Real.exp y)] at this
  · simp only [h, if_false]
    exact key x y (not_lt.1 h)

theorem Close.add {k : Nat} {x y v w : ℝ} (hx : Close k x v) (hy : Close k y w) :
    Close (k + 1) (logSumExp x y false) (v + w) := by
  obtain ⟨v0, x1, x2⟩ := hx
  obtain ⟨w0, y1, y2⟩ := hy
  obtain ⟨l1, l2⟩ := logSumExp_close x y
  have ex : Real.exp x ≤ v := by rw [← Real.exp_log v0]; exact Real.exp_le_exp.2 x1
  have ey : Real.exp y ≤ w := by rw [← Real.exp_log w0]; exact Real.exp_le_exp.2 y1
  have hpos : 0 < Real.exp x + Real.exp y := by positivity
  refine ⟨by linarith, l1.trans (Real.log_le_log hpos (by linarith)), ?_⟩
  have ex' : v ≤ Real.exp (k * Real.exp (-50)) * Real.exp x := by
    rw [← Real.exp_add]
    calc v = Real.exp (Real.log v) := (Real.exp_log v0).symm
      _ ≤ _ := Real.exp_le_exp.2 (by linarith)
  have ey' : w ≤ Real.exp (k * Real.exp (-50)) * Real.exp y := by
    rw [← Real.exp_add]
    calc w = Real.exp (Real.log w) := (Real.exp_log w0).symm
      _ ≤ _ := Real.exp_le_exp.2 (by linarith)
  have : Real.log (v + w) ≤ k * Real.exp (-50) + Real.log (Real.exp x + Real.exp y) := by
    rw [← Real.log_exp (k * Real.exp (-50)), ← Real.log_mul (Real.exp_ne_zero _) hpos.ne']
    apply Real.log_le_log (by linarith)
    rw [mul_add]; linarith
  push_cast
  linarith

/-! ### One entry -/

/-- Folding over the sources of an entry. -/
theorem fold_close (L : Lattice) {K : Nat} {al : Nat → ℝ} {val : Nat → ℝ} {m : Nat} {ms : List Nat} : ∀ (ls : List Nat) (x v : ℝ) (k : Nat),
    (∀ l ∈ ls, L.sameId l m = false) → (∀ l ∈ ls, Close K (al l) (val l)) → K ≤ k → Close k x v →
    Close (k + ls.length) (ls.foldl (fun x l => logSumExp x (L.scoreAt l + al l) (L.isFirst (m :: ms) l)) x)
      (v + (ls.map (fun l => Real.exp (L.scoreAt l) * val l)).sum)
  | [], x, v, k, _, _, _, h => by simpa using h
  | l :: ls, x, v, k, h1, h2, h3, h => by
    have e1 : L.isFirst (m :: ms) l = false := h1 l (by simp)
    have := fold_close L (K := K) (al := al) (val := val) (m := m) (ms := ms) ls _ _ (k + 1)
      (fun l hl => h1 l (by simp [hl]))
      (fun l hl => h2 l (by simp [hl])) (by omega) (h.add (((h2 l (by simp)).shift (L.scoreAt l)).mono h3))
    simp only [List.foldl_cons, e1, List.map_cons, List.sum_cons, List.length_cons]
    rw [← add_assoc v, Nat.add_comm ls.length 1, ← Nat.add_assoc]
    exact this

/-- All assignments to one entry. -/
theorem sweepStep_fold (L : Lattice) (S : List Nat) {r : Nat} {al : Nat → ℝ} : ∀ (ls : List Nat) (al' : Nat → ℝ), r ∉ ls →
    (∀ n, n ≠ r → al' n = al n) →
    ls.foldl (L.sweepStep S r) al' = fun n => if n = r then
      ls.foldl (fun x l => logSumExp x (L.scoreAt l + al l) (L.isFirst S l)) (al' r) else al n
  | [], al', _, h => by
    funext n
    by_cases hn : n = r
    · simp [hn]
    · simp [hn, h n hn]
  | l :: ls, al', h1, h2 => by
    have hl : l ≠ r := by intro h; simp [h] at h1
    rw [List.foldl_cons, sweepStep_fold L S (r := r) (al := al) ls _ (fun h => h1 (by simp [h]))]
    · funext n
      by_cases hn : n = r
      · simp [hn, Lattice.sweepStep, h2 l hl]
      · simp [hn]
    · intro n hn
      simp [Lattice.sweepStep, hn, h2 n hn]

/-! ### A whole sweep -/

/-- What a sweep needs to know about one position: the sources are not empty, the first one has a vocabulary id of
its own among them, and `G` is the sum over them. -/
structure SweepAt (L : Lattice) (S : List Nat) (val : Nat → ℝ) (cv : Nat → Nat) (g : ℝ) (c : Nat) : Prop where
  ne : S ≠ []
  ids : ∀ m ms, S = m :: ms → ∀ l ∈ ms, L.sameId l m = false
  sum : g = (S.map (fun l => Real.exp (L.scoreAt l) * val l)).sum
  cost : ∀ l ∈ S, cv l + S.length ≤ c + 1

theorem sweepPos_close (L : Lattice) {T S : Nat → List Nat} {val : Nat → ℝ} {cv : Nat → Nat} {g : ℝ} {c p : Nat}
    {al : Nat → ℝ} (hTS : ∀ r ∈ T p, r ∉ S p) (h : T p ≠ [] → SweepAt L (S p) val cv g c)
    (hv : T p ≠ [] → ∀ l ∈ S p, Close (cv l) (al l) (val l)) :
    (∀ n, n ∉ T p → L.sweepPos T S al p n = al n) ∧
    ∀ r ∈ T p, Close c (L.sweepPos T S al p r) g := by
  have main : ∀ (rs : List Nat) (al' : Nat → ℝ), (∀ r ∈ rs, r ∈ T p) → (∀ l ∈ S p, al' l = al l) →
      (∀ n, n ∉ rs → rs.foldl (fun al r => (S p).foldl (L.sweepStep (S p) r) al) al' n = al' n) ∧
      ∀ r ∈ rs, Close c (rs.foldl (fun al r => (S p).foldl (L.sweepStep (S p) r) al) al' r) g := by
    intro rs
    induction rs with
    | nil => intro al' _ _; exact ⟨fun _ _ => rfl, by simp⟩
    | cons r rs ih =>
      intro al' hrs hal
      have hrT : r ∈ T p := hrs r (by simp)
      have hTne : T p ≠ [] := List.ne_nil_of_mem hrT
      have hr : r ∉ S p := hTS r hrT
      rw [List.foldl_cons]
      have hstep := sweepStep_fold L (S p) (r := r) (al := al') (S p) al' hr (fun _ _ => rfl)
      obtain ⟨i1, i2⟩ := ih ((S p).foldl (L.sweepStep (S p) r) al') (fun x hx => hrs x (by simp [hx])) (by
        intro l hl
        rw [hstep]
        have : l ≠ r := fun h => hr (h ▸ hl)
        simp [this, hal l hl])
      constructor
      · intro n hn
        rw [i1 n (fun h => hn (by simp [h])), hstep]
        have : n ≠ r := fun h => hn (by simp [h])
        simp [this]
      · intro r' hr'
        by_cases hmem : r' ∈ rs
        · exact i2 r' hmem
        · have hrr : r' = r := by
            rcases List.mem_cons.1 hr' with h | h
            · exact h
            · exact absurd h hmem
          subst hrr
          rw [i1 _ hmem, hstep]
          simp only [if_true]
          have hA := h hTne
          obtain ⟨m, ms, hS⟩ := List.exists_cons_of_ne_nil hA.ne
          rw [hA.sum, hS]
          have hcl : ∀ l ∈ S p, Close (c + 1 - (S p).length) (al' l) (val l) := by
            intro l hl
            rw [hal l hl]
            refine (hv hTne l hl).mono ?_
            have := hA.cost l hl
            omega
          have hlen : (S p).length ≤ c + 1 := by
            have := hA.cost m (by simp [hS]); omega
          rw [hS] at hcl hlen
          simp only [List.length_cons] at hcl hlen
          have hm : L.isFirst (m :: ms) m = true := by simp [Lattice.isFirst, Lattice.sameId]
          rw [List.foldl_cons, hm, logSumExp_init, List.map_cons, List.sum_cons]
          have := fold_close L (K := c + 1 - (ms.length + 1)) (al := al') (val := val) (m := m) (ms := ms) ms
            (L.scoreAt m + al' m) _ (c + 1 - (ms.length + 1)) (hA.ids m ms hS)
            (fun l hl => hcl l (by simp [hl])) (le_refl _) ((hcl m (by simp)).shift _)
          have e : c + 1 - (ms.length + 1) + ms.length = c := by omega
          rwa [e] at this
  exact main (T p) al (fun _ h => h) (fun _ _ => rfl)

theorem sweep_close (L : Lattice) {T S : Nat → List Nat} {G : Nat → ℝ} {c : Nat → Nat} {val : Nat → ℝ}
    {cv : Nat → Nat} {b : Nat} {order : List Nat}
    (hnd : order.Nodup)
    (hTT : ∀ p q r, r ∈ T p → r ∈ T q → p = q) (hTS : ∀ p, ∀ r ∈ T p, r ∉ S p)
    (hb : ∀ p, b ∉ T p) (hbv : val b = 1)
    (hA : ∀ p ∈ order, T p ≠ [] → SweepAt L (S p) val cv (G p) (c p))
    (hsrc : ∀ pre p post, order = pre ++ p :: post → ∀ l ∈ S p, l = b ∨ ∃ q ∈ pre, l ∈ T q)
    (hval : ∀ q, ∀ l ∈ T q, val l = G q ∧ cv l = c q) :
    ∀ p ∈ order, ∀ r ∈ T p, Close (c p) (L.sweep T S order r) (G p) := by
  have main : ∀ (post pre : List Nat) (al : Nat → ℝ), order = pre ++ post → al b = 0 →
      (∀ q ∈ pre, ∀ r ∈ T q, Close (c q) (al r) (G q)) →
      ∀ p ∈ order, ∀ r ∈ T p, Close (c p) (post.foldl (L.sweepPos T S) al r) (G p) := by
    intro post
    induction post with
    | nil =>
      intro pre al ho _ h p hp r hr
      rw [ho, List.append_nil] at hp
      exact h p hp r hr
    | cons p post ih =>
      intro pre al ho hb0 h
      rw [List.foldl_cons]
      have hp : p ∈ order := by rw [ho]; simp
      have hpre : p ∉ pre := by
        rw [ho] at hnd
        intro hm
        exact (List.nodup_append.1 hnd).2.2 p hm p (by simp) rfl
      obtain ⟨s1, s2⟩ := sweepPos_close L (al := al) (hTS p) (hA p hp) (by
        intro _ l hl
        rcases hsrc pre p post ho l hl with rfl | ⟨q, hq, hlq⟩
        · rw [hb0, hbv]
          refine ⟨one_pos, by simp, ?_⟩
          have := mul_nonneg (Nat.cast_nonneg (α := ℝ) (cv l)) (Real.exp_pos (-50)).le
          simpa using this
        · rw [(hval q l hlq).1, (hval q l hlq).2]
          exact h q hq l hlq)
      apply ih (pre ++ [p]) _ (by rw [ho]; simp)
      · rw [s1 b (hb p), hb0]
      · intro q hq r hr
        rcases List.mem_append.1 hq with hq | hq
        · rw [s1 r (fun hrp => hpre (hTT p q r hrp hr ▸ hq))]
          exact h q hq r hr
        · rw [List.mem_singleton] at hq
          subst hq
          exact s2 r hr
  exact main order [] _ (by simp) rfl (by simp)

end Tok.Unigram
