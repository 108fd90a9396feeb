import Verif.Train.BpeSpec

/-!
# The pair statistics and the queue
-/

namespace Tok.Train

/-! ## Sums -/

/-- `f 0 + ... + f (n-1)`. -/
def sumN (f : Nat → Int) : Nat → Int
  | 0 => 0
  | n + 1 => sumN f n + f n

theorem sumN_congr {f g : Nat → Int} : ∀ {n : Nat}, (∀ i, i < n → f i = g i) → sumN f n = sumN g n
  | 0, _ => rfl
  | n + 1, h => by rw [sumN, sumN, sumN_congr fun i hi => h i (by omega), h n (by omega)]

theorem sumN_add (f g : Nat → Int) : ∀ n : Nat, sumN (fun i => f i + g i) n = sumN f n + sumN g n
  | 0 => rfl
  | n + 1 => by rw [sumN, sumN, sumN, sumN_add f g n]; omega

theorem sumN_zero : ∀ n : Nat, sumN (fun _ => 0) n = 0
  | 0 => rfl
  | n + 1 => by rw [sumN, sumN_zero n]; rfl

theorem sumN_le {f g : Nat → Int} : ∀ {n : Nat}, (∀ i, i < n → f i ≤ g i) → sumN f n ≤ sumN g n
  | 0, _ => Int.le_refl _
  | n + 1, h => by
    rw [sumN, sumN]
    have := sumN_le (n := n) fun i hi => h i (by omega)
    have := h n (by omega)
    omega

theorem sumN_shift (f : Nat → Int) : ∀ n : Nat, sumN f (n + 1) = f 0 + sumN (fun i => f (i + 1)) n
  | 0 => by simp [sumN]
  | n + 1 => by rw [sumN, sumN_shift f n, sumN]; omega

theorem sumN_single (k : Nat) (c : Int) : ∀ n : Nat, sumN (fun i => if i = k then c else 0) n = if k < n then c else 0
  | 0 => rfl
  | n + 1 => by
    rw [sumN, sumN_single k c n]
    by_cases h : n = k
    · subst h; simp
    · rw [if_neg h]
      by_cases hk : k < n
      · rw [if_pos hk, if_pos (by omega)]; omega
      · rw [if_neg hk, if_neg (by omega)]; omega

/-- A sum over distinct indices that contain all non-zero terms is the sum over all indices. -/
theorem sum_over {f : Nat → Int} {n : Nat} : ∀ {pos : List Nat}, pos.Nodup → (∀ i ∈ pos, i < n) →
    (pos.map f).sum = sumN (fun i => if i ∈ pos then f i else 0) n
  | [], _, _ => by simp [sumN_zero]
  | k :: pos, hn, hl => by
    rw [List.nodup_cons] at hn
    rw [List.map_cons, List.sum_cons, sum_over hn.2 fun i hi => hl i (by simp [hi])]
    have h1 := sumN_single k (f k) n
    rw [if_pos (hl k (by simp))] at h1
    rw [← h1, ← sumN_add]
    refine sumN_congr fun i _ => ?_
    by_cases hi : i = k
    · subst hi; simp [hn.1]
    · simp [hi]

theorem total_eq (p : Pair) : ∀ (ws : List (List Sym)) (ns : List Nat),
    (total p ws ns : Int) = sumN (fun i => ns.getD i 0 * occ p (ws.getD i [])) ws.length
  | [], _ => by simp [total, sumN]
  | w :: ws, [] => by
    have : ∀ n : Nat, sumN (fun i => ((([] : List Nat).getD i 0 : Nat) : Int) * (occ p ((w :: ws).getD i []) : Nat)) n = 0 := by
      intro n
      rw [← sumN_zero n]
      refine sumN_congr fun i _ => ?_
      simp
    simp only [total]
    rw [this]; rfl
  | w :: ws, n :: ns => by
    rw [total, List.length_cons, sumN_shift]
    have := total_eq p ws ns
    push_cast
    rw [this]
    simp

theorem total_pos {p : Pair} : ∀ {ws : List (List Sym)} {ns : List Nat}, 0 < total p ws ns →
    ∃ i, i < ws.length ∧ 0 < occ p (ws.getD i [])
  | [], _, h => by simp [total] at h
  | w :: ws, [], h => by simp [total] at h
  | w :: ws, n :: ns, h => by
    rw [total] at h
    by_cases hw : 0 < occ p w
    · exact ⟨0, by simp, by simpa using hw⟩
    · have : occ p w = 0 := by omega
      rw [this] at h
      obtain ⟨i, h1, h2⟩ := total_pos (p := p) (ws := ws) (ns := ns) (by simpa using h)
      exact ⟨i + 1, by simp; omega, by simpa using h2⟩

theorem total_mono {p : Pair} {f : List Sym → List Sym} (hf : ∀ w, occ p (f w) ≤ occ p w) :
    ∀ (ws : List (List Sym)) (ns : List Nat), total p (ws.map f) ns ≤ total p ws ns
  | [], _ => by simp [total]
  | w :: ws, [] => by simp [total]
  | w :: ws, n :: ns => by
    rw [List.map_cons, total, total]
    have := total_mono hf ws ns
    have := Nat.mul_le_mul_left n (hf w)
    omega

theorem total_zero {p : Pair} : ∀ {ws : List (List Sym)} {ns : List Nat}, (∀ w ∈ ws, occ p w = 0) → total p ws ns = 0
  | [], _, _ => by simp [total]
  | w :: ws, [], _ => by simp [total]
  | w :: ws, n :: ns, h => by
    rw [total, h w (by simp), total_zero fun w hw => h w (by simp [hw])]
    rfl

/-! ## The statistics -/

/-- The count of a pair, zero if it has none. -/
def pcGet (m : AMap Pair Int) (p : Pair) : Int := (m.get p).getD 0

theorem pcGet_bump (m : AMap Pair Int) (p q : Pair) (n : Int) :
    pcGet (bumpPair m p n) q = pcGet m q + if p = q then n else 0 := by
  unfold pcGet bumpPair
  rw [AMap.get_insert]
  by_cases h : p = q
  · subst h; simp
  · simp [h]

theorem bump_isSome (m : AMap Pair Int) (p q : Pair) (n : Int) :
    ((bumpPair m p n).get q).isSome ↔ q = p ∨ (m.get q).isSome := by
  unfold bumpPair
  rw [AMap.get_insert]
  by_cases h : p = q
  · simp [h]
  · have : ¬ q = p := fun e => h e.symm
    simp [h, this]

theorem changes_pcGet (counts : List Nat) (q : Pair) : ∀ (chs : List ((Pair × Int) × Nat)) (st : Stats),
    pcGet (chs.foldl (applyChange counts) st).1 q =
      pcGet st.1 q + (chs.map fun c => (if c.1.1 = q then c.1.2 * (counts.getD c.2 0 : Nat) else 0 : Int)).sum
  | [], st => by simp
  | c :: chs, st => by
    rw [List.foldl_cons, changes_pcGet counts q chs, List.map_cons, List.sum_cons]
    simp only [applyChange, pcGet_bump]
    omega

theorem changes_isSome (counts : List Nat) (q : Pair) : ∀ (chs : List ((Pair × Int) × Nat)) (st : Stats),
    ((chs.foldl (applyChange counts) st).1.get q).isSome ↔ (∃ c ∈ chs, c.1.1 = q) ∨ (st.1.get q).isSome
  | [], st => by simp
  | c :: chs, st => by
    rw [List.foldl_cons, changes_isSome counts q chs]
    simp only [applyChange, bump_isSome, List.mem_cons, exists_eq_or_imp]
    constructor
    · rintro (h | h | h)
      · exact .inl (.inr h)
      · exact .inl (.inl h.symm)
      · exact .inr h
    · rintro ((h | h) | h)
      · exact .inr (.inl h.symm)
      · exact .inl h
      · exact .inr (.inr h)

/-- `i` is recorded for the pair. -/
def At (m : AMap Pair (List Nat)) (q : Pair) (i : Nat) : Prop := ∃ l, m.get q = some l ∧ i ∈ l

theorem addPos_at (m : AMap Pair (List Nat)) (p q : Pair) (i j : Nat) :
    At (addPos m p i) q j ↔ (q = p ∧ j = i) ∨ At m q j := by
  unfold At addPos
  simp only [AMap.get_insert]
  by_cases h : q = p
  · subst h
    simp only [if_true, Option.some.injEq, exists_eq_left', true_and]
    cases hm : m.get q with
    | none => simp
    | some l =>
      simp only [Option.getD_some]
      by_cases hi : i ∈ l
      · rw [if_pos hi]; simp; rintro rfl; exact hi
      · rw [if_neg hi]; simp
  · have : ¬ p = q := fun e => h e.symm
    simp [h, this]

/-- The recorded positions form a map whose values have no repetition. -/
def PosWF (m : AMap Pair (List Nat)) : Prop := m.WF ∧ ∀ q l, m.get q = some l → l.Nodup ∧ l ≠ []

theorem addPos_wf {m : AMap Pair (List Nat)} (h : PosWF m) (p : Pair) (i : Nat) : PosWF (addPos m p i) := by
  refine ⟨h.1.insert _ _, fun q l hl => ?_⟩
  unfold addPos at hl
  simp only [AMap.get_insert] at hl
  by_cases hq : q = p
  · subst hq
    rw [if_pos rfl] at hl
    cases hl
    cases hm : m.get q with
    | none => simp
    | some l =>
      obtain ⟨h1, h2⟩ := h.2 q l hm
      simp only [Option.getD_some]
      split
      · exact ⟨h1, h2⟩
      · rename_i hi
        exact ⟨List.nodup_cons.2 ⟨hi, h1⟩, by simp⟩
  · rw [if_neg fun e => hq e.symm] at hl
    exact h.2 q l hl

theorem changes_at (counts : List Nat) (q : Pair) (i : Nat) : ∀ (chs : List ((Pair × Int) × Nat)) (st : Stats),
    At (chs.foldl (applyChange counts) st).2 q i ↔ (∃ c ∈ chs, c.1.1 = q ∧ c.1.2 > 0 ∧ c.2 = i) ∨ At st.2 q i
  | [], st => by simp
  | c :: chs, st => by
    rw [List.foldl_cons, changes_at counts q i chs]
    simp only [applyChange, List.mem_cons, exists_eq_or_imp]
    by_cases hc : c.1.2 > 0
    · rw [if_pos hc, addPos_at]
      constructor
      · rintro (h | ⟨h, h'⟩ | h)
        · exact .inl (.inr h)
        · exact .inl (.inl ⟨h.symm, hc, h'.symm⟩)
        · exact .inr h
      · rintro ((⟨h, _, h'⟩ | h) | h)
        · exact .inr (.inl ⟨h.symm, h'.symm⟩)
        · exact .inl h
        · exact .inr (.inr h)
    · rw [if_neg hc]
      constructor
      · rintro (h | h)
        · exact .inl (.inr h)
        · exact .inr h
      · rintro ((⟨_, h, _⟩ | h) | h)
        · exact absurd h hc
        · exact .inl h
        · exact .inr h

theorem changes_posWF (counts : List Nat) : ∀ (chs : List ((Pair × Int) × Nat)) (st : Stats), PosWF st.2 →
    PosWF (chs.foldl (applyChange counts) st).2
  | [], _, h => h
  | c :: chs, st, h => by
    rw [List.foldl_cons]
    refine changes_posWF counts chs _ ?_
    simp only [applyChange]
    split
    · exact addPos_wf h _ _
    · exact h

/-! ## The queue -/

theorem above_iff (e f : Entry) : e.above f = true ↔ f.count < e.count ∨ (f.count = e.count ∧ PairLe e.pair f.pair) := by
  unfold Entry.above PairLe
  simp

theorem above_total (e f : Entry) (h : ¬ e.above f = true) : f.above e = true := by
  rw [above_iff] at *
  unfold PairLe at *
  omega

theorem above_trans {e f g : Entry} (h1 : e.above f = true) (h2 : f.above g = true) : e.above g = true := by
  rw [above_iff] at *
  unfold PairLe at *
  omega

theorem popMax_spec : ∀ (q : List Entry) {m : Entry} {q' : List Entry}, popMax q = some (m, q') →
    q.Perm (m :: q') ∧ ∀ e ∈ q', m.above e = true
  | [], _, _, h => by cases h
  | e :: q, m, q', h => by
    rw [popMax] at h
    cases hp : popMax q with
    | none =>
      rw [hp] at h
      cases h
      cases q with
      | nil => exact ⟨.refl _, by simp⟩
      | cons f q =>
        rw [popMax] at hp
        split at hp
        · cases hp
        · split at hp <;> cases hp
    | some r =>
      obtain ⟨k, t⟩ := r
      obtain ⟨h1, h2⟩ := popMax_spec q hp
      rw [hp] at h
      simp only at h
      split at h
      · rename_i ha
        cases h
        exact ⟨h1.cons _, fun f hf => by
          rcases List.mem_cons.1 hf with rfl | hf
          · exact ha
          · exact above_trans ha (h2 f hf)⟩
      · rename_i ha
        cases h
        exact ⟨(h1.cons _).trans (.swap _ _ _), fun f hf => by
          rcases List.mem_cons.1 hf with rfl | hf
          · exact above_total _ _ ha
          · exact h2 f hf⟩

theorem popMax_none {q : List Entry} (h : popMax q = none) : q = [] := by
  cases q with
  | nil => rfl
  | cons e q =>
    rw [popMax] at h
    split at h
    · cases h
    · split at h <;> cases h

theorem mem_pushAll {st : Stats} (hw : PosWF st.2) (queue : List Entry) (e : Entry) : e ∈ pushAll st queue ↔
    (st.2.get e.pair = some e.pos ∧ ∃ c, st.1.get e.pair = some c ∧ 0 < c ∧ e.count = c.toNat) ∨ e ∈ queue := by
  unfold pushAll
  rw [List.mem_append, List.mem_filterMap]
  refine or_congr_left ?_
  constructor
  · rintro ⟨⟨p, l⟩, h1, h2⟩
    simp only at h2
    split at h2
    · rename_i c hc
      split at h2
      · rename_i h0
        cases h2
        exact ⟨AMap.get_eq_some_of_mem hw.1 h1, c, hc, h0, rfl⟩
      · cases h2
    · cases h2
  · rintro ⟨h1, c, h2, h3, h4⟩
    refine ⟨(e.pair, e.pos), AMap.mem_of_get_eq_some h1, ?_⟩
    simp only [h2]
    rw [if_pos h3, ← h4]

theorem pushAll_nodup {st : Stats} (hw : PosWF st.2) {queue : List Entry} (hq : (queue.map (·.pair)).Nodup)
    (hd : ∀ e ∈ queue, st.2.get e.pair = none) : ((pushAll st queue).map (·.pair)).Nodup := by
  unfold pushAll
  rw [List.map_append, List.nodup_append]
  have hsub : ∀ l : AMap Pair (List Nat), List.Sublist ((l.filterMap fun p =>
      match st.1.get p.1 with
      | some c => if c > 0 then some (⟨p.1, c.toNat, p.2⟩ : Entry) else none
      | none => none).map (·.pair)) (l.map (·.1)) := by
    intro l
    induction l with
    | nil => exact .slnil
    | cons a l ih =>
      rw [List.filterMap_cons]
      split
      · exact ih.cons _
      · rename_i b hb
        rw [List.map_cons, List.map_cons]
        have : b.pair = a.1 := by
          split at hb
          · split at hb
            · cases hb; rfl
            · cases hb
          · cases hb
        rw [this]
        exact ih.cons_cons _
  refine ⟨hw.1.sublist (hsub _), hq, ?_⟩
  rintro p hp p' hp' rfl
  obtain ⟨e, he, rfl⟩ := List.mem_map.1 hp'
  have := hd e he
  rw [AMap.get_none_iff] at this
  exact this ((hsub _).subset hp)

end Tok.Train
