import Verif.Train.BpeSpec

/-!
# Words as segmentations of their initial symbols

A region between two boundaries that are still there was segmented as if it were a word of its own. So the same initial
symbols can never be segmented in two ways at the same time, which is why a merge always gives a new symbol.
-/

namespace Tok.Train

/-- A token as the list of the initial ids it is made of. -/
abbrev Seg := List Nat

/-- Merge two tokens, from left to right. -/
def mgS (x y : Seg) : List Seg → List Seg
  | a :: b :: rest => if a = x ∧ b = y then (x ++ y) :: mgS x y rest else a :: mgS x y (b :: rest)
  | l => l

/-- A list of merges in order. -/
def run (hist : List (Seg × Seg)) (l : List Seg) : List Seg := hist.foldl (fun l h => mgS h.1 h.2 l) l

/-- The initial segmentation. -/
def singles (w : List Nat) : List Seg := w.map fun a => [a]

theorem run_nil (l : List Seg) : run [] l = l := rfl

theorem run_cons (h : Seg × Seg) (hs : List (Seg × Seg)) (l : List Seg) : run (h :: hs) l = run hs (mgS h.1 h.2 l) := rfl

theorem run_snoc (hs : List (Seg × Seg)) (h : Seg × Seg) (l : List Seg) : run (hs ++ [h]) l = mgS h.1 h.2 (run hs l) := by
  simp [run]

theorem mgS_flatten (x y : Seg) : ∀ l, (mgS x y l).flatten = l.flatten
  | [] => rfl
  | [a] => rfl
  | a :: b :: rest => by
    rw [mgS]
    split
    · rename_i h
      obtain ⟨rfl, rfl⟩ := h
      simp [mgS_flatten a b rest]
    · simp only [List.flatten_cons, mgS_flatten x y (b :: rest)]

theorem run_flatten : ∀ (hist : List (Seg × Seg)) (l : List Seg), (run hist l).flatten = l.flatten
  | [], _ => rfl
  | h :: hs, l => by rw [run_cons, run_flatten hs, mgS_flatten]

theorem singles_flatten (w : List Nat) : (singles w).flatten = w := by
  induction w with
  | nil => rfl
  | cons a w ih => simp [singles] at ih ⊢; exact ih

theorem mgS_split (x y : Seg) : ∀ (l A B : List Seg), mgS x y l = A ++ B →
    ∃ u v, l = u ++ v ∧ A = mgS x y u ∧ B = mgS x y v
  | l, [], B, h => ⟨[], l, rfl, rfl, by simpa using h.symm⟩
  | [], c :: A, B, h => by cases h
  | [a], c :: A, B, h => by
    simp only [mgS, List.cons_append, List.cons.injEq] at h
    obtain ⟨rfl, h⟩ := h
    obtain ⟨rfl, rfl⟩ := List.append_eq_nil_iff.1 h.symm
    exact ⟨[a], [], rfl, rfl, rfl⟩
  | a :: b :: rest, c :: A, B, h => by
    rw [mgS] at h
    split at h
    · rename_i hab
      simp only [List.cons_append, List.cons.injEq] at h
      obtain ⟨rfl, h⟩ := h
      obtain ⟨u, v, rfl, rfl, rfl⟩ := mgS_split x y rest A B h
      exact ⟨a :: b :: u, v, rfl, by rw [mgS, if_pos hab], rfl⟩
    · rename_i hab
      simp only [List.cons_append, List.cons.injEq] at h
      obtain ⟨rfl, h⟩ := h
      obtain ⟨u, v, hu, rfl, rfl⟩ := mgS_split x y (b :: rest) A B h
      refine ⟨a :: u, v, by rw [hu]; rfl, ?_, rfl⟩
      cases u with
      | nil => rfl
      | cons d u =>
        simp only [List.cons_append, List.cons.injEq] at hu
        rw [mgS, if_neg]
        rw [← hu.1]; exact hab

theorem run_split : ∀ (hist : List (Seg × Seg)) (l A B : List Seg), run hist l = A ++ B →
    ∃ u v, l = u ++ v ∧ A = run hist u ∧ B = run hist v
  | [], l, A, B, h => ⟨A, B, h, rfl, rfl⟩
  | h :: hs, l, A, B, e => by
    rw [run_cons] at e
    obtain ⟨u', v', h1, rfl, rfl⟩ := run_split hs _ A B e
    obtain ⟨u, v, rfl, rfl, rfl⟩ := mgS_split _ _ _ _ _ h1
    exact ⟨u, v, rfl, rfl, rfl⟩

/-- A region between two boundaries was segmented on its own. -/
theorem region (hist : List (Seg × Seg)) (w : List Nat) {A B C : List Seg} (h : run hist (singles w) = A ++ B ++ C) :
    B = run hist (singles B.flatten) ∧ B.flatten <:+: w := by
  obtain ⟨uv, z, h1, h2, _⟩ := run_split hist _ _ _ h
  obtain ⟨u, v, h3, _, h5⟩ := run_split hist _ _ _ h2.symm
  subst h3
  unfold singles at h1
  obtain ⟨wuv, wz, rfl, h6, _⟩ := List.map_eq_append_iff.1 h1
  obtain ⟨wu, wv, rfl, _, h7⟩ := List.map_eq_append_iff.1 h6
  have hb : B.flatten = wv := by rw [h5, run_flatten, ← h7]; exact singles_flatten wv
  refine ⟨?_, by rw [hb]; exact ⟨wu, wz, rfl⟩⟩
  rw [hb, h5, ← h7]
  rfl

theorem mgS_two (x y : Seg) : mgS x y [x, y] = [x ++ y] := by
  rw [mgS, if_pos ⟨rfl, rfl⟩, mgS]
  intro a b rest h; cases h

theorem mgS_one (x y z : Seg) : mgS x y [z] = [z] := by
  rw [mgS]
  intro a b rest h; cases h

theorem mem_mgS (x y : Seg) : ∀ (l : List Seg) (z : Seg), z ∈ mgS x y l → z ∈ l ∨ z = x ++ y
  | [], z, h => .inl h
  | [a], z, h => .inl h
  | a :: b :: rest, z, h => by
    rw [mgS] at h
    split at h
    · rcases List.mem_cons.1 h with rfl | h
      · exact .inr rfl
      · rcases mem_mgS x y rest z h with h | h
        · exact .inl (by simp [h])
        · exact .inr h
    · rcases List.mem_cons.1 h with rfl | h
      · exact .inl (by simp)
      · rcases mem_mgS x y (b :: rest) z h with h | h
        · exact .inl (List.mem_cons_of_mem _ h)
        · exact .inr h

/-! ## Segmentations and symbols -/

/-- The symbols of a word stand for the tokens of a segmentation; `str` gives the string of a token. -/
inductive Rep (str : Seg → Str) (id2w : List Str) : List Seg → List Sym → Prop
  | nil : Rep str id2w [] []
  | cons {z : Seg} {a : Sym} {zs as} (h1 : id2w[a.1]? = some (str z)) (h2 : a.2 = z.length) (h : Rep str id2w zs as) :
      Rep str id2w (z :: zs) (a :: as)

theorem Rep.mono {str : Seg → Str} {v v' : List Str} (hv : ∀ (i : Nat) t, v[i]? = some t → v'[i]? = some t) {zs : List Seg}
    {as : List Sym} (h : Rep str v zs as) : Rep str v' zs as := by
  induction h with
  | nil => exact .nil
  | cons h1 h2 _ ih => exact .cons (hv _ _ h1) h2 ih

theorem Rep.split {str : Seg → Str} {v : List Str} : ∀ {zs : List Seg} {u w : List Sym}, Rep str v zs (u ++ w) →
    ∃ zu zw, zs = zu ++ zw ∧ Rep str v zu u ∧ Rep str v zw w
  | zs, [], w, h => ⟨[], zs, rfl, .nil, h⟩
  | _, a :: u, w, .cons h1 h2 h => by
    obtain ⟨zu, zw, rfl, h3, h4⟩ := h.split
    exact ⟨_ :: zu, zw, rfl, .cons h1 h2 h3, h4⟩

theorem Rep.mem {str : Seg → Str} {v : List Str} {zs : List Seg} {as : List Sym} (h : Rep str v zs as) {a : Sym}
    (ha : a ∈ as) : ∃ z ∈ zs, v[a.1]? = some (str z) ∧ a.2 = z.length := by
  induction h with
  | nil => simp at ha
  | cons h1 h2 _ ih =>
    rcases List.mem_cons.1 ha with rfl | ha
    · exact ⟨_, by simp, h1, h2⟩
    · obtain ⟨z, hz, h⟩ := ih ha
      exact ⟨z, by simp [hz], h⟩

/-- Merging tokens and merging symbols is the same, as long as ids and tokens correspond. -/
theorem Rep.merge {str : Seg → Str} {v v' : List Str} {x y : Seg} {p : Pair} {r : Nat}
    (hv : ∀ (i : Nat) t, v[i]? = some t → v'[i]? = some t) (hr : v'[r]? = some (str (x ++ y))) : ∀ {zs : List Seg} {as : List Sym},
    Rep str v zs as → (∀ z ∈ zs, ∀ i : Nat, v[i]? = some (str z) → (i = p.1 ↔ z = x) ∧ (i = p.2 ↔ z = y)) →
    Rep str v' (mgS x y zs) (mergeSyms p r as)
  | _, _, .nil, _ => .nil
  | _, _, .cons h1 h2 .nil, _ => .cons (hv _ _ h1) h2 .nil
  | z :: z' :: zs, a :: b :: as, .cons h1 h2 (.cons h3 h4 h), hid => by
    have e1 := (hid z (by simp) a.1 h1).1
    have e2 := (hid z' (by simp) b.1 h3).2
    rw [mgS, mergeSyms]
    by_cases hm : z = x ∧ z' = y
    · rw [if_pos hm, if_pos (show (a.1, b.1) = p from Prod.ext (e1.2 hm.1) (e2.2 hm.2))]
      refine .cons hr ?_ (Rep.merge hv hr h fun z hz => hid z (by simp [hz]))
      simp only [List.length_append, h2, h4, hm.1, hm.2]
    · rw [if_neg hm, if_neg (fun he => hm ⟨e1.1 (by rw [← he]), e2.1 (by rw [← he])⟩)]
      exact .cons (hv _ _ h1) h2 (Rep.merge hv hr (.cons h3 h4 h) fun z hz => hid z (List.mem_cons_of_mem _ hz))

end Tok.Train
