import Verif.Train.UnigramFinal

/-!
# C61: a trained Unigram model knows all of its corpus
-/

namespace Tok.Unigram

variable {vocab : List (Str × Rat)} {unk : Option Nat} {u : Unigram} {bf : Bool}

theorem relaxAll_err_edge (base : Rat) : ∀ (es : List Edge) (T : Nat → Cell) {x : UniErr},
    relaxAll base es T = .error x → ∃ e ∈ es, e.id = none
  | [], T, x, h => by cases h
  | e :: es, T, x, h => by
    simp only [relaxAll] at h
    split at h
    · rename_i y h1
      unfold relax at h1
      split at h1
      · split at h1
        · rename_i hid
          exact ⟨e, by simp, hid⟩
        · cases h1
      · cases h1
    · obtain ⟨e', he', h'⟩ := relaxAll_err_edge base es _ h
      exact ⟨e', by simp [he'], h'⟩

theorem optLoop_err_edge : ∀ (s : Str) (pos : Nat) (T : Nat → Cell) {x : UniErr},
    optLoop u pos s T = .err x → ∃ e ∈ u.edgesFrom pos s, e.id = none
  | [], _, _, _, h => by cases h
  | c :: cs, pos, T, x, h => by
    simp only [optLoop] at h
    split at h
    · cases h
    · rename_i ms h0
      simp only [edgesFrom, h0, Option.getD_some, List.mem_append]
      split at h
      · rename_i y h1
        obtain ⟨e, he, h'⟩ := relaxAll_err_edge _ _ _ h1
        exact ⟨e, .inl he, h'⟩
      · obtain ⟨e, he, h'⟩ := optLoop_err_edge cs _ _ h
        exact ⟨e, .inr he, h'⟩

theorem fuse_none : ∀ (l : List (Str × Bool)), (∀ p ∈ l, p.2 = false) → fuse l = l.map (·.1)
  | [], _ => rfl
  | (p, b) :: l, h => by
    have hb : b = false := h (p, b) (by simp)
    subst hb
    rw [fuse_append_false, fuse_none l (fun q hq => h q (by simp [hq]))]
    rfl

theorem tokens_known : ∀ (ps : List Str) (pos : Nat) (ts : List Token), TokensSpec vocab unk bf pos ps ts →
    (∀ p ∈ ps, ∃ sc, (p, sc) ∈ vocab) → ts.map (·.value) = ps ∧ ∀ t ∈ ts, vocab[t.id]?.map (·.1) = some t.value
  | [], pos, ts, h, _ => by cases h; simp
  | p :: ps, pos, ts, ⟨g, r, hts, hg, hr⟩, hp => by
    obtain ⟨h1, h2⟩ := tokens_known ps _ r hr (fun q hq => hp q (by simp [hq]))
    obtain ⟨sc, hsc⟩ := hp p (by simp)
    rcases hg with ⟨i, sc', hl, rfl⟩ | ⟨hn, -⟩ | ⟨hn, -⟩
    · subst hts
      refine ⟨by simp [h1], ?_⟩
      intro t ht
      rcases List.mem_append.1 ht with ht | ht
      · simp at ht
        subst ht
        simp [hl.1]
      · exact h2 t ht
    · exact absurd hsc (hn sc)
    · exact absurd hsc (hn sc)

/-- A model that has every character of a text as a piece of its own segments the text into entries of the vocabulary,
with or without an unknown token, provided the text of the unknown token does not occur. -/
theorem tokenize_known (hu : Unigram.from vocab unk bf = .ok u) {s : Str} (hch : ∀ ch ∈ s, ∃ sc, ([ch], sc) ∈ vocab)
    (hunk : ∀ k t sc, unk = some k → vocab[k]? = some (t, sc) → ¬ t <:+: s) :
    ∃ ts, u.tokenize s = .ok ts ∧ (ts.map (·.value)).flatten = s ∧
      ∀ t ∈ ts, vocab[t.id]?.map (·.1) = some t.value := by
  by_cases hs : s = []
  · subst hs
    exact ⟨[], by simp [tokenize, encode, tokenizePieces], by simp, by simp⟩
  obtain ⟨c0, hc0⟩ : ∃ c0, c0 ∈ s := by
    cases s with
    | nil => exact absurd rfl hs
    | cons a s => exact ⟨a, by simp⟩
  have hv : vocab ≠ [] := by
    rintro rfl
    obtain ⟨sc, h⟩ := hch c0 hc0
    cases h
  have hm := minOf_isMin hv
  have hM := made_of_from hu
  have hpiece : ∀ x, IsPiece vocab unk ((minOf none vocab).getD 0) x → x.text <:+: s →
      x.text ≠ [] ∧ ∃ i, x.id = some i ∧ LastIn vocab x.text i x.score := by
    intro x hx hin
    rcases hx with h | ⟨c, h1, h2, -⟩
    · exact h
    · exfalso
      have : c ∈ s := hin.subset (by simp [h1])
      obtain ⟨sc, h⟩ := hch c this
      exact h2 sc h
  have hedge : ∀ e ∈ u.edgesFrom 0 s, e.id ≠ none := by
    intro e he
    obtain ⟨a, b, x, h1, hx, rfl⟩ := (hM.mem_edgesFrom hm s 0 e).1 he
    obtain ⟨-, i, hi, -⟩ := hpiece x hx ⟨a, b, h1.symm⟩
    simp [hi]
  have henc : ∃ out, u.encodeOptimized s = .ok out := by
    rcases C23_never_panics hu hv s with h | ⟨h, -⟩
    · exact h
    · exfalso
      unfold encodeOptimized at h
      rcases optLoop_inv hM hm s 0 [] _ _ tableBest_start (by simp) with ⟨x, h1, -⟩ | ⟨T, h1, A, hA⟩
      · obtain ⟨e, he, hn⟩ := optLoop_err_edge _ _ _ h1
        exact hedge e he hn
      · rw [h1] at h
        dsimp only at h
        rw [List.nil_append] at hA
        have hE : ∀ e ∈ u.edgesFrom 0 s, e.start < e.stop := fun e he => (hM.edge_lt hm he).2.1
        rw [backtrack_spec hM (fun e he => ⟨hE e he, hM.edge_text hm he⟩) hA (hM.connected hm s)
          (blen s) (blen s) [] [] [] (Nat.le_refl _) (hM.reached hm (s := s) (a := s) (b := []) (by simp))
          (.inl ⟨rfl, rfl, by simp⟩)] at h
        cases h
  obtain ⟨out, hout⟩ := henc
  obtain ⟨xs, hseg, -, hfuse⟩ := C23_optimal hu hm hout
  have hin : ∀ x ∈ xs, x.text <:+: s := by
    intro x hx
    rw [← hseg.1]
    obtain ⟨l, r, rfl⟩ := List.append_of_mem hx
    exact ⟨(l.map (·.text)).flatten, (r.map (·.text)).flatten, by simp⟩
  have hx : ∀ x ∈ xs, x.id ≠ unk := by
    intro x hx e
    obtain ⟨-, i, hi, hl⟩ := hpiece x (hseg.2 x hx) (hin x hx)
    rw [hi] at e
    exact hunk i _ _ e.symm hl.1 (hin x hx)
  have hout' : out = xs.map (·.text) := by
    rw [hfuse, fuse_none]
    · simp [List.map_map, Function.comp_def]
    · intro p hp
      obtain ⟨x, hxm, rfl⟩ := List.mem_map.1 hp
      simpa using hx x hxm
  obtain ⟨ho, hb⟩ := from_flags hu
  have hencode : u.encode s = .ok out := by
    rw [encode, if_neg hs, ho]
    exact hout
  have hknown : ∀ p ∈ out, ∃ sc, (p, sc) ∈ vocab := by
    intro p hp
    rw [hout'] at hp
    obtain ⟨x, hxm, rfl⟩ := List.mem_map.1 hp
    obtain ⟨-, i, -, hl⟩ := hpiece x (hseg.2 x hxm) (hin x hxm)
    exact ⟨_, List.mem_of_getElem? hl.1⟩
  have htp := tokenizePieces_spec hM hb out 0
  cases ht : u.tokenizePieces 0 out with
  | none =>
    rw [ht] at htp
    obtain ⟨-, p, hp, hno⟩ := htp
    obtain ⟨sc, h⟩ := hknown p hp
    exact absurd h (hno sc)
  | some ts =>
    rw [ht] at htp
    obtain ⟨h1, h2⟩ := tokens_known out 0 ts htp hknown
    refine ⟨ts, by simp [tokenize, hencode, ht], ?_, h2⟩
    rw [h1]
    exact C23_concat hu hout

end Tok.Unigram

namespace Tok.Train

open Tok.Unigram

/-- **C61.** A trained model segments every text made of characters of its corpus into entries of its vocabulary; no token
stands for unknown text, and tokenization does not fail even without an unknown token. (The text of the unknown token
itself is excluded.) -/
theorem C61_covers {c : UniCfg} {ar : Arith} {order : List Char → List Char} (ho : SetOrder order)
    {suffix sentences : List (Str × Nat)} {fuel : Nat} {u : Unigram}
    (h : c.doTrain ar order suffix sentences fuel = some (.ok u)) {s : Str}
    (hs : ∀ ch ∈ s, Needed c sentences ch) (hunk : ∀ t, c.unk = some t → ¬ t <:+: s) :
    ∃ ts, u.tokenize s = .ok ts ∧ (ts.map (·.value)).flatten = s ∧
      ∀ t ∈ ts, u.vocab[t.id]?.map (·.1) = some t.value := by
  obtain ⟨heads, pieces, T⟩ := C61_model ho h
  refine tokenize_known T.made ?_ ?_
  · intro ch hch
    obtain ⟨p, hp, e⟩ := List.mem_map.1 (T.chars ch (hs ch hch))
    exact ⟨p.2, by rw [T.vocab, ← e]; simp [hp]⟩
  · intro k t sc hk hv
    have hu := T.unk
    cases hc : c.unk with
    | none => rw [hc] at hu; rw [hu] at hk; cases hk
    | some t' =>
      rw [hc] at hu
      obtain ⟨i, h1, h2⟩ := hu
      rw [h1] at hk
      cases hk
      have hi : k < heads.length := by
        rcases Nat.lt_or_ge k heads.length with h | h
        · exact h
        · simp [List.getElem?_eq_none h] at h2
      rw [T.vocab, List.getElem?_append_left hi] at hv
      rw [hv] at h2
      simp at h2
      subst h2
      exact hunk t hc

/-- In particular every sentence it was trained on. -/
theorem C61_corpus {c : UniCfg} {ar : Arith} {order : List Char → List Char} (ho : SetOrder order)
    {suffix sentences : List (Str × Nat)} {fuel : Nat} {u : Unigram}
    (h : c.doTrain ar order suffix sentences fuel = some (.ok u)) {st : Str × Nat} (hs : st ∈ sentences)
    (hunk : ∀ t, c.unk = some t → ¬ t <:+: st.1) :
    ∃ ts, u.tokenize st.1 = .ok ts ∧ (ts.map (·.value)).flatten = st.1 ∧
      ∀ t ∈ ts, u.vocab[t.id]?.map (·.1) = some t.value :=
  C61_covers ho h (fun _ hch => .inr ⟨st, hs, hch⟩) hunk

/-- An order of a hash set. -/
def dedupOrder : List Char → List Char
  | [] => []
  | c :: l => if c ∈ dedupOrder l then dedupOrder l else c :: dedupOrder l

theorem setOrder_dedup : SetOrder dedupOrder := by
  intro l
  induction l with
  | nil => simp [dedupOrder]
  | cons c l ih =>
    unfold dedupOrder
    split
    · rename_i h
      exact ⟨ih.1, fun ch => by rw [ih.2, List.mem_cons]; exact ⟨.inr, fun h' => h'.elim (fun e => by rw [e]; exact (ih.2 c).1 h) id⟩⟩
    · rename_i h
      exact ⟨List.nodup_cons.2 ⟨h, ih.1⟩, fun ch => by rw [List.mem_cons, List.mem_cons, ih.2]⟩

end Tok.Train
