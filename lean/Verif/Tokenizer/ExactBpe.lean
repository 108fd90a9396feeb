import Verif.Tokenizer.Exact
import Verif.Tokenizer.Lossless

/-!
# The text of a BPE token (C16, C59)

Without prefix, suffix and byte fallback the value of every token is the text at its offsets, in which the characters
that are no tokens are replaced by the unknown token.
-/

namespace Tok.Bpe

/-- `v` is the text `x` with the characters that are not known replaced by `unk`: one by one, or whole runs of them by
one `unk` if they are fused. -/
inductive Stands (known : Char → Prop) (unk : Str) (fuse : Bool) : Str → Str → Prop
  | nil : Stands known unk fuse [] []
  | known {c v x} : known c → Stands known unk fuse v x → Stands known unk fuse (c :: v) (c :: x)
  | unknown {run v x} : run ≠ [] → (∀ c ∈ run, ¬ known c) → (fuse = false → run.length = 1) →
      Stands known unk fuse v x → Stands known unk fuse (unk ++ v) (run ++ x)

theorem Stands.append {known : Char → Prop} {unk : Str} {fuse : Bool} {v x v' x' : Str}
    (h : Stands known unk fuse v x) (h' : Stands known unk fuse v' x') : Stands known unk fuse (v ++ v') (x ++ x') := by
  induction h with
  | nil => exact h'
  | known hk _ ih => exact .known hk ih
  | unknown h1 h2 h3 _ ih => rw [List.append_assoc, List.append_assoc]; exact .unknown h1 h2 h3 ih

/-- Where every character is known the value is the text. -/
theorem Stands.eq {known : Char → Prop} {unk : Str} {fuse : Bool} {v x : Str} (h : Stands known unk fuse v x)
    (hk : ∀ c ∈ x, known c) : v = x := by
  induction h with
  | nil => rfl
  | known _ _ ih => rw [ih fun c hc => hk c (List.mem_cons_of_mem _ hc)]
  | @unknown run v x h1 h2 _ _ ih =>
    cases run with
    | nil => exact absurd rfl h1
    | cons c run => exact absurd (hk c (by simp)) (h2 c (by simp))

theorem Stands.all {known : Char → Prop} {unk : Str} {fuse : Bool} : ∀ {x : Str}, (∀ c ∈ x, known c) → Stands known unk fuse x x
  | [], _ => .nil
  | c :: _, h => .known (h c (by simp)) (Stands.all fun d hd => h d (List.mem_cons_of_mem _ hd))

/-- Symbols that make up a text, each for a part of it. -/
def Spelled (R : Nat → Str → Prop) : List (Nat × Nat) → Str → Prop
  | [], w => w = []
  | a :: l, w => ∃ g w', w = g ++ w' ∧ g ≠ [] ∧ a.2 = blen g ∧ R a.1 g ∧ Spelled R l w'

theorem Spelled.append {R : Nat → Str → Prop} : ∀ {l l' : List (Nat × Nat)} {w w' : Str}, Spelled R l w → Spelled R l' w' →
    Spelled R (l ++ l') (w ++ w')
  | [], l', w, w', h, h' => by cases (h : w = []); exact h'
  | a :: l, l', w, w', ⟨g, v, e, h1, h2, h3, h4⟩, h' =>
    ⟨g, v ++ w', by rw [e, List.append_assoc], h1, h2, h3, h4.append h'⟩

theorem Spelled.merge {R : Nat → Str → Prop} {a d : Nat × Nat} {x : Nat} {post : List (Nat × Nat)}
    (hR : ∀ g h, R a.1 g → R d.1 h → R x (g ++ h)) : ∀ {pre : List (Nat × Nat)} {w : Str},
    Spelled R (pre ++ a :: d :: post) w → Spelled R (pre ++ (x, a.2 + d.2) :: post) w
  | [], w, ⟨g, v, e, h1, h2, h3, g', v', e', h1', h2', h3', h4⟩ =>
    ⟨g ++ g', v', by rw [e, e', List.append_assoc], by simp [h1], by rw [blen_append, h2, h2'], hR _ _ h3 h3', h4⟩
  | p :: pre, w, ⟨g, v, e, h1, h2, h3, h4⟩ => ⟨g, v, e, h1, h2, h3, Spelled.merge hR h4⟩

/-- The characters that are tokens. -/
def Knows (b : Bpe) (c : Char) : Prop := ∃ i, b.vocab.get [c] = some i

/-- What a symbol stands for. -/
def Means (b : Bpe) (i : Nat) (g : Str) : Prop := Stands (Knows b) (b.unk.getD []) b.fuseUnk (tokOf b.vocab i) g

/-- The state of the loop over the characters after `w`. -/
def Seen (b : Bpe) (st : InitSt) (w : Str) : Prop :=
  ∃ w1 run, w = w1 ++ run ∧ Spelled (Means b) st.1 w1 ∧
    (st.2 = none ∧ run = [] ∨ ∃ k u, b.unk = some k ∧ b.vocab.get k = some u ∧ st.2 = some (u, blen run) ∧ run ≠ [] ∧
      (∀ c ∈ run, ¬ Knows b c) ∧ (b.fuseUnk = false → run.length = 1))

theorem means_unk {b : Bpe} (h : Built b) {k : Str} {u : Nat} (hk : b.unk = some k) (hu : b.vocab.get k = some u) {run : Str}
    (h1 : run ≠ []) (h2 : ∀ c ∈ run, ¬ Knows b c) (h3 : b.fuseUnk = false → run.length = 1) : Means b u run := by
  unfold Means
  rw [tokOf_get h.wf h.distinct hu, hk]
  have := Stands.unknown h1 h2 h3 (unk := k) .nil
  simpa using this

theorem Seen.flush {b : Bpe} (h : Built b) {st : InitSt} {w : Str} (hs : Seen b st w) : Spelled (Means b) (flushUnk st) w := by
  obtain ⟨w1, run, e, h1, ⟨h2, h3⟩ | ⟨k, u, h2, h3, h4, h5, h6, h7⟩⟩ := hs
  · unfold flushUnk; rw [h2, e, h3, List.append_nil]; exact h1
  · unfold flushUnk
    rw [h4, e]
    exact h1.append ⟨run, [], by simp, h5, rfl, means_unk h h2 h3 h5 h6 h7, rfl⟩

theorem Seen.step {b : Bpe} (h : Built b) (hpre : b.pre = none) (hsuf : b.suf = none) (hf : b.byteFallback = false)
    {st st' : InitSt} {w : Str} (hs : Seen b st w) {first last : Bool} {c : Char} (hu : b.unk = none → Knows b c)
    (hst : stepChar b st first last c = some st') : Seen b st' (w ++ [c]) := by
  have hcs : charSym b first last c = [c] := by
    rw [charSym_eq, hpre, hsuf]; cases first <;> cases last <;> simp
  unfold stepChar at hst
  rw [hcs] at hst
  dsimp only at hst
  have hb1 : blen [c] = c.utf8Size := by simp
  cases hg : b.vocab.get [c] with
  | some id =>
    rw [hg] at hst
    cases hst
    refine ⟨w ++ [c], [], by simp, (hs.flush h).append ⟨[c], [], by simp, by simp, hb1.symm, ?_, rfl⟩, .inl ⟨rfl, rfl⟩⟩
    unfold Means
    rw [tokOf_get h.wf h.distinct hg]
    exact .known ⟨id, hg⟩ .nil
  | none =>
    rw [hg, hf] at hst
    simp only [Bool.false_eq_true, if_false] at hst
    have hunk : ¬ Knows b c := by rintro ⟨i, hi⟩; rw [hg] at hi; cases hi
    unfold stepUnk at hst
    cases hk : b.unk with
    | none => exact absurd (hu hk) hunk
    | some k =>
      rw [hk] at hst
      dsimp only at hst
      obtain ⟨w1, run, e, h1, ⟨h2, h3⟩ | ⟨k', u, h2, h3, h4, h5, h6, h7⟩⟩ := hs
      · rw [h2] at hst
        dsimp only at hst
        cases hv : b.vocab.get k with
        | none => rw [hv] at hst; cases hst
        | some u =>
          rw [hv] at hst
          cases hst
          exact ⟨w1, [c], by rw [e, h3, List.append_nil], h1, .inr ⟨k, u, hk, hv, by rw [hb1], by simp, by simpa using hunk, by simp⟩⟩
      · rw [hk] at h2
        cases h2
        rw [h4] at hst
        cases hfu : b.fuseUnk with
        | true =>
          rw [hfu] at hst
          cases hst
          refine ⟨w1, run ++ [c], by rw [e, List.append_assoc], h1, .inr ⟨k, u, hk, h3, by rw [blen_append, hb1], by simp, ?_, ?_⟩⟩
          · intro d hd
            rcases List.mem_append.1 hd with hd | hd
            · exact h6 d hd
            · rw [List.mem_singleton.1 hd]; exact hunk
          · intro hx; rw [hfu] at hx; cases hx
        | false =>
          rw [hfu, h3] at hst
          cases hst
          exact ⟨w1 ++ run, [c], by rw [e], h1.append ⟨run, [], by simp, h5, rfl, means_unk h hk h3 h5 h6 h7, rfl⟩,
            .inr ⟨k, u, hk, h3, by rw [hb1], by simp, by simpa using hunk, by simp⟩⟩

theorem Seen.loop {b : Bpe} (h : Built b) (hpre : b.pre = none) (hsuf : b.suf = none) (hf : b.byteFallback = false) :
    ∀ (cs : Str) {st st' : InitSt} {w : Str} {first : Bool}, Seen b st w → (b.unk = none → ∀ c ∈ cs, Knows b c) →
    initLoop b first cs st = some st' → Seen b st' (w ++ cs)
  | [], st, st', w, first, hs, _, hl => by cases hl; simpa using hs
  | c :: cs, st, st', w, first, hs, hu, hl => by
    rw [initLoop] at hl
    cases hc : stepChar b st first cs.isEmpty c with
    | none => rw [hc] at hl; cases hl
    | some st1 =>
      rw [hc] at hl
      have := Seen.loop h hpre hsuf hf cs (hs.step h hpre hsuf hf (fun h0 => hu h0 c (by simp)) hc)
        (fun h0 d hd => hu h0 d (List.mem_cons_of_mem _ hd)) hl
      rwa [List.append_assoc] at this

theorem spelled_star {b : Bpe} (h : Built b) (hpre : b.pre = none) {w : Str} {l l' : List (Nat × Nat)}
    (hs : Star (AnyStep (mergeFn b.merges)) l l') (hl : Spelled (Means b) l w) : Spelled (Means b) l' w := by
  induction hs with
  | refl => exact hl
  | tail _ hs ih =>
    cases hs with
    | mk pre a d post r x hm =>
      obtain ⟨⟨merges, cfg, k1, _⟩, _, _⟩ := id h
      obtain ⟨⟨ab, _, hx1, hy1, b', hcut, hz⟩, _⟩ := (C20_build_get k1 _ _ _ _).1 hm
      have hcp : cfg.pre = none := by
        have := (build_merges k1).2
        have := congrArg Bpe.pre this
        simpa [hpre] using this.symm
      rw [hcp] at hcut
      obtain ⟨p0, hp1, hp2⟩ := hcut
      have hp0 : p0 = [] := blen_eq_zero.1 (by simpa using hp2)
      subst hp0
      simp only [List.nil_append] at hp1
      subst hp1
      refine ih.merge fun g g' h1 h2 => ?_
      unfold Means at h1 h2 ⊢
      have htok : ∀ {s i}, b.vocab.get s = some i → tokOf b.vocab i = s := fun hs => tokOf_get h.wf h.distinct hs
      rw [htok hz, ← htok hx1, ← htok hy1]
      exact h1.append h2

theorem spelled_tokens {b : Bpe} (h : Built b) : ∀ {l : List (Nat × Nat)} {w : Str} {pos : Nat} {ts : List Token},
    Spelled (Means b) l w → tokensFrom b.vocabR pos l = some ts →
    ∀ t ∈ ts, ∃ a m z, w = a ++ m ++ z ∧ m ≠ [] ∧ t.offsets = (pos + blen a, pos + blen a + blen m) ∧
      Stands (Knows b) (b.unk.getD []) b.fuseUnk t.value m
  | [], w, pos, ts, _, ht => by cases ht; simp
  | (i, n) :: l, w, pos, ts, ⟨g, w', e, h1, h2, h3, h4⟩, ht => by
    rw [tokensFrom] at ht
    cases hv : b.vocabR.get i with
    | none => rw [hv] at ht; cases ht
    | some v =>
      rw [hv] at ht
      dsimp only at ht h2 h3
      cases hr : tokensFrom b.vocabR (pos + n) l with
      | none => rw [hr] at ht; cases ht
      | some ts' =>
        rw [hr] at ht
        cases ht
        intro t ht
        rcases List.mem_cons.1 ht with rfl | ht
        · refine ⟨[], g, w', by simpa using e, h1, by simp [h2], ?_⟩
          have := (C46_bpe_vocab_inverse h v i).2 hv
          unfold Means at h3
          rwa [tokOf_get h.wf h.distinct this] at h3
        · obtain ⟨a, m, z, e1, e2, e3, e4⟩ := spelled_tokens h h4 hr t ht
          exact ⟨g ++ a, m, z, by rw [e, e1]; simp, e2, by rw [e3, h2]; simp [Nat.add_assoc], e4⟩

/-- **C16, C59.** Without prefix, suffix and byte fallback, whatever the draws of dropout: the value of every token is the text
at its offsets, the characters that are no tokens replaced by the unknown token. (Without an unknown token such characters are
dropped, so then there must be none.) With the whole-word shortcut a word of the vocabulary is its own token. -/
theorem reads {b : Bpe} (h : Built b) (hpre : b.pre = none) (hsuf : b.suf = none) (hf : b.byteFallback = false) {coins : Nat → Bool}
    {w : Str} {ts : List Token} (hw : w ≠ []) (hu : b.unk = none → ∀ c ∈ w, Knows b c) (ht : tokenize b coins w = .ok ts) :
    Tokenizer.Reads (fun v x => v = x ∨ Stands (Knows b) (b.unk.getD []) b.fuseUnk v x) w ts := by
  have main : ∀ coins, mergeToTokens b coins w = .ok ts →
      Tokenizer.Reads (fun v x => v = x ∨ Stands (Knows b) (b.unk.getD []) b.fuseUnk v x) w ts := by
    intro coins hm
    unfold mergeToTokens mergeWord at hm
    cases hs : initSyms b w with
    | none => rw [hs] at hm; cases hm
    | some l =>
      rw [hs] at hm
      dsimp only at hm
      obtain ⟨size, hc⟩ := h.coherent
      obtain ⟨w', h1, h2, _, _⟩ := mergeAll_spec hc l (fun x hx => (initSyms_ok hs x hx).1) coins
      rw [h1] at hm
      dsimp only [wordToTokens] at hm
      have hl : Spelled (Means b) l w := by
        unfold initSyms at hs
        cases hi : initLoop b true w ([], none) with
        | none => rw [hi] at hs; cases hs
        | some st =>
          rw [hi] at hs
          cases hs
          have h0 : Seen b ([], none) [] := ⟨[], [], rfl, rfl, .inl ⟨rfl, rfl⟩⟩
          have : Seen b st ([] ++ w) := Seen.loop h hpre hsuf hf w h0 hu hi
          exact this.flush h
      have h3 := spelled_star h hpre h2 hl
      cases htf : tokensFrom b.vocabR 0 (symsOf w') with
      | none => rw [htf] at hm; cases hm
      | some ts' =>
        rw [htf] at hm
        cases hm
        intro t ht
        obtain ⟨a, m, z, e1, e2, e3, e4⟩ := spelled_tokens h h3 htf t ht
        exact ⟨a, m, z, e1, e2, by simpa using e3, .inr e4⟩
  unfold tokenize at ht
  rw [if_neg hw] at ht
  cases hd : b.useDropout with
  | true => rw [hd] at ht; exact main _ ht
  | false =>
    rw [hd] at ht
    simp only [Bool.false_eq_true, if_false] at ht
    cases hi : b.ignoreMerges with
    | false => rw [hi] at ht; exact main _ ht
    | true =>
      rw [hi] at ht
      simp only [if_true] at ht
      cases hv : b.vocab.get w with
      | none => rw [hv] at ht; exact main _ ht
      | some id =>
        rw [hv] at ht
        cases ht
        intro t ht
        rw [List.mem_singleton.1 ht]
        exact ⟨[], w, [], by simp, hw, by simp, .inl rfl⟩

/-- A model with the unknown token `?`, which is also merged with what stands before it; unknown characters are fused. -/
def marked : Bpe :=
  { vocab := [(['a'], 0), (['?'], 1), (['a', '?'], 2)], vocabR := [(2, ['a', '?']), (1, ['?']), (0, ['a'])],
    merges := [((0, 1), (0, 2))], unk := some ['?'], fuseUnk := true }

theorem marked_built : Built marked where
  ex := ⟨[(['a'], ['?'])], { vocab := [], vocabR := [], merges := [], unk := some ['?'], fuseUnk := true }, by decide, {
    right := by intro ab h; rw [List.mem_singleton.1 h]; exact ⟨_, rfl, by simp⟩
    left := by intro ab h; rw [List.mem_singleton.1 h]; simp [strip]
    noAccident := by intro ab h b' _ _; exact List.nil_prefix }⟩
  wf := by unfold AMap.WF; decide
  distinct := by
    intro s t i hs ht
    have h1 := AMap.mem_of_get_eq_some hs
    have h2 := AMap.mem_of_get_eq_some ht
    simp only [marked, List.mem_cons, Prod.mk.injEq, List.not_mem_nil, or_false] at h1 h2
    rcases h1 with h | h | h <;> rcases h2 with k | k | k <;>
      first
        | (exfalso; have := h.2; have := k.2; omega)
        | (rw [h.1, k.1])

/-- `axya`: the value `a?` stands for `axy`. -/
example : tokenize marked (fun _ => false) "axya".toList = .ok [⟨2, ['a', '?'], (0, 3)⟩, ⟨0, ['a'], (3, 4)⟩] := by decide +kernel

example {ts : List Token} (h : tokenize marked (fun _ => false) "axya".toList = .ok ts) :
    Tokenizer.Reads (fun v x => v = x ∨ Stands (Knows marked) ['?'] true v x) "axya".toList ts :=
  reads marked_built rfl rfl rfl (by decide) (by simp [marked]) h

/-- **C59 for BPE.** Without a normalizer and with a pre-tokenizer that only cuts, the value of every token of a BPE model (without
prefix, suffix and byte fallback) is the part of the text at its offsets, or that part with the characters that are no tokens
replaced by the unknown token. If every character of the text is a token, it is that part. -/
theorem C59_bpe {t : Tokenizer} {u : Unicode} {v : CharTables} {y : PreTokenizer}
    (h : Tokenizer.IsLibrary t u (.sequence []) v y) (hy : y.OnlyCuts) {b : Bpe} (hb : Built b) (hpre : b.pre = none)
    (hsuf : b.suf = none) (hf : b.byteFallback = false) (hu : b.unk ≠ none) {coins : Str → Nat → Bool}
    (hm : ∀ w, t.model w = Tokenizer.bpeResult (tokenize b (coins w) w))
    {lim : Option (Nat × Encoding.Direction)} {typeId : Nat} {ty : PTS.OffsetType} (hty : ty ≠ .none) {word : Option Nat} {s : Str}
    {e : Encoding} (he : t.encodeText lim typeId ty word s = .ok e) :
    ∀ r ∈ e.rows, ∃ p m q, s = p ++ m ++ q ∧ m ≠ [] ∧
      offsetsOf r = (if ty = .char then (p.length, p.length + m.length) else (blen p, blen p + blen m)) ∧
      (Tokenizer.valueOf r = m ∨ Stands (Knows b) (b.unk.getD []) b.fuseUnk (Tokenizer.valueOf r) m) ∧
      ((∀ c ∈ s, Knows b c) → Tokenizer.valueOf r = m) := by
  intro r hr
  obtain ⟨p, m, q, e1, e2, e3, e4⟩ := Tokenizer.C59_exact h hy
    (R := fun v x => v = x ∨ Stands (Knows b) (b.unk.getD []) b.fuseUnk v x) (fun _ => .inl rfl)
    (fun w ts hw hmw => by
      rw [hm] at hmw
      refine reads hb hpre hsuf hf (coins := coins w) hw (fun h0 => absurd h0 hu) ?_
      cases hr : tokenize b (coins w) w with
      | ok ts' => rw [hr] at hmw; cases hmw; rfl
      | err x => rw [hr] at hmw; cases hmw
      | panic => rw [hr] at hmw; cases hmw) hty he r hr
  refine ⟨p, m, q, e1, e2, e3, e4, fun hk => ?_⟩
  rcases e4 with e4 | e4
  · exact e4
  · exact e4.eq fun c hc => hk c (by rw [e1]; simp [hc])

/-- A tokenizer with this model that splits at spaces. -/
def markedPipeline : Tokenizer :=
  { Tokenizer.cutPipeline with model := fun w => Tokenizer.bpeResult (tokenize marked (fun _ => false) w) }

theorem markedPipeline_ok : Tokenizer.IsLibrary markedPipeline Normalizer.sample (.sequence []) Tokenizer.asciiTables .whitespaceSplit :=
  ⟨rfl, rfl, Tokenizer.cutPipeline_ok.unicode, trivial, trivial, Tokenizer.cutPipeline_ok.tries, Tokenizer.cutPipeline_ok.neat⟩

example (s : Str) (e : Encoding) (h : markedPipeline.encodeText none 0 .char none s = .ok e) :
    ∀ r ∈ e.rows, ∃ p m q, s = p ++ m ++ q ∧ m ≠ [] ∧ offsetsOf r = (p.length, p.length + m.length) ∧
      (Tokenizer.valueOf r = m ∨ Stands (Knows marked) ['?'] true (Tokenizer.valueOf r) m) := by
  intro r hr
  obtain ⟨p, m, q, e1, e2, e3, e4, _⟩ := C59_bpe markedPipeline_ok trivial marked_built rfl rfl rfl (by simp [marked])
    (coins := fun _ _ => false) (fun _ => rfl) (by simp) h r hr
  exact ⟨p, m, q, e1, e2, by simpa using e3, e4⟩

example : (markedPipeline.encodeText none 0 .char none "éa axya".toList).toOption.map (fun e => (e.ids, e.tokens, e.offsets)) =
    some ([1, 0, 2, 0], [['?'], ['a'], ['a', '?'], ['a']], [(0, 1), (1, 2), (3, 6), (6, 7)]) := by decide +kernel

end Tok.Bpe
