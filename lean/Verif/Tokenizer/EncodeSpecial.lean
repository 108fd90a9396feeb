import Verif.Tokenizer.Llama3

/-!
# C113: with `set_encode_special_tokens(true)` special tokens written in a text are ordinary text
-/

namespace Tok
open Encoding ByteLevel
namespace AddedVocab

/-! ## No special token is extracted -/

theorem findLoop_not_special {cl : Classes} {av : AddedVocab} (hf : av.encodeSpecial = true) {s : Str} :
    ∀ (ms : List (Nat × Nat × Nat)) (off : Nat) (r : List (Option Nat × Range)), findLoop cl av s off ms = some r →
      ∀ id rg, (some id, rg) ∈ r → ∃ t, av.rmap.get id = some t ∧ t.content ∉ av.specials
  | [], off, r, h, id, rg, hm => by
    rw [findLoop] at h
    cases h
    split at hm
    · rw [List.mem_singleton] at hm; cases hm
    · cases hm
  | m :: ms, off, r, h, id, rg, hm => by
    rw [findLoop] at h
    cases hs : matchStep cl av s off m with
    | none => rw [hs] at h; cases h
    | some x =>
      obtain ⟨a, off'⟩ := x
      rw [hs, Option.bind_some] at h
      cases hl : findLoop cl av s off' ms with
      | none => dsimp only at h; rw [hl] at h; cases h
      | some r' =>
        dsimp only at h
        rw [hl, Option.map_some] at h
        cases h
        rcases List.mem_append.1 hm with hm | hm
        · unfold matchStep at hs
          split at hs
          · rename_i t before after ht _ _
            split at hs
            · cases hs; cases hm
            · rename_i hn
              split at hs
              · cases hs; cases hm
              · cases hs
                rcases List.mem_append.1 hm with hm | hm
                · generalize (if t.lstrip = true then max (spaceLeftmostAtEnd cl before) off else m.1) = b at hm
                  split at hm
                  · rw [List.mem_singleton] at hm; cases hm
                  · cases hm
                · rw [List.mem_singleton] at hm
                  cases hm
                  exact ⟨t, ht, fun hc => hn ⟨hf, hc⟩⟩
          · cases hs
        · exact findLoop_not_special hf ms off' r' hl id rg hm

theorem findMatches_not_special {cl : Classes} {av : AddedVocab} (hf : av.encodeSpecial = true) {pats : List (Str × Nat)}
    {s : Str} {r : List (Option Nat × Range)} (h : findMatches cl av pats s = some r) {id : Nat} {rg : Range}
    (hm : (some id, rg) ∈ r) : ∃ t, av.rmap.get id = some t ∧ t.content ∉ av.specials := by
  unfold findMatches at h
  split at h
  · cases h; simp at hm
  · split at h
    · cases h; simp at hm
    · exact findLoop_not_special hf _ _ _ h id rg hm

/-- All tokens of these pieces are added tokens that are not special. -/
def NoneSpecial (av : AddedVocab) (l : List Split) : Prop :=
  ∀ x ∈ l, ∀ ts, x.tokens = some ts → ∀ tk ∈ ts, ∃ t, av.rmap.get tk.id = some t ∧ t.content ∉ av.specials

theorem splitWithIndices_not_special {cl : Classes} {av : AddedVocab} (hf : av.encodeSpecial = true)
    {pats : List (Str × Nat)} {n : NS} {out : List Split} (h : splitWithIndices cl av pats n = some out) :
    NoneSpecial av out := by
  unfold splitWithIndices at h
  cases hl : findMatches cl av pats n.norm with
  | none => rw [hl] at h; cases h
  | some l =>
    rw [hl, Option.bind_some] at h
    have key : ∀ (l' : List (Option Nat × Range)) (out : List Split), l'.mapM (toSplit n) = some out →
        (∀ x ∈ l', x ∈ l) → NoneSpecial av out := by
      intro l'
      induction l' with
      | nil => intro out h _; cases h; intro x hx; cases hx
      | cons a l' ih =>
        intro out h hsub
        rw [List.mapM_cons] at h
        cases ha : toSplit n a with
        | none => rw [ha] at h; cases h
        | some y =>
          cases hr : l'.mapM (toSplit n) with
          | none => rw [ha, hr] at h; cases h
          | some ys =>
            rw [ha, hr] at h
            cases h
            intro x hx ts hts tk htk
            rcases List.mem_cons.1 hx with rfl | hx
            · unfold toSplit at ha
              split at ha
              · cases ha
                obtain ⟨o, rg⟩ := a
                cases o with
                | none => cases hts
                | some id =>
                  cases hts
                  rw [List.mem_singleton] at htk
                  subst htk
                  exact findMatches_not_special hf hl (hsub _ List.mem_cons_self)
              · cases ha
            · exact ih ys hr (fun z hz => hsub z (by simp [hz])) x hx ts hts tk htk
    exact key l out h fun _ h => h

theorem split_not_special {av : AddedVocab} {f : Nat → NS → Except Unit (List Split)}
    (hf : ∀ i n out, f i n = .ok out → NoneSpecial av out) {p q : PTS} (hp : NoneSpecial av p.splits)
    (h : p.split f = .ok q) : NoneSpecial av q.splits := by
  have key : ∀ (l : List Split) (i : Nat) (out : List Split), NoneSpecial av l → PTS.splitLoop f i l = .ok out →
      NoneSpecial av out := by
    intro l
    induction l with
    | nil => intro i out _ h; cases h; intro x hx; cases hx
    | cons s l ih =>
      intro i out hl h
      have hrest : NoneSpecial av l := fun x hx => hl x (by simp [hx])
      rw [PTS.splitLoop] at h
      split at h
      · cases hr : PTS.splitLoop f (i + 1) l with
        | error e => rw [hr] at h; cases h
        | ok o =>
          rw [hr] at h
          cases h
          intro x hx
          rcases List.mem_cons.1 hx with rfl | hx
          · exact hl _ List.mem_cons_self
          · exact ih _ _ hrest hr x hx
      · cases ha : f i s.normalized with
        | error e => rw [ha] at h; cases h
        | ok a =>
          rw [ha] at h
          cases hr : PTS.splitLoop f (i + 1) l with
          | error e => simp only [bind, Except.bind, hr] at h; cases h
          | ok o =>
            simp only [bind, Except.bind, hr] at h
            cases h
            intro x hx
            rcases List.mem_append.1 hx with hx | hx
            · exact hf _ _ _ ha x (List.mem_filter.1 hx).1
            · exact ih _ _ hrest hr x hx
  unfold PTS.split at h
  cases hr : PTS.splitLoop f 0 p.splits with
  | error e => rw [hr] at h; cases h
  | ok o =>
    rw [hr] at h
    cases h
    exact key _ _ _ hp hr

/-- **C113.** With the switch on, whatever the normalizer and the history of the added vocabulary: what is cut out of a text are
added tokens that are not special. -/
theorem C113_extract {m : ModelView} (hm : m.Ok) {build : List (Str × Nat) → Bool} {ops : List Op} {av : AddedVocab}
    (hav : av = after build m empty ops) (hf : av.encodeSpecial = true) (cl : Classes) (norm : NS → Option NS) (s : Str) {p : PTS}
    (h : extractAndNormalize cl av norm s = .ok p) :
    ∀ x ∈ p.splits, ∀ ts, x.tokens = some ts → ∀ tk ∈ ts, ∃ t, av.rmap.get tk.id = some t ∧ t.special = false := by
  have hinv : Inv m av := hav ▸ (after_inv hm build ops (inv_empty _)).1
  have hor : ∀ {x : Option (List Split)} {out}, orPanic x = .ok out → x = some out := by
    intro x out h
    cases x with
    | none => cases h
    | some a => cases h; rfl
  have main : NoneSpecial av p.splits := by
    unfold extractAndNormalize at h
    cases h1 : PTS.split (PTS.ofStr s) fun _ n => orPanic (splitWithIndices cl av av.trie n) with
    | error e => rw [h1] at h; cases h
    | ok q =>
      rw [h1] at h
      have hq := split_not_special (av := av) (fun i n out ho => splitWithIndices_not_special hf (hor ho))
        (by
          intro x hx ts hts
          have hx : x = ⟨NS.ofStr s, none⟩ := by simpa [PTS.ofStr, PTS.ofNS] using hx
          subst hx; cases hts) h1
      refine split_not_special (fun i n out ho => ?_) hq h
      have := hor ho
      cases hn : norm n with
      | none => rw [hn] at this; cases this
      | some n' => rw [hn] at this; exact splitWithIndices_not_special hf this
  intro x hx ts hts tk htk
  obtain ⟨t, t1, t2⟩ := main x hx ts hts tk htk
  refine ⟨t, t1, ?_⟩
  cases hs : t.special with
  | false => rfl
  | true => exact absurd (hinv.flagged _ _ t1 hs) t2

/-! ## Special tokens only -/

theorem addLoop_origin {m : ModelView} {norm : Norm} : ∀ (ts : List AddedToken) (av : AddedVocab) (next ign : Nat) i x,
    (addLoop m norm ts av next ign).1.rmap.get i = some x → x ∈ ts ∨ av.rmap.get i = some x
  | [], _, _, _, _, _, h => .inr h
  | t :: ts, av, next, ign, i, x, h => by
    rw [addLoop] at h
    split at h
    · rcases addLoop_origin ts _ _ _ i x h with h | h
      · exact .inl (by simp [h])
      · exact .inr h
    · split at h
      · rcases addLoop_origin ts _ _ _ i x h with h | h
        · exact .inl (by simp [h])
        · exact .inr h
      · simp only at h
        split at h
        · exact .inr h
        · rcases addLoop_origin ts _ _ _ i x h with h | h
          · exact .inl (by simp [h])
          · have h : (av.rmap.insert ((av.tokenToId m t.content).getD next) t).get i = some x := h
            rw [AMap.get_insert] at h
            split at h
            · cases h; exact .inl (by simp)
            · exact .inr h

/-- Every token of an added vocabulary is one that was added. -/
theorem after_origin {m : ModelView} {build : List (Str × Nat) → Bool} : ∀ (ops : List Op) (av : AddedVocab) i x,
    (after build m av ops).rmap.get i = some x → x ∈ tokensOf ops ∨ av.rmap.get i = some x
  | [], _, _, _, h => .inr h
  | op :: ops, av, i, x, h => by
    have h : (after build m (apply build m av op) ops).rmap.get i = some x := h
    cases op with
    | add norm ts =>
      rcases after_origin ops _ i x h with h | h
      · exact .inl (by simp [tokensOf, h])
      · obtain ⟨ign, r, e, _, h2, _, _⟩ := addTokens_fst build m norm av ts
        have h : (av.addTokens build m norm ts).1.rmap.get i = some x := h
        rw [h2] at h
        have := addLoop_origin (m := m) (norm := norm) ts av (av.nextId m) 0 i x (by rw [e]; exact h)
        rcases this with h | h
        · exact .inl (by simp [tokensOf, h])
        · exact .inr h
    | renormalize norm =>
      rcases after_origin ops _ i x h with h | h
      · exact .inl (by simpa [tokensOf] using h)
      · refine .inr ?_
        have h : (av.refreshNormalized build norm).1.rmap.get i = some x := h
        unfold refreshNormalized at h
        simp only at h
        split at h
        · have hs := refresh_same build { av with cache := (recache norm av.rmap []).1 }
          rw [hs.2.1] at h
          exact h
        · exact h
    | setEncodeSpecial b =>
      rcases after_origin ops _ i x h with h | h
      · exact .inl (by simpa [tokensOf] using h)
      · exact .inr h

theorem findLoop_skips {cl : Classes} {av : AddedVocab} {pats : List (Str × Nat)} {s : Str} (hf : av.encodeSpecial = true)
    (hid : ∀ p ∈ pats, ∃ t, av.rmap.get p.2 = some t ∧ t.content ∈ av.specials) {q : Str} {hs : List (Str × Str × Nat)}
    (hh : Hits pats q hs) : ∀ (done : Str) (off : Nat), s = done ++ q →
    findLoop cl av s off (hitOffsets (blen done) hs) = some (if off ≠ blen s then [(none, (off, blen s))] else []) := by
  induction hh with
  | done _ => intro done off _; rw [hitOffsets, findLoop]
  | @hit gap p id rest hs hp hlong hgap hrest ih =>
    intro done off hs'
    obtain ⟨t, ht, htc⟩ := hid _ hp
    have htake : takeBytes (blen done + blen gap) s = some (done ++ gap) := by
      rw [hs', ← blen_append, show done ++ (gap ++ p ++ rest) = (done ++ gap) ++ (p ++ rest) by simp]
      exact takeBytes_append _ _
    have hdrop : dropBytes (blen done + blen gap + blen p) s = some rest := by
      rw [hs', ← blen_append, ← blen_append, show done ++ (gap ++ p ++ rest) = (done ++ gap ++ p) ++ rest by simp]
      exact dropBytes_append _ _
    have hb : blen done + blen gap + blen p = blen (done ++ gap ++ p) := by simp [blen_append, Nat.add_assoc]
    have := ih (done ++ gap ++ p) off (by rw [hs']; simp)
    rw [hitOffsets, findLoop]
    simp only [matchStep, ht, htake, hdrop]
    rw [if_pos ⟨hf, htc⟩, Option.bind_some, hb]
    dsimp only
    rw [this]
    simp

theorem findMatches_skips {cl : Classes} {av : AddedVocab} {pats : List (Str × Nat)} (hf : av.encodeSpecial = true)
    (hne : ∀ p ∈ pats, p.1 ≠ []) (hid : ∀ p ∈ pats, ∃ t, av.rmap.get p.2 = some t ∧ t.content ∈ av.specials) (s : Str) :
    findMatches cl av pats s = findMatches cl empty [] s := by
  unfold findMatches
  by_cases hs : s = []
  · rw [if_pos hs, if_pos hs]
  · rw [if_neg hs, if_neg hs, if_pos rfl]
    by_cases hp : pats = []
    · rw [if_pos hp]
    · rw [if_neg hp]
      obtain ⟨hits, h1, h2⟩ := scan_hits hne s.length s 0 (Nat.le_refl _)
      rw [h2]
      have := findLoop_skips (cl := cl) hf hid (s := s) h1 [] 0 rfl
      rw [show blen [] = 0 from rfl] at this
      rw [this, if_pos]
      have := blen_pos hs; omega

end AddedVocab

namespace Tokenizer
open AddedVocab

/-- `set_encode_special_tokens` (`tokenizer/mod.rs:752-754`, `added_vocabulary.rs:249-251`). -/
def setEncodeSpecial (t : Tokenizer) (b : Bool) : Tokenizer := { t with added := { t.added with encodeSpecial := b } }

/-- The same tokenizer without added tokens. -/
def unadded (t : Tokenizer) : Tokenizer := { t with added := AddedVocab.empty }

/-- The switch is on, and all tokens ever added are special. -/
structure SpecialsOff (t : Tokenizer) (build : List (Str × Nat) → Bool) (ops : List Op) : Prop where
  ok : t.view.Ok
  solid : ∀ l, build l = true → ∀ p ∈ l, p.1 ≠ []
  history : t.added = after build t.view AddedVocab.empty ops
  on : t.added.encodeSpecial = true
  special : ∀ x ∈ tokensOf ops, x.special = true

theorem SpecialsOff.inv {t : Tokenizer} {build ops} (h : SpecialsOff t build ops) : Inv t.view t.added := by
  rw [h.history]
  exact (after_inv h.ok build ops (inv_empty _)).1

theorem unadded_text {t : Tokenizer} {build ops} (h : SpecialsOff t build ops) (s : Str) :
    t.preTokenized s = t.unadded.preTokenized s := by
  have htr : TriesOk t.added := by
    rw [h.history]
    exact after_tries h.ok h.solid ops (inv_empty _) (by intro p hp; simp [AddedVocab.empty] at hp)
  have hid : ∀ p ∈ t.added.trie ++ t.added.normTrie, ∃ x, t.added.rmap.get p.2 = some x ∧ x.content ∈ t.added.specials := by
    intro p hp
    obtain ⟨_, x, hx⟩ := htr p hp
    refine ⟨x, hx, h.inv.flagged _ _ hx (h.special x ?_)⟩
    rw [h.history] at hx
    rcases after_origin ops _ _ _ hx with hx | hx
    · exact hx
    · simp [AddedVocab.empty, AMap.get] at hx
  have key : ∀ pats : List (Str × Nat), (∀ p ∈ pats, p ∈ t.added.trie ++ t.added.normTrie) →
      splitWithIndices t.cl t.added pats = splitWithIndices t.cl AddedVocab.empty [] := by
    intro pats hp
    funext n
    unfold splitWithIndices
    rw [findMatches_skips h.on (fun p hq => (htr p (hp p hq)).1) (fun p hq => hid p (hp p hq))]
  unfold preTokenized extractAndNormalize
  rw [key _ (by simp +contextual), key _ (by simp +contextual)]
  rfl

/-- **C113.** With the switch on and only special tokens added, every input is encoded as by the same tokenizer that has no
added tokens at all: the special tokens a text contains are ordinary text. -/
theorem C113_invisible {t : Tokenizer} {build ops} (h : SpecialsOff t build ops) (ty : PTS.OffsetType)
    (input : Input × Option Input) (add : Bool) : t.encodeAs ty input add = t.unadded.encodeAs ty input add := by
  have htext : t.encodeText = t.unadded.encodeText := by
    funext lim typeId ty word s
    unfold encodeText
    rw [unadded_text h s]
    rfl
  have hseq : t.encodeSequence = t.unadded.encodeSequence := by
    funext typeId ty i
    unfold encodeSequence encodeSequenceWith
    rw [htext]
    rfl
  unfold encodeAs
  rw [hseq]
  rfl

end Tokenizer

/-! ## Which tokens BPE can give -/

/-- A token of the vocabulary that BPE with a token for every character can give: a single character, the result of a merge, or,
if whole words are looked up first, any token. -/
def Bpe.CanGive (b : Bpe.Bpe) (c : Str) : Prop :=
  ∃ k, b.vocab.get c = some k ∧ ((∃ x, c = [x]) ∨ (∃ i j r, Bpe.mergeFn b.merges i j = some (r, k)) ∨
    (b.ignoreMerges = true ∧ b.useDropout = false))

/-- **C113.** BPE gives no other tokens, whatever the word and the draws of dropout. -/
theorem Bpe.C113_can_give {b : Bpe.Bpe} (h : Bpe.Built b) (hpre : b.pre = none) (hsuf : b.suf = none) {w : Str}
    (hk : ∀ c ∈ w, ∃ i, b.vocab.get [c] = some i) {coins : Nat → Bool} {ts : List Token}
    (ht : Bpe.tokenize b coins w = .ok ts) : ∀ x ∈ ts, Bpe.CanGive b x.value := by
  have hl := Tokenizer.initSyms_known hpre hsuf hk
  have hok := Bpe.initSyms_ok hl
  have main : ∀ coins ts, Bpe.mergeToTokens b coins w = .ok ts → ∀ x ∈ ts, Bpe.CanGive b x.value := by
    intro coins ts ht x hx
    obtain ⟨size, hc⟩ := h.coherent
    obtain ⟨w', h1, h2, _, _⟩ := Bpe.mergeAll_spec hc _ (fun x hx => (hok x hx).1) coins
    obtain ⟨ts', h4, h5, h6, h7⟩ := Bpe.tokensFrom_spec h (Bpe.symsOf w') 0 (Bpe.star_ids h h2 (fun x hx => (hok x hx).2))
    have : ts = ts' := by
      unfold Bpe.mergeToTokens Bpe.mergeWord at ht
      simp only [hl, h1, Bpe.wordToTokens, h4] at ht
      cases ht; rfl
    subst this
    have hP : ∀ s ∈ Bpe.symsOf w', (∃ c, b.vocab.get [c] = some s.1) ∨
        ∃ i j r, Bpe.mergeFn b.merges i j = some (r, s.1) := by
      have hstar : ∀ {a c : List (Nat × Nat)}, Bpe.Star (Bpe.AnyStep (Bpe.mergeFn b.merges)) a c →
          (∀ s ∈ a, (∃ c, b.vocab.get [c] = some s.1) ∨ ∃ i j r, Bpe.mergeFn b.merges i j = some (r, s.1)) →
          ∀ s ∈ c, (∃ c, b.vocab.get [c] = some s.1) ∨ ∃ i j r, Bpe.mergeFn b.merges i j = some (r, s.1) := by
        intro a c hs h0
        induction hs with
        | refl => exact h0
        | tail _ hs ih =>
          cases hs with
          | mk pre a c post r k hm =>
            intro y hy
            rcases List.mem_append.1 hy with hy | hy
            · exact ih y (by simp [hy])
            · rcases List.mem_cons.1 hy with rfl | hy
              · exact .inr ⟨_, _, _, hm⟩
              · exact ih y (by simp [hy])
      refine hstar h2 fun s hs => .inl ?_
      obtain ⟨c, hc, rfl⟩ := List.mem_map.1 hs
      obtain ⟨i, hi⟩ := hk c hc
      exact ⟨c, by rw [hi]; rfl⟩
    have hv := h7 x hx
    have hid : x.id ∈ (Bpe.symsOf w').map (·.1) := by rw [← h5]; exact List.mem_map.2 ⟨x, hx, rfl⟩
    obtain ⟨s, hs, hsx⟩ := List.mem_map.1 hid
    rcases hP s hs with ⟨c, hc⟩ | ⟨i, j, r, hm⟩
    · rw [hsx] at hc
      have e1 := (Bpe.C46_bpe_vocab_inverse h _ _).1 hc
      have e2 := (Bpe.C46_bpe_vocab_inverse h _ _).1 hv
      rw [e1] at e2
      exact ⟨_, hv, .inl ⟨c, (Option.some.inj e2).symm⟩⟩
    · exact ⟨_, hv, .inr (.inl ⟨i, j, r, by rw [← hsx]; exact hm⟩)⟩
  unfold Bpe.tokenize at ht
  split at ht
  · cases ht; intro x hx; cases hx
  · cases hd : b.useDropout with
    | true => rw [hd, if_pos rfl] at ht; exact main _ _ ht
    | false =>
      rw [hd, if_neg (by simp)] at ht
      cases hi : b.ignoreMerges with
      | false => rw [hi, if_neg (by simp)] at ht; exact main _ _ ht
      | true =>
        rw [hi, if_pos rfl] at ht
        cases hv : b.vocab.get w with
        | none => rw [hv] at ht; exact main _ _ ht
        | some k =>
          rw [hv] at ht
          cases ht
          intro x hx
          rw [List.mem_singleton] at hx
          subst hx
          exact ⟨k, hv, .inr (.inr ⟨hi, hd⟩)⟩

namespace Tokenizer
open AddedVocab PreTokenizer

variable {t : Tokenizer} {u : Unicode} {z : Normalizer} {v : CharTables} {l : List PreTokenizer} {r : Bool}
  {re : Str → List Range} {b : Bpe.Bpe} {coins : Str → Nat → Bool}

theorem splitBytes_given (h : IsSplitBytes t u z v l r re b coins) : ∀ (ws : List Str) (tss : List (List Token)),
    (∀ w ∈ ws, ∀ c ∈ w, ∃ x, c = byteChar x) →
    (ws.map fun w => ((none : Option Nat), w)).mapM (unitTokens t.model) = .ok tss →
      ∀ x ∈ tss.flatten, Bpe.CanGive b x.value
  | [], tss, _, hm => by cases hm; simp
  | w :: ws, tss, hw, hm => by
    rw [List.map_cons, List.mapM_cons] at hm
    cases ha : unitTokens t.model (none, w) with
    | error e => rw [ha] at hm; cases hm
    | ok ts =>
      cases hr : (ws.map fun w => ((none : Option Nat), w)).mapM (unitTokens t.model) with
      | error e => rw [ha, hr] at hm; cases hm
      | ok rest =>
        rw [ha, hr] at hm
        cases hm
        intro x hx
        rw [List.flatten_cons] at hx
        rcases List.mem_append.1 hx with hx | hx
        · have ha : t.model w = .ok ts := ha
          rw [h.model] at ha
          cases htk : Bpe.tokenize b (coins w) w with
          | ok ts' =>
            rw [htk] at ha
            cases ha
            refine Bpe.C113_can_give h.built h.affixes.1 h.affixes.2 ?_ htk x hx
            intro c hc
            obtain ⟨y, hy⟩ := hw w List.mem_cons_self c hc
            rw [hy]; exact h.alphabet y
          | err e => rw [htk] at ha; cases ha
          | panic => rw [htk] at ha; cases ha
        · exact splitBytes_given h ws rest (fun w' hw' => hw w' (by simp [hw'])) hr x hx

/-- The tokens of a text, added tokens apart. -/
theorem splitBytes_uncut (h : IsSplitBytes t u z v l r re b coins) (w : Str) :
    ∃ tss, (units v (.sequence (l ++ [.byteLevel ⟨false, r⟩ re])) (plainPart w)).mapM (unitTokens t.model) = .ok tss ∧
      tss.flatten.flatMap (·.value) = spell w ∧ ∀ x ∈ tss.flatten, t.view.toId x.value = some x.id ∧ Bpe.CanGive b x.value := by
  have hflat := cut_spelled (v := v) h.engine r l h.keeps false w
  have hcut : (cut v false (.sequence (l ++ [.byteLevel ⟨false, r⟩ re])) w) =
      cutAll v false (l ++ [.byteLevel ⟨false, r⟩ re]) w := by rw [cut]
  rw [← hcut, ← flatten_solid] at hflat
  have hby : ∀ w' ∈ solid (cut v false (.sequence (l ++ [.byteLevel ⟨false, r⟩ re])) w), ∀ c ∈ w', ∃ x, c = byteChar x := by
    intro w' hw' c hc
    have : c ∈ spell w := by rw [← hflat]; exact List.mem_flatten.2 ⟨w', hw', hc⟩
    obtain ⟨x, _, rfl⟩ := List.mem_map.1 this
    exact ⟨x, rfl⟩
  obtain ⟨ts, j1, j2, j3⟩ := splitBytes_words h _ hby
  refine ⟨ts, ?_, by rw [j2, hflat], fun x hx => ⟨j3 x hx, splitBytes_given h _ _ hby j1 x hx⟩⟩
  rw [← j1]
  congr 1
  unfold plainPart units
  split
  · rename_i hw
    subst hw
    have : spell [] = [] := rfl
    rw [this] at hflat
    have : solid (cut v false (.sequence (l ++ [.byteLevel ⟨false, r⟩ re])) []) = [] := by
      cases hc : solid (cut v false (.sequence (l ++ [.byteLevel ⟨false, r⟩ re])) []) with
      | nil => rfl
      | cons a as =>
        rw [hc, List.flatten_cons] at hflat
        have h1 := (List.append_eq_nil_iff.1 hflat).1
        have h2 : a ∈ solid (cut v false (.sequence (l ++ [.byteLevel ⟨false, r⟩ re])) []) := by rw [hc]; simp
        unfold solid at h2
        have := (List.mem_filter.1 h2).2
        simp [h1] at this
    rw [this]; rfl
  · simp [solid]

/-- **C113.** A byte-level tokenizer like Llama 3's or GPT-2's with only special tokens added, none of which BPE itself can give,
and the switch on: whatever special tokens a text contains, none of their ids is among the ids of the text, and decoding
gives the normalized text, special tokens written in it included, even if special tokens are skipped. -/
theorem C113_text (h : IsSplitBytes t.unadded u z v l r re b coins) {build : List (Str × Nat) → Bool} {ops : List Op}
    (hoff : SpecialsOff t build ops) (hraw : normsOf ops = [] ∨ ∀ x ∈ tokensOf ops, x.normalized = false)
    (hset : Around t.settings (IsSpecialId t.added)) (hout : ∀ x ∈ tokensOf ops, ¬ Bpe.CanGive b x.content) (s : Str) :
    (∃ e, t.encode (.raw s, none) false = .ok e ∧ ∀ i ∈ e.ids, ¬ IsSpecialId t.added i) ∧
    ∀ add skip : Bool, (add = true → skip = true) →
      ∃ e, t.encode (.raw s, none) add = .ok e ∧ t.decode skip e.ids = some (if s = [] then [] else z.text u s) := by
  have hm := hoff.ok
  have hinv := hoff.inv
  have hclean : Clean (tokensOf ops) t.added := by
    rw [hoff.history]
    exact after_clean hm build ops (fun _ h => h) hraw (inv_empty _)
      ⟨rfl, by simp [AddedVocab.empty, AMap.get], by simp [AddedVocab.empty]⟩
  obtain ⟨C1, C2, hC1, hC2, he⟩ := C58_encode h.pipeline
  obtain ⟨tss, k1, k2, k3⟩ := splitBytes_uncut h (if s = [] then [] else z.text u s)
  have htr : t.settings.truncation = none := by
    rcases hset with h | ⟨_, _, _, h, _⟩
    · exact h.1
    · rw [h]
  have hlim : t.limit 0 = none := by unfold limit; rw [htr]
  have hex : units v (.sequence (l ++ [.byteLevel ⟨false, r⟩ re])) (extracted u z C1 C2 s) =
      units v (.sequence (l ++ [.byteLevel ⟨false, r⟩ re])) (plainPart (if s = [] then [] else z.text u s)) := by
    by_cases hs : s = []
    · subst hs
      have h1 : ∀ {C : Str → List (Option Nat × Str)}, Carves [] C → ∀ w, C w = plainPart w := by
        intro C hC w
        have := hC w
        generalize C w = ps at this
        cases this with
        | done _ => rfl
        | hit hm => cases hm
      have h2 : extracted u z C1 C2 [] = [] := by
        unfold extracted
        rw [h1 hC1]; rfl
      rw [h2]; rfl
    · rw [if_neg hs, extracted_none hC1 hC2 hs (fun p hp => nomatch hp) (fun p hp => nomatch hp)]
  have hno := he s 0 .byte none (by simp)
  rw [hex, k1] at hno
  obtain ⟨e, e1, e2, e3⟩ := hno
  have e1' : t.encodeSequence 0 .byte (.raw s) = .ok e := by
    show t.encodeText (t.limit 0) 0 .byte none s = _
    rw [hlim]
    unfold encodeText
    rw [unadded_text hoff s]
    exact e1
  have hwf := (encodeSequence_wf (lim := t.limit 0) (i := .raw s) e1' hlim).1
  have hids : e.ids = tss.flatten.map (·.id) := by
    rw [(rows_unzip hwf.parallel).1]
    have := congrArg (List.map Prod.fst) e3
    rw [List.map_map] at this
    rw [show (Prod.fst ∘ Row.bare) = fun r : Encoding.Row => r.1 from rfl] at this
    rw [this]
    exact (unitRows_ids 0 none tss).1
  have hplain : ∀ x ∈ tss.flatten, Shows t.view t.added x.id x.value ∧ x.value ∉ t.added.specials := by
    intro x hx
    obtain ⟨x1, x2⟩ := k3 x hx
    refine ⟨shows_model hm hinv hclean x1, fun hc => ?_⟩
    obtain ⟨i, hi⟩ := hinv.special _ hc
    obtain ⟨y, y1, y2⟩ := (hinv.inverse _ _).1 hi
    have := hclean.token _ _ y1
    exact hout y this (by rw [y2]; exact x2)
  refine ⟨?_, fun add skip hskip => wrapped_ids hinv hclean.cache hset h.decoder e1' hlim e2 ?_ hskip⟩
  · obtain ⟨hwf, hsr⟩ := encodeSequence_wf (lim := t.limit 0) (i := .raw s) e1' hlim
    obtain ⟨pre, post, o3, o4, o5⟩ := around_uniform hset t.ws t.checked false
    obtain ⟨out, o1, o2⟩ := o5 e hwf hsr e2
    refine ⟨out, ?_, ?_⟩
    · show (t.encodeSequence 0 .byte (.raw s)).bind _ = _
      rw [e1']
      show mapErr EncErr.post (t.settings.postProcess t.ws t.checked e none false) = _
      rw [o1]; rfl
    · have hpp := List.append_eq_nil_iff.1 (o4 rfl)
      rw [o2, hpp.1, hpp.2, List.nil_append, List.append_nil, hids]
      intro i hi hsp
      obtain ⟨x, hx, rfl⟩ := List.mem_map.1 hi
      obtain ⟨a, a1, a2⟩ := hsp
      have hr := hplain x hx
      have := hinv.flagged _ _ a1 a2
      have hc : a.content = x.value := by
        rcases hinv.model _ _ ((hinv.inverse a.content x.id).2 ⟨a, a1, rfl⟩) with k | ⟨_, k⟩
        · have g1 := (hm.inv _ _).1 k
          have g2 := (hm.inv _ _).1 (k3 x hx).1
          rw [g1] at g2; exact Option.some.inj g2
        · have := hm.lt _ _ (k3 x hx).1
          omega
      exact hr.2 (hc ▸ this)
  · rw [hids, decodeTokens_plain skip tss.flatten hplain]
    show (Dec.Decoder.decodeChain t.checked .byteLevel _).map List.flatten = _
    rw [Dec.Decoder.decodeChain]
    show some (List.flatten (ByteLevel.decodeChain _)) = _
    unfold ByteLevel.decodeChain
    rw [show (fun t : Str => (t.mapM charByte).getD (strBytes t)) = tokBytes from rfl,
      tokBytes_pieces (toks := tss.flatten.map (·.value)) (s := if s = [] then [] else z.text u s) (by rw [← List.flatMap_def]; exact k2),
      fromUtf8Lossy_strBytes]
    simp

end Tokenizer
end Tok
