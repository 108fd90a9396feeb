import Verif.Tokenizer.TrainedMeta
import Verif.Tokenizer.BertText

/-!
# C85: a trained WordPiece tokenizer gives the words of texts back
-/

namespace Tok
namespace Tokenizer

open AddedVocab PreTokenizer Dec

/-- The ids of a trained WordPiece model belong to one token each. -/
theorem trained_wordPieceView {cfg : Train.BpeCfg} {order : AMap Char Nat → AMap Char Nat} {wc : AMap Str Nat} {st : Train.St}
    (h : Train.Reached cfg order wc st) {w w' : WordPiece} (hw : Train.trainWordPiece cfg st w = some w') :
    (wordPieceView w').Ok := by
  obtain ⟨b, b1, b2, b3, -⟩ := Train.finish_spec (cfg := cfg) (Train.reached_voc h).voc Train.defaultBpe
  have hv : w'.vocab = b.vocab := by
    unfold Train.trainWordPiece at hw
    rw [b1] at hw
    cases hw
    rfl
  have hnd := (Train.C41_vocab h).1
  have hd : Bpe.IdsDistinct b.vocab := by
    intro s s' i h1 h2
    rw [b3] at h1 h2
    exact Option.some.inj (h1.symm.trans h2)
  have hlen : st.voc.id2w.length ≤ b.vocab.length := by
    have := Save.length_le_of_subset (l := st.voc.id2w) (l' := b.vocab.map (·.1)) hnd (by
      intro x hx
      obtain ⟨i, hi⟩ := List.mem_iff_getElem?.1 hx
      exact List.mem_map.2 ⟨(x, i), AMap.mem_of_get_eq_some ((b3 x i).2 hi), rfl⟩)
    simpa using this
  refine ⟨fun c i hi => ?_, fun c i => ?_⟩
  · show i < w'.vocab.length
    have hi : w'.vocab.get c = some i := hi
    rw [hv] at hi ⊢
    have := (List.getElem?_eq_some_iff.1 ((b3 c i).1 hi)).1
    omega
  · show w'.vocab.get c = some i ↔ (turned w'.vocab).get i = some c
    rw [hv]
    exact Save.inverse_swap b2 hd c i

/-- A tokenizer like BERT's before training: any normalizer, the pre-tokenizer of BERT, the WordPiece decoder for the prefix, which
begins with punctuation and is longer than one character, as `##`; nothing is added. The model may be any. -/
structure BertRecipe (t : Tokenizer) (u : Unicode) (z : Normalizer) (v : CharTables) (pre : Str) (clean : Bool) : Prop where
  pipeline : IsPipeline t u z v .bert
  decoder : t.decoder = some (.wordPiece pre clean)
  added : t.added = empty
  space : v.ws ' ' = true
  pre : ∃ c p, pre = c :: p ∧ p ≠ [] ∧ Punct v c = true

/-- The words that BERT's pre-tokenizer makes of a text. -/
def bertWords (u : Unicode) (z : Normalizer) (v : CharTables) (s : Str) : List Str := (cut v false .bert (z.text u s)).filter (· ≠ [])

/-- A word of characters that were seen: the first anywhere, the others inside words. -/
def SeenIn (words : List Str) : Str → Prop
  | [] => True
  | c :: cs => (∃ x ∈ words, c ∈ x) ∧ ∀ d ∈ cs, ∃ x ∈ words, d ∈ x.tail

/-- **C85.** A tokenizer like BERT's is trained on any texts. Then every text, seen or not, without special tokens, all of whose
words are of characters that were seen (the first anywhere, the others inside words) and not too long, is encoded without error,
and decoded to its words, with single spaces between (none before `.?!,` with cleanup): no word is unknown. -/
theorem C85_trained {t t' : Tokenizer} {u z v pre clean} (h : BertRecipe t u z v pre clean) {build : List (Str × Nat) → Bool}
    (hb : Save.Automata build) {norm : Norm} {tree : Train.Tree} {cfg : Train.BpeCfg} {order : AMap Char Nat → AMap Char Nat}
    {fuel : Nat} {specials : List AddedToken} {w : WordPiece}
    (htr : t.train build norm tree (wordPieceTrainer cfg order fuel specials w) = (t', .ok ()))
    (hc : cfg.specials = specials.map (·.content)) (ho : Train.IsOrder order)
    (hl : Train.EnoughRoom cfg (tree.leaves.flatMap fun q => if q = [] then [] else bertWords u z v q))
    (hp : cfg.pre = some pre) (hsuf : cfg.suf = none) (hunk : w.unkToken ∈ cfg.specials) (hunkText : Dec.Plain w.unkToken)
    (hplain : ∀ x ∈ specials, x.normalized = false ∧ x.lstrip = false ∧ x.rstrip = false ∧ x.singleWord = false ∧
      x.content ≠ [] ∧ ¬ pre <+: x.content) (hset : Surrounds t.settings (IsSpecialId t'.added))
    {s : Str} (hs : s ≠ [])
    (hseen : ∀ x ∈ bertWords u z v s, x.length ≤ w.maxInputChars ∧
      SeenIn (tree.leaves.flatMap fun q => if q = [] then [] else bertWords u z v q) x)
    (hfree : ∀ x ∈ specials, ¬ x.content <:+: s ∧ ¬ x.content <:+: z.text u s)
    {add skip : Bool} (hskip : add = true → skip = true) :
    ∃ e, t'.encode (.raw s, none) add = .ok e ∧ t'.decode skip e.ids = some (glue (tightIf clean) (bertWords u z v s)) := by
  obtain ⟨wc, hwc, hwf, hwords⟩ := pipeline_feeds h.pipeline h.added tree
  unfold train at htr
  rw [hwc] at htr
  simp only at htr
  cases htrn : wordPieceTrainer cfg order fuel specials w wc with
  | error e => rw [htrn] at htr; simp at htr
  | ok msp =>
    rw [htrn] at htr
    obtain ⟨m, sp⟩ := msp
    have hsp : sp = specials ∧ ∃ st w', Train.Reached cfg order wc st ∧ Train.trainWordPiece cfg st w = some w' ∧
        m = ofWordPiece w' := by
      unfold wordPieceTrainer at htrn
      split at htrn
      · rename_i st hst
        split at htrn
        · rename_i w' hw'
          cases htrn
          exact ⟨rfl, st, w', ⟨fuel, .inr hst⟩, hw', rfl⟩
        · cases htrn
      · cases htrn
    obtain ⟨rfl, st, w', hr, hw', rfl⟩ := hsp
    simp only [h.added, Prod.mk.injEq] at htr
    obtain ⟨rfl, -⟩ := htr
    have hview := trained_wordPieceView hr hw'
    obtain ⟨w1, g1, g2, -, g3, g4, g5⟩ := Train.C62_vocab hr w
    rw [hw'] at g1
    cases g1
    have hpre : w'.continuingPrefix = pre := by rw [g5, hp]; rfl
    have hraw : ∀ x ∈ tokensOf [Op.add norm sp], x ∈ sp := fun x hx => by simpa [tokensOf] using hx
    have hclean : Clean (tokensOf [Op.add norm sp]) (after build (wordPieceView w') empty [.add norm sp]) :=
      after_clean hview build _ (fun _ h => h) (.inr fun x hx => (hplain x (hraw x hx)).1) (inv_empty _)
        ⟨rfl, by simp [empty, AMap.get], by simp [empty]⟩
    have hunk' : ∃ x ∈ sp, x.content = w.unkToken := by
      rw [hc] at hunk
      obtain ⟨x, hx, e⟩ := List.mem_map.1 hunk
      exact ⟨x, hx, e⟩
    have hin : ∃ i, w'.vocab.get w'.unkToken = some i := by
      rw [g3]
      have hm : w.unkToken ∈ (Train.alphabetVoc cfg order wc).id2w := by
        rw [(Train.C41_first_tokens cfg order wc).1]
        exact firsts_mem (List.mem_append_left _ hunk)
      obtain ⟨i, hi⟩ := List.mem_iff_getElem?.1 hm
      have h0 := List.mem_of_getElem? ((Train.C41_first_tokens cfg order wc).2 i _ hi)
      obtain ⟨f, hf⟩ := hr
      obtain ⟨j, hj⟩ := List.mem_iff_getElem?.1 (Train.loop_grows f hf _ h0)
      exact ⟨j, (g2 _ _).2 hj⟩
    have hroom : Train.EnoughRoom cfg (wc.map (·.1)) := by
      intro n hn
      obtain ⟨l, l1, l2, l3⟩ := hl n hn
      refine ⟨l, l1, l2, fun y hy c hc => ?_⟩
      obtain ⟨p, hp, rfl⟩ := List.mem_map.1 hy
      obtain ⟨q, hq, hy⟩ := (hwords p.1).1 ⟨p.2, hp⟩
      exact l3 _ (List.mem_flatMap.2 ⟨q, hq, hy⟩) c hc
    have hcov : ∀ x ∈ bertWords u z v s, Writable w' x := by
      intro x hx
      obtain ⟨x1, x2⟩ := hseen x hx
      have hmem : ∀ y, y ∈ (tree.leaves.flatMap fun q => if q = [] then [] else bertWords u z v q) → ∃ n, (y, n) ∈ wc := by
        intro y hy
        rw [hwords]
        obtain ⟨q, hq, hy⟩ := List.mem_flatMap.1 hy
        exact ⟨q, hq, hy⟩
      have hcv : Train.Coverable wc x := by
        cases x with
        | nil => trivial
        | cons c cs =>
          obtain ⟨⟨y, hy, hc'⟩, h2⟩ := x2
          obtain ⟨n, hn⟩ := hmem y hy
          refine ⟨⟨(y, n), hn, hc'⟩, fun d hd => ?_⟩
          obtain ⟨y', hy', hd'⟩ := h2 d hd
          obtain ⟨n', hn'⟩ := hmem y' hy'
          exact ⟨(y', n'), hn', hd'⟩
      obtain ⟨ts, -, k⟩ := Train.C62_covers ho hroom hp hsuf hr hw' hcv x1
      exact ⟨by rw [g4]; exact x1, ts, k⟩
    classical
    have hfin := C70_bert (t := { t with
        model := (ofWordPiece w').model, view := wordPieceView w', vocab := w'.vocab,
        added := (empty.addTokens build (wordPieceView w') norm sp).1 }) (u := u) (z := z) (v := v) (w := w') (clean := clean)
      ⟨⟨⟨h.pipeline.normalizer, h.pipeline.preTok, h.pipeline.unicode, h.pipeline.safe, h.pipeline.sound,
          h.pipeline.anywhere, after_tries hview (automata_nonempty hb) [.add norm sp] (inv_empty _) (by simp [TriesOk, empty]),
          addTokens_encodeSpecial .., fun i x hx => by
            obtain ⟨-, k1, k2, k3, -⟩ := hplain x (hraw x (hclean.token i x hx))
            exact ⟨k1, k2, k3⟩⟩, fun _ => rfl, rfl, hview, by rw [hpre]; exact h.decoder⟩,
        h.space, by rw [hpre]; exact h.pre, hin, by
          obtain ⟨x, hx, e⟩ := hunk'
          rw [g3, hpre, ← e]
          obtain ⟨-, -, -, -, k1, k2⟩ := hplain x hx
          exact ⟨k1, k2, e ▸ hunkText⟩⟩
      (build := build) (ops := [.add norm sp]) rfl
      (fun x hx => by
        obtain ⟨k1, -, -, -, -, k2⟩ := hplain x (hraw x hx)
        exact ⟨k1, by rw [hpre]; exact k2⟩) hset (known := fun x => decide (Writable w' x)) (fun x => by simp) hs
      (fun x hx => hfree x (hraw x hx)) hskip
    obtain ⟨e, e1, e2⟩ := hfin
    refine ⟨e, e1, e2.trans ?_⟩
    congr 2
    have hall : ∀ l : List Str, (∀ x ∈ l, Writable w' x) → ∀ b, l.filterMap
        (givenBack w' (fun x => decide (Writable w' x)) b) = l := by
      intro l hl b
      induction l with
      | nil => rfl
      | cons x l ih =>
        have : givenBack w' (fun x => decide (Writable w' x)) b x = some x := by
          unfold givenBack
          rw [if_pos (by simpa using hl x (by simp))]
        rw [List.filterMap_cons, this, ih fun y hy => hl y (by simp [hy])]
    exact hall _ hcov _

/-- **C85.** In particular every text it was trained on, if none of its words is too long. -/
theorem C85_seen {t t' : Tokenizer} {u z v pre clean} (h : BertRecipe t u z v pre clean) {build : List (Str × Nat) → Bool}
    (hb : Save.Automata build) {norm : Norm} {tree : Train.Tree} {cfg : Train.BpeCfg} {order : AMap Char Nat → AMap Char Nat}
    {fuel : Nat} {specials : List AddedToken} {w : WordPiece}
    (htr : t.train build norm tree (wordPieceTrainer cfg order fuel specials w) = (t', .ok ()))
    (hc : cfg.specials = specials.map (·.content)) (ho : Train.IsOrder order)
    (hl : Train.EnoughRoom cfg (tree.leaves.flatMap fun q => if q = [] then [] else bertWords u z v q))
    (hp : cfg.pre = some pre) (hsuf : cfg.suf = none) (hunk : w.unkToken ∈ cfg.specials) (hunkText : Dec.Plain w.unkToken)
    (hplain : ∀ x ∈ specials, x.normalized = false ∧ x.lstrip = false ∧ x.rstrip = false ∧ x.singleWord = false ∧
      x.content ≠ [] ∧ ¬ pre <+: x.content) (hset : Surrounds t.settings (IsSpecialId t'.added))
    {s : Str} (hs : s ≠ []) (hin : s ∈ tree.leaves) (hlen : ∀ x ∈ bertWords u z v s, x.length ≤ w.maxInputChars)
    (hfree : ∀ x ∈ specials, ¬ x.content <:+: s ∧ ¬ x.content <:+: z.text u s)
    {add skip : Bool} (hskip : add = true → skip = true) :
    ∃ e, t'.encode (.raw s, none) add = .ok e ∧ t'.decode skip e.ids = some (glue (tightIf clean) (bertWords u z v s)) := by
  refine C85_trained h hb htr hc ho hl hp hsuf hunk hunkText hplain hset hs (fun x hx => ⟨hlen x hx, ?_⟩) hfree hskip
  have hx' : x ∈ tree.leaves.flatMap fun q => if q = [] then [] else bertWords u z v q :=
    List.mem_flatMap.2 ⟨s, hin, by rw [if_neg hs]; exact hx⟩
  cases x with
  | nil => trivial
  | cons c cs => exact ⟨⟨_, hx', by simp⟩, fun d hd => ⟨_, hx', hd⟩⟩

end Tokenizer
end Tok
