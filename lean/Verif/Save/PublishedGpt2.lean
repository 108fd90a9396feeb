import Verif.Save.PublishedBert
import Verif.Bpe.Strings
import Verif.Tokenizer.Apart
import Verif.Normalizers.Sources

/-!
# C73: the file of a tokenizer like GPT-2's, exactly
-/

namespace Tok.Save
open Json AddedVocab

/-- As `loadAdded_patterns`, for tokens looked for in the normalized text, if there is no normalizer. -/
theorem loadAdded_normalized {build : List (Str × Nat) → Bool} {m : ModelView} (hm : m.Ok)
    {l : List (Nat × AddedToken)} {av : AddedVocab} (h : loadAdded build m none l = some av)
    (ha : av = after build m empty [.add none (l.map (·.2))]) (hraw : ∀ x ∈ l, x.2.normalized = true)
    (hid : ∀ x ∈ l, x.2.content ≠ [] ∧ m.toId x.2.content = some x.1) :
    av.trie = [] ∧ ∀ p, p ∈ av.normTrie ↔ p ∈ l.map fun x => (x.2.content, x.1) := by
  obtain ⟨t1, t2⟩ := loadAdded_tries h
  have hinv : Inv m av := ha ▸ (after_inv hm build _ (inv_empty _)).1
  have hclean : Clean (l.map (·.2)) av := by
    rw [ha]
    exact after_clean hm build _ (fun t ht => by simpa [tokensOf] using ht) (.inl rfl) (inv_empty _)
      ⟨rfl, by simp [empty, AMap.get], by simp [empty]⟩
  have hfrom : ∀ p ∈ av.rmap, ∃ y ∈ l, y.2 = p.2 := fun p hp =>
    List.mem_map.1 (hclean.token p.1 p.2 (AMap.get_eq_some_of_mem hinv.wfr hp))
  have hcache : ∀ (i : Nat) (c : Str), (av.cache.get i).getD c = c := by
    intro i c; rw [hclean.cache]; rfl
  refine ⟨?_, ?_⟩
  · rw [t1, List.filter_eq_nil_iff.2, List.map_nil]
    intro p hp
    obtain ⟨y, hy, e⟩ := hfrom p hp
    rw [← e, hraw y hy]; simp
  · intro p
    rw [t2]
    simp only [hcache]
    constructor
    · intro hp
      obtain ⟨q, hq, rfl⟩ := List.mem_map.1 hp
      have hq := (List.mem_filter.1 hq).1
      obtain ⟨y, hy, e⟩ := hfrom q hq
      have hk := (hid y hy).2
      have hg : av.map.get q.2.content = some q.1 := (hinv.inverse _ _).2 ⟨q.2, AMap.get_eq_some_of_mem hinv.wfr hq, rfl⟩
      rw [e] at hk
      have : q.1 = y.1 := by
        rcases hinv.model _ _ hg with k | ⟨k, _⟩
        · rw [hk] at k; exact (Option.some.inj k).symm
        · rw [hk] at k; cases k
      refine List.mem_map.2 ⟨y, hy, ?_⟩
      rw [e, this]
    · intro hp
      obtain ⟨x, hx, rfl⟩ := List.mem_map.1 hp
      obtain ⟨i, g⟩ := addTokens_has (build := build) (m := m) empty (l.map (·.2)) (norm := none) (by
        intro t ht
        exact normalForm_none _) (List.mem_map.2 ⟨x, hx, rfl⟩) (hid x hx).1
      have g : av.map.get x.2.content = some i := by rw [ha]; exact g
      have hi : i = x.1 := by
        rcases hinv.model _ _ g with k | ⟨k, _⟩
        · rw [(hid x hx).2] at k; exact (Option.some.inj k).symm
        · rw [(hid x hx).2] at k; cases k
      obtain ⟨t, k1, k2⟩ := (hinv.inverse _ _).1 g
      rw [hi] at k1
      refine List.mem_map.2 ⟨(x.1, t), List.mem_filter.2 ⟨AMap.mem_of_get_eq_some k1, ?_⟩, by simp [k2]⟩
      obtain ⟨y, hy, e⟩ := hfrom (x.1, t) (AMap.mem_of_get_eq_some k1)
      have e : y.2 = t := e
      simp only
      rw [← e, hraw y hy]

/-- The units of a text: the tokens of the file, and between them the words, spelled with the characters of their bytes. -/
def gpt2Units (u : ReTables) (C : Str → List (Option Nat × Str)) (s : Str) : List (Option Nat × Str) :=
  (C s).flatMap fun x =>
    match x.1 with
    | some _ => [x]
    | none => (Re.words u x.2).map fun w => (none, ByteLevel.spell w)

/-- The tokens of a unit: a token of the file is itself, a word is what the merges of the file make of its characters, with
the ids of the vocabulary of the file. -/
def Gpt2Tokens (vocab : List (Str × Nat)) (merges : List (Str × Str)) (x : Option Nat × Str) (ts : List Token) : Prop :=
  match x.1 with
  | some id => ts = [⟨id, x.2, (0, blen x.2)⟩]
  | none => Bpe.Applied [] merges (x.2.map fun c => [c]) (ts.map (·.value)) ∧ ∀ t ∈ ts, (t.value, t.id) ∈ vocab

theorem letters_none : ∀ (first : Bool) (w : Str), Bpe.letters [] [] first w = w.map fun c => [c]
  | _, [] => rfl
  | first, c :: w => by
    rw [Bpe.letters, letters_none false w]
    simp

/-- The tokenizer of such a file as a pipeline. -/
theorem gpt2_pipeline (w : World) {u : ReTables} (hre : w.byteLevel = Re.findIter (Re.byteLevel u))
    {build : List (Str × Nat) → Bool} (hb : Automata build) {tokens : List (Nat × AddedToken)}
    (hplain : ∀ x ∈ tokens, x.2.lstrip = false ∧ x.2.rstrip = false ∧ x.2.singleWord = false) {b : Bpe.Bpe}
    (hok : (Tokenizer.bpeView b).Ok) {av : AddedVocab}
    (ha : av = after build (Tokenizer.bpeView b) empty [.add none (tokens.map (·.2))]) :
    Tokenizer.IsPipeline (w.tokenizer (gpt2Conf av b)) Normalizer.sample (.sequence []) w.tables
      (.byteLevel ⟨false, true⟩ (Re.findIter (Re.byteLevel u))) := by
  have hclean : Clean (tokens.map (·.2)) av := by
    rw [ha]
    exact after_clean hok build _ (fun t ht => by simpa [tokensOf] using ht) (.inl rfl) (inv_empty _)
      ⟨rfl, by simp [empty, AMap.get], by simp [empty]⟩
  exact
    { normalizer := rfl
      preTok := by rw [← hre]; rfl
      unicode := Normalizer.sample_ok
      safe := trivial
      sound := fun s => Re.C71_engine _ s
      anywhere := trivial
      tries := by
        show TriesOk av
        rw [ha]
        exact after_tries hok (fun l hl p hp =>
          ((hb l (by intro h; rw [h] at hp; cases hp)).1 hl).2 p hp) _ (inv_empty _) (by simp [TriesOk, empty])
      bare := by
        refine ⟨?_, fun i t h => ?_⟩
        · show av.encodeSpecial = false
          rw [ha]
          exact addTokens_encodeSpecial empty _
        · obtain ⟨y, hy, rfl⟩ := List.mem_map.1 (hclean.token i t h)
          exact hplain y hy }

theorem spell_ne {w : Str} (h : w ≠ []) : ByteLevel.spell w ≠ [] := by
  obtain ⟨c, w, rfl⟩ := List.exists_cons_of_ne_nil h
  rw [← ByteLevel.spell_eq_flatMap, List.flatMap_cons]
  intro e
  have := congrArg List.length (List.append_eq_nil_iff.1 e).1
  rw [List.length_map, String.length_utf8EncodeChar] at this
  have := c.utf8Size_pos
  simp at *

theorem byteLevel_cut (v : CharTables) {u : ReTables} (hu : u.Ok) (first : Bool) (s : Str) :
    (PreTokenizer.cut v first (.byteLevel ⟨false, true⟩ (Re.findIter (Re.byteLevel u))) s).filter (· ≠ []) =
      (Re.words u s).map ByteLevel.spell := by
  rw [PreTokenizer.cut]
  simp only [ByteLevel.withSpace, Bool.false_eq_true, if_false, if_true, false_and]
  rw [Re.C71_cut hu]
  rw [List.filter_eq_self.2]
  · simp
  · intro x hx
    simp only [List.map_map, List.mem_map, Function.comp] at hx
    obtain ⟨y, hy, rfl⟩ := hx
    simp only [ne_eq, decide_not, Bool.not_eq_eq_eq_not, Bool.not_true, decide_eq_false_iff_not]
    exact spell_ne ((Re.C71_words u s).2 y hy).1

/-- The text cut at the patterns, if there is no normalizer and all patterns are looked for before or all after it. -/
theorem extracted_same {U : Unicode} {pats t1 t2 : List (Str × Nat)} {C1 C2 : Str → List (Option Nat × Str)}
    (h1 : Tokenizer.Carves t1 C1) (h2 : Tokenizer.Carves t2 C2) (hne : ∀ p ∈ pats, p.1 ≠ [])
    (h : (t1 = [] ∧ ∀ p, p ∈ t2 ↔ p ∈ pats) ∨ (t2 = [] ∧ ∀ p, p ∈ t1 ↔ p ∈ pats)) :
    ∃ C, Tokenizer.Carves pats C ∧ ∀ s, Tokenizer.extracted U (.sequence []) C1 C2 s = C s := by
  have htext : ∀ s, Normalizer.text U (.sequence []) s = s := fun s => by rw [Normalizer.text, Normalizer.textAll]
  rcases h with ⟨rfl, hp⟩ | ⟨rfl, hp⟩
  · refine ⟨C2, fun s => carved_congr hp (h2 s), fun s => ?_⟩
    unfold Tokenizer.extracted
    rw [carved_none (h1 s)]
    unfold plainPart
    split
    · rename_i hs
      subst hs
      have := carved_congr hp (h2 [])
      generalize C2 [] = ps at this
      have ht := this.text
      have hs := this.solid hne
      cases ps with
      | nil => rfl
      | cons x ps =>
        rw [List.flatMap_cons] at ht
        exact absurd (List.append_eq_nil_iff.1 ht).1 (hs x (by simp))
    · simp [htext]
  · refine ⟨C1, fun s => carved_congr hp (h1 s), fun s => ?_⟩
    unfold Tokenizer.extracted
    have hs := (carved_congr hp (h1 s)).solid hne
    generalize C1 s = ps at hs
    induction ps with
    | nil => rfl
    | cons x ps ih =>
      rw [List.flatMap_cons, ih (fun y hy => hs y (List.mem_cons_of_mem _ hy))]
      obtain ⟨tag, x⟩ := x
      have hx : x ≠ [] := hs _ List.mem_cons_self
      cases tag with
      | some i => rfl
      | none =>
        simp only [htext]
        rw [carved_none (h2 x), plainPart, if_neg hx]; rfl

/-- **C73.** A file in the form of GPT-2's is loaded, and the tokenizer does what the file says. The text is cut at the
tokens of the file, which have the ids of the file; what is between them is cut into words (C71), every word is spelled with
the characters of its bytes, and the merges of the file are applied to these, the pair that comes first in the file first.
The tokens have the ids of the vocabulary of the file. Nothing fails and nothing is added; the second text of a pair follows, with type 1. -/
theorem C73_gpt2 (w : World) {u : ReTables} (hu : u.Ok) (hre : w.byteLevel = Re.findIter (Re.byteLevel u)) (e : Env)
    (skip : Bool) {build : List (Str × Nat) → Bool} (hb : Automata build)
    {vocab : List (Str × Nat)} (hv : VocabOk vocab) (halpha : ∀ x : UInt8, [ByteLevel.byteChar x] ∈ vocab.map (·.1))
    {merges : List (Str × Str)} (hm : MergesOk vocab merges) (hl : LinesOk merges)
    {tokens : List (Nat × AddedToken)}
    (hplain : ∀ x ∈ tokens, x.2.lstrip = false ∧ x.2.rstrip = false ∧ x.2.singleWord = false)
    (hsame : ∃ n, ∀ x ∈ tokens, x.2.normalized = n)
    (hid : ∀ x ∈ tokens, x.2.content ≠ [] ∧ (x.2.content, x.1) ∈ vocab) :
    ∃ c, load e skip build w.norm (gpt2File vocab merges tokens) = .ok c ∧
      ∃ C, Tokenizer.Carves (tokens.map fun x => (x.2.content, x.1)) C ∧ ∀ a,
        ∃ A, Tokenizer.Each (Gpt2Tokens vocab merges) (gpt2Units u C a) A ∧
          (∀ add, ∃ enc, (w.tokenizer c).encode (.raw a, none) add = .ok enc ∧
            enc.rows.map Tokenizer.Row.bare = Tokenizer.unitRows 0 none A) ∧
          ∀ b, ∃ B, Tokenizer.Each (Gpt2Tokens vocab merges) (gpt2Units u C b) B ∧
            ∀ add, ∃ enc, (w.tokenizer c).encode (.raw a, some (.raw b)) add = .ok enc ∧
              enc.rows.map Tokenizer.Row.bare = Tokenizer.unitRows 0 none A ++ Tokenizer.unitRows 1 none B := by
  obtain ⟨b, av, h0, h1, h2, h3, h4, h5, hids, hok, a1, a2⟩ := gpt2File_loaded w e skip hb hv hm hl
    (fun x hx => Nat.lt_of_lt_of_le (hv.below _ (hid x hx).2) hv.small)
  refine ⟨gpt2Conf av b, h0, ?_⟩
  have hpipe := gpt2_pipeline w hre hb hplain hok a2
  obtain ⟨C1, C2, hC1, hC2, he⟩ := Tokenizer.C58_encode hpipe
  have hget : ∀ t i, b.vocab.get t = some i ↔ (t, i) ∈ vocab := by
    intro t i
    rw [h2]
    exact readVocab_get hv.tokens t i
  have hto : ∀ x ∈ tokens, x.2.content ≠ [] ∧ (Tokenizer.bpeView b).toId x.2.content = some x.1 := fun x hx =>
    ⟨(hid x hx).1, (hget _ _).2 (hid x hx).2⟩
  have hpat : (av.trie = [] ∧ ∀ p, p ∈ av.normTrie ↔ p ∈ tokens.map fun x => (x.2.content, x.1)) ∨
      (av.normTrie = [] ∧ ∀ p, p ∈ av.trie ↔ p ∈ tokens.map fun x => (x.2.content, x.1)) := by
    obtain ⟨n, hn⟩ := hsame
    cases n with
    | true => exact .inl (loadAdded_normalized hok a1 a2 hn hto)
    | false => exact .inr (loadAdded_patterns hok a1 a2 hn hto)
  have hne : ∀ p ∈ tokens.map fun x => (x.2.content, x.1), p.1 ≠ [] := by
    intro p hp
    obtain ⟨x, hx, rfl⟩ := List.mem_map.1 hp
    exact (hid x hx).1
  obtain ⟨C, hC, hex⟩ := extracted_same (U := Normalizer.sample) hC1 hC2 hne hpat
  have hunits : ∀ s, Tokenizer.units w.tables (.byteLevel ⟨false, true⟩ (Re.findIter (Re.byteLevel u)))
      (Tokenizer.extracted Normalizer.sample (.sequence []) C1 C2 s) = gpt2Units u C s := by
    intro s
    rw [hex, Tokenizer.units, gpt2Units]
    congr 1
    funext x
    cases x.1 with
    | some _ => rfl
    | none => simp only [byteLevel_cut w.tables hu, List.map_map]; rfl
  have hmodel : ∀ x, x ≠ [] → (∀ c ∈ x, ∃ y, c = ByteLevel.byteChar y) → ∃ ts, (w.tokenizer (gpt2Conf av b)).model x = .ok ts ∧
      Gpt2Tokens vocab merges (none, x) ts := by
    intro x hx hc
    obtain ⟨ts, t1, t2, t3⟩ := Bpe.C73_merge_list (vocab := readVocab vocab) (merges := merges)
      (cfg := ⟨[], [], [], false, none, some [], some [], false, false, false⟩) (b := b) h1 (readVocab_wf _) (readVocab_distinct hv)
      ⟨fun m hmm => ⟨m.2, rfl, (hm.right m hmm).1⟩, fun m hmm => (by
        show Bpe.strip [] m.1 ≠ []
        simpa [Bpe.strip] using (hm.left m hmm).1), fun _ _ _ _ _ => List.nil_prefix⟩ hx (w.coins x) rfl (by intro h; cases h)
      (by
        intro g hg
        simp only [Option.getD_some] at hg
        rw [letters_none] at hg
        obtain ⟨c, hc', rfl⟩ := List.mem_map.1 hg
        obtain ⟨y, hy⟩ := hc c hc'
        obtain ⟨p, hp, e⟩ := List.mem_map.1 (halpha y)
        rw [← hy] at e
        exact ⟨p.2, (readVocab_get hv.tokens _ _).2 (by rw [← e]; exact hp)⟩)
    simp only [Option.getD_some, letters_none] at t2
    refine ⟨ts, ?_, t2, fun t ht => (readVocab_get hv.tokens _ _).1 (t3 t ht)⟩
    show Tokenizer.bpeResult _ = _
    rw [t1]; rfl
  have hall : ∀ us : List (Option Nat × Str), (∀ x ∈ us, x.1 = none → x.2 ≠ [] ∧ ∀ c ∈ x.2, ∃ y, c = ByteLevel.byteChar y) →
      ∃ tss, us.mapM (Tokenizer.unitTokens (w.tokenizer (gpt2Conf av b)).model) = .ok tss ∧
        Tokenizer.Each (Gpt2Tokens vocab merges) us tss := by
    intro us
    induction us with
    | nil => intro _; exact ⟨[], rfl, trivial⟩
    | cons x us ih =>
      intro hx
      obtain ⟨tss, k1, k2⟩ := ih fun y hy => hx y (List.mem_cons_of_mem _ hy)
      have : ∃ ts, Tokenizer.unitTokens (w.tokenizer (gpt2Conf av b)).model x = .ok ts ∧ Gpt2Tokens vocab merges x ts := by
        obtain ⟨tag, x⟩ := x
        cases tag with
        | some i => exact ⟨_, rfl, rfl⟩
        | none =>
          obtain ⟨g1, g2⟩ := hx _ List.mem_cons_self rfl
          exact hmodel x g1 g2
      obtain ⟨ts, g1, g2⟩ := this
      exact ⟨ts :: tss, by rw [List.mapM_cons, g1, k1]; rfl, g2, k2⟩
  have one : ∀ (a : Str) (k : Nat), ∃ A, Tokenizer.Each (Gpt2Tokens vocab merges) (gpt2Units u C a) A ∧
      ∃ e, (w.tokenizer (gpt2Conf av b)).encodeSequence k .byte (.raw a) = .ok e ∧ e.WF ∧
        e.rows.map Tokenizer.Row.bare = Tokenizer.unitRows k none A := by
    intro a k
    obtain ⟨tss, k1, k2⟩ := hall (gpt2Units u C a) (by
      intro x hx hn
      obtain ⟨p, _, hp⟩ := List.mem_flatMap.1 hx
      obtain ⟨tag, q⟩ := p
      cases tag with
      | some i =>
        rw [List.mem_singleton] at hp
        subst hp; cases hn
      | none =>
        obtain ⟨v, hv, rfl⟩ := List.mem_map.1 hp
        refine ⟨spell_ne ((Re.C71_words u q).2 v hv).1, fun c hc => ?_⟩
        obtain ⟨y, _, hy⟩ := List.mem_map.1 hc
        exact ⟨y, hy.symm⟩)
    have := he a k .byte none (by simp)
    rw [hunits, k1] at this
    obtain ⟨enc, e1, e2, e3⟩ := this
    have e1' : (w.tokenizer (gpt2Conf av b)).encodeSequence k .byte (.raw a) = .ok enc := e1
    exact ⟨tss, k2, enc, e1', (Tokenizer.encodeSequence_wf (lim := none) (i := .raw a) e1' rfl).1, e3⟩
  refine ⟨C, hC, fun s => ?_⟩
  obtain ⟨A, k1, x, k2, k3, k4⟩ := one s 0
  refine ⟨A, k1, fun add => ?_, fun s' => ?_⟩
  · refine ⟨Encoding.merge [(Post.prepare 0 x).setSequenceId 0] false, ?_, ?_⟩
    · show ((w.tokenizer (gpt2Conf av b)).encodeSequence 0 .byte (.raw s)).bind _ = _
      rw [k2]; rfl
    · rw [C05_merge_list (by simpa using Post.setSequenceId_wf (Post.prepare_wf k3 0) 0)]
      simp only [List.map_cons, List.map_nil, List.flatten_cons, List.flatten_nil, List.append_nil]
      rw [show ((Post.prepare 0 x).setSequenceId 0).rows = (Post.prepare 0 x).rows by cases x; rfl, Post.prepare_rows k3.parallel]
      exact Tokenizer.bare_retype 0 k4
  · obtain ⟨B, j1, y, j2, j3, j4⟩ := one s' 1
    refine ⟨B, j1, fun add => ⟨Encoding.merge [(Post.prepare 0 x).setSequenceId 0, (Post.prepare 1 y).setSequenceId 1] false, ?_, ?_⟩⟩
    · show ((w.tokenizer (gpt2Conf av b)).encodeSequence 0 .byte (.raw s)).bind _ = _
      rw [k2]
      show (((w.tokenizer (gpt2Conf av b)).encodeSequence 1 .byte (.raw s')).map some).bind _ = _
      rw [j2]; rfl
    · rw [C05_merge_list (by
        intro e he
        rcases List.mem_cons.1 he with rfl | he
        · exact Post.setSequenceId_wf (Post.prepare_wf k3 0) 0
        · rw [List.mem_singleton] at he; subst he
          exact Post.setSequenceId_wf (Post.prepare_wf j3 1) 1)]
      simp only [List.map_cons, List.map_nil, List.flatten_cons, List.flatten_nil, List.append_nil, List.map_append]
      rw [show ((Post.prepare 0 x).setSequenceId 0).rows = (Post.prepare 0 x).rows by cases x; rfl, Post.prepare_rows k3.parallel,
        show ((Post.prepare 1 y).setSequenceId 1).rows = (Post.prepare 1 y).rows by cases y; rfl, Post.prepare_rows j3.parallel,
        Tokenizer.bare_retype 0 k4, Tokenizer.bare_retype 1 j4]

/-- **C73.** The file says one thing: the vocabulary and the merges determine the tokens of a unit. -/
theorem C73_determined {vocab : List (Str × Nat)} (hv : VocabOk vocab) {merges : List (Str × Str)} {x : Option Nat × Str}
    {ts ts' : List Token} (h : Gpt2Tokens vocab merges x ts) (h' : Gpt2Tokens vocab merges x ts') :
    ts.map (fun t => (t.id, t.value)) = ts'.map fun t => (t.id, t.value) := by
  obtain ⟨tag, x⟩ := x
  cases tag with
  | some i =>
    have h : ts = _ := h
    have h' : ts' = _ := h'
    rw [h, h']
  | none =>
    obtain ⟨h1, h2⟩ := h
    obtain ⟨k1, k2⟩ := h'
    have e := Bpe.C73_unique h1 k1
    clear h1 k1
    induction ts generalizing ts' with
    | nil =>
      cases ts' with
      | nil => rfl
      | cons y ts' => cases e
    | cons t ts ih =>
      cases ts' with
      | nil => cases e
      | cons y ts' =>
        simp only [List.map_cons, List.cons.injEq] at e ⊢
        have := nodup_inj (·.1) hv.tokens _ (h2 t (by simp)) _ (k2 y (by simp)) e.1
        exact ⟨by rw [Prod.mk.injEq] at this ⊢; exact ⟨this.2, this.1⟩,
          ih (fun t ht => h2 t (List.mem_cons_of_mem _ ht)) (fun t ht => k2 t (List.mem_cons_of_mem _ ht)) e.2⟩

/-- **C73, C72.** With such a file a text may be encoded in two parts, cut before a space that follows no space, if none of
its tokens is in the text. -/
theorem C73_two_parts (w : World) {u : ReTables} (hu : u.Ok) (hre : w.byteLevel = Re.findIter (Re.byteLevel u)) (e : Env)
    (skip : Bool) {build : List (Str × Nat) → Bool} (hb : Automata build)
    {vocab : List (Str × Nat)} (hv : VocabOk vocab) (halpha : ∀ x : UInt8, [ByteLevel.byteChar x] ∈ vocab.map (·.1))
    {merges : List (Str × Str)} (hm : MergesOk vocab merges) (hl : LinesOk merges)
    {tokens : List (Nat × AddedToken)}
    (hplain : ∀ x ∈ tokens, x.2.lstrip = false ∧ x.2.rstrip = false ∧ x.2.singleWord = false)
    (hsame : ∃ n, ∀ x ∈ tokens, x.2.normalized = n)
    (hid : ∀ x ∈ tokens, x.2.content ≠ [] ∧ (x.2.content, x.1) ∈ vocab) :
    ∃ c, load e skip build w.norm (gpt2File vocab merges tokens) = .ok c ∧
      ∀ a b, a ≠ [] → b ≠ [] → Re.SolidEnd u a → Re.SpaceStart u b → (∀ x ∈ tokens, ¬ x.2.content <:+: a ++ b) →
        ∃ x y z, (w.tokenizer c).encode (.raw a, none) false = .ok x ∧ (w.tokenizer c).encode (.raw b, none) false = .ok y ∧
          (w.tokenizer c).encode (.raw (a ++ b), none) false = .ok z ∧ z.ids = x.ids ++ y.ids := by
  obtain ⟨c, hc, C, _, henc⟩ := C73_gpt2 w hu hre e skip hb hv halpha hm hl hplain hsame hid
  refine ⟨c, hc, fun p q hp hq hsp hsq hno => ?_⟩
  obtain ⟨b, av, h0, h1, h2, h3, h4, h5, hids, hok, a1, a2⟩ := gpt2File_loaded w e skip hb hv hm hl
    (fun x hx => Nat.lt_of_lt_of_le (hv.below _ (hid x hx).2) hv.small)
  rw [h0] at hc
  cases hc
  have hpipe := gpt2_pipeline w hre hb hplain hok a2
  have hto : ∀ x ∈ tokens, x.2.content ≠ [] ∧ (Tokenizer.bpeView b).toId x.2.content = some x.1 := fun x hx => by
    refine ⟨(hid x hx).1, ?_⟩
    show b.vocab.get _ = _
    rw [h2]
    exact (readVocab_get hv.tokens _ _).2 (hid x hx).2
  have hpat : (av.trie = [] ∧ ∀ p, p ∈ av.normTrie ↔ p ∈ tokens.map fun x => (x.2.content, x.1)) ∨
      (av.normTrie = [] ∧ ∀ p, p ∈ av.trie ↔ p ∈ tokens.map fun x => (x.2.content, x.1)) := by
    obtain ⟨n, hn⟩ := hsame
    cases n with
    | true => exact .inl (loadAdded_normalized hok a1 a2 hn hto)
    | false => exact .inr (loadAdded_patterns hok a1 a2 hn hto)
  have htext : ∀ s, Normalizer.text Normalizer.sample (.sequence []) s = s := fun s => by
    rw [Normalizer.text, Normalizer.textAll]
  have hno' : ∀ x ∈ tokens.map (fun x => (x.2.content, x.1)), ¬ x.1 <:+: p ++ q := by
    intro x hx
    obtain ⟨y, hy, rfl⟩ := List.mem_map.1 hx
    exact hno y hy
  obtain ⟨k1, _⟩ := Tokenizer.C72_apart hpipe ⟨rfl, rfl, .inl (.inr ⟨_, _, rfl⟩)⟩ hp hq (Tokenizer.C72_normalizers _ p q).1
    (by rw [htext, htext]; exact PreTokenizer.C72_byteLevel _ hu hsp hsq)
    (fun x hx => by
      have hx : x ∈ av.trie := hx
      rcases hpat with ⟨g, _⟩ | ⟨_, g⟩
      · rw [g] at hx; cases hx
      · exact hno' x ((g x).1 hx))
    (fun x hx => by
      have hx : x ∈ av.normTrie := hx
      rw [htext]
      rcases hpat with ⟨_, g⟩ | ⟨g, _⟩
      · exact hno' x ((g x).1 hx)
      · rw [g] at hx; cases hx)
  obtain ⟨_, _, hx, _⟩ := henc p
  obtain ⟨x, hx, _⟩ := hx false
  obtain ⟨_, _, hy, _⟩ := henc q
  obtain ⟨y, hy, _⟩ := hy false
  obtain ⟨z, hz, hi⟩ := k1 x y hx hy
  exact ⟨x, y, z, hx, hy, hz, hi⟩

end Tok.Save
