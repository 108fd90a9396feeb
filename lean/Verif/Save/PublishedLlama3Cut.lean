import Verif.Save.PublishedLlama3Samples
import Verif.Tokenizer.Windows

/-!
# C110, C111: pairs of texts and truncated texts with the file of a tokenizer like that of Llama 3
-/

namespace Tok

namespace Tokenizer
open AddedVocab ByteLevel

/-- What is extracted from a text without added tokens. -/
theorem readable_free {t : Tokenizer} {u : Unicode} {z : Normalizer} {v : CharTables} {l : List PreTokenizer} {r : Bool}
    {re : Str → List Range} {b : Bpe.Bpe} {coins : Str → Nat → Bool} (h : IsSplitBytes t u z v l r re b coins)
    {build : List (Str × Nat) → Bool} {ops : List Op} (hav : t.added = after build t.view AddedVocab.empty ops)
    (hraw : normsOf ops = [] ∨ ∀ x ∈ tokensOf ops, x.normalized = false)
    {C1 C2 : Str → List (Option Nat × Str)} (hC1 : Carves t.added.trie C1) (hC2 : Carves t.added.normTrie C2) (skip : Bool)
    {s : Str} (hs : s ≠ []) (hfree : ∀ x ∈ tokensOf ops, ¬ x.content <:+: s ∧ ¬ x.content <:+: z.text u s) :
    readable ops skip (extracted u z C1 C2 s) = z.text u s := by
  have hm := h.ok
  have hclean : Clean (tokensOf ops) t.added := by
    rw [hav]
    exact after_clean hm build ops (fun _ h => h) hraw (inv_empty _)
      ⟨rfl, by simp [AddedVocab.empty, AMap.get], by simp [AddedVocab.empty]⟩
  have hpat : ∀ p ∈ t.added.trie ++ t.added.normTrie, p.1 ≠ [] ∧ ¬ p.1 <:+: s ∧ ¬ p.1 <:+: z.text u s := by
    intro p hp
    obtain ⟨x, x1, x2⟩ := hclean.pattern p.1 p.2 hp
    exact ⟨(h.pipeline.tries p hp).1, x2 ▸ hfree x (hclean.token _ _ x1)⟩
  rw [extracted_none hC1 hC2 hs (fun p hp => ⟨(hpat p (by simp [hp])).1, (hpat p (by simp [hp])).2.1⟩)
    (fun p hp => ⟨(hpat p (by simp [hp])).1, (hpat p (by simp [hp])).2.2⟩)]
  unfold plainPart
  split
  · rename_i hz; rw [hz]; rfl
  · simp [readable]

end Tokenizer

namespace Save
open Json AddedVocab

theorem llama3Template_good (bos : Str) (id : Nat) : (llama3Template bos id).Good where
  known := by
    intro i ty hp
    have : i = bos := by
      have : i = bos ∧ ty = 0 ∨ i = bos ∧ ty = 1 := by simpa [llama3Template, Post.ofJson] using hp
      exact this.elim (·.1) (·.1)
    subst this
    exact ⟨⟨i, [id], [i]⟩, by simp [llama3Template, Post.ofJson, AMap.get]⟩
  single := ⟨rfl, rfl⟩
  pair := ⟨rfl, rfl⟩
  countSingle := rfl
  countPair := rfl

theorem llama3_counted (bos : Str) (id : Nat) :
    Post.Settings.WellCounted ⟨none, none, some (.sequence [.byteLevel true false, .template (llama3Template bos id)])⟩ := by
  intro p hp
  cases hp
  exact .sequence (before := [.byteLevel true false]) (after := []) (fun q hq => by
    rw [List.mem_singleton] at hq; subst hq; exact .byteLevel _ _) (.template (llama3Template_good _ _)) (by simp)

theorem llama3_inserted (bos : Str) (id : Nat) : Post.Settings.inserted
    ⟨none, none, some (.sequence [.byteLevel true false, .template (llama3Template bos id)])⟩ none true = 1 := by
  simp [Post.Settings.inserted, Post.Settings.added, llama3Template, Post.ofJson, Post.countAdded, Post.pieceAdded, Post.Proc.added,
    Post.addedAll, AMap.get]

/-- **C110, C111.** A file in the form of Llama 3's is loaded, and then: every pair of texts, encoded without special tokens, is decoded
to the first text followed by the second; so is a pair of texts without added tokens if the special tokens are put in front of both
and skipped. With truncation on the right every text is decoded to its first characters, and at most one U+FFFD behind them; with
truncation on the left to its last characters, and at most three U+FFFD in front of them; so are texts without added tokens if the
special token is put in front, and counted in the limit, and skipped. -/
theorem C111_llama3 (w : World) (hu : w.uni.Ok) (hre : ∀ p s, NS.EngineMatches s 0 (w.matches' p s))
    (hby : ∀ s, NS.EngineMatches s 0 (w.byteLevel s)) (e : Env) (skip' : Bool)
    {build : List (Str × Nat) → Bool} (hb : Automata build) {re : Str} (hc : e.compiles (.regex re) = true)
    {vocab : List (Str × Nat)} (hv : VocabOk vocab) (halpha : ∀ x : UInt8, [ByteLevel.byteChar x] ∈ vocab.map (·.1))
    {merges : List (Str × Str)} (hm : MergesOk vocab merges) (hl : LinesOk merges) (hsmall : vocab.length < 4294967296)
    {bos : AddedToken} (hbos : bos.special = true) (hne : bos.content ≠ [])
    {tokens : List (Nat × AddedToken)} (hi : ∀ x ∈ tokens, x.1 < 4294967296)
    (honce : ∀ x ∈ tokens, x.2.content = bos.content → x.2.special = true)
    (hraw : ∀ x ∈ (vocab.length, bos) :: tokens, x.2.normalized = false)
    (hplain : ∀ x ∈ (vocab.length, bos) :: tokens, x.2.lstrip = false ∧ x.2.rstrip = false ∧ x.2.singleWord = false)
    (hlit : ∀ x ∈ (vocab.length, bos) :: tokens, ByteLevel.Literal x.2.content)
    (hout : ∀ x ∈ (vocab.length, bos) :: tokens, x.2.content ∉ vocab.map (·.1)) :
    ∃ c, load e skip' build w.norm (llama3File re bos.content vocab.length vocab merges ((vocab.length, bos) :: tokens)) = .ok c ∧
      (∀ s s', ∃ enc, (w.tokenizer c).encode (.raw s, some (.raw s')) false = .ok enc ∧
        (w.tokenizer c).decode false enc.ids = some (s ++ s')) ∧
      (∀ s s', s ≠ [] → s' ≠ [] → (∀ x ∈ (vocab.length, bos) :: tokens, ¬ x.2.content <:+: s ∧ ¬ x.2.content <:+: s') →
        ∃ enc, (w.tokenizer c).encode (.raw s, some (.raw s')) true = .ok enc ∧
          (w.tokenizer c).decode true enc.ids = some (s ++ s')) ∧
      ∀ (tr : TruncParams) (s : Str) (add : Bool), tr.strategy ≠ .onlySecond → (if add then 1 else 0) + tr.stride < tr.maxLength →
        (add = true → s ≠ [] ∧ ∀ x ∈ (vocab.length, bos) :: tokens, ¬ x.2.content <:+: s) →
        ∃ enc d, ((w.tokenizer c).truncating tr).encode (.raw s, none) add = .ok enc ∧
          ((w.tokenizer c).truncating tr).decode add enc.ids = some d ∧
          (tr.direction = .right → ∃ k, k ≤ s.length ∧ (d = s.take k ∨ k < s.length ∧ d = s.take k ++ ['�'])) ∧
          (tr.direction = .left → ∃ j k, j ≤ 3 ∧ k ≤ s.length ∧ (j ≠ 0 → k ≠ 0) ∧ d = List.replicate j '�' ++ s.drop k) := by
  have hid : ∀ s : Str, (Normalizer.sequence []).text w.uni s = s := fun s => by simp [Normalizer.text, Normalizer.textAll]
  obtain ⟨c, b, h1, h2, h3, h4, h5, h7, hclean, hnone, hset, hsettings, hspecial⟩ :=
    llama3_loaded w hu hre hby e skip' hb hc hv halpha hm hl hsmall hbos hne hi honce hraw hplain hout
  have hT : ∀ x ∈ tokensOf [Op.add (w.norm none) (((vocab.length, bos) :: tokens).map (·.2))],
      ∃ y ∈ (vocab.length, bos) :: tokens, y.2 = x := by
    intro x hx
    simp only [tokensOf, List.append_nil] at hx
    exact List.mem_map.1 hx
  have hraw' : ∀ x ∈ tokensOf [Op.add (w.norm none) (((vocab.length, bos) :: tokens).map (·.2))], x.normalized = false := by
    intro x hx
    obtain ⟨y, hy, rfl⟩ := hT x hx
    exact hraw y hy
  have hlit' : ∀ x ∈ tokensOf [Op.add (w.norm none) (((vocab.length, bos) :: tokens).map (·.2))],
      ByteLevel.Literal x.content := by
    intro x hx
    obtain ⟨y, hy, rfl⟩ := hT x hx
    exact hlit y hy
  have hout' : ∀ x ∈ tokensOf [Op.add (w.norm none) (((vocab.length, bos) :: tokens).map (·.2))], x.special = true →
      b.vocab.get x.content = none := by
    intro x hx _
    obtain ⟨y, hy, rfl⟩ := hT x hx
    exact hnone y hy
  have hN : ∀ f ∈ normsOf [Op.add (w.norm none) (((vocab.length, bos) :: tokens).map (·.2))], ∀ s, f s ≠ none := by
    simp [normsOf, World.norm]
  have hwc : (w.tokenizer c).settings.WellCounted := hsettings ▸ llama3_counted _ _
  have hframes : Tokenizer.Frames (Tokenizer.IsSpecialId (w.tokenizer c).added) (w.tokenizer c).settings.processor := by
    rw [hsettings]
    refine .behind (.template (as := [.special bos.content 0]) (bs := [.special bos.content 1]) (cs := []) rfl fun p hp => ?_)
    have hp : p = .special bos.content 0 ∨ p = .special bos.content 1 := by simpa using hp
    have : ∃ ty, p = .special bos.content ty := hp.elim (fun h => ⟨_, h⟩) fun h => ⟨_, h⟩
    obtain ⟨ty, rfl⟩ := this
    refine ⟨_, ty, ⟨bos.content, [vocab.length], [bos.content]⟩, rfl, by simp [llama3Template, Post.ofJson, AMap.get], rfl,
      fun i hi => ?_⟩
    rw [List.mem_singleton] at hi
    rw [hi]
    exact hspecial
  refine ⟨c, h1, fun s s' => ?_, fun s s' hs hs' hfree => ?_, fun tr s add hst hroom hfree => ?_⟩
  · exact Tokenizer.C110_lossless h5 hid h7 (.inr hraw') hN hlit' hset hframes s s'
  · obtain ⟨C1, C2, hC1, hC2, he⟩ := Tokenizer.C110_text h5 h7 (.inr hraw') hN hlit' hset hframes
    obtain ⟨enc, e1, e2⟩ := he s s' true true (fun _ => rfl) fun _ => hout'
    refine ⟨enc, e1, ?_⟩
    rw [e2, Tokenizer.readable_free h5 h7 (.inr hraw') hC1 hC2 true hs, Tokenizer.readable_free h5 h7 (.inr hraw') hC1 hC2 true hs',
      hid, hid]
    all_goals
      intro x hx
      obtain ⟨y, hy, rfl⟩ := hT x hx
      rw [hid]
    · exact ⟨(hfree y hy).2, (hfree y hy).2⟩
    · exact ⟨(hfree y hy).1, (hfree y hy).1⟩
  · cases add with
    | false =>
      exact Tokenizer.C111_lossless h5 hid h7 (.inr hraw') hN hlit' hset hwc tr hst (by simpa using hroom) s
    | true =>
      obtain ⟨hs, hfree⟩ := hfree rfl
      have hins : (w.tokenizer c).settings.inserted none true = 1 := by rw [hsettings]; exact llama3_inserted _ _
      obtain ⟨x, e', T, d, x1, x2, e1, e2, e3, e4⟩ := Tokenizer.C111_text h5 h7 (.inr hraw') hN hlit' hset hwc tr hst s true true
        (.inl (by rw [hins]; simpa using hroom)) (fun h => h) (fun _ => hout')
      obtain ⟨y, y1, y2⟩ := Tokenizer.C108_normalized h5 h7 (.inr hraw') hN hlit' hset hs (fun x hx => by
        obtain ⟨y, hy, rfl⟩ := hT x hx
        rw [hid]
        exact ⟨hfree y hy, hfree y hy⟩) (add := false) (skip := true) (fun _ => rfl) (fun _ => hout')
      rw [x1] at y1
      cases y1
      rw [x2, hid] at y2
      cases y2
      exact ⟨e', d, e1, e2, e3, e4⟩

/-- Pairs of texts and truncated texts with the file of `PublishedLlama3Samples.lean`. -/
example : ∃ c, load anyEnv false buildStrict splitWorld.norm
      (llama3File "x".toList "<|begin|>".toList 258 Tokenizer.byteVocab [("h".toList, "e".toList)] ((258, bosToken) :: eosTokens)) = .ok c ∧
    (∀ s s', ∃ enc, (splitWorld.tokenizer c).encode (.raw s, some (.raw s')) false = .ok enc ∧
      (splitWorld.tokenizer c).decode false enc.ids = some (s ++ s')) ∧
    ∃ enc d, ((splitWorld.tokenizer c).truncating ⟨3, .longestFirst, 1, .right⟩).encode (.raw "héé".toList, none) true = .ok enc ∧
      ((splitWorld.tokenizer c).truncating ⟨3, .longestFirst, 1, .right⟩).decode true enc.ids = some d ∧
      ∃ k, k ≤ 3 ∧ (d = "héé".toList.take k ∨ k < 3 ∧ d = "héé".toList.take k ++ ['�']) := by
  obtain ⟨c, h1, h2, _, h3⟩ := C111_llama3 splitWorld Normalizer.sample_ok (fun _ => Tokenizer.byteRe_ok) Tokenizer.byteRe_ok anyEnv false
    buildStrict_ok (re := "x".toList) rfl byteVocab_ok byteVocab_alphabet (merges := [("h".toList, "e".toList)])
    ⟨by decide +kernel, by decide +kernel, by decide +kernel⟩ (by unfold LinesOk; decide +kernel) (by decide +kernel)
    (bos := bosToken) rfl (by decide) (tokens := eosTokens) (by decide) (by decide +kernel) (by decide +kernel) (by decide +kernel)
    (fun x hx => .inl (by revert x; decide +kernel)) (by decide +kernel)
  have hlen : Tokenizer.byteVocab.length = 258 := by decide +kernel
  rw [hlen] at h1
  obtain ⟨enc, d, e1, e2, e3, _⟩ := h3 ⟨3, .longestFirst, 1, .right⟩ "héé".toList true (by decide) (by decide)
    (fun _ => ⟨by decide +kernel, by decide +kernel⟩)
  exact ⟨c, h1, h2, enc, d, e1, e2, e3 rfl⟩

end Save
end Tok
