import Verif.Codec.StreamFallback
import Verif.Save.PublishedLlama
import Verif.Tokenizer.LlamaSamples

/-!
# C77: streaming an encoded text gives back the text

`DecodeStream` (`tokenizer/mod.rs:1052-1172`) on top of `TokenizerImpl::decode` (`tokenizer/mod.rs:935-953`), the ids being
those of an encoding.
-/

namespace Tok.Stream
open Bpe Dec

/-! ## Specification -/

/-- Streaming `ids` gives `text`: however they are cut in steps, and whether or not all of them are given, no step fails,
every step gives nothing or a text that is not empty and does not end in the replacement character, and these put together
are the beginning of `text`. When all ids were given, they are all of `text`, exactly if it does not itself end in the
replacement character. -/
def Streams (decode : List Nat → Option Str) (ids : List Nat) (text : Str) : Prop :=
  ∀ steps : List (List Nat), steps.flatten <+: ids → ∃ st outs, run decode State.init steps = .ok (st, outs) ∧
    outs.length = steps.length ∧ (∀ c, some c ∈ outs → c ≠ [] ∧ c.getLast? ≠ some '�') ∧
    (outs.filterMap id).flatten <+: text ∧
    (steps.flatten = ids → ((outs.filterMap id).flatten = text ↔ text.getLast? ≠ some '�'))

/-! ## Proofs -/

theorem complete_flatten : ∀ {l : List Str}, (∀ c ∈ l, c ≠ [] ∧ complete c) → complete l.flatten
  | [], _ => by simp [complete]
  | c :: l, h => by
    rw [List.flatten_cons]
    by_cases hl : l.flatten = []
    · rw [hl, List.append_nil]; exact (h c (by simp)).2
    · rw [complete_append hl]; exact complete_flatten fun d hd => h d (by simp [hd])

theorem streams_on {D : List Str → Str} {tok : Nat → Option Str} {ids : List Nat} (hS : StableOn D (ids.filterMap tok)) :
    Streams (through tok D) ids (D (ids.filterMap tok)) := by
  intro steps hs
  have hT : steps.flatten.filterMap tok <+: ids.filterMap tok := by
    obtain ⟨q, rfl⟩ := hs
    rw [List.filterMap_append]; exact List.prefix_append _ _
  obtain ⟨st, outs, h1, h2, h3, h4, h5⟩ := stream_on hS tok steps hT
  refine ⟨st, outs, h1, h2, h5, h3, fun he => ⟨fun h => ?_, fun h => h4 (by rw [he]) h⟩⟩
  rw [← h]
  refine complete_flatten fun c hc => h5 c ?_
  obtain ⟨o, ho, hoc⟩ := List.mem_filterMap.1 hc
  simp only [id] at hoc
  exact hoc ▸ ho

theorem StableOn.comp {D : List Str → Str} (f : Str → Str) {T : List Str} (h : StableOn D (T.map f)) :
    StableOn (fun ts => D (ts.map f)) T := by
  refine ⟨h.nil, fun p hp hc => h.front _ (hp.map f) hc, fun r b c hT hrb hr hb hbc => ?_⟩
  have := h.extend (r.map f) (b.map f) (c.map f) (by simpa using hT.map f)
    (fun hb => by rw [List.map_eq_nil_iff] at hb ⊢; exact hrb hb) hr (by simpa using hb)
    (by
      rcases hbc with hbc | hbc
      · exact .inl (by simpa using hbc)
      · exact .inr (by rw [← hbc]; simp))
  simpa using this

/-- Tokens are decoded one by one, or as bytes. -/
def Simple (d : Option Dec.Decoder) : Prop :=
  d = none ∨ d = some .byteLevel ∨ d = some .fuse ∨ (∃ r scheme, d = some (.metaspace r scheme)) ∨
    ∃ pre clean, d = some (.wordPiece pre clean)

theorem simple_stable (oc : Bool) {d : Option Dec.Decoder} (h : Simple d) : ∃ D, Stable D ∧
    ∀ m av skip, AddedVocab.decode oc m av d skip = through
      (fun id => ((av.simpleIdToToken id).or (m.toToken id)).filter fun t => !skip || !av.specials.contains t) D := by
  have key : ∀ d', d = some d' → (∃ D, Stable D ∧ ∀ ts, d'.decode oc ts = some (D ts)) → ∃ D, Stable D ∧
    ∀ m av skip, AddedVocab.decode oc m av d skip = through
      (fun id => ((av.simpleIdToToken id).or (m.toToken id)).filter fun t => !skip || !av.specials.contains t) D := by
    rintro d' rfl ⟨D, h1, h2⟩
    exact ⟨D, h1, fun m av skip => funext fun ids => h2 _⟩
  rcases h with rfl | rfl | rfl | ⟨r, s, rfl⟩ | ⟨p, c, rfl⟩
  · exact ⟨_, decode_none, fun m av skip => rfl⟩
  · exact key _ rfl (decode_byteLevel oc)
  · exact key _ rfl (decode_fuse oc)
  · exact key _ rfl (decode_metaspace oc r s)
  · exact key _ rfl (decode_wordPiece oc p c)

/-- **C77.** With such a decoder, whatever the tokenizer, its added tokens and the ids: streaming them gives what decoding them
at once gives. -/
theorem C77_simple (t : Tokenizer) (h : Simple t.decoder) (skip : Bool) (ids : List Nat) :
    ∃ text, t.decode skip ids = some text ∧ Streams (t.decode skip) ids text := by
  obtain ⟨D, hS, hD⟩ := simple_stable t.checked h
  have e : t.decode skip = _ := hD t.view t.added skip
  rw [e]
  exact ⟨_, rfl, streams_on (hS.on _)⟩

/-- **C77.** What a tokenizer with such a decoder decodes to a text, it streams to the text. -/
theorem C77_decoded {t : Tokenizer} (h : Simple t.decoder) {skip : Bool} {ids : List Nat} {s : Str}
    (hs : t.decode skip ids = some s) : Streams (t.decode skip) ids s := by
  obtain ⟨text, h1, h2⟩ := C77_simple t h skip ids
  rw [hs] at h1
  cases h1
  exact h2

open AddedVocab in
/-- **C77.** Byte-level BPE: every text is encoded without error, and streaming the ids gives it back. -/
theorem C77_byteLevel {t : Tokenizer} {b : Bpe.Bpe} {re : Str → List Range} {u : Bool} {coins : Str → Nat → Bool}
    (h : Tokenizer.IsByteBpe t b re u coins) (hre : ∀ s, NS.EngineMatches s 0 (re s))
    {build : List (Str × Nat) → Bool} (hb : ∀ l, build l = true → ∀ p ∈ l, p.1 ≠ []) {ops : List Op}
    (hav : t.added = after build (Tokenizer.bpeView b) empty ops) (hnorm : normsOf ops = [])
    (hstrip : ∀ x ∈ tokensOf ops, x.lstrip = false ∧ x.rstrip = false)
    (hlit : ∀ x ∈ tokensOf ops, ByteLevel.Literal x.content)
    (hs : Tokenizer.Untouched t.settings) (s : Str) (add : Bool) :
    ∃ e, t.encode (.raw s, none) add = .ok e ∧ Streams (t.decode false) e.ids s := by
  obtain ⟨e, h1, h2⟩ := Tokenizer.C44_lossless h hre hb hav hnorm hstrip hlit hs s add
  exact ⟨e, h1, C77_decoded (by rw [h.decoder]; exact .inr (.inl rfl)) h2⟩

theorem stripOne_space (s : Str) : stripOne ' ' 1 0 s = some (stripSpace s) := by
  cases s with
  | nil => rfl
  | cons c s =>
    by_cases hc : c = ' '
    · subst hc
      simp [stripOne, startCut, stopCut, stripSpace]
    · have : stripSpace (c :: s) = c :: s := by
        unfold stripSpace; split
        · rename_i h; simp at h; exact absurd h.1 hc
        · rfl
      rw [this]
      simp [stripOne, startCut, stopCut, hc]

/-- The decoder of Llama as a function of the tokens: it never fails. -/
theorem llamaDecoder_eq (oc : Bool) (ts : List Str) :
    Tokenizer.llamaDecoder.decode oc ts = some (stripSpace (fallbackText (ts.map (Metaspace.unsub '▁')))) := by
  obtain ⟨out, ho, _⟩ := C30_byte_fallback (ts.map (Metaspace.unsub '▁'))
  simp only [Tokenizer.llamaDecoder, Decoder.decode, Decoder.decodeChain, Decoder.decodeSeq]
  rw [replace_char]
  simp only
  rw [show (fun t : Str => t.map fun x => if x = '▁' then ' ' else x) = Metaspace.unsub '▁' from rfl, ho]
  simp [fuse, Dec.strip, stripOne_space, fallbackText, ho]

open AddedVocab Metaspace in
/-- **C77.** A tokenizer like Llama's: every text in which no added token occurs is encoded without error, and streaming the
ids gives it back, `▁` becoming a space. Although byte fallback fails on other ids. -/
theorem C77_llama {t : Tokenizer} {u v b coins} (h : Tokenizer.IsLlama t u v b coins)
    {build : List (Str × Nat) → Bool} {ops : List Op} (hav : t.added = after build (Tokenizer.bpeView b) empty ops)
    (hraw : ∀ x ∈ tokensOf ops, x.normalized = false) (hbyte : ∀ x ∈ tokensOf ops, ∀ y, x.content ≠ byteToken y)
    (hset : Tokenizer.Surrounds t.settings (Tokenizer.IsSpecialId t.added)) {s : Str}
    (hfree : ∀ x ∈ tokensOf ops, ¬ x.content <:+: s ∧ ¬ x.content <:+: '▁' :: sub '▁' s)
    {add skip : Bool} (hskip : add = true → skip = true) :
    ∃ e, t.encode (.raw s, none) add = .ok e ∧ Streams (t.decode skip) e.ids (unsub '▁' s) := by
  obtain ⟨e, vs, h1, h2, h3⟩ := Tokenizer.llama_tokens h hav hraw hbyte hset hfree hskip
  refine ⟨e, h1, ?_⟩
  have hD : t.decode skip = through
      (fun id => ((t.added.simpleIdToToken id).or (t.view.toToken id)).filter fun x => !skip || !t.added.specials.contains x)
      (fun ts => stripSpace (fallbackText (ts.map (unsub '▁')))) := by
    funext ids
    unfold Tokenizer.decode AddedVocab.decode
    rw [h.decoder]
    exact llamaDecoder_eq _ _
  have hsp : ∃ P w, Spells P w (vs.map (unsub '▁')) := by
    rcases h3 with ⟨_, rfl⟩ | h3
    · exact ⟨fun _ => True, [], .nil⟩
    · exact ⟨_, _, spells_unsub (fun hc => h.mark hc) h3⟩
  obtain ⟨P, w, hsp⟩ := hsp
  have hst := streams_on (D := fun ts => stripSpace (fallbackText (ts.map (unsub '▁')))) (ids := e.ids)
    (tok := fun id => ((t.added.simpleIdToToken id).or (t.view.toToken id)).filter
      fun x => !skip || !t.added.specials.contains x) (by
        show StableOn _ (decodeTokens t.view t.added skip e.ids)
        rw [h2]
        exact StableOn.comp _ (stableOn_spells hsp))
  rw [← hD] at hst
  have htext : stripSpace (fallbackText ((decodeTokens t.view t.added skip e.ids).map (unsub '▁'))) = unsub '▁' s := by
    have := llamaDecoder_eq t.checked (decodeTokens t.view t.added skip e.ids)
    rw [h2] at this ⊢
    rcases h3 with ⟨rfl, rfl⟩ | h3
    · rfl
    · rw [Tokenizer.llama_decode (fun hc => h.mark hc) h3, Tokenizer.unsub_sub_all] at this
      exact (Option.some.inj this).symm
  rw [← htext]
  exact hst

/-- `aé  b€` given one id at a time: the space that the decoder strips from every window is not lost, and the bytes of `é` and
`€` are held back until they are complete. -/
example : (run (fun ids => Tokenizer.llamaDecoder.decode true (ids.filterMap fun i =>
      ["▁a", "<0xC3>", "<0xA9>", "▁", "▁b", "<0xE2>", "<0x82>", "<0xAC>"][i]?.map String.toList)) State.init
        [[0], [1], [2], [3], [4], [5], [6], [7]]).toOption.map (·.2.filterMap id |>.map String.ofList)
    = some ["a", "é", " ", " b", "€"] := by decide +kernel

/-- All texts without `<s>`, with the sample tokenizer. -/
example (s : Str) (h : ¬ "<s>".toList <:+: s) :
    ∃ e, (Tokenizer.llamaSample Tokenizer.llamaBpe).encode (.raw s, none) true = .ok e ∧
      Streams ((Tokenizer.llamaSample Tokenizer.llamaBpe).decode true) e.ids (Metaspace.unsub '▁' s) := by
  obtain ⟨h1, h2, h3, h4⟩ := Tokenizer.llamaSample_hyps h
  exact C77_llama Tokenizer.llamaSample_ok rfl h1 h2 h3 h4 (fun h => h)

/-- These tokens spell a text. -/
example : Spells (fun c => c = 'é') "▁aé".toList ["▁a".toList, byteToken 0xC3, byteToken 0xA9] :=
  .text (x := "▁a".toList) (by decide) (fun y => fun ⟨_, _, _, h, _⟩ => by simp at h) (.char (c := 'é') rfl .nil)

end Tok.Stream

namespace Tok.Save
open AddedVocab Tok.Stream

/-- **C77.** A file in the form of GPT-2's: loaded, and every text is encoded and streamed back. -/
theorem C77_gpt2 (w : World) (hre : ∀ s, NS.EngineMatches s 0 (w.byteLevel s)) (e : Env) (skip : Bool)
    {build : List (Str × Nat) → Bool} (hb : Automata build)
    {vocab : List (Str × Nat)} (hv : VocabOk vocab) (halpha : ∀ x : UInt8, [ByteLevel.byteChar x] ∈ vocab.map (·.1))
    {merges : List (Str × Str)} (hm : MergesOk vocab merges) (hl : LinesOk merges)
    {tokens : List (Nat × AddedToken)} (hi : ∀ x ∈ tokens, x.1 < 4294967296)
    (hstrip : ∀ x ∈ tokens, x.2.lstrip = false ∧ x.2.rstrip = false)
    (hlit : ∀ x ∈ tokens, ByteLevel.Literal x.2.content) :
    ∃ c, load e skip build w.norm (gpt2File vocab merges tokens) = .ok c ∧
      ∀ s add, ∃ enc, (w.tokenizer c).encode (.raw s, none) add = .ok enc ∧
        Streams ((w.tokenizer c).decode false) enc.ids s := by
  obtain ⟨b, av, h0, _⟩ := gpt2File_loaded w e skip hb hv hm hl hi
  obtain ⟨c, h1, h2⟩ := C67_gpt2 w hre e skip hb hv halpha hm hl hi hstrip hlit
  refine ⟨c, h1, fun s add => ?_⟩
  obtain ⟨enc, g1, g2⟩ := h2 s add
  refine ⟨enc, g1, C77_decoded ?_ g2⟩
  rw [h0] at h1
  cases h1
  exact .inr (.inl rfl)

/-- **C77.** A file in the form of Llama's: loaded, and every text in which no added token occurs is encoded and streamed
back, `▁` becoming a space. -/
theorem C77_llama_file (w : World) (hu : w.uni.Ok) (e : Env) (hsp : Literal1 w e ' ') (hmk : Literal1 w e '▁') (skip' : Bool)
    {build : List (Str × Nat) → Bool} (hb : Automata build)
    {vocab : List (Str × Nat)} (hv : VocabOk vocab) (hbytes : ∀ y, byteToken y ∈ vocab.map (·.1))
    (hmark : "▁".toList ∈ vocab.map (·.1)) {bos : Nat} (hbos : ("<s>".toList, bos) ∈ vocab)
    {merges : List (Str × Str)} (hm : MergesOk vocab merges) (hl : LinesOk merges) (hnb : NoByteNames merges)
    {tokens : List (Nat × AddedToken)} (hi : ∀ x ∈ tokens, x.1 < 4294967296)
    (hraw : ∀ x ∈ tokens, x.2.normalized = false)
    (hplain : ∀ x ∈ tokens, x.2.lstrip = false ∧ x.2.rstrip = false ∧ x.2.singleWord = false)
    (hspecial : ∀ x ∈ tokens, x.2.special = true) (hstart : ∃ x ∈ tokens, x.2.content = "<s>".toList)
    (hnames : ∀ x ∈ tokens, '▁' ∉ x.2.content ∧ ∀ y, x.2.content ≠ byteToken y) :
    ∃ c, load e skip' build w.norm (llamaFile bos vocab merges tokens) = .ok c ∧
      ∀ s, (∀ x ∈ tokens, ¬ x.2.content <:+: s) → ∀ add skip, (add = true → skip = true) →
        ∃ enc, (w.tokenizer c).encode (.raw s, none) add = .ok enc ∧
          Streams ((w.tokenizer c).decode skip) enc.ids (Metaspace.unsub '▁' s) := by
  obtain ⟨c, b, ops, h1, h2, h3, h4, h5⟩ := llamaFile_loaded w hu e hsp hmk skip' hb hv hbytes hmark hbos hm hl hnb hi hraw hplain
    hspecial hstart
  refine ⟨c, h1, fun s hfree add skip hskip => ?_⟩
  refine C77_llama h2 h3 (fun x hx => ?_) (fun x hx => ?_) h5 (llamaFile_free hnames h4 hfree) hskip
  · obtain ⟨y, hy, rfl⟩ := h4 x hx
    exact hraw y hy
  · obtain ⟨y, hy, rfl⟩ := h4 x hx
    exact (hnames y hy).2

end Tok.Save
