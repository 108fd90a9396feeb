import Verif.Codec.Decoders
import Verif.Codec.Metaspace
import Verif.Models.WordPiece

/-!
# `DecoderWrapper`, `Sequence` and `Decoder::decode`; C32, C33
-/

namespace Tok.Dec

/-- `DecoderWrapper` (`decoders/mod.rs:29-40`). `Replace` carries its regular expression as the list of matches
of the engine. -/
inductive Decoder where
  | bpe (suffix : Str)
  | byteLevel
  | wordPiece (pre : Str) (clean : Bool)
  | metaspace (r : Char) (scheme : Metaspace.Scheme)
  | ctc (pad delim : Str) (clean : Bool)
  | sequence (ds : List Decoder)
  | replace (engine : Str → List Range) (content : Str)
  | fuse
  | strip (content : Char) (start stop : Nat)
  | byteFallback

namespace Decoder

mutual
/-- `DecoderWrapper::decode_chain` (`decoders/mod.rs:153-168`); `none` is a panic (no decoder returns an error
of its own). `oc` says whether arithmetic overflow is checked. -/
def decodeChain (oc : Bool) : Decoder → List Str → Option (List Str)
  | .bpe suffix, ts => Dec.bpe oc suffix ts
  | .byteLevel, ts => some (ByteLevel.decodeChain ts)
  | .wordPiece pre clean, ts => some (Dec.wordPiece pre clean ts)
  | .metaspace r scheme, ts => some (Metaspace.decodeChain r scheme ts)
  | .ctc pad delim clean, ts => some (Dec.ctc pad delim clean ts)
  | .sequence ds, ts => decodeSeq oc ds ts
  | .replace engine content, ts => Dec.replace (fun t => NS.findRegex (engine t) t) content ts
  | .fuse, ts => some (Dec.fuse ts)
  | .strip content start stop, ts => Dec.strip content start stop ts
  | .byteFallback, ts => Dec.byteFallback ts

/-- `Sequence::decode_chain` (`decoders/sequence.rs:27-32`). -/
def decodeSeq (oc : Bool) : List Decoder → List Str → Option (List Str)
  | [], ts => some ts
  | d :: ds, ts =>
    match decodeChain oc d ts with
    | none => none
    | some ts' => decodeSeq oc ds ts'
end

/-- `Decoder::decode` (`tokenizer/mod.rs:184-187`). -/
def decode (oc : Bool) (d : Decoder) (ts : List Str) : Option Str := (d.decodeChain oc ts).map List.flatten

/-! ## C33 -/

mutual
/-- Configurations that cannot panic: no checked subtraction in a BPE decoder, no `Strip` that strips at the
end, and a regex engine that returns ranges in order on character boundaries. -/
def Safe (oc : Bool) : Decoder → Prop
  | .bpe _ => oc = false
  | .sequence ds => SafeAll oc ds
  | .replace engine _ => ∀ t, NS.EngineMatches t 0 (engine t)
  | .strip _ _ stop => stop = 0
  | _ => True

def SafeAll (oc : Bool) : List Decoder → Prop
  | [] => True
  | d :: ds => Safe oc d ∧ SafeAll oc ds
end

theorem replace_defined {engine : Str → List Range} (h : ∀ t, NS.EngineMatches t 0 (engine t)) (content : Str) :
    ∀ ts : List Str, ∃ out, Dec.replace (fun t => NS.findRegex (engine t) t) content ts = some out
  | [] => ⟨[], rfl⟩
  | t :: ts => by
    obtain ⟨out, ih⟩ := replace_defined h content ts
    obtain ⟨ps, h1, h2⟩ := NS.piecesAt_of_covers _ [] t rfl (NS.C12_regex (h t)).1
    have := C33_replace (find := fun t => NS.findRegex (engine t) t) (content := content) (t := t) (ps := ps) h2 h1
    unfold Dec.replace at ih ⊢
    rw [List.mapM_cons, this, ih]
    exact ⟨_, rfl⟩

theorem strip_defined (c : Char) (start : Nat) (ts : List Str) : ∃ out, Dec.strip c start 0 ts = some out :=
  (C33_strip_defined c start 0 ts).2 fun t _ h => by have := h.2; omega

mutual
/-- **C33 (definedness).** Missing: two kinds of decoder do panic, a BPE decoder on an empty list when overflow
is checked (`C33_bpe_defined` says exactly when) and a `Strip` with `stop > 0` on tokens made of the stripped
character (`C33_strip_defined`). Everything else is defined on every token list. -/
theorem C33_defined_partial (oc : Bool) : ∀ d : Decoder, d.Safe oc → ∀ ts, ∃ out, d.decodeChain oc ts = some out
  | .bpe suffix, h, ts => by
    rw [Safe] at h
    cases hb : Dec.bpe oc suffix ts with
    | some out => exact ⟨out, by rw [decodeChain, hb]⟩
    | none =>
      have := ((C33_bpe_defined oc suffix ts).1 hb).1
      rw [h] at this; cases this
  | .byteLevel, _, ts => ⟨_, by rw [decodeChain]⟩
  | .wordPiece _ _, _, ts => ⟨_, by rw [decodeChain]⟩
  | .metaspace _ _, _, ts => ⟨_, by rw [decodeChain]⟩
  | .ctc _ _ _, _, ts => ⟨_, by rw [decodeChain]⟩
  | .fuse, _, ts => ⟨_, by rw [decodeChain]⟩
  | .byteFallback, _, ts => by
    obtain ⟨out, h, _⟩ := C30_byte_fallback ts
    exact ⟨out, by rw [decodeChain, h]⟩
  | .replace engine content, h, ts => by
    rw [Safe] at h
    obtain ⟨out, h⟩ := replace_defined h content ts
    exact ⟨out, by rw [decodeChain, h]⟩
  | .strip c start stop, h, ts => by
    rw [Safe] at h
    subst h
    obtain ⟨out, h⟩ := strip_defined c start ts
    exact ⟨out, by rw [decodeChain, h]⟩
  | .sequence ds, h, ts => by
    rw [Safe] at h
    obtain ⟨out, h⟩ := C33_sequence_defined oc ds h ts
    exact ⟨out, by rw [decodeChain, h]⟩

theorem C33_sequence_defined (oc : Bool) : ∀ ds : List Decoder, SafeAll oc ds → ∀ ts,
    ∃ out, decodeSeq oc ds ts = some out
  | [], _, ts => ⟨ts, by rw [decodeSeq]⟩
  | d :: ds, h, ts => by
    rw [SafeAll] at h
    obtain ⟨o1, h1⟩ := C33_defined_partial oc d h.1 ts
    obtain ⟨o2, h2⟩ := C33_sequence_defined oc ds h.2 o1
    exact ⟨o2, by rw [decodeSeq, h1]; exact h2⟩
end

/-- **C33.** A sequence is the composition of its parts. -/
theorem C33_sequence (oc : Bool) (as bs : List Decoder) (ts : List Str) :
    (sequence (as ++ bs)).decodeChain oc ts =
      ((sequence as).decodeChain oc ts).bind ((sequence bs).decodeChain oc) := by
  simp only [decodeChain]
  induction as generalizing ts with
  | nil => simp [decodeSeq]
  | cons a as ih =>
    rw [List.cons_append, decodeSeq, decodeSeq]
    cases decodeChain oc a ts with
    | none => rfl
    | some ts' => exact ih ts'

/-- Llama's decoder: `▁` to space, byte fallback, fuse, strip one leading space. -/
def llama : Decoder :=
  .sequence [.metaspace '▁' .never, .byteFallback, .fuse, .strip ' ' 1 0]

example : llama.Safe true ∧ llama.decode true (["▁Hey", "▁", "<0xC3>", "<0xA9>"].map String.toList)
    = some "Hey é".toList := by
  refine ⟨by simp [llama, Safe, SafeAll], by decide +kernel⟩

end Decoder

/-! ## C32 -/

/-- Decoded tokens after the first. -/
theorem wordPiece_flatten (pre : Str) : ∀ (ts : List Str) (k : Nat), k ≠ 0 →
    ((ts.zipIdx k).map fun p => wordPieceOne pre false p.2 p.1).flatten
      = ts.flatMap fun t => (stripPrefix pre t).getD (' ' :: t)
  | [], _, _ => rfl
  | t :: ts, k, hk => by
    rw [List.zipIdx_cons, List.map_cons, List.flatten_cons, wordPiece_flatten pre ts (k + 1) (by omega),
      List.flatMap_cons]
    congr 1
    simp only [wordPieceOne, ne_eq, hk, not_false_eq_true, if_true, Bool.false_eq_true, if_false]
    cases stripPrefix pre t <;> rfl

theorem wordPiece_cons (pre t : Str) (ts : List Str) :
    (wordPiece pre false (t :: ts)).flatten = t ++ ts.flatMap fun t => (stripPrefix pre t).getD (' ' :: t) := by
  unfold wordPiece
  rw [List.zipIdx_cons, List.map_cons, List.flatten_cons, wordPiece_flatten pre ts (0 + 1) (by omega)]
  rfl

theorem stripPrefix_append (pre m : Str) : stripPrefix pre (pre ++ m) = some m := by
  simp [stripPrefix]

theorem greedy_tail {w : WordPiece} : ∀ {start : Nat} {s : Str} {ts : List Token}, w.Greedy start s ts →
    0 < start → (ts.map (·.value)).flatMap (fun t => (stripPrefix w.continuingPrefix t).getD (' ' :: t)) = s := by
  intro start s ts h
  induction h with
  | nil => intro _; rfl
  | @cons start m rest id ts h1 _ ih =>
    intro hs
    rw [List.map_cons, List.flatMap_cons, ih (by omega)]
    congr 1
    obtain ⟨k, rfl⟩ := Nat.exists_eq_succ_of_ne_zero (by omega : start ≠ 0)
    simp [WordPiece.shown, stripPrefix_append]

/-- The word-initial piece does not begin with the prefix. -/
def InitialOk (pre : Str) (ts : List Token) : Prop := ∀ t ∈ ts.head?, ¬ pre <+: t.value

/-- **C32.** The greedy pieces of the words (what the tokenizer produces, `C21_tokenize`) decode to the words
joined by single spaces. -/
theorem C32_decode {w : WordPiece} {words : List Str} {tss : List (List Token)} (hl : tss.length = words.length)
    (hne : ∀ s ∈ words, s ≠ [])
    (hg : ∀ (i : Nat) s ts, words[i]? = some s → tss[i]? = some ts → w.Greedy 0 s ts ∧
      InitialOk w.continuingPrefix ts) :
    Decoder.decode true (.wordPiece w.continuingPrefix false) (tss.flatten.map (·.value))
      = some ([' '].intercalate words) := by
  simp only [Decoder.decode, Decoder.decodeChain, Option.map_some, Option.some.injEq]
  -- one word
  have one : ∀ (s : Str) (ts : List Token), s ≠ [] → w.Greedy 0 s ts → InitialOk w.continuingPrefix ts →
      ∃ t rest, ts.map (·.value) = t :: rest ∧
        t ++ rest.flatMap (fun t => (stripPrefix w.continuingPrefix t).getD (' ' :: t)) = s ∧
        stripPrefix w.continuingPrefix t = none := by
    intro s ts hs h hi
    generalize hz : 0 = z at h
    cases h with
    | nil => exact absurd rfl hs
    | @cons start m rest id ts h1 h2 =>
      subst hz
      refine ⟨m, ts.map (·.value), by simp [WordPiece.shown], ?_, ?_⟩
      · rw [greedy_tail h2 (by have := blen_pos h1.1; omega)]
      · have := hi _ rfl
        simp only [WordPiece.shown] at this
        simp [stripPrefix, this]
  have later : ∀ (words : List Str) (tss : List (List Token)), tss.length = words.length →
      (∀ s ∈ words, s ≠ []) →
      (∀ (i : Nat) s ts, words[i]? = some s → tss[i]? = some ts → w.Greedy 0 s ts ∧
        InitialOk w.continuingPrefix ts) →
      (tss.flatten.map (·.value)).flatMap (fun t => (stripPrefix w.continuingPrefix t).getD (' ' :: t))
        = words.flatMap fun s => ' ' :: s := by
    intro words
    induction words with
    | nil =>
      intro tss hl _ _
      have : tss = [] := List.length_eq_zero_iff.1 (by simpa using hl)
      subst this; rfl
    | cons s words ih =>
      intro tss hl hne hg
      cases tss with
      | nil => simp at hl
      | cons ts tss =>
        obtain ⟨h1, h2⟩ := hg 0 s ts rfl rfl
        obtain ⟨t, rest, e1, e2, e3⟩ := one s ts (hne s (by simp)) h1 h2
        rw [List.flatten_cons, List.map_append, List.flatMap_append,
          ih tss (by simpa using hl) (fun x hx => hne x (by simp [hx])) (fun i x y hx hy => hg (i + 1) x y hx hy),
          List.flatMap_cons, e1, List.flatMap_cons, e3, Option.getD_none, ← e2]
        rfl
  cases words with
  | nil =>
    have : tss = [] := List.length_eq_zero_iff.1 (by simpa using hl)
    subst this; rfl
  | cons s words =>
    cases tss with
    | nil => simp at hl
    | cons ts tss =>
      obtain ⟨h1, h2⟩ := hg 0 s ts rfl rfl
      obtain ⟨t, rest, e1, e2, e3⟩ := one s ts (hne s (by simp)) h1 h2
      rw [List.flatten_cons, List.map_append, e1, List.cons_append, wordPiece_cons, List.flatMap_append,
        ← List.append_assoc, e2, later words tss (by simpa using hl) (fun x hx => hne x (by simp [hx]))
          (fun i x y hx hy => hg (i + 1) x y hx hy)]
      clear hl hne hg e1 e2 e3 h1 h2 later one
      induction words generalizing s with
      | nil => simp [List.intercalate, List.intersperse]
      | cons u words ih =>
        rw [List.flatMap_cons]
        have := ih u
        simp only [List.intercalate, List.intersperse, List.flatten_cons] at this ⊢
        rw [← this]
        simp

/-- **C32.** The same from the tokenizer's answers, when no word is unknown or too long. -/
theorem C32_tokenize {w : WordPiece} {words : List Str} {tss : List (List Token)} (hl : tss.length = words.length)
    (hne : ∀ s ∈ words, s ≠ [])
    (hk : ∀ s ∈ words, s.length ≤ w.maxInputChars ∧ ∃ ts, w.Greedy 0 s ts)
    (hg : ∀ (i : Nat) s ts, words[i]? = some s → tss[i]? = some ts → w.tokenize s = .ok ts ∧
      InitialOk w.continuingPrefix ts) :
    Decoder.decode true (.wordPiece w.continuingPrefix false) (tss.flatten.map (·.value))
      = some ([' '].intercalate words) := by
  refine C32_decode hl hne fun i s ts hs ht => ⟨?_, (hg i s ts hs ht).2⟩
  obtain ⟨h1, h2⟩ := hk s (List.mem_of_getElem? hs)
  rcases (WordPiece.C21_tokenize w s _).1 (hg i s ts hs ht).1 with ⟨_, ts', h3, h4⟩ | ⟨h3 | h3, _⟩
  · cases h4; exact h3
  · omega
  · exact absurd h2 h3

example : ∃ ts us, WordPiece.sample.tokenize "hugs".toList = .ok ts ∧
    WordPiece.sample.tokenize "hug".toList = .ok us ∧
    InitialOk "##".toList ts ∧ InitialOk "##".toList us ∧
    Decoder.decode true (.wordPiece "##".toList false) ((ts ++ us ++ ts).map (·.value))
      = some "hugs hug hugs".toList := by
  refine ⟨_, _, rfl, rfl, ?_, ?_, by decide +kernel⟩
  · intro t ht; simp at ht; subst ht; decide
  · intro t ht; simp at ht; subst ht; decide

end Tok.Dec
