import Verif.Codec.StrReplace
import Verif.Codec.ByteLevel

/-!
# Model of `decoders/*.rs`; C30, C33

`none` is a panic.
-/

namespace Tok.Dec

/-! ### Byte fallback -/

/-- The value of a hexadecimal digit (`char::to_digit(16)`). -/
def hexVal (c : Char) : Option Nat :=
  let n := c.toNat
  if 48 ≤ n ∧ n ≤ 57 then some (n - 48)
  else if 65 ≤ n ∧ n ≤ 70 then some (n - 55)
  else if 97 ≤ n ∧ n ≤ 102 then some (n - 87)
  else none

/-- `u8::from_str_radix(s, 16)` for a string of two bytes: an optional `+`, then digits, at least one. Two
digits cannot exceed 255. (The library's behaviour; a `-` is an error for an unsigned type.) -/
def fromStrRadix16 : Str → Option UInt8
  | ['+', b] => (hexVal b).map UInt8.ofNat
  | [a, b] => do
    let x ← hexVal a
    let y ← hexVal b
    pure (UInt8.ofNat (16 * x + y))
  | _ => none

/-- `byte_fallback.rs:30-34`: the byte a token stands for; the outer `none` is a panic of `token[3..5]`. -/
def byteOf (t : Str) : Option (Option UInt8) :=
  if blen t = 6 ∧ "<0x".toList <+: t ∧ t.getLast? = some '>' then
    (strGet t 3 5).map fromStrRadix16
  else some none

/-- `byte_fallback.rs:38-47` and `51-59`: the strings a run of bytes becomes. -/
def flush (bs : List UInt8) : List Str :=
  if bs = [] then []
  else match fromUtf8 bs with
    | some s => [s]
    | none => List.replicate bs.length ['�']

/-- The loop of `ByteFallback::decode_chain` (`byte_fallback.rs:29-59`), `prev` being `previous_byte_tokens`. -/
def byteFallbackLoop : List UInt8 → List Str → Option (List Str)
  | prev, [] => some (flush prev)
  | prev, t :: ts =>
    match byteOf t with
    | none => none
    | some (some b) => byteFallbackLoop (prev ++ [b]) ts
    | some none => (byteFallbackLoop [] ts).map fun r => flush prev ++ t :: r

/-- `ByteFallback::decode_chain` (`byte_fallback.rs:25-62`). -/
def byteFallback (tokens : List Str) : Option (List Str) := byteFallbackLoop [] tokens

/-! ### BPE, fuse, strip, CTC, WordPiece -/

/-- `BPEDecoder::decode_chain` (`bpe.rs:27-37`). `tokens.len() - 1` on an empty list panics if the build
checks for overflow; otherwise it wraps around and there is no token to compare it with. -/
def bpe (overflowChecks : Bool) (suffix : Str) (tokens : List Str) : Option (List Str) :=
  if overflowChecks && tokens.isEmpty then none
  else some (tokens.zipIdx.map fun p =>
    strReplace suffix (if p.2 = tokens.length - 1 then [] else [' ']) p.1)

/-- `Fuse::decode_chain` (`fuse.rs:25-28`). -/
def fuse (tokens : List Str) : List Str := [tokens.flatten]

/-- The first loop of `Strip` (`strip.rs:34-42`): `start_cut`, `n` being how many characters may still be
looked at. -/
def startCut (content : Char) : Nat → Str → Nat
  | n + 1, c :: cs => if c = content then 1 + startCut content n cs else 0
  | _, _ => 0

/-- The second loop (`strip.rs:44-53`), `i` having been incremented `i` times and `fuel` rounds being left;
`none` is the panic of `chars.len() - i - 1` (or of `chars[index]` when the subtraction wraps). -/
def stopCut (content : Char) (chars : Str) : Nat → Nat → Nat → Option Nat
  | 0, _, cut => some cut
  | fuel + 1, i, cut =>
    if i + 1 ≤ chars.length then
      match chars[chars.length - i - 1]? with
      | none => none
      | some c =>
        if c = content then stopCut content chars fuel (i + 1) (chars.length - i - 1) else some cut
    else none

/-- The closure of `Strip::decode_chain` (`strip.rs:31-57`). `chars[a..b]` panics if `a > b`. -/
def stripOne (content : Char) (start stop : Nat) (chars : Str) : Option Str :=
  let a := startCut content start chars
  match stopCut content chars stop 0 chars.length with
  | none => none
  | some b => if a ≤ b then some ((chars.take b).drop a) else none

/-- `Strip::decode_chain` (`strip.rs:28-59`). -/
def strip (content : Char) (start stop : Nat) (tokens : List Str) : Option (List Str) :=
  tokens.mapM (stripOne content start stop)

/-- `cleanup` (`wordpiece.rs:31-44`). -/
def cleanup (s : Str) : Str :=
  let s := strReplace " .".toList ".".toList s
  let s := strReplace " ?".toList "?".toList s
  let s := strReplace " !".toList "!".toList s
  let s := strReplace " ,".toList ",".toList s
  let s := strReplace " ' ".toList "'".toList s
  let s := strReplace " n't".toList "n't".toList s
  let s := strReplace " 'm".toList "'m".toList s
  let s := strReplace " do not".toList " don't".toList s
  let s := strReplace " 's".toList "'s".toList s
  let s := strReplace " 've".toList "'ve".toList s
  strReplace " 're".toList "'re".toList s

/-- `Itertools::dedup`: of equal neighbours only the first one. -/
def dedup : List Str → List Str
  | [] => []
  | [t] => [t]
  | t :: u :: ts => if t = u then dedup (u :: ts) else t :: dedup (u :: ts)

/-- The closure of `CTC::decode_chain` (`ctc.rs:49-60`). -/
def ctcOne (pad delim : Str) (clean : Bool) (t : Str) : Str :=
  let r := strReplace pad [] t
  if clean then strReplace delim [' '] (cleanup r) else r

/-- `CTC::decode_chain` (`ctc.rs:45-62`). -/
def ctc (pad delim : Str) (clean : Bool) (tokens : List Str) : List Str :=
  ((dedup tokens).map (ctcOne pad delim clean)).filter (· ≠ [])

/-- `str::strip_prefix`. -/
def stripPrefix (pre s : Str) : Option Str := if pre <+: s then some (s.drop pre.length) else none

/-- The closure of `WordPiece::decode_chain` (`wordpiece.rs:50-60`) for the token at index `i`. -/
def wordPieceOne (pre : Str) (clean : Bool) (i : Nat) (token : Str) : Str :=
  let t := if i ≠ 0 then
      match stripPrefix pre token with
      | some t => t
      | none => ' ' :: token
    else token
  if clean then cleanup t else t

/-- `WordPiece::decode_chain` (`wordpiece.rs:47-61`). -/
def wordPiece (pre : Str) (clean : Bool) (tokens : List Str) : List Str :=
  tokens.zipIdx.map fun p => wordPieceOne pre clean p.2 p.1

/-- `Replace::decode_chain` (`normalizers/replace.rs:97-113`); `find` is `find_matches` of the regular
expression. `token[start..stop]` panics off the character boundaries. -/
def replaceOne (find : Str → NS.Matches) (content t : Str) : Option Str :=
  ((find t).mapM fun (m : Range × Bool) => if m.2 then some content else strGet t m.1.1 m.1.2).map List.flatten

def replace (find : Str → NS.Matches) (content : Str) (tokens : List Str) : Option (List Str) :=
  tokens.mapM (replaceOne find content)

/-! ## C30 -/

/-- A hexadecimal digit and its value. -/
def IsHex (c : Char) (v : Nat) : Prop :=
  (∃ k < 10, c = Char.ofNat ('0'.toNat + k) ∧ v = k) ∨
  (∃ k < 6, (c = Char.ofNat ('A'.toNat + k) ∨ c = Char.ofNat ('a'.toNat + k)) ∧ v = 10 + k)

theorem char_of_toNat {c : Char} {n : Nat} (h : c.toNat = n) : c = Char.ofNat n := by
  rw [← h, Char.ofNat_toNat]

theorem hexVal_eq {c : Char} {v : Nat} : hexVal c = some v ↔ IsHex c v := by
  unfold hexVal IsHex
  simp only
  constructor
  · intro h
    split at h
    · cases h
      refine .inl ⟨c.toNat - 48, by omega, char_of_toNat ?_, rfl⟩
      show c.toNat = 48 + (c.toNat - 48)
      omega
    · split at h
      · cases h
        refine .inr ⟨c.toNat - 65, by omega, .inl (char_of_toNat ?_), by omega⟩
        show c.toNat = 65 + (c.toNat - 65)
        omega
      · split at h
        · cases h
          refine .inr ⟨c.toNat - 97, by omega, .inr (char_of_toNat ?_), by omega⟩
          show c.toNat = 97 + (c.toNat - 97)
          omega
        · cases h
  · rintro (⟨k, hk, rfl, rfl⟩ | ⟨k, hk, rfl | rfl, rfl⟩)
    · have : (Char.ofNat ('0'.toNat + v)).toNat = 48 + v := ByteLevel.ofNat_lt _ (by show 48 + v < 512; omega)
      rw [this, if_pos (by omega)]; congr 1; omega
    · have : (Char.ofNat ('A'.toNat + k)).toNat = 65 + k := ByteLevel.ofNat_lt _ (by show 65 + k < 512; omega)
      rw [this, if_neg (by omega), if_pos (by omega)]; congr 1; omega
    · have : (Char.ofNat ('a'.toNat + k)).toNat = 97 + k := ByteLevel.ofNat_lt _ (by show 97 + k < 512; omega)
      rw [this, if_neg (by omega), if_neg (by omega), if_pos (by omega)]; congr 1; omega

theorem IsHex.lt {c : Char} {v : Nat} (h : IsHex c v) : v < 16 := by
  rcases h with ⟨k, hk, _, rfl⟩ | ⟨k, hk, _, rfl⟩ <;> omega

theorem IsHex.size {c : Char} {v : Nat} (h : IsHex c v) : c.utf8Size = 1 := by
  have : ∀ n < 128, (Char.ofNat n).utf8Size = 1 := by decide
  rcases h with ⟨k, hk, rfl, _⟩ | ⟨k, hk, rfl | rfl, _⟩
  · exact this _ (by show 48 + k < 128; omega)
  · exact this _ (by show 65 + k < 128; omega)
  · exact this _ (by show 97 + k < 128; omega)

/-- A token `t` that stands for the byte `b`: `<0x`, two hexadecimal digits (or `+` and one), `>`. -/
def IsByteToken (t : Str) (b : UInt8) : Prop :=
  ∃ x y v, t = ['<', '0', 'x', x, y, '>'] ∧ b = UInt8.ofNat v ∧
    ((∃ p q, IsHex x p ∧ IsHex y q ∧ v = 16 * p + q) ∨ (x = '+' ∧ IsHex y v))

theorem plus_not_hex {v : Nat} : ¬ IsHex '+' v := by
  intro h
  have := hexVal_eq.2 h
  revert this; simp [hexVal]

theorem fromStrRadix16_some {m : Str} {b : UInt8} : fromStrRadix16 m = some b ↔
    ∃ x y v, m = [x, y] ∧ b = UInt8.ofNat v ∧
      ((∃ p q, IsHex x p ∧ IsHex y q ∧ v = 16 * p + q) ∨ (x = '+' ∧ IsHex y v)) := by
  unfold fromStrRadix16
  split
  · rename_i y
    constructor
    · intro h
      obtain ⟨v, hv, rfl⟩ := Option.map_eq_some_iff.1 h
      exact ⟨'+', y, v, rfl, rfl, .inr ⟨rfl, hexVal_eq.1 hv⟩⟩
    · rintro ⟨x, y', v, e, rfl, h⟩
      cases e
      rcases h with ⟨p, q, hp, _⟩ | ⟨_, hy⟩
      · exact absurd hp plus_not_hex
      · rw [hexVal_eq.2 hy]; rfl
  · rename_i a y hne
    constructor
    · intro h
      simp only [Option.bind_eq_bind, Option.bind_eq_some_iff, Option.pure_def, Option.some.injEq] at h
      obtain ⟨p, hp, q, hq, rfl⟩ := h
      exact ⟨a, y, _, rfl, rfl, .inl ⟨p, q, hexVal_eq.1 hp, hexVal_eq.1 hq, rfl⟩⟩
    · rintro ⟨x, y', v, e, rfl, h⟩
      cases e
      rcases h with ⟨p, q, hp, hq, rfl⟩ | ⟨rfl, _⟩
      · rw [hexVal_eq.2 hp, hexVal_eq.2 hq]; rfl
      · exact (hne rfl).elim
  · rename_i h1 h2
    constructor
    · intro h; cases h
    · rintro ⟨x, y, v, rfl, _⟩; exact absurd rfl (h2 _ _)

/-- `byteOf` never panics and recognises exactly the byte tokens. -/
theorem byteOf_spec (t : Str) : ∃ o, byteOf t = some o ∧ ∀ b, o = some b ↔ IsByteToken t b := by
  unfold byteOf
  by_cases hc : blen t = 6 ∧ "<0x".toList <+: t ∧ t.getLast? = some '>'
  · rw [if_pos hc]
    obtain ⟨h6, ⟨u, rfl⟩, hl⟩ := hc
    have hu : ∃ m, u = m ++ ['>'] := by
      rcases List.eq_nil_or_concat u with rfl | ⟨m, c, rfl⟩
      · have : ¬ ("<0x".toList ++ []).getLast? = some '>' := by decide
        exact absurd hl this
      · refine ⟨m, ?_⟩
        rw [List.concat_eq_append] at hl ⊢
        rw [← List.append_assoc, List.getLast?_concat] at hl
        cases hl; rfl
    obtain ⟨m, rfl⟩ := hu
    have hb3 : blen "<0x".toList = 3 := by decide
    have hb1 : blen ['>'] = 1 := by decide
    rw [blen_append, blen_append, hb3, hb1] at h6
    have hg : strGet ("<0x".toList ++ (m ++ ['>'])) 3 5 = some m :=
      strGet_eq_some.2 ⟨"<0x".toList, ['>'], by simp, hb3, by omega⟩
    rw [hg]
    refine ⟨_, rfl, fun b => ?_⟩
    rw [fromStrRadix16_some]
    constructor
    · rintro ⟨x, y, v, rfl, h⟩; exact ⟨x, y, v, rfl, h⟩
    · rintro ⟨x, y, v, e, h⟩
      have : m ++ ['>'] = [x, y] ++ ['>'] := List.append_cancel_left (as := "<0x".toList) e
      exact ⟨x, y, v, List.append_cancel_right this, h⟩
  · rw [if_neg hc]
    refine ⟨none, rfl, fun b => ⟨(fun h => by cases h), ?_⟩⟩
    rintro ⟨x, y, v, rfl, _, h⟩
    refine absurd ⟨?_, ⟨[x, y, '>'], rfl⟩, rfl⟩ hc
    have hy : y.utf8Size = 1 := by
      rcases h with ⟨p, q, _, hq, _⟩ | ⟨_, hy⟩
      · exact hq.size
      · exact hy.size
    have hx : x.utf8Size = 1 := by
      rcases h with ⟨p, q, hp, _⟩ | ⟨rfl, _⟩
      · exact hp.size
      · decide
    simp only [blen_cons, hx, hy, blen_nil]
    decide

theorem byteOf_some {t : Str} {b : UInt8} (h : IsByteToken t b) : byteOf t = some (some b) := by
  obtain ⟨o, h1, h2⟩ := byteOf_spec t
  rw [h1, (h2 b).2 h]

theorem byteOf_none {t : Str} (h : ∀ b, ¬ IsByteToken t b) : byteOf t = some none := by
  obtain ⟨o, h1, h2⟩ := byteOf_spec t
  cases o with
  | none => exact h1
  | some b => exact absurd ((h2 b).1 rfl) (h b)

/-- Each of the 256 tokens the models emit is a byte token. -/
theorem byteToken_isByteToken (b : UInt8) : IsByteToken (byteToken b) b := by
  have key : ∀ n < 16, IsHex (hexDigit n) n := by
    intro n hn
    unfold hexDigit
    split
    · exact .inl ⟨n, by omega, rfl, rfl⟩
    · refine .inr ⟨n - 10, by omega, .inl ?_, by omega⟩
      show Char.ofNat (55 + n) = Char.ofNat (65 + (n - 10))
      congr 1; omega
  have hb := b.toNat_lt
  refine ⟨_, _, b.toNat, rfl, by simp, .inl ⟨b.toNat / 16, b.toNat % 16, key _ (by omega), key _ (by omega), by omega⟩⟩

/-- What a run of bytes decodes to: its text if it is valid UTF-8, otherwise one U+FFFD per byte. -/
inductive RunText : List UInt8 → List Str → Prop
  | none : RunText [] []
  | valid {s : Str} : s ≠ [] → RunText (strBytes s) [s]
  | invalid {bs} : (∀ s, strBytes s ≠ bs) → RunText bs (List.replicate bs.length ['�'])

/-- What a list of tokens decodes to: a run of byte tokens, as long as possible, then another token, and so
on. -/
inductive Decoded : List Str → List Str → Prop
  | run {run : List Str} {bs out} : run.length = bs.length →
      (∀ (i : Nat) t b, run[i]? = some t → bs[i]? = some b → IsByteToken t b) → RunText bs out → Decoded run out
  | other {run : List Str} {bs out t ts r} : run.length = bs.length →
      (∀ (i : Nat) t b, run[i]? = some t → bs[i]? = some b → IsByteToken t b) → RunText bs out →
      (∀ b, ¬ IsByteToken t b) → Decoded ts r → Decoded (run ++ t :: ts) (out ++ t :: r)

theorem flush_spec (bs : List UInt8) : RunText bs (flush bs) := by
  unfold flush
  by_cases h : bs = []
  · rw [if_pos h, h]; exact .none
  · rw [if_neg h]
    cases hf : fromUtf8 bs with
    | some s =>
      have := fromUtf8_eq_some.1 hf
      subst this
      exact .valid (by rintro rfl; exact h rfl)
    | none =>
      exact .invalid fun s hs => by rw [fromUtf8_eq_some.2 hs] at hf; cases hf

theorem byteFallbackLoop_spec : ∀ (ts run : List Str) (bs : List UInt8), run.length = bs.length →
    (∀ (i : Nat) t b, run[i]? = some t → bs[i]? = some b → IsByteToken t b) →
    ∃ out, byteFallbackLoop bs ts = some out ∧ Decoded (run ++ ts) out
  | [], run, bs, hl, h => ⟨_, rfl, by rw [List.append_nil]; exact .run hl h (flush_spec bs)⟩
  | t :: ts, run, bs, hl, h => by
    obtain ⟨o, h1, h2⟩ := byteOf_spec t
    rw [byteFallbackLoop, h1]
    cases o with
    | some b =>
      obtain ⟨out, g1, g2⟩ := byteFallbackLoop_spec ts (run ++ [t]) (bs ++ [b]) (by simp [hl]) (by
        intro i u c hu hc
        by_cases hi : i < run.length
        · rw [List.getElem?_append_left hi] at hu
          rw [List.getElem?_append_left (by omega)] at hc
          exact h i u c hu hc
        · rw [List.getElem?_append_right (by omega)] at hu
          rw [List.getElem?_append_right (by omega), ← hl] at hc
          cases hk : i - run.length with
          | zero =>
            rw [hk] at hu hc
            cases hu; cases hc; exact (h2 _).1 rfl
          | succ k => rw [hk] at hu; simp at hu)
      exact ⟨out, g1, by simpa using g2⟩
    | none =>
      obtain ⟨out, g1, g2⟩ := byteFallbackLoop_spec ts [] [] rfl (by simp)
      simp only [g1, Option.map_some]
      refine ⟨_, rfl, .other hl h (flush_spec bs) (fun b hb => ?_) g2⟩
      have := (h2 b).2 hb
      cases this

/-- **C30.** Byte-fallback decoding never panics and gives every token list its decoding. -/
theorem C30_byte_fallback (tokens : List Str) : ∃ out, byteFallback tokens = some out ∧ Decoded tokens out := by
  simpa [byteFallback] using byteFallbackLoop_spec tokens [] [] rfl (by simp)

theorem byteFallbackLoop_run : ∀ (bs prev : List UInt8) (ts : List Str),
    byteFallbackLoop prev (bs.map byteToken ++ ts) = byteFallbackLoop (prev ++ bs) ts
  | [], prev, ts => by simp
  | b :: bs, prev, ts => by
    rw [List.map_cons, List.cons_append, byteFallbackLoop, byteOf_some (byteToken_isByteToken b)]
    simp only
    rw [byteFallbackLoop_run bs (prev ++ [b]) ts]
    simp

/-- **C30.** The tokens `<0xNN>` of the bytes of a text decode to the text, whatever stands before and after
them. -/
theorem C30_text (s : Str) (hs : s ≠ []) (before after : List Str)
    (hb : ∀ t ∈ before, ∀ b, ¬ IsByteToken t b) (ha : ∀ t ∈ after, ∀ b, ¬ IsByteToken t b) :
    byteFallback (before ++ (strBytes s).map byteToken ++ after) = some (before ++ [s] ++ after) := by
  have hpass : ∀ (ts : List Str), (∀ t ∈ ts, ∀ b, ¬ IsByteToken t b) → byteFallbackLoop [] ts = some ts := by
    intro ts
    induction ts with
    | nil => intro _; rfl
    | cons t ts ih =>
      intro h
      rw [byteFallbackLoop, byteOf_none (h t (by simp)), ih fun u hu => h u (by simp [hu])]
      rfl
  have hfl : flush (strBytes s) = [s] := by
    unfold flush
    rw [if_neg, fromUtf8_strBytes]
    intro h0
    exact hs (strBytes_inj (t := []) h0)
  have hafter : byteFallbackLoop (strBytes s) after = some ([s] ++ after) := by
    cases after with
    | nil => rw [byteFallbackLoop, hfl]; rfl
    | cons t ts =>
      rw [byteFallbackLoop, byteOf_none (ha t (by simp)), hpass ts fun u hu => ha u (by simp [hu])]
      simp [hfl]
  unfold byteFallback
  induction before with
  | nil =>
    rw [List.nil_append, byteFallbackLoop_run, List.nil_append, hafter]; rfl
  | cons t ts ih =>
    rw [List.cons_append, List.cons_append, byteFallbackLoop, byteOf_none (hb t (by simp)),
      ih fun u hu => hb u (by simp [hu])]
    rfl

/-- `é` in two byte tokens, a lone continuation byte, and lower case digits. -/
example : byteFallback ["a".toList, "<0xC3>".toList, "<0xa9>".toList, "b".toList, "<0x80>".toList, "<0x41>".toList]
    = some ["a".toList, "é".toList, "b".toList, "�".toList, "�".toList] ∧
  byteFallback ((strBytes "é!".toList).map byteToken) = some ["é!".toList] := by decide +kernel

/-- Finding: `u8::from_str_radix` accepts a sign, so the token `<0x+A>` is taken for the byte 10. -/
theorem C30_plus_sign_accepted : byteFallback ["<0x+A>".toList] = some ["\n".toList] := by decide +kernel

/-! ## C33 -/

/-- **C33.** `Fuse` gives one string, the concatenation. -/
theorem C33_fuse (tokens : List Str) : fuse tokens = [tokens.flatten] := rfl

/-- **C33.** The BPE decoder fails only on the empty list, and there only in a build with overflow checks. -/
theorem C33_bpe_defined (oc : Bool) (suffix : Str) (tokens : List Str) :
    bpe oc suffix tokens = none ↔ oc = true ∧ tokens = [] := by
  unfold bpe
  cases oc <;> cases tokens <;> simp

/-- **C33.** It replaces the suffix by a space, in the last token by nothing. -/
theorem C33_bpe {oc : Bool} {suffix : Str} (hs : suffix ≠ []) {init : List Str} {last : Str} :
    ∃ out r, bpe oc suffix (init ++ [last]) = some (out ++ [r]) ∧ out.length = init.length ∧
      (∀ (i : Nat) t x, init[i]? = some t → out[i]? = some x → Replaced suffix [' '] t x) ∧
      Replaced suffix [] last r := by
  refine ⟨init.map (strReplace suffix [' ']), strReplace suffix [] last, ?_, by simp, ?_, strReplace_spec _ _ hs⟩
  · unfold bpe
    rw [if_neg (by simp)]
    congr 1
    rw [List.zipIdx_append, List.map_append]
    congr 1
    · have : (init.zipIdx.map fun p => strReplace suffix
          (if p.2 = (init ++ [last]).length - 1 then [] else [' ']) p.1) =
          init.zipIdx.map fun p => strReplace suffix [' '] p.1 := by
        apply List.map_congr_left
        intro p hp
        obtain ⟨x, i⟩ := p
        have := (List.mem_zipIdx hp).2.1
        rw [if_neg]
        simp at this ⊢
        omega
      rw [this]
      have := List.map_map (g := strReplace suffix [' ']) (f := Prod.fst) (l := init.zipIdx)
      rw [show (fun p : Str × Nat => strReplace suffix [' '] p.1) = strReplace suffix [' '] ∘ Prod.fst from rfl,
        ← this, List.zipIdx_map_fst]
    · simp
  · intro i t x ht hx
    rw [List.getElem?_map, ht] at hx
    cases hx
    exact strReplace_spec _ _ hs

example : bpe true "</w>".toList ["he".toList, "y</w>".toList, "you</w>".toList]
    = some ["he".toList, "y ".toList, "you".toList] := by decide

/-- Finding: an empty list of tokens makes the BPE decoder panic (with overflow checks). -/
theorem C33_bpe_empty_panics (suffix : Str) : bpe true suffix [] = none := rfl

/-! ### Strip -/

theorem startCut_spec (c : Char) : ∀ (n : Nat) (cs : Str), ∃ k, ByteLevel.LeadingRun (· = c) cs k ∧
    startCut c n cs = min n k
  | 0, cs => by
    refine ⟨_, ByteLevel.leadingRun_takeWhile (f := fun x => x == c) (fun x => by simp) cs, ?_⟩
    cases cs <;> simp [startCut]
  | n + 1, [] => ⟨0, ⟨[], [], rfl, rfl, by simp, by simp⟩, by simp [startCut]⟩
  | n + 1, d :: cs => by
    rw [startCut]
    by_cases hd : d = c
    · obtain ⟨k, ⟨a, b, h1, h2, h3, h4⟩, h5⟩ := startCut_spec c n cs
      refine ⟨k + 1, ⟨d :: a, b, by rw [h1]; rfl, by simp [h2], ?_, h4⟩, ?_⟩
      · intro x hx
        rcases List.mem_cons.1 hx with rfl | hx
        · exact hd
        · exact h3 x hx
      · rw [if_pos hd, h5]; omega
    · exact ⟨0, ⟨[], d :: cs, rfl, rfl, by simp, by simpa using hd⟩, by rw [if_neg hd]; simp⟩

theorem stopCut_spec (c : Char) (chars : Str) : ∀ (fuel i : Nat) (post : Str), (∀ x ∈ post, x = c) →
    post.length = i → ∀ pre, chars = pre ++ post → ∀ k, ByteLevel.LeadingRun (· = c) pre.reverse k →
    stopCut c chars fuel i pre.length =
      if pre.length = k ∧ k < fuel then none else some (pre.length - min fuel k)
  | 0, i, post, _, _, pre, _, k, _ => by simp [stopCut]
  | fuel + 1, i, post, hp, hi, pre, hc, k, hk => by
    rw [stopCut]
    rcases List.eq_nil_or_concat pre with rfl | ⟨pre', d, hpre⟩
    · have : ¬ i + 1 ≤ chars.length := by rw [hc]; simp; omega
      rw [if_neg this]
      have hk0 : k = 0 := by
        have := ByteLevel.leadingRun_unique hk ⟨[], [], rfl, rfl, by simp, by simp⟩
        exact this
      rw [if_pos ⟨by simp [hk0], by omega⟩]
    · rw [List.concat_eq_append] at hpre
      subst hpre
      have hle : i + 1 ≤ chars.length := by rw [hc]; simp; omega
      rw [if_pos hle]
      have hidx : chars.length - i - 1 = pre'.length := by rw [hc]; simp; omega
      have hget : chars[chars.length - i - 1]? = some d := by
        rw [hidx, hc]; simp
      rw [hget, hidx]
      simp only
      by_cases hd : d = c
      · rw [if_pos hd]
        have hk' : ∃ k', k = k' + 1 ∧ ByteLevel.LeadingRun (· = c) pre'.reverse k' := by
          refine ⟨_, ByteLevel.leadingRun_unique hk ?_, ByteLevel.leadingRun_takeWhile (f := fun x => x == c)
            (fun x => by simp) _⟩
          obtain ⟨a, b, h1, h2, h3, h4⟩ := ByteLevel.leadingRun_takeWhile (P := (· = c)) (f := fun x => x == c)
            (fun x => by simp) pre'.reverse
          refine ⟨d :: a, b, by rw [List.reverse_append]; simp [h1], by simp [h2], ?_, h4⟩
          intro x hx
          rcases List.mem_cons.1 hx with rfl | hx
          · exact hd
          · exact h3 x hx
        obtain ⟨k', rfl, hk'⟩ := hk'
        rw [stopCut_spec c chars fuel (i + 1) (d :: post) (by
          intro x hx
          rcases List.mem_cons.1 hx with rfl | hx
          · exact hd
          · exact hp x hx) (by simp [hi]) pre' (by rw [hc]; simp) k' hk']
        simp only [List.length_append, List.length_cons, List.length_nil]
        by_cases hq : pre'.length = k' ∧ k' < fuel
        · rw [if_pos hq, if_pos (by omega)]
        · rw [if_neg hq, if_neg (by omega)]; congr 1; omega
      · rw [if_neg hd]
        have hk0 : k = 0 :=
          ByteLevel.leadingRun_unique hk ⟨[], _, rfl, rfl, by simp, by simpa using hd⟩
        rw [if_neg (by simp [hk0])]; congr 1; simp [hk0]

/-- **C33.** `Strip` on one token: with `a` copies of the character at the beginning and `b` at the end (or as
many as `start` and `stop` allow) it removes exactly these, and panics if the token consists of this
character alone and is shorter than what there is to remove. -/
theorem C33_strip_one (c : Char) (start stop : Nat) (t : Str) {a b : Nat}
    (ha : ByteLevel.LeadingRun (· = c) t a) (hb : ByteLevel.LeadingRun (· = c) t.reverse b) :
    stripOne c start stop t =
      if (∀ x ∈ t, x = c) ∧ t.length < min start t.length + stop then none
      else some ((t.take (t.length - min stop b)).drop (min start a)) := by
  obtain ⟨k, h1, h2⟩ := startCut_spec c start t
  have hk := ByteLevel.leadingRun_unique h1 ha
  subst hk
  have h3 := stopCut_spec c t stop 0 [] (by simp) rfl t (by simp) b hb
  unfold stripOne
  simp only [h2, h3]
  have hall : t.length = b ↔ ∀ x ∈ t, x = c := by
    obtain ⟨p, q, e, rfl, g1, g2⟩ := hb
    constructor
    · intro hl x hx
      have : q = [] := by
        have := congrArg List.length e
        simp at this
        exact List.eq_nil_of_length_eq_zero (by omega)
      subst this
      exact g1 x (by rw [List.append_nil] at e; rw [← e]; simpa using hx)
    · intro hx
      cases q with
      | nil => have := congrArg List.length e; simpa using this
      | cons y q => exact absurd (hx y (by
          have : y ∈ t.reverse := by rw [e]; simp
          simpa using this)) (g2 y rfl)
  have hka : (∀ x ∈ t, x = c) → k = t.length := by
    intro hx
    exact ByteLevel.leadingRun_unique h1 ⟨t, [], by simp, rfl, hx, by simp⟩
  have hkb : ¬ (∀ x ∈ t, x = c) → k + b ≤ t.length := by
    intro hn
    obtain ⟨p, q, e, rfl, g1, g2⟩ := h1
    obtain ⟨p', q', e', rfl, g1', g2'⟩ := hb
    rcases Nat.lt_or_ge t.length (p.length + p'.length) with hlt | hge
    · exfalso
      apply hn
      intro x hx
      obtain ⟨i, hi⟩ := List.mem_iff_getElem?.1 hx
      have hil := (List.getElem?_eq_some_iff.1 hi).1
      by_cases hip : i < p.length
      · rw [e, List.getElem?_append_left hip] at hi
        exact g1 x (List.mem_of_getElem? hi)
      · have hr : t.reverse[t.length - 1 - i]? = some x := by
          rw [List.getElem?_reverse (by omega), show t.length - 1 - (t.length - 1 - i) = i by omega, hi]
        rw [e', List.getElem?_append_left (by omega)] at hr
        exact g1' x (List.mem_of_getElem? hr)
    · exact hge
  have hble : b ≤ t.length := by
    obtain ⟨p', q', e', rfl, _⟩ := hb
    have := congrArg List.length e'
    simp at this; omega
  by_cases hx : ∀ x ∈ t, x = c
  · have hb' := hall.2 hx
    have ha' := hka hx
    subst hb'
    by_cases hs : t.length < stop
    · rw [if_pos ⟨rfl, hs⟩, if_pos ⟨hx, by omega⟩]
    · rw [if_neg (by omega)]
      simp only
      by_cases hle : min start k ≤ t.length - min stop t.length
      · rw [if_pos hle, if_neg (by rintro ⟨_, h⟩; omega)]
      · rw [if_neg hle, if_pos ⟨hx, by omega⟩]
  · have h' := hkb hx
    rw [if_neg (by rintro ⟨h, _⟩; exact hx (hall.1 h)), if_neg (by rintro ⟨h, _⟩; exact hx h)]
    simp only
    rw [if_pos (by omega)]

/-- **C33**, for the whole list: `Strip` panics iff some token does. -/
theorem C33_strip_defined (c : Char) (start stop : Nat) (tokens : List Str) :
    (∃ out, strip c start stop tokens = some out) ↔
      ∀ t ∈ tokens, ¬ ((∀ x ∈ t, x = c) ∧ t.length < min start t.length + stop) := by
  have hf : ∀ t : Str, (∃ r, stripOne c start stop t = some r) ↔
      ¬ ((∀ x ∈ t, x = c) ∧ t.length < min start t.length + stop) := by
    intro t
    rw [C33_strip_one c start stop t (ByteLevel.leadingRun_takeWhile (f := fun x => x == c) (fun x => by simp) t)
      (ByteLevel.leadingRun_takeWhile (f := fun x => x == c) (fun x => by simp) t.reverse)]
    split
    · rename_i h
      exact ⟨(fun ⟨_, h'⟩ => by cases h'), fun h' => absurd h h'⟩
    · rename_i h
      exact ⟨fun _ => h, fun _ => ⟨_, rfl⟩⟩
  unfold strip
  induction tokens with
  | nil => simp
  | cons t ts ih =>
    rw [List.mapM_cons]
    constructor
    · rintro ⟨out, h⟩
      cases h1 : stripOne c start stop t with
      | none => rw [h1] at h; cases h
      | some r =>
        cases h2 : ts.mapM (stripOne c start stop) with
        | none => rw [h1, h2] at h; cases h
        | some rs =>
          intro u hu
          rcases List.mem_cons.1 hu with rfl | hu
          · exact (hf _).1 ⟨r, h1⟩
          · exact ih.1 ⟨rs, h2⟩ u hu
    · intro h
      obtain ⟨r, h1⟩ := (hf t).2 (h t (by simp))
      obtain ⟨rs, h2⟩ := ih.2 fun u hu => h u (by simp [hu])
      rw [h1, h2]; exact ⟨_, rfl⟩

example : strip '_' 1 1 ["__a_".toList, "b".toList, "c__".toList] = some ["_a".toList, "b".toList, "c_".toList] := by
  decide

/-- Finding: with `stop = 1` the decoder panics on an empty token and on a token that is the character alone
when `start = 1` too. -/
theorem C33_strip_panics : strip '_' 0 1 [[]] = none ∧ strip '_' 1 1 [['_']] = none := by decide

/-! ### CTC -/

/-- Replacements applied one after the other. -/
inductive ReplacedAll : List (Str × Str) → Str → Str → Prop
  | nil {s} : ReplacedAll [] s s
  | cons {pat to rs s t u} : Replaced pat to s t → ReplacedAll rs t u → ReplacedAll ((pat, to) :: rs) s u

/-- **C33.** What `cleanup` does. -/
theorem C33_cleanup (s : Str) : ReplacedAll
    ([(" .", "."), (" ?", "?"), (" !", "!"), (" ,", ","), (" ' ", "'"), (" n't", "n't"), (" 'm", "'m"),
      (" do not", " don't"), (" 's", "'s"), (" 've", "'ve"), (" 're", "'re")].map
        fun p => (p.1.toList, p.2.toList)) s (cleanup s) := by
  unfold cleanup
  simp only [List.map_cons, List.map_nil]
  exact .cons (strReplace_spec _ _ (by decide)) <| .cons (strReplace_spec _ _ (by decide)) <|
    .cons (strReplace_spec _ _ (by decide)) <| .cons (strReplace_spec _ _ (by decide)) <|
    .cons (strReplace_spec _ _ (by decide)) <| .cons (strReplace_spec _ _ (by decide)) <|
    .cons (strReplace_spec _ _ (by decide)) <| .cons (strReplace_spec _ _ (by decide)) <|
    .cons (strReplace_spec _ _ (by decide)) <| .cons (strReplace_spec _ _ (by decide)) <|
    .cons (strReplace_spec _ _ (by decide)) .nil

example : cleanup "I 'm here , do n't go !".toList = "I'm here, don't go!".toList := by decide +kernel

/-- Equal neighbours collapsed: each token of `out` stands for one or more copies, neighbours of `out` differ. -/
def Collapsed (tokens out : List Str) : Prop :=
  (∃ reps : List Nat, reps.length = out.length ∧ (∀ n ∈ reps, 0 < n) ∧
    tokens = (out.zip reps).flatMap fun p => List.replicate p.2 p.1) ∧
  ∀ a x y b, out = a ++ x :: y :: b → x ≠ y

theorem dedup_head : ∀ (t : Str) (ts : List Str), ∃ r, dedup (t :: ts) = t :: r
  | t, [] => ⟨[], rfl⟩
  | t, u :: ts => by
    rw [dedup]
    by_cases h : t = u
    · subst h; rw [if_pos rfl]; exact dedup_head t ts
    · rw [if_neg h]; exact ⟨_, rfl⟩

theorem dedup_spec : ∀ ts : List Str, Collapsed ts (dedup ts)
  | [] => ⟨⟨[], rfl, by simp, rfl⟩, by simp [dedup]⟩
  | [t] => ⟨⟨[1], rfl, by simp, rfl⟩, by
      intro a x y b h
      have := congrArg List.length h
      simp [dedup] at this
      omega⟩
  | t :: u :: ts => by
    obtain ⟨⟨reps, h1, h2, h3⟩, h4⟩ := dedup_spec (u :: ts)
    obtain ⟨r, hr⟩ := dedup_head u ts
    rw [dedup]
    by_cases h : t = u
    · subst h
      rw [if_pos rfl]
      rw [hr] at h1 h3 h4 ⊢
      cases reps with
      | nil => simp at h1
      | cons n reps =>
        refine ⟨⟨(n + 1) :: reps, by simpa using h1, ?_, ?_⟩, h4⟩
        · intro m hm
          rcases List.mem_cons.1 hm with rfl | hm
          · omega
          · exact h2 m (by simp [hm])
        · rw [h3]; simp [List.replicate_succ]
    · rw [if_neg h]
      refine ⟨⟨1 :: reps, by simp [h1], ?_, ?_⟩, ?_⟩
      · intro m hm
        rcases List.mem_cons.1 hm with rfl | hm
        · omega
        · exact h2 m hm
      · rw [List.zip_cons_cons, List.flatMap_cons, ← h3]; rfl
      · intro a x y b e
        cases a with
        | nil =>
          rw [hr] at e
          simp only [List.nil_append, List.cons.injEq] at e
          rw [← e.1, ← e.2.1]; exact h
        | cons z a =>
          simp only [List.cons_append, List.cons.injEq] at e
          exact h4 a x y b e.2

/-- **C33.** CTC collapses repeated tokens, removes the pad token from each, cleans up and turns the word
delimiter into a space when asked to, and drops what becomes empty. -/
theorem C33_ctc {pad delim : Str} (hp : pad ≠ []) (hd : delim ≠ []) (clean : Bool) (tokens : List Str) :
    ∃ mid outs : List Str, Collapsed tokens mid ∧ outs.length = mid.length ∧
      ctc pad delim clean tokens = outs.filter (· ≠ []) ∧
      ∀ (i : Nat) t o, mid[i]? = some t → outs[i]? = some o →
        ∃ r, Replaced pad [] t r ∧ (clean = false → o = r) ∧
          (clean = true → Replaced delim [' '] (cleanup r) o) := by
  refine ⟨dedup tokens, (dedup tokens).map (ctcOne pad delim clean), dedup_spec _, by simp, rfl, ?_⟩
  intro i t o ht ho
  rw [List.getElem?_map, ht] at ho
  cases ho
  refine ⟨_, strReplace_spec [] t hp, ?_, ?_⟩
  · rintro rfl; simp [ctcOne]
  · rintro rfl; simp only [ctcOne, if_true]; exact strReplace_spec _ _ hd

example : ctc "<pad>".toList "|".toList true
    (["<pad>", "h", "h", "<pad>", "h", "|", "|", "o"].map String.toList)
    = ["h".toList, "h".toList, " ".toList, "o".toList] := by decide

/-! ### Replace -/

/-- **C33.** The `Replace` decoder does not panic when its pattern covers the token, and replaces the matches. -/
theorem C33_replace {find : Str → NS.Matches} {content t : Str} {ps : List (Str × Bool)}
    (hf : find t = NS.piecesAt 0 ps) (ht : t = ps.flatMap (·.1)) :
    replaceOne find content t = some (ps.flatMap fun p => if p.2 then content else p.1) := by
  have key : ∀ (ps : List (Str × Bool)) (pre post : Str), t = pre ++ ps.flatMap (·.1) ++ post →
      (NS.piecesAt (blen pre) ps).mapM (fun (m : Range × Bool) => if m.2 then some content else strGet t m.1.1 m.1.2)
        = some (ps.map fun p => if p.2 then content else p.1) := by
    intro ps
    induction ps with
    | nil => intro _ _ _; rfl
    | cons p ps ih =>
      intro pre post e
      obtain ⟨x, f⟩ := p
      have := ih (pre ++ x) post (by rw [e]; simp)
      rw [blen_append] at this
      rw [NS.piecesAt, List.mapM_cons, this]
      cases f with
      | true => rfl
      | false =>
        have hg : strGet t (blen pre) (blen pre + blen x) = some x :=
          strGet_eq_some.2 ⟨pre, ps.flatMap (·.1) ++ post, by rw [e]; simp, rfl, rfl⟩
        simp [hg]
  unfold replaceOne
  have := key ps [] [] (by rw [ht]; simp)
  rw [blen_nil, ← hf] at this
  rw [this, Option.map_some, List.flatMap_def]

end Tok.Dec
