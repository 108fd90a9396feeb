import Verif.Text.Lossy
import Verif.Pre.Pieces

/-!
# Model of `pre_tokenizers/byte_level.rs`; C29, C50
-/

namespace Tok.ByteLevel

/-! ### The alphabet -/

/-- `byte_level.rs:16-19`: `b'!'..=b'~'`, `b'\xA1'..=b'\xAC'`, `b'\xAE'..=b'\xFF'`. -/
def printable : List Nat := List.range' 33 94 ++ List.range' 161 12 ++ List.range' 174 82

/-- `byte_level.rs:24-30`: the loop over all bytes; `bs`, `cs`, `n` as in the code. -/
def extendLoop : List Nat → List Nat → List Nat → Nat → List Nat × List Nat
  | [], bs, cs, _ => (bs, cs)
  | b :: rest, bs, cs, n =>
    if b ∈ bs then extendLoop rest bs cs n
    else extendLoop rest (bs ++ [b]) (cs ++ [256 + n]) (n + 1)

/-- `byte_level.rs:15-39` `bytes_char`: byte and code point. -/
def bytesChar : AMap Nat Nat :=
  let r := extendLoop (List.range 256) printable printable 0
  r.1.zip r.2

/-- `BYTES_CHAR[&b]` (`byte_level.rs:47`). The lookup cannot fail (`C29_defined`). -/
def byteChar (b : UInt8) : Char := Char.ofNat ((bytesChar.get b.toNat).getD 0)

/-- `byte_level.rs:48-49` `CHAR_BYTES`: the pairs exchanged. -/
def charBytes : AMap Nat Nat := bytesChar.map fun p => (p.2, p.1)

/-- `CHAR_BYTES.get(&c)` (`byte_level.rs:48-49`). -/
def charByte (c : Char) : Option UInt8 :=
  (charBytes.get c.toNat).map UInt8.ofNat

/-- The byte-level form of a text. -/
def spell (s : Str) : Str := (strBytes s).map byteChar

/-! ### The pre-tokenizer -/

/-- `byte_level.rs:60-69`, without `trim_offsets`, which only the post-processor uses. -/
structure Config where
  addPrefixSpace : Bool
  useRegex : Bool

/-- The closure of `split` (`byte_level.rs:122-131`); `re` is what the regular expression matches in a text.
An error is a panic. -/
def splitFn (cfg : Config) (re : Str → List Range) (_ : Nat) (n : NS) : Except Unit (List Split) :=
  let n' := if cfg.addPrefixSpace && n.norm.head? ≠ some ' ' then n.prepend [' '] else some n
  match n' with
  | none => .error ()
  | some m =>
    if cfg.useRegex then
      match m.split (NS.findRegex (re m.norm) m.norm) .isolated with
      | none => .error ()
      | some out => .ok (out.map fun x => ⟨x, none⟩)
    else .ok [⟨m, none⟩]

/-- The closure of `normalize` (`byte_level.rs:132-147`): each character becomes one character per byte, all but
the first one inserted. -/
def normalizeFn (n : NS) : Except Unit NS :=
  match n.mapChars (fun c => (String.utf8EncodeChar c).map byteChar) with
  | none => .error ()
  | some m => .ok m

/-- `byte_level.rs:119-148` `ByteLevel::pre_tokenize`. -/
def preTokenize (cfg : Config) (re : Str → List Range) (p : PTS) : Except Unit PTS := do
  let p1 ← p.split (splitFn cfg re)
  p1.normalize normalizeFn

/-! ### The decoder -/

/-- `byte_level.rs:157-173` `ByteLevel::decode_chain`. -/
def decodeChain (tokens : List Str) : List Str :=
  [fromUtf8Lossy (tokens.flatMap fun t => (t.mapM charByte).getD (strBytes t))]

/-! ### The post-processor -/

/-- `byte_level.rs:204-235`: the closure of `process_offsets` for the token at index `i`; `ws` is
`char::is_whitespace`. -/
def trimOne (ws : Char → Bool) (addPrefixSpace : Bool) (i : Nat) (token : Str) (o : Range) : Range :=
  let isSp := fun c => c == byteChar 32 || ws c
  let leading := (token.takeWhile isSp).length
  let trailing := (token.reverse.takeWhile isSp).length
  if leading > 0 ∨ trailing > 0 then
    let o1 := if leading > 0 then
        let leading' := if (i = 0 ∨ o.1 = 0) ∧ addPrefixSpace = true ∧ leading = 1 then 0 else leading
        (min (o.1 + leading') o.2, o.2)
      else o
    if trailing > 0 ∧ o1.2 ≥ trailing then (o1.1, max (o1.2 - trailing) o1.1) else o1
  else o

/-- `byte_level.rs:203-236` `process_offsets` (with `encoding.rs:181-190`
`process_tokens_with_offsets_mut`). -/
def processOffsets (ws : Char → Bool) (addPrefixSpace : Bool) : Encoding → Encoding
  | .mk ids ty toks words offs sp at' ov sr =>
    .mk ids ty toks words ((toks.zip offs).zipIdx.map fun p => trimOne ws addPrefixSpace p.2 p.1.1 p.1.2)
      sp at' ov sr

/-- Replace the overflowing encodings. -/
def withOverflowing (f : List Encoding → List Encoding) : Encoding → Encoding
  | .mk ids ty toks words offs sp at' ov sr => .mk ids ty toks words offs sp at' (f ov) sr

/-- `byte_level.rs:181-200` `ByteLevel::process_encodings`. -/
def processEncodings (ws : Char → Bool) (addPrefixSpace trimOffsets : Bool) (es : List Encoding) :
    List Encoding :=
  let es := if trimOffsets then es.map fun e =>
      withOverflowing (fun ov => ov.map (processOffsets ws addPrefixSpace)) (processOffsets ws addPrefixSpace e)
    else es
  es.zipIdx.map fun p => p.1.setSequenceId p.2

/-! ## C29 -/

theorem table_ok : ∀ n < 256, ∃ c, bytesChar.get n = some c ∧ c < 512 ∧
    charBytes.get c = some n := by
  have : ∀ n < 256, (match bytesChar.get n with
      | none => false
      | some c => decide (c < 512) && decide (charBytes.get c = some n))
      = true := by decide +kernel
  intro n hn
  have := this n hn
  split at this
  · cases this
  · rename_i c hc
    simp only [Bool.and_eq_true, decide_eq_true_eq] at this
    exact ⟨c, hc, this.1, this.2⟩

theorem table_inv : ∀ c n, charBytes.get c = some n →
    n < 256 ∧ bytesChar.get n = some c := by
  have h1 : ∀ p ∈ (bytesChar : List (Nat × Nat)), p.1 < 256 ∧ bytesChar.get p.1 = some p.2 := by decide +kernel
  intro c n h
  have := AMap.mem_of_get_eq_some h
  simp only [charBytes, List.mem_map, Prod.mk.injEq] at this
  obtain ⟨p, hp, rfl, rfl⟩ := this
  exact h1 p hp

theorem ofNat_lt (c : Nat) (h : c < 512) : (Char.ofNat c).toNat = c := by
  have hv : c.isValidChar := .inl (by omega)
  simp [Char.ofNat, hv, Char.toNat, Char.ofNatAux]

/-- Every byte has a character (`BYTES_CHAR[&b]` does not panic). -/
theorem C29_defined (b : UInt8) : (bytesChar.get b.toNat).isSome := by
  obtain ⟨c, h, -⟩ := table_ok b.toNat b.toNat_lt
  simp [h]

/-- **C29.** `CHAR_BYTES` inverts `BYTES_CHAR` … -/
theorem C29_inverse (b : UInt8) : charByte (byteChar b) = some b := by
  obtain ⟨c, h1, h2, h3⟩ := table_ok b.toNat b.toNat_lt
  simp [charByte, byteChar, h1, ofNat_lt c h2, h3]

/-- … and is defined on nothing else. -/
theorem C29_inverse' {c : Char} {b : UInt8} (h : charByte c = some b) : byteChar b = c := by
  unfold charByte at h
  cases hg : charBytes.get c.toNat with
  | none => rw [hg] at h; cases h
  | some n =>
    rw [hg] at h
    simp only [Option.map_some, Option.some.injEq] at h
    obtain ⟨h1, h2⟩ := table_inv _ _ hg
    subst h
    simp [byteChar, Nat.mod_eq_of_lt h1, h2]

/-- **C29.** The 256 characters are different. -/
theorem C29_distinct {b b' : UInt8} (h : byteChar b = byteChar b') : b = b' := by
  have := C29_inverse b
  rw [h, C29_inverse b'] at this
  exact (Option.some.inj this).symm

/-- The bytes shown as themselves: `!` to `~`, `¡` to `¬`, `®` to `ÿ`. -/
def Visible (n : Nat) : Prop := (33 ≤ n ∧ n ≤ 126) ∨ (161 ≤ n ∧ n ≤ 172) ∨ (174 ≤ n ∧ n ≤ 255)

instance (n : Nat) : Decidable (Visible n) := inferInstanceAs (Decidable (_ ∨ _))

/-- **C29.** The alphabet: a visible byte is the character of that number, the others are numbered from 256 on
in increasing order. -/
theorem C29_alphabet (b : UInt8) : (byteChar b).toNat =
    if Visible b.toNat then b.toNat
    else 256 + ((List.range b.toNat).filter fun n => ¬ Visible n).length := by
  have : ∀ n < 256, (bytesChar.get n).getD 0 = (if Visible n then n
      else 256 + ((List.range n).filter fun n => ¬ Visible n).length) := by decide +kernel
  obtain ⟨c, h1, h2, _⟩ := table_ok b.toNat b.toNat_lt
  rw [← this b.toNat b.toNat_lt, byteChar, h1]
  exact ofNat_lt c h2

theorem mapM_charByte : ∀ bs : List UInt8, (bs.map byteChar).mapM charByte = some bs
  | [] => rfl
  | b :: bs => by
    rw [List.map_cons, List.mapM_cons, C29_inverse, mapM_charByte bs]; rfl

/-- Cutting a byte-level text anywhere gives the byte-level forms of consecutive byte sequences. -/
theorem pieces_bytes : ∀ (toks : List Str) (bs : List UInt8), toks.flatten = bs.map byteChar →
    ∃ bss : List (List UInt8), toks = bss.map (·.map byteChar) ∧ bss.flatten = bs
  | [], bs, h => by
    have : bs = [] := by simpa using h.symm
    exact ⟨[], rfl, by simp [this]⟩
  | t :: ts, bs, h => by
    simp only [List.flatten_cons] at h
    obtain ⟨b1, b2, rfl, h1, h2⟩ := List.map_eq_append_iff.1 h.symm
    obtain ⟨bss, h3, h4⟩ := pieces_bytes ts b2 h2.symm
    exact ⟨b1 :: bss, by simp [h1, h3], by simp [h4]⟩

/-- **C29.** However the byte-level form of a text is cut into tokens, decoding gives the text back. -/
theorem C29_roundtrip (s : Str) (toks : List Str) (h : toks.flatten = spell s) : decodeChain toks = [s] := by
  obtain ⟨bss, rfl, h2⟩ := pieces_bytes toks _ h
  have : ((bss.map (·.map byteChar)).flatMap fun t => (t.mapM charByte).getD (strBytes t)) = bss.flatten := by
    rw [List.flatMap_map, List.flatMap_def]
    congr 1
    conv => rhs; rw [← List.map_id bss]
    apply List.map_congr_left
    intro t _
    rw [mapM_charByte]; rfl
  rw [decodeChain, this, h2, fromUtf8Lossy_strBytes]

/-- A token containing a character outside the alphabet stands for itself. -/
theorem C29_foreign (t : Str) (h : ∃ c ∈ t, charByte c = none) : decodeChain [t] = [t] := by
  have : t.mapM charByte = none := by
    obtain ⟨c, hc, hn⟩ := h
    induction t with
    | nil => simp at hc
    | cons d t ih =>
      rw [List.mapM_cons]
      rcases List.mem_cons.1 hc with rfl | hc
      · simp [hn]
      · cases charByte d with
        | none => rfl
        | some b => simp [ih hc]
  simp [decodeChain, this, fromUtf8Lossy_strBytes]

/-- `é` is the bytes C3 A9, spelled `Ã©`; cut between them. The space is `Ġ`. -/
example : spell "é ".toList = "Ã©Ġ".toList ∧
    decodeChain ["Ã".toList, "©Ġ".toList] = ["é ".toList] := by decide +kernel

/-! ### The pre-tokenizer -/

theorem spell_append (a b : Str) : spell (a ++ b) = spell a ++ spell b := by simp [spell]

theorem spell_eq_flatMap (s : Str) : s.flatMap (fun c => (String.utf8EncodeChar c).map byteChar) = spell s := by
  unfold spell strBytes
  rw [List.map_flatMap]

theorem normalizeFn_good {whole : Str} {n : NS} (h : n.Good whole) :
    ∃ m, normalizeFn n = .ok m ∧ m.norm = spell n.norm ∧ m.Good whole := by
  obtain ⟨m, h1, h2, h3, _⟩ := NS.mapChars_good h (f := fun c => (String.utf8EncodeChar c).map byteChar)
    (fun c hc => by
      have := congrArg List.length hc
      have hp := c.utf8Size_pos
      simp at this
      omega)
  exact ⟨m, by simp [normalizeFn, h1], by rw [h2, spell_eq_flatMap], h3⟩

/-- The text with the space in front that `add_prefix_space` asks for. -/
def withSpace (addPrefixSpace : Bool) (t : Str) : Str :=
  if addPrefixSpace = true ∧ t ≠ [] ∧ t.head? ≠ some ' ' then ' ' :: t else t

theorem splitFn_good {whole : Str} (cfg : Config) {re : Str → List Range}
    (hre : ∀ s, NS.EngineMatches s 0 (re s)) {n : NS} (h : n.Good whole) (i : Nat) :
    ∃ o, splitFn cfg re i n = .ok o ∧ o.flatMap (·.normalized.norm) = withSpace cfg.addPrefixSpace n.norm ∧
      ∀ x ∈ o, x.tokens = none ∧ (x.normalized.norm ≠ [] → x.normalized.Good whole) := by
  have hpre : ∃ m, (if cfg.addPrefixSpace && n.norm.head? ≠ some ' ' then n.prepend [' '] else some n) = some m ∧
      m.norm = withSpace cfg.addPrefixSpace n.norm ∧ m.Good whole := by
    unfold withSpace
    by_cases hc : cfg.addPrefixSpace = true ∧ n.norm.head? ≠ some ' '
    · obtain ⟨m, h1, h2, h3⟩ := NS.prepend_good h (s := [' ']) (by simp)
      refine ⟨m, by rw [if_pos (by simpa using hc)]; exact h1, ?_, h3⟩
      rw [h2]
      by_cases hn : n.norm = []
      · rw [if_pos hn, if_neg (by simp [hn]), hn]
      · rw [if_neg hn, if_pos ⟨hc.1, hn, hc.2⟩]; rfl
    · refine ⟨n, by rw [if_neg (by simpa using hc)], ?_, h⟩
      rw [if_neg (by rintro ⟨h1, _, h2⟩; exact hc ⟨h1, h2⟩)]
  obtain ⟨m, h1, h2, h3⟩ := hpre
  unfold splitFn
  simp only [h1]
  by_cases hu : cfg.useRegex = true
  · obtain ⟨ps, out, g1, g2, g3, g4, g5⟩ := NS.split_good h3 (NS.C12_regex (hre m.norm)).1 .isolated
    rw [if_pos hu, g3]
    refine ⟨_, rfl, ?_, ?_⟩
    · rw [← h2, g2, List.flatMap_map]
      have := NS.C11_partition .isolated ps
      rw [← g4] at this
      rw [List.flatMap_def, this]
      simp
    · intro x hx
      obtain ⟨y, hy, rfl⟩ := List.mem_map.1 hx
      exact ⟨rfl, g5 y hy⟩
  · rw [if_neg hu]
    refine ⟨_, rfl, by simp [h2], ?_⟩
    intro x hx
    simp only [List.mem_singleton] at hx
    subst hx
    exact ⟨rfl, fun _ => h3⟩

/-- **C29.** The byte-level pre-tokenizer never panics, and its pieces, put together, spell the bytes of each
text it was given, with the space in front when asked for. Pieces already tokenized stay. The regular
expression engine is only assumed to report matches in order. -/
theorem C29_pretokenize (cfg : Config) {re : Str → List Range} (hre : ∀ s, NS.EngineMatches s 0 (re s))
    {p : PTS} (hp : p.Good) :
    ∃ p', preTokenize cfg re p = .ok p' ∧ p'.original = p.original ∧ p'.Good ∧
      p'.text = p.splits.flatMap fun s => if s.tokens.isSome then s.normalized.norm
        else spell (withSpace cfg.addPrefixSpace s.normalized.norm) := by
  obtain ⟨p1, h1, h2, h3, _, h5⟩ := PTS.split_good hp (f := splitFn cfg re)
    (fun n => withSpace cfg.addPrefixSpace n.norm) (fun n i hn => splitFn_good cfg hre hn i)
  obtain ⟨p2, g1, g2, g3, g4, _⟩ := PTS.normalize_good h3 (f := normalizeFn) (fun n => spell n.norm)
    (fun n hn => normalizeFn_good hn)
  refine ⟨p2, ?_, g2.trans h2, g3, ?_⟩
  · unfold preTokenize; rw [h1]; exact g1
  · rw [g4, h5 spell rfl spell_append]; rfl

/-- **C29.** From text to byte-level pieces, to tokens cut out of them in any way, and back. -/
theorem C29_lossless (cfg : Config) {re : Str → List Range} (hre : ∀ s, NS.EngineMatches s 0 (re s)) (s : Str) :
    ∃ p', preTokenize cfg re (PTS.ofStr s) = .ok p' ∧
      ∀ toks : List Str, toks.flatten = p'.text → decodeChain toks = [withSpace cfg.addPrefixSpace s] := by
  obtain ⟨p', h1, _, _, h4⟩ := C29_pretokenize cfg hre (PTS.good_ofStr s)
  refine ⟨p', h1, fun toks ht => C29_roundtrip _ _ ?_⟩
  rw [ht, h4]
  simp [PTS.ofStr, PTS.ofNS, NS.ofStr]

/-- With the two words of "é b" as matches: pieces `ĠÃ©` and `Ġb`. -/
example : let re : Str → List Range := fun s => if s = " é b".toList then [(0, 3), (3, 5)] else []
    (∀ s, NS.EngineMatches s 0 (re s)) ∧
    ∃ p', preTokenize ⟨true, true⟩ re (PTS.ofStr "é b".toList) = .ok p' ∧
      p'.splits.map (·.normalized.norm) = ["ĠÃ©".toList, "Ġb".toList] ∧
      p'.splits.map (·.normalized.offsetsOriginal) = [(0, 2), (2, 4)] := by
  refine ⟨fun s => ?_, _, rfl, by decide +kernel, by decide +kernel⟩
  by_cases hs : s = " é b".toList
  · subst hs
    show NS.EngineMatches _ 0 (if " é b".toList = " é b".toList then [(0, 3), (3, 5)] else [])
    rw [if_pos rfl]
    exact ⟨by decide, by decide, ⟨[], _, rfl, rfl⟩, ⟨" é".toList, " b".toList, by decide, by decide⟩,
      by decide, by decide, ⟨" é".toList, " b".toList, by decide, by decide⟩,
      ⟨" é b".toList, [], by decide, by decide⟩, trivial⟩
  · simp only [if_neg hs]; trivial

/-! ## C50 -/

/-- Whitespace as the post-processor sees it. -/
def Blank (ws : Char → Bool) (c : Char) : Prop := c = 'Ġ' ∨ ws c = true

/-- How many characters of the start of `t` satisfy `P`: the longest such prefix has length `k`. -/
def LeadingRun (P : Char → Prop) (t : Str) (k : Nat) : Prop :=
  ∃ a b, t = a ++ b ∧ a.length = k ∧ (∀ c ∈ a, P c) ∧ ∀ c ∈ b.head?, ¬ P c

theorem byteChar_space : byteChar 32 = 'Ġ' := by decide +kernel

theorem leadingRun_takeWhile {P : Char → Prop} {f : Char → Bool} (h : ∀ c, f c = true ↔ P c) (t : Str) :
    LeadingRun P t (t.takeWhile f).length := by
  refine ⟨t.takeWhile f, t.dropWhile f, (List.takeWhile_append_dropWhile).symm, rfl, ?_, ?_⟩
  · intro c hc
    exact (h c).1 (List.all_eq_true.1 (List.all_takeWhile ..) c hc)
  · intro c hc hp
    have := List.head?_dropWhile_not f t
    rw [Option.mem_def.1 hc] at this
    simp [(h c).2 hp] at this

theorem leadingRun_unique {P : Char → Prop} {t : Str} {j k : Nat} (h : LeadingRun P t j) (h' : LeadingRun P t k) :
    j = k := by
  obtain ⟨a, b, e, rfl, h1, h2⟩ := h
  obtain ⟨c, d, e', rfl, h3, h4⟩ := h'
  rw [e] at e'
  rcases Nat.lt_trichotomy a.length c.length with hl | hl | hl
  · exfalso
    obtain ⟨u, rfl, rfl⟩ | ⟨u, rfl, rfl⟩ := List.append_eq_append_iff.1 e'
    · cases u with
      | nil => simp at hl
      | cons x u => exact h2 x rfl (h3 x (by simp))
    · simp at hl; omega
  · exact hl
  · exfalso
    obtain ⟨u, rfl, rfl⟩ | ⟨u, rfl, rfl⟩ := List.append_eq_append_iff.1 e'
    · simp at hl; omega
    · cases u with
      | nil => simp at hl
      | cons x u => exact h4 x rfl (h1 x (by simp))

/-- **C50.** The trimmed offsets in terms of `lead` and `trail`, the numbers of blank characters at the two
ends of the token: move the start by `lead` (unless it is the single space `add_prefix_space` put in front of
the first token), the end back by `trail`, never past each other. -/
theorem C50_trim (ws : Char → Bool) (aps : Bool) (i : Nat) (token : Str) (o : Range) {lead trail : Nat}
    (hl : LeadingRun (Blank ws) token lead) (ht : LeadingRun (Blank ws) token.reverse trail)
    (ho : o.1 ≤ o.2) :
    let skip := if (i = 0 ∨ o.1 = 0) ∧ aps = true ∧ lead = 1 then 0 else lead
    let o' := trimOne ws aps i token o
    o'.1 = min (o.1 + skip) o.2 ∧
    o'.2 = if trail ≤ o.2 then max (o.2 - trail) o'.1 else o.2 := by
  have hf : ∀ c, (fun c => c == byteChar 32 || ws c) c = true ↔ Blank ws c := by
    intro c; simp [Blank, byteChar_space]
  have e1 := leadingRun_unique hl (leadingRun_takeWhile hf token)
  have e2 := leadingRun_unique ht (leadingRun_takeWhile hf token.reverse)
  subst e1 e2
  unfold trimOne
  simp only
  generalize (token.takeWhile fun c => c == byteChar 32 || ws c).length = L
  generalize (token.reverse.takeWhile fun c => c == byteChar 32 || ws c).length = T
  obtain ⟨x, y⟩ := o
  simp only at ho ⊢
  split
  · split
    · split <;> split <;> constructor <;> simp only <;> (repeat' split) <;> omega
    · split <;> split <;> constructor <;> simp only <;> (repeat' split) <;> omega
  · split <;> constructor <;> (repeat' split) <;> omega

/-- **C50.** Trimmed offsets stay inside the offsets of the token and stay ordered. -/
theorem C50_inside (ws : Char → Bool) (aps : Bool) (i : Nat) (token : Str) (o : Range) (ho : o.1 ≤ o.2) :
    let o' := trimOne ws aps i token o
    o.1 ≤ o'.1 ∧ o'.1 ≤ o'.2 ∧ o'.2 ≤ o.2 := by
  have hf : ∀ c, (fun c => c == byteChar 32 || ws c) c = true ↔ Blank ws c := by
    intro c; simp [Blank, byteChar_space]
  have := C50_trim ws aps i token o (leadingRun_takeWhile hf token) (leadingRun_takeWhile hf token.reverse) ho
  simp only at this ⊢
  generalize trimOne ws aps i token o = o' at this
  generalize (token.takeWhile _).length = L at this
  generalize (token.reverse.takeWhile _).length = T at this
  obtain ⟨h1, h2⟩ := this
  split at h1 <;> split at h2 <;> omega

/-- **C50.** Without blank characters at its ends a token keeps its offsets. -/
theorem C50_unchanged (ws : Char → Bool) (aps : Bool) (i : Nat) (token : Str) (o : Range)
    (h1 : ∀ c ∈ token.head?, ¬ Blank ws c) (h2 : ∀ c ∈ token.getLast?, ¬ Blank ws c) :
    trimOne ws aps i token o = o := by
  have hf : ∀ c, (fun c => c == byteChar 32 || ws c) c = true ↔ Blank ws c := by
    intro c; simp [Blank, byteChar_space]
  have e1 := leadingRun_unique (leadingRun_takeWhile hf token) ⟨[], token, rfl, rfl, by simp, h1⟩
  have e2 := leadingRun_unique (leadingRun_takeWhile hf token.reverse)
    ⟨[], token.reverse, rfl, rfl, by simp, by rwa [List.head?_reverse]⟩
  unfold trimOne
  simp only [e1, e2]
  rfl

/-- **C50.** Post-processing keeps every field of the encoding and of its overflowing encodings except the
offsets, which become the trimmed ones. -/
theorem C50_process (ws : Char → Bool) (aps : Bool) (e : Encoding) (hlen : e.offsets.length = e.tokens.length) :
    let e' := processOffsets ws aps e
    e'.ids = e.ids ∧ e'.typeIds = e.typeIds ∧ e'.tokens = e.tokens ∧ e'.words = e.words ∧
    e'.specialMask = e.specialMask ∧ e'.attnMask = e.attnMask ∧ e'.overflowing = e.overflowing ∧
    e'.seqRanges = e.seqRanges ∧ e'.offsets.length = e.offsets.length ∧
    ∀ i t o, e.tokens[i]? = some t → e.offsets[i]? = some o →
      e'.offsets[i]? = some (trimOne ws aps i t o) := by
  obtain ⟨ids, ty, toks, words, offs, sp, at', ov, sr⟩ := e
  simp only [processOffsets, Encoding.offsets, Encoding.tokens] at hlen ⊢
  refine ⟨rfl, rfl, trivial, rfl, rfl, rfl, rfl, rfl, by simp; omega, ?_⟩
  intro i t o ht ho
  have hz : (toks.zip offs)[i]? = some (t, o) := List.getElem?_zip_eq_some.2 ⟨ht, ho⟩
  simp [List.getElem?_map, List.getElem?_zipIdx, hz]

/-- **C50.** Over a batch: with trimming the encodings and their direct overflowing encodings are trimmed,
without it they stay; then each gets its index as sequence id. -/
theorem C50_batch (ws : Char → Bool) (aps trim : Bool) (es : List Encoding) :
    processEncodings ws aps trim es = es.zipIdx.map fun p =>
      (if trim then
        withOverflowing (·.map (processOffsets ws aps)) (processOffsets ws aps p.1)
      else p.1).setSequenceId p.2 := by
  unfold processEncodings
  cases trim
  · simp
  · simp [List.zipIdx_map, List.map_map, Function.comp_def]

/-- `ĠĠhi` at 3..7 becomes 5..7; the first `Ġhi` at 0..2 (its space was added) stays, `Ġ` at 2..3 becomes
empty. -/
example : trimOne (fun _ => false) true 1 "ĠĠhi".toList (3, 7) = (5, 7) ∧
    trimOne (fun _ => false) true 0 "Ġhi".toList (0, 2) = (0, 2) ∧
    trimOne (fun _ => false) false 0 "Ġ".toList (2, 3) = (3, 3) ∧
    trimOne (fun _ => false) true 4 "hiĠ".toList (5, 8) = (5, 7) := by decide +kernel

end Tok.ByteLevel
