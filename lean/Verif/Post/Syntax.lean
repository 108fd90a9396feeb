import Verif.Post.Bert

/-!
# C51: template strings; C52: encoding without a post-processor
-/

namespace Tok.Post
open Encoding

/-! ## Decimal numbers -/

theorem digitsVal_eq : ∀ (l : Str) (acc : Nat), (∀ c ∈ l, c.isDigit = true) →
    digitsVal acc l = some (Nat.ofDigitChars 10 l acc) := by
  intro l
  induction l with
  | nil => intro acc _; rfl
  | cons c cs ih =>
    intro acc h
    have hc := h c List.mem_cons_self
    rw [Char.isDigit, Bool.and_eq_true, decide_eq_true_eq, decide_eq_true_eq] at hc
    have h1 : 48 ≤ c.toNat ∧ c.toNat ≤ 57 := ⟨UInt32.le_iff_toNat_le.1 hc.1, UInt32.le_iff_toNat_le.1 hc.2⟩
    rw [digitsVal, if_pos h1, ih _ fun x hx => h x (List.mem_cons_of_mem _ hx)]
    simp only [Nat.ofDigitChars, List.foldl_cons]
    rw [show acc * 10 + (c.toNat - 48) = 10 * acc + (c.toNat - '0'.toNat) by
      rw [Nat.mul_comm]; rfl]

theorem digits_all (n : Nat) : ∀ c ∈ Nat.toDigits 10 n, c.isDigit = true :=
  fun _ hc => Nat.isDigit_of_mem_toDigits (by omega) (by omega) hc

theorem parseU32_toDigits {n : Nat} (h : n < 4294967296) : parseU32 (Nat.toDigits 10 n) = some n := by
  have hne : Nat.toDigits 10 n ≠ [] := Nat.toDigits_ne_nil
  have hds : dropPlus (Nat.toDigits 10 n) = Nat.toDigits 10 n := by
    unfold dropPlus
    split
    · rename_i rest heq
      have := digits_all n '+' (by rw [heq]; exact List.mem_cons_self)
      simp at this
    · rfl
  unfold parseU32
  rw [hds]
  simp only [List.isEmpty_iff, hne, if_false]
  rw [digitsVal_eq _ _ (digits_all n), Nat.ofDigitChars_ten_toDigits]
  simp [h]

/-! ## Writing templates -/

/-- A piece as text, with its type id. -/
def writePiece : Piece → Str
  | .sequence .A ty => ['$', 'A', ':'] ++ Nat.toDigits 10 ty
  | .sequence .B ty => ['$', 'B', ':'] ++ Nat.toDigits 10 ty
  | .special id ty => id ++ ':' :: Nat.toDigits 10 ty

/-- Pieces separated by single spaces. -/
def writeTemplate : List Piece → Str
  | [] => []
  | [p] => writePiece p
  | p :: ps => writePiece p ++ ' ' :: writeTemplate ps

/-- Pieces that can be written: 32-bit type ids, and identifiers without `:` and spaces that do not begin
with `$`. -/
def Writable : Piece → Prop
  | .sequence _ ty => ty < 4294967296
  | .special id ty => ty < 4294967296 ∧ ':' ∉ id ∧ ' ' ∉ id ∧ id.head? ≠ some '$'

theorem splitOnChar_ne_nil (c : Char) : ∀ l, splitOnChar c l ≠ [] := by
  intro l
  cases l with
  | nil => simp [splitOnChar]
  | cons x xs =>
    rw [splitOnChar]
    split
    · simp
    · split <;> simp

theorem splitOnChar_not_mem {c : Char} : ∀ {l : Str}, c ∉ l → splitOnChar c l = [l] := by
  intro l
  induction l with
  | nil => intro _; rfl
  | cons x xs ih =>
    intro h
    rw [splitOnChar, ih (fun hm => h (List.mem_cons_of_mem _ hm))]
    simp only
    rw [if_neg]
    rintro rfl; exact h List.mem_cons_self

theorem splitOnChar_append {c : Char} : ∀ {l : Str} (r : Str), c ∉ l →
    splitOnChar c (l ++ c :: r) = l :: splitOnChar c r := by
  intro l
  induction l with
  | nil =>
    intro r _
    rw [List.nil_append, splitOnChar]
    cases h : splitOnChar c r with
    | nil => exact absurd h (splitOnChar_ne_nil c r)
    | cons p ps => simp
  | cons x xs ih =>
    intro r h
    rw [List.cons_append, splitOnChar, ih r fun hm => h (List.mem_cons_of_mem _ hm)]
    simp only
    rw [if_neg]
    rintro rfl; exact h List.mem_cons_self

theorem not_mem_digits {c : Char} (h : c.isDigit = false) (n : Nat) : c ∉ Nat.toDigits 10 n := by
  intro hm; rw [digits_all n c hm] at h; cases h

theorem extractId_special {id : Str} (h : id.head? ≠ some '$') : extractId id = some (.special id 0) := by
  unfold extractId
  split
  · simp at h
  · rfl

theorem parse_writePiece {p : Piece} (h : Writable p) : parsePiece (writePiece p) = some p := by
  have hd : ∀ n, ':' ∉ Nat.toDigits 10 n := not_mem_digits (by decide)
  cases p with
  | sequence s ty =>
    cases s with
    | A =>
      have : splitOnChar ':' (writePiece (.sequence .A ty)) = [['$', 'A'], Nat.toDigits 10 ty] := by
        show splitOnChar ':' (['$', 'A'] ++ ':' :: Nat.toDigits 10 ty) = _
        rw [splitOnChar_append _ (by decide), splitOnChar_not_mem (hd ty)]
      rw [parsePiece, this]
      simp only
      rw [parseU32_toDigits h]
      rfl
    | B =>
      have : splitOnChar ':' (writePiece (.sequence .B ty)) = [['$', 'B'], Nat.toDigits 10 ty] := by
        show splitOnChar ':' (['$', 'B'] ++ ':' :: Nat.toDigits 10 ty) = _
        rw [splitOnChar_append _ (by decide), splitOnChar_not_mem (hd ty)]
      rw [parsePiece, this]
      simp only
      rw [parseU32_toDigits h]
      rfl
  | special id ty =>
    obtain ⟨h1, h2, h3, h4⟩ := h
    have : splitOnChar ':' (writePiece (.special id ty)) = [id, Nat.toDigits 10 ty] := by
      show splitOnChar ':' (id ++ ':' :: Nat.toDigits 10 ty) = _
      rw [splitOnChar_append _ h2, splitOnChar_not_mem (hd ty)]
    rw [parsePiece, this]
    simp only
    rw [parseU32_toDigits h1, extractId_special h4]
    rfl

theorem space_not_mem {p : Piece} (h : Writable p) : ' ' ∉ writePiece p := by
  have hd : ∀ n, ' ' ∉ Nat.toDigits 10 n := not_mem_digits (by decide)
  cases p with
  | sequence s ty => cases s <;> simp [writePiece, hd ty]
  | special id ty => simp [writePiece, hd ty, h.2.2.1]

theorem split_writeTemplate : ∀ {ps : List Piece}, ps ≠ [] → (∀ p ∈ ps, Writable p) →
    splitOnChar ' ' (writeTemplate ps) = ps.map writePiece := by
  intro ps
  induction ps with
  | nil => intro h _; exact absurd rfl h
  | cons p ps ih =>
    intro _ h
    have hp := space_not_mem (h p List.mem_cons_self)
    cases ps with
    | nil => simp [writeTemplate, splitOnChar_not_mem hp]
    | cons q qs =>
      rw [writeTemplate]
      · rw [splitOnChar_append _ hp, ih (by simp) fun x hx => h x (List.mem_cons_of_mem _ hx)]
        rfl
      · simp

/-- **C51.** Writing a non-empty template and reading it back gives the template. -/
theorem C51_roundtrip {ps : List Piece} (hne : ps ≠ []) (h : ∀ p ∈ ps, Writable p) :
    parseTemplate (writeTemplate ps) = some ps := by
  rw [parseTemplate, split_writeTemplate hne h]
  clear hne
  induction ps with
  | nil => rfl
  | cons p ps ih =>
    rw [List.map_cons, List.mapM_cons, parse_writePiece (h p List.mem_cons_self),
      ih fun x hx => h x (List.mem_cons_of_mem _ hx)]
    rfl

example : (∀ p ∈ [Piece.special "[CLS]".toList 0, .sequence .A 12, .special "[SEP]".toList 0, .sequence .B 1],
    Writable p) ∧
    writeTemplate [.special "[CLS]".toList 0, .sequence .A 12, .special "[SEP]".toList 0, .sequence .B 1] =
      "[CLS]:0 $A:12 [SEP]:0 $B:1".toList := by
  constructor
  · intro p hp
    simp only [List.mem_cons, List.not_mem_nil, or_false] at hp
    rcases hp with rfl | rfl | rfl | rfl <;> simp [Writable]
  · decide +kernel

/-- **C51 (short forms).** Without a type id it is 0; `$` and `$A` are the first sequence, `$B` the
second, and `$` with a number is the first sequence with that type id. -/
theorem C51_short_forms :
    (∀ id : Str, ':' ∉ id → id.head? ≠ some '$' → parsePiece id = some (.special id 0)) ∧
    parsePiece ['$'] = some (.sequence .A 0) ∧ parsePiece ['$', 'A'] = some (.sequence .A 0) ∧
    parsePiece ['$', 'B'] = some (.sequence .B 0) ∧
    (∀ n, n < 4294967296 → parsePiece ('$' :: Nat.toDigits 10 n) = some (.sequence .A n)) := by
  refine ⟨?_, rfl, rfl, rfl, ?_⟩
  · intro id h1 h2
    rw [parsePiece, splitOnChar_not_mem h1]
    exact extractId_special h2
  · intro n hn
    have h1 : ':' ∉ '$' :: Nat.toDigits 10 n := by
      simp [not_mem_digits (c := ':') (by decide) n]
    rw [parsePiece, splitOnChar_not_mem h1]
    have h2 : Nat.toDigits 10 n ≠ [] := Nat.toDigits_ne_nil
    have h3 : ∀ c : Char, c.isDigit = false → Nat.toDigits 10 n ≠ [c] := by
      intro c hc h
      exact not_mem_digits hc n (by rw [h]; exact List.mem_cons_self)
    show (if Nat.toDigits 10 n = [] then _ else _) = _
    rw [if_neg h2, if_neg (by
      rintro (h | h)
      · exact h3 'A' (by decide) h
      · exact h3 'a' (by decide) h), if_neg (by
      rintro (h | h)
      · exact h3 'B' (by decide) h
      · exact h3 'b' (by decide) h), parseU32_toDigits hn]
    rfl

/-- **C51 (rejections).** Two colons in a piece, a type id that is not a number, or an unknown sequence
name make the whole template an error. -/
theorem C51_rejects {s : Str} {piece : Str} (hm : piece ∈ splitOnChar ' ' s)
    (h : (∃ a b c, piece = a ++ ':' :: (b ++ ':' :: c)) ∨
      (∃ id ty, piece = id ++ ':' :: ty ∧ ':' ∉ id ∧ ':' ∉ ty ∧ parseU32 ty = none) ∨
      (∃ x, piece = '$' :: x ∧ ':' ∉ x ∧ x ∉ [[], ['A'], ['a'], ['B'], ['b']] ∧ parseU32 x = none)) :
    parseTemplate s = none := by
  have count : ∀ (c : Char) (l : Str), (splitOnChar c l).length = l.count c + 1 := by
    intro c l
    induction l with
    | nil => simp [splitOnChar]
    | cons x xs ih =>
      rw [splitOnChar]
      cases hs : splitOnChar c xs with
      | nil => exact absurd hs (splitOnChar_ne_nil c xs)
      | cons p ps =>
        rw [hs] at ih
        simp only [List.length_cons] at ih
        simp only
        split
        · rename_i heq; subst heq; simp; omega
        · rename_i hne
          rw [List.count_cons_of_ne hne]; simp; omega
  have hbad : parsePiece piece = none := by
    rcases h with ⟨a, b, c, rfl⟩ | ⟨id, ty, rfl, h1, h2, h3⟩ | ⟨x, rfl, h1, h2, h3⟩
    · have h1 := count ':' (a ++ ':' :: (b ++ ':' :: c))
      simp only [List.count_append, List.count_cons_self] at h1
      rw [parsePiece]
      split
      · rename_i heq; rw [heq] at h1; simp at h1; omega
      · rename_i heq; rw [heq] at h1; simp at h1
      · rfl
    · rw [parsePiece, splitOnChar_append _ h1, splitOnChar_not_mem h2]
      simp [h3]
    · rw [parsePiece, splitOnChar_not_mem (by simp [h1])]
      show extractId ('$' :: x) = none
      simp only [List.mem_cons, List.not_mem_nil, or_false, not_or] at h2
      simp [extractId, h2, h3]
  rw [parseTemplate]
  generalize splitOnChar ' ' s = l at hm
  induction l with
  | nil => simp at hm
  | cons x xs ih =>
    rw [List.mapM_cons]
    rcases List.mem_cons.1 hm with rfl | hm
    · rw [hbad]; rfl
    · rw [ih hm]
      cases parsePiece x <;> rfl

example : parseTemplate "[CLS]:0 $A:1:2".toList = none ∧ parseTemplate "$C".toList = none := by
  constructor <;> decide +kernel

/-- **C51 (finding).** The empty text is not the empty template: it asks for a special token with an empty
name. -/
theorem C51_empty : parseTemplate [] = some [.special [] 0] := rfl

/-! ## No post-processor -/

/-- **C52 (one input).** Without a post-processor a single encoding is returned unchanged. -/
theorem C52_single (e : Encoding) : defaultProcess [e] = [e] := rfl

/-- **C52 (pair).** Without a post-processor a pair becomes one encoding: the tokens of the first followed
by those of the second, nothing inserted or changed, sequence 0 being the first and sequence 1 the second;
and the parts of the result are the combinations of a part of each, laid out in the same way. -/
theorem C52_pair {a b : Encoding} (ha : a.WF) (hb : b.WF) (hfa : a.seqRanges = []) (hfb : b.seqRanges = []) :
    ∃ out, defaultProcess [a, b] = [out] ∧ out.rows = a.rows ++ b.rows ∧
      out.seqRanges.get 0 = some (0, a.len) ∧ out.seqRanges.get 1 = some (a.len, a.len + b.len) ∧
      (∀ q, 2 ≤ q → out.seqRanges.get q = none) ∧
      out.parts.length = a.parts.length * b.parts.length ∧
      (∀ o ∈ out.parts, ∃ x ∈ a.parts, ∃ y ∈ b.parts, o.rows = x.rows ++ y.rows) := by
  have hpa : ∀ {e : Encoding} (q : Nat) {x : Encoding}, e.WF → x ∈ (e.setSequenceId q).parts →
      ∃ x' ∈ e.parts, x.rows = x'.rows ∧ x.WF := by
    intro e q x he hx
    rcases List.mem_cons.1 hx with rfl | h
    · exact ⟨e, by simp [parts], setSequenceId_rows e q, setSequenceId_wf he q⟩
    · have : x ∈ e.overflowing := by cases e; exact h
      exact ⟨x, by simp [parts, this], rfl, he.over x this⟩
  refine ⟨merge [a.setSequenceId 0, b.setSequenceId 1] false, rfl, ?_, ?_, ?_, ?_, ?_, ?_⟩
  · rw [C05_merge_list (by
      intro x hx
      simp only [List.mem_cons, List.not_mem_nil, or_false] at hx
      rcases hx with rfl | rfl
      · exact setSequenceId_wf ha 0
      · exact setSequenceId_wf hb 1)]
    simp [setSequenceId_rows]
  all_goals try
    rw [merge_ranges false _ _ (by
      intro x hx
      simp only [List.mem_cons, List.not_mem_nil, or_false] at hx
      rcases hx with rfl | rfl
      · rw [setSequenceId_seqRanges _ _ hfa]; simp [AMap.WF]
      · rw [setSequenceId_seqRanges _ _ hfb]; simp [AMap.WF])]
    simp [rangeFrom, setSequenceId_seqRanges _ _ hfa, setSequenceId_seqRanges _ _ hfb, AMap.get,
      setSequenceId_len]
  · intro q hq
    rw [merge_ranges false _ _ (by
      intro x hx
      simp only [List.mem_cons, List.not_mem_nil, or_false] at hx
      rcases hx with rfl | rfl
      · rw [setSequenceId_seqRanges _ _ hfa]; simp [AMap.WF]
      · rw [setSequenceId_seqRanges _ _ hfb]; simp [AMap.WF])]
    have h0 : ¬ 0 = q := by omega
    have h1 : ¬ 1 = q := by omega
    simp [rangeFrom, setSequenceId_seqRanges _ _ hfa, setSequenceId_seqRanges _ _ hfb, AMap.get, h0, h1]
  · rw [C05_merge_list_count]
    simp only [List.map_cons, List.map_nil, List.foldl_cons, List.foldl_nil, Nat.one_mul]
    cases a; cases b; rfl
  · intro o ho
    obtain ⟨cs, hc, rfl⟩ := (C05_merge_list_parts _ _ _).1 ho
    obtain ⟨x, y, rfl, hx, hy⟩ := each_two.1 hc
    obtain ⟨x', hx', h1, hw1⟩ := hpa 0 ha hx
    obtain ⟨y', hy', h2, hw2⟩ := hpa 1 hb hy
    refine ⟨x', hx', y', hy', ?_⟩
    rw [C05_merge_list (by
      intro z hz
      simp only [List.mem_cons, List.not_mem_nil, or_false] at hz
      rcases hz with rfl | rfl <;> assumption)]
    simp [h1, h2]

example : ∃ e, sampleEnc.truncate 2 1 .right = some e ∧ e.WF ∧ e.seqRanges = [] ∧ e.parts.length = 2 ∧
    ∃ out, defaultProcess [e, e] = [out] ∧ out.parts.map ids = 
      [[1, 2, 1, 2], [2, 3, 1, 2], [2, 3, 2, 3], [1, 2, 2, 3]] :=
  have ht : sampleEnc.truncate 2 1 .right = some _ := rfl
  ⟨_, ht, truncate_wf (C01_reachable_wf (.tokens _ _)) ht, rfl, rfl, _, rfl, by decide +kernel⟩

end Tok.Post
