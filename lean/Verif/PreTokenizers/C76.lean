import Verif.PreTokenizers.Props
import Verif.PreTokenizers.ScriptTable

/-!
# C76: the table of scripts

`get_script` is a `match` of 1922 arms. No code point is in two of them, so their order plays no role. With this table
`UnicodeScripts` is what its documentation says on ASCII and Japanese text; characters that are not in the table (it is
that of Unicode 9) are lost at the beginning of a text.
-/

namespace Tok.Scripts

/-! ### Sorting the arms -/

/-- Puts `x` in its place in front of what `k` makes of the rest. -/
def mergeInto (x : Nat × Nat × Script) (k : List (Nat × Nat × Script) → List (Nat × Nat × Script)) :
    List (Nat × Nat × Script) → List (Nat × Nat × Script)
  | [] => x :: k []
  | y :: ys => if x.1 ≤ y.1 then x :: k (y :: ys) else y :: mergeInto x k ys

/-- Merges two lists. -/
def mergeArms : List (Nat × Nat × Script) → List (Nat × Nat × Script) → List (Nat × Nat × Script)
  | [] => id
  | x :: xs => mergeInto x (mergeArms xs)

/-- Merge sort. -/
def sortArms : Nat → List (Nat × Nat × Script) → List (Nat × Nat × Script)
  | 0, l => l
  | _, [] => []
  | _, [a] => [a]
  | f + 1, l => mergeArms (sortArms f (l.take (l.length / 2))) (sortArms f (l.drop (l.length / 2)))

/-- Neighbours in order and apart; every arm from its first to its last code point. -/
def apart : List (Nat × Nat × Script) → Bool
  | [] => true
  | [a] => Nat.ble a.1 a.2.1
  | a :: b :: l => Nat.ble a.1 a.2.1 && Nat.blt a.2.1 b.1 && apart (b :: l)

theorem mergeInto_perm {x : Nat × Nat × Script} {xs : List (Nat × Nat × Script)}
    {k : List (Nat × Nat × Script) → List (Nat × Nat × Script)} (hk : ∀ ys, (k ys).Perm (xs ++ ys)) :
    ∀ ys, (mergeInto x k ys).Perm (x :: xs ++ ys)
  | [] => (hk []).cons x
  | y :: ys => by
    rw [mergeInto]
    split
    · exact (hk _).cons x
    · have h := (mergeInto_perm (x := x) hk ys).cons y
      exact h.trans (List.perm_middle (l₁ := x :: xs)).symm

theorem mergeArms_perm : ∀ xs ys : List (Nat × Nat × Script), (mergeArms xs ys).Perm (xs ++ ys)
  | [], _ => List.Perm.refl _
  | _ :: xs, ys => mergeInto_perm (mergeArms_perm xs) ys

theorem sortArms_perm : ∀ (f : Nat) (l : List (Nat × Nat × Script)), (sortArms f l).Perm l
  | 0, l => by rw [sortArms]
  | f + 1, [] => by simp [sortArms]
  | f + 1, [a] => by simp [sortArms]
  | f + 1, a :: b :: l => by
    rw [sortArms]
    · refine (mergeArms_perm _ _).trans ?_
      have h := (sortArms_perm f ((a :: b :: l).take ((a :: b :: l).length / 2))).append
        (sortArms_perm f ((a :: b :: l).drop ((a :: b :: l).length / 2)))
      rwa [List.take_append_drop] at h
    · intro h; cases h
    · intro x h; cases h

theorem apart_head : ∀ (l : List (Nat × Nat × Script)) (a : Nat × Nat × Script), apart (a :: l) = true →
    a.1 ≤ a.2.1 ∧ ∀ b ∈ l, a.2.1 < b.1 ∧ b.1 ≤ b.2.1
  | [], a, h => ⟨Nat.le_of_ble_eq_true h, by simp⟩
  | b :: l, a, h => by
    simp only [apart, Bool.and_eq_true] at h
    obtain ⟨⟨h1, h2⟩, h3⟩ := h
    have h1 := Nat.le_of_ble_eq_true h1
    have h2 : a.2.1 < b.1 := Nat.le_of_ble_eq_true h2
    have ih := apart_head l b h3
    refine ⟨h1, fun x hx => ?_⟩
    rcases List.mem_cons.1 hx with rfl | hx
    · exact ⟨h2, ih.1⟩
    · have := ih.2 x hx
      exact ⟨by have := ih.1; omega, this.2⟩

theorem apart_pairwise : ∀ l : List (Nat × Nat × Script), apart l = true →
    l.Pairwise fun a b => ∀ n, ¬(inArm a n ∧ inArm b n)
  | [], _ => List.Pairwise.nil
  | a :: l, h => by
    have hh := apart_head l a h
    refine List.Pairwise.cons (fun b hb n hn => ?_) (apart_pairwise l ?_)
    · have := hh.2 b hb
      have h1 := hn.1.2
      have h2 := hn.2.1
      omega
    · cases l with
      | nil => rfl
      | cons b l => simp only [apart, Bool.and_eq_true] at h; exact h.2

set_option maxRecDepth 100000 in
theorem sorted_apart : apart (sortArms 12 arms) = true := by decide +kernel

/-- **C76.** No code point is matched by two arms. -/
theorem C76_one_arm : arms.Pairwise fun a b => ∀ n, ¬(inArm a n ∧ inArm b n) :=
  ((sortArms_perm 12 arms).pairwise_iff (fun h n hn => h n ⟨hn.2, hn.1⟩)).1 (apart_pairwise _ sorted_apart)

theorem firstArm_any : ∀ (l : List (Nat × Nat × Script)) (n : Nat), (∀ a ∈ l, ¬inArm a n) → firstArm l n = .any
  | [], _, _ => rfl
  | a :: l, n, h => by
    rw [firstArm, if_neg (h a (by simp)), firstArm_any l n fun b hb => h b (by simp [hb])]

theorem firstArm_of : ∀ {l : List (Nat × Nat × Script)} {a : Nat × Nat × Script} {n : Nat},
    (l.Pairwise fun a b => ∀ n, ¬(inArm a n ∧ inArm b n)) → a ∈ l → inArm a n → firstArm l n = a.2.2
  | b :: l, a, n, hp, ha, hn => by
    rw [firstArm]
    rcases List.mem_cons.1 ha with rfl | ha
    · rw [if_pos hn]
    · have := (List.pairwise_cons.1 hp).1 a ha n
      rw [if_neg fun hb => this ⟨hb, hn⟩]
      exact firstArm_of (List.pairwise_cons.1 hp).2 ha hn

/-- **C76.** The order of the arms plays no role. -/
theorem C76_order {l : List (Nat × Nat × Script)} (h : l.Perm arms) (c : Char) : firstArm l c.toNat = getScript c := by
  have hp := (h.pairwise_iff (R := fun a b => ∀ n, ¬(inArm a n ∧ inArm b n)) fun h n hn => h n ⟨hn.2, hn.1⟩).2 C76_one_arm
  by_cases hc : ∃ a ∈ l, inArm a c.toNat
  · obtain ⟨a, ha, hn⟩ := hc
    rw [firstArm_of hp ha hn, getScript, firstArm_of C76_one_arm (h.mem_iff.1 ha) hn]
  · have : ∀ a ∈ l, ¬inArm a c.toNat := fun a ha hn => hc ⟨a, ha, hn⟩
    rw [firstArm_any l _ this, getScript, firstArm_any arms _ fun a ha => this a (h.mem_iff.2 ha)]

set_option maxRecDepth 100000 in
theorem no_any : (arms.all fun a => a.2.2 != .any) = true := by decide +kernel

/-- **C76.** A character has a script exactly if an arm matches it, and then that of this arm. -/
theorem C76_iff (c : Char) (s : Script) :
    getScript c = s ↔ (∃ lo hi, (lo, hi, s) ∈ arms ∧ lo ≤ c.toNat ∧ c.toNat ≤ hi) ∨
      s = .any ∧ ∀ lo hi s', (lo, hi, s') ∈ arms → ¬(lo ≤ c.toNat ∧ c.toNat ≤ hi) := by
  constructor
  · rintro rfl
    by_cases hc : ∃ a ∈ arms, inArm a c.toNat
    · obtain ⟨a, ha, hn⟩ := hc
      refine .inl ⟨a.1, a.2.1, ?_, hn⟩
      rw [getScript, firstArm_of C76_one_arm ha hn]
      exact ha
    · have : ∀ a ∈ arms, ¬inArm a c.toNat := fun a ha hn => hc ⟨a, ha, hn⟩
      exact .inr ⟨firstArm_any _ _ this, fun lo hi s' h => this (lo, hi, s') h⟩
  · rintro (⟨lo, hi, ha, hn⟩ | ⟨rfl, h⟩)
    · exact firstArm_of C76_one_arm ha hn
    · exact firstArm_any _ _ fun a ha => h a.1 a.2.1 a.2.2 ha

/-- Positions in the declaration. -/
def common : Script := .other 24
@[inherit_doc common] def latin : Script := .other 62

example : scriptNames[24]? = some "Common" ∧ scriptNames[62]? = some "Latin" := by decide +kernel

set_option maxRecDepth 100000 in
theorem ascii_table : ∀ n < 128, firstArm arms n =
    if (65 ≤ n ∧ n ≤ 90) ∨ (97 ≤ n ∧ n ≤ 122) then latin else common := by decide +kernel

/-- **C76.** The letters of ASCII are Latin, all other characters of ASCII are Common. -/
theorem C76_ascii (c : Char) (h : c.toNat < 128) : getScript c = if c.isAlpha then latin else common := by
  rw [getScript, ascii_table _ h]
  have : c.isAlpha = true ↔ (65 ≤ c.toNat ∧ c.toNat ≤ 90) ∨ (97 ≤ c.toNat ∧ c.toNat ≤ 122) := by
    simp only [Char.isAlpha, Char.isUpper, Char.isLower, Bool.or_eq_true, Bool.and_eq_true, decide_eq_true_eq]
    rfl
  by_cases hc : c.isAlpha = true
  · rw [if_pos (this.1 hc), if_pos hc]
  · rw [if_neg (fun x => hc (this.2 x)), if_neg hc]

set_option maxRecDepth 100000 in
theorem han_arm : (0x4E00, 0x9FD5, Script.han) ∈ arms := by decide +kernel
set_option maxRecDepth 100000 in
theorem hiragana_arm : (0x3041, 0x3096, Script.hiragana) ∈ arms := by decide +kernel
set_option maxRecDepth 100000 in
theorem katakana_arm : (0x30A1, 0x30FA, Script.katakana) ∈ arms := by decide +kernel

/-- The tables of the code: `script` is `get_script`. -/
def withScripts (u : CharTables) : CharTables := { u with script := getScript }

/-- **C76.** The unified ideographs, the hiragana and the katakana have one and the same script for `UnicodeScripts`. -/
theorem C76_japanese (u : CharTables) (c : Char) (h : (0x4E00 ≤ c.toNat ∧ c.toNat ≤ 0x9FD5) ∨
    (0x3041 ≤ c.toNat ∧ c.toNat ≤ 0x3096) ∨ (0x30A1 ≤ c.toNat ∧ c.toNat ≤ 0x30FA) ∨ c = 'ー') :
    PreTokenizer.fixedScript (withScripts u) c = .han := by
  have key : c ≠ ' ' := by rintro rfl; revert h; decide
  unfold PreTokenizer.fixedScript
  split
  · rfl
  · rcases h with h | h | h | h
    · rw [show (withScripts u).script c = .han from firstArm_of C76_one_arm han_arm h]
    · rw [show (withScripts u).script c = .hiragana from firstArm_of C76_one_arm hiragana_arm h]
    · rw [show (withScripts u).script c = .katakana from firstArm_of C76_one_arm katakana_arm h]
    · subst h; contradiction

/-! ### `UnicodeScripts` with this table -/

open PreTokenizer

theorem runs_congr {α κ κ' : Type} [DecidableEq κ] [DecidableEq κ'] (k : α → κ) (k' : α → κ') : ∀ l : List α,
    (∀ a ∈ l, ∀ b ∈ l, k a = k b ↔ k' a = k' b) → runs k l = runs k' l
  | [], _ => rfl
  | a :: l, h => by
    have ih := runs_congr k k' l fun a ha b hb => h a (by simp [ha]) b (by simp [hb])
    have hf := runs_flatten k' l
    rw [runs, runs, ih]
    cases hr : runs k' l with
    | nil => rfl
    | cons w ws =>
      cases w with
      | nil => rfl
      | cons b g =>
        have hb : b ∈ l := by rw [← hf, hr]; simp
        have := h a (by simp) b (by simp [hb])
        simp only [addRun, this]

theorem runs_map {α β κ : Type} [DecidableEq κ] (f : α → β) (k : β → κ) : ∀ l : List α,
    runs k (l.map f) = (runs (fun a => k (f a)) l).map fun w => w.map f
  | [] => rfl
  | a :: l => by
    rw [List.map_cons, runs, runs, runs_map f k l]
    cases runs (fun a => k (f a)) l with
    | nil => rfl
    | cons w ws =>
      cases w with
      | nil => rfl
      | cons b g =>
        simp only [List.map_cons, addRun]
        split <;> rfl

theorem coloured_map (u : CharTables) : ∀ (s : Str) (k : Option Script), (∀ c ∈ s, (scriptOf u c).isSome) →
    coloured u k s = s.map fun c => (c, scriptOf u c)
  | [], _, _ => rfl
  | c :: s, k, h => by
    obtain ⟨x, hx⟩ := Option.isSome_iff_exists.1 (h c (by simp))
    rw [coloured, List.map_cons, coloured_map u s _ fun d hd => h d (by simp [hd]), hx]
    rfl

theorem cut_all_scripted (u : CharTables) (b : Bool) (s : Str) (h : ∀ c ∈ s, (scriptOf u c).isSome) :
    cut u b .unicodeScripts s = runs (scriptOf u) s := by
  simp only [cut]
  rw [coloured_map u s none h, runs_map, List.filter_eq_self.2]
  · simp [List.map_map, Function.comp_def]
  · intro w hw
    obtain ⟨v, hv, rfl⟩ := List.mem_map.1 hw
    rw [List.all_eq_true]
    intro x hx
    obtain ⟨c, hc, rfl⟩ := List.mem_map.1 hx
    exact h c (by rw [← runs_flatten (scriptOf u) s]; exact List.mem_flatten.2 ⟨v, hv, hc⟩)

/-- The texts of the pieces a pre-tokenizer makes of a text. -/
def piecesOf (u : CharTables) (z : PreTokenizer) (s : Str) : Option (List Str) :=
  (z.apply u (PTS.ofStr s)).toOption.map fun p => p.splits.map fun x => x.normalized.norm

theorem piecesOf_scripts (u : CharTables) (s : Str) :
    piecesOf u .unicodeScripts s = some ((cut u true .unicodeScripts s).filter (· ≠ [])) := by
  obtain ⟨p', h1, _, _, h4⟩ := C57_pretokenize u .unicodeScripts trivial (by simp) (PTS.good_ofStr s)
  rw [piecesOf, h1]
  have := congrArg (List.map Prod.fst) h4
  simp only [PTS.view, List.map_map, Function.comp_def, PTS.ofStr, PTS.ofNS, List.flatMap_cons, List.flatMap_nil,
    List.append_nil, List.map_id'] at this
  simp only [Except.toOption, Option.map_some, Option.some.injEq]
  exact this

theorem scriptOf_ascii (u : CharTables) {c : Char} (h : c.toNat < 128) (hs : c ≠ ' ') :
    scriptOf (withScripts u) c = some (if c.isAlpha then latin else common) := by
  have h0 : c ≠ 'ー' := by rintro rfl; revert h; decide
  have he : (withScripts u).script c = if c.isAlpha then latin else common := C76_ascii c h
  unfold scriptOf
  rw [if_neg h0, he]
  cases c.isAlpha <;> simp [hs, latin, common]

/-- **C76.** `UnicodeScripts` cuts an ASCII text without spaces into the maximal runs of letters and of other
characters. -/
theorem C76_ascii_pieces (u : CharTables) (s : Str) (h : ∀ c ∈ s, c.toNat < 128 ∧ c ≠ ' ') :
    piecesOf (withScripts u) .unicodeScripts s = some (runs Char.isAlpha s) := by
  rw [piecesOf_scripts, cut_all_scripted _ _ _ fun c hc => by rw [scriptOf_ascii u (h c hc).1 (h c hc).2]; rfl,
    List.filter_eq_self.2 fun w hw => by simpa using (runs_key _ _ w hw).1]
  rw [runs_congr (scriptOf (withScripts u)) Char.isAlpha s]
  intro a ha b hb
  rw [scriptOf_ascii u (h a ha).1 (h a ha).2, scriptOf_ascii u (h b hb).1 (h b hb).2]
  cases a.isAlpha <;> cases b.isAlpha <;> simp [latin, common]

/-- A character that `UnicodeScripts` can begin a piece with: one in the table, but not a space. -/
def Begins (c : Char) : Prop := c ≠ ' ' ∧ ∃ lo hi s, (lo, hi, s) ∈ arms ∧ lo ≤ c.toNat ∧ c.toNat ≤ hi

set_option maxRecDepth 100000 in
theorem common_arm : (0x30FC, 0x30FC, common) ∈ arms := by decide +kernel

theorem in_table (c : Char) :
    getScript c ≠ .any ↔ ∃ lo hi s, (lo, hi, s) ∈ arms ∧ lo ≤ c.toNat ∧ c.toNat ≤ hi := by
  constructor
  · intro h
    rcases (C76_iff c _).1 rfl with ⟨lo, hi, ha, hn⟩ | ⟨h', _⟩
    · exact ⟨lo, hi, _, ha, hn⟩
    · exact absurd h' h
  · rintro ⟨lo, hi, s, ha, hn⟩ h
    rw [(C76_iff c s).2 (.inl ⟨lo, hi, ha, hn⟩)] at h
    subst h
    have := List.all_eq_true.1 no_any _ ha
    simp at this

theorem begins_iff (u : CharTables) (c : Char) : (scriptOf (withScripts u) c).isSome ↔ Begins c := by
  have hany := in_table c
  unfold scriptOf Begins
  by_cases hc : c = 'ー'
  · subst hc
    simp only [if_true, Option.isSome_some, true_iff]
    exact ⟨by decide, _, _, _, common_arm, by decide, by decide⟩
  · rw [if_neg hc, ← hany]
    show Option.isSome (if c = ' ' ∨ getScript c = .any then none else _) = true ↔ _
    by_cases h1 : c = ' ' ∨ getScript c = .any
    · rw [if_pos h1]
      simp only [Option.isSome_none, Bool.false_eq_true, false_iff]
      rintro ⟨h2, h3⟩
      rcases h1 with h1 | h1
      · exact h2 h1
      · exact h3 h1
    · rw [if_neg h1]
      have h2 : c ≠ ' ' ∧ getScript c ≠ .any := ⟨fun h => h1 (.inl h), fun h => h1 (.inr h)⟩
      simp only [h2, ne_eq, not_false_eq_true, and_self, iff_true]
      split <;> rfl

/-- **C76.** Joined, the pieces are a text that begins with a character of the table that is not a space; what comes
before, and only that, is lost. -/
theorem C76_lost (u : CharTables) (pre rest : Str) (hp : ∀ c ∈ pre, ¬Begins c) (hr : ∀ c ∈ rest.head?, Begins c) :
    (piecesOf (withScripts u) .unicodeScripts (pre ++ rest)).map List.flatten = some rest := by
  rw [piecesOf_scripts, Option.map_some, List.flatten_filter_ne_nil, C57_scripts, Option.some.injEq]
  rw [List.dropWhile_append_of_pos]
  · cases rest with
    | nil => rfl
    | cons c rest =>
      have := (begins_iff u c).2 (hr c (by simp))
      rw [List.dropWhile_cons_of_neg]
      intro h
      rw [Option.isNone_iff_eq_none] at h
      rw [h] at this
      cases this
  · intro c hc
    have := mt (begins_iff u c).1 (hp c hc)
    cases h : scriptOf (withScripts u) c with
    | none => rfl
    | some x => rw [h] at this; exact absurd rfl this

/-- **C76, finding.** A text of characters that are not in the table (and spaces) makes no piece, whatever its length. -/
theorem C76_vanish (u : CharTables) (s : Str) (h : ∀ c ∈ s, ¬Begins c) :
    piecesOf (withScripts u) .unicodeScripts s = some [] := by
  have h1 := C76_lost u s [] h (by simp)
  rw [List.append_nil, piecesOf_scripts] at h1
  rw [piecesOf_scripts]
  simp only [Option.map_some, Option.some.injEq] at h1 ⊢
  rw [List.flatten_eq_nil_iff] at h1
  rw [List.eq_nil_iff_forall_not_mem]
  intro w hw
  have := h1 w hw
  rw [List.mem_filter] at hw
  simp [this] at hw

/-! ### examples -/

example : arms.length = 1922 ∧ scriptNames.length = 138 := by decide +kernel
example : getScript 'é' = latin ∧ getScript 'ー' = common ∧ getScript '京' = .han ∧ getScript 'グ' = .katakana := by
  decide +kernel

/-- `🤩` (U+1F929) and `₿` (U+20BF) came with Unicode 10 and are not in the table; `😀` is. -/
example : (∀ c ∈ "🤩 ₿".toList, ¬Begins c) ∧ Begins '😀' := by
  have h : ∀ c, Begins c ↔ c ≠ ' ' ∧ getScript c ≠ .any := fun c => and_congr_right fun _ => (in_table c).symm
  simp only [h]
  decide +kernel

example : ∀ c ∈ "snake_case2(x,y);".toList, c.toNat < 128 ∧ c ≠ ' ' := by decide +kernel
example : runs Char.isAlpha "snake_case2(x,y);".toList =
    ["snake", "_", "case", "2(", "x", ",", "y", ");"].map String.toList := by decide +kernel
example : ∀ c ∈ "東京タワーへ".toList, (0x4E00 ≤ c.toNat ∧ c.toNat ≤ 0x9FD5) ∨
    (0x3041 ≤ c.toNat ∧ c.toNat ≤ 0x3096) ∨ (0x30A1 ≤ c.toNat ∧ c.toNat ≤ 0x30FA) ∨ c = 'ー' := by decide +kernel

end Tok.Scripts
