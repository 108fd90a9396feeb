import Verif.Normalizers.Props

/-!
# C56: where the characters come from; cases and findings
-/

namespace Tok.Normalizer
open NS

/-- What a normalizer makes of each character, if it treats the characters one by one. -/
def cleanChar (u : Unicode) (c : Char) : Str := if Junk u c then [] else if Blank u c then [' '] else [c]
def spacedChar (c : Char) : Str := if Chinese c then [' ', c, ' '] else [c]

/-- One after the other. -/
def andThen (f g : Char → Str) (c : Char) : Str := (f c).flatMap g

mutual
def image (u : Unicode) : Normalizer → Option (Char → Str)
  | .bert c h a l =>
    if a = some true ∨ (a = none ∧ l = true) then none
    else some (andThen (if c then cleanChar u else fun c => [c])
      (andThen (if h then spacedChar else fun c => [c]) (if l then u.lower else fun c => [c])))
  | .stripAccents => some fun c => if u.combining c then [] else [c]
  | .lowercase => some u.lower
  | .nmt => some fun c => if c.toNat ∈ nmtJunk then [] else if c.toNat ∈ nmtBlank then [' '] else [c]
  | .byteLevel => some fun c => (String.utf8EncodeChar c).map ByteLevel.byteChar
  | .sequence l => imageAll u l
  | _ => none

def imageAll (u : Unicode) : List Normalizer → Option (Char → Str)
  | [] => some fun c => [c]
  | z :: l => (image u z).bind fun f => (imageAll u l).map fun g => andThen f g
end

/-- Each character becomes its image, which has the source of the character. -/
def Local (f : Char → Str) (n n' : NS) : Prop := n'.chars = n.chars.flatMap fun c => (f c.1).map fun x => (x, c.2)

theorem Local.trans {f g : Char → Str} {a b c : NS} (h1 : Local f a b) (h2 : Local g b c) : Local (andThen f g) a c := by
  unfold Local at *
  rw [h2, h1, List.flatMap_assoc]
  congr 1
  funext x
  simp [andThen, List.flatMap_map, List.map_flatMap]

theorem Local.id (n : NS) : Local (fun c => [c]) n n := by simp [Local]

theorem filter_local (keep : Char → Bool) {n n' : NS} (h : n'.chars = n.chars.filter (fun c => keep c.1)) :
    Local (fun c => if keep c then [c] else []) n n' := by
  unfold Local
  rw [h]
  generalize n.chars = l
  induction l with
  | nil => rfl
  | cons x l ih =>
    rw [List.flatMap_cons, List.filter_cons, ← ih]
    cases hk : keep x.1 <;> simp [hk]

theorem map_local (f : Char → Char) {n n' : NS} (h : n'.chars = n.chars.map (fun c => (f c.1, c.2))) :
    Local (fun c => [f c]) n n' := by
  unfold Local
  rw [h]
  generalize n.chars = l
  induction l with
  | nil => rfl
  | cons x l ih => rw [List.flatMap_cons, List.map_cons, ← ih]; rfl

theorem Local.congr {f g : Char → Str} {n n' : NS} (h : Local f n n') (e : ∀ c, f c = g c) : Local g n n' := by
  have : f = g := funext e
  rw [← this]; exact h

theorem cleanText_local {u : Unicode} {whole : Str} {n : NS} (h : n.Good whole) :
    ∃ n', cleanText u n = some n' ∧ Local (cleanChar u) n n' := by
  obtain ⟨a, h1, h2, h3, h4, h5⟩ := filter_good h fun c => !(c.toNat == 0 || c.toNat == 0xfffd || isControl u c)
  obtain ⟨b, g1, g2, g3, g4, g5⟩ := map_good h3 fun c => if isWhitespace u c then ' ' else c
  refine ⟨b, by unfold cleanText; rw [h1]; exact g1, ((filter_local (fun c => !(c.toNat == 0 || c.toNat == 0xfffd || isControl u c)) h5).trans
    (map_local (fun c => if isWhitespace u c then ' ' else c) g5)).congr fun c => ?_⟩
  unfold andThen cleanChar
  dsimp only
  by_cases hj : Junk u c
  · rw [if_neg (by rw [keep_iff]; simpa using hj), if_pos hj]; rfl
  · rw [if_pos (by rw [keep_iff]; exact hj), if_neg hj]
    by_cases hb : Blank u c
    · simp [(isWhitespace_iff u c).2 hb, hb]
    · have : isWhitespace u c = false := by
        cases hw : isWhitespace u c with
        | true => exact absurd ((isWhitespace_iff u c).1 hw) hb
        | false => rfl
      simp [this, hb]

theorem spacedChar_ne_nil (c : Char) : spacedChar c ≠ [] := by unfold spacedChar; split <;> simp

theorem handleChinese_eq (n : NS) : handleChinese n = n.mapChars spacedChar := by
  unfold handleChinese NS.mapChars
  congr 2
  funext c
  unfold chineseChanges spacedChar
  by_cases hc : Chinese c
  · rw [if_pos hc, if_pos ((isChinese_iff c).2 hc)]; rfl
  · rw [if_neg hc, if_neg (by rw [isChinese_iff]; exact hc)]; rfl

/-- A step that is taken or not. -/
theorem step_local {f : NS → Option NS} {g : Char → Str} {whole : Str}
    (hf : ∀ n : NS, n.Good whole → ∃ n', f n = some n' ∧ Local g n n' ∧ n'.Good whole) (b : Bool) {n : NS}
    (h : n.Good whole) : ∃ n', step b f n = some n' ∧ Local (if b then g else fun c => [c]) n n' ∧ n'.Good whole := by
  cases b with
  | true => simpa [step] using hf n h
  | false => exact ⟨n, rfl, .id n, h⟩

theorem mapChars_local {whole : Str} {n : NS} (h : n.Good whole) {f : Char → Str} (hf : ∀ c, f c ≠ []) :
    ∃ n', n.mapChars f = some n' ∧ Local f n n' ∧ n'.Good whole := by
  obtain ⟨n', h1, _, h3, _, h5⟩ := mapChars_good' h hf
  exact ⟨n', h1, h5, h3⟩

theorem of_apply {u : Unicode} (hu : u.Ok) {z : Normalizer} (hs : z.Safe) {whole : Str} {n n' : NS} (hn : n.Good whole)
    (h : z.apply u n = some n') : n'.Good whole := by
  obtain ⟨m, h1, _, h3, _⟩ := C56_normalizer hu z hs hn
  rw [h] at h1; cases h1; exact h3

mutual
/-- **C56.** A normalizer that treats the characters one by one gives each character the source of the character it was
made from. -/
theorem C56_sources {u : Unicode} (hu : u.Ok) {whole : Str} : ∀ (z : Normalizer) {f : Char → Str} {n : NS},
    z.image u = some f → n.Good whole → ∃ n', z.apply u n = some n' ∧ Local f n n' ∧ n'.Good whole
  | .bert c h a l, f, n, he, hn => by
    rw [image] at he
    split at he
    · cases he
    rename_i ha
    cases he
    have hacc : a.getD l = false := by
      cases a with
      | none => simp at ha ⊢; exact ha
      | some b => simp at ha ⊢; exact ha
    obtain ⟨n1, a1, a2, a3⟩ := step_local (fun n hn => by
      obtain ⟨n', h1, h2⟩ := cleanText_local (u := u) hn
      obtain ⟨m, g1, _, g3, _⟩ := cleanText_good (u := u) hn
      rw [h1] at g1; cases g1
      exact ⟨n', h1, h2, g3⟩) c hn
    obtain ⟨n2, b1, b2, b3⟩ := step_local (f := handleChinese) (fun n hn => by
      rw [handleChinese_eq]; exact mapChars_local hn spacedChar_ne_nil) h a3
    obtain ⟨n3, c1, c2, c3⟩ := step_local (f := (·.mapChars u.lower)) (fun n hn => mapChars_local hn hu.lower) l b3
    refine ⟨n3, ?_, a2.trans (b2.trans c2), c3⟩
    rw [apply]; unfold bertNormalize
    rw [a1]; simp only [Option.bind_some]; rw [b1]; simp only [Option.bind_some, hacc, step]
    exact c1
  | .stripAccents, f, n, he, hn => by
    rw [image] at he; cases he
    obtain ⟨n', h1, _, h3, _, h5⟩ := filter_good hn fun c => !u.combining c
    rw [apply]
    exact ⟨n', h1, (filter_local (fun c => !u.combining c) h5).congr fun c => by cases u.combining c <;> rfl, h3⟩
  | .lowercase, f, n, he, hn => by
    rw [image] at he; cases he
    rw [apply]; exact mapChars_local hn hu.lower
  | .nmt, f, n, he, hn => by
    rw [image] at he; cases he
    obtain ⟨a, h1, h2, h3, h4, h5⟩ := filter_good hn fun c => !nmtRemoved c.toNat
    obtain ⟨b, g1, g2, g3, g4, g5⟩ := map_good h3 fun c => if nmtSpace c.toNat then ' ' else c
    rw [apply]
    refine ⟨b, by unfold nmtNormalize; rw [h1]; exact g1, ((filter_local (fun c => !nmtRemoved c.toNat) h5).trans
      (map_local (fun c => if nmtSpace c.toNat then ' ' else c) g5)).congr fun c => ?_, g3⟩
    unfold andThen
    dsimp only
    by_cases hj : c.toNat ∈ nmtJunk
    · rw [if_neg (by simpa using (nmtRemoved_iff _).2 hj), if_pos hj]; rfl
    · rw [if_pos (by simpa using fun h => hj ((nmtRemoved_iff _).1 h)), if_neg hj]
      by_cases hb : c.toNat ∈ nmtBlank
      · simp [(nmtSpace_iff _).2 hb, hb]
      · have : nmtSpace c.toNat = false := by
          cases hw : nmtSpace c.toNat with
          | true => exact absurd ((nmtSpace_iff _).1 hw) hb
          | false => rfl
        simp [this, hb]
  | .byteLevel, f, n, he, hn => by
    rw [image] at he; cases he
    obtain ⟨n', h1, _, h3, _, h5⟩ := byteLevel_good (u := u) hn
    rw [apply]; exact ⟨n', h1, h5, h3⟩
  | .sequence l, f, n, he, hn => by rw [image] at he; rw [apply]; exact C56_sources_all hu l he hn
  | .strip .., f, n, he, hn => by simp [image] at he
  | .nfc, f, n, he, hn => by simp [image] at he
  | .nfd, f, n, he, hn => by simp [image] at he
  | .nfkc, f, n, he, hn => by simp [image] at he
  | .nfkd, f, n, he, hn => by simp [image] at he
  | .precompiled _, f, n, he, hn => by simp [image] at he
  | .replace .., f, n, he, hn => by simp [image] at he
  | .prepend _, f, n, he, hn => by simp [image] at he

theorem C56_sources_all {u : Unicode} (hu : u.Ok) {whole : Str} : ∀ (l : List Normalizer) {f : Char → Str} {n : NS},
    imageAll u l = some f → n.Good whole → ∃ n', applyAll u l n = some n' ∧ Local f n n' ∧ n'.Good whole
  | [], f, n, he, hn => by
    rw [imageAll] at he; cases he
    rw [applyAll]; exact ⟨n, rfl, .id n, hn⟩
  | z :: l, f, n, he, hn => by
    rw [imageAll] at he
    cases hz : image u z with
    | none => rw [hz] at he; cases he
    | some f1 =>
      cases hl : imageAll u l with
      | none => rw [hz, hl] at he; cases he
      | some f2 =>
        rw [hz, hl] at he
        simp only [Option.bind_some, Option.map_some, Option.some.injEq] at he
        subst he
        obtain ⟨n1, h1, h2, h3⟩ := C56_sources hu z hz hn
        obtain ⟨n2, g1, g2, g3⟩ := C56_sources_all hu l hl h3
        rw [applyAll]
        exact ⟨n2, by simp only [h1]; exact g1, h2.trans g2, g3⟩
end

/-- **C56.** `Strip` keeps a stretch of the characters with their sources; `Prepend` gives what it adds the source of the
first character. -/
theorem C56_strip_sources {u : Unicode} {whole : Str} {n : NS} (hn : n.Good whole) (l r : Bool) :
    ∃ n' a b, (Normalizer.strip l r).apply u n = some n' ∧ n.chars = a ++ n'.chars ++ b ∧
      (∀ c ∈ a ++ b, u.ws c.1 = true) ∧ (l = false → a = []) ∧ (r = false → b = []) := by
  have key : ∀ (l r : Bool), ∃ n' a b, n.lrstrip u.ws l r = some n' ∧ n.chars = a ++ n'.chars ++ b ∧
      (∀ c ∈ a ++ b, u.ws c.1 = true) ∧ (l = false → a = []) ∧ (r = false → b = []) := by
    intro l r
    obtain ⟨n', h1, _, _, _, h5⟩ := lrstrip_good hn u.ws l r
    have hL : ∀ L : List Cell, L = L.takeWhile (u.ws ·.1) ++ stripLeft (u.ws ·.1) L := fun L =>
      (List.takeWhile_append_dropWhile).symm
    have hR : ∀ L : List Cell, L = stripRight (u.ws ·.1) L ++ (L.reverse.takeWhile (u.ws ·.1)).reverse := fun L => by
      unfold stripRight
      rw [← List.reverse_append, List.takeWhile_append_dropWhile, List.reverse_reverse]
    have mL : ∀ (L : List Cell) c, c ∈ L.takeWhile (u.ws ·.1) → u.ws c.1 = true := fun L c hc => by
      have := List.all_takeWhile (p := fun x : Cell => u.ws x.1) (l := L)
      exact List.all_eq_true.1 this c hc
    cases l <;> cases r
    · exact ⟨n', [], [], h1, by rw [h5]; simp, by simp, by simp, by simp⟩
    · refine ⟨n', [], (n.chars.reverse.takeWhile (u.ws ·.1)).reverse, h1, ?_, ?_, by simp, by simp⟩
      · rw [h5]; exact hR n.chars
      · intro c hc; exact mL _ c (by simpa using hc)
    · refine ⟨n', n.chars.takeWhile (u.ws ·.1), [], h1, ?_, ?_, by simp, by simp⟩
      · rw [h5]; simpa using hL n.chars
      · intro c hc; exact mL _ c (by simpa using hc)
    · refine ⟨n', n.chars.takeWhile (u.ws ·.1), ((stripLeft (u.ws ·.1) n.chars).reverse.takeWhile (u.ws ·.1)).reverse,
        h1, ?_, ?_, by simp, by simp⟩
      · rw [h5, List.append_assoc]
        simp only [cond_true]
        rw [← hR, ← hL]
      · intro c hc
        rcases List.mem_append.1 hc with hc | hc
        · exact mL _ c hc
        · exact mL _ c (by simpa using hc)
  rw [apply]
  unfold stripNormalize
  cases l <;> cases r
  · exact ⟨n, [], [], rfl, by simp, by simp, by simp, by simp⟩
  · obtain ⟨n', a, b, h1, h⟩ := key false true
    exact ⟨n', a, b, by simp [step, h1], h⟩
  · obtain ⟨n', a, b, h1, h⟩ := key true false
    exact ⟨n', a, b, by simp [step, h1], h⟩
  · obtain ⟨n', a, b, h1, h⟩ := key true true
    exact ⟨n', a, b, h1, h⟩

/-! ## Cases -/

/-- A small table: `é` decomposes, U+0301 is a mark, the letters `A`–`Z` have a lower case, every character is a grapheme. -/
def sample : Unicode where
  ws := fun c => c == ' ' || c == ' '
  other := fun c => c.toNat < 32
  nonspacing := (· == '́')
  combining := (· == '́')
  lower := fun c => if 65 ≤ c.toNat ∧ c.toNat ≤ 90 then [Char.ofNat (c.toNat + 32)] else [c]
  nfc := fun s => s.map fun c => (c, 0)
  nfd := fun s => s.flatMap fun c => if c = 'é' then [('e', 0), ('́', 1)] else [(c, 0)]
  nfkc := fun s => s.map fun c => (c, 0)
  nfkd := fun s => s.map fun c => (c, 0)
  graphemes := fun s => s.map fun c => [c]

theorem sample_ok : sample.Ok := by
  have h0 : ∀ s : Str, Fits (s.map fun c => (c, (0 : Int))) s.length ∧
      ∀ p ∈ (s.map fun c => (c, (0 : Int))).head?, p.2 ≤ 0 := by
    intro s
    refine ⟨fits_of_used _ _ (by rw [used_zero]; exact Nat.le_refl _), ?_⟩
    cases s <;> simp
  refine ⟨fun c => ?_, h0, fun s => ⟨?_, ?_⟩, h0, h0, fun s => ?_⟩
  · simp only [sample]; split <;> simp
  · apply fits_of_used
    have : ∀ s : Str, used (sample.nfd s) = s.length := by
      intro s
      induction s with
      | nil => rfl
      | cons c s ih =>
        simp only [sample, List.flatMap_cons] at *
        rw [used_append, ih]
        split <;> simp [used] <;> omega
    rw [this]; exact Nat.le_refl _
  · cases s with
    | nil => simp [sample]
    | cons c s =>
      simp only [sample, List.flatMap_cons]
      split <;> simp
  · simp only [sample]
    refine ⟨?_, by simp⟩
    induction s with
    | nil => rfl
    | cons c s ih => simp only [List.map_cons, List.flatten_cons, ih]; rfl

/-- BERT on `"É\tA里"` with `É` written `é`: cleaned, spaced, accents stripped, lower case. -/
example : let z : Normalizer := .bert true true none true
    z.Safe ∧ ((ofStr "é\tA\u0001里".toList).Good "é\tA\u0001里".toList) ∧
    (z.apply sample (ofStr "é\tA\u0001里".toList)).map (·.norm) = some "e a 里 ".toList ∧
    z.text sample "é\tA\u0001里".toList = "e a 里 ".toList :=
  ⟨trivial, good_ofStr _, by decide, by decide⟩

/-- A sequence with a replacement and a prefix. -/
example : let z : Normalizer := .sequence [.strip true true, .lowercase, .prepend ['▁'], .nfd]
    z.Safe ∧ (z.apply sample (ofStr " Bé ".toList)).map (·.norm) = some "▁bé".toList ∧
    z.text sample " Bé ".toList = "▁bé".toList := by
  refine ⟨?_, by decide, by decide⟩
  simp [Safe, SafeAll]

/-- The regular expression that finds one `-` at bytes 1..2 of `"a-b"` and nothing elsewhere. -/
example : let re : Str → List Range := fun s => if s = "a-b".toList then [(1, 2)] else []
    (Normalizer.replace re "+".toList).Safe ∧
    ((Normalizer.replace re "+".toList).apply sample (ofStr "a-b".toList)).map (·.norm) = some "a+b".toList ∧
    (Normalizer.replace re "+".toList).text sample "a-b".toList = "a+b".toList := by
  refine ⟨?_, by decide, by decide⟩
  intro s
  by_cases h : s = "a-b".toList
  · subst h
    exact ⟨⟨by decide, by decide, ⟨"a".toList, "-b".toList, rfl, rfl⟩, ⟨"a-".toList, "b".toList, rfl, rfl⟩, trivial⟩,
      by decide⟩
  · dsimp only; rw [if_neg h]; exact ⟨trivial, by simp⟩

/-- A table that writes `™` as `TM` and removes U+001E (the test of `precompiled.rs`). -/
def tmTable (s : Str) : Option Str := if s = ['™'] then some "TM".toList else if s = ['\u001e'] then some [] else none

example : ((Normalizer.precompiled tmTable).apply sample (ofStr "™\u001eg".toList)).map (fun n => (n.norm, n.chars)) =
    some ("TMg".toList, [('T', (0, 3)), ('M', (3, 4)), ('g', (4, 5))]) ∧
    (Normalizer.precompiled tmTable).text sample "™\u001eg".toList = "TMg".toList := by decide

/-- Finding: a precompiled normalizer that removes the first character attributes the remaining ones to the wrong
place: the removal is added to the change before it, and there is none (`precompiled.rs:23-25`). Here `g` is said to come
from U+001E, and `h` from `g`. -/
theorem C56_precompiled_removal_at_start :
    ((Normalizer.precompiled tmTable).apply sample (ofStr "\u001egh".toList)).map (·.chars) =
      some [('g', (0, 1)), ('h', (1, 2))] := by decide

/-- Finding: the first 256 characters of the block CJK Extension E (U+2B820–U+2CEAF) are not taken for Chinese;
the range begins at U+2B920 (`bert.rs:44`). -/
theorem C56_chinese_gap (c : Char) (h1 : 0x2B820 ≤ c.toNat) (h2 : c.toNat < 0x2B920) : ¬ Chinese c := by
  simp only [Chinese, chineseBlocks, List.mem_cons, List.not_mem_nil, or_false, exists_eq_or_imp, exists_eq_left]
  omega

example : 0x2B820 ≤ (Char.ofNat 0x2B820).toNat ∧ (Char.ofNat 0x2B820).toNat < 0x2B920 := by decide

/-- Finding: `Safe` is needed. A sequence that prepends the empty text panics in the next step. -/
theorem C56_prepend_empty_panics :
    (Normalizer.sequence [.prepend [], .lowercase]).apply sample (ofStr "ab".toList) = none := by decide

end Tok.Normalizer
