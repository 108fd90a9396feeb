import Verif.Regex.Append
import Verif.Tokenizer.Meta
import Verif.Tokenizer.Pipeline

/-!
# C72: a text encoded in two parts
-/

namespace Tok
namespace PreTokenizer

open NS

/-! ## Runs of two parts -/

/-- The last character of the first part and the first of the second have different keys. -/
theorem runs_split {α κ : Type} [DecidableEq κ] (k : α → κ) {b : List α} : ∀ {a : List α},
    (∀ x ∈ a.getLast?, ∀ y ∈ b.head?, k x ≠ k y) → runs k (a ++ b) = runs k a ++ runs k b
  | [], _ => rfl
  | [x], h => by
    cases b with
    | nil => simp [runs]
    | cons y b =>
      obtain ⟨g, gs, hg⟩ := runs_head k y b
      rw [List.singleton_append, runs, hg, addRun, if_neg (h x rfl y rfl)]
      simp [runs, addRun]
  | x :: z :: a, h => by
    have ih := runs_split k (a := z :: a) (b := b) fun v hv => h v (by rw [List.getLast?_cons_cons]; exact hv)
    obtain ⟨g, gs, hg⟩ := runs_head k z a
    have e1 : runs k (x :: z :: a ++ b) = addRun k x (runs k (z :: a ++ b)) := rfl
    have e2 : runs k (x :: z :: a) = addRun k x (runs k (z :: a)) := rfl
    rw [e1, e2, ih, hg, List.cons_append, addRun, addRun]
    split <;> rfl

/-- The runs without those of one key. -/
def goodRuns {α κ : Type} [DecidableEq κ] (k : α → κ) (x : κ) (s : List α) : List (List α) :=
  (runs k s).filter fun w => w.all fun c => k c ≠ x

theorem goodRuns_bad {α κ : Type} [DecidableEq κ] {k : α → κ} {x : κ} {c : α} (h : k c = x) (s : List α) :
    goodRuns k x (c :: s) = goodRuns k x s := by
  unfold goodRuns
  rw [runs]
  exact filter_addRun k (fun c => decide (k c ≠ x)) c (fun b hb => by simp [hb, h]) _

theorem goodRuns_bads {α κ : Type} [DecidableEq κ] {k : α → κ} {x : κ} : ∀ {a : List α}, (∀ c ∈ a, k c = x) → ∀ s,
    goodRuns k x (a ++ s) = goodRuns k x s
  | [], _, _ => rfl
  | c :: a, h, s => by
    rw [List.cons_append, goodRuns_bad (h c (by simp)), goodRuns_bads fun d hd => h d (by simp [hd])]

theorem goodRuns_split {α κ : Type} [DecidableEq κ] (k : α → κ) (x : κ) {a b : List α}
    (h : ∀ c ∈ a.getLast?, ∀ d ∈ b.head?, k c ≠ k d) : goodRuns k x (a ++ b) = goodRuns k x a ++ goodRuns k x b := by
  unfold goodRuns
  rw [runs_split k h, List.filter_append]

/-- A list and the characters of one key at its end. -/
theorem split_end {α : Type} (p : α → Prop) [DecidablePred p] : ∀ a : List α, ∃ a1 a2, a = a1 ++ a2 ∧ (∀ c ∈ a2, p c) ∧
    ∀ c ∈ a1.getLast?, ¬ p c
  | [] => ⟨[], [], rfl, by simp, by simp⟩
  | c :: a => by
    obtain ⟨a1, a2, h1, h2, h3⟩ := split_end p a
    cases a1 with
    | cons d a1 => exact ⟨c :: d :: a1, a2, by rw [h1]; rfl, h2, by rw [List.getLast?_cons_cons]; exact h3⟩
    | nil =>
      by_cases hc : p c
      · refine ⟨[], c :: a2, by rw [h1]; rfl, ?_, by simp⟩
        intro d hd
        rcases List.mem_cons.1 hd with rfl | hd
        · exact hc
        · exact h2 d hd
      · exact ⟨[c], a2, by rw [h1]; rfl, h2, by simpa using hc⟩

/-- It is enough that one of the two characters is of the key that is left out. -/
theorem goodRuns_append {α κ : Type} [DecidableEq κ] (k : α → κ) (x : κ) {a b : List α}
    (h : (∀ c ∈ b.head?, k c = x) ∨ ∃ c ∈ a.getLast?, k c = x) :
    goodRuns k x (a ++ b) = goodRuns k x a ++ goodRuns k x b := by
  obtain ⟨a1, a2, rfl, h2, h3⟩ := split_end (fun c => k c = x) a
  have key : ∀ e, (∀ d ∈ e.head?, k d = x) → goodRuns k x (a1 ++ e) = goodRuns k x a1 ++ goodRuns k x e := by
    intro e he
    refine goodRuns_split k x fun c hc d hd => ?_
    rw [he d hd]; exact h3 c hc
  have hbad : goodRuns k x a2 = [] := by
    have := goodRuns_bads h2 []
    rw [List.append_nil] at this
    rw [this]; rfl
  have e1 : goodRuns k x (a1 ++ a2) = goodRuns k x a1 := by
    rw [key a2 fun d hd => h2 d (List.mem_of_mem_head? hd), hbad, List.append_nil]
  rw [List.append_assoc, key (a2 ++ b), goodRuns_bads h2, e1]
  intro d hd
  cases a2 with
  | cons c a2 =>
    rw [List.cons_append, List.head?_cons] at hd
    cases hd
    exact h2 _ (by simp)
  | nil =>
    rw [List.append_nil] at h
    rcases h with h | ⟨c, hc, he⟩
    · exact h d hd
    · exact absurd he (h3 c hc)

theorem wordsBy_append (sep : Char → Bool) {a b : Str}
    (h : (∀ c ∈ b.head?, sep c = true) ∨ ∃ c ∈ a.getLast?, sep c = true) :
    wordsBy sep (a ++ b) = wordsBy sep a ++ wordsBy sep b := by
  have e : ∀ s, wordsBy sep s = goodRuns sep true s := by
    intro s
    unfold wordsBy goodRuns
    congr 1
    funext w
    congr 1
    funext c
    cases sep c <;> rfl
  rw [e, e, e]
  exact goodRuns_append sep true h

/-! ## Pre-tokenizers that cut between two parts -/

/-- Cutting the text in two parts first makes no difference (pieces without text aside). -/
def Parts (v : CharTables) (y : PreTokenizer) (a b : Str) : Prop :=
  ∀ first, solid (cut v first y (a ++ b)) = solid (cut v first y a) ++ solid (cut v false y b)

theorem solid_append (a b : List Str) : solid (a ++ b) = solid a ++ solid b := List.filter_append ..

/-- **C72.** `WhitespaceSplit` and `BertPreTokenizer`, where the first part ends with white space or the second begins with
it. -/
theorem C72_white (v : CharTables) {a b : Str} (h : (∀ c ∈ b.head?, v.ws c = true) ∨ ∃ c ∈ a.getLast?, v.ws c = true) :
    Parts v .whitespaceSplit a b ∧ Parts v .bert a b := by
  constructor
  · intro first
    rw [cut, cut, cut, wordsBy_append v.ws h, solid_append]
  · intro first
    rw [cut, cut, cut, wordsBy_append v.ws h, List.flatMap_append, solid_append]

/-- **C72.** `CharDelimiterSplit`. -/
theorem C72_delimiter (v : CharTables) {d : Char} {a b : Str}
    (h : (∀ c ∈ b.head?, c = d) ∨ ∃ c ∈ a.getLast?, c = d) : Parts v (.delimiter d) a b := by
  intro first
  rw [cut, cut, cut, wordsBy_append (· == d) (by simpa using h), solid_append]

/-- **C72.** `Whitespace`: next to a space, or between a word and something else. -/
theorem C72_whitespace (v : CharTables) {a b : Str}
    (h : (∀ c ∈ b.head?, wordKind v c = 2) ∨ (∃ c ∈ a.getLast?, wordKind v c = 2) ∨
      ∀ c ∈ a.getLast?, ∀ d ∈ b.head?, wordKind v c ≠ wordKind v d) : Parts v .whitespace a b := by
  intro first
  rw [cut, cut, cut]
  have : goodRuns (wordKind v) 2 (a ++ b) = goodRuns (wordKind v) 2 a ++ goodRuns (wordKind v) 2 b := by
    rcases h with h | h | h
    · exact goodRuns_append _ _ (.inl h)
    · exact goodRuns_append _ _ (.inr h)
    · exact goodRuns_split _ _ h
  unfold goodRuns at this
  rw [this, solid_append]

/-- **C72.** `ByteLevel` without a blank put before the text, with its pattern: between something that is no space and a
space. -/
theorem C72_byteLevel (v : CharTables) {r : ReTables} (hr : r.Ok) {a b : Str} (ha : Re.SolidEnd r a) (hb : Re.SpaceStart r b) :
    Parts v (.byteLevel ⟨false, true⟩ (Re.findIter (Re.byteLevel r))) a b := by
  have e : ∀ first s, cut v first (.byteLevel ⟨false, true⟩ (Re.findIter (Re.byteLevel r))) s =
      (Re.words r s).map ByteLevel.spell := by
    intro first s
    rw [cut]
    simp only [ByteLevel.withSpace, Bool.false_eq_true, if_false, if_true, false_and]
    rw [Re.C71_cut hr]
    simp
  intro first
  rw [e, e, e, Re.C71_append hr hb ha, List.map_append, solid_append]

/-- **C72.** A sequence, if its first pre-tokenizer cuts there. -/
theorem C72_sequence (v : CharTables) {z : PreTokenizer} {l : List PreTokenizer} {a b : Str} (h : Parts v z a b) :
    Parts v (.sequence (z :: l)) a b := by
  intro first
  rw [cut, cut, cut, cutAll, cutAll, cutAll, h, List.flatMap_append, solid_append]

end PreTokenizer

namespace Tokenizer

open PreTokenizer

/-- Normalizing the text in two parts makes no difference. -/
def NormParts (u : Unicode) (z : Normalizer) (a b : Str) : Prop := z.text u (a ++ b) = z.text u a ++ z.text u b

theorem mapM_append {ε α β : Type} (f : α → Except ε β) : ∀ a b : List α,
    (a ++ b).mapM f = (a.mapM f).bind fun x => (b.mapM f).map fun y => x ++ y
  | [], b => by
    rw [List.nil_append, List.mapM_nil]
    show _ = (b.mapM f).map fun y => [] ++ y
    cases b.mapM f <;> rfl
  | c :: a, b => by
    rw [List.cons_append, List.mapM_cons, List.mapM_cons, mapM_append f a b]
    cases f c with
    | error e => rfl
    | ok y =>
      cases a.mapM f with
      | error e => rfl
      | ok x =>
        cases b.mapM f with
        | error e => rfl
        | ok w => rfl

theorem unitRows_ids (typeId : Nat) (word : Option Nat) (tss : List (List Token)) :
    (unitRows typeId word tss).map (·.1) = tss.flatten.map (·.id) ∧
    (unitRows typeId word tss).map (·.2.2.1) = tss.flatten.map (·.value) := by
  have : ∀ (tss : List (List Token)) (k : Nat),
      ((tss.zipIdx k).flatMap fun x => x.1.map fun tok => (tok.id, typeId, tok.value, some (word.getD x.2), 0, 1)).map
        (fun r : Nat × Nat × Str × Option Nat × Nat × Nat => (r.1, r.2.2.1)) = tss.flatten.map fun t => (t.id, t.value) := by
    intro tss
    induction tss with
    | nil => intro k; rfl
    | cons ts tss ih =>
      intro k
      rw [List.zipIdx_cons, List.flatMap_cons, List.map_append, ih, List.flatten_cons, List.map_append, List.map_map]
      rfl
  have h := this tss 0
  constructor
  · have := congrArg (List.map Prod.fst) h
    simpa [unitRows, List.map_map, Function.comp_def] using this
  · have := congrArg (List.map Prod.snd) h
    simpa [unitRows, List.map_map, Function.comp_def] using this

/-- The ids of a text without added tokens, without special tokens around. -/
theorem plain_ids {t : Tokenizer} {u : Unicode} {z : Normalizer} {v : CharTables} {y : PreTokenizer} (h : IsPipeline t u z v y)
    (hset : Surrounds t.settings fun _ => True) {s : Str} (hs : s ≠ []) (h1 : ∀ p ∈ t.added.trie, ¬ p.1 <:+: s)
    (h2 : ∀ p ∈ t.added.normTrie, ¬ p.1 <:+: z.text u s) :
    match (solid (cut v false y (z.text u s))).mapM t.model with
    | .error er => t.encode (.raw s, none) false = .error er
    | .ok tss => ∃ e, t.encode (.raw s, none) false = .ok e ∧ e.ids = tss.flatten.map (·.id) := by
  have key := C58_no_added h hs h1 h2 0 (ty := .byte) (by simp) none
  have hlim : t.limit 0 = none := by unfold limit; rw [hset.1]
  have hseq : t.encodeSequence 0 .byte (.raw s) = t.encodeText none 0 .byte none s := by
    show t.encodeText (t.limit 0) 0 .byte none s = _
    rw [hlim]
  unfold solid
  cases hm : ((cut v false y (z.text u s)).filter (· ≠ [])).mapM t.model with
  | error er =>
    rw [hm] at key
    show (t.encodeSequence 0 .byte (.raw s)).bind _ = _
    rw [hseq, key]; rfl
  | ok tss =>
    rw [hm] at key
    obtain ⟨e, e1, e2, e3⟩ := key
    rw [← hseq] at e1
    obtain ⟨hwf, hsr⟩ := encodeSequence_wf (lim := t.limit 0) (i := .raw s) e1 hlim
    obtain ⟨out, pre, post, o1, o2, _, o4⟩ := surrounds_ids hset t.ws t.checked false hwf hsr e2
    refine ⟨out, ?_, ?_⟩
    · show (t.encodeSequence 0 .byte (.raw s)).bind _ = _
      rw [e1]
      show mapErr EncErr.post (t.settings.postProcess t.ws t.checked e none false) = _
      rw [o1]; rfl
    · obtain ⟨rfl, rfl⟩ := List.append_eq_nil_iff.1 (o4 rfl)
      rw [o2, List.nil_append, List.append_nil, ← (unitRows_ids 0 none tss).1, ← e3, List.map_map,
        (rows_unzip hwf.parallel).1]
      rfl

/-- **C72.** A text without added tokens that is cut where the normalizer and the pre-tokenizer do not mind has the ids of
its two parts, and is encoded if and only if they are. -/
theorem C72_apart {t : Tokenizer} {u : Unicode} {z : Normalizer} {v : CharTables} {y : PreTokenizer} (h : IsPipeline t u z v y)
    (hset : Surrounds t.settings fun _ => True) {a b : Str} (ha : a ≠ []) (hb : b ≠ []) (hn : NormParts u z a b)
    (hp : Parts v y (z.text u a) (z.text u b)) (h1 : ∀ p ∈ t.added.trie, ¬ p.1 <:+: a ++ b)
    (h2 : ∀ p ∈ t.added.normTrie, ¬ p.1 <:+: z.text u (a ++ b)) :
    (∀ x y, t.encode (.raw a, none) false = .ok x → t.encode (.raw b, none) false = .ok y →
      ∃ e, t.encode (.raw (a ++ b), none) false = .ok e ∧ e.ids = x.ids ++ y.ids) ∧
    ∀ e, t.encode (.raw (a ++ b), none) false = .ok e →
      ∃ x y, t.encode (.raw a, none) false = .ok x ∧ t.encode (.raw b, none) false = .ok y := by
  have ka := plain_ids h hset ha (fun p hp hi => h1 p hp (hi.trans (List.infix_append' [] a b)))
    (fun p hp hi => h2 p hp (by rw [hn]; exact hi.trans (List.infix_append' [] _ _)))
  have kb := plain_ids h hset hb (fun p hp hi => h1 p hp (hi.trans (List.suffix_append a b).isInfix))
    (fun p hp hi => h2 p hp (by rw [hn]; exact hi.trans (List.suffix_append _ _).isInfix))
  have k := plain_ids h hset (s := a ++ b) (by simp [ha]) h1 h2
  rw [hn, hp false, mapM_append] at k
  cases ma : (solid (cut v false y (z.text u a))).mapM t.model with
  | error er =>
    rw [ma] at ka k
    refine ⟨fun x y hx => ?_, fun e he => ?_⟩
    · rw [ka] at hx; cases hx
    · have k : t.encode (.raw (a ++ b), none) false = .error er := k
      rw [k] at he; cases he
  | ok A =>
    rw [ma] at ka k
    obtain ⟨x, x1, x2⟩ := ka
    cases mb : (solid (cut v false y (z.text u b))).mapM t.model with
    | error er =>
      rw [mb] at kb k
      refine ⟨fun x y _ hy => ?_, fun e he => ?_⟩
      · rw [kb] at hy; cases hy
      · have k : t.encode (.raw (a ++ b), none) false = .error er := k
        rw [k] at he; cases he
    | ok B =>
      rw [mb] at kb k
      obtain ⟨y', y1, y2⟩ := kb
      obtain ⟨e, e1, e2⟩ := k
      refine ⟨fun x' y'' hx hy => ?_, fun _ _ => ⟨x, y', x1, y1⟩⟩
      rw [x1] at hx; rw [y1] at hy
      cases hx; cases hy
      exact ⟨e, e1, by rw [e2, x2, y2, List.flatten_append, List.map_append]⟩

/-- **C72.** Normalizers that work character by character do not mind. -/
theorem C72_normalizers (u : Unicode) (a b : Str) : NormParts u (.sequence []) a b ∧ NormParts u .lowercase a b ∧
    NormParts u .stripAccents a b ∧ NormParts u .nmt a b ∧ NormParts u .byteLevel a b := by
  refine ⟨?_, ?_, ?_, ?_, ?_⟩
  · simp [NormParts, Normalizer.text, Normalizer.textAll]
  · simp [NormParts, Normalizer.text]
  · simp [NormParts, Normalizer.text]
  · simp only [NormParts, Normalizer.text, List.flatMap_append]
  · simp only [NormParts, Normalizer.text, ByteLevel.spell_append]

end Tokenizer
end Tok
