import Verif.Pre.Props

/-!
# Early exit of tokenization (C38)
-/

namespace Tok
namespace PTS
variable {ε : Type}

/-- Number of tokens of a list of splits. -/
def count (ss : List Split) : Nat := (ss.map fun s => (s.tokens.getD []).length).sum

@[simp] theorem count_nil : count [] = 0 := rfl
@[simp] theorem count_cons (s : Split) (ss : List Split) :
    count (s :: ss) = (s.tokens.getD []).length + count ss := by simp [count]
@[simp] theorem count_append (a b : List Split) : count (a ++ b) = count a + count b := by simp [count]

/-- The limited loop returns a prefix of the full result; what it leaves out is beyond the limit. -/
theorem limitLoop_prefix (f : NS → Except ε (List Token)) (max : Nat) : ∀ (ss full : List Split) (total : Nat),
    mapUntokenized (fun n => (f n).map fun ts => ⟨n, some ts⟩) ss = .ok full →
    ∃ a b, full = a ++ b ∧ limitLoop f max total ss = .ok a ∧ (b = [] ∨ max ≤ total + count a)
  | [], full, total, h => by cases h; exact ⟨[], [], rfl, rfl, .inl rfl⟩
  | s :: ss, full, total, h => by
    obtain ⟨n, tk⟩ := s
    cases tk with
    | some ts =>
      rw [mapUntokenized, if_pos (by rfl)] at h
      cases hr : mapUntokenized (fun n => (f n).map fun ts => (⟨n, some ts⟩ : Split)) ss with
      | error e => rw [hr] at h; cases h
      | ok r =>
        rw [hr] at h; cases h
        obtain ⟨a, b, h1, h2, h3⟩ := limitLoop_prefix f max ss r (total + ts.length) hr
        refine ⟨⟨n, some ts⟩ :: a, b, by rw [h1]; rfl, by simp only [limitLoop, h2]; rfl, ?_⟩
        rcases h3 with h3 | h3
        · exact .inl h3
        · right; simp only [count_cons, Option.getD_some]; omega
    | none =>
      rw [mapUntokenized, if_neg (by simp)] at h
      cases hf : f n with
      | error e => rw [hf] at h; cases h
      | ok ts =>
        cases hr : mapUntokenized (fun n => (f n).map fun ts => (⟨n, some ts⟩ : Split)) ss with
        | error e => rw [hf, hr] at h; cases h
        | ok r =>
          rw [hf, hr] at h; cases h
          by_cases hm : total + ts.length ≥ max
          · refine ⟨[⟨n, some ts⟩], r, rfl, ?_, .inr (by simp; omega)⟩
            rw [limitLoop, hf]
            simp only [bind, Except.bind]
            rw [if_pos hm]; rfl
          · obtain ⟨a, b, h1, h2, h3⟩ := limitLoop_prefix f max ss r (total + ts.length) hr
            refine ⟨⟨n, some ts⟩ :: a, b, by rw [h1]; rfl, ?_, ?_⟩
            · rw [limitLoop, hf]
              simp only [bind, Except.bind]
              rw [if_neg hm, h2]; rfl
            · rcases h3 with h3 | h3
              · exact .inl h3
              · right; simp only [count_cons, Option.getD_some]; omega

theorem mapUntokenized_reverse (g : NS → Except ε Split) {ss r : List Split}
    (h : mapUntokenized g ss = .ok r) : mapUntokenized g ss.reverse = .ok r.reverse := by
  obtain ⟨h1, h2⟩ := (mapUntokenized_ok g ss r).1 h
  refine (mapUntokenized_ok g _ _).2 ⟨by simp [h1], fun i s s' hs hs' => ?_⟩
  have hi : i < ss.length := by
    have := (List.getElem?_eq_some_iff.1 hs).1; simpa using this
  rw [List.getElem?_reverse (by omega)] at hs hs'
  rw [h1] at hs'
  exact h2 _ _ _ hs hs'

theorem tokenize_ok_iff {p P : PTS} {f : NS → Except ε (List Token)} : p.tokenize f = .ok P ↔
    P.original = p.original ∧
    mapUntokenized (fun n => (f n).map fun ts => ⟨n, some ts⟩) p.splits = .ok P.splits := by
  obtain ⟨po, ps⟩ := P
  unfold tokenize
  cases mapUntokenized (fun n => (f n).map fun ts => (⟨n, some ts⟩ : Split)) p.splits with
  | error e => simp [Except.map]
  | ok r =>
    simp only [Except.map, Except.ok.injEq, PTS.mk.injEq]
    constructor <;> (rintro ⟨rfl, rfl⟩; exact ⟨rfl, rfl⟩)

theorem tokenize_all {p P : PTS} {f : NS → Except ε (List Token)} (h : p.tokenize f = .ok P) :
    ∀ s ∈ P.splits, s.tokens.isSome := by
  obtain ⟨_, h1, h2⟩ := (C13_tokenize p P f).1 h
  intro s hs
  obtain ⟨i, hi⟩ := mem_getElem? hs
  have hlt : i < p.splits.length := by rw [← h1]; exact (List.getElem?_eq_some_iff.1 hi).1
  have := h2 i _ _ (List.getElem?_eq_getElem hlt) hi
  cases ht : p.splits[i].tokens with
  | some ts => rw [this.1 (by simp [ht]), ht]; rfl
  | none => obtain ⟨ts, g, _⟩ := (this.2 ht).2; rw [g]; rfl

/-- The items of any offset type. -/
def items (original : Str) (word : Option Nat) (typeId : Nat) (ty : OffsetType) (i : Nat) (ss : List Split) :
    List (Nat × Str × Range × Option Nat × Nat) :=
  match ty with
  | .none => ss.flatMap fun s => (s.tokens.getD []).map fun t => (t.id, [], (0, 0), none, 0)
  | ty => encodingItems original word typeId ty i ss

theorem intoEncoding_items {p : PTS} (h : ∀ s ∈ p.splits, s.tokens.isSome) (word : Option Nat) (typeId : Nat)
    (ty : OffsetType) :
    p.intoEncoding word typeId ty = .ok (Encoding.fromItems (items p.original word typeId ty 0 p.splits)) := by
  unfold intoEncoding
  by_cases he : p.splits = []
  · rw [if_pos he, he]; cases ty <;> rfl
  · rw [if_neg he, if_neg (by simp only [Decidable.not_not, List.all_eq_true]; exact h)]
    cases ty <;> rfl

theorem items_length (original : Str) (word : Option Nat) (typeId : Nat) (ty : OffsetType) :
    ∀ (ss : List Split) (i : Nat), (items original word typeId ty i ss).length = count ss := by
  intro ss
  induction ss with
  | nil => intro i; cases ty <;> rfl
  | cons s ss ih =>
    intro i
    have := ih (i + 1)
    cases ty with
    | none => simp only [items, List.flatMap_cons, List.length_append, List.length_map, count_cons] at *; omega
    | byte => simp only [items, encodingItems, List.length_append, List.length_map, count_cons] at *; omega
    | char => simp only [items, encodingItems, List.length_append, List.length_map, count_cons] at *; omega

theorem items_append (original : Str) (word : Option Nat) (typeId : Nat) (ty : OffsetType) (b : List Split) :
    ∀ (a : List Split) (i : Nat), items original word typeId ty i (a ++ b)
      = items original word typeId ty i a ++ items original word typeId ty (i + a.length) b := by
  intro a
  induction a with
  | nil => intro i; cases ty <;> rfl
  | cons s a ih =>
    intro i
    have h := ih (i + 1)
    have e : i + 1 + a.length = i + (a.length + 1) := by omega
    cases ty with
    | none => simp only [items, List.cons_append, List.flatMap_cons, List.flatMap_append, List.append_assoc]
    | byte =>
      simp only [items, List.cons_append, encodingItems, List.append_assoc, List.length_cons] at *
      rw [h, e]
    | char =>
      simp only [items, List.cons_append, encodingItems, List.append_assoc, List.length_cons] at *
      rw [h, e]

/-- Forget the word index of an item. -/
def forget (x : Nat × Str × Range × Option Nat × Nat) : Nat × Str × Range × Option Nat × Nat :=
  (x.1, x.2.1, x.2.2.1, none, x.2.2.2.2)

theorem items_forget (original : Str) (word : Option Nat) (typeId : Nat) (ty : OffsetType) :
    ∀ (ss : List Split) (i j : Nat), (items original word typeId ty i ss).map forget
      = (items original word typeId ty j ss).map forget := by
  intro ss
  induction ss with
  | nil => intro i j; cases ty <;> rfl
  | cons s ss ih =>
    intro i j
    have h := ih (i + 1) (j + 1)
    cases ty with
    | none => rfl
    | byte =>
      simp only [items, encodingItems, List.map_append, List.map_map] at *
      rw [h]; rfl
    | char =>
      simp only [items, encodingItems, List.map_append, List.map_map] at *
      rw [h]; rfl

theorem items_word (original : Str) (w : Nat) (typeId : Nat) (ty : OffsetType) :
    ∀ (ss : List Split) (i j : Nat), items original (some w) typeId ty i ss
      = items original (some w) typeId ty j ss := by
  intro ss
  induction ss with
  | nil => intro i j; cases ty <;> rfl
  | cons s ss ih =>
    intro i j
    have h := ih (i + 1) (j + 1)
    cases ty with
    | none => rfl
    | byte => simp only [items, encodingItems] at *; rw [h]; rfl
    | char => simp only [items, encodingItems] at *; rw [h]; rfl

theorem fromItems_rows (xs : List (Nat × Str × Range × Option Nat × Nat)) : (Encoding.fromItems xs).rows
    = xs.map fun x => (x.1, x.2.2.2.2, x.2.1, x.2.2.2.1, x.2.2.1, 0, 1) := by
  induction xs with
  | nil => rfl
  | cons x xs ih =>
    unfold Encoding.fromItems Encoding.rows at *
    simp only [Encoding.ids, Encoding.typeIds, Encoding.tokens, Encoding.words, Encoding.offsets,
      Encoding.specialMask, Encoding.attnMask, List.map_cons, List.zip_cons_cons] at *
    rw [ih]

@[simp] theorem fromItems_len (xs : List (Nat × Str × Range × Option Nat × Nat)) :
    (Encoding.fromItems xs).len = xs.length := by simp [Encoding.fromItems, Encoding.len, Encoding.ids]

/-- A row without its word index. -/
def Row.noWord (r : Encoding.Row) : Encoding.Row :=
  (r.1, r.2.1, r.2.2.1, none, r.2.2.2.2.1, r.2.2.2.2.2.1, r.2.2.2.2.2.2)

/-- **C38 (right).** If everything can be tokenized, so it can with the limit; then for every length up to the
limit the encodings start with the same rows (ids, tokens, offsets, words, ...), and one is longer than
it exactly if the other is. -/
theorem C38_right {p P : PTS} {f : NS → Except ε (List Token)} {max k : Nat} (h : p.tokenize f = .ok P)
    (hk : k ≤ max) (word : Option Nat) (typeId : Nat) (ty : OffsetType) :
    ∃ Q e e', p.tokenizeWithLimit f max .right = .ok Q ∧ P.intoEncoding word typeId ty = .ok e ∧
      Q.intoEncoding word typeId ty = .ok e' ∧ e'.rows.take k = e.rows.take k ∧ (k < e'.len → k < e.len) ∧
      (k < e.len → k ≤ e'.len) ∧ (e.len ≤ k → e' = e) := by
  obtain ⟨h0, hm⟩ := tokenize_ok_iff.1 h
  obtain ⟨a, b, h1, h2, h3⟩ := limitLoop_prefix f max _ _ 0 hm
  have hall := tokenize_all h
  refine ⟨⟨p.original, a⟩, _, _, by simp only [tokenizeWithLimit, h2]; rfl, intoEncoding_items hall _ _ _,
    intoEncoding_items (fun s hs => hall s (by rw [h1]; simp [show s ∈ a from hs])) _ _ _, ?_, ?_, ?_, ?_⟩
  · rw [fromItems_rows, fromItems_rows, ← List.map_take, ← List.map_take, h1, items_append, h0]
    congr 1
    rw [List.take_append]
    rcases h3 with h3 | h3
    · have : items p.original word typeId ty (0 + a.length) b = [] := by
        rw [← List.length_eq_zero_iff, items_length, h3]; rfl
      rw [this]; simp
    · have : k - (items p.original word typeId ty 0 a).length = 0 := by rw [items_length]; omega
      rw [this]; simp
  · rw [fromItems_len, fromItems_len, items_length, items_length, h1, count_append]; simp only; omega
  · rw [fromItems_len, fromItems_len, items_length, items_length, h1, count_append]
    simp only
    rcases h3 with rfl | h3
    · simp; omega
    · omega
  · rw [fromItems_len, items_length, h1, items_append, h0]
    intro hle
    simp only
    have : items p.original word typeId ty (0 + a.length) b = [] := by
      rw [← List.length_eq_zero_iff, items_length]
      rw [count_append] at hle
      rcases h3 with h3 | h3
      · rw [h3]; rfl
      · omega
    rw [this]; simp

theorem drop_suffix {α} {l₁ l₂ : List α} {m n k : Nat} (h1 : l₁.length = m) (_h2 : l₂.length = n)
    (h : m = 0 ∨ k ≤ n) : (l₁ ++ l₂).drop (m + n - k) = l₂.drop (n - k) := by
  rw [List.drop_append, List.drop_of_length_le (by omega), List.nil_append]
  congr 1
  omega

/-- **C38 (left).** The same from the right end, except for the word indices: they are counted from the first
split that was kept (unless the word index is given, as for pre-tokenized input). -/
theorem C38_left {p P : PTS} {f : NS → Except ε (List Token)} {max k : Nat} (h : p.tokenize f = .ok P)
    (hk : k ≤ max) (word : Option Nat) (typeId : Nat) (ty : OffsetType) :
    ∃ Q e e', p.tokenizeWithLimit f max .left = .ok Q ∧ P.intoEncoding word typeId ty = .ok e ∧
      Q.intoEncoding word typeId ty = .ok e' ∧
      (e'.rows.drop (e'.len - k)).map Row.noWord = (e.rows.drop (e.len - k)).map Row.noWord ∧
      (word.isSome → e'.rows.drop (e'.len - k) = e.rows.drop (e.len - k)) ∧
      (k < e'.len → k < e.len) ∧ (k < e.len → k ≤ e'.len) ∧
      (e.len ≤ k → e'.rows.map Row.noWord = e.rows.map Row.noWord) := by
  obtain ⟨h0, hm⟩ := tokenize_ok_iff.1 h
  obtain ⟨a, b, h1, h2, h3⟩ := limitLoop_prefix f max _ _ 0 (mapUntokenized_reverse _ hm)
  have h1' : P.splits = b.reverse ++ a.reverse := by
    have := congrArg List.reverse h1; simpa using this
  have hall := tokenize_all h
  have hcomp : Row.noWord ∘ (fun x : Nat × Str × Range × Option Nat × Nat =>
      ((x.1, x.2.2.2.2, x.2.1, x.2.2.2.1, x.2.2.1, 0, 1) : Encoding.Row))
      = (fun x => ((x.1, x.2.2.2.2, x.2.1, x.2.2.2.1, x.2.2.1, 0, 1) : Encoding.Row)) ∘ forget := rfl
  have hcount : ∀ l : List Split, count l.reverse = count l := by
    intro l; unfold count; rw [List.map_reverse]; exact List.sum_reverse ..
  refine ⟨⟨p.original, a.reverse⟩, _, _, by simp only [tokenizeWithLimit, h2]; rfl, intoEncoding_items hall _ _ _,
    intoEncoding_items (fun s hs => hall s (by rw [h1']; simp [show s ∈ a by simpa using hs])) _ _ _, ?_, ?_, ?_, ?_, ?_⟩
  all_goals
    have hl1 : (items P.original word typeId ty 0 P.splits).length = count b + count a := by
      rw [items_length, h1', count_append, hcount, hcount]
    have hl2 : (items p.original word typeId ty 0 a.reverse).length = count a := by rw [items_length, hcount]
    have hlb : (items p.original word typeId ty 0 b.reverse).length = count b := by rw [items_length, hcount]
    have hcase : count b = 0 ∨ max ≤ count a := by
      rcases h3 with rfl | h3
      · exact .inl rfl
      · exact .inr (by omega)
  · rw [fromItems_rows, fromItems_rows, fromItems_len, fromItems_len, hl1]
    simp only
    rw [hl2, ← List.map_drop, ← List.map_drop, List.map_map, List.map_map, hcomp, ← List.map_map, ← List.map_map]
    congr 1
    rw [List.map_drop, List.map_drop, h1', items_append, h0, List.map_append,
      items_forget p.original word typeId ty a.reverse (0 + b.reverse.length) 0,
      drop_suffix (by rw [List.length_map, hlb]) (by rw [List.length_map, hl2]) (by omega)]
  · intro hw
    obtain ⟨w, rfl⟩ := Option.isSome_iff_exists.1 hw
    rw [fromItems_rows, fromItems_rows, fromItems_len, fromItems_len, hl1]
    simp only
    rw [hl2, ← List.map_drop, ← List.map_drop]
    congr 1
    rw [h1', items_append, h0, items_word p.original w typeId ty a.reverse (0 + b.reverse.length) 0,
      drop_suffix hlb hl2 (by omega)]
  · rw [fromItems_len, fromItems_len, hl1]; simp only; rw [hl2]; omega
  · rw [fromItems_len, fromItems_len, hl1]; simp only; rw [hl2]; omega
  · rw [fromItems_len, hl1]
    intro hle
    have hnil : items p.original word typeId ty 0 b.reverse = [] := by
      rw [← List.length_eq_zero_iff, hlb]; omega
    rw [fromItems_rows, fromItems_rows]
    simp only
    rw [h1', items_append, h0, hnil, List.nil_append, List.map_map, List.map_map, hcomp, ← List.map_map,
      ← List.map_map, items_forget p.original word typeId ty a.reverse (0 + b.reverse.length) 0]

/-- The rows kept by truncation. -/
theorem truncate_kept {e t : Encoding} (hr : Encoding.Reach e) {k stride : Nat} {d : Encoding.Direction}
    (ht : e.truncate k stride d = some t) :
    t.rows = if d = .right then e.rows.take k else e.rows.drop (e.len - k) := by
  have hwf := C01_reachable_wf hr
  have hlen : e.rows.length = e.len := Encoding.rows_length hwf.parallel
  by_cases hl : k < e.len
  · by_cases h0 : 0 < k
    · cases d with
      | right => rw [if_pos rfl]; exact (C02_truncate_right hwf h0 hl ht).1
      | left => rw [if_neg (by simp)]; exact (C02_truncate_left hwf h0 hl ht).1
    · have hk : k = 0 := by omega
      subst hk
      rw [(C02_truncate_zero e t stride d (by omega) ht).2.1]
      cases d with
      | right => rfl
      | left => rw [if_neg (by simp), List.drop_of_length_le (by omega)]
  · rw [C02_truncate_fits e k stride d (by omega)] at ht
    cases ht
    cases d with
    | right => rw [if_pos rfl, List.take_of_length_le (by omega)]
    | left => rw [if_neg (by simp), show e.len - k = 0 by omega, List.drop_zero]

/-- **C38.** Tokenizing with the limit, then truncating, keeps what tokenizing everything and truncating
keeps: everything but the word indices when the cut is on the left. -/
theorem C38_truncated {p P : PTS} {f : NS → Except ε (List Token)} {max k stride : Nat} {d : Encoding.Direction}
    (h : p.tokenize f = .ok P) (hk : k ≤ max) (word : Option Nat) (typeId : Nat) (ty : OffsetType)
    {e t : Encoding} (he : P.intoEncoding word typeId ty = .ok e) (ht : e.truncate k stride d = some t) :
    ∃ Q e' t', p.tokenizeWithLimit f max d = .ok Q ∧ Q.intoEncoding word typeId ty = .ok e' ∧
      e'.truncate k stride d = some t' ∧ t'.rows.map Row.noWord = t.rows.map Row.noWord ∧
      (d = .right ∨ word.isSome → t'.rows = t.rows) := by
  have reach : ∀ (R : PTS) (x : Encoding), R.intoEncoding word typeId ty = .ok x → Encoding.Reach x := by
    intro R x hx
    unfold intoEncoding at hx
    split at hx
    · cases hx; exact .default
    · split at hx
      · cases hx
      · split at hx <;> (cases hx; exact .items _)
  have nopanic : ∀ e' : Encoding, Encoding.Reach e' → (k < e'.len → k < e.len) → e'.truncate k stride d ≠ none := by
    intro e' hr hlt hn
    obtain ⟨h1, h2, h3⟩ := (C02_truncate_panics_iff (C01_reachable_wf hr) k stride d).1 hn
    rw [(C02_truncate_panics_iff (C01_reachable_wf (reach P e he)) k stride d).2 ⟨h1, hlt h2, h3⟩] at ht
    cases ht
  cases d with
  | right =>
    obtain ⟨Q, e1, e', h1, h2, h3, h4, h5, _⟩ := C38_right h hk word typeId ty
    rw [he] at h2; cases h2
    obtain ⟨t', ht'⟩ := Option.ne_none_iff_exists'.1 (nopanic e' (reach Q e' h3) h5)
    have := truncate_kept (reach Q e' h3) ht'
    have h6 := truncate_kept (reach P e he) ht
    rw [if_pos rfl] at this h6
    rw [h4, ← h6] at this
    exact ⟨Q, e', t', h1, h3, ht', by rw [this], fun _ => this⟩
  | left =>
    obtain ⟨Q, e1, e', h1, h2, h3, h4, h4', h5, _⟩ := C38_left h hk word typeId ty
    rw [he] at h2; cases h2
    obtain ⟨t', ht'⟩ := Option.ne_none_iff_exists'.1 (nopanic e' (reach Q e' h3) h5)
    have := truncate_kept (reach Q e' h3) ht'
    have h6 := truncate_kept (reach P e he) ht
    rw [if_neg (by simp)] at this h6
    refine ⟨Q, e', t', h1, h3, ht', by rw [this, h6, h4], fun hd => ?_⟩
    rcases hd with hd | hd
    · cases hd
    · rw [this, h6, h4' hd]

/-! Examples: "ab cd" split at the space, one token per character. -/

/-- The two pieces of "ab cd". -/
def sample : PTS := ⟨"ab cd".toList, [⟨NS.ofStr "ab".toList, none⟩,
  ⟨{ NS.ofStr "cd".toList with shift := 3 }, none⟩]⟩

/-- One token per character. -/
def charTokens (n : NS) : Except Unit (List Token) :=
  .ok (n.norm.zipIdx.map fun c => ⟨c.1.toNat, [c.1], (c.2, c.2 + 1)⟩)

example : ∃ P e, sample.tokenize charTokens = .ok P ∧ P.intoEncoding none 0 .byte = .ok e ∧
    e.offsets = [(0, 1), (1, 2), (3, 4), (4, 5)] ∧ e.words = [some 0, some 0, some 1, some 1] :=
  ⟨_, _, rfl, rfl, by decide, by decide⟩

/-- With the cut on the left the word indices differ from those of the full tokenization. -/
theorem C38_left_words_differ : ∃ P Q e e' t t', sample.tokenize charTokens = .ok P ∧
    sample.tokenizeWithLimit charTokens 2 .left = .ok Q ∧ P.intoEncoding none 0 .byte = .ok e ∧
    Q.intoEncoding none 0 .byte = .ok e' ∧ e.truncate 2 0 .left = some t ∧ e'.truncate 2 0 .left = some t' ∧
    t.ids = t'.ids ∧ t.words = [some 1, some 1] ∧ t'.words = [some 0, some 0] :=
  ⟨_, _, _, _, _, _, rfl, rfl, rfl, rfl, rfl, rfl, rfl, rfl, rfl⟩

/-- The overflowing parts beyond the limit are lost. -/
theorem C38_overflow_lost : ∃ P Q e e' t t', sample.tokenize charTokens = .ok P ∧
    sample.tokenizeWithLimit charTokens 2 .right = .ok Q ∧ P.intoEncoding none 0 .byte = .ok e ∧
    Q.intoEncoding none 0 .byte = .ok e' ∧ e.truncate 2 0 .right = some t ∧ e'.truncate 2 0 .right = some t' ∧
    t.overflowing.length = 1 ∧ t'.overflowing.length = 0 :=
  ⟨_, _, _, _, _, _, rfl, rfl, rfl, rfl, rfl, rfl, rfl, rfl⟩

end PTS
end Tok
