import Verif.Tokenizer.Offsets

/-!
# Model of the Python `PreTokenizedString` (`bindings/python/src/utils/pretokenization.rs`); C104

Python code is handed a `PreTokenizedString`, or makes one, and calls `split`, `normalize` and `tokenize` with functions
of its own. These may raise, and the code may go on after an exception, so a call here gives the state it leaves in any case.
A Python function may keep a state of its own. A call visits every split at most once, so such a function is the same as
one that is told the index of the split.
-/

namespace Tok.PyPre

open PTS

variable {ε : Type}

/-- A call of a method with a function of Python (`pretokenization.rs:15-66`). `split`: the pieces, or what was raised (a
result that is no list of normalized strings counts as raised). `normalize`: the string as it was left, and what was raised
in the end. `tokenize`: the tokens for the text, or what was raised. -/
inductive Call (ε : Type) where
  | split (f : Nat → NS → Except ε (List NS))
  | normalize (f : Nat → NS → NS × Option ε)
  | tokenize (f : Nat → Str → Except ε (List Token))

/-- `split` (`pretokenization.rs:15-31`, `pre_tokenizer.rs:73-103`). The splits are drained before the function is called: if
it raises, the `Drain` removes what is left, and `new_splits` is dropped. -/
def splitCall (p : PTS) (f : Nat → NS → Except ε (List NS)) : PTS × Option ε :=
  match p.split fun i n => (f i n).map fun l => l.map fun x => ⟨x, none⟩ with
  | .ok p' => (p', none)
  | .error e => (⟨p.original, []⟩, some e)

/-- The loop of `normalize` (`pretokenization.rs:33-48`, `pre_tokenizer.rs:107-115`): the splits are changed where they are. -/
def normalizeLoop (f : Nat → NS → NS × Option ε) : Nat → List Split → List Split × Option ε
  | _, [] => ([], none)
  | i, s :: rest =>
    if s.tokens.isSome then (s :: (normalizeLoop f (i + 1) rest).1, (normalizeLoop f (i + 1) rest).2)
    else match f i s.normalized with
      | (n, some e) => (⟨n, none⟩ :: rest, some e)
      | (n, none) => (⟨n, none⟩ :: (normalizeLoop f (i + 1) rest).1, (normalizeLoop f (i + 1) rest).2)

/-- The loop of `tokenize` (`pretokenization.rs:50-66`, `pre_tokenizer.rs:119-128`). -/
def tokenizeLoop (f : Nat → Str → Except ε (List Token)) : Nat → List Split → List Split × Option ε
  | _, [] => ([], none)
  | i, s :: rest =>
    if s.tokens.isSome then (s :: (tokenizeLoop f (i + 1) rest).1, (tokenizeLoop f (i + 1) rest).2)
    else match f i s.normalized.norm with
      | .error e => (s :: rest, some e)
      | .ok ts => (⟨s.normalized, some ts⟩ :: (tokenizeLoop f (i + 1) rest).1, (tokenizeLoop f (i + 1) rest).2)

/-- One call: the state it leaves, and what it raises. -/
def call (p : PTS) : Call ε → PTS × Option ε
  | .split f => splitCall p f
  | .normalize f => (⟨p.original, (normalizeLoop f 0 p.splits).1⟩, (normalizeLoop f 0 p.splits).2)
  | .tokenize f => (⟨p.original, (tokenizeLoop f 0 p.splits).1⟩, (tokenizeLoop f 0 p.splits).2)

/-- `get_splits` (`pretokenization.rs:104-124`); by default `original` and `char`. -/
def getSplits (p : PTS) (ref : Referential := .original) (ty : OffsetType := .char) : List (Str × Range × Option (List Token)) :=
  p.getSplits ref ty

/-- `to_encoding` (`pretokenization.rs:126-139`). -/
def toEncoding (p : PTS) (typeId : Nat := 0) (word : Option Nat := none) : Except Unit Encoding :=
  p.intoEncoding word typeId .char

/-! ## What the documentation asks of the functions -/

/-- The pieces come from the received string by slicing and editing, and the received string is edited, not replaced
(`pretokenization.rs:186-189`, `198-202`). -/
def Call.Honest : Call ε → Prop
  | .split f => ∀ i n o, f i n = .ok o → ∀ x ∈ o, x.norm ≠ [] → NS.Derived n x
  | .normalize f => ∀ i n, NS.Edits n (f i n).1
  | .tokenize _ => True

/-- What Python code can do to a pre-tokenized string: calls of its choice, whatever they raise. -/
inductive Steps (ε : Type) : PTS → PTS → Prop
  | refl (p) : Steps ε p p
  | step {p q} (c : Call ε) : Steps ε p q → c.Honest → Steps ε p (call q c).1

/-! ## C104: offsets -/

theorem normalizeLoop_sound {whole : Str} {f : Nat → NS → NS × Option ε} (hf : ∀ i n, NS.Edits n (f i n).1) :
    ∀ (ss : List Split) (i : Nat), (∀ s ∈ ss, NS.Reachable s.normalized ∧ s.normalized.Within whole) →
      ∀ s ∈ (normalizeLoop f i ss).1, NS.Reachable s.normalized ∧ s.normalized.Within whole
  | [], _, _, s, hs => by simp [normalizeLoop] at hs
  | s :: rest, i, h, x, hx => by
    have hs := h s List.mem_cons_self
    have hr := fun y (hy : y ∈ rest) => h y (List.mem_cons_of_mem _ hy)
    have he := hf i s.normalized
    have hn : NS.Reachable (f i s.normalized).1 ∧ (f i s.normalized).1.Within whole :=
      ⟨NS.edits_reachable he hs.1, (NS.edits_source he).within hs.2⟩
    rw [normalizeLoop] at hx
    split at hx
    · rcases List.mem_cons.1 hx with rfl | hx
      · exact hs
      · exact normalizeLoop_sound hf rest (i + 1) hr x hx
    · split at hx
      · rename_i n e heq
        rw [heq] at hn
        rcases List.mem_cons.1 hx with rfl | hx
        · exact hn
        · exact hr x hx
      · rename_i n heq
        rw [heq] at hn
        rcases List.mem_cons.1 hx with rfl | hx
        · exact hn
        · exact normalizeLoop_sound hf rest (i + 1) hr x hx

theorem tokenizeLoop_mem {f : Nat → Str → Except ε (List Token)} :
    ∀ (ss : List Split) (i : Nat), ∀ s ∈ (tokenizeLoop f i ss).1, ∃ s' ∈ ss, s'.normalized = s.normalized
  | [], _, s, hs => by simp [tokenizeLoop] at hs
  | s :: rest, i, x, hx => by
    have ih := tokenizeLoop_mem (f := f) rest (i + 1)
    rw [tokenizeLoop] at hx
    split at hx
    · rcases List.mem_cons.1 hx with rfl | hx
      · exact ⟨_, List.mem_cons_self, rfl⟩
      · obtain ⟨y, h1, h2⟩ := ih x hx
        exact ⟨y, List.mem_cons_of_mem _ h1, h2⟩
    · split at hx
      · exact ⟨x, hx, rfl⟩
      · rcases List.mem_cons.1 hx with rfl | hx
        · exact ⟨s, List.mem_cons_self, rfl⟩
        · obtain ⟨y, h1, h2⟩ := ih x hx
          exact ⟨y, List.mem_cons_of_mem _ h1, h2⟩

theorem call_original (p : PTS) (c : Call ε) : (call p c).1.original = p.original := by
  cases c with
  | split f =>
    show (splitCall p f).1.original = _
    unfold splitCall
    split
    · rename_i p' h
      exact ((C13_split_in_place _ _ _).1 h).1
    · rfl
  | normalize f => rfl
  | tokenize f => rfl

theorem call_sound {p : PTS} (hp : p.Sound) (c : Call ε) (hc : c.Honest) : (call p c).1.Sound := by
  cases c with
  | split f =>
    show (splitCall p f).1.Sound
    unfold splitCall
    split
    · rename_i p' h
      obtain ⟨h0, outs, h1, h2, h3⟩ := (C13_split_in_place _ _ _).1 h
      intro x hx
      rw [h2, List.mem_flatten] at hx
      obtain ⟨o, ho, hxo⟩ := hx
      obtain ⟨i, hi⟩ := mem_getElem? ho
      have hlt : i < p.splits.length := by rw [← h1]; exact (List.getElem?_eq_some_iff.1 hi).1
      have := h3 i _ _ (List.getElem?_eq_getElem hlt) hi
      have hmem := List.getElem_mem hlt
      rw [h0]
      cases ht : p.splits[i].tokens with
      | some ts =>
        rw [this.1 (by simp [ht]), List.mem_singleton] at hxo
        subst hxo
        exact hp _ hmem
      | none =>
        obtain ⟨o', g1, g2⟩ := this.2 ht
        rw [g2, List.mem_filter] at hxo
        cases hf : f i p.splits[i].normalized with
        | error e => rw [hf] at g1; cases g1
        | ok l =>
          rw [hf] at g1
          cases g1
          obtain ⟨y, hy, rfl⟩ := List.mem_map.1 hxo.1
          have hd := NS.derived_ok (hc _ _ _ hf y hy (by simpa using hxo.2)) (hp _ hmem).1
          exact ⟨hd.1, hd.2 _ (hp _ hmem).2⟩
    · intro x hx; cases hx
  | normalize f => exact normalizeLoop_sound hc p.splits 0 hp
  | tokenize f =>
    intro x hx
    obtain ⟨y, h1, h2⟩ := tokenizeLoop_mem _ _ x hx
    have := hp y h1
    rw [h2] at this
    exact this

theorem steps_sound {p q : PTS} (h : Steps ε p q) (hp : p.Sound) : q.Sound ∧ q.original = p.original := by
  induction h with
  | refl => exact ⟨hp, rfl⟩
  | @step q c hs hc ih => exact ⟨call_sound ih.1 c hc, (call_original q c).trans ih.2⟩

/-- **C104, offsets.** Whatever Python code does to a text by functions as the documentation asks for, exceptions included: the
offsets that `get_splits()` reports for a piece delimit, in characters, the part of the text that the piece was made from. -/
theorem C104_offsets {s : Str} {p : PTS} (h : Steps ε (PTS.ofStr s) p) :
    ∀ x ∈ getSplits p, ∃ a src b : Str, s = a ++ src ++ b ∧
      (∃ y ∈ p.splits, y.normalized.norm = x.1 ∧ y.normalized.orig = src) ∧ (src ≠ [] → x.2.1 = (a.length, a.length + src.length)) := by
  have h0 := (steps_sound h (C13_original_offsets (.ofStr s)))
  intro x hx
  have key : ∀ (ss : List Split) (off : Nat), x ∈ getSplitsLoop p.original .original .char off ss →
      ∃ y ∈ ss, x = (y.normalized.norm, (convert p.original y.normalized.offsetsOriginal).getD y.normalized.offsetsOriginal, y.tokens) := by
    intro ss
    induction ss with
    | nil => intro off h; cases h
    | cons y ss ih =>
      intro off h
      rw [getSplitsLoop] at h
      rcases List.mem_cons.1 h with rfl | h
      · exact ⟨y, List.mem_cons_self, rfl⟩
      · obtain ⟨z, h1, h2⟩ := ih _ h
        exact ⟨z, List.mem_cons_of_mem _ h1, h2⟩
  obtain ⟨y, hy, rfl⟩ := key p.splits 0 hx
  obtain ⟨a, b, g1, g2, g3⟩ := h0.1.splits_original y hy
  have ho : p.original = s := h0.2
  refine ⟨a, y.normalized.orig, b, ho ▸ g1, ⟨y, hy, rfl, rfl⟩, fun hne => ?_⟩
  show (convert p.original y.normalized.offsetsOriginal).getD y.normalized.offsetsOriginal = _
  rw [g3 hne]; rfl

/-- **C104, tokens.** So for the tokens of `to_encoding()`: one that lies in the text of its piece gets the place, in the text
given in the beginning, of what it was made from: from the source of its first byte to that of its last one. -/
theorem C104_tokens {s : Str} {p : PTS} (h : Steps ε (PTS.ofStr s) p) (hall : ∀ x ∈ p.splits, x.tokens.isSome)
    (typeId : Nat) (word : Option Nat) :
    ∃ e, toEncoding p typeId word = .ok e ∧ e.rows = p.splits.zipIdx.flatMap (fun si => (si.1.tokens.getD []).map fun t =>
        (t.id, typeId, t.value, some (word.getD si.2), tokenOffsets s .char si.1.normalized t, 0, 1)) ∧
      ∀ x ∈ p.splits, ∀ t ∈ x.tokens.getD [], ∀ m, strGet x.normalized.norm t.offsets.1 t.offsets.2 = some m → m ≠ [] →
        ∃ (a src b : Str) (f l : Range), x.normalized.al[t.offsets.1]? = some f ∧ x.normalized.al[t.offsets.2 - 1]? = some l ∧
          strGet x.normalized.orig f.1 l.2 = some src ∧ s = a ++ src ++ b ∧ blen a = x.normalized.shift + f.1 ∧
          (src ≠ [] ∨ b ≠ [] → tokenOffsets s .char x.normalized t = (a.length, a.length + src.length)) := by
  have h0 := (steps_sound h (C13_original_offsets (.ofStr s)))
  have ho : p.original = s := h0.2
  obtain ⟨e, g1, _, g3⟩ := C13_into_encoding hall word typeId .char (by decide)
  rw [ho] at g3
  refine ⟨e, g1, g3, fun x hx t _ m hm hne => ?_⟩
  obtain ⟨a, src, b, f, l, j1, j2, j3, k1, j4, _, k2⟩ := h0.1.token_offsets hx hm hne
  rw [ho] at k1 k2
  exact ⟨a, src, b, f, l, j1, j2, j3, k1, j4, k2⟩

/-! ## C104: what exceptions leave -/

/-- **C104 fails for `split`**: once the function raises, all pieces are gone, those that have tokens included. -/
theorem C104_split_raised {p : PTS} {f : Nat → NS → Except ε (List NS)} {e : ε} (h : (call p (.split f)).2 = some e) :
    (call p (.split f)).1 = ⟨p.original, []⟩ ∧ getSplits (call p (.split f)).1 = [] ∧
      toEncoding (call p (.split f)).1 = .ok Encoding.empty := by
  have key : (call p (.split f)).1 = ⟨p.original, []⟩ := by
    show (splitCall p f).1 = _
    have h : (splitCall p f).2 = some e := h
    unfold splitCall at h ⊢
    split at h
    · cases h
    · rfl
  rw [key]
  exact ⟨rfl, rfl, rfl⟩

/-- A function that does not raise: `split` of the library (`C13_split_in_place`). -/
theorem C104_split_done {p q : PTS} {f : Nat → NS → Except ε (List NS)} :
    call p (.split f) = (q, none) ↔ p.split (fun i n => (f i n).map fun l => l.map fun x => ⟨x, none⟩) = .ok q := by
  show splitCall p f = _ ↔ _
  unfold splitCall
  split
  · rename_i h; rw [h]; simp
  · rename_i h; rw [h]; simp

/-- What a call of `tokenize` leaves: up to the split whose text the function raised for, those without tokens have got
theirs; that split and the later ones are as they were. -/
theorem tokenizeLoop_spec (f : Nat → Str → Except ε (List Token)) : ∀ (ss : List Split) (i : Nat),
    ∃ done rest : List Split, ∃ old, ss = old ++ rest ∧ (tokenizeLoop f i ss).1 = done ++ rest ∧ done.length = old.length ∧
      (∀ (k : Nat) x y, old[k]? = some x → done[k]? = some y → (x.tokens.isSome → y = x) ∧
        (x.tokens = none → ∃ ts, f (i + k) x.normalized.norm = .ok ts ∧ y = ⟨x.normalized, some ts⟩)) ∧
      match (tokenizeLoop f i ss).2 with
      | none => rest = []
      | some e => ∃ x r, rest = x :: r ∧ x.tokens = none ∧ f (i + old.length) x.normalized.norm = .error e
  | [], i => ⟨[], [], [], rfl, rfl, rfl, by simp, by simp [tokenizeLoop]⟩
  | s :: ss, i => by
    obtain ⟨done, rest, old, h1, h2, h3, h4, h5⟩ := tokenizeLoop_spec f ss (i + 1)
    have step : ∀ y, ((s.tokens.isSome → y = s) ∧ (s.tokens = none → ∃ ts, f i s.normalized.norm = .ok ts ∧ y = ⟨s.normalized, some ts⟩)) →
        tokenizeLoop f i (s :: ss) = (y :: (tokenizeLoop f (i + 1) ss).1, (tokenizeLoop f (i + 1) ss).2) →
        ∃ done rest : List Split, ∃ old, s :: ss = old ++ rest ∧ (tokenizeLoop f i (s :: ss)).1 = done ++ rest ∧ done.length = old.length ∧
          (∀ (k : Nat) x y, old[k]? = some x → done[k]? = some y → (x.tokens.isSome → y = x) ∧
            (x.tokens = none → ∃ ts, f (i + k) x.normalized.norm = .ok ts ∧ y = ⟨x.normalized, some ts⟩)) ∧
          match (tokenizeLoop f i (s :: ss)).2 with
          | none => rest = []
          | some e => ∃ x r, rest = x :: r ∧ x.tokens = none ∧ f (i + old.length) x.normalized.norm = .error e := by
      intro y hy he
      refine ⟨y :: done, rest, s :: old, by rw [h1]; rfl, by rw [he, h2]; rfl, by simp [h3], ?_, ?_⟩
      · intro k x z hx hz
        cases k with
        | zero =>
          simp only [List.getElem?_cons_zero, Option.some.injEq] at hx hz
          subst hx hz
          exact hy
        | succ k =>
          have := h4 k x z (by simpa using hx) (by simpa using hz)
          rwa [show i + (k + 1) = i + 1 + k by omega]
      · rw [he]
        show match (tokenizeLoop f (i + 1) ss).2 with
          | none => rest = []
          | some e => ∃ x r, rest = x :: r ∧ x.tokens = none ∧ f (i + (old.length + 1)) x.normalized.norm = .error e
        rwa [show i + (old.length + 1) = i + 1 + old.length by omega]
    by_cases hs : s.tokens.isSome
    · refine step s ⟨fun _ => rfl, fun hn => ?_⟩ ?_
      · rw [hn] at hs; cases hs
      · rw [tokenizeLoop, if_pos hs]
    · have hn : s.tokens = none := by simpa using hs
      cases hf : f i s.normalized.norm with
      | ok ts =>
        refine step ⟨s.normalized, some ts⟩ ⟨fun h => absurd h hs, fun _ => ⟨ts, hf, rfl⟩⟩ ?_
        rw [tokenizeLoop, if_neg hs, hf]
      | error e =>
        refine ⟨[], s :: ss, [], rfl, ?_, rfl, by simp, ?_⟩
        · rw [tokenizeLoop, if_neg hs, hf]; rfl
        · rw [tokenizeLoop, if_neg hs, hf]
          exact ⟨s, ss, rfl, hn, hf⟩

/-- **C104, `tokenize` after an exception**: calling it again goes on where it stopped. If the second function answers, the
result is that of one call with a function that is the first one up to there and then the second one. -/
theorem tokenizeLoop_again (f g : Nat → Str → Except ε (List Token)) : ∀ (ss : List Split) (i : Nat) (e : ε),
    (tokenizeLoop f i ss).2 = some e → ∃ k, (∃ s, ss[k]? = some s ∧ s.tokens = none ∧ f (i + k) s.normalized.norm = .error e) ∧
      tokenizeLoop g i (tokenizeLoop f i ss).1 = tokenizeLoop (fun j w => if j < i + k then f j w else g j w) i ss
  | [], i, e, h => by simp [tokenizeLoop] at h
  | s :: ss, i, e, h => by
    have cons : ∀ y : Split, y.tokens.isSome → tokenizeLoop f i (s :: ss) = (y :: (tokenizeLoop f (i + 1) ss).1, (tokenizeLoop f (i + 1) ss).2) →
        (∀ k, tokenizeLoop (fun j w => if j < i + (k + 1) then f j w else g j w) i (s :: ss) =
          (y :: (tokenizeLoop (fun j w => if j < i + (k + 1) then f j w else g j w) (i + 1) ss).1,
           (tokenizeLoop (fun j w => if j < i + (k + 1) then f j w else g j w) (i + 1) ss).2)) →
        ∃ k, (∃ x, (s :: ss)[k]? = some x ∧ x.tokens = none ∧ f (i + k) x.normalized.norm = .error e) ∧
          tokenizeLoop g i (tokenizeLoop f i (s :: ss)).1 = tokenizeLoop (fun j w => if j < i + k then f j w else g j w) i (s :: ss) := by
      intro y hy h1 h2
      rw [h1] at h
      obtain ⟨k, ⟨x, g1, g2, g3⟩, g4⟩ := tokenizeLoop_again f g ss (i + 1) e h
      refine ⟨k + 1, ⟨x, by simpa using g1, g2, by rwa [show i + (k + 1) = i + 1 + k by omega]⟩, ?_⟩
      rw [h2 k, h1]
      dsimp only
      rw [tokenizeLoop, if_pos hy, g4, show i + 1 + k = i + (k + 1) by omega]
    by_cases hs : s.tokens.isSome
    · exact cons s hs (by rw [tokenizeLoop, if_pos hs]) (fun k => by rw [tokenizeLoop, if_pos hs])
    · cases hf : f i s.normalized.norm with
      | ok ts =>
        refine cons ⟨s.normalized, some ts⟩ rfl (by rw [tokenizeLoop, if_neg hs, hf]) (fun k => ?_)
        rw [tokenizeLoop, if_neg hs]
        simp only [show i < i + (k + 1) by omega, if_true, hf]
      | error e' =>
        have he : (tokenizeLoop f i (s :: ss)) = (s :: ss, some e') := by rw [tokenizeLoop, if_neg hs, hf]
        rw [he] at h ⊢
        cases h
        refine ⟨0, ⟨s, rfl, by simpa using hs, hf⟩, ?_⟩
        dsimp only
        have : ∀ (rs : List Split) (n : Nat), i ≤ n → tokenizeLoop g n rs = tokenizeLoop (fun j w => if j < i + 0 then f j w else g j w) n rs := by
          intro rs
          induction rs with
          | nil => intro n _; rfl
          | cons r rs ih =>
            intro n hn
            rw [tokenizeLoop, tokenizeLoop]
            simp only [show ¬ n < i + 0 by omega, if_false, ih (n + 1) (by omega)]
        exact this _ _ (Nat.le_refl _)

/-- **C104, `tokenize` after an exception**, for the object. -/
theorem C104_tokenize_again {p : PTS} {f : Nat → Str → Except ε (List Token)} {e : ε} (h : (call p (.tokenize f)).2 = some e)
    (g : Nat → Str → Except ε (List Token)) :
    ∃ k, (∃ s, p.splits[k]? = some s ∧ s.tokens = none ∧ f k s.normalized.norm = .error e) ∧
      call (call p (.tokenize f)).1 (.tokenize g) = call p (.tokenize fun j w => if j < k then f j w else g j w) := by
  obtain ⟨k, ⟨s, h1, h2, h3⟩, h4⟩ := tokenizeLoop_again f g p.splits 0 e h
  rw [Nat.zero_add] at h3 h4
  refine ⟨k, ⟨s, h1, h2, h3⟩, ?_⟩
  show ((⟨p.original, _⟩ : PTS), _) = _
  rw [show (call p (.tokenize f)).1.splits = (tokenizeLoop f 0 p.splits).1 from rfl, h4]
  rfl

/-- What a call of `normalize` leaves: up to the split whose function raised, the untokenized splits are what the function made
of them, that one included; the later ones are as they were. -/
theorem normalizeLoop_spec (f : Nat → NS → NS × Option ε) : ∀ (ss : List Split) (i : Nat),
    ∃ done rest old : List Split, ss = old ++ rest ∧ (normalizeLoop f i ss).1 = done ++ rest ∧ done.length = old.length ∧
      (∀ (k : Nat) x y, old[k]? = some x → done[k]? = some y → (x.tokens.isSome → y = x) ∧
        (x.tokens = none → y = ⟨(f (i + k) x.normalized).1, none⟩ ∧ (k + 1 < old.length → (f (i + k) x.normalized).2 = none))) ∧
      match (normalizeLoop f i ss).2 with
      | none => rest = [] ∧ ∀ (k : Nat) x, ss[k]? = some x → x.tokens = none → (f (i + k) x.normalized).2 = none
      | some e => ∃ k x, old.length = k + 1 ∧ old[k]? = some x ∧ x.tokens = none ∧ (f (i + k) x.normalized).2 = some e
  | [], i => ⟨[], [], [], rfl, rfl, rfl, by simp, by simp [normalizeLoop]⟩
  | s :: ss, i => by
    obtain ⟨done, rest, old, h1, h2, h3, h4, h5⟩ := normalizeLoop_spec f ss (i + 1)
    have step : ∀ y, ((s.tokens.isSome → y = s) ∧ (s.tokens = none → y = ⟨(f i s.normalized).1, none⟩ ∧ (f i s.normalized).2 = none)) →
        normalizeLoop f i (s :: ss) = (y :: (normalizeLoop f (i + 1) ss).1, (normalizeLoop f (i + 1) ss).2) →
        ∃ done rest old : List Split, s :: ss = old ++ rest ∧ (normalizeLoop f i (s :: ss)).1 = done ++ rest ∧ done.length = old.length ∧
          (∀ (k : Nat) x y, old[k]? = some x → done[k]? = some y → (x.tokens.isSome → y = x) ∧
            (x.tokens = none → y = ⟨(f (i + k) x.normalized).1, none⟩ ∧ (k + 1 < old.length → (f (i + k) x.normalized).2 = none))) ∧
          match (normalizeLoop f i (s :: ss)).2 with
          | none => rest = [] ∧ ∀ (k : Nat) x, (s :: ss)[k]? = some x → x.tokens = none → (f (i + k) x.normalized).2 = none
          | some e => ∃ k x, old.length = k + 1 ∧ old[k]? = some x ∧ x.tokens = none ∧ (f (i + k) x.normalized).2 = some e := by
      intro y hy he
      refine ⟨y :: done, rest, s :: old, by rw [h1]; rfl, by rw [he, h2]; rfl, by simp [h3], ?_, ?_⟩
      · intro k x z hx hz
        cases k with
        | zero =>
          simp only [List.getElem?_cons_zero, Option.some.injEq] at hx hz
          subst hx hz
          exact ⟨hy.1, fun hn => ⟨(hy.2 hn).1, fun _ => (hy.2 hn).2⟩⟩
        | succ k =>
          have := h4 k x z (by simpa using hx) (by simpa using hz)
          rw [show i + (k + 1) = i + 1 + k by omega]
          exact ⟨this.1, fun hn => ⟨(this.2 hn).1, fun hl => (this.2 hn).2 (by simp at hl; omega)⟩⟩
      · rw [he]
        dsimp only
        cases hr : (normalizeLoop f (i + 1) ss).2 with
        | none =>
          rw [hr] at h5
          refine ⟨h5.1, fun k x hx hn => ?_⟩
          cases k with
          | zero =>
            simp only [List.getElem?_cons_zero, Option.some.injEq] at hx
            subst hx
            exact (hy.2 hn).2
          | succ k =>
            rw [show i + (k + 1) = i + 1 + k by omega]
            exact h5.2 k x (by simpa using hx) hn
        | some e =>
          rw [hr] at h5
          obtain ⟨k, x, g1, g2, g3, g4⟩ := h5
          exact ⟨k + 1, x, by simp [g1], by simpa using g2, g3, by rwa [show i + (k + 1) = i + 1 + k by omega]⟩
    by_cases hs : s.tokens.isSome
    · refine step s ⟨fun _ => rfl, fun hn => ?_⟩ ?_
      · rw [hn] at hs; cases hs
      · rw [normalizeLoop, if_pos hs]
    · have hn : s.tokens = none := by simpa using hs
      rcases hf : f i s.normalized with ⟨n, _ | e⟩
      · refine step ⟨n, none⟩ ⟨fun h => absurd h hs, fun _ => by rw [hf]; exact ⟨rfl, rfl⟩⟩ ?_
        rw [normalizeLoop, if_neg hs, hf]
      · refine ⟨[⟨n, none⟩], ss, [s], rfl, ?_, rfl, ?_, ?_⟩
        · rw [normalizeLoop, if_neg hs, hf]; rfl
        · intro k x y hx hy
          cases k with
          | zero =>
            simp only [List.getElem?_cons_zero, Option.some.injEq] at hx hy
            subst hx hy
            exact ⟨fun h => absurd h hs, fun _ => ⟨by rw [Nat.add_zero, hf], fun h => by simp at h⟩⟩
          | succ k => simp at hx
        · rw [normalizeLoop, if_neg hs, hf]
          exact ⟨0, s, rfl, rfl, hn, by rw [Nat.add_zero, hf]⟩

/-- **C104, `normalize` after an exception**: which pieces are edited, which are not. -/
theorem C104_normalize {p : PTS} {f : Nat → NS → NS × Option ε} :
    (∀ e, (call p (.normalize f)).2 = some e → ∃ old x rest done, p.splits = old ++ x :: rest ∧ x.tokens = none ∧
      (f old.length x.normalized).2 = some e ∧ done.length = old.length ∧
      (call p (.normalize f)).1.splits = done ++ ⟨(f old.length x.normalized).1, none⟩ :: rest ∧
      ∀ (k : Nat) y z, old[k]? = some y → done[k]? = some z → (y.tokens.isSome → z = y) ∧
        (y.tokens = none → z = ⟨(f k y.normalized).1, none⟩ ∧ (f k y.normalized).2 = none)) ∧
    ((call p (.normalize f)).2 = none → (call p (.normalize f)).1.splits.length = p.splits.length ∧
      ∀ (k : Nat) y z, p.splits[k]? = some y → (call p (.normalize f)).1.splits[k]? = some z → (y.tokens.isSome → z = y) ∧
        (y.tokens = none → z = ⟨(f k y.normalized).1, none⟩ ∧ (f k y.normalized).2 = none)) := by
  obtain ⟨done, rest, old, h1, h2, h3, h4, h5⟩ := normalizeLoop_spec f p.splits 0
  simp only [Nat.zero_add] at h4 h5
  have c1 : (call p (.normalize f)).1.splits = (normalizeLoop f 0 p.splits).1 := rfl
  have c2 : (call p (.normalize f)).2 = (normalizeLoop f 0 p.splits).2 := rfl
  refine ⟨fun e he => ?_, fun he => ?_⟩
  · rw [c2] at he
    rw [he] at h5
    obtain ⟨k, x, g1, g2, g3, g4⟩ := h5
    have e1 : old = old.take k ++ [x] := by
      have hk : k < old.length := by omega
      have : old[k] = x := by rw [List.getElem?_eq_getElem hk] at g2; exact Option.some.inj g2
      rw [← this, List.take_append_getElem hk, show k + 1 = old.length by omega, List.take_length]
    have hk : (old.take k).length = k := by simp; omega
    have hkd : k < done.length := by omega
    have e2 : done = done.take k ++ [⟨(f k x.normalized).1, none⟩] := by
      have := ((h4 k x done[k] g2 (List.getElem?_eq_getElem hkd)).2 g3).1
      rw [← this, List.take_append_getElem hkd, show k + 1 = done.length by omega, List.take_length]
    refine ⟨old.take k, x, rest, done.take k, ?_, g3, by rw [hk]; exact g4, by simp; omega, ?_, ?_⟩
    · rw [h1]; conv => lhs; rw [e1]
      simp
    · rw [c1, h2, hk]; conv => lhs; rw [e2]
      simp
    · intro j y z hy hz
      have hj : j < k := by have := (List.getElem?_eq_some_iff.1 hy).1; omega
      rw [List.getElem?_take_of_lt hj] at hy hz
      have := h4 j y z hy hz
      exact ⟨this.1, fun hn => ⟨(this.2 hn).1, (this.2 hn).2 (by omega)⟩⟩
  · rw [c2] at he
    rw [he] at h5
    obtain ⟨rfl, g⟩ := h5
    rw [List.append_nil] at h1 h2
    subst h1
    rw [c1, h2]
    refine ⟨h3, fun k y z hy hz => ?_⟩
    have := h4 k y z hy hz
    exact ⟨this.1, fun hn => ⟨(this.2 hn).1, g k y hy hn⟩⟩

/-! ## C104: the text -/

/-- The call keeps the text of the pieces it works on. -/
def Call.KeepsText : Call ε → Prop
  | .split f => ∀ i n o, f i n = .ok o → o.flatMap (·.norm) = n.norm
  | .normalize f => ∀ i n, (f i n).1.norm = n.norm
  | .tokenize _ => True

/-- **C104, text.** Functions that keep the text of each piece keep the whole text, also when `normalize` or `tokenize` raise;
only for `split` nothing may be raised. -/
theorem C104_text {p : PTS} {c : Call ε} (hk : c.KeepsText) (hs : ∀ f, c = .split f → (call p c).2 = none) :
    (call p c).1.text = p.text := by
  cases c with
  | split f =>
    have h := hs f rfl
    have : call p (.split f) = ((call p (.split f)).1, none) := Prod.ext rfl h
    refine C13_split_text (fun i s o _ _ ho => ?_) (C104_split_done.1 this)
    cases hf : f i s.normalized with
    | error e => rw [hf] at ho; cases ho
    | ok l =>
      rw [hf] at ho
      cases ho
      rw [← hk _ _ _ hf, List.flatMap_map]
  | normalize f =>
    have : ∀ (ss : List Split) (i : Nat), ((normalizeLoop f i ss).1.flatMap (·.normalized.norm)) = ss.flatMap (·.normalized.norm) := by
      intro ss
      induction ss with
      | nil => intro i; rfl
      | cons s ss ih =>
        intro i
        have h := hk i s.normalized
        rw [normalizeLoop]
        split
        · simp [ih]
        · split
          · rename_i heq; rw [heq] at h; dsimp only at h; simp [h]
          · rename_i heq; rw [heq] at h; dsimp only at h; simp [h, ih]
    exact this p.splits 0
  | tokenize f =>
    have : ∀ (ss : List Split) (i : Nat), ((tokenizeLoop f i ss).1.flatMap (·.normalized.norm)) = ss.flatMap (·.normalized.norm) := by
      intro ss
      induction ss with
      | nil => intro i; rfl
      | cons s ss ih =>
        intro i
        rw [tokenizeLoop]
        split
        · simp [ih]
        · split
          · rfl
          · simp [ih]
    exact this p.splits 0

/-! ## C104: `get_splits("normalized")` -/

theorem getSplits_normalized_char (o : Str) : ∀ (ss : List Split) (pre : Str), o = pre ++ ss.flatMap (·.normalized.norm) →
    (∀ s ∈ ss, s.normalized.norm ≠ []) → ∀ a x b, getSplitsLoop o .normalized .char (blen pre) ss = a ++ x :: b →
      x.2.1 = (pre.length + (a.flatMap (·.1)).length, pre.length + (a.flatMap (·.1)).length + x.1.length)
  | [], pre, _, _, a, x, b, h => by simp [getSplitsLoop] at h
  | s :: ss, pre, ho, hne, a, x, b, h => by
    have e : getSplitsLoop o .normalized .char (blen pre) (s :: ss) =
        (s.normalized.norm, (convert o (blen pre, blen pre + blen s.normalized.norm)).getD (blen pre, blen pre + blen s.normalized.norm), s.tokens) ::
          getSplitsLoop o .normalized .char (blen (pre ++ s.normalized.norm)) ss := by rw [blen_append]; rfl
    rw [e] at h
    have ho' : o = pre ++ s.normalized.norm ++ ss.flatMap (·.normalized.norm) := by rw [ho]; simp
    cases a with
    | nil =>
      simp only [List.nil_append, List.cons.injEq] at h
      rw [← h.1]
      dsimp only
      conv => lhs; rw [ho']
      rw [C14_convert _ _ _ (.inl (hne s List.mem_cons_self))]
      simp
    | cons y a =>
      simp only [List.cons_append, List.cons.injEq] at h
      have := getSplits_normalized_char o ss (pre ++ s.normalized.norm) ho' (fun z hz => hne z (List.mem_cons_of_mem _ hz)) a x b h.2
      rw [this, ← h.1]
      simp [Nat.add_assoc]

/-- **C104, `get_splits("normalized")`** in characters: right as long as the text of the pieces is the text given in the
beginning (pieces that are not empty). -/
theorem C104_normalized {p : PTS} (ht : p.text = p.original) (hne : ∀ s ∈ p.splits, s.normalized.norm ≠ []) :
    ∀ a x b, getSplits p .normalized = a ++ x :: b →
      x.2.1 = ((a.flatMap (·.1)).length, (a.flatMap (·.1)).length + x.1.length) := by
  intro a x b h
  have := getSplits_normalized_char p.original p.splits [] ht.symm hne a x b h
  simpa using this

/-! ## C104: custom pre-tokenizers in a tokenizer -/

theorem limitLoop_keeps {f : NS → Except ε (List Token)} {max : Nat} : ∀ (ss : List Split) (total : Nat) {rs : List Split},
    limitLoop f max total ss = .ok rs → ∀ r ∈ rs, ∃ s ∈ ss, s.normalized = r.normalized
  | [], _, rs, h, r, hr => by cases h; cases hr
  | s :: ss, total, rs, h, r, hr => by
    rw [limitLoop] at h
    have cons : ∀ {x : Split} {k : Nat}, x.normalized = s.normalized → (limitLoop f max k ss).map (x :: ·) = .ok rs →
        ∃ y ∈ s :: ss, y.normalized = r.normalized := by
      intro x k hx h
      cases hl : limitLoop f max k ss with
      | error e => rw [hl] at h; cases h
      | ok l =>
        rw [hl] at h
        cases h
        rcases List.mem_cons.1 hr with rfl | hr
        · exact ⟨s, List.mem_cons_self, hx.symm⟩
        · obtain ⟨y, h1, h2⟩ := limitLoop_keeps ss k hl r hr
          exact ⟨y, List.mem_cons_of_mem _ h1, h2⟩
    cases ht : s.tokens with
    | some ts => rw [ht] at h; exact cons rfl h
    | none =>
      rw [ht] at h
      cases hts : f s.normalized with
      | error e => rw [hts] at h; cases h
      | ok ts =>
        rw [hts] at h
        change (if total + ts.length ≥ max then _ else _) = _ at h
        split at h
        · cases h
          rw [List.mem_singleton.1 hr]
          exact ⟨s, List.mem_cons_self, rfl⟩
        · exact cons (x := ⟨s.normalized, some ts⟩) rfl h

theorem tokenizeIn_sound {t : Tokenizer} {p q : PTS} {lim : Option (Nat × Encoding.Direction)} (hp : p.Sound)
    (h : t.tokenizeIn p lim = .ok q) : q.Sound ∧ q.original = p.original := by
  have key : q.original = p.original → (∀ r ∈ q.splits, ∃ s ∈ p.splits, s.normalized = r.normalized) → q.Sound ∧ q.original = p.original := by
    intro ho hs
    refine ⟨fun r hr => ?_, ho⟩
    obtain ⟨s, h1, h2⟩ := hs r hr
    rw [ho, ← h2]
    exact hp s h1
  match lim, h with
  | none, h =>
    obtain ⟨h0, h1, h2⟩ := (C13_tokenize p q _).1 h
    refine key h0 fun r hr => ?_
    obtain ⟨i, hi, rfl⟩ := List.getElem_of_mem hr
    have hi' : i < p.splits.length := by omega
    obtain ⟨g1, g2⟩ := h2 i _ _ (List.getElem?_eq_getElem hi') (List.getElem?_eq_getElem hi)
    refine ⟨_, List.getElem_mem hi', ?_⟩
    cases ht : p.splits[i].tokens with
    | some ts => rw [g1 (by rw [ht]; rfl)]
    | none => exact (g2 ht).1.symm
  | some (max, .right), h =>
    have h : (limitLoop (fun n => t.model n.norm) max 0 p.splits).map (fun s => (⟨p.original, s⟩ : PTS)) = .ok q := h
    cases hl : limitLoop (fun n => t.model n.norm) max 0 p.splits with
    | error x => rw [hl] at h; cases h
    | ok rs =>
      rw [hl] at h; cases h
      exact key rfl (limitLoop_keeps _ _ hl)
  | some (max, .left), h =>
    have h : (limitLoop (fun n => t.model n.norm) max 0 p.splits.reverse).map
      (fun s => (⟨p.original, s.reverse⟩ : PTS)) = .ok q := h
    cases hl : limitLoop (fun n => t.model n.norm) max 0 p.splits.reverse with
    | error x => rw [hl] at h; cases h
    | ok rs =>
      rw [hl] at h; cases h
      refine key rfl fun r hr => ?_
      obtain ⟨s, h1, h2⟩ := limitLoop_keeps _ _ hl r (List.mem_reverse.1 hr)
      exact ⟨s, List.mem_reverse.1 h1, h2⟩

/-- **C104, custom pre-tokenizers.** A tokenizer with a pre-tokenizer of Python (`pre_tokenizers.rs:890-911`) that treats what it
is given as the documentation asks for, whatever it catches: the encoding of a text has, for every token that lies in its piece,
the place in the text of what the token was made from. -/
theorem C104_custom {t : Tokenizer} {u : Unicode} {z : Normalizer} {v : CharTables}
    (h : Tokenizer.IsLibrary { t with preTok := fun p => .ok p } u z v (.sequence []))
    (hg : ∀ p p', t.preTok p = .ok p' → Steps ε p p')
    {lim : Option (Nat × Encoding.Direction)} {typeId : Nat} {word : Option Nat} {s : Str} {e : Encoding}
    (he : t.encodeText lim typeId .char word s = .ok e) :
    ∃ pieces : List Split, e.rows = pieces.zipIdx.flatMap (fun si => (si.1.tokens.getD []).map fun tk =>
        (tk.id, typeId, tk.value, some (word.getD si.2), tokenOffsets s .char si.1.normalized tk, 0, 1)) ∧
      ∀ x ∈ pieces, x.tokens.isSome ∧ ∀ tk ∈ x.tokens.getD [], ∀ m, strGet x.normalized.norm tk.offsets.1 tk.offsets.2 = some m → m ≠ [] →
        ∃ (a src b : Str) (f l : Range), x.normalized.al[tk.offsets.1]? = some f ∧ x.normalized.al[tk.offsets.2 - 1]? = some l ∧
          strGet x.normalized.orig f.1 l.2 = some src ∧ s = a ++ src ++ b ∧ blen a = x.normalized.shift + f.1 ∧
          (src ≠ [] ∨ b ≠ [] → tokenOffsets s .char x.normalized tk = (a.length, a.length + src.length)) := by
  obtain ⟨p, q, hp, hq, he⟩ := Tokenizer.encodeText_steps he
  unfold Tokenizer.preTokenized at hp
  cases h0 : Tokenizer.mapErr (fun _ => EncErr.added) (t.added.extractAndNormalize t.cl t.normalizer s) with
  | error x => rw [h0] at hp; cases hp
  | ok p0 =>
    rw [h0] at hp
    have hp : t.preTok p0 = .ok p := hp
    have hl := Tokenizer.preTokenized_lined h (s := s) (p := p0) (by unfold Tokenizer.preTokenized; dsimp only; rw [h0]; rfl)
    have hs0 : p0.Sound := fun x hx => ⟨(hl.1.good x hx).1, (hl.1.good x hx).2.2⟩
    have hs1 := steps_sound (hg _ _ hp) hs0
    have hs2 := tokenizeIn_sound hs1.1 hq
    have ho : q.original = s := hs2.2.trans (hs1.2.trans hl.2.1)
    have hall : ∀ x ∈ q.splits, x.tokens.isSome := by
      cases hb : q.splits.all (·.tokens.isSome) with
      | true => simpa using hb
      | false =>
        have := (C13_into_encoding_error q word typeId .char).2 (by simpa using hb)
        rw [he] at this; cases this
    obtain ⟨e', g1, _, g3⟩ := C13_into_encoding hall word typeId .char (by decide)
    rw [he] at g1
    cases g1
    rw [ho] at g3
    refine ⟨q.splits, g3, fun x hx => ⟨hall x hx, fun tk _ m hm hne => ?_⟩⟩
    obtain ⟨a, src, b, f, l, j1, j2, j3, k1, j4, _, k2⟩ := hs2.1.token_offsets hx hm hne
    rw [ho] at k1 k2
    exact ⟨a, src, b, f, l, j1, j2, j3, k1, j4, k2⟩

/-! ## Witnesses -/

/-- The slices of a string at the given places, as a function of Python would take them. -/
def cuts (rs : List Range) (n : NS) : List NS := rs.filterMap fun r => (n.sliceNormalized r).bind id

theorem cuts_honest (rs : List Range) : (Call.split (ε := ε) fun _ n => .ok (cuts rs n)).Honest := by
  intro i n o h x hx hne
  cases h
  obtain ⟨r, _, hr⟩ := List.mem_filterMap.1 hx
  cases hs : n.sliceNormalized r with
  | none => rw [hs] at hr; cases hr
  | some m =>
    rw [hs] at hr
    have hr : m = some x := hr
    rw [hr] at hs
    exact .slice (.edits (.refl _)) hs hne (.refl _)

/-- The pieces of a `get_splits`, without tokens. -/
def brief (l : List (Str × Range × Option (List Token))) : List (Str × Range) := l.map fun x => (x.1, x.2.1)

/-- **C104 fails for `get_splits("normalized")`**: places in the text of the pieces are turned into characters by the bytes of
the text given in the beginning. Without the accent of `éa`, the pieces `e` and `a` are reported at `(0, 0)` and `(0, 1)`. -/
theorem C104_normalized_wrong : ∃ p, Steps Unit (PTS.ofStr "éa".toList) p ∧ p.text = "ea".toList ∧
    brief (getSplits p) = [("e".toList, (0, 1)), ("a".toList, (1, 2))] ∧
    brief (getSplits p .normalized) = [("e".toList, (0, 0)), ("a".toList, (0, 1))] := by
  refine ⟨_, .step (.split fun _ n => .ok (cuts [(0, 1), (1, 2)] n))
    (.step (.normalize fun _ n => ((n.map fun c => if c = 'é' then 'e' else c).getD n, none)) (.refl _) ?_) (cuts_honest _), ?_⟩
  · intro i n
    show NS.Edits n ((n.map fun c => if c = 'é' then 'e' else c).getD n)
    cases h : n.map fun c => if c = 'é' then 'e' else c with
    | none => exact .refl _
    | some m => exact .map (.refl _) h
  · decide +kernel

/-- Why pieces have to be made of the received string: new strings are taken to begin with the text. -/
theorem C104_fresh_wrong : brief (getSplits (call (PTS.ofStr "ab cd".toList)
      (.split (ε := Unit) fun _ _ => .ok [NS.ofStr "ab".toList, NS.ofStr "cd".toList])).1) =
    [("ab".toList, (0, 2)), ("cd".toList, (0, 2))] := by decide +kernel

/-- Two pieces; a function of Python that raises at the second one. -/
def twoPieces : PTS := (call (PTS.ofStr "ab cd".toList) (.split (ε := Unit) fun _ n => .ok (cuts [(0, 2), (3, 5)] n))).1

/-- A function that puts an `x` in front and raises in the second piece before doing so. -/
def putX (raises : Bool) : Call Unit :=
  .normalize fun i n => if raises && i == 1 then (n, some ()) else ((n.prepend "x".toList).getD n, none)

/-- **C104 fails for `normalize`**: unlike `tokenize`, doing it again after an exception edits the first pieces twice. -/
theorem C104_normalize_twice :
    (call twoPieces (putX true)).2 = some () ∧
    brief (getSplits (call twoPieces (putX true)).1) = [("xab".toList, (0, 2)), ("cd".toList, (3, 5))] ∧
    (call (call twoPieces (putX true)).1 (putX false)).2 = none ∧
    brief (getSplits (call (call twoPieces (putX true)).1 (putX false)).1) = [("xxab".toList, (0, 2)), ("xcd".toList, (3, 5))] := by
  decide +kernel

/-- A `split` that raises at the second of two pieces, the first of which has tokens already: nothing is left. -/
example : getSplits twoPieces ≠ [] ∧
    getSplits (call (call twoPieces (.tokenize (ε := Unit) fun i w => if i = 0 then .ok [⟨7, w, (0, 2)⟩] else .error ())).1
      (.split (ε := Unit) fun _ _ => .error ())).1 = [] := by decide +kernel

/-- The first piece has got its tokens when `tokenize` raises at the second one. -/
example : (call twoPieces (.tokenize (ε := Unit) fun i w => if i = 0 then .ok [⟨7, w, (0, 2)⟩] else .error ())).2 = some () ∧
    getSplits (call twoPieces (.tokenize (ε := Unit) fun i w => if i = 0 then .ok [⟨7, w, (0, 2)⟩] else .error ())).1 =
      [("ab".toList, (0, 2), some [⟨7, "ab".toList, (0, 2)⟩]), ("cd".toList, (3, 5), none)] := by decide +kernel

/-- The text of the two pieces, and the places reported in it. -/
example : Steps Unit (PTS.ofStr "ab cd".toList) twoPieces ∧ brief (getSplits twoPieces) = [("ab".toList, (0, 2)), ("cd".toList, (3, 5))] :=
  ⟨.step _ (.refl _) (cuts_honest _), by decide +kernel⟩

end Tok.PyPre
