import Verif.Codec.Wrapper

/-!
# Model of `DecodeStream` (`tokenizer/mod.rs:1052-1172`); C34

`decode` of the tokenizer is a parameter: a function from ids to text, `none` being an error or panic.
-/

namespace Tok.Stream

/-- `DecodeStream` (`tokenizer/mod.rs:1061-1084`) without the reference to the tokenizer and its option. -/
structure State where
  ids : List Nat
  pre : Str
  idx : Nat
deriving DecidableEq, Repr

/-- `DecodeStream::new` (`tokenizer/mod.rs:1104-1112`). -/
def State.init : State := ⟨[], [], 0⟩

/-- What a step can fail with: an error of `decode`, `DecodeStreamError::InvalidPrefix`, a panic. -/
inductive Err | decode | invalidPrefix | panic
deriving DecidableEq, Repr

/-- The replacement character marks an unfinished character at the end of a text. -/
def complete (s : Str) : Prop := s.getLast? ≠ some '�'

instance (s : Str) : Decidable (complete s) := inferInstanceAs (Decidable (_ ≠ _))

/-- The first `if` of `step_decode_stream` (`tokenizer/mod.rs:1142-1148`). -/
def refresh (decode : List Nat → Option Str) (st : State) : Except Err State :=
  if st.pre = [] ∧ st.ids ≠ [] then
    match decode st.ids with
    | none => .error .decode
    | some p => .ok (if complete p then { st with pre := p, idx := st.ids.length } else st)
  else .ok st

/-- `step_decode_stream` (`tokenizer/mod.rs:1127-1172`): the new state and the text returned. What an error leaves in
the state is not modelled. -/
def step (decode : List Nat → Option Str) (st : State) (new : List Nat) : Except Err (State × Option Str) :=
  match refresh decode st with
  | .error e => .error e
  | .ok st =>
    let ids := st.ids ++ new
    match decode ids with
    | none => .error .decode
    | some string =>
      if blen st.pre < blen string ∧ complete string then
        if st.pre <+: string then
          if st.idx ≤ ids.length then
            match decode (ids.drop st.idx) with
            | none => .error .decode
            | some p => .ok (⟨ids.drop st.idx, p, ids.length - st.idx⟩, some (string.drop st.pre.length))
          else .error .panic
        else .error .invalidPrefix
      else .ok ({ st with ids := ids }, none)

/-- A history of steps. -/
def run (decode : List Nat → Option Str) : State → List (List Nat) → Except Err (State × List (Option Str))
  | st, [] => .ok (st, [])
  | st, new :: rest =>
    match step decode st new with
    | .error e => .error e
    | .ok (st', o) =>
      match run decode st' rest with
      | .error e => .error e
      | .ok (st'', os) => .ok (st'', o :: os)

/-! ## Specification -/

/-- Prefix-stable decoding of token lists: when `r` and `r ++ b` decode to complete texts, what `c` adds to the
text does not depend on whether `r` is there. -/
structure Stable (D : List Str → Str) : Prop where
  nil : D [] = []
  extend : ∀ r b c, (b = [] → r = []) → complete (D r) → complete (D (r ++ b)) →
    ∃ x, D (r ++ b ++ c) = D (r ++ b) ++ x ∧ D (b ++ c) = D b ++ x

/-- Prefix-stable decoding of the beginnings of one list of tokens: as above, but only as far as these tokens go, and
only where what is decoded is complete, or is all of it. -/
structure StableOn (D : List Str → Str) (T : List Str) : Prop where
  nil : D [] = []
  front : ∀ p, p <+: T → complete (D p) → D p <+: D T
  extend : ∀ r b c, r ++ b ++ c <+: T → (b = [] → r = []) → complete (D r) → complete (D (r ++ b)) →
    complete (D (b ++ c)) ∨ r ++ b ++ c = T → ∃ x, D (r ++ b ++ c) = D (r ++ b) ++ x ∧ D (b ++ c) = D b ++ x

theorem Stable.on {D : List Str → Str} (h : Stable D) (T : List Str) : StableOn D T := by
  refine ⟨h.nil, fun p ⟨q, hq⟩ hp => ?_, fun r b c _ h1 h2 h3 _ => h.extend r b c h1 h2 h3⟩
  obtain ⟨x, hx, _⟩ := h.extend [] p q (fun _ => rfl) (by rw [h.nil]; simp [complete]) (by simpa using hp)
  simp only [List.nil_append] at hx
  rw [← hq, hx]; exact List.prefix_append _ _

/-- The decoding of ids through a table of tokens. -/
def through (tok : Nat → Option Str) (D : List Str → Str) (ids : List Nat) : Option Str := some (D (ids.filterMap tok))

/-! ## C34 -/

/-- What holds between the steps: `r` has been dropped from the buffer, `b` decodes to the prefix, `c` has
produced nothing yet. -/
def Inv (tok : Nat → Option Str) (D : List Str → Str) (st : State) (hist : List Nat) (out : Str) : Prop :=
  ∃ r b c : List Nat, hist = r ++ b ++ c ∧ st.ids = b ++ c ∧ st.idx = b.length ∧
    st.pre = D (b.filterMap tok) ∧ out = D ((r ++ b).filterMap tok) ∧
    complete (D (r.filterMap tok)) ∧ complete (D ((r ++ b).filterMap tok)) ∧
    (b.filterMap tok = [] → r.filterMap tok = []) ∧
    (c = [] ∨ ¬ complete (D ((b ++ c).filterMap tok)) ∨
      blen (D ((b ++ c).filterMap tok)) ≤ blen (D (b.filterMap tok)))

theorem complete_append {s t : Str} (ht : t ≠ []) : complete (s ++ t) ↔ complete t := by
  unfold complete
  rw [List.getLast?_append]
  cases h : t.getLast? with
  | none => exact absurd (List.getLast?_eq_none_iff.1 h) ht
  | some c => simp

theorem refresh_inv {tok : Nat → Option Str} {D : List Str → Str} {T : List Str} (hS : StableOn D T) {st : State}
    {hist : List Nat} {out : Str} (hT : hist.filterMap tok <+: T) (h : Inv tok D st hist out) :
    ∃ st', refresh (through tok D) st = .ok st' ∧ st'.ids = st.ids ∧ Inv tok D st' hist out := by
  unfold refresh through
  by_cases hc : st.pre = [] ∧ st.ids ≠ []
  · rw [if_pos hc]
    simp only
    by_cases hp : complete (D (st.ids.filterMap tok))
    · rw [if_pos hp]
      refine ⟨_, rfl, rfl, ?_⟩
      obtain ⟨r, b, c, h1, h2, h3, h4, h5, h6, h7, h8, h9⟩ := h
      have hx : out = D ((r ++ (b ++ c)).filterMap tok) := by
        rcases h9 with h9 | h9 | h9
        · subst h9; rw [List.append_nil]; exact h5
        · rw [h2] at hp; exact absurd hp h9
        · obtain ⟨x, e1, e2⟩ := hS.extend _ _ (c.filterMap tok) (by
              rw [← List.filterMap_append, ← List.filterMap_append, ← h1]; exact hT) h8 h6
            (by rw [← List.filterMap_append]; exact h7)
            (.inl (by rw [← List.filterMap_append, ← h2]; exact hp))
          simp only [← List.filterMap_append] at e1 e2
          rw [e2, blen_append] at h9
          have : x = [] := by
            rcases x with _ | ⟨a, x⟩
            · rfl
            · have := blen_pos (s := a :: x) (by simp); omega
          rw [this, List.append_nil] at e1
          rw [← List.append_assoc, e1, h5]
      refine ⟨r, b ++ c, [], by simp [h1], by simp [h2], by simp [h2], by simp [h2], hx, h6, ?_, ?_, .inl rfl⟩
      · rw [← hx, h5]; exact h7
      · intro h0
        rw [List.filterMap_append, List.append_eq_nil_iff] at h0
        exact h8 h0.1
    · rw [if_neg hp]; exact ⟨st, rfl, rfl, h⟩
  · rw [if_neg hc]; exact ⟨st, rfl, rfl, h⟩

theorem step_inv {tok : Nat → Option Str} {D : List Str → Str} {T : List Str} (hS : StableOn D T) {st : State}
    {hist : List Nat} {out : Str} (h : Inv tok D st hist out) (new : List Nat) (hT : (hist ++ new).filterMap tok <+: T) :
    ∃ st' o, step (through tok D) st new = .ok (st', o) ∧ Inv tok D st' (hist ++ new) (out ++ o.getD []) ∧
      (∀ t, o = some t → t ≠ [] ∧ complete t) := by
  obtain ⟨st1, e1, e2, r, b, c, h1, h2, h3, h4, h5, h6, h7, h8, h9⟩ := refresh_inv hS (by
    rw [List.filterMap_append] at hT; exact (List.prefix_append _ _).trans hT) h
  unfold step
  rw [e1]
  simp only
  rw [show through tok D (st1.ids ++ new) = some (D ((st1.ids ++ new).filterMap tok)) from rfl]
  simp only
  have hids : st1.ids ++ new = b ++ (c ++ new) := by rw [h2]; simp
  rw [hids]
  by_cases hcomp : complete (D ((b ++ (c ++ new)).filterMap tok))
  · obtain ⟨x, g1, g2⟩ := hS.extend _ _ ((c ++ new).filterMap tok) (by
        rw [← List.filterMap_append, ← List.filterMap_append]
        rw [show r ++ b ++ (c ++ new) = hist ++ new by rw [h1]; simp]; exact hT) h8 h6
      (by rw [← List.filterMap_append]; exact h7) (.inl (by rw [← List.filterMap_append]; exact hcomp))
    simp only [← List.filterMap_append] at g1 g2
    rw [g2] at hcomp ⊢
    by_cases hc : blen st1.pre < blen (D (b.filterMap tok) ++ x) ∧ complete (D (b.filterMap tok) ++ x)
    · have hx : x ≠ [] := by
        rintro rfl
        rw [h4, List.append_nil] at hc
        omega
      rw [if_pos hc, h4, if_pos (List.prefix_append _ _), h3, if_pos (by simp)]
      rw [List.drop_left, List.drop_left]
      refine ⟨_, _, rfl, ?_, ?_⟩
      · refine ⟨r ++ b, c ++ new, [], by simp [h1], by simp, by simp, rfl, ?_, h7, ?_, ?_, .inl rfl⟩
        · rw [g1, h5]; rfl
        · rw [g1, complete_append hx]; exact (complete_append hx).1 hc.2
        · intro h0
          rw [List.filterMap_append, h0, List.append_nil] at g2
          have : (D (b.filterMap tok)).length = (D (b.filterMap tok) ++ x).length := congrArg _ g2
          rw [List.length_append] at this
          exact absurd (List.length_eq_zero_iff.1 (by omega)) hx
      · rintro t ⟨⟩
        exact ⟨hx, (complete_append hx).1 hc.2⟩
    · rw [if_neg hc]
      refine ⟨_, _, rfl, ?_, by simp⟩
      refine ⟨r, b, c ++ new, by simp [h1], rfl, h3, h4, by simp [h5], h6, h7, h8, ?_⟩
      right; right
      rw [g2]
      rw [h4] at hc
      have : ¬ blen (D (b.filterMap tok)) < blen (D (b.filterMap tok) ++ x) := fun hlt => hc ⟨hlt, hcomp⟩
      omega
  · rw [if_neg fun hc => hcomp hc.2]
    exact ⟨_, _, rfl, ⟨r, b, c ++ new, by simp [h1], rfl, h3, h4, by simp [h5], h6, h7, h8, .inr (.inl hcomp)⟩, by simp⟩

theorem run_inv {tok : Nat → Option Str} {D : List Str → Str} {T : List Str} (hS : StableOn D T) :
    ∀ (steps : List (List Nat)) {st : State} {hist : List Nat} {out : Str}, Inv tok D st hist out →
    (hist ++ steps.flatten).filterMap tok <+: T →
    ∃ st' outs, run (through tok D) st steps = .ok (st', outs) ∧ outs.length = steps.length ∧
      Inv tok D st' (hist ++ steps.flatten) (out ++ (outs.filterMap id).flatten) ∧
      ∀ t, some t ∈ outs → t ≠ [] ∧ complete t
  | [], st, hist, out, h, _ => ⟨st, [], rfl, rfl, by simpa using h, by simp⟩
  | new :: rest, st, hist, out, h, hT => by
    rw [List.flatten_cons, ← List.append_assoc] at hT
    obtain ⟨st1, o, h1, h2, h3⟩ := step_inv hS h new (by
      rw [List.filterMap_append] at hT; exact (List.prefix_append _ _).trans hT)
    obtain ⟨st2, os, g1, g2, g3, g4⟩ := run_inv hS rest h2 hT
    refine ⟨st2, o :: os, by rw [run, h1]; simp only [g1], by simp [g2], ?_, ?_⟩
    · rw [List.flatten_cons, ← List.append_assoc]
      cases o with
      | none => simpa using g3
      | some t => simpa using g3
    · intro t ht
      rcases List.mem_cons.1 ht with ht | ht
      · exact h3 t ht.symm
      · exact g4 t ht

/-- C34 for one list of tokens: no step fails, the chunks put together are a prefix of its decoding, and the whole of it
when all of it was given and it is complete. -/
theorem stream_on {D : List Str → Str} {T : List Str} (hS : StableOn D T) (tok : Nat → Option Str)
    (steps : List (List Nat)) (hT : steps.flatten.filterMap tok <+: T) :
    ∃ st outs, run (through tok D) State.init steps = .ok (st, outs) ∧ outs.length = steps.length ∧
      (outs.filterMap id).flatten <+: D T ∧
      (steps.flatten.filterMap tok = T → complete (D T) → (outs.filterMap id).flatten = D T) ∧
      ∀ t, some t ∈ outs → t ≠ [] ∧ complete t := by
  have h0 : Inv tok D State.init [] [] :=
    ⟨[], [], [], rfl, rfl, rfl, by simp [State.init, hS.nil], by simp [hS.nil], by simp [hS.nil, complete],
      by simp [hS.nil, complete], fun _ => rfl, .inl rfl⟩
  obtain ⟨st, outs, h1, h2, ⟨r, b, c, g1, _, _, _, g5, g6, g7, g8, g9⟩, h4⟩ := run_inv hS steps h0 (by simpa using hT)
  simp only [List.nil_append] at g1 g5
  have hpre : (r ++ b).filterMap tok <+: T := by
    rw [g1, List.filterMap_append] at hT; exact (List.prefix_append _ _).trans hT
  refine ⟨st, outs, h1, h2, by rw [g5]; exact hS.front _ hpre g7, fun he hc => ?_, h4⟩
  rw [g1] at he
  obtain ⟨x, e1, e2⟩ := hS.extend (r.filterMap tok) (b.filterMap tok) (c.filterMap tok)
    (by simp only [← List.filterMap_append]; rw [he]; exact List.prefix_refl _) g8 g6
    (by rw [← List.filterMap_append]; exact g7) (.inr (by simp only [← List.filterMap_append]; exact he))
  simp only [← List.filterMap_append] at e1 e2
  rw [he] at e1
  rw [e1] at hc
  rw [g5, e1]
  by_cases hx : x = []
  · rw [hx, List.append_nil]
  · rw [complete_append hx] at hc
    rcases g9 with g9 | g9 | g9
    · subst g9
      rw [List.append_nil] at e2
      have : (D (b.filterMap tok)).length = (D (b.filterMap tok) ++ x).length := congrArg _ e2
      rw [List.length_append] at this
      exact absurd (List.length_eq_zero_iff.1 (by omega)) hx
    · rw [e2, complete_append hx] at g9
      exact absurd hc g9
    · rw [e2, blen_append] at g9
      have := blen_pos hx
      omega

/-- **C34.** For every prefix-stable decoding and every history of steps: no step fails, the chunks put together
are a prefix of the decoding of all ids, and the whole of it when it is complete; no chunk is empty or ends in an
unfinished character. -/
theorem C34_stream {D : List Str → Str} (hS : Stable D) (tok : Nat → Option Str) (steps : List (List Nat)) :
    ∃ st outs, run (through tok D) State.init steps = .ok (st, outs) ∧ outs.length = steps.length ∧
      (outs.filterMap id).flatten <+: D (steps.flatten.filterMap tok) ∧
      (complete (D (steps.flatten.filterMap tok)) →
        (outs.filterMap id).flatten = D (steps.flatten.filterMap tok)) ∧
      ∀ t, some t ∈ outs → t ≠ [] ∧ complete t := by
  obtain ⟨st, outs, h1, h2, h3, h4, h5⟩ := stream_on (hS.on _) tok steps (List.prefix_refl _)
  exact ⟨st, outs, h1, h2, h3, h4 rfl, h5⟩

/-! ### Decoders that are prefix-stable -/

/-- Decoders that treat every token on its own, except for the first. -/
theorem stable_perToken {D : List Str → Str} (f g : Str → Str) (h0 : D [] = [])
    (h : ∀ t ts, D (t :: ts) = f t ++ ts.flatMap g) : Stable D := by
  refine ⟨h0, fun r b c hrb _ _ => ⟨if b = [] then D c else c.flatMap g, ?_⟩⟩
  cases b with
  | nil => simp [hrb rfl, h0]
  | cons t b =>
    rw [if_neg (by simp)]
    cases r with
    | nil => simp [h]
    | cons u r => simp [h]

theorem decode_metaspace (oc : Bool) (r : Char) (scheme : Metaspace.Scheme) :
    ∃ D, Stable D ∧ ∀ ts, Dec.Decoder.decode oc (.metaspace r scheme) ts = some (D ts) := by
  refine ⟨fun ts => (Metaspace.decodeChain r scheme ts).flatten, ?_, fun ts => by
    simp [Dec.Decoder.decode, Dec.Decoder.decodeChain]⟩
  refine stable_perToken (fun t => (Metaspace.decodeChain r scheme [t]).flatten) (Metaspace.unsub r) rfl ?_
  intro t ts
  simp only [Metaspace.decodeChain]
  rw [List.zipIdx_cons, List.map_cons, List.flatten_cons, Metaspace.decode_later r scheme ts 0]
  congr 1
  · simp
  · rw [Metaspace.unsub, List.map_flatten, List.flatMap_def]; rfl

theorem wordPiece_later (pre : Str) (clean : Bool) : ∀ (ts : List Str) (k : Nat), k ≠ 0 →
    ((ts.zipIdx k).map fun p => Dec.wordPieceOne pre clean p.2 p.1).flatten
      = ts.flatMap (Dec.wordPieceOne pre clean 1)
  | [], _, _ => rfl
  | t :: ts, k, hk => by
    rw [List.zipIdx_cons, List.map_cons, List.flatten_cons, wordPiece_later pre clean ts (k + 1) (by omega),
      List.flatMap_cons]
    congr 1
    simp [Dec.wordPieceOne, hk]

theorem decode_wordPiece (oc : Bool) (pre : Str) (clean : Bool) :
    ∃ D, Stable D ∧ ∀ ts, Dec.Decoder.decode oc (.wordPiece pre clean) ts = some (D ts) := by
  refine ⟨fun ts => (Dec.wordPiece pre clean ts).flatten, ?_, fun ts => by
    simp [Dec.Decoder.decode, Dec.Decoder.decodeChain]⟩
  refine stable_perToken (Dec.wordPieceOne pre clean 0) (Dec.wordPieceOne pre clean 1) rfl ?_
  intro t ts
  simp only [Dec.wordPiece]
  rw [List.zipIdx_cons, List.map_cons, List.flatten_cons, wordPiece_later pre clean ts _ (by omega)]

theorem decode_fuse (oc : Bool) :
    ∃ D, Stable D ∧ ∀ ts, Dec.Decoder.decode oc .fuse ts = some (D ts) := by
  refine ⟨List.flatten, ?_, fun ts => by simp [Dec.Decoder.decode, Dec.Decoder.decodeChain, Dec.fuse]⟩
  exact stable_perToken id id rfl fun t ts => by simp [List.flatMap_def]

/-- The byte-level decoder. -/
theorem decode_byteLevel (oc : Bool) :
    ∃ D, Stable D ∧ ∀ ts, Dec.Decoder.decode oc .byteLevel ts = some (D ts) := by
  let bytes : List Str → List UInt8 := fun ts =>
    ts.flatMap fun t => (t.mapM ByteLevel.charByte).getD (strBytes t)
  have happ : ∀ a b, bytes (a ++ b) = bytes a ++ bytes b := fun a b => List.flatMap_append
  refine ⟨fun ts => fromUtf8Lossy (bytes ts), ⟨rfl, fun r b c _ hr hb => ?_⟩, fun ts => by
    simp [Dec.Decoder.decode, Dec.Decoder.decodeChain, ByteLevel.decodeChain, bytes]⟩
  refine ⟨fromUtf8Lossy (bytes c), ?_, ?_⟩
  · show fromUtf8Lossy (bytes (r ++ b ++ c)) = _
    rw [happ (r ++ b) c]
    exact fromUtf8Lossy_append _ _ _ (Nat.le_refl _) hb
  · show fromUtf8Lossy (bytes (b ++ c)) = _
    rw [happ b c]
    refine fromUtf8Lossy_append _ _ _ (Nat.le_refl _) ?_
    have hb' : complete (fromUtf8Lossy (bytes (r ++ b))) := hb
    rw [happ, fromUtf8Lossy_append _ _ _ (Nat.le_refl _) hr] at hb'
    by_cases hn : fromUtf8Lossy (bytes b) = []
    · rw [hn]; simp
    · exact (complete_append hn).1 hb'

/-- Tokens joined with spaces, when the tokenizer has no decoder (`tokenizer/mod.rs:951`). -/
theorem decode_none : Stable fun ts => [' '].intercalate ts := by
  refine stable_perToken id (' ' :: ·) rfl fun t ts => ?_
  induction ts generalizing t with
  | nil => simp [List.intercalate, List.intersperse]
  | cons u ts ih =>
    have := ih u
    simp only [List.intercalate, List.intersperse, List.flatten_cons] at this ⊢
    rw [this]
    simp

/-- **C34.** Streaming with the byte-level decoder (or any decoder treating tokens one by one). -/
theorem C34_decoders (oc : Bool) (d : Dec.Decoder)
    (hd : d = .byteLevel ∨ d = .fuse ∨ (∃ r scheme, d = .metaspace r scheme) ∨ ∃ pre clean, d = .wordPiece pre clean)
    (tok : Nat → Option Str) (steps : List (List Nat)) :
    ∃ st outs text, run (fun ids => d.decode oc (ids.filterMap tok)) State.init steps = .ok (st, outs) ∧
      d.decode oc (steps.flatten.filterMap tok) = some text ∧
      (outs.filterMap id).flatten <+: text ∧ (complete text → (outs.filterMap id).flatten = text) ∧
      ∀ t, some t ∈ outs → t ≠ [] ∧ complete t := by
  have : ∃ D, Stable D ∧ ∀ ts, d.decode oc ts = some (D ts) := by
    rcases hd with rfl | rfl | ⟨r, s, rfl⟩ | ⟨p, c, rfl⟩
    · exact decode_byteLevel oc
    · exact decode_fuse oc
    · exact decode_metaspace oc r s
    · exact decode_wordPiece oc p c
  obtain ⟨D, hS, hD⟩ := this
  obtain ⟨st, outs, h1, _, h3, h4, h5⟩ := C34_stream hS tok steps
  refine ⟨st, outs, _, ?_, hD _, h3, h4, h5⟩
  have : (fun ids : List Nat => d.decode oc (ids.filterMap tok)) = through tok D := by
    funext ids; exact hD _
  rw [this]; exact h1

/-- `é` cut in two byte-level tokens, with an unknown id in between. -/
example : (run (fun ids => Dec.Decoder.decode true .byteLevel (ids.filterMap fun i =>
      ["a".toList, [ByteLevel.byteChar 0xC3], [ByteLevel.byteChar 0xA9]][i]?)) State.init [[0], [1], [7], [2], [0]]).toOption.map
        (·.2)
    = some [some "a".toList, none, none, some "é".toList, some "a".toList] := by decide +kernel

/-- The error of a run, if any. -/
def failure {α : Type} : Except Err α → Option Err
  | .error e => some e
  | .ok _ => none

/-- Finding: byte fallback is not prefix-stable. A run of byte tokens that was valid so far becomes invalid as a
whole, and the stream then fails with `InvalidPrefix`. -/
theorem C34_byte_fallback_fails :
    failure (run (fun ids => Dec.Decoder.decode true .byteFallback (ids.filterMap fun i =>
      ["<0xE2>".toList, "<0x82>".toList, "<0xAC>".toList, "<0x80>".toList, "x".toList][i]?)) State.init
        [[0], [1], [2], [3], [4]]) = some .invalidPrefix := by decide +kernel

end Tok.Stream
