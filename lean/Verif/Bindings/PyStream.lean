import Verif.Codec.Stream

/-!
# Model of the Python `DecodeStream` (`bindings/python/src/decoders.rs:786-887`); C102

The Python class keeps the buffer, the prefix and the index itself and calls `step_decode_stream`
(`tokenizer/mod.rs:1127-1172`) with the tokenizer given to each step. It differs from the stream of the library in two
ways: it can be started with ids (a prompt), and, since a step that raised is just an exception, it can be used again
after an error. So here a step gives the state it leaves in any case.
-/

namespace Tok.PyStream

open Tok.Stream

/-- `PyDecodeStream::new` (`decoders.rs:838-845`) with the ids of a prompt; without ids it is `State.init`. -/
def primed (ids : List Nat) : State := ⟨ids, [], 0⟩

/-- `PyDecodeStream::step` (`decoders.rs:866-880`), that is `step_decode_stream` (`tokenizer/mod.rs:1142-1171`) with
the state that is left behind when it stops early. An error of the second `decode` (line 1151), and an invalid
prefix (1153-1158), leave the ids appended; an error of the last `decode` (1164) leaves the shortened buffer with the
old prefix and the old index. An index past the end (1162) is a panic with the ids appended. -/
def step (decode : List Nat → Option Str) (st : State) (new : List Nat) : State × Except Err (Option Str) :=
  match refresh decode st with
  | .error e => (st, .error e)
  | .ok st =>
    let ids := st.ids ++ new
    match decode ids with
    | none => ({ st with ids := ids }, .error .decode)
    | some string =>
      if blen st.pre < blen string ∧ complete string then
        if st.pre <+: string then
          if st.idx ≤ ids.length then
            match decode (ids.drop st.idx) with
            | none => ({ st with ids := ids.drop st.idx }, .error .decode)
            | some p => (⟨ids.drop st.idx, p, ids.length - st.idx⟩, .ok (some (string.drop st.pre.length)))
          else ({ st with ids := ids }, .error .panic)
        else ({ st with ids := ids }, .error .invalidPrefix)
      else ({ st with ids := ids }, .ok none)

/-- A history of calls, continued whatever they raise: each with the `decode` of the tokenizer it is given. -/
def run : State → List ((List Nat → Option Str) × List Nat) → State × List (Except Err (Option Str))
  | st, [] => (st, [])
  | st, (decode, new) :: rest =>
    let (st', o) := step decode st new
    let (st'', os) := run st' rest
    (st'', o :: os)

/-- The calls of a history that all use one tokenizer. -/
def withOne (decode : List Nat → Option Str) (steps : List (List Nat)) : List ((List Nat → Option Str) × List Nat) :=
  steps.map fun s => (decode, s)

/-- The texts that were returned, put together. -/
def text : List (Except Err (Option Str)) → Str
  | [] => []
  | .ok (some t) :: os => t ++ text os
  | _ :: os => text os

/-! ## The stream of the library, as long as nothing fails -/

theorem step_ok {decode : List Nat → Option Str} {st st' : State} {new : List Nat} {o : Option Str}
    (h : Stream.step decode st new = .ok (st', o)) : step decode st new = (st', .ok o) := by
  unfold Stream.step at h
  unfold step
  cases hr : refresh decode st with
  | error e => rw [hr] at h; cases h
  | ok s =>
    rw [hr] at h
    dsimp only at h ⊢
    cases hd : decode (s.ids ++ new) with
    | none => rw [hd] at h; cases h
    | some string =>
      rw [hd] at h
      dsimp only at h ⊢
      split at h
      · rename_i h1
        rw [if_pos h1]
        split at h
        · rename_i h2
          rw [if_pos h2]
          split at h
          · rename_i h3
            rw [if_pos h3]
            cases hq : decode ((s.ids ++ new).drop s.idx) with
            | none => rw [hq] at h; cases h
            | some p => rw [hq] at h; cases h; rfl
          · cases h
        · cases h
      · rename_i h1
        rw [if_neg h1]
        cases h; rfl

theorem run_ok {decode : List Nat → Option Str} : ∀ {steps : List (List Nat)} {st st' : State}
    {os : List (Option Str)}, Stream.run decode st steps = .ok (st', os) →
    run st (withOne decode steps) = (st', os.map .ok)
  | [], st, st', os, h => by cases h; rfl
  | new :: rest, st, st', os, h => by
    rw [Stream.run] at h
    cases h1 : Stream.step decode st new with
    | error e => rw [h1] at h; cases h
    | ok x =>
      obtain ⟨s1, o⟩ := x
      rw [h1] at h
      dsimp only at h
      cases h2 : Stream.run decode s1 rest with
      | error e => rw [h2] at h; cases h
      | ok y =>
        obtain ⟨s2, os2⟩ := y
        rw [h2] at h
        cases h
        show run st ((decode, new) :: withOne decode rest) = _
        rw [run, step_ok h1]
        dsimp only
        rw [run_ok h2]
        rfl

theorem text_ok : ∀ os : List (Option Str), text (os.map .ok) = (os.filterMap id).flatten
  | [] => rfl
  | none :: os => by simpa [text] using text_ok os
  | some t :: os => by simpa [text] using text_ok os

/-! ## Starting with a prompt -/

/-- What the invariant gives at the end. -/
theorem finish {tok : Nat → Option Str} {D : List Str → Str} {T : List Str} (hS : StableOn D T) {st : State}
    {hist : List Nat} {out : Str} (h : Inv tok D st hist out) (hT : hist.filterMap tok = T) :
    out <+: D T ∧ (complete (D T) → out = D T) := by
  obtain ⟨r, b, c, g1, _, _, _, g5, g6, g7, g8, g9⟩ := h
  have hpre : (r ++ b).filterMap tok <+: T := by
    rw [← hT, g1, List.filterMap_append (l := r ++ b)]; exact List.prefix_append _ _
  refine ⟨by rw [g5]; exact hS.front _ hpre g7, fun hc => ?_⟩
  have he : (r ++ b ++ c).filterMap tok = T := by rw [← g1]; exact hT
  obtain ⟨x, e1, e2⟩ := hS.extend (r.filterMap tok) (b.filterMap tok) (c.filterMap tok)
    (by simp only [← List.filterMap_append]; rw [he]; exact List.prefix_refl _) g8 g6
    (by rw [← List.filterMap_append]; exact g7) (.inr (by simp only [← List.filterMap_append]; exact he))
  simp only [← List.filterMap_append] at e1 e2
  rw [he] at e1
  rw [e1] at hc
  rw [g5, e1]
  by_cases hx : x = []
  · rw [hx, List.append_nil]
  · rw [complete_append hx] at hc
    rcases g9 with g9 | g9 | g9
    · subst g9
      rw [List.append_nil] at e2
      have : (D (b.filterMap tok)).length = (D (b.filterMap tok) ++ x).length := congrArg _ e2
      rw [List.length_append] at this
      exact absurd (List.length_eq_zero_iff.1 (by omega)) hx
    · rw [e2, complete_append hx] at g9
      exact absurd hc g9
    · rw [e2, blen_append] at g9
      have := blen_pos hx
      omega

/-- The text of the prompt that the stream takes as given already: all of it when it is complete, nothing
otherwise. -/
def given (text : Str) : Str := if complete text then text else []

theorem refresh_primed (decode : List Nat → Option Str) {prompt : List Nat} {p : Str} (hp : decode prompt = some p)
    (hc : complete p) (h0 : prompt = [] → p = []) :
    refresh decode (primed prompt) = .ok ⟨prompt, p, prompt.length⟩ ∧
      refresh decode ⟨prompt, p, prompt.length⟩ = .ok ⟨prompt, p, prompt.length⟩ := by
  unfold refresh primed
  by_cases he : prompt = []
  · subst he
    rw [h0 rfl]
    simp
  · rw [if_pos ⟨rfl, he⟩]
    dsimp only
    rw [hp]
    dsimp only
    rw [if_pos hc]
    refine ⟨rfl, ?_⟩
    by_cases h1 : p = []
    · rw [if_pos ⟨h1, he⟩, if_pos hc]
    · rw [if_neg fun h => h1 h.1]

/-- **C102.** A stream started with the ids of a prompt, for every prefix-stable decoding and every history of steps,
each of one id or of several: no step fails; if the text of the prompt is complete, the chunks put together are what
the ids given add to it, that is, prompt and chunks together are a prefix of the decoding of all ids, and the whole of
it when it is complete; if the text of the prompt ends in an unfinished character, the chunks alone are that. No chunk
is empty or ends in an unfinished character. -/
theorem C102_prompt {D : List Str → Str} (hS : Stable D) (tok : Nat → Option Str) (prompt : List Nat)
    (steps : List (List Nat)) (all : Str) (hall : all = D ((prompt ++ steps.flatten).filterMap tok)) :
    ∃ st outs, run (primed prompt) (withOne (through tok D) steps) = (st, outs) ∧ outs.length = steps.length ∧
      (∀ o ∈ outs, ∃ t, o = .ok t ∧ ∀ s, t = some s → s ≠ [] ∧ complete s) ∧
      given (D (prompt.filterMap tok)) ++ text outs <+: all ∧
      (complete all → given (D (prompt.filterMap tok)) ++ text outs = all) := by
  subst hall
  have hOn := hS.on ((prompt ++ steps.flatten).filterMap tok)
  by_cases hc : complete (D (prompt.filterMap tok))
  · -- the prompt is complete
    rw [given, if_pos hc]
    have hinv : Inv tok D ⟨prompt, D (prompt.filterMap tok), prompt.length⟩ prompt (D (prompt.filterMap tok)) :=
      ⟨[], prompt, [], by simp, by simp, rfl, rfl, by simp, by simp [hS.nil, complete], by simpa using hc,
        fun _ => rfl, .inl rfl⟩
    obtain ⟨r1, r2⟩ := refresh_primed (through tok D) (prompt := prompt) (p := D (prompt.filterMap tok)) rfl hc
      (by rintro rfl; exact hS.nil)
    cases steps with
    | nil =>
      refine ⟨_, [], rfl, rfl, by simp, ?_, ?_⟩
      · simp [text]
      · simp [text]
    | cons new rest =>
      have hstep : Stream.run (through tok D) (primed prompt) (new :: rest)
          = Stream.run (through tok D) ⟨prompt, D (prompt.filterMap tok), prompt.length⟩ (new :: rest) := by
        rw [Stream.run, Stream.run]
        have : Stream.step (through tok D) (primed prompt) new
            = Stream.step (through tok D) ⟨prompt, D (prompt.filterMap tok), prompt.length⟩ new := by
          unfold Stream.step; rw [r1, r2]
        rw [this]
      obtain ⟨st, outs, h1, h2, h3, h4⟩ := run_inv hOn (new :: rest) hinv (List.prefix_refl _)
      rw [← hstep] at h1
      obtain ⟨f1, f2⟩ := finish hOn h3 rfl
      refine ⟨st, outs.map .ok, run_ok h1, by simp [h2], ?_, by rw [text_ok]; exact f1, by rw [text_ok]; exact f2⟩
      intro o ho
      obtain ⟨t, ht, rfl⟩ := List.mem_map.1 ho
      exact ⟨t, rfl, fun s hs => h4 s (hs ▸ ht)⟩
  · -- the prompt ends in an unfinished character
    rw [given, if_neg hc]
    have hinv : Inv tok D (primed prompt) prompt [] :=
      ⟨[], [], prompt, by simp, by simp [primed], rfl, by simp [primed, hS.nil], by simp [hS.nil],
        by simp [hS.nil, complete], by simp [hS.nil, complete], fun _ => rfl, .inr (.inl (by simpa using hc))⟩
    obtain ⟨st, outs, h1, h2, h3, h4⟩ := run_inv hOn steps hinv (List.prefix_refl _)
    obtain ⟨f1, f2⟩ := finish hOn h3 rfl
    simp only [List.nil_append] at f1 f2 ⊢
    refine ⟨st, outs.map .ok, run_ok h1, by simp [h2], ?_, by rw [text_ok]; exact f1, by rw [text_ok]; exact f2⟩
    intro o ho
    obtain ⟨t, ht, rfl⟩ := List.mem_map.1 ho
    exact ⟨t, rfl, fun s hs => h4 s (hs ▸ ht)⟩

/-- **C102.** The same for the decoders that are prefix-stable: byte-level, fuse, Metaspace and WordPiece. -/
theorem C102_decoders (oc : Bool) (d : Dec.Decoder)
    (hd : d = .byteLevel ∨ d = .fuse ∨ (∃ r scheme, d = .metaspace r scheme) ∨ ∃ pre clean, d = .wordPiece pre clean)
    (tok : Nat → Option Str) (prompt : List Nat) (steps : List (List Nat)) :
    ∃ st outs before all,
      run (primed prompt) (withOne (fun ids => d.decode oc (ids.filterMap tok)) steps) = (st, outs) ∧
      d.decode oc (prompt.filterMap tok) = some before ∧
      d.decode oc ((prompt ++ steps.flatten).filterMap tok) = some all ∧
      (∀ o ∈ outs, ∃ t, o = .ok t ∧ ∀ s, t = some s → s ≠ [] ∧ complete s) ∧
      (complete before → before ++ text outs <+: all ∧ (complete all → before ++ text outs = all)) ∧
      (¬ complete before → text outs <+: all ∧ (complete all → text outs = all)) := by
  have : ∃ D, Stable D ∧ ∀ ts, d.decode oc ts = some (D ts) := by
    rcases hd with rfl | rfl | ⟨r, s, rfl⟩ | ⟨p, c, rfl⟩
    · exact decode_byteLevel oc
    · exact decode_fuse oc
    · exact decode_metaspace oc r s
    · exact decode_wordPiece oc p c
  obtain ⟨D, hS, hD⟩ := this
  obtain ⟨st, outs, h1, _, h3, h4, h5⟩ := C102_prompt hS tok prompt steps _ rfl
  have he : (fun ids : List Nat => d.decode oc (ids.filterMap tok)) = through tok D := by
    funext ids; exact hD _
  refine ⟨st, outs, _, _, by rw [he]; exact h1, hD _, hD _, h3, fun hc => ?_, fun hc => ?_⟩
  · rw [given, if_pos hc] at h4 h5; exact ⟨h4, h5⟩
  · rw [given, if_neg hc, List.nil_append] at h4 h5; exact ⟨h4, h5⟩

/-- The texts of the tokens of the examples: `a`, the two bytes of `é`, a space before `b`. -/
def toks (i : Nat) : Option Str :=
  ["a".toList, [ByteLevel.byteChar 0xC3], [ByteLevel.byteChar 0xA9], [ByteLevel.byteChar 0x20, 'b']][i]?

/-- The byte-level decoding of these tokens. -/
def bytes (ids : List Nat) : Option Str := Dec.Decoder.decode true .byteLevel (ids.filterMap toks)

/-- Calls as texts, for the examples. -/
def shown (os : List (Except Err (Option Str))) : List (Option (Option Str)) :=
  os.map fun | .ok o => some o | .error _ => none

/-- A prompt `a`, then `é` in two steps, then two ids at once. -/
example : shown (run (primed [0]) (withOne bytes [[1], [2], [3, 0]])).2
    = [some none, some (some "é".toList), some (some " ba".toList)] := by decide +kernel

/-- With Metaspace, a prompt keeps the space in front of what follows; without one it is dropped. -/
example :
    let d : List Nat → Option Str := fun ids => Dec.Decoder.decode true (.metaspace '▁' .always)
      (ids.filterMap fun i => ["▁a".toList, "▁b".toList][i]?)
    shown (run (primed [0]) (withOne d [[1]])).2 = [some (some " b".toList)] ∧
      shown (run (primed []) (withOne d [[1]])).2 = [some (some "b".toList)] := by decide +kernel

/-- Finding: chunks do not always start where the prompt ends. The claim would be that the chunks add to the prompt,
apart from the unfinished character at its end. But when the prompt ends within a character, the first chunk gives the
whole text of the prompt again: the prompt `a` and the first byte of `é`, then the second byte, gives `aé`. -/
theorem C102_repeats :
    ¬ ∀ (prompt : List Nat) (steps : List (List Nat)) (before all : Str),
      bytes prompt = some before → bytes (prompt ++ steps.flatten) = some all → complete all →
      (before.reverse.dropWhile (· = '�')).reverse ++ text (run (primed prompt) (withOne bytes steps)).2 = all := by
  intro h
  have := h [0, 1] [[2]] "a�".toList "aé".toList (by decide +kernel) (by decide +kernel) (by decide +kernel)
  revert this
  decide +kernel

/-! ## After an error -/

/-- **C102.** A step that failed because the text could not be decoded has kept its ids: trying it again gives them to
the decoder a second time. -/
theorem C102_again (decode decode' : List Nat → Option Str) (st : State) (new new' : List Nat)
    (hst : st.pre ≠ []) (h : decode (st.ids ++ new) = none) :
    step decode st new = (⟨st.ids ++ new, st.pre, st.idx⟩, .error .decode) ∧
      (step decode' (step decode st new).1 new').2 =
        (step decode' ⟨st.ids, st.pre, st.idx⟩ (new ++ new')).2 := by
  have e1 : step decode st new = (⟨st.ids ++ new, st.pre, st.idx⟩, .error .decode) := by
    unfold step refresh
    rw [if_neg fun h => hst h.1]
    dsimp only
    rw [h]
  refine ⟨e1, ?_⟩
  rw [e1]
  unfold step refresh
  rw [if_neg fun h => hst h.1, if_neg fun h => hst h.1]
  dsimp only
  rw [List.append_assoc]
  repeat' split
  all_goals first | rfl | contradiction | skip
  all_goals simp_all

theorem encode_head_not_cont {c : Char} {b : UInt8} {bs : List UInt8} (h : String.utf8EncodeChar c = b :: bs) :
    isCont b = false := by
  have hsur : c.val.toNat < 0x110000 := by
    have hv : c.val.toNat < 0xd800 ∨ (0xdfff < c.val.toNat ∧ c.val.toNat < 0x110000) := c.valid
    omega
  unfold String.utf8EncodeChar at h
  generalize c.val.toNat = v at h hsur
  simp only at h
  have key : ∀ n : Nat, n < 256 → (n < 0x80 ∨ 0xBF < n) → isCont (UInt8.ofNat n) = false := by
    intro n hn h
    have := between_ofNat (n := n) (lo := 0x80) (hi := 0xBF) hn (by omega) (by omega)
    simp only [UInt8.reduceOfNat] at this
    rw [isCont, this]
    simp; omega
  repeat' split at h
  all_goals
    simp only [List.cons.injEq] at h
    rw [← h.1]
    exact key _ (by omega) (by omega)

/-- The bytes of a text, then a continuation byte, then anything, are not the bytes of a text. -/
theorem not_text (s t : Str) (b : UInt8) (q : List UInt8) (hb : isCont b = true) :
    strBytes t ≠ strBytes s ++ b :: q := by
  induction s generalizing t with
  | nil =>
    intro h
    cases t with
    | nil => cases h
    | cons c t =>
      rw [strBytes_cons] at h
      cases he : String.utf8EncodeChar c with
      | nil =>
        have h1 := encodeChar_length c
        have h2 := Char.utf8Size_pos c
        rw [he] at h1
        simp at h1
        omega
      | cons b0 bs =>
        rw [he] at h
        simp only [List.cons_append, show strBytes [] = [] from rfl, List.nil_append, List.cons.injEq] at h
        have := encode_head_not_cont he
        rw [h.1, hb] at this
        cases this
  | cons c s ih =>
    intro h
    cases t with
    | nil =>
      rw [strBytes_cons, show strBytes [] = [] from rfl] at h
      have := congrArg List.length h
      simp at this
    | cons d t =>
      rw [strBytes_cons, strBytes_cons, List.append_assoc] at h
      have hd := decode_encode_append d (strBytes t)
      rw [h, decode_encode_append] at hd
      cases hd
      exact ih t (List.append_cancel_left h)

theorem fallback_bad : ∀ (ts : List Str) (prev : List UInt8), prev ≠ [] →
    (∀ q t, strBytes t ≠ prev ++ q) → ∃ r, Dec.byteFallbackLoop prev ts = some (['�'] :: r)
  | [], prev, h0, h => by
    rw [Dec.byteFallbackLoop, Dec.flush, if_neg h0]
    cases hf : fromUtf8 prev with
    | some s => exact absurd (fromUtf8_eq_some.1 hf) (by simpa using h [] s)
    | none =>
      cases prev with
      | nil => exact absurd rfl h0
      | cons b bs => exact ⟨_, rfl⟩
  | t :: ts, prev, h0, h => by
    obtain ⟨o, h1, _⟩ := Dec.byteOf_spec t
    rw [Dec.byteFallbackLoop, h1]
    cases o with
    | some b => exact fallback_bad ts (prev ++ [b]) (by simp) fun q u => by simpa using h (b :: q) u
    | none =>
      obtain ⟨r, hr, _⟩ := Dec.byteFallbackLoop_spec ts [] [] rfl (by simp)
      dsimp only
      rw [hr, Dec.flush, if_neg h0]
      cases hf : fromUtf8 prev with
      | some s => exact absurd (fromUtf8_eq_some.1 hf) (by simpa using h [] s)
      | none =>
        cases prev with
        | nil => exact absurd rfl h0
        | cons b bs => exact ⟨_, rfl⟩

/-- **C102.** A stream whose prefix no longer begins what its ids decode to, whatever is added to them, gives no text
ever again: every step returns `None` or raises. -/
theorem C102_never (decode : List Nat → Option Str) : ∀ (rest : List (List Nat)) (st : State) (new : List Nat),
    st.pre ≠ [] → (∀ more s, decode (st.ids ++ new ++ more) = some s → ¬ st.pre <+: s) →
    ∀ o ∈ (run st (withOne decode (new :: rest))).2,
      o = .ok none ∨ o = .error .invalidPrefix ∨ o = .error .decode ∧ ∃ ids, decode ids = none := by
  intro rest
  induction rest with
  | nil =>
    intro st new hpre h o ho
    rw [show (run st (withOne decode [new])).2 = [(step decode st new).2] from rfl, List.mem_singleton] at ho
    subst ho
    exact (one st new hpre h).1
  | cons new' rest ih =>
    intro st new hpre h o ho
    rw [show (run st (withOne decode (new :: new' :: rest))).2
      = (step decode st new).2 :: (run (step decode st new).1 (withOne decode (new' :: rest))).2 from rfl] at ho
    obtain ⟨h1, h2, h3⟩ := one st new hpre h
    rcases List.mem_cons.1 ho with rfl | ho
    · exact h1
    · refine ih _ new' (by rw [h2]; exact hpre) (fun more s hs => ?_) o ho
      rw [h3] at hs
      rw [h2]
      exact h (new' ++ more) s (by simpa [List.append_assoc] using hs)
where
  one (st : State) (new : List Nat) (hpre : st.pre ≠ [])
      (h : ∀ more s, decode (st.ids ++ new ++ more) = some s → ¬ st.pre <+: s) :
      ((step decode st new).2 = .ok none ∨ (step decode st new).2 = .error .invalidPrefix ∨
        (step decode st new).2 = .error .decode ∧ ∃ ids, decode ids = none) ∧
      (step decode st new).1.pre = st.pre ∧ (step decode st new).1.ids = st.ids ++ new := by
    unfold step refresh
    rw [if_neg fun h => hpre h.1]
    dsimp only
    cases hd : decode (st.ids ++ new) with
    | none => exact ⟨.inr (.inr ⟨rfl, _, hd⟩), rfl, rfl⟩
    | some s =>
      dsimp only
      have := h [] s (by simpa using hd)
      rw [if_neg this]
      split
      · exact ⟨.inr (.inl rfl), rfl, rfl⟩
      · exact ⟨.inl rfl, rfl, rfl⟩

/-- **C102.** Finding: with byte fallback a stream can be stuck for good. When the byte tokens of a character have been
given, and the stream has returned that character, and then a byte token comes that cannot begin a character, no later
step returns any text, whatever ids are given (`None`, or `InvalidPrefix`). -/
theorem C102_stuck (oc : Bool) (tok : Nat → Option Str) (c : Char) (hc : c ≠ '�') (b : UInt8) (hb : isCont b = true)
    (first : List Nat) (hfirst : first.filterMap tok = (strBytes [c]).map byteToken)
    (i : Nat) (hi : tok i = some (byteToken b)) (new : List Nat) (steps : List (List Nat)) :
    ∃ st later, run (primed []) (withOne (fun ids => Dec.Decoder.decode oc .byteFallback (ids.filterMap tok))
        (first :: (i :: new) :: steps)) = (st, .ok (some [c]) :: later) ∧
      ∀ o ∈ later, o = .ok none ∨ o = .error .invalidPrefix := by
  generalize hD : (fun ids : List Nat => Dec.Decoder.decode oc .byteFallback (ids.filterMap tok)) = D
  have hDec : ∀ ids, D ids = (Dec.byteFallback (ids.filterMap tok)).map List.flatten := by
    intro ids; rw [← hD]; rfl
  have hne : strBytes [c] ≠ [] := by
    intro h
    have := length_strBytes [c]
    rw [h] at this
    have h2 := blen_pos (s := [c]) (by simp)
    rw [List.length_nil] at this
    omega
  have h1 : D first = some [c] := by
    rw [hDec, hfirst]
    have := Dec.C30_text [c] (by simp) [] []
    simp only [List.nil_append, List.append_nil] at this
    rw [this (by simp) (by simp)]
    rfl
  have hfs : first ≠ [] := by
    rintro rfl
    exact hne (List.map_eq_nil_iff.1 hfirst.symm)
  have hcomp : complete [c] := by simpa [complete] using hc
  have hfst : step D (primed []) first = (⟨first, [c], first.length⟩, .ok (some [c])) := by
    unfold step refresh primed
    rw [if_neg (by simp)]
    dsimp only
    rw [List.nil_append, h1]
    dsimp only
    rw [if_pos ⟨by simpa using blen_pos (s := [c]) (by simp), hcomp⟩, if_pos List.nil_prefix, if_pos (Nat.zero_le _),
      List.drop_zero, h1]
    rfl
  refine ⟨(run ⟨first, [c], first.length⟩ (withOne D ((i :: new) :: steps))).1,
    (run ⟨first, [c], first.length⟩ (withOne D ((i :: new) :: steps))).2, ?_, ?_⟩
  · show run (primed []) ((D, first) :: withOne D ((i :: new) :: steps)) = _
    rw [run, hfst]
  · intro o ho
    have := C102_never D steps ⟨first, [c], first.length⟩ (i :: new) (by simp) (fun more s hs hp => ?_) o ho
    · rcases this with h | h | ⟨_, ids, h⟩
      · exact .inl h
      · exact .inr h
      · rw [hDec] at h
        obtain ⟨out, ho, _⟩ := Dec.C30_byte_fallback (ids.filterMap tok)
        rw [ho] at h; cases h
    · rw [hDec] at hs
      dsimp only at hs hp
      obtain ⟨r, hr⟩ := fallback_bad ((new ++ more).filterMap tok) (strBytes [c] ++ [b]) (by simp)
        (fun q t => by simpa using not_text [c] t b q hb)
      have : (first ++ i :: new ++ more).filterMap tok
          = (strBytes [c] ++ [b]).map byteToken ++ (new ++ more).filterMap tok := by
        simp [hfirst, hi, List.filterMap_append]
      rw [this, Dec.byteFallback, Dec.byteFallbackLoop_run, List.nil_append, hr] at hs
      cases hs
      obtain ⟨z, hz⟩ := hp
      simp only [List.flatten_cons, List.cons_append, List.nil_append, List.cons.injEq] at hz
      exact hc hz.1

/-- `€` in three byte tokens, a fourth that continues nothing, then ordinary words. -/
example : shown (run (primed []) (withOne (fun ids => Dec.Decoder.decode true .byteFallback (ids.filterMap fun i =>
      ["<0xE2>".toList, "<0x82>".toList, "<0xAC>".toList, "<0x80>".toList, "x".toList][i]?))
        [[0], [1], [2], [3], [4], [4], [4, 4]])).2
    = [some none, some none, some (some "€".toList), some none, none, none, none] := by decide +kernel

end Tok.PyStream
