import Verif.Encoding.Props2

/-!
# C122: truncating twice

`truncate` cuts the parts out of the encoding itself and replaces it (`encoding.rs:307-388`); the overflowing parts it had before
are dropped.
-/

namespace Tok.Encoding

/-- All the tokens of an encoding and its overflowing parts that lie behind it, without the overlaps of `stride` tokens. -/
def behind (stride : Nat) (e : Encoding) : List Row :=
  e.rows ++ (e.overflowing.map fun o => o.rows.drop stride).flatten

/-- The same if the overflowing parts lie before the encoding. -/
def before (stride : Nat) (e : Encoding) : List Row :=
  (e.overflowing.reverse.map fun o => o.rows.take (o.len - stride)).flatten ++ e.rows

theorem truncate_some {e : Encoding} (h : e.WF) {n stride : Nat} (hs : stride < n) (d) : ∃ e', e.truncate n stride d = some e' := by
  cases ht : e.truncate n stride d with
  | some e' => exact ⟨e', rfl⟩
  | none =>
    have := (C02_truncate_panics_iff h n stride d).1 ht
    omega

/-- **C122 (right).** An encoding truncated to `a` tokens and then to fewer, `b`, has the tokens of one truncated to `b` at once.
Missing, because it is false: the same overflowing parts. Those of the first truncation are lost, and with them all tokens from
the `a`th on, while truncating at once loses none. -/
theorem C122_right_partial {e : Encoding} (h : e.WF) {a b s t : Nat} (ht : t < b) (hb : b < a) (ha : a < e.len) (hs : s < a) :
    ∃ once first twice, e.truncate b t .right = some once ∧ e.truncate a s .right = some first ∧
      first.truncate b t .right = some twice ∧ twice.rows = once.rows ∧
      once.behind t = e.rows ∧ twice.behind t = e.rows.take a := by
  obtain ⟨once, h1⟩ := truncate_some h ht .right
  obtain ⟨first, h2⟩ := truncate_some h hs .right
  have hf : first.WF := truncate_wf h h2
  obtain ⟨twice, h3⟩ := truncate_some hf ht .right
  have r1 := C02_truncate_right h (by omega) (by omega) h1
  have r2 := C02_truncate_right h (by omega) ha h2
  have hl : first.len = a := by
    rw [← rows_length hf.parallel, r2.1, List.length_take, rows_length h.parallel]; omega
  have r3 := C02_truncate_right hf (by omega) (by omega) h3
  refine ⟨once, first, twice, h1, h2, h3, ?_, r1.2.1, r3.2.1.trans r2.1⟩
  rw [r3.1, r2.1, r1.1, List.take_take, Nat.min_eq_left (by omega)]

/-- **C122 (left).** The same at the other end. -/
theorem C122_left_partial {e : Encoding} (h : e.WF) {a b s t : Nat} (ht : t < b) (hb : b < a) (ha : a < e.len) (hs : s < a) :
    ∃ once first twice, e.truncate b t .left = some once ∧ e.truncate a s .left = some first ∧
      first.truncate b t .left = some twice ∧ twice.rows = once.rows ∧
      once.before t = e.rows ∧ twice.before t = e.rows.drop (e.len - a) := by
  obtain ⟨once, h1⟩ := truncate_some h ht .left
  obtain ⟨first, h2⟩ := truncate_some h hs .left
  have hf : first.WF := truncate_wf h h2
  obtain ⟨twice, h3⟩ := truncate_some hf ht .left
  have r1 := C02_truncate_left h (by omega) (by omega) h1
  have r2 := C02_truncate_left h (by omega) ha h2
  have hl : first.len = a := by
    rw [← rows_length hf.parallel, r2.1, List.length_drop, rows_length h.parallel]; omega
  have r3 := C02_truncate_left hf (by omega) (by omega) h3
  refine ⟨once, first, twice, h1, h2, h3, ?_, r1.2.1, r3.2.1.trans r2.1⟩
  rw [r3.1, r2.1, r1.1, List.drop_drop, hl]
  congr 1
  omega

/-- **C122 is false**: truncating twice is never the same as truncating at once. -/
theorem C122_lost {e : Encoding} (h : e.WF) {a b s t : Nat} (ht : t < b) (hb : b < a) (ha : a < e.len) (hs : s < a) (d) :
    (e.truncate a s d).bind (·.truncate b t d) ≠ e.truncate b t d := by
  have hl := rows_length h.parallel
  cases d with
  | right =>
    obtain ⟨once, first, twice, h1, h2, h3, _, h5, h6⟩ := C122_right_partial h ht hb ha hs
    rw [h1, h2, Option.bind_some, h3]
    intro hc
    cases hc
    have := congrArg List.length (h5.symm.trans h6)
    rw [List.length_take] at this
    omega
  | left =>
    obtain ⟨once, first, twice, h1, h2, h3, _, h5, h6⟩ := C122_left_partial h ht hb ha hs
    rw [h1, h2, Option.bind_some, h3]
    intro hc
    cases hc
    have := congrArg List.length (h5.symm.trans h6)
    rw [List.length_drop] at this
    omega

/-- Five tokens, truncated to three and then to two with an overlap of one: the last two are nowhere. -/
def fiveTokens : Encoding :=
  fromTokens [⟨1, ['a'], (0, 1)⟩, ⟨2, ['b'], (1, 2)⟩, ⟨3, ['c'], (2, 3)⟩, ⟨4, ['d'], (3, 4)⟩, ⟨5, ['e'], (4, 5)⟩] 0

example : (fiveTokens.truncate 3 0 .right).bind (·.truncate 2 1 .right) ≠ fiveTokens.truncate 2 1 .right :=
  C122_lost (C01_reachable_wf (.tokens _ _)) (by decide) (by decide) (by decide) (by decide) .right

example : ((fiveTokens.truncate 3 0 .right).bind (·.truncate 2 1 .right)).map (fun x => (x.ids, x.overflowing.map (·.ids))) =
      some ([1, 2], [[2, 3]]) ∧
    (fiveTokens.truncate 2 1 .right).map (fun x => (x.ids, x.overflowing.map (·.ids))) =
      some ([1, 2], [[2, 3], [3, 4], [4, 5]]) := by decide +kernel

end Tok.Encoding
