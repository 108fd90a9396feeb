import Verif.Bindings.AddedTok
import Verif.Bindings.Attributes
import Verif.Bindings.Classes
import Verif.Bindings.NodeTasks
import Verif.Bindings.Settings
import Verif.Post.Template

/-!
# C87, C88, C92, C97, C99: what single setters and names do

Small statements that are not implied by the theorems about whole objects.
-/

namespace Tok

namespace Py
open Encoding

/-- **C88, the setter.** `token.special = b`: the token is special exactly if `b`; what was given to the constructor stays; if
`normalized` was not given, the token is normalized exactly if `b` is false. -/
theorem C88_special_setter (t : PyToken) (b : Bool) :
    (t.setSpecial b).get = { documented t with special := b, normalized := t.normalized.getD (!b) } := by
  rw [get_eq]; rfl

example : (({ content := "x".toList, special := true } : PyToken).setSpecial false).get =
    { content := "x".toList, normalized := true, special := false } := by decide +kernel

/-- **C87, `Encoding.truncate`.** Node with an explicit stride and direction does what Python does with the same. -/
theorem C87_truncate_alike (e : Encoding) (n stride : Nat) (dir : Str) :
    nodeTruncate e n (some stride) (some (.text dir)) = pyTruncate e n stride dir := rfl

/-- **C87, `Encoding.truncate` in Python.** Directions other than `left` and `right` are refused; with one of these, the call is the one
of the crate with the length and the stride that were given. -/
theorem C87_py_truncate (e e' : Encoding) (n stride : Nat) (dir : Str) : pyTruncate e n stride dir = some e' ↔
    (dir = "left".toList ∧ e.truncate n stride .left = some e') ∨ (dir = "right".toList ∧ e.truncate n stride .right = some e') := by
  unfold pyTruncate directionOf
  split
  · rename_i h; subst h; simp
  · split
    · rename_i h; subst h; simp
    · rename_i h1 h2
      exact ⟨nofun, fun h => h.elim (fun h => absurd h.1 h1) fun h => absurd h.1 h2⟩

end Py

namespace PyAttr
open NS

/-- **C99, the names.** Two behaviors do not have the same name. -/
theorem C99_behavior_distinct {a b : Behavior} (h : getBehavior a = getBehavior b) : a = b := by
  have key : ∀ a b : Behavior, (behaviorDisplay a).map Char.toLower = (behaviorDisplay b).map Char.toLower → a = b := by
    intro a b
    cases a <;> cases b <;> decide +kernel
  unfold getBehavior at h
  exact key a b (by injection h)

end PyAttr

namespace Classes
open Save Py

/-- **C92, `unicode_normalizer`.** The four names stand for the four forms, all others are refused. -/
theorem C92_unicode_normalizer (s : Str) (n : NormCfg) : unicodeNormalizer s = .ok n ↔
    (s, n) ∈ [("nfc".toList, NormCfg.nfc), ("nfd".toList, .nfd), ("nfkc".toList, .nfkc), ("nfkd".toList, .nfkd)] := by
  have e1 : "nfd".toList ≠ "nfc".toList := by decide +kernel
  have e2 : "nfkc".toList ≠ "nfc".toList := by decide +kernel
  have e3 : "nfkd".toList ≠ "nfc".toList := by decide +kernel
  have e4 : "nfkc".toList ≠ "nfd".toList := by decide +kernel
  have e5 : "nfkd".toList ≠ "nfd".toList := by decide +kernel
  have e6 : "nfkd".toList ≠ "nfkc".toList := by decide +kernel
  simp only [List.mem_cons, Prod.mk.injEq, List.not_mem_nil, or_false]
  unfold unicodeNormalizer
  constructor
  · intro h
    split at h
    · cases h; exact .inl ⟨by assumption, rfl⟩
    · split at h
      · cases h; exact .inr (.inl ⟨by assumption, rfl⟩)
      · split at h
        · cases h; exact .inr (.inr (.inl ⟨by assumption, rfl⟩))
        · split at h
          · cases h; exact .inr (.inr (.inr ⟨by assumption, rfl⟩))
          · cases h
  · rintro (⟨rfl, rfl⟩ | ⟨rfl, rfl⟩ | ⟨rfl, rfl⟩ | ⟨rfl, rfl⟩)
    · rw [if_pos rfl]
    · rw [if_neg e1, if_pos rfl]
    · rw [if_neg e2, if_neg e4, if_pos rfl]
    · rw [if_neg e3, if_neg e5, if_neg e6, if_pos rfl]

end Classes

namespace Node

/-- **C97, refused setters.** A setter is refused before the lock is asked for only if it would be refused with the lock, the tokenizer
staying as it is; and then it is one of the two with options. -/
theorem C97_rejected (x : Setter) : x.rejected = true ↔
    (∃ n o, x = .truncation n o ∧ Py.nodeSetTruncation n o = none) ∨ ∃ o, x = .padding o ∧ Py.nodeSetPadding o = none := by
  constructor
  · intro h
    cases x with
    | truncation n o => exact .inl ⟨n, o, rfl, by simpa [Setter.rejected] using h⟩
    | padding o => exact .inr ⟨o, rfl, by simpa [Setter.rejected] using h⟩
    | _ => cases h
  · rintro (⟨n, o, rfl, h⟩ | ⟨o, rfl, h⟩) <;> simp [Setter.rejected, h]

theorem C97_rejected_same {x : Setter} (h : x.rejected = true) (t : Tokenizer) : x.apply t = (t, .thrown) := by
  rcases (C97_rejected x).1 h with ⟨n, o, rfl, k⟩ | ⟨o, rfl, k⟩ <;> simp [Setter.apply, k]

example : (Setter.padding (some { direction := some (.text "up".toList) })).rejected = true := by decide +kernel

end Node

namespace Post

/-- **C35, the setters.** After `set_pair` one text is processed as before, and two texts by the pieces that were set; after `set_single`
it is the other way round. -/
theorem C35_setters (t : Template) (p : List Piece) (add : Bool) (a b : Encoding) :
    (t.setPair p).processEncodings add [a] = t.processEncodings add [a] ∧
    (t.setPair p).processEncodings add [a, b] = applyTemplate t.specials add [a, b] p ∧
    (t.setSingle p).processEncodings add [a, b] = t.processEncodings add [a, b] ∧
    (t.setSingle p).processEncodings add [a] = applyTemplate t.specials add [a] p := ⟨rfl, rfl, rfl, rfl⟩

end Post

namespace Encoding

/-- **C01.** Offsets written through `get_offsets_mut` (as many as there were) leave a well-formed encoding, in which everything else is
the same. -/
theorem C01_set_offsets {e : Encoding} (h : e.WF) {o : List Range} (ho : o.length = e.len) :
    (e.setOffsets o).WF ∧ (e.setOffsets o).offsets = o ∧ (e.setOffsets o).ids = e.ids ∧ (e.setOffsets o).tokens = e.tokens ∧
      (e.setOffsets o).seqRanges = e.seqRanges ∧ (e.setOffsets o).overflowing = e.overflowing ∧ (e.setOffsets o).typeIds = e.typeIds := by
  cases e with
  | mk i t k w o' s a ov sr =>
    refine ⟨?_, rfl, rfl, rfl, rfl, rfl, rfl⟩
    cases h with
    | intro _ hp hr ho' => exact .intro _ ⟨hp.1, hp.2.1, hp.2.2.1, ho, hp.2.2.2.2.1, hp.2.2.2.2.2⟩ hr ho'

end Encoding
end Tok
