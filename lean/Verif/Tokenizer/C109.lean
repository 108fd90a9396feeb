import Verif.Tokenizer.Llama3
import Verif.Tokenizer.Lossless
import Verif.Bindings.Settings

/-!
# C109: padding and decoding
-/

namespace Tok

namespace Encoding

/-- `l` with `n` times `x` put on one side of it. -/
inductive Beside (x n : Nat) (l : List Nat) : Direction → List Nat → Prop
  | left : Beside x n l .left (List.replicate n x ++ l)
  | right : Beside x n l .right (l ++ List.replicate n x)

/-- The ids of a padded encoding: those it had, and enough times the id of the padding token. -/
theorem pad_beside (e : Encoding) (target : Nat) (pt : PadTok) (d : Direction) :
    Beside pt.id (target - e.len) e.ids d (e.pad target pt d).ids := by
  rw [pad_eq]
  split
  · rename_i h
    have h0 : target - e.len = 0 := by omega
    rw [h0]
    have : (e.setOverflowing (e.overflowing.map fun o => pad o target pt d)).ids = e.ids := by cases e; rfl
    rw [this]
    cases d
    · exact Beside.left (x := pt.id) (n := 0) (l := e.ids)
    · have := Beside.right (x := pt.id) (n := 0) (l := e.ids)
      simpa using this
  · cases d
    · exact .left
    · exact .right

theorem pad_overflowing (e : Encoding) (target : Nat) (pt : PadTok) (d : Direction) :
    (e.pad target pt d).overflowing = e.overflowing.map fun o => o.pad target pt d := by
  rw [pad_eq]
  split
  · cases e; rfl
  · cases d <;> rfl

end Encoding

namespace Tokenizer
open AddedVocab Encoding ByteLevel

/-- What an id says when special tokens are skipped: nothing, if it stands for no token or for a special one. -/
def Silent (t : Tokenizer) (id : Nat) : Prop := ∀ s, Shows t.view t.added id s → s ∈ t.added.specials

theorem decodeTokens_silent {t : Tokenizer} {id : Nat} (h : t.Silent id) (n : Nat) :
    decodeTokens t.view t.added true (List.replicate n id) = [] := by
  unfold decodeTokens
  rw [List.filterMap_eq_nil_iff]
  intro i hi
  rw [List.eq_of_mem_replicate hi]
  cases hc : (t.added.simpleIdToToken id).or (t.view.toToken id) with
  | none => rfl
  | some s => simp [h s (shows_iff.2 hc)]

theorem decode_beside {t : Tokenizer} {id n : Nat} (h : t.Silent id) {l l' : List Nat} {d : Direction}
    (hb : Beside id n l d l') : t.decode true l' = t.decode true l := by
  have : decodeTokens t.view t.added true l' = decodeTokens t.view t.added true l := by
    cases hb <;> rw [decodeTokens_append, decodeTokens_silent h] <;> simp
  unfold decode AddedVocab.decode
  rw [this]

/-- **C109.** Whatever the length, the side and the text of the padding token: if the padding id is silent, a padded encoding and its
overflowing parts decode to what they decoded to before. -/
theorem C109_pad {t : Tokenizer} {pt : PadTok} (h : t.Silent pt.id) (e : Encoding) (target : Nat) (d : Direction) :
    t.decode true (e.pad target pt d).ids = t.decode true e.ids ∧
    (e.pad target pt d).overflowing.map (fun o => t.decode true o.ids) =
      e.overflowing.map fun o => t.decode true o.ids := by
  refine ⟨decode_beside h (pad_beside e target pt d), ?_⟩
  rw [pad_overflowing, List.map_map]
  exact List.map_congr_left fun o _ => decode_beside h (pad_beside o target pt d)

/-- **C109.** Only such ids are: what an id says that is not silent is decoded, once for each position that was padded. -/
theorem C109_loud {t : Tokenizer} {pt : PadTok} {s : Str} (h : Shows t.view t.added pt.id s) (hs : s ∉ t.added.specials)
    (e : Encoding) (target : Nat) (skip : Bool) :
    decodeTokens t.view t.added skip (e.pad target pt .right).ids =
      decodeTokens t.view t.added skip e.ids ++ List.replicate (target - e.len) s ∧
    decodeTokens t.view t.added skip (e.pad target pt .left).ids =
      List.replicate (target - e.len) s ++ decodeTokens t.view t.added skip e.ids := by
  have key : ∀ n, decodeTokens t.view t.added skip (List.replicate n pt.id) = List.replicate n s := by
    intro n
    induction n with
    | zero => rfl
    | succ n ih =>
      have e1 : decodeTokens t.view t.added skip [pt.id] = [s] := by
        have h1 := shows_iff.1 h
        have h2 : (some s).filter (fun x => !skip || !t.added.specials.contains x) = some s := by
          simp [Option.filter, hs]
        simp only [decodeTokens, List.filterMap_cons, List.filterMap_nil, h1, h2]
      rw [List.replicate_succ, ← List.singleton_append, decodeTokens_append, ih, e1]; rfl
  constructor
  · have := pad_beside e target pt .right
    generalize (e.pad target pt .right).ids = l at this
    cases this
    rw [decodeTokens_append, key]
  · have := pad_beside e target pt .left
    generalize (e.pad target pt .left).ids = l at this
    cases this
    rw [decodeTokens_append, key]

/-- **C109.** A text encoded with padding decodes to what it decodes to without, and one that fails still fails. -/
theorem C109_encode {t : Tokenizer} (h : ∀ p, t.settings.padding = some p → t.Silent p.pt.id)
    (ty : PTS.OffsetType) (input : Input × Option Input) (add : Bool) :
    (t.encodeAs ty input add).map (fun e => t.decode true e.ids) =
      (t.noPadding.encodeAs ty input add).map fun e => t.noPadding.decode true e.ids := by
  rw [encodeAs_padOne]
  cases t.noPadding.encodeAs ty input add with
  | error e => rfl
  | ok e =>
    show Except.ok (t.decode true (t.settings.padOne e).ids) = Except.ok (t.decode true e.ids)
    rw [padOne_eq]
    cases hp : t.settings.padding with
    | none => rfl
    | some p => exact congrArg Except.ok (C109_pad (h p hp) e _ _).1

theorem each_of_maps {α : Type} {D : List Nat → Option Str} {f : α → Str} : ∀ {bs : List Encoding} {as : List α},
    bs.map (fun e => D e.ids) = as.map (fun a => some (f a)) →
    Tok.Each (fun ids s => D ids = some s) (bs.map (·.ids)) (as.map f)
  | [], [], _ => .nil
  | _ :: _, _ :: _, h => by
    rw [List.map_cons, List.map_cons, List.cons.injEq] at h
    exact .cons h.1 (each_of_maps h.2)
  | [], _ :: _, h => (nomatch h)
  | _ :: _, [], h => (nomatch h)

/-- **C109.** A batch that is padded to one length: each encoding decodes to what its text decodes to when it is encoded alone and without
padding. -/
theorem C109_batch {t : Tokenizer} (h : ∀ p, t.settings.padding = some p → t.Silent p.pt.id)
    (ty : PTS.OffsetType) (inputs : List (Input × Option Input)) (add : Bool)
    {order : List Nat} (ho : order.Perm (List.range inputs.length)) {out : List Encoding}
    (hout : t.encodeBatch order ty inputs add = .ok out) :
    ∃ es, Tok.Each (fun i e => t.noPadding.encodeAs ty i add = .ok e) inputs es ∧
      out.map (fun e => t.decode true e.ids) = es.map fun e => t.decode true e.ids := by
  cases hp : t.settings.padding with
  | none =>
    obtain ⟨es, h1, h2, -⟩ := ((C43_batch t ty inputs add ho).1 out).1 hout
    refine ⟨es, h1.imp fun i e hi => ?_, by rw [h2 hp]⟩
    rw [encodeAs_padOne] at hi
    cases hn : t.noPadding.encodeAs ty i add with
    | error e => rw [hn] at hi; cases hi
    | ok e' =>
      rw [hn] at hi
      cases hi
      rw [padOne_eq, hp]
  | some p =>
    obtain ⟨es, h1, h2⟩ := C43_padded_once t ty inputs add ho hp hout
    refine ⟨es, h1, ?_⟩
    rw [h2]
    unfold padEncodings
    split
    · rfl
    · rw [List.map_map]
      exact List.map_congr_left fun e _ => (C109_pad (h p hp) e _ _).1

/-- **C109.** If each text, encoded alone and without padding, decodes to `f` of it, then `encode_batch` with padding followed by
`decode_batch` gives `f` of every text, in order, whatever the schedules of the two. -/
theorem C109_round {t : Tokenizer} (h : ∀ p, t.settings.padding = some p → t.Silent p.pt.id)
    (ty : PTS.OffsetType) (inputs : List (Input × Option Input)) (add : Bool) (f : Input × Option Input → Str)
    (hf : ∀ i ∈ inputs, ∃ e, t.noPadding.encodeAs ty i add = .ok e ∧ t.noPadding.decode true e.ids = some (f i))
    {order order' : List Nat} (ho : order.Perm (List.range inputs.length))
    (ho' : order'.Perm (List.range inputs.length)) :
    ∃ out, t.encodeBatch order ty inputs add = .ok out ∧
      t.decodeBatch order' (out.map (·.ids)) true = .ok (inputs.map f) := by
  have hall : ∀ i ∈ inputs, ∃ e, t.encodeAs ty i add = .ok e := by
    intro i hi
    obtain ⟨e, he, -⟩ := hf i hi
    exact ⟨t.settings.padOne e, by rw [encodeAs_padOne, he]; rfl⟩
  cases hb : t.encodeBatch order ty inputs add with
  | error e =>
    obtain ⟨i, hi, e', he'⟩ := ((C43_batch t ty inputs add ho).2.2).1 ⟨e, hb⟩
    obtain ⟨e, he⟩ := hall i hi
    rw [he] at he'; cases he'
  | ok out =>
    refine ⟨out, rfl, ?_⟩
    obtain ⟨es, h1, h2⟩ := C109_batch h ty inputs add ho hb
    have hlen : out.length = inputs.length := by
      have := congrArg List.length h2
      rw [List.length_map, List.length_map] at this
      rw [this, h1.length]
    have h3 : es.map (fun e => t.decode true e.ids) = inputs.map fun i => some (f i) := by
      have key : ∀ {as bs}, Tok.Each (fun i e => t.noPadding.encodeAs ty i add = .ok e) as bs → (∀ a ∈ as, a ∈ inputs) →
          bs.map (fun e => t.decode true e.ids) = as.map fun i => some (f i) := by
        intro as bs h
        induction h with
        | nil => intro _; rfl
        | @cons a b as bs h _ ih =>
          intro hm
          obtain ⟨e, he, hd⟩ := hf a (hm a List.mem_cons_self)
          rw [he] at h
          cases h
          rw [List.map_cons, List.map_cons, ih fun x hx => hm x (List.mem_cons_of_mem _ hx)]
          exact congrArg (· :: _) hd
      exact key h1 fun a ha => ha
    rw [h3] at h2
    have ho2 : order'.Perm (List.range (out.map (·.ids)).length) := by rw [List.length_map, hlen]; exact ho'
    exact ((C43_decode_batch t (out.map (·.ids)) true ho2).1 _).2 (each_of_maps h2)

/-! ## Texts with the same ids -/

/-- **C44.** Different texts have different ids: `encode` of a byte-level tokenizer is injective. -/
theorem C44_injective {t : Tokenizer} {b : Bpe.Bpe} {re : Str → List Range} {u : Bool} {coins : Str → Nat → Bool}
    (h : IsByteBpe t b re u coins) (hre : ∀ s, NS.EngineMatches s 0 (re s))
    {build : List (Str × Nat) → Bool} (hb : ∀ l, build l = true → ∀ p ∈ l, p.1 ≠ []) {ops : List Op}
    (hav : t.added = after build (bpeView b) empty ops) (hnorm : normsOf ops = [])
    (hstrip : ∀ x ∈ tokensOf ops, x.lstrip = false ∧ x.rstrip = false)
    (hlit : ∀ x ∈ tokensOf ops, Literal x.content)
    (hs : Untouched t.settings) {s s' : Str} {add add' : Bool} {e e' : Encoding}
    (he : t.encode (.raw s, none) add = .ok e) (he' : t.encode (.raw s', none) add' = .ok e')
    (hids : e.ids = e'.ids) : s = s' := by
  obtain ⟨x, h1, h2⟩ := C44_lossless h hre hb hav hnorm hstrip hlit hs s add
  obtain ⟨x', h3, h4⟩ := C44_lossless h hre hb hav hnorm hstrip hlit hs s' add'
  rw [he] at h1; cases h1
  rw [he'] at h3; cases h3
  rw [hids, h4] at h2
  exact (Option.some.inj h2).symm

/-! ## Samples -/

/-- The byte-level tokenizer of `Lossless.lean`, padding with the given parameters. -/
def padSample (p : PadParams) : Tokenizer :=
  { byteSample byteOps with settings := ⟨none, some p, some (.byteLevel false true)⟩ }

/-- The special token `<|end|>`, id 258, pads on the left, up to a multiple of 4. -/
def padEnd : PadParams := ⟨.batchLongest, .left, some 4, ⟨258, 0, "<|end|>".toList⟩⟩

theorem padEnd_silent : (padSample padEnd).Silent 258 := by
  intro s hs
  have := shows_iff.1 hs
  have h2 : ((padSample padEnd).added.simpleIdToToken 258).or ((padSample padEnd).view.toToken 258)
      = some "<|end|>".toList := by decide +kernel
  rw [h2] at this
  cases this
  decide +kernel

/-- Every batch of texts without special tokens in them that survive encoding alone. -/
example : ∃ out, (padSample padEnd).encodeBatch [1, 0] .byte [(.raw "he a".toList, none), (.raw "x é said".toList, none)] true
      = .ok out ∧
    (padSample padEnd).decodeBatch [0, 1] (out.map (·.ids)) true = .ok ["he a".toList, "x é said".toList] := by
  refine C109_round (t := padSample padEnd) (fun p hp => by cases hp; exact padEnd_silent) .byte
    [(.raw "he a".toList, none), (.raw "x é said".toList, none)] true
    (fun i => match i.1 with | .raw s => s | .words _ => []) ?_ (by decide) (by decide)
  intro i hi
  have key : ∀ s : Str, (((padSample padEnd).noPadding.encodeAs .byte (.raw s, none) true).toOption.bind fun e =>
      (padSample padEnd).noPadding.decode true e.ids) = some s →
      ∃ e, (padSample padEnd).noPadding.encodeAs .byte (.raw s, none) true = .ok e ∧
        (padSample padEnd).noPadding.decode true e.ids = some s := by
    intro s h
    cases hx : (padSample padEnd).noPadding.encodeAs .byte (.raw s, none) true with
    | error e => rw [hx] at h; cases h
    | ok e => rw [hx] at h; exact ⟨e, rfl, h⟩
  rcases List.mem_cons.1 hi with rfl | hi
  · exact key _ (by decide +kernel)
  · rcases List.mem_cons.1 hi with rfl | hi
    · exact key _ (by decide +kernel)
    · cases hi

example : ((padSample padEnd).encodeBatch [1, 0] .byte [(.raw "he a".toList, none), (.raw "x é said".toList, none)]
    true).toOption.map (·.map (·.ids)) =
    some [[258, 258, 258, 258, 258, 258, 257, 256], [258, 258, 120, 32, 195, 169, 32, 259]] := by decide +kernel

/-- **C109, the finding.** With the default padding parameters (id 0, `[PAD]`), and a tokenizer whose id 0 is not a special token, the
padding is decoded: `encode_batch` then `decode_batch`, skipping special tokens, gives back the shorter text with more behind it. -/
theorem C109_default_loud : ∃ t : Tokenizer, t.settings.padding = some Py.padDefault ∧
    (t.encodeBatch [0, 1] .byte [(.raw "a".toList, none), (.raw "abc".toList, none)] true).toOption.map (·.map (·.ids)) =
      some [[97, 0, 0], [97, 98, 99]] ∧
    (t.encodeBatch [0, 1] .byte [(.raw "a".toList, none), (.raw "abc".toList, none)] true).toOption.map (·.map (·.tokens)) =
      some [["a".toList, "[PAD]".toList, "[PAD]".toList], ["a".toList, "b".toList, "c".toList]] ∧
    t.decode true [97, 0, 0] = some ['a', Char.ofNat 0, Char.ofNat 0] := by
  refine ⟨padSample Py.padDefault, rfl, ?_, ?_, ?_⟩ <;> decide +kernel

/-- What `C109_loud` says of it: the text of the padding token plays no part. -/
example : decodeTokens (padSample Py.padDefault).view (padSample Py.padDefault).added true
    (Encoding.empty.pad 2 ⟨97, 0, "[PAD]".toList⟩ .right).ids = [['a'], ['a']] := by
  have := (C109_loud (t := padSample Py.padDefault) (pt := ⟨97, 0, "[PAD]".toList⟩) (s := ['a'])
    (shows_iff.2 (by decide +kernel)) (by decide +kernel) Encoding.empty 2 true).1
  exact this

end Tokenizer
end Tok
