import Verif.Tokenizer.Vocab

/-!
# C43: batches
-/

namespace Tok

/-! ## Padding twice -/

namespace Encoding

theorem pad_len' (e : Encoding) (n : Nat) (pt : PadTok) (d : Direction) : (e.pad n pt d).len = max e.len n := by
  rw [pad_eq]
  split
  · rename_i h; cases e; simp only [setOverflowing, len, ids] at *; omega
  · rename_i h
    cases d <;> (simp only [len, ids, List.length_append, List.length_replicate] at *; omega)

theorem replicate_split {α : Type} {a b l : Nat} (x : α) (h1 : l < a) (h2 : a < b) :
    List.replicate (b - a) x ++ List.replicate (a - l) x = List.replicate (b - l) x := by
  rw [List.replicate_append_replicate]; congr 1; omega

/-- Padding to a length and then to a greater one is padding to the greater one. -/
theorem pad_pad {a b : Nat} (hab : a ≤ b) (pt : PadTok) (d : Direction) : ∀ (n : Nat) (e : Encoding), sizeOf e ≤ n →
    (e.pad a pt d).pad b pt d = e.pad b pt d
  | 0, e, h => by cases e; simp only [mk.sizeOf_spec] at h; omega
  | n + 1, e, h => by
    have ov : (e.overflowing.map fun o => pad o a pt d).map (fun o => pad o b pt d)
        = e.overflowing.map fun o => pad o b pt d := by
      rw [List.map_map]
      refine List.map_congr_left fun o ho => pad_pad hab pt d n o ?_
      have := sizeOf_mem_overflowing ho; omega
    cases e with
    | mk i t k w o s m ovs sr =>
      simp only [overflowing] at ov
      have hlen : ∀ (t : List Nat) (k : List Str) (w : List (Option Nat)) (o : List Range) (s m : List Nat)
          (ovs : List Encoding) (sr : AMap Nat Range) (i : List Nat), (mk i t k w o s m ovs sr).len = i.length :=
        fun _ _ _ _ _ _ _ _ _ => rfl
      rw [pad_eq (mk i t k w o s m ovs sr) a, pad_eq (mk i t k w o s m ovs sr) b]
      simp only [hlen, overflowing, setOverflowing, ids, typeIds, tokens, words, offsets, specialMask, attnMask,
        seqRanges]
      by_cases h1 : i.length ≥ a
      · rw [if_pos h1, pad_eq]
        simp only [hlen, overflowing, setOverflowing, ids, typeIds, tokens, words, offsets, specialMask, attnMask,
          seqRanges, ov]
      · have hb : ¬ i.length ≥ b := by omega
        rw [if_neg h1, if_neg hb]
        by_cases h2 : a = b
        · subst h2
          cases d with
          | left =>
            simp only
            rw [pad_eq, if_pos (by rw [hlen, List.length_append, List.length_replicate]; omega)]
            simp only [setOverflowing, overflowing, ov]
          | right =>
            simp only
            rw [pad_eq, if_pos (by rw [hlen, List.length_append, List.length_replicate]; omega)]
            simp only [setOverflowing, overflowing, ov]
        · have hlt : i.length < a := by omega
          have hab' : a < b := by omega
          cases d with
          | left =>
            simp only
            rw [pad_eq, if_neg (by rw [hlen, List.length_append, List.length_replicate]; omega)]
            simp only [hlen, overflowing, ids, typeIds, tokens, words, offsets, specialMask, attnMask,
              seqRanges, ov, List.length_append, List.length_replicate]
            rw [show b - (a - i.length + i.length) = b - a by omega]
            simp only [← List.append_assoc, replicate_split _ hlt hab', List.map_map]
            congr 1
            refine List.map_congr_left fun x _ => ?_
            simp only [Function.comp_apply]
            rw [show x.2.1 + (a - i.length) + (b - a) = x.2.1 + (b - i.length) by omega,
              show x.2.2 + (a - i.length) + (b - a) = x.2.2 + (b - i.length) by omega]
          | right =>
            have rs : ∀ {α : Type} (x : α), List.replicate (a - i.length) x ++ List.replicate (b - a) x
                = List.replicate (b - i.length) x := by
              intro α x
              rw [List.replicate_append_replicate]; congr 1; omega
            simp only
            rw [pad_eq, if_neg (by rw [hlen, List.length_append, List.length_replicate]; omega)]
            simp only [hlen, overflowing, ids, typeIds, tokens, words, offsets, specialMask, attnMask,
              seqRanges, ov, List.length_append, List.length_replicate]
            rw [show b - (i.length + (a - i.length)) = b - a by omega]
            simp only [List.append_assoc, rs]

end Encoding

/-- The rounding at the end of `padTarget`. -/
theorem padTarget_round (p : PadParams) : ∃ f : Nat → Nat, (∀ n, n ≤ f n) ∧ (∀ n, f (f n) = f n) ∧
    (∀ a b, a ≤ b → f a ≤ f b) ∧ ∀ es : List Encoding, padTarget es p = f (match p.strategy with
      | .fixed size => size
      | .batchLongest => (es.map Encoding.len).foldl max 0) := by
  refine ⟨fun n => match p.multipleOf with
    | some m => if m > 0 ∧ n % m > 0 then n + (m - n % m) else n
    | none => n, ?_, ?_, ?_, fun es => rfl⟩
  · intro n
    cases p.multipleOf with
    | none => exact Nat.le_refl _
    | some m => simp only; split <;> omega
  · intro n
    cases p.multipleOf with
    | none => rfl
    | some m =>
      simp only
      by_cases h : m > 0 ∧ n % m > 0
      · rw [if_pos h, if_neg]
        have hlt := Nat.mod_lt n h.1
        have : (n + (m - n % m)) % m = 0 := by
          have h1 : n + (m - n % m) = m * (n / m + 1) := by
            have := Nat.div_add_mod n m
            rw [Nat.mul_add, Nat.mul_one]; omega
          rw [h1, Nat.mul_mod_right]
        omega
      · rw [if_neg h, if_neg h]
  · intro a b hab
    cases p.multipleOf with
    | none => exact hab
    | some m =>
      simp only
      by_cases hm : 0 < m
      · have da := Nat.div_add_mod a m
        have db := Nat.div_add_mod b m
        have la := Nat.mod_lt a hm
        have lb := Nat.mod_lt b hm
        have hd : a / m ≤ b / m := Nat.div_le_div_right hab
        rcases Nat.lt_or_eq_of_le hd with hd | hd
        · have : m * (a / m + 1) ≤ m * (b / m) := Nat.mul_le_mul_left _ hd
          rw [Nat.mul_add, Nat.mul_one] at this
          split <;> split <;> omega
        · rw [hd] at da
          split <;> split <;> omega
      · rw [if_neg (by omega), if_neg (by omega)]; exact hab

theorem foldl_max_mono {f : Nat → Nat} (hf : ∀ a b, a ≤ b → f a ≤ f b) : ∀ (l : List Nat) (a : Nat),
    (l.map f).foldl max (f a) = f (l.foldl max a)
  | [], _ => rfl
  | x :: l, a => by
    rw [List.map_cons, List.foldl_cons, List.foldl_cons]
    have : max (f a) (f x) = f (max a x) := by
      rcases Nat.le_total a x with h | h
      · rw [Nat.max_eq_right h, Nat.max_eq_right (hf _ _ h)]
      · rw [Nat.max_eq_left h, Nat.max_eq_left (hf _ _ h)]
    rw [this]; exact foldl_max_mono hf l _

theorem foldl_max_zero {f : Nat → Nat} (hf : ∀ a b, a ≤ b → f a ≤ f b) {l : List Nat} (h : l ≠ []) :
    (l.map f).foldl max 0 = f (l.foldl max 0) := by
  cases l with
  | nil => exact absurd rfl h
  | cons x l =>
    rw [List.map_cons, List.foldl_cons, List.foldl_cons, Nat.max_eq_right (Nat.zero_le _),
      Nat.max_eq_right (Nat.zero_le _)]
    exact foldl_max_mono hf l x

/-- Padding each encoding for itself and then all together is padding all together. -/
theorem padEncodings_once (es : List Encoding) (p : PadParams) :
    padEncodings (es.map fun e => e.pad (padTarget [e] p) p.pt p.direction) p = padEncodings es p := by
  obtain ⟨f, h1, h2, h3, h4⟩ := padTarget_round p
  unfold padEncodings
  by_cases he : es = []
  · subst he; rfl
  · have hne : ¬ es.isEmpty = true := by simpa using he
    rw [if_neg (by simpa using he), if_neg hne, List.map_map]
    have hone : ∀ e ∈ es, padTarget [e] p ≤ padTarget es p := by
      intro e hm
      rw [h4, h4]
      apply h3
      cases p.strategy with
      | fixed n => exact Nat.le_refl _
      | batchLongest =>
        simp only [List.map_cons, List.map_nil, List.foldl_cons, List.foldl_nil, Nat.zero_max]
        exact (le_foldl_max _ 0).2 _ (List.mem_map.2 ⟨e, hm, rfl⟩)
    have htgt : padTarget (es.map fun e => e.pad (padTarget [e] p) p.pt p.direction) p = padTarget es p := by
      rw [h4, h4]
      cases hst : p.strategy with
      | fixed n => rfl
      | batchLongest =>
        simp only
        have hl : (es.map fun e => e.pad (padTarget [e] p) p.pt p.direction).map Encoding.len
            = (es.map Encoding.len).map f := by
          rw [List.map_map, List.map_map]
          refine List.map_congr_left fun e _ => ?_
          simp only [Function.comp_apply]
          rw [Encoding.pad_len', h4, hst]
          simp only [List.map_cons, List.map_nil, List.foldl_cons, List.foldl_nil, Nat.zero_max]
          have := h1 e.len; omega
        rw [hl, foldl_max_zero h3 (by simpa using he), h2]
    rw [htgt]
    exact List.map_congr_left fun e hm => Encoding.pad_pad (hone e hm) _ _ _ e (Nat.le_refl _)

/-! ## Collecting results in parallel -/

namespace Tokenizer

theorem parStep_some {α β ε : Type} (f : α → Except ε β) (xs : List α) (e : ε) : ∀ order : List Nat,
    order.foldl (parStep f xs) (some e) = some e
  | [] => rfl
  | _ :: order => parStep_some f xs e order

/-- The recorded error is that of one of the tasks. -/
theorem parFold_error {α β ε : Type} (f : α → Except ε β) (xs : List α) : ∀ (order : List Nat) {e : ε},
    order.foldl (parStep f xs) none = some e → ∃ x ∈ xs, f x = .error e
  | [], e, h => by cases h
  | i :: order, e, h => by
    rw [List.foldl_cons] at h
    cases hi : xs[i]? with
    | none => rw [show parStep f xs none i = none by simp [parStep, hi]] at h; exact parFold_error f xs order h
    | some x =>
      cases hx : f x with
      | ok y => rw [show parStep f xs none i = none by simp [parStep, hi, hx]] at h; exact parFold_error f xs order h
      | error e' =>
        rw [show parStep f xs none i = some e' by simp [parStep, hi, hx], parStep_some] at h
        cases h
        exact ⟨x, List.mem_of_getElem? hi, hx⟩

/-- No error is recorded exactly if all tasks succeed. -/
theorem parFold_none {α β ε : Type} (f : α → Except ε β) (xs : List α) : ∀ (order : List Nat),
    order.foldl (parStep f xs) none = none ↔ ∀ i ∈ order, ∀ x, xs[i]? = some x → ∃ y, f x = .ok y
  | [] => by simp
  | i :: order => by
    rw [List.foldl_cons]
    have ih := parFold_none f xs order
    cases hi : xs[i]? with
    | none =>
      rw [show parStep f xs none i = none by simp [parStep, hi], ih]
      constructor
      · rintro h j hj x hx
        rcases List.mem_cons.1 hj with rfl | hj
        · rw [hi] at hx; cases hx
        · exact h j hj x hx
      · exact fun h j hj => h j (List.mem_cons_of_mem _ hj)
    | some x =>
      cases hx : f x with
      | ok y =>
        rw [show parStep f xs none i = none by simp [parStep, hi, hx], ih]
        constructor
        · rintro h j hj x' hx'
          rcases List.mem_cons.1 hj with rfl | hj
          · rw [hi] at hx'; cases hx'; exact ⟨y, hx⟩
          · exact h j hj x' hx'
        · exact fun h j hj => h j (List.mem_cons_of_mem _ hj)
      | error e =>
        rw [show parStep f xs none i = some e by simp [parStep, hi, hx], parStep_some]
        constructor
        · intro h; cases h
        · intro h
          obtain ⟨y, hy⟩ := h i List.mem_cons_self x hi
          rw [hx] at hy; cases hy

/-- Whatever the schedule, collecting succeeds exactly if all tasks do, with their results in order; otherwise the
error is that of one of them. -/
theorem parCollect_spec {α β ε : Type} {order : List Nat} {xs : List α} (ho : order.Perm (List.range xs.length))
    (f : α → Except ε β) : (∀ ys, parCollect order f xs = .ok ys ↔ Each (fun x y => f x = .ok y) xs ys) ∧
    (∀ e, parCollect order f xs = .error e → ∃ x ∈ xs, f x = .error e) ∧
    ((∃ e, parCollect order f xs = .error e) ↔ ∃ x ∈ xs, ∃ e, f x = .error e) := by
  have hall : order.foldl (parStep f xs) none = none ↔ ∀ x ∈ xs, ∃ y, f x = .ok y := by
    rw [parFold_none]
    constructor
    · intro h x hx
      obtain ⟨i, hi, rfl⟩ := List.getElem_of_mem hx
      exact h i (ho.mem_iff.2 (List.mem_range.2 hi)) _ (List.getElem?_eq_getElem hi)
    · intro h i _ x hx
      exact h x (List.mem_of_getElem? hx)
  have hres : ∀ l : List α, (∀ x ∈ l, ∃ y, f x = .ok y) →
      Each (fun x y => f x = .ok y) l (l.filterMap fun x => (f x).toOption) := by
    intro l
    induction l with
    | nil => intro _; exact .nil
    | cons x l ih =>
      intro h
      obtain ⟨y, hy⟩ := h x List.mem_cons_self
      rw [List.filterMap_cons_some (b := y) (by rw [hy]; rfl)]
      exact .cons hy (ih fun z hz => h z (List.mem_cons_of_mem _ hz))
  have huniq : ∀ {l : List α} {a b : List β}, Each (fun x y => f x = .ok y) l a → Each (fun x y => f x = .ok y) l b →
      a = b := by
    intro l a b ha
    induction ha generalizing b with
    | nil => intro hb; cases hb; rfl
    | cons h _ ih =>
      intro hb
      cases hb with
      | cons h' ht' =>
        rw [h] at h'; cases h'
        rw [ih ht']
  have hmem : ∀ {l : List α} {a : List β}, Each (fun x y => f x = .ok y) l a → ∀ x ∈ l, ∃ y, f x = .ok y := by
    intro l a ha
    induction ha with
    | nil => intro x hx; cases hx
    | cons h _ ih =>
      intro x hx
      rcases List.mem_cons.1 hx with rfl | hx
      · exact ⟨_, h⟩
      · exact ih x hx
  unfold parCollect
  cases hf : order.foldl (parStep f xs) none with
  | none =>
    have hok := hall.1 hf
    refine ⟨fun ys => ⟨fun h => ?_, fun h => ?_⟩, fun e h => (by cases h), ⟨fun ⟨e, h⟩ => (by cases h), ?_⟩⟩
    · cases h; exact hres xs hok
    · rw [huniq (hres xs hok) h]
    · rintro ⟨x, hx, e, he⟩
      obtain ⟨y, hy⟩ := hok x hx
      rw [he] at hy; cases hy
  | some e =>
    obtain ⟨x, hx, hxe⟩ := parFold_error f xs order hf
    refine ⟨fun ys => ⟨fun h => (by cases h), fun h => ?_⟩, fun e' h => ?_, ⟨fun _ => ⟨x, hx, e, hxe⟩, fun _ => ⟨e, rfl⟩⟩⟩
    · obtain ⟨y, hy⟩ := hmem h x hx
      rw [hxe] at hy; cases hy
    · cases h; exact ⟨x, hx, hxe⟩

/-! ## C43 -/

/-- The tokenizer without padding. -/
def noPadding (t : Tokenizer) : Tokenizer := { t with settings := { t.settings with padding := none } }

theorem padOne_eq (s : Post.Settings) (e : Encoding) : s.padOne e = match s.padding with
    | none => e
    | some p => e.pad (padTarget [e] p) p.pt p.direction := by
  unfold Post.Settings.padOne
  cases s.padding <;> rfl

/-- Encoding is encoding without padding, then padding. -/
theorem encodeAs_padOne (t : Tokenizer) (ty : PTS.OffsetType) (input : Input × Option Input) (add : Bool) :
    t.encodeAs ty input add = (t.noPadding.encodeAs ty input add).map t.settings.padOne := by
  have hs : ∀ typeId i, t.noPadding.encodeSequence typeId ty i = t.encodeSequence typeId ty i := fun _ _ => rfl
  have hp : ∀ e pair, t.settings.postProcess t.ws t.checked e pair add
      = (t.noPadding.settings.postProcess t.ws t.checked e pair add).map t.settings.padOne := by
    intro e pair
    unfold Post.Settings.postProcess
    rw [show t.noPadding.settings.truncate t.checked e pair add = t.settings.truncate t.checked e pair add from rfl]
    cases t.settings.truncate t.checked e pair add with
    | error er => rfl
    | ok x =>
      simp only
      rw [show t.noPadding.settings.finish t.ws x.1 x.2 add = t.settings.finish t.ws x.1 x.2 add from rfl]
      cases t.settings.finish t.ws x.1 x.2 add <;> rfl
  unfold encodeAs encodeBy
  simp only [hs, hp]
  rw [show t.noPadding.ws = t.ws from rfl, show t.noPadding.checked = t.checked from rfl]
  cases t.encodeSequence 0 ty input.1 with
  | error er => rfl
  | ok e =>
    simp only [Except.bind]
    cases optional (t.encodeSequence 1 ty) input.2 with
    | error er => rfl
    | ok pair =>
      simp only
      cases t.noPadding.settings.postProcess t.ws t.checked e pair add <;> rfl

/-- **C43.** For every schedule: a batch is encoded exactly if every input can be encoded by itself; the result is
then, in the order of the inputs, what `encode` returns for each, padded together if padding is on. Otherwise the
error is that of one of the inputs. -/
theorem C43_batch (t : Tokenizer) (ty : PTS.OffsetType) (inputs : List (Input × Option Input)) (add : Bool)
    {order : List Nat} (ho : order.Perm (List.range inputs.length)) :
    (∀ out, t.encodeBatch order ty inputs add = .ok out ↔
      ∃ es, Each (fun i e => t.encodeAs ty i add = .ok e) inputs es ∧
        (t.settings.padding = none → out = es) ∧ (∀ p, t.settings.padding = some p → out = padEncodings es p)) ∧
    (∀ e, t.encodeBatch order ty inputs add = .error e → ∃ i ∈ inputs, t.encodeAs ty i add = .error e) ∧
    ((∃ e, t.encodeBatch order ty inputs add = .error e) ↔ ∃ i ∈ inputs, ∃ e, t.encodeAs ty i add = .error e) := by
  obtain ⟨h1, h2, h3⟩ := parCollect_spec ho fun i => t.encodeAs ty i add
  have herr : ∀ e, t.encodeBatch order ty inputs add = .error e ↔
      parCollect order (fun i => t.encodeAs ty i add) inputs = .error e := by
    intro e
    unfold encodeBatch
    cases parCollect order (fun i => t.encodeAs ty i add) inputs with
    | ok es => simp [Except.map]
    | error e' => simp [Except.map]
  refine ⟨fun out => ?_, fun e h => h2 e ((herr e).1 h), by simp only [herr]; exact h3⟩
  unfold encodeBatch
  constructor
  · intro h
    cases hc : parCollect order (fun i => t.encodeAs ty i add) inputs with
    | error e => rw [hc] at h; cases h
    | ok es =>
      rw [hc] at h
      simp only [Except.map, Except.ok.injEq] at h
      refine ⟨es, (h1 es).1 hc, fun hp => ?_, fun p hp => ?_⟩
      · rw [hp] at h; exact h.symm
      · rw [hp] at h; exact h.symm
  · rintro ⟨es, hes, hn, hp⟩
    rw [(h1 es).2 hes]
    simp only [Except.map, Except.ok.injEq]
    cases hq : t.settings.padding with
    | none => exact (hn hq).symm
    | some p => exact (hp p hq).symm

/-- **C43.** The result does not depend on the schedule. -/
theorem C43_schedule (t : Tokenizer) (ty : PTS.OffsetType) (inputs : List (Input × Option Input)) (add : Bool)
    {order order' : List Nat} (ho : order.Perm (List.range inputs.length))
    (ho' : order'.Perm (List.range inputs.length)) (out : List Encoding) :
    t.encodeBatch order ty inputs add = .ok out ↔ t.encodeBatch order' ty inputs add = .ok out := by
  rw [(C43_batch t ty inputs add ho).1, (C43_batch t ty inputs add ho').1]

/-- **C43.** Although each encoding was padded by itself before, the batch is that of the unpadded encodings padded
together, once. -/
theorem C43_padded_once (t : Tokenizer) (ty : PTS.OffsetType) (inputs : List (Input × Option Input)) (add : Bool)
    {order : List Nat} (ho : order.Perm (List.range inputs.length)) {p : PadParams}
    (hp : t.settings.padding = some p) {out : List Encoding} (h : t.encodeBatch order ty inputs add = .ok out) :
    ∃ es, Each (fun i e => t.noPadding.encodeAs ty i add = .ok e) inputs es ∧ out = padEncodings es p := by
  obtain ⟨es, h1, _, h2⟩ := ((C43_batch t ty inputs add ho).1 out).1 h
  have key : ∀ {l : List (Input × Option Input)} {es : List Encoding},
      Each (fun i e => t.encodeAs ty i add = .ok e) l es →
      ∃ us, Each (fun i e => t.noPadding.encodeAs ty i add = .ok e) l us ∧ es = us.map t.settings.padOne := by
    intro l es h
    induction h with
    | nil => exact ⟨[], .nil, rfl⟩
    | @cons i e is es' h _ ih =>
      obtain ⟨us, g1, rfl⟩ := ih
      rw [encodeAs_padOne] at h
      cases hu : t.noPadding.encodeAs ty i add with
      | error er => rw [hu] at h; cases h
      | ok u =>
        rw [hu] at h
        cases h
        exact ⟨u :: us, .cons hu g1, rfl⟩
  obtain ⟨us, g1, g2⟩ := key h1
  refine ⟨us, g1, ?_⟩
  rw [h2 p hp, g2]
  have : us.map t.settings.padOne = us.map fun e => e.pad (padTarget [e] p) p.pt p.direction := by
    refine List.map_congr_left fun e _ => ?_
    rw [padOne_eq, hp]
  rw [this, padEncodings_once]

/-- **C43.** The same for `decode_batch`. -/
theorem C43_decode_batch (t : Tokenizer) (sentences : List (List Nat)) (skip : Bool) {order : List Nat}
    (ho : order.Perm (List.range sentences.length)) :
    (∀ out, t.decodeBatch order sentences skip = .ok out ↔
      Each (fun ids s => t.decode skip ids = some s) sentences out) ∧
    (t.decodeBatch order sentences skip = .error () ↔ ∃ ids ∈ sentences, t.decode skip ids = none) := by
  obtain ⟨h1, _, h3⟩ := parCollect_spec ho fun ids => orFail (t.decode skip ids)
  have hok : ∀ ids s, orFail (t.decode skip ids) = .ok s ↔ t.decode skip ids = some s := by
    intro ids s; cases t.decode skip ids <;> simp [orFail]
  have her : ∀ ids e, orFail (t.decode skip ids) = .error e ↔ t.decode skip ids = none := by
    intro ids e; cases t.decode skip ids <;> simp [orFail]
  constructor
  · intro out
    show parCollect order (fun ids => orFail (t.decode skip ids)) sentences = .ok out ↔ _
    rw [h1 out]
    simp only [hok]
  · show parCollect order (fun ids => orFail (t.decode skip ids)) sentences = .error () ↔ _
    constructor
    · intro h
      obtain ⟨ids, hi, e, he⟩ := h3.1 ⟨(), h⟩
      exact ⟨ids, hi, (her ids e).1 he⟩
    · rintro ⟨ids, hi, he⟩
      obtain ⟨e, h⟩ := h3.2 ⟨ids, hi, (), (her ids ()).2 he⟩
      exact h

/-! Examples are in `Tokenizer/Samples.lean`. -/

end Tokenizer
end Tok
