import Verif.BaseLemmas

/-!
# C45: `utils/cache.rs`, the shared bounded cache

`Cache<K, V>` is a map behind an `RwLock` that is only ever *tried*. A call of `set_values` is two
atomic steps of a thread: the capacity check under the read lock, then the write under the write lock,
with anything by other threads in between. `resize` takes `&mut self`, so no call is in flight then.
-/

namespace Tok.SharedCache
variable {K V : Type} [DecidableEq K]

/-- `Cache` (`utils/cache.rs:17-24`) and, as a ghost, the number of `set_values` calls in flight (past
the check, before the write). -/
structure Cache (K V : Type) where
  map : AMap K V
  capacity : Nat
  inFlight : Nat

/-- `Cache::new` (`cache.rs:53-56`) and `fresh` (`59-61`). -/
def Cache.new (capacity : Nat) : Cache K V := ⟨[], capacity, 0⟩

/-- `get` (`cache.rs:82-92`); `lockOk` is the outcome of `try_read`. -/
def Cache.get (c : Cache K V) (k : K) (lockOk : Bool) : Option V :=
  if lockOk then c.map.get k else none

/-- `get_values` (`cache.rs:69-80`). -/
def Cache.getValues (c : Cache K V) (ks : List K) (lockOk : Bool) : Option (List (Option V)) :=
  if lockOk then some (ks.map c.map.get) else none

/-- One atomic step of some thread. -/
inductive Op (K V : Type) where
  /-- the check of `set_values` (`cache.rs:98-109`) with the outcome of `try_read` -/
  | check (lockOk : Bool)
  /-- the write of `set_values` (`cache.rs:112-115`) with the outcome of `try_write` -/
  | write (entries : List (K × V)) (lockOk : Bool)
  /-- `clear` (`cache.rs:64-66`) -/
  | clear
  /-- `resize` (`cache.rs:122-127`); `shrink_to` never removes entries -/
  | resize (capacity : Nat)

/-- The step; `none` is not enabled (no call in flight, or `resize` with calls in flight). The inner
`none` is the panic of `self.capacity - cache.len()`. -/
def Cache.step (c : Cache K V) : Op K V → Option (Option (Cache K V))
  | .check lockOk =>
    if lockOk ∧ ¬ c.map.length ≥ c.capacity then some (some { c with inFlight := c.inFlight + 1 })
    else some (some c)
  | .write entries lockOk =>
    if c.inFlight = 0 then none
    else if lockOk then
      if c.map.length > c.capacity then some none
      else some (some { c with map := c.map.extend (entries.take (c.capacity - c.map.length))
                               inFlight := c.inFlight - 1 })
    else some (some { c with inFlight := c.inFlight - 1 })
  | .clear => some (some { c with map := [] })
  | .resize capacity => if c.inFlight = 0 then some (some { c with capacity := capacity }) else none

/-- Histories from a fresh cache of capacity `cap0`, most recent operation first, and the cache they lead to. -/
inductive History (cap0 : Nat) : List (Op K V) → Cache K V → Prop
  | new : History cap0 [] (.new cap0)
  | step {h c c' op} : History cap0 h c → c.step op = some (some c') → History cap0 (op :: h) c'

/-- The value was handed over for the key in a successful write after the last `clear`. -/
def StoredSinceClear : List (Op K V) → K → V → Prop
  | [], _, _ => False
  | .clear :: _, _, _ => False
  | .write entries lockOk :: h, k, v => (lockOk = true ∧ (k, v) ∈ entries) ∨ StoredSinceClear h k v
  | _ :: h, k, v => StoredSinceClear h k v

theorem length_insert_le (m : AMap K V) (k : K) (v : V) : (m.insert k v).length ≤ m.length + 1 := by
  unfold AMap.insert
  have := List.length_filter_le (fun p : K × V => !decide (p.1 = k)) m
  simp; simpa using this

theorem length_extend_le (l : List (K × V)) : ∀ m : AMap K V, (m.extend l).length ≤ m.length + l.length := by
  induction l with
  | nil => intro m; simp [AMap.extend]
  | cons x xs ih =>
    intro m
    have := ih (m.insert x.1 x.2)
    have h2 := length_insert_le m x.1 x.2
    have h3 : (m.extend (x :: xs)) = (m.insert x.1 x.2).extend xs := rfl
    rw [h3, List.length_cons]; omega

/-- **C45.** No sequence of operations with any lock outcomes makes `set_values` panic. -/
theorem C45_never_panics {cap0 : Nat} {h : List (Op K V)} {c : Cache K V} (hh : History cap0 h c) (op : Op K V) :
    c.step op ≠ some none := by
  have inv : 0 < c.inFlight → c.map.length ≤ c.capacity := by
    clear op
    induction hh with
    | new => intro h; simp [Cache.new] at h
    | step hh hs ih =>
      rename_i h c c' op
      cases op with
      | check lockOk =>
        simp only [Cache.step] at hs
        split at hs
        · rename_i hl
          injection hs with hs; injection hs with hs; subst hs
          intro _; simp only; omega
        · injection hs with hs; injection hs with hs; subst hs; exact ih
      | write entries lockOk =>
        simp only [Cache.step] at hs
        split at hs
        · cases hs
        · split at hs
          · split at hs
            · cases hs
            · injection hs with hs; injection hs with hs; subst hs
              intro _
              have := length_extend_le (entries.take (c.capacity - c.map.length)) c.map
              simp only [List.length_take] at this ⊢
              omega
          · injection hs with hs; injection hs with hs; subst hs
            intro _; exact ih (by omega)
      | clear =>
        simp only [Cache.step] at hs
        injection hs with hs; injection hs with hs; subst hs
        intro _; simp
      | resize cap =>
        simp only [Cache.step] at hs
        split at hs
        · injection hs with hs; injection hs with hs; subst hs
          intro h; simp only at h; omega
        · cases hs
  cases op with
  | check lockOk => simp only [Cache.step]; split <;> simp
  | write entries lockOk =>
    simp only [Cache.step]
    split
    · simp
    · split
      · split
        · have := inv (by omega); omega
        · simp
      · simp
  | clear => simp [Cache.step]
  | resize cap => simp only [Cache.step]; split <;> simp

/-- **C45.** `get` only returns a value that was stored for that key since the last `clear`; a failed
lock only yields `none`. -/
theorem C45_get_faithful {cap0 : Nat} {h : List (Op K V)} {c : Cache K V} (hh : History cap0 h c) {k : K} {v : V}
    {lockOk : Bool} (hg : c.get k lockOk = some v) : StoredSinceClear h k v := by
  have hm : (k, v) ∈ c.map := by
    unfold Cache.get at hg
    split at hg
    · exact AMap.mem_of_get_eq_some hg
    · cases hg
  clear hg
  induction hh with
  | new => cases hm
  | step hh hs ih =>
    rename_i h c c' op
    cases op with
    | check lockOk =>
      simp only [Cache.step] at hs
      split at hs
      · injection hs with hs; injection hs with hs; subst hs; exact ih hm
      · injection hs with hs; injection hs with hs; subst hs; exact ih hm
    | write entries lockOk =>
      simp only [Cache.step] at hs
      split at hs
      · cases hs
      · split at hs
        · split at hs
          · cases hs
          · injection hs with hs; injection hs with hs; subst hs
            rcases AMap.mem_extend hm with h1 | h1
            · exact .inr (ih h1)
            · exact .inl ⟨by assumption, List.mem_of_mem_take h1⟩
        · injection hs with hs; injection hs with hs; subst hs
          exact .inr (ih hm)
    | clear =>
      simp only [Cache.step] at hs
      injection hs with hs; injection hs with hs; subst hs; cases hm
    | resize cap =>
      simp only [Cache.step] at hs
      split at hs
      · injection hs with hs; injection hs with hs; subst hs; exact ih hm
      · cases hs

/-- **C45.** `get_values` answers every key as `get` does, so only with stored values. -/
theorem C45_get_values {cap0 : Nat} {h : List (Op K V)} {c : Cache K V} (hh : History cap0 h c)
    {ks : List K} {lockOk : Bool} {r : List (Option V)} (hg : c.getValues ks lockOk = some r) :
    r.length = ks.length ∧ ∀ (i : Nat) (k : K) (v : V), ks[i]? = some k → r[i]? = some (some v) →
      StoredSinceClear h k v := by
  unfold Cache.getValues at hg
  split at hg
  · injection hg with hg; subst hg
    refine ⟨by simp, fun i k v hk hv => ?_⟩
    rw [List.getElem?_map, hk] at hv
    exact C45_get_faithful hh (lockOk := true) (k := k) (v := v) (by simpa [Cache.get] using hv)
  · cases hg

/-- The largest capacity the cache was ever given: at creation or by `resize`. -/
def largestCap (cap0 : Nat) : List (Op K V) → Nat
  | [] => cap0
  | .resize cap :: h => max cap (largestCap cap0 h)
  | _ :: h => largestCap cap0 h

/-- **C45 (partial).** The cache never holds more entries than the largest capacity it was given. The
full claim (never more than the *current* capacity) fails after shrinking, see
`C45_resize_keeps_entries`. -/
theorem C45_bounded_partial {cap0 : Nat} {h : List (Op K V)} {c : Cache K V} (hh : History cap0 h c) :
    c.map.length ≤ largestCap cap0 h := by
  have key : c.map.length ≤ largestCap cap0 h ∧ c.capacity ≤ largestCap cap0 h := by
    induction hh with
    | new => simp [Cache.new, largestCap]
    | step hh hs ih =>
      rename_i h c c' op
      cases op with
      | check lockOk =>
        simp only [Cache.step] at hs
        split at hs
        · injection hs with hs; injection hs with hs; subst hs; exact ih
        · injection hs with hs; injection hs with hs; subst hs; exact ih
      | write entries lockOk =>
        simp only [Cache.step] at hs
        split at hs
        · cases hs
        · split at hs
          · split at hs
            · cases hs
            · injection hs with hs; injection hs with hs; subst hs
              have := length_extend_le (entries.take (c.capacity - c.map.length)) c.map
              simp only [List.length_take, largestCap] at this ⊢
              omega
          · injection hs with hs; injection hs with hs; subst hs; exact ih
      | clear =>
        simp only [Cache.step] at hs
        injection hs with hs; injection hs with hs; subst hs
        exact ⟨Nat.zero_le _, ih.2⟩
      | resize cap =>
        simp only [Cache.step] at hs
        split at hs
        · injection hs with hs; injection hs with hs; subst hs
          simp only [largestCap]; omega
        · cases hs
  exact key.1

/-- No `resize` in the history. -/
def NoResize (h : List (Op K V)) : Prop := ∀ op ∈ h, ∀ cap, op ≠ .resize cap

/-- **C45.** As long as it is not resized, the cache never holds more entries than its capacity. -/
theorem C45_bounded_without_resize {cap0 : Nat} {h : List (Op K V)} {c : Cache K V}
    (hh : History cap0 h c) (hn : NoResize h) : c.capacity = cap0 ∧ c.map.length ≤ c.capacity := by
  have hl : ∀ h : List (Op K V), NoResize h → largestCap cap0 h = cap0 := by
    intro h
    induction h with
    | nil => intro _; rfl
    | cons op t ih =>
      intro hn
      have ht : NoResize t := fun o ho => hn o (List.mem_cons_of_mem _ ho)
      cases op with
      | resize cap => exact absurd rfl (hn _ List.mem_cons_self cap)
      | check _ => exact ih ht
      | write _ _ => exact ih ht
      | clear => exact ih ht
  have hcap : c.capacity = cap0 := by
    induction hh with
    | new => rfl
    | step hh hs ih =>
      rename_i h c c' op
      have ih := ih (fun o ho => hn o (List.mem_cons_of_mem _ ho))
      cases op with
      | resize cap => exact absurd rfl (hn _ List.mem_cons_self cap)
      | clear =>
        simp only [Cache.step] at hs
        injection hs with hs; injection hs with hs; subst hs; exact ih
      | check lockOk =>
        simp only [Cache.step] at hs
        split at hs <;> (injection hs with hs; injection hs with hs; subst hs; exact ih)
      | write entries lockOk =>
        simp only [Cache.step] at hs
        split at hs
        · cases hs
        · split at hs
          · split at hs
            · cases hs
            · injection hs with hs; injection hs with hs; subst hs; exact ih
          · injection hs with hs; injection hs with hs; subst hs; exact ih
  refine ⟨hcap, ?_⟩
  have := C45_bounded_partial hh
  rw [hl h hn] at this
  omega

/-- A full history: two entries stored, then the capacity lowered to one. -/
theorem sample_history : History (K := Nat) (V := Nat) 3
    [.resize 1, .write [(1, 10), (2, 20)] true, .check true] ⟨[(2, 20), (1, 10)], 1, 0⟩ :=
  .step (.step (.step .new (by rfl)) (by rfl)) (by rfl)

/-- **C45, negation of the full claim.** `resize` to a smaller capacity keeps the entries, so the cache
then holds more entries than its capacity. -/
theorem C45_resize_keeps_entries : ∃ (h : List (Op Nat Nat)) (c : Cache Nat Nat),
    History 3 h c ∧ c.map.length > c.capacity :=
  ⟨_, _, sample_history, by decide⟩

example : StoredSinceClear (K := Nat) (V := Nat)
    [.resize 1, .write [(1, 10), (2, 20)] true, .check true] 2 20 :=
  C45_get_faithful sample_history (lockOk := true) (by decide)

/-! ## `Unigram::encode` with this cache -/

section Unigram
variable {β : Type}

/-- `Unigram::encode` (`models/unigram/model.rs:231-255`) with sampling off, around any deterministic
encoder `f` (`none` is an error); `rd` is the lock outcome of `cache.get`. The result and the entry handed
to `cache.set` (`MAX_LENGTH` is 256, `utils/cache.rs:10`). -/
def cachedEncode (f : String → Option β) (c : Cache String β) (s : String) (rd : Bool) :
    Option β × Option (String × β) :=
  match c.get s rd with
  | some r => (some r, none)
  | none =>
    match f s with
    | some r => (some r, if s.utf8ByteSize < 256 then some (s, r) else none)
    | none => (none, none)

/-- Every write of the history stores entries handed over by some call of `cachedEncode`, made at any
earlier state of the cache with any lock outcome. -/
inductive EncodeHistory (f : String → Option β) (cap0 : Nat) : List (Op String β) → Cache String β → Prop
  | new : EncodeHistory f cap0 [] (.new cap0)
  | write {h c c' h0 c0 s rd e ok} : EncodeHistory f cap0 h c → EncodeHistory f cap0 h0 c0 →
      (cachedEncode f c0 s rd).2 = some e → c.step (.write [e] ok) = some (some c') →
      EncodeHistory f cap0 (.write [e] ok :: h) c'
  | check {h c c' ok} : EncodeHistory f cap0 h c → c.step (.check ok) = some (some c') →
      EncodeHistory f cap0 (.check ok :: h) c'
  | clear {h c c'} : EncodeHistory f cap0 h c → c.step .clear = some (some c') →
      EncodeHistory f cap0 (.clear :: h) c'
  | resize {h c c' cap} : EncodeHistory f cap0 h c → c.step (.resize cap) = some (some c') →
      EncodeHistory f cap0 (.resize cap :: h) c'

theorem EncodeHistory.history {f : String → Option β} {cap0 : Nat} {h : List (Op String β)}
    {c : Cache String β} (hh : EncodeHistory f cap0 h c) : History cap0 h c := by
  induction hh with
  | new => exact .new
  | write _ _ _ hs ih _ => exact .step ih hs
  | check _ hs ih => exact .step ih hs
  | clear _ hs ih => exact .step ih hs
  | resize _ hs ih => exact .step ih hs

/-- An entry handed to the cache is what the encoder computes for a short sentence. -/
theorem cachedEncode_entry {f : String → Option β} {c : Cache String β} {s : String} {rd : Bool}
    {e : String × β} (h : (cachedEncode f c s rd).2 = some e) :
    f e.1 = some e.2 ∧ e.1.utf8ByteSize < 256 := by
  simp only [cachedEncode] at h
  split at h
  · cases h
  · split at h
    · rename_i r hr
      simp only at h
      split at h
      · injection h with h; subst h; exact ⟨hr, by assumption⟩
      · cases h
    · cases h

theorem stored_entries {f : String → Option β} {cap0 : Nat} {h : List (Op String β)}
    {c : Cache String β} (hh : EncodeHistory f cap0 h c) {k : String} {v : β}
    (hs : StoredSinceClear h k v) : f k = some v ∧ k.utf8ByteSize < 256 := by
  induction hh with
  | new => exact hs.elim
  | write _ _ he _ ih _ =>
    rcases hs with hs | hs
    · have hs := hs.2
      rw [List.mem_singleton] at hs
      subst hs
      exact cachedEncode_entry he
    · exact ih hs
  | check _ _ ih => exact ih hs
  | clear _ _ _ => exact hs.elim
  | resize _ _ ih => exact ih hs

/-- **C19, Unigram.** Whatever was encoded before by any threads, in whatever order, with whatever lock
outcomes and capacities, `encode` returns what the encoder alone returns. -/
theorem C19_unigram_cache_transparent {f : String → Option β} {cap0 : Nat} {h : List (Op String β)}
    {c : Cache String β} (hh : EncodeHistory f cap0 h c) (s : String) (rd : Bool) :
    (cachedEncode f c s rd).1 = f s := by
  simp only [cachedEncode]
  split
  · rename_i r hr
    exact (stored_entries hh (C45_get_faithful hh.history hr)).1.symm
  · split
    · rename_i hr; exact hr.symm
    · rename_i hr; exact hr.symm

/-- **C45, Unigram.** A sentence of 256 bytes or more is never stored. -/
theorem C45_unigram_long_keys_never_stored {f : String → Option β} {cap0 : Nat}
    {h : List (Op String β)} {c : Cache String β} (hh : EncodeHistory f cap0 h c) {k : String} {v : β}
    (hm : c.get k true = some v) : k.utf8ByteSize < 256 :=
  (stored_entries hh (C45_get_faithful hh.history hm)).2

/-- A cache that was filled by two calls. -/
example : ∃ c, EncodeHistory (fun s : String => some s.length) 10
    [.write [("ab", 2)] true, .check true] c ∧ (cachedEncode (fun s => some s.length) c "ab" true) = (some 2, none) :=
  ⟨_, .write (s := "ab") (rd := true) (.check .new (by rfl)) .new (by rfl) (by rfl), by decide⟩

end Unigram

end Tok.SharedCache
