import Verif.Base

/-!
# Model of `models/bpe/word.rs`

A BPE word is a vector of symbols linked by `prev`/`next` indices; merging drives a priority queue.
-/

namespace Tok.Bpe

/-- The merge map `AHashMap<Pair, (rank, new_id)>` (`models/bpe/model.rs:22`), as a function. -/
abbrev MergeFn := Nat → Nat → Option (Nat × Nat)

/-- `Symbol` (`word.rs:38-44`). -/
structure Symbol where
  c : Nat
  prev : Int
  next : Int
  len : Nat
deriving DecidableEq, Repr

/-- `Merge` (`word.rs:7-12`). -/
structure Merge where
  pos : Nat
  rank : Nat
  newId : Nat
deriving DecidableEq, Repr

/-- The order of the heap (`word.rs:28-36`): lowest rank first, then lowest position. -/
def Merge.le (a b : Merge) : Bool := a.rank < b.rank || (a.rank == b.rank && a.pos ≤ b.pos)

/-- `queue.pop()` of the d-ary heap: removes a minimal element. The heap itself (crate `dary_heap`)
is not modelled: the queue is a list and the first minimal element is taken. Elements that tie have
equal rank and position; the theorems assume ranks determine the merge, so they are identical. -/
def popMin : List Merge → Option (Merge × List Merge)
  | [] => none
  | x :: xs =>
    match popMin xs with
    | none => some (x, [])
    | some (y, ys) => if x.le y then some (x, y :: ys) else some (y, x :: ys)

/-- `Word::add` (`word.rs:88-105`). -/
def addSym (w : List Symbol) (c byteLen : Nat) : List Symbol :=
  match w.getLast? with
  | none => [⟨c, -1, -1, byteLen⟩]
  | some last =>
    w.dropLast ++ [{ last with next := (w.length : Int) }] ++ [⟨c, (w.length : Int) - 1, -1, byteLen⟩]

/-- Build a word by successive `add`s (as `merge_word` does, `model.rs:465-545`). -/
def mkWord (l : List (Nat × Nat)) : List Symbol := l.foldl (fun w x => addSym w x.1 x.2) []

/-- The initial queue: all adjacent pairs that have a merge (`word.rs:166-178`). -/
def initQueue (m : MergeFn) : Nat → List Symbol → List Merge
  | k, a :: b :: rest =>
    match m a.c b.c with
    | some (r, x) => ⟨k, r, x⟩ :: initQueue m (k + 1) (b :: rest)
    | none => initQueue m (k + 1) (b :: rest)
  | _, _ => []

/-- The entry pushed for a pair, if it has a merge (`word.rs:223-229`, `237-243`). -/
def pushFor (m : MergeFn) (pos c1 c2 : Nat) : List Merge :=
  match m c1 c2 with
  | some (rank, id) => [⟨pos, rank, id⟩]
  | none => []

/-- The three writes of a merge (`word.rs:211-219`): the merged symbol at `pos` (`merge_with`,
`word.rs:46-51`), the right one emptied, and the `prev` of the symbol after it. -/
def mergeSyms (syms : List Symbol) (pos nextPos : Nat) (sym : Symbol) (nx : Int) : List Symbol :=
  let s2 := (syms.set pos sym).modify nextPos fun s => { s with len := 0 }
  if nx > -1 ∧ nx.toNat < s2.length then
    s2.modify nx.toNat fun s => { s with prev := (pos : Int) }
  else s2

/-- The entries pushed after a merge at `pos` (`word.rs:221-244`). -/
def pushesAt (m : MergeFn) (syms : List Symbol) (pos : Nat) : Option (List Merge) :=
  match syms[pos]? with
  | none => none
  | some current =>
    let p1 := if current.prev ≥ 0 then
        (syms[current.prev.toNat]?).map fun ps => pushFor m current.prev.toNat ps.c current.c
      else some []
    let p2 := if 0 ≤ current.next ∧ current.next.toNat < syms.length then
        (syms[current.next.toNat]?).map fun ns => pushFor m pos current.c ns.c
      else some []
    match p1, p2 with
    | some a, some b => some (a ++ b)
    | _, _ => none

/-- The body of the loop for an entry that is not dropped (`word.rs:187-244`): the new symbols and
the entries to push. `none` is an out-of-bounds index. -/
def applyTop (m : MergeFn) (syms : List Symbol) (top : Merge) :
    Option (List Symbol × List Merge) :=
  match syms[top.pos]? with
  | none => none
  | some cur =>
    if cur.len = 0 then some (syms, [])
    else if cur.next = -1 then some (syms, [])
    else if cur.next < 0 then none
    else
      match syms[cur.next.toNat]? with
      | none => none
      | some right =>
        match m cur.c right.c with
        | none => some (syms, [])
        | some (_, id) =>
          if id ≠ top.newId then some (syms, [])
          else
            let s3 := mergeSyms syms top.pos cur.next.toNat
              ⟨top.newId, cur.prev, right.next, cur.len + right.len⟩ right.next
            (pushesAt m s3 top.pos).map fun pushes => (s3, pushes)

/-- State of the loop: symbols, queue, and the entries put aside by dropout. -/
structure St where
  syms : List Symbol
  queue : List Merge
  skip : List Merge

/-- The loop `while let Some(top) = queue.pop()` (`word.rs:180-246`). `coins i` is the outcome of the
`i`-th dropout draw (`rng().random() < d`); without dropout it is constantly `false`. The fuel only
makes the definition structural: running out of it is `none`, like a panic, and the theorems show
that neither happens. -/
def mergeLoop (m : MergeFn) : Nat → (Nat → Bool) → St → Option St
  | fuel, coins, s =>
    match popMin s.queue with
    | none => some s
    | some (top, rest) =>
      match fuel with
      | 0 => none
      | fuel + 1 =>
        if coins 0 then
          mergeLoop m fuel (fun i => coins (i + 1)) ⟨s.syms, rest, s.skip ++ [top]⟩
        else
          match applyTop m s.syms top with
          | none => none
          | some (syms', pushes) =>
            mergeLoop m fuel (fun i => coins (i + 1)) ⟨syms', rest ++ s.skip ++ pushes, []⟩

/-- Enough iterations for a word of `n` symbols. -/
def enoughFuel (n : Nat) : Nat := (4 * n + 1) * (4 * n + 1)

/-- `Word::merge_all` (`word.rs:162-250`). -/
def mergeAll (m : MergeFn) (coins : Nat → Bool) (w : List Symbol) : Option (List Symbol) :=
  (mergeLoop m (enoughFuel w.length) coins ⟨w, initQueue m 0 w, []⟩).map fun s =>
    s.syms.filter fun x => x.len ≠ 0

/-- `get_chars_iter` and the `len` of the symbols. -/
def symsOf (w : List Symbol) : List (Nat × Nat) := w.map fun s => (s.c, s.len)

/-- `get_offsets_iter` (`word.rs:260-268`) from position `pos`. -/
def offsetsFrom : Nat → List Nat → List Range
  | _, [] => []
  | pos, n :: rest => (pos, pos + n) :: offsetsFrom (pos + n) rest

end Tok.Bpe
