import Verif.Train.UnigramCover

/-!
# C61: a complete run of the trainer, and where its results are not what one would expect
-/

namespace Tok.Train

open Tok.Unigram

/-- The opposite order. -/
def revOrder (l : List Char) : List Char := (dedupOrder l).reverse

theorem setOrder_rev : SetOrder revOrder := by
  intro l
  refine ⟨List.pairwise_reverse.2 ((setOrder_dedup l).1.imp fun h => Ne.symm h), fun ch => ?_⟩
  rw [revOrder, List.mem_reverse]
  exact (setOrder_dedup l).2 ch

/-- Some arithmetic: every piece is expected once. -/
def sampleArith : Arith where
  ln x := x
  digamma x := x
  expected u _ := List.replicate u.vocab.length 1
  heap := listHeap
  steps := 100

def sampleSentences : List (Str × Nat) := [("ab".toList, 2), ("abc".toList, 1)]
def sampleSuffix : List (Str × Nat) := [("ab".toList, 3), ("bc".toList, 1)]

def sampleCfg : UniCfg := { vocabSize := 10, special := ["<s>".toList], unk := some "<unk>".toList, alphabet := ['x', 'y'] }

def vocabOf (r : Option (Outcome UniTrainErr Unigram)) : List Str :=
  match r with
  | some (.ok u) => u.vocab.map (·.1)
  | _ => []


/-- Hypotheses met: training returns a model. The unknown token is added in front, characters of the alphabet that the corpus
lacks are there. -/
example : vocabOf (sampleCfg.doTrain sampleArith dedupOrder sampleSuffix sampleSentences 1) =
    ["<unk>", "<s>", "y", "a", "b", "c", "x", "ab", "bc"].map String.toList := by decide +kernel

def longSuffix : List (Str × Nat) :=
  ["ab", "abc", "bc", "abca", "bca", "ca", "cab", "caba", "aba", "ba"].map fun t => (t.toList, t.length)

def longSentences : List (Str × Nat) := [("abcaba".toList, 2), ("caba".toList, 1)]

def smallCfg : UniCfg := { vocabSize := 7, special := ["<s>".toList], unk := some "<s>".toList }

/-- One with pruning: 14 pieces become 6 before the second round. -/
example : vocabOf (smallCfg.doTrain sampleArith dedupOrder longSuffix longSentences 1) = [] ∧
    vocabOf (smallCfg.doTrain sampleArith dedupOrder longSuffix longSentences 2) =
      ["<s>", "c", "b", "a", "caba", "ab"].map String.toList := by decide +kernel

/-- The result depends on the order in which a hash set is visited: characters that are not pieces of the trained model
get different scores one after the other, and equal scores keep the order. -/
theorem C61_order_dependent : SetOrder dedupOrder ∧ SetOrder revOrder ∧
    vocabOf (sampleCfg.doTrain sampleArith dedupOrder sampleSuffix sampleSentences 1) ≠
    vocabOf (sampleCfg.doTrain sampleArith revOrder sampleSuffix sampleSentences 1) :=
  ⟨setOrder_dedup, setOrder_rev, by decide +kernel⟩

def fullCfg : UniCfg :=
  { vocabSize := 10, special := ["<0>", "<1>", "<2>", "<3>", "<4>", "<5>", "<6>"].map String.toList,
    unk := some "<0>".toList }

/-- If the characters needed fill the vocabulary exactly, the test for the size is passed over and everything is added: 12
entries where 10 were asked for. -/
theorem C61_size_exceeded : vocabOf (fullCfg.doTrain sampleArith dedupOrder sampleSuffix sampleSentences 1) =
    (["<0>", "<1>", "<2>", "<3>", "<4>", "<5>", "<6>"] ++ ["a", "b", "c", "ab", "bc"]).map String.toList := by
  decide +kernel

def twiceCfg : UniCfg := { vocabSize := 10, special := ["a".toList], unk := some "a".toList }

/-- A special token that is also a character of the corpus comes twice; its text then has the id of the second, which is not
the unknown id. -/
theorem C61_special_twice :
    (match twiceCfg.doTrain sampleArith dedupOrder sampleSuffix sampleSentences 1 with
    | some (.ok u) => some (u.vocab.map (·.1), u.unkId, u.tokenToIds.get "a".toList)
    | _ => none) = some (["a", "a", "b", "c", "ab", "bc"].map String.toList, some 0, some 1) := by decide +kernel

/-- Byte fallback of the model before is forgotten. -/
theorem C61_no_byte_fallback {c : UniCfg} {ar : Arith} {order : List Char → List Char} (ho : SetOrder order)
    {suffix sentences : List (Str × Nat)} {fuel : Nat} {u : Unigram}
    (h : c.doTrain ar order suffix sentences fuel = some (.ok u)) : u.byteFallback = false := by
  obtain ⟨heads, pieces, T⟩ := C61_model ho h
  exact (from_inv T.made).2.2

/-! ### The loss -/

/-- The loss as the comments of the code describe it: the frequency of the piece is given to each of its alternatives, so the
sum grows by the frequency for every alternative but one. -/
def documentedLoss (ln : Rat → Rat) (f : Rat) (freq : Nat → Nat) (sum : Nat) (id : Nat) (alts : List Nat) : Rat :=
  f * ((ln (freq id) - ln sum) -
    (alts.map fun n => ln (freq n + freq id) - ln (sum + freq id * (alts.length - 1 : Nat))).sum)

theorem sum_sub_const {α : Type} (g : α → Rat) (k : Rat) : ∀ l : List α,
    (l.map fun n => g n - k).sum = (l.map g).sum - l.length * k
  | [] => by simp; grind
  | a :: l => by
    rw [List.map_cons, List.sum_cons, sum_sub_const g k l, List.map_cons, List.sum_cons, List.length_cons]
    push_cast
    grind

/-- The loss by which candidates are ranked is not the documented one as soon as the number of all pieces is not the number
of alternatives of the piece, for any strictly monotonic logarithm. -/
theorem C61_loss {ln : Rat → Rat} (hln : ∀ x y, 0 < x → x < y → ln x < ln y) {f : Rat} (hf : f ≠ 0) {freq : Nat → Nat}
    {sum nPieces id : Nat} {alts : List Nat} (hs : 0 < sum) (hid : 0 < freq id) (ha : alts ≠ []) (hn : 0 < nPieces)
    (hne : nPieces ≠ alts.length) :
    lossOf ln f freq sum nPieces id alts ≠ documentedLoss ln f freq sum id alts := by
  intro h
  have ha' : 0 < alts.length := by
    cases alts with
    | nil => exact absurd rfl ha
    | cons a l => simp
  unfold lossOf documentedLoss at h
  dsimp only at h
  rw [sum_sub_const, sum_sub_const] at h
  have hlen : ((alts.length : Nat) : Rat) ≠ 0 := by
    intro e
    have : alts.length = 0 := by exact_mod_cast e
    omega
  generalize ((alts.length : Nat) : Rat) = len at hlen h
  have heq : ln (sum + freq id * (nPieces - 1 : Nat)) = ln (sum + freq id * (alts.length - 1 : Nat)) := by
    generalize ln (sum + freq id * (nPieces - 1 : Nat)) = a at h ⊢
    generalize ln (sum + freq id * (alts.length - 1 : Nat)) = b at h ⊢
    grind
  have mono : ∀ a b : Nat, a < b → ln (sum + freq id * (a : Nat)) < ln (sum + freq id * (b : Nat)) := by
    intro a b hab
    have h1 : freq id * a < freq id * b := Nat.mul_lt_mul_of_pos_left hab hid
    have e : ∀ k : Nat, (sum : Rat) + freq id * (k : Nat) = ((sum + freq id * k : Nat) : Rat) := by
      intro k; push_cast; rfl
    rw [e, e]
    apply hln
    · exact_mod_cast (by omega : 0 < sum + freq id * a)
    · exact_mod_cast (by omega : sum + freq id * a < sum + freq id * b)
  rcases Nat.lt_trichotomy nPieces alts.length with h1 | h1 | h1
  · have := mono (nPieces - 1) (alts.length - 1) (by omega)
    rw [heq] at this
    exact absurd this (Rat.lt_irrefl)
  · exact hne h1
  · have := mono (alts.length - 1) (nPieces - 1) (by omega)
    rw [heq] at this
    exact absurd this (Rat.lt_irrefl)

/-- Hypotheses met. -/
example : lossOf (fun x => x) 1 (fun _ => 2) 10 5 0 [1, 2] ≠ documentedLoss (fun x => x) 1 (fun _ => 2) 10 0 [1, 2] :=
  C61_loss (fun _ _ _ h => h) (by decide) (by decide) (by decide) (by decide) (by decide) (by decide)

end Tok.Train
