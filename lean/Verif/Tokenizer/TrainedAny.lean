import Verif.Tokenizer.TrainedBpe

/-!
# Any trainer with any model (C63)

`TrainerWrapper` and `ModelWrapper`: the trainer of one kind of model given a model of another kind.
-/

namespace Tok
namespace Tokenizer

/-- `ModelWrapper` (`models/mod.rs:62-69`); with BPE the random choices of its dropout. -/
inductive AnyModel where
  | bpe (b : Bpe.Bpe) (coins : Str → Nat → Bool)
  | wordPiece (w : WordPiece)
  | wordLevel (w : WordLevel)
  | unigram (u : Unigram)

/-- The parts of a model. -/
def AnyModel.parts : AnyModel → NewModel
  | .bpe b coins => ofBpe b coins
  | .wordPiece w => ofWordPiece w
  | .wordLevel w => ofWordLevel w
  | .unigram u => ofUnigram u

/-- `TrainerWrapper` (`models/mod.rs:227-232`) with what the trainers are parameterized by. -/
inductive AnyTrainer where
  | bpe (cfg : Train.BpeCfg) (order : AMap Char Nat → AMap Char Nat) (fuel : Nat) (specials : List AddedToken)
  | wordPiece (cfg : Train.BpeCfg) (order : AMap Char Nat → AMap Char Nat) (fuel : Nat) (specials : List AddedToken)
  | wordLevel (specials : List AddedToken) (minFrequency vocabSize : Nat)
  | unigram (c : Train.UniCfg) (ar : Train.Arith) (order : List Char → List Char) (suffix : AMap Str Nat → List (Str × Nat))
    (fuel : Nat) (specials : List AddedToken)

/-- `TrainerWrapper::train` (`models/mod.rs:247-266`); code 3 is a model of another kind. -/
def AnyTrainer.train (tr : AnyTrainer) (m : AnyModel) (wc : AMap Str Nat) : Except EncErr (NewModel × List AddedToken) :=
  match tr with
  | .bpe cfg order fuel specials =>
    match m with
    | .bpe b coins => bpeTrainer cfg order fuel specials b coins wc
    | _ => .error (.model 3)
  | .wordPiece cfg order fuel specials =>
    match m with
    | .wordPiece w => wordPieceTrainer cfg order fuel specials w wc
    | _ => .error (.model 3)
  | .wordLevel specials minFrequency vocabSize =>
    match m with
    | .wordLevel w => wordLevelTrainer specials minFrequency vocabSize w wc
    | _ => .error (.model 3)
  | .unigram c ar order suffix fuel specials =>
    match m with
    | .unigram _ => unigramTrainer c ar order suffix fuel specials wc
    | _ => .error (.model 3)

/-! ## Specification -/

/-- The four kinds. -/
inductive ModelKind where
  | bpe
  | wordPiece
  | wordLevel
  | unigram

/-- The kind of a model. -/
def AnyModel.kind : AnyModel → ModelKind
  | .bpe .. => .bpe
  | .wordPiece .. => .wordPiece
  | .wordLevel .. => .wordLevel
  | .unigram .. => .unigram

/-- The kind of model a trainer trains. -/
def AnyTrainer.kind : AnyTrainer → ModelKind
  | .bpe .. => .bpe
  | .wordPiece .. => .wordPiece
  | .wordLevel .. => .wordLevel
  | .unigram .. => .unigram

/-- The special tokens a trainer was given. -/
def AnyTrainer.specials : AnyTrainer → List AddedToken
  | .bpe _ _ _ specials => specials
  | .wordPiece _ _ _ specials => specials
  | .wordLevel specials _ _ => specials
  | .unigram _ _ _ _ _ specials => specials

/-- **C63, kinds.** A trainer given a model of another kind fails and the tokenizer is as before; if training succeeds, what comes
out is a model of the same kind, and the special tokens added are those of the trainer. -/
theorem C63_kinds (t : Tokenizer) (build : List (Str × Nat) → Bool) (norm : AddedVocab.Norm) (tree : Train.Tree) (tr : AnyTrainer)
    (m : AnyModel) :
    (tr.kind ≠ m.kind → ∃ e, t.train build norm tree (tr.train m) = (t, .error e)) ∧
    (∀ wc m' sp, tr.train m wc = .ok (m', sp) →
      ∃ m1 : AnyModel, m' = m1.parts ∧ m1.kind = m.kind ∧ m1.kind = tr.kind ∧ sp = tr.specials) := by
  constructor
  · intro h
    have hf : ∀ wc, tr.train m wc = .error (.model 3) := by
      intro wc
      cases tr <;> cases m <;> first | exact absurd rfl h | rfl
    cases hw : tree.eval t.trainWords with
    | error e => exact ⟨e, C63_error_keeps t build norm tree _ (.inl hw)⟩
    | ok wc => exact ⟨_, C63_error_keeps t build norm tree _ (.inr ⟨wc, hw, hf wc⟩)⟩
  · intro wc m' sp h
    cases tr with
    | bpe cfg order fuel specials =>
      cases m with
      | bpe b coins =>
        obtain ⟨h1, s, b', -, -, h2⟩ := bpeTrainer_ok (show bpeTrainer cfg order fuel specials b coins wc = _ from h)
        exact ⟨.bpe b' coins, h2, rfl, rfl, h1⟩
      | _ => cases h
    | wordPiece cfg order fuel specials =>
      cases m with
      | wordPiece w =>
        change wordPieceTrainer cfg order fuel specials w wc = _ at h
        unfold wordPieceTrainer at h
        split at h
        · split at h
          · rename_i w' _
            cases h
            exact ⟨.wordPiece w', rfl, rfl, rfl, rfl⟩
          · cases h
        · cases h
      | _ => cases h
    | wordLevel specials minFrequency vocabSize =>
      cases m with
      | wordLevel w => cases h; exact ⟨.wordLevel _, rfl, rfl, rfl, rfl⟩
      | _ => cases h
    | unigram c ar order suffix fuel specials =>
      cases m with
      | unigram u =>
        change unigramTrainer c ar order suffix fuel specials wc = _ at h
        unfold unigramTrainer at h
        split at h
        · rename_i u' _
          cases h
          exact ⟨.unigram u', rfl, rfl, rfl, rfl⟩
        · cases h
      | _ => cases h

/-- The case the repository tests: `BpeTrainer` with another model. -/
example (cfg : Train.BpeCfg) : (AnyTrainer.bpe cfg id 5 []).kind ≠ (AnyModel.wordLevel ⟨[], []⟩).kind := nofun

example : ∃ m' sp, (AnyTrainer.wordLevel [.ofStr "<s>".toList true] 0 10).train (.wordLevel ⟨[], []⟩)
    [("a".toList, 2)] = .ok (m', sp) ∧ m'.vocab = [("a".toList, 1), ("<s>".toList, 0)] := ⟨_, _, rfl, by decide +kernel⟩

end Tokenizer
end Tok
