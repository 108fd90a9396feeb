import Verif.Save.Behave
import Verif.Save.PublishedSamples
import Verif.Tokenizer.Words
import Verif.Tokenizer.Batch
import Verif.Normalizers.Props
import Verif.PreTokenizers.Props
import Verif.Post.C37
import Verif.Unigram.Tokenize

/-!
# C100: when encoding fails

`encode` (`tokenizer/mod.rs:829-932`) returns a `Result`, and the code below it panics in many places: slices of
aligned strings, added tokens that overlap, splits without tokens. None of this happens for a tokenizer whose
components are sound, whatever the text: what remains are the errors of the model and those of the truncation, and both
are characterized exactly.
-/

namespace Tok.NoErrors
open Tok.Save Tok.AddedVocab Tok.Encoding

/-! ## Specification -/

/-- A tokenizer without broken components: the regex engine returns matches, `Prepend` has something to prepend,
`FixedLength` has a length, the added vocabulary is the result of a sequence of additions, and no token takes the space
another one begins with. Nothing is said of the model, the texts or the settings. -/
structure Ready (w : World) (c : Conf) : Prop where
  unicode : w.uni.Ok
  safe : ∀ n, c.normalizer = some n → (w.toNorm n).Safe
  sound : ∀ n, c.preTok = some n → (w.toPre n).Sound
  added : ∃ (m : ModelView) (build : List (Str × Nat) → Bool) (ops : List Op), m.Ok ∧
    (∀ l, build l = true → ∀ p ∈ l, p.1 ≠ []) ∧ c.added = after build m AddedVocab.empty ops
  neat : Neat w.cl c.added c.added.trie
  neatNorm : Neat w.cl c.added c.added.normTrie

/-- When inputs of `a` and `b` tokens (`none`: no second input) can be cut down to `room` tokens: they fit already, or
nothing is kept, or what is kept of each input that is cut is more than the stride. Cutting both inputs leaves the
shorter one alone if it takes at most half of the room; otherwise each gets one half. -/
def Cuttable (strategy : TruncStrategy) (stride room a : Nat) (b : Option Nat) : Prop :=
  a + b.getD 0 ≤ room ∨ room = 0 ∨
    match strategy, b with
    | .onlySecond, none => False
    | .longestFirst, none => stride < room
    | .onlyFirst, none => stride < room
    | .onlyFirst, some b => b < room ∧ stride < room - b
    | .onlySecond, some _ => a < room ∧ stride < room - a
    | .longestFirst, some b =>
      if 2 * min a b ≤ room then stride < room - min a b
      else (room / 2 = 0 ∨ stride < room / 2) ∧ (max a b = (room + 1) / 2 ∨ stride < (room + 1) / 2)

/-- Settings for which inputs of any length can be cut. -/
def AlwaysCuttable (strategy : TruncStrategy) (stride room : Nat) (pair : Bool) : Prop :=
  room = 0 ∨
    match pair with
    | false => strategy ≠ .onlySecond ∧ stride < room
    | true => strategy = .longestFirst ∧ (stride = 0 ∨ stride < room / 2)

/-! ## The stages before the model -/

mutual
theorem pre_total (u : CharTables) : ∀ (z : PreTokenizer), z.Sound → ∀ {p : PTS}, p.Good →
    ∃ p', z.apply u p = .ok p' ∧ p'.Good
  | .sequence l, hz, p, hp => by
    rw [PreTokenizer.apply]
    exact pre_total_all u l (by simpa only [PreTokenizer.Sound] using hz) hp
  | .bert, hz, p, hp => by
    obtain ⟨p', h1, _, h2, _⟩ := PreTokenizer.apply_view u hp _ hz (fun l => by simp); exact ⟨p', h1, h2⟩
  | .byteLevel _ _, hz, p, hp => by
    obtain ⟨p', h1, _, h2, _⟩ := PreTokenizer.apply_view u hp _ hz (fun l => by simp); exact ⟨p', h1, h2⟩
  | .delimiter _, hz, p, hp => by
    obtain ⟨p', h1, _, h2, _⟩ := PreTokenizer.apply_view u hp _ hz (fun l => by simp); exact ⟨p', h1, h2⟩
  | .metaspace _, hz, p, hp => by
    obtain ⟨p', h1, _, h2, _⟩ := PreTokenizer.apply_view u hp _ hz (fun l => by simp); exact ⟨p', h1, h2⟩
  | .whitespace, hz, p, hp => by
    obtain ⟨p', h1, _, h2, _⟩ := PreTokenizer.apply_view u hp _ hz (fun l => by simp); exact ⟨p', h1, h2⟩
  | .whitespaceSplit, hz, p, hp => by
    obtain ⟨p', h1, _, h2, _⟩ := PreTokenizer.apply_view u hp _ hz (fun l => by simp); exact ⟨p', h1, h2⟩
  | .split _ _ _, hz, p, hp => by
    obtain ⟨p', h1, _, h2, _⟩ := PreTokenizer.apply_view u hp _ hz (fun l => by simp); exact ⟨p', h1, h2⟩
  | .punctuation _, hz, p, hp => by
    obtain ⟨p', h1, _, h2, _⟩ := PreTokenizer.apply_view u hp _ hz (fun l => by simp); exact ⟨p', h1, h2⟩
  | .digits _, hz, p, hp => by
    obtain ⟨p', h1, _, h2, _⟩ := PreTokenizer.apply_view u hp _ hz (fun l => by simp); exact ⟨p', h1, h2⟩
  | .unicodeScripts, hz, p, hp => by
    obtain ⟨p', h1, _, h2, _⟩ := PreTokenizer.apply_view u hp _ hz (fun l => by simp); exact ⟨p', h1, h2⟩
  | .fixedLength _, hz, p, hp => by
    obtain ⟨p', h1, _, h2, _⟩ := PreTokenizer.apply_view u hp _ hz (fun l => by simp); exact ⟨p', h1, h2⟩
theorem pre_total_all (u : CharTables) : ∀ (l : List PreTokenizer), PreTokenizer.SoundAll l → ∀ {p : PTS}, p.Good →
    ∃ p', PreTokenizer.applyAll u l p = .ok p' ∧ p'.Good
  | [], _, p, hp => ⟨p, rfl, hp⟩
  | z :: l, hz, p, hp => by
    obtain ⟨hz1, hz2⟩ : z.Sound ∧ PreTokenizer.SoundAll l := by simpa only [PreTokenizer.SoundAll] using hz
    obtain ⟨q, h1, h2⟩ := pre_total u z hz1 hp
    obtain ⟨r, h3, h4⟩ := pre_total_all u l hz2 h2
    refine ⟨r, ?_, h4⟩
    rw [PreTokenizer.applyAll]
    show (z.apply u p).bind (PreTokenizer.applyAll u l) = _
    rw [h1]
    exact h3
end

/-- What is pre-tokenized is always a list of well-formed pieces. -/
theorem preTokenized_total {w : World} {c : Conf} (h : Ready w c) (s : Str) :
    ∃ p, (w.tokenizer c).preTokenized s = .ok p ∧ p.Good := by
  obtain ⟨m, build, ops, hm, hb, hav⟩ := h.added
  have hF : ∃ F : NS → NS, ∀ n, n.Good s → w.normalizer c.normalizer n = some (F n) ∧ (F n).Good s := by
    cases hn : c.normalizer with
    | none => exact ⟨id, fun n hg => ⟨rfl, hg⟩⟩
    | some z =>
      refine ⟨fun n => ((w.toNorm z).apply w.uni n).getD n, fun n hg => ?_⟩
      obtain ⟨n', h1, _, h2, _⟩ := Normalizer.C56_normalizer h.unicode (w.toNorm z) (h.safe z hn) hg
      exact ⟨by simp only [World.normalizer, h1, Option.getD_some], by dsimp only; rw [h1]; exact h2⟩
  obtain ⟨F, hF⟩ := hF
  obtain ⟨p1, p, h1, _, _, h2, _⟩ := C27_extract_partial hm hb ops hav h.neat h.neatNorm s hF
  unfold Tokenizer.preTokenized
  have e : (w.tokenizer c).added.extractAndNormalize (w.tokenizer c).cl (w.tokenizer c).normalizer s = .ok p := h1
  rw [e]
  show ∃ p', w.preTok c.preTok p = .ok p' ∧ p'.Good
  cases hp : c.preTok with
  | none => exact ⟨p, rfl, h2⟩
  | some z =>
    obtain ⟨p', h3, h4⟩ := pre_total w.tables (w.toPre z) (h.sound z hp) h2
    exact ⟨p', by simp only [World.preTok, h3]; rfl, h4⟩

/-! ## The model -/

theorem mapUntokenized_error {ε : Type} {f : NS → Except ε (List Token)} {er : ε} : ∀ {l : List Split},
    PTS.mapUntokenized (fun n => (f n).map fun ts => ⟨n, some ts⟩) l = .error er → ∃ n, f n = .error er
  | [], h => by cases h
  | s :: l, h => by
    rw [PTS.mapUntokenized] at h
    by_cases hs : s.tokens.isSome = true
    · rw [if_pos hs] at h
      cases hr : PTS.mapUntokenized (fun n => (f n).map fun ts => (⟨n, some ts⟩ : Split)) l with
      | error e => rw [hr] at h; cases h; exact mapUntokenized_error hr
      | ok r => rw [hr] at h; cases h
    · rw [if_neg hs] at h
      cases hf : f s.normalized with
      | error e => rw [hf] at h; cases h; exact ⟨_, hf⟩
      | ok ts =>
        rw [hf] at h
        cases hr : PTS.mapUntokenized (fun n => (f n).map fun ts => (⟨n, some ts⟩ : Split)) l with
        | error e => rw [hr] at h; cases h; exact mapUntokenized_error hr
        | ok r => rw [hr] at h; cases h

theorem limitLoop_error {ε : Type} {f : NS → Except ε (List Token)} {max : Nat} {er : ε} : ∀ {l : List Split} {k : Nat},
    PTS.limitLoop f max k l = .error er → ∃ n, f n = .error er
  | [], _, h => by cases h
  | s :: l, k, h => by
    rw [PTS.limitLoop] at h
    cases hs : s.tokens with
    | some ts =>
      rw [hs] at h
      dsimp only at h
      cases hr : PTS.limitLoop f max (k + ts.length) l with
      | error e => rw [hr] at h; cases h; exact limitLoop_error hr
      | ok r => rw [hr] at h; cases h
    | none =>
      rw [hs] at h
      dsimp only at h
      cases hf : f s.normalized with
      | error e => rw [hf] at h; cases h; exact ⟨_, hf⟩
      | ok ts =>
        rw [hf] at h
        replace h : (if k + ts.length ≥ max then (pure [⟨s.normalized, some ts⟩] : Except ε (List Split))
          else (PTS.limitLoop f max (k + ts.length) l).map (⟨s.normalized, some ts⟩ :: ·)) = .error er := h
        split at h
        · cases h
        · cases hr : PTS.limitLoop f max (k + ts.length) l with
          | error e => rw [hr] at h; cases h; exact limitLoop_error hr
          | ok r => rw [hr] at h; cases h

theorem limitLoop_all {ε : Type} {f : NS → Except ε (List Token)} {max : Nat} : ∀ {l out : List Split} {k : Nat},
    PTS.limitLoop f max k l = .ok out → ∀ s ∈ out, s.tokens.isSome
  | [], _, _, h => by cases h; simp
  | s :: l, out, k, h => by
    rw [PTS.limitLoop] at h
    cases hs : s.tokens with
    | some ts =>
      rw [hs] at h
      dsimp only at h
      cases hr : PTS.limitLoop f max (k + ts.length) l with
      | error e => rw [hr] at h; cases h
      | ok r =>
        rw [hr] at h; cases h
        intro x hx
        rcases List.mem_cons.1 hx with rfl | hx
        · rw [hs]; rfl
        · exact limitLoop_all hr x hx
    | none =>
      rw [hs] at h
      dsimp only at h
      cases hf : f s.normalized with
      | error e => rw [hf] at h; cases h
      | ok ts =>
        rw [hf] at h
        replace h : (if k + ts.length ≥ max then (pure [⟨s.normalized, some ts⟩] : Except ε (List Split))
          else (PTS.limitLoop f max (k + ts.length) l).map (⟨s.normalized, some ts⟩ :: ·)) = .ok out := h
        split at h
        · cases h; intro x hx; rw [List.mem_singleton.1 hx]; rfl
        · cases hr : PTS.limitLoop f max (k + ts.length) l with
          | error e => rw [hr] at h; cases h
          | ok r =>
            rw [hr] at h; cases h
            intro x hx
            rcases List.mem_cons.1 hx with rfl | hx
            · rfl
            · exact limitLoop_all hr x hx

/-- Tokenizing the pieces fails only if the model fails, with its error; all the pieces that stay have tokens. -/
theorem tokenizeIn_cases (t : Tokenizer) (p : PTS) (lim : Option (Nat × Direction)) :
    (∃ q, t.tokenizeIn p lim = .ok q ∧ ∀ s ∈ q.splits, s.tokens.isSome) ∨
    ∃ er word, t.tokenizeIn p lim = .error er ∧ t.model word = .error er := by
  cases hr : t.tokenizeIn p lim with
  | error er =>
    refine .inr ⟨er, ?_⟩
    suffices h : ∃ n : NS, t.model n.norm = .error er by obtain ⟨n, h⟩ := h; exact ⟨_, rfl, h⟩
    cases lim with
    | none =>
      simp only [Tokenizer.tokenizeIn, PTS.tokenize] at hr
      cases hm : PTS.mapUntokenized (fun n => (t.model n.norm).map fun ts => (⟨n, some ts⟩ : Split)) p.splits with
      | error e => rw [hm] at hr; cases hr; exact mapUntokenized_error hm
      | ok r => rw [hm] at hr; cases hr
    | some l =>
      obtain ⟨max, dir⟩ := l
      cases dir with
      | right =>
        simp only [Tokenizer.tokenizeIn, PTS.tokenizeWithLimit] at hr
        cases hm : PTS.limitLoop (fun n => t.model n.norm) max 0 p.splits with
        | error e => rw [hm] at hr; cases hr; exact limitLoop_error hm
        | ok r => rw [hm] at hr; cases hr
      | left =>
        simp only [Tokenizer.tokenizeIn, PTS.tokenizeWithLimit] at hr
        cases hm : PTS.limitLoop (fun n => t.model n.norm) max 0 p.splits.reverse with
        | error e => rw [hm] at hr; cases hr; exact limitLoop_error hm
        | ok r => rw [hm] at hr; cases hr
  | ok q =>
    refine .inl ⟨q, rfl, ?_⟩
    cases lim with
    | none => exact PTS.tokenize_all hr
    | some l =>
      obtain ⟨max, dir⟩ := l
      cases dir with
      | right =>
        simp only [Tokenizer.tokenizeIn, PTS.tokenizeWithLimit] at hr
        cases hm : PTS.limitLoop (fun n => t.model n.norm) max 0 p.splits with
        | error e => rw [hm] at hr; cases hr
        | ok r => rw [hm] at hr; cases hr; exact limitLoop_all hm
      | left =>
        simp only [Tokenizer.tokenizeIn, PTS.tokenizeWithLimit] at hr
        cases hm : PTS.limitLoop (fun n => t.model n.norm) max 0 p.splits.reverse with
        | error e => rw [hm] at hr; cases hr
        | ok r =>
          rw [hm] at hr; cases hr
          intro s hs
          exact limitLoop_all hm s (List.mem_reverse.1 hs)

/-- One text: the only error is that of the model on some word. -/
theorem text_error {w : World} {c : Conf} (h : Ready w c) {lim : Option (Nat × Direction)} {typeId : Nat}
    {ty : PTS.OffsetType} {word : Option Nat} {s : Str} {er : EncErr}
    (he : (w.tokenizer c).encodeText lim typeId ty word s = .error er) : ∃ x, w.toModel c.model x = .error er := by
  obtain ⟨p, hp, _⟩ := preTokenized_total h s
  unfold Tokenizer.encodeText Tokenizer.doTokenize at he
  rw [hp] at he
  simp only [Except.bind] at he
  rcases tokenizeIn_cases (w.tokenizer c) p lim with ⟨q, hq, hall⟩ | ⟨e', x, hq, hx⟩
  · rw [hq] at he
    simp only [PTS.intoEncoding_items hall] at he
    cases he
  · rw [hq] at he
    cases he
    exact ⟨x, hx⟩

theorem mapM_error {α β ε : Type} {f : α → Except ε β} {er : ε} : ∀ {l : List α}, l.mapM f = .error er →
    ∃ x ∈ l, f x = .error er
  | [], h => by cases h
  | a :: l, h => by
    rw [List.mapM_cons] at h
    cases ha : f a with
    | error e => rw [ha] at h; cases h; exact ⟨a, by simp, ha⟩
    | ok b =>
      rw [ha] at h
      cases hl : l.mapM f with
      | error e =>
        rw [show (Except.ok b : Except ε β) >>= (fun y => l.mapM f >>= fun ys => pure (y :: ys))
          = (l.mapM f >>= fun ys => pure (b :: ys)) from rfl, hl] at h
        cases h
        obtain ⟨x, h1, h2⟩ := mapM_error hl
        exact ⟨x, by simp [h1], h2⟩
      | ok bs =>
        rw [show (Except.ok b : Except ε β) >>= (fun y => l.mapM f >>= fun ys => pure (y :: ys))
          = (l.mapM f >>= fun ys => pure (b :: ys)) from rfl, hl] at h
        cases h

theorem sequence_error {w : World} {c : Conf} (h : Ready w c) {lim : Option (Nat × Direction)} {typeId : Nat}
    {ty : PTS.OffsetType} {i : Tokenizer.Input} {er : EncErr}
    (he : (w.tokenizer c).encodeSequenceWith lim typeId ty i = .error er) : ∃ x, w.toModel c.model x = .error er := by
  cases i with
  | raw s => exact text_error h he
  | words l =>
    simp only [Tokenizer.encodeSequenceWith] at he
    cases hm : (l.zipIdx.mapM fun x => (w.tokenizer c).encodeText lim typeId ty (some x.2) x.1) with
    | ok es => rw [hm] at he; cases he
    | error e =>
      rw [hm] at he; cases he
      obtain ⟨x, _, hx⟩ := mapM_error hm
      exact text_error h hx

/-! ## Truncation -/

theorem orPanic_isOk {α : Type} (o : Option α) : (∃ a, Tok.orPanic o = .ok a) ↔ o ≠ none := by
  cases o <;> simp [Tok.orPanic]

theorem cut_ok {e : Encoding} (h : e.WF) (n stride : Nat) (d : Direction) :
    (∃ e', Tok.orPanic (e.truncate n stride d) = .ok e') ↔ (e.len ≤ n ∨ n = 0 ∨ stride < n) := by
  rw [orPanic_isOk, ne_eq, C02_truncate_panics_iff h]
  omega

theorem bind_isOk {ε α β : Type} (x : Except ε α) (f : α → Except ε β) (hf : ∀ a, ∃ b, f a = .ok b) :
    (∃ b, x.bind f = .ok b) ↔ ∃ a, x = .ok a := by
  cases x with
  | error e => simp [Except.bind]
  | ok a => simp only [Except.bind, Except.ok.injEq, exists_eq', iff_true]; exact hf a

theorem bind_isOk₂ {ε α β γ : Type} (x : Except ε α) (y : Except ε β) (f : α → β → Except ε γ)
    (hf : ∀ a b, ∃ r, f a b = .ok r) :
    (∃ r, (x.bind fun a => y.bind (f a)) = .ok r) ↔ (∃ a, x = .ok a) ∧ ∃ b, y = .ok b := by
  cases x with
  | error e => simp [Except.bind]
  | ok a =>
    cases y with
    | error e => simp [Except.bind]
    | ok b => simp only [Except.bind, Except.ok.injEq, exists_eq', true_and, iff_true]; exact hf a b

/-- **C100 (truncation).** Truncation succeeds exactly when the lengths allow it. -/
theorem C100_truncation {e : Encoding} {pair : Option Encoding} (he : e.WF) (hp : ∀ o, pair = some o → o.WF)
    (p : TruncParams) : (∃ r, truncateEncodings e pair p = .ok r) ↔
      Cuttable p.strategy p.stride p.maxLength e.len (pair.map len) := by
  obtain ⟨m, strategy, stride, d⟩ := p
  unfold truncateEncodings Cuttable
  by_cases h0 : m = 0
  · subst h0
    simp only [if_true, true_or, or_true, iff_true]
    obtain ⟨e', h1⟩ := (cut_ok he 0 stride d).2 (by omega)
    cases pair with
    | none => rw [h1]; exact ⟨_, rfl⟩
    | some o =>
      obtain ⟨o', h2⟩ := (cut_ok (hp o rfl) 0 stride d).2 (by omega)
      rw [h1]; exact ⟨(e', some o'), by simp only [bind, Except.bind, h2]; rfl⟩
  · simp only [h0, if_false, false_or]
    by_cases ht : e.len + (pair.map len).getD 0 > m
    · rw [if_pos ht]
      have hn : ¬ e.len + (pair.map len).getD 0 ≤ m := by omega
      simp only [hn, false_or]
      cases strategy with
      | longestFirst =>
        cases pair with
        | none =>
          refine (bind_isOk _ _ fun a => ⟨_, rfl⟩).trans ?_
          rw [cut_ok he]
          simp only [Option.map_none, Option.getD_none] at *
          omega
        | some o =>
          refine (bind_isOk₂ _ _ _ fun a b => ⟨_, rfl⟩).trans ?_
          rw [cut_ok he, cut_ok (hp o rfl)]
          simp only [Option.map_some, Option.getD_some] at *
          unfold longestFirstLengths
          generalize e.len = a at *
          generalize o.len = b at *
          by_cases h1 : a > b <;> simp only [h1, decide_true, decide_false, if_true, Bool.false_eq_true, if_false]
          · by_cases h2 : b > m <;> simp only [h2, if_true, if_false]
            · rw [if_pos (by omega), if_neg (by omega)]; dsimp only; omega
            · by_cases h3 : b + max b (m - b) > m
              · rw [if_pos h3, if_neg (by omega)]; dsimp only; omega
              · rw [if_neg h3, if_pos (by omega)]; dsimp only; omega
          · by_cases h2 : a > m <;> simp only [h2, if_true, if_false]
            · rw [if_pos (by omega), if_neg (by omega)]; dsimp only; omega
            · by_cases h3 : a + max a (m - a) > m
              · rw [if_pos h3, if_neg (by omega)]; dsimp only; omega
              · rw [if_neg h3, if_pos (by omega)]; dsimp only; omega
      | onlyFirst =>
        cases pair with
        | none =>
          simp only [Option.map_none, Option.getD_none] at *
          rw [if_pos (by omega)]
          refine (bind_isOk _ _ fun a => ⟨_, rfl⟩).trans ?_
          rw [cut_ok he]
          omega
        | some o =>
          simp only [Option.map_some, Option.getD_some] at *
          by_cases h1 : e.len > e.len + o.len - m
          · rw [if_pos h1]
            refine (bind_isOk _ _ fun a => ⟨_, rfl⟩).trans ?_
            rw [cut_ok he]
            omega
          · rw [if_neg h1]
            refine iff_of_false (by simp) (by omega)
      | onlySecond =>
        cases pair with
        | none => simp
        | some o =>
          simp only [Option.map_some, Option.getD_some] at *
          by_cases h1 : o.len > e.len + o.len - m
          · rw [if_pos h1]
            refine (bind_isOk _ _ fun a => ⟨_, rfl⟩).trans ?_
            rw [cut_ok (hp o rfl)]
            omega
          · rw [if_neg h1]
            refine iff_of_false (by simp) (by omega)
    · rw [if_neg ht]
      exact iff_of_true ⟨_, rfl⟩ (.inl (by omega))

theorem always_cuttable {strategy : TruncStrategy} {stride room : Nat} (a : Nat) (b : Option Nat)
    (h : AlwaysCuttable strategy stride room b.isSome) : Cuttable strategy stride room a b := by
  unfold AlwaysCuttable at h
  unfold Cuttable
  by_cases h0 : room = 0
  · exact .inr (.inl h0)
  by_cases h1 : a + b.getD 0 ≤ room
  · exact .inl h1
  refine .inr (.inr ?_)
  cases b with
  | none =>
    simp only [Option.isSome_none, h0, false_or] at h
    cases strategy <;> simp_all
  | some b =>
    simp only [Option.isSome_some, h0, false_or] at h
    obtain ⟨rfl, h⟩ := h
    dsimp only
    split
    · omega
    · omega

/-! ## Encoding -/

/-- What comes out of the encoding of the inputs, before the post-processing. -/
theorem encodeAs_cases {w : World} {c : Conf} (h : Ready w c) (ty : PTS.OffsetType)
    (input : Tokenizer.Input × Option Tokenizer.Input) (add : Bool) :
    (∃ x er, w.toModel c.model x = .error er ∧ (w.tokenizer c).encodeAs ty input add = .error er) ∨
    ∃ e pair, e.WF ∧ (∀ o, pair = some o → o.WF) ∧ (pair.isSome = input.2.isSome) ∧
      (w.tokenizer c).encodeAs ty input add = Tokenizer.mapErr .post
        ((w.tokenizer c).settings.postProcess w.ws w.checked e pair add) := by
  unfold Tokenizer.encodeAs Tokenizer.encodeBy
  dsimp only
  cases h1 : (w.tokenizer c).encodeSequence 0 ty input.1 with
  | error er =>
    obtain ⟨x, hx⟩ := sequence_error h h1
    exact .inl ⟨x, er, hx, rfl⟩
  | ok e =>
    cases h2 : input.2 with
    | none => exact .inr ⟨e, none, Tokenizer.sequence_wf h1, by simp, rfl, rfl⟩
    | some i =>
      cases h3 : (w.tokenizer c).encodeSequence 1 ty i with
      | error er =>
        obtain ⟨x, hx⟩ := sequence_error h h3
        refine .inl ⟨x, er, hx, ?_⟩
        simp only [Except.bind, Tokenizer.optional, h3, Except.map]
      | ok o =>
        refine .inr ⟨e, some o, Tokenizer.sequence_wf h1, fun _ ho => ?_, rfl, ?_⟩
        · cases ho; exact Tokenizer.sequence_wf h3
        · simp only [Except.bind, Tokenizer.optional, h3, Except.map]; rfl

/-- **C100 (errors).** Encoding a text, a list of words or a pair fails in two cases only: the model fails on a word,
and this is the error; or truncation or post-processing fail. -/
theorem C100_errors {w : World} {c : Conf} (h : Ready w c) {ty : PTS.OffsetType}
    {input : Tokenizer.Input × Option Tokenizer.Input} {add : Bool} {er : EncErr}
    (he : (w.tokenizer c).encodeAs ty input add = .error er) :
    (∃ x, w.toModel c.model x = .error er) ∨ ∃ te, er = .post te := by
  rcases encodeAs_cases h ty input add with ⟨x, er', h1, h2⟩ | ⟨e, pair, _, _, _, h2⟩
  · rw [he] at h2; cases h2; exact .inl ⟨x, h1⟩
  · rw [he] at h2
    cases hp : (w.tokenizer c).settings.postProcess w.ws w.checked e pair add with
    | ok out => rw [hp] at h2; cases h2
    | error te => rw [hp] at h2; cases h2; exact .inr ⟨te, rfl⟩

/-- The post-processor inserts as many tokens as it says, the limit leaves room for them, and cutting to what is left
always succeeds. -/
def RoomFor (s : Post.Settings) (pair add : Bool) : Prop :=
  s.WellCounted ∧ ∀ tr, s.truncation = some tr →
    (if add then s.added pair else 0) ≤ tr.maxLength ∧
    AlwaysCuttable tr.strategy tr.stride (tr.maxLength - if add then s.added pair else 0) pair

theorem post_total {s : Post.Settings} {ws : Char → Bool} {checked add : Bool} {e : Encoding} {pair : Option Encoding}
    (he : e.WF) (hp : ∀ o, pair = some o → o.WF) (h : RoomFor s pair.isSome add) :
    ∃ out, s.postProcess ws checked e pair add = .ok out := by
  obtain ⟨hw, h⟩ := h
  cases ht : s.truncation with
  | none =>
    unfold Post.Settings.postProcess
    have e1 : s.truncate checked e pair add = .ok (e, pair) := by simp [Post.Settings.truncate, ht]
    obtain ⟨out, h1, _⟩ := Post.finish_len ws hw e pair add
    simp only [e1, h1]
    exact ⟨_, rfl⟩
  | some tr =>
    obtain ⟨h1, h2⟩ := h tr ht
    cases hr : s.postProcess ws checked e pair add with
    | ok out => exact ⟨out, rfl⟩
    | error te =>
      have h1' : s.inserted pair add ≤ tr.maxLength := h1
      have h3 := (Post.C37_fails_iff ws checked hw ht h1' te).1 hr
      obtain ⟨r, h4⟩ := (C100_truncation he hp { tr with maxLength := tr.maxLength - s.inserted pair add }).2
        (always_cuttable _ _ (by rw [Option.isSome_map]; exact h2))
      rw [h3] at h4; cases h4

/-- **C100.** If the model succeeds on every word and the settings leave room, `encode`, `encode_fast` and
`encode_char_offsets` succeed on every text, list of words and pair. -/
theorem C100_encode {w : World} {c : Conf} (h : Ready w c) (hm : ∀ x, ∃ ts, w.toModel c.model x = .ok ts)
    {input : Tokenizer.Input × Option Tokenizer.Input} {add : Bool}
    (hs : RoomFor (w.tokenizer c).settings input.2.isSome add) (ty : PTS.OffsetType) :
    ∃ out, (w.tokenizer c).encodeAs ty input add = .ok out := by
  rcases encodeAs_cases h ty input add with ⟨x, er, h1, _⟩ | ⟨e, pair, h1, h2, h3, h4⟩
  · obtain ⟨ts, h5⟩ := hm x; rw [h5] at h1; cases h1
  · rw [← h3] at hs
    obtain ⟨out, h5⟩ := post_total (ws := w.ws) (checked := w.checked) h1 h2 hs
    exact ⟨out, by rw [h4, h5]; rfl⟩

/-- **C100 (batches).** So do the batches, in whatever order their inputs are encoded. -/
theorem C100_batch {w : World} {c : Conf} (h : Ready w c) (hm : ∀ x, ∃ ts, w.toModel c.model x = .ok ts)
    {inputs : List (Tokenizer.Input × Option Tokenizer.Input)} {add : Bool}
    (hs : ∀ i ∈ inputs, RoomFor (w.tokenizer c).settings i.2.isSome add) (ty : PTS.OffsetType)
    {order : List Nat} (ho : order.Perm (List.range inputs.length)) :
    ∃ out, (w.tokenizer c).encodeBatch order ty inputs add = .ok out := by
  cases hr : (w.tokenizer c).encodeBatch order ty inputs add with
  | ok out => exact ⟨out, rfl⟩
  | error e =>
    obtain ⟨i, h1, h2⟩ := (Tokenizer.C43_batch (w.tokenizer c) ty inputs add ho).2.1 e hr
    obtain ⟨out, h3⟩ := C100_encode h hm (hs i h1) ty
    rw [h2] at h3; cases h3

/-! ## The models -/

/-- The model knows what to return for what it does not know: the unknown token of `WordPiece` and `WordLevel` is in
the vocabulary; that of `BPE` too if there is one; `Unigram` has an unknown id. -/
def KnowsUnknown : Mod → Prop
  | .bpe _ b => Bpe.Built b ∧ ∀ t, b.unk = some t → ∃ i, b.vocab.get t = some i
  | .wordPiece m => ∃ i, m.vocab.get m.unkToken = some i
  | .wordLevel m => ∃ i, m.vocab.get m.unkToken = some i
  | .unigram u => ∃ vocab k bf, Unigram.from vocab (some k) bf = .ok u

/-- **C100 (models).** Such a model succeeds on every word. -/
theorem C100_models (w : World) : ∀ {m : Mod}, KnowsUnknown m → ∀ x, ∃ ts, w.toModel m x = .ok ts
  | .bpe _ b, ⟨hb, hu⟩, x => by
    cases hl : Bpe.initSyms b x with
    | none =>
      obtain ⟨t, h1, h2, _⟩ := (Bpe.C18_error_iff (b := b) (w := x) ((Bpe.classes_iff).2 rfl)).1 hl
      obtain ⟨i, h3⟩ := hu t h1
      rw [h3] at h2; cases h2
    | some l =>
      obtain ⟨ts, h1, _⟩ := Bpe.C16_tokenize_tiles hb hl (w.coins x)
      exact ⟨ts, by simp only [World.toModel, h1]; rfl⟩
  | .wordPiece m, ⟨i, hi⟩, x => by
    cases h : m.tokenize x with
    | ok ts => exact ⟨ts, by simp only [World.toModel, h]; rfl⟩
    | error e =>
      rcases (WordPiece.C21_tokenize m x _).1 h with ⟨_, ts, _, h2⟩ | ⟨_, ⟨_, _, h2⟩ | ⟨h2, _⟩⟩
      · cases h2
      · cases h2
      · rw [hi] at h2; cases h2
  | .wordLevel m, ⟨i, hi⟩, x => by
    cases h : m.tokenize x with
    | ok ts => exact ⟨ts, by simp only [World.toModel, h]; rfl⟩
    | error e =>
      cases e
      have := ((WordLevel.C22_error m x).1 h).2
      rw [hi] at this; cases this
  | .unigram u, ⟨_, _, _, hu⟩, x => by
    obtain ⟨ts, h⟩ := Unigram.C49_total hu x
    exact ⟨ts, by simp only [World.toModel, h]; rfl⟩

/-- A word that is in no finite vocabulary: longer than every key. -/
theorem fresh_word (vocab : AMap Str Nat) : ∃ s : Str, vocab.get s = none := by
  suffices h : ∃ n, ∀ p ∈ vocab, p.1.length < n by
    obtain ⟨n, h⟩ := h
    refine ⟨List.replicate n 'a', ?_⟩
    cases hg : vocab.get (List.replicate n 'a') with
    | none => rfl
    | some i =>
      have := h _ (AMap.mem_of_get_eq_some hg)
      simp at this
  induction vocab with
  | nil => exact ⟨0, by simp⟩
  | cons p l ih =>
    obtain ⟨n, h⟩ := ih
    refine ⟨n + p.1.length + 1, fun q hq => ?_⟩
    rcases List.mem_cons.1 hq with rfl | hq
    · omega
    · have := h q hq; omega

/-- **C100 (models).** `WordPiece` and `WordLevel` models without the unknown token fail on some word. -/
theorem C100_models_only_if (w : World) : (∀ m : WordPiece, (∀ x, ∃ ts, w.toModel (.wordPiece m) x = .ok ts) →
      ∃ i, m.vocab.get m.unkToken = some i) ∧
    ∀ m : WordLevel, (∀ x, ∃ ts, w.toModel (.wordLevel m) x = .ok ts) → ∃ i, m.vocab.get m.unkToken = some i := by
  constructor
  · intro m h
    obtain ⟨ts, h⟩ := h (List.replicate (m.maxInputChars + 1) 'a')
    cases hg : m.vocab.get m.unkToken with
    | some i => exact ⟨i, rfl⟩
    | none =>
      have := (WordPiece.C21_tokenize m (List.replicate (m.maxInputChars + 1) 'a') (.error ())).2
        (.inr ⟨.inl (by simp), .inr ⟨hg, rfl⟩⟩)
      simp only [World.toModel, this] at h
      cases h
  · intro m h
    obtain ⟨s, hs⟩ := fresh_word m.vocab
    obtain ⟨ts, h⟩ := h s
    cases hg : m.vocab.get m.unkToken with
    | some i => exact ⟨i, rfl⟩
    | none =>
      simp only [World.toModel, (WordLevel.C22_error m s).2 ⟨hs, hg⟩] at h
      cases h

/-! ## Files -/

/-- **C100 (files).** A tokenizer loaded from a file, whose model knows its unknown token, encodes every text: the added
tokens of a file never get in the way. -/
theorem C100_file {w : World} {e : Env} {skip : Bool} {build : List (Str × Nat) → Bool}
    (hb : ∀ l, build l = true → ∀ p ∈ l, p.1 ≠ []) {j : Json} {c : Conf} (hl : load e skip build w.norm j = .ok c)
    (hview : c.model.view.Ok) (hu : w.uni.Ok) (hsafe : ∀ n, c.normalizer = some n → (w.toNorm n).Safe)
    (hsound : ∀ n, c.preTok = some n → (w.toPre n).Sound) (hn1 : Neat w.cl c.added c.added.trie)
    (hn2 : Neat w.cl c.added c.added.normTrie) (hm : KnowsUnknown c.model) :
    Ready w c ∧ ∀ (input : Tokenizer.Input × Option Tokenizer.Input) (add : Bool),
      RoomFor (w.tokenizer c).settings input.2.isSome add →
      ∀ ty, ∃ out, (w.tokenizer c).encodeAs ty input add = .ok out := by
  have hr : Ready w c := by
    refine ⟨hu, hsafe, hsound, ?_, hn1, hn2⟩
    obtain ⟨l, ha⟩ := load_added hl
    refine ⟨c.model.view, build, [.add (w.norm c.normalizer) (l.map (·.2))], hview, hb, ?_⟩
    unfold loadAdded at ha
    cases hx : AddedVocab.empty.addTokens build c.model.view (w.norm c.normalizer) (l.map (·.2)) with
    | mk r o =>
      rw [hx] at ha
      cases o with
      | none => cases ha
      | some k => cases ha; simp [AddedVocab.after, AddedVocab.apply, hx]
  exact ⟨hr, fun input add hs ty => C100_encode hr (C100_models w hm) hs ty⟩

/-! ## Examples -/

/-- A tokenizer with normalizers, pre-tokenizers, added tokens (one takes the spaces on its left), special tokens and a
limit. -/
def readyConf : Conf :=
  ⟨some ⟨4, .longestFirst, 0, .right⟩, none,
    AddedVocab.after buildStrict (Mod.bpe none holeBpe).view .empty
      [.add none [{ AddedToken.ofStr "<m>".toList true with lstrip := true }, .ofStr "ab".toList false]],
    some (.sequence [.nfc, .lowercase]), some (.sequence [.whitespaceSplit, .digits true]),
    some (.bert ("[SEP]".toList, 7) ("[CLS]".toList, 8)), none, .bpe none holeBpe⟩

theorem readyConf_ready : Ready fileWorld readyConf where
  unicode := Normalizer.sample_ok
  safe n h := by cases h; exact ⟨trivial, trivial, trivial⟩
  sound n h := by cases h; exact ⟨trivial, trivial, trivial⟩
  added := ⟨_, buildStrict, _, holeView_ok, fun l h p hp => ((of_decide_eq_true h).2 p hp), rfl⟩
  neat := .inl (by decide +kernel)
  neatNorm := .inl (by decide +kernel)

theorem readyConf_room (pair add : Bool) : RoomFor (fileWorld.tokenizer readyConf).settings pair add := by
  refine ⟨fun p h => ?_, fun tr h => ?_⟩
  · cases h; exact .keeps (.bert _)
  · cases h
    cases pair <;> cases add <;>
      exact ⟨by decide, .inr (by first | exact ⟨by decide, by decide⟩ | exact ⟨rfl, .inl rfl⟩)⟩

/-- It encodes everything. -/
example (input : Tokenizer.Input × Option Tokenizer.Input) (add : Bool) (ty : PTS.OffsetType) :
    ∃ out, (fileWorld.tokenizer readyConf).encodeAs ty input add = .ok out :=
  C100_encode readyConf_ready (C100_models _ ⟨hole_built, fun t h => by cases h⟩) (readyConf_room _ _) ty

example (order : List Nat) (inputs : List (Tokenizer.Input × Option Tokenizer.Input)) (ty : PTS.OffsetType)
    (h : order.Perm (List.range inputs.length)) :
    ∃ out, (fileWorld.tokenizer readyConf).encodeBatch order ty inputs true = .ok out :=
  C100_batch readyConf_ready (C100_models _ ⟨hole_built, fun t h => by cases h⟩) (fun _ _ => readyConf_room _ _) ty h

/-- Cutting 6 and 2 tokens to 5 keeps 3 and 2: a stride of 2 is fine, a stride of 3 panics. -/
example : Cuttable .longestFirst 2 5 6 (some 2) ∧ ¬ Cuttable .longestFirst 3 5 6 (some 2) := by
  unfold Cuttable; decide

/-- Of 4 and 4 tokens cut to 5 the first keeps only 2. -/
example : Cuttable .longestFirst 1 5 4 (some 4) ∧ ¬ Cuttable .longestFirst 2 5 4 (some 4) := by
  unfold Cuttable; decide

/-- `only_first` cannot help if the second input alone is too long. -/
example : ¬ Cuttable .onlyFirst 0 5 4 (some 5) ∧ Cuttable .onlyFirst 0 5 4 (some 4) := by
  unfold Cuttable; decide

/-- A model without its unknown token: the error of the model is the error of `encode`. -/
example : (match (fileWorld.tokenizer { readyConf with model := .wordLevel ⟨[("a".toList, 0)], "[UNK]".toList⟩ }).encodeAs
    .byte (.raw "a b".toList, none) true with | .error (.model 0) => true | _ => false) = true := by decide +kernel

end Tok.NoErrors
