import Verif.Tokenizer.OffsetsAll

/-!
# C59, continued: without a normalizer the offsets select the very text of the token
-/

namespace Tok
open Encoding AddedVocab PTS

namespace NS

/-- The piece is a part of the text, character by character. -/
def Verbatim (whole : Str) (n : NS) : Prop :=
  ∃ p q, whole = p ++ n.norm ++ q ∧ n.spans = alignFrom (blen p) n.norm

theorem verbatim_ofStr (s : Str) : Verbatim s (ofStr s) :=
  ⟨[], [], by simp [ofStr], by simp [spans, ofStr]⟩

theorem alignFrom_append : ∀ (a b : Str) (k : Nat), alignFrom k (a ++ b) = alignFrom k a ++ alignFrom (k + blen a) b
  | [], b, k => by simp [alignFrom]
  | c :: a, b, k => by simp [alignFrom, alignFrom_append a b, Nat.add_assoc]

theorem length_alignFrom : ∀ (a : Str) (k : Nat), (alignFrom k a).length = blen a
  | [], _ => rfl
  | c :: a, k => by simp [alignFrom, length_alignFrom a]

theorem alignFrom_part {a m b : Str} {k : Nat} :
    ((alignFrom k (a ++ m ++ b)).take (blen a + blen m)).drop (blen a) = alignFrom (k + blen a) m := by
  rw [alignFrom_append, alignFrom_append, List.take_left' (by simp [length_alignFrom]),
    List.drop_left' (by simp [length_alignFrom])]

/-- The first and the last byte of a part that is not empty. -/
theorem alignFrom_ends {m : Str} (hm : m ≠ []) (k : Nat) :
    (∃ y, (alignFrom k m)[0]? = some y ∧ y.1 = k) ∧ ∃ y, (alignFrom k m)[blen m - 1]? = some y ∧ y.2 = k + blen m := by
  constructor
  · obtain ⟨c, m, rfl⟩ := List.exists_cons_of_ne_nil hm
    have := c.utf8Size_pos
    refine ⟨(k, k + c.utf8Size), ?_, rfl⟩
    rw [alignFrom, List.getElem?_append_left (by simp; omega), List.getElem?_replicate, if_pos this]
  · obtain ⟨m', c, rfl⟩ : ∃ m' c, m = m' ++ [c] := ⟨m.dropLast, m.getLast hm, (List.dropLast_concat_getLast hm).symm⟩
    have := c.utf8Size_pos
    refine ⟨(k + blen m', k + blen m' + c.utf8Size), ?_, by simp [Nat.add_assoc]⟩
    rw [alignFrom_append, List.getElem?_append_right (by simp [length_alignFrom]; omega)]
    simp only [alignFrom, List.append_nil, length_alignFrom]
    rw [List.getElem?_replicate, if_pos (by simp; omega)]

theorem slice_verbatim {whole : Str} {n x : NS} (hn : n.Verbatim whole) {r : Range} (h : n.sliceNormalized r = some (some x)) :
    x.Verbatim whole := by
  obtain ⟨p, q, hw, hs⟩ := hn
  obtain ⟨m, hm⟩ : ∃ m, strGet n.norm r.1 r.2 = some m := by
    cases hm : strGet n.norm r.1 r.2 with
    | none => rw [C10_slice_invalid hm] at h; cases h
    | some m => exact ⟨m, rfl⟩
  unfold sliceNormalized at h
  split at h
  · rename_i hb
    cases hor : n.convertNormalized r with
    | none => rw [hor] at h; cases h
    | some or =>
      rw [hor] at h
      obtain ⟨a, b, e1, e2, e3⟩ := strGet_eq_some.1 hm
      dsimp only at h
      rw [hm] at h
      unfold sliceWith at h
      split at h
      · cases h
      · rename_i al hal
        split at h
        · rename_i hall
          simp only [Option.some.injEq] at h
          subst h
          refine ⟨p ++ a, b ++ q, by dsimp only; rw [hw, e1]; simp, ?_⟩
          have : n.spans = n.al.map fun c => (n.shift + c.1, n.shift + c.2) := rfl
          have h2 : (n.spans.take r.2).drop r.1 = alignFrom (blen p + blen a) m := by
            rw [hs, e1, ← e2, ← e3, alignFrom_part]
          dsimp only [Option.getD_some]
          rw [blen_append, ← h2, this, ← List.map_take, ← List.map_drop]
          unfold slice? at hal
          split at hal
          · cases hal
            unfold spans
            rw [List.map_map]
            apply List.map_congr_left
            intro c hc
            have := List.all_eq_true.1 hall c hc
            simp only [decide_eq_true_eq] at this
            dsimp only [Function.comp]
            refine Prod.ext ?_ ?_ <;> dsimp only <;> omega
          · cases hal
        · cases h
  · cases h

end NS

/-! ## Cutting -/

namespace PTS

/-- A function that cuts a piece into parts of it and gives no tokens. -/
def Slicing (f : Nat → NS → Except Unit (List Split)) : Prop :=
  ∀ i n o, f i n = .ok o → ∀ x ∈ o, x.tokens = none ∧ ∃ r, n.sliceNormalized r = some (some x.normalized)

/-- All the pieces are parts of the text; those with a token have exactly one, with their text. -/
def Verbatim (p : PTS) : Prop :=
  ∀ x ∈ p.splits, x.normalized.Verbatim p.original ∧
    ∀ ts, x.tokens = some ts → ∃ id, ts = [⟨id, x.normalized.norm, (0, blen x.normalized.norm)⟩]

theorem verbatim_ofStr (s : Str) : (ofStr s).Verbatim := by
  intro x hx
  simp only [ofStr, ofNS, List.mem_singleton] at hx
  subst hx
  exact ⟨NS.verbatim_ofStr s, fun ts h => by cases h⟩

theorem split_verbatim {p p' : PTS} {f : Nat → NS → Except Unit (List Split)} (hp : p.Verbatim)
    (hf : ∀ i n o, n.Verbatim p.original → f i n = .ok o → ∀ x ∈ o, x.normalized.Verbatim p.original ∧
      ∀ ts, x.tokens = some ts → ∃ id, ts = [⟨id, x.normalized.norm, (0, blen x.normalized.norm)⟩])
    (h : p.split f = .ok p') : p'.Verbatim ∧ p'.original = p.original := by
  obtain ⟨h0, outs, h1, h2, h3⟩ := (C13_split_in_place p p' f).1 h
  refine ⟨?_, h0⟩
  intro x hx
  rw [h2, List.mem_flatten] at hx
  obtain ⟨out, ho, hx⟩ := hx
  obtain ⟨i, hi, rfl⟩ := List.getElem_of_mem ho
  have hi' : i < p.splits.length := by omega
  obtain ⟨g1, g2⟩ := h3 i _ _ (List.getElem?_eq_getElem hi') (List.getElem?_eq_getElem hi)
  rw [h0]
  cases ht : p.splits[i].tokens with
  | some ts =>
    rw [g1 (by rw [ht]; rfl), List.mem_singleton] at hx
    subst hx
    exact hp _ (List.getElem_mem hi')
  | none =>
    obtain ⟨o, k1, k2⟩ := g2 ht
    rw [k2] at hx
    exact hf i _ o (hp _ (List.getElem_mem hi')).1 k1 x ((List.mem_filter.1 hx).1)

theorem slicing_verbatim {p p' : PTS} {f : Nat → NS → Except Unit (List Split)} (hp : p.Verbatim) (hf : Slicing f)
    (h : p.split f = .ok p') : p'.Verbatim ∧ p'.original = p.original :=
  split_verbatim hp (fun i n o hn ho x hx => by
    obtain ⟨h1, r, h2⟩ := hf i n o ho x hx
    exact ⟨NS.slice_verbatim hn h2, fun ts ht => by rw [h1] at ht; cases ht⟩) h

end PTS

namespace PreTokenizer
open NS PTS

mutual
/-- The pre-tokenizers that only cut the text. -/
def OnlyCuts : PreTokenizer → Prop
  | .byteLevel _ _ => False
  | .metaspace _ => False
  | .sequence l => OnlyCutsAll l
  | _ => True

def OnlyCutsAll : List PreTokenizer → Prop
  | [] => True
  | z :: l => z.OnlyCuts ∧ OnlyCutsAll l
end

theorem splitFn_slicing (ms : Str → Matches) (b : Behavior) : Slicing (splitFn ms b) := by
  intro i n o h x hx
  unfold splitFn at h
  split at h
  · cases h
  · rename_i out ho
    cases h
    obtain ⟨y, hy, rfl⟩ := List.mem_map.1 hx
    refine ⟨rfl, ?_⟩
    unfold NS.split at ho
    obtain ⟨m, _, hm⟩ := Over.mem_mapM ho y hy
    refine ⟨m.1, ?_⟩
    cases hs : n.sliceNormalized m.1 with
    | none => rw [hs] at hm; cases hm
    | some z => rw [hs] at hm; exact congrArg some hm

theorem splitRegexFn_slicing (re : Str → List Range) (b : Behavior) (inv : Bool) : Slicing (splitRegexFn re b inv) := by
  unfold splitRegexFn
  split <;> exact splitFn_slicing _ _

theorem slices_slicing {n : NS} {rs : List Range} {out : List NS}
    (h : rs.mapM (fun r => (n.sliceNormalized r).bind id) = some out) :
    ∀ x ∈ out.map (fun y => (⟨y, none⟩ : Split)), x.tokens = none ∧ ∃ r, n.sliceNormalized r = some (some x.normalized) := by
  intro x hx
  obtain ⟨y, hy, rfl⟩ := List.mem_map.1 hx
  obtain ⟨r, _, hr⟩ := slices_mem rs h y hy
  exact ⟨rfl, r, hr⟩

theorem fixedLengthFn_slicing (k : Nat) : Slicing (fixedLengthFn k) := by
  intro i n o h
  unfold fixedLengthFn at h
  split at h
  · cases h; simp
  · split at h
    · cases h
    · split at h
      · cases h
      · rename_i out ho
        cases h
        exact slices_slicing ho

theorem scriptsFn_slicing (u : CharTables) : Slicing (scriptsFn u) := by
  intro i n o h
  unfold scriptsFn at h
  split at h
  · cases h
  · rename_i out ho
    cases h
    exact slices_slicing ho

mutual
theorem apply_verbatim (u : CharTables) : ∀ (z : PreTokenizer), z.OnlyCuts → ∀ {p p' : PTS}, p.Verbatim → z.apply u p = .ok p' →
    p'.Verbatim ∧ p'.original = p.original
  | .bert, _, p, p', hp, h => by
    simp only [apply, bertPreTokenize] at h
    cases h1 : p.split (splitFn (findPred u.ws) .removed) with
    | error e => rw [h1] at h; cases h
    | ok p1 =>
      rw [h1] at h
      obtain ⟨a1, a2⟩ := slicing_verbatim hp (splitFn_slicing _ _) h1
      obtain ⟨b1, b2⟩ := slicing_verbatim a1 (splitFn_slicing _ _) h
      exact ⟨b1, b2.trans a2⟩
  | .byteLevel cfg re, hs, p, p', hp, h => hs.elim
  | .delimiter c, _, p, p', hp, h => slicing_verbatim hp (splitFn_slicing _ _) h
  | .metaspace cfg, hs, p, p', hp, h => hs.elim
  | .whitespace, _, p, p', hp, h => slicing_verbatim hp (show Slicing (whitespaceFn u) from splitRegexFn_slicing (wordMatches u none 0) .removed true) h
  | .sequence l, hs, p, p', hp, h => applyAll_verbatim u l hs hp h
  | .split re b inv, hs, p, p', hp, h => slicing_verbatim hp (splitRegexFn_slicing _ _ _) h
  | .punctuation b, _, p, p', hp, h => slicing_verbatim hp (splitFn_slicing _ _) h
  | .whitespaceSplit, _, p, p', hp, h => slicing_verbatim hp (splitFn_slicing _ _) h
  | .digits i, _, p, p', hp, h => by
    simp only [apply] at h
    split at h <;> exact slicing_verbatim hp (splitFn_slicing _ _) h
  | .unicodeScripts, _, p, p', hp, h => slicing_verbatim hp (scriptsFn_slicing u) h
  | .fixedLength n, hs, p, p', hp, h => slicing_verbatim hp (fixedLengthFn_slicing n) h

theorem applyAll_verbatim (u : CharTables) : ∀ (l : List PreTokenizer), OnlyCutsAll l → ∀ {p p' : PTS}, p.Verbatim →
    applyAll u l p = .ok p' → p'.Verbatim ∧ p'.original = p.original
  | [], _, p, p', hp, h => by rw [applyAll] at h; cases h; exact ⟨hp, rfl⟩
  | z :: l, hs, p, p', hp, h => by
    simp only [applyAll] at h
    cases h1 : z.apply u p with
    | error e => rw [h1] at h; cases h
    | ok p1 =>
      rw [h1] at h
      obtain ⟨a1, a2⟩ := apply_verbatim u z hs.1 hp h1
      obtain ⟨b1, b2⟩ := applyAll_verbatim u l hs.2 a1 h
      exact ⟨b1, b2.trans a2⟩
end

end PreTokenizer

namespace AddedVocab

theorem splitWithIndices_verbatim {cl : Classes} {av : AddedVocab} {pats : List (Str × Nat)} {whole : Str} {n : NS}
    (hn : n.Verbatim whole) {o : List Split} (h : splitWithIndices cl av pats n = some o) :
    ∀ x ∈ o, x.normalized.Verbatim whole ∧
      ∀ ts, x.tokens = some ts → ∃ id, ts = [⟨id, x.normalized.norm, (0, blen x.normalized.norm)⟩] := by
  unfold splitWithIndices at h
  cases hf : findMatches cl av pats n.norm with
  | none => rw [hf] at h; cases h
  | some l =>
    rw [hf] at h
    obtain ⟨k1, k2⟩ := toSplit_slices l h
    intro x hx
    refine ⟨?_, k2 x hx⟩
    obtain ⟨r, _, hr⟩ := NS.slices_mem _ k1 x.normalized (List.mem_map_of_mem hx)
    exact NS.slice_verbatim hn hr

end AddedVocab

namespace Tokenizer

theorem preTokenized_verbatim {t : Tokenizer} {u : Unicode} {v : CharTables} {y : PreTokenizer}
    (h : IsLibrary t u (.sequence []) v y) (hy : y.OnlyCuts) {s : Str} {p : PTS} (hp : t.preTokenized s = .ok p) : p.Verbatim := by
  unfold preTokenized extractAndNormalize at hp
  cases h1 : PTS.split (PTS.ofStr s) (fun _ n => AddedVocab.orPanic (splitWithIndices t.cl t.added t.added.trie n)) with
  | error e => rw [h1] at hp; cases hp
  | ok p1 =>
    rw [h1] at hp
    obtain ⟨a1, a2⟩ := split_verbatim (verbatim_ofStr s) (fun i n o hn ho => by
      cases hw : splitWithIndices t.cl t.added t.added.trie n with
      | none => rw [hw] at ho; cases ho
      | some o' =>
        rw [hw] at ho; cases ho
        exact splitWithIndices_verbatim hn hw) h1
    cases h2 : p1.split (fun _ n => AddedVocab.orPanic ((t.normalizer n).bind (splitWithIndices t.cl t.added t.added.normTrie))) with
    | error e =>
      dsimp only [Except.bind] at hp
      rw [h2] at hp; cases hp
    | ok p2 =>
      dsimp only [Except.bind] at hp
      rw [h2] at hp
      obtain ⟨b1, b2⟩ := split_verbatim a1 (fun i n o hn ho => by
        rw [h.normalizer] at ho
        have hid : Normalizer.apply u (.sequence []) n = some n := rfl
        rw [hid, Option.bind_some] at ho
        cases hw : splitWithIndices t.cl t.added t.added.normTrie n with
        | none => rw [hw] at ho; cases ho
        | some o' =>
          rw [hw] at ho; cases ho
          exact splitWithIndices_verbatim hn hw) h2
      have hp : t.preTok p2 = .ok p := hp
      rw [h.preTok] at hp
      cases h3 : y.apply v p2 with
      | error e =>
        dsimp only at hp
        rw [h3] at hp; cases hp
      | ok p3 =>
        dsimp only at hp
        rw [h3] at hp; cases hp
        exact (PreTokenizer.apply_verbatim v y hy b1 h3).1

/-- Tokens that stand for the text of the word at their offsets, up to `R`. -/
def Reads (R : Str → Str → Prop) (w : Str) (ts : List Token) : Prop :=
  ∀ t ∈ ts, ∃ a m b, w = a ++ m ++ b ∧ m ≠ [] ∧ t.offsets = (blen a, blen a + blen m) ∧ R t.value m

/-- The value of a row. -/
def valueOf (r : Row) : Str := r.2.2.1

/-- **C59, the text of a token.** Without a normalizer and with a pre-tokenizer that only cuts, the part of the text at
the offsets of a token is the very part of the word from which the model made the token: what holds between tokens and
text in the model (`R`) holds between tokens and text in the encoding. An added token has its own text. -/
theorem C59_exact {t : Tokenizer} {u : Unicode} {v : CharTables} {y : PreTokenizer}
    (h : IsLibrary t u (.sequence []) v y) (hy : y.OnlyCuts) {R : Str → Str → Prop} (hR : ∀ x, R x x)
    (hm : ∀ w ts, w ≠ [] → t.model w = .ok ts → Reads R w ts)
    {lim : Option (Nat × Direction)} {typeId : Nat} {ty : OffsetType} (hty : ty ≠ .none) {word : Option Nat} {s : Str}
    {e : Encoding} (he : t.encodeText lim typeId ty word s = .ok e) :
    ∀ r ∈ e.rows, ∃ p m q, s = p ++ m ++ q ∧ m ≠ [] ∧
      offsetsOf r = (if ty = .char then (p.length, p.length + m.length) else (blen p, blen p + blen m)) ∧
      R (valueOf r) m := by
  obtain ⟨p, q, hp, hq, he⟩ := encodeText_steps he
  obtain ⟨p1, p2, p3⟩ := preTokenized_lined h hp
  have pv := preTokenized_verbatim h hy hp
  have out := tokenizeIn_out hm (fun x hx => ⟨p3 x hx, fun ts hts => by
    obtain ⟨id, rfl⟩ := (pv x hx).2 ts hts
    intro t ht
    rw [List.mem_singleton.1 ht]
    exact ⟨[], _, [], by simp, p3 x hx, by simp, hR _⟩⟩) hq
  obtain ⟨e', g1, _, g3⟩ := C13_into_encoding (p := q) (fun s hs => by
    obtain ⟨ts, hts, _⟩ := out.2.2 s hs; rw [hts]; rfl) word typeId ty hty
  rw [he] at g1; cases g1
  rw [g3, out.1, p2]
  intro r hr
  obtain ⟨si, h1, h2⟩ := List.mem_flatMap.1 hr
  obtain ⟨tk, h3, rfl⟩ := List.mem_map.1 h2
  have hmem : si.1 ∈ q.splits := by
    have := List.mem_map_of_mem (f := Prod.fst) h1
    rwa [List.zipIdx_map_fst] at this
  obtain ⟨ts, k1, k2⟩ := out.2.2 si.1 hmem
  rw [k1] at h3
  obtain ⟨a, m, b, e1, e2, e3, e4⟩ := k2 tk h3
  obtain ⟨x, hx, hxe⟩ := List.mem_map.1 (out.2.1.subset (List.mem_map_of_mem hmem))
  have hv := (pv x hx).1
  have hg := p1.good x hx
  rw [p2] at hv hg
  simp only [hxe] at hv hg
  obtain ⟨P, Q, w1, w2⟩ := hv
  have hpos := blen_pos e2
  have hs : s = (P ++ a) ++ m ++ (b ++ Q) := by rw [w1, e1]; simp
  have hb : tokenOffsets s .byte si.1.normalized tk = (blen (P ++ a), blen (P ++ a) + blen m) := by
    obtain ⟨f, l, f1, f2, f3⟩ := tokenOffsets_spans hg (t := tk) (by rw [e3]; dsimp only; omega)
      (by rw [e3, e1]; simp)
    rw [f3]
    rw [w2, e3, e1, NS.alignFrom_append, NS.alignFrom_append] at f1 f2
    obtain ⟨⟨y1, z1, z2⟩, y2, z3, z4⟩ := NS.alignFrom_ends e2 (blen P + blen a)
    have hlt : ∀ k, (NS.alignFrom k m).length = blen m := NS.length_alignFrom m
    dsimp only at f1 f2
    rw [List.getElem?_append_left (by simp [NS.length_alignFrom]; omega),
      List.getElem?_append_right (by simp [NS.length_alignFrom])] at f1
    rw [List.getElem?_append_left (by simp [NS.length_alignFrom]; omega),
      List.getElem?_append_right (by simp [NS.length_alignFrom]; omega)] at f2
    rw [NS.length_alignFrom, Nat.sub_self, z1] at f1
    rw [NS.length_alignFrom, show blen a + blen m - 1 - blen a = blen m - 1 by omega, z3] at f2
    cases f1; cases f2
    rw [z2, z4]; simp
  refine ⟨P ++ a, m, b ++ Q, hs, e2, ?_, e4⟩
  show tokenOffsets s ty si.1.normalized tk = _
  cases ty with
  | byte => rw [if_neg (by simp)]; exact hb
  | none => exact absurd rfl hty
  | char =>
    rw [if_pos rfl]
    have : tokenOffsets s .char si.1.normalized tk
        = (convert s (tokenOffsets s .byte si.1.normalized tk)).getD (tokenOffsets s .byte si.1.normalized tk) := rfl
    rw [this, hb, hs, C14_convert (P ++ a) m (b ++ Q) (.inl e2)]; rfl

/-! ## The models -/

theorem _root_.Tok.WordLevel.reads {m : WordLevel} {w : Str} {ts : List Token} (hw : w ≠ []) (h : m.tokenize w = .ok ts) :
    Reads (fun v x => v = x ∨ v = m.unkToken) w ts := by
  obtain ⟨t, rfl, h1, _, h2⟩ := (WordLevel.C22_tokenize m w ts).1 h
  intro x hx
  rw [List.mem_singleton.1 hx]
  exact ⟨[], w, [], by simp, hw, by simp [h1], h2.imp id (·.2)⟩

theorem _root_.Tok.WordPiece.greedy_reads {m : WordPiece} {start : Nat} {s : Str} {ts : List Token} (h : m.Greedy start s ts) :
    ∀ t ∈ ts, ∃ a x b, s = a ++ x ++ b ∧ x ≠ [] ∧ t.offsets = (start + blen a, start + blen a + blen x) ∧
      (t.value = x ∨ t.value = m.continuingPrefix ++ x) := by
  induction h with
  | nil => simp
  | @cons start x rest id ts h1 h2 ih =>
    intro t ht
    rcases List.mem_cons.1 ht with rfl | ht
    · refine ⟨[], x, rest, by simp, h1.1, by simp, ?_⟩
      cases start with
      | zero => exact .inl rfl
      | succ k => exact .inr rfl
    · obtain ⟨a, x', b, e1, e2, e3, e4⟩ := ih t ht
      exact ⟨x ++ a, x', b, by rw [e1]; simp, e2, by rw [e3]; simp [Nat.add_assoc], e4⟩

theorem _root_.Tok.WordPiece.reads {m : WordPiece} {w : Str} {ts : List Token} (hw : w ≠ []) (h : m.tokenize w = .ok ts) :
    Reads (fun v x => v = x ∨ v = m.continuingPrefix ++ x ∨ v = m.unkToken) w ts := by
  rcases (WordPiece.C21_tokenize m w (.ok ts)).1 h with ⟨_, ts', h1, h2⟩ | ⟨_, ⟨id, _, h2⟩ | ⟨_, h2⟩⟩
  · cases h2
    intro t ht
    obtain ⟨a, x, b, e1, e2, e3, e4⟩ := WordPiece.greedy_reads h1 t ht
    exact ⟨a, x, b, e1, e2, by simpa using e3, e4.imp id .inl⟩
  · cases h2
    intro t ht
    rw [List.mem_singleton.1 ht]
    exact ⟨[], w, [], by simp, hw, by simp, .inr (.inr rfl)⟩
  · cases h2

theorem _root_.Tok.Unigram.tokens_read {vocab : List (Str × Rat)} {unk : Option Nat} : ∀ {ps : List Str} {pos : Nat} {ts : List Token},
    (∀ p ∈ ps, p ≠ []) → Unigram.TokensSpec vocab unk false pos ps ts →
    ∀ t ∈ ts, ∃ a m b, ps.flatten = a ++ m ++ b ∧ m ≠ [] ∧ t.offsets = (pos + blen a, pos + blen a + blen m) ∧ t.value = m
  | [], pos, ts, _, h => by
    have h : ts = [] := h
    subst h; simp
  | p :: ps, pos, ts, hne, ⟨g, r, h1, h2, h3⟩ => by
    subst h1
    intro t ht
    rcases List.mem_append.1 ht with ht | ht
    · refine ⟨[], p, ps.flatten, by simp, hne p List.mem_cons_self, ?_⟩
      rcases h2 with ⟨i, sc, _, rfl⟩ | ⟨_, h, _⟩ | ⟨_, _, k, _, rfl⟩
      · rw [List.mem_singleton.1 ht]; simp
      · simp at h
      · rw [List.mem_singleton.1 ht]; simp
    · obtain ⟨a, m, b, e1, e2, e3, e4⟩ := Unigram.tokens_read (fun x hx => hne x (List.mem_cons_of_mem _ hx)) h3 t ht
      exact ⟨p ++ a, m, b, by rw [List.flatten_cons, e1]; simp, e2, by rw [e3]; simp [Nat.add_assoc], e4⟩

theorem _root_.Tok.Unigram.reads {vocab : List (Str × Rat)} {unk : Option Nat} {u : Unigram}
    (hu : Unigram.from vocab unk false = .ok u) {w : Str} {ts : List Token} (hw : w ≠ []) (h : u.tokenize w = .ok ts) :
    Reads (fun v x => v = x) w ts := by
  obtain ⟨ps, h1, h2, h3⟩ := Unigram.C49_tokenize hu h
  intro t ht
  obtain ⟨a, m, b, e1, e2, e3, e4⟩ := Unigram.tokens_read (Unigram.encode_ne hu hw h1) h3 t ht
  exact ⟨a, m, b, by rw [← h2, e1], e2, by simpa using e3, e4⟩

/-! ## Concrete cases -/

theorem piece_inWord {w : Str} {ts : List Token} (hw : w ≠ [])
    (h : mapErr (fun _ => EncErr.model 0) (pieceModel.tokenize w) = .ok ts) : InWord w ts := by
  cases hp : pieceModel.tokenize w with
  | error x => rw [hp] at h; cases h
  | ok ts' => rw [hp] at h; cases h; exact WordPiece.inWord hw hp

/-- A BERT tokenizer that cuts its encodings to 4 tokens, pads them to 6, and cuts at spaces only; no normalizer. -/
def cutPipeline : Tokenizer :=
  { bertPipeline with
    normalizer := (Normalizer.sequence []).apply Normalizer.sample
    preTok := fun p => mapErr (fun _ => .preTok 0) (PreTokenizer.whitespaceSplit.apply asciiTables p)
    added := AddedVocab.empty
    settings := ⟨some ⟨4, .longestFirst, 0, .right⟩, some ⟨.fixed 6, .right, none, ⟨0, 0, "[PAD]".toList⟩⟩,
      some (.bert ⟨("[SEP]".toList, 2), ("[CLS]".toList, 1)⟩)⟩ }

theorem cutPipeline_ok : IsLibrary cutPipeline Normalizer.sample (.sequence []) asciiTables .whitespaceSplit where
  normalizer := rfl
  preTok := rfl
  unicode := Normalizer.sample_ok
  safe := trivial
  sound := trivial
  tries := by intro p hp; cases hp
  neat := ⟨.inl (fun _ hp => by cases hp), .inl (fun _ hp => by cases hp)⟩

/-! The hypotheses hold of both; the offsets of the first are in bytes of the text before the normalizer. -/

example (s : Str) (e : Encoding) (h : bertPipeline.encodeSequence 0 .byte (.raw s) = .ok e) :
    e.offsets.length = e.ids.length ∧ (∀ o ∈ e.offsets, Delimits s .byte o) ∧
      e.offsets.Pairwise fun o o' => o.1 ≤ o'.1 ∧ o.2 ≤ o'.2 :=
  C59_text bertPipeline_ok.library (fun _ _ => piece_inWord) (by simp) h

example : (bertPipeline.encodeSequence 0 .byte (.raw "Hugs, <X>Zé NEW york!".toList)).toOption.map (fun e => (e.ids, e.offsets)) =
    some ([3, 4, 5, 7, 6, 8, 0], [(0, 3), (3, 4), (4, 5), (6, 9), (9, 12), (13, 21), (21, 22)]) := by
  decide +kernel

example (input : Input × Option Input) (e : Encoding) (h : cutPipeline.encodeAs .char input true = .ok e) :
    e.Over fun o => o = (0, 0) ∨ ∃ s ∈ inputTexts input, Delimits s .char o :=
  C59_encode cutPipeline_ok (fun _ _ => piece_inWord) (fun p hp => by cases hp; exact .bert _) (by simp) h

example : (cutPipeline.encodeAs .char (.raw "é hugs".toList, none) true).toOption.map
      (fun e => [(e.ids, e.offsets)] ++ e.overflowing.map fun o => (o.ids, o.offsets)) =
    some [([1, 0, 3, 2, 0, 0], [(0, 0), (0, 1), (2, 5), (0, 0), (0, 0), (0, 0)]),
      ([1, 4, 2, 0, 0, 0], [(0, 0), (5, 6), (0, 0), (0, 0), (0, 0), (0, 0)])] := by
  decide +kernel

example (s : Str) (e : Encoding) (h : cutPipeline.encodeText none 0 .char none s = .ok e) :
    ∀ r ∈ e.rows, ∃ p m q, s = p ++ m ++ q ∧ m ≠ [] ∧ offsetsOf r = (p.length, p.length + m.length) ∧
      (valueOf r = m ∨ valueOf r = "##".toList ++ m ∨ valueOf r = "[UNK]".toList) := by
  have := C59_exact cutPipeline_ok trivial (R := fun v x => v = x ∨ v = "##".toList ++ x ∨ v = "[UNK]".toList)
    (fun _ => .inl rfl) (fun w ts hw hm => by
      have hm : mapErr (fun _ => EncErr.model 0) (pieceModel.tokenize w) = .ok ts := hm
      cases hp : pieceModel.tokenize w with
      | error x => rw [hp] at hm; cases hm
      | ok ts' => rw [hp] at hm; cases hm; exact WordPiece.reads hw hp) (by simp) h
  simpa using this

end Tokenizer
end Tok
