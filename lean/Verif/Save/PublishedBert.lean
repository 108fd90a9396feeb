import Verif.Save.PublishedLlama
import Verif.Tokenizer.Pipeline

/-!
# C67: the file of a tokenizer like BERT's
-/

namespace Tok
open Encoding
namespace AddedVocab

theorem carved_congr {pats pats' : List (Str × Nat)} (h : ∀ p, p ∈ pats ↔ p ∈ pats') {s : Str}
    {ps : List (Option Nat × Str)} (hc : Carved pats s ps) : Carved pats' s ps := by
  induction hc with
  | done hd => exact .done fun u v e hv p hp => hd u v e hv p ((h p).2 hp)
  | hit hm hl hg _ ih =>
    exact .hit ((h _).1 hm) (fun q hq => hl q ((h q).2 hq)) (fun u v e hv q hq => hg u v e hv q ((h q).2 hq)) ih

theorem carved_none {s : Str} {ps : List (Option Nat × Str)} (hc : Carved [] s ps) : ps = plainPart s := by
  cases hc with
  | done _ => rfl
  | hit hm => cases hm

end AddedVocab

namespace Tokenizer
open AddedVocab

theorem bare_retype (ty : Nat) {rows : List Row} {tss : List (List Token)} (h : rows.map Row.bare = unitRows ty none tss) :
    (rows.map (Post.retype ty)).map Row.bare = unitRows ty none tss := by
  rw [← h, List.map_map]
  apply List.map_congr_left
  intro r hr
  have : Row.bare r ∈ unitRows ty none tss := h ▸ List.mem_map_of_mem hr
  obtain ⟨x, _, hx⟩ := List.mem_flatMap.1 this
  obtain ⟨tok, _, hx⟩ := List.mem_map.1 hx
  obtain ⟨r1, r2, r3, r4, r5, r6, r7⟩ := r
  simp only [Row.bare, Prod.mk.injEq] at hx
  simp [Row.bare, Post.retype, ← hx.2.1]

/-- The template `[CLS] $A [SEP]`, `[CLS] $A [SEP] $B:1 [SEP]:1`. -/
structure IsBertTemplate (tm : Post.Template) (cls sep : Str × Nat) : Prop where
  single : tm.single = [.special cls.1 0, .sequence .A 0, .special sep.1 0]
  pair : tm.pair = [.special cls.1 0, .sequence .A 0, .special sep.1 0, .sequence .B 1, .special sep.1 1]
  cls : tm.specials.get cls.1 = some ⟨cls.1, [cls.2], [cls.1]⟩
  sep : tm.specials.get sep.1 = some ⟨sep.1, [sep.2], [sep.1]⟩

/-- **C58.** As `C58_bert`, with the template instead of the processor of BERT. -/
theorem C58_bert_template {t : Tokenizer} {u : Unicode} {z : Normalizer} {v : CharTables} {y : PreTokenizer}
    (h : IsPipeline t u z v y) {w : WordPiece} (hm : t.model = fun s => mapErr (fun _ => .model 0) (w.tokenize s))
    (hunk : ∃ id, w.vocab.get w.unkToken = some id) {tm : Post.Template} {cls sep : Str × Nat}
    (htm : IsBertTemplate tm cls sep) (hset : t.settings = ⟨none, none, some (.template tm)⟩) :
    ∃ C1 C2, Carves t.added.trie C1 ∧ Carves t.added.normTrie C2 ∧ ∀ (a : Str),
      ∃ A, Each (Spelled w) (units v y (extracted u z C1 C2 a)) A ∧
        (∃ e, t.encode (.raw a, none) true = .ok e ∧
          e.rows.map Row.bare = inserted cls 0 :: unitRows 0 none A ++ [inserted sep 0]) ∧
        ∀ b : Str, ∃ B, Each (Spelled w) (units v y (extracted u z C1 C2 b)) B ∧
          ∃ e, t.encode (.raw a, some (.raw b)) true = .ok e ∧
            e.rows.map Row.bare = inserted cls 0 :: unitRows 0 none A ++ [inserted sep 0] ++
              unitRows 1 none B ++ [inserted sep 1] := by
  obtain ⟨C1, C2, hC1, hC2, he⟩ := C58_encode h
  refine ⟨C1, C2, hC1, hC2, fun a => ?_⟩
  have one : ∀ (a : Str) (k : Nat), ∃ A, Each (Spelled w) (units v y (extracted u z C1 C2 a)) A ∧
      ∃ e, t.encodeSequence k .byte (.raw a) = .ok e ∧ (e.WF ∧ Post.Fresh e) ∧ e.rows.map Row.bare = unitRows k none A := by
    intro a k
    obtain ⟨A, h1, h2⟩ := spelled_mapM hm hunk (units v y (extracted u z C1 C2 a))
    have := he a k .byte none (by simp)
    rw [h1] at this
    obtain ⟨e, e1, e2, e3⟩ := this
    have hlim : t.limit k = none := by unfold limit; rw [hset]
    have e1' : t.encodeSequence k .byte (.raw a) = .ok e := by
      show t.encodeText (t.limit k) k .byte none a = _
      rw [hlim]; exact e1
    obtain ⟨g1, g2⟩ := encodeSequence_wf (lim := t.limit k) (i := .raw a) e1' hlim
    exact ⟨A, h2, e, e1', ⟨g1, g2, by rw [e2]; simp⟩, e3⟩
  have usable : ∀ isPair, ∀ p ∈ tm.chosen isPair, Post.Usable tm.specials true isPair p := by
    intro isPair p hp
    cases isPair with
    | false =>
      simp only [Post.Template.chosen, htm.single, Bool.false_eq_true, if_false, List.mem_cons, List.not_mem_nil, or_false] at hp
      rcases hp with rfl | rfl | rfl
      · exact fun _ => ⟨_, htm.cls, rfl⟩
      · trivial
      · exact fun _ => ⟨_, htm.sep, rfl⟩
    | true =>
      simp only [Post.Template.chosen, htm.pair, if_true, List.mem_cons, List.not_mem_nil, or_false] at hp
      rcases hp with rfl | rfl | rfl | rfl | rfl
      · exact fun _ => ⟨_, htm.cls, rfl⟩
      · trivial
      · exact fun _ => ⟨_, htm.sep, rfl⟩
      · rfl
      · exact fun _ => ⟨_, htm.sep, rfl⟩
  obtain ⟨A, a1, e, a2, a3, a4⟩ := one a 0
  refine ⟨A, a1, ?_, ?_⟩
  · obtain ⟨out, o1, o2, _⟩ := Post.C35_template t.ws tm true (pair := none) a3.1 a3.2 (by simp) (usable false)
    refine ⟨out, ?_, ?_⟩
    · show (t.encodeSequence 0 .byte (.raw a)).bind _ = _
      rw [a2]
      show mapErr EncErr.post (t.settings.postProcess t.ws t.checked e none true) = _
      rw [hset]
      simp only [Post.Settings.postProcess, Post.Settings.truncate, Post.Settings.finish, o1, Post.Settings.padOne, mapErr]
    · rw [o2.1]
      simp only [Post.Template.chosen, htm.single, Option.isSome_none, Bool.false_eq_true, if_false, List.map_cons,
        List.map_nil, Post.pieceRows, htm.cls, htm.sep, Option.elim, if_true, Post.specialRows, Post.inputOf,
        List.flatten_cons, List.flatten_nil, List.map_append, bare_retype 0 a4]
      simp [Post.mark, Row.bare, inserted]
  · intro b
    obtain ⟨B, b1, e', b2, b3, b4⟩ := one b 1
    refine ⟨B, b1, ?_⟩
    obtain ⟨out, o1, o2, _⟩ := Post.C35_template t.ws tm true (pair := some e') a3.1 a3.2 (by simpa using b3) (usable true)
    refine ⟨out, ?_, ?_⟩
    · show (t.encodeSequence 0 .byte (.raw a)).bind _ = _
      rw [a2]
      show ((t.encodeSequence 1 .byte (.raw b)).map some).bind _ = _
      rw [b2]
      show mapErr EncErr.post (t.settings.postProcess t.ws t.checked e (some e') true) = _
      rw [hset]
      simp only [Post.Settings.postProcess, Post.Settings.truncate, Post.Settings.finish, o1, Post.Settings.padOne, mapErr]
    · rw [o2.1]
      simp only [Post.Template.chosen, htm.pair, Option.isSome_some, if_true, List.map_cons,
        List.map_nil, Post.pieceRows, htm.cls, htm.sep, Option.elim, Post.specialRows, Post.inputOf,
        List.flatten_cons, List.flatten_nil, List.map_append, bare_retype 0 a4, bare_retype 1 b4]
      simp [Post.mark, Row.bare, inserted]

end Tokenizer
end Tok

namespace Tok.Save
open Json AddedVocab

theorem loadAdded_tries {build : List (Str × Nat) → Bool} {m : ModelView} {norm : AddedVocab.Norm}
    {l : List (Nat × AddedToken)} {av : AddedVocab} (h : loadAdded build m norm l = some av) :
    av.trie = ((av.rmap.filter fun p => !p.2.normalized).map fun p => (p.2.content, p.1)) ∧
    av.normTrie = (av.rmap.filter fun p => p.2.normalized).map fun p => ((av.cache.get p.1).getD p.2.content, p.1) := by
  unfold loadAdded at h
  cases hl : addTokens build m norm empty (l.map (·.2)) with
  | mk r n =>
    rw [hl] at h
    cases n with
    | none => cases h
    | some n =>
      cases h
      unfold addTokens at hl
      cases hl' : addLoop m norm (l.map (·.2)) empty (empty.nextId m) 0 with
      | mk r' ign =>
        rw [hl'] at hl
        cases ign with
        | none => cases hl
        | some k =>
          simp only [refresh] at hl
          split at hl
          · split at hl
            · cases hl
              exact ⟨rfl, rfl⟩
            · cases hl
          · cases hl

/-- The tokens of the file are those looked for, with the ids they have in the file, if these are those of the vocabulary. -/
theorem loadAdded_patterns {build : List (Str × Nat) → Bool} {m : ModelView} (hm : m.Ok) {norm : AddedVocab.Norm}
    {l : List (Nat × AddedToken)} {av : AddedVocab} (h : loadAdded build m norm l = some av)
    (ha : av = after build m empty [.add norm (l.map (·.2))]) (hraw : ∀ x ∈ l, x.2.normalized = false)
    (hid : ∀ x ∈ l, x.2.content ≠ [] ∧ m.toId x.2.content = some x.1) :
    av.normTrie = [] ∧ ∀ p, p ∈ av.trie ↔ p ∈ l.map fun x => (x.2.content, x.1) := by
  obtain ⟨t1, t2⟩ := loadAdded_tries h
  have hinv : Inv m av := ha ▸ (after_inv hm build _ (inv_empty _)).1
  have hclean : Clean (l.map (·.2)) av := by
    rw [ha]
    refine after_clean hm build _ (fun t ht => by simpa [tokensOf] using ht) (.inr ?_) (inv_empty _)
      ⟨rfl, by simp [empty, AMap.get], by simp [empty]⟩
    intro t ht
    obtain ⟨y, hy, rfl⟩ := List.mem_map.1 ht
    exact hraw y hy
  have hfrom : ∀ p ∈ av.rmap, ∃ y ∈ l, y.2 = p.2 := fun p hp =>
    List.mem_map.1 (hclean.token p.1 p.2 (AMap.get_eq_some_of_mem hinv.wfr hp))
  refine ⟨?_, ?_⟩
  · rw [t2, List.filter_eq_nil_iff.2, List.map_nil]
    intro p hp
    obtain ⟨y, hy, e⟩ := hfrom p hp
    rw [← e, hraw y hy]; simp
  · intro p
    rw [t1]
    constructor
    · intro hp
      obtain ⟨q, hq, rfl⟩ := List.mem_map.1 hp
      have hq := (List.mem_filter.1 hq).1
      obtain ⟨y, hy, e⟩ := hfrom q hq
      have hk := (hid y hy).2
      have hg : av.map.get q.2.content = some q.1 := (hinv.inverse _ _).2 ⟨q.2, AMap.get_eq_some_of_mem hinv.wfr hq, rfl⟩
      rw [e] at hk
      have : q.1 = y.1 := by
        rcases hinv.model _ _ hg with k | ⟨k, _⟩
        · rw [hk] at k; exact (Option.some.inj k).symm
        · rw [hk] at k; cases k
      refine List.mem_map.2 ⟨y, hy, ?_⟩
      rw [e, this]
    · intro hp
      obtain ⟨x, hx, rfl⟩ := List.mem_map.1 hp
      obtain ⟨i, g⟩ := addTokens_has (build := build) (m := m) empty (l.map (·.2)) (norm := norm) (by
        intro t ht
        obtain ⟨y, hy, rfl⟩ := List.mem_map.1 ht
        exact normalForm_raw _ (hraw y hy)) (List.mem_map.2 ⟨x, hx, rfl⟩) (hid x hx).1
      have g : av.map.get x.2.content = some i := by rw [ha]; exact g
      have hi : i = x.1 := by
        rcases hinv.model _ _ g with k | ⟨k, _⟩
        · rw [(hid x hx).2] at k; exact (Option.some.inj k).symm
        · rw [(hid x hx).2] at k; cases k
      obtain ⟨t, k1, k2⟩ := (hinv.inverse _ _).1 g
      rw [hi] at k1
      refine List.mem_map.2 ⟨(x.1, t), List.mem_filter.2 ⟨AMap.mem_of_get_eq_some k1, ?_⟩, by simp [k2]⟩
      obtain ⟨y, hy, e⟩ := hfrom (x.1, t) (AMap.mem_of_get_eq_some k1)
      have e : y.2 = t := e
      simp only
      rw [← e, hraw y hy]; rfl

theorem readVocab_turned {vocab : List (Str × Nat)} (hv : VocabOk vocab) (c : Str) (i : Nat) :
    (readVocab vocab).get c = some i ↔ (Tokenizer.turned (readVocab vocab)).get i = some c := by
  exact (inverse_swap (readVocab_wf vocab) (readVocab_distinct hv) c i)

/-- A piece of a template. -/
def specialPiece (id : Str) (ty : Nat) : Json :=
  .obj [("SpecialToken".toList, .obj [("id".toList, .str id), ("type_id".toList, .int ty)])]

/-- A piece of a template. -/
def sequencePiece (id : Str) (ty : Nat) : Json :=
  .obj [("Sequence".toList, .obj [("id".toList, .str id), ("type_id".toList, .int ty)])]

/-- A special token of a template. -/
def specialEntry (id : Str) (n : Nat) : Str × Json :=
  (id, .obj [("id".toList, .str id), ("ids".toList, .arr [.int n]), ("tokens".toList, .arr [.str id])])

/-- The file `tokenizer.json` in the form (from memory) published for BERT (uncased): the model has no `type`. -/
def bertFile (cls sep : Nat) (vocab : List (Str × Nat)) (tokens : List (Nat × AddedToken)) : Json :=
  file .null .null (.arr (tokens.map writeAddedToken))
    (.obj [("type".toList, .str "BertNormalizer".toList), ("clean_text".toList, .bool true),
      ("handle_chinese_chars".toList, .bool true), ("strip_accents".toList, .null), ("lowercase".toList, .bool true)])
    (.obj [("type".toList, .str "BertPreTokenizer".toList)])
    (.obj [("type".toList, .str "TemplateProcessing".toList),
      ("single".toList, .arr [specialPiece "[CLS]".toList 0, sequencePiece "A".toList 0, specialPiece "[SEP]".toList 0]),
      ("pair".toList, .arr [specialPiece "[CLS]".toList 0, sequencePiece "A".toList 0, specialPiece "[SEP]".toList 0,
        sequencePiece "B".toList 1, specialPiece "[SEP]".toList 1]),
      ("special_tokens".toList, .obj [specialEntry "[CLS]".toList cls, specialEntry "[SEP]".toList sep])])
    (.obj [("type".toList, .str "WordPiece".toList), ("prefix".toList, .str "##".toList), ("cleanup".toList, .bool true)])
    (.obj [("unk_token".toList, .str "[UNK]".toList), ("continuing_subword_prefix".toList, .str "##".toList),
      ("max_input_chars_per_word".toList, .int 100), ("vocab".toList, writeVocab vocab)])

/-- The parts of a text: the tokens of the file, and between them the text, cleaned, lowercased, without accents and with
spaces around Chinese characters. -/
def bertParts (u : Unicode) (C : Str → List (Option Nat × Str)) (s : Str) : List (Option Nat × Str) :=
  (C s).flatMap fun x =>
    match x.1 with
    | some _ => [x]
    | none => plainPart ((Normalizer.bert true true none true).text u x.2)

/-- What is loaded from such a file. -/
theorem bertFile_loaded (w : World) (hu : w.uni.Ok) (e : Env) (skip : Bool)
    {build : List (Str × Nat) → Bool} (hb : Automata build)
    {vocab : List (Str × Nat)} (hv : VocabOk vocab) {cls sep : Nat}
    (hcls : cls < 4294967296) (hsep : sep < 4294967296)
    {tokens : List (Nat × AddedToken)} (hraw : ∀ x ∈ tokens, x.2.normalized = false)
    (hplain : ∀ x ∈ tokens, x.2.lstrip = false ∧ x.2.rstrip = false ∧ x.2.singleWord = false)
    (hid : ∀ x ∈ tokens, x.2.content ≠ [] ∧ (x.2.content, x.1) ∈ vocab) :
    ∃ (c : Conf) (wp : WordPiece) (tm : Post.Template), load e skip build w.norm (bertFile cls sep vocab tokens) = .ok c ∧
      wp.unkToken = "[UNK]".toList ∧ wp.continuingPrefix = "##".toList ∧ wp.maxInputChars = 100 ∧
      (∀ t i, wp.vocab.get t = some i ↔ (t, i) ∈ vocab) ∧
      c.model = .wordPiece wp ∧ (Mod.wordPiece wp).view.Ok ∧
      c.added = after build (Mod.wordPiece wp).view empty [.add (w.norm (some (.bert true true none true))) (tokens.map (·.2))] ∧
      (c.added.normTrie = [] ∧ ∀ p, p ∈ c.added.trie ↔ p ∈ tokens.map fun x => (x.2.content, x.1)) ∧
      c.added.trie = ((c.added.rmap.filter fun p => !p.2.normalized).map fun p => (p.2.content, p.1)) ∧
      Tokenizer.IsPipeline (w.tokenizer c) w.uni (.bert true true none true) w.tables .bert ∧
      Tokenizer.IsBertTemplate tm ("[CLS]".toList, cls) ("[SEP]".toList, sep) ∧
      (w.tokenizer c).settings = ⟨none, none, some (.template tm)⟩ ∧
      (w.tokenizer c).decoder = some (.wordPiece "##".toList true) := by
  let wp : WordPiece := ⟨readVocab vocab, "[UNK]".toList, "##".toList, 100⟩
  have hget : ∀ t i, wp.vocab.get t = some i ↔ (t, i) ∈ vocab := readVocab_get hv.tokens
  have hok : (Mod.wordPiece wp).view.Ok := by
    refine ⟨fun c i h => ?_, fun c i => ?_⟩
    · show i < (readVocab vocab).length
      rw [readVocab_length hv]
      exact hv.below _ ((hget c i).1 h)
    · exact readVocab_turned hv c i
  have hnf : ∀ x ∈ tokens, normalForm (w.norm (some (.bert true true none true))) x.2 = some none :=
    fun x hx => normalForm_raw _ (hraw x hx)
  obtain ⟨av, a1, a2⟩ := loadAdded_plain hb hok (norm := w.norm (some (.bert true true none true))) tokens hnf
  have hpat := loadAdded_patterns hok a1 a2 hraw fun x hx => ⟨(hid x hx).1, (hget _ _).2 (hid x hx).2⟩
  have hvoc : asMap asU32 (writeVocab vocab) = some vocab :=
    asMap_writeVocab fun p hp => Nat.lt_of_lt_of_le (hv.below p hp) hv.small
  let tm : Post.Template := Post.ofJson [.special "[CLS]".toList 0, .sequence .A 0, .special "[SEP]".toList 0]
    [.special "[CLS]".toList 0, .sequence .A 0, .special "[SEP]".toList 0, .sequence .B 1, .special "[SEP]".toList 1]
    [("[SEP]".toList, ⟨"[SEP]".toList, [sep], ["[SEP]".toList]⟩), ("[CLS]".toList, ⟨"[CLS]".toList, [cls], ["[CLS]".toList]⟩)]
  let c : Conf := ⟨none, none, av, some (.bert true true none true), some .bert, some (.template tm),
    some (.wordPiece "##".toList true), .wordPiece wp⟩
  refine ⟨c, wp, tm, ?_, rfl, rfl, rfl, hget, rfl, hok, a2, hpat, (loadAdded_tries a1).1, ?_, ⟨rfl, rfl, rfl, rfl⟩, rfl, rfl⟩
  · refine load_file rfl rfl (fun x hx => Nat.lt_of_lt_of_le (hv.below _ (hid x hx).2) hv.small) (.some ?_) ?_ ?_ ?_ ?_ a1
    · simp [readNorm, req, Json.get, asStr, normTagged, readBertNorm, asBool, opt, orNull, orErr, orTry, normUntagged]
    · simp [orNull, readPre, req, Json.get, asStr, preTagged, readUnit, tagged]
    · simp [tm, orNull, readProc, procUntagged, readRoberta, readBertProc, req, Json.get, asStr, readByteLevel,
        tagged, readTemplate, asList, specialPiece, sequencePiece, specialEntry, readPiece, asEnum, seqs, asMap, readSpecial,
        asU32, asNat, hcls, hsep, AMap.extend, AMap.insert]
    · simp [orNull, readDec, req, Json.get, asStr, decTagged, readWordPieceDec, asBool]
    · simp [readModel, Json.get, readBpe, readBpeFields, opt, req, orNull, asStr, hvoc, orTry, readWordPiece, asUsize, asNat,
        orErr, loadWordPiece, wp]
  · have hclean : Clean (tokens.map (·.2)) av := by
      rw [a2]
      refine after_clean hok build _ (fun t ht => by simpa [tokensOf] using ht) (.inr ?_) (inv_empty _)
        ⟨rfl, by simp [empty, AMap.get], by simp [empty]⟩
      intro t ht
      obtain ⟨y, hy, rfl⟩ := List.mem_map.1 ht
      exact hraw y hy
    exact
      { normalizer := rfl
        preTok := rfl
        unicode := hu
        safe := trivial
        sound := trivial
        anywhere := trivial
        tries := by
          show TriesOk av
          rw [a2]
          exact after_tries hok (fun l hl p hp =>
            ((hb l (by intro h; rw [h] at hp; cases hp)).1 hl).2 p hp) _ (inv_empty _) (by simp [TriesOk, empty])
        bare := by
          refine ⟨?_, fun i t h => ?_⟩
          · show av.encodeSpecial = false
            rw [a2]
            exact addTokens_encodeSpecial empty _
          · obtain ⟨y, hy, rfl⟩ := List.mem_map.1 (hclean.token i t h)
            exact hplain y hy }

/-- **C67.** A file in the form of BERT's is loaded, and the tokenizer never fails. The text is cut at the tokens of the
file, which have the ids of the file; what is between them is normalized and cut into words; every word is segmented
greedily with the vocabulary of the file, or is `[UNK]`; the encoding is `[CLS] .. [SEP]`, `[CLS] .. [SEP] .. [SEP]`. -/
theorem C67_bert (w : World) (hu : w.uni.Ok) (e : Env) (skip : Bool)
    {build : List (Str × Nat) → Bool} (hb : Automata build)
    {vocab : List (Str × Nat)} (hv : VocabOk vocab) (hunk : "[UNK]".toList ∈ vocab.map (·.1)) {cls sep : Nat}
    (hcls : cls < 4294967296) (hsep : sep < 4294967296)
    {tokens : List (Nat × AddedToken)} (hraw : ∀ x ∈ tokens, x.2.normalized = false)
    (hplain : ∀ x ∈ tokens, x.2.lstrip = false ∧ x.2.rstrip = false ∧ x.2.singleWord = false)
    (hid : ∀ x ∈ tokens, x.2.content ≠ [] ∧ (x.2.content, x.1) ∈ vocab) :
    ∃ c, load e skip build w.norm (bertFile cls sep vocab tokens) = .ok c ∧
      ∃ wp : WordPiece, wp.unkToken = "[UNK]".toList ∧ wp.continuingPrefix = "##".toList ∧ wp.maxInputChars = 100 ∧
        (∀ t i, wp.vocab.get t = some i ↔ (t, i) ∈ vocab) ∧
        ∃ C, Tokenizer.Carves (tokens.map fun x => (x.2.content, x.1)) C ∧ ∀ a : Str,
          ∃ A, Tokenizer.Each (Tokenizer.Spelled wp) (Tokenizer.units w.tables .bert (bertParts w.uni C a)) A ∧
            (∃ enc, (w.tokenizer c).encode (.raw a, none) true = .ok enc ∧
              enc.rows.map Tokenizer.Row.bare = Tokenizer.inserted ("[CLS]".toList, cls) 0 :: Tokenizer.unitRows 0 none A ++
                [Tokenizer.inserted ("[SEP]".toList, sep) 0]) ∧
            ∀ b : Str, ∃ B,
              Tokenizer.Each (Tokenizer.Spelled wp) (Tokenizer.units w.tables .bert (bertParts w.uni C b)) B ∧
              ∃ enc, (w.tokenizer c).encode (.raw a, some (.raw b)) true = .ok enc ∧
                enc.rows.map Tokenizer.Row.bare = Tokenizer.inserted ("[CLS]".toList, cls) 0 ::
                  Tokenizer.unitRows 0 none A ++ [Tokenizer.inserted ("[SEP]".toList, sep) 0] ++
                  Tokenizer.unitRows 1 none B ++ [Tokenizer.inserted ("[SEP]".toList, sep) 1] := by
  obtain ⟨c, wp, tm, l1, l2, l3, l4, hget, l5, _, _, ⟨p1, p2⟩, _, hpipe, htm, hset, _⟩ :=
    bertFile_loaded w hu e skip hb hv hcls hsep hraw hplain hid
  have hu' : ∃ id, wp.vocab.get wp.unkToken = some id := by
    obtain ⟨p, hp, e⟩ := List.mem_map.1 hunk
    exact ⟨p.2, (hget _ _).2 (by rw [l2, ← e]; exact hp)⟩
  refine ⟨c, l1, wp, l2, l3, l4, hget, ?_⟩
  obtain ⟨C1, C2, h1, h2, h3⟩ := Tokenizer.C58_bert_template hpipe (w := wp) (by
    show w.toModel c.model = _
    rw [l5]; rfl) hu' htm hset
  have hC2 : ∀ s, C2 s = plainPart s := fun s => carved_none (by
    have := h2 s
    rwa [show (w.tokenizer c).added.normTrie = [] from p1] at this)
  have hex : ∀ s, Tokenizer.extracted w.uni (.bert true true none true) C1 C2 s = bertParts w.uni C1 s := by
    intro s
    unfold Tokenizer.extracted bertParts
    congr 1
    funext x
    cases x.1 with
    | none => exact hC2 _
    | some _ => rfl
  simp only [hex] at h3
  exact ⟨C1, fun s => carved_congr p2 (h1 s), h3⟩

end Tok.Save
