import Verif.Encoding.Model
import Verif.Save.Again

/-!
# C91: the picture of an encoding (`EncodingVisualizer`)

`bindings/python/py_src/tokenizers/tools/visualizer.py`: a text is shown as HTML in which the characters of each token are in a `span`,
and annotated stretches are in another one around. The characters are grouped by a loop that opens and closes `span`s as tokens and
annotations change.

Simplified: only what is put between the `<div>` tags of `HTMLBody` (`visualizer.py:377-407`) is modelled; the rest is fixed text. The
display in a notebook is left out.
-/

namespace Tok.Vis

/-! ## Model -/

/-- `Annotation` (`visualizer.py:17-25`). -/
structure Anno where
  start : Int
  stop : Int
  label : Str

/-- `CharState` (`visualizer.py:37-62`). `char_ix` is never `None` (`visualizer.py:364`). -/
structure CharState where
  charIx : Nat
  anno : Option Nat
  tokens : List Nat

/-- `token_ix` (`visualizer.py:46-48`). -/
def CharState.tokenIx (s : CharState) : Option Nat := s.tokens.head?

/-- `partition_key` (`visualizer.py:57-61`). -/
def CharState.key (s : CharState) : Option Nat × Option Nat := (s.tokenIx, s.anno)

/-- The place of a list of length `n` that Python means by `[i]`; `none`: `IndexError`. -/
def place (n : Nat) (i : Int) : Option Nat :=
  if 0 ≤ i then if i < n then some i.toNat else none
  else if 0 ≤ i + n then some (i + n).toNat else none

/-- The inner loop of `__make_anno_map` (`visualizer.py:338-339`) from `i` on, for so many values. -/
def markFrom (k : Nat) : Nat → Int → List (Option Nat) → Option (List (Option Nat))
  | 0, _, m => some m
  | c + 1, i, m =>
    match place m.length i with
    | none => none
    | some j => markFrom k c (i + 1) (m.set j (some k))

/-- The outer loop of `__make_anno_map` (`visualizer.py:337-339`). -/
def markAll : Nat → List Anno → List (Option Nat) → Option (List (Option Nat))
  | _, [], m => some m
  | k, a :: l, m =>
    match markFrom k (a.stop - a.start).toNat a.start m with
    | none => none
    | some m' => markAll (k + 1) l m'

/-- `__make_anno_map` (`visualizer.py:321-340`). -/
def annoMap (text : Str) (annos : List Anno) : Option (List (Option Nat)) := markAll 0 annos (List.replicate text.length none)

/-- `char_states[i].tokens.append(token_ix)` for so many `i` (`visualizer.py:369-370`). -/
def pushFrom (t : Nat) : Nat → Nat → List (List Nat) → Option (List (List Nat))
  | 0, _, m => some m
  | c + 1, i, m => if i < m.length then pushFrom t c (i + 1) (m.modify i (· ++ [t])) else none

/-- The loop over the tokens (`visualizer.py:365-370`), so many of them from `t` on. -/
def pushAll (e : Encoding) : Nat → Nat → List (List Nat) → Option (List (List Nat))
  | 0, _, m => some m
  | c + 1, t, m =>
    match e.tokenToChars t with
    | none => pushAll e c (t + 1) m
    | some (_, r) =>
      match pushFrom t (r.2 - r.1) r.1 m with
      | none => none
      | some m' => pushAll e c (t + 1) m'

/-- `__make_char_states` (`visualizer.py:342-374`). -/
def charStates (text : Str) (e : Encoding) (annos : List Anno) : Option (List CharState) :=
  match annoMap text annos with
  | none => none
  | some am =>
    match pushAll e e.tokens.length 0 (List.replicate text.length []) with
    | none => none
    | some ts => some ((am.zip ts).zipIdx.map fun p => ⟨p.2, p.1.1, p.1.2⟩)

/-- Each element once (`set(..)`). -/
def once : List Str → List Str
  | [] => []
  | a :: l => if a ∈ once l then once l else a :: once l

/-- The labels, each once, in order (`sorted(set(..))`, `visualizer.py:169, 180`). -/
def labels (annos : List Anno) : List Str := (Save.byKey ((once (annos.map (·.label))).map (·, ()))).map (·.1)

/-- `h_step` (`visualizer.py:171-173`). -/
def hueStep (n : Nat) : Nat := if 255 / n < 20 then 20 else 255 / n

/-- The hue of the `i`th label (`visualizer.py:176-182`). -/
def hue (n i : Nat) : Nat := 10 + i * hueStep n

/-- `f"hsl({h},{s}%,{l}%)"` (`visualizer.py:181`). -/
def hsl (h : Nat) : Str := "hsl(".toList ++ Nat.toDigits 10 h ++ ",32%,64%)".toList

/-- `calculate_label_colors` (`visualizer.py:153-183`), looked up. -/
def colorOf (annos : List Anno) (label : Str) : Str := hsl (hue (labels annos).length ((labels annos).idxOf label))

/-- `html.escape` of the standard library. -/
def escapeChar (c : Char) : Str :=
  if c = '&' then "&amp;".toList else if c = '<' then "&lt;".toList else if c = '>' then "&gt;".toList
  else if c = '"' then "&quot;".toList else if c = '\'' then "&#x27;".toList else [c]

/-- `html.escape` of a text. -/
def escape (s : Str) : Str := s.flatMap escapeChar

/-- Are they the same letter, regardless of case? (The letter is a lower case one of a-z; the Kelvin sign is a `k`.) -/
def sameLetter (l c : Char) : Bool := c == l || c == l.toUpper || (l == 'k' && c == 'K')

/-- Does the text begin with the word, regardless of case? -/
def beginsWith : Str → Str → Bool
  | [], _ => true
  | _ :: _, [] => false
  | l :: ls, c :: cs => sameLetter l c && beginsWith ls cs

/-- `unk_token_regex.search(..) is not None` (`visualizer.py:83, 231`). The text of the expression is not a raw one, so its `\b` are
backspaces, and the parts with them are optional: what is left is whether `unk` or `oov` occurs. -/
def isUnk : Str → Bool
  | [] => false
  | c :: s => beginsWith "unk".toList (c :: s) || beginsWith "oov".toList (c :: s) || isUnk s

/-- The css classes (`visualizer.py:215-237`). -/
def classes (toks : List Str) (first : CharState) : List Str :=
  match first.tokenIx with
  | none => ["non-token".toList]
  | some t => ["token".toList] ++ (if first.tokens.length > 1 then ["multi-token".toList] else []) ++
      [if t % 2 = 1 then "odd-token".toList else "even-token".toList] ++
      (if isUnk (toks.getD t []) then ["special-token".toList] else [])

/-- The data attributes (`visualizer.py:234, 242-244`). -/
def dataItems (toks : List Str) (first : CharState) : Str :=
  match first.tokenIx with
  | none => []
  | some t => if isUnk (toks.getD t []) then " data-stok=\"".toList ++ toks.getD t [] ++ "\"".toList else []

/-- `" ".join(..)`. -/
def spaced : List Str → Str
  | [] => []
  | [a] => a
  | a :: b :: l => a ++ ' ' :: spaced (b :: l)

/-- `consecutive_chars_to_html` (`visualizer.py:186-246`); the branch for special tokens cannot be reached, since `char_ix` is never
`None`. An empty list does not occur. -/
def groupHtml (text : Str) (toks : List Str) (group : List CharState) : Str :=
  match group, group.getLast? with
  | first :: _, some last =>
    "<span class=\"".toList ++ spaced (classes toks first) ++ "\" ".toList ++ dataItems toks first ++ " >".toList ++
      escape ((text.drop first.charIx).take (last.charIx + 1 - first.charIx)) ++ "</span>".toList
  | _, _ => []

/-- The opening tag of an annotation (`visualizer.py:258-262, 282-286`). -/
def openAnno (annos : List Anno) (k : Nat) : Str :=
  match annos[k]? with
  | none => []
  | some a => "<span class=\"annotation\" style=\"color:".toList ++ colorOf annos a.label ++ "\" data-label=\"".toList ++ a.label ++
      "\">".toList

/-- The variables of `__make_html`: `current_consecutive_chars`, `prev_anno_ix` and the spans so far, joined. -/
structure Draw where
  cur : List CharState
  prev : Option Nat
  out : Str

/-- `if cur_anno_ix is not None` .. (`visualizer.py:257-262`). -/
def opening (annos : List Anno) : Option Nat → Str
  | none => []
  | some k => openAnno annos k

/-- `if prev_anno_ix is not None` .. (`visualizer.py:278-280, 314-315`). -/
def closing : Option Nat → Str
  | none => []
  | some _ => "</span>".toList

/-- The first half of the body of the loop (`visualizer.py:265-287`). -/
def Draw.turn (text : Str) (toks : List Str) (annos : List Anno) (d : Draw) (cs : CharState) : Draw :=
  if cs.anno ≠ d.prev then
    ⟨[cs], cs.anno, d.out ++ groupHtml text toks d.cur ++ closing d.prev ++ opening annos cs.anno⟩
  else ⟨d.cur, cs.anno, d.out⟩

/-- The second half (`visualizer.py:289-302`). -/
def Draw.extend (text : Str) (toks : List Str) (d : Draw) (cs : CharState) : Draw :=
  if some cs.key = d.cur.head?.map (·.key) then { d with cur := d.cur ++ [cs] }
  else { d with cur := [cs], out := d.out ++ groupHtml text toks d.cur }

/-- The body of the loop. -/
def Draw.step (text : Str) (toks : List Str) (annos : List Anno) (d : Draw) (cs : CharState) : Draw :=
  (d.turn text toks annos cs).extend text toks cs

/-- `__make_html` (`visualizer.py:248-319`); `none`: `IndexError`. -/
def html (text : Str) (e : Encoding) (annos : List Anno) : Option Str :=
  match charStates text e annos with
  | none => none
  | some [] => none
  | some (c :: cs) =>
    let d := cs.foldl (Draw.step text e.tokens annos) ⟨[c], c.anno, opening annos c.anno⟩
    some (d.out ++ groupHtml text e.tokens d.cur ++ closing d.prev)

/-! ## What a reader of the HTML sees -/

/-- Where the reader is: in text, in a tag (read so far; inside quotes?), or in an entity. -/
inductive Mode
  | text
  | tag (acc : Str) (quotes : Bool)
  | entity (acc : Str)

/-- The five entities. -/
def entityChar (s : Str) : Option Char :=
  if s = "amp".toList then some '&' else if s = "lt".toList then some '<' else if s = "gt".toList then some '>'
  else if s = "quot".toList then some '"' else if s = "#x27".toList then some '\'' else none

/-- The characters that are seen, each with the tags that are open there, innermost first. `none`: a tag is not closed, or closed
but not open, or something is not finished. -/
def see : Str → Mode → List Str → Option (List (Char × List Str))
  | [], .text, open' => if open' = [] then some [] else none
  | [], .tag _ _, _ => none
  | [], .entity _, _ => none
  | c :: s, .text, open' =>
    if c = '<' then see s (.tag [] false) open'
    else if c = '&' then see s (.entity []) open'
    else (see s .text open').map ((c, open') :: ·)
  | c :: s, .tag acc q, open' =>
    if c = '"' then see s (.tag (acc ++ [c]) (!q)) open'
    else if c = '>' ∧ q = false then
      if acc.head? = some '/' then (if open' = [] then none else see s .text open'.tail)
      else see s .text (acc :: open')
    else see s (.tag (acc ++ [c]) q) open'
  | c :: s, .entity acc, open' =>
    if c = ';' then (entityChar acc).bind fun ch => (see s .text open').map ((ch, open') :: ·)
    else see s (.entity (acc ++ [c])) open'

/-! ## What there should be to see -/

/-- Does the annotation cover the character? (Python counts from the end if an index is negative.) -/
def Anno.covers (n : Nat) (a : Anno) (i : Nat) : Bool :=
  decide (a.start ≤ i ∧ (i : Int) < a.stop ∨ a.start ≤ (i : Int) - n ∧ (i : Int) - n < a.stop)

/-- The last annotation that covers the character. -/
def annoAt (n : Nat) (annos : List Anno) (i : Nat) : Option Nat :=
  ((annos.zipIdx.filter fun p => p.1.covers n i).map (·.2)).getLast?

/-- The tokens that cover the character, in order. -/
def tokensAt (e : Encoding) (i : Nat) : List Nat :=
  (List.range e.tokens.length).filter fun t =>
    match e.tokenToChars t with
    | none => false
    | some (_, r) => decide (r.1 ≤ i ∧ i < r.2)

/-- Do the two characters belong to the same first token (or both to none) and to the same annotation? -/
def alike (n : Nat) (e : Encoding) (annos : List Anno) (i j : Nat) : Bool :=
  decide ((tokensAt e i).head? = (tokensAt e j).head? ∧ annoAt n annos i = annoAt n annos j)

/-- The first character of the stretch of such characters. -/
def leader (n : Nat) (e : Encoding) (annos : List Anno) : Nat → Nat
  | 0 => 0
  | i + 1 => if alike n e annos (i + 1) i then leader n e annos i else i + 1

/-- The tag around characters whose first token is this one; are there more tokens over it? -/
def firstTag (toks : List Str) (t : Nat) (more : Bool) : Str :=
  "span class=\"token".toList ++ (if more then " multi-token".toList else []) ++
    (if t % 2 = 1 then " odd-token".toList else " even-token".toList) ++
    (if isUnk (toks.getD t []) then " special-token\"  data-stok=\"".toList ++ toks.getD t [] ++ "\" ".toList else "\"  ".toList)

/-- The tag around characters of no token. -/
def noTag : Str := "span class=\"non-token\"  ".toList

/-- The tag around characters which these tokens cover. -/
def tokenTag (toks : List Str) : List Nat → Str
  | [] => noTag
  | t :: more => firstTag toks t (!more.isEmpty)

/-- The tag around the characters of an annotation. -/
def annoTag (annos : List Anno) (k : Nat) : Str :=
  match annos[k]? with
  | none => []
  | some a => "span class=\"annotation\" style=\"color:".toList ++ colorOf annos a.label ++ "\" data-label=\"".toList ++ a.label ++
      "\"".toList

/-- The tags of annotations around a character. -/
def annoTags (annos : List Anno) : Option Nat → List Str
  | none => []
  | some k => [annoTag annos k]

/-- What is to be seen of a character. -/
def sight (text : Str) (e : Encoding) (annos : List Anno) (i : Nat) : Char × List Str :=
  (text.getD i ' ', tokenTag e.tokens (tokensAt e (leader text.length e annos i)) :: annoTags annos (annoAt text.length annos i))

/-- The annotations and the tokens are within the text. -/
def Within (text : Str) (e : Encoding) (annos : List Anno) : Prop :=
  (∀ a ∈ annos, a.start < a.stop → -(text.length : Int) ≤ a.start ∧ a.stop ≤ text.length) ∧
  ∀ t < e.tokens.length, ∀ q r, e.tokenToChars t = some (q, r) → r.1 < r.2 → r.2 ≤ text.length

/-! ## The states of the characters -/

theorem place_some {n : Nat} {i : Int} (h1 : -(n : Int) ≤ i) (h2 : i < n) :
    ∃ j, place n i = some j ∧ j < n ∧ ((j : Int) = i ∨ (j : Int) = i + n) ∧ (0 ≤ i → (j : Int) = i) := by
  unfold place
  by_cases h : 0 ≤ i
  · rw [if_pos h, if_pos h2]
    exact ⟨_, rfl, by omega, Or.inl (by omega), fun _ => by omega⟩
  · rw [if_neg h, if_pos (by omega)]
    exact ⟨_, rfl, by omega, Or.inr (by omega), fun h' => absurd h' h⟩

theorem place_none {n : Nat} {i : Int} (h : i < -(n : Int) ∨ (n : Int) ≤ i) : place n i = none := by
  unfold place
  by_cases h0 : 0 ≤ i
  · rw [if_pos h0, if_neg (by omega)]
  · rw [if_neg h0, if_neg (by omega)]

theorem markFrom_some (k : Nat) : ∀ (c : Nat) (i : Int) (m : List (Option Nat)),
    (0 < c → -(m.length : Int) ≤ i ∧ i + c ≤ m.length) →
    ∃ m', markFrom k c i m = some m' ∧ m'.length = m.length ∧ ∀ j < m.length, m'[j]? =
      if i ≤ (j : Int) ∧ (j : Int) < i + c ∨ i ≤ (j : Int) - m.length ∧ (j : Int) - m.length < i + c then some (some k) else m[j]?
  | 0, i, m, _ => ⟨m, rfl, rfl, fun j _ => by rw [if_neg (by omega)]⟩
  | c + 1, i, m, h => by
    obtain ⟨h1, h2⟩ := h (by omega)
    obtain ⟨p, hp, hpn, hpi, hpos⟩ := place_some h1 (by omega)
    obtain ⟨m', e1, e2, e3⟩ := markFrom_some k c (i + 1) (m.set p (some k)) (by
      rw [List.length_set]; intro _; constructor <;> omega)
    rw [List.length_set] at e2 e3
    refine ⟨m', by rw [markFrom, hp]; exact e1, e2, fun j hj => ?_⟩
    rw [e3 j hj, List.getElem?_set]
    by_cases hpj : p = j
    · subst hpj
      rw [if_pos rfl, if_pos hpn, ite_self, if_pos (by omega)]
    · rw [if_neg hpj]
      refine ite_congr (propext ?_) (fun _ => rfl) fun _ => rfl
      omega

theorem markFrom_none (k : Nat) : ∀ (c : Nat) (i : Int) (m : List (Option Nat)), 0 < c →
    (i < -(m.length : Int) ∨ (m.length : Int) < i + c) → markFrom k c i m = none
  | 0, _, _, h, _ => absurd h (by omega)
  | c + 1, i, m, _, h => by
    rw [markFrom]
    by_cases hi : i < -(m.length : Int) ∨ (m.length : Int) ≤ i
    · rw [place_none hi]
    · obtain ⟨p, hp, _⟩ := place_some (n := m.length) (i := i) (by omega) (by omega)
      rw [hp]
      exact markFrom_none k c (i + 1) _ (by omega) (by rw [List.length_set]; omega)

theorem covers_iff {n : Nat} {a : Anno} {j : Nat} : a.covers n j = true ↔
    (a.start ≤ (j : Int) ∧ (j : Int) < a.start + ((a.stop - a.start).toNat : Nat) ∨
      a.start ≤ (j : Int) - n ∧ (j : Int) - n < a.start + ((a.stop - a.start).toNat : Nat)) := by
  unfold Anno.covers
  rw [decide_eq_true_iff]
  omega

theorem markAll_some : ∀ (annos : List Anno) (k : Nat) (m : List (Option Nat)),
    (∀ a ∈ annos, a.start < a.stop → -(m.length : Int) ≤ a.start ∧ a.stop ≤ m.length) →
    ∃ m', markAll k annos m = some m' ∧ m'.length = m.length ∧ ∀ j < m.length, m'[j]? =
      some ((((annos.zipIdx k).filter fun p => p.1.covers m.length j).map (·.2)).getLast?.or (m.getD j none))
  | [], k, m, _ => ⟨m, rfl, rfl, fun j hj => by simp [List.getD, List.getElem?_eq_getElem hj]⟩
  | a :: l, k, m, h => by
    obtain ⟨m1, e1, e2, e3⟩ := markFrom_some k (a.stop - a.start).toNat a.start m fun hc => by
      have := h a List.mem_cons_self (by omega)
      omega
    obtain ⟨m2, f1, f2, f3⟩ := markAll_some l (k + 1) m1 fun b hb hlt => by
      rw [e2]; exact h b (List.mem_cons_of_mem _ hb) hlt
    rw [e2] at f2 f3
    refine ⟨m2, by rw [markAll, e1]; exact f1, f2, fun j hj => ?_⟩
    rw [f3 j hj, List.zipIdx_cons, List.filter_cons]
    have hm1 : m1.getD j none = if a.covers m.length j = true then some k else m.getD j none := by
      rw [List.getD, e3 j hj]
      simp only [covers_iff]
      split <;> rfl
    rw [hm1]
    by_cases hc : a.covers m.length j = true
    · rw [if_pos hc, if_pos hc, List.map_cons, List.getLast?_cons]
      generalize ((l.zipIdx (k + 1)).filter fun p => p.1.covers m.length j).map (·.2) = L
      cases L.getLast? <;> rfl
    · rw [if_neg hc, if_neg hc]

theorem markAll_none : ∀ (annos : List Anno) (k : Nat) (m : List (Option Nat)),
    (∃ a ∈ annos, a.start < a.stop ∧ (a.start < -(m.length : Int) ∨ (m.length : Int) < a.stop)) → markAll k annos m = none
  | [], _, _, ⟨_, h, _⟩ => absurd h List.not_mem_nil
  | a :: l, k, m, ⟨b, hb, h1, h2⟩ => by
    rw [markAll]
    by_cases ha : a.start < a.stop ∧ (a.start < -(m.length : Int) ∨ (m.length : Int) < a.stop)
    · rw [markFrom_none k _ _ _ (by omega) (by omega)]
    · obtain ⟨m1, e1, e2, _⟩ := markFrom_some k (a.stop - a.start).toNat a.start m fun hc => by omega
      rw [e1]
      rcases List.mem_cons.1 hb with rfl | hb
      · exact absurd ⟨h1, h2⟩ ha
      · exact markAll_none l (k + 1) m1 ⟨b, hb, h1, by rw [e2]; exact h2⟩

theorem pushFrom_some (t : Nat) : ∀ (c i : Nat) (m : List (List Nat)), (0 < c → i + c ≤ m.length) →
    ∃ m', pushFrom t c i m = some m' ∧ m'.length = m.length ∧ ∀ j, m'.getD j [] =
      if j < m.length ∧ i ≤ j ∧ j < i + c then m.getD j [] ++ [t] else m.getD j []
  | 0, i, m, _ => ⟨m, rfl, rfl, fun j => by rw [if_neg (by omega)]⟩
  | c + 1, i, m, h => by
    have h := h (by omega)
    obtain ⟨m', e1, e2, e3⟩ := pushFrom_some t c (i + 1) (m.modify i (· ++ [t])) (by
      rw [List.length_modify]; omega)
    rw [List.length_modify] at e2 e3
    refine ⟨m', by rw [pushFrom, if_pos (by omega)]; exact e1, e2, fun j => ?_⟩
    have hget : (m.modify i (· ++ [t])).getD j [] = if i = j then m.getD j [] ++ [t] else m.getD j [] := by
      rw [List.getD, List.getElem?_modify]
      by_cases hij : i = j
      · subst hij
        rw [if_pos rfl, List.getD, List.getElem?_eq_getElem (by omega)]
        simp
      · rw [if_neg hij, List.getD]
        cases m[j]? <;> simp [hij]
    rw [e3 j, hget]
    by_cases hij : i = j
    · subst hij
      rw [if_pos rfl, if_neg (by omega), if_pos (by omega)]
    · rw [if_neg hij]
      refine ite_congr (propext ?_) (fun _ => rfl) fun _ => rfl
      omega

theorem pushFrom_none (t : Nat) : ∀ (c i : Nat) (m : List (List Nat)), 0 < c → m.length < i + c → pushFrom t c i m = none
  | 0, _, _, h, _ => absurd h (by omega)
  | c + 1, i, m, _, h => by
    rw [pushFrom]
    by_cases hi : i < m.length
    · rw [if_pos hi]
      exact pushFrom_none t c (i + 1) _ (by omega) (by rw [List.length_modify]; omega)
    · rw [if_neg hi]

/-- Does the token cover the character? -/
def coversChar (e : Encoding) (j t : Nat) : Bool :=
  match e.tokenToChars t with
  | none => false
  | some (_, r) => decide (r.1 ≤ j ∧ j < r.2)

theorem pushAll_some (e : Encoding) : ∀ (c t : Nat) (m : List (List Nat)),
    (∀ u, t ≤ u → u < t + c → ∀ q r, e.tokenToChars u = some (q, r) → r.1 < r.2 → r.2 ≤ m.length) →
    ∃ m', pushAll e c t m = some m' ∧ m'.length = m.length ∧ ∀ j < m.length, m'.getD j [] =
      m.getD j [] ++ (List.range' t c).filter (coversChar e j)
  | 0, t, m, _ => ⟨m, rfl, rfl, fun j _ => by simp⟩
  | c + 1, t, m, h => by
    rw [pushAll]
    cases ht : e.tokenToChars t with
    | none =>
      obtain ⟨m', e1, e2, e3⟩ := pushAll_some e c (t + 1) m fun u h1 h2 => h u (by omega) (by omega)
      refine ⟨m', e1, e2, fun j hj => ?_⟩
      rw [e3 j hj, List.range'_succ, List.filter_cons, if_neg (by unfold coversChar; rw [ht]; simp)]
    | some x =>
      obtain ⟨q, r⟩ := x
      obtain ⟨m1, e1, e2, e3⟩ := pushFrom_some t (r.2 - r.1) r.1 m fun hc => by
        have := h t (by omega) (by omega) q r ht (by omega)
        omega
      obtain ⟨m2, f1, f2, f3⟩ := pushAll_some e c (t + 1) m1 fun u h1 h2 => by
        rw [e2]; exact h u (by omega) (by omega)
      rw [e2] at f2 f3
      refine ⟨m2, by simp only [e1]; exact f1, f2, fun j hj => ?_⟩
      rw [f3 j hj, e3 j, List.range'_succ, List.filter_cons]
      have hc : coversChar e j t = true ↔ j < m.length ∧ r.1 ≤ j ∧ j < r.1 + (r.2 - r.1) := by
        unfold coversChar
        rw [ht]
        simp only [decide_eq_true_iff]
        omega
      by_cases h' : coversChar e j t = true
      · rw [if_pos (hc.1 h'), if_pos h']
        simp
      · rw [if_neg (fun x => h' (hc.2 x)), if_neg h']

theorem pushAll_none (e : Encoding) : ∀ (c t : Nat) (m : List (List Nat)),
    (∃ u, t ≤ u ∧ u < t + c ∧ ∃ q r, e.tokenToChars u = some (q, r) ∧ r.1 < r.2 ∧ m.length < r.2) → pushAll e c t m = none
  | 0, _, _, ⟨_, _, _, _⟩ => by omega
  | c + 1, t, m, ⟨u, h1, h2, q, r, hu, h3, h4⟩ => by
    rw [pushAll]
    by_cases htu : t = u
    · subst htu
      rw [hu]
      simp only [pushFrom_none t (r.2 - r.1) r.1 m (by omega) (by omega)]
    · cases ht : e.tokenToChars t with
      | none => exact pushAll_none e c (t + 1) m ⟨u, by omega, by omega, q, r, hu, h3, h4⟩
      | some x =>
        obtain ⟨q', r'⟩ := x
        by_cases hr : 0 < r'.2 - r'.1 ∧ m.length < r'.1 + (r'.2 - r'.1)
        · simp only [pushFrom_none t (r'.2 - r'.1) r'.1 m hr.1 hr.2]
        · obtain ⟨m1, e1, e2, _⟩ := pushFrom_some t (r'.2 - r'.1) r'.1 m fun hc => by omega
          simp only [e1]
          exact pushAll_none e c (t + 1) m1 ⟨u, by omega, by omega, q, r, hu, h3, by rw [e2]; exact h4⟩

/-- The state of a character. -/
def info (n : Nat) (e : Encoding) (annos : List Anno) (i : Nat) : CharState := ⟨i, annoAt n annos i, tokensAt e i⟩

theorem charStates_some {text : Str} {e : Encoding} {annos : List Anno} (h : Within text e annos) :
    charStates text e annos = some ((List.range text.length).map (info text.length e annos)) := by
  obtain ⟨am, a1, a2, a3⟩ := markAll_some annos 0 (List.replicate text.length none) (by
    rw [List.length_replicate]; exact h.1)
  obtain ⟨ts, t1, t2, t3⟩ := pushAll_some e e.tokens.length 0 (List.replicate text.length []) (by
    rw [List.length_replicate]; exact fun u _ hu => h.2 u (by omega))
  rw [List.length_replicate] at a2 a3 t2 t3
  unfold charStates annoMap
  rw [a1]
  simp only [t1]
  refine congrArg some (List.ext_getElem? fun j => ?_)
  rw [List.getElem?_map, List.getElem?_map, List.getElem?_zipIdx]
  by_cases hj : j < text.length
  · rw [List.getElem?_range hj]
    have ha := a3 j hj
    have ht := t3 j hj
    rw [List.getElem?_eq_getElem (by omega)] at ha
    rw [List.getD, List.getElem?_eq_getElem (by omega)] at ht
    rw [List.getElem?_eq_getElem (by rw [List.length_zip]; omega), List.getElem_zip]
    simp only [Option.map_some, Option.getD_some] at ht ⊢
    have hr : ∀ {α : Type} (x : α), (List.replicate text.length x).getD j x = x := fun x => by
      rw [List.getD, List.getElem?_replicate, if_pos hj]; rfl
    rw [Option.some.inj ha, ht, hr, hr]
    simp only [List.nil_append, Option.or_none, Nat.zero_add, info, annoAt, tokensAt, ← List.range_eq_range']
    rfl
  · rw [List.getElem?_eq_none (by rw [List.length_zip]; omega), List.getElem?_eq_none (by rw [List.length_range]; omega)]
    rfl

theorem charStates_none {text : Str} {e : Encoding} {annos : List Anno} (h : ¬ Within text e annos) :
    charStates text e annos = none := by
  unfold charStates annoMap
  by_cases ha : ∃ a ∈ annos, a.start < a.stop ∧ (a.start < -(text.length : Int) ∨ (text.length : Int) < a.stop)
  · rw [markAll_none annos 0 _ (by rw [List.length_replicate]; exact ha)]
  · have hall : ∀ a ∈ annos, a.start < a.stop → -(text.length : Int) ≤ a.start ∧ a.stop ≤ text.length := by
      intro a hm hlt
      have : ¬ (a.start < -(text.length : Int) ∨ (text.length : Int) < a.stop) := fun h' => ha ⟨a, hm, hlt, h'⟩
      omega
    obtain ⟨am, a1, _⟩ := markAll_some annos 0 (List.replicate text.length none) (by
      rw [List.length_replicate]; exact hall)
    rw [a1]
    have : ∃ u, 0 ≤ u ∧ u < 0 + e.tokens.length ∧ ∃ q r, e.tokenToChars u = some (q, r) ∧ r.1 < r.2 ∧
        (List.replicate text.length ([] : List Nat)).length < r.2 := by
      apply Classical.byContradiction
      intro hn
      refine h ⟨hall, fun t ht q r htc hlt => ?_⟩
      apply Classical.byContradiction
      intro hlt'
      exact hn ⟨t, by omega, by omega, q, r, htc, hlt, by rw [List.length_replicate]; omega⟩
    simp only [pushAll_none e _ _ _ this]

/-! ## Reading -/

theorem see_escapeChar (c : Char) (s : Str) (st : List Str) :
    see (escapeChar c ++ s) .text st = (see s .text st).map ((c, st) :: ·) := by
  unfold escapeChar
  split
  · rename_i h; subst h; rfl
  split
  · rename_i h; subst h; rfl
  split
  · rename_i h; subst h; rfl
  split
  · rename_i h; subst h; rfl
  split
  · rename_i h; subst h; rfl
  rename_i h1 h2 _ _ _
  show see (c :: s) .text st = _
  rw [see, if_neg h2, if_neg h1]

theorem see_escape (st : List Str) (s : Str) : ∀ t : Str,
    see (escape t ++ s) .text st = (see s .text st).map (t.map (·, st) ++ ·)
  | [] => by
    show see s .text st = (see s .text st).map fun x => x
    rw [Option.map_id']
  | c :: t => by
    rw [escape, List.flatMap_cons, List.append_assoc, see_escapeChar]
    show (see (escape t ++ s) .text st).map _ = _
    rw [see_escape st s t, Option.map_map]
    rfl

/-- Whether the reader is inside quotes after the text of a tag; `none`: the tag has ended. -/
def scan : Bool → Str → Option Bool
  | q, [] => some q
  | q, c :: s => if c = '"' then scan (!q) s else if c = '>' ∧ q = false then none else scan q s

theorem scan_append : ∀ (a b : Str) (q : Bool), scan q (a ++ b) = (scan q a).bind (scan · b)
  | [], _, _ => rfl
  | c :: a, b, q => by
    rw [List.cons_append, scan, scan]
    split
    · exact scan_append a b _
    · split
      · rfl
      · exact scan_append a b _

theorem scan_quotes : ∀ {w : Str}, '"' ∉ w → scan true w = some true
  | [], _ => rfl
  | c :: w, h => by
    rw [List.mem_cons, not_or] at h
    rw [scan, if_neg (Ne.symm h.1), if_neg (by simp)]
    exact scan_quotes h.2

theorem see_scan : ∀ {w : Str} {q q' : Bool} {acc : Str} (s : Str) (st : List Str), scan q w = some q' →
    see (w ++ s) (.tag acc q) st = see s (.tag (acc ++ w) q') st
  | [], q, q', acc, s, st, h => by
    rw [scan] at h
    cases h
    rw [List.nil_append, List.append_nil]
  | c :: w, q, q', acc, s, st, h => by
    rw [scan] at h
    rw [List.cons_append, see]
    split
    · rename_i hc
      rw [if_pos hc] at h
      rw [see_scan s st h, List.append_assoc]
      rfl
    · rename_i hc
      rw [if_neg hc] at h
      split
      · rename_i hq
        rw [if_pos hq] at h
        cases h
      · rename_i hq
        rw [if_neg hq] at h
        rw [see_scan s st h, List.append_assoc]
        rfl

theorem see_tag {w : Str} (hs : scan false w = some false) (hh : w.head? ≠ some '/') (s : Str) (st : List Str) :
    see ('<' :: w ++ '>' :: s) .text st = see s .text (w :: st) := by
  rw [List.cons_append, see, if_pos rfl, see_scan _ _ hs, List.nil_append, see, if_neg (by decide), if_pos ⟨rfl, rfl⟩, if_neg hh]

theorem see_close (t : Str) (s : Str) (st : List Str) : see ("</span>".toList ++ s) .text (t :: st) = see s .text st := rfl

/-- No token that is shown in an attribute, and no label, has a quote in it. -/
def NoQuotes (e : Encoding) (annos : List Anno) : Prop :=
  (∀ t ∈ e.tokens, isUnk t = true → '"' ∉ t) ∧ ∀ a ∈ annos, '"' ∉ a.label

theorem getD_mem_or {toks : List Str} {t : Nat} (h : isUnk (toks.getD t []) = true) : toks.getD t [] ∈ toks := by
  rw [List.getD] at h ⊢
  cases ht : toks[t]? with
  | none => rw [ht] at h; cases h
  | some x => exact List.mem_of_getElem? ht

theorem tokenTag_scan {toks : List Str} (h : ∀ t ∈ toks, isUnk t = true → '"' ∉ t) : ∀ ts : List Nat,
    scan false (tokenTag toks ts) = some false ∧ (tokenTag toks ts).head? ≠ some '/'
  | [] => by
    show scan false noTag = some false ∧ noTag.head? ≠ some '/'
    decide +kernel
  | t :: more => by
    show scan false (firstTag toks t (!more.isEmpty)) = some false ∧ (firstTag toks t (!more.isEmpty)).head? ≠ some '/'
    generalize (!more.isEmpty) = b
    unfold firstTag
    constructor
    · have e1 : scan false "span class=\"token".toList = some true := by decide +kernel
      have e2 : scan true (if b = true then " multi-token".toList else []) = some true := by split <;> decide +kernel
      have e3 : scan true (if t % 2 = 1 then " odd-token".toList else " even-token".toList) = some true := by split <;> decide +kernel
      simp only [scan_append, e1, e2, e3, Option.bind_some]
      split
      · rename_i hu
        have e4 : scan true " special-token\"  data-stok=\"".toList = some true := by decide +kernel
        have e5 : scan true "\" ".toList = some false := by decide +kernel
        simp only [scan_append, e4, e5, scan_quotes (h _ (getD_mem_or hu) hu), Option.bind_some]
      · decide +kernel
    · rw [show "span class=\"token".toList = 's' :: "pan class=\"token".toList by decide +kernel]
      simp only [List.cons_append, List.head?_cons]
      decide

theorem digits_noQuote (n : Nat) : '"' ∉ Nat.toDigits 10 n := fun h => by
  have := Nat.isDigit_of_mem_toDigits (by decide) (by decide) h
  revert this
  decide

theorem annoTag_scan {annos : List Anno} (h : ∀ a ∈ annos, '"' ∉ a.label) {k : Nat} {a : Anno} (hk : annos[k]? = some a) :
    scan false (annoTag annos k) = some false ∧ (annoTag annos k).head? ≠ some '/' := by
  unfold annoTag
  rw [hk]
  constructor
  · have e1 : scan false "span class=\"annotation\" style=\"color:".toList = some true := by decide +kernel
    have e2 : scan true "hsl(".toList = some true := by decide +kernel
    have e3 : scan true ",32%,64%)".toList = some true := by decide +kernel
    have e4 : scan true "\" data-label=\"".toList = some true := by decide +kernel
    have e5 : scan true "\"".toList = some false := by decide +kernel
    simp only [colorOf, hsl, scan_append, e1, e2, e3, e4, e5, scan_quotes (digits_noQuote _),
      scan_quotes (h a (List.mem_of_getElem? hk)), Option.bind_some]
  · rw [show "span class=\"annotation\" style=\"color:".toList = 's' :: "pan class=\"annotation\" style=\"color:".toList by decide +kernel]
    simp only [List.cons_append, List.head?_cons]
    decide

/-- The tag of a group is the one that is to be seen. -/
theorem groupTag (toks : List Str) (c : CharState) :
    "<span class=\"".toList ++ spaced (classes toks c) ++ "\" ".toList ++ dataItems toks c ++ " >".toList =
      '<' :: tokenTag toks c.tokens ++ ['>'] := by
  obtain ⟨i, a, ts⟩ := c
  cases ts with
  | nil =>
    show _ = '<' :: noTag ++ ['>']
    unfold classes dataItems noTag
    simp [spaced, CharState.tokenIx]
  | cons t more =>
    show _ = '<' :: firstTag toks t (!more.isEmpty) ++ ['>']
    have hl : (t :: more).length > 1 ↔ ¬ more = [] := by cases more <;> simp
    have hb : (!more.isEmpty) = decide (¬ more = []) := by cases more <;> simp
    unfold classes dataItems firstTag
    simp only [CharState.tokenIx, List.head?_cons, hl, hb, decide_eq_true_iff]
    generalize toks.getD t [] = tok
    have hs1 : ∀ a b : Str, spaced [a, b] = a ++ ' ' :: b := fun _ _ => rfl
    have hs2 : ∀ (a b c : Str) (l : List Str), spaced (a :: b :: c :: l) = a ++ ' ' :: spaced (b :: c :: l) := fun _ _ _ _ => rfl
    have l1 : "<span class=\"".toList ++ "token".toList = '<' :: "span class=\"token".toList := by decide +kernel
    have l2 : " multi-token".toList = ' ' :: "multi-token".toList := by decide +kernel
    have l3 : " odd-token".toList = ' ' :: "odd-token".toList := by decide +kernel
    have l4 : " even-token".toList = ' ' :: "even-token".toList := by decide +kernel
    have l5 : " special-token\"  data-stok=\"".toList = ' ' :: ("special-token".toList ++ ("\" ".toList ++ " data-stok=\"".toList)) := by
      decide +kernel
    have l6 : "\"  ".toList = "\" ".toList ++ [' '] := by decide +kernel
    have l7 : "\" ".toList = "\"".toList ++ [' '] := by decide +kernel
    have l8 : " >".toList = [' ', '>'] := by decide +kernel
    rw [l2, l3, l4, l5, l6, l8, ← List.cons_append, ← List.cons_append, ← List.cons_append, ← l1]
    generalize "<span class=\"".toList = x1 at *
    generalize "token".toList = x2 at *
    generalize "multi-token".toList = x3 at *
    generalize "odd-token".toList = x4 at *
    generalize "even-token".toList = x5 at *
    generalize "special-token".toList = x6 at *
    generalize " data-stok=\"".toList = x7 at *
    by_cases h1 : more = [] <;> by_cases h2 : t % 2 = 1 <;> by_cases h3 : isUnk tok = true <;>
      simp only [h1, h2, h3, if_true, if_false, not_true, not_false_iff, List.cons_append, List.nil_append, List.append_nil, hs1, hs2,
        List.append_assoc, l7, Bool.false_eq_true]

theorem see_group {text : Str} {toks : List Str} (h : ∀ t ∈ toks, isUnk t = true → '"' ∉ t) {first last : CharState}
    {rest : List CharState} (hl : (first :: rest).getLast? = some last) (s : Str) (st : List Str) :
    see (groupHtml text toks (first :: rest) ++ s) .text st =
      (see s .text st).map (((text.drop first.charIx).take (last.charIx + 1 - first.charIx)).map
        (·, tokenTag toks first.tokens :: st) ++ ·) := by
  unfold groupHtml
  rw [hl]
  simp only []
  rw [groupTag]
  obtain ⟨h1, h2⟩ := tokenTag_scan h first.tokens
  have := see_tag h1 h2 (escape ((text.drop first.charIx).take (last.charIx + 1 - first.charIx)) ++ ("</span>".toList ++ s)) st
  rw [see_escape, see_close] at this
  rw [← this]
  simp only [List.append_assoc, List.cons_append, List.nil_append]

theorem see_opening {annos : List Anno} (h : ∀ a ∈ annos, '"' ∉ a.label) {o : Option Nat} (ho : ∀ k, o = some k → k < annos.length)
    (s : Str) : see (opening annos o ++ s) .text [] = see s .text (annoTags annos o) := by
  cases o with
  | none => rfl
  | some k =>
    have hk : annos[k]? = some (annos[k]'(ho k rfl)) := List.getElem?_eq_getElem (ho k rfl)
    obtain ⟨h1, h2⟩ := annoTag_scan h hk
    have e : openAnno annos k = '<' :: annoTag annos k ++ ['>'] := by
      unfold openAnno annoTag
      rw [hk]
      simp
    show see (openAnno annos k ++ s) .text [] = see s .text [annoTag annos k]
    rw [e, ← see_tag h1 h2 s [], List.append_assoc]
    rfl

theorem see_closing (annos : List Anno) (o : Option Nat) (s : Str) :
    see (closing o ++ s) .text (annoTags annos o) = see s .text [] := by
  cases o <;> rfl

/-! ## The loop -/

theorem annoAt_lt {n : Nat} {annos : List Anno} {i k : Nat} (h : annoAt n annos i = some k) : k < annos.length := by
  unfold annoAt at h
  have := List.mem_of_getLast? h
  obtain ⟨p, hp, rfl⟩ := List.mem_map.1 this
  have := List.mem_zipIdx' (List.mem_filter.1 hp).1
  exact this.1

theorem leader_le (n : Nat) (e : Encoding) (annos : List Anno) : ∀ i, leader n e annos i ≤ i
  | 0 => Nat.le_refl _
  | i + 1 => by
    rw [leader]
    split
    · exact Nat.le_succ_of_le (leader_le n e annos i)
    · exact Nat.le_refl _

theorem slice_eq {text : Str} {j m : Nat} (h : j + m ≤ text.length) :
    (text.drop j).take m = (List.range' j m).map (text.getD · ' ') := by
  refine List.ext_getElem? fun i => ?_
  rw [List.getElem?_take, List.getElem?_map]
  by_cases hi : i < m
  · rw [if_pos hi, List.getElem?_drop, List.getElem?_range' hi]
    simp [List.getD, List.getElem?_eq_getElem (show j + i < text.length by omega)]
  · rw [if_neg hi, List.getElem?_eq_none (by simp; omega)]
    rfl

/-- What has been drawn when the states up to the `k`th have been looked at. -/
structure Drawn (text : Str) (e : Encoding) (annos : List Anno) (k : Nat) (d : Draw) : Prop where
  prev : d.prev = annoAt text.length annos k
  cur : ∃ rest, d.cur = info text.length e annos (leader text.length e annos k) :: rest ∧
    ∃ last, d.cur.getLast? = some last ∧ last.charIx = k
  same : ∀ i, leader text.length e annos k ≤ i → i ≤ k → leader text.length e annos i = leader text.length e annos k ∧
    annoAt text.length annos i = annoAt text.length annos k ∧ (tokensAt e i).head? = (tokensAt e k).head?
  out : ∀ s, see (d.out ++ s) .text [] = (see s .text (annoTags annos (annoAt text.length annos k))).map
    ((List.range (leader text.length e annos k)).map (sight text e annos) ++ ·)

/-- The group that is being collected, written out. -/
theorem Drawn.flush {text : Str} {e : Encoding} {annos : List Anno} (hq : NoQuotes e annos) {k : Nat} {d : Draw}
    (h : Drawn text e annos k d) (hk : k < text.length) (s : Str) :
    see (d.out ++ groupHtml text e.tokens d.cur ++ s) .text [] = (see s .text (annoTags annos (annoAt text.length annos k))).map
      ((List.range (k + 1)).map (sight text e annos) ++ ·) := by
  obtain ⟨rest, e1, last, e2, e3⟩ := h.cur
  rw [List.append_assoc, h.out, e1]
  rw [e1] at e2
  rw [see_group hq.1 e2, Option.map_map]
  have hle := leader_le text.length e annos k
  congr 1
  funext x
  show _ ++ (_ ++ x) = _
  rw [← List.append_assoc]
  congr 1
  have hr : List.range (k + 1) = List.range (leader text.length e annos k) ++
      List.range' (leader text.length e annos k) (k + 1 - leader text.length e annos k) := by
    rw [List.range_eq_range', List.range_eq_range', show k + 1 = leader text.length e annos k + (k + 1 - leader text.length e annos k)
      by omega, ← List.range'_append_1]
    simp
  rw [hr, List.map_append]
  congr 1
  show (List.take (last.charIx + 1 - leader text.length e annos k) (List.drop (leader text.length e annos k) text)).map _ = _
  rw [e3, slice_eq (by omega), List.map_map]
  refine List.map_congr_left fun i hi => ?_
  rw [List.mem_range'_1] at hi
  obtain ⟨s1, s2, _⟩ := h.same i hi.1 (by omega)
  simp only [Function.comp, sight, s1, s2]
  rfl

theorem getLast?_snoc {α : Type} (l : List α) (a : α) : (l ++ [a]).getLast? = some a := by simp

/-- One more state. -/
theorem Drawn.step {text : Str} {e : Encoding} {annos : List Anno} (hq : NoQuotes e annos) {k : Nat} {d : Draw}
    (h : Drawn text e annos k d) (hk : k < text.length) :
    Drawn text e annos (k + 1) (d.step text e.tokens annos (info text.length e annos (k + 1))) := by
  unfold Draw.step Draw.turn
  by_cases ha : annoAt text.length annos (k + 1) = annoAt text.length annos k
  · rw [if_neg (by rw [h.prev]; exact fun hne => hne ha)]
    obtain ⟨rest, e1, last, e2, e3⟩ := h.cur
    have hlead := h.same (leader text.length e annos k) (Nat.le_refl _) (leader_le _ _ _ _)
    unfold Draw.extend
    have hkey : (some (info text.length e annos (k + 1)).key = d.cur.head?.map (·.key)) ↔
        alike text.length e annos (k + 1) k = true := by
      rw [e1]
      simp only [List.head?_cons, Option.map_some, Option.some.injEq, CharState.key, CharState.tokenIx, info, Prod.mk.injEq, alike,
        decide_eq_true_iff, hlead.2.1, hlead.2.2]
    by_cases hal : alike text.length e annos (k + 1) k = true
    · rw [if_pos (hkey.2 hal)]
      have hl : leader text.length e annos (k + 1) = leader text.length e annos k := by rw [leader, if_pos hal]
      unfold alike at hal
      rw [decide_eq_true_iff] at hal
      refine ⟨rfl, ⟨rest ++ [info text.length e annos (k + 1)], by rw [hl]; simp [e1], _, getLast?_snoc _ _, rfl⟩, ?_, ?_⟩
      · intro i h1 h2
        rw [hl] at h1 ⊢
        by_cases hi : i ≤ k
        · obtain ⟨s1, s2, s3⟩ := h.same i h1 hi
          exact ⟨s1, s2.trans hal.2.symm, s3.trans hal.1.symm⟩
        · have : i = k + 1 := by omega
          subst this
          exact ⟨hl, rfl, rfl⟩
      · rw [hl, ha]
        exact h.out
    · rw [if_neg (fun x => hal (hkey.1 x))]
      have hl : leader text.length e annos (k + 1) = k + 1 := by rw [leader, if_neg hal]
      refine ⟨rfl, ⟨[], by rw [hl], _, rfl, rfl⟩, ?_, ?_⟩
      · intro i h1 h2
        rw [hl] at h1
        have : i = k + 1 := by omega
        subst this
        exact ⟨rfl, rfl, rfl⟩
      · rw [hl, ha]
        intro s
        exact h.flush hq hk s
  · rw [if_pos (by rw [h.prev]; exact ha)]
    have hal : ¬ alike text.length e annos (k + 1) k = true := by
      unfold alike
      rw [decide_eq_true_iff]
      exact fun x => ha x.2
    have hl : leader text.length e annos (k + 1) = k + 1 := by rw [leader, if_neg hal]
    unfold Draw.extend
    rw [if_pos (show some (info text.length e annos (k + 1)).key =
      ([info text.length e annos (k + 1)].head?).map (·.key) from rfl)]
    refine ⟨rfl, ⟨[info text.length e annos (k + 1)], by rw [hl]; rfl, _, rfl, rfl⟩, ?_, ?_⟩
    · intro i h1 h2
      rw [hl] at h1
      have : i = k + 1 := by omega
      subst this
      exact ⟨rfl, rfl, rfl⟩
    · intro s
      rw [hl]
      show see (d.out ++ groupHtml text e.tokens d.cur ++ closing d.prev ++ opening annos (annoAt text.length annos (k + 1)) ++ s)
        .text [] = _
      rw [List.append_assoc, List.append_assoc, h.flush hq hk, h.prev, see_closing,
        see_opening hq.2 fun k' hk' => annoAt_lt hk']

theorem drawn_all {text : Str} {e : Encoding} {annos : List Anno} (hq : NoQuotes e annos) (hn : 0 < text.length) :
    ∀ k, k < text.length → Drawn text e annos k (((List.range k).map fun i => info text.length e annos (i + 1)).foldl
      (Draw.step text e.tokens annos) ⟨[info text.length e annos 0], annoAt text.length annos 0,
        opening annos (annoAt text.length annos 0)⟩)
  | 0, _ => by
    refine ⟨rfl, ⟨[], rfl, _, rfl, rfl⟩, fun i _ h2 => ?_, fun s => ?_⟩
    · have : i = 0 := by omega
      subst this
      exact ⟨rfl, rfl, rfl⟩
    · show see (opening annos (annoAt text.length annos 0) ++ s) .text [] = _
      rw [see_opening hq.2 fun k' hk' => annoAt_lt hk']
      show _ = Option.map (fun x => x) _
      rw [Option.map_id']
  | k + 1, hk => by
    rw [List.range_succ, List.map_append, List.foldl_append]
    exact (drawn_all hq hn k (by omega)).step hq (by omega)

/-- **C91.** For every text, encoding and annotations within the text, what a reader sees is the text itself, character by
character, each inside a `span` that tells its first token (even or odd, or none), and inside one of the last annotation over it
with its label and colour, if there is one; and all tags are closed. -/
theorem C91_seen {text : Str} {e : Encoding} {annos : List Anno} (hne : text ≠ []) (hw : Within text e annos)
    (hq : NoQuotes e annos) : ∃ out, html text e annos = some out ∧
      see out .text [] = some ((List.range text.length).map (sight text e annos)) := by
  have hn : 0 < text.length := List.length_pos_iff.2 hne
  obtain ⟨m, hm⟩ : ∃ m, text.length = m + 1 := ⟨text.length - 1, by omega⟩
  have hr : (List.range text.length).map (info text.length e annos) =
      info text.length e annos 0 :: (List.range m).map fun i => info text.length e annos (i + 1) := by
    rw [show List.range text.length = List.range (m + 1) by rw [hm], List.range_succ_eq_map, List.map_cons, List.map_map]
    rfl
  unfold html
  rw [charStates_some hw, hr]
  refine ⟨_, rfl, ?_⟩
  have hd := drawn_all hq hn m (by omega)
  have := hd.flush hq (by omega) (closing (annoAt text.length annos m) ++ [])
  rw [see_closing, List.append_nil, ← hm] at this
  rw [show (info text.length e annos 0).anno = annoAt text.length annos 0 from rfl, hd.prev, this]
  show some (_ ++ []) = _
  rw [List.append_nil]

/-- **C91, errors.** There is no picture exactly if the text is empty or an annotation or a token is not within the text. -/
theorem C91_raises (text : Str) (e : Encoding) (annos : List Anno) :
    html text e annos = none ↔ text = [] ∨ ¬ Within text e annos := by
  by_cases hw : Within text e annos
  · unfold html
    rw [charStates_some hw]
    cases text with
    | nil => simp
    | cons c t =>
      rw [List.length_cons, List.range_succ_eq_map, List.map_cons]
      simp [hw]
  · unfold html
    rw [charStates_none hw]
    simp [hw]

/-- **C91, the text.** The characters that are seen are those of the text. -/
theorem C91_text {text : Str} {e : Encoding} {annos : List Anno} (hne : text ≠ []) (hw : Within text e annos)
    (hq : NoQuotes e annos) : ∃ out seen, html text e annos = some out ∧ see out .text [] = some seen ∧ seen.map (·.1) = text := by
  obtain ⟨out, h1, h2⟩ := C91_seen hne hw hq
  refine ⟨out, _, h1, h2, ?_⟩
  rw [List.map_map, List.range_eq_range']
  have := slice_eq (text := text) (j := 0) (m := text.length) (by omega)
  rw [List.drop_zero, List.take_length] at this
  exact this.symm

/-! ## Colours -/

theorem mem_once {a : Str} : ∀ {l : List Str}, a ∈ once l ↔ a ∈ l
  | [] => Iff.rfl
  | b :: l => by
    rw [once, List.mem_cons, ← mem_once (l := l)]
    split
    · rename_i h
      refine ⟨Or.inr, ?_⟩
      rintro (rfl | h')
      · exact h
      · exact h'
    · rw [List.mem_cons]

theorem once_nodup : ∀ l : List Str, (once l).Nodup
  | [] => List.nodup_nil
  | b :: l => by
    rw [once]
    split
    · exact once_nodup l
    · rename_i h
      exact List.nodup_cons.2 ⟨h, once_nodup l⟩

theorem labels_perm (annos : List Anno) : (labels annos).Perm (once (annos.map (·.label))) := by
  have := (Save.byKey_perm ((once (annos.map (·.label))).map (·, ()))).map (·.1)
  rw [List.map_map] at this
  simpa [labels, Function.comp_def] using this

theorem labels_nodup (annos : List Anno) : (labels annos).Nodup := (labels_perm annos).nodup_iff.2 (once_nodup _)

theorem mem_labels {annos : List Anno} {l : Str} : l ∈ labels annos ↔ ∃ a ∈ annos, a.label = l := by
  rw [(labels_perm annos).mem_iff, mem_once, List.mem_map]

theorem labels_sorted (annos : List Anno) : (labels annos).Pairwise fun a b => Save.strLe a b = true :=
  List.pairwise_map.2 (Save.byKey_sorted _)

/-- **C91, colours.** The colours depend only on which labels there are. -/
theorem C91_colors {annos annos' : List Anno} (h : ∀ l, (∃ a ∈ annos, a.label = l) ↔ ∃ a ∈ annos', a.label = l) (l : Str) :
    colorOf annos l = colorOf annos' l := by
  have hp : (labels annos).Perm (labels annos') := by
    rw [List.perm_iff_count]
    intro a
    rw [(labels_nodup annos).count, (labels_nodup annos').count]
    simp only [mem_labels, h]
  have : labels annos = labels annos' :=
    hp.eq_of_pairwise (fun _ _ _ _ h h' => Save.strLe_antisymm h h') (labels_sorted annos) (labels_sorted annos')
  unfold colorOf
  rw [this]

/-- The hue of a label, as an angle. -/
def angle (annos : List Anno) (l : Str) : Nat := hue (labels annos).length ((labels annos).idxOf l) % 360

/-- **C91, colours.** With at most 18 labels different labels have different colours, -/
theorem C91_distinct {annos : List Anno} (h : (labels annos).length ≤ 18) {a b : Anno} (ha : a ∈ annos) (hb : b ∈ annos)
    (hab : angle annos a.label = angle annos b.label) : a.label = b.label := by
  have ma : a.label ∈ labels annos := mem_labels.2 ⟨a, ha, rfl⟩
  have mb : b.label ∈ labels annos := mem_labels.2 ⟨b, hb, rfl⟩
  have la := List.idxOf_lt_length_of_mem ma
  have lb := List.idxOf_lt_length_of_mem mb
  have key : ∀ n ≤ 18, ∀ i < n, ∀ j < n, hue n i % 360 = hue n j % 360 → i = j := by decide +kernel
  have := key _ h _ la _ lb hab
  have e1 := List.getElem_idxOf la
  have e2 := List.getElem_idxOf lb
  rw [← e1, ← e2]
  simp only [this]

/-- and with more than 18 some do not. -/
theorem C91_repeated {annos : List Anno} (h : 18 < (labels annos).length) :
    ∃ a ∈ annos, ∃ b ∈ annos, a.label ≠ b.label ∧ angle annos a.label = angle annos b.label := by
  have h0 : 0 < (labels annos).length := by omega
  obtain ⟨a, ha, ea⟩ := mem_labels.1 (List.getElem_mem h0)
  obtain ⟨b, hb, eb⟩ := mem_labels.1 (List.getElem_mem h)
  have i0 : (labels annos).idxOf (labels annos)[0] = 0 := (labels_nodup annos).idxOf_getElem 0 h0
  have i18 : (labels annos).idxOf (labels annos)[18] = 18 := (labels_nodup annos).idxOf_getElem 18 h
  refine ⟨a, ha, b, hb, ?_, ?_⟩
  · rw [ea, eb]
    intro he
    rw [he, i18] at i0
    cases i0
  · unfold angle
    rw [ea, eb, i0, i18]
    have hs : hueStep (labels annos).length = 20 := by
      unfold hueStep
      rw [if_pos]
      have : 255 / (labels annos).length ≤ 255 / 19 := Nat.div_le_div_left (by omega) (by omega)
      omega
    unfold hue
    rw [hs]

/-! ## Findings -/

/-- **C91, violated.** The empty text has no picture: `EncodingVisualizer` raises `IndexError`. -/
theorem C91_empty (e : Encoding) (annos : List Anno) : html [] e annos = none := (C91_raises [] e annos).2 (Or.inl rfl)

/-- `"aé"`, of which the first token ends in the middle of the `é`. -/
def twoTokens : Encoding :=
  .mk [0, 1] [0, 0] ["aÃ".toList, "©".toList] [some 0, some 0] [(0, 2), (1, 2)] [0, 0] [1, 1] [] [(0, (0, 2))]

/-- A character over which there are several tokens is marked as such. -/
def MultiMarked : Prop := ∀ (text : Str) (e : Encoding) (annos : List Anno) (i t u : Nat) (more : List Nat), Within text e annos →
  NoQuotes e annos → i < text.length → tokensAt e i = t :: u :: more →
  (sight text e annos i).2.head? = some (tokenTag e.tokens (tokensAt e i))

/-- **C91, violated.** The second character is not marked as one over which there are two tokens, and its second token is nowhere. -/
theorem C91_multi : ¬ MultiMarked ∧
    html "aé".toList twoTokens [] = some "<span class=\"token even-token\"  >aé</span>".toList := by
  refine ⟨fun h => ?_, by decide +kernel⟩
  have := h "aé".toList twoTokens [] 1 0 1 [] ⟨(fun _ h => by cases h), fun t ht q r hr _ => ?_⟩
    ⟨fun t ht hu => ?_, fun _ h => by cases h⟩ (by decide) (by decide +kernel)
  · revert this
    decide +kernel
  · have ht : t < 2 := ht
    obtain rfl | rfl : t = 0 ∨ t = 1 := by omega
    · have e : twoTokens.tokenToChars 0 = some (0, (0, 2)) := by decide +kernel
      rw [e] at hr
      cases hr
      decide
    · have e : twoTokens.tokenToChars 1 = some (0, (1, 2)) := by decide +kernel
      rw [e] at hr
      cases hr
      decide
  · have : ∀ t ∈ twoTokens.tokens, isUnk t = false := by decide +kernel
    rw [this t ht] at hu
    cases hu

/-- **C91, violated.** Labels are written as they are: with a quote in it the rest of the text becomes part of the tag. -/
theorem C91_label : ∃ out, html "ab".toList twoTokens [⟨0, 1, "x\"y".toList⟩] = some out ∧ see out .text [] = none := by
  refine ⟨_, rfl, ?_⟩
  decide +kernel

/-- A text with an unknown token, a space that belongs to no token, and two annotations of which one goes across tokens. -/
example : let e : Encoding := .mk [5, 6] [0, 0] ["a<".toList, "[UNK]".toList] [some 0, some 1] [(0, 2), (3, 5)] [0, 0] [1, 1] [] []
    html "a< bc".toList e [⟨1, 4, "A".toList⟩, ⟨-1, 0, "B".toList⟩] = some (
      "<span class=\"token even-token\"  >a</span>".toList ++
      "<span class=\"annotation\" style=\"color:hsl(10,32%,64%)\" data-label=\"A\">".toList ++
      "<span class=\"token even-token\"  >&lt;</span><span class=\"non-token\"  > </span>".toList ++
      "<span class=\"token odd-token special-token\"  data-stok=\"[UNK]\" >b</span></span>".toList ++
      "<span class=\"annotation\" style=\"color:hsl(137,32%,64%)\" data-label=\"B\">".toList ++
      "<span class=\"token odd-token special-token\"  data-stok=\"[UNK]\" >c</span></span>".toList) := by
  decide +kernel

/-- It is within the text and without quotes. -/
example : let e : Encoding := .mk [5, 6] [0, 0] ["a<".toList, "[UNK]".toList] [some 0, some 1] [(0, 2), (3, 5)] [0, 0] [1, 1] [] []
    Within "a< bc".toList e [⟨1, 4, "A".toList⟩, ⟨-1, 0, "B".toList⟩] ∧
    NoQuotes e [⟨1, 4, "A".toList⟩, ⟨-1, 0, "B".toList⟩] := by
  refine ⟨⟨by decide +kernel, fun t ht q r hr _ => ?_⟩, by decide +kernel, by decide +kernel⟩
  have ht : t < 2 := ht
  obtain rfl | rfl : t = 0 ∨ t = 1 := by omega
  · cases hr; decide
  · cases hr; decide

end Tok.Vis
