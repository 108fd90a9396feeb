import Verif.Encoding.Spec
import Verif.Codec.ByteLevel

/-!
# Model of the post-processors

`processors/{template,bert,roberta,sequence,mod}.rs` and `PostProcessor::process`
(`tokenizer/mod.rs:122-174`).
-/

namespace Tok.Post
open Encoding

/-! ## Templates -/

/-- `template.rs:68-73` `Sequence`. -/
inductive Seq | A | B
deriving DecidableEq, Repr

/-- `usize::from(*id != Sequence::A)` (`template.rs:555`). -/
def Seq.index : Seq → Nat
  | .A => 0
  | .B => 1

/-- `template.rs:96-99` `Piece`. -/
inductive Piece
  | sequence (id : Seq) (typeId : Nat)
  | special (id : Str) (typeId : Nat)
deriving DecidableEq, Repr

/-- `str::split(char)` with a single character separator: always at least one part. -/
def splitOnChar (c : Char) : Str → List Str
  | [] => [[]]
  | x :: xs =>
    match splitOnChar c xs with
    | [] => [[x]]
    | p :: ps => if x = c then [] :: p :: ps else (x :: p) :: ps

/-- The value of a run of decimal digits; `none` on any other character. -/
def digitsVal (acc : Nat) : Str → Option Nat
  | [] => some acc
  | c :: cs =>
    if 48 ≤ c.toNat ∧ c.toNat ≤ 57 then digitsVal (acc * 10 + (c.toNat - 48)) cs else none

/-- The text without a leading `+`. -/
def dropPlus : Str → Str
  | '+' :: rest => rest
  | s => s

/-- `str::parse::<u32>()`: an optional `+`, at least one ASCII digit, value below `2^32`. -/
def parseU32 (s : Str) : Option Nat :=
  let ds := dropPlus s
  if ds.isEmpty then none
  else (digitsVal 0 ds).bind fun n => if n < 4294967296 then some n else none

/-- `template.rs:102-137` `Piece::extract_id`. -/
def extractId (s : Str) : Option Piece :=
  match s with
  | '$' :: rest =>
    if rest = [] then some (.sequence .A 0)
    else if rest = ['A'] ∨ rest = ['a'] then some (.sequence .A 0)
    else if rest = ['B'] ∨ rest = ['b'] then some (.sequence .B 0)
    else (parseU32 rest).map fun n => .sequence .A n
  | _ => some (.special s 0)

/-- `template.rs:139-144` `with_type_id`. -/
def Piece.withTypeId (t : Nat) : Piece → Piece
  | .sequence id _ => .sequence id t
  | .special id _ => .special id t

/-- `template.rs:150-163` `Piece::try_from`; `none` is the error. -/
def parsePiece (s : Str) : Option Piece :=
  match splitOnChar ':' s with
  | [id, ty] => (parseU32 ty).bind fun t => (extractId id).map (·.withTypeId t)
  | [id] => extractId id
  | _ => none

/-- `template.rs:257-286` `Template::try_from`, from pieces and from a string. -/
def parseTemplate (s : Str) : Option (List Piece) := (splitOnChar ' ' s).mapM parsePiece

/-- `template.rs:193-200` `SpecialToken`. -/
structure SpecialToken where
  id : Str
  ids : List Nat
  tokens : List Str
deriving DecidableEq, Repr

/-- `template.rs:228-234` `SpecialToken::new`; `none` is the error. -/
def SpecialToken.new (id : Str) (ids : List Nat) (tokens : List Str) : Option SpecialToken :=
  if ids.length ≠ tokens.length then none else some ⟨id, ids, tokens⟩

/-- `template.rs:295-310` `Tokens` and its construction from a list. -/
abbrev Tokens := AMap Str SpecialToken

/-- `From<Vec<T>> for Tokens` (`template.rs:299-309`). -/
def Tokens.ofList (l : List SpecialToken) : Tokens := AMap.extend [] (l.map fun t => (t.id, t))

/-- `template.rs:339-352` `TemplateProcessing`. -/
structure Template where
  single : List Piece
  pair : List Piece
  addedSingle : Nat
  addedPair : Nat
  specials : Tokens

/-- One summand of `count_added` (`template.rs:447-452`). -/
def pieceAdded (spt : Tokens) : Piece → Nat
  | .sequence _ _ => 0
  | .special id _ => (spt.get id).elim 0 (·.ids.length)

/-- `template.rs:443-454` `count_added` (with a token map; `None` is the empty map here). -/
def countAdded (t : List Piece) (spt : Tokens) : Nat := (t.map (pieceAdded spt)).sum

/-- `pair_has_both` (`template.rs:469-487`). -/
def hasBoth (pair : List Piece) : Bool :=
  pair.any (fun p => match p with | .sequence .A _ => true | _ => false) &&
  pair.any (fun p => match p with | .sequence .B _ => true | _ => false)

/-- The `missing` computation (`template.rs:492-524`): special pieces without an entry. -/
def missing (spt : Tokens) (t : List Piece) : List Str :=
  t.filterMap fun p => match p with
    | .sequence _ _ => none
    | .special id _ => if (spt.get id).isSome then none else some id

/-- `template.rs:468-524` `validate` on the builder's optional fields. -/
def validate (single pair : Option (List Piece)) (spt : Option Tokens) : Bool :=
  (match pair with | none => true | some p => hasBoth p) &&
  (missing (spt.getD []) ((single.getD []) ++ (pair.getD []))).isEmpty

/-- The derived `build` of `TemplateProcessingBuilder`: validation, then the defaults
(`template.rs:336-352`, `456-466`). `none` is the error. -/
def build (single pair : Option (List Piece)) (spt : Option Tokens) : Option Template :=
  if validate single pair spt then
    some { single := single.getD [.sequence .A 0]
           pair := pair.getD [.sequence .A 0, .sequence .B 1]
           addedSingle := single.elim 0 fun t => countAdded t (spt.getD [])
           addedPair := pair.elim 0 fun t => countAdded t (spt.getD [])
           specials := spt.getD [] }
  else none

/-- `template.rs:428-440`: the counts of a deserialized template; nothing is validated. -/
def ofJson (single pair : List Piece) (spt : Tokens) : Template :=
  { single, pair, addedSingle := countAdded single spt, addedPair := countAdded pair spt,
    specials := spt }

/-- `template.rs:527-537` `TemplateProcessing::default`: `pair` is `$1`, i.e. the first sequence. -/
def Template.default : Template :=
  { single := [.sequence .A 0], pair := [.sequence .A 1], addedSingle := 0, addedPair := 0,
    specials := [] }

/-- `template.rs:361-363` `set_single`: the count is not recomputed. -/
def Template.setSingle (t : Template) (p : List Piece) : Template := { t with single := p }

/-- `template.rs:371-373` `set_pair`: the count is not recomputed. -/
def Template.setPair (t : Template) (p : List Piece) : Template := { t with pair := p }

/-- The encoding built for a special piece (`template.rs:563-583`). -/
def specialEncoding (tok : SpecialToken) (ty : Nat) : Encoding :=
  let n := tok.ids.length
  .mk tok.ids (List.replicate n ty) tok.tokens (List.replicate n none) (List.replicate n (0, 0))
    (List.replicate n 1) (List.replicate n 1) [] []

/-- One step of the `flat_map` of `apply_template` (`template.rs:552-589`): the emitted encoding, if
any, and the updated inputs. `none` is an index panic (`encodings[i]` or `special_tokens[id]`). -/
def applyPiece (spt : Tokens) (add : Bool) (es : List Encoding) :
    Piece → Option (Option Encoding × List Encoding)
  | .sequence id ty =>
    match es[id.index]? with
    | none => none
    | some e =>
      let e' := (e.setTypeIds (List.replicate e.len ty)).setSequenceId id.index
      some (some e', es.set id.index e')
  | .special id ty =>
    if add then
      match spt.get id with
      | none => none
      | some tok => some (some (specialEncoding tok ty), es)
    else some (none, es)

/-- `template.rs:544-643` `apply_template`. -/
def applyTemplate (spt : Tokens) (add : Bool) : List Encoding → List Piece → Option (List Encoding)
  | _, [] => some []
  | es, p :: ps =>
    match applyPiece spt add es p with
    | none => none
    | some (o, es') => (applyTemplate spt add es' ps).map (o.toList ++ ·)

/-- `template.rs:655-685` `process_encodings`; `todo!()` unless there are one or two encodings. -/
def Template.processEncodings (t : Template) (add : Bool) (es : List Encoding) :
    Option (List Encoding) :=
  match es.length with
  | 2 => applyTemplate t.specials add es t.pair
  | 1 => applyTemplate t.specials add es t.single
  | _ => none

/-! ## Bert and Roberta -/

/-- `bert.rs:8-11` `BertProcessing` (and the two tokens of `roberta.rs:9-14`). -/
structure Marks where
  sep : Str × Nat
  cls : Str × Nat

/-- The `Encoding::new` call that all branches share (`bert.rs:65-89`, `94-125`, `131-150`, `157-183`
and the same places of `roberta.rs`): the tokens `before` and `after` are put around `e` with type id
`ty`, no word and offsets `(0, 0)`; the inner type ids are `inner`, the masks are rebuilt (special only
for the inserted tokens, attention everywhere), the only sequence range is `q ↦` the place of `e`. -/
def surround (before after : List (Str × Nat)) (inner : List Nat) (ty q : Nat)
    (ov : List Encoding) (e : Encoding) : Encoding :=
  let none' : Option Nat := none
  .mk (before.map (·.2) ++ e.ids ++ after.map (·.2))
    (before.map (fun _ => ty) ++ inner ++ after.map (fun _ => ty))
    (before.map (·.1) ++ e.tokens ++ after.map (·.1))
    (before.map (fun _ => none') ++ e.words ++ after.map (fun _ => none'))
    (before.map (fun _ => (0, 0)) ++ e.offsets ++ after.map (fun _ => (0, 0)))
    (before.map (fun _ => 1) ++ List.replicate e.ids.length 0 ++ after.map (fun _ => 1))
    (List.replicate (before.length + e.ids.length + after.length) 1)
    ov
    [(q, (before.length, before.length + e.ids.length))]

/-- `bert.rs:64-129`: first sequence, `[CLS] A [SEP]` with type id 0, also for the overflowing parts,
whose own overflowing parts are dropped. -/
def bertFirst (m : Marks) (e : Encoding) : Encoding :=
  surround [m.cls] [m.sep] e.typeIds 0 0
    (e.overflowing.map fun o => surround [m.cls] [m.sep] o.typeIds 0 0 [] o) e

/-- `bert.rs:130-189`: any other sequence, `B [SEP]` with type id 1 and sequence id 1. The mask has
the length of the type ids there (`bert.rs:138`); the same as that of the ids in a parallel encoding,
which is what is modelled. -/
def bertOther (m : Marks) (e : Encoding) : Encoding :=
  surround [] [m.sep] e.typeIds 1 1
    (e.overflowing.map fun o => surround [] [m.sep] o.typeIds 1 1 [] o) e

/-- `if i == 0 { .. } else { .. }` over the enumeration (`bert.rs:60-64`, `roberta.rs:90-94`). -/
def mapFirst (f g : Encoding → Encoding) : List Encoding → List Encoding
  | [] => []
  | e :: es => f e :: es.map g

/-- `bert.rs:51-194` `BertProcessing::process_encodings`. -/
def bertProcess (m : Marks) (add : Bool) (es : List Encoding) : List Encoding :=
  if add then mapFirst (bertFirst m) (bertOther m) es else es

/-- `bert.rs:43-49`. -/
def bertAdded (isPair : Bool) : Nat := if isPair then 3 else 2

/-- `roberta.rs:94-159`: type ids of the main encoding are those just set, all 0; of the overflowing
parts fresh zeros. -/
def robertaFirst (m : Marks) (e : Encoding) : Encoding :=
  surround [m.cls] [m.sep] e.typeIds 0 0
    (e.overflowing.map fun o => surround [m.cls] [m.sep] (List.replicate o.ids.length 0) 0 0 [] o) e

/-- `roberta.rs:160-224`: `</s> B </s>`. -/
def robertaOther (m : Marks) (e : Encoding) : Encoding :=
  surround [m.sep] [m.sep] (List.replicate e.ids.length 0) 0 1
    (e.overflowing.map fun o => surround [m.sep] [m.sep] (List.replicate o.ids.length 0) 0 1 [] o) e

/-- `roberta.rs:71-79`: the offsets of an encoding and of its direct overflowing parts are trimmed. -/
def trimAll (ws : Char → Bool) (aps : Bool) (e : Encoding) : Encoding :=
  ByteLevel.withOverflowing (·.map (ByteLevel.processOffsets ws aps)) (ByteLevel.processOffsets ws aps e)

/-- `roberta.rs:66-229` `RobertaProcessing::process_encodings`. -/
def robertaProcess (ws : Char → Bool) (m : Marks) (trim aps add : Bool) (es : List Encoding) :
    List Encoding :=
  let es := if trim then es.map (trimAll ws aps) else es
  let es := es.map fun e => e.setTypeIds (List.replicate e.len 0)
  if add then mapFirst (robertaFirst m) (robertaOther m) es else es

/-- `roberta.rs:58-64`. -/
def robertaAdded (isPair : Bool) : Nat := if isPair then 4 else 2

/-! ## The wrapper -/

/-- `processors/mod.rs:20-27` `PostProcessorWrapper`, with `processors/sequence.rs:8-10` `Sequence`.
Only the fields of `ByteLevel` used in post-processing. -/
inductive Proc
  | roberta (m : Marks) (trim aps : Bool)
  | bert (m : Marks)
  | byteLevel (aps trim : Bool)
  | template (t : Template)
  | sequence (ps : List Proc)

mutual
/-- `processors/mod.rs:30-38` `added_tokens` (`byte_level.rs:177-179` gives 0, `template.rs:647-653`,
`sequence.rs:52-57`). -/
def Proc.added (isPair : Bool) : Proc → Nat
  | .roberta _ _ _ => robertaAdded isPair
  | .bert _ => bertAdded isPair
  | .byteLevel _ _ => 0
  | .template t => if isPair then t.addedPair else t.addedSingle
  | .sequence ps => addedAll isPair ps

/-- The sum in `sequence.rs:53-56`. -/
def addedAll (isPair : Bool) : List Proc → Nat
  | [] => 0
  | p :: ps => p.added isPair + addedAll isPair ps
end

mutual
/-- `processors/mod.rs:40-52` `process_encodings`; `none` is a panic (no processor returns an error).
`ws` stands for `char::is_whitespace`. -/
def Proc.processEncodings (ws : Char → Bool) (add : Bool) : Proc → List Encoding → Option (List Encoding)
  | .roberta m trim aps, es => some (robertaProcess ws m trim aps add es)
  | .bert m, es => some (bertProcess m add es)
  | .byteLevel aps trim, es => some (ByteLevel.processEncodings ws aps trim es)
  | .template t, es => t.processEncodings add es
  | .sequence ps, es => processAll ws add ps es

/-- The loop of `sequence.rs:64-67`. -/
def processAll (ws : Char → Bool) (add : Bool) : List Proc → List Encoding → Option (List Encoding)
  | [], es => some es
  | p :: ps, es => (p.processEncodings ws add es).bind (processAll ws add ps)
end

/-- The preparation of one input (`tokenizer/mod.rs:137-144`): sequence id for it and its direct
overflowing parts, type ids for it only. -/
def prepare (i : Nat) (e : Encoding) : Encoding :=
  let e := e.setSequenceId i
  let e := e.setOverflowing (e.overflowing.map (·.setSequenceId i))
  e.setTypeIds (List.replicate e.len i)

/-- `tokenizer/mod.rs:126-148` `PostProcessor::process`. -/
def Proc.process (ws : Char → Bool) (p : Proc) (e : Encoding) (pair : Option Encoding) (add : Bool) :
    Option Encoding :=
  let es := match pair with
    | some o => [prepare 0 e, prepare 1 o]
    | none => [prepare 0 e]
  (p.processEncodings ws add es).map (merge · false)

/-- The loop of `default_process` for other than one encoding (`tokenizer/mod.rs:165-169`). -/
def defaultMerge (es : List Encoding) : Encoding :=
  es.zipIdx.foldl (fun acc p => acc.mergeWith (p.1.setSequenceId p.2) false) .empty

/-- `tokenizer/mod.rs:158-173` `default_process`. -/
def defaultProcess (es : List Encoding) : List Encoding :=
  match es with
  | [e] => [e]
  | _ => [defaultMerge es]

end Tok.Post
