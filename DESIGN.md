# Formal model of huggingface/tokenizers in Lean 4

The model lives in `lean/Verif/`. `/repo` is read as text; it is never built or run. All cited
paths are relative to `/repo/tokenizers/src/`.

## Conventions of the model

* A Rust `String`/`&str` is a `List Char` (`Str`); a byte offset is a `Nat`; the byte width of a
  character is Lean's `Char.utf8Size` (1..4) and where bytes themselves matter they are
  `List (BitVec 8)`/`List Nat` produced by an explicit UTF-8 encoder.
* `usize`/`u32`/`i64` are `Nat`/`Int` without wrap-around, unless a comment says otherwise. Subtraction
  that would underflow in Rust is either proved not to underflow or modelled as an explicit panic.
* `&mut self` methods return the new value. A panic (`assert!`, out-of-bounds index, `unwrap` on
  `None`, underflow) is the value `none`/an explicit error constructor; a `Result` is `Except`.
* Hash maps are modelled by what the code uses of them: association lists with first-match lookup or
  functions `K -> Option V`; where iteration order matters the iteration order is a parameter and the
  theorem quantifies over all permutations.
* Priority queues (`BinaryHeap`) are modelled abstractly as multisets (lists) from which an element
  that is minimal in the Rust ordering is extracted.
* External calls (regex engines, Aho-Corasick, Unicode tables, the JSON layer, the random generator)
  are parameters; the assumption made about each is a hypothesis of the theorem and is listed below.
* Floating-point scores are exact rationals (`Rat`); NaN and infinities are outside the model, rounding too except in `Unigram/Round` (best segmentation). Where the code
  takes exponentials and logarithms (`Unigram/Marginal`, `EStep`) numbers are the reals of Mathlib.

## Trusted base

* Lean's kernel (4.33.0) and the three standard axioms `propext`, `Classical.choice`, `Quot.sound`;
  no theorem depends on any other axiom (checked with `#print axioms`, and by `vcheck`).
* Mathlib's real numbers, exponential and logarithm, for C60 only (`Mathlib.Analysis.SpecialFunctions.Log.Basic`); all
  other files use the core library.
* That each definition is a faithful transcription of the Rust lines cited in its doc comment.
* The assumptions about external code stated as hypotheses (listed per property below).

## Plan per property

| id | modelled | proof |
|----|----------|-------|
| C01 | `Encoding` (7 vectors, overflowing, ranges), truncate, merge_with, pad, set_sequence_id, processors | invariant, induction over an inductive `Reachable` relation of operations |
| C02 | `truncate` with its `parts` computation | direct; coverage by induction on the window list |
| C03 | `truncate_encodings` | case analysis, arithmetic |
| C04 | `pad`, `pad_encodings` | induction over batch and overflow nesting |
| C05 | `merge_with`, `merge` | list induction |
| C06 | `token_to_sequence`, `sequence_range`, `set_sequence_id` | direct; the off-by-one at `token == len` is proved as a negation |
| C07 | the six lookup functions | spec = first index satisfying a predicate |
| C08 | `NormalizedString` with char-level cells (char, alignment); `transform_range` etc. | invariant over operation histories |
| C09 | same | functional correctness of each operation against list functions; failing corner cases as negations |
| C10 | `convert_offsets`, `slice` | direct |
| C11 | `split` | list induction against a spec of each behaviour |
| C12 | `find_matches` | list induction; the empty `&str` pattern as negation |
| C13 | `PreTokenizedString` | induction over splits |
| C14 | converters | induction over the string |
| C15 | `Word::merge_all` (queue + linked list) | simulation: the queue contains all current mergeable pairs, stale entries are detected |
| C16 | offsets iterator, `tokenize` | sum of symbol lengths is invariant |
| C17 | `merge_all` with an oracle of Booleans | invariants independent of the oracle |
| C18 | `merge_word` | induction over characters; order bug of byte fallback as negation; the exact order for every word (`Late`) |
| C19 | model + cache state machine | invariant: cached value = uncached result |
| C20 | `BpeBuilder::build` | induction over merges |
| C21 | `WordPiece::tokenize` | spec relation `Greedy` + uniqueness |
| C22 | `WordLevel::tokenize` | case analysis |
| C23 | `encode_optimized` | DP invariant: best score per position is the max over segmentations |
| C24 | `Lattice`, `viterbi` | both optimal; same tie-break recurrence. Partial: exact sums only, see C75 |
| C25 | `Trie` | induction over the text |
| C26 | `add_tokens` | invariant over histories |
| C27 | `find_matches` of added vocabulary | induction over matches |
| C28 | `decode` | direct |
| C29 | `bytes_char`, byte-level pre-tokenizer/decoder | bijection by exhaustive computation over 256 bytes (complete, not sampled), round-trip by list induction |
| C30 | `ByteFallback` | list induction |
| C31 | `Metaspace` | list induction |
| C32 | WordPiece decoder | list induction |
| C33 | Strip, BPE, CTC, Fuse, Sequence decoders | direct; panics as negations |
| C34 | `step_decode_stream` | invariant over histories |
| C35 | template processor | list induction |
| C36 | Bert, Roberta processors | direct |
| C37 | `post_process` | composition of C02, C03, C35, C36, C04 |
| C38 | `tokenize_with_limit`, composed through `encode` | prefix/suffix argument; a relation kept by every step of post-processing (`Cong`) |
| C39 | OrderedVocabIter, BPE serialization, WordPiece files, added tokens reload | round-trip laws (JSON text layer abstracted) |
| C40 | WordLevel trainer (`Train/WordLevel.lean`) | permutation invariance of sorting: the order on (word, count) is total and antisymmetric |
| C41 | BPE trainer (`Train/Bpe*.lean`) | invariant over the steps of the loop; words as segmentations of their initial symbols (`BpeSeg`); refinement to textbook training (`Greedy`, unique result); applying the merges in order is textbook tokenization of *any* word |
| C42 | `feed` (`Train/Feed.lean`) | commutative-monoid reduction over any tree |
| C43 | `encode_batch` | map/sequence laws |
| C44 | pipeline with byte-level pre-tokenizer, BPE and byte-level decoder | composition of C13, C16, C29, C28: the tokens of every split decode to its bytes |
| C45 | `Cache` | invariant over histories with lock outcomes |
| C46 | `get_vocab`, `get_vocab_size` | set/cardinality argument |
| C47 | `nbest` | invariant of the A* agenda |
| C48 | `into_encoding` with OffsetType::None, composed through `encode` | direct; `Cong` |
| C49 | `Unigram::tokenize` | list induction |
| C50 | `process_offsets` | arithmetic |
| C51 | template parser | list induction |
| C52 | `default_process` | direct, from C05 |
| C55 | `encode_single_sequence` on a list of words | from C13 and C05 |
| C56 | normalizers (`Normalizers/*`) | text spec per normalizer; structural induction over sequences, from C09 |
| C57 | pre-tokenizers (`PreTokenizers/*`) | list-of-pieces spec per pre-tokenizer; loop invariants for each pattern, then C11 and C13; structural induction over sequences |
| C58 | the whole `encode` (`Tokenizer/Pipeline`) | composition of C27 (sharpened to the unique leftmost-longest cut), C56, C57, the model and C36 |
| C59 | offsets of `encode` (`Tokenizer/Order`, `Offsets`, `OffsetsAll`, `Exact`) | every edit keeps the source ranges among those of before (`Kin`), cuts keep them in order (`InOrder`); an invariant of the pre-tokenized string (`Lined`); offsets of models tile the word (`InWord`); post-processing only copies offsets or adds `(0, 0)` (`Over`); exactness by `Verbatim` pieces |
| C60 | `log_sum_exp`, `populate_marginal`, `run_e_step` over the reals (`Unigram/Marginal`, `Paths`, `C60`, `C60Model`, `EStep`) | invariant of the forward and backward sweeps: log of the mass of all paths, up to a relative error per node (`Close`); a bijection of paths through a node with pairs of paths (`through_mass`); paths of the lattice are segmentations of the text |
| C61 | `do_train` of the Unigram trainer (`Train/Unigram*`) | invariants of the loop (texts come from the seeds), of `finalize` (pieces distinct, required ones present); coverage from C23; non-termination by an invariant of the loop, from C47; seeds, M step, alternatives, pruning and final scores each against a specification in terms of segmentations (C47, C60) |
| C62 | `WordPieceTrainer::train`, `from_bpe` (`Train/WordPiece`) | the vocabulary only grows in the loop, so all single characters stay in it; greedy segmentation exists by induction over the rest of the word |
| C63 | `train`, `train_from_files`, `ResultShunt`, lines (`Tokenizer/Training`, `Trained`) | the words fed are the pieces (C42); patterns that do not occur do not change the pieces; per trainer from C40, C62, C61 |
| C64 | the parts of Llama's tokenizer (`Bpe/ByteFallback`, `Tokenizer/Llama`) | what merging keeps (`Spells`: text pieces and the byte tokens of unknown characters), then byte-fallback decoding of what spells a word; encode by C58, template by C35 |
| C65 | JSON values, writers and readers of all components, models, parameters and of the file (`Save/Json`, `Save/Config`, `Save/File`) | mutual induction over nested sequences; the file by C39 for models and added tokens; reading again: what was read meets the hypotheses |
| C66 | settings turned into the components of the earlier models (`Save/Interp`); histories of added tokens (`Save/Behave`) | invariant over histories: cached forms, special tokens and patterns are those of the tokens that are there; then every step of encoding and decoding gives the same on both; the file again by uniqueness of sorted lists |
| C67 | the readers of C65 on the three published forms, the tokenizer of C66 (`Save/Published*`) | loading part by part, then C44, C64, C58 with the template of C35 |
| C68 | `Lattice::sample`, `sample_nbest`, `encode` with `alpha`, as lists of outcomes with probabilities (`Unigram/Sample`) | the draws from a node are the paths to its position, with the product of the choices; for `theta = 1` the choices telescope (C60's `alpha_close`); `sample_nbest` from C47 |
| C69 | `Tokenizer/Meta`: no new code; the composition of C58, C31, C23/C49, C16 and C35 | the tokens of the words spell Metaspace's text, the first one lies in the first word, so C31's decoder gives the text back; special tokens around are skipped |
| C70 | `Tokenizer/BertText`, `Save/PublishedBertText`: no new code; the composition of C58, C21, C32, C36/C35 and C67 | the tokens of a word are its beginning and prefixed parts, the decoder puts them together again; the cleanup of one token with its space only removes the space before four marks |
| C71 | `Regex/`: a matcher for the constructs of the fixed patterns (rests in order of preference), `find`, `find_iter`, the patterns | the first rest of the `ByteLevel` pattern is computed alternative by alternative (`byteLevel_head`) and compared with a description by runs; what `PreTokenizers/` and `Added/` assumed of the other patterns is derived |
| C72 | `Tokenizer/Apart`: no new code | the words of the whole are those of the parts for each pre-tokenizer; then C58 |
| C73 | `Bpe/Strings`, `Save/PublishedGpt2`: no new code | the textbook steps on ids (C15) are steps on strings through the vocabulary (`named_step`); then C67's loading, C58 and C71 |
| C74 | `Train/BpeOverflow`: the training of `Train/BpeModel` with `i32` operations (any function that is exact on 32-bit results; wrapping and checking are two of them) | a merge in a word costs at most two changes up and two down and removes one symbol, so every count stays between `-2n` and `3n` for a corpus of `n` symbols; then step by step equality with C41's training |
| C75 | `Unigram/Round`: the encoders with a rounding function after every sum; `Unigram/F64`: rounding to 53 bits, ties to even | as C23 with sums from left to right; the values of the lattice nodes are the rounded sums of the table's values, by monotonicity; bound on the error by induction on the pieces; without rounding (`RoundExact`) both tables solve the exact recurrence, which has one solution |
| C76 | `PreTokenizers/ScriptTable`: the arms of `get_script`, copied by a script | the arms are merge-sorted in the kernel (with a proof that sorting permutes) and neighbours compared; then C57 with this table |
| C77 | `Codec/Stream` on top of `Tokenizer.decode`, ids from `Tokenizer.encode` | C34's invariant for one list of tokens (`StableOn`); byte fallback is stable on tokens that spell a text (`Spells`), by cancelling beginnings; then C44, C64, C67 |
| C78 | `TokenizerImpl::train` with `BpeTrainer` (`Tokenizer/Training`, `Train/BpeModel`), then `encode`, `decode`, `save`, `load` | words fed are spelled (C13, C27), the 256 characters are kept (C41), the trained model is `Built` (C41), hence C44 and C77; then C66 |
| C79 | two atomics and the environment, threads with program counters (`Parallelism`) | inductive invariant over all interleavings |
| C80 | index arithmetic with wrapping (`Bindings/Slice`) | exact description by padding the text with missing characters; `_partial` where it agrees with Python; negations |
| C81 | lock, weak handle, guard as a transition system (`Bindings/RefMut`) | inductive invariant over all interleavings |
| C82 | buffer and refill loop (`Bindings/Iter`) | induction on the source; composition with C63 |
| C83 | Python objects as a datatype, extraction functions (`Bindings/Inputs`) | case analysis; comparison of the two extraction paths; UTF-8 of UCS-4 data |
| C84 | composition of C61, C63, C69 (`Tokenizer/TrainedMeta`) | words fed to the trainer are those of C58; the trained vocabulary has no repetitions; C61_covers, C69_text |
| C85 | composition of C62, C63, C70 (`Tokenizer/TrainedBert`) | the same with C62_covers, C70_bert |
| C86 | `Bindings/Pickle` | writing and reading as functions to and from the JSON values of `Save/Json`; induction on the nesting of overflowing encodings |
| C87 | `Bindings/Settings` | keyword arguments as a list folded over; a spec that looks up each name by itself; the fold preserves and sets one name at a time |
| C88 | `Bindings/AddedTok` | case analysis; the copy forgets which settings were not given, exact condition for when this shows |
| C89 | `Bindings/Shared` | invariant over programs: cached forms and automata are those of the current normalizer unless something behind a held lock has changed since the last assignment; built on the invariants of `AddedVocab` |
| C90 | `Bindings/Repr` | mutual induction on values: the stateful serializer appends the text of the value and restores level and counts of outer levels; exact condition for the panic of the slice |
| C91 | `Bindings/Visualize` | a small reader of HTML as the spec; invariant over the characters drawn so far, relating the open tags and the reader's view to the covering token and annotation |
| C93 | composition of C41, C63 and the BPE decoder (`Bpe/Suffix`, `Tokenizer/CharBpe`) | invariant of merging: a token that ends a word ends in the suffix, no other contains it if its last character is not in the words; training keeps a token for every character and for every character at the end of a word |
| C94 | composition of C41, C63, C69 (`Tokenizer/TrainedMetaBpe`) | as C93 with C69_bpe; no token of a trained vocabulary is empty, by induction over textbook training |
| C92 | the constructors give exactly the settings for which C78, C84, C85, C93, C94 are proved (`Bindings/Classes`); the pattern of two or more spaces squeezes spaces (`Regex/Spaces`) | unfolding of the constructors; for a given vocabulary an invariant over the special tokens added one by one |
| C95 | reading with the field missing = reading with its default put in (`Save/Defaults`) | unfolding of the readers; C20 for dropout |
| C96 | one instance whose tables change, generations and thread-local maps (`Bpe/Retrain`) | invariant: a stored word is that of a model the instance had in the generation; negations by really training twice |
| C97 | tasks that wait, tasks that hold the read lock, a lock that can be poisoned (`Bindings/NodeTasks`) | induction over histories; tasks have distinct numbers; a poisoned lock has no readers; negations by histories |
| C98 | locks with what is behind them; objects are a class and one lock or a list of locks (`Bindings/Sequences`) | exact effect of an assignment on every object; invariant of histories without assignments; negations with locks given |
| C99 | getters, setters and keyword arguments as functions of Python objects; `AddedToken` objects on a heap (`Bindings/Attributes`) | exact results for all options; which objects become special, by induction over the list given; the `Debug` text of a template is never a template, by its third word |
| C100 | errors are followed through the whole pipeline (`Tokenizer/NoErrors`): the stages before the model are total on good pieces, the loops over pieces only pass on the errors of the model, truncation of well-formed encodings | induction over pieces, sequences of pre-tokenizers and lists of words; exact arithmetic of the three strategies; models through C16, C18, C21, C22, C49 |
| C101 | a heap of models behind locks and tokenizers that hold them (`Bindings/SharedModels`); the exact condition under which a change of the model leaves a tokenizer in order; the trainers of BPE and WordPiece meet it when used again with the same special tokens (`Tokenizer/TrainedIds`) | invariants over programs; the invariant of C26 is kept by a change of model exactly if the added tokens fit; induction over the rounds of training (nothing moves in the vocabulary) |
| C102 | the Python stream with the state that a failing step leaves, started with a prompt (`Bindings/PyStream`) | the invariant of C34, entered from the state after the first refresh; for a stuck stream, the bytes of a text followed by a continuation byte are never the bytes of a text |
| C103 | calls with their optional arguments, and what the two packages make of them (`Bindings/Factories`) | mutual induction over calls and lists of calls; a sequence flattened by Python does what the nested one does because applying a concatenated list is applying one list after the other |
| C104 | calls with functions of Python that may raise at any piece (`Bindings/PyPreTok`) | invariant: every piece is reachable by edits and slices and lies in the text, kept by every call; exact specifications of the loops that stop in the middle; witnesses for what is lost |
| C105 | the tokenizers of C44, C64, C69, C70 (`Tokenizer/Stable`) | texts with the same words have the same ids; the words of BERT's pre-tokenizer glued by the decoder are cut into the same words; the text of Metaspace and of Llama does not change; exact condition for Metaspace |
| C106 | `Sequence[WhitespaceSplit, Metaspace]`, Unigram, `TemplateProcessing`, from the file on (`Tokenizer/T5`, `Save/PublishedT5`) | the pieces are the marked words; the decoder turns all but the first mark into spaces; loading part by part as for C67 |
| C107 | `alignments_original` (`Norm/C107`) | new alignments are old ones or (0, 0), slices move character ranges to character ranges; two character ranges are equal or apart; invariant of the loop over groups |
| C108 | tokenizers like Llama 3's, Qwen's (`Tokenizer/Llama3`), their files (`Save/PublishedLlama3`) | pieces together spell the text through any sequence of pre-tokenizers that keep text; C58 for the units, C16 for the tokens of a word, C29 for the bytes; template behind `ByteLevel` puts special ids around; the first added token not in the vocabulary has the first free id |
| C109 | padding and decoding (`Tokenizer/C109`) | ids of a padded encoding are the ids with copies of the padding id on one side; copies of a silent id decode to no tokens; C43 for batches |
| C110 | pairs (`Tokenizer/Pairs`) | the type id reaches only the type ids; post-processing of two encodings without overflow puts fixed ids around them, by cases on the processor (induction for `Sequence`); C43-like case analysis for failures; bytes of both texts as in C108 |
| C111 | truncated encodings (`Tokenizer/Truncated`, `Text/LossyCut`) | C38 leads back to complete tokenization; rows kept by `truncate` (C02); what the post-processor puts around does not depend on the overflowing parts (the congruence of C38); numbers of special ids from C37; a piece of well-formed bytes is decoded by induction on the text |
| C112 | windows of an encoding (`Tokenizer/Windows`) | ids of `merge_with` through overflowing parts; what each processor does to all windows, by cases; windows of `truncate` from C02; the pieces visited by the early exit are a beginning (or end) of all pieces |
| C113 | `set_encode_special_tokens` end to end (`Tokenizer/EncodeSpecial`, `Save/EncodeSpecialFile`) | loop invariant of `find_matches`: ids pushed are not special; with only special tokens the loop pushes nothing; tokens of BPE are characters, results of merges or whole words, by induction on merge steps; then C58 for the tokenizer without added tokens |
| C114 | additions are local (`Tokenizer/AddLocal`, `Save/AddLocalFile`) | the leftmost-longest scan depends only on the patterns that occur in the text; invariant of the loop of `add_tokens` relative to the state before (`Grown`); the automata list exactly the tokens after calls that succeed (`Synced`), by induction on the history |
| C115 | trainings of two sizes (`Train/BpeSizes`, `Train/Sizes`) | simulation: the loop with the stricter settings does the same step or stops, merges and vocabulary only grow; a step of the shorter table is a step of the longer one, so by determinism the longer table goes on from the result of the shorter one; invariant: each symbol stands for a group of the old ones |
| C116 | `Models/Renaming`, `Unigram/Reorder` | simulation function by function: every table is mapped by the injective function, every step commutes with it; for Unigram a relation between the two tables of best paths, the trie by uniqueness of the sorted list of its matches |
| C117 | `Encoding/Renumber`, `Post/Renumber`, `Tokenizer/Renumber`, `Save/Renumber` | every function of the pipeline commutes with the renumbering; the models by C116 |
| C118 | `Tokenizer/Rectangular` | every step keeps encodings well-formed; C37 bounds the overflowing parts by the encoding itself; C43 and C04 give the padding |
| C119 | `Encoding/Remap`, `Post/Remap`, `Tokenizer/CharOffsets` | every step after the model treats offsets as opaque (a naturality lemma: it commutes with replacing each pair of offsets by another); C59 and C14 give the two pairs for each token |
| C120 | `Save/PublishedRoberta`, `Save/RobertaSamples` | loading as for GPT-2 (C67); C114 shows that tokens that do not occur make no difference, so C58 applies without them; the ids of `RobertaProcessing` are computed; byte-level decoding is C29 |
| C121 | `Post/Chain` | one step for Bert and Roberta, then induction on the list of processors |
| C122 | `Encoding/Twice` | C02 applied to both truncations |
| C54 | `added_tokens` of all processors | structural induction over processors with an abstract size measure |

## Modelled so far

| Lean files | Rust |
|------------|------|
| `Encoding/*` | `tokenizer/encoding.rs`, `utils/truncation.rs`, `utils/padding.rs` |
| `Bpe/Word*.lean`, `MergeAll` | `models/bpe/word.rs` (`merge_all`, offsets iterator) |
| `Bpe/Model`, `Build`, `Unknown`, `Tokenize` | `models/bpe/model.rs` (`BpeBuilder::build`, `merge_word`, `tokenize*`) |
| `Bpe/Cache` | thread-local word cache of `models/bpe/model.rs` |
| `SharedCache` | `utils/cache.rs` and `Unigram::encode`'s use of it |
| `Norm/*` | `tokenizer/normalizer.rs` (`transform_range`, all text operations, `convert_offsets`, `slice`, `split`), `tokenizer/pattern.rs` |
| `Models/WordPiece` | `models/wordpiece/mod.rs` (`tokenize`), `models/wordlevel/mod.rs` (`tokenize`) |
| `Text/Utf8` | prefix-freeness of UTF-8 (no Rust counterpart) |
| `Unigram/Trie` | `models/unigram/trie.rs` |
| `Unigram/Model`, `Dp`, `Pieces`, `C23`, `C24`, `Tokenize` | `models/unigram/model.rs` (`from`, `encode_optimized`, `encode_unoptimized`, `populate_nodes`, `tokenize`), `models/unigram/lattice.rs` (`insert`, `viterbi`) |
| `Unigram/NBest`, `C47` | `models/unigram/lattice.rs` (`nbest`); the priority queue is a parameter with assumption `Heap.Ok` |
| `Unigram/Marginal`, `EStep` | `models/unigram/lattice.rs` (`log_sum_exp`, `populate_marginal`), `models/unigram/trainer.rs` (`run_e_step`), over real numbers |
| `Unigram/Paths`, `C60`, `C60Model` | (theorems C60 about the above) |
| `Pre/*` | `tokenizer/pre_tokenizer.rs`, the offset helpers of `tokenizer/normalizer.rs` |
| `Pre/Pieces` | pieces that every normalizer and pre-tokenizer step accepts (no Rust counterpart) |
| `Text/Lossy` | `String::from_utf8_lossy` |
| `Codec/StrReplace` | `str::replace` |
| `Codec/ByteLevel` | `pre_tokenizers/byte_level.rs` (pre-tokenizer, decoder, post-processor) |
| `Codec/Decoders` | `decoders/*.rs`, `decode_chain` of `normalizers/replace.rs` |
| `Codec/Metaspace` | `pre_tokenizers/metaspace.rs` |
| `Codec/Wrapper` | `decoders/mod.rs`, `decoders/sequence.rs`, `Decoder::decode` |
| `Codec/Stream` | `DecodeStream`, `step_decode_stream` of `tokenizer/mod.rs` (`decode` is a parameter) |
| `Added/Vocab` | `tokenizer/added_vocabulary.rs` (additions, lookups, caches), `TokenizerImpl::decode` |
| `Added/Match` | `tokenizer/added_vocabulary.rs` (`find_matches`, `split_with_indices`, `extract_and_normalize`); the automaton of crate `daachorse` is its documented leftmost-longest search |
| `Post/Model` | `processors/{template,bert,roberta,sequence,mod}.rs`, `PostProcessor::process` and `default_process` of `tokenizer/mod.rs` |
| `Post/Merge`, `Bert`, `Template`, `Syntax` | (theorems about the above) |
| `Post/Process`, `C37` | `post_process`, `get_n_added_tokens`, `with_truncation` of `tokenizer/mod.rs` |
| `Tokenizer/Model` | `TokenizerImpl` of `tokenizer/mod.rs`: `encode*`, `encode_single_sequence`, `do_tokenize`, `encode_batch*`, `decode_batch`, `get_vocab*`, `token_to_id`, `id_to_token`. Normalizer, pre-tokenizer and model are arbitrary functions; a parallel `collect` runs its tasks in an arbitrary order and keeps the first recorded error |
| `Tokenizer/Vocab`, `Batch`, `Cong`, `Fast`, `Early`, `Words`, `Samples`, `Lossless` | (theorems C46, C43, C48, C38, C55, C44 about the above) |
| `Save/Model` | `models/mod.rs` (`OrderedVocabIter`), `models/*/serialization.rs`, `WordPiece::save`/`read_file`, `BPE::save`/`convert_merges_to_hashmap`, added tokens in `tokenizer/serialization.rs` |
| `Save/Vocab`, `Bpe`, `Added` | (theorems C39 about the above) |
| `Train/BpeModel` | `models/bpe/trainer.rs` (`do_train` and all it calls) and `Word::merge`; pair counts are integers; with `i32` see `Train/BpeOverflow` |
| `Normalizers/*` | `normalizers/*.rs`; Unicode tables, grapheme segmentation and the precompiled table are parameters (assumption `Unicode.Ok`), a regular expression is the list of its matches on each text |
| `PreTokenizers/*` | `pre_tokenizers/*.rs`; Unicode tables are parameters (the script table too, given in `ScriptTable`), a regular expression is the list of its matches on each text, except `\w+\|[^\w\s]+` of `Whitespace`, whose leftmost-greedy search is modelled |
| `Train/Feed`, `WordLevel` | `feed` of the trainers (parallel reduction as an arbitrary tree), `models/wordlevel/trainer.rs` |
| `Train/UnigramModel` | `models/unigram/trainer.rs` (`do_train` and all it calls); the suffix array (crate `esaxx-rs`), logarithm, digamma, the E step (see C60) and the priority queue are parameters; scores are rational numbers without NaN and infinities |
| `Train/UnigramFinal`, `UnigramCover`, `UnigramSamples`, `UnigramLoop`, `UnigramSteps`, `UnigramScores` | (theorems C61 about the above) |
| `Train/WordPiece` | `models/wordpiece/trainer.rs` (`train`), `WordPiece::from_bpe`; theorems C62 |
| `Tokenizer/Training`, `Trained` | `tokenizer/mod.rs` `train`, `train_from_files` (opening the files and the progress bar left out), `utils/iter.rs` (`ResultShunt`, lines with ending; the bytes of a file are taken as decoded lines or a reading error); theorems C63 |
| `Bpe/ByteFallback`, `Tokenizer/Llama`, `LlamaSamples` | no new code: the tokenizer assembled from the parts modelled elsewhere; the matches of a one-character pattern are computed (`occurrences`); theorems C64 |
| `Save/Json`, `Config`, `File`, `RoundTrip`, `Reread`, `FileRoundTrip`, `FileSamples` | the `Serialize`/`Deserialize` implementations of `normalizers/`, `pre_tokenizers/`, `decoders/`, `processors/`, `models/`, `utils/truncation.rs`, `utils/padding.rs`, `AddedTokenWithId`, `tokenizer/serialization.rs`, on JSON values; not the text of JSON (`serde_json`); theorems C65 |
| `Save/Interp`, `Behave`, `Again`, `BehaveSamples` | `ModelWrapper::tokenize`, the wrappers as their parts, `TokenizerImpl` from its settings; `with_normalizer`, `add_tokens` as histories; theorems C66. Assumed of `daachorse`: whether an automaton can be built does not depend on the order of the patterns, and it cannot if a pattern is there twice |
| `Save/Published`, `PublishedLlama`, `PublishedBert`, `PublishedSamples` | no more code: the forms of three published files as JSON values, written from memory: the files are not in the repository and could not be compared with, so that `gpt2File`, `llamaFile`, `bertFile` are the published forms is trusted; `Automata` is an assumption about which lists the `daachorse` builder accepts (different, nonempty patterns; its limits on size are left out); theorems C67 |
| `Unigram/Sample`, `C68`, `C68Model` | `lattice.rs`: `sample`, `sample_nbest`; `model.rs`: `encode`, `encode_unoptimized` with `alpha` and `nbest_size`. A random choice is the list of its outcomes with their probabilities; that `rand`'s `WeightedIndex` chooses an index with probability proportional to its weight is assumed; numbers are reals (as in C60: no rounding, overflow or NaN); theorems C68 |
| `Tokenizer/Meta`, `MetaSamples` | tokenizers with Metaspace as a composition of the parts above; theorems C69 |
| `Tokenizer/BertText`, `Save/PublishedBertText`, `Save/PublishedBertSamples` | tokenizers like BERT's as a composition of the parts above, also as loaded from a file; theorems C70 |
| `Regex/Model`, `Engine`, `ByteLevel`, `Words`, `Fixed`, `Append`, `Samples` | the patterns in `pre_tokenizers/byte_level.rs`, `pre_tokenizers/whitespace.rs`, `added_vocabulary.rs` and literal patterns, `find_iter` of `utils/onig.rs` and `utils/fancy.rs`. The engines themselves are not in the repository: that they have the semantics of `Re.run` (backtracking, as documented for Oniguruma and fancy-regex; the crate `regex` finds the same leftmost-first matches) is trusted. Parsing of patterns is not modelled: the patterns are written as terms; theorems C71 |
| `Tokenizer/Apart` | no new code; theorems C72 |
| `Bpe/Strings`, `Save/PublishedGpt2`, `Gpt2Samples` | no new code: the merge list of a file as a procedure on strings |
| `Train/BpeOverflow` | `models/bpe/trainer.rs` with 32-bit counts; theorems C74 |
| `Unigram/Round`, `RoundDp`, `C75`, `F64`, `RoundExact` | `encode_optimized`, `encode_unoptimized`, `Lattice::viterbi` with rounded sums of scores; `f64` without infinities and NaN (no largest number); theorems C75 |
| `PreTokenizers/ScriptTable`, `C76` | `unicode_scripts/scripts.rs`: all 1922 arms of `get_script`; theorems C76 |
| `Codec/StreamFallback`, `Tokenizer/Streaming` | theorems C77 on the existing models of `DecodeStream`, `decode`, `encode` |
| `Tokenizer/TrainedBpe`, `Tokenizer/TrainedBpeSamples` | `BpeTrainer::train` as a trainer of `TokenizerImpl::train`; theorems C63, C78 |
| `Parallelism` | all of `utils/parallelism.rs` but the iterators themselves (what they compute: C42, C43); theorems C79 |
| `Tokenizer/TrainedAny` | `TrainerWrapper::train`, `ModelWrapper` for training; theorem C63_kinds |
| `Added/SkipExact` | theorem C28_exact: which tokens are skipped after any history of additions |
| `Codec/MetaspaceExact` | theorem C31_exact: what decoding gives for every segmentation |
| `Post/Exact` | theorems C54_exact, C54_report_right_iff: what every nesting of processors inserts and when it panics |
| `Tokenizer/Roberta` | theorem C44_surrounded: byte-level BPE with prefix space and special tokens around the text |
| `Save/PublishedEngine` | C67 for GPT-2 and Llama with the matches of the regular expressions themselves |
| `Bindings/Slice` | `bindings/python/src/utils/normalization.rs` (`PyRange`, `to_range`, `slice`, `__getitem__`), `PySlice::indices` of pyo3 as documented for CPython; `bindings/node/src/utils.rs` `slice`; theorems C80 |
| `Bindings/RefMut` | `bindings/python/src/utils/mod.rs` (`RefMutContainer`, `RefMutGuard`); sequentially consistent lock, the borrow flags of pyo3 are left out (more is possible in the model); theorems C81 |
| `Bindings/Iter` | `bindings/python/src/utils/iterators.rs` `PyBufferedIterator`, `bindings/python/src/tokenizer.rs` `train_from_iterator`; the GIL is not modelled; theorems C82 |
| `Bindings/Inputs` | `bindings/python/src/tokenizer.rs`: `TextInputSequence`, `PreTokenizedInputSequence`, `TextEncodeInput`, `PreTokenizedEncodeInput`, `PyArrayUnicode`, `PyArrayStr`, `encode`, `encode_batch`, `async_encode`, `async_encode_batch`; only strings, lists, tuples and arrays of objects; theorems C83 |
| `Tokenizer/TrainedMeta`, `TrainedBert`, `TrainedMetaSamples` | no new code; theorems C84, C85. Assumed of the suffix array (crate `esaxx-rs`): what it reports without the separator are substrings of the words (`Substrings`) |
| `Bindings/Pickle` | `bindings/python/src/encoding.rs:50-72` (`__getstate__`, `__setstate__`) with the derived serialization of `tokenizer/encoding.rs:10-31`. Hash maps are written in any order. The text of the JSON is not modelled: assumed is that serde_json reads back the value it wrote (it refuses texts nested deeper than 128, so deeper overflow cannot be unpickled) |
| `Bindings/Settings` | `bindings/python/src/tokenizer.rs:931-1147` (`enable_truncation`, `enable_padding`, getters), `bindings/node/src/tokenizer.rs:15-140`, `bindings/node/src/encoding.rs:30-75, 209-236` (options, directions, `truncate`). Python values are reduced to the kinds that matter (int, str, bool, None, other); warnings for unknown names are left out |
| `Bindings/AddedTok` | `bindings/python/src/tokenizer.rs:64-268, 1679-1729` (`PyAddedToken`, arguments of `add_tokens` and `add_special_tokens`), `bindings/node/src/tokenizer.rs:140-180` |
| `Bindings/Shared` | `bindings/python/src/normalizers.rs:53-55, 213-225, 488-520, 868-872, 945-965`, `bindings/python/src/tokenizer.rs:1895-1913`: locks shared by Python objects and tokenizers, with `tokenizer/mod.rs:592-597, 1227-1239`. Normalizers do not fail there and the automata can be built |
| `Bindings/Repr` | `bindings/python/src/utils/serde_pyo3.rs:1-560`, all of the serializer. Numbers, booleans and unit variants are given by the texts they are written as |
| `Bindings/Visualize` | `bindings/python/py_src/tokenizers/tools/visualizer.py`: grouping of characters, tags, colours, escaping; not modelled: the style sheet and the page around the body, display in a notebook |
| `Bpe/Suffix`, `Tokenizer/CharBpe`, `CharBpeSamples`, `TrainedMetaBpe` | no new code; theorems C93, C94 |
| `Regex/Spaces` | the pattern ` {2,}` of `SentencePieceUnigramTokenizer` |
| `Bindings/Classes`, `ClassesSamples` | the constructors of the five classes in `py_src/tokenizers/implementations/` with their defaults, and what their `train` methods give to the trainers. Vocabularies are dictionaries (not paths of files); `from_file` and the methods of `BaseTokenizer` that pass a call on are not modelled |
| `Save/Defaults` | no new code; theorems C95 |
| `Bpe/Retrain` | `models/bpe/trainer.rs:609-627` and the setters of `bindings/python/src/models.rs:380-450` as changes of an instance with a cache |
| `Bindings/NodeTasks` | the tasks of `bindings/node/src/tasks/tokenizer.rs` and the methods of `bindings/node/src/tokenizer.rs:202-436` behind the `RwLock`, poisoning, `running_tasks`. Assumed: a writer waits for all readers, readers do not wait for each other, and there is one JavaScript thread. Not modelled: fairness (a writer that waits for ever), `train` (holds no lock while it reads files) |
| `Bindings/Sequences` | `Sequence.__new__`, `__getitem__`, `__setitem__`, the macros `getter!`/`setter!`, `__getstate__`/`__setstate__` of the Python normalizers, pre-tokenizers, post-processors and decoders. What components do is not modelled here, and JSON is that of C65. One thread; locks are not poisoned |
| `Bindings/Attributes` | `PySplitDelimiterBehavior`, `from_string` of prepend schemes, `PyChar`, progress formats, `TemplateProcessing.single`/`pair`, the attributes and constructor of `BpeTrainer`, those of `BPE`. Simplified: `escape_debug` is a parameter; probabilities are rational numbers; locks are free |
| `Tokenizer/NoErrors` | nothing new: the composition of all the models above, for the settings of a tokenizer (`Save.Conf`) |
| `Bindings/SharedModels`, `Tokenizer/TrainedIds` | constructor, getter and setter of `model`, `train` of tokenizers that share models (Python and Node); what a trainer makes is a parameter in the first file, the modelled trainers in the second; trainings that fail are left out |
| `Bindings/PyStream` | `PyDecodeStream` (`decoders.rs:786-887`): construction with ids, `step` with one or several ids and with any tokenizer, the state left by an error; the conversion of the Python argument is not modelled |
| `Tokenizer/ExactBpe` | nothing new: the text that a BPE token stands for (models without prefix, suffix and byte fallback) |
| `Bindings/Factories` | the factory functions of Node (`normalizers.rs`, `pre_tokenizers.rs`, `processors.rs`, `decoders.rs`, `BPE.init` and `Unigram.init` of `models.rs`) and the constructors of the Python classes given the same arguments; the conversion of JavaScript and Python values is not modelled (arguments have the right types), nor is the cache capacity |
| `Bindings/PyPreTok` | `PreTokenizedString` of Python (`utils/pretokenization.rs`): `split`, `normalize`, `tokenize`, `get_splits`, `to_encoding`, and the state left by an exception; custom pre-tokenizers (`pre_tokenizers.rs:890-911`). A function of Python is a function of the index of the piece; calls of the object from inside its own functions (refused by PyO3) and strings kept after a call (`RefMutContainer`) are not modelled here |
| `Tokenizer/Stable`, `Tokenizer/StableSamples` | no further code: `encode` after `decode` after `encode` for the models of `Tokenizer/BertText`, `Meta`, `Llama`, `Lossless` |
| `Tokenizer/T5`, `Save/PublishedT5`, `Save/T5Samples` | no further code: the sequence of the two pre-tokenizers with the Metaspace decoder, and the form (from memory) of the file published for T5 |
| `Norm/C107` | `alignments_original` (`normalizer.rs:854-901`), used by tests of the crate only |
| `Tokenizer/Llama3`, `Save/PublishedLlama3`, `Save/PublishedLlama3Samples` | no new code: compositions for `Sequence[Split, ByteLevel]`, `Sequence[ByteLevel, TemplateProcessing]`, `ignore_merges`; the file forms of Llama 3 and Qwen 2 are written from memory |
| `Bindings/Exact` | nothing new: statements about single setters and names, added after edits of them had gone unnoticed |
| `Tokenizer/C109` | no new code: padding (`encoding.rs:465-532`) followed by `decode`, `decode_batch`; injectivity of byte-level encoding |
| `Tokenizer/Pairs`, `Save/PairsSamples` | no new code: `encode` of two inputs related to `encode` of one |
| `Tokenizer/Truncated`, `Text/LossyCut` | no new code: `encode` with truncation related to `encode` without; `from_utf8_lossy` on a beginning or an end of the bytes of a text |
| `Tokenizer/Windows` | no new code: the overflowing parts of `encode` with truncation |
| `Tokenizer/EncodeSpecial`, `Save/EncodeSpecialFile` | `set_encode_special_tokens` of a tokenizer; otherwise no new code: `find_matches` with the switch on, composed with the rest of `encode` and `decode` |
| `Tokenizer/AddLocal`, `Save/AddLocalFile` | no new code: `add_tokens` relative to the state before, composed with `encode`, `decode` and loading |
| `Train/BpeSizes`, `Train/Sizes` | no new code: two runs of `do_train`, and the two models on one word |
| `Models/Renaming`, `Unigram/Reorder` | no new code: two models that differ in their ids |
| `Encoding/Renumber`, `Post/Renumber`, `Tokenizer/Renumber`, `Save/Renumber` | no new code: two tokenizers that differ in their ids |
| `Tokenizer/Rectangular` | no new code |
| `Encoding/Remap`, `Post/Remap`, `Tokenizer/CharOffsets` | no new code |
| `Save/PublishedRoberta`, `Save/RobertaSamples` | no new code |
| `Save/Sampling` | the public fields `alpha` and `nbest_size` of `Unigram` (`model.rs:33-34`, `136-151`) with its `Serialize` and `Deserialize` (`serialization.rs:8-77`) |
| `Post/Chain` | no new code |
| `Encoding/Twice` | no new code |
| `Unigram/NoUnk` | no new code |

Not modelled: the language bindings other than the parts listed under `Bindings/*`, CLI, `http`/hub download, progress bars, the JSON text layer, regular expressions
other than the fixed ones and Unicode tables (parameters), floating-point rounding (except in C75), allocation failure, `usize` overflow upward.

## Findings

Places where the code, as read, does not satisfy the natural property. Each one with a theorem name is
proved as a negation with a concrete witness; the others concern code not (yet) modelled.

* `Encoding::token_to_sequence` accepts the index one past the end (`C06_off_by_one`).
* `truncate_encodings` with `LongestFirst` can reach `truncate`'s `assert!(stride < max_len)` although the
  parameters satisfy `stride < max_length` (`C03_longest_first_can_panic`).
* `with_truncation` accepts a stride equal to the effective maximum length, and the next long input panics
  (`Post.C37_stride_equal`); it checks the limit against the special tokens of a single input only, so a pair can
  underflow: panic with overflow checks, no truncation at all without (`Post.C37_underflow`).
* BPE `merge_word` with byte fallback does not flush a pending unknown run, so the bytes of a later
  character come before it (`Bpe.C18_bytes_out_of_order`); without an unknown token an unknown character
  disappears (`Bpe.C18_dropped_without_unk`).
* `BpeBuilder::build`: a merge whose concatenation is missing from the vocabulary and longer than every token
  overflows the fixed buffer and panics instead of returning the error (`Bpe.C20_missing_concatenation_panics`).
* The BPE word cache is not invalidated when training replaces the vocabulary or a public field is changed;
  C19 therefore assumes the model is unchanged between calls.
* `Cache::resize` to a smaller capacity keeps the entries (`SharedCache.C45_resize_keeps_entries`).
* `NormalizedString`: an operation that leaves the first character without source (`prepend("")`, a
  replacement of an empty match at the start, `append` on an empty text) makes the next whole-string
  transformation panic or duplicate text (`C09_prepend_empty_then_lowercase_panics`,
  `C09_replace_empty_then_lowercase_panics`, `C09_append_to_empty_then_lowercase_duplicates`).
* `slice` of an empty normalized range keeps the numbers as original offsets, which may lie beyond the text
  (`C10_empty_slice_offsets_wrong`).
* `replace` gives the whole content the source of the last character of the match only (visible in
  `replacedChars`).
* `Pattern for &str` with the empty pattern counts characters instead of bytes, so its single match does not
  cover a non-ASCII text (`C12_empty_string_pattern_does_not_cover`) and `split` panics
  (`C11_empty_pattern_panics`).
* `BytesToCharOffsetConverter::convert` has no answer for an empty range at the end of the text
  (`C14_empty_range_at_end`); `into_encoding` and `get_splits` then report byte offsets as characters.
* `tokenize_with_limit` from the left: word indices count from the first kept split
  (`C38_left_words_differ`); in both directions the overflowing parts beyond the limit are lost
  (`C38_overflow_lost`), and an error of the model in a part never tokenized is not reported.
* `into_encoding` with `OffsetType::None` drops token strings, word indices and the type id (visible in the
  model; ids and masks agree, `C48_fast_ids`).
* With `LongestFirst`, two inputs that both reach the limit and an odd number of places, the early exit decides which
  input gets the place left over, so the ids are not those of a complete tokenization (`Tokenizer.C38_odd_room`).
* Without a post-processor `encode_fast` gives type id 0 to the second input as well (`Tokenizer.C48_type_ids_lost`).
* `get_vocab_size` of Unigram counts a repeated piece twice (`Tokenizer.C46_unigram_repeated`).
* `id_to_token` gives the normalized form of an added token, which `token_to_id` need not know
  (`Tokenizer.C46_id_to_token_normalized`).
* A byte-level tokenizer is not lossless once tokens are added: the byte-level decoder reads an added token `é` as a
  byte and gives U+FFFD (`Tokenizer.C44_added_latin1`), and an added token with `lstrip` swallows the spaces before it
  (`Tokenizer.C44_added_strip`).
* `encode_batch` pads every encoding twice, first by itself; the result is the same (`Tokenizer.C43_padded_once`).
* Unigram without `unk_id`: `encode_optimized` reports `MissingUnkId` although the text can be segmented
  (`Unigram.C23_missing_unk_id_although_segmentable`), while the lattice encoder returns `Ok([])` on the same
  input (`Unigram.C24_differ_without_unk_id`).
* `Lattice::viterbi` gives up (`vec![]`) as soon as one character boundary has no node starting there, even if
  other nodes jump over it; `nbest` then runs with stale scores (not modelled).
* `Lattice::populate_marginal` compares nodes by vocabulary id when it asks whether a node is the first of the sum.
  Where the text of the unknown token occurs in a sentence, two nodes with that id begin at one place, the sum starts
  again, and likelihood and expected counts are wrong: an expected count of `exp 13 + 1` for a sentence with one
  occurrence (`Unigram.C60_unk_text_breaks`).
* `ByteFallback` takes `<0x+A>` for a byte, `u8::from_str_radix` accepting a sign (`Dec.C30_plus_sign_accepted`).
* `BPEDecoder` on an empty token list computes `0 - 1` (`Dec.C33_bpe_empty_panics`).
* `Strip` panics on tokens shorter than the number of characters to strip that consist of the stripped
  character alone, the empty token included (`Dec.C33_strip_panics`, exactly characterised by
  `Dec.C33_strip_defined`).
* `CTC` without `cleanup` does not turn the word delimiter into a space.
* The Metaspace decoder drops every replacement character of the first token, so a first token with a space
  inside (`split: false`) loses it (`Metaspace.C31_first_token_loses_spaces`).
* `DecodeStream` with a byte-fallback decoder: a run of byte tokens that was valid and has been returned can
  become invalid as a whole; the stream then fails with `InvalidPrefix` (`Stream.C34_byte_fallback_fails`).
* Added tokens: a token with `rstrip` followed by a token beginning with whitespace gives overlapping pieces
  (`AddedVocab.C27_overlap`) or an inverted range and a panic (`AddedVocab.C27_inverted`).
* Skipping special tokens compares the decoded (normalized) form with the set of contents ever added as special:
  a normalized special token is not skipped (`AddedVocab.C28_form_not_skipped`), one added again as not special
  still is (`AddedVocab.C28_flag_not_cleared`), and re-adding a token as not normalized leaves its old normalized
  form (`AddedVocab.C28_stale_form`).
* `add_tokens` with a model whose ids are not `0..n-1` hands out an id in use
  (`AddedVocab.C26_sparse_ids_collide`); an error midway leaves tokens in the maps that are not searched for
  (`AddedVocab.C26_error_midway`); `extract_and_normalize` ignores errors of the normalizer.
* `BpeTrainer` with a continuing-subword prefix whose first character occurs in the text (or a suffix whose last character
  does): different runs of symbols get the same string and id, a pair is merged twice, and the trained model does not
  tokenize a training word into the trainer's symbols (`Train.C41_prefix_in_text`).
* `BpeTrainer` with a suffix or prefix: ids depend on the order in which the word hash map is visited
  (`Train.C41_order_suffix`), and the vocabulary may exceed `vocab_size` although the alphabet does not
  (`Train.C41_size_suffix`). With `limit_alphabet`, which of equally frequent characters is kept depends on hash order
  (`Train.C41_limit_ties`).
* `BpeTrainer::max_token_length`: pairs of two initial symbols are exempt, and longer tokens must be *shorter* than the
  maximum (`Train.C41_max_length`, `Train.C41_max_length_exempt`).
* `BpeTrainer`: the count of a merged pair itself is never reduced in `pair_counts`; harmless, because a merged pair never
  occurs again and is not queued again (part of the invariant `Train.Inv`).
* `WordLevelTrainer`: a special token that is also a word of the corpus is listed twice, keeps the later id and leaves a
  hole in the ids (`Train.C40_special_in_corpus`), after which added tokens get ids in use (`AddedVocab.C26_sparse_ids_collide`).
* `Precompiled`: removing the first character (or the characters before any other) shifts every later character to the
  source of an earlier one (`Normalizer.C56_precompiled_removal_at_start`); after an expansion, a removal makes the last
  added character come from the removed one.
* `BertNormalizer`: U+2B820–U+2B91F, the start of CJK Extension E, are not taken for Chinese characters; the range
  begins at `0x2B920` (`Normalizer.C56_chinese_gap`).
* `TemplateProcessing`: `set_single`/`set_pair` leave the number of added tokens stale (`Post.C35_stale_count`); the
  builder accepts a single template asking for `$B`, which panics (`Post.C35_single_with_B`); type ids of a piece do
  not reach the overflowing parts (`Post.C35_overflow_type_ids`); special tokens read from JSON are not checked
  (`Post.C35_unchecked_special`); `$1` means the first sequence, so the default pair template drops the second one
  (`Post.C35_default_drops_pair`).
* Bert and Roberta drop the overflowing parts of overflowing parts (visible in `Post.C36_bert`).
* `Sequence` of post-processors: a template followed by Bert inserts more tokens than reported, so the length limit is
  exceeded (`Post.C54_template_then_bert`); two templates panic (`Post.C54_two_templates`); a byte-level processor
  after a template renumbers the sequences (`Post.C06_byteLevel_after_template`).
* The empty template string asks for a special token with an empty name (`Post.C51_empty`).
* Saving a model in which two tokens have the same id loses one of them (`Save.C39_shared_id_lost`). `vocab.txt` does not
  bring back a WordPiece vocabulary with holes or with tokens ending in whitespace (`Save.C39_wordpiece_file_fails`), nor
  `merges.txt` merges of tokens with spaces (`Save.C39_merges_file_fails`); the JSON form does.
* The ids stored with added tokens are only compared for a warning: after the model has been replaced by one of another
  size, a saved tokenizer comes back with other ids (`Save.C39_ids_recomputed`). `encode_special_tokens` is not saved
  (`Save.C39_encode_special_lost`). Reloading clears the stale entries of C28: the set of special tokens is that of the
  flags, the normal forms are those of the current normalizer (`Save.C39_added`).
* `UnicodeScripts` loses every character before the first one that has a script, so a text of spaces (or of characters
  without script only) gives no piece at all (`PreTokenizer.C57_scripts`, `C57_scripts_lose`).
* `FixedLength` with length 0 (accepted by the constructor and by deserialization) panics on any text
  (`PreTokenizer.C57_fixed_zero`).
* `Metaspace` with the scheme `first` asks whether the piece begins at the first byte of the original text. After a `Strip`
  normalizer a text with leading spaces has no such piece, so its first word gets no `▁` (`Tokenizer.C58_strip_first`).
* `UnigramTrainer` may never return: with a vocabulary size below 10 the loop asks for `floor(1.1 * size) = size` pieces,
  but the unknown piece and one piece per character are never pruned; if the corpus has as many characters as the size
  allows, the loop goes on for ever (`Train.C61_never_returns`, `Train.C61_hangs`).
* `UnigramTrainer` exceeds `vocab_size` when the required characters fill it: `finalize` stops only when the length is
  *equal* to the limit after a push (`Train.C61_size_exceeded`); a size below the number of special tokens underflows
  (`UniCfg.limit`). Ids of required characters without a score depend on hash order (`Train.C61_order_dependent`). A special
  token that is also a piece is listed twice and its text gets the later id (`Train.C61_special_twice`). Training drops
  `byte_fallback` of the model (`Train.C61_no_byte_fallback`).
* `prune_sentence_pieces` computes the loss of a piece with `alternatives.len()`, the number of all pieces, where the
  comment above it (and SentencePiece) has the number of alternatives of this piece (`Train.C61_loss`).
* A corpus containing the text `<UNK>` makes `NaN` scores in `UnigramTrainer` (by reading; `NaN` is not in the model).
* `WordPieceTrainer` without `continuing_subword_prefix` trains a vocabulary without prefixed entries, but the model looks for
  entries with the default `##`: words of the corpus are unknown (`Train.C62_no_prefix`). An `end_of_word_suffix` is put on
  the entries, and the model never looks for it (`Train.C62_suffix`).
* `train_from_files`: if a line cannot be read, the tokenizer is trained with the lines before it, and then the error is
  returned (`Tokenizer.C63_read_error`).
* `train` adds the special tokens after the words were counted. In the training text they are parts of words, and what is
  left of these words afterwards may be unknown (`Tokenizer.C63_special_cuts`). Added tokens that were there before are counted
  as words of the model (`Tokenizer.C63_added_fed`). They keep their ids although the model has a new vocabulary: a special token
  of the trainer with the same id replaces them (`Tokenizer.C63_added_lost`), or two tokens share an id
  (`Tokenizer.C63_ids_collide`).
* Pruning of Unigram training compares the number of pieces with the size aimed at by `==`. If more pieces stay in any case
  than fit, nothing stops the loop and no candidate is pruned: a smaller `shrinking_factor` can prune less
  (`Train.C61_overfull`).
* `finalize` fills the vocabulary in the order of training, not by score, so a piece may be left out for one with a worse
  score (`Train.C61_better_left_out`).
* The normalizer and decoder of Llama do not keep `▁` apart from a space: `h▁i` comes back as `h i` (`Tokenizer.C64_mark_lost`,
  exact condition in `C64_lossless`).
* `ByteFallback` decodes any token of the form `<0x41>`, also one that BPE merged from the letters of the text: if the merges
  make it, the text `<0x41>` comes back as `A` (`Tokenizer.C64_merged_byte_token`).
* If the vocabulary has no `▁`, byte fallback writes it in bytes; as the decoder replaces `▁` before it joins bytes, the text
  `h i` comes back as `▁h▁i` (`Tokenizer.C64_no_mark`).
* `{"type": "Delimiter", ..}` can never be loaded: the wrapper knows that name, the structure only `CharDelimiterSplit`
  (`Save.C65_delimiter_unreadable`); the saved form loads through the untagged fallback.
* A charsmap that is refused makes loading a tokenizer panic (`Save.C65_charsmap_panics`).
* The `type` of a post-processor is not looked at, and an unknown `type` of a normalizer, pre-tokenizer or decoder is no error:
  `BertProcessing` with two more fields is loaded as `RobertaProcessing` (`Save.C65_bert_read_as_roberta`), `Append` with a
  field `prepend` as `Prepend` (`Save.C65_unknown_type`).
* `Metaspace` with `add_prefix_space` false and no `prepend_scheme` (the old format) is always refused
  (`Save.C65_old_metaspace_refused`).
* Loading skips checks that the constructors make: ids and texts of a special token of a template
  (`Save.C65_special_token_unchecked`), stride and length of truncation (`Save.C65_truncation_unchecked`).
* A BPE model with its public field `dropout` out of range is saved, but the file is refused
  (`Save.C65_dropout_out_of_range`).
* The counts of a template change by saving and loading if they were stale (`Save.C65_counts_change`).
* Not proved, as it concerns `serde_json`: an unknown key at the top of the file is not consumed
  (`tokenizer/serialization.rs:144`), so `from_str` reports an error at the colon (in the model: parameter `skip`); sequences
  nested deeper than 128 are saved but not loaded; an infinite score is written as `null`.
* Adding a token again as one that is not normalized leaves its old normal form in the cache: its id still gives that form,
  until the tokenizer is saved and loaded (`Save.C66_stale_form`).
* Adding a special token again as one that is not special leaves it in the set of special tokens: decoding still skips it,
  until the tokenizer is saved and loaded (`Save.C66_stale_special`).
* `encode_special_tokens` is not saved (`Save.C66_encode_special_lost`).
* `Lattice::sample` multiplies by `theta` a value in which `theta` is a factor already (`lattice.rs:391-395`), so for
  `alpha` other than 0 and 1 segmentations with the same score are drawn with different probabilities
  (`Unigram.C68_not_by_score`); `alpha = 1` and `sample_nbest` are right.
* Metaspace with the scheme `first` asks where the *original* text of the first word begins (`metaspace.rs:133-135`), so after a
  normalizer that strips spaces from the left the first word has no mark (`Tokenizer.C69_first_after_strip`).
* The cleanup of the WordPiece decoder is applied to one token at a time (`wordpiece.rs:50-60`). In what BERT's pre-tokenizer cuts, no
  token contains an apostrophe and something else, so the replacements for contractions (`n't`, `'s`, `do not`, ..) never apply:
  `don't.` is given back as `don ' t.` (`Save.C70_contraction`; in general `Tokenizer.C70_bert`).
* A pair that is listed twice among the merges has the rank of its last occurrence (`BpeBuilder::build` collects the merges
  into a hash map), so that `a b`, `b c`, `a b` joins `bc` first. (`Bpe.C73_duplicate`; `RankOf` says so in C73.)
* BPE training counts pairs in `i32` and casts word counts to it (`trainer.rs:419,432,584`): a word that occurs `2^31` times or more
  has a negative count and its pairs are never merged, without any error; counts are taken modulo `2^32`, so a pair that occurs
  `2^32 + 1` times loses against one that occurs twice (`Train.C74_lost`, `C74_sum`, `C74_cut`).
* The two Unigram encoders do not agree in `f64` (C24): with `a` = -3, `b` = -5, `ab` = -8.000000000000002 and `c` = -9,
  `encode_optimized` cuts `abc` into `a`, `b`, `c` and the lattice into `ab`, `c`. The lattice adds the score of the next piece before
  it compares (`lattice.rs:188`), which rounds the difference away. Both have the best rounded score (`Unigram.C75_differ`).
* The script table is that of Unicode 9. Characters added since (`₿`, `🤩`) have no script: at the beginning of a text `UnicodeScripts`
  drops them, and a text of nothing else makes no piece (`Scripts.C76_lost`, `C76_vanish`).
* Without `ByteLevel::alphabet()` as initial alphabet (the trainer's default is empty) a trained byte-level tokenizer drops the characters it has not seen, without an error (`Tokenizer.C78_needs_alphabet`).
* `maybe_par_chunks` (training of Unigram) does not set `USED_PARALLELISM`: a parallel iterator has been handed out and `has_parallelism_been_used` is false (`Par.C79_chunks_not_noted`).
* `get_sequence_ids` goes through the sequences 0..n_sequences(): an encoding that carries only the label 1 is reported as sequence 0, while `token_to_sequence` says 1 (`Encoding.C06_second_alone`).
* With `add_prefix_space` a byte-level tokenizer gives a text back with a space in front that it did not have (`Tokenizer.C44_prefix_space`); this is all that is lost (`Tokenizer.C44_surrounded`).
* Python `NormalizedString.__getitem__`: negative indices count from the number of *bytes*: `NormalizedString("éa")[-2]` is `a`, `[-1]` is `None` (`Py.C80_not_bytes`); `[2:1]` panics or, without overflow checks, gives everything from 2 on (`Py.C80_reversed`); the step of a slice is ignored, `[::-1]` gives the last character (`Py.C80_step`).
* A callback of `for_each`/`map`/`filter` on a `NormalizedStringRefMut` that reads the same object waits for ever (`Py.C81_nested_use_hangs`).
* `PyBufferedIterator`: an exception of the Python iterator comes out before the objects that came before it in the same refill (`Py.C82_error_overtakes`); `train_from_iterator` reports the exception but has trained the tokenizer all the same, without the texts before it (`Py.C82_train_error`).
* `async_encode_batch(..., is_pretokenized=True)` refuses an item of exactly two words (`Py.C83_two_words`); a pair of texts in a numpy array is refused by the asynchronous functions only (`Py.C83_array_pair`); `async_encode` gives offsets in bytes, `encode` in characters (`Py.C83_async_offsets`).
* Numpy arrays of strings (`dtype='U'`) are read as UTF-8 although they hold UCS-4: no element ever arrives as it is (`Py.C83_numpy_never_right`); ASCII strings arrive with NUL characters in between (`Py.C83_numpy_ascii`), which only a normalizer removing them hides (`Py.C83_numpy_cleaned`).
* In Node the values of `TruncationDirection` ("Left", "Right") are refused by `setTruncation` and by `Encoding.truncate`: the declared type is `string | TruncationDirection`, the enum is a string enum, so the text branch takes it, which knows only "left" and "right" (`bindings/node/src/tokenizer.rs:61-70`; `C87_node_enum_refused`).
* In Node `setPadding()` without options switches padding off, where `enable_padding()` in Python switches it on with the defaults (`C87_node_padding_off`).
* In Node `Encoding.truncate(n)` without a direction keeps the end of the encoding, in Python and by the default parameters of both it keeps the beginning (`C87_node_truncate_left`).
* In Node `setTruncation` unwraps the error of `with_truncation` (a stride not less than the length left) while it holds the write lock, so the lock is poisoned and every later call on the tokenizer panics (`bindings/node/src/tokenizer.rs:400-405`): `Node.C97_poisoned`; nothing else poisons it (`Node.C97_healthy`).
* In Node the option `is_pretokenized` is accepted and ignored (`bindings/node/src/tokenizer.rs:88-103`): `Node.C97_pretokenized_ignored`.
* A Python `AddedToken` without `normalized` copied (or unpickled) becomes one with `normalized=True`, so `add_special_tokens` adds the copy as a token to be looked for in normalized text, the original as one that is not (`C88_copy_normalized`, exactly when: `C88_special_copy`).
* `add_special_tokens` sets `special` in the caller's own `AddedToken` objects, which changes what they do later (`C88_argument_changes`).
* In Python, setting an attribute of a normalizer that a tokenizer holds (`tokenizer.normalizer.lowercase = True`, or through a shared object) changes how text is normalized but leaves the normalized forms of the added tokens as they were, so these are no longer found; assigning the normalizer again repairs it (`C89_stale`, `C89_assign`).
* `str(obj)` in Python panics if a text longer than 100 bytes in the object has a multi-byte character across byte 100, for example `str(normalizers.Prepend("a" + "é" * 50))` (`bindings/python/src/utils/serde_pyo3.rs:148-158`; `C90_str_panics`, exactly when: `C90_panics`).
* Beyond the depth for which the serializer keeps counts (20 for `str`) the counts of two levels get mixed up and elements are left out (`C90_deep`); no object of the library is nested so deep unless sequences are nested in sequences.
* `EncodingVisualizer` raises `IndexError` for the empty text (`char_states[0]`, `C91_empty`).
* In the visualizer a character covered by several tokens (a byte-level token per byte) is marked only when it begins a group; otherwise the second token appears nowhere in the picture (`C91_multi`).
* Labels of annotations and unknown tokens are written unescaped into attributes of the visualizer's HTML: a quote in a label swallows what follows (`C91_label`).
* With more than 18 labels the visualizer gives two labels the same hue (`C91_repeated`). The expression for unknown tokens, `"(.{1}\b)?(unk|oov)(\b.{1})?"`, is not a raw string, so its `\b` are backspaces and it matches any token with `unk` or `oov` inside. Its branch for special tokens cannot be reached.
* BPE with an end-of-word suffix, as `CharBPETokenizer` trains it: a character that was seen, but never at the end of a word, has no token with the suffix. As the last character of a word it is unknown, and with it the word boundary is lost: trained on `ab c`, the text `ba c` comes back as `b<unk>c` (`Tokenizer.C93_end_lost`).
* The BPE decoder takes a suffix that is written in the text for the end of a word (`Tokenizer.C93_suffix_in_text`).
* `CharBPETokenizer(suffix=...)`: `train` has a suffix of its own, by default `</w>`, so with another suffix in the constructor the suffix of training stays in decoded texts (`Classes.C92_suffix_kept`).
* `BertWordPieceTokenizer(wordpieces_prefix=...)`: the same for the prefix (`Classes.C92_prefix_kept`).
* `BertWordPieceTokenizer()` without a vocabulary never gets a post-processor, so that after training no `[CLS]` and `[SEP]` are added, although one made from the same vocabulary adds them (`Classes.C92_bertBare`).
* `ByteLevelBPETokenizer` with only one of vocabulary and merges drops it without an error, and with it dropout, prefix and suffix; without both, it drops the dropout too, unlike the other BPE classes (`Classes.C92_ignored`).
* The description of `CharBPETokenizer` says that accents are stripped; by default they are not (`Classes.C92_charAccents`).
* `SentencePieceUnigramTokenizer(vocab)` has no unknown token: a character without piece is an error of `encode` (`Classes.C92_unigramVocab`).
* `PreTokenizedString::from(NormalizedString)` for a slice of a normalized string takes the text of the slice for the original, while the split counts its offsets from the beginning of the text that was sliced: offsets are outside of the original (`PTS.C13_of_slice`).
* A BPE model that is trained again, or whose `unk_token`, `fuse_unk`, `byte_fallback`, prefix or suffix is set, keeps its cache of words: a word the thread has tokenized before gets the old ids with the new names. Trained on `ab`, used, then trained on `ba`, the model makes of `ab` the token `ba` (`Retrain.C96_trained_again`); if the new vocabulary is smaller it panics (`Retrain.C96_trained_again_panics`); `fuse_unk` set after use has no effect (`Retrain.C96_setter`; in general `Retrain.C96_stale`). `dropout` and `ignore_merges` are harmless (`Retrain.C96_options`), and `clear_cache` repairs it (`Retrain.C96_cleared`). What is proved of trained BPE tokenizers (C41, C63, C78, C93, C94) is about models that were not used before they were trained.
* In Node `encode` takes the tokenizer at the time a thread of the pool starts the task, not at the time of the call: `const p = tok.encode("abc"); tok.setTruncation(1); await p` can be truncated (`Node.C97_later_setter`). From its start on a task is not disturbed (`Node.C97_atomic`), and without setters in between the answer is that of the tokenizer at the call (`Node.C97_unchanged`).
* In Node `runningTasks()` counts the tokenizer itself: it is 1 if nothing runs (`Node.C97_running`).
* In Python, for a `Sequence` `s` of normalizers, pre-tokenizers or post-processors, `s[i] = s[i]` (or assigning the object the sequence was made of) never returns: the read lock of the value is held while the write lock of the element, the same lock, is asked for (`PySeq.C98_hangs`).
* `s[0], s[1] = s[1], s[0]` does not exchange the elements, both become what the second one was (`PySeq.C98_swap`): `s[i]` is not a copy. An assignment also changes the objects the sequence was made of, and with `Sequence([a, a])` both places (`PySeq.C98_twice`).
* After `x = s[i]; s[i] = v` with `v` of another class every attribute of `x` panics (`unreachable!`) when read and ignores what it is set to (`PySeq.C98_class_changes`). Without assignments to elements this cannot happen (`PySeq.C98_no_panic`).
* The elements of a sequence in a sequence, as read from JSON, cannot be had: `s[i][j]` is an exception for pre-tokenizers and post-processors and `s[i]` itself for normalizers (`PySeq.C98_nested`).
* `decoders.Sequence` copies its elements, unlike the other three, and panics for custom decoders (`unimplemented!`; `PySeq.C98_decoders`).
* `normalizers.Replace`, `normalizers.Precompiled` and `decoders.Replace` cannot be pickled or copied by themselves: their constructors need arguments and there is no `__getnewargs__` (`PySeq.C98_pickle_partial`).
* What slices with bounds out of order and with negative steps give is proved exactly (`Py.C80_disordered_exact`, `Py.C80_backwards_exact`).
* In Python `pre_tokenizers.Split(..).behavior` and `Punctuation(..).behavior` give `mergedwithprevious` / `mergedwithnext`, which the setter and the constructor refuse (`PyAttr.C99_behavior_partial`, `PyAttr.C99_behavior_fails`).
* `TemplateProcessing.single` gives the `Debug` text of the template. Setting it to that is an exception, except for an empty template, which becomes one with the special token `Template([])` (`PyAttr.C99_template`).
* The constructor and the setter of trainers make every `AddedToken` object of `special_tokens` special, also those before one that is refused (`PyAttr.C99_specials`).
* `BpeTrainer(initial_alphabet=["ab"])` takes the first character, `trainer.initial_alphabet = ["ab"]` is an exception (`PyAttr.C99_initial_differs`).
* `BpeTrainer(limit_alphabet=None)`, `continuing_subword_prefix=None` and `end_of_word_suffix=None` are exceptions although `None` is what the attributes give and the documented default, so a trainer cannot be built from the attributes of another one unless all three are set (`PyAttr.C99_none_refused`, `PyAttr.C99_trainer_partial`); the same for the prefix and suffix of `BPE` (`PyAttr.C99_model_partial`).
* `bpe.dropout = 7.0` is accepted, `BPE(dropout=7.0)` is not (`PyAttr.C99_dropout`). Unknown progress formats are silently `indicatif` (`PyAttr.C99_progress`).
* With `stride` not less than half of what the limit leaves, encoding a pair panics for some lengths although `with_truncation` accepts the settings (`NoErrors.C100_truncation`: exactly which lengths).
* Models are shared between tokenizers, added tokens are not: training one of two tokenizers around one model gives the other one a vocabulary whose ids its own added tokens already use, and the special tokens of the training are added to the trained one only (`SharedModels.C101_collides`, `SharedModels.C101_others`). The same happens when a model is assigned. `SharedModels.C101_exact` says exactly when.
* A Python `DecodeStream` started with ids that end within a character returns the text of the whole prompt again with its first chunk (`PyStream.C102_repeats`); it skips the prompt only when the text of the prompt is complete (`PyStream.C102_prompt`).
* With byte fallback a stream can be stuck for good: after a character made of byte tokens and one more continuation byte, every later step returns `None` or raises `InvalidPrefix`, whatever ids come (`PyStream.C102_stuck`). A step that raised because the text could not be decoded keeps its ids, so trying again gives them twice (`PyStream.C102_again`).
* The enumeration that Node exports for split behaviors (`JsSplitDelimiterBehavior`) has values that the functions refuse: they ask for the names in lower camel case (`Factory.C103_exported`, `Factory.C103_behaviors`).
* `stripDecoder("ab", ..)` of Node silently takes the first character, `Strip("ab", ..)` of Python refuses the text (`Factory.C103_strip`).
* `Unigram(byte_fallback=True)` without a vocabulary ignores the option in Python (`Factory.C103_unigram_ignored`). The documentation of `bertNormalizer` in Node gives `stripAccents` the default `true`; left out, it takes the value of `lowercase` (`Factory.C103_bert_default`). Node has no function for the ByteLevel normalizer and decoder, `UnicodeScripts`, `FixedLength`, nor the option `ignore_merges`.
* `PreTokenizedString.split` of Python drains the pieces before calling the function: once it raises, all pieces are gone, also those that have tokens, and `to_encoding` gives an empty encoding without an error (`PyPre.C104_split_raised`). A custom pre-tokenizer that catches the exception makes the tokenizer encode to nothing. The documentation says that a function may return the string itself when there is nothing to split; this is no list, so it raises.
* After an exception, `tokenize` can be called again and goes on where it stopped (`PyPre.C104_tokenize_again`), but `normalize` edits the first pieces a second time (`PyPre.C104_normalize_twice`).
* `get_splits("normalized", "char")` turns places in the text of the pieces into characters by means of the bytes of the original text: for `éa` without the accent the pieces `e`, `a` are reported at `(0, 0)`, `(0, 1)` (`PyPre.C104_normalized_wrong`). It is right while the text is the original one (`PyPre.C104_normalized`).
* With `Metaspace(prepend_scheme="always")` a text that begins with two or more spaces is shortened by one space with every round of encoding and decoding, and a single space becomes nothing; the ids change each time (`Tokenizer.C105_meta_only`, `Tokenizer.C105_meta_shrinks`).
* With the tokenizers of T5 and XLM-R a `▁` at the beginning of a word is lost: the texts `a ▁b` and `a b` have the same ids (`Save.C106_mark_lost`). Within a word it is decoded to a space.
* `alignments_original` panics for every string whose normalized text is empty (`NS.C107_converse`); it is called by tests only.
* `ignore_merges` has no effect while dropout is active, even with a dropout that drops nothing (`Bpe.C108_letters`): a vocabulary word that no merges make is then cut into letters (`models/bpe/model.rs:601-612` asks for dropout first).
* The default padding parameters have id 0 and token `[PAD]` whatever the vocabulary is (`utils/padding.rs:31-42`), and decoding looks at ids only: a tokenizer whose id 0 is an ordinary token gets that token decoded for every padded position, with `skip_special_tokens` too (`Tokenizer.C109_default_loud`).
* With truncation on, the overflowing parts returned by `encode` do not cover the text: tokenization stops once the limit is reached (`tokenize_with_limit`, `pre_tokenizer.rs:131-188`), so a text that is longer than `max_length` tokens loses everything behind the piece in which the limit is reached (`Tokenizer.C112_lost`); `C112_windows_partial` says exactly what the windows cover.
* `set_encode_special_tokens(true)` does not keep the ids of special tokens out of the ids of a text: trainers put special tokens into the model's vocabulary, too, and WordLevel (`Tokenizer.C113_word_level`), Unigram (`C113_unigram`; T5's `</s>` has the best score) and BPE with `ignore_merges` give their ids when they are written in the text. For BPE without `ignore_merges` `C113_text` says when it is safe.
* With `set_encode_special_tokens(true)`, a special token found in the text is not cut out, but it hides added tokens that overlap with it (`Tokenizer.C113_hidden`): the automaton's match is dropped and the search continues behind it (`added_vocabulary.rs:444-453`).
* Adding a special token can hide an old token when decoding with `skip_special_tokens`: the old one is decoded in its normalized form, and if a special token with that content is added, the form is taken for the special token and skipped (`AddedVocab.C114_old_token_skipped`; `tokenizer/mod.rs:936-947`).
* Adding a token again with `normalized` changed removes its old pattern: texts that contain only the normalized form are no longer cut there (`AddedVocab.C114_added_again`), as one would expect.
* A WordPiece model trained with a larger `vocab_size` may need more tokens for a word than the smaller one: `abcde` is `ab ##cde` with 14 tokens and `abc ##d ##e` with 15 (`Train.C115_wordpiece_more`). The vocabulary is trained by merges, but the longest token is taken.
* WordLevel training: a special token that is also a word of the corpus gets another id when `vocab_size` grows (`Train.C115_wordlevel_shift`; see C40).
* If a piece is listed twice in a Unigram vocabulary the order of the entries decides which score counts (`Unigram.C116_unigram_twice`); `Unigram::from` accepts such lists. If two tokens of a BPE vocabulary have the same id, a merge of the one is applied to the other (`Bpe.C116_same_id`); `BpeBuilder::build` accepts such vocabularies.
* **C118**: `SpecialToken::new` refuses ids and tokens of different number (`template.rs:228-234`), but a template that is loaded is not checked (the derived `Deserialize`, `template.rs:193`): such a file gives encodings with more ids than tokens (`C118_uneven`).
* **C119**: `process_offsets` counts the white space at the ends of a token in characters and takes that number off offsets that are in bytes with `encode` (`byte_level.rs:202-234`): when a token begins with white space of several bytes (possible without the ByteLevel pre-tokenizer), the offsets start inside a character (`C119_trim`).
* **C120**: a token that strips spaces, like RoBERTa's `<mask>`, makes `decode(encode(text))` lose the spaces before it even with the special tokens kept (`C120_mask`).
* **C65, C66**: `alpha` and `nbest_size` of a Unigram model, which Python's constructor and setters write, are not in the file (`unigram/serialization.rs:8-23`): the loaded model (also a pickled one) is not equal to the saved one (`Save.C65_sampling_lost`), and where the saved one drew each of several segmentations with positive probability it always gives one (`Save.C65_sampling_differs`).
* **C121**: `BertProcessing` and `RobertaProcessing` write a fresh special mask and sequence range (`bert.rs:75-81`, `roberta.rs:105-111`): in a `Sequence` of several only the two outermost tokens are marked as special, and the range of the text holds the tokens of all processors but the last (`Post.C121_chain_partial`, `Post.C121_unmarked`).
* **C122**: `truncate` of an encoding that has overflowing parts drops them (`encoding.rs:357-387`): after truncating to `a` and then to `b < a` the tokens from the `a`th on are in no part (`Encoding.C122_right_partial`, `Encoding.C122_left_partial`, `Encoding.C122_lost`).
* **C24, C68**: a Unigram model without `unk_id` never gives a piece through the lattice: `fuse_unk` is always on (`model.rs:133`) and the loop asks for the id at the first piece, known or not (`model.rs:359`). So with `alpha` set no sentence gives a piece, and one that the optimized encoder segments can be the error `MissingUnkId` (`Unigram.C24_no_unk`, `Unigram.C68_no_unk`, `Unigram.C24_no_unk_differ`).
