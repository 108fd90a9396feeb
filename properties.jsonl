{"id": "C01", "title": "Encoding vectors stay parallel", "statement": "For an Encoding whose ids, type ids, token strings, word ids, offsets, special-tokens mask and attention mask all have the same length (recursively through its overflowing parts), every sequence of truncate, merge, pad, set_sequence_id and post-processor steps yields an Encoding (and overflowing parts) for which this is again true; index i always describes one and the same token in all seven vectors.", "quantifier": "every well-formed encoding and every finite history of operations", "why_tests_cant": "The histories and the nesting of overflowing parts are unbounded; tests exercise a handful of short ones.", "anchors": ["tokenizers/src/tokenizer/encoding.rs: Encoding::{truncate,merge_with,pad,set_sequence_id}"]}
{"id": "C02", "title": "Truncation keeps a window of at most max_len tokens and loses nothing", "statement": "truncate(max_len, stride, direction) with 0 < max_len and stride < max_len leaves an encoding of exactly min(len, max_len) tokens that is the prefix (Right) or suffix (Left) of the input; together with the overflowing parts every token of the input appears; every part is a contiguous window of at most max_len tokens; consecutive windows overlap by at least stride tokens and by exactly stride except at the clamped end; max_len = 0 gives an empty encoding whose single overflowing part is the whole input.", "quantifier": "every encoding, max_len, stride, direction", "why_tests_cant": "Window arithmetic has boundary cases for every combination of length, max_len and stride.", "anchors": ["tokenizers/src/tokenizer/encoding.rs: Encoding::truncate"]}
{"id": "C03", "title": "truncate_encodings honours max_length and the strategy", "statement": "When truncate_encodings succeeds with parameters (max_length, strategy) the total number of tokens of the encoding and its pair is at most max_length and is exactly min(total, max_length); OnlyFirst/OnlySecond never touch the other sequence; LongestFirst never shortens the shorter one below half of the budget; it fails exactly when OnlySecond has no pair or when the selected sequence has no more tokens than must be removed.", "quantifier": "every pair of encodings (or single encoding) and every parameter set", "why_tests_cant": "All combinations of two lengths, a budget and a strategy must agree.", "anchors": ["tokenizers/src/utils/truncation.rs: truncate_encodings"]}
{"id": "C04", "title": "Padding reaches the target length and only adds padding", "statement": "After pad_encodings every encoding in the batch (and every overflowing part) that was not longer than the target has exactly the target length; the target is the fixed size or the batch maximum, rounded up to the requested multiple; the original tokens are an unchanged contiguous block at the end (Left) or start (Right); all added positions have attention mask 0, special-tokens mask 1, the pad id, and no word; longer encodings are unchanged.", "quantifier": "every batch of encodings and every padding configuration", "why_tests_cant": "Must hold for every batch shape, multiple and direction.", "anchors": ["tokenizers/src/utils/padding.rs: pad_encodings", "tokenizers/src/tokenizer/encoding.rs: Encoding::pad"]}
{"id": "C05", "title": "Merging concatenates", "statement": "merge/merge_with yields the tokens of the inputs in order with nothing dropped or duplicated; the length is the sum; with growing offsets each appended part is shifted by the end of the last token before it, otherwise offsets are unchanged; sequence ranges of the inputs are carried along to the block holding that sequence; the overflowing parts are exactly all combinations of (part, overflow) other than (main, main), each once; merging encodings without overflow is associative when offsets do not grow.", "quantifier": "every list of encodings", "why_tests_cant": "Unbounded number of inputs and nesting.", "anchors": ["tokenizers/src/tokenizer/encoding.rs: Encoding::{merge,merge_with}"]}
{"id": "C06", "title": "Sequence ranges and token_to_sequence agree", "statement": "token_to_sequence(t) = Some(s) only if t is a valid token index inside sequence_range(s), and every token of sequence s is mapped back to s; tokens outside every range (special tokens, padding) map to None.", "quantifier": "every encoding built by encode/post-process/pad and every token index", "why_tests_cant": "Off-by-one errors show only for particular indices and range layouts.", "anchors": ["tokenizers/src/tokenizer/encoding.rs: Encoding::{token_to_sequence,sequence_range,set_sequence_id}"]}
{"id": "C07", "title": "Character and word lookups are sound and complete", "statement": "char_to_token(pos, seq) returns the first token of the sequence whose offsets contain pos and returns None exactly when there is none; token_to_chars/token_to_word return that token's own offsets/word; word_to_tokens(w, seq) returns the smallest token range containing exactly the tokens of w when word ids of the sequence are non-decreasing; char_to_word is their composition.", "quantifier": "every encoding, position, word index and sequence index", "why_tests_cant": "Quantifies over all offset layouts, including empty offsets and repeated words.", "anchors": ["tokenizers/src/tokenizer/encoding.rs: Encoding::{char_to_token,char_to_word,word_to_tokens,word_to_chars,token_to_chars,token_to_word}"]}
{"id": "C08", "title": "Alignments of a normalized string stay well-formed", "statement": "After any sequence of normalization operations on a string, there is one alignment per byte of the normalized text, every alignment is a range start<=end within the original text lying on character boundaries of it, alignments are ordered, and the bytes of one normalized character share one alignment.", "quantifier": "every input string and every finite sequence of transform/filter/map/lowercase/uppercase/prepend/append/replace/strip/clear/slice operations", "why_tests_cant": "Histories and strings are unbounded and byte/char widths interact.", "anchors": ["tokenizers/src/tokenizer/normalizer.rs: NormalizedString::{transform_range,transform,filter,prepend,append,map,lowercase,replace,clear,lrstrip,slice}"]}
{"id": "C09", "title": "Normalizer operations have their textual meaning", "statement": "On a string in the state an encode call puts it in, filter/map/lowercase/prepend/append/strip/replace change the normalized text exactly as the corresponding pure string function does (filter keeps exactly the characters satisfying the predicate, prepend s gives s ++ text on a non-empty text, replace substitutes every match, strip removes maximal leading/trailing whitespace), and leave the original text unchanged.", "quantifier": "every string, predicate, replacement, pattern match list", "why_tests_cant": "Must hold for all strings and for compositions of operations, not just those in the test tables.", "anchors": ["tokenizers/src/tokenizer/normalizer.rs: NormalizedString::{transform_range,filter,map,prepend,append,replace,lrstrip}", "tokenizers/src/normalizers/*"]}
{"id": "C10", "title": "Slicing is consistent in both referentials", "statement": "slice(Normalized(r)) for a valid non-empty range returns exactly the substring r of the normalized text, whose original part is the part of the original text its alignments cover; the recorded original offsets of the slice, interpreted in the whole text, delimit exactly that part; invalid ranges give None.", "quantifier": "every normalized string and byte range", "why_tests_cant": "Needs all ranges and alignments, including expanded and removed characters.", "anchors": ["tokenizers/src/tokenizer/normalizer.rs: NormalizedString::{slice,convert_offsets,get_range,get_range_original,offsets_original}"]}
{"id": "C11", "title": "Splitting partitions the text for every delimiter behaviour", "statement": "split with Isolated, MergedWithPrevious, MergedWithNext or Contiguous returns consecutive pieces whose concatenation is the text; with Removed exactly the matched delimiters are missing; Isolated yields each delimiter alone, MergedWithPrevious/Next attach each delimiter to its left/right neighbour, Contiguous merges runs of equal kind.", "quantifier": "every string, every pattern and every behaviour", "why_tests_cant": "Every interleaving of matches and non-matches must be covered.", "anchors": ["tokenizers/src/tokenizer/normalizer.rs: NormalizedString::split"]}
{"id": "C12", "title": "Patterns cover the input", "statement": "find_matches of a char, a predicate, a regex (given ordered non-overlapping matches) and Invert of any of these returns contiguous, ordered offsets from 0 to the byte length of the input on character boundaries; for chars and predicates the flag is true exactly for single matching characters; Invert only flips flags.", "quantifier": "every input string and every predicate/match list", "why_tests_cant": "The trait documents it as a *must* contract for all inputs.", "anchors": ["tokenizers/src/tokenizer/pattern.rs: Pattern::find_matches, Invert"]}
{"id": "C13", "title": "Pre-tokenization keeps the text and its offsets", "statement": "PreTokenizedString::split/normalize with text-preserving functions keeps the concatenation of the splits' text equal to the text before; only empty pieces are dropped; already tokenized splits are never touched; the normalized-referential offsets reported by get_splits are contiguous from 0 to the total length; original-referential offsets delimit the piece's source text.", "quantifier": "every pre-tokenized string and split function", "why_tests_cant": "Quantifies over all split functions and chains of pre-tokenizers.", "anchors": ["tokenizers/src/tokenizer/pre_tokenizer.rs: PreTokenizedString::{split,normalize,get_splits,into_encoding}"]}
{"id": "C14", "title": "Byte offsets convert to char offsets correctly", "statement": "Converting byte offsets (start,end) lying on character boundaries of the text to character offsets yields the number of characters before start and before end.", "quantifier": "every string and every pair of boundary offsets", "why_tests_cant": "Depends on every mix of character widths and on ranges touching the end of the text.", "anchors": ["tokenizers/src/tokenizer/pre_tokenizer.rs: BytesToCharOffsetConverter::{new,convert}", "tokenizers/src/tokenizer/normalizer.rs: bytes_to_char, char_to_bytes"]}
{"id": "C15", "title": "BPE merging equals the textbook algorithm", "statement": "For every merge table the tokens produced for a word are those of the reference algorithm: repeatedly merge the adjacent pair with the lowest rank, leftmost first among equals, until no adjacent pair has a merge.", "quantifier": "every initial symbol sequence and every merge table whose results are consistent with symbol lengths (as built by the builder)", "why_tests_cant": "The implementation is a priority queue with lazily invalidated entries over a linked list; agreement must hold for every schedule of stale entries.", "anchors": ["tokenizers/src/models/bpe/word.rs: Word::merge_all", "tokenizers/src/models/bpe/model.rs: BPE::merge_word"]}
{"id": "C16", "title": "BPE tokens tile the word", "statement": "The offsets of the tokens returned by BPE for a word are contiguous, start at 0 and end at the byte length of the word, in every configuration in which no character is silently dropped; each token's value is the vocabulary entry of its id.", "quantifier": "every word, vocabulary and merge table", "why_tests_cant": "Requires every word and every sequence of merges.", "anchors": ["tokenizers/src/models/bpe/model.rs: BPE::{merge_word,word_to_tokens,tokenize}", "tokenizers/src/models/bpe/word.rs: Word::get_offsets_iter"]}
{"id": "C17", "title": "BPE dropout never breaks a word", "statement": "For any outcome of the random draws, merging with dropout yields a segmentation that still tiles the word and only uses applicable merges; dropout that always skips performs no merge; dropout that never skips equals merging without dropout.", "quantifier": "every word, merge table and every (finite or infinite) sequence of random outcomes", "why_tests_cant": "The random schedule is unbounded and cannot be enumerated.", "anchors": ["tokenizers/src/models/bpe/word.rs: Word::merge_all"]}
{"id": "C18", "title": "BPE unknown-character handling", "statement": "Initial symbols follow the configuration: a known character maps to its id; an unknown character maps to its byte tokens if byte fallback is on and all of them are known, otherwise to the unknown token if configured, with adjacent unknown characters fused into one symbol exactly when fuse_unk; symbols appear in the order of the text and their lengths add up to the word length.", "quantifier": "every word, vocabulary and flag combination", "why_tests_cant": "Order-dependent interaction of pending unknown symbol, byte fallback and fusing.", "anchors": ["tokenizers/src/models/bpe/model.rs: BPE::merge_word"]}
{"id": "C19", "title": "Caches are transparent", "statement": "For any history of tokenize, clear and resize calls from any number of threads with any interleaving, tokenization results equal those of an uncached model, as long as the model's vocabulary and options are not changed.", "quantifier": "every history and interleaving of cache operations, any capacity", "why_tests_cant": "Interleavings and histories are unbounded.", "anchors": ["tokenizers/src/utils/cache.rs: Cache", "tokenizers/src/models/bpe/model.rs: BPE::{tokenize_with_cache,clear_cache,resize_cache}", "tokenizers/src/models/unigram/model.rs: Unigram::encode"]}
{"id": "C20", "title": "BPE builder resolves merges faithfully", "statement": "build succeeds exactly when both parts and the concatenation (with the continuing prefix removed from the right part) of every listed merge are in the vocabulary; rank is the position in the list (last occurrence wins for a repeated pair) and the merged id is the vocabulary id of the concatenation.", "quantifier": "every vocabulary and merge list", "why_tests_cant": "All vocabularies/merge lists, including repeated and missing tokens.", "anchors": ["tokenizers/src/models/bpe/model.rs: BpeBuilder::build, convert_merges_to_hashmap"]}
{"id": "C21", "title": "WordPiece is greedy longest-match-first", "statement": "Tokenization returns the unique sequence in which each piece is the longest vocabulary entry matching at its position (with the continuing prefix after the first), or the single unknown token covering the whole word when the word is too long or some position has no match; it errors exactly when the unknown token is needed but absent; otherwise offsets tile the word.", "quantifier": "every word, vocabulary, prefix and length limit", "why_tests_cant": "Quantifies over all words and vocabularies.", "anchors": ["tokenizers/src/models/wordpiece/mod.rs: WordPiece::tokenize"]}
{"id": "C22", "title": "WordLevel maps the whole word or unknown", "statement": "tokenize returns exactly one token covering the whole word: the word's own id if known, else the unknown token's id; it errors exactly when neither is in the vocabulary.", "quantifier": "every word and vocabulary", "why_tests_cant": "All words and vocabularies including a missing unknown token.", "anchors": ["tokenizers/src/models/wordlevel/mod.rs: WordLevel::tokenize"]}
{"id": "C23", "title": "Unigram encoding is an optimal segmentation", "statement": "The pieces returned by Unigram encoding concatenate to the sentence and, before unknown fusing, their total score is maximal among all segmentations of the sentence into vocabulary pieces and single unknown characters (unknown score = min score - 10).", "quantifier": "every sentence and vocabulary with arbitrary scores (scores modelled as exact numbers)", "why_tests_cant": "The number of segmentations is exponential in the sentence.", "anchors": ["tokenizers/src/models/unigram/model.rs: Unigram::encode_optimized"]}
{"id": "C24", "title": "The optimized and lattice Unigram encoders agree", "statement": "encode_optimized and the lattice-based viterbi produce segmentations of the same (optimal) total score, and the same segmentation under the shared earliest-start tie-breaking.", "quantifier": "every sentence and vocabulary", "why_tests_cant": "Two different implementations over exponentially many segmentations.", "anchors": ["tokenizers/src/models/unigram/model.rs: encode_optimized, encode_unoptimized", "tokenizers/src/models/unigram/lattice.rs: Lattice::viterbi"]}
{"id": "C25", "title": "Trie search returns exactly the vocabulary prefixes", "statement": "After inserting any list of keys, common_prefix_search(text) yields exactly the inserted non-empty keys that are prefixes of text, each once, shortest first.", "quantifier": "every key list and every text", "why_tests_cant": "Unbounded key sets and shared prefixes.", "anchors": ["tokenizers/src/models/unigram/trie.rs: Trie::{push,common_prefix_search}"]}
{"id": "C26", "title": "Added tokens get unique stable ids", "statement": "After any sequence of add_tokens/add_special_tokens calls each added content has one id, different added contents not in the model have different ids that no model token uses (when the model's ids are 0..n-1), an id once assigned never changes, token_to_id and id_to_token are inverse on added tokens, and empty or duplicate additions change nothing.", "quantifier": "every history of additions over every model vocabulary", "why_tests_cant": "Histories are unbounded.", "anchors": ["tokenizers/src/tokenizer/added_vocabulary.rs: AddedVocabulary::{add_tokens,token_to_id,simple_id_to_token}"]}
{"id": "C27", "title": "Added-token extraction covers the sentence", "statement": "The pieces found when extracting added tokens are contiguous and cover the sentence, each piece tagged with an id contains that token's content surrounded only by stripped whitespace, untagged pieces contain everything else; single_word tokens are only matched at word boundaries.", "quantifier": "every sentence and every list of leftmost-longest matches with lstrip/rstrip/single_word flags", "why_tests_cant": "Interaction of stripping of neighbouring matches depends on every layout.", "anchors": ["tokenizers/src/tokenizer/added_vocabulary.rs: AddedVocabulary::{find_matches,split_with_indices,extract_and_normalize}"]}
{"id": "C28", "title": "Decoding skips exactly the special tokens", "statement": "decode(ids, skip_special_tokens = true) decodes exactly the known non-special tokens in order; with false, all known tokens; unknown ids are ignored.", "quantifier": "every id sequence and added vocabulary", "why_tests_cant": "All id sequences, with tokens both special and ordinary, raw and normalized.", "anchors": ["tokenizers/src/tokenizer/mod.rs: TokenizerImpl::decode", "tokenizers/src/tokenizer/added_vocabulary.rs: is_special_token, simple_id_to_token"]}
{"id": "C29", "title": "Byte-level mapping is a bijection and round-trips", "statement": "The 256 byte-level characters are distinct; converting any text to byte-level characters, cutting the result into tokens anywhere, and decoding gives back the text exactly.", "quantifier": "every text and every segmentation of its byte-level form", "why_tests_cant": "All texts and all segmentations, including cuts in the middle of a UTF-8 character.", "anchors": ["tokenizers/src/pre_tokenizers/byte_level.rs: bytes_char, ByteLevel::{pre_tokenize,decode_chain}"]}
{"id": "C30", "title": "Byte-fallback decoding is faithful", "statement": "A run of <0xNN> tokens spelling valid UTF-8 decodes to exactly that text; an invalid run decodes to one replacement character per byte; all other tokens pass unchanged in order.", "quantifier": "every token list", "why_tests_cant": "Runs of any length and every position of invalid bytes.", "anchors": ["tokenizers/src/decoders/byte_fallback.rs: ByteFallback::decode_chain"]}
{"id": "C31", "title": "Metaspace round-trips", "statement": "For text without the replacement character, pre-tokenizing with Metaspace and decoding any segmentation of the pieces returns the text (without the single leading space that prepending makes indistinguishable).", "quantifier": "every text, prepend scheme and split flag", "why_tests_cant": "All texts with any number and position of spaces.", "anchors": ["tokenizers/src/pre_tokenizers/metaspace.rs: Metaspace::{pre_tokenize,decode_chain}"]}
{"id": "C32", "title": "WordPiece decoding inverts WordPiece pieces", "statement": "Without cleanup, decoding the concatenated WordPiece tokens of a list of words gives the words joined by single spaces, when no word-initial piece starts with the prefix.", "quantifier": "every list of words and vocabulary", "why_tests_cant": "All word lists and segmentations.", "anchors": ["tokenizers/src/decoders/wordpiece.rs: WordPiece::decode_chain"]}
{"id": "C33", "title": "Decoders never fail on any token list", "statement": "CTC collapses repeated tokens and removes pads; Strip removes at most start/stop copies of the character at the ends; BPE decoder replaces the word suffix; Fuse concatenates; each is defined on every token list, including empty lists and tokens shorter than the strip count.", "quantifier": "every token list and decoder configuration", "why_tests_cant": "Edge cases (empty list, token made only of the stripped char) are exactly what sampled tests miss.", "anchors": ["tokenizers/src/decoders/{bpe,ctc,strip,fuse,sequence}.rs"]}
{"id": "C34", "title": "Streaming decode equals batch decode", "statement": "Feeding ids one at a time to a DecodeStream and concatenating the returned chunks gives a prefix of decode(all ids), equal to it whenever the last decode does not end in an incomplete character, provided decoding is prefix-stable; no chunk ends with an incomplete character.", "quantifier": "every id sequence and every history of steps", "why_tests_cant": "Histories of steps are unbounded and state (prefix, read index) evolves.", "anchors": ["tokenizers/src/tokenizer/mod.rs: DecodeStream, step_decode_stream"]}
{"id": "C35", "title": "Template post-processing inserts exactly the template", "statement": "TemplateProcessing outputs the pieces of the template in order: each sequence piece is the input encoding with the given type id and its sequence id, each special piece its ids with special mask 1; with special tokens off only the sequence pieces remain; the number of inserted tokens equals added_tokens, for every validated template using each sequence once.", "quantifier": "every template, special-token table and pair of encodings", "why_tests_cant": "All templates and inputs.", "anchors": ["tokenizers/src/processors/template.rs: TemplateProcessing::{apply_template,added_tokens,validate}, count_added"]}
{"id": "C36", "title": "Bert and Roberta post-processing", "statement": "BertProcessing gives [CLS] A [SEP] (B [SEP]), RobertaProcessing gives <s> A </s> (</s> B </s>), with special mask 1 exactly on the inserted tokens, the sequence ranges covering exactly A and B, the number of inserted tokens equal to added_tokens, the same applied to every overflowing part; with special tokens off the tokens are unchanged.", "quantifier": "every encoding / pair with any overflow", "why_tests_cant": "All lengths and overflow shapes.", "anchors": ["tokenizers/src/processors/{bert,roberta}.rs: process_encodings, added_tokens"]}
{"id": "C37", "title": "Encoding with truncation respects the length limit", "statement": "With truncation configured to max_length and a post-processor that inserts as many special tokens as it reports, the final encoding including special tokens has min(max_length, input tokens + special tokens) tokens whenever max_length is at least the number of special tokens; overflowing parts respect the limit too when it leaves room for one token per input; the only failures are those of truncating the inputs; with padding configured the result is then padded to the requested length.", "quantifier": "every input, pair, truncation and padding configuration", "why_tests_cant": "End-to-end composition over all inputs and parameters.", "anchors": ["tokenizers/src/tokenizer/mod.rs: TokenizerImpl::{post_process,with_truncation}", "tokenizers/src/utils/truncation.rs"]}
{"id": "C38", "title": "Early-exit tokenization does not change the kept tokens", "statement": "Tokenizing with a token limit followed by truncation to that limit (same direction) keeps the same ids, tokens and offsets as tokenizing everything and truncating.", "quantifier": "every pre-tokenized string, model, limit and direction", "why_tests_cant": "All limits relative to split boundaries.", "anchors": ["tokenizers/src/tokenizer/pre_tokenizer.rs: PreTokenizedString::{tokenize,tokenize_with_limit}", "tokenizers/src/tokenizer/mod.rs: do_tokenize"]}
{"id": "C39", "title": "Saving and reloading preserves the vocabulary and merges", "statement": "Serializing a vocabulary by increasing id and reading it back yields the same token<->id maps, including with holes; a BPE model's merges written in rank order and rebuilt give the same merge table up to order-preserving renumbering of ranks; WordPiece vocab files round-trip when ids are 0..n-1 and tokens contain no line breaks or surrounding whitespace; reloading added tokens gives back the same ids.", "quantifier": "every vocabulary, merge table and added-token set", "why_tests_cant": "All vocabularies including holes and unusual tokens.", "anchors": ["tokenizers/src/models/mod.rs: OrderedVocabIter", "tokenizers/src/models/bpe/serialization.rs", "tokenizers/src/models/wordpiece/mod.rs: read_file, save", "tokenizers/src/tokenizer/serialization.rs"]}
{"id": "C40", "title": "WordLevel training is deterministic and takes the most frequent words", "statement": "The trained vocabulary lists the special tokens first, then words of frequency >= min_frequency in decreasing frequency (ties alphabetical), cut at vocab_size; it does not depend on hash-map iteration order.", "quantifier": "every multiset of words, every iteration order", "why_tests_cant": "All corpora and all hash orders.", "anchors": ["tokenizers/src/models/wordlevel/trainer.rs: WordLevelTrainer::do_train"]}
{"id": "C41", "title": "BPE training maintains exact pair statistics and a consistent model", "statement": "Training ends without panic. While it runs, the incrementally maintained count of each pair that may be merged equals the recount over the current corpus, and each merge is the one textbook training makes (most frequent pair, smallest ids among equals). Each learned merge's parts and result are vocabulary tokens; ids are 0..n-1 without repetition; the vocabulary never exceeds max(vocab_size, size before the first merge), which without prefix and suffix is max(vocab_size, alphabet + special tokens). The trained model is one the builder makes, and re-tokenizes a training word to the segmentation held by the trainer. Without prefix, suffix and alphabet limit the result does not depend on hash-map order.", "quantifier": "every corpus and trainer configuration such that no word contains the first character of the prefix or the last character of the suffix (none needed for the vocabulary claims); otherwise the re-tokenization claim is false, see Findings", "why_tests_cant": "Number of steps and corpora unbounded; incremental updates with overlapping occurrences (aaa) are subtle.", "anchors": ["tokenizers/src/models/bpe/trainer.rs: BpeTrainer::do_train", "tokenizers/src/models/bpe/word.rs: Word::merge"]}
{"id": "C42", "title": "Training counts are independent of scheduling", "statement": "The word counts collected by feed are the same for every way the parallel runtime splits and combines the input.", "quantifier": "every input and every reduction tree", "why_tests_cant": "All schedules of the parallel reduction.", "anchors": ["tokenizers/src/models/bpe/trainer.rs: BpeTrainer::feed", "tokenizers/src/models/wordlevel/trainer.rs: feed", "tokenizers/src/models/unigram/trainer.rs: feed"]}
{"id": "C43", "title": "Batch encoding equals encoding one by one", "statement": "encode_batch returns, in input order, the encodings encode would return for each input (then padded together when padding is on), and fails iff one of them fails.", "quantifier": "every batch and every schedule", "why_tests_cant": "All batches and schedules.", "anchors": ["tokenizers/src/tokenizer/mod.rs: TokenizerImpl::{encode_batch,decode_batch}"]}
{"id": "C44", "title": "Byte-level BPE is lossless end to end", "statement": "With a byte-level pre-tokenizer (no prefix space), a BPE model whose vocabulary contains all 256 byte characters, and the byte-level decoder, decode(encode(text)) = text for every text.", "quantifier": "every text, merge table and split pattern", "why_tests_cant": "The main user-visible guarantee of byte-level tokenizers; the input space is all strings.", "anchors": ["tokenizers/src/pre_tokenizers/byte_level.rs", "tokenizers/src/models/bpe/model.rs: BPE::tokenize", "tokenizers/src/tokenizer/mod.rs: TokenizerImpl::{encode,decode}"]}
{"id": "C45", "title": "The bounded cache is a faithful partial map", "statement": "get never returns a value that was not stored for that key since the last clear; the cache never holds more entries than its capacity; keys longer than the limit are never stored; failing to take the lock only loses caching, never correctness.", "quantifier": "every history of operations and lock failures", "why_tests_cant": "Histories and lock outcomes unbounded.", "anchors": ["tokenizers/src/utils/cache.rs: Cache::{get,get_values,set,set_values,resize,clear}"]}
{"id": "C46", "title": "Vocabulary size and listing are consistent", "statement": "get_vocab(true) contains every model token and every added token with the id token_to_id gives; get_vocab_size(true) is the number of distinct tokens it lists.", "quantifier": "every model vocabulary and history of additions", "why_tests_cant": "All overlaps between added and model tokens.", "anchors": ["tokenizers/src/tokenizer/mod.rs: TokenizerImpl::{get_vocab,get_vocab_size,token_to_id,id_to_token}"]}
{"id": "C47", "title": "N-best segmentations are correct", "statement": "nbest(n) returns at most n distinct full paths of the lattice in non-increasing order of score, the first of which is a viterbi path, and any path not returned scores no more than the last returned one when n paths are returned.", "quantifier": "every lattice and n", "why_tests_cant": "Exponentially many paths.", "anchors": ["tokenizers/src/models/unigram/lattice.rs: Lattice::nbest"]}
{"id": "C48", "title": "encode_fast returns the same ids", "statement": "encode_fast yields the same ids (and special-tokens and attention masks) as encode for the same input and configuration.", "quantifier": "every input and configuration", "why_tests_cant": "All inputs; the fast path drops offset bookkeeping.", "anchors": ["tokenizers/src/tokenizer/mod.rs: encode_fast, encode_single_sequence", "tokenizers/src/tokenizer/pre_tokenizer.rs: into_encoding"]}
{"id": "C49", "title": "Byte-fallback in Unigram spells unknown text", "statement": "With byte fallback enabled and all 256 byte tokens in the vocabulary, every piece unknown to the vocabulary is replaced by the byte tokens spelling it, so concatenating token bytes always gives the sentence and no unknown token is produced.", "quantifier": "every sentence and vocabulary", "why_tests_cant": "All sentences.", "anchors": ["tokenizers/src/models/unigram/model.rs: Unigram::tokenize"]}
{"id": "C50", "title": "Offset trimming stays inside the token", "statement": "Byte-level offset trimming never produces start > end, never leaves the original offsets of the token, and leaves tokens without surrounding whitespace unchanged.", "quantifier": "every token and offsets", "why_tests_cant": "All tokens/offset combinations, including tokens of only spaces.", "anchors": ["tokenizers/src/pre_tokenizers/byte_level.rs: process_offsets"]}
{"id": "C51", "title": "Template strings mean what they say", "statement": "Writing a template as text (pieces separated by single spaces, each `$A:n`, `$B:n` or `name:n`) and parsing it gives the template back; short forms default to type id 0, `$n` is the first sequence with type id n; a piece with two colons, a bad number or an unknown sequence name makes the template an error.", "quantifier": "every non-empty list of pieces whose names contain no space or colon and do not start with `$`", "why_tests_cant": "All names, numbers and lengths.", "anchors": ["tokenizers/src/processors/template.rs: Piece::{try_from,extract_id,with_type_id}, Template::try_from"]}
{"id": "C52", "title": "Encoding without a post-processor only concatenates", "statement": "Without a post-processor a single encoding is returned unchanged, and a pair becomes the tokens of the first followed by those of the second with sequence ids 0 and 1 covering exactly them; the parts of the result are the combinations of a part of each.", "quantifier": "every pair of encodings, with any overflowing parts", "why_tests_cant": "All lengths and numbers of overflowing parts.", "anchors": ["tokenizers/src/tokenizer/mod.rs: PostProcessor::default_process, post_process"]}
{"id": "C54", "title": "Post-processors insert as many tokens as they report", "statement": "For every post-processor, processing one or two encodings gives as many tokens as the inputs plus added_tokens(is_pair) (plus 0 when special tokens are off).", "quantifier": "every post-processor, sequences included, and every input", "why_tests_cant": "Truncation relies on the report; all compositions of processors and all inputs.", "anchors": ["tokenizers/src/processors/mod.rs: added_tokens, process_encodings", "tokenizers/src/processors/sequence.rs"]}
{"id": "C55", "title": "A list of words is encoded word by word", "statement": "Encoding an input given as a list of words yields the tokens that each word yields as a text of its own, in order, with offsets relative to that word and with the index of the word in the list as word id; it fails with the error of the first word that cannot be encoded.", "quantifier": "every tokenizer, limit, type id, list of words", "why_tests_cant": "All tokenizers and all word lists, including words giving no token at all.", "anchors": ["tokenizers/src/tokenizer/mod.rs: TokenizerImpl::encode_single_sequence", "tokenizers/src/tokenizer/encoding.rs: FromIterator<Encoding>"]}
{"id": "C56", "title": "Every normalizer computes its documented text and stays alignable", "statement": "Each normalizer (BERT, strip, accents, normal forms, lower case, Nmt, precompiled table, regex replacement, prefix, byte level, and sequences of them) succeeds, gives exactly the text described by a function on plain strings, and leaves alignments that the next step accepts; those acting character by character give every character the source of the character it was made from.", "quantifier": "every normalizer with safe settings, nested sequences included, every text, Unicode tables as parameters", "why_tests_cant": "Unbounded texts, unbounded compositions of normalizers, arbitrary Unicode tables and precompiled tables.", "anchors": ["tokenizers/src/normalizers/bert.rs", "tokenizers/src/normalizers/strip.rs", "tokenizers/src/normalizers/unicode.rs", "tokenizers/src/normalizers/precompiled.rs", "tokenizers/src/normalizers/replace.rs", "tokenizers/src/normalizers/prepend.rs", "tokenizers/src/normalizers/byte_level.rs", "tokenizers/src/normalizers/utils.rs", "tokenizers/src/normalizers/mod.rs"]}
{"id": "C57", "title": "Every pre-tokenizer finds exactly the documented pieces", "statement": "Each pre-tokenizer (BERT, byte level, character delimiter, Metaspace, Whitespace, regex split, punctuation, whitespace split, digits, Unicode scripts, fixed length, and sequences of them) succeeds and replaces every piece without tokens by exactly the pieces given by a function on plain strings, in order, empty ones dropped, tokenized pieces untouched; all but the separating ones keep the text.", "quantifier": "every pre-tokenizer with sound settings, nested sequences included, every pre-tokenized state, character tables as parameters", "why_tests_cant": "Unbounded texts and compositions, arbitrary character tables and regular expressions.", "anchors": ["tokenizers/src/pre_tokenizers/bert.rs", "tokenizers/src/pre_tokenizers/byte_level.rs", "tokenizers/src/pre_tokenizers/delimiter.rs", "tokenizers/src/pre_tokenizers/digits.rs", "tokenizers/src/pre_tokenizers/fixed_length.rs", "tokenizers/src/pre_tokenizers/metaspace.rs", "tokenizers/src/pre_tokenizers/punctuation.rs", "tokenizers/src/pre_tokenizers/sequence.rs", "tokenizers/src/pre_tokenizers/split.rs", "tokenizers/src/pre_tokenizers/unicode_scripts/pre_tokenizer.rs", "tokenizers/src/pre_tokenizers/whitespace.rs", "tokenizers/src/pre_tokenizers/mod.rs"]}
{"id": "C58", "title": "Encoding is the composition of its documented steps", "statement": "For a tokenizer made of any normalizer and pre-tokenizer of the library and added tokens that strip nothing, encoding a text equals: cut at the leftmost-longest occurrences of the added tokens, normalize the parts between, cut at the added tokens of the normalized text, pre-tokenize the rest, give each word to the model, concatenate; with a BERT processor and WordPiece it never fails and yields [CLS], the greedy segmentations (or the unknown token) of all words in order, [SEP], and for pairs the second text with type 1 and [SEP].", "quantifier": "every text and pair of texts, every normalizer, pre-tokenizer, added vocabulary, model, Unicode table", "why_tests_cant": "Unbounded texts and all compositions of components; the interplay of added tokens, normalization and pre-tokenization is where untested combinations break.", "anchors": ["tokenizers/src/tokenizer/mod.rs: TokenizerImpl::encode, encode_single_sequence, do_tokenize, do_normalize, do_pre_tokenize", "tokenizers/src/tokenizer/added_vocabulary.rs: extract_and_normalize", "tokenizers/src/models/wordpiece/mod.rs", "tokenizers/src/processors/bert.rs"]}
{"id": "C59", "title": "Offsets of an encoding select the text of its tokens", "statement": "For a tokenizer made of any normalizer and pre-tokenizer of the library and any of the models, the offsets of an encoding of a text delimit non-empty parts of that text at character boundaries (in bytes or characters), and their starts and ends are in the order of the text. In what encode returns, including all overflowing parts, after truncation, padding and post-processing that does not trim, every pair of offsets is (0, 0) or delimits a part of a given text; with trimming it still lies inside. Without normalizer and with a pre-tokenizer that only cuts, the text at the offsets is the very text from which the model made the token.", "quantifier": "every text, list of words and pair, every normalizer, pre-tokenizer, added vocabulary, model, truncation, padding and post-processor", "why_tests_cant": "Unbounded texts; alignment bookkeeping through arbitrary compositions of normalizers and cuts, multi-byte characters, early stop.", "anchors": ["tokenizers/src/tokenizer/pre_tokenizer.rs: into_encoding", "tokenizers/src/tokenizer/normalizer.rs: slice, transform_range, convert_offsets", "tokenizers/src/tokenizer/mod.rs: TokenizerImpl::encode, post_process", "tokenizers/src/tokenizer/encoding.rs", "tokenizers/src/models"]}
{"id": "C60", "title": "populate_marginal and the E step compute likelihood and expected counts", "statement": "For a Unigram model with an unknown token whose own text does not occur in the sentence, Lattice::populate_marginal returns the log of the sum, over all segmentations of the sentence into pieces, of the exponential of the score, times the frequency, and adds to the expected count of every piece id frequency times the sum over segmentations of occurrences of the piece times probability of the segmentation, up to the cut-off exp(-50) of log_sum_exp per node. run_e_step returns the sum of these over the corpus however the sentences are cut into chunks for threads, and minus the mean log-likelihood as objective.", "quantifier": "every vocabulary, sentence, frequency, corpus and division into chunks", "why_tests_cant": "Exponentially many segmentations per sentence; a test compares a handful of sums.", "anchors": ["tokenizers/src/models/unigram/lattice.rs: log_sum_exp, populate_marginal", "tokenizers/src/models/unigram/model.rs: populate_nodes", "tokenizers/src/models/unigram/trainer.rs: run_e_step"]}
{"id": "C61", "title": "Unigram training", "statement": "If UnigramTrainer::do_train returns, the model is one that Unigram::from makes; its first entries are the special tokens in order (preceded by the unknown token if it is not one of them), the unknown id is that of the unknown token, the remaining pieces are distinct, sorted by falling score, each a needed character (of the corpus or of the initial alphabet) or a substring of the corpus not longer than max_piece_length, and every needed character is among them; if the needed characters and special tokens leave room, the size is at most vocab_size. The trained model segments every text made of needed characters into entries of its vocabulary without unknown tokens, training sentences included. Step by step: the seeds are the characters of the corpus by frequency and then substrings by frequency times length up to seed_size, scored by log-probability; an M step drops pieces expected less than half a time and rescores the others; the loop alternates n_sub_iterations E/M rounds with pruning until at most 1.1 times vocab_size pieces are left; pruning keeps pieces that cannot be cut (or are used although best cut), drops unused ones, and of the others keeps those whose replacement by the second best segmentation would cost most, up to the size aimed at; the final model keeps the scores of training, and needed characters without one get the least score plus multiples of 0.0001.", "quantifier": "every setting, corpus, list of substrings from the suffix array, numerical result of the E and M steps, priority queue and hash order", "why_tests_cant": "The pruning loop depends on floating-point scores; a test sees one vocabulary of one corpus.", "anchors": ["tokenizers/src/models/unigram/trainer.rs: do_train, make_seed_sentence_pieces, run_m_step, prune_sentence_pieces, finalize, required_chars", "tokenizers/src/models/unigram/model.rs: from, encode"]}
{"id": "C62", "title": "WordPiece training", "statement": "WordPieceTrainer, which is the BPE trainer with the merges thrown away, gives a vocabulary with ids 0, 1, 2, ..., each for one token, and the continuing prefix of the trainer. With a prefix, no end-of-word suffix and no limit of the alphabet, the trained model segments every word that begins with a character of the corpus and goes on with characters that go on words of the corpus, greedily and without unknown tokens, training words included. Without a prefix, with a suffix or with a limited alphabet it may not (the settings are accepted).", "quantifier": "every corpus, setting, hash order and state the training loop gets to", "why_tests_cant": "Unbounded corpora; tests look at one vocabulary and a few words.", "anchors": ["tokenizers/src/models/wordpiece/trainer.rs: train", "tokenizers/src/models/wordpiece/mod.rs: from_bpe, tokenize", "tokenizers/src/models/bpe/trainer.rs: do_train"]}
{"id": "C63", "title": "Tokenizer::train: encoding what was trained on", "statement": "Tokenizer::train feeds the trainer the text of every piece of every sequence. If it succeeds on a tokenizer without added tokens, then a training sequence in which no special token of the trainer occurs is cut into the same pieces afterwards, and encoding it never fails: WordLevel (size no limit) gives one known token per piece, WordPiece the greedy segmentation of each piece into vocabulary entries, Unigram entries that spell each piece. Training from files is training with the lines, which together are the file; an error in cutting or training leaves the tokenizer unchanged, an error in reading does not. A trainer given a model of another kind fails, and the tokenizer is unchanged.", "quantifier": "every tokenizer, corpus, grouping of the sequences by the runtime, trainer", "why_tests_cant": "Unbounded corpora; interplay of added tokens, pre-tokenization and training; errors in the middle of reading.", "anchors": ["tokenizers/src/tokenizer/mod.rs: train, train_from_files", "tokenizers/src/utils/iter.rs: ResultShunt, Lines", "tokenizers/src/tokenizer/added_vocabulary.rs: add_tokens, extract_and_normalize", "tokenizers/src/models/wordlevel/trainer.rs", "tokenizers/src/models/wordpiece/trainer.rs", "tokenizers/src/models/unigram/trainer.rs", "tokenizers/src/models/mod.rs: TrainerWrapper::train"]}
{"id": "C64", "title": "A Llama-like tokenizer loses nothing but the mark", "statement": "Take a tokenizer with Llama's parts: Prepend(▁) and Replace(space, ▁), no pre-tokenizer, BPE with byte fallback that knows ▁ and all 256 byte tokens (no merge takes or makes one), any dropout, the decoder Replace(▁, space), ByteFallback, Fuse, Strip(one space at the start), and possibly a template that puts special tokens around the text. Then every text in which no added token occurs, whatever its characters, is encoded without error, and decoding (skipping special tokens, if the template added any) gives the text with ▁ read as a space; so the text itself exactly if it has no ▁. On the way: BPE with byte fallback cuts every word into pieces, each a vocabulary entry, that are a part of the word or the byte tokens of one unknown character, and byte-fallback decoding of such pieces gives the word back.", "quantifier": "every text, vocabulary and merges with the stated properties, dropout outcome, added tokens, setting of skip_special_tokens", "why_tests_cant": "All texts and all such vocabularies; tests decode a few literal id lists.", "anchors": ["tokenizers/src/models/bpe/model.rs: merge_word, tokenize", "tokenizers/src/normalizers/prepend.rs: normalize", "tokenizers/src/normalizers/replace.rs: normalize, decode_chain", "tokenizers/src/decoders/byte_fallback.rs: decode_chain", "tokenizers/src/decoders/strip.rs: decode_chain", "tokenizers/src/processors/template.rs: apply_template", "tokenizers/src/tokenizer/mod.rs: encode, decode"]}
{"id": "C65", "title": "tokenizer.json: every component is loaded as it was saved", "statement": "Every normalizer, pre-tokenizer, decoder and post-processor, with sequences nested to any depth, every model, truncation and padding parameters and added tokens, written to the JSON value of tokenizer.json and read back through the wrappers (known `type`, legacy untagged fallback) give the same settings; a template's counts are computed anew. So a whole tokenizer saved and loaded is the same tokenizer, whether or not the deserializer skips unknown keys. The order of the fields makes no difference. Whatever can be read, also from a file written by hand, is written so that it is read as the same.", "quantifier": "every nesting and setting of the components, every model built by its builder, every history of added tokens, every order of fields", "why_tests_cant": "Tests round-trip a few literal components; the untagged fallback makes reading depend on the presence of fields of other structures, so confusions show only for particular combinations.", "anchors": ["tokenizers/src/tokenizer/serialization.rs: serialize, visit_map", "tokenizers/src/normalizers/mod.rs: NormalizerWrapper::deserialize", "tokenizers/src/pre_tokenizers/mod.rs: PreTokenizerWrapper::deserialize", "tokenizers/src/decoders/mod.rs: DecoderWrapper::deserialize", "tokenizers/src/processors/mod.rs: PostProcessorWrapper", "tokenizers/src/processors/template.rs: TemplateProcessingDeserializer", "tokenizers/src/models/mod.rs: ModelWrapper::deserialize", "tokenizers/src/models/bpe/serialization.rs: visit_map", "tokenizers/src/utils/mod.rs: impl_serde_type"]}
{"id": "C66", "title": "A tokenizer that was saved and loaded behaves as before", "statement": "Save a tokenizer to tokenizer.json and load it again: the loaded tokenizer encodes every input (single, pair, pre-tokenized, batches, all offset types) to the same encodings or the same error, decodes every list of ids to the same text, and gives the same answers about its vocabulary. This holds for every combination of components and models and for every history of added tokens in which no token is re-added as no longer special or no longer normalized. Saving the loaded tokenizer gives exactly the file it was loaded from.", "quantifier": "every configuration, every history of additions and changes of the normalizer, every input, every list of ids", "why_tests_cant": "Tests compare a few encodings before and after; the differences come from states that are not saved (cached normal forms, the set of special tokens, counts) and depend on the history of calls.", "anchors": ["tokenizers/src/tokenizer/serialization.rs: serialize, visit_map", "tokenizers/src/tokenizer/added_vocabulary.rs: add_tokens, refresh_added_tokens, refresh_normalized_tokens", "tokenizers/src/tokenizer/mod.rs: encode, decode, with_normalizer, add_tokens"]}
{"id": "C67", "title": "What a published tokenizer.json says is what the tokenizer does", "statement": "A tokenizer.json in the form published for GPT-2 (byte-level BPE, old format without type, merges as lines), Llama 2 (BPE with byte fallback, Prepend/Replace normalizer, template) or BERT uncased (WordPiece without type, BertNormalizer, BertPreTokenizer, template), with any vocabulary, merges and added tokens meeting the stated conditions, is loaded without error. The GPT-2 tokenizer then encodes every text and decodes it to itself. The Llama tokenizer encodes every text without added tokens and decodes it to itself exactly if it has no U+2581. The BERT tokenizer encodes every text and pair: cut at the tokens of the file, normalized, cut into words, each word greedily segmented with the vocabulary of the file or [UNK], with [CLS] and [SEP] around.", "quantifier": "every vocabulary with different tokens and ids below its size, every list of merges, every list of added tokens, every text", "why_tests_cant": "Tests load a few downloaded files and encode a few texts; that loading chooses the right model and settings and that nothing is lost holds for all vocabularies and all texts.", "anchors": ["tokenizers/src/tokenizer/serialization.rs: visit_map", "tokenizers/src/models/mod.rs: ModelWrapper::deserialize", "tokenizers/src/models/bpe/serialization.rs: visit_map", "tokenizers/src/models/wordpiece/serialization.rs: visit_map", "tokenizers/src/processors/template.rs: TemplateProcessingDeserializer", "tokenizers/src/tokenizer/mod.rs: encode, decode"]}
{"id": "C68", "title": "Sampling draws segmentations of the sentence, by the language model", "statement": "A Unigram model with an unknown token and `alpha` set encodes every sentence without error. Without `nbest_size`, every segmentation of the sentence into vocabulary pieces and unknown characters may be drawn, nothing else can be, and the probabilities add up to 1. With `alpha = 1` the probability of a segmentation is the one of the unigram language model, exp(score) divided by the sum over all segmentations, up to exp(-50) per piece and node in the logarithm. With `nbest_size = n > 0` one of the n best segmentations is drawn, with probability exactly proportional to exp(alpha * score). Without alpha, or with alpha 0, nothing is random. (With other alpha and no nbest_size the probabilities do not follow the scores: segmentations of equal score get different ones.)", "quantifier": "every vocabulary and scores, every sentence, every alpha, every n, every choice of the random generator", "why_tests_cant": "Tests draw a few samples of one sentence and compare frequencies within a tolerance; that the distribution is right, normalised and never fails holds for all lattices.", "anchors": ["tokenizers/src/models/unigram/lattice.rs: sample, sample_nbest, log_sum_exp", "tokenizers/src/models/unigram/model.rs: encode, encode_unoptimized"]}
{"id": "C69", "title": "A tokenizer with Metaspace gives the normalized text back", "statement": "A tokenizer like those of XLM-R or T5 - any normalizer, the Metaspace pre-tokenizer cutting words with the scheme always or never, a Unigram model (or BPE without affixes), special tokens around by a template, and the Metaspace decoder with the same settings - decodes what it encoded to the normalized text, in which the replacement reads as a space, without the space it begins with if the mark is prepended, as long as all characters are in the vocabulary, the unknown token is not written in the text, and no added token occurs in it. No text gives no text.", "quantifier": "every text, normalizer, replacement character, vocabulary and scores, merges and dropout, added tokens and template", "why_tests_cant": "A round trip of some sentences says nothing about the segmentations other texts and scores lead to, the cuts between words and tokens, or the spaces at the edges.", "anchors": ["tokenizers/src/pre_tokenizers/metaspace.rs: pre_tokenize, decode_chain", "tokenizers/src/models/unigram/model.rs: tokenize", "tokenizers/src/tokenizer/mod.rs: encode, decode"]}
{"id": "C70", "title": "A tokenizer like BERT's gives the words of the normalized text back", "statement": "A tokenizer like BERT's - any normalizer, BERT's pre-tokenizer, WordPiece with the prefix ## and its decoder, with or without cleanup, special tokens around by a template or by Bert's or Roberta's post-processor - decodes what it encoded to the words of the normalized text that can be written with the vocabulary, joined by single spaces, except that with cleanup no space stands before a word that is one of . ? ! , . A word that cannot be written reads as the unknown token, or is left out if that is special and special tokens are skipped. This holds of every text in which no added token occurs, in particular for a tokenizer loaded from a file in the form of BERT's tokenizer.json with any vocabulary. With other pre-tokenizers it holds if no word begins with the prefix and, with cleanup, the words have no spaces or apostrophes.", "quantifier": "every text, normalizer, vocabulary, prefix, unknown token, added tokens and post-processor of the kinds named; every file of that form", "why_tests_cant": "Round trips of some sentences say nothing about the segmentations of other words, about words that begin like a continuation, or about which spaces the cleanup, applied to one token at a time, can remove.", "anchors": ["tokenizers/src/decoders/wordpiece.rs: cleanup, decode_chain", "tokenizers/src/models/wordpiece/mod.rs: tokenize", "tokenizers/src/pre_tokenizers/bert.rs: pre_tokenize", "tokenizers/src/processors/bert.rs, roberta.rs, template.rs", "tokenizers/src/tokenizer/mod.rs: encode, decode"]}
{"id": "C71", "title": "The fixed regular expressions cut texts the way the pre-tokenizers are described", "statement": "With the usual semantics of regular expressions (alternatives in order, greedy repetition that gives back, leftmost matches one after the other), the pattern of ByteLevel cuts every text, leaving nothing out, into words: the contractions 's 't 're 've 'm 'll 'd, runs of letters, of digits or of other characters with at most one blank before, and runs of spaces that leave their last blank to a following word; a run does not end before a character of its kind. The pattern of Whitespace finds exactly the maximal runs of word characters and of characters that are neither word characters nor spaces. The four patterns of the added vocabulary say whether a text begins or ends with a word character and where its spaces at the start and at the end stop. A literal pattern finds the leftmost occurrences that do not overlap. The matches of any pattern are in order, do not overlap and lie on character boundaries. Where something that is no space is followed by a space, the words of a text are those of its two parts.", "quantifier": "every text, every choice of character classes that exclude each other; the claim on matches for every pattern of the constructs used", "why_tests_cant": "Whether spaces at the end of a text, a blank before a line end, an apostrophe inside a run of signs or after another apostrophe are cut in the way described depends on the order of twelve alternatives and on backtracking; there is no bound on the runs.", "anchors": ["tokenizers/src/pre_tokenizers/byte_level.rs: RE", "tokenizers/src/pre_tokenizers/whitespace.rs: Whitespace::pre_tokenize", "tokenizers/src/tokenizer/added_vocabulary.rs: STARTS_WITH_WORD, ENDS_WITH_WORD, RIGHTMOST_SPACE_AT_START, LEFTMOST_SPACE_AT_END", "tokenizers/src/tokenizer/pattern.rs: Pattern for &str", "tokenizers/src/utils/onig.rs, fancy.rs: find_matches"]}
{"id": "C72", "title": "A text encoded in two parts", "statement": "If a text without added tokens is divided at a place where the normalizer and the pre-tokenizer do not look across, then the whole is encoded without error if and only if both parts are, and the ids of the whole (without special tokens) are those of the first part followed by those of the second. The pre-tokenizers do not look across at white space (WhitespaceSplit, BertPreTokenizer, Whitespace), at the delimiter (CharDelimiterSplit), between word characters and others (Whitespace), and between a character that is no space and a space (ByteLevel with its pattern and without a blank put before the text); a Sequence does not if its first part does not. Normalizers that work character by character never do.", "quantifier": "every tokenizer of these parts with any model, every text and place", "why_tests_cant": "A model that kept a state from word to word, a pre-tokenizer whose cuts depend on the distance to the end, or a dropped last word would show only for some texts and places.", "anchors": ["tokenizers/src/tokenizer/mod.rs: encode, do_tokenize", "tokenizers/src/tokenizer/pre_tokenizer.rs: split, tokenize, into_encoding", "tokenizers/src/pre_tokenizers/: whitespace.rs, bert.rs, delimiter.rs, byte_level.rs, sequence.rs"]}
{"id": "C73", "title": "What a file's list of merges says is what the tokenizer does", "statement": "A BPE model built from a vocabulary and a list of merges tokenizes every word whose symbols are in the vocabulary by applying the list to the strings: start with the characters (all but the first with the prefix of continuing subwords, the last one with the suffix of word ends), join again and again the neighbours whose pair comes first in the list (the leftmost ones if there are several), until no pair of the list is left; the ids are those of the vocabulary, and there is only one such result. A tokenizer.json in the form of GPT-2's therefore loads to a tokenizer that cuts every text (and every pair of texts) at the tokens of the file, cuts the rest into words, spells each word with the characters of its bytes, applies the merges of the file, fails on nothing, and may be given a text in two parts cut before a space.", "quantifier": "all vocabularies with distinct tokens and ids, all lists of merges over them, all words, all texts and pairs of texts, all files of that form", "why_tests_cant": "The code works on pairs of ids with ranks and new ids in a hash map, a priority queue and a linked list; that this is the textbook procedure on the strings of the file has to hold for every list of merges and every text.", "anchors": ["tokenizers/src/models/bpe/model.rs:BpeBuilder::build", "tokenizers/src/models/bpe/model.rs:BPE::merge_word", "tokenizers/src/models/bpe/word.rs:Word::merge_all", "tokenizers/src/models/bpe/serialization.rs", "tokenizers/src/tokenizer/serialization.rs", "tokenizers/src/pre_tokenizers/byte_level.rs"]}
{"id": "C74", "title": "BPE training counts exactly as long as the corpus is small enough for 32 bits", "statement": "The trainer keeps pair counts in i32 and cuts word counts (u64) to 32 bits. If the characters of the words, each word as often as it occurs, are fewer than 2^31/3, then no operation on counts overflows and training gives the same tokens and merges as with exact counts, in builds that wrap around and in builds that check. Beyond that it may silently be wrong: a pair that occurs 2^31 times is never merged, counts are taken modulo 2^32, and a checking build panics.", "quantifier": "all training settings, all word counts within the bound, any behaviour of overflowing operations, all numbers of iterations", "why_tests_cant": "The counts that overflow need corpora of billions of words; that nothing overflows below the bound is a claim about every intermediate count of every training run.", "anchors": ["tokenizers/src/models/bpe/trainer.rs:count_pairs", "tokenizers/src/models/bpe/trainer.rs:do_train", "tokenizers/src/models/bpe/word.rs:Word::merge"]}
{"id": "C75", "title": "Unigram finds the best segmentation also with rounded scores", "statement": "The code adds scores as f64. If every sum of scores is rounded by a function that keeps the order and does not change rounded numbers (rounding to f64, ties to even, is one), then encode_optimized and the lattice each return a segmentation whose score, added up from left to right with rounding, no other segmentation exceeds. The exact total of what is returned is at most 2nd below the best exact total, for n characters and an error of at most d per rounding. The two encoders need not return the same pieces: with f64 they differ on some sentences, because the lattice compares after adding the score of the next piece. If no total of pieces with which the sentence begins needs rounding (for instance if all scores are multiples of a power of two and the totals need less than 53 bits), both encoders return what they would return with exact sums, and agree.", "quantifier": "all vocabularies and sentences, all order-preserving idempotent roundings", "why_tests_cant": "There are exponentially many segmentations, and rounding decides between almost equal ones only for rare combinations of scores.", "anchors": ["tokenizers/src/models/unigram/model.rs:encode_optimized", "tokenizers/src/models/unigram/model.rs:encode_unoptimized", "tokenizers/src/models/unigram/lattice.rs:Lattice::viterbi"]}
{"id": "C76", "title": "The table of scripts is unambiguous", "statement": "No code point is matched by two of the 1922 arms of get_script, so their order plays no role, and a character has a script exactly if one arm contains it. ASCII letters are Latin, all other ASCII characters Common; ideographs, hiragana and katakana count as one script for UnicodeScripts. With this table UnicodeScripts cuts ASCII text without spaces into the maximal runs of letters and non-letters, and loses exactly the characters before the first one that is in the table and not a space; a text of characters that are not in the table makes no piece.", "quantifier": "every character, every text", "why_tests_cant": "The tests look at a dozen characters; an overlap of two arms would change the script of a few code points only.", "anchors": ["tokenizers/src/pre_tokenizers/unicode_scripts/scripts.rs:get_script", "tokenizers/src/pre_tokenizers/unicode_scripts/pre_tokenizer.rs:fixed_script"]}
{"id": "C77", "title": "Streaming an encoded text gives back the text", "statement": "When the ids of an encoded text are given to a DecodeStream in any number of steps, no step fails; each step returns nothing or a non-empty text that does not end in U+FFFD; the texts put together are a beginning of what decoding all ids at once gives, and all of it exactly if that does not itself end in U+FFFD. For byte-level BPE and for a tokenizer like Llama's (with byte fallback and a stripped leading space) this is the text that was encoded.", "quantifier": "every text, every way to cut the ids into steps, every beginning of the ids", "why_tests_cant": "The tests stream a handful of sentences one id at a time; whether a window of ids loses a space or cuts a character depends on where the window begins and what the characters are.", "anchors": ["tokenizers/src/tokenizer/mod.rs:step_decode_stream", "tokenizers/src/tokenizer/mod.rs:DecodeStream::step", "tokenizers/src/decoders/byte_fallback.rs:decode_chain", "tokenizers/src/decoders/strip.rs:decode_chain"]}
{"id": "C78", "title": "A trained byte-level BPE tokenizer loses nothing", "statement": "A byte-level BPE tokenizer (no normalizer, ByteLevel without prefix space, ByteLevel decoder) trained on any texts with ByteLevel::alphabet() as initial alphabet: training succeeds whatever the texts, the size of the vocabulary, the minimal frequency and the maximal token length are; afterwards every text, seen or not, is encoded without error and decoded, at once or streamed, to exactly what it was. The trained tokenizer is saved, what is saved is loaded, and the loaded tokenizer does the same.", "quantifier": "every list of training texts in every grouping, every setting of the trainer, every text encoded afterwards", "why_tests_cant": "The tests train on one small corpus and encode a few sentences; whether an unseen byte is lost depends on the alphabet kept, whether a saved model is rebuilt on the merges learned.", "anchors": ["tokenizers/src/tokenizer/mod.rs:train", "tokenizers/src/models/bpe/trainer.rs:do_train", "tokenizers/src/models/bpe/trainer.rs:compute_alphabet", "tokenizers/src/pre_tokenizers/byte_level.rs:alphabet", "tokenizers/src/tokenizer/serialization.rs:serialize"]}
{"id": "C79", "title": "The switch for parallelism", "statement": "Whatever the threads of the process do in whatever order (call set_parallelism, change the environment, ask for iterators), the unreachable!() of the switch is never reached; has_parallelism_been_used is true once a helper that notes it has returned a parallel iterator, and when no thread is inside a helper it is true only then. After set_parallelism its value decides for every iterator asked for later, whatever the environment says; before that TOKENIZERS_PARALLELISM decides: parallel unless its value is, without regard to case, one of the seven words for no.", "quantifier": "every interleaving of atomic steps of every number of threads", "why_tests_cant": "Interleavings; the switch is process-wide state that tests share.", "anchors": ["tokenizers/src/utils/parallelism.rs"]}
{"id": "C80", "title": "Slicing a NormalizedString from Python and Node", "statement": "Indexing a NormalizedString in Python selects the characters that the same index or slice selects from the Python string of its normalized text, with the alignments and the original that belong to them. The slice function of the Node bindings selects the same characters whenever both bounds are in the text, and raises an exception otherwise.", "quantifier": "every reachable NormalizedString, every index, pair of bounds and slice", "why_tests_cant": "Unbounded texts and indices; the existing tests use ASCII texts only.", "anchors": ["bindings/python/src/utils/normalization.rs", "bindings/node/src/utils.rs", "tokenizers/src/tokenizer/normalizer.rs"]}
{"id": "C81", "title": "References lent to Python code", "statement": "A Rust reference lent to Python code (NormalizedStringRefMut, PreTokenizedStringRefMut) is never used after the function that lent it has returned, however the Python code keeps, clones or shares the handle, whatever threads it starts and also if it panics; at most one use of the reference exists at any time; the handle raises its exception only after the guard was dropped.", "quantifier": "every interleaving of every number of threads, every program of uses", "why_tests_cant": "Use after free and races show up in rare interleavings, if at all.", "anchors": ["bindings/python/src/utils/mod.rs"]}
{"id": "C82", "title": "Training from a Python iterator", "statement": "The buffered iterator around a Python iterator gives every value of every object exactly once and every exception exactly once, and comes to an end, whatever the buffer size; in order if nothing raises. train_from_iterator with strings and batches of strings trains exactly as training with the list of all texts in order; if the iterator raises or gives anything that is not a string, an exception results.", "quantifier": "every sequence of objects and exceptions, every buffer size other than 0", "why_tests_cant": "The tests use few objects, fewer than one buffer.", "anchors": ["bindings/python/src/utils/iterators.rs", "bindings/python/src/tokenizer.rs"]}
{"id": "C83", "title": "What Python passes to encode", "statement": "A Python string, list, tuple or numpy array given to encode, encode_batch, async_encode or async_encode_batch reaches the tokenizer as the text, words or pair that it contains; the asynchronous functions accept the same inputs and give the same encodings as the others.", "quantifier": "every Python object of the listed kinds, every tokenizer", "why_tests_cant": "Unbounded inputs; the tests only cover a normalizer that hides a defect of numpy arrays.", "anchors": ["bindings/python/src/tokenizer.rs"]}
{"id": "C84", "title": "A trained Unigram tokenizer with Metaspace gives texts back", "statement": "A tokenizer with any normalizer, Metaspace (always or never) as pre-tokenizer and decoder, trained with UnigramTrainer on texts in which neither its special tokens nor the unknown token are written: if training returns, every text afterwards, seen or not, whose characters (normalized, with marks for spaces) were seen in training or given as the initial alphabet, and in which no special or unknown token is written, is encoded without error and decoded to its normalized form (C69); in particular every training text.", "quantifier": "every normalizer, every corpus and grouping of it, all settings and numerical results of training, every such text", "why_tests_cant": "Training is run by tests on one or two files; the property needs every corpus and every later text.", "anchors": ["tokenizers/src/models/unigram/trainer.rs", "tokenizers/src/pre_tokenizers/metaspace.rs", "tokenizers/src/tokenizer/mod.rs"]}
{"id": "C85", "title": "A trained WordPiece tokenizer gives the words of texts back", "statement": "A tokenizer like BERT's (any normalizer, BERT's pre-tokenizer, WordPiece decoder with or without cleanup) trained with WordPieceTrainer (a prefix as ##, no suffix, no limit of the alphabet, the unknown token among the special tokens) on any texts: if training returns, every text afterwards, seen or not, without special tokens, whose words are not too long and made of characters seen in training (all but the first inside words), is encoded without error and decoded to its words with single spaces between (none before .?!, with cleanup); no word becomes unknown. In particular every training text.", "quantifier": "every normalizer, every corpus and grouping of it, all other settings of training, every such text", "why_tests_cant": "Training is run by tests on one or two files; the property needs every corpus and every later text.", "anchors": ["tokenizers/src/models/wordpiece/trainer.rs", "tokenizers/src/models/bpe/trainer.rs", "tokenizers/src/decoders/wordpiece.rs", "tokenizers/src/tokenizer/mod.rs"]}
{"id": "C86", "title": "An Encoding pickled and unpickled in Python is the same", "statement": "Encoding.__getstate__ followed by __setstate__ gives, for every encoding, one with the same ids, type ids, tokens, words, offsets, masks, overflowing encodings (to any depth) and sequence ranges, so that every accessor (token_to_chars, word_to_tokens, sequence ids and so on) returns the same.", "quantifier": "every encoding whose numbers fit the machine, with any nesting of overflowing encodings and any order in which the ranges (a hash map) are written", "why_tests_cant": "Tests pickle one encoding without overflow; nesting and the map with integer keys written as texts need all encodings.", "anchors": ["bindings/python/src/encoding.rs", "tokenizers/src/tokenizer/encoding.rs"]}
{"id": "C87", "title": "Truncation and padding set from Python and Node are what the arguments say", "statement": "enable_padding and enable_truncation set exactly what their keyword arguments say (defaults for those not given, last value for none, in any order), raise exactly if a known argument has a value of the wrong type or name, and setting again what the getters tell changes nothing; the options of Node set the same parameters as the same arguments in Python.", "quantifier": "every dictionary of keyword arguments, every parameters, every options of Node", "why_tests_cant": "There are infinitely many dictionaries; tests set two or three arguments at a time.", "anchors": ["bindings/python/src/tokenizer.rs", "bindings/node/src/tokenizer.rs", "bindings/node/src/encoding.rs", "tokenizers/src/utils/padding.rs", "tokenizers/src/utils/truncation.rs"]}
{"id": "C88", "title": "A Python AddedToken is what its arguments say, and its copies behave as it does", "statement": "The token a Python AddedToken stands for has the settings that were given and the documented defaults for the others; the constructor raises exactly if a known argument is not a bool; copying (or pickling and unpickling) it gives an object that does the same wherever it is used: in getters, in add_tokens and in add_special_tokens; Node builds the same token from the same settings.", "quantifier": "every token, every combination of given and missing settings", "why_tests_cant": "Whether a missing setting is remembered as missing only shows when the copy is used in another way than the original was read.", "anchors": ["bindings/python/src/tokenizer.rs", "bindings/node/src/tokenizer.rs", "tokenizers/src/tokenizer/added_vocabulary.rs"]}
{"id": "C89", "title": "Added tokens are looked for in the form the current normalizer gives them, whatever a Python program shares and changes", "statement": "After any program that assigns normalizers to tokenizers, adds tokens and sets attributes of (possibly shared) normalizers, every tokenizer looks for its normalized added tokens in exactly the form that its normalizer gives them now.", "quantifier": "every program, any number of tokenizers and normalizers, any sharing between them, any models", "why_tests_cant": "Which tokenizers an attribute assignment reaches depends on the history of assignments; there are infinitely many histories.", "anchors": ["bindings/python/src/normalizers.rs", "bindings/python/src/tokenizer.rs", "tokenizers/src/tokenizer/mod.rs", "tokenizers/src/tokenizer/added_vocabulary.rs"]}
{"id": "C90", "title": "str() and repr() of Python objects are a function of the value and never panic", "statement": "What the pyo3 serializer writes for a value is the text given by a stateless description (first five elements of each list and map at any level, dots for the rest, long texts cut), and writing it never panics.", "quantifier": "every value of the serde data model, of any nesting for which the serializer keeps counts, every limit", "why_tests_cant": "The serializer counts elements in a vector shared by all levels; whether the counts get mixed up shows only in particular nestings.", "anchors": ["bindings/python/src/utils/serde_pyo3.rs"]}
{"id": "C91", "title": "The picture of an encoding shows the text, its tokens and its annotations", "statement": "For every text, encoding and list of annotations, the HTML that EncodingVisualizer makes shows the characters of the text, each under the token and the annotations that cover it; it is made unless a token or an annotation lies outside the text; different labels have different colours; characters over which there are several tokens are marked so.", "quantifier": "every text, every encoding, every list of annotations", "why_tests_cant": "The picture is put together by grouping consecutive characters and by opening and closing tags as the annotation changes; whether tags and text stay apart depends on the whole combination.", "anchors": ["bindings/python/py_src/tokenizers/tools/visualizer.py"]}
{"id": "C93", "title": "A trained BPE tokenizer with an end-of-word suffix gives words back", "statement": "A tokenizer as CharBPETokenizer makes it (words cut by a pre-tokenizer, BPE with an end-of-word suffix, BPE decoder with the same suffix) is trained on any texts, with any size of the vocabulary, minimal frequency and limit of token length. Training ends, and then every text, seen or not, of characters that were seen and that does not contain special tokens, is encoded and decoded to its words with single spaces between.", "quantifier": "every training corpus, every order of hash maps, every option of the trainer that does not cut the alphabet, every text of seen characters", "why_tests_cant": "Which tokens carry the suffix is decided by the whole sequence of merges; a test sees one corpus and one text.", "anchors": ["tokenizers/src/models/bpe/model.rs", "tokenizers/src/models/bpe/trainer.rs", "tokenizers/src/decoders/bpe.rs", "bindings/python/py_src/tokenizers/implementations/char_level_bpe.py"]}
{"id": "C94", "title": "A trained BPE tokenizer with Metaspace gives texts back", "statement": "A tokenizer as SentencePieceBPETokenizer makes it (Metaspace pre-tokenizer and decoder around BPE without prefix and suffix) is trained on any texts. Training ends, and then every text, seen or not, whose characters (normalized, with marks for spaces) were seen, and that contains no special token, is encoded and decoded to its normalized form.", "quantifier": "every training corpus, every order of hash maps, every option of the trainer that does not cut the alphabet, every text of seen characters", "why_tests_cant": "The vocabulary is the result of training; a test sees one corpus and one text.", "anchors": ["tokenizers/src/models/bpe/trainer.rs", "tokenizers/src/pre_tokenizers/metaspace.rs", "bindings/python/py_src/tokenizers/implementations/sentencepiece_bpe.py"]}
{"id": "C92", "title": "The ready-made tokenizers of the Python package give texts back", "statement": "Each of ByteLevelBPETokenizer, CharBPETokenizer, SentencePieceBPETokenizer, SentencePieceUnigramTokenizer and BertWordPieceTokenizer puts its parts together so that, after training (with train or train_from_iterator), every text of seen characters that contains no special token is encoded and decoded to itself, up to what its normalizer and the spaces between its words change. Made from a vocabulary, they raise an error or use the ids of that vocabulary, and a BertWordPieceTokenizer adds its markers.", "quantifier": "every constructor argument the statement allows, every training corpus, every order of hash maps, every text", "why_tests_cant": "The constructors combine five parts and a trainer whose options are given separately; a test sees one combination, one corpus and one text.", "anchors": ["bindings/python/py_src/tokenizers/implementations/byte_level_bpe.py", "bindings/python/py_src/tokenizers/implementations/char_level_bpe.py", "bindings/python/py_src/tokenizers/implementations/sentencepiece_bpe.py", "bindings/python/py_src/tokenizers/implementations/sentencepiece_unigram.py", "bindings/python/py_src/tokenizers/implementations/bert_wordpiece.py"]}
{"id": "C95", "title": "Missing and refused fields of tokenizer.json", "statement": "A part of tokenizer.json that is missing is read as its documented default: no version as 1.0, no added tokens as an empty list, every other part but the model as null; options of BPE as null or false; behavior of Punctuation as Isolated, length of FixedLength as 5, use_regex of ByteLevel as true, prepend_scheme of Metaspace as always and split as true, direction of truncation as Right, byte_fallback of Unigram as false. A version other than 1.0, a missing model and a dropout outside of 0..1 are refused, a dropout in it is accepted.", "quantifier": "every object with or without the field, whatever else is in it", "why_tests_cant": "The defaults matter for files written by other versions, each with its own set of fields; tests read a few files.", "anchors": ["tokenizers/src/tokenizer/serialization.rs", "tokenizers/src/models/bpe/serialization.rs", "tokenizers/src/models/bpe/model.rs", "tokenizers/src/pre_tokenizers/punctuation.rs", "tokenizers/src/pre_tokenizers/fixed_length.rs", "tokenizers/src/pre_tokenizers/metaspace.rs", "tokenizers/src/utils/truncation.rs"]}
{"id": "C96", "title": "A BPE model that was changed encodes with its new tables", "statement": "Training a BPE model again, or setting one of its options, takes effect: from then on every word is tokenized as a model with the current tables and options and no cache would do it, also if the word was tokenized before.", "quantifier": "every model, every history of tokenizing in any threads, training, setting, clearing and resizing, every word", "why_tests_cant": "Needs the same word before and after a change in the same thread; tests encode with models that do not change.", "anchors": ["tokenizers/src/models/bpe/model.rs", "tokenizers/src/models/bpe/trainer.rs", "bindings/python/src/models.rs"]}
{"id": "C97", "title": "Tasks and setters of a Node tokenizer do not disturb each other", "statement": "In Node, encode and decode give what the tokenizer gives as it was configured when they were called, whatever other tasks and setters run before the answer is there; a setter that fails leaves the tokenizer as usable as before; runningTasks is the number of tasks without an answer.", "quantifier": "every tokenizer, every interleaving of calls, starts and ends of tasks and setters", "why_tests_cant": "Depends on when a thread of the pool gets to a task; tests await every call before the next.", "anchors": ["bindings/node/src/tokenizer.rs", "bindings/node/src/tasks/tokenizer.rs"]}
{"id": "C98", "title": "Python sequences of components behave like lists", "statement": "In Python, Sequence(l) of normalizers, pre-tokenizers, post-processors or decoders does what the elements do one after the other; s[i] is the element at i; s[i] = v replaces exactly that element and leaves everything else as it is; attributes of components can always be read and set; pickling gives an independent component that does the same.", "quantifier": "every list of components (nested, shared, repeated, custom), every index, every history of such operations", "why_tests_cant": "The objects share locks, so an assignment can reach objects that are not mentioned; tests use each object once.", "anchors": ["bindings/python/src/normalizers.rs", "bindings/python/src/pre_tokenizers.rs", "bindings/python/src/processors.rs", "bindings/python/src/decoders.rs"]}
{"id": "C99", "title": "What an attribute of a Python component gives can be given back", "statement": "For every attribute of the Python pre-tokenizers, decoders, processors, trainers and models that changes form on its way (behaviors, schemes, characters, templates, alphabets, special tokens, progress formats, dropout): setting it to what it is read as changes nothing, a component built from the attributes of another one is the same, the documented defaults are accepted, and values that are refused leave everything as it was.", "quantifier": "every component, every value of its attributes, every Python object given, every heap of AddedToken objects", "why_tests_cant": "Tests read attributes back for one or two values (never merged_with_previous, never a template, never None), and do not look at the objects that were given after an exception.", "anchors": ["bindings/python/src/pre_tokenizers.rs:424-476", "bindings/python/src/utils/normalization.rs:91-124", "bindings/python/src/processors.rs:745-775", "bindings/python/src/trainers.rs:112-360", "bindings/python/src/models.rs:295-446"]}
{"id": "C100", "title": "When encoding fails", "statement": "With sound components (the regex engine returns matches, Prepend and FixedLength are not degenerate, added tokens do not take the space another one begins with) encode, encode_fast, encode_char_offsets and their batches fail in two cases only: the model fails on a word, and then this is the error; or truncation fails, which happens exactly if what is kept of an input that is cut is not more than the stride or one input alone cannot be cut enough. In particular a tokenizer whose model knows its unknown token and whose limit leaves room encodes every text, list of words and pair: no panic from alignments, slices, added tokens or pieces without tokens.", "quantifier": "every tokenizer configuration and history of added tokens, every text, list of words, pair, batch and schedule, every limit, stride and strategy", "why_tests_cant": "Tests encode a few well-formed sentences; they cannot show that no text whatsoever (combining characters, empty pieces, added tokens in the middle of words, truncation in the middle of an added token) makes one of the many unwraps and slices fail.", "anchors": ["tokenizers/src/tokenizer/mod.rs:762-932", "tokenizers/src/tokenizer/pre_tokenizer.rs:72-263", "tokenizers/src/utils/truncation.rs:70-162", "tokenizers/src/models/bpe/model.rs:480-560", "tokenizers/src/models/wordpiece/mod.rs:215-275"]}
{"id": "C101", "title": "Ids stay unambiguous while models are shared, assigned and trained", "statement": "Whatever a Python or Node program does with models (several tokenizers around one model, assigning a model, training through any of the tokenizers, adding tokens before and after), token_to_id and id_to_token of every tokenizer are inverse to each other and agree with its model, so that an id the model gives stands for the token the model means.", "quantifier": "every program of constructor calls, assignments, additions and trainings, every set of tokenizers and models", "why_tests_cant": "The effect needs two tokenizers that hold the same lock, or tokens added before a training; tests train one fresh tokenizer.", "anchors": ["bindings/python/src/trainers.rs:95-100", "bindings/python/src/tokenizer.rs:680-684", "bindings/python/src/tokenizer.rs:1878-1891", "bindings/node/src/models.rs:16-21", "bindings/node/src/tokenizer.rs:223-226", "tokenizers/src/tokenizer/mod.rs:1492-1539", "tokenizers/src/tokenizer/added_vocabulary.rs:263-345"]}
{"id": "C102", "title": "A Python DecodeStream continues the text of its prompt", "statement": "A Python DecodeStream started with the ids of a prompt returns, put together, exactly the text that the ids given to its steps (one id or several at once) add to the text of the prompt; it never returns an unfinished character; and after a step that raised, later steps go on returning the text of later ids.", "quantifier": "every prompt, every history of steps, every prefix-stable decoder; for the part after an error every history whatever", "why_tests_cant": "The tests stream a handful of sentences; a prompt that ends within a character, and steps after an exception, are not tried.", "anchors": ["bindings/python/src/decoders.rs:786-887", "tokenizers/src/tokenizer/mod.rs:1127-1172"]}
{"id": "C103", "title": "Components made in JavaScript and in Python behave alike", "statement": "A normalizer, pre-tokenizer, post-processor, decoder or model made by a function of the Node package and by the class of the Python package with the same arguments (defaults included, sequences nested to any depth) is refused by both or made by both, and then both do the same; so tokenizers put together from them prepare added tokens, encode and decode alike.", "quantifier": "every call of a factory function with any arguments, every nesting of sequences, every text and every list of ids", "why_tests_cant": "The tests of the two packages are separate and check a few calls each; nothing compares them.", "anchors": ["bindings/node/src/normalizers.rs", "bindings/node/src/pre_tokenizers.rs", "bindings/node/src/processors.rs", "bindings/node/src/decoders.rs", "bindings/node/src/models.rs", "bindings/python/src/normalizers.rs", "bindings/python/src/pre_tokenizers.rs", "bindings/python/src/processors.rs", "bindings/python/src/decoders.rs", "bindings/python/src/models.rs"]}
{"id": "C104", "title": "Python code that pre-tokenizes keeps track of the text", "statement": "Python code may call split, normalize and tokenize of a PreTokenizedString with functions of its own, in any order, and go on after an exception. If the functions slice and edit the strings they receive, the offsets of get_splits and of to_encoding always delimit the part of the text that a piece or token was made from, and this holds for the encodings of a tokenizer with such a pre-tokenizer. A call that raises leaves the pieces usable: calling it again goes on where it stopped, and no text is lost.", "quantifier": "every text, every sequence of calls, all functions that slice and edit (which may raise at any piece), every tokenizer around a custom pre-tokenizer", "why_tests_cant": "The tests use one or two fixed functions that never raise.", "anchors": ["bindings/python/src/utils/pretokenization.rs", "bindings/python/src/pre_tokenizers.rs:890-911", "tokenizers/src/tokenizer/pre_tokenizer.rs:73-128"]}
{"id": "C105", "title": "Encoding a decoded text gives the same ids", "statement": "A text is encoded, its ids are decoded, and the result is encoded again. The ids are the same as the first time: for tokenizers like those of BERT (when the vocabulary can write the words), of XLM-R and T5 (Metaspace), of Llama and of GPT-2, if the normalizer leaves the decoded text as it is and no added token appears in it.", "quantifier": "every text, every vocabulary and model, every normalizer, every set of special tokens and every template that puts special tokens around the text", "why_tests_cant": "A test runs a few sentences; whether spaces, punctuation or the replacement character make a difference on the second round depends on all texts.", "anchors": ["tokenizers/src/tokenizer/mod.rs", "tokenizers/src/pre_tokenizers/bert.rs", "tokenizers/src/pre_tokenizers/metaspace.rs", "tokenizers/src/decoders/wordpiece.rs", "tokenizers/src/decoders/strip.rs"]}
{"id": "C106", "title": "A tokenizer like T5's gives back the words", "statement": "With the pre-tokenizers WhitespaceSplit and Metaspace in a sequence, as in the published files of T5 and XLM-R, an encoded text is decoded to the words of the normalized text with single spaces between, if it has no `▁`, its characters are known and no special token is written in it; encoding that again gives the same ids. Such a file, with its old form of Metaspace, is loaded and does this.", "quantifier": "every text, every vocabulary, every charsmap, every added token without the mark", "why_tests_cant": "A test decodes a few sentences; runs of white space of any kind, marks in the text and unknown characters behave differently.", "anchors": ["tokenizers/src/pre_tokenizers/sequence.rs", "tokenizers/src/pre_tokenizers/whitespace.rs", "tokenizers/src/pre_tokenizers/metaspace.rs", "tokenizers/src/tokenizer/serialization.rs", "tokenizers/src/models/unigram/serialization.rs"]}
{"id": "C107", "title": "Every normalized byte belongs to one original character; `alignments_original` is the converse", "statement": "After any sequence of operations on a NormalizedString, the alignment of every byte of the normalized text is the byte range of exactly one character of the original text, or (0, 0). `alignments_original` has one entry per byte of the original text: the range of the normalized bytes that are aligned with it; it panics only for an empty normalized text.", "quantifier": "every text, every history of transformations, filters, replacements, insertions and slices, every byte", "why_tests_cant": "The tests compare the alignments of a handful of strings; overlapping groups (a panic in `alignments_original`) would need a history that no test has.", "anchors": ["tokenizers/src/tokenizer/normalizer.rs:317-428", "tokenizers/src/tokenizer/normalizer.rs:854-901"]}
{"id": "C108", "title": "Tokenizers like Llama 3's and Qwen's: what is decoded, and which words are one token", "statement": "A byte-level BPE tokenizer whose pre-tokenizer is a Sequence of pre-tokenizers that keep every character, then ByteLevel without prefix space, whose normalizer is any safe one and whose post-processor may be Sequence[ByteLevel, TemplateProcessing], encodes every text without error. What is decoded is the text cut at its added tokens, the rest normalized, put together again; with skip_special_tokens the special ones are left out. Without a normalizer every text comes back. With ignore_merges and no dropout every word of the vocabulary is one token, whatever the merges are. Files of that form (Llama 3, Qwen 2) are loaded and give such a tokenizer.", "quantifier": "every text, every vocabulary with the 256 byte characters, every list of merges, all added tokens without strip flags, every regular expression (an engine that reports matches in order), every normalizer with safe settings", "why_tests_cant": "Published tokenizers are compared with a reference on sample texts; the loss of a single byte at a cut, or a vocabulary word that is cut because dropout turns ignore_merges off, only shows for particular texts.", "anchors": ["tokenizers/src/pre_tokenizers/sequence.rs:1-60", "tokenizers/src/pre_tokenizers/split.rs:27-110", "tokenizers/src/pre_tokenizers/byte_level.rs:115-200", "tokenizers/src/processors/sequence.rs:1-80", "tokenizers/src/models/bpe/model.rs:562-612"]}
{"id": "C109", "title": "Padding is invisible to decoding that skips special tokens, exactly if the padding id is", "statement": "Let the padding id stand for no token or for a special one. Then a padded encoding, and each of its overflowing parts, decodes (skipping special tokens) to what it decodes to without padding, whatever the target length, the side, the multiple and the text given for the padding token; encode_batch followed by decode_batch gives for every text what that text gives when it is encoded alone without padding, in order, whatever the schedules. If the padding id stands for a token that is not special, that token is decoded once for each padded position, with or without skipping; the text of the padding token is never looked at. The default padding parameters (id 0) do this to tokenizers whose id 0 is an ordinary token.", "quantifier": "all tokenizers, all texts and batches, all padding parameters, all schedules", "why_tests_cant": "Tests pad with a tokenizer whose id 0 is [PAD]; that the pad id and not the pad token decides what is decoded only shows with another vocabulary.", "anchors": ["tokenizers/src/tokenizer/encoding.rs:465-532", "tokenizers/src/utils/padding.rs:31-81", "tokenizers/src/tokenizer/mod.rs:935-953", "tokenizers/src/tokenizer/mod.rs:1337-1416"]}
{"id": "C110", "title": "A pair is its two texts", "statement": "Let neither truncation nor padding be set, and let the post-processor be none, ByteLevel, BERT's, RoBERTa's, a template with A once and B once behind it, or ByteLevel followed by one of these. Then there are special ids pre, mid, post, the same for all texts and none without add_special_tokens, such that the ids of every pair are pre, the ids of the first input encoded alone without special tokens, mid, those of the second input encoded alone, post; and a pair fails to be encoded exactly if one of its inputs does. What decoding shows of it, skipping the special tokens that were added, are the tokens of the first text and then those of the second; for tokenizers like Llama 3's and Qwen's the decoded text is that of the first followed by that of the second.", "quantifier": "all tokenizers with such settings, all inputs (texts and lists of words), all three kinds of offsets", "why_tests_cant": "Pairs are tested on a few sentences and one model; that the second input is tokenized exactly as if it came first (its type id, the early exit, the numbering of words do not reach the ids) is a claim about all inputs.", "anchors": ["tokenizers/src/tokenizer/mod.rs:762-805", "tokenizers/src/tokenizer/mod.rs:829-932", "tokenizers/src/tokenizer/mod.rs:126-173", "tokenizers/src/tokenizer/pre_tokenizer.rs:198-263", "tokenizers/src/processors/template.rs:520-640", "tokenizers/src/processors/bert.rs:43-194", "tokenizers/src/processors/roberta.rs:58-229"]}
{"id": "C111", "title": "What truncation keeps of a text", "statement": "Let a tokenizer have a post-processor that puts special tokens around the text (as in C108, C110) and no padding. Turning truncation on with room for n tokens beside the special ones (and a stride smaller than n) changes the ids of every input to: the same special ids in front, the first n (cut on the right) or last n (cut on the left) of the ids that the input gives without truncation and special tokens, the same special ids behind. only_second refuses a single input that is too long. A pair keeps of either text the number of ids that the strategy aims at, from the side that is kept, between the same special ids. For tokenizers like Llama 3's and Qwen's the truncated text is decoded to a beginning of what the whole text is decoded to, with at most one U+FFFD behind it where a character was cut in two; cut on the left to an end of it, with at most three U+FFFD in front.", "quantifier": "all tokenizers with such settings, all texts and lists of words, all limits, all strategies, both directions", "why_tests_cant": "Truncation is tested on a few encodings; that the early exit, the special tokens, the overflowing parts and bytes cut in the middle of a character never lead to anything but a beginning or end of the text is a claim about all texts and limits.", "anchors": ["tokenizers/src/utils/truncation.rs:70-162", "tokenizers/src/tokenizer/encoding.rs:307-388", "tokenizers/src/tokenizer/mod.rs:661-674", "tokenizers/src/tokenizer/mod.rs:762-805", "tokenizers/src/tokenizer/mod.rs:1265-1317", "tokenizers/src/pre_tokenizers/byte_level.rs:156-171"]}
{"id": "C112", "title": "The overflowing parts of a truncated text cover it", "statement": "Let a tokenizer put special tokens around a text (as in C108, C111), without padding, and turn truncation on with room for n tokens beside the special ones and a stride smaller than n. Then the encoding of a text and its overflowing parts are windows: each has the same special ids around at most n ids; every window but the last is full and shares exactly stride ids with the next one; the windows without the repetitions, put together in order, are the ids the text gives without truncation.", "quantifier": "all tokenizers with such settings, all texts, all limits and strides, both directions", "why_tests_cant": "Users split long documents with overflowing parts; tests count them for one text whose pieces are short. That nothing is lost or repeated otherwise, with the special tokens in every part, is a claim about all texts, limits and strides - and is false beyond the limit.", "anchors": ["tokenizers/src/tokenizer/encoding.rs:307-388", "tokenizers/src/tokenizer/encoding.rs:408-463", "tokenizers/src/tokenizer/pre_tokenizer.rs:131-188", "tokenizers/src/tokenizer/mod.rs:1178-1200", "tokenizers/src/tokenizer/mod.rs:1265-1317", "tokenizers/src/processors/template.rs:543-685", "tokenizers/src/processors/bert.rs:51-194", "tokenizers/src/processors/roberta.rs:66-229"]}
{"id": "C113", "title": "With set_encode_special_tokens(true), special tokens written in a text are ordinary text", "statement": "After set_encode_special_tokens(true), what the added vocabulary cuts out of a text are never special tokens, whatever was added before and whatever the normalizer. If only special tokens were added, every input is encoded exactly as by the same tokenizer without added tokens. For a byte-level BPE tokenizer (the form of Llama 3's file) whose special tokens BPE cannot give itself, the ids of a text contain no id of a special token, and decoding gives the text back, special tokens written in it included, even if special tokens are put around it and skipped. In general: no special token's id is in the ids of a text, and special tokens are as if they had not been added.", "quantifier": "all texts, all tokenizers and histories of the added vocabulary", "why_tests_cant": "Users rely on the switch to encode untrusted text safely; the tests look at one sentence and one vocabulary. That no text at all can smuggle in the id of a special token quantifies over all texts; and it is false for models that know the special tokens.", "anchors": ["tokenizers/src/tokenizer/added_vocabulary.rs:249-255", "tokenizers/src/tokenizer/added_vocabulary.rs:430-515", "tokenizers/src/tokenizer/added_vocabulary.rs:523-564", "tokenizers/src/tokenizer/mod.rs:752-759", "tokenizers/src/models/bpe/model.rs"]}
{"id": "C114", "title": "New added tokens change nothing for texts in which they do not occur", "statement": "Take any tokenizer (in particular any that was loaded from a file) whose added tokens were changed by any calls that succeeded. Add further tokens that are new. Then every input, single or pair, in which none of them occurs (in the text, or for normalized tokens in the form searched for in a normalized part of the text) is encoded exactly as before: ids, tokens, offsets, masks, overflowing. Ids that are not those of the new tokens are decoded as before.", "quantifier": "all tokenizers, histories, lists of new tokens, inputs and lists of ids", "why_tests_cant": "Extending a tokenizer must not disturb what a model was trained on. A test compares a few sentences; the automata are rebuilt over all tokens, ids and normalized forms are recomputed, and only a proof about every text shows that nothing else moves. For decoding that skips special tokens it is false.", "anchors": ["tokenizers/src/tokenizer/added_vocabulary.rs:263-424", "tokenizers/src/tokenizer/added_vocabulary.rs:430-515", "tokenizers/src/tokenizer/added_vocabulary.rs:523-564", "tokenizers/src/tokenizer/mod.rs:762-805", "tokenizers/src/tokenizer/mod.rs:935-953"]}
{"id": "C115", "title": "A smaller vocabulary is the beginning of a larger one", "statement": "Train twice on the same words, with the same settings except that the first time vocab_size is smaller or min_frequency larger (or both). For the BPE and WordPiece trainers the first merges and the first vocabulary are the beginnings of the second ones: the same tokens with the same ids. For the WordLevel trainer, if no special token is a word, every word of the first vocabulary has the same id in the second. For BPE without continuing prefix (with an end-of-word suffix whose last character is in no training word, or none; no dropout, ignore_merges or byte_fallback; the unknown token, if any, among the special tokens), on every word, trained on or not, with unknown characters or not, each token of the second model stands for some consecutive tokens of the first: it covers their range and reads as they do. So a larger vocabulary never adds a boundary and never gives more tokens. The same holds for models built from a vocabulary and a list of merges (merges.txt) when merges, none of them twice, are added at the end of the list and tokens to the vocabulary, on words whose characters the smaller vocabulary has.", "quantifier": "for all word counts, settings, sizes and frequencies, all orders of the hash maps, all words tokenized", "why_tests_cant": "Tests train one size. That stopping earlier is all that vocab_size and min_frequency do, and that later merges can never change what earlier ones did for any word, are statements about pairs of trainings and all words.", "anchors": ["tokenizers/src/models/bpe/trainer.rs:450-615", "tokenizers/src/models/bpe/model.rs:465-580", "tokenizers/src/models/wordlevel/trainer.rs:38-79", "tokenizers/src/models/wordpiece/trainer.rs"]}
{"id": "C116", "title": "Ids are only names", "statement": "Give the tokens of a vocabulary other ids, different tokens different ones. Then WordLevel, WordPiece and BPE models give every word the same tokens with the same offsets, only with the other ids; what is an error stays an error. For BPE the same merges build a model exactly if they did before, and the merges that dropout leaves out make no difference to this. In a Unigram model the ids are positions, so other ids are another order of the pieces: if no piece is listed twice, every text gets the same tokens in both orders.", "quantifier": "for all vocabularies, merges and settings, all injective renumberings, all words, all outcomes of dropout", "why_tests_cant": "A test uses one numbering. That no comparison, tie break, table or queue order looks at an id is a statement about every numbering and every word.", "anchors": ["tokenizers/src/models/bpe/model.rs:213-612", "tokenizers/src/models/bpe/word.rs:28-250", "tokenizers/src/models/unigram/model.rs:104-477", "tokenizers/src/models/wordpiece/mod.rs:224-283", "tokenizers/src/models/wordlevel/mod.rs:162-178"]}
{"id": "C117", "title": "A tokenizer with other ids gives the same encodings", "statement": "Replace every id in a tokenizer, different ids by different ones: those of the model, of the added tokens, of the special tokens of the post-processor and of the padding token. Then every input, a text or a list of words or a pair, with or without special tokens, gets the same encoding with the other ids, down to offsets, words, type ids, masks, overflowing parts and sequence ranges, or the same error; the same holds for batches. The other ids decode to the text that the original ones decode to. This holds for every model, pre-tokenizer, normalizer, post-processor and decoder.", "quantifier": "for all settings, all injective renumberings, all inputs, pairs and batches, all schedules of a batch", "why_tests_cant": "One has to try every numbering on every input; a test compares two numberings on a few inputs. That truncation, padding, merging, templates and the search for added tokens only copy ids is a statement about all of them.", "anchors": ["tokenizers/src/tokenizer/mod.rs:762-953", "tokenizers/src/tokenizer/mod.rs:1178-1421", "tokenizers/src/tokenizer/added_vocabulary.rs:430-564", "tokenizers/src/tokenizer/pre_tokenizer.rs:73-263", "tokenizers/src/tokenizer/encoding.rs:307-562", "tokenizers/src/processors/template.rs:544-685", "tokenizers/src/processors/bert.rs:51-194", "tokenizers/src/processors/roberta.rs:66-229"]}
{"id": "C118", "title": "A padded batch is a rectangle", "statement": "Whatever is configured, the seven vectors of an encoding that encode returns have the same length, and so have those of every overflowing part, provided that the special tokens of a template have as many ids as tokens. With padding on, the encodings of a batch and all their overflowing parts have one and the same length: with padding to the longest, with or without truncation, and with padding to a fixed size and truncation to at most that size, as long as the limit of truncation leaves room for the special tokens and one token of each input, and the post-processor inserts as many special tokens as it reports. That length is the fixed size when there is no multiple to round to, is a multiple of what is asked for, and with padding to the longest and no multiple does not exceed the limit of truncation.", "quantifier": "for all tokenizers, all batches of texts, lists of words and pairs, all schedules of a batch", "why_tests_cant": "A batch is longest in one of its rows, and which one, and how its overflowing parts compare with the other rows, depends on all inputs; a test has a few batches.", "anchors": ["tokenizers/src/tokenizer/mod.rs:1267-1320", "tokenizers/src/tokenizer/mod.rs:1322-1421", "tokenizers/src/utils/padding.rs:50-81", "tokenizers/src/utils/truncation.rs:70-160", "tokenizers/src/tokenizer/encoding.rs:307-562", "tokenizers/src/processors/template.rs:193-234"]}
{"id": "C119", "title": "encode_char_offsets is encode with the offsets counted in characters", "statement": "encode_char_offsets, which is what Python's encode calls, fails exactly when encode does and with the same error. Otherwise both return the same encoding, overflowing parts included, except for the offsets. The offsets at the same place are both (0, 0), or they select one and the same non-empty part of one of the texts of the input: encode by the numbers of bytes before its start and its end, encode_char_offsets by the numbers of characters. The same holds of encode_batch and encode_batch_char_offsets, input by input, also after the padding of the batch.", "quantifier": "for all tokenizers made of normalizers and pre-tokenizers of the library with post-processors that do not trim offsets, all models whose tokens are parts of the words they get, all texts, lists of words and pairs, with or without truncation and padding", "why_tests_cant": "Bytes and characters are the same in ASCII texts, and a test with other characters has them in a few places; overflowing parts and pairs add places where the conversion could be left out.", "anchors": ["tokenizers/src/tokenizer/mod.rs:871-950", "tokenizers/src/tokenizer/pre_tokenizer.rs:198-262", "tokenizers/src/tokenizer/pre_tokenizer.rs:330-370", "tokenizers/src/pre_tokenizers/byte_level.rs:202-234", "bindings/python/src/tokenizer.rs:1182-1215", "tokenizers/src/tokenizer/mod.rs:1338-1380"]}
{"id": "C120", "title": "A file in the form of RoBERTa's is loaded, and its texts and pairs come back", "statement": "A file in the form of RoBERTa's tokenizer.json is loaded without error. Every text in which no token of the file occurs is encoded, alone and in a pair: with special tokens the ids are <s> A </s> for a text and <s> A </s> </s> B </s> for a pair, where A and B are the ids that the texts have alone without special tokens. Decoding gives the text, or the two texts one after the other, if special tokens are skipped, and the same with <s> and </s> where they were put if they are kept.", "quantifier": "for all vocabularies with the 256 byte characters and the two special tokens, all lists of merges, all lists of added tokens whatever their strip and single-word flags, all texts in which none of these occurs, all pairs of such texts", "why_tests_cant": "A test loads one file and encodes a few texts; whether merges, ids and flags of other files can make a difference is not seen.", "anchors": ["tokenizers/src/processors/roberta.rs:66-229", "tokenizers/src/processors/mod.rs:17-28", "tokenizers/src/pre_tokenizers/byte_level.rs:115-200", "tokenizers/src/tokenizer/serialization.rs:67-180", "tokenizers/src/tokenizer/mod.rs:905-950"]}
{"id": "C121", "title": "Bert and Roberta processors in a sequence", "statement": "In a Sequence of one or more Bert and Roberta processors, each puts its two tokens around what the ones before have made of a text; the number of inserted tokens is the added_tokens of the sequence, the special mask is 1 exactly on the inserted tokens, and the sequence range covers exactly the text.", "quantifier": "for all non-empty lists of such processors with any tokens and settings, all encodings of a text", "why_tests_cant": "The tests of Sequence have a single processor that inserts nothing.", "anchors": ["tokenizers/src/processors/sequence.rs:51-70", "tokenizers/src/processors/bert.rs:51-194", "tokenizers/src/processors/roberta.rs:66-229"]}
{"id": "C122", "title": "Truncating twice is truncating once", "statement": "An encoding that is truncated to a tokens and then, in the same direction, to b < a tokens is the encoding truncated to b at once: the same tokens, and overflowing parts with the same tokens.", "quantifier": "for all well-formed encodings, all lengths 0 < b < a < len, all strides less than the lengths, both directions", "why_tests_cant": "Whether the parts of the first truncation are kept is seen only if an encoding with overflowing parts is truncated again, for all positions of the windows.", "anchors": ["tokenizers/src/tokenizer/encoding.rs:307-388"]}
