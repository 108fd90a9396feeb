{
 "claims": [
  {
   "property": "C01",
   "status": "proved",
   "theorems": [
    "Tok.C01_reachable_wf",
    "Tok.C01_parallel",
    "Tok.Encoding.C01_from_tokens",
    "Tok.Encoding.C01_set_offsets"
   ],
   "note": "All histories of public operations, all nesting depths of overflow."
  },
  {
   "property": "C02",
   "status": "proved",
   "theorems": [
    "Tok.C02_truncate_panics_iff",
    "Tok.C02_truncate_fits",
    "Tok.C02_truncate_zero",
    "Tok.C02_truncate_right",
    "Tok.C02_truncate_left",
    "Tok.C02_overlap_right",
    "Tok.C02_overlap_left"
   ],
   "note": ""
  },
  {
   "property": "C03",
   "status": "proved",
   "theorems": [
    "Tok.C03_total_length",
    "Tok.C03_only_first",
    "Tok.C03_only_second",
    "Tok.C03_longest_first",
    "Tok.C03_errors",
    "Tok.C03_longest_first_can_panic"
   ],
   "note": "C03_longest_first_can_panic records a finding: stride < max_length does not prevent the assertion failure."
  },
  {
   "property": "C04",
   "status": "proved",
   "theorems": [
    "Tok.C04_pad_rows",
    "Tok.C04_pad_len",
    "Tok.C04_pad_overflow",
    "Tok.C04_pad_ranges",
    "Tok.C04_batch_longest",
    "Tok.C04_fixed"
   ],
   "note": ""
  },
  {
   "property": "C05",
   "status": "proved",
   "theorems": [
    "Tok.C05_merge_rows",
    "Tok.C05_merge_overflow",
    "Tok.C05_merge_overflow_count",
    "Tok.C05_merge_list",
    "Tok.C05_growing_sorted",
    "Tok.C05_merge_assoc",
    "Tok.C05_merge_ranges",
    "Tok.Encoding.C05_merge_list_parts",
    "Tok.Encoding.C05_merge_list_count"
   ],
   "note": ""
  },
  {
   "property": "C06",
   "status": "partial",
   "theorems": [
    "Tok.C06_token_to_sequence_partial",
    "Tok.C06_merge_sequences",
    "Tok.C06_off_by_one",
    "Tok.Encoding.C06_sequence_ids",
    "Tok.Encoding.C06_unlabelled",
    "Tok.Encoding.C06_second_alone"
   ],
   "note": "Missing: the code answers Some(0) for index len of an encoding without recorded ranges, so 'only valid token indices' is false there (C06_off_by_one proves it); get_sequence_ids is right when the sequences are numbered from 0 (C06_sequence_ids), wrong for a lone second sequence (C06_second_alone)."
  },
  {
   "property": "C07",
   "status": "proved",
   "theorems": [
    "Tok.C07_char_to_token",
    "Tok.C07_char_token_roundtrip",
    "Tok.C07_word_to_tokens",
    "Tok.C07_word_to_tokens_none",
    "Tok.C07_word_to_chars",
    "Tok.C07_char_to_token_none",
    "Tok.C07_token_lookups",
    "Tok.C07_char_to_word",
    "Tok.Encoding.C07_unlabelled_lookups",
    "Tok.Encoding.C07_unlabelled_char",
    "Tok.Encoding.C07_unlabelled_word"
   ],
   "note": ""
  },
  {
   "property": "C08",
   "status": "proved",
   "theorems": [
    "Tok.NS.C08_wellFormed",
    "Tok.NS.C08_misuse_breaks_order"
   ],
   "note": "All histories of operations; a partial-range transform must not replace more characters than the range has (C08_misuse_breaks_order shows why)."
  },
  {
   "property": "C09",
   "status": "proved",
   "theorems": [
    "Tok.NS.C09_filter",
    "Tok.NS.C09_map",
    "Tok.NS.C09_mapChars",
    "Tok.NS.C09_transform",
    "Tok.NS.C09_prepend",
    "Tok.NS.C09_append",
    "Tok.NS.C09_clear",
    "Tok.NS.C09_strip",
    "Tok.NS.C09_replace",
    "Tok.NS.C09_pipeline",
    "Tok.NS.C09_ofStr_solid",
    "Tok.NS.C09_filter_solid",
    "Tok.NS.C09_map_solid",
    "Tok.NS.C09_mapChars_solid",
    "Tok.NS.C09_prepend_solid",
    "Tok.NS.C09_append_solid",
    "Tok.NS.C09_strip_solid",
    "Tok.NS.C09_replace_solid",
    "Tok.NS.C09_prepend_empty_then_lowercase_panics",
    "Tok.NS.C09_replace_empty_then_lowercase_panics",
    "Tok.NS.C09_append_to_empty_then_lowercase_duplicates"
   ],
   "note": "Every operation on every reachable string whose first character has a source (always so from an encode call until an empty prepend, an empty match replaced at the start, or an append to an empty text: those failures are proved too)."
  },
  {
   "property": "C10",
   "status": "proved",
   "theorems": [
    "Tok.NS.C10_slice_normalized",
    "Tok.NS.C10_slice_invalid",
    "Tok.NS.C10_slice_text",
    "Tok.NS.C10_slice_original",
    "Tok.NS.C10_transform_within",
    "Tok.NS.C10_empty_slice_offsets_wrong"
   ],
   "note": "Offsets of empty slices are wrong in the code (last theorem); the claim is about non-empty ranges."
  },
  {
   "property": "C100",
   "status": "proved",
   "theorems": [
    "Tok.NoErrors.C100_errors",
    "Tok.NoErrors.C100_truncation",
    "Tok.NoErrors.C100_encode",
    "Tok.NoErrors.C100_batch",
    "Tok.NoErrors.C100_models",
    "Tok.NoErrors.C100_models_only_if",
    "Tok.NoErrors.C100_file"
   ],
   "note": "For sound components; where they are not (an empty prefix, patterns that begin with the space another token strips) encoding can panic, see C27 and C56."
  },
  {
   "property": "C101",
   "status": "partial",
   "theorems": [
    "Tok.SharedModels.C101_careful_partial",
    "Tok.SharedModels.C101_exact",
    "Tok.SharedModels.C101_others",
    "Tok.SharedModels.C101_again",
    "Tok.SharedModels.C101_trainers",
    "Tok.SharedModels.C101_collides"
   ],
   "note": "The claim is false when a model is trained or assigned under added tokens that do not fit it (C101_collides); C101_exact shows that this is the only way."
  },
  {
   "property": "C102",
   "status": "partial",
   "theorems": [
    "Tok.PyStream.C102_prompt",
    "Tok.PyStream.C102_decoders",
    "Tok.PyStream.C102_repeats",
    "Tok.PyStream.C102_again",
    "Tok.PyStream.C102_never",
    "Tok.PyStream.C102_stuck"
   ],
   "note": "The claim holds when the text of the prompt is complete; it is false for a prompt that ends within a character (C102_repeats) and after InvalidPrefix with byte fallback (C102_stuck)."
  },
  {
   "property": "C103",
   "status": "partial",
   "theorems": [
    "Tok.Factory.C103_normalizers",
    "Tok.Factory.C103_preTokenizers",
    "Tok.Factory.C103_processors",
    "Tok.Factory.C103_decoders_partial",
    "Tok.Factory.C103_bpe",
    "Tok.Factory.C103_unigram",
    "Tok.Factory.C103_tokenizer",
    "Tok.Factory.C103_strip",
    "Tok.Factory.C103_exported",
    "Tok.Factory.C103_behaviors",
    "Tok.Factory.C103_unigram_ignored",
    "Tok.Factory.C103_bert_default",
    "Tok.Factory.C103_template_ids"
   ],
   "note": "Proved for everything but the strip decoder given several characters, where it is false (C103_strip); the exported enumeration of behaviors is refused (C103_exported)."
  },
  {
   "property": "C104",
   "status": "partial",
   "theorems": [
    "Tok.PyPre.C104_offsets",
    "Tok.PyPre.C104_tokens",
    "Tok.PyPre.C104_custom",
    "Tok.PyPre.C104_text",
    "Tok.PyPre.C104_tokenize_again",
    "Tok.PyPre.C104_normalize",
    "Tok.PyPre.C104_normalized",
    "Tok.PyPre.C104_split_done",
    "Tok.PyPre.C104_split_raised",
    "Tok.PyPre.C104_normalize_twice",
    "Tok.PyPre.C104_normalized_wrong",
    "Tok.PyPre.C104_fresh_wrong"
   ],
   "note": "Offsets are proved for all histories with exceptions. It is false that an exception loses nothing: split loses all pieces (C104_split_raised), normalize called again edits twice (C104_normalize_twice); get_splits in the normalized referential counts characters wrongly (C104_normalized_wrong)."
  },
  {
   "property": "C105",
   "status": "partial",
   "theorems": [
    "Tok.Tokenizer.C105_same_words",
    "Tok.Tokenizer.C105_bert",
    "Tok.Tokenizer.C105_meta",
    "Tok.Tokenizer.C105_meta_only",
    "Tok.Tokenizer.C105_llama",
    "Tok.Tokenizer.C105_byteLevel",
    "Tok.Tokenizer.C105_meta_shrinks",
    "Tok.Tokenizer.C105_unknown_word",
    "Tok.Tokenizer.C105_normalizer_again"
   ],
   "note": "Proved for BERT, Llama and GPT-2 in full. For Metaspace it holds exactly for texts that do not begin with two spaces and are not a single one (C105_meta, C105_meta_only); otherwise the code loses a space with each round. The conditions on words and normalizer are needed (C105_unknown_word, C105_normalizer_again)."
  },
  {
   "property": "C106",
   "status": "proved",
   "theorems": [
    "Tok.Tokenizer.C106_text",
    "Tok.Tokenizer.C106_plain",
    "Tok.Save.C106_published",
    "Tok.Save.C106_white_lost",
    "Tok.Save.C106_mark_lost",
    "Tok.Save.C106_unknown_lost"
   ],
   "note": "What is decoded is determined for texts with marks too (C106_text). What is not given back is shown by the last three. The form of the file is from memory; what the charsmap does to a grapheme is a parameter."
  },
  {
   "property": "C107",
   "status": "proved",
   "theorems": [
    "Tok.NS.C107_one_char",
    "Tok.NS.C107_converse"
   ],
   "note": "Histories as for C08: transformations of a part must not replace more characters than it has."
  },
  {
   "property": "C108",
   "status": "proved",
   "theorems": [
    "Tok.Tokenizer.C108_text",
    "Tok.Tokenizer.C108_lossless",
    "Tok.Tokenizer.C108_normalized",
    "Tok.Tokenizer.C108_whole",
    "Tok.Save.C108_llama3",
    "Tok.Save.C108_qwen",
    "Tok.Bpe.C108_letters"
   ],
   "note": "Added tokens do not strip; contents are ASCII or have a character that is not one of the 256 (as in C44); skipping needs special tokens that are not in the vocabulary of the model. The file forms are those published as far as remembered."
  },
  {
   "property": "C109",
   "status": "proved",
   "theorems": [
    "Tok.Tokenizer.C109_pad",
    "Tok.Tokenizer.C109_loud",
    "Tok.Tokenizer.C109_encode",
    "Tok.Tokenizer.C109_batch",
    "Tok.Tokenizer.C109_round",
    "Tok.Tokenizer.C109_default_loud"
   ],
   "note": "Silent: every text the id is shown as is a special token's."
  },
  {
   "property": "C11",
   "status": "proved",
   "theorems": [
    "Tok.NS.C11_partition",
    "Tok.NS.C11_split",
    "Tok.NS.C11_split_covers",
    "Tok.NS.C11_contiguous_alternates",
    "Tok.NS.C11_empty_pattern_panics"
   ],
   "note": "For every pattern result that meets the cover contract (C12); the empty &str pattern does not (C11_empty_pattern_panics)."
  },
  {
   "property": "C110",
   "status": "proved",
   "theorems": [
    "Tok.Tokenizer.C110_pair",
    "Tok.Tokenizer.C110_tokens",
    "Tok.Tokenizer.C110_text",
    "Tok.Tokenizer.C110_lossless",
    "Tok.Save.C111_llama3"
   ],
   "note": "Special: ids of added tokens marked special. C110_text has the conditions of C108."
  },
  {
   "property": "C111",
   "status": "proved",
   "theorems": [
    "Tok.Tokenizer.C111_one",
    "Tok.Tokenizer.C111_second",
    "Tok.Tokenizer.C111_pair",
    "Tok.Tokenizer.C111_text",
    "Tok.Tokenizer.C111_lossless",
    "Tok.fromUtf8Lossy_front",
    "Tok.fromUtf8Lossy_back",
    "Tok.Save.C111_llama3"
   ],
   "note": "The pair theorem excludes the case of C38 in which the early exit changes what LongestFirst keeps (odd room, both inputs at the limit). WellCounted: the post-processor reports as many special tokens as it adds."
  },
  {
   "property": "C112",
   "status": "partial",
   "theorems": [
    "Tok.Tokenizer.C112_windows_partial",
    "Tok.Tokenizer.C112_all",
    "Tok.Tokenizer.C112_lost"
   ],
   "note": "The full claim is violated by the code for texts with more ids than max_length (C112_lost): the windows then cover only a beginning (end) of the ids, at least max_length of them, ending with a piece. Everything else in the claim is proved; C112_all is the claim for texts within the limit."
  },
  {
   "property": "C113",
   "status": "partial",
   "theorems": [
    "Tok.AddedVocab.C113_extract",
    "Tok.Tokenizer.C113_invisible",
    "Tok.Bpe.C113_can_give",
    "Tok.Tokenizer.C113_text",
    "Tok.Save.C113_llama3",
    "Tok.Tokenizer.C113_word_level",
    "Tok.Tokenizer.C113_unigram",
    "Tok.Tokenizer.C113_hidden"
   ],
   "note": "The general claim is violated by the code: models that have the special tokens in their vocabulary give their ids (C113_word_level, C113_unigram), and a skipped special token hides overlapping tokens (C113_hidden). Everything else in the claim is proved, for all texts."
  },
  {
   "property": "C114",
   "status": "partial",
   "theorems": [
    "Tok.AddedVocab.C114_extract",
    "Tok.Tokenizer.C114_encode",
    "Tok.Save.C114_loaded",
    "Tok.AddedVocab.C114_decode",
    "Tok.AddedVocab.C114_added_again",
    "Tok.AddedVocab.C114_old_token_skipped"
   ],
   "note": "Everything about encoding is proved, and decoding without skipping. The claim about decoding is violated by the code when special tokens are skipped (C114_old_token_skipped)."
  },
  {
   "property": "C115",
   "status": "proved",
   "theorems": [
    "Tok.Train.C115_prefix",
    "Tok.Train.C115_tokens",
    "Tok.Train.Coarser.length_le",
    "Tok.Train.C115_wordpiece",
    "Tok.Train.C115_wordlevel",
    "Tok.Train.C115_wordpiece_more",
    "Tok.Train.C115_wordlevel_shift",
    "Tok.Bpe.C115_merge_lists"
   ],
   "note": "The last two are findings outside the claim: the claim about tokens fails for WordPiece, and the one about ids for WordLevel if a special token is a word."
  },
  {
   "property": "C116",
   "status": "proved",
   "theorems": [
    "Tok.WordLevel.C116_ids",
    "Tok.WordPiece.C116_ids",
    "Tok.Bpe.C116_tokenize",
    "Tok.Bpe.C116_bpe",
    "Tok.Bpe.C116_same_id",
    "Tok.Unigram.C116_unigram",
    "Tok.Unigram.C116_unigram_twice"
   ],
   "note": "Unigram scores are rationals (as in C23); its unoptimized encoding is not used by tokenize. Bpe.C116_same_id and Unigram.C116_unigram_twice show that the hypotheses are needed."
  },
  {
   "property": "C117",
   "status": "proved",
   "theorems": [
    "Tok.Post.C117_postProcess",
    "Tok.Tokenizer.C117_encode",
    "Tok.Tokenizer.C117_encodeBatch",
    "Tok.Tokenizer.C117_decode",
    "Tok.Save.C117_conf"
   ],
   "note": "Save.C117_conf shows that settings of every kind meet the hypotheses of the others; for Unigram no piece may be listed twice (C116). Regular expressions, character tables and the outcomes of dropout are the same for both tokenizers."
  },
  {
   "property": "C118",
   "status": "proved",
   "theorems": [
    "Tok.Tokenizer.C118_parallel",
    "Tok.Tokenizer.C118_batch",
    "Tok.Tokenizer.C118_uneven"
   ],
   "note": "C118_uneven shows that the condition on templates is needed for loaded ones. Only the direct overflowing parts are spoken of, as in the API."
  },
  {
   "property": "C119",
   "status": "proved",
   "theorems": [
    "Tok.Tokenizer.C119_char",
    "Tok.Tokenizer.C119_trim",
    "Tok.Tokenizer.C119_batch"
   ],
   "note": "C119_trim shows that the condition on the post-processors is needed."
  },
  {
   "property": "C12",
   "status": "proved",
   "theorems": [
    "Tok.NS.C12_predicate",
    "Tok.NS.C12_char",
    "Tok.NS.C12_predicate_covers",
    "Tok.NS.C12_regex",
    "Tok.NS.C12_string",
    "Tok.NS.C12_invert",
    "Tok.NS.C12_invert_covers",
    "Tok.NS.C12_empty_string_pattern_does_not_cover",
    "Tok.NS.C12_empty_string_pattern_ascii"
   ],
   "note": "Regex and string patterns given ordered non-overlapping engine matches; the empty &str pattern violates the contract on non-ASCII text (negation proved)."
  },
  {
   "property": "C120",
   "status": "proved",
   "theorems": [
    "Tok.Save.C120_roberta",
    "Tok.Save.robertaFile_sample",
    "Tok.Save.C120_mask"
   ],
   "note": "C120_mask shows that the condition on the texts is needed."
  },
  {
   "property": "C121",
   "status": "partial",
   "theorems": [
    "Tok.Post.C121_chain_partial",
    "Tok.Post.C121_unmarked"
   ],
   "note": "Order and number of the inserted tokens are as claimed; mask and range are not from two processors on (C121_unmarked)."
  },
  {
   "property": "C122",
   "status": "partial",
   "theorems": [
    "Tok.Encoding.C122_right_partial",
    "Tok.Encoding.C122_left_partial",
    "Tok.Encoding.C122_lost"
   ],
   "note": "The tokens of the main part are the same; the overflowing parts never are (C122_lost)."
  },
  {
   "property": "C13",
   "status": "partial",
   "theorems": [
    "Tok.PTS.C13_split_in_place",
    "Tok.PTS.C13_split_text",
    "Tok.PTS.C13_normalize",
    "Tok.PTS.C13_tokenize",
    "Tok.PTS.C13_get_splits_normalized",
    "Tok.PTS.C13_original_offsets",
    "Tok.PTS.C13_get_splits_original",
    "Tok.PTS.C13_token_offsets",
    "Tok.PTS.C13_into_encoding",
    "Tok.PTS.C13_into_encoding_error",
    "Tok.PTS.C13_of_slice"
   ],
   "note": "Offsets in the original are proved for pre-tokenized strings made from a text or from a text that was edited. For one made from a slice of a normalized string the claim is violated by the code (C13_of_slice)."
  },
  {
   "property": "C14",
   "status": "partial",
   "theorems": [
    "Tok.PTS.C14_convert",
    "Tok.PTS.C14_empty_range_at_end",
    "Tok.C14_bytes_to_char",
    "Tok.C14_char_to_bytes",
    "Tok.C14_roundtrip",
    "Tok.C14_get_range_of"
   ],
   "note": "Proved for every pair of boundary offsets except an empty range at the very end of the text, for which the code returns None (C14_empty_range_at_end) and callers keep the byte offsets."
  },
  {
   "property": "C15",
   "status": "proved",
   "theorems": [
    "Tok.Bpe.C15_merge_all_is_textbook",
    "Tok.Bpe.C15_textbook_unique",
    "Tok.Bpe.C15_tokenize_textbook"
   ],
   "note": "merge tables with additive positive sizes, as the builder produces (C20)"
  },
  {
   "property": "C16",
   "status": "proved",
   "theorems": [
    "Tok.Bpe.C16_offsets_tile",
    "Tok.Bpe.C16_symbols_are_groups",
    "Tok.Bpe.C16_tokenize_tiles",
    "Tok.Bpe.C16_values_are_text"
   ],
   "note": ""
  },
  {
   "property": "C17",
   "status": "proved",
   "theorems": [
    "Tok.Bpe.C17_dropout_legal",
    "Tok.Bpe.C17_dropout_all",
    "Tok.Bpe.C17_dropout_none"
   ],
   "note": ""
  },
  {
   "property": "C18",
   "status": "partial",
   "theorems": [
    "Tok.Bpe.C18_initial_symbols_partial",
    "Tok.Bpe.C18_no_fallback",
    "Tok.Bpe.C18_full_fallback",
    "Tok.Bpe.C18_spec_unique",
    "Tok.Bpe.C18_error_iff",
    "Tok.Bpe.C18_total_length",
    "Tok.Bpe.C18_bytes_out_of_order",
    "Tok.Bpe.C18_dropped_without_unk",
    "Tok.Bpe.C18_exact",
    "Tok.Bpe.C18_no_unk",
    "Tok.Bpe.C18_late_unique",
    "Tok.Bpe.C18_late_perm",
    "Tok.Bpe.C18_late_same"
   ],
   "note": "The claim as written is false of the code: with byte fallback and a vocabulary that has the byte tokens of only some characters, a pending unknown run is emitted after the bytes (C18_bytes_out_of_order). Proved whenever the two kinds are not mixed that way, and without an unknown token for every word (C18_no_unk); C18_exact says for every word what the symbols are: those of the word with its unknown characters moved behind the bytes."
  },
  {
   "property": "C19",
   "status": "proved",
   "theorems": [
    "Tok.Bpe.C19_bpe_cache_transparent",
    "Tok.SharedCache.C19_unigram_cache_transparent"
   ],
   "note": "BPE thread-local caches and the Unigram shared cache, any interleaving and lock outcomes; model fields unchanged between calls (see DESIGN findings)."
  },
  {
   "property": "C20",
   "status": "proved",
   "theorems": [
    "Tok.Bpe.C20_build_ok_iff",
    "Tok.Bpe.C20_build_get",
    "Tok.Bpe.C20_build_coherent",
    "Tok.Bpe.C20_missing_concatenation_panics"
   ],
   "note": ""
  },
  {
   "property": "C21",
   "status": "proved",
   "theorems": [
    "Tok.WordPiece.C21_greedy_unique",
    "Tok.WordPiece.C21_tokenize",
    "Tok.WordPiece.C21_greedy_tiles"
   ],
   "note": ""
  },
  {
   "property": "C22",
   "status": "proved",
   "theorems": [
    "Tok.WordLevel.C22_tokenize",
    "Tok.WordLevel.C22_error"
   ],
   "note": ""
  },
  {
   "property": "C23",
   "status": "proved",
   "theorems": [
    "Tok.Unigram.C23_optimal",
    "Tok.Unigram.C23_total",
    "Tok.Unigram.C23_never_panics",
    "Tok.Unigram.C23_concat",
    "Tok.Unigram.C23_built",
    "Tok.Unigram.C23_missing_unk_id_although_segmentable"
   ],
   "note": ""
  },
  {
   "property": "C24",
   "status": "partial",
   "theorems": [
    "Tok.Unigram.C24_agree_partial",
    "Tok.Unigram.C24_differ_without_unk_id",
    "Tok.Unigram.C75_lattice",
    "Tok.Unigram.C75_differ",
    "Tok.Unigram.C75_exact_agree",
    "Tok.Unigram.C24_no_unk",
    "Tok.Unigram.C24_no_unk_differ"
   ],
   "note": "Same pieces for exact sums and models with an unknown id, and in f64 for sentences on which no total needs rounding (C75_exact_agree). In general both have the best rounded score in f64 (C75) but may return different pieces: C75_differ is a witness, so the claim as stated does not hold of the code. Without an unknown id they differ too. In fact the lattice encoder then gives no piece at all (C24_no_unk)."
  },
  {
   "property": "C25",
   "status": "proved",
   "theorems": [
    "Tok.Trie.C25_exactly",
    "Tok.Trie.C25_order"
   ],
   "note": ""
  },
  {
   "property": "C26",
   "status": "proved",
   "theorems": [
    "Tok.AddedVocab.C26_inverse",
    "Tok.AddedVocab.C26_lookup",
    "Tok.AddedVocab.C26_distinct",
    "Tok.AddedVocab.C26_model",
    "Tok.AddedVocab.C26_stable",
    "Tok.AddedVocab.C26_ignored",
    "Tok.AddedVocab.C26_new_id",
    "Tok.AddedVocab.C26_no_holes",
    "Tok.AddedVocab.C26_sparse_ids_collide",
    "Tok.AddedVocab.C26_error_midway"
   ],
   "note": "For every history of add_tokens/add_special_tokens, refresh_normalized_tokens and set_encode_special_tokens, failing calls included; model ids 0..n-1 as in the statement."
  },
  {
   "property": "C27",
   "status": "partial",
   "theorems": [
    "Tok.AddedVocab.C27_find_partial",
    "Tok.AddedVocab.C27_tagged_partial",
    "Tok.AddedVocab.C27_split_partial",
    "Tok.AddedVocab.C27_extract_partial",
    "Tok.AddedVocab.C27_extract_text_partial",
    "Tok.AddedVocab.C27_patterns",
    "Tok.AddedVocab.C27_patterns_renormalized",
    "Tok.AddedVocab.C27_overlap",
    "Tok.AddedVocab.C27_inverted"
   ],
   "note": "False in the code when a token with rstrip is followed by a token beginning with whitespace (overlapping or inverted pieces, proved); proved for all other token sets. The automaton is modelled by the leftmost-longest search it documents."
  },
  {
   "property": "C28",
   "status": "partial",
   "theorems": [
    "Tok.AddedVocab.C28_all",
    "Tok.AddedVocab.C28_skip_partial",
    "Tok.AddedVocab.C28_history_partial",
    "Tok.AddedVocab.C28_exact",
    "Tok.AddedVocab.C28_form_not_skipped",
    "Tok.AddedVocab.C28_flag_not_cleared",
    "Tok.AddedVocab.C28_stale_form"
   ],
   "note": "False in the code for special tokens with a different normalized form and for tokens re-added with other properties (proved); proved when every content keeps its properties, special tokens are not normalized and no normalized form is a special token. C28_exact says for every history exactly which tokens are skipped."
  },
  {
   "property": "C29",
   "status": "proved",
   "theorems": [
    "Tok.ByteLevel.C29_alphabet",
    "Tok.ByteLevel.C29_defined",
    "Tok.ByteLevel.C29_inverse",
    "Tok.ByteLevel.C29_inverse'",
    "Tok.ByteLevel.C29_distinct",
    "Tok.ByteLevel.C29_roundtrip",
    "Tok.ByteLevel.C29_foreign",
    "Tok.ByteLevel.C29_pretokenize",
    "Tok.ByteLevel.C29_lossless"
   ],
   "note": ""
  },
  {
   "property": "C30",
   "status": "proved",
   "theorems": [
    "Tok.Dec.C30_byte_fallback",
    "Tok.Dec.C30_text",
    "Tok.Dec.C30_plus_sign_accepted"
   ],
   "note": "Byte tokens include <0x+A> (u8::from_str_radix accepts a sign; C30_plus_sign_accepted)."
  },
  {
   "property": "C31",
   "status": "partial",
   "theorems": [
    "Tok.Metaspace.C31_pretokenize",
    "Tok.Metaspace.C31_roundtrip_split",
    "Tok.Metaspace.C31_roundtrip_partial",
    "Tok.Metaspace.C31_exact",
    "Tok.Metaspace.C31_first_token_loses_spaces"
   ],
   "note": "Full with split; without split the first token must contain no second replacement character, otherwise the decoder loses spaces (proved as a negation). C31_exact: what decoding gives for every segmentation, and that the condition is necessary."
  },
  {
   "property": "C32",
   "status": "proved",
   "theorems": [
    "Tok.Dec.C32_decode",
    "Tok.Dec.C32_tokenize"
   ],
   "note": ""
  },
  {
   "property": "C33",
   "status": "partial",
   "theorems": [
    "Tok.Dec.Decoder.C33_defined_partial",
    "Tok.Dec.Decoder.C33_sequence_defined",
    "Tok.Dec.Decoder.C33_sequence",
    "Tok.Dec.C33_fuse",
    "Tok.Dec.C33_bpe_defined",
    "Tok.Dec.C33_bpe",
    "Tok.Dec.C33_bpe_empty_panics",
    "Tok.Dec.C33_strip_one",
    "Tok.Dec.C33_strip_defined",
    "Tok.Dec.C33_strip_panics",
    "Tok.Dec.C33_ctc",
    "Tok.Dec.C33_replace",
    "Tok.Dec.C33_cleanup"
   ],
   "note": "The code does panic: BPE decoder on an empty list with overflow checks, Strip with stop > 0 on short tokens; both characterised exactly."
  },
  {
   "property": "C34",
   "status": "proved",
   "theorems": [
    "Tok.Stream.C34_stream",
    "Tok.Stream.C34_decoders",
    "Tok.Stream.C34_byte_fallback_fails"
   ],
   "note": "Prefix-stability proved for byte-level, Metaspace, WordPiece, Fuse decoders and for no decoder; byte fallback is not prefix-stable."
  },
  {
   "property": "C35",
   "status": "proved",
   "theorems": [
    "Tok.Post.C35_template",
    "Tok.Post.C35_count",
    "Tok.Post.C35_built",
    "Tok.Post.C35_added",
    "Tok.Post.C35_place",
    "Tok.Post.C35_defined",
    "Tok.Post.C35_stale_count",
    "Tok.Post.C35_single_with_B",
    "Tok.Post.C35_overflow_type_ids",
    "Tok.Post.C35_unchecked_special",
    "Tok.Post.C35_default_drops_pair",
    "Tok.Post.C35_setters"
   ],
   "note": "For every template accepted by the builder or read from JSON with checked special tokens; the counts are wrong after set_single/set_pair (C35_stale_count)."
  },
  {
   "property": "C36",
   "status": "proved",
   "theorems": [
    "Tok.Post.C36_bert",
    "Tok.Post.C36_bert_off",
    "Tok.Post.C36_roberta",
    "Tok.Post.C36_roberta_off"
   ],
   "note": "Single and paired, special tokens on and off, main and overflowing parts."
  },
  {
   "property": "C37",
   "status": "proved",
   "theorems": [
    "Tok.Post.C37_length",
    "Tok.Post.C37_untruncated",
    "Tok.Post.C37_fails_iff",
    "Tok.Post.C37_padded",
    "Tok.Post.C37_overflow",
    "Tok.Post.C37_stride_equal",
    "Tok.Post.C37_underflow",
    "Tok.Post.C37_zero_room_overflow"
   ],
   "note": "Findings: with_truncation accepts a stride that panics, and limits below the number of special tokens of a pair."
  },
  {
   "property": "C38",
   "status": "proved",
   "theorems": [
    "Tok.PTS.C38_right",
    "Tok.PTS.C38_left",
    "Tok.PTS.C38_truncated",
    "Tok.Tokenizer.C38_encode",
    "Tok.PTS.C38_left_words_differ",
    "Tok.PTS.C38_overflow_lost",
    "Tok.Tokenizer.C38_odd_room"
   ],
   "note": "At the level of tokenize_with_limit/into_encoding/truncate, and composed through encode (added vocabulary, pre-tokenizer, model, truncation, post-processor, padding) for single and paired inputs, raw or word lists. Findings: word ids differ when the cut is on the left, overflowing parts beyond the limit are lost, and with LongestFirst and an odd number of places the place left over may go to the other input."
  },
  {
   "property": "C39",
   "status": "proved",
   "theorems": [
    "Tok.Save.C39_vocab",
    "Tok.Save.C39_sort_determined",
    "Tok.Save.C39_bpe",
    "Tok.Save.C39_bpe_files",
    "Tok.Save.C39_wordpiece",
    "Tok.Save.C39_wordlevel",
    "Tok.Save.C39_unigram",
    "Tok.Save.C39_wordpiece_file",
    "Tok.Save.C39_merges_file",
    "Tok.Save.C39_added",
    "Tok.Save.C39_added_loads",
    "Tok.Save.C39_shared_id_lost",
    "Tok.Save.C39_wordpiece_file_fails",
    "Tok.Save.C39_merges_file_fails",
    "Tok.Save.C39_ids_recomputed",
    "Tok.Save.C39_encode_special_lost"
   ],
   "note": "The JSON text itself is abstracted: an object is the list of its entries. The same-tokenization part of C39_bpe also covers dropout. Findings are the theorems from C39_shared_id_lost on."
  },
  {
   "property": "C40",
   "status": "proved",
   "theorems": [
    "Tok.Train.C40_order",
    "Tok.Train.C40_vocab",
    "Tok.Train.C40_special_in_corpus"
   ],
   "note": "C40_vocab assumes that the special tokens are distinct and not words of the corpus; C40_special_in_corpus shows what happens otherwise (the id of the special token is lost)."
  },
  {
   "property": "C41",
   "status": "proved",
   "theorems": [
    "Tok.Train.C41_textbook",
    "Tok.Train.C41_counts",
    "Tok.Train.C41_vocab",
    "Tok.Train.C41_size",
    "Tok.Train.C41_built",
    "Tok.Train.C41_retokenize",
    "Tok.Train.C41_merges_in_order",
    "Tok.Train.C41_order",
    "Tok.Train.C41_alphabet",
    "Tok.Train.C41_first_tokens",
    "Tok.Train.C41_all_kept",
    "Tok.Train.C41_max_length",
    "Tok.Train.C41_prefix_in_text",
    "Tok.Train.C41_order_suffix",
    "Tok.Train.C41_limit_ties",
    "Tok.Train.C41_max_length_exempt",
    "Tok.Train.C41_size_suffix"
   ],
   "note": "Textbook training, counts and re-tokenization assume Separated (no word contains the first character of the prefix or the last of the suffix; nothing without prefix and suffix); C41_prefix_in_text shows that re-tokenization fails otherwise. Pair counts are integers: i32 overflow is outside the model."
  },
  {
   "property": "C42",
   "status": "proved",
   "theorems": [
    "Tok.Train.C42_counts",
    "Tok.Train.C42_error",
    "Tok.Train.C42_schedule"
   ],
   "note": "For every reduction tree (any shape, any order of the inputs): the counts are the total numbers of occurrences; some error is returned exactly if some sequence fails; any two schedules agree. u64 overflow of the counts is outside the model."
  },
  {
   "property": "C43",
   "status": "proved",
   "theorems": [
    "Tok.Tokenizer.C43_batch",
    "Tok.Tokenizer.C43_schedule",
    "Tok.Tokenizer.C43_padded_once",
    "Tok.Tokenizer.C43_decode_batch"
   ],
   "note": "The schedule is an arbitrary order of the tasks."
  },
  {
   "property": "C44",
   "status": "proved",
   "theorems": [
    "Tok.Tokenizer.C44_lossless",
    "Tok.Tokenizer.C44_surrounded",
    "Tok.Tokenizer.C44_prefix_space",
    "Tok.Tokenizer.C44_added_latin1",
    "Tok.Tokenizer.C44_added_strip",
    "Tok.Tokenizer.C44_injective"
   ],
   "note": "For every byte-level BPE tokenizer without prefix space whose vocabulary has all byte characters, with any added tokens that do not strip spaces and consist of characters the byte-level decoder takes for themselves; no truncation, padding or special tokens. C44_surrounded: also with special tokens around the text and with prefix space, for texts that contain no added token. Findings: with other added tokens the text can be lost."
  },
  {
   "property": "C45",
   "status": "partial",
   "theorems": [
    "Tok.SharedCache.C45_never_panics",
    "Tok.SharedCache.C45_get_faithful",
    "Tok.SharedCache.C45_get_values",
    "Tok.SharedCache.C45_bounded_partial",
    "Tok.SharedCache.C45_bounded_without_resize",
    "Tok.SharedCache.C45_resize_keeps_entries",
    "Tok.SharedCache.C45_unigram_long_keys_never_stored",
    "Tok.Bpe.C45_bpe_cache_bounded"
   ],
   "note": "Missing: after resize to a smaller capacity the entries stay, so the bound is the largest capacity ever given (negation proved)."
  },
  {
   "property": "C46",
   "status": "proved",
   "theorems": [
    "Tok.Tokenizer.C46_listing",
    "Tok.Tokenizer.C46_size",
    "Tok.Tokenizer.C46_models",
    "Tok.Tokenizer.C46_unigram",
    "Tok.Tokenizer.C46_id_to_token",
    "Tok.Tokenizer.C46_unigram_repeated",
    "Tok.Tokenizer.C46_id_to_token_normalized",
    "Tok.Bpe.C46_bpe_vocab_inverse",
    "Tok.Save.C46_loaded"
   ],
   "note": "C46_models/C46_unigram: the assumption on the model holds for BPE, WordPiece, WordLevel, and for Unigram without repeated pieces. Findings: a repeated Unigram piece is counted twice; id_to_token gives the normalized form of an added token."
  },
  {
   "property": "C47",
   "status": "proved",
   "theorems": [
    "Tok.Unigram.C47_nbest",
    "Tok.Unigram.C47_first",
    "Tok.Unigram.C47_terminates",
    "Tok.Unigram.C47_model"
   ],
   "note": "For lattices in which a node starts at and ends at every character boundary (what populate_nodes builds for models with an unknown id). For n > 512 the optimality clause is about the first 512 paths (the agenda is cut to 512 hypotheses when it exceeds 100000)."
  },
  {
   "property": "C48",
   "status": "proved",
   "theorems": [
    "Tok.Tokenizer.C48_fast",
    "Tok.PTS.C48_fast_ids",
    "Tok.Tokenizer.C48_type_ids_lost"
   ],
   "note": "For every configuration and input, overflowing parts included."
  },
  {
   "property": "C49",
   "status": "proved",
   "theorems": [
    "Tok.Unigram.C49_tokenize",
    "Tok.Unigram.C49_total",
    "Tok.Unigram.C49_spells"
   ],
   "note": ""
  },
  {
   "property": "C50",
   "status": "proved",
   "theorems": [
    "Tok.ByteLevel.C50_trim",
    "Tok.ByteLevel.C50_inside",
    "Tok.ByteLevel.C50_unchanged",
    "Tok.ByteLevel.C50_process",
    "Tok.ByteLevel.C50_batch"
   ],
   "note": ""
  },
  {
   "property": "C51",
   "status": "proved",
   "theorems": [
    "Tok.Post.C51_roundtrip",
    "Tok.Post.C51_short_forms",
    "Tok.Post.C51_rejects",
    "Tok.Post.C51_empty"
   ],
   "note": ""
  },
  {
   "property": "C52",
   "status": "proved",
   "theorems": [
    "Tok.Post.C52_single",
    "Tok.Post.C52_pair"
   ],
   "note": ""
  },
  {
   "property": "C54",
   "status": "partial",
   "theorems": [
    "Tok.Post.C54_counts_partial",
    "Tok.Post.C54_exact",
    "Tok.Post.C54_report_right_iff",
    "Tok.Post.C54_template_then_bert",
    "Tok.Post.C54_two_templates",
    "Tok.Post.C35_stale_count"
   ],
   "note": "False in the code for a template followed by Bert/Roberta or another template in a sequence, and after set_single/set_pair (proved); proved for all other processors. C54_exact: what every nesting inserts and when it panics, for templates that use each input once; C54_report_right_iff: the report is right exactly then."
  },
  {
   "property": "C55",
   "status": "proved",
   "theorems": [
    "Tok.Tokenizer.C55_words",
    "Tok.Tokenizer.C55_sequence"
   ],
   "note": ""
  },
  {
   "property": "C56",
   "status": "proved",
   "theorems": [
    "Tok.Normalizer.C56_normalizer",
    "Tok.Normalizer.C56_all",
    "Tok.Normalizer.C56_sources",
    "Tok.Normalizer.C56_sources_all",
    "Tok.Normalizer.C56_strip_sources",
    "Tok.Normalizer.C56_precompiled_removal_at_start",
    "Tok.Normalizer.C56_chinese_gap",
    "Tok.Normalizer.C56_prepend_empty_panics"
   ],
   "note": "Assumes Unicode.Ok of the external tables and Safe settings (non-empty prefix; regular expression with no empty match at the start); C56_prepend_empty_panics shows why. Sources are claimed for the normalizers in the domain of `image` (and Strip), not for normal forms, Replace and Precompiled; C56_precompiled_removal_at_start is the counterexample for the last."
  },
  {
   "property": "C57",
   "status": "proved",
   "theorems": [
    "Tok.PreTokenizer.C57_pretokenize",
    "Tok.PreTokenizer.C57_sequence",
    "Tok.PreTokenizer.C57_text",
    "Tok.PreTokenizer.C57_words",
    "Tok.PreTokenizer.C57_whitespace",
    "Tok.PreTokenizer.C57_fixed",
    "Tok.PreTokenizer.C57_scripts",
    "Tok.PreTokenizer.C57_keeps",
    "Tok.PreTokenizer.C57_scripts_lose",
    "Tok.PreTokenizer.C57_fixed_zero"
   ],
   "note": "Assumes that regular expressions report matches in order and that a fixed length is positive (C57_fixed_zero shows why). In a sequence only the first pre-tokenizer may be a Metaspace with scheme `first`."
  },
  {
   "property": "C58",
   "status": "proved",
   "theorems": [
    "Tok.Tokenizer.C58_encode",
    "Tok.Tokenizer.C58_no_added",
    "Tok.Tokenizer.C58_bert",
    "Tok.AddedVocab.C58_carved_unique",
    "Tok.Tokenizer.C58_strip_first"
   ],
   "note": "Assumes Unicode.Ok, safe normalizer and sound pre-tokenizer settings, added tokens without lstrip/rstrip/single_word, no Metaspace of scheme first (C58_strip_first shows why). Offsets are not part of this statement (see C13, C14, C27)."
  },
  {
   "property": "C59",
   "status": "proved",
   "theorems": [
    "Tok.Tokenizer.C59_text",
    "Tok.Tokenizer.C59_offsets",
    "Tok.Tokenizer.C59_encode",
    "Tok.Tokenizer.C59_inside",
    "Tok.Tokenizer.C59_exact",
    "Tok.WordLevel.inWord",
    "Tok.WordPiece.inWord",
    "Tok.Bpe.inWord",
    "Tok.Unigram.inWord",
    "Tok.WordLevel.reads",
    "Tok.WordPiece.reads",
    "Tok.Unigram.reads",
    "Tok.Bpe.reads",
    "Tok.Bpe.C59_bpe"
   ],
   "note": "Assumes Unicode.Ok, safe normalizer and sound pre-tokenizer settings, added tokens that do not get in each other's way (Neat, as in C27), offsets requested (not encode_fast), and of BPE no prefix or suffix together with byte fallback. The exact-text part is instantiated for WordLevel, WordPiece and Unigram without byte fallback. For BPE without prefix, suffix and byte fallback the exact text is in Bpe.C59_bpe."
  },
  {
   "property": "C60",
   "status": "proved",
   "theorems": [
    "Tok.Unigram.C60_marginal",
    "Tok.Unigram.C60_sentence",
    "Tok.Unigram.C60_estep",
    "Tok.Unigram.C60_unk_text_breaks"
   ],
   "note": "Over real numbers. Assumes the text of the unknown token does not occur in the sentence; C60_unk_text_breaks shows the claim is false otherwise."
  },
  {
   "property": "C61",
   "status": "proved",
   "theorems": [
    "Tok.Train.C61_model",
    "Tok.Train.C61_covers",
    "Tok.Train.C61_corpus",
    "Tok.Train.C61_seeds",
    "Tok.Train.C61_mstep",
    "Tok.Train.C61_best",
    "Tok.Train.C61_alternatives",
    "Tok.Train.C61_prune",
    "Tok.Train.C61_prune_size",
    "Tok.Train.C61_rounds",
    "Tok.Train.C61_loop",
    "Tok.Train.C61_scores",
    "Tok.Train.C61_overfull",
    "Tok.Train.C61_better_left_out",
    "Tok.Train.C61_size_exceeded",
    "Tok.Train.C61_order_dependent",
    "Tok.Train.C61_special_twice",
    "Tok.Train.C61_no_byte_fallback",
    "Tok.Train.C61_loss",
    "Tok.Train.C61_never_returns",
    "Tok.Train.C61_hangs"
   ],
   "note": "Partial correctness: training may never return (C61_never_returns). Numbers of E and M steps, suffix array and queue are arbitrary. Excluded from coverage: texts containing the text of the unknown token."
  },
  {
   "property": "C62",
   "status": "proved",
   "theorems": [
    "Tok.Train.C62_vocab",
    "Tok.Train.C62_covers",
    "Tok.Train.C62_corpus",
    "Tok.Train.C62_no_prefix",
    "Tok.Train.C62_suffix",
    "Tok.Train.C62_limit"
   ],
   "note": "Words of at most max_input_chars_per_word characters. The remaining settings are shown not to have the property."
  },
  {
   "property": "C63",
   "status": "proved",
   "theorems": [
    "Tok.Tokenizer.C63_trained",
    "Tok.Tokenizer.C63_same_pieces",
    "Tok.Tokenizer.C63_lines",
    "Tok.Tokenizer.C63_files",
    "Tok.Tokenizer.C63_read_error",
    "Tok.Tokenizer.C63_error_keeps",
    "Tok.Tokenizer.C63_kinds",
    "Tok.Tokenizer.C63_wordLevel",
    "Tok.Tokenizer.C63_wordPiece",
    "Tok.Tokenizer.C63_unigram",
    "Tok.Tokenizer.C63_bpe",
    "Tok.Tokenizer.C63_special_cuts",
    "Tok.Tokenizer.C63_added_fed",
    "Tok.Tokenizer.C63_added_lost",
    "Tok.Tokenizer.C63_ids_collide"
   ],
   "note": "Special tokens are not normalized (the default of the trainers) and do not occur in the sequence; C63_special_cuts shows the claim is false otherwise. Unigram: pieces without the text of the unknown token."
  },
  {
   "property": "C64",
   "status": "proved",
   "theorems": [
    "Tok.Bpe.C64_spells",
    "Tok.Bpe.C64_fallback",
    "Tok.Tokenizer.C64_text",
    "Tok.Tokenizer.C64_lossless",
    "Tok.Tokenizer.C64_mark_lost",
    "Tok.Tokenizer.C64_merged_byte_token",
    "Tok.Tokenizer.C64_no_mark"
   ],
   "note": "Added tokens are not normalized and do not occur in the text; without the conditions on the vocabulary the claim is false (last two theorems)."
  },
  {
   "property": "C65",
   "status": "proved",
   "theorems": [
    "Tok.Save.C65_normalizer",
    "Tok.Save.C65_pre_tokenizer",
    "Tok.Save.C65_decoder",
    "Tok.Save.C65_post_processor",
    "Tok.Save.C65_model",
    "Tok.Save.C65_truncation",
    "Tok.Save.C65_padding",
    "Tok.Save.C65_file",
    "Tok.Save.C65_order",
    "Tok.Save.C65_normalizer_reread",
    "Tok.Save.C65_pre_tokenizer_reread",
    "Tok.Save.C65_decoder_reread",
    "Tok.Save.C65_post_processor_reread",
    "Tok.Save.C65_delimiter_unreadable",
    "Tok.Save.C65_charsmap_panics",
    "Tok.Save.C65_bert_read_as_roberta",
    "Tok.Save.C65_unknown_type",
    "Tok.Save.C65_old_metaspace_refused",
    "Tok.Save.C65_special_token_unchecked",
    "Tok.Save.C65_truncation_unchecked",
    "Tok.Save.C65_dropout_out_of_range",
    "Tok.Save.C65_counts_change",
    "Tok.Save.C65_sampling_lost",
    "Tok.Save.C65_sampling_differs"
   ],
   "note": "On JSON values; printing and parsing JSON text is serde_json's. Numbers are in the range of their Rust types; models come from their builders with different ids for different tokens. The builder of Unigram does not set alpha and nbest_size; set afterwards, they are lost (C65_sampling_lost)."
  },
  {
   "property": "C66",
   "status": "partial",
   "theorems": [
    "Tok.Save.C66_alike_partial",
    "Tok.Save.C66_current",
    "Tok.Save.C66_same_file",
    "Tok.Save.C66_stale_form",
    "Tok.Save.C66_stale_special",
    "Tok.Save.C66_encode_special_lost",
    "Tok.Save.C65_sampling_lost",
    "Tok.Save.C65_sampling_differs"
   ],
   "note": "Histories in which nothing is undone; the three findings show what happens otherwise. encode_special_tokens is false. Template counts are those of the pieces. The assumption about building automata (crate daachorse) is a hypothesis of the theorem. C66_same_file needs no restriction of the history. Partial: encode_special_tokens, alpha and nbest_size are not saved (C66_encode_special_lost, C65_sampling_differs)."
  },
  {
   "property": "C67",
   "status": "proved",
   "theorems": [
    "Tok.Save.C67_gpt2",
    "Tok.Save.C67_gpt2_engine",
    "Tok.Save.C67_llama",
    "Tok.Save.C67_llama_engine",
    "Tok.Save.C67_bert",
    "Tok.Tokenizer.C58_bert_template"
   ],
   "note": "On JSON values; the forms of the published files are written from memory and could not be compared with the files (see DESIGN). The automaton builder of the added vocabulary is assumed to accept exactly lists of different nonempty patterns; the regular expressions are matched as Re.run says (the _engine variants). BERT: added tokens are those of the vocabulary, found in the raw text."
  },
  {
   "property": "C68",
   "status": "proved",
   "theorems": [
    "Tok.Unigram.C68_sample",
    "Tok.Unigram.C68_theta_one",
    "Tok.Unigram.C68_encode",
    "Tok.Unigram.C68_concat",
    "Tok.Unigram.C68_off",
    "Tok.Unigram.C68_nbest",
    "Tok.Unigram.C68_not_by_score",
    "Tok.Unigram.C68_no_unk"
   ],
   "note": "Random choices are lists of outcomes with probabilities; WeightedIndex is assumed to follow its weights. Real numbers instead of f64. For alpha other than 0 and 1 without nbest_size, C68_not_by_score shows that the probabilities do not follow the scores. C68_no_unk shows that the unknown token is needed."
  },
  {
   "property": "C69",
   "status": "proved",
   "theorems": [
    "Tok.Tokenizer.C69_text",
    "Tok.Tokenizer.C69_empty",
    "Tok.Tokenizer.C69_unigram",
    "Tok.Tokenizer.C69_bpe",
    "Tok.Tokenizer.C69_unknown_lost",
    "Tok.Tokenizer.C69_first_after_strip"
   ],
   "note": "For schemes always and never; with first the mark depends on the normalizer (C69_first_after_strip). A character not in the vocabulary is lost (C69_unknown_lost)."
  },
  {
   "property": "C70",
   "status": "proved",
   "theorems": [
    "Tok.Tokenizer.C70_text",
    "Tok.Tokenizer.C70_bert",
    "Tok.Tokenizer.C70_empty",
    "Tok.Save.C70_published",
    "Tok.Save.C70_contraction"
   ],
   "note": "No added token occurs in the text, before or after normalization, and none is looked for in normalized form. The form of the published file is written from memory (see DESIGN)."
  },
  {
   "property": "C71",
   "status": "proved",
   "theorems": [
    "Tok.Re.C71_engine",
    "Tok.Re.C71_matches",
    "Tok.Re.C71_cut",
    "Tok.Re.C71_words",
    "Tok.Re.C71_maximal",
    "Tok.Re.C71_append",
    "Tok.Re.C71_append_false",
    "Tok.Re.C71_whitespace",
    "Tok.Re.C71_added",
    "Tok.Re.C71_literal",
    "Tok.Re.C71_char",
    "Tok.Re.C71_spaces"
   ],
   "note": "That the engines (onig, fancy-regex, regex: not in the repository) have the semantics of Re.run is trusted; the patterns are transcribed as terms, their parsing is not modelled."
  },
  {
   "property": "C72",
   "status": "proved",
   "theorems": [
    "Tok.Tokenizer.C72_apart",
    "Tok.Tokenizer.C72_normalizers",
    "Tok.PreTokenizer.C72_white",
    "Tok.PreTokenizer.C72_delimiter",
    "Tok.PreTokenizer.C72_whitespace",
    "Tok.PreTokenizer.C72_byteLevel",
    "Tok.PreTokenizer.C72_sequence",
    "Tok.Tokenizer.C72_within_word"
   ],
   "note": "No truncation or padding; the ids are compared without special tokens. Within a word it is false (C72_within_word)."
  },
  {
   "property": "C73",
   "status": "proved",
   "theorems": [
    "Tok.Bpe.C73_unique",
    "Tok.Bpe.C73_merge_list",
    "Tok.Bpe.C73_duplicate",
    "Tok.Save.C73_gpt2",
    "Tok.Save.C73_determined",
    "Tok.Save.C73_two_parts"
   ],
   "note": "Without dropout; words with symbols outside the vocabulary are C18. The form of the published file is written from memory (see DESIGN)."
  },
  {
   "property": "C74",
   "status": "proved",
   "theorems": [
    "Tok.Train.C74_exact",
    "Tok.Train.C74_textbook",
    "Tok.Train.C74_lost",
    "Tok.Train.C74_sum",
    "Tok.Train.C74_cut"
   ],
   "note": "As in C41 the parallel reductions run in order and hash maps are visited in list order. Beyond the bound the failures are shown by witnesses."
  },
  {
   "property": "C75",
   "status": "proved",
   "theorems": [
    "Tok.Unigram.C75_optimized",
    "Tok.Unigram.C75_optimized_total",
    "Tok.Unigram.C75_lattice",
    "Tok.Unigram.C75_f64",
    "Tok.Unigram.C75_close",
    "Tok.Unigram.C75_f64_close",
    "Tok.Unigram.C75_differ",
    "Tok.Unigram.C75_concat",
    "Tok.Unigram.C75_exact_optimized",
    "Tok.Unigram.C75_exact_lattice",
    "Tok.Unigram.C75_exact_agree",
    "Tok.Unigram.C75_exact_f64"
   ],
   "note": "Rounding to f64 is modelled without a largest number: infinities and NaN are outside."
  },
  {
   "property": "C76",
   "status": "proved",
   "theorems": [
    "Tok.Scripts.C76_one_arm",
    "Tok.Scripts.C76_order",
    "Tok.Scripts.C76_iff",
    "Tok.Scripts.C76_ascii",
    "Tok.Scripts.C76_japanese",
    "Tok.Scripts.C76_ascii_pieces",
    "Tok.Scripts.C76_lost",
    "Tok.Scripts.C76_vanish"
   ],
   "note": "The table is copied from the source by a script; the text of the source is trusted to be copied faithfully."
  },
  {
   "property": "C77",
   "status": "proved",
   "theorems": [
    "Tok.Stream.C77_simple",
    "Tok.Stream.C77_decoded",
    "Tok.Stream.C77_byteLevel",
    "Tok.Stream.C77_llama",
    "Tok.Save.C77_gpt2",
    "Tok.Save.C77_llama_file",
    "Tok.Stream.stableOn_spells"
   ],
   "note": "Special tokens put around the text are to be skipped; for ids that are not an encoding, byte fallback can fail (C34)."
  },
  {
   "property": "C78",
   "status": "proved",
   "theorems": [
    "Tok.Tokenizer.C78_trained",
    "Tok.Save.C78_saved",
    "Tok.Tokenizer.train_byteBpe",
    "Tok.Tokenizer.C78_needs_alphabet"
   ],
   "note": "The word cache of the model is outside: it outlives training (C19). Special tokens do not strip spaces and are taken for themselves by the decoder, as in C44."
  },
  {
   "property": "C79",
   "status": "proved",
   "theorems": [
    "Tok.Par.C79_used",
    "Tok.Par.C79_set",
    "Tok.Par.C79_env",
    "Tok.Par.C79_chunks_not_noted"
   ],
   "note": "Sequentially consistent atomics, as in the code (SeqCst). An environment variable that is not Unicode counts as missing."
  },
  {
   "property": "C80",
   "status": "partial",
   "theorems": [
    "Tok.Py.C80_slice_exact",
    "Tok.Py.C80_single_exact",
    "Tok.Py.C80_disordered_exact",
    "Tok.Py.C80_backwards_exact",
    "Tok.Py.C80_ascii_partial",
    "Tok.Py.C80_ascii_single_partial",
    "Tok.Py.C80_nonneg_partial",
    "Tok.Py.C80_pair_partial",
    "Tok.Py.C80_not_bytes",
    "Tok.Py.C80_reversed",
    "Tok.Py.C80_step",
    "Tok.Py.C80_node"
   ],
   "note": "The code violates the claim for negative indices in texts with longer characters, for bounds out of order and for steps (proved). What slices with bounds in order and out of order and indices give is proved exactly; they agree with Python for texts of one byte per character and for bounds that are not negative. C80_node: proved as claimed for Node."
  },
  {
   "property": "C81",
   "status": "proved",
   "theorems": [
    "Tok.Py.C81_no_use_after_end",
    "Tok.Py.C81_exclusive",
    "Tok.Py.C81_refused_only_after",
    "Tok.Py.C81_nested_use_hangs"
   ],
   "note": "All interleavings of any number of threads over a sequentially consistent lock. Finding: nested use waits for ever."
  },
  {
   "property": "C82",
   "status": "proved",
   "theorems": [
    "Tok.Py.C82_buffered",
    "Tok.Py.C82_train",
    "Tok.Py.C82_error_overtakes",
    "Tok.Py.C82_train_error",
    "Tok.Py.C82_size_zero"
   ],
   "note": "Findings: an exception overtakes the values before it, and the tokenizer is trained although the exception is reported."
  },
  {
   "property": "C83",
   "status": "partial",
   "theorems": [
    "Tok.Py.C83_text",
    "Tok.Py.C83_words",
    "Tok.Py.C83_async_inputs_partial",
    "Tok.Py.C83_async_batch_partial",
    "Tok.Py.C83_async_encode_partial",
    "Tok.Py.C83_numpy_never_right",
    "Tok.Py.C83_numpy_words",
    "Tok.Py.C83_numpy_ascii",
    "Tok.Py.C83_numpy_cleaned",
    "Tok.Py.C83_two_words",
    "Tok.Py.C83_array_pair",
    "Tok.Py.C83_async_offsets"
   ],
   "note": "The code violates the claim for numpy arrays of strings (always), for exactly two words in async_encode_batch, for a pair in an array and for the offsets of async_encode (all proved); for everything else modelled it is proved."
  },
  {
   "property": "C84",
   "status": "proved",
   "theorems": [
    "Tok.Tokenizer.C84_trained",
    "Tok.Tokenizer.C84_seen"
   ],
   "note": "Training may never return (C61_never_returns), so it is assumed to have returned. Special tokens are not normalized and do not strip. Assumed of the suffix array: it reports substrings."
  },
  {
   "property": "C85",
   "status": "proved",
   "theorems": [
    "Tok.Tokenizer.C85_trained",
    "Tok.Tokenizer.C85_seen"
   ],
   "note": "Training is assumed to have returned. Special tokens are not normalized, do not strip and do not begin with the prefix."
  },
  {
   "property": "C86",
   "status": "proved",
   "theorems": [
    "Tok.Py.C86_pickle",
    "Tok.Py.C86_accessors",
    "Tok.Py.C86_tokens"
   ],
   "note": "Numbers fit 32 or 64 bits (they do in the code, by type)."
  },
  {
   "property": "C87",
   "status": "partial",
   "theorems": [
    "Tok.Py.C87_padding",
    "Tok.Py.C87_padding_refused",
    "Tok.Py.C87_padding_again",
    "Tok.Py.C87_truncation",
    "Tok.Py.C87_truncation_refused",
    "Tok.Py.C87_truncation_again",
    "Tok.Py.C87_node_padding",
    "Tok.Py.C87_node_truncation",
    "Tok.Py.C87_node_enum_refused",
    "Tok.Py.C87_node_padding_off",
    "Tok.Py.C87_node_truncate_left",
    "Tok.Py.C87_truncate_alike",
    "Tok.Py.C87_py_truncate"
   ],
   "note": "Python's part is proved in full. That Node agrees with Python is violated in three ways, each proved; what is left of it is C87_node_padding and C87_node_truncation."
  },
  {
   "property": "C88",
   "status": "partial",
   "theorems": [
    "Tok.Py.C88_token",
    "Tok.Py.C88_copy",
    "Tok.Py.C88_special_copy",
    "Tok.Py.C88_copy_normalized",
    "Tok.Py.C88_copies_alike_partial",
    "Tok.Py.C88_argument_changes",
    "Tok.Py.C88_new",
    "Tok.Py.C88_new_refused",
    "Tok.Py.C88_node",
    "Tok.Py.C88_special_setter"
   ],
   "note": "Copies do not behave as the originals in add_special_tokens (negation C88_copy_normalized; exact condition C88_special_copy); the rest is proved."
  },
  {
   "property": "C89",
   "status": "partial",
   "theorems": [
    "Tok.Py.C89_in_sync_partial",
    "Tok.Py.C89_assign",
    "Tok.Py.C89_stale"
   ],
   "note": "The claim is false after an attribute of an assigned normalizer is set (negation C89_stale); proved for all programs in which this does not happen after the last assignment."
  },
  {
   "property": "C90",
   "status": "partial",
   "theorems": [
    "Tok.Py.C90_text",
    "Tok.Py.C90_panics",
    "Tok.Py.C90_repr",
    "Tok.Py.C90_str_panics",
    "Tok.Py.C90_deep"
   ],
   "note": "repr never panics, str does (negation C90_str_panics, exact condition C90_panics). The text is right for values nested at most as deep as counts are kept; beyond it is not (C90_deep)."
  },
  {
   "property": "C91",
   "status": "partial",
   "theorems": [
    "Tok.Vis.C91_seen",
    "Tok.Vis.C91_raises",
    "Tok.Vis.C91_text",
    "Tok.Vis.C91_colors",
    "Tok.Vis.C91_distinct",
    "Tok.Vis.C91_repeated",
    "Tok.Vis.C91_empty",
    "Tok.Vis.C91_multi",
    "Tok.Vis.C91_label"
   ],
   "note": "Characters, tokens and annotations are shown for every non-empty text with everything inside it and no quotes in labels and tokens (C91_seen). Violated by the code: empty text (C91_empty), characters with several tokens (C91_multi), labels with quotes (C91_label), more than 18 labels (C91_repeated)."
  },
  {
   "property": "C92",
   "status": "partial",
   "theorems": [
    "Tok.Classes.C92_byteLevel",
    "Tok.Classes.C92_byteLevelVocab",
    "Tok.Classes.C92_charBpe",
    "Tok.Classes.C92_pieceBpe",
    "Tok.Classes.C92_pieceUnigram",
    "Tok.Classes.C92_bert",
    "Tok.Classes.C92_bertVocab",
    "Tok.Classes.C92_bertBare",
    "Tok.Classes.C92_ignored",
    "Tok.Classes.C92_suffix_kept",
    "Tok.Classes.C92_prefix_kept",
    "Tok.Classes.C92_charAccents",
    "Tok.Classes.C92_unigramVocab",
    "Tok.Classes.C92_unicode_normalizer"
   ],
   "note": "Proved if train is given the suffix (prefix) of the constructor, and under the conditions of C78, C84, C85, C93, C94. The full claim is violated by the code: suffix and prefix of constructor and training differ by default (C92_suffix_kept, C92_prefix_kept), a trained BertWordPieceTokenizer has no markers (C92_bertBare), tables are dropped (C92_ignored), unknown characters are errors (C92_unigramVocab). For SentencePieceUnigramTokenizer and BertWordPieceTokenizer training is assumed to have returned. The three concrete violations are single witnesses, evaluated by the kernel."
  },
  {
   "property": "C93",
   "status": "partial",
   "theorems": [
    "Tok.Bpe.C93_ended",
    "Tok.Dec.C93_decoded",
    "Tok.Tokenizer.C93_text",
    "Tok.Tokenizer.C93_trained",
    "Tok.Tokenizer.C93_end_lost",
    "Tok.Tokenizer.C93_suffix_in_text"
   ],
   "note": "Proved if every word of the text ends with a character that some word of the corpus ends with, and the last character of the suffix is not in the words. Both are needed, so the full claim is violated by the code (C93_end_lost, C93_suffix_in_text)."
  },
  {
   "property": "C94",
   "status": "proved",
   "theorems": [
    "Tok.Tokenizer.C94_trained",
    "Tok.Tokenizer.C94_seen"
   ],
   "note": "The limit of the alphabet has room for all characters of the corpus (EnoughRoom); special tokens are not empty, not normalized, without strip and single-word options."
  },
  {
   "property": "C95",
   "status": "proved",
   "theorems": [
    "Tok.Save.Defaults.C95_version",
    "Tok.Save.Defaults.C95_file",
    "Tok.Save.Defaults.C95_no_model",
    "Tok.Save.Defaults.C95_bpe",
    "Tok.Save.Defaults.C95_dropout",
    "Tok.Save.Defaults.C95_components"
   ],
   "note": ""
  },
  {
   "property": "C96",
   "status": "partial",
   "theorems": [
    "Tok.Bpe.Retrain.C96_exact",
    "Tok.Bpe.Retrain.C96_options",
    "Tok.Bpe.Retrain.C96_cleared",
    "Tok.Bpe.Retrain.C96_stale",
    "Tok.Bpe.Retrain.C96_trained_again",
    "Tok.Bpe.Retrain.C96_trained_again_panics",
    "Tok.Bpe.Retrain.C96_setter"
   ],
   "note": "The code violates the claim: the cache is not cleared by training and by setters (C96_stale in general, C96_trained_again, C96_trained_again_panics, C96_setter). Proved: what comes out in any case (C96_exact), that setting dropout and ignore_merges is harmless (C96_options), that clear_cache repairs it (C96_cleared)."
  },
  {
   "property": "C97",
   "status": "partial",
   "theorems": [
    "Tok.Node.C97_atomic",
    "Tok.Node.C97_unchanged",
    "Tok.Node.C97_poisoned",
    "Tok.Node.C97_healthy",
    "Tok.Node.C97_running",
    "Tok.Node.C97_pretokenized_ignored",
    "Tok.Node.C97_later_setter",
    "Tok.Node.C97_calls",
    "Tok.Node.C97_setters",
    "Tok.Node.C97_rejected",
    "Tok.Node.C97_rejected_same"
   ],
   "note": "The code violates the claim: a setter called after encode counts if the task has not started (C97_later_setter), a refused setTruncation makes the tokenizer unusable (C97_poisoned), runningTasks is one too many (C97_running). Proved: a task that has started is not disturbed (C97_atomic), without setters in between the answer is that at the call (C97_unchanged), nothing else is fatal (C97_healthy)."
  },
  {
   "property": "C98",
   "status": "partial",
   "theorems": [
    "Tok.PySeq.C98_sequence",
    "Tok.PySeq.C98_new",
    "Tok.PySeq.C98_getItem",
    "Tok.PySeq.C98_setItem",
    "Tok.PySeq.C98_setItem_partial",
    "Tok.PySeq.C98_attributes",
    "Tok.PySeq.C98_no_panic",
    "Tok.PySeq.C98_pickle_partial",
    "Tok.PySeq.C98_decoders",
    "Tok.PySeq.C98_hangs",
    "Tok.PySeq.C98_swap",
    "Tok.PySeq.C98_twice",
    "Tok.PySeq.C98_class_changes",
    "Tok.PySeq.C98_nested"
   ],
   "note": "The code violates the claim for assignments of shared elements (C98_hangs, C98_swap, C98_twice), for attributes of replaced elements (C98_class_changes), for nested sequences (C98_nested), for custom decoders (C98_decoders) and for pickling of three classes (C98_pickle_partial). Proved: the exact effect of every assignment on every object (C98_setItem), the claim for distinct elements (C98_setItem_partial), and the rest of it."
  },
  {
   "property": "C99",
   "status": "partial",
   "theorems": [
    "Tok.PyAttr.C99_behavior_partial",
    "Tok.PyAttr.C99_behavior_fails",
    "Tok.PyAttr.C99_behavior_names",
    "Tok.PyAttr.C99_scheme",
    "Tok.PyAttr.C99_char",
    "Tok.PyAttr.C99_progress",
    "Tok.PyAttr.C99_template",
    "Tok.PyAttr.C99_template_written",
    "Tok.PyAttr.C99_specials",
    "Tok.PyAttr.C99_specials_again",
    "Tok.PyAttr.C99_initial",
    "Tok.PyAttr.C99_initial_differs",
    "Tok.PyAttr.C99_trainer_partial",
    "Tok.PyAttr.C99_none_refused",
    "Tok.PyAttr.C99_model_partial",
    "Tok.PyAttr.C99_dropout",
    "Tok.PyAttr.C99_specials_given",
    "Tok.PyAttr.C99_behavior_distinct"
   ],
   "note": "The code violates the claim for two of the five behaviors, for templates, for None as limit, prefix and suffix, for dropouts set later and for special tokens before a refused one (all proved). For the rest the claim is proved, exactly."
  }
 ]
}