{
 "claims": [
  {
   "property": "C01",
   "status": "proved",
   "theorems": [
    "Verif.C01_word_round_trip",
    "Verif.C01_word_lossless",
    "Verif.C01_word_iff"
   ],
   "note": "Any accepted table, any line. Also covers unknown tokens. A line is restored if and only if all its words are in the vocabulary (C01_word_iff)."
  },
  {
   "property": "C02",
   "status": "proved",
   "theorems": [
    "Verif.C02_char_round_trip",
    "Verif.C02_char_lossless",
    "Verif.C02_char_iff"
   ],
   "note": "Any accepted table, any line; lossless case for covered lines without U+2581. A line is restored if and only if its characters are in the vocabulary and none is U+2581 (C02_char_iff)."
  },
  {
   "property": "C03",
   "status": "proved",
   "theorems": [
    "Verif.C03_bpe_greedy",
    "Verif.C03_greedy_unique",
    "Verif.C03_empty_name_diverges"
   ],
   "note": "Hypothesis Indexed (types at their own index, which read_vocab and the learners guarantee; the constructor does not check it). Uniqueness of the greedy segmentation is proved, and that an empty name (rejected by the constructor) would make the loop diverge."
  },
  {
   "property": "C04",
   "status": "proved",
   "theorems": [
    "Verif.C04_learned",
    "Verif.C04_bpe_lossless",
    "Verif.C04_ids_pieces_agree"
   ],
   "note": "Hypothesis Indexed as in C03."
  },
  {
   "property": "C05",
   "status": "proved",
   "theorems": [
    "Verif.C05_decode_encode_byte",
    "Verif.C05_ids_in_range_word_char",
    "Verif.C05_ids_in_range_bpe",
    "Verif.C05_ids_in_range_byte",
    "Verif.C05_ids_class",
    "Verif.C05_decode_encode_total",
    "Verif.C05_index_needed"
   ],
   "note": "word, char, bpe: encode never fails and ids are in range; byte: whenever it succeeds, and decoding then fails at most with the ValueError of invalid UTF-8; class: in range or -1. Indices at their own position are needed (C05_index_needed)."
  },
  {
   "property": "C06",
   "status": "proved",
   "theorems": [
    "Verif.C06_split_preserves_text"
   ],
   "note": "All draw outcomes (oracle). Hypotheses hold for learned tables (C22)."
  },
  {
   "property": "C07",
   "status": "proved",
   "theorems": [
    "Verif.C07_permutations_exact",
    "Verif.C07_permutations_spell",
    "Verif.C07_split_is_permutation",
    "Verif.C07_permutation_is_split",
    "Verif.C07_not_binary_fails"
   ],
   "note": "Exact enumeration without repetition; stochastic splits are exactly the enumerated ones."
  },
  {
   "property": "C08",
   "status": "partial",
   "theorems": [
    "Verif.C08_byte_encode_utf8",
    "Verif.C08_byte_encode_total",
    "Verif.C08_byte_round_trip_partial",
    "Verif.C08_byte_round_trip_refuted",
    "Verif.C08_byte_wrong_text_refuted",
    "Verif.C08_byte_round_trip_iff",
    "Verif.C08_decode_bytes"
   ],
   "note": "Encoding is UTF-8 for every scalar text. The round trip is refuted: bytes below 0x10 are named with one hex digit, so e.g. a line feed or tab does not decode. C08_byte_round_trip_iff: a text is restored if and only if it has no code point below 16 (no other condition)."
  },
  {
   "property": "C09",
   "status": "partial",
   "theorems": [
    "Verif.C09_byte_separators_partial",
    "Verif.C09_byte_separators_refuted",
    "Verif.C09_byte_no_reserved_ids",
    "Verif.C09_byte_separators_iff"
   ],
   "note": "C09_byte_separators_iff: restored if and only if no text has a code point below 16 (see C08), whatever the arrangement; refuted otherwise. Encoding never produces a reserved id."
  },
  {
   "property": "C10",
   "status": "partial",
   "theorems": [
    "Verif.C10_labels_joined_partial",
    "Verif.C10_seen_partial",
    "Verif.C10_unseen_is_last",
    "Verif.C10_iff",
    "Verif.C10_unseen_refuted"
   ],
   "note": "Refuted: an unseen label is encoded as -1 and decoded as the greatest known label (C10_unseen_is_last for every corpus). Seen labels round trip (_partial). Decoding joins labels by commas (C10_labels_joined_partial). So exactly the labels of the training data come back (C10_iff)."
  },
  {
   "property": "C11",
   "status": "proved",
   "theorems": [
    "Verif.C11_encode_tokens",
    "Verif.C11_word_stable"
   ],
   "note": ""
  },
  {
   "property": "C12",
   "status": "proved",
   "theorems": [
    "Verif.C12_vocab_round_trip",
    "Verif.C12_empty_refused",
    "Verif.C12_out_of_place_refused",
    "Verif.C12_names_needed",
    "Verif.C12_iff"
   ],
   "note": "Exact condition on names (each excluded character is shown to be needed). json is a parameter with laws; a concrete codec meeting them is given (pyJson_laws). The empty table is refused. C12_iff: exactly the non-empty, indexed tables with earlier kids and such names come back."
  },
  {
   "property": "C13",
   "status": "partial",
   "theorems": [
    "Verif.C13_kind",
    "Verif.C13_save_load_partial",
    "Verif.C13_header",
    "Verif.C13_names",
    "Verif.C13_old_files",
    "Verif.C13_empty_class_refuted",
    "Verif.C13_tab_label_refuted",
    "Verif.C13_iff",
    "Verif.C13_save_load_iff"
   ],
   "note": "Same scheme structure (kind, table, dictionary, trie), exactly for names without tab, line break and surrogate (C13_save_load_iff); a saved file never loads as another kind (C13_kind). C13_iff: exactly which schemes come back. Refuted for the class scheme learned from no data (save raises) and for class labels with an inner tab (file does not load)."
  },
  {
   "property": "C14",
   "status": "partial",
   "theorems": [
    "Verif.C14_read_wellformed_partial",
    "Verif.C14_none_kid_refuted"
   ],
   "note": "Refuted: a negative kid number may denote an entry not read yet (None), which is accepted. Otherwise every file that is read gives a well-formed table."
  },
  {
   "property": "C15",
   "status": "partial",
   "theorems": [
    "Verif.C15_contract",
    "Verif.C15_size_partial",
    "Verif.C15_size_iff",
    "Verif.C15_complete",
    "Verif.C15_size_refuted",
    "Verif.C15_counts",
    "Verif.C15_learned",
    "Verif.C15_all_iff"
   ],
   "note": "Full contract proved for any coverage arithmetic; size bound proved for vocab_size >= 6, refuted for 0 < vocab_size < 6 (negative slice). A vocab_size bounds the size if and only if it is at least 6 (C15_size_iff). Exactly when all terms are kept: C15_all_iff."
  },
  {
   "property": "C16",
   "status": "proved",
   "theorems": [
    "Verif.C16_mass",
    "Verif.C16_headless",
    "Verif.C16_unk"
   ],
   "note": "Exact, for any coverage arithmetic and also negative slices; also the exact credit of <unk>, and the exact loss when the line count is unknown (-1)."
  },
  {
   "property": "C17",
   "status": "partial",
   "theorems": [
    "Verif.C17_float_partial",
    "Verif.C17_full_partial",
    "Verif.C17_prefix_partial",
    "Verif.C17_exact_partial",
    "Verif.C17_float_refuted"
   ],
   "note": "Prefix and mass for any arithmetic; shortest prefix in exact arithmetic; refuted in binary64 (12 equal types, coverage 0.5). In binary64 both bounds hold up to n/2^51 for n <= 2^50 types (C17_float_partial), and coverage 1.0 cuts nothing when n times the total is below 2^51 (C17_full_partial)."
  },
  {
   "property": "C18",
   "status": "proved",
   "theorems": [
    "Verif.C18_class_vocab",
    "Verif.C18_class_order"
   ],
   "note": ""
  },
  {
   "property": "C19",
   "status": "proved",
   "theorems": [
    "Verif.C19_bpe_accepted",
    "Verif.C19_learned_accepted"
   ],
   "note": "word, char, class, byte: learning always succeeds and the table is accepted; bpe: every learned table is accepted."
  },
  {
   "property": "C20",
   "status": "proved",
   "theorems": [
    "Verif.C20_merges",
    "Verif.C20_text",
    "Verif.C20_no_size"
   ],
   "note": "For every set iteration order (a permutation chosen anew in each round). The array heap of heapq, stale heap entries, the linked lists and the index sets are all modelled; the result is a run of the abstract most-frequent-pair specification. C20_text starts from raw lines."
  },
  {
   "property": "C21",
   "status": "proved",
   "theorems": [
    "Verif.C21_no_internal_error",
    "Verif.C21_text",
    "Verif.C21_empty_text_raises"
   ],
   "note": "For non-empty corpora; a text without tokens always raises, ValueError or, if no room is left beside the reserved types, AssertionError (C21_empty_text_raises)."
  },
  {
   "property": "C22",
   "status": "proved",
   "theorems": [
    "Verif.C22_well_formed",
    "Verif.C22_text"
   ],
   "note": "Also from raw text: reserved types first, no empty names, size bound."
  },
  {
   "property": "C23",
   "status": "proved",
   "theorems": [
    "Verif.C23_monotone"
   ],
   "note": ""
  },
  {
   "property": "C24",
   "status": "partial",
   "theorems": [
    "Verif.C24_deterministic_partial",
    "Verif.C24_refuted",
    "Verif.C24_coverage_partial",
    "Verif.C24_masked_refuted",
    "Verif.C24_cube_free_partial",
    "Verif.C24_text_partial"
   ],
   "note": "Refuted: overlapping pairs of equal symbols ('aaab') are replaced in set order, which changes the vocabulary. Proved, for every set order and every order of the words, when no word contains a block three times in a row (also for failing runs), and when no learned type has two equal parts. C24_coverage_partial: with a coverage limit the same holds of the words with all characters outside the vocabulary replaced by one character; C24_masked_refuted shows that this replacement is needed ('b b b b xyzb')."
  },
  {
   "property": "C25",
   "status": "partial",
   "theorems": [
    "Verif.C25_refuted",
    "Verif.C25_graceful_partial",
    "Verif.C25_long_partial",
    "Verif.C25_rare_partial",
    "Verif.C25_frequent_refuted",
    "Verif.C25_suffix_partial",
    "Verif.C25_suffix_needed"
   ],
   "note": "Refuted: IndexError from the empty heap when every sequence has become one symbol; with a threshold and no size this happens for every text all of whose words reach the threshold (C25_frequent_refuted). The partial theorems show that this is the only way to fail and give sufficient conditions, such as a character rarer than the threshold (C25_rare_partial), or a word of the text that fewer words end in than the threshold asks (C25_suffix_partial)."
  },
  {
   "property": "C26",
   "status": "proved",
   "theorems": [
    "Verif.C26_priority_queue",
    "Verif.C26_sorted"
   ],
   "note": "Follows CPython's heapq (sift functions on the array) for every history of push, pop, peek and len."
  },
  {
   "property": "C27",
   "status": "partial",
   "theorems": [
    "Verif.C27_min_freq_refuted",
    "Verif.C27_subword_refuted",
    "Verif.C27_default_min_freq",
    "Verif.C27_given_min_freq",
    "Verif.C27_threshold_partial",
    "Verif.C27_subword_default"
   ],
   "note": "Refuted: min_freq is ignored at the bpe level; min_co_ev is ignored at the level named 'subword'. Proved: min_co_ev at level 'bpe'."
  },
  {
   "property": "C28",
   "status": "proved",
   "theorems": [
    "Verif.C28_keeps_needed",
    "Verif.C28_wellformed",
    "Verif.C28_no_ids_raises"
   ],
   "note": "Any corpus of lines and any table accepted by the scheme; also that an empty corpus raises."
  },
  {
   "property": "C29",
   "status": "proved",
   "theorems": [
    "Verif.C29_same_encoding"
   ],
   "note": "All five schemes; hypothesis that reserved types have level -1, which learned and loaded tables of this library have."
  },
  {
   "property": "C30",
   "status": "partial",
   "theorems": [
    "Verif.C30_loads",
    "Verif.C30_same_kind_partial",
    "Verif.C30_iff",
    "Verif.C30_reserved_refuted",
    "Verif.C30_bpe_refuted",
    "Verif.C30_class_refuted",
    "Verif.C30_byte_refuted"
   ],
   "note": "C30_loads and C30_iff say exactly what the saved file loads as: the kind of the highest level left. It is the same kind when that level is the one of the kind (_partial), as for learned word and char tables of which some type is kept. Refuted for bpe, class and byte: the shrunk table is no longer accepted or encodes differently; and when only reserved types are left the file loads as a class scheme (C30_reserved_refuted)."
  },
  {
   "property": "C31",
   "status": "proved",
   "theorems": [
    "Verif.C31_stats_round_trip",
    "Verif.C31_terms_stripped",
    "Verif.C31_iff"
   ],
   "note": "json is a parameter with laws, met by pyJson. C31_iff: exactly the tables whose terms have no tab, no line feed and no white space at the ends come back."
  },
  {
   "property": "C32",
   "status": "proved",
   "theorems": [
    "Verif.C32_stats_learning",
    "Verif.C32_coverage"
   ],
   "note": "Frequency table in any order, with or without a coverage limit (C32_coverage: any arithmetic). Equal reserved types, equal frequency list; entries differ only by exchange of equally frequent words at the size or coverage limit, and not at all without one."
  },
  {
   "property": "C33",
   "status": "proved",
   "theorems": [
    "Verif.C33_lookup",
    "Verif.C33_nodes",
    "Verif.C33_data_count",
    "Verif.C33_size"
   ],
   "note": "Lookup, node sets, data_node_count and size. Python's recursion limit in size/data_node_count is not modelled."
  },
  {
   "property": "C34",
   "status": "proved",
   "theorems": [
    "Verif.C34_sound_minimal",
    "Verif.C34_fails_iff"
   ],
   "note": ""
  },
  {
   "property": "C35",
   "status": "partial",
   "theorems": [
    "Verif.C35_exact_partial",
    "Verif.C35_roundtrip_partial",
    "Verif.C35_nearest_partial",
    "Verif.C35_iff",
    "Verif.C35_values_partial",
    "Verif.C35_refuted"
   ],
   "note": "Refuted in general: a uint64 column is promoted to float64 (numpy promotion with the empty int8 start array), so integers above 2^53 can change. A sequence is read back unchanged if and only if the field has an integer type or all its values are binary64 numbers (C35_iff); in a float64 field every value comes back as the nearest binary64 number, ties to even (C35_nearest_partial). values() yields the sequences in order (C35_values_partial)."
  },
  {
   "property": "C36",
   "status": "proved",
   "theorems": [
    "Verif.C36_no_overflow"
   ],
   "note": ""
  },
  {
   "property": "C37",
   "status": "proved",
   "theorems": [
    "Verif.C37_field",
    "Verif.C37_db",
    "Verif.C37_iff",
    "Verif.C37_exception"
   ],
   "note": "C37_iff: for 64-bit values a database is created if and only if there is a record, no id occurs twice, there is a field and every record has as many columns as fields; C37_exception: otherwise AssertionError."
  },
  {
   "property": "C38",
   "status": "partial",
   "theorems": [
    "Verif.C38_created_partial",
    "Verif.C38_lookup_partial",
    "Verif.C38_iff",
    "Verif.C38_iterate_partial",
    "Verif.C38_refuted",
    "Verif.C38_numbered_partial"
   ],
   "note": "Values above 2^53 can change (C35); for all other values, length, lookup, KeyError for other ids and iteration in every set order are proved. A record is looked up unchanged if and only if each column is in a field of integer type or consists of binary64 numbers (C38_iff)."
  },
  {
   "property": "C39",
   "status": "partial",
   "theorems": [
    "Verif.C39_refuted",
    "Verif.C39_shuffle_type_refuted",
    "Verif.C39_single_partial",
    "Verif.C39_iff",
    "Verif.C39_multipart_partial",
    "Verif.C39_multipart_refuted"
   ],
   "note": "Refuted: random.shuffle of a set of two or more ids raises TypeError; likewise for every multi-part database read from disk with parts of two or more records. Partial: one record; multi-part databases kept in memory, of one part, or with parts of one record yield every record exactly once for every shuffle (values up to 2^53). A shuffled database in one file gives its records if and only if there is one (C39_iff)."
  },
  {
   "property": "C40",
   "status": "proved",
   "theorems": [
    "Verif.C40_slices",
    "Verif.C40_other_sizes",
    "Verif.C40_unique"
   ],
   "note": "Sizes of at least one; the chunks are unique. Size 0 loses the stream silently, negative sizes are refused."
  },
  {
   "property": "C41",
   "status": "partial",
   "theorems": [
    "Verif.C41_load",
    "Verif.C41_load_error",
    "Verif.C41_roundtrip_partial",
    "Verif.C41_refuted"
   ],
   "note": "Any part size and max_parts of at least one, any listing order, loading mode and starting directory. Partial: values up to 2^53 (C35), at least one record; refuted for no records (load raises AssertionError after a complete write). Pickle and json are assumed to read back completely written files."
  },
  {
   "property": "C42",
   "status": "proved",
   "theorems": [
    "Verif.C42_distinct",
    "Verif.C42_recovered",
    "Verif.C42_shape"
   ],
   "note": "All part numbers and paddings, also across different paddings."
  },
  {
   "property": "C43",
   "status": "partial",
   "theorems": [
    "Verif.C43_fresh_partial",
    "Verif.C43_history_partial",
    "Verif.C43_refuted"
   ],
   "note": "Refuted: when overwriting, rmtree may remove a part before the flag, and load then succeeds though parts are missing. Partial: in a new or empty directory loading succeeds only after an uninterrupted, successful write; after any history of interrupted writes, an iteration that completes yields exactly the records of one attempt. A file cut short is assumed unreadable."
  },
  {
   "property": "C44",
   "status": "proved",
   "theorems": [
    "Verif.C44_refused",
    "Verif.C44_overwritten"
   ],
   "note": "Any previous directory contents."
  },
  {
   "property": "C45",
   "status": "proved",
   "theorems": [
    "Verif.C45_partition",
    "Verif.C45_sorted_tight",
    "Verif.C45_multipart"
   ],
   "note": "All set orders and both shuffles. Exact condition for success; before shuffling, records are in order of length and a batch is closed only if the next record does not fit. Multi-part databases: same, for every shuffle of the parts, if every part has a record without empty columns. That the ids survive the numpy array they are stored in is C105."
  },
  {
   "property": "C46",
   "status": "partial",
   "theorems": [
    "Verif.C46_refuted",
    "Verif.C46_eq_len_partial",
    "Verif.C46_sequential",
    "Verif.C46_eq_len_iff"
   ],
   "note": "Refuted for equal-length batching: max_sents + 1 records are possible (the comparison is >, made before adding); max_sents + 1 is proved as bound. Proved for sequential batching. C46_eq_len_iff: when max_sents + 1 of the longest records have room in max_toks, every batch but the last has exactly max_sents + 1 records, and the limit is kept exactly if there are at most max_sents records without empty columns."
  },
  {
   "property": "C47",
   "status": "proved",
   "theorems": [
    "Verif.C47_sequential"
   ],
   "note": "Two-column records; groups characterised exactly."
  },
  {
   "property": "C48",
   "status": "partial",
   "theorems": [
    "Verif.C48_eq_len_partial",
    "Verif.C48_eq_len_refuted",
    "Verif.C48_sequential",
    "Verif.C48_data_error"
   ],
   "note": "Sequential: proved. Equal-length: proved if some record has no empty column; if every record has one, IndexError for every such database (refuted). The sequential iterator also raises if a requested begin or end marker cannot be given (hypothesis Markable)."
  },
  {
   "property": "C49",
   "status": "proved",
   "theorems": [
    "Verif.C49_padding"
   ],
   "note": "Also the transpose for batch_first=False. Integer matrices as lists of lists."
  },
  {
   "property": "C50",
   "status": "proved",
   "theorems": [
    "Verif.C50_inserted",
    "Verif.C50_idempotent",
    "Verif.C50_raises",
    "Verif.C50_batch"
   ],
   "note": "Exact failure conditions; a batch applies the check to each side."
  },
  {
   "property": "C51",
   "status": "partial",
   "theorems": [
    "Verif.C51_batch_partial",
    "Verif.C51_sequential_partial",
    "Verif.C51_eq_len_partial",
    "Verif.C51_refuted"
   ],
   "note": "Refuted: markers are added after the budget was checked. Proved: at most max_toks + (records) x (markers) cells, so within max_toks if no markers are requested."
  },
  {
   "property": "C52",
   "status": "proved",
   "theorems": [
    "Verif.C52_sorted",
    "Verif.C52_unsorted"
   ],
   "note": "Stable sort."
  },
  {
   "property": "C53",
   "status": "proved",
   "theorems": [
    "Verif.C53_pairs",
    "Verif.C53_throw",
    "Verif.C53_flat"
   ],
   "note": "Generators as lists of yielded pairs with an optional final exception; any default, any value of the placeholder before the loop."
  },
  {
   "property": "C54",
   "status": "proved",
   "theorems": [
    "Verif.C54_fold",
    "Verif.C54_empty"
   ],
   "note": "The lazy chain of generators is modelled with its own state per level; termination and the result are proved for streams of any length."
  },
  {
   "property": "C55",
   "status": "proved",
   "theorems": [
    "Verif.C55_in_place",
    "Verif.C55_processes",
    "Verif.C55_merge"
   ],
   "note": "In one process dictionaries are references into a heap, so sharing of the default is visible; over processes they are copied values. An empty list of lines raises AssertionError (C54_empty covers it)."
  },
  {
   "property": "C56",
   "status": "proved",
   "theorems": [
    "Verif.C56_ordered",
    "Verif.C56_sequential",
    "Verif.C56_encode",
    "Verif.C56_one_process",
    "Verif.C56_exception"
   ],
   "note": "Pool.imap is modelled from its documentation and IMapIterator (chunks, results put back in order by index); the completion order is any permutation. n_cpus <= 1 raises AssertionError."
  },
  {
   "property": "C57",
   "status": "proved",
   "theorems": [
    "Verif.C57_windows",
    "Verif.C57_nonpositive",
    "Verif.C57_all"
   ],
   "note": "Windows characterised by prefix and suffix; the table of all sentences by the number of positions."
  },
  {
   "property": "C58",
   "status": "partial",
   "theorems": [
    "Verif.C58_report",
    "Verif.C58_range",
    "Verif.C58_exchange",
    "Verif.C58_identical",
    "Verif.C58_f1_range",
    "Verif.C58_f1_between_partial",
    "Verif.C58_f1_refuses",
    "Verif.C58_f1_above_max_refuted",
    "Verif.C58_f1_float_partial"
   ],
   "note": "Floats are rationals with a rounding: range, definedness, exchange and identity hold for every monotone rounding exact on small counts, and binary64 (nearest, ties to even) is proved to be one; 'F1 is between its arguments' holds in exact arithmetic but fails in binary64 by one unit in the last place (witness 0.2, 0.2). In binary64 F1 is the harmonic mean up to a relative error of 2^-51 (C58_f1_float_partial). Overflow and underflow are not modelled. sum() is summed from left to right (Python before 3.12)."
  },
  {
   "property": "C59",
   "status": "partial",
   "theorems": [
    "Verif.C59_kl_float",
    "Verif.C59_kl_float_refuses",
    "Verif.C59_validate_float",
    "Verif.C59_js_float_symmetric",
    "Verif.C59_js_float",
    "Verif.C59_kl_float_refuted",
    "Verif.C59_js_float_refuted",
    "Verif.C59_emd_partial",
    "Verif.C59_tracker_emd",
    "Verif.C59_emd_invariant",
    "Verif.C59_emd_failures",
    "Verif.C59_kl_partial",
    "Verif.C59_kl_refuses",
    "Verif.C59_kl_lengths_refuted",
    "Verif.C59_js_partial",
    "Verif.C59_js_symmetric",
    "Verif.C59_js_refuted",
    "Verif.C59_earth_mov_partial",
    "Verif.C59_emd_float",
    "Verif.C59_emd_largest_refuted",
    "Verif.C59_earth_float"
   ],
   "note": "Counts are rationals and divergences real numbers; all measures are covered again in binary64, for any order in which numpy adds and, for kl_div and js_div, for every logarithm within four units in the last place. EMD_simple, earth_mov_dist and the whole estimate (up to 2^26 types and 2^51 tokens): value in [0, 1), error at most (k+4)/2^53, 0 exactly for equal counts; the bound 1 - 1/k itself can be exceeded by rounding. js_div (up to 2^26 entries): error at most (2n+32)/2^53, symmetric, 0 for equal vectors; kl_div: error bounded by the sizes of its terms, 0 for equal vectors. Both are negative by about 10^-17 on distributions that differ in the last places (C59_kl_float_refuted, C59_js_float_refuted). js_div and the validated earth_mov_dist fail with numpy 1.24 or later (np.float was removed); kl_div does not check lengths and can be negative on vectors of different lengths. Limits of the exponent (underflow, overflow) are not modelled."
  },
  {
   "property": "C60",
   "status": "partial",
   "theorems": [
    "Verif.C60_estimate",
    "Verif.C60_word_text",
    "Verif.C60_no_lines",
    "Verif.C60_byte_refuted",
    "Verif.C60_class_refuted",
    "Verif.C60_estimate_float"
   ],
   "note": "Proved for word, char and bpe schemes over any non-empty list of lines, in terms of the pieces and of the words of the text. The byte scheme has no unk_idx (AttributeError); the class scheme's unk_idx is -1, so the count of the last class is reported as unknowns."
  },
  {
   "property": "C61",
   "status": "partial",
   "theorems": [
    "Verif.C61_tracking",
    "Verif.C61_estimate",
    "Verif.C61_true_partial",
    "Verif.C61_repeats_refuted",
    "Verif.C61_float_partial",
    "Verif.C61_float_true_partial",
    "Verif.C61_learned"
   ],
   "note": "Exact for every table, data and set order: lengths, means and the sequence of corpora are right; each unigram count is the true count less a shortfall, which is given in closed form: for every merge of a symbol with itself, twice the number of its overlapping occurrences that are not replaced (line 171 of bpe_len.py has the wrong sign; witness: count -1). So counts and imbalances are right exactly as long as the shortfalls are 0. np.long is assumed to exist. In binary64 (C61_float_partial, for any order of additions in numpy, up to 2^26 types and 2^51 pieces) the means are the nearest floats, and imbalances of rows without negative counts are within (k + 4) / 2^53, in [0, 1) and 0 exactly for equal counts."
  },
  {
   "property": "C62",
   "status": "partial",
   "theorems": [
    "Verif.C62_word",
    "Verif.C62_char",
    "Verif.C62_bpe_api",
    "Verif.C62_covered_partial",
    "Verif.C62_class_idx_partial",
    "Verif.C62_class_str_partial",
    "Verif.C62_class_refuted",
    "Verif.C62_byte_partial",
    "Verif.C62_byte_refuted",
    "Verif.C62_byte_iff",
    "Verif.C62_class_idx_iff",
    "Verif.C62_class_str",
    "Verif.C62_class_str_iff"
   ],
   "note": "Word, char and bpe (also with -1 piece mode via the api) are covered for all vocabularies and texts. Class and byte restore only some files, and exactly which is proved: class in index mode if and only if each line is a label of the table, class in piece mode if and only if each line is blank or one word, bytes (both modes) if and only if no code point is below 16, so at most one line without line break (refutations for the rest). Reading and writing of the text files is modelled with universal newlines."
  },
  {
   "property": "C63",
   "status": "partial",
   "theorems": [
    "Verif.C63_truncate",
    "Verif.C63_filter_partial",
    "Verif.C63_unequal_refused",
    "Verif.C63_limit_refuted",
    "Verif.C63_nothing_left_refuted",
    "Verif.C63_any"
   ],
   "note": "Model/Spark. With truncate (C63_truncate) every kept pair is the pair of prefixes of the encodings; without truncate exactly the pairs strictly shorter than the limits are kept, aligned by line (C63_filter_partial): pairs of exactly the maximal length are dropped (C63_limit_refuted); if nothing is left, be it for want of pairs or because all are too long, IndexError is raised (C63_nothing_left_refuted). Spark is modelled by partitions and arbitrary orders."
  },
  {
   "property": "C64",
   "status": "partial",
   "theorems": [
    "Verif.C64_counts_partial",
    "Verif.C64_exact_partial",
    "Verif.C64_tag_refuted",
    "Verif.C64_empty_refuted"
   ],
   "note": "Counts are exact for lawful reductions in any grouping, if the word <!S!> does not occur and there is at least one line; otherwise see C64_tag_refuted (line count inflated, tag not a word) and C64_empty_refuted."
  },
  {
   "property": "C65",
   "status": "partial",
   "theorems": [
    "Verif.C65_call",
    "Verif.C65_reuse_refuted",
    "Verif.C65_second_run_refuted",
    "Verif.C65_first_run_partial"
   ],
   "note": "False: with existing statistics the call gets `inp` twice and raises TypeError (C65_reuse_refuted, C65_second_run_refuted, for all arguments). What works: the first run and the files it leaves (C65_first_run_partial)."
  },
  {
   "property": "C66",
   "status": "partial",
   "theorems": [
    "Verif.C66_stored_partial",
    "Verif.C66_batches_partial",
    "Verif.C66_empty_partition_refuted",
    "Verif.C66_more_partitions_refuted",
    "Verif.C66_iff",
    "Verif.C66_occupied_refused"
   ],
   "note": "All records are stored if no partition is empty and the number of partitions is respected (C66_stored_partial); an empty partition, or fewer partitions than parts, raises AssertionError (C66_empty_partition_refuted, C66_more_partitions_refuted). So it succeeds if and only if no partition is empty (C66_iff)."
  },
  {
   "property": "C67",
   "status": "proved",
   "theorems": [
    "Verif.C67_expansion",
    "Verif.C67_separates",
    "Verif.C67_between",
    "Verif.C67_file"
   ],
   "note": "An equivalence: restored iff the marker does not occur; also what the expansion does (markers exactly between adjacent consonants) and the command on whole files."
  },
  {
   "property": "C68",
   "status": "proved",
   "theorems": [
    "Verif.C68_partition",
    "Verif.C68_report"
   ],
   "note": "Percentages add up to 100 in exact arithmetic; a corpus without tokens raises ZeroDivisionError."
  },
  {
   "property": "C69",
   "status": "partial",
   "theorems": [
    "Verif.C69_restored_partial",
    "Verif.C69_file_partial",
    "Verif.C69_virama_refuted",
    "Verif.C69_any_partial",
    "Verif.C69_overlap_refuted"
   ],
   "note": "The exact extent as an equivalence, for the language of the repository (C69_restored_partial) and for every writing system that can be built and whose classes of characters are separate (C69_any_partial); the statement is false for lines with a virama before other characters, word-initial vowel signs, or the marker U+E000, and for writing systems with overlapping classes, which the constructor lets through (C69_overlap_refuted)."
  },
  {
   "property": "C70",
   "status": "partial",
   "theorems": [
    "Verif.C70_merges_partial",
    "Verif.C70_merge_refuses",
    "Verif.C70_duplicates_refuted",
    "Verif.C70_accepts",
    "Verif.C70_learned",
    "Verif.C70_sizes"
   ],
   "note": "Pieces and decoding agree always, ids when names are distinct; with repeated names ids differ (witness)."
  },
  {
   "property": "C71",
   "status": "proved",
   "theorems": [
    "Verif.C71_decode_any",
    "Verif.C71_out_of_range_raises",
    "Verif.C71_negative_wraps"
   ],
   "note": "All schemes; also out of range ids raise and negative ids wrap."
  },
  {
   "property": "C72",
   "status": "partial",
   "theorems": [
    "Verif.C72_word_partial",
    "Verif.C72_char",
    "Verif.C72_bpe_partial",
    "Verif.C72_byte",
    "Verif.C72_word_refuted",
    "Verif.C72_bpe_refuted",
    "Verif.C72_bpe_iff",
    "Verif.C72_bpe_learned"
   ],
   "note": "Proved for char and byte; refuted for word and bpe (text that spells <s> or </s>); _partial: exactly/only when the control token is spelled out. C72_bpe_iff: if only reserved names have a '<', a control id is made exactly if its token stands in a word; C72_bpe_learned: so for every model learned (without coverage limit) from a text without '<'."
  },
  {
   "property": "C73",
   "status": "partial",
   "theorems": [
    "Verif.C73_distinct_partial",
    "Verif.C73_reserved_name_refuted",
    "Verif.C73_coverage_partial",
    "Verif.C73_cube_free_partial",
    "Verif.C73_overlap_refuted",
    "Verif.C73_reachable"
   ],
   "note": "Refuted: text with <s> makes a second type named <s>, and on plain text with a block three times in a row ('aaa') two merges may spell the same name, depending on the set order. Proved for every set order when no word contains such a block or a reserved name (C73_coverage_partial: also with a coverage limit, for the words with the characters left out replaced by one character): segments of the corpus with equal text are equal, an invariant of every merge. In general: unmerged types have distinct names and no pair is merged twice. C73_reachable says what a repeated name means: exactly the types whose name an earlier type has can never be produced by encoding."
  },
  {
   "property": "C74",
   "status": "partial",
   "theorems": [
    "Verif.C74_unigram_table_partial",
    "Verif.C74_exception",
    "Verif.C74_n_ignored_refuted",
    "Verif.C74_freqs_rows"
   ],
   "note": "main calls count_gram_recall without n, so every table is about single types; proved by witness, and what is written is characterised for every n."
  },
  {
   "property": "C75",
   "status": "partial",
   "theorems": [
    "Verif.C75_lite_partial",
    "Verif.C75_lite_refuted",
    "Verif.C75_any_partial"
   ],
   "note": "The exact extent as an equivalence, for the language of the repository and for every writing system with separate classes (C75_any_partial); false e.g. for the letter a after a consonant."
  },
  {
   "property": "C76",
   "status": "partial",
   "theorems": [
    "Verif.C76_iff",
    "Verif.C76_bitext_partial",
    "Verif.C76_more_parts_refuted"
   ],
   "note": "Composition of C63, C66 and the multi-part database theorems, for truncation as well as dropping, reading record by record or in batches of equal length. Missing: runs with fewer pairs than parts (C76_more_parts_refuted). C76_iff: exactly which runs succeed (equal numbers of lines, a kept pair, no empty partition, a new or empty directory)."
  },
  {
   "property": "C77",
   "status": "partial",
   "theorems": [
    "Verif.C77_learned",
    "Verif.C77_learned_bpe",
    "Verif.C77_learned_class_partial",
    "Verif.C77_subword",
    "Verif.C77_class_iff",
    "Verif.C77_label_refuted"
   ],
   "note": "word, char, byte (with success of learning), bpe (whatever is learned); for class labels exactly when there is data and no label has an inner tab, line break or surrogate (C77_class_iff); a label with tabs may be loaded as another label without error (C77_label_refuted). Text without surrogates: it comes from UTF-8 files. json by its laws (JsonLaws)."
  },
  {
   "property": "C78",
   "status": "partial",
   "theorems": [
    "Verif.C78_word_partial",
    "Verif.C78_byte_partial",
    "Verif.C78_class_partial",
    "Verif.C78_bpe_partial",
    "Verif.C78_char_partial",
    "Verif.C78_char_refuted",
    "Verif.C78_class_refuted"
   ],
   "note": "First runs on texts without the word <!S!>: word equal up to ties at the size limit, byte equal, class equal if labels are single words, bpe a most-frequent-pair run on the exact counts, char by the learning contract on exact counts without spaces. Refuted for char (spaces not counted) and class (labels of several words are split)."
  },
  {
   "property": "C79",
   "status": "proved",
   "theorems": [
    "Verif.C79_rows",
    "Verif.C79_total",
    "Verif.C79_file",
    "Verif.C79_nonpositive",
    "Verif.C79_exception"
   ],
   "note": "For schemes of kinds word, char, bpe every line encodes; for others under the hypothesis that lines encode. json.dumps (ensure_ascii=False) of lists of ints and strings is modelled and read back by an independent JSON reader."
  },
  {
   "property": "C80",
   "status": "proved",
   "theorems": [
    "Verif.C80_word",
    "Verif.C80_char",
    "Verif.C80_bpe",
    "Verif.C80_disk",
    "Verif.C80_disk_bpe",
    "Verif.C80_word_iff",
    "Verif.C80_char_iff"
   ],
   "note": "Composition of the learning contracts, the codec round trips and the file round trip; bpe under the hypothesis that learning succeeds (C25 says when it does not). For words and characters the exact conditions are C80_word_iff and C80_char_iff."
  },
  {
   "property": "C81",
   "status": "proved",
   "theorems": [
    "Verif.C81_table",
    "Verif.C81_learned",
    "Verif.C81_marker_needed"
   ],
   "note": "Invariant of the merge run: the marker is only the last character of a name. C81_marker_needed: with the marker in the text the claim fails."
  },
  {
   "property": "C82",
   "status": "proved",
   "theorems": [
    "Verif.C82_runs",
    "Verif.C82_runs_unique",
    "Verif.C82_trouble",
    "Verif.C82_index_replace",
    "Verif.C82_index_ignore"
   ],
   "note": ""
  },
  {
   "property": "C83",
   "status": "partial",
   "theorems": [
    "Verif.C83_rounds_partial",
    "Verif.C83_cube_free_partial",
    "Verif.C83_table",
    "Verif.C83_sorted_partial",
    "Verif.C83_overlap_crash_refuted",
    "Verif.C83_order_refuted",
    "Verif.C83_stops_early_refuted",
    "Verif.C83_exhausted_refuted",
    "Verif.C83_zero_refuted",
    "Verif.C83_low_partial"
   ],
   "note": "Proved for every corpus up to the first round in which the most frequent pair overlaps with itself (x x in x x x); for corpora without a block repeated three times in a row that never happens and the statement is complete, except that running out of pairs raises ValueError. Otherwise refuted: AssertionError on 'ababab', a ValueError that depends on set order (C83_order_refuted), and stopping too early; with the threshold 0 types of frequency 0 are added (C83_zero_refuted; C83_low_partial otherwise reduces low thresholds to 1). The shape of the table (indices, kids, names, thresholds) is unconditional."
  },
  {
   "property": "C84",
   "status": "partial",
   "theorems": [
    "Verif.C84_text_partial",
    "Verif.C84_cube_free_partial",
    "Verif.C84_options",
    "Verif.C84_hahaha_refuted",
    "Verif.C84_names_refuted",
    "Verif.C84_masked_partial",
    "Verif.C84_masked_refuted"
   ],
   "note": "Composition of exact counting, the initial vocabulary and C83, with the same restriction; C84_masked_partial states it for all options on the text, with the characters rarer than char_min_freq identified (without this the condition is not enough, C84_masked_refuted). The names need not occur in the text (C84_names_refuted), and 'hahaha' makes learning fail (C84_hahaha_refuted)."
  },
  {
   "property": "C85",
   "status": "proved",
   "theorems": [
    "Verif.C85_accepts",
    "Verif.C85_greedy",
    "Verif.C85_pieces",
    "Verif.C85_ids_in_range",
    "Verif.C85_lossless",
    "Verif.C85_nlcodec"
   ],
   "note": "For tables whose entries stand at their own index; the last of several types with one name is used."
  },
  {
   "property": "C86",
   "status": "proved",
   "theorems": [
    "Verif.C86_round_trip",
    "Verif.C86_out_of_place_refused",
    "Verif.C86_headless",
    "Verif.C86_learned"
   ],
   "note": "Names without tab, line break and surrogates, header text printable; learned tables satisfy this for texts without surrogates."
  },
  {
   "property": "C87",
   "status": "partial",
   "theorems": [
    "Verif.C87_encode",
    "Verif.C87_decode_refuted",
    "Verif.C87_decode_actual_partial",
    "Verif.C87_read_seqs_partial",
    "Verif.C87_max_seqs_refuted",
    "Verif.C87_learn1",
    "Verif.C87_restores",
    "Verif.C87_learn2_partial",
    "Verif.C87_learn2_table",
    "Verif.C87_bad_sequences",
    "Verif.C87_size_refuted",
    "Verif.C87_learn_refuted",
    "Verif.C87_options"
   ],
   "note": "learn1 and encode hold as stated. decode is refuted (only the characters of the first line); max_seqs is ignored; -vs2 is a number of merges; learn may fail at level 2 because of a second type named like a reserved one. learn2 with the restriction of C83."
  },
  {
   "property": "C88",
   "status": "partial",
   "theorems": [
    "Verif.C88_byte_iff",
    "Verif.C88_class_iff",
    "Verif.C88_word",
    "Verif.C88_char",
    "Verif.C88_bpe",
    "Verif.C88_char_float_partial",
    "Verif.C88_bpe_float_partial",
    "Verif.C88_defaults_refuted",
    "Verif.C88_class_partial",
    "Verif.C88_byte_refuted",
    "Verif.C88_word_iff",
    "Verif.C88_char_iff",
    "Verif.C88_bpe_iff"
   ],
   "note": "Exactly which texts are restored, for any -mf and size: C88_word_iff, C88_char_iff (-cv 0) and C88_bpe_iff (-cv 0). Proved for word (defaults), char (-mf 1 -cv 0) and bpe (-cv 0, when learning succeeds) in any arithmetic; with -cv 1.0 in binary64 for texts with (distinct characters)*(characters) below 2^51; class exactly for texts that are not empty and have no inner tab (-idx) or no inner white space (pieces) in a line (C88_class_iff); bytes exactly for files without code points below 16. Refuted for char with the defaults (characters seen fewer than 20 times are cut) and for bytes."
  },
  {
   "property": "C89",
   "status": "partial",
   "theorems": [
    "Verif.C89_class_refuted",
    "Verif.C89_kept_partial",
    "Verif.C89_iff"
   ],
   "note": "Exact (C89_iff): a failed run changes the model file just when a class vocabulary is learned from an input without a label (nothing, or with -tfs only the header); the file is then empty. In all other cases, for all levels, on text and on -tfs input, well-formed or not, it is kept and nothing is written."
  },
  {
   "property": "C90",
   "status": "partial",
   "theorems": [
    "Verif.C90_value",
    "Verif.C90_lower_partial",
    "Verif.C90_refuted",
    "Verif.C90_skipped_refuted",
    "Verif.C90_marker",
    "Verif.C90_marker_refused"
   ],
   "note": "The value is ceil(items / max_toks) (exact below 2^53 items); it ignores lengths and skipped records, so it is refuted as a count (both directions). It is a lower bound when no record has an empty column. val_exists_at is characterised fully."
  },
  {
   "property": "C91",
   "status": "partial",
   "theorems": [
    "Verif.C91_file_partial",
    "Verif.C91_directory_partial",
    "Verif.C91_str_refuted",
    "Verif.C91_random_refuted",
    "Verif.C91_refused"
   ],
   "note": "For stored values up to 2^53 and two fields, when no full record is oversized and every one can be marked; equal-length mode needs a full record (in every part). Refuted: a str path to a directory raises AttributeError; sort_by='random' shuffles nothing."
  },
  {
   "property": "C92",
   "status": "partial",
   "theorems": [
    "Verif.C92_coverage_partial",
    "Verif.C92_freqs_partial",
    "Verif.C92_distinct_partial",
    "Verif.C92_types_partial",
    "Verif.C92_order_refuted",
    "Verif.C92_bpe_order_refuted",
    "Verif.C92_bpe_partial"
   ],
   "note": "Refuted: ties between frequencies are broken by the order of first occurrence, for words, characters and BPE. Proved: the frequencies by position, the reserved types and every type more frequent than some learned type are independent of the order; so is the whole table when the frequencies differ (for BPE: of the characters, and no word contains a block three times in a row). C92_coverage_partial: BPE with a coverage limit."
  },
  {
   "property": "C93",
   "status": "partial",
   "theorems": [
    "Verif.C93_corpus",
    "Verif.C93_first_partial",
    "Verif.C93_refuted"
   ],
   "note": "Refuted: learning merges in order of frequency, encoding takes the longest match from the left ('abc' is left as a, bc▁ but encoded ab, c, ▁). Proved: what learning leaves (C93_corpus), the first piece of the encoding is at least as long as the first type left, and a word left as one type is encoded as that type."
  },
  {
   "property": "C94",
   "status": "partial",
   "theorems": [
    "Verif.C94_exact_partial",
    "Verif.C94_truncated_refuted",
    "Verif.C94_own_input_refuted",
    "Verif.C94_no_output"
   ],
   "note": "Exact when every input can be read, is not an output, and some line exists, none with the word <!S!> (C64), and the tables are different files. Refuted: argparse opens outputs while parsing, so failed runs empty existing tables, and an input that is also an output is read as empty."
  },
  {
   "property": "C95",
   "status": "partial",
   "theorems": [
    "Verif.C95_two_steps",
    "Verif.C95_dedup_refuted"
   ],
   "note": "The equality with nlcodec-learn is proved for all levels and options, for inputs with at least one line (saved model and error alike). The equality with learning from the text is refuted: nlcodec-freq counts a repeated line once by default."
  },
  {
   "property": "C96",
   "status": "proved",
   "theorems": [
    "Verif.C96_accepts"
   ],
   "note": "Both directions, and the kind of exception; the message is not modelled."
  },
  {
   "property": "C97",
   "status": "partial",
   "theorems": [
    "Verif.C97_batches_partial",
    "Verif.C97_learned",
    "Verif.C97_decoded",
    "Verif.C97_columns_refuted",
    "Verif.C97_missing"
   ],
   "note": "Proved for word, char and BPE models, cutting as well as dropping, sequential batches and batches of equal length (limits of at least 1), when no partition is empty (C66) and tables have at most 2^53 entries; C97_learned covers the options of nlcodec learn without coverage cut (with a size limit, if it leaves room). Refuted: --src-col and --tgt-col are not used."
  },
  {
   "property": "C98",
   "status": "partial",
   "theorems": [
    "Verif.C98_bpe_line",
    "Verif.C98_word",
    "Verif.C98_char",
    "Verif.C98_bpe_partial",
    "Verif.C98_reserved_refuted"
   ],
   "note": "word and char: any text, any options, both modes. bpe: whenever learning succeeds, for texts without U+2581 whose unknown characters do not occur in the reserved names (an unknown '<s>' comes back as '<s>': C98_reserved_refuted)."
  },
  {
   "property": "C99",
   "status": "proved",
   "theorems": [
    "Verif.C99_learn",
    "Verif.C99_code",
    "Verif.C99_learn_invalid",
    "Verif.C99_learn_exception",
    "Verif.C99_code_invalid",
    "Verif.C99_restore",
    "Verif.C99_word",
    "Verif.C99_bpe",
    "Verif.C99_restore_iff",
    "Verif.C99_word_iff",
    "Verif.C99_char_iff",
    "Verif.C99_model",
    "Verif.C99_model_code",
    "Verif.C99_learn_byte"
   ],
   "note": "Assumes a UTF-8 locale with strict error handling for standard streams and argparse files, as the model does. C99_learn and C99_code: valid input; C99_learn_invalid and C99_code_invalid: invalid input; the byte level reads no input when learning (C99_learn_byte). C99_model and C99_model_code: model files of arbitrary bytes, read with what is not UTF-8 left out. C99_restore, C99_word and C99_bpe carry C88 over to bytes. C99_learn_exception: which exception ends learning from invalid input. C99_restore_iff, C99_word_iff, C99_char_iff: exactly which files come back."
  },
  {
   "property": "C100",
   "status": "proved",
   "theorems": [
    "Verif.C100_learned",
    "Verif.C100_word",
    "Verif.C100_line",
    "Verif.C100_size_needed",
    "Verif.C100_coverage_needed"
   ],
   "note": "C100_learned and C100_word for any options under which learning stops before the size; C100_line for a threshold of two or more with neither size nor coverage. The conditions are needed (C100_size_needed, C100_coverage_needed). C100_line is stated for texts of fewer than 2^60 characters, since the size is then sys.maxsize."
  },
  {
   "property": "C101",
   "status": "partial",
   "theorems": [
    "Verif.C101_fits_partial",
    "Verif.C101_load_partial",
    "Verif.C101_refuted",
    "Verif.C101_text_partial",
    "Verif.C101_coverage_partial"
   ],
   "note": "Refuted for every number of free frames: get_node, size and data_node_count recurse along the names. With a limit of 1000 a word of about 500 characters seen often enough makes nlcodec learn fail after learning, without a model. Partial: the exact length up to which schemes are built. The number of frames per level (2, or 3 for some versions of Python) is a parameter. C101_text_partial: in terms of the text, words that fit in the frames with two more characters are enough, whatever is learned (by C126). C101_coverage_partial: with a coverage limit, characters left out count as five."
  },
  {
   "property": "C102",
   "status": "partial",
   "theorems": [
    "Verif.C102_text",
    "Verif.C102_valid",
    "Verif.C102_lines",
    "Verif.C102_lines_gz",
    "Verif.C102_round_trip",
    "Verif.C102_gz_round_trip",
    "Verif.C102_surrogates",
    "Verif.C102_shrink",
    "Verif.C102_words_partial",
    "Verif.C102_gz_refuted",
    "Verif.C102_chars",
    "Verif.C102_bpe",
    "Verif.C102_compressed_partial",
    "Verif.C102_gz_class_refuted"
   ],
   "note": "Proved: the text read is the one specified (maximal subparts, section 3.9 of the Unicode standard) and no other, for all bytes and chunks; lines; round trips; shrink_vocab for every scheme on files of any bytes; the same result whether compressed or not and in whatever chunks, for word vocabularies, and for char and BPE vocabularies like the learned ones (C102_compressed_partial: space marker reserved, and only at the end of names). Refuted for the byte and class schemes, because carriage returns become line feeds only in .gz files (C102_gz_refuted, C102_gz_class_refuted). Compression itself is not modelled."
  },
  {
   "property": "C103",
   "status": "partial",
   "theorems": [
    "Verif.C103_work",
    "Verif.C103_rounds_partial",
    "Verif.C103_copied",
    "Verif.C103_quadratic",
    "Verif.C103_copied_refuted"
   ],
   "note": "Proved: the exact number of rounds and of copied characters, in terms of the greedy segmentation; at most L + 1 rounds for each id when no name is longer than L, so the rounds are linear in the line. Refuted: the characters copied are quadratic, n(n-1)/2 for a text of n pieces of one character, with every vocabulary that has a character beginning no longer name. Not counted: appending, comparing, hash look-ups, and the join, strip and split that prepare the text."
  },
  {
   "property": "C104",
   "status": "proved",
   "theorems": [
    "Verif.C104_pieces",
    "Verif.C104_ids",
    "Verif.C104_text"
   ],
   "note": ""
  },
  {
   "property": "C105",
   "status": "partial",
   "theorems": [
    "Verif.C105_kept_partial",
    "Verif.C105_lost",
    "Verif.C105_iff_partial",
    "Verif.C105_text_refuted",
    "Verif.C105_rounded_refuted"
   ],
   "note": "C105_iff_partial: exactly which ids are kept (all below 2^63, or all at least 2^63, or all exact in binary64). Refuted for texts (TypeError, for every database with such an id) and for numbers on both sides of 2^63 (a record is returned twice and another never, or KeyError). Ids of more than 64 bits and fields of 2^32 or more elements are not modelled."
  },
  {
   "property": "C106",
   "status": "partial",
   "theorems": [
    "Verif.C106_proper_partial",
    "Verif.C106_improper_refuted",
    "Verif.C106_multipart_partial",
    "Verif.C106_multipart_load",
    "Verif.C106_multipart_left",
    "Verif.C106_refuted"
   ],
   "note": "C106_proper_partial and C106_multipart_partial: exactly the names accepted by namedtuple, or a given record type. Refuted for all others (C106_improper_refuted); 'from' is such a name. str.isidentifier is a parameter."
  },
  {
   "property": "C107",
   "status": "proved",
   "theorems": [
    "Verif.C107_read",
    "Verif.C107_decode",
    "Verif.C107_freqs"
   ],
   "note": "The model's noneKid outcome (C14) counts as not read: the code reads such a file with None among the kids. The limit of 4300 digits is not modelled. The table of digits is that of Unicode 14."
  },
  {
   "property": "C108",
   "status": "partial",
   "theorems": [
    "Verif.C108_refuted",
    "Verif.C108_partial"
   ],
   "note": "C108_partial gives the outcome in all cases. Refuted: a node that has a neighbour is never equal to anything, not even itself: the comparison of its neighbour comes back to it until RecursionError; at ends that do not match None is asked for its value (AttributeError). A call of == counts as one nested call."
  },
  {
   "property": "C109",
   "status": "proved",
   "theorems": [
    "Verif.C109_repr",
    "Verif.C109_from_seq",
    "Verif.C109_delete"
   ],
   "note": ""
  },
  {
   "property": "C110",
   "status": "proved",
   "theorems": [
    "Verif.C110_linux",
    "Verif.C110_darwin"
   ],
   "note": "getrusage and sys.platform are parameters. Division of integers is correctly rounded in Python, modelled by rnd64 (shown to be round-to-nearest-even)."
  },
  {
   "property": "C111",
   "status": "proved",
   "theorems": [
    "Verif.C111_report",
    "Verif.C111_empty"
   ],
   "note": "Copies between processes as in C55; the order of equally frequent words is not stated. Encoding of the output is not modelled."
  },
  {
   "property": "C112",
   "status": "partial",
   "theorems": [
    "Verif.C112_partial",
    "Verif.C112_ids_partial",
    "Verif.C112_refuted",
    "Verif.C112_iff"
   ],
   "note": "C112_partial: exactly the type that is chosen, for every buffer size: the narrowest signed type that holds every flushed part, where a part without negative values counts with twice its width; float64 if none does. C112_ids_partial: the usual case of ids. Refuted: [7] is stored in 16 bits, since the data start as an empty int8 array and uint8 is promoted with it to int16. C112_iff: for values that fit into the buffer, the type is the narrowest exactly if there are none or one is negative (and all have 64 bits)."
  },
  {
   "property": "C113",
   "status": "proved",
   "theorems": [
    "Verif.C113_make",
    "Verif.C113_load"
   ],
   "note": "C113_make: accepted tables; otherwise AssertionError, or IndexError with fewer than six types. C113_load: exact condition on the lines and the header. Kids of any depth; the recursion limit for deep kids is C101. JSON parsing of the header is a parameter."
  },
  {
   "property": "C114",
   "status": "partial",
   "theorems": [
    "Verif.C114_fewer_rounds",
    "Verif.C114_vocab_partial",
    "Verif.C114_learned_partial",
    "Verif.C114_small_refuted",
    "Verif.C114_codes_partial",
    "Verif.C114_bpe_partial",
    "Verif.C114_bpe_refuted",
    "Verif.C114_same_order",
    "Verif.C114_coverage_partial",
    "Verif.C114_cover_refuted"
   ],
   "note": "C114_vocab_partial, C114_learned_partial: words and characters, for size limits that are absent or at least 6, any coverage. C114_codes_partial, C114_bpe_partial: merging, for sequences without a block three times in a row, any two orders of the sets. C114_same_order and C114_fewer_rounds: all sequences if the sets are visited in the same order. Refuted: size limits from 1 to 5 keep more types than limit 7 (C114_small_refuted); two orders of the sets on 'aaab' (C114_bpe_refuted). C114_coverage_partial: merging with the same coverage limit in both runs; refuted for different coverages (C114_cover_refuted)."
  },
  {
   "property": "C115",
   "status": "proved",
   "theorems": [
    "Verif.C115_part",
    "Verif.C115_again",
    "Verif.C115_bound_needed"
   ],
   "note": "Reserved types are supposed to have level -1, as in C29. C115_bound_needed: with minimal frequency 2 the second shrinking may remove more, since the first changes the segmentation."
  },
  {
   "property": "C116",
   "status": "proved",
   "theorems": [
    "Verif.C116_word",
    "Verif.C116_char",
    "Verif.C116_bpe",
    "Verif.C116_bpe_covered",
    "Verif.C116_class",
    "Verif.C116_byte"
   ],
   "note": "For bytes: lines that can be encoded."
  },
  {
   "property": "C117",
   "status": "partial",
   "theorems": [
    "Verif.C117_l1_name",
    "Verif.C117_failed",
    "Verif.C117_failed_learn_partial",
    "Verif.C117_learn1",
    "Verif.C117_learn2_partial",
    "Verif.C117_alias",
    "Verif.C117_learn",
    "Verif.C117_encode_partial",
    "Verif.C117_encode_same",
    "Verif.C117_half_done_refuted",
    "Verif.C117_alias_refuted",
    "Verif.C117_again_refuted",
    "Verif.C117_encode_refuted"
   ],
   "note": "Proved on a model of a tree of files without links: learn1 and learn2 leave no trace when they fail; what each command writes and that nothing else changes; the name with .l1 for every path. False, with witnesses: a learn that fails at level 2 has already replaced the old vocabulary; two different paths to one file lose the level 1 vocabulary; so does a second learn2 on the same path; encode onto its input, or with a missing vocabulary, empties the output file."
  },
  {
   "property": "C118",
   "status": "proved",
   "theorems": [
    "Verif.C118_number",
    "Verif.C118_error",
    "Verif.C118_exact",
    "Verif.C118_monotone",
    "Verif.C118_one",
    "Verif.C118_table",
    "Verif.C118_ranked"
   ],
   "note": "The format :g is modelled for rational numbers that are not negative and compared with an independent reader of decimal numerals. json.loads is a parameter of which only is assumed that it reads what json.dumps writes. A 1 in the table may stand for a number just below 1 (C118_one)."
  },
  {
   "property": "C119",
   "status": "partial",
   "theorems": [
    "Verif.C119_lists",
    "Verif.C119_pairs_partial",
    "Verif.C119_items_partial",
    "Verif.C119_items_refuted",
    "Verif.C119_missing"
   ],
   "note": "Proved for keys, lengths and len; for values and pairs as far as C35 holds. False for items: it yields the sequences without their ids (C119_items_refuted); what it yields is the same as values. C119_missing: any field, also one whose ids lack references."
  },
  {
   "property": "C120",
   "status": "partial",
   "theorems": [
    "Verif.C120_counts_partial",
    "Verif.C120_no_lines",
    "Verif.C120_byte_refuted"
   ],
   "note": "Proved for word, character and bpe models, in binary64, for every order in which numpy may add. False for byte models: they have no unk_idx, so the estimate fails wherever encode goes through. For class models unk_count is the count of the last class (C60_class_refuted)."
  },
  {
   "property": "C121",
   "status": "proved",
   "theorems": [
    "Verif.C121_rounds",
    "Verif.C121_words",
    "Verif.C121_order_needed"
   ],
   "note": "No condition on the text. The order of the sets must be the same in the rounds that both runs have (C121_order_needed)."
  },
  {
   "property": "C122",
   "status": "partial",
   "theorems": [
    "Verif.C122_parallel",
    "Verif.C122_class",
    "Verif.C122_pieces",
    "Verif.C122_until_failure",
    "Verif.C122_byte_refuted",
    "Verif.C122_byte_iff"
   ],
   "note": "Proved for word, char, bpe (C122_parallel), class (C122_class); what is yielded before a failure for all schemes (C122_until_failure). Refuted for bytes: encode_all drops the white space around lines, with the line feed (C122_byte_refuted). C122_byte_iff: for bytes the sequences are the same exactly if no line begins or ends with white space."
  },
  {
   "property": "C123",
   "status": "proved",
   "theorems": [
    "Verif.C123_accepts",
    "Verif.C123_refuses",
    "Verif.C123_tables",
    "Verif.C123_same",
    "Verif.C123_names",
    "Verif.C123_command"
   ],
   "note": "Proved for all tables. Integers are taken not to be negative, and keys and values to be code points as the annotations say."
  },
  {
   "property": "C124",
   "status": "proved",
   "theorems": [
    "Verif.C124_raw_aligned",
    "Verif.C124_first_row",
    "Verif.C124_items"
   ],
   "note": "The first row alone decides whether texts are listed, so sorting can make them disappear (C124_first_row). The methods that subscripting also finds are left out."
  },
  {
   "property": "C125",
   "status": "partial",
   "theorems": [
    "Verif.C125_matrix_partial",
    "Verif.C125_refuted",
    "Verif.C125_exceptions"
   ],
   "note": "Refuted: numpy arrays have no unsqueeze and no to, so every call raises. C125_matrix_partial: the matrix computed before the failing step is right. C125_exceptions: which exceptions are raised."
  },
  {
   "property": "C126",
   "status": "proved",
   "theorems": [
    "Verif.C126_occurs",
    "Verif.C126_plain"
   ],
   "note": "Spec/Occurs counts the places where a string begins. Induction over the merges: the text of the sequences does not change, so pairs of neighbours are counted against places of the text. C126_plain: without coverage limit, the words as they are."
  },
  {
   "property": "C127",
   "status": "proved",
   "theorems": [
    "Verif.C127_word",
    "Verif.C127_char",
    "Verif.C127_class",
    "Verif.C127_byte",
    "Verif.C127_bpe",
    "Verif.C127_learned",
    "Verif.C127_no_words"
   ],
   "note": "All schemes. The byte scheme: for every line that it can encode at all (C08). A line without words is one id with BPE (C127_no_words), none with words and characters."
  },
  {
   "property": "C128",
   "status": "proved",
   "theorems": [
    "Verif.C128_word",
    "Verif.C128_char",
    "Verif.C128_bpe",
    "Verif.C128_learned",
    "Verif.C128_byte"
   ],
   "note": "BPE: for all tables with the marker only at the ends of names (C128_bpe), so for all learned ones (C128_learned); C81_marker_needed shows that this is needed."
  },
  {
   "property": "C129",
   "status": "proved",
   "theorems": [
    "Verif.C129_iff",
    "Verif.C129_always",
    "Verif.C129_learned"
   ],
   "note": "The draws are a sequence of booleans (`random() < split_ratio`), one per visited type with kids; their probabilities are not modelled. C129_learned: every learned vocabulary meets the hypotheses."
  },
  {
   "property": "C130",
   "status": "proved",
   "theorems": [
    "Verif.C130_never",
    "Verif.C130_always",
    "Verif.C130_between",
    "Verif.C130_text",
    "Verif.C130_learned"
   ],
   "note": "random.random() is k/2^53 with k < 2^53 (assumed of the Python library); the ratio is the exact value of the float or nan. C130_between uses that a float below 1 is at most 1 - 2^-53. Probabilities are not modelled."
  },
  {
   "property": "C131",
   "status": "partial",
   "theorems": [
    "Verif.C131_bpe_partial",
    "Verif.C131_bpe_iff",
    "Verif.C131_learned",
    "Verif.C131_char_iff",
    "Verif.C131_bpe_refuted"
   ],
   "note": "BPE, if only reserved names have a \"<\": C131_bpe_iff says exactly which lines keep their encoding (no U+2581 at the ends of a word nor next to another), known characters or not; so for every vocabulary learned without coverage limit from text without \"<\" (C131_learned). Refuted with \"a<\" in the vocabulary. Characters: exactly if all characters are known (C131_char_iff, lines without U+2581). Words: C11_word_stable."
  },
  {
   "property": "C132",
   "status": "partial",
   "theorems": [
    "Verif.C132_word",
    "Verif.C132_bpe_partial",
    "Verif.C132_bpe_iff",
    "Verif.C132_bpe_refuted",
    "Verif.C132_char_partial",
    "Verif.C132_char_refuted",
    "Verif.C132_class_partial",
    "Verif.C132_class_refuted"
   ],
   "note": "Words: every text, both formats. Characters: every text without U+2581 as pieces, and as ids if all characters are known; unknown characters as ids are refuted (C132_char_refuted). BPE, if only reserved names have a \"<\": exactly the texts in which no word has U+2581 at an end or next to another one (C132_bpe_iff); otherwise refuted (C132_bpe_refuted). Classes: known labels as ids, labels that are blank or one token as pieces; refuted for labels of two words as pieces (C132_class_refuted)."
  }
 ]
}
