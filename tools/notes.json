{
 "C01": {
  "note": "Any accepted table, any line. Also covers unknown tokens. A line is restored if and only if all its words are in the vocabulary (C01_word_iff)."
 },
 "C02": {
  "note": "Any accepted table, any line; lossless case for covered lines without U+2581. A line is restored if and only if its characters are in the vocabulary and none is U+2581 (C02_char_iff)."
 },
 "C03": {
  "note": "Hypothesis Indexed (types at their own index, which read_vocab and the learners guarantee; the constructor does not check it). Uniqueness of the greedy segmentation is proved, and that an empty name (rejected by the constructor) would make the loop diverge."
 },
 "C04": {
  "note": "Hypothesis Indexed as in C03."
 },
 "C05": {
  "note": "word, char, bpe: encode never fails and ids are in range; byte: whenever it succeeds, and decoding then fails at most with the ValueError of invalid UTF-8; class: in range or -1. Indices at their own position are needed (C05_index_needed)."
 },
 "C06": {
  "note": "All draw outcomes (oracle). Hypotheses hold for learned tables (C22)."
 },
 "C07": {
  "note": "Exact enumeration without repetition; stochastic splits are exactly the enumerated ones."
 },
 "C11": {
  "note": ""
 },
 "C08": {
  "note": "Encoding is UTF-8 for every scalar text. The round trip is refuted: bytes below 0x10 are named with one hex digit, so e.g. a line feed or tab does not decode. C08_byte_round_trip_iff: a text is restored if and only if it has no code point below 16 (no other condition)."
 },
 "C09": {
  "note": "C09_byte_separators_iff: restored if and only if no text has a code point below 16 (see C08), whatever the arrangement; refuted otherwise. Encoding never produces a reserved id."
 },
 "C10": {
  "note": "Refuted: an unseen label is encoded as -1 and decoded as the greatest known label (C10_unseen_is_last for every corpus). Seen labels round trip (_partial). Decoding joins labels by commas (C10_labels_joined_partial). So exactly the labels of the training data come back (C10_iff)."
 },
 "C15": {
  "note": "Full contract proved for any coverage arithmetic; size bound proved for vocab_size >= 6, refuted for 0 < vocab_size < 6 (negative slice). A vocab_size bounds the size if and only if it is at least 6 (C15_size_iff). Exactly when all terms are kept: C15_all_iff."
 },
 "C16": {
  "note": "Exact, for any coverage arithmetic and also negative slices; also the exact credit of <unk>, and the exact loss when the line count is unknown (-1)."
 },
 "C17": {
  "note": "Prefix and mass for any arithmetic; shortest prefix in exact arithmetic; refuted in binary64 (12 equal types, coverage 0.5). In binary64 both bounds hold up to n/2^51 for n <= 2^50 types (C17_float_partial), and coverage 1.0 cuts nothing when n times the total is below 2^51 (C17_full_partial)."
 },
 "C18": {
  "note": ""
 },
 "C19": {
  "note": "word, char, class, byte: learning always succeeds and the table is accepted; bpe: every learned table is accepted."
 },
 "C12": {
  "note": "Exact condition on names (each excluded character is shown to be needed). json is a parameter with laws; a concrete codec meeting them is given (pyJson_laws). The empty table is refused. C12_iff: exactly the non-empty, indexed tables with earlier kids and such names come back."
 },
 "C13": {
  "note": "Same scheme structure (kind, table, dictionary, trie), exactly for names without tab, line break and surrogate (C13_save_load_iff); a saved file never loads as another kind (C13_kind). C13_iff: exactly which schemes come back. Refuted for the class scheme learned from no data (save raises) and for class labels with an inner tab (file does not load)."
 },
 "C14": {
  "note": "Refuted: a negative kid number may denote an entry not read yet (None), which is accepted. Otherwise every file that is read gives a well-formed table."
 },
 "C31": {
  "note": "json is a parameter with laws, met by pyJson. C31_iff: exactly the tables whose terms have no tab, no line feed and no white space at the ends come back."
 },
 "C32": {
  "note": "Frequency table in any order, with or without a coverage limit (C32_coverage: any arithmetic). Equal reserved types, equal frequency list; entries differ only by exchange of equally frequent words at the size or coverage limit, and not at all without one."
 },
 "C20": {
  "note": "For every set iteration order (a permutation chosen anew in each round). The array heap of heapq, stale heap entries, the linked lists and the index sets are all modelled; the result is a run of the abstract most-frequent-pair specification. C20_text starts from raw lines."
 },
 "C21": {
  "note": "For non-empty corpora; a text without tokens always raises, ValueError or, if no room is left beside the reserved types, AssertionError (C21_empty_text_raises)."
 },
 "C22": {
  "note": "Also from raw text: reserved types first, no empty names, size bound."
 },
 "C23": {
  "note": ""
 },
 "C24": {
  "note": "Refuted: overlapping pairs of equal symbols ('aaab') are replaced in set order, which changes the vocabulary. Proved, for every set order and every order of the words, when no word contains a block three times in a row (also for failing runs), and when no learned type has two equal parts. C24_coverage_partial: with a coverage limit the same holds of the words with all characters outside the vocabulary replaced by one character; C24_masked_refuted shows that this replacement is needed ('b b b b xyzb')."
 },
 "C25": {
  "note": "Refuted: IndexError from the empty heap when every sequence has become one symbol; with a threshold and no size this happens for every text all of whose words reach the threshold (C25_frequent_refuted). The partial theorems show that this is the only way to fail and give sufficient conditions, such as a character rarer than the threshold (C25_rare_partial), or a word of the text that fewer words end in than the threshold asks (C25_suffix_partial)."
 },
 "C26": {
  "note": "Follows CPython's heapq (sift functions on the array) for every history of push, pop, peek and len."
 },
 "C27": {
  "note": "Refuted: min_freq is ignored at the bpe level; min_co_ev is ignored at the level named 'subword'. Proved: min_co_ev at level 'bpe'."
 },
 "C28": {
  "note": "Any corpus of lines and any table accepted by the scheme; also that an empty corpus raises."
 },
 "C29": {
  "note": "All five schemes; hypothesis that reserved types have level -1, which learned and loaded tables of this library have."
 },
 "C30": {
  "note": "C30_loads and C30_iff say exactly what the saved file loads as: the kind of the highest level left. It is the same kind when that level is the one of the kind (_partial), as for learned word and char tables of which some type is kept. Refuted for bpe, class and byte: the shrunk table is no longer accepted or encodes differently; and when only reserved types are left the file loads as a class scheme (C30_reserved_refuted)."
 },
 "C33": {
  "note": "Lookup, node sets, data_node_count and size. Python's recursion limit in size/data_node_count is not modelled."
 },
 "C71": {
  "note": "All schemes; also out of range ids raise and negative ids wrap."
 },
 "C72": {
  "note": "Proved for char and byte; refuted for word and bpe (text that spells <s> or </s>); _partial: exactly/only when the control token is spelled out. C72_bpe_iff: if only reserved names have a '<', a control id is made exactly if its token stands in a word; C72_bpe_learned: so for every model learned (without coverage limit) from a text without '<'."
 },
 "C73": {
  "note": "Refuted: text with <s> makes a second type named <s>, and on plain text with a block three times in a row ('aaa') two merges may spell the same name, depending on the set order. Proved for every set order when no word contains such a block or a reserved name (C73_coverage_partial: also with a coverage limit, for the words with the characters left out replaced by one character): segments of the corpus with equal text are equal, an invariant of every merge. In general: unmerged types have distinct names and no pair is merged twice. C73_reachable says what a repeated name means: exactly the types whose name an earlier type has can never be produced by encoding."
 },
 "C35": {
  "note": "Refuted in general: a uint64 column is promoted to float64 (numpy promotion with the empty int8 start array), so integers above 2^53 can change. A sequence is read back unchanged if and only if the field has an integer type or all its values are binary64 numbers (C35_iff); in a float64 field every value comes back as the nearest binary64 number, ties to even (C35_nearest_partial). values() yields the sequences in order (C35_values_partial)."
 },
 "C38": {
  "note": "Values above 2^53 can change (C35); for all other values, length, lookup, KeyError for other ids and iteration in every set order are proved. A record is looked up unchanged if and only if each column is in a field of integer type or consists of binary64 numbers (C38_iff)."
 },
 "C39": {
  "note": "Refuted: random.shuffle of a set of two or more ids raises TypeError; likewise for every multi-part database read from disk with parts of two or more records. Partial: one record; multi-part databases kept in memory, of one part, or with parts of one record yield every record exactly once for every shuffle (values up to 2^53). A shuffled database in one file gives its records if and only if there is one (C39_iff)."
 },
 "C45": {
  "note": "All set orders and both shuffles. Exact condition for success; before shuffling, records are in order of length and a batch is closed only if the next record does not fit. Multi-part databases: same, for every shuffle of the parts, if every part has a record without empty columns. That the ids survive the numpy array they are stored in is C105."
 },
 "C46": {
  "note": "Refuted for equal-length batching: max_sents + 1 records are possible (the comparison is >, made before adding); max_sents + 1 is proved as bound. Proved for sequential batching. C46_eq_len_iff: when max_sents + 1 of the longest records have room in max_toks, every batch but the last has exactly max_sents + 1 records, and the limit is kept exactly if there are at most max_sents records without empty columns."
 },
 "C47": {
  "note": "Two-column records; groups characterised exactly."
 },
 "C48": {
  "note": "Sequential: proved. Equal-length: proved if some record has no empty column; if every record has one, IndexError for every such database (refuted). The sequential iterator also raises if a requested begin or end marker cannot be given (hypothesis Markable)."
 },
 "C49": {
  "note": "Also the transpose for batch_first=False. Integer matrices as lists of lists."
 },
 "C50": {
  "note": "Exact failure conditions; a batch applies the check to each side."
 },
 "C51": {
  "note": "Refuted: markers are added after the budget was checked. Proved: at most max_toks + (records) x (markers) cells, so within max_toks if no markers are requested."
 },
 "C52": {
  "note": "Stable sort."
 },
 "C40": {
  "note": "Sizes of at least one; the chunks are unique. Size 0 loses the stream silently, negative sizes are refused."
 },
 "C41": {
  "note": "Any part size and max_parts of at least one, any listing order, loading mode and starting directory. Partial: values up to 2^53 (C35), at least one record; refuted for no records (load raises AssertionError after a complete write). Pickle and json are assumed to read back completely written files."
 },
 "C42": {
  "note": "All part numbers and paddings, also across different paddings."
 },
 "C43": {
  "note": "Refuted: when overwriting, rmtree may remove a part before the flag, and load then succeeds though parts are missing. Partial: in a new or empty directory loading succeeds only after an uninterrupted, successful write; after any history of interrupted writes, an iteration that completes yields exactly the records of one attempt. A file cut short is assumed unreadable."
 },
 "C44": {
  "note": "Any previous directory contents."
 },
 "C53": {
  "note": "Generators as lists of yielded pairs with an optional final exception; any default, any value of the placeholder before the loop."
 },
 "C54": {
  "note": "The lazy chain of generators is modelled with its own state per level; termination and the result are proved for streams of any length."
 },
 "C55": {
  "note": "In one process dictionaries are references into a heap, so sharing of the default is visible; over processes they are copied values. An empty list of lines raises AssertionError (C54_empty covers it)."
 },
 "C56": {
  "note": "Pool.imap is modelled from its documentation and IMapIterator (chunks, results put back in order by index); the completion order is any permutation. n_cpus <= 1 raises AssertionError."
 },
 "C57": {
  "note": "Windows characterised by prefix and suffix; the table of all sentences by the number of positions."
 },
 "C58": {
  "note": "Floats are rationals with a rounding: range, definedness, exchange and identity hold for every monotone rounding exact on small counts, and binary64 (nearest, ties to even) is proved to be one; 'F1 is between its arguments' holds in exact arithmetic but fails in binary64 by one unit in the last place (witness 0.2, 0.2). In binary64 F1 is the harmonic mean up to a relative error of 2^-51 (C58_f1_float_partial). Overflow and underflow are not modelled. sum() is summed from left to right (Python before 3.12)."
 },
 "C68": {
  "note": "Percentages add up to 100 in exact arithmetic; a corpus without tokens raises ZeroDivisionError."
 },
 "C74": {
  "note": "main calls count_gram_recall without n, so every table is about single types; proved by witness, and what is written is characterised for every n."
 },
 "C59": {
  "note": "Counts are rationals and divergences real numbers; all measures are covered again in binary64, for any order in which numpy adds and, for kl_div and js_div, for every logarithm within four units in the last place. EMD_simple, earth_mov_dist and the whole estimate (up to 2^26 types and 2^51 tokens): value in [0, 1), error at most (k+4)/2^53, 0 exactly for equal counts; the bound 1 - 1/k itself can be exceeded by rounding. js_div (up to 2^26 entries): error at most (2n+32)/2^53, symmetric, 0 for equal vectors; kl_div: error bounded by the sizes of its terms, 0 for equal vectors. Both are negative by about 10^-17 on distributions that differ in the last places (C59_kl_float_refuted, C59_js_float_refuted). js_div and the validated earth_mov_dist fail with numpy 1.24 or later (np.float was removed); kl_div does not check lengths and can be negative on vectors of different lengths. Limits of the exponent (underflow, overflow) are not modelled."
 },
 "C60": {
  "note": "Proved for word, char and bpe schemes over any non-empty list of lines, in terms of the pieces and of the words of the text. The byte scheme has no unk_idx (AttributeError); the class scheme's unk_idx is -1, so the count of the last class is reported as unknowns."
 },
 "C61": {
  "note": "Exact for every table, data and set order: lengths, means and the sequence of corpora are right; each unigram count is the true count less a shortfall, which is given in closed form: for every merge of a symbol with itself, twice the number of its overlapping occurrences that are not replaced (line 171 of bpe_len.py has the wrong sign; witness: count -1). So counts and imbalances are right exactly as long as the shortfalls are 0. np.long is assumed to exist. In binary64 (C61_float_partial, for any order of additions in numpy, up to 2^26 types and 2^51 pieces) the means are the nearest floats, and imbalances of rows without negative counts are within (k + 4) / 2^53, in [0, 1) and 0 exactly for equal counts."
 },
 "C70": {
  "note": "Pieces and decoding agree always, ids when names are distinct; with repeated names ids differ (witness)."
 },
 "C62": {
  "note": "Word, char and bpe (also with -1 piece mode via the api) are covered for all vocabularies and texts. Class and byte restore only some files, and exactly which is proved: class in index mode if and only if each line is a label of the table, class in piece mode if and only if each line is blank or one word, bytes (both modes) if and only if no code point is below 16, so at most one line without line break (refutations for the rest). Reading and writing of the text files is modelled with universal newlines."
 },
 "C67": {
  "note": "An equivalence: restored iff the marker does not occur; also what the expansion does (markers exactly between adjacent consonants) and the command on whole files."
 },
 "C69": {
  "note": "The exact extent as an equivalence, for the language of the repository (C69_restored_partial) and for every writing system that can be built and whose classes of characters are separate (C69_any_partial); the statement is false for lines with a virama before other characters, word-initial vowel signs, or the marker U+E000, and for writing systems with overlapping classes, which the constructor lets through (C69_overlap_refuted)."
 },
 "C75": {
  "note": "The exact extent as an equivalence, for the language of the repository and for every writing system with separate classes (C75_any_partial); false e.g. for the letter a after a consonant."
 },
 "C63": {
  "note": "Model/Spark. With truncate (C63_truncate) every kept pair is the pair of prefixes of the encodings; without truncate exactly the pairs strictly shorter than the limits are kept, aligned by line (C63_filter_partial): pairs of exactly the maximal length are dropped (C63_limit_refuted); if nothing is left, be it for want of pairs or because all are too long, IndexError is raised (C63_nothing_left_refuted). Spark is modelled by partitions and arbitrary orders."
 },
 "C64": {
  "note": "Counts are exact for lawful reductions in any grouping, if the word <!S!> does not occur and there is at least one line; otherwise see C64_tag_refuted (line count inflated, tag not a word) and C64_empty_refuted."
 },
 "C65": {
  "note": "False: with existing statistics the call gets `inp` twice and raises TypeError (C65_reuse_refuted, C65_second_run_refuted, for all arguments). What works: the first run and the files it leaves (C65_first_run_partial)."
 },
 "C66": {
  "note": "All records are stored if no partition is empty and the number of partitions is respected (C66_stored_partial); an empty partition, or fewer partitions than parts, raises AssertionError (C66_empty_partition_refuted, C66_more_partitions_refuted). So it succeeds if and only if no partition is empty (C66_iff)."
 },
 "C76": {
  "note": "Composition of C63, C66 and the multi-part database theorems, for truncation as well as dropping, reading record by record or in batches of equal length. Missing: runs with fewer pairs than parts (C76_more_parts_refuted). C76_iff: exactly which runs succeed (equal numbers of lines, a kept pair, no empty partition, a new or empty directory)."
 },
 "C77": {
  "note": "word, char, byte (with success of learning), bpe (whatever is learned); for class labels exactly when there is data and no label has an inner tab, line break or surrogate (C77_class_iff); a label with tabs may be loaded as another label without error (C77_label_refuted). Text without surrogates: it comes from UTF-8 files. json by its laws (JsonLaws)."
 },
 "C78": {
  "note": "First runs on texts without the word <!S!>: word equal up to ties at the size limit, byte equal, class equal if labels are single words, bpe a most-frequent-pair run on the exact counts, char by the learning contract on exact counts without spaces. Refuted for char (spaces not counted) and class (labels of several words are split)."
 },
 "C79": {
  "note": "For schemes of kinds word, char, bpe every line encodes; for others under the hypothesis that lines encode. json.dumps (ensure_ascii=False) of lists of ints and strings is modelled and read back by an independent JSON reader."
 },
 "C80": {
  "note": "Composition of the learning contracts, the codec round trips and the file round trip; bpe under the hypothesis that learning succeeds (C25 says when it does not). For words and characters the exact conditions are C80_word_iff and C80_char_iff."
 },
 "C81": {
  "note": "Invariant of the merge run: the marker is only the last character of a name. C81_marker_needed: with the marker in the text the claim fails."
 },
 "C83": {
  "note": "Proved for every corpus up to the first round in which the most frequent pair overlaps with itself (x x in x x x); for corpora without a block repeated three times in a row that never happens and the statement is complete, except that running out of pairs raises ValueError. Otherwise refuted: AssertionError on 'ababab', a ValueError that depends on set order (C83_order_refuted), and stopping too early; with the threshold 0 types of frequency 0 are added (C83_zero_refuted; C83_low_partial otherwise reduces low thresholds to 1). The shape of the table (indices, kids, names, thresholds) is unconditional."
 },
 "C84": {
  "note": "Composition of exact counting, the initial vocabulary and C83, with the same restriction; C84_masked_partial states it for all options on the text, with the characters rarer than char_min_freq identified (without this the condition is not enough, C84_masked_refuted). The names need not occur in the text (C84_names_refuted), and 'hahaha' makes learning fail (C84_hahaha_refuted)."
 },
 "C85": {
  "note": "For tables whose entries stand at their own index; the last of several types with one name is used."
 },
 "C86": {
  "note": "Names without tab, line break and surrogates, header text printable; learned tables satisfy this for texts without surrogates."
 },
 "C87": {
  "note": "learn1 and encode hold as stated. decode is refuted (only the characters of the first line); max_seqs is ignored; -vs2 is a number of merges; learn may fail at level 2 because of a second type named like a reserved one. learn2 with the restriction of C83."
 },
 "C88": {
  "note": "Exactly which texts are restored, for any -mf and size: C88_word_iff, C88_char_iff (-cv 0) and C88_bpe_iff (-cv 0). Proved for word (defaults), char (-mf 1 -cv 0) and bpe (-cv 0, when learning succeeds) in any arithmetic; with -cv 1.0 in binary64 for texts with (distinct characters)*(characters) below 2^51; class exactly for texts that are not empty and have no inner tab (-idx) or no inner white space (pieces) in a line (C88_class_iff); bytes exactly for files without code points below 16. Refuted for char with the defaults (characters seen fewer than 20 times are cut) and for bytes."
 },
 "C89": {
  "note": "Exact (C89_iff): a failed run changes the model file just when a class vocabulary is learned from an input without a label (nothing, or with -tfs only the header); the file is then empty. In all other cases, for all levels, on text and on -tfs input, well-formed or not, it is kept and nothing is written."
 },
 "C90": {
  "note": "The value is ceil(items / max_toks) (exact below 2^53 items); it ignores lengths and skipped records, so it is refuted as a count (both directions). It is a lower bound when no record has an empty column. val_exists_at is characterised fully."
 },
 "C91": {
  "note": "For stored values up to 2^53 and two fields, when no full record is oversized and every one can be marked; equal-length mode needs a full record (in every part). Refuted: a str path to a directory raises AttributeError; sort_by='random' shuffles nothing."
 },
 "C92": {
  "note": "Refuted: ties between frequencies are broken by the order of first occurrence, for words, characters and BPE. Proved: the frequencies by position, the reserved types and every type more frequent than some learned type are independent of the order; so is the whole table when the frequencies differ (for BPE: of the characters, and no word contains a block three times in a row). C92_coverage_partial: BPE with a coverage limit."
 },
 "C93": {
  "status": "partial",
  "note": "Refuted: learning merges in order of frequency, encoding takes the longest match from the left ('abc' is left as a, bc▁ but encoded ab, c, ▁). Proved: what learning leaves (C93_corpus), the first piece of the encoding is at least as long as the first type left, and a word left as one type is encoded as that type."
 },
 "C94": {
  "status": "partial",
  "note": "Exact when every input can be read, is not an output, and some line exists, none with the word <!S!> (C64), and the tables are different files. Refuted: argparse opens outputs while parsing, so failed runs empty existing tables, and an input that is also an output is read as empty."
 },
 "C95": {
  "status": "partial",
  "note": "The equality with nlcodec-learn is proved for all levels and options, for inputs with at least one line (saved model and error alike). The equality with learning from the text is refuted: nlcodec-freq counts a repeated line once by default."
 },
 "C96": {
  "status": "proved",
  "note": "Both directions, and the kind of exception; the message is not modelled."
 },
 "C97": {
  "status": "partial",
  "note": "Proved for word, char and BPE models, cutting as well as dropping, sequential batches and batches of equal length (limits of at least 1), when no partition is empty (C66) and tables have at most 2^53 entries; C97_learned covers the options of nlcodec learn without coverage cut (with a size limit, if it leaves room). Refuted: --src-col and --tgt-col are not used."
 },
 "C98": {
  "note": "word and char: any text, any options, both modes. bpe: whenever learning succeeds, for texts without U+2581 whose unknown characters do not occur in the reserved names (an unknown '<s>' comes back as '<s>': C98_reserved_refuted)."
 },
 "C99": {
  "note": "Assumes a UTF-8 locale with strict error handling for standard streams and argparse files, as the model does. C99_learn and C99_code: valid input; C99_learn_invalid and C99_code_invalid: invalid input; the byte level reads no input when learning (C99_learn_byte). C99_model and C99_model_code: model files of arbitrary bytes, read with what is not UTF-8 left out. C99_restore, C99_word and C99_bpe carry C88 over to bytes. C99_learn_exception: which exception ends learning from invalid input. C99_restore_iff, C99_word_iff, C99_char_iff: exactly which files come back."
 },
 "C100": {
  "note": "C100_learned and C100_word for any options under which learning stops before the size; C100_line for a threshold of two or more with neither size nor coverage. The conditions are needed (C100_size_needed, C100_coverage_needed). C100_line is stated for texts of fewer than 2^60 characters, since the size is then sys.maxsize."
 },
 "C101": {
  "note": "Refuted for every number of free frames: get_node, size and data_node_count recurse along the names. With a limit of 1000 a word of about 500 characters seen often enough makes nlcodec learn fail after learning, without a model. Partial: the exact length up to which schemes are built. The number of frames per level (2, or 3 for some versions of Python) is a parameter. C101_text_partial: in terms of the text, words that fit in the frames with two more characters are enough, whatever is learned (by C126). C101_coverage_partial: with a coverage limit, characters left out count as five."
 },
 "C102": {
  "note": "Proved: the text read is the one specified (maximal subparts, section 3.9 of the Unicode standard) and no other, for all bytes and chunks; lines; round trips; shrink_vocab for every scheme on files of any bytes; the same result whether compressed or not and in whatever chunks, for word vocabularies, and for char and BPE vocabularies like the learned ones (C102_compressed_partial: space marker reserved, and only at the end of names). Refuted for the byte and class schemes, because carriage returns become line feeds only in .gz files (C102_gz_refuted, C102_gz_class_refuted). Compression itself is not modelled."
 },
 "C103": {
  "status": "partial",
  "note": "Proved: the exact number of rounds and of copied characters, in terms of the greedy segmentation; at most L + 1 rounds for each id when no name is longer than L, so the rounds are linear in the line. Refuted: the characters copied are quadratic, n(n-1)/2 for a text of n pieces of one character, with every vocabulary that has a character beginning no longer name. Not counted: appending, comparing, hash look-ups, and the join, strip and split that prepare the text."
 },
 "C105": {
  "note": "C105_iff_partial: exactly which ids are kept (all below 2^63, or all at least 2^63, or all exact in binary64). Refuted for texts (TypeError, for every database with such an id) and for numbers on both sides of 2^63 (a record is returned twice and another never, or KeyError). Ids of more than 64 bits and fields of 2^32 or more elements are not modelled."
 },
 "C106": {
  "note": "C106_proper_partial and C106_multipart_partial: exactly the names accepted by namedtuple, or a given record type. Refuted for all others (C106_improper_refuted); 'from' is such a name. str.isidentifier is a parameter."
 },
 "C107": {
  "note": "The model's noneKid outcome (C14) counts as not read: the code reads such a file with None among the kids. The limit of 4300 digits is not modelled. The table of digits is that of Unicode 14."
 },
 "C108": {
  "status": "partial",
  "note": "C108_partial gives the outcome in all cases. Refuted: a node that has a neighbour is never equal to anything, not even itself: the comparison of its neighbour comes back to it until RecursionError; at ends that do not match None is asked for its value (AttributeError). A call of == counts as one nested call."
 },
 "C110": {
  "note": "getrusage and sys.platform are parameters. Division of integers is correctly rounded in Python, modelled by rnd64 (shown to be round-to-nearest-even)."
 },
 "C111": {
  "note": "Copies between processes as in C55; the order of equally frequent words is not stated. Encoding of the output is not modelled."
 },
 "C112": {
  "status": "partial",
  "note": "C112_partial: exactly the type that is chosen, for every buffer size: the narrowest signed type that holds every flushed part, where a part without negative values counts with twice its width; float64 if none does. C112_ids_partial: the usual case of ids. Refuted: [7] is stored in 16 bits, since the data start as an empty int8 array and uint8 is promoted with it to int16. C112_iff: for values that fit into the buffer, the type is the narrowest exactly if there are none or one is negative (and all have 64 bits)."
 },
 "C113": {
  "note": "C113_make: accepted tables; otherwise AssertionError, or IndexError with fewer than six types. C113_load: exact condition on the lines and the header. Kids of any depth; the recursion limit for deep kids is C101. JSON parsing of the header is a parameter."
 },
 "C114": {
  "status": "partial",
  "note": "C114_vocab_partial, C114_learned_partial: words and characters, for size limits that are absent or at least 6, any coverage. C114_codes_partial, C114_bpe_partial: merging, for sequences without a block three times in a row, any two orders of the sets. C114_same_order and C114_fewer_rounds: all sequences if the sets are visited in the same order. Refuted: size limits from 1 to 5 keep more types than limit 7 (C114_small_refuted); two orders of the sets on 'aaab' (C114_bpe_refuted). C114_coverage_partial: merging with the same coverage limit in both runs; refuted for different coverages (C114_cover_refuted)."
 },
 "C115": {
  "note": "Reserved types are supposed to have level -1, as in C29. C115_bound_needed: with minimal frequency 2 the second shrinking may remove more, since the first changes the segmentation."
 },
 "C116": {
  "note": "For bytes: lines that can be encoded."
 },
 "C117": {
  "note": "Proved on a model of a tree of files without links: learn1 and learn2 leave no trace when they fail; what each command writes and that nothing else changes; the name with .l1 for every path. False, with witnesses: a learn that fails at level 2 has already replaced the old vocabulary; two different paths to one file lose the level 1 vocabulary; so does a second learn2 on the same path; encode onto its input, or with a missing vocabulary, empties the output file."
 },
 "C118": {
  "note": "The format :g is modelled for rational numbers that are not negative and compared with an independent reader of decimal numerals. json.loads is a parameter of which only is assumed that it reads what json.dumps writes. A 1 in the table may stand for a number just below 1 (C118_one)."
 },
 "C119": {
  "note": "Proved for keys, lengths and len; for values and pairs as far as C35 holds. False for items: it yields the sequences without their ids (C119_items_refuted); what it yields is the same as values. C119_missing: any field, also one whose ids lack references."
 },
 "C120": {
  "note": "Proved for word, character and bpe models, in binary64, for every order in which numpy may add. False for byte models: they have no unk_idx, so the estimate fails wherever encode goes through. For class models unk_count is the count of the last class (C60_class_refuted)."
 },
 "C121": {
  "status": "proved",
  "note": "No condition on the text. The order of the sets must be the same in the rounds that both runs have (C121_order_needed)."
 },
 "C122": {
  "note": "Proved for word, char, bpe (C122_parallel), class (C122_class); what is yielded before a failure for all schemes (C122_until_failure). Refuted for bytes: encode_all drops the white space around lines, with the line feed (C122_byte_refuted). C122_byte_iff: for bytes the sequences are the same exactly if no line begins or ends with white space."
 },
 "C123": {
  "note": "Proved for all tables. Integers are taken not to be negative, and keys and values to be code points as the annotations say."
 },
 "C124": {
  "note": "The first row alone decides whether texts are listed, so sorting can make them disappear (C124_first_row). The methods that subscripting also finds are left out."
 },
 "C125": {
  "note": "Refuted: numpy arrays have no unsqueeze and no to, so every call raises. C125_matrix_partial: the matrix computed before the failing step is right. C125_exceptions: which exceptions are raised."
 },
 "C37": {
  "note": "C37_iff: for 64-bit values a database is created if and only if there is a record, no id occurs twice, there is a field and every record has as many columns as fields; C37_exception: otherwise AssertionError."
 },
 "C126": {
  "note": "Spec/Occurs counts the places where a string begins. Induction over the merges: the text of the sequences does not change, so pairs of neighbours are counted against places of the text. C126_plain: without coverage limit, the words as they are."
 },
 "C127": {
  "note": "All schemes. The byte scheme: for every line that it can encode at all (C08). A line without words is one id with BPE (C127_no_words), none with words and characters."
 },
 "C128": {
  "note": "BPE: for all tables with the marker only at the ends of names (C128_bpe), so for all learned ones (C128_learned); C81_marker_needed shows that this is needed."
 },
 "C129": {
  "note": "The draws are a sequence of booleans (`random() < split_ratio`), one per visited type with kids; their probabilities are not modelled. C129_learned: every learned vocabulary meets the hypotheses."
 },
 "C130": {
  "note": "random.random() is k/2^53 with k < 2^53 (assumed of the Python library); the ratio is the exact value of the float or nan. C130_between uses that a float below 1 is at most 1 - 2^-53. Probabilities are not modelled."
 },
 "C131": {
  "note": "BPE, if only reserved names have a \"<\": C131_bpe_iff says exactly which lines keep their encoding (no U+2581 at the ends of a word nor next to another), known characters or not; so for every vocabulary learned without coverage limit from text without \"<\" (C131_learned). Refuted with \"a<\" in the vocabulary. Characters: exactly if all characters are known (C131_char_iff, lines without U+2581). Words: C11_word_stable."
 },
 "C132": {
  "note": "Words: every text, both formats. Characters: every text without U+2581 as pieces, and as ids if all characters are known; unknown characters as ids are refuted (C132_char_refuted). BPE, if only reserved names have a \"<\": exactly the texts in which no word has U+2581 at an end or next to another one (C132_bpe_iff); otherwise refuted (C132_bpe_refuted). Classes: known labels as ids, labels that are blank or one token as pieces; refuted for labels of two words as pieces (C132_class_refuted)."
 }
}