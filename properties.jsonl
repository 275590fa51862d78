{"id": "C01", "title": "Word scheme round trip", "statement": "For a word scheme built on any accepted vocabulary, decode(encode(line)) is exactly the whitespace-separated tokens of the line joined by one space, with every token that is not a vocabulary name replaced by '<unk>'. In particular it is the whitespace-normalised line when all tokens are known.", "quantifier": "every vocabulary accepted by the constructor and every input line", "why_tests_cant": "the claim ranges over all unicode lines (29 whitespace code points, any spacing) and all vocabularies", "anchors": ["nlcodec/codec.py: WordScheme.encode_str, WordScheme.decode_str, EncoderScheme.encode, EncoderScheme.decode"]}
{"id": "C02", "title": "Char scheme round trip", "statement": "For a char scheme built on any accepted vocabulary, decode(encode(line)) is the line's tokens joined by one space when every character is a vocabulary name and no token contains U+2581; in general each unknown character becomes '<unk>' and each U+2581 becomes a space.", "quantifier": "every accepted vocabulary and every line", "why_tests_cant": "unbounded lines, vocabularies and placements of U+2581/unknown characters", "anchors": ["nlcodec/codec.py: CharScheme.encode_str, CharScheme.decode_str"]}
{"id": "C03", "title": "BPE encoding is greedy longest match and always terminates", "statement": "For every accepted BPE vocabulary whose types carry their own position as index (as every vocabulary read or learned does) and every line, encode_str terminates and its output is the leftmost greedy longest-match segmentation of the normalised text (tokens joined and ended by U+2581): at each position the longest vocabulary name that is a prefix of the rest is emitted, and if there is none then one '<unk>' is emitted and exactly one character is consumed.", "quantifier": "every accepted vocabulary with types at their own index (any overlaps, duplicates, prefixes) and every line", "why_tests_cant": "the trie walk backtracks; which backtracking pattern happens depends on the whole vocabulary and line, and non-termination cannot be observed by a test", "anchors": ["nlcodec/codec.py: BPEScheme.encode_str, BPEScheme.make_vocab_prefix_trie", "nlcodec/dstruct.py: TrNode.get_node"]}
{"id": "C04", "title": "BPE encoding is lossless on covered text", "statement": "For every accepted BPE vocabulary with types at their own index, whatever merges and duplicates it holds, if every character of a line's tokens is a vocabulary name and none of them is U+2581, then decode(encode(line)) equals the tokens of the line joined by one space; decode(encode(line)) and decode_str(encode_str(line)) agree on every line.", "quantifier": "every accepted vocabulary with types at their own index and every covered line", "why_tests_cant": "losslessness must hold for all vocabularies that can ever be learned and all texts", "anchors": ["nlcodec/codec.py: BPEScheme.encode, BPEScheme.encode_str, BPEScheme.decode_str"]}
{"id": "C05", "title": "Encoded ids are always valid vocabulary indices", "statement": "For word, char, bpe and byte schemes every id produced by encode(line) is in [0, vocab_size), hence decode(encode(line)) never raises an index error; for a class scheme every id is in range or is -1. (bpe: for types that carry their own position as index, which the constructor does not check.)", "quantifier": "every accepted vocabulary and every line (byte: every encodable line)", "why_tests_cant": "an out-of-range id for one rare line would crash a downstream embedding lookup", "anchors": ["nlcodec/codec.py: EncoderScheme.encode, BPEScheme.encode, ByteScheme.encode, ClassScheme"]}
{"id": "C06", "title": "Stochastic BPE splits never change the text", "statement": "For a vocabulary whose composed types spell the concatenation of their kids, encoding with any split_ratio and any sequence of random draws yields pieces whose concatenation equals the concatenation of the unsplit pieces, and every emitted id is a valid index.", "quantifier": "every such vocabulary, line, split ratio and outcome of the random number generator", "why_tests_cant": "the random draws form an unbounded tree of outcomes", "anchors": ["nlcodec/codec.py: Type.get_stochastic_split, BPEScheme.stochastic_split, BPEScheme.encode_str"]}
{"id": "C07", "title": "get_permutations enumerates exactly the decompositions", "statement": "get_permutations(t) lists exactly the sequences obtained from t by repeatedly replacing a type by its two kids; the type itself comes first; every listed sequence spells t's name; every possible stochastic split is one of them.", "quantifier": "every type tree whose nodes have no kids or two kids", "why_tests_cant": "exponentially many decompositions; a missing or spurious one is invisible to sampling", "anchors": ["nlcodec/codec.py: Type.get_permutations, Type.get_stochastic_split"]}
{"id": "C08", "title": "Byte scheme: round trip of text", "statement": "For the built-in byte vocabulary, encode(s) is the sequence of UTF-8 bytes of s and decode(encode(s)) = s for every encodable text s.", "quantifier": "every unicode text without surrogates", "why_tests_cant": "all code points and all mixtures of 1-4 byte sequences", "anchors": ["nlcodec/codec.py: ByteScheme.encode_str, ByteScheme.decode_str, ByteScheme.compose_str, ByteScheme.code_to_str"]}
{"id": "C09", "title": "Byte scheme: reserved tokens are transparent separators", "statement": "Decoding a piece sequence in which encoded texts are interleaved with the reserved tokens <s> and </s> yields the texts interleaved with the literal reserved names; encoding never produces a reserved id, whatever the text contains.", "quantifier": "every list of texts and every interleaving of reserved tokens", "why_tests_cant": "all interleavings and texts", "anchors": ["nlcodec/codec.py: ByteScheme.decode_str, ByteScheme.encode"]}
{"id": "C10", "title": "Class scheme: unseen labels are not decoded as some other label", "statement": "Every label learned by a class scheme round-trips through encode/decode; a label that was never seen must not decode to a known label.", "quantifier": "every label multiset used to learn and every label encoded", "why_tests_cant": "ranges over all label sets; the wrong answer needs an unseen label", "anchors": ["nlcodec/codec.py: ClassScheme, EncoderScheme.encode, EncoderScheme.decode"]}
{"id": "C11", "title": "Encoding depends only on the tokens; word encoding is stable", "statement": "For word, char and bpe schemes two lines with the same whitespace-separated tokens have the same encoding; for a word scheme encode(decode(encode(line))) = encode(line) for every line, known or not.", "quantifier": "every accepted vocabulary and every pair of lines", "why_tests_cant": "quantifies over all layouts of whitespace", "anchors": ["nlcodec/codec.py: WordScheme, CharScheme.encode_str, BPEScheme.encode_str"]}
{"id": "C12", "title": "Vocabulary file round trip", "statement": "Writing any table (types at their own index, kids referring to earlier entries of the table) whose names contain no tab, line feed, carriage return or surrogate, and reading the file back, gives the same table; a table whose entries are out of place, and the empty table, are refused.", "quantifier": "every table, any size, any names, levels, frequencies and kids", "why_tests_cant": "file format ambiguity depends on arbitrary unicode names", "anchors": ["nlcodec/codec.py: Type.format, Type.parse, Type.write_out, Type.read_vocab"]}
{"id": "C13", "title": "Saved schemes load as the same scheme", "statement": "Saving any constructed scheme (word, char, bpe, class, byte) and loading the file gives a scheme of the same kind with the same table, hence the same encode and decode on all inputs.", "quantifier": "every constructed scheme whose names are storable", "why_tests_cant": "must hold for every vocabulary ever learned", "anchors": ["nlcodec/codec.py: EncoderScheme.save, load_scheme, REGISTRY"]}
{"id": "C14", "title": "read_vocab accepts only well-formed tables", "statement": "Whatever the file content, if reading a vocabulary succeeds then each type's index is its position and each kid is an earlier entry of the same table (so type trees are finite and acyclic).", "quantifier": "every file content", "why_tests_cant": "adversarial or corrupted files cannot be enumerated", "anchors": ["nlcodec/codec.py: Type.parse, Type.read_vocab"]}
{"id": "C15", "title": "Learned word/char vocabulary contract", "statement": "get_init_vocab puts the six reserved types at indices 0-5, every type at its own index, all names distinct, non-reserved types in non-increasing frequency order, each with frequency >= min_freq and equal to its count, and keeps exactly the most frequent ones so that the total size is at most vocab_size when vocab_size > 0.", "quantifier": "every frequency table, min_freq, coverage and vocab_size", "why_tests_cant": "ties, thresholds and reserved names in the corpus interact for arbitrary tables", "anchors": ["nlcodec/codec.py: EncoderScheme.get_init_vocab, Reseved.with_reserved_types"]}
{"id": "C16", "title": "Token mass is conserved in the learned vocabulary", "statement": "The frequencies of the kept types plus the frequency credited to <unk> for excluded types plus the reserved names found in the corpus add up to the total number of tokens, plus the line count credited to each of <s>, </s>, <cls>; when the line count is unknown (a frequency file without header) one occurrence of each of these three that occurs is lost.", "quantifier": "every frequency table and every combination of coverage, min_freq and vocab_size", "why_tests_cant": "three trimming stages interact", "anchors": ["nlcodec/codec.py: EncoderScheme.get_init_vocab", "nlcodec/utils.py: filter_types_coverage"]}
{"id": "C17", "title": "Coverage filter keeps the shortest most-frequent prefix", "statement": "filter_types_coverage returns the shortest prefix of the types in non-increasing frequency order whose relative mass reaches the requested coverage, and the returned unk count is the exact mass of the rest.", "quantifier": "every non-empty table of positive counts and every coverage in (0, 1]", "why_tests_cant": "threshold behaviour for arbitrary distributions", "anchors": ["nlcodec/utils.py: filter_types_coverage"]}
{"id": "C18", "title": "Class vocabulary is sorted and independent of data order", "statement": "A learned class vocabulary lists each distinct stripped label once, in increasing code-point order, with its count, at indices 0..n-1; permuting the input lines gives the same vocabulary.", "quantifier": "every list of labels and every permutation", "why_tests_cant": "all orders of all inputs", "anchors": ["nlcodec/codec.py: ClassScheme.get_init_vocab, WordScheme.term_frequencies"]}
{"id": "C19", "title": "Learned vocabularies are always accepted by their scheme", "statement": "The table learned by the word, char, bpe, class and byte schemes is accepted by that scheme's constructor for every corpus on which learning succeeds (always, for all but bpe), including corpora that contain the reserved names literally.", "quantifier": "every corpus and every parameter setting", "why_tests_cant": "needs corpora with reserved strings, ties, empties", "anchors": ["nlcodec/codec.py: EncoderScheme.__init__, WordScheme.learn, CharScheme.learn, ClassScheme, ByteScheme"]}
{"id": "C20", "title": "BPE learning performs exactly the most-frequent-pair merges", "statement": "For every corpus of weighted sequences and every iteration order of the internal node sets, each new type learned is the pair of adjacent symbols with the highest current weighted count (the smallest pair on ties), recorded with exactly that count, where the current corpus is the initial one with all previously learned pairs replaced.", "quantifier": "every weighted corpus, number of merges, evidence threshold and set iteration order", "why_tests_cant": "the heap holds stale entries, the lists are edited in place and set order is address dependent: histories are unbounded", "anchors": ["nlcodec/bpe.py: BPELearn.learn_codes, BPELearn.create_index", "nlcodec/dstruct.py: LnNode, MaxHeap"]}
{"id": "C21", "title": "BPE learning never trips its internal checks", "statement": "For every non-empty corpus of non-empty sequences with positive frequencies over the given vocabulary, index creation, index validation and all merge steps raise no assertion, key or value error, whatever the set iteration order; the only possible exception is running out of pairs.", "quantifier": "every weighted corpus, parameters and set iteration order", "why_tests_cant": "assertions guard rare overlap patterns (x a a a a y) in arbitrary order", "anchors": ["nlcodec/bpe.py: BPELearn.__init__, BPELearn.create_index, BPELearn.validate_index, BPELearn.learn_codes"]}
{"id": "C22", "title": "Learned BPE vocabularies are well formed", "statement": "The learned table extends the initial one; each new type sits at its own index, has two earlier kids, is named by the concatenation of their names, and the table never has more than vocab_size types.", "quantifier": "every corpus and parameters", "why_tests_cant": "must hold for all learned tables", "anchors": ["nlcodec/bpe.py: BPELearn.learn_codes, BPELearn._learn_codes"]}
{"id": "C23", "title": "Merge frequencies never increase and respect the evidence threshold", "statement": "The frequencies recorded for successive merges are non-increasing and all at least min_co_evidence.", "quantifier": "every corpus and parameters", "why_tests_cant": "a monotonicity claim over the complete run history", "anchors": ["nlcodec/bpe.py: BPELearn.learn_codes"]}
{"id": "C24", "title": "BPE learning is deterministic", "statement": "Learning twice from the same corpus with the same parameters gives the same vocabulary, whatever the iteration order of hash sets.", "quantifier": "every corpus, every pair of set iteration orders", "why_tests_cant": "iteration order depends on memory addresses and cannot be controlled by a test", "anchors": ["nlcodec/bpe.py: BPELearn.learn_codes", "nlcodec/dstruct.py: LnNode.__hash__"]}
{"id": "C25", "title": "BPE learning stops gracefully when nothing is left to merge", "statement": "If fewer merges are possible than requested, learning returns the vocabulary learned so far instead of failing.", "quantifier": "every corpus and requested size", "why_tests_cant": "depends on the corpus being exhausted after an unbounded number of merges", "anchors": ["nlcodec/bpe.py: BPELearn.learn_codes", "nlcodec/dstruct.py: MaxHeap.pop"]}
{"id": "C26", "title": "MaxHeap pops in priority order", "statement": "Popping a MaxHeap returns a pair of maximum value (smallest key on ties); any interleaving of pushes and pops behaves like a sorted multiset; pop on empty raises.", "quantifier": "every sequence of push and pop operations", "why_tests_cant": "all operation histories", "anchors": ["nlcodec/dstruct.py: MaxHeap"]}
{"id": "C27", "title": "Learning options take effect for the level they are documented for", "statement": "learn_vocab uses the min_freq and min_co_ev options given by the user for the bpe level: words below min_freq are ignored, and pairs below min_co_ev are not merged.", "quantifier": "every corpus and option value", "why_tests_cant": "an ignored option needs a differential argument over all inputs", "anchors": ["nlcodec/codec.py: learn_vocab, BPEScheme.learn, REGISTRY", "nlcodec/bpe.py: BPELearn.learn_subwords"]}
{"id": "C28", "title": "shrink_vocab keeps exactly what is needed", "statement": "The mapping returned by shrink_vocab is strictly increasing and contains an index iff its type is reserved, reaches min_freq on the given text, or is a (transitive) kid of such a type; the saved table has names, levels and frequencies of the old one, its own indices, and kids that point to the images of the old kids.", "quantifier": "every table with earlier kids, every text whose encoding has at least one id, every min_freq", "why_tests_cant": "closure over arbitrary type forests", "anchors": ["nlcodec/codec.py: EncoderScheme.shrink_vocab"]}
{"id": "C29", "title": "Shrinking does not change the encoding of the text it was shrunk to", "statement": "With min_freq <= 1, for every line of the given files, encoding with the shrunk vocabulary and translating ids through the mapping gives the encoding with the original vocabulary (word, char and bpe).", "quantifier": "every vocabulary, every set of files and every line in them", "why_tests_cant": "differential claim over all vocabularies and texts", "anchors": ["nlcodec/codec.py: EncoderScheme.shrink_vocab, EncoderScheme.encode, BPEScheme.encode_str"]}
{"id": "C30", "title": "A shrunk vocabulary loads as the same kind of scheme", "statement": "Loading the file saved by shrink_vocab gives a scheme of the same kind as the one that was shrunk.", "quantifier": "every scheme kind, table and text", "why_tests_cant": "depends on which levels survive for arbitrary data", "anchors": ["nlcodec/codec.py: EncoderScheme.shrink_vocab, load_scheme"]}
{"id": "C31", "title": "Term-frequency files round trip", "statement": "write_stats followed by read_term_freqs restores the same term to frequency mapping and line count, for all terms without tab/newline and without surrounding whitespace.", "quantifier": "every frequency table and line count", "why_tests_cant": "arbitrary unicode terms, including terms starting with #", "anchors": ["nlcodec/term_freq.py: write_stats", "nlcodec/codec.py: WordScheme.read_term_freqs"]}
{"id": "C32", "title": "Learning from a frequency file equals learning from raw text", "statement": "For the word scheme, learning from the lines written by write_stats for a corpus gives the same vocabulary (up to the order of equally frequent types) as learning from the corpus itself.", "quantifier": "every corpus and options", "why_tests_cant": "differential claim over all corpora", "anchors": ["nlcodec/codec.py: WordScheme.learn, WordScheme.read_term_freqs, WordScheme.term_frequencies", "nlcodec/term_freq.py: write_stats"]}
{"id": "C33", "title": "Prefix trie is a faithful map", "statement": "After building the trie from any list of types, looking up a string finds the last type with that name and nothing for other strings; data_node_count is the number of distinct names and size is one more than the number of distinct non-empty prefixes.", "quantifier": "every list of types and every string", "why_tests_cant": "all insertion orders and overlaps", "anchors": ["nlcodec/dstruct.py: TrNode.get_node, TrNode.size, TrNode.data_node_count", "nlcodec/codec.py: BPEScheme.make_vocab_prefix_trie"]}
{"id": "C34", "title": "best_dtype is sound and minimal", "statement": "best_dtype(mn, mx) returns an integer type whose range contains [mn, mx], no type of smaller width does, an unsigned type is preferred at equal width, and it fails exactly when no 64-bit type fits.", "quantifier": "every pair of integers mn <= mx", "why_tests_cant": "boundaries at every power of two", "anchors": ["nlcodec/db/core.py: best_dtype"]}
{"id": "C35", "title": "Stored sequences are read back exactly", "statement": "Every sequence of integers appended to a field is returned unchanged by lookup, whatever the other sequences, their order, their magnitudes and the buffer flush points.", "quantifier": "every list of (id, sequence) with distinct ids, every buffer size", "why_tests_cant": "numpy type promotion depends on the history of flushed buffers", "anchors": ["nlcodec/db/core.py: SeqField.Builder.append, SeqField.Builder.shrink, SeqField.Builder.build, SeqField.__getitem__"]}
{"id": "C36", "title": "Field offsets never wrap around", "statement": "The offset arithmetic start + length of every stored record stays within the range of the offset type chosen at build time, for any number and size of records.", "quantifier": "every list of sequences below 2^64 total elements", "why_tests_cant": "overflow happens only at exact size boundaries (255, 65535, ...)", "anchors": ["nlcodec/db/core.py: SeqField.Builder.build, SeqField.__getitem__, SeqField.get_len"]}
{"id": "C37", "title": "Duplicate ids and empty databases are rejected", "statement": "Building a field or a database from records with a repeated id, or from no records, raises instead of silently dropping or mixing records.", "quantifier": "every record list", "why_tests_cant": "all positions of duplicates", "anchors": ["nlcodec/db/core.py: SeqField.__init__, SeqField.Builder, Db.create"]}
{"id": "C38", "title": "Database lookup and iteration are exact", "statement": "For records with distinct ids, len(db) is their number, db[id] returns precisely the columns stored for that id, and iterating yields every record exactly once, whatever the iteration order of the id set.", "quantifier": "every record list, every number of columns, every set order", "why_tests_cant": "all data sets; set order", "anchors": ["nlcodec/db/core.py: Db.create, Db.__getitem__, Db.__iter__, Db.__len__, SeqField.create_many"]}
{"id": "C39", "title": "Shuffled iteration yields every record once", "statement": "Iterating a database loaded with shuffle=True yields each record exactly once in some order.", "quantifier": "every database", "why_tests_cant": "must hold for any size", "anchors": ["nlcodec/db/core.py: Db.__iter__, Db.load, MultipartDb.__iter__"]}
{"id": "C40", "title": "slices partitions the stream", "statement": "MultipartDb.slices(stream, size) yields consecutive chunks of exactly size items (the last one 1..size) whose concatenation is the stream, when each chunk is consumed before the next is requested.", "quantifier": "every stream and size >= 1", "why_tests_cant": "all lengths and sizes", "anchors": ["nlcodec/db/core.py: MultipartDb.slices"]}
{"id": "C41", "title": "Multi-part databases preserve all records", "statement": "For records with distinct ids and any part_size >= 1, creating a multi-part database and iterating it yields exactly the stored records, part by part, each once, and len(db) is their number, for every directory listing order.", "quantifier": "every record list, part size, max_parts and directory listing order", "why_tests_cant": "file listing order is not under test control", "anchors": ["nlcodec/db/core.py: MultipartDb.create, MultipartDb.load, MultipartDb.__iter__, MultipartDb.Writer"]}
{"id": "C42", "title": "Part file names are collision free and recoverable", "statement": "For all part numbers and paddings the names part-N are pairwise distinct, and the name recovered from the .meta file name by close() is the part's own name.", "quantifier": "every part number and padding width", "why_tests_cant": "rstrip strips a character set; all numbers", "anchors": ["nlcodec/db/core.py: MultipartDb.Writer.__call__, MultipartDb.Writer.close, part_path_pads"]}
{"id": "C43", "title": "An interrupted write is never mistaken for a complete database", "statement": "If writing a database is interrupted at any point, loading it fails rather than returning a partial database.", "quantifier": "every crash point of every write history, with and without overwrite", "why_tests_cant": "crash points cannot be enumerated by tests", "anchors": ["nlcodec/db/core.py: MultipartDb.Writer, MultipartDb.load"]}
{"id": "C44", "title": "Existing data is never overwritten unless asked", "statement": "Opening a writer on a non-empty directory without overwrite raises and leaves the directory untouched; with overwrite the new database contains none of the old parts.", "quantifier": "every directory content and record list", "why_tests_cant": "all prior contents", "anchors": ["nlcodec/db/core.py: MultipartDb.Writer.__init__"]}
{"id": "C45", "title": "Equal-length batching is a partition within the token budget", "statement": "If some record has no empty column and no such record is longer than max_toks, every record whose columns are all non-empty appears in exactly one batch, no batch is empty, and (batch size) x (longest sequence in the batch) <= max_toks, for every shuffle.", "quantifier": "every database, budget and random shuffle", "why_tests_cant": "random order, all length distributions", "anchors": ["nlcodec/db/core.py: Db._make_eq_len_batch_ids, Db.make_eq_len_ran_batches"]}
{"id": "C46", "title": "Batches respect max_sents", "statement": "No batch contains more than max_sents records, for both batching strategies.", "quantifier": "every database and limit", "why_tests_cant": "off-by-one at the limit for arbitrary data", "anchors": ["nlcodec/db/core.py: Db._make_eq_len_batch_ids", "nlcodec/db/batch.py: BatchIterable.read_all"]}
{"id": "C47", "title": "Sequential batching preserves order and budget", "statement": "BatchIterable.read_all groups consecutive non-empty records in their original order, each exactly once, with no empty batch, at most max_sents records, and (size) x (longest) <= max_toks.", "quantifier": "every record stream and limits with max_sents >= 1", "why_tests_cant": "all streams", "anchors": ["nlcodec/db/batch.py: BatchIterable.read_all"]}
{"id": "C48", "title": "Oversized sequences are reported, never dropped", "statement": "If some (non-skipped) record is longer than max_toks, both batching strategies raise; if none is, neither raises.", "quantifier": "every database and budget", "why_tests_cant": "position and order of the oversized record", "anchors": ["nlcodec/db/core.py: Db._make_eq_len_batch_ids", "nlcodec/db/batch.py: BatchIterable.read_all"]}
{"id": "C49", "title": "Padded batches hold exactly the sequences", "statement": "In a Batch, row i starts with example i's sequence and is padded with pad_idx up to the common width, which is the maximum length; x_len, x_toks are the true lengths and their sum; with batch_first=False the matrix is the transpose.", "quantifier": "every non-empty list of examples", "why_tests_cant": "all shapes and contents", "anchors": ["nlcodec/db/batch.py: Batch.__init__"]}
{"id": "C50", "title": "BOS/EOS insertion is exact and idempotent", "statement": "After batching, a sequence starts with BOS (ends with EOS) if requested, its content is otherwise unchanged, nothing is inserted twice, and a forbidden marker raises.", "quantifier": "every non-empty sequence and option setting", "why_tests_cant": "all sequences incl. those that already carry markers", "anchors": ["nlcodec/db/batch.py: Batch.val_exists, Batch.bos_eos_check"]}
{"id": "C51", "title": "Padded batches stay within the token budget", "statement": "The padded x and y matrices of every yielded Batch have at most max_toks cells.", "quantifier": "every database and budget", "why_tests_cant": "only fails when markers are inserted after budgeting", "anchors": ["nlcodec/db/batch.py: BatchIterable.make_eq_len_ran_batches, BatchIterable.read_all, Batch.__init__"]}
{"id": "C52", "title": "Sorting a batch keeps source and target aligned", "statement": "With sort_dec the rows are ordered by non-increasing source length, ties keep their order, and row i of x and y come from the same example.", "quantifier": "every list of examples", "why_tests_cant": "all permutations induced by lengths", "anchors": ["nlcodec/db/batch.py: Batch.__init__"]}
{"id": "C53", "title": "pair_subsequent pairs every item once", "statement": "pair_subsequent yields (x0,x1),(x2,x3),...; an odd last item is paired with the default; with throw_singleton a one-item stream raises with that item and an empty stream raises an assertion.", "quantifier": "every finite stream", "why_tests_cant": "all lengths", "anchors": ["nlcodec/para/mapred.py: pair_subsequent"]}
{"id": "C54", "title": "ireduce is a fold for associative functions", "statement": "For an associative function with the default as right identity, ireduce terminates and returns the left-to-right fold of every non-empty stream, and raises on an empty one.", "quantifier": "every monoid, every stream", "why_tests_cant": "all lengths and operations; termination", "anchors": ["nlcodec/para/mapred.py: IterativeReducer.__call__, ireduce"]}
{"id": "C55", "title": "Parallel word counting is exact", "statement": "WordCounter returns for every word its number of occurrences in all lines; merge_freqs adds counts pointwise whichever dictionary is kept, and the shared default dictionary is never modified.", "quantifier": "every list of lines", "why_tests_cant": "in-place merges choose the kept dictionary by size, for arbitrary data", "anchors": ["nlcodec/para/mapred.py: merge_freqs, word_count_line, WordCounter, MapReduce.__call__"]}
{"id": "C56", "title": "Parallel encoding equals sequential encoding", "statement": "encode_parallel yields, for every completion order of the worker processes and every chunk size, the encodings of the lines in the order of the lines.", "quantifier": "every line list, chunk size, worker count >= 2 and completion schedule", "why_tests_cant": "schedules cannot be enumerated", "anchors": ["nlcodec/codec.py: EncoderScheme.encode_parallel, EncoderScheme.parallel_map"]}
{"id": "C57", "title": "n-gram extraction", "statement": "make_n_grams(seq, n) lists the contiguous length-n windows in order; there are max(0, len - n + 1) of them; n <= 0 raises.", "quantifier": "every sequence and n", "why_tests_cant": "all lengths", "anchors": ["nlcodec/utils.py: make_n_grams, make_n_grams_all"]}
{"id": "C58", "title": "Precision, recall and F1 are well-behaved", "statement": "Recall and precision of every gram lie in [0,1]; f1 is defined, lies between 0 and 1 and between min and max of its arguments; exchanging candidates and references exchanges recall and precision; identical corpora give 1.", "quantifier": "every pair of corpora", "why_tests_cant": "all corpora", "anchors": ["nlcodec/eval/pr_measure.py: count_gram_recall, f1_measure"]}
{"id": "C59", "title": "Imbalance and divergence measures are bounded", "statement": "EMD_simple lies in [0, 1 - 1/k] and is 0 iff all types are equally frequent; kl_div >= 0; js_div is symmetric and lies in [0, ln 2].", "quantifier": "every non-zero frequency vector / pair of distributions", "why_tests_cant": "real-analytic bounds over all inputs", "anchors": ["nlcodec/qestim.py: QualityEstimator.EMD_simple, kl_div, js_div", "nlcodec/eval/bpe_len.py: BpeTracker.earth_mov_dist"]}
{"id": "C60", "title": "Quality estimate counts tokens exactly", "statement": "For every codec kind, n_tokens is the total number of ids encoded, and unk_count is the number of unknown tokens.", "quantifier": "every codec and every list of lines", "why_tests_cant": "all corpora", "anchors": ["nlcodec/qestim.py: QualityEstimator._estimate"]}
{"id": "C61", "title": "BPE tracker statistics match the segmented corpus", "statement": "After every tracked merge, the tracked sequence lengths and unigram counts equal those of the corpus with the merges applied.", "quantifier": "every corpus, merge table and set order", "why_tests_cant": "overlapping repeats in arbitrary order", "anchors": ["nlcodec/eval/bpe_len.py: BpeTracker.track_merges, BpeTracker.create_index"]}
{"id": "C62", "title": "CLI encode | decode round trips", "statement": "Piping lines through CLI encode and CLI decode restores the whitespace-normalised lines for covered text, in piece mode and in index mode.", "quantifier": "every scheme kind, vocabulary and list of lines", "why_tests_cant": "all texts, incl. trailing newlines", "anchors": ["nlcodec/codec.py: encode, decode", "nlcodec/__main__.py: main, write_lines"]}
{"id": "C63", "title": "Length limits in bitext loading", "statement": "With truncate, every kept pair has at most src_len/tgt_len ids, being prefixes of the full encodings; without truncate, exactly the pairs not longer than the limits are kept, unchanged and still aligned by line.", "quantifier": "every parallel text and limits", "why_tests_cant": "boundary lengths", "anchors": ["nlcodec/spark.py: read_raw_bitext, read_raw_bitext_tok"]}
{"id": "C64", "title": "Word and character counting on Spark", "statement": "word_counts returns the exact count of each word and character and the number of lines, for every partitioning and reduction order.", "quantifier": "every corpus, partitioning and reduction order", "why_tests_cant": "distributed order", "anchors": ["nlcodec/term_freq.py: word_counts"]}
{"id": "C65", "title": "The learn CLI can reuse cached statistics", "statement": "Running nlcodec-learn again when the statistics file exists reuses it and produces the vocabulary.", "quantifier": "every prior state of the model directory", "why_tests_cant": "depends on the history of previous runs", "anchors": ["nlcodec/learn.py: main"]}
{"id": "C66", "title": "Distributed writes of any partitioning succeed", "statement": "rdd_as_db stores all records whatever the partitioning of the input, including partitions that are empty.", "quantifier": "every partitioning of the records", "why_tests_cant": "partitioning is decided at run time", "anchors": ["nlcodec/spark.py: rdd_as_db", "nlcodec/db/core.py: MultipartDb.Writer.__call__"]}
{"id": "C67", "title": "Devanagari expansion round trips", "statement": "decode(encode(line)) = line for every line that does not contain the marker character.", "quantifier": "every line", "why_tests_cant": "all unicode lines", "anchors": ["experimental/uxdx.py: Devanagari"]}
{"id": "C68", "title": "In- and out-of-vocabulary counts partition the corpus", "statement": "partition_vocab_toks splits the term frequencies into in-vocabulary and out-of-vocabulary parts that are disjoint and together equal to the full counts.", "quantifier": "every corpus and vocabulary", "why_tests_cant": "all corpora", "anchors": ["nlcodec/eval/oov_count.py: term_freqs, partition_vocab_toks"]}
{"id": "C69", "title": "Abugida code-point expansion round trips", "statement": "AbugidaLang.decode(AbugidaLang.encode(line)) = line.", "quantifier": "every line", "why_tests_cant": "all unicode lines", "anchors": ["experimental/unicode_fix.py: AbugidaLang.encode, AbugidaLang.decode"]}
{"id": "C70", "title": "Tracked codec merging keeps the codec consistent", "statement": "After any number of merges BPECodecXt encodes like a BPE scheme built from the table extended by those merges.", "quantifier": "every merge table and number of merges", "why_tests_cant": "incremental trie updates over all histories", "anchors": ["nlcodec/eval/bpe_len.py: BPECodecXt.merge"]}
{"id": "C71", "title": "Decoding is defined for every id sequence a model can produce", "statement": "decode of any sequence of ids in range gives the names of the ids in order, joined the way the scheme does (spaces for word, ▁ turned into spaces for char and bpe, commas for class); an id outside -n..n-1 raises IndexError wherever it stands, and a negative id silently counts from the end.", "quantifier": "every table, every sequence of ids, every scheme", "why_tests_cant": "decoders see arbitrary sequences produced by models, not only encodings", "anchors": ["nlcodec/codec.py: EncoderScheme.decode, WordScheme.decode_str, CharScheme.decode_str, BPEScheme.decode_str, ClassScheme.decode_str"]}
{"id": "C72", "title": "Plain text cannot produce control ids", "statement": "Encoding ordinary text never yields the ids of <pad>, <s>, </s> or <cls>, so text cannot be mistaken for sequence boundaries.", "quantifier": "every vocabulary and every line", "why_tests_cant": "depends on arbitrary text", "anchors": ["nlcodec/codec.py: EncoderScheme.encode, BPEScheme.encode_str, BPEScheme.make_vocab_prefix_trie"]}
{"id": "C73", "title": "Learned BPE types have distinct names", "statement": "All types of a learned BPE vocabulary have pairwise distinct names, so every learned type can be produced by encoding.", "quantifier": "every corpus and all options", "why_tests_cant": "all corpora", "anchors": ["nlcodec/bpe.py: BPELearn.learn_codes", "nlcodec/codec.py: BPEScheme.learn"]}
{"id": "C74", "title": "The n of pr_measure is respected", "statement": "pr_measure with -n k writes one row for every k-gram of the references, ranked by decreasing frequency, with its frequencies, recall, precision and F1.", "quantifier": "every codec, all corpora, every k", "why_tests_cant": "all corpora and values of k", "anchors": ["nlcodec/eval/pr_measure.py: main, count_gram_recall"]}
{"id": "C75", "title": "Lite abugida rewriting round trips", "statement": "AbugidaLangLite.decode(AbugidaLangLite.encode(line)) = line.", "quantifier": "every line", "why_tests_cant": "all unicode lines", "anchors": ["experimental/unicode_fix.py: AbugidaLangLite.encode, AbugidaLangLite.decode"]}
{"id": "C76", "title": "nlcodec-bitextdb stores the encodings of the pairs", "statement": "nlcodec-bitextdb writes a database whose records, read back, are exactly the encodings of the sentence pairs within the length limits (cut to the limits with --truncate), each with its line number as id.", "quantifier": "every parallel text, codecs, limits, number of parts and partitioning", "why_tests_cant": "depends on partitioning decided at run time and on all texts", "anchors": ["nlcodec/bitextdb.py: main", "nlcodec/spark.py: read_raw_bitext, read_raw_bitext_tok, rdd_as_db", "nlcodec/db/core.py: MultipartDb"]}
{"id": "C77", "title": "A learned vocabulary survives the disk", "statement": "Learning from any text, saving the vocabulary and loading the file gives a scheme equal to the one that was saved, for every scheme.", "quantifier": "every text, scheme and all options", "why_tests_cant": "all texts", "anchors": ["nlcodec/codec.py: learn_vocab, EncoderScheme.save, load_scheme, Type.format, Type.parse"]}
{"id": "C78", "title": "nlcodec-learn learns what direct learning learns", "statement": "The model file nlcodec-learn writes (counting on Spark, statistics through a file) loads as the vocabulary that learning directly from the same lines gives.", "quantifier": "every text, level, all options, every partitioning and reduction order", "why_tests_cant": "distributed counting in arbitrary order over all texts", "anchors": ["nlcodec/learn.py: main", "nlcodec/term_freq.py: word_counts, write_stats", "nlcodec/codec.py: learn_vocab"]}
{"id": "C79", "title": "Term frequency tables are exact and readable", "statement": "eval/termfreq writes one line for every n-gram of encoded ids that occurs in the text: a JSON array of the ids, how often the n-gram occurs, and the names of its types, by decreasing frequency (ties by first occurrence); reading the lines as JSON gives back the rows.", "quantifier": "every codec, text, n >= 1 and names of any characters", "why_tests_cant": "all texts and names", "anchors": ["nlcodec/eval/termfreq.py: main", "nlcodec/utils.py: make_n_grams_all", "nlcodec/codec.py: EncoderScheme.encode_parallel"]}
{"id": "C80", "title": "A model restores the text it was learned from", "statement": "Learning a word, char or BPE vocabulary from a text without cuts (no coverage cut; for word and char min_freq at most 1 and no size limit, or room for all), saving and loading it, every line of that text encodes and decodes to itself up to white space. For char and BPE the text must not contain the space marker U+2581.", "quantifier": "every text", "why_tests_cant": "all texts", "anchors": ["nlcodec/codec.py: learn_vocab, WordScheme.learn, CharScheme.learn, BPEScheme.learn, EncoderScheme.encode, EncoderScheme.decode"]}
{"id": "C81", "title": "A learned BPE encodes words independently", "statement": "With a BPE vocabulary learned from a text without the space marker U+2581, the encoding of any line with at least one word is the concatenation of the encodings of its words.", "quantifier": "every text and options for learning, every line", "why_tests_cant": "all learned vocabularies", "anchors": ["nlcodec/codec.py: BPEScheme.encode_str, BPEScheme.learn", "nlcodec/bpe.py: BPELearn.learn_codes"]}
{"id": "C82", "title": "Long runs are cut to two symbols", "statement": "Before indexing, BPELearn of bpepp cuts every maximal run of three or more equal symbols to exactly two symbols and leaves every other sequence unchanged; a sequence counts as troublesome exactly when it contains such a run.", "quantifier": "every set of sequences", "why_tests_cant": "all sequences", "anchors": ["experimental/bpepp.py: BPELearn._is_troublesome_seq, BPELearn._replace_trouble, BPELearn.create_index"]}
{"id": "C83", "title": "The two-level learner performs BPE", "statement": "BPELearn.learn_codes of bpepp adds, in each round, a most frequent pair of the current sequences with its exact frequency, replaces all its occurrences, and goes on until n_merges rounds are done or no pair reaches min_co_evidence, whatever the iteration order of its sets.", "quantifier": "every corpus, initial vocabulary, number of merges, threshold and set order", "why_tests_cant": "incremental counts over all histories and hash orders", "anchors": ["experimental/bpepp.py: BPELearn.learn_codes, LnNode.delete"]}
{"id": "C84", "title": "Sub-words are learned from the frequent words of a text", "statement": "learn_subwords_from_corpus starts from the reserved types and the characters with at least char_min_freq occurrences in the words with at least word_min_freq occurrences, sorted by frequency, and then merges most frequent pairs of these words until the vocabulary has the requested size or no pair reaches the threshold; the learned names occur in the text.", "quantifier": "every text and all options", "why_tests_cant": "all texts", "anchors": ["experimental/bpepp.py: WordBPE.learn_subwords, WordBPE.learn_subwords_from_corpus, WordBPE._learn_codes"]}
{"id": "C85", "title": "The bpepp codec segments greedily and losslessly", "statement": "BpeCodec.encode gives the ids of the greedy longest-match segmentation; all ids are valid; decoding restores the line up to white space when all its characters are types; on tables that nlcodec's BPE scheme accepts both codecs give the same pieces.", "quantifier": "every table and line", "why_tests_cant": "all tables and lines", "anchors": ["experimental/bpepp.py: BpeCodec.encode, BpeCodec.decode, BpeCodec.decode_as_str, BpeCodec.make_vocab_prefix_trie"]}
{"id": "C86", "title": "bpepp vocabulary files are read back as written", "statement": "read_vocab(write_vocab(v)) = v for every well-formed table, in particular for every learned one.", "quantifier": "every table", "why_tests_cant": "all tables", "anchors": ["experimental/bpepp.py: BpeCodec.write_vocab, BpeCodec.read_vocab"]}
{"id": "C87", "title": "The bpepp commands do what they say", "statement": "learn1 writes the vocabulary learned from the text; learn2 extends it by merges of the encoded text to a vocabulary of the requested size; learn does both; encode and decode translate a file line by line; read_seqs reads at most max_seqs sequences of at most max_len numbers.", "quantifier": "every input file and all options", "why_tests_cant": "all files", "anchors": ["experimental/bpepp.py: learn_codes, run, BpeCodec.encode_all, BpeCodec.decode_all, BpeCodec.read_lines, BpeCodec.read_seqs"]}
{"id": "C88", "title": "learn, encode, decode restores the text", "statement": "After `nlcodec learn` on a text, `nlcodec encode` of the same text followed by `nlcodec decode`, both with or both without -idx, writes the lines of the text with single spaces between words.", "quantifier": "every text and every level", "why_tests_cant": "unbounded inputs through three commands and a file", "anchors": ["nlcodec/__main__.py: main", "nlcodec/codec.py: learn_vocab, load_scheme, encode, decode"]}
{"id": "C89", "title": "A failed learn leaves the earlier model", "statement": "When `nlcodec learn` ends with an exception, the model file is what it was before and nothing has been written to the output.", "quantifier": "every text, level and option", "why_tests_cant": "failures are rare paths", "anchors": ["nlcodec/__main__.py: main", "nlcodec/codec.py: learn_vocab, Type.write_out"]}
{"id": "C90", "title": "The predicted number of batches is the number of batches", "statement": "BatchIterable.num_batches is the number of batches that iterating yields; IdExample.val_exists_at makes a marker be there exactly when asked for.", "quantifier": "every database and batch size", "why_tests_cant": "all databases and sizes", "anchors": ["nlcodec/db/batch.py: BatchIterable.num_batches, BatchIterable.num_items, IdExample.val_exists_at"]}
{"id": "C91", "title": "Batches over a stored database hold every record once", "statement": "A BatchIterable on a database file or directory written by Db.create or MultipartDb.create yields, in every mode, batches within the budget that hold every record without empty columns exactly once, with its markers, padded; data_path may be a str or a Path; sort_by='random' gives a random order.", "quantifier": "every database, batch size, mode, hash order and shuffle", "why_tests_cant": "all databases, hash orders and random choices", "anchors": ["nlcodec/db/batch.py: BatchIterable.__init__, BatchIterable.__iter__, BatchIterable.read_all, BatchIterable.make_eq_len_batches", "nlcodec/db/core.py: Db.create, MultipartDb.create, MultipartDb.load"]}
{"id": "C92", "title": "Learning does not depend on the order of the lines", "statement": "Two data sets with the same lines in different order give the same vocabulary.", "quantifier": "every data set, permutation, scheme and option", "why_tests_cant": "all permutations of all data sets", "anchors": ["nlcodec/codec.py: WordScheme.learn, CharScheme.learn, BPEScheme.learn, EncoderScheme.get_init_vocab"]}
{"id": "C93", "title": "Encoding a training word gives the segmentation that learning left", "statement": "After learning BPE from text, encoding a word of that text gives the sequence of types into which learning turned the word.", "quantifier": "every text, word of it, set order and option", "why_tests_cant": "unbounded texts; merge order and longest match coincide on most small inputs", "anchors": ["nlcodec/codec.py: BPEScheme.encode, BPEScheme.encode_str, BPEScheme.learn"]}
{"id": "C94", "title": "nlcodec-freq writes the counts of its input", "statement": "`nlcodec-freq` writes tables that are read back as the number of times each word (-wf) and each character of a word (-cf) occurs in the lines of all input files, equal lines counted once unless -ndd is the last of -dd and -ndd; of an option given several times the last counts; no other file is touched; a failed run leaves existing tables alone.", "quantifier": "every list of options and all file contents", "why_tests_cant": "all options in all orders and all files", "anchors": ["nlcodec/term_freq.py: main, write_stats, word_counts"]}
{"id": "C95", "title": "nlcodec-freq and nlcodec learn -tfs give the model of nlcodec-learn", "statement": "Counting with `nlcodec-freq` and then learning with `nlcodec learn -tfs` from its table leaves the same model file, or the same error, as a first run of `nlcodec-learn` with the same inputs and options; and the same as `nlcodec learn` on the text itself.", "quantifier": "all inputs, levels and options", "why_tests_cant": "three programs with two files between them", "anchors": ["nlcodec/term_freq.py: main", "nlcodec/learn.py: main", "nlcodec/__main__.py: main", "nlcodec/codec.py: learn_vocab"]}
{"id": "C96", "title": "validate_index accepts exactly the consistent indexes", "statement": "BPELearn.validate_index returns iff the index is consistent: there are codes, all below the vocabulary size, no negative counts, every counted pair has its positions, whose frequencies add up to the count, and occurs at most as often as each of its parts; otherwise it raises ValueError.", "quantifier": "every index and vocabulary", "why_tests_cant": "all indexes", "anchors": ["nlcodec/bpe.py: BPELearn.validate_index"]}
{"id": "C97", "title": "Parallel text survives learning, encoding into a database and batching", "statement": "With models learned by `nlcodec learn` from two text files, `nlcodec-bitextdb` writes a database whose batches hold every pair of lines with words once, and whose records decode to these lines up to white space; the columns have the names asked for.", "quantifier": "all texts, models, options, partitionings and batch sizes", "why_tests_cant": "three programs, a directory of files and a cluster between text and batch", "anchors": ["nlcodec/bitextdb.py: main, parse_args", "nlcodec/spark.py: read_raw_bitext_tok, rdd_as_db", "nlcodec/db/batch.py: BatchIterable.__iter__", "nlcodec/__main__.py: main"]}
{"id": "C98", "title": "What is lost after learning with any options", "statement": "After `nlcodec learn` with any size, minimum frequency and coverage, `nlcodec encode` and `nlcodec decode` of any text, not only the one learned from, never fail and give its words separated by single spaces, where exactly the words (word level, -idx), or the characters (char level, -idx; bpe level), that are not in the vocabulary are replaced by <unk>.", "quantifier": "all texts, options and pairs of texts", "why_tests_cant": "unknown words and characters in arbitrary contexts, next to and inside of names of the vocabulary", "anchors": ["nlcodec/__main__.py: main", "nlcodec/codec.py: learn_vocab, encode, decode, BPEScheme.encode_str"]}
{"id": "C99", "title": "The command works on the bytes of UTF-8 files", "statement": "Run on files of bytes read in chunks of any size, `nlcodec` treats the UTF-8 encoding of a text exactly like the text: the model file and output are the encodings of those for the text. Of an input that is not valid UTF-8 nothing is learned, the model file stays, and encode and decode write exactly what they write for some whole lines at its beginning, which are valid; the program ends with an exception.", "quantifier": "all byte strings, all divisions into chunks, all levels and options", "why_tests_cant": "all byte strings and chunkings", "anchors": ["nlcodec/__main__.py: main, write_lines, parse_args", "nlcodec/codec.py: learn_vocab, Type.write_out, load_scheme", "nlcodec/utils.py: IO"]}
{"id": "C100", "title": "A word seen as often as the threshold asks becomes one type", "statement": "When BPE learning is ended by the threshold on pair counts and not by the size, every word of known characters that occurs at least as often as the threshold has its own type, and is encoded as that type; so a line of such words has one id for each word.", "quantifier": "all texts, thresholds and set orders", "why_tests_cant": "the segmentation of a word depends on all merges, and so on all of the text", "anchors": ["nlcodec/bpe.py: BPELearn.learn_codes", "nlcodec/codec.py: BPEScheme.learn, BPEScheme.encode"]}
{"id": "C101", "title": "A BPE scheme can be built whatever the length of its types", "statement": "Every table that BPE learning returns can be made a scheme, saved and loaded again, within the recursion limit of Python.", "quantifier": "all texts and recursion limits", "why_tests_cant": "the length of names is not bounded, and the depth of the recursion depends on it", "anchors": ["nlcodec/dstruct.py: TrNode.get_node, TrNode.size, TrNode.data_node_count", "nlcodec/codec.py: BPEScheme.__init__, learn_vocab, load_scheme"]}
{"id": "C102", "title": "Files opened by IO are read whatever their bytes are", "statement": "A file opened by `IO.reader` gives the text of which it is the UTF-8 encoding, however its bytes arrive; in other files every maximal piece that is not UTF-8 becomes one U+FFFD; what `IO.writer` writes is read back. Therefore `shrink_vocab` never fails on account of the content of its files, unless they have no id at all, and keeps the same types whether a file is compressed or not.", "quantifier": "all byte strings, all divisions into chunks, all schemes and thresholds", "why_tests_cant": "all byte strings and chunkings", "anchors": ["nlcodec/utils.py: IO.__init__, IO.__enter__, IO.reader, IO.writer, IO.read_as_stream", "nlcodec/codec.py: EncoderScheme.shrink_vocab, ByteScheme.compose_str"]}
{"id": "C103", "title": "The work of encoding a line grows linearly", "statement": "For a given vocabulary, the work that `BPEScheme.encode_str` does for a line, counted in rounds of its loop and in characters copied by its slices, is at most a constant times the length of the line.", "quantifier": "all vocabularies and lines", "why_tests_cant": "a bound for lines of every length", "anchors": ["nlcodec/codec.py: BPEScheme.encode_str, BPEScheme.make_vocab_prefix_trie"]}
{"id": "C104", "title": "Decoding arbitrary pieces and ids with the byte scheme", "statement": "decode_str of a byte scheme copies the reserved names and decodes each longest run of other pieces for itself: the run is read as pairs of hexadecimal digits (upper or lower case, white space allowed between pairs only) and the bytes are decoded as UTF-8 with replacement characters; any other run raises ValueError. For ids of the built-in vocabulary this means: decoding succeeds exactly if every longest run without markers has an even number of ids below 16.", "quantifier": "for every vocabulary of a byte scheme and every list of pieces; for every list of ids below 258", "why_tests_cant": "The pieces are unbounded in number and content; the condition is about every run between markers, and a test set would need all parities and all malformed UTF-8 sequences.", "anchors": ["nlcodec/codec.py: ByteScheme.compose_str, ByteScheme.decode_str, ByteScheme.decode"]}
{"id": "C105", "title": "Equal-length batches whatever the record ids are", "statement": "make_eq_len_ran_batches of a database returns every record without empty columns exactly once, and nothing else, whether ids are numbers or texts and however large the numbers are.", "quantifier": "for every database with ids that are texts or numbers of 64 bits, every budget and every outcome of the shuffles", "why_tests_cant": "Ids and lengths are put into one numpy array, whose type depends on all ids together; only databases with texts or with numbers on both sides of 2^63 show the difference, and a wrong record may be returned silently.", "anchors": ["nlcodec/db/core.py: Db._make_eq_len_batch_ids, Db.make_eq_len_ran_batches"]}
{"id": "C106", "title": "A database can be read whatever its fields are called", "statement": "A database made with distinct field names can be looked up, iterated over and batched; MultipartDb.create returns it, and MultipartDb.load loads it.", "quantifier": "for every list of distinct field names and every list of records with one column per name", "why_tests_cant": "The names are checked only when a record is made, by namedtuple; tests use the names x and y.", "anchors": ["nlcodec/db/core.py: Db.RecType, Db.__getitem__, Db.__iter__, MultipartDb.create, MultipartDb.load"]}
{"id": "C107", "title": "Exactly which files and lines are accepted", "statement": "A vocabulary file is read exactly if its lines are the rows of a table: tab separated columns with the position, the name, the level, the frequency and the numbers of earlier rows, where a number is anything int() documents. A frequency file is read exactly if every line after the header is a term, a tab and a number; a line of indices is decoded exactly if all its tokens are numbers, whatever way they are written.", "quantifier": "for every text, every list of lines and every line", "why_tests_cant": "The readers accept far more than the writers produce: signs, underscores, digits of any script, white space, negative kid numbers. Tests read what was written.", "anchors": ["nlcodec/codec.py: Type.parse, Type.read_vocab, EncoderScheme.read_term_freqs, decode"]}
{"id": "C108", "title": "Nodes of linked lists are equal if the lists are", "statement": "For any two nodes of doubly linked lists, `==` returns: True exactly if the two nodes have the same value and frequency and so have their neighbours to both ends, otherwise False.", "quantifier": "all lists of all lengths, all positions, and any recursion limit", "why_tests_cant": "The comparison calls itself on both neighbours; whether it ends depends on the whole lists.", "anchors": ["nlcodec/dstruct.py: LnNode.__eq__"]}
{"id": "C109", "title": "A node prints the list it is in", "statement": "The text of a node has the values to its left in order, its own value between stars, and the values to its right, separated by spaces; so do the nodes made by from_seq, and after delete a node prints itself alone and the others print the list without it.", "quantifier": "all lists of all lengths and all positions", "why_tests_cant": "two loops over a mutable list of any length", "anchors": ["nlcodec/dstruct.py: LnNode.__repr__, LnNode.from_seq, LnNode.delete"]}
{"id": "C110", "title": "Memory use is reported in whole kilobytes or megabytes", "statement": "The text returned by max_RSS is the number of whole kilobytes followed by KB if it is less than 1000, and otherwise the number of whole megabytes followed by MB, both on Linux (measured in kilobytes) and macOS (bytes); rounding of the floating-point divisions never shows.", "quantifier": "all measured values below 2^53 (Linux) and 2^51 (macOS)", "why_tests_cant": "values next to a multiple of 1000 could be rounded up to it", "anchors": ["nlcodec/utils.py: max_RSS"]}
{"id": "C111", "title": "The report of word counts is exact and ordered", "statement": "main of mapred.py prints for each word of the lines one line: the word, a tab and the number of its occurrences in decimal digits with commas between groups of three, the more frequent words first; without any line AssertionError is raised.", "quantifier": "all lists of lines", "why_tests_cant": "sums over any number of partial counts, and numbers of any size", "anchors": ["nlcodec/para/mapred.py: main, word_count_line, merge_freqs"]}
{"id": "C112", "title": "Fields are stored in the smallest integer type", "statement": "The data of a field built from any records have the narrowest integer type that holds all their values.", "quantifier": "all records, values and buffer sizes", "why_tests_cant": "The type is the outcome of a sequence of promotions that depends on all values and on where the buffer is flushed.", "anchors": ["nlcodec/db/core.py: SeqField.Builder.append, SeqField.Builder.shrink, SeqField.Builder.build, best_dtype"]}
{"id": "C113", "title": "Exactly which tables make a scheme and which model files load", "statement": "A scheme of a kind can be made of a table exactly if the names begin with the six reserved ones (word, char, bpe), are distinct (all but bpe) and are not empty (bpe); a model file loads exactly if its header names the kind, by scheme name or by highest level, the other lines are rows of a table and the table is accepted for the kind. The table of the scheme is the one given, or for bytes without any the bytes and two markers.", "quantifier": "all tables, all texts and all headers", "why_tests_cant": "Tables may come from files written by hand; negative levels count from the end, names may repeat and rows may be missing in endless ways.", "anchors": ["nlcodec/codec.py: load_scheme, EncoderScheme.load, Reseved.validate, WordScheme.__init__, CharScheme.__init__, BPEScheme.__init__, ClassScheme.__init__, ByteScheme.__init__"]}
{"id": "C114", "title": "Asking for more only adds types", "statement": "With the same data, a lower minimal frequency, a higher coverage, a greater vocabulary size or, for bpe, a lower co-evidence threshold gives a table that begins with the types learned before, under the same ids.", "quantifier": "all texts, limits, coverages and orders of the sets", "why_tests_cant": "Compares runs with different parameters, of any number of merges, over all texts.", "anchors": ["nlcodec/codec.py: WordScheme.get_init_vocab, CharScheme.get_init_vocab, BPEScheme.learn", "nlcodec/bpe.py: BPELearn.learn_codes"]}
{"id": "C115", "title": "Shrinking to a text and then to a part of it is shrinking to the part", "statement": "With a minimal frequency of at most 1, shrinking a vocabulary to some lines and the result to some of these lines gives the same table as shrinking to the latter at once, and the mappings compose; in particular shrinking twice with the same text changes nothing the second time.", "quantifier": "all tables of all five schemes and all lines", "why_tests_cant": "A relation between three runs; fails silently if the mapping or the kids are off by one for a rare type.", "anchors": ["nlcodec/codec.py: EncoderScheme.shrink_vocab"]}
{"id": "C116", "title": "Which lines have the same encoding", "statement": "Two lines get the same ids exactly if: (word) their tokens are equal or unknown in both; (char) so are the characters of the tokens joined by U+2581; (bpe) so are the longest matches, and on covered text exactly if the tokens joined by U+2581 are the same; (class) the stripped labels are equal or both unknown; (byte) they are the same line.", "quantifier": "all tables and all pairs of lines", "why_tests_cant": "Says what the ids still tell about the text for all pairs of lines; tests compare a few.", "anchors": ["nlcodec/codec.py: WordScheme.encode_str, CharScheme.encode_str, BPEScheme.encode, ClassScheme.encode_str, ByteScheme.encode, EncoderScheme.encode"]}
{"id": "C117", "title": "bpepp changes no file but those it has to write", "statement": "learn1 and learn2 of bpepp write their vocabulary file when learning went through and otherwise leave every file as it was; learn does so for both levels together; when a level 2 vocabulary is written the level 1 vocabulary is kept, in its own file or under the name with .l1; encode writes its output file and changes no other one.", "quantifier": "all trees of files, all paths, all arguments", "why_tests_cant": "Loss of a vocabulary depends on which paths lead to the same file and on when a run fails; tests run each command once in a fresh directory.", "anchors": ["experimental/bpepp.py: learn_codes, run, BpeCodec.write_vocab, BpeCodec.read_vocab, BpeCodec.read_lines"]}
{"id": "C118", "title": "The table of pr_measure can be read back", "statement": "The table written by pr_measure has a header and one line of nine tab-separated columns per row, from which rank, id, name and frequencies are read back exactly and recall, precision and F1 rounded to the nearest number of six significant digits; given the file that termfreq writes for another text, the rows are ranked by the frequencies in that text, types that are not in it last, with -1.", "quantifier": "every loaded model, all texts, all numbers that are not negative", "why_tests_cant": "Names come from model files and numbers are rounded in decimal; columns shift or numbers lose digits only for particular names and magnitudes.", "anchors": ["nlcodec/eval/pr_measure.py: main", "nlcodec/eval/termfreq.py: main", "nlcodec/codec.py: load_scheme"]}
{"id": "C119", "title": "Listing a field gives its records in order", "statement": "keys, values, items and lengths of a field built from records list its records in the order they were added: the ids, the sequences, the pairs of id and sequence, and the pairs of id and length; len is their number.", "quantifier": "all sequences of records and buffer sizes", "why_tests_cant": "Numbering, offsets and the order of a dictionary have to agree for every number of records and flush points; items has no caller.", "anchors": ["nlcodec/db/core.py: SeqField.keys, SeqField.values, SeqField.items, SeqField.lengths, SeqField.__len__"]}
{"id": "C120", "title": "The quality estimate counts what encode writes", "statement": "For every model file and text with at least one line, the command of qestim counts the words that nlcodec encode -idx writes with this model for this text: n_tokens all, unk_count the unknown ones, mean_seq_len their number per line, imbalance that of their frequencies.", "quantifier": "every model file and text", "why_tests_cant": "Relates two programs over all models and texts; one of them works in floats and reads an attribute that not every scheme has.", "anchors": ["nlcodec/qestim.py: estimate, QualityEstimator.estimate", "nlcodec/codec.py: load_scheme, encode", "nlcodec/__main__.py: main"]}
{"id": "C121", "title": "Asking the two-level learner for more only adds types", "statement": "If learning succeeds in experimental/bpepp.py with some number of rounds or size and some threshold, then, with the internal sets visited in the same order, it succeeds with fewer rounds or any smaller size above that of the initial vocabulary and with a higher threshold, and gives the beginning of the same table, under the same ids.", "quantifier": "all corpora, initial tables, sizes, thresholds and orders of the sets", "why_tests_cant": "Compares runs with different parameters, of any number of merges, over all texts, including the texts on which the counts go wrong.", "anchors": ["experimental/bpepp.py: BPELearn.learn_codes, WordBPE.learn_subwords"]}
{"id": "C122", "title": "Encoding in one process or in many gives the same sequences", "statement": "encode_all of eval/termfreq.py yields, for each line in order, the ids (or with index=False the pieces) that the scheme gives for this line, the same as encode_parallel; a line that cannot be encoded ends the generator after all sequences before it.", "quantifier": "every scheme, all inputs, every order in which processes finish", "why_tests_cant": "encode_all strips lines before encoding and encode_parallel does not; that this makes no difference has to hold for every scheme and every white space.", "anchors": ["nlcodec/eval/termfreq.py: encode_all", "nlcodec/codec.py: EncoderScheme.encode_parallel, encode, encode_str"]}
{"id": "C123", "title": "The tables of a writing system are consistent", "statement": "An AbugidaLang can be built if and only if each code point is given as a number or as one character, the consonants are a set, different vowels have different signs and no vowel is a consonant; then its tables say what was given, signs and vowels are mapped to each other one to one, and numbers and characters are interchangeable. get_aubugida knows the one language under four names and refuses all others.", "quantifier": "all tables of letters", "why_tests_cant": "The constructor is only ever run on the one table of the repository; equal keys written in two ways collapse, and the checks have to imply that the maps are inverse to each other for all tables.", "anchors": ["experimental/unicode_fix.py: Lang, AbugidaLang.__init__, get_aubugida, main"]}
{"id": "C124", "title": "Raw texts stay with their rows", "statement": "x_raw and y_raw of a Batch, if set, have one entry per row, and entry i is the raw text of the example in row i of the matrices, also after sorting; they are set exactly if the first row has a raw text that is not empty, y_raw only if there are targets. Subscripting an example gives its attributes and the lengths of its two sides.", "quantifier": "every list of examples, every option", "why_tests_cant": "Nothing in the repository sets raw texts; alignment has to hold for every order of lengths and every mixture of examples with and without texts.", "anchors": ["nlcodec/db/batch.py: IdExample.__init__, IdExample.__getitem__, Batch.__init__"]}
{"id": "C125", "title": "Masks and devices work on batches", "statement": "subsequent_mask(size) returns the matrix in which position j is open to position i exactly if j <= i; make_autoreg_mask combines it with the padding; Batch.to moves a batch to a device.", "quantifier": "every size, every batch", "why_tests_cant": "No test calls these methods; they have to work for every size.", "anchors": ["nlcodec/db/batch.py: subsequent_mask, Batch.make_autoreg_mask, Batch.to"]}
{"id": "C126", "title": "Learned BPE types occur in the text, at least as often as their frequency says", "statement": "Every type that BPE learning adds by merging is spelled by consecutive characters of a word of the training text (ended by U+2581; characters left out by the coverage limit read as <unk>); its frequency is positive and at most the number of places where it occurs.", "quantifier": "every text, every size and threshold, every coverage limit, every order of the sets", "why_tests_cant": "The counts are updated incrementally by every merge; a test compares a few frequencies of one text, while the bound must survive every sequence of merges.", "anchors": ["nlcodec/bpe.py: BPELearn.learn_codes, BPELearn._learn_codes", "nlcodec/codec.py: BPEScheme.learn"]}
{"id": "C127", "title": "How long an encoding is", "statement": "The encoding of a line with the word scheme has one id for each word; with the char scheme one for each character of the words and one between two words; with the class scheme one; with the byte scheme one for each byte of the line in UTF-8. With a BPE scheme it has at most one id for each character and each word, at least one for every L of them when no name is longer than L, and, for vocabularies learned from text without U+2581, at least one for each word.", "quantifier": "for all schemes, vocabularies and lines (of any length)", "why_tests_cant": "Bounds over all vocabularies and lines; tests only see some lengths, and limits on lengths in databases and batches rely on them.", "anchors": ["nlcodec/codec.py: BPEScheme.encode_str", "nlcodec/codec.py: WordScheme.encode_str", "nlcodec/codec.py: CharScheme.encode_str", "nlcodec/codec.py: ByteScheme.encode_str", "nlcodec/codec.py: ClassScheme.encode_str"]}
{"id": "C128", "title": "The encoding of two lines in one is the two encodings in one", "statement": "For two lines and a line with the words of the first followed by those of the second: with the word scheme the encoding of the line is that of the first followed by that of the second; with the char scheme the id of the space is between them; with BPE vocabularies learned from text without U+2581 they follow each other (if both lines have words). With the byte scheme the encoding of two texts put together is the two encodings put together.", "quantifier": "for all vocabularies and lines, whatever the white space", "why_tests_cant": "Whether pieces can reach across the seam depends on all names of the vocabulary and all texts around it; tests see a few.", "anchors": ["nlcodec/codec.py: BPEScheme.encode_str", "nlcodec/codec.py: WordScheme.encode_str", "nlcodec/codec.py: CharScheme.encode_str", "nlcodec/codec.py: ByteScheme.encode_str"]}
{"id": "C129", "title": "Encodings with random splits are exactly the decompositions of the plain encoding", "statement": "For every accepted BPE vocabulary whose types have no kids or two earlier kids, and so for every learned one, the piece sequences that encode_str(line, split_ratio) can give over all outcomes of the random draws are exactly the names of the sequences obtained from the types of the plain encoding by repeatedly replacing a type by its two kids: none is missing, none is spurious, the words are split independently of each other. Each has at least as many pieces as the plain encoding; if no draw succeeds the result is the plain encoding; if every draw succeeds it consists of types without kids and every other result can be split further into it.", "quantifier": "every such vocabulary, every line and every outcome of the draws", "why_tests_cant": "the number of outcomes is exponential in the line length; that a combination can never occur is invisible to sampling", "anchors": ["nlcodec/codec.py: BPEScheme.encode_str, BPEScheme.stochastic_split, Type.get_stochastic_split"]}
{"id": "C130", "title": "What the split ratio does", "statement": "BPE encoding with split_ratio nan, zero or negative is the plain encoding whatever is drawn; with a ratio of 1 or more every type is split into types without kids whatever is drawn; with any ratio between, every decomposition of the plain encoding can be drawn and nothing else. With every ratio and all draws encoding succeeds, the ids are valid and they decode to the same text as the plain encoding, for every learned vocabulary.", "quantifier": "every accepted table with kids earlier, every line, every ratio and every sequence of draws", "why_tests_cant": "draws are 53-bit numbers; that the extreme draws 0 and 1 - 2^-53 fall on the right side of every ratio is not seen by sampling", "anchors": ["nlcodec/codec.py: BPEScheme.encode, BPEScheme.encode_str, BPEScheme.stochastic_split, Type.get_stochastic_split"]}
{"id": "C131", "title": "Encoding the decoded text gives the same ids", "statement": "For char and BPE schemes encode(decode(encode(line))) = encode(line), also for lines with unknown characters.", "quantifier": "every accepted vocabulary and every line", "why_tests_cant": "unknown characters in any place next to names of the vocabulary; that <unk> is not read together with its neighbours depends on all names", "anchors": ["nlcodec/codec.py: BPEScheme.encode_str, BPEScheme.decode_str, CharScheme.encode_str, CharScheme.decode_str"]}
{"id": "C132", "title": "Encode, decode, encode writes the first file again", "statement": "For word, char, BPE and class models, running the encode command on the output of decode on the output of encode writes the same file as the first encode, as ids (-idx) and as pieces.", "quantifier": "every accepted vocabulary, every text of any number of lines, both formats", "why_tests_cant": "the text passes three times through lines, split and join; unknown words, empty lines and a missing last newline combine freely", "anchors": ["nlcodec/__main__.py: main", "nlcodec/codec.py: encode, decode, WordScheme.encode_str, CharScheme.encode_str, BPEScheme.encode_str, BPEScheme.decode_str, ClassScheme.encode_str"]}
