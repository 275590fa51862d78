#!/usr/bin/env python3
"""Writes /verif/properties.jsonl from the list below (one property per entry)."""
import json, os
P = []
def p(id, title, statement, quantifier, why, *anchors):
    P.append(dict(id=id, title=title, statement=statement, quantifier=quantifier,
                  why_tests_cant=why, anchors=list(anchors)))

C='nlcodec/codec.py'; B='nlcodec/bpe.py'; D='nlcodec/dstruct.py'; U='nlcodec/utils.py'
K='nlcodec/db/core.py'; T='nlcodec/db/batch.py'; M='nlcodec/para/mapred.py'; Q='nlcodec/qestim.py'
F='nlcodec/term_freq.py'; S='nlcodec/spark.py'; L='nlcodec/learn.py'; E='nlcodec/eval/'; X='experimental/'

# ---------------------------------------------------------------- schemes
Y='experimental/bpepp.py'
p('C01','Word scheme round trip',
  "For a word scheme built on any accepted vocabulary, decode(encode(line)) is exactly the whitespace-separated tokens of the line joined by one space, with every token that is not a vocabulary name replaced by '<unk>'. In particular it is the whitespace-normalised line when all tokens are known.",
  'every vocabulary accepted by the constructor and every input line',
  'the claim ranges over all unicode lines (29 whitespace code points, any spacing) and all vocabularies',
  f'{C}: WordScheme.encode_str, WordScheme.decode_str, EncoderScheme.encode, EncoderScheme.decode')
p('C02','Char scheme round trip',
  "For a char scheme built on any accepted vocabulary, decode(encode(line)) is the line's tokens joined by one space when every character is a vocabulary name and no token contains U+2581; in general each unknown character becomes '<unk>' and each U+2581 becomes a space.",
  'every accepted vocabulary and every line',
  'unbounded lines, vocabularies and placements of U+2581/unknown characters',
  f'{C}: CharScheme.encode_str, CharScheme.decode_str')
p('C03','BPE encoding is greedy longest match and always terminates',
  "For every accepted BPE vocabulary whose types carry their own position as index (as every vocabulary read or learned does) and every line, encode_str terminates and its output is the leftmost greedy longest-match segmentation of the normalised text (tokens joined and ended by U+2581): at each position the longest vocabulary name that is a prefix of the rest is emitted, and if there is none then one '<unk>' is emitted and exactly one character is consumed.",
  'every accepted vocabulary with types at their own index (any overlaps, duplicates, prefixes) and every line',
  'the trie walk backtracks; which backtracking pattern happens depends on the whole vocabulary and line, and non-termination cannot be observed by a test',
  f'{C}: BPEScheme.encode_str, BPEScheme.make_vocab_prefix_trie', f'{D}: TrNode.get_node')
p('C04','BPE encoding is lossless on covered text',
  "For every accepted BPE vocabulary with types at their own index, whatever merges and duplicates it holds, if every character of a line's tokens is a vocabulary name and none of them is U+2581, then decode(encode(line)) equals the tokens of the line joined by one space; decode(encode(line)) and decode_str(encode_str(line)) agree on every line.",
  'every accepted vocabulary with types at their own index and every covered line',
  'losslessness must hold for all vocabularies that can ever be learned and all texts',
  f'{C}: BPEScheme.encode, BPEScheme.encode_str, BPEScheme.decode_str')
p('C05','Encoded ids are always valid vocabulary indices',
  "For word, char, bpe and byte schemes every id produced by encode(line) is in [0, vocab_size), hence decode(encode(line)) never raises an index error; for a class scheme every id is in range or is -1. (bpe: for types that carry their own position as index, which the constructor does not check.)",
  'every accepted vocabulary and every line (byte: every encodable line)',
  'an out-of-range id for one rare line would crash a downstream embedding lookup',
  f'{C}: EncoderScheme.encode, BPEScheme.encode, ByteScheme.encode, ClassScheme')
p('C06','Stochastic BPE splits never change the text',
  "For a vocabulary whose composed types spell the concatenation of their kids, encoding with any split_ratio and any sequence of random draws yields pieces whose concatenation equals the concatenation of the unsplit pieces, and every emitted id is a valid index.",
  'every such vocabulary, line, split ratio and outcome of the random number generator',
  'the random draws form an unbounded tree of outcomes',
  f'{C}: Type.get_stochastic_split, BPEScheme.stochastic_split, BPEScheme.encode_str')
p('C07','get_permutations enumerates exactly the decompositions',
  "get_permutations(t) lists exactly the sequences obtained from t by repeatedly replacing a type by its two kids; the type itself comes first; every listed sequence spells t's name; every possible stochastic split is one of them.",
  'every type tree whose nodes have no kids or two kids',
  'exponentially many decompositions; a missing or spurious one is invisible to sampling',
  f'{C}: Type.get_permutations, Type.get_stochastic_split')
p('C08','Byte scheme: round trip of text',
  "For the built-in byte vocabulary, encode(s) is the sequence of UTF-8 bytes of s and decode(encode(s)) = s for every encodable text s.",
  'every unicode text without surrogates',
  'all code points and all mixtures of 1-4 byte sequences',
  f'{C}: ByteScheme.encode_str, ByteScheme.decode_str, ByteScheme.compose_str, ByteScheme.code_to_str')
p('C09','Byte scheme: reserved tokens are transparent separators',
  "Decoding a piece sequence in which encoded texts are interleaved with the reserved tokens <s> and </s> yields the texts interleaved with the literal reserved names; encoding never produces a reserved id, whatever the text contains.",
  'every list of texts and every interleaving of reserved tokens',
  'all interleavings and texts',
  f'{C}: ByteScheme.decode_str, ByteScheme.encode')
p('C10','Class scheme: unseen labels are not decoded as some other label',
  "Every label learned by a class scheme round-trips through encode/decode; a label that was never seen must not decode to a known label.",
  'every label multiset used to learn and every label encoded',
  'ranges over all label sets; the wrong answer needs an unseen label',
  f'{C}: ClassScheme, EncoderScheme.encode, EncoderScheme.decode')
p('C11','Encoding depends only on the tokens; word encoding is stable',
  "For word, char and bpe schemes two lines with the same whitespace-separated tokens have the same encoding; for a word scheme encode(decode(encode(line))) = encode(line) for every line, known or not.",
  'every accepted vocabulary and every pair of lines',
  'quantifies over all layouts of whitespace',
  f'{C}: WordScheme, CharScheme.encode_str, BPEScheme.encode_str')
p('C12','Vocabulary file round trip',
  "Writing any table (types at their own index, kids referring to earlier entries of the table) whose names contain no tab, line feed, carriage return or surrogate, and reading the file back, gives the same table; a table whose entries are out of place, and the empty table, are refused.",
  'every table, any size, any names, levels, frequencies and kids',
  'file format ambiguity depends on arbitrary unicode names',
  f'{C}: Type.format, Type.parse, Type.write_out, Type.read_vocab')
p('C13','Saved schemes load as the same scheme',
  "Saving any constructed scheme (word, char, bpe, class, byte) and loading the file gives a scheme of the same kind with the same table, hence the same encode and decode on all inputs.",
  'every constructed scheme whose names are storable',
  'must hold for every vocabulary ever learned',
  f'{C}: EncoderScheme.save, load_scheme, REGISTRY')
p('C14','read_vocab accepts only well-formed tables',
  "Whatever the file content, if reading a vocabulary succeeds then each type's index is its position and each kid is an earlier entry of the same table (so type trees are finite and acyclic).",
  'every file content',
  'adversarial or corrupted files cannot be enumerated',
  f'{C}: Type.parse, Type.read_vocab')
# ---------------------------------------------------------------- learning init vocab
p('C15','Learned word/char vocabulary contract',
  "get_init_vocab puts the six reserved types at indices 0-5, every type at its own index, all names distinct, non-reserved types in non-increasing frequency order, each with frequency >= min_freq and equal to its count, and keeps exactly the most frequent ones so that the total size is at most vocab_size when vocab_size > 0.",
  'every frequency table, min_freq, coverage and vocab_size',
  'ties, thresholds and reserved names in the corpus interact for arbitrary tables',
  f'{C}: EncoderScheme.get_init_vocab, Reseved.with_reserved_types')
p('C16','Token mass is conserved in the learned vocabulary',
  "The frequencies of the kept types plus the frequency credited to <unk> for excluded types plus the reserved names found in the corpus add up to the total number of tokens, plus the line count credited to each of <s>, </s>, <cls>; when the line count is unknown (a frequency file without header) one occurrence of each of these three that occurs is lost.",
  'every frequency table and every combination of coverage, min_freq and vocab_size',
  'three trimming stages interact',
  f'{C}: EncoderScheme.get_init_vocab', f'{U}: filter_types_coverage')
p('C17','Coverage filter keeps the shortest most-frequent prefix',
  "filter_types_coverage returns the shortest prefix of the types in non-increasing frequency order whose relative mass reaches the requested coverage, and the returned unk count is the exact mass of the rest.",
  'every non-empty table of positive counts and every coverage in (0, 1]',
  'threshold behaviour for arbitrary distributions',
  f'{U}: filter_types_coverage')
p('C18','Class vocabulary is sorted and independent of data order',
  "A learned class vocabulary lists each distinct stripped label once, in increasing code-point order, with its count, at indices 0..n-1; permuting the input lines gives the same vocabulary.",
  'every list of labels and every permutation',
  'all orders of all inputs',
  f'{C}: ClassScheme.get_init_vocab, WordScheme.term_frequencies')
p('C19','Learned vocabularies are always accepted by their scheme',
  "The table learned by the word, char, bpe, class and byte schemes is accepted by that scheme's constructor for every corpus on which learning succeeds (always, for all but bpe), including corpora that contain the reserved names literally.",
  'every corpus and every parameter setting',
  'needs corpora with reserved strings, ties, empties',
  f'{C}: EncoderScheme.__init__, WordScheme.learn, CharScheme.learn, ClassScheme, ByteScheme')
# ---------------------------------------------------------------- BPE learning
p('C20','BPE learning performs exactly the most-frequent-pair merges',
  "For every corpus of weighted sequences and every iteration order of the internal node sets, each new type learned is the pair of adjacent symbols with the highest current weighted count (the smallest pair on ties), recorded with exactly that count, where the current corpus is the initial one with all previously learned pairs replaced.",
  'every weighted corpus, number of merges, evidence threshold and set iteration order',
  'the heap holds stale entries, the lists are edited in place and set order is address dependent: histories are unbounded',
  f'{B}: BPELearn.learn_codes, BPELearn.create_index', f'{D}: LnNode, MaxHeap')
p('C21','BPE learning never trips its internal checks',
  "For every non-empty corpus of non-empty sequences with positive frequencies over the given vocabulary, index creation, index validation and all merge steps raise no assertion, key or value error, whatever the set iteration order; the only possible exception is running out of pairs.",
  'every weighted corpus, parameters and set iteration order',
  'assertions guard rare overlap patterns (x a a a a y) in arbitrary order',
  f'{B}: BPELearn.__init__, BPELearn.create_index, BPELearn.validate_index, BPELearn.learn_codes')
p('C22','Learned BPE vocabularies are well formed',
  "The learned table extends the initial one; each new type sits at its own index, has two earlier kids, is named by the concatenation of their names, and the table never has more than vocab_size types.",
  'every corpus and parameters',
  'must hold for all learned tables',
  f'{B}: BPELearn.learn_codes, BPELearn._learn_codes')
p('C23','Merge frequencies never increase and respect the evidence threshold',
  "The frequencies recorded for successive merges are non-increasing and all at least min_co_evidence.",
  'every corpus and parameters',
  'a monotonicity claim over the complete run history',
  f'{B}: BPELearn.learn_codes')
p('C24','BPE learning is deterministic',
  "Learning twice from the same corpus with the same parameters gives the same vocabulary, whatever the iteration order of hash sets.",
  'every corpus, every pair of set iteration orders',
  'iteration order depends on memory addresses and cannot be controlled by a test',
  f'{B}: BPELearn.learn_codes', f'{D}: LnNode.__hash__')
p('C25','BPE learning stops gracefully when nothing is left to merge',
  "If fewer merges are possible than requested, learning returns the vocabulary learned so far instead of failing.",
  'every corpus and requested size',
  'depends on the corpus being exhausted after an unbounded number of merges',
  f'{B}: BPELearn.learn_codes', f'{D}: MaxHeap.pop')
p('C26','MaxHeap pops in priority order',
  "Popping a MaxHeap returns a pair of maximum value (smallest key on ties); any interleaving of pushes and pops behaves like a sorted multiset; pop on empty raises.",
  'every sequence of push and pop operations',
  'all operation histories',
  f'{D}: MaxHeap')
p('C27','Learning options take effect for the level they are documented for',
  "learn_vocab uses the min_freq and min_co_ev options given by the user for the bpe level: words below min_freq are ignored, and pairs below min_co_ev are not merged.",
  'every corpus and option value',
  'an ignored option needs a differential argument over all inputs',
  f'{C}: learn_vocab, BPEScheme.learn, REGISTRY', f'{B}: BPELearn.learn_subwords')
# ---------------------------------------------------------------- shrink
p('C28','shrink_vocab keeps exactly what is needed',
  "The mapping returned by shrink_vocab is strictly increasing and contains an index iff its type is reserved, reaches min_freq on the given text, or is a (transitive) kid of such a type; the saved table has names, levels and frequencies of the old one, its own indices, and kids that point to the images of the old kids.",
  'every table with earlier kids, every text whose encoding has at least one id, every min_freq',
  'closure over arbitrary type forests',
  f'{C}: EncoderScheme.shrink_vocab')
p('C29','Shrinking does not change the encoding of the text it was shrunk to',
  "With min_freq <= 1, for every line of the given files, encoding with the shrunk vocabulary and translating ids through the mapping gives the encoding with the original vocabulary (word, char and bpe).",
  'every vocabulary, every set of files and every line in them',
  'differential claim over all vocabularies and texts',
  f'{C}: EncoderScheme.shrink_vocab, EncoderScheme.encode, BPEScheme.encode_str')
p('C30','A shrunk vocabulary loads as the same kind of scheme',
  "Loading the file saved by shrink_vocab gives a scheme of the same kind as the one that was shrunk.",
  'every scheme kind, table and text',
  'depends on which levels survive for arbitrary data',
  f'{C}: EncoderScheme.shrink_vocab, load_scheme')
p('C31','Term-frequency files round trip',
  "write_stats followed by read_term_freqs restores the same term to frequency mapping and line count, for all terms without tab/newline and without surrounding whitespace.",
  'every frequency table and line count',
  'arbitrary unicode terms, including terms starting with #',
  f'{F}: write_stats', f'{C}: WordScheme.read_term_freqs')
p('C32','Learning from a frequency file equals learning from raw text',
  "For the word scheme, learning from the lines written by write_stats for a corpus gives the same vocabulary (up to the order of equally frequent types) as learning from the corpus itself.",
  'every corpus and options',
  'differential claim over all corpora',
  f'{C}: WordScheme.learn, WordScheme.read_term_freqs, WordScheme.term_frequencies', f'{F}: write_stats')
p('C33','Prefix trie is a faithful map',
  "After building the trie from any list of types, looking up a string finds the last type with that name and nothing for other strings; data_node_count is the number of distinct names and size is one more than the number of distinct non-empty prefixes.",
  'every list of types and every string',
  'all insertion orders and overlaps',
  f'{D}: TrNode.get_node, TrNode.size, TrNode.data_node_count', f'{C}: BPEScheme.make_vocab_prefix_trie')
# ---------------------------------------------------------------- DB
p('C34','best_dtype is sound and minimal',
  "best_dtype(mn, mx) returns an integer type whose range contains [mn, mx], no type of smaller width does, an unsigned type is preferred at equal width, and it fails exactly when no 64-bit type fits.",
  'every pair of integers mn <= mx',
  'boundaries at every power of two',
  f'{K}: best_dtype')
p('C35','Stored sequences are read back exactly',
  "Every sequence of integers appended to a field is returned unchanged by lookup, whatever the other sequences, their order, their magnitudes and the buffer flush points.",
  'every list of (id, sequence) with distinct ids, every buffer size',
  'numpy type promotion depends on the history of flushed buffers',
  f'{K}: SeqField.Builder.append, SeqField.Builder.shrink, SeqField.Builder.build, SeqField.__getitem__')
p('C36','Field offsets never wrap around',
  "The offset arithmetic start + length of every stored record stays within the range of the offset type chosen at build time, for any number and size of records.",
  'every list of sequences below 2^64 total elements',
  'overflow happens only at exact size boundaries (255, 65535, ...)',
  f'{K}: SeqField.Builder.build, SeqField.__getitem__, SeqField.get_len')
p('C37','Duplicate ids and empty databases are rejected',
  "Building a field or a database from records with a repeated id, or from no records, raises instead of silently dropping or mixing records.",
  'every record list',
  'all positions of duplicates',
  f'{K}: SeqField.__init__, SeqField.Builder, Db.create')
p('C38','Database lookup and iteration are exact',
  "For records with distinct ids, len(db) is their number, db[id] returns precisely the columns stored for that id, and iterating yields every record exactly once, whatever the iteration order of the id set.",
  'every record list, every number of columns, every set order',
  'all data sets; set order',
  f'{K}: Db.create, Db.__getitem__, Db.__iter__, Db.__len__, SeqField.create_many')
p('C39','Shuffled iteration yields every record once',
  "Iterating a database loaded with shuffle=True yields each record exactly once in some order.",
  'every database',
  'must hold for any size',
  f'{K}: Db.__iter__, Db.load, MultipartDb.__iter__')
p('C40','slices partitions the stream',
  "MultipartDb.slices(stream, size) yields consecutive chunks of exactly size items (the last one 1..size) whose concatenation is the stream, when each chunk is consumed before the next is requested.",
  'every stream and size >= 1',
  'all lengths and sizes',
  f'{K}: MultipartDb.slices')
p('C41','Multi-part databases preserve all records',
  "For records with distinct ids and any part_size >= 1, creating a multi-part database and iterating it yields exactly the stored records, part by part, each once, and len(db) is their number, for every directory listing order.",
  'every record list, part size, max_parts and directory listing order',
  'file listing order is not under test control',
  f'{K}: MultipartDb.create, MultipartDb.load, MultipartDb.__iter__, MultipartDb.Writer')
p('C42','Part file names are collision free and recoverable',
  "For all part numbers and paddings the names part-N are pairwise distinct, and the name recovered from the .meta file name by close() is the part's own name.",
  'every part number and padding width',
  'rstrip strips a character set; all numbers',
  f'{K}: MultipartDb.Writer.__call__, MultipartDb.Writer.close, part_path_pads')
p('C43','An interrupted write is never mistaken for a complete database',
  "If writing a database is interrupted at any point, loading it fails rather than returning a partial database.",
  'every crash point of every write history, with and without overwrite',
  'crash points cannot be enumerated by tests',
  f'{K}: MultipartDb.Writer, MultipartDb.load')
p('C44','Existing data is never overwritten unless asked',
  "Opening a writer on a non-empty directory without overwrite raises and leaves the directory untouched; with overwrite the new database contains none of the old parts.",
  'every directory content and record list',
  'all prior contents',
  f'{K}: MultipartDb.Writer.__init__')
p('C45','Equal-length batching is a partition within the token budget',
  "If some record has no empty column and no such record is longer than max_toks, every record whose columns are all non-empty appears in exactly one batch, no batch is empty, and (batch size) x (longest sequence in the batch) <= max_toks, for every shuffle.",
  'every database, budget and random shuffle',
  'random order, all length distributions',
  f'{K}: Db._make_eq_len_batch_ids, Db.make_eq_len_ran_batches')
p('C46','Batches respect max_sents',
  "No batch contains more than max_sents records, for both batching strategies.",
  'every database and limit',
  'off-by-one at the limit for arbitrary data',
  f'{K}: Db._make_eq_len_batch_ids', f'{T}: BatchIterable.read_all')
p('C47','Sequential batching preserves order and budget',
  "BatchIterable.read_all groups consecutive non-empty records in their original order, each exactly once, with no empty batch, at most max_sents records, and (size) x (longest) <= max_toks.",
  'every record stream and limits with max_sents >= 1',
  'all streams',
  f'{T}: BatchIterable.read_all')
p('C48','Oversized sequences are reported, never dropped',
  "If some (non-skipped) record is longer than max_toks, both batching strategies raise; if none is, neither raises.",
  'every database and budget',
  'position and order of the oversized record',
  f'{K}: Db._make_eq_len_batch_ids', f'{T}: BatchIterable.read_all')
p('C49','Padded batches hold exactly the sequences',
  "In a Batch, row i starts with example i's sequence and is padded with pad_idx up to the common width, which is the maximum length; x_len, x_toks are the true lengths and their sum; with batch_first=False the matrix is the transpose.",
  'every non-empty list of examples',
  'all shapes and contents',
  f'{T}: Batch.__init__')
p('C50','BOS/EOS insertion is exact and idempotent',
  "After batching, a sequence starts with BOS (ends with EOS) if requested, its content is otherwise unchanged, nothing is inserted twice, and a forbidden marker raises.",
  'every non-empty sequence and option setting',
  'all sequences incl. those that already carry markers',
  f'{T}: Batch.val_exists, Batch.bos_eos_check')
p('C51','Padded batches stay within the token budget',
  "The padded x and y matrices of every yielded Batch have at most max_toks cells.",
  'every database and budget',
  'only fails when markers are inserted after budgeting',
  f'{T}: BatchIterable.make_eq_len_ran_batches, BatchIterable.read_all, Batch.__init__')
p('C52','Sorting a batch keeps source and target aligned',
  "With sort_dec the rows are ordered by non-increasing source length, ties keep their order, and row i of x and y come from the same example.",
  'every list of examples',
  'all permutations induced by lengths',
  f'{T}: Batch.__init__')
# ---------------------------------------------------------------- mapred
p('C53','pair_subsequent pairs every item once',
  "pair_subsequent yields (x0,x1),(x2,x3),...; an odd last item is paired with the default; with throw_singleton a one-item stream raises with that item and an empty stream raises an assertion.",
  'every finite stream',
  'all lengths',
  f'{M}: pair_subsequent')
p('C54','ireduce is a fold for associative functions',
  "For an associative function with the default as right identity, ireduce terminates and returns the left-to-right fold of every non-empty stream, and raises on an empty one.",
  'every monoid, every stream',
  'all lengths and operations; termination',
  f'{M}: IterativeReducer.__call__, ireduce')
p('C55','Parallel word counting is exact',
  "WordCounter returns for every word its number of occurrences in all lines; merge_freqs adds counts pointwise whichever dictionary is kept, and the shared default dictionary is never modified.",
  'every list of lines',
  'in-place merges choose the kept dictionary by size, for arbitrary data',
  f'{M}: merge_freqs, word_count_line, WordCounter, MapReduce.__call__')
p('C56','Parallel encoding equals sequential encoding',
  "encode_parallel yields, for every completion order of the worker processes and every chunk size, the encodings of the lines in the order of the lines.",
  'every line list, chunk size, worker count >= 2 and completion schedule',
  'schedules cannot be enumerated',
  f'{C}: EncoderScheme.encode_parallel, EncoderScheme.parallel_map')
# ---------------------------------------------------------------- eval and CLI
p('C57','n-gram extraction',
  "make_n_grams(seq, n) lists the contiguous length-n windows in order; there are max(0, len - n + 1) of them; n <= 0 raises.",
  'every sequence and n', 'all lengths', f'{U}: make_n_grams, make_n_grams_all')
p('C58','Precision, recall and F1 are well-behaved',
  "Recall and precision of every gram lie in [0,1]; f1 is defined, lies between 0 and 1 and between min and max of its arguments; exchanging candidates and references exchanges recall and precision; identical corpora give 1.",
  'every pair of corpora', 'all corpora', f'{E}pr_measure.py: count_gram_recall, f1_measure')
p('C59','Imbalance and divergence measures are bounded',
  "EMD_simple lies in [0, 1 - 1/k] and is 0 iff all types are equally frequent; kl_div >= 0; js_div is symmetric and lies in [0, ln 2].",
  'every non-zero frequency vector / pair of distributions', 'real-analytic bounds over all inputs',
  f'{Q}: QualityEstimator.EMD_simple, kl_div, js_div', f'{E}bpe_len.py: BpeTracker.earth_mov_dist')
p('C60','Quality estimate counts tokens exactly',
  "For every codec kind, n_tokens is the total number of ids encoded, and unk_count is the number of unknown tokens.",
  'every codec and every list of lines', 'all corpora', f'{Q}: QualityEstimator._estimate')
p('C61','BPE tracker statistics match the segmented corpus',
  "After every tracked merge, the tracked sequence lengths and unigram counts equal those of the corpus with the merges applied.",
  'every corpus, merge table and set order', 'overlapping repeats in arbitrary order',
  f'{E}bpe_len.py: BpeTracker.track_merges, BpeTracker.create_index')
p('C62','CLI encode | decode round trips',
  "Piping lines through CLI encode and CLI decode restores the whitespace-normalised lines for covered text, in piece mode and in index mode.",
  'every scheme kind, vocabulary and list of lines', 'all texts, incl. trailing newlines',
  f'{C}: encode, decode', 'nlcodec/__main__.py: main, write_lines')
p('C63','Length limits in bitext loading',
  "With truncate, every kept pair has at most src_len/tgt_len ids, being prefixes of the full encodings; without truncate, exactly the pairs not longer than the limits are kept, unchanged and still aligned by line.",
  'every parallel text and limits', 'boundary lengths', f'{S}: read_raw_bitext, read_raw_bitext_tok')
p('C64','Word and character counting on Spark',
  "word_counts returns the exact count of each word and character and the number of lines, for every partitioning and reduction order.",
  'every corpus, partitioning and reduction order', 'distributed order',
  f'{F}: word_counts')
p('C65','The learn CLI can reuse cached statistics',
  "Running nlcodec-learn again when the statistics file exists reuses it and produces the vocabulary.",
  'every prior state of the model directory', 'depends on the history of previous runs',
  f'{L}: main')
p('C66','Distributed writes of any partitioning succeed',
  "rdd_as_db stores all records whatever the partitioning of the input, including partitions that are empty.",
  'every partitioning of the records', 'partitioning is decided at run time', f'{S}: rdd_as_db', f'{K}: MultipartDb.Writer.__call__')
p('C67','Devanagari expansion round trips',
  "decode(encode(line)) = line for every line that does not contain the marker character.",
  'every line', 'all unicode lines', f'{X}uxdx.py: Devanagari')
p('C68','In- and out-of-vocabulary counts partition the corpus',
  "partition_vocab_toks splits the term frequencies into in-vocabulary and out-of-vocabulary parts that are disjoint and together equal to the full counts.",
  'every corpus and vocabulary', 'all corpora', f'{E}oov_count.py: term_freqs, partition_vocab_toks')
p('C69','Abugida code-point expansion round trips',
  "AbugidaLang.decode(AbugidaLang.encode(line)) = line.",
  'every line', 'all unicode lines', f'{X}unicode_fix.py: AbugidaLang.encode, AbugidaLang.decode')
p('C70','Tracked codec merging keeps the codec consistent',
  "After any number of merges BPECodecXt encodes like a BPE scheme built from the table extended by those merges.",
  'every merge table and number of merges', 'incremental trie updates over all histories', f'{E}bpe_len.py: BPECodecXt.merge')

p('C71','Decoding is defined for every id sequence a model can produce',
  "decode of any sequence of ids in range gives the names of the ids in order, joined the way the scheme does (spaces for word, ▁ turned into spaces for char and bpe, commas for class); an id outside -n..n-1 raises IndexError wherever it stands, and a negative id silently counts from the end.",
  'every table, every sequence of ids, every scheme', 'decoders see arbitrary sequences produced by models, not only encodings', f'{C}: EncoderScheme.decode, WordScheme.decode_str, CharScheme.decode_str, BPEScheme.decode_str, ClassScheme.decode_str')
p('C72','Plain text cannot produce control ids',
  "Encoding ordinary text never yields the ids of <pad>, <s>, </s> or <cls>, so text cannot be mistaken for sequence boundaries.",
  'every vocabulary and every line', 'depends on arbitrary text', f'{C}: EncoderScheme.encode, BPEScheme.encode_str, BPEScheme.make_vocab_prefix_trie')
p('C73','Learned BPE types have distinct names',
  "All types of a learned BPE vocabulary have pairwise distinct names, so every learned type can be produced by encoding.",
  'every corpus and all options', 'all corpora', 'nlcodec/bpe.py: BPELearn.learn_codes', f'{C}: BPEScheme.learn')

p('C74','The n of pr_measure is respected',
  "pr_measure with -n k writes one row for every k-gram of the references, ranked by decreasing frequency, with its frequencies, recall, precision and F1.",
  'every codec, all corpora, every k', 'all corpora and values of k', f'{E}pr_measure.py: main, count_gram_recall')

p('C75','Lite abugida rewriting round trips',
  "AbugidaLangLite.decode(AbugidaLangLite.encode(line)) = line.",
  'every line', 'all unicode lines', f'{X}unicode_fix.py: AbugidaLangLite.encode, AbugidaLangLite.decode')

p('C76','nlcodec-bitextdb stores the encodings of the pairs',
  "nlcodec-bitextdb writes a database whose records, read back, are exactly the encodings of the sentence pairs within the length limits (cut to the limits with --truncate), each with its line number as id.",
  'every parallel text, codecs, limits, number of parts and partitioning', 'depends on partitioning decided at run time and on all texts', 'nlcodec/bitextdb.py: main', f'{S}: read_raw_bitext, read_raw_bitext_tok, rdd_as_db', f'{K}: MultipartDb')
p('C77','A learned vocabulary survives the disk',
  "Learning from any text, saving the vocabulary and loading the file gives a scheme equal to the one that was saved, for every scheme.",
  'every text, scheme and all options', 'all texts', f'{C}: learn_vocab, EncoderScheme.save, load_scheme, Type.format, Type.parse')
p('C78','nlcodec-learn learns what direct learning learns',
  "The model file nlcodec-learn writes (counting on Spark, statistics through a file) loads as the vocabulary that learning directly from the same lines gives.",
  'every text, level, all options, every partitioning and reduction order', 'distributed counting in arbitrary order over all texts', f'{L}: main', f'{F}: word_counts, write_stats', f'{C}: learn_vocab')

p('C79','Term frequency tables are exact and readable',
  "eval/termfreq writes one line for every n-gram of encoded ids that occurs in the text: a JSON array of the ids, how often the n-gram occurs, and the names of its types, by decreasing frequency (ties by first occurrence); reading the lines as JSON gives back the rows.",
  'every codec, text, n >= 1 and names of any characters', 'all texts and names', f'{E}termfreq.py: main', f'{U}: make_n_grams_all', f'{C}: EncoderScheme.encode_parallel')

p('C80','A model restores the text it was learned from',
  "Learning a word, char or BPE vocabulary from a text without cuts (no coverage cut; for word and char min_freq at most 1 and no size limit, or room for all), saving and loading it, every line of that text encodes and decodes to itself up to white space. For char and BPE the text must not contain the space marker U+2581.",
  'every text', 'all texts', f'{C}: learn_vocab, WordScheme.learn, CharScheme.learn, BPEScheme.learn, EncoderScheme.encode, EncoderScheme.decode')
p('C81','A learned BPE encodes words independently',
  "With a BPE vocabulary learned from a text without the space marker U+2581, the encoding of any line with at least one word is the concatenation of the encodings of its words.",
  'every text and options for learning, every line', 'all learned vocabularies', f'{C}: BPEScheme.encode_str, BPEScheme.learn', f'{B}: BPELearn.learn_codes')

p('C82','Long runs are cut to two symbols',
  "Before indexing, BPELearn of bpepp cuts every maximal run of three or more equal symbols to exactly two symbols and leaves every other sequence unchanged; a sequence counts as troublesome exactly when it contains such a run.",
  'every set of sequences', 'all sequences', f'{Y}: BPELearn._is_troublesome_seq, BPELearn._replace_trouble, BPELearn.create_index')
p('C83','The two-level learner performs BPE',
  "BPELearn.learn_codes of bpepp adds, in each round, a most frequent pair of the current sequences with its exact frequency, replaces all its occurrences, and goes on until n_merges rounds are done or no pair reaches min_co_evidence, whatever the iteration order of its sets.",
  'every corpus, initial vocabulary, number of merges, threshold and set order', 'incremental counts over all histories and hash orders', f'{Y}: BPELearn.learn_codes, LnNode.delete')
p('C84','Sub-words are learned from the frequent words of a text',
  "learn_subwords_from_corpus starts from the reserved types and the characters with at least char_min_freq occurrences in the words with at least word_min_freq occurrences, sorted by frequency, and then merges most frequent pairs of these words until the vocabulary has the requested size or no pair reaches the threshold; the learned names occur in the text.",
  'every text and all options', 'all texts', f'{Y}: WordBPE.learn_subwords, WordBPE.learn_subwords_from_corpus, WordBPE._learn_codes')
p('C85','The bpepp codec segments greedily and losslessly',
  "BpeCodec.encode gives the ids of the greedy longest-match segmentation; all ids are valid; decoding restores the line up to white space when all its characters are types; on tables that nlcodec's BPE scheme accepts both codecs give the same pieces.",
  'every table and line', 'all tables and lines', f'{Y}: BpeCodec.encode, BpeCodec.decode, BpeCodec.decode_as_str, BpeCodec.make_vocab_prefix_trie')
p('C86','bpepp vocabulary files are read back as written',
  "read_vocab(write_vocab(v)) = v for every well-formed table, in particular for every learned one.",
  'every table', 'all tables', f'{Y}: BpeCodec.write_vocab, BpeCodec.read_vocab')
p('C87','The bpepp commands do what they say',
  "learn1 writes the vocabulary learned from the text; learn2 extends it by merges of the encoded text to a vocabulary of the requested size; learn does both; encode and decode translate a file line by line; read_seqs reads at most max_seqs sequences of at most max_len numbers.",
  'every input file and all options', 'all files', f'{Y}: learn_codes, run, BpeCodec.encode_all, BpeCodec.decode_all, BpeCodec.read_lines, BpeCodec.read_seqs')

p('C88','learn, encode, decode restores the text',
  "After `nlcodec learn` on a text, `nlcodec encode` of the same text followed by `nlcodec decode`, both with or both without -idx, writes the lines of the text with single spaces between words.",
  'every text and every level', 'unbounded inputs through three commands and a file', f'nlcodec/__main__.py: main', f'{C}: learn_vocab, load_scheme, encode, decode')
p('C89','A failed learn leaves the earlier model',
  "When `nlcodec learn` ends with an exception, the model file is what it was before and nothing has been written to the output.",
  'every text, level and option', 'failures are rare paths', f'nlcodec/__main__.py: main', f'{C}: learn_vocab, Type.write_out')

p('C90','The predicted number of batches is the number of batches',
  "BatchIterable.num_batches is the number of batches that iterating yields; IdExample.val_exists_at makes a marker be there exactly when asked for.",
  'every database and batch size', 'all databases and sizes', f'nlcodec/db/batch.py: BatchIterable.num_batches, BatchIterable.num_items, IdExample.val_exists_at')
p('C91','Batches over a stored database hold every record once',
  "A BatchIterable on a database file or directory written by Db.create or MultipartDb.create yields, in every mode, batches within the budget that hold every record without empty columns exactly once, with its markers, padded; data_path may be a str or a Path; sort_by='random' gives a random order.",
  'every database, batch size, mode, hash order and shuffle', 'all databases, hash orders and random choices', f'nlcodec/db/batch.py: BatchIterable.__init__, BatchIterable.__iter__, BatchIterable.read_all, BatchIterable.make_eq_len_batches', f'nlcodec/db/core.py: Db.create, MultipartDb.create, MultipartDb.load')

p('C92','Learning does not depend on the order of the lines',
  "Two data sets with the same lines in different order give the same vocabulary.",
  'every data set, permutation, scheme and option', 'all permutations of all data sets', f'{C}: WordScheme.learn, CharScheme.learn, BPEScheme.learn, EncoderScheme.get_init_vocab')

p('C93','Encoding a training word gives the segmentation that learning left',
  "After learning BPE from text, encoding a word of that text gives the sequence of types into which learning turned the word.",
  'every text, word of it, set order and option', 'unbounded texts; merge order and longest match coincide on most small inputs', f'{C}: BPEScheme.encode, BPEScheme.encode_str, BPEScheme.learn')

p('C94','nlcodec-freq writes the counts of its input',
  "`nlcodec-freq` writes tables that are read back as the number of times each word (-wf) and each character of a word (-cf) occurs in the lines of all input files, equal lines counted once unless -ndd is the last of -dd and -ndd; of an option given several times the last counts; no other file is touched; a failed run leaves existing tables alone.",
  'every list of options and all file contents', 'all options in all orders and all files', f'{F}: main, write_stats, word_counts')
p('C95','nlcodec-freq and nlcodec learn -tfs give the model of nlcodec-learn',
  "Counting with `nlcodec-freq` and then learning with `nlcodec learn -tfs` from its table leaves the same model file, or the same error, as a first run of `nlcodec-learn` with the same inputs and options; and the same as `nlcodec learn` on the text itself.",
  'all inputs, levels and options', 'three programs with two files between them', f'{F}: main', f'{L}: main', 'nlcodec/__main__.py: main', f'{C}: learn_vocab')

p('C96','validate_index accepts exactly the consistent indexes',
  "BPELearn.validate_index returns iff the index is consistent: there are codes, all below the vocabulary size, no negative counts, every counted pair has its positions, whose frequencies add up to the count, and occurs at most as often as each of its parts; otherwise it raises ValueError.",
  'every index and vocabulary', 'all indexes', f'{B}: BPELearn.validate_index')
p('C97','Parallel text survives learning, encoding into a database and batching',
  "With models learned by `nlcodec learn` from two text files, `nlcodec-bitextdb` writes a database whose batches hold every pair of lines with words once, and whose records decode to these lines up to white space; the columns have the names asked for.",
  'all texts, models, options, partitionings and batch sizes', 'three programs, a directory of files and a cluster between text and batch', 'nlcodec/bitextdb.py: main, parse_args', f'{S}: read_raw_bitext_tok, rdd_as_db', f'{T}: BatchIterable.__iter__', 'nlcodec/__main__.py: main')

p('C98','What is lost after learning with any options',
  "After `nlcodec learn` with any size, minimum frequency and coverage, `nlcodec encode` and `nlcodec decode` of any text, not only the one learned from, never fail and give its words separated by single spaces, where exactly the words (word level, -idx), or the characters (char level, -idx; bpe level), that are not in the vocabulary are replaced by <unk>.",
  'all texts, options and pairs of texts', 'unknown words and characters in arbitrary contexts, next to and inside of names of the vocabulary', 'nlcodec/__main__.py: main', f'{C}: learn_vocab, encode, decode, BPEScheme.encode_str')

p('C99','The command works on the bytes of UTF-8 files',
  "Run on files of bytes read in chunks of any size, `nlcodec` treats the UTF-8 encoding of a text exactly like the text: the model file and output are the encodings of those for the text. Of an input that is not valid UTF-8 nothing is learned, the model file stays, and encode and decode write exactly what they write for some whole lines at its beginning, which are valid; the program ends with an exception.",
  'all byte strings, all divisions into chunks, all levels and options', 'all byte strings and chunkings', 'nlcodec/__main__.py: main, write_lines, parse_args', f'{C}: learn_vocab, Type.write_out, load_scheme', 'nlcodec/utils.py: IO')

p('C100','A word seen as often as the threshold asks becomes one type',
  "When BPE learning is ended by the threshold on pair counts and not by the size, every word of known characters that occurs at least as often as the threshold has its own type, and is encoded as that type; so a line of such words has one id for each word.",
  'all texts, thresholds and set orders', 'the segmentation of a word depends on all merges, and so on all of the text', f'{B}: BPELearn.learn_codes', f'{C}: BPEScheme.learn, BPEScheme.encode')
p('C101','A BPE scheme can be built whatever the length of its types',
  "Every table that BPE learning returns can be made a scheme, saved and loaded again, within the recursion limit of Python.",
  'all texts and recursion limits', 'the length of names is not bounded, and the depth of the recursion depends on it', f'{D}: TrNode.get_node, TrNode.size, TrNode.data_node_count', f'{C}: BPEScheme.__init__, learn_vocab, load_scheme')

p('C102','Files opened by IO are read whatever their bytes are',
  "A file opened by `IO.reader` gives the text of which it is the UTF-8 encoding, however its bytes arrive; in other files every maximal piece that is not UTF-8 becomes one U+FFFD; what `IO.writer` writes is read back. Therefore `shrink_vocab` never fails on account of the content of its files, unless they have no id at all, and keeps the same types whether a file is compressed or not.",
  'all byte strings, all divisions into chunks, all schemes and thresholds', 'all byte strings and chunkings', 'nlcodec/utils.py: IO.__init__, IO.__enter__, IO.reader, IO.writer, IO.read_as_stream', f'{C}: EncoderScheme.shrink_vocab, ByteScheme.compose_str')

p('C103','The work of encoding a line grows linearly',
  "For a given vocabulary, the work that `BPEScheme.encode_str` does for a line, counted in rounds of its loop and in characters copied by its slices, is at most a constant times the length of the line.",
  'all vocabularies and lines', 'a bound for lines of every length', f'{C}: BPEScheme.encode_str, BPEScheme.make_vocab_prefix_trie')

p('C104','Decoding arbitrary pieces and ids with the byte scheme',
  'decode_str of a byte scheme copies the reserved names and decodes each longest run of other pieces for itself: the run is read as pairs of hexadecimal digits (upper or lower case, white space allowed between pairs only) and the bytes are decoded as UTF-8 with replacement characters; any other run raises ValueError. For ids of the built-in vocabulary this means: decoding succeeds exactly if every longest run without markers has an even number of ids below 16.',
  'for every vocabulary of a byte scheme and every list of pieces; for every list of ids below 258',
  'The pieces are unbounded in number and content; the condition is about every run between markers, and a test set would need all parities and all malformed UTF-8 sequences.',
  f'{C}: ByteScheme.compose_str, ByteScheme.decode_str, ByteScheme.decode')

p('C105','Equal-length batches whatever the record ids are',
  'make_eq_len_ran_batches of a database returns every record without empty columns exactly once, and nothing else, whether ids are numbers or texts and however large the numbers are.',
  'for every database with ids that are texts or numbers of 64 bits, every budget and every outcome of the shuffles',
  'Ids and lengths are put into one numpy array, whose type depends on all ids together; only databases with texts or with numbers on both sides of 2^63 show the difference, and a wrong record may be returned silently.',
  f'{K}: Db._make_eq_len_batch_ids, Db.make_eq_len_ran_batches')
p('C106','A database can be read whatever its fields are called',
  'A database made with distinct field names can be looked up, iterated over and batched; MultipartDb.create returns it, and MultipartDb.load loads it.',
  'for every list of distinct field names and every list of records with one column per name',
  'The names are checked only when a record is made, by namedtuple; tests use the names x and y.',
  f'{K}: Db.RecType, Db.__getitem__, Db.__iter__, MultipartDb.create, MultipartDb.load')

p('C107','Exactly which files and lines are accepted',
  'A vocabulary file is read exactly if its lines are the rows of a table: tab separated columns with the position, the name, the level, the frequency and the numbers of earlier rows, where a number is anything int() documents. A frequency file is read exactly if every line after the header is a term, a tab and a number; a line of indices is decoded exactly if all its tokens are numbers, whatever way they are written.',
  'for every text, every list of lines and every line',
  'The readers accept far more than the writers produce: signs, underscores, digits of any script, white space, negative kid numbers. Tests read what was written.',
  f'{C}: Type.parse, Type.read_vocab, EncoderScheme.read_term_freqs, decode')

p('C108','Nodes of linked lists are equal if the lists are',
  'For any two nodes of doubly linked lists, `==` returns: True exactly if the two nodes have the same value and frequency and so have their neighbours to both ends, otherwise False.',
  'all lists of all lengths, all positions, and any recursion limit',
  'The comparison calls itself on both neighbours; whether it ends depends on the whole lists.',
  f'{D}: LnNode.__eq__')
p('C109','A node prints the list it is in',
  'The text of a node has the values to its left in order, its own value between stars, and the values to its right, separated by spaces; so do the nodes made by from_seq, and after delete a node prints itself alone and the others print the list without it.',
  'all lists of all lengths and all positions', 'two loops over a mutable list of any length', f'{D}: LnNode.__repr__, LnNode.from_seq, LnNode.delete')
p('C110','Memory use is reported in whole kilobytes or megabytes',
  'The text returned by max_RSS is the number of whole kilobytes followed by KB if it is less than 1000, and otherwise the number of whole megabytes followed by MB, both on Linux (measured in kilobytes) and macOS (bytes); rounding of the floating-point divisions never shows.',
  'all measured values below 2^53 (Linux) and 2^51 (macOS)', 'values next to a multiple of 1000 could be rounded up to it', 'nlcodec/utils.py: max_RSS')
p('C111','The report of word counts is exact and ordered',
  'main of mapred.py prints for each word of the lines one line: the word, a tab and the number of its occurrences in decimal digits with commas between groups of three, the more frequent words first; without any line AssertionError is raised.',
  'all lists of lines', 'sums over any number of partial counts, and numbers of any size', f'{M}: main, word_count_line, merge_freqs')

p('C112','Fields are stored in the smallest integer type',
  'The data of a field built from any records have the narrowest integer type that holds all their values.',
  'all records, values and buffer sizes',
  'The type is the outcome of a sequence of promotions that depends on all values and on where the buffer is flushed.',
  f'{K}: SeqField.Builder.append, SeqField.Builder.shrink, SeqField.Builder.build, best_dtype')

p('C113','Exactly which tables make a scheme and which model files load',
  'A scheme of a kind can be made of a table exactly if the names begin with the six reserved ones (word, char, bpe), are distinct (all but bpe) and are not empty (bpe); a model file loads exactly if its header names the kind, by scheme name or by highest level, the other lines are rows of a table and the table is accepted for the kind. The table of the scheme is the one given, or for bytes without any the bytes and two markers.',
  'all tables, all texts and all headers',
  'Tables may come from files written by hand; negative levels count from the end, names may repeat and rows may be missing in endless ways.',
  f'{C}: load_scheme, EncoderScheme.load, Reseved.validate, WordScheme.__init__, CharScheme.__init__, BPEScheme.__init__, ClassScheme.__init__, ByteScheme.__init__')
p('C114','Asking for more only adds types',
  'With the same data, a lower minimal frequency, a higher coverage, a greater vocabulary size or, for bpe, a lower co-evidence threshold gives a table that begins with the types learned before, under the same ids.',
  'all texts, limits, coverages and orders of the sets',
  'Compares runs with different parameters, of any number of merges, over all texts.',
  f'{C}: WordScheme.get_init_vocab, CharScheme.get_init_vocab, BPEScheme.learn', f'{B}: BPELearn.learn_codes')

p('C115','Shrinking to a text and then to a part of it is shrinking to the part',
  'With a minimal frequency of at most 1, shrinking a vocabulary to some lines and the result to some of these lines gives the same table as shrinking to the latter at once, and the mappings compose; in particular shrinking twice with the same text changes nothing the second time.',
  'all tables of all five schemes and all lines',
  'A relation between three runs; fails silently if the mapping or the kids are off by one for a rare type.',
  f'{C}: EncoderScheme.shrink_vocab')
p('C116','Which lines have the same encoding',
  'Two lines get the same ids exactly if: (word) their tokens are equal or unknown in both; (char) so are the characters of the tokens joined by U+2581; (bpe) so are the longest matches, and on covered text exactly if the tokens joined by U+2581 are the same; (class) the stripped labels are equal or both unknown; (byte) they are the same line.',
  'all tables and all pairs of lines',
  'Says what the ids still tell about the text for all pairs of lines; tests compare a few.',
  f'{C}: WordScheme.encode_str, CharScheme.encode_str, BPEScheme.encode, ClassScheme.encode_str, ByteScheme.encode, EncoderScheme.encode')

p('C117','bpepp changes no file but those it has to write',
  'learn1 and learn2 of bpepp write their vocabulary file when learning went through and otherwise leave every file as it was; learn does so for both levels together; when a level 2 vocabulary is written the level 1 vocabulary is kept, in its own file or under the name with .l1; encode writes its output file and changes no other one.',
  'all trees of files, all paths, all arguments',
  'Loss of a vocabulary depends on which paths lead to the same file and on when a run fails; tests run each command once in a fresh directory.',
  f'{Y}: learn_codes, run, BpeCodec.write_vocab, BpeCodec.read_vocab, BpeCodec.read_lines')

p('C118','The table of pr_measure can be read back',
  'The table written by pr_measure has a header and one line of nine tab-separated columns per row, from which rank, id, name and frequencies are read back exactly and recall, precision and F1 rounded to the nearest number of six significant digits; given the file that termfreq writes for another text, the rows are ranked by the frequencies in that text, types that are not in it last, with -1.',
  'every loaded model, all texts, all numbers that are not negative',
  'Names come from model files and numbers are rounded in decimal; columns shift or numbers lose digits only for particular names and magnitudes.',
  f'{E}pr_measure.py: main', f'{E}termfreq.py: main', f'{C}: load_scheme')

p('C119','Listing a field gives its records in order',
  'keys, values, items and lengths of a field built from records list its records in the order they were added: the ids, the sequences, the pairs of id and sequence, and the pairs of id and length; len is their number.',
  'all sequences of records and buffer sizes',
  'Numbering, offsets and the order of a dictionary have to agree for every number of records and flush points; items has no caller.',
  f'{K}: SeqField.keys, SeqField.values, SeqField.items, SeqField.lengths, SeqField.__len__')
p('C120','The quality estimate counts what encode writes',
  'For every model file and text with at least one line, the command of qestim counts the words that nlcodec encode -idx writes with this model for this text: n_tokens all, unk_count the unknown ones, mean_seq_len their number per line, imbalance that of their frequencies.',
  'every model file and text',
  'Relates two programs over all models and texts; one of them works in floats and reads an attribute that not every scheme has.',
  f'{Q}: estimate, QualityEstimator.estimate', f'{C}: load_scheme, encode', 'nlcodec/__main__.py: main')

p('C121','Asking the two-level learner for more only adds types',
  'If learning succeeds in experimental/bpepp.py with some number of rounds or size and some threshold, then, with the internal sets visited in the same order, it succeeds with fewer rounds or any smaller size above that of the initial vocabulary and with a higher threshold, and gives the beginning of the same table, under the same ids.',
  'all corpora, initial tables, sizes, thresholds and orders of the sets',
  'Compares runs with different parameters, of any number of merges, over all texts, including the texts on which the counts go wrong.',
  f'{Y}: BPELearn.learn_codes, WordBPE.learn_subwords')
p('C122','Encoding in one process or in many gives the same sequences',
  'encode_all of eval/termfreq.py yields, for each line in order, the ids (or with index=False the pieces) that the scheme gives for this line, the same as encode_parallel; a line that cannot be encoded ends the generator after all sequences before it.',
  'every scheme, all inputs, every order in which processes finish',
  'encode_all strips lines before encoding and encode_parallel does not; that this makes no difference has to hold for every scheme and every white space.',
  f'{E}termfreq.py: encode_all', f'{C}: EncoderScheme.encode_parallel, encode, encode_str')
p('C123','The tables of a writing system are consistent',
  'An AbugidaLang can be built if and only if each code point is given as a number or as one character, the consonants are a set, different vowels have different signs and no vowel is a consonant; then its tables say what was given, signs and vowels are mapped to each other one to one, and numbers and characters are interchangeable. get_aubugida knows the one language under four names and refuses all others.',
  'all tables of letters',
  'The constructor is only ever run on the one table of the repository; equal keys written in two ways collapse, and the checks have to imply that the maps are inverse to each other for all tables.',
  'experimental/unicode_fix.py: Lang, AbugidaLang.__init__, get_aubugida, main')

p('C124','Raw texts stay with their rows',
  'x_raw and y_raw of a Batch, if set, have one entry per row, and entry i is the raw text of the example in row i of the matrices, also after sorting; they are set exactly if the first row has a raw text that is not empty, y_raw only if there are targets. Subscripting an example gives its attributes and the lengths of its two sides.',
  'every list of examples, every option',
  'Nothing in the repository sets raw texts; alignment has to hold for every order of lengths and every mixture of examples with and without texts.',
  f'{T}: IdExample.__init__, IdExample.__getitem__, Batch.__init__')
p('C125','Masks and devices work on batches',
  'subsequent_mask(size) returns the matrix in which position j is open to position i exactly if j <= i; make_autoreg_mask combines it with the padding; Batch.to moves a batch to a device.',
  'every size, every batch',
  'No test calls these methods; they have to work for every size.',
  f'{T}: subsequent_mask, Batch.make_autoreg_mask, Batch.to')

p('C126','Learned BPE types occur in the text, at least as often as their frequency says',
  'Every type that BPE learning adds by merging is spelled by consecutive characters of a word of the training text (ended by U+2581; characters left out by the coverage limit read as <unk>); its frequency is positive and at most the number of places where it occurs.',
  'every text, every size and threshold, every coverage limit, every order of the sets',
  'The counts are updated incrementally by every merge; a test compares a few frequencies of one text, while the bound must survive every sequence of merges.',
  f'{B}: BPELearn.learn_codes, BPELearn._learn_codes', f'{C}: BPEScheme.learn')

p('C127', 'How long an encoding is',
  'The encoding of a line with the word scheme has one id for each word; with the char scheme one for each character of the words and one between two words; with the class scheme '
  'one; with the byte scheme one for each byte of the line in UTF-8. With a BPE scheme it has at most one id for each character and each word, at least one for every L of them when no '
  'name is longer than L, and, for vocabularies learned from text without U+2581, at least one for each word.',
  'for all schemes, vocabularies and lines (of any length)',
  'Bounds over all vocabularies and lines; tests only see some lengths, and limits on lengths in databases and batches rely on them.',
  f'{C}: BPEScheme.encode_str', f'{C}: WordScheme.encode_str', f'{C}: CharScheme.encode_str', f'{C}: ByteScheme.encode_str', f'{C}: ClassScheme.encode_str')

p('C128', 'The encoding of two lines in one is the two encodings in one',
  'For two lines and a line with the words of the first followed by those of the second: with the word scheme the encoding of the line is that of the first followed by that of the '
  'second; with the char scheme the id of the space is between them; with BPE vocabularies learned from text without U+2581 they follow each other (if both lines have words). With the '
  'byte scheme the encoding of two texts put together is the two encodings put together.',
  'for all vocabularies and lines, whatever the white space',
  'Whether pieces can reach across the seam depends on all names of the vocabulary and all texts around it; tests see a few.',
  f'{C}: BPEScheme.encode_str', f'{C}: WordScheme.encode_str', f'{C}: CharScheme.encode_str', f'{C}: ByteScheme.encode_str')

p('C129','Encodings with random splits are exactly the decompositions of the plain encoding',
  "For every accepted BPE vocabulary whose types have no kids or two earlier kids, and so for every learned one, the piece sequences that encode_str(line, split_ratio) can give over all outcomes of the random draws are exactly the names of the sequences obtained from the types of the plain encoding by repeatedly replacing a type by its two kids: none is missing, none is spurious, the words are split independently of each other. Each has at least as many pieces as the plain encoding; if no draw succeeds the result is the plain encoding; if every draw succeeds it consists of types without kids and every other result can be split further into it.",
  'every such vocabulary, every line and every outcome of the draws',
  'the number of outcomes is exponential in the line length; that a combination can never occur is invisible to sampling',
  f'{C}: BPEScheme.encode_str, BPEScheme.stochastic_split, Type.get_stochastic_split')
p('C130','What the split ratio does',
  "BPE encoding with split_ratio nan, zero or negative is the plain encoding whatever is drawn; with a ratio of 1 or more every type is split into types without kids whatever is drawn; with any ratio between, every decomposition of the plain encoding can be drawn and nothing else. With every ratio and all draws encoding succeeds, the ids are valid and they decode to the same text as the plain encoding, for every learned vocabulary.",
  'every accepted table with kids earlier, every line, every ratio and every sequence of draws',
  'draws are 53-bit numbers; that the extreme draws 0 and 1 - 2^-53 fall on the right side of every ratio is not seen by sampling',
  f'{C}: BPEScheme.encode, BPEScheme.encode_str, BPEScheme.stochastic_split, Type.get_stochastic_split')
p('C131','Encoding the decoded text gives the same ids',
  "For char and BPE schemes encode(decode(encode(line))) = encode(line), also for lines with unknown characters.",
  'every accepted vocabulary and every line',
  'unknown characters in any place next to names of the vocabulary; that <unk> is not read together with its neighbours depends on all names',
  f'{C}: BPEScheme.encode_str, BPEScheme.decode_str, CharScheme.encode_str, CharScheme.decode_str')
p('C132','Encode, decode, encode writes the first file again',
  "For word, char, BPE and class models, running the encode command on the output of decode on the output of encode writes the same file as the first encode, as ids (-idx) and as pieces.",
  'every accepted vocabulary, every text of any number of lines, both formats',
  'the text passes three times through lines, split and join; unknown words, empty lines and a missing last newline combine freely',
  'nlcodec/__main__.py: main', f'{C}: encode, decode, WordScheme.encode_str, CharScheme.encode_str, BPEScheme.encode_str, BPEScheme.decode_str, ClassScheme.encode_str')
out = os.path.join(os.path.dirname(os.path.abspath(__file__)), '..', 'properties.jsonl')
with open(out, 'w') as f:
    for r in P: f.write(json.dumps(r, ensure_ascii=False) + '\n')
print(len(P))
