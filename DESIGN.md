# Formal model of nlcodec in Lean 4: design

Source under study: `/repo` (isi-nlp/nlcodec). Lean 4.33.0 + Mathlib (single modules only).

## 1. Layout

```
lean/Verif.lean                 imports everything
lean/Verif/Py/*.lean            the fragment of Python semantics used (strings, dicts, indexing, exceptions, ...)
lean/Verif/Model/*.lean         model of the nlcodec functions, branch by branch, each with file:line citation
lean/Verif/Spec/*.lean          small specifications, independent of the model
lean/Verif/Lemmas/*.lean        helper lemmas
lean/Verif/Props/*.lean         the property theorems (named after the property id) with concrete `example`s
```

`properties.jsonl` lists the properties, `MANIFEST.json` maps each to theorem names, `seeded/LOG.jsonl`
logs the mutation experiments (edit a model definition in a scratch copy, see which theorems break).
`tools/` holds small generators for these files.

Naming: theorems for property `Cnn` are called `Cnn_...`; a theorem that establishes less than the English
statement ends in `_partial`; a theorem that shows that the code violates the statement (a concrete witness)
ends in `_refuted`.

## 2. Modelling conventions

* A Python `str` is `List Nat` (code points, surrogates allowed). Whitespace is Python's `str.isspace` set as
  used by `str.split()`/`str.strip()`.
* Exceptions are values: `Py α = Except Exc α` with one constructor per exception class that matters.
  A loop whose termination is not structural takes fuel; running out of fuel is a distinct exception
  (`Exc.fuel`) and a theorem shows it is never returned.
* Python lists are `List`, dicts are association lists in insertion order, `defaultdict(int)` reads give 0.
* Negative list indices wrap around as in Python (`pyIndex`).
* Hash-set iteration order, directory listing order, random numbers, shuffles, process completion order and
  Spark's partitioning are arbitrary: parameters (oracles or permutations) that theorems quantify over.
* Crash points: a file-writing program is the list of its file-system effects; a crash leaves an arbitrary prefix.
* Floats: where only order/structure matters the arithmetic is a parameter; where numeric facts matter
  (coverage, EMD, KL/JS, F1) the model uses rationals or reals, and binary64 rounding is covered by separate theorems (for KL/JS with any logarithm that is near enough).

## 3. Trusted base

* The Lean 4.33.0 kernel. Axioms: only `propext`, `Classical.choice`, `Quot.sound` (Lean's standard ones);
  no own axioms, no `sorry`, no `native_decide`/`bv_decide`.
* The transcription from Python to Lean (each definition cites the lines it models and lists simplifications).
* Not modelled, trusted or out of scope: CPython itself (`heapq` is modelled, in Model/Heapq), numpy
  storage and `np.savez/np.load` (assumed to return the arrays that were written), `json` headers of databases and vocabularies (a codec with `loads (dumps h) = h`,
  output without line breaks and starting with `{`), `pickle` (a completely written file is read back as written, a file cut
  short is not read; so for `.meta` and `_SUCCESS` files), multiprocessing transport (arguments and results are
  copied unchanged; `Pool.imap` puts results back in order as its iterator does, Model/Mapred; workers do not die), Spark itself, gzip, logging,
  argparse (except the order and file opening in `term_freq.py` and `bpepp.py`), tqdm, memory exhaustion, the recursion limit (except for C101).

## 4. Properties: what is modelled and how it is proved

| id | model | method |
|----|-------|--------|
| C01 C02 C11 | `split`, `join`, word/char encode/decode over an arbitrary accepted table | structural lemmas on split/join, dictionary inversion |
| C03 C04 | trie as tree with in-place insert, the `encode_str` while-loop as step function with fuel | loop invariant against an inductive greedy-segmentation spec; termination by measure |
| C05 | same | range lemma on the dictionary; a table with wrong indices is accepted and raises IndexError (`C05_index_needed`) |
| C06 C07 | type trees, `get_permutations`, splits driven by an oracle | induction on trees against an inductive derivation relation |
| C08 C09 | UTF-8 encoder and decoder (errors='replace' replaced by explicit failure/U+FFFD), hex naming, `decode_str` buffer loop | UTF-8 round trip; refutation for bytes < 0x10; exactness (Props/ByteExact): at the first character below 16 the digits are out of step, leading zeros are halved |
| C10 C18 | class scheme, negative index | refutation by witness; sortedness, permutation invariance |
| C12 C13 C14 C31 | text formats, integer printing/parsing, `strip`/`split('\t')` | parser/printer round trip; acceptance implies well-formedness; exactly which tables and schemes come back (Props/FileExact) |
| C15 C16 C17 C19 C32 | `get_init_vocab` on ordered dicts, coverage filter | list lemmas (sorted, take, filter, sums) |
| C20-C25 | pointer learner: node memory, index sets, dirty heap, deltas | refinement invariant to a recount-everything BPE spec, for all set orders; C25: counts of symbols, and of words with a common end (Props/Rare, Props/Suffix) |
| C26 | heap interface on lists, and `heapq` sift algorithms | simulation by sorted multiset |
| C27 | dispatch of options | equality theorem showing the option is ignored |
| C28-C30 | `shrink_vocab` on tables | closure characterisation, encode commutation (greedy segmentation stability) |
| C33 | trie | lookup/insert laws, counting |
| C34-C37 | `best_dtype`, numpy promotion lattice, builder with flushes | case analysis; exactness for the promoted type; refutation over 2^53 |
| C38-C44 | db tables; one directory as a finite map from names to contents, `MultipartDb.Writer` as a list of effects on it, loading and iterating as functions of it (Model/Multipart) | database invariant; invariants over all prefixes of effects and over histories of interrupted writes |
| C45-C48 | batching loops | loop invariants; off-by-one refuted by witness |
| C49-C52 | `Batch` construction | list/matrix lemmas |
| C53-C56 | chain of lazy generators with their states, dictionaries as heap cells, chunks finished in any order (Model/Mapred) | invariant `mapReduce_spec` of the reducer over any effect; `IMapInv` for reordering |
| C57 C58 C68 C74 | n-grams, gram counters, recall/precision/F1 over rationals with a rounding parameter, `pr_measure.main` (Model/Eval) | invariants of the accumulating loops against position counts; binary64 rounding shown monotone, exact on 53-bit numbers (Lemmas/Rounding) and equal to round-to-nearest-even (Spec `Nearest64`, Lemmas/Nearest), from which the error bounds of C17, C35 and C58 follow |
| C59 C60 | `EMD_simple`, `earth_mov_dist`, `kl_div`, `js_div` over rationals and reals, `QualityEstimator` (Model/Quality); the same with every float operation rounded, `np.sum` in any order and any logarithm within 4 ulp (Model/QualityFloat, Model/DivergenceFloat) | inequalities (log x ≤ x − 1, triangle), invariant of the counting loop against the encoded pieces; rounding errors by induction over the order of additions |
| C61 C70 | `BPECodecXt`, `BpeTracker` over the same memory of nodes and index as the learner (Model/Track; sizes in Model/TrackViews) | simulation: one step of the tracker is one step of the learner's pass (Lemmas/BpePass), so its invariant gives the corpora; arrays against ghost counts, with the exact shortfall of merges of a symbol with itself; incremental trie against `buildTrie`; rows in binary64 (Model/TrackFloat) by the error bounds of C59 |
| C62 | `encode`/`decode` of codec.py:611-640 and `__main__.py` on whole text files, with universal newlines (Model/Cli) | files as lines (Spec/Lines); composition of the codec theorems per line; exactly the files that the class and byte schemes restore (Props/CliClass, Props/CliByte) |
| C63 C64 C66 C76 | RDD as list of partitions with arbitrary interleavings, `reduceByKey` as any grouping of the reduction, `word_counts`, bitext reading and `rdd_as_db`, `bitextdb.py` (Model/Spark, Spec/Interleave) | permutation invariance; composition with the multi-part database theorems |
| C65 C77 C78 | `learn.py` main with its files and keyword passing, `learn_vocab` on statistics files (Model/LearnCli) | round trips of statistics and model files composed with the learning contracts; refutation for all arguments |
| C80 C81 | learning, files and codecs as above (Props/Restore) | composition; invariant of the merge run on the position of the space marker, stability of greedy segmentation at the marker |
| C79 | `eval/termfreq.py` main with `json.dumps` of nested lists of ints and strings (Model/TermFreq) | stream of n-grams against the counter; JSON reader (Spec/JsonText) inverts the printer |
| C82-C87 | `experimental/bpepp.py`: `BPELearn` (memory of nodes as in the learner, counts and index dictionaries without heap), `WordBPE`, `BpeCodec`, `learn_codes`, `run` (Model/Bpepp) | refinement to BPE with any most frequent pair (Spec/Bpepp `RunMax`), as long as the chosen pair does not overlap with itself, which is a theorem for corpora without cubes; codec, file and command theorems by composition as for nlcodec |
| C88 C89 | `main` of `__main__.py` for learn, encode and decode with the model file before and after, including what a failing `write_out` leaves (Model/Main) | composition of the learning, coverage, file and codec theorems; counts of a text bounded by its length, so that a binary64 coverage of 1 cuts nothing; for the exact conditions (Props/RestoreExact) uniqueness of tokens and lengths of lines |
| C90 C91 | `BatchIterable` as a whole: `__init__` on a `str` or `Path`, `__iter__`, `num_items`, `num_batches`, and `IdExample.val_exists_at` (Model/BatchIter); the four hash orders and shuffles are parameters | composition of C38, C41, C45, C47, C48 and C49: groups of records, marked, padded, each record once; the rounded quotient by monotonicity and error of binary64 |
| C24 C92 | nothing new: the learners of C15 to C25 on permuted input (Props/Order, Lemmas/BpeDet, Lemmas/LearnOrder) | a merge is unique when the occurrences of the pair do not overlap, and merging creates no new block repeated three times; runs from permuted corpora agree; sorting keeps the frequencies by position; with a coverage limit (Props/Masked) the characters left out are one symbol, and the cubes are those of the words with these characters identified |
| C93 | nothing new: the table as a list of merges applied in order (Props/Segment), against the greedy encoder of C19 | a run is its merges applied to every word; merging keeps the text, so the first learned type is a prefix and the longest match is no shorter |
| C94 C95 | `main` of `term_freq.py` with its options in order and the files before and after (Model/FreqCli); argparse opens every output when it meets the option | composition of C31, C64 and C65 with a specification of "the last option counts"; the table is read alike by both readers |
| C96 | `validate_index` (already in Model/Bpe) | equivalence with a separate predicate `Consistent` |
| C97 | `main` of `bitextdb.py` on model and text files (Model/BitextCli) | composition of C76, C80, C88 and C91; encoding depends only on the words of a line |
| C98 | nothing new: `mainTask` of C88 with any options (Props/Unknown) | composition of C15, C20, C62 and C77; a greedy segmentation with unknown characters spells the text with `<unk>` for each of them |
| C99 | `main` on bytes: strict incremental UTF-8 decoding of chunks, universal newlines, what a text file hands out before a decoding error, writing with strict and with ignored errors (Model/Bytes) | the incremental decoder inverts the encoder under any chunking; no lone surrogates anywhere in tables, models or output; the complete lines of a text are the lines of a prefix |
| C100 | nothing new (Props/Frequent) | where learning stops, a pair of a word's sequence would count at least as often as the word; each merge makes the corpus shorter, which bounds the size of the table |
| C101 | `get_node`, `size` and `data_node_count` with the number of free frames (Model/Depth); the other functions that recurse are not limited | the frames needed are those of the longest path of the trie; C25 and C100 give texts with long types |
| C102 | the incremental decoder with `errors='replace'`, `IO` in text mode, `read_as_stream`, `shrink_vocab` on files of bytes (Model/Io); gzip is taken as the identity on contents | relational specification of replacement (Spec/Replace) shown to hold of the decoder and of nothing else; the decoder does not look beyond what it has (locality), so chunks do not matter |
| C103 | the loop of `encode_str` counted: rounds, and characters copied by slices (Model/Cost) | the number of rounds of a walk is the longest agreement of the text with a name (Spec/Cost), by the prefixes in the trie; sums over the greedy segmentation |
| C104 | nothing new (Props/ByteDecode) | `bytes.fromhex` and the decoder equal relational specifications (Spec/Hex, Spec/Replace); induction over the pieces with the buffer as a run |
| C105 | `np.array(rows)` with ids that are texts or numbers: the promoted type and the conversion (Model/NpIds) | the promoted type by cases; kept ids reduce to C45, and of other ids none that is not a binary64 number is ever yielded |
| C106 | `namedtuple` and its checks in `Db.RecType`, `Db.__getitem__`, `MultipartDb.load`, `MultipartDb.create` (Model/RecType); `str.isidentifier` is a parameter | equivalence of the two loops with a separate specification of proper names; composition with C41 and C45 |
| C107 | `int` (Py/Basic), `Type.parse`, `read_vocab`, `read_term_freqs`, `decode` of index lines (Model/File, Model/Cli) | both directions by induction over characters and rows, against grammars of numbers (Spec/Number) and of rows (Spec/VocabFile) that do not mention the readers |
| C108 C109 | `LnNode.__eq__` with the number of nested calls that are possible, `__repr__` (Model/Node), over the memory of nodes of the learner | induction over what is to the left; the comparison of two beginnings with the same second nodes comes back to itself; repr, from_seq and delete against a relation "the addresses form a list" |
| C110 | `max_RSS` with rounded divisions (Model/Rss) | the error of a rounded quotient is less than its distance to the next integer |
| C111 | `main` of mapred.py and the format `,` (Model/Report) | composition of C55 with a specification of grouped numerals |
| C112 | nothing new (Props/DbWidth) | invariant of the builder: the type is the least signed type for the parts flushed so far; one promotion by cases over the types |
| C113 | nothing new (Props/Models; Spec/Accept) | case analysis of the constructors and of the header; the trie has data at its root exactly if some name is empty; rows by C107 |
| C114 | nothing new (Props/Extend) | words and characters: both tables are prefixes of the same sorted list, compare lengths; merging: two runs from the same corpus step by step, unique on sequences without cubes (Props/Masked: coverage limits); same order: induction over the loop (Props/BpeppExtend: fewer rounds succeed if more do) |
| C115 | nothing new (Props/ShrinkTwice) | parts of tables compose and are determined by the mapping; the needed indices of both tables correspond by C29 |
| C116 | nothing new (Props/Same) | ids are equal exactly for pieces that are equal or unknown; uniqueness of greedy segmentations |
| C117 | `learn_codes` and `run('encode')` on a tree of files: paths as lists of components, `..`, `with_suffix`, `rename`, files emptied when opened (Model/BpeppRun) | case analysis of the stages; that a learned table is always written comes from C83 and C84 |
| C118 | the text of the table of `eval/pr_measure.py` main with the number format `:g`, and the reading of `--freqs` (Model/PrText) | the digits found are those of a nearest six-digit number (`Int.log`, rounding half to even); reader of numerals (Spec/Decimal) inverts the format; names of loaded tables have no tabs or breaks by C113; ranking by C79 and C74 |
| C119 | `keys`, `items`, `lengths`, `__len__` of `SeqField` (Model/FieldViews) | ids of a builder are numbered on, by induction over the records; the rest from C35 and C36 |
| C120 | `qestim.py` estimate on a model file and a text (Model/QualityCli) | C60 and its version in binary64; the words written by `encode -idx` are numerals, compared with the reader of numerals in Spec/Decimal |
| C121 | nothing new: the learner of C83 and C84 with other numbers of rounds (Props/BpeppExtend) | induction over the loop: a higher threshold does the same round or ends |
| C122 | `encode_all` of `eval/termfreq.py` (Model/EncodeAll) | stripping does not change `split`; C56 for the processes |
| C67 C69 C75 | rewriting of Devanagari lines and files (Model/Abugida) | round trip = a local normalisation; equivalences with conditions on neighbouring characters (Spec/Abugida), for the one language and for every writing system with separate classes (Props/Script) |
| C123 | the constructors `Lang` and `AbugidaLang`, `maybe_ord`, `get_aubugida` and `main` of `unicode_fix.py` (Model/Script) | letters as relations between given values and code points (Spec/Script); the dict comprehension as last entry per key; distinct values = injective |
| C124 C125 | raw texts of examples and batches, `__getitem__`, `to`, masks (Model/Raw) | the texts travel with the id through C49, C50, C52; entries of the mask by index |
| C126 | frequencies and names of merged types | merging keeps the text of every sequence; the number of adjacent pairs is at most the number of places where the joined name begins (Spec/Occurs); sums over distinct words are sums over all words |
| C127 | nothing new (Props/Length) | induction over the greedy segmentation; C81 for the words of a line; sizes of characters in UTF-8 from Lean's library |
| C128 | nothing new (Props/Joined) | maps over appended lists; C81 for BPE |
| C129 | the set of results of `bpeEncodeStrSplit` over all draw sequences | `C129_iff`: equal to the decompositions (`SplitsTo`, replacing a type by its two kids) of the plain encoding, both directions, by composing the per-type result of C07 along the line; length and no-draw corollaries; `C129_always`: if every draw succeeds the pieces are leaves and every other result splits further into this one; `C129_learned` for every learned vocabulary |
| C130 | `bpeEncodeStrRatio`, `bpeEncodeRatio`, `drawBelow` (Model/SplitRatio): the ratio as exact value or nan, draws `k/2^53` | `C130_never`, `C130_always`, `C130_between` (every decomposition, by draws 0 and 1 - 2^-53), `C130_text` and `C130_learned` (same decoding), from C06 and C129 |
| C131 | nothing new (Props/Stable) | the decoded text is the line with unknown characters replaced; its greedy segmentation is the old one (`greedy_again`), by uniqueness the encoding is the same; `C131_bpe_iff`: the converse for lines with U+2581, by undoing the replacement; characters by comparing lengths |
| C132 | nothing new (Props/StableCli) | line by line from C131 and `C11_word_stable`; the decoded lines have no line break, so the file is read as the same lines (`cli_again`); the converse `C132_bpe_iff` as the written rows determine the ids (`bpe_row_inj`) |
| C71 C72 C73 | decoding arbitrary ids; control ids; names of learned BPE types | pointwise rendering; greedy pieces are infixes; pairs merged in a run are distinct; equal text means equal segments, kept by every merge of a cube-free corpus (Props/Masked: also with `<unk>` as a symbol, since no word spells it) |

## 5. Statements that are false of the code

Each is proved by a concrete witness (`_refuted`); what does hold is in the `_partial` theorems.

| id | what goes wrong |
|----|-----------------|
| C08 C09 | bytes below 0x10 are named with one hex digit (`hex(b)[2:]`), so texts with tab, line feed ... do not decode |
| C10 | an unseen class label is encoded as -1 and decodes to the greatest known label |
| C13 | the class scheme learned from no data cannot be saved; labels with an inner tab give files that do not load |
| C14 | a negative kid number may denote an entry not read yet; the loader accepts the file with `None` kids |
| C15 | with 0 < vocab_size < 6 the slice end is negative and the vocabulary is larger than asked for |
| C16 | a frequency file without header gives the line count -1, which is added to `<s>`, `</s>`, `<cls>`: one occurrence of each is lost |
| C17 | in binary64 the coverage filter may keep one type too many |
| C24 | the order in which a set of nodes is traversed changes the result for pairs of equal symbols, and different rare characters are equal symbols under a coverage limit |
| C25 | running out of pairs raises IndexError instead of returning what was learned; with a threshold and no size this happens for every text all of whose words reach the threshold |
| C27 | `min_freq` is ignored by BPE learning, `min_co_ev` is ignored for level 'subword' |
| C30 | a shrunk bpe, class or byte table is not of the same kind, and a table of which only reserved types are left loads as a class scheme (C30_iff is exact) |
| C72 | words spelled like control tokens are encoded to control ids (word, bpe) |
| C73 | a merge may spell the name of a reserved token, giving two types of one name; with `aaa` in the text, `a aa` and `aa a` may both be merged |
| C35 | values beyond 2^53 lose digits: the empty int8 start array and uint64 data are promoted to float64 |
| C38 | inherits C35 |
| C39 | iterating a shuffled database of two or more records raises TypeError (random.shuffle of a set view) |
| C39 (multi-part) | a multi-part database read from disk with parts of two or more records: shuffled iteration raises TypeError |
| C41 | a multi-part database made from no records is written, with its flag, but loading it raises AssertionError |
| C43 | when overwriting is interrupted after a part file was removed but not the flag, the database still loads; iteration fails later |
| C46 | equal-length batches may have max_sents + 1 records |
| C48 | equal-length batching of a database in which every record has an empty column raises IndexError |
| C51 | begin/end markers are added after budgeting, so the padded matrix may exceed max_toks |
| C58 | in binary64 F1 may exceed both recall and precision in the last place: f1(0.2, 0.2) = 0.20000000000000004 |
| C74 | `pr_measure --n` is not passed on: the table is always about 1-grams |
| C59 | rounding makes `kl_div` and `js_div` of distributions that differ in the last places negative; rounding can lift `EMD_simple` above 1 − 1/k (but not to 1); numpy 1.24 removed `np.float`: `js_div` and validated `earth_mov_dist` raise AttributeError; `kl_div` of vectors of different lengths compares prefixes and can be negative |
| C60 | estimate of a byte scheme raises AttributeError (no `unk_idx`); of a class scheme the last class is counted as unknown |
| C61 | after merging a symbol with itself the tracker's unigram counts are too small, even negative (wrong sign in bpe_len.py:171) |
| C70 | after merging two types of the same name `BPECodecXt` gives another id than a scheme built from the table |
| C62 | byte scheme: the line feed at the end of a line becomes the one-digit name `a`, so decoding raises ValueError; class scheme: labels of several words come back joined by commas |
| C69 C75 | a virama before anything but a consonant or blank, word-initial vowel signs (C69), and अ after a consonant (C75) are lost; a writing system with overlapping classes can be built and then loses more (C69) |
| C63 | without truncate pairs of exactly the maximal length are dropped; if no pair is left IndexError is raised instead of an empty result |
| C64 | the word `<!S!>` in the text is taken for the line marker: line count too large, word not counted; no lines at all raises |
| C65 | with existing statistics `learn_vocab` gets `inp` twice: TypeError, always, so `nlcodec-learn` works once per model directory |
| C66 C76 | an empty partition (fewer records than parts) makes the part writer fail |
| C78 | `nlcodec-learn -level char` does not count spaces; `-level class` splits labels at spaces |
| C83 | bpepp: merging a pair that overlaps with itself (x x in x x x) breaks the counts and the index: AssertionError on "ababab", ValueError or not depending on the order of a set for "aab aabaabaab", or learning stops although a pair reaches the threshold; ValueError when no pair is left; with the threshold 0 types of frequency 0 are added (C83_zero_refuted) |
| C84 | bpepp: learned names need not occur in the text (`<unk>` for rare characters, runs cut to two); "hahaha" makes learning fail; so does "xayaza" when x, y and z are left out as rare (C84_masked_refuted) |
| C87 | bpepp: `decode` writes the characters of the first line one per row and ignores the rest; `max_seqs` is ignored; `-vs2` is a number of merges, not a size; `learn` fails at level 2 after a merge that spells a reserved name |
| C88 | `nlcodec learn -l char` with its defaults drops characters seen fewer than 20 times: "ab" comes back as `<unk><unk>`; byte models cannot decode lines with a line break |
| C89 | `nlcodec learn -l class` on empty input truncates an existing model file and then raises ValueError |
| C90 | `num_batches` is `ceil(len(data) / max_toks)`: it counts sentences as if each had one token (1 predicted, 2 made) and counts skipped records (3 predicted, 1 made) |
| C91 | `BatchIterable(data_path=<str>)` on a directory raises AttributeError (`self.data_path = data_path` is tested with `.is_dir()`); `sort_by='random'` is accepted and does nothing |
| C92 | equal frequencies are ordered by first occurrence: swapping the lines "a" and "b" swaps indices, with a size limit keeps the other word, and makes BPE learn "cd" instead of "ab" |
| C93 | learning merges by frequency, encoding matches the longest name: from "bc bc bc abd abe abc", "abc" is learned as `a bc▁` and encoded as `ab c ▁` |
| C94 | `nlcodec-freq` opens its outputs while parsing options: a failed run empties existing tables; an input that is also an output is read as empty |
| C95 | `nlcodec-freq` counts a repeated line once by default, so the model learned with -tfs differs from the model learned from the text |
| C97 | `nlcodec-bitextdb --src-col --tgt-col` are accepted and ignored |
| C77 | a class label with inner tabs may be loaded as another label, without error |
| C98 | bpe: characters that are not in the vocabulary come back as they are where they spell a reserved name ("<s>") |
| C101 | a BPE model with a type longer than half of Python's recursion limit can be neither saved nor loaded; learning one from text ends with RecursionError |
| C102 | `shrink_vocab` of a byte or class scheme keeps other types when the same content is compressed: carriage returns become line feeds only in `.gz` files |
| C103 | the characters copied by `seq = seq[i:]` are n(n-1)/2 for a text of n characters that are one piece each, more than any constant times n |
| C105 | equal-length batching puts ids into one numpy array with the lengths: text ids raise TypeError, and numbers on both sides of 2^63 become floats, so that one record is returned for another |
| C106 | field names that `namedtuple` refuses (`from`, `src-text`, `_x`, `id`) are only noticed when a record is read; a multi-part database is written completely first |
| C108 | `==` on a node that has a neighbour ends in RecursionError or AttributeError unless a difference is met first; even `node == node` (the learner only uses identity, through hashing) |
| C112 | the data of a field start as an empty `int8` array, so numpy promotes `uint8`, `uint16`, `uint32` data to signed types of twice the width (ids below 65536 take 4 bytes each), and `uint64` to `float64` |
| C114 | a size limit from 1 to 5 is not a limit (the slice bound gets negative), so limit 7 keeps fewer types than limit 5; with different orders of the hash sets, two merges on "aaab" may learn `aa`, `ab` and three merges `aa`, `aaa`, `aaab`; different coverages start from different characters |
| C117 | bpepp: `learn` that fails at level 2 has replaced the old vocabulary by that of level 1; the level 1 vocabulary is lost if `-vf1` and `-vf` are different paths to one file, and when `learn2` is run twice on one path; `encode -o` onto the input empties it |
| C119 | `SeqField.items` yields the sequences only, not pairs with the ids: fields with exchanged ids have the same items |
| C120 | `qestim.py` raises AttributeError with a byte model on every text that `encode` accepts |
| C122 | `encode_all` strips lines before encoding, so with a byte scheme the white space around a line is lost, which `encode_parallel` keeps |
| C125 | `subsequent_mask` calls `unsqueeze` on a numpy array and `Batch.to` calls `to` on one (or adds a list to a tuple), so both raise always, and so does `make_autoreg_mask` |
| C131 | a text with `<unk>` is not read back as the unknown id: by characters it is five characters, and a BPE vocabulary with `a<` reads `a<unk>` differently |
| C132 | a BPE word that ends in U+2581 loses it in `decode`, and the second `encode` writes another file; so does an unknown character in a char model with ids, and a class label of two words as pieces |
