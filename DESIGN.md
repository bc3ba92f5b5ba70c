# Formal model of jermp/autocomplete in Lean 4

## Layout

All modules are under `lean/Verif/`.

| Module | Content |
| --- | --- |
| `Prelude` | faults (`Fault`), the outcome monad `M`, checked vector reads and writes |
| `Spec/*` | the independent specification: strings, order, collections, what a match is, what top-k is, bits, blocks, JSON |
| `Model/*` | the model, function by function, each definition citing file and lines of /repo |
| `Proofs/*` | helper lemmas |
| `Props/*` | one file per group of properties: the theorems that MANIFEST.json cites, each with an `example` that meets its hypotheses |

`seeded/LOG.jsonl` lists the wrong programs (edits of the model) the theorems were tested against.

## How C++ is modelled

* Every model function that can go wrong returns `M a = Except Fault a`. Reading or writing outside a vector or a fixed
  buffer is `Fault.oob`; running into `__builtin_unreachable` is `Fault.unreachable`; `throw` is `Fault.thrown`; a loop
  that does not terminate within its fuel is `Fault.diverge`. "Returns `.ok x`" therefore says: no undefined behaviour, no
  exception, terminates, and the value is `x`. Termination is proved (the fuel is shown to be enough), not assumed.
* `assert` is compiled out in the default build (CMakeLists.txt sets `-DNDEBUG`), so asserts are not modelled as checks;
  where an assert states a precondition, the precondition is a hypothesis of the theorem or is proved at the call. Only C84, C85, C86, C88 and C89 are about
  builds with assertions: there, `check` models `assert`, and a failed one is `Fault.aborted`.
* Integers are `Nat` (indices, ids, sizes), with explicit bounds where the machine width matters; machine words that are
  shifted and masked are `BitVec 64`. Sizes are assumed to stay below the range of the C++ index types (2^31 for the `int`
  binary searches and for the excess, 2^32 ids, 2^64 bits); this is a hypothesis where it is used. The pointers of the term
  dictionary are 32-bit numbers and wrap in the model as in the code; `ValidTerms` and `ValidColl` ask for a text below 2^32 bytes (`room`), and
  `C10_false_large` says what happens otherwise.
* Characters are numbers below 256, compared as unsigned numbers (as `strncmp` does). Texts are free of NUL bytes (`IsText`),
  because the code's comparison and its buffers end them by NUL.
* Pointers into a buffer are modelled as the buffer plus an offset.
* Unaligned 8-byte reads at the end of a buffer (`get_word56`, `compact_vector::access`) read memory that does not belong
  to the buffer. This memory is a component of the model's vector, arbitrary in the theorems.
* The C++ standard library is a parameter `StdLib`: any implementation of `sort`, `push_heap`, `pop_heap`, `make_heap` that
  satisfies its contract (sortedness/heap order and permutation). Theorems hold for each such implementation, and where two
  runs are compared each may have its own. `StdLib.bySorting` shows that there is one. One theorem (`C45_answers4`, and `C06_library` for two
  concrete libraries) also assumes `StdLib.ByKeys`: the heap functions, being templates, see elements through the comparator only.
  `pop_heap` is called by the code after the root changed, which the standard does not allow; the contract used is the one
  libstdc++ and libc++ implement (the root's key is not inspected). This is in the trusted base.
* Compiler builtins (`__builtin_clzll`, `__builtin_ctzll`, `__builtin_bswap64`, `_mm_popcnt_u64`) and the instructions `pdep` and `tzcnt` are taken by their
  meaning; the portable code in `util.hpp` is modelled operation by operation and proved to have the same meaning (C46).
* Saving and loading goes through `essentials` (a submodule that is not in the tree). Its visitors are taken by their
  meaning: a file is a list of bytes, a number is written with the bytes of its type, lowest first, a vector as its size (8 bytes)
  and its elements. What is modelled of the code is which members each `visit` function passes, of which type, and in which order.
  Numbers of the model are not bounded; that those of an index that was built fit into their types is proved (`Proofs/Fits`). The
  functions `bytes` are modelled with `essentials::pod_bytes` and `vec_bytes` taken by their meaning (C60).
* Text files are byte strings. `std::ifstream` in the "C" locale is modelled with its position, `eofbit` and `failbit`; the
  Python scripts with universal newlines and `split` at ASCII whitespace; `int` for decimal digits only (Python accepts more, such as
  signs). For texts outside of ASCII (`Model/Unicode`, C62, C63) the strings of Python are lists of code points, files are in UTF-8, and `split`
  knows all of Python's whitespace. In the specification UTF-8 is that of Lean's `String.utf8EncodeChar`.
* Single-precision numbers (C53, C59) are non-negative multiples of 2^-149 (`Model/Float32`); products are rounded to nearest, ties to even; overflow
  to infinity is not represented (the numbers used are small).
* The web page (C65, `Model/WebPage`): strings of JavaScript are lists of code units; regular expressions have groups, alternatives and ordinary code
  units, matched in the order of ECMA-262; the identification of letters by the flag `i` is a parameter.
* Threads (C40): the shared `static` array. In the negation a copy into it or a comparison with it is one atomic step, which gives fewer
  executions than the machine has; in the safety theorems (`C40_torn_partial`, `C40_torn_ids_partial`) the array may change in any way
  between and during the steps, which gives more. (For C++ a data race is undefined; these are the executions of the machine.)

## Not modelled

`essentials`, `mongoose`, `cmd_line_parser` (submodules, absent from the tree); timing probes; of the benchmark programs, all but
the reading of the queries (C53), the counts of `effectiveness` (C58), the numbers printed by the benchmarks of the searches (C71), the lookups of
`benchmark_locate_prefix` (C72) and the operations of the benchmarks of the dictionaries (C74); `check_topk` and `benchmark_topk`, which are commented out of the build;
of the tests, the saving and loading in between (C33);
of the scripts under `script/`, all but the calls that the collecting scripts make (C81), script/build_indexes.py (C91) and the last call of script/benchmark_dictionaries.sh (C99); of install.sh, example.sh and Dockerfile, compiling and running the tests;
the text of the statistics (the numbers are C60); command line handling; failures of reading and writing index files (that a cut file or one of another type makes loading read beyond the end is C92; what the library does then is not); allocation failure;
the web server's static pages (except for the HTML made for suggestions, C65) and sockets; the libraries of the page (absent from the tree).

## Trusted base

* Lean's kernel (4.33.0). No `sorry`, `admit`, `native_decide`, `bv_decide`, and no axioms other than Lean's own three.
* Axioms of the theorems that MANIFEST.json cites, as given by `#print axioms`: see the table at the end.
* The faithfulness of the model to the source as described here and in the comment of each definition.

## What is false of the code

Each of these is a theorem, most for all inputs with the given shape, not only for an example.

| Theorem | What happens |
| --- | --- |
| `C09_false`, `C01_false`, `C03_false`, `C04_false`, `C05_false` | the prefix lookup in the term dictionary misses the first term when the prefix is a proper beginning of it; the searches inherit this |
| `C10_false_terms`, `C10_false_completions`, `C41_false` | with a number of strings that is a multiple of 17 both dictionaries lose their last 16 strings |
| `C10_false_large` | a term dictionary whose text exceeds 4 GiB is built, but reading it goes out of bounds: its pointers have 32 bits |
| `C12_false_range`, `C02_false`, `C07_false` | the lookup in the dictionary of completions misses the first completion |
| `C12_false_prefix` | the caller's prefix is left changed when nothing is found and the range has one term |
| `C13_empty_completion` | an empty completion in the trie shifts the ranges |
| `C14_unique_ignored`, `C14_unique_false` | `unique` is ignored for short ranges |
| `C14_overflow`, `C35_false1`, `C35_false2`, `C35_false_conj1`, `C35_false_conj2`, `C35_false_conj3`, `C35_conj4`, `C35_conj4_zero`, `C35_false_conj4`, `C35_false_web` | k = 0 or k > 15 writes outside the buffer of scores |
| `C14_build_zero`, `C16_auto_zero`, `C27_minimal_zero`, `C42_false` | a list of zeros gives width 0, which throws; some valid collections cannot be built |
| `C17_unsorted` | building an Elias-Fano sequence from an unsorted list writes out of bounds before it throws |
| `C19_uint_vec_singleton` | range search for one absent id in `uint_vec` |
| `C36_false`, `C36_false4` | the pool of result texts is overrun for k = 15 with long completions |
| `C40_false`, `C40_false_ids` | lookups from two threads |
| `C44_false_empty`, `C44_false_percent`, `C44_false_double`, `C44_false_search`, `C44_bad_k` | responses of the web server |
| `C49_false`, `C49_false_short`, `C49_false_negative` | truncated files of statistics that are accepted; negative numbers |
| `C50_hangs`, `C50_hangs_large`, `C50_truncated` | files that make the constructors loop forever or go out of bounds |
| `C51_false_empty`, `C51_false_universe` | uncompressed lists: `next_geq` on an empty list reads out of bounds; a universe that does not fit is reported modulo `2^w` |
| `C46_leq8_false` | `leq_step_8` compares signed bytes and is wrong when their difference is not a signed byte |
| `C47_false` | the intersection over the blocked index skips the first document when all the terms lie in one block |
| `C06_duplicates`, `C06_false_unvisited`, `C06_false_skipped` | conjunctive search of type 4 returns completions twice and misses some |
| `C32_false4` | with type 4 a completion found by prefix search is not found by conjunctive search |
| `C53_empty`, `C56_empty` | an empty line in the queries of a benchmark, or of `map_queries` |
| `C54_false` | lines without terms become empty queries in the wrong files |
| `C56_false` | `map_queries` prints known terms as unknown when the number of terms is a multiple of 17 |
| `C58_false4` | with type 4 the benchmark of effectiveness counts repeated results |
| `C81_false` | the script that collects the results of `locate_prefix` asks for other files of queries than those that exist: no query of seven terms or more is measured |
| `C84_false4` | with assertions, the benchmark of effectiveness stops for type 4 when prefix search returns more than conjunctive search |
| `C86_false`, `C86_k`, `C86_k4` | with assertions, a search that has to show one of the last 16 terms stops when the number of terms is a multiple of 17; every search for more than 15 results stops |
| `C87_false_blank`, `C87_false_space` | after an empty line in the collection, also at its end, completions and two numbers of the statistics are lost and the lists are not written; with a space in the name of the collection no file is made |
| `C89_k`, `C89_k4`, `C89_false`, `C89_lost` | with all assertions, every search for more than 15 results stops; when the number of terms is a multiple of 17, a search with type 1 that has to show one of the last 16 terms does not answer |
| `C90_false_fresh`, `C90_false_page` | of a checkout without the preprocessed files, as the repository is, no image can be made (Dockerfile does not run the preprocessing), and example.sh serves an index of a former run or none; the server of the image does not find the page, as `/src` is removed and `../web` is `/web` |
| `C91_false` | when the completion with document id 0 contains all the terms, script/build_indexes.py leaves the files of types 1 and 2 of a former run beside the new ones of types 3 and 4 |
| `C88_false_end` | `end()` of an Elias-Fano sequence stops a build with assertions and reads out of bounds in one without, for every sequence (nothing in the repository calls it) |
| `C85_false_terms`, `C85_false_completions` | with assertions, extracting one of the last 16 strings of a dictionary with a multiple of 17 strings stops the program |
| `C83_false`, `C83_wrong` | `skip_zeros` of an iterator over bits, called after `get_bits(64)`, looks at the bits again that have been read |
| `C72_false`, `C72_false_fc`, `C72_false_runs` | the benchmark of `locate_prefix` looks up the terms before those of the query; with the type `fc` the runs change the lookups, and find different completions |
| `C73_false_terms`, `C73_false_completions` | whatever the bucket size, a number of strings that is a multiple of the bucket size plus 1 loses the last ones |
| `C74_false_terms`, `C74_false_multiple`, `C74_false_ids` | the benchmarks of the dictionaries extract the id of "not found", or ids beyond the last string, and read out of bounds |
| `C75_false_terms`, `C75_false_completions`, `C75_false_intersections`, `C75_false_blocked`, `C75_false_forward`, `C75_false_minimal`, `C75_false_searches`, `C75_false_searches_none` | the tests of the repository fail, leave their memory or do not end on valid collections: first terms of two characters, multiples of 17, one term, a query in one block, fewer documents than terms, neighbours with the same first document, queries of fewer terms that the first completion starts with, queries without completions |
| `C78_false` | on the files that the scripts write, the test of prefix lookup fails if a completion of at most 6 terms shares all terms but the last, and two characters of it, with the first completion, and this one is longer |
| `C78_false_long` | the test accepts every collection of completions of seven terms or more: the file of these queries is written under a name that the test does not open |
| `C79_false4` | conjunctive search with type 4 does not show the best completion to a user who types its text in full, when its document is the first of a block that has all its terms but the last |
| `C80_false` | a completion that starts with the first term of the dictionary is offered when typed in full, and not for a strict beginning of this term |
| `C80_false_first` | with types 2 and 3 the first completion is offered when typed in full, and not for fewer terms |
| `C80_false_conj4` | conjunctive search with type 4 leaves out the first document of the block of the complete terms, and offers it when a complete term of another block is typed on |
| `C94_false` | the best completion, one term, is shown for a beginning of it; removing other completions makes it the first term of the dictionary, and it is shown no more (types 1 to 3, both searches) |
| `C94_false_first` | with types 2 and 3, removing other completions makes a completion the first one, and it is not shown any more for less than its terms |
| `C97_false` | conjunctive search: a part without a complete term of the query ignores it and shows its best completion with the last term, which the whole collection does not show (types 1 to 3) |
| `C97_false_first` | the best completion, one term that is the first of its part, is shown by the index of the whole collection for a beginning of it and by no part (types 1 to 3, both searches) |
| `C98_false` | conjunctive search of type 4: a completion whose document id becomes the best of those with a term of the block of the complete terms is not shown any more |
| `C99_false` | the script that benchmarks the dictionaries reads out of bounds if the number of terms is a multiple of `B + 1` for a measured bucket size `B` and one of the last `B` terms is a completion |
| `C101_false` | a completion of one term is shown for a beginning of it; with other letters, with which it is the first term, it is not (types 1 to 3, both searches) |
| `C101_false_first` | with types 2 and 3, a completion is shown for less than its terms; with other letters, with which it is the first completion, it is not |
| `C102_false` | when the number of terms is a multiple of 17, collections that differ in their last 16 terms have the same index |
| `C102_false_completions` | types 2 to 4, when the number of completions is a multiple of 17: other last 16 completions of the same documents with the same terms give the same index |
| `C103_false` | the best completion, a first term, is shown for its whole text and not for the query that lacks its last character |
| `C103_false_conj` | a space after an unknown word gives all completions, while the word alone gives none |
| `C103_false_conj4` | type 4: the best completion is shown for a term and skipped for the term followed by a space |
| `C80_false_conj` | for a word that no term begins with, conjunctive search returns nothing; with a space after it, everything |
| `C77_false` | completions whose text begins with the query are not returned, when the query is a strict beginning of the first term of the dictionary |
| `C66_false`, `C66_false2`, `C66_false3`, `C66_false4`, `C66_fault`, `C66_fault4`, `C66_unsound` | with a number of distinct terms that is a multiple of 17, completions with one of the last 16 terms are never shown; searches that would show one, such as the empty query, read out of bounds; conjunctive search shows completions without a term that was asked for |
| `C67_false` | the iterator of `ef_sequence` cannot return the last element with `next()` |
| `C68_false2`, `C68_false3`, `C68_false4`, `C68_fault`, `C68_fault2` | with a number of completions that is a multiple of 17, types 2, 3 and 4 never show the last 16 completions; conjunctive searches that would show one read out of bounds, with type 2 also searches that only examine one |
| `C69_false2`, `C69_false3`, `C69_false4`, `C69_fault`, `C69_fault4` | with numbers of terms and of completions that are both multiples of 17, types 2, 3 and 4 never show the last 16 completions and those with one of the last 16 terms; the empty query with types 3 and 4 reads out of bounds when one of them has a small document id |
| `C65_empty_not_escaped`, `C65_parenthesis`, `C65_group_lost`, `C65_tag_lost` | the page puts suggestions into HTML without escaping while the field is empty; an opening parenthesis in the field raises an exception; other such input makes text disappear |

Seen while reading, not stated as theorems: `compact_ef` divides by zero for an empty list (no caller does this);
`parameters::load` does not notice a missing last value.

## Per property

* **C01** (Prefix search with index type 1 is sound, complete and ranked): Compose tokenizer, dictionary, trie, RMQ top-k and string extraction models; theorem: the composed function equals the filter/sort/take specification. The code violates it for queries whose last term is a strict prefix of the first dictionary term and for term counts divisible by 17 (see C09, C10): proved as negations, and the claim proved outside these cases (`_partial`). *partial*: `C01_exact`, `C01_prefix1_partial`, `C01_sound`, `C01_false`. C01_exact gives the exact result for every collection that type 1 can be built from. The claim is false for queries that end with a strict beginning of the first term (C01_false), proved for all others (numbers of terms that are multiples of 17 excluded, see C10).
* **C02** (Prefix search with index types 2, 3 and 4 is sound, complete and ranked): As C01 with the integer dictionary; further violation: the first completion is missed (C12). *partial*: `C02_type4`, `C02_exact`, `C02_prefix2_partial`, `C02_sound`, `C02_false`. Exact result for all collections that can be built. False for queries that the first completion matches (C02_false).
* **C03** (Conjunctive search with index type 1 is sound, complete and ranked): Compose with inverted index, forward index and minimal_docids. *partial*: `C03_exact`, `C03_conj1_partial`, `C03_sound`, `C03_false`. Exact result for all collections that can be built; false for queries that end with a strict beginning of the first term (C03_false), proved for the others.
* **C04** (Conjunctive search with index type 2 is sound, complete and ranked): Compose with docid_to_lexid and integer dictionary extract. *partial*: `C04_exact`, `C04_conj2_partial`, `C04_sound`, `C04_false`. As C03.
* **C05** (Conjunctive search with index type 3 is sound, complete and ranked): Heap invariant over iterator states; holds for each StdLib. *partial*: `C05_exact`, `C05_conj3_partial`, `C05_sound`, `C05_false`. As C03.
* **C06** (Conjunctive search with index type 4 is sound, complete and ranked): `Spec/Type4` describes what the loops return for each shape of the query; the loops (`Proofs/Blk4`, `Blk4Queue`, `BlkInter`, `Conj4`) are shown to return it by induction; soundness, completeness in the good cases, and the four violations are read off. With complete terms and several blocks that are looked at, which one is checked depends on the heap: two libraries that give different results are exhibited by evaluation in the kernel, and carried over to every memory by `C45_rebuilt4`. *partial*: `C06_conj4_partial`, `C06_exact`, `C06_sound`, `C06_blocks_unique`, `C06_duplicates`, `C06_false_unvisited`, `C06_false_skipped`, `C06_library`. Sound for every query. Complete and without duplicates when the terms that complete the last one lie in one block and no match is the first document of a block with all the complete terms. False in general: duplicates, missing results (general theorems). When complete terms are given and a document has other terms of another block that is looked at, whether it is returned depends on the standard library (C06_library). Document ids below 2^32-2.
* **C07** (All index types give the same answers): Corollary of C01-C05. *partial*: `C07_prefix34`, `C07_conj`, `C07_prefix23`, `C07_prefix_partial`, `C07_false`. Conjunctive search: same results with types 1, 2 and 3, proved. Prefix search: types 2 and 3 agree; type 1 differs from them for some queries that the first completion matches (C07_false) and agrees with them for all others.
* **C08** (Term dictionary: extract and locate are mutually inverse): Byte-level model of build/decode; induction over bucket contents. *partial*: `C08_terms_partial`. Holds for every dictionary whose size is not a multiple of 17 and whose text takes less than 2^32 bytes; otherwise it is false (C10_false_terms, C10_false_large).
* **C09** (Term dictionary: prefix lookup returns exactly the range of terms with that prefix): Binary search invariants + bucket scan; negation for the first term. *partial*: `C09_partial`, `C09_exact`, `C09_false`. False when the prefix is a nonempty proper prefix of the first term (C09_false, for all such inputs); C09_exact gives the exact behaviour, C09_partial the claim in all other cases.
* **C10** (No string is lost when a dictionary is built, whatever the number of strings): Negation (all n divisible by 17) and theorem for n not divisible by 17. Pointers are truncated to the element type of the pointer vectors: negation for all dictionaries whose headers exceed 2^32 bytes, by following the sums of the sizes. *partial*: `C10_false_terms`, `C10_false_large`, `C10_terms_partial`, `C10_false_completions`, `C11_partial`. False: with a multiple of 17 strings the last 16 are lost (C10_false_terms, C10_false_completions, for all such inputs); and when every 17th term of a term dictionary together take 2^32 bytes, since positions are 32-bit numbers (C10_false_large, for all such inputs). Proved for all other numbers of strings and texts of less than 2^32 bytes.
* **C11** (Completion dictionary: extract and locate are mutually inverse): As C08 on id sequences. *partial*: `C11_partial`. Holds for every number of completions that is not a multiple of 17; false for multiples of 17 (C10_false_completions).
* **C12** (Completion dictionary: prefix lookup returns exactly the range of completions): As C09 on id sequences; negation for the first completion and for the unchanged prefix. *partial*: `C12_partial`, `C12_exact`, `C12_false_range`, `C12_false_prefix`. False when the first completion matches and is not the prefix followed by the first term of the range (C12_false_range), and the caller's prefix is changed when b=e and nothing matches (C12_false_prefix). C12_exact is the exact behaviour, C12_partial the claim in all other cases.
* **C13** (Completion trie: prefix lookup returns exactly the range of completions): Model builder with its per-level vectors; invariant relating levels to the sorted list; induction on the prefix. *proved*: `C13_trie`, `C13_trie_all`, `C13_empty_completion`. prefix with positive ids, no empty completion; C13_empty_completion shows what happens with one. C13_trie_all also covers ranges that begin with the terminator.
* **C14** (Top-k of a range of an unsorted list): Heap of ranges partitions the range; induction on results. unique=true negation. *partial*: `C14_topk`, `C14_unique_partial`, `C14_unique_ignored`, `C14_unique_false`, `C14_overflow`, `C14_build_zero`. The k smallest with multiplicity: proved for every list, range and k. With unique the claim is false for ranges of at most k elements (the parameter is ignored); proved for the others. k = 0 or k larger than the buffer overflows it.
* **C15** (Range-minimum queries return the leftmost minimum): Combinatorial theorem on the DFUDS bit string of the 2d-min-heap, then C38/C39. *proved*: `C15_rmq`. every list of fewer than 2^30-1 values (excess is a 32-bit number in the code)
* **C16** (Fixed-width vectors read back what was written): Bit-level invariant of push_back. *proved*: `C16_read`, `C16_access`, `C16_auto`, `C16_set`, `C16_auto_zero`, `C16_set_too_large`. all widths 1..64 (unaligned access 1..57); C16_auto_zero: what the automatic width does on zeros (throws)
* **C17** (Elias-Fano sequences read back what was written): Bit-level model with darray select. *proved*: `C17_access`, `C17_unsorted`. every non-empty non-decreasing list; C17_unsorted documents the out-of-bounds write on unsorted input
* **C18** (Elias-Fano sequence iterators enumerate the sequence): State invariant of the iterator. *proved*: `C18_iterator`. operator* and operator++ from any position
* **C19** (Searching a sorted run: find and next_geq): Loop invariants of find/next_geq over any access function; negation for uint_vec. *partial*: `C19_find`, `C19_next_geq`, `C19_uint_vec_partial`, `C19_uint_vec_singleton`. proved for the sequence type every index uses; for uint_vec the range search is wrong for a single absent id (C19_uint_vec_singleton) and proved otherwise
* **C20** (Posting lists: iteration, random access and skipping): State invariant preserved by every operation, hence all histories. *proved*: `C20_posting_list`, `C20_next_geq_meaning`, `C20_prev_intersects`. any history of next/access/next_geq/next_geq_by_scan calls on a list written anywhere in a bit vector; sizes up to 2^56
* **C21** (Gamma and delta codes round-trip): Round trip at bit level. *proved*: `C21_gamma`, `C21_delta`. For every builder state, every list of numbers below 2^64-1, and whatever bits follow.
* **C22** (Bit vectors: what is appended is what is read): Each operation characterised by its effect on the bit function. *proved*: `C22_bits`, `C22_unary`, `C22_scan`, `C22_scan_end`, `C22_builder_word`, `C22_resize`. Refinement of lists of bits by any sequence of builder calls; all reads; scanning with the unary iterator (any sequence of calls) and predecessor1; C22_scan_end: what next() does after the last one.
* **C23** (Intersection of posting lists): Invariant: every skipped document is outside the intersection. *proved*: `C23_intersection`. one or more terms, repetitions allowed, for every library sort
* **C24** (Inverted index returns the posting lists it was built from): Frame property of appending lists to a shared bit vector. *proved*: `C24_inverted_index`. any history of calls on the iterator; fewer than 2^32 documents and 2^54 postings
* **C25** (Blocked inverted index: blocks partition the postings): As C24 with per-block fields. *proved*: `C25_blocks`. for every block size m (the product num_docs * c of floating-point numbers is C59); at most 2^32-2 postings
* **C26** (Forward index returns the terms of each completion): As C24 with compact lists. *proved*: `C26_forward_index`. every list of term lists with ids at most the number of terms
* **C27** (Single-term conjunctive queries: k smallest documents in a union of lists): Merge invariant. *proved*: `C27_heap_topk`, `C27_minimal_docids`, `C27_minimal_zero`. Both implementations. The minimal-document structure cannot be built when document 0 contains every term.
* **C28** (The binary heap keeps the minimum on top): Heap contract + model of sink. *proved*: `C28_heap`. for every admissible standard library; every sequence of push, pop, rebuild, clear, change of top followed by heapify, and change of top followed by pop and heapify
* **C29** (Query parsing): Loop induction against a split specification. *proved*: `C29_parse`, `C29_deduplicate`. Tokenisation, lookup of the tokens in the dictionary and deduplication of the ids, for every query text without NUL bytes.
* **C30** (The returned text is the text of the completion): Buffer content invariant across extractions. For multiples of 17 (C30, C31, C33, C34) from the exact outcomes of C66, C68 and C69. *proved*: `C30_any`, `C30_texts`, `C30_type4`. All types, both searches, any state reached by searches; every valid collection from which the index can be built (document ids below 2^32-2 for type 4), also with multiples of 17.
* **C31** (Results do not depend on previous queries): Stateful model of pool and scratch buffers: result independent of initial content. *proved*: `C31_any`, `C31_any3`, `C31_history`, `C31_type4`. Every valid collection from which the index can be built (document ids below 2^32-2 for type 4), also with multiples of 17. Types 1, 2 and 3: both searches, any two histories of searches and any two standard libraries. Type 4: the same with one standard library.
* **C32** (Conjunctive search finds everything that prefix search finds): From C01 and C03 on the specification level; negation for type 4. *partial*: `C32_partial`, `C32_false4`. Proved for types 1, 2 and 3, also two different ones. False for type 4 (C32_false4): conjunctive search misses the first document of a block.
* **C33** (The order and repetition of complete terms do not matter in conjunctive search): From C03-C05; for type 4 from the exact result, which depends on the set of known ids only. *proved*: `C33_any`, `C33_order`, `C33_type4`. All types and every valid collection from which the index can be built (document ids below 2^32-2 for type 4), also with multiples of 17; any two texts with the same set of complete terms and the same last term. Types 1, 2 and 3: also with two different standard libraries.
* **C34** (Asking for fewer results returns an initial segment): From C01-C05: take; for type 4 the loop with a smaller k is the beginning of the loop with a larger one. *proved*: `C34_any`, `C34_fewer`, `C34_type4`. All types, both searches; every valid collection from which the index can be built (document ids below 2^32-2 for type 4), also with multiples of 17. Types 1, 2 and 3: also with two different standard libraries.
* **C35** (The caller-supplied k cannot corrupt memory): Safety for 1..15; for k = 0 and k > 15 a general theorem on runs in buffers of different sizes (`Proofs/Cut`): overflow exactly when more than 15 results are found, otherwise all the matches. *partial*: `C35_partial`, `C35_type4_partial`, `C35_prefix1`, `C35_prefix2`, `C35_prefix1_zero`, `C35_prefix2_zero`, `C35_conj1`, `C35_conj2`, `C35_conj3`, `C35_conj4`, `C35_conj4_zero`, `C35_false_conj4`, `C35_false1`, `C35_false2`, `C35_false_conj1`, `C35_false_conj2`, `C35_false_conj3`, `C35_false_web`. Proved for k from 1 to 15. False for k = 0 or k > 15 whenever more than 15 completions match, for both searches and all types (type 2 also fails with 15 matches followed by a completion with the complete terms; type 4 counts a completion once per block); with at most 15 matches all of them are returned, for every k. Conjunctive search of type 4 with k = 0 returns nothing or everything (C35_conj4_zero).
* **C36** (The text buffer of a query is never overrun): Negation by an accepted collection; safety under an explicit bound. *partial*: `C36_partial`, `C36_type4_partial`, `C36_room`, `C36_room4`, `C36_needed`, `C36_needed4`, `C36_false`, `C36_false4`. Proved for k up to 8 and for collections with short texts, all types; false for k = 15 (C36_false for types 1, 2 and 3, C36_false4 for type 4 with every block size; both searches).
* **C37** (Comparison of strings is lexicographic): Direct induction. *proved*: `C37_bytes`, `C37_ids`, `C37_needs_text`. Byte strings without NUL, as stated; id sequences without condition.
* **C38** (Rank and select on bit vectors): Directory invariants. *proved*: `C38_rank_select`. every list of fewer than 2^63 bits, with or without hint tables; util::popcount and select_in_word by their meaning (see C46)
* **C39** (Range-minimum over the excess of a parentheses sequence): Loop and tree invariants. *proved*: `C39_excess_rmq`. every non-empty sequence of fewer than 2^31 bits (the depth limit documented in the code), with or without hint tables
* **C40** (Lookups on a shared dictionary from several threads): Interleaving semantics of any number of scans over the shared array, any schedule; invariant for safety; a general schedule for the negation. *partial*: `C40_false`, `C40_false_ids`, `C40_alone_partial`, `C40_safe_partial`, `C40_torn_partial`, `C40_torn_ids_partial`. the property is false: for every dictionary, two threads that look for two terms that are not headers and not prefixes of each other have a schedule (of atomic copies and comparisons) with a wrong answer, because of the static array; same for the dictionary of completions. What holds: a lookup that is not interleaved is right whatever the array contains, and under every schedule of any number of threads, with atomic steps or not, no access is out of bounds and the answer is an id of the right bucket or 'not found'
* **C41** (Documents and completions are in bijection): From C16 and the model of invert. *partial*: `C41_bijection_partial`, `C41_false`. Proved unless the number of completions is a multiple of 17; false for all such collections.
* **C42** (Building an index never fails on a valid collection): Negation (single document 0) and success theorem. *partial*: `C42_build_partial`, `C42_exact`, `C42_type4`, `C42_false`. Exact conditions for all types for every valid collection.
* **C43** (The preprocessing scripts produce consistent index inputs): Model of the scripts on the specification's collections. *proved*: `C43_preprocessing`, `C43_stats`. Every non-empty collection with distinct document ids.
* **C44** (The web server's JSON responses are well formed): Model of escape_json and of the response, JSON grammar and decoder as specification (`Spec/Json`). *partial*: `C44_json_partial`, `C44_search_partial`, `C44_server_partial`, `C44_false_empty`, `C44_false_percent`, `C44_false_double`, `C44_false_search`, `C44_k`, `C44_bad_k`, `C44_q`. False of the code as stated: the body for an empty result is not JSON, and the body is passed as a printf format (a percent sign in a text is undefined, two are sent as one); all proved. Otherwise every list of texts of any bytes is sent as JSON and decodes to exactly these texts. A query of 128 bytes or more is answered as the empty query; k is taken modulo 2^32. The mongoose library is not modelled, except for the documented result of mg_get_http_var.
* **C45** (A saved index answers like the original): `visit` functions as codecs over bytes, composed (`Proofs/Visit`); the members of a built index are in the range of their types (`Proofs/Fits`); the loaded structure is the one that the constructor builds with other memory; for types 1-3 both are specified by the collection, for type 4 the two runs are simulated step by step (`Proofs/Twin4`), for libraries that look at elements through the comparison only (`StdLib.ByKeys`). *proved*: `C45_saved1`, `C45_saved2`, `C45_saved3`, `C45_saved4`, `C45_file`, `C45_answers1`, `C45_answers2`, `C45_answers3`, `C45_answers4`, `C45_rebuilt4`, `C45_answers4_libraries`. every member that the queries read is visited, in the same order when saving and loading: for every input and every contents of memory the loaded index of types 1-4 is the one the constructor would build. Hence the same answers to all queries, for all types. For type 4 both indexes use the same standard library, whose heap functions look at elements only through the comparison (ByKeys); with two libraries the prefix queries and the determined conjunctive queries (Settled) have the same answers, others need not (C06_library). The file is a list of bytes and does not depend on memory; saving the loaded index gives the same file. The encoding of numbers and vectors by essentials (not in the repository) is taken as little-endian memory contents and size-prefixed vectors
* **C46** (Portable bit tricks agree with their meaning): Carry-free byte and field arithmetic on `BitVec 64`; 256-entry tables are evaluated in full by the kernel. *partial*: `C46_popcount`, `C46_byte_counts`, `C46_bytes_sum`, `C46_select`, `C46_select_beyond`, `C46_reverse`, `C46_uleq9`, `C46_leq8_partial`, `C46_leq8_exact`, `C46_leq8_false`, `C46_msb_lsb`, `C46_logs`, `C46_model`. Every word. Only leq_step_8 is not what its name says: it is the comparison of signed bytes when their difference is a signed byte (exact meaning proved, false otherwise). The compiler builtins are taken by their meaning.
* **C47** (Intersection over the blocked index): Exact enumeration by induction over the loop; negation. *partial*: `C47_intersection_partial`, `C47_false`. false as stated: when the terms lie in one block its first document is skipped; exact enumeration proved
* **C48** (The text files between the scripts and the constructors): Streams (`>>` with eofbit and failbit), the readers of all files, and the scripts from the text of the input to the texts of the files; round trip by induction over numerals, words, lines, records. *proved*: `C48_lines`, `C48_accepted`, `C48_files`, `C48_nodes`, `C48_index`, `C48_serves`. every text accepted by the scripts (document ids written with decimal digits; whitespace of ASCII) whose collection is valid
* **C49** (A truncated file of statistics is rejected): Exact outcome of `load` for every file of numerals by case analysis on the number of values read; negations. *partial*: `C49_exact`, `C49_partial`, `C49_false`, `C49_false_short`, `C49_false_negative`. exact outcome for every file of numerals; false of the code: a missing last number is read as 0, and files with at most four numbers (even the empty file) are accepted; negative numbers are accepted as large ones
* **C50** (Malformed files are noticed): Divergence of the loop for every number of iterations; missing lists followed into the builder; the positive part is C48. *partial*: `C50_partial`, `C50_hangs`, `C50_hangs_large`, `C50_truncated`. false of the code: a document id that is not a number of 32 bits makes the reader loop forever, and missing posting lists make the construction read the front of an empty list; the files the scripts write are fine
* **C51** (Uncompressed lists: iteration, random access and skipping): State invariant preserved by every call, hence all histories; loop invariant of the binary search; negations for the empty list and for a universe that does not fit. *partial*: `C51_partial`, `C51_false_empty`, `C51_false_universe`. for every non-empty increasing list whose universe fits in the integer type, every history of calls; false of the code for the empty list (next_geq reads far outside) and for a universe that does not fit (the end is reported as 0)
* **C52** (Matching parentheses): First position where the excess falls, found in a byte (tables, all 256 bytes), a word (sums of bytes in one multiplication), a block, a superblock and the tree of minima: an exact lemma for each level, then the whole search; `Balanced` is a separate inductive definition. *proved*: `C52_matching`, `C52_inverse`. every sequence of fewer than 2^31 parentheses, balanced or not; in a balanced one find_close and find_open are inverse to each other on all parentheses. A shift by 64, masked in the source, is read as giving the masked value
* **C53** (Queries of the benchmarks): Exact model of the single-precision operations (`Model/Float32`: multiples of 2^-149, rounding to nearest even); bounds on the rounding errors, then the position of the cut. *proved*: `C53_queries`, `C53_all`, `C53_empty`. Non-empty lines shorter than 2^24-4 bytes; an empty line makes the program read outside of its string (C53_empty). The single-precision products are modelled exactly, with rounding to nearest even
* **C54** (Partition of the completions into query files): The scripts on texts; a random shuffle is any permutation. Negation for lines without terms. *partial*: `C54_partition_partial`, `C54_false`. Every collection whose lines all have terms, every shuffle. False of the script otherwise: lines without terms become empty queries in the files for five and six terms
* **C55** (Filtering of the collection): The script on texts, as a filter of lines. *proved*: `C55_filter`, `C55_unseen`. Lines without the control bytes 28-31, which the two versions of Python treat differently
* **C56** (Mapping of queries to term positions): Loop induction against the specification of tokens (C29) and of the dictionary (C09, C10); negation for all dictionaries of 17 n terms. *partial*: `C56_map_partial`, `C56_lists_partial`, `C56_false`, `C56_empty`. False for every dictionary whose number of terms is a multiple of 17 (the last 16 terms are printed as unknown) and for inputs with an empty line (reads the front of an empty vector). The numbers lead to the posting lists of C57 (C56_lists_partial)
* **C57** (Binary posting lists): Round trip of the little-endian words; the lists are those of C43, read from the files of C48. *proved*: `C57_ds2i`, `C57_unique`. Every text that the scripts accept whose collection is valid
* **C58** (Counts of the effectiveness benchmark): Induction over the queries with the states of both objects; `std::set_difference` on increasing lists of document ids; Best results of a smaller and a larger class. For type 4 the multiset difference. *partial*: `C58_counts_partial`, `C58_type4`, `C58_false4`. Types 1, 2 and 3 as stated (even with two different types and standard libraries), for k from 1 to 15, unless the results overrun the pool (C36). False for type 4: repeated results are counted; the exact count is proved (C58_type4)
* **C59** (Block size of type 4 follows c): Relative error of rounding (at most 2^-24) twice, truncation; the cut into blocks for every block size is C25. *proved*: `C59_blocks`, `C59_refused`. Every non-negative float; negative numbers, infinities and NaN (all refused by the same test) are not represented
* **C60** (Printed sizes are those of the saved file): The round trip of C45 carries the number of bytes along; parts by arithmetic; counts by double counting over terms and completions (`Proofs/Counts`). *proved*: `C60_file1`, `C60_file2`, `C60_file3`, `C60_file4`, `C60_parts1`, `C60_parts2`, `C60_parts3`, `C60_parts4`, `C60_counts1`, `C60_counts2`, `C60_counts3`, `C60_counts4`. Numbers of bytes and counts, not the text printed nor the floating-point quotients; essentials::pod_bytes and vec_bytes are taken by their meaning
* **C61** (From the text to the server: responses depend on the text and the request only): Composition of C48 (text to files to constructor), C45 (save and load) and the exact specification of the searches, which determines the results; induction on the requests with the invariant of the scratch state. *proved*: `C61_build1`, `C61_build2`, `C61_build3`, `C61_build4`, `C61_server`. Where the response is undefined (percent signs, C44; results that overrun the pool, C36) it is so in every run; a k of 0 or of more than 15 is excluded. The mongoose library is not modelled, except for mg_get_http_var
* **C62** (Texts outside ASCII): The encoding is shown to be Lean's; decoder and encoder are inverse; the encoding preserves the order of texts (induction, by the lengths of the encodings of the first different characters). The scripts depend on the terms only through their order (`run_renamed`: renaming the terms by an increasing function), so that they can be run on code points or on bytes. *proved*: `C62_order`, `C62_sorted`, `C62_prefix`, `C62_decode`, `C62_accepted`, `C62_files`, `C62_index`, `C62_serves`, `C62_program`, `C62_server`, `C62_build`, `C62_ascii`. The encoding of the scripts' files is taken to be UTF-8; a byte order mark is a character like others. The limits of a valid collection are in bytes (C63). Digits outside of ASCII are not taken for document ids
* **C63** (The limit on the length of completions protects the searches): Negation: with letters for the terms (an increasing renaming) the collection is valid, so the files are accepted and the index is built; a dictionary of at most 16 terms has one bucket, whose header is copied to the array by every lookup. Positive part: for ASCII the two lengths agree. *partial*: `C63_partial`, `C63_false`. False of the code: the scripts count characters, the arrays are sized in bytes. For every text with at most 16 terms whose first term has more than 256 bytes, no completion having more than 128 characters, the index is built and every search for a word writes past the static array. Proved for ASCII; texts over 128 characters are always refused
* **C64** (Build options change no results): The loop of the manual for `pdep` is shown to send bit k of the source to the k-th one of the mask (induction); byteswap by induction over the bytes. *proved*: `C64_builds`, `C64_model`, `C64_beyond`. pdep, tzcnt, popcnt and bswap are modelled by what the manuals say they compute. Beyond the asserted range the configurations differ (C64_beyond); the rest of the model selects within the range only where the structures are valid.
* **C65** (The page shows the suggestions as they are): The keywords are the words typed; the pattern compiles to an alternative of these words; the marked text is a list of tokens that escaping and restoring act on one by one; what it shows, and where it is bold, by induction over the scan. *partial*: `C65_highlights_partial`, `C65_empty_partial`, `C65_empty_not_escaped`, `C65_parenthesis`, `C65_group_lost`, `C65_tag_lost`. False of the code for an empty field and texts with '<' (C65_empty_not_escaped), for a parenthesis typed (C65_parenthesis, C65_group_lost), and for texts with the tag itself (C65_tag_lost). Proved for fields without the characters special to regular expressions and texts without these tags, and for an empty field and texts without '<' and '&'. Fields with other operators of regular expressions are not modelled.
* **C66** (Completions can be found whatever the number of distinct terms): The representation of a dictionary with a multiple of 17 terms (`Lossy`, Proofs/LossyDict): the headers and buckets of all but the last 16 terms, decoding a lost id reads past the array; then the proofs of the searches with this in place of `FC.Rep`. *partial*: `C66_prefix1_exact`, `C66_type2_exact`, `C66_type3_exact`, `C66_type4`, `C66_type4_exact`, `C66_false`, `C66_false2`, `C66_false3`, `C66_false4`, `C66_fault`, `C66_fault4`, `C66_unsound`, `C66_prefix1_partial`. False of the code: for every valid collection whose number of terms is a multiple of 17, completions with one of the last 16 terms are never shown; searches that would show one read out of bounds (C66_fault: the empty query), and conjunctive search ignores such a term of the query (C66_unsound). The exact outcome of every search is proved (C66_prefix1_exact, C66_type2_exact, C66_type3_exact, C66_type4_exact; for conjunctive search with type 4 in terms of its blocks, as in C06).
* **C67** (Enumerating an Elias-Fano sequence with next()): State invariant as for C18, with one chunk less in the buffer; after the last one the unary iterator reads words until the end of the buffer. *partial*: `C67_next_exact`, `C67_next_partial`, `C67_false`. False of the code for every sequence: the call of next() that should return the last element looks for the one of the following element and reads outside of the bitmap. C67_next_exact says exactly what any number of calls does from any position; C67_next_partial is the part of the claim that holds, missing the last element. Nothing in the repository calls next().
* **C68** (Completions can be found whatever their number): The representation of the dictionary of completions with a multiple of 17 completions (`Base.Rep17`, Proofs/LostCompletions): the headers and buckets of all but the last 16, document ids 0 in their places, and ids beyond the headers for the lost documents, so that extracting one reads past the array; then the proofs of the searches with this in place of `Base.Rep`. *partial*: `C68_type2_exact`, `C68_type3_exact`, `C68_type4_exact`, `C68_false2`, `C68_false3`, `C68_false4`, `C68_fault`, `C68_fault2`, `C68_partial`. False of the code: for every valid collection whose number of completions is a multiple of 17 (and whose number of terms is not, see C66), the last 16 completions are never shown with types 2, 3 and 4. Prefix search leaves them out; conjunctive search reads out of bounds when one of its results is lost (C68_fault), with type 2 already when a lost completion has the complete terms of the query (C68_fault2). The exact outcome of every search is proved. C68_partial: the searches are right when no matching completion is lost.
* **C69** (Searches work when both numbers are multiples of 17): The representations of C66 and C68 together (`Index2/3/4.RepB`, Proofs/BothLost). A completion is shown when it is kept and all its terms are (`Base.extract_both`); the scores of documents come from the inverted index and the dictionary of terms as in C66. *partial*: `C69_type2_exact`, `C69_type3_exact`, `C69_type4`, `C69_type4_exact`, `C69_false2`, `C69_false3`, `C69_false4`, `C69_fault`, `C69_fault4`, `C69_partial`. False of the code: for every valid collection whose numbers of terms and of completions are multiples of 17, the last 16 completions and all completions with one of the last 16 terms are never shown with types 2, 3 and 4, and searches that would show one read out of bounds. The exact outcome of every search is proved (for conjunctive search of type 4 in terms of its blocks, as in C06). C69_partial: the searches are right when no matching completion is lost.
* **C70** (Whatever is shown is a completion of the collection that matches): Case distinction on whether the numbers are multiples of 17; in each case the index is the one of C01 to C06, C66, C68 or C69 (building is a function, and it fails only as stated in C42), and the exact outcomes proved there imply the claim. *proved*: `C70_type1`, `C70_type2`, `C70_type3`, `C70_type4`. For every valid collection for which the index can be built, with no condition on the numbers of terms and of completions. Type 4 needs document ids below 2^32 - 2 (see C25, C26); its conjunctive search may repeat results (C06_false), so the order is left out there.
* **C71** (The benchmarks report the numbers of queries and of results): Induction over the queries and the runs; each answer is that of a new object by C31. *proved*: `C71_reported`, `C71_type4`. Times are not modelled.
* **C72** (The benchmark of locate_prefix looks up what the queries match): The lookups are computed from the specifications of parsing and of the dictionary (C09 to C11), the ranges from that of the trie (C13); the matching with numbers one less is the matching with preceding terms, and with the end of the completion before the first term. Queries with unknown terms stop there (`parseLoop_stop`), and an invalid range wraps around to nothing (`Seq.findRange_invalid`). For the type `fc`, an invariant over the runs says which terms have been added to a query (`FcState.step`). The claim itself is refuted. *partial*: `C72_trie_partial`, `C72_trie_exact`, `C72_fc_exact`, `C72_false`, `C72_false_fc`, `C72_false_runs`. The claim is false: the program forgets to add 1 to the range of the dictionary, so it looks up the terms before those of the query (C72_false); with the type fc, a lookup without result changes the prefix for the next run (C72_false_fc), and then the runs may find different completions (C72_false_runs). C72_trie_exact and C72_fc_exact say exactly what every run computes for every query; C72_trie_partial is the simpler form for queries of known terms whose last term is not that of the first term of the dictionary.
* **C73** (The bucket size of the dictionaries does not change their answers): The functions of the dictionaries with the bucket size as argument (Model/BucketSize); the proofs for bucket size 16 with the arithmetic of 17 replaced by that of any number. For 16 the functions are those of the other files. *partial*: `C73_terms_partial`, `C73_same_partial`, `C73_default_terms`, `C73_false_terms`, `C73_completions_partial`, `C73_same_completions_partial`, `C73_default_completions`, `C73_false_completions`. The claim is false for every bucket size: when the number of strings is a multiple of the bucket size plus 1, the last strings are lost (C73_false_terms, C73_false_completions). Missing in the partial theorems: these numbers. The functions of the indexes are those with bucket size 16 (C73_default_terms, C73_default_completions).
* **C74** (The benchmarks of the dictionaries measure what they should): Induction over the queries and runs, from C73; beyond the last string, decoding copies a fixed number of characters and leaves the padded buckets (`FC.PastB`, Proofs/BucketPast). *partial*: `C74_terms_exact`, `C74_terms_partial`, `C74_false_terms`, `C74_false_multiple`, `C74_ids_exact`, `C74_ids_partial`, `C74_false_ids`. The claim is false: a line that is not a term makes the program extract the id of "not found" (C74_false_terms); numbers of strings that are multiples of 5, 9, 17, 33, 65, 129 or 257 lose strings (C74_false_multiple); asking for more completions than there are reads past the end (C74_false_ids). What happens is proved exactly for each bucket size (C74_terms_exact, C74_ids_exact); missing in the partial theorems: these inputs. Times are not modelled.
* **C75** (The tests of the repository pass for every valid collection): `Model/Tests` has the tests as programs that return whether all their REQUIRE hold. Each loop is proved to return whether what it compares is equal, by induction from the theorems about the structure (C08, C11, C13, C14, C24, C26, C47); the bisections of the tests are proved to find the point where the predicate changes. `Model/TestsSearch` has the tests of `locate_prefix` and of the searches: the range of the texts that begin with the query, in the order of the texts, is compared with the one in terms of numbers (C13, the exact theorem behind C12), using that joining terms keeps their order when all characters come after the space. *partial*: `C75_terms_exact`, `C75_terms_partial`, `C75_false_terms`, `C75_completions_exact`, `C75_completions_partial`, `C75_false_completions`, `C75_trie`, `C75_inverted`, `C75_inverted_notices`, `C75_intersections`, `C75_false_intersections`, `C75_blocked_exact`, `C75_blocked_partial`, `C75_false_blocked`, `C75_forward_partial`, `C75_false_forward`, `C75_forward_notices`, `C75_documents`, `C75_minimal_exact`, `C75_minimal_partial`, `C75_false_minimal`, `C75_searches_exact`, `C75_searches_partial`, `C75_false_searches`, `C75_false_searches_none`, `C75_searches_missing`, `C75_topk`. The claim is false of six of the ten tests, on valid collections (the C75_false theorems); when each of them passes is proved exactly or with the exceptions named in the partial theorems. The tests of the trie, of the inverted lists and of the documents pass always. The tests of the lists accept no other lists (C75_inverted_notices), that of the forward index compares only as many lists as there are terms (C75_forward_notices). When the test of locate_prefix passes is C75_searches_exact, for queries of known terms; it accepts everything when the file of the queries is missing (C75_searches_missing). The test of the searches has no checks (C75_topk).
* **C76** (The structures are as small as announced): The functions `bytes` of the structures are in `Model/Sizes`. The sizes of the vectors are followed through the building loops (invariant `DA.Wide` for the darray, `CT.build_sizes` for the Cartesian tree, `buildLoop_sizes` for the dictionaries, `addAll_size` and `addAll_sizes` for the two inverted indexes, `Trie.build_bytes` for the levels of the trie); the specification, `Spec/Space`, only counts digits, postings, documents, beginnings and common prefixes. *proved*: `C76_compact_vector`, `C76_elias_fano`, `C76_minima`, `C76_dictionary`, `C76_completions`, `C76_forward`, `C76_inverted`, `C76_blocked`, `C76_trie`. Exact numbers of bytes, except for the minima (between 2 and 2.78 bits each) and for the positions that the darray stores for sparse blocks (one for every 64 high bits at most). Numbers of strings that are multiples of 17 are excluded (see C10). For the trie, the largest number of each sequence is bounded and not given exactly.
* **C77** (Prefix search returns the completions whose text begins with the text of the query): Joining the pieces of a query gives the query without superfluous spaces (`squeeze`); by induction over the pieces, a text begins with it iff the completion matches. The theorems are then those of C01 and C02. *partial*: `C77_type1_partial`, `C77_type2_partial`, `C77_sound`, `C77_false`. For every query, whatever its spaces: what is missing is what is missing from C01 and C02. That all results begin with the text of the query is proved without exceptions (C77_sound); C77_false: completions whose text begins with the query are not returned.
* **C78** (After the installation, the test of prefix lookup checks queries of every length and passes): The names of the files are those of the script and those of the test: the seventh does not exist, so the rounds end after the sixth (`locateRounds_stop`). The queries are made of texts of completions (C54, C53), for which the conditions of C75 hold or are computed. *partial*: `C78_exact`, `C78_partial`, `C78_false`, `C78_false_long`. C78_exact tells which queries are compared and when the test passes. The script writes queries.length=7+, the test opens queries.length=7 and returns: no query of seven terms or more, and no percentage but 0, is ever compared (C78_exact, C78_false_long). C78_false: the test fails on a correct build of many collections; C78_partial: it passes if the first completion is one character.
* **C79** (A completion typed in full is shown): The terms of the text are those of the completion (the spaces of C77), the last one reaches itself, and it is the smallest string that begins with it, so the weaker matches of C01 to C05 hold. *partial*: `C79_typed`, `C79_typed4_partial`, `C79_false4`. Proved for types 1, 2 and 3 and both searches, and for prefix search of type 4. False for conjunctive search of type 4: the best completion is not shown when its document is the first of a block that has all its terms but the last.
* **C80** (Typing on only narrows the results): Removing superfluous spaces commutes with typing on, so a text match of the longer query is one of the shorter (C77); for conjunctive search, by cases on whether a space is typed; with type 4 from the exact answers of C06. *partial*: `C80_type1_partial`, `C80_prefix_partial`, `C80_type4_partial`, `C80_conj_partial`, `C80_conj4_partial`, `C80_false`, `C80_false_first`, `C80_false_conj`, `C80_false_conj4`. Prefix search: proved for queries that do not end with a strict beginning of the first term of the dictionary; with types 2 to 4 the first completion may show up later. Conjunctive search, types 1 to 3: proved when besides the complete terms typed are known. The negations show that each of the conditions is needed. Conjunctive search, type 4: proved also when the shorter query is one that type 4 answers completely (C06); false for those that match the first document of a block (C80_false_conj4).
* **C81** (The collected results of the benchmarks cover queries of every number of terms): The calls of the scripts are lists of percentages and names of files; a call whose file is missing leaves no record (`Model/Collect`). The names are compared with those of the partition (C54), the records are those of C71 and C72. For `locate_prefix` the claim is refuted. *partial*: `C81_results`, `C81_files`, `C81_locate_partial`, `C81_locate_trie`, `C81_false`. Proved for the benchmarks of the searches (C81_results, whose records are described by C71) and for that of the effectiveness (C81_files, for any benchmark). False for the benchmark of locate_prefix: its script asks for files of seven, and of eight or more terms, which are not written, so that no query of seven terms or more is measured (C81_false); C81_locate_partial and C81_locate_trie say what is measured.
* **C82** (Queries that were taken out of the collection are never shown): The script is the composition of the partition (C54), the filter (C55) and the preparation of the files (C48) (`Model/Filtered`). What is left is a valid collection when some completion is left; the texts of completions determine them, so that C70 for the rest gives the claim for all types. *proved*: `C82_rest`, `C82_unseen`, `C82_none`. C82_rest: the files are those of the completions that are not taken, so that the other properties hold for them. C82_none: when all completions are taken no index can be built; whether one can be built from the rest otherwise is C42. The texts are in ASCII, without carriage returns and bytes 28 to 31, on which the two versions of Python agree.
* **C83** (Reading a bit vector piece by piece): The model of C21 of the iterator, with sequences of calls; `Returned` says in terms of the bits what each call should return. By induction over the calls, with an invariant for the state after 64 bits. Refuted for `skip_zeros` after `get_bits(64)`, for every vector in which the two numbers differ. *partial*: `C83_partial`, `C83_false`, `C83_wrong`. The claim is false: get_bits(64) leaves the buffer as it is, and a call of skip_zeros after it looks at the bits again that have been read (C83_false, C83_wrong). Proved for all other sequences of calls. The library makes no such sequence of calls itself (C21).
* **C84** (The benchmark of effectiveness in a build with assertions): The model of C58 with the assertions of the loop; a failed one is `Fault.aborted`. With C32 and the order of the results for types 1, 2 and 3; refuted for type 4 with `C32_false4`. *partial*: `C84_same_partial`, `C84_false4`. Proved for types 1, 2 and 3. False for type 4, where prefix search can return more results than conjunctive search (C84_false4). The assertions inside the searches are not part of the claim; those of the dictionaries are in C85.
* **C85** (The dictionaries in a build with assertions): The models of C08, C11 and C12 once more, with the assertions of the dictionaries, the comparisons and the pointers. Where the function without assertions succeeds, all the assertions hold (`Stays`, function by function): a successful read of the next pointer implies that the bucket exists, and so on. The assertion of `extract` is compared with the size of the bucket. Refuted for multiples of 17. *partial*: `C85_terms_partial`, `C85_false_terms`, `C85_completions_partial`, `C85_false_completions`. The claim is false for a dictionary whose size is a multiple of 17: extracting any of the last 16 strings stops the program (C85_false_terms, C85_false_completions). Proved for all other sizes.
* **C86** (Building and searching in a build with assertions): The models of the constructors and the searches of all four types once more, with the assertions on `k`, the statistics, the pool, the dictionaries and comparisons, the ranges of terms, the iterators of the inverted and the forward index, the intersections, the blocks of type 4, the search by minimal documents and the trie. The assertion of type 4 that calls `access` moves the iterator; it is shown that the iterator it leaves is the one it found. The assertions inside bit vectors, compact vectors, Elias-Fano sequences, the heap and the range-minimum structure are not part of the model; those classes are the ones without assertions here. Two directions: where the function without assertions succeeds on an index of a valid collection, the assertions hold; and, for all inputs (for type 4: conjunctive search in the index of a valid collection), where the function with assertions succeeds, the one without succeeds with the same result. The second gives the refutation from C66. *partial*: `C86_type1_partial`, `C86_type2_partial`, `C86_type3_partial`, `C86_type4_partial`, `C86_answer1_partial`, `C86_prefix_same`, `C86_conj_same`, `C86_build_same`, `C86_build_same4`, `C86_k`, `C86_k4`, `C86_false`. Proved for all four types. The claim is false when the number of terms is a multiple of 17: searches that have to show one of the last 16 terms stop the program (C86_false; the dictionary of completions likewise, C85_false_completions). With more than 15 results requested every search stops at its first assertion (C86_k, C86_k4). That assertions only add failures holds for all indexes, queries and states (C86_*_same), for conjunctive search of type 4 for the indexes of valid collections (C86_type4_partial). Not covered: the assertions inside the bit vectors, the compressed sequences, the heap and the range-minimum structure.
* **C87** (The preprocessing scripts in a directory): A disk is a function from names to contents. Each script is a function on disks with the modes in which it opens files, and it may end early with what it has written so far; the shell splits names and goes on after failures. The readers look their files up by their own names. Shown: for every disk the scripts leave the files of `Pre.prepare` (C48) and `Pre.partition` (C52) and everything else as it was. The files are followed through the five scripts; the two numbers that build_inverted_and_forward.py reads from the statistics are shown to be the right ones. Not modelled: patterns (`*`, `?`, `[`) in names, directories, permissions. *partial*: `C87_files_partial`, `C87_again_partial`, `C87_index_partial`, `C87_serves_partial`, `C87_filtered_partial`, `C87_false_blank`, `C87_false_space`. Proved for every text whose lines each have a number and terms, every state of the directory, and names without spaces, tabs and newlines (names with *, ? or [ are not modelled). The claim is false for a text with a line without words after the first completions, also at its end: the scripts fail one after the other, the completions after the line are lost, and no index of the types 1 to 3 can be built (C87_false_blank). It is false for a name with a space, tab or newline (C87_false_space).
* **C88** (The storage classes in a build with assertions): The functions of bit vectors, select structure, sequences, posting lists and fixed-width vectors once more, with their assertions. Most are shown equal to those without: the assertions only need sizes (invariants of building) or hold whenever the loops before them end. `next_geq_by_scan` calls `access` in an assertion and continues from another state; it is shown to be an iterator at the same position. The sequences with assertions satisfy the interface from which the searches are proved (C19). `end()` is shown to stop for every sequence. For the range-minimum structure the assertions need the meaning of what is stored: the least excess of a leaf is not negative exactly when no prefix has negative excess (shown for the sequence of every tree, with the converse as a guard), the climb in the tree of minima ends at the leaf of the minimum it carries, the block found contains the minimum, and the bit before the leftmost minimum is a closing parenthesis. For matching parentheses, the search in the tree only looks at nodes that span an existing superblock, which do not hold the size. Subtractions of query arguments wrap around, and the wrapped argument is shown to fail the assertion of select. The heap's only assertion in use, `pos <= size()` in `sink(0)` (min_heap.hpp:69), is always true. The assertion of `reverse` is shown to be the absence of bits beyond the size. *partial*: `C88_list`, `C88_sequence_partial`, `C88_runs`, `C88_vector`, `C88_rank_select`, `C88_excess_rmq`, `C88_rmq`, `C88_reverse`, `C88_matching`, `C88_list_guard`, `C88_excess_guard`, `C88_rmq_unchecked`, `C88_false_end`. Proved for all the calls named; the claim is false for end() of a sequence, which stops for every sequence (C88_false_end). C88_list_guard shows two assertions that guard the domain. C88_rmq_unchecked: a query of one position beyond the list passes. Not covered: next() of the iterator of a sequence (C67).
* **C89** (Building and searching with every assertion in place): The constructors and searches of types 1 to 4 once more, with every assertion at every layer: the functions of C86 on top of those of C88. What the layers below need is taken from building: each sequence of a level of the trie has an element for each node of the level (and one pointer more), the pointers and the lists of the inverted and the forward index lie within their vectors, the map from documents to completions has a cell for each document, the lists with a range-minimum structure are short enough. With these, each function with assertions succeeds wherever the one without does, with the same result; C01, C03, C04 and C05 then give the answers. For type 4 the builder of the blocks is followed once more (each value that is written fits its width), and each block is shown to begin within the bits of the index and to have terms of at least one bit. Left out: include/min_heap.hpp:69 (the position at which sinking begins), include/uint_vec.hpp:46 (the number of elements after pushing them), the assertions of the timers in include/probe.hpp and those of functions that no program calls. *partial*: `C89_type1_partial`, `C89_type2_partial`, `C89_type3_partial`, `C89_type4_partial`, `C89_answer1_partial`, `C89_answer2_partial`, `C89_answer3_partial`, `C89_k`, `C89_k4`, `C89_false`, `C89_lost`. Proved for types 1 to 4 with the assertions of every layer. Excluded where the claim is false or the index cannot be built: numbers of terms (types 2 to 4: or completions) that are multiples of 17 (C89_false, C89_lost), for type 4 the document ids 2^32-2 and 2^32-1, k above 15 (C89_k, C89_k4).
* **C90** (From a checkout to the running example): The disk of C87 with directories: a script that runs in a directory sees the files below it. The program `build` on the disk is shown to be the one on the text (C61), since the five files are those of C87 and the output lies outside of `test_data`. example.sh and Dockerfile are compositions of it with the server (C61, C44); a failing command ends the making of an image, but not a shell script. Compiling, users, ports and the library that serves static files are not modelled. *partial*: `C90_example_partial`, `C90_answers_partial`, `C90_exact`, `C90_image_partial`, `C90_false_fresh`, `C90_false_page`. Proved for example.sh after install.sh and for the responses of the image. False of a checkout without the preprocessed files (C90_false_fresh) and of the page in the image (C90_false_page). C90_exact: which file is served, and whether the image is made, for every valid collection. The others exclude numbers of terms that are multiples of 17; what the responses are has the limits of C44.
* **C91** (The script that builds the indexes of all types): The same four times in a row, the files of the collection being untouched by the outputs before. What is loaded from each file is the index of its type (C45, C06). By C42 each program writes its file or throws, which gives the exact effect for every valid collection (`C91_exact`, `C90_exact`). *partial*: `C91_files_partial`, `C91_exact`, `C91_names`, `C91_apart`, `C91_false`. C91_exact: the files after the script, for every valid collection. That they answer queries is proved for collections that all types can be built from and whose numbers of terms and completions are not multiples of 17. False when the completion with document id 0 contains all the terms (C91_false): old files of types 1 and 2 stay.
* **C92** (An index file is read exactly to its end): Reading is shown to be uniform (`Eats`): every part of the visit either runs into the end or uses up a front part of the bytes, whatever follows, and at least one byte per element of a container. With the round trip of C45 this gives the exact end of the file. Types 1 and 2-4 begin with different parts: the number of levels of the trie or the number of pointers of the dictionary, read at the place of the other, asks for more bytes than the file has. *partial*: `C92_type1`, `C92_type2`, `C92_type3`, `C92_type4`, `C92_server`, `C92_from1_partial`, `C92_words_partial`. The end of the file: proved for all types. Files of type 2, 3, 4 given to the web server: proved for all valid collections. Files of type 1 loaded as types 2, 3, 4: proved for collections of less than 2^26 terms (with repetitions) with document ids below 2^28 (C92_words_partial), and in general for files of less than 2^35 bytes of less than 2^28 completions (C92_from1_partial); larger ones are missing. Reading beyond the end is a fault in the model; what the library (not in the tree) does then is not modelled.
* **C93** (Range queries work for every order): `CT.buildBy` is the template for any type and comparator. On the elements of the list a strict weak order is the order of the numbers of smaller elements (`exists_ranks`), so the structure is the one of the list of these numbers, for which C15 gives the answer. *proved*: `C93_rmq`, `C93_less`, `C93_greater`. For lists of less than 2^30 - 1 elements, as C15. A comparator that is not a strict weak order is outside the claim.
* **C94** (Removing completions leaves the other answers as they are): From the exact results of both indexes (C01 to C06): lists in the order of the document ids, of which what remains of one is shown to be the beginning of the other (`Best.removal`). In conjunctive search complete terms may become unknown by the removal; then nothing of the results remains. False when the removal makes the last term of the query a strict beginning of the first term (`C94_false`), or, with types 2 and 3, a match the first completion (`C94_false_first`): the defects of C09 and C12 depend on what comes first. *partial*: `C94_valid`, `C94_conj_partial`, `C94_type1_partial`, `C94_prefix_partial`, `C94_type4_partial`, `C94_conj4_partial`, `C94_false`, `C94_false_first`. Proved for types 1, 2 and 3, also two different ones, and prefix search of type 4, unless the query ends with a strict beginning of the first term of one of the collections (C94_false), or, for prefix search of types 2 to 4, the first completion of one of them matches (C94_false_first). Conjunctive search of type 4: for queries that it answers completely (C06). Numbers of terms or completions that are multiples of 17 are excluded (C66, C68).
* **C95** (Only the order of the document ids matters): What is found does not depend on the ids (`foundBy_texts`), so that the results are the best of the same texts (C01 to C05); two lists with the same elements in the order of the same asymmetric relation are equal. Conjunctive search of type 4 depends on the standard library for documents found twice (C06) and is not part of the claim. *proved*: `C95_order`, `C95_type4`, `sameOrder_map`. For collections that the type can be built from, numbers of terms (and completions) that are multiples of 17 excluded (C66, C68), k from 1 to 15, searches whose results fit in the pool (C36).
* **C96** (A better score never hurts): By counting: a result that is ahead of the completion afterwards was so before. As C95 otherwise. *proved*: `C96_better`, `C96_type4`. As C95.
* **C97** (A collection can be indexed in parts): From the exact results of all indexes (C01 to C06) by counting (`mergeOf`): a completion shown by the whole and not by a part that has it would have k better ones in this part, which are all in the whole. `C97_unique`: there is only one such list. *partial*: `C97_unique`, `C97_prefix_partial`, `C97_conj_partial`, `C97_type4_partial`, `C97_conj4_partial`, `C97_false`, `C97_false_first`. Proved for any family of parts; types 1, 2 and 3 also mixed. Missing because the claim is false there (C97_false, C97_false_first): conjunctive queries with complete terms that only some parts have, queries that end with a strict beginning of a first term, with types 2 to 4 queries that a first completion matches, and conjunctive queries that type 4 does not answer completely (C06).
* **C98** (Document ids and conjunctive search of type 4): What type 4 returns is given by the texts, the blocks and the order of the ids (C06, `Result4`), as far as it does not depend on the heap of the standard library; the lists of both collections are shown to have the same texts, with their numbers of copies (`Result4.same_texts`). *partial*: `C98_order_partial`, `C98_better_partial`, `C98_false`, `C98_shown_then_not`. The same order of the ids gives the same texts, also where type 4 does not answer completely, except where the results depend on the heap of the standard library. A better id does not hurt where type 4 answers completely with both numberings; in general it does (C98_false, with an example).
* **C99** (The script that benchmarks the dictionaries measures the dictionary of terms on terms of the collection): The last call of script/benchmark_dictionaries.sh is the file of queries of one term (C54) looked up by its name and given to the benchmark of C74 (`Model/DictScript`). The terms are specified apart (`Spec/DictScript`). `C99_exact` tells for every collection which of the two outcomes it is; the claim itself is refuted by `C99_false`. *partial*: `C99_exact`, `C99_partial`, `C99_false`. C99_exact describes both outcomes for every valid collection. Proved if the number of terms is a multiple of none of 5, 9, 17, 33, 65, 129 and 257 (C99_partial). False otherwise: if one of the last B terms is a completion, the program reads out of bounds (C99_false).
* **C100** (The size of an index is linear in the collection and in its largest document id): The length of the file (C60) of each structure is bounded by the numbers of terms, letters and document ids of the collection (`Proofs/FileLinear`), which are specified apart (`Spec/Linear`); `C100_type1`..`C100_type4` also bound it below by the document ids, and `C100_gaps` shows for every document id that they cannot be left out. *proved*: `C100_type1`, `C100_type2`, `C100_type3`, `C100_type4`, `C100_gaps`. An upper bound for every valid collection and type, a lower bound by the document ids, and a family of collections that shows that the ids cannot be left out of the upper bound.
* **C101** (The choice of letters does not matter): Matches are compared with the letters replaced on both sides (`Proofs/Letters`), and the exact results of both indexes (C01 to C06) are the best of matching completions, of which there is only one list. The replacement is specified apart (`Spec/Letters`). When it keeps the order of the letters, also what the dictionaries miss is the same (`Proofs/LettersOrder`), so that no query is excluded, and so are the blocks of type 4 (`Proofs/LettersBlocks`). False when the new order of letters puts a term or completion first that matches (`C101_false`, `C101_false_first`): the defects of C09 and C12 depend on what comes first. *partial*: `C101_valid`, `C101_ordered`, `C101_ordered4`, `C101_blocks_partial`, `C101_conj_partial`, `C101_type1_partial`, `C101_prefix_partial`, `C101_type4_partial`, `C101_conj4_partial`, `C101_false`, `C101_false_first`. Proved for all queries when the order of the letters stays (C101_ordered, C101_ordered4); conjunctive search of type 4 with the same block size unless the result depends on the heap of the standard library (C101_blocks_partial). In general, proved for types 1, 2 and 3, also two different ones, and prefix search of type 4, unless the query ends with a strict beginning of the first term of one of the collections (C101_false), or, for prefix search of types 2 to 4, the first completion of one of them matches (C101_false_first). Conjunctive search of type 4: for queries that it answers completely (C06). Numbers of terms or completions that are multiples of 17 are excluded (C10).
* **C102** (Different collections have different index files): What is loaded from the file is the index that the constructor builds (C45), so that equal files give one index that represents both collections; each of the structures represents one list only (`Proofs/Fingerprint`), and the terms and the completions as numbers determine the collection. The negations from the part of the input that the builders of the dictionaries do not read. *partial*: `C102_type1_partial`, `C102_type2_partial`, `C102_type3_partial`, `C102_type4_partial`, `C102_false`, `C102_false_completions`. Proved for all pairs of valid collections that can be built and whose numbers of terms (and, for types 2 to 4, of completions) are not multiples of 17. False otherwise: when the number of terms is a multiple of 17, the last 16 terms can be replaced by any others in the same order without changing the index (C102_false, all types); when the number of completions is, the last 16 completions can be replaced by others of the same documents with the same terms (C102_false_completions, types 2 to 4).
* **C103** (The results of a query are the best of those of its continuations): A text that begins with the query is the query or begins with a continuation (C77); the best of what one of several properties admits are the best of the bests, as in C97. The first two negations from those of C80, the third from the skipped documents of C06. *partial*: `C103_prefix_partial`, `C103_type4_partial`, `C103_conj_partial`, `C103_conj4_partial`, `C103_false`, `C103_false_conj`, `C103_false_conj4`. Both searches of all types. Missing because the claim is false there (C103_false, C103_false_conj, C103_false_conj4; C80 for the first completion): queries and continuations that end with a strict beginning of the first term, with types 2 to 4 queries that the first completion matches, the space after an unknown word, and conjunctive queries or continuations that type 4 does not answer completely (C06).

## Axioms of the cited theorems

| Axioms | Theorems |
| --- | --- |
| propext | C37_needs_text, C56_empty, C57_unique, C65_group_lost, C65_tag_lost |
| propext, Quot.sound | C13_empty_completion, C16_set_too_large, C17_unsorted, C19_uint_vec_singleton, C22_resize, C14_unique_ignored, C29_deduplicate, C46_bytes_sum, C46_reverse, C46_leq8_false, C44_q, C40_alone_partial, C48_lines, C48_accepted, C50_hangs, C51_false_universe, C53_queries, C53_all, C53_empty, C54_false, C59_refused, C60_parts2, C60_parts3, C60_parts4, C65_empty_partial, C73_default_terms, C73_default_completions, C86_prefix_same, C86_conj_same, C86_build_same, C86_build_same4, C86_k, C86_k4, C88_reverse, C88_list_guard, C89_k, C89_k4, C90_false_fresh, C90_false_page, C91_names, C93_less, C94_valid |
| propext, Classical.choice, Quot.sound | C08_terms_partial, C09_partial, C09_exact, C09_false, C10_false_terms, C10_false_large, C10_terms_partial, C10_false_completions, C11_partial, C12_partial, C12_exact, C12_false_range, C12_false_prefix, C37_bytes, C37_ids, C13_trie, C13_trie_all, C16_read, C16_access, C16_auto, C16_set, C16_auto_zero, C17_access, C18_iterator, C19_find, C19_next_geq, C19_uint_vec_partial, C20_posting_list, C20_next_geq_meaning, C20_prev_intersects, C21_gamma, C21_delta, C22_bits, C22_unary, C22_scan, C22_scan_end, C22_builder_word, C23_intersection, C24_inverted_index, C26_forward_index, C28_heap, C38_rank_select, C39_excess_rmq, C15_rmq, C14_topk, C14_unique_partial, C14_unique_false, C14_overflow, C14_build_zero, C27_heap_topk, C27_minimal_docids, C27_minimal_zero, C29_parse, C01_exact, C01_prefix1_partial, C01_sound, C01_false, C02_type4, C02_exact, C02_prefix2_partial, C02_sound, C02_false, C03_exact, C03_conj1_partial, C03_sound, C03_false, C04_exact, C04_conj2_partial, C04_sound, C04_false, C05_exact, C05_conj3_partial, C05_sound, C05_false, C07_prefix34, C07_conj, C07_prefix23, C07_prefix_partial, C07_false, C30_any, C30_texts, C30_type4, C31_any, C31_any3, C31_history, C31_type4, C32_partial, C32_false4, C33_any, C33_order, C33_type4, C34_any, C34_fewer, C34_type4, C35_partial, C35_type4_partial, C35_prefix1, C35_prefix2, C35_prefix1_zero, C35_prefix2_zero, C35_conj1, C35_conj2, C35_conj3, C35_conj4, C35_conj4_zero, C35_false_conj4, C35_false1, C35_false2, C35_false_conj1, C35_false_conj2, C35_false_conj3, C35_false_web, C36_partial, C36_type4_partial, C36_room, C36_room4, C36_needed, C36_needed4, C36_false, C36_false4, C41_bijection_partial, C41_false, C42_build_partial, C42_exact, C42_type4, C42_false, C43_preprocessing, C43_stats, C25_blocks, C47_intersection_partial, C47_false, C06_conj4_partial, C06_exact, C06_sound, C06_blocks_unique, C06_duplicates, C06_false_unvisited, C06_false_skipped, C06_library, C46_popcount, C46_byte_counts, C46_select, C46_select_beyond, C46_uleq9, C46_leq8_partial, C46_leq8_exact, C46_msb_lsb, C46_logs, C46_model, C44_json_partial, C44_search_partial, C44_server_partial, C44_false_empty, C44_false_percent, C44_false_double, C44_false_search, C44_k, C44_bad_k, C45_saved1, C45_saved2, C45_saved3, C45_saved4, C45_file, C45_answers1, C45_answers2, C45_answers3, C45_answers4, C45_rebuilt4, C45_answers4_libraries, C40_false, C40_false_ids, C40_safe_partial, C40_torn_partial, C40_torn_ids_partial, C48_files, C48_nodes, C48_index, C48_serves, C49_exact, C49_partial, C49_false, C49_false_short, C49_false_negative, C50_partial, C50_hangs_large, C50_truncated, C51_partial, C51_false_empty, C52_matching, C52_inverse, C54_partition_partial, C55_filter, C55_unseen, C56_map_partial, C56_lists_partial, C56_false, C57_ds2i, C58_counts_partial, C58_type4, C58_false4, C59_blocks, C60_file1, C60_file2, C60_file3, C60_file4, C60_parts1, C60_counts1, C60_counts2, C60_counts3, C60_counts4, C61_build1, C61_build2, C61_build3, C61_build4, C61_server, C62_order, C62_sorted, C62_prefix, C62_decode, C62_accepted, C62_files, C62_index, C62_serves, C62_program, C62_server, C62_build, C62_ascii, C63_partial, C63_false, C64_builds, C64_model, C64_beyond, C65_highlights_partial, C65_empty_not_escaped, C65_parenthesis, C66_prefix1_exact, C66_type2_exact, C66_type3_exact, C66_type4, C66_type4_exact, C66_false, C66_false2, C66_false3, C66_false4, C66_fault, C66_fault4, C66_unsound, C66_prefix1_partial, C67_next_exact, C67_next_partial, C67_false, C68_type2_exact, C68_type3_exact, C68_type4_exact, C68_false2, C68_false3, C68_false4, C68_fault, C68_fault2, C68_partial, C69_type2_exact, C69_type3_exact, C69_type4, C69_type4_exact, C69_false2, C69_false3, C69_false4, C69_fault, C69_fault4, C69_partial, C70_type1, C70_type2, C70_type3, C70_type4, C71_reported, C71_type4, C72_trie_partial, C72_trie_exact, C72_fc_exact, C72_false, C72_false_fc, C72_false_runs, C73_terms_partial, C73_same_partial, C73_false_terms, C73_completions_partial, C73_same_completions_partial, C73_false_completions, C74_terms_exact, C74_terms_partial, C74_false_terms, C74_false_multiple, C74_ids_exact, C74_ids_partial, C74_false_ids, C75_terms_exact, C75_terms_partial, C75_false_terms, C75_completions_exact, C75_completions_partial, C75_false_completions, C75_trie, C75_inverted, C75_inverted_notices, C75_intersections, C75_false_intersections, C75_blocked_exact, C75_blocked_partial, C75_false_blocked, C75_forward_partial, C75_false_forward, C75_forward_notices, C75_documents, C75_minimal_exact, C75_minimal_partial, C75_false_minimal, C75_searches_exact, C75_searches_partial, C75_false_searches, C75_false_searches_none, C75_searches_missing, C75_topk, C76_compact_vector, C76_elias_fano, C76_minima, C76_dictionary, C76_completions, C76_forward, C76_inverted, C76_blocked, C76_trie, C77_type1_partial, C77_type2_partial, C77_sound, C77_false, C78_exact, C78_partial, C78_false, C78_false_long, C79_typed, C79_typed4_partial, C79_false4, C80_type1_partial, C80_prefix_partial, C80_type4_partial, C80_conj_partial, C80_conj4_partial, C80_false, C80_false_first, C80_false_conj, C80_false_conj4, C81_results, C81_files, C81_locate_partial, C81_locate_trie, C81_false, C82_rest, C82_unseen, C82_none, C83_partial, C83_false, C83_wrong, C84_same_partial, C84_false4, C85_terms_partial, C85_false_terms, C85_completions_partial, C85_false_completions, C86_type1_partial, C86_type2_partial, C86_type3_partial, C86_type4_partial, C86_answer1_partial, C86_false, C87_files_partial, C87_again_partial, C87_index_partial, C87_serves_partial, C87_filtered_partial, C87_false_blank, C87_false_space, C88_list, C88_sequence_partial, C88_runs, C88_vector, C88_rank_select, C88_excess_rmq, C88_rmq, C88_matching, C88_excess_guard, C88_rmq_unchecked, C88_false_end, C89_type1_partial, C89_type2_partial, C89_type3_partial, C89_type4_partial, C89_answer1_partial, C89_answer2_partial, C89_answer3_partial, C89_false, C89_lost, C90_example_partial, C90_answers_partial, C90_exact, C90_image_partial, C91_files_partial, C91_exact, C91_apart, C91_false, C92_type1, C92_type2, C92_type3, C92_type4, C92_server, C92_from1_partial, C92_words_partial, C93_rmq, C93_greater, C94_conj_partial, C94_type1_partial, C94_prefix_partial, C94_type4_partial, C94_conj4_partial, C94_false, C94_false_first, C95_order, C95_type4, sameOrder_map, C96_better, C96_type4, C97_unique, C97_prefix_partial, C97_conj_partial, C97_type4_partial, C97_conj4_partial, C97_false, C97_false_first, C98_order_partial, C98_better_partial, C98_false, C98_shown_then_not, C99_exact, C99_partial, C99_false, C100_type1, C100_type2, C100_type3, C100_type4, C100_gaps, C101_valid, C101_ordered, C101_ordered4, C101_blocks_partial, C101_conj_partial, C101_type1_partial, C101_prefix_partial, C101_type4_partial, C101_conj4_partial, C101_false, C101_false_first, C102_type1_partial, C102_type2_partial, C102_type3_partial, C102_type4_partial, C102_false, C102_false_completions, C103_prefix_partial, C103_type4_partial, C103_conj_partial, C103_conj4_partial, C103_false, C103_false_conj, C103_false_conj4 |
