{
 "claims": [
  {
   "property": "C08",
   "status": "partial",
   "theorems": [
    "AC.Props.C08_terms_partial"
   ],
   "note": "Holds for every dictionary whose size is not a multiple of 17 and whose text takes less than 2^32 bytes; otherwise it is false (C10_false_terms, C10_false_large)."
  },
  {
   "property": "C09",
   "status": "partial",
   "theorems": [
    "AC.Props.C09_partial",
    "AC.Props.C09_exact",
    "AC.Props.C09_false"
   ],
   "note": "False when the prefix is a nonempty proper prefix of the first term (C09_false, for all such inputs); C09_exact gives the exact behaviour, C09_partial the claim in all other cases."
  },
  {
   "property": "C10",
   "status": "partial",
   "theorems": [
    "AC.Props.C10_false_terms",
    "AC.Props.C10_false_large",
    "AC.Props.C10_terms_partial",
    "AC.Props.C10_false_completions",
    "AC.Props.C11_partial"
   ],
   "note": "False: with a multiple of 17 strings the last 16 are lost (C10_false_terms, C10_false_completions, for all such inputs); and when every 17th term of a term dictionary together take 2^32 bytes, since positions are 32-bit numbers (C10_false_large, for all such inputs). Proved for all other numbers of strings and texts of less than 2^32 bytes."
  },
  {
   "property": "C11",
   "status": "partial",
   "theorems": [
    "AC.Props.C11_partial"
   ],
   "note": "Holds for every number of completions that is not a multiple of 17; false for multiples of 17 (C10_false_completions)."
  },
  {
   "property": "C12",
   "status": "partial",
   "theorems": [
    "AC.Props.C12_partial",
    "AC.Props.C12_exact",
    "AC.Props.C12_false_range",
    "AC.Props.C12_false_prefix"
   ],
   "note": "False when the first completion matches and is not the prefix followed by the first term of the range (C12_false_range), and the caller's prefix is changed when b=e and nothing matches (C12_false_prefix). C12_exact is the exact behaviour, C12_partial the claim in all other cases."
  },
  {
   "property": "C37",
   "status": "proved",
   "theorems": [
    "AC.Props.C37_bytes",
    "AC.Props.C37_ids",
    "AC.Props.C37_needs_text"
   ],
   "note": "Byte strings without NUL, as stated; id sequences without condition."
  },
  {
   "property": "C13",
   "status": "proved",
   "theorems": [
    "AC.Props.C13_trie",
    "AC.Props.C13_trie_all",
    "AC.Props.C13_empty_completion"
   ],
   "note": "prefix with positive ids, no empty completion; C13_empty_completion shows what happens with one. C13_trie_all also covers ranges that begin with the terminator."
  },
  {
   "property": "C16",
   "status": "proved",
   "theorems": [
    "AC.Props.C16_read",
    "AC.Props.C16_access",
    "AC.Props.C16_auto",
    "AC.Props.C16_set",
    "AC.Props.C16_auto_zero",
    "AC.Props.C16_set_too_large"
   ],
   "note": "all widths 1..64 (unaligned access 1..57); C16_auto_zero: what the automatic width does on zeros (throws)"
  },
  {
   "property": "C17",
   "status": "proved",
   "theorems": [
    "AC.Props.C17_access",
    "AC.Props.C17_unsorted"
   ],
   "note": "every non-empty non-decreasing list; C17_unsorted documents the out-of-bounds write on unsorted input"
  },
  {
   "property": "C18",
   "status": "proved",
   "theorems": [
    "AC.Props.C18_iterator"
   ],
   "note": "operator* and operator++ from any position"
  },
  {
   "property": "C19",
   "status": "partial",
   "theorems": [
    "AC.Props.C19_find",
    "AC.Props.C19_next_geq",
    "AC.Props.C19_uint_vec_partial",
    "AC.Props.C19_uint_vec_singleton"
   ],
   "note": "proved for the sequence type every index uses; for uint_vec the range search is wrong for a single absent id (C19_uint_vec_singleton) and proved otherwise"
  },
  {
   "property": "C20",
   "status": "proved",
   "theorems": [
    "AC.Props.C20_posting_list",
    "AC.Props.C20_next_geq_meaning",
    "AC.Props.C20_prev_intersects"
   ],
   "note": "any history of next/access/next_geq/next_geq_by_scan calls on a list written anywhere in a bit vector; sizes up to 2^56"
  },
  {
   "property": "C21",
   "status": "proved",
   "theorems": [
    "AC.Props.C21_gamma",
    "AC.Props.C21_delta"
   ],
   "note": "For every builder state, every list of numbers below 2^64-1, and whatever bits follow."
  },
  {
   "property": "C22",
   "status": "proved",
   "theorems": [
    "AC.Props.C22_bits",
    "AC.Props.C22_unary",
    "AC.Props.C22_scan",
    "AC.Props.C22_scan_end",
    "AC.Props.C22_builder_word",
    "AC.Props.C22_resize"
   ],
   "note": "Refinement of lists of bits by any sequence of builder calls; all reads; scanning with the unary iterator (any sequence of calls) and predecessor1; C22_scan_end: what next() does after the last one."
  },
  {
   "property": "C23",
   "status": "proved",
   "theorems": [
    "AC.Props.C23_intersection"
   ],
   "note": "one or more terms, repetitions allowed, for every library sort"
  },
  {
   "property": "C24",
   "status": "proved",
   "theorems": [
    "AC.Props.C24_inverted_index"
   ],
   "note": "any history of calls on the iterator; fewer than 2^32 documents and 2^54 postings"
  },
  {
   "property": "C26",
   "status": "proved",
   "theorems": [
    "AC.Props.C26_forward_index"
   ],
   "note": "every list of term lists with ids at most the number of terms"
  },
  {
   "property": "C28",
   "status": "proved",
   "theorems": [
    "AC.Props.C28_heap"
   ],
   "note": "for every admissible standard library; every sequence of push, pop, rebuild, clear, change of top followed by heapify, and change of top followed by pop and heapify"
  },
  {
   "property": "C38",
   "status": "proved",
   "theorems": [
    "AC.Props.C38_rank_select"
   ],
   "note": "every list of fewer than 2^63 bits, with or without hint tables; util::popcount and select_in_word by their meaning (see C46)"
  },
  {
   "property": "C39",
   "status": "proved",
   "theorems": [
    "AC.Props.C39_excess_rmq"
   ],
   "note": "every non-empty sequence of fewer than 2^31 bits (the depth limit documented in the code), with or without hint tables"
  },
  {
   "property": "C15",
   "status": "proved",
   "theorems": [
    "AC.Props.C15_rmq"
   ],
   "note": "every list of fewer than 2^30-1 values (excess is a 32-bit number in the code)"
  },
  {
   "property": "C14",
   "status": "partial",
   "theorems": [
    "AC.Props.C14_topk",
    "AC.Props.C14_unique_partial",
    "AC.Props.C14_unique_ignored",
    "AC.Props.C14_unique_false",
    "AC.Props.C14_overflow",
    "AC.Props.C14_build_zero"
   ],
   "note": "The k smallest with multiplicity: proved for every list, range and k. With unique the claim is false for ranges of at most k elements (the parameter is ignored); proved for the others. k = 0 or k larger than the buffer overflows it."
  },
  {
   "property": "C27",
   "status": "proved",
   "theorems": [
    "AC.Props.C27_heap_topk",
    "AC.Props.C27_minimal_docids",
    "AC.Props.C27_minimal_zero"
   ],
   "note": "Both implementations. The minimal-document structure cannot be built when document 0 contains every term."
  },
  {
   "property": "C29",
   "status": "proved",
   "theorems": [
    "AC.Props.C29_parse",
    "AC.Props.C29_deduplicate"
   ],
   "note": "Tokenisation, lookup of the tokens in the dictionary and deduplication of the ids, for every query text without NUL bytes."
  },
  {
   "property": "C01",
   "status": "partial",
   "theorems": [
    "AC.Props.C01_exact",
    "AC.Props.C01_prefix1_partial",
    "AC.Props.C01_sound",
    "AC.Props.C01_false"
   ],
   "note": "C01_exact gives the exact result for every collection that type 1 can be built from. The claim is false for queries that end with a strict beginning of the first term (C01_false), proved for all others (numbers of terms that are multiples of 17 excluded, see C10)."
  },
  {
   "property": "C02",
   "status": "partial",
   "theorems": [
    "AC.Props.C02_type4",
    "AC.Props.C02_exact",
    "AC.Props.C02_prefix2_partial",
    "AC.Props.C02_sound",
    "AC.Props.C02_false"
   ],
   "note": "Exact result for all collections that can be built. False for queries that the first completion matches (C02_false)."
  },
  {
   "property": "C03",
   "status": "partial",
   "theorems": [
    "AC.Props.C03_exact",
    "AC.Props.C03_conj1_partial",
    "AC.Props.C03_sound",
    "AC.Props.C03_false"
   ],
   "note": "Exact result for all collections that can be built; false for queries that end with a strict beginning of the first term (C03_false), proved for the others."
  },
  {
   "property": "C04",
   "status": "partial",
   "theorems": [
    "AC.Props.C04_exact",
    "AC.Props.C04_conj2_partial",
    "AC.Props.C04_sound",
    "AC.Props.C04_false"
   ],
   "note": "As C03."
  },
  {
   "property": "C05",
   "status": "partial",
   "theorems": [
    "AC.Props.C05_exact",
    "AC.Props.C05_conj3_partial",
    "AC.Props.C05_sound",
    "AC.Props.C05_false"
   ],
   "note": "As C03."
  },
  {
   "property": "C07",
   "status": "partial",
   "theorems": [
    "AC.Props.C07_prefix34",
    "AC.Props.C07_conj",
    "AC.Props.C07_prefix23",
    "AC.Props.C07_prefix_partial",
    "AC.Props.C07_false"
   ],
   "note": "Conjunctive search: same results with types 1, 2 and 3, proved. Prefix search: types 2 and 3 agree; type 1 differs from them for some queries that the first completion matches (C07_false) and agrees with them for all others."
  },
  {
   "property": "C30",
   "status": "proved",
   "theorems": [
    "AC.Props.C30_any",
    "AC.Props.C30_texts",
    "AC.Props.C30_type4"
   ],
   "note": "All types, both searches, any state reached by searches; every valid collection from which the index can be built (document ids below 2^32-2 for type 4), also with multiples of 17."
  },
  {
   "property": "C31",
   "status": "proved",
   "theorems": [
    "AC.Props.C31_any",
    "AC.Props.C31_any3",
    "AC.Props.C31_history",
    "AC.Props.C31_type4"
   ],
   "note": "Every valid collection from which the index can be built (document ids below 2^32-2 for type 4), also with multiples of 17. Types 1, 2 and 3: both searches, any two histories of searches and any two standard libraries. Type 4: the same with one standard library."
  },
  {
   "property": "C32",
   "status": "partial",
   "theorems": [
    "AC.Props.C32_partial",
    "AC.Props.C32_false4"
   ],
   "note": "Proved for types 1, 2 and 3, also two different ones. False for type 4 (C32_false4): conjunctive search misses the first document of a block."
  },
  {
   "property": "C33",
   "status": "proved",
   "theorems": [
    "AC.Props.C33_any",
    "AC.Props.C33_order",
    "AC.Props.C33_type4"
   ],
   "note": "All types and every valid collection from which the index can be built (document ids below 2^32-2 for type 4), also with multiples of 17; any two texts with the same set of complete terms and the same last term. Types 1, 2 and 3: also with two different standard libraries."
  },
  {
   "property": "C34",
   "status": "proved",
   "theorems": [
    "AC.Props.C34_any",
    "AC.Props.C34_fewer",
    "AC.Props.C34_type4"
   ],
   "note": "All types, both searches; every valid collection from which the index can be built (document ids below 2^32-2 for type 4), also with multiples of 17. Types 1, 2 and 3: also with two different standard libraries."
  },
  {
   "property": "C35",
   "status": "partial",
   "theorems": [
    "AC.Props.C35_partial",
    "AC.Props.C35_type4_partial",
    "AC.Props.C35_prefix1",
    "AC.Props.C35_prefix2",
    "AC.Props.C35_prefix1_zero",
    "AC.Props.C35_prefix2_zero",
    "AC.Props.C35_conj1",
    "AC.Props.C35_conj2",
    "AC.Props.C35_conj3",
    "AC.Props.C35_conj4",
    "AC.Props.C35_conj4_zero",
    "AC.Props.C35_false_conj4",
    "AC.Props.C35_false1",
    "AC.Props.C35_false2",
    "AC.Props.C35_false_conj1",
    "AC.Props.C35_false_conj2",
    "AC.Props.C35_false_conj3",
    "AC.Props.C35_false_web"
   ],
   "note": "Proved for k from 1 to 15. False for k = 0 or k > 15 whenever more than 15 completions match, for both searches and all types (type 2 also fails with 15 matches followed by a completion with the complete terms; type 4 counts a completion once per block); with at most 15 matches all of them are returned, for every k. Conjunctive search of type 4 with k = 0 returns nothing or everything (C35_conj4_zero)."
  },
  {
   "property": "C36",
   "status": "partial",
   "theorems": [
    "AC.Props.C36_partial",
    "AC.Props.C36_type4_partial",
    "AC.Props.C36_room",
    "AC.Props.C36_room4",
    "AC.Props.C36_needed",
    "AC.Props.C36_needed4",
    "AC.Props.C36_false",
    "AC.Props.C36_false4"
   ],
   "note": "Proved for k up to 8 and for collections with short texts, all types; false for k = 15 (C36_false for types 1, 2 and 3, C36_false4 for type 4 with every block size; both searches)."
  },
  {
   "property": "C41",
   "status": "partial",
   "theorems": [
    "AC.Props.C41_bijection_partial",
    "AC.Props.C41_false"
   ],
   "note": "Proved unless the number of completions is a multiple of 17; false for all such collections."
  },
  {
   "property": "C42",
   "status": "partial",
   "theorems": [
    "AC.Props.C42_build_partial",
    "AC.Props.C42_exact",
    "AC.Props.C42_type4",
    "AC.Props.C42_false"
   ],
   "note": "Exact conditions for all types for every valid collection."
  },
  {
   "property": "C43",
   "status": "proved",
   "theorems": [
    "AC.Props.C43_preprocessing",
    "AC.Props.C43_stats"
   ],
   "note": "Every non-empty collection with distinct document ids."
  },
  {
   "property": "C25",
   "status": "proved",
   "theorems": [
    "AC.Props.C25_blocks"
   ],
   "note": "for every block size m (the product num_docs * c of floating-point numbers is C59); at most 2^32-2 postings"
  },
  {
   "property": "C47",
   "status": "partial",
   "theorems": [
    "AC.Props.C47_intersection_partial",
    "AC.Props.C47_false"
   ],
   "note": "false as stated: when the terms lie in one block its first document is skipped; exact enumeration proved"
  },
  {
   "property": "C06",
   "status": "partial",
   "theorems": [
    "AC.Props.C06_conj4_partial",
    "AC.Props.C06_exact",
    "AC.Props.C06_sound",
    "AC.Props.C06_blocks_unique",
    "AC.Props.C06_duplicates",
    "AC.Props.C06_false_unvisited",
    "AC.Props.C06_false_skipped",
    "AC.Props.C06_library"
   ],
   "note": "Sound for every query. Complete and without duplicates when the terms that complete the last one lie in one block and no match is the first document of a block with all the complete terms. False in general: duplicates, missing results (general theorems). When complete terms are given and a document has other terms of another block that is looked at, whether it is returned depends on the standard library (C06_library). Document ids below 2^32-2."
  },
  {
   "property": "C46",
   "status": "partial",
   "theorems": [
    "AC.Props.C46_popcount",
    "AC.Props.C46_byte_counts",
    "AC.Props.C46_bytes_sum",
    "AC.Props.C46_select",
    "AC.Props.C46_select_beyond",
    "AC.Props.C46_reverse",
    "AC.Props.C46_uleq9",
    "AC.Props.C46_leq8_partial",
    "AC.Props.C46_leq8_exact",
    "AC.Props.C46_leq8_false",
    "AC.Props.C46_msb_lsb",
    "AC.Props.C46_logs",
    "AC.Props.C46_model"
   ],
   "note": "Every word. Only leq_step_8 is not what its name says: it is the comparison of signed bytes when their difference is a signed byte (exact meaning proved, false otherwise). The compiler builtins are taken by their meaning."
  },
  {
   "property": "C44",
   "status": "partial",
   "theorems": [
    "AC.Props.C44_json_partial",
    "AC.Props.C44_search_partial",
    "AC.Props.C44_server_partial",
    "AC.Props.C44_false_empty",
    "AC.Props.C44_false_percent",
    "AC.Props.C44_false_double",
    "AC.Props.C44_false_search",
    "AC.Props.C44_k",
    "AC.Props.C44_bad_k",
    "AC.Props.C44_q"
   ],
   "note": "False of the code as stated: the body for an empty result is not JSON, and the body is passed as a printf format (a percent sign in a text is undefined, two are sent as one); all proved. Otherwise every list of texts of any bytes is sent as JSON and decodes to exactly these texts. A query of 128 bytes or more is answered as the empty query; k is taken modulo 2^32. The mongoose library is not modelled, except for the documented result of mg_get_http_var."
  },
  {
   "property": "C45",
   "status": "proved",
   "theorems": [
    "AC.Props.C45_saved1",
    "AC.Props.C45_saved2",
    "AC.Props.C45_saved3",
    "AC.Props.C45_saved4",
    "AC.Props.C45_file",
    "AC.Props.C45_answers1",
    "AC.Props.C45_answers2",
    "AC.Props.C45_answers3",
    "AC.Props.C45_answers4",
    "AC.Props.C45_rebuilt4",
    "AC.Props.C45_answers4_libraries"
   ],
   "note": "every member that the queries read is visited, in the same order when saving and loading: for every input and every contents of memory the loaded index of types 1-4 is the one the constructor would build. Hence the same answers to all queries, for all types. For type 4 both indexes use the same standard library, whose heap functions look at elements only through the comparison (ByKeys); with two libraries the prefix queries and the determined conjunctive queries (Settled) have the same answers, others need not (C06_library). The file is a list of bytes and does not depend on memory; saving the loaded index gives the same file. The encoding of numbers and vectors by essentials (not in the repository) is taken as little-endian memory contents and size-prefixed vectors"
  },
  {
   "property": "C40",
   "status": "partial",
   "theorems": [
    "AC.Props.C40_false",
    "AC.Props.C40_false_ids",
    "AC.Props.C40_alone_partial",
    "AC.Props.C40_safe_partial",
    "AC.Props.C40_torn_partial",
    "AC.Props.C40_torn_ids_partial"
   ],
   "note": "the property is false: for every dictionary, two threads that look for two terms that are not headers and not prefixes of each other have a schedule (of atomic copies and comparisons) with a wrong answer, because of the static array; same for the dictionary of completions. What holds: a lookup that is not interleaved is right whatever the array contains, and under every schedule of any number of threads, with atomic steps or not, no access is out of bounds and the answer is an id of the right bucket or 'not found'"
  },
  {
   "property": "C48",
   "status": "proved",
   "theorems": [
    "AC.Props.C48_lines",
    "AC.Props.C48_accepted",
    "AC.Props.C48_files",
    "AC.Props.C48_nodes",
    "AC.Props.C48_index",
    "AC.Props.C48_serves"
   ],
   "note": "every text accepted by the scripts (document ids written with decimal digits; whitespace of ASCII) whose collection is valid"
  },
  {
   "property": "C49",
   "status": "partial",
   "theorems": [
    "AC.Props.C49_exact",
    "AC.Props.C49_partial",
    "AC.Props.C49_false",
    "AC.Props.C49_false_short",
    "AC.Props.C49_false_negative"
   ],
   "note": "exact outcome for every file of numerals; false of the code: a missing last number is read as 0, and files with at most four numbers (even the empty file) are accepted; negative numbers are accepted as large ones"
  },
  {
   "property": "C50",
   "status": "partial",
   "theorems": [
    "AC.Props.C50_partial",
    "AC.Props.C50_hangs",
    "AC.Props.C50_hangs_large",
    "AC.Props.C50_truncated"
   ],
   "note": "false of the code: a document id that is not a number of 32 bits makes the reader loop forever, and missing posting lists make the construction read the front of an empty list; the files the scripts write are fine"
  },
  {
   "property": "C51",
   "status": "partial",
   "theorems": [
    "AC.Props.C51_partial",
    "AC.Props.C51_false_empty",
    "AC.Props.C51_false_universe"
   ],
   "note": "for every non-empty increasing list whose universe fits in the integer type, every history of calls; false of the code for the empty list (next_geq reads far outside) and for a universe that does not fit (the end is reported as 0)"
  },
  {
   "property": "C52",
   "status": "proved",
   "theorems": [
    "AC.Props.C52_matching",
    "AC.Props.C52_inverse"
   ],
   "note": "every sequence of fewer than 2^31 parentheses, balanced or not; in a balanced one find_close and find_open are inverse to each other on all parentheses. A shift by 64, masked in the source, is read as giving the masked value"
  },
  {
   "property": "C53",
   "status": "proved",
   "theorems": [
    "AC.Props.C53_queries",
    "AC.Props.C53_all",
    "AC.Props.C53_empty"
   ],
   "note": "Non-empty lines shorter than 2^24-4 bytes; an empty line makes the program read outside of its string (C53_empty). The single-precision products are modelled exactly, with rounding to nearest even"
  },
  {
   "property": "C54",
   "status": "partial",
   "theorems": [
    "AC.Props.C54_partition_partial",
    "AC.Props.C54_false"
   ],
   "note": "Every collection whose lines all have terms, every shuffle. False of the script otherwise: lines without terms become empty queries in the files for five and six terms"
  },
  {
   "property": "C55",
   "status": "proved",
   "theorems": [
    "AC.Props.C55_filter",
    "AC.Props.C55_unseen"
   ],
   "note": "Lines without the control bytes 28-31, which the two versions of Python treat differently"
  },
  {
   "property": "C56",
   "status": "partial",
   "theorems": [
    "AC.Props.C56_map_partial",
    "AC.Props.C56_lists_partial",
    "AC.Props.C56_false",
    "AC.Props.C56_empty"
   ],
   "note": "False for every dictionary whose number of terms is a multiple of 17 (the last 16 terms are printed as unknown) and for inputs with an empty line (reads the front of an empty vector). The numbers lead to the posting lists of C57 (C56_lists_partial)"
  },
  {
   "property": "C57",
   "status": "proved",
   "theorems": [
    "AC.Props.C57_ds2i",
    "AC.Props.C57_unique"
   ],
   "note": "Every text that the scripts accept whose collection is valid"
  },
  {
   "property": "C58",
   "status": "partial",
   "theorems": [
    "AC.Props.C58_counts_partial",
    "AC.Props.C58_type4",
    "AC.Props.C58_false4"
   ],
   "note": "Types 1, 2 and 3 as stated (even with two different types and standard libraries), for k from 1 to 15, unless the results overrun the pool (C36). False for type 4: repeated results are counted; the exact count is proved (C58_type4)"
  },
  {
   "property": "C59",
   "status": "proved",
   "theorems": [
    "AC.Props.C59_blocks",
    "AC.Props.C59_refused"
   ],
   "note": "Every non-negative float; negative numbers, infinities and NaN (all refused by the same test) are not represented"
  },
  {
   "property": "C60",
   "status": "proved",
   "theorems": [
    "AC.Props.C60_file1",
    "AC.Props.C60_file2",
    "AC.Props.C60_file3",
    "AC.Props.C60_file4",
    "AC.Props.C60_parts1",
    "AC.Props.C60_parts2",
    "AC.Props.C60_parts3",
    "AC.Props.C60_parts4",
    "AC.Props.C60_counts1",
    "AC.Props.C60_counts2",
    "AC.Props.C60_counts3",
    "AC.Props.C60_counts4"
   ],
   "note": "Numbers of bytes and counts, not the text printed nor the floating-point quotients; essentials::pod_bytes and vec_bytes are taken by their meaning"
  },
  {
   "property": "C61",
   "status": "proved",
   "theorems": [
    "AC.Props.C61_build1",
    "AC.Props.C61_build2",
    "AC.Props.C61_build3",
    "AC.Props.C61_build4",
    "AC.Props.C61_server"
   ],
   "note": "Where the response is undefined (percent signs, C44; results that overrun the pool, C36) it is so in every run; a k of 0 or of more than 15 is excluded. The mongoose library is not modelled, except for mg_get_http_var"
  },
  {
   "property": "C62",
   "status": "proved",
   "theorems": [
    "AC.Props.C62_order",
    "AC.Props.C62_sorted",
    "AC.Props.C62_prefix",
    "AC.Props.C62_decode",
    "AC.Props.C62_accepted",
    "AC.Props.C62_files",
    "AC.Props.C62_index",
    "AC.Props.C62_serves",
    "AC.Props.C62_program",
    "AC.Props.C62_server",
    "AC.Props.C62_build",
    "AC.Props.C62_ascii"
   ],
   "note": "The encoding of the scripts' files is taken to be UTF-8; a byte order mark is a character like others. The limits of a valid collection are in bytes (C63). Digits outside of ASCII are not taken for document ids"
  },
  {
   "property": "C63",
   "status": "partial",
   "theorems": [
    "AC.Props.C63_partial",
    "AC.Props.C63_false"
   ],
   "note": "False of the code: the scripts count characters, the arrays are sized in bytes. For every text with at most 16 terms whose first term has more than 256 bytes, no completion having more than 128 characters, the index is built and every search for a word writes past the static array. Proved for ASCII; texts over 128 characters are always refused"
  },
  {
   "property": "C64",
   "status": "proved",
   "theorems": [
    "AC.Props.C64_builds",
    "AC.Props.C64_model",
    "AC.Props.C64_beyond"
   ],
   "note": "pdep, tzcnt, popcnt and bswap are modelled by what the manuals say they compute. Beyond the asserted range the configurations differ (C64_beyond); the rest of the model selects within the range only where the structures are valid."
  },
  {
   "property": "C65",
   "status": "partial",
   "theorems": [
    "AC.Props.C65_highlights_partial",
    "AC.Props.C65_empty_partial",
    "AC.Props.C65_empty_not_escaped",
    "AC.Props.C65_parenthesis",
    "AC.Props.C65_group_lost",
    "AC.Props.C65_tag_lost"
   ],
   "note": "False of the code for an empty field and texts with '<' (C65_empty_not_escaped), for a parenthesis typed (C65_parenthesis, C65_group_lost), and for texts with the tag itself (C65_tag_lost). Proved for fields without the characters special to regular expressions and texts without these tags, and for an empty field and texts without '<' and '&'. Fields with other operators of regular expressions are not modelled."
  },
  {
   "property": "C66",
   "status": "partial",
   "theorems": [
    "AC.Props.C66_prefix1_exact",
    "AC.Props.C66_type2_exact",
    "AC.Props.C66_type3_exact",
    "AC.Props.C66_type4",
    "AC.Props.C66_type4_exact",
    "AC.Props.C66_false",
    "AC.Props.C66_false2",
    "AC.Props.C66_false3",
    "AC.Props.C66_false4",
    "AC.Props.C66_fault",
    "AC.Props.C66_fault4",
    "AC.Props.C66_unsound",
    "AC.Props.C66_prefix1_partial"
   ],
   "note": "False of the code: for every valid collection whose number of terms is a multiple of 17, completions with one of the last 16 terms are never shown; searches that would show one read out of bounds (C66_fault: the empty query), and conjunctive search ignores such a term of the query (C66_unsound). The exact outcome of every search is proved (C66_prefix1_exact, C66_type2_exact, C66_type3_exact, C66_type4_exact; for conjunctive search with type 4 in terms of its blocks, as in C06)."
  },
  {
   "property": "C67",
   "status": "partial",
   "theorems": [
    "AC.Props.C67_next_exact",
    "AC.Props.C67_next_partial",
    "AC.Props.C67_false"
   ],
   "note": "False of the code for every sequence: the call of next() that should return the last element looks for the one of the following element and reads outside of the bitmap. C67_next_exact says exactly what any number of calls does from any position; C67_next_partial is the part of the claim that holds, missing the last element. Nothing in the repository calls next()."
  },
  {
   "property": "C68",
   "status": "partial",
   "theorems": [
    "AC.Props.C68_type2_exact",
    "AC.Props.C68_type3_exact",
    "AC.Props.C68_type4_exact",
    "AC.Props.C68_false2",
    "AC.Props.C68_false3",
    "AC.Props.C68_false4",
    "AC.Props.C68_fault",
    "AC.Props.C68_fault2",
    "AC.Props.C68_partial"
   ],
   "note": "False of the code: for every valid collection whose number of completions is a multiple of 17 (and whose number of terms is not, see C66), the last 16 completions are never shown with types 2, 3 and 4. Prefix search leaves them out; conjunctive search reads out of bounds when one of its results is lost (C68_fault), with type 2 already when a lost completion has the complete terms of the query (C68_fault2). The exact outcome of every search is proved. C68_partial: the searches are right when no matching completion is lost."
  },
  {
   "property": "C69",
   "status": "partial",
   "theorems": [
    "AC.Props.C69_type2_exact",
    "AC.Props.C69_type3_exact",
    "AC.Props.C69_type4",
    "AC.Props.C69_type4_exact",
    "AC.Props.C69_false2",
    "AC.Props.C69_false3",
    "AC.Props.C69_false4",
    "AC.Props.C69_fault",
    "AC.Props.C69_fault4",
    "AC.Props.C69_partial"
   ],
   "note": "False of the code: for every valid collection whose numbers of terms and of completions are multiples of 17, the last 16 completions and all completions with one of the last 16 terms are never shown with types 2, 3 and 4, and searches that would show one read out of bounds. The exact outcome of every search is proved (for conjunctive search of type 4 in terms of its blocks, as in C06). C69_partial: the searches are right when no matching completion is lost."
  },
  {
   "property": "C70",
   "status": "proved",
   "theorems": [
    "AC.Props.C70_type1",
    "AC.Props.C70_type2",
    "AC.Props.C70_type3",
    "AC.Props.C70_type4"
   ],
   "note": "For every valid collection for which the index can be built, with no condition on the numbers of terms and of completions. Type 4 needs document ids below 2^32 - 2 (see C25, C26); its conjunctive search may repeat results (C06_false), so the order is left out there."
  },
  {
   "property": "C71",
   "status": "proved",
   "theorems": [
    "AC.Props.C71_reported",
    "AC.Props.C71_type4"
   ],
   "note": "Times are not modelled."
  },
  {
   "property": "C72",
   "status": "partial",
   "theorems": [
    "AC.Props.C72_trie_partial",
    "AC.Props.C72_trie_exact",
    "AC.Props.C72_fc_exact",
    "AC.Props.C72_false",
    "AC.Props.C72_false_fc",
    "AC.Props.C72_false_runs"
   ],
   "note": "The claim is false: the program forgets to add 1 to the range of the dictionary, so it looks up the terms before those of the query (C72_false); with the type fc, a lookup without result changes the prefix for the next run (C72_false_fc), and then the runs may find different completions (C72_false_runs). C72_trie_exact and C72_fc_exact say exactly what every run computes for every query; C72_trie_partial is the simpler form for queries of known terms whose last term is not that of the first term of the dictionary."
  },
  {
   "property": "C73",
   "status": "partial",
   "theorems": [
    "AC.Props.C73_terms_partial",
    "AC.Props.C73_same_partial",
    "AC.Props.C73_default_terms",
    "AC.Props.C73_false_terms",
    "AC.Props.C73_completions_partial",
    "AC.Props.C73_same_completions_partial",
    "AC.Props.C73_default_completions",
    "AC.Props.C73_false_completions"
   ],
   "note": "The claim is false for every bucket size: when the number of strings is a multiple of the bucket size plus 1, the last strings are lost (C73_false_terms, C73_false_completions). Missing in the partial theorems: these numbers. The functions of the indexes are those with bucket size 16 (C73_default_terms, C73_default_completions)."
  },
  {
   "property": "C74",
   "status": "partial",
   "theorems": [
    "AC.Props.C74_terms_exact",
    "AC.Props.C74_terms_partial",
    "AC.Props.C74_false_terms",
    "AC.Props.C74_false_multiple",
    "AC.Props.C74_ids_exact",
    "AC.Props.C74_ids_partial",
    "AC.Props.C74_false_ids"
   ],
   "note": "The claim is false: a line that is not a term makes the program extract the id of \"not found\" (C74_false_terms); numbers of strings that are multiples of 5, 9, 17, 33, 65, 129 or 257 lose strings (C74_false_multiple); asking for more completions than there are reads past the end (C74_false_ids). What happens is proved exactly for each bucket size (C74_terms_exact, C74_ids_exact); missing in the partial theorems: these inputs. Times are not modelled."
  },
  {
   "property": "C75",
   "status": "partial",
   "theorems": [
    "AC.Props.C75_terms_exact",
    "AC.Props.C75_terms_partial",
    "AC.Props.C75_false_terms",
    "AC.Props.C75_completions_exact",
    "AC.Props.C75_completions_partial",
    "AC.Props.C75_false_completions",
    "AC.Props.C75_trie",
    "AC.Props.C75_inverted",
    "AC.Props.C75_inverted_notices",
    "AC.Props.C75_intersections",
    "AC.Props.C75_false_intersections",
    "AC.Props.C75_blocked_exact",
    "AC.Props.C75_blocked_partial",
    "AC.Props.C75_false_blocked",
    "AC.Props.C75_forward_partial",
    "AC.Props.C75_false_forward",
    "AC.Props.C75_forward_notices",
    "AC.Props.C75_documents",
    "AC.Props.C75_minimal_exact",
    "AC.Props.C75_minimal_partial",
    "AC.Props.C75_false_minimal",
    "AC.Props.C75_searches_exact",
    "AC.Props.C75_searches_partial",
    "AC.Props.C75_false_searches",
    "AC.Props.C75_false_searches_none",
    "AC.Props.C75_searches_missing",
    "AC.Props.C75_topk"
   ],
   "note": "The claim is false of six of the ten tests, on valid collections (the C75_false theorems); when each of them passes is proved exactly or with the exceptions named in the partial theorems. The tests of the trie, of the inverted lists and of the documents pass always. The tests of the lists accept no other lists (C75_inverted_notices), that of the forward index compares only as many lists as there are terms (C75_forward_notices). When the test of locate_prefix passes is C75_searches_exact, for queries of known terms; it accepts everything when the file of the queries is missing (C75_searches_missing). The test of the searches has no checks (C75_topk)."
  },
  {
   "property": "C76",
   "status": "proved",
   "theorems": [
    "AC.Props.C76_compact_vector",
    "AC.Props.C76_elias_fano",
    "AC.Props.C76_minima",
    "AC.Props.C76_dictionary",
    "AC.Props.C76_completions",
    "AC.Props.C76_forward",
    "AC.Props.C76_inverted",
    "AC.Props.C76_blocked",
    "AC.Props.C76_trie"
   ],
   "note": "Exact numbers of bytes, except for the minima (between 2 and 2.78 bits each) and for the positions that the darray stores for sparse blocks (one for every 64 high bits at most). Numbers of strings that are multiples of 17 are excluded (see C10). For the trie, the largest number of each sequence is bounded and not given exactly."
  },
  {
   "property": "C77",
   "status": "partial",
   "theorems": [
    "AC.Props.C77_type1_partial",
    "AC.Props.C77_type2_partial",
    "AC.Props.C77_sound",
    "AC.Props.C77_false"
   ],
   "note": "For every query, whatever its spaces: what is missing is what is missing from C01 and C02. That all results begin with the text of the query is proved without exceptions (C77_sound); C77_false: completions whose text begins with the query are not returned."
  },
  {
   "property": "C78",
   "status": "partial",
   "theorems": [
    "AC.Props.C78_exact",
    "AC.Props.C78_partial",
    "AC.Props.C78_false",
    "AC.Props.C78_false_long"
   ],
   "note": "C78_exact tells which queries are compared and when the test passes. The script writes queries.length=7+, the test opens queries.length=7 and returns: no query of seven terms or more, and no percentage but 0, is ever compared (C78_exact, C78_false_long). C78_false: the test fails on a correct build of many collections; C78_partial: it passes if the first completion is one character."
  },
  {
   "property": "C79",
   "status": "partial",
   "theorems": [
    "AC.Props.C79_typed",
    "AC.Props.C79_typed4_partial",
    "AC.Props.C79_false4"
   ],
   "note": "Proved for types 1, 2 and 3 and both searches, and for prefix search of type 4. False for conjunctive search of type 4: the best completion is not shown when its document is the first of a block that has all its terms but the last."
  },
  {
   "property": "C80",
   "status": "partial",
   "theorems": [
    "AC.Props.C80_type1_partial",
    "AC.Props.C80_prefix_partial",
    "AC.Props.C80_type4_partial",
    "AC.Props.C80_conj_partial",
    "AC.Props.C80_conj4_partial",
    "AC.Props.C80_false",
    "AC.Props.C80_false_first",
    "AC.Props.C80_false_conj",
    "AC.Props.C80_false_conj4"
   ],
   "note": "Prefix search: proved for queries that do not end with a strict beginning of the first term of the dictionary; with types 2 to 4 the first completion may show up later. Conjunctive search, types 1 to 3: proved when besides the complete terms typed are known. The negations show that each of the conditions is needed. Conjunctive search, type 4: proved also when the shorter query is one that type 4 answers completely (C06); false for those that match the first document of a block (C80_false_conj4)."
  },
  {
   "property": "C81",
   "status": "partial",
   "theorems": [
    "AC.Props.C81_results",
    "AC.Props.C81_files",
    "AC.Props.C81_locate_partial",
    "AC.Props.C81_locate_trie",
    "AC.Props.C81_false"
   ],
   "note": "Proved for the benchmarks of the searches (C81_results, whose records are described by C71) and for that of the effectiveness (C81_files, for any benchmark). False for the benchmark of locate_prefix: its script asks for files of seven, and of eight or more terms, which are not written, so that no query of seven terms or more is measured (C81_false); C81_locate_partial and C81_locate_trie say what is measured."
  },
  {
   "property": "C82",
   "status": "proved",
   "theorems": [
    "AC.Props.C82_rest",
    "AC.Props.C82_unseen",
    "AC.Props.C82_none"
   ],
   "note": "C82_rest: the files are those of the completions that are not taken, so that the other properties hold for them. C82_none: when all completions are taken no index can be built; whether one can be built from the rest otherwise is C42. The texts are in ASCII, without carriage returns and bytes 28 to 31, on which the two versions of Python agree."
  },
  {
   "property": "C83",
   "status": "partial",
   "theorems": [
    "AC.Props.C83_partial",
    "AC.Props.C83_false",
    "AC.Props.C83_wrong"
   ],
   "note": "The claim is false: get_bits(64) leaves the buffer as it is, and a call of skip_zeros after it looks at the bits again that have been read (C83_false, C83_wrong). Proved for all other sequences of calls. The library makes no such sequence of calls itself (C21)."
  },
  {
   "property": "C84",
   "status": "partial",
   "theorems": [
    "AC.Props.C84_same_partial",
    "AC.Props.C84_false4"
   ],
   "note": "Proved for types 1, 2 and 3. False for type 4, where prefix search can return more results than conjunctive search (C84_false4). The assertions inside the searches are not part of the claim; those of the dictionaries are in C85."
  },
  {
   "property": "C85",
   "status": "partial",
   "theorems": [
    "AC.Props.C85_terms_partial",
    "AC.Props.C85_false_terms",
    "AC.Props.C85_completions_partial",
    "AC.Props.C85_false_completions"
   ],
   "note": "The claim is false for a dictionary whose size is a multiple of 17: extracting any of the last 16 strings stops the program (C85_false_terms, C85_false_completions). Proved for all other sizes."
  },
  {
   "property": "C86",
   "status": "partial",
   "theorems": [
    "AC.Props.C86_type1_partial",
    "AC.Props.C86_type2_partial",
    "AC.Props.C86_type3_partial",
    "AC.Props.C86_type4_partial",
    "AC.Props.C86_answer1_partial",
    "AC.Props.C86_prefix_same",
    "AC.Props.C86_conj_same",
    "AC.Props.C86_build_same",
    "AC.Props.C86_build_same4",
    "AC.Props.C86_k",
    "AC.Props.C86_k4",
    "AC.Props.C86_false"
   ],
   "note": "Proved for all four types. The claim is false when the number of terms is a multiple of 17: searches that have to show one of the last 16 terms stop the program (C86_false; the dictionary of completions likewise, C85_false_completions). With more than 15 results requested every search stops at its first assertion (C86_k, C86_k4). That assertions only add failures holds for all indexes, queries and states (C86_*_same), for conjunctive search of type 4 for the indexes of valid collections (C86_type4_partial). Not covered: the assertions inside the bit vectors, the compressed sequences, the heap and the range-minimum structure."
  },
  {
   "property": "C87",
   "status": "partial",
   "theorems": [
    "AC.Props.C87_files_partial",
    "AC.Props.C87_again_partial",
    "AC.Props.C87_index_partial",
    "AC.Props.C87_serves_partial",
    "AC.Props.C87_filtered_partial",
    "AC.Props.C87_false_blank",
    "AC.Props.C87_false_space"
   ],
   "note": "Proved for every text whose lines each have a number and terms, every state of the directory, and names without spaces, tabs and newlines (names with *, ? or [ are not modelled). The claim is false for a text with a line without words after the first completions, also at its end: the scripts fail one after the other, the completions after the line are lost, and no index of the types 1 to 3 can be built (C87_false_blank). It is false for a name with a space, tab or newline (C87_false_space)."
  },
  {
   "property": "C88",
   "status": "partial",
   "theorems": [
    "AC.Props.C88_list",
    "AC.Props.C88_sequence_partial",
    "AC.Props.C88_runs",
    "AC.Props.C88_vector",
    "AC.Props.C88_rank_select",
    "AC.Props.C88_excess_rmq",
    "AC.Props.C88_rmq",
    "AC.Props.C88_reverse",
    "AC.Props.C88_matching",
    "AC.Props.C88_list_guard",
    "AC.Props.C88_excess_guard",
    "AC.Props.C88_rmq_unchecked",
    "AC.Props.C88_false_end"
   ],
   "note": "Proved for all the calls named; the claim is false for end() of a sequence, which stops for every sequence (C88_false_end). C88_list_guard shows two assertions that guard the domain. C88_rmq_unchecked: a query of one position beyond the list passes. Not covered: next() of the iterator of a sequence (C67)."
  },
  {
   "property": "C89",
   "status": "partial",
   "theorems": [
    "AC.Props.C89_type1_partial",
    "AC.Props.C89_type2_partial",
    "AC.Props.C89_type3_partial",
    "AC.Props.C89_type4_partial",
    "AC.Props.C89_answer1_partial",
    "AC.Props.C89_answer2_partial",
    "AC.Props.C89_answer3_partial",
    "AC.Props.C89_k",
    "AC.Props.C89_k4",
    "AC.Props.C89_false",
    "AC.Props.C89_lost"
   ],
   "note": "Proved for types 1 to 4 with the assertions of every layer. Excluded where the claim is false or the index cannot be built: numbers of terms (types 2 to 4: or completions) that are multiples of 17 (C89_false, C89_lost), for type 4 the document ids 2^32-2 and 2^32-1, k above 15 (C89_k, C89_k4)."
  },
  {
   "property": "C90",
   "status": "partial",
   "theorems": [
    "AC.Props.C90_example_partial",
    "AC.Props.C90_answers_partial",
    "AC.Props.C90_exact",
    "AC.Props.C90_image_partial",
    "AC.Props.C90_false_fresh",
    "AC.Props.C90_false_page"
   ],
   "note": "Proved for example.sh after install.sh and for the responses of the image. False of a checkout without the preprocessed files (C90_false_fresh) and of the page in the image (C90_false_page). C90_exact: which file is served, and whether the image is made, for every valid collection. The others exclude numbers of terms that are multiples of 17; what the responses are has the limits of C44."
  },
  {
   "property": "C91",
   "status": "partial",
   "theorems": [
    "AC.Props.C91_files_partial",
    "AC.Props.C91_exact",
    "AC.Props.C91_names",
    "AC.Props.C91_apart",
    "AC.Props.C91_false"
   ],
   "note": "C91_exact: the files after the script, for every valid collection. That they answer queries is proved for collections that all types can be built from and whose numbers of terms and completions are not multiples of 17. False when the completion with document id 0 contains all the terms (C91_false): old files of types 1 and 2 stay."
  },
  {
   "property": "C92",
   "status": "partial",
   "theorems": [
    "AC.Props.C92_type1",
    "AC.Props.C92_type2",
    "AC.Props.C92_type3",
    "AC.Props.C92_type4",
    "AC.Props.C92_server",
    "AC.Props.C92_from1_partial",
    "AC.Props.C92_words_partial"
   ],
   "note": "The end of the file: proved for all types. Files of type 2, 3, 4 given to the web server: proved for all valid collections. Files of type 1 loaded as types 2, 3, 4: proved for collections of less than 2^26 terms (with repetitions) with document ids below 2^28 (C92_words_partial), and in general for files of less than 2^35 bytes of less than 2^28 completions (C92_from1_partial); larger ones are missing. Reading beyond the end is a fault in the model; what the library (not in the tree) does then is not modelled."
  },
  {
   "property": "C93",
   "status": "proved",
   "theorems": [
    "AC.Props.C93_rmq",
    "AC.Props.C93_less",
    "AC.Props.C93_greater"
   ],
   "note": "For lists of less than 2^30 - 1 elements, as C15. A comparator that is not a strict weak order is outside the claim."
  },
  {
   "property": "C94",
   "status": "partial",
   "theorems": [
    "AC.Props.C94_valid",
    "AC.Props.C94_conj_partial",
    "AC.Props.C94_type1_partial",
    "AC.Props.C94_prefix_partial",
    "AC.Props.C94_type4_partial",
    "AC.Props.C94_conj4_partial",
    "AC.Props.C94_false",
    "AC.Props.C94_false_first"
   ],
   "note": "Proved for types 1, 2 and 3, also two different ones, and prefix search of type 4, unless the query ends with a strict beginning of the first term of one of the collections (C94_false), or, for prefix search of types 2 to 4, the first completion of one of them matches (C94_false_first). Conjunctive search of type 4: for queries that it answers completely (C06). Numbers of terms or completions that are multiples of 17 are excluded (C66, C68)."
  },
  {
   "property": "C95",
   "status": "proved",
   "theorems": [
    "AC.Props.C95_order",
    "AC.Props.C95_type4",
    "AC.Props.sameOrder_map"
   ],
   "note": "For collections that the type can be built from, numbers of terms (and completions) that are multiples of 17 excluded (C66, C68), k from 1 to 15, searches whose results fit in the pool (C36)."
  },
  {
   "property": "C96",
   "status": "proved",
   "theorems": [
    "AC.Props.C96_better",
    "AC.Props.C96_type4"
   ],
   "note": "As C95."
  },
  {
   "property": "C97",
   "status": "partial",
   "theorems": [
    "AC.Props.C97_unique",
    "AC.Props.C97_prefix_partial",
    "AC.Props.C97_conj_partial",
    "AC.Props.C97_type4_partial",
    "AC.Props.C97_conj4_partial",
    "AC.Props.C97_false",
    "AC.Props.C97_false_first"
   ],
   "note": "Proved for any family of parts; types 1, 2 and 3 also mixed. Missing because the claim is false there (C97_false, C97_false_first): conjunctive queries with complete terms that only some parts have, queries that end with a strict beginning of a first term, with types 2 to 4 queries that a first completion matches, and conjunctive queries that type 4 does not answer completely (C06)."
  },
  {
   "property": "C98",
   "status": "partial",
   "theorems": [
    "AC.Props.C98_order_partial",
    "AC.Props.C98_better_partial",
    "AC.Props.C98_false",
    "AC.Props.C98_shown_then_not"
   ],
   "note": "The same order of the ids gives the same texts, also where type 4 does not answer completely, except where the results depend on the heap of the standard library. A better id does not hurt where type 4 answers completely with both numberings; in general it does (C98_false, with an example)."
  },
  {
   "property": "C99",
   "status": "partial",
   "theorems": [
    "AC.Props.C99_exact",
    "AC.Props.C99_partial",
    "AC.Props.C99_false"
   ],
   "note": "C99_exact describes both outcomes for every valid collection. Proved if the number of terms is a multiple of none of 5, 9, 17, 33, 65, 129 and 257 (C99_partial). False otherwise: if one of the last B terms is a completion, the program reads out of bounds (C99_false)."
  },
  {
   "property": "C100",
   "status": "proved",
   "theorems": [
    "AC.Props.C100_type1",
    "AC.Props.C100_type2",
    "AC.Props.C100_type3",
    "AC.Props.C100_type4",
    "AC.Props.C100_gaps"
   ],
   "note": "An upper bound for every valid collection and type, a lower bound by the document ids, and a family of collections that shows that the ids cannot be left out of the upper bound."
  },
  {
   "property": "C101",
   "status": "partial",
   "theorems": [
    "AC.Props.C101_valid",
    "AC.Props.C101_ordered",
    "AC.Props.C101_ordered4",
    "AC.Props.C101_blocks_partial",
    "AC.Props.C101_conj_partial",
    "AC.Props.C101_type1_partial",
    "AC.Props.C101_prefix_partial",
    "AC.Props.C101_type4_partial",
    "AC.Props.C101_conj4_partial",
    "AC.Props.C101_false",
    "AC.Props.C101_false_first"
   ],
   "note": "Proved for all queries when the order of the letters stays (C101_ordered, C101_ordered4); conjunctive search of type 4 with the same block size unless the result depends on the heap of the standard library (C101_blocks_partial). In general, proved for types 1, 2 and 3, also two different ones, and prefix search of type 4, unless the query ends with a strict beginning of the first term of one of the collections (C101_false), or, for prefix search of types 2 to 4, the first completion of one of them matches (C101_false_first). Conjunctive search of type 4: for queries that it answers completely (C06). Numbers of terms or completions that are multiples of 17 are excluded (C10)."
  },
  {
   "property": "C102",
   "status": "partial",
   "theorems": [
    "AC.Props.C102_type1_partial",
    "AC.Props.C102_type2_partial",
    "AC.Props.C102_type3_partial",
    "AC.Props.C102_type4_partial",
    "AC.Props.C102_false",
    "AC.Props.C102_false_completions"
   ],
   "note": "Proved for all pairs of valid collections that can be built and whose numbers of terms (and, for types 2 to 4, of completions) are not multiples of 17. False otherwise: when the number of terms is a multiple of 17, the last 16 terms can be replaced by any others in the same order without changing the index (C102_false, all types); when the number of completions is, the last 16 completions can be replaced by others of the same documents with the same terms (C102_false_completions, types 2 to 4)."
  },
  {
   "property": "C103",
   "status": "partial",
   "theorems": [
    "AC.Props.C103_prefix_partial",
    "AC.Props.C103_type4_partial",
    "AC.Props.C103_conj_partial",
    "AC.Props.C103_conj4_partial",
    "AC.Props.C103_false",
    "AC.Props.C103_false_conj",
    "AC.Props.C103_false_conj4"
   ],
   "note": "Both searches of all types. Missing because the claim is false there (C103_false, C103_false_conj, C103_false_conj4; C80 for the first completion): queries and continuations that end with a strict beginning of the first term, with types 2 to 4 queries that the first completion matches, the space after an unknown word, and conjunctive queries or continuations that type 4 does not answer completely (C06)."
  }
 ]
}