{"id": "C01", "title": "Prefix search with index type 1 is sound, complete and ranked", "statement": "For an index of type 1 (completion trie) built from a collection, prefix_topk(query,k) returns exactly the min(k,#matches) completions with the smallest document ids among those whose first n-1 terms equal the n-1 complete terms of the query and whose n-th term starts with the last (possibly empty) term of the query, in increasing document-id order; it never returns a non-matching completion, never omits a better one, and never touches memory outside its buffers.", "quantifier": "every valid collection, every query byte string, every 1<=k<=15", "why_tests_cant": "A test fixes one dataset and some queries; the claim is over all collections and all queries, including those that hit bucket, level and rank-sample boundaries.", "anchors": ["include/autocomplete.hpp:36-66 autocomplete::prefix_topk", "include/completion_trie.hpp", "include/fc_dictionary.hpp", "include/unsorted_list.hpp"]}
{"id": "C02", "title": "Prefix search with index types 2, 3 and 4 is sound, complete and ranked", "statement": "Same as C01 for the index types that store the completions in the integer front-coded dictionary.", "quantifier": "every valid collection, every query byte string, every 1<=k<=15", "why_tests_cant": "The lookups take different paths depending on where the answer lies relative to bucket boundaries; the failing path (first completion of the collection) is hit by few queries.", "anchors": ["include/autocomplete2.hpp:39-70 autocomplete2::prefix_topk", "include/autocomplete3.hpp", "include/autocomplete4.hpp", "include/integer_fc_dictionary.hpp:146-189 locate_prefix"]}
{"id": "C03", "title": "Conjunctive search with index type 1 is sound, complete and ranked", "statement": "conjunctive_topk(query,k) on an index of type 1 returns exactly the min(k,#matches) completions with smallest document id among those that contain every known complete term of the query, and contain a term that starts with the last term of the query; each completion at most once, in increasing document-id order.", "quantifier": "every valid collection, every query byte string, every 1<=k<=15", "why_tests_cant": "All combinations of posting lists, term ranges and ties must be covered.", "anchors": ["include/autocomplete.hpp:69-101,175-184,187-198 autocomplete::conjunctive_topk", "include/inverted_index.hpp:133-192 intersection_iterator", "include/minimal_docids.hpp:27-94 topk", "include/compact_forward_index.hpp"]}
{"id": "C04", "title": "Conjunctive search with index type 2 is sound, complete and ranked", "statement": "Same as C03 for type 2, which recovers the terms of a candidate completion from the integer dictionary rather than from a forward index.", "quantifier": "every valid collection, every query byte string, every 1<=k<=15", "why_tests_cant": "Same as C03.", "anchors": ["include/autocomplete2.hpp:73-106,196-205,208-230 autocomplete2::conjunctive_topk"]}
{"id": "C05", "title": "Conjunctive search with index type 3 is sound, complete and ranked", "statement": "Same as C03 for type 3, which drives the search with a heap of posting-list iterators, one for each term in the last term's range.", "quantifier": "every valid collection, every query byte string, every 1<=k<=15", "why_tests_cant": "Same as C03; moreover the heap layout left by the standard library is not specified and the claim must hold for each.", "anchors": ["include/autocomplete3.hpp:81-108,185-198,201-238 autocomplete3::conjunctive_topk", "include/autocomplete_common.hpp:37-70 heap_topk", "include/min_heap.hpp"]}
{"id": "C06", "title": "Conjunctive search with index type 4 is sound, complete and ranked", "statement": "Same as C03 for type 4, which uses an inverted index over blocks of terms. (Soundness: each returned completion matches. Completeness and absence of duplicates: each matching one is returned once.)", "quantifier": "every valid collection, every block-size parameter c, every query byte string, every 1<=k<=15", "why_tests_cant": "Depends on how the query's term range falls on block boundaries; a random dataset rarely meets the bad alignments.", "anchors": ["include/autocomplete4.hpp:75-102,185-263 autocomplete4::conjunctive_topk", "include/blocked_inverted_index.hpp"]}
{"id": "C07", "title": "All index types give the same answers", "statement": "For the same collection, query and k, types 1, 2 and 3 return the same conjunctive results; types 2, 3 and 4 return the same prefix results, and these equal those of type 1.", "quantifier": "every collection, query, k and pair of index types", "why_tests_cant": "Equality of two programs over all inputs.", "anchors": ["include/types.hpp", "include/autocomplete.hpp", "include/autocomplete2.hpp", "include/autocomplete3.hpp", "include/autocomplete4.hpp"]}
{"id": "C08", "title": "Term dictionary: extract and locate are mutually inverse", "statement": "For a dictionary built from a strictly sorted list of terms, extract(locate(t)) = t for every term t in it, locate(extract(id)) = id for every id, and locate(t) reports 'not found' for every string not in it.", "quantifier": "every strictly sorted list of NUL-free byte strings of bounded length, every looked-up string", "why_tests_cant": "Front coding makes each answer depend on all previous strings of its bucket; the set of dictionaries is infinite.", "anchors": ["include/fc_dictionary.hpp:82-89 build", "include/fc_dictionary.hpp:151-157,329-342 extract", "include/fc_dictionary.hpp:137-148,344-354 locate", "include/fc_dictionary.hpp:213-238 locate_bucket"]}
{"id": "C09", "title": "Term dictionary: prefix lookup returns exactly the range of terms with that prefix", "statement": "locate_prefix(p) returns the closed interval of ids of the terms that start with p, and an invalid range iff no term does.", "quantifier": "every dictionary, every byte string p", "why_tests_cant": "The searched prefix may fall before, at, in or after any bucket header.", "anchors": ["include/fc_dictionary.hpp:119-132 locate_prefix", "include/fc_dictionary.hpp:240-300 locate_buckets", "include/fc_dictionary.hpp:356-366 left_locate", "include/fc_dictionary.hpp:368-378 right_locate"]}
{"id": "C10", "title": "No string is lost when a dictionary is built, whatever the number of strings", "statement": "After building a (term or completion) dictionary from n strings, each of the n strings can be located and extracted.", "quantifier": "every n >= 1, every size of the text", "why_tests_cant": "Fails only for n a multiple of the bucket size plus one (17), a fixed dataset has one n; and for term dictionaries whose text exceeds 4 GiB, which no test builds.", "anchors": ["include/fc_dictionary.hpp:14-113 builder", "include/fc_dictionary.hpp:163-168 bucket_size", "include/integer_fc_dictionary.hpp:14-124 builder", "include/integer_fc_dictionary.hpp:203-208 bucket_size", "include/fc_dictionary.hpp:12,93-94 Pointers"]}
{"id": "C11", "title": "Completion dictionary: extract and locate are mutually inverse", "statement": "For a completion dictionary built from a strictly sorted list of term-id sequences, extract(i) returns the i-th sequence and locate(extract(i)) = i.", "quantifier": "every strictly sorted list of term-id sequences", "why_tests_cant": "Same as C08.", "anchors": ["include/integer_fc_dictionary.hpp:83-90 build", "include/integer_fc_dictionary.hpp:193-197,323-336 extract", "include/integer_fc_dictionary.hpp:130-141,338-349 locate"]}
{"id": "C12", "title": "Completion dictionary: prefix lookup returns exactly the range of completions", "statement": "locate_prefix(prefix, [b,e]) returns the half-open range of the completions that start with prefix followed by a term id in [b,e], or an invalid range iff there is none, and leaves the caller's prefix unchanged.", "quantifier": "every dictionary, every prefix, every term range", "why_tests_cant": "Same as C09.", "anchors": ["include/integer_fc_dictionary.hpp:146-189 locate_prefix", "include/integer_fc_dictionary.hpp:281-303 locate_right_bucket", "include/integer_fc_dictionary.hpp:364-375 left_locate", "include/integer_fc_dictionary.hpp:351-362 right_locate"]}
{"id": "C13", "title": "Completion trie: prefix lookup returns exactly the range of completions", "statement": "locate_prefix(prefix, [b,e]) on a completion trie built from sorted completions returns the half-open range of positions of the completions that start with prefix followed by a term in [b,e], and an invalid range iff there is none; is_member(c) holds iff c is one of the completions.", "quantifier": "every sorted list of non-empty completions with positive term ids, every prefix of positive ids and every term range", "why_tests_cant": "The trie spreads a completion over levels; correctness is an inductive fact about all trees.", "anchors": ["include/completion_trie.hpp:11-164 builder", "include/completion_trie.hpp:171-200 locate_prefix", "include/completion_trie.hpp:203-213 is_member"]}
{"id": "C14", "title": "Top-k of a range of an unsorted list", "statement": "topk(range,k) returns the k smallest values (with multiplicity) of the range in increasing order, and all of them when the range holds at most k. With unique=true it returns the k smallest distinct ones.", "quantifier": "every list, range and k", "why_tests_cant": "Heap driven enumeration over range-minimum splits; all permutations matter.", "anchors": ["include/unsorted_list.hpp:21-80 topk"]}
{"id": "C15", "title": "Range-minimum queries return the leftmost minimum", "statement": "After build from any list of values, rmq(a,b) returns the position of the leftmost minimum of the values in [a,b].", "quantifier": "every list of fewer than 2^30-1 values (sizes are 32-bit numbers in the code), every a<=b within it", "why_tests_cant": "Encoding drops the values; the answer is recovered from 2n bits alone, for every shape of the Cartesian tree.", "anchors": ["include/succinct_rmq/cartesian_tree.hpp:80-86 build", "include/succinct_rmq/cartesian_tree.hpp:89-119 rmq", "include/succinct_rmq/bp_vector_support.hpp:531-641 excess_rmq"]}
{"id": "C16", "title": "Fixed-width vectors read back what was written", "statement": "A compact vector built from n values with width w returns at every index the value stored there modulo 2^w, by random access and by scanning, regardless of the memory that follows its buffer; with the automatically chosen width the values are unchanged.", "quantifier": "every list of values, every width 1..64 (random access: 1..57), every index", "why_tests_cant": "Values straddle word boundaries in width-dependent ways.", "anchors": ["include/compact_vector.hpp:144-164 builder::push_back", "include/compact_vector.hpp:252-259 access", "include/compact_vector.hpp:9-73 enumerator", "include/compact_vector.hpp:178-184,227-231,234-238 build"]}
{"id": "C17", "title": "Elias-Fano sequences read back what was written", "statement": "An Elias-Fano sequence built from any non-decreasing list returns the i-th element at index i, for every i, by random access.", "quantifier": "every non-empty non-decreasing list of 64-bit values, every index", "why_tests_cant": "Depends on select over bitmaps of unbounded length with sampled dense and sparse blocks.", "anchors": ["include/ef/ef_sequence.hpp:16-18,21-23,26-54 build", "include/ef/ef_sequence.hpp:135-139 access", "include/ef/darray.hpp:60-92 select"]}
{"id": "C18", "title": "Elias-Fano sequence iterators enumerate the sequence", "statement": "Starting an iterator at any position and incrementing it enumerates the remaining elements in order, never reading outside the bitmap.", "quantifier": "every sequence, start position and number of steps", "why_tests_cant": "Iterator state caches a partial word of low bits and of high bits; schedule of refills is width dependent.", "anchors": ["include/ef/ef_sequence.hpp:56-133 iterator"]}
{"id": "C19", "title": "Searching a sorted run: find and next_geq", "statement": "find(range,id) returns the position of id in the run or reports absence; next_geq(range,x) returns the first position with a value >= x or reports there is none; finding a range of ids returns exactly the sub-range of positions whose values lie in it.", "quantifier": "every strictly increasing run inside a sequence, every searched id", "why_tests_cant": "Mix of binary search and short linear scan; boundaries are data dependent.", "anchors": ["include/util.hpp:39-61 find", "include/util.hpp:64-93 next_geq", "include/ef/ef_sequence.hpp:145-150,152-166 find", "include/uint_vec.hpp:76-81,83-105 find"]}
{"id": "C20", "title": "Posting lists: iteration, random access and skipping", "statement": "For a compressed posting list built from a strictly increasing list below the universe, starting from any iterator state reachable by any sequence of calls: next() moves to the following element, access(i) gives the i-th element, next_geq(x) for x beyond the current element gives the first element >= x; past the end the value is the universe.", "quantifier": "every list, every history of calls to next, access, next_geq, next_geq_by_scan", "why_tests_cant": "Each call has several paths (linear, sampled pointer, absolute) depending on history.", "anchors": ["include/ef/compact_ef.hpp:16-79 build", "include/ef/compact_ef.hpp:81-362 iterator"]}
{"id": "C21", "title": "Gamma and delta codes round-trip", "statement": "Writing any sequence of numbers with gamma/delta codes after any existing bits and reading them back from that position gives the same numbers and consumes exactly the bits written.", "quantifier": "every sequence of numbers below 2^64-1, any position", "why_tests_cant": "Unbounded sequences and alignment cases.", "anchors": ["include/integer_codes.hpp", "include/bit_vector.hpp:13-71 bits_iterator"]}
{"id": "C22", "title": "Bit vectors: what is appended is what is read", "statement": "Each builder operation (push_back, append_bits, zero_extend, set, set_bits, append, reverse) changes exactly the addressed bits, and reads (operator[], get_bits, get_word64, get_word56) return exactly the addressed bits.", "quantifier": "every bit vector content, position and length", "why_tests_cant": "Word-straddling cases for every offset and length.", "anchors": ["include/bit_vector.hpp"]}
{"id": "C23", "title": "Intersection of posting lists", "statement": "The intersection iterator over any two or more terms enumerates, in increasing order and each once, exactly the documents that occur in all the lists, independently of the order in which the lists are processed.", "quantifier": "every inverted index, every multiset of >= 2 terms, every tie-breaking of the unstable sort", "why_tests_cant": "All interleavings of skips among any number of lists.", "anchors": ["include/inverted_index.hpp:133-192 intersection_iterator"]}
{"id": "C24", "title": "Inverted index returns the posting lists it was built from", "statement": "iterator(t) of an inverted index enumerates exactly the list supplied for term t at build time and reports its length.", "quantifier": "every list of posting lists with fewer than 2^32 documents and 2^54 postings", "why_tests_cant": "All lists share one bit vector; building one must not disturb another.", "anchors": ["include/inverted_index.hpp:80-86 build", "include/inverted_index.hpp:98-105 iterator"]}
{"id": "C25", "title": "Blocked inverted index: blocks partition the postings", "statement": "For any block-size parameter, block_id(t) is the block holding t, and reading a block back gives exactly the documents having a term of the block and, for each of them, its terms in the block in increasing order.", "quantifier": "every list of posting lists with at most 2^32-2 postings in total, every number of documents per block that the parameter c gives", "why_tests_cant": "Block boundaries depend on cumulative list sizes.", "anchors": ["include/blocked_inverted_index.hpp:19-197 builder", "include/blocked_inverted_index.hpp:399-426 block", "include/blocked_inverted_index.hpp:248-253 block_id"]}
{"id": "C26", "title": "Forward index returns the terms of each completion", "statement": "iterator(d) enumerates the multiset of terms of document d, and intersects(terms,[b,e]) is true iff some term lies in [b,e].", "quantifier": "every forward index, document and range", "why_tests_cant": "Unbounded number of lists of unbounded length.", "anchors": ["include/compact_forward_index.hpp:53-59 build", "include/compact_forward_index.hpp:106-111 iterator", "include/compact_forward_index.hpp:90-97,113-115 intersects"]}
{"id": "C27", "title": "Single-term conjunctive queries: k smallest documents in a union of lists", "statement": "For any term range, topk over the minimal-document structure, and over a heap of iterators, returns the k smallest distinct documents of the union of the posting lists in the range.", "quantifier": "every inverted index, term range and k", "why_tests_cant": "Unbounded number of lists, arbitrary overlaps.", "anchors": ["include/minimal_docids.hpp:27-94 topk", "include/autocomplete_common.hpp:37-70 heap_topk"]}
{"id": "C28", "title": "The binary heap keeps the minimum on top", "statement": "After any sequence of push, pop, make_heap, and changes of the top element followed by heapify, top() is a minimum of the multiset of stored elements and that multiset is as expected.", "quantifier": "every sequence of operations, every admissible standard-library heap implementation", "why_tests_cant": "Unbounded histories.", "anchors": ["include/min_heap.hpp"]}
{"id": "C29", "title": "Query parsing", "statement": "A query is split at spaces (runs of spaces count as one): all terms but the last become complete terms, and the last becomes the incomplete one; a trailing space makes the incomplete term empty; unknown complete terms make a prefix query empty and are skipped in a conjunctive query.", "quantifier": "every byte string without NUL bytes", "why_tests_cant": "All spacings and lengths.", "anchors": ["include/autocomplete_common.hpp:14-28 parse", "include/autocomplete_common.hpp:30-34 deduplicate", "include/util_types.hpp:243-262 byte_range_iterator"]}
{"id": "C30", "title": "The returned text is the text of the completion", "statement": "Every result carries the terms of its completion, in order, joined by single spaces, and the texts of different results do not overlap.", "quantifier": "every valid collection from which the index can be built, every type, query and k from 1 to 15", "why_tests_cant": "Strings are decoded in place into one shared buffer with over-long copies.", "anchors": ["include/autocomplete.hpp:200-221 extract_strings", "include/scored_string_pool.hpp", "include/fc_dictionary.hpp:151-157,329-342 extract"]}
{"id": "C31", "title": "Results do not depend on previous queries", "statement": "The outcome of a query depends only on the index, the query and k, not on the queries executed before on the same object.", "quantifier": "every valid collection from which the index can be built, every type, every history of queries", "why_tests_cant": "Histories are unbounded; scratch memory is reused across calls and never cleared.", "anchors": ["include/scored_string_pool.hpp:22-24 clear", "include/fc_dictionary.hpp:302-308 static decoded", "include/integer_fc_dictionary.hpp:305-311 static decoded"]}
{"id": "C32", "title": "Conjunctive search finds everything that prefix search finds", "statement": "Each completion matching a query as a prefix query also matches it as a conjunctive query, so for every k the conjunctive result list is at least as long as the prefix result list.", "quantifier": "every collection, query and k", "why_tests_cant": "Relation between two searches over all inputs.", "anchors": ["benchmark/effectiveness.cpp", "include/autocomplete.hpp"]}
{"id": "C33", "title": "The order and repetition of complete terms do not matter in conjunctive search", "statement": "Permuting or repeating the complete terms of a query does not change the result of conjunctive_topk.", "quantifier": "every valid collection from which the index can be built, every type, every query and every permutation of its complete terms", "why_tests_cant": "Quantifies over permutations of unbounded term lists.", "anchors": ["include/autocomplete_common.hpp:30-34 deduplicate", "include/autocomplete.hpp:69-101,175-184,187-198 conjunctive_topk"]}
{"id": "C34", "title": "Asking for fewer results returns an initial segment", "statement": "For k <= k', the result for k is the list of the first k results for k'.", "quantifier": "every valid collection from which the index can be built, every type and query, every k <= k' from 1 to 15", "why_tests_cant": "Relation between two executions over all inputs.", "anchors": ["include/unsorted_list.hpp:21-80 topk", "include/autocomplete.hpp"]}
{"id": "C35", "title": "The caller-supplied k cannot corrupt memory", "statement": "For every k a client can pass (the web server passes k unchecked), a query writes only inside its score buffer of 15 entries.", "quantifier": "every k, collection and query", "why_tests_cant": "k ranges over all 64-bit numbers; 0 and values above 15 are the interesting ones.", "anchors": ["src/web_server.cpp", "include/unsorted_list.hpp:21-80 topk", "include/constants.hpp:5 MAX_K", "include/scored_string_pool.hpp"]}
{"id": "C36", "title": "The text buffer of a query is never overrun", "statement": "For every collection accepted by parameters::load and every query with k<=15, decoding the results into the pool of fixed size stays inside the pool.", "quantifier": "every accepted collection and query", "why_tests_cant": "Needs the worst case over all collections.", "anchors": ["include/scored_string_pool.hpp", "include/constants.hpp", "include/parameters.hpp", "include/fc_dictionary.hpp:310-327 decode"]}
{"id": "C37", "title": "Comparison of strings is lexicographic", "statement": "byte_range_compare orders NUL-free byte strings lexicographically (negative, zero, positive), and its three-argument form is zero iff the second string's n-byte prefix is a prefix of the first; uint32_range_compare likewise for id sequences.", "quantifier": "every pair of strings", "why_tests_cant": "Infinite domain.", "anchors": ["include/util_types.hpp:150-158,160-168 byte_range_compare", "include/util_types.hpp:170-180,182-196 uint32_range_compare"]}
{"id": "C38", "title": "Rank and select on bit vectors", "statement": "rank(i) is the number of ones before i; select(k)/select0(k) is the position of the k-th one/zero.", "quantifier": "every bit vector, every argument in range", "why_tests_cant": "Bitmaps of unbounded length, sampled directories.", "anchors": ["include/succinct_rmq/rs_bit_vector.hpp", "include/ef/darray.hpp"]}
{"id": "C39", "title": "Range-minimum over the excess of a parentheses sequence", "statement": "excess_rmq(a,b) returns the leftmost position in [a,b] with the least excess, together with that excess.", "quantifier": "every bit vector, every a<=b", "why_tests_cant": "Words, blocks, superblocks and a tree over them, with all alignments.", "anchors": ["include/succinct_rmq/bp_vector_support.hpp:531-641 excess_rmq", "include/succinct_rmq/bp_vector_support.hpp:427-529 find_min_superblock", "include/succinct_rmq/bp_vector_support.hpp:643-727 build_min_tree"]}
{"id": "C40", "title": "Lookups on a shared dictionary from several threads", "statement": "Concurrent const lookups on the same dictionary return what they return sequentially.", "quantifier": "every schedule of two lookups", "why_tests_cant": "Needs all interleavings.", "anchors": ["include/fc_dictionary.hpp:302-308 static decoded", "include/integer_fc_dictionary.hpp:305-311 static decoded"]}
{"id": "C41", "title": "Documents and completions are in bijection", "statement": "docid -> lexid -> docid is the identity on the documents of the collection even when the document ids have gaps.", "quantifier": "every injective assignment of document ids", "why_tests_cant": "Absent ids are stored as -1 in a narrow field, which could damage neighbours.", "anchors": ["include/building_util.hpp:9-18 invert", "include/autocomplete2.hpp", "include/compact_vector.hpp:144-164 builder::push_back"]}
{"id": "C42", "title": "Building an index never fails on a valid collection", "statement": "For each non-empty valid collection, building each index type completes without throwing.", "quantifier": "every valid collection", "why_tests_cant": "Fails only for degenerate collections.", "anchors": ["include/compact_vector.hpp:94-104 builder::resize", "include/minimal_docids.hpp", "include/unsorted_list.hpp:14-19 build"]}
{"id": "C43", "title": "The preprocessing scripts produce consistent index inputs", "statement": "The dictionary, mapped completions, inverted lists and forward lists written by the scripts describe the same collection: term ids are the lexicographic ranks, document d is in the list of term t iff t occurs in completion d, and lists are strictly increasing.", "quantifier": "every non-empty collection with distinct document ids", "why_tests_cant": "Infinite domain.", "anchors": ["test_data/extract_dict.py", "test_data/map_dataset.py", "test_data/build_inverted_and_forward.py", "test_data/build_stats.py"]}
{"id": "C44", "title": "The web server's JSON responses are well formed", "statement": "For every query the server's response body is a well-formed JSON text whose suggestion values are exactly the results' texts.", "quantifier": "every list of results, every text", "why_tests_cant": "All byte strings must be escaped properly.", "anchors": ["src/web_server.cpp:14-25 escape_json", "src/web_server.cpp:36-86 ev_handler"]}
{"id": "C45", "title": "A saved index answers like the original", "statement": "Saving an index and loading it back yields an index with the same answers to all queries. The file depends on the collection only, and saving the loaded index yields the same bytes.", "quantifier": "every index and query", "why_tests_cant": "All contents of all members.", "anchors": ["include/autocomplete.hpp:149-156 visit", "include/bit_vector.hpp:391-394 visit", "include/succinct_rmq/bp_vector.hpp:30-36 visit"]}
{"id": "C46", "title": "Portable bit tricks agree with their meaning", "statement": "popcount, select_in_word, byte_counts, leq_step_8, uleq_step_9, reverse_bits, msb, lsb and ceil_log2 in their portable form compute the number of ones, position of the k-th one, per-byte counts, per-field comparisons, reversal and logarithms.", "quantifier": "every 64-bit word", "why_tests_cant": "2^64 inputs.", "anchors": ["include/util.hpp"]}
{"id": "C47", "title": "Intersection over the blocked index", "statement": "The intersection iterator of the blocked inverted index enumerates exactly the documents that contain all the given terms, each once, in increasing order (as that of the plain inverted index does).", "quantifier": "every list of posting lists, every block size, every increasing list of terms", "why_tests_cant": "Which documents are lost depends on how the terms fall on blocks; the shipped test compares random queries only.", "anchors": ["include/blocked_inverted_index.hpp:268-392 intersection_iterator_type"]}
{"id": "C48", "title": "The text files between the scripts and the constructors", "statement": "For every input text that the preprocessing scripts accept and whose collection is valid, the constructors read from the files that the scripts write exactly the dictionary, completions, posting lists, forward lists and statistics of that collection, whatever was in memory before; an index built from them answers for that collection.", "quantifier": "every text (any layout of blanks and line ends), every valid collection", "why_tests_cant": "The scripts and the readers are in different languages and only meet in files; tests use one collection.", "anchors": ["test_data/extract_dict.py", "test_data/map_dataset.py", "test_data/build_stats.py", "test_data/build_inverted_and_forward.py", "include/parameters.hpp:18-52 load", "include/util_types.hpp:204-241 completion_iterator", "include/fc_dictionary.hpp:17-72 builder", "include/integer_fc_dictionary.hpp:17-72 builder", "include/inverted_index.hpp:17-66 builder", "include/compact_forward_index.hpp:13-44 builder", "include/completion_trie.hpp:14-114 builder"]}
{"id": "C49", "title": "A truncated file of statistics is rejected", "statement": "Loading the parameters of a collection from a file of statistics with missing numbers, or with numbers over the limits, throws; a complete file is read as it is.", "quantifier": "every sequence of numbers, every layout", "why_tests_cant": "No test truncates the file; every place of truncation must be considered.", "anchors": ["include/parameters.hpp:18-52 load"]}
{"id": "C50", "title": "Malformed files are noticed", "statement": "Reading the files of a collection always ends, and construction from malformed or truncated files does not go out of bounds.", "quantifier": "every contents of the files", "why_tests_cant": "The contents of the files are arbitrary; a test that hangs or has undefined behaviour settles nothing.", "anchors": ["include/util_types.hpp:232-240 completion_iterator::read_next", "include/inverted_index.hpp:14-94 builder"]}
{"id": "C51", "title": "Uncompressed lists: iteration, random access and skipping", "statement": "For a list of 8-, 16-, 32- or 64-bit integers appended to a bit vector at a byte boundary, any sequence of *, ++, next, access and next_geq calls on its iterator returns the elements where the calls lead (the universe at the end), intersects(r) tells whether an element lies in r, and no call reads outside of the bits.", "quantifier": "every list, universe, earlier and later contents of the bit vector, history of calls", "why_tests_cant": "The class is a template that nothing instantiates, so no test compiles it; the search switches between binary search and scan depending on position and size.", "anchors": ["include/uncompressed_list.hpp:15-21 build", "include/uncompressed_list.hpp:23-136 iterator"]}
{"id": "C52", "title": "Matching parentheses", "statement": "On a sequence of parentheses, find_close of an opening parenthesis returns the position of the closing parenthesis that ends the balanced sequence after it, find_open of that position returns the first again, and enclose of an opening parenthesis returns the innermost parenthesis open around it; no call reads outside of the structure.", "quantifier": "every sequence of fewer than 2^31 parentheses, balanced or not, every pair in it", "why_tests_cant": "A pair may lie in a byte, a word, a block, a superblock or far apart in the tree of minima, on any alignment: the combinations are not enumerable, and the library itself never calls these functions.", "anchors": ["include/succinct_rmq/bp_vector_support.hpp:186-228 find_close", "include/succinct_rmq/bp_vector_support.hpp:255-296 find_open", "include/succinct_rmq/bp_vector.hpp:48-51 enclose", "include/succinct_rmq/bp_vector_support.hpp"]}
{"id": "C53", "title": "Queries of the benchmarks", "statement": "The benchmark programs ask one query for each line of their input, up to the requested number. A query is its line with the last token shortened to at least the requested fraction (a float in [0,1]) of its characters, at least one and at most two more than the fraction needs; with fraction 1 it is the line.", "quantifier": "every input text with non-empty lines shorter than 2^24-4, every fraction, every number of queries", "why_tests_cant": "The length is computed with rounded single-precision products; all pairs of lengths and fractions cannot be run.", "anchors": ["benchmark/benchmark_common.hpp:17-34 load_queries"]}
{"id": "C54", "title": "Partition of the completions into query files", "statement": "The script that chooses queries writes seven files; the file for i terms has the requested number of completions of exactly i terms (the last: of seven or more), or all of them if there are fewer, without terms or completions that are not in the collection.", "quantifier": "every collection text, every shuffle, every requested number", "why_tests_cant": "The choice is random, so that runs differ; a property of one run says nothing on the others.", "anchors": ["test_data/partition_queries_by_length.py"]}
{"id": "C55", "title": "Filtering of the collection", "statement": "The script that removes the queries from a collection keeps exactly the lines whose completion is in none of the query files, unchanged and in order.", "quantifier": "every collection text and query files without the control bytes 28-31 (which the two versions of Python treat differently)", "why_tests_cant": "Any lines, separators and repetitions may occur.", "anchors": ["test_data/filter_dataset.py"]}
{"id": "C56", "title": "Mapping of queries to term positions", "statement": "map_queries prints one line for each line of its input, with one number per token in order: the position of the token in the sorted dictionary (which is the position of its posting list in the files of output_ds2i_format), or a number beyond all positions for an unknown token; no input makes it read outside of its data.", "quantifier": "every dictionary and every input text", "why_tests_cant": "Dictionaries and texts are unbounded, and the lookups share a static buffer.", "anchors": ["src/map_queries.cpp:28-49"]}
{"id": "C57", "title": "Binary posting lists", "statement": "The .docs file that output_ds2i_format writes is, as little-endian 32-bit numbers, the one-element list of the universe (largest document id plus one) followed by the length-prefixed increasing list of document ids for each term in order; the .freqs file has as many ones in each list.", "quantifier": "every collection text that the preprocessing accepts and whose collection is valid", "why_tests_cant": "The files are read by another program; any misplaced number shifts all the following lists.", "anchors": ["src/output_ds2i_format.cpp:16-58"]}
{"id": "C58", "title": "Counts of the effectiveness benchmark", "statement": "The effectiveness benchmark prints the number of results of all prefix searches, and the number of results of the conjunctive searches that are not results of the corresponding prefix searches; each of these is better than some result of the prefix search unless that returned fewer than k.", "quantifier": "every index type, collection, sequence of queries and k from 1 to 15", "why_tests_cant": "It depends on both searches for all collections and histories of queries.", "anchors": ["benchmark/effectiveness.cpp:8-91"]}
{"id": "C59", "title": "Block size of type 4 follows c", "statement": "Building a type 4 index with a float c outside (0,1] throws. With c in (0,1], all blocks but the last have at least c*U postings (U: largest document id plus one), and none reaches c*U without its last term, up to a relative error of 2^-23 and one posting.", "quantifier": "every float c, every collection", "why_tests_cant": "The threshold is a rounded single-precision product; neither all floats nor all collections can be run.", "anchors": ["include/blocked_inverted_index.hpp:22-36 builder(params, c)", "include/autocomplete4.hpp:25-38"]}
{"id": "C60", "title": "Printed sizes are those of the saved file", "statement": "The total number of bytes that the statistics of an index report is the length of the file it is saved to; the sizes of the parts add up to it, and those of their parts to them; the numbers they are divided by are those of the completions, of the different terms, of the pairs of a completion and one of its terms, and of all terms; the number of blocks printed for type 4 is that of the blocks for the block size.", "quantifier": "every valid collection, every index type, every block size, every content of memory", "why_tests_cant": "Sizes depend on the whole structure, for every collection; a missing member changes totals slightly, and goes unnoticed.", "anchors": ["include/autocomplete.hpp:140-144 bytes", "include/autocomplete2.hpp:148-152", "include/autocomplete3.hpp:140-144", "include/autocomplete4.hpp:132-136", "include/statistics.hpp:46-182", "src/build.cpp:12-15"]}
{"id": "C61", "title": "From the text to the server: responses depend on the text and the request only", "statement": "Preparing a text, building an index, saving it, loading it elsewhere and serving it is deterministic: the index file is a function of the text (and of c for type 4), the program that prints the statistics of the file prints what the build printed, and the response of the web server to a request is a function of the text and the request: the same on every machine, whatever memory contained, whatever the requests before it, as if the server had just been started.", "quantifier": "every text whose collection the type can be built from, every content of the memory of both machines, every sequence of requests (queries without NUL bytes, k from 1 to 15 or not a number)", "why_tests_cant": "Left-over memory, uninitialised words and the history of requests cannot be enumerated; a test sees one run of one pipeline.", "anchors": ["src/build.cpp:9-29", "src/statistics.cpp:9-14", "src/web_server.cpp:36-116", "include/autocomplete.hpp:19-160", "README.md"]}
{"id": "C62", "title": "Texts outside ASCII", "statement": "A text in UTF-8 with any characters can be prepared, built, saved, loaded and served as one in ASCII can: the order in which the scripts sort terms is the byte order in which the indexes compare them, typed characters are a prefix of a term exactly when their bytes are, and the indexes built are those of the collection whose terms are the bytes of the words of the text. Bytes that are not UTF-8 are rejected.", "quantifier": "every text in UTF-8 whose lines have an id in decimal digits and words between any Unicode white space, and whose collection of bytes is valid; every content of memory; every index type", "why_tests_cant": "There are more than a million characters with encodings of four lengths; the agreement of the two orders and of the two notions of length is a statement about all pairs of texts.", "anchors": ["test_data/extract_dict.py", "test_data/map_dataset.py:19-50", "test_data/build_inverted_and_forward.py", "include/fc_dictionary.hpp:219-287 byte_range_compare", "include/fc_dictionary.hpp"]}
{"id": "C63", "title": "The limit on the length of completions protects the searches", "statement": "The scripts and the build program refuse a text with a completion longer than 128; whatever text they accept can be searched without accessing memory out of bounds.", "quantifier": "every text, every query, every k", "why_tests_cant": "A silent write past a static array is not visible in results, and needs particular characters.", "anchors": ["include/constants.hpp MAX_NUM_CHARS_PER_QUERY", "include/parameters.hpp:18-52", "test_data/map_dataset.py:19-38", "include/fc_dictionary.hpp:300-390 static array"]}
{"id": "C64", "title": "Build options change no results", "statement": "The library compiled with USE_INTRINSICS or USE_PDEP gives the same population counts, selections and reversals as the portable version, for every word and every rank that exists, so indexes and answers do not depend on these options.", "quantifier": "every 64-bit word, every rank below the number of ones, every combination of the two options", "why_tests_cant": "Tests run one configuration on a few words; there are 2^64 words and the two selections share no code.", "anchors": ["include/util.hpp:279-341 reverse_bytes, popcount, select64_pdep_tzcnt, select_in_word", "CMakeLists.txt:34-44"]}
{"id": "C65", "title": "The page shows the suggestions as they are", "statement": "For every suggestion and every text typed into the field, the HTML that the page makes for the suggestion shows exactly its characters; every occurrence of a word typed is at least partly in bold, and everything in bold belongs to an occurrence of a word typed that is in bold as a whole.", "quantifier": "every suggestion, every content of the field", "why_tests_cant": "Escaping and highlighting interact: it takes particular characters in the suggestion or the field to lose text, raise an exception or inject markup.", "anchors": ["web/topkcomp.js:12-28 formatResult"]}
{"id": "C66", "title": "Completions can be found whatever the number of distinct terms", "statement": "Whatever the number of distinct terms of the collection, every completion is shown by some search, every search for a prefix or for terms of the collection ends without accessing memory out of bounds, and conjunctive search shows only completions that have the complete terms of the query that the collection has.", "quantifier": "every valid collection, in particular every one whose number of distinct terms is a multiple of 17; every query, number of results and state left by earlier queries", "why_tests_cant": "One collection in 17 is affected, and then only completions with one of the last 16 terms in alphabetical order; a test would have to pick such a collection and such a query.", "anchors": ["include/fc_dictionary.hpp:17-86", "include/fc_dictionary.hpp:88-262", "include/autocomplete.hpp:63-199", "include/autocomplete2.hpp:38-150", "include/autocomplete3.hpp:34-140"]}
{"id": "C67", "title": "Enumerating an Elias-Fano sequence with next()", "statement": "An iterator of an Elias-Fano sequence placed at any position returns, with repeated calls of next(), the elements from that position on, in order, up to and including the last one, without reading outside of the bitmaps.", "quantifier": "every non-empty non-decreasing list of 64-bit values, every position, every number of calls up to the number of elements left", "why_tests_cant": "The defect is a read outside of the buffer after the value has been computed, which usually goes unnoticed; the positions at which low bits are loaded again depend on the width, that is, on the values.", "anchors": ["include/ef/ef_sequence.hpp:56-133", "include/bit_vector.hpp:338-349"]}
{"id": "C68", "title": "Completions can be found whatever their number", "statement": "Whatever the number of completions of the collection, with index types 2, 3 and 4 every completion is shown by some search, every search returns the best matching completions, and no search accesses memory out of bounds.", "quantifier": "every valid collection, in particular every one whose number of completions is a multiple of 17; every query, number of results and state left by earlier queries; every block size of type 4", "why_tests_cant": "One collection in 17 is affected, and then only its last 16 completions in lexicographical order; conjunctive search with type 2 fails also for queries that none of them matches, when one is examined before the last result. A test would have to pick such a collection and such a query.", "anchors": ["include/integer_fc_dictionary.hpp:17-90", "include/integer_fc_dictionary.hpp:92-300", "include/autocomplete2.hpp:38-230", "include/autocomplete3.hpp:34-240", "include/autocomplete4.hpp:34-260"]}
{"id": "C69", "title": "Searches work when both numbers are multiples of 17", "statement": "When the number of terms and the number of completions are both multiples of 17, with index types 2, 3 and 4 every completion is shown by some search, every search returns the best matching completions, and no search accesses memory out of bounds.", "quantifier": "every valid collection whose number of terms and whose number of completions are multiples of 17; every query, number of results and state left by earlier queries; every block size of type 4", "why_tests_cant": "One collection in 289 is affected. Two dictionaries then have lost strings, and an error in one may hide that of the other: a completion that is still there cannot be shown when one of its terms is not.", "anchors": ["include/fc_dictionary.hpp:20-330", "include/integer_fc_dictionary.hpp:17-300", "include/autocomplete2.hpp:38-230", "include/autocomplete3.hpp:34-240", "include/autocomplete4.hpp:34-260"]}
{"id": "C70", "title": "Whatever is shown is a completion of the collection that matches", "statement": "Whatever the collection, once the index is built every search either returns at most k results, each of them the document id and the text of a completion of the collection that matches the query, in strictly increasing order of document id, and leaves a state from which further searches do the same; or it accesses memory out of bounds. No search throws or runs forever, none shows a document with the text of another, none shows a completion that does not match. For conjunctive search with type 4 the order and the absence of duplicates are left out, and when the number of terms is a multiple of 17 a complete term of the query may be missing from a result if it is one of the last 16 terms of the collection.", "quantifier": "every valid collection for which the index can be built, whatever the numbers of its terms and completions; the four types; every block size; every query, number of results and state left by earlier queries", "why_tests_cant": "A wrong result for some query of some collection is not excluded by any number of right ones; the cases in which the dictionaries lose strings are reached by few collections only.", "anchors": ["include/autocomplete.hpp:50-222", "include/autocomplete2.hpp:38-230", "include/autocomplete3.hpp:34-240", "include/autocomplete4.hpp:34-260", "include/scored_string_pool.hpp:10-99"]}
{"id": "C71", "title": "The benchmarks report the numbers of queries and of results", "statement": "The benchmarks of prefix search and of conjunctive search print as num_queries the number of lines of the input, or the number asked for when this is smaller; and as reported_strings the number of all the results that a newly loaded index returns for these queries (whose last terms are shortened as in C53), each asked as the first. That the queries are run five times, one after the other on the same object, does not change the number.", "quantifier": "every valid collection and index built from it, of the four types; the two searches; every input of nonempty lines, fraction, number of queries, and k from 1 to 15; unless a query has results that do not fit (C05)", "why_tests_cant": "A benchmark prints a sum; a wrong sum is noticed only by adding up the results by hand, for each collection and list of queries.", "anchors": ["benchmark/benchmark_common.hpp:17-34", "benchmark/benchmark_common.hpp:48-92", "benchmark/benchmark_prefix_topk.cpp:7", "benchmark/benchmark_conjunctive_topk.cpp:7"]}
{"id": "C72", "title": "The benchmark of locate_prefix looks up what the queries match", "statement": "In each of its five runs, the benchmark of locate_prefix computes for every query the range of the completions that match the query, as prefix search does.", "quantifier": "every valid collection, list of queries, the types trie and fc", "why_tests_cant": "The ranges are computed only to be timed and are never printed, so no run of the program shows them.", "anchors": ["benchmark/benchmark_locate_prefix.cpp:33-40", "benchmark/benchmark_locate_prefix.cpp:67-97", "include/completion_trie.hpp:171-200", "include/integer_fc_dictionary.hpp:146-189", "include/autocomplete.hpp:50-83"]}
{"id": "C73", "title": "The bucket size of the dictionaries does not change their answers", "statement": "The dictionary of terms and the dictionary of completions take the size of their buckets as template parameter. Whatever it is, the operations locate, locate_prefix and extract return the same: the ids of the terms or completions in the order of the file, the range of those with a prefix, and the term or completion of an id.", "quantifier": "every bucket size, every list of terms that fits into the files, every valid list of completions, every string, prefix, range and id", "why_tests_cant": "The answers depend on how the number of strings and the bucket size divide; the indexes use one bucket size and the benchmarks of the others do not print any answer.", "anchors": ["include/fc_dictionary.hpp:12-89", "include/fc_dictionary.hpp:119-168", "include/integer_fc_dictionary.hpp:12-90", "include/integer_fc_dictionary.hpp:130-208", "benchmark/benchmark_fc_dictionary.cpp:106", "benchmark/benchmark_integer_fc_dictionary.cpp:59"]}
{"id": "C74", "title": "The benchmarks of the dictionaries measure what they should", "statement": "The benchmark of the dictionary of terms locates each line of its input, extracts the strings of the ids found, and looks up the first character, quarter, half, three quarters and the whole of each line with locate_prefix; for each of seven bucket sizes, the operations return the number of the term, the term itself and the range of the terms that start with the part. The benchmark of the dictionary of completions extracts, in a random order, the first completions, as many as asked for. No access is out of bounds.", "quantifier": "every valid list of terms and of completions, every input, every number of queries, the bucket sizes 4, 8, ..., 256, every order of the ids", "why_tests_cant": "The programs print only times; a wrong or undefined result of an operation is not noticed.", "anchors": ["benchmark/benchmark_fc_dictionary.cpp:8-107", "benchmark/benchmark_integer_fc_dictionary.cpp:9-60", "include/fc_dictionary.hpp:119-157", "include/integer_fc_dictionary.hpp:193-197"]}
{"id": "C75", "title": "The tests of the repository pass for every valid collection", "statement": "Run on any valid collection, and whatever numbers are drawn, each of the tests of the dictionaries, the trie, the inverted index and its intersections, the blocked inverted index, the forward index, the list of documents, the lookup of prefixes and the searches ends, without an access out of bounds, and with success; and the comparison of the lists fails if the structure holds other lists.", "quantifier": "every valid list of terms, completions and postings, all random numbers drawn", "why_tests_cant": "The tests are run on one collection; on others they may fail although the structure is right, or pass although it is wrong.", "anchors": ["test/test_common.hpp:21-85", "test/test_fc_dictionary.cpp:5-86", "test/test_integer_fc_dictionary.cpp:5-63", "test/test_completion_trie.cpp:7-37", "test/test_inverted_index.cpp:7-135", "test/test_blocked_inverted_index.cpp:8-63", "test/test_compact_forward_index.cpp:5-47", "test/test_unsorted_list.cpp:5-171", "test/test_locate_prefix.cpp:7-102", "test/test_autocomplete.cpp:7-83"]}
{"id": "C76", "title": "The structures are as small as announced", "statement": "The number of bytes that the program reports for each structure it builds is that of the encoding, for every input: a compact vector takes the binary digits of its largest number for each number; an Elias-Fano sequence takes the low digits, the unary code of the high parts and the announced samples; the structure for the minima takes between 2 and 2.78 bits per number plus 126 bytes; a front-coded dictionary (number of strings not a multiple of 17, see C10) does not store again what a string has in common with the one before; the forward index takes the digits of the number of terms for each term; each list of the inverted index takes at most log2(u/n) + 4 bits for each of its n documents plus 64; the blocked index stores each block's distinct documents once and each posting in the digits of a term relative to its block; the trie stores, for each level, one term, one position and one count for each distinct beginning of the completions of that many terms, and where the nodes of the next level begin.", "quantifier": "every vector, sorted sequence, list of terms, list of completions, list of documents and posting lists, every block size", "why_tests_cant": "The statistics are printed and not compared with anything; a width that is a bit too large, a sample too many or a common prefix stored twice leaves all answers right.", "anchors": ["include/compact_vector.hpp:50-110", "include/ef/ef_sequence.hpp:15-80", "include/ef/darray.hpp:15-140", "include/ef/compact_ef.hpp:15-150", "include/succinct_rmq/cartesian_tree.hpp:20-120", "include/unsorted_list.hpp:10-60", "include/fc_dictionary.hpp:20-110", "include/integer_fc_dictionary.hpp:20-130", "include/compact_forward_index.hpp:30-131", "include/inverted_index.hpp:20-130", "include/blocked_inverted_index.hpp:57-246", "include/statistics.hpp:1-140", "include/completion_trie.hpp:14-256"]}
{"id": "C77", "title": "Prefix search returns the completions whose text begins with the text of the query", "statement": "For every query, up to spaces at its beginning and repeated spaces, prefix search returns the k best completions whose text begins with the query, character by character, in the order of their document ids; in particular the text of every result begins with the query.", "quantifier": "every valid collection, every query text, all four index types, every k up to the limit and every earlier use of the object", "why_tests_cant": "The search works on numbers of terms and ranges of them; that this is the same as comparing texts depends on all positions at which a query can be cut by spaces.", "anchors": ["include/autocomplete.hpp:36-65", "include/autocomplete2.hpp:39-70", "include/autocomplete_common.hpp:14-29"]}
{"id": "C78", "title": "After the installation, the test of prefix lookup checks queries of every length and passes", "statement": "On the collection and the files of queries that the preprocessing script writes, the test of prefix lookup asks queries of one to seven and more terms, with a quarter, a half, three quarters and all of the last term, compares the ranges found by both structures with those of a search in the sorted texts, and passes.", "quantifier": "every valid collection whose terms have characters after the space, every way of shuffling, every number of queries of each size", "why_tests_cant": "It is about a test itself: that it ends without a failure does not tell which files it could open and which queries it compared.", "anchors": ["install.sh:7-10", "test_data/preprocess.sh:5-9", "test_data/partition_queries_by_length.py:10-40", "test/test_locate_prefix.cpp:30-102"]}
{"id": "C79", "title": "A completion typed in full is shown", "statement": "A user who types the text of a completion, with any superfluous spaces, sees this completion among the results, unless as many better completions as asked for are shown.", "quantifier": "every valid collection, every completion, every way of adding spaces before words, both searches, every number of results from 1 to 15, every history of searches", "why_tests_cant": "The defects of the lookups concern particular completions, the first one and those with the first term; whether any of them can be lost when typed in full has no finite set of cases.", "anchors": ["include/autocomplete.hpp:36-101", "include/autocomplete4.hpp:41-103", "include/autocomplete_common.hpp:13-34", "include/blocked_inverted_index.hpp:268-397"]}
{"id": "C80", "title": "Typing on only narrows the results", "statement": "When a user types more characters after a query, with the same search and the same number of results, every result of the longer query is a result of the shorter one, or there were already as many better results as asked for.", "quantifier": "every valid collection, every query, every continuation, every number of results from 1 to 15, every history of searches", "why_tests_cant": "It compares the answers to two queries, for all pairs of a query and its continuations.", "anchors": ["include/autocomplete.hpp:36-101", "include/autocomplete2.hpp:39-106", "include/autocomplete3.hpp:47-108", "include/fc_dictionary.hpp:119-171", "include/integer_fc_dictionary.hpp:146-189", "include/autocomplete_common.hpp:13-34"]}
{"id": "C81", "title": "The collected results of the benchmarks cover queries of every number of terms", "statement": "After the preprocessing, each of the scripts that collect the results of a benchmark makes, for each of the four percentages, one record for every file of queries that the preprocessing wrote, and this record is that of the benchmark on the queries of this file, which have the number of terms that the record says.", "quantifier": "every valid collection, every way of shuffling, every number of queries, every benchmark", "why_tests_cant": "The scripts run programs and ignore their failures, and which queries are chosen is random; a missing record goes unnoticed.", "anchors": ["script/collect_results_by_varying_percentage.py:10-18", "script/collect_effectiveness_results_by_varying_percentage.py:9-17", "script/collect_locate_prefix_results_by_varying_percentage.py:7-14", "test_data/partition_queries_by_length.py"]}
{"id": "C82", "title": "Queries that were taken out of the collection are never shown", "statement": "After the script has taken queries out of a collection and prepared the rest, an index built from its files is one of exactly the completions that were not taken, with their document ids; whatever is typed, none of its searches shows one of the queries.", "quantifier": "every valid collection with more completions of some number of terms than are taken, every way of shuffling, every number of queries, every index type, every query and k", "why_tests_cant": "Which queries are taken is random, and the claim is about every text that can be typed.", "anchors": ["test_data/filter_and_preprocess.sh:3-14", "test_data/partition_queries_by_length.py", "test_data/filter_dataset.py", "include/autocomplete.hpp:35-118"]}
{"id": "C83", "title": "Reading a bit vector piece by piece", "statement": "From any position on, an iterator over a bit vector returns for any sequence of calls of get_bits (up to 64 bits) and skip_zeros what the bits are from there on: each call goes on where the last one stopped, get_bits returns the next bits, skip_zeros the number of zeros before the next one.", "quantifier": "every bit vector, position and sequence of calls within it", "why_tests_cant": "What a call returns depends on what the calls before left in the buffer.", "anchors": ["include/bit_vector.hpp:13-71"]}
{"id": "C84", "title": "The benchmark of effectiveness in a build with assertions", "statement": "In a build that keeps the assertions, the benchmark of effectiveness does what it does without them: for no query do the conjunctive results number fewer than the prefix results, and the document ids of the results of both are in order.", "quantifier": "every valid collection, index type, list of queries and number of results", "why_tests_cant": "Whether an assertion fails depends on the collection and the query; the project's tests are not run over all of them.", "anchors": ["benchmark/effectiveness.cpp:28-79", "include/scored_string_pool.hpp:26-29", "CMakeLists.txt:4-12"]}
{"id": "C85", "title": "The dictionaries in a build with assertions", "statement": "In a build that keeps the assertions, building a dictionary of terms or completions, finding a string, finding the range of a prefix, and extracting a string by its id work and give the same results as without assertions.", "quantifier": "every sorted list of strings, every text and every id", "why_tests_cant": "The assertions depend on the number of strings and on the bucket that is reached; a test with a few dictionaries misses the sizes for which one fails.", "anchors": ["include/fc_dictionary.hpp:17-378", "include/integer_fc_dictionary.hpp:17-375", "include/uint_vec.hpp:71-109", "include/util_types.hpp:160-196"]}
{"id": "C86", "title": "Building and searching in a build with assertions", "statement": "In a build that keeps the assertions of the index types and of the classes they are made of (parser, dictionaries, pool, inverted index, blocked inverted index and intersections, forward index, trie, search by minimal documents, statistics; not those inside bit vectors, compressed sequences, heap and range-minimum structure), building an index of any of the four types from the output of the preprocessing scripts, searching it for up to 15 results, and reading the results stop at no assertion and give what they give without assertions. A build with these assertions that answers never answers differently from one without.", "quantifier": "every valid collection, every query, every number of results up to 15, every state left by earlier queries", "why_tests_cant": "The assertions on ids, ranges, iterators and sizes are reached with values that depend on the collection and the query; tests reach some of them.", "anchors": ["include/autocomplete.hpp:35-221", "include/autocomplete2.hpp:38-254", "include/autocomplete3.hpp:46-262", "include/autocomplete4.hpp:40-287", "include/autocomplete_common.hpp:13-70", "include/inverted_index.hpp:98-167", "include/blocked_inverted_index.hpp:22-426", "include/minimal_docids.hpp:27-94", "include/compact_forward_index.hpp:13-115", "include/completion_trie.hpp:171-200", "include/scored_string_pool.hpp:26-58", "include/parameters.hpp:20-36"]}
{"id": "C87", "title": "The preprocessing scripts in a directory", "statement": "For a collection in a file, test_data/preprocess.sh makes the five files that the constructors open, under the names under which they open them, and the seven files of queries. Files of earlier runs make no difference, also where a script appends; running it again changes nothing; no other file, and not the collection itself, is changed. test_data/filter_and_preprocess.sh does the same for the collection without the chosen queries. An index built from the directory is the one of the collection.", "quantifier": "every collection, every name of the file, every state of the directory, every number of queries and every shuffling", "why_tests_cant": "The scripts exchange data by the names of files, some of which are opened for appending, and the shell goes on after a script that has failed; a test in a fresh directory with one name and one correct file sees none of this.", "anchors": ["test_data/preprocess.sh:1-9", "test_data/filter_and_preprocess.sh:1-14", "test_data/extract_dict.py:1-24", "test_data/map_dataset.py:1-51", "test_data/build_stats.py:1-48", "test_data/build_inverted_and_forward.py:1-74", "test_data/partition_queries_by_length.py:1-40", "test_data/filter_dataset.py:1-32", "include/parameters.hpp:18-23", "include/fc_dictionary.hpp:31-35", "include/completion_trie.hpp:35-38", "include/inverted_index.hpp:25-27", "include/blocked_inverted_index.hpp:38-40", "include/compact_forward_index.hpp:18-20"]}
{"id": "C88", "title": "The storage classes in a build with assertions", "statement": "In a build that keeps the assertions of the bit vectors, the rank and select structures, the Elias-Fano sequences, the posting lists, the fixed-width vectors and the range-minimum structure, building from any content in the domain, and any sequence of calls allowed by the interface (access, enumeration, pairs, both searches in a range, next, next_geq, next_geq by scanning, previous value, intersection with a range, set, rank, select, least excess, range-minimum query, matching parenthesis), stop at no assertion and give what they give without assertions. Rank, select, least excess and range-minimum queries with arguments out of order or beyond the end stop at an assertion, as does building a sequence of parentheses with a prefix of negative excess and looking for the match of what is not an opening parenthesis.", "quantifier": "every non-decreasing list of 64-bit values, every list of runs, every posting list wherever it starts in a bit vector and whatever follows, every history of allowed calls, every width, every list of bits, every list of values to query, every pair of positions", "why_tests_cant": "The assertions are on positions inside of words, sampled pointers and counts, whose values depend on the content; one assertion itself moves the iterator it is about, so that the builds follow different paths.", "anchors": ["include/bit_vector.hpp:116-150", "include/bit_vector.hpp:266-314", "include/bit_vector.hpp:352-382", "include/ef/darray.hpp:60-92", "include/ef/ef_parameters.hpp:18-39", "include/ef/compact_ef.hpp:15-361", "include/ef/ef_sequence.hpp:25-249", "include/compact_vector.hpp:112-164", "include/compact_vector.hpp:240-259", "include/util.hpp:190-197", "include/util.hpp:326-341", "include/succinct_rmq/rs_bit_vector.hpp:51-161", "include/succinct_rmq/bp_vector_support.hpp:74-388", "include/succinct_rmq/bp_vector_support.hpp:390-727", "include/succinct_rmq/cartesian_tree.hpp:79-146", "include/succinct_rmq/bp_vector.hpp:48-51"]}
{"id": "C89", "title": "Building and searching with every assertion in place", "statement": "In a build that keeps all assertions, from those of the index types down to those on the bits (bit vectors, integer codes, fixed-width vectors, Elias-Fano sequences, posting lists, rank and select, range-minimum structure, heap), building an index of any type (type 4 with any block size) from the output of the preprocessing scripts, searching it for up to 15 results, and reading the results stop at no assertion and give what they give without assertions; when the texts fit, the answer is the one claimed for the search.", "quantifier": "every valid collection, every query, every number of results up to 15, every state left by earlier queries", "why_tests_cant": "Whether an assertion deep in a compressed sequence or in the range-minimum structure holds depends on the whole collection and on the path of the query through all layers; the layers were shown safe one by one (C86, C88) under conditions on their arguments that only the layers above establish.", "anchors": ["include/autocomplete.hpp:19-221", "include/autocomplete2.hpp:22-254", "include/autocomplete3.hpp:31-262", "include/autocomplete4.hpp:25-286", "include/blocked_inverted_index.hpp:22-426", "include/unsorted_list.hpp:14-146", "include/minimal_docids.hpp:20-128", "include/completion_trie.hpp:101-200", "include/inverted_index.hpp:21-167", "include/compact_forward_index.hpp:13-115", "include/integer_codes.hpp:8-28", "include/bit_vector.hpp:24-65", "include/util.hpp:190-229"]}
{"id": "C90", "title": "From a checkout to the running example", "statement": "After install.sh, example.sh writes the index of the data set to one file that depends on the data set alone and leaves all other files as they are; the server it starts answers every request from that index (with the best matching completions, as in C44) and serves the page. The image described by Dockerfile starts a server with the same answers and the same page.", "quantifier": "every data set that the preprocessing accepts and that the index can be built from, every state of the other files (also those of former runs), every sequence of requests, every memory contents and standard library", "why_tests_cant": "The scripts run once, on one data set, in one state of the directory; what former runs left, what the memory holds and which requests come is not under the control of a test.", "anchors": ["install.sh:1-11", "example.sh:1-3", "Dockerfile:1-25", "src/build.cpp:9-61", "src/web_server.cpp:76-116"]}
{"id": "C91", "title": "The script that builds the indexes of all types", "statement": "After the preprocessing, script/build_indexes.py makes one index file for each of the four types; each is loaded as the index of its type of the collection and depends on the data set alone (type 4 also on the standard library); no other file changes, and running the script again changes nothing. After the script there is no index of another collection under these names.", "quantifier": "every data set that the preprocessing accepts, every state of the other files (also those of former runs), every memory contents", "why_tests_cant": "Four programs run one after the other on the same files, and the script goes on when one of them fails; the effect depends on the collection and on all the files that were there before.", "anchors": ["script/build_indexes.py:1-6", "src/build.cpp:9-61"]}
{"id": "C92", "title": "An index file is read exactly to its end", "statement": "Loading a saved index reads all bytes of the file and none after it: what follows the index in the file has no effect on what is loaded, and a file that was cut short is never loaded as an index, because loading asks for bytes beyond its end. An index file of type 2, 3 or 4 given to the web server, which loads type 1, and an index file of type 1 loaded as another type ask for bytes beyond the end of the file too: they are never taken for an index.", "quantifier": "every collection, type of index, memory contents, position at which the file is cut, and bytes that follow it", "why_tests_cant": "The position of the cut, the collection and the bytes that follow are arbitrary; the tests load only whole files as the type that they were saved as.", "anchors": ["include/autocomplete.hpp", "include/autocomplete2.hpp", "include/autocomplete3.hpp", "include/autocomplete4.hpp", "src/web_server.cpp:88-98", "src/build.cpp:9-61"]}
{"id": "C93", "title": "Range queries work for every order", "statement": "The range-minimum structure built from a list with any comparator that is a strict weak order answers a query for positions a to b by a position of the range such that no element of the range compares before the element there, and such that it compares before all elements of the range to the left of it (ties go to the leftmost). With std::greater it answers range-maximum queries; with std::less it is the structure that the indexes use.", "quantifier": "every type of elements, strict weak order, list of less than 2^30 - 1 elements, memory contents and pair of positions a <= b", "why_tests_cant": "Lists, orders and ranges are unbounded; the only use in the tree is with numbers and std::less.", "anchors": ["include/succinct_rmq/cartesian_tree.hpp:36-119"]}
{"id": "C94", "title": "Removing completions leaves the other answers as they are", "statement": "When completions are removed from the collection (the others keep their numbers) and the index is built again, then for the same query and k the results that are not removed stay, in the same order and ahead of all others; when none of the results is removed, the results are the same. The two indexes may be of different types 1, 2, 3.", "quantifier": "every valid collection, part of it, pair of index types, query, k, history of earlier queries, standard library and memory contents", "why_tests_cant": "It relates the answers of two indexes of arbitrary collections, whose dictionaries, term numbers and blocks are all different; no test builds two collections.", "anchors": ["include/autocomplete.hpp:36-100", "include/autocomplete2.hpp:39-105", "include/autocomplete3.hpp:47-115", "include/autocomplete4.hpp", "include/fc_dictionary.hpp", "include/integer_fc_dictionary.hpp"]}
{"id": "C95", "title": "Only the order of the document ids matters", "statement": "Two indexes of the same type, built from collections with the same texts whose document ids are different but in the same order, show the same texts in the same order for the same query and k: both searches of types 1, 2 and 3, prefix search of type 4 (with any two block sizes). In particular any strictly increasing renumbering changes nothing.", "quantifier": "every pair of valid collections with the same texts and the same order of ids, query, k, history of earlier queries, standard library and memory contents", "why_tests_cant": "It relates the answers of two indexes whose lists, range-minimum trees and universes are all different; ids are arbitrary 32-bit numbers and no test builds two collections.", "anchors": ["include/autocomplete.hpp", "include/autocomplete2.hpp", "include/autocomplete3.hpp", "include/autocomplete4.hpp:41-73", "include/unsorted_list.hpp", "test_data/build_inverted_and_forward.py"]}
{"id": "C96", "title": "A better score never hurts", "statement": "When document ids (smaller is better) change such that no completion gets ahead of c that was not ahead of it before - for example when only c gets a smaller id - and c was shown at some place for a query, then it is shown at this place or further up after the index is built again: both searches of types 1, 2 and 3, prefix search of type 4.", "quantifier": "every pair of valid collections with the same texts, completion, query, k, history of earlier queries, standard library and memory contents", "why_tests_cant": "It relates the answers of two indexes of arbitrary collections; no test builds two collections.", "anchors": ["include/autocomplete.hpp", "include/autocomplete2.hpp", "include/autocomplete3.hpp", "include/autocomplete4.hpp:41-73", "include/unsorted_list.hpp", "test_data/build_inverted_and_forward.py"]}
{"id": "C97", "title": "A collection can be indexed in parts", "statement": "When a collection is split into parts (any number, also overlapping), each with its own index of type 1, 2, 3 or 4, the results of the index of the whole collection are the k best of the results of the parts, in the order of the document ids, for the same query and k. In conjunctive search each part must have the complete terms of the query that the whole collection has.", "quantifier": "every valid collection, every family of valid parts of it, every query, k, histories of earlier queries, standard libraries and memory contents", "why_tests_cant": "It relates the answers of any number of indexes of arbitrary collections; no test builds more than one. It is false in two ways that only matter for special parts: the first term and first completion of a part are treated differently from the others, and a part ignores complete terms it does not have.", "anchors": ["include/autocomplete.hpp", "include/autocomplete2.hpp", "include/autocomplete3.hpp", "include/autocomplete4.hpp", "include/completion_trie.hpp", "include/fc_dictionary.hpp"]}
{"id": "C98", "title": "Document ids and conjunctive search of type 4", "statement": "As C95 and C96 for conjunctive search of index type 4: with the same block size, collections with the same texts and document ids in the same order give the same texts in the same order; and a completion that was shown stays at its place or moves up when no completion gets ahead of it that was not so before.", "quantifier": "every pair of valid collections with the same texts, block size, query, k, history of earlier queries, standard library and memory contents", "why_tests_cant": "It relates the answers of two indexes of arbitrary collections. It is false in a case that looks harmless: getting the best id of a block makes a completion disappear.", "anchors": ["include/autocomplete4.hpp:175-275", "include/blocked_inverted_index.hpp"]}
{"id": "C99", "title": "The script that benchmarks the dictionaries measures the dictionary of terms on terms of the collection", "statement": "After script/benchmark_dictionaries.sh has preprocessed a collection, its last call measures the dictionary of terms for each of the seven bucket sizes: every query that it reads is a term of the collection which is itself a completion (up to 100000 of them, chosen by the preprocessing), every lookup returns the number of that term, every extraction returns the query again and every prefix search returns the interval of the terms that start with the prefix.", "quantifier": "all valid collections, all texts of them, all ways to shuffle the queries, all seven bucket sizes", "why_tests_cant": "The script composes two programs and a file name; whether the program stays in bounds depends on the number of terms and on which terms are chosen, and no test runs it.", "anchors": ["script/benchmark_dictionaries.sh:2-6", "benchmark/benchmark_fc_dictionary.cpp:81-107", "test_data/partition_queries_by_length.py", "include/fc_dictionary.hpp"]}
{"id": "C100", "title": "The size of an index is linear in the collection and in its largest document id", "statement": "Every index that is built from a valid collection is saved to a file of at most 177 bytes for each term of each completion, 4 for each letter of them, 9 for each number up to the largest document id, and 61000 bytes more, whatever the type and the size of blocks. The document ids count: the file has at least a bit for every number up to each document id, so that one completion of one letter can make a file of half a gigabyte.", "quantifier": "all valid collections, all four types, all sizes of blocks, all contents of uninitialised memory, all implementations of the standard library", "why_tests_cant": "A test measures the files of a few collections; that no collection makes a file that grows faster than it needs a bound for every width, every number of buckets and every level of the trie.", "anchors": ["include/autocomplete.hpp:12-41", "include/compact_vector.hpp", "include/ef/ef_sequence.hpp", "include/integer_fc_dictionary.hpp", "include/blocked_inverted_index.hpp"]}
{"id": "C101", "title": "The choice of letters does not matter", "statement": "When every letter of a collection and of a query is replaced by another one, different letters by different ones (and spaces by spaces), and the collection is sorted and indexed again, the same documents are shown in the same order, with their texts in the new letters: the order of the alphabet has no influence on what is found.", "quantifier": "all one-to-one replacements of letters, all valid collections, all queries of text, all numbers of results, both searches, all types of index, all histories of earlier queries", "why_tests_cant": "A replacement of letters sorts the dictionaries in another way and changes every structure; a test compares a few of them.", "anchors": ["include/autocomplete.hpp:36-101", "include/autocomplete2.hpp", "include/autocomplete3.hpp", "include/autocomplete4.hpp", "include/fc_dictionary.hpp:119-132"]}
{"id": "C102", "title": "Different collections have different index files", "statement": "Two index files of the same type with the same bytes were built from the same completions with the same document ids: nothing of the collection is missing from the file, and comparing files (or their checksums, collisions aside) tells whether an index is up to date.", "quantifier": "all pairs of valid collections, all types of index, for type 4 all block sizes and standard libraries, all contents of uninitialised memory", "why_tests_cant": "The claim is about all pairs of collections; a test compares the files of a few, and a loss shows only for certain numbers of strings.", "anchors": ["src/build.cpp:8-28", "include/autocomplete.hpp:149-156", "include/autocomplete2.hpp:157-164", "include/fc_dictionary.hpp:17-89", "include/integer_fc_dictionary.hpp:17-90"]}
{"id": "C103", "title": "The results of a query are the best of those of its continuations", "statement": "The results of a query are the k best of the results, for the same k, of the query followed by one more character, for every character that occurs there, together with the completion whose text is the query. In conjunctive search the space counts as a continuation when the last word is a term. A client that has the results of the continuations need not ask for those of the query.", "quantifier": "every valid collection, every query, every family of continuations that contains those that occur, every number of results from 1 to 15, all histories of searches and standard libraries", "why_tests_cant": "The claim relates the results of a query to those of all its continuations, for all queries and collections; a test compares a few, and differences show only for certain queries, like those that begin the first term of the dictionary.", "anchors": ["include/autocomplete.hpp:36-101", "include/autocomplete2.hpp:39-106", "include/autocomplete3.hpp:47-108", "include/fc_dictionary.hpp:119-171", "include/integer_fc_dictionary.hpp:146-189", "include/autocomplete_common.hpp:13-34"]}
