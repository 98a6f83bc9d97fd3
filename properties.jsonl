{"id": "C01", "title": "daw::sort sorts every range", "statement": "For every finite random-access range and every comparison that is a strict weak ordering, daw::sort(first,last,comp) terminates, touches only positions inside [first,last), and leaves the range a permutation of its old contents in which no later element compares less than an earlier one.", "quantifier": "every range length, every contents, every strict weak ordering, both partition thresholds (trivially copyable or not)", "why_tests_cant": "The quicksort has many branches (guards, all-equal-to-pivot branch, early insertion sort, large-range pivot) that depend on contents; an out-of-range guard scan or a non-terminating recursion only appears for particular contents of unbounded length.", "anchors": ["include/daw/daw_sort_n.h: sort", "include/daw/daw_sort_n.h: sort_details::insertion_sort_incomplete", "include/daw/daw_sort_n.h: sort_details::insertion_sort_3", "include/daw/daw_sort_n.h: sort_details::sort_3_impl", "include/daw/daw_sort_n.h: sort_details::sort_5_impl"]}
{"id": "C02", "title": "Fixed-size sorting networks sort", "statement": "sort_3, sort_4, sort_5, sort_6, sort_7, sort_8, sort_16 and sort_32 leave the first N elements a sorted permutation of their old contents for every strict weak ordering, including orderings with equivalent elements.", "quantifier": "every contents of the N cells and every strict weak ordering", "why_tests_cant": "sort_32 has 32! orders times ties; a single wrong comparator index is wrong for only a tiny fraction of inputs.", "anchors": ["include/daw/daw_sort_n.h: sort_3", "include/daw/daw_sort_n.h: sort_8", "include/daw/daw_sort_n.h: sort_16", "include/daw/daw_sort_n.h: sort_32", "include/daw/daw_sort_n.h: sort_details::swap_if"]}
{"id": "C03", "title": "sort_to writes a sorted copy", "statement": "sort_to(first,last,out) writes to out a sorted permutation of the input range and writes and reads nothing outside the two ranges, for every integral or non-integral element type and for either direction.", "quantifier": "every input range, every element value including negative ones, ascending and descending comparison", "why_tests_cant": "Depends on every value's sign and last digit; an out-of-range bucket index is silent memory corruption.", "anchors": ["include/daw/daw_sort_n.h: sort_to", "include/daw/daw_sort_n.h: counting_sort"]}
{"id": "C04", "title": "daw::vector behaves as a sequence", "statement": "After any sequence of push_back, emplace_back, pop_back, insert (one, n copies, range), erase (one, range), resize, assign, append, reserve, shrink_to_fit, clear and swap calls whose documented preconditions hold, the elements visible through iteration are exactly those of the mathematical sequence on which the same calls were made.", "quantifier": "every finite history of calls, every element value, every growth pattern", "why_tests_cant": "Wrong results depend on the interplay of size, capacity and insertion position over an unbounded history.", "anchors": ["include/daw/vector.h: Vector", "include/daw/vector.h: Vector::insert", "include/daw/vector.h: Vector::erase", "include/daw/vector.h: Vector::append", "include/daw/vector.h: Vector::resize"]}
{"id": "C05", "title": "daw::vector never breaks object lifetime", "statement": "In every such history no element is constructed over a live object, no dead cell is read, assigned or destroyed, no access leaves the allocated block, and destruction of the vector leaves no live element and no unreleased block.", "quantifier": "every finite history of calls", "why_tests_cant": "Lifetime mistakes are undefined behaviour, usually invisible in test output.", "anchors": ["include/daw/vector.h: Vector::move_range", "include/daw/vector.h: Vector::swap_out_circular_buffer", "include/daw/vector.h: Vector::destruct_at_end", "include/daw/split_buffer.h: split_buffer"]}
{"id": "C06", "title": "Inserting an element of the vector into itself", "statement": "v.insert(pos, v[i]) , v.insert(pos, n, v[i]) and v.push_back(v[i]) insert copies of the value v[i] had before the call, for every position, every i and whether or not a reallocation happens.", "quantifier": "every vector, position, count and aliased index", "why_tests_cant": "The aliased element moves while it is being read; the outcome depends on relative order of index, position and spare capacity.", "anchors": ["include/daw/vector.h: Vector::insert"]}
{"id": "C07", "title": "Capacity contract of daw::vector", "statement": "size() <= capacity() always; capacity() never decreases except through shrink_to_fit and move/swap; after reserve(n), inserting up to n elements never reallocates; growing at least doubles the capacity so n push_backs reallocate at most logarithmically often; exceeding max_size throws length_error and leaves the vector unchanged.", "quantifier": "every history of calls and every requested capacity", "why_tests_cant": "Is a statement about all histories; overflow of the growth computation only occurs near the maximum size.", "anchors": ["include/daw/vector.h: Vector::recommend", "include/daw/vector.h: Vector::reserve", "include/daw/vector.h: Vector::push_back"]}
{"id": "C08", "title": "resize_and_overwrite keeps what the operation wrote", "statement": "v.resize_and_overwrite(n, op) calls op on a buffer of n elements and afterwards the vector consists of the first op-result elements of this buffer; nothing outside the block is touched.", "quantifier": "every prior size and capacity, n, and result of op", "why_tests_cant": "Failure depends on relation of old size, n and the returned size.", "anchors": ["include/daw/vector.h: Vector::resize_and_overwrite"]}
{"id": "C09", "title": "Block-wise appending terminates and appends everything", "statement": "Appending through the block-append API with a source of sz elements terminates with the sz elements appended in order.", "quantifier": "every source size and block size", "why_tests_cant": "Non-termination cannot be observed by a finite test in general.", "anchors": ["include/daw/vector.h: Vector::block_append_from"]}
{"id": "C10", "title": "split_buffer is a double-ended sequence", "statement": "Any sequence of push_front, push_back, pop_front, pop_back, clear, reserve and shrink_to_fit on a split_buffer yields the same contents as on a mathematical sequence, keeps first<=begin<=end<=end_cap, and never touches memory outside the block.", "quantifier": "every history of calls", "why_tests_cant": "Sliding versus reallocation depends on the accumulated front and back slack.", "anchors": ["include/daw/split_buffer.h: split_buffer::push_front", "include/daw/split_buffer.h: split_buffer::push_back", "include/daw/split_buffer.h: split_buffer::reserve"]}
{"id": "C11", "title": "A view never escapes its parent", "statement": "Every string_view obtained from another by any sequence of substr, remove_prefix, remove_suffix, pop_front, pop_back, *_until, trim operations denotes a contiguous part of the original text; no operation reads outside the original text.", "quantifier": "every text, every sequence of operations, every count and predicate", "why_tests_cant": "A single size underflow exposes memory outside the text and needs a particular combination of count and remaining length.", "anchors": ["include/daw/daw_string_view.h: basic_string_view::substr", "include/daw/daw_string_view.h: basic_string_view::remove_prefix", "include/daw/daw_string_view.h: basic_string_view::pop_front", "include/daw/daw_string_view.h: basic_string_view::pop_back"]}
{"id": "C12", "title": "string_view comparison is the lexicographic order", "statement": "compare is negative, zero or positive exactly when the text is lexicographically less than, equal to or greater than the other; ==,!=,<,<=,>,>= agree with it and form a total order.", "quantifier": "every pair (triple) of texts", "why_tests_cant": "Order laws quantify over triples of unbounded strings.", "anchors": ["include/daw/daw_string_view.h: basic_string_view::compare", "include/daw/daw_string_view.h: operator=="]}
{"id": "C13", "title": "find and rfind of a substring", "statement": "sv.find(v,pos) is the least i>=pos with v occurring at i, or npos when there is none; sv.rfind(v,pos) is the greatest such i<=pos, or npos.", "quantifier": "every text, needle and position", "why_tests_cant": "Off-by-one at the end or for the exact-length needle shows only for special sizes.", "anchors": ["include/daw/daw_string_view.h: basic_string_view::find", "include/daw/daw_string_view.h: basic_string_view::rfind"]}
{"id": "C14", "title": "find of a character", "statement": "sv.find(c,pos) is the least index i>=pos with sv[i]==c, or npos, and gives the same result at compile time and at run time.", "quantifier": "every text, character and position", "why_tests_cant": "Quantifies over all positions; pos==0 hides the defect.", "anchors": ["include/daw/daw_string_view.h: basic_string_view::find(CharT, size_type)"]}
{"id": "C15", "title": "find_first_of / find_last_of families", "statement": "find_first_of, find_first_not_of, find_last_of, find_last_not_of and their _if forms return the first/last index in the searched part that is/is not in the set, or npos, and read only inside the text.", "quantifier": "every text, set or predicate and position", "why_tests_cant": "Position at or beyond the end and one-byte characters take different code paths.", "anchors": ["include/daw/daw_string_view.h: basic_string_view::find_first_of", "include/daw/daw_string_view.h: basic_string_view::find_last_of", "include/daw/daw_string_view.h: basic_string_view::find_last_not_of"]}
{"id": "C16", "title": "pop_front_until / pop_back_until partition the text", "statement": "pop_front_until(where) returns the part before the first match and leaves the part after the matched delimiter, so result + delimiter + rest is the original text; with no match the result is everything and the rest is empty; keep_delim variants leave the delimiter in the rest. Same for the back variants with the last match; the try_ variants change nothing when there is no match.", "quantifier": "every text and delimiter / predicate", "why_tests_cant": "Quantifies over all texts; partitioning must hold on every one, including delimiters at the ends.", "anchors": ["include/daw/daw_string_view.h: basic_string_view::pop_front_until", "include/daw/daw_string_view.h: basic_string_view::pop_back_until", "include/daw/daw_string_view.h: basic_string_view::try_pop_front_until"]}
{"id": "C17", "title": "Trimming removes exactly the outer whitespace", "statement": "trim, trim_prefix, trim_suffix leave the longest part of the text that does not begin / end with white space, and nothing inside is removed.", "quantifier": "every text", "why_tests_cant": "All-whitespace and interior whitespace cases of unbounded length.", "anchors": ["include/daw/daw_string_view.h: basic_string_view::trim", "include/daw/daw_string_view.h: basic_string_view::trim_prefix", "include/daw/daw_string_view.h: basic_string_view::trim_suffix"]}
{"id": "C18", "title": "starts_with / ends_with / contains", "statement": "starts_with(v) iff the text is v followed by something; ends_with(v) iff it is something followed by v; contains(v) iff v occurs somewhere.", "quantifier": "every text and affix", "why_tests_cant": "Existential statement over all texts.", "anchors": ["include/daw/daw_string_view.h: basic_string_view::starts_with", "include/daw/daw_string_view.h: basic_string_view::ends_with", "include/daw/daw_string_view.h: basic_string_view::contains"]}
{"id": "C19", "title": "is_zero_terminated tells the truth", "statement": "If a view says it is zero terminated then the character just past its end is the terminating zero.", "quantifier": "every history of view operations starting from a literal or std::string", "why_tests_cant": "Flag must be right after every combination of operations.", "anchors": ["include/daw/daw_string_view.h: basic_string_view::is_zero_terminated", "include/daw/daw_string_view.h: basic_string_view::substr", "include/daw/daw_string_view.h: basic_string_view::remove_suffix"]}
{"id": "C20", "title": "search and search_last locate occurrences", "statement": "search(v,pos) returns the first index >= pos at which v occurs or npos, search_last the last one or npos.", "quantifier": "every text, needle and position", "why_tests_cant": "Needles exactly at the end are special.", "anchors": ["include/daw/daw_string_view.h: basic_string_view::search", "include/daw/daw_string_view.h: basic_string_view::search_last"]}
{"id": "C21", "title": "fnv1a hashing is FNV-1a-64 of the bytes", "statement": "fnv1a_hash of a text and std::hash of a string_view equal the published 64-bit FNV-1a function of its bytes; equal texts hash equal no matter how they were produced, and hashing can be done in pieces.", "quantifier": "every byte string and every way to split it", "why_tests_cant": "Bytes >= 0x80 and every length must agree with the reference.", "anchors": ["include/daw/daw_fnv1a_hash.h: fnv1a_hash_t", "include/daw/daw_fnv1a_hash.h: append_hash"]}
{"id": "C22", "title": "lower_bound and upper_bound find the partition points", "statement": "On a range sorted by comp, lower_bound returns the first position whose element is not less than the value, upper_bound the first position whose element is greater than it, with positions before it all on the other side; no position outside the range is read and the search takes at most log2(n)+1 comparisons.", "quantifier": "every sorted (partitioned) range, value and strict weak ordering", "why_tests_cant": "Off-by-one at midpoints depends on range length and value position.", "anchors": ["include/daw/daw_algorithm.h: lower_bound", "include/daw/daw_algorithm.h: upper_bound"]}
{"id": "C23", "title": "binary_search returns an equivalent element", "statement": "On a sorted range binary_search finds an element equivalent to the value exactly when the range contains one, otherwise returns last.", "quantifier": "every sorted range and value", "why_tests_cant": "Depends on the parity of every probed sub-range.", "anchors": ["include/daw/daw_algorithm.h: binary_search"]}
{"id": "C24", "title": "search finds the first occurrence of a sub-range", "statement": "daw::algorithm::search returns the first position at which the needle occurs, or last when it does not; it reads nothing outside the two ranges.", "quantifier": "every haystack, needle and predicate", "why_tests_cant": "Self-overlapping needles of arbitrary length.", "anchors": ["include/daw/daw_algorithm.h: search"]}
{"id": "C25", "title": "min/max/minmax element selection", "statement": "max_element returns the first greatest element; minmax_element returns a least element (the first) and a greatest element (the last), each a position of the range, for odd and even lengths.", "quantifier": "every non-empty range and strict weak ordering", "why_tests_cant": "Pairwise processing: ties at every alignment matter.", "anchors": ["include/daw/daw_algorithm.h: max_element", "include/daw/daw_algorithm.h: minmax_element"]}
{"id": "C26", "title": "equal, not_equal and lexicographical_compare", "statement": "equal is true iff both ranges have the same length and pairwise equal elements; not_equal is its negation; lexicographical_compare is the lexicographic order.", "quantifier": "every pair of ranges", "why_tests_cant": "Negation must hold for all pairs; simple tests use ranges that differ everywhere.", "anchors": ["include/daw/daw_algorithm.h: equal", "include/daw/daw_algorithm.h: not_equal", "include/daw/daw_algorithm.h: lexicographical_compare"]}
{"id": "C27", "title": "remove / remove_if keep exactly the other elements in order", "statement": "remove_if(first,last,pred) returns a position such that the elements before it are exactly those not satisfying pred, in the original order, and nothing outside the range changes.", "quantifier": "every range and predicate", "why_tests_cant": "Quantifies over all patterns of matching elements.", "anchors": ["include/daw/daw_algorithm.h: remove_if", "include/daw/daw_algorithm.h: remove"]}
{"id": "C28", "title": "set_intersection of sorted ranges", "statement": "For sorted inputs the output is sorted and every element appears min(count in first, count in second) times.", "quantifier": "every pair of sorted ranges", "why_tests_cant": "Multiplicities interact for all lengths.", "anchors": ["include/daw/daw_algorithm.h: set_intersection"]}
{"id": "C29", "title": "is_sorted / is_sorted_until / find_unsorted", "statement": "is_sorted_until returns the end of the longest sorted prefix; is_sorted is true iff the whole range is sorted.", "quantifier": "every range and strict weak ordering", "why_tests_cant": "Prefix maximality over all lengths.", "anchors": ["include/daw/daw_algorithm.h: is_sorted_until", "include/daw/daw_algorithm.h: is_sorted"]}
{"id": "C30", "title": "split loses no text", "statement": "splitting a range at a delimiter yields parts which, joined by the delimiter, are the original range.", "quantifier": "every range and delimiter", "why_tests_cant": "Round trip over all texts.", "anchors": ["include/daw/daw_algorithm.h: split"]}
{"id": "C31", "title": "safe_next / safe_prev / begin_at stay inside the range", "statement": "safe_next(it,last,n) advances by min(n, last-it); safe_prev(it,first,n) retreats by min(n,it-first); begin_at(c,n) is begin+min(n,size); for every n representable in the parameter type.", "quantifier": "every range size, position and count", "why_tests_cant": "Wrap around at counts beyond PTRDIFF_MAX.", "anchors": ["include/daw/daw_algorithm.h: safe_next", "include/daw/daw_algorithm.h: safe_prev", "include/daw/daw_algorithm.h: begin_at", "include/daw/daw_algorithm.h: algorithm_details::safe_advance_impl"]}
{"id": "C32", "title": "Variadic equality means all equal", "statement": "are_equal(a,b,c,...) and all_equal are true iff all arguments are equal to each other.", "quantifier": "every number of arguments and every values", "why_tests_cant": "Number of arguments is unbounded; errors need four or more arguments.", "anchors": ["include/daw/daw_algorithm.h: are_equal", "include/daw/daw_algorithm.h: all_equal"]}
{"id": "C33", "title": "partition_range covers the range exactly", "statement": "partition_range(range, count) cuts a range into exactly count consecutive non-overlapping parts covering it in order; every part but the last has max(size/count, MinSize) elements as long as that many are left.", "quantifier": "every range size and number of parts", "why_tests_cant": "Integer division cases for all sizes.", "anchors": ["include/daw/daw_algorithm.h: partition_range"]}
{"id": "C34", "title": "reverse_bits reverses", "statement": "Bit i of reverse_bits(x) is bit (width-1-i) of x for 8, 16, 32 and 64 bit integers, so it is an involution.", "quantifier": "every value of the type", "why_tests_cant": "2^64 values.", "anchors": ["include/daw/daw_integer_reverse.h: reverse_bits"]}
{"id": "C35", "title": "The bit queue is a queue of bits", "statement": "Bits pushed come back out in the order documented: popping from the back returns the oldest bits, popping from the front the newest, and size() is the number of bits held; push fails without change when there is no room.", "quantifier": "every sequence of pushes and pops of any widths that fit", "why_tests_cant": "State space of all histories.", "anchors": ["include/daw/daw_bit_queues.h: basic_bit_queue_gen", "include/daw/daw_bit_queues.h: basic_bit_queue_gen::pop_back", "include/daw/daw_bit_queues.h: basic_bit_queue_gen::push_back"]}
{"id": "C36", "title": "bit_stream reads the concatenation of bits", "statement": "Successive pops from a bit stream return consecutive groups of the most-significant-first bits of the underlying bytes, whatever the group widths; no byte is read beyond the end.", "quantifier": "every byte sequence and every sequence of widths", "why_tests_cant": "Left-over bits carry between calls.", "anchors": ["include/daw/daw_bit_stream.h: bit_stream::pop_bits", "include/daw/daw_bit_stream.h: bit_stream::skip_bits"]}
{"id": "C37", "title": "bitset set/unset/test", "statement": "After set(i) bit i is one, after unset(i) it is zero, and all other bits are unchanged.", "quantifier": "every bitset size, index and contents", "why_tests_cant": "Other-bits-unchanged is a frame condition over all indices.", "anchors": ["include/daw/daw_bitset.h: bitset"]}
{"id": "C38", "title": "static_bitset represents N bits", "statement": "set_bit/clear_bit/get_bit act on the given bit only, construction from an integer keeps its low N bits, and shifts, complement and comparison act as on N-bit integers.", "quantifier": "every width, value, index and shift amount", "why_tests_cant": "Width and index space is unbounded.", "anchors": ["include/daw/daw_static_bitset.h: static_bitset"]}
{"id": "C39", "title": "Byte order conversions", "statement": "swap_bytes reverses the bytes; to_big_endian of a value stores it most significant byte first, conversions to and from network order are mutually inverse and equal a byte reversal on little endian hosts.", "quantifier": "every value of every width, both host byte orders", "why_tests_cant": "2^64 values; host endianness of the test machine is fixed.", "anchors": ["include/daw/daw_endian.h: swap_bytes", "include/daw/daw_endian.h: network_to_host_endian", "include/daw/daw_endian.h: to_big_endian"]}
{"id": "C40", "title": "Mixed-sign integer comparison is mathematical", "statement": "cmp_equal, cmp_less, ... compare the mathematical values of integers of any two integer types; in_range<R>(t) iff t is representable in R.", "quantifier": "every pair of widths and signedness and every pair of values", "why_tests_cant": "Product of two 64-bit spaces.", "anchors": ["include/daw/daw_int_cmp.h: cmp_less", "include/daw/daw_int_cmp.h: cmp_equal", "include/daw/daw_int_cmp.h: in_range"]}
{"id": "C41", "title": "natural_t is always at least one", "statement": "Every natural_t that can be obtained through the API holds a value >= 1, and its arithmetic equals the mathematical one or reports an error.", "quantifier": "every sequence of arithmetic operations", "why_tests_cant": "Wrap around needs extreme values.", "anchors": ["include/daw/daw_natural.h: basic_natural_t"]}
{"id": "C42", "title": "Integer powers", "statement": "pow_n(x,n) is x to the n (modulo the word size) with at most 2*log2(n)+1 multiplications; math::pow(b,e) is b to the e; pow10 tables hold powers of ten.", "quantifier": "every base and exponent", "why_tests_cant": "Exponent space.", "anchors": ["include/daw/daw_cxmath.h: pow_n", "include/daw/daw_cxmath.h: pow", "include/daw/daw_math.h: pow"]}
{"id": "C43", "title": "Floating point classification", "statement": "fp_classify of a float/double given by its bits is zero, subnormal, normal, infinite or NaN exactly as defined by IEEE-754; the field accessors return the exponent and significand.", "quantifier": "every 32 and 64 bit pattern", "why_tests_cant": "2^64 patterns.", "anchors": ["include/daw/daw_cxmath.h: cxmath_impl::fp_classify_impl", "include/daw/daw_cxmath.h: cxmath_impl::is_zero_impl"]}
{"id": "C44", "title": "Counting leading and trailing zeros", "statement": "count_leading_zeroes(v) is the number of zero bits above the highest one bit, count_trailing_zeros the number below the lowest; the type width for zero; portable and builtin versions agree.", "quantifier": "every 32 and 64 bit value", "why_tests_cant": "2^64 values and a multiply-table hash that must be collision free.", "anchors": ["include/daw/daw_cxmath.h: count_leading_zeroes", "include/daw/daw_cxmath.h: cxmath_impl::count_trailing_zeros_cx32"]}
{"id": "C45", "title": "bounded_vector is a sequence of at most N elements", "statement": "Any history of push_back, pop_back, pop_front, assign, erase, resize, clear and swap has the contents of the same history on a mathematical sequence; exceeding the capacity is reported rather than writing outside the array.", "quantifier": "every history and capacity", "why_tests_cant": "Histories are unbounded.", "anchors": ["include/daw/daw_bounded_vector.h: basic_bounded_vector_t"]}
{"id": "C46", "title": "ring_adaptor is a FIFO queue", "statement": "Elements come out of a ring adaptor in the order they went in; a full ring rejects pushes; size is the number of elements held; emplace and push agree.", "quantifier": "every history of pushes and pops and every capacity", "why_tests_cant": "Wrap around of indices.", "anchors": ["include/daw/daw_ring_adaptor.h: ring_adaptor"]}
{"id": "C47", "title": "keep_n keeps the n best values", "statement": "After inserting any values into keep_n it holds the n smallest (under the compare) of all values seen, in sorted order.", "quantifier": "every stream of values and every n", "why_tests_cant": "Unbounded stream.", "anchors": ["include/daw/daw_keep_n.h: keep_n"]}
{"id": "C48", "title": "circular_iterator stays inside its container", "statement": "Moving a circular iterator by any amount in either direction denotes the element whose index is congruent to the sum modulo the container size.", "quantifier": "every container size, position and offset", "why_tests_cant": "Negative multiples of the size.", "anchors": ["include/daw/iterator/daw_circular_iterator.h: circular_iterator"]}
{"id": "C49", "title": "bounded_hash_map is a finite map", "statement": "Any history of insert, operator[], erase, find, exists, try_get behaves as on a finite map, for every hash function; a full map reports it.", "quantifier": "every history, capacity and hash function", "why_tests_cant": "Probe chains depend on the collisions of the whole history.", "anchors": ["include/daw/deprecated/daw_bounded_hash_map.h: bounded_hash_map"]}
{"id": "C50", "title": "hash_set is a finite set", "statement": "insert/exists on a fixed capacity hash set behave as on a finite set; inserting into a full set throws.", "quantifier": "every history, capacity and hash function", "why_tests_cant": "Probe chains over all histories.", "anchors": ["include/daw/daw_hash_set.h: hash_set_t"]}
{"id": "C51", "title": "perfect_hash_table answers exactly its keys", "statement": "For any set of distinct keys for which construction succeeds, find(key) returns the value given with that key and contains/find of any other key report absence; construction succeeds for every set of distinct keys with distinct hashes.", "quantifier": "every key set and hash function", "why_tests_cant": "Displacement search is data dependent.", "anchors": ["include/daw/daw_min_perfect_hash.h: perfect_hash_table"]}
{"id": "C52", "title": "static_hash_t answers by key", "statement": "Lookup in a static_hash_t returns the value associated with that key and reports absence otherwise.", "quantifier": "every key set and hash function", "why_tests_cant": "Needs hash collisions and full tables.", "anchors": ["include/daw/static_hash_table.h: static_hash_t"]}
{"id": "C53", "title": "graph stays consistent", "statement": "After any history of add_node, remove_node, add_directed_edge, add_undirected_edge, remove_edge: x lists y as outgoing iff y lists x as incoming; no edge mentions a removed or never created node; node ids are never reused; size() is the number of nodes present.", "quantifier": "every history of graph operations", "why_tests_cant": "Invariants over all histories.", "anchors": ["include/daw/daw_graph.h: graph_t"]}
{"id": "C54", "title": "topological walk visits in topological order", "statement": "topological_sorted_walk visits each node at most once and never before all its predecessors; on an acyclic graph it visits every node; it always terminates.", "quantifier": "every finite graph", "why_tests_cant": "All graphs.", "anchors": ["include/daw/daw_graph_algorithm.h: topological_sorted_walk"]}
{"id": "C55", "title": "BFS and DFS visit exactly the reachable nodes", "statement": "bfs_walk and dfs_walk from a start node terminate and visit exactly the nodes reachable from it, each exactly once.", "quantifier": "every finite graph and start node", "why_tests_cant": "Diamonds and cycles of every size.", "anchors": ["include/daw/daw_graph_algorithm.h: bfs_walk", "include/daw/daw_graph_algorithm.h: dfs_walk"]}
{"id": "C56", "title": "mst yields a spanning tree", "statement": "mst leaves a graph on the same nodes whose edges are edges of the input, without undirected cycles among the reached nodes, reaching the same nodes from each root.", "quantifier": "every finite graph", "why_tests_cant": "All graphs.", "anchors": ["include/daw/daw_graph_algorithm.h: mst"]}
{"id": "C57", "title": "rc_ptr destroys its object exactly once", "statement": "In every history of construction, copy, move, assignment, reset and destruction of rc_ptr handles, the object is destroyed exactly once, when the last handle lets go, and no live handle refers to a destroyed object.", "quantifier": "every history over any number of handles", "why_tests_cant": "Double free depends on the order of operations.", "anchors": ["include/daw/daw_ref_counted_pointer.h: rc_ptr"]}
{"id": "C58", "title": "atomic_wait helpers report truthfully", "statement": "atomic_wait_value_equal_for, atomic_wait_if_for etc. end if the clock gets past the deadline; they return found only if a value read from the atomic during the call satisfied the condition, and timeout only if the deadline passed with the last read value not satisfying it.", "quantifier": "every sequence of concurrent values observed and clock readings", "why_tests_cant": "All schedules of the other threads.", "anchors": ["include/daw/daw_atomic_wait.h: atomic_wait_value_equal_for", "include/daw/daw_atomic_wait.h: atomic_wait_if_for"]}
{"id": "C59", "title": "siphash is SipHash-2-4", "statement": "The sip hash of a byte string with a key equals the published SipHash-2-4.", "quantifier": "every byte string and key", "why_tests_cant": "Bytes >= 0x80 and every length modulo 8.", "anchors": ["include/daw/daw_sip_hash.h: sip_hash"]}
{"id": "C60", "title": "metro hash is MetroHash64", "statement": "metro::hash64 of a byte string equals the published MetroHash64.", "quantifier": "every byte string and seed", "why_tests_cant": "Bytes >= 0x80 and every length modulo 32.", "anchors": ["include/daw/daw_metro_hash.h: metro::hash64"]}
{"id": "C61", "title": "Integer parsing", "statement": "parse_int of the decimal rendering of any integer representable in the result type returns that integer; parse_unsigned_int likewise; text that is not a number or not representable is rejected.", "quantifier": "every text", "why_tests_cant": "Round trip over all values and rejection over all texts.", "anchors": ["include/daw/daw_parse_to.h: parse_to_value", "include/daw/daw_parse_to.h: parse_int", "include/daw/daw_parse_to.h: parse_unsigned_int"]}
{"id": "C62", "title": "Splitters cut at every delimiter", "statement": "Splitting a text with the single delimiter splitter gives parts that joined with the delimiter are the text; apply_string_part / parse_to hand the k-th part to the k-th parser.", "quantifier": "every text and number of parts", "why_tests_cant": "All texts.", "anchors": ["include/daw/daw_parse_to.h: default_splitter", "include/daw/daw_parse_to.h: parse_to"]}
{"id": "C63", "title": "Parser helper results denote parts of the input", "statement": "until*, trim_*, split_* from daw_parser_helper return sub-ranges of the input with the documented contents and terminate.", "quantifier": "every input range and predicate", "why_tests_cant": "Non-termination and truncation depend on contents.", "anchors": ["include/daw/daw_parser_helper.h: until", "include/daw/daw_parser_helper.h: trim_right", "include/daw/daw_parser_helper.h: split_if", "include/daw/daw_parser_helper.h: value_in"]}
{"id": "C64", "title": "Chunk concatenates back to the range", "statement": "Iterating Chunk(n) over a range yields consecutive sub-ranges of n elements (the last possibly shorter) whose concatenation is the range; no chunk reaches past the end.", "quantifier": "every range and n>=1", "why_tests_cant": "Lengths not divisible by n.", "anchors": ["include/daw/pipelines/chunk.h: chunk_view"]}
{"id": "C65", "title": "Slide yields all windows", "statement": "Iterating Slide(n) over a range yields exactly the contiguous windows of n elements in order, none if the range is shorter than n.", "quantifier": "every range and n>=1", "why_tests_cant": "All lengths relative to n.", "anchors": ["include/daw/pipelines/slide.h: slide_view"]}
{"id": "C66", "title": "Split view round trip", "statement": "The parts yielded by Split(d), joined with d, give back the range.", "quantifier": "every range and delimiter (element, predicate or range)", "why_tests_cant": "Trailing and multi-element delimiters.", "anchors": ["include/daw/pipelines/split.h: split_view_iterator"]}
{"id": "C67", "title": "TakeWhile / TakeUntil / Filter", "statement": "Filter(p) yields exactly the elements satisfying p in order; TakeWhile(p) yields the longest prefix satisfying p; TakeUntil(p) the prefix before the first element satisfying p.", "quantifier": "every range and predicate", "why_tests_cant": "All ranges.", "anchors": ["include/daw/pipelines/filter.h: filter_view", "include/daw/pipelines/take.h: TakeWhile", "include/daw/pipelines/take.h: TakeUntil"]}
{"id": "C68", "title": "Concat view is concatenation", "statement": "Iterating Concat over ranges yields their elements one range after the other.", "quantifier": "every tuple of ranges, including empty ones", "why_tests_cant": "Empty ranges at any place.", "anchors": ["include/daw/pipelines/concat.h: concat_view"]}
{"id": "C69", "title": "Flatten view is the join", "statement": "Iterating Flatten over a range of ranges yields the concatenation of the inner ranges.", "quantifier": "every range of ranges, including empty inner ranges", "why_tests_cant": "Empty inner ranges at any place.", "anchors": ["include/daw/pipelines/flatten.h: flatten_view"]}
{"id": "C70", "title": "Unique view drops adjacent duplicates", "statement": "Iterating Unique yields the range with every run of equal adjacent elements replaced by its first element.", "quantifier": "every range", "why_tests_cant": "All run structures.", "anchors": ["include/daw/pipelines/unique.h: unique_view"]}
{"id": "C71", "title": "span_writer writes consecutively and never past the end", "statement": "Any sequence of writes through a span_writer stores the written elements consecutively from the start of the buffer; a write that does not fit fails without changing anything; elements not yet written keep their value.", "quantifier": "every buffer and sequence of writes", "why_tests_cant": "Histories and exact-fit boundaries.", "anchors": ["include/daw/daw_span_writer.h: span_writer::write", "include/daw/daw_span_writer.h: write_to_span"]}
{"id": "C72", "title": "all_of / any_of / none_of / count_if", "statement": "any_of, all_of and none_of decide whether some, every, no element of the range satisfies the predicate; count_if counts those that do.", "quantifier": "every range and predicate", "why_tests_cant": "All patterns of matching elements at all lengths.", "anchors": ["include/daw/daw_algorithm.h: all_of", "include/daw/daw_algorithm.h: any_of", "include/daw/daw_algorithm.h: none_of", "include/daw/daw_algorithm.h: count_if"]}
{"id": "C73", "title": "reverse mirrors a range", "statement": "reverse(first,last) exchanges element first+k with element last-1-k for every k, terminates for odd and even lengths, and changes nothing outside the range.", "quantifier": "every block and every sub-range of it", "why_tests_cant": "Odd and even lengths meet in the middle differently; all lengths.", "anchors": ["include/daw/daw_algorithm.h: reverse"]}
{"id": "C74", "title": "append_and_overwrite appends what the operation made", "statement": "vector::append_and_overwrite(n, op) keeps the existing elements and appends exactly the elements the operation constructed and reported; if reserve throws, the vector is unchanged.", "quantifier": "every vector, every n with size()+n representable, every operation that constructs a prefix of its buffer and reports its length", "why_tests_cant": "The operation is arbitrary code; whether storage moves depends on the capacity.", "anchors": ["include/daw/vector.h: vector::append_and_overwrite"]}
{"id": "C75", "title": "split_buffer pushes of own elements", "statement": "push_back(x) and push_front(x) on a split_buffer add a copy of x also when x refers to an element of the buffer.", "quantifier": "every buffer, element index and amount of slack", "why_tests_cant": "Only some slack and capacity combinations invalidate the reference.", "anchors": ["include/daw/split_buffer.h: split_buffer::push_back", "include/daw/split_buffer.h: split_buffer::push_front"]}
{"id": "C76", "title": "Runs of satisfying elements", "statement": "find_last_of returns the last position of the run of satisfying elements that starts at first, or last if there is no such run; find_first_range_of returns the first maximal run of satisfying elements.", "quantifier": "every block, sub-range and predicate", "why_tests_cant": "All run structures and lengths.", "anchors": ["include/daw/daw_algorithm.h: find_last_of", "include/daw/daw_algorithm.h: find_first_range_of"]}
{"id": "C77", "title": "The find family finds the first", "statement": "find, find_index_if, find_index_of_if, contains_if, adjacent_find, find_transform, find_some and find_one_of report the first place that satisfies the condition (with the transformed value, the results of all predicates, or the index of the first satisfied predicate), and say so if there is none.", "quantifier": "every range, predicate and list of predicates", "why_tests_cant": "All positions of the first match at all lengths.", "anchors": ["include/daw/daw_algorithm.h: find_index_if", "include/daw/daw_algorithm.h: find_some", "include/daw/daw_algorithm.h: find_one_of", "include/daw/algorithms/daw_algorithm_adjacent_find.h: adjacent_find", "include/daw/algorithms/daw_algorithm_find_transform.h: find_transform"]}
{"id": "C78", "title": "transform, copy, move, fill and iota write what they should", "statement": "transform(first,last,out,f) (copy and move with f the identity) leaves f of the k-th original input element at out+k, also when the output overlaps the input from the front, and changes nothing else; the _n forms, fill, fill_n and iota alike.", "quantifier": "every block, input range and output position not inside the input", "why_tests_cant": "Overlapping ranges at every distance.", "anchors": ["include/daw/daw_algorithm.h: transform", "include/daw/daw_algorithm.h: transform_n", "include/daw/algorithms/daw_algorithm_copy.h: copy", "include/daw/algorithms/daw_algorithm_copy_n.h: copy_n", "include/daw/daw_algorithm.h: fill_n", "include/daw/daw_algorithm.h: iota"]}
{"id": "C79", "title": "transform_if and copy_if", "statement": "transform_if and copy_if write the images of exactly the satisfying elements, in order, and return the end of what they wrote; nothing else changes, also in place.", "quantifier": "every block, input range, predicate and output position not inside the input", "why_tests_cant": "All selections at all lengths, in place.", "anchors": ["include/daw/daw_algorithm.h: transform_if", "include/daw/daw_algorithm.h: copy_if"]}
{"id": "C80", "title": "Folds", "statement": "accumulate and reduce are left folds and compose over concatenation, for associative operations independently of where the range is cut; map_reduce folds the mapped pairs; partial_sum writes the fold of every prefix.", "quantifier": "every range, operation and initial value", "why_tests_cant": "All lengths and operations.", "anchors": ["include/daw/algorithms/daw_algorithm_accumulate.h: accumulate", "include/daw/daw_algorithm.h: map_reduce", "include/daw/algorithms/daw_algorithm_partial_sum.h: partial_sum"]}
{"id": "C81", "title": "consume_if hands over what it removes", "statement": "consume_if(first,last,pred,func) calls func with exactly the elements that satisfy pred, and leaves the others as remove_if does.", "quantifier": "every block, sub-range and predicate", "why_tests_cant": "Depends on the pattern of matches.", "anchors": ["include/daw/daw_algorithm.h: consume_if"]}
{"id": "C82", "title": "equal and not_equal with one end iterator", "statement": "equal(first,last,first2) is true exactly if the second range starts with the first, and not_equal is its negation.", "quantifier": "every two ranges, the second at least as long", "why_tests_cant": "All combinations of equal and different places.", "anchors": ["include/daw/daw_algorithm.h: equal", "include/daw/daw_algorithm.h: not_equal"]}
{"id": "C83", "title": "Extremes of values", "statement": "min_item and max_item return an argument that no other argument is less, greater than; minmax_item orders two values keeping equivalent ones in place; clamp never exceeds its bound.", "quantifier": "every strict weak ordering and number of arguments", "why_tests_cant": "All orders of all numbers of arguments.", "anchors": ["include/daw/daw_algorithm.h: min_item", "include/daw/daw_algorithm.h: max_item", "include/daw/daw_algorithm.h: minmax_item", "include/daw/daw_algorithm.h: clamp"]}
{"id": "C84", "title": "Size and flag share one word without disturbing each other", "statement": "A string_view keeps its size and the zero terminated flag in one 64 bit member: every constructor and every elementary change (removing or adding characters at either end, resize, clear, marking) yields the size it should and the flag it should.", "quantifier": "every view with fewer than 2^63 characters and every count", "why_tests_cant": "A borrow or carry between the two needs extreme sizes or a particular sequence.", "anchors": ["include/daw/daw_string_view.h: basic_string_view::dec_front", "include/daw/daw_string_view.h: basic_string_view::dec_back", "include/daw/daw_string_view.h: basic_string_view::size"]}
{"id": "C85", "title": "find_first_match finds the first of several needles", "statement": "find_first_match(needles, pos) is the least position from pos on at which one of the needles occurs, or npos.", "quantifier": "every text, list of needles and position", "why_tests_cant": "Needles that share a front part or end past the text are special.", "anchors": ["include/daw/daw_string_view.h: basic_string_view::find_first_match"]}
{"id": "C86", "title": "Popping a number of characters splits the text", "statement": "pop_front(count), pop_back(count), their unsafe forms and pop_front(), pop_back() return the characters they remove, in order, and leave exactly the others.", "quantifier": "every text and count", "why_tests_cant": "All counts, also beyond the size.", "anchors": ["include/daw/daw_string_view.h: basic_string_view::pop_front", "include/daw/daw_string_view.h: basic_string_view::pop_back", "include/daw/daw_string_view.h: basic_string_view::pop_front_unsafe"]}
{"id": "C87", "title": "copy writes exactly the characters asked for", "statement": "copy(dest, count, pos) writes min(count, size - pos) characters from pos on to dest, nothing else, and returns their number.", "quantifier": "every text, destination, count and position", "why_tests_cant": "Frame condition on the destination.", "anchors": ["include/daw/daw_string_view.h: basic_string_view::copy"]}
{"id": "C88", "title": "Writing a view to a stream pads to the width", "statement": "operator<< writes the text filled up to the width of the stream with its fill character on the side its flags ask for, resets the width, and writes a front part of that if the stream fails on the way.", "quantifier": "every text, width, fill, alignment and pattern of failing writes", "why_tests_cant": "Padding is written in pieces of eight, failures may hit each piece.", "anchors": ["include/daw/daw_string_view.h: operator<<", "include/daw/daw_string_view.h: sv_insert_aligned", "include/daw/daw_string_view.h: sv_insert_fill_chars"]}
{"id": "C89", "title": "static_bitset counts and texts", "statement": "one_count and zero_count count the one and zero bits of the set, the hexadecimal text is that of the number the set stands for, most significant digit first, and so is the binary text.", "quantifier": "every width and every set of bits", "why_tests_cant": "2^N sets for every width N; tests print a few.", "anchors": ["include/daw/daw_static_bitset.h: one_count", "include/daw/daw_static_bitset.h: to_string"]}
{"id": "C90", "title": "Derived integer functions of cxmath", "statement": "round_up_pow2(v) is the least power of two not below v, count_digits the number of decimal digits, popcount the number of one bits, is_odd and is_even tell the parity.", "quantifier": "every value of the argument types", "why_tests_cant": "2^64 values; the ends of the ranges are special.", "anchors": ["include/daw/daw_cxmath.h: round_up_pow2", "include/daw/daw_cxmath.h: count_digits", "include/daw/daw_cxmath.h: popcount", "include/daw/daw_cxmath.h: is_odd"]}
{"id": "C91", "title": "Integer functions of daw::math", "statement": "pow2(n) is two to the n, abs(n) the magnitude of n, factorial(n) the product of the numbers from one to n, whenever these can be represented.", "quantifier": "every argument", "why_tests_cant": "Ranges of 2^64 values; recursion depth.", "anchors": ["include/daw/daw_math.h: pow2", "include/daw/daw_math.h: abs", "include/daw/daw_math.h: factorial"]}
{"id": "C92", "title": "graph node proxies compare as nodes", "statement": "operator== of graph_node_t and const_graph_node_t holds exactly if both refer to the same node of the same graph, and operator!= is its negation.", "quantifier": "every pair of proxies", "why_tests_cant": "All pairs, including nodes of one graph and equal ids of two graphs.", "anchors": ["include/daw/daw_graph.h: graph_node_t", "include/daw/daw_graph.h: const_graph_node_t"]}
{"id": "C93", "title": "walks sort children by a strict weak order", "statement": "Whenever the caller's comparison is a strict weak order, every comparison handed to std::sort by the ordered walks is one, as std::sort requires.", "quantifier": "every strict weak order", "why_tests_cant": "A violation is undefined behaviour that shows only with some inputs and some sort implementations.", "anchors": ["include/daw/daw_graph_algorithm.h: graph_alg_impl::topological_sorted_walk", "include/daw/daw_graph_algorithm.h: graph_alg_impl::dfs_walk"]}
{"id": "C94", "title": "sorted ranges iterate the walk", "statement": "Iterating make_topological_sorted_range reads the nodes of topological_sorted_walk in order, and iterating make_reverse_topological_sorted_range (or rbegin to rend) reads them in reverse order.", "quantifier": "every finite graph", "why_tests_cant": "Reading outside the vector need not fail.", "anchors": ["include/daw/daw_graph_algorithm.h: make_topological_sorted_range", "include/daw/daw_graph_algorithm.h: make_reverse_topological_sorted_range"]}
{"id": "C95", "title": "atomic_wait helpers return as soon as they see the condition", "statement": "Once a value read from the atomic object satisfies the condition, the wait returns found.", "quantifier": "every sequence of concurrent values observed and clock readings", "why_tests_cant": "All schedules of the other threads.", "anchors": ["include/daw/daw_atomic_wait.h: atomic_wait_for", "include/daw/daw_atomic_wait.h: atomic_wait_if_for"]}
{"id": "C96", "title": "unique_ptr deletes every object exactly once", "statement": "Over any program of constructions, moves, assignments, resets, releases, swaps and destructions of daw::unique_ptr, each object handed in is owned by at most one pointer, is deleted exactly once or released to the program, and a null pointer is never deleted.", "quantifier": "every sequence of operations on any number of pointers", "why_tests_cant": "Interleavings of moves, releases and destructions are unbounded, and a double delete need not fail.", "anchors": ["include/daw/daw_unique_ptr.h: unique_ptr::reset", "include/daw/daw_unique_ptr.h: unique_ptr::release", "include/daw/daw_unique_ptr.h: unique_ptr::operator="]}
{"id": "C97", "title": "unique_ptr comparison operators agree with the pointers", "statement": "Each of ==, !=, <, <=, > and >= on two unique_ptr gives the same answer as on the pointers they hold.", "quantifier": "every pair of pointers", "why_tests_cant": "Each operator is written by hand; the table of all pairs and operators is not tested.", "anchors": ["include/daw/daw_unique_ptr.h: operator<=", "include/daw/daw_maybe_unique_ptr.h: operator<="]}
{"id": "C98", "title": "maybe_unique_ptr deletes what it owns exactly once and never what it borrows", "statement": "Over any program of operations on maybe_unique_ptr every owned object is deleted exactly once or released, and a borrowed object is never deleted.", "quantifier": "every sequence of operations on any number of pointers", "why_tests_cant": "Interleavings of moves, resets and destructions of owning and borrowing pointers are unbounded.", "anchors": ["include/daw/daw_maybe_unique_ptr.h: maybe_unique_ptr::operator=", "include/daw/daw_maybe_unique_ptr.h: maybe_unique_ptr::reset"]}
{"id": "C99", "title": "value_ptr behaves as an optional value", "statement": "Any program on value_ptr variables has the same observable values as the same program on plain optional values; pointers stay valid and unshared and nothing leaks.", "quantifier": "every sequence of operations on any number of variables", "why_tests_cant": "Sharing and leaks appear only in some sequences of copies, moves and assignments.", "anchors": ["include/daw/daw_value_ptr.h: value_ptr"]}
{"id": "C100", "title": "value_ptr::compare is a weak order with empty first", "statement": "With a strict weak order Compare, compare is antisymmetric, reflexive and transitive, an empty value_ptr precedes every other, and engaged ones compare as their values.", "quantifier": "every strict weak order and every three values", "why_tests_cant": "All comparators and triples of values.", "anchors": ["include/daw/daw_value_ptr.h: value_ptr::compare"]}
{"id": "C101", "title": "heap_value behaves as a value", "statement": "Any program on heap_value variables has the same observable values as the same program on plain values, including variables that were moved from; nothing leaks.", "quantifier": "every sequence of operations on any number of variables", "why_tests_cant": "States after moves are many and dereferencing null need not fail.", "anchors": ["include/daw/deprecated/daw_heap_value.h: heap_value"]}
{"id": "C102", "title": "copiable_unique_ptr copies deeply", "statement": "Any program on copiable_unique_ptr has the same observable values as on plain optional values, where copies copy the value or the empty state and move assignment exchanges; pointers stay valid and unshared and nothing leaks.", "quantifier": "every sequence of operations on any number of variables", "why_tests_cant": "Sharing and leaks appear only in some sequences of copies, moves and assignments.", "anchors": ["include/daw/deprecated/daw_copiable_unique_ptr.h: copiable_unique_ptr"]}
{"id": "C103", "title": "poly_value is never empty and copies deeply", "statement": "Any program on poly_value variables has the same observable values as on plain values; a live variable always holds one, also after it was moved from.", "quantifier": "every sequence of operations on any number of variables and every effect of moving from an object", "why_tests_cant": "Sharing and leaks appear only in some sequences of copies, moves and assignments.", "anchors": ["include/daw/daw_poly_value.h: poly_value"]}
{"id": "C104", "title": "unique_resource deletes every resource exactly once", "statement": "Over any program of constructions, moves, assignments, releases, resets and destructions of unique_resource_t, each resource handed in is deleted exactly once or released to the program.", "quantifier": "every sequence of operations on any number of variables", "why_tests_cant": "A second delete of the same handle need not fail, and the sequences are unbounded.", "anchors": ["include/daw/daw_unique_resource.h: unique_resource_t::reset", "include/daw/daw_unique_resource.h: unique_resource_t::operator="]}
{"id": "C105", "title": "a scope guard runs its action exactly once", "statement": "Over any program of creations, moves, dismissals and destructions of ScopeGuard, every action that was not dismissed runs exactly once and every dismissed action never.", "quantifier": "every sequence of operations on any number of guards", "why_tests_cant": "Moves of guards and throwing actions combine without bound.", "anchors": ["include/daw/daw_scope_guard.h: ScopeGuard"]}
{"id": "C106", "title": "on_exit_success runs its action exactly when the scope is left normally", "statement": "An on_exit_success guard runs its action if its scope is left normally and does not if it is left by an exception, also when the scope runs during unwinding of another exception.", "quantifier": "every program of nested scopes, throws, catches, guards and destructors", "why_tests_cant": "Scopes executed during unwinding are rarely tested, and nesting is unbounded.", "anchors": ["include/daw/daw_scope_guard.h: on_exit_success"]}
{"id": "C107", "title": "countable_resource counts the live objects", "statement": "After any program of constructions, copies, assignments and destructions of countable_resource_t the shared counter is the number of objects alive, modulo the size of the counter.", "quantifier": "every sequence of copies, moves and destructions", "why_tests_cant": "Orders of copies and destructions are unbounded.", "anchors": ["include/daw/daw_countable_resource.h: countable_resource_t"]}
{"id": "C108", "title": "allow_once admits exactly one caller between resets", "statement": "In any interleaving of checks and resets of an allow_once_t, a check reports that it is the first exactly if no other check happened since the construction or the last reset.", "quantifier": "every interleaving of any number of tests", "why_tests_cant": "Races between threads are not reproducible.", "anchors": ["include/daw/daw_allow_once.h: allow_once_t"]}
{"id": "C109", "title": "moving a take_t leaves the default value and loses nothing", "statement": "After move assignment between take_t variables the target has the value of the source, a different source has the default value, a self assignment keeps the value, and no other variable changes.", "quantifier": "every state of memory and every pair of variables", "why_tests_cant": "Aliasing of source and destination.", "anchors": ["include/daw/daw_take.h: take_t"]}
{"id": "C110", "title": "not_null never holds null", "statement": "After any sequence of constructions, assignments and moves a not_null pointer is not null, or the program was stopped.", "quantifier": "every sequence of operations", "why_tests_cant": "Sequences of moves of smart pointers inside not_null are unbounded.", "anchors": ["include/daw/daw_not_null.h: not_null"]}
{"id": "C111", "title": "optional comparison operators order empty first", "statement": "All comparisons of optional with optional, with nullopt and with values, in both argument orders, agree with the order in which empty precedes every value.", "quantifier": "every order of values, every pair of arguments and every operator", "why_tests_cant": "Eighteen hand-written operators over all values and states.", "anchors": ["include/daw/daw_optional.h: operator>=", "include/daw/daw_optional.h: operator<"]}
{"id": "C112", "title": "expected_t is a value, an exception or empty", "statement": "After any sequence of constructions, assignments and calls of from_code an expected_t is in exactly one of its states, the last one stored, and get returns or rethrows exactly that.", "quantifier": "every sequence of operations and every behaviour of the called function", "why_tests_cant": "Null exception pointers and throwing operations are rarely tested.", "anchors": ["include/daw/daw_expected.h: expected_t::from_code", "include/daw/daw_expected.h: expected_t::get"]}
{"id": "C113", "title": "safe_pointer stays inside its range", "statement": "Every increment, decrement and addition of any offset either leaves the safe_pointer inside its array or stops the program.", "quantifier": "every array length, position and offset and every sequence of moves", "why_tests_cant": "Offsets near the limits of the integer type and single-pointer construction.", "anchors": ["include/daw/daw_safe_pointer.h: safe_pointer::operator+=", "include/daw/daw_safe_pointer.h: safe_pointer::operator-="]}
{"id": "C114", "title": "safe_pointer reads the element it designates", "statement": "Dereferencing and indexing a safe_pointer return the element at that position, or stop the program when there is none.", "quantifier": "every array, position and index", "why_tests_cant": "All positions and indices, including those outside.", "anchors": ["include/daw/daw_safe_pointer.h: safe_pointer::operator[]", "include/daw/daw_safe_pointer.h: safe_pointer::operator*"]}
{"id": "C115", "title": "safe_pointer difference inverts addition", "statement": "The difference of two safe_pointers into one array is the offset which added to the second gives the first.", "quantifier": "every array and pair of positions including the end", "why_tests_cant": "Pointers at the end of the array.", "anchors": ["include/daw/daw_safe_pointer.h: operator-"]}
{"id": "C116", "title": "shared_function destroys its callable and storage exactly once under all interleavings", "statement": "In any interleaving of the atomic steps of any number of threads copying, locking, calling and destroying shared_function and weak_shared_function handles, no deleted storage is touched, no destroyed callable is called, the callable is destroyed exactly once, as soon as the last shared_function is gone, and the storage is deleted exactly once, after the last handle.", "quantifier": "every interleaving of any number of threads and handles", "why_tests_cant": "Races between threads are not reproducible.", "anchors": ["include/daw/daw_shared_function.h: strong_copy", "include/daw/daw_shared_function.h: weak_upgrade", "include/daw/daw_shared_function.h: strong_release"]}
{"id": "C117", "title": "weak_shared_function::lock fails only when the function is gone", "statement": "lock returns an empty function only when no shared_function exists or is being copied or locked by another thread, and a successful lock holds the callable from the moment its exchange succeeds.", "quantifier": "every interleaving of any number of threads and handles", "why_tests_cant": "The race of lock with the end of the last shared_function is not reproducible.", "anchors": ["include/daw/daw_shared_function.h: weak_upgrade", "include/daw/daw_shared_function.h: lock"]}
{"id": "C118", "title": "shuffle can return every permutation, each by exactly one choice", "statement": "Whatever the engine delivers, shuffle stays inside the range and returns a permutation of it, and every permutation of distinct elements is the result of exactly one sequence of random choices.", "quantifier": "every sequence of random numbers within the requested bounds, every range and every permutation", "why_tests_cant": "A bias needs statistics over many runs to be seen, and the number of permutations grows factorially.", "anchors": ["include/daw/daw_random.h: shuffle"]}
{"id": "C119", "title": "random values stay between their bounds and fill exactly their range", "statement": "random_fill writes exactly its range, make_random_data returns exactly the number of values asked for, and these and RandomInteger return values between their inclusive bounds for all bounds in order.", "quantifier": "every pair of bounds, every range and every engine", "why_tests_cant": "Random results differ from run to run and the extreme bounds are rarely drawn.", "anchors": ["include/daw/daw_random.h: random_fill", "include/daw/daw_random.h: make_random_data", "include/daw/daw_random.h: RandomInteger"]}
{"id": "C120", "title": "static_random has full period", "statement": "From every seed the states of static_random repeat after exactly 2^64 calls (2^32 on a 32 bit system) and every state is reached.", "quantifier": "every seed and any number of calls", "why_tests_cant": "A period of 2^64 cannot be run.", "anchors": ["include/daw/daw_random.h: rand_lcg", "include/daw/daw_random.h: static_random"]}
{"id": "C121", "title": "daw::function owns its callable like a value", "statement": "Over any program of constructions, copies, moves, assignments, calls and destructions of function, a call calls the callable last stored, an empty function throws, and the destructor of every stored callable runs exactly once, after its last call.", "quantifier": "every sequence of operations on any number of functions with callables with and without destructors", "why_tests_cant": "A destructor that runs twice or too early need not be noticed, and sequences are unbounded.", "anchors": ["include/daw/daw_stack_function.h: function_storage", "include/daw/daw_stack_function.h: store_if_not_empty"]}
{"id": "C122", "title": "iota iterators compare as their values", "statement": "==, !=, <, <=, > and >= of two iota_iterators answer what the same operator answers for their values.", "quantifier": "every integer type, every pair of values and steps", "why_tests_cant": "The operators are wrong only for some types and pairs of values, and there are too many pairs to try.", "anchors": ["include/daw/iterator/daw_iota_iterator.h: iota_iterator::compare"]}
{"id": "C123", "title": "iota iterators keep the laws of random access iterators", "statement": "it + n, it - n, it += n, it -= n and it[n] are what n increments or decrements give, and ( it + n ) - it is n.", "quantifier": "every integer type, value, step and count that do not overflow", "why_tests_cant": "Laws that hold for a step of one need not hold for another step, and the values wrap around in some types only.", "anchors": ["include/daw/iterator/daw_iota_iterator.h: iota_iterator"]}
{"id": "C124", "title": "a loop over iota_range sees the numbers from start up to last", "statement": "The loop over iota_range( start, last, step ) ends and its body sees exactly start, start + step, .. as long as they are before last.", "quantifier": "every integer type, start, last and step that do not overflow", "why_tests_cant": "A loop that never ends or never starts depends on the type and on whether the step divides the distance.", "anchors": ["include/daw/iterator/daw_iota_iterator.h: iota_range"]}
{"id": "C125", "title": "chunk iterators walk a range chunk by chunk", "statement": "A loop with chunk_iterator over a range sees every element once and in order in chunks of the given size, ++ and -- undo each other, and it + n, it - n and differences count chunks.", "quantifier": "every range, every chunk size and every number of steps", "why_tests_cant": "Chunk sizes that do not divide the length and backward steps are easily left out.", "anchors": ["include/daw/iterator/daw_chunk_iterator.h: chunk_iterator"]}
{"id": "C126", "title": "repeat_n_char_iterator is n times the character", "statement": "The range from repeat_n_char_iterator( n, c ) to its end is n times c and the iterator keeps the laws of a random access iterator.", "quantifier": "every count, character and number of steps", "why_tests_cant": "Counts are unbounded, and a wrong direction of + is not seen by a loop with ++.", "anchors": ["include/daw/iterator/daw_repeat_n_char_iterator.h: repeat_n_char_iterator"]}
{"id": "C127", "title": "a reverse iterator is an iterator into the reversed block", "statement": "Every program of copies, assignments, moves, reads, differences and comparisons of reverse iterators sees what the same program sees with plain iterators into the reversed block.", "quantifier": "every block and every sequence of operations on any number of iterators", "why_tests_cant": "Off by one errors show up only for particular combinations of moves, and sequences are unbounded.", "anchors": ["include/daw/iterator/daw_reverse_iterator.h: reverse_iterator"]}
{"id": "C128", "title": "a counting iterator knows how far it has moved", "statement": "The distance of a counting iterator is how far it is from where it, or the iterator it was copied from, was constructed.", "quantifier": "every sequence of constructions, copies, assignments and moves", "why_tests_cant": "Sequences are unbounded, and a count that drifts needs a particular one.", "anchors": ["include/daw/iterator/daw_counting_iterators.h: counting_iterator"]}
{"id": "C129", "title": "arg_iterator_t is a random access range of the arguments", "statement": "A loop over arg_iterator_t sees all arguments in order, the comparisons agree with the positions, and at( n ) returns the n-th argument or throws.", "quantifier": "every number of arguments, every position and offset", "why_tests_cant": "The loop works while the comparisons and the first argument do not, for every command line.", "anchors": ["include/daw/iterator/daw_argument_iterator.h: arg_iterator_t"]}
{"id": "C130", "title": "indexed_iterator stays inside its container", "statement": "With checks on, every operation of an indexed_iterator gives what the same operation on a position gives, or aborts if the position would leave the container, and it never reads outside.", "quantifier": "every container, position and distance", "why_tests_cant": "The bounds are wrong by one in single operations, and an access behind the end may go unnoticed.", "anchors": ["include/daw/iterator/daw_indexed_iterator.h: indexed_iterator"]}
{"id": "C131", "title": "checked_iterator_proxy_t makes the checks asked for", "statement": "With a check asked for, moving over the end, in front of the beginning or reading at the end throws, and without an error it behaves like the iterator it wraps.", "quantifier": "every block, range and combination of checks, after any number of moves", "why_tests_cant": "A missing check is only seen by a program that makes the error, and then as undefined behaviour.", "anchors": ["include/daw/iterator/daw_checked_iterator_proxy.h: checked_iterator_proxy_t"]}
{"id": "C132", "title": "find_iterator sees exactly the matching elements", "statement": "A loop over find_iterator sees exactly the elements that satisfy the filter, each once and in order, and the search stays inside the range.", "quantifier": "every range and filter", "why_tests_cant": "Ranges and filters are unbounded, and a search behind the end may go unnoticed.", "anchors": ["include/daw/iterator/daw_find_iterator.h: find_iterator"]}
{"id": "C133", "title": "find_one_iterator sees exactly the elements that match a filter, with its index", "statement": "A loop over find_one_iterator sees exactly the elements that satisfy one of the filters, in order, each with the index of the first filter it satisfies.", "quantifier": "every range and every list of filters", "why_tests_cant": "Ranges and lists of filters are unbounded.", "anchors": ["include/daw/iterator/daw_find_one_iterator.h: find_one_iterator", "include/daw/daw_algorithm.h: find_one_of"]}
{"id": "C134", "title": "sorted insert iterators keep their container sorted", "statement": "Writing any values through a sorted insert iterator into a sorted container keeps it sorted, keeps all elements, and puts an element in front of the equivalent ones that were written before it.", "quantifier": "every strict weak ordering, sorted container and sequence of values", "why_tests_cant": "Sequences are unbounded and the place among equivalent elements depends on their number.", "anchors": ["include/daw/iterator/daw_sorted_insert_iterator.h: make_sorted_insert_iterator", "include/daw/iterator/daw_function_iterator.h: function_iterator"]}
{"id": "C135", "title": "InputIterator owns a copy of the iterator it erases", "statement": "Over any program of constructions, copies, moves, assignments, increments and destructions, InputIterators behave like independent values, nothing is deleted twice or through the wrong type, and nothing is leaked.", "quantifier": "every sequence of statements on any number of objects with iterators of any types", "why_tests_cant": "Leaks and deletes through the wrong type need not be noticed, and sequences are unbounded.", "anchors": ["include/daw/iterator/InputIterator.h: InputIterator"]}
{"id": "C136", "title": "a vector can be filled from single pass iterators", "statement": "insert from input iterators puts all their elements in front of the position in order and returns it, assign replaces the elements by them, and if memory runs out an exception leaves insert with the elements unchanged.", "quantifier": "every vector, position, range of elements, size limit and behaviour of the allocator", "why_tests_cant": "The elements go through the spare room, a second buffer, a rotation and another insertion, and which of these happen depends on sizes; whether the last step comes back at all depends on the standard library.", "anchors": ["include/daw/vector.h: vector::insert", "include/daw/vector.h: vector::assign", "include/daw/split_buffer.h: split_buffer::construct_at_end"]}
{"id": "C137", "title": "mask_msb and mask_lsb clear the bits they are asked to", "statement": "mask_msb( n ) has exactly the bits below the n most significant ones, mask_lsb( n ) exactly those above the n least significant ones.", "quantifier": "every integer type and every count, also counts beyond the width", "why_tests_cant": "The masks feed every shift of static_bitset and the bit queues; a test samples some counts and types, and undefined shifts do not show in a test that passes.", "anchors": ["include/daw/daw_bit.h: mask_msb", "include/daw/daw_bit.h: mask_lsb"]}
{"id": "C138", "title": "set_bits, unset_bits and get_bits touch exactly the named bits", "statement": "For positions inside the integer set_bits sets exactly the named bits, unset_bits clears exactly them and get_bits keeps exactly them; nothing is undefined, the sign bit included.", "quantifier": "every integer type of at least eight bits, value, and number and order of positions", "why_tests_cant": "Promotion to int, conversion of the position and the folds over the pack interact with width and sign; there are too many combinations to test.", "anchors": ["include/daw/daw_bit.h: set_bits", "include/daw/daw_bit.h: unset_bits", "include/daw/daw_bit.h: get_bits"]}
{"id": "C139", "title": "are_set reports the bits of its masks", "statement": "make_mask has exactly the bits of its arguments; are_set is true exactly if all the asked bits are set.", "quantifier": "every value and every number of masks", "why_tests_cant": "Values with some but not all of the bits set decide, and tests use masks of one bit.", "anchors": ["include/daw/daw_bit.h: make_mask", "include/daw/daw_bit.h: are_set"]}
{"id": "C140", "title": "ASCII classes and case conversion", "statement": "The predicates accept exactly the digits, letters and printable characters of ASCII; to_upper_ascii and to_lower_ascii exchange the letters and change nothing else, are idempotent, the last one counts, and comparing lower case is comparing upper case.", "quantifier": "every value of every integer type of at least eight bits", "why_tests_cant": "The functions take any integer type, also values that are no characters.", "anchors": ["include/daw/daw_ascii.h: is_ascii_alpha_t", "include/daw/daw_ascii.h: to_upper_ascii_t", "include/daw/daw_ascii.h: to_lower_ascii_t"]}
{"id": "C141", "title": "Zip walks its ranges in step up to the shortest", "statement": "A loop over zip_view sees as many tuples as the shortest range has elements; the i-th tuple holds the i-th element of every range, and nothing outside the ranges is touched.", "quantifier": "any positive number of ranges of any lengths and contents", "why_tests_cant": "The end is found by a != that is true only if all the iterators differ; which range is the shortest and how many there are decides, and tests use two or three.", "anchors": ["include/daw/pipelines/zip.h: zip_view", "include/daw/pipelines/zip.h: zip_iterator"]}
{"id": "C142", "title": "zip_iterator keeps the laws of an iterator", "statement": "!= is the negation of ==, the distance from begin to end is the number of tuples a loop sees, and < orders the iterators by their steps.", "quantifier": "all iterators into any zip_view", "why_tests_cant": "Generic algorithms use == where a loop uses !=; ranges of one length hide the difference.", "anchors": ["include/daw/pipelines/zip.h: zip_iterator"]}
{"id": "C143", "title": "iota_view holds the numbers between its bounds", "statement": "A loop over iota_view( first, last ) sees first, first + 1, ... without last, none if last is not above first, and the distance is their number.", "quantifier": "every integer type and all bounds", "why_tests_cant": "Bounds in the wrong order and bounds at the edges of the type need walks of up to 2^64 steps.", "anchors": ["include/daw/pipelines/iota.h: iota_view", "include/daw/pipelines/iota.h: iota_iterator"]}
{"id": "C144", "title": "Enumerate pairs every element with its index", "statement": "A loop over EnumerateFrom<T>( offset )( r ) sees every element of r together with offset plus its index, and the distance from begin to end is the number of elements.", "quantifier": "every range, index type and offset", "why_tests_cant": "Whether elements are lost depends on the size of the range against the largest value of the type.", "anchors": ["include/daw/pipelines/enumerate.h: Enumerate_t", "include/daw/pipelines/enumerate.h: EnumerateFrom_t"]}
{"id": "C145", "title": "Map applies the function to every projected element", "statement": "A loop over Map( f, proj )( r ) sees f( proj( x ) ) for the elements x of r in order, as Map of a single value does; it[n] is that of the element n further on.", "quantifier": "every range, function and projection", "why_tests_cant": "The projection is accepted and stored everywhere; that it is not called shows only with functions that also take the unprojected value.", "anchors": ["include/daw/pipelines/map.h: map_iterator", "include/daw/pipelines/map.h: Map_t"]}
{"id": "C146", "title": "A map_view over a temporary shows its own elements", "statement": "A map_view made from a temporary container owns it: however views are made, copied, moved and destroyed, a loop over a living view is defined and sees f of the elements of its own container.", "quantifier": "all sequences of makes, copies, moves and destructions of any length", "why_tests_cant": "Reads of freed memory often return the old values, and the order of destruction in a test is one of many.", "anchors": ["include/daw/pipelines/map.h: map_view"]}
{"id": "C147", "title": "generate_n yields the first n results", "statement": "A loop over generate_n( n, fn ) sees the first n results of fn in the order of the calls.", "quantifier": "every n, and every function with a state", "why_tests_cant": "Functions with a state are copied into each iterator; tests use a few calls of one function.", "anchors": ["include/daw/pipelines/generate.h: generate_n", "include/daw/pipelines/generate.h: GenerateN_t"]}
{"id": "C148", "title": "CacheLast reads every element once", "statement": "However often a loop reads *it, at least once at each position, the underlying iterator is read once per position, and all the reads see the same value; stepping back forgets the value.", "quantifier": "every underlying iterator, also one whose reads have effects, and every number of reads at each position", "why_tests_cant": "Tests count reads of one pattern.", "anchors": ["include/daw/pipelines/cache_last_view.h: cache_last_iterator"]}
{"id": "C149", "title": "Find and FindIf give the first match", "statement": "Find gives the first position whose projected value equals the needle, FindIf<width> the first at which the needle accepts the width projected values from there on; both give the end if there is none and read nothing outside the range.", "quantifier": "every range, needle, projection and width", "why_tests_cant": "The windows near the end of the range, for each width, are where a search reads too far.", "anchors": ["include/daw/pipelines/find.h: FindValue_t", "include/daw/pipelines/find.h: FindIf_t", "include/daw/pipelines/find.h: finder"]}
{"id": "C150", "title": "Contains, First, CountIf and Drop agree with the list of elements", "statement": "Contains tells whether some projected element compares true with the needle, First gives the first element, DropWhile and DropUntil leave the rest from the first element on that does not, does satisfy the predicate, CountIf counts the elements that satisfy it.", "quantifier": "every range, predicate, comparison and projection", "why_tests_cant": "Tests use a few ranges.", "anchors": ["include/daw/pipelines/algorithm.h: Contains_t", "include/daw/pipelines/first.h: FirstFn", "include/daw/pipelines/drop.h: DropWhile", "include/daw/pipelines/drop.h: DropUntil", "include/daw/pipelines/numeric.h: CountIf_t"]}
{"id": "C151", "title": "Every selects each n-th element", "statement": "A loop over Every( n ), n not zero, sees the elements at the positions 0, n, 2n, ... and no others.", "quantifier": "every n above zero and every range", "why_tests_cant": "The counter is kept in a function with a state; the interplay of n and the size has too many cases.", "anchors": ["include/daw/pipelines/every.h: Every_t"]}
{"id": "C152", "title": "Sum adds up the elements", "statement": "Sum of a range of integers is their sum.", "quantifier": "every integer type and every range", "why_tests_cant": "The partial sums that overflow depend on the values and their order.", "anchors": ["include/daw/pipelines/numeric.h: sum_t"]}
{"id": "C153", "title": "To an array fills all of the array", "statement": "To<std::array<T, n>> gives the elements in order, and the default behind them if the range is shorter; elements beyond n are not read.", "quantifier": "every n, default and range", "why_tests_cant": "The elements are read through one iterator that the initialisers of the array share.", "anchors": ["include/daw/pipelines/to.h: ToArray", "include/daw/pipelines/to.h: make_array_value"]}
{"id": "C154", "title": "Take can be walked backwards and by arithmetic", "statement": "Reverse of Take( n ) sees the elements of Take( n ) from the last to the first; equal iterators have equal predecessors; it + n is n steps, and differences count the steps.", "quantifier": "every range and n, all iterators and distances inside", "why_tests_cant": "Ranges not longer than n hide that the end iterator is that of the whole range.", "anchors": ["include/daw/pipelines/sized_iterator.h: sized_iterator", "include/daw/pipelines/take.h: Take_t", "include/daw/pipelines/reverse.h: Reverse_t"]}
{"id": "C155", "title": "range_t moves as an iterator", "statement": "After n increments a range_t has n elements less and begins n elements further on, and its difference to the range before is n.", "quantifier": "every range inside a block of less than 2^63 elements and every n", "why_tests_cant": "Sign and distance need all pairs.", "anchors": ["include/daw/pipelines/range.h: range_t"]}
{"id": "C156", "title": "A union_pair_t holds one of its two types or nothing", "statement": "Programs over any number of daw::union_pair_t variables, of construction, assignment of either type, copy construction and copy assignment, behave as over variables that hold one of the two types or nothing; which() and visit() tell what is held.", "quantifier": "all sequences of operations on any number of variables; all values", "why_tests_cant": "Whether the tag and the live member of the union agree after every history, and whether members are assigned before they exist, cannot be seen from a few results.", "anchors": ["include/daw/daw_union_pair.h: store_type0", "include/daw/daw_union_pair.h: clear", "include/daw/daw_union_pair.h: visit"]}
{"id": "C157", "title": "A validated variable holds a value that its validator accepts", "statement": "Whatever a program does with daw::validated variables, every one of them holds a value its validator accepts: values that are not accepted throw and leave the variable as it was.", "quantifier": "all validators; all sequences of constructions, assignments and copies on any number of variables", "why_tests_cant": "The invariant is about every history of the variables and every validator.", "anchors": ["include/daw/daw_validated.h: validate", "include/daw/daw_validated.h: make_value"]}
{"id": "C158", "title": "unique_array_t owns its array alone and deletes it exactly once", "statement": "Programs over any number of daw::unique_array_t variables, of construction, moves, writes and destruction, behave as over variables that hold lists; no array is shared, deleted twice, used after its deletion, or left over when all variables are gone.", "quantifier": "all sequences of operations on any number of variables; all sizes", "why_tests_cant": "Ownership is a property of all histories of moves and destructions.", "anchors": ["include/daw/daw_unique_array.h: clear", "include/daw/daw_unique_array.h: create_values"]}
{"id": "C159", "title": "Access to the elements of a unique_array_t", "statement": "operator[], front and back give the elements they name, at() gives the element or throws if there is none, empty() tells if there are none.", "quantifier": "all states that a program can reach; all positions", "why_tests_cant": "at() has to be right for every position of every size.", "anchors": ["include/daw/daw_unique_array.h: at", "include/daw/daw_unique_array.h: empty", "include/daw/daw_unique_array.h: back"]}
{"id": "C160", "title": "sbo_storage gives back what was put into it, wherever it put it", "statement": "A daw::sbo_storage from which everything is taken out before something else is put in gives what was put in, for objects that fit and for those that do not, and gives all memory back; a const storage can be read as well.", "quantifier": "all sizes of the storage and the types; all sequences of allocate and deallocate; with and without assertions", "why_tests_cant": "The choice between inside and heap, the tag and the memory balance concern all histories and sizes.", "anchors": ["include/daw/daw_sbo.h: allocate", "include/daw/daw_sbo.h: deallocate", "include/daw/daw_sbo.h: storage_size"]}
{"id": "C161", "title": "string_join_iterator runs through the characters of its strings", "statement": "A loop from string_join_iterator( strings... ) to its end sees the characters of all strings in order; the difference of end and an iterator is the number of characters left.", "quantifier": "all numbers of strings; all strings", "why_tests_cant": "The passage from string to string depends on all lengths, among them zero.", "anchors": ["include/daw/daw_string_concat.h: string_join_iterator"]}
{"id": "C162", "title": "string_concat concatenates its arguments in order", "statement": "string_concat( arg, strings... ) is arg followed by the strings in order.", "quantifier": "all strings, any number of them; all evaluation orders that the language allows", "why_tests_cant": "A test sees the order that one compiler chose.", "anchors": ["include/daw/daw_string_concat.h: string_concat"]}
{"id": "C163", "title": "iter_swap and cswap exchange two values", "statement": "daw::iter_swap and daw::cswap of trivially copyable values exchange the values of two places and nothing else, also if the places are the same.", "quantifier": "all memories; all pairs of places", "why_tests_cant": "The places may coincide and everything else has to stay as it is.", "anchors": ["include/daw/daw_swap.h: cswap", "include/daw/daw_swap.h: iter_swap"]}
{"id": "C164", "title": "swap_ranges exchanges the elements of two ranges", "statement": "daw::swap_ranges( first1, last1, first2 ) exchanges the elements of the two ranges and returns the end of the second.", "quantifier": "all memories; all ranges", "why_tests_cant": "It concerns all lengths and all elements.", "anchors": ["include/daw/daw_swap.h: swap_ranges"]}
{"id": "C165", "title": "A contiguous_view stays a view of the part of the array that its operations leave", "statement": "Whatever is removed from a daw::contiguous_view, added to it, searched in it and taken from it, it stays a view of the part of the array that these operations leave, gives the elements they name, and at() gives the elements or throws; a build with assertions does not go on if an operation is asked for what is not there.", "quantifier": "all arrays, parts of them, and sequences of operations", "why_tests_cant": "The two pointers have to stay right through every history of prefixes, suffixes and searches.", "anchors": ["include/daw/daw_contiguous_view.h: remove_prefix", "include/daw/daw_contiguous_view.h: pop_until", "include/daw/daw_contiguous_view.h: at"]}
{"id": "C166", "title": "contiguous_views are equal exactly if their elements are", "statement": "operator== of two daw::contiguous_views is true exactly if the views have the same elements in the same order.", "quantifier": "all arrays and all parts of them", "why_tests_cant": "Equality is a statement about all pairs of views.", "anchors": ["include/daw/daw_contiguous_view.h: operator=="]}
{"id": "C167", "title": "subspan of a contiguous_view gives the part it is asked for", "statement": "subspan( offset, count ) of a daw::contiguous_view is the view of the count elements from offset on; operator[] asserts that the position is in the view.", "quantifier": "all views, offsets and counts", "why_tests_cant": "Offsets and counts are arbitrary numbers.", "anchors": ["include/daw/daw_contiguous_view.h: subspan", "include/daw/daw_contiguous_view.h: operator[]"]}
{"id": "C168", "title": "A span is a list that elements are taken from at both ends", "statement": "All histories of remove_prefix, remove_suffix, pop_front, pop_back, pop and subspan on a daw::span give and leave the elements that they give and leave in a list; at() gives the elements and throws where there are none; a loop from rbegin to rend sees them in reverse.", "quantifier": "all arrays, spans of them and sequences of operations", "why_tests_cant": "The size is kept by subtraction in size_t, so that one wrong step spoils all later checks.", "anchors": ["include/daw/daw_span.h: remove_prefix", "include/daw/daw_span.h: pop_front", "include/daw/daw_span.h: pop_back", "include/daw/daw_span.h: subspan"]}
{"id": "C169", "title": "Spans can be made of two pointers and read backwards", "statement": "A daw::span made of two pointers has the elements between them, none if they are in the wrong order or null; crbegin to crend goes through the elements in reverse.", "quantifier": "all arrays and all pairs of positions", "why_tests_cant": "The order of the pointers and the lengths are arbitrary.", "anchors": ["include/daw/daw_span.h: crend", "include/daw/daw_span.h: empty"]}
{"id": "C170", "title": "rotate exchanges the two parts of a range", "statement": "After daw::algorithm::rotate( first, middle, last ) the range has the elements from middle to last, followed by those from first to middle, both in their order; what is outside the range is unchanged.", "quantifier": "all ranges, middles and surroundings", "why_tests_cant": "The loop swaps in cycles whose shape depends on the greatest common divisor of the two lengths.", "anchors": ["include/daw/daw_algorithm_cx.h: rotate"]}
{"id": "C171", "title": "nth_element puts the element of rank n at its place", "statement": "After daw::algorithm::nth_element( first, nth, last ) the element at nth is the one that would be there if the range were sorted, and nothing greater is before it.", "quantifier": "all ranges, positions and comparisons", "why_tests_cant": "Orders of the elements are arbitrary.", "anchors": ["include/daw/daw_algorithm_cx.h: nth_element"]}
{"id": "C172", "title": "The partition of daw_algorithm_cx.h separates the elements", "statement": "daw::algorithm::partition moves the elements that satisfy the predicate to the front, returns the first position behind them, only rearranges the range, and leaves what is outside it unchanged.", "quantifier": "all ranges, predicates and surroundings", "why_tests_cant": "The pattern of elements that satisfy the predicate is arbitrary.", "anchors": ["include/daw/daw_algorithm_cx.h: partition"]}
{"id": "C173", "title": "Arithmetic of UInt8 to UInt64 is arithmetic modulo two to their size", "statement": "+, -, * and the unary minus of daw::UInt8, UInt16, UInt32 and UInt64, with operands of any of the integer types, give the result modulo 2^8, 2^16, 2^32 and 2^64 and are never undefined.", "quantifier": "all values, all operand types", "why_tests_cant": "Promotion to int makes some small unsigned operations overflow, for a few values only.", "anchors": ["include/daw/daw_uint_types.h: operator-( UInt64 value )", "include/daw/daw_uint_types.h: operator-( UInt32 value )"]}
{"id": "C174", "title": "Division of UInt8 to UInt64 is exact", "statement": "a / b with one of the operands of type daw::UInt8, UInt16, UInt32 or UInt64 is the integer quotient of the values if b is not zero.", "quantifier": "all values, all operand types", "why_tests_cant": "Division does not commute with the conversions between the types.", "anchors": ["include/daw/daw_uint_types.h: operator/( std::uint8_t lhs, UInt64 rhs )"]}
{"id": "C175", "title": "rotate_left and rotate_right rotate by every count they accept", "statement": "rotate_left and rotate_right of daw::UInt8 to UInt64 move bit i to bit i + n and i - n, modulo the number of bits, for all counts n up to the number of bits.", "quantifier": "all values, widths and counts", "why_tests_cant": "Counts at the ends of the range shift by the full width.", "anchors": ["include/daw/daw_uint_types.h: rotate_left", "include/daw/daw_uint_types.h: rotate_right"]}
{"id": "C176", "title": "set_bit changes one bit, get_bit tells it", "statement": "set_bit<N> of daw::UInt8 to UInt64 sets bit N to the state and leaves all other bits; get_bit<N> tells bit N.", "quantifier": "all values, bits and states", "why_tests_cant": "Whether the other bits stay depends on the width of an intermediate mask.", "anchors": ["include/daw/daw_uint_types.h: set_bit", "include/daw/daw_uint_types.h: get_bit"]}
{"id": "C177", "title": "Masks of low bits and numbers of bytes", "statement": "mask_from_lsb64/32/16/8<N> has the N lowest bits set, for N from zero to the number of bits; to_uint64_buffer, to_uint32_buffer and to_uint16_buffer give the number whose bytes, lowest first, they are given.", "quantifier": "all N, all bytes", "why_tests_cant": "All values of the bytes, with and without the top bit.", "anchors": ["include/daw/daw_uint_types.h: mask_from_lsb64", "include/daw/daw_uint_types.h: to_uint64_buffer"]}
{"id": "C178", "title": "Every number that fits can be written as a literal", "statement": "The literals _u64, _u32, _u16 and _u8 give their number if it fits in the type, and a build with assertions ends for numbers that do not fit.", "quantifier": "all numbers", "why_tests_cant": "The limit is a boundary value.", "anchors": ["include/daw/daw_uint_types.h: operator\"\"_u16", "include/daw/daw_uint_types.h: operator\"\"_u8", "include/daw/daw_uint_types.h: operator\"\"_u32"]}
{"id": "C179", "title": "iter_view removes and finds elements like a list", "statement": "Every operation of daw::iter_view that removes elements leaves the same elements as the same operation on a list, keeps size() equal to the distance of its iterators and never leaves the range.", "quantifier": "all sequences, views and numbers of elements", "why_tests_cant": "Sizes, positions of the needles and iterator categories are arbitrary.", "anchors": ["include/daw/daw_iter_view.h: remove_prefix", "include/daw/daw_iter_view.h: pop_front_until"]}
{"id": "C180", "title": "Comparing iter_views compares their elements", "statement": "==, < and >= of daw::iter_view are equality, the lexicographical order and its negation of the elements.", "quantifier": "all sequences and views, all strict weak orders", "why_tests_cant": "Elements and lengths are arbitrary.", "anchors": ["include/daw/daw_iter_view.h: operator==", "include/daw/daw_iter_view.h: operator<"]}
{"id": "C181", "title": "subspan of an iter_view is the part asked for", "statement": "iter_view::subspan( offset, count ) has the elements from offset on, at most count of them.", "quantifier": "all views, offsets and counts", "why_tests_cant": "Offsets and counts are arbitrary.", "anchors": ["include/daw/daw_iter_view.h: subspan"]}
{"id": "C182", "title": "daw::view keeps its elements over any sequence of operations", "statement": "After any sequence of remove_prefix, remove_suffix, pop_front and pop_back of a daw::view the elements are those of a list after the same operations, the results are the elements a list would give, and size() is their number.", "quantifier": "all sequences and all lists of operations within the size", "why_tests_cant": "The sequence of operations is arbitrary.", "anchors": ["include/daw/daw_view.h: remove_prefix", "include/daw/daw_view.h: pop_front"]}
{"id": "C183", "title": "bitcount counts the ones of a number", "statement": "daw::bitcount( value ) is the number of ones in the binary representation of the value.", "quantifier": "all values of all integer types up to 64 bits", "why_tests_cant": "Tests with a few numbers do not show for which numbers a sum is right.", "anchors": ["include/daw/daw_utility.h: constexpr std::size_t bitcount( Value value ) noexcept"]}
{"id": "C184", "title": "can_fit and narrow_cast tell whether a type has a value", "statement": "daw::can_fit<R>( x ) is true exactly if the integer type R has the value x; daw::narrow_cast<R>( x ) returns x in this case and throws otherwise.", "quantifier": "all values of all pairs of integer types", "why_tests_cant": "The comparisons convert their operands, which changes values for some pairs of types only.", "anchors": ["include/daw/daw_utility.h: can_fit", "include/daw/daw_utility.h: narrow_cast"]}
{"id": "C185", "title": "AsciiUpper and AsciiLower change only letters", "statement": "daw::AsciiUpper turns the letters a to z into A to Z and AsciiLower the other way round; all other characters stay as they are, in characters and in strings.", "quantifier": "all characters, signed or not, and all strings of all character types", "why_tests_cant": "char is signed on some platforms only; strings may have wide characters.", "anchors": ["include/daw/daw_utility.h: constexpr char AsciiUpper( char chr ) noexcept", "include/daw/daw_utility.h: AsciiUpper( std::basic_string<CharType, Traits, Allocator> str )"]}
{"id": "C186", "title": "hex writes text that stands for its argument", "statement": "daw::hex of a character, an integer, a range of integers, a string or a literal stores exactly two hexadecimal digits for every byte, from the most significant one on, from which the argument can be read back; nothing else is changed.", "quantifier": "all values of all sizes, all strings, and output to memory and to back inserters", "why_tests_cant": "Sizes, values and the place of the output are arbitrary.", "anchors": ["include/daw/daw_utility.h: hex( char c,", "include/daw/daw_utility.h: hex( char const *str, std::size_t len, OutputIterator first_out )"]}
{"id": "C187", "title": "hex of objects writes their bytes", "statement": "daw::hex of an object that is no integer, or of a range of such objects, stores two hexadecimal digits for every byte of the objects, one after the other.", "quantifier": "all objects and ranges, and output to memory and to back inserters", "why_tests_cant": "Appending to a string hides what goes wrong in memory.", "anchors": ["include/daw/daw_utility.h: auto chr_ptr = reinterpret_cast<char const *>( &val );", "include/daw/daw_utility.h: first_out = hex( *first_out, first_out );"]}
{"id": "C188", "title": "value_from_chars reads big endian numbers", "statement": "daw::value_from_chars for 1, 2, 4 and 8 bytes returns the number these bytes stand for with the most significant byte first, without undefined shifts.", "quantifier": "all bytes and memories, before and since C++20", "why_tests_cant": "Bytes above 127 are shifted into the sign of an int.", "anchors": ["include/daw/daw_utility.h: value_from_chars("]}
{"id": "C189", "title": "equal_to_last compares with the value of the call before", "statement": "A call of a daw::equal_to_last object is true exactly if its argument equals the argument of the call before; the first call is false.", "quantifier": "all sequences of calls with all arguments", "why_tests_cant": "What happens to the arguments between the calls is up to the program.", "anchors": ["include/daw/daw_utility.h: class equal_to_last"]}
{"id": "C190", "title": "Searching containers and parameter packs", "statement": "daw::contains and index_of find the first equal element, copy_vector copies the first elements or throws, pack_index_of_v is an index with the type or the number of types, and pack_apply calls the function once with the argument of the given number.", "quantifier": "all containers, items, packs and numbers", "why_tests_cant": "Lengths and positions are arbitrary.", "anchors": ["include/daw/daw_utility.h: index_of( Container const &container,", "include/daw/daw_utility.h: pack_index_of_v", "include/daw/daw_utility.h: constexpr void pack_apply"]}
{"id": "C191", "title": "in_range( value, lower, upper ) tests the bounds", "statement": "daw::in_range( value, lower, upper ) is true exactly if lower <= value and value < upper.", "quantifier": "all integers of all integer types", "why_tests_cant": "The comparisons convert their operands, which changes values for some pairs of types only.", "anchors": ["include/daw/daw_utility.h: in_range( Value &&value, LowerBound &&lower,"]}
{"id": "C192", "title": "fixed_lookup is a finite map", "statement": "Any sequence of insertions, assignments, lookups and existence tests of a daw::fixed_lookup gives the results of a finite map of the keys used, as long as the keys fit in.", "quantifier": "all hash functions, capacities, keys, values and sequences of operations", "why_tests_cant": "Which keys collide depends on the hash function and the capacity.", "anchors": ["include/daw/deprecated/daw_fixed_lookup.h: lookup", "include/daw/deprecated/daw_fixed_lookup.h: insert"]}
{"id": "C193", "title": "The positions of the entries of a fixed_lookup never change", "statement": "Once a key of a daw::fixed_lookup has a position, every later operation leaves it there, so references to its value stay valid.", "quantifier": "all hash functions, tables and sequences of operations", "why_tests_cant": "A later insertion may collide with an earlier one in any way.", "anchors": ["include/daw/deprecated/daw_fixed_lookup.h: lookup"]}
{"id": "C194", "title": "make_fixed_lookup stores all keys given", "statement": "make_fixed_lookup makes a table that holds every given key with a default value and no other stored hash, whatever the keys.", "quantifier": "all lists of keys and all hash functions", "why_tests_cant": "The list is arbitrary.", "anchors": ["include/daw/deprecated/daw_fixed_lookup.h: make_fixed_lookup"]}
{"id": "C195", "title": "ordered_map keeps its keys in the order of insertion", "statement": "Any sequence of operations of a daw::ordered_map gives the results of a finite map, and the entries are in the order in which their keys were inserted first.", "quantifier": "all sequences of operations, keys and values", "why_tests_cant": "The sequence of operations is arbitrary.", "anchors": ["include/daw/deprecated/daw_ordered_map.h: insert"]}
{"id": "C196", "title": "stack_quick_sort sorts", "statement": "The sort of daw_stack_quick_sort.h ends without overflowing its stack and leaves a sorted permutation of the elements.", "quantifier": "all inputs and all partition functions", "why_tests_cant": "The depth of the stack and the pivots depend on the input.", "anchors": ["include/daw/deprecated/daw_stack_quick_sort.h: quick_sort"]}
{"id": "C197", "title": "heap_array owns its elements", "statement": "Constructing, copying, assigning, clearing and reading a daw::heap_array act on the elements as on a list: every array has a block of its own, copies share nothing, assignment frees the old block once, also if the array is assigned to itself, and a loop, size(), empty(), operator[], at(), front() and back() agree with the elements.", "quantifier": "all heaps, arrays, sizes and values", "why_tests_cant": "Leaks and sharing do not show in results of tests.", "anchors": ["include/daw/deprecated/daw_heap_array.h: heap_array( heap_array const &other )", "include/daw/deprecated/daw_heap_array.h: at("]}
{"id": "C198", "title": "find_first_of of a heap_array finds the first equal element", "statement": "heap_array::find_first_of( value, start ) returns the first position from start on with the value, or end( ), and changes no element.", "quantifier": "all arrays, values and starts", "why_tests_cant": "The sentinel is written behind the elements; a test rarely notices a write there.", "anchors": ["include/daw/deprecated/daw_heap_array.h: find_first_of"]}
{"id": "C199", "title": "heap_array can be moved and tested", "statement": "Moving a daw::heap_array hands over its elements and leaves the source empty, the old elements of the target are freed, swap exchanges two arrays, and the conversion to bool tells whether there is storage.", "quantifier": "all heaps and arrays", "why_tests_cant": "A leaked block or a wrong end pointer need not crash a test.", "anchors": ["include/daw/deprecated/daw_heap_array.h: constexpr heap_array( heap_array &&other )", "include/daw/deprecated/daw_heap_array.h: operator bool"]}
{"id": "C200", "title": "bounded_hash_set is a finite set", "statement": "Any sequence of insert, erase, exists, count and empty on a daw::bounded_hash_set_t gives the results of a finite set; the program ends exactly if a new key does not fit in, and erase of a key that is not there says so.", "quantifier": "all hash functions, capacities, keys and sequences of operations", "why_tests_cant": "Which keys collide depends on the hash function and the capacity.", "anchors": ["include/daw/deprecated/daw_bounded_hash_set.h: find_index", "include/daw/deprecated/daw_bounded_hash_set.h: erase", "include/daw/deprecated/daw_bounded_hash_set.h: insert"]}
{"id": "C201", "title": "bounded_hash_set find", "statement": "find of a daw::bounded_hash_set_t returns the position of the key, and end() if it is not there.", "quantifier": "all hash functions, sets and keys", "why_tests_cant": "Depends on where the key was stored.", "anchors": ["include/daw/deprecated/daw_bounded_hash_set.h: find( Key const"]}
{"id": "C202", "title": "A loop over a bounded_hash_set meets all keys", "statement": "A loop from begin() to end() of a daw::bounded_hash_set_t meets every key once and ends.", "quantifier": "all sets", "why_tests_cant": "Where the last key is stored depends on the keys and the hash.", "anchors": ["include/daw/deprecated/daw_bounded_hash_set.h: operator++"]}
{"id": "C203", "title": "make_bounded_hash_set stores all items", "statement": "make_bounded_hash_set never ends the program and the keys of the set are exactly the items given.", "quantifier": "all hash functions and nonempty lists of items", "why_tests_cant": "The list is arbitrary; the set has no room to spare.", "anchors": ["include/daw/deprecated/daw_bounded_hash_set.h: make_bounded_hash_set"]}
{"id": "C204", "title": "bounded_graph is a graph", "statement": "Any sequence of operations of a daw::bounded_graph_t gives the results of the same sequence on a mathematical directed graph: ids are given out in order, both sides of each edge agree, edge sets never run full, and a call for a node that does not exist ends the program.", "quantifier": "all hash functions, capacities, values and sequences of operations", "why_tests_cant": "The sequences of operations are unbounded and the tables collide in many ways.", "anchors": ["include/daw/deprecated/daw_bounded_graph.h: add_node", "include/daw/deprecated/daw_bounded_graph.h: add_directed_edge", "include/daw/deprecated/daw_bounded_graph.h: remove_node", "include/daw/deprecated/daw_bounded_graph.h: remove_directed_edge"]}
{"id": "C205", "title": "Comparison of graph nodes", "statement": "Two nodes handed out by bounded graphs compare equal exactly if they are the same node of the same graph, != is the opposite of ==, and < orders the nodes of one graph.", "quantifier": "all pairs of nodes", "why_tests_cant": "All pairs of graphs and ids.", "anchors": ["include/daw/deprecated/daw_bounded_graph.h: operator==( Rhs const", "include/daw/deprecated/daw_bounded_graph.h: operator!=( Rhs const", "include/daw/deprecated/daw_bounded_graph.h: operator<( Rhs const"]}
{"id": "C206", "title": "Roots, leaves and values of a bounded graph", "statement": "find_roots, find_leaves and find_by_value of a daw::bounded_graph_t return, each once, the ids of the nodes without incoming edges, without outgoing edges and with the value, and never overflow the result.", "quantifier": "all hash functions, capacities, histories without removals of nodes, comparisons and values", "why_tests_cant": "Depends on all edges of the graph.", "anchors": ["include/daw/deprecated/daw_bounded_graph.h: find_roots", "include/daw/deprecated/daw_bounded_graph.h: find_leaves", "include/daw/deprecated/daw_bounded_graph.h: find_by_value"]}
{"id": "C207", "title": "satisfies_one and satisfies_all", "statement": "satisfies_one and satisfies_all over a range and several predicates are the disjunction and the conjunction over all elements and predicates; the predicates are called in order, and none after the call that decides the result.", "quantifier": "all ranges and lists of predicates, also predicates that fail or have no result for some elements", "why_tests_cant": "Which calls are made depends on the values; a test sees only its own predicates.", "anchors": ["include/daw/daw_algorithm.h: satisfies_one", "include/daw/daw_algorithm.h: satisfies_all"]}
{"id": "C208", "title": "gather brings the matching elements together", "statement": "gather moves exactly the elements that satisfy the predicate between the two positions it returns, around the target, in their order; the others keep their order and their side of the target, and nothing is lost.", "quantifier": "all ranges, targets in them and predicates", "why_tests_cant": "Positions depend on how many elements on each side satisfy the predicate.", "anchors": ["include/daw/daw_algorithm.h: gather("]}
{"id": "C209", "title": "map, transform_it, for_each_if, iota with a setter, cartesian_product", "statement": "map of two ranges writes the operation place by place and nothing else; transform_it, for_each_if, iota with a setter and tuple_functor reach exactly the elements meant, in order; cartesian_product and cartesian_product_map go over all combinations of elements.", "quantifier": "all ranges and operations", "why_tests_cant": "Unbounded ranges; reading past the second range is not visible in a test.", "anchors": ["include/daw/daw_algorithm.h: cartesian_product_map", "include/daw/daw_algorithm.h: transform_it", "include/daw/daw_algorithm.h: for_each_if", "include/daw/daw_algorithm.h: tuple_functor"]}
{"id": "C210", "title": "convert_copy copies converted elements", "statement": "convert_copy writes the converted elements in order and returns the end of what it wrote.", "quantifier": "all ranges and conversions", "why_tests_cant": "A missing return is not seen by a test that ignores the result.", "anchors": ["include/daw/daw_algorithm.h: convert_copy"]}
{"id": "C211", "title": "extract_to, extract_all and extract_matching move elements", "statement": "The functions move all elements that are meant (equal to the key, all, those that satisfy the predicate) to the other container; no element is lost and the others stay.", "quantifier": "all containers, keys and predicates", "why_tests_cant": "The loss needs an element that the target already has; a stale iterator often appears to work.", "anchors": ["include/daw/daw_algorithm.h: extract_to", "include/daw/daw_algorithm.h: extract_all", "include/daw/daw_algorithm.h: extract_matching"]}
{"id": "C212", "title": "Predicates made from values", "statement": "in_range, equal_to, less_than and the like return a predicate that compares with the value it was made from; in_range throws exactly if the bounds are in the wrong order.", "quantifier": "all values and bounds, given as variables or temporaries, for all later contents of the variables", "why_tests_cant": "The tests use literals of type int only.", "anchors": ["include/daw/daw_algorithm.h: class in_range", "include/daw/daw_algorithm.h: class less_than", "include/daw/daw_algorithm.h: precondition_check<std::out_of_range>( lower <= upper )"]}
{"id": "C213", "title": "erase and erase_if on vectors", "statement": "daw::erase and daw::erase_if remove exactly the elements equal to the value or satisfying the predicate, keep the others in their order, return how many were removed, destroy what is left over and keep the capacity.", "quantifier": "all vectors, predicates and values, also values that are elements of the vector", "why_tests_cant": "The effect of a reference into the vector depends on where the equal elements are.", "anchors": ["include/daw/vector.h: erase_if", "include/daw/vector.h: std::remove( c.begin( ), c.end( ), v )"]}
{"id": "C214", "title": "Comparison of vectors", "statement": "Two vectors compare equal exactly if they hold the same elements, < is the lexicographic order, the other operators agree with it, and exactly one of <, == and > holds.", "quantifier": "all vectors, capacities and total orders of the elements", "why_tests_cant": "Vectors of all lengths and contents.", "anchors": ["include/daw/vector.h: friend constexpr bool operator==", "include/daw/vector.h: friend constexpr bool operator<"]}
{"id": "C215", "title": "Moving and copying vectors with different allocators", "statement": "Move construction, move construction with an allocator, move assignment and copy assignment give the target the elements of the source; every block is returned to an allocator equal to the one it came from, nothing leaks, and no element is destroyed twice.", "quantifier": "all vectors, allocators, propagation traits and outcomes of allocations", "why_tests_cant": "The tests use std::allocator, whose objects are all equal.", "anchors": ["include/daw/vector.h: move_assign(", "include/daw/vector.h: copy_assign_alloc(", "include/daw/vector.h: a == x.alloc( )"]}
{"id": "C216", "title": "Searching in the first string view", "statement": "find and search return the first, rfind and search_last the last occurrence of a text within the positions asked for; the find_first and find_last functions return the first or last character of the set, outside the set or satisfying the predicate; npos if there is none.", "quantifier": "all texts, needles, sets, predicates and positions", "why_tests_cant": "The wrong answers need particular positions, and one unit test expects a wrong answer.", "anchors": ["include/daw/deprecated/daw_string_view1.h: find_last_not_of(", "include/daw/deprecated/daw_string_view1.h: find_last_of( CharT const c", "include/daw/deprecated/daw_string_view1.h: search_last(", "include/daw/impl/daw_string_impl.h: search( ForwardIt1 first"]}
{"id": "C217", "title": "Cutting and comparing the first string view", "statement": "The pop, try_pop and consume members split the text at the position, the text or the predicate and lose no character but the delimiter; views stay inside the text; substr, at and resize check their arguments; starts_with, ends_with and compare decide prefixes, suffixes and the lexicographic order.", "quantifier": "all texts, views inside them, delimiters, predicates, positions and counts", "why_tests_cant": "The splits depend on first and last occurrences in texts of all lengths.", "anchors": ["include/daw/deprecated/daw_string_view1.h: try_pop_front(", "include/daw/deprecated/daw_string_view1.h: try_pop_back(", "include/daw/deprecated/daw_string_view1.h: consume_front(", "include/daw/deprecated/daw_string_view1.h: constexpr void resize("]}
{"id": "C218", "title": "Splitting with the first string view", "statement": "split returns the pieces between the delimiters in order, leaving out an empty last piece.", "quantifier": "all texts and predicates", "why_tests_cant": "Texts of all lengths with delimiters in all places.", "anchors": ["include/daw/deprecated/daw_string_view1.h: split( daw::sv1::basic_string_view<CharT, Bounds, Ex> str", "include/daw/deprecated/daw_string_view1.h: split( CharT const ( &str )[N], Delemiter d )", "include/daw/deprecated/daw_string_view1.h: make_string_view( CharT const ( &str )[N] )"]}
{"id": "C219", "title": "Bounded strings keep their capacity and their terminator", "statement": "A bounded string made from a text and changed by push_back, append, remove_suffix, pop_back, clear and erase holds the text these calls make, never more than its capacity, throws when a call would exceed it, and c_str is terminated.", "quantifier": "all capacities, texts and histories of calls", "why_tests_cant": "The wrong states need texts that just exceed the capacity, or a look behind the end of the text.", "anchors": ["include/daw/deprecated/daw_bounded_string.h: constexpr void push_back(", "include/daw/deprecated/daw_bounded_string.h: constexpr void remove_suffix( size_type n )", "include/daw/deprecated/daw_bounded_string.h: constexpr iterator erase( const_iterator pos )", "include/daw/deprecated/daw_bounded_string.h: constexpr bool has_room(", "include/daw/deprecated/daw_bounded_string.h: make_bounded_string( CharT const ( &str )[N] )"]}
{"id": "C220", "title": "Parts, searching and comparing of bounded strings", "statement": "substr and copy give the part of the text, append of a part and operator+ the concatenation or an exception if it does not fit; find, starts_with and find_first_of answer for any text given; the comparison operators are equality and the lexicographic order.", "quantifier": "all capacities, texts, positions, counts, needles and sets", "why_tests_cant": "The arguments are first cut to the capacity, and whether that changes the answer depends on all lengths.", "anchors": ["include/daw/deprecated/daw_bounded_string.h: substr( size_type const pos = 0", "include/daw/deprecated/daw_bounded_string.h: constexpr size_type copy( CharT *dest", "include/daw/deprecated/daw_bounded_string.h: find_first_of( const_pointer s, size_type const pos = 0 )", "include/daw/deprecated/daw_bounded_string.h: auto operator+( CharT const *lhs"]}
{"id": "C221", "title": "The old hash table finds what was inserted", "statement": "After any insertions, at returns the value inserted last for each key and throws for keys never inserted; occupied is the number of keys, erase removes only keys that are there, and the table can be used after clear.", "quantifier": "all table sizes, growth functions, hashes and histories of insertions", "why_tests_cant": "There are no tests of this table; a test with a single key would pass.", "anchors": ["include/daw/deprecated/daw_hash_table.h: static priv_iterator find_item_by_hash_or_create( size_t hash,", "include/daw/deprecated/daw_hash_table.h: if( !pos ) {", "include/daw/deprecated/daw_hash_table.h: static auto find_item_by_hash( size_t hash, values_type const &tbl,", "include/daw/deprecated/daw_hash_table.h: size_t erase( Key &&key )"]}
{"id": "C222", "title": "Splitting a text at a delimiter text", "statement": "Iterating split_string gives the pieces between the occurrences of the delimiter taken from the left, also empty ones; they join to the text and none contains the delimiter; the iteration ends, and the postfix increment advances the iterator.", "quantifier": "all texts and delimiters", "why_tests_cant": "Texts and delimiters of all lengths, with delimiters that overlap themselves; the unit tests split one sentence at one or two spaces.", "anchors": ["include/daw/deprecated/daw_string_split_range.h: constexpr size_t find_next( )", "include/daw/deprecated/daw_string_split_range.h: constexpr void move_next( )", "include/daw/deprecated/daw_string_split_range.h: constexpr string_split_iterator operator++( int ) const noexcept", "include/daw/deprecated/daw_string_split_range.h: return result.substr( 0, find_next( ) - m_pos );"]}
{"id": "C223", "title": "Parsing characters and quoted texts", "statement": "A text in quotes is parsed to what is between the quotes, with escaped quotes inside; texts without quotes around them are refused and nothing outside the text is read.", "quantifier": "all texts and all memory behind them", "why_tests_cant": "Whether the reader leaves the text depends on the place of the last backslash and on what follows in memory.", "anchors": ["include/daw/daw_parse_to.h: tag_t<daw::string_view> )", "include/daw/daw_parse_to.h: constexpr bool is_quote( char const last_char, char const c )", "include/daw/daw_parse_to.h: tag_t<unquoted_string_view> )", "include/daw/daw_parse_to.h: constexpr char parse_to_value( daw::string_view str, tag_t<char> )"]}
{"id": "C224", "title": "The old vector is a sequence", "statement": "After any history of push_back, pop_back, clear, resize, reserve and insert, the old daw::Vector holds what the history means for a sequence, and no memory outside its block is used.", "quantifier": "all sequences, histories and element sizes", "why_tests_cant": "Growth depends on page sizes, sizes of blocks in bytes and the history; the unit test prints results of a few insertions without checking them.", "anchors": ["include/daw/deprecated/daw_vector.h: inline std::size_t round_to_page_size( std::size_t sz )", "include/daw/deprecated/daw_vector.h: static constexpr void overlapped_relocate( pointer source,", "include/daw/deprecated/daw_vector.h: constexpr void resize_impl( size_type sz ) noexcept", "include/daw/deprecated/daw_vector.h: constexpr iterator insert( const_iterator where, IteratorF first,", "include/daw/deprecated/daw_vector.h: constexpr reference push_back( const_reference v )"]}
{"id": "C225", "title": "Copies and comparisons of the old vector", "statement": "A copy of the old daw::Vector has the same elements and can be used like any vector; == compares the sequences and != is its negation.", "quantifier": "all sequences, histories and element sizes", "why_tests_cant": "The capacity of a copy is only wrong beyond the memory it got, which depends on sizes; the unit test does not compare vectors.", "anchors": ["include/daw/deprecated/daw_vector.h: uptr_t make_copy( Vector const &other )", "include/daw/deprecated/daw_vector.h: constexpr Vector( Vector const &other )", "include/daw/deprecated/daw_vector.h: bool operator==( Vector<value_type, Alloc2> const &rhs ) const noexcept", "include/daw/deprecated/daw_vector.h: bool operator!=( Vector<value_type, Alloc2> const &rhs ) const noexcept"]}
{"id": "C226", "title": "Results of calls with expected exceptions", "statement": "A checked_expected_t holds what the last assignment or call gave it: a value, an exception of one of the expected types, or nothing; get returns the value or rethrows the exception.", "quantifier": "all lists of expected types, exceptions and histories of assignments", "why_tests_cant": "Types of exceptions, lists of handlers and histories are unlimited; the unit test has a single expected type and no assignments.", "anchors": ["include/daw/deprecated/daw_checked_expected.h: void is_expected_exception( std::exception_ptr ptr )", "include/daw/deprecated/daw_checked_expected.h: static checked_expected_t from_code( Function func, Args &&...args )", "include/daw/deprecated/daw_checked_expected.h: checked_expected_t &operator=( std::exception_ptr ptr )", "include/daw/deprecated/daw_checked_expected.h: [[nodiscard]] reference get( )"]}
{"id": "C227", "title": "Results of calls that return nothing", "statement": "A checked_expected_t<void> says how a call ended; copies and assignments keep that.", "quantifier": "all lists of expected types, exceptions and states of the object", "why_tests_cant": "The outcome depends on what the object held before and on the constness of the source of a copy; the unit test neither copies nor assigns.", "anchors": ["include/daw/deprecated/daw_checked_expected.h: checked_expected_t( checked_expected_t const &other )", "include/daw/deprecated/daw_checked_expected.h: checked_expected_t &operator=( checked_expected_t const &rhs )", "include/daw/deprecated/daw_checked_expected.h: checked_expected_t( T && ) noexcept", "include/daw/deprecated/daw_checked_expected.h: checked_expected_t &operator=( bool ) noexcept"]}
{"id": "C228", "title": "Formatting with numbered fields, version 1", "statement": "string_fmt::v1::fmt puts the arguments in the place of the fields of a text, throws if a field has the number of no argument, and refuses texts with fields that are not numbers or not closed.", "quantifier": "all texts and lists of arguments", "why_tests_cant": "Texts have any number of fields with any numbers, next to any other text; the unit tests compare results for one field.", "anchors": ["include/daw/deprecated/daw_string_fmt.h: std::string operator( )( Args &&...args ) const", "include/daw/deprecated/daw_string_fmt.h: std::string get_arg( uint8_t const idx, Args &&...args )", "include/daw/daw_parser_addons.h: constexpr R from_num_char( char c )", "include/daw/daw_parser_addons.h: constexpr void parse_unsigned_int( ForwardIterator first,"]}
{"id": "C229", "title": "Formatting with numbered fields, version 2", "statement": "string_fmt::v2::fmt puts the arguments in the place of the fields of a text; there is room for the tokens of every text, and a backslash before a special character makes it an ordinary one.", "quantifier": "all texts and lists of arguments", "why_tests_cant": "Whether the tokens fit depends on the relation of fields and characters in the whole text; the unit tests compare results for one field.", "anchors": ["include/daw/deprecated/daw_string_fmt.h: parse_tokens( daw::basic_string_view<CharT> msg )", "include/daw/deprecated/daw_string_fmt.h: constexpr Result operator( )( Args &&...args ) const", "include/daw/deprecated/daw_string_fmt.h: constexpr fmt_t( string_fmt_details::private_ctor,"]}
{"id": "C230", "title": "Fixed arrays own their memory", "statement": "After any history of constructions, copies, moves, assignments, clear, release, writes and destructions, every fixed_array has the elements the history means, no memory is freed twice or used after it was freed, and all memory is freed when all arrays are destroyed.", "quantifier": "all histories of any number of arrays of any size", "why_tests_cant": "Frees depend on the order of the calls on several arrays; the unit test writes into one array.", "anchors": ["include/daw/deprecated/daw_fixed_array.h: void clear( ) {", "include/daw/deprecated/daw_fixed_array.h: explicit fixed_array( pointer ptr, size_type sz )", "include/daw/deprecated/daw_fixed_array.h: constexpr fixed_array &operator=( fixed_array &&rhs ) noexcept {", "include/daw/deprecated/daw_fixed_array.h: fixed_array &operator=( fixed_array const &rhs ) {", "include/daw/deprecated/daw_fixed_array.h: std::unique_ptr<value_type[]> release( ) {"]}
{"id": "C231", "title": "Loops over fixed arrays", "statement": "A loop from begin to end over a fixed_array meets its elements in order, also if there are none, and its iterators move as iterators do.", "quantifier": "all histories and arrays", "why_tests_cant": "What an array without memory does depends on an assert; the unit test loops over nothing.", "anchors": ["include/daw/deprecated/daw_fixed_array.h: constexpr iterator begin( ) {", "include/daw/iterator/daw_pointer_iterator.h: constexpr pointer_iterator( pointer ptr )", "include/daw/iterator/daw_pointer_iterator.h: constexpr pointer_iterator operator--( ) {"]}
{"id": "C232", "title": "The old carray is an array", "statement": "A carray has the values it was made from, followed by zeros; fill, assignments and writes through at change what they say, and at throws for positions outside.", "quantifier": "all sizes, values and histories of several arrays", "why_tests_cant": "Holds for all sizes; the unit test reads one element of one array.", "anchors": ["include/daw/deprecated/daw_carray.h: constexpr void assign_to( T *ptr, Arg &&arg, Args &&...args ) noexcept(", "include/daw/deprecated/daw_carray.h: constexpr carray( Args &&...args ) noexcept( noexcept( details::assign_to(", "include/daw/deprecated/daw_carray.h: [[nodiscard]] constexpr reference at( size_type pos ) {", "include/daw/deprecated/daw_carray.h: constexpr void fill( const_reference value ) noexcept("]}
{"id": "C233", "title": "Reverse loops over a carray", "statement": "A loop from rbegin to rend over a carray meets the elements from the last to the first.", "quantifier": "all sizes above 0 and elements", "why_tests_cant": "There is no unit test of it, and what it reads depends on the memory before the array.", "anchors": ["include/daw/deprecated/daw_carray.h: [[nodiscard]] constexpr auto rbegin( ) noexcept {", "include/daw/deprecated/daw_carray.h: [[nodiscard]] constexpr auto rend( ) noexcept {"]}
{"id": "C234", "title": "Finding a number in a text", "statement": "find_number gives the first number of a text, all of its characters and no others, and says that it found it.", "quantifier": "all texts", "why_tests_cant": "The number can be anywhere and of any length; there is no unit test.", "anchors": ["include/daw/daw_parser_addons.h: constexpr auto find_number( ForwardIterator first, ForwardIterator last ) {"]}
{"id": "C235", "title": "Parsing of signed numbers", "statement": "parse_int gives the number that a text says, for every number of a signed type, and refuses other texts.", "quantifier": "all texts, for all signed types that are not promoted", "why_tests_cant": "Unbounded texts; the unit test parses two numbers.", "anchors": ["include/daw/daw_parser_addons.h: constexpr void parse_int( ForwardIterator first, ForwardIterator last,", "include/daw/daw_parser_addons.h: constexpr R from_num_char( char c ) {", "include/daw/daw_parser_addons.h: auto count = std::numeric_limits<Result>::digits10;"]}
{"id": "C236", "title": "Parsing of quoted strings", "statement": "parse_string_literal gives what is between the quotes of a string with escapes, skips blanks before it, and refuses strings that are not closed.", "quantifier": "all texts", "why_tests_cant": "Escapes can be anywhere; there is no unit test.", "anchors": ["include/daw/daw_parser_addons.h: constexpr auto parse_string_literal( ForwardIterator first,", "include/daw/daw_parser_addons.h: auto quote_char = *first;"]}
{"id": "C237", "title": "Splitting a text", "statement": "split_if, and split with delimiters, give the parts of a text between its delimiters: one more than there are delimiters, empty ones too, in order, and nothing is lost.", "quantifier": "all texts, predicates and sets of delimiters", "why_tests_cant": "Unbounded texts and any predicate; the unit test counts the parts of one text.", "anchors": ["include/daw/deprecated/daw_string.h: auto split_if( String const &sv, Predicate is_delim ) {", "include/daw/deprecated/daw_string.h: auto split( String const &sv, Delimiters const &delimiters ) {"]}
{"id": "C238", "title": "Splitting and combining are inverse", "statement": "combine puts together what split with a character took apart, and split takes apart what combine put together from parts without the character.", "quantifier": "all texts, lists of parts and characters", "why_tests_cant": "Round trip over all texts; there is no unit test of combine.", "anchors": ["include/daw/deprecated/daw_string.h: auto combine( StrArray const &strings, Char chr ) {", "include/daw/deprecated/daw_string.h: auto split( String const &sv, char const delimiter ) {"]}
{"id": "C239", "title": "Splitting at blanks", "statement": "split without delimiters splits any text at its blanks.", "quantifier": "all texts", "why_tests_cant": "Depends on all characters; there is no unit test.", "anchors": ["include/daw/deprecated/daw_string.h: return static_cast<bool>( isspace( c ) );"]}
{"id": "C240", "title": "Trimming a text", "statement": "trim_left, trim_right and trim take the delimiters at the start, the end and both away, and nothing else.", "quantifier": "all texts and delimiters", "why_tests_cant": "Unbounded texts; there is no unit test.", "anchors": ["include/daw/deprecated/daw_string.h: auto trim_left_copy(", "include/daw/deprecated/daw_string.h: return str.substr( str.find_first_not_of( delimiters ) );", "include/daw/deprecated/daw_string.h: return str.substr( 0, str.find_last_not_of( delimiters ) + 1 );", "include/daw/deprecated/daw_string.h: auto const len = end - start + 1;", "include/daw/deprecated/daw_string.h: return \" \\f\\n\\r\\t\\v\\0\";"]}
{"id": "C241", "title": "Endings of texts", "statement": "ends_with says whether a text ends with a character or with another text.", "quantifier": "all texts and endings", "why_tests_cant": "Unbounded texts; there is no unit test.", "anchors": ["include/daw/deprecated/daw_string.h: auto pos = src.find_last_of( ending );", "include/daw/deprecated/daw_string.h: return 0 < src.size( ) and ending == src[src.size( ) - 1];"]}
{"id": "C242", "title": "Texts within texts", "statement": "contains and in say whether a text is part of another one.", "quantifier": "all texts", "why_tests_cant": "Unbounded texts; there is no unit test.", "anchors": ["include/daw/deprecated/daw_string.h: bool contains( std::basic_string<CharT, Traits, Allocator> const &str,", "include/daw/deprecated/daw_string.h: return StringType::npos != values.find( val );"]}
{"id": "C243", "title": "Replacing texts", "statement": "search_replace replaces every occurrence of a text, from the left, once.", "quantifier": "all texts, searched and replacing ones", "why_tests_cant": "The texts written can have the searched one in them; there is no unit test.", "anchors": ["include/daw/deprecated/daw_string.h: in_str.replace( pos, search_for_len, replace_with );", "include/daw/deprecated/daw_string.h: pos += replace_with_len;"]}
{"id": "C244", "title": "Formatting with fields", "statement": "fmt of daw_string.h replaces the fields of a format by the arguments they name, refuses fields without arguments, and leaves protected fields.", "quantifier": "all formats and arguments", "why_tests_cant": "Unbounded formats; the unit test has one format with one field.", "anchors": ["include/daw/deprecated/daw_string.h: string_details::string_t fmt( String &&format_, Arg arg, Args... args ) {", "include/daw/deprecated/daw_string.h: ss << arguments[v];", "include/daw/deprecated/daw_string.h: ss << sm[0].str( );"]}
{"id": "C245", "title": "Visiting a variant", "statement": "visit calls the visitor with the value of the alternative that a variant has, for any number of alternatives, and throws for a variant without value; it is never undefined itself.", "quantifier": "all numbers of alternatives, variants and visitors", "why_tests_cant": "The dispatch is written out for two to sixteen alternatives and recursive beyond; the unit test has a few of them.", "anchors": ["include/daw/daw_visit.h: if constexpr( VSz - N >= 16 ) {", "include/daw/daw_visit.h: return visit_nt<N + 16, R>( DAW_FWD( var ), DAW_FWD( vis ) );", "include/daw/daw_visit.h: if( DAW_UNLIKELY( visit_details::is_empty( var ) ) ) {"]}
{"id": "C246", "title": "Visiting with a chosen result", "statement": "visit<Result> does the same as visit, and throws for a variant without value.", "quantifier": "all numbers of alternatives, variants and visitors", "why_tests_cant": "A variant without value is rare and the dispatch has many cases; no unit test has one.", "anchors": ["include/daw/daw_visit.h: if( DAW_UNLIKELY( var.index( ) < 0 ) ) {"]}
{"id": "C247", "title": "Casts of variants", "statement": "variant_cast gives the value of a variant converted, or throws; can_extract says whether the variant has the type.", "quantifier": "all variants, conversions and types", "why_tests_cant": "All alternatives and conversions; the unit test has one variant.", "anchors": ["include/daw/daw_variant_cast.h: return daw::visit_nt( var, impl::variant_visitor_t<T>{ } );", "include/daw/daw_variant_cast.h: constexpr bool can_extract( std::variant<Args...> const &var ) noexcept {"]}
{"id": "C248", "title": "Any of some conditions", "statement": "any_if says whether one of its arguments is true.", "quantifier": "all lists of conditions", "why_tests_cant": "Any number of arguments; the unit test expects that all are needed.", "anchors": ["include/daw/daw_any_if.h: return (do_test( DAW_FWD( predicates ) ) and ...);"]}
{"id": "C249", "title": "Tables of functions", "statement": "A function_table calls the function of the index, and ends the program for an index that no function has.", "quantifier": "all tables, indices and arguments", "why_tests_cant": "Any number of functions and any index; the unit test is one table and one text.", "anchors": ["include/daw/daw_function_table.h: return fns[idx]( DAW_FWD( args )... );", "include/daw/daw_function_table.h: if constexpr( is_t_in_range_v<I + 1, T> ) {", "include/daw/daw_function_table.h: return call( idx, DAW_FWD( args )... );"]}
{"id": "C250", "title": "Contracts", "statement": "A contract only has values that fulfil its conditions, and no use of it is undefined.", "quantifier": "all conditions, values, handlers and histories of uses", "why_tests_cant": "Histories of uses with any handler; the unit test has one value that does not fulfil and the first handler.", "anchors": ["include/daw/daw_contract.h: contract_failure_handler = default_contract_failure;", "include/daw/daw_contract.h: DAW_ASSUME( validate( value ) );", "include/daw/daw_contract.h: return DAW_FWD( value );"]}
{"id": "C251", "title": "Optionals of polymorphic objects", "statement": "An optional_poly has the object that was put into it, with its type, also after copying, assigning, moving and swapping.", "quantifier": "all histories of operations on any number of variables", "why_tests_cant": "Histories; the unit test only prints what the objects say.", "anchors": ["include/daw/deprecated/daw_optional_poly.h: return new v_t( *ptr );", "include/daw/deprecated/daw_optional_poly.h: m_value.reset( new value_type{ value } );", "include/daw/deprecated/daw_optional_poly.h: : m_value{ new std::decay_t<T>{ value } } {}"]}
{"id": "C252", "title": "Comparing optionals of polymorphic objects", "statement": "The comparisons of optional_poly agree with an order in which an empty one is first.", "quantifier": "all pairs of optionals and all orders of the objects", "why_tests_cant": "All pairs; the unit test compares an empty one with a value only.", "anchors": ["include/daw/deprecated/daw_optional_poly.h: bool operator<( daw::optional_poly<T> const &lhs,", "include/daw/deprecated/daw_optional_poly.h: bool operator>=( daw::optional_poly<T> const &lhs,"]}
{"id": "C253", "title": "Arguments of a program", "statement": "Arguments come back as they were meant: positional ones, flags, options and options with quotes, in order.", "quantifier": "all lists of arguments", "why_tests_cant": "Unbounded texts and lists; the unit test has two arguments.", "anchors": ["include/daw/daw_parse_args.h: name = args.pop_front_until( '=' );", "include/daw/daw_parse_args.h: if( args.starts_with( '\"' ) and args.ends_with( '\"' ) ) {"]}
{"id": "C254", "title": "Looking up arguments", "statement": "A name is found at the first argument that has it, with its value; has_named_argument and first_named_argument tell of the arguments that were named.", "quantifier": "all lists of arguments and names", "why_tests_cant": "Unbounded lists; the unit test looks up one name among one.", "anchors": ["include/daw/daw_parse_args.h: return arg.name == name;", "include/daw/daw_parse_args.h: return not arg.name.empty( );"]}
{"id": "C255", "title": "Iterators over several ranges", "statement": "The components of a zip_iterator are at one place, whatever moves there were, and it gives the elements at that place.", "quantifier": "all numbers of ranges, elements and histories of moves", "why_tests_cant": "Histories over any number of ranges; the unit test makes two moves.", "anchors": ["include/daw/iterator/daw_zipiter.h: ::Unused( ( ( ++std::get<Is>( tpl ), 0 ) + ... ) );", "include/daw/iterator/daw_zipiter.h: ::Unused( ( ( daw::advance( std::get<Is>( tpl ), n ), 0 ) + ... ) );", "include/daw/iterator/daw_zipiter.h: return { *std::get<Is>( m_values )... };"]}
{"id": "C256", "title": "Loops over several containers", "statement": "A loop over a zip_container sees the rows of its containers and ends.", "quantifier": "all numbers of containers and elements", "why_tests_cant": "Any lengths; the unit test has containers of one length.", "anchors": ["include/daw/daw_zipcontainer.h: : m_begin( std::begin( containers )... )", "include/daw/iterator/daw_zipiter.h: return m_values != rhs.m_values;", "include/daw/daw_zipcontainer.h: zip_container( Containers &&... ) -> zip_container<Containers...>;"]}
{"id": "C257", "title": "Powers of two as floating point numbers", "statement": "pow2<Real>(e) is the number 2^e if the type has it, infinity above and zero below.", "quantifier": "float and double, every exponent", "why_tests_cant": "Thousands of exponents; the static_asserts have a handful.", "anchors": ["include/daw/daw_cxmath.h: if( exp >= daw::numeric_limits<Real>::max_exponent ) {", "include/daw/daw_cxmath.h: } else if( exp <= daw::numeric_limits<Real>::min_exponent ) {"]}
{"id": "C258", "title": "ldexp", "statement": "ldexp multiplies by 2^e.", "quantifier": "every exponent", "why_tests_cant": "The exponent is an int, tests have small ones.", "anchors": ["include/daw/daw_cxmath.h: exponent += 1023;"]}
{"id": "C259", "title": "Tables of powers", "statement": "dpow2(e) and dpow10(e) are 2^e and 10^e for each exponent for which a double has the power.", "quantifier": "every exponent", "why_tests_cant": "The tables are computed by loops with chunks of 64 and 19 exponents; no test covers the ends.", "anchors": ["include/daw/daw_cxmath.h: std::array<Float, max_e - min_e> result{ };", "include/daw/daw_cxmath.h: return static_cast<Result>( m_tbl[static_cast<size_t>( zero + pos )] );"]}
{"id": "C260", "title": "Parts of a float", "statement": "float_parts_t gives sign, exponent and significand of a float, which make up the number.", "quantifier": "every 32 bit pattern", "why_tests_cant": "2^32 patterns.", "anchors": ["include/daw/daw_cxmath.h: [[nodiscard]] constexpr bool sign_bit( ) const noexcept {", "include/daw/daw_cxmath.h: [[nodiscard]] constexpr float significand( ) const noexcept {"]}
{"id": "C261", "title": "Neighbours of a double", "statement": "adj_ulp(d, n) is the n-th double above d, or below for negative n.", "quantifier": "every double and n", "why_tests_cant": "2^64 patterns times 2^32 steps.", "anchors": ["include/daw/daw_cxmath.h: inline constexpr double adj_ulp( double d, int adj ) {"]}
{"id": "C262", "title": "Square root", "statement": "sqrt of a number is its square root within one unit of the significand; NaN for negative numbers.", "quantifier": "every float and double", "why_tests_cant": "2^64 patterns; the one static_assert is for 16.", "anchors": ["include/daw/daw_cxmath.h: [[nodiscard]] constexpr Real sqrt_fast( Real r ) {", "include/daw/daw_cxmath.h: Real const y2 = ( Real{ 0.25 } * z ) + ( f / z );", "include/daw/daw_cxmath.h: case fp_classes::subnormal:"]}
{"id": "C263", "title": "Sign of a floating point number", "statement": "signbit tells whether the sign of the number is set.", "quantifier": "every float and double", "why_tests_cant": "2^64 patterns.", "anchors": ["include/daw/daw_cxmath.h: [[nodiscard]] constexpr bool signbit( Number n ) noexcept {"]}
{"id": "C264", "title": "Rounding to integers", "statement": "round, floor and ceil give the nearest integer, the greatest integer not above and the least integer not below the number.", "quantifier": "every number and result type", "why_tests_cant": "All numbers; tests have a few positive ones.", "anchors": ["include/daw/daw_math.h: return static_cast<Result>( d + 0.5 );", "include/daw/daw_math.h: return static_cast<Result>( d + 1.0 );"]}
{"id": "C265", "title": "Rounding to multiples", "statement": "round_by, floor_by and ceil_by give the nearest multiple of the step, the greatest not above and the least not below the value.", "quantifier": "every value and step", "why_tests_cant": "All pairs of numbers.", "anchors": ["include/daw/daw_math.h: static_cast<double>( round( static_cast<double>( value ) / rnd_by ) );", "include/daw/daw_math.h: static_cast<double>( ceil( static_cast<double>( value ) / rnd_by ) );"]}
{"id": "C266", "title": "Nearly equal floating point numbers", "statement": "nearly_equal holds for numbers that differ by less than epsilon, relative to their size and absolutely near zero; for NaN with NaN and for an infinity with itself.", "quantifier": "all pairs of numbers", "why_tests_cant": "2^128 pairs of double.", "anchors": ["include/daw/daw_math.h: return diff < ( epsilon * std::numeric_limits<T>::min_exponent );", "include/daw/daw_math.h: return diff / (daw::min)(( absA + absB ), max_value<T>) < epsilon;"]}
{"id": "C267", "title": "Sine and cosine", "statement": "daw::math::sin and cos give the sine and cosine up to a small error.", "quantifier": "every number", "why_tests_cant": "The recursion multiplies errors; tests have a few angles.", "anchors": ["include/daw/daw_math.h: return impl::sin_helper( x < 0 ? PI<R> - x : x );", "include/daw/daw_math.h: return x < constants::tol"]}
{"id": "C268", "title": "No update of an atomic is lost", "statement": "If threads add to and subtract from a daw::atomic by fetch_add, fetch_sub, +=, -=, ++ and --, its value in the end is the one in the beginning plus all that they add.", "quantifier": "every number of threads, their programs, and every order of their steps", "why_tests_cant": "The orders of steps cannot be enumerated, and a test sees few of them.", "anchors": ["include/daw/daw_cx_atomic.h: return std::atomic_ref<value_type>( self.m_value ).fetch_add( arg, m );", "include/daw/daw_cx_atomic.h: return --std::atomic_ref<value_type>( self.m_value );"]}
{"id": "C269", "title": "Exchange hands values on", "statement": "Threads that call exchange get, together with the value in the end, exactly the value in the beginning and the values that they gave, none lost and none twice.", "quantifier": "every number of threads, their programs, and every order of their steps", "why_tests_cant": "The orders of steps cannot be enumerated.", "anchors": ["include/daw/daw_cx_atomic.h: return std::atomic_ref<value_type>( self.m_value ).exchange( b, m );"]}
{"id": "C270", "title": "Assignment of atomics", "statement": "a = b of two atomics is indivisible like the other operations.", "quantifier": "every order of steps", "why_tests_cant": "The orders of steps cannot be enumerated.", "anchors": ["include/daw/daw_cx_atomic.h: constexpr atomic &operator=( atomic const &rhs ) noexcept {"]}
{"id": "C271", "title": "Atomics at compile time", "statement": "A program of operations on atomics has the same results at compile time as in a single thread at run time.", "quantifier": "every program, type and values", "why_tests_cant": "Tests of both branches have a few programs.", "anchors": ["include/daw/daw_cx_atomic.h: self.m_value += arg;", "include/daw/daw_cx_atomic.h: return ++self.m_value;"]}
{"id": "C272", "title": "Copying containers", "statement": "container::copy and copy_n put the elements of the source, for copy_n at most so many, in their order at the destination and change nothing else.", "quantifier": "every memory, source, count and destination", "why_tests_cant": "Sizes and overlaps are unbounded.", "anchors": ["include/daw/daw_container_algorithm.h: constexpr void copy( Container const &source, OutputIterator destination ) {", "include/daw/daw_container_algorithm.h: count = ( daw::min )( count, daw::size( source ) );"]}
{"id": "C273", "title": "Copying selected elements", "statement": "container::copy_if puts the elements for which the predicate holds in their order at the destination, gives the place after the last one, and changes nothing else.", "quantifier": "every memory, source, predicate and destination", "why_tests_cant": "Sizes and overlaps are unbounded.", "anchors": ["include/daw/daw_container_algorithm.h: constexpr OutputIterator copy_if( Container const &source,"]}
{"id": "C274", "title": "Calls with positions", "statement": "container::for_each_with_pos calls the function once for each element with a position in the interval, in order, and for no others.", "quantifier": "every container and interval", "why_tests_cant": "Sizes are unbounded.", "anchors": ["include/daw/daw_container_algorithm.h: auto it = daw::begin_at( container, first_inclusive );", "include/daw/daw_container_algorithm.h: for( size_t row = first_inclusive; row < last_exclusive; ++row ) {"]}
{"id": "C275", "title": "Elements of a Range", "statement": "range::Range gives the elements between its iterators: size, empty, front, back, operator[], as_vector, find and contains speak of these only.", "quantifier": "every array, range, position and value", "why_tests_cant": "Sizes are unbounded.", "anchors": ["include/daw/deprecated/daw_range_type.h: daw::advance( it, size( ) - 1 );", "include/daw/deprecated/daw_range_type.h: return *( m_begin + pos );"]}
{"id": "C276", "title": "Parts of a Range", "statement": "slice, shrink, move_next, move_back and safe_advance give the part of the range that they name; shrink( n ) leaves n elements.", "quantifier": "every array, range and positions", "why_tests_cant": "Sizes are unbounded.", "anchors": ["include/daw/deprecated/daw_range_type.h: return Range( m_begin, next( m_begin, new_size + 1 ) );", "include/daw/deprecated/daw_range_type.h: range.set_begin( range.end( ) );"]}
{"id": "C277", "title": "References to functions", "statement": "A call of a function_ref is a call of what was bound to it last, in its state at the time of the call.", "quantifier": "every history of assignments, changes and ends of objects", "why_tests_cant": "Histories are unbounded, and so is the mix of objects and functions in the union.", "anchors": ["include/daw/daw_function_ref.h: auto const &obj = *static_cast<Func const *>( d.obj_ptr );", "include/daw/daw_function_ref.h: constexpr Result operator( )( Params... params ) const {"]}
{"id": "C278", "title": "Bit set of the perfect hash", "statement": "mph_impl::static_bitset<Bits> holds Bits bits: set_bit is defined for each of them, and operator[] tells whether the bit was set.", "quantifier": "every number of bits, every sequence of bits set and every bit asked for", "why_tests_cant": "Numbers of bits and sequences are unbounded.", "anchors": ["include/daw/daw_min_perfect_hash.h: inline static constexpr size_t m_bins = Bits / m_bits_per_bin;", "include/daw/daw_min_perfect_hash.h: auto const mask = ~( 1U << item );"]}
{"id": "C279", "title": "Hashes of numbers, ranges and text", "statement": "generic_hash gives the FNV-1a hash of the bytes of its argument, and different single bytes have different hashes.", "quantifier": "every width, number, range and text", "why_tests_cant": "Ranges are unbounded and numbers have 64 bits.", "anchors": ["include/daw/daw_generic_hash.h: append_hash( hash, bptr[n] );", "include/daw/daw_generic_hash.h: static constexpr hash_value_t append_hash( hash_value_t current_hash,"]}
{"id": "C280", "title": "Descriptors of mapped files", "statement": "Every descriptor and mapping obtained by memory_mapped_file_t is held by one object, is given back once, and nothing is left when all objects are gone.", "quantifier": "every sequence of construction, open, move, move assignment and destruction, with every answer of the system", "why_tests_cant": "Sequences are unbounded and the failures of the system cannot be provoked.", "anchors": ["include/daw/daw_memory_mapped_file.h: munmap( p, d.size );", "include/daw/daw_memory_mapped_file.h: m_fdata.emplace( );"]}
{"id": "C281", "title": "Content of mapped files", "statement": "open tells whether the file is mapped, and the elements from begin to end are the content of the file.", "quantifier": "every answer of the system, every content and element size", "why_tests_cant": "Contents are unbounded.", "anchors": ["include/daw/daw_memory_mapped_file.h: [[nodiscard]] constexpr const_pointer cend( ) const noexcept {", "include/daw/daw_memory_mapped_file.h: constexpr explicit operator bool( ) const noexcept {"]}
{"id": "C282", "title": "Handles of mapped files on Windows", "statement": "Every handle and view obtained by memory_mapped_file_t is closed once, and none is left when all objects are gone.", "quantifier": "every sequence of construction, open, move, move assignment and destruction, with every answer of the system", "why_tests_cant": "Sequences are unbounded and the failures of the system cannot be provoked.", "anchors": ["include/daw/daw_memory_mapped_file.h: ::UnmapViewOfFile( static_cast<LPVOID>( tmp ) );", "include/daw/daw_memory_mapped_file.h: ::CloseHandle( d.handle );"]}
{"id": "C283", "title": "State of mapped files on Windows", "statement": "operator bool and empty tell whether the file was opened.", "quantifier": "every answer of the system", "why_tests_cant": "The failures of the system cannot be provoked.", "anchors": ["include/daw/daw_memory_mapped_file.h: constexpr explicit operator bool( ) const noexcept {"]}
{"id": "C284", "title": "Units of times and rates", "statement": "format_seconds and to_bytes_per_second print a number and a unit that give the value, the number being at least one and below a thousand where there is such a unit.", "quantifier": "every time, number of bytes and precision", "why_tests_cant": "The values are unbounded.", "anchors": ["include/daw/daw_benchmark.h: auto val = static_cast<double>( t ) * 1'000'000'000'000'000.0;", "include/daw/daw_benchmark.h: auto val = static_cast<double>( bytes ) / static_cast<double>( t );"]}
{"id": "C285", "title": "Statistics of benchmarks", "statement": "bench_n_test prints the smallest, the largest and the average time of the runs less the time of an empty run, with the average between the others, and gives the last value of the function.", "quantifier": "every number of runs, all durations and outcomes of the calls", "why_tests_cant": "Numbers of runs and durations are unbounded, and times cannot be reproduced.", "anchors": ["include/daw/daw_benchmark.h: return ( total_time - max_time ) / static_cast<double>( Runs - 1 );", "include/daw/daw_benchmark.h: avg_time -= base_time;"]}
{"id": "C286", "title": "Format specifications of ranges and tuples", "statement": "Parsing the field of a range or tuple ends at the closing brace of the field and keeps the field for the elements.", "quantifier": "every format string, every specification", "why_tests_cant": "Format strings are unbounded.", "anchors": ["include/daw/daw_format_range.h: struct formatter<daw::fmt_range<R, CharT>, CharT> {", "include/daw/daw_format_tuple.h: struct formatter<daw::fmt_tuple<T, CharT>, CharT> {"]}
{"id": "C287", "title": "Formatted ranges and tuples", "statement": "A range or tuple is written as its elements in the format of the field with the separator between every two of them, within the brackets; nested ones in the same way.", "quantifier": "every range, separator, brackets, element format and depth of nesting", "why_tests_cant": "Ranges and depths are unbounded.", "anchors": ["include/daw/daw_format_range.h: struct formatter<daw::fmt_range<R, CharT>, CharT> {", "include/daw/daw_format_tuple.h: struct formatter<daw::fmt_tuple<T, CharT>, CharT> {"]}
{"id": "C288", "title": "Factories of objects set piece by piece", "statement": "A piecewise factory constructs its object from the last value set for each parameter, refuses what it cannot take, and reports parameters that were not set.", "quantifier": "every number of parameters and every sequence of calls of set", "why_tests_cant": "Sequences are unbounded.", "anchors": ["include/daw/daw_piecewise_factory.h: []( ... ) noexcept {} );", "include/daw/daw_piecewise_factory.h: return get_value( *std::get<N>( tp ) );"]}
{"id": "C289", "title": "Character tests with values of different types", "statement": "is_a, in_range and the character classes of the parser compare the numbers they are given.", "quantifier": "every integer type and value, every list of values", "why_tests_cant": "Types and values are too many.", "anchors": ["include/daw/daw_parser_helper.h: [[nodiscard]] constexpr bool in_range( T value, Min minimum_value,", "include/daw/daw_traits.h: struct max_sizeof<First, Second> {"]}
{"id": "C290", "title": "Matchers of the parser", "statement": "matcher finds the first place where the pattern stands in the text, and nothing if it does not stand there.", "quantifier": "every pattern and text", "why_tests_cant": "Patterns and texts are unbounded.", "anchors": ["include/daw/daw_parser_helper.h: [[nodiscard]] auto matcher( T ( &container )[N] ) {"]}
{"id": "C291", "title": "Comparisons of integers of different types", "statement": "cmp_equal, cmp_less and their kin of daw::cxmath compare the numbers, whatever their types.", "quantifier": "every pair of integer types and values", "why_tests_cant": "64 bit values are too many.", "anchors": ["include/daw/daw_cxmath.h: struct cmp_equal_t {", "include/daw/daw_cxmath.h: struct cmp_less_t {"]}
{"id": "C292", "title": "Arithmetic on tuples", "statement": "The operators of tuple helpers give the sums, differences, products and quotients of the components.", "quantifier": "every tuple, all integer types and values", "why_tests_cant": "Tuples are unbounded and values too many.", "anchors": ["include/daw/daw_tuple_helper.h: apply_tuple_tuple( std::tuple<Ts...> const &op1,", "include/daw/daw_tuple_helper.h: struct div_t {"]}
{"id": "C293", "title": "Least, greatest, text and components of tuples", "statement": "min and max of tuples are those of the components, a tuple is written as its components, get and apply_at use the component with the index.", "quantifier": "every tuple and index", "why_tests_cant": "Tuples are unbounded.", "anchors": ["include/daw/daw_tuple_helper.h: constexpr void apply_at( std::tuple<Args...> const &tp, size_t index,", "include/daw/daw_tuple_helper.h: inline std::ostream &operator<<( std::ostream &os,"]}
{"id": "C294", "title": "Least and greatest of many", "statement": "daw::min and daw::max give the least and the greatest of their arguments; min_comp and max_comp with an order.", "quantifier": "every number of arguments, every integer type and value; every strict weak order", "why_tests_cant": "Numbers of arguments are unbounded.", "anchors": ["include/daw/impl/daw_math_impl.h: constexpr auto( max )( T const &val1, Ts const &...vs ) noexcept {", "include/daw/impl/daw_math_impl.h: auto const tmp = (max)( vs... );"]}
{"id": "C295", "title": "Calling a function a number of times", "statement": "do_n calls the function exactly count times, do_n_arg calls it with 0, by_n, 2 by_n, ... below count in this order, at run time and when unrolled at compile time.", "quantifier": "every count, step, function and order of evaluation of operands", "why_tests_cant": "Counts are unbounded, and the order of the operands of + is chosen by the compiler.", "anchors": ["include/daw/daw_do_n.h: while( count-- > 0 ) {", "include/daw/daw_do_n.h: (void)( ( func( Is * by_n ), 0 ) + ... );"]}
{"id": "C296", "title": "Bit sets from positions", "statement": "create_bitset_from_set_positions sets exactly the bits at the given positions, and positions out of range are refused.", "quantifier": "every size, every list of positions of every integer type", "why_tests_cant": "Lists of positions are unbounded.", "anchors": ["include/daw/daw_bitset_helper.h: create_bitset_from_set_positions( auto const &r ) {"]}
{"id": "C297", "title": "Literals for sizes", "statement": "A literal of size is the number times the power of its unit: 1000 for KB, MB, ... and 1024 for KiB, MiB, ...", "quantifier": "every unit and value", "why_tests_cant": "Values are too many.", "anchors": ["include/daw/daw_size_literals.h: operator\"\"_KB( unsigned long long val ) noexcept {", "include/daw/daw_size_literals.h: operator\"\"_KiB( unsigned long long val ) noexcept {"]}
{"id": "C298", "title": "Comparison of arrays of any rank", "statement": "array_cmp compares arrays element by element in the order of storage and gives the first result that is not equal.", "quantifier": "every rank, extents, elements and comparison", "why_tests_cant": "Ranks and extents are unbounded.", "anchors": ["include/daw/algorithms/daw_array_compare.h: return array_cmp( lhs[n], rhs[n], cmp );"]}
{"id": "C299", "title": "Orderings as integers", "statement": "Converting an ordering to the integer or the enumeration keeps what it says, and different results stay different.", "quantifier": "every ordering and every representation of unordered", "why_tests_cant": "The representation is chosen by the library.", "anchors": ["include/daw/daw_ordering_to_integer.h: enum class partial_ordering {"]}
{"id": "C300", "title": "Reading a file", "statement": "read_file gives the content of the file, or nothing if it cannot be read, and leaves no file open.", "quantifier": "every content, size and character type, every failure", "why_tests_cant": "Contents and failures are unbounded.", "anchors": ["include/daw/daw_read_file.h: if( num_read != ( result.size( ) / sizeof( CharT ) ) ) {"]}
{"id": "C301", "title": "Owners of C files", "statement": "Every file given to a CFile is closed exactly once, when its owner is reset, closed or destroyed; moving hands it over.", "quantifier": "every sequence of operations on any number of owners", "why_tests_cant": "Sequences are unbounded.", "anchors": ["include/daw/deprecated/daw_cfile.h: reset( release( ) );"]}
{"id": "C302", "title": "Owners of container buffers", "statement": "A container_data destroys every element of its buffer once and deallocates the buffer once with its capacity, when it is reset, assigned or destroyed.", "quantifier": "every sequence of operations on any number of objects, sizes and capacities", "why_tests_cant": "Sequences and sizes are unbounded.", "anchors": ["include/daw/impl/daw_container_help_impl.h: while( count-- > 0 ) {", "include/daw/impl/daw_container_help_impl.h: class container_data {"]}
{"id": "C303", "title": "Storage for one object", "statement": "An uninitialized_storage holds the object constructed in it until it is destructed, also in copies of the storage.", "quantifier": "every sequence of operations on any number of storages", "why_tests_cant": "Sequences are unbounded.", "anchors": ["include/daw/daw_uninitialized_storage.h: std::byte m_data[sizeof( value_type )];"]}
{"id": "C304", "title": "Moving iterators and measuring their distance", "statement": "advance, next and prev move an iterator by exactly n elements in the direction asked for, and distance counts the elements between two iterators.", "quantifier": "every iterator category, length, position and number", "why_tests_cant": "Lengths and numbers are unbounded.", "anchors": ["include/daw/cpp_17_iterator.h: while( ++n < 0 ) {", "include/daw/cpp_17_iterator.h: distance( Iterator first, Iterator second ) noexcept("]}
{"id": "C305", "title": "Ranges of integers", "statement": "An integer_range from f to l visits f, f + 1, ..., l - 1 in order, and nothing if l is not greater than f.", "quantifier": "every integer type and every two values", "why_tests_cant": "Values are too many, and the loop is unbounded.", "anchors": ["include/daw/iterator/daw_integer_iterator.h: constexpr integer_range( T f, T l ) noexcept"]}
{"id": "C306", "title": "Vectors of references", "statement": "to_reference_vector gives a vector with a reference to each element, and references compare as the elements.", "quantifier": "every sequence, every comparison", "why_tests_cant": "Sequences are unbounded.", "anchors": ["include/daw/daw_reference.h: result.push_back( daw::ref<value_type>( *first ) );"]}
{"id": "C307", "title": "Iterators around pointers", "statement": "Programs on RandomIterator, wrap_iter and prop_const_ptr do what they do on pointers, and what is reached through a const prop_const_ptr stays const.", "quantifier": "every sequence of operations on any number of iterators", "why_tests_cant": "Sequences are unbounded.", "anchors": ["include/daw/iterator/daw_random_iterator.h: struct RandomIterator {", "include/daw/wrap_iter.h: class wrap_iter {", "include/daw/daw_prop_const_ptr.h: struct prop_const_ptr {"]}
{"id": "C308", "title": "Filling storage with numbers", "statement": "iota_op writes first, first + step, ... into the storage and returns how many elements it wrote.", "quantifier": "every integer type, first value, step, size and comparison", "why_tests_cant": "Sizes and values are too many.", "anchors": ["include/daw/vector_algorithm.h: auto const last = m_first + static_cast<T>( sz ) * m_step;"]}
{"id": "C309", "title": "Numbers from text", "statement": "from_string gives the number a text represents and nothing for texts that are no number or out of range.", "quantifier": "every integer type, value and text after the number", "why_tests_cant": "Values and texts are unbounded.", "anchors": ["include/daw/daw_from_string.h: std::from_chars_result fs_r = std::from_chars("]}
{"id": "C310", "title": "Views of functions", "statement": "A function_view and its copies call the function they were made from as long as it lives.", "quantifier": "every sequence of making, copying, assigning and destroying views and callables", "why_tests_cant": "Sequences are unbounded, and calls through views of views need not end.", "anchors": ["include/daw/daw_function_view.h: function_view_table_storage<Result, Args...>::make( f ) ) {}"]}
{"id": "C311", "title": "Variants seen through a base class", "statement": "operator* and operator-> of a poly_var give access to the object stored.", "quantifier": "every type, value and sequence of assignments", "why_tests_cant": "Sequences are unbounded.", "anchors": ["include/daw/daw_poly_var.h: return *static_cast<Base const *>( &value );"]}
{"id": "C312", "title": "Bound arguments", "statement": "bind_args_at calls the function with the first N arguments, the bound ones and the others in order, bind_front with the bound ones first; arguments are forwarded.", "quantifier": "every number of arguments, position, ways of passing and order of evaluation", "why_tests_cant": "Numbers of arguments are unbounded, and the order is chosen by the compiler.", "anchors": ["include/daw/daw_bind_args_at.h: struct bind_args_at_fn {", "include/daw/daw_bind_front.h: class bind_front {"]}
{"id": "C313", "title": "Packs of forwarded arguments", "statement": "apply calls the function with the arguments of the pack, in order and with their value categories.", "quantifier": "every number and kind of arguments", "why_tests_cant": "Packs are unbounded.", "anchors": ["include/daw/daw_fwd_pack_apply.h: : base_type{ { &args }... } {}"]}
{"id": "C314", "title": "Named parameters", "statement": "get_opt gives the value of the option with the name, or the default; the order of options does not matter, and repeated options are refused.", "quantifier": "every list of options and every order", "why_tests_cant": "Lists of options are unbounded.", "anchors": ["include/daw/daw_named_params.h: inline constexpr bool less_than_one_match_v ="]}
{"id": "C315", "title": "Concatenating and applying tuple2", "statement": "tuple2_cat of any tuples is the tuple of all their elements in order, and apply calls a function with all elements in order.", "quantifier": "every number of tuples, sizes, kinds of elements and value categories", "why_tests_cant": "Tuples are types, each test is one instantiation; the location arithmetic depends on unbounded sizes.", "anchors": ["include/daw/daw_tuple2.h: encode_location( std::size_t outter, std::size_t inner ) {", "include/daw/daw_tuple2.h: constexpr tuple2<> tuple2_cat( Tuple &&tp ) {"]}
{"id": "C316", "title": "Applying and comparing tuples", "statement": "apply passes the elements of a tuple in order and with the value category of the tuple; tuples compare element by element.", "quantifier": "every tuple, element kind, value category and comparison of elements, also ones that throw", "why_tests_cant": "Tuples are types, and the comparisons of elements are arbitrary.", "anchors": ["include/daw/daw_tuple.h: return tp.template get<N>( );"]}
{"id": "C317", "title": "Pipelines run their stages in order", "statement": "A pipeline calls each stage with what the one before returned, pipelines nest, and literals are passed as their text.", "quantifier": "every number of stages, their functions and exceptions, and every literal", "why_tests_cant": "Pipelines are unbounded in length and stages arbitrary.", "anchors": ["include/daw/pipelines/pipeline.h: return daw::string_view( s, N - 1 );"]}
{"id": "C318", "title": "Stages that visit, test and sample", "statement": "ForEach and ForEachIndexed visit every element in order (with its index), IsOneOf tests membership, a maybe view has at most one element and Sample keeps a subsequence.", "quantifier": "every range, function with state, random generator and sample size", "why_tests_cant": "Ranges and generators are unbounded.", "anchors": ["include/daw/pipelines/foreach.h: (void)std::invoke( fn, r[n] );", "include/daw/pipelines/sample.h: daw_ensure( m_number_to_keep < m_sample_size );"]}
{"id": "C319", "title": "Picking elements of rows in pipelines", "statement": "Elements<Is...> picks the elements with these indices of each row, at any place of a pipeline.", "quantifier": "every list of rows, indices and stages", "why_tests_cant": "Pipelines are unbounded, and reading what is gone may seem to work.", "anchors": ["include/daw/pipelines/elements.h: explicit constexpr elements_view( U &&r )"]}
{"id": "C320", "title": "Clauses of owning ranges", "statement": "where, erase, unique, stable_sort and stable_partition of a range, and << with such clauses, leave the elements asked for in order.", "quantifier": "every container, condition and program of clauses", "why_tests_cant": "Containers and programs are unbounded.", "anchors": ["include/daw/deprecated/daw_range_collection.h: return make_range_reference( *this ).where( predicate );", "include/daw/deprecated/daw_range_operators.h: static auto clause_name##_helper( Container const &container,"]}
{"id": "C321", "title": "Pointers that own nothing", "statement": "An observer_ptr behaves as the pointer it was given last, reading null ends the program, the comparisons are a total order, and the monadic functions call for the pointers they should.", "quantifier": "every program of operations, memory, pointers and functions", "why_tests_cant": "Programs and functions are unbounded.", "anchors": ["include/daw/daw_observer_ptr.h: constexpr std::strong_ordering operator<=>( pointer other ) const {", "include/daw/daw_monadic_pointer_ops.h: return daw::invoke( DAW_FWD( f ), DAW_FWD( p ) );"]}
{"id": "C322", "title": "Writing integers as text", "statement": "to_os_string_int writes the sign and decimal digits of every integer; num_digits, pow10 and whole_log10 are what their names say.", "quantifier": "every value of every integer type of 8 to 64 bits", "why_tests_cant": "There are too many values, and the calls do not compile.", "anchors": ["include/daw/impl/daw_int_to_iterator.h: constexpr OutputIterator to_os_string_int( OutputIterator it,", "include/daw/impl/daw_int_to_iterator.h: not std::is_integral_v<daw::remove_cvref_t<Integer>>,"]}
{"id": "C323", "title": "Compensated summation", "statement": "SumKahanBabushkaNeumaier adds the exact rounding error of every addition to its correction, so that the result is the floating point number nearest to the exact sum if the errors can be added exactly; a projection is applied to each element.", "quantifier": "every precision, rounding to nearest with any treatment of ties, and every list of numbers", "why_tests_cant": "Rounding depends on the numbers, lists are unbounded, and a test with a few numbers cannot show that no error is lost.", "anchors": ["include/daw/pipelines/numeric.h: c += ( sum - t ) + input;", "include/daw/pipelines/numeric.h: return std::invoke( cur_v, m_projection );"]}
{"id": "C324", "title": "Random access of zip iterators", "statement": "it + n moves every iterator of a zip iterator by n, is n increments, it[n] is *( it + n ), and end - begin is the number of rows.", "quantifier": "every number and length of ranges and every distance", "why_tests_cant": "Ranges are unbounded in number and length.", "anchors": ["include/daw/pipelines/zip.h: constexpr zip_iterator &operator+=( difference_type n )", "include/daw/pipelines/zip.h: return get_at( n, zip_indices( ) );"]}
{"id": "C325", "title": "Adding ranges to a zip", "statement": "ZipMore( rs... ) makes a zip of the ranges of the zip it is given, or of the range, and rs, as long as the shortest of all.", "quantifier": "every number and length of ranges on both sides", "why_tests_cant": "Ranges are unbounded in number, and reading what is gone may seem to work.", "anchors": ["include/daw/pipelines/zip.h: [[nodiscard]] constexpr auto ZipMore( Ranges &&...rs ) {"]}
{"id": "C326", "title": "Picking columns in pipelines", "statement": "Swizzle<Is...> of a range of tuples has the columns Is of each row, composes, and repeats values that are no tuples.", "quantifier": "every list of rows and indices", "why_tests_cant": "Rows and indices are unbounded.", "anchors": ["include/daw/pipelines/swizzle.h: struct Swizzle_t {"]}
{"id": "C327", "title": "Extrema in pipelines", "statement": "Max, Min and MinMax give the first greatest and the first least element by any order and projection.", "quantifier": "every list, strict weak order and projection", "why_tests_cant": "Lists and orders are unbounded.", "anchors": ["include/daw/pipelines/algorithm.h: struct Max_t {", "include/daw/pipelines/algorithm.h: struct MinMax_t {"]}
{"id": "C328", "title": "Clamping in pipelines", "statement": "Clamp( lo, hi ) replaces every element by the nearest value between the bounds, keeps the number of elements and is idempotent, for bounds of any convertible type.", "quantifier": "every list, strict weak order and bounds", "why_tests_cant": "Lists and orders are unbounded.", "anchors": ["include/daw/pipelines/map.h: return std::clamp( v, l, h, c );", "include/daw/pipelines/map.h: [[nodiscard]] constexpr auto Clamp( T &&lo, std::type_identity_t<T> hi,"]}
{"id": "C329", "title": "Arithmetic of iterators of Map and Elements", "statement": "it + n, it - n, it += n and it -= n of the iterators of Map, Element and Elements move by n.", "quantifier": "every range, position and distance", "why_tests_cant": "Ranges are unbounded, and templates that are not used are not compiled by tests.", "anchors": ["include/daw/pipelines/map.h: operator+( difference_type n ) const noexcept", "include/daw/pipelines/elements.h: operator-( difference_type n ) const noexcept"]}
{"id": "C330", "title": "Ownership of C strings", "statement": "A CString that owns its array deletes it exactly once, whatever is copied, moved and assigned.", "quantifier": "every program of constructions, copies, moves, assignments and destructions", "why_tests_cant": "Programs are unbounded, and a second delete may seem to work.", "anchors": ["include/daw/deprecated/daw_cstring.h: [[deprecated]] CString( CString && ) = default;", "include/daw/deprecated/daw_cstring.h: m_data = tmp.release( );"]}
{"id": "C331", "title": "Comparing C strings", "statement": "CStrings compare as their texts in lexicographic order.", "quantifier": "every pair of texts", "why_tests_cant": "Texts are unbounded.", "anchors": ["include/daw/deprecated/daw_cstring.h: return strcmp( m_data, rhs.m_data );"]}
{"id": "C332", "title": "Numbers of bytes", "statement": "value_from_chars makes of 1, 2, 4 or 8 bytes the number with these digits, as_char_array gives the bytes of a value, and to_array_of applies the first to the second.", "quantifier": "every byte and every number", "why_tests_cant": "There are 2^64 numbers, and templates that are not used are not compiled by tests.", "anchors": ["include/daw/daw_utility.h: result |= static_cast<uint64_t>( static_cast<uint64_t>( *ptr ) << 48U );", "include/daw/daw_utility.h: static_assert( std::is_integral_v<std::decay<To>>,"]}
{"id": "C333", "title": "Casts that keep the value", "statement": "cast<T>( v ) compiles only if the sign of the types is the same and T is not smaller, so it keeps every value.", "quantifier": "every pair of integer types and every value", "why_tests_cant": "Pairs of types and values are unbounded; a test of what does not compile needs a program for each.", "anchors": ["include/daw/daw_utility.h: ( std::is_arithmetic_v<U> and std::is_arithmetic_v<T> ) ) {"]}
{"id": "C334", "title": "Ranges of two iterators that shrink", "statement": "remove_prefix and remove_suffix of what make_range returns leave the elements in between.", "quantifier": "every sequence and every program of removals", "why_tests_cant": "Sequences and programs are unbounded.", "anchors": ["include/daw/daw_utility.h: constexpr void remove_prefix( std::size_t count ) {"]}
{"id": "C335", "title": "Tests against several values", "statement": "value_is( v ).one_of and none_of are membership and its opposite, and or_all has the bits of all its arguments.", "quantifier": "every value, list of values and comparison", "why_tests_cant": "Argument lists are unbounded.", "anchors": ["include/daw/daw_utility.h: return ( ( *m_value == args ) or ... );", "include/daw/daw_utility.h: constexpr value_is_utility_details( T const &v )"]}
{"id": "C336", "title": "Seeds of texts", "statement": "generate_seed hashes a text with the given seed, texts one after the other hash like their concatenation, and different texts have different seeds.", "quantifier": "every text and seed", "why_tests_cant": "Texts are unbounded and the hash is that of a program at compile time.", "anchors": ["include/daw/daw_random.h: size_t result = seed == 0 ? 5381U : seed;"]}
{"id": "C337", "title": "Seeds of RandomInteger", "statement": "Different seeds make different generators.", "quantifier": "every integer type and seed", "why_tests_cant": "There are 2^64 seeds.", "anchors": ["include/daw/daw_random.h: explicit constexpr RandomInteger( R seed )"]}
{"id": "C338", "title": "Arithmetic of unsigned enumerations of any two widths", "statement": "An arithmetic or bitwise operator with two of UInt8 to UInt64, or one of them and an integer, compiles, and its result is exact modulo two to the width of the wider operand.", "quantifier": "every operator, every pair of types of operands and every value", "why_tests_cant": "There are more than a thousand combinations of operator and types, and values are unbounded; what does not compile is not tested.", "anchors": ["include/daw/daw_uint_types.h: constexpr UInt64 operator+( UInt64 lhs, UInt64 rhs ) noexcept {"]}
{"id": "C339", "title": "Comparisons of unsigned enumerations with integers", "statement": "A comparison of UInt8 to UInt64 with an integer or with each other compiles and compares the numbers.", "quantifier": "every comparison, every pair of types of operands and every value", "why_tests_cant": "Values are unbounded, and what does not compile is not tested.", "anchors": ["include/daw/daw_uint_types.h: constexpr bool operator==( UInt64 lhs, std::uint64_t rhs ) noexcept {"]}
{"id": "C340", "title": "Shifts and unary operators of unsigned enumerations", "statement": "Shifts multiply or divide by powers of two modulo the width for every count of every type, ++ and -- undo each other, and ~ turns every bit.", "quantifier": "every width, value and count", "why_tests_cant": "Values are unbounded, and what does not compile is not tested.", "anchors": ["include/daw/daw_uint_types.h: constexpr UInt64 operator<<( UInt64 b, std::uint64_t shift ) noexcept {"]}
{"id": "C341", "title": "Iterators of the old hash table", "statement": "A loop from begin to end of hash_table visits every stored item once, in the order of the cells; -- undoes ++; at_end and valid tell the end.", "quantifier": "every table", "why_tests_cant": "Tables are unbounded and the items lie at random places.", "anchors": ["include/daw/deprecated/daw_hash_table.h: bool at_end( ) const {"]}
{"id": "C342", "title": "Copies of the old hash table", "statement": "A copy of a hash_table finds what the original finds, and a copied cell equals the original.", "quantifier": "every table and hash", "why_tests_cant": "Tables are unbounded.", "anchors": ["include/daw/deprecated/daw_hash_table.h: hash_table_item( hash_table_item const &other )"]}
{"id": "C343", "title": "Comparisons of bounded strings with other texts", "statement": "Every comparison of a basic_bounded_string with a view, a std::string, a pointer or an array, on either side, is that of the texts.", "quantifier": "every string, text and operator", "why_tests_cant": "Texts are unbounded and each of 48 functions is written by hand.", "anchors": ["include/daw/deprecated/daw_bounded_string.h: operator==( CharT const ( &lhs )[N],"]}
{"id": "C344", "title": "Concatenation of bounded strings with pointers and arrays", "statement": "str + text and text + str are the concatenation if it fits, and throw otherwise.", "quantifier": "every string and text", "why_tests_cant": "Texts are unbounded, and what does not compile is not tested.", "anchors": ["include/daw/deprecated/daw_bounded_string.h: auto operator+( CharT ( &lhs )[N],"]}
{"id": "C345", "title": "Raw bits of a float without bit casts", "statement": "The portable computation of the bits of a float gives back the 32 bits of every float.", "quantifier": "every float", "why_tests_cant": "There are four billion floats, and the branch is compiled only where there is no bit cast.", "anchors": ["include/daw/daw_cxmath.h: return { 0, f }; // also matches -0.0f and gives wrong result"]}
{"id": "C346", "title": "Exponent of a floating point number without bit casts", "statement": "intxp gives the floor of the binary logarithm of the magnitude, and the portable version agrees with the one by bit cast.", "quantifier": "every float and double", "why_tests_cant": "There are 2^64 doubles, and a build has only one of the two versions.", "anchors": ["include/daw/daw_cxmath.h: [[nodiscard]] constexpr std::optional<std::int32_t> intxp( Real f ) noexcept {"]}
{"id": "C347", "title": "Removal of a value given by reference", "statement": "remove and erase_remove leave exactly the elements that differ from the value passed, in order, also if the value is an element of the range.", "quantifier": "every sequence, range and value", "why_tests_cant": "Sequences are unbounded, and the place of the element referred to matters.", "anchors": ["include/daw/daw_algorithm.h: constexpr ForwardIterator remove( ForwardIterator first, ForwardIterator last,", "include/daw/daw_container_algorithm.h: erase_remove( Container &container, Value const &value ) noexcept("]}
{"id": "C348", "title": "States of an expectation without value", "statement": "An expected_t<void> is empty, a value or an exception, get tells which, and it reports success exactly if the code did not throw.", "quantifier": "every sequence of operations", "why_tests_cant": "Sequences of operations are unbounded, and exceptions may be null.", "anchors": ["include/daw/daw_expected.h: struct expected_t<void> {"]}
{"id": "C349", "title": "Comparison of value_ptr", "statement": "The comparisons of value_ptr order null first and then by the values, equality is equality of the values, and equal pointers have equal hashes.", "quantifier": "every order of values and every three pointers", "why_tests_cant": "Orders and values are unbounded.", "anchors": ["include/daw/daw_value_ptr.h: constexpr int compare( value_ptr<U> const &rhs ) const noexcept {"]}
{"id": "C350", "title": "Backward iteration of bounded_hash_set", "statement": "A loop from end to begin with -- visits every entry once, and -- undoes ++.", "quantifier": "every table", "why_tests_cant": "Tables are unbounded and the entries lie at random places.", "anchors": ["include/daw/deprecated/daw_bounded_hash_set.h: while( !m_position->has_value and m_position > m_first ) {"]}
{"id": "C351", "title": "Values from streams and calls with parsed arguments", "statement": "values_from_stream gives the values of the parts of what was not yet read from the stream; apply_string calls the function with the values of the parts.", "quantifier": "every stream, position, delimiter and list of converters", "why_tests_cant": "Streams and texts are unbounded, and the two overloads are chosen by the type of the stream.", "anchors": ["include/daw/daw_parse_to.h: decltype( auto ) values_from_stream( Stream &&s, Splitter &&splitter ) {"]}
{"id": "C352", "title": "Checks of a test program", "statement": "expecting comes back exactly if the values are equal, and expecting_exception exactly if the exception asked for is thrown and accepted; every other outcome is reported.", "quantifier": "every two integers of every two types, arrays, exceptions, predicates that may throw, with and without exceptions", "why_tests_cant": "A test program cannot check its own checks for all values and builds.", "anchors": ["include/daw/daw_benchmark.h: expecting_exception( Expression &&expression,"]}
{"id": "C353", "title": "Runs that are timed and checked", "statement": "bench_n_test_json_val and bench_n_test_mbs2 give one duration for each run, none negative, if every result is valid, and otherwise report the first failure and run no more.", "quantifier": "every number of runs, function, check and clock", "why_tests_cant": "Numbers of runs and readings of the clock are unbounded.", "anchors": ["include/daw/daw_benchmark.h: bench_n_test_json( Function &&func, Args &&...args ) {", "include/daw/daw_benchmark.h: bench_n_test_json_val( Validator &&validator, Function &&func,"]}
{"id": "C354", "title": "Raw buffer for a number of objects", "statement": "A buffer that get_buffer gives has room for the number of objects asked for, each aligned.", "quantifier": "every type, alignment, count and memory", "why_tests_cant": "The counts for which the product wraps cannot be tried in general.", "anchors": ["include/daw/daw_utility.h: inline T *get_buffer( std::size_t count ) noexcept {"]}
{"id": "C355", "title": "Search of a range with a predicate", "statement": "contains( value, predicate ) of a range tells whether the predicate holds of the value and some element.", "quantifier": "every range, value and predicate", "why_tests_cant": "Ranges and predicates are unbounded.", "anchors": ["include/daw/deprecated/daw_range_type.h: auto predicate2 = [&value, &predicate]( Value const &val ) {", "include/daw/deprecated/daw_range_algorithm.h: auto pred2 = [&value, &pred]( Value const &val ) {"]}
{"id": "C356", "title": "Text written to a stream of any width", "statement": "A text written to a stream is filled up to the width of the stream, and not filled if the width is negative.", "quantifier": "every stream, text and width, negative ones included", "why_tests_cant": "Widths and texts are unbounded; a test with a negative width would not end.", "anchors": ["include/daw/daw_string_view.h: auto const w = static_cast<std::size_t>( os.width( ) );", "include/daw/deprecated/daw_bounded_string.h: auto const w = static_cast<ptrdiff_t>( os.width( ) );"]}
{"id": "C357", "title": "Splitter of format texts", "statement": "Fed with the characters of a format text, brace_splitter_t tells the fields in braces apart, counts their characters, takes an escaped brace for text and reports braces that do not match.", "quantifier": "every text", "why_tests_cant": "Texts are unbounded, and the state is carried from one character to the next.", "anchors": ["include/daw/format.h: constexpr bool operator( )( char c ) {", "include/daw/format.h: constexpr void switch_state( states_t s ) noexcept {"]}
{"id": "C358", "title": "Loops over circular iterators", "statement": "The loop from a circular iterator to its end visits each element once; differences count the increments between iterators, and an iterator outside of a container that became shorter comes back by an increment.", "quantifier": "every container, iterator and change of the container", "why_tests_cant": "Loops without end cannot be tested, and positions and sizes are unbounded.", "anchors": ["include/daw/iterator/daw_circular_iterator.h: constexpr circular_iterator end( ) noexcept {"]}
{"id": "C359", "title": "Allocators of the old vector", "statement": "Memory that MMapAlloc and MallocAlloc give has room for the objects asked for, a failure is reported, and all of it is given back.", "quantifier": "every type, count, state of the memory", "why_tests_cant": "Exhausted memory and counts near 2^64 cannot be tried, and the lost pages show only in long runs.", "anchors": ["include/daw/deprecated/daw_vector.h: inline std::size_t round_to_page_size( std::size_t sz ) {", "include/daw/deprecated/daw_vector.h: ::munmap( ptr, vector_details::round_to_page_size( sz ) );"]}
{"id": "C360", "title": "Limits of the integer types of the library", "statement": "min, lowest, max, digits and digits10 of the integers of 128 bits and of UInt8 to UInt64 are those of the type.", "quantifier": "every value of each type", "why_tests_cant": "There are 2^128 values.", "anchors": ["include/daw/impl/daw_gcc_clang_int128.h: struct numeric_limits<__int128> {", "include/daw/daw_uint_types.h: struct numeric_limits<daw::UInt64> {"]}
{"id": "C361", "title": "Bounded vector of capacity 0", "statement": "The bounded vector of capacity 0, a class of its own, answers as the general one would with that capacity.", "quantifier": "every sequence of calls", "why_tests_cant": "Sequences of calls are unbounded, and the two classes are never compared.", "anchors": ["include/daw/daw_bounded_vector.h: struct bounded_vector_t<T, 0> {"]}
{"id": "C362", "title": "Compound assignments of the unsigned enumerations", "statement": "a op= b compiles for UInt8 to UInt64 with the integers and enumerations that are not wider, whichever the operator, and leaves in a the exact result modulo 2^w, which is what a op b gives; the integers on the left are treated alike by all operators.", "quantifier": "every operator, pair of operand types and pair of values", "why_tests_cant": "There are 2^128 pairs of values and some 150 overloads.", "anchors": ["include/daw/daw_uint_types.h: constexpr UInt64 &operator<<=( UInt64 &b, std::uint64_t shift ) noexcept {", "include/daw/daw_uint_types.h: constexpr UInt64 &operator+=( UInt64 &lhs, UInt64 rhs ) noexcept {", "include/daw/daw_uint_types.h: constexpr UInt8 &operator/=( UInt8 &lhs, std::uint64_t rhs ) noexcept {"]}
{"id": "C363", "title": "Zero terminated texts of string views", "statement": "get_c_str of a string view gives a zero terminated text of exactly the characters of the view, whether they are copied or not, and its size and string agree with it.", "quantifier": "every memory, view and history of the view", "why_tests_cant": "Views and memories are unbounded, and reads past the end do not show in tests.", "anchors": ["include/daw/daw_string_view.h: DAW_CPP20_CX_ALLOC c_str_proxy<CharT> get_c_str( ) const {", "include/daw/daw_string_view.h: class c_str_proxy {"]}
{"id": "C364", "title": "Checks of all elements and loops over subsets", "statement": "assert_all_false and assert_all_true throw just if some element fails the check, calling the predicate once for each element up to that one; for_each_subset calls its function with the indexes from first to last in order.", "quantifier": "every predicate, function, container and interval", "why_tests_cant": "Containers and predicates are unbounded.", "anchors": ["include/daw/daw_exception.h: constexpr void assert_all_false( Container &&container,", "include/daw/daw_container_algorithm.h: constexpr void for_each_subset("]}
{"id": "C365", "title": "Errors noticed by the tracked allocator", "statement": "With tracked_allocator and safe_pointer, programs that give memory back twice, use it afterwards or outside of its bounds, or give it back wrongly are stopped before anything undefined happens.", "quantifier": "every program of allocations, copies, moves, accesses and deallocations", "why_tests_cant": "Undefined behaviour need not show in tests, and programs are unbounded.", "anchors": ["include/daw/daw_tracked_allocator.h: constexpr void deallocate( pointer &ptr, size_type n ) noexcept {", "include/daw/daw_safe_pointer.h: constexpr pointer destroy( ) noexcept {"]}
{"id": "C366", "title": "Copying and moving ranges in constant expressions", "statement": "cxpr_copy and cxpr_move give the output the elements of the input in their order and return its end, also for ranges that overlap as long as the output does not begin inside of the input.", "quantifier": "every block, both ranges in it and every number of elements", "why_tests_cant": "Blocks and the ways ranges overlap are unbounded, and writes outside of a block do not show in tests.", "anchors": ["include/daw/daw_utility.h: constexpr OutputIterator cxpr_copy( Iterator1 first_in,", "include/daw/daw_utility.h: constexpr OutputIterator cxpr_move( Iterator1 first_in,"]}
{"id": "C367", "title": "Values assigned through output iterators", "statement": "Every value assigned through a back inserter, an end inserter or an inserter arrives in the container the inserter was made for, in the order of the assignments and whichever copy is used; the function of a function iterator is called with the values assigned to this iterator.", "quantifier": "every program that makes, copies, assigns and increments such iterators and assigns values through them", "why_tests_cant": "Programs and containers are unbounded.", "anchors": ["include/daw/iterator/daw_back_inserter.h: m_container->push_back( DAW_FWD( val ) );", "include/daw/iterator/daw_end_inserter.h: m_container->insert( std::end( *m_container ), DAW_FWD( val ) );", "include/daw/iterator/daw_inserter.h: m_container->insert( DAW_FWD( val ) );", "include/daw/iterator/daw_function_iterator.h: (void)m_function( DAW_FWD( val ) );"]}
{"id": "C368", "title": "RunIfValid keeps the object while the function runs", "statement": "RunIfValid runs its function just if the object is still there, keeps the object until the function has ended and says which of both happened, whatever other calls and owners do at the same time; the object is destroyed exactly once.", "quantifier": "every number of calls and every schedule of calls, copies and releases of owners", "why_tests_cant": "Schedules are unbounded and uses of destroyed objects need not show in tests.", "anchors": ["include/daw/daw_utility.h: if( auto s_ptr = m_link.lock( ) ) {", "include/daw/daw_utility.h: struct RunIfValid {"]}
{"id": "C369", "title": "Visiting a value as one of another type", "statement": "visit_as gives the visitor the value with the same bytes and afterwards leaves the value with the bytes the visitor left; if the visitor throws the value is not changed, and if it changes nothing the value stays as it was.", "quantifier": "all trivially copyable types of one size, visitors and values", "why_tests_cant": "Types, visitors and values are unbounded.", "anchors": ["include/daw/daw_visit_as.h: value = daw::bit_cast<OrigT>( tmp );", "include/daw/daw_bit_cast.h: return *static_cast<To *>( std::memcpy( &result, &from, sizeof( To ) ) );"]}
{"id": "C370", "title": "Moved split buffers keep their elements and every block is released once by its own allocator", "statement": "Constructing split buffers from others by a move, with or without an allocator of their own, assigning them by a move, exchanging and destroying them gives each buffer the elements it is to have; each block that is allocated belongs to exactly one buffer, is released with the allocator and the size it was allocated with, and none is left when all buffers are destroyed.", "quantifier": "All sequences of constructions, moves, exchanges and destructions, all allocators and traits of propagation, all elements", "why_tests_cant": "Tests move buffers of the stateless default allocator; allocators that differ, buffers without elements and assignments in any order are not reached.", "anchors": ["include/daw/split_buffer.h: explicit constexpr split_buffer( split_buffer &&c, alloc_rr const &a )", "include/daw/split_buffer.h: constexpr split_buffer &operator=( split_buffer &&c ) //"]}
{"id": "C371", "title": "Copying the sign of an integer", "statement": "copy_sign of integers gives the number with the magnitude of the first and the sign of the second, for every number of every type, and signbit tells whether a number is negative.", "quantifier": "all integer types and numbers", "why_tests_cant": "Tests copy signs of a few floating point literals.", "anchors": ["include/daw/daw_cxmath.h: [[nodiscard]] constexpr Number copy_sign( Number x, Number2 s ) noexcept {", "include/daw/daw_cxmath.h: [[nodiscard]] constexpr bool signbit( Number n ) noexcept {"]}
{"id": "C372", "title": "A view put together with a text gives the one text after the other", "statement": "operator+ of the first string view with a string, a pointer to zero terminated characters or an array of characters, on either side, returns the text of the left operand followed by that of the right one; a null pointer is an empty text.", "quantifier": "All views, all strings, all memory contents behind pointers and all arrays, on both sides.", "why_tests_cant": "Tests use literals, which are taken by the overload for pointers; buffers that are larger than their text or full need other inputs, and the claim ranges over all contents.", "anchors": ["include/daw/deprecated/daw_string_view1.h: operator+( CharT ( &lhs )[N],", "include/daw/deprecated/daw_string_view1.h: std::size_t const rhs_len = details::strlen<std::size_t>( rhs );"]}
{"id": "C373", "title": "A node handed out stays that node while the graph changes", "statement": "The value read through a graph_node_t is the one last assigned to the node it was got for, at first that which the node had, whatever is done to the graphs afterwards; once the node was removed the read ends the program, also after nodes were added; nodes of one graph compare in the order in which they were added.", "quantifier": "All programs of additions, removals, edge changes and assignments through handles on any number of graphs, all handles got at any time.", "why_tests_cant": "A handle is an id looked up again at each use; whether an id can come to name another node depends on all additions and removals in between, of which tests try a few.", "anchors": ["include/daw/daw_graph.h: return m_graph->get_raw_node( m_node_id ).value( );", "include/daw/daw_graph.h: auto const id = cur_id;"]}
{"id": "C374", "title": "A loop over reverse( container ) meets each element once from the back and can change it", "statement": "A range-based for over reverse( container ) gets every element exactly once, from the last to the first; what is assigned to the loop variable is in the container afterwards at that element's place; an exception of the body leaves the loop at the first element from the back that throws, and those before it are not reached.", "quantifier": "All containers of any length, all values assigned, also ones depending on every element met before.", "why_tests_cant": "A reverse iterator refers to the element before the position it holds; whether first and last elements are met for every length, and writes land where they were read, is checked by tests for a few lengths only.", "anchors": ["include/daw/daw_algorithm.h: return reverse_iterator( std::end( fwd ) );", "include/daw/daw_algorithm.h: return algorithm_details::reverse_impl( fwd, int( 0 ) );"]}
