#!/usr/bin/env python3
"""Writes /verif/properties.jsonl.  One entry per property:
(id, title, statement, quantifier, why_tests_cant, anchors)."""
import json, os
P = []
def p(id, title, statement, quantifier, why, *anchors):
    P.append(dict(id=id, title=title, statement=statement, quantifier=quantifier,
                  why_tests_cant=why, anchors=list(anchors)))
H = "include/daw/"

# ---------------------------------------------------------------- sorting
p("C01", "daw::sort sorts every range",
  "For every finite random-access range and every comparison that is a strict weak ordering, daw::sort(first,last,comp) terminates, touches only positions inside [first,last), and leaves the range a permutation of its old contents in which no later element compares less than an earlier one.",
  "every range length, every contents, every strict weak ordering, both partition thresholds (trivially copyable or not)",
  "The quicksort has many branches (guards, all-equal-to-pivot branch, early insertion sort, large-range pivot) that depend on contents; an out-of-range guard scan or a non-terminating recursion only appears for particular contents of unbounded length.",
  H+"daw_sort_n.h: sort", H+"daw_sort_n.h: sort_details::insertion_sort_incomplete", H+"daw_sort_n.h: sort_details::insertion_sort_3", H+"daw_sort_n.h: sort_details::sort_3_impl", H+"daw_sort_n.h: sort_details::sort_5_impl")
p("C02", "Fixed-size sorting networks sort",
  "sort_3, sort_4, sort_5, sort_6, sort_7, sort_8, sort_16 and sort_32 leave the first N elements a sorted permutation of their old contents for every strict weak ordering, including orderings with equivalent elements.",
  "every contents of the N cells and every strict weak ordering",
  "sort_32 has 32! orders times ties; a single wrong comparator index is wrong for only a tiny fraction of inputs.",
  H+"daw_sort_n.h: sort_3", H+"daw_sort_n.h: sort_8", H+"daw_sort_n.h: sort_16", H+"daw_sort_n.h: sort_32", H+"daw_sort_n.h: sort_details::swap_if")
p("C03", "sort_to writes a sorted copy",
  "sort_to(first,last,out) writes to out a sorted permutation of the input range and writes and reads nothing outside the two ranges, for every integral or non-integral element type and for either direction.",
  "every input range, every element value including negative ones, ascending and descending comparison",
  "Depends on every value's sign and last digit; an out-of-range bucket index is silent memory corruption.",
  H+"daw_sort_n.h: sort_to", H+"daw_sort_n.h: counting_sort")

# ---------------------------------------------------------------- vector
p("C04", "daw::vector behaves as a sequence",
  "After any sequence of push_back, emplace_back, pop_back, insert (one, n copies, range), erase (one, range), resize, assign, append, reserve, shrink_to_fit, clear and swap calls whose documented preconditions hold, the elements visible through iteration are exactly those of the mathematical sequence on which the same calls were made.",
  "every finite history of calls, every element value, every growth pattern",
  "Wrong results depend on the interplay of size, capacity and insertion position over an unbounded history.",
  H+"vector.h: Vector", H+"vector.h: Vector::insert", H+"vector.h: Vector::erase", H+"vector.h: Vector::append", H+"vector.h: Vector::resize")
p("C05", "daw::vector never breaks object lifetime",
  "In every such history no element is constructed over a live object, no dead cell is read, assigned or destroyed, no access leaves the allocated block, and destruction of the vector leaves no live element and no unreleased block.",
  "every finite history of calls",
  "Lifetime mistakes are undefined behaviour, usually invisible in test output.",
  H+"vector.h: Vector::move_range", H+"vector.h: Vector::swap_out_circular_buffer", H+"vector.h: Vector::destruct_at_end", H+"split_buffer.h: split_buffer")
p("C06", "Inserting an element of the vector into itself",
  "v.insert(pos, v[i]) , v.insert(pos, n, v[i]) and v.push_back(v[i]) insert copies of the value v[i] had before the call, for every position, every i and whether or not a reallocation happens.",
  "every vector, position, count and aliased index",
  "The aliased element moves while it is being read; the outcome depends on relative order of index, position and spare capacity.",
  H+"vector.h: Vector::insert")
p("C07", "Capacity contract of daw::vector",
  "size() <= capacity() always; capacity() never decreases except through shrink_to_fit and move/swap; after reserve(n), inserting up to n elements never reallocates; growing at least doubles the capacity so n push_backs reallocate at most logarithmically often; exceeding max_size throws length_error and leaves the vector unchanged.",
  "every history of calls and every requested capacity",
  "Is a statement about all histories; overflow of the growth computation only occurs near the maximum size.",
  H+"vector.h: Vector::recommend", H+"vector.h: Vector::reserve", H+"vector.h: Vector::push_back")
p("C08", "resize_and_overwrite keeps what the operation wrote",
  "v.resize_and_overwrite(n, op) calls op on a buffer of n elements and afterwards the vector consists of the first op-result elements of this buffer; nothing outside the block is touched.",
  "every prior size and capacity, n, and result of op",
  "Failure depends on relation of old size, n and the returned size.",
  H+"vector.h: Vector::resize_and_overwrite")
p("C09", "Block-wise appending terminates and appends everything",
  "Appending through the block-append API with a source of sz elements terminates with the sz elements appended in order.",
  "every source size and block size",
  "Non-termination cannot be observed by a finite test in general.",
  H+"vector.h: Vector::block_append_from")
p("C10", "split_buffer is a double-ended sequence",
  "Any sequence of push_front, push_back, pop_front, pop_back, clear, reserve and shrink_to_fit on a split_buffer yields the same contents as on a mathematical sequence, keeps first<=begin<=end<=end_cap, and never touches memory outside the block.",
  "every history of calls",
  "Sliding versus reallocation depends on the accumulated front and back slack.",
  H+"split_buffer.h: split_buffer::push_front", H+"split_buffer.h: split_buffer::push_back", H+"split_buffer.h: split_buffer::reserve")

# ---------------------------------------------------------------- string_view
p("C11", "A view never escapes its parent",
  "Every string_view obtained from another by any sequence of substr, remove_prefix, remove_suffix, pop_front, pop_back, *_until, trim operations denotes a contiguous part of the original text; no operation reads outside the original text.",
  "every text, every sequence of operations, every count and predicate",
  "A single size underflow exposes memory outside the text and needs a particular combination of count and remaining length.",
  H+"daw_string_view.h: basic_string_view::substr", H+"daw_string_view.h: basic_string_view::remove_prefix", H+"daw_string_view.h: basic_string_view::pop_front", H+"daw_string_view.h: basic_string_view::pop_back")
p("C12", "string_view comparison is the lexicographic order",
  "compare is negative, zero or positive exactly when the text is lexicographically less than, equal to or greater than the other; ==,!=,<,<=,>,>= agree with it and form a total order.",
  "every pair (triple) of texts",
  "Order laws quantify over triples of unbounded strings.",
  H+"daw_string_view.h: basic_string_view::compare", H+"daw_string_view.h: operator==")
p("C13", "find and rfind of a substring",
  "sv.find(v,pos) is the least i>=pos with v occurring at i, or npos when there is none; sv.rfind(v,pos) is the greatest such i<=pos, or npos.",
  "every text, needle and position",
  "Off-by-one at the end or for the exact-length needle shows only for special sizes.",
  H+"daw_string_view.h: basic_string_view::find", H+"daw_string_view.h: basic_string_view::rfind")
p("C14", "find of a character",
  "sv.find(c,pos) is the least index i>=pos with sv[i]==c, or npos, and gives the same result at compile time and at run time.",
  "every text, character and position",
  "Quantifies over all positions; pos==0 hides the defect.",
  H+"daw_string_view.h: basic_string_view::find(CharT, size_type)")
p("C15", "find_first_of / find_last_of families",
  "find_first_of, find_first_not_of, find_last_of, find_last_not_of and their _if forms return the first/last index in the searched part that is/is not in the set, or npos, and read only inside the text.",
  "every text, set or predicate and position",
  "Position at or beyond the end and one-byte characters take different code paths.",
  H+"daw_string_view.h: basic_string_view::find_first_of", H+"daw_string_view.h: basic_string_view::find_last_of", H+"daw_string_view.h: basic_string_view::find_last_not_of")
p("C16", "pop_front_until / pop_back_until partition the text",
  "pop_front_until(where) returns the part before the first match and leaves the part after the matched delimiter, so result + delimiter + rest is the original text; with no match the result is everything and the rest is empty; keep_delim variants leave the delimiter in the rest. Same for the back variants with the last match; the try_ variants change nothing when there is no match.",
  "every text and delimiter / predicate",
  "Quantifies over all texts; partitioning must hold on every one, including delimiters at the ends.",
  H+"daw_string_view.h: basic_string_view::pop_front_until", H+"daw_string_view.h: basic_string_view::pop_back_until", H+"daw_string_view.h: basic_string_view::try_pop_front_until")
p("C17", "Trimming removes exactly the outer whitespace",
  "trim, trim_prefix, trim_suffix leave the longest part of the text that does not begin / end with white space, and nothing inside is removed.",
  "every text",
  "All-whitespace and interior whitespace cases of unbounded length.",
  H+"daw_string_view.h: basic_string_view::trim", H+"daw_string_view.h: basic_string_view::trim_prefix", H+"daw_string_view.h: basic_string_view::trim_suffix")
p("C18", "starts_with / ends_with / contains",
  "starts_with(v) iff the text is v followed by something; ends_with(v) iff it is something followed by v; contains(v) iff v occurs somewhere.",
  "every text and affix",
  "Existential statement over all texts.",
  H+"daw_string_view.h: basic_string_view::starts_with", H+"daw_string_view.h: basic_string_view::ends_with", H+"daw_string_view.h: basic_string_view::contains")
p("C19", "is_zero_terminated tells the truth",
  "If a view says it is zero terminated then the character just past its end is the terminating zero.",
  "every history of view operations starting from a literal or std::string",
  "Flag must be right after every combination of operations.",
  H+"daw_string_view.h: basic_string_view::is_zero_terminated", H+"daw_string_view.h: basic_string_view::substr", H+"daw_string_view.h: basic_string_view::remove_suffix")
p("C20", "search and search_last locate occurrences",
  "search(v,pos) returns the first index >= pos at which v occurs or npos, search_last the last one or npos.",
  "every text, needle and position",
  "Needles exactly at the end are special.",
  H+"daw_string_view.h: basic_string_view::search", H+"daw_string_view.h: basic_string_view::search_last")
p("C21", "fnv1a hashing is FNV-1a-64 of the bytes",
  "fnv1a_hash of a text and std::hash of a string_view equal the published 64-bit FNV-1a function of its bytes; equal texts hash equal no matter how they were produced, and hashing can be done in pieces.",
  "every byte string and every way to split it",
  "Bytes >= 0x80 and every length must agree with the reference.",
  H+"daw_fnv1a_hash.h: fnv1a_hash_t", H+"daw_fnv1a_hash.h: append_hash")

# ---------------------------------------------------------------- algorithms
p("C22", "lower_bound and upper_bound find the partition points",
  "On a range sorted by comp, lower_bound returns the first position whose element is not less than the value, upper_bound the first position whose element is greater than it, with positions before it all on the other side; no position outside the range is read and the search takes at most log2(n)+1 comparisons.",
  "every sorted (partitioned) range, value and strict weak ordering",
  "Off-by-one at midpoints depends on range length and value position.",
  H+"daw_algorithm.h: lower_bound", H+"daw_algorithm.h: upper_bound")
p("C23", "binary_search returns an equivalent element",
  "On a sorted range binary_search finds an element equivalent to the value exactly when the range contains one, otherwise returns last.",
  "every sorted range and value",
  "Depends on the parity of every probed sub-range.",
  H+"daw_algorithm.h: binary_search")
p("C24", "search finds the first occurrence of a sub-range",
  "daw::algorithm::search returns the first position at which the needle occurs, or last when it does not; it reads nothing outside the two ranges.",
  "every haystack, needle and predicate",
  "Self-overlapping needles of arbitrary length.",
  H+"daw_algorithm.h: search")
p("C25", "min/max/minmax element selection",
  "max_element returns the first greatest element; minmax_element returns a least element (the first) and a greatest element (the last), each a position of the range, for odd and even lengths.",
  "every non-empty range and strict weak ordering",
  "Pairwise processing: ties at every alignment matter.",
  H+"daw_algorithm.h: max_element", H+"daw_algorithm.h: minmax_element")
p("C26", "equal, not_equal and lexicographical_compare",
  "equal is true iff both ranges have the same length and pairwise equal elements; not_equal is its negation; lexicographical_compare is the lexicographic order.",
  "every pair of ranges",
  "Negation must hold for all pairs; simple tests use ranges that differ everywhere.",
  H+"daw_algorithm.h: equal", H+"daw_algorithm.h: not_equal", H+"daw_algorithm.h: lexicographical_compare")
p("C27", "remove / remove_if keep exactly the other elements in order",
  "remove_if(first,last,pred) returns a position such that the elements before it are exactly those not satisfying pred, in the original order, and nothing outside the range changes.",
  "every range and predicate",
  "Quantifies over all patterns of matching elements.",
  H+"daw_algorithm.h: remove_if", H+"daw_algorithm.h: remove")
p("C28", "set_intersection of sorted ranges",
  "For sorted inputs the output is sorted and every element appears min(count in first, count in second) times.",
  "every pair of sorted ranges",
  "Multiplicities interact for all lengths.",
  H+"daw_algorithm.h: set_intersection")
p("C29", "is_sorted / is_sorted_until / find_unsorted",
  "is_sorted_until returns the end of the longest sorted prefix; is_sorted is true iff the whole range is sorted.",
  "every range and strict weak ordering",
  "Prefix maximality over all lengths.",
  H+"daw_algorithm.h: is_sorted_until", H+"daw_algorithm.h: is_sorted")
p("C30", "split loses no text",
  "splitting a range at a delimiter yields parts which, joined by the delimiter, are the original range.",
  "every range and delimiter",
  "Round trip over all texts.",
  H+"daw_algorithm.h: split")
p("C31", "safe_next / safe_prev / begin_at stay inside the range",
  "safe_next(it,last,n) advances by min(n, last-it); safe_prev(it,first,n) retreats by min(n,it-first); begin_at(c,n) is begin+min(n,size); for every n representable in the parameter type.",
  "every range size, position and count",
  "Wrap around at counts beyond PTRDIFF_MAX.",
  H+"daw_algorithm.h: safe_next", H+"daw_algorithm.h: safe_prev", H+"daw_algorithm.h: begin_at", H+"daw_algorithm.h: algorithm_details::safe_advance_impl")
p("C32", "Variadic equality means all equal",
  "are_equal(a,b,c,...) and all_equal are true iff all arguments are equal to each other.",
  "every number of arguments and every values",
  "Number of arguments is unbounded; errors need four or more arguments.",
  H+"daw_algorithm.h: are_equal", H+"daw_algorithm.h: all_equal")
p("C33", "partition_range covers the range exactly",
  "partition_range(range, count) cuts a range into exactly count consecutive non-overlapping parts covering it in order; every part but the last has max(size/count, MinSize) elements as long as that many are left.",
  "every range size and number of parts",
  "Integer division cases for all sizes.",
  H+"daw_algorithm.h: partition_range")

# ---------------------------------------------------------------- bits, numbers
p("C34", "reverse_bits reverses",
  "Bit i of reverse_bits(x) is bit (width-1-i) of x for 8, 16, 32 and 64 bit integers, so it is an involution.",
  "every value of the type",
  "2^64 values.",
  H+"daw_integer_reverse.h: reverse_bits")
p("C35", "The bit queue is a queue of bits",
  "Bits pushed come back out in the order documented: popping from the back returns the oldest bits, popping from the front the newest, and size() is the number of bits held; push fails without change when there is no room.",
  "every sequence of pushes and pops of any widths that fit",
  "State space of all histories.",
  H+"daw_bit_queues.h: basic_bit_queue_gen", H+"daw_bit_queues.h: basic_bit_queue_gen::pop_back", H+"daw_bit_queues.h: basic_bit_queue_gen::push_back")
p("C36", "bit_stream reads the concatenation of bits",
  "Successive pops from a bit stream return consecutive groups of the most-significant-first bits of the underlying bytes, whatever the group widths; no byte is read beyond the end.",
  "every byte sequence and every sequence of widths",
  "Left-over bits carry between calls.",
  H+"daw_bit_stream.h: bit_stream::pop_bits", H+"daw_bit_stream.h: bit_stream::skip_bits")
p("C37", "bitset set/unset/test",
  "After set(i) bit i is one, after unset(i) it is zero, and all other bits are unchanged.",
  "every bitset size, index and contents",
  "Other-bits-unchanged is a frame condition over all indices.",
  H+"daw_bitset.h: bitset")
p("C38", "static_bitset represents N bits",
  "set_bit/clear_bit/get_bit act on the given bit only, construction from an integer keeps its low N bits, and shifts, complement and comparison act as on N-bit integers.",
  "every width, value, index and shift amount",
  "Width and index space is unbounded.",
  H+"daw_static_bitset.h: static_bitset")
p("C39", "Byte order conversions",
  "swap_bytes reverses the bytes; to_big_endian of a value stores it most significant byte first, conversions to and from network order are mutually inverse and equal a byte reversal on little endian hosts.",
  "every value of every width, both host byte orders",
  "2^64 values; host endianness of the test machine is fixed.",
  H+"daw_endian.h: swap_bytes", H+"daw_endian.h: network_to_host_endian", H+"daw_endian.h: to_big_endian")
p("C40", "Mixed-sign integer comparison is mathematical",
  "cmp_equal, cmp_less, ... compare the mathematical values of integers of any two integer types; in_range<R>(t) iff t is representable in R.",
  "every pair of widths and signedness and every pair of values",
  "Product of two 64-bit spaces.",
  H+"daw_int_cmp.h: cmp_less", H+"daw_int_cmp.h: cmp_equal", H+"daw_int_cmp.h: in_range")
p("C41", "natural_t is always at least one",
  "Every natural_t that can be obtained through the API holds a value >= 1, and its arithmetic equals the mathematical one or reports an error.",
  "every sequence of arithmetic operations",
  "Wrap around needs extreme values.",
  H+"daw_natural.h: basic_natural_t")
p("C42", "Integer powers",
  "pow_n(x,n) is x to the n (modulo the word size) with at most 2*log2(n)+1 multiplications; math::pow(b,e) is b to the e; pow10 tables hold powers of ten.",
  "every base and exponent",
  "Exponent space.",
  H+"daw_cxmath.h: pow_n", H+"daw_cxmath.h: pow", H+"daw_math.h: pow")
p("C43", "Floating point classification",
  "fp_classify of a float/double given by its bits is zero, subnormal, normal, infinite or NaN exactly as defined by IEEE-754; the field accessors return the exponent and significand.",
  "every 32 and 64 bit pattern",
  "2^64 patterns.",
  H+"daw_cxmath.h: cxmath_impl::fp_classify_impl", H+"daw_cxmath.h: cxmath_impl::is_zero_impl")
p("C44", "Counting leading and trailing zeros",
  "count_leading_zeroes(v) is the number of zero bits above the highest one bit, count_trailing_zeros the number below the lowest; the type width for zero; portable and builtin versions agree.",
  "every 32 and 64 bit value",
  "2^64 values and a multiply-table hash that must be collision free.",
  H+"daw_cxmath.h: count_leading_zeroes", H+"daw_cxmath.h: cxmath_impl::count_trailing_zeros_cx32")

# ---------------------------------------------------------------- containers
p("C45", "bounded_vector is a sequence of at most N elements",
  "Any history of push_back, pop_back, pop_front, assign, erase, resize, clear and swap has the contents of the same history on a mathematical sequence; exceeding the capacity is reported rather than writing outside the array.",
  "every history and capacity",
  "Histories are unbounded.",
  H+"daw_bounded_vector.h: basic_bounded_vector_t")
p("C46", "ring_adaptor is a FIFO queue",
  "Elements come out of a ring adaptor in the order they went in; a full ring rejects pushes; size is the number of elements held; emplace and push agree.",
  "every history of pushes and pops and every capacity",
  "Wrap around of indices.",
  H+"daw_ring_adaptor.h: ring_adaptor")
p("C47", "keep_n keeps the n best values",
  "After inserting any values into keep_n it holds the n smallest (under the compare) of all values seen, in sorted order.",
  "every stream of values and every n",
  "Unbounded stream.",
  H+"daw_keep_n.h: keep_n")
p("C48", "circular_iterator stays inside its container",
  "Moving a circular iterator by any amount in either direction denotes the element whose index is congruent to the sum modulo the container size.",
  "every container size, position and offset",
  "Negative multiples of the size.",
  H+"iterator/daw_circular_iterator.h: circular_iterator")
p("C49", "bounded_hash_map is a finite map",
  "Any history of insert, operator[], erase, find, exists, try_get behaves as on a finite map, for every hash function; a full map reports it.",
  "every history, capacity and hash function",
  "Probe chains depend on the collisions of the whole history.",
  H+"deprecated/daw_bounded_hash_map.h: bounded_hash_map")
p("C50", "hash_set is a finite set",
  "insert/exists on a fixed capacity hash set behave as on a finite set; inserting into a full set throws.",
  "every history, capacity and hash function",
  "Probe chains over all histories.",
  H+"daw_hash_set.h: hash_set_t")
p("C51", "perfect_hash_table answers exactly its keys",
  "For any set of distinct keys for which construction succeeds, find(key) returns the value given with that key and contains/find of any other key report absence; construction succeeds for every set of distinct keys with distinct hashes.",
  "every key set and hash function",
  "Displacement search is data dependent.",
  H+"daw_min_perfect_hash.h: perfect_hash_table")
p("C52", "static_hash_t answers by key",
  "Lookup in a static_hash_t returns the value associated with that key and reports absence otherwise.",
  "every key set and hash function",
  "Needs hash collisions and full tables.",
  H+"static_hash_table.h: static_hash_t")

# ---------------------------------------------------------------- graph
p("C53", "graph stays consistent",
  "After any history of add_node, remove_node, add_directed_edge, add_undirected_edge, remove_edge: x lists y as outgoing iff y lists x as incoming; no edge mentions a removed or never created node; node ids are never reused; size() is the number of nodes present.",
  "every history of graph operations",
  "Invariants over all histories.",
  H+"daw_graph.h: graph_t")
p("C54", "topological walk visits in topological order",
  "topological_sorted_walk visits each node at most once and never before all its predecessors; on an acyclic graph it visits every node; it always terminates.",
  "every finite graph",
  "All graphs.",
  H+"daw_graph_algorithm.h: topological_sorted_walk")
p("C55", "BFS and DFS visit exactly the reachable nodes",
  "bfs_walk and dfs_walk from a start node terminate and visit exactly the nodes reachable from it, each exactly once.",
  "every finite graph and start node",
  "Diamonds and cycles of every size.",
  H+"daw_graph_algorithm.h: bfs_walk", H+"daw_graph_algorithm.h: dfs_walk")
p("C56", "mst yields a spanning tree",
  "mst leaves a graph on the same nodes whose edges are edges of the input, without undirected cycles among the reached nodes, reaching the same nodes from each root.",
  "every finite graph",
  "All graphs.",
  H+"daw_graph_algorithm.h: mst")

# ---------------------------------------------------------------- resources, concurrency
p("C57", "rc_ptr destroys its object exactly once",
  "In every history of construction, copy, move, assignment, reset and destruction of rc_ptr handles, the object is destroyed exactly once, when the last handle lets go, and no live handle refers to a destroyed object.",
  "every history over any number of handles",
  "Double free depends on the order of operations.",
  H+"daw_ref_counted_pointer.h: rc_ptr")
p("C58", "atomic_wait helpers report truthfully",
  "atomic_wait_value_equal_for, atomic_wait_if_for etc. end if the clock gets past the deadline; they return found only if a value read from the atomic during the call satisfied the condition, and timeout only if the deadline passed with the last read value not satisfying it.",
  "every sequence of concurrent values observed and clock readings",
  "All schedules of the other threads.",
  H+"daw_atomic_wait.h: atomic_wait_value_equal_for", H+"daw_atomic_wait.h: atomic_wait_if_for")
p("C59", "siphash is SipHash-2-4",
  "The sip hash of a byte string with a key equals the published SipHash-2-4.",
  "every byte string and key",
  "Bytes >= 0x80 and every length modulo 8.",
  H+"daw_sip_hash.h: sip_hash")
p("C60", "metro hash is MetroHash64",
  "metro::hash64 of a byte string equals the published MetroHash64.",
  "every byte string and seed",
  "Bytes >= 0x80 and every length modulo 32.",
  H+"daw_metro_hash.h: metro::hash64")

# ---------------------------------------------------------------- parsing
p("C61", "Integer parsing",
  "parse_int of the decimal rendering of any integer representable in the result type returns that integer; parse_unsigned_int likewise; text that is not a number or not representable is rejected.",
  "every text",
  "Round trip over all values and rejection over all texts.",
  H+"daw_parse_to.h: parse_to_value", H+"daw_parse_to.h: parse_int", H+"daw_parse_to.h: parse_unsigned_int")
p("C62", "Splitters cut at every delimiter",
  "Splitting a text with the single delimiter splitter gives parts that joined with the delimiter are the text; apply_string_part / parse_to hand the k-th part to the k-th parser.",
  "every text and number of parts",
  "All texts.",
  H+"daw_parse_to.h: default_splitter", H+"daw_parse_to.h: parse_to")
p("C63", "Parser helper results denote parts of the input",
  "until*, trim_*, split_* from daw_parser_helper return sub-ranges of the input with the documented contents and terminate.",
  "every input range and predicate",
  "Non-termination and truncation depend on contents.",
  H+"daw_parser_helper.h: until", H+"daw_parser_helper.h: trim_right", H+"daw_parser_helper.h: split_if", H+"daw_parser_helper.h: value_in")

# ---------------------------------------------------------------- pipelines
p("C64", "Chunk concatenates back to the range",
  "Iterating Chunk(n) over a range yields consecutive sub-ranges of n elements (the last possibly shorter) whose concatenation is the range; no chunk reaches past the end.",
  "every range and n>=1",
  "Lengths not divisible by n.",
  H+"pipelines/chunk.h: chunk_view")
p("C65", "Slide yields all windows",
  "Iterating Slide(n) over a range yields exactly the contiguous windows of n elements in order, none if the range is shorter than n.",
  "every range and n>=1",
  "All lengths relative to n.",
  H+"pipelines/slide.h: slide_view")
p("C66", "Split view round trip",
  "The parts yielded by Split(d), joined with d, give back the range.",
  "every range and delimiter (element, predicate or range)",
  "Trailing and multi-element delimiters.",
  H+"pipelines/split.h: split_view_iterator")
p("C67", "TakeWhile / TakeUntil / Filter",
  "Filter(p) yields exactly the elements satisfying p in order; TakeWhile(p) yields the longest prefix satisfying p; TakeUntil(p) the prefix before the first element satisfying p.",
  "every range and predicate",
  "All ranges.",
  H+"pipelines/filter.h: filter_view", H+"pipelines/take.h: TakeWhile", H+"pipelines/take.h: TakeUntil")
p("C68", "Concat view is concatenation",
  "Iterating Concat over ranges yields their elements one range after the other.",
  "every tuple of ranges, including empty ones",
  "Empty ranges at any place.",
  H+"pipelines/concat.h: concat_view")
p("C69", "Flatten view is the join",
  "Iterating Flatten over a range of ranges yields the concatenation of the inner ranges.",
  "every range of ranges, including empty inner ranges",
  "Empty inner ranges at any place.",
  H+"pipelines/flatten.h: flatten_view")
p("C70", "Unique view drops adjacent duplicates",
  "Iterating Unique yields the range with every run of equal adjacent elements replaced by its first element.",
  "every range",
  "All run structures.",
  H+"pipelines/unique.h: unique_view")
p("C71", "span_writer writes consecutively and never past the end",
  "Any sequence of writes through a span_writer stores the written elements consecutively from the start of the buffer; a write that does not fit fails without changing anything; elements not yet written keep their value.",
  "every buffer and sequence of writes",
  "Histories and exact-fit boundaries.",
  H+"daw_span_writer.h: span_writer::write", H+"daw_span_writer.h: write_to_span")

# ---------------------------------------------------------------- added while the model grew
p("C72", "all_of / any_of / none_of / count_if",
  "any_of, all_of and none_of decide whether some, every, no element of the range satisfies the predicate; count_if counts those that do.",
  "every range and predicate",
  "All patterns of matching elements at all lengths.",
  H+"daw_algorithm.h: all_of", H+"daw_algorithm.h: any_of", H+"daw_algorithm.h: none_of", H+"daw_algorithm.h: count_if")
p("C73", "reverse mirrors a range",
  "reverse(first,last) exchanges element first+k with element last-1-k for every k, terminates for odd and even lengths, and changes nothing outside the range.",
  "every block and every sub-range of it",
  "Odd and even lengths meet in the middle differently; all lengths.",
  H+"daw_algorithm.h: reverse")
p("C74", "append_and_overwrite appends what the operation made",
  "vector::append_and_overwrite(n, op) keeps the existing elements and appends exactly the elements the operation constructed and reported; if reserve throws, the vector is unchanged.",
  "every vector, every n with size()+n representable, every operation that constructs a prefix of its buffer and reports its length",
  "The operation is arbitrary code; whether storage moves depends on the capacity.",
  H+"vector.h: vector::append_and_overwrite")
p("C75", "split_buffer pushes of own elements",
  "push_back(x) and push_front(x) on a split_buffer add a copy of x also when x refers to an element of the buffer.",
  "every buffer, element index and amount of slack",
  "Only some slack and capacity combinations invalidate the reference.",
  H+"split_buffer.h: split_buffer::push_back", H+"split_buffer.h: split_buffer::push_front")

p("C76", "Runs of satisfying elements",
  "find_last_of returns the last position of the run of satisfying elements that starts at first, or last if there is no such run; find_first_range_of returns the first maximal run of satisfying elements.",
  "every block, sub-range and predicate",
  "All run structures and lengths.",
  H+"daw_algorithm.h: find_last_of", H+"daw_algorithm.h: find_first_range_of")
p("C77", "The find family finds the first",
  "find, find_index_if, find_index_of_if, contains_if, adjacent_find, find_transform, find_some and find_one_of report the first place that satisfies the condition (with the transformed value, the results of all predicates, or the index of the first satisfied predicate), and say so if there is none.",
  "every range, predicate and list of predicates",
  "All positions of the first match at all lengths.",
  H+"daw_algorithm.h: find_index_if", H+"daw_algorithm.h: find_some", H+"daw_algorithm.h: find_one_of",
  H+"algorithms/daw_algorithm_adjacent_find.h: adjacent_find", H+"algorithms/daw_algorithm_find_transform.h: find_transform")
p("C78", "transform, copy, move, fill and iota write what they should",
  "transform(first,last,out,f) (copy and move with f the identity) leaves f of the k-th original input element at out+k, also when the output overlaps the input from the front, and changes nothing else; the _n forms, fill, fill_n and iota alike.",
  "every block, input range and output position not inside the input",
  "Overlapping ranges at every distance.",
  H+"daw_algorithm.h: transform", H+"daw_algorithm.h: transform_n", H+"algorithms/daw_algorithm_copy.h: copy",
  H+"algorithms/daw_algorithm_copy_n.h: copy_n", H+"daw_algorithm.h: fill_n", H+"daw_algorithm.h: iota")
p("C79", "transform_if and copy_if",
  "transform_if and copy_if write the images of exactly the satisfying elements, in order, and return the end of what they wrote; nothing else changes, also in place.",
  "every block, input range, predicate and output position not inside the input",
  "All selections at all lengths, in place.",
  H+"daw_algorithm.h: transform_if", H+"daw_algorithm.h: copy_if")
p("C80", "Folds",
  "accumulate and reduce are left folds and compose over concatenation, for associative operations independently of where the range is cut; map_reduce folds the mapped pairs; partial_sum writes the fold of every prefix.",
  "every range, operation and initial value",
  "All lengths and operations.",
  H+"algorithms/daw_algorithm_accumulate.h: accumulate", H+"daw_algorithm.h: map_reduce", H+"algorithms/daw_algorithm_partial_sum.h: partial_sum")
p("C81", "consume_if hands over what it removes",
  "consume_if(first,last,pred,func) calls func with exactly the elements that satisfy pred, and leaves the others as remove_if does.",
  "every block, sub-range and predicate",
  "Depends on the pattern of matches.",
  H+"daw_algorithm.h: consume_if")
p("C82", "equal and not_equal with one end iterator",
  "equal(first,last,first2) is true exactly if the second range starts with the first, and not_equal is its negation.",
  "every two ranges, the second at least as long",
  "All combinations of equal and different places.",
  H+"daw_algorithm.h: equal", H+"daw_algorithm.h: not_equal")
p("C83", "Extremes of values",
  "min_item and max_item return an argument that no other argument is less, greater than; minmax_item orders two values keeping equivalent ones in place; clamp never exceeds its bound.",
  "every strict weak ordering and number of arguments",
  "All orders of all numbers of arguments.",
  H+"daw_algorithm.h: min_item", H+"daw_algorithm.h: max_item", H+"daw_algorithm.h: minmax_item", H+"daw_algorithm.h: clamp")

p("C84", "Size and flag share one word without disturbing each other",
  "A string_view keeps its size and the zero terminated flag in one 64 bit member: every constructor and every elementary change (removing or adding characters at either end, resize, clear, marking) yields the size it should and the flag it should.",
  "every view with fewer than 2^63 characters and every count", "A borrow or carry between the two needs extreme sizes or a particular sequence.",
  H+"daw_string_view.h: basic_string_view::dec_front", H+"daw_string_view.h: basic_string_view::dec_back", H+"daw_string_view.h: basic_string_view::size")
p("C85", "find_first_match finds the first of several needles",
  "find_first_match(needles, pos) is the least position from pos on at which one of the needles occurs, or npos.",
  "every text, list of needles and position", "Needles that share a front part or end past the text are special.",
  H+"daw_string_view.h: basic_string_view::find_first_match")
p("C86", "Popping a number of characters splits the text",
  "pop_front(count), pop_back(count), their unsafe forms and pop_front(), pop_back() return the characters they remove, in order, and leave exactly the others.",
  "every text and count", "All counts, also beyond the size.",
  H+"daw_string_view.h: basic_string_view::pop_front", H+"daw_string_view.h: basic_string_view::pop_back", H+"daw_string_view.h: basic_string_view::pop_front_unsafe")
p("C87", "copy writes exactly the characters asked for",
  "copy(dest, count, pos) writes min(count, size - pos) characters from pos on to dest, nothing else, and returns their number.",
  "every text, destination, count and position", "Frame condition on the destination.",
  H+"daw_string_view.h: basic_string_view::copy")
p("C88", "Writing a view to a stream pads to the width",
  "operator<< writes the text filled up to the width of the stream with its fill character on the side its flags ask for, resets the width, and writes a front part of that if the stream fails on the way.",
  "every text, width, fill, alignment and pattern of failing writes", "Padding is written in pieces of eight, failures may hit each piece.",
  H+"daw_string_view.h: operator<<", H+"daw_string_view.h: sv_insert_aligned", H+"daw_string_view.h: sv_insert_fill_chars")


p("C89", "static_bitset counts and texts",
  "one_count and zero_count count the one and zero bits of the set, the hexadecimal text is that of the number the set stands for, most significant digit first, and so is the binary text.",
  "every width and every set of bits",
  "2^N sets for every width N; tests print a few.",
  H+"daw_static_bitset.h: one_count", H+"daw_static_bitset.h: to_string")

p("C90", "Derived integer functions of cxmath",
  "round_up_pow2(v) is the least power of two not below v, count_digits the number of decimal digits, popcount the number of one bits, is_odd and is_even tell the parity.",
  "every value of the argument types",
  "2^64 values; the ends of the ranges are special.",
  H+"daw_cxmath.h: round_up_pow2", H+"daw_cxmath.h: count_digits", H+"daw_cxmath.h: popcount", H+"daw_cxmath.h: is_odd")
p("C91", "Integer functions of daw::math",
  "pow2(n) is two to the n, abs(n) the magnitude of n, factorial(n) the product of the numbers from one to n, whenever these can be represented.",
  "every argument",
  "Ranges of 2^64 values; recursion depth.",
  H+"daw_math.h: pow2", H+"daw_math.h: abs", H+"daw_math.h: factorial")

p("C92", "graph node proxies compare as nodes",
  "operator== of graph_node_t and const_graph_node_t holds exactly if both refer to the same node of the same graph, and operator!= is its negation.",
  "every pair of proxies",
  "All pairs, including nodes of one graph and equal ids of two graphs.",
  H+"daw_graph.h: graph_node_t", H+"daw_graph.h: const_graph_node_t")


p("C93", "walks sort children by a strict weak order",
  "Whenever the caller's comparison is a strict weak order, every comparison handed to std::sort by the ordered walks is one, as std::sort requires.",
  "every strict weak order",
  "A violation is undefined behaviour that shows only with some inputs and some sort implementations.",
  H+"daw_graph_algorithm.h: graph_alg_impl::topological_sorted_walk", H+"daw_graph_algorithm.h: graph_alg_impl::dfs_walk")
p("C94", "sorted ranges iterate the walk",
  "Iterating make_topological_sorted_range reads the nodes of topological_sorted_walk in order, and iterating make_reverse_topological_sorted_range (or rbegin to rend) reads them in reverse order.",
  "every finite graph",
  "Reading outside the vector need not fail.",
  H+"daw_graph_algorithm.h: make_topological_sorted_range", H+"daw_graph_algorithm.h: make_reverse_topological_sorted_range")

p("C95", "atomic_wait helpers return as soon as they see the condition",
  "Once a value read from the atomic object satisfies the condition, the wait returns found.",
  "every sequence of concurrent values observed and clock readings",
  "All schedules of the other threads.",
  H+"daw_atomic_wait.h: atomic_wait_for", H+"daw_atomic_wait.h: atomic_wait_if_for")


p("C96", "unique_ptr deletes every object exactly once",
  "Over any program of constructions, moves, assignments, resets, releases, swaps and destructions of daw::unique_ptr, each object handed in is owned by at most one pointer, is deleted exactly once or released to the program, and a null pointer is never deleted.",
  "every sequence of operations on any number of pointers",
  "Interleavings of moves, releases and destructions are unbounded, and a double delete need not fail.",
  H+"daw_unique_ptr.h: unique_ptr::reset", H+"daw_unique_ptr.h: unique_ptr::release", H+"daw_unique_ptr.h: unique_ptr::operator=")
p("C97", "unique_ptr comparison operators agree with the pointers",
  "Each of ==, !=, <, <=, > and >= on two unique_ptr gives the same answer as on the pointers they hold.",
  "every pair of pointers",
  "Each operator is written by hand; the table of all pairs and operators is not tested.",
  H+"daw_unique_ptr.h: operator<=", H+"daw_maybe_unique_ptr.h: operator<=")
p("C98", "maybe_unique_ptr deletes what it owns exactly once and never what it borrows",
  "Over any program of operations on maybe_unique_ptr every owned object is deleted exactly once or released, and a borrowed object is never deleted.",
  "every sequence of operations on any number of pointers",
  "Interleavings of moves, resets and destructions of owning and borrowing pointers are unbounded.",
  H+"daw_maybe_unique_ptr.h: maybe_unique_ptr::operator=", H+"daw_maybe_unique_ptr.h: maybe_unique_ptr::reset")
p("C99", "value_ptr behaves as an optional value",
  "Any program on value_ptr variables has the same observable values as the same program on plain optional values; pointers stay valid and unshared and nothing leaks.",
  "every sequence of operations on any number of variables",
  "Sharing and leaks appear only in some sequences of copies, moves and assignments.",
  H+"daw_value_ptr.h: value_ptr")
p("C100", "value_ptr::compare is a weak order with empty first",
  "With a strict weak order Compare, compare is antisymmetric, reflexive and transitive, an empty value_ptr precedes every other, and engaged ones compare as their values.",
  "every strict weak order and every three values",
  "All comparators and triples of values.",
  H+"daw_value_ptr.h: value_ptr::compare")
p("C101", "heap_value behaves as a value",
  "Any program on heap_value variables has the same observable values as the same program on plain values, including variables that were moved from; nothing leaks.",
  "every sequence of operations on any number of variables",
  "States after moves are many and dereferencing null need not fail.",
  H+"deprecated/daw_heap_value.h: heap_value")
p("C102", "copiable_unique_ptr copies deeply",
  "Any program on copiable_unique_ptr has the same observable values as on plain optional values, where copies copy the value or the empty state and move assignment exchanges; pointers stay valid and unshared and nothing leaks.",
  "every sequence of operations on any number of variables",
  "Sharing and leaks appear only in some sequences of copies, moves and assignments.",
  H+"deprecated/daw_copiable_unique_ptr.h: copiable_unique_ptr")
p("C103", "poly_value is never empty and copies deeply",
  "Any program on poly_value variables has the same observable values as on plain values; a live variable always holds one, also after it was moved from.",
  "every sequence of operations on any number of variables and every effect of moving from an object",
  "Sharing and leaks appear only in some sequences of copies, moves and assignments.",
  H+"daw_poly_value.h: poly_value")


p("C104", "unique_resource deletes every resource exactly once",
  "Over any program of constructions, moves, assignments, releases, resets and destructions of unique_resource_t, each resource handed in is deleted exactly once or released to the program.",
  "every sequence of operations on any number of variables",
  "A second delete of the same handle need not fail, and the sequences are unbounded.",
  H+"daw_unique_resource.h: unique_resource_t::reset", H+"daw_unique_resource.h: unique_resource_t::operator=")
p("C105", "a scope guard runs its action exactly once",
  "Over any program of creations, moves, dismissals and destructions of ScopeGuard, every action that was not dismissed runs exactly once and every dismissed action never.",
  "every sequence of operations on any number of guards",
  "Moves of guards and throwing actions combine without bound.",
  H+"daw_scope_guard.h: ScopeGuard")
p("C106", "on_exit_success runs its action exactly when the scope is left normally",
  "An on_exit_success guard runs its action if its scope is left normally and does not if it is left by an exception, also when the scope runs during unwinding of another exception.",
  "every program of nested scopes, throws, catches, guards and destructors",
  "Scopes executed during unwinding are rarely tested, and nesting is unbounded.",
  H+"daw_scope_guard.h: on_exit_success")
p("C107", "countable_resource counts the live objects",
  "After any program of constructions, copies, assignments and destructions of countable_resource_t the shared counter is the number of objects alive, modulo the size of the counter.",
  "every sequence of copies, moves and destructions",
  "Orders of copies and destructions are unbounded.",
  H+"daw_countable_resource.h: countable_resource_t")
p("C108", "allow_once admits exactly one caller between resets",
  "In any interleaving of checks and resets of an allow_once_t, a check reports that it is the first exactly if no other check happened since the construction or the last reset.",
  "every interleaving of any number of tests",
  "Races between threads are not reproducible.",
  H+"daw_allow_once.h: allow_once_t")
p("C109", "moving a take_t leaves the default value and loses nothing",
  "After move assignment between take_t variables the target has the value of the source, a different source has the default value, a self assignment keeps the value, and no other variable changes.",
  "every state of memory and every pair of variables",
  "Aliasing of source and destination.",
  H+"daw_take.h: take_t")
p("C110", "not_null never holds null",
  "After any sequence of constructions, assignments and moves a not_null pointer is not null, or the program was stopped.",
  "every sequence of operations",
  "Sequences of moves of smart pointers inside not_null are unbounded.",
  H+"daw_not_null.h: not_null")
p("C111", "optional comparison operators order empty first",
  "All comparisons of optional with optional, with nullopt and with values, in both argument orders, agree with the order in which empty precedes every value.",
  "every order of values, every pair of arguments and every operator",
  "Eighteen hand-written operators over all values and states.",
  H+"daw_optional.h: operator>=", H+"daw_optional.h: operator<")
p("C112", "expected_t is a value, an exception or empty",
  "After any sequence of constructions, assignments and calls of from_code an expected_t is in exactly one of its states, the last one stored, and get returns or rethrows exactly that.",
  "every sequence of operations and every behaviour of the called function",
  "Null exception pointers and throwing operations are rarely tested.",
  H+"daw_expected.h: expected_t::from_code", H+"daw_expected.h: expected_t::get")
p("C113", "safe_pointer stays inside its range",
  "Every increment, decrement and addition of any offset either leaves the safe_pointer inside its array or stops the program.",
  "every array length, position and offset and every sequence of moves",
  "Offsets near the limits of the integer type and single-pointer construction.",
  H+"daw_safe_pointer.h: safe_pointer::operator+=", H+"daw_safe_pointer.h: safe_pointer::operator-=")
p("C114", "safe_pointer reads the element it designates",
  "Dereferencing and indexing a safe_pointer return the element at that position, or stop the program when there is none.",
  "every array, position and index",
  "All positions and indices, including those outside.",
  H+"daw_safe_pointer.h: safe_pointer::operator[]", H+"daw_safe_pointer.h: safe_pointer::operator*")
p("C115", "safe_pointer difference inverts addition",
  "The difference of two safe_pointers into one array is the offset which added to the second gives the first.",
  "every array and pair of positions including the end",
  "Pointers at the end of the array.",
  H+"daw_safe_pointer.h: operator-")
p("C116", "shared_function destroys its callable and storage exactly once under all interleavings",
  "In any interleaving of the atomic steps of any number of threads copying, locking, calling and destroying shared_function and weak_shared_function handles, no deleted storage is touched, no destroyed callable is called, the callable is destroyed exactly once, as soon as the last shared_function is gone, and the storage is deleted exactly once, after the last handle.",
  "every interleaving of any number of threads and handles",
  "Races between threads are not reproducible.",
  H+"daw_shared_function.h: strong_copy", H+"daw_shared_function.h: weak_upgrade", H+"daw_shared_function.h: strong_release")
p("C117", "weak_shared_function::lock fails only when the function is gone",
  "lock returns an empty function only when no shared_function exists or is being copied or locked by another thread, and a successful lock holds the callable from the moment its exchange succeeds.",
  "every interleaving of any number of threads and handles",
  "The race of lock with the end of the last shared_function is not reproducible.",
  H+"daw_shared_function.h: weak_upgrade", H+"daw_shared_function.h: lock")


p("C118", "shuffle can return every permutation, each by exactly one choice",
  "Whatever the engine delivers, shuffle stays inside the range and returns a permutation of it, and every permutation of distinct elements is the result of exactly one sequence of random choices.",
  "every sequence of random numbers within the requested bounds, every range and every permutation",
  "A bias needs statistics over many runs to be seen, and the number of permutations grows factorially.",
  H+"daw_random.h: shuffle")
p("C119", "random values stay between their bounds and fill exactly their range",
  "random_fill writes exactly its range, make_random_data returns exactly the number of values asked for, and these and RandomInteger return values between their inclusive bounds for all bounds in order.",
  "every pair of bounds, every range and every engine",
  "Random results differ from run to run and the extreme bounds are rarely drawn.",
  H+"daw_random.h: random_fill", H+"daw_random.h: make_random_data", H+"daw_random.h: RandomInteger")
p("C120", "static_random has full period",
  "From every seed the states of static_random repeat after exactly 2^64 calls (2^32 on a 32 bit system) and every state is reached.",
  "every seed and any number of calls",
  "A period of 2^64 cannot be run.",
  H+"daw_random.h: rand_lcg", H+"daw_random.h: static_random")
p("C121", "daw::function owns its callable like a value",
  "Over any program of constructions, copies, moves, assignments, calls and destructions of function, a call calls the callable last stored, an empty function throws, and the destructor of every stored callable runs exactly once, after its last call.",
  "every sequence of operations on any number of functions with callables with and without destructors",
  "A destructor that runs twice or too early need not be noticed, and sequences are unbounded.",
  H+"daw_stack_function.h: function_storage", H+"daw_stack_function.h: store_if_not_empty")

p("C122", "iota iterators compare as their values",
  "==, !=, <, <=, > and >= of two iota_iterators answer what the same operator answers for their values.",
  "every integer type, every pair of values and steps",
  "The operators are wrong only for some types and pairs of values, and there are too many pairs to try.",
  H+"iterator/daw_iota_iterator.h: iota_iterator::compare")
p("C123", "iota iterators keep the laws of random access iterators",
  "it + n, it - n, it += n, it -= n and it[n] are what n increments or decrements give, and ( it + n ) - it is n.",
  "every integer type, value, step and count that do not overflow",
  "Laws that hold for a step of one need not hold for another step, and the values wrap around in some types only.",
  H+"iterator/daw_iota_iterator.h: iota_iterator")
p("C124", "a loop over iota_range sees the numbers from start up to last",
  "The loop over iota_range( start, last, step ) ends and its body sees exactly start, start + step, .. as long as they are before last.",
  "every integer type, start, last and step that do not overflow",
  "A loop that never ends or never starts depends on the type and on whether the step divides the distance.",
  H+"iterator/daw_iota_iterator.h: iota_range")
p("C125", "chunk iterators walk a range chunk by chunk",
  "A loop with chunk_iterator over a range sees every element once and in order in chunks of the given size, ++ and -- undo each other, and it + n, it - n and differences count chunks.",
  "every range, every chunk size and every number of steps",
  "Chunk sizes that do not divide the length and backward steps are easily left out.",
  H+"iterator/daw_chunk_iterator.h: chunk_iterator")
p("C126", "repeat_n_char_iterator is n times the character",
  "The range from repeat_n_char_iterator( n, c ) to its end is n times c and the iterator keeps the laws of a random access iterator.",
  "every count, character and number of steps",
  "Counts are unbounded, and a wrong direction of + is not seen by a loop with ++.",
  H+"iterator/daw_repeat_n_char_iterator.h: repeat_n_char_iterator")
p("C127", "a reverse iterator is an iterator into the reversed block",
  "Every program of copies, assignments, moves, reads, differences and comparisons of reverse iterators sees what the same program sees with plain iterators into the reversed block.",
  "every block and every sequence of operations on any number of iterators",
  "Off by one errors show up only for particular combinations of moves, and sequences are unbounded.",
  H+"iterator/daw_reverse_iterator.h: reverse_iterator")
p("C128", "a counting iterator knows how far it has moved",
  "The distance of a counting iterator is how far it is from where it, or the iterator it was copied from, was constructed.",
  "every sequence of constructions, copies, assignments and moves",
  "Sequences are unbounded, and a count that drifts needs a particular one.",
  H+"iterator/daw_counting_iterators.h: counting_iterator")
p("C129", "arg_iterator_t is a random access range of the arguments",
  "A loop over arg_iterator_t sees all arguments in order, the comparisons agree with the positions, and at( n ) returns the n-th argument or throws.",
  "every number of arguments, every position and offset",
  "The loop works while the comparisons and the first argument do not, for every command line.",
  H+"iterator/daw_argument_iterator.h: arg_iterator_t")
p("C130", "indexed_iterator stays inside its container",
  "With checks on, every operation of an indexed_iterator gives what the same operation on a position gives, or aborts if the position would leave the container, and it never reads outside.",
  "every container, position and distance",
  "The bounds are wrong by one in single operations, and an access behind the end may go unnoticed.",
  H+"iterator/daw_indexed_iterator.h: indexed_iterator")
p("C131", "checked_iterator_proxy_t makes the checks asked for",
  "With a check asked for, moving over the end, in front of the beginning or reading at the end throws, and without an error it behaves like the iterator it wraps.",
  "every block, range and combination of checks, after any number of moves",
  "A missing check is only seen by a program that makes the error, and then as undefined behaviour.",
  H+"iterator/daw_checked_iterator_proxy.h: checked_iterator_proxy_t")
p("C132", "find_iterator sees exactly the matching elements",
  "A loop over find_iterator sees exactly the elements that satisfy the filter, each once and in order, and the search stays inside the range.",
  "every range and filter",
  "Ranges and filters are unbounded, and a search behind the end may go unnoticed.",
  H+"iterator/daw_find_iterator.h: find_iterator")
p("C133", "find_one_iterator sees exactly the elements that match a filter, with its index",
  "A loop over find_one_iterator sees exactly the elements that satisfy one of the filters, in order, each with the index of the first filter it satisfies.",
  "every range and every list of filters",
  "Ranges and lists of filters are unbounded.",
  H+"iterator/daw_find_one_iterator.h: find_one_iterator", H+"daw_algorithm.h: find_one_of")
p("C134", "sorted insert iterators keep their container sorted",
  "Writing any values through a sorted insert iterator into a sorted container keeps it sorted, keeps all elements, and puts an element in front of the equivalent ones that were written before it.",
  "every strict weak ordering, sorted container and sequence of values",
  "Sequences are unbounded and the place among equivalent elements depends on their number.",
  H+"iterator/daw_sorted_insert_iterator.h: make_sorted_insert_iterator", H+"iterator/daw_function_iterator.h: function_iterator")
p("C135", "InputIterator owns a copy of the iterator it erases",
  "Over any program of constructions, copies, moves, assignments, increments and destructions, InputIterators behave like independent values, nothing is deleted twice or through the wrong type, and nothing is leaked.",
  "every sequence of statements on any number of objects with iterators of any types",
  "Leaks and deletes through the wrong type need not be noticed, and sequences are unbounded.",
  H+"iterator/InputIterator.h: InputIterator")

p("C136", "a vector can be filled from single pass iterators",
  "insert from input iterators puts all their elements in front of the position in order and returns it, assign replaces the elements by them, and if memory runs out an exception leaves insert with the elements unchanged.",
  "every vector, position, range of elements, size limit and behaviour of the allocator",
  "The elements go through the spare room, a second buffer, a rotation and another insertion, and which of these happen depends on sizes; whether the last step comes back at all depends on the standard library.",
  H+"vector.h: vector::insert", H+"vector.h: vector::assign", H+"split_buffer.h: split_buffer::construct_at_end")

p("C137", "mask_msb and mask_lsb clear the bits they are asked to",
  "mask_msb( n ) has exactly the bits below the n most significant ones, mask_lsb( n ) exactly those above the n least significant ones.",
  "every integer type and every count, also counts beyond the width",
  "The masks feed every shift of static_bitset and the bit queues; a test samples some counts and types, and undefined shifts do not show in a test that passes.",
  H+"daw_bit.h: mask_msb", H+"daw_bit.h: mask_lsb")
p("C138", "set_bits, unset_bits and get_bits touch exactly the named bits",
  "For positions inside the integer set_bits sets exactly the named bits, unset_bits clears exactly them and get_bits keeps exactly them; nothing is undefined, the sign bit included.",
  "every integer type of at least eight bits, value, and number and order of positions",
  "Promotion to int, conversion of the position and the folds over the pack interact with width and sign; there are too many combinations to test.",
  H+"daw_bit.h: set_bits", H+"daw_bit.h: unset_bits", H+"daw_bit.h: get_bits")
p("C139", "are_set reports the bits of its masks",
  "make_mask has exactly the bits of its arguments; are_set is true exactly if all the asked bits are set.",
  "every value and every number of masks",
  "Values with some but not all of the bits set decide, and tests use masks of one bit.",
  H+"daw_bit.h: make_mask", H+"daw_bit.h: are_set")
p("C140", "ASCII classes and case conversion",
  "The predicates accept exactly the digits, letters and printable characters of ASCII; to_upper_ascii and to_lower_ascii exchange the letters and change nothing else, are idempotent, the last one counts, and comparing lower case is comparing upper case.",
  "every value of every integer type of at least eight bits",
  "The functions take any integer type, also values that are no characters.",
  H+"daw_ascii.h: is_ascii_alpha_t", H+"daw_ascii.h: to_upper_ascii_t", H+"daw_ascii.h: to_lower_ascii_t")

p("C141", "Zip walks its ranges in step up to the shortest",
  "A loop over zip_view sees as many tuples as the shortest range has elements; the i-th tuple holds the i-th element of every range, and nothing outside the ranges is touched.",
  "any positive number of ranges of any lengths and contents",
  "The end is found by a != that is true only if all the iterators differ; which range is the shortest and how many there are decides, and tests use two or three.",
  H+"pipelines/zip.h: zip_view", H+"pipelines/zip.h: zip_iterator")
p("C142", "zip_iterator keeps the laws of an iterator",
  "!= is the negation of ==, the distance from begin to end is the number of tuples a loop sees, and < orders the iterators by their steps.",
  "all iterators into any zip_view",
  "Generic algorithms use == where a loop uses !=; ranges of one length hide the difference.",
  H+"pipelines/zip.h: zip_iterator")
p("C143", "iota_view holds the numbers between its bounds",
  "A loop over iota_view( first, last ) sees first, first + 1, ... without last, none if last is not above first, and the distance is their number.",
  "every integer type and all bounds",
  "Bounds in the wrong order and bounds at the edges of the type need walks of up to 2^64 steps.",
  H+"pipelines/iota.h: iota_view", H+"pipelines/iota.h: iota_iterator")
p("C144", "Enumerate pairs every element with its index",
  "A loop over EnumerateFrom<T>( offset )( r ) sees every element of r together with offset plus its index, and the distance from begin to end is the number of elements.",
  "every range, index type and offset",
  "Whether elements are lost depends on the size of the range against the largest value of the type.",
  H+"pipelines/enumerate.h: Enumerate_t", H+"pipelines/enumerate.h: EnumerateFrom_t")
p("C145", "Map applies the function to every projected element",
  "A loop over Map( f, proj )( r ) sees f( proj( x ) ) for the elements x of r in order, as Map of a single value does; it[n] is that of the element n further on.",
  "every range, function and projection",
  "The projection is accepted and stored everywhere; that it is not called shows only with functions that also take the unprojected value.",
  H+"pipelines/map.h: map_iterator", H+"pipelines/map.h: Map_t")
p("C146", "A map_view over a temporary shows its own elements",
  "A map_view made from a temporary container owns it: however views are made, copied, moved and destroyed, a loop over a living view is defined and sees f of the elements of its own container.",
  "all sequences of makes, copies, moves and destructions of any length",
  "Reads of freed memory often return the old values, and the order of destruction in a test is one of many.",
  H+"pipelines/map.h: map_view")
p("C147", "generate_n yields the first n results",
  "A loop over generate_n( n, fn ) sees the first n results of fn in the order of the calls.",
  "every n, and every function with a state",
  "Functions with a state are copied into each iterator; tests use a few calls of one function.",
  H+"pipelines/generate.h: generate_n", H+"pipelines/generate.h: GenerateN_t")
p("C148", "CacheLast reads every element once",
  "However often a loop reads *it, at least once at each position, the underlying iterator is read once per position, and all the reads see the same value; stepping back forgets the value.",
  "every underlying iterator, also one whose reads have effects, and every number of reads at each position",
  "Tests count reads of one pattern.",
  H+"pipelines/cache_last_view.h: cache_last_iterator")

p("C149", "Find and FindIf give the first match",
  "Find gives the first position whose projected value equals the needle, FindIf<width> the first at which the needle accepts the width projected values from there on; both give the end if there is none and read nothing outside the range.",
  "every range, needle, projection and width",
  "The windows near the end of the range, for each width, are where a search reads too far.",
  H+"pipelines/find.h: FindValue_t", H+"pipelines/find.h: FindIf_t", H+"pipelines/find.h: finder")
p("C150", "Contains, First, CountIf and Drop agree with the list of elements",
  "Contains tells whether some projected element compares true with the needle, First gives the first element, DropWhile and DropUntil leave the rest from the first element on that does not, does satisfy the predicate, CountIf counts the elements that satisfy it.",
  "every range, predicate, comparison and projection",
  "Tests use a few ranges.",
  H+"pipelines/algorithm.h: Contains_t", H+"pipelines/first.h: FirstFn", H+"pipelines/drop.h: DropWhile", H+"pipelines/drop.h: DropUntil", H+"pipelines/numeric.h: CountIf_t")
p("C151", "Every selects each n-th element",
  "A loop over Every( n ), n not zero, sees the elements at the positions 0, n, 2n, ... and no others.",
  "every n above zero and every range",
  "The counter is kept in a function with a state; the interplay of n and the size has too many cases.",
  H+"pipelines/every.h: Every_t")
p("C152", "Sum adds up the elements",
  "Sum of a range of integers is their sum.",
  "every integer type and every range",
  "The partial sums that overflow depend on the values and their order.",
  H+"pipelines/numeric.h: sum_t")
p("C153", "To an array fills all of the array",
  "To<std::array<T, n>> gives the elements in order, and the default behind them if the range is shorter; elements beyond n are not read.",
  "every n, default and range",
  "The elements are read through one iterator that the initialisers of the array share.",
  H+"pipelines/to.h: ToArray", H+"pipelines/to.h: make_array_value")
p("C154", "Take can be walked backwards and by arithmetic",
  "Reverse of Take( n ) sees the elements of Take( n ) from the last to the first; equal iterators have equal predecessors; it + n is n steps, and differences count the steps.",
  "every range and n, all iterators and distances inside",
  "Ranges not longer than n hide that the end iterator is that of the whole range.",
  H+"pipelines/sized_iterator.h: sized_iterator", H+"pipelines/take.h: Take_t", H+"pipelines/reverse.h: Reverse_t")
p("C155", "range_t moves as an iterator",
  "After n increments a range_t has n elements less and begins n elements further on, and its difference to the range before is n.",
  "every range inside a block of less than 2^63 elements and every n",
  "Sign and distance need all pairs.",
  H+"pipelines/range.h: range_t")

p("C156", "A union_pair_t holds one of its two types or nothing",
  "Programs over any number of daw::union_pair_t variables, of construction, assignment of either type, copy construction and copy assignment, behave as over variables that hold one of the two types or nothing; which() and visit() tell what is held.",
  "all sequences of operations on any number of variables; all values",
  "Whether the tag and the live member of the union agree after every history, and whether members are assigned before they exist, cannot be seen from a few results.",
  H+"daw_union_pair.h: store_type0", H+"daw_union_pair.h: clear", H+"daw_union_pair.h: visit")
p("C157", "A validated variable holds a value that its validator accepts",
  "Whatever a program does with daw::validated variables, every one of them holds a value its validator accepts: values that are not accepted throw and leave the variable as it was.",
  "all validators; all sequences of constructions, assignments and copies on any number of variables",
  "The invariant is about every history of the variables and every validator.",
  H+"daw_validated.h: validate", H+"daw_validated.h: make_value")
p("C158", "unique_array_t owns its array alone and deletes it exactly once",
  "Programs over any number of daw::unique_array_t variables, of construction, moves, writes and destruction, behave as over variables that hold lists; no array is shared, deleted twice, used after its deletion, or left over when all variables are gone.",
  "all sequences of operations on any number of variables; all sizes",
  "Ownership is a property of all histories of moves and destructions.",
  H+"daw_unique_array.h: clear", H+"daw_unique_array.h: create_values")
p("C159", "Access to the elements of a unique_array_t",
  "operator[], front and back give the elements they name, at() gives the element or throws if there is none, empty() tells if there are none.",
  "all states that a program can reach; all positions",
  "at() has to be right for every position of every size.",
  H+"daw_unique_array.h: at", H+"daw_unique_array.h: empty", H+"daw_unique_array.h: back")
p("C160", "sbo_storage gives back what was put into it, wherever it put it",
  "A daw::sbo_storage from which everything is taken out before something else is put in gives what was put in, for objects that fit and for those that do not, and gives all memory back; a const storage can be read as well.",
  "all sizes of the storage and the types; all sequences of allocate and deallocate; with and without assertions",
  "The choice between inside and heap, the tag and the memory balance concern all histories and sizes.",
  H+"daw_sbo.h: allocate", H+"daw_sbo.h: deallocate", H+"daw_sbo.h: storage_size")
p("C161", "string_join_iterator runs through the characters of its strings",
  "A loop from string_join_iterator( strings... ) to its end sees the characters of all strings in order; the difference of end and an iterator is the number of characters left.",
  "all numbers of strings; all strings",
  "The passage from string to string depends on all lengths, among them zero.",
  H+"daw_string_concat.h: string_join_iterator")
p("C162", "string_concat concatenates its arguments in order",
  "string_concat( arg, strings... ) is arg followed by the strings in order.",
  "all strings, any number of them; all evaluation orders that the language allows",
  "A test sees the order that one compiler chose.",
  H+"daw_string_concat.h: string_concat")
p("C163", "iter_swap and cswap exchange two values",
  "daw::iter_swap and daw::cswap of trivially copyable values exchange the values of two places and nothing else, also if the places are the same.",
  "all memories; all pairs of places",
  "The places may coincide and everything else has to stay as it is.",
  H+"daw_swap.h: cswap", H+"daw_swap.h: iter_swap")
p("C164", "swap_ranges exchanges the elements of two ranges",
  "daw::swap_ranges( first1, last1, first2 ) exchanges the elements of the two ranges and returns the end of the second.",
  "all memories; all ranges",
  "It concerns all lengths and all elements.",
  H+"daw_swap.h: swap_ranges")

p("C165", "A contiguous_view stays a view of the part of the array that its operations leave",
  "Whatever is removed from a daw::contiguous_view, added to it, searched in it and taken from it, it stays a view of the part of the array that these operations leave, gives the elements they name, and at() gives the elements or throws; a build with assertions does not go on if an operation is asked for what is not there.",
  "all arrays, parts of them, and sequences of operations",
  "The two pointers have to stay right through every history of prefixes, suffixes and searches.",
  H+"daw_contiguous_view.h: remove_prefix", H+"daw_contiguous_view.h: pop_until", H+"daw_contiguous_view.h: at")
p("C166", "contiguous_views are equal exactly if their elements are",
  "operator== of two daw::contiguous_views is true exactly if the views have the same elements in the same order.",
  "all arrays and all parts of them",
  "Equality is a statement about all pairs of views.",
  H+"daw_contiguous_view.h: operator==")
p("C167", "subspan of a contiguous_view gives the part it is asked for",
  "subspan( offset, count ) of a daw::contiguous_view is the view of the count elements from offset on; operator[] asserts that the position is in the view.",
  "all views, offsets and counts",
  "Offsets and counts are arbitrary numbers.",
  H+"daw_contiguous_view.h: subspan", H+"daw_contiguous_view.h: operator[]")
p("C168", "A span is a list that elements are taken from at both ends",
  "All histories of remove_prefix, remove_suffix, pop_front, pop_back, pop and subspan on a daw::span give and leave the elements that they give and leave in a list; at() gives the elements and throws where there are none; a loop from rbegin to rend sees them in reverse.",
  "all arrays, spans of them and sequences of operations",
  "The size is kept by subtraction in size_t, so that one wrong step spoils all later checks.",
  H+"daw_span.h: remove_prefix", H+"daw_span.h: pop_front", H+"daw_span.h: pop_back", H+"daw_span.h: subspan")
p("C169", "Spans can be made of two pointers and read backwards",
  "A daw::span made of two pointers has the elements between them, none if they are in the wrong order or null; crbegin to crend goes through the elements in reverse.",
  "all arrays and all pairs of positions",
  "The order of the pointers and the lengths are arbitrary.",
  H+"daw_span.h: crend", H+"daw_span.h: empty")

p("C170", "rotate exchanges the two parts of a range",
  "After daw::algorithm::rotate( first, middle, last ) the range has the elements from middle to last, followed by those from first to middle, both in their order; what is outside the range is unchanged.",
  "all ranges, middles and surroundings",
  "The loop swaps in cycles whose shape depends on the greatest common divisor of the two lengths.",
  H+"daw_algorithm_cx.h: rotate")
p("C171", "nth_element puts the element of rank n at its place",
  "After daw::algorithm::nth_element( first, nth, last ) the element at nth is the one that would be there if the range were sorted, and nothing greater is before it.",
  "all ranges, positions and comparisons",
  "Orders of the elements are arbitrary.",
  H+"daw_algorithm_cx.h: nth_element")
p("C172", "The partition of daw_algorithm_cx.h separates the elements",
  "daw::algorithm::partition moves the elements that satisfy the predicate to the front, returns the first position behind them, only rearranges the range, and leaves what is outside it unchanged.",
  "all ranges, predicates and surroundings",
  "The pattern of elements that satisfy the predicate is arbitrary.",
  H+"daw_algorithm_cx.h: partition")
p("C173", "Arithmetic of UInt8 to UInt64 is arithmetic modulo two to their size",
  "+, -, * and the unary minus of daw::UInt8, UInt16, UInt32 and UInt64, with operands of any of the integer types, give the result modulo 2^8, 2^16, 2^32 and 2^64 and are never undefined.",
  "all values, all operand types",
  "Promotion to int makes some small unsigned operations overflow, for a few values only.",
  H+"daw_uint_types.h: operator-( UInt64 value )", H+"daw_uint_types.h: operator-( UInt32 value )")
p("C174", "Division of UInt8 to UInt64 is exact",
  "a / b with one of the operands of type daw::UInt8, UInt16, UInt32 or UInt64 is the integer quotient of the values if b is not zero.",
  "all values, all operand types",
  "Division does not commute with the conversions between the types.",
  H+"daw_uint_types.h: operator/( std::uint8_t lhs, UInt64 rhs )")
p("C175", "rotate_left and rotate_right rotate by every count they accept",
  "rotate_left and rotate_right of daw::UInt8 to UInt64 move bit i to bit i + n and i - n, modulo the number of bits, for all counts n up to the number of bits.",
  "all values, widths and counts",
  "Counts at the ends of the range shift by the full width.",
  H+"daw_uint_types.h: rotate_left", H+"daw_uint_types.h: rotate_right")
p("C176", "set_bit changes one bit, get_bit tells it",
  "set_bit<N> of daw::UInt8 to UInt64 sets bit N to the state and leaves all other bits; get_bit<N> tells bit N.",
  "all values, bits and states",
  "Whether the other bits stay depends on the width of an intermediate mask.",
  H+"daw_uint_types.h: set_bit", H+"daw_uint_types.h: get_bit")
p("C177", "Masks of low bits and numbers of bytes",
  "mask_from_lsb64/32/16/8<N> has the N lowest bits set, for N from zero to the number of bits; to_uint64_buffer, to_uint32_buffer and to_uint16_buffer give the number whose bytes, lowest first, they are given.",
  "all N, all bytes",
  "All values of the bytes, with and without the top bit.",
  H+"daw_uint_types.h: mask_from_lsb64", H+"daw_uint_types.h: to_uint64_buffer")
p("C178", "Every number that fits can be written as a literal",
  "The literals _u64, _u32, _u16 and _u8 give their number if it fits in the type, and a build with assertions ends for numbers that do not fit.",
  "all numbers",
  "The limit is a boundary value.",
  H+"daw_uint_types.h: operator\"\"_u16", H+"daw_uint_types.h: operator\"\"_u8", H+"daw_uint_types.h: operator\"\"_u32")

p("C179", "iter_view removes and finds elements like a list",
  "Every operation of daw::iter_view that removes elements leaves the same elements as the same operation on a list, keeps size() equal to the distance of its iterators and never leaves the range.",
  "all sequences, views and numbers of elements",
  "Sizes, positions of the needles and iterator categories are arbitrary.",
  H+"daw_iter_view.h: remove_prefix", H+"daw_iter_view.h: pop_front_until")
p("C180", "Comparing iter_views compares their elements",
  "==, < and >= of daw::iter_view are equality, the lexicographical order and its negation of the elements.",
  "all sequences and views, all strict weak orders",
  "Elements and lengths are arbitrary.",
  H+"daw_iter_view.h: operator==", H+"daw_iter_view.h: operator<")
p("C181", "subspan of an iter_view is the part asked for",
  "iter_view::subspan( offset, count ) has the elements from offset on, at most count of them.",
  "all views, offsets and counts",
  "Offsets and counts are arbitrary.",
  H+"daw_iter_view.h: subspan")
p("C182", "daw::view keeps its elements over any sequence of operations",
  "After any sequence of remove_prefix, remove_suffix, pop_front and pop_back of a daw::view the elements are those of a list after the same operations, the results are the elements a list would give, and size() is their number.",
  "all sequences and all lists of operations within the size",
  "The sequence of operations is arbitrary.",
  H+"daw_view.h: remove_prefix", H+"daw_view.h: pop_front")
p("C183", "bitcount counts the ones of a number",
  "daw::bitcount( value ) is the number of ones in the binary representation of the value.",
  "all values of all integer types up to 64 bits",
  "Tests with a few numbers do not show for which numbers a sum is right.",
  H+"daw_utility.h: constexpr std::size_t bitcount( Value value ) noexcept")
p("C184", "can_fit and narrow_cast tell whether a type has a value",
  "daw::can_fit<R>( x ) is true exactly if the integer type R has the value x; daw::narrow_cast<R>( x ) returns x in this case and throws otherwise.",
  "all values of all pairs of integer types",
  "The comparisons convert their operands, which changes values for some pairs of types only.",
  H+"daw_utility.h: can_fit", H+"daw_utility.h: narrow_cast")
p("C185", "AsciiUpper and AsciiLower change only letters",
  "daw::AsciiUpper turns the letters a to z into A to Z and AsciiLower the other way round; all other characters stay as they are, in characters and in strings.",
  "all characters, signed or not, and all strings of all character types",
  "char is signed on some platforms only; strings may have wide characters.",
  H+"daw_utility.h: constexpr char AsciiUpper( char chr ) noexcept", H+"daw_utility.h: AsciiUpper( std::basic_string<CharType, Traits, Allocator> str )")
p("C186", "hex writes text that stands for its argument",
  "daw::hex of a character, an integer, a range of integers, a string or a literal stores exactly two hexadecimal digits for every byte, from the most significant one on, from which the argument can be read back; nothing else is changed.",
  "all values of all sizes, all strings, and output to memory and to back inserters",
  "Sizes, values and the place of the output are arbitrary.",
  H+"daw_utility.h: hex( char c,", H+"daw_utility.h: hex( char const *str, std::size_t len, OutputIterator first_out )")
p("C187", "hex of objects writes their bytes",
  "daw::hex of an object that is no integer, or of a range of such objects, stores two hexadecimal digits for every byte of the objects, one after the other.",
  "all objects and ranges, and output to memory and to back inserters",
  "Appending to a string hides what goes wrong in memory.",
  H+"daw_utility.h: auto chr_ptr = reinterpret_cast<char const *>( &val );", H+"daw_utility.h: first_out = hex( *first_out, first_out );")
p("C188", "value_from_chars reads big endian numbers",
  "daw::value_from_chars for 1, 2, 4 and 8 bytes returns the number these bytes stand for with the most significant byte first, without undefined shifts.",
  "all bytes and memories, before and since C++20",
  "Bytes above 127 are shifted into the sign of an int.",
  H+"daw_utility.h: value_from_chars(")
p("C189", "equal_to_last compares with the value of the call before",
  "A call of a daw::equal_to_last object is true exactly if its argument equals the argument of the call before; the first call is false.",
  "all sequences of calls with all arguments",
  "What happens to the arguments between the calls is up to the program.",
  H+"daw_utility.h: class equal_to_last")
p("C190", "Searching containers and parameter packs",
  "daw::contains and index_of find the first equal element, copy_vector copies the first elements or throws, pack_index_of_v is an index with the type or the number of types, and pack_apply calls the function once with the argument of the given number.",
  "all containers, items, packs and numbers",
  "Lengths and positions are arbitrary.",
  H+"daw_utility.h: index_of( Container const &container,", H+"daw_utility.h: pack_index_of_v", H+"daw_utility.h: constexpr void pack_apply")
p("C191", "in_range( value, lower, upper ) tests the bounds",
  "daw::in_range( value, lower, upper ) is true exactly if lower <= value and value < upper.",
  "all integers of all integer types",
  "The comparisons convert their operands, which changes values for some pairs of types only.",
  H+"daw_utility.h: in_range( Value &&value, LowerBound &&lower,")

p("C192", "fixed_lookup is a finite map",
  "Any sequence of insertions, assignments, lookups and existence tests of a daw::fixed_lookup gives the results of a finite map of the keys used, as long as the keys fit in.",
  "all hash functions, capacities, keys, values and sequences of operations",
  "Which keys collide depends on the hash function and the capacity.",
  H+"deprecated/daw_fixed_lookup.h: lookup", H+"deprecated/daw_fixed_lookup.h: insert")
p("C193", "The positions of the entries of a fixed_lookup never change",
  "Once a key of a daw::fixed_lookup has a position, every later operation leaves it there, so references to its value stay valid.",
  "all hash functions, tables and sequences of operations",
  "A later insertion may collide with an earlier one in any way.",
  H+"deprecated/daw_fixed_lookup.h: lookup")
p("C194", "make_fixed_lookup stores all keys given",
  "make_fixed_lookup makes a table that holds every given key with a default value and no other stored hash, whatever the keys.",
  "all lists of keys and all hash functions",
  "The list is arbitrary.",
  H+"deprecated/daw_fixed_lookup.h: make_fixed_lookup")
p("C195", "ordered_map keeps its keys in the order of insertion",
  "Any sequence of operations of a daw::ordered_map gives the results of a finite map, and the entries are in the order in which their keys were inserted first.",
  "all sequences of operations, keys and values",
  "The sequence of operations is arbitrary.",
  H+"deprecated/daw_ordered_map.h: insert")
p("C196", "stack_quick_sort sorts",
  "The sort of daw_stack_quick_sort.h ends without overflowing its stack and leaves a sorted permutation of the elements.",
  "all inputs and all partition functions",
  "The depth of the stack and the pivots depend on the input.",
  H+"deprecated/daw_stack_quick_sort.h: quick_sort")
p("C197", "heap_array owns its elements",
  "Constructing, copying, assigning, clearing and reading a daw::heap_array act on the elements as on a list: every array has a block of its own, copies share nothing, assignment frees the old block once, also if the array is assigned to itself, and a loop, size(), empty(), operator[], at(), front() and back() agree with the elements.",
  "all heaps, arrays, sizes and values",
  "Leaks and sharing do not show in results of tests.",
  H+"deprecated/daw_heap_array.h: heap_array( heap_array const &other )", H+"deprecated/daw_heap_array.h: at(")
p("C198", "find_first_of of a heap_array finds the first equal element",
  "heap_array::find_first_of( value, start ) returns the first position from start on with the value, or end( ), and changes no element.",
  "all arrays, values and starts",
  "The sentinel is written behind the elements; a test rarely notices a write there.",
  H+"deprecated/daw_heap_array.h: find_first_of")
p("C199", "heap_array can be moved and tested",
  "Moving a daw::heap_array hands over its elements and leaves the source empty, the old elements of the target are freed, swap exchanges two arrays, and the conversion to bool tells whether there is storage.",
  "all heaps and arrays",
  "A leaked block or a wrong end pointer need not crash a test.",
  H+"deprecated/daw_heap_array.h: constexpr heap_array( heap_array &&other )", H+"deprecated/daw_heap_array.h: operator bool")

p("C200", "bounded_hash_set is a finite set",
  "Any sequence of insert, erase, exists, count and empty on a daw::bounded_hash_set_t gives the results of a finite set; the program ends exactly if a new key does not fit in, and erase of a key that is not there says so.",
  "all hash functions, capacities, keys and sequences of operations",
  "Which keys collide depends on the hash function and the capacity.",
  H+"deprecated/daw_bounded_hash_set.h: find_index", H+"deprecated/daw_bounded_hash_set.h: erase", H+"deprecated/daw_bounded_hash_set.h: insert")
p("C201", "bounded_hash_set find",
  "find of a daw::bounded_hash_set_t returns the position of the key, and end() if it is not there.",
  "all hash functions, sets and keys",
  "Depends on where the key was stored.",
  H+"deprecated/daw_bounded_hash_set.h: find( Key const")
p("C202", "A loop over a bounded_hash_set meets all keys",
  "A loop from begin() to end() of a daw::bounded_hash_set_t meets every key once and ends.",
  "all sets",
  "Where the last key is stored depends on the keys and the hash.",
  H+"deprecated/daw_bounded_hash_set.h: operator++")
p("C203", "make_bounded_hash_set stores all items",
  "make_bounded_hash_set never ends the program and the keys of the set are exactly the items given.",
  "all hash functions and nonempty lists of items",
  "The list is arbitrary; the set has no room to spare.",
  H+"deprecated/daw_bounded_hash_set.h: make_bounded_hash_set")
p("C204", "bounded_graph is a graph",
  "Any sequence of operations of a daw::bounded_graph_t gives the results of the same sequence on a mathematical directed graph: ids are given out in order, both sides of each edge agree, edge sets never run full, and a call for a node that does not exist ends the program.",
  "all hash functions, capacities, values and sequences of operations",
  "The sequences of operations are unbounded and the tables collide in many ways.",
  H+"deprecated/daw_bounded_graph.h: add_node", H+"deprecated/daw_bounded_graph.h: add_directed_edge", H+"deprecated/daw_bounded_graph.h: remove_node", H+"deprecated/daw_bounded_graph.h: remove_directed_edge")
p("C205", "Comparison of graph nodes",
  "Two nodes handed out by bounded graphs compare equal exactly if they are the same node of the same graph, != is the opposite of ==, and < orders the nodes of one graph.",
  "all pairs of nodes",
  "All pairs of graphs and ids.",
  H+"deprecated/daw_bounded_graph.h: operator==( Rhs const", H+"deprecated/daw_bounded_graph.h: operator!=( Rhs const", H+"deprecated/daw_bounded_graph.h: operator<( Rhs const")
p("C206", "Roots, leaves and values of a bounded graph",
  "find_roots, find_leaves and find_by_value of a daw::bounded_graph_t return, each once, the ids of the nodes without incoming edges, without outgoing edges and with the value, and never overflow the result.",
  "all hash functions, capacities, histories without removals of nodes, comparisons and values",
  "Depends on all edges of the graph.",
  H+"deprecated/daw_bounded_graph.h: find_roots", H+"deprecated/daw_bounded_graph.h: find_leaves", H+"deprecated/daw_bounded_graph.h: find_by_value")

p("C207", "satisfies_one and satisfies_all",
  "satisfies_one and satisfies_all over a range and several predicates are the disjunction and the conjunction over all elements and predicates; the predicates are called in order, and none after the call that decides the result.",
  "all ranges and lists of predicates, also predicates that fail or have no result for some elements",
  "Which calls are made depends on the values; a test sees only its own predicates.",
  H+"daw_algorithm.h: satisfies_one", H+"daw_algorithm.h: satisfies_all")
p("C208", "gather brings the matching elements together",
  "gather moves exactly the elements that satisfy the predicate between the two positions it returns, around the target, in their order; the others keep their order and their side of the target, and nothing is lost.",
  "all ranges, targets in them and predicates",
  "Positions depend on how many elements on each side satisfy the predicate.",
  H+"daw_algorithm.h: gather(")
p("C209", "map, transform_it, for_each_if, iota with a setter, cartesian_product",
  "map of two ranges writes the operation place by place and nothing else; transform_it, for_each_if, iota with a setter and tuple_functor reach exactly the elements meant, in order; cartesian_product and cartesian_product_map go over all combinations of elements.",
  "all ranges and operations",
  "Unbounded ranges; reading past the second range is not visible in a test.",
  H+"daw_algorithm.h: cartesian_product_map", H+"daw_algorithm.h: transform_it", H+"daw_algorithm.h: for_each_if", H+"daw_algorithm.h: tuple_functor")
p("C210", "convert_copy copies converted elements",
  "convert_copy writes the converted elements in order and returns the end of what it wrote.",
  "all ranges and conversions",
  "A missing return is not seen by a test that ignores the result.",
  H+"daw_algorithm.h: convert_copy")
p("C211", "extract_to, extract_all and extract_matching move elements",
  "The functions move all elements that are meant (equal to the key, all, those that satisfy the predicate) to the other container; no element is lost and the others stay.",
  "all containers, keys and predicates",
  "The loss needs an element that the target already has; a stale iterator often appears to work.",
  H+"daw_algorithm.h: extract_to", H+"daw_algorithm.h: extract_all", H+"daw_algorithm.h: extract_matching")
p("C212", "Predicates made from values",
  "in_range, equal_to, less_than and the like return a predicate that compares with the value it was made from; in_range throws exactly if the bounds are in the wrong order.",
  "all values and bounds, given as variables or temporaries, for all later contents of the variables",
  "The tests use literals of type int only.",
  H+"daw_algorithm.h: class in_range", H+"daw_algorithm.h: class less_than", H+"daw_algorithm.h: precondition_check<std::out_of_range>( lower <= upper )")

p("C213", "erase and erase_if on vectors",
  "daw::erase and daw::erase_if remove exactly the elements equal to the value or satisfying the predicate, keep the others in their order, return how many were removed, destroy what is left over and keep the capacity.",
  "all vectors, predicates and values, also values that are elements of the vector",
  "The effect of a reference into the vector depends on where the equal elements are.",
  H+"vector.h: erase_if", H+"vector.h: std::remove( c.begin( ), c.end( ), v )")
p("C214", "Comparison of vectors",
  "Two vectors compare equal exactly if they hold the same elements, < is the lexicographic order, the other operators agree with it, and exactly one of <, == and > holds.",
  "all vectors, capacities and total orders of the elements",
  "Vectors of all lengths and contents.",
  H+"vector.h: friend constexpr bool operator==", H+"vector.h: friend constexpr bool operator<")
p("C215", "Moving and copying vectors with different allocators",
  "Move construction, move construction with an allocator, move assignment and copy assignment give the target the elements of the source; every block is returned to an allocator equal to the one it came from, nothing leaks, and no element is destroyed twice.",
  "all vectors, allocators, propagation traits and outcomes of allocations",
  "The tests use std::allocator, whose objects are all equal.",
  H+"vector.h: move_assign(", H+"vector.h: copy_assign_alloc(", H+"vector.h: a == x.alloc( )")

p("C216", "Searching in the first string view",
  "find and search return the first, rfind and search_last the last occurrence of a text within the positions asked for; the find_first and find_last functions return the first or last character of the set, outside the set or satisfying the predicate; npos if there is none.",
  "all texts, needles, sets, predicates and positions",
  "The wrong answers need particular positions, and one unit test expects a wrong answer.",
  H+"deprecated/daw_string_view1.h: find_last_not_of(", H+"deprecated/daw_string_view1.h: find_last_of( CharT const c", H+"deprecated/daw_string_view1.h: search_last(", H+"impl/daw_string_impl.h: search( ForwardIt1 first")
p("C217", "Cutting and comparing the first string view",
  "The pop, try_pop and consume members split the text at the position, the text or the predicate and lose no character but the delimiter; views stay inside the text; substr, at and resize check their arguments; starts_with, ends_with and compare decide prefixes, suffixes and the lexicographic order.",
  "all texts, views inside them, delimiters, predicates, positions and counts",
  "The splits depend on first and last occurrences in texts of all lengths.",
  H+"deprecated/daw_string_view1.h: try_pop_front(", H+"deprecated/daw_string_view1.h: try_pop_back(", H+"deprecated/daw_string_view1.h: consume_front(", H+"deprecated/daw_string_view1.h: constexpr void resize(")
p("C218", "Splitting with the first string view",
  "split returns the pieces between the delimiters in order, leaving out an empty last piece.",
  "all texts and predicates",
  "Texts of all lengths with delimiters in all places.",
  H+"deprecated/daw_string_view1.h: split( daw::sv1::basic_string_view<CharT, Bounds, Ex> str", H+"deprecated/daw_string_view1.h: split( CharT const ( &str )[N], Delemiter d )", H+"deprecated/daw_string_view1.h: make_string_view( CharT const ( &str )[N] )")

p("C219", "Bounded strings keep their capacity and their terminator",
  "A bounded string made from a text and changed by push_back, append, remove_suffix, pop_back, clear and erase holds the text these calls make, never more than its capacity, throws when a call would exceed it, and c_str is terminated.",
  "all capacities, texts and histories of calls",
  "The wrong states need texts that just exceed the capacity, or a look behind the end of the text.",
  H+"deprecated/daw_bounded_string.h: constexpr void push_back(", H+"deprecated/daw_bounded_string.h: constexpr void remove_suffix( size_type n )", H+"deprecated/daw_bounded_string.h: constexpr iterator erase( const_iterator pos )", H+"deprecated/daw_bounded_string.h: constexpr bool has_room(", H+"deprecated/daw_bounded_string.h: make_bounded_string( CharT const ( &str )[N] )")
p("C220", "Parts, searching and comparing of bounded strings",
  "substr and copy give the part of the text, append of a part and operator+ the concatenation or an exception if it does not fit; find, starts_with and find_first_of answer for any text given; the comparison operators are equality and the lexicographic order.",
  "all capacities, texts, positions, counts, needles and sets",
  "The arguments are first cut to the capacity, and whether that changes the answer depends on all lengths.",
  H+"deprecated/daw_bounded_string.h: substr( size_type const pos = 0", H+"deprecated/daw_bounded_string.h: constexpr size_type copy( CharT *dest", H+"deprecated/daw_bounded_string.h: find_first_of( const_pointer s, size_type const pos = 0 )", H+"deprecated/daw_bounded_string.h: auto operator+( CharT const *lhs")

p("C221", "The old hash table finds what was inserted",
  "After any insertions, at returns the value inserted last for each key and throws for keys never inserted; occupied is the number of keys, erase removes only keys that are there, and the table can be used after clear.",
  "all table sizes, growth functions, hashes and histories of insertions",
  "There are no tests of this table; a test with a single key would pass.",
  H+"deprecated/daw_hash_table.h: static priv_iterator find_item_by_hash_or_create( size_t hash,", H+"deprecated/daw_hash_table.h: if( !pos ) {", H+"deprecated/daw_hash_table.h: static auto find_item_by_hash( size_t hash, values_type const &tbl,", H+"deprecated/daw_hash_table.h: size_t erase( Key &&key )")

p("C222", "Splitting a text at a delimiter text",
  "Iterating split_string gives the pieces between the occurrences of the delimiter taken from the left, also empty ones; they join to the text and none contains the delimiter; the iteration ends, and the postfix increment advances the iterator.",
  "all texts and delimiters",
  "Texts and delimiters of all lengths, with delimiters that overlap themselves; the unit tests split one sentence at one or two spaces.",
  H+"deprecated/daw_string_split_range.h: constexpr size_t find_next( )", H+"deprecated/daw_string_split_range.h: constexpr void move_next( )", H+"deprecated/daw_string_split_range.h: constexpr string_split_iterator operator++( int ) const noexcept", H+"deprecated/daw_string_split_range.h: return result.substr( 0, find_next( ) - m_pos );")
p("C223", "Parsing characters and quoted texts",
  "A text in quotes is parsed to what is between the quotes, with escaped quotes inside; texts without quotes around them are refused and nothing outside the text is read.",
  "all texts and all memory behind them",
  "Whether the reader leaves the text depends on the place of the last backslash and on what follows in memory.",
  H+"daw_parse_to.h: tag_t<daw::string_view> )", H+"daw_parse_to.h: constexpr bool is_quote( char const last_char, char const c )", H+"daw_parse_to.h: tag_t<unquoted_string_view> )", H+"daw_parse_to.h: constexpr char parse_to_value( daw::string_view str, tag_t<char> )")

p("C224", "The old vector is a sequence",
  "After any history of push_back, pop_back, clear, resize, reserve and insert, the old daw::Vector holds what the history means for a sequence, and no memory outside its block is used.",
  "all sequences, histories and element sizes",
  "Growth depends on page sizes, sizes of blocks in bytes and the history; the unit test prints results of a few insertions without checking them.",
  H+"deprecated/daw_vector.h: inline std::size_t round_to_page_size( std::size_t sz )", H+"deprecated/daw_vector.h: static constexpr void overlapped_relocate( pointer source,", H+"deprecated/daw_vector.h: constexpr void resize_impl( size_type sz ) noexcept", H+"deprecated/daw_vector.h: constexpr iterator insert( const_iterator where, IteratorF first,", H+"deprecated/daw_vector.h: constexpr reference push_back( const_reference v )")
p("C225", "Copies and comparisons of the old vector",
  "A copy of the old daw::Vector has the same elements and can be used like any vector; == compares the sequences and != is its negation.",
  "all sequences, histories and element sizes",
  "The capacity of a copy is only wrong beyond the memory it got, which depends on sizes; the unit test does not compare vectors.",
  H+"deprecated/daw_vector.h: uptr_t make_copy( Vector const &other )", H+"deprecated/daw_vector.h: constexpr Vector( Vector const &other )", H+"deprecated/daw_vector.h: bool operator==( Vector<value_type, Alloc2> const &rhs ) const noexcept", H+"deprecated/daw_vector.h: bool operator!=( Vector<value_type, Alloc2> const &rhs ) const noexcept")

p("C226", "Results of calls with expected exceptions",
  "A checked_expected_t holds what the last assignment or call gave it: a value, an exception of one of the expected types, or nothing; get returns the value or rethrows the exception.",
  "all lists of expected types, exceptions and histories of assignments",
  "Types of exceptions, lists of handlers and histories are unlimited; the unit test has a single expected type and no assignments.",
  H+"deprecated/daw_checked_expected.h: void is_expected_exception( std::exception_ptr ptr )", H+"deprecated/daw_checked_expected.h: static checked_expected_t from_code( Function func, Args &&...args )", H+"deprecated/daw_checked_expected.h: checked_expected_t &operator=( std::exception_ptr ptr )", H+"deprecated/daw_checked_expected.h: [[nodiscard]] reference get( )")
p("C227", "Results of calls that return nothing",
  "A checked_expected_t<void> says how a call ended; copies and assignments keep that.",
  "all lists of expected types, exceptions and states of the object",
  "The outcome depends on what the object held before and on the constness of the source of a copy; the unit test neither copies nor assigns.",
  H+"deprecated/daw_checked_expected.h: checked_expected_t( checked_expected_t const &other )", H+"deprecated/daw_checked_expected.h: checked_expected_t &operator=( checked_expected_t const &rhs )", H+"deprecated/daw_checked_expected.h: checked_expected_t( T && ) noexcept", H+"deprecated/daw_checked_expected.h: checked_expected_t &operator=( bool ) noexcept")

p("C228", "Formatting with numbered fields, version 1",
  "string_fmt::v1::fmt puts the arguments in the place of the fields of a text, throws if a field has the number of no argument, and refuses texts with fields that are not numbers or not closed.",
  "all texts and lists of arguments",
  "Texts have any number of fields with any numbers, next to any other text; the unit tests compare results for one field.",
  H+"deprecated/daw_string_fmt.h: std::string operator( )( Args &&...args ) const", H+"deprecated/daw_string_fmt.h: std::string get_arg( uint8_t const idx, Args &&...args )", H+"daw_parser_addons.h: constexpr R from_num_char( char c )", H+"daw_parser_addons.h: constexpr void parse_unsigned_int( ForwardIterator first,")
p("C229", "Formatting with numbered fields, version 2",
  "string_fmt::v2::fmt puts the arguments in the place of the fields of a text; there is room for the tokens of every text, and a backslash before a special character makes it an ordinary one.",
  "all texts and lists of arguments",
  "Whether the tokens fit depends on the relation of fields and characters in the whole text; the unit tests compare results for one field.",
  H+"deprecated/daw_string_fmt.h: parse_tokens( daw::basic_string_view<CharT> msg )", H+"deprecated/daw_string_fmt.h: constexpr Result operator( )( Args &&...args ) const", H+"deprecated/daw_string_fmt.h: constexpr fmt_t( string_fmt_details::private_ctor,")

p("C230", "Fixed arrays own their memory",
  "After any history of constructions, copies, moves, assignments, clear, release, writes and destructions, every fixed_array has the elements the history means, no memory is freed twice or used after it was freed, and all memory is freed when all arrays are destroyed.",
  "all histories of any number of arrays of any size",
  "Frees depend on the order of the calls on several arrays; the unit test writes into one array.",
  H+"deprecated/daw_fixed_array.h: void clear( ) {", H+"deprecated/daw_fixed_array.h: explicit fixed_array( pointer ptr, size_type sz )", H+"deprecated/daw_fixed_array.h: constexpr fixed_array &operator=( fixed_array &&rhs ) noexcept {", H+"deprecated/daw_fixed_array.h: fixed_array &operator=( fixed_array const &rhs ) {", H+"deprecated/daw_fixed_array.h: std::unique_ptr<value_type[]> release( ) {")
p("C231", "Loops over fixed arrays",
  "A loop from begin to end over a fixed_array meets its elements in order, also if there are none, and its iterators move as iterators do.",
  "all histories and arrays",
  "What an array without memory does depends on an assert; the unit test loops over nothing.",
  H+"deprecated/daw_fixed_array.h: constexpr iterator begin( ) {", H+"iterator/daw_pointer_iterator.h: constexpr pointer_iterator( pointer ptr )", H+"iterator/daw_pointer_iterator.h: constexpr pointer_iterator operator--( ) {")
p("C232", "The old carray is an array",
  "A carray has the values it was made from, followed by zeros; fill, assignments and writes through at change what they say, and at throws for positions outside.",
  "all sizes, values and histories of several arrays",
  "Holds for all sizes; the unit test reads one element of one array.",
  H+"deprecated/daw_carray.h: constexpr void assign_to( T *ptr, Arg &&arg, Args &&...args ) noexcept(", H+"deprecated/daw_carray.h: constexpr carray( Args &&...args ) noexcept( noexcept( details::assign_to(", H+"deprecated/daw_carray.h: [[nodiscard]] constexpr reference at( size_type pos ) {", H+"deprecated/daw_carray.h: constexpr void fill( const_reference value ) noexcept(")
p("C233", "Reverse loops over a carray",
  "A loop from rbegin to rend over a carray meets the elements from the last to the first.",
  "all sizes above 0 and elements",
  "There is no unit test of it, and what it reads depends on the memory before the array.",
  H+"deprecated/daw_carray.h: [[nodiscard]] constexpr auto rbegin( ) noexcept {", H+"deprecated/daw_carray.h: [[nodiscard]] constexpr auto rend( ) noexcept {")
p("C234", "Finding a number in a text",
  "find_number gives the first number of a text, all of its characters and no others, and says that it found it.",
  "all texts",
  "The number can be anywhere and of any length; there is no unit test.",
  H+"daw_parser_addons.h: constexpr auto find_number( ForwardIterator first, ForwardIterator last ) {")
p("C235", "Parsing of signed numbers",
  "parse_int gives the number that a text says, for every number of a signed type, and refuses other texts.",
  "all texts, for all signed types that are not promoted",
  "Unbounded texts; the unit test parses two numbers.",
  H+"daw_parser_addons.h: constexpr void parse_int( ForwardIterator first, ForwardIterator last,", H+"daw_parser_addons.h: constexpr R from_num_char( char c ) {", H+"daw_parser_addons.h: auto count = std::numeric_limits<Result>::digits10;")
p("C236", "Parsing of quoted strings",
  "parse_string_literal gives what is between the quotes of a string with escapes, skips blanks before it, and refuses strings that are not closed.",
  "all texts",
  "Escapes can be anywhere; there is no unit test.",
  H+"daw_parser_addons.h: constexpr auto parse_string_literal( ForwardIterator first,", H+"daw_parser_addons.h: auto quote_char = *first;")

p("C237", "Splitting a text",
  "split_if, and split with delimiters, give the parts of a text between its delimiters: one more than there are delimiters, empty ones too, in order, and nothing is lost.",
  "all texts, predicates and sets of delimiters",
  "Unbounded texts and any predicate; the unit test counts the parts of one text.",
  H+"deprecated/daw_string.h: auto split_if( String const &sv, Predicate is_delim ) {", H+"deprecated/daw_string.h: auto split( String const &sv, Delimiters const &delimiters ) {")
p("C238", "Splitting and combining are inverse",
  "combine puts together what split with a character took apart, and split takes apart what combine put together from parts without the character.",
  "all texts, lists of parts and characters",
  "Round trip over all texts; there is no unit test of combine.",
  H+"deprecated/daw_string.h: auto combine( StrArray const &strings, Char chr ) {", H+"deprecated/daw_string.h: auto split( String const &sv, char const delimiter ) {")
p("C239", "Splitting at blanks",
  "split without delimiters splits any text at its blanks.",
  "all texts",
  "Depends on all characters; there is no unit test.",
  H+"deprecated/daw_string.h: return static_cast<bool>( isspace( c ) );")
p("C240", "Trimming a text",
  "trim_left, trim_right and trim take the delimiters at the start, the end and both away, and nothing else.",
  "all texts and delimiters",
  "Unbounded texts; there is no unit test.",
  H+"deprecated/daw_string.h: auto trim_left_copy(", H+"deprecated/daw_string.h: return str.substr( str.find_first_not_of( delimiters ) );", H+"deprecated/daw_string.h: return str.substr( 0, str.find_last_not_of( delimiters ) + 1 );", H+"deprecated/daw_string.h: auto const len = end - start + 1;", H+"deprecated/daw_string.h: return \" \\f\\n\\r\\t\\v\\0\";")
p("C241", "Endings of texts",
  "ends_with says whether a text ends with a character or with another text.",
  "all texts and endings",
  "Unbounded texts; there is no unit test.",
  H+"deprecated/daw_string.h: auto pos = src.find_last_of( ending );", H+"deprecated/daw_string.h: return 0 < src.size( ) and ending == src[src.size( ) - 1];")
p("C242", "Texts within texts",
  "contains and in say whether a text is part of another one.",
  "all texts",
  "Unbounded texts; there is no unit test.",
  H+"deprecated/daw_string.h: bool contains( std::basic_string<CharT, Traits, Allocator> const &str,", H+"deprecated/daw_string.h: return StringType::npos != values.find( val );")
p("C243", "Replacing texts",
  "search_replace replaces every occurrence of a text, from the left, once.",
  "all texts, searched and replacing ones",
  "The texts written can have the searched one in them; there is no unit test.",
  H+"deprecated/daw_string.h: in_str.replace( pos, search_for_len, replace_with );", H+"deprecated/daw_string.h: pos += replace_with_len;")
p("C244", "Formatting with fields",
  "fmt of daw_string.h replaces the fields of a format by the arguments they name, refuses fields without arguments, and leaves protected fields.",
  "all formats and arguments",
  "Unbounded formats; the unit test has one format with one field.",
  H+"deprecated/daw_string.h: string_details::string_t fmt( String &&format_, Arg arg, Args... args ) {", H+"deprecated/daw_string.h: ss << arguments[v];", H+"deprecated/daw_string.h: ss << sm[0].str( );")

p("C245", "Visiting a variant",
  "visit calls the visitor with the value of the alternative that a variant has, for any number of alternatives, and throws for a variant without value; it is never undefined itself.",
  "all numbers of alternatives, variants and visitors",
  "The dispatch is written out for two to sixteen alternatives and recursive beyond; the unit test has a few of them.",
  H+"daw_visit.h: if constexpr( VSz - N >= 16 ) {", H+"daw_visit.h: return visit_nt<N + 16, R>( DAW_FWD( var ), DAW_FWD( vis ) );", H+"daw_visit.h: if( DAW_UNLIKELY( visit_details::is_empty( var ) ) ) {")
p("C246", "Visiting with a chosen result",
  "visit<Result> does the same as visit, and throws for a variant without value.",
  "all numbers of alternatives, variants and visitors",
  "A variant without value is rare and the dispatch has many cases; no unit test has one.",
  H+"daw_visit.h: if( DAW_UNLIKELY( var.index( ) < 0 ) ) {")
p("C247", "Casts of variants",
  "variant_cast gives the value of a variant converted, or throws; can_extract says whether the variant has the type.",
  "all variants, conversions and types",
  "All alternatives and conversions; the unit test has one variant.",
  H+"daw_variant_cast.h: return daw::visit_nt( var, impl::variant_visitor_t<T>{ } );", H+"daw_variant_cast.h: constexpr bool can_extract( std::variant<Args...> const &var ) noexcept {")
p("C248", "Any of some conditions",
  "any_if says whether one of its arguments is true.",
  "all lists of conditions",
  "Any number of arguments; the unit test expects that all are needed.",
  H+"daw_any_if.h: return (do_test( DAW_FWD( predicates ) ) and ...);")
p("C249", "Tables of functions",
  "A function_table calls the function of the index, and ends the program for an index that no function has.",
  "all tables, indices and arguments",
  "Any number of functions and any index; the unit test is one table and one text.",
  H+"daw_function_table.h: return fns[idx]( DAW_FWD( args )... );", H+"daw_function_table.h: if constexpr( is_t_in_range_v<I + 1, T> ) {", H+"daw_function_table.h: return call( idx, DAW_FWD( args )... );")
p("C250", "Contracts",
  "A contract only has values that fulfil its conditions, and no use of it is undefined.",
  "all conditions, values, handlers and histories of uses",
  "Histories of uses with any handler; the unit test has one value that does not fulfil and the first handler.",
  H+"daw_contract.h: contract_failure_handler = default_contract_failure;", H+"daw_contract.h: DAW_ASSUME( validate( value ) );", H+"daw_contract.h: return DAW_FWD( value );")
p("C251", "Optionals of polymorphic objects",
  "An optional_poly has the object that was put into it, with its type, also after copying, assigning, moving and swapping.",
  "all histories of operations on any number of variables",
  "Histories; the unit test only prints what the objects say.",
  H+"deprecated/daw_optional_poly.h: return new v_t( *ptr );", H+"deprecated/daw_optional_poly.h: m_value.reset( new value_type{ value } );", H+"deprecated/daw_optional_poly.h: : m_value{ new std::decay_t<T>{ value } } {}")
p("C252", "Comparing optionals of polymorphic objects",
  "The comparisons of optional_poly agree with an order in which an empty one is first.",
  "all pairs of optionals and all orders of the objects",
  "All pairs; the unit test compares an empty one with a value only.",
  H+"deprecated/daw_optional_poly.h: bool operator<( daw::optional_poly<T> const &lhs,", H+"deprecated/daw_optional_poly.h: bool operator>=( daw::optional_poly<T> const &lhs,")
p("C253", "Arguments of a program",
  "Arguments come back as they were meant: positional ones, flags, options and options with quotes, in order.",
  "all lists of arguments",
  "Unbounded texts and lists; the unit test has two arguments.",
  H+"daw_parse_args.h: name = args.pop_front_until( '=' );", H+"daw_parse_args.h: if( args.starts_with( '\"' ) and args.ends_with( '\"' ) ) {")
p("C254", "Looking up arguments",
  "A name is found at the first argument that has it, with its value; has_named_argument and first_named_argument tell of the arguments that were named.",
  "all lists of arguments and names",
  "Unbounded lists; the unit test looks up one name among one.",
  H+"daw_parse_args.h: return arg.name == name;", H+"daw_parse_args.h: return not arg.name.empty( );")
p("C255", "Iterators over several ranges",
  "The components of a zip_iterator are at one place, whatever moves there were, and it gives the elements at that place.",
  "all numbers of ranges, elements and histories of moves",
  "Histories over any number of ranges; the unit test makes two moves.",
  H+"iterator/daw_zipiter.h: ::Unused( ( ( ++std::get<Is>( tpl ), 0 ) + ... ) );", H+"iterator/daw_zipiter.h: ::Unused( ( ( daw::advance( std::get<Is>( tpl ), n ), 0 ) + ... ) );", H+"iterator/daw_zipiter.h: return { *std::get<Is>( m_values )... };")
p("C256", "Loops over several containers",
  "A loop over a zip_container sees the rows of its containers and ends.",
  "all numbers of containers and elements",
  "Any lengths; the unit test has containers of one length.",
  H+"daw_zipcontainer.h: : m_begin( std::begin( containers )... )", H+"iterator/daw_zipiter.h: return m_values != rhs.m_values;", H+"daw_zipcontainer.h: zip_container( Containers &&... ) -> zip_container<Containers...>;")

p("C257", "Powers of two as floating point numbers",
  "pow2<Real>(e) is the number 2^e if the type has it, infinity above and zero below.",
  "float and double, every exponent",
  "Thousands of exponents; the static_asserts have a handful.",
  H+"daw_cxmath.h: if( exp >= daw::numeric_limits<Real>::max_exponent ) {", H+"daw_cxmath.h: } else if( exp <= daw::numeric_limits<Real>::min_exponent ) {")
p("C258", "ldexp",
  "ldexp multiplies by 2^e.",
  "every exponent",
  "The exponent is an int, tests have small ones.",
  H+"daw_cxmath.h: exponent += 1023;")
p("C259", "Tables of powers",
  "dpow2(e) and dpow10(e) are 2^e and 10^e for each exponent for which a double has the power.",
  "every exponent",
  "The tables are computed by loops with chunks of 64 and 19 exponents; no test covers the ends.",
  H+"daw_cxmath.h: std::array<Float, max_e - min_e> result{ };", H+"daw_cxmath.h: return static_cast<Result>( m_tbl[static_cast<size_t>( zero + pos )] );")
p("C260", "Parts of a float",
  "float_parts_t gives sign, exponent and significand of a float, which make up the number.",
  "every 32 bit pattern",
  "2^32 patterns.",
  H+"daw_cxmath.h: [[nodiscard]] constexpr bool sign_bit( ) const noexcept {", H+"daw_cxmath.h: [[nodiscard]] constexpr float significand( ) const noexcept {")
p("C261", "Neighbours of a double",
  "adj_ulp(d, n) is the n-th double above d, or below for negative n.",
  "every double and n",
  "2^64 patterns times 2^32 steps.",
  H+"daw_cxmath.h: inline constexpr double adj_ulp( double d, int adj ) {")
p("C262", "Square root",
  "sqrt of a number is its square root within one unit of the significand; NaN for negative numbers.",
  "every float and double",
  "2^64 patterns; the one static_assert is for 16.",
  H+"daw_cxmath.h: [[nodiscard]] constexpr Real sqrt_fast( Real r ) {", H+"daw_cxmath.h: Real const y2 = ( Real{ 0.25 } * z ) + ( f / z );", H+"daw_cxmath.h: case fp_classes::subnormal:")
p("C263", "Sign of a floating point number",
  "signbit tells whether the sign of the number is set.",
  "every float and double",
  "2^64 patterns.",
  H+"daw_cxmath.h: [[nodiscard]] constexpr bool signbit( Number n ) noexcept {")

p("C264", "Rounding to integers",
  "round, floor and ceil give the nearest integer, the greatest integer not above and the least integer not below the number.",
  "every number and result type",
  "All numbers; tests have a few positive ones.",
  H+"daw_math.h: return static_cast<Result>( d + 0.5 );", H+"daw_math.h: return static_cast<Result>( d + 1.0 );")
p("C265", "Rounding to multiples",
  "round_by, floor_by and ceil_by give the nearest multiple of the step, the greatest not above and the least not below the value.",
  "every value and step",
  "All pairs of numbers.",
  H+"daw_math.h: static_cast<double>( round( static_cast<double>( value ) / rnd_by ) );", H+"daw_math.h: static_cast<double>( ceil( static_cast<double>( value ) / rnd_by ) );")
p("C266", "Nearly equal floating point numbers",
  "nearly_equal holds for numbers that differ by less than epsilon, relative to their size and absolutely near zero; for NaN with NaN and for an infinity with itself.",
  "all pairs of numbers",
  "2^128 pairs of double.",
  H+"daw_math.h: return diff < ( epsilon * std::numeric_limits<T>::min_exponent );", H+"daw_math.h: return diff / (daw::min)(( absA + absB ), max_value<T>) < epsilon;")
p("C267", "Sine and cosine",
  "daw::math::sin and cos give the sine and cosine up to a small error.",
  "every number",
  "The recursion multiplies errors; tests have a few angles.",
  H+"daw_math.h: return impl::sin_helper( x < 0 ? PI<R> - x : x );", H+"daw_math.h: return x < constants::tol")
p("C268", "No update of an atomic is lost",
  "If threads add to and subtract from a daw::atomic by fetch_add, fetch_sub, +=, -=, ++ and --, its value in the end is the one in the beginning plus all that they add.",
  "every number of threads, their programs, and every order of their steps",
  "The orders of steps cannot be enumerated, and a test sees few of them.",
  H+"daw_cx_atomic.h: return std::atomic_ref<value_type>( self.m_value ).fetch_add( arg, m );", H+"daw_cx_atomic.h: return --std::atomic_ref<value_type>( self.m_value );")
p("C269", "Exchange hands values on",
  "Threads that call exchange get, together with the value in the end, exactly the value in the beginning and the values that they gave, none lost and none twice.",
  "every number of threads, their programs, and every order of their steps",
  "The orders of steps cannot be enumerated.",
  H+"daw_cx_atomic.h: return std::atomic_ref<value_type>( self.m_value ).exchange( b, m );")
p("C270", "Assignment of atomics",
  "a = b of two atomics is indivisible like the other operations.",
  "every order of steps",
  "The orders of steps cannot be enumerated.",
  H+"daw_cx_atomic.h: constexpr atomic &operator=( atomic const &rhs ) noexcept {")
p("C271", "Atomics at compile time",
  "A program of operations on atomics has the same results at compile time as in a single thread at run time.",
  "every program, type and values",
  "Tests of both branches have a few programs.",
  H+"daw_cx_atomic.h: self.m_value += arg;", H+"daw_cx_atomic.h: return ++self.m_value;")

p("C272", "Copying containers",
  "container::copy and copy_n put the elements of the source, for copy_n at most so many, in their order at the destination and change nothing else.",
  "every memory, source, count and destination",
  "Sizes and overlaps are unbounded.",
  H+"daw_container_algorithm.h: constexpr void copy( Container const &source, OutputIterator destination ) {", H+"daw_container_algorithm.h: count = ( daw::min )( count, daw::size( source ) );")
p("C273", "Copying selected elements",
  "container::copy_if puts the elements for which the predicate holds in their order at the destination, gives the place after the last one, and changes nothing else.",
  "every memory, source, predicate and destination",
  "Sizes and overlaps are unbounded.",
  H+"daw_container_algorithm.h: constexpr OutputIterator copy_if( Container const &source,")
p("C274", "Calls with positions",
  "container::for_each_with_pos calls the function once for each element with a position in the interval, in order, and for no others.",
  "every container and interval",
  "Sizes are unbounded.",
  H+"daw_container_algorithm.h: auto it = daw::begin_at( container, first_inclusive );", H+"daw_container_algorithm.h: for( size_t row = first_inclusive; row < last_exclusive; ++row ) {")
p("C275", "Elements of a Range",
  "range::Range gives the elements between its iterators: size, empty, front, back, operator[], as_vector, find and contains speak of these only.",
  "every array, range, position and value",
  "Sizes are unbounded.",
  H+"deprecated/daw_range_type.h: daw::advance( it, size( ) - 1 );", H+"deprecated/daw_range_type.h: return *( m_begin + pos );")
p("C276", "Parts of a Range",
  "slice, shrink, move_next, move_back and safe_advance give the part of the range that they name; shrink( n ) leaves n elements.",
  "every array, range and positions",
  "Sizes are unbounded.",
  H+"deprecated/daw_range_type.h: return Range( m_begin, next( m_begin, new_size + 1 ) );", H+"deprecated/daw_range_type.h: range.set_begin( range.end( ) );")
p("C277", "References to functions",
  "A call of a function_ref is a call of what was bound to it last, in its state at the time of the call.",
  "every history of assignments, changes and ends of objects",
  "Histories are unbounded, and so is the mix of objects and functions in the union.",
  H+"daw_function_ref.h: auto const &obj = *static_cast<Func const *>( d.obj_ptr );", H+"daw_function_ref.h: constexpr Result operator( )( Params... params ) const {")

p("C278", "Bit set of the perfect hash",
  "mph_impl::static_bitset<Bits> holds Bits bits: set_bit is defined for each of them, and operator[] tells whether the bit was set.",
  "every number of bits, every sequence of bits set and every bit asked for",
  "Numbers of bits and sequences are unbounded.",
  H+"daw_min_perfect_hash.h: inline static constexpr size_t m_bins = Bits / m_bits_per_bin;", H+"daw_min_perfect_hash.h: auto const mask = ~( 1U << item );")
p("C279", "Hashes of numbers, ranges and text",
  "generic_hash gives the FNV-1a hash of the bytes of its argument, and different single bytes have different hashes.",
  "every width, number, range and text",
  "Ranges are unbounded and numbers have 64 bits.",
  H+"daw_generic_hash.h: append_hash( hash, bptr[n] );", H+"daw_generic_hash.h: static constexpr hash_value_t append_hash( hash_value_t current_hash,")
p("C280", "Descriptors of mapped files",
  "Every descriptor and mapping obtained by memory_mapped_file_t is held by one object, is given back once, and nothing is left when all objects are gone.",
  "every sequence of construction, open, move, move assignment and destruction, with every answer of the system",
  "Sequences are unbounded and the failures of the system cannot be provoked.",
  H+"daw_memory_mapped_file.h: munmap( p, d.size );", H+"daw_memory_mapped_file.h: m_fdata.emplace( );")
p("C281", "Content of mapped files",
  "open tells whether the file is mapped, and the elements from begin to end are the content of the file.",
  "every answer of the system, every content and element size",
  "Contents are unbounded.",
  H+"daw_memory_mapped_file.h: [[nodiscard]] constexpr const_pointer cend( ) const noexcept {", H+"daw_memory_mapped_file.h: constexpr explicit operator bool( ) const noexcept {")
p("C282", "Handles of mapped files on Windows",
  "Every handle and view obtained by memory_mapped_file_t is closed once, and none is left when all objects are gone.",
  "every sequence of construction, open, move, move assignment and destruction, with every answer of the system",
  "Sequences are unbounded and the failures of the system cannot be provoked.",
  H+"daw_memory_mapped_file.h: ::UnmapViewOfFile( static_cast<LPVOID>( tmp ) );", H+"daw_memory_mapped_file.h: ::CloseHandle( d.handle );")
p("C283", "State of mapped files on Windows",
  "operator bool and empty tell whether the file was opened.",
  "every answer of the system",
  "The failures of the system cannot be provoked.",
  H+"daw_memory_mapped_file.h: constexpr explicit operator bool( ) const noexcept {")
p("C284", "Units of times and rates",
  "format_seconds and to_bytes_per_second print a number and a unit that give the value, the number being at least one and below a thousand where there is such a unit.",
  "every time, number of bytes and precision",
  "The values are unbounded.",
  H+"daw_benchmark.h: auto val = static_cast<double>( t ) * 1'000'000'000'000'000.0;", H+"daw_benchmark.h: auto val = static_cast<double>( bytes ) / static_cast<double>( t );")
p("C285", "Statistics of benchmarks",
  "bench_n_test prints the smallest, the largest and the average time of the runs less the time of an empty run, with the average between the others, and gives the last value of the function.",
  "every number of runs, all durations and outcomes of the calls",
  "Numbers of runs and durations are unbounded, and times cannot be reproduced.",
  H+"daw_benchmark.h: return ( total_time - max_time ) / static_cast<double>( Runs - 1 );", H+"daw_benchmark.h: avg_time -= base_time;")

p("C286", "Format specifications of ranges and tuples",
  "Parsing the field of a range or tuple ends at the closing brace of the field and keeps the field for the elements.",
  "every format string, every specification",
  "Format strings are unbounded.",
  H+"daw_format_range.h: struct formatter<daw::fmt_range<R, CharT>, CharT> {", H+"daw_format_tuple.h: struct formatter<daw::fmt_tuple<T, CharT>, CharT> {")
p("C287", "Formatted ranges and tuples",
  "A range or tuple is written as its elements in the format of the field with the separator between every two of them, within the brackets; nested ones in the same way.",
  "every range, separator, brackets, element format and depth of nesting",
  "Ranges and depths are unbounded.",
  H+"daw_format_range.h: struct formatter<daw::fmt_range<R, CharT>, CharT> {", H+"daw_format_tuple.h: struct formatter<daw::fmt_tuple<T, CharT>, CharT> {")
p("C288", "Factories of objects set piece by piece",
  "A piecewise factory constructs its object from the last value set for each parameter, refuses what it cannot take, and reports parameters that were not set.",
  "every number of parameters and every sequence of calls of set",
  "Sequences are unbounded.",
  H+"daw_piecewise_factory.h: []( ... ) noexcept {} );", H+"daw_piecewise_factory.h: return get_value( *std::get<N>( tp ) );")
p("C289", "Character tests with values of different types",
  "is_a, in_range and the character classes of the parser compare the numbers they are given.",
  "every integer type and value, every list of values",
  "Types and values are too many.",
  H+"daw_parser_helper.h: [[nodiscard]] constexpr bool in_range( T value, Min minimum_value,", H+"daw_traits.h: struct max_sizeof<First, Second> {")
p("C290", "Matchers of the parser",
  "matcher finds the first place where the pattern stands in the text, and nothing if it does not stand there.",
  "every pattern and text",
  "Patterns and texts are unbounded.",
  H+"daw_parser_helper.h: [[nodiscard]] auto matcher( T ( &container )[N] ) {")
p("C291", "Comparisons of integers of different types",
  "cmp_equal, cmp_less and their kin of daw::cxmath compare the numbers, whatever their types.",
  "every pair of integer types and values",
  "64 bit values are too many.",
  H+"daw_cxmath.h: struct cmp_equal_t {", H+"daw_cxmath.h: struct cmp_less_t {")
p("C292", "Arithmetic on tuples",
  "The operators of tuple helpers give the sums, differences, products and quotients of the components.",
  "every tuple, all integer types and values",
  "Tuples are unbounded and values too many.",
  H+"daw_tuple_helper.h: apply_tuple_tuple( std::tuple<Ts...> const &op1,", H+"daw_tuple_helper.h: struct div_t {")
p("C293", "Least, greatest, text and components of tuples",
  "min and max of tuples are those of the components, a tuple is written as its components, get and apply_at use the component with the index.",
  "every tuple and index",
  "Tuples are unbounded.",
  H+"daw_tuple_helper.h: constexpr void apply_at( std::tuple<Args...> const &tp, size_t index,", H+"daw_tuple_helper.h: inline std::ostream &operator<<( std::ostream &os,")
p("C294", "Least and greatest of many",
  "daw::min and daw::max give the least and the greatest of their arguments; min_comp and max_comp with an order.",
  "every number of arguments, every integer type and value; every strict weak order",
  "Numbers of arguments are unbounded.",
  H+"impl/daw_math_impl.h: constexpr auto( max )( T const &val1, Ts const &...vs ) noexcept {", H+"impl/daw_math_impl.h: auto const tmp = (max)( vs... );")

p("C295", "Calling a function a number of times",
  "do_n calls the function exactly count times, do_n_arg calls it with 0, by_n, 2 by_n, ... below count in this order, at run time and when unrolled at compile time.",
  "every count, step, function and order of evaluation of operands",
  "Counts are unbounded, and the order of the operands of + is chosen by the compiler.",
  H+"daw_do_n.h: while( count-- > 0 ) {", H+"daw_do_n.h: (void)( ( func( Is * by_n ), 0 ) + ... );")
p("C296", "Bit sets from positions",
  "create_bitset_from_set_positions sets exactly the bits at the given positions, and positions out of range are refused.",
  "every size, every list of positions of every integer type",
  "Lists of positions are unbounded.",
  H+"daw_bitset_helper.h: create_bitset_from_set_positions( auto const &r ) {")
p("C297", "Literals for sizes",
  "A literal of size is the number times the power of its unit: 1000 for KB, MB, ... and 1024 for KiB, MiB, ...",
  "every unit and value",
  "Values are too many.",
  H+"daw_size_literals.h: operator\"\"_KB( unsigned long long val ) noexcept {", H+"daw_size_literals.h: operator\"\"_KiB( unsigned long long val ) noexcept {")
p("C298", "Comparison of arrays of any rank",
  "array_cmp compares arrays element by element in the order of storage and gives the first result that is not equal.",
  "every rank, extents, elements and comparison",
  "Ranks and extents are unbounded.",
  H+"algorithms/daw_array_compare.h: return array_cmp( lhs[n], rhs[n], cmp );")
p("C299", "Orderings as integers",
  "Converting an ordering to the integer or the enumeration keeps what it says, and different results stay different.",
  "every ordering and every representation of unordered",
  "The representation is chosen by the library.",
  H+"daw_ordering_to_integer.h: enum class partial_ordering {")
p("C300", "Reading a file",
  "read_file gives the content of the file, or nothing if it cannot be read, and leaves no file open.",
  "every content, size and character type, every failure",
  "Contents and failures are unbounded.",
  H+"daw_read_file.h: if( num_read != ( result.size( ) / sizeof( CharT ) ) ) {")
p("C301", "Owners of C files",
  "Every file given to a CFile is closed exactly once, when its owner is reset, closed or destroyed; moving hands it over.",
  "every sequence of operations on any number of owners",
  "Sequences are unbounded.",
  H+"deprecated/daw_cfile.h: reset( release( ) );")
p("C302", "Owners of container buffers",
  "A container_data destroys every element of its buffer once and deallocates the buffer once with its capacity, when it is reset, assigned or destroyed.",
  "every sequence of operations on any number of objects, sizes and capacities",
  "Sequences and sizes are unbounded.",
  H+"impl/daw_container_help_impl.h: while( count-- > 0 ) {", H+"impl/daw_container_help_impl.h: class container_data {")
p("C303", "Storage for one object",
  "An uninitialized_storage holds the object constructed in it until it is destructed, also in copies of the storage.",
  "every sequence of operations on any number of storages",
  "Sequences are unbounded.",
  H+"daw_uninitialized_storage.h: std::byte m_data[sizeof( value_type )];")

p("C304", "Moving iterators and measuring their distance",
  "advance, next and prev move an iterator by exactly n elements in the direction asked for, and distance counts the elements between two iterators.",
  "every iterator category, length, position and number",
  "Lengths and numbers are unbounded.",
  H+"cpp_17_iterator.h: while( ++n < 0 ) {", H+"cpp_17_iterator.h: distance( Iterator first, Iterator second ) noexcept(")
p("C305", "Ranges of integers",
  "An integer_range from f to l visits f, f + 1, ..., l - 1 in order, and nothing if l is not greater than f.",
  "every integer type and every two values",
  "Values are too many, and the loop is unbounded.",
  H+"iterator/daw_integer_iterator.h: constexpr integer_range( T f, T l ) noexcept")
p("C306", "Vectors of references",
  "to_reference_vector gives a vector with a reference to each element, and references compare as the elements.",
  "every sequence, every comparison",
  "Sequences are unbounded.",
  H+"daw_reference.h: result.push_back( daw::ref<value_type>( *first ) );")
p("C307", "Iterators around pointers",
  "Programs on RandomIterator, wrap_iter and prop_const_ptr do what they do on pointers, and what is reached through a const prop_const_ptr stays const.",
  "every sequence of operations on any number of iterators",
  "Sequences are unbounded.",
  H+"iterator/daw_random_iterator.h: struct RandomIterator {", H+"wrap_iter.h: class wrap_iter {", H+"daw_prop_const_ptr.h: struct prop_const_ptr {")
p("C308", "Filling storage with numbers",
  "iota_op writes first, first + step, ... into the storage and returns how many elements it wrote.",
  "every integer type, first value, step, size and comparison",
  "Sizes and values are too many.",
  H+"vector_algorithm.h: auto const last = m_first + static_cast<T>( sz ) * m_step;")
p("C309", "Numbers from text",
  "from_string gives the number a text represents and nothing for texts that are no number or out of range.",
  "every integer type, value and text after the number",
  "Values and texts are unbounded.",
  H+"daw_from_string.h: std::from_chars_result fs_r = std::from_chars(")
p("C310", "Views of functions",
  "A function_view and its copies call the function they were made from as long as it lives.",
  "every sequence of making, copying, assigning and destroying views and callables",
  "Sequences are unbounded, and calls through views of views need not end.",
  H+"daw_function_view.h: function_view_table_storage<Result, Args...>::make( f ) ) {}")
p("C311", "Variants seen through a base class",
  "operator* and operator-> of a poly_var give access to the object stored.",
  "every type, value and sequence of assignments",
  "Sequences are unbounded.",
  H+"daw_poly_var.h: return *static_cast<Base const *>( &value );")
p("C312", "Bound arguments",
  "bind_args_at calls the function with the first N arguments, the bound ones and the others in order, bind_front with the bound ones first; arguments are forwarded.",
  "every number of arguments, position, ways of passing and order of evaluation",
  "Numbers of arguments are unbounded, and the order is chosen by the compiler.",
  H+"daw_bind_args_at.h: struct bind_args_at_fn {", H+"daw_bind_front.h: class bind_front {")
p("C313", "Packs of forwarded arguments",
  "apply calls the function with the arguments of the pack, in order and with their value categories.",
  "every number and kind of arguments",
  "Packs are unbounded.",
  H+"daw_fwd_pack_apply.h: : base_type{ { &args }... } {}")
p("C314", "Named parameters",
  "get_opt gives the value of the option with the name, or the default; the order of options does not matter, and repeated options are refused.",
  "every list of options and every order",
  "Lists of options are unbounded.",
  H+"daw_named_params.h: inline constexpr bool less_than_one_match_v =")

p("C315", "Concatenating and applying tuple2",
  "tuple2_cat of any tuples is the tuple of all their elements in order, and apply calls a function with all elements in order.",
  "every number of tuples, sizes, kinds of elements and value categories",
  "Tuples are types, each test is one instantiation; the location arithmetic depends on unbounded sizes.",
  H+"daw_tuple2.h: encode_location( std::size_t outter, std::size_t inner ) {", H+"daw_tuple2.h: constexpr tuple2<> tuple2_cat( Tuple &&tp ) {")
p("C316", "Applying and comparing tuples",
  "apply passes the elements of a tuple in order and with the value category of the tuple; tuples compare element by element.",
  "every tuple, element kind, value category and comparison of elements, also ones that throw",
  "Tuples are types, and the comparisons of elements are arbitrary.",
  H+"daw_tuple.h: return tp.template get<N>( );")
p("C317", "Pipelines run their stages in order",
  "A pipeline calls each stage with what the one before returned, pipelines nest, and literals are passed as their text.",
  "every number of stages, their functions and exceptions, and every literal",
  "Pipelines are unbounded in length and stages arbitrary.",
  H+"pipelines/pipeline.h: return daw::string_view( s, N - 1 );")
p("C318", "Stages that visit, test and sample",
  "ForEach and ForEachIndexed visit every element in order (with its index), IsOneOf tests membership, a maybe view has at most one element and Sample keeps a subsequence.",
  "every range, function with state, random generator and sample size",
  "Ranges and generators are unbounded.",
  H+"pipelines/foreach.h: (void)std::invoke( fn, r[n] );", H+"pipelines/sample.h: daw_ensure( m_number_to_keep < m_sample_size );")
p("C319", "Picking elements of rows in pipelines",
  "Elements<Is...> picks the elements with these indices of each row, at any place of a pipeline.",
  "every list of rows, indices and stages",
  "Pipelines are unbounded, and reading what is gone may seem to work.",
  H+"pipelines/elements.h: explicit constexpr elements_view( U &&r )")
p("C320", "Clauses of owning ranges",
  "where, erase, unique, stable_sort and stable_partition of a range, and << with such clauses, leave the elements asked for in order.",
  "every container, condition and program of clauses",
  "Containers and programs are unbounded.",
  H+"deprecated/daw_range_collection.h: return make_range_reference( *this ).where( predicate );", H+"deprecated/daw_range_operators.h: static auto clause_name##_helper( Container const &container,")
p("C321", "Pointers that own nothing",
  "An observer_ptr behaves as the pointer it was given last, reading null ends the program, the comparisons are a total order, and the monadic functions call for the pointers they should.",
  "every program of operations, memory, pointers and functions",
  "Programs and functions are unbounded.",
  H+"daw_observer_ptr.h: constexpr std::strong_ordering operator<=>( pointer other ) const {", H+"daw_monadic_pointer_ops.h: return daw::invoke( DAW_FWD( f ), DAW_FWD( p ) );")
p("C322", "Writing integers as text",
  "to_os_string_int writes the sign and decimal digits of every integer; num_digits, pow10 and whole_log10 are what their names say.",
  "every value of every integer type of 8 to 64 bits",
  "There are too many values, and the calls do not compile.",
  H+"impl/daw_int_to_iterator.h: constexpr OutputIterator to_os_string_int( OutputIterator it,", H+"impl/daw_int_to_iterator.h: not std::is_integral_v<daw::remove_cvref_t<Integer>>,")

p("C323", "Compensated summation",
  "SumKahanBabushkaNeumaier adds the exact rounding error of every addition to its correction, so that the result is the floating point number nearest to the exact sum if the errors can be added exactly; a projection is applied to each element.",
  "every precision, rounding to nearest with any treatment of ties, and every list of numbers",
  "Rounding depends on the numbers, lists are unbounded, and a test with a few numbers cannot show that no error is lost.",
  H+"pipelines/numeric.h: c += ( sum - t ) + input;", H+"pipelines/numeric.h: return std::invoke( cur_v, m_projection );")
p("C324", "Random access of zip iterators",
  "it + n moves every iterator of a zip iterator by n, is n increments, it[n] is *( it + n ), and end - begin is the number of rows.",
  "every number and length of ranges and every distance",
  "Ranges are unbounded in number and length.",
  H+"pipelines/zip.h: constexpr zip_iterator &operator+=( difference_type n )", H+"pipelines/zip.h: return get_at( n, zip_indices( ) );")
p("C325", "Adding ranges to a zip",
  "ZipMore( rs... ) makes a zip of the ranges of the zip it is given, or of the range, and rs, as long as the shortest of all.",
  "every number and length of ranges on both sides",
  "Ranges are unbounded in number, and reading what is gone may seem to work.",
  H+"pipelines/zip.h: [[nodiscard]] constexpr auto ZipMore( Ranges &&...rs ) {")
p("C326", "Picking columns in pipelines",
  "Swizzle<Is...> of a range of tuples has the columns Is of each row, composes, and repeats values that are no tuples.",
  "every list of rows and indices",
  "Rows and indices are unbounded.",
  H+"pipelines/swizzle.h: struct Swizzle_t {")
p("C327", "Extrema in pipelines",
  "Max, Min and MinMax give the first greatest and the first least element by any order and projection.",
  "every list, strict weak order and projection",
  "Lists and orders are unbounded.",
  H+"pipelines/algorithm.h: struct Max_t {", H+"pipelines/algorithm.h: struct MinMax_t {")
p("C328", "Clamping in pipelines",
  "Clamp( lo, hi ) replaces every element by the nearest value between the bounds, keeps the number of elements and is idempotent, for bounds of any convertible type.",
  "every list, strict weak order and bounds",
  "Lists and orders are unbounded.",
  H+"pipelines/map.h: return std::clamp( v, l, h, c );", H+"pipelines/map.h: [[nodiscard]] constexpr auto Clamp( T &&lo, std::type_identity_t<T> hi,")
p("C329", "Arithmetic of iterators of Map and Elements",
  "it + n, it - n, it += n and it -= n of the iterators of Map, Element and Elements move by n.",
  "every range, position and distance",
  "Ranges are unbounded, and templates that are not used are not compiled by tests.",
  H+"pipelines/map.h: operator+( difference_type n ) const noexcept", H+"pipelines/elements.h: operator-( difference_type n ) const noexcept")
p("C330", "Ownership of C strings",
  "A CString that owns its array deletes it exactly once, whatever is copied, moved and assigned.",
  "every program of constructions, copies, moves, assignments and destructions",
  "Programs are unbounded, and a second delete may seem to work.",
  H+"deprecated/daw_cstring.h: [[deprecated]] CString( CString && ) = default;", H+"deprecated/daw_cstring.h: m_data = tmp.release( );")
p("C331", "Comparing C strings",
  "CStrings compare as their texts in lexicographic order.",
  "every pair of texts",
  "Texts are unbounded.",
  H+"deprecated/daw_cstring.h: return strcmp( m_data, rhs.m_data );")
p("C332", "Numbers of bytes",
  "value_from_chars makes of 1, 2, 4 or 8 bytes the number with these digits, as_char_array gives the bytes of a value, and to_array_of applies the first to the second.",
  "every byte and every number",
  "There are 2^64 numbers, and templates that are not used are not compiled by tests.",
  H+"daw_utility.h: result |= static_cast<uint64_t>( static_cast<uint64_t>( *ptr ) << 48U );", H+"daw_utility.h: static_assert( std::is_integral_v<std::decay<To>>,")
p("C333", "Casts that keep the value",
  "cast<T>( v ) compiles only if the sign of the types is the same and T is not smaller, so it keeps every value.",
  "every pair of integer types and every value",
  "Pairs of types and values are unbounded; a test of what does not compile needs a program for each.",
  H+"daw_utility.h: ( std::is_arithmetic_v<U> and std::is_arithmetic_v<T> ) ) {")
p("C334", "Ranges of two iterators that shrink",
  "remove_prefix and remove_suffix of what make_range returns leave the elements in between.",
  "every sequence and every program of removals",
  "Sequences and programs are unbounded.",
  H+"daw_utility.h: constexpr void remove_prefix( std::size_t count ) {")
p("C335", "Tests against several values",
  "value_is( v ).one_of and none_of are membership and its opposite, and or_all has the bits of all its arguments.",
  "every value, list of values and comparison",
  "Argument lists are unbounded.",
  H+"daw_utility.h: return ( ( *m_value == args ) or ... );", H+"daw_utility.h: constexpr value_is_utility_details( T const &v )")
p("C336", "Seeds of texts",
  "generate_seed hashes a text with the given seed, texts one after the other hash like their concatenation, and different texts have different seeds.",
  "every text and seed",
  "Texts are unbounded and the hash is that of a program at compile time.",
  H+"daw_random.h: size_t result = seed == 0 ? 5381U : seed;")
p("C337", "Seeds of RandomInteger",
  "Different seeds make different generators.",
  "every integer type and seed",
  "There are 2^64 seeds.",
  H+"daw_random.h: explicit constexpr RandomInteger( R seed )")

p("C338", "Arithmetic of unsigned enumerations of any two widths",
  "An arithmetic or bitwise operator with two of UInt8 to UInt64, or one of them and an integer, compiles, and its result is exact modulo two to the width of the wider operand.",
  "every operator, every pair of types of operands and every value",
  "There are more than a thousand combinations of operator and types, and values are unbounded; what does not compile is not tested.",
  H+"daw_uint_types.h: constexpr UInt64 operator+( UInt64 lhs, UInt64 rhs ) noexcept {")
p("C339", "Comparisons of unsigned enumerations with integers",
  "A comparison of UInt8 to UInt64 with an integer or with each other compiles and compares the numbers.",
  "every comparison, every pair of types of operands and every value",
  "Values are unbounded, and what does not compile is not tested.",
  H+"daw_uint_types.h: constexpr bool operator==( UInt64 lhs, std::uint64_t rhs ) noexcept {")
p("C340", "Shifts and unary operators of unsigned enumerations",
  "Shifts multiply or divide by powers of two modulo the width for every count of every type, ++ and -- undo each other, and ~ turns every bit.",
  "every width, value and count",
  "Values are unbounded, and what does not compile is not tested.",
  H+"daw_uint_types.h: constexpr UInt64 operator<<( UInt64 b, std::uint64_t shift ) noexcept {")
p("C341", "Iterators of the old hash table",
  "A loop from begin to end of hash_table visits every stored item once, in the order of the cells; -- undoes ++; at_end and valid tell the end.",
  "every table",
  "Tables are unbounded and the items lie at random places.",
  H+"deprecated/daw_hash_table.h: bool at_end( ) const {")
p("C342", "Copies of the old hash table",
  "A copy of a hash_table finds what the original finds, and a copied cell equals the original.",
  "every table and hash",
  "Tables are unbounded.",
  H+"deprecated/daw_hash_table.h: hash_table_item( hash_table_item const &other )")
p("C343", "Comparisons of bounded strings with other texts",
  "Every comparison of a basic_bounded_string with a view, a std::string, a pointer or an array, on either side, is that of the texts.",
  "every string, text and operator",
  "Texts are unbounded and each of 48 functions is written by hand.",
  H+"deprecated/daw_bounded_string.h: operator==( CharT const ( &lhs )[N],")
p("C344", "Concatenation of bounded strings with pointers and arrays",
  "str + text and text + str are the concatenation if it fits, and throw otherwise.",
  "every string and text",
  "Texts are unbounded, and what does not compile is not tested.",
  H+"deprecated/daw_bounded_string.h: auto operator+( CharT ( &lhs )[N],")

p("C345", "Raw bits of a float without bit casts",
  "The portable computation of the bits of a float gives back the 32 bits of every float.",
  "every float",
  "There are four billion floats, and the branch is compiled only where there is no bit cast.",
  H+"daw_cxmath.h: return { 0, f }; // also matches -0.0f and gives wrong result")
p("C346", "Exponent of a floating point number without bit casts",
  "intxp gives the floor of the binary logarithm of the magnitude, and the portable version agrees with the one by bit cast.",
  "every float and double",
  "There are 2^64 doubles, and a build has only one of the two versions.",
  H+"daw_cxmath.h: [[nodiscard]] constexpr std::optional<std::int32_t> intxp( Real f ) noexcept {")
p("C347", "Removal of a value given by reference",
  "remove and erase_remove leave exactly the elements that differ from the value passed, in order, also if the value is an element of the range.",
  "every sequence, range and value",
  "Sequences are unbounded, and the place of the element referred to matters.",
  H+"daw_algorithm.h: constexpr ForwardIterator remove( ForwardIterator first, ForwardIterator last,", H+"daw_container_algorithm.h: erase_remove( Container &container, Value const &value ) noexcept(")
p("C348", "States of an expectation without value",
  "An expected_t<void> is empty, a value or an exception, get tells which, and it reports success exactly if the code did not throw.",
  "every sequence of operations",
  "Sequences of operations are unbounded, and exceptions may be null.",
  H+"daw_expected.h: struct expected_t<void> {")
p("C349", "Comparison of value_ptr",
  "The comparisons of value_ptr order null first and then by the values, equality is equality of the values, and equal pointers have equal hashes.",
  "every order of values and every three pointers",
  "Orders and values are unbounded.",
  H+"daw_value_ptr.h: constexpr int compare( value_ptr<U> const &rhs ) const noexcept {")
p("C350", "Backward iteration of bounded_hash_set",
  "A loop from end to begin with -- visits every entry once, and -- undoes ++.",
  "every table",
  "Tables are unbounded and the entries lie at random places.",
  H+"deprecated/daw_bounded_hash_set.h: while( !m_position->has_value and m_position > m_first ) {")
p("C351", "Values from streams and calls with parsed arguments",
  "values_from_stream gives the values of the parts of what was not yet read from the stream; apply_string calls the function with the values of the parts.",
  "every stream, position, delimiter and list of converters",
  "Streams and texts are unbounded, and the two overloads are chosen by the type of the stream.",
  H+"daw_parse_to.h: decltype( auto ) values_from_stream( Stream &&s, Splitter &&splitter ) {")

p("C352", "Checks of a test program",
  "expecting comes back exactly if the values are equal, and expecting_exception exactly if the exception asked for is thrown and accepted; every other outcome is reported.",
  "every two integers of every two types, arrays, exceptions, predicates that may throw, with and without exceptions",
  "A test program cannot check its own checks for all values and builds.",
  H+"daw_benchmark.h: expecting_exception( Expression &&expression,")
p("C353", "Runs that are timed and checked",
  "bench_n_test_json_val and bench_n_test_mbs2 give one duration for each run, none negative, if every result is valid, and otherwise report the first failure and run no more.",
  "every number of runs, function, check and clock",
  "Numbers of runs and readings of the clock are unbounded.",
  H+"daw_benchmark.h: bench_n_test_json( Function &&func, Args &&...args ) {", H+"daw_benchmark.h: bench_n_test_json_val( Validator &&validator, Function &&func,")
p("C354", "Raw buffer for a number of objects",
  "A buffer that get_buffer gives has room for the number of objects asked for, each aligned.",
  "every type, alignment, count and memory",
  "The counts for which the product wraps cannot be tried in general.",
  H+"daw_utility.h: inline T *get_buffer( std::size_t count ) noexcept {")
p("C355", "Search of a range with a predicate",
  "contains( value, predicate ) of a range tells whether the predicate holds of the value and some element.",
  "every range, value and predicate",
  "Ranges and predicates are unbounded.",
  H+"deprecated/daw_range_type.h: auto predicate2 = [&value, &predicate]( Value const &val ) {", H+"deprecated/daw_range_algorithm.h: auto pred2 = [&value, &pred]( Value const &val ) {")
p("C356", "Text written to a stream of any width",
  "A text written to a stream is filled up to the width of the stream, and not filled if the width is negative.",
  "every stream, text and width, negative ones included",
  "Widths and texts are unbounded; a test with a negative width would not end.",
  H+"daw_string_view.h: auto const w = static_cast<std::size_t>( os.width( ) );", H+"deprecated/daw_bounded_string.h: auto const w = static_cast<ptrdiff_t>( os.width( ) );")

p("C357", "Splitter of format texts",
  "Fed with the characters of a format text, brace_splitter_t tells the fields in braces apart, counts their characters, takes an escaped brace for text and reports braces that do not match.",
  "every text",
  "Texts are unbounded, and the state is carried from one character to the next.",
  H+"format.h: constexpr bool operator( )( char c ) {", H+"format.h: constexpr void switch_state( states_t s ) noexcept {")
p("C358", "Loops over circular iterators",
  "The loop from a circular iterator to its end visits each element once; differences count the increments between iterators, and an iterator outside of a container that became shorter comes back by an increment.",
  "every container, iterator and change of the container",
  "Loops without end cannot be tested, and positions and sizes are unbounded.",
  H+"iterator/daw_circular_iterator.h: constexpr circular_iterator end( ) noexcept {")
p("C359", "Allocators of the old vector",
  "Memory that MMapAlloc and MallocAlloc give has room for the objects asked for, a failure is reported, and all of it is given back.",
  "every type, count, state of the memory",
  "Exhausted memory and counts near 2^64 cannot be tried, and the lost pages show only in long runs.",
  H+"deprecated/daw_vector.h: inline std::size_t round_to_page_size( std::size_t sz ) {", H+"deprecated/daw_vector.h: ::munmap( ptr, vector_details::round_to_page_size( sz ) );")
p("C360", "Limits of the integer types of the library",
  "min, lowest, max, digits and digits10 of the integers of 128 bits and of UInt8 to UInt64 are those of the type.",
  "every value of each type",
  "There are 2^128 values.",
  H+"impl/daw_gcc_clang_int128.h: struct numeric_limits<__int128> {", H+"daw_uint_types.h: struct numeric_limits<daw::UInt64> {")
p("C361", "Bounded vector of capacity 0",
  "The bounded vector of capacity 0, a class of its own, answers as the general one would with that capacity.",
  "every sequence of calls",
  "Sequences of calls are unbounded, and the two classes are never compared.",
  H+"daw_bounded_vector.h: struct bounded_vector_t<T, 0> {")

p("C362", "Compound assignments of the unsigned enumerations",
  "a op= b compiles for UInt8 to UInt64 with the integers and enumerations that are not wider, whichever the operator, and leaves in a the exact result modulo 2^w, which is what a op b gives; the integers on the left are treated alike by all operators.",
  "every operator, pair of operand types and pair of values",
  "There are 2^128 pairs of values and some 150 overloads.",
  H+"daw_uint_types.h: constexpr UInt64 &operator<<=( UInt64 &b, std::uint64_t shift ) noexcept {", H+"daw_uint_types.h: constexpr UInt64 &operator+=( UInt64 &lhs, UInt64 rhs ) noexcept {", H+"daw_uint_types.h: constexpr UInt8 &operator/=( UInt8 &lhs, std::uint64_t rhs ) noexcept {")

p("C363", "Zero terminated texts of string views",
  "get_c_str of a string view gives a zero terminated text of exactly the characters of the view, whether they are copied or not, and its size and string agree with it.",
  "every memory, view and history of the view",
  "Views and memories are unbounded, and reads past the end do not show in tests.",
  H+"daw_string_view.h: DAW_CPP20_CX_ALLOC c_str_proxy<CharT> get_c_str( ) const {", H+"daw_string_view.h: class c_str_proxy {")
p("C364", "Checks of all elements and loops over subsets",
  "assert_all_false and assert_all_true throw just if some element fails the check, calling the predicate once for each element up to that one; for_each_subset calls its function with the indexes from first to last in order.",
  "every predicate, function, container and interval",
  "Containers and predicates are unbounded.",
  H+"daw_exception.h: constexpr void assert_all_false( Container &&container,", H+"daw_container_algorithm.h: constexpr void for_each_subset(")
p("C365", "Errors noticed by the tracked allocator",
  "With tracked_allocator and safe_pointer, programs that give memory back twice, use it afterwards or outside of its bounds, or give it back wrongly are stopped before anything undefined happens.",
  "every program of allocations, copies, moves, accesses and deallocations",
  "Undefined behaviour need not show in tests, and programs are unbounded.",
  H+"daw_tracked_allocator.h: constexpr void deallocate( pointer &ptr, size_type n ) noexcept {", H+"daw_safe_pointer.h: constexpr pointer destroy( ) noexcept {")

p("C366", "Copying and moving ranges in constant expressions",
  "cxpr_copy and cxpr_move give the output the elements of the input in their order and return its end, also for ranges that overlap as long as the output does not begin inside of the input.",
  "every block, both ranges in it and every number of elements",
  "Blocks and the ways ranges overlap are unbounded, and writes outside of a block do not show in tests.",
  H+"daw_utility.h: constexpr OutputIterator cxpr_copy( Iterator1 first_in,", H+"daw_utility.h: constexpr OutputIterator cxpr_move( Iterator1 first_in,")
p("C367", "Values assigned through output iterators",
  "Every value assigned through a back inserter, an end inserter or an inserter arrives in the container the inserter was made for, in the order of the assignments and whichever copy is used; the function of a function iterator is called with the values assigned to this iterator.",
  "every program that makes, copies, assigns and increments such iterators and assigns values through them",
  "Programs and containers are unbounded.",
  H+"iterator/daw_back_inserter.h: m_container->push_back( DAW_FWD( val ) );", H+"iterator/daw_end_inserter.h: m_container->insert( std::end( *m_container ), DAW_FWD( val ) );", H+"iterator/daw_inserter.h: m_container->insert( DAW_FWD( val ) );", H+"iterator/daw_function_iterator.h: (void)m_function( DAW_FWD( val ) );")

p("C368", "RunIfValid keeps the object while the function runs",
  "RunIfValid runs its function just if the object is still there, keeps the object until the function has ended and says which of both happened, whatever other calls and owners do at the same time; the object is destroyed exactly once.",
  "every number of calls and every schedule of calls, copies and releases of owners",
  "Schedules are unbounded and uses of destroyed objects need not show in tests.",
  H+"daw_utility.h: if( auto s_ptr = m_link.lock( ) ) {", H+"daw_utility.h: struct RunIfValid {")
p("C369", "Visiting a value as one of another type",
  "visit_as gives the visitor the value with the same bytes and afterwards leaves the value with the bytes the visitor left; if the visitor throws the value is not changed, and if it changes nothing the value stays as it was.",
  "all trivially copyable types of one size, visitors and values",
  "Types, visitors and values are unbounded.",
  H+"daw_visit_as.h: value = daw::bit_cast<OrigT>( tmp );", H+"daw_bit_cast.h: return *static_cast<To *>( std::memcpy( &result, &from, sizeof( To ) ) );")

p("C370", "Moved split buffers keep their elements and every block is released once by its own allocator",
  "Constructing split buffers from others by a move, with or without an allocator of their own, assigning them by a move, exchanging and destroying them gives each buffer the elements it is to have; each block that is allocated belongs to exactly one buffer, is released with the allocator and the size it was allocated with, and none is left when all buffers are destroyed.",
  "All sequences of constructions, moves, exchanges and destructions, all allocators and traits of propagation, all elements",
  "Tests move buffers of the stateless default allocator; allocators that differ, buffers without elements and assignments in any order are not reached.",
  H+"split_buffer.h: explicit constexpr split_buffer( split_buffer &&c, alloc_rr const &a )", H+"split_buffer.h: constexpr split_buffer &operator=( split_buffer &&c ) //")

p("C371", "Copying the sign of an integer",
  "copy_sign of integers gives the number with the magnitude of the first and the sign of the second, for every number of every type, and signbit tells whether a number is negative.",
  "all integer types and numbers",
  "Tests copy signs of a few floating point literals.",
  H+"daw_cxmath.h: [[nodiscard]] constexpr Number copy_sign( Number x, Number2 s ) noexcept {", H+"daw_cxmath.h: [[nodiscard]] constexpr bool signbit( Number n ) noexcept {")

p("C372", "A view put together with a text gives the one text after the other",
  "operator+ of the first string view with a string, a pointer to zero terminated characters or an array of characters, on either side, returns the text of the left operand followed by that of the right one; a null pointer is an empty text.",
  "All views, all strings, all memory contents behind pointers and all arrays, on both sides.",
  "Tests use literals, which are taken by the overload for pointers; buffers that are larger than their text or full need other inputs, and the claim ranges over all contents.",
  H+"deprecated/daw_string_view1.h: operator+( CharT ( &lhs )[N],", H+"deprecated/daw_string_view1.h: std::size_t const rhs_len = details::strlen<std::size_t>( rhs );")

p("C373", "A node handed out stays that node while the graph changes",
  "The value read through a graph_node_t is the one last assigned to the node it was got for, at first that which the node had, whatever is done to the graphs afterwards; once the node was removed the read ends the program, also after nodes were added; nodes of one graph compare in the order in which they were added.",
  "All programs of additions, removals, edge changes and assignments through handles on any number of graphs, all handles got at any time.",
  "A handle is an id looked up again at each use; whether an id can come to name another node depends on all additions and removals in between, of which tests try a few.",
  H+"daw_graph.h: return m_graph->get_raw_node( m_node_id ).value( );", H+"daw_graph.h: auto const id = cur_id;")

p("C374", "A loop over reverse( container ) meets each element once from the back and can change it",
  "A range-based for over reverse( container ) gets every element exactly once, from the last to the first; what is assigned to the loop variable is in the container afterwards at that element's place; an exception of the body leaves the loop at the first element from the back that throws, and those before it are not reached.",
  "All containers of any length, all values assigned, also ones depending on every element met before.",
  "A reverse iterator refers to the element before the position it holds; whether first and last elements are met for every length, and writes land where they were read, is checked by tests for a few lengths only.",
  H+"daw_algorithm.h: return reverse_iterator( std::end( fwd ) );", H+"daw_algorithm.h: return algorithm_details::reverse_impl( fwd, int( 0 ) );")

def main():
    out = os.path.join(os.path.dirname(os.path.abspath(__file__)), "..", "properties.jsonl")
    ids = [x["id"] for x in P]
    assert len(ids) == len(set(ids))
    with open(out, "w") as f:
        for x in P: f.write(json.dumps(x) + "\n")
    for x in P:
        for a in x["anchors"]:
            fn = "/repo/" + a.split(":")[0]
            assert os.path.exists(fn), fn
if __name__ == "__main__":
    main()
