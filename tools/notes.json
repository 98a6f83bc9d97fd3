{
 "notes": {
  "C03": "Correct for elements that are not integers, and for non-negative integers in ascending order; negative values and descending comparisons are mishandled by the counting sort (C03_negative_violated, C03_descending_violated).",
  "C07": "All capacity claims are proved; insert( pos, n, x ) with size()+n wrapping around 2^64 is not rejected (C07_insert_wraps_violated).",
  "C08": "Undefined behaviour when the operation reports more than the old size and less than n; leak when n is below the old size (the _violated theorems). The partial theorem covers the remaining cases.",
  "C09": "block_append_from never returns for a non-empty source; only the empty source works.",
  "C10": "Full history refinement for trivial types, except reserve below the size; for class types every push that slides elements is undefined behaviour; reserve never reserves.",
  "C11": "Every history stays inside the original memory (C11_history_in_memory, C11_within); it is free of undefined behaviour when no unchecked operation is called outside its precondition; pop_front()/pop_back() on an empty view are undefined behaviour (C11_pop_empty_violated).",
  "C13": "rfind in full; find is wrong for a position beyond the end (C13_find_beyond_violated), C13_find_partial covers the rest.",
  "C14": "Position zero in full; otherwise the run time path returns a result relative to pos and the constexpr path starts 2*pos characters in (the _violated theorems); the shifted run time result is proved for all positions.",
  "C15": "The forward searches in full; the backward searches start or stop at the wrong place (the _violated theorems), the partial theorems give the exact range for which they are right.",
  "C16": "All until variants that are correct are proved in full; the others have a _violated witness and a _partial theorem.",
  "C18": "contains( ptr, pos, count ) is wrong (C18_contains_count_violated); all others in full.",
  "C19": "substr_unsafe keeps the flag although the view no longer ends at the terminator (C19_zero_terminated_violated); all histories without it are proved.",
  "C20": "Both searches fail in the case of the _violated witnesses; the partial theorems cover the rest.",
  "C21": "The hash of views, strings, pieces and integers equals FNV-1a of the bytes. Violated for operator()(char const*), which sign-extends characters above 127, and for arrays, whose final NUL is hashed.",
  "C23": "binary_search of an empty range aborts instead of reporting absence (C23_empty_range_aborts); the partial theorem covers all non-empty ranges.",
  "C26": "equal and lexicographical_compare are proved; not_equal is not the negation of equal in the code (C26_not_equal_violated); C26_not_equal_partial says what it decides.",
  "C29": "is_sorted and is_sorted_until in full; find_unsorted for non-empty ranges, the empty range is undefined behaviour.",
  "C30": "The code drops the text after the last delimiter (C30_split_violated); the rest of the round trip is proved.",
  "C31": "Counts above PTRDIFF_MAX wrap to negative in the code (C31_begin_at_violated, C31_safe_next_violated, C31_begin_at_ub); all others are proved.",
  "C32": "all_equal in full; are_equal compares only disjoint pairs in the code (violated from three arguments on), C32_are_equal_pairs says what is decided.",
  "C33": "For a positive number of parts in full; zero parts is a division by zero.",
  "C35": "Pushing and popping at the front are full. pop_back keeps its guarantee only while the value fits in the low bits of the result and fewer than 31 bits are asked for; push of all bits of the buffer is violated.",
  "C36": "Groups of bits of streams of 8 and 16 bit values are read in order; for 32 and 64 bit values reading is undefined (a shift by the whole width), and skip_bits is violated. The header does not compile as it is because bit_count_t is not declared; the model reads it as size_t.",
  "C37": "set and set-many in full; unset is wrong in the code (C37_unset_violated).",
  "C38": "Bitwise operators, comparison and the string constructor are full. Single bit access, construction from an integer of 64 or more bits, complement and larger shifts are violated.",
  "C39": "Byte swaps and to_big/little_endian are full. network_to_host_endian changes nothing on little endian machines and to_native_endian changes nothing for the other byte order.",
  "C41": "Computed results are right whenever they are natural numbers the type can hold. Quotients and remainders of zero are not reported, and unsigned differences below zero wrap and are not reported.",
  "C42": "pow_n is exact, with its number of multiplications, wherever the power fits, and wraps for unsigned types as wide as int. It overflows int for uint16_t, the table of pow10 ends before 10^19, pow with a negative exponent and an unsigned type wraps, math::pow(b,e) is b to the power 2^e.",
  "C43": "Classification, accessors, setting of significand and sign are full. set_exponent to 0 returns one, is_zero_impl is true for one, float_parts_t::is_nan knows one pattern.",
  "C44": "count_leading_zeroes and the 64 bit portable version are full. The portable 32 bit and 128 bit versions and count_trailing_zeros of 0x80000000 fail.",
  "C45": "Histories of allowed calls refine a list, by invariant. push_back on a full vector, pop_front, the position returned by erase, erasing everything, has_room, swap with a shorter vector and the range constructor fail (violated theorems).",
  "C46": "Histories of fewer than 2^64-1 calls refine a FIFO queue. emplace_back moves the wrong counter, a release build overwrites, and the counters wrap wrongly for capacities that do not divide 2^64.",
  "C47": "The kept values are the best of default values and seen values, full; that they are the best of the seen values needs a default that is worse than all of them.",
  "C48": "Moves are full except when position plus offset is a negative multiple of the size, where the position is one past the end.",
  "C49": "History of insert/lookup without erase on a map with room is full; erase leaves chains broken, a full map runs past its array and find of an absent key is not end (violated).",
  "C50": "Full for capacities from one on; capacity zero divides by zero (violated). erase and size cannot be instantiated.",
  "C51": "Lookup is proved for every table that is built; building succeeds exactly if hashes differ modulo the table size, not whenever they are distinct, and the default key can be reported although absent (violated).",
  "C75": "Undefined behaviour whenever the push reallocates; correct when there is room on that side.",
  "C81": "what remains in the range is as after remove_if; func is called with kept elements instead of the removed ones (violated)",
  "C82": "equal proved; not_equal with one end iterator tests that no place is equal (violated), same defect as C26",
  "C85": "One needle is proved; with several, a needle that agrees in its first characters makes the next one be compared from where it stopped (C85_find_first_match_violated).",
  "C86": "pop_front( count ) and pop_back( count ) in full; pop_front_unsafe( count ) is wrong (C86_pop_front_unsafe_violated); pop_front() and pop_back() need a non-empty view.",
  "C89": "one_count and the hexadecimal text are full; zero_count counts bits beyond the width and the binary text is written to the wrong place.",
  "C90": "round_up_pow2 wraps to 0 above the highest power of two; is_even is is_odd; popcount of narrow negative numbers counts sign bits.",
  "C91": "abs of the least value overflows; factorial is partial since it leaves the range of the type.",
  "C52": "insert and operator[] answer by key as long as no two keys used hash to the same slot; with a collision a key is given the value of another, a full table of other keys and find of an absent key go wrong. Members of the header that cannot be instantiated are listed in DESIGN.md.",
  "C53": "Proved for every history with the debug checks on, up to id exhaustion at 2^64-1 where add_node aborts.",
  "C54": "Proved for every consistent graph, every iteration order and every permutation done by sorting; exactly the nodes no cycle leads to are visited.",
  "C55": "Both walks end and visit exactly the reachable nodes; bfs is nearest first, dfs deepens. Each node once only on trees: bfs makes 2^L-1 visits on some graphs of 2L nodes, dfs at most one per edge.",
  "C56": "The comparison is not used, so nothing is minimal. With nodes reached from several roots an earlier root can lose nodes.",
  "C92": "operator== of the node proxies holds as soon as graph or id agree.",
  "C93": "`not comp` is reflexive, so the order of the children is never a strict weak order.",
  "C94": "begin of the reverse range is reverse_iterator(first): its first dereference leaves the vector.",
  "C57": "reset (and so assignment and destruction) of a handle that shares its object leaves the handle pointing at the object after giving up its count (C57_reset_violated); assigning an empty handle over a shared one keeps the old pointer (C57_assign_empty_violated). C57_history_partial proves the property for every history that avoids those two steps.",
  "C58": "Waiting for the longest representable duration overflows the end time (C58_longest_violated). C58_wait_partial and C58_value_partial assume that the end time is representable and the clock monotone; atomic_wait_if is proved without assumptions.",
  "C95": "A satisfying value read by the first loop is read again and can be forgotten (C95_forgotten_violated); C95_prompt_partial proves that no other value is.",
  "C59": "C59_siphash_partial proves the code equal to the published SipHash-2-4 definition for keys and messages whose bytes are all below 0x80 (little endian host). C59_sign_violated: bytes of 0x80 and above are sign extended, so the result differs from SipHash; C59_keys_collide_violated: different keys give the same hash function.",
  "C60": "C60_metro_partial proves the code equal to MetroHash64 for every message whose last odd byte is below 0x80 (or absent). C60_sign_violated: that byte is sign extended otherwise.",
  "C61": "C61_round_trip_partial leaves out only the least value of types of int width and wider (the negation overflows there, UB). C61_accepts_partial/C61_rejects_partial say which texts are accepted. C61_violated: \"-\" is accepted as 0 and unrepresentable values are reduced or UB rather than rejected.",
  "C62": "C62_parts, C62_join_partial, C62_whitespace, C62_parse_to hold for every text and delimiter that is not empty. C62_empty_violated: an empty delimiter gives only empty views. C62_rest_violated: text behind the last view is ignored.",
  "C63": "until, until_false, expect, from_to, skip_ws, starts_with, until_last_of hold for every input. Findings: value_in and assert are inverted (C63_value_in_violated, C63_assert_violated), split never returns when the text holds a delimiter (C63_split_violated), trim_left leaves a text of white space alone, trim_right cuts at interior white space, is_crlf only sees one of the two in front, find_first_of_any gives wrong positions or never returns, from_to with equal ends is empty. matcher_t (std::search) is not modelled.",
  "C64": "C64_chunk_partial: holds when the length is a multiple of n. C64_violated: otherwise the last chunk reaches past the end. C64_zero_violated: Chunk(0) never ends.",
  "C65": "C65_slide_partial: holds for ranges with at least n elements. C65_violated: a shorter range is read past its end.",
  "C66": "C66_parts_partial, C66_join_partial: holds for one-element delimiters when the range does not end with the delimiter. Findings: a trailing empty part is dropped, a range delimiter skips only one element, an empty range delimiter, distance between split iterators ends the program.",
  "C67": "C67_filter and C67_take_until hold for every range. C67_take_while_violated: TakeWhile behaves as TakeUntil. Take and Skip hold for counts up to PTRDIFF_MAX.",
  "C68": "C68_concat_partial: holds when no empty range stands before a non-empty one. C68_violated: otherwise the elements past it are not reached or the empty range is dereferenced.",
  "C69": "C69_flatten_partial: holds when all inner ranges are non-empty. C69_violated: an empty inner range is dereferenced.",
  "C71": "C71_writes: every sequence of writes of values, ranges, literals and prefix removals, fitting or not. C71_alias_violated: write(buf[1], buf[0]) stores buf[1] twice as arguments are read through references while earlier ones are stored; C71_arguments_partial covers arguments not stored to before.",
  "C96": "A deleter-specific sentinel and a throwing or replaced deleter are findings (C96_sentinel_violated, C96_deleter_violated).",
  "C97": "operator<= is not(lhs < rhs); the other five operators agree.",
  "C98": "Moving from a non-owner makes an owner and reset( p ) of an owner deletes the new object at once (C98_move_violated, C98_assign_violated, C98_reset_violated); programs without these steps are covered.",
  "C99": "Copying an empty value_ptr and move-assigning a value to one dereference null; all else agrees with optional values.",
  "C101": "A moved-from heap_value cannot be copied, assigned or written.",
  "C104": "reset() keeps the value, so the destructor deletes it again; move-assigning from an empty resource reads an empty optional. The partial theorems cover programs without those steps.",
  "C105": "Moves run the action twice or lose it, and a throwing action terminates; the partial theorem covers programs without moves.",
  "C106": "Inside a destructor run by unwinding the guard does not run its action (it tests uncaught_exceptions for zero).",
  "C107": "The assignment operators return no value, which is undefined.",
  "C110": "Moving from a not_null around a smart pointer leaves null inside.",
  "C111": "Two operators with the optional on the right are wrong; all others agree.",
  "C113": "An offset equal to the least 64-bit integer overflows, and the single-pointer constructor forms a range of unrelated pointers.",
  "C114": "operator[] ignores its index.",
  "C115": "At the end position the difference stops the program.",
  "C116": "Sequentially consistent interleaving of the atomic operations; counts do not overflow.",
  "C119": "random_fill and make_random_data hold in full; RandomInteger throws for equal inclusive bounds.",
  "C120": "About the states of the generator; the hash that turns a state into the returned number is not part of it.",
  "C121": "Proved for callables that can be copied as bytes, and for programs without copies, assignments and lvalues. Copying a function with a destructor, assigning a callable with one, and construction from an lvalue are violated.",
  "C122": "Holds for < and >= of signed types. Iterators of unsigned types are always equal, > never holds, == holds for greater values, and differences that overflow wrap or are undefined.",
  "C123": "Holds for +, -, [] and differences; += and -= ignore the step.",
  "C124": "Holds for signed types and steps above zero. Empty for unsigned types and for steps below zero.",
  "C125": "Holds when the size divides the length, for ++, -- and +. - moves forward, distances count elements, and a rest runs over the end.",
  "C126": "The loop is right; + and - move the wrong way.",
  "C129": "The loop, equality and at for every argument but the first hold. The order compares the numbers of arguments, and at refuses the first argument.",
  "C130": "The loop, +, - and comparisons hold. Reading at the end is undefined, ++, -- and -= leave the container, + refuses the end and negative distances abort.",
  "C131": "Only the check of a read at the end is made. The checks of ++ and -- never happen, and postfix ++ does not move.",
  "C132": "Holds for ranges; the constructor without an end searches behind the block.",
  "C133": "The first element is always seen, with a wrong index; from the second one on the claim holds.",
  "C135": "Holds for programs whose copy assignments are between iterators of the same type and whose move assignments are to moved-from objects. Otherwise the delete is through the wrong type, or the old iterator leaks.",
  "C136": "Holds if std::move_iterator is a forward iterator (libraries with P2520). With the move_iterator of C++20 as published the last step of insert calls insert itself and never ends.",
  "C137": "Holds for unsigned types. Signed types lose the sign bit, and before C++20 mask_lsb is undefined for them from two bits on.",
  "C139": "are_set tells whether any bit of any mask is set, as its tests expect, not whether all are.",
  "C142": "Holds for iterators in step. The end of ranges of different lengths is not in step: != and == are both false there, a loop ending at == reads past the shorter range, and the distance is the length of the first range.",
  "C143": "Holds for first <= last. Otherwise the loop overflows (undefined) or wraps around; the distance can be -1 or undefined; without a type the bounds become std::size_t.",
  "C144": "Holds while the indexes stay below the largest value of T; beyond, elements are lost. The distance is that of the index type, -1 for std::size_t.",
  "C145": "Holds without a projection. For ranges the projection is never called.",
  "C146": "Holds without copies. A copy keeps the iterators into the container of the original and dangles when that is destroyed.",
  "C151": "Every( 0 ) sees all the elements.",
  "C152": "Holds if all the partial sums fit the type of the elements. The sum has that type, even char, so that it wraps around or is undefined otherwise.",
  "C154": "The arithmetic holds. Reverse of Take( n ) sees the last elements of the whole range, since the end of Take is the end of that range.",
  "C155": "The difference of two range_t has the wrong sign, always.",
  "C156": "Holds for types that are trivial. For others every constructor from a value assigns to a member that is not alive; if the assignment to the held object throws, the object is never destroyed.",
  "C157": "The default constructor does not validate, and what an rvalue get() leaves behind is not validated either: both can hold values that the validator rejects.",
  "C159": "at() is inverted: it throws for every element there is and reads past the array for all other positions. An array made with size 0 is not empty().",
  "C160": "The const get asserts that the object is on the heap when it lies inside, so it ends programs with assertions; a throwing constructor of an object on the heap loses its memory.",
  "C161": "Holds if no string is empty; with an empty string anywhere the loop reads past its terminator. The difference is always that to the first iterator.",
  "C162": "The fold uses `+`, whose operands are evaluated in any order, so that the strings may come in any order; in order for left to right evaluation or one string.",
  "C164": "iter_swap is given the elements instead of the iterators: it compiles only for ranges of pointers and exchanges what they point to; that much is proved for different pointers.",
  "C167": "Holds for offset 0. For any other offset the end is counted from the start of the view, so that the result lacks offset elements or ends before it starts. operator[] of a view of non const elements accepts the position behind the last element.",
  "C168": "Holds for programs that never ask for more elements than there are. Otherwise the size wraps around and at() gives elements that are not in the span; pop_front( n ) does this although it clips the part it gives.",
  "C169": "The constructors are right. crend of a span of const elements is made of cend, so that the loop from crbegin to crend sees nothing.",
  "C170": "Holds if middle is not last. With middle == last, which std::rotate allows, the first step accesses *last.",
  "C171": "Only that it terminates, accesses nothing outside the range and rearranges the range holds. The swap moves the new minimum to first while min_idx stays behind with the larger element, and the element at nth itself is never chosen.",
  "C173": "Holds for +, - and *. The unary minus of UInt64 and UInt32 is done in int64_t and int32_t and overflows for 2^63 and 2^31.",
  "C174": "Holds if the divisor fits in the type in which the division is done. uint8_t / UInt64 is done in uint32_t: a divisor of 2^32 is a division by zero and 2^32 + 1 divides by 1.",
  "C175": "Holds for UInt8 and UInt16, and for UInt32 and UInt64 except for the counts zero and the full width, which shift by the full width and are undefined.",
  "C176": "get_bit is right. set_bit is right for UInt8, UInt16 and UInt32. Of a UInt64 it clears the upper 32 bits, as its mask is ~( 1U << N ), and it is undefined for N of 32 and more.",
  "C178": "65535_u16 and 255_u8 fit but end the program: the assertion is value < max().",
  "C179": "Holds as far as the assertions do not fail: removing all the elements without clipping and pop_front_until( needle, discard ) for a needle that is absent abort.",
  "C181": "Holds for offset 0 only: the end is counted from the start of the view, not from the offset. If the offset is greater than the number of elements kept the size is nearly 2^64.",
  "C183": "Fails for all values but 0 and 3: the loop adds the value without its last bit instead of the last bit, which gives twice the difference of the value and its number of ones. For negative values it never ends.",
  "C185": "Holds for characters and strings of char. Strings of wider characters are converted to char first, U+0161 becomes A.",
  "C187": "Holds for one object and output to a back inserter. In memory one place is skipped after every byte, and a buffer of exactly two places for each byte is overrun. For a range of objects the output itself is encoded, not the objects.",
  "C189": "Holds if each argument lives unchanged until the next call. Only a pointer is kept: a variable changed between calls is compared with itself, and a dead object is read.",
  "C191": "Holds for types of one signedness and for values that are not negative. in_range( 5u, -1, 10 ) is false, while can_fit and the function of the same name in daw_int_cmp.h compare the values.",
  "C192": "Holds if different keys have different stored hashes. The table keeps hashes, not keys: two keys of one hash are one entry.",
  "C196": "Up to 256 elements it ends with a permutation whose first element is a least one. It does not sort [1, 2, 3, 5, 4], and for every number of elements from 256 on some input overflows the stack.",
  "C198": "Holds for arrays that have an extra element. Copied arrays and those made from a pointer and a size have none, and find_first_of writes past their blocks.",
  "C199": "swap and move assignment to a null array are right. The move constructor gives the new array a null end, so loops over it leave its block; move assignment leaks the block of the target; the conversion to bool is inverted.",
  "C200": "Holds for all histories without erase, and with erase for entries after which the next place is free. Violated otherwise: erase in the middle of a chain makes other keys disappear; erase of an absent key returns a position.",
  "C201": "Violated for absent keys: unless the set is full the result is not end() but an empty place.",
  "C202": "Violated: the increment from the last entry reads past the array, so every loop over a set that is not empty is undefined behaviour.",
  "C204": "Holds for all histories that do not remove nodes, with removals of edges if the capacity is not a multiple of 59. Violated: remove_node of any node with an edge is undefined behaviour; with capacity 59 removing one edge removes a side of another.",
  "C205": "!=, < and empty are right. Violated for ==: it tests `or` for `and`, so any two nodes of one graph are both == and !=.",
  "C206": "For graphs made without the removals that C204 excludes.",
  "C209": "Violated for cartesian_product and cartesian_product_map: they go over the ranges in parallel, so of n*n combinations only n are met. The other functions hold in full.",
  "C210": "Violated: both functions end without a return statement, which is undefined behaviour for every input. Only what the loop writes is proved.",
  "C211": "Holds for targets that may hold equal elements. Violated for targets with unique elements: an element the target has already is destroyed. extract_matching is undefined behaviour as soon as an element matches.",
  "C212": "Holds for types that moving does not change and variables that keep their values. Violated: with strings correct bounds are rejected or wrong ones accepted, as the check reads moved-from arguments; predicates made from a variable follow its changes and dangle after its end.",
  "C213": "Violated for a value that is an element of the vector: the reference follows the cell, which gets another value; a, b, a without its first element by reference becomes b, a. Holds for erase_if and for values outside.",
  "C215": "Violated for copy assignment to a vector without a block, if the allocator is propagated and different: deallocate is called with a null pointer. All else holds.",
  "C216": "Violated by find_last_of with a character (looks behind the position, never at the first character, undefined for an empty text), find_last_not_of (returns the last character equal to the first of the set), search and search_last (as in the second version), and find beyond the end. Proved what these return, and the claim for all other members.",
  "C217": "Violated by resize: a view cannot be resized to its own size. pop_front and pop_back of an empty view are undefined. All else holds.",
  "C218": "Violated for literals: the terminator counts as a character, so the last piece ends with it; make_string_view of a literal includes it, too. Holds for views and strings.",
  "C219": "Violated by the constructors for texts longer than the capacity (one character too many, no terminator, and the next push_back is undefined), by erase (the erased character replaces the terminator; erase() ends the program), by the constructor from a bounded string and a count, by make_bounded_string of a literal (counts the terminator) and by has_room (reversed). Proved for all other histories.",
  "C220": "Violated by substr and copy at the end of the text (they throw) and by find_first_of with a set larger than the capacity (cut). All else holds.",
  "C221": "Violated: the test `!pos` asks whether a pointer is null, so that no hash is ever stored; every lookup succeeds with the value inserted last or a default one, occupied stays 0, erase of any key wraps it. After clear the next call divides by zero. Proved that the search is right and that the value inserted last is found.",
  "C222": "Violated by the empty delimiter (the iteration does not end) and the postfix increment (returns the next position and stays). All else holds.",
  "C223": "Violated by texts without the closing quote (the character behind the view is read, undefined at the end of the memory), the empty quoted text (refused, or its closing quote taken as a character) and an escaped backslash before the closing quote. Proved for all other texts, and what is accepted.",
  "C224": "Violated by insertions inside the vector, which are right exactly if the position is between the number of values and twice that number (for different elements). Proved for histories with such insertions and insertions at the end.",
  "C225": "Violated by push_back into a copy, which writes outside its memory, and by !=, which is false for vectors of the same size and can read behind the shorter one. The elements of copies and == are proved.",
  "C226": "Violated by the assignment of an exception_ptr, whose type is not checked. All else holds.",
  "C227": "Violated by assigning a result without exception to an object with one (it keeps the exception) and copying an object that is not const (the copy has a value). Proved for the other cases.",
  "C228": "Violated by fields without digits or with other characters, which are taken as numbers, by fields that are not closed and by numbers from 100 on. Proved for all texts with fields of one or two digits.",
  "C229": "Violated by backslashes (kept, without effect, and too many do not fit), fields without digits (do not fit) and the version for template arguments (room for one token less). Proved for texts without backslash with fields of 1 to 19 digits.",
  "C230": "Violated by clear, after which the array can only be freed a second time, and by the constructor from a pointer, which takes the memory another array owns. Proved for histories without them.",
  "C231": "Violated for arrays without memory (default constructed, moved from, released), where begin ends the program; --(--it) moves one place only. Proved for arrays with memory.",
  "C232": "Violated for more values than places, which compile and are written behind the array. Histories are proved.",
  "C233": "Violated for every array: rbegin starts before the last element and rend goes before the array. Proved: from rbegin to the base that rend should have, all elements but the last one are met backwards.",
  "C234": "Violated: the loop ends at a digit instead of at something else. Of a number that begins with a digit the first digit is given, as not found; of a negative one everything to the first digit behind the minus; a minus without a digit goes behind the text. Proved for a minus and one digit.",
  "C235": "Violated: numbers with one digit more than digits10 are refused, among them the largest; letters count as digits and can make the arithmetic overflow; an empty text and a minus alone are read behind their end. Proved for at most digits10 digits.",
  "C236": "Violated: blanks before the quote are refused; a string that ends in an escaped quote is taken as closed; behind an escaped backslash the closing quote is not seen; an empty range is read. Proved for strings with escaped quotes that do not end with a backslash.",
  "C238": "Violated for no parts, which come back as one. Proved for lists with parts.",
  "C239": "Violated for characters above 127, for example of UTF-8: isspace must not be called with a negative char. Proved for other texts.",
  "C240": "Violated by trim_left for texts of delimiters only, where it throws. Proved for all other texts, and for the other two for all texts. A NUL is not trimmed, although the standard delimiters name it.",
  "C241": "Violated for endings that do not have one character: the last character of the text may be any of theirs, and the empty one is denied. Proved for characters and endings of one character.",
  "C243": "Violated for an empty searched text: the loop never ends, or ends with an exception when there is no more memory. Proved for all others.",
  "C244": "Violated by fields without arguments, which are read behind them, and by protected fields, from which the protecting brace is not removed. Proved for formats in which all fields have arguments and other opening braces are missing.",
  "C246": "Violated for every std::variant without value: the check is for an index below zero of an unsigned type, and the visit is undefined. Proved for variants with a value.",
  "C247": "Violated for variants without value, where both are undefined. Proved for the others. can_extract denies a type that variant_cast converts to.",
  "C248": "Violated: the fold is with and, so that it says whether all are true. Proved for one condition, and that true is only given if one is true.",
  "C249": "Violated by tables of functions of one type, which read past their end. Proved for the others, and for all indices that a function has. The call operator loses allow_empty.",
  "C250": "Violated by a handler that returns, and by extract, which moves the value out so that the next use assumes what does not hold. Proved for handlers that do not return and values that moving leaves as good.",
  "C251": "Violated: a copy has only the base, and so has what an object of a derived type is assigned to. Proved for histories without derived types, and for histories without copies and assignments of objects.",
  "C252": "Violated for two empty ones: each is less than the other, also than itself, and not greater or equal. Proved for all other pairs, and for the other four operators for all.",
  "C253": "Violated for a value that is one quote, which counts as both, and for options without a name, which are the same as positional ones. Proved for all others.",
  "C254": "Violated for options with an empty name, which do not count as named. Proved for names that are not empty; looking up is proved for all.",
  "C256": "Violated for containers of different lengths, where every loop leaves a container, and for containers given as rvalues, which are gone. Proved for lvalues of one length.",
  "C257": "Violated: the two lowest exponents of normal numbers give zero. Proved for all higher ones, infinity above, and zero below all numbers.",
  "C258": "Violated outside of -1022 to 1023: the factor is zero, an infinity or negative, or the sum overflows. Proved inside.",
  "C259": "Violated for exponents beyond 307, where the table is read outside. Proved from -307 to 307, without the rounding of double.",
  "C260": "Violated for numbers from two on, where significand multiplies instead of dividing; sign_bit is true for numbers without sign. Proved for numbers below two, and the raw fields for all.",
  "C261": "Violated for negative numbers (other direction), below zero (NaN) and the least int. Proved while the numbers stay positive and finite.",
  "C262": "Violated for subnormal numbers (off by a large factor), negative numbers (a number instead of NaN) and minus infinity. Proved for all positive normal numbers, without the rounding of each operation.",
  "C263": "Violated for negative zero and NaN with sign. Proved for all others.",
  "C264": "Violated: round is wrong below minus one half, floor for negative numbers that are not integers, ceil for integers and for numbers below minus one. Proved for all others, without the rounding of the sum.",
  "C265": "Violated: ceil_by of a multiple gives the next one, a step of zero is undefined. Proved for values from zero on and steps above zero, ceil_by for values that are not multiples.",
  "C266": "Violated for zero: the least exponent is taken for the least number, it is negative, so zero is nearly equal to nothing but zero. Proved for other numbers.",
  "C267": "Violated for infinity and NaN, for which the recursion does not end. Proved for numbers without the rounding of double, with a bound that grows with the argument.",
  "C270": "Violated: it is a load and then a store. Proved that what is written is a value that the other atomic had before.",
  "C271": "Violated for signed types from int on, where overflow is no constant expression but wraps at run time; and a weak compare and exchange may fail at run time only. Proved for all other types, and for all programs that have a value at compile time.",
  "C272": "Violated for a destination inside the source: the first elements are repeated. Proved for all others.",
  "C273": "Violated for a destination inside the source. Proved for all others, in place as well.",
  "C274": "Violated: an empty interval at 2^63 is undefined. Proved for intervals that begin up to PTRDIFF_MAX; those that go beyond the container are shown to be undefined.",
  "C275": "Violated: front and back of an empty range and positions beyond the end give elements of the array that are not in the range. Proved for elements that are there.",
  "C276": "Violated: shrink( n ) leaves n + 1 elements, or is undefined at the end of the array. Proved for the others.",
  "C278": "Violated: set_bit is defined for every bit only if 8 divides the number of bits and 64 does not, and operator[] is true if another bit of the same bin is set, whether its own is or not. Proved: what operator[] gives, and that the bins hold the bits that were set.",
  "C279": "Violated: the hash of what a pointer points to is a constant, hashes of two bytes are always 0, and the hash of a literal includes the terminating zero. Proved for the other calls.",
  "C280": "Violated: after each mmap that failed, MAP_FAILED is unmapped; moving from an empty object is undefined and asking an empty one ends the program. Proved: descriptors and mappings are given back once.",
  "C281": "Violated for elements of more than one byte: end is outside of the file. Proved for elements of one byte.",
  "C282": "Violated: the handle is set to null before it is closed, so that every file opened leaves a handle open; open with a wide path loses the view held before and ends the program for an object never opened. Proved for views without wide paths.",
  "C283": "Violated: operator bool is true exactly when the file was not opened, empty is always true. What open gives is proved.",
  "C284": "Violated: a value just below a unit is printed as a thousand of the next smaller unit, and negative times are all printed in femtoseconds. Proved for the number before rounding; the rounding of double is left out.",
  "C285": "Violated: the average has the time of an empty run taken off twice, so that it is below the smallest time if all runs take the same time, and for one run it does not depend on the time of the run. Proved if an empty run takes no time. The result is that of one more call than is timed.",
  "C286": "Violated: a field with a number, {0:<5}, ends the program; a quote used as fill character hides the closing brace, and two such fields are read as one. Proved for fields without a number in which quotes and braces are balanced.",
  "C288": "Violated: constructing with a parameter not set is undefined, a value of a type the parameter does not take is dropped without an error, and after construction from an rvalue the factory gives objects of moved from values. Proved if all parameters were set; exactly indices out of range are refused.",
  "C289": "Violated: values are converted to the widest type, so that 255 is taken for -1; values are cut to 32 bits; in tells the opposite. Proved for values of one signedness, and for the ASCII classes for all types.",
  "C290": "Violated: the matcher of a string literal also looks for the terminating zero, and the empty pattern is not found in the empty text. Proved for containers that are not empty.",
  "C292": "Violated: results the type does not have are wrapped or undefined, values without sign change negative components. Proved if the types have the exact results.",
  "C294": "Violated: max( -1, 1U ) is 4294967295 and min( -1, 1U ) is 1. Proved if all types are signed or no value is negative; for orders always.",
  "C295": "Violated: the unrolled do_n_arg is a fold over +, which leaves the order of the calls to the compiler, and if the step does not divide the count the last value is left out. Proved for the loops, for unrolled do_n, and for unrolled do_n_arg evaluated from the left with a step that divides the count; the arguments are the same in every order.",
  "C297": "Violated: _KB multiplies by 1024 and _KiB by 1000, the opposite of their names, and products of 2^64 and more wrap. Proved: exactly for products below 2^64 the literal is the product.",
  "C298": "Violated: for comparisons that give an int the value for equal is not 0, so that different arrays compare as the first elements do. Proved for results of type bool and for orderings.",
  "C300": "Violated: the file is never closed, and for characters of more than one byte the size in bytes is taken for the number of characters: files are refused or padded. Proved for characters of one byte: the content is returned exactly, and a file that became shorter is refused.",
  "C301": "Violated: the move assignment resets the owner to its own file and ignores the other side, so that nothing is handed over. Proved: nothing is closed twice, and every file is held by one owner, released or closed.",
  "C302": "Violated: the deleter destroys as many elements as the capacity says, which is undefined for elements with a destructor when there is room to spare; an object moved from still reports its size and capacity. Proved for full buffers and for elements with a trivial destructor.",
  "C303": "Violated: copies copy only bytes, so that a copy of a storage holds no object unless the type is trivially copyable; constructing twice loses the first object. Proved: what was constructed is read until it is destructed, whatever happens to other storages, and every object made is alive once or destroyed once if no object is constructed over another.",
  "C304": "Violated: with bidirectional iterators moving back by n goes only n - 1 elements back, prev( it ) is it. Proved for moves forward with all categories, moves back with random access iterators, and distance.",
  "C305": "Violated: with l less than f the range is not empty: types that wrap visit nearly all values, others overflow. Proved for f not greater than l, up to the largest value of the type.",
  "C306": "Violated: the loop never moves on to the next element and ends only when there is no memory left. Proved for the comparisons and for the empty sequence.",
  "C307": "Violated: increment and decrement after use of prop_const_ptr return references to a local variable, and a copy of a const prop_const_ptr may write. Proved for RandomIterator and wrap_iter, and for prop_const_ptr without these.",
  "C308": "Violated: with a step of zero or against the comparison nothing is written but the size is returned; with types that cannot hold the size or the end too few elements are written or writing runs out of the storage. Proved if the numbers and the end are values of the type.",
  "C309": "Violated: text after the number is ignored, 12km is read as 12. Proved: the text of every value is read as the value, numbers out of range are refused.",
  "C310": "Violated: a copy of a view that is not const refers to the view: it changes with it, dangles after it, and assigning it back makes a view whose calls never end. Proved for programs that do not assign to or destroy views.",
  "C311": "Violated: the visitor of operator* returns by value, the result refers to a temporary that is gone. Proved for operator->.",
  "C312": "Violated: bind_args_at passes copies of variables, so that the function cannot change them, as it can through bind_front. Proved for the values and their order, and for what is moved from.",
  "C313": "Violated: a pack whose element type is given as a value points to a parameter of the constructor, which is gone. Proved for deduced types.",
  "C314": "Violated: an option given twice is accepted if it is passed in two ways, the first wins. Proved for options of different names.",
  "C315": "Violated: one tuple with elements, rvalues, and classes in tuples that are not const do not compile. Proved for two or more lvalues that are const or have no classes.",
  "C316": "Violated: the elements of rvalue tuples are passed as lvalues. Proved for lvalues, and for all comparisons.",
  "C317": "Violated: a stage that can also be called without arguments is replaced by what that call returns; arrays of characters lose their last character. Proved for the order, nesting and literals.",
  "C318": "Violated: ForEachIndexed does not pass the index, Sample( n, n ) ends the program. Proved for the order of visits, the predicates, the view and samples that keep fewer than all.",
  "C319": "Violated: after a stage that makes a range that owns its rows the view refers to rows that are gone. Proved when no such range is made before a stage that picks.",
  "C320": "Violated: clauses of const ranges never give a result, so neither does a second clause. Proved for ranges that are not const and for one clause.",
  "C321": "Violated: transform calls its function with null. Proved for everything else.",
  "C322": "Violated: to_os_string_int compiles for no type, pow10 reads after its table from 20 on. Proved for the body of the function, and for the helpers within 64 bits.",
  "C323": "Violated: with a projection nothing compiles, the element is called with the projection. Proved without projections.",
  "C324": "Violated: the difference of end and begin is the length of the first range, also if another one is shorter. Proved for moving, subscripts and steps.",
  "C325": "Violated: the view refers to containers in a function object that may be gone; tuples of ranges do not compile. Proved while the object is there.",
  "C326": "Violated: it compiles for no container of tuples. Proved for the ranges it compiles for.",
  "C327": "Violated: a call with an order of another type than the default does not compile; MinMax gives the last of the greatest. Proved for the default order.",
  "C328": "Violated: bounds of another type than the elements do not compile; bounds given as variables are references. Proved for bounds of the type of the elements.",
  "C329": "Violated: it + n and it - n do not compile, and would return the old position. Proved for the assignments.",
  "C330": "Violated: moving from an owner makes two owners, and assigning by moving loses an array. Proved for programs that do not move from owners.",
  "C331": "Violated: comparing an empty CString is undefined. Proved for strings of texts.",
  "C332": "Violated: to_array_of compiles for no type, and the bytes are taken in the opposite order to that in memory. Proved for the value of the bytes and for the bytes of a value.",
  "C333": "Violated: for variables nothing is asserted. Proved for values that are no variables.",
  "C334": "Violated: removing more than there are is not checked and puts the end before the begin. Proved for removing at most as many as there are.",
  "C335": "Violated: value_is of a const variable does not compile. Proved for the tests and for or_all.",
  "C336": "Violated: a hash of 0 is forgotten, and texts that differ in two characters may have the same seed. Proved otherwise, and that one changed character changes the seed.",
  "C337": "Violated: the seed is converted to the type of the numbers, so that its upper bits are lost. Proved for seeds of that type below the modulus of the engine.",
  "C338": "Violated: a uint64_t added to a UInt32 is cut, uint8_t * UInt64 has 8 bits, UInt8 + 1 is ambiguous and UInt8 | UInt16 is missing. Proved for calls that compile with an integer that is not wider, and that + - * / of two enumerations compile with the wider type.",
  "C339": "Violated: the integer is cut to the width of the enumeration, so that a UInt8 x equals x + 256 and a UInt32 equals -1; UInt32 >= 5 and 5 < UInt32 are ambiguous. Proved for integers in the range of the enumeration, and for > >= <= with uint64_t.",
  "C340": "Violated: counts are cut to the width of the value, UInt32 << 32 is undefined, and UInt16 >> UInt8 does not compile. Proved for counts less than the width of the promoted type, and for the unary operators.",
  "C341": "Violated: begin skips the first cell always and is undefined for a cleared table, at_end is inverted, valid reads past the end. Proved for the good cells from the second on, and that -- undoes ++.",
  "C342": "Violated: the copy constructor of a cell makes a removed cell an empty one, which hides items behind it. Proved for copies of tables, which assign the cells.",
  "C343": "Violated: a literal with an embedded terminator on the left side is both equal and not equal. Proved for views and std::string with all characters, and for pointers and arrays without embedded terminators.",
  "C344": "Violated: array + str compiles only for arrays that do not fit, and then throws always. Proved for str + pointer.",
  "C345": "Violated: minus zero gives 0 and every NaN the same bits. Proved for all others, subnormal ones included.",
  "C346": "Violated: the portable version is undefined for every double of magnitude 2^128 or more, gives nothing for numbers below 2^-127, and the versions differ for zero, infinities, NaN and small subnormals. Proved for magnitudes less than 2^128, and that the versions agree for normal floats.",
  "C347": "Violated: erase_remove( v, v[0] ) removes only the first element and every later one equal to the second. Proved for values outside of the range.",
  "C348": "Violated: set_exception( ) outside of a handler stores a null exception, to get which is undefined; e = false and e = f for a function are successes. Proved for programs that store no null exception, and for from_code.",
  "C349": "Violated: == ignores the operator of the values and asks the order, so that values neither less are equal, a NaN equals every number and has another hash; the hash of null is undefined. Proved: the operators are a total preorder for a strict weak order of the values.",
  "C351": "Violated: streams with str( ) give the values of the whole text, also of what was read already; views as values refer to a string that is gone. Proved for other streams and for streams at their beginning.",
  "C352": "Violated: arrays and literals are compared by address, and in a build without exceptions expecting_exception passes every expression that comes back. Proved for integers of all types and for builds with exceptions.",
  "C353": "Violated: a run quicker than every run of nothing has a negative duration. Proved that the runs are checked as stated, and the durations where no run is quicker than that.",
  "C354": "Violated: where the product wraps the block is always too small for the last object. Proved for products less than 2^64.",
  "C355": "Violated: numbers that are not whole are rounded towards zero first, so that a value is found that is not there, and numbers out of range are undefined. Proved for elements of the type of the value and for whole numbers that it has.",
  "C356": "Violated: a view is written with more than 2^62 characters of filling if the width is negative. Proved for the other widths, and for bounded strings for every width.",
  "C357": "Violated: every character other than braces and backslashes is undefined, and a backslash never escapes a brace. Proved for fields of backslashes, and that braces that do not match are reported after every text.",
  "C358": "Violated: the loop never ends unless there are no elements. Proved for differences, order and containers that became shorter.",
  "C359": "Violated: a failed mmap is not reported, reallocate of a block always gives MAP_FAILED, deallocate takes the number of objects for bytes and loses the other pages, and the greatest sizes are rounded to none. Proved for up to 2^53 bytes with enough memory, and deallocate for objects of one byte.",
  "C361": "Violated: the constructor from two iterators ends the program for a range without elements, and has_room differs. Proved for all the other calls.",
  "C362": "Violated: division by a multiple of 2^w is undefined, as the divisor is cut to the type before, shifts by 2^w leave the value, shifts of the narrow types by 32 are undefined, and with an integer on the left the overloads differ between operators. Proved for the values of the other operators with all numbers, divisors that fit, counts less than 32, and the operands that compile.",
  "C363": "Violated: for views with zeros inside debug builds end and in others the text is shorter than its size, and a wrong flag, as substr_unsafe makes it, gives a text with the characters behind the view or reads past the memory. Proved for views without zeros inside whose flag is right, thus for all views made by other members from such a view.",
  "C365": "Violated: copies of a pointer do not know that the memory was given back, calls through std::allocator_traits mark only a copy, accesses one past the end and wrong sizes are not noticed. Proved for programs with one variable for each block: all errors but these are noticed.",
  "C369": "Violated: for a visited type with padding the bytes put back have no value, so that even a visitor that changes nothing is undefined. Proved for types without padding.",
  "C370": "Violated: the assignment takes the block of a buffer with another allocator although the allocator stays, so that it is released by one it is not from, and it loses a block without cells. Proved for one allocator and for allocators that go with the blocks.",
  "C371": "Violated: the lowest number of a signed type keeps its sign or makes the call undefined, and a negative second number gives another magnitude for unsigned types. Proved for all other numbers of signed types.",
  "C372": "Violated: all but the last character of an array that is not constant are taken, with the zeros behind the text in a larger buffer and without the last character of a full one. Proved for strings, pointers and arrays that end at their only zero.",
  "C373": "empty and the conversion to bool do not notice that the node was removed (C373_removed_finding).",
  "C374": "The container left behind by an exception is not in the outcome of the model."
 },
 "status": {}
}