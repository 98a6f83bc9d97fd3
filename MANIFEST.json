{
 "claims": [
  {
   "property": "C01",
   "status": "proved",
   "theorems": [
    "Verif.Sort.C01_sort"
   ],
   "note": ""
  },
  {
   "property": "C02",
   "status": "proved",
   "theorems": [
    "Verif.Sort.C02_networks"
   ],
   "note": ""
  },
  {
   "property": "C03",
   "status": "partial",
   "theorems": [
    "Verif.Sort.C03_sort_to_other",
    "Verif.Sort.C03_sort_to_integral_partial",
    "Verif.Sort.C03_negative_violated",
    "Verif.Sort.C03_descending_violated"
   ],
   "note": "Correct for elements that are not integers, and for non-negative integers in ascending order; negative values and descending comparisons are mishandled by the counting sort (C03_negative_violated, C03_descending_violated)."
  },
  {
   "property": "C04",
   "status": "proved",
   "theorems": [
    "Verif.Vector.C04_history",
    "Verif.Vector.C04_pop_back_value",
    "Verif.Vector.C04_access",
    "Verif.Vector.C04_positions"
   ],
   "note": ""
  },
  {
   "property": "C05",
   "status": "proved",
   "theorems": [
    "Verif.Vector.C05_lifetimes"
   ],
   "note": ""
  },
  {
   "property": "C06",
   "status": "proved",
   "theorems": [
    "Verif.Vector.C06_aliasing"
   ],
   "note": ""
  },
  {
   "property": "C07",
   "status": "partial",
   "theorems": [
    "Verif.Vector.C07_size_le_capacity",
    "Verif.Vector.C07_capacity_monotone",
    "Verif.Vector.C07_no_reallocation",
    "Verif.Vector.C07_reserve",
    "Verif.Vector.C07_growth",
    "Verif.Vector.C07_max_size_partial",
    "Verif.Vector.C07_insert_wraps_violated",
    "Verif.Vector.C07_amortised"
   ],
   "note": "All capacity claims are proved; insert( pos, n, x ) with size()+n wrapping around 2^64 is not rejected (C07_insert_wraps_violated)."
  },
  {
   "property": "C08",
   "status": "partial",
   "theorems": [
    "Verif.Vector.C08_resize_and_overwrite_violated",
    "Verif.Vector.C08_resize_and_overwrite_partial",
    "Verif.Vector.C08_leak_violated"
   ],
   "note": "Undefined behaviour when the operation reports more than the old size and less than n; leak when n is below the old size (the _violated theorems). The partial theorem covers the remaining cases."
  },
  {
   "property": "C09",
   "status": "partial",
   "theorems": [
    "Verif.Vector.C09_never_appends_violated",
    "Verif.Vector.C09_zero_block_violated",
    "Verif.Vector.C09_empty_partial"
   ],
   "note": "block_append_from never returns for a non-empty source; only the empty source works."
  },
  {
   "property": "C10",
   "status": "partial",
   "theorems": [
    "Verif.Vector.C10_trivial_partial",
    "Verif.Vector.C10_class_partial",
    "Verif.Vector.C10_destruct",
    "Verif.Vector.C10_class_violated",
    "Verif.Vector.C10_four_pushes_violated",
    "Verif.Vector.C10_reserve_violated",
    "Verif.Vector.C10_reserve_below_size_violated"
   ],
   "note": "Full history refinement for trivial types, except reserve below the size; for class types every push that slides elements is undefined behaviour; reserve never reserves."
  },
  {
   "property": "C11",
   "status": "partial",
   "theorems": [
    "Verif.SV.View.C11_within",
    "Verif.SV.View.C11_no_ub_partial",
    "Verif.SV.View.C11_history_in_memory",
    "Verif.SV.View.C11_pop_empty_violated"
   ],
   "note": "Every history stays inside the original memory (C11_history_in_memory, C11_within); it is free of undefined behaviour when no unchecked operation is called outside its precondition; pop_front()/pop_back() on an empty view are undefined behaviour (C11_pop_empty_violated)."
  },
  {
   "property": "C12",
   "status": "proved",
   "theorems": [
    "Verif.SV.C12_compare",
    "Verif.SV.C12_operators",
    "Verif.SV.C12_equal_iff",
    "Verif.SV.C12_order",
    "Verif.SV.C12_signed_char_finding"
   ],
   "note": ""
  },
  {
   "property": "C13",
   "status": "partial",
   "theorems": [
    "Verif.SV.C13_find_partial",
    "Verif.SV.C13_find_beyond_violated",
    "Verif.SV.C13_rfind"
   ],
   "note": "rfind in full; find is wrong for a position beyond the end (C13_find_beyond_violated), C13_find_partial covers the rest."
  },
  {
   "property": "C14",
   "status": "partial",
   "theorems": [
    "Verif.SV.C14_find_char_partial",
    "Verif.SV.C14_find_char_runtime_violated",
    "Verif.SV.C14_find_char_runtime_shifted_partial",
    "Verif.SV.C14_find_char_constexpr_violated"
   ],
   "note": "Position zero in full; otherwise the run time path returns a result relative to pos and the constexpr path starts 2*pos characters in (the _violated theorems); the shifted run time result is proved for all positions."
  },
  {
   "property": "C15",
   "status": "partial",
   "theorems": [
    "Verif.SV.C15_find_first_of",
    "Verif.SV.C15_find_first_of_bytes",
    "Verif.SV.C15_find_first_of_if",
    "Verif.SV.C15_find_first_not_of_if",
    "Verif.SV.C15_find_first_not_of",
    "Verif.SV.C15_find_last_of_if",
    "Verif.SV.C15_find_last_of_bytes_partial",
    "Verif.SV.C15_find_last_of_bytes_violated",
    "Verif.SV.C15_find_last_of_partial",
    "Verif.SV.C15_find_last_of_violated",
    "Verif.SV.C15_find_last_of_position_violated",
    "Verif.SV.C15_find_last_not_of_if_partial",
    "Verif.SV.C15_find_last_not_of_if_violated",
    "Verif.SV.C15_find_last_not_of_partial",
    "Verif.SV.C15_find_last_not_of_violated"
   ],
   "note": "The forward searches in full; the backward searches start or stop at the wrong place (the _violated theorems), the partial theorems give the exact range for which they are right."
  },
  {
   "property": "C16",
   "status": "partial",
   "theorems": [
    "Verif.SV.View.C16_pop_front_until",
    "Verif.SV.View.C16_pop_front_until_keep",
    "Verif.SV.View.C16_pop_front_until_char",
    "Verif.SV.View.C16_pop_front_until_char_keep",
    "Verif.SV.View.C16_pop_front_until_if",
    "Verif.SV.View.C16_pop_front_until_if_keep",
    "Verif.SV.View.C16_pop_front_while",
    "Verif.SV.View.C16_pop_front_while_in",
    "Verif.SV.View.C16_pop_back_until",
    "Verif.SV.View.C16_pop_back_until_char",
    "Verif.SV.View.C16_pop_back_until_if",
    "Verif.SV.View.C16_pop_back_until_keep_violated",
    "Verif.SV.View.C16_pop_back_until_keep_partial",
    "Verif.SV.View.C16_pop_back_until_if_keep_violated",
    "Verif.SV.View.C16_pop_back_until_if_keep_partial",
    "Verif.SV.View.C16_try_pop_front_until",
    "Verif.SV.View.C16_try_pop_front_until_keep",
    "Verif.SV.View.C16_try_pop_front_until_char",
    "Verif.SV.View.C16_try_pop_front_until_if_violated",
    "Verif.SV.View.C16_try_pop_front_until_if_partial",
    "Verif.SV.View.C16_try_pop_front_until_if_keep",
    "Verif.SV.View.C16_try_pop_back_until",
    "Verif.SV.View.C16_try_pop_back_until_violated",
    "Verif.SV.View.C16_remove_prefix_until",
    "Verif.SV.View.C16_remove_prefix_until_others"
   ],
   "note": "All until variants that are correct are proved in full; the others have a _violated witness and a _partial theorem."
  },
  {
   "property": "C17",
   "status": "proved",
   "theorems": [
    "Verif.SV.View.C17_trim_prefix",
    "Verif.SV.View.C17_trim_suffix",
    "Verif.SV.View.C17_trim",
    "Verif.SV.View.C17_is_space",
    "Verif.SV.View.C17_trim_space"
   ],
   "note": ""
  },
  {
   "property": "C18",
   "status": "partial",
   "theorems": [
    "Verif.SV.C18_starts_with",
    "Verif.SV.C18_ends_with",
    "Verif.SV.C18_contains",
    "Verif.SV.C18_contains_count_violated",
    "Verif.SV.C18_contains_count_partial"
   ],
   "note": "contains( ptr, pos, count ) is wrong (C18_contains_count_violated); all others in full."
  },
  {
   "property": "C19",
   "status": "partial",
   "theorems": [
    "Verif.SV.View.C19_zero_terminated_partial",
    "Verif.SV.View.C19_zero_terminated_violated",
    "Verif.SV.View.C19_unsafe_partial"
   ],
   "note": "substr_unsafe keeps the flag although the view no longer ends at the terminator (C19_zero_terminated_violated); all histories without it are proved."
  },
  {
   "property": "C20",
   "status": "partial",
   "theorems": [
    "Verif.SV.C20_search_partial",
    "Verif.SV.C20_search_violated",
    "Verif.SV.C20_search_outside",
    "Verif.SV.C20_search_last_partial",
    "Verif.SV.C20_search_last_violated"
   ],
   "note": "Both searches fail in the case of the _violated witnesses; the partial theorems cover the rest."
  },
  {
   "property": "C21",
   "status": "partial",
   "theorems": [
    "Verif.Bits.Fnv.C21_view",
    "Verif.Bits.Fnv.C21_cstr",
    "Verif.Bits.Fnv.C21_pieces",
    "Verif.Bits.Fnv.C21_integer",
    "Verif.Bits.Fnv.C21_integer_big",
    "Verif.Bits.Fnv.C21_one_byte",
    "Verif.Bits.Fnv.C21_op_cstr_violated",
    "Verif.Bits.Fnv.C21_op_cstr_partial",
    "Verif.Bits.Fnv.C21_array_violated"
   ],
   "note": "The hash of views, strings, pieces and integers equals FNV-1a of the bytes. Violated for operator()(char const*), which sign-extends characters above 127, and for arrays, whose final NUL is hashed."
  },
  {
   "property": "C22",
   "status": "proved",
   "theorems": [
    "Verif.Algorithm.C22_lower_bound_partitioned",
    "Verif.Algorithm.C22_lower_bound",
    "Verif.Algorithm.C22_upper_bound"
   ],
   "note": ""
  },
  {
   "property": "C23",
   "status": "partial",
   "theorems": [
    "Verif.Algorithm.C23_binary_search_partial",
    "Verif.Algorithm.C23_empty_range_aborts"
   ],
   "note": "binary_search of an empty range aborts instead of reporting absence (C23_empty_range_aborts); the partial theorem covers all non-empty ranges."
  },
  {
   "property": "C24",
   "status": "proved",
   "theorems": [
    "Verif.Algorithm.C24_search"
   ],
   "note": ""
  },
  {
   "property": "C25",
   "status": "proved",
   "theorems": [
    "Verif.Algorithm.C25_max_element",
    "Verif.Algorithm.C25_max_element_empty",
    "Verif.Algorithm.C25_minmax_element"
   ],
   "note": ""
  },
  {
   "property": "C26",
   "status": "partial",
   "theorems": [
    "Verif.Algorithm.C26_equal_iff",
    "Verif.Algorithm.C26_equal_eq",
    "Verif.Algorithm.C26_not_equal_violated",
    "Verif.Algorithm.C26_not_equal_empty_violated",
    "Verif.Algorithm.C26_not_equal_partial",
    "Verif.Algorithm.C26_lexicographical_compare",
    "Verif.Algorithm.C26_lexicographical_compare_strictWeak",
    "Verif.Algorithm.C26_compare_range"
   ],
   "note": "equal and lexicographical_compare are proved; not_equal is not the negation of equal in the code (C26_not_equal_violated); C26_not_equal_partial says what it decides."
  },
  {
   "property": "C27",
   "status": "proved",
   "theorems": [
    "Verif.Algorithm.C27_remove_if"
   ],
   "note": ""
  },
  {
   "property": "C28",
   "status": "proved",
   "theorems": [
    "Verif.Algorithm.C28_set_intersection"
   ],
   "note": ""
  },
  {
   "property": "C29",
   "status": "partial",
   "theorems": [
    "Verif.Algorithm.C29_is_sorted_until",
    "Verif.Algorithm.C29_is_sorted",
    "Verif.Algorithm.C29_find_unsorted_partial",
    "Verif.Algorithm.C29_find_unsorted_empty_violated"
   ],
   "note": "is_sorted and is_sorted_until in full; find_unsorted for non-empty ranges, the empty range is undefined behaviour."
  },
  {
   "property": "C30",
   "status": "partial",
   "theorems": [
    "Verif.Algorithm.C30_split_violated",
    "Verif.Algorithm.C30_split_partial",
    "Verif.Algorithm.C30_split_terminated"
   ],
   "note": "The code drops the text after the last delimiter (C30_split_violated); the rest of the round trip is proved."
  },
  {
   "property": "C31",
   "status": "partial",
   "theorems": [
    "Verif.Algorithm.C31_safe_next_partial",
    "Verif.Algorithm.C31_safe_prev_partial",
    "Verif.Algorithm.C31_begin_at_partial",
    "Verif.Algorithm.C31_begin_at_violated",
    "Verif.Algorithm.C31_safe_next_violated",
    "Verif.Algorithm.C31_begin_at_ub",
    "Verif.Algorithm.C31_safe_prev_violated",
    "Verif.Algorithm.C31_safe_advance_seq"
   ],
   "note": "Counts above PTRDIFF_MAX wrap to negative in the code (C31_begin_at_violated, C31_safe_next_violated, C31_begin_at_ub); all others are proved."
  },
  {
   "property": "C32",
   "status": "partial",
   "theorems": [
    "Verif.Algorithm.C32_all_equal",
    "Verif.Algorithm.C32_are_equal_violated",
    "Verif.Algorithm.C32_are_equal_partial",
    "Verif.Algorithm.C32_are_equal_three_violated",
    "Verif.Algorithm.C32_are_equal_pairs"
   ],
   "note": "all_equal in full; are_equal compares only disjoint pairs in the code (violated from three arguments on), C32_are_equal_pairs says what is decided."
  },
  {
   "property": "C33",
   "status": "partial",
   "theorems": [
    "Verif.Algorithm.C33_partition_range_partial",
    "Verif.Algorithm.C33_partition_range_zero_violated"
   ],
   "note": "For a positive number of parts in full; zero parts is a division by zero."
  },
  {
   "property": "C34",
   "status": "proved",
   "theorems": [
    "Verif.Bits.C34_reverse",
    "Verif.Bits.C34_involution"
   ],
   "note": ""
  },
  {
   "property": "C35",
   "status": "partial",
   "theorems": [
    "Verif.Bits.BitQueue.C35_push",
    "Verif.Bits.BitQueue.C35_push_full",
    "Verif.Bits.BitQueue.C35_push_all_violated",
    "Verif.Bits.BitQueue.C35_pop_front",
    "Verif.Bits.BitQueue.C35_pop_front_empty",
    "Verif.Bits.BitQueue.C35_pop_back_partial",
    "Verif.Bits.BitQueue.C35_pop_back_violated",
    "Verif.Bits.BitQueue.C35_pop_back_wide_violated",
    "Verif.Bits.BitQueue.C35_pop_back_rest",
    "Verif.Bits.BitQueue.C35_pop_all",
    "Verif.Bits.BitQueue.C35_of_value",
    "Verif.Bits.BitQueue.C35_history_partial",
    "Verif.Bits.BitQueue.C35_nibble"
   ],
   "note": "Pushing and popping at the front are full. pop_back keeps its guarantee only while the value fits in the low bits of the result and fewer than 31 bits are asked for; push of all bits of the buffer is violated."
  },
  {
   "property": "C36",
   "status": "partial",
   "theorems": [
    "Verif.Bits.BitStream.C36_pop_partial",
    "Verif.Bits.BitStream.C36_groups_partial",
    "Verif.Bits.BitStream.C36_pop_refused",
    "Verif.Bits.BitStream.C36_wide_violated",
    "Verif.Bits.BitStream.C36_pop_value",
    "Verif.Bits.BitStream.C36_pop_value_refused",
    "Verif.Bits.BitStream.C36_skip_partial",
    "Verif.Bits.BitStream.C36_skip_violated",
    "Verif.Bits.BitStream.C36_skip_until"
   ],
   "note": "Groups of bits of streams of 8 and 16 bit values are read in order; for 32 and 64 bit values reading is undefined (a shift by the whole width), and skip_bits is violated. The header does not compile as it is because bit_count_t is not declared; the model reads it as size_t."
  },
  {
   "property": "C37",
   "status": "partial",
   "theorems": [
    "Verif.Bits.Bitset.C37_outside",
    "Verif.Bits.Bitset.C37_set",
    "Verif.Bits.Bitset.C37_set_many",
    "Verif.Bits.Bitset.C37_unset_violated",
    "Verif.Bits.Bitset.C37_unset_partial",
    "Verif.Bits.Bitset.C37_set_to_partial"
   ],
   "note": "set and set-many in full; unset is wrong in the code (C37_unset_violated)."
  },
  {
   "property": "C38",
   "status": "partial",
   "theorems": [
    "Verif.Bits.StaticBitset.C38_bitwise",
    "Verif.Bits.StaticBitset.C38_equal",
    "Verif.Bits.StaticBitset.C38_not_partial",
    "Verif.Bits.StaticBitset.C38_not_violated",
    "Verif.Bits.StaticBitset.C38_shl_partial",
    "Verif.Bits.StaticBitset.C38_shift_out",
    "Verif.Bits.StaticBitset.C38_shl_violated",
    "Verif.Bits.StaticBitset.C38_shr_partial",
    "Verif.Bits.StaticBitset.C38_shr_violated",
    "Verif.Bits.StaticBitset.C38_construct_partial",
    "Verif.Bits.StaticBitset.C38_construct_whole_partial",
    "Verif.Bits.StaticBitset.C38_construct_violated",
    "Verif.Bits.StaticBitset.C38_string",
    "Verif.Bits.StaticBitset.C38_string_long",
    "Verif.Bits.StaticBitset.C38_set_violated",
    "Verif.Bits.StaticBitset.C38_set_partial"
   ],
   "note": "Bitwise operators, comparison and the string constructor are full. Single bit access, construction from an integer of 64 or more bits, complement and larger shifts are violated."
  },
  {
   "property": "C39",
   "status": "partial",
   "theorems": [
    "Verif.Bits.C39_swap",
    "Verif.Bits.C39_stored",
    "Verif.Bits.C39_inverse",
    "Verif.Bits.C39_network_violated",
    "Verif.Bits.C39_network_partial",
    "Verif.Bits.C39_to_native_violated",
    "Verif.Bits.C39_to_native_partial"
   ],
   "note": "Byte swaps and to_big/little_endian are full. network_to_host_endian changes nothing on little endian machines and to_native_endian changes nothing for the other byte order."
  },
  {
   "property": "C40",
   "status": "proved",
   "theorems": [
    "Verif.Bits.C40_equal",
    "Verif.Bits.C40_not_equal",
    "Verif.Bits.C40_less",
    "Verif.Bits.C40_orders",
    "Verif.Bits.C40_in_range",
    "Verif.Bits.C40_signbit"
   ],
   "note": ""
  },
  {
   "property": "C41",
   "status": "partial",
   "theorems": [
    "Verif.Bits.Natural.C41_step_partial",
    "Verif.Bits.Natural.C41_history_partial",
    "Verif.Bits.Natural.C41_error_partial",
    "Verif.Bits.Natural.C41_overflow",
    "Verif.Bits.Natural.C41_zero_violated",
    "Verif.Bits.Natural.C41_unsigned_violated",
    "Verif.Bits.Natural.C41_compare"
   ],
   "note": "Computed results are right whenever they are natural numbers the type can hold. Quotients and remainders of zero are not reported, and unsigned differences below zero wrap and are not reported."
  },
  {
   "property": "C42",
   "status": "partial",
   "theorems": [
    "Verif.Bits.Power.C42_pow_n",
    "Verif.Bits.Power.C42_pow_n_wrap",
    "Verif.Bits.Power.C42_narrow_violated",
    "Verif.Bits.Power.C42_pow10_partial",
    "Verif.Bits.Power.C42_pow10_violated",
    "Verif.Bits.Power.C42_pow",
    "Verif.Bits.Power.C42_pow_negative_violated",
    "Verif.Bits.Power.C42_math_pow_violated",
    "Verif.Bits.Power.C42_math_pow_partial"
   ],
   "note": "pow_n is exact, with its number of multiplications, wherever the power fits, and wraps for unsigned types as wide as int. It overflows int for uint16_t, the table of pow10 ends before 10^19, pow with a negative exponent and an unsigned type wraps, math::pow(b,e) is b to the power 2^e."
  },
  {
   "property": "C43",
   "status": "partial",
   "theorems": [
    "Verif.Bits.Float.C43_get",
    "Verif.Bits.Float.C43_classify",
    "Verif.Bits.Float.C43_predicates",
    "Verif.Bits.Float.C43_is_nan_impl",
    "Verif.Bits.Float.C43_is_zero_violated",
    "Verif.Bits.Float.C43_is_zero_partial",
    "Verif.Bits.Float.C43_set_significand",
    "Verif.Bits.Float.C43_set_raw_exponent",
    "Verif.Bits.Float.C43_set_exponent_partial",
    "Verif.Bits.Float.C43_set_exponent_violated",
    "Verif.Bits.Float.C43_copy_sign",
    "Verif.Bits.Float.C43_set_sign"
   ],
   "note": "Classification, accessors, setting of significand and sign are full. set_exponent to 0 returns one, is_zero_impl is true for one, float_parts_t::is_nan knows one pattern."
  },
  {
   "property": "C44",
   "status": "partial",
   "theorems": [
    "Verif.Bits.Zeros.C44_clz",
    "Verif.Bits.Zeros.C44_halves",
    "Verif.Bits.Zeros.C44_portable",
    "Verif.Bits.Zeros.C44_portable32_violated",
    "Verif.Bits.Zeros.C44_portable128_violated",
    "Verif.Bits.Zeros.C44_ctz32_partial",
    "Verif.Bits.Zeros.C44_ctz_violated",
    "Verif.Bits.Zeros.C44_ctz64_partial"
   ],
   "note": "count_leading_zeroes and the 64 bit portable version are full. The portable 32 bit and 128 bit versions and count_trailing_zeros of 0x80000000 fail."
  },
  {
   "property": "C45",
   "status": "partial",
   "theorems": [
    "Verif.Containers.BVec.C45_history_partial",
    "Verif.Containers.BVec.C45_full_violated",
    "Verif.Containers.BVec.C45_ends_partial",
    "Verif.Containers.BVec.C45_push_place_partial",
    "Verif.Containers.BVec.C45_push_place_violated",
    "Verif.Containers.BVec.C45_reported",
    "Verif.Containers.BVec.C45_pop_front_violated",
    "Verif.Containers.BVec.C45_erase_position_violated",
    "Verif.Containers.BVec.C45_erase_all_violated",
    "Verif.Containers.BVec.C45_has_room_violated",
    "Verif.Containers.BVec.C45_swap_violated",
    "Verif.Containers.BVec.C45_swap_partial",
    "Verif.Containers.BVec.C45_construct",
    "Verif.Containers.BVec.C45_construct_violated",
    "Verif.Containers.BVec.C45_move_to_front"
   ],
   "note": "Histories of allowed calls refine a list, by invariant. push_back on a full vector, pop_front, the position returned by erase, erasing everything, has_room, swap with a shorter vector and the range constructor fail (violated theorems)."
  },
  {
   "property": "C46",
   "status": "partial",
   "theorems": [
    "Verif.Containers.Ring.C46_history_partial",
    "Verif.Containers.Ring.C46_index",
    "Verif.Containers.Ring.C46_emplace_full",
    "Verif.Containers.Ring.C46_emplace_violated",
    "Verif.Containers.Ring.C46_release_violated",
    "Verif.Containers.Ring.C46_release_partial",
    "Verif.Containers.Ring.C46_wrap_violated"
   ],
   "note": "Histories of fewer than 2^64-1 calls refine a FIFO queue. emplace_back moves the wrong counter, a release build overwrites, and the counters wrap wrongly for capacities that do not divide 2^64."
  },
  {
   "property": "C47",
   "status": "partial",
   "theorems": [
    "Verif.Containers.KeepN.C47_keep",
    "Verif.Containers.KeepN.C47_best_partial",
    "Verif.Containers.KeepN.C47_default_violated"
   ],
   "note": "The kept values are the best of default values and seen values, full; that they are the best of the seen values needs a default that is worse than all of them."
  },
  {
   "property": "C48",
   "status": "partial",
   "theorems": [
    "Verif.Containers.Circular.C48_move_partial",
    "Verif.Containers.Circular.C48_forward",
    "Verif.Containers.Circular.C48_multiple_violated",
    "Verif.Containers.Circular.C48_step",
    "Verif.Containers.Circular.C48_turn",
    "Verif.Containers.Circular.C48_back_partial"
   ],
   "note": "Moves are full except when position plus offset is a negative multiple of the size, where the position is one past the end."
  },
  {
   "property": "C49",
   "status": "partial",
   "theorems": [
    "Verif.Containers.BoundedHashMap.C49_history_partial",
    "Verif.Containers.BoundedHashMap.C49_no_erase",
    "Verif.Containers.BoundedHashMap.C49_erase_violated",
    "Verif.Containers.BoundedHashMap.C49_full_violated",
    "Verif.Containers.BoundedHashMap.C49_zero_violated",
    "Verif.Containers.BoundedHashMap.C49_find_partial",
    "Verif.Containers.BoundedHashMap.C49_find_violated",
    "Verif.Containers.BoundedHashMap.C49_index_const_partial"
   ],
   "note": "History of insert/lookup without erase on a map with room is full; erase leaves chains broken, a full map runs past its array and find of an absent key is not end (violated)."
  },
  {
   "property": "C50",
   "status": "partial",
   "theorems": [
    "Verif.Containers.HashSet.C50_history_partial",
    "Verif.Containers.HashSet.C50_places",
    "Verif.Containers.HashSet.C50_zero_violated"
   ],
   "note": "Full for capacities from one on; capacity zero divides by zero (violated). erase and size cannot be instantiated."
  },
  {
   "property": "C51",
   "status": "partial",
   "theorems": [
    "Verif.Containers.Mph.C51_lookup_partial",
    "Verif.Containers.Mph.C51_construct",
    "Verif.Containers.Mph.C51_distinct_violated",
    "Verif.Containers.Mph.C51_default_violated"
   ],
   "note": "Lookup is proved for every table that is built; building succeeds exactly if hashes differ modulo the table size, not whenever they are distinct, and the default key can be reported although absent (violated)."
  },
  {
   "property": "C52",
   "status": "partial",
   "theorems": [
    "Verif.Containers.StaticHash.C52_history_partial",
    "Verif.Containers.StaticHash.C52_collision_violated",
    "Verif.Containers.StaticHash.C52_full_violated",
    "Verif.Containers.StaticHash.C52_find_violated",
    "Verif.Containers.StaticHash.C52_find"
   ],
   "note": "insert and operator[] answer by key as long as no two keys used hash to the same slot; with a collision a key is given the value of another, a full table of other keys and find of an absent key go wrong. Members of the header that cannot be instantiated are listed in DESIGN.md."
  },
  {
   "property": "C53",
   "status": "proved",
   "theorems": [
    "Verif.Graph.C53_history",
    "Verif.Graph.C53_consistent",
    "Verif.Graph.C53_ids",
    "Verif.Graph.C53_roots_leaves",
    "Verif.Graph.C53_find_by_value"
   ],
   "note": "Proved for every history with the debug checks on, up to id exhaustion at 2^64-1 where add_node aborts."
  },
  {
   "property": "C54",
   "status": "proved",
   "theorems": [
    "Verif.Graph.C54_walk",
    "Verif.Graph.C54_reverse"
   ],
   "note": "Proved for every consistent graph, every iteration order and every permutation done by sorting; exactly the nodes no cycle leads to are visited."
  },
  {
   "property": "C55",
   "status": "partial",
   "theorems": [
    "Verif.Graph.C55_reachable",
    "Verif.Graph.C55_bfs_nearest_first",
    "Verif.Graph.C55_dfs_deepens",
    "Verif.Graph.C55_once_partial",
    "Verif.Graph.C55_dfs_linear",
    "Verif.Graph.C55_bfs_once_violated",
    "Verif.Graph.C55_dfs_once_violated"
   ],
   "note": "Both walks end and visit exactly the reachable nodes; bfs is nearest first, dfs deepens. Each node once only on trees: bfs makes 2^L-1 visits on some graphs of 2L nodes, dfs at most one per edge."
  },
  {
   "property": "C56",
   "status": "partial",
   "theorems": [
    "Verif.Graph.C56_subgraph",
    "Verif.Graph.C56_forest_partial",
    "Verif.Graph.C56_reach_violated"
   ],
   "note": "The comparison is not used, so nothing is minimal. With nodes reached from several roots an earlier root can lose nodes."
  },
  {
   "property": "C57",
   "status": "partial",
   "theorems": [
    "Verif.Memory.C57_history_partial",
    "Verif.Memory.C57_empty_partial",
    "Verif.Memory.C57_reset_violated",
    "Verif.Memory.C57_assign_empty_violated"
   ],
   "note": "reset (and so assignment and destruction) of a handle that shares its object leaves the handle pointing at the object after giving up its count (C57_reset_violated); assigning an empty handle over a shared one keeps the old pointer (C57_assign_empty_violated). C57_history_partial proves the property for every history that avoids those two steps."
  },
  {
   "property": "C58",
   "status": "partial",
   "theorems": [
    "Verif.Memory.C58_wait_partial",
    "Verif.Memory.C58_value_partial",
    "Verif.Memory.C58_longest_violated",
    "Verif.Memory.C58_wait_if"
   ],
   "note": "Waiting for the longest representable duration overflows the end time (C58_longest_violated). C58_wait_partial and C58_value_partial assume that the end time is representable and the clock monotone; atomic_wait_if is proved without assumptions."
  },
  {
   "property": "C59",
   "status": "partial",
   "theorems": [
    "Verif.Hash.C59_siphash_partial",
    "Verif.Hash.C59_sign_violated",
    "Verif.Hash.C59_keys_collide_violated"
   ],
   "note": "C59_siphash_partial proves the code equal to the published SipHash-2-4 definition for keys and messages whose bytes are all below 0x80 (little endian host). C59_sign_violated: bytes of 0x80 and above are sign extended, so the result differs from SipHash; C59_keys_collide_violated: different keys give the same hash function."
  },
  {
   "property": "C60",
   "status": "partial",
   "theorems": [
    "Verif.Hash.C60_metro_partial",
    "Verif.Hash.C60_sign_violated"
   ],
   "note": "C60_metro_partial proves the code equal to MetroHash64 for every message whose last odd byte is below 0x80 (or absent). C60_sign_violated: that byte is sign extended otherwise."
  },
  {
   "property": "C61",
   "status": "partial",
   "theorems": [
    "Verif.Parse.C61_round_trip_partial",
    "Verif.Parse.C61_accepts_partial",
    "Verif.Parse.C61_rejects_partial",
    "Verif.Parse.C61_violated"
   ],
   "note": "C61_round_trip_partial leaves out only the least value of types of int width and wider (the negation overflows there, UB). C61_accepts_partial/C61_rejects_partial say which texts are accepted. C61_violated: \"-\" is accepted as 0 and unrepresentable values are reduced or UB rather than rejected."
  },
  {
   "property": "C62",
   "status": "partial",
   "theorems": [
    "Verif.Parse.C62_parts",
    "Verif.Parse.C62_join_partial",
    "Verif.Parse.C62_empty_violated",
    "Verif.Parse.C62_whitespace",
    "Verif.Parse.C62_parse_to",
    "Verif.Parse.C62_numbers_partial",
    "Verif.Parse.C62_rest_violated"
   ],
   "note": "C62_parts, C62_join_partial, C62_whitespace, C62_parse_to hold for every text and delimiter that is not empty. C62_empty_violated: an empty delimiter gives only empty views. C62_rest_violated: text behind the last view is ignored."
  },
  {
   "property": "C63",
   "status": "partial",
   "theorems": [
    "Verif.Parse.C63_until",
    "Verif.Parse.C63_until_throw",
    "Verif.Parse.C63_until_false",
    "Verif.Parse.C63_until_value",
    "Verif.Parse.C63_value_in_violated",
    "Verif.Parse.C63_until_values_violated",
    "Verif.Parse.C63_expect",
    "Verif.Parse.C63_assert_violated",
    "Verif.Parse.C63_from_to_pred",
    "Verif.Parse.C63_from_to",
    "Verif.Parse.C63_from_to_violated",
    "Verif.Parse.C63_split_violated",
    "Verif.Parse.C63_split_partial",
    "Verif.Parse.C63_skip_ws",
    "Verif.Parse.C63_trim_left_partial",
    "Verif.Parse.C63_trim_left_violated",
    "Verif.Parse.C63_trim_right_any",
    "Verif.Parse.C63_trim_partial",
    "Verif.Parse.C63_trim_right_violated",
    "Verif.Parse.C63_crlf_partial",
    "Verif.Parse.C63_crlf_violated",
    "Verif.Parse.C63_starts_with",
    "Verif.Parse.C63_starts_with_prefix",
    "Verif.Parse.C63_until_last_of",
    "Verif.Parse.C63_find_any_violated",
    "Verif.Parse.C63_find_any_single_violated",
    "Verif.Parse.C63_find_any_loop_violated"
   ],
   "note": "until, until_false, expect, from_to, skip_ws, starts_with, until_last_of hold for every input. Findings: value_in and assert are inverted (C63_value_in_violated, C63_assert_violated), split never returns when the text holds a delimiter (C63_split_violated), trim_left leaves a text of white space alone, trim_right cuts at interior white space, is_crlf only sees one of the two in front, find_first_of_any gives wrong positions or never returns, from_to with equal ends is empty. matcher_t (std::search) is not modelled."
  },
  {
   "property": "C64",
   "status": "partial",
   "theorems": [
    "Verif.Pipe.C64_chunk_partial",
    "Verif.Pipe.C64_violated",
    "Verif.Pipe.C64_zero_violated"
   ],
   "note": "C64_chunk_partial: holds when the length is a multiple of n. C64_violated: otherwise the last chunk reaches past the end. C64_zero_violated: Chunk(0) never ends."
  },
  {
   "property": "C65",
   "status": "partial",
   "theorems": [
    "Verif.Pipe.C65_slide_partial",
    "Verif.Pipe.C65_violated"
   ],
   "note": "C65_slide_partial: holds for ranges with at least n elements. C65_violated: a shorter range is read past its end."
  },
  {
   "property": "C66",
   "status": "partial",
   "theorems": [
    "Verif.Pipe.C66_parts_partial",
    "Verif.Pipe.C66_join_partial",
    "Verif.Pipe.C66_trailing_violated",
    "Verif.Pipe.C66_range_violated",
    "Verif.Pipe.C66_empty_violated",
    "Verif.Pipe.C66_distance_violated",
    "Verif.Pipe.C66_end_not_read"
   ],
   "note": "C66_parts_partial, C66_join_partial: holds for one-element delimiters when the range does not end with the delimiter. Findings: a trailing empty part is dropped, a range delimiter skips only one element, an empty range delimiter, distance between split iterators ends the program."
  },
  {
   "property": "C67",
   "status": "partial",
   "theorems": [
    "Verif.Pipe.C67_filter",
    "Verif.Pipe.C67_take_until",
    "Verif.Pipe.C67_take_while_violated",
    "Verif.Pipe.C67_take_partial",
    "Verif.Pipe.C67_take_violated",
    "Verif.Pipe.C67_skip_partial",
    "Verif.Pipe.C67_skip_violated"
   ],
   "note": "C67_filter and C67_take_until hold for every range. C67_take_while_violated: TakeWhile behaves as TakeUntil. Take and Skip hold for counts up to PTRDIFF_MAX."
  },
  {
   "property": "C68",
   "status": "partial",
   "theorems": [
    "Verif.Pipe.C68_concat_partial",
    "Verif.Pipe.C68_violated"
   ],
   "note": "C68_concat_partial: holds when no empty range stands before a non-empty one. C68_violated: otherwise the elements past it are not reached or the empty range is dereferenced."
  },
  {
   "property": "C69",
   "status": "partial",
   "theorems": [
    "Verif.Pipe.C69_flatten_partial",
    "Verif.Pipe.C69_violated",
    "Verif.Pipe.C69_past_end"
   ],
   "note": "C69_flatten_partial: holds when all inner ranges are non-empty. C69_violated: an empty inner range is dereferenced."
  },
  {
   "property": "C70",
   "status": "proved",
   "theorems": [
    "Verif.Pipe.C70_unique",
    "Verif.Pipe.C70_runs_unique"
   ],
   "note": ""
  },
  {
   "property": "C71",
   "status": "partial",
   "theorems": [
    "Verif.SpanWriter.C71_writes",
    "Verif.SpanWriter.C71_arguments_partial",
    "Verif.SpanWriter.C71_alias_violated",
    "Verif.SpanWriter.C71_index"
   ],
   "note": "C71_writes: every sequence of writes of values, ranges, literals and prefix removals, fitting or not. C71_alias_violated: write(buf[1], buf[0]) stores buf[1] twice as arguments are read through references while earlier ones are stored; C71_arguments_partial covers arguments not stored to before."
  },
  {
   "property": "C72",
   "status": "proved",
   "theorems": [
    "Verif.Algorithm.C72_any_of",
    "Verif.Algorithm.C72_none_of",
    "Verif.Algorithm.C72_all_of",
    "Verif.Algorithm.C72_count_if"
   ],
   "note": ""
  },
  {
   "property": "C73",
   "status": "proved",
   "theorems": [
    "Verif.Algorithm.C73_reverse",
    "Verif.Algorithm.C73_reverse_all"
   ],
   "note": ""
  },
  {
   "property": "C74",
   "status": "proved",
   "theorems": [
    "Verif.Vector.C74_append_and_overwrite",
    "Verif.Vector.C74_over_report"
   ],
   "note": ""
  },
  {
   "property": "C75",
   "status": "partial",
   "theorems": [
    "Verif.Vector.C75_self_push_violated",
    "Verif.Vector.C75_self_push_partial"
   ],
   "note": "Undefined behaviour whenever the push reallocates; correct when there is room on that side."
  },
  {
   "property": "C76",
   "status": "proved",
   "theorems": [
    "Verif.Algorithm.C76_find_last_of",
    "Verif.Algorithm.C76_find_first_range_of"
   ],
   "note": ""
  },
  {
   "property": "C77",
   "status": "proved",
   "theorems": [
    "Verif.Algorithm.C77_find",
    "Verif.Algorithm.C77_find_index_if",
    "Verif.Algorithm.C77_find_index_of_if",
    "Verif.Algorithm.C77_contains_if",
    "Verif.Algorithm.C77_adjacent_find",
    "Verif.Algorithm.C77_find_transform",
    "Verif.Algorithm.C77_find_some",
    "Verif.Algorithm.C77_find_one_of"
   ],
   "note": ""
  },
  {
   "property": "C78",
   "status": "proved",
   "theorems": [
    "Verif.Algorithm.C78_transform",
    "Verif.Algorithm.C78_transform_n",
    "Verif.Algorithm.C78_fill_n",
    "Verif.Algorithm.C78_iota"
   ],
   "note": ""
  },
  {
   "property": "C79",
   "status": "proved",
   "theorems": [
    "Verif.Algorithm.C79_transform_if"
   ],
   "note": ""
  },
  {
   "property": "C80",
   "status": "proved",
   "theorems": [
    "Verif.Algorithm.C80_accumulate",
    "Verif.Algorithm.C80_accumulate_parts",
    "Verif.Algorithm.C80_map_reduce",
    "Verif.Algorithm.C80_partial_sum"
   ],
   "note": ""
  },
  {
   "property": "C81",
   "status": "partial",
   "theorems": [
    "Verif.Algorithm.C81_consume_if_partial",
    "Verif.Algorithm.C81_consume_if_calls_violated"
   ],
   "note": "what remains in the range is as after remove_if; func is called with kept elements instead of the removed ones (violated)"
  },
  {
   "property": "C82",
   "status": "partial",
   "theorems": [
    "Verif.Algorithm.C82_equal3",
    "Verif.Algorithm.C82_not_equal3_violated",
    "Verif.Algorithm.C82_not_equal3_partial"
   ],
   "note": "equal proved; not_equal with one end iterator tests that no place is equal (violated), same defect as C26"
  },
  {
   "property": "C83",
   "status": "proved",
   "theorems": [
    "Verif.Algorithm.C83_min_item",
    "Verif.Algorithm.C83_max_item",
    "Verif.Algorithm.C83_minmax_item",
    "Verif.Algorithm.C83_clamp"
   ],
   "note": ""
  },
  {
   "property": "C84",
   "status": "proved",
   "theorems": [
    "Verif.SV.Raw.C84_accessors",
    "Verif.SV.Raw.C84_make",
    "Verif.SV.Raw.C84_dec_front",
    "Verif.SV.Raw.C84_dec_back",
    "Verif.SV.Raw.C84_expand",
    "Verif.SV.Raw.C84_others"
   ],
   "note": ""
  },
  {
   "property": "C85",
   "status": "partial",
   "theorems": [
    "Verif.SV.C85_find_first_match_partial",
    "Verif.SV.C85_find_first_match_violated"
   ],
   "note": "One needle is proved; with several, a needle that agrees in its first characters makes the next one be compared from where it stopped (C85_find_first_match_violated)."
  },
  {
   "property": "C86",
   "status": "partial",
   "theorems": [
    "Verif.SV.View.C86_pop_front",
    "Verif.SV.View.C86_pop_back",
    "Verif.SV.View.C86_pop_front_unsafe_violated",
    "Verif.SV.View.C86_pop_partial"
   ],
   "note": "pop_front( count ) and pop_back( count ) in full; pop_front_unsafe( count ) is wrong (C86_pop_front_unsafe_violated); pop_front() and pop_back() need a non-empty view."
  },
  {
   "property": "C87",
   "status": "proved",
   "theorems": [
    "Verif.SV.C87_copy",
    "Verif.SV.C87_copy_room"
   ],
   "note": ""
  },
  {
   "property": "C88",
   "status": "proved",
   "theorems": [
    "Verif.SV.OStream.C88_insert"
   ],
   "note": ""
  },
  {
   "property": "C89",
   "status": "partial",
   "theorems": [
    "Verif.Bits.StaticBitset.C89_counts",
    "Verif.Bits.StaticBitset.C89_zero_count_violated",
    "Verif.Bits.StaticBitset.C89_hex",
    "Verif.Bits.StaticBitset.C89_value",
    "Verif.Bits.StaticBitset.C89_binary_violated",
    "Verif.Bits.StaticBitset.C89_binary_partial",
    "Verif.Bits.StaticBitset.C89_binary_zero_violated"
   ],
   "note": "one_count and the hexadecimal text are full; zero_count counts bits beyond the width and the binary text is written to the wrong place."
  },
  {
   "property": "C90",
   "status": "partial",
   "theorems": [
    "Verif.Bits.Zeros.C90_round_up_partial",
    "Verif.Bits.Zeros.C90_round_up_violated",
    "Verif.Bits.Zeros.C90_count_digits",
    "Verif.Bits.Zeros.C90_popcount",
    "Verif.Bits.Zeros.C90_popcount_narrow_violated",
    "Verif.Bits.Zeros.C90_popcount_narrow_partial",
    "Verif.Bits.Zeros.C90_is_odd",
    "Verif.Bits.Zeros.C90_is_even_violated"
   ],
   "note": "round_up_pow2 wraps to 0 above the highest power of two; is_even is is_odd; popcount of narrow negative numbers counts sign bits."
  },
  {
   "property": "C91",
   "status": "partial",
   "theorems": [
    "Verif.Bits.Power.C91_pow2",
    "Verif.Bits.Power.C91_abs_partial",
    "Verif.Bits.Power.C91_abs_violated",
    "Verif.Bits.Power.C91_factorial_partial"
   ],
   "note": "abs of the least value overflows; factorial is partial since it leaves the range of the type."
  },
  {
   "property": "C92",
   "status": "partial",
   "theorems": [
    "Verif.Graph.C92_equality_violated",
    "Verif.Graph.C92_inequality",
    "Verif.Graph.C92_equality_partial"
   ],
   "note": "operator== of the node proxies holds as soon as graph or id agree."
  },
  {
   "property": "C93",
   "status": "partial",
   "theorems": [
    "Verif.Graph.C93_child_order_violated"
   ],
   "note": "`not comp` is reflexive, so the order of the children is never a strict weak order."
  },
  {
   "property": "C94",
   "status": "partial",
   "theorems": [
    "Verif.Graph.C94_reverse_range_violated",
    "Verif.Graph.C94_forward_range_partial",
    "Verif.Graph.C94_backward"
   ],
   "note": "begin of the reverse range is reverse_iterator(first): its first dereference leaves the vector."
  },
  {
   "property": "C95",
   "status": "partial",
   "theorems": [
    "Verif.Memory.C95_forgotten_violated",
    "Verif.Memory.C95_prompt_partial"
   ],
   "note": "A satisfying value read by the first loop is read again and can be forgotten (C95_forgotten_violated); C95_prompt_partial proves that no other value is."
  },
  {
   "property": "C96",
   "status": "partial",
   "theorems": [
    "Verif.Own.UniquePtr.C96_conservation",
    "Verif.Own.UniquePtr.C96_exactly_once_partial",
    "Verif.Own.UniquePtr.C96_exclusive",
    "Verif.Own.UniquePtr.C96_no_null",
    "Verif.Own.UniquePtr.C96_sentinel_violated",
    "Verif.Own.UniquePtr.C96_deleter_violated"
   ],
   "note": "A deleter-specific sentinel and a throwing or replaced deleter are findings (C96_sentinel_violated, C96_deleter_violated)."
  },
  {
   "property": "C97",
   "status": "partial",
   "theorems": [
    "Verif.Own.UniquePtr.C97_compare_partial",
    "Verif.Own.UniquePtr.C97_le_violated"
   ],
   "note": "operator<= is not(lhs < rhs); the other five operators agree."
  },
  {
   "property": "C98",
   "status": "partial",
   "theorems": [
    "Verif.Own.MaybeUnique.C98_conservation_partial",
    "Verif.Own.MaybeUnique.C98_borrowed_partial",
    "Verif.Own.MaybeUnique.C98_exactly_once_partial",
    "Verif.Own.MaybeUnique.C98_move_violated",
    "Verif.Own.MaybeUnique.C98_assign_violated",
    "Verif.Own.MaybeUnique.C98_reset_violated"
   ],
   "note": "Moving from a non-owner makes an owner and reset( p ) of an owner deletes the new object at once (C98_move_violated, C98_assign_violated, C98_reset_violated); programs without these steps are covered."
  },
  {
   "property": "C99",
   "status": "partial",
   "theorems": [
    "Verif.Own.Values.C99_value_ptr_partial",
    "Verif.Own.Values.C99_no_leak",
    "Verif.Own.Values.C99_copy_empty_violated",
    "Verif.Own.Values.C99_assign_empty_violated"
   ],
   "note": "Copying an empty value_ptr and move-assigning a value to one dereference null; all else agrees with optional values."
  },
  {
   "property": "C100",
   "status": "proved",
   "theorems": [
    "Verif.Own.Values.C100_compare"
   ],
   "note": ""
  },
  {
   "property": "C101",
   "status": "partial",
   "theorems": [
    "Verif.Own.Values.C101_heap_value_partial",
    "Verif.Own.Values.C101_no_moves",
    "Verif.Own.Values.C101_moved_from_violated"
   ],
   "note": "A moved-from heap_value cannot be copied, assigned or written."
  },
  {
   "property": "C102",
   "status": "proved",
   "theorems": [
    "Verif.Own.Values.C102_copiable",
    "Verif.Own.Values.C102_total"
   ],
   "note": ""
  },
  {
   "property": "C103",
   "status": "proved",
   "theorems": [
    "Verif.Own.Values.C103_poly_value"
   ],
   "note": ""
  },
  {
   "property": "C104",
   "status": "partial",
   "theorems": [
    "Verif.Own.Resource.C104_conservation_partial",
    "Verif.Own.Resource.C104_exactly_once_partial",
    "Verif.Own.Resource.C104_reset_violated",
    "Verif.Own.Resource.C104_move_empty_violated"
   ],
   "note": "reset() keeps the value, so the destructor deletes it again; move-assigning from an empty resource reads an empty optional. The partial theorems cover programs without those steps."
  },
  {
   "property": "C105",
   "status": "partial",
   "theorems": [
    "Verif.Own.Resource.C105_exactly_once_partial",
    "Verif.Own.Resource.C105_move_violated",
    "Verif.Own.Resource.C105_move_assign_violated",
    "Verif.Own.Resource.C105_throw_violated"
   ],
   "note": "Moves run the action twice or lose it, and a throwing action terminates; the partial theorem covers programs without moves."
  },
  {
   "property": "C106",
   "status": "partial",
   "theorems": [
    "Verif.Own.Resource.C106_success_partial",
    "Verif.Own.Resource.C106_unwinding_violated"
   ],
   "note": "Inside a destructor run by unwinding the guard does not run its action (it tests uncaught_exceptions for zero)."
  },
  {
   "property": "C107",
   "status": "partial",
   "theorems": [
    "Verif.Own.Resource.C107_count_partial",
    "Verif.Own.Resource.C107_assign_violated"
   ],
   "note": "The assignment operators return no value, which is undefined."
  },
  {
   "property": "C108",
   "status": "proved",
   "theorems": [
    "Verif.Own.Resource.C108_once"
   ],
   "note": ""
  },
  {
   "property": "C109",
   "status": "proved",
   "theorems": [
    "Verif.Own.Resource.C109_take_assign"
   ],
   "note": ""
  },
  {
   "property": "C110",
   "status": "partial",
   "theorems": [
    "Verif.Own.Resource.C110_never_null_partial",
    "Verif.Own.Resource.C110_moved_violated"
   ],
   "note": "Moving from a not_null around a smart pointer leaves null inside."
  },
  {
   "property": "C111",
   "status": "partial",
   "theorems": [
    "Verif.Own.Optional.C111_opt_opt",
    "Verif.Own.Optional.C111_opt_null",
    "Verif.Own.Optional.C111_opt_val",
    "Verif.Own.Optional.C111_null_opt_partial",
    "Verif.Own.Optional.C111_val_opt_partial",
    "Verif.Own.Optional.C111_null_ge_violated",
    "Verif.Own.Optional.C111_val_ge_violated"
   ],
   "note": "Two operators with the optional on the right are wrong; all others agree."
  },
  {
   "property": "C112",
   "status": "partial",
   "theorems": [
    "Verif.Own.Optional.C112_from_code",
    "Verif.Own.Optional.C112_states_partial",
    "Verif.Own.Optional.C112_last",
    "Verif.Own.Optional.C112_null_exception_violated",
    "Verif.Own.Optional.C112_valueless_violated",
    "Verif.Own.Optional.C112_from_code_as_violated",
    "Verif.Own.Optional.C112_bool_finding"
   ],
   "note": ""
  },
  {
   "property": "C113",
   "status": "partial",
   "theorems": [
    "Verif.Own.SafePointer.C113_add_partial",
    "Verif.Own.SafePointer.C113_sub_partial",
    "Verif.Own.SafePointer.C113_inc_dec",
    "Verif.Own.SafePointer.C113_history_partial",
    "Verif.Own.SafePointer.C113_least_violated",
    "Verif.Own.SafePointer.C113_single_violated",
    "Verif.Own.SafePointer.C113_destroyed"
   ],
   "note": "An offset equal to the least 64-bit integer overflows, and the single-pointer constructor forms a range of unrelated pointers."
  },
  {
   "property": "C114",
   "status": "partial",
   "theorems": [
    "Verif.Own.SafePointer.C114_deref_partial",
    "Verif.Own.SafePointer.C114_index_violated",
    "Verif.Own.SafePointer.C114_past_end_violated"
   ],
   "note": "operator[] ignores its index."
  },
  {
   "property": "C115",
   "status": "partial",
   "theorems": [
    "Verif.Own.SafePointer.C115_diff_partial",
    "Verif.Own.SafePointer.C115_end_violated"
   ],
   "note": "At the end position the difference stops the program."
  },
  {
   "property": "C116",
   "status": "proved",
   "theorems": [
    "Verif.Memory.SharedFunction.C116_safe",
    "Verif.Memory.SharedFunction.C116_exactly_once",
    "Verif.Memory.SharedFunction.C116_prompt",
    "Verif.Memory.SharedFunction.C116_call"
   ],
   "note": "Sequentially consistent interleaving of the atomic operations; counts do not overflow."
  },
  {
   "property": "C117",
   "status": "proved",
   "theorems": [
    "Verif.Memory.SharedFunction.C117_lock_fails",
    "Verif.Memory.SharedFunction.C117_lock_holds"
   ],
   "note": ""
  },
  {
   "property": "C118",
   "status": "proved",
   "theorems": [
    "Verif.Random.C118_permutes",
    "Verif.Random.C118_one_choice"
   ],
   "note": ""
  },
  {
   "property": "C119",
   "status": "partial",
   "theorems": [
    "Verif.Random.C119_fill",
    "Verif.Random.C119_make",
    "Verif.Random.C119_integer_partial",
    "Verif.Random.C119_single_violated"
   ],
   "note": "random_fill and make_random_data hold in full; RandomInteger throws for equal inclusive bounds."
  },
  {
   "property": "C120",
   "status": "proved",
   "theorems": [
    "Verif.Random.Lcg.C120_period64",
    "Verif.Random.Lcg.C120_visits64",
    "Verif.Random.Lcg.C120_period32",
    "Verif.Random.Lcg.C120_visits32"
   ],
   "note": "About the states of the generator; the hash that turns a state into the returned number is not part of it."
  },
  {
   "property": "C121",
   "status": "partial",
   "theorems": [
    "Verif.Own.StackFunction.C121_plain_partial",
    "Verif.Own.StackFunction.C121_owned_partial",
    "Verif.Own.StackFunction.C121_usable_partial",
    "Verif.Own.StackFunction.C121_copy_violated",
    "Verif.Own.StackFunction.C121_assign_violated",
    "Verif.Own.StackFunction.C121_lvalue_violated"
   ],
   "note": "Proved for callables that can be copied as bytes, and for programs without copies, assignments and lvalues. Copying a function with a destructor, assigning a callable with one, and construction from an lvalue are violated."
  },
  {
   "property": "C122",
   "status": "partial",
   "theorems": [
    "Verif.Iter.C122_signed_partial",
    "Verif.Iter.C122_unsigned_violated",
    "Verif.Iter.C122_greater_violated",
    "Verif.Iter.C122_equal_violated",
    "Verif.Iter.C122_overflow_violated"
   ],
   "note": "Holds for < and >= of signed types. Iterators of unsigned types are always equal, > never holds, == holds for greater values, and differences that overflow wrap or are undefined."
  },
  {
   "property": "C123",
   "status": "partial",
   "theorems": [
    "Verif.Iter.C123_steps_partial",
    "Verif.Iter.C123_value_partial",
    "Verif.Iter.C123_distance_partial",
    "Verif.Iter.C123_range_distance_violated",
    "Verif.Iter.C123_add_assign_partial",
    "Verif.Iter.C123_add_assign_violated",
    "Verif.Iter.C123_add_assign_always_violated"
   ],
   "note": "Holds for +, -, [] and differences; += and -= ignore the step."
  },
  {
   "property": "C124",
   "status": "partial",
   "theorems": [
    "Verif.Iter.C124_visits_partial",
    "Verif.Iter.C124_plain_partial",
    "Verif.Iter.C124_unsigned_violated",
    "Verif.Iter.C124_down_violated"
   ],
   "note": "Holds for signed types and steps above zero. Empty for unsigned types and for steps below zero."
  },
  {
   "property": "C125",
   "status": "partial",
   "theorems": [
    "Verif.Iter.Chunk.C125_visits_partial",
    "Verif.Iter.Chunk.C125_rest_violated",
    "Verif.Iter.Chunk.C125_steps_partial",
    "Verif.Iter.Chunk.C125_undo_partial",
    "Verif.Iter.Chunk.C125_minus_violated",
    "Verif.Iter.Chunk.C125_minus_case_violated",
    "Verif.Iter.Chunk.C125_distance_violated"
   ],
   "note": "Holds when the size divides the length, for ++, -- and +. - moves forward, distances count elements, and a rest runs over the end."
  },
  {
   "property": "C126",
   "status": "partial",
   "theorems": [
    "Verif.Iter.Repeat.C126_visits_partial",
    "Verif.Iter.Repeat.C126_distance_partial",
    "Verif.Iter.Repeat.C126_undo_partial",
    "Verif.Iter.Repeat.C126_plus_violated",
    "Verif.Iter.Repeat.C126_skip_violated"
   ],
   "note": "The loop is right; + and - move the wrong way."
  },
  {
   "property": "C127",
   "status": "proved",
   "theorems": [
    "Verif.Iter.C127_refines",
    "Verif.Iter.C127_walk"
   ],
   "note": ""
  },
  {
   "property": "C128",
   "status": "proved",
   "theorems": [
    "Verif.Iter.C128_distance",
    "Verif.Iter.C128_count"
   ],
   "note": ""
  },
  {
   "property": "C129",
   "status": "partial",
   "theorems": [
    "Verif.Iter.Arg.C129_visits_partial",
    "Verif.Iter.Arg.C129_null_partial",
    "Verif.Iter.Arg.C129_equal_partial",
    "Verif.Iter.Arg.C129_at_partial",
    "Verif.Iter.Arg.C129_steps_partial",
    "Verif.Iter.Arg.C129_at_violated",
    "Verif.Iter.Arg.C129_order_violated"
   ],
   "note": "The loop, equality and at for every argument but the first hold. The order compares the numbers of arguments, and at refuses the first argument."
  },
  {
   "property": "C130",
   "status": "partial",
   "theorems": [
    "Verif.Iter.Indexed.C130_visits_partial",
    "Verif.Iter.Indexed.C130_range_partial",
    "Verif.Iter.Indexed.C130_make_partial",
    "Verif.Iter.Indexed.C130_plus_partial",
    "Verif.Iter.Indexed.C130_order_partial",
    "Verif.Iter.Indexed.C130_deref_end_violated",
    "Verif.Iter.Indexed.C130_moves_violated",
    "Verif.Iter.Indexed.C130_plus_end_violated",
    "Verif.Iter.Indexed.C130_distance_violated"
   ],
   "note": "The loop, +, - and comparisons hold. Reading at the end is undefined, ++, -- and -= leave the container, + refuses the end and negative distances abort."
  },
  {
   "property": "C131",
   "status": "partial",
   "theorems": [
    "Verif.Iter.Checked.C131_flags_violated",
    "Verif.Iter.Checked.C131_moves_violated",
    "Verif.Iter.Checked.C131_part_violated",
    "Verif.Iter.Checked.C131_postfix_violated",
    "Verif.Iter.Checked.C131_deref_partial"
   ],
   "note": "Only the check of a read at the end is made. The checks of ++ and -- never happen, and postfix ++ does not move."
  },
  {
   "property": "C132",
   "status": "partial",
   "theorems": [
    "Verif.Iter.Find.C132_visits_partial",
    "Verif.Iter.Find.C132_null_partial",
    "Verif.Iter.Find.C132_null_violated"
   ],
   "note": "Holds for ranges; the constructor without an end searches behind the block."
  },
  {
   "property": "C133",
   "status": "partial",
   "theorems": [
    "Verif.Iter.FindOne.C133_find_partial",
    "Verif.Iter.FindOne.C133_visits_partial",
    "Verif.Iter.FindOne.C133_visits_violated"
   ],
   "note": "The first element is always seen, with a wrong index; from the second one on the claim holds."
  },
  {
   "property": "C134",
   "status": "proved",
   "theorems": [
    "Verif.Iter.SortedInsert.C134_insert"
   ],
   "note": ""
  },
  {
   "property": "C135",
   "status": "partial",
   "theorems": [
    "Verif.Iter.Erased.C135_refines_partial",
    "Verif.Iter.Erased.C135_no_leak_partial",
    "Verif.Iter.Erased.C135_assign_violated",
    "Verif.Iter.Erased.C135_move_assign_violated",
    "Verif.Iter.Erased.C135_equal_partial"
   ],
   "note": "Holds for programs whose copy assignments are between iterators of the same type and whose move assignments are to moved-from objects. Otherwise the delete is through the wrong type, or the old iterator leaks."
  },
  {
   "property": "C136",
   "status": "partial",
   "theorems": [
    "Verif.Vector.C136_insert_partial",
    "Verif.Vector.C136_insert_violated",
    "Verif.Vector.C136_insert_never_returns_finding",
    "Verif.Vector.C136_assign"
   ],
   "note": "Holds if std::move_iterator is a forward iterator (libraries with P2520). With the move_iterator of C++20 as published the last step of insert calls insert itself and never ends."
  },
  {
   "property": "C137",
   "status": "partial",
   "theorems": [
    "Verif.Bits.Masks.C137_mask_msb_partial",
    "Verif.Bits.Masks.C137_mask_msb_signed_partial",
    "Verif.Bits.Masks.C137_mask_msb_violated",
    "Verif.Bits.Masks.C137_mask_lsb_partial",
    "Verif.Bits.Masks.C137_mask_lsb_signed_partial",
    "Verif.Bits.Masks.C137_mask_lsb_violated"
   ],
   "note": "Holds for unsigned types. Signed types lose the sign bit, and before C++20 mask_lsb is undefined for them from two bits on."
  },
  {
   "property": "C138",
   "status": "proved",
   "theorems": [
    "Verif.Bits.Masks.C138_bits",
    "Verif.Bits.Masks.C138_outside"
   ],
   "note": ""
  },
  {
   "property": "C139",
   "status": "partial",
   "theorems": [
    "Verif.Bits.Masks.C139_are_set_partial",
    "Verif.Bits.Masks.C139_all_violated"
   ],
   "note": "are_set tells whether any bit of any mask is set, as its tests expect, not whether all are."
  },
  {
   "property": "C140",
   "status": "proved",
   "theorems": [
    "Verif.Bits.Masks.C140_classes",
    "Verif.Bits.Masks.C140_case_letters",
    "Verif.Bits.Masks.C140_case_laws"
   ],
   "note": ""
  },
  {
   "property": "C141",
   "status": "proved",
   "theorems": [
    "Verif.Pipe.C141_zip"
   ],
   "note": ""
  },
  {
   "property": "C142",
   "status": "partial",
   "theorems": [
    "Verif.Pipe.C142_lockstep_partial",
    "Verif.Pipe.C142_equality_violated",
    "Verif.Pipe.C142_loop_equality_violated",
    "Verif.Pipe.C142_distance_violated"
   ],
   "note": "Holds for iterators in step. The end of ranges of different lengths is not in step: != and == are both false there, a loop ending at == reads past the shorter range, and the distance is the length of the first range."
  },
  {
   "property": "C143",
   "status": "partial",
   "theorems": [
    "Verif.Pipe.C143_iota_partial",
    "Verif.Pipe.C143_iota_violated",
    "Verif.Pipe.C143_iota_wraps_finding",
    "Verif.Pipe.C143_distance_partial",
    "Verif.Pipe.C143_distance_violated",
    "Verif.Pipe.C143_deduced_finding"
   ],
   "note": "Holds for first <= last. Otherwise the loop overflows (undefined) or wraps around; the distance can be -1 or undefined; without a type the bounds become std::size_t."
  },
  {
   "property": "C144",
   "status": "partial",
   "theorems": [
    "Verif.Pipe.C144_enumerate_partial",
    "Verif.Pipe.C144_enumerate_violated",
    "Verif.Pipe.C144_distance_violated"
   ],
   "note": "Holds while the indexes stay below the largest value of T; beyond, elements are lost. The distance is that of the index type, -1 for std::size_t."
  },
  {
   "property": "C145",
   "status": "partial",
   "theorems": [
    "Verif.Pipe.C145_map_partial",
    "Verif.Pipe.C145_projection_violated"
   ],
   "note": "Holds without a projection. For ranges the projection is never called."
  },
  {
   "property": "C146",
   "status": "partial",
   "theorems": [
    "Verif.Pipe.C146_moves_partial",
    "Verif.Pipe.C146_copy_violated"
   ],
   "note": "Holds without copies. A copy keeps the iterators into the container of the original and dangles when that is destroyed."
  },
  {
   "property": "C147",
   "status": "proved",
   "theorems": [
    "Verif.Pipe.C147_generate"
   ],
   "note": ""
  },
  {
   "property": "C148",
   "status": "proved",
   "theorems": [
    "Verif.Pipe.C148_cache",
    "Verif.Pipe.C148_back"
   ],
   "note": ""
  },
  {
   "property": "C149",
   "status": "proved",
   "theorems": [
    "Verif.Pipe.C149_find",
    "Verif.Pipe.C149_find_if"
   ],
   "note": ""
  },
  {
   "property": "C150",
   "status": "proved",
   "theorems": [
    "Verif.Pipe.C150_contains",
    "Verif.Pipe.C150_first",
    "Verif.Pipe.C150_drop",
    "Verif.Pipe.C150_count_if"
   ],
   "note": ""
  },
  {
   "property": "C151",
   "status": "proved",
   "theorems": [
    "Verif.Pipe.C151_every",
    "Verif.Pipe.C151_every_zero_finding"
   ],
   "note": "Every( 0 ) sees all the elements."
  },
  {
   "property": "C152",
   "status": "partial",
   "theorems": [
    "Verif.Pipe.C152_sum_partial",
    "Verif.Pipe.C152_sum_unsigned",
    "Verif.Pipe.C152_sum_violated"
   ],
   "note": "Holds if all the partial sums fit the type of the elements. The sum has that type, even char, so that it wraps around or is undefined otherwise."
  },
  {
   "property": "C153",
   "status": "proved",
   "theorems": [
    "Verif.Pipe.C153_array"
   ],
   "note": ""
  },
  {
   "property": "C154",
   "status": "partial",
   "theorems": [
    "Verif.Pipe.C154_reverse_finding",
    "Verif.Pipe.C154_reverse_partial",
    "Verif.Pipe.C154_reverse_violated",
    "Verif.Pipe.C154_equal_violated",
    "Verif.Pipe.C154_arithmetic_partial"
   ],
   "note": "The arithmetic holds. Reverse of Take( n ) sees the last elements of the whole range, since the end of Take is the end of that range."
  },
  {
   "property": "C155",
   "status": "partial",
   "theorems": [
    "Verif.Pipe.C155_steps_partial",
    "Verif.Pipe.C155_difference_violated"
   ],
   "note": "The difference of two range_t has the wrong sign, always."
  },
  {
   "property": "C156",
   "status": "partial",
   "theorems": [
    "Verif.Own.C156_trivial_partial",
    "Verif.Own.C156_union_violated",
    "Verif.Own.C156_same_partial",
    "Verif.Own.C156_throw_violated"
   ],
   "note": "Holds for types that are trivial. For others every constructor from a value assigns to a member that is not alive; if the assignment to the held object throws, the object is never destroyed."
  },
  {
   "property": "C157",
   "status": "partial",
   "theorems": [
    "Verif.Own.C157_validated_partial",
    "Verif.Own.C157_validated_violated"
   ],
   "note": "The default constructor does not validate, and what an rvalue get() leaves behind is not validated either: both can hold values that the validator rejects."
  },
  {
   "property": "C158",
   "status": "proved",
   "theorems": [
    "Verif.Own.C158_unique_array"
   ],
   "note": ""
  },
  {
   "property": "C159",
   "status": "partial",
   "theorems": [
    "Verif.Own.C159_access_partial",
    "Verif.Own.C159_at_violated",
    "Verif.Own.C159_empty_violated"
   ],
   "note": "at() is inverted: it throws for every element there is and reads past the array for all other positions. An array made with size 0 is not empty()."
  },
  {
   "property": "C160",
   "status": "partial",
   "theorems": [
    "Verif.Own.C160_sbo_partial",
    "Verif.Own.C160_const_violated",
    "Verif.Own.C160_throw_violated",
    "Verif.Own.C160_const_partial"
   ],
   "note": "The const get asserts that the object is on the heap when it lies inside, so it ends programs with assertions; a throwing constructor of an object on the heap loses its memory."
  },
  {
   "property": "C161",
   "status": "partial",
   "theorems": [
    "Verif.Pipe.C161_join_partial",
    "Verif.Pipe.C161_empty_violated",
    "Verif.Pipe.C161_distance_violated",
    "Verif.Pipe.C161_minus_inside"
   ],
   "note": "Holds if no string is empty; with an empty string anywhere the loop reads past its terminator. The difference is always that to the first iterator."
  },
  {
   "property": "C162",
   "status": "partial",
   "theorems": [
    "Verif.Pipe.C162_concat_partial",
    "Verif.Pipe.C162_concat_violated"
   ],
   "note": "The fold uses `+`, whose operands are evaluated in any order, so that the strings may come in any order; in order for left to right evaluation or one string."
  },
  {
   "property": "C163",
   "status": "proved",
   "theorems": [
    "Verif.Algorithm.C163_swap"
   ],
   "note": ""
  },
  {
   "property": "C164",
   "status": "partial",
   "theorems": [
    "Verif.Algorithm.C164_swap_ranges_partial",
    "Verif.Algorithm.C164_swap_ranges_violated"
   ],
   "note": "iter_swap is given the elements instead of the iterators: it compiles only for ranges of pointers and exchanges what they point to; that much is proved for different pointers."
  },
  {
   "property": "C165",
   "status": "proved",
   "theorems": [
    "Verif.Views.C165_view"
   ],
   "note": ""
  },
  {
   "property": "C166",
   "status": "proved",
   "theorems": [
    "Verif.Views.C166_view_eq"
   ],
   "note": ""
  },
  {
   "property": "C167",
   "status": "partial",
   "theorems": [
    "Verif.Views.C167_subspan_partial",
    "Verif.Views.C167_subspan_violated",
    "Verif.Views.C167_index_violated"
   ],
   "note": "Holds for offset 0. For any other offset the end is counted from the start of the view, so that the result lacks offset elements or ends before it starts. operator[] of a view of non const elements accepts the position behind the last element."
  },
  {
   "property": "C168",
   "status": "partial",
   "theorems": [
    "Verif.Views.C168_span_partial",
    "Verif.Views.C168_span_violated",
    "Verif.Views.C168_subspan_outside"
   ],
   "note": "Holds for programs that never ask for more elements than there are. Otherwise the size wraps around and at() gives elements that are not in the span; pop_front( n ) does this although it clips the part it gives."
  },
  {
   "property": "C169",
   "status": "partial",
   "theorems": [
    "Verif.Views.C169_crend_violated",
    "Verif.Views.C169_make_partial"
   ],
   "note": "The constructors are right. crend of a span of const elements is made of cend, so that the loop from crbegin to crend sees nothing."
  },
  {
   "property": "C170",
   "status": "partial",
   "theorems": [
    "Verif.Algorithm.C170_rotate_partial",
    "Verif.Algorithm.C170_rotate_violated"
   ],
   "note": "Holds if middle is not last. With middle == last, which std::rotate allows, the first step accesses *last."
  },
  {
   "property": "C171",
   "status": "partial",
   "theorems": [
    "Verif.Algorithm.C171_nth_element_partial",
    "Verif.Algorithm.C171_nth_element_violated"
   ],
   "note": "Only that it terminates, accesses nothing outside the range and rearranges the range holds. The swap moves the new minimum to first while min_idx stays behind with the larger element, and the element at nth itself is never chosen."
  },
  {
   "property": "C172",
   "status": "proved",
   "theorems": [
    "Verif.Algorithm.C172_partition"
   ],
   "note": ""
  },
  {
   "property": "C173",
   "status": "partial",
   "theorems": [
    "Verif.Bits.C173_arith",
    "Verif.Bits.C173_neg_partial",
    "Verif.Bits.C173_neg_violated"
   ],
   "note": "Holds for +, - and *. The unary minus of UInt64 and UInt32 is done in int64_t and int32_t and overflows for 2^63 and 2^31."
  },
  {
   "property": "C174",
   "status": "partial",
   "theorems": [
    "Verif.Bits.C174_div_partial",
    "Verif.Bits.C174_div_violated"
   ],
   "note": "Holds if the divisor fits in the type in which the division is done. uint8_t / UInt64 is done in uint32_t: a divisor of 2^32 is a division by zero and 2^32 + 1 divides by 1."
  },
  {
   "property": "C175",
   "status": "partial",
   "theorems": [
    "Verif.Bits.C175_rotate_partial",
    "Verif.Bits.C175_rotate_violated"
   ],
   "note": "Holds for UInt8 and UInt16, and for UInt32 and UInt64 except for the counts zero and the full width, which shift by the full width and are undefined."
  },
  {
   "property": "C176",
   "status": "partial",
   "theorems": [
    "Verif.Bits.C176_set_bit_partial",
    "Verif.Bits.C176_get_bit",
    "Verif.Bits.C176_get_bit_end_violated",
    "Verif.Bits.C176_set_bit_violated"
   ],
   "note": "get_bit is right. set_bit is right for UInt8, UInt16 and UInt32. Of a UInt64 it clears the upper 32 bits, as its mask is ~( 1U << N ), and it is undefined for N of 32 and more."
  },
  {
   "property": "C177",
   "status": "proved",
   "theorems": [
    "Verif.Bits.C177_mask",
    "Verif.Bits.C177_buffer"
   ],
   "note": ""
  },
  {
   "property": "C178",
   "status": "partial",
   "theorems": [
    "Verif.Bits.C178_literals_partial",
    "Verif.Bits.C178_literals_violated"
   ],
   "note": "65535_u16 and 255_u8 fit but end the program: the assertion is value < max()."
  },
  {
   "property": "C179",
   "status": "partial",
   "theorems": [
    "Verif.Views.C179_iter_view_partial",
    "Verif.Views.C179_iter_view_violated"
   ],
   "note": "Holds as far as the assertions do not fail: removing all the elements without clipping and pop_front_until( needle, discard ) for a needle that is absent abort."
  },
  {
   "property": "C180",
   "status": "proved",
   "theorems": [
    "Verif.Views.C180_iter_view_compare"
   ],
   "note": ""
  },
  {
   "property": "C181",
   "status": "partial",
   "theorems": [
    "Verif.Views.C181_subspan_partial",
    "Verif.Views.C181_subspan_violated"
   ],
   "note": "Holds for offset 0 only: the end is counted from the start of the view, not from the offset. If the offset is greater than the number of elements kept the size is nearly 2^64."
  },
  {
   "property": "C182",
   "status": "proved",
   "theorems": [
    "Verif.Views.C182_view"
   ],
   "note": ""
  },
  {
   "property": "C183",
   "status": "partial",
   "theorems": [
    "Verif.Util.C183_bitcount_violated",
    "Verif.Util.C183_bitcount_partial"
   ],
   "note": "Fails for all values but 0 and 3: the loop adds the value without its last bit instead of the last bit, which gives twice the difference of the value and its number of ones. For negative values it never ends."
  },
  {
   "property": "C184",
   "status": "proved",
   "theorems": [
    "Verif.Util.C184_can_fit",
    "Verif.Util.C184_narrow_cast"
   ],
   "note": ""
  },
  {
   "property": "C185",
   "status": "partial",
   "theorems": [
    "Verif.Util.C185_ascii",
    "Verif.Util.C185_strings_partial",
    "Verif.Util.C185_wide_violated"
   ],
   "note": "Holds for characters and strings of char. Strings of wider characters are converted to char first, U+0161 becomes A."
  },
  {
   "property": "C186",
   "status": "proved",
   "theorems": [
    "Verif.Util.C186_char",
    "Verif.Util.C186_integer",
    "Verif.Util.C186_integers",
    "Verif.Util.C186_string"
   ],
   "note": ""
  },
  {
   "property": "C187",
   "status": "partial",
   "theorems": [
    "Verif.Util.C187_object_partial",
    "Verif.Util.C187_object_violated",
    "Verif.Util.C187_objects_violated"
   ],
   "note": "Holds for one object and output to a back inserter. In memory one place is skipped after every byte, and a buffer of exactly two places for each byte is overrun. For a range of objects the output itself is encoded, not the objects."
  },
  {
   "property": "C188",
   "status": "proved",
   "theorems": [
    "Verif.Util.C188_value_from_chars"
   ],
   "note": ""
  },
  {
   "property": "C189",
   "status": "partial",
   "theorems": [
    "Verif.Util.C189_equal_to_last_partial",
    "Verif.Util.C189_equal_to_last_violated"
   ],
   "note": "Holds if each argument lives unchanged until the next call. Only a pointer is kept: a variable changed between calls is compared with itself, and a dead object is read."
  },
  {
   "property": "C190",
   "status": "proved",
   "theorems": [
    "Verif.Util.C190_contains",
    "Verif.Util.C190_copy_vector",
    "Verif.Util.C190_pack_index_of",
    "Verif.Util.C190_pack_apply"
   ],
   "note": ""
  },
  {
   "property": "C191",
   "status": "partial",
   "theorems": [
    "Verif.Util.C191_in_range_partial",
    "Verif.Util.C191_in_range_violated"
   ],
   "note": "Holds for types of one signedness and for values that are not negative. in_range( 5u, -1, 10 ) is false, while can_fit and the function of the same name in daw_int_cmp.h compare the values."
  },
  {
   "property": "C192",
   "status": "partial",
   "theorems": [
    "Verif.Containers.FixedLookup.C192_history_partial",
    "Verif.Containers.FixedLookup.C192_collision_violated"
   ],
   "note": "Holds if different keys have different stored hashes. The table keeps hashes, not keys: two keys of one hash are one entry."
  },
  {
   "property": "C193",
   "status": "proved",
   "theorems": [
    "Verif.Containers.FixedLookup.C193_positions_stay"
   ],
   "note": ""
  },
  {
   "property": "C194",
   "status": "proved",
   "theorems": [
    "Verif.Containers.FixedLookup.C194_make"
   ],
   "note": ""
  },
  {
   "property": "C195",
   "status": "proved",
   "theorems": [
    "Verif.Containers.OrderedMap.C195_ordered_map"
   ],
   "note": ""
  },
  {
   "property": "C196",
   "status": "partial",
   "theorems": [
    "Verif.Sort.StackQuick.C196_quick_sort_partial",
    "Verif.Sort.StackQuick.C196_unsorted_violated",
    "Verif.Sort.StackQuick.C196_overflow_violated"
   ],
   "note": "Up to 256 elements it ends with a permutation whose first element is a least one. It does not sort [1, 2, 3, 5, 4], and for every number of elements from 256 on some input overflows the stack."
  },
  {
   "property": "C197",
   "status": "proved",
   "theorems": [
    "Verif.Own.HeapArray.C197_construct",
    "Verif.Own.HeapArray.C197_copy",
    "Verif.Own.HeapArray.C197_clear",
    "Verif.Own.HeapArray.C197_assign",
    "Verif.Own.HeapArray.C197_read"
   ],
   "note": ""
  },
  {
   "property": "C198",
   "status": "partial",
   "theorems": [
    "Verif.Own.HeapArray.C198_find_first_of_partial",
    "Verif.Own.HeapArray.C198_null",
    "Verif.Own.HeapArray.C198_copy_violated"
   ],
   "note": "Holds for arrays that have an extra element. Copied arrays and those made from a pointer and a size have none, and find_first_of writes past their blocks."
  },
  {
   "property": "C199",
   "status": "partial",
   "theorems": [
    "Verif.Own.HeapArray.C199_moves_partial",
    "Verif.Own.HeapArray.C199_move_violated",
    "Verif.Own.HeapArray.C199_leak_violated",
    "Verif.Own.HeapArray.C199_bool_violated"
   ],
   "note": "swap and move assignment to a null array are right. The move constructor gives the new array a null end, so loops over it leave its block; move assignment leaks the block of the target; the conversion to bool is inverted."
  },
  {
   "property": "C200",
   "status": "partial",
   "theorems": [
    "Verif.Containers.BoundedHashSet.C200_history_partial",
    "Verif.Containers.BoundedHashSet.C200_no_erase",
    "Verif.Containers.BoundedHashSet.C200_erase_violated",
    "Verif.Containers.BoundedHashSet.C200_erase_result_violated"
   ],
   "note": "Holds for all histories without erase, and with erase for entries after which the next place is free. Violated otherwise: erase in the middle of a chain makes other keys disappear; erase of an absent key returns a position."
  },
  {
   "property": "C201",
   "status": "partial",
   "theorems": [
    "Verif.Containers.BoundedHashSet.C201_find_partial",
    "Verif.Containers.BoundedHashSet.C201_find_violated"
   ],
   "note": "Violated for absent keys: unless the set is full the result is not end() but an empty place."
  },
  {
   "property": "C202",
   "status": "partial",
   "theorems": [
    "Verif.Containers.BoundedHashSet.C202_iterator_partial",
    "Verif.Containers.BoundedHashSet.C202_loop_violated"
   ],
   "note": "Violated: the increment from the last entry reads past the array, so every loop over a set that is not empty is undefined behaviour."
  },
  {
   "property": "C203",
   "status": "proved",
   "theorems": [
    "Verif.Containers.BoundedHashSet.C203_make"
   ],
   "note": ""
  },
  {
   "property": "C204",
   "status": "partial",
   "theorems": [
    "Verif.Graph.Bounded.C204_history_partial",
    "Verif.Graph.Bounded.C204_remove_node_violated",
    "Verif.Graph.Bounded.C204_remove_edge_violated"
   ],
   "note": "Holds for all histories that do not remove nodes, with removals of edges if the capacity is not a multiple of 59. Violated: remove_node of any node with an edge is undefined behaviour; with capacity 59 removing one edge removes a side of another."
  },
  {
   "property": "C205",
   "status": "partial",
   "theorems": [
    "Verif.Graph.Bounded.C205_compare_partial",
    "Verif.Graph.Bounded.C205_equal_violated"
   ],
   "note": "!=, < and empty are right. Violated for ==: it tests `or` for `and`, so any two nodes of one graph are both == and !=."
  },
  {
   "property": "C206",
   "status": "proved",
   "theorems": [
    "Verif.Graph.Bounded.C206_find"
   ],
   "note": "For graphs made without the removals that C204 excludes."
  },
  {
   "property": "C207",
   "status": "proved",
   "theorems": [
    "Verif.Algorithm.Extra.C207_satisfies_one",
    "Verif.Algorithm.Extra.C207_satisfies_all",
    "Verif.Algorithm.Extra.C207_satisfies"
   ],
   "note": ""
  },
  {
   "property": "C208",
   "status": "proved",
   "theorems": [
    "Verif.Algorithm.Extra.C208_gather"
   ],
   "note": ""
  },
  {
   "property": "C209",
   "status": "partial",
   "theorems": [
    "Verif.Algorithm.Extra.C209_map",
    "Verif.Algorithm.Extra.C209_for_each_if",
    "Verif.Algorithm.Extra.C209_transform_it",
    "Verif.Algorithm.Extra.C209_iota_setter",
    "Verif.Algorithm.Extra.C209_tuple_functor",
    "Verif.Algorithm.Extra.C209_cartesian_violated",
    "Verif.Algorithm.Extra.C209_cartesian_partial"
   ],
   "note": "Violated for cartesian_product and cartesian_product_map: they go over the ranges in parallel, so of n*n combinations only n are met. The other functions hold in full."
  },
  {
   "property": "C210",
   "status": "partial",
   "theorems": [
    "Verif.Algorithm.Extra.C210_convert_copy_violated",
    "Verif.Algorithm.Extra.C210_convert_loop_partial"
   ],
   "note": "Violated: both functions end without a return statement, which is undefined behaviour for every input. Only what the loop writes is proved."
  },
  {
   "property": "C211",
   "status": "partial",
   "theorems": [
    "Verif.Algorithm.Extra.C211_extract_to",
    "Verif.Algorithm.Extra.C211_extract_all_partial",
    "Verif.Algorithm.Extra.C211_extract_all_violated",
    "Verif.Algorithm.Extra.C211_extract_to_violated",
    "Verif.Algorithm.Extra.C211_extract_matching_violated"
   ],
   "note": "Holds for targets that may hold equal elements. Violated for targets with unique elements: an element the target has already is destroyed. extract_matching is undefined behaviour as soon as an element matches."
  },
  {
   "property": "C212",
   "status": "partial",
   "theorems": [
    "Verif.Algorithm.Extra.C212_in_range_partial",
    "Verif.Algorithm.Extra.C212_in_range_violated",
    "Verif.Algorithm.Extra.C212_compare",
    "Verif.Algorithm.Extra.C212_reference_violated"
   ],
   "note": "Holds for types that moving does not change and variables that keep their values. Violated: with strings correct bounds are rejected or wrong ones accepted, as the check reads moved-from arguments; predicates made from a variable follow its changes and dangle after its end."
  },
  {
   "property": "C213",
   "status": "partial",
   "theorems": [
    "Verif.Vector.C213_erase_if",
    "Verif.Vector.C213_erase_partial",
    "Verif.Vector.C213_erase_own_violated"
   ],
   "note": "Violated for a value that is an element of the vector: the reference follows the cell, which gets another value; a, b, a without its first element by reference becomes b, a. Holds for erase_if and for values outside."
  },
  {
   "property": "C214",
   "status": "proved",
   "theorems": [
    "Verif.Vector.C214_equal",
    "Verif.Vector.C214_order"
   ],
   "note": ""
  },
  {
   "property": "C215",
   "status": "partial",
   "theorems": [
    "Verif.Vector.C215_destruct",
    "Verif.Vector.C215_move_construct",
    "Verif.Vector.C215_move_construct_with",
    "Verif.Vector.C215_move_assign",
    "Verif.Vector.C215_copy_assign_partial",
    "Verif.Vector.C215_copy_assign_violated"
   ],
   "note": "Violated for copy assignment to a vector without a block, if the allocator is propagated and different: deallocate is called with a null pointer. All else holds."
  },
  {
   "property": "C216",
   "status": "partial",
   "theorems": [
    "Verif.SV1.C216_find_partial",
    "Verif.SV1.C216_find_violated",
    "Verif.SV1.C216_rfind",
    "Verif.SV1.C216_first",
    "Verif.SV1.C216_last",
    "Verif.SV1.C216_last_char_partial",
    "Verif.SV1.C216_last_char_violated",
    "Verif.SV1.C216_last_not_of_partial",
    "Verif.SV1.C216_last_not_of_violated",
    "Verif.SV1.C216_search_partial",
    "Verif.SV1.C216_search_violated",
    "Verif.SV1.C216_search_outside",
    "Verif.SV1.C216_search_last_partial"
   ],
   "note": "Violated by find_last_of with a character (looks behind the position, never at the first character, undefined for an empty text), find_last_not_of (returns the last character equal to the first of the set), search and search_last (as in the second version), and find beyond the end. Proved what these return, and the claim for all other members."
  },
  {
   "property": "C217",
   "status": "partial",
   "theorems": [
    "Verif.SV1.C217_compare",
    "Verif.SV1.C217_cut",
    "Verif.SV1.C217_char",
    "Verif.SV1.C217_char_empty_finding",
    "Verif.SV1.C217_resize_partial",
    "Verif.SV1.C217_resize_violated",
    "Verif.SV1.C217_front_found",
    "Verif.SV1.C217_front_missing",
    "Verif.SV1.C217_back_found",
    "Verif.SV1.C217_back_missing",
    "Verif.SV1.C217_pred",
    "Verif.SV1.C217_pred_missing",
    "Verif.SV1.C217_affix"
   ],
   "note": "Violated by resize: a view cannot be resized to its own size. pop_front and pop_back of an empty view are undefined. All else holds."
  },
  {
   "property": "C218",
   "status": "partial",
   "theorems": [
    "Verif.SV1.C218_split_partial",
    "Verif.SV1.C218_pieces_unique",
    "Verif.SV1.C218_literal_violated"
   ],
   "note": "Violated for literals: the terminator counts as a character, so the last piece ends with it; make_string_view of a literal includes it, too. Holds for views and strings."
  },
  {
   "property": "C219",
   "status": "partial",
   "theorems": [
    "Verif.Containers.BStr.C219_history_partial",
    "Verif.Containers.BStr.C219_truncate_violated",
    "Verif.Containers.BStr.C219_remove_npos_finding",
    "Verif.Containers.BStr.C219_erase_violated",
    "Verif.Containers.BStr.C219_erase_all_finding",
    "Verif.Containers.BStr.C219_erase_at_partial",
    "Verif.Containers.BStr.C219_of_str_partial",
    "Verif.Containers.BStr.C219_construct_violated",
    "Verif.Containers.BStr.C219_has_room_violated"
   ],
   "note": "Violated by the constructors for texts longer than the capacity (one character too many, no terminator, and the next push_back is undefined), by erase (the erased character replaces the terminator; erase() ends the program), by the constructor from a bounded string and a count, by make_bounded_string of a literal (counts the terminator) and by has_room (reversed). Proved for all other histories."
  },
  {
   "property": "C220",
   "status": "partial",
   "theorems": [
    "Verif.Containers.BStr.C220_substr_partial",
    "Verif.Containers.BStr.C220_substr_violated",
    "Verif.Containers.BStr.C220_append_part",
    "Verif.Containers.BStr.C220_plus",
    "Verif.Containers.BStr.C220_find",
    "Verif.Containers.BStr.C220_find_first_of_partial",
    "Verif.Containers.BStr.C220_find_first_of_violated",
    "Verif.Containers.BStr.C220_compare"
   ],
   "note": "Violated by substr and copy at the end of the text (they throw) and by find_first_of with a set larger than the capacity (cut). All else holds."
  },
  {
   "property": "C221",
   "status": "partial",
   "theorems": [
    "Verif.Containers.OldHash.C221_probe",
    "Verif.Containers.OldHash.C221_insert_partial",
    "Verif.Containers.OldHash.C221_lookup_violated",
    "Verif.Containers.OldHash.C221_erase_finding",
    "Verif.Containers.OldHash.C221_erase_none",
    "Verif.Containers.OldHash.C221_construct",
    "Verif.Containers.OldHash.C221_clear_finding"
   ],
   "note": "Violated: the test `!pos` asks whether a pointer is null, so that no hash is ever stored; every lookup succeeds with the value inserted last or a default one, occupied stays 0, erase of any key wraps it. After clear the next call divides by zero. Proved that the search is right and that the value inserted last is found."
  },
  {
   "property": "C222",
   "status": "partial",
   "theorems": [
    "Verif.SV1.C222_split_partial",
    "Verif.SV1.C222_empty_violated",
    "Verif.SV1.C222_postfix_violated"
   ],
   "note": "Violated by the empty delimiter (the iteration does not end) and the postfix increment (returns the next position and stays). All else holds."
  },
  {
   "property": "C223",
   "status": "partial",
   "theorems": [
    "Verif.Parse.C223_quoted_partial",
    "Verif.Parse.C223_round_trip_partial",
    "Verif.Parse.C223_accepted",
    "Verif.Parse.C223_unclosed_violated",
    "Verif.Parse.C223_special_violated",
    "Verif.Parse.C223_refused",
    "Verif.Parse.C223_plain"
   ],
   "note": "Violated by texts without the closing quote (the character behind the view is read, undefined at the end of the memory), the empty quoted text (refused, or its closing quote taken as a character) and an escaped backslash before the closing quote. Proved for all other texts, and what is accepted."
  },
  {
   "property": "C224",
   "status": "partial",
   "theorems": [
    "Verif.Vector.Old.C224_history_partial",
    "Verif.Vector.Old.C224_insert_violated"
   ],
   "note": "Violated by insertions inside the vector, which are right exactly if the position is between the number of values and twice that number (for different elements). Proved for histories with such insertions and insertions at the end."
  },
  {
   "property": "C225",
   "status": "partial",
   "theorems": [
    "Verif.Vector.Old.C225_copy_partial",
    "Verif.Vector.Old.C225_push_violated",
    "Verif.Vector.Old.C225_equal",
    "Verif.Vector.Old.C225_unequal_violated",
    "Verif.Vector.Old.C225_unequal_reads_violated"
   ],
   "note": "Violated by push_back into a copy, which writes outside its memory, and by !=, which is false for vectors of the same size and can read behind the shorter one. The elements of copies and == are proved."
  },
  {
   "property": "C226",
   "status": "partial",
   "theorems": [
    "Verif.Own.Checked.C226_from_code",
    "Verif.Own.Checked.C226_history",
    "Verif.Own.Checked.C226_types_partial",
    "Verif.Own.Checked.C226_assign_violated",
    "Verif.Own.Checked.C226_null_finding"
   ],
   "note": "Violated by the assignment of an exception_ptr, whose type is not checked. All else holds."
  },
  {
   "property": "C227",
   "status": "partial",
   "theorems": [
    "Verif.Own.Checked.C227_from_code_partial",
    "Verif.Own.Checked.C227_assign_violated",
    "Verif.Own.Checked.C227_copy_violated",
    "Verif.Own.Checked.C227_false_finding"
   ],
   "note": "Violated by assigning a result without exception to an object with one (it keeps the exception) and copying an object that is not const (the copy has a value). Proved for the other cases."
  },
  {
   "property": "C228",
   "status": "partial",
   "theorems": [
    "Verif.Parse.Format.C228_fields_partial",
    "Verif.Parse.Format.C228_hundred_violated",
    "Verif.Parse.Format.C228_digits_violated",
    "Verif.Parse.Format.C228_open_violated",
    "Verif.Parse.Format.C228_negative"
   ],
   "note": "Violated by fields without digits or with other characters, which are taken as numbers, by fields that are not closed and by numbers from 100 on. Proved for all texts with fields of one or two digits."
  },
  {
   "property": "C229",
   "status": "partial",
   "theorems": [
    "Verif.Parse.Format.C229_fields_partial",
    "Verif.Parse.Format.C229_escape_violated",
    "Verif.Parse.Format.C229_open_end",
    "Verif.Parse.Format.C229_empty_violated",
    "Verif.Parse.Format.C229_backslashes_violated",
    "Verif.Parse.Format.C229_static_partial",
    "Verif.Parse.Format.C229_static_violated"
   ],
   "note": "Violated by backslashes (kept, without effect, and too many do not fit), fields without digits (do not fit) and the version for template arguments (room for one token less). Proved for texts without backslash with fields of 1 to 19 digits."
  },
  {
   "property": "C230",
   "status": "partial",
   "theorems": [
    "Verif.Containers.FixedArray.C230_history_partial",
    "Verif.Containers.FixedArray.C230_clear_violated",
    "Verif.Containers.FixedArray.C230_pointer_violated"
   ],
   "note": "Violated by clear, after which the array can only be freed a second time, and by the constructor from a pointer, which takes the memory another array owns. Proved for histories without them."
  },
  {
   "property": "C231",
   "status": "partial",
   "theorems": [
    "Verif.Containers.FixedArray.C231_loop_partial",
    "Verif.Containers.FixedArray.C231_empty_violated",
    "Verif.Containers.FixedArray.C231_decrement_finding"
   ],
   "note": "Violated for arrays without memory (default constructed, moved from, released), where begin ends the program; --(--it) moves one place only. Proved for arrays with memory."
  },
  {
   "property": "C232",
   "status": "partial",
   "theorems": [
    "Verif.Containers.CArray.C232_construct_partial",
    "Verif.Containers.CArray.C232_excess_violated",
    "Verif.Containers.CArray.C232_history"
   ],
   "note": "Violated for more values than places, which compile and are written behind the array. Histories are proved."
  },
  {
   "property": "C233",
   "status": "partial",
   "theorems": [
    "Verif.Containers.CArray.C233_rbegin_violated",
    "Verif.Containers.CArray.C233_reverse_violated",
    "Verif.Containers.CArray.C233_reverse_reads_violated",
    "Verif.Containers.CArray.C233_reverse_partial"
   ],
   "note": "Violated for every array: rbegin starts before the last element and rend goes before the array. Proved: from rbegin to the base that rend should have, all elements but the last one are met backwards."
  },
  {
   "property": "C234",
   "status": "partial",
   "theorems": [
    "Verif.Parse.Addons.C234_digit_violated",
    "Verif.Parse.Addons.C234_negative_partial",
    "Verif.Parse.Addons.C234_minus_violated",
    "Verif.Parse.Addons.C234_end_violated",
    "Verif.Parse.Addons.C234_none"
   ],
   "note": "Violated: the loop ends at a digit instead of at something else. Of a number that begins with a digit the first digit is given, as not found; of a negative one everything to the first digit behind the minus; a minus without a digit goes behind the text. Proved for a minus and one digit."
  },
  {
   "property": "C235",
   "status": "partial",
   "theorems": [
    "Verif.Parse.Addons.C235_parse_partial",
    "Verif.Parse.Addons.C235_long_violated",
    "Verif.Parse.Addons.C235_letter_violated",
    "Verif.Parse.Addons.C235_sign_violated",
    "Verif.Parse.Addons.C235_two_signs",
    "Verif.Parse.Addons.C235_overflow_violated",
    "Verif.Parse.Addons.C235_empty_violated"
   ],
   "note": "Violated: numbers with one digit more than digits10 are refused, among them the largest; letters count as digits and can make the arithmetic overflow; an empty text and a minus alone are read behind their end. Proved for at most digits10 digits."
  },
  {
   "property": "C236",
   "status": "partial",
   "theorems": [
    "Verif.Parse.Addons.C236_literal_partial",
    "Verif.Parse.Addons.C236_blank_violated",
    "Verif.Parse.Addons.C236_open_violated",
    "Verif.Parse.Addons.C236_backslash_violated",
    "Verif.Parse.Addons.C236_empty_violated"
   ],
   "note": "Violated: blanks before the quote are refused; a string that ends in an escaped quote is taken as closed; behind an escaped backslash the closing quote is not seen; an empty range is read. Proved for strings with escaped quotes that do not end with a backslash."
  },
  {
   "property": "C237",
   "status": "proved",
   "theorems": [
    "Verif.Strings.C237_split_if",
    "Verif.Strings.C237_split_any"
   ],
   "note": ""
  },
  {
   "property": "C238",
   "status": "partial",
   "theorems": [
    "Verif.Strings.C238_combine_split",
    "Verif.Strings.C238_split_combine_partial",
    "Verif.Strings.C238_none_violated"
   ],
   "note": "Violated for no parts, which come back as one. Proved for lists with parts."
  },
  {
   "property": "C239",
   "status": "partial",
   "theorems": [
    "Verif.Strings.C239_space_partial",
    "Verif.Strings.C239_negative_violated"
   ],
   "note": "Violated for characters above 127, for example of UTF-8: isspace must not be called with a negative char. Proved for other texts."
  },
  {
   "property": "C240",
   "status": "partial",
   "theorems": [
    "Verif.Strings.C240_right",
    "Verif.Strings.C240_left_partial",
    "Verif.Strings.C240_left_violated",
    "Verif.Strings.C240_trim",
    "Verif.Strings.C240_standard",
    "Verif.Strings.C240_zero_finding"
   ],
   "note": "Violated by trim_left for texts of delimiters only, where it throws. Proved for all other texts, and for the other two for all texts. A NUL is not trimmed, although the standard delimiters name it."
  },
  {
   "property": "C241",
   "status": "partial",
   "theorems": [
    "Verif.Strings.C241_char",
    "Verif.Strings.C241_text_partial",
    "Verif.Strings.C241_text_violated",
    "Verif.Strings.C241_empty_violated"
   ],
   "note": "Violated for endings that do not have one character: the last character of the text may be any of theirs, and the empty one is denied. Proved for characters and endings of one character."
  },
  {
   "property": "C242",
   "status": "proved",
   "theorems": [
    "Verif.Strings.C242_contains"
   ],
   "note": ""
  },
  {
   "property": "C243",
   "status": "partial",
   "theorems": [
    "Verif.Strings.C243_replace_partial",
    "Verif.Strings.C243_empty_violated",
    "Verif.Strings.C243_insert_violated"
   ],
   "note": "Violated for an empty searched text: the loop never ends, or ends with an exception when there is no more memory. Proved for all others."
  },
  {
   "property": "C244",
   "status": "partial",
   "theorems": [
    "Verif.Strings.C244_fmt_partial",
    "Verif.Strings.C244_index_violated",
    "Verif.Strings.C244_escape_violated",
    "Verif.Strings.C244_parts"
   ],
   "note": "Violated by fields without arguments, which are read behind them, and by protected fields, from which the protecting brace is not removed. Proved for formats in which all fields have arguments and other opening braces are missing."
  },
  {
   "property": "C245",
   "status": "proved",
   "theorems": [
    "Verif.Util.Dispatch.C245_visit_value",
    "Verif.Util.Dispatch.C245_visit_empty",
    "Verif.Util.Dispatch.C245_visit_defined",
    "Verif.Util.Dispatch.C245_visit_nt"
   ],
   "note": ""
  },
  {
   "property": "C246",
   "status": "partial",
   "theorems": [
    "Verif.Util.Dispatch.C246_visit_result_partial",
    "Verif.Util.Dispatch.C246_visit_result_violated"
   ],
   "note": "Violated for every std::variant without value: the check is for an index below zero of an unsigned type, and the visit is undefined. Proved for variants with a value."
  },
  {
   "property": "C247",
   "status": "partial",
   "theorems": [
    "Verif.Util.Dispatch.C247_variant_cast_partial",
    "Verif.Util.Dispatch.C247_variant_cast_violated",
    "Verif.Util.Dispatch.C247_can_extract_finding"
   ],
   "note": "Violated for variants without value, where both are undefined. Proved for the others. can_extract denies a type that variant_cast converts to."
  },
  {
   "property": "C248",
   "status": "partial",
   "theorems": [
    "Verif.Util.Dispatch.C248_any_if_partial",
    "Verif.Util.Dispatch.C248_any_if_violated"
   ],
   "note": "Violated: the fold is with and, so that it says whether all are true. Proved for one condition, and that true is only given if one is true."
  },
  {
   "property": "C249",
   "status": "partial",
   "theorems": [
    "Verif.Util.Dispatch.C249_function_table_partial",
    "Verif.Util.Dispatch.C249_function_table_violated",
    "Verif.Util.Dispatch.C249_call_operator_finding"
   ],
   "note": "Violated by tables of functions of one type, which read past their end. Proved for the others, and for all indices that a function has. The call operator loses allow_empty."
  },
  {
   "property": "C250",
   "status": "partial",
   "theorems": [
    "Verif.Util.Dispatch.C250_contract_holds_partial",
    "Verif.Util.Dispatch.C250_contract_uses_partial",
    "Verif.Util.Dispatch.C250_contract_violated",
    "Verif.Util.Dispatch.C250_extract_violated"
   ],
   "note": "Violated by a handler that returns, and by extract, which moves the value out so that the next use assumes what does not hold. Proved for handlers that do not return and values that moving leaves as good."
  },
  {
   "property": "C251",
   "status": "partial",
   "theorems": [
    "Verif.Own.Poly.C251_plain_partial",
    "Verif.Own.Poly.C251_no_copy_partial",
    "Verif.Own.Poly.C251_sliced_violated"
   ],
   "note": "Violated: a copy has only the base, and so has what an object of a derived type is assigned to. Proved for histories without derived types, and for histories without copies and assignments of objects."
  },
  {
   "property": "C252",
   "status": "partial",
   "theorems": [
    "Verif.Own.Poly.C252_compare_partial",
    "Verif.Own.Poly.C252_empty_violated"
   ],
   "note": "Violated for two empty ones: each is less than the other, also than itself, and not greater or equal. Proved for all other pairs, and for the other four operators for all."
  },
  {
   "property": "C253",
   "status": "partial",
   "theorems": [
    "Verif.Parse.Args.C253_arguments_partial",
    "Verif.Parse.Args.C253_lone_quote_violated",
    "Verif.Parse.Args.C253_unnamed_violated"
   ],
   "note": "Violated for a value that is one quote, which counts as both, and for options without a name, which are the same as positional ones. Proved for all others."
  },
  {
   "property": "C254",
   "status": "partial",
   "theorems": [
    "Verif.Parse.Args.C254_lookup",
    "Verif.Parse.Args.C254_named_partial",
    "Verif.Parse.Args.C254_named_violated"
   ],
   "note": "Violated for options with an empty name, which do not count as named. Proved for names that are not empty; looking up is proved for all."
  },
  {
   "property": "C255",
   "status": "proved",
   "theorems": [
    "Verif.Iter.Zip.C255_moves",
    "Verif.Iter.Zip.C255_deref"
   ],
   "note": ""
  },
  {
   "property": "C256",
   "status": "partial",
   "theorems": [
    "Verif.Iter.Zip.C256_zip_loop_partial",
    "Verif.Iter.Zip.C256_lengths_violated",
    "Verif.Iter.Zip.C256_rvalue_violated"
   ],
   "note": "Violated for containers of different lengths, where every loop leaves a container, and for containers given as rvalues, which are gone. Proved for lvalues of one length."
  },
  {
   "property": "C257",
   "status": "partial",
   "theorems": [
    "Verif.Bits.Float.C257_pow2_partial",
    "Verif.Bits.Float.C257_pow2_violated"
   ],
   "note": "Violated: the two lowest exponents of normal numbers give zero. Proved for all higher ones, infinity above, and zero below all numbers."
  },
  {
   "property": "C258",
   "status": "partial",
   "theorems": [
    "Verif.Bits.Float.C258_ldexp_partial",
    "Verif.Bits.Float.C258_ldexp_violated"
   ],
   "note": "Violated outside of -1022 to 1023: the factor is zero, an infinity or negative, or the sum overflows. Proved inside."
  },
  {
   "property": "C259",
   "status": "partial",
   "theorems": [
    "Verif.Bits.Float.C259_pow10_wraps",
    "Verif.Bits.Float.C259_tables_partial",
    "Verif.Bits.Float.C259_tables_violated"
   ],
   "note": "Violated for exponents beyond 307, where the table is read outside. Proved from -307 to 307, without the rounding of double."
  },
  {
   "property": "C260",
   "status": "partial",
   "theorems": [
    "Verif.Bits.Float.C260_parts_partial",
    "Verif.Bits.Float.C260_parts_violated"
   ],
   "note": "Violated for numbers from two on, where significand multiplies instead of dividing; sign_bit is true for numbers without sign. Proved for numbers below two, and the raw fields for all."
  },
  {
   "property": "C261",
   "status": "partial",
   "theorems": [
    "Verif.Bits.Float.C261_adj_ulp_partial",
    "Verif.Bits.Float.C261_adj_ulp_violated"
   ],
   "note": "Violated for negative numbers (other direction), below zero (NaN) and the least int. Proved while the numbers stay positive and finite."
  },
  {
   "property": "C262",
   "status": "partial",
   "theorems": [
    "Verif.Bits.Float.C262_sqrt_partial",
    "Verif.Bits.Float.C262_sqrt_violated"
   ],
   "note": "Violated for subnormal numbers (off by a large factor), negative numbers (a number instead of NaN) and minus infinity. Proved for all positive normal numbers, without the rounding of each operation."
  },
  {
   "property": "C263",
   "status": "partial",
   "theorems": [
    "Verif.Bits.Float.C263_signbit_partial",
    "Verif.Bits.Float.C263_signbit_violated"
   ],
   "note": "Violated for negative zero and NaN with sign. Proved for all others."
  },
  {
   "property": "C264",
   "status": "partial",
   "theorems": [
    "Verif.Bits.Rounding.C264_rounding_partial",
    "Verif.Bits.Rounding.C264_rounding_violated",
    "Verif.Bits.Rounding.C264_range"
   ],
   "note": "Violated: round is wrong below minus one half, floor for negative numbers that are not integers, ceil for integers and for numbers below minus one. Proved for all others, without the rounding of the sum."
  },
  {
   "property": "C265",
   "status": "partial",
   "theorems": [
    "Verif.Bits.Rounding.C265_by_partial",
    "Verif.Bits.Rounding.C265_by_violated"
   ],
   "note": "Violated: ceil_by of a multiple gives the next one, a step of zero is undefined. Proved for values from zero on and steps above zero, ceil_by for values that are not multiples."
  },
  {
   "property": "C266",
   "status": "partial",
   "theorems": [
    "Verif.Bits.Rounding.C266_nearly_equal_partial",
    "Verif.Bits.Rounding.C266_nearly_equal_violated"
   ],
   "note": "Violated for zero: the least exponent is taken for the least number, it is negative, so zero is nearly equal to nothing but zero. Proved for other numbers."
  },
  {
   "property": "C267",
   "status": "partial",
   "theorems": [
    "Verif.Bits.Sine.C267_sin_partial",
    "Verif.Bits.Sine.C267_cos_partial",
    "Verif.Bits.Sine.C267_sin_violated"
   ],
   "note": "Violated for infinity and NaN, for which the recursion does not end. Proved for numbers without the rounding of double, with a bound that grows with the argument."
  },
  {
   "property": "C268",
   "status": "proved",
   "theorems": [
    "Verif.Memory.CxAtomic.C268_no_lost_update"
   ],
   "note": ""
  },
  {
   "property": "C269",
   "status": "proved",
   "theorems": [
    "Verif.Memory.CxAtomic.C269_exchange"
   ],
   "note": ""
  },
  {
   "property": "C270",
   "status": "partial",
   "theorems": [
    "Verif.Memory.CxAtomic.C270_assign_partial",
    "Verif.Memory.CxAtomic.C270_assign_violated"
   ],
   "note": "Violated: it is a load and then a store. Proved that what is written is a value that the other atomic had before."
  },
  {
   "property": "C271",
   "status": "partial",
   "theorems": [
    "Verif.Memory.CxAtomic.C271_compile_time",
    "Verif.Memory.CxAtomic.C271_defined_partial",
    "Verif.Memory.CxAtomic.C271_defined_violated",
    "Verif.Memory.CxAtomic.C271_weak_finding"
   ],
   "note": "Violated for signed types from int on, where overflow is no constant expression but wraps at run time; and a weak compare and exchange may fail at run time only. Proved for all other types, and for all programs that have a value at compile time."
  },
  {
   "property": "C272",
   "status": "partial",
   "theorems": [
    "Verif.Algorithm.Container.C272_copy_partial",
    "Verif.Algorithm.Container.C272_copy_violated"
   ],
   "note": "Violated for a destination inside the source: the first elements are repeated. Proved for all others."
  },
  {
   "property": "C273",
   "status": "partial",
   "theorems": [
    "Verif.Algorithm.Container.C273_copy_if_partial",
    "Verif.Algorithm.Container.C273_copy_if_violated"
   ],
   "note": "Violated for a destination inside the source. Proved for all others, in place as well."
  },
  {
   "property": "C274",
   "status": "partial",
   "theorems": [
    "Verif.Algorithm.Container.C274_for_each_with_pos_partial",
    "Verif.Algorithm.Container.C274_for_each_with_pos_all",
    "Verif.Algorithm.Container.C274_for_each_with_pos_violated"
   ],
   "note": "Violated: an empty interval at 2^63 is undefined. Proved for intervals that begin up to PTRDIFF_MAX; those that go beyond the container are shown to be undefined."
  },
  {
   "property": "C275",
   "status": "partial",
   "theorems": [
    "Verif.Iter.RangeType.C275_view_partial",
    "Verif.Iter.RangeType.C275_view_violated",
    "Verif.Iter.RangeType.C275_find"
   ],
   "note": "Violated: front and back of an empty range and positions beyond the end give elements of the array that are not in the range. Proved for elements that are there."
  },
  {
   "property": "C276",
   "status": "partial",
   "theorems": [
    "Verif.Iter.RangeType.C276_slice",
    "Verif.Iter.RangeType.C276_shrink_violated",
    "Verif.Iter.RangeType.C276_shrink_partial",
    "Verif.Iter.RangeType.C276_move_back_start",
    "Verif.Iter.RangeType.C276_advance",
    "Verif.Iter.RangeType.C276_no_way_back"
   ],
   "note": "Violated: shrink( n ) leaves n + 1 elements, or is undefined at the end of the array. Proved for the others."
  },
  {
   "property": "C277",
   "status": "proved",
   "theorems": [
    "Verif.Util.FunctionRef.C277_function_ref",
    "Verif.Util.FunctionRef.C277_temporary_finding"
   ],
   "note": ""
  },
  {
   "property": "C278",
   "status": "partial",
   "theorems": [
    "Verif.Containers.MphBits.C278_set_bit_violated",
    "Verif.Containers.MphBits.C278_get_partial",
    "Verif.Containers.MphBits.C278_get_violated"
   ],
   "note": "Violated: set_bit is defined for every bit only if 8 divides the number of bits and 64 does not, and operator[] is true if another bit of the same bin is set, whether its own is or not. Proved: what operator[] gives, and that the bins hold the bits that were set."
  },
  {
   "property": "C279",
   "status": "partial",
   "theorems": [
    "Verif.Bits.GenericHash.C279_integer",
    "Verif.Bits.GenericHash.C279_integer_32",
    "Verif.Bits.GenericHash.C279_range_partial",
    "Verif.Bits.GenericHash.C279_one_byte",
    "Verif.Bits.GenericHash.C279_byte_inj",
    "Verif.Bits.GenericHash.C279_pointer_violated",
    "Verif.Bits.GenericHash.C279_two_bytes_violated",
    "Verif.Bits.GenericHash.C279_literal_finding"
   ],
   "note": "Violated: the hash of what a pointer points to is a constant, hashes of two bytes are always 0, and the hash of a literal includes the terminating zero. Proved for the other calls."
  },
  {
   "property": "C280",
   "status": "partial",
   "theorems": [
    "Verif.Own.MappedFile.C280_mapped_file_partial",
    "Verif.Own.MappedFile.C280_munmap_violated",
    "Verif.Own.MappedFile.C280_empty_violated"
   ],
   "note": "Violated: after each mmap that failed, MAP_FAILED is unmapped; moving from an empty object is undefined and asking an empty one ends the program. Proved: descriptors and mappings are given back once."
  },
  {
   "property": "C281",
   "status": "partial",
   "theorems": [
    "Verif.Own.MappedFile.C281_open",
    "Verif.Own.MappedFile.C281_content_partial",
    "Verif.Own.MappedFile.C281_content_none",
    "Verif.Own.MappedFile.C281_content_violated"
   ],
   "note": "Violated for elements of more than one byte: end is outside of the file. Proved for elements of one byte."
  },
  {
   "property": "C282",
   "status": "partial",
   "theorems": [
    "Verif.Own.MappedFileWin.C282_handles_violated",
    "Verif.Own.MappedFileWin.C282_views_partial",
    "Verif.Own.MappedFileWin.C282_wide_violated"
   ],
   "note": "Violated: the handle is set to null before it is closed, so that every file opened leaves a handle open; open with a wide path loses the view held before and ends the program for an object never opened. Proved for views without wide paths."
  },
  {
   "property": "C283",
   "status": "partial",
   "theorems": [
    "Verif.Own.MappedFileWin.C283_bool_violated"
   ],
   "note": "Violated: operator bool is true exactly when the file was not opened, empty is always true. What open gives is proved."
  },
  {
   "property": "C284",
   "status": "partial",
   "theorems": [
    "Verif.Util.Benchmark.C284_seconds_partial",
    "Verif.Util.Benchmark.C284_bytes_partial",
    "Verif.Util.Benchmark.C284_printed_violated",
    "Verif.Util.Benchmark.C284_negative_violated"
   ],
   "note": "Violated: a value just below a unit is printed as a thousand of the next smaller unit, and negative times are all printed in femtoseconds. Proved for the number before rounding; the rounding of double is left out."
  },
  {
   "property": "C285",
   "status": "partial",
   "theorems": [
    "Verif.Util.Benchmark.C285_min_max_partial",
    "Verif.Util.Benchmark.C285_average_violated",
    "Verif.Util.Benchmark.C285_one_run_violated",
    "Verif.Util.Benchmark.C285_average_partial",
    "Verif.Util.Benchmark.C285_calls"
   ],
   "note": "Violated: the average has the time of an empty run taken off twice, so that it is below the smallest time if all runs take the same time, and for one run it does not depend on the time of the run. Proved if an empty run takes no time. The result is that of one more call than is timed."
  },
  {
   "property": "C286",
   "status": "partial",
   "theorems": [
    "Verif.Parse.FormatRange.C286_parse_partial",
    "Verif.Parse.FormatRange.C286_index_violated",
    "Verif.Parse.FormatRange.C286_quote_violated",
    "Verif.Parse.FormatRange.C286_two_fields_violated",
    "Verif.Parse.FormatRange.C286_again"
   ],
   "note": "Violated: a field with a number, {0:<5}, ends the program; a quote used as fill character hides the closing brace, and two such fields are read as one. Proved for fields without a number in which quotes and braces are balanced."
  },
  {
   "property": "C287",
   "status": "proved",
   "theorems": [
    "Verif.Parse.FormatRange.C287_format",
    "Verif.Parse.FormatRange.C287_format_fails",
    "Verif.Parse.FormatRange.C287_nested",
    "Verif.Parse.FormatRange.C287_nested_plain"
   ],
   "note": ""
  },
  {
   "property": "C288",
   "status": "partial",
   "theorems": [
    "Verif.Util.Factory.C288_build_partial",
    "Verif.Util.Factory.C288_index",
    "Verif.Util.Factory.C288_missing",
    "Verif.Util.Factory.C288_unset_violated",
    "Verif.Util.Factory.C288_dropped_violated",
    "Verif.Util.Factory.C288_moved_violated"
   ],
   "note": "Violated: constructing with a parameter not set is undefined, a value of a type the parameter does not take is dropped without an error, and after construction from an rvalue the factory gives objects of moved from values. Proved if all parameters were set; exactly indices out of range are refused."
  },
  {
   "property": "C289",
   "status": "partial",
   "theorems": [
    "Verif.Parse.Mixed.C289_is_a_partial",
    "Verif.Parse.Mixed.C289_is_a_exact",
    "Verif.Parse.Mixed.C289_is_a_violated",
    "Verif.Parse.Mixed.C289_classes",
    "Verif.Parse.Mixed.C289_in_range_partial",
    "Verif.Parse.Mixed.C289_in_range_violated",
    "Verif.Parse.Mixed.C289_space_partial",
    "Verif.Parse.Mixed.C289_space_violated",
    "Verif.Parse.Mixed.C289_in_violated"
   ],
   "note": "Violated: values are converted to the widest type, so that 255 is taken for -1; values are cut to 32 bits; in tells the opposite. Proved for values of one signedness, and for the ASCII classes for all types."
  },
  {
   "property": "C290",
   "status": "partial",
   "theorems": [
    "Verif.Parse.Mixed.C290_matcher_partial",
    "Verif.Parse.Mixed.C290_literal_violated",
    "Verif.Parse.Mixed.C290_empty_violated"
   ],
   "note": "Violated: the matcher of a string literal also looks for the terminating zero, and the empty pattern is not found in the empty text. Proved for containers that are not empty."
  },
  {
   "property": "C291",
   "status": "proved",
   "theorems": [
    "Verif.Bits.CxCmp.C291_equal",
    "Verif.Bits.CxCmp.C291_less",
    "Verif.Bits.CxCmp.C291_others"
   ],
   "note": ""
  },
  {
   "property": "C292",
   "status": "partial",
   "theorems": [
    "Verif.Util.TupleHelper.C292_tuples_partial",
    "Verif.Util.TupleHelper.C292_values_partial",
    "Verif.Util.TupleHelper.C292_tuples_violated",
    "Verif.Util.TupleHelper.C292_values_violated"
   ],
   "note": "Violated: results the type does not have are wrapped or undefined, values without sign change negative components. Proved if the types have the exact results."
  },
  {
   "property": "C293",
   "status": "proved",
   "theorems": [
    "Verif.Util.TupleHelper.C293_min_max",
    "Verif.Util.TupleHelper.C293_print",
    "Verif.Util.TupleHelper.C293_get",
    "Verif.Util.TupleHelper.C293_apply_at"
   ],
   "note": ""
  },
  {
   "property": "C294",
   "status": "partial",
   "theorems": [
    "Verif.Bits.MinMaxN.C294_min_max_partial",
    "Verif.Bits.MinMaxN.C294_mixed_violated",
    "Verif.Bits.MinMaxN.C294_comp"
   ],
   "note": "Violated: max( -1, 1U ) is 4294967295 and min( -1, 1U ) is 1. Proved if all types are signed or no value is negative; for orders always."
  },
  {
   "property": "C295",
   "status": "partial",
   "theorems": [
    "Verif.Util.DoN.C295_do_n",
    "Verif.Util.DoN.C295_do_n_arg",
    "Verif.Util.DoN.C295_static",
    "Verif.Util.DoN.C295_static_arg_partial",
    "Verif.Util.DoN.C295_arguments",
    "Verif.Util.DoN.C295_last_violated",
    "Verif.Util.DoN.C295_order_violated"
   ],
   "note": "Violated: the unrolled do_n_arg is a fold over +, which leaves the order of the calls to the compiler, and if the step does not divide the count the last value is left out. Proved for the loops, for unrolled do_n, and for unrolled do_n_arg evaluated from the left with a step that divides the count; the arguments are the same in every order."
  },
  {
   "property": "C296",
   "status": "proved",
   "theorems": [
    "Verif.Bits.Positions.C296_bits",
    "Verif.Bits.Positions.C296_refused"
   ],
   "note": ""
  },
  {
   "property": "C297",
   "status": "partial",
   "theorems": [
    "Verif.Bits.Positions.C297_literal_partial",
    "Verif.Bits.Positions.C297_names_violated",
    "Verif.Bits.Positions.C297_wraps_violated"
   ],
   "note": "Violated: _KB multiplies by 1024 and _KiB by 1000, the opposite of their names, and products of 2^64 and more wrap. Proved: exactly for products below 2^64 the literal is the product."
  },
  {
   "property": "C298",
   "status": "partial",
   "theorems": [
    "Verif.Algorithm.ArrayCmp.C298_first_partial",
    "Verif.Algorithm.ArrayCmp.C298_equal",
    "Verif.Algorithm.ArrayCmp.C298_lexicographic",
    "Verif.Algorithm.ArrayCmp.C298_int_violated",
    "Verif.Algorithm.ArrayCmp.C298_int_result_finding"
   ],
   "note": "Violated: for comparisons that give an int the value for equal is not 0, so that different arrays compare as the first elements do. Proved for results of type bool and for orderings."
  },
  {
   "property": "C299",
   "status": "proved",
   "theorems": [
    "Verif.Algorithm.ArrayCmp.C299_orderings"
   ],
   "note": ""
  },
  {
   "property": "C300",
   "status": "partial",
   "theorems": [
    "Verif.Util.Files.C300_content_partial",
    "Verif.Util.Files.C300_refused",
    "Verif.Util.Files.C300_changed",
    "Verif.Util.Files.C300_wide_violated",
    "Verif.Util.Files.C300_leak_violated"
   ],
   "note": "Violated: the file is never closed, and for characters of more than one byte the size in bytes is taken for the number of characters: files are refused or padded. Proved for characters of one byte: the content is returned exactly, and a file that became shorter is refused."
  },
  {
   "property": "C301",
   "status": "partial",
   "theorems": [
    "Verif.Util.Files.C301_once_partial",
    "Verif.Util.Files.C301_kept",
    "Verif.Util.Files.C301_destructor",
    "Verif.Util.Files.C301_assign_violated"
   ],
   "note": "Violated: the move assignment resets the owner to its own file and ignores the other side, so that nothing is handed over. Proved: nothing is closed twice, and every file is held by one owner, released or closed."
  },
  {
   "property": "C302",
   "status": "partial",
   "theorems": [
    "Verif.Own.ContainerData.C302_once_partial",
    "Verif.Own.ContainerData.C302_destroyed",
    "Verif.Own.ContainerData.C302_spare_violated",
    "Verif.Own.ContainerData.C302_moved_violated"
   ],
   "note": "Violated: the deleter destroys as many elements as the capacity says, which is undefined for elements with a destructor when there is room to spare; an object moved from still reports its size and capacity. Proved for full buffers and for elements with a trivial destructor."
  },
  {
   "property": "C303",
   "status": "partial",
   "theorems": [
    "Verif.Own.ContainerData.C303_account",
    "Verif.Own.ContainerData.C303_read_partial",
    "Verif.Own.ContainerData.C303_copy_violated",
    "Verif.Own.ContainerData.C303_lost_violated"
   ],
   "note": "Violated: copies copy only bytes, so that a copy of a storage holds no object unless the type is trivially copyable; constructing twice loses the first object. Proved: what was constructed is read until it is destructed, whatever happens to other storages, and every object made is alive once or destroyed once if no object is constructed over another."
  },
  {
   "property": "C304",
   "status": "partial",
   "theorems": [
    "Verif.Iter.Cpp17.C304_forward",
    "Verif.Iter.Cpp17.C304_backward_partial",
    "Verif.Iter.Cpp17.C304_prev_violated",
    "Verif.Iter.Cpp17.C304_distance",
    "Verif.Iter.Cpp17.C304_round_trip",
    "Verif.Iter.Cpp17.C304_negative",
    "Verif.Iter.Cpp17.C304_smallest_finding"
   ],
   "note": "Violated: with bidirectional iterators moving back by n goes only n - 1 elements back, prev( it ) is it. Proved for moves forward with all categories, moves back with random access iterators, and distance."
  },
  {
   "property": "C305",
   "status": "partial",
   "theorems": [
    "Verif.Iter.Cpp17.C305_range_partial",
    "Verif.Iter.Cpp17.C305_overflow_violated",
    "Verif.Iter.Cpp17.C305_wraps_violated"
   ],
   "note": "Violated: with l less than f the range is not empty: types that wrap visit nearly all values, others overflow. Proved for f not greater than l, up to the largest value of the type."
  },
  {
   "property": "C306",
   "status": "partial",
   "theorems": [
    "Verif.Iter.Cpp17.C306_endless_violated",
    "Verif.Iter.Cpp17.C306_empty_partial",
    "Verif.Iter.Cpp17.C306_compare"
   ],
   "note": "Violated: the loop never moves on to the next element and ends only when there is no memory left. Proved for the comparisons and for the empty sequence."
  },
  {
   "property": "C307",
   "status": "partial",
   "theorems": [
    "Verif.Iter.Wrapped.C307_random",
    "Verif.Iter.Wrapped.C307_wrap",
    "Verif.Iter.Wrapped.C307_prop_partial",
    "Verif.Iter.Wrapped.C307_post_violated",
    "Verif.Iter.Wrapped.C307_const_partial",
    "Verif.Iter.Wrapped.C307_copy_violated"
   ],
   "note": "Violated: increment and decrement after use of prop_const_ptr return references to a local variable, and a copy of a const prop_const_ptr may write. Proved for RandomIterator and wrap_iter, and for prop_const_ptr without these."
  },
  {
   "property": "C308",
   "status": "partial",
   "theorems": [
    "Verif.Vector.IotaOp.C308_numbers_partial",
    "Verif.Vector.IotaOp.C308_step_violated",
    "Verif.Vector.IotaOp.C308_count_violated",
    "Verif.Vector.IotaOp.C308_end_violated"
   ],
   "note": "Violated: with a step of zero or against the comparison nothing is written but the size is returned; with types that cannot hold the size or the end too few elements are written or writing runs out of the storage. Proved if the numbers and the end are values of the type."
  },
  {
   "property": "C309",
   "status": "partial",
   "theorems": [
    "Verif.Strings.FromString.C309_round_trip",
    "Verif.Strings.FromString.C309_range_partial",
    "Verif.Strings.FromString.C309_rest_violated"
   ],
   "note": "Violated: text after the number is ignored, 12km is read as 12. Proved: the text of every value is read as the value, numbers out of range are refused."
  },
  {
   "property": "C310",
   "status": "partial",
   "theorems": [
    "Verif.Util.FnViews.C310_calls_partial",
    "Verif.Util.FnViews.C310_lifetime",
    "Verif.Util.FnViews.C310_stateless",
    "Verif.Util.FnViews.C310_copy_violated",
    "Verif.Util.FnViews.C310_destroyed_violated",
    "Verif.Util.FnViews.C310_self_violated"
   ],
   "note": "Violated: a copy of a view that is not const refers to the view: it changes with it, dangles after it, and assigning it back makes a view whose calls never end. Proved for programs that do not assign to or destroy views."
  },
  {
   "property": "C311",
   "status": "partial",
   "theorems": [
    "Verif.Util.FnViews.C311_arrow_partial",
    "Verif.Util.FnViews.C311_star_violated"
   ],
   "note": "Violated: the visitor of operator* returns by value, the result refers to a temporary that is gone. Proved for operator->."
  },
  {
   "property": "C312",
   "status": "partial",
   "theorems": [
    "Verif.Util.Binding.C312_bind_at_partial",
    "Verif.Util.Binding.C312_bind_front",
    "Verif.Util.Binding.C312_copies_violated",
    "Verif.Util.Binding.C312_bind_at_values"
   ],
   "note": "Violated: bind_args_at passes copies of variables, so that the function cannot change them, as it can through bind_front. Proved for the values and their order, and for what is moved from."
  },
  {
   "property": "C313",
   "status": "partial",
   "theorems": [
    "Verif.Util.Binding.C313_forward_partial",
    "Verif.Util.Binding.C313_value_violated"
   ],
   "note": "Violated: a pack whose element type is given as a value points to a parameter of the constructor, which is gone. Proved for deduced types."
  },
  {
   "property": "C314",
   "status": "partial",
   "theorems": [
    "Verif.Util.Binding.C314_value_partial",
    "Verif.Util.Binding.C314_order",
    "Verif.Util.Binding.C314_repeated_violated"
   ],
   "note": "Violated: an option given twice is accepted if it is passed in two ways, the first wins. Proved for options of different names."
  },
  {
   "property": "C315",
   "status": "partial",
   "theorems": [
    "Verif.Util.Tuple2.C315_cat_partial",
    "Verif.Util.Tuple2.C315_one_violated",
    "Verif.Util.Tuple2.C315_rvalue_violated",
    "Verif.Util.Tuple2.C315_apply_partial",
    "Verif.Util.Tuple2.C315_apply_violated"
   ],
   "note": "Violated: one tuple with elements, rvalues, and classes in tuples that are not const do not compile. Proved for two or more lvalues that are const or have no classes."
  },
  {
   "property": "C316",
   "status": "partial",
   "theorems": [
    "Verif.Util.Tuple2.C316_apply_partial",
    "Verif.Util.Tuple2.C316_moved_violated",
    "Verif.Util.Tuple2.C316_equal",
    "Verif.Util.Tuple2.C316_not_equal",
    "Verif.Util.Tuple2.C316_stops"
   ],
   "note": "Violated: the elements of rvalue tuples are passed as lvalues. Proved for lvalues, and for all comparisons."
  },
  {
   "property": "C317",
   "status": "partial",
   "theorems": [
    "Verif.Pipe.Compose.C317_in_order",
    "Verif.Pipe.Compose.C317_nested",
    "Verif.Pipe.Compose.C317_nullary_violated",
    "Verif.Pipe.Compose.C317_literal_partial",
    "Verif.Pipe.Compose.C317_array_violated"
   ],
   "note": "Violated: a stage that can also be called without arguments is replaced by what that call returns; arrays of characters lose their last character. Proved for the order, nesting and literals."
  },
  {
   "property": "C318",
   "status": "partial",
   "theorems": [
    "Verif.Pipe.Compose.C318_each_partial",
    "Verif.Pipe.Compose.C318_index_violated",
    "Verif.Pipe.Compose.C318_one_of",
    "Verif.Pipe.Compose.C318_maybe",
    "Verif.Pipe.Compose.C318_sample_partial",
    "Verif.Pipe.Compose.C318_sample_all_violated"
   ],
   "note": "Violated: ForEachIndexed does not pass the index, Sample( n, n ) ends the program. Proved for the order of visits, the predicates, the view and samples that keep fewer than all."
  },
  {
   "property": "C319",
   "status": "partial",
   "theorems": [
    "Verif.Pipe.Compose.C319_elements_partial",
    "Verif.Pipe.Compose.C319_indices_partial",
    "Verif.Pipe.Compose.C319_container_violated"
   ],
   "note": "Violated: after a stage that makes a range that owns its rows the view refers to rows that are gone. Proved when no such range is made before a stage that picks."
  },
  {
   "property": "C320",
   "status": "partial",
   "theorems": [
    "Verif.Iter.Collections.C320_filter",
    "Verif.Iter.Collections.C320_split",
    "Verif.Iter.Collections.C320_unique",
    "Verif.Iter.Collections.C320_program",
    "Verif.Iter.Collections.C320_operator_partial",
    "Verif.Iter.Collections.C320_const_violated",
    "Verif.Iter.Collections.C320_chain_violated"
   ],
   "note": "Violated: clauses of const ranges never give a result, so neither does a second clause. Proved for ranges that are not const and for one clause."
  },
  {
   "property": "C321",
   "status": "partial",
   "theorems": [
    "Verif.Memory.Observer.C321_program",
    "Verif.Memory.Observer.C321_value",
    "Verif.Memory.Observer.C321_order",
    "Verif.Memory.Observer.C321_monad",
    "Verif.Memory.Observer.C321_transform_partial",
    "Verif.Memory.Observer.C321_transform_violated"
   ],
   "note": "Violated: transform calls its function with null. Proved for everything else."
  },
  {
   "property": "C322",
   "status": "partial",
   "theorems": [
    "Verif.Strings.IntText.C322_digits",
    "Verif.Strings.IntText.C322_pow10_partial",
    "Verif.Strings.IntText.C322_pow10_violated",
    "Verif.Strings.IntText.C322_log10",
    "Verif.Strings.IntText.C322_text_partial",
    "Verif.Strings.IntText.C322_disabled_violated"
   ],
   "note": "Violated: to_os_string_int compiles for no type, pow10 reads after its table from 20 on. Proved for the body of the function, and for the helpers within 64 bits."
  },
  {
   "property": "C323",
   "status": "partial",
   "theorems": [
    "Verif.Pipe.Kahan.C323_errors",
    "Verif.Pipe.Kahan.C323_nearest_partial",
    "Verif.Pipe.Kahan.C323_exact",
    "Verif.Pipe.Kahan.C323_projection_violated"
   ],
   "note": "Violated: with a projection nothing compiles, the element is called with the projection. Proved without projections."
  },
  {
   "property": "C324",
   "status": "partial",
   "theorems": [
    "Verif.Pipe.Reshape.C324_advance_partial",
    "Verif.Pipe.Reshape.C324_add",
    "Verif.Pipe.Reshape.C324_index",
    "Verif.Pipe.Reshape.C324_steps",
    "Verif.Pipe.Reshape.C324_difference_violated"
   ],
   "note": "Violated: the difference of end and begin is the length of the first range, also if another one is shorter. Proved for moving, subscripts and steps."
  },
  {
   "property": "C325",
   "status": "partial",
   "theorems": [
    "Verif.Pipe.Reshape.C325_more_partial",
    "Verif.Pipe.Reshape.C325_dangling_violated",
    "Verif.Pipe.Reshape.C325_tuples_violated"
   ],
   "note": "Violated: the view refers to containers in a function object that may be gone; tuples of ranges do not compile. Proved while the object is there."
  },
  {
   "property": "C326",
   "status": "partial",
   "theorems": [
    "Verif.Pipe.Reshape.C326_swizzle_partial",
    "Verif.Pipe.Reshape.C326_compose",
    "Verif.Pipe.Reshape.C326_values",
    "Verif.Pipe.Reshape.C326_values_rejected",
    "Verif.Pipe.Reshape.C326_containers_violated"
   ],
   "note": "Violated: it compiles for no container of tuples. Proved for the ranges it compiles for."
  },
  {
   "property": "C327",
   "status": "partial",
   "theorems": [
    "Verif.Pipe.Extrema.C327_extrema_partial",
    "Verif.Pipe.Extrema.C327_minmax_finding",
    "Verif.Pipe.Extrema.C327_order_violated"
   ],
   "note": "Violated: a call with an order of another type than the default does not compile; MinMax gives the last of the greatest. Proved for the default order."
  },
  {
   "property": "C328",
   "status": "partial",
   "theorems": [
    "Verif.Pipe.Extrema.C328_clamp_partial",
    "Verif.Pipe.Extrema.C328_twice",
    "Verif.Pipe.Extrema.C328_bounds",
    "Verif.Pipe.Extrema.C328_convertible_violated",
    "Verif.Pipe.Extrema.C328_references_finding"
   ],
   "note": "Violated: bounds of another type than the elements do not compile; bounds given as variables are references. Proved for bounds of the type of the elements."
  },
  {
   "property": "C329",
   "status": "partial",
   "theorems": [
    "Verif.Pipe.Extrema.C329_plus_violated",
    "Verif.Pipe.Extrema.C329_assign_partial"
   ],
   "note": "Violated: it + n and it - n do not compile, and would return the old position. Proved for the assignments."
  },
  {
   "property": "C330",
   "status": "partial",
   "theorems": [
    "Verif.Strings.CStr.C330_once_partial",
    "Verif.Strings.CStr.C330_move_violated",
    "Verif.Strings.CStr.C330_assign_violated",
    "Verif.Strings.CStr.C330_nullify"
   ],
   "note": "Violated: moving from an owner makes two owners, and assigning by moving loses an array. Proved for programs that do not move from owners."
  },
  {
   "property": "C331",
   "status": "partial",
   "theorems": [
    "Verif.Strings.CStr.C331_compare_partial",
    "Verif.Strings.CStr.C331_null_violated"
   ],
   "note": "Violated: comparing an empty CString is undefined. Proved for strings of texts."
  },
  {
   "property": "C332",
   "status": "partial",
   "theorems": [
    "Verif.Util.Values.C332_value_partial",
    "Verif.Util.Values.C332_bytes",
    "Verif.Util.Values.C332_order_violated",
    "Verif.Util.Values.C332_to_array_violated"
   ],
   "note": "Violated: to_array_of compiles for no type, and the bytes are taken in the opposite order to that in memory. Proved for the value of the bytes and for the bytes of a value."
  },
  {
   "property": "C333",
   "status": "partial",
   "theorems": [
    "Verif.Util.Values.C333_cast_partial",
    "Verif.Util.Values.C333_lvalue_violated"
   ],
   "note": "Violated: for variables nothing is asserted. Proved for values that are no variables."
  },
  {
   "property": "C334",
   "status": "partial",
   "theorems": [
    "Verif.Util.Values.C334_remove_partial",
    "Verif.Util.Values.C334_crossed_violated"
   ],
   "note": "Violated: removing more than there are is not checked and puts the end before the begin. Proved for removing at most as many as there are."
  },
  {
   "property": "C335",
   "status": "partial",
   "theorems": [
    "Verif.Util.Values.C335_value_is_partial",
    "Verif.Util.Values.C335_or_all",
    "Verif.Util.Values.C335_const_violated"
   ],
   "note": "Violated: value_is of a const variable does not compile. Proved for the tests and for or_all."
  },
  {
   "property": "C336",
   "status": "partial",
   "theorems": [
    "Verif.Random.Seeds.C336_formula",
    "Verif.Random.Seeds.C336_append_partial",
    "Verif.Random.Seeds.C336_three_partial",
    "Verif.Random.Seeds.C336_zero_violated",
    "Verif.Random.Seeds.C336_one",
    "Verif.Random.Seeds.C336_collision_finding"
   ],
   "note": "Violated: a hash of 0 is forgotten, and texts that differ in two characters may have the same seed. Proved otherwise, and that one changed character changes the seed."
  },
  {
   "property": "C337",
   "status": "partial",
   "theorems": [
    "Verif.Random.Seeds.C337_seeds_partial",
    "Verif.Random.Seeds.C337_float",
    "Verif.Random.Seeds.C337_cut_violated"
   ],
   "note": "Violated: the seed is converted to the type of the numbers, so that its upper bits are lost. Proved for seeds of that type below the modulus of the engine."
  },
  {
   "property": "C338",
   "status": "partial",
   "theorems": [
    "Verif.Bits.UOps.C338_arithmetic_partial",
    "Verif.Bits.UOps.C338_enums",
    "Verif.Bits.UOps.C338_values_violated",
    "Verif.Bits.UOps.C338_compiles_violated"
   ],
   "note": "Violated: a uint64_t added to a UInt32 is cut, uint8_t * UInt64 has 8 bits, UInt8 + 1 is ambiguous and UInt8 | UInt16 is missing. Proved for calls that compile with an integer that is not wider, and that + - * / of two enumerations compile with the wider type."
  },
  {
   "property": "C339",
   "status": "partial",
   "theorems": [
    "Verif.Bits.UOps.C339_comparison_partial",
    "Verif.Bits.UOps.C339_wide",
    "Verif.Bits.UOps.C339_values_violated",
    "Verif.Bits.UOps.C339_compiles_violated"
   ],
   "note": "Violated: the integer is cut to the width of the enumeration, so that a UInt8 x equals x + 256 and a UInt32 equals -1; UInt32 >= 5 and 5 < UInt32 are ambiguous. Proved for integers in the range of the enumeration, and for > >= <= with uint64_t."
  },
  {
   "property": "C340",
   "status": "partial",
   "theorems": [
    "Verif.Bits.UOps.C340_shift_partial",
    "Verif.Bits.UOps.C340_unary",
    "Verif.Bits.UOps.C340_violated"
   ],
   "note": "Violated: counts are cut to the width of the value, UInt32 << 32 is undefined, and UInt16 >> UInt8 does not compile. Proved for counts less than the width of the promoted type, and for the unary operators."
  },
  {
   "property": "C341",
   "status": "partial",
   "theorems": [
    "Verif.Containers.OldHash.C341_walk_partial",
    "Verif.Containers.OldHash.C341_back",
    "Verif.Containers.OldHash.C341_violated"
   ],
   "note": "Violated: begin skips the first cell always and is undefined for a cleared table, at_end is inverted, valid reads past the end. Proved for the good cells from the second on, and that -- undoes ++."
  },
  {
   "property": "C342",
   "status": "partial",
   "theorems": [
    "Verif.Containers.OldHash.C342_copy_partial",
    "Verif.Containers.OldHash.C342_item_violated"
   ],
   "note": "Violated: the copy constructor of a cell makes a removed cell an empty one, which hides items behind it. Proved for copies of tables, which assign the cells."
  },
  {
   "property": "C343",
   "status": "partial",
   "theorems": [
    "Verif.Containers.BStr.C343_views",
    "Verif.Containers.BStr.C343_c_strings_partial",
    "Verif.Containers.BStr.C343_literal_violated"
   ],
   "note": "Violated: a literal with an embedded terminator on the left side is both equal and not equal. Proved for views and std::string with all characters, and for pointers and arrays without embedded terminators."
  },
  {
   "property": "C344",
   "status": "partial",
   "theorems": [
    "Verif.Containers.BStr.C344_plus_partial",
    "Verif.Containers.BStr.C344_array_violated"
   ],
   "note": "Violated: array + str compiles only for arrays that do not fit, and then throws always. Proved for str + pointer."
  },
  {
   "property": "C345",
   "status": "partial",
   "theorems": [
    "Verif.Bits.Float.C345_bits_partial",
    "Verif.Bits.Float.C345_bits_violated"
   ],
   "note": "Violated: minus zero gives 0 and every NaN the same bits. Proved for all others, subnormal ones included."
  },
  {
   "property": "C346",
   "status": "partial",
   "theorems": [
    "Verif.Bits.Float.C346_intxp_partial",
    "Verif.Bits.Float.C346_intxp_violated",
    "Verif.Bits.Float.C346_versions_agree",
    "Verif.Bits.Float.C346_versions_differ"
   ],
   "note": "Violated: the portable version is undefined for every double of magnitude 2^128 or more, gives nothing for numbers below 2^-127, and the versions differ for zero, infinities, NaN and small subnormals. Proved for magnitudes less than 2^128, and that the versions agree for normal floats."
  },
  {
   "property": "C347",
   "status": "partial",
   "theorems": [
    "Verif.Algorithm.RemoveRef.C347_remove_partial",
    "Verif.Algorithm.RemoveRef.C347_own_element_violated",
    "Verif.Algorithm.RemoveRef.C347_own_element_witness",
    "Verif.Algorithm.RemoveRef.C347_erase_partial"
   ],
   "note": "Violated: erase_remove( v, v[0] ) removes only the first element and every later one equal to the second. Proved for values outside of the range."
  },
  {
   "property": "C348",
   "status": "partial",
   "theorems": [
    "Verif.Own.ExpectedVoid.C348_from_code",
    "Verif.Own.ExpectedVoid.C348_states_partial",
    "Verif.Own.ExpectedVoid.C348_last",
    "Verif.Own.ExpectedVoid.C348_outcomes",
    "Verif.Own.ExpectedVoid.C348_null_exception_violated",
    "Verif.Own.ExpectedVoid.C348_assign_violated",
    "Verif.Own.ExpectedVoid.C348_tests_finding"
   ],
   "note": "Violated: set_exception( ) outside of a handler stores a null exception, to get which is undefined; e = false and e = f for a function are successes. Proved for programs that store no null exception, and for from_code."
  },
  {
   "property": "C349",
   "status": "partial",
   "theorems": [
    "Verif.Own.ValueCompare.C349_order_partial",
    "Verif.Own.ValueCompare.C349_equality_violated",
    "Verif.Own.ValueCompare.C349_floating_violated",
    "Verif.Own.ValueCompare.C349_null_violated"
   ],
   "note": "Violated: == ignores the operator of the values and asks the order, so that values neither less are equal, a NaN equals every number and has another hash; the hash of null is undefined. Proved: the operators are a total preorder for a strict weak order of the values."
  },
  {
   "property": "C350",
   "status": "proved",
   "theorems": [
    "Verif.Containers.BoundedHashSet.C350_backwards",
    "Verif.Containers.BoundedHashSet.C350_inverse",
    "Verif.Containers.BoundedHashSet.C350_before_first_finding"
   ],
   "note": ""
  },
  {
   "property": "C351",
   "status": "partial",
   "theorems": [
    "Verif.Parse.C351_stream_partial",
    "Verif.Parse.C351_position_violated",
    "Verif.Parse.C351_position_witness",
    "Verif.Parse.C351_views_violated",
    "Verif.Parse.C351_apply"
   ],
   "note": "Violated: streams with str( ) give the values of the whole text, also of what was read already; views as values refer to a string that is gone. Proved for other streams and for streams at their beginning."
  },
  {
   "property": "C352",
   "status": "partial",
   "theorems": [
    "Verif.Util.Expecting.C352_integers_partial",
    "Verif.Util.Expecting.C352_arrays_violated",
    "Verif.Util.Expecting.C352_exception_partial",
    "Verif.Util.Expecting.C352_no_exceptions_violated"
   ],
   "note": "Violated: arrays and literals are compared by address, and in a build without exceptions expecting_exception passes every expression that comes back. Proved for integers of all types and for builds with exceptions."
  },
  {
   "property": "C353",
   "status": "partial",
   "theorems": [
    "Verif.Util.Expecting.C353_checked",
    "Verif.Util.Expecting.C353_durations_partial",
    "Verif.Util.Expecting.C353_negative_violated"
   ],
   "note": "Violated: a run quicker than every run of nothing has a negative duration. Proved that the runs are checked as stated, and the durations where no run is quicker than that."
  },
  {
   "property": "C354",
   "status": "partial",
   "theorems": [
    "Verif.Memory.GetBuffer.C354_room_partial",
    "Verif.Memory.GetBuffer.C354_wrap_violated",
    "Verif.Memory.GetBuffer.C354_wrap_witness",
    "Verif.Memory.GetBuffer.C354_alignment_finding"
   ],
   "note": "Violated: where the product wraps the block is always too small for the last object. Proved for products less than 2^64."
  },
  {
   "property": "C355",
   "status": "partial",
   "theorems": [
    "Verif.Iter.RangeContains.C355_contains_partial",
    "Verif.Iter.RangeContains.C355_rounded_violated",
    "Verif.Iter.RangeContains.C355_rounded_up_violated"
   ],
   "note": "Violated: numbers that are not whole are rounded towards zero first, so that a value is found that is not there, and numbers out of range are undefined. Proved for elements of the type of the value and for whole numbers that it has."
  },
  {
   "property": "C356",
   "status": "partial",
   "theorems": [
    "Verif.SV.SignedWidth.C356_view_partial",
    "Verif.SV.SignedWidth.C356_view_violated",
    "Verif.SV.SignedWidth.C356_bounded"
   ],
   "note": "Violated: a view is written with more than 2^62 characters of filling if the width is negative. Proved for the other widths, and for bounded strings for every width."
  },
  {
   "property": "C357",
   "status": "partial",
   "theorems": [
    "Verif.Strings.BraceSplitter.C357_fields_partial",
    "Verif.Strings.BraceSplitter.C357_unmatched",
    "Verif.Strings.BraceSplitter.C357_text_violated",
    "Verif.Strings.BraceSplitter.C357_escape_violated"
   ],
   "note": "Violated: every character other than braces and backslashes is undefined, and a backslash never escapes a brace. Proved for fields of backslashes, and that braces that do not match are reported after every text."
  },
  {
   "property": "C358",
   "status": "partial",
   "theorems": [
    "Verif.Containers.CircularWalk.C358_loop_partial",
    "Verif.Containers.CircularWalk.C358_loop_violated",
    "Verif.Containers.CircularWalk.C358_difference",
    "Verif.Containers.CircularWalk.C358_order_finding",
    "Verif.Containers.CircularWalk.C358_shrunk"
   ],
   "note": "Violated: the loop never ends unless there are no elements. Proved for differences, order and containers that became shorter."
  },
  {
   "property": "C359",
   "status": "partial",
   "theorems": [
    "Verif.Vector.PageAlloc.C359_page_partial",
    "Verif.Vector.PageAlloc.C359_allocate_partial",
    "Verif.Vector.PageAlloc.C359_failure_violated",
    "Verif.Vector.PageAlloc.C359_reallocate_violated",
    "Verif.Vector.PageAlloc.C359_deallocate_partial",
    "Verif.Vector.PageAlloc.C359_deallocate_violated",
    "Verif.Vector.PageAlloc.C359_wrap_violated",
    "Verif.Vector.PageAlloc.C359_malloc_partial"
   ],
   "note": "Violated: a failed mmap is not reported, reallocate of a block always gives MAP_FAILED, deallocate takes the number of objects for bytes and loses the other pages, and the greatest sizes are rounded to none. Proved for up to 2^53 bytes with enough memory, and deallocate for objects of one byte."
  },
  {
   "property": "C360",
   "status": "proved",
   "theorems": [
    "Verif.Bits.Limits.C360_limits",
    "Verif.Bits.Limits.C360_digits",
    "Verif.Bits.Limits.C360_digits10"
   ],
   "note": ""
  },
  {
   "property": "C361",
   "status": "partial",
   "theorems": [
    "Verif.Containers.BVecZero.C361_calls_partial",
    "Verif.Containers.BVecZero.C361_pointer",
    "Verif.Containers.BVecZero.C361_range_violated",
    "Verif.Containers.BVecZero.C361_has_room_violated"
   ],
   "note": "Violated: the constructor from two iterators ends the program for a range without elements, and has_room differs. Proved for all the other calls."
  },
  {
   "property": "C362",
   "status": "partial",
   "theorems": [
    "Verif.Bits.UAssign.C362_compiles",
    "Verif.Bits.UAssign.C362_value",
    "Verif.Bits.UAssign.C362_same",
    "Verif.Bits.UAssign.C362_div_partial",
    "Verif.Bits.UAssign.C362_div_narrow",
    "Verif.Bits.UAssign.C362_div_violated",
    "Verif.Bits.UAssign.C362_shift_partial",
    "Verif.Bits.UAssign.C362_shift_violated",
    "Verif.Bits.UAssign.C362_left_violated"
   ],
   "note": "Violated: division by a multiple of 2^w is undefined, as the divisor is cut to the type before, shifts by 2^w leave the value, shifts of the narrow types by 32 are undefined, and with an integer on the left the overloads differ between operators. Proved for the values of the other operators with all numbers, divisors that fit, counts less than 32, and the operands that compile."
  },
  {
   "property": "C363",
   "status": "partial",
   "theorems": [
    "Verif.SV.CStr.C363_text_partial",
    "Verif.SV.CStr.C363_history_partial",
    "Verif.SV.CStr.C363_zero_violated",
    "Verif.SV.CStr.C363_flag_violated",
    "Verif.SV.CStr.C363_change"
   ],
   "note": "Violated: for views with zeros inside debug builds end and in others the text is shorter than its size, and a wrong flag, as substr_unsafe makes it, gives a text with the characters behind the view or reads past the memory. Proved for views without zeros inside whose flag is right, thus for all views made by other members from such a view."
  },
  {
   "property": "C364",
   "status": "proved",
   "theorems": [
    "Verif.AllChecks.C364_throws",
    "Verif.AllChecks.C364_calls",
    "Verif.AllChecks.C364_subset"
   ],
   "note": ""
  },
  {
   "property": "C365",
   "status": "partial",
   "theorems": [
    "Verif.Own.Tracked.C365_step_partial",
    "Verif.Own.Tracked.C365_run_partial",
    "Verif.Own.Tracked.C365_caught",
    "Verif.Own.Tracked.C365_traits_caught",
    "Verif.Own.Tracked.C365_copy_violated",
    "Verif.Own.Tracked.C365_traits_violated",
    "Verif.Own.Tracked.C365_bounds_violated"
   ],
   "note": "Violated: copies of a pointer do not know that the memory was given back, calls through std::allocator_traits mark only a copy, accesses one past the end and wrong sizes are not noticed. Proved for programs with one variable for each block: all errors but these are noticed."
  },
  {
   "property": "C366",
   "status": "proved",
   "theorems": [
    "Verif.CxprCopy.C366_copy",
    "Verif.CxprCopy.C366_inside",
    "Verif.CxprCopy.C366_outside",
    "Verif.CxprCopy.C366_move"
   ],
   "note": ""
  },
  {
   "property": "C367",
   "status": "proved",
   "theorems": [
    "Verif.Inserters.C367_values",
    "Verif.Inserters.C367_back",
    "Verif.Inserters.C367_end",
    "Verif.Inserters.C367_set",
    "Verif.Inserters.C367_stream",
    "Verif.Inserters.C367_reseat",
    "Verif.Inserters.C367_function"
   ],
   "note": ""
  },
  {
   "property": "C368",
   "status": "proved",
   "theorems": [
    "Verif.RunIfValid.C368_alive",
    "Verif.RunIfValid.C368_result",
    "Verif.RunIfValid.C368_dead"
   ],
   "note": ""
  },
  {
   "property": "C369",
   "status": "partial",
   "theorems": [
    "Verif.VisitAs.C369_bytes",
    "Verif.VisitAs.C369_throws",
    "Verif.VisitAs.C369_same_partial",
    "Verif.VisitAs.C369_compose",
    "Verif.VisitAs.C369_set_byte",
    "Verif.VisitAs.C369_padding_violated"
   ],
   "note": "Violated: for a visited type with padding the bytes put back have no value, so that even a visitor that changes nothing is undefined. Proved for types without padding."
  },
  {
   "property": "C370",
   "status": "partial",
   "theorems": [
    "Verif.Vector.SplitMove.C370_moves_partial",
    "Verif.Vector.SplitMove.C370_released_partial",
    "Verif.Vector.SplitMove.C370_foreign_violated",
    "Verif.Vector.SplitMove.C370_leak_violated",
    "Verif.Vector.SplitMove.C370_other"
   ],
   "note": "Violated: the assignment takes the block of a buffer with another allocator although the allocator stays, so that it is released by one it is not from, and it loses a block without cells. Proved for one allocator and for allocators that go with the blocks."
  },
  {
   "property": "C371",
   "status": "partial",
   "theorems": [
    "Verif.Bits.CopySign.C371_copy_sign_partial",
    "Verif.Bits.CopySign.C371_lowest_violated",
    "Verif.Bits.CopySign.C371_unsigned_violated",
    "Verif.Bits.CopySign.C371_signbit"
   ],
   "note": "Violated: the lowest number of a signed type keeps its sign or makes the call undefined, and a negative second number gives another magnitude for unsigned types. Proved for all other numbers of signed types."
  },
  {
   "property": "C372",
   "status": "partial",
   "theorems": [
    "Verif.StringView.View1Concat.C372_concat_partial",
    "Verif.StringView.View1Concat.C372_unterminated",
    "Verif.StringView.View1Concat.C372_array_violated"
   ],
   "note": "Violated: all but the last character of an array that is not constant are taken, with the zeros behind the text in a larger buffer and without the last character of a full one. Proved for strings, pointers and arrays that end at their only zero."
  },
  {
   "property": "C373",
   "status": "proved",
   "theorems": [
    "Verif.Graph.Handles.C373_value",
    "Verif.Graph.Handles.C373_new",
    "Verif.Graph.Handles.C373_removed_finding",
    "Verif.Graph.Handles.C373_order"
   ],
   "note": "empty and the conversion to bool do not notice that the node was removed (C373_removed_finding)."
  },
  {
   "property": "C374",
   "status": "proved",
   "theorems": [
    "Verif.Algorithm.Reverser.C374_reverse",
    "Verif.Algorithm.Reverser.C374_throw"
   ],
   "note": "The container left behind by an exception is not in the outcome of the model."
  }
 ]
}