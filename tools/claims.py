c("C01", "proved", ["C01_history_refines_ideal_map", "C07_history_completes"],
  "Every answer of every completed history; which histories complete is C07/C13. The ideal map's reserve(0) empties the map (C29).")
c("C02", "proved", ["C02_insert_never_overwrites"], "")
c("C03", "proved", ["C03_insert_or_assign"], "")
c("C04", "proved", ["C04_erase_exact"], "")
c("C05", "proved", ["C05_size_is_number_of_elements"], "")
c("C06", "proved", ["C06_iteration_visits_each_once"], "")
c("C07", "partial", ["C07_history_completes", "C07_undefined_calls", "C07_terminates_with_shrink"],
  "Violated by clear() without storage, rehash(n > 2^63) and by hangs after shrink_to_fit (C13, C16); the theorems show these are the only ones.")
c("C08", "proved", ["C08_growth_preserves", "C08_insert_never_reduces_capacity"], "reserve(0): see C29.")
c("C09", "proved", ["C09_failed_allocation_changes_nothing", "C09_growth_throws"], "")
c("C10", "partial", ["C10_throwing_constructor_partial", "C10_throwing_constructor_corrupts"],
  "Violated by the code: the negation is proved for every reachable state.")
c("C13", "partial", ["C13_shrink_to_fit_partial", "C13_read_only_hangs", "C13_insert_after_shrink_hangs"],
  "Violated by the code for shrink_to_fit(true) and for insertions after shrinking and erasing.")
c("C14", "partial", ["C14_reserve_partial", "C14_reserve_56_reallocates"], "Violated by the code for e.g. n = 56; proved for 15/16 n.")
c("C15", "partial", ["C15_max_load_factor_partial", "C15_always_reallocates"],
  "Contents preserved; the 'no needless reallocation' part is violated, negation proved for every reachable state.")
c("C16", "partial", ["C16_clear_partial", "C16_clear_unallocated_undefined"], "Violated on objects without storage; proved on all others.")
c("C29", "partial", ["C29_rehash_zero_partial", "C29_reserve_zero_discards"], "reserve(0) violates it for every non-empty map.")
c("C30", "partial", ["C30_churn_unbounded", "C30_no_bound", "C30_no_deletions_partial"],
  "The claim is false for the code: erasing from an overflowed group lowers the threshold permanently, and with a constant hash a map that never "
  "holds more than 16 elements is driven to any capacity up to 2^54 (the memory limit of the model). Proved for histories without deletions: capacity <= max(29, 4*size+3).")
c("C35", "proved", ["C35_at", "C35_index"], "")
c("C36", "partial", ["C36_decrement_inverts_increment", "C36_decrement_end_undefined"], "--end() is undefined in group15 maps.")
c("C23", "proved", ["C23_history_refines_ideal_map", "C23_undefined_calls", "C23_insert_never_overwrites", "C23_insert_or_assign", "C23_erase_exact"], "")
c("C24", "partial", ["C24_terminates_without_erase_partial", "C24_insert_returns_partial", "C24_insert_hangs"],
  "Violated by the code: erasures let the threshold drift until the table is full and insert never returns.")
c("C25", "proved", ["C25_iteration_visits_each_once"], "")
c("C27", "proved", ["C27_shrink_to_fit"], "Later hanging insertions belong to C24.")
c("C37", "proved", ["C37_decrement_inverts_increment"], "")
c("C38", "proved", ["C38_erase_while_iterating"], "")
c("C39", "proved", ["C39_failed_allocation_changes_nothing"], "")
c("C40", "proved", ["C40_clear"], "")

c("C18", "proved", ["C18_prober_visits_each_bucket_once", "C18_next_bucket_result"], "")
c("C19", "proved", ["C19_matching_exact", "C19_overflow_exact", "C19_stores_exact"], "SSE2 intrinsics modelled by their documentation.")
c("C20", "proved", ["C20_bit_scan_loop"], "")
c("C21", "proved", ["C21_is_pow2", "C21_round_up", "C21_round_up32", "C21_round_down", "C21_round_to", "C21_next_pow2", "C21_prev_pow2", "C21_log2_int", "C21_calc_capacity", "C21_calc_capacity_total", "C21_compile_time"],
  "Inputs whose result is not representable are characterised too (undefined shift).")
c("C22", "partial", ["C22_popcnt32", "C22_clz_ctz32", "C22_low_bit", "C22_counts", "C22_counts_zero", "C22_log2_bits", "C22_bsr64_on_32bit", "C22_compile_time_clz", "C22_popcnt64_wrong", "C22_clzll_ctzll_wrong", "C22_bsr32_fallback_wrong", "C22_bsr64_fallback_wrong", "C22_bsf64_on_32bit_wrong", "C22_compile_time_ctz_wrong", "Bits.C22_hakmem"],
  "The 32-bit helpers are exact, all three population counts included; the 64-bit portable fallbacks violate the claim and the exact set of wrong inputs is proved.")
c("C26", "partial", ["C26_matching_exact", "C26_stores_exact", "C26_has_any_overflow_wrong"], "has_any_overflow() is violated by the code; everything else is proved.")

c("C11", "partial", ["C11_copy_partial", "C11_copy_assign", "C11_equal_capacity_copy_broken", "C11_small_copy_broken"],
  "Violated by the code: a copy that gets the same capacity as the source reports size() 0 and iterates over nothing. Missing in the partial theorem: exactly that case.")
c("C12", "partial", ["C12_table_insert_range", "C12_range_is_single_inserts", "C12_map_insert_range_partial", "C12_map_insert_range_ignores_rest"],
  "Proved for the table-level overload. The map-level overload (also used by range and initializer_list constructors) violates the claim: only the first element is inserted. The model passes the element unchanged in every iteration, as with const iterators; for others see C140.")
c("C17", "proved", ["C17_swap"], "Allocators are not modelled.")
c("C41", "partial", ["C41_move_with_allocator_partial", "C41_equal_capacity_move_broken"],
  "Violated when the capacities agree: the moved-to map reports size 0.")

c("C28", "partial", ["Alloc.C28_single_block", "Alloc.C28_disjoint", "Alloc.C28_group_block", "Alloc.C28_dealloc_count", "Alloc.C28_dealloc_count16", "Alloc.C28_reachable_count", "Alloc.C28_reachable_no_wrap", "Alloc.C28_wrapped_block_too_small", "Alloc.C28_huge_rehash_asks_for_nothing"],
  "Proved as long as the byte count fits in size_t; TotalSlotAllocCount does not check, so rehash/reserve of about 2^60 entries gets a block that is too small (proved).")
c("C31", "partial", ["Robin.C31_robin_partial", "Robin.C31_robin_checked_partial", "Robin.C31_robin_small_partial", "Robin.C31_dense",
  "Robin.C31_find_default", "Robin.C31_clear_default", "Robin.C31_growth_loses_an_element", "Robin.C31_distance_wraps",
  "Robin.C31_find_after_failed_allocation", "Robin.C31_stored_hash_growth"],
  "Proved for every hash function and every history in which the contents fit (a counting condition on home positions) and find/clear are not called "
  "on a map without storage; up to the first failed allocation. The excluded cases are violations, each with a proved counterexample.")
c("C32", "partial", ["Robin.C32_erase_keeps_others", "Robin.C32_erase_absent", "Robin.C32_layout_history_independent"],
  "For the layouts reached by histories in which neither the distance byte overflows nor a rehash runs out of room; after such an accident elements "
  "can already be lost (C31).")
c("C33", "partial", ["Robin.C33_robin_partial", "Robin.C33_distance_bound", "Robin.C33_distance_exceeds_max_lookups",
  "Robin.C33_writes_past_the_slots", "Robin.C33_shrink_writes_past_the_slots"],
  "The claim is false for the code: max_lookups() is exceeded and elements are written behind the slot array. Proved: distance at most 127 and inside the "
  "slots while the contents fit, and a sufficient condition for any bound.")
c("C34", "partial", ["Robin.C34_copy_constructor", "Robin.C34_move_target", "Robin.C34_swap_partial", "Robin.C34_copy_assign_find_absent",
  "Robin.C34_move_assign_find_absent", "Robin.C34_moved_from_insert"],
  "Proved for the copy constructor and the target of the move constructor. The claim is false for swap, copy and move assignment (find of an absent key is "
  "undefined) and for moved-from maps (insert is undefined); proved for all such states.")

c("C42", "proved", ["C42_growth_preserves", "C42_insert_never_reduces_capacity"], "Calls that return normally; failed allocations are C39, termination C24.")
c("C43", "partial", ["C43_throwing_constructor_partial", "C43_throwing_constructor_corrupts"],
  "Violated by the code whenever an element would have been constructed (proved for every state); harmless when the key is present.")
c("C44", "partial", ["C44_reserve_partial", "C44_reserve_after_max_load_factor_reallocates", "C44_reserve_after_erase_reallocates"],
  "Proved for newly constructed maps; violated after max_load_factor() and after erasures (proved witnesses).")
c("C45", "partial", ["C45_max_load_factor_partial", "C45_always_reallocates"], "Contents are kept; the call always reallocates to a larger table (proved for all states), against the claim.")
c("C46", "partial", ["C46_rehash_zero_partial", "C46_reserve_zero_discards"], "rehash(0) is fine; reserve(0) discards everything (proved for all states).")
c("C47", "proved", ["C47_at", "C47_index"], "")
c("C48", "partial", ["C48_table_insert_range", "C48_map_insert_range_partial", "C48_map_insert_range_ignores_rest"],
  "Proved for the table-level overload; the map-level overload inserts the first element only.")
c("C49", "proved", ["C49_swap"], "Allocators are not modelled.")
c("C50", "partial", ["C50_erase_keys_partial", "C50_erase_keys_ignores_rest"], "Violated: only the first key of the range is erased (proved for all states and ranges).")

c("C51", "partial", ["HashFn.hashCrc32_eq", "HashFn.hashCrc32_stdString_ub", "HashFn.hashCrc32_view_ub", "HashFn.hashCrc32_padding_partial",
  "HashFn.hashCrc32x86_eq", "HashFn.primaryHash_eq"],
  "Violated: the last load covers a whole word (proved for all strings, exact condition). Where the extra bytes are readable they do not influence the result.")
c("C52", "proved", ["HashFn.crc32Simple_eq"], "The CRC instructions are modelled by their documented polynomial division.")
c("C53", "partial", ["HashFn.intHashCrc32_halves", "HashFn.intHashCrc32_collide", "HashFn.intHashCrc32_period"],
  "Violated for all keys: the upper half is the lower half xor a constant; nothing positive remains to be proved.")
c("C54", "partial", ["HashFn.times31_eq", "HashFn.bkdr131_eq", "HashFn.times31_wide_ub", "HashFn.times31_wide_depends"],
  "Proved for byte strings; wide strings are read w times too far (proved for all of them).")
c("C55", "proved", ["HashFn.yoshimura_inBounds"], "")
c("C56", "partial", ["HashFn.mul128Arm_eq", "HashFn.mul128Other_iff", "HashFn.mul128Other_wrong", "HashFn.mumMix64Portable_eq"],
  "The ARM version is exact; the last fallback loses carries (exact set of wrong inputs).")
c("C57", "partial", ["Str.view_eq_sse_partial", "Str.view_eq_sse_ub", "Str.view_eq_sse_long", "Str.view_eq_sse_long_wrong", "Str.view_eq_u64_partial",
  "Str.view_eq_u64_ub", "Str.view_eq_stl", "Str.view_eq_libc_partial", "Str.view_eq_libc_nul", "Str.view_eq_null", "Str.view_ne_iff"],
  "Proved in full for STL mode and non-null views; in the other modes only under the stated conditions, with the violations outside them proved.")
c("C58", "partial", ["Str.wide_eq_sse_ignores", "Str.wide_eq_u64_ignores", "Str.wide_eq_stl_partial"],
  "Holds in STL mode; violated in SSE4.2 and U64 mode.")
c("C59", "partial", ["Str.view_compare_sse_partial", "Str.view_le_is_gt", "Str.view_le_wrong", "Str.view_lt_null", "Str.view_compare_stl_partial",
  "Str.view_lt_stl_wrong", "Str.view_compare_u64_nul"],
  "compare, < and > are lexicographic under the stated conditions; <= and >= are violated for all views in every mode.")
c("C60", "partial", ["Str.view_substr_partial", "Str.view_substr_wrap"], "Proved unless pos + count wraps; violated there.")
c("C61", "partial", ["Str.view_copy_partial", "Str.view_copy_returns_zero", "Str.view_copy_npos_ub", "Str.view_copy_nul"],
  "The bytes are right without NUL and wrap-around; the returned number is always 0.")
c("C62", "partial", ["Str.view_compare3_partial", "Str.view_compare3_wrong"], "Violated; holds (STL mode) where count equals the size of sv.")
c("C63", "partial", ["Str.view_hash_consistent_partial", "Str.view_hash_consistent_stl_partial", "Str.view_hash_libc_wrong"],
  "Holds in the SSE4.2 and STL modes under the conditions of C57; violated in libc mode.")

c("C64", "partial", ["Digits.log10_u32_eq", "Digits.log10_u64_eq", "Digits.countDigits_unsigned", "Digits.countDigits_small",
  "Digits.countDigits_signed_partial", "Digits.countDigits_min_ub", "Digits.countDigits_i8"],
  "Proved for 8, 32 and 64 bits except the least signed numbers (undefined, proved); 16-bit numbers of 1000 or more are miscounted (exact set).")
c("C65", "partial", ["Digits.itoaU32_eq", "Digits.itoaI32_partial", "Digits.itoa_min_ub", "Digits.itoa_wide_ub", "Digits.itoaU64_drops",
  "Digits.itoaU32D_eq", "Digits.itoaU64D_wrong", "Digits.itoaView_eq", "Digits.itoaView_numbers"],
  "Proved for 32-bit numbers into std::string and for views; violated for all 64-bit numbers into std::string and for wide strings.")
c("C66", "partial", ["Digits.toHexChar_partial", "Digits.toHex_wrong"], "Violated for every character; the single digits are right.")

c("C67", "partial", ["Flat.C67_histories_partial", "Flat.C67_guarded_partial", "Flat.C67_no_erase"],
  "Refinement of the ideal map by induction over the history: unconditional without erase; with erase while the map has at most 14 elements; with state conditions for clear(true), max_load_factor and tombstones. Outside these the code violates it (C69, C70, C73, C74, C76).")
c("C68", "partial", ["Flat.C68_insert_partial"], "For every state with the invariant, tombstones included, unless the insertion reorders the table (C70).")
c("C69", "partial", ["Flat.C69_erase_partial", "Flat.C69_erase_loses_a_key", "Flat.C69_erase_then_duplicate"],
  "Proved for at most 14 elements or 16 slots; violated with 17 elements.")
c("C70", "partial", ["Flat.C70_reorder_undefined", "Flat.C70_insert_after_erase_undefined"],
  "Violated in every state that triggers the reordering: the insertion is undefined; nothing positive remains to be proved.")
c("C71", "partial", ["Flat.C71_load_partial", "Flat.C71_growth_partial", "Flat.C71_rehash_exceeds_load"],
  "Proved for histories of insertions, erasures and lookups; violated after rehash(0).")
c("C72", "partial", ["Flat.C72_elements_partial"], "Proved for all histories with any erase, unless they reach the reordering or clear().")
c("C73", "partial", ["Flat.C73_clear_partial", "Flat.C73_clear_breaks_iteration", "Flat.C73_clear_keeps_keys"],
  "Proved for clear(true) with more than 4 slots; violated by clear() and by clear(true) on 4 slots.")
c("C74", "partial", ["Flat.C74_rehash_partial", "Flat.C74_rehash_diverges", "Flat.C74_reserve_wraps"],
  "Proved with room for one more element; without it rehash can hang, and reserve(2^47) does nothing.")
c("C75", "partial", ["Flat.C75_copy_partial", "Flat.C75_insert_range", "Flat.C75_from_range", "Flat.C75_copy_then_insert_undefined", "Flat.C75_copy_resets_load"],
  "Contents and lookups of copies proved for all maps, ranges proved; later insertions into a copy of more than 16 elements are undefined.")
c("C76", "partial", ["Flat.C76_max_load_partial", "Flat.C76_max_load_effect", "Flat.C76_max_load_then_insert_undefined"], "Proved for at most 32 slots; violated with 64.")
c("C77", "partial", ["Flat.C77_alloc_failure_partial", "Flat.C77_failed_growth_loses_elements", "Flat.C77_throwing_constructor_corrupts"],
  "Proved for a failed allocation of control bytes; violated for slots and constructors.")
c("C78", "partial", ["Flat.C78_masks_exact", "Flat.C78_convert_exact", "Flat.C78_empty_or_deleted_wrong", "Flat.C78_not_empty_or_deleted", "Flat.masks_of_table", "Flat.U64.C78_fallback_empty", "Flat.U64.C78_fallback_tag",
  "Flat.U64.C78_fallback_has_any_wrong", "Flat.U64.C78_fallback_is_all_wrong", "Flat.U64.C78_fallback_false_matches"],
  "SSE2 and SSSE3 masks proved exact except matchEmptyOrDeleted (exact condition); the fallback's hasAny and isAll are wrong.")

c("C79", "partial", ["Rob16.C79_guarded_partial", "Rob16.C79_histories_partial", "Rob16.C79_small"],
  "Refinement of the ideal map by induction over the history: unconditional for at most 129 insertions without erase from 16 slots on; otherwise with conditions on the hashes (no more than 129 elements displaced over one position, no cluster that wraps at an erase). Outside these the code violates it (C81-C88).")
c("C80", "partial", ["Rob16.C80_insert_partial"], "For every reachable map, if at most 129 home positions crowd (C85) and, below 16 slots, the control hash is not 0 (C82).")
c("C81", "partial", ["Rob16.C81_erase_partial", "Rob16.C81_erase_wraps", "Rob16.C81_erase_undefined", "Rob16.C81_erase_last_slot"],
  "Proved unless the cluster behind the element wraps around the table; there erase is undefined (proved for all states).")
c("C82", "partial", ["Rob16.C82_lookup_partial", "Rob16.C82_tag_zero_undefined"],
  "Proved for 16 slots or more and for control hashes other than 0; violated otherwise (witness).")
c("C83", "partial", ["Rob16.C83_clear_partial", "Rob16.C83_clear_leaves_ghost"],
  "Proved for clear(true) with more than 4 slots, fewer than 16 slots, or empty first 16 slots; violated otherwise (witness).")
c("C84", "partial", ["Rob16.C84_load_partial", "Rob16.C85_growth_partial", "Rob16.C84_rehash_exceeds_load"], "Proved for histories without max_load_factor and rehash below size(), with at most 129 crowding elements; violated after rehash(0).")
c("C85", "partial", ["Rob16.C85_growth_partial", "Rob16.C85_insert_exhausts", "Rob16.C85_history"],
  "Violated: 131 keys exhaust the memory (proved for every hash function with such keys and every reachable state); the bound is proved below the limit.")
c("C86", "partial", ["Rob16.C89_rehash_partial", "Rob16.C86_key_lost", "Rob16.C86_history"],
  "Proved for at most 254 crowding elements; with 255 equal hashes the next rehash loses a key (proved for every such state).")
c("C87", "partial", ["Rob16.C87_failure_partial", "Rob16.C87_failed_growth_loses_all", "Rob16.C87_throwing_constructor", "Rob16.C87_failed_insertion_loses_elements"],
  "Proved for a failed allocation of control words; violated for slots (from 8 slots on every element is lost, proved for all states) and for constructors.")
c("C88", "partial", ["Rob16.C88_max_load_partial", "Rob16.C88_load_exceeded"], "The elements are kept; the new load factor is not respected by the next insertions (proved for all states with room).")
c("C89", "partial", ["Rob16.C89_rehash_partial", "Rob16.C89_reserve", "Rob16.C89_reserve_wraps", "Rob16.C84_rehash_exceeds_load"], "Proved with at most 254 crowding elements and n < 2^44 (reserve); reserve(2^47) does nothing.")
c("C90", "partial", ["Rob16.C90_insert_range_partial", "Rob16.C90_from_range_partial", "Rob16.C90_from_long_range_partial", "Rob16.C90_from_distinct_homes_partial"],
  "Under the conditions of C80: construction from any range of at most 129 elements, and from longer ones if no more than 129 elements crowd (for instance when their home positions differ). Elements that crowd more are lost or undefined (C85).")
c("C91", "partial", ["Rob16.C91_swap_move_partial", "Rob16.C91_moved_from_undefined"], "Proved for swap and the target of a move; every use of a moved-from map is undefined, even after clear() (proved).")
c("C92", "proved", ["Rob16.C92_iteration"], "For every state with the invariant; that histories keep it is C79.")
c("C93", "proved", ["Rob16.C93_masks_exact", "Rob16.C93_avx512_same", "Rob16.C93_table_masks", "Rob16.C93_group_tests"],
  "matchHashAndDistFast2 and matchTag are unused and not modelled.")
c("C94", "partial", ["Rand.C94_every_use_out_of_bounds", "Rand.C94_key_constructor", "Rand.C94_reference_iff_partial", "Rand.C94_zeros_behind", "Rand.C94_mix_constant"],
  "Violated: every first rand and every srand reads behind the array, for all seeds (proved); the constructors are safe except with an empty key; where the words can be read it is characterised when the block is the announced one.")
c("C95", "partial", ["Rand.C95_srand_skips_a_word", "Rand.C95_words_of_new_generator", "Rand.C95_temper_bijective", "Rand.C95_srand_not_constructor"],
  "On a machine where the words behind the array can be read: exact relation of the two sequences; they agree for N - 1 words, then srand leaves one word out (violation).")
c("C96", "partial", ["Rand.C96_signed_in_range_partial", "Rand.C96_signed_wide", "Rand.C96_unsigned_in_range_partial", "Rand.C96_unsigned_full", "Rand.C96_unsigned_even", "Rand.C96_signed_even", "Rand.C96_nextInt_partial", "Rand.C96_nextInt_negative"],
  "Proved except for ranges whose number of values does not fit the type, which are undefined, and negative bounds of nextInt(max).")
c("C97", "partial", ["Rand.C97_small_uniform_partial", "Rand.C97_linux_bits_biased", "Rand.C97_linux_bits64", "Rand.C97_linux_every_word", "Rand.C97_small_uniform64", "Rand.C97_half_uniform32", "Rand.C97_half_uniform64", "Rand.C97_bytes_uniform32", "Rand.C97_bytes_uniform64", "Rand.C97_bytes_biased32", "Rand.C97_bytes_biased64", "Rand.C97_other_max32", "Rand.C97_other_max64"],
  "Proved with RAND_MAX 0x7FFF and 0xFFFF and for the bytewise variants when 256 divides RAND_MAX + 1; violated by the bytewise variants otherwise and with RAND_MAX 2^31-1, where overlapping bits are set with probability 3/4; for no RAND_MAX above 0xFFFF are the words uniform (proved), so that all values are covered.")
c("C98", "proved", ["FG.C98_exact", "Rand.C98_below_one", "Rand.C98_uniform"],
  "The floating point operations are modelled as binary64 rounded to nearest and proved exact.")
c("C99", "partial", ["RobInd.C99_indirect_partial", "RobInd.C99_indirect_checked_partial", "RobInd.C99_indirect_small_partial", "RobInd.C99_clear_default", "RobInd.C99_reads_past_the_control_words", "RobInd.C99_erase_answers_zero", "RobInd.C99_shrink_loses_a_control_word", "RobInd.C99_after_failed_allocation"],
  "Proved for contents that fit and find of present keys; violated outside (theorems and witnesses).")
c("C100", "partial", ["RobInd.C100_order_partial", "RobInd.C100_dense"], "Under the conditions of C99, for histories without a failed allocation.")
c("C101", "partial", ["RobInd.C101_find_missing", "RobInd.C101_find_partial"], "Violated by every map that owns storage and every missing key (proved); what holds is proved.")
c("C102", "proved", ["RobInd.C102_erase_keeps_others"], "For states reached by histories in which the checked code is defined (C99).")
c("C103", "partial", ["RobInd.C103_copy_undefined", "RobInd.C103_copy_empty_partial"], "Violated by every map that holds an element (proved).")
c("C104", "partial", ["RobInd.C104_move_target", "RobInd.C104_swap_partial", "RobInd.C104_move_assign_partial", "RobInd.C104_moved_from_insert", "RobInd.C104_swap_with_default"],
  "The targets are proved, under the conditions of C99; inserting into a moved-from map is undefined, and so is find after swap of a map without storage with another (proved).")
c("C105", "partial", ["C105_reference_argument_partial", "C105_reference_argument_dangles", "C105_reference_argument16_partial", "C105_reference_argument_dangles16"],
  "Proved for calls that do not reallocate; when the call reallocates the reference is read after its block is freed (proved).")
c("C106", "proved", ["C106_references_stay", "C106_assign_in_place", "C106_references_stay16", "C106_assign_in_place16"], "")
c("C107", "partial", ["Flat.C107_reference_argument_partial", "Flat.C107_reference_argument_dangles", "Flat.C107_references_stay", "Flat.C107_assign_in_place"],
  "References stay: proved.  Arguments: proved without reallocation, undefined with it (proved).")
c("C108", "partial", ["Rand.C108_seeding32", "Rand.C108_seeding64_partial", "Rand.C108_seeding64_second_word", "Rand.C108_first_words32_partial", "Rand.C108_keys32", "Rand.C108_keys64_partial", "Rand.C108_twist64_partial", "Rand.C108_temper64"],
  "32 bits: seeding and the first 227 words are the published ones, later words read behind the array (C94).  64 bits: seeding proved to differ for all seeds from 2^30 on; initialisation by keys runs the published passes with the constants of the 32-bit generator; the tempering is the published one, a step splits words at bit 63 instead of 31.")
c("C109", "partial", ["Robin.C109_load_partial", "Robin.C109_growth_partial", "Robin.C109_max_load_factor_no_effect", "Robin.C109_rehash_exceeds_load", "Robin.C109_shrink_exceeds_load", "Robin.C109_max_load_factor_exceeded",
  "RobInd.C109_load_partial", "RobInd.C109_growth_partial", "RobInd.C109_max_load_factor_no_effect", "RobInd.C109_rehash_exceeds_load", "RobInd.C109_shrink_exceeds_load", "RobInd.C109_max_load_factor_exceeded"],
  "Proved for histories that keep the default load factor and pass at least size() to reserve and rehash; violated by the other calls.")
c("C110", "partial", ["Robin.C110_reference_argument_partial", "Robin.C110_reference_argument_dangles", "Robin.C110_reference_argument_moved", "Robin.C110_wrong_value", "Robin.C110_destroyed_value",
  "Robin.C110_freed_value", "Robin.C110_references_stay_partial", "Robin.C110_assign_in_place", "Robin.C110_insert_moves", "Robin.C110_erase_moves"],
  "Arguments: proved if the key is present, the call throws, or the element stays in place; otherwise freed memory, a destroyed object or another element's value is read (proved).  References: proved for calls that neither add nor remove; violated by insertions and erasures.")
c("C111", "partial", ["RobInd.C111_reference_argument_partial", "RobInd.C111_reference_argument_dangles", "RobInd.C111_freed_value", "RobInd.C111_references_stay_partial", "RobInd.C111_erase_moves_last", "RobInd.C111_assign_in_place"],
  "Arguments: proved without reallocation, undefined with it (proved).  References: proved for every call except that erase moves the last element (proved).")
c("C112", "partial", ["Rob16.C112_reference_argument_partial", "Rob16.C112_reference_argument_dangles", "Rob16.C112_reference_argument_moved", "Rob16.C112_wrong_value", "Rob16.C112_destroyed_value",
  "Rob16.C112_freed_value", "Rob16.C112_references_stay_partial", "Rob16.C112_assign_in_place", "Rob16.C112_insert_moves", "Rob16.C112_erase_moves"],
  "As C110.  Keys with control hash 0 in maps below 16 slots excluded (C82).")
c("C113", "partial", ["Robin.C113_insert_range_partial", "Robin.C113_from_range_partial", "Robin.C113_from_range_no_expansion_partial", "Robin.C113_erase_keys_partial",
  "RobInd.C113_insert_range_partial", "RobInd.C113_from_range_partial", "RobInd.C113_erase_keys_partial"],
  "For contents that fit (condition of C31 and C99).  Element constructors that throw are not modelled.")
c("C114", "partial", ["Robin.C114_robin_equal_range_partial", "Robin.C114_robin_no_storage", "RobInd.C114_equal_range_partial", "RobInd.C114_missing_key_undefined",
  "Flat.C114_flat_equal_range_partial", "Flat.C114_flat_agrees_with_find_partial", "Rob16.C114_rob16_equal_range_partial"],
  "Violated by robin: absent keys in the indirect layout (undefined), every key on a direct-layout map without storage.  flat16 and robin16 in the states of C67, C72 and C79.")
c("C115", "partial", ["Robin.C115_robin_backward_partial", "Robin.C115_robin_next_prev_partial", "RobInd.C115_backward_partial"],
  "For histories of the modelled calls from a constructed map (moved-from and swapped maps excluded, C34, C104).")
c("C116", "partial", ["Flat.C116_erase_at_partial", "Flat.C116_erase_at_finds_partial", "Flat.C116_erase_while_iterating_partial"],
  "Elements and iteration in all states of C72; lookups afterwards only for small maps (C69).  erase(iterator) cannot be instantiated.")
c("C117", "partial", ["RobinGroup.C117_masks_one_byte", "RobinGroup.C117_masks_two_bytes", "RobinGroup.C117_begin", "RobinGroup.C117_rehash_visits", "RobinGroup.C117_reached_partial",
  "RobinGroup.C117_clear", "RobinGroup.C117_clear_indirect", "RobinGroup.C117_probe_masks", "RobinGroup.C117_other_masks", "RobinGroup.C117_empty_and_distance", "RobinGroup.C117_probe_mask_saturates",
  "RobinGroup.C117_avx512_empty_wrong", "RobinGroup.C117_indirect_used_wrong", "RobinGroup.C117_indirect_hash_wrong"],
  "Everything the map executes is proved.  Violated by masks that the map does not use: AVX512 matchEmpty, the masks of the indirect layout, the distance masks near the end of the distance range.")
c("C118", "partial", ["Life.C118_lifetimes", "Life.C118_balanced", "Life.C118_construct_throws", "Life.C118_leak16", "Life.C118_leak16_growth", "Life.C118_ctor_throws"],
  "Proved for all histories when the allocator does not fail between the two requests of group16 and no element constructor throws.  Violated otherwise: group16 loses the first block; after a throwing constructor the destructor destroys an element that does not exist.  Copying and moving: C123.")
c("C119", "proved", ["Sha1.C119_sha1_x86", "Sha1.C119_padded", "Sha1.C119_no_padding", "Sha1.C119_empty"],
  "x86-64 result; the 32-bit version returns the first word alone.  As the function does not pad, zeros at the end of the last block leave the value unchanged (C119_no_padding).")
c("C120", "partial", ["Sha1.C120_msg2_partial", "Sha1.C120_msg2_reads_behind", "Sha1.C120_msg2_string", "Sha1.C120_msg2_zeros"],
  "Value proved when the memory is readable up to the next multiple of sixteen; violated otherwise: the call reads behind the string (proved for all strings).  Zeros at the end do not change the value.")
c("C121", "partial", ["Robin.Track.C121_lifetimes_partial", "Robin.Track.C121_lifetimes_roomy_partial", "Robin.Track.C121_need_grow", "Robin.Track.C121_self_transfer", "Robin.Track.C121_exchange_over_live", "Robin.Track.C121_clear_destroy", "Robin.Track.C121_lost_block", "Robin.Track.C121_wrong_count", "Robin.Track.C121_throwing_element", "Robin.Track.C121_range_partial", "Robin.Track.C121_range_throws"],
  "All histories without exception: the log of events is out of order exactly if an element was moved onto itself or onto the live buffer; otherwise size() objects are alive and the destructor leaves nothing. With room (no kNeedGrow), without clear(true) and without a default constructed buffer the calls are defined and in order. The code violates the rest: kNeedGrow with swap_slot moves an element onto itself; the default constructed buffer is constructed over; clear(true) reads behind the static control words from 64 slots on; a failed second allocation loses the control block; after a failed growth the destructor gives the block back with a wrong count; after a throwing element constructor the destructor destroys an object that was never constructed; a constructor from a range in which an element constructor throws loses the blocks. Maps made from ranges without exception are in order. Missing: moves of elements that throw, copy, move, swap. The indirect layout is C131.")
c("C122", "partial", ["Flat.Track.C122_lifetimes_partial", "Flat.Track.C122_histories_partial", "Flat.Track.C122_clear_destroys_twice", "Flat.Track.C122_failed_slots", "Flat.Track.C122_failed_constructor", "Flat.Track.C122_throwing_element"],
  "Proved for all histories with failed requests for groups, with tombstones, lost keys and clear(true), in the states of C72 and C76. Violated otherwise (proved for all states): clear() leaves control bytes and the destructor destroys those elements again; a failed request for slots loses the old groups and never destroys the elements; a throwing element constructor makes the destructor destroy an object that does not exist.")
c("C123", "partial", ["Life.C123_copy", "Life.C123_copy_no_memory", "Life.C123_copy_then", "Life.C123_side_by_side", "Life.C123_both_empty", "Life.C123_copy_and_source", "Life.C123_copy_assign", "Life.C123_move", "Life.C123_copy_throws", "Life.C123_move_never_throws_partial", "Life.C123_move_throws"],
  "Proved when no element constructor throws; violated for every state otherwise, copying (C123_copy_throws) and moving to another allocator (C123_move_throws). Copies of equal capacity, which report a size of 0 (C11), are destroyed properly, but calls on them before their destruction are not covered.")
c("C124", "partial", ["F32.C124_group_set", "F32.C124_robin_set", "F32.C124_flat_set", "F32.C124_nan", "F32.C124_load_accurate", "F32.C124_load_le_pow", "F32.C124_load_le_group15", "F32.C124_empty_nan",
  "C124_group15_load_partial", "C124_group15_set", "C124_group15_small_full", "C124_group15_half_exceeded", "C124_group15_shrink_exceeded", "C124_group16_load_partial", "C124_group16_small_full",
  "F32.C124_robin_calls", "F32.C124_flat_calls", "Robin.C124_robin_load_partial", "Robin.C124_robin_empty_nan", "Robin.C124_robin_limit_exceeded", "RobInd.C124_robin_load_partial",
  "Flat.C124_flat_load_partial", "Flat.C124_flat_rehash_exceeded", "Rob16.C124_robin16_load_partial", "Rob16.C124_robin16_rehash_exceeded"],
  "Conversions and accuracy proved for all floats; NaN as an argument is undefined in all five maps (proved). The bound by max_load_factor() is proved for the histories named in the theorems and violated outside them: smallest tables and shrink_to_fit of the group maps, rehash(0), a lowered limit and an empty map (NaN) of the others.")
c("C125", "partial", ["Robin.C125_reserve_partial", "Robin.C125_reserve_load_factor", "RobInd.C125_reserve_partial", "RobInd.C125_reserve_load_factor",
  "F32.flatArg_03", "Flat.C125_reserve_partial", "Flat.C125_reserve_tombstones", "Flat.C125_reserve_load_factor", "Rob16.C125_reserve_partial", "Rob16.C125_reserve_load_factor"],
  "Proved for the default load factor, with every later request refused. Violated (witnesses): with max_load_factor(0.3f) reserve(5) leaves room for four elements in all three maps; in flat16 reserve keeps tombstones, which use up the room. robin and robin16 need hashes within their displacement limits, flat16 histories without tombstones.")
c("C126", "partial", ["Rob16.Track.C126_lifetimes_partial", "Rob16.Track.C126_histories_partial", "Rob16.Track.C126_failed_slots", "Rob16.Track.C126_failed_constructor", "Rob16.Track.C126_throwing_element", "Rob16.Track.C126_range_partial", "Rob16.Track.C126_range_throws"],
  "Proved for all histories as in C79 (guarded, or with conditions on the calls only), with failed requests for groups, displacements that end in a growth and both ways of exchanging elements. Violated otherwise (proved for all states): a failed request for slots loses the old groups and never destroys the elements; in a constructor the new groups are lost; a throwing element constructor makes the destructor destroy an object that does not exist; an exception in a constructor from a range loses both blocks and the elements (such constructors that return are proved). The calls excluded in C79 are undefined or lose elements already without the log.")
c("C127", "partial", ["Fmt.C127_no_prepare_partial", "Fmt.C127_missing", "Fmt.C127_calc_space", "Fmt.C127_calc_space_float", "Fmt.C127_least_int", "Fmt.C127_char", "Fmt.C127_silent"],
  "Proved for text, %%, %d with int and %u with unsigned, in any number and order; the announced size for all formats and all arguments that are no floating point numbers. Violated (proved for all strings): the least int is undefined, %c prints the number of the code, %i %o %x %X and all floating point specifiers print nothing, %f is announced with six characters.")
c("C128", "partial", ["Fmt.C128_direct_partial", "Fmt.C128_direct_percent", "Fmt.C128_direct_percent_args", "Fmt.C128_direct_tail", "Fmt.C128_sprintf_never", "Fmt.C128_sprintf_ub", "Fmt.C128_sprintf_throw"],
  "sprintf_direct: proved for text, %d with int and %u with unsigned in any number and order; violated with %% (text lost, wrong number, exception) and with % at the end. sprintf: violated for all strings, formats and arguments, it never returns normally; text is written behind the string, specifiers alone end in an exception.")
c("C129", "partial", ["Flat.Track.C129_copy_partial", "Flat.Track.C129_copy_throws", "Flat.Track.C129_copy_no_groups", "Flat.Track.C129_range_partial", "Flat.Track.C129_copy_move_throws", "Flat.Track.C129_copy_no_slots", "Flat.Track.C129_range_throws"],
  "Proved for constructors that return, for copies whose element copy constructor throws and for a failed request for groups. Violated (proved for all sources and ranges): a failed request for slots loses the groups; a move constructor that throws in its slot makes the handler destroy an element that does not exist; an exception in a range constructor loses both blocks and the elements.")
c("C130", "partial", ["Flat.Track.C130_flat16_partial", "Life.C130_group15_partial", "Life.C130_group16_partial", "Rob16.Track.C130_robin16_partial"],
  "Constructors that throw are excluded, unequal allocators are the subject of C132. flat16: copies of up to 16 elements (C75) and the calls of C122; group15: copies whose capacity differs from that of the source (the others report a size of 0, C11); group16: no copies, and no request that fails between the two of one table; robin16: no copies, and the calls of C126.")
c("C131", "partial", ["RobInd.Track.C131_lifetimes_partial", "RobInd.Track.C131_lifetimes_roomy_partial", "RobInd.Track.C131_range_partial", "RobInd.Track.C131_throwing_element", "RobInd.Track.C131_lost_block", "RobInd.Track.C131_wrong_count", "RobInd.Track.C131_range_throws"],
  "Proved for all histories that end without undefined behaviour, whatever hash, equality and contents do, also after exceptions of element constructors; with room (C99) no undefined behaviour occurs. Violated (proved for all states): a refused request for slots loses the control block; a refused rehash changes the number of look-ups, so that the destructor gives the blocks back with wrong counts; after an exception of an element constructor the map can be destroyed, but looking for the key or inserting it again reads a slot without an object; an exception in a constructor from a range loses both blocks and the elements. Copies are undefined in this layout (C103).")
c("C132", "partial", ["Life.C132_group15_partial", "Life.C132_get_allocator_partial", "Life.C132_assign_wrong_allocator", "Rob16.Track.C132_robin16_partial", "Rob16.Track.C132_robin16_move_with", "Rob16.Track.C132_robin16_swap_wrong_allocator"],
  "group15 and robin16. group15: proved for all programs of the actions of C130 together with allocator arguments and assignments, for allocators that are swapped whenever they replace others at assignment (or are all equal), swap being used as the standard permits. Violated (proved for all states): an allocator that propagates on copy assignment but not on swap is not taken over while the memory is, which then goes back to the wrong allocator. robin16 (no copies and no assignment, they cannot be instantiated): proved for allocators that are swapped with the maps, and for programs that move maps only with allocators equal to their own. Violated (proved for all states): the allocator given to the move constructor is returned by get_allocator() but never used, and with allocators that are not swapped a later swap between maps whose get_allocator() is equal sends slots to the wrong allocator.")
c("C133", "partial", ["Flat.C133_flat16_partial", "Flat.C133_flat16_other_answers", "Flat.C133_flat16_duplicate_keys", "FnGroup.C133_group15"],
  "Proved for group15. flat16: a copy has the elements of its source, and its answers when a default constructed comparison agrees with that of the source; violated otherwise (proved for all states): the copy has default constructed functions, answers differently for every key about which the comparisons disagree, and can hold keys that are equal for it. robin16 is written alike, its copy constructor cannot be instantiated; robin copies the functions.")
c("C134", "partial", ["Life.C134_group_partial", "Life.C134_group_throws", "Flat.Track.C134_flat16_partial", "Flat.Track.C134_flat16_throws", "Rob16.Track.C134_robin16_partial", "Rob16.Track.C134_robin16_throws", "Robin.Track.C134_robin_partial", "Robin.Track.C134_robin_throws"],
  "group15, group16, flat16, robin16 and robin (direct layout). Without exception the models are those of C118, C122, C126 and C121. Violated otherwise (proved for all states reached by the histories of those claims): the storage is replaced before the elements are moved and nothing catches, so the elements not moved yet are lost, the old blocks are never returned, and the slot chosen for the element counts as used without holding one, which makes finding that key and destroying the map undefined. In robin16 and robin the constructor of the arriving element is the one that throws; exceptions from moving the elements it displaces, insertions beyond the displacement limit of robin16, and robin with the indirect layout are not modelled.")
c("C135", "partial", ["HashFn.djb_eq", "HashFn.djb_one", "HashFn.apHash_eq", "HashFn.apHash_one", "HashFn.opensslHash_bytes", "HashFn.opensslHash_wide_blind", "HashFn.rocksHash_bytes", "HashFn.rocksHash_wide_blind", "HashFn.msvcFnv1a_bytes", "HashFn.msvcFnv1a_published", "HashFn.msvcFnv1a_not_published"],
  "DJBHash and APHash: proved for characters of one to four bytes. The others are proved for bytes. Violated (proved): for wide characters OpenSSL_Hash ignores every odd position and rocksdb::hashes::Hash most of each group of four; msvc_fnv_1a is FNV-1a except for lengths 4 and 8. The left shift of negative numbers in rocksdb::hashes::Hash is computed as in C++20.")
c("C136", "partial", ["HashFn.triadii_reads", "HashFn.penumbra_reads", "HashFn.yoshimura_byte_partial", "HashFn.triadii_byte_partial", "HashFn.penumbra_byte_partial", "HashFn.yoshimura_not_everyByte", "HashFn.triadii_not_everyByte", "HashFn.penumbra_not_everyByte", "HashFn.triadii_ignores", "HashFn.penumbra_ignores", "HashFn.triadii_sse2_ignores", "HashFn.penumbra_sse2_ignores", "HashFn.triadii_sse2_second"],
  "Reading is proved for all lengths (FNV1A_Yoshimura: C55). Every byte outside the stretch that both read lines pass matters to the scalar code (proved). Violated (proved): a byte inside that stretch can leave the hash unchanged; the vector code shifts by bytes instead of bits and drops ten bytes of every 48 of the first line and five of the second, for any multiplication; with SSE2 the odd 16-bit lanes are multiplied by 10, so that they only depend on the last 14 rounds. Which of the remaining bytes always matter to the vector code is not proved.")
c("C137", "partial", ["HashFn.primaryAt_partial", "HashFn.primaryAt_aligned", "HashFn.primaryHash_everyByte", "HashFn.primaryAt_reads", "HashFn.primaryAt_outside", "HashFn.primaryAt_ignores", "HashFn.primaryOldAt_outside", "HashFn.primaryOldAt_ignores", "HashFn.primaryOldAt_signed"],
  "Holds on x86 and for aligned keys (proved, up to the over-read of C51). Violated off x86 (proved, little-endian): the hash of every key that is not empty and not aligned depends on a byte outside the key and ignores a byte of each of its words; primaryHash_old reads the last incomplete word from the wrong end, and with a signed char a byte of 128 or more hides the other bytes of its word.")
c("C138", "partial", ["Vec.C138_partial", "Vec.C138_insert32_violated", "Vec.C138_high_violated"],
  "Holds for every helper but two (proved). Violated (proved): with AVX2, mm256_insert_epi32 stores zero instead of the value in every lane of odd index; mm256_cvtsi256_si32_high sign extends the word. The maps use neither. Not modelled: the code for 32-bit x86 and for AVX without SSE4.1, which has syntax errors.")
c("C139", "partial", ["FG.C139_partial", "FG.C139_one", "FG.C139_above_violated", "FG.C139_overflow_violated"],
  "Holds without arguments, and with a range whose difference does not overflow and, for the words whose factor is 1 (128 words of nextFloat, one of nextDouble, none of nextDouble53), is exact (proved). Violated (proved): with a factor of 1 and an inexact difference the result can exceed the maximum; if the difference overflows the result is infinite or not a number.")
c("C140", "partial", ["Args.C140_lvalues_kept_partial", "Args.C140_const_kept", "Args.C140_failed_call_keeps_rvalues_partial", "Args.C140_new_element_takes_rvalues", "Args.C140_range_keeps_source",
  "Args.C140_group_map_const_range_partial", "Args.C140_insert_or_assign_steals_key", "Args.C140_group_emplace_steals_pair", "Args.C140_group_table_range_steals_source", "Args.C140_group_map_range_inserts_moved_from"],
  "Holds for const objects everywhere, for lvalues in all other calls, and for rvalues that need no conversion (proved). Violated (proved): the group maps move from a pair passed to emplace as an lvalue and from the elements of a range that is not const, so that their range insertion inserts moved-from elements; flat16, robin16 and robin move from the key passed to insert_or_assign as an lvalue. Pairs of another type passed as rvalues to flat16, robin16 and robin are consumed by the conversion before the lookup.")
c("C141", "partial", ["RandCopy.C141_unused_copies_partial", "RandCopy.C141_copy_continues_partial", "RandCopy.C141_destroyed_source", "RandCopy.C141_reseeded_source", "RandCopy.C141_copies_are_not_values"],
  "Holds in every program that copies generators only before their first use, and for a copy whose source is left alone (proved). Violated (proved): the copy of a used generator points into the array of its source until its own next_state, so it reads a destroyed object or the words of a source that was seeded again.")
c("C142", "partial", ["StrBuf.C142_append_partial", "StrBuf.C142_append_fill", "StrBuf.C142_push_back", "StrBuf.C142_needs_room", "StrBuf.C142_append_repeats"],
  "Holds for append(count, ch), push_back and for sources that do not reach behind the text (proved). Violated (proved): a source that begins in the text and reaches behind it is overwritten while it is read, the last characters of the text are added again and again.")
c("C143", "partial", ["StrBuf.C143_restores_partial", "StrBuf.C143_same_end", "StrBuf.C143_copied_while_cut", "StrBuf.C143_detach_keeps_text"],
  "Holds in every program that copies no helper whose text is cut and cuts no two texts at the same place at a time (proved). Violated otherwise (proved): the terminator stays in the text, or a helper takes its text for cut although it is not. detach() does not forget a text that is not cut.")
c("C144", "partial", ["Stream.C144_robin_insert_partial", "Stream.C144_robin_construct_first_only", "Stream.C144_indirect_insert_partial", "Stream.C144_indirect_construct_first_only",
  "Stream.C144_robin16_insert_partial", "Stream.C144_robin16_construct_first_only", "Stream.C144_flat16_insert", "Stream.C144_flat16_construct_first_only", "Stream.C144_group_insert_first_only"],
  "insert(first, last) of flat16, robin16 and robin inserts the whole stream (proved, for robin and robin16 under the conditions of C31 and C80). Violated (proved): the range constructors of these maps count the elements first and thereby empty the stream, only the first element gets into the map; group15 and group16 insert the first element only, as always (C12, C48). The iterator is modelled after std::istream_iterator.")
c("C145", "partial", ["Buckets.C145_flat16_partial", "Buckets.C145_flat16_beyond", "Buckets.C145_robin16_partial", "Buckets.C145_robin16_beyond",
  "Buckets.C145_robin_own_bucket_partial", "Buckets.C145_robin_beyond", "Buckets.C145_indirect_beyond", "Buckets.C145_group16_bucket_partial", "Buckets.C145_group16_bucket_size"],
  "Proved: bucket numbers of flat16 up to 256 slots, of robin16 up to 16 slots and of group16 exist; in robin and group16 no two elements share one. Violated (proved): every flat16 map of more than 256 elements and every robin16 map of more than 16 has an element whose bucket number is not below bucket_count() (16 always); robin likewise unless its elements fill the first positions without a gap; bucket_size(n) of group16 is 1 also for empty buckets. group15's bucket(key) does not compile; flat16, robin16 and robin have no bucket_size.")
c("C146", "partial", ["ViewArray.C146_programs_partial", "ViewArray.C146_no_leak_partial", "ViewArray.C146_clear_leaks", "ViewArray.C146_resize_undefined", "ViewArray.C146_shared_deleted_twice"],
  "Proved: every program gets the answers of arrays of elements, and the leaked elements are exactly as many as pop_back, clear and resize removed (none without these calls). Violated (proved): clear, pop_back and a shrinking resize do not delete; operator[] of a place made by resize is undefined; a pointer from at() that is pushed again is deleted twice. Copies do not compile.")
c("C147", "partial", ["Ranges.C147_reverse_iterators", "Ranges.C147_reverse_loop", "Ranges.C147_swap", "Ranges.C147_swap_ranges_partial", "Ranges.C147_swap_ranges_aborts", "Ranges.C147_swap_arrays"],
  "Reverse iterators, swap of variables, and swap_ranges and swap of arrays without assertions are proved. Violated (proved): with assertions swap_ranges, and swap of arrays with it, aborts for every nonempty range, because the assertion measures the distance after the loop. swap of plain pointers does not compile (no overload is enabled).")
c("C148", "partial", ["FloatNear.C148_symmetric_partial", "FloatNear.C148_close", "FloatNear.C148_neighbours", "FloatNear.C148_not_transitive", "FloatNear.C148_not_finite"],
  "Symmetry, reflexivity but for NaN, at most two units in the last place, and infinities are proved for all formats with at least two bits of fraction. Violated (proved): of two neighbours it depends on the last bit of the smaller pattern whether they are accepted, and values two units apart may be accepted while one of them and the value between them are not.")
c("C149", "partial", ["Align.C149_align_to_partial", "Align.C149_align_to_wraps", "Align.C149_pointer_partial", "Align.C149_check"],
  "Least multiple, alignedness, check_alignment and the assertions are proved for all arguments whose next multiple is below 2^64. Violated (proved): above that the result is 0, and no assertion notices.")
c("C150", "partial", ["Watch.C150_elapsed_partial", "Watch.C150_start_negative", "Watch.C150_peek", "Watch.C150_tod_unit", "Watch.C150_stamp_partial", "Watch.C150_stamp_coarse"],
  "Elapsed and running times are proved for all histories with the std::chrono and clock() watches; double is idealised as rationals, and clocks do not go backwards. Violated (proved): a watch started but not stopped shows a negative time; with gettimeofday seconds are microseconds; timestamps of the std::chrono watch are whole seconds. StopWatchExBase does not compile and is not modelled.")
c("C151", "partial", ["CharCopy.C151_mem_copy_partial", "CharCopy.C151_wide", "CharCopy.C151_returns_differ", "CharCopy.C151_str_copy_partial", "CharCopy.C151_str_copy_zeroed", "CharCopy.C151_str_copy_generic_partial", "CharCopy.C151_str_copy_no_terminator"],
  "Proved for the generic mem_copy (also with overlaps when the destination comes first), mem_copy of char, and str_copy of char and wchar_t. Violated (proved): mem_copy of wchar_t copies four times too many characters; the generic str_copy stops where destination and source have no common bit, so copies nothing into zeroed memory, and writes no terminator; the overloads return different pointers.")
c("C152", "partial", ["Step.C152_advance", "Step.C152_input_partial", "Step.C152_input_back", "Step.C152_distance", "Step.C152_next_prev", "Step.C152_string", "Step.C152_string_walk", "Step.C152_postfix", "Step.C152_postfix_walk"],
  "Proved for all categories and offsets, but for negative offsets of input and forward iterators, which are ignored (proved; the standard leaves them undefined). Violated (proved): it++ and it-- of string iterators return references to variables that no longer exist, so that every loop with *it++ over a nonempty string is undefined.")
c("C153", "partial", ["StrFn.C153_terminated", "StrFn.C153_signed", "StrFn.C153_counted", "StrFn.C153_counted_char_partial", "StrFn.C153_counted_zero", "StrFn.C153_stl_equal", "StrFn.C153_stl_count", "StrFn.C153_stl_cmp_partial", "StrFn.C153_stl_order", "StrFn.C153_stl_order_wrong", "StrFn.C153_null", "StrFn.C153_safe"],
  "Proved for terminated strings and for strings with lengths of general character types. Violated (proved): libc for char and wchar_t stops at a zero inside; stl::StrEqual with lengths has no return and is undefined for equal lengths; stl::StrCmp orders wider characters by their lowest byte; signed character types put longer strings before their prefixes. A null pointer differs from an empty string.")
c("C154", "partial", ["HashHelper.C154_int", "HashHelper.C154_text", "HashHelper.C154_text_empty", "HashHelper.C154_float_default", "HashHelper.C154_float_zero", "HashHelper.C154_pointer", "HashHelper.C154_default", "HashHelper.C154_pointer_small"],
  "Proved for integers and nonempty texts of char. Violated (proved): +0.0 and -0.0 have different hash codes; a float is read beyond its end by default; pointers are hashed by what they point to, undefined for null and small targets; the empty text has two hash codes. Texts of wider characters and string_hash_helper (C54) are not covered here.")
c("C155", "partial", ["Analyzer.C155_analyse_partial", "Analyzer.C155_group16", "Analyzer.C155_group15", "Analyzer.C155_group_fresh_partial"],
  "Proved for every container whose bucket sizes add up to size(), with exact fractions for double. Violated (proved) for group15 and group16 maps with storage, where bucket_size is 1 for every bucket: the assertion fails, an empty map is analysed, the usage is above 100 percent and the unused count wraps. The two deviations and the printing are not modelled.")
c("C156", "partial", ["SysTime.C156_now_partial", "SysTime.C156_unix_float", "SysTime.C156_elapsed", "SysTime.C156_sleep_partial", "SysTime.C156_sleep_long", "SysTime.C156_sleep_other"],
  "Proved with exact fractions for double: integer times, elapsed and interval times, floating-point times of Linux, sleeps of at most 4294967 ms. Violated (proved): floating-point times of other Unix systems are 1000 times too large; longer sleeps are cut modulo 2^32 microseconds; the sleep loops for unknown systems never end; elapsed times are negative when the clock is set back. Windows is not modelled.")
