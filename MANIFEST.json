{
 "claims": [
  {
   "property": "C01",
   "status": "proved",
   "theorems": [
    "Verif.C01_history_refines_ideal_map",
    "Verif.C07_history_completes"
   ],
   "note": "Every answer of every completed history; which histories complete is C07/C13. The ideal map's reserve(0) empties the map (C29)."
  },
  {
   "property": "C02",
   "status": "proved",
   "theorems": [
    "Verif.C02_insert_never_overwrites"
   ],
   "note": ""
  },
  {
   "property": "C03",
   "status": "proved",
   "theorems": [
    "Verif.C03_insert_or_assign"
   ],
   "note": ""
  },
  {
   "property": "C04",
   "status": "proved",
   "theorems": [
    "Verif.C04_erase_exact"
   ],
   "note": ""
  },
  {
   "property": "C05",
   "status": "proved",
   "theorems": [
    "Verif.C05_size_is_number_of_elements"
   ],
   "note": ""
  },
  {
   "property": "C06",
   "status": "proved",
   "theorems": [
    "Verif.C06_iteration_visits_each_once"
   ],
   "note": ""
  },
  {
   "property": "C07",
   "status": "partial",
   "theorems": [
    "Verif.C07_history_completes",
    "Verif.C07_undefined_calls",
    "Verif.C07_terminates_with_shrink"
   ],
   "note": "Violated by clear() without storage, rehash(n > 2^63) and by hangs after shrink_to_fit (C13, C16); the theorems show these are the only ones."
  },
  {
   "property": "C08",
   "status": "proved",
   "theorems": [
    "Verif.C08_growth_preserves",
    "Verif.C08_insert_never_reduces_capacity"
   ],
   "note": "reserve(0): see C29."
  },
  {
   "property": "C09",
   "status": "proved",
   "theorems": [
    "Verif.C09_failed_allocation_changes_nothing",
    "Verif.C09_growth_throws"
   ],
   "note": ""
  },
  {
   "property": "C10",
   "status": "partial",
   "theorems": [
    "Verif.C10_throwing_constructor_partial",
    "Verif.C10_throwing_constructor_corrupts"
   ],
   "note": "Violated by the code: the negation is proved for every reachable state."
  },
  {
   "property": "C13",
   "status": "partial",
   "theorems": [
    "Verif.C13_shrink_to_fit_partial",
    "Verif.C13_read_only_hangs",
    "Verif.C13_insert_after_shrink_hangs"
   ],
   "note": "Violated by the code for shrink_to_fit(true) and for insertions after shrinking and erasing."
  },
  {
   "property": "C14",
   "status": "partial",
   "theorems": [
    "Verif.C14_reserve_partial",
    "Verif.C14_reserve_56_reallocates"
   ],
   "note": "Violated by the code for e.g. n = 56; proved for 15/16 n."
  },
  {
   "property": "C15",
   "status": "partial",
   "theorems": [
    "Verif.C15_max_load_factor_partial",
    "Verif.C15_always_reallocates"
   ],
   "note": "Contents preserved; the 'no needless reallocation' part is violated, negation proved for every reachable state."
  },
  {
   "property": "C16",
   "status": "partial",
   "theorems": [
    "Verif.C16_clear_partial",
    "Verif.C16_clear_unallocated_undefined"
   ],
   "note": "Violated on objects without storage; proved on all others."
  },
  {
   "property": "C29",
   "status": "partial",
   "theorems": [
    "Verif.C29_rehash_zero_partial",
    "Verif.C29_reserve_zero_discards"
   ],
   "note": "reserve(0) violates it for every non-empty map."
  },
  {
   "property": "C30",
   "status": "partial",
   "theorems": [
    "Verif.C30_churn_unbounded",
    "Verif.C30_no_bound",
    "Verif.C30_no_deletions_partial"
   ],
   "note": "The claim is false for the code: erasing from an overflowed group lowers the threshold permanently, and with a constant hash a map that never holds more than 16 elements is driven to any capacity up to 2^54 (the memory limit of the model). Proved for histories without deletions: capacity <= max(29, 4*size+3)."
  },
  {
   "property": "C35",
   "status": "proved",
   "theorems": [
    "Verif.C35_at",
    "Verif.C35_index"
   ],
   "note": ""
  },
  {
   "property": "C36",
   "status": "partial",
   "theorems": [
    "Verif.C36_decrement_inverts_increment",
    "Verif.C36_decrement_end_undefined"
   ],
   "note": "--end() is undefined in group15 maps."
  },
  {
   "property": "C23",
   "status": "proved",
   "theorems": [
    "Verif.C23_history_refines_ideal_map",
    "Verif.C23_undefined_calls",
    "Verif.C23_insert_never_overwrites",
    "Verif.C23_insert_or_assign",
    "Verif.C23_erase_exact"
   ],
   "note": ""
  },
  {
   "property": "C24",
   "status": "partial",
   "theorems": [
    "Verif.C24_terminates_without_erase_partial",
    "Verif.C24_insert_returns_partial",
    "Verif.C24_insert_hangs"
   ],
   "note": "Violated by the code: erasures let the threshold drift until the table is full and insert never returns."
  },
  {
   "property": "C25",
   "status": "proved",
   "theorems": [
    "Verif.C25_iteration_visits_each_once"
   ],
   "note": ""
  },
  {
   "property": "C27",
   "status": "proved",
   "theorems": [
    "Verif.C27_shrink_to_fit"
   ],
   "note": "Later hanging insertions belong to C24."
  },
  {
   "property": "C37",
   "status": "proved",
   "theorems": [
    "Verif.C37_decrement_inverts_increment"
   ],
   "note": ""
  },
  {
   "property": "C38",
   "status": "proved",
   "theorems": [
    "Verif.C38_erase_while_iterating"
   ],
   "note": ""
  },
  {
   "property": "C39",
   "status": "proved",
   "theorems": [
    "Verif.C39_failed_allocation_changes_nothing"
   ],
   "note": ""
  },
  {
   "property": "C40",
   "status": "proved",
   "theorems": [
    "Verif.C40_clear"
   ],
   "note": ""
  },
  {
   "property": "C18",
   "status": "proved",
   "theorems": [
    "Verif.C18_prober_visits_each_bucket_once",
    "Verif.C18_next_bucket_result"
   ],
   "note": ""
  },
  {
   "property": "C19",
   "status": "proved",
   "theorems": [
    "Verif.C19_matching_exact",
    "Verif.C19_overflow_exact",
    "Verif.C19_stores_exact"
   ],
   "note": "SSE2 intrinsics modelled by their documentation."
  },
  {
   "property": "C20",
   "status": "proved",
   "theorems": [
    "Verif.C20_bit_scan_loop"
   ],
   "note": ""
  },
  {
   "property": "C21",
   "status": "proved",
   "theorems": [
    "Verif.C21_is_pow2",
    "Verif.C21_round_up",
    "Verif.C21_round_up32",
    "Verif.C21_round_down",
    "Verif.C21_round_to",
    "Verif.C21_next_pow2",
    "Verif.C21_prev_pow2",
    "Verif.C21_log2_int",
    "Verif.C21_calc_capacity",
    "Verif.C21_calc_capacity_total",
    "Verif.C21_compile_time"
   ],
   "note": "Inputs whose result is not representable are characterised too (undefined shift)."
  },
  {
   "property": "C22",
   "status": "partial",
   "theorems": [
    "Verif.C22_popcnt32",
    "Verif.C22_clz_ctz32",
    "Verif.C22_low_bit",
    "Verif.C22_counts",
    "Verif.C22_counts_zero",
    "Verif.C22_log2_bits",
    "Verif.C22_bsr64_on_32bit",
    "Verif.C22_compile_time_clz",
    "Verif.C22_popcnt64_wrong",
    "Verif.C22_clzll_ctzll_wrong",
    "Verif.C22_bsr32_fallback_wrong",
    "Verif.C22_bsr64_fallback_wrong",
    "Verif.C22_bsf64_on_32bit_wrong",
    "Verif.C22_compile_time_ctz_wrong",
    "Verif.Bits.C22_hakmem"
   ],
   "note": "The 32-bit helpers are exact, all three population counts included; the 64-bit portable fallbacks violate the claim and the exact set of wrong inputs is proved."
  },
  {
   "property": "C26",
   "status": "partial",
   "theorems": [
    "Verif.C26_matching_exact",
    "Verif.C26_stores_exact",
    "Verif.C26_has_any_overflow_wrong"
   ],
   "note": "has_any_overflow() is violated by the code; everything else is proved."
  },
  {
   "property": "C11",
   "status": "partial",
   "theorems": [
    "Verif.C11_copy_partial",
    "Verif.C11_copy_assign",
    "Verif.C11_equal_capacity_copy_broken",
    "Verif.C11_small_copy_broken"
   ],
   "note": "Violated by the code: a copy that gets the same capacity as the source reports size() 0 and iterates over nothing. Missing in the partial theorem: exactly that case."
  },
  {
   "property": "C12",
   "status": "partial",
   "theorems": [
    "Verif.C12_table_insert_range",
    "Verif.C12_range_is_single_inserts",
    "Verif.C12_map_insert_range_partial",
    "Verif.C12_map_insert_range_ignores_rest"
   ],
   "note": "Proved for the table-level overload. The map-level overload (also used by range and initializer_list constructors) violates the claim: only the first element is inserted. The model passes the element unchanged in every iteration, as with const iterators; for others see C140."
  },
  {
   "property": "C17",
   "status": "proved",
   "theorems": [
    "Verif.C17_swap"
   ],
   "note": "Allocators are not modelled."
  },
  {
   "property": "C41",
   "status": "partial",
   "theorems": [
    "Verif.C41_move_with_allocator_partial",
    "Verif.C41_equal_capacity_move_broken"
   ],
   "note": "Violated when the capacities agree: the moved-to map reports size 0."
  },
  {
   "property": "C28",
   "status": "partial",
   "theorems": [
    "Verif.Alloc.C28_single_block",
    "Verif.Alloc.C28_disjoint",
    "Verif.Alloc.C28_group_block",
    "Verif.Alloc.C28_dealloc_count",
    "Verif.Alloc.C28_dealloc_count16",
    "Verif.Alloc.C28_reachable_count",
    "Verif.Alloc.C28_reachable_no_wrap",
    "Verif.Alloc.C28_wrapped_block_too_small",
    "Verif.Alloc.C28_huge_rehash_asks_for_nothing"
   ],
   "note": "Proved as long as the byte count fits in size_t; TotalSlotAllocCount does not check, so rehash/reserve of about 2^60 entries gets a block that is too small (proved)."
  },
  {
   "property": "C31",
   "status": "partial",
   "theorems": [
    "Verif.Robin.C31_robin_partial",
    "Verif.Robin.C31_robin_checked_partial",
    "Verif.Robin.C31_robin_small_partial",
    "Verif.Robin.C31_dense",
    "Verif.Robin.C31_find_default",
    "Verif.Robin.C31_clear_default",
    "Verif.Robin.C31_growth_loses_an_element",
    "Verif.Robin.C31_distance_wraps",
    "Verif.Robin.C31_find_after_failed_allocation",
    "Verif.Robin.C31_stored_hash_growth"
   ],
   "note": "Proved for every hash function and every history in which the contents fit (a counting condition on home positions) and find/clear are not called on a map without storage; up to the first failed allocation. The excluded cases are violations, each with a proved counterexample."
  },
  {
   "property": "C32",
   "status": "partial",
   "theorems": [
    "Verif.Robin.C32_erase_keeps_others",
    "Verif.Robin.C32_erase_absent",
    "Verif.Robin.C32_layout_history_independent"
   ],
   "note": "For the layouts reached by histories in which neither the distance byte overflows nor a rehash runs out of room; after such an accident elements can already be lost (C31)."
  },
  {
   "property": "C33",
   "status": "partial",
   "theorems": [
    "Verif.Robin.C33_robin_partial",
    "Verif.Robin.C33_distance_bound",
    "Verif.Robin.C33_distance_exceeds_max_lookups",
    "Verif.Robin.C33_writes_past_the_slots",
    "Verif.Robin.C33_shrink_writes_past_the_slots"
   ],
   "note": "The claim is false for the code: max_lookups() is exceeded and elements are written behind the slot array. Proved: distance at most 127 and inside the slots while the contents fit, and a sufficient condition for any bound."
  },
  {
   "property": "C34",
   "status": "partial",
   "theorems": [
    "Verif.Robin.C34_copy_constructor",
    "Verif.Robin.C34_move_target",
    "Verif.Robin.C34_swap_partial",
    "Verif.Robin.C34_copy_assign_find_absent",
    "Verif.Robin.C34_move_assign_find_absent",
    "Verif.Robin.C34_moved_from_insert"
   ],
   "note": "Proved for the copy constructor and the target of the move constructor. The claim is false for swap, copy and move assignment (find of an absent key is undefined) and for moved-from maps (insert is undefined); proved for all such states."
  },
  {
   "property": "C42",
   "status": "proved",
   "theorems": [
    "Verif.C42_growth_preserves",
    "Verif.C42_insert_never_reduces_capacity"
   ],
   "note": "Calls that return normally; failed allocations are C39, termination C24."
  },
  {
   "property": "C43",
   "status": "partial",
   "theorems": [
    "Verif.C43_throwing_constructor_partial",
    "Verif.C43_throwing_constructor_corrupts"
   ],
   "note": "Violated by the code whenever an element would have been constructed (proved for every state); harmless when the key is present."
  },
  {
   "property": "C44",
   "status": "partial",
   "theorems": [
    "Verif.C44_reserve_partial",
    "Verif.C44_reserve_after_max_load_factor_reallocates",
    "Verif.C44_reserve_after_erase_reallocates"
   ],
   "note": "Proved for newly constructed maps; violated after max_load_factor() and after erasures (proved witnesses)."
  },
  {
   "property": "C45",
   "status": "partial",
   "theorems": [
    "Verif.C45_max_load_factor_partial",
    "Verif.C45_always_reallocates"
   ],
   "note": "Contents are kept; the call always reallocates to a larger table (proved for all states), against the claim."
  },
  {
   "property": "C46",
   "status": "partial",
   "theorems": [
    "Verif.C46_rehash_zero_partial",
    "Verif.C46_reserve_zero_discards"
   ],
   "note": "rehash(0) is fine; reserve(0) discards everything (proved for all states)."
  },
  {
   "property": "C47",
   "status": "proved",
   "theorems": [
    "Verif.C47_at",
    "Verif.C47_index"
   ],
   "note": ""
  },
  {
   "property": "C48",
   "status": "partial",
   "theorems": [
    "Verif.C48_table_insert_range",
    "Verif.C48_map_insert_range_partial",
    "Verif.C48_map_insert_range_ignores_rest"
   ],
   "note": "Proved for the table-level overload; the map-level overload inserts the first element only."
  },
  {
   "property": "C49",
   "status": "proved",
   "theorems": [
    "Verif.C49_swap"
   ],
   "note": "Allocators are not modelled."
  },
  {
   "property": "C50",
   "status": "partial",
   "theorems": [
    "Verif.C50_erase_keys_partial",
    "Verif.C50_erase_keys_ignores_rest"
   ],
   "note": "Violated: only the first key of the range is erased (proved for all states and ranges)."
  },
  {
   "property": "C51",
   "status": "partial",
   "theorems": [
    "Verif.HashFn.hashCrc32_eq",
    "Verif.HashFn.hashCrc32_stdString_ub",
    "Verif.HashFn.hashCrc32_view_ub",
    "Verif.HashFn.hashCrc32_padding_partial",
    "Verif.HashFn.hashCrc32x86_eq",
    "Verif.HashFn.primaryHash_eq"
   ],
   "note": "Violated: the last load covers a whole word (proved for all strings, exact condition). Where the extra bytes are readable they do not influence the result."
  },
  {
   "property": "C52",
   "status": "proved",
   "theorems": [
    "Verif.HashFn.crc32Simple_eq"
   ],
   "note": "The CRC instructions are modelled by their documented polynomial division."
  },
  {
   "property": "C53",
   "status": "partial",
   "theorems": [
    "Verif.HashFn.intHashCrc32_halves",
    "Verif.HashFn.intHashCrc32_collide",
    "Verif.HashFn.intHashCrc32_period"
   ],
   "note": "Violated for all keys: the upper half is the lower half xor a constant; nothing positive remains to be proved."
  },
  {
   "property": "C54",
   "status": "partial",
   "theorems": [
    "Verif.HashFn.times31_eq",
    "Verif.HashFn.bkdr131_eq",
    "Verif.HashFn.times31_wide_ub",
    "Verif.HashFn.times31_wide_depends"
   ],
   "note": "Proved for byte strings; wide strings are read w times too far (proved for all of them)."
  },
  {
   "property": "C55",
   "status": "proved",
   "theorems": [
    "Verif.HashFn.yoshimura_inBounds"
   ],
   "note": ""
  },
  {
   "property": "C56",
   "status": "partial",
   "theorems": [
    "Verif.HashFn.mul128Arm_eq",
    "Verif.HashFn.mul128Other_iff",
    "Verif.HashFn.mul128Other_wrong",
    "Verif.HashFn.mumMix64Portable_eq"
   ],
   "note": "The ARM version is exact; the last fallback loses carries (exact set of wrong inputs)."
  },
  {
   "property": "C57",
   "status": "partial",
   "theorems": [
    "Verif.Str.view_eq_sse_partial",
    "Verif.Str.view_eq_sse_ub",
    "Verif.Str.view_eq_sse_long",
    "Verif.Str.view_eq_sse_long_wrong",
    "Verif.Str.view_eq_u64_partial",
    "Verif.Str.view_eq_u64_ub",
    "Verif.Str.view_eq_stl",
    "Verif.Str.view_eq_libc_partial",
    "Verif.Str.view_eq_libc_nul",
    "Verif.Str.view_eq_null",
    "Verif.Str.view_ne_iff"
   ],
   "note": "Proved in full for STL mode and non-null views; in the other modes only under the stated conditions, with the violations outside them proved."
  },
  {
   "property": "C58",
   "status": "partial",
   "theorems": [
    "Verif.Str.wide_eq_sse_ignores",
    "Verif.Str.wide_eq_u64_ignores",
    "Verif.Str.wide_eq_stl_partial"
   ],
   "note": "Holds in STL mode; violated in SSE4.2 and U64 mode."
  },
  {
   "property": "C59",
   "status": "partial",
   "theorems": [
    "Verif.Str.view_compare_sse_partial",
    "Verif.Str.view_le_is_gt",
    "Verif.Str.view_le_wrong",
    "Verif.Str.view_lt_null",
    "Verif.Str.view_compare_stl_partial",
    "Verif.Str.view_lt_stl_wrong",
    "Verif.Str.view_compare_u64_nul"
   ],
   "note": "compare, < and > are lexicographic under the stated conditions; <= and >= are violated for all views in every mode."
  },
  {
   "property": "C60",
   "status": "partial",
   "theorems": [
    "Verif.Str.view_substr_partial",
    "Verif.Str.view_substr_wrap"
   ],
   "note": "Proved unless pos + count wraps; violated there."
  },
  {
   "property": "C61",
   "status": "partial",
   "theorems": [
    "Verif.Str.view_copy_partial",
    "Verif.Str.view_copy_returns_zero",
    "Verif.Str.view_copy_npos_ub",
    "Verif.Str.view_copy_nul"
   ],
   "note": "The bytes are right without NUL and wrap-around; the returned number is always 0."
  },
  {
   "property": "C62",
   "status": "partial",
   "theorems": [
    "Verif.Str.view_compare3_partial",
    "Verif.Str.view_compare3_wrong"
   ],
   "note": "Violated; holds (STL mode) where count equals the size of sv."
  },
  {
   "property": "C63",
   "status": "partial",
   "theorems": [
    "Verif.Str.view_hash_consistent_partial",
    "Verif.Str.view_hash_consistent_stl_partial",
    "Verif.Str.view_hash_libc_wrong"
   ],
   "note": "Holds in the SSE4.2 and STL modes under the conditions of C57; violated in libc mode."
  },
  {
   "property": "C64",
   "status": "partial",
   "theorems": [
    "Verif.Digits.log10_u32_eq",
    "Verif.Digits.log10_u64_eq",
    "Verif.Digits.countDigits_unsigned",
    "Verif.Digits.countDigits_small",
    "Verif.Digits.countDigits_signed_partial",
    "Verif.Digits.countDigits_min_ub",
    "Verif.Digits.countDigits_i8"
   ],
   "note": "Proved for 8, 32 and 64 bits except the least signed numbers (undefined, proved); 16-bit numbers of 1000 or more are miscounted (exact set)."
  },
  {
   "property": "C65",
   "status": "partial",
   "theorems": [
    "Verif.Digits.itoaU32_eq",
    "Verif.Digits.itoaI32_partial",
    "Verif.Digits.itoa_min_ub",
    "Verif.Digits.itoa_wide_ub",
    "Verif.Digits.itoaU64_drops",
    "Verif.Digits.itoaU32D_eq",
    "Verif.Digits.itoaU64D_wrong",
    "Verif.Digits.itoaView_eq",
    "Verif.Digits.itoaView_numbers"
   ],
   "note": "Proved for 32-bit numbers into std::string and for views; violated for all 64-bit numbers into std::string and for wide strings."
  },
  {
   "property": "C66",
   "status": "partial",
   "theorems": [
    "Verif.Digits.toHexChar_partial",
    "Verif.Digits.toHex_wrong"
   ],
   "note": "Violated for every character; the single digits are right."
  },
  {
   "property": "C67",
   "status": "partial",
   "theorems": [
    "Verif.Flat.C67_histories_partial",
    "Verif.Flat.C67_guarded_partial",
    "Verif.Flat.C67_no_erase"
   ],
   "note": "Refinement of the ideal map by induction over the history: unconditional without erase; with erase while the map has at most 14 elements; with state conditions for clear(true), max_load_factor and tombstones. Outside these the code violates it (C69, C70, C73, C74, C76)."
  },
  {
   "property": "C68",
   "status": "partial",
   "theorems": [
    "Verif.Flat.C68_insert_partial"
   ],
   "note": "For every state with the invariant, tombstones included, unless the insertion reorders the table (C70)."
  },
  {
   "property": "C69",
   "status": "partial",
   "theorems": [
    "Verif.Flat.C69_erase_partial",
    "Verif.Flat.C69_erase_loses_a_key",
    "Verif.Flat.C69_erase_then_duplicate"
   ],
   "note": "Proved for at most 14 elements or 16 slots; violated with 17 elements."
  },
  {
   "property": "C70",
   "status": "partial",
   "theorems": [
    "Verif.Flat.C70_reorder_undefined",
    "Verif.Flat.C70_insert_after_erase_undefined"
   ],
   "note": "Violated in every state that triggers the reordering: the insertion is undefined; nothing positive remains to be proved."
  },
  {
   "property": "C71",
   "status": "partial",
   "theorems": [
    "Verif.Flat.C71_load_partial",
    "Verif.Flat.C71_growth_partial",
    "Verif.Flat.C71_rehash_exceeds_load"
   ],
   "note": "Proved for histories of insertions, erasures and lookups; violated after rehash(0)."
  },
  {
   "property": "C72",
   "status": "partial",
   "theorems": [
    "Verif.Flat.C72_elements_partial"
   ],
   "note": "Proved for all histories with any erase, unless they reach the reordering or clear()."
  },
  {
   "property": "C73",
   "status": "partial",
   "theorems": [
    "Verif.Flat.C73_clear_partial",
    "Verif.Flat.C73_clear_breaks_iteration",
    "Verif.Flat.C73_clear_keeps_keys"
   ],
   "note": "Proved for clear(true) with more than 4 slots; violated by clear() and by clear(true) on 4 slots."
  },
  {
   "property": "C74",
   "status": "partial",
   "theorems": [
    "Verif.Flat.C74_rehash_partial",
    "Verif.Flat.C74_rehash_diverges",
    "Verif.Flat.C74_reserve_wraps"
   ],
   "note": "Proved with room for one more element; without it rehash can hang, and reserve(2^47) does nothing."
  },
  {
   "property": "C75",
   "status": "partial",
   "theorems": [
    "Verif.Flat.C75_copy_partial",
    "Verif.Flat.C75_insert_range",
    "Verif.Flat.C75_from_range",
    "Verif.Flat.C75_copy_then_insert_undefined",
    "Verif.Flat.C75_copy_resets_load"
   ],
   "note": "Contents and lookups of copies proved for all maps, ranges proved; later insertions into a copy of more than 16 elements are undefined."
  },
  {
   "property": "C76",
   "status": "partial",
   "theorems": [
    "Verif.Flat.C76_max_load_partial",
    "Verif.Flat.C76_max_load_effect",
    "Verif.Flat.C76_max_load_then_insert_undefined"
   ],
   "note": "Proved for at most 32 slots; violated with 64."
  },
  {
   "property": "C77",
   "status": "partial",
   "theorems": [
    "Verif.Flat.C77_alloc_failure_partial",
    "Verif.Flat.C77_failed_growth_loses_elements",
    "Verif.Flat.C77_throwing_constructor_corrupts"
   ],
   "note": "Proved for a failed allocation of control bytes; violated for slots and constructors."
  },
  {
   "property": "C78",
   "status": "partial",
   "theorems": [
    "Verif.Flat.C78_masks_exact",
    "Verif.Flat.C78_convert_exact",
    "Verif.Flat.C78_empty_or_deleted_wrong",
    "Verif.Flat.C78_not_empty_or_deleted",
    "Verif.Flat.masks_of_table",
    "Verif.Flat.U64.C78_fallback_empty",
    "Verif.Flat.U64.C78_fallback_tag",
    "Verif.Flat.U64.C78_fallback_has_any_wrong",
    "Verif.Flat.U64.C78_fallback_is_all_wrong",
    "Verif.Flat.U64.C78_fallback_false_matches"
   ],
   "note": "SSE2 and SSSE3 masks proved exact except matchEmptyOrDeleted (exact condition); the fallback's hasAny and isAll are wrong."
  },
  {
   "property": "C79",
   "status": "partial",
   "theorems": [
    "Verif.Rob16.C79_guarded_partial",
    "Verif.Rob16.C79_histories_partial",
    "Verif.Rob16.C79_small"
   ],
   "note": "Refinement of the ideal map by induction over the history: unconditional for at most 129 insertions without erase from 16 slots on; otherwise with conditions on the hashes (no more than 129 elements displaced over one position, no cluster that wraps at an erase). Outside these the code violates it (C81-C88)."
  },
  {
   "property": "C80",
   "status": "partial",
   "theorems": [
    "Verif.Rob16.C80_insert_partial"
   ],
   "note": "For every reachable map, if at most 129 home positions crowd (C85) and, below 16 slots, the control hash is not 0 (C82)."
  },
  {
   "property": "C81",
   "status": "partial",
   "theorems": [
    "Verif.Rob16.C81_erase_partial",
    "Verif.Rob16.C81_erase_wraps",
    "Verif.Rob16.C81_erase_undefined",
    "Verif.Rob16.C81_erase_last_slot"
   ],
   "note": "Proved unless the cluster behind the element wraps around the table; there erase is undefined (proved for all states)."
  },
  {
   "property": "C82",
   "status": "partial",
   "theorems": [
    "Verif.Rob16.C82_lookup_partial",
    "Verif.Rob16.C82_tag_zero_undefined"
   ],
   "note": "Proved for 16 slots or more and for control hashes other than 0; violated otherwise (witness)."
  },
  {
   "property": "C83",
   "status": "partial",
   "theorems": [
    "Verif.Rob16.C83_clear_partial",
    "Verif.Rob16.C83_clear_leaves_ghost"
   ],
   "note": "Proved for clear(true) with more than 4 slots, fewer than 16 slots, or empty first 16 slots; violated otherwise (witness)."
  },
  {
   "property": "C84",
   "status": "partial",
   "theorems": [
    "Verif.Rob16.C84_load_partial",
    "Verif.Rob16.C85_growth_partial",
    "Verif.Rob16.C84_rehash_exceeds_load"
   ],
   "note": "Proved for histories without max_load_factor and rehash below size(), with at most 129 crowding elements; violated after rehash(0)."
  },
  {
   "property": "C85",
   "status": "partial",
   "theorems": [
    "Verif.Rob16.C85_growth_partial",
    "Verif.Rob16.C85_insert_exhausts",
    "Verif.Rob16.C85_history"
   ],
   "note": "Violated: 131 keys exhaust the memory (proved for every hash function with such keys and every reachable state); the bound is proved below the limit."
  },
  {
   "property": "C86",
   "status": "partial",
   "theorems": [
    "Verif.Rob16.C89_rehash_partial",
    "Verif.Rob16.C86_key_lost",
    "Verif.Rob16.C86_history"
   ],
   "note": "Proved for at most 254 crowding elements; with 255 equal hashes the next rehash loses a key (proved for every such state)."
  },
  {
   "property": "C87",
   "status": "partial",
   "theorems": [
    "Verif.Rob16.C87_failure_partial",
    "Verif.Rob16.C87_failed_growth_loses_all",
    "Verif.Rob16.C87_throwing_constructor",
    "Verif.Rob16.C87_failed_insertion_loses_elements"
   ],
   "note": "Proved for a failed allocation of control words; violated for slots (from 8 slots on every element is lost, proved for all states) and for constructors."
  },
  {
   "property": "C88",
   "status": "partial",
   "theorems": [
    "Verif.Rob16.C88_max_load_partial",
    "Verif.Rob16.C88_load_exceeded"
   ],
   "note": "The elements are kept; the new load factor is not respected by the next insertions (proved for all states with room)."
  },
  {
   "property": "C89",
   "status": "partial",
   "theorems": [
    "Verif.Rob16.C89_rehash_partial",
    "Verif.Rob16.C89_reserve",
    "Verif.Rob16.C89_reserve_wraps",
    "Verif.Rob16.C84_rehash_exceeds_load"
   ],
   "note": "Proved with at most 254 crowding elements and n < 2^44 (reserve); reserve(2^47) does nothing."
  },
  {
   "property": "C90",
   "status": "partial",
   "theorems": [
    "Verif.Rob16.C90_insert_range_partial",
    "Verif.Rob16.C90_from_range_partial",
    "Verif.Rob16.C90_from_long_range_partial",
    "Verif.Rob16.C90_from_distinct_homes_partial"
   ],
   "note": "Under the conditions of C80: construction from any range of at most 129 elements, and from longer ones if no more than 129 elements crowd (for instance when their home positions differ). Elements that crowd more are lost or undefined (C85)."
  },
  {
   "property": "C91",
   "status": "partial",
   "theorems": [
    "Verif.Rob16.C91_swap_move_partial",
    "Verif.Rob16.C91_moved_from_undefined"
   ],
   "note": "Proved for swap and the target of a move; every use of a moved-from map is undefined, even after clear() (proved)."
  },
  {
   "property": "C92",
   "status": "proved",
   "theorems": [
    "Verif.Rob16.C92_iteration"
   ],
   "note": "For every state with the invariant; that histories keep it is C79."
  },
  {
   "property": "C93",
   "status": "proved",
   "theorems": [
    "Verif.Rob16.C93_masks_exact",
    "Verif.Rob16.C93_avx512_same",
    "Verif.Rob16.C93_table_masks",
    "Verif.Rob16.C93_group_tests"
   ],
   "note": "matchHashAndDistFast2 and matchTag are unused and not modelled."
  },
  {
   "property": "C94",
   "status": "partial",
   "theorems": [
    "Verif.Rand.C94_every_use_out_of_bounds",
    "Verif.Rand.C94_key_constructor",
    "Verif.Rand.C94_reference_iff_partial",
    "Verif.Rand.C94_zeros_behind",
    "Verif.Rand.C94_mix_constant"
   ],
   "note": "Violated: every first rand and every srand reads behind the array, for all seeds (proved); the constructors are safe except with an empty key; where the words can be read it is characterised when the block is the announced one."
  },
  {
   "property": "C95",
   "status": "partial",
   "theorems": [
    "Verif.Rand.C95_srand_skips_a_word",
    "Verif.Rand.C95_words_of_new_generator",
    "Verif.Rand.C95_temper_bijective",
    "Verif.Rand.C95_srand_not_constructor"
   ],
   "note": "On a machine where the words behind the array can be read: exact relation of the two sequences; they agree for N - 1 words, then srand leaves one word out (violation)."
  },
  {
   "property": "C96",
   "status": "partial",
   "theorems": [
    "Verif.Rand.C96_signed_in_range_partial",
    "Verif.Rand.C96_signed_wide",
    "Verif.Rand.C96_unsigned_in_range_partial",
    "Verif.Rand.C96_unsigned_full",
    "Verif.Rand.C96_unsigned_even",
    "Verif.Rand.C96_signed_even",
    "Verif.Rand.C96_nextInt_partial",
    "Verif.Rand.C96_nextInt_negative"
   ],
   "note": "Proved except for ranges whose number of values does not fit the type, which are undefined, and negative bounds of nextInt(max)."
  },
  {
   "property": "C97",
   "status": "partial",
   "theorems": [
    "Verif.Rand.C97_small_uniform_partial",
    "Verif.Rand.C97_linux_bits_biased",
    "Verif.Rand.C97_linux_bits64",
    "Verif.Rand.C97_linux_every_word",
    "Verif.Rand.C97_small_uniform64",
    "Verif.Rand.C97_half_uniform32",
    "Verif.Rand.C97_half_uniform64",
    "Verif.Rand.C97_bytes_uniform32",
    "Verif.Rand.C97_bytes_uniform64",
    "Verif.Rand.C97_bytes_biased32",
    "Verif.Rand.C97_bytes_biased64",
    "Verif.Rand.C97_other_max32",
    "Verif.Rand.C97_other_max64"
   ],
   "note": "Proved with RAND_MAX 0x7FFF and 0xFFFF and for the bytewise variants when 256 divides RAND_MAX + 1; violated by the bytewise variants otherwise and with RAND_MAX 2^31-1, where overlapping bits are set with probability 3/4; for no RAND_MAX above 0xFFFF are the words uniform (proved), so that all values are covered."
  },
  {
   "property": "C98",
   "status": "proved",
   "theorems": [
    "Verif.FG.C98_exact",
    "Verif.Rand.C98_below_one",
    "Verif.Rand.C98_uniform"
   ],
   "note": "The floating point operations are modelled as binary64 rounded to nearest and proved exact."
  },
  {
   "property": "C99",
   "status": "partial",
   "theorems": [
    "Verif.RobInd.C99_indirect_partial",
    "Verif.RobInd.C99_indirect_checked_partial",
    "Verif.RobInd.C99_indirect_small_partial",
    "Verif.RobInd.C99_clear_default",
    "Verif.RobInd.C99_reads_past_the_control_words",
    "Verif.RobInd.C99_erase_answers_zero",
    "Verif.RobInd.C99_shrink_loses_a_control_word",
    "Verif.RobInd.C99_after_failed_allocation"
   ],
   "note": "Proved for contents that fit and find of present keys; violated outside (theorems and witnesses)."
  },
  {
   "property": "C100",
   "status": "partial",
   "theorems": [
    "Verif.RobInd.C100_order_partial",
    "Verif.RobInd.C100_dense"
   ],
   "note": "Under the conditions of C99, for histories without a failed allocation."
  },
  {
   "property": "C101",
   "status": "partial",
   "theorems": [
    "Verif.RobInd.C101_find_missing",
    "Verif.RobInd.C101_find_partial"
   ],
   "note": "Violated by every map that owns storage and every missing key (proved); what holds is proved."
  },
  {
   "property": "C102",
   "status": "proved",
   "theorems": [
    "Verif.RobInd.C102_erase_keeps_others"
   ],
   "note": "For states reached by histories in which the checked code is defined (C99)."
  },
  {
   "property": "C103",
   "status": "partial",
   "theorems": [
    "Verif.RobInd.C103_copy_undefined",
    "Verif.RobInd.C103_copy_empty_partial"
   ],
   "note": "Violated by every map that holds an element (proved)."
  },
  {
   "property": "C104",
   "status": "partial",
   "theorems": [
    "Verif.RobInd.C104_move_target",
    "Verif.RobInd.C104_swap_partial",
    "Verif.RobInd.C104_move_assign_partial",
    "Verif.RobInd.C104_moved_from_insert",
    "Verif.RobInd.C104_swap_with_default"
   ],
   "note": "The targets are proved, under the conditions of C99; inserting into a moved-from map is undefined, and so is find after swap of a map without storage with another (proved)."
  },
  {
   "property": "C105",
   "status": "partial",
   "theorems": [
    "Verif.C105_reference_argument_partial",
    "Verif.C105_reference_argument_dangles",
    "Verif.C105_reference_argument16_partial",
    "Verif.C105_reference_argument_dangles16"
   ],
   "note": "Proved for calls that do not reallocate; when the call reallocates the reference is read after its block is freed (proved)."
  },
  {
   "property": "C106",
   "status": "proved",
   "theorems": [
    "Verif.C106_references_stay",
    "Verif.C106_assign_in_place",
    "Verif.C106_references_stay16",
    "Verif.C106_assign_in_place16"
   ],
   "note": ""
  },
  {
   "property": "C107",
   "status": "partial",
   "theorems": [
    "Verif.Flat.C107_reference_argument_partial",
    "Verif.Flat.C107_reference_argument_dangles",
    "Verif.Flat.C107_references_stay",
    "Verif.Flat.C107_assign_in_place"
   ],
   "note": "References stay: proved.  Arguments: proved without reallocation, undefined with it (proved)."
  },
  {
   "property": "C108",
   "status": "partial",
   "theorems": [
    "Verif.Rand.C108_seeding32",
    "Verif.Rand.C108_seeding64_partial",
    "Verif.Rand.C108_seeding64_second_word",
    "Verif.Rand.C108_first_words32_partial",
    "Verif.Rand.C108_keys32",
    "Verif.Rand.C108_keys64_partial",
    "Verif.Rand.C108_twist64_partial",
    "Verif.Rand.C108_temper64"
   ],
   "note": "32 bits: seeding and the first 227 words are the published ones, later words read behind the array (C94).  64 bits: seeding proved to differ for all seeds from 2^30 on; initialisation by keys runs the published passes with the constants of the 32-bit generator; the tempering is the published one, a step splits words at bit 63 instead of 31."
  },
  {
   "property": "C109",
   "status": "partial",
   "theorems": [
    "Verif.Robin.C109_load_partial",
    "Verif.Robin.C109_growth_partial",
    "Verif.Robin.C109_max_load_factor_no_effect",
    "Verif.Robin.C109_rehash_exceeds_load",
    "Verif.Robin.C109_shrink_exceeds_load",
    "Verif.Robin.C109_max_load_factor_exceeded",
    "Verif.RobInd.C109_load_partial",
    "Verif.RobInd.C109_growth_partial",
    "Verif.RobInd.C109_max_load_factor_no_effect",
    "Verif.RobInd.C109_rehash_exceeds_load",
    "Verif.RobInd.C109_shrink_exceeds_load",
    "Verif.RobInd.C109_max_load_factor_exceeded"
   ],
   "note": "Proved for histories that keep the default load factor and pass at least size() to reserve and rehash; violated by the other calls."
  },
  {
   "property": "C110",
   "status": "partial",
   "theorems": [
    "Verif.Robin.C110_reference_argument_partial",
    "Verif.Robin.C110_reference_argument_dangles",
    "Verif.Robin.C110_reference_argument_moved",
    "Verif.Robin.C110_wrong_value",
    "Verif.Robin.C110_destroyed_value",
    "Verif.Robin.C110_freed_value",
    "Verif.Robin.C110_references_stay_partial",
    "Verif.Robin.C110_assign_in_place",
    "Verif.Robin.C110_insert_moves",
    "Verif.Robin.C110_erase_moves"
   ],
   "note": "Arguments: proved if the key is present, the call throws, or the element stays in place; otherwise freed memory, a destroyed object or another element's value is read (proved).  References: proved for calls that neither add nor remove; violated by insertions and erasures."
  },
  {
   "property": "C111",
   "status": "partial",
   "theorems": [
    "Verif.RobInd.C111_reference_argument_partial",
    "Verif.RobInd.C111_reference_argument_dangles",
    "Verif.RobInd.C111_freed_value",
    "Verif.RobInd.C111_references_stay_partial",
    "Verif.RobInd.C111_erase_moves_last",
    "Verif.RobInd.C111_assign_in_place"
   ],
   "note": "Arguments: proved without reallocation, undefined with it (proved).  References: proved for every call except that erase moves the last element (proved)."
  },
  {
   "property": "C112",
   "status": "partial",
   "theorems": [
    "Verif.Rob16.C112_reference_argument_partial",
    "Verif.Rob16.C112_reference_argument_dangles",
    "Verif.Rob16.C112_reference_argument_moved",
    "Verif.Rob16.C112_wrong_value",
    "Verif.Rob16.C112_destroyed_value",
    "Verif.Rob16.C112_freed_value",
    "Verif.Rob16.C112_references_stay_partial",
    "Verif.Rob16.C112_assign_in_place",
    "Verif.Rob16.C112_insert_moves",
    "Verif.Rob16.C112_erase_moves"
   ],
   "note": "As C110.  Keys with control hash 0 in maps below 16 slots excluded (C82)."
  },
  {
   "property": "C113",
   "status": "partial",
   "theorems": [
    "Verif.Robin.C113_insert_range_partial",
    "Verif.Robin.C113_from_range_partial",
    "Verif.Robin.C113_from_range_no_expansion_partial",
    "Verif.Robin.C113_erase_keys_partial",
    "Verif.RobInd.C113_insert_range_partial",
    "Verif.RobInd.C113_from_range_partial",
    "Verif.RobInd.C113_erase_keys_partial"
   ],
   "note": "For contents that fit (condition of C31 and C99).  Element constructors that throw are not modelled."
  },
  {
   "property": "C114",
   "status": "partial",
   "theorems": [
    "Verif.Robin.C114_robin_equal_range_partial",
    "Verif.Robin.C114_robin_no_storage",
    "Verif.RobInd.C114_equal_range_partial",
    "Verif.RobInd.C114_missing_key_undefined",
    "Verif.Flat.C114_flat_equal_range_partial",
    "Verif.Flat.C114_flat_agrees_with_find_partial",
    "Verif.Rob16.C114_rob16_equal_range_partial"
   ],
   "note": "Violated by robin: absent keys in the indirect layout (undefined), every key on a direct-layout map without storage.  flat16 and robin16 in the states of C67, C72 and C79."
  },
  {
   "property": "C115",
   "status": "partial",
   "theorems": [
    "Verif.Robin.C115_robin_backward_partial",
    "Verif.Robin.C115_robin_next_prev_partial",
    "Verif.RobInd.C115_backward_partial"
   ],
   "note": "For histories of the modelled calls from a constructed map (moved-from and swapped maps excluded, C34, C104)."
  },
  {
   "property": "C116",
   "status": "partial",
   "theorems": [
    "Verif.Flat.C116_erase_at_partial",
    "Verif.Flat.C116_erase_at_finds_partial",
    "Verif.Flat.C116_erase_while_iterating_partial"
   ],
   "note": "Elements and iteration in all states of C72; lookups afterwards only for small maps (C69).  erase(iterator) cannot be instantiated."
  },
  {
   "property": "C117",
   "status": "partial",
   "theorems": [
    "Verif.RobinGroup.C117_masks_one_byte",
    "Verif.RobinGroup.C117_masks_two_bytes",
    "Verif.RobinGroup.C117_begin",
    "Verif.RobinGroup.C117_rehash_visits",
    "Verif.RobinGroup.C117_reached_partial",
    "Verif.RobinGroup.C117_clear",
    "Verif.RobinGroup.C117_clear_indirect",
    "Verif.RobinGroup.C117_probe_masks",
    "Verif.RobinGroup.C117_other_masks",
    "Verif.RobinGroup.C117_empty_and_distance",
    "Verif.RobinGroup.C117_probe_mask_saturates",
    "Verif.RobinGroup.C117_avx512_empty_wrong",
    "Verif.RobinGroup.C117_indirect_used_wrong",
    "Verif.RobinGroup.C117_indirect_hash_wrong"
   ],
   "note": "Everything the map executes is proved.  Violated by masks that the map does not use: AVX512 matchEmpty, the masks of the indirect layout, the distance masks near the end of the distance range."
  },
  {
   "property": "C118",
   "status": "partial",
   "theorems": [
    "Verif.Life.C118_lifetimes",
    "Verif.Life.C118_balanced",
    "Verif.Life.C118_construct_throws",
    "Verif.Life.C118_leak16",
    "Verif.Life.C118_leak16_growth",
    "Verif.Life.C118_ctor_throws"
   ],
   "note": "Proved for all histories when the allocator does not fail between the two requests of group16 and no element constructor throws.  Violated otherwise: group16 loses the first block; after a throwing constructor the destructor destroys an element that does not exist.  Copying and moving: C123."
  },
  {
   "property": "C119",
   "status": "proved",
   "theorems": [
    "Verif.Sha1.C119_sha1_x86",
    "Verif.Sha1.C119_padded",
    "Verif.Sha1.C119_no_padding",
    "Verif.Sha1.C119_empty"
   ],
   "note": "x86-64 result; the 32-bit version returns the first word alone.  As the function does not pad, zeros at the end of the last block leave the value unchanged (C119_no_padding)."
  },
  {
   "property": "C120",
   "status": "partial",
   "theorems": [
    "Verif.Sha1.C120_msg2_partial",
    "Verif.Sha1.C120_msg2_reads_behind",
    "Verif.Sha1.C120_msg2_string",
    "Verif.Sha1.C120_msg2_zeros"
   ],
   "note": "Value proved when the memory is readable up to the next multiple of sixteen; violated otherwise: the call reads behind the string (proved for all strings).  Zeros at the end do not change the value."
  },
  {
   "property": "C121",
   "status": "partial",
   "theorems": [
    "Verif.Robin.Track.C121_lifetimes_partial",
    "Verif.Robin.Track.C121_lifetimes_roomy_partial",
    "Verif.Robin.Track.C121_need_grow",
    "Verif.Robin.Track.C121_self_transfer",
    "Verif.Robin.Track.C121_exchange_over_live",
    "Verif.Robin.Track.C121_clear_destroy",
    "Verif.Robin.Track.C121_lost_block",
    "Verif.Robin.Track.C121_wrong_count",
    "Verif.Robin.Track.C121_throwing_element",
    "Verif.Robin.Track.C121_range_partial",
    "Verif.Robin.Track.C121_range_throws"
   ],
   "note": "All histories without exception: the log of events is out of order exactly if an element was moved onto itself or onto the live buffer; otherwise size() objects are alive and the destructor leaves nothing. With room (no kNeedGrow), without clear(true) and without a default constructed buffer the calls are defined and in order. The code violates the rest: kNeedGrow with swap_slot moves an element onto itself; the default constructed buffer is constructed over; clear(true) reads behind the static control words from 64 slots on; a failed second allocation loses the control block; after a failed growth the destructor gives the block back with a wrong count; after a throwing element constructor the destructor destroys an object that was never constructed; a constructor from a range in which an element constructor throws loses the blocks. Maps made from ranges without exception are in order. Missing: moves of elements that throw, copy, move, swap. The indirect layout is C131."
  },
  {
   "property": "C122",
   "status": "partial",
   "theorems": [
    "Verif.Flat.Track.C122_lifetimes_partial",
    "Verif.Flat.Track.C122_histories_partial",
    "Verif.Flat.Track.C122_clear_destroys_twice",
    "Verif.Flat.Track.C122_failed_slots",
    "Verif.Flat.Track.C122_failed_constructor",
    "Verif.Flat.Track.C122_throwing_element"
   ],
   "note": "Proved for all histories with failed requests for groups, with tombstones, lost keys and clear(true), in the states of C72 and C76. Violated otherwise (proved for all states): clear() leaves control bytes and the destructor destroys those elements again; a failed request for slots loses the old groups and never destroys the elements; a throwing element constructor makes the destructor destroy an object that does not exist."
  },
  {
   "property": "C123",
   "status": "partial",
   "theorems": [
    "Verif.Life.C123_copy",
    "Verif.Life.C123_copy_no_memory",
    "Verif.Life.C123_copy_then",
    "Verif.Life.C123_side_by_side",
    "Verif.Life.C123_both_empty",
    "Verif.Life.C123_copy_and_source",
    "Verif.Life.C123_copy_assign",
    "Verif.Life.C123_move",
    "Verif.Life.C123_copy_throws",
    "Verif.Life.C123_move_never_throws_partial",
    "Verif.Life.C123_move_throws"
   ],
   "note": "Proved when no element constructor throws; violated for every state otherwise, copying (C123_copy_throws) and moving to another allocator (C123_move_throws). Copies of equal capacity, which report a size of 0 (C11), are destroyed properly, but calls on them before their destruction are not covered."
  },
  {
   "property": "C124",
   "status": "partial",
   "theorems": [
    "Verif.F32.C124_group_set",
    "Verif.F32.C124_robin_set",
    "Verif.F32.C124_flat_set",
    "Verif.F32.C124_nan",
    "Verif.F32.C124_load_accurate",
    "Verif.F32.C124_load_le_pow",
    "Verif.F32.C124_load_le_group15",
    "Verif.F32.C124_empty_nan",
    "Verif.C124_group15_load_partial",
    "Verif.C124_group15_set",
    "Verif.C124_group15_small_full",
    "Verif.C124_group15_half_exceeded",
    "Verif.C124_group15_shrink_exceeded",
    "Verif.C124_group16_load_partial",
    "Verif.C124_group16_small_full",
    "Verif.F32.C124_robin_calls",
    "Verif.F32.C124_flat_calls",
    "Verif.Robin.C124_robin_load_partial",
    "Verif.Robin.C124_robin_empty_nan",
    "Verif.Robin.C124_robin_limit_exceeded",
    "Verif.RobInd.C124_robin_load_partial",
    "Verif.Flat.C124_flat_load_partial",
    "Verif.Flat.C124_flat_rehash_exceeded",
    "Verif.Rob16.C124_robin16_load_partial",
    "Verif.Rob16.C124_robin16_rehash_exceeded"
   ],
   "note": "Conversions and accuracy proved for all floats; NaN as an argument is undefined in all five maps (proved). The bound by max_load_factor() is proved for the histories named in the theorems and violated outside them: smallest tables and shrink_to_fit of the group maps, rehash(0), a lowered limit and an empty map (NaN) of the others."
  },
  {
   "property": "C125",
   "status": "partial",
   "theorems": [
    "Verif.Robin.C125_reserve_partial",
    "Verif.Robin.C125_reserve_load_factor",
    "Verif.RobInd.C125_reserve_partial",
    "Verif.RobInd.C125_reserve_load_factor",
    "Verif.F32.flatArg_03",
    "Verif.Flat.C125_reserve_partial",
    "Verif.Flat.C125_reserve_tombstones",
    "Verif.Flat.C125_reserve_load_factor",
    "Verif.Rob16.C125_reserve_partial",
    "Verif.Rob16.C125_reserve_load_factor"
   ],
   "note": "Proved for the default load factor, with every later request refused. Violated (witnesses): with max_load_factor(0.3f) reserve(5) leaves room for four elements in all three maps; in flat16 reserve keeps tombstones, which use up the room. robin and robin16 need hashes within their displacement limits, flat16 histories without tombstones."
  },
  {
   "property": "C126",
   "status": "partial",
   "theorems": [
    "Verif.Rob16.Track.C126_lifetimes_partial",
    "Verif.Rob16.Track.C126_histories_partial",
    "Verif.Rob16.Track.C126_failed_slots",
    "Verif.Rob16.Track.C126_failed_constructor",
    "Verif.Rob16.Track.C126_throwing_element",
    "Verif.Rob16.Track.C126_range_partial",
    "Verif.Rob16.Track.C126_range_throws"
   ],
   "note": "Proved for all histories as in C79 (guarded, or with conditions on the calls only), with failed requests for groups, displacements that end in a growth and both ways of exchanging elements. Violated otherwise (proved for all states): a failed request for slots loses the old groups and never destroys the elements; in a constructor the new groups are lost; a throwing element constructor makes the destructor destroy an object that does not exist; an exception in a constructor from a range loses both blocks and the elements (such constructors that return are proved). The calls excluded in C79 are undefined or lose elements already without the log."
  },
  {
   "property": "C127",
   "status": "partial",
   "theorems": [
    "Verif.Fmt.C127_no_prepare_partial",
    "Verif.Fmt.C127_missing",
    "Verif.Fmt.C127_calc_space",
    "Verif.Fmt.C127_calc_space_float",
    "Verif.Fmt.C127_least_int",
    "Verif.Fmt.C127_char",
    "Verif.Fmt.C127_silent"
   ],
   "note": "Proved for text, %%, %d with int and %u with unsigned, in any number and order; the announced size for all formats and all arguments that are no floating point numbers. Violated (proved for all strings): the least int is undefined, %c prints the number of the code, %i %o %x %X and all floating point specifiers print nothing, %f is announced with six characters."
  },
  {
   "property": "C128",
   "status": "partial",
   "theorems": [
    "Verif.Fmt.C128_direct_partial",
    "Verif.Fmt.C128_direct_percent",
    "Verif.Fmt.C128_direct_percent_args",
    "Verif.Fmt.C128_direct_tail",
    "Verif.Fmt.C128_sprintf_never",
    "Verif.Fmt.C128_sprintf_ub",
    "Verif.Fmt.C128_sprintf_throw"
   ],
   "note": "sprintf_direct: proved for text, %d with int and %u with unsigned in any number and order; violated with %% (text lost, wrong number, exception) and with % at the end. sprintf: violated for all strings, formats and arguments, it never returns normally; text is written behind the string, specifiers alone end in an exception."
  },
  {
   "property": "C129",
   "status": "partial",
   "theorems": [
    "Verif.Flat.Track.C129_copy_partial",
    "Verif.Flat.Track.C129_copy_throws",
    "Verif.Flat.Track.C129_copy_no_groups",
    "Verif.Flat.Track.C129_range_partial",
    "Verif.Flat.Track.C129_copy_move_throws",
    "Verif.Flat.Track.C129_copy_no_slots",
    "Verif.Flat.Track.C129_range_throws"
   ],
   "note": "Proved for constructors that return, for copies whose element copy constructor throws and for a failed request for groups. Violated (proved for all sources and ranges): a failed request for slots loses the groups; a move constructor that throws in its slot makes the handler destroy an element that does not exist; an exception in a range constructor loses both blocks and the elements."
  },
  {
   "property": "C130",
   "status": "partial",
   "theorems": [
    "Verif.Flat.Track.C130_flat16_partial",
    "Verif.Life.C130_group15_partial",
    "Verif.Life.C130_group16_partial",
    "Verif.Rob16.Track.C130_robin16_partial"
   ],
   "note": "Constructors that throw are excluded, unequal allocators are the subject of C132. flat16: copies of up to 16 elements (C75) and the calls of C122; group15: copies whose capacity differs from that of the source (the others report a size of 0, C11); group16: no copies, and no request that fails between the two of one table; robin16: no copies, and the calls of C126."
  },
  {
   "property": "C131",
   "status": "partial",
   "theorems": [
    "Verif.RobInd.Track.C131_lifetimes_partial",
    "Verif.RobInd.Track.C131_lifetimes_roomy_partial",
    "Verif.RobInd.Track.C131_range_partial",
    "Verif.RobInd.Track.C131_throwing_element",
    "Verif.RobInd.Track.C131_lost_block",
    "Verif.RobInd.Track.C131_wrong_count",
    "Verif.RobInd.Track.C131_range_throws"
   ],
   "note": "Proved for all histories that end without undefined behaviour, whatever hash, equality and contents do, also after exceptions of element constructors; with room (C99) no undefined behaviour occurs. Violated (proved for all states): a refused request for slots loses the control block; a refused rehash changes the number of look-ups, so that the destructor gives the blocks back with wrong counts; after an exception of an element constructor the map can be destroyed, but looking for the key or inserting it again reads a slot without an object; an exception in a constructor from a range loses both blocks and the elements. Copies are undefined in this layout (C103)."
  },
  {
   "property": "C132",
   "status": "partial",
   "theorems": [
    "Verif.Life.C132_group15_partial",
    "Verif.Life.C132_get_allocator_partial",
    "Verif.Life.C132_assign_wrong_allocator",
    "Verif.Rob16.Track.C132_robin16_partial",
    "Verif.Rob16.Track.C132_robin16_move_with",
    "Verif.Rob16.Track.C132_robin16_swap_wrong_allocator"
   ],
   "note": "group15 and robin16. group15: proved for all programs of the actions of C130 together with allocator arguments and assignments, for allocators that are swapped whenever they replace others at assignment (or are all equal), swap being used as the standard permits. Violated (proved for all states): an allocator that propagates on copy assignment but not on swap is not taken over while the memory is, which then goes back to the wrong allocator. robin16 (no copies and no assignment, they cannot be instantiated): proved for allocators that are swapped with the maps, and for programs that move maps only with allocators equal to their own. Violated (proved for all states): the allocator given to the move constructor is returned by get_allocator() but never used, and with allocators that are not swapped a later swap between maps whose get_allocator() is equal sends slots to the wrong allocator."
  },
  {
   "property": "C133",
   "status": "partial",
   "theorems": [
    "Verif.Flat.C133_flat16_partial",
    "Verif.Flat.C133_flat16_other_answers",
    "Verif.Flat.C133_flat16_duplicate_keys",
    "Verif.FnGroup.C133_group15"
   ],
   "note": "Proved for group15. flat16: a copy has the elements of its source, and its answers when a default constructed comparison agrees with that of the source; violated otherwise (proved for all states): the copy has default constructed functions, answers differently for every key about which the comparisons disagree, and can hold keys that are equal for it. robin16 is written alike, its copy constructor cannot be instantiated; robin copies the functions."
  },
  {
   "property": "C134",
   "status": "partial",
   "theorems": [
    "Verif.Life.C134_group_partial",
    "Verif.Life.C134_group_throws",
    "Verif.Flat.Track.C134_flat16_partial",
    "Verif.Flat.Track.C134_flat16_throws",
    "Verif.Rob16.Track.C134_robin16_partial",
    "Verif.Rob16.Track.C134_robin16_throws",
    "Verif.Robin.Track.C134_robin_partial",
    "Verif.Robin.Track.C134_robin_throws"
   ],
   "note": "group15, group16, flat16, robin16 and robin (direct layout). Without exception the models are those of C118, C122, C126 and C121. Violated otherwise (proved for all states reached by the histories of those claims): the storage is replaced before the elements are moved and nothing catches, so the elements not moved yet are lost, the old blocks are never returned, and the slot chosen for the element counts as used without holding one, which makes finding that key and destroying the map undefined. In robin16 and robin the constructor of the arriving element is the one that throws; exceptions from moving the elements it displaces, insertions beyond the displacement limit of robin16, and robin with the indirect layout are not modelled."
  },
  {
   "property": "C135",
   "status": "partial",
   "theorems": [
    "Verif.HashFn.djb_eq",
    "Verif.HashFn.djb_one",
    "Verif.HashFn.apHash_eq",
    "Verif.HashFn.apHash_one",
    "Verif.HashFn.opensslHash_bytes",
    "Verif.HashFn.opensslHash_wide_blind",
    "Verif.HashFn.rocksHash_bytes",
    "Verif.HashFn.rocksHash_wide_blind",
    "Verif.HashFn.msvcFnv1a_bytes",
    "Verif.HashFn.msvcFnv1a_published",
    "Verif.HashFn.msvcFnv1a_not_published"
   ],
   "note": "DJBHash and APHash: proved for characters of one to four bytes. The others are proved for bytes. Violated (proved): for wide characters OpenSSL_Hash ignores every odd position and rocksdb::hashes::Hash most of each group of four; msvc_fnv_1a is FNV-1a except for lengths 4 and 8. The left shift of negative numbers in rocksdb::hashes::Hash is computed as in C++20."
  },
  {
   "property": "C136",
   "status": "partial",
   "theorems": [
    "Verif.HashFn.triadii_reads",
    "Verif.HashFn.penumbra_reads",
    "Verif.HashFn.yoshimura_byte_partial",
    "Verif.HashFn.triadii_byte_partial",
    "Verif.HashFn.penumbra_byte_partial",
    "Verif.HashFn.yoshimura_not_everyByte",
    "Verif.HashFn.triadii_not_everyByte",
    "Verif.HashFn.penumbra_not_everyByte",
    "Verif.HashFn.triadii_ignores",
    "Verif.HashFn.penumbra_ignores",
    "Verif.HashFn.triadii_sse2_ignores",
    "Verif.HashFn.penumbra_sse2_ignores",
    "Verif.HashFn.triadii_sse2_second"
   ],
   "note": "Reading is proved for all lengths (FNV1A_Yoshimura: C55). Every byte outside the stretch that both read lines pass matters to the scalar code (proved). Violated (proved): a byte inside that stretch can leave the hash unchanged; the vector code shifts by bytes instead of bits and drops ten bytes of every 48 of the first line and five of the second, for any multiplication; with SSE2 the odd 16-bit lanes are multiplied by 10, so that they only depend on the last 14 rounds. Which of the remaining bytes always matter to the vector code is not proved."
  },
  {
   "property": "C137",
   "status": "partial",
   "theorems": [
    "Verif.HashFn.primaryAt_partial",
    "Verif.HashFn.primaryAt_aligned",
    "Verif.HashFn.primaryHash_everyByte",
    "Verif.HashFn.primaryAt_reads",
    "Verif.HashFn.primaryAt_outside",
    "Verif.HashFn.primaryAt_ignores",
    "Verif.HashFn.primaryOldAt_outside",
    "Verif.HashFn.primaryOldAt_ignores",
    "Verif.HashFn.primaryOldAt_signed"
   ],
   "note": "Holds on x86 and for aligned keys (proved, up to the over-read of C51). Violated off x86 (proved, little-endian): the hash of every key that is not empty and not aligned depends on a byte outside the key and ignores a byte of each of its words; primaryHash_old reads the last incomplete word from the wrong end, and with a signed char a byte of 128 or more hides the other bytes of its word."
  },
  {
   "property": "C138",
   "status": "partial",
   "theorems": [
    "Verif.Vec.C138_partial",
    "Verif.Vec.C138_insert32_violated",
    "Verif.Vec.C138_high_violated"
   ],
   "note": "Holds for every helper but two (proved). Violated (proved): with AVX2, mm256_insert_epi32 stores zero instead of the value in every lane of odd index; mm256_cvtsi256_si32_high sign extends the word. The maps use neither. Not modelled: the code for 32-bit x86 and for AVX without SSE4.1, which has syntax errors."
  },
  {
   "property": "C139",
   "status": "partial",
   "theorems": [
    "Verif.FG.C139_partial",
    "Verif.FG.C139_one",
    "Verif.FG.C139_above_violated",
    "Verif.FG.C139_overflow_violated"
   ],
   "note": "Holds without arguments, and with a range whose difference does not overflow and, for the words whose factor is 1 (128 words of nextFloat, one of nextDouble, none of nextDouble53), is exact (proved). Violated (proved): with a factor of 1 and an inexact difference the result can exceed the maximum; if the difference overflows the result is infinite or not a number."
  },
  {
   "property": "C140",
   "status": "partial",
   "theorems": [
    "Verif.Args.C140_lvalues_kept_partial",
    "Verif.Args.C140_const_kept",
    "Verif.Args.C140_failed_call_keeps_rvalues_partial",
    "Verif.Args.C140_new_element_takes_rvalues",
    "Verif.Args.C140_range_keeps_source",
    "Verif.Args.C140_group_map_const_range_partial",
    "Verif.Args.C140_insert_or_assign_steals_key",
    "Verif.Args.C140_group_emplace_steals_pair",
    "Verif.Args.C140_group_table_range_steals_source",
    "Verif.Args.C140_group_map_range_inserts_moved_from"
   ],
   "note": "Holds for const objects everywhere, for lvalues in all other calls, and for rvalues that need no conversion (proved). Violated (proved): the group maps move from a pair passed to emplace as an lvalue and from the elements of a range that is not const, so that their range insertion inserts moved-from elements; flat16, robin16 and robin move from the key passed to insert_or_assign as an lvalue. Pairs of another type passed as rvalues to flat16, robin16 and robin are consumed by the conversion before the lookup."
  },
  {
   "property": "C141",
   "status": "partial",
   "theorems": [
    "Verif.RandCopy.C141_unused_copies_partial",
    "Verif.RandCopy.C141_copy_continues_partial",
    "Verif.RandCopy.C141_destroyed_source",
    "Verif.RandCopy.C141_reseeded_source",
    "Verif.RandCopy.C141_copies_are_not_values"
   ],
   "note": "Holds in every program that copies generators only before their first use, and for a copy whose source is left alone (proved). Violated (proved): the copy of a used generator points into the array of its source until its own next_state, so it reads a destroyed object or the words of a source that was seeded again."
  },
  {
   "property": "C142",
   "status": "partial",
   "theorems": [
    "Verif.StrBuf.C142_append_partial",
    "Verif.StrBuf.C142_append_fill",
    "Verif.StrBuf.C142_push_back",
    "Verif.StrBuf.C142_needs_room",
    "Verif.StrBuf.C142_append_repeats"
   ],
   "note": "Holds for append(count, ch), push_back and for sources that do not reach behind the text (proved). Violated (proved): a source that begins in the text and reaches behind it is overwritten while it is read, the last characters of the text are added again and again."
  },
  {
   "property": "C143",
   "status": "partial",
   "theorems": [
    "Verif.StrBuf.C143_restores_partial",
    "Verif.StrBuf.C143_same_end",
    "Verif.StrBuf.C143_copied_while_cut",
    "Verif.StrBuf.C143_detach_keeps_text"
   ],
   "note": "Holds in every program that copies no helper whose text is cut and cuts no two texts at the same place at a time (proved). Violated otherwise (proved): the terminator stays in the text, or a helper takes its text for cut although it is not. detach() does not forget a text that is not cut."
  },
  {
   "property": "C144",
   "status": "partial",
   "theorems": [
    "Verif.Stream.C144_robin_insert_partial",
    "Verif.Stream.C144_robin_construct_first_only",
    "Verif.Stream.C144_indirect_insert_partial",
    "Verif.Stream.C144_indirect_construct_first_only",
    "Verif.Stream.C144_robin16_insert_partial",
    "Verif.Stream.C144_robin16_construct_first_only",
    "Verif.Stream.C144_flat16_insert",
    "Verif.Stream.C144_flat16_construct_first_only",
    "Verif.Stream.C144_group_insert_first_only"
   ],
   "note": "insert(first, last) of flat16, robin16 and robin inserts the whole stream (proved, for robin and robin16 under the conditions of C31 and C80). Violated (proved): the range constructors of these maps count the elements first and thereby empty the stream, only the first element gets into the map; group15 and group16 insert the first element only, as always (C12, C48). The iterator is modelled after std::istream_iterator."
  },
  {
   "property": "C145",
   "status": "partial",
   "theorems": [
    "Verif.Buckets.C145_flat16_partial",
    "Verif.Buckets.C145_flat16_beyond",
    "Verif.Buckets.C145_robin16_partial",
    "Verif.Buckets.C145_robin16_beyond",
    "Verif.Buckets.C145_robin_own_bucket_partial",
    "Verif.Buckets.C145_robin_beyond",
    "Verif.Buckets.C145_indirect_beyond",
    "Verif.Buckets.C145_group16_bucket_partial",
    "Verif.Buckets.C145_group16_bucket_size"
   ],
   "note": "Proved: bucket numbers of flat16 up to 256 slots, of robin16 up to 16 slots and of group16 exist; in robin and group16 no two elements share one. Violated (proved): every flat16 map of more than 256 elements and every robin16 map of more than 16 has an element whose bucket number is not below bucket_count() (16 always); robin likewise unless its elements fill the first positions without a gap; bucket_size(n) of group16 is 1 also for empty buckets. group15's bucket(key) does not compile; flat16, robin16 and robin have no bucket_size."
  },
  {
   "property": "C146",
   "status": "partial",
   "theorems": [
    "Verif.ViewArray.C146_programs_partial",
    "Verif.ViewArray.C146_no_leak_partial",
    "Verif.ViewArray.C146_clear_leaks",
    "Verif.ViewArray.C146_resize_undefined",
    "Verif.ViewArray.C146_shared_deleted_twice"
   ],
   "note": "Proved: every program gets the answers of arrays of elements, and the leaked elements are exactly as many as pop_back, clear and resize removed (none without these calls). Violated (proved): clear, pop_back and a shrinking resize do not delete; operator[] of a place made by resize is undefined; a pointer from at() that is pushed again is deleted twice. Copies do not compile."
  },
  {
   "property": "C147",
   "status": "partial",
   "theorems": [
    "Verif.Ranges.C147_reverse_iterators",
    "Verif.Ranges.C147_reverse_loop",
    "Verif.Ranges.C147_swap",
    "Verif.Ranges.C147_swap_ranges_partial",
    "Verif.Ranges.C147_swap_ranges_aborts",
    "Verif.Ranges.C147_swap_arrays"
   ],
   "note": "Reverse iterators, swap of variables, and swap_ranges and swap of arrays without assertions are proved. Violated (proved): with assertions swap_ranges, and swap of arrays with it, aborts for every nonempty range, because the assertion measures the distance after the loop. swap of plain pointers does not compile (no overload is enabled)."
  },
  {
   "property": "C148",
   "status": "partial",
   "theorems": [
    "Verif.FloatNear.C148_symmetric_partial",
    "Verif.FloatNear.C148_close",
    "Verif.FloatNear.C148_neighbours",
    "Verif.FloatNear.C148_not_transitive",
    "Verif.FloatNear.C148_not_finite"
   ],
   "note": "Symmetry, reflexivity but for NaN, at most two units in the last place, and infinities are proved for all formats with at least two bits of fraction. Violated (proved): of two neighbours it depends on the last bit of the smaller pattern whether they are accepted, and values two units apart may be accepted while one of them and the value between them are not."
  },
  {
   "property": "C149",
   "status": "partial",
   "theorems": [
    "Verif.Align.C149_align_to_partial",
    "Verif.Align.C149_align_to_wraps",
    "Verif.Align.C149_pointer_partial",
    "Verif.Align.C149_check"
   ],
   "note": "Least multiple, alignedness, check_alignment and the assertions are proved for all arguments whose next multiple is below 2^64. Violated (proved): above that the result is 0, and no assertion notices."
  },
  {
   "property": "C150",
   "status": "partial",
   "theorems": [
    "Verif.Watch.C150_elapsed_partial",
    "Verif.Watch.C150_start_negative",
    "Verif.Watch.C150_peek",
    "Verif.Watch.C150_tod_unit",
    "Verif.Watch.C150_stamp_partial",
    "Verif.Watch.C150_stamp_coarse"
   ],
   "note": "Elapsed and running times are proved for all histories with the std::chrono and clock() watches; double is idealised as rationals, and clocks do not go backwards. Violated (proved): a watch started but not stopped shows a negative time; with gettimeofday seconds are microseconds; timestamps of the std::chrono watch are whole seconds. StopWatchExBase does not compile and is not modelled."
  },
  {
   "property": "C151",
   "status": "partial",
   "theorems": [
    "Verif.CharCopy.C151_mem_copy_partial",
    "Verif.CharCopy.C151_wide",
    "Verif.CharCopy.C151_returns_differ",
    "Verif.CharCopy.C151_str_copy_partial",
    "Verif.CharCopy.C151_str_copy_zeroed",
    "Verif.CharCopy.C151_str_copy_generic_partial",
    "Verif.CharCopy.C151_str_copy_no_terminator"
   ],
   "note": "Proved for the generic mem_copy (also with overlaps when the destination comes first), mem_copy of char, and str_copy of char and wchar_t. Violated (proved): mem_copy of wchar_t copies four times too many characters; the generic str_copy stops where destination and source have no common bit, so copies nothing into zeroed memory, and writes no terminator; the overloads return different pointers."
  },
  {
   "property": "C152",
   "status": "partial",
   "theorems": [
    "Verif.Step.C152_advance",
    "Verif.Step.C152_input_partial",
    "Verif.Step.C152_input_back",
    "Verif.Step.C152_distance",
    "Verif.Step.C152_next_prev",
    "Verif.Step.C152_string",
    "Verif.Step.C152_string_walk",
    "Verif.Step.C152_postfix",
    "Verif.Step.C152_postfix_walk"
   ],
   "note": "Proved for all categories and offsets, but for negative offsets of input and forward iterators, which are ignored (proved; the standard leaves them undefined). Violated (proved): it++ and it-- of string iterators return references to variables that no longer exist, so that every loop with *it++ over a nonempty string is undefined."
  },
  {
   "property": "C153",
   "status": "partial",
   "theorems": [
    "Verif.StrFn.C153_terminated",
    "Verif.StrFn.C153_signed",
    "Verif.StrFn.C153_counted",
    "Verif.StrFn.C153_counted_char_partial",
    "Verif.StrFn.C153_counted_zero",
    "Verif.StrFn.C153_stl_equal",
    "Verif.StrFn.C153_stl_count",
    "Verif.StrFn.C153_stl_cmp_partial",
    "Verif.StrFn.C153_stl_order",
    "Verif.StrFn.C153_stl_order_wrong",
    "Verif.StrFn.C153_null",
    "Verif.StrFn.C153_safe"
   ],
   "note": "Proved for terminated strings and for strings with lengths of general character types. Violated (proved): libc for char and wchar_t stops at a zero inside; stl::StrEqual with lengths has no return and is undefined for equal lengths; stl::StrCmp orders wider characters by their lowest byte; signed character types put longer strings before their prefixes. A null pointer differs from an empty string."
  },
  {
   "property": "C154",
   "status": "partial",
   "theorems": [
    "Verif.HashHelper.C154_int",
    "Verif.HashHelper.C154_text",
    "Verif.HashHelper.C154_text_empty",
    "Verif.HashHelper.C154_float_default",
    "Verif.HashHelper.C154_float_zero",
    "Verif.HashHelper.C154_pointer",
    "Verif.HashHelper.C154_default",
    "Verif.HashHelper.C154_pointer_small"
   ],
   "note": "Proved for integers and nonempty texts of char. Violated (proved): +0.0 and -0.0 have different hash codes; a float is read beyond its end by default; pointers are hashed by what they point to, undefined for null and small targets; the empty text has two hash codes. Texts of wider characters and string_hash_helper (C54) are not covered here."
  },
  {
   "property": "C155",
   "status": "partial",
   "theorems": [
    "Verif.Analyzer.C155_analyse_partial",
    "Verif.Analyzer.C155_group16",
    "Verif.Analyzer.C155_group15",
    "Verif.Analyzer.C155_group_fresh_partial"
   ],
   "note": "Proved for every container whose bucket sizes add up to size(), with exact fractions for double. Violated (proved) for group15 and group16 maps with storage, where bucket_size is 1 for every bucket: the assertion fails, an empty map is analysed, the usage is above 100 percent and the unused count wraps. The two deviations and the printing are not modelled."
  },
  {
   "property": "C156",
   "status": "partial",
   "theorems": [
    "Verif.SysTime.C156_now_partial",
    "Verif.SysTime.C156_unix_float",
    "Verif.SysTime.C156_elapsed",
    "Verif.SysTime.C156_sleep_partial",
    "Verif.SysTime.C156_sleep_long",
    "Verif.SysTime.C156_sleep_other"
   ],
   "note": "Proved with exact fractions for double: integer times, elapsed and interval times, floating-point times of Linux, sleeps of at most 4294967 ms. Violated (proved): floating-point times of other Unix systems are 1000 times too large; longer sleeps are cut modulo 2^32 microseconds; the sleep loops for unknown systems never end; elapsed times are negative when the clock is set back. Windows is not modelled."
  }
 ]
}