#!/usr/bin/env python3
"""Writes /verif/properties.jsonl (one JSON object per line)."""
import json, os
P = []
def p(title, statement, quantifier, why, anchors):
    P.append(dict(id="C%02d" % (len(P)+1), title=title, statement=statement,
                  quantifier=quantifier, why_tests_cant=why, anchors=anchors))
T15="src/jstd/hashmap/group15_flat_table.hpp"; G15="src/jstd/hashmap/flat_map_group15.hpp"
M15="src/jstd/hashmap/group15_flat_map.hpp"; I15="src/jstd/hashmap/flat_map_iterator15.hpp"
M16="src/jstd/hashmap/group16_flat_map.hpp"; I15="src/jstd/hashmap/flat_map_iterator15.hpp"
T16="src/jstd/hashmap/group16_flat_table.hpp"; G16="src/jstd/hashmap/flat_map_group16.hpp"
I16="src/jstd/hashmap/flat_map_iterator.hpp"; RB="src/jstd/hashmap/robin_hash_map.h"
PR="src/jstd/hashmap/group_quadratic_prober.hpp"; P2="src/jstd/support/Power2.h"; BU="src/jstd/support/BitUtils.h"
def a(f,*s): return {"file":f,"symbols":list(s)}

p("group15: the map behaves as a finite map over every history",
  "Starting from an empty group15 map, after any finite sequence of insert / try_emplace / insert_or_assign / erase(key) / reserve / rehash / clear calls, every observation (find, contains, count, size, the bool results of insert and the counts returned by erase) is what an ideal finite map with the same key equality would answer. (Calls with undefined behaviour, clear() on a map without storage and rehash(n > 2^63), are C07/C16; reserve(0) is C29.)",
  "all key/value types, all hash functions consistent with key equality (including constant ones), all operation sequences of any length",
  "Tests run a few thousand operations with one well-mixing hash; the claim covers every hash function, every collision pattern, every table size and arbitrarily long histories.",
  [a(T15,"find_impl","find_or_insert","find_empty_to_insert","find_and_erase","rehash_impl","emplace_impl")])
p("group15: insert never overwrites and reports truthfully",
  "insert(k,v) on a map that already has a key equal to k leaves the stored key and value untouched and returns (iterator to the old element,false); otherwise it adds exactly (k,v), returns true with an iterator to the new element, and no other element is changed.",
  "all reachable map states, all keys and values",
  "Needs every collision layout and the insert that triggers a growth; tests sample layouts.",
  [a(T15,"find_or_insert","emplace_impl","try_emplace_impl")])
p("group15: insert_or_assign replaces only the mapped value",
  "insert_or_assign(k,v) makes find(k) yield v, keeps the originally stored key object if an equal key was present, changes no other element, and changes size() by one exactly when k was absent.",
  "all reachable map states, all keys and values",
  "Universal over states and colliding keys.",
  [a(T15,"insert_or_assign","emplace_impl")])
p("group15: erase(key) removes exactly that key",
  "erase(k) returns 1 and removes the element with key equal to k if there is one and returns 0 otherwise; every other element stays findable (removal leaves no hole that hides a colliding key).",
  "all reachable map states and keys, in particular elements that were stored past full groups",
  "Whether a lookup path is cut by a removal depends on global history; no finite test set exhausts collision chains.",
  [a(T15,"find_and_erase","erase_slot","reset_ctrl")])
p("group15: size() equals the number of stored elements",
  "After every history size() equals the number of elements iteration would yield, and empty() is true exactly when there are none.",
  "all reachable states of the operation set of C01",
  "Bookkeeping drift needs a universally quantified invariant.",
  [a(T15,"slot_size_","emplace_impl","reset_ctrl","create_slots")])
p("group15: forward iteration visits every element exactly once",
  "Walking from begin() with ++ reaches end() after exactly size() steps, dereferences only live elements, and visits each stored element exactly once.",
  "all reachable map states, all capacities",
  "Every occupancy pattern of every group (2^15 per group, any number of groups) has to be handled, including the tail sentinel.",
  [a(I15,"increment"),a(T15,"find_first_used_index","begin","end")])
p("group15: every operation terminates and touches only owned memory",
  "In every history of insert / try_emplace / insert_or_assign / erase / reserve / rehash / clear, each call terminates and reads or writes only control bytes and slots of the current allocation (or reads of the shared empty group), and never reads a slot holding no element.",
  "all operation sequences, all hash functions (all keys may collide)",
  "find_empty_to_insert loops without an exit test; termination depends on an accounting invariant over all histories.",
  [a(T15,"find_empty_to_insert","need_grow","slot_threshold_","reset_ctrl","index_for_hash")])
p("group15: growth, reserve and rehash preserve the contents",
  "reserve(n), rehash(n) and the internal growth keep exactly the same key/value pairs, never reduce capacity(), and leave size() unchanged (for n = 0 on a non-empty map see C29).",
  "all reachable map states, all n below 2^50",
  "Redistribution must work for every content and hash function.",
  [a(T15,"rehash_impl","reserve","rehash","grow_if_necessary","no_grow_unique_transfer_insert")])
p("group15: a failed allocation leaves the map unchanged",
  "If the allocator throws while an insert needs to grow, or during reserve/rehash, the exception propagates and the map has exactly the elements, size and capacity it had before.",
  "all reachable states, every allocation that can fail",
  "Fault injection at every allocation in every state is not testable exhaustively.",
  [a(T15,"create_slots","rehash_impl","find_or_insert")])
p("group15: a throwing element constructor leaves the map unchanged",
  "If constructing the new key/value pair throws during insert/try_emplace/insert_or_assign, the map still behaves as before the call (same elements, later operations well defined).",
  "all reachable states, all keys",
  "Exception at a specific point in every state.",
  [a(T15,"find_empty_to_insert","emplace_impl","try_emplace_impl")])
p("group15: copying yields an equal, independent map",
  "A copy-constructed or copy-assigned map contains exactly the source's elements and reports the same size().",
  "all reachable source states",
  "The code takes different paths depending on whether the copy's computed capacity equals the source's; tests usually hit one.",
  [a(T15,"group15_flat_table(group15_flat_table const &, allocator)","copy_slots_from","fast_copy_slots_from","unique_insert")])
p("group15: inserting a range inserts every element of the range",
  "insert(first,last), and the range / initializer_list constructors and assignment of group15_flat_map, have the same effect as inserting each element of the range in order.",
  "all ranges, all reachable states",
  "Universal over ranges; both the table-level and the map-level overload have to agree.",
  [a(M15,"insert(InputIter, InputIter)"),a(T15,"insert(InputIter, InputIter)")])
p("group15: shrink_to_fit preserves the contents and terminates",
  "shrink_to_fit(read_only) terminates for every state and both flag values, keeps exactly the same elements, and later operations still behave as a finite map.",
  "all reachable states, both values of read_only",
  "Only particular sizes (exactly filling the reserved slots) break it.",
  [a(T15,"shrink_to_fit","rehash_impl","shrink_to_fit_capacity","calc_capacity")])
p("group15: after reserve(n), n elements fit without reallocation",
  "After reserve(n) on an empty map, inserting up to n distinct keys does not reallocate (capacity() stays constant).",
  "all n >= 1 up to 2^50",
  "Rounding of load factors must be right for every n.",
  [a(T15,"reserve","shrink_to_fit_capacity","calc_slot_threshold","need_grow")])
p("group15: changing max_load_factor preserves contents and only grows when needed",
  "max_load_factor(x) keeps all elements, and does not reallocate when the current capacity already satisfies the new factor.",
  "all reachable states, all x",
  "Universal over state and x.",
  [a(T15,"max_load_factor","shrink_to_fit_capacity","rehash")])
p("group15: clear() empties the map and the map stays usable",
  "clear() is well defined on every map, afterwards size() is 0, no key is found, and further operations behave as on an empty map.",
  "all reachable states, including maps that never allocated",
  "Has to hold in every state, including the static empty state.",
  [a(T15,"clear","clear_data","clear_slots","set_sentinel_mark","default_empty_groups")])
p("group15: swap exchanges the two contents",
  "swap(a,b) leaves a behaving exactly as b did and vice versa, for lookups, later inserts and iteration.",
  "all pairs of reachable states",
  "Universal over pairs of states.",
  [a(T15,"swap_impl","swap_content")])
p("Quadratic prober visits every bucket exactly once",
  "For every power-of-two bucket count 2^k and every start index below it, the sequence get(), next_bucket(mask), get(), ... visits each bucket exactly once until next_bucket first returns false, and next_bucket returns false exactly after 2^k buckets.",
  "all k, all start indices",
  "Infinite family of table sizes; relies on a number-theoretic fact about triangular numbers.",
  [a(PR,"next_bucket","get")])
p("group15: group byte matching is exact",
  "For every 16-byte control group, match_hash(h)/match_empty/match_used set bit i (0<=i<15) exactly when byte i holds h / is empty / is not empty, never set bit 15 or above, the reduced hash of any hash value is never a reserved byte, and marking an overflow class is visible for exactly that class and does not disturb the other 15 bytes.",
  "all 2^128 group contents, all 64-bit hash values",
  "State space too large to enumerate.",
  [a(G15,"match_hash","match_empty","match_used","reduced_hash","repeated_hash","set_overflow","is_not_overflow","set_used","set_empty")])
p("Bit scan loops enumerate exactly the set bits in ascending order",
  "The loop `while mask != 0 { pos = bsf(mask); ...; mask = clearLowBit(mask) }` used by lookup, rehash and destruction visits exactly the indices of the set bits of mask, each once, in ascending order, and terminates.",
  "all masks",
  "Universal over masks.",
  [a(BU,"bsf32","clearLowBit32"),a(T15,"find_impl","rehash_impl","clear_slots")])
p("Power-of-two rounding is exact",
  "round_up(n) is the least power of two >= n, round_to(n) the greatest <= n, round_down(n) the greatest < n, next_pow2(n) the least > n, prev_pow2(n) half of round_to(n), log2_int(n) the logarithm rounded up (run-time and compile-time versions alike), is_pow2(n) holds exactly for powers of two (and 0 by convention), for every n in the stated domain; calc_capacity always returns the least power of two that is at least the requested capacity, the current size and the minimum capacity.",
  "all 64-bit n in the domain where the result is representable",
  "2^64 inputs.",
  [a(P2,"round_up","round_down","next_pow2","prev_pow2","is_pow2"),a(T15,"calc_capacity")])
p("Bit counting helpers compute their mathematical definition",
  "The software fallbacks popcnt, clz, ctz, and the helpers ls1b, clearLowBit, bsf, bsr return the population count, number of leading/trailing zeros, isolated lowest bit, cleared lowest bit, index of lowest/highest set bit, for every input word.",
  "all 32-bit and 64-bit words",
  "2^64 inputs.",
  [a(BU,"__internal_popcnt","__internal_popcnt64","__internal_clz","__internal_ctz","ls1b32","clearLowBit32","bsf32","bsr32","bsr64")])
p("group16: the map behaves as a finite map over every history that does not exhaust the table",
  "The analogue of C01/C02/C03/C04/C05 for group16 maps: as long as every insert call returns, all observations agree with an ideal finite map.",
  "all key/value types, hash functions and operation sequences",
  "As C01.",
  [a(T16,"find_index","find_or_insert","find_empty_to_insert","find_and_erase","rehash_impl","emplace_impl"),a(G16,"match_hash","set_used","set_overflow","is_overflow")])
p("group16: every insert terminates",
  "In every history of insert / erase / reserve / rehash / clear every call terminates and the load limit never exceeds the number of slots.",
  "all operation sequences and hash functions",
  "The load limit is adjusted up and down on insert and erase; only an invariant over all histories settles it.",
  [a(T16,"find_empty_to_insert","reset_ctrl","need_grow","slot_threshold_")])
p("group16: iteration visits every element exactly once",
  "Walking from begin() with ++ reaches end() after exactly size() steps and visits each stored element exactly once, reading control bytes only inside the allocation.",
  "all reachable map states, all capacities",
  "As C06.",
  [a(I16,"increment"),a(T16,"find_first_used_index","begin","end")])
p("group16: group byte matching is exact with shared overflow bits",
  "For every 16-byte group, match_hash/match_empty/match_used are exact on the 7-bit tags for all 16 positions regardless of the overflow bits stored in the same bytes; storing or erasing an element never changes any overflow flag; setting an overflow flag never changes a tag; the flag set for a class is read back for exactly that class; has_any_overflow() is true exactly when some flag is set.",
  "all 2^128 group contents, all hash values",
  "State space too large to enumerate.",
  [a(G16,"match_hash","match_empty","match_used","set_used","set_empty","set_overflow","is_overflow","has_any_overflow")])
p("group16: shrink_to_fit preserves the contents and terminates",
  "As C13 for group16.",
  "all reachable states, both values of read_only",
  "As C13.",
  [a(T16,"shrink_to_fit","rehash_impl")])
p("Backing allocation is large enough and aligned",
  "The single allocation made for slots and groups is large enough to hold all slots followed by all 16-byte groups at a 16-byte aligned address, the two areas do not overlap, for every element size, base address and capacity; the same size is computed for deallocation as for allocation.",
  "all element sizes >= 1, all base addresses, all group counts (without size_t overflow)",
  "Depends on pointer residues and element size.",
  [a(T15,"AlignedSlotsAndGroups","TotalSlotAllocCount","create_slots","destroy_slots"),a(T16,"AlignedGroups","TotalGroupAllocCount")])
p("reserve / rehash with argument 0 never discard elements",
  "reserve(0) and rehash(0) on a non-empty map keep all elements.",
  "all reachable non-empty states",
  "Universal over states.",
  [a(T15,"reserve","rehash","destroy"),a(T16,"reserve","rehash")])
p("group15: bounded churn keeps memory bounded",
  "If the number of live elements never exceeds n, capacity() stays below a bound that depends only on n.",
  "all histories, all hash functions",
  "Unbounded histories.",
  [a(T15,"reset_ctrl","need_grow","grow_if_necessary")])
p("robin: lookup is correct over every history of inserts and erases",
  "Starting from an empty robin_hash_map (direct layout), after any sequence of insert / try_emplace / insert_or_assign / erase(key), find/contains/count/size and the returned flags agree with an ideal finite map.",
  "all key/value types, all hash functions, all histories in which no displacement exceeds the representable distance",
  "As C01; Robin-Hood displacement and backward-shift deletion must preserve ordering for every layout.",
  [a(RB,"direct_find","direct_find_and_insert","insert_to_place","find_and_erase","erase_slot","rehash_impl")])
p("robin: erase by backward shift keeps every other element findable",
  "erase(k) removes exactly k and every other key is still found with its value; no tombstones remain (the layout is one that could have been produced without k).",
  "all reachable layouts",
  "Depends on arbitrary cluster shapes.",
  [a(RB,"erase_slot","find_and_erase")])
p("robin: probe distances stay below the advertised bound",
  "After every operation each element sits at a distance below max_lookups() from its home position and inside the allocated slots.",
  "all histories including growth and shrink_to_fit",
  "Adversarial clusters straddling the old table end only appear for specific hash patterns.",
  [a(RB,"insert_to_place","find_and_insert_no_grow","rehash_impl","create_slots","max_lookups")])
p("robin: swap, copy- and move-assignment produce working maps",
  "After swap / copy assignment / move, find(k) == end() exactly for absent keys, and moved-from maps can be reused.",
  "all pairs of states",
  "Universal over pairs of states.",
  [a(RB,"swap_content","robin_hash_map(robin_hash_map &&)","find","end")])
p("at() and operator[]",
  "at(k) returns the mapped value of k when present and throws std::out_of_range otherwise without changing the map; operator[](k) inserts a default value exactly when k is absent and then denotes the mapped value of k.",
  "all reachable states and keys",
  "Universal over states.",
  [a(M15,"at","operator []")])
p("Bidirectional iteration is consistent",
  "For a group15 iterator it denoting an element that has a successor, --(++it) == it; from any element but the first, ++(--it) == it.",
  "all reachable states and iterator positions",
  "Every occupancy pattern.",
  [a(I15,"increment","decrement")])
p("group16: bidirectional iteration is consistent",
  "For a group16 iterator denoting an element that has a successor, --(++it) == it; decrementing end() gives the last element of a non-empty map.",
  "all reachable states and iterator positions",
  "Every occupancy pattern of the groups, including empty groups and the padding byte at the end.",
  [a(I16,"increment","decrement"),a(T16,"next_valid_iterator","prev")])
p("group16: erasing while iterating",
  "The loop `for (it = begin(); it != end(); ) if (pred(*it)) it = erase(it); else ++it;` visits every element exactly once and leaves exactly the elements that do not satisfy pred, with their values.",
  "all reachable states and predicates",
  "Depends on the position of every erased element relative to group and table boundaries.",
  [a(T16,"erase(iterator)","next_valid_iterator")])
p("group16: a failed allocation changes nothing",
  "If the memory allocator throws during insert, reserve or rehash of a group16 map, the map still holds the same elements and answers every later query as before.",
  "all reachable states, all allocators",
  "The failure can happen at any allocation of any history.",
  [a(T16,"create_slots","rehash_impl","emplace_impl")])
p("group16: clear is defined on every map and empties it",
  "clear() on any group16 map, including one that never allocated, removes every element and leaves a map on which all operations work.",
  "all reachable states",
  "Universal over states.",
  [a(T16,"clear","clear_data")])
p("group15: moving into a map with another allocator keeps every element",
  "group15_flat_table(std::move(other), alloc) with an allocator unequal to other's leaves the new map with exactly other's elements and size(), and other empty.",
  "all reachable source states",
  "Takes different paths depending on whether the new capacity equals the old one; stateful allocators are rarely tested.",
  [a(T15,"group15_flat_table(group15_flat_table &&, allocator)","move_slots_from","fast_move_slots_from","move_unique_insert")])
p("group16: reserve and rehash keep the contents",
  "reserve(n) and rehash(n) of a group16 map keep every element with its value; reserve never reduces capacity(), rehash(n) leaves at least n slots and room for all elements, insertion never reduces capacity().",
  "all reachable states, all n",
  "The resizing points depend on the whole history; group16 rehash may also shrink.",
  [a(T16,"reserve","rehash","rehash_impl","grow_if_necessary")])
p("group16: a throwing element constructor leaves the map usable",
  "If the constructor of the element throws during an insertion, a group16 map can still be used and destroyed and holds the elements it held before.",
  "all reachable states, all keys",
  "Needs a constructor that throws at each possible insertion.",
  [a(T16,"emplace_impl","find_empty_to_insert","find_or_insert")])
p("group16: reserve(n) makes n insertions possible without reallocation",
  "After reserve(n), the map can grow to n elements without reallocating, so iterators stay valid and no allocation can fail.",
  "all n up to 2^50, all hash functions, all histories before the call",
  "Involves the rounding of the load factor for every n.",
  [a(T16,"reserve","shrink_to_fit_capacity","calc_slot_threshold")])
p("group16: max_load_factor changes the load factor only",
  "max_load_factor(f) on a group16 map keeps the contents and reallocates only when f requires more space.",
  "all reachable states, all f",
  "Universal over states.",
  [a(T16,"max_load_factor","rehash")])
p("group16: reserve(0) and rehash(0) keep the contents",
  "reserve(0) and rehash(0) on a non-empty group16 map lose no element.",
  "all reachable states",
  "Edge value whose effect depends on size().",
  [a(T16,"reserve","rehash")])
p("group16: at() and operator[]",
  "at(k) returns the mapped value of k when present and throws std::out_of_range otherwise without changing the map; operator[](k) inserts a default value exactly when k is absent and then denotes the mapped value of k.",
  "all reachable states and keys",
  "Universal over states.",
  [a(M16,"at","operator []")])
p("group16: range insertion inserts every new key",
  "insert(first, last), insert(initializer_list) and the range constructors insert, for every key of the range that is not present, the first element with that key.",
  "all ranges and reachable states",
  "All ranges, with duplicates and growth in the middle.",
  [a(M16,"insert(first, last)","group16_flat_map(first, last)"),a(T16,"insert(first, last)")])
p("group16: swap exchanges two maps completely",
  "After a.swap(b) every history of calls on a has the results it would have had on b and vice versa, also when the maps have different hashers.",
  "all pairs of maps, all later histories",
  "Quantifies over all later behaviour.",
  [a(T16,"swap_content","swap_policy")])
p("group16: erasing a range of keys erases all of them",
  "erase(first, last) over a range of keys removes every key of the range and nothing else and returns the number of removed elements.",
  "all ranges and reachable states",
  "All ranges, with repeated and absent keys.",
  [a(M16,"erase(InputIter, InputIter)")])
HC="src/jstd/hasher/hash_crc32.h"; HS="src/jstd/hasher/hashes.h"; HH="src/jstd/hasher/hash_helper.h"; FN="src/jstd/hasher/fnv1a.h"
SV="src/jstd/string/string_view.h"; SU="src/jstd/string/string_utils.h"; SSTL="src/jstd/string/string_stl.h"; SLC="src/jstd/string/string_libc.h"
p("string hashes read only the string",
  "hash_crc32(data, length), and HashUtils::primaryHash(data, length, seed), read only the length bytes they are given, and the result is determined by those bytes.",
  "all strings of all lengths, all memory contents behind the string, all alignments of the end of the readable memory",
  "An over-read of up to seven bytes is invisible unless the string ends at the end of a page; which lengths are affected has to be shown for all of them.",
  [a(HC,"intel_crc32_x64","intel_crc32_x86","hash_crc32"),a(HS,"primaryHash_aligned","primaryHash")])
p("intel_crc32_simple_x64 computes CRC-32C within bounds",
  "intel_crc32_simple_x64(data, length) reads only the string and returns its CRC-32C (iSCSI polynomial, initial value all ones, complemented), whatever the length.",
  "all strings",
  "The equality of the eight-bytes-at-a-time loop with the bytewise definition is a statement about polynomials over all inputs.",
  [a(HC,"intel_crc32_simple_x64","intel_crc32_simple_x86")])
p("int_hash_crc32 is a 64-bit hash",
  "The 64-bit result of int_hash_crc32(value) uses its 64 bits: keys that agree in the lower half of the hash need not agree in the upper half.",
  "all pairs of 64-bit keys",
  "Tests see a spread of hash values; that the halves determine each other is a statement about all keys.",
  [a(HC,"intel_int_crc32_x64","int_hash_crc32","intel_simple_int_crc32")])
p("Times31, Times31Std and BKDRHash are polynomial hashes of the string",
  "Times31(s) and Times31Std(s) return the polynomial hash with base 31 (BKDRHash: 131) modulo 2^32 of the characters of s, agree with each other, and read only s, for char and for wide strings.",
  "all strings, all character widths",
  "The unrolled loop has to be compared with the plain one for every length; over-reads of wide strings do not show in tests.",
  [a(HS,"Times31","Times31Std","BKDRHash"),a(HH,"string_hash_helper")])
p("FNV1A_Yoshimura stays inside the string",
  "FNV1A_Yoshimura(str, len) reads only the len bytes of the string and its result depends on them only.",
  "all strings of all lengths",
  "Two read positions that approach each other, with separate code for 16, 8, 4, 2 and 1 remaining bytes: all lengths are needed.",
  [a(FN,"FNV1A_Yoshimura")])
p("128-bit multiplication is exact",
  "The portable 64x64->128 bit multiplications used by the hashes return the exact product, and mum_mul_mix64 is the same function on every platform.",
  "all pairs of 64-bit numbers",
  "A lost carry occurs for a small fraction of the 2^128 inputs.",
  [a(HS,"uint128_mul","mum_mul_mix64")])
p("string_view equality is string equality",
  "a == b on string views returns true exactly when both have the same characters, does not depend on memory behind the views and reads nothing behind them; two empty views are equal.",
  "all pairs of strings of all lengths, all contents of the memory behind them, the four STRING_UTILS_MODE values",
  "Depends on the page a string ends in, on lengths above 2 GiB and on embedded NULs.",
  [a(SV,"operator ==","is_equal"),a(SU,"is_equal"),a(SSTL,"StrEqual"),a(SLC,"StrEqual")])
p("wstring_view equality compares every character",
  "a == b on views of wide characters returns true exactly when all characters agree.",
  "all pairs of wide strings, all modes",
  "The part of the string that is ignored depends on the width of wchar_t.",
  [a(SU,"is_equal"),a("src/jstd/support/SSEHelper.h","SSEHelper")])
p("string_view ordering is a strict weak order consistent with ==",
  "compare(a, b) has the sign of the lexicographic order of the unsigned characters; <, >, <=, >= agree with it and with ==, so that views can be used as keys of std::map.",
  "all pairs of strings, all modes, every conforming memcmp",
  "Consistency of six operators over all pairs; memcmp's magnitude is implementation-defined.",
  [a(SV,"compare","operator <","operator <=","operator >","operator >="),a(SU,"compare")])
p("substr returns a part of the view",
  "substr(pos, count) throws std::out_of_range iff pos > size() and otherwise returns the view of the characters from pos on, at most count of them, never more than the view holds.",
  "all views, all pos and count of type size_t",
  "Wrap-around of pos + count.",
  [a(SV,"substr")])
p("copy writes and counts the copied characters",
  "copy(dest, count, pos) writes the characters from pos on, at most count of them, to dest, returns their number and writes nothing else, for every count including npos.",
  "all views, positions, counts and destinations",
  "Wrap-around, embedded NULs and the return value for all inputs.",
  [a(SV,"copy")])
p("compare(pos, count, sv) compares the substring",
  "v.compare(pos, count, sv) has the result of v.substr(pos, count).compare(sv).",
  "all views, positions and counts",
  "Relation between two functions over all arguments.",
  [a(SV,"compare(pos, count, sv)")])
p("equal views hash equal",
  "Views that compare equal have equal hashes, as the hash maps require of their key type.",
  "all pairs of views, all modes, all hash functions of the string contents",
  "A statement about all pairs of equal views; counterexamples need embedded NULs or bytes behind the view.",
  [a(SV,"operator ==","hash"),a(HH,"hash_helper")])
LG="src/jstd/math/log10_int.h"; FM="src/jstd/string/formatter.h"
p("count_digits is the length of the decimal representation",
  "jm_log10_u32/u64 return the integer part of the decimal logarithm, and count_digits(n) returns the number of characters of the decimal representation of n, for every integer type and value.",
  "all values of all integer types",
  "The estimate by a multiplication and the correction by a table must be right at every power of ten and of two; 2^64 values cannot be tried.",
  [a(LG,"jm_log10_u32","jm_log10_u64","s_power10"),a(FM,"count_digits")])
p("itoa writes the decimal representation",
  "itoa(str, n) and itoa(str, n, count_digits(n)) append the decimal representation of n to str, return its length and write nowhere else, for 32-bit and 64-bit numbers, signed and unsigned, and for every character type.",
  "all numbers of all integer types, all character types",
  "Buffer positions depend on the number of digits and the width of the character type.",
  [a(FM,"itoa")])
p("to_hex returns two hexadecimal digits",
  "to_hex(ch) returns the two upper-case hexadecimal digits of the character code.",
  "all characters",
  "All characters; the arguments of a std::string constructor are interchanged without a diagnostic.",
  [a(FM,"to_hex","to_lower_hex","to_hex_char")])
FL="src/jstd/hashmap/flat16_hash_map.h"
p("flat16: a history of calls answers like an ideal map",
  "From every constructor of flat16_hash_map, every history of insert, try_emplace, insert_or_assign, operator[], find, contains, count, erase, size, empty, reserve, rehash, shrink_to_fit, clear, max_load_factor and iteration is free of undefined behaviour, terminates, and gives the answers of an ideal finite map; after an exception the map is as before.",
  "all histories, keys, values, lawful hash and equality functions (constant hashes included), all answers of the allocator",
  "The control bytes are mirrored behind the table, groups start at any slot and wrap around; whether a key is found depends on the whole history of positions.",
  [a(FL,"find_impl","find_and_prepare_insert","find_and_erase")])
p("flat16: insertion adds the element or returns the one that is there",
  "insert(k, v) adds (k, v) if and only if no element has an equal key, otherwise it changes nothing (insert_or_assign replaces the mapped value); the returned iterator points to the element with the key; no other element changes. This holds in tables with tombstones too.",
  "all states with tombstones reached by histories, all keys and hash functions",
  "The slot found first (tombstone or empty) and the duplicates behind it depend on hash collisions across group borders.",
  [a(FL,"find_and_prepare_insert","emplace_impl")])
p("flat16: erase(k) removes exactly the element with the key",
  "erase(k) removes the element with an equal key and returns 1, or returns 0 if there is none; every other key is found afterwards exactly as before.",
  "all reachable maps and keys",
  "Whether another key is lost depends on which groups see the erased slot, for every start of a probe sequence.",
  [a(FL,"find_and_erase","erase_slot")])
p("flat16: insertion into a table full of tombstones reorders it",
  "When tombstones have used up the free slots, the insertion of a new key reorders the table in place, keeps all elements, and succeeds.",
  "all reachable maps in which the reordering is triggered",
  "It takes many insertions and erasures with colliding hashes to trigger the reordering at all.",
  [a(FL,"reorder_or_grow_if_necessary","drop_deleted_no_grow","convent_all_slots")])
p("flat16: the load stays below max_load_factor and growth doubles",
  "size() never exceeds max_load_factor() * capacity(); an insertion changes the capacity only by doubling it, and only when elements and tombstones have reached the threshold.",
  "all histories",
  "The counter left_empties_ is maintained by every operation modulo 2^64; an error shows only after long histories.",
  [a(FL,"slot_threshold","reorder_or_grow_if_necessary","rehash_impl","find_and_prepare_insert")])
p("flat16: iteration yields exactly the elements",
  "Iterating from begin() to end() yields every element exactly once, and size() is their number, after any history.",
  "all histories, also those after which some lookups are wrong",
  "The end of the iteration is found by an end mark among the control bytes, which other operations share with the mirrored bytes.",
  [a(FL,"basic_iterator::operator ++","begin")])
p("flat16: clear() empties the map",
  "After clear() or clear(true) the map is empty: size() is 0, no key is found, iteration yields nothing, and the map works like a new one.",
  "all reachable maps",
  "Which control bytes are left over depends on the capacity and on the positions of the elements.",
  [a(FL,"clear","destroy_group")])
p("flat16: rehash, reserve and shrink_to_fit keep the elements",
  "rehash(n), reserve(n) and shrink_to_fit() terminate, keep all elements, make every element findable, and give room for n elements, or throw and change nothing.",
  "all reachable maps and all n",
  "Depends on the exact number of elements against the capacity, on wrap-around of n * factor, and on the free slots that the search for an empty slot can see.",
  [a(FL,"reserve","rehash","shrink_to_fit","rehash_impl","find_first_empty_slot")])
p("flat16: copies and range insertions have the right elements and work",
  "A copy has the elements of the original, finds them all, and can be used like any map. Insertion of a range and construction from a range or initializer list insert the elements one by one; of equal keys the first wins.",
  "all reachable originals, all ranges, all later histories of the copy",
  "A wrong counter in the copy shows only after as many insertions as the table has room for.",
  [a(FL,"flat16_hash_map(const flat16_hash_map &)","flat16_hash_map(InputIter, InputIter)","insert(InputIter, InputIter)","insert_unique")])
p("flat16: max_load_factor(x) keeps the elements and the map working",
  "max_load_factor(x) keeps all elements; later calls behave as in a map created with that load factor.",
  "all reachable maps and load factors",
  "The counter of free slots is not updated, which shows only when the table fills up.",
  [a(FL,"max_load_factor")])
p("flat16: an insertion that throws changes nothing",
  "If an insertion throws, because memory cannot be allocated or because the constructor of the element throws, the map has the same elements as before and goes on working.",
  "all reachable maps, every point of failure",
  "Requires fault injection at each allocation and constructor in each state.",
  [a(FL,"create_group","emplace_impl")])
p("flat16: group masks report exactly the matching control bytes",
  "For every content of a group of 16 control bytes and every tag, bit i of matchHash, matchEmpty, matchDeleted, matchEmptyOrDeleted, matchUsed, matchUnused is set exactly if byte i has the property; hasAny... and isAll... say whether some or all bytes have it; with and without SSE2.",
  "all 2^128 contents of a group, all tags",
  "The contents cannot be enumerated; the tests run on one instruction set only.",
  [a(FL,"BitMask128_SSE2","BitMask128_u64")])
R16="src/jstd/hashmap/robin16_hash_map.h"
p("robin16: a history of calls answers like an ideal map",
  "From every constructor of robin16_hash_map that takes a capacity, every history of insert, try_emplace, insert_or_assign, operator[], at, find, contains, count, erase, size, empty, reserve, rehash, shrink_to_fit, clear, max_load_factor and iteration is free of undefined behaviour, terminates, and gives the answers of an ideal finite map; after an exception the map is as before.",
  "all histories, keys, values, lawful hash and equality functions (constant hashes included), all control hashes, all answers of the allocator",
  "Robin hood displacement moves many elements in one insertion; whether a key is found depends on all distances in the table, on copies of the first control words and on end marks.",
  [a(R16,"find_impl","find_or_prepare_insert","insert_to_place","erase_slot","rehash_impl")])
p("robin16: insertion adds the element or returns the one that is there",
  "insert(k, v) adds (k, v) if and only if no element has an equal key, otherwise it changes nothing (insert_or_assign replaces the mapped value); the returned iterator points to the element with the key; every other element is still found with its value.",
  "all reachable maps and keys",
  "One insertion can displace a whole cluster and wrap around the table.",
  [a(R16,"emplace_impl","find_or_prepare_insert","insert_to_place")])
p("robin16: erase(k) removes exactly the element with the key",
  "erase(k) removes the element with an equal key and returns 1, or returns 0 if there is none; every other key is found afterwards exactly as before.",
  "all reachable maps and keys",
  "The elements behind the erased slot are shifted back; clusters that wrap around the table occur only for certain hashes.",
  [a(R16,"erase","erase_slot")])
p("robin16: lookups agree with each other and with iteration",
  "find, contains, count and at of a key agree: each reports the one element with an equal key that iteration yields, or none; a lookup reads only memory of the map.",
  "all reachable maps and all keys, present or not",
  "A lookup that leaves the table depends on the control hash of the absent key and on the size of the table.",
  [a(R16,"find_impl","find","contains","count","at")])
p("robin16: clear() empties the map",
  "After clear() or clear(true) the map is empty: size() is 0, no key is found, iteration yields nothing, and the map works like a new one.",
  "all reachable maps",
  "Which control words are left over depends on the capacity and on the positions of the elements.",
  [a(R16,"clear","destroy_group")])
p("robin16: the load stays at one half and growth doubles",
  "With the default load factor size() never exceeds capacity() / 2; the capacity is a power of two; an insertion changes it only by doubling it, and only when the map is exactly half full.",
  "all histories",
  "Growth has two triggers, the load and the displacement limit; the second one depends on the hash values.",
  [a(R16,"need_grow","grow_if_necessary","slot_threshold","rehash_impl")])
p("robin16: an insertion terminates with bounded memory",
  "An insertion into a map with few elements never needs more than a constant multiple of size() slots, whatever the hash values are.",
  "all sets of at most 131 keys, all hash functions",
  "It takes particular hash values: over a hundred keys at one position next to another one.",
  [a(R16,"kDistLimit","insert_to_place","emplace_impl")])
p("robin16: no element is lost when the table grows",
  "An element that was inserted successfully is still in the map after rehash, reserve, shrink_to_fit or the growth by a later insertion.",
  "all reachable maps, all hash functions (constant ones included)",
  "Distances are stored in a byte whose two greatest values have another meaning; it takes 255 equal hashes to reach them.",
  [a(R16,"rehash_impl","find_or_prepare_insert","matchUsed")])
p("robin16: an operation that throws changes nothing",
  "If an insertion, rehash or reserve throws, because memory cannot be allocated or because the constructor of the element throws, the map has the same elements as before and goes on working.",
  "all reachable maps, every point of failure",
  "Requires fault injection at each allocation and constructor in each state.",
  [a(R16,"create_group","emplace_impl","grow_if_necessary")])
p("robin16: max_load_factor(x) bounds the load from then on",
  "max_load_factor(x) keeps all elements, and after it size() does not exceed x * capacity().",
  "all reachable maps and load factors",
  "The threshold is stored separately from the factor; whether it is updated depends on whether the table is rebuilt.",
  [a(R16,"max_load_factor")])
p("robin16: rehash, reserve and shrink_to_fit keep the elements",
  "rehash(n), reserve(n) and shrink_to_fit() terminate, keep all elements, make every element findable, give room for n elements without another rehash, or throw and change nothing.",
  "all reachable maps and all n",
  "Depends on the exact number of elements against the capacity and on wrap-around of n * factor.",
  [a(R16,"reserve","rehash","shrink_to_fit","calc_capacity","rehash_impl")])
p("robin16: ranges are inserted element by element",
  "insert(first, last) and the constructors from a range or an initializer list insert the elements one by one; of equal keys the first wins; if an insertion throws, exactly the elements before it are in the map.",
  "all reachable maps and all ranges",
  "Statement about all ranges, with duplicates in every position.",
  [a(R16,"insert_unique","robin16_hash_map(InputIter, InputIter)","insert(InputIter, InputIter)")])
p("robin16: swap exchanges the maps and a moved-from map is usable",
  "swap(a, b) exchanges contents and sizes, the target of a move has the contents of the source, and the source is an empty map that can be used.",
  "all pairs of reachable maps, all keys",
  "A member forgotten in swap shows only in particular states.",
  [a(R16,"swap","swap_content","robin16_hash_map(robin16_hash_map &&)")])
p("robin16: iteration yields exactly the elements",
  "Iterating from begin() to end() yields every element exactly once, and size() is their number.",
  "all reachable maps",
  "The increment has no test for the end: it relies on a control word behind the last slot being in use.",
  [a(R16,"basic_iterator::operator ++","begin","end")])
p("robin16: group masks report exactly the matching control words",
  "For every content of a group of 16 control words, every control hash and every distance, matchHash, matchEmpty, matchUsed, matchUsedOrEndOf, matchEmptyOrZero, matchEmptyAndDistance and matchHashAndDistance report exactly the positions with the property, and the loops over the masks visit them in ascending order and once; the AVX2 and the AVX-512 version agree.",
  "all 2^256 contents of a group, all hashes and distances",
  "The contents cannot be enumerated; the tests run on one instruction set only.",
  [a(R16,"BitMask256_AVX2","BitMask256_AVX2Ex","map_group")])
M32="src/jstd/system/MT19937_32.h"; M64="src/jstd/system/MT19937_64.h"; LR="src/jstd/system/LibcRand.h"; RG="src/jstd/system/RandomGen.h"
p("Mersenne Twister: the words are computed from the generator's own state by the announced recurrence",
  "Constructing a generator with any seed or non-empty key, seeding it again and drawing any number of words never touches memory outside the generator, and the words are those of the recurrence x[k+n] = x[k+m] ^ twist(x[k], x[k+1]) with the constants announced in the header.",
  "all seeds, keys, clocks and numbers of draws",
  "A read behind the array returns some number and the output looks random; no test compares it with the reference.",
  [a(M32,"next_state","rand","srand","init_keys"),a(M64,"next_state","mixbits","rand")])
p("Mersenne Twister: srand(s) restarts the sequence of a new generator with seed s",
  "After srand(s), whatever was drawn before, the generator returns the same words as a new generator constructed with seed s; every word of the type can be returned, by exactly one word of the state.",
  "all seeds, generator states and numbers of draws",
  "The sequences agree in the first N - 1 words; tests look at fewer.",
  [a(M32,"srand","rand"),a(M64,"srand","rand")])
p("Random integers lie in the range asked for",
  "nextInt32(a, b), nextUInt32(a, b), nextInt64(a, b), nextUInt64(a, b), and nextInt(max) return a number between the bounds, in whichever order they are given, and each number of the range is hit by the same number of words up to one.",
  "all bounds and all words drawn",
  "The failures are at the extreme bounds, where the number of values overflows.",
  [a(RG,"nextInteger","nextInt","nextInt32","nextUInt64")])
p("C library words: every 32-bit word comes from equally many library values",
  "LibcRand::rand32 and rand64 return every word equally often if the values of rand() are uniform and independent.",
  "all values of RAND_MAX the code distinguishes, all words",
  "A bias of single bits needs statistics; the platforms differ in RAND_MAX.",
  [a(LR,"rand32","rand64")])
p("nextDouble53 is uniform on [0, 1)",
  "nextDouble53() returns k / 2^53 with 0 <= k < 2^53, and each k comes from equally many pairs of 32-bit words.",
  "all pairs of words",
  "2^64 pairs cannot be enumerated; the value 1 would appear with probability 2^-53.",
  [a(RG,"nextDouble53")])
p("robin, indirect layout: the map behaves as a finite map over every history",
  "robin_hash_map with the indirect layout (the one chosen for std::string keys): every call of every finite history of insert, insert_or_assign, operator[], erase, find, contains, count, at, clear, reserve, rehash, shrink_to_fit, max_load_factor and iteration is answered as by an ideal finite map.",
  "all hash functions consistent with key equality, all histories of any length",
  "Control words and elements are separate arrays linked by indices; a wrong link shows only for particular collisions followed by an erase or a rehash.",
  [a(RB,"indirect_find","indirect_find_and_insert","indirect_insert_to_place","indirect_erase_slot","rehash_impl")])
p("robin, indirect layout: the order of iteration is determined by the calls",
  "Iteration visits the elements in the order of insertion; an assignment keeps the place, an erasure puts the last element into the place of the erased one, and growth, reserve, rehash and shrink_to_fit keep the order. The order does not depend on hashes or capacities.",
  "all hash functions, all histories",
  "Every rehash has to process the elements in order and every erase has to relink exactly one control word.",
  [a(RB,"begin","end","indirect_insert_no_grow","indirect_erase_slot")])
p("robin, indirect layout: find(k) equals end() exactly for missing keys",
  "For every map and key, find(k) == end() if no element has the key, otherwise it refers to the element with the key; contains and at agree with it.",
  "all reachable maps, all keys",
  "The tests run the layout without this comparison of pointers into one array.",
  [a(RB,"find","end","last_slot","contains","at")])
p("robin, indirect layout: erase removes one element and keeps the others",
  "erase(k) of a present key answers 1, removes exactly this element; every other key keeps its value, and every element but the last keeps its address.",
  "all reachable maps, all keys",
  "The control word of the moved last element must be found among all control words of its cluster.",
  [a(RB,"erase","indirect_erase_slot","find_ctrl")])
p("robin, indirect layout: a copy equals the original",
  "Copy construction and copy assignment give a map with the same elements or throw std::bad_alloc.",
  "all reachable maps",
  "Depends on comparing whole 64-bit control words instead of their low bytes.",
  [a(RB,"robin_hash_map(const robin_hash_map &)","unique_insert","unique_find_and_insert")])
p("robin, indirect layout: swap and move transfer the contents",
  "After swap, move construction and move assignment the target has the elements of the source and behaves as an ideal map with these contents; the source is usable.",
  "all reachable maps, all later histories",
  "A member that is not exchanged shows only in particular calls later.",
  [a(RB,"swap_content","robin_hash_map(robin_hash_map &&)","move_assign")])
p("group15, group16: arguments may refer to elements of the map",
  "insert_or_assign(k, r), emplace(k, r), try_emplace(k, r) where r is a reference to a mapped value stored in the same map has the effect of the call with a copy of that value.",
  "all reachable maps, all elements referred to, all keys",
  "The difference shows only if the call reallocates, and then only as a read of freed memory.",
  [a(T15,"emplace_impl","try_emplace_impl","rehash_impl"),a(T16,"emplace_impl","try_emplace_impl","rehash_impl")])
p("group15, group16: references stay valid while capacity() is unchanged",
  "A call that does not change capacity(), other than clear(), leaves every element it does not remove or overwrite at its address, unchanged; insert_or_assign of a present key writes to the address of the element.",
  "all reachable maps, all calls, all elements",
  "Needs every state in which elements could be relocated; a test holds a few references.",
  [a(T15,"emplace_impl","erase_slot","rehash_impl"),a(T16,"emplace_impl","erase_slot","rehash_impl")])
p("flat16: arguments may refer to elements, references stay valid while capacity() is unchanged",
  "insert_or_assign(k, r), emplace(k, r), try_emplace(k, r) with a reference r into the map act as with a copy; a call that returns and does not change capacity() keeps every element it does not remove or overwrite at its address.",
  "all reachable maps, all calls, all elements",
  "As for group15.",
  [a(FL,"emplace_impl","insert_or_assign","try_emplace","rehash_impl","erase_slot")])
p("Mersenne Twister: the words are those of the published generators",
  "MT19937_32(seed) and MT19937_64(seed) deliver the sequences of the published mt19937 and mt19937_64 with the same seed (seed 0: the time).",
  "all seeds, all positions of the sequence",
  "Only printed values are looked at; a wrong seeding or recurrence still looks random.",
  [a(M32,"MT19937_32","init"),a(M64,"MT19937_64","init")])
p("robin: load_factor() stays at or below max_load_factor(), growth doubles",
  "After every call load_factor() is at most max_load_factor(); inserting a new key keeps capacity() while that holds and doubles it otherwise (both layouts).",
  "all hash functions with room, all histories, all load factors",
  "The load after a rarely used call or a changed load factor is not checked by any test.",
  [a(RB,"grow_if_necessary","find_and_insert","rehash_impl","max_load_factor","rehash","shrink_to_fit")])
p("robin: arguments may refer to elements of the map, references stay valid while capacity() is unchanged",
  "emplace(k, r), try_emplace(k, r), insert_or_assign(k, r) with a reference r to a mapped value stored in the same map act as with a copy of that value; a call that returns and does not change capacity() keeps every element it does not remove or overwrite at its address (direct layout).",
  "all reachable maps, all calls, all elements referred to, all keys",
  "A wrong value appears only if the insertion displaces exactly the element referred to.",
  [a(RB,"emplace_impl","try_emplace_impl","insert_to_place","rehash_impl","erase_slot")])
p("robin, indirect layout: arguments may refer to elements of the map, references stay valid while capacity() is unchanged",
  "emplace(k, r), try_emplace(k, r), insert_or_assign(k, r) with a reference r to a mapped value stored in the same map act as with a copy of that value; a call that returns and does not change capacity() keeps every element it does not remove or overwrite at its address.",
  "all reachable maps, all calls, all elements referred to, all keys",
  "The difference shows only if the call reallocates, or for references to the last element after an erase.",
  [a(RB,"emplace_impl","try_emplace_impl","find_or_insert","rehash_impl","indirect_erase_slot")])
p("robin16: arguments may refer to elements of the map, references stay valid while capacity() is unchanged",
  "emplace(k, r), try_emplace(k, r), insert_or_assign(k, r) with a reference r to a mapped value stored in the same map act as with a copy of that value; a call that returns and does not change capacity() keeps every element it does not remove or overwrite at its address.",
  "all reachable maps, all calls, all elements referred to, all keys",
  "A wrong value appears only if the insertion displaces exactly the element referred to.",
  [a(R16,"emplace_impl","insert_to_place","rehash_impl","erase_slot")])
p("robin: insertion, construction and erasure of ranges",
  "insert(first, last), insert(initializer_list) act as single insertions in order (the first of equal keys stays); the constructors from a range or an initializer list give a map with exactly the first element of every key; erase(first, last) over keys removes exactly the elements with these keys and returns their number; an exception during an insertion leaves the elements inserted before (both layouts).",
  "all histories, all ranges with repeated and present keys, all allocation failures, all hash functions with room",
  "Tests insert ranges without repetition and never let an allocation fail in the middle.",
  [a(RB,"insert","insert_range","erase","robin_hash_map","reserve_for_insert")])
p("flat16, robin16, robin: equal_range",
  "equal_range(k) is a pair of iterators [first, last) with exactly the element whose key equals k, or an empty range if there is none; iterating over it is defined.",
  "all reachable maps of the three classes, both robin layouts, all keys",
  "equal_range is not called by any test; the absent key in the indirect layout is undefined without a visible failure.",
  [a(RB,"equal_range","find"),a(FL,"equal_range","find"),a(R16,"equal_range","find")])
p("robin: iterators can be decremented",
  "Decrementing from end() down to begin() visits the elements in the opposite order of incrementing; --(++it) == it for every iterator that can be incremented (both layouts).",
  "all histories, all positions",
  "operator -- is not used by the library or the tests.",
  [a(RB,"begin","end","basic_iterator")])
p("flat16: erase(const_iterator), erasing while iterating",
  "erase(it) with a const_iterator removes exactly *it and returns an iterator from which iteration goes on with the elements that followed; the loop `it = p(*it) ? m.erase(it) : ++it` visits every element once and removes exactly those with p.",
  "all states of histories of insertions, erasures, lookups, rehashes, all positions, all predicates",
  "Tests erase by key only; the loop is sensitive to the byte behind the last slot, which erase rewrites.",
  [a(FL,"erase","erase_slot","index_of","setUnusedMirrorCtrl")])
p("robin: the vector code of the groups agrees with the control words",
  "The masks of a group (used, unused, empty, not empty, hash, distance) have exactly the bits of the control words with that property; begin() computed group by group is the first used slot, a rehash computed group by group moves every used slot once, in ascending order; clear() writes the whole control block, nothing behind it, and leaves only empty words and end marks.",
  "all contents of the control block, all capacities, both control word sizes of the direct layout, AVX2 and AVX512 code",
  "Only the instruction set of the test machine runs, and wrong bits for end marks are hidden by the order of the slots.",
  [a(RB,"BitMask256_AVX","group_mask","begin","rehash_impl","clear_ctrls")])
p("group15, group16: every element is destroyed once, every block given back",
  "From construction to destruction of a map every element object that is constructed is destroyed exactly once, never constructed over a live one or outside its block; every memory block obtained from the allocator is given back exactly once, with the count it was requested with, and only when no element is alive in it. At any time exactly size() element objects are alive. An exception (bad_alloc, element constructor) does not change this.",
  "all histories of public calls, all answers of the allocator, all element sizes from 1 to 256 bytes",
  "Leaks and double destructions after a failed allocation or a throwing constructor need fault injection at every single request; the tests use trivially destructible elements.",
  [a(T15,"create_slots","rehash_impl","destroy","clear_slots","erase_slot"),a(T16,"create_slots","rehash_impl","destroy","clear_slots","erase_slot")])
S1="src/jstd/hasher/sha1.h"
p("sha1_x86: the compression function of SHA-1 over the string",
  "sha1_x86(state, data, length) reads exactly the length bytes, leaves the state unchanged and returns the exclusive or of the first two words that FIPS 180-4's compression function gives when it is iterated over the bytes (last block filled up with zeros); over a message padded by the caller these are the first words of its SHA-1 digest.",
  "all 16-byte aligned states, all messages and lengths",
  "Needs the SHA instructions, which the test configuration switches off; a wrong register in one of the twenty paragraphs still gives a value that looks random.",
  [a(S1,"sha1_x86","s_sha1_state")])
p("sha1_msg2: a function of the string, reads only the string",
  "sha1_msg2(data, length) reads no byte outside [data, data + length) and returns the same value for equal strings wherever they lie (64-bit and 32-bit version); the empty string gives 0.",
  "all strings, all lengths, all contents of the memory behind",
  "An over-read shows only at the end of a mapped page; the masks for the sixteen possible remainders are not tried.",
  [a(S1,"sha1_msg2","sha1_msg2_x64","sha1_msg2_x86")])
p("robin: every element is destroyed once, every block given back",
  "From construction to destruction of a map every element object that is constructed is destroyed exactly once, never constructed over a live one or outside its block, whatever way insert_to_place exchanges elements; every memory block obtained from the allocator is given back exactly once, with the count it was requested with, and only when no element is alive in it. At any time exactly size() element objects are alive (direct layout).",
  "all histories of public calls, all three ways of exchanging elements, all hash functions, all answers of the allocator",
  "The tests use trivially destructible elements; the exits of insert_to_place with kNeedGrow need crowded hashes, the failed requests fault injection.",
  [a(RB,"insert_to_place","construct_empty_slot","destroy_empty_slot","create_slots","rehash_impl","destroy_data","clear_slots","erase_slot","clear")])
p("flat16: every element is destroyed once, every block given back",
  "From construction to destruction of a map every element object that is constructed is destroyed exactly once, never constructed over a live one or outside its block; the blocks of the slots and of the control groups are given back exactly once, with the count they were requested with, and the slots only when no element is alive in them. At any time exactly size() element objects are alive. An exception (bad_alloc, element constructor) does not change this.",
  "all histories of public calls, all hash functions, all answers of the allocator",
  "The tests use trivially destructible elements, which skip every destructor call; failed requests need fault injection at each of the two allocations.",
  [a(FL,"create_group","rehash_impl","destroy","destroy_slots","destroy_group","erase_slot","clear","emplace_impl")])
p("group15: copies and moves construct and destroy each element once",
  "A copied map owns one new element for each element of the source and one block; nothing is shared, so source and copy can be used and destroyed in any order and nothing is leaked or destroyed twice. Copy assignment destroys the old elements and frees their block; moving to another allocator constructs each element in the new block, destroys it in the old one and frees the old block. If memory runs out nothing has happened.",
  "for all reachable source and target maps, all lawful hash/equality functions, all element sizes up to 256 bytes, all allocator outcomes, all further histories of the source and all interleavings of the two objects",
  "A test with a counting element type covers a few sizes; that no interleaving of two objects and no capacity relation leaks or double-destroys is a statement about all histories.",
  [a(T15,"group15_flat_table","copy_slots_from","copy_slots_array_from","move_slots_from","move_slots_array_from","move_unique_insert")])
p("load_factor() and max_load_factor() as floats",
  "max_load_factor(x) accepts every float that is a number: max_load_factor() afterwards is x brought into the limits of the map, up to one unit of the stored fraction; load_factor() is size() divided by the number of slots, correctly rounded up to a few units in the last place, lies between 0 and 1 and does not exceed max_load_factor().",
  "all 2^32 float arguments including subnormal numbers and infinities, all sizes and capacities, all histories of the stated calls, all five maps",
  "A test tries a few decimal fractions; rounding at capacities above 2^24 and the truncations in the conversions show only for particular values.",
  [a(T15,"load_factor","max_load_factor","calc_slot_threshold"),a(T16,"load_factor","max_load_factor"),a(RB,"load_factor","max_load_factor","slot_capacity"),a(FL,"load_factor","max_load_factor"),a(R16,"load_factor","max_load_factor")])
p("robin, flat16, robin16: reserve(n) makes n elements fit without reallocation",
  "After reserve(n) with n not below size(), insertions, erasures and lookups that keep the number of elements at or below n succeed without another request to the allocator: capacity() stays, iterators into the map are not invalidated by growth, and no bad_alloc can leave the calls.",
  "all histories before and after the reserve, all n, all hash functions within the limits of the maps, all answers of the allocator, robin with both layouts",
  "Tests reserve once in an empty map and never refuse memory afterwards; blocks kept from an earlier growth, tombstones and other load factors are not combined with reserve.",
  [a(RB,"reserve","rehash","min_require_capacity","rehash_impl","create_slots","find_or_insert"),a(FL,"reserve","rehash","min_require_capacity","rehash_impl","find_and_prepare_insert"),a(R16,"reserve","rehash","min_require_capacity","rehash_impl","find_or_prepare_insert")])
p("robin16: every element is destroyed once, every block given back",
  "From construction to destruction of a map every element object that is constructed is destroyed exactly once, never constructed over a live one or outside its block, also while insert_to_place carries elements through its buffers and erase shifts them back; the blocks of the slots and of the control groups are given back exactly once, with the count they were requested with, and the slots only when no element is alive in them. At any time exactly size() element objects are alive. An exception (bad_alloc, element constructor) does not change this.",
  "all histories of public calls, both ways of exchanging elements, all hash functions, all answers of the allocator",
  "The tests use trivially destructible elements, which skip every destructor call; chains of displaced elements need crowded hashes, failed requests fault injection at each of the two allocations.",
  [a(R16,"create_group","rehash_impl","destroy","destroy_slots","destroy_group","insert_to_place","emplace_rich_slot","swap_slot","transfer_slot","erase_slot","clear","emplace_impl")])
p("sprintf_no_prepare and sprintf_calc_space of the formatter",
  "basic_formatter::sprintf_no_prepare(str, fmt, args...) appends to str the text of fmt with every specifier replaced by the representation of the argument that belongs to it and %% by %, and returns the number of characters appended; a specifier without an argument is an exception. sprintf_calc_space(fmt, args...) announces exactly the number of characters that sprintf_no_prepare appends.",
  "all strings, all formats, all arguments of integral and floating point types, any number of them",
  "The header is included by no test; a test of a printf replacement tries a few formats, and the least int, escaped percent signs and missing arguments are easily left out.",
  [a(FM,"sprintf_no_prepare","sprintf_calc_space","sprintf_no_prepare_impl","sprintf_calc_space_impl","sprintf_handle_specifier","sprintf_calc_space_handle_specifier")])
p("sprintf and sprintf_direct of the formatter",
  "basic_formatter::sprintf(str, fmt, args...) and sprintf_direct(str, fmt, args...), which compute the size first, append the same text as sprintf_no_prepare and return the same number.",
  "all strings, all formats, all arguments of integral and floating point types, any amount of memory",
  "That one of the functions never returns normally is seen at the first call, that the other loses text after %% or before a final % only for such formats.",
  [a(FM,"sprintf","sprintf_direct","sprintf_prepare_space_impl","sprintf_direct_output_impl","sprintf_prepare_output_impl","itoa"),a("src/jstd/string/string_view.h","append","push_back_impl","commit","write_null")])
p("flat16: copies and maps made from ranges construct and destroy each element once",
  "The copy constructor makes one new element for each element of the source in blocks of its own and nothing else; the constructors from a range or an initializer list make one element for each key. The destructor of the new map leaves nothing. If memory runs out or an element cannot be constructed, the constructor throws and nothing has happened: every block is given back and every element constructed is destroyed.",
  "all source maps and ranges, all hash functions, all answers of the allocator, every element constructor that may throw",
  "Tests copy trivially destructible elements and never make a constructor throw; which element throws, and whether its copy or its move constructor does, must all be tried.",
  [a(FL,"flat16_hash_map","insert_unique","insert","destroy","create_group")])
p("Any number of maps: no element or block is shared, lost or given back twice",
  "In a program that constructs, copies, copy-assigns, moves, move-assigns, swaps, uses and destroys any number of maps in any order, every block is given back exactly once with the count it was requested with and every element is constructed and destroyed exactly once; at any time the elements alive are exactly those of the maps that exist; when all maps are destroyed nothing is left. A moved-from map can be destroyed and assigned to, of the group maps also used.",
  "all programs with any number of map objects, all hash functions, all answers of the allocator to calls",
  "Ownership errors show in particular orders of copies, moves, swaps and destructors with particular contents; tests use one or two maps at a time.",
  [a(FL,"flat16_hash_map","swap","destroy"),a(T15,"group15_flat_table","swap_impl","move_assign","destroy"),a(T16,"group16_flat_table","destroy"),a(R16,"robin16_hash_map","swap","destroy")])
p("robin, indirect layout: every element is destroyed once, every block given back",
  "For elements that are stored apart from the control words: from construction to destruction of a map every element object that is constructed is destroyed exactly once, never constructed over a live one or outside its block, also when erase moves the last element into the gap and when growth moves all elements; the blocks of the slots and of the control words are given back exactly once, with the counts they were requested with, and the slots only when no element is alive in them. At any time exactly size() element objects are alive. An exception of an element constructor or of the allocator loses nothing and leaves a map that can be used and destroyed; a constructor from a range that throws leaves nothing behind.",
  "all histories of public calls, all hash and equality functions, all contents, all answers of the allocator, every element constructor that may throw",
  "The layout is chosen only for element types the tests do not use; throwing constructors and failed requests at each of the two allocations need fault injection.",
  [a(RB,"create_slots","rehash_impl","destroy_data","clear_slots","clear","indirect_find_and_insert","indirect_insert_no_grow","indirect_erase_slot","emplace_impl","robin_hash_map")])
p("Memory goes back to the allocator it came from",
  "With allocators that are not all equal: every block a map obtains is given back to an allocator equal to the one it was obtained from, whatever copies, moves, assignments and swaps happened in between, and elements are constructed and destroyed through an equal allocator; and after each of these operations get_allocator() is what the propagation traits of the allocator say: assignment takes the allocator of the source if the trait for that kind of assignment holds and keeps the own one otherwise, swap exchanges them if the trait for swap holds, a copy has the one that select_on_container_copy_construction gives, and a constructor with an allocator argument has that one.",
  "all programs with any number of maps, all allocator types, all combinations of the propagation traits, all contents",
  "The tests use std::allocator, of which all objects are equal.",
  [a(T15,"group15_flat_table","move_assign","swap_content","swap_policy","swap_impl","create_slots","destroy_slots","get_allocator")])
p("A copy uses the hash function and the comparison of its source",
  "For hash functions and comparisons whose objects have a state: a copy constructed from a map has the function objects of the source, so that find, contains, count and at give the same answer for every key in both, iterating the copy yields no two keys that its own comparison takes for equal, and later operations on the copy use these functions.",
  "all maps, all states of the hash and comparison objects, all keys",
  "The tests use function objects without state, for which a default constructed one is as good as a copy.",
  [a(FL,"flat16_hash_map"), a(T15,"group15_flat_table")])
p("An element constructor that throws while the map grows loses nothing",
  "When the map moves its elements to new storage (insertion that grows, rehash, reserve, shrink_to_fit, max_load_factor) and the move or copy constructor of an element throws, the call throws and the map is usable: it still has every element that was not moved, lookups are defined, and the destructor destroys every element exactly once and returns every block.",
  "all histories, all calls that replace the storage, all numbers of the construction that throws",
  "No test has an element type whose move constructor throws; which element is affected depends on when the map grows.",
  [a(T15,"rehash_impl"), a(T16,"rehash_impl"), a(FL,"rehash_impl"), a(R16,"rehash_impl"), a(RB,"rehash_impl","insert_no_grow")])
p("Classic string hashes use the whole string",
  "DJBHash, APHash, OpenSSL_Hash, rocksdb::hashes::Hash and msvc_fnv_1a read exactly the characters of the string, are the published functions, and give different hashes to two strings that differ in exactly one character.",
  "all strings of all lengths, all character widths, all seeds",
  "Tests hash a few strings of plain char and compare nothing with a reference; a character that is skipped only shows as bad performance.",
  [a(HS,"DJBHash","APHash","OpenSSL_Hash","Hash","msvc_fnv_1a")])
p("FNV1A variants use the whole string",
  "FNV1A_Yoshimura, FNV1A_Yoshimitsu_TRIADii_xmm and FNV1A_penumbra read exactly the bytes of the string, and two strings that differ in exactly one byte have different hashes.",
  "all strings of all lengths, with and without vector code, for both lane widths of the vector multiplication",
  "Bytes that never reach the hash are invisible unless a test compares strings that differ exactly there; long strings are not hashed by the tests.",
  [a(FN,"FNV1A_Yoshimura","FNV1A_Yoshimitsu_TRIADii_xmm","FNV1A_penumbra","_rotl_twise128")])
p("primaryHash does not depend on where the key is",
  "HashUtils<T>::primaryHash, primaryHash_new and primaryHash_old give equal keys equal hashes, wherever the keys are in memory and whatever bytes surround them, and every byte of the key matters; on processors other than x86 too.",
  "all keys of all lengths, all seeds, all addresses (aligned or not), all surrounding bytes, 32-bit and 64-bit hash types",
  "The code for unaligned keys is compiled on other processors only, and a test would have to put equal keys at different addresses behind different bytes.",
  [a(HS,"primaryHash","primaryHash_new","primaryHash_old","primaryHash_unaligned","decode_value","decodeValue","value")])
BV="src/jstd/support/BitVec.h"
p("Lanes of vector registers",
  "The vector helpers touch exactly the lane they are asked for: mm256_extract_epi16/32/64<index> return lane index, mm256_insert_epi16/32/64<index> replace lane index by the value and leave every other lane, with AVX as with AVX2; mm_set1_epi32/64 fill every lane, the functions for the low and the high word of the low 32 bits return that word, and the fixed byte comparisons compare signed bytes whether char is signed or not.",
  "all registers, all values, all indices, both instruction sets, both kinds of char, every content of the half a cast leaves undefined",
  "The repository tests none of them; each index is its own instantiation and each instruction set its own build, and the undefined half is usually zero.",
  [a(BV,"mm256_extract_epi16","mm256_insert_epi16","mm256_extract_epi32","mm256_insert_epi32","mm256_extract_epi64","mm256_insert_epi64","mm256_cvtsi256_si32_high","_mm_cmplt_epi8_fixed","_mm_cmpgt_epi8_fixed")])
p("Random floating point numbers stay in their range",
  "BasicRandomGenerator::nextFloat() and nextDouble() return numbers between 0 and 1, nextDouble53() numbers from 0 up to but not 1, and nextFloat(min, max), nextDouble(min, max), nextDouble53(min, max) return numbers between the smaller and the greater of their finite arguments.",
  "all words of the generator, all finite arguments of either order (normal and subnormal), with and without contraction of the product and the sum into one rounding",
  "What breaks the range is rounding for few of the words and few of the arguments; a random test of a few ranges practically never meets it.",
  [a(RG,"nextFloat","nextDouble","nextDouble53")])
p("Inserting calls leave the caller's variables alone",
  "insert, emplace, emplace_hint, try_emplace, insert_or_assign and operator [] of every map do not change the objects their caller passes as lvalues (variables, elements of a range), whether they return or throw. Keys and values passed as rvalues are consumed only when the call reports a new element (the value of insert_or_assign also when it replaces one).",
  "all keys, values, maps and hash functions; every effect a move can have on its source; lvalues and rvalues, const and not const, of the element type or converted; ranges of every length; allocations that fail",
  "Tests pass temporaries or integers, for which a move and a copy cannot be told apart; the variable is looked at again only in user code.",
  [a(T15,"emplace_impl"),a(M15,"insert","emplace"),a(FL,"insert_or_assign","emplace_impl"),a(RB,"insert_or_assign","emplace_impl","try_emplace"),a(R16,"insert_or_assign","emplace_impl")])
p("A copy of a random generator is a generator of its own",
  "After copying or assigning an MT19937_32 or MT19937_64 object, the copy returns the words its source would have returned from there on, and nothing that is done to one of the two (drawing words, srand, destruction) changes what the other returns.",
  "all programs that construct, copy, assign, use, seed and destroy any number of generators; both widths; all seeds",
  "The benchmarks use one static generator and copy none; the words of a copy look as random as the right ones, and memory of a destroyed object usually still holds its words.",
  [a(M32,"MT19937_32","rand","srand","next_state"),a(M64,"MT19937_64","rand","srand","next_state")])
p("Appending through a string_view",
  "append(data, count), append(first, last), append(count, ch) and push_back(ch) of basic_string_view, given writable memory for the characters and a terminator behind the viewed text, make the view the old text followed by the given characters, write a terminator behind it and change no other memory. The characters added are those the source held before the call.",
  "all memory contents, views, sources and counts; narrow and wide characters; sources inside and outside the viewed text",
  "The functions are used by the formatter on fresh buffers only; a source that overlaps the end of the text gives plausible text.",
  [a("src/jstd/string/string_view.h","append","push_back","push_back_impl","write_last","write_null")])
p("A text cut by string_view_helper is restored",
  "Between truncate() and recover(), detach() or the destruction of a string_view_helper the attached text is followed by a terminator, and when no helper has cut a text any more, the memory is what it was before.",
  "all programs that construct, copy, move, swap, attach, truncate, recover, detach and destroy any number of helpers over any texts, overlapping or not",
  "One helper at a time always works; two texts that end at the same place or a copied helper do damage that shows only in the text after the calls.",
  [a("src/jstd/string/string_helper.h","basic_string_helper","attach","detach","truncate","recover","swap")])
p("Ranges that can be read only once",
  "insert(first, last) and the constructors from a range insert every element that the iterators yield (of equal keys the first one) also when the iterators allow a single pass only, as those of a stream do.",
  "all streams, capacities and earlier contents; flat16, robin16, robin (both layouts), group15, group16",
  "Tests use pointers and container iterators, for which counting the range first does no harm.",
  [a(RB,"robin_hash_map","insert"),a(R16,"robin16_hash_map","insert"),a(FL,"flat16_hash_map","insert"),a(M15,"insert"),a(M16,"insert"),a("src/jstd/iterator.h","distance")])
p("The bucket interface: bucket numbers exist, bucket_size counts",
  "The bucket number of a key that is in the map is below bucket_count(), and bucket_size(n) is the number of elements whose key has bucket number n.",
  "all contents and capacities; flat16, robin16, robin (both layouts), group16",
  "A test of a small map gets bucket numbers that exist; larger maps, or maps with a gap, give numbers beyond the last bucket.",
  [a(FL,"flat16_hash_map","bucket"),a(R16,"robin16_hash_map","bucket"),a(RB,"robin_hash_map","bucket"),a(T16,"group16_flat_table","bucket")])
p("string_view_array owns its elements",
  "An array of string views behaves like an array of its elements under construction, moves, swap, push_back, pop_back, clear, resize, operator[] and at; and when all arrays are destroyed every element that was pushed has been deleted exactly once.",
  "all programs over any number of arrays",
  "Leaks are not visible in the results of a test, and pointers pushed twice only fail when the arrays are destroyed.",
  [a("src/jstd/string/string_view_array.h","string_view_array","destroy","push_back","clear","resize")])
p("Walking backwards, exchanging values and ranges",
  "Reverse iterators of an array behave like pointers into the reversed array; swap exchanges two variables or two arrays and changes nothing else; swap_ranges exchanges two ranges that do not overlap and returns the end of the second.",
  "all arrays, positions, offsets and ranges; all behaviours of moved-from values; with and without assertions",
  "Tests of single positions miss the arithmetic at the ends; a release build does not evaluate the assertion that fails.",
  [a("src/jstd/iterator.h","reverse_iterator","rbegin","rend"),a("src/jstd/memory/swap.h","swap","swap_ranges")])
p("Floating point numbers compared up to the last bits",
  "float32_is_equal and float64_is_equal accept pairs that are at most two units in the last place apart: the comparison is symmetric, reflexive but for NaN, accepts neighbours, and accepts no pair that is further apart.",
  "all bit patterns, float and double",
  "There are 2^64 pairs of floats; pairs tried by hand that differ in an even last bit are accepted.",
  [a("src/jstd/test/FloatEpsinon.h","float32_is_equal","float64_is_equal")])
p("Sizes and addresses are rounded up to the next multiple of the alignment",
  "For an alignment that is a power of two, align_to and pointer_align_to return the least multiple of it that is not below the argument, check_alignment tells exactly whether an address is a multiple, and an aligned address is left as it is; with assertions other alignments abort.",
  "all 64-bit sizes, addresses and alignments, with and without assertions",
  "Tests round a few small sizes; the values next to 2^64 are not among them.",
  [a("src/jstd/utility/utility.h","check_alignment","align_to","pointer_align_to")])
p("The stop watch shows the time between start and stop",
  "getElapsedSecond, getElapsedMillisec, getElapsedMicrosec and getElapsedNanosec show the time between the last start and the last stop in the unit they are named after, the peek functions the time since the last start, timestamps differ by the time that has passed; a time shown is not negative.",
  "all histories of start, stop, restart and reset with any pauses between them, for the three clocks",
  "Benchmarks always start, stop and read in this order, and only with the std::chrono clock.",
  [a("src/jstd/test/StopWatch.h","StopWatchBase","clockStopWatchImpl","defaultStopWatchImpl","StdStopWatchImpl")])
p("Copying characters writes exactly the characters asked for",
  "mem_copy copies count characters and changes nothing else, str_copy copies a string up to its terminator or count characters; for all character types alike, whatever the destination contains before.",
  "all contents of the memory, positions and counts, all character types",
  "Tests copy char into fresh buffers with room behind them; the overload for wchar_t and the generic one are not called.",
  [a("src/jstd/string/string_utils.h","mem_copy","str_copy")])
p("Iterators step by exactly the offset asked for",
  "advance, next and prev move an iterator by the given number of positions and distance counts them, for every iterator category; next and prev undo each other. Iterators of string views are the positions of the string in order: arithmetic, subscripts, differences and comparisons agree, a loop from begin() to end() sees every character once, and it++ returns the old position.",
  "all sequences, positions and offsets, all iterator categories, all strings",
  "Tests step pointers a few places forwards; negative offsets, the slower categories and the values of postfix operators are not looked at.",
  [a("src/jstd/iterator.h","iterator_utils"), a("src/jstd/string/string_iterator.h","const_string_iterator","string_iterator")])
p("Comparisons of strings given by pointers follow their characters",
  "The comparison functions of jstd::libc and jstd::stl say that two strings, terminated or given with their lengths, are equal exactly when they have the same characters, and order them lexicographically; the result does not depend on the character type, on what follows the strings, or on the namespace chosen.",
  "all strings, lengths and character types, pointers null or not",
  "Tests compare short ASCII strings without zeros through one of the modes; wide characters, characters above 127 and zeros inside strings are not compared.",
  [a("src/jstd/string/string_libc.h","StrEqual","StrCmp"), a("src/jstd/string/string_stl.h","StrEqual","StrCmp")])
p("hash_helper gives equal keys equal hash codes",
  "hash_helper::getHashCode depends on the value of the key only: equal integers, floating-point numbers and pointers have equal hash codes, at all times, and the same text has the same hash code however it is given; no key is undefined.",
  "all integers, floating-point numbers, pointers and texts, all three hash functions",
  "Tests hash texts and integers; the two zeros, pointers whose target changes, short targets and the empty text are not tried.",
  [a("src/jstd/hasher/hash_helper.h","hash_helper")])
p("HashMapAnalyzer reports the distribution of the elements",
  "start_analyse reports false for an empty container only; otherwise the used, conflicting and perfect buckets are those that contain some, several and exactly one element, no usage rate is above 100 percent, used and unused rates add up to 100 percent, and max_bucket_count is the size of a largest bucket.",
  "all containers, all sizes of the buckets",
  "The analysis is printed by benchmarks and compared with nothing; containers whose bucket_size is a constant are not tried.",
  [a("src/jstd/hashmap/hashmap_analyzer.h","HashMapAnalyzer")])
p("Clock and sleep functions keep their units",
  "jmc_get_nanosec, jmc_get_millisec, jmc_get_second and jmc_get_millisecf return the time in the unit of their name; the elapsed and interval functions return the time between two readings of the clock, integers being rounded down; thread_sleep and thread_wsleep wait for the milliseconds they are given and return.",
  "all times from 1970 to 2242, all durations, Linux and other Unix systems",
  "Tests measure short intervals on Linux; other systems and sleeps of more than an hour are not tried.",
  [a("src/jstd/system/time.h","jmc_get_elapsedtime_ms"), a("src/jstd/system/sleep.h","thread_sleep")])
out = os.path.join(os.path.dirname(os.path.dirname(os.path.abspath(__file__))), "properties.jsonl")
with open(out,"w") as f:
    for x in P: f.write(json.dumps(x)+"\n")
print(len(P))
