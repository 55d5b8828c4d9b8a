# Formal model of jstd_hashmap: design

The model is a set of total, computable Lean 4 functions in `lean/Verif/` that follow the C++ text of
`/repo/src/jstd` function by function.  Every definition of the model cites the file and lines it transcribes.
Abbreviations in the citations: T15/T16 = `hashmap/group15_flat_table.hpp` / `group16_flat_table.hpp`,
M15/M16 = the two `*_flat_map.hpp`, F15 = `flat_map_iterator15.hpp`, F = `flat_map_iterator.hpp`,
RH = `hashmap/robin_hash_map.h`, FL = `hashmap/flat16_hash_map.h`, R16 = `hashmap/robin16_hash_map.h`; the files on hashes and strings list theirs at the top.

## Map of the files

| file | contents |
|------|----------|
| `Basic` | outcomes, word size, masks, `bsf`, `clearLowBit`, bit scan loop |
| `Prober` | `group_quadratic_prober.hpp` |
| `Layout`, `HashTables`, `Simd` | 16-byte control groups of group15 and group16: bytewise functions, the literal hash tables, the SSE2 versions and their equality |
| `Table` | the table, generic in the group layout: find, emplace, grow, erase, clear, reserve, rehash, shrink_to_fit, load factor, constructors |
| `Iter` | iterators and range-for loops of both tables |
| `Copy` | copy/move construction and assignment, swap, range insertion (group15) |
| `Range16` | swap, range insertion, erasure of a key range (group16) |
| `Alloc` | byte counts, alignment and placement of the memory blocks |
| `Lifetime` | the tables with a log of allocations, constructions, destructions, and a heap that judges the log, with C118 |
| `CopyLife` | copying and moving group15 maps with the same log, several objects in one program, with C123 |
| `RobinLife`, `RobinThrow` | robin (direct layout) with the same log, with C121 |
| `RobIndLife` | robin (indirect layout) with the same log, with C131 |
| `FlatLife` | flat16 with the same log, with C122 |
| `FlatCopyLife` | copies, ranges, moves and swaps of flat16 with the same log, with C129 |
| `Owners`, `GroupOwners`, `Rob16Owners` | programs with any number of maps, for flat16 (in `FlatCopyLife`), group15, group16 and robin16, with C130; ranges of robin16 |
| `AllocProp` | the programs of `Owners` with an allocator per map, assignments and constructors with allocator arguments, with C132 (group15) |
| `AllocRob16` | the same for robin16, with `get_allocator()` apart from the allocator that has the slots, with C132 (robin16) |
| `FnCopy` | copies of maps whose function objects have a state, for flat16 and group15, with C133 |
| `MoveThrow`, `FlatMoveThrow`, `Rob16MoveThrow`, `RobinMoveThrow` | growth of group15, group16, flat16, robin16, robin (direct layout) with an element constructor that throws while elements move, with C134 |
| `HashMore`, `HashFnv` | further string hashes of `hasher/hashes.h` and the vector variants of `hasher/fnv1a.h`, with C135 and C136 |
| `HashAlign` | `primaryHash` and its variants off x86, with C137 |
| `VecLanes` | the vector helpers of `src/jstd/support/BitVec.h`, with C138; the intrinsics are defined from the processor manual |
| `FloatGen`, `RandomFloat` | binary floating point of any precision; the floating point functions of `RandomGen.h`, with C98 and C139 |
| `Args` | overload resolution between the inserting calls of all maps and which arguments they move from, with C140; constructors of keys and values that throw, arguments inside the map, and piecewise construction are not modelled here |
| `RandomCopy` | several Mersenne Twister objects in memory, with the implicit copy operations, with C141; `srand` and constructors with keys are not among the actions |
| `StrBuf` | the writing functions of `string_view` and `string_view_helper`, with C142 and C143; helpers of `std::string`, which write the terminator over the terminator of their own copy, are not modelled |
| `Stream` | the range functions of all maps with iterators that allow a single pass (modelled after `std::istream_iterator`), `jstd::distance`, with C144 |
| `Buckets` | `bucket`, `bucket_count`, `bucket_size` of flat16, robin16, robin and group16, with C145 |
| `ViewArray` | `string_view_array`: programs over any number of arrays, the elements on the heap, with C146 |
| `Ranges` | `reverse_iterator` over arrays, `rbegin`, `rend`, `swap`, `swap_ranges`, with C147 |
| `FloatNear` | `float32_is_equal`, `float64_is_equal` on bit patterns, IEEE 754 decoding for any width, with C148 |
| `Rob16Long` | robin16: construction from ranges of any length (C90) |
| `Align` | `check_alignment`, `align_to`, `pointer_align_to` on 64-bit words, with C149 |
| `Watch` | `StopWatchBase` with its three clocks on Linux, seconds as rationals, with C150 |
| `CharCopy` | `mem_copy`, `str_copy` in one memory, with overlaps; `memcpy` and `strncpy` as specified by C, with C151 |
| `RandMax` | `LibcRand::rand32`, `rand64` for every `RAND_MAX` above 0xFFFF (C97) |
| `MoveAllocThrow` | element constructors that throw while a group15 map is moved to another allocator (C123) |
| `Step` | `iterator_utils` (`advance`, `next`, `prev`, `distance`) on positions of a sequence, iterators of string views, with C152 |
| `StrFn` | `StrLen`, `StrEqual`, `StrCmp` of `jstd::libc` and `jstd::stl`, all overloads, on pointers; library functions as specified by C, with C153 |
| `HashHelper` | `hash_helper` for integers, floating-point numbers, pointers and `char` texts, with C154 |
| `Analyzer` | `HashMapAnalyzer::start_analyse` without the two deviations, rates as exact fractions, with C155 |
| `SysTime` | time.h and sleep.h for Linux and other Unix systems, `double` as exact fractions, with C156 |
| `Rob16Track`, `Rob16Life` | robin16 with the same log, with C126 |
| `Float32`, `LoadFactor`, `LoadRun` | binary32 arithmetic on rationals; `load_factor()`, `max_load_factor()` and `max_load_factor(float)` of the five maps; their values along histories, with C124 |
| `Reserve`, `ReserveFlat`, `ReserveRob16` | what `reserve(n)` guarantees to later insertions in robin (both layouts), flat16 and robin16, with C125 |
| `Bits` | `support/Power2.h`, `support/BitUtils.h` |
| `Robin`, `RobinCopy` | `robin_hash_map.h`, direct layout |
| `RobinGroup` | its groups at the level of 256-bit registers and the loops that use them, with C117 |
| `RobInd`, `RobIndCopy` | `robin_hash_map.h`, indirect layout |
| `Flat`, `FlatGroup` | `flat16_hash_map.h`: the table; its groups at the level of machine words, with C78 |
| `Rob16`, `Rob16Group` | `robin16_hash_map.h`: the table; its groups at the level of machine words, with C93 |
| `HashFn` | string and integer hashes of `hasher/`: CRC32, Times31, BKDR, FNV1A Yoshimura, 128-bit products |
| `Sha1` | `hasher/sha1.h`: the SHA instructions, SHA-1 as in FIPS 180-4, the three hashes, with C119, C120 |
| `StrView` | `jstd::string_view`: equality, ordering, substr, copy, in the four STRING_UTILS_MODE variants |
| `Digits` | `math/log10_int.h`; digit counts, `itoa` and `to_hex` of `string/formatter.h`, with their properties |
| `Formatter` | `sprintf`, `sprintf_direct`, `sprintf_no_prepare`, `sprintf_calc_space` of `string/formatter.h`, with C127 and C128 |
| `Random`, `RandomProps`, `RandomRange`, `RandomWords` | `system/MT19937_32.h`, `MT19937_64.h`, `LibcRand.h`, integer part of `RandomGen.h`; their properties |
| `Spec` | the specification: an ideal finite map, independent of the table model |
| `ListAux`, `TableInv`, `TableOps`, `TableRehash`, `TableStep`, `History`, `Account`, `Run`, `Api`, `Capacity` | invariants, preservation, refinement, termination accounting |
| `RobinInv`, `RobinPlace`, `RobinFits`, `RobinOps`, `RobinRun`, `RobinChk` | the same for the robin hood map |
| `RobIndInv`, `RobIndPlace`, `RobIndErase`, `RobIndOps`, `RobIndRun`, `RobIndChk` | the same for its indirect layout; the control words together with their elements are a direct map (`abs`), so the direct invariant is reused |
| `FlatInv`, `FlatOps`, `FlatStep`, `FlatRun`, `FlatWeak` | the same for flat16; `FlatWeak`: what survives an erase that loses keys |
| `Rob16Inv`, `Rob16Place`, `Rob16Ops`, `Rob16Erase`, `Rob16Run` | the same for robin16 |
| `Demo` | concrete keys/hashes for the examples |
| `Props15`, `Props15b`, `Ctor`, `Churn`, `Props16`, `Props16b`, `PropsBasic`, `PropsBits`, `Hakmem`, `RobinProps`, `RobinBugs`, `RobIndProps`, `RobIndBugs`, `FlatProps`, `FlatBugs`, `Rob16Props`, `Rob16Limit`, `Rob16More`, `Rob16Bugs`, `HashProps`, `StrProps`, `SelfRef`, `SelfRefFlat`, `RandomRef`, `RobinLoad`, `RobIndLoad`, `SelfRefRobin`, `SelfRefRobInd`, `SelfRefRob16`, `RobinRange`, `RobIndRange`, `EqualRange`, `FlatIter` | the property theorems and examples |

`tools/` holds the generators of `properties.jsonl`, `MANIFEST.json` and `HashTables.lean` and the mutation runner;
`seeded/LOG.jsonl` is the record of the wrong programs the theorems were tested against.

## Modelling decisions

* **Outcomes.**  `Out σ α = ok | throw | diverge | ub`.  A read or write outside the owned block, a write to the static
  read-only empty group, a read of a slot without an element and a shift by the full word width are `ub`.  A loop
  without exit is run with fuel and running out of fuel is `diverge`.  The fuel is proved sufficient for every loop that
  ends, so `diverge` means an infinite loop.
* **Words.**  Natural numbers; arithmetic that can leave the range of `size_t` is reduced explicitly modulo 2^64.
* **Parameters.**  `hash : K → Nat` and `eq : K → K → Bool` are arbitrary; the map theorems assume only
  that `eq` is an equivalence and that equal keys have equal hashes.  Constant hashes are included.
* **Allocator.**  Every call that may allocate takes `mem : Bool`, the allocator's answer.
* **Element constructors.**  Calls that construct a user element take `ctor : Bool`; `false` means that the constructor throws.
* **Configuration.**  The macros as set in the headers (T15:89-95, T16:89-95, RH:101-105), 64-bit target, `NDEBUG` (asserts
  compiled out), SSE2/AVX2 groups, direct key/value slots, no index salt.
* **Robin `chk`.**  `chk = true` turns the two silent accidents of the code (overflow of the distance byte, rehash without
  room) into `ub`.  `chk = false` is the code.  `RobinChk` proves that both agree whenever the checked run is defined;
  theorems about the code are stated with `chk = false`.

* **flat16.**  The allocator's answer is `Mem`: success, no control bytes, or control bytes but no slots.  The second hash is an
  arbitrary function `sec` of the hash code.  `at`, `erase(iterator)`, `erase(first, last)`, `erase_if`, swap, move construction cannot be
  instantiated; `erase(const_iterator)` can (C116).  `clear` is `noexcept`; its allocation is taken to succeed.

* **Random numbers.**  `time` and `rand` are parameters.  An access behind the array is `ub`; the theorems that go on from there take
  the contents of the memory behind the array as a parameter (`Os.past`).  Copies are modelled in `RandomCopy`, floating point members in `RandomFloat`; the static
  instances are not modelled.

* **robin16.**  As flat16 (`Mem`, `sec`, `clear`).  The control hash is `sec` of the hash code modulo 256.  Copy construction, assignment,
  `erase(iterator)`, `erase(first, last)`, `erase_if` and `insert_or_assign` with a hint cannot be instantiated and are left out.

* **Memory of strings.**  `HashFn` and `StrView` model a pointer by the list of readable bytes from it on; a load that leaves the
  list is `ub`.  Statements quantify over the bytes that follow the string.  The CRC instructions are the polynomial division of
  Intel's documentation; `memcmp` is a parameter with the contract of the C standard.

## Trusted base

1. Lean's kernel.  Axioms used by the theorems: `propext`, `Classical.choice`, `Quot.sound` and nothing else.  No own axioms,
   no `sorry`, no `native_decide`, no `bv_decide`.  Concrete witnesses are evaluated by the kernel (`decide +kernel`).
2. The transcription from C++ to Lean, made by reading the text.  Nothing was compiled or run.
3. SSE2/AVX2/SHA intrinsics behave as Intel documents them (bytewise compare, movemask, little endian byte order, SHA1RNDS4 etc.).
4. A request for more than 2^55 control bytes (robin, flat16, robin16: 2^48 slots) is refused by the allocator.  Where the byte count can wrap
   before it reaches the allocator the model answers `ub` instead (`wrapRisk`; the wrap itself is C28).
5. Moving or copying elements during rehash does not throw (except in C134), and values are unchanged by it.
6. `float` is IEEE binary32, rounded to nearest, ties to even, without excess precision (`Float32`; signed zeros are identified).  In histories
   the argument of `max_load_factor` is the pair of integers computed from it; `LoadFactor` and `LoadRun` connect the two (C124).
7. group16 iterators read one control byte behind the last group; its value is an arbitrary parameter `pad`.

## Not modelled

* The group30 headers (they do not compile), `unordered_map.h` and
  `hash_chunk_list.h` (they do not compile either), `flat32_hash_map.h` (contains no class), the test and benchmark programs.
* Members that cannot be instantiated: group15 move constructor (T15:344-371); every copying and moving
  member of group16 (`flat_map_iterator::hashmap()` drops `const`, T16:2308-2328); copying group15 maps of trivially copyable
  elements (T15:1725 casts away `const`), so C11 concerns the element-wise path; map-level `erase(iterator)` and erase of key ranges
  of group15 (M15:656-663); robin `erase(iterator)`.
* Allocator propagation is modelled for group15 and robin16 (C132) only.  Lifetimes of elements and blocks are only followed for group15, group16 (C118), robin with the direct (C121)
  and the indirect layout (C131), flat16 (C122) and robin16 (C126), always without throwing moves of elements (throwing moves: C134); copying for group15 (C123) and
  flat16 (C129), moving and swapping also for group16 and robin16 (C130); not for robin, whose `swap` leaves `last_slot_` behind (C34).
* Arguments that are references into the map itself: only mapped values (C105, C107, C110–C112), not keys and not whole elements;
  after a failed growth the caller's reference is not followed further.
* The generic `emplace_impl` overload with a temporary slot (T15:2692-2719, T16:2509-2546); a pair has no constructor that
  would make the overload both selected and well-formed.
* Self-move of elements in the robin `kNeedGrow` exit: identity in the models except `RobinLife`, undefined for non-trivial types (C121).

## How each property is established

| id | how | result |
|----|-----|--------|
| C01–C05, C23 | invariant of all reachable tables, refinement of the ideal map by induction over the history | proved |
| C06, C25, C36–C38 | iterator position as index; induction over positions | proved; `--end()` of group15 undefined |
| C07 | complete list of undefined and non-terminating calls | partial: code violates it |
| C08, C09, C39 | refinement, state equality on `throw` | proved |
| C10 | negation for every reachable state | violated |
| C11, C41 | copy model; negation for equal capacities | violated in that case, proved otherwise |
| C12 | induction over the range | table level proved, map level violated |
| C13 | accounting of empty slots against the threshold | violated by `shrink_to_fit(true)` and later inserts |
| C14, C15, C16, C29 | arithmetic of the growth threshold; witnesses | violated in listed cases, proved otherwise |
| C17, C35, C40, C27 | corollaries of the refinement | proved |
| C18 | triangular numbers modulo 2^k | proved |
| C19, C26 | bytewise semantics lifted to 128-bit words | proved; `has_any_overflow` of group16 violated |
| C20–C22 | bit-level induction | proved; 64-bit fallbacks violated, exact set of wrong inputs |
| C24 | accounting; witness history | violated |
| C28 | address arithmetic modulo 2^64 | proved unless the count wraps; wrap proved reachable |
| C30 | induction: every erase/insert round lowers the threshold | violated; proved without deletions |
| C31–C33 | robin hood order invariant, counting condition for room, refinement | proved under the counting condition; violated outside |
| C42, C47, C49 | as C08, C35, C17 for group16 | proved |
| C43–C46, C48, C50 | as C10, C14, C15, C29, C12 for group16; induction over the key range | violated in listed cases, proved otherwise |
| C34 | copy: refinement; swap/assign: negation for every state | copy constructor proved, rest violated |
| C51, C54, C55 | induction over the loops with the readable memory as parameter | C55 proved; over-reads characterised exactly |
| C52, C53 | linearity of the CRC register over xor | C52 proved; C53 violated for all keys |
| C56 | arithmetic on 32-bit halves | exact except one fallback, whose wrong inputs are characterised |
| C57–C59, C63 | induction over blocks; lexicographic order as specification | STL mode proved; violations in the others and of `<=`, `>=` |
| C60–C62 | arithmetic modulo 2^64; witnesses | violated in listed cases, proved otherwise |
| C64–C66 | case split over the 64 positions of the highest bit; induction over the digits; specification is `Nat.repr` | violated in listed cases, proved otherwise |
| C67, C68 | invariant (reachability through full groups, mirrored bytes, counter), refinement by induction over the history | proved for small maps and without erase; violated outside |
| C69, C70 | as C67; every state that reorders is undefined; witnesses | violated in listed cases |
| C71, C72 | exact counter; weaker invariant kept by every erase | proved for the calls listed |
| C73–C77 | corollaries of the invariant; witnesses | violated in listed cases, proved otherwise |
| C78 | bytewise semantics lifted to machine words | SSE2 proved but for one mask; fallback violated |
| C79, C80, C82, C90, C92 | invariant (order of the distances, mirrored words, end marks), refinement by induction over the history | proved under conditions on the hashes; violated outside |
| C81, C83, C84, C87–C89, C91 | corollaries; negation for all states or witnesses | violated in listed cases, proved otherwise |
| C85, C86 | counting of elements per home position; negation for every state with such hashes | violated |
| C93 | semantics of 16-bit words lifted to 256-bit words and masks | proved |
| C94, C95 | undefined for all seeds; with readable memory behind the array: closed form of a block, induction over the draws | violated |
| C99, C100, C102 | invariant: dense slots, each control word linked to one slot; simulation of the direct layout; refinement and exact order by induction over the history | proved under the counting condition of C31; violated outside |
| C101, C103 | negation for every state | violated |
| C104 | corollaries of C99 for later histories | targets proved; sources violated |
| C96–C98 | arithmetic modulo powers of two, counting of preimages | violated in listed cases, proved otherwise |
| C105–C107 | a reference is a slot number; exact relation of the call with the reference to the call with a copy; frame lemmas for every call | arguments violated when the call reallocates; the rest proved |
| C110–C112 | as C105–C107; a displaced element leaves its slot to another one, so the value read is that of the slot after the displacement | proved for calls that neither add nor remove an element; violated by insertions and erasures |
| C108 | recurrences written on natural numbers as reference; induction over the words | 32 bits proved for the words inside the array; 64 bits violated |
| C109 | frame lemmas for capacity and threshold, invariant over the history | proved for the calls listed; violated by the others |
| C113 | a range is a history of single calls; induction over the range | proved under the counting condition |
| C114 | corollary of the lookup and iteration lemmas; negations for all states | proved for flat16, robin16 and the direct layout with storage; violated for absent keys in the indirect layout |
| C115 | iterator position as index; induction over positions | proved |
| C116 | weaker invariant kept by every erase (C72); induction over positions | elements proved, lookups as C69 |
| C117 | instructions as functions on the bytes of a register; bits of the masks; induction over the groups | loops of the map and AVX2 masks of the direct layout proved; the masks of the indirect layout and some AVX512 masks violated |
| C118 | the model runs with a log; the log is judged by a heap that knows no hash tables; invariant log = blocks and elements of the table, induction over the history | proved unless group16's second request fails or a constructor throws; negations for these |
| C119, C120 | instructions as functions on four lanes; invariant of the registers between two paragraphs of rounds; induction over the blocks | proved; length not mixed in (C119), over-read up to fifteen bytes (C120) |
| C121 | as C118, for robin; a ghost marks self-moves and moves onto the live buffer; the log is in order exactly if the ghost is not set | proved without `kNeedGrow`, `clear(true)`, default constructed buffer, failed requests, throwing element constructors, also for maps made from ranges; negations for these |
| C122 | as C118, for flat16 | proved without `clear()`, failed requests for slots and throwing element constructors; there violated (proved for all states) |
| C123 | as C118; logs of different objects are renamed apart and shuffled; induction over the elements copied | proved without throwing element constructors; with one violated in every case (proved) |
| C124 | rational arithmetic with one rounding per operation; rounding is monotone and keeps representable numbers; invariant `size ≤ threshold ≤ limit` | conversions proved for all floats that are numbers; bound proved for the stated histories, violated outside |
| C125 | invariant tying threshold (or `left_empties_`) to the capacity; below it no call reaches the allocator | proved for the default load factor; violated for others and, in flat16, with tombstones |
| C126 | as C118, for robin16; the objects alive during a displacement are described by one predicate that a step of the loop keeps | proved without failed requests for slots and throwing element constructors, and for range constructors that return; there violated (proved for all states and ranges) |
| C127 | format and output built from the same list of pieces; announced size against appended size by induction over the format | proved for text, `%%`, `%d`, `%u`; the other specifiers violate it (proved) |
| C128 | as C127 for `sprintf_direct`; for `sprintf` that the view never has room | `sprintf_direct` proved for text, `%d`, `%u`, violated with `%%` and a final `%`; `sprintf` violated for all inputs (proved) |
| C129 | elements with a destructor; a constructor that throws leaves no object, so only what it catches itself is given back | proved for constructors that return, for throwing element copies and a failed request for groups; violated by throwing moves, a failed request for slots and throwing ranges (proved) |
| C130 | the programs of `Owners.FitAll`: constructors that return, equal allocators, the calls of C118 and C122; names of blocks are made distinct per content | proved for flat16, group15, group16 and robin16 (its moves and swaps, no copies) with the copies that C75 and C11 leave in order |
| C131 | as C118, for the indirect layout; the objects alive are the first `size()` slots, whatever the control words say | proved for all histories without a refused request, also with throwing element constructors; violated by refused requests, by the use of the map after a throwing element constructor and by throwing ranges (proved) |
| C132 | every event of the log of C130 carries the allocator that does it; `Faithful`: events of one block have equal allocators; `newAlc`: the allocators the standard prescribes | proved for coherent traits; violated by an allocator that propagates on copy assignment but not on swap, and by moving a robin16 map with an unequal allocator (proved) |
| C133 | a map is a pair of its functions and its table; `find` of copy and source for all keys, the elements of the copy | proved for group15; violated in flat16 (proved) |
| C134 | the tables with logs of C118, C122, C126 and C121 with a parameter for the construction that throws; answers, log and destruction of what is left | violated in group15, group16, flat16, robin16, robin with the direct layout (proved) |
| C135 | loops as folds over the characters; injectivity of each step; published functions as specification | wide characters violate it (proved) |
| C136 | relation between two runs that says which word differs; for the vector code registers as numbers, lanes as remainders | violated (proved); scalar code outside the overlap holds |
| C137 | every word as a list of bytes gathered from the memory; a byte matters if it goes into exactly one word, and not if into none | violated off x86 (proved); aligned keys hold |
| C138 | bit by bit: the bit of the result is one of the value or the same bit of the register | violated for two helpers (proved); the others hold |
| C139 | rounding is monotone and fixes the numbers of the format; a factor below 1 makes up for the rounding of the difference | violated for the factor 1 and on overflow (proved); otherwise holds |
| C140 | the value category an argument arrives with, by cases on the overload sets; induction over ranges with the table invariant | violated for pairs given to `emplace` and ranges of the group maps, and for keys given to `insert_or_assign` of the others (proved); otherwise holds |
| C141 | simulation by independent generators, by induction over programs; copies by induction over the words drawn | holds for copies of unused generators and copies whose source is left alone; otherwise violated (proved) |
| C142 | induction over the loops, with the source at a fixed distance before the end of the text | violated for sources that reach behind the text (proved); otherwise holds |
| C143 | invariant over programs: the memory of the beginning except behind the texts that are cut | holds without copies of cut helpers and without two cuts at one place; otherwise violated (proved) |
| C144 | induction over the stream, then C75, C90, C113, C12, C48 | `insert` holds; range constructors violated (proved) |
| C145 | lookup lemmas of the maps, pigeonhole | small maps and group16's `bucket` hold; the rest violated (proved) |
| C146 | refinement to arrays of elements, counting of pointers | answers hold; `clear`, `pop_back`, `resize` leak (proved) |
| C147 | refinement to the reversed list, induction over the range | holds without assertions; `swap_ranges` aborts with them (proved) |
| C148 | bit arithmetic, rational values | closeness holds; neighbours rejected depending on the last bit (proved) |
| C149 | bit arithmetic modulo 2^64 | holds up to the last multiple below 2^64; wraps to 0 above (proved) |
| C150 | induction over histories | holds between start and stop; negative times, wrong unit, coarse timestamps (proved) |
| C151 | induction over the loops | proved but for wide `mem_copy` and generic `str_copy` (violations proved) |
| C152 | induction over the loops; what a postfix operator returns is a value or a dangling reference | proved but for postfix operators (violation proved) |
| C153 | induction over the loops, against lists and their lexicographic order; bytes of characters | proved for general types, otherwise violations proved |
| C154 | Horner's rule for the last byte; evaluation for the zeros | proved for integers and nonempty texts, otherwise violations proved |
| C155 | induction over the buckets | proved for containers whose bucket sizes add up to their size, violated for group15 and group16 |
| C156 | linear arithmetic over the integers and the rationals; induction over the rounds of the loops | proved for integers, elapsed times and short sleeps, otherwise violations proved |

## Deviations of the code found while modelling

"proved" means that the wrong behaviour itself is a theorem.

1. group15 copy into a table of equal capacity leaves `size() == 0` (proved, C11); the same for moves between unequal allocators (proved, C41).
2. Map-level `insert(first, last)` emplaces `*first` in every iteration (proved, C12).
3. `reserve(56)` then 56 insertions reallocates (proved, C14).
4. group15 `shrink_to_fit(true)` with 30–32 elements hangs (proved, C13).
5. group15 threshold underflows after shrinking and erasing; the next insert hangs (proved, C13).
6. `max_load_factor(x)` always reallocates (proved, C15).
7. group15 `clear()` on a map without storage writes to read-only memory (proved, C16).
8. `reserve(0)` discards all elements (proved, C29).
9. A throwing element constructor leaves a used control byte without an element (proved, C10).
10. Erase/insert churn doubles the capacity without bound (proved, C30).
11. group16: thresholds drift upwards by erasing until the table is full and insert hangs (proved, C24).
12. group16 `has_any_overflow` (proved, C26); 64-bit fallbacks in `BitUtils.h` (proved, C22); `compile_time::countTrailingZeros` (proved, C22).
13. `TotalSlotAllocCount` wraps for about 2^60 entries and the block is too small (proved, C28).
14. `rehash(n)` with n > 2^63 is undefined (proved, C07); `reserve(n)` computes `n*256` modulo 2^64.
15. robin: swap and assignments do not exchange `last_slot_`, so `find` of an absent key is not `end()` (proved, C34).
16. robin: a moved-from map keeps its threshold; the next insert is undefined (proved, C34).
17. robin: `find` on a default constructed map does not return `end()`; `clear()` writes to a constant (proved, C31).
18. robin: the check against `max_lookups` never fires for 8-bit control words; elements are placed behind the slot array (proved, C33).
19. robin: growth can lose an element when no room is found (proved, C31); more than 128 equal hashes wrap the distance (proved, C31).
20. robin: a failed allocation has already changed `max_lookups_` (proved, C31); stored hashes are lost in a rehash (proved, C31).
21. group16: `erase(first, last)` over keys erases `*first` in every iteration (proved, C50).
22. group16: `reserve(n)` does not suffice for n elements after `max_load_factor` or after erasures (proved, C44).
23. `hash_crc32` and `primaryHash` read up to seven bytes behind the string (proved, C51).
24. The two halves of `int_hash_crc32` determine each other (proved, C53).
25. `Times31`/`BKDRHash` of wide strings read `len * w` characters (proved, C54).
26. `uint128_mul` for targets other than x86 and ARM loses a carry (proved, C56).
27. `string_view` `<=` is `>` and `>=` is `<` (proved, C59); null views: not equal to empty views (C57), less than themselves (C59).
28. SSE4.2/U64 comparison reads behind the strings, ignores strings whose length modulo 2^32 is at least 2^31 (proved, C57), and
    half or more of a wide string (proved, C58); libc mode stops at NUL (proved, C57, C63).
29. `substr`/`copy` wrap around; `copy` returns 0 and stops at NUL (proved, C60, C61); `compare(pos, count, sv)` ignores the size
    of `sv` (proved, C62).
30. `count_digits(uint16_t)` is wrong from 1000 on; `INT_MIN` is undefined (proved, C64).
31. `itoa(std::string, uint64_t)` loses the last two digits; wide strings are written behind the buffer (proved, C65).
32. `to_hex` interchanges count and character (proved, C66).
33. `hash_helper<T*>` hashes the pointee (hash_helper.h:166-175; proved, C154, see 131).
34. Not proved: generic `emplace_impl` destroys its temporary twice; roll-back in `copy_slots_array_from`; `std::erase_if` decrements
    `end()`; several members do not compile; robin indirect copy.
35. flat16: `erase` looks only at the group starting at the erased slot and so cuts probe sequences; other keys are lost and can be
    inserted twice (proved, C69).
36. flat16: the in-place reordering has its test inverted and is undefined whenever it is reached (proved, C70).
37. flat16: `clear()` empties the wrong control bytes: keys stay findable, the end mark is destroyed (proved, C73).
38. flat16: `rehash(n)` to a capacity equal to the size can hang; `left_empties_` wraps; `n * rev` wraps (proved, C71, C74).
39. flat16: the copy constructor does not count the copied elements; `max_load_factor` does not adjust the counter; later insertions are
    undefined (proved, C75, C76).
40. flat16: a failed allocation of slots loses the elements; a throwing constructor leaves a used byte (proved, C77).
41. flat16: `matchEmptyOrDeleted` reports end marks; fallback `hasAny…` uses `&&`, `kFullMask64` is 32 bits wide (proved, C78).
    The fallback does not compile either (constant group assigned to a non-constant pointer, masks stored in 32 bits); C78 reads it with
    these types corrected.
42. robin16: `erase` of an element whose cluster wraps around moves elements from behind the last slot (proved, C81).
43. robin16: with fewer than 16 slots a lookup of a key with control hash 0 matches end marks and reads no element (proved, C82).
44. robin16: `clear()` with 16 or more slots leaves the copies of the first control words; erased keys are found (proved, C83).
45. robin16: the displacement limit makes the table double until memory is exhausted: 131 elements suffice (proved, C85).
46. robin16: distances 254 and 255 mean "end" and "empty"; with 255 equal hashes the next rehash drops an element (proved, C86).
47. robin16: a failed allocation of slots loses the elements, a throwing constructor leaves a used word (proved, C87); a failed growth after
    the displacement limit leaves a wrong control word (not proved).
48. robin16: `max_load_factor` takes effect only with the next rehash (proved, C88); `n * rev` wraps, `rehash(0)` exceeds the load
    (proved, C84, C89).
49. robin16: every use of a moved-from map is undefined, even after `clear()` (proved, C91).
50. `MT19937_32`/`MT19937_64`: `next_state` reads `p[N - M]` where the reference reads `p[M - N]`, up to `N - M` words behind the array;
    this happens in every `srand` and every first `rand` (proved, C94).  `MT19937_64` mixes with r = 63 instead of the announced 31
    (proved, C94); an empty key is read (proved, C94).
51. `srand` leaves out the last word of the first block (proved, C95).
52. `nextInt32(a, b)` etc. overflow or divide by zero when the number of values does not fit; `nextInt(-1)` divides by zero and
    `nextInt(max)` with other negative bounds leaves the range (proved, C96).
53. `rand32`/`rand64` on Linux combine overlapping bits with "or"; the bytewise variants prefer the word 0 unless 256 divides `RAND_MAX + 1` (proved, C97).
54. A copied Mersenne Twister keeps a pointer into the array of the original until its next `next_state` (M32:148-151, M64:148-151; proved, C141).
55. robin, indirect layout: `find` of a missing key returns `last_slot()`, `end()` is behind the last element; they differ on every
    map with storage (proved, C101).  `equal_range` inherits this.
56. Copying a nonempty indirect map is undefined: `unique_find_and_insert` compares whole control words and runs out of the
    block (proved, C103).
57. Indirect layout, crowded hashes: 17 keys at the last home position of 64 make a search read behind the control words; the test
    `getDist() > kMaxDist` cannot fire (witness, C99).
58. `erase` answers 0 for a present key whose control word stands at index `max_slot_capacity()` (witness, C99).
59. A rehash without room loses a control word: the element is iterated but not found (witness, C99).
60. As in the direct layout: `clear()` without storage, insertion into a moved-from map, `last_slot_` not swapped, `max_lookups_` changed by a
    failed allocation (proved or witnesses, C99, C104).
61. group15, group16, flat16: `m.insert_or_assign(k, m.at(x))`, `emplace`, `try_emplace` read the argument after the old block is
    freed whenever the call reallocates (proved, C105, C107).
62. `MT19937_64` is seeded with the shift 30 of the 32-bit generator; the published one shifts by 62.  Its second word is right only
    for seeds below 2^30 (proved, C108).  The initialisation by keys also uses the multipliers of the 32-bit generator (proved, C108).
63. robin: `max_load_factor(x)` changes neither the capacity nor the threshold of a map at most half full, so the map grows when it
    did before; the load may exceed the new value (proved, C109).
64. robin: `rehash(0)` and `shrink_to_fit(true)` can fill a map completely, above `max_load_factor()` (witnesses, C109).
65. robin (direct layout), robin16: `m.emplace(k, m.at(x))` reads the argument after the displacement of elements: if the call moves the element
    of `x`, the new element gets the value of another key, or a destroyed object is read; if it reallocates, freed memory is read (proved,
    witnesses, C110, C112).
66. robin (direct layout), robin16: an insertion or an erasure that keeps `capacity()` moves other elements: references, pointers and iterators to
    them refer to other elements afterwards (witnesses, C110, C112).
67. robin (indirect layout): `m.emplace(k, m.at(x))` reads freed memory whenever the call reallocates; `erase` moves the last element into the place
    of the erased one (proved, C111).
68. robin (indirect layout): `equal_range(k)` for an absent key on a map with storage increments a pointer behind the last slot, because
    `find` does not return `end()` (proved, C114).
69. robin (direct layout): on a map without storage `equal_range(k)` is not empty although there is no element; reading it is undefined
    (proved, C114).
70. robin, groups: the AVX512 `matchEmpty` of the two-byte control words reports end marks; in the indirect layout `matchUsed` reports end marks,
    `matchHash` every control word, `isAllEmpty` is never true; the probe masks saturate from distance 97 (one byte) or 113 (two bytes) on (proved,
    C117).  The map does not call these members.
71. group16: when the second allocation of `create_slots` fails, the block of the first is lost (proved, C118).
72. `sha1_msg2` reads up to fifteen bytes behind the string whenever the length is no multiple of sixteen; neither it nor `sha1_x86` mixes in the
    length, so zeros at the end of the last block do not change the value (proved, C119, C120).
73. robin (direct layout), `swap_slot`: every exit of `insert_to_place` with `kNeedGrow` moves the carried element onto itself: constructed over a
    live object, then destroyed (RH:5768, 5775; proved); with the identity hash 13 keys 63 + 64i and the keys 62, 126 in 64 slots do it (witness, C121).
74. robin (direct layout), `exchange_slot` with a default constructed buffer: the first exchange constructs over the live buffer (witness, C121).
75. robin (direct layout), elements with a destructor: `clear(true)` calls `destroy_data` twice; the second reads `max_slot_capacity()` control words of
    the static block of 64 words: undefined from 64 slots on (RH:3504-3511, 4332-4334; proved, C121).
76. robin (direct layout): when the second allocation of `create_slots` fails, the control block is lost; after a failed growth with another
    number of look-ups the destructor gives the blocks back with a wrong count (RH:4356-4380; proved, C121).
77. flat16, elements with a destructor: `clear()` with an element in a slot from `group_mask() + 16` on keeps its control byte; the destructor
    destroys it again (FL:1735-1738; proved, C122).
78. flat16: a failed request for slots loses the old control groups, and the elements are never destroyed; in a constructor the new groups are
    lost (FL:1886-1911; proved, C122).  A throwing element constructor makes the destructor destroy an object that does not exist (proved, C122).
79. group15, an element constructor that throws while a map is copied: with unequal capacities the control byte is already set and `destroy<true>()`
    destroys the missing element; with equal capacities the roll-back starts with the missing element, and when it belongs to slot 0 there is no
    roll-back and the block is lost (T15:1653-1671, 1730-1794; proved for all states, C123).  The block is lost in every case with equal capacities,
    because no destructor runs for a map whose constructor throws.
80. `max_load_factor(NaN)` passes both comparisons and converts NaN to an integer: undefined in all five maps (proved, C124).
81. robin: `load_factor()` of a map without storage is 0/0, not a number (RB:3291, 3312-3314; proved, C124).
82. group15, group16: tables of 29 and 32 slots are filled completely whatever `max_load_factor()` is; with `max_load_factor(0.5f)` a group15 map
    that grows to 59 slots holds 30 elements, because the limit is computed from 59 and truncated; `shrink_to_fit()` exceeds the limit as well
    (witnesses, C124).
83. robin, flat16, robin16: `reserve(n)` rounds twice.  `n * n_rev / amplify` slots and a threshold of `capacity * n_mlf / amplify` leave, after
    `max_load_factor(0.3f)`, room for four elements after `reserve(5)`: the fifth insertion reallocates or throws (witnesses, C125).
84. flat16: `reserve(n)` keeps a table of the right capacity together with its tombstones, which use up `left_empties_` (FL:1271-1285, 1924-1935): with
    31 elements and one tombstone in 64 slots the insertion after `reserve(32)` reallocates (witness, C125).
85. robin16: a failed request for slots loses the old control groups, and the elements are never destroyed; in a constructor the new groups are
    lost (R16:2350-2367; proved, C126).  A throwing element constructor makes the destructor destroy an object that does not exist (R16:3065-3072;
    proved, C126).
86. formatter: `sprintf` never returns normally (FM:2192-2229, 2064-2128).  It enlarges the string, then appends through a view of the whole string,
    behind its end; a format that ends with a specifier throws "fmt_list out of bound" (proved, C128).
87. formatter: in `sprintf_direct` the text behind `%%` is lost, arguments behind it are not printed or an exception is thrown, and the size returned is
    wrong (FM:1792-1800, 2004-2062); with arguments left the text before a `%` at the end is lost (FM:1886-1891; proved, C128).
88. formatter: `%c` prints the number of the code; `%i`, `%o`, `%x`, `%X` and the floating point specifiers print nothing, `%f` is announced with six
    characters; the least `int` is undefined (proved, C127).  Pointers and strings do not compile.  Types without an `itoa` of their own are printed as
    question marks by `sprintf_direct` (FM:759-766).
89. flat16: the copy constructor marks the control byte before it constructs the element (FL:2341-2350); when the move constructor throws, the
    handler destroys an element that was never constructed (FL:1003-1008; proved, C129).
90. flat16: the copy constructor obtains its room outside the `try` block (FL:999); when the request for slots fails the groups are lost (proved, C129).
91. flat16: the constructors from a range and from an initializer list catch nothing (FL:949-967, 1041-1057); an exception loses both blocks and the
    elements constructed before (proved, C129).
92. robin16: likewise the constructors from a range and from an initializer list (R16:1323-1341, 1424-1443; proved, C126).
93. robin (indirect layout): the control word is written before the element is constructed (RH:5652-5665, 5879-5880); after a throwing element
    constructor looking for the key, or inserting it again, reads a slot without an object (proved, C131).
94. robin (indirect layout): a refused request for slots loses the control block; a refused rehash has already stored the new number of look-ups, with
    which the destructor gives the old blocks back (RH:4356-4380; proved, C131).  The constructors from a range and from an initializer list catch
    nothing (RH:3077-3096, 3206-3226; proved, C131).
95. robin (direct layout): the control word is written before the element is constructed (RH:5526, 5870-5881); after a throwing element
    constructor the destructor destroys an object that was never constructed; the constructors from a range lose the blocks (proved, C121).
96. group15: copy assignment makes the copy with the allocator of the source if `propagate_on_container_copy_assignment` holds and then calls
    `swap_impl` (T15:414-421), which exchanges the allocators only if `propagate_on_container_swap` holds (T15:2865-2873).  With the first trait and
    without the second the map keeps its allocator and the memory of the other one (proved, C132); move assignment with
    `propagate_on_container_move_assignment` is written the same way (T15:2818-2835).
97. flat16: the copy constructor default constructs the hash function and the comparison (FL:994) instead of copying those of the source (proved, C133);
    robin16 likewise (R16:1371).
98. group15, group16, flat16, robin16, robin (direct layout): `rehash_impl` replaces the storage before it moves the elements and catches nothing (T15:2109-2182, T16:1984-2046,
    FL:1923-2021, R16:2378-2467, RH:4402-4653).  When the construction of an element throws, the elements not moved yet are lost, the old blocks are not returned, and a
    control byte (in robin16 and robin a control word) is marked without an element behind it; finding that key and destroying the map are undefined (proved, C134).
99. `OpenSSL_Hash` reads two bytes and moves by two characters (HS:283-289), so that for characters of more than one byte every character at an odd
    position is ignored (proved, C135).
100. `rocksdb::hashes::Hash` reads four bytes and moves by four characters (HS:201-207); for wide characters most of each group is ignored (proved,
    C135).  Its `switch` shifts negative numbers to the left, undefined before C++20.
101. `msvc_fnv_1a` hashes strings of 4 and 8 bytes as two words of 2 and 4 bytes: other values than FNV-1a (proved, C135).
102. `FNV1A_Yoshimura` and the scalar code of the other two functions: strings of the same length that differ in one byte of the middle, which is
    read twice, can collide (proved, C136).
103. `_rotl_twise128` (FN:40) uses `_mm_slli_si128` and `_mm_srli_si128`, which shift by bytes: it is no rotation by five bits, and the upper five
    bytes of the register are lost.  `FNV1A_Yoshimitsu_TRIADii_xmm` and `FNV1A_penumbra` ignore these bytes of the string (proved, C136).
104. With `__SSE2__` the registers are multiplied lane by lane of 16 bits by `_mm_set1_epi32(709607)`, whose odd lanes are 10 (FN:202-204, 368-373):
    each round loses a bit, and bytes of odd lanes do not matter unless they are in the last 14 rounds (proved, C136).
105. Off x86, `primaryHash` and `primaryHash_new` put the words of a key that is not aligned together from the wrong bytes (`decode_value`,
    HS:933-967, 984-994, 1095-1098: shifts as for big-endian words, parts in the wrong order): the hash depends on bytes outside the key and ignores
    bytes of the key, so that equal keys have different hashes (proved for little-endian machines, C137).
106. Off x86, `primaryHash_old` reads words of keys that are not aligned from the most significant end, other than those of aligned keys, but
    masks the last one at the least significant end: bytes behind the key count and bytes of the key do not; a signed `char` is extended over
    the bytes before it (proved, C137).
107. `AVX::mm256_insert_epi32<index>` built for AVX2 (BV:679-685, BV = `src/jstd/support/BitVec.h`) broadcasts the value as a lane of 64 bits, so an
    odd lane gets the upper half of that, zero, instead of the value (proved, C138). No map calls it, but with MSVC the header defines the
    intrinsic `_mm256_insert_epi32` as a macro for it (BV:462-464).
108. `AVX::mm256_cvtsi256_si32_high` (BV:486-490) shifts an `int`, so a word of 0x8000 or more comes back with its upper 16 bits set, unlike from
    `SSE::mm_cvtsi128_si32_high` (proved, C138). No map calls it.
109. `nextFloat(min, max)` can return more than `max`: for the 128 greatest words `nextFloat()` is 1, and `max - min` may have been rounded up
    (RG:189-201, RG = `src/jstd/system/RandomGen.h`; proved for -1 and 1.5 * 2^-24, C139). `nextDouble(min, max)` has the same code, with one such word.
110. `nextFloat(min, max)`, `nextDouble(min, max)` and `nextDouble53(min, max)` return infinity, or NaN when the factor is 0, whenever `max - min`
    overflows although both are finite (proved, C139).
111. `robin16_hash_map(robin16_hash_map && other, const Allocator & alloc)` stores `alloc` in `allocator_` only; the slots and `slot_allocator_` are taken from
    `other` whether the allocators are equal or not (R16:1406-1422). `get_allocator()` then returns an allocator that the map never obtains memory from,
    and with an allocator that is not swapped, `swap` with a map for which `get_allocator()` is equal makes the other allocator free the slots (proved, C132).
112. `emplace(p)`, `emplace_hint(h, p)` and, for a pair of another type than the elements, `insert(p)` of the group maps move from the variable `p` if its key is
    absent: a non-const lvalue selects `emplace_impl(ValueT &&)`, a forwarding reference whose body says `std::move(value)` (T15:2533-2567,
    T16:2363-2397; proved, C140). The same holds for every new element of a range that the table-level `insert(first, last)` is given with
    iterators that are not const (T15:895-901, T16:843-849; proved, C140).
113. Map-level `insert(first, last)` of the group maps with such iterators moves from `*first` in the first iteration and emplaces it again in the second, so a
    range of two or more elements adds an element with the moved-from key and value (M15:457-463, M16:454-460; proved, C140).
114. `insert_or_assign(k, v)` of flat16, robin and robin16 moves from the variable `k` when it makes a new element: a non-const lvalue selects
    the overload `KeyType &&`, which says `std::move(key)` (FL:1418-1421, RH:3626-3629, R16:1821-1824; proved, C140). The table-level function of the group
    tables and their map-level overload for other key types are written the same way (T15:922-926, T16:870-874, M15:484-492, M16:481-489; read, not proved).
115. `string_view::append(data, count)` with a source that begins in the text and reaches behind it reads characters it has already written
    (SV:207-215; proved, C142).
116. `string_view_helper`: two helpers that cut texts with the same end and do not recover in the reverse order leave a terminator in the text; a copy of a helper
    whose text is cut puts the character back when it is destroyed, while the original goes on believing that its text is cut
    (string_helper.h:44-48, 76-95; proved, C143). `detach` keeps the reference to a text that is not cut (string_helper.h:67-74; proved, C143).
117. The range constructors of flat16, robin16 and robin call `distance(first, last)` before they insert (FL:963, R16:1337, RH:3092); with iterators that allow a
    single pass the elements are gone then, and the map gets the first one only (proved, C144).
118. FL:963 and R16:1337 call `distance` unqualified from namespace `jstd`, where `jstd::distance` is visible; for iterators or elements of namespace `std`
    (every pointer to a `std::pair`, every iterator of a standard container) argument-dependent lookup also finds `std::distance`, the call is ambiguous and the
    constructor does not compile.  C75, C90, C129 and C144 speak of the range constructors of flat16 and robin16 for iterators and elements for which the call
    is not ambiguous, and of the constructors from initializer lists, which do not call `distance`.  Not proved (a matter of compilation).
119. `bucket_count()` is 16 whatever the size of the map (flat16 FL:1115-1117, robin16 R16:1492-1494), or the number of elements (robin RH:3303-3305), while
    `bucket(key)` is a position in the whole table: bucket numbers of present keys are not below `bucket_count()` (proved, C145).
120. `bucket_size(n)` of group15 and group16 is 1 for every `n`, also for empty buckets (T15:594, T16:554; proved for group16, C145).
121. `bucket(key)` of group15 (T15:600-603) assigns a locator to a `size_type` and does not compile when it is used (not proved, a matter of compilation).
122. `clear`, `pop_back` and a shrinking `resize` of `string_view_array` do not delete the elements they remove (string_view_array.h:129-131, 137-139, 149-151), a growing
    `resize` adds null pointers that `operator []` dereferences, and a pointer pushed twice is deleted twice (proved, C146).  Its copy constructor does not compile.
123. The assertion of `swap_ranges` (memory/swap.h:77) computes `distance(first1, last1)` after the loop, when it is 0: with assertions every nonempty call aborts, `swap` of
    arrays (81-85) too (proved, C147).  `swap(T *&, T *&)` (58-65) is enabled for pointers to pointers only, and the general one for no pointer (49), so that plain pointers
    cannot be swapped (not proved, a matter of compilation).
124. `float32_is_equal`, `float64_is_equal` (test/FloatEpsinon.h:35-59) compare bit patterns with `^` instead of subtracting them: neighbours whose smaller pattern is odd are
    different, whereas patterns `4n` and `4n + 2` are equal; not transitive (proved, C148).
125. `align_to` and `pointer_align_to` (utility/utility.h:88-118) return 0 if the next multiple is 2^64; the closing assertion of `align_to` (94) tests divisibility only and
    passes (proved, C149).
126. `StopWatchBase::start` (test/StopWatch.h:143-146) does not set `stop_time_`: read before the next `stop`, the elapsed time is minus the time from the last stop (or the
    construction) to the start (proved, C150).  `defaultStopWatchImpl::duration_time` (522-524), used by `timeGetTimeStopWatch` and `getTickCountStopWatch` on Linux, returns
    microseconds as seconds (proved).  `StdStopWatchImpl::timestamp` (559-563) counts whole seconds (proved).  `StopWatchExBase::getDurationTime` (358-361) returns a
    `duration_time` as a number, which does not compile (not proved).
127. `mem_copy(wchar_t *, …)` (string_utils.h:94-98) gives `wmemcpy` a number of bytes instead of characters.  The generic `str_copy` (102-115) tests `*dest & *src`: it stops
    at the first character without a bit in common with the one it would replace, and writes no terminator.  The generic functions return the end of the copy, the others
    the beginning (all proved, C151).
128. group15: when an element constructor throws in the constructor that moves from a map with another allocator (T15:373-408), the element that was never constructed is
    destroyed, by the roll-back of `move_slots_array_from` (T15:1910-1949) or by `destroy<true>()` (T15:1810-1815).  Only when it is in slot 0 and the capacities are equal
    there is no roll-back, and then the new block is lost (proved for all states, C123).  The elements moved so far are not moved back, and the source still marks their
    slots as used (read from the code: T15:1830-1833 copies the control bytes without clearing them).
129. `operator ++ (int)` and `operator -- (int)` of string iterators return a reference to a local variable (string_iterator.h:72-76, 85-89, 226-230, 239-243): `*it++` is undefined
    for every string (proved, C152).  String iterators have the categories of `std`, which `iterator_utils` does not accept, and `operator + (const this_type &)` (121-123, 275-277)
    adds two pointers; neither compiles when used (not proved).
130. `libc::StrEqual`, `libc::StrCmp` with a count or lengths stop at a zero character for `char` and `wchar_t`, but not for other types (string_libc.h:124-138, 271-281).
    `stl::StrEqual(str1, len1, str2, len2)` (string_stl.h:73-75) has no `return` and is undefined for equal lengths, `StrEqualUnsafe` (83-87) with it.  `stl::StrCmp` uses `memcmp`
    for all types (143-149), so that wider characters are ordered by their lowest byte on little-endian machines (all proved, C153).
131. `hash_helper` (hash_helper.h): a pointer is hashed by the eight bytes it points to (154-176), undefined for null and for smaller targets; floating-point numbers by their bytes
    (111-113), so that the two zeros differ, and a `float` with an eight-byte load by default; the empty text has the hash code 0 with a length (37-43) and 2^32 - 1 otherwise
    with CRC32 (all proved, C154).
132. `HashMapAnalyzer` (hashmap_analyzer.h) trusts `bucket_size`.  For group15 and group16 maps with storage (see 120) the assertion (171) fails unless every slot has an element; without assertions an empty
    map is analysed (361), the usage is above 100 percent and `entry_size - usage_count` (278) wraps to a count near 2^64 (proved, C155).
133. `jmc_get_second` and `jmc_get_millisecf` (time.h:146, 166) scale nanoseconds like microseconds on Unix systems other than Linux: the results are 1000 times too large.
    `thread_sleep` (sleep.h:143) multiplies in 32 bits: every sleep of more than 4294967 ms is too short.  The loops for unknown systems (sleep.h:198, 216) count an unsigned
    variable down while it is at least 0 and never end (all proved, C156).  `CLOCK_REALTIME` can be set back; elapsed times are then negative (C156_elapsed).
