/-
Model of `flat16_hash_map` (hashmap/flat16_hash_map.h, FL in the citations): open addressing with one control byte per
slot, groups of 16 control bytes that may start at any slot, tombstones.

Configuration: SSE2 and SSSE3 (FL:254-406; Verif.FlatGroup relates the bytewise masks used here to the instructions), no
index salt (FL:117), 64-bit `size_t`, `assert` compiled out.

Simplifications.
* Elements are values: moving an element between slots neither throws nor changes it.
* `sec` is the second hash (FL:1537-1548, `simple_int_hash_crc32`), an arbitrary function of the hash code.
* `triv` is `is_slot_trivial_destructor` (FL:162-167): with it `destroy_slots` leaves the elements alone.
* `noexcept` functions that would throw, destructors and `std::terminate` are not modelled.
-/
import Verif.Spec
import Verif.Table

namespace Verif.Flat

/-- `kEmptyEntry` (FL:173). -/
abbrev bEmpty : Nat := 0x80
/-- `kDeletedEntry` (FL:174). -/
abbrev bDeleted : Nat := 0xFE
/-- `kEndOfMark` (FL:175). -/
abbrev bEnd : Nat := 0xFF

/-- The data members (FL:908-917).  `slot i` is the element constructed in slot `i`, if any; slots from
`mask + 1` on do not exist. -/
structure Map (K V : Type) where
  ctrl : Nat → Nat
  gmask : Nat
  slot : Nat → Option (K × V)
  size : Nat
  mask : Nat
  left : Nat
  mlf : Nat
  rev : Nat

/-- What the two allocations of `create_group` give: both blocks, no control block, or a control block but no slot
block. -/
inductive Mem
  | ok
  | noGroups
  | noSlots
  deriving DecidableEq

/-- Assumption on the allocator: no block of more than 2^48 control bytes is ever granted (the address space of the modelled
machine has 2^47 bytes). -/
def memLimit : Nat := 2 ^ 48

section Model
variable {K V : Type} (E : Env K) (sec : Nat → Nat)

/-- `slot_capacity()`, `capacity()` (FL:1083, 1100). -/
def cap (t : Map K V) : Nat := t.mask + 1
/-- The length of the control block in bytes: `group_count() + 1` groups (FL:1092-1093, 1884-1886). -/
def clen (t : Map K V) : Nat := (t.gmask + 2) * 16
/-- `slot_threshold()` (FL:1111-1113). -/
def thr (t : Map K V) : Nat := cap t * t.mlf % W / 65536
/-- `slot_used()` (FL:1108-1110). -/
def usedCount (t : Map K V) : Nat := (thr t + W - t.left % W) % W
/-- `slot_deleted()` (FL:1105-1107). -/
def delCount (t : Map K V) : Nat := (usedCount t + W - t.size % W) % W
/-- `min_require_capacity(n)` (FL:1515-1518). -/
def minRequire (t : Map K V) (n : Nat) : Nat := n * t.rev % W / 65536
/-- `index_for(hash_code)` (FL:1567-1572). -/
def home (t : Map K V) (k : K) : Nat := E.h k &&& t.mask
/-- `get_ctrl_hash(get_second_hash(hash_code))` (FL:1537-1552). -/
def tagOf (k : K) : Nat := sec (E.h k) &&& 0x7F
/-- `slot_next_group(i)` (FL:1602-1604). -/
def nextGroup (t : Map K V) (i : Nat) : Nat := (i + 16) &&& t.mask

/-! ### Groups -/

/-- `matchHash(ctrl_hash)` of the group at control byte `i` (FL:288-298). -/
def matchTag (t : Map K V) (i tg : Nat) : Nat := moveMask (fun p => t.ctrl (i + p) == tg) 16
/-- `matchEmpty()` (FL:300-314). -/
def matchEmpty (t : Map K V) (i : Nat) : Nat := matchTag t i bEmpty
/-- `matchDeleted()` (FL:316-318). -/
def matchDeleted (t : Map K V) (i : Nat) : Nat := matchTag t i bDeleted
/-- `matchUnused()` (FL:340-344): the top bits of the bytes. -/
def matchUnused (t : Map K V) (i : Nat) : Nat := moveMask (fun p => decide (128 ≤ t.ctrl (i + p))) 16
/-- `matchEmptyOrDeleted()` (FL:320-326): the comparison is computed and dropped, the result is the top bits of the
bytes. -/
def matchEmptyOrDeleted (t : Map K V) (i : Nat) : Nat := matchUnused t i
/-- `isAllEmpty()` (FL:384-386). -/
def isAllEmpty (t : Map K V) (i : Nat) : Bool := matchEmpty t i == 0xFFFF
/-- The 16 bytes from `i` on lie in the control block. -/
def readable (t : Map K V) (i : Nat) : Bool := decide (i + 16 ≤ clen t)

/-! ### Lookup -/

/-- Inner loop of the probe (FL:2184-2192): compare the key with the slots whose control byte matched. -/
def scan (t : Map K V) (k : K) (i : Nat) : List Nat → Res (Option Nat)
  | [] => .ok none
  | p :: ps =>
    match t.slot ((i + p) &&& t.mask) with
    | none => .ub
    | some e => if E.eq e.1 k then .ok (some ((i + p) &&& t.mask)) else scan t k i ps

/-- Where a probe ends. -/
inductive Probe
  | hit (j : Nat)     -- the key is in slot `j`
  | stop (i : Nat)    -- the group at `i` has an empty byte
  | full              -- back at the first group
  deriving DecidableEq

/-- The probe loop of `find_impl` (FL:2180-2197), `find_and_prepare_insert` (FL:2374-2393) and `find_and_erase`
(FL:2715-2733), at the group `i`; the fuel bounds the number of groups visited. -/
def probeLoop (t : Map K V) (k : K) : Nat → Nat → Res Probe
  | 0, _ => .diverge
  | f + 1, i =>
    if readable t i then
      (scan E t k i (bitsOf (matchTag t i (tagOf E sec k)))).bind fun
        | some j => .ok (.hit j)
        | none =>
          if matchEmpty t i ≠ 0 then .ok (.stop i)
          else if nextGroup t i = home E t k then .ok .full
          else probeLoop t k f (nextGroup t i)
    else .ub

/-- The probe from the home position. -/
def probe (t : Map K V) (k : K) : Res Probe := probeLoop E sec t k (cap t) (home E t k)

/-- `find_impl(key)` (FL:2174-2200), `none` for `npos`. -/
def findIdx (t : Map K V) (k : K) : Res (Option Nat) :=
  (probe E sec t k).bind fun
    | .hit j => .ok (some j)
    | _ => .ok none

/-- What the caller sees of `find(key)` (FL:1342-1352): the element, or `end()`. -/
def lookup (t : Map K V) (k : K) : Res (Option (K × V)) :=
  (findIdx E sec t k).bind fun
    | none => .ok none
    | some j =>
      match t.slot j with
      | none => .ub
      | some e => .ok (some e)

/-- `contains(key)` (FL:1337-1340). -/
def contains (t : Map K V) (k : K) : Res Bool := (findIdx E sec t k).bind fun r => .ok r.isSome

/-- `count(key)` (FL:1332-1335). -/
def count (t : Map K V) (k : K) : Res Nat := (findIdx E sec t k).bind fun r => .ok (if r.isSome then 1 else 0)

/-! ### Control bytes -/

/-- `control.setUsed(tag)` and `setUsedMirrorCtrl(i, tag)` (FL:246-249, 1832-1838). -/
def setUsed (t : Map K V) (i tg : Nat) : Map K V :=
  { t with ctrl := if i < 16 then upd (upd t.ctrl i tg) (i + cap t) tg else upd t.ctrl i tg }

/-- `control.setEmpty()`/`setDeleted()` and `setUnusedMirrorCtrl(i, tag)` (FL:234-240, 1841-1850). -/
def setUnused (t : Map K V) (i tg : Nat) : Map K V :=
  { t with ctrl := if i < 16 then upd (upd t.ctrl i tg) (i + cap t) (if i = 0 then bEnd else tg) else upd t.ctrl i tg }

/-! ### Capacity -/

/-- `calc_capacity(n)` (FL:1506-1512). -/
def calcCapacity (n : Nat) : Res Nat :=
  let c := max n 4
  if isPow2 c then .ok c else roundUp c

/-- The control block written by `create_group` (FL:1884-1909): `c` the capacity. -/
def newCtrl (c i : Nat) : Nat :=
  if i = c then bEnd
  else if c < 16 then (if (2 * c ≤ i ∧ i < 2 * c + 16) ∨ 16 ≤ i then bEnd else bEmpty)
  else bEmpty

/-- `create_group<false>(c)` (FL:1874-1921).  The members `groups_` and `group_mask_` are replaced before the slots are
allocated. -/
def createGroup (mem : Mem) (c : Nat) (t : Map K V) : Out (Map K V) Unit :=
  let g := (c + 15) / 16 - 1
  if mem = .noGroups ∨ memLimit < c then .throw t
  else if mem = .noSlots then .throw { t with ctrl := newCtrl c, gmask := g }
  else .ok { ctrl := newCtrl c, gmask := g, slot := fun _ => none, size := 0, mask := c - 1,
             left := c * t.mlf % W / 65536, mlf := t.mlf, rev := t.rev } ()

/-- The loop of `find_first_empty_slot` (FL:2273-2284). -/
def emptyLoop (t : Map K V) : Nat → Nat → Res Nat
  | 0, _ => .diverge
  | f + 1, i =>
    if readable t i then
      if matchEmpty t i ≠ 0 then .ok ((i + bsf32 (matchEmpty t i)) &&& t.mask)
      else emptyLoop t f (nextGroup t i)
    else .ub

/-- `find_first_empty_slot(key)` (FL:2264-2287).  The groups repeat after `capacity` steps. -/
def firstEmpty (t : Map K V) (k : K) : Res Nat := emptyLoop t (cap t) (home E t k)

/-- `move_insert_unique(slot)` (FL:2290-2310) and `insert_unique(value)` (FL:2312-2353). -/
def insertUnique (e : K × V) (t : Map K V) : Res (Map K V) :=
  (firstEmpty E t e.1).bind fun j =>
    .ok { setUsed t j (tagOf E sec e.1) with slot := upd t.slot j (some e), size := t.size + 1 }

/-- The used slots in the order in which a rehash visits them (FL:1963-1978 for at least 16 slots, 1998-2008 for fewer). -/
def usedIdx (t : Map K V) : List Nat := (List.range (cap t)).filter fun i => decide (t.ctrl i < 128)

/-- The loop of `rehash_impl` over the old slots. -/
def transferAll (old : Map K V) : List Nat → Map K V → Res (Map K V)
  | [], t => .ok t
  | i :: is, t =>
    match old.slot i with
    | none => .ub
    | some e => (insertUnique E sec e t).bind fun t' => transferAll old is t'

/-- `rehash_impl<AllowShrink, AlwaysResize>(n)` (FL:1923-2021). -/
def rehashImpl (allowShrink always : Bool) (mem : Mem) (n : Nat) (t : Map K V) : Out (Map K V) Unit :=
  match calcCapacity n with
  | .ub => .ub
  | .diverge => .diverge
  | .ok c =>
    if always || (!allowShrink && decide (cap t < c)) || (allowShrink && c != cap t) then
      match createGroup mem c t with
      | .ok t1 _ =>
        match transferAll E sec t (usedIdx t) t1 with
        | .ok t2 => .ok { t2 with left := (t2.left + W - t2.size % W) % W } ()
        | .diverge => .diverge
        | .ub => .ub
      | .throw t' => .throw t'
      | .diverge => .diverge
      | .ub => .ub
    else .ok t ()

/-! ### Reordering in place -/

/-- `convent_all_slots()` (FL:2023-2035, 346-358, 1797-1814): every unused byte of the groups becomes empty, every used one
deleted; the first bytes are copied behind the block of `capacity` bytes, the end mark is not written again. -/
def convertAll (t : Map K V) : Map K V :=
  let f : Nat → Nat := fun i => if i < (t.gmask + 1) * 16 then (if 128 ≤ t.ctrl i then bEmpty else bDeleted) else t.ctrl i
  { t with ctrl := fun i => if cap t ≤ i ∧ i < cap t + min (cap t) 16 then f (i - cap t) else f i }

/-- The loop of `find_first_non_used_slot` (FL:2247-2258). -/
def nonUsedLoop (t : Map K V) : Nat → Nat → Res Nat
  | 0, _ => .diverge
  | f + 1, i =>
    if readable t i then
      if matchEmptyOrDeleted t i ≠ 0 then .ok ((i + bsf32 (matchEmptyOrDeleted t i)) &&& t.mask)
      else nonUsedLoop t f (nextGroup t i)
    else .ub

/-- `find_first_non_used_slot(key)` (FL:2238-2261). -/
def firstNonUsed (t : Map K V) (k : K) : Res Nat := nonUsedLoop t (cap t) (home E t k)

/-- The loop of `drop_deleted_no_grow` (FL:2129-2169) at `index`.  Every pass either goes on to the next index or fills a
slot for good, so twice the capacity is enough fuel. -/
def dropLoop : Nat → Nat → Map K V → Res (Map K V)
  | 0, i, t => if i < cap t then .diverge else .ok t
  | f + 1, i, t =>
    if i < cap t then
      if t.ctrl i = bDeleted then dropLoop f (i + 1) t
      else
        match t.slot i with
        | none => .ub
        | some e =>
          (firstNonUsed E t e.1).bind fun j =>
            if j ≤ i ∧ i - j < 16 then dropLoop f (i + 1) (setUsed t i (tagOf E sec e.1))
            else if t.ctrl j = bEmpty then
              dropLoop f (i + 1)
                { setUnused (setUsed t j (tagOf E sec e.1)) i bEmpty with slot := upd (upd t.slot j (some e)) i none }
            else
              match t.slot j with
              | none => .ub
              | some e' => dropLoop f i { setUsed t j (tagOf E sec e.1) with slot := upd (upd t.slot j (some e)) i (some e') }
    else .ok t

/-- `drop_deleted_no_grow()` (FL:2105-2172). -/
def dropDeleted (t : Map K V) : Out (Map K V) Unit :=
  match dropLoop E sec (2 * cap t) 0 (convertAll t) with
  | .ok t' => .ok { t' with left := (thr t' + W - t'.size % W) % W } ()
  | .diverge => .diverge
  | .ub => .ub

/-- Does `reorder_or_grow_if_necessary` reorder (FL:1858-1859)? -/
def reorders (t : Map K V) : Bool := decide (32 < cap t) && decide (cap t / 8 ≤ delCount t)

/-- `reorder_or_grow_if_necessary()` (FL:1856-1866). -/
def reorderOrGrow (mem : Mem) (t : Map K V) : Out (Map K V) Unit :=
  if reorders t then dropDeleted E sec t else rehashImpl E sec false true mem (cap t * 2 % W) t

/-! ### Modifiers -/

/-- A read-only result. -/
def lift {α β : Type} (r : Res α) (f : α → Out (Map K V) β) : Out (Map K V) β :=
  match r with
  | .ok a => f a
  | .diverge => .diverge
  | .ub => .ub

/-- The search for a deleted byte in the groups from `i` to `last` (FL:2405-2418; for a single group FL:2426-2438). -/
def delLoop (t : Map K V) (start last : Nat) : Nat → Nat → Res (Option Nat)
  | 0, _ => .diverge
  | f + 1, i =>
    if readable t i then
      if matchDeleted t i ≠ 0 then .ok (some ((i + bsf32 (matchDeleted t i)) &&& t.mask))
      else if i = last then .ok none
      else if nextGroup t i = start then .ok none
      else delLoop t start last f (nextGroup t i)
    else .ub

/-- `find_and_prepare_insert(key)` (FL:2363-2445): the slot and whether the key is already there.  The fuel counts the
recursive calls after a growth. -/
def prepare (mem : Mem) (k : K) : Nat → Map K V → Out (Map K V) (Nat × Bool)
  | 0, _ => .diverge
  | f + 1, t =>
    lift (probe E sec t k) fun
      | .hit j => .ok t (j, true)
      | .full => (reorderOrGrow E sec mem t).bind fun t' _ => prepare mem k f t'
      | .stop i =>
        if t.left = 0 then (reorderOrGrow E sec mem t).bind fun t' _ => prepare mem k f t'
        else
          lift (delLoop t (home E t k) i (cap t) (home E t k)) fun
            | some j => .ok t (j, false)
            | none => .ok { t with left := t.left - 1 } ((i + bsf32 (matchEmpty t i)) &&& t.mask, false)

/-- `emplace_impl<AlwaysUpdate>` (FL:2447-2706, all overloads).  `ctor` says whether the constructor of the element returns;
if it throws the control byte has already been written. -/
def emplace (update : Bool) (mem : Mem) (ctor : Bool) (k : K) (v : V) (t : Map K V) : Out (Map K V) (Nat × Bool) :=
  (prepare E sec mem k 64 t).bind fun t' r =>
    if r.2 then
      match t'.slot r.1 with
      | none => .ub
      | some e => .ok (if update then { t' with slot := upd t'.slot r.1 (some (e.1, v)) } else t') (r.1, false)
    else if ctor then
      .ok { setUsed t' r.1 (tagOf E sec k) with slot := upd t'.slot r.1 (some (k, v)), size := t'.size + 1 } (r.1, true)
    else .throw (setUsed t' r.1 (tagOf E sec k))

/-- Does `erase_slot(i)` write a tombstone (FL:2748-2769)? -/
def tombstone (t : Map K V) (i : Nat) : Bool :=
  (matchEmpty t i == 0) && (nextGroup t i != i) && !isAllEmpty t (nextGroup t i)

/-- `erase_slot(i)` (FL:2739-2775). -/
def eraseSlot (i : Nat) (t : Map K V) : Res (Map K V) :=
  if readable t i && (matchEmpty t i != 0 || readable t (nextGroup t i)) then
    match t.slot i with
    | none => .ub
    | some _ =>
      if tombstone t i then
        .ok { setUnused t i bDeleted with slot := upd t.slot i none, size := (t.size + W - 1) % W }
      else
        .ok { setUnused t i bEmpty with slot := upd t.slot i none, size := (t.size + W - 1) % W, left := (t.left + 1) % W }
  else .ub

/-- `erase(key)` (FL:1479-1482, 2708-2736): number of removed elements. -/
def eraseKey (k : K) (t : Map K V) : Out (Map K V) Nat :=
  lift (findIdx E sec t k) fun
    | some i => lift (eraseSlot i t) fun t' => .ok t' 1
    | none => .ok t 0

/-- `destroy_slots<false>()` (FL:1748-1769): with a trivial destructor nothing happens to the elements; destroying a slot
without an element is undefined. -/
def destroySlots (triv : Bool) (t : Map K V) : Res (Map K V) :=
  if triv then .ok { t with size := 0 }
  else if (List.range (cap t)).all fun i => decide (128 ≤ t.ctrl i) || (t.slot i).isSome then
    .ok { t with slot := fun i => if t.ctrl i < 128 then none else t.slot i, size := 0 }
  else .ub

/-- `clear(need_destroy)` (FL:1257-1269).  `destroy_group<false>` (FL:1732-1746) hands group numbers to `group_at`, which takes
slot numbers, so it empties the control bytes `0 .. group_mask() + 15`. -/
def clear (triv destroy : Bool) (t : Map K V) : Out (Map K V) Unit :=
  if 4 < cap t && destroy then createGroup .ok 4 t
  else
    lift (destroySlots triv t) fun t' =>
      .ok { t' with ctrl := fun i => if i < t.gmask + 16 then bEmpty else t.ctrl i, left := thr t } ()

/-- `rehash(n, read_only)`, `reserve`, `resize` (FL:1271-1285). -/
def rehash (mem : Mem) (readOnly : Bool) (n : Nat) (t : Map K V) : Out (Map K V) Unit :=
  rehashImpl E sec true false mem (if readOnly then max n t.size else max (minRequire t n) t.size) t

/-- `shrink_to_fit(read_only)` (FL:1287-1294). -/
def shrinkToFit (mem : Mem) (readOnly : Bool) (t : Map K V) : Out (Map K V) Unit :=
  rehashImpl E sec true false mem (if readOnly then t.size else minRequire t t.size) t

/-- `max_load_factor(mlf)` (FL:1128-1153); `m` and `r` are the two integers computed from the clamped float. -/
def setMlf (mem : Mem) (m r : Nat) (t : Map K V) : Out (Map K V) Unit :=
  let t1 := { t with mlf := m, rev := r }
  if thr t1 < usedCount t then
    if cap t ≤ 32 ∨ (usedCount t + W - t.size % W) % W < cap t / 8 ∨ cap t < minRequire t1 t.size then
      rehash E sec mem false t.size t1
    else dropDeleted E sec t1
  else .ok t1 ()

/-- A map without storage, on which `create_group` works in a constructor (FL:935-938). -/
def blank : Map K V := ⟨fun _ => 0, 0, fun _ => none, 0, 0, 0, 32768, 131072⟩

/-- Constructor with a requested capacity (FL:928-947). -/
def make (mem : Mem) (n : Nat) : Out (Map K V) Unit :=
  match calcCapacity n with
  | .ub => .ub
  | .diverge => .diverge
  | .ok c => createGroup mem c blank

/-! ### Iteration -/

/-- `begin()` (FL:1179-1207, the `#if 1` branch): the first used control byte of the groups, `end()` if there is none. -/
def beginIdx (t : Map K V) : Nat :=
  ((List.range ((t.gmask + 1) * 16)).find? fun i => decide (t.ctrl i < 128)).getD (cap t)

/-- `operator ++` (FL:862-868, 210-212): the next control byte that is neither empty nor deleted. -/
def nextIdx (t : Map K V) : Nat → Nat → Res Nat
  | 0, _ => .ub
  | f + 1, i => if 128 ≤ t.ctrl (i + 1) ∧ t.ctrl (i + 1) < 255 then nextIdx t f (i + 1) else .ok (i + 1)

/-- The range-for loop from index `i`.  Going beyond the slots is undefined, so the fuel is the number of slots. -/
def walkLoop (t : Map K V) : Nat → Nat → Res (List (K × V))
  | 0, _ => .ub
  | f + 1, i =>
    if i = cap t then .ok [] else
      match t.slot i with
      | none => .ub
      | some e => (nextIdx t (clen t - (i + 1)) i).bind fun j => (walkLoop t f j).bind fun l => .ok (e :: l)

/-- `for (auto & e : map)`. -/
def walk (t : Map K V) : Res (List (K × V)) := walkLoop t (cap t + 1) (beginIdx t)

/-- The elements held by the map, in slot order.  Specification device. -/
def entries (t : Map K V) : List (K × V) := (List.range (cap t)).filterMap t.slot

/-! ### Copies -/

/-- `insert_unique(first, last)` (FL:2355-2361). -/
def insertAllUnique : List (K × V) → Map K V → Res (Map K V)
  | [], t => .ok t
  | e :: es, t => (insertUnique E sec e t).bind fun t' => insertAllUnique es t'

/-- The copy constructor (FL:984-1009): default load factor, room for the elements, then one insertion per element.
`left_empties_` is not reduced.  `E` is the default constructed hasher and comparison (FL:994). -/
def copyOf (mem : Mem) (t : Map K V) : Out (Map K V) Unit :=
  (make mem (minRequire (blank : Map K V) t.size)).bind fun t1 _ =>
    lift (walk t) fun l => lift (insertAllUnique E sec l t1) fun t2 => .ok t2 ()

/-- `insert(first, last)` (FL:1402-1407). -/
def insertAll (mem : Mem) : List (K × V) → Map K V → Out (Map K V) Unit
  | [], t => .ok t ()
  | e :: es, t => (emplace E sec false mem true e.1 e.2 t).bind fun t' _ => insertAll mem es t'

/-- The range constructor (FL:949-967) and the one from an initializer list (FL:1041-1057). -/
def ofList (mem : Mem) (n : Nat) (l : List (K × V)) : Out (Map K V) Unit :=
  (make mem (minRequire (blank : Map K V) (max n l.length))).bind fun t1 _ => insertAll E sec mem l t1

end Model
end Verif.Flat
