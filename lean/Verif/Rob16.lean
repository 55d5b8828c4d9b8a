/-
Model of `robin16_hash_map` (hashmap/robin16_hash_map.h, R16 in the citations): robin hood hashing with one 16-bit control word
(distance, hash) per slot, groups of 16 control words that may start at any slot.

Configuration: AVX2 (R16:684-966; Verif.Rob16Group relates the wordwise masks used here to the instructions), no index salt
(R16:135), no hash policy (R16:97), 64-bit `size_t`, `assert` compiled out.

Simplifications.
* Elements are values: moving or swapping elements between slots neither throws nor changes them.
* `sec` is the third hash (R16:1968-1976, `fibonacci_hash`), an arbitrary function of the hash code.
* `triv` is `is_slot_trivial_destructor` (R16:182-187): with it `destroy_slot` does nothing, so an erased element can still be
  read from its slot.
* `noexcept` functions that would throw, destructors and `std::terminate` are not modelled.
* The copy constructor, `erase(iterator)`, `erase(first, last)`, `erase_if` and `insert_or_assign` with a hint cannot be
  instantiated (R16:3532 casts `value_type *` to an unrelated pointer type, R16:1180 and R16:1185 use a member function as a
  number, R16:1828 applies `->` to a pair); copy and move assignment are implicitly deleted.
-/
import Verif.Spec
import Verif.Table

namespace Verif.Rob16

/-- `ctrl_data` (R16:207-309): distance from the home position and 8 bits of the hash. -/
structure Ctrl where
  dist : Nat
  tag : Nat
  deriving DecidableEq

/-- `kEmptySlot` (R16:189). -/
abbrev bEmpty : Nat := 0xFF
/-- `kEndOfMark` (R16:190). -/
abbrev bEnd : Nat := 0xFE
/-- `kDistLimit` (R16:194). -/
abbrev distLimit : Nat := 0x80

/-- The data members (R16:1279-1288).  `clen` is the number of control words behind `groups_`, 0 for a null pointer.  `slot i` is
the element that can be read from slot `i`, if any; slots from `mask + 1` on do not exist. -/
structure Map (K V : Type) where
  ctrl : Nat → Ctrl
  clen : Nat
  gmask : Nat
  slot : Nat → Option (K × V)
  size : Nat
  mask : Nat
  thr : Nat
  mlf : Nat
  rev : Nat

/-- What the two allocations of `create_group` give: both blocks, no control block, or a control block but no slot
block. -/
inductive Mem
  | ok
  | noGroups
  | noSlots
  deriving DecidableEq

/-- Assumption on the allocator: no block of more than 2^48 control words is ever granted (the address space of the modelled
machine has 2^47 bytes). -/
def memLimit : Nat := 2 ^ 48

section Model
variable {K V : Type} (E : Env K) (sec : Nat → Nat)

/-- `slot_capacity()`, `capacity()` (R16:1469, 1486). -/
def cap (t : Map K V) : Nat := t.mask + 1
/-- `min_require_capacity(n)` (R16:1919-1922). -/
def minRequire (t : Map K V) (n : Nat) : Nat := n * t.rev % W / 65536
/-- `index_for_hash(hash_code)` (R16:1982-1991; the second hash R16:1951-1966 is the identity). -/
def home (t : Map K V) (k : K) : Nat := E.h k &&& t.mask
/-- `get_ctrl_hash(hash_code)` (R16:2001-2005). -/
def tagOf (k : K) : Nat := sec (E.h k) &&& 0xFF
/-- `next_index(i)` (R16:1993-1995). -/
def next (t : Map K V) (i : Nat) : Nat := (i + 1) &&& t.mask
/-- `slot_next_group(i)` (R16:2038-2040). -/
def nextGroup (t : Map K V) (i : Nat) : Nat := (i + 16) &&& t.mask
/-- `round_dist(last, first)` (R16:2016-2024). -/
def roundDist (t : Map K V) (last first : Nat) : Nat := ((last + cap t - first) &&& t.mask) % 256
/-- `isUsed()` (R16:268-270): true for an end mark. -/
def used (t : Map K V) (i : Nat) : Bool := decide ((t.ctrl i).dist < bEmpty)
/-- `uint8_t(distance + 1) > d` for the control word `i` (R16:2644, 2865, 2889); for `d = 0` it is `isUsed()` (R16:2630, 2844).
Its negation is the test of `unique_prepare_insert` (R16:3384, 3391, 3399, 3407). -/
def passes (t : Map K V) (i d : Nat) : Bool := decide (d < ((t.ctrl i).dist + 1) % 256)

/-! ### Groups -/

/-- The positions in `maskEmpty` of `matchHashAndDistance(_, d)` at the control word `i` (R16:774-803), the same as in
`matchEmptyAndDistance(d)` (R16:899-933): words that are empty or nearer to their home than `d` plus the position. -/
def stops (t : Map K V) (i d : Nat) : List Nat :=
  (List.range 16).filter fun p => decide ((t.ctrl (i + p)).dist = bEmpty) || decide ((t.ctrl (i + p)).dist < d + p)
/-- The positions in `maskHash` of `matchHashAndDistance(tg, d)` at the control word `i` (R16:774-803). -/
def hits (t : Map K V) (i d tg : Nat) : List Nat :=
  (List.range 16).filter fun p => !(decide ((t.ctrl (i + p)).dist = bEmpty) || decide ((t.ctrl (i + p)).dist < d + p)) &&
    decide ((t.ctrl (i + p)).tag = tg)
/-- The 16 words from `i` on lie in the control block. -/
def readable (t : Map K V) (i : Nat) : Bool := decide (i + 16 ≤ t.clen)

/-! ### Lookup -/

/-- Inner loop of the probe (R16:2685-2694, 2920-2931): compare the key with the slots whose control word matched. -/
def scan (t : Map K V) (k : K) (i : Nat) : List Nat → Res (Option Nat)
  | [] => .ok none
  | p :: ps =>
    match t.slot ((i + p) &&& t.mask) with
    | none => .ub
    | some e => if E.eq e.1 k then .ok (some ((i + p) &&& t.mask)) else scan t k i ps

/-- Where a probe ends. -/
inductive Probe
  | hit (j : Nat)         -- the key is in slot `j`
  | stop (i d : Nat)      -- the key is not there; it belongs into slot `i` at distance `d`
  | full                  -- back at the home position
  deriving DecidableEq

/-- The probe loop over groups of `find_impl` (R16:2680-2700) and `find_or_prepare_insert` (R16:2916-2943, 2952-2958), at the
group `i`; distance and index repeat within `capacity + 16` groups. -/
def groupLoop (t : Map K V) (k : K) : Nat → Nat → Nat → Res Probe
  | 0, _, _ => .diverge
  | f + 1, i, d =>
    if readable t i then
      (scan E t k i (hits t i d (tagOf E sec k))).bind fun
        | some j => .ok (.hit j)
        | none =>
          match stops t i d with
          | p :: _ => .ok (.stop ((i + p) &&& t.mask) (roundDist t (i + p) (home E t k)))
          | [] =>
            if nextGroup t i = home E t k then .ok .full
            else groupLoop t k f (nextGroup t i) ((d + 16) % 256)
    else .ub

/-- The unrolled steps in front of the groups: two in `find_impl` (R16:2627-2657), four in `find_or_prepare_insert`
(R16:2842-2913). -/
def unroll (t : Map K V) (k : K) : Nat → Nat → Nat → Res Probe
  | 0, i, d => groupLoop E sec t k (cap t + 16) i d
  | s + 1, i, d =>
    if i < t.clen then
      if passes t i d then
        if (t.ctrl i).tag = tagOf E sec k then
          match t.slot i with
          | none => .ub
          | some e => if E.eq e.1 k then .ok (.hit i) else unroll t k s (next t i) (d + 1)
        else unroll t k s (next t i) (d + 1)
      else .ok (.stop i d)
    else .ub

/-- `find_impl(key)` (R16:2620-2703), `none` for `slot_capacity()`. -/
def findIdx (t : Map K V) (k : K) : Res (Option Nat) :=
  (unroll E sec t k 2 (home E t k) 0).bind fun
    | .hit j => .ok (some j)
    | _ => .ok none

/-- What the caller sees of `find(key)` (R16:1748-1755): the element, or `end()`. -/
def lookup (t : Map K V) (k : K) : Res (Option (K × V)) :=
  (findIdx E sec t k).bind fun
    | none => .ok none
    | some j =>
      match t.slot j with
      | none => .ub
      | some e => .ok (some e)

/-- `contains(key)` (R16:1743-1746). -/
def contains (t : Map K V) (k : K) : Res Bool := (findIdx E sec t k).bind fun r => .ok r.isSome

/-- `count(key)` (R16:1738-1741). -/
def count (t : Map K V) (k : K) : Res Nat := (findIdx E sec t k).bind fun r => .ok (if r.isSome then 1 else 0)

/-! ### Control words -/

/-- `setUsedCtrl(i, c)` (R16:2265-2277, 2287-2302). -/
def setUsed (t : Map K V) (i : Nat) (c : Ctrl) : Map K V :=
  { t with ctrl := if i < 16 then upd (upd t.ctrl i c) (i + cap t) c else upd t.ctrl i c }

/-- `setUnusedCtrl(i, kEmptySlot)` (R16:2279-2285, 2304-2316): the hash bits stay. -/
def setEmpty (t : Map K V) (i : Nat) : Map K V :=
  let f := upd t.ctrl i ⟨bEmpty, (t.ctrl i).tag⟩
  { t with ctrl := if i < 16 then upd f (i + cap t) ⟨bEmpty, (t.ctrl (i + cap t)).tag⟩ else f }

/-! ### Capacity -/

/-- `calc_capacity(n)` (R16:1909-1916). -/
def calcCapacity (n : Nat) : Res Nat :=
  let c := max n 4
  if isPow2 c then .ok c else roundUp c

/-- The control block written by `create_group` (R16:2354-2365): `c` the capacity. -/
def newCtrl (c i : Nat) : Ctrl :=
  if c < 16 ∧ ((2 * c ≤ i ∧ i < 2 * c + 16) ∨ 16 ≤ i) then ⟨bEnd, 0⟩ else ⟨bEmpty, 0⟩

/-- `create_group<false>(c)` (R16:2333-2376).  The members `groups_` and `group_mask_` are replaced before the slots are
allocated. -/
def createGroup (mem : Mem) (c : Nat) (t : Map K V) : Out (Map K V) Unit :=
  let g := (c + 15) / 16 - 1
  if mem = .noGroups ∨ memLimit < c then .throw t
  else if mem = .noSlots then .throw { t with ctrl := newCtrl c, clen := (g + 2) * 16, gmask := g }
  else .ok { ctrl := newCtrl c, clen := (g + 2) * 16, gmask := g, slot := fun _ => none, size := 0, mask := c - 1,
             thr := c * t.mlf % W / 65536, mlf := t.mlf, rev := t.rev } ()

/-! ### Robin hood insertion -/

/-- `emplace_rich_slot(e, i, c)` (R16:3025-3038). -/
def putRich (t : Map K V) (i : Nat) (c : Ctrl) (e : K × V) : Map K V :=
  { setUsed t i c with slot := upd t.slot i (some e) }

/-- One step of the loop of `insert_to_place` (R16:2990-3000) at a slot that is not empty: the carried element changes places
with one that is nearer to its home. -/
def swapStep (t : Map K V) (i : Nat) (c : Ctrl) (e : K × V) : Option (Map K V × Ctrl × (K × V)) :=
  if (t.ctrl i).dist < c.dist then (t.slot i).map fun e' => (putRich t i c e, t.ctrl i, e') else some (t, c, e)

/-- The loop of `insert_to_place<reh>` (R16:2988-3022) at slot `i`, carrying the element `e` with control word `c`.  The result
says whether the table has to grow. -/
def placeLoop (reh : Bool) (target : Nat) : Nat → Nat → Ctrl → K × V → Map K V → Res (Map K V × Bool)
  | 0, _, _, _, _ => .diverge
  | f + 1, i, c, e, t =>
    if (t.ctrl i).dist = bEmpty then .ok (putRich t i c e, false)
    else
      match swapStep t i c e with
      | none => .ub
      | some (t', c', e') =>
        if (reh = false ∧ distLimit < (c'.dist + 1) % 256) ∨ next t i = target then
          .ok (putRich t' target ⟨(c'.dist + 1) % 256, c'.tag⟩ e', true)
        else placeLoop reh target f (next t i) ⟨(c'.dist + 1) % 256, c'.tag⟩ e' t'

/-- `insert_to_place<reh>(target, c)` (R16:2962-3023): makes room in slot `target`. -/
def insertToPlace (reh : Bool) (target : Nat) (c : Ctrl) (t : Map K V) : Res (Map K V × Bool) :=
  match t.slot target with
  | none => .ub
  | some e => placeLoop reh target (cap t) (next t target) ⟨((t.ctrl target).dist + 1) % 256, (t.ctrl target).tag⟩ e
      (setUsed t target c)

/-- The loop over groups of `unique_prepare_insert` (R16:3417-3436). -/
def freeLoop (t : Map K V) (h : Nat) : Nat → Nat → Nat → Res (Nat × Nat)
  | 0, _, _ => .diverge
  | f + 1, i, d =>
    if readable t i then
      match stops t i d with
      | p :: _ => .ok ((i + p) &&& t.mask, roundDist t (i + p) h)
      | [] => freeLoop t h f (nextGroup t i) ((d + 16) % 256)
    else .ub

/-- The unrolled steps of `unique_prepare_insert` (R16:3381-3415). -/
def freeUnroll (t : Map K V) (h : Nat) : Nat → Nat → Nat → Res (Nat × Nat)
  | 0, i, d => freeLoop t h (cap t + 16) i d
  | s + 1, i, d =>
    if i < t.clen then
      if passes t i d then freeUnroll t h s (next t i) (d + 1) else .ok (i, d)
    else .ub

/-- Makes the slot `i` available for a key with control word `c` (R16:3051-3063, 3451-3460). -/
def makeRoom (reh : Bool) (i : Nat) (c : Ctrl) (t : Map K V) : Res (Map K V × Bool) :=
  if (t.ctrl i).dist = bEmpty then .ok (setUsed t i c, false) else insertToPlace reh i c t

/-- `move_insert_unique(slot)` (R16:3442-3473). -/
def insertUnique (e : K × V) (t : Map K V) : Res (Map K V) :=
  (freeUnroll t (home E t e.1) 4 (home E t e.1) 0).bind fun r =>
    (makeRoom true r.1 ⟨r.2, tagOf E sec e.1⟩ t).bind fun q =>
      .ok { q.1 with slot := upd q.1.slot r.1 (some e), size := q.1.size + 1 }

/-- The used slots in the order in which a rehash visits them (R16:2416-2429 with `matchUsed` for at least 16 slots, 2447-2455 with
`isUsed` for fewer). -/
def usedIdx (t : Map K V) : List Nat :=
  (List.range (cap t)).filter fun i => decide ((t.ctrl i).dist < if 16 ≤ cap t then bEnd else bEmpty)

/-- The loop of `rehash_impl` over the old slots. -/
def transferAll (old : Map K V) : List Nat → Map K V → Res (Map K V)
  | [], t => .ok t
  | i :: is, t =>
    match old.slot i with
    | none => .ub
    | some e => (insertUnique E sec e t).bind fun t' => transferAll old is t'

/-- `rehash_impl<AllowShrink, AlwaysResize>(n)` (R16:2378-2467).  Without a control block the loop reads through a null
pointer. -/
def rehashImpl (allowShrink always : Bool) (mem : Mem) (n : Nat) (t : Map K V) : Out (Map K V) Unit :=
  match calcCapacity n with
  | .ub => .ub
  | .diverge => .diverge
  | .ok c =>
    if always || (!allowShrink && decide (cap t < c)) || (allowShrink && c != cap t) then
      match createGroup mem c t with
      | .ok t1 _ =>
        if t.clen = 0 then .ub
        else
          match transferAll E sec t (usedIdx t) t1 with
          | .ok t2 => .ok t2 ()
          | .diverge => .diverge
          | .ub => .ub
      | .throw t' => .throw t'
      | .diverge => .diverge
      | .ub => .ub
    else .ok t ()

/-- `grow_if_necessary()` (R16:2322-2325). -/
def grow (mem : Mem) (t : Map K V) : Out (Map K V) Unit := rehashImpl E sec false true mem (cap t * 2 % W) t

/-! ### Modifiers -/

/-- A read-only result. -/
def lift {α β : Type} (r : Res α) (f : α → Out (Map K V) β) : Out (Map K V) β :=
  match r with
  | .ok a => f a
  | .diverge => .diverge
  | .ub => .ub

/-- `find_or_prepare_insert(key)` (R16:2828-2960): the slot and, if the key is new, its distance.  `need_grow()` is R16:2318-2320.
The fuel counts the recursive calls after a growth. -/
def prepare (mem : Mem) (k : K) : Nat → Map K V → Out (Map K V) (Nat × Option Nat)
  | 0, _ => .diverge
  | f + 1, t =>
    lift (unroll E sec t k 4 (home E t k) 0) fun
      | .hit j => .ok t (j, none)
      | .full => (grow E sec mem t).bind fun t' _ => prepare mem k f t'
      | .stop i d =>
        if t.thr ≤ t.size then (grow E sec mem t).bind fun t' _ => prepare mem k f t' else .ok t (i, some d)

/-- `emplace_impl<AlwaysUpdate>` (R16:3040-3369, all overloads).  `ctor` says whether the constructor of the element returns;
if it throws the control word has already been written.  The fuel counts the recursive calls after a growth. -/
def emplace (update : Bool) (mem : Mem) (ctor : Bool) (k : K) (v : V) : Nat → Map K V → Out (Map K V) (Nat × Bool)
  | 0, _ => .diverge
  | f + 1, t =>
    (prepare E sec mem k 64 t).bind fun t' r =>
      match r.2 with
      | none =>
        match t'.slot r.1 with
        | none => .ub
        | some e => .ok (if update then { t' with slot := upd t'.slot r.1 (some (e.1, v)) } else t') (r.1, false)
      | some d =>
        lift (makeRoom false r.1 ⟨d, tagOf E sec k⟩ t') fun q =>
          if q.2 then (grow E sec mem q.1).bind fun t'' _ => emplace update mem ctor k v f t''
          else if ctor then .ok { q.1 with slot := upd q.1.slot r.1 (some (k, v)), size := q.1.size + 1 } (r.1, true)
          else .throw { q.1 with slot := upd q.1.slot r.1 none }

/-- What `destroy_slot(i)` leaves (R16:2229-2244). -/
def dropSlot (triv : Bool) (s : Nat → Option (K × V)) (i : Nat) : Nat → Option (K × V) := if triv then s else upd s i none

/-- The loop of `erase_slot` (R16:3576-3592): the elements behind slot `i` move back until one is at home or a slot is empty.  It
does not turn around at the last slot. -/
def eraseLoop (triv : Bool) : Nat → Nat → Map K V → Res (Map K V)
  | 0, _, _ => .diverge
  | f + 1, i, t =>
    if i + 1 < t.clen then
      if (t.ctrl (i + 1)).dist = bEmpty ∨ (t.ctrl (i + 1)).dist = 0 then .ok (setEmpty t i)
      else if i + 1 < cap t then
        match t.slot (i + 1) with
        | none => .ub
        | some e => eraseLoop triv f (i + 1)
            { setUsed t i ⟨(t.ctrl (i + 1)).dist - 1, (t.ctrl (i + 1)).tag⟩ with
              slot := dropSlot triv (upd t.slot i (some e)) (i + 1) }
      else .ub
    else .ub

/-- `erase_slot(i)` (R16:3559-3593). -/
def eraseSlot (triv : Bool) (i : Nat) (t : Map K V) : Res (Map K V) :=
  match t.slot i with
  | none => .ub
  | some _ => eraseLoop triv (t.clen + 1) i { t with slot := dropSlot triv t.slot i, size := (t.size + W - 1) % W }

/-- `erase(key)` (R16:1882-1885, 3548-3557): number of removed elements. -/
def eraseKey (triv : Bool) (k : K) (t : Map K V) : Out (Map K V) Nat :=
  lift (findIdx E sec t k) fun
    | some i => lift (eraseSlot triv i t) fun t' => .ok t' 1
    | none => .ok t 0

/-- `destroy_slots<false>()` (R16:2206-2227): destroying a slot without an element is undefined. -/
def destroySlots (triv : Bool) (t : Map K V) : Res (Map K V) :=
  if triv || t.clen == 0 then .ok { t with size := 0 }
  else if (List.range (cap t)).all fun i => !used t i || (t.slot i).isSome then
    .ok { t with slot := fun i => if used t i then none else t.slot i, size := 0 }
  else .ub

/-- `clear(need_destroy)` (R16:1664-1675).  `destroy_group<false>` (R16:2190-2204) empties the groups `0 .. group_mask()`; the copies
of the first control words behind them are not touched. -/
def clear (triv destroy : Bool) (t : Map K V) : Out (Map K V) Unit :=
  if 4 < cap t && destroy then createGroup .ok 4 t
  else
    lift (destroySlots triv t) fun t' =>
      .ok { t' with ctrl := fun i => if i < (t.gmask + 1) * 16 then ⟨bEmpty, 0⟩ else t.ctrl i } ()

/-- `rehash(n, read_only)`, `reserve`, `resize` (R16:1677-1691). -/
def rehash (mem : Mem) (readOnly : Bool) (n : Nat) (t : Map K V) : Out (Map K V) Unit :=
  rehashImpl E sec true false mem (if readOnly then max n t.size else max (minRequire t n) t.size) t

/-- `shrink_to_fit(read_only)` (R16:1693-1700). -/
def shrinkToFit (mem : Mem) (readOnly : Bool) (t : Map K V) : Out (Map K V) Unit :=
  rehashImpl E sec true false mem (if readOnly then t.size else minRequire t t.size) t

/-- `max_load_factor(mlf)` (R16:1505-1524); `m` and `r` are the two integers computed from the clamped float.  The threshold is not
computed again. -/
def setMlf (mem : Mem) (m r : Nat) (t : Map K V) : Out (Map K V) Unit :=
  let t1 := { t with mlf := m, rev := r }
  if t.thr < t.size ∧ cap t < minRequire t1 t.size then rehash E sec mem false t.size t1 else .ok t1 ()

/-- A map without storage, on which `create_group` works in a constructor (R16:1309-1312); also what `swap_content` leaves in a
moved-from map (R16:1388-1404). -/
def blank : Map K V := ⟨fun _ => ⟨0, 0⟩, 0, 0, fun _ => none, 0, 0, 0, 32768, 131072⟩

/-- Constructor with a requested capacity (R16:1305-1317). -/
def make (mem : Mem) (n : Nat) : Out (Map K V) Unit :=
  match calcCapacity n with
  | .ub => .ub
  | .diverge => .diverge
  | .ok c => createGroup mem c blank

/-! ### Iteration -/

/-- `begin()` (R16:1550-1578, the `#if 1` branch): the first used control word of the groups, `end()` if there is none. -/
def beginIdx (t : Map K V) : Nat :=
  ((List.range ((t.gmask + 1) * 16)).find? fun i => decide ((t.ctrl i).dist < bEnd)).getD (cap t)

/-- `operator ++` (R16:1134-1141): the next control word that is not empty, at most up to the end. -/
def nextIdx (t : Map K V) : Nat → Nat → Res Nat
  | 0, _ => .ub
  | f + 1, i => if (t.ctrl (i + 1)).dist = bEmpty ∧ i + 1 < cap t then nextIdx t f (i + 1) else .ok (i + 1)

/-- The range-for loop from index `i`.  Going beyond the slots is undefined, so the fuel is the number of slots. -/
def walkLoop (t : Map K V) : Nat → Nat → Res (List (K × V))
  | 0, _ => .ub
  | f + 1, i =>
    if i = cap t then .ok [] else
      match t.slot i with
      | none => .ub
      | some e => (nextIdx t (t.clen - (i + 1)) i).bind fun j => (walkLoop t f j).bind fun l => .ok (e :: l)

/-- `for (auto & e : map)`. -/
def walk (t : Map K V) : Res (List (K × V)) := if t.clen = 0 then .ub else walkLoop t (cap t + 1) (beginIdx t)

/-- What slot `i` holds.  Specification device. -/
def cellAt (t : Map K V) (i : Nat) : Option (K × V) := if used t i then t.slot i else none

/-- The elements held by the map, in slot order.  Specification device. -/
def entries (t : Map K V) : List (K × V) := (List.range (cap t)).filterMap (cellAt t)

/-! ### Ranges, swap -/

/-- The calls of emplace made by one insertion: every call but the last doubles the capacity. -/
def insert (update : Bool) (mem : Mem) (ctor : Bool) (k : K) (v : V) (t : Map K V) : Out (Map K V) (Nat × Bool) :=
  emplace E sec update mem ctor k v 64 t

/-- `insert(first, last)` (R16:1805-1814). -/
def insertAll (mem : Mem) : List (K × V) → Map K V → Out (Map K V) Unit
  | [], t => .ok t ()
  | e :: es, t => (insert E sec false mem true e.1 e.2 t).bind fun t' _ => insertAll mem es t'

/-- The range constructor (R16:1323-1341, 2327-2331) and the one from an initializer list (R16:1424-1443). -/
def ofList (mem : Mem) (n : Nat) (l : List (K × V)) : Out (Map K V) Unit :=
  (make mem (minRequire (blank : Map K V) (max n l.length))).bind fun t1 _ => insertAll E sec mem l t1

/-- `swap(other)` (R16:1702-1706, 3595-3631) for maps with the same hasher and comparison. -/
def swapMaps (a b : Map K V) : Map K V × Map K V := (b, a)

/-- The move constructor (R16:1388-1404): the new map and what is left of the source. -/
def moveOf (a : Map K V) : Map K V × Map K V := swapMaps blank a

end Model
end Verif.Rob16
