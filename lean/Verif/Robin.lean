/-
Model of `robin_hash_map` (hashmap/robin_hash_map.h, RH in the citations) with the direct layout (elements in
the slot array at the index of their control word, `kIsIndirectKV == false`).

Configuration: the macros at RH:101-105 (no hash policy, separate slot array, no read prefetch), no index salt,
AVX2, 64-bit `size_t`.

`store` is `kNeedStoreHash`.  With the default layout policy a direct layout never stores hashes (the two
detectors RH:328-332 and RH:350-354 are the same formula), so `store = false` is the map that
`robin_hash_map<int, int>` gives; `store = true` needs a user supplied layout policy.

`chk` is a device of the model: with `chk = true` the two silent accidents of the code (the distance byte
overflows, a rehash finds no room for an element) end the computation with the outcome `ub`; with
`chk = false` the code goes on as a build with `NDEBUG` does.

Simplifications.
* Elements are values: moving an element between slots neither throws nor changes it.  In particular the
  self-move in the `kNeedGrow` exits of `insert_to_place` (RH:5768, 5775, `insert == insert_slot`) is the identity,
  which is right for trivially copyable elements only.
* Allocation of the control block and of the slot block is one step (`mem : Bool` is the allocator's answer).
* The members `clen`, `slen` are ghosts: the lengths of the two blocks.
* `last` is the pointer `last_slot_` as an offset from `slots_`; `none` is a pointer that does not point into (or
  one past) this map's own slot block.
-/
import Verif.Spec
import Verif.Table

namespace Verif.Robin

/-- `ctrl_data` (RH:460-790 for `store = false`: one byte `dist`; RH:792-1119 for `store = true`: `hash` in the low and
`dist` in the high byte of a 16-bit word).  `dist` is the signed byte. -/
structure Ctrl where
  dist : Int
  hash : Nat
  deriving DecidableEq

namespace Ctrl
/-- `kEmptySlot` (RH:360, `setEmpty`). -/
def empty : Ctrl := ⟨-1, 0⟩
/-- `kEndOfMark` (RH:361). -/
def endOf : Ctrl := ⟨-2, 0⟩
/-- `isEmpty()` (RH:529-531, 858-860). -/
def isEmpty (c : Ctrl) : Bool := c.dist == -1
/-- `isUsed()` (RH:549-551, 878-880): `value >= 0`. -/
def isUsed (c : Ctrl) : Bool := decide (0 ≤ c.dist)
/-- The member `value` that the probe loops compare: one byte, or the 16-bit word. -/
def val (store : Bool) (c : Ctrl) : Int := if store then c.dist * 256 + c.hash else c.dist
/-- The member `uvalue`. -/
def uval (store : Bool) (c : Ctrl) : Nat := if store then (c.dist % 256).toNat * 256 + c.hash else (c.dist % 256).toNat
/-- A signed byte, two's complement. -/
def wrap8 (x : Int) : Int := (x + 128) % 256 - 128
/-- `incDist()` (RH:639-641, 972-974). -/
def inc (c : Ctrl) : Ctrl := { c with dist := wrap8 (c.dist + 1) }
/-- `decDist()` (RH:643-645, 976-978). -/
def dec (c : Ctrl) : Ctrl := { c with dist := wrap8 (c.dist - 1) }
end Ctrl

/-- The data members (RH:3031-3040) and the ghosts. -/
structure Map (K V : Type) where
  alloc : Bool
  ctrl : Nat → Ctrl
  slot : Nat → Option (K × V)
  last : Option Nat
  size : Nat
  mask : Nat
  look : Nat
  thr : Nat
  mlf : Nat
  rev : Nat
  clen : Nat
  slen : Nat

/-- `kGroupWidth` (RH:1521, 1705, 1938). -/
def width (store : Bool) : Nat := if store then 16 else 32

/-- Assumption on the allocator: no block of more than 2^48 slots is ever granted (the address space of the modelled
machine has 2^47 bytes). -/
def memLimit : Nat := 2 ^ 48

/-- `kMinLookups` (RH:277). -/
def minLookups : Nat := 4

/-- Default constructed map (RH:3053-3071), also the map after `destroy_data` and `reset` (RH:4175-4209,
4281-4295).  The static control words are RH:3792-3828: four empty ones, then end marks. -/
def emptyMap {K V : Type} (store : Bool) (mlf rev : Nat) : Map K V where
  alloc := false
  ctrl := fun i => if i < 4 then .empty else .endOf
  slot := fun _ => none
  last := some 0
  size := 0
  mask := 0
  look := minLookups
  thr := 0
  mlf := mlf
  rev := rev
  clen := 2 * width store
  slen := 0

/-- `fibonacci_hash64` (hasher/hashes.h:644-650). -/
def fibonacciHash (x : Nat) : Nat := (x * 11400714818402800987 % W) >>> 28

section Model
variable {K V : Type} (store chk : Bool) (E : Env K)

/-- `slot_capacity()` (RH:3291). -/
def slotCap (t : Map K V) : Nat := t.mask + (if t.mask = 0 then 0 else 1)
/-- `max_slot_capacity()` (RH:3299-3301), the index of `end()`. -/
def maxCap (t : Map K V) : Nat := slotCap t + t.look
/-- `max_distance()` (RH:3296-3298). -/
def maxDist (t : Map K V) : Nat := t.look * 256 % 65536
/-- `group_count()` (RH:3278-3280). -/
def groups (t : Map K V) : Nat := (maxCap t + width store - 1) / width store
/-- `index_for_hash(hash_code)` (RH:3991-4006; the second hash RH:3978-3988 is the identity). -/
def home (t : Map K V) (k : K) : Nat := E.h k &&& t.mask
/-- `get_ctrl_hash(hash_code)` (RH:4011-4033). -/
def ctrlHash (k : K) : Nat := if store then fibonacciHash (E.h k) &&& 255 else 0

/-! ### Probing -/

/-- Where a probe ends. -/
inductive Probe
  | hit (i : Nat)               -- the key is in slot `i`
  | stop (i : Nat) (d : Ctrl)   -- `dist_and_0.value > ctrl->value` at index `i`
  deriving DecidableEq

/-- The loop of `direct_find` (RH:5150-5163), `direct_find_index` and `direct_find_and_insert` (RH:5504-5515).  The fuel is
the number of control words from `i` to the end of the control block; reading beyond it is `ub`. -/
def probeLoop (t : Map K V) (k : K) : Nat → Nat → Ctrl → Res Probe
  | 0, _, _ => .ub
  | f + 1, i, d =>
    if d.val store ≤ (t.ctrl i).val store then
      if !store || (t.ctrl i).hash == ctrlHash store E k then
        match t.slot i with
        | none => .ub
        | some e =>
          if E.eq e.1 k then .ok (.hit i)
          else if chk && d.dist == 127 then .ub else probeLoop t k f (i + 1) d.inc
      else if chk && d.dist == 127 then .ub else probeLoop t k f (i + 1) d.inc
    else .ok (.stop i d)

/-- Probe from the home position with `ctrl_type dist_and_0` (zero). -/
def probe (t : Map K V) (k : K) : Res Probe :=
  probeLoop store chk E t k (t.clen - home E t k) (home E t k) ⟨0, 0⟩

/-- The loop of `find_failed` (RH:5674-5679), `find_and_insert_no_grow` (RH:6155-6158) and `unique_find_and_insert`
(RH:6324-6327): no comparison of keys. -/
def seekLoop (t : Map K V) : Nat → Nat → Ctrl → Res (Nat × Ctrl)
  | 0, _, _ => .ub
  | f + 1, i, d =>
    if d.val store ≤ (t.ctrl i).val store then
      if chk && d.dist == 127 then .ub else seekLoop t f (i + 1) d.inc
    else .ok (i, d)

/-- Seek from the home position. -/
def seek (t : Map K V) (k : K) : Res (Nat × Ctrl) :=
  seekLoop store chk t (t.clen - home E t k) (home E t k) ⟨0, 0⟩

/-- `find_impl(key)` as an index, `none` for `last_slot()`. -/
def findIdx (t : Map K V) (k : K) : Res (Option Nat) :=
  (probe store chk E t k).bind fun
    | .hit i => .ok (some i)
    | .stop _ _ => .ok none

/-- The index of the iterator returned by `find(key)` (RH:3552-3562, 3913-3918): `index_of(slot)` is the pointer
difference `slot - slots()`, undefined for a pointer into another block. -/
def findIter (t : Map K V) (k : K) : Res Nat :=
  (findIdx store chk E t k).bind fun
    | some i => .ok i
    | none => match t.last with
      | none => .ub
      | some n => .ok n

/-- What the caller sees of `find(key)`: compare with `end()`, dereference if different. -/
def lookup (t : Map K V) (k : K) : Res (Option (K × V)) :=
  (findIter store chk E t k).bind fun i =>
    if i = maxCap t then .ok none else
      match t.slot i with
      | none => .ub
      | some e => .ok (some e)

/-- `contains(key)` (RH:3547-3550): `find_impl(key) != last_slot()`. -/
def contains (t : Map K V) (k : K) : Res Bool :=
  (findIdx store chk E t k).bind fun
    | some i => .ok (decide (t.last ≠ some i))
    | none => .ok false

/-- `at(key)` (RH:3701-3721); `none`: `std::out_of_range`. -/
def atKey (t : Map K V) (k : K) : Res (Option V) :=
  (findIdx store chk E t k).bind fun
    | some i =>
      if t.last = some i then .ok none else
        match t.slot i with
        | none => .ub
        | some e => .ok (some e.2)
    | none => .ok none

/-! ### Insertion into place -/

/-- The exits of `insert_to_place` with `kNeedGrow` (RH:5768-5770, 5775-5777): the carried element goes to the insertion
place. -/
def needGrow (p0 : Nat) (t : Map K V) (rich : Ctrl) : Res (Map K V × Bool) :=
  match t.slot p0 with
  | none => .ub
  | some _ => .ok ({ t with ctrl := upd t.ctrl p0 rich }, false)

/-- The loop of `insert_to_place<isRehashing>` (RH:5742-5773).  The carried element is in slot `p0`, its control word
is `rich`; `true` is `kIsNotExists`, `false` is `kNeedGrow`.  The fuel is the number of slots from `i` to
`last_slot()`. -/
def placeLoop (rehashing : Bool) (p0 : Nat) : Nat → Map K V → Nat → Ctrl → Res (Map K V × Bool)
  | 0, t, _, rich => needGrow p0 t rich
  | f + 1, t, i, rich =>
    if (t.ctrl i).isEmpty then
      match t.slot p0 with
      | none => .ub
      | some e => .ok ({ t with ctrl := upd t.ctrl i rich, slot := upd (upd t.slot i (some e)) p0 none }, true)
    else if (t.ctrl i).dist < rich.dist then
      let t' := { t with ctrl := upd t.ctrl i rich, slot := upd (upd t.slot i (t.slot p0)) p0 (t.slot i) }
      let rich' := (t.ctrl i).inc
      if !rehashing && decide (maxDist t ≤ rich'.uval store) then needGrow p0 t' rich'
      else placeLoop rehashing p0 f t' (i + 1) rich'
    else if chk && rich.dist == 127 then .ub
    else
      if !rehashing && decide (maxDist t ≤ rich.inc.uval store) then needGrow p0 t rich.inc
      else placeLoop rehashing p0 f t (i + 1) rich.inc

/-- `insert_to_place<isRehashing>(ctrl, slot, dist_and_hash)` (RH:5706-5778).  `target < last_slot` for unrelated
pointers is `ub`. -/
def insertToPlace (rehashing : Bool) (t : Map K V) (p0 : Nat) (d : Ctrl) : Res (Map K V × Bool) :=
  match t.last with
  | none => .ub
  | some n =>
    placeLoop store chk rehashing p0 (n - (p0 + 1)) { t with ctrl := upd t.ctrl p0 d } (p0 + 1) (t.ctrl p0).inc

/-- The common tail of the insertion functions (RH:5609-5615, 6164-6171, 6367-6374): use the place if it is empty, make
room otherwise.  The control block must be owned. -/
def place (rehashing : Bool) (t : Map K V) (i : Nat) (d : Ctrl) : Res (Map K V × Bool) :=
  if t.alloc then
    if (t.ctrl i).isEmpty then .ok ({ t with ctrl := upd t.ctrl i d }, true)
    else insertToPlace store chk rehashing t i d
  else .ub

/-- `SlotPolicyTraits::construct(&allocator_, slot, …); slot_size_++`. -/
def construct (i : Nat) (e : K × V) (t : Map K V) : Res (Map K V) :=
  if i < t.slen then .ok { t with slot := upd t.slot i (some e), size := t.size + 1 } else .ub

/-! ### Capacity -/

/-- `calc_capacity(n)` (RH:3844-3851). -/
def calcCapacity (n : Nat) : Res Nat :=
  let c := max n 4
  if isPow2 c then .ok c else roundUp c

/-- `max_lookups_` of a new block (RH:4351-4356, 3856-3867). -/
def lookups (cap : Nat) : Nat :=
  let b := Nat.log2 cap
  if b < 16 then max (b * 2) minLookups else min (b * 4) 128

/-- `min_require_capacity(n)` (RH:3869-3872). -/
def minRequire (t : Map K V) (n : Nat) : Nat := n * t.rev % W / 256

/-- `clear_ctrls` (RH:4246-4264): index `i` of a block of `G + 1` groups. -/
def clearedCtrl (cap look G i : Nat) : Ctrl :=
  let w := width store
  if cap < w ∧ ((cap + look ≤ i ∧ i < cap + look + w) ∨ G * w ≤ i) then .endOf else .empty

/-- `create_slots<false>(cap)` for `cap ≠ 0` (RH:4329-4398).  `max_lookups_` is written before the allocation (RH:4356),
so an exception leaves it changed. -/
def createSlots (mem : Bool) (cap : Nat) (t : Map K V) : Out (Map K V) Unit :=
  let look := lookups cap
  let G := (cap + look + (width store - 1)) / width store
  if mem && decide (cap ≤ memLimit) then
    .ok { alloc := true
          ctrl := clearedCtrl store cap look G
          slot := fun _ => none
          last := some (cap + look)
          size := 0
          mask := cap - 1
          look := look
          thr := cap * t.mlf / 256
          mlf := t.mlf
          rev := t.rev
          clen := (G + 1) * width store
          slen := cap + look } ()
  else .throw { t with look := look }

/-- `insert_no_grow(old_slot)` and `insert_no_grow(old_slot, ctrl_hash)` (RH:6145-6172, 6174-6201, 6268-6284): `hash` is
what the new control word records.  The result of `insert_to_place<true>` is only looked at by an `assert`. -/
def insertNoGrow (hash : Nat) (e : K × V) (t : Map K V) : Res (Map K V) :=
  (seek store chk E t e.1).bind fun (i, d) =>
    (place store chk true t i { d with hash := hash }).bind fun (t', done) =>
      if chk && !done then .ub else construct i e t'

/-- The loop over the used control words of the old block. -/
def transferAll (old : Map K V) : List Nat → Map K V → Res (Map K V)
  | [], t => .ok t
  | i :: is, t =>
    match old.slot i with
    | none => .ub
    | some e =>
      (insertNoGrow store chk E (if slotCap old < width store then (old.ctrl i).hash else 0) e t).bind fun t' =>
        transferAll old is t'

/-- Indices of the used control words that a rehash visits, in order (RH:4433, 4555-4571 for a block of at least one
group; RH:4575-4587 for a small one; nothing when nothing was allocated). -/
def usedIdx (t : Map K V) : List Nat :=
  (List.range (if width store ≤ slotCap t then groups store t * width store else if t.alloc then maxCap t else 0)).filter
    fun i => (t.ctrl i).isUsed

/-- `rehash_impl<AllowShrink, AlwaysResize>(n)` (RH:4402-4653). -/
def rehashImpl (allowShrink always mem : Bool) (n : Nat) (t : Map K V) : Out (Map K V) Unit :=
  match calcCapacity n with
  | .ub => .ub
  | .diverge => .diverge
  | .ok cap =>
    if always || (!allowShrink && decide (slotCap t < cap)) || (allowShrink && cap != slotCap t) then
      match createSlots store mem cap t with
      | .ok t1 _ =>
        match transferAll store chk E t (usedIdx store t) t1 with
        | .ok t2 => .ok t2 ()
        | .diverge => .diverge
        | .ub => .ub
      | .throw t' => .throw t'
      | .diverge => .diverge
      | .ub => .ub
    else .ok t ()

/-- `grow_if_necessary()` (RH:4270-4273). -/
def grow (mem : Bool) (t : Map K V) : Out (Map K V) Unit := rehashImpl store chk E false true mem ((t.mask + 1) * 2) t

/-! ### Public modifiers -/

/-- `FindResult` (RH:390-394) with the slot it refers to. -/
inductive Found
  | exists_ (i : Nat)
  | notExists (i : Nat)
  | needGrow

/-- A read-only result in the state `s`. -/
def lift {α β : Type} (r : Res α) (f : α → Out (Map K V) β) : Out (Map K V) β :=
  match r with
  | .ok a => f a
  | .diverge => .diverge
  | .ub => .ub

/-- The end of `direct_find_and_insert` at index `i` (RH:5526, 5609-5615). -/
def finish (k : K) (t : Map K V) (i : Nat) (d : Ctrl) : Out (Map K V) Found :=
  lift (place store chk false t i { d with hash := ctrlHash store E k }) fun (t', done) =>
    .ok t' (if done then .notExists i else .needGrow)

/-- `direct_find_and_insert(key)` (RH:5468-5616). -/
def findOrInsert (mem : Bool) (k : K) (t : Map K V) : Out (Map K V) Found :=
  lift (probe store chk E t k) fun
    | .hit i => .ok t (.exists_ i)
    | .stop i d =>
      if decide (t.thr ≤ t.size) || decide (maxDist t ≤ d.uval store) then
        (grow store chk E mem t).bind fun t1 _ =>
          lift (seek store chk E t1 k) fun (i1, d1) => finish store chk E k t1 i1 d1
      else finish store chk E k t i d

/-- `emplace_impl<AlwaysUpdate>` (RH:5870-5968 and the other overloads), `try_emplace_impl` (RH:6101-6141).  Returns the index of
the iterator and the flag.  The fuel counts the retries after `kNeedGrow`; every retry doubles the capacity. -/
def emplaceLoop (update mem : Bool) (k : K) (v : V) : Nat → Map K V → Out (Map K V) (Nat × Bool)
  | 0, _ => .diverge
  | f + 1, t =>
    (findOrInsert store chk E mem k t).bind fun t' r =>
      match r with
      | .notExists i => lift (construct i (k, v) t') fun t'' => .ok t'' (i, true)
      | .exists_ i =>
        match t'.slot i with
        | none => .ub
        | some e => .ok (if update then { t' with slot := upd t'.slot i (some (e.1, v)) } else t') (i, false)
      | .needGrow => (grow store chk E mem t').bind fun t'' _ => emplaceLoop update mem k v f t''

/-- With its full fuel (a capacity above `memLimit` is never granted). -/
def emplace (update mem : Bool) (k : K) (v : V) (t : Map K V) : Out (Map K V) (Nat × Bool) :=
  emplaceLoop store chk E update mem k v 64 t

/-- The backward shift loop of `erase_slot` (RH:6452-6465), `i` the hole; the fuel is the number of control words after
`i`. -/
def shiftLoop : Nat → Nat → Map K V → Res (Map K V)
  | 0, _, _ => .ub
  | f + 1, i, t =>
    if (t.ctrl (i + 1)).dist ≤ 0 then .ok { t with ctrl := upd t.ctrl i .empty }
    else
      match t.slot (i + 1) with
      | none => .ub
      | some e =>
        shiftLoop f (i + 1)
          { t with ctrl := upd t.ctrl i (t.ctrl (i + 1)).dec, slot := upd (upd t.slot i (some e)) (i + 1) none }

/-- `erase_slot(i)` (RH:6439-6471). -/
def eraseSlot (i : Nat) (t : Map K V) : Res (Map K V) :=
  (shiftLoop (t.clen - (i + 1)) i { t with slot := upd t.slot i none }).bind fun t' => .ok { t' with size := t'.size - 1 }

/-- `erase(key)` (RH:3723-3727, 6424-6437): number of removed elements. -/
def eraseKey (k : K) (t : Map K V) : Out (Map K V) Nat :=
  lift (findIdx store chk E t k) fun
    | some i => if i = maxCap t then .ok t 0 else lift (eraseSlot i t) fun t' => .ok t' 1
    | none => .ok t 0

/-- `clear_data()` (RH:4210-4264).  Without allocation the control words are the static constants. -/
def clearData (t : Map K V) : Out (Map K V) Unit :=
  if t.alloc then
    .ok { t with ctrl := clearedCtrl store (slotCap t) t.look (groups store t), slot := fun _ => none, size := 0 } ()
  else .ub

/-- `clear(need_destroy)` (RH:3504-3515). -/
def clear (destroy : Bool) (t : Map K V) : Out (Map K V) Unit :=
  if slotCap t > 0 && destroy then .ok (emptyMap store t.mlf t.rev) () else clearData store t

/-- `rehash(n, read_only)` (RH:3525-3531); `reserve` and `resize` are the same function (RH:3517-3523). -/
def rehash (mem readOnly : Bool) (n : Nat) (t : Map K V) : Out (Map K V) Unit :=
  rehashImpl store chk E true false mem (if readOnly then max n t.size else max (minRequire t n) t.size) t

/-- `shrink_to_fit(read_only)` (RH:3533-3540). -/
def shrinkToFit (mem readOnly : Bool) (t : Map K V) : Out (Map K V) Unit :=
  rehashImpl store chk E true false mem (if readOnly then t.size else minRequire t t.size) t

/-- `max_load_factor(mlf)` (RH:3316-3336); `m` and `r` are the two integers computed from the clamped float. -/
def setMlf (mem : Bool) (m r : Nat) (t : Map K V) : Out (Map K V) Unit :=
  let t1 := { t with mlf := m, rev := r }
  if t.size > t.thr && decide (minRequire t1 t.size > slotCap t) then rehash store chk E mem false t.size t1 else .ok t1 ()

/-- Constructor with a requested capacity (RH:3056-3071, 4328-4345). -/
def make (mem : Bool) (n : Nat) : Out (Map K V) Unit :=
  if n = 0 then .ok (emptyMap store 128 512) ()
  else
    match calcCapacity n with
    | .ub => .ub
    | .diverge => .diverge
    | .ok cap => createSlots store mem cap (emptyMap store 128 512)

/-! ### Iteration -/

/-- `begin()` (RH:3361-3396): the first used control word of the groups, `end()` if there is none. -/
def beginIdx (t : Map K V) : Nat :=
  ((List.range (groups store t * width store)).find? fun i => (t.ctrl i).isUsed).getD (maxCap t)

/-- `operator ++` (RH:2817-2825). -/
def nextIdx (t : Map K V) : Nat → Nat → Res Nat
  | 0, _ => .ub
  | f + 1, i => if (t.ctrl (i + 1)).isEmpty && decide (i + 1 < maxCap t) then nextIdx t f (i + 1) else .ok (i + 1)

/-- The range-for loop from index `i`. -/
def walkLoop (t : Map K V) : Nat → Nat → Res (List (K × V))
  | 0, _ => .diverge
  | f + 1, i =>
    if i = maxCap t then .ok [] else
      match t.slot i with
      | none => .ub
      | some e => (nextIdx t (t.clen - (i + 1)) i).bind fun j => (walkLoop t f j).bind fun l => .ok (e :: l)

/-- `for (auto & e : map)`. -/
def walk (t : Map K V) : Res (List (K × V)) := walkLoop t (t.clen + 1) (beginIdx store t)

/-- The elements held by the map, in slot order.  Specification device. -/
def entries (t : Map K V) : List (K × V) := (List.range t.slen).filterMap t.slot

end Model
end Verif.Robin
