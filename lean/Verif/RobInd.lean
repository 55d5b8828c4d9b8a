/-
Model of `robin_hash_map` (hashmap/robin_hash_map.h, RH in the citations) with the indirect layout
(`kIsIndirectKV == true`: the elements stand densely in the slot array, in the order of their insertion; a control word
holds the index of its element).  This is the layout that the default policy picks when the key or the mapped type is
big and has a destructor (RH:328-348), for instance `robin_hash_map<std::string, int>`.

Configuration: the macros at RH:101-105 (no hash policy, separate slot array, no read prefetch), no index salt,
64-bit `size_t`.  The indirect layout always stores hashes (RH:356-358).

`chk` is a device of the model: with `chk = true` the silent accidents of the code (the distance byte overflows, a control
word is placed behind `max_slot_capacity()`, an index does not fit into 32 bits, a rehash finds no room for a control word) end the
computation with the outcome `ub`; with `chk = false` the code goes on as a build with `NDEBUG` does.

Simplifications.
* Elements are values: moving or swapping elements neither throws nor changes them.
* Allocation of the control block and of the slot block is one step (`mem : Bool` is the allocator's answer).
* The members `clen`, `slen` are ghosts: the lengths of the two blocks.
* A slot pointer is an offset from `slots_`; `last` is `last_slot_`, `none` is a pointer that does not point into (or one
  past) this map's own slot block.
* The 16 reserved bits of a control word are always zero and left out.
-/
import Verif.Robin

namespace Verif.RobInd
open Robin (lookups minLookups memLimit fibonacciHash)

/-- `ctrl_data<T, true, true>` (RH:1121-1469): `hash`, signed byte `dist`, 32-bit `index`. -/
structure Ctrl where
  dist : Int
  hash : Nat
  idx : Nat
  deriving DecidableEq

namespace Ctrl
/-- `kEmptySlot64` (RH:386, `setEmpty` RH:1268-1270, `setUnused` RH:1276-1278). -/
def empty : Ctrl := ⟨-1, 0, 0⟩
/-- `kEndOfMark64` (RH:387). -/
def endOf : Ctrl := ⟨-2, 0, 0⟩
/-- `isEmpty()` (RH:1207-1209). -/
def isEmpty (c : Ctrl) : Bool := c.dist == -1
/-- `getLow()` (RH:1260-1262): the two low bytes as a signed number. -/
def low (c : Ctrl) : Int := c.dist * 256 + c.hash
/-- `incDist()` (RH:1322-1324). -/
def inc (c : Ctrl) : Ctrl := { c with dist := Robin.Ctrl.wrap8 (c.dist + 1) }
/-- `decDist()` (RH:1326-1328). -/
def dec (c : Ctrl) : Ctrl := { c with dist := Robin.Ctrl.wrap8 (c.dist - 1) }
end Ctrl

/-- The data members (RH:3031-3040) and the ghosts. -/
structure Map (K V : Type) where
  alloc : Bool
  ctrl : Nat → Ctrl
  slot : Nat → Option (K × V)
  last : Option Nat
  size : Nat
  mask : Nat
  look : Nat
  thr : Nat
  mlf : Nat
  rev : Nat
  clen : Nat
  slen : Nat

/-- `kGroupWidth` of the 8-byte control words (RH:2182, 2377). -/
def width : Nat := 4

/-- Default constructed map (RH:3053-3071), also the map after `destroy_data` and `reset` (RH:4175-4208, 4281-4295).
The static control words are RH:3830-3833: four empty ones, then four end marks. -/
def emptyMap {K V : Type} (mlf rev : Nat) : Map K V where
  alloc := false
  ctrl := fun i => if i < 4 then .empty else .endOf
  slot := fun _ => none
  last := some 0
  size := 0
  mask := 0
  look := minLookups
  thr := 0
  mlf := mlf
  rev := rev
  clen := 8
  slen := 0

section Model
variable {K V : Type} (chk : Bool) (E : Env K)

/-- `slot_capacity()` (RH:3291). -/
def slotCap (t : Map K V) : Nat := t.mask + (if t.mask = 0 then 0 else 1)
/-- `max_slot_capacity()` (RH:3299-3301). -/
def maxCap (t : Map K V) : Nat := slotCap t + t.look
/-- `group_count()` (RH:3278-3280). -/
def groups (t : Map K V) : Nat := (maxCap t + width - 1) / width
/-- `index_for_hash(hash_code)` (RH:3991-4006). -/
def home (t : Map K V) (k : K) : Nat := E.h k &&& t.mask
/-- `get_ctrl_hash(hash_code)` (RH:4011-4033). -/
def ctrlHash (k : K) : Nat := fibonacciHash (E.h k) &&& 255

/-! ### Probing -/

/-- Where a probe ends. -/
inductive Probe
  | hit (i : Nat)               -- the control word at index `i` refers to an element with the key
  | stop (i : Nat) (d : Ctrl)   -- `dist_and_0.getLow() > ctrl->getLow()` at index `i`
  deriving DecidableEq

/-- The loop of `indirect_find` (RH:5234-5244), `indirect_find_index` (RH:5439-5453) and `indirect_find_and_insert`
(RH:5631-5643).  The fuel is the number of control words from `i` to the end of the control block; reading beyond it is
`ub`. -/
def probeLoop (t : Map K V) (k : K) : Nat → Nat → Ctrl → Res Probe
  | 0, _, _ => .ub
  | f + 1, i, d =>
    if d.low ≤ (t.ctrl i).low then
      if (t.ctrl i).hash == ctrlHash E k then
        match t.slot (t.ctrl i).idx with
        | none => .ub
        | some e =>
          if E.eq e.1 k then .ok (.hit i)
          else if chk && d.dist == 127 then .ub else probeLoop t k f (i + 1) d.inc
      else if chk && d.dist == 127 then .ub else probeLoop t k f (i + 1) d.inc
    else .ok (.stop i d)

/-- Probe from the home position with `ctrl_type dist_and_0` (zero, RH:1158). -/
def probe (t : Map K V) (k : K) : Res Probe :=
  probeLoop chk E t k (t.clen - home E t k) (home E t k) ⟨0, 0, 0⟩

/-- The loop of `indirect_find_failed` (RH:5693-5698) and `indirect_find_and_insert_no_grow` (RH:6213-6216): no comparison of
keys. -/
def seekLoop (t : Map K V) : Nat → Nat → Ctrl → Res (Nat × Ctrl)
  | 0, _, _ => .ub
  | f + 1, i, d =>
    if d.low ≤ (t.ctrl i).low then
      if chk && d.dist == 127 then .ub else seekLoop t f (i + 1) d.inc
    else .ok (i, d)

/-- Seek from the home position. -/
def seek (t : Map K V) (k : K) : Res (Nat × Ctrl) :=
  seekLoop chk t (t.clen - home E t k) (home E t k) ⟨0, 0, 0⟩

/-- `indirect_find_index<KeyT, true>(key)` (RH:5423-5456) as the index of the control word, `none` for the answer
`max_slot_capacity()` of a failed search. -/
def findCtrlIdx (t : Map K V) (k : K) : Res (Option Nat) :=
  (probe chk E t k).bind fun
    | .hit i => .ok (some i)
    | .stop _ _ => .ok none

/-- `indirect_find(key)` (RH:5222-5247) as the index of the slot, `none` for `last_slot()`. -/
def findIdx (t : Map K V) (k : K) : Res (Option Nat) :=
  (findCtrlIdx chk E t k).bind fun
    | some i => .ok (some (t.ctrl i).idx)
    | none => .ok none

/-- The slot pointer in the iterator returned by `find(key)` (RH:3552-3562, 3906-3918). -/
def findIter (t : Map K V) (k : K) : Res (Option Nat) :=
  (findIdx chk E t k).bind fun
    | some j => .ok (some j)
    | none => .ok t.last

/-- The slot pointer in `end()` (RH:3406-3418). -/
def endPtr (t : Map K V) : Option Nat := some t.size

/-- What the caller sees of `find(key)`: compare with `end()`, dereference if different. -/
def lookup (t : Map K V) (k : K) : Res (Option (K × V)) :=
  (findIter chk E t k).bind fun p =>
    if p = endPtr t then .ok none else
      match p with
      | none => .ub
      | some j =>
        match t.slot j with
        | none => .ub
        | some e => .ok (some e)

/-- `contains(key)` (RH:3547-3550): `find_impl(key) != last_slot()`. -/
def contains (t : Map K V) (k : K) : Res Bool :=
  (findIdx chk E t k).bind fun
    | some j => .ok (decide (t.last ≠ some j))
    | none => .ok false

/-- `at(key)` (RH:3701-3721); `none`: `std::out_of_range`. -/
def atKey (t : Map K V) (k : K) : Res (Option V) :=
  (findIdx chk E t k).bind fun
    | some j =>
      if t.last = some j then .ok none else
        match t.slot j with
        | none => .ub
        | some e => .ok (some e.2)
    | none => .ok none

/-! ### Insertion into place -/

/-- The loop of `indirect_insert_to_place<isRehashing>` (RH:5792-5812) on the control words `w`; `rich` is the carried word,
`true` is `kIsNotExists`, `false` is `kNeedGrow` (the carried word then overwrites the one at the insertion place, RH:5808-5809,
5814-5815).  The fuel is the number of control words from `i` to `ctrls() + max_slot_capacity()`. -/
def placeLoop (rehashing : Bool) (p0 : Nat) : Nat → (Nat → Ctrl) → Nat → Ctrl → Res ((Nat → Ctrl) × Bool)
  | 0, w, _, rich => .ok (upd w p0 rich, false)
  | f + 1, w, i, rich =>
    if (w i).isEmpty then .ok (upd w i rich, true)
    else
      let swaps := decide ((w i).dist < rich.dist)
      let w' := if swaps then upd w i rich else w
      let rich' := if swaps then w i else rich
      if chk && rehashing && rich'.dist == 127 then .ub
      else if !rehashing && decide (rich'.inc.dist < 0) then .ok (upd w' p0 rich'.inc, false)
      else placeLoop rehashing p0 f w' (i + 1) rich'.inc

/-- `indirect_insert_to_place<isRehashing>(ctrl, dist_and_hash)` (RH:5780-5816). -/
def insertToPlace (rehashing : Bool) (t : Map K V) (p0 : Nat) (d : Ctrl) : Res ((Nat → Ctrl) × Bool) :=
  if chk && (t.ctrl p0).dist == 127 then .ub
  else placeLoop chk rehashing p0 (maxCap t - (p0 + 1)) (upd t.ctrl p0 d) (p0 + 1) (t.ctrl p0).inc

/-- The common tail of the insertion functions (RH:5652-5665, 6218-6232): the new control word refers to slot `size()`; use
the place if it is empty, make room otherwise.  The control block must be owned.  `none`: `kNeedGrow`, otherwise the index of
the slot. -/
def place (rehashing : Bool) (hash : Nat) (t : Map K V) (i : Nat) (d : Ctrl) : Res (Map K V × Bool) :=
  if t.alloc then
    if chk && (decide (maxCap t ≤ i) || decide (2 ^ 32 ≤ t.size)) then .ub
    else
      let word : Ctrl := ⟨d.dist, hash, t.size % 2 ^ 32⟩
      if (t.ctrl i).isEmpty then .ok ({ t with ctrl := upd t.ctrl i word }, true)
      else (insertToPlace chk rehashing t i word).bind fun (w, done) => .ok ({ t with ctrl := w }, done)
  else .ub

/-- `SlotPolicyTraits::construct(&allocator_, slot_at(size()), …); slot_size_++` (RH:6290-6291, 5885-5891). -/
def construct (e : K × V) (t : Map K V) : Res (Map K V) :=
  if t.size < t.slen then .ok { t with slot := upd t.slot t.size (some e), size := t.size + 1 } else .ub

/-! ### Capacity -/

/-- `min_require_capacity(n)` (RH:3869-3872). -/
def minRequire (t : Map K V) (n : Nat) : Nat := n * t.rev % W / 256

/-- `clear_ctrls` (RH:4246-4264): index `i` of a block of `G + 1` groups. -/
def clearedCtrl (cap look G i : Nat) : Ctrl :=
  if cap < width ∧ ((cap + look ≤ i ∧ i < cap + look + width) ∨ G * width ≤ i) then .endOf else .empty

/-- `create_slots<false>(cap)` for `cap ≠ 0` (RH:4329-4398).  `max_lookups_` is written before the allocation (RH:4356),
so an exception leaves it changed. -/
def createSlots (mem : Bool) (cap : Nat) (t : Map K V) : Out (Map K V) Unit :=
  let look := lookups cap
  let G := (cap + look + (width - 1)) / width
  if mem && decide (cap ≤ memLimit) then
    .ok { alloc := true
          ctrl := clearedCtrl cap look G
          slot := fun _ => none
          last := some (cap + look)
          size := 0
          mask := cap - 1
          look := look
          thr := cap * t.mlf / 256
          mlf := t.mlf
          rev := t.rev
          clen := (G + 1) * width
          slen := cap + look } ()
  else .throw { t with look := look }

/-- `indirect_insert_no_grow(old_slot)` (RH:6203-6233, 6287-6293).  The result of `indirect_insert_to_place<true>` is only
looked at by an `assert`. -/
def insertNoGrow (e : K × V) (t : Map K V) : Res (Map K V) :=
  (seek chk E t e.1).bind fun (i, d) =>
    (place chk true (ctrlHash E e.1) t i d).bind fun (t', done) =>
      if chk && !done then .ub else construct e t'

/-- The loop over the slots of the old block (RH:4592-4598). -/
def transferAll (old : Map K V) : List Nat → Map K V → Res (Map K V)
  | [], t => .ok t
  | j :: js, t =>
    match old.slot j with
    | none => .ub
    | some e => (insertNoGrow chk E e t).bind fun t' => transferAll old js t'

/-- `rehash_impl<AllowShrink, AlwaysResize>(n)` (RH:4402-4653; the indirect branch is RH:4589-4598). -/
def rehashImpl (allowShrink always mem : Bool) (n : Nat) (t : Map K V) : Out (Map K V) Unit :=
  match Robin.calcCapacity n with
  | .ub => .ub
  | .diverge => .diverge
  | .ok cap =>
    if always || (!allowShrink && decide (slotCap t < cap)) || (allowShrink && cap != slotCap t) then
      match createSlots mem cap t with
      | .ok t1 _ =>
        match transferAll chk E t (if t.alloc then List.range t.size else []) t1 with
        | .ok t2 => .ok t2 ()
        | .diverge => .diverge
        | .ub => .ub
      | .throw t' => .throw t'
      | .diverge => .diverge
      | .ub => .ub
    else .ok t ()

/-- `grow_if_necessary()` (RH:4270-4273). -/
def grow (mem : Bool) (t : Map K V) : Out (Map K V) Unit := rehashImpl chk E false true mem ((t.mask + 1) * 2) t

/-! ### Public modifiers -/

/-- `FindResult` (RH:390-394) with the slot it refers to. -/
inductive Found
  | exists_ (j : Nat)
  | notExists
  | needGrow

/-- A read-only result in the state `s`. -/
def lift {α β : Type} (r : Res α) (f : α → Out (Map K V) β) : Out (Map K V) β :=
  match r with
  | .ok a => f a
  | .diverge => .diverge
  | .ub => .ub

/-- The end of `indirect_find_and_insert` at control index `i` (RH:5652-5665). -/
def finish (k : K) (t : Map K V) (i : Nat) (d : Ctrl) : Out (Map K V) Found :=
  lift (place chk false (ctrlHash E k) t i d) fun (t', done) => .ok t' (if done then .notExists else .needGrow)

/-- `indirect_find_and_insert(key)` (RH:5618-5666).  `getDist() > kMaxDist` is the sign of the distance byte. -/
def findOrInsert (mem : Bool) (k : K) (t : Map K V) : Out (Map K V) Found :=
  lift (probe chk E t k) fun
    | .hit i => .ok t (.exists_ (t.ctrl i).idx)
    | .stop i d =>
      if decide (t.thr ≤ t.size) || decide (d.dist < 0) then
        (grow chk E mem t).bind fun t1 _ =>
          lift (seek chk E t1 k) fun (i1, d1) => finish chk E k t1 i1 d1
      else finish chk E k t i d

/-- `emplace_impl<AlwaysUpdate>` (RH:5870-5968 and the other overloads), `try_emplace_impl` (RH:6101-6141).  Returns the slot index in
the iterator and the flag.  The fuel counts the retries after `kNeedGrow`; every retry doubles the capacity. -/
def emplaceLoop (update mem : Bool) (k : K) (v : V) : Nat → Map K V → Out (Map K V) (Nat × Bool)
  | 0, _ => .diverge
  | f + 1, t =>
    (findOrInsert chk E mem k t).bind fun t' r =>
      match r with
      | .notExists => lift (construct (k, v) t') fun t'' => .ok t'' (t'.size, true)
      | .exists_ j =>
        match t'.slot j with
        | none => .ub
        | some e => .ok (if update then { t' with slot := upd t'.slot j (some (e.1, v)) } else t') (j, false)
      | .needGrow => (grow chk E mem t').bind fun t'' _ => emplaceLoop update mem k v f t''

/-- With its full fuel (a capacity above `memLimit` is never granted). -/
def emplace (update mem : Bool) (k : K) (v : V) (t : Map K V) : Out (Map K V) (Nat × Bool) :=
  emplaceLoop chk E update mem k v 64 t

/-- The backward shift loop of `indirect_erase_slot` (RH:6506-6518), `i` the hole; the fuel is the number of control words
after `i`. -/
def shiftLoop : Nat → Nat → (Nat → Ctrl) → Res (Nat → Ctrl)
  | 0, _, _ => .ub
  | f + 1, i, w =>
    if (w (i + 1)).dist ≤ 0 then .ok (upd w i .empty) else shiftLoop f (i + 1) (upd w i (w (i + 1)).dec)

/-- The loop of `find_ctrl(key, target)` (RH:6486-6489); the fuel is the number of control words from `i` on. -/
def findCtrlLoop (w : Nat → Ctrl) (target : Nat) : Nat → Nat → Res Nat
  | 0, _ => .ub
  | f + 1, i => if (w i).idx = target then .ok i else findCtrlLoop w target f (i + 1)

/-- `indirect_erase_slot(i)` (RH:6495-6536): close the gap in the control words, then move the last element into the slot
of the erased one (`swap_slot` followed by the destruction of the last slot). -/
def eraseSlot (i : Nat) (t : Map K V) : Res (Map K V) :=
  (shiftLoop (t.clen - (i + 1)) i t.ctrl).bind fun w =>
    let li := t.size - 1
    let ei := (t.ctrl i).idx
    if ei = li then .ok { t with ctrl := w, slot := upd t.slot li none, size := li }
    else
      match t.slot li with
      | none => .ub
      | some e =>
        (findCtrlLoop w li (t.clen - home E t e.1) (home E t e.1)).bind fun p =>
          .ok { t with
            ctrl := upd w p { w p with idx := ei % 2 ^ 32 }
            slot := upd (upd t.slot ei (some e)) li none
            size := li }

/-- `erase(key)` (RH:3723-3727, 6424-6437): number of removed elements. -/
def eraseKey (k : K) (t : Map K V) : Out (Map K V) Nat :=
  lift (findCtrlIdx chk E t k) fun
    | some i => if i = maxCap t then .ok t 0 else lift (eraseSlot E i t) fun t' => .ok t' 1
    | none => .ok t 0

/-- `clear_data()` (RH:4210-4264).  Without allocation the control words are the static constants. -/
def clearData (t : Map K V) : Out (Map K V) Unit :=
  if t.alloc then
    .ok { t with ctrl := clearedCtrl (slotCap t) t.look (groups t), slot := fun _ => none, size := 0 } ()
  else .ub

/-- `clear(need_destroy)` (RH:3504-3515). -/
def clear (destroy : Bool) (t : Map K V) : Out (Map K V) Unit :=
  if slotCap t > 0 && destroy then .ok (emptyMap t.mlf t.rev) () else clearData t

/-- `rehash(n, read_only)` (RH:3525-3531); `reserve` and `resize` are the same function (RH:3517-3523). -/
def rehash (mem readOnly : Bool) (n : Nat) (t : Map K V) : Out (Map K V) Unit :=
  rehashImpl chk E true false mem (if readOnly then max n t.size else max (minRequire t n) t.size) t

/-- `shrink_to_fit(read_only)` (RH:3533-3540). -/
def shrinkToFit (mem readOnly : Bool) (t : Map K V) : Out (Map K V) Unit :=
  rehashImpl chk E true false mem (if readOnly then t.size else minRequire t t.size) t

/-- `max_load_factor(mlf)` (RH:3316-3335); `m` and `r` are the two integers computed from the clamped float. -/
def setMlf (mem : Bool) (m r : Nat) (t : Map K V) : Out (Map K V) Unit :=
  let t1 := { t with mlf := m, rev := r }
  if t.size > t.thr && decide (minRequire t1 t.size > slotCap t) then rehash chk E mem false t.size t1 else .ok t1 ()

/-- Constructor with a requested capacity (RH:3056-3071, 4328-4345). -/
def make (mem : Bool) (n : Nat) : Out (Map K V) Unit :=
  if n = 0 then .ok (emptyMap 128 512) ()
  else
    match Robin.calcCapacity n with
    | .ub => .ub
    | .diverge => .diverge
    | .ok cap => createSlots mem cap (emptyMap 128 512)

/-! ### Iteration -/

/-- The range-for loop from slot `j` to `end()`: `begin()` is slot 0 (RH:3390-3395), `operator ++` increments the slot pointer
(RH:2972-2975). -/
def walkLoop (t : Map K V) : Nat → Nat → Res (List (K × V))
  | 0, _ => .ok []
  | f + 1, j =>
    match t.slot j with
    | none => .ub
    | some e => (walkLoop t f (j + 1)).bind fun l => .ok (e :: l)

/-- `for (auto & e : map)`. -/
def walk (t : Map K V) : Res (List (K × V)) := walkLoop t t.size 0

/-- The elements held by the map, in slot order.  Specification device. -/
def entries (t : Map K V) : List (K × V) := (List.range t.slen).filterMap t.slot

end Model
end Verif.RobInd
