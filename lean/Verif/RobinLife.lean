/-
Lifetimes in `robin_hash_map` with the direct layout (C121): which element objects and memory blocks the map creates and gives
up.  The map of `Verif.Robin` (without stored hashes, with the checks of `chk`) is run together with a log of memory events;
`Heap.step` of `Verif.Lifetime`, which knows nothing about hash tables, decides whether the log is in order.

RH = src/jstd/hashmap/robin_hash_map.h, SP = src/jstd/hashmap/map_slot_policy.h.

The element type has a destructor that does something and is not bitwise relocatable (`is_slot_trivial_destructor` is false, SP:211
`kIsRelocatable` is false).  Simplifications beyond those of `Verif.Robin`:
* `swap_slot` (RH:4982-4993) exchanges the values of two live objects; what it constructs and destroys inside is not logged.
* Constructors, moves and swaps of elements do not throw.
* The control block is a block of its own; control words have no lifetime.
-/
import Verif.Lifetime
import Verif.RobinBugs

namespace Verif.Robin.Track
open Verif
open Verif.Spec (Call Ans Distinct)
open Verif.Life (Ev Heap step_ctor step_free step_alloc)

/-- A map, the block that `slots_` points to (the block of `ctrls_` has the next number), the first number not used yet, the
log, and a ghost: an accident has happened (an element was moved onto itself, or onto the buffer that already holds one). -/
structure LT (K V : Type) where
  t : Map K V
  blk : Nat
  next : Nat
  log : List Ev
  bad : Bool

/-- How `insert_to_place` exchanges the carried element with the element of a slot (RH:5749-5756): `swap_slot`, or
`exchange_slot` with a buffer on the stack, which `construct_empty_slot` has filled with a default constructed element
(`built`, RH:5830-5842) or not. -/
inductive Mode
  | swap
  | exch (built : Bool)
  deriving DecidableEq

/-- An object: a slot of a block. -/
abbrev Obj := Nat × Nat

section Model
variable {K V : Type} (m : Mode) (E : Env K)

/-- Add events to the log. -/
def emit (l : List Ev) (b : Bool) (s : LT K V) : LT K V := { s with log := s.log ++ l, bad := s.bad || b }

/-- `transfer(new_slot, old_slot)` (SP:210-236, RH:4959-4962): construct the new element, destroy the old one. -/
def moveEv (new old : Obj) : List Ev := [.ctor new.1 new.2, .dtor old.1 old.2]

/-! ### Insertion into place -/

/-- The variables `insert` and `empty` of `insert_to_place` (RH:5722-5723), the events so far and the ghost. -/
structure Cur where
  ins : Obj
  emp : Obj
  log : List Ev
  bad : Bool

/-- The buffer `slot_raw` comes into being (RH:5719) and is filled by `construct_empty_slot` (RH:5825-5847).  The automatic
storage is the block `tmp` of one slot. -/
def openEv (tmp : Nat) : Mode → List Ev
  | .swap => []
  | .exch built => .alloc tmp 1 :: if built then [.ctor tmp 0] else []

/-- `destroy_empty_slot(empty)` (RH:5849-5866), then the storage of the buffer ends. -/
def closeEv (tmp : Nat) (emp : Obj) : Mode → List Ev
  | .swap => []
  | .exch built => (if built then [.dtor emp.1 emp.2] else []) ++ [.free tmp 1]

/-- The carried element changes places with the element at `o` (RH:5749-5756): `swap_slot(insert, target)`, or
`exchange_slot(insert, target, empty)` (RH:4969-4980, SP:246-249) and `std::swap(insert, empty)`. -/
def Cur.trade (o : Obj) (c : Cur) : Mode → Cur
  | .swap => c
  | .exch built => { ins := c.emp, emp := c.ins, log := c.log ++ moveEv c.emp o ++ moveEv o c.ins, bad := c.bad || built }

/-- The exits of `insert_to_place` (RH:5744-5745, 5768-5769, 5775-5776): `emplace_rich_slot(…, o, insert, …)` (RH:5818-5823), then
`destroy_empty_slot(empty)`. -/
def Cur.settle (tmp : Nat) (o : Obj) (c : Cur) : List Ev × Bool :=
  (c.log ++ moveEv o c.ins ++ closeEv tmp c.emp m, c.bad || decide (o = c.ins))

/-- The exits with `kNeedGrow`, see `Robin.needGrow` (RH:5768-5770, 5775-5777). -/
def needGrowE (blk tmp p0 : Nat) (t : Map K V) (rich : Ctrl) (c : Cur) : Res (Map K V × Bool × List Ev × Bool) :=
  (needGrow p0 t rich).bind fun r => .ok (r.1, r.2, c.settle m tmp (blk, p0))

/-- The loop of `insert_to_place`, see `Robin.placeLoop` (RH:5742-5773). -/
def placeLoopE (blk tmp : Nat) (rehashing : Bool) (p0 : Nat) : Nat → Map K V → Nat → Ctrl → Cur → Res (Map K V × Bool × List Ev × Bool)
  | 0, t, _, rich, c => needGrowE m blk tmp p0 t rich c
  | f + 1, t, i, rich, c =>
    if (t.ctrl i).isEmpty then
      match t.slot p0 with
      | none => .ub
      | some e =>
        .ok ({ t with ctrl := upd t.ctrl i rich, slot := upd (upd t.slot i (some e)) p0 none }, true, c.settle m tmp (blk, i))
    else if (t.ctrl i).dist < rich.dist then
      let t' := { t with ctrl := upd t.ctrl i rich, slot := upd (upd t.slot i (t.slot p0)) p0 (t.slot i) }
      let rich' := (t.ctrl i).inc
      let c' := c.trade (blk, i) m
      if !rehashing && decide (maxDist t ≤ rich'.uval false) then needGrowE m blk tmp p0 t' rich' c'
      else placeLoopE blk tmp rehashing p0 f t' (i + 1) rich' c'
    else if rich.dist == 127 then .ub
    else
      if !rehashing && decide (maxDist t ≤ rich.inc.uval false) then needGrowE m blk tmp p0 t rich.inc c
      else placeLoopE blk tmp rehashing p0 f t (i + 1) rich.inc c

/-- `insert_to_place`, see `Robin.insertToPlace` (RH:5706-5778). -/
def insertToPlaceE (blk tmp : Nat) (rehashing : Bool) (t : Map K V) (p0 : Nat) (d : Ctrl) : Res (Map K V × Bool × List Ev × Bool) :=
  match t.last with
  | none => .ub
  | some n =>
    placeLoopE m blk tmp rehashing p0 (n - (p0 + 1)) { t with ctrl := upd t.ctrl p0 d } (p0 + 1) (t.ctrl p0).inc
      { ins := (blk, p0), emp := (tmp, 0), log := openEv tmp m, bad := false }

/-- See `Robin.place` (RH:5609-5615, 6164-6171, 6367-6374). -/
def placeE (rehashing : Bool) (i : Nat) (d : Ctrl) (s : LT K V) : Res (LT K V × Bool) :=
  if s.t.alloc then
    if (s.t.ctrl i).isEmpty then .ok ({ s with t := { s.t with ctrl := upd s.t.ctrl i d } }, true)
    else (insertToPlaceE m s.blk s.next rehashing s.t i d).bind fun r => .ok (emit r.2.2.1 r.2.2.2 { s with t := r.1 }, r.2.1)
  else .ub

/-- `SlotPolicyTraits::construct` in slot `i`, see `Robin.construct` (SP:131-140, 146-155). -/
def constructE (i : Nat) (e : K × V) (s : LT K V) : Res (LT K V) :=
  (construct i e s.t).bind fun t' => .ok (emit [.ctor s.blk i] false { s with t := t' })

/-! ### Capacity -/

/-- The length of the control block of a new map (RH:4358-4361). -/
def newCtrls (cap : Nat) : Nat := ((cap + lookups cap + (width false - 1)) / width false + 1) * width false

/-- `create_slots<false>(cap)`, see `Robin.createSlots` (RH:4330-4398): first the control block is obtained (RH:4364), then the
slot block (RH:4380).  `a` has the answers of the allocator to the two requests. -/
def createE (a : Bool × Bool) (cap : Nat) (s : LT K V) : Out (LT K V) Unit :=
  match createSlots false (a.1 && a.2) cap s.t with
  | .ok t1 _ =>
    .ok (emit [.alloc (s.next + 1) (newCtrls cap), .alloc s.next (cap + lookups cap)] false
      { s with t := t1, blk := s.next, next := s.next + 2 }) ()
  | .throw t' =>
    .throw (emit (if a.1 && decide (cap ≤ memLimit) then [.alloc (s.next + 1) (newCtrls cap)] else []) false
      { s with t := t', next := s.next + 2 })
  | .diverge => .diverge
  | .ub => .ub

/-- `insert_no_grow(old_slot)`, see `Robin.insertNoGrow` (RH:6145-6172, 6268-6284): the element is constructed from the old one. -/
def insertNoGrowE (e : K × V) (s : LT K V) : Res (LT K V) :=
  (seek false true E s.t e.1).bind fun (i, d) =>
    (placeE m true i { d with hash := 0 } s).bind fun (s', done) => if !done then .ub else constructE i e s'

/-- The loop over the used control words of the old block, see `Robin.transferAll` (RH:4561-4571, 4577-4587): every old element is
destroyed after `insert_no_grow` (RH:4568, 4584). -/
def transferAllE (old : Map K V) (bo : Nat) : List Nat → LT K V → Res (LT K V)
  | [], s => .ok s
  | i :: is, s =>
    match old.slot i with
    | none => .ub
    | some e => (insertNoGrowE m E e s).bind fun s' => transferAllE old bo is (emit [.dtor bo i] false s')

/-- The old blocks are given back (RH:4634-4650), with the counts the map had before. -/
def freeOld (old : Map K V) (bo : Nat) : List Ev :=
  if old.alloc then [.free (bo + 1) ((groups false old + 1) * width false), .free bo (maxCap old)] else []

/-- `rehash_impl`, see `Robin.rehashImpl` (RH:4402-4653). -/
def rehashImplE (allowShrink always : Bool) (a : Bool × Bool) (n : Nat) (s : LT K V) : Out (LT K V) Unit :=
  match calcCapacity n with
  | .ub => .ub
  | .diverge => .diverge
  | .ok cap =>
    if always || (!allowShrink && decide (slotCap s.t < cap)) || (allowShrink && cap != slotCap s.t) then
      match createE a cap s with
      | .ok s1 _ =>
        match transferAllE m E s.t s.blk (usedIdx false s.t) s1 with
        | .ok s2 => .ok (emit (freeOld s.t s.blk) false s2) ()
        | .diverge => .diverge
        | .ub => .ub
      | .throw s' => .throw s'
      | .diverge => .diverge
      | .ub => .ub
    else .ok s ()

/-- `grow_if_necessary()` (RH:4270-4273). -/
def growE (a : Bool × Bool) (s : LT K V) : Out (LT K V) Unit := rehashImplE m E false true a ((s.t.mask + 1) * 2) s

/-! ### Public modifiers -/

/-- A read-only result. -/
def liftE {α β : Type} (r : Res α) (f : α → Out (LT K V) β) : Out (LT K V) β :=
  match r with
  | .ok a => f a
  | .diverge => .diverge
  | .ub => .ub

/-- The end of `direct_find_and_insert`, see `Robin.finish` (RH:5526, 5609-5615). -/
def finishE (s : LT K V) (i : Nat) (d : Ctrl) : Out (LT K V) Found :=
  liftE (placeE m false i { d with hash := 0 } s) fun (s', done) => .ok s' (if done then .notExists i else .needGrow)

/-- `direct_find_and_insert(key)`, see `Robin.findOrInsert` (RH:5468-5616). -/
def findOrInsertE (a : Bool × Bool) (k : K) (s : LT K V) : Out (LT K V) Found :=
  liftE (probe false true E s.t k) fun
    | .hit i => .ok s (.exists_ i)
    | .stop i d =>
      if decide (s.t.thr ≤ s.t.size) || decide (maxDist s.t ≤ d.uval false) then
        (growE m E a s).bind fun s1 _ =>
          liftE (seek false true E s1.t k) fun (i1, d1) => finishE m s1 i1 d1
      else finishE m s i d

/-- `emplace_impl`, `try_emplace_impl`, see `Robin.emplaceLoop` (RH:5870-5968, 6101-6141). -/
def emplaceLoopE (update : Bool) (a : Bool × Bool) (k : K) (v : V) : Nat → LT K V → Out (LT K V) (Nat × Bool)
  | 0, _ => .diverge
  | f + 1, s =>
    (findOrInsertE m E a k s).bind fun s' r =>
      match r with
      | .notExists i => liftE (constructE i (k, v) s') fun s'' => .ok s'' (i, true)
      | .exists_ i =>
        match s'.t.slot i with
        | none => .ub
        | some e => .ok (if update then { s' with t := { s'.t with slot := upd s'.t.slot i (some (e.1, v)) } } else s') (i, false)
      | .needGrow => (growE m E a s').bind fun s'' _ => emplaceLoopE update a k v f s''

/-- With its full fuel, see `Robin.emplace` (RH:5870-5968, 6101-6141). -/
def emplaceE (update : Bool) (a : Bool × Bool) (k : K) (v : V) (s : LT K V) : Out (LT K V) (Nat × Bool) :=
  emplaceLoopE m E update a k v 64 s

/-- The backward shift loop of `erase_slot`, see `Robin.shiftLoop` (RH:6452-6465): `transfer_slot(curr_slot, next_slot)`. -/
def shiftLoopE (blk : Nat) : Nat → Nat → Map K V → List Ev → Res (Map K V × List Ev)
  | 0, _, _, _ => .ub
  | f + 1, i, t, l =>
    if (t.ctrl (i + 1)).dist ≤ 0 then .ok ({ t with ctrl := upd t.ctrl i .empty }, l)
    else
      match t.slot (i + 1) with
      | none => .ub
      | some e =>
        shiftLoopE blk f (i + 1)
          { t with ctrl := upd t.ctrl i (t.ctrl (i + 1)).dec, slot := upd (upd t.slot i (some e)) (i + 1) none }
          (l ++ moveEv (blk, i) (blk, i + 1))

/-- `erase_slot(i)`, see `Robin.eraseSlot` (RH:6439-6471). -/
def eraseSlotE (i : Nat) (s : LT K V) : Res (LT K V) :=
  (shiftLoopE s.blk (s.t.clen - (i + 1)) i { s.t with slot := upd s.t.slot i none } [.dtor s.blk i]).bind fun (t', l) =>
    .ok (emit l false { s with t := { t' with size := t'.size - 1 } })

/-- `erase(key)`, see `Robin.eraseKey` (RH:3723-3727, 6424-6437). -/
def eraseKeyE (k : K) (s : LT K V) : Out (LT K V) Nat :=
  liftE (findIdx false true E s.t k) fun
    | some i => if i = maxCap s.t then .ok s 0 else liftE (eraseSlotE i s) fun s' => .ok s' 1
    | none => .ok s 0

/-- `clear_slots()` (RH:4219-4243): the elements with a used control word are destroyed. -/
def clearSlotsE (t : Map K V) (b : Nat) : List Ev :=
  ((List.range (maxCap t)).filter fun i => (t.ctrl i).isUsed).map fun i => .dtor b i

/-- `clear_data()`, see `Robin.clearData` (RH:4210-4264). -/
def clearDataE (s : LT K V) : Out (LT K V) Unit :=
  match clearData false s.t with
  | .ok t' _ => .ok (emit (clearSlotsE s.t s.blk) false { s with t := t' }) ()
  | .throw t' => .throw { s with t := t' }
  | .diverge => .diverge
  | .ub => .ub

/-- The blocks are given back by `destroy_data()` (RH:4175-4208): the slots, then the control words. -/
def freeAll (t : Map K V) (b : Nat) : List Ev :=
  if t.alloc then [.free b (maxCap t), .free (b + 1) ((groups false t + 1) * width false)] else []

/-- `destroy_data()` (RH:4175-4208); what is left is an empty map. -/
def destroyE (s : LT K V) : LT K V :=
  emit (clearSlotsE s.t s.blk ++ freeAll s.t s.blk) false { s with t := emptyMap false s.t.mlf s.t.rev }

/-- `clear(need_destroy)`, see `Robin.clear` (RH:3504-3515).  `clear(true)` calls `destroy_data()` and then `create_slots(0)`, which
calls it again (RH:4332-4334): `slot_mask_` still has its old value, so `clear_slots` reads `max_slot_capacity()` control words of
the static block of 64 (RH:3796). -/
def clearE (destroy : Bool) (s : LT K V) : Out (LT K V) Unit :=
  if slotCap s.t > 0 && destroy then (if maxCap s.t ≤ 2 * width false then .ok (destroyE s) () else .ub) else clearDataE s

/-- `rehash(n, read_only)`, `reserve`, see `Robin.rehash` (RH:3517-3531). -/
def rehashE (a : Bool × Bool) (readOnly : Bool) (n : Nat) (s : LT K V) : Out (LT K V) Unit :=
  rehashImplE m E true false a (if readOnly then max n s.t.size else max (minRequire s.t n) s.t.size) s

/-- `shrink_to_fit(read_only)`, see `Robin.shrinkToFit` (RH:3533-3540). -/
def shrinkE (a : Bool × Bool) (readOnly : Bool) (s : LT K V) : Out (LT K V) Unit :=
  rehashImplE m E true false a (if readOnly then s.t.size else minRequire s.t s.t.size) s

/-- `max_load_factor(mlf)`, see `Robin.setMlf` (RH:3316-3335). -/
def setMlfE (a : Bool × Bool) (x r : Nat) (s : LT K V) : Out (LT K V) Unit :=
  let s1 := { s with t := { s.t with mlf := x, rev := r } }
  if s.t.size > s.t.thr && decide (minRequire s1.t s.t.size > slotCap s.t) then rehashE m E a false s.t.size s1 else .ok s1 ()

/-- The state before the constructor has obtained memory. -/
def start : LT K V := { t := emptyMap false 128 512, blk := 0, next := 1, log := [], bad := false }

/-- Constructor with a requested capacity, see `Robin.make` (RH:3056-3071, 4330-4345). -/
def makeE (a : Bool × Bool) (n : Nat) : Out (LT K V) Unit :=
  if n = 0 then .ok start ()
  else
    match calcCapacity n with
    | .ub => .ub
    | .diverge => .diverge
    | .ok cap => createE a cap start

/-- A reference to the element is read. -/
def readElemE (s : LT K V) (r : Nat × Bool) : Out (LT K V) (Ans K V) :=
  match s.t.slot r.1 with
  | none => .ub
  | some e => .ok s (.elem e r.2)

/-- A reference to the mapped value is read. -/
def readValueE (s : LT K V) (r : Nat × Bool) : Out (LT K V) (Ans K V) :=
  match s.t.slot r.1 with
  | none => .ub
  | some e => .ok s (.value (some e.2))

/-- One call, see `Robin.exec` (RH:3268-3270, 3316-3335, 3361-3418, 3504-3540, 3547-3562, 3701-3727, 5870-5968). -/
def execE (rv : Nat → Nat) (a : Bool × Bool) : Call K V → LT K V → Out (LT K V) (Ans K V)
  | .insert k v, s => (emplaceE m E false a k v s).bind readElemE
  | .assign k v, s => (emplaceE m E true a k v s).bind readElemE
  | .index k d, s => (emplaceE m E false a k d s).bind readValueE
  | .find k, s => liftE (lookup false true E s.t k) fun o => .ok s (.found o)
  | .contains k, s => liftE (contains false true E s.t k) fun b => .ok s (.bool b)
  | .count k, s => liftE (contains false true E s.t k) fun b => .ok s (.num (if b then 1 else 0))
  | .at k, s => liftE (atKey false true E s.t k) fun o => .ok s (.value o)
  | .erase k, s => (eraseKeyE E k s).bind fun s' n => .ok s' (.num n)
  | .size, s => .ok s (.num s.t.size)
  | .empty, s => .ok s (.bool (s.t.size == 0))
  | .clear d, s => (clearE d s).bind fun s' _ => .ok s' .unit
  | .reserve n, s => (rehashE m E a false n s).bind fun s' _ => .ok s' .unit
  | .rehash n, s => (rehashE m E a false n s).bind fun s' _ => .ok s' .unit
  | .shrink ro, s => (shrinkE m E a ro s).bind fun s' _ => .ok s' .unit
  | .maxLoad x, s => (setMlfE m E a (x % 2 ^ 32) (rv x) s).bind fun s' _ => .ok s' .unit
  | .iterate, s => liftE (walk false s.t) fun l => .ok s (.items l)

/-- A history; it ends with the first exception. -/
def runE (rv : Nat → Nat) : List ((Bool × Bool) × Call K V) → LT K V → Res (List (Ans K V) × LT K V)
  | [], s => .ok ([], s)
  | (a, c) :: cs, s =>
    match execE m E rv a c s with
    | .ub => .ub
    | .diverge => .diverge
    | .throw s' => .ok ([.threw], s')
    | .ok s' x => (runE rv cs s').bind fun r => .ok (x :: r.1, r.2)

end Model

/-! ### Forgetting the log -/

section
variable {K V : Type} {m : Mode} {E : Env K}

/-- Forget the log. -/
def proj {α : Type} : Out (LT K V) α → Out (Map K V) α
  | .ok s a => .ok s.t a
  | .throw s => .throw s.t
  | .diverge => .diverge
  | .ub => .ub

/-- Forget the log. -/
def projR (r : Res (LT K V)) : Res (Map K V) := r.bind fun s => .ok s.t

theorem proj_bind {α β : Type} {r : Out (LT K V) α} {f : LT K V → α → Out (LT K V) β} {g : Map K V → α → Out (Map K V) β}
    (h : ∀ s a, proj (f s a) = g s.t a) : proj (r.bind f) = (proj r).bind g := by
  cases r with
  | ok s a => exact h s a
  | throw s => rfl
  | diverge => rfl
  | ub => rfl

theorem proj_liftE {α β : Type} {r : Res α} {f : α → Out (LT K V) β} {g : α → Out (Map K V) β} (h : ∀ a, proj (f a) = g a) :
    proj (liftE r f) = lift r g := by
  cases r with
  | ok a => exact h a
  | diverge => rfl
  | ub => rfl

theorem proj_placeLoopE (blk tmp : Nat) (rh : Bool) (p0 : Nat) : ∀ (f : Nat) (t : Map K V) (i : Nat) (rich : Ctrl) (c : Cur),
    (placeLoopE m blk tmp rh p0 f t i rich c).bind (fun r => .ok (r.1, r.2.1)) = placeLoop false true rh p0 f t i rich := by
  have hng : ∀ (t : Map K V) (rich : Ctrl) (c : Cur),
      (needGrowE m blk tmp p0 t rich c).bind (fun r => .ok (r.1, r.2.1)) = needGrow p0 t rich := by
    intro t rich c
    unfold needGrowE
    cases needGrow p0 t rich <;> rfl
  intro f
  induction f with
  | zero => intro t i rich c; exact hng t rich c
  | succ f ih =>
    intro t i rich c
    unfold placeLoopE placeLoop
    split
    · cases t.slot p0 <;> rfl
    · split
      · dsimp only
        split
        · exact hng _ _ _
        · exact ih _ _ _ _
      · simp only [Bool.true_and]
        split
        · rfl
        · split
          · exact hng _ _ _
          · exact ih _ _ _ _

theorem proj_insertToPlaceE (blk tmp : Nat) (rh : Bool) (t : Map K V) (i : Nat) (d : Ctrl) :
    (insertToPlaceE m blk tmp rh t i d).bind (fun r => .ok (r.1, r.2.1)) = insertToPlace false true rh t i d := by
  unfold insertToPlaceE insertToPlace
  cases t.last with
  | none => rfl
  | some n => exact proj_placeLoopE _ _ _ _ _ _ _ _ _

theorem proj_placeE (rh : Bool) (i : Nat) (d : Ctrl) (s : LT K V) :
    (placeE m rh i d s).bind (fun r => .ok (r.1.t, r.2)) = place false true rh s.t i d := by
  unfold placeE place
  split
  · split
    · rfl
    · rw [← proj_insertToPlaceE (m := m) s.blk s.next]
      generalize insertToPlaceE m s.blk s.next rh s.t i d = R
      cases R <;> rfl
  · rfl

theorem projR_constructE (i : Nat) (e : K × V) (s : LT K V) : projR (constructE i e s) = construct i e s.t := by
  unfold constructE projR
  cases construct i e s.t <;> rfl

theorem proj_createE (a : Bool × Bool) (cap : Nat) (s : LT K V) : proj (createE a cap s) = createSlots false (a.1 && a.2) cap s.t := by
  unfold createE
  cases createSlots false (a.1 && a.2) cap s.t <;> rfl

theorem projR_insertNoGrowE (e : K × V) (s : LT K V) : projR (insertNoGrowE m E e s) = insertNoGrow false true E 0 e s.t := by
  unfold insertNoGrowE insertNoGrow projR
  cases seek false true E s.t e.1 with
  | ub => rfl
  | diverge => rfl
  | ok q =>
    obtain ⟨i, d⟩ := q
    simp only [Res.bind_ok]
    rw [← proj_placeE (m := m)]
    cases placeE m true i { d with hash := 0 } s with
    | ub => rfl
    | diverge => rfl
    | ok r =>
      obtain ⟨s', done⟩ := r
      simp only [Res.bind_ok, Bool.true_and]
      cases done with
      | false => rfl
      | true => exact projR_constructE i e s'

theorem projR_transferAllE (old : Map K V) (bo : Nat) (h0 : ∀ i, (old.ctrl i).hash = 0 ∨ old.slot i = none) :
    ∀ (is : List Nat) (s : LT K V), projR (transferAllE m E old bo is s) = transferAll false true E old is s.t := by
  intro is
  induction is with
  | nil => intro s; rfl
  | cons i is ih =>
    intro s
    unfold transferAllE transferAll
    cases hs : old.slot i with
    | none => rfl
    | some e =>
      have hz : (if slotCap old < width false then (old.ctrl i).hash else 0) = 0 := by
        rcases h0 i with h | h
        · rw [h]; split <;> rfl
        · rw [h] at hs; cases hs
      simp only [hz]
      rw [← projR_insertNoGrowE (m := m)]
      cases hr : insertNoGrowE m E e s with
      | ub => rfl
      | diverge => rfl
      | ok s' => exact ih (emit [.dtor bo i] false s')

/-- Where there is an element no hash is recorded. -/
def NoHash (t : Map K V) : Prop := ∀ i, (t.ctrl i).hash = 0 ∨ t.slot i = none

theorem Weak.noHash {t : Map K V} {c : Nat} (h : Weak E t c) : NoHash t := by
  intro i
  by_cases hi : i < t.slen
  · rcases h.cell i hi with h1 | ⟨_, _, _, h1⟩
    · exact Or.inr h1.1
    · exact Or.inl h1
  · exact Or.inr (h.tail i (by omega)).1

theorem Fresh.noHash {t : Map K V} (h : Fresh t) : NoHash t := by
  obtain ⟨a, b, rfl⟩ := h
  exact fun i => Or.inr rfl

theorem proj_rehashImplE {s : LT K V} (h0 : NoHash s.t) (sh al : Bool) (a : Bool × Bool) (n : Nat) :
    proj (rehashImplE m E sh al a n s) = rehashImpl false true E sh al (a.1 && a.2) n s.t := by
  unfold rehashImplE rehashImpl
  cases calcCapacity n with
  | ub => rfl
  | diverge => rfl
  | ok cap =>
    simp only
    split
    · rw [← proj_createE]
      cases createE a cap s with
      | ok s1 u =>
        simp only [proj]
        rw [← projR_transferAllE (m := m) s.t s.blk h0]
        cases transferAllE m E s.t s.blk (usedIdx false s.t) s1 <;> rfl
      | throw s' => rfl
      | diverge => rfl
      | ub => rfl
    · rfl

theorem proj_growE {s : LT K V} (h0 : NoHash s.t) (a : Bool × Bool) : proj (growE m E a s) = grow false true E (a.1 && a.2) s.t :=
  proj_rehashImplE h0 _ _ _ _

theorem proj_finishE (s : LT K V) (k : K) (i : Nat) (d : Ctrl) : proj (finishE m s i d) = finish false true E k s.t i d := by
  unfold finishE finish
  rw [show ctrlHash false E k = 0 from rfl, ← proj_placeE (m := m)]
  cases placeE m false i { d with hash := 0 } s <;> rfl

theorem proj_findOrInsertE {s : LT K V} (h0 : NoHash s.t) (a : Bool × Bool) (k : K) :
    proj (findOrInsertE m E a k s) = findOrInsert false true E (a.1 && a.2) k s.t := by
  unfold findOrInsertE findOrInsert
  apply proj_liftE
  intro q
  cases q with
  | hit i => rfl
  | stop i d =>
    simp only
    split
    · rw [← proj_growE (m := m) h0]
      apply proj_bind
      intro s1 _
      apply proj_liftE
      rintro ⟨i1, d1⟩
      exact proj_finishE _ _ _ _
    · exact proj_finishE _ _ _ _

theorem projR_shiftLoopE (blk : Nat) : ∀ (f i : Nat) (t : Map K V) (l : List Ev),
    (shiftLoopE blk f i t l).bind (fun r => .ok r.1) = shiftLoop f i t := by
  intro f
  induction f with
  | zero => intro i t l; rfl
  | succ f ih =>
    intro i t l
    unfold shiftLoopE shiftLoop
    split
    · rfl
    · cases t.slot (i + 1) with
      | none => rfl
      | some e => exact ih _ _ _

theorem projR_eraseSlotE (i : Nat) (s : LT K V) : projR (eraseSlotE i s) = eraseSlot i s.t := by
  unfold eraseSlotE eraseSlot projR
  rw [← projR_shiftLoopE s.blk _ _ _ [.dtor s.blk i]]
  cases shiftLoopE s.blk (s.t.clen - (i + 1)) i { s.t with slot := upd s.t.slot i none } [.dtor s.blk i] <;> rfl

theorem proj_eraseKeyE (k : K) (s : LT K V) : proj (eraseKeyE E k s) = eraseKey false true E k s.t := by
  unfold eraseKeyE eraseKey
  apply proj_liftE
  intro o
  cases o with
  | none => rfl
  | some i =>
    simp only
    split
    · rfl
    · rw [← projR_eraseSlotE]
      cases eraseSlotE i s <;> rfl

theorem proj_clearDataE (s : LT K V) : proj (clearDataE s) = clearData false s.t := by
  unfold clearDataE
  cases clearData false s.t <;> rfl

theorem proj_clearE (d : Bool) (s : LT K V) : clearE d s = .ub ∨ proj (clearE d s) = clear false d s.t := by
  unfold clearE clear
  split
  · split
    · exact Or.inr rfl
    · exact Or.inl rfl
  · exact Or.inr (proj_clearDataE s)

/-! ### Order of the log -/

/-- Running the events `l` leads to `Q`, or they are not in order and the ghost `b` says so. -/
def Step (l : List Ev) (b : Bool) (h : Heap) (Q : Heap → Prop) : Prop :=
  (b = true ∧ Heap.run l h = none) ∨ (b = false ∧ ∃ h', Heap.run l h = some h' ∧ Q h')

/-- The log of `s` leads to `P`, or it is not in order and the ghost says so. -/
def Ok (P : Heap → Prop) (s : LT K V) : Prop := Step s.log s.bad Heap.empty P

theorem Step.append {l l' : List Ev} {b b' : Bool} {h : Heap} {P Q : Heap → Prop} (h1 : Step l b h P)
    (h2 : ∀ h', P h' → Step l' b' h' Q) : Step (l ++ l') (b || b') h Q := by
  rcases h1 with ⟨rfl, h1⟩ | ⟨rfl, h', h1, h3⟩
  · left
    exact ⟨rfl, by rw [Life.run_append, h1]; rfl⟩
  · rw [Bool.false_or]
    unfold Step
    rw [Life.run_append, h1]
    exact h2 h' h3

theorem Step.mono {l : List Ev} {b : Bool} {h : Heap} {P Q : Heap → Prop} (h1 : Step l b h P) (h2 : ∀ h', P h' → Q h') : Step l b h Q := by
  rcases h1 with h1 | ⟨h1, h', h3, h4⟩
  · exact Or.inl h1
  · exact Or.inr ⟨h1, h', h3, h2 h' h4⟩

theorem Ok.emit {P Q : Heap → Prop} {s : LT K V} (h : Ok P s) {l : List Ev} {b : Bool} (h2 : ∀ h', P h' → Step l b h' Q) :
    Ok Q (emit l b s) := Step.append h h2

/-- The heap of a map whose slots are in block `blk`; `other` are the objects elsewhere, `bs` the blocks. -/
structure Own (blk : Nat) (slot : Nat → Option (K × V)) (other : Obj → Prop) (bs : List (Nat × Nat)) (h : Heap) : Prop where
  blocks : h.blocks = bs
  nodup : h.live.Nodup
  live : ∀ b i, (b, i) ∈ h.live ↔ (b = blk ∧ (slot i).isSome = true) ∨ (b ≠ blk ∧ other (b, i))

/-- Blocks while `insert_to_place` runs. -/
def openBlocks (tmp : Nat) (bs : List (Nat × Nat)) : Mode → List (Nat × Nat)
  | .swap => bs
  | .exch _ => (tmp, 1) :: bs

/-- The heap while `insert_to_place` runs: the carried element is at `c.ins`, everything but slot `p0` is as in `used`. -/
structure CH (m : Mode) (blk tmp p0 : Nat) (used : Nat → Prop) (other : Obj → Prop) (bs : List (Nat × Nat)) (c : Cur) (h : Heap) : Prop where
  blocks : h.blocks = openBlocks tmp bs m
  nodup : h.live.Nodup
  live : ∀ b i, (b, i) ∈ h.live ↔ (b, i) = c.ins ∨ (m = .exch true ∧ (b, i) = c.emp) ∨ (b = blk ∧ i ≠ p0 ∧ used i) ∨
    (b ≠ blk ∧ other (b, i))
  places : (c.ins = (blk, p0) ∧ c.emp = (tmp, 0)) ∨ (m = .exch false ∧ c.ins = (tmp, 0) ∧ c.emp = (blk, p0))

/-- The surroundings of `insert_to_place`. -/
structure Site (blk tmp p0 n : Nat) (other : Obj → Prop) (bs : List (Nat × Nat)) : Prop where
  ne : tmp ≠ blk
  fresh : ∀ x ∈ bs, x.1 ≠ tmp
  free : ∀ i, ¬ other (tmp, i)
  mem : (blk, n) ∈ bs
  p0_lt : p0 < n

theorem step_dtor {h : Heap} {b i : Nat} (hl : (b, i) ∈ h.live) : h.step (.dtor b i) = some { h with live := h.live.erase (b, i) } := by
  have : h.live.contains (b, i) = true := List.contains_iff_mem.mpr hl
  simp only [Heap.step, this, if_true]

theorem step_ctor_none {h : Heap} {b i : Nat} (hl : (b, i) ∈ h.live) : h.step (.ctor b i) = none := by
  have : h.live.contains (b, i) = true := List.contains_iff_mem.mpr hl
  simp only [Heap.step, this, Bool.not_true, Bool.and_false, Bool.false_eq_true, if_false]

/-- Moving an element. -/
theorem run_move {h : Heap} {new old : Obj} {n : Nat} (hb : (new.1, n) ∈ h.blocks) (hn : new.2 < n) (hnew : new ∉ h.live)
    (hold : old ∈ h.live) (hnd : h.live.Nodup) :
    ∃ h', Heap.run (moveEv new old) h = some h' ∧ h'.blocks = h.blocks ∧ h'.live.Nodup ∧
      ∀ o, o ∈ h'.live ↔ o = new ∨ (o ∈ h.live ∧ o ≠ old) := by
  have hne : new ≠ old := fun hq => hnew (hq ▸ hold)
  have hnd2 : (new :: h.live).Nodup := List.nodup_cons.mpr ⟨hnew, hnd⟩
  refine ⟨{ h with live := (new :: h.live).erase old }, ?_, rfl, hnd2.erase _, ?_⟩
  · unfold moveEv
    simp only [Heap.run]
    rw [step_ctor hb hn hnew]
    simp only [Option.bind_some]
    rw [step_dtor (show (old.1, old.2) ∈ _ from List.mem_cons_of_mem _ hold)]
    rfl
  · intro o
    simp only
    rw [List.Nodup.mem_erase_iff hnd2, List.mem_cons]
    constructor
    · rintro ⟨h1, h2 | h2⟩
      · exact Or.inl h2
      · exact Or.inr ⟨h2, h1⟩
    · rintro (rfl | ⟨h1, h2⟩)
      · exact ⟨hne, Or.inl rfl⟩
      · exact ⟨h2, Or.inr h1⟩

theorem run_move_none {h : Heap} {new old : Obj} (hnew : new ∈ h.live) (l : List Ev) : Heap.run (moveEv new old ++ l) h = none := by
  rw [Life.run_append]
  unfold moveEv
  simp only [Heap.run]
  rw [step_ctor_none hnew]
  rfl

section Place
variable {blk tmp p0 n : Nat} {other : Obj → Prop} {bs : List (Nat × Nat)}

theorem mem_openBlocks {x : Nat × Nat} (h : x ∈ bs) : x ∈ openBlocks tmp bs m := by
  cases m with
  | swap => exact h
  | exch b => exact List.mem_cons_of_mem _ h

theorem CH.trade (hS : Site blk tmp p0 n other bs) {used : Nat → Prop} {c : Cur} {hb : Heap} {i : Nat}
    (h : Step c.log c.bad hb (CH m blk tmp p0 used other bs c)) (hi : i ≠ p0) (hin : i < n) (hu : used i) :
    Step (c.trade (blk, i) m).log (c.trade (blk, i) m).bad hb (CH m blk tmp p0 used other bs (c.trade (blk, i) m)) := by
  cases m with
  | swap => exact h
  | exch built =>
    show Step (c.log ++ moveEv c.emp (blk, i) ++ moveEv (blk, i) c.ins) (c.bad || built) hb _
    rw [List.append_assoc]
    apply h.append
    intro h1 hc
    have hbi : (blk, i) ∈ h1.live := (hc.live _ _).mpr (Or.inr (Or.inr (Or.inl ⟨rfl, hi, hu⟩)))
    cases built with
    | true =>
      left
      refine ⟨rfl, run_move_none ?_ _⟩
      rw [show c.emp = (c.emp.1, c.emp.2) from rfl, hc.live]
      exact Or.inr (Or.inl ⟨rfl, rfl⟩)
    | false =>
      right
      refine ⟨rfl, ?_⟩
      have hblk : (blk, n) ∈ h1.blocks := by rw [hc.blocks]; exact mem_openBlocks hS.mem
      have hbt : (tmp, 1) ∈ h1.blocks := by rw [hc.blocks]; exact List.mem_cons_self
      have hins : c.ins ∈ h1.live := by rw [show c.ins = (c.ins.1, c.ins.2) from rfl, hc.live]; exact Or.inl rfl
      have hemp : c.emp ∉ h1.live := by
        rw [show c.emp = (c.emp.1, c.emp.2) from rfl, hc.live]
        rintro (hq | ⟨hq, _⟩ | ⟨h2, h3, _⟩ | ⟨h2, h3⟩)
        · rcases hc.places with ⟨h4, h5⟩ | ⟨_, h4, h5⟩
          · rw [h4, h5] at hq; exact hS.ne (Prod.mk.inj hq).1
          · rw [h4, h5] at hq; exact hS.ne (Prod.mk.inj hq).1.symm
        · cases hq
        · rcases hc.places with ⟨h4, h5⟩ | ⟨_, h4, h5⟩
          · rw [h5] at h2; exact hS.ne h2
          · rw [h5] at h3; exact h3 rfl
        · rcases hc.places with ⟨h4, h5⟩ | ⟨_, h4, h5⟩
          · rw [h5] at h3; exact hS.free _ h3
          · rw [h5] at h2; exact h2 rfl
      obtain ⟨h2, r1, r2, r3, r4⟩ : ∃ h2, Heap.run (moveEv c.emp (blk, i)) h1 = some h2 ∧ h2.blocks = h1.blocks ∧ h2.live.Nodup ∧
          ∀ o, o ∈ h2.live ↔ o = c.emp ∨ (o ∈ h1.live ∧ o ≠ (blk, i)) := by
        rcases hc.places with ⟨h4, h5⟩ | ⟨_, h4, h5⟩
        · exact run_move (n := 1) (by rw [h5]; exact hbt) (by rw [h5]; exact Nat.one_pos) hemp hbi hc.nodup
        · exact run_move (n := n) (by rw [h5]; exact hblk) (by rw [h5]; exact hS.p0_lt) hemp hbi hc.nodup
      have hine : c.ins ≠ (blk, i) := by
        rcases hc.places with ⟨h4, h5⟩ | ⟨_, h4, h5⟩
        · rw [h4]; intro hq; exact hi (Prod.mk.inj hq).2.symm
        · rw [h4]; intro hq; exact hS.ne (Prod.mk.inj hq).1
      have hene : c.emp ≠ (blk, i) := by
        rcases hc.places with ⟨h4, h5⟩ | ⟨_, h4, h5⟩
        · rw [h5]; intro hq; exact hS.ne (Prod.mk.inj hq).1
        · rw [h5]; intro hq; exact hi (Prod.mk.inj hq).2.symm
      have hie : c.ins ≠ c.emp := fun hq => hemp (hq ▸ hins)
      obtain ⟨h3, q1, q2, q3, q4⟩ := run_move (h := h2) (new := (blk, i)) (old := c.ins) (n := n) (by rw [r2]; exact hblk) hin
        (by rw [r4]; rintro (hq | ⟨_, hq⟩)
            · exact hene hq.symm
            · exact hq rfl)
        (by rw [r4]; exact Or.inr ⟨hins, hine⟩) r3
      refine ⟨h3, by rw [Life.run_append, r1]; exact q1, ⟨by rw [q2, r2]; exact hc.blocks, q3, ?_, ?_⟩⟩
      · intro b j
        show (b, j) ∈ h3.live ↔ (b, j) = c.emp ∨ (_ ∧ (b, j) = c.ins) ∨ _
        rw [q4, r4, hc.live]
        have hb0 : ((b, j) = (blk, i) : Prop) ↔ b = blk ∧ j = i := by rw [Prod.mk.injEq]
        have hx : ((Mode.exch false = Mode.exch true) : Prop) ↔ False := by simp
        rw [hx]
        by_cases h0 : (b, j) = (blk, i)
        · have h0' := hb0.mp h0
          rw [h0'.1, h0'.2]
          constructor
          · intro _; exact Or.inr (Or.inr (Or.inl ⟨rfl, hi, hu⟩))
          · intro _; exact Or.inl rfl
        · constructor
          · rintro (hq | ⟨hq | ⟨hq | hq | hq, _⟩, hq2⟩)
            · exact absurd hq h0
            · exact Or.inl hq
            · exact absurd hq hq2
            · exact hq.1.elim
            · exact Or.inr (Or.inr hq)
          · rintro (hq | hq | hq)
            · right
              exact ⟨Or.inl hq, by rw [hq]; exact hie.symm⟩
            · exact hq.1.elim
            · right
              refine ⟨Or.inr ⟨Or.inr (Or.inr hq), h0⟩, ?_⟩
              intro hqi
              rcases hc.places with ⟨h4, h5⟩ | ⟨_, h4, h5⟩
              · rw [h4, Prod.mk.injEq] at hqi
                rcases hq with hq | hq
                · exact hq.2.1 hqi.2
                · exact hq.1 hqi.1
              · rw [h4, Prod.mk.injEq] at hqi
                rcases hq with hq | hq
                · exact hS.ne (hqi.1.symm.trans hq.1)
                · rw [hqi.1] at hq; exact hS.free _ hq.2
      · rcases hc.places with ⟨h4, h5⟩ | ⟨_, h4, h5⟩
        · exact Or.inr ⟨rfl, h5, h4⟩
        · exact Or.inl ⟨h5, h4⟩

/-- The end of the buffer. -/
theorem run_close {h : Heap} {emp : Obj} (hS : Site blk tmp p0 n other bs) (hbk : h.blocks = openBlocks tmp bs m) (hnd : h.live.Nodup)
    (hemp : m = .exch true → emp ∈ h.live) (hto : ∀ i, (tmp, i) ∈ h.live → m = .exch true ∧ (tmp, i) = emp) :
    ∃ h', Heap.run (closeEv tmp emp m) h = some h' ∧ h'.blocks = bs ∧ h'.live.Nodup ∧
      ∀ o, o ∈ h'.live ↔ o ∈ h.live ∧ ¬ (m = .exch true ∧ o = emp) := by
  cases m with
  | swap => exact ⟨h, rfl, hbk, hnd, by simp⟩
  | exch built =>
    have hbk' : h.blocks = (tmp, 1) :: bs := hbk
    have hne : (tmp, 1) ∉ bs := fun hq => hS.fresh _ hq rfl
    cases built with
    | false =>
      have hl : ∀ o ∈ h.live, o.1 ≠ tmp := by
        rintro ⟨b, i⟩ ho rfl
        have := (hto i ho).1
        cases this
      refine ⟨{ h with blocks := bs }, ?_, rfl, hnd, by simp⟩
      show Heap.run [.free tmp 1] h = _
      simp only [Heap.run]
      rw [step_free (by rw [hbk']; exact List.mem_cons_self) hl, hbk', List.erase_cons_head]
      rfl
    | true =>
      have hem := hemp rfl
      refine ⟨⟨bs, h.live.erase emp⟩, ?_, rfl, hnd.erase _, ?_⟩
      · show Heap.run [.dtor emp.1 emp.2, .free tmp 1] h = _
        simp only [Heap.run]
        rw [step_dtor (show (emp.1, emp.2) ∈ h.live from hem)]
        simp only [Option.bind_some]
        rw [step_free (h := { h with live := h.live.erase (emp.1, emp.2) }) (by show _ ∈ h.blocks; rw [hbk']; exact List.mem_cons_self) ?_]
        · simp only [Option.bind_some]
          rw [hbk', List.erase_cons_head]
        · rintro ⟨b, i⟩ ho rfl
          have ho' := (List.Nodup.mem_erase_iff hnd).mp ho
          exact ho'.1 (hto i ho'.2).2
      · intro o
        simp only
        rw [List.Nodup.mem_erase_iff hnd]
        simp only [true_and]
        exact And.comm

/-- `insert_to_place` puts the carried element into an empty slot. -/
theorem CH.settle (hS : Site blk tmp p0 n other bs) {slot : Nat → Option (K × V)} {e : K × V} {c : Cur} {hb : Heap} {i : Nat}
    (h : Step c.log c.bad hb (CH m blk tmp p0 (fun j => (slot j).isSome = true) other bs c)) (hi : i ≠ p0) (hin : i < n)
    (hu : slot i = none) :
    Step (c.settle m tmp (blk, i)).1 (c.settle m tmp (blk, i)).2 hb (Own blk (upd (upd slot i (some e)) p0 none) other bs) := by
  show Step (c.log ++ moveEv (blk, i) c.ins ++ closeEv tmp c.emp m) (c.bad || decide ((blk, i) = c.ins)) hb _
  rw [List.append_assoc]
  apply h.append
  intro h1 hc
  have hne : (blk, i) ≠ c.ins := by
    rcases hc.places with ⟨h4, h5⟩ | ⟨_, h4, h5⟩
    · rw [h4]; intro hq; exact hi (Prod.mk.inj hq).2
    · rw [h4]; intro hq; exact hS.ne (Prod.mk.inj hq).1.symm
  rw [decide_eq_false hne]
  right
  refine ⟨rfl, ?_⟩
  have hblk : (blk, n) ∈ h1.blocks := by rw [hc.blocks]; exact mem_openBlocks hS.mem
  have hins : c.ins ∈ h1.live := by rw [show c.ins = (c.ins.1, c.ins.2) from rfl, hc.live]; exact Or.inl rfl
  have hnot : (blk, i) ∉ h1.live := by
    rw [hc.live]
    rintro (hq | ⟨_, hq⟩ | ⟨_, _, hq⟩ | ⟨hq, _⟩)
    · exact hne hq
    · rcases hc.places with ⟨h4, h5⟩ | ⟨_, h4, h5⟩
      · rw [h5] at hq; exact hS.ne (Prod.mk.inj hq).1.symm
      · rw [h5] at hq; exact hi (Prod.mk.inj hq).2
    · rw [hu] at hq; cases hq
    · exact hq rfl
  obtain ⟨h2, r1, r2, r3, r4⟩ := run_move (n := n) hblk hin hnot hins hc.nodup
  have hie : m = .exch true → c.emp ≠ c.ins := by
    intro hm hq
    rcases hc.places with ⟨h4, h5⟩ | ⟨h6, _, _⟩
    · rw [h4, h5] at hq; exact hS.ne (Prod.mk.inj hq).1
    · rw [hm] at h6; cases h6
  obtain ⟨h3, q1, q2, q3, q4⟩ := run_close (m := m) (h := h2) (emp := c.emp) hS (by rw [r2]; exact hc.blocks) r3
    (by
      intro hm
      rw [r4]
      right
      refine ⟨?_, hie hm⟩
      rw [show c.emp = (c.emp.1, c.emp.2) from rfl, hc.live]
      exact Or.inr (Or.inl ⟨hm, rfl⟩))
    (by
      intro j hj
      rw [r4] at hj
      rcases hj with hq | ⟨hj, hne2⟩
      · exact (hS.ne (Prod.mk.inj hq).1).elim
      · rw [hc.live] at hj
        rcases hj with hq | hq | ⟨hq, _⟩ | ⟨_, hq⟩
        · exact (hne2 hq).elim
        · exact hq
        · exact (hS.ne hq).elim
        · exact (hS.free _ hq).elim)
  refine ⟨h3, by rw [Life.run_append, r1]; exact q1, q2, q3, ?_⟩
  intro b j
  rw [q4, r4, hc.live]
  by_cases hb0 : b = blk
  · subst hb0
    by_cases hj : j = p0
    · subst hj
      rw [upd_self]
      constructor
      · rintro ⟨hq | ⟨hq, hq2⟩, hq3⟩
        · exact (hi (Prod.mk.inj hq).2.symm).elim
        · rcases hq with hq | ⟨hm, hq⟩ | ⟨_, hq, _⟩ | ⟨hq, _⟩
          · exact (hq2 hq).elim
          · exact (hq3 ⟨hm, hq⟩).elim
          · exact (hq rfl).elim
          · exact (hq rfl).elim
      · rintro (⟨_, hq⟩ | ⟨hq, _⟩)
        · cases hq
        · exact (hq rfl).elim
    · rw [upd_other _ _ hj]
      have hemne : ¬ (m = .exch true ∧ (b, j) = c.emp) := by
        rintro ⟨hm, hq⟩
        rcases hc.places with ⟨h4, h5⟩ | ⟨h6, _, _⟩
        · rw [h5] at hq; exact hS.ne (Prod.mk.inj hq).1.symm
        · rw [hm] at h6; cases h6
      have hinne : (b, j) ≠ c.ins := by
        rcases hc.places with ⟨h4, h5⟩ | ⟨_, h4, h5⟩
        · rw [h4]; intro hq; exact hj (Prod.mk.inj hq).2
        · rw [h4]; intro hq; exact hS.ne (Prod.mk.inj hq).1.symm
      by_cases hji : j = i
      · subst hji
        rw [upd_self]
        simp [hemne]
      · rw [upd_other _ _ hji]
        have : (b, j) ≠ (b, i) := fun hq => hji (Prod.mk.inj hq).2
        simp [hemne, hinne, this, hj]
  · have h5 : (b, j) ≠ (blk, i) := fun hq => hb0 (Prod.mk.inj hq).1
    by_cases ht : b = tmp
    · subst ht
      constructor
      · rintro ⟨hq | ⟨hq, hq2⟩, hq3⟩
        · exact (h5 hq).elim
        · rcases hq with hq | hq | ⟨hq, _⟩ | hq
          · exact (hq2 hq).elim
          · exact (hq3 hq).elim
          · exact (hb0 hq).elim
          · exact Or.inr hq
      · rintro (⟨hq, _⟩ | ⟨_, hq⟩)
        · exact (hb0 hq).elim
        · exact (hS.free _ hq).elim
    · have hinne : (b, j) ≠ c.ins := by
        rcases hc.places with ⟨h4, _⟩ | ⟨_, h4, _⟩
        · rw [h4]; intro hq; exact hb0 (Prod.mk.inj hq).1
        · rw [h4]; intro hq; exact ht (Prod.mk.inj hq).1
      have hemne : (b, j) ≠ c.emp := by
        rcases hc.places with ⟨_, h4⟩ | ⟨_, _, h4⟩
        · rw [h4]; intro hq; exact ht (Prod.mk.inj hq).1
        · rw [h4]; intro hq; exact hb0 (Prod.mk.inj hq).1
      simp [h5, hinne, hemne, hb0]

/-- `insert_to_place` gives up and puts the carried element back to the place of the insertion. -/
theorem CH.giveUp (hS : Site blk tmp p0 n other bs) {slot : Nat → Option (K × V)} {c : Cur} {hb : Heap}
    (h : Step c.log c.bad hb (CH m blk tmp p0 (fun j => (slot j).isSome = true) other bs c)) (hu : (slot p0).isSome = true) :
    Step (c.settle m tmp (blk, p0)).1 (c.settle m tmp (blk, p0)).2 hb (Own blk slot other bs) := by
  show Step (c.log ++ moveEv (blk, p0) c.ins ++ closeEv tmp c.emp m) (c.bad || decide ((blk, p0) = c.ins)) hb _
  rw [List.append_assoc]
  apply h.append
  intro h1 hc
  rcases hc.places with ⟨h4, h5⟩ | ⟨hm, h4, h5⟩
  · left
    refine ⟨decide_eq_true h4.symm, run_move_none ?_ _⟩
    rw [hc.live]
    exact Or.inl h4.symm
  · right
    have hne : (blk, p0) ≠ c.ins := by rw [h4]; intro hq; exact hS.ne (Prod.mk.inj hq).1.symm
    refine ⟨decide_eq_false hne, ?_⟩
    subst hm
    have hblk : (blk, n) ∈ h1.blocks := by rw [hc.blocks]; exact mem_openBlocks hS.mem
    have hins : c.ins ∈ h1.live := by rw [show c.ins = (c.ins.1, c.ins.2) from rfl, hc.live]; exact Or.inl rfl
    have hnot : (blk, p0) ∉ h1.live := by
      rw [hc.live]
      rintro (hq | ⟨hq, _⟩ | ⟨_, hq, _⟩ | ⟨hq, _⟩)
      · exact hne hq
      · cases hq
      · exact hq rfl
      · exact hq rfl
    obtain ⟨h2, r1, r2, r3, r4⟩ := run_move (n := n) hblk hS.p0_lt hnot hins hc.nodup
    obtain ⟨h3, q1, q2, q3, q4⟩ := run_close (m := .exch false) (h := h2) (emp := c.emp) hS (by rw [r2]; exact hc.blocks) r3
      (fun hq => by cases hq)
      (by
        intro j hj
        rw [r4] at hj
        rcases hj with hq | ⟨hj, hne2⟩
        · exact (hS.ne (Prod.mk.inj hq).1).elim
        · rw [hc.live] at hj
          rcases hj with hq | hq | ⟨hq, _⟩ | ⟨_, hq⟩
          · exact (hne2 hq).elim
          · exact hq
          · exact (hS.ne hq).elim
          · exact (hS.free _ hq).elim)
    refine ⟨h3, by rw [Life.run_append, r1]; exact q1, q2, q3, ?_⟩
    intro b j
    rw [q4, r4, hc.live]
    have hx : ((Mode.exch false = Mode.exch true) : Prop) ↔ False := by simp
    rw [hx, h4]
    by_cases hb0 : b = blk
    · subst hb0
      have : b ≠ tmp := hS.ne.symm
      by_cases hj : j = p0
      · subst hj; simp [hu]
      · simp [hj, this]
    · by_cases ht : b = tmp
      · subst ht
        by_cases hj : j = 0
        · subst hj; simp [hb0, hS.free]
        · simp [hb0, hS.free]
      · simp [hb0, ht]

theorem placeLoopE_step (hS : Site blk tmp p0 n other bs) (rh : Bool) (hb : Heap) : ∀ (f : Nat) (t : Map K V) (i : Nat) (rich : Ctrl) (c : Cur),
    p0 < i → f + i ≤ n ∨ f = 0 → (∀ p, i ≤ p → p < n → ((t.ctrl p).isEmpty = true ↔ t.slot p = none)) → (t.slot p0).isSome = true →
    Step c.log c.bad hb (CH m blk tmp p0 (fun j => (t.slot j).isSome = true) other bs c) →
    ∀ t' done l b, placeLoopE m blk tmp rh p0 f t i rich c = .ok (t', done, l, b) → Step l b hb (Own blk t'.slot other bs) := by
  have hng : ∀ (t : Map K V) (rich : Ctrl) (c : Cur), (t.slot p0).isSome = true →
      Step c.log c.bad hb (CH m blk tmp p0 (fun j => (t.slot j).isSome = true) other bs c) →
      ∀ t' done l b, needGrowE m blk tmp p0 t rich c = .ok (t', done, l, b) → Step l b hb (Own blk t'.slot other bs) := by
    intro t rich c hu hc t' done l b hq
    have h1 := CH.giveUp hS hc hu
    unfold needGrowE needGrow at hq
    split at hq
    · cases hq
    · simp only [Res.bind_ok, Res.ok.injEq, Prod.mk.injEq] at hq
      obtain ⟨rfl, _, hq⟩ := hq
      rw [hq] at h1
      exact h1
  intro f
  induction f with
  | zero => intro t i rich c _ _ _ hu hc; exact hng t rich c hu hc
  | succ f ih =>
    intro t i rich c hi hf hcell hu hc t' done l b hq
    have hin : i < n := by omega
    unfold placeLoopE at hq
    split at hq
    · rename_i hemp
      have hnone := (hcell i (Nat.le_refl _) hin).mp hemp
      cases he : t.slot p0 with
      | none => rw [he] at hu; cases hu
      | some e =>
        rw [he] at hq
        have h1 := CH.settle (e := e) hS hc (by omega) hin hnone
        simp only [Res.ok.injEq, Prod.mk.injEq] at hq
        obtain ⟨rfl, _, hq⟩ := hq
        rw [hq] at h1
        exact h1
    · rename_i hemp
      have hsome : (t.slot i).isSome = true := by
        cases hs : t.slot i with
        | none => exact (hemp ((hcell i (Nat.le_refl _) hin).mpr hs)).elim
        | some e => rfl
      split at hq
      · dsimp only at hq
        have hu' : ((upd (upd t.slot i (t.slot p0)) p0 (t.slot i)) p0).isSome = true := by rw [upd_self]; exact hsome
        have hc' := CH.trade hS hc (i := i) (by omega) hin hsome
        have hc'' : Step (c.trade (blk, i) m).log (c.trade (blk, i) m).bad hb (CH m blk tmp p0
            (fun j => (upd (upd t.slot i (t.slot p0)) p0 (t.slot i) j).isSome = true) other bs (c.trade (blk, i) m)) := by
          refine hc'.mono ?_
          intro h1 hh
          refine ⟨hh.blocks, hh.nodup, ?_, hh.places⟩
          intro x j
          rw [hh.live]
          by_cases hj : j = p0
          · simp [hj]
          · rw [upd_other _ _ hj]
            by_cases hji : j = i
            · rw [hji, upd_self, hu, hsome]
            · rw [upd_other _ _ hji]
        split at hq
        · exact hng _ _ _ hu' hc'' _ _ _ _ hq
        · refine ih _ _ _ _ (by omega) (by omega) ?_ hu' hc'' _ _ _ _ hq
          intro p hp1 hp2
          simp only
          rw [upd_other _ _ (show p ≠ i by omega), upd_other _ _ (show p ≠ p0 by omega), upd_other _ _ (show p ≠ i by omega)]
          exact hcell p (by omega) hp2
      · split at hq
        · cases hq
        · split at hq
          · exact hng _ _ _ hu hc _ _ _ _ hq
          · exact ih _ _ _ _ (by omega) (by omega) (fun p hp1 hp2 => hcell p (by omega) hp2) hu hc _ _ _ _ hq

end Place

/-- Where block numbers are: the surroundings of a map whose slots are in use. -/
structure Ground (s : LT K V) (other : Obj → Prop) (bs : List (Nat × Nat)) : Prop where
  blk : s.blk < s.next
  below : ∀ x ∈ bs, x.1 < s.next
  other : ∀ o, other o → o.1 < s.next
  mem : (s.blk, s.t.slen) ∈ bs

theorem Ground.site {s : LT K V} {other : Obj → Prop} {bs : List (Nat × Nat)} (h : Ground s other bs) {i : Nat} (hi : i < s.t.slen) :
    Site s.blk s.next i s.t.slen other bs where
  ne := by have := h.blk; omega
  fresh := by intro x hx; have := h.below x hx; omega
  free := by intro j hj; have := h.other _ hj; simp only at this; omega
  mem := h.mem
  p0_lt := hi

theorem weak_empty {t : Map K V} {c : Nat} (h : Weak E t c) {p : Nat} (hp : p < t.slen) :
    (t.ctrl p).isEmpty = true ↔ t.slot p = none := by
  rcases h.cell p hp with ⟨h1, h2⟩ | ⟨e, h1, h2, _⟩
  · rw [h1, h2]; simp [Ctrl.empty, Ctrl.isEmpty]
  · rw [h1]
    unfold Ctrl.isEmpty
    simp only [beq_iff_eq, reduceCtorEq, iff_false]
    omega

theorem weak_used {t : Map K V} {c : Nat} (h : Weak E t c) {p : Nat} (hp : p < t.slen) :
    (t.ctrl p).isUsed = true ↔ (t.slot p).isSome = true := by
  unfold Ctrl.isUsed
  rcases h.cell p hp with ⟨h1, h2⟩ | ⟨e, h1, h2, _⟩
  · rw [h1, h2]; simp [Ctrl.empty]
  · rw [h1]; simp [h2]

/-- The beginning of `insert_to_place`. -/
theorem openE_step {blk tmp p0 n : Nat} {other : Obj → Prop} {bs : List (Nat × Nat)} (hS : Site blk tmp p0 n other bs)
    {slot : Nat → Option (K × V)} (hu : (slot p0).isSome = true) {h : Heap} (hO : Own blk slot other bs h) :
    Step (openEv tmp m) false h (CH m blk tmp p0 (fun j => (slot j).isSome = true) other bs
      { ins := (blk, p0), emp := (tmp, 0), log := openEv tmp m, bad := false }) := by
  right
  refine ⟨rfl, ?_⟩
  have hfr : ∀ x ∈ h.blocks, x.1 ≠ tmp := by rw [hO.blocks]; exact hS.fresh
  have hlive : ∀ b i, (b, i) ∈ h.live ↔ (b, i) = (blk, p0) ∨ (b = blk ∧ i ≠ p0 ∧ (slot i).isSome = true) ∨ (b ≠ blk ∧ other (b, i)) := by
    intro b i
    rw [hO.live, Prod.mk.injEq]
    by_cases hb : b = blk
    · by_cases hi : i = p0
      · simp [hb, hi, hu]
      · simp [hb, hi]
    · simp [hb]
  cases m with
  | swap =>
    refine ⟨h, rfl, hO.blocks, hO.nodup, ?_, Or.inl ⟨rfl, rfl⟩⟩
    intro b i
    rw [hlive]
    simp
  | exch built =>
    cases built with
    | false =>
      refine ⟨{ h with blocks := (tmp, 1) :: h.blocks }, ?_, by rw [hO.blocks]; rfl, hO.nodup, ?_, Or.inl ⟨rfl, rfl⟩⟩
      · show Heap.run [.alloc tmp 1] h = _
        simp only [Heap.run]
        rw [step_alloc hfr]
        rfl
      · intro b i
        simp only
        rw [hlive]
        simp
    | true =>
      have hno : (tmp, 0) ∉ h.live := by
        rw [hO.live]
        rintro (⟨hq, _⟩ | ⟨_, hq⟩)
        · exact hS.ne hq
        · exact hS.free _ hq
      refine ⟨⟨(tmp, 1) :: h.blocks, (tmp, 0) :: h.live⟩, ?_, by rw [hO.blocks]; rfl, List.nodup_cons.mpr ⟨hno, hO.nodup⟩, ?_, Or.inl ⟨rfl, rfl⟩⟩
      · show Heap.run [.alloc tmp 1, .ctor tmp 0] h = _
        simp only [Heap.run]
        rw [step_alloc hfr]
        simp only [Option.bind_some]
        rw [step_ctor (h := { h with blocks := (tmp, 1) :: h.blocks }) (n := 1) List.mem_cons_self Nat.one_pos hno]
        rfl
      · intro b i
        simp only
        rw [List.mem_cons, hlive]
        simp only [true_and]
        tauto

/-- Making room for an element keeps the log in order or has an accident. -/
theorem placeE_ok {c : Nat} {s : LT K V} (hG : Good E s.t c) {other : Obj → Prop} {bs : List (Nat × Nat)} (hgr : Ground s other bs)
    (h : Ok (Own s.blk s.t.slot other bs) s) {rh : Bool} {i : Nat} {d : Ctrl} {s' : LT K V} {done : Bool}
    (hq : placeE m rh i d s = .ok (s', done)) :
    Ok (Own s.blk s'.t.slot other bs) s' ∧ s'.blk = s.blk ∧ s'.next = s.next := by
  unfold placeE at hq
  rw [if_pos hG.alloc] at hq
  split at hq
  · cases hq
    exact ⟨h, rfl, rfl⟩
  · rename_i hemp
    cases hr : insertToPlaceE m s.blk s.next rh s.t i d with
    | ub => rw [hr] at hq; cases hq
    | diverge => rw [hr] at hq; cases hq
    | ok r =>
      obtain ⟨t', dn, l, b⟩ := r
      rw [hr] at hq
      simp only [Res.bind_ok, Res.ok.injEq, Prod.mk.injEq] at hq
      obtain ⟨rfl, rfl⟩ := hq
      refine ⟨?_, rfl, rfl⟩
      apply Ok.emit (s := { s with t := t' }) h
      intro h1 hO
      unfold insertToPlaceE at hr
      rw [hG.last] at hr
      simp only at hr
      by_cases hi : i < s.t.slen
      · have hu : (s.t.slot i).isSome = true := by
          cases hs : s.t.slot i with
          | none => exact (hemp ((weak_empty hG.weak hi).mpr hs)).elim
          | some e => rfl
        refine placeLoopE_step (hgr.site hi) rh h1 _ _ _ _ _ ?_ ?_ ?_ ?_ ?_ _ _ _ _ hr
        rotate_left 3
        · exact hu
        · exact openE_step (hgr.site hi) hu hO
        · omega
        · omega
        intro p hp1 hp2
        simp only
        rw [upd_other _ _ (show p ≠ i by omega)]
        exact weak_empty hG.weak hp2
      · have h0 : s.t.slen - (i + 1) = 0 := by omega
        rw [h0] at hr
        unfold placeLoopE needGrowE needGrow at hr
        simp only [(hG.tail i (by omega)).1] at hr
        cases hr

/-- Constructing an element in an empty slot. -/
theorem constructE_ok {s : LT K V} {other : Obj → Prop} {bs : List (Nat × Nat)} (hgr : Ground s other bs)
    (h : Ok (Own s.blk s.t.slot other bs) s) {i : Nat} (hi : s.t.slot i = none) {e : K × V} {s' : LT K V}
    (hq : constructE i e s = .ok s') : Ok (Own s.blk s'.t.slot other bs) s' ∧ s'.blk = s.blk ∧ s'.next = s.next := by
  unfold constructE construct at hq
  split at hq
  · rename_i hlt
    simp only [Res.bind_ok, Res.ok.injEq] at hq
    subst hq
    refine ⟨?_, rfl, rfl⟩
    apply Ok.emit (s := { s with t := _ }) h
    intro h1 hO
    right
    have hno : (s.blk, i) ∉ h1.live := by
      rw [hO.live, hi]
      rintro (⟨_, hq⟩ | ⟨hq, _⟩)
      · cases hq
      · exact hq rfl
    refine ⟨rfl, { h1 with live := (s.blk, i) :: h1.live }, ?_, hO.blocks, List.nodup_cons.mpr ⟨hno, hO.nodup⟩, ?_⟩
    · simp only [Heap.run]
      rw [step_ctor (by rw [hO.blocks]; exact hgr.mem) hlt hno]
      rfl
    · intro b j
      simp only [emit]
      rw [List.mem_cons, hO.live, Prod.mk.injEq]
      by_cases hj : j = i
      · subst hj
        rw [upd_self, hi]
        by_cases hb : b = s.blk <;> simp [hb]
      · rw [upd_other _ _ hj]
        simp [hj]
  · cases hq

theorem d_hash {t : Map K V} {h0 i : Nat} {d : Ctrl} (h : Stop t h0 i d) : ({ d with hash := 0 } : Ctrl) = d := by
  rw [h.d_eq]

/-- A place that has been made is empty. -/
theorem placeE_none (hE : E.Lawful) {c : Nat} {s : LT K V} (hG : Good E s.t c) {h0 i : Nat} {d : Ctrl} (hs : Stop s.t h0 i d) {rh : Bool} {s' : LT K V}
    (hq : placeE m rh i d s = .ok (s', true)) : s'.t.slot i = none ∧ s'.t.slen = s.t.slen := by
  have hp := proj_placeE (m := m) rh i d s
  rw [hq] at hp
  simp only [Res.bind_ok] at hp
  by_cases hi : i < s.t.slen
  · have h1 := place_spec hE hG hs hi rh
    rw [← hp] at h1
    exact ⟨h1.s0, h1.same.slen⟩
  · have h1 := place_out hG hi (d := d) rh
    rw [← hp] at h1
    refine ⟨?_, h1.slen⟩
    unfold placeE at hq
    rw [if_pos hG.alloc] at hq
    split at hq
    · cases hq
      exact (hG.tail i (by omega)).1
    · unfold insertToPlaceE at hq
      rw [hG.last] at hq
      have h0 : s.t.slen - (i + 1) = 0 := by omega
      simp only [h0] at hq
      unfold placeLoopE needGrowE needGrow at hq
      simp only [(hG.tail i (by omega)).1] at hq
      cases hq

theorem insertNoGrowE_ok (hE : E.Lawful) {c : Nat} {s : LT K V} (hG : Good E s.t c) {other : Obj → Prop} {bs : List (Nat × Nat)}
    (hgr : Ground s other bs) (h : Ok (Own s.blk s.t.slot other bs) s) {e : K × V} (hk : ∀ x ∈ entries s.t, E.eq x.1 e.1 = false)
    {s' : LT K V} (hq : insertNoGrowE m E e s = .ok s') :
    Ok (Own s.blk s'.t.slot other bs) s' ∧ s'.blk = s.blk ∧ s'.next = s.next ∧ Good E s'.t c ∧
      (entries s'.t).Perm (e :: entries s.t) := by
  have hp := projR_insertNoGrowE (m := m) (E := E) e s
  rw [hq] at hp
  have h1 := insertNoGrow_spec hE hG e hk
  rw [← hp] at h1
  obtain ⟨i', ha⟩ := h1
  unfold insertNoGrowE at hq
  have hsk := seek_spec hG e.1
  cases hs : seek false true E s.t e.1 with
  | ub => rw [hs] at hq; cases hq
  | diverge => rw [hs] at hq; cases hq
  | ok q =>
    obtain ⟨i, d⟩ := q
    rw [hs] at hq hsk
    simp only [Res.bind_ok, d_hash hsk] at hq
    cases hpl : placeE m true i d s with
    | ub => rw [hpl] at hq; cases hq
    | diverge => rw [hpl] at hq; cases hq
    | ok r =>
      obtain ⟨s1, done⟩ := r
      rw [hpl] at hq
      simp only [Res.bind_ok] at hq
      cases done with
      | false => cases hq
      | true =>
        obtain ⟨h2, h3, h4⟩ := placeE_ok hG hgr h hpl
        obtain ⟨h5, h6⟩ := placeE_none hE hG hsk hpl
        have hgr1 : Ground s1 other bs := ⟨by rw [h3, h4]; exact hgr.blk, by rw [h4]; exact hgr.below, by rw [h4]; exact hgr.other,
          by rw [h3, h6]; exact hgr.mem⟩
        obtain ⟨h7, h8, h9⟩ := constructE_ok hgr1 (by rw [h3]; exact h2) h5 hq
        rw [h3] at h7
        exact ⟨h7, h8.trans h3, h9.trans h4, ha.good, ha.perm⟩

/-! ### Capacity -/

/-- The blocks a map holds, with the counts its destructor would give back. -/
def owned (t : Map K V) (b : Nat) : List (Nat × Nat) :=
  if t.alloc then [(b, maxCap t), (b + 1, (groups false t + 1) * width false)] else []

/-- The heap is that of the map: its blocks, and one object for every element. -/
def Holds (s : LT K V) : Heap → Prop := Own s.blk s.t.slot (fun _ => False) (owned s.t s.blk)

/-- A map between two calls. -/
structure Fine (s : LT K V) : Prop where
  ok : Ok (Holds s) s
  blk : s.blk < s.next
  blk2 : s.t.alloc = true → s.blk + 2 ≤ s.next

theorem Own.congr {blk : Nat} {slot slot' : Nat → Option (K × V)} {other other' : Obj → Prop} {bs : List (Nat × Nat)} {h : Heap}
    (h1 : Own blk slot other bs h) (hs : ∀ i, (slot i).isSome = (slot' i).isSome) (ho : ∀ b i, b ≠ blk → (other (b, i) ↔ other' (b, i))) :
    Own blk slot' other' bs h where
  blocks := h1.blocks
  nodup := h1.nodup
  live := by
    intro b i
    rw [h1.live, hs]
    by_cases hb : b = blk
    · simp [hb]
    · simp [hb, ho b i hb]

theorem Fine.ground {s : LT K V} (h : Fine s) {c : Nat} (hs : Shape s.t c) : Ground s (fun _ => False) (owned s.t s.blk) where
  blk := h.blk
  below := by
    intro x hx
    have := h.blk2 hs.alloc
    unfold owned at hx
    rw [if_pos hs.alloc] at hx
    simp only [List.mem_cons, List.not_mem_nil, or_false] at hx
    rcases hx with rfl | rfl <;> simp only <;> omega
  other := fun _ h => h.elim
  mem := by
    unfold owned
    rw [if_pos hs.alloc, hs.maxCap]
    exact List.mem_cons_self

theorem owned_same {t t' : Map K V} (h : SameShape t t') (b : Nat) : owned t' b = owned t b := by
  unfold SameShape at h
  unfold owned maxCap groups maxCap slotCap
  rw [h]

theorem owned_shape {t t' : Map K V} {c : Nat} (h : Shape t c) (h' : Shape t' c) (b : Nat) : owned t' b = owned t b := by
  unfold owned maxCap groups maxCap slotCap
  rw [h.alloc, h.mask, h.look, h'.alloc, h'.mask, h'.look]

/-- The indices a rehash visits. -/
theorem mem_usedIdx {c : Nat} {t : Map K V} (h : Weak E t c) (i : Nat) : i ∈ usedIdx false t ↔ (t.slot i).isSome = true := by
  constructor
  · intro hi
    obtain ⟨e, he, _⟩ := (usedIdx_spec h).1 i hi
    rw [he]; rfl
  · intro hi
    have hlt : i < t.slen := by
      by_contra hq
      rw [(h.tail i (by omega)).1] at hi
      cases hi
    have hw : width false = 32 := rfl
    unfold usedIdx
    rw [List.mem_filter, List.mem_range]
    refine ⟨?_, (weak_used h hlt).mpr hi⟩
    have := h.toShape.clen
    have := h.toShape.slen
    unfold groups
    rw [h.alloc, if_pos rfl, h.toShape.maxCap, hw]
    split <;> omega

theorem nodup_usedIdx (t : Map K V) : (usedIdx false t).Nodup := List.Nodup.filter _ List.nodup_range

/-- The objects of the elements that have not been moved yet. -/
def Left (bo : Nat) (is : List Nat) (o : Obj) : Prop := o.1 = bo ∧ o.2 ∈ is

theorem transferAllE_ok (hE : E.Lawful) {c : Nat} (old : Map K V) (bo : Nat) {bs : List (Nat × Nat)} : ∀ (is : List Nat) (s : LT K V),
    Good E s.t c → bo ≠ s.blk → is.Nodup → Ground s (Left bo is) bs → Ok (Own s.blk s.t.slot (Left bo is) bs) s →
    (∀ i ∈ is, ∃ e, old.slot i = some e ∧ (old.ctrl i).hash = 0) → Distinct E.eq (is.filterMap old.slot ++ entries s.t) →
    ∀ s', transferAllE m E old bo is s = .ok s' →
      Ok (Own s.blk s'.t.slot (fun _ => False) bs) s' ∧ s'.blk = s.blk ∧ s'.next = s.next ∧ Good E s'.t c := by
  intro is
  induction is with
  | nil =>
    intro s hG _ _ _ h _ _ s' hq
    cases hq
    exact ⟨h.mono fun h' ho => ho.congr (fun _ => rfl) (fun b i _ => by simp [Left]), rfl, rfl, hG⟩
  | cons i is ih =>
    intro s hG hbo hnd hgr h hu hd s' hq
    unfold transferAllE at hq
    obtain ⟨e, he, _⟩ := hu i List.mem_cons_self
    rw [he] at hq
    simp only at hq
    have hcons : (i :: is).filterMap old.slot = e :: is.filterMap old.slot := by
      rw [List.filterMap_cons, he]
    rw [hcons, List.cons_append] at hd
    have hd' := hd
    rw [Distinct, List.pairwise_cons] at hd'
    cases hin : insertNoGrowE m E e s with
    | ub => rw [hin] at hq; cases hq
    | diverge => rw [hin] at hq; cases hq
    | ok s1 =>
      rw [hin, Res.bind_ok] at hq
      obtain ⟨h1, h2, h3, h4, h5⟩ := insertNoGrowE_ok hE hG hgr h (fun x hx => absent_symm hE (hd'.1 x (List.mem_append_right _ hx))) hin
      rw [List.nodup_cons] at hnd
      have hsl : s1.t.slen = s.t.slen := by rw [h4.slen, hG.slen]
      have hq' := ih (emit [.dtor bo i] false s1) h4 (by rw [show (emit [Ev.dtor bo i] false s1).blk = s1.blk from rfl, h2]; exact hbo)
        hnd.2 ?_ ?_ (fun j hj => hu j (List.mem_cons_of_mem _ hj)) ?_ s' hq
      · obtain ⟨g1, g2, g3, g4⟩ := hq'
        rw [show (emit [Ev.dtor bo i] false s1).blk = s1.blk from rfl, h2] at g1 g2
        exact ⟨g1, g2, g3.trans h3, g4⟩
      · refine ⟨?_, ?_, ?_, ?_⟩
        · show s1.blk < s1.next
          rw [h2, h3]; exact hgr.blk
        · show ∀ x ∈ bs, x.1 < s1.next
          rw [h3]; exact hgr.below
        · show ∀ o, Left bo is o → o.1 < s1.next
          rw [h3]
          exact fun o ho => hgr.other o ⟨ho.1, List.mem_cons_of_mem _ ho.2⟩
        · show (s1.blk, s1.t.slen) ∈ bs
          rw [h2, hsl]; exact hgr.mem
      · rw [show (emit [Ev.dtor bo i] false s1).blk = s1.blk from rfl, h2]
        apply Ok.emit h1
        intro h' hO
        right
        have hl : (bo, i) ∈ h'.live := (hO.live bo i).mpr (Or.inr ⟨hbo, rfl, List.mem_cons_self⟩)
        refine ⟨rfl, { h' with live := h'.live.erase (bo, i) }, ?_, hO.blocks, hO.nodup.erase _, ?_⟩
        · simp only [Heap.run]
          rw [step_dtor hl]
          rfl
        · intro b j
          rw [List.Nodup.mem_erase_iff hO.nodup, hO.live]
          unfold Left
          by_cases hb : b = s.blk
          · subst hb
            simp [Ne.symm hbo]
            rfl
          · simp only [hb, false_and, false_or, not_false_eq_true, true_and, List.mem_cons, ne_eq, Prod.mk.injEq]
            constructor
            · rintro ⟨g1, rfl, rfl | g2⟩
              · exact (g1 ⟨rfl, rfl⟩).elim
              · exact ⟨rfl, g2⟩
            · rintro ⟨rfl, g2⟩
              exact ⟨fun hh => hnd.1 (hh.2 ▸ g2), rfl, Or.inr g2⟩
      · exact Spec.Distinct.perm hE (List.Perm.trans List.perm_middle.symm (List.Perm.append_left _ h5.symm)) hd

/-- The new blocks. -/
theorem createE_ok {s : LT K V} {a : Bool × Bool} {j : Nat} (hj : 2 ≤ j) {P : Heap → Prop} (h : Ok P s) (hP : ∀ h', P h' → ∀ x ∈ h'.blocks, x.1 < s.next)
    {s1 : LT K V} {u : Unit} (hq : createE a (2 ^ j) s = .ok s1 u) :
    Ok (fun h' => ∃ h0, P h0 ∧ h' = { h0 with blocks := owned s1.t s1.blk ++ h0.blocks }) s1 ∧ s1.blk = s.next ∧ s1.next = s.next + 2 ∧
      Good E s1.t (2 ^ j) ∧ entries s1.t = [] ∧ ∀ i, s1.t.slot i = none := by
  unfold createE at hq
  cases hc : createSlots false (a.1 && a.2) (2 ^ j) s.t with
  | ub => rw [hc] at hq; cases hq
  | diverge => rw [hc] at hq; cases hq
  | throw t' => rw [hc] at hq; cases hq
  | ok t1 w =>
    rw [hc] at hq
    cases hq
    obtain ⟨g1, g2, _⟩ := createSlots_good (E := E) hj hc
    refine ⟨?_, rfl, rfl, g1, g2, ?_⟩
    · apply Ok.emit (s := { s with t := t1, blk := s.next, next := s.next + 2 }) h
      intro h' hp
      right
      refine ⟨rfl, _, ?_, h', hp, rfl⟩
      have hb := hP h' hp
      have how : owned t1 s.next = [(s.next, 2 ^ j + lookups (2 ^ j)), (s.next + 1, newCtrls (2 ^ j))] := by
        unfold owned newCtrls groups
        rw [if_pos g1.alloc, g1.toShape.maxCap, g1.slen]
        rfl
      show Heap.run [.alloc (s.next + 1) (newCtrls (2 ^ j)), .alloc s.next (2 ^ j + lookups (2 ^ j))] h' = some { h' with blocks := owned t1 s.next ++ h'.blocks }
      rw [how]
      simp only [Heap.run]
      rw [step_alloc (fun x hx => by have := hb x hx; omega)]
      simp only [Option.bind_some]
      rw [step_alloc (h := { h' with blocks := _ }) (by
        intro x hx
        simp only [List.mem_cons] at hx
        rcases hx with rfl | hx
        · simp only; omega
        · have := hb x hx; omega)]
      rfl
    · intro i
      unfold createSlots at hc
      simp only at hc
      split at hc
      · cases hc; rfl
      · cases hc

theorem run_freeOld {h : Heap} {t : Map K V} {b : Nat} {bs : List (Nat × Nat)} (hb : h.blocks = bs ++ owned t b)
    (hbs : ∀ x ∈ bs, b + 2 ≤ x.1 ∨ t.alloc = false) (hl : ∀ o ∈ h.live, t.alloc = true → o.1 ≠ b ∧ o.1 ≠ b + 1) :
    Heap.run (freeOld t b) h = some { h with blocks := bs } := by
  unfold freeOld
  unfold owned at hb
  cases ha : t.alloc with
  | false =>
    rw [ha] at hb
    simp only [Bool.false_eq_true, if_false, List.append_nil] at hb ⊢
    rw [← hb]
    rfl
  | true =>
    rw [ha, if_pos rfl] at hb
    rw [if_pos rfl]
    have hnot : ∀ n c, c < b + 2 → (c, n) ∉ bs := fun n c hc hm => by
      rcases hbs _ hm with h1 | h1
      · simp only at h1; omega
      · rw [ha] at h1; cases h1
    generalize maxCap t = x at hb ⊢
    generalize (groups false t + 1) * width false = y at hb ⊢
    simp only [Heap.run]
    rw [step_free (by rw [hb]; simp) (fun o ho => (hl o ho ha).2)]
    simp only [Option.bind_some]
    have h1 : h.blocks.erase (b + 1, y) = bs ++ [(b, x)] := by
      rw [hb, List.erase_append_right _ (hnot _ _ (by omega))]
      simp
    rw [step_free (h := { h with blocks := h.blocks.erase (b + 1, y) }) (by show _ ∈ h.blocks.erase (b + 1, y); rw [h1]; simp)
      (fun o ho => (hl o ho ha).1)]
    simp only [Option.bind_some]
    rw [h1, List.erase_append_right _ (hnot _ _ (by omega))]
    simp

theorem rehashImplE_ok (hE : E.Lawful) {s : LT K V} (hst : Fresh s.t ∨ ∃ c, Weak E s.t c) (hf : Fine s) {sh al : Bool} {a : Bool × Bool}
    {n : Nat} {s' : LT K V} {u : Unit} (hq : rehashImplE m E sh al a n s = .ok s' u) : Fine s' := by
  unfold rehashImplE at hq
  cases hc : calcCapacity n with
  | ub => rw [hc] at hq; cases hq
  | diverge => rw [hc] at hq; cases hq
  | ok cap =>
    rw [hc] at hq
    simp only at hq
    split at hq
    · obtain ⟨j, hj, rfl, _⟩ := calcCapacity_ok hc
      cases hcr : createE a (2 ^ j) s with
      | ub => rw [hcr] at hq; cases hq
      | diverge => rw [hcr] at hq; cases hq
      | throw t' => rw [hcr] at hq; cases hq
      | ok s1 w =>
        rw [hcr] at hq
        simp only at hq
        have hbelow : ∀ x ∈ owned s.t s.blk, x.1 < s.next := by
          intro x hx
          unfold owned at hx
          split at hx
          · rename_i ha
            have := hf.blk2 ha
            simp only [List.mem_cons, List.not_mem_nil, or_false] at hx
            rcases hx with rfl | rfl <;> simp only <;> omega
          · cases hx
        obtain ⟨h1, h2, h3, h4, h5, h6⟩ := createE_ok (E := E) hj hf.ok (fun h' hh => by rw [hh.blocks]; exact hbelow) hcr
        have hblk := hf.blk
        have hlist : (∀ i ∈ usedIdx false s.t, ∃ e, s.t.slot i = some e ∧ (s.t.ctrl i).hash = 0) ∧
            (usedIdx false s.t).filterMap s.t.slot = entries s.t ∧ Distinct E.eq (entries s.t) ∧
            (∀ i, i ∈ usedIdx false s.t ↔ (s.t.slot i).isSome = true) := by
          rcases hst with h | ⟨c, h⟩
          · rw [h.usedIdx, h.entries]
            refine ⟨by simp, rfl, List.Pairwise.nil, ?_⟩
            obtain ⟨x, y, hxy⟩ := h
            rw [hxy]
            intro i
            simp [emptyMap]
          · exact ⟨(usedIdx_spec h).1, (usedIdx_spec h).2, h.distinct, mem_usedIdx h⟩
        cases htr : transferAllE m E s.t s.blk (usedIdx false s.t) s1 with
        | ub => rw [htr] at hq; cases hq
        | diverge => rw [htr] at hq; cases hq
        | ok s2 =>
          rw [htr] at hq
          cases hq
          have hno : ∀ x ∈ owned s1.t s1.blk, s.next ≤ x.1 ∧ x.1 < s1.next := by
            intro x hx
            unfold owned at hx
            rw [if_pos h4.alloc] at hx
            simp only [List.mem_cons, List.not_mem_nil, or_false] at hx
            rw [h3]
            rcases hx with rfl | rfl <;> simp only <;> omega
          obtain ⟨g1, g2, g3, g4⟩ := transferAllE_ok hE (bs := owned s1.t s1.blk ++ owned s.t s.blk) s.t s.blk (usedIdx false s.t) s1 h4
            (by rw [h2]; omega) (nodup_usedIdx _)
            ⟨by rw [h2, h3]; omega, by
              intro x hx
              rcases List.mem_append.mp hx with hx | hx
              · exact (hno x hx).2
              · have := hbelow x hx; omega, by
              rintro o ⟨ho, _⟩
              rw [ho]; omega, by
              apply List.mem_append_left
              unfold owned
              rw [if_pos h4.alloc, h4.toShape.maxCap]
              exact List.mem_cons_self⟩
            (h1.mono (by
              rintro h' ⟨h0, hh, rfl⟩
              refine ⟨by simp only; rw [hh.blocks], hh.nodup, ?_⟩
              intro b i
              simp only
              rw [hh.live, h6 i, h2]
              unfold Left
              simp
              rw [hlist.2.2.2]
              constructor
              · rintro ⟨rfl, g⟩; exact ⟨by omega, rfl, g⟩
              · rintro ⟨_, g⟩; exact g))
            hlist.1 (by rw [h5, List.append_nil, hlist.2.1]; exact hlist.2.2.1) s2 htr
          have how : owned s2.t s2.blk = owned s1.t s1.blk := by rw [g2]; exact owned_shape h4.toShape g4.toShape _
          refine ⟨?_, ?_, ?_⟩
          · apply Ok.emit g1
            intro h' hO
            right
            refine ⟨rfl, { h' with blocks := owned s1.t s1.blk }, run_freeOld hO.blocks ?_ ?_, ?_, hO.nodup, ?_⟩
            · intro x hx
              cases ha : s.t.alloc with
              | false => exact Or.inr rfl
              | true =>
                have := hf.blk2 ha
                have := hno x hx
                left; omega
            · intro o ho ha
              obtain ⟨b, i⟩ := o
              have := hf.blk2 ha
              rcases (hO.live b i).mp ho with ⟨hb, _⟩ | ⟨_, hb⟩
              · subst hb
                simp only [h2]
                omega
              · exact hb.elim
            · exact how.symm
            · intro b i
              show (b, i) ∈ h'.live ↔ _
              rw [hO.live, ← g2]
              rfl
          · show s2.blk < s2.next
            rw [g2, g3, h2, h3]; omega
          · show _ → s2.blk + 2 ≤ s2.next
            rw [g2, g3, h2, h3]; omega
    · cases hq
      exact hf

/-! ### Accidents -/

theorem placeLoopE_bad (hm : m ≠ .exch true) {blk tmp p0 : Nat} (rh : Bool) : ∀ (f : Nat) (t : Map K V) (i : Nat)
    (rich : Ctrl) (c : Cur), p0 < i → (c.ins = (blk, p0) ∨ c.ins = (tmp, 0)) → (c.emp = (blk, p0) ∨ c.emp = (tmp, 0)) →
    ∀ t' l b, placeLoopE m blk tmp rh p0 f t i rich c = .ok (t', true, l, b) → b = c.bad := by
  have hng : ∀ (t : Map K V) (rich : Ctrl) (c : Cur) t' l b, needGrowE m blk tmp p0 t rich c ≠ .ok (t', true, l, b) := by
    intro t rich c t' l b hq
    unfold needGrowE needGrow at hq
    split at hq
    · cases hq
    · simp at hq
  intro f
  induction f with
  | zero => intro t i rich c _ _ _ t' l b hq; exact (hng _ _ _ _ _ _ hq).elim
  | succ f ih =>
    intro t i rich c hi h1 h2 t' l b hq
    unfold placeLoopE at hq
    split at hq
    · split at hq
      · cases hq
      · simp only [Res.ok.injEq, Prod.mk.injEq, true_and] at hq
        have hb := congrArg Prod.snd hq.2
        unfold Cur.settle at hb
        have : ¬ ((blk, i) = c.ins) := by
          rcases h1 with h1 | h1 <;> rw [h1] <;> simp <;> omega
        simp only [this, decide_false, Bool.or_false] at hb
        exact hb.symm
    · split at hq
      · dsimp only at hq
        have hb : (c.trade (blk, i) m).bad = c.bad := by
          cases m with
          | swap => rfl
          | exch built =>
            cases built with
            | false => simp [Cur.trade]
            | true => exact (hm rfl).elim
        split at hq
        · exact (hng _ _ _ _ _ _ hq).elim
        · rw [← hb]
          refine ih _ _ _ _ (by omega) ?_ ?_ _ _ _ hq
          · cases m <;> assumption
          · cases m <;> assumption
      · split at hq
        · cases hq
        · split at hq
          · exact (hng _ _ _ _ _ _ hq).elim
          · exact ih _ _ _ _ (by omega) h1 h2 _ _ _ hq

theorem placeE_bad (hm : m ≠ .exch true) {s s' : LT K V} {rh : Bool} {i : Nat} {d : Ctrl}
    (hq : placeE m rh i d s = .ok (s', true)) : s'.bad = s.bad ∧ s'.blk = s.blk ∧ s'.next = s.next := by
  unfold placeE at hq
  split at hq
  · split at hq
    · cases hq; exact ⟨rfl, rfl, rfl⟩
    · cases hr : insertToPlaceE m s.blk s.next rh s.t i d with
      | ub => rw [hr] at hq; cases hq
      | diverge => rw [hr] at hq; cases hq
      | ok r =>
        obtain ⟨t', dn, l, b⟩ := r
        rw [hr] at hq
        simp only [Res.bind_ok, Res.ok.injEq, Prod.mk.injEq] at hq
        obtain ⟨rfl, rfl⟩ := hq
        refine ⟨?_, rfl, rfl⟩
        unfold insertToPlaceE at hr
        cases hl : s.t.last with
        | none => rw [hl] at hr; cases hr
        | some n =>
          rw [hl] at hr
          have := placeLoopE_bad hm (blk := s.blk) (tmp := s.next) (p0 := i) rh _ _ _ _ _ (Nat.lt_succ_self _) (Or.inl rfl) (Or.inr rfl) _ _ _ hr
          show (s.bad || b) = s.bad
          rw [this, Bool.or_false]
  · cases hq

theorem constructE_bad {s s' : LT K V} {i : Nat} {e : K × V} (hq : constructE i e s = .ok s') :
    s'.bad = s.bad ∧ s'.blk = s.blk ∧ s'.next = s.next := by
  unfold constructE construct at hq
  split at hq
  · cases hq
    exact ⟨Bool.or_false _, rfl, rfl⟩
  · cases hq

theorem insertNoGrowE_bad (hm : m ≠ .exch true) {s s' : LT K V} {e : K × V} (hq : insertNoGrowE m E e s = .ok s') :
    s'.bad = s.bad ∧ s'.blk = s.blk ∧ s'.next = s.next := by
  unfold insertNoGrowE at hq
  cases hs : seek false true E s.t e.1 with
  | ub => rw [hs] at hq; cases hq
  | diverge => rw [hs] at hq; cases hq
  | ok q =>
    rw [hs] at hq
    simp only [Res.bind_ok] at hq
    cases hp : placeE m true q.1 { q.2 with hash := 0 } s with
    | ub => rw [hp] at hq; cases hq
    | diverge => rw [hp] at hq; cases hq
    | ok r =>
      obtain ⟨s1, done⟩ := r
      rw [hp] at hq
      simp only [Res.bind_ok] at hq
      cases done with
      | false => cases hq
      | true =>
        obtain ⟨h1, h2, h3⟩ := placeE_bad hm hp
        obtain ⟨g1, g2, g3⟩ := constructE_bad hq
        exact ⟨g1.trans h1, g2.trans h2, g3.trans h3⟩

theorem transferAllE_bad (hm : m ≠ .exch true) (old : Map K V) (bo : Nat) : ∀ (is : List Nat) (s s' : LT K V),
    transferAllE m E old bo is s = .ok s' → s'.bad = s.bad := by
  intro is
  induction is with
  | nil => intro s s' hq; cases hq; rfl
  | cons i is ih =>
    intro s s' hq
    unfold transferAllE at hq
    split at hq
    · cases hq
    · cases hin : insertNoGrowE m E _ s with
      | ub => rw [hin] at hq; cases hq
      | diverge => rw [hin] at hq; cases hq
      | ok s1 =>
        rw [hin, Res.bind_ok] at hq
        have h4 := ih (emit [.dtor bo i] false s1) _ hq
        rw [h4]
        show (s1.bad || false) = s.bad
        rw [Bool.or_false, (insertNoGrowE_bad hm hin).1]

theorem rehashImplE_bad (hm : m ≠ .exch true) {s s' : LT K V} {sh al : Bool} {a : Bool × Bool} {n : Nat} {u : Unit}
    (hq : rehashImplE m E sh al a n s = .ok s' u) : s'.bad = s.bad := by
  unfold rehashImplE at hq
  cases hc : calcCapacity n with
  | ub => rw [hc] at hq; cases hq
  | diverge => rw [hc] at hq; cases hq
  | ok cap =>
    rw [hc] at hq
    simp only at hq
    split at hq
    · cases hcr : createE a cap s with
      | ub => rw [hcr] at hq; cases hq
      | diverge => rw [hcr] at hq; cases hq
      | throw t' => rw [hcr] at hq; cases hq
      | ok s1 w =>
        rw [hcr] at hq
        simp only at hq
        have h1 : s1.bad = s.bad := by
          unfold createE at hcr
          cases hc : createSlots false (a.1 && a.2) cap s.t with
          | ub => rw [hc] at hcr; cases hcr
          | diverge => rw [hc] at hcr; cases hcr
          | throw t' => rw [hc] at hcr; cases hcr
          | ok t1 w =>
            rw [hc] at hcr
            cases hcr
            exact Bool.or_false _
        cases htr : transferAllE m E s.t s.blk (usedIdx false s.t) s1 with
        | ub => rw [htr] at hq; cases hq
        | diverge => rw [htr] at hq; cases hq
        | ok s2 =>
          rw [htr] at hq
          cases hq
          show (s2.bad || false) = s.bad
          rw [Bool.or_false, transferAllE_bad hm _ _ _ _ _ htr, h1]
    · cases hq; rfl

/-! ### Insertion -/

/-- A map without storage or a good one. -/
def Sound (E : Env K) (t : Map K V) : Prop := Fresh t ∨ ∃ c, Good E t c

theorem Sound.weak {t : Map K V} (h : Sound E t) : Fresh t ∨ ∃ c, Weak E t c := h.imp id fun ⟨c, h⟩ => ⟨c, h.weak⟩

theorem Sound.noHash {t : Map K V} (h : Sound E t) : NoHash t := by
  rcases h with h | ⟨c, h⟩
  · exact Fresh.noHash h
  · exact Weak.noHash h.weak

/-- After `grow_if_necessary` the map is good. -/
theorem growE_ok (hE : E.Lawful) {s : LT K V} (hst : Fresh s.t ∨ ∃ c, Weak E s.t c) (hf : Fine s) {a : Bool × Bool} {s' : LT K V} {u : Unit}
    (hq : growE m E a s = .ok s' u) : Fine s' ∧ (∃ c, Good E s'.t c) ∧ (m ≠ .exch true → s'.bad = s.bad) := by
  refine ⟨rehashImplE_ok hE hst hf hq, ?_, fun hm => rehashImplE_bad hm hq⟩
  have hn : NoHash s.t := by
    rcases hst with h | ⟨c, h⟩
    · exact Fresh.noHash h
    · exact Weak.noHash h
  have hp := proj_growE (m := m) (E := E) hn a
  rw [hq] at hp
  have h1 := rehashImpl_spec hE hst false true (a.1 && a.2) ((s.t.mask + 1) * 2)
  have h2 : rehashImpl false true E false true (a.1 && a.2) ((s.t.mask + 1) * 2) s.t = .ok s'.t u := hp.symm
  rw [h2] at h1
  rcases h1 with ⟨cap, _, _, h3⟩ | ⟨h3, _⟩
  · exact ⟨cap, h3.good⟩
  · cases h3

/-- The place of a new key in a good map. -/
theorem finishE_ok (hE : E.Lawful) {c : Nat} {s : LT K V} (hG : Good E s.t c) (hf : Fine s) {h0 i : Nat} {d : Ctrl} (hs : Stop s.t h0 i d)
    {s' : LT K V} {r : Found} (hq : finishE m s i d = .ok s' r) :
    Fine s' ∧ ((r = .notExists i ∧ Shape s'.t c ∧ s'.t.slot i = none ∧ (m ≠ .exch true → s'.bad = s.bad)) ∨
      (r = .needGrow ∧ Weak E s'.t c ∧ NoRoom s.t i ∧ i < s.t.slen)) := by
  unfold finishE at hq
  rw [d_hash hs] at hq
  cases hp : placeE m false i d s with
  | ub => rw [hp] at hq; cases hq
  | diverge => rw [hp] at hq; cases hq
  | ok q =>
    obtain ⟨s1, done⟩ := q
    rw [hp] at hq
    simp only [liftE, Out.ok.injEq] at hq
    obtain ⟨rfl, rfl⟩ := hq
    have hpj := proj_placeE (m := m) false i d s
    rw [hp] at hpj
    simp only [Res.bind_ok] at hpj
    obtain ⟨h1, h2, h3⟩ := placeE_ok hG (hf.ground hG.toShape) hf.ok hp
    have hfine : SameShape s.t s1.t → Fine s1 := by
      intro hss
      refine ⟨h1.mono fun h' ho => ?_, by rw [h2, h3]; exact hf.blk, fun _ => by rw [h2, h3]; exact hf.blk2 hG.alloc⟩
      unfold Holds
      rw [h2, owned_same hss]
      exact ho
    cases done with
    | true =>
      obtain ⟨h5, h6⟩ := placeE_none hE hG hs hp
      have hss : SameShape s.t s1.t := by
        by_cases hi : i < s.t.slen
        · have hsp := place_spec hE hG hs hi false
          rw [← hpj] at hsp
          exact hsp.same
        · have hsp := place_out hG hi (d := d) false
          rw [← hpj] at hsp
          exact hsp
      exact ⟨hfine hss, Or.inl ⟨rfl, hss.shape hG.toShape, h5, fun hm => (placeE_bad hm hp).1⟩⟩
    | false =>
      by_cases hi : i < s.t.slen
      · have hsp := place_spec hE hG hs hi false
        rw [← hpj] at hsp
        exact ⟨hfine hsp.1.2.1, Or.inr ⟨rfl, hsp.1.1, hsp.2, hi⟩⟩
      · have hsp := place_out hG hi (d := d) false
        rw [← hpj] at hsp
        exact hsp.elim

/-- Outcomes of `direct_find_and_insert`. -/
theorem findOrInsertE_ok (hE : E.Lawful) {s : LT K V} (hst : Sound E s.t) (hf : Fine s) {a : Bool × Bool} {k : K} {s' : LT K V} {r : Found}
    (hq : findOrInsertE m E a k s = .ok s' r) :
    Fine s' ∧ ((∃ i, r = .exists_ i ∧ s' = s) ∨
      (∃ i c, r = .notExists i ∧ Shape s'.t c ∧ s'.t.slot i = none ∧ (m ≠ .exch true → s'.bad = s.bad)) ∨
      (r = .needGrow ∧ ∃ c, Weak E s'.t c)) := by
  unfold findOrInsertE at hq
  cases hpr : probe false true E s.t k with
  | ub => rw [hpr] at hq; cases hq
  | diverge => rw [hpr] at hq; cases hq
  | ok q =>
    rw [hpr] at hq
    cases q with
    | hit i =>
      cases hq
      exact ⟨hf, Or.inl ⟨i, rfl, rfl⟩⟩
    | stop i d =>
      simp only [liftE] at hq
      split at hq
      · cases hg : growE m E a s with
        | ub => rw [hg] at hq; cases hq
        | diverge => rw [hg] at hq; cases hq
        | throw t' => rw [hg] at hq; cases hq
        | ok s1 u =>
          rw [hg] at hq
          simp only [Out.bind_ok] at hq
          obtain ⟨h1, ⟨c, h2⟩, h3⟩ := growE_ok hE hst.weak hf hg
          have hsk := seek_spec h2 k
          cases hs : seek false true E s1.t k with
          | ub => rw [hs] at hq; cases hq
          | diverge => rw [hs] at hq; cases hq
          | ok q =>
            obtain ⟨i1, d1⟩ := q
            rw [hs] at hq hsk
            obtain ⟨g1, ⟨rfl, g2, g3, g4⟩ | ⟨rfl, g2, _⟩⟩ := finishE_ok hE h2 h1 hsk hq
            · exact ⟨g1, Or.inr (Or.inl ⟨i1, c, rfl, g2, g3, fun hm => (g4 hm).trans (h3 hm)⟩)⟩
            · exact ⟨g1, Or.inr (Or.inr ⟨rfl, c, g2⟩)⟩
      · rename_i hth
        rcases hst with ⟨x, y, hxy⟩ | ⟨c, hG⟩
        · exfalso
          apply hth
          rw [hxy]
          rfl
        · have hst := probe_spec hG k
          rw [hpr] at hst
          obtain ⟨g1, ⟨rfl, g2, g3, g4⟩ | ⟨rfl, g2, _⟩⟩ := finishE_ok hE hG hf hst.1 hq
          · exact ⟨g1, Or.inr (Or.inl ⟨i, c, rfl, g2, g3, g4⟩)⟩
          · exact ⟨g1, Or.inr (Or.inr ⟨rfl, c, g2⟩)⟩

/-- The element is constructed. -/
theorem constructE_fine {s : LT K V} (hf : Fine s) {c : Nat} (hs : Shape s.t c) {i : Nat} (hi : s.t.slot i = none) {e : K × V} {s' : LT K V}
    (hq : constructE i e s = .ok s') : Fine s' := by
  obtain ⟨h1, h2, h3⟩ := constructE_ok (hf.ground hs) hf.ok hi hq
  have how : owned s'.t s'.blk = owned s.t s.blk ∧ s'.t.alloc = s.t.alloc := by
    rw [h2]
    unfold constructE construct at hq
    split at hq
    · cases hq; exact ⟨rfl, rfl⟩
    · cases hq
  refine ⟨h1.mono fun h' ho => ?_, by rw [h2, h3]; exact hf.blk, fun ha => by rw [h2, h3]; exact hf.blk2 (how.2 ▸ ha)⟩
  unfold Holds
  rw [how.1, h2]
  exact ho

theorem emplaceLoopE_ok (hE : E.Lawful) (update : Bool) (a : Bool × Bool) (k : K) (v : V) : ∀ (f : Nat) (s : LT K V), Sound E s.t → Fine s →
    ∀ s' r, emplaceLoopE m E update a k v f s = .ok s' r → Fine s' := by
  intro f
  induction f with
  | zero => intro s _ _ s' r hq; cases hq
  | succ f ih =>
    intro s hst hf s' r hq
    unfold emplaceLoopE at hq
    cases hfi : findOrInsertE m E a k s with
    | ub => rw [hfi] at hq; cases hq
    | diverge => rw [hfi] at hq; cases hq
    | throw t' => rw [hfi] at hq; cases hq
    | ok s1 q =>
      rw [hfi] at hq
      simp only [Out.bind_ok] at hq
      obtain ⟨h1, ⟨i, rfl, rfl⟩ | ⟨i, c, rfl, h2, h3, _⟩ | ⟨rfl, c, h2⟩⟩ := findOrInsertE_ok hE hst hf hfi
      · simp only at hq
        split at hq
        · cases hq
        · rename_i e he
          rw [Out.ok.injEq] at hq
          obtain ⟨rfl, _⟩ := hq
          cases update with
          | false => exact hf
          | true =>
            refine ⟨hf.ok.mono fun h' ho => ?_, hf.blk, hf.blk2⟩
            refine Own.congr ho ?_ (fun _ _ _ => Iff.rfl)
            intro j
            show _ = (upd s1.t.slot i (some (e.1, v)) j).isSome
            by_cases hj : j = i
            · subst hj; rw [upd_self, he]; rfl
            · rw [upd_other _ _ hj]
      · simp only at hq
        cases hc : constructE i (k, v) s1 with
        | ub => rw [hc] at hq; cases hq
        | diverge => rw [hc] at hq; cases hq
        | ok s2 =>
          rw [hc] at hq
          cases hq
          exact constructE_fine h1 h2 h3 hc
      · simp only at hq
        cases hg : growE m E a s1 with
        | ub => rw [hg] at hq; cases hq
        | diverge => rw [hg] at hq; cases hq
        | throw t' => rw [hg] at hq; cases hq
        | ok s2 u =>
          rw [hg] at hq
          obtain ⟨g1, g2, _⟩ := growE_ok hE (Or.inr ⟨c, h2⟩) h1 hg
          exact ih s2 (Or.inr g2) g1 _ _ hq

theorem proj_emplaceLoopE (hE : E.Lawful) (update : Bool) (a : Bool × Bool) (k : K) (v : V) : ∀ (f : Nat) (s : LT K V), Sound E s.t → Fine s →
    proj (emplaceLoopE m E update a k v f s) = emplaceLoop false true E update (a.1 && a.2) k v f s.t := by
  intro f
  induction f with
  | zero => intro s _ _; rfl
  | succ f ih =>
    intro s hst hf
    rw [emplaceLoop_succ, ← proj_findOrInsertE (m := m) hst.noHash]
    unfold emplaceLoopE
    cases hfi : findOrInsertE m E a k s with
    | ub => rfl
    | diverge => rfl
    | throw t' => rfl
    | ok s1 q =>
      obtain ⟨h1, ⟨i, rfl, rfl⟩ | ⟨i, c, rfl, h2, h3, _⟩ | ⟨rfl, c, h2⟩⟩ := findOrInsertE_ok hE hst hf hfi
      · simp only [Out.bind_ok, proj, emplaceTail]
        cases s1.t.slot i with
        | none => rfl
        | some e => cases update <;> rfl
      · simp only [Out.bind_ok, proj, emplaceTail]
        rw [← projR_constructE]
        cases constructE i (k, v) s1 <;> rfl
      · simp only [Out.bind_ok, proj, emplaceTail]
        rw [← proj_growE (m := m) (Weak.noHash h2)]
        cases hg : growE m E a s1 with
        | ub => rfl
        | diverge => rfl
        | throw t' => rfl
        | ok s2 u =>
          obtain ⟨g1, g2, _⟩ := growE_ok hE (Or.inr ⟨c, h2⟩) h1 hg
          exact ih s2 (Or.inr g2) g1

/-- If the elements fit, `kNeedGrow` does not happen. -/
theorem findOrInsert_fit (hE : E.Lawful) {t : Map K V} (hR : Reach E t) {mem : Bool} {k : K} {t' : Map K V} (v : V)
    (hq : findOrInsert false true E mem k t = .ok t' .needGrow) : Cramped E t k v := by
  unfold findOrInsert at hq
  have hfin : ∀ {t1 : Map K V} {c : Nat} {i : Nat} {d : Ctrl}, Good E t1 c → Stop t1 (hm E c k) i d → (∀ x ∈ entries t1, E.eq x.1 k = false) →
      finish false true E k t1 i d = .ok t' .needGrow → Stuck t1 (hm E c k) := by
    intro t1 c i d hG hs hk hq
    unfold finish at hq
    have hd0 : ({ d with hash := ctrlHash false E k } : Ctrl) = d := by rw [hs.d_eq]; rfl
    rw [hd0] at hq
    cases hp : place false true false t1 i d with
    | ub => rw [hp] at hq; cases hq
    | diverge => rw [hp] at hq; cases hq
    | ok q =>
      obtain ⟨t2, done⟩ := q
      rw [hp] at hq
      simp only [lift, Out.ok.injEq] at hq
      cases done with
      | true => simp at hq
      | false =>
        by_cases hi : i < t1.slen
        · have h2 := place_spec hE hG hs hi false
          rw [hp] at h2
          exact Or.inr ⟨i, d, hs, Or.inr ⟨hi, Or.inl h2.2⟩⟩
        · have h2 := place_out hG (d := d) hi false
          rw [hp] at h2
          exact h2.elim
  -- the number of elements, and the capacity
  obtain ⟨j, hj, hst, hlen⟩ : ∃ j, 1 ≤ j ∧ (Good E t (2 ^ j) ∨ Fresh t ∧ j = 1) ∧ (entries t).length ≤ 2 ^ j := by
    rcases hR.st with h | ⟨c, h⟩
    · exact ⟨1, Nat.le_refl _, Or.inr ⟨h, rfl⟩, by rw [h.entries]; exact Nat.zero_le _⟩
    · obtain ⟨j, h1, _, rfl⟩ := h.pow
      exact ⟨j, by omega, Or.inl h.toGood, by rw [← h.toGood.size]; exact h.size_le⟩
  have hp2 : 2 ^ (j + 1) = 2 ^ j + 2 ^ j := by rw [Nat.pow_succ]; omega
  have hp1 : 1 ≤ 2 ^ j := Nat.one_le_two_pow
  cases hpr : probe false true E t k with
  | ub => rw [hpr] at hq; cases hq
  | diverge => rw [hpr] at hq; cases hq
  | ok q =>
    rw [hpr] at hq
    cases q with
    | hit i => cases hq
    | stop i d =>
      have hk : ∀ x ∈ entries t, E.eq x.1 k = false := by
        rcases hst with h | ⟨h, _⟩
        · have h1 := probe_spec h k
          rw [hpr] at h1
          exact absent_of_stop hE h h1.1 h1.2
        · rw [h.entries]; simp
      simp only [lift] at hq
      split at hq
      · cases hg : grow false true E mem t with
        | ub => rw [hg] at hq; cases hq
        | diverge => rw [hg] at hq; cases hq
        | throw t' => rw [hg] at hq; cases hq
        | ok t1 u =>
          rw [hg] at hq
          simp only [Out.bind_ok] at hq
          have hgs := grow_spec hE (t := t) (j := j) (hst.imp Good.weak id) hj mem
          rw [hg] at hgs
          obtain ⟨_, hmv⟩ := hgs
          have hsk := seek_spec hmv.good k
          cases hs : seek false true E t1 k with
          | ub => rw [hs] at hq; cases hq
          | diverge => rw [hs] at hq; cases hq
          | ok q =>
            obtain ⟨i1, d1⟩ := q
            rw [hs] at hq hsk
            have hstk := hfin hmv.good hsk (fun x hx => hk x (hmv.perm.mem_iff.mp hx)) hq
            exact ⟨j + 1, by omega, Or.inr ⟨hk, by omega, fun hf' => (hf'.perm (List.Perm.cons _ hmv.perm.symm)).not_stuck hmv.good hstk⟩⟩
      · rename_i hth
        rcases hR.st with ⟨x, y, rfl⟩ | ⟨c, h⟩
        · exact (hth rfl).elim
        · have h1 := probe_spec h.toGood k
          rw [hpr] at h1
          have hstk := hfin h.toGood h1.1 hk hq
          simp only [Bool.or_eq_true, decide_eq_true_eq, not_or, Nat.not_le] at hth
          have := h.thr_le
          obtain ⟨j', h2, _, rfl⟩ := h.pow
          exact ⟨j', h2, Or.inr ⟨hk, by rw [← h.toGood.size]; omega, fun hf' => hf'.not_stuck h.toGood hstk⟩⟩

/-- Without `kNeedGrow` no accident happens. -/
theorem emplaceE_bad (hm : m ≠ .exch true) (hE : E.Lawful) {s : LT K V} (hR : Reach E s.t) (hf : Fine s) {update : Bool} {a : Bool × Bool} {k : K}
    {v : V} (hc : ¬ Cramped E s.t k v) {s' : LT K V} {r : Nat × Bool} (hq : emplaceE m E update a k v s = .ok s' r) : s'.bad = s.bad := by
  have hst : Sound E s.t := hR.st.imp id fun ⟨c, h⟩ => ⟨c, h.toGood⟩
  unfold emplaceE at hq
  unfold emplaceLoopE at hq
  have hp := proj_findOrInsertE (m := m) (E := E) hst.noHash a k
  cases hfi : findOrInsertE m E a k s with
  | ub => rw [hfi] at hq; cases hq
  | diverge => rw [hfi] at hq; cases hq
  | throw t' => rw [hfi] at hq; cases hq
  | ok s1 q =>
    rw [hfi] at hq hp
    simp only [Out.bind_ok] at hq
    obtain ⟨h1, ⟨i, rfl, rfl⟩ | ⟨i, c, rfl, h2, h3, h4⟩ | ⟨rfl, c, h2⟩⟩ := findOrInsertE_ok hE hst hf hfi
    · simp only at hq
      split at hq
      · cases hq
      · cases update <;> cases hq <;> rfl
    · simp only at hq
      cases hcs : constructE i (k, v) s1 with
      | ub => rw [hcs] at hq; cases hq
      | diverge => rw [hcs] at hq; cases hq
      | ok s2 =>
        rw [hcs] at hq
        cases hq
        rw [(constructE_bad hcs).1, h4 hm]
    · exact (hc (findOrInsert_fit hE hR v hp.symm)).elim

/-! ### Erasing and clearing -/

theorem shiftLoopE_ok {blk : Nat} {t0 : Map K V} {bs : List (Nat × Nat)} (hmem : (blk, t0.slen) ∈ bs) (hb : Heap) : ∀ (f i : Nat) (t : Map K V)
    (l : List Ev), i < t0.slen → t.slot i = none → (∀ p, t0.slen ≤ p → t.slot p = none) →
    Step l false hb (Own blk t.slot (fun _ => False) bs) → ∀ t' l', shiftLoopE blk f i t l = .ok (t', l') →
    Step l' false hb (Own blk t'.slot (fun _ => False) bs) := by
  intro f
  induction f with
  | zero => intro i t l _ _ _ _ t' l' hq; cases hq
  | succ f ih =>
    intro i t l hi h0 hout h t' l' hq
    unfold shiftLoopE at hq
    split at hq
    · cases hq; exact h
    · split at hq
      · cases hq
      · rename_i e he
        have hi1 : i + 1 < t0.slen := by
          by_contra hc
          rw [hout (i + 1) (by omega)] at he
          cases he
        refine ih _ _ _ hi1 (upd_self _ _ _) ?_ ?_ _ _ hq
        · intro p hp
          show upd (upd t.slot i (some e)) (i + 1) none p = none
          rw [upd_other _ _ (by omega), upd_other _ _ (by omega)]
          exact hout p hp
        · rw [← Bool.false_or false]
          apply h.append
          intro h' hO
          right
          have hnew : (blk, i) ∉ h'.live := by
            rw [hO.live, h0]
            simp
          have hold : (blk, i + 1) ∈ h'.live := by
            rw [hO.live, he]
            simp
          obtain ⟨h2, g1, g2, g3, g4⟩ := run_move (h := h') (new := (blk, i)) (old := (blk, i + 1)) (n := t0.slen)
            (by rw [hO.blocks]; exact hmem) hi hnew hold hO.nodup
          refine ⟨rfl, h2, g1, g2.trans hO.blocks, g3, ?_⟩
          intro b j
          rw [g4, hO.live]
          show _ ↔ (b = blk ∧ (upd (upd t.slot i (some e)) (i + 1) none j).isSome = true) ∨ _
          simp only [and_false, or_false, Prod.mk.injEq, ne_eq]
          by_cases hj1 : j = i + 1
          · subst hj1
            rw [upd_self]
            simp
            exact fun hq _ => hq
          · rw [upd_other _ _ hj1]
            by_cases hj : j = i
            · subst hj
              rw [upd_self, h0]
              simp
            · rw [upd_other _ _ hj]
              simp [hj, hj1]

theorem eraseSlotE_ok {c : Nat} {s : LT K V} (hG : Good E s.t c) (hf : Fine s) {i : Nat} (hi : i < s.t.slen) (hs : (s.t.slot i).isSome = true)
    {s' : LT K V} (hq : eraseSlotE i s = .ok s') : Fine s' ∧ s'.bad = s.bad := by
  unfold eraseSlotE at hq
  cases hr : shiftLoopE s.blk (s.t.clen - (i + 1)) i { s.t with slot := upd s.t.slot i none } [.dtor s.blk i] with
  | ub => rw [hr] at hq; cases hq
  | diverge => rw [hr] at hq; cases hq
  | ok r =>
    obtain ⟨t', l⟩ := r
    rw [hr] at hq
    simp only [Res.bind_ok, Res.ok.injEq] at hq
    subst hq
    have hgr := hf.ground hG.toShape
    have hss : SameShape s.t t' := by
      have hp := projR_shiftLoopE s.blk (s.t.clen - (i + 1)) i { s.t with slot := upd s.t.slot i none } [.dtor s.blk i]
      rw [hr] at hp
      have hu : 0 ≤ (s.t.ctrl i).dist := by
        rcases hG.weak.cell i hi with ⟨h1, _⟩ | ⟨_, _, h2⟩
        · rw [h1] at hs; cases hs
        · exact h2.1
      obtain ⟨ee, he⟩ := Option.isSome_iff_exists.mp hs
      obtain ⟨t1, e1, e2⟩ := shiftLoop_spec (i0 := i) (ee := ee) hG _ i { s.t with slot := upd s.t.slot i none } rfl
        { same := (SameShape.refl s.t).upd _ _, le := Nat.le_refl _, lt := hi, ctrlOut := fun p _ => rfl,
          slotOut := fun p hp => upd_other _ _ (by omega), hole := upd_self _ _ _, moved := fun p h1 h2 => by omega, used := hu,
          perm := (perm_upd_none hi s.t.slot ee he).symm }
      rw [e1] at hp
      cases hp
      exact e2.same
    have how : owned { t' with size := t'.size - 1 } s.blk = owned s.t s.blk := owned_same hss s.blk
    refine ⟨⟨?_, hf.blk, fun ha => hf.blk2 hG.alloc⟩, Bool.or_false _⟩
    show Ok (Own s.blk t'.slot (fun _ => False) (owned { t' with size := t'.size - 1 } s.blk)) _
    rw [how]
    apply Ok.emit (s := { s with t := { t' with size := t'.size - 1 } }) hf.ok
    intro h' hO
    have hO : Own s.blk s.t.slot (fun _ => False) (owned s.t s.blk) h' := hO
    refine shiftLoopE_ok hgr.mem h' _ _ _ _ hi (upd_self _ _ _) ?_ ?_ _ _ hr
    · intro p hp
      show upd s.t.slot i none p = none
      rw [upd_other _ _ (by omega)]
      exact (hG.tail p hp).1
    · right
      have hl : (s.blk, i) ∈ h'.live := by rw [hO.live]; exact Or.inl ⟨rfl, hs⟩
      refine ⟨rfl, { h' with live := h'.live.erase (s.blk, i) }, ?_, hO.blocks, hO.nodup.erase _, ?_⟩
      · simp only [Heap.run]
        rw [step_dtor hl]
        rfl
      · intro b j
        rw [List.Nodup.mem_erase_iff hO.nodup, hO.live]
        show _ ↔ (b = s.blk ∧ (upd s.t.slot i none j).isSome = true) ∨ _
        simp only [and_false, or_false, Prod.mk.injEq, ne_eq]
        by_cases hj : j = i
        · subst hj
          rw [upd_self]
          simp
          exact fun hq hb => (hq hb).elim
        · rw [upd_other _ _ hj]
          simp [hj]

/-- The elements are destroyed. -/
theorem run_clearSlots {s : LT K V} {h : Heap} (hst : Fresh s.t ∨ ∃ c, Weak E s.t c) (hO : Holds s h) :
    ∃ h', Heap.run (clearSlotsE s.t s.blk) h = some h' ∧ h'.blocks = h.blocks ∧ h'.live = [] := by
  have hmem : ∀ i, i ∈ (List.range (maxCap s.t)).filter (fun i => (s.t.ctrl i).isUsed) ↔ (s.t.slot i).isSome = true := by
    intro i
    rw [List.mem_filter, List.mem_range]
    rcases hst with ⟨x, y, hxy⟩ | ⟨c, hw⟩
    · rw [hxy]
      simp [emptyMap, maxCap, Ctrl.isUsed, Ctrl.empty]
      intro _
      split <;> rfl
    · rw [hw.toShape.maxCap]
      by_cases hi : i < s.t.slen
      · simp [hi, weak_used hw hi]
      · simp [hi, (hw.tail i (by omega)).1]
  obtain ⟨h', h1, h2, h3, h4⟩ := Life.run_dtors s.blk _ h hO.nodup (List.Nodup.filter (fun i => (s.t.ctrl i).isUsed) (List.nodup_range (n := maxCap s.t)))
    (by
      intro i hi
      rw [hO.live]
      exact Or.inl ⟨rfl, (hmem i).mp hi⟩)
  refine ⟨h', h1, h2, ?_⟩
  rw [List.eq_nil_iff_forall_not_mem]
  rintro ⟨b, j⟩ ho
  rw [h4, hO.live] at ho
  rcases ho with ⟨⟨rfl, hs⟩ | ⟨_, hf⟩, hn⟩
  · exact hn ⟨rfl, (hmem j).mpr hs⟩
  · exact hf

/-- `destroy_data()` gives everything back. -/
theorem destroyE_ok {s : LT K V} (hst : Fresh s.t ∨ ∃ c, Weak E s.t c) (hf : Fine s) :
    Ok (fun h => h = Heap.empty) (destroyE s) := by
  apply Ok.emit (s := { s with t := emptyMap false s.t.mlf s.t.rev }) hf.ok
  intro h hO
  right
  refine ⟨rfl, Heap.empty, ?_, rfl⟩
  obtain ⟨h', h1, h2, h3⟩ := run_clearSlots hst hO
  rw [Life.run_append, h1, Option.bind_some]
  rw [hO.blocks] at h2
  obtain ⟨bl, lv⟩ := h'
  simp only at h2 h3
  subst h2 h3
  unfold freeAll owned
  split
  · simp only [Heap.run]
    rw [step_free (by simp) (by simp)]
    simp only [Option.bind_some, List.erase_cons_head]
    rw [step_free (by simp) (by simp)]
    simp [Heap.empty]
  · rfl

theorem clearDataE_ok {s : LT K V} (hst : Fresh s.t ∨ ∃ c, Weak E s.t c) (hf : Fine s) {s' : LT K V} {u : Unit} (hq : clearDataE s = .ok s' u) :
    Fine s' ∧ s'.bad = s.bad := by
  unfold clearDataE clearData at hq
  by_cases ha : s.t.alloc = true
  · rw [if_pos ha] at hq
    simp only [Out.ok.injEq] at hq
    obtain ⟨rfl, _⟩ := hq
    refine ⟨⟨?_, hf.blk, hf.blk2⟩, Bool.or_false _⟩
    apply Ok.emit (s := { s with t := { s.t with ctrl := _, slot := fun _ => none, size := 0 } }) hf.ok
    intro h hO
    right
    obtain ⟨h', h1, h2, h3⟩ := run_clearSlots hst hO
    refine ⟨rfl, h', h1, h2.trans hO.blocks, by rw [h3]; exact List.nodup_nil, ?_⟩
    intro b i
    rw [h3]
    simp [emit]
  · rw [if_neg ha] at hq
    cases hq

theorem clearE_ok {s : LT K V} (hst : Fresh s.t ∨ ∃ c, Weak E s.t c) (hf : Fine s) {d : Bool} {s' : LT K V} {u : Unit} (hq : clearE d s = .ok s' u) :
    Fine s' ∧ s'.bad = s.bad := by
  unfold clearE at hq
  split at hq
  · split at hq
    · cases hq
      refine ⟨⟨?_, hf.blk, fun ha => by cases ha⟩, Bool.or_false _⟩
      refine (destroyE_ok hst hf).mono ?_
      rintro h' rfl
      refine ⟨rfl, List.nodup_nil, ?_⟩
      intro b i
      simp [Heap.empty, destroyE, emit, emptyMap]
    · cases hq
  · exact clearDataE_ok hst hf hq

theorem eraseKeyE_ok (hE : E.Lawful) {s : LT K V} (hst : Sound E s.t) (hf : Fine s) {k : K} {s' : LT K V} {n : Nat}
    (hq : eraseKeyE E k s = .ok s' n) : Fine s' ∧ s'.bad = s.bad := by
  unfold eraseKeyE at hq
  cases hi : findIdx false true E s.t k with
  | ub => rw [hi] at hq; cases hq
  | diverge => rw [hi] at hq; cases hq
  | ok o =>
    rw [hi] at hq
    cases o with
    | none => cases hq; exact ⟨hf, rfl⟩
    | some i =>
      simp only [liftE] at hq
      split at hq
      · cases hq; exact ⟨hf, rfl⟩
      · cases hr : eraseSlotE i s with
        | ub => rw [hr] at hq; cases hq
        | diverge => rw [hr] at hq; cases hq
        | ok s1 =>
          rw [hr] at hq
          cases hq
          rcases hst with h | ⟨c, h⟩
          · rw [findIdx_fresh h] at hi; cases hi
          · have := findIdx_spec hE h k
            rw [hi] at this
            obtain ⟨h1, e, h2, _⟩ := this
            exact eraseSlotE_ok h hf h1 (by rw [h2]; rfl) hr

/-! ### One call -/

theorem sound_mlf {t : Map K V} (h : Sound E t) (x r : Nat) : Sound E { t with mlf := x, rev := r } := by
  rcases h with ⟨a, b, rfl⟩ | ⟨c, h⟩
  · exact Or.inl ⟨x, r, rfl⟩
  · refine Or.inr ⟨c, ?_⟩
    exact { toShape := ⟨h.alloc, h.pow, h.mask, h.look, h.slen, h.last, h.clen⟩
            cell := h.cell, tail := h.tail, order := h.order, distinct := h.distinct, size := h.size }

theorem fine_mlf {s : LT K V} (h : Fine s) (x r : Nat) : Fine { s with t := { s.t with mlf := x, rev := r } } := ⟨h.ok, h.blk, h.blk2⟩

theorem liftE_ok {α β : Type} {r : Res α} {f : α → Out (LT K V) β} {s' : LT K V} {b : β} (h : liftE r f = .ok s' b) :
    ∃ a, r = .ok a ∧ f a = .ok s' b := by
  cases r with
  | ok a => exact ⟨a, rfl, h⟩
  | diverge => cases h
  | ub => cases h

theorem bindE_ok {α β : Type} {r : Out (LT K V) α} {f : LT K V → α → Out (LT K V) β} {s' : LT K V} {b : β} (h : r.bind f = .ok s' b) :
    ∃ s1 a, r = .ok s1 a ∧ f s1 a = .ok s' b := by
  cases r with
  | ok s1 a => exact ⟨s1, a, rfl, h⟩
  | throw s1 => cases h
  | diverge => cases h
  | ub => cases h

theorem readElemE_ok {s s' : LT K V} {r : Nat × Bool} {x : Ans K V} (h : readElemE s r = .ok s' x) : s' = s := by
  unfold readElemE at h
  split at h <;> cases h
  rfl

theorem readValueE_ok {s s' : LT K V} {r : Nat × Bool} {x : Ans K V} (h : readValueE s r = .ok s' x) : s' = s := by
  unfold readValueE at h
  split at h <;> cases h
  rfl

/-- One call keeps the log in order, or has an accident; only an insertion that finds no room has one. -/
theorem execE_ok (hE : E.Lawful) {s : LT K V} (hR : Reach E s.t) (hf : Fine s) {rv : Nat → Nat} {a : Bool × Bool} {c : Call K V} {s' : LT K V}
    {x : Ans K V} (hq : execE m E rv a c s = .ok s' x) :
    Fine s' ∧ (m ≠ .exch true → (∀ k v, (c = .insert k v ∨ c = .assign k v ∨ c = .index k v) → ¬ Cramped E s.t k v) → s'.bad = s.bad) := by
  have hst : Sound E s.t := hR.st.imp id fun ⟨c, h⟩ => ⟨c, h.toGood⟩
  cases c with
  | insert k v =>
    obtain ⟨s1, r, h1, h2⟩ := bindE_ok hq
    cases readElemE_ok h2
    exact ⟨emplaceLoopE_ok hE _ _ _ _ _ _ hst hf _ _ h1, fun hm hc => emplaceE_bad hm hE hR hf (hc k v (Or.inl rfl)) h1⟩
  | assign k v =>
    obtain ⟨s1, r, h1, h2⟩ := bindE_ok hq
    cases readElemE_ok h2
    exact ⟨emplaceLoopE_ok hE _ _ _ _ _ _ hst hf _ _ h1, fun hm hc => emplaceE_bad hm hE hR hf (hc k v (Or.inr (Or.inl rfl))) h1⟩
  | index k v =>
    obtain ⟨s1, r, h1, h2⟩ := bindE_ok hq
    cases readValueE_ok h2
    exact ⟨emplaceLoopE_ok hE _ _ _ _ _ _ hst hf _ _ h1, fun hm hc => emplaceE_bad hm hE hR hf (hc k v (Or.inr (Or.inr rfl))) h1⟩
  | find k => obtain ⟨_, _, h1⟩ := liftE_ok hq; cases h1; exact ⟨hf, fun _ _ => rfl⟩
  | contains k => obtain ⟨_, _, h1⟩ := liftE_ok hq; cases h1; exact ⟨hf, fun _ _ => rfl⟩
  | count k => obtain ⟨_, _, h1⟩ := liftE_ok hq; cases h1; exact ⟨hf, fun _ _ => rfl⟩
  | «at» k => obtain ⟨_, _, h1⟩ := liftE_ok hq; cases h1; exact ⟨hf, fun _ _ => rfl⟩
  | erase k =>
    obtain ⟨s1, r, h1, h2⟩ := bindE_ok hq
    cases h2
    obtain ⟨h3, h4⟩ := eraseKeyE_ok hE hst hf h1
    exact ⟨h3, fun _ _ => h4⟩
  | size => cases hq; exact ⟨hf, fun _ _ => rfl⟩
  | empty => cases hq; exact ⟨hf, fun _ _ => rfl⟩
  | clear d =>
    obtain ⟨s1, r, h1, h2⟩ := bindE_ok hq
    cases h2
    obtain ⟨h3, h4⟩ := clearE_ok hst.weak hf h1
    exact ⟨h3, fun _ _ => h4⟩
  | reserve n =>
    obtain ⟨s1, r, h1, h2⟩ := bindE_ok hq
    cases h2
    exact ⟨rehashImplE_ok hE hst.weak hf h1, fun hm _ => rehashImplE_bad hm h1⟩
  | rehash n =>
    obtain ⟨s1, r, h1, h2⟩ := bindE_ok hq
    cases h2
    exact ⟨rehashImplE_ok hE hst.weak hf h1, fun hm _ => rehashImplE_bad hm h1⟩
  | shrink ro =>
    obtain ⟨s1, r, h1, h2⟩ := bindE_ok hq
    cases h2
    exact ⟨rehashImplE_ok hE hst.weak hf h1, fun hm _ => rehashImplE_bad hm h1⟩
  | maxLoad y =>
    obtain ⟨s1, r, h1, h2⟩ := bindE_ok hq
    cases h2
    unfold setMlfE at h1
    dsimp only at h1
    split at h1
    · refine ⟨rehashImplE_ok hE (sound_mlf hst (y % 2 ^ 32) (rv y)).weak (fine_mlf hf _ _) h1, fun hm _ => ?_⟩
      exact rehashImplE_bad (s := { s with t := { s.t with mlf := y % 2 ^ 32, rev := rv y } }) hm h1
    · cases h1
      exact ⟨fine_mlf hf _ _, fun _ _ => rfl⟩
  | iterate => obtain ⟨_, _, h1⟩ := liftE_ok hq; cases h1; exact ⟨hf, fun _ _ => rfl⟩

/-- Without its log the map is that of `Verif.Robin`, except that `clear(true)` may read past the static control words. -/
theorem proj_execE (hE : E.Lawful) {s : LT K V} (hR : Reach E s.t) (hf : Fine s) (rv : Nat → Nat) (a : Bool × Bool) (c : Call K V) :
    (c = .clear true ∧ execE m E rv a c s = .ub) ∨ proj (execE m E rv a c s) = exec false true E rv (a.1 && a.2) c s.t := by
  have hst : Sound E s.t := hR.st.imp id fun ⟨c, h⟩ => ⟨c, h.toGood⟩
  have hre : ∀ (s : LT K V) r, proj (readElemE s r) = readElem s.t r := by
    intro s r
    unfold readElemE readElem
    cases s.t.slot r.1 <;> rfl
  have hrv : ∀ (s : LT K V) r, proj (readValueE s r) = readValue s.t r := by
    intro s r
    unfold readValueE readValue
    cases s.t.slot r.1 <;> rfl
  cases c with
  | insert k v => right; simp only [execE, exec, emplaceE, emplace]; rw [proj_bind hre, proj_emplaceLoopE hE _ _ _ _ _ _ hst hf]
  | assign k v => right; simp only [execE, exec, emplaceE, emplace]; rw [proj_bind hre, proj_emplaceLoopE hE _ _ _ _ _ _ hst hf]
  | index k v => right; simp only [execE, exec, emplaceE, emplace]; rw [proj_bind hrv, proj_emplaceLoopE hE _ _ _ _ _ _ hst hf]
  | find k => right; exact proj_liftE fun _ => rfl
  | contains k => right; exact proj_liftE fun _ => rfl
  | count k => right; exact proj_liftE fun _ => rfl
  | «at» k => right; exact proj_liftE fun _ => rfl
  | erase k => right; simp only [execE, exec]; rw [← proj_eraseKeyE]; exact proj_bind fun _ _ => rfl
  | size => right; rfl
  | empty => right; rfl
  | clear d =>
    simp only [execE, exec]
    rcases proj_clearE d s with h | h
    · cases d with
      | true => left; exact ⟨rfl, by rw [h]; rfl⟩
      | false =>
        right
        rw [h]
        unfold clearE at h
        rw [if_neg (by simp)] at h
        have hp := proj_clearDataE s
        rw [h] at hp
        unfold clear
        rw [if_neg (by simp), ← hp]
        rfl
    · right
      rw [← h]
      exact proj_bind fun _ _ => rfl
  | reserve n => right; simp only [execE, exec]; rw [proj_bind (g := fun t' _ => .ok t' .unit) (fun _ _ => rfl)]; congr 1; exact proj_rehashImplE hst.noHash _ _ _ _
  | rehash n => right; simp only [execE, exec]; rw [proj_bind (g := fun t' _ => .ok t' .unit) (fun _ _ => rfl)]; congr 1; exact proj_rehashImplE hst.noHash _ _ _ _
  | shrink ro => right; simp only [execE, exec]; rw [proj_bind (g := fun t' _ => .ok t' .unit) (fun _ _ => rfl)]; congr 1; exact proj_rehashImplE hst.noHash _ _ _ _
  | maxLoad y =>
    right
    simp only [execE, exec]
    rw [proj_bind (g := fun t' _ => .ok t' .unit) (fun _ _ => rfl)]
    congr 1
    unfold setMlfE setMlf
    dsimp only
    split
    · exact proj_rehashImplE (s := { s with t := { s.t with mlf := y % 2 ^ 32, rev := rv y } }) (sound_mlf hst (y % 2 ^ 32) (rv y)).noHash _ _ _ _
    · rfl
  | iterate => right; exact proj_liftE fun _ => rfl

/-! ### Histories -/

/-- The history without the details of the allocations. -/
def plain (ops : List ((Bool × Bool) × Call K V)) : List (Bool × Call K V) := ops.map fun o => (o.1.1 && o.1.2, o.2)

/-- `clear(true)` has not been called. -/
def NoDestroy (ops : List ((Bool × Bool) × Call K V)) : Prop := ∀ o ∈ ops, o.2 ≠ .clear true

theorem cramped_roomy (hE : E.Lawful) {t : Map K V} {mm : Spec.Map K V} (hm : (entries t).Perm mm) {k : K} {v : V}
    (h1 : Roomy E mm) {upd : Bool} (h2 : Roomy E (if upd then Spec.assign E.eq mm k v else Spec.insert E.eq mm k v)) : ¬ Cramped E t k v := by
  rintro ⟨j, g1, ⟨g2, g3⟩ | ⟨hk, g2, g3⟩⟩
  · exact g3 ((h1.perm hm.symm) j g1 g2)
  · have hg : Spec.get E.eq mm k = none := Spec.get_none_iff.mpr fun e he => absent_symm hE (hk e (hm.mem_iff.mpr he))
    have haft : (if upd then Spec.assign E.eq mm k v else Spec.insert E.eq mm k v) = (k, v) :: mm := by
      cases upd
      · exact Spec.insert_absent hg v
      · simp [Spec.assign, hg]
    rw [haft] at h2
    exact g3 ((h2.perm (List.Perm.cons _ hm.symm)) j g1 (by simpa using g2))

/-- Whole histories. -/
theorem runE_ok (hE : E.Lawful) {rv : Nat → Nat} (hrv : ∀ x, 256 ≤ rv x ∧ rv x ≤ 1024) :
    ∀ (ops : List ((Bool × Bool) × Call K V)) (s : LT K V) (mm : Spec.Map K V), (∀ o ∈ ops, Valid o.2) → Reach E s.t → Fine s → (entries s.t).Perm mm →
      (runE m E rv ops s = .ub ∧ (¬ NoDestroy ops ∨ run false true E rv (plain ops) s.t = .ub)) ∨
      (∃ as s', runE m E rv ops s = .ok (as, s') ∧ run false true E rv (plain ops) s.t = .ok (as, s'.t) ∧
        (as.getLast? ≠ some .threw → Fine s' ∧ (m ≠ .exch true →
          (∀ i, i ≤ ops.length → Roomy E ((plain (ops.take i)).foldl (fun m c => next E.eq m c.2) mm)) → s'.bad = s.bad))) := by
  intro ops
  induction ops with
  | nil =>
    intro s mm _ hR hf hm
    exact Or.inr ⟨[], s, rfl, rfl, fun _ => ⟨hf, fun _ _ => rfl⟩⟩
  | cons o ops ih =>
    intro s mm hv hR hf hm
    obtain ⟨a, c⟩ := o
    have hvc : Valid c := hv _ List.mem_cons_self
    have hx := exec_ok hE hR hm hrv (a.1 && a.2) hvc
    unfold runE
    show _ ∨ ∃ as s', _ ∧ run false true E rv ((a.1 && a.2, c) :: plain ops) s.t = _ ∧ _
    rcases proj_execE (m := m) hE hR hf rv a c with ⟨rfl, hp⟩ | hp
    · left
      rw [hp]
      exact ⟨rfl, Or.inl fun h => h _ List.mem_cons_self rfl⟩
    · rw [show run false true E rv (plain ((a, c) :: ops)) s.t = run false true E rv ((a.1 && a.2, c) :: plain ops) s.t from rfl]
      unfold run
      rw [← hp] at hx ⊢
      cases hq : execE m E rv a c s with
      | ub => left; exact ⟨rfl, Or.inr rfl⟩
      | diverge => rw [hq] at hx; exact hx.elim
      | throw s1 => right; exact ⟨[.threw], s1, rfl, rfl, fun h => (h rfl).elim⟩
      | ok s1 x =>
        rw [hq] at hx
        obtain ⟨h1, h2⟩ := execE_ok hE hR hf hq
        obtain ⟨g1, _, g3⟩ := hx
        simp only [proj]
        rcases ih s1 (next E.eq mm c) (fun o ho => hv o (List.mem_cons_of_mem _ ho)) g1 h1 g3 with ⟨e1, e2⟩ | ⟨as, s2, e1, e2, e3⟩
        · left
          refine ⟨by rw [e1]; rfl, ?_⟩
          rcases e2 with e2 | e2
          · exact Or.inl fun h => e2 fun o ho => h o (List.mem_cons_of_mem _ ho)
          · right; rw [e2]; rfl
        · right
          refine ⟨x :: as, s2, by rw [e1]; rfl, by rw [e2]; rfl, ?_⟩
          intro hl
          obtain ⟨f1, f2⟩ := e3 (by
            intro hl2
            apply hl
            rw [List.getLast?_cons, hl2]
            rfl)
          refine ⟨f1, fun hne hroom => ?_⟩
          have hr0 : Roomy E mm := hroom 0 (Nat.zero_le _)
          have hr1 : Roomy E (next E.eq mm c) := hroom 1 (by simp)
          rw [f2 hne (fun i hi => hroom (i + 1) (by simp only [List.length_cons]; omega))]
          apply h2 hne
          rintro k v (rfl | rfl | rfl)
          · exact cramped_roomy hE hm hr0 (upd := false) hr1
          · exact cramped_roomy hE hm hr0 (upd := true) hr1
          · exact cramped_roomy hE hm hr0 (upd := false) hr1

theorem fine_start : Fine (start : LT K V) := by
  refine ⟨Or.inr ⟨rfl, Heap.empty, rfl, rfl, List.nodup_nil, ?_⟩, Nat.zero_lt_one, fun h => by cases h⟩
  intro b i
  simp [Heap.empty, start, emptyMap]

theorem makeE_ok {a : Bool × Bool} {n : Nat} {s : LT K V} (h : makeE a n = .ok s ()) :
    Fine s ∧ s.bad = false ∧ make false (a.1 && a.2) n = .ok s.t () := by
  unfold makeE at h
  unfold make
  split at h
  · rename_i hn
    cases h
    exact ⟨fine_start, rfl, by rw [if_pos hn]; rfl⟩
  · rename_i hn
    rw [if_neg hn]
    cases hc : calcCapacity n with
    | ub => rw [hc] at h; cases h
    | diverge => rw [hc] at h; cases h
    | ok cap =>
      rw [hc] at h
      simp only at h ⊢
      have hp := proj_createE a cap (start : LT K V)
      rw [h] at hp
      refine ⟨?_, ?_, hp.symm⟩
      · obtain ⟨j, hj, rfl, _⟩ := calcCapacity_ok hc
        obtain ⟨h1, h2, h3, h4, h5, h6⟩ := createE_ok (E := (⟨fun _ => 0, fun _ _ => true⟩ : Env K)) hj (P := fun h => h = Heap.empty)
          (s := start) (Or.inr ⟨rfl, _, rfl, rfl⟩) (by rintro h' rfl x hx; cases hx) h
        refine ⟨h1.mono ?_, by rw [h2, h3]; show 1 < 1 + 2; omega, fun _ => by rw [h2, h3]⟩
        rintro h' ⟨h0, rfl, rfl⟩
        refine ⟨List.append_nil _, List.nodup_nil, ?_⟩
        intro b i
        rw [h6]
        simp [Heap.empty]
      · unfold createE at h
        cases hcs : createSlots false (a.1 && a.2) cap (start : LT K V).t with
        | ub => rw [hcs] at h; cases h
        | diverge => rw [hcs] at h; cases h
        | throw t' => rw [hcs] at h; cases h
        | ok t1 w => rw [hcs] at h; cases h; rfl

/-- The number of objects is the number of elements. -/
theorem Holds.length {s : LT K V} {h : Heap} (hO : Holds s h) (hR : Reach E s.t) : h.live.length = s.t.size := by
  rw [hR.size]
  have hp : h.live.Perm (((List.range s.t.slen).filter fun i => (s.t.slot i).isSome).map fun i => (s.blk, i)) := by
    rw [List.perm_ext_iff_of_nodup hO.nodup]
    · rintro ⟨b, i⟩
      rw [hO.live, List.mem_map]
      simp only [and_false, or_false, List.mem_filter, List.mem_range, Prod.mk.injEq]
      constructor
      · rintro ⟨rfl, hs⟩
        refine ⟨i, ⟨?_, hs⟩, rfl, rfl⟩
        rcases hR.st with ⟨x, y, hxy⟩ | ⟨c, hl⟩
        · rw [hxy] at hs; cases hs
        · by_contra hc
          rw [(hl.tail i (by omega)).1] at hs
          cases hs
      · rintro ⟨j, ⟨_, hj⟩, rfl, rfl⟩
        exact ⟨rfl, hj⟩
    · exact List.Nodup.map (fun x y hxy => (Prod.mk.inj hxy).2) (List.Nodup.filter _ List.nodup_range)
  rw [hp.length_eq, List.length_map]
  unfold entries
  generalize List.range s.t.slen = l
  induction l with
  | nil => rfl
  | cons i l ih =>
    cases hs : s.t.slot i with
    | none => simp [hs, ih]
    | some e => simp [hs, ih]

/-! ### C121 -/

/-- C121, for all hash functions, all allocators and all histories: either something illegal happens to the objects (the ghost
`bad`), or the log of the map is in order: every object is constructed once in memory the map holds and destroyed once, as many are alive
as the map has elements, and the destructor gives everything back.

Missing for the full claim, because the code violates it: `bad` can become true (`C121_self_transfer`, `C121_exchange_over_live`);
histories with an exception (`C121_lost_block`, `C121_wrong_count`) and `clear(true)` on a large map (`C121_clear_destroy`). -/
theorem C121_lifetimes_partial (hE : E.Lawful) {rv : Nat → Nat} (hrv : ∀ x, 256 ≤ rv x ∧ rv x ≤ 1024) {a : Bool × Bool} {n : Nat} {s0 : LT K V}
    (h0 : makeE a n = .ok s0 ()) {ops : List ((Bool × Bool) × Call K V)} (hv : ∀ o ∈ ops, Valid o.2) {as : List (Ans K V)} {s : LT K V}
    (hr : runE m E rv ops s0 = .ok (as, s)) (ht : as.getLast? ≠ some .threw) :
    run false true E rv (plain ops) s0.t = .ok (as, s.t) ∧
    (Heap.run s.log Heap.empty = none ↔ s.bad = true) ∧
    (s.bad = false → ∃ h, Heap.run s.log Heap.empty = some h ∧ h.live.Nodup ∧ h.live.length = (contents E.eq (plain ops)).length ∧
      Heap.run (destroyE s).log Heap.empty = some Heap.empty) := by
  obtain ⟨hf0, _, hmk⟩ := makeE_ok h0
  obtain ⟨hR0, he0, _⟩ := reach_make (E := E) hmk
  have hvp : ∀ c ∈ plain ops, Valid c.2 := by
    intro c hc
    obtain ⟨o, ho, rfl⟩ := List.mem_map.mp hc
    exact hv o ho
  rcases runE_ok (m := m) hE hrv ops s0 [] hv hR0 hf0 (by rw [he0]) with ⟨h1, _⟩ | ⟨as', s', h1, h2, h3⟩
  · rw [hr] at h1; cases h1
  · rw [hr] at h1
    cases h1
    obtain ⟨h4, _⟩ := h3 ht
    have hrun := run_ok hE hrv (plain ops) s0.t [] hvp hR0 (by rw [he0])
    rw [h2] at hrun
    obtain ⟨m', _, _, h5⟩ := hrun
    obtain ⟨hR, hp, hm'⟩ := h5 ht
    refine ⟨h2, ?_, ?_⟩
    · rcases h4.ok with ⟨hb, hn⟩ | ⟨hb, h', hn, _⟩
      · simp [hb, hn]
      · simp [hb, hn]
    · intro hb
      rcases h4.ok with ⟨hb', _⟩ | ⟨_, h', hn, hO⟩
      · rw [hb] at hb'; cases hb'
      · refine ⟨h', hn, hO.nodup, ?_, ?_⟩
        · rw [hO.length hR, hR.size, hp.length_eq, hm']
          rfl
        · rcases destroyE_ok (E := E) (hR.st.imp id fun ⟨c, h⟩ => ⟨c, h.toGood.weak⟩) h4 with ⟨hb', _⟩ | ⟨_, h2, hn2, rfl⟩
          · have : (destroyE s).bad = s.bad := Bool.or_false _
            rw [this, hb] at hb'; cases hb'
          · exact hn2

/-- C121 with room: if the contents always fit, the buffer of `insert_to_place` is not filled beforehand, and neither `clear(true)`
nor a failed allocation occurs, then no object is constructed over another, none is destroyed twice or forgotten, and all blocks
are given back with the counts they were obtained with. -/
theorem C121_lifetimes_roomy_partial (hm : m ≠ .exch true) (hE : E.Lawful) {rv : Nat → Nat} (hrv : ∀ x, 256 ≤ rv x ∧ rv x ≤ 1024)
    {a : Bool × Bool} {n : Nat} {s0 : LT K V} (h0 : makeE a n = .ok s0 ()) {ops : List ((Bool × Bool) × Call K V)}
    (hv : ∀ o ∈ ops, Valid o.2) (hd : NoDestroy ops) (hu : Usable (decide (n = 0)) (plain ops))
    (hroom : ∀ i, i ≤ ops.length → Roomy E (contents E.eq (plain (ops.take i)))) :
    ∃ as s, runE m E rv ops s0 = .ok (as, s) ∧ (as.getLast? ≠ some .threw →
      (∃ h, Heap.run s.log Heap.empty = some h ∧ h.live.Nodup ∧ h.live.length = (contents E.eq (plain ops)).length) ∧
      Heap.run (destroyE s).log Heap.empty = some Heap.empty ∧
      (∀ b i, (destroyE s).log.count (.ctor b i) = (destroyE s).log.count (.dtor b i)) ∧
      ∀ b k, (destroyE s).log.count (.alloc b k) = (destroyE s).log.count (.free b k)) := by
  obtain ⟨hf0, hb0, hmk⟩ := makeE_ok h0
  obtain ⟨hR0, he0, hfr⟩ := reach_make (E := E) hmk
  have hvp : ∀ c ∈ plain ops, Valid c.2 := by
    intro c hc
    obtain ⟨o, ho, rfl⟩ := List.mem_map.mp hc
    exact hv o ho
  rcases runE_ok (m := m) hE hrv ops s0 [] hv hR0 hf0 (by rw [he0]) with ⟨_, h1 | h1⟩ | ⟨as, s, h1, h2, h3⟩
  · exact (h1 hd).elim
  · exfalso
    have hrun := run_ok hE hrv (plain ops) s0.t [] hvp hR0 (by rw [he0])
    rw [h1] at hrun
    obtain ⟨i, hi, hn⟩ := hrun (decide (n = 0)) (fun h => decide_eq_true (hfr h)) hu
    have hlen : (plain ops).length = ops.length := List.length_map _
    have := hroom i (by omega)
    unfold plain at this hn
    rw [List.map_take] at this
    exact hn this
  · refine ⟨as, s, h1, fun ht => ?_⟩
    have hb : s.bad = false := by rw [(h3 ht).2 hm hroom, hb0]
    obtain ⟨_, _, h4⟩ := C121_lifetimes_partial hE hrv h0 hv h1 ht
    obtain ⟨h, g1, g2, g3, g4⟩ := h4 hb
    refine ⟨⟨h, g1, g2, g3⟩, g4, ?_, ?_⟩
    · intro b i
      have := (Life.balance_obj b i _ _ _ List.nodup_nil g4).2
      simpa [Heap.empty] using this
    · intro b k
      have := Life.balance_block b k _ _ _ g4
      simpa [Heap.empty] using this

/-! ### Where the code goes wrong -/

theorem placeLoopE_self {blk tmp p0 : Nat} (rh : Bool) : ∀ (f : Nat) (t : Map K V) (i : Nat) (rich : Ctrl) (c : Cur), c.ins = (blk, p0) →
    ∀ t' l b, placeLoopE .swap blk tmp rh p0 f t i rich c = .ok (t', false, l, b) → b = true := by
  have hng : ∀ (t : Map K V) (rich : Ctrl) (c : Cur), c.ins = (blk, p0) →
      ∀ t' l b, needGrowE .swap blk tmp p0 t rich c = .ok (t', false, l, b) → b = true := by
    intro t rich c hc t' l b hq
    unfold needGrowE needGrow at hq
    split at hq
    · cases hq
    · simp only [Res.bind_ok, Res.ok.injEq, Prod.mk.injEq, true_and] at hq
      have hb := congrArg Prod.snd hq.2
      unfold Cur.settle at hb
      simp only [hc, decide_true, Bool.or_true] at hb
      exact hb.symm
  intro f
  induction f with
  | zero => intro t i rich c hc t' l b hq; exact hng _ _ _ hc _ _ _ hq
  | succ f ih =>
    intro t i rich c hc t' l b hq
    unfold placeLoopE at hq
    split at hq
    · split at hq
      · cases hq
      · simp at hq
    · split at hq
      · dsimp only at hq
        split at hq
        · exact hng _ _ _ (by exact hc) _ _ _ hq
        · exact ih _ _ _ _ (by exact hc) _ _ _ hq
      · split at hq
        · cases hq
        · split at hq
          · exact hng _ _ _ hc _ _ _ hq
          · exact ih _ _ _ _ hc _ _ _ hq

theorem placeE_self {s s' : LT K V} {rh : Bool} {i : Nat} {d : Ctrl} (hq : placeE .swap rh i d s = .ok (s', false)) : s'.bad = true := by
  unfold placeE at hq
  split at hq
  · split at hq
    · cases hq
    · cases hr : insertToPlaceE .swap s.blk s.next rh s.t i d with
      | ub => rw [hr] at hq; cases hq
      | diverge => rw [hr] at hq; cases hq
      | ok r =>
        obtain ⟨t', dn, l, b⟩ := r
        rw [hr] at hq
        simp only [Res.bind_ok, Res.ok.injEq, Prod.mk.injEq] at hq
        obtain ⟨rfl, rfl⟩ := hq
        unfold insertToPlaceE at hr
        cases hl : s.t.last with
        | none => rw [hl] at hr; cases hr
        | some n =>
          rw [hl] at hr
          have := placeLoopE_self (blk := s.blk) (tmp := s.next) (p0 := i) rh _ _ _ _ _ rfl _ _ _ hr
          show (s.bad || b) = true
          rw [this, Bool.or_true]
  · cases hq

/-- Whenever `insert_to_place` gives up with `kNeedGrow`, elements being exchanged with `swap_slot`, the last step moves the carried
element onto itself: it is constructed over the live object and then destroyed, although the map goes on using it. -/
theorem C121_need_grow (hE : E.Lawful) {s : LT K V} (hR : Reach E s.t) (hf : Fine s) {a : Bool × Bool} {k : K} {s' : LT K V}
    (hq : findOrInsertE .swap E a k s = .ok s' .needGrow) : Heap.run s'.log Heap.empty = none := by
  have hst : Sound E s.t := hR.st.imp id fun ⟨c, h⟩ => ⟨c, h.toGood⟩
  have hfin : ∀ (s1 : LT K V) i d, finishE .swap s1 i d = .ok s' .needGrow → s'.bad = true := by
    intro s1 i d h
    unfold finishE at h
    obtain ⟨⟨s2, done⟩, h1, h2⟩ := liftE_ok h
    simp only [Out.ok.injEq] at h2
    cases done with
    | true => simp at h2
    | false =>
      obtain ⟨rfl, _⟩ := h2
      exact placeE_self h1
  have hb : s'.bad = true := by
    unfold findOrInsertE at hq
    obtain ⟨q, _, h2⟩ := liftE_ok hq
    cases q with
    | hit i => cases h2
    | stop i d =>
      simp only at h2
      split at h2
      · obtain ⟨s1, u, _, h3⟩ := bindE_ok h2
        obtain ⟨q, _, h4⟩ := liftE_ok h3
        exact hfin _ _ _ h4
      · exact hfin _ _ _ h2
  rcases (findOrInsertE_ok hE hst hf hq).1.ok with ⟨_, h1⟩ | ⟨h1, _⟩
  · exact h1
  · rw [hb] at h1; cases h1

/-- A history of the map constructed with capacity `n`, all allocations succeeding. -/
def play (m : Mode) (n : Nat) (cs : List (Call Nat Nat)) : Option (List (Ans Nat Nat) × LT Nat Nat) :=
  match (makeE (true, true) n : Out (LT Nat Nat) Unit) with
  | .ok s0 _ =>
    match runE m (hashEnv id) (fun _ => 512) (cs.map fun c => ((true, true), c)) s0 with
    | .ok r => some r
    | _ => none
  | _ => none

/-- The history ends without an exception, and its log is not in order. -/
def broken (m : Mode) (n : Nat) (cs : List (Call Nat Nat)) : Bool :=
  match play m n cs with
  | some (as, s) => !(as.contains .threw) && (Heap.run s.log Heap.empty).isNone
  | none => false

/-- Thirteen keys with one home, and two keys with the home before it. -/
def crowd : List (Call Nat Nat) := (List.range 13).map (fun i => .insert (63 + 64 * i) i) ++ [.insert 62 0, .insert 126 0]

set_option maxRecDepth 100000 in
/-- Fifteen insertions into a map of capacity 64 with the identity as hash function: an element is moved onto itself. -/
theorem C121_self_transfer : broken .swap 64 crowd = true := by decide +kernel

set_option maxRecDepth 100000 in
/-- With the buffer that `construct_empty_slot` has filled, the first exchange constructs an element over the one in the buffer:
four insertions into a map of capacity 16. -/
theorem C121_exchange_over_live : broken (.exch true) 16 [.insert 0 0, .insert 1 1, .insert 2 2, .insert 16 3] = true := by decide +kernel

/-- The history ends without an exception, and the destructor leaves nothing behind. -/
def clean (m : Mode) (n : Nat) (cs : List (Call Nat Nat)) : Bool :=
  match play m n cs with
  | some (as, s) => !(as.contains .threw) && (match Heap.run (destroyE s).log Heap.empty with
      | some h => h.live.isEmpty && h.blocks.isEmpty
      | none => false)
  | none => false

set_option maxRecDepth 100000 in
/-- The other ways to exchange are in order for the same history. -/
example : clean (.exch false) 16 [.insert 0 0, .insert 1 1, .insert 2 2, .insert 16 3] = true ∧
    clean .swap 16 [.insert 0 0, .insert 1 1, .insert 2 2, .insert 16 3] = true := by decide +kernel

set_option maxRecDepth 100000 in
/-- Growth, erasure with a backward shift, and clearing. -/
example : clean .swap 4 ([.insert 0 0, .insert 16 1, .insert 1 2, .insert 32 3, .insert 5 4, .erase 16, .erase 7, .assign 5 9, .clear false, .insert 3 3,
    .rehash 40, .shrink false]) = true := by decide +kernel

/-- `clear(true)` on a map of capacity 64 or more, elements having destructors: the second `destroy_data()` reads past the 64 static
control words. -/
theorem C121_clear_destroy {s : LT K V} (hR : Reach E s.t) (rv : Nat → Nat) (a : Bool × Bool) (h64 : 64 ≤ slotCap s.t) :
    execE m E rv a (.clear true) s = .ub := by
  rcases hR.st with ⟨x, y, hxy⟩ | ⟨c, hl⟩
  · rw [hxy] at h64
    simp [slotCap, emptyMap] at h64
  · have hc := hl.toShape.slotCap
    have h1 := hl.toShape.maxCap
    have h2 := hl.toShape.slen
    have h3 := lookups_bounds c
    have hlt : ¬ maxCap s.t ≤ 2 * width false := by
      rw [h1, h2]
      show ¬ c + lookups c ≤ 64
      omega
    show (clearE true s).bind _ = _
    unfold clearE
    rw [if_pos (by simp; omega), if_neg hlt]
    rfl

theorem run_frame {x : Nat × Nat} : ∀ (l : List Ev) (h h' : Heap), (∀ k, Ev.free x.1 k ∉ l) → Heap.run l h = some h' → x ∈ h.blocks → x ∈ h'.blocks := by
  intro l
  induction l with
  | nil => intro h h' _ hr hx; cases hr; exact hx
  | cons e l ih =>
    intro h h' hno hr hx
    simp only [Heap.run] at hr
    cases hs : h.step e with
    | none => rw [hs] at hr; cases hr
    | some h1 =>
      rw [hs] at hr
      refine ih h1 h' (fun k hk => hno k (List.mem_cons_of_mem _ hk)) hr ?_
      cases e with
      | alloc b n =>
        simp only [Heap.step] at hs
        split at hs <;> cases hs
        exact List.mem_cons_of_mem _ hx
      | free b n =>
        simp only [Heap.step] at hs
        split at hs <;> cases hs
        have hne : x ≠ (b, n) := by
          rintro rfl
          exact hno n List.mem_cons_self
        exact (List.mem_erase_of_ne hne).mpr hx
      | ctor b i =>
        simp only [Heap.step] at hs
        split at hs <;> cases hs
        exact hx
      | dtor b i =>
        simp only [Heap.step] at hs
        split at hs <;> cases hs
        exact hx

/-- If the request for the slots of a new block fails after the one for its control words, the control words are never given back,
whatever the map is used for afterwards: the destructor does not know them. -/
theorem C121_lost_block {s : LT K V} (hf : Fine s) (hb : s.bad = false) {cap : Nat} (hc : cap ≤ 2 ^ 48) :
    ∃ s', createE (true, false) cap s = .throw s' ∧ (∃ h, Heap.run s'.log Heap.empty = some h ∧ (s.next + 1, newCtrls cap) ∈ h.blocks) ∧
      Heap.run (destroyE s').log Heap.empty ≠ some Heap.empty := by
  rcases hf.ok with ⟨hb', _⟩ | ⟨_, h, hr, hO⟩
  · rw [hb] at hb'; cases hb'
  have hO : Own s.blk s.t.slot (fun _ => False) (owned s.t s.blk) h := hO
  have hcr : createE (true, false) cap s = .throw (emit [.alloc (s.next + 1) (newCtrls cap)] false
      { s with t := { s.t with look := lookups cap }, next := s.next + 2 }) := by
    unfold createE
    have : createSlots false (true && false) cap s.t = .throw { s.t with look := lookups cap } := rfl
    rw [show (((true, false) : Bool × Bool).1 && ((true, false) : Bool × Bool).2) = (true && false) from rfl, this]
    simp only
    have hd : decide (cap ≤ memLimit) = true := decide_eq_true (by unfold memLimit; omega)
    rw [hd]
    rfl
  refine ⟨_, hcr, ?_⟩
  have hbl : ∀ x ∈ h.blocks, x.1 ≠ s.next + 1 := by
    rw [hO.blocks]
    intro x hx
    unfold owned at hx
    split at hx
    · rename_i ha
      have := hf.blk2 ha
      simp only [List.mem_cons, List.not_mem_nil, or_false] at hx
      rcases hx with rfl | rfl <;> simp only <;> omega
    · cases hx
  have hr1 : Heap.run (s.log ++ [.alloc (s.next + 1) (newCtrls cap)]) Heap.empty = some { h with blocks := (s.next + 1, newCtrls cap) :: h.blocks } := by
    rw [Life.run_append, hr, Option.bind_some]
    simp only [Heap.run]
    rw [step_alloc hbl]
    rfl
  refine ⟨⟨_, hr1, List.mem_cons_self⟩, ?_⟩
  intro hq
  unfold destroyE emit at hq
  simp only at hq
  rw [Life.run_append, hr1, Option.bind_some] at hq
  have := run_frame (x := (s.next + 1, newCtrls cap)) _ _ _ (by
    intro k hk
    rcases List.mem_append.mp hk with hk | hk
    · unfold clearSlotsE at hk
      obtain ⟨_, _, hk⟩ := List.mem_map.mp hk
      cases hk
    · unfold freeAll at hk
      split at hk
      · rename_i ha
        have := hf.blk2 ha
        simp only [List.mem_cons, Ev.free.injEq, List.not_mem_nil, or_false] at hk
        omega
      · cases hk) hq List.mem_cons_self
  cases this

/-- A failed growth has already changed the number of look-ups: if it differs, the destructor gives the blocks back with the wrong
counts. -/
theorem C121_wrong_count {s : LT K V} (hf : Fine s) (hb : s.bad = false) {c : Nat} (hG : Good E s.t c) {cap : Nat} (hl : lookups cap ≠ lookups c) :
    ∃ s', createE (false, false) cap s = .throw s' ∧ s'.log = s.log ∧ Heap.run (destroyE s').log Heap.empty = none := by
  rcases hf.ok with ⟨hb', _⟩ | ⟨_, h, hr, hO⟩
  · rw [hb] at hb'; cases hb'
  have hO : Own s.blk s.t.slot (fun _ => False) (owned s.t s.blk) h := hO
  refine ⟨emit [] false { s with t := { s.t with look := lookups cap }, next := s.next + 2 }, rfl, List.append_nil _, ?_⟩
  unfold destroyE emit
  simp only
  rw [List.append_nil, Life.run_append, hr, Option.bind_some, Life.run_append]
  cases hq : Heap.run (clearSlotsE { s.t with look := lookups cap } s.blk) h with
  | none => rfl
  | some h1 =>
    rw [Option.bind_some]
    have hb1 : h1.blocks = h.blocks := by
      have : ∀ (l : List Nat) (h h1 : Heap), Heap.run (l.map fun i => Ev.dtor s.blk i) h = some h1 → h1.blocks = h.blocks := by
        intro l
        induction l with
        | nil => intro h h1 hq; cases hq; rfl
        | cons i l ih =>
          intro h h1 hq
          simp only [List.map_cons, Heap.run, Heap.step] at hq
          split at hq
          · rw [Option.bind_some] at hq
            rw [ih _ _ hq]
          · cases hq
      exact this _ _ _ hq
    unfold freeAll
    rw [if_pos hG.alloc]
    simp only [Heap.run]
    have hno : h1.step (.free s.blk (maxCap { s.t with look := lookups cap })) = none := by
      simp only [Heap.step]
      rw [if_neg]
      rw [Bool.and_eq_true, not_and_or]
      left
      rw [List.contains_iff_mem, hb1, hO.blocks]
      unfold owned
      rw [if_pos hG.alloc]
      simp only [List.mem_cons, Prod.mk.injEq, List.not_mem_nil, or_false]
      have h1 : maxCap { s.t with look := lookups cap } = slotCap s.t + lookups cap := rfl
      have h2 : maxCap s.t = slotCap s.t + lookups c := by unfold maxCap; rw [hG.look]
      rw [h1, h2]
      rintro (⟨_, hq⟩ | ⟨hq, _⟩) <;> omega
    rw [hno]
    rfl

end

/-! ### The hypotheses can be met -/

/-- The state of a history. -/
theorem fine_of_play {m : Mode} {n : Nat} {cs : List (Call Nat Nat)} (hv : cs.all validB = true) {p : LT Nat Nat → Bool}
    (h : (match play m n cs with | some (as, s) => !(as.contains .threw) && p s | none => false) = true) :
    ∃ s : LT Nat Nat, Reach (hashEnv id) s.t ∧ Fine s ∧ p s = true := by
  unfold play at h
  cases h0 : (makeE (true, true) n : Out (LT Nat Nat) Unit) with
  | ub => rw [h0] at h; cases h
  | diverge => rw [h0] at h; cases h
  | throw s => rw [h0] at h; cases h
  | ok s0 u =>
    rw [h0] at h
    simp only at h
    obtain ⟨hf0, _, hmk⟩ := makeE_ok h0
    obtain ⟨hR0, he0, _⟩ := reach_make (E := hashEnv id) hmk
    have hv1 : ∀ o ∈ cs.map (fun c => (((true, true), c) : (Bool × Bool) × Call Nat Nat)), Valid o.2 := by
      intro o ho
      obtain ⟨c, hc, rfl⟩ := List.mem_map.mp ho
      exact valid_of_validB (List.all_eq_true.mp hv c hc)
    have hrv : ∀ x : Nat, 256 ≤ (fun _ => 512 : Nat → Nat) x ∧ (fun _ => 512 : Nat → Nat) x ≤ 1024 := by intro x; simp
    rcases runE_ok (m := m) (hashEnv_lawful id) hrv _ s0 [] hv1 hR0 hf0 (by rw [he0]) with ⟨h1, _⟩ | ⟨as, s, h1, h2, h3⟩
    · rw [h1] at h; cases h
    · rw [h1] at h
      simp only [Bool.and_eq_true, Bool.not_eq_true'] at h
      have ht : as.getLast? ≠ some .threw := by
        intro hq
        have := List.mem_of_getLast? hq
        have := List.contains_iff_mem.mpr this
        rw [h.1] at this
        cases this
      have hrun := run_ok (hashEnv_lawful id) hrv (plain _) s0.t [] (by
        intro c hc
        obtain ⟨o, ho, rfl⟩ := List.mem_map.mp hc
        exact hv1 o ho) hR0 (by rw [he0])
      rw [h2] at hrun
      obtain ⟨m', _, _, h5⟩ := hrun
      exact ⟨s, (h5 ht).1, (h3 ht).1, h.2⟩

set_option maxRecDepth 100000 in
/-- `C121_need_grow` has instances. -/
example : ∃ s : LT Nat Nat, Reach (hashEnv id) s.t ∧ Fine s ∧
    (match findOrInsertE .swap (hashEnv id) (true, true) 126 s with | .ok _ .needGrow => true | _ => false) = true :=
  fine_of_play (m := .swap) (n := 64) (cs := crowd.take 14) (by decide) (by decide +kernel)

set_option maxRecDepth 100000 in
/-- The instances of `C121_clear_destroy`, `C121_lost_block` and `C121_wrong_count`: a map of capacity 64 with some elements; the next
capacity has 14 look-ups instead of 12. -/
example : ∃ s : LT Nat Nat, Reach (hashEnv id) s.t ∧ Fine s ∧ (decide (slotCap s.t = 64) && !s.bad && s.t.alloc) = true :=
  fine_of_play (m := .swap) (n := 64) (cs := [.insert 1 1, .insert 2 2, .insert 65 3, .erase 1]) (by decide) (by decide +kernel)

example : lookups 128 ≠ lookups 64 := by decide

/-- A history for `C121_lifetimes_partial` and `C121_lifetimes_roomy_partial`. -/
def sample : List ((Bool × Bool) × Call Nat Nat) :=
  [((true, true), .insert 1 1), ((true, true), .insert 5 2), ((true, true), .erase 1), ((true, true), .rehash 40), ((true, true), .clear false)]

example : ∃ (s0 : LT Nat Nat) (as : List (Ans Nat Nat)) (s : LT Nat Nat), makeE (true, true) 4 = .ok s0 () ∧
    runE .swap (hashEnv id) (fun _ => 512) sample s0 = .ok (as, s) := by
  obtain ⟨s0, h0⟩ : ∃ s0 : LT Nat Nat, makeE (true, true) 4 = .ok s0 () := ⟨_, rfl⟩
  obtain ⟨as, s, h, _⟩ := C121_lifetimes_roomy_partial (m := .swap) (E := hashEnv id) (by simp) (hashEnv_lawful id) (rv := fun _ => 512) (by intro x; simp)
    (a := (true, true)) (n := 4) h0 (ops := sample) (by
      intro o ho
      simp only [sample, List.mem_cons, List.not_mem_nil, or_false] at ho
      rcases ho with rfl | rfl | rfl | rfl | rfl <;> trivial) (by
      intro o ho
      simp only [sample, List.mem_cons, List.not_mem_nil, or_false] at ho
      rcases ho with rfl | rfl | rfl | rfl | rfl <;> simp) (by
      simp [Usable, plain, sample, bareAfter, givesStorage])
    (fun i hi => roomy_five (by
      have : ∀ i, i ≤ sample.length → (contents (hashEnv id).eq (plain (sample.take i))).length ≤ 5 := by decide
      exact this i hi))
  exact ⟨s0, as, s, h0, h⟩

end Verif.Robin.Track
