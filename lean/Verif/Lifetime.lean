/-
Lifetimes (C118): which element objects and memory blocks the group tables create and give up.

The tables of `Verif.Table` are run together with a log of what happens to memory: blocks obtained from and given back to the
allocator, element objects constructed and destroyed in the slots of a block.  Whether such a log is in order is decided by
`Heap.step`, which knows nothing about hash tables.

T15 = src/jstd/hashmap/group15_flat_table.hpp, T16 = src/jstd/hashmap/group16_flat_table.hpp.
`S` is `sizeof(slot_type)`.  The element type has a destructor that does something (`is_slot_trivial_destructor` is false,
T15:174-175, T16:171-172); otherwise the `dtor` events do not happen and do not matter.
-/
import Verif.Alloc
import Verif.Ctor

namespace Verif.Life
open Verif
open Verif.Spec (Call Ans)

/-! ### A heap -/

/-- What a program does to memory: obtain a block `b` of `n` objects, give it back naming the number of objects, construct or
destroy the element in slot `i` of block `b`. -/
inductive Ev
  | alloc (b n : Nat)
  | free (b n : Nat)
  | ctor (b i : Nat)
  | dtor (b i : Nat)
  deriving DecidableEq, Repr

/-- The blocks that have been obtained and not given back, with their sizes, and the objects alive in them. -/
structure Heap where
  blocks : List (Nat × Nat)
  live : List (Nat × Nat)
  deriving DecidableEq

/-- Nothing obtained, nothing alive. -/
def Heap.empty : Heap := ⟨[], []⟩

/-- The rules of C++ ([allocator.requirements], [basic.life]): a block is given back once, with the number it was obtained
with, and (since the elements have non-trivial destructors) after the objects in it have been destroyed; an object is
constructed in a block that is held, inside its bounds, where no object is alive; only an object that is alive is destroyed. -/
def Heap.step (h : Heap) : Ev → Option Heap
  | .alloc b n => if (h.blocks.map (·.1)).contains b then none else some { h with blocks := (b, n) :: h.blocks }
  | .free b n =>
    if h.blocks.contains (b, n) && h.live.all (fun o => o.1 != b) then some { h with blocks := h.blocks.erase (b, n) } else none
  | .ctor b i =>
    if h.blocks.any (fun x => x.1 == b && decide (i < x.2)) && !h.live.contains (b, i) then
      some { h with live := (b, i) :: h.live }
    else none
  | .dtor b i => if h.live.contains (b, i) then some { h with live := h.live.erase (b, i) } else none

/-- A log is in order if every event is. -/
def Heap.run : List Ev → Heap → Option Heap
  | [], h => some h
  | e :: es, h => (h.step e).bind (Heap.run es)

/-! ### The tables with their log -/

/-- A table, the block that `slots_` points to (for group16 the block of `groups_alloc_` is the next number), the first
number not used yet, and the log. -/
structure LT (K V : Type) where
  t : Table K V
  blk : Nat
  next : Nat
  log : List Ev

section Model
variable {K V : Type} (L : Layout) (E : Env K) (S : Nat)

/-- Add events to the log. -/
def emit (s : LT K V) (es : List Ev) : LT K V := { s with log := s.log ++ es }

/-- A step that only touches the members and the contents of the slots. -/
def onT {α : Type} (f : Table K V → Out (Table K V) α) (s : LT K V) : Out (LT K V) α :=
  match f s.t with
  | .ok t a => .ok { s with t := t } a
  | .throw t => .throw { s with t := t }
  | .diverge => .diverge
  | .ub => .ub

/-- `SlotAllocTraits::allocate` with the count of T15:2076, T16:1952. -/
def askSlots (cap : Nat) : Nat := if L.oneBlock then Alloc.createCount S cap else (Alloc.createCount16 cap).2

/-- `GroupAllocTraits::allocate` with the count of T16:1948-1949 (group16 only). -/
def askGroups (cap : Nat) : Nat := (Alloc.createCount16 cap).1

/-- The blocks of a new storage. -/
def newBlocks (b cap : Nat) : List Ev :=
  if L.oneBlock then [.alloc b (askSlots L S cap)] else [.alloc (b + 1) (askGroups cap), .alloc b (askSlots L S cap)]

/-- `create_slots` (T15:2049-2105, T16:1933-1980): `a.1` is the answer of the allocator to the first request, `a.2` to the
second (T16:1952).  When the second one throws, the first block stays where it is. -/
def createE (a : Bool × Bool) (cap : Nat) (s : LT K V) : Out (LT K V) Unit :=
  if L.oneBlock then
    match createSlots L a.1 cap s.t with
    | .ok t _ => .ok { t := t, blk := s.next, next := s.next + 2, log := s.log ++ newBlocks L S s.next cap } ()
    | .throw t => .throw { s with t := t }
    | .diverge => .diverge
    | .ub => .ub
  else if a.1 && decide (cap ≤ capLimit) then
    match createSlots L a.2 cap s.t with
    | .ok t _ => .ok { t := t, blk := s.next, next := s.next + 2, log := s.log ++ newBlocks L S s.next cap } ()
    | .throw t => .throw { s with t := t, next := s.next + 2, log := s.log ++ [.alloc (s.next + 1) (askGroups cap)] }
    | .diverge => .diverge
    | .ub => .ub
  else .throw s

/-- The answer to both requests together. -/
def both (a : Bool × Bool) : Bool := if L.oneBlock then a.1 else a.1 && a.2

/-- `no_grow_unique_transfer_insert(old_slot)` up to and with the construction of the new element (T15:2440-2449,
T16:2264-2273). -/
def uniqueInsertE (e : K × V) (s : LT K V) : Out (LT K V) Unit :=
  (onT (findEmpty L E false e.1) s).bind fun s1 gp =>
    (onT (constructAt L true (gp.1 * L.S + gp.2) e) s1).bind fun s2 _ =>
      .ok (emit s2 [.ctor s2.blk (gp.1 * L.S + gp.2)]) ()

/-- The loop of `rehash_impl` (T15:2137-2156, T16:2013-2024) with `destroy_slot(old_slot)` (T15:2450, T16:2274); `bo` is
the old block. -/
def transferAllE (old : Table K V) (bo : Nat) : List (Nat × Nat) → LT K V → Out (LT K V) Unit
  | [], s => .ok s ()
  | (g, p) :: r, s =>
    match old.slot (g * L.S + p) with
    | none => .ub
    | some e => (uniqueInsertE L E e s).bind fun s1 _ => transferAllE old bo r (emit s1 [.dtor bo (g * L.S + p)])

/-- Blocks given back at the end of `rehash_impl` (T15:2173-2179; T16:2029-2036: the groups first). -/
def freeOld (old : Table K V) (bo : Nat) : List Ev :=
  if L.oneBlock then [.free bo (Alloc.rehashCount S (old.gmask + 1))]
  else [.free (bo + 1) (Alloc.totalGroupAllocCount (old.gmask + 1)), .free bo (old.slotCap L)]

/-- `rehash_impl<AllowShrink>(n)` (T15:2109-2182, T16:1984-2046). -/
def rehashImplE (shrink : Bool) (a : Bool × Bool) (n : Nat) (s : LT K V) : Out (LT K V) Unit :=
  match calcCapacity s.t.size n with
  | .ub => .ub
  | .diverge => .diverge
  | .ok cap =>
    if (!shrink && decide (cap > s.t.ctrlCap L)) || (shrink && decide (cap ≠ s.t.ctrlCap L)) then
      (createE L S a cap s).bind fun s1 _ =>
        if s.t.alloc then
          (transferAllE L E s.t s.blk (usedPos L s.t) s1).bind fun s2 _ => .ok (emit s2 (freeOld L S s.t s.blk)) ()
        else .ok s1 ()
    else .ok s ()

/-- `find_or_insert(key)` (T15:2393-2427, T16:2217-2251). -/
def findOrInsertE (a : Bool × Bool) (k : K) (s : LT K V) : Out (LT K V) ((Nat × Nat) × Bool) :=
  match find L E s.t k with
  | .ub => .ub
  | .diverge => .diverge
  | .ok (some gp) => .ok s (gp, false)
  | .ok none =>
    (if s.t.size ≥ s.t.thr then rehashImplE L E S false a (s.t.ctrlCap L * 2 % W) s else .ok s ()).bind fun s1 _ =>
      (onT (findEmpty L E true k) s1).bind fun s2 gp => .ok s2 (gp, true)

/-- `emplace_impl`, `try_emplace_impl` except the overload with a temporary slot (T15:2513-2684, 2723-2761, T16:2337-2507,
2550-2586).  Assigning to the mapped value of a stored element neither begins nor ends a lifetime. -/
def emplaceE (update : Bool) (a : Bool × Bool) (ctor : Bool) (k : K) (v : V) (s : LT K V) : Out (LT K V) (Nat × Bool) :=
  (findOrInsertE L E S a k s).bind fun s1 r =>
    let i := r.1.1 * L.S + r.1.2
    if r.2 then
      (onT (constructAt L ctor i (k, v)) s1).bind fun s2 _ => .ok (emit s2 [.ctor s2.blk i]) (i, true)
    else if update then
      match s1.t.slot i with
      | none => .ub
      | some e => .ok { s1 with t := { s1.t with slot := upd s1.t.slot i (some (e.1, v)) } } (i, false)
    else .ok s1 (i, false)

/-- `find_and_erase(key)` with `erase_slot` (T15:2796-2816, T16:2608-2628). -/
def eraseKeyE (k : K) (s : LT K V) : Out (LT K V) Nat :=
  match find L E s.t k with
  | .ub => .ub
  | .diverge => .diverge
  | .ok none => .ok s 0
  | .ok (some (g, p)) => (onT (eraseAt L g p) s).bind fun s' _ => .ok (emit s' [.dtor s'.blk (g * L.S + p)]) 1

/-- `clear_slots()` (T15:1598-1647, T16:1554-1592): the destructor runs for every used control byte. -/
def clearSlotsE (t : Table K V) (b : Nat) : List Ev :=
  if t.alloc then (usedPos L t).map fun gp => .dtor b (gp.1 * L.S + gp.2) else []

/-- Blocks given back by `destroy_slots`, `destroy_groups` (T15:1526-1531; T16:1495 and 1477-1480: the slots first). -/
def freeAll (t : Table K V) (b : Nat) : List Ev :=
  if t.alloc then
    if L.oneBlock then [.free b (Alloc.destroyCount S t)]
    else [.free b (Alloc.destroyCount16 t).2, .free (b + 1) (Alloc.destroyCount16 t).1]
  else []

/-- `destroy<true>()` (T15:1491-1548, T16:1459-1514); also the destructor of the map (T15:410-412, T16:397-399). -/
def destroyE (s : LT K V) : LT K V :=
  { s with t := emptyTable L s.t.mlf, log := s.log ++ clearSlotsE L s.t s.blk ++ freeAll L S s.t s.blk }

/-- `clear_data()` (T15:1584-1591, T16:1543-1547), see `clearData`. -/
def clearDataE (s : LT K V) : Out (LT K V) Unit :=
  if s.t.alloc then
    .ok { s with
          t := { s.t with
                 grp := fun g => if g = s.t.gmask then L.markTail L.init else L.init
                 slot := fun _ => none
                 size := 0 }
          log := s.log ++ clearSlotsE L s.t s.blk } ()
  else if L.clearMarks then .ub
  else .ok { s with t := { s.t with size := 0 } } ()

/-- `clear(need_destroy)` (T15:823-830, T16:771-778). -/
def clearE (needDestroy : Bool) (s : LT K V) : Out (LT K V) Unit :=
  if needDestroy then .ok (destroyE L S s) () else clearDataE L s

/-- `reserve(n)` (T15:732-739, T16:668-675). -/
def reserveE (a : Bool × Bool) (n : Nat) (s : LT K V) : Out (LT K V) Unit :=
  if n ≠ 0 then rehashImplE L E S false a (fitCapacity s.t.mlf n) s else .ok (destroyE L S s) ()

/-- `rehash(n)` (T15:750-758, T16:696-704). -/
def rehashE (a : Bool × Bool) (n : Nat) (s : LT K V) : Out (LT K V) Unit :=
  let c := max (fitCapacity s.t.mlf s.t.size) n
  if c ≠ 0 then rehashImplE L E S L.rehashShrinks a c s else .ok (destroyE L S s) ()

/-- `shrink_to_fit(read_only)` (T15:761-772, T16:707-718). -/
def shrinkE (a : Bool × Bool) (readOnly : Bool) (s : LT K V) : Out (LT K V) Unit :=
  let c := if readOnly then s.t.size else fitCapacity s.t.mlf s.t.size
  if c ≠ 0 then rehashImplE L E S true a c s else .ok (destroyE L S s) ()

/-- `max_load_factor(f)` (T15:620-634, T16:579-593), see `setMlf`. -/
def setMlfE (a : Bool × Bool) (m : Nat) (s : LT K V) : Out (LT K V) Unit :=
  let s := { s with t := { s.t with mlf := m } }
  match calcCapacity s.t.size (fitCapacity m (s.t.ctrlCap L)) with
  | .ub => .ub
  | .diverge => .diverge
  | .ok cap => if cap > s.t.ctrlCap L then rehashE L E S a cap s else .ok s ()

/-- Before the constructor has done anything. -/
def start : LT K V := { t := emptyTable L 224, blk := 0, next := 0, log := [] }

/-- Constructor with a capacity (T15:282-308 with `reserve_for_insert` 713-720; T16:277-303, 678-685). -/
def constructE (a : Bool × Bool) (n : Nat) : Out (LT K V) Unit :=
  if n ≠ 0 then
    match calcCapacity 0 (fitCapacity 224 n) with
    | .ub => .ub
    | .diverge => .diverge
    | .ok cap => if wrapRisk L (both L a) cap then .ub else createE L S a cap (start L)
  else .ok (start L) ()

/-- One public call, see `exec` (T15:732-998, T16:668-946). -/
def execE (walk : Table K V → Res (List (K × V))) (a : Bool × Bool) : Call K V → LT K V → Out (LT K V) (Ans K V)
  | .insert k v, s => (emplaceE L E S false a true k v s).bind fun s' r => onT (fun t => readElem t r) s'
  | .assign k v, s => (emplaceE L E S true a true k v s).bind fun s' r => onT (fun t => readElem t r) s'
  | .index k d, s => (emplaceE L E S false a true k d s).bind fun s' r => onT (fun t => readValue t r) s'
  | .erase k, s => (eraseKeyE L E k s).bind fun s' n => .ok s' (.num n)
  | .clear d, s => (clearE L S d s).bind fun s' _ => .ok s' .unit
  | .reserve n, s =>
    if wrapRisk L (both L a) (fitCapacity s.t.mlf n) then .ub else (reserveE L E S a n s).bind fun s' _ => .ok s' .unit
  | .rehash n, s => if wrapRisk L (both L a) n then .ub else (rehashE L E S a n s).bind fun s' _ => .ok s' .unit
  | .shrink ro, s => (shrinkE L E S a ro s).bind fun s' _ => .ok s' .unit
  | .maxLoad m, s => (setMlfE L E S a m s).bind fun s' _ => .ok s' .unit
  | c, s => onT (exec L E walk (both L a) c) s

/-- A history of calls with the allocator's answers; the caller catches `bad_alloc` and goes on. -/
def runE (walk : Table K V → Res (List (K × V))) : List ((Bool × Bool) × Call K V) → LT K V → Res (List (Ans K V) × LT K V)
  | [], s => .ok ([], s)
  | (a, c) :: cs, s =>
    match execE L E S walk a c s with
    | .ub => .ub
    | .diverge => .diverge
    | .throw s' => (runE walk cs s').bind fun r => .ok (.threw :: r.1, r.2)
    | .ok s' x => (runE walk cs s').bind fun r => .ok (x :: r.1, r.2)

end Model

/-! ### The log does not change what the tables do -/

section
variable {K V : Type} {L : Layout} {H : Laws L} {E : Env K} {S : Nat}

/-- Forget the log. -/
def proj {α : Type} : Out (LT K V) α → Out (Table K V) α
  | .ok s a => .ok s.t a
  | .throw s => .throw s.t
  | .diverge => .diverge
  | .ub => .ub

theorem proj_bind {α β : Type} {r : Out (LT K V) α} {f : LT K V → α → Out (LT K V) β} {g : Table K V → α → Out (Table K V) β}
    (h : ∀ s a, proj (f s a) = g s.t a) : proj (r.bind f) = (proj r).bind g := by
  cases r with
  | ok s a => exact h s a
  | _ => rfl

theorem proj_onT {α : Type} (f : Table K V → Out (Table K V) α) (s : LT K V) : proj (onT f s) = f s.t := by
  unfold onT
  cases f s.t <;> rfl

theorem proj_createE (a : Bool × Bool) (cap : Nat) (s : LT K V) :
    proj (createE L S a cap s) = createSlots L (both L a) cap s.t := by
  unfold createE both
  cases hb : L.oneBlock with
  | true =>
    simp only [if_true]
    cases createSlots L a.1 cap s.t <;> rfl
  | false =>
    simp only [Bool.false_eq_true, if_false]
    unfold createSlots
    cases h1 : a.1 with
    | false => rfl
    | true =>
      by_cases hc : cap ≤ capLimit
      · simp only [hc, decide_true, Bool.true_and, Bool.and_true, if_true]
        cases a.2 <;> rfl
      · simp only [hc, decide_false, Bool.and_false, Bool.false_eq_true, if_false]
        rfl

theorem proj_uniqueInsertE (e : K × V) (s : LT K V) : proj (uniqueInsertE L E e s) = uniqueInsert L E e s.t := by
  unfold uniqueInsertE uniqueInsert
  rw [proj_bind (g := fun t' gp => constructAt L true (gp.1 * L.S + gp.2) e t'), proj_onT]
  intro s1 gp
  rw [proj_bind (g := fun t' _ => .ok t' ()) (fun _ _ => rfl), proj_onT]
  cases constructAt L true (gp.1 * L.S + gp.2) e s1.t <;> rfl

theorem proj_transferAllE (old : Table K V) (bo : Nat) : ∀ (ps : List (Nat × Nat)) (s : LT K V),
    proj (transferAllE L E old bo ps s) = transferAll L E old ps s.t := by
  intro ps
  induction ps with
  | nil => intro s; rfl
  | cons gp ps ih =>
    intro s
    obtain ⟨g, p⟩ := gp
    unfold transferAllE transferAll
    cases old.slot (g * L.S + p) with
    | none => rfl
    | some e =>
      simp only
      rw [proj_bind (g := fun t' _ => transferAll L E old ps t'), proj_uniqueInsertE]
      intro s1 _
      rw [ih]; rfl

theorem proj_rehashImplE (shrink : Bool) (a : Bool × Bool) (n : Nat) (s : LT K V) :
    proj (rehashImplE L E S shrink a n s) = rehashImpl L E shrink (both L a) n s.t := by
  unfold rehashImplE rehashImpl
  cases calcCapacity s.t.size n with
  | ub => rfl
  | diverge => rfl
  | ok cap =>
    simp only
    split
    · rw [proj_bind (g := fun t1 _ => if s.t.alloc then transferAll L E s.t (usedPos L s.t) t1 else .ok t1 ()), proj_createE]
      intro s1 _
      split
      · rw [proj_bind (g := fun t' _ => .ok t' ()) (fun _ _ => rfl), proj_transferAllE]
        cases transferAll L E s.t (usedPos L s.t) s1.t <;> rfl
      · rfl
    · rfl

theorem proj_findOrInsertE (a : Bool × Bool) (k : K) (s : LT K V) :
    proj (findOrInsertE L E S a k s) = findOrInsert L E (both L a) k s.t := by
  unfold findOrInsertE findOrInsert
  cases find L E s.t k with
  | ub => rfl
  | diverge => rfl
  | ok o =>
    cases o with
    | some gp => rfl
    | none =>
      simp only
      rw [proj_bind (g := fun t1 _ => (findEmpty L E true k t1).bind fun t2 gp => .ok t2 (gp, true))]
      · split
        · rw [proj_rehashImplE]; rfl
        · rfl
      · intro s1 _
        rw [proj_bind (g := fun t2 gp => .ok t2 (gp, true)) (fun _ _ => rfl), proj_onT]

theorem proj_emplaceE (update : Bool) (a : Bool × Bool) (ctor : Bool) (k : K) (v : V) (s : LT K V) :
    proj (emplaceE L E S update a ctor k v s) = emplace L E update (both L a) ctor k v s.t := by
  unfold emplaceE emplace
  rw [← proj_findOrInsertE (S := S) a k s]
  apply proj_bind
  intro s1 r
  simp only
  split
  · rw [proj_bind (g := fun t2 _ => .ok t2 (r.1.1 * L.S + r.1.2, true)) (fun _ _ => rfl), proj_onT]
  · split
    · cases s1.t.slot (r.1.1 * L.S + r.1.2) <;> rfl
    · rfl

theorem proj_eraseKeyE (k : K) (s : LT K V) : proj (eraseKeyE L E k s) = eraseKey L E k s.t := by
  unfold eraseKeyE eraseKey
  cases find L E s.t k with
  | ub => rfl
  | diverge => rfl
  | ok o =>
    cases o with
    | none => rfl
    | some gp =>
      simp only
      rw [proj_bind (g := fun t2 _ => .ok t2 1) (fun _ _ => rfl), proj_onT]

theorem proj_destroyE {s : LT K V} (hI : Inv H E s.t) : Out.ok (destroyE L S s).t () = destroy L s.t := by
  rw [hI.destroy_eq]; rfl

theorem proj_clearE {s : LT K V} (hI : Inv H E s.t) (d : Bool) : proj (clearE L S d s) = clear L d s.t := by
  unfold clearE clear
  cases d with
  | true => exact proj_destroyE hI
  | false =>
    simp only [Bool.false_eq_true, if_false]
    unfold clearDataE clearData
    rw [if_pos hI.destroyable]
    split
    · rfl
    · split <;> rfl

theorem proj_rehashE {s : LT K V} (hI : Inv H E s.t) (a : Bool × Bool) (n : Nat) :
    proj (rehashE L E S a n s) = rehash L E (both L a) n s.t := by
  unfold rehashE rehash
  simp only
  split
  · exact proj_rehashImplE ..
  · exact proj_destroyE hI

theorem proj_reserveE {s : LT K V} (hI : Inv H E s.t) (a : Bool × Bool) (n : Nat) :
    proj (reserveE L E S a n s) = reserve L E (both L a) n s.t := by
  unfold reserveE reserve
  split
  · exact proj_rehashImplE ..
  · exact proj_destroyE hI

theorem proj_shrinkE {s : LT K V} (hI : Inv H E s.t) (a : Bool × Bool) (ro : Bool) :
    proj (shrinkE L E S a ro s) = shrinkToFit L E (both L a) ro s.t := by
  unfold shrinkE shrinkToFit
  simp only
  generalize (if ro = true then s.t.size else fitCapacity s.t.mlf s.t.size) = c
  split
  · exact proj_rehashImplE ..
  · exact proj_destroyE hI

theorem proj_setMlfE {s : LT K V} (hI : Inv H E s.t) (a : Bool × Bool) {m : Nat} (h1 : 128 ≤ m) (h2 : m ≤ 224) :
    proj (setMlfE L E S a m s) = setMlf L E (both L a) m s.t := by
  unfold setMlfE setMlf
  simp only
  cases calcCapacity s.t.size (fitCapacity m (Table.ctrlCap L { s.t with mlf := m })) with
  | ub => rfl
  | diverge => rfl
  | ok cap =>
    simp only
    split
    · exact proj_rehashE (s := { s with t := { s.t with mlf := m } }) (hI.set_mlf h1 h2) ..
    · rfl

/-- The log is an addition: the table goes through the same states, with the same answers. -/
theorem proj_execE {walk : Table K V → Res (List (K × V))} {s : LT K V} (hI : Inv H E s.t) (a : Bool × Bool) {c : Call K V}
    (hv : Valid c) : proj (execE L E S walk a c s) = exec L E walk (both L a) c s.t := by
  cases c with
  | insert k v =>
    simp only [execE, exec]
    rw [proj_bind (g := readElem) (fun s r => proj_onT _ s), proj_emplaceE]
  | assign k v =>
    simp only [execE, exec]
    rw [proj_bind (g := readElem) (fun s r => proj_onT _ s), proj_emplaceE]
  | index k v =>
    simp only [execE, exec]
    rw [proj_bind (g := readValue) (fun s r => proj_onT _ s), proj_emplaceE]
  | erase k =>
    simp only [execE, exec]
    rw [proj_bind (g := fun t' n => .ok t' (.num n)) (fun _ _ => rfl), proj_eraseKeyE]
  | clear d =>
    simp only [execE, exec]
    rw [proj_bind (g := fun t' _ => .ok t' .unit) (fun _ _ => rfl), proj_clearE hI]
  | reserve n =>
    simp only [execE, exec]
    split
    · rfl
    · rw [proj_bind (g := fun t' _ => .ok t' .unit) (fun _ _ => rfl), proj_reserveE hI]
  | rehash n =>
    simp only [execE, exec]
    split
    · rfl
    · rw [proj_bind (g := fun t' _ => .ok t' .unit) (fun _ _ => rfl), proj_rehashE hI]
  | shrink ro =>
    simp only [execE, exec]
    rw [proj_bind (g := fun t' _ => .ok t' .unit) (fun _ _ => rfl), proj_shrinkE hI]
  | maxLoad m =>
    simp only [execE, exec]
    rw [proj_bind (g := fun t' _ => .ok t' .unit) (fun _ _ => rfl), proj_setMlfE hI a hv.1 hv.2]
  | find k => exact proj_onT _ s
  | contains k => exact proj_onT _ s
  | count k => exact proj_onT _ s
  | «at» k => exact proj_onT _ s
  | size => rfl
  | empty => rfl
  | iterate => exact proj_onT _ s

theorem proj_constructE (a : Bool × Bool) (n : Nat) : proj (constructE L S a n : Out (LT K V) Unit) = construct L (both L a) n := by
  unfold constructE construct
  simp only
  split
  · cases calcCapacity 0 (fitCapacity 224 n) with
    | ub => rfl
    | diverge => rfl
    | ok cap =>
      simp only
      split
      · rfl
      · exact proj_createE ..
  · rfl

/-! ### The log stays in order -/

theorem run_append (a b : List Ev) (h : Heap) : Heap.run (a ++ b) h = (Heap.run a h).bind (Heap.run b) := by
  induction a generalizing h with
  | nil => rfl
  | cons e a ih =>
    simp only [List.cons_append, Heap.run]
    cases h.step e with
    | none => rfl
    | some h' => exact ih h'

/-- The two layouts of the library. -/
def Std (L : Layout) : Prop := L = layout15 ∨ L = layout16

/-- The blocks a table holds, as the destructor would give them back. -/
def owned (L : Layout) (S : Nat) (t : Table K V) (b : Nat) : List (Nat × Nat) :=
  if L.oneBlock then [(b, Alloc.destroyCount S t)]
  else [(b, (Alloc.destroyCount16 t).2), (b + 1, (Alloc.destroyCount16 t).1)]

/-- The log is in order, and after it the heap holds the blocks of the table and nothing else, and in the block of the slots
the elements of the table and nothing else are alive. -/
structure Led (L : Layout) (S : Nat) (s : LT K V) (h : Heap) : Prop where
  run : Heap.run s.log Heap.empty = some h
  blocks : h.blocks = if s.t.alloc then owned L S s.t s.blk else []
  live : ∀ b i, (b, i) ∈ h.live ↔ s.t.alloc = true ∧ b = s.blk ∧ (s.t.slot i).isSome = true
  nodup : h.live.Nodup
  fresh : s.t.alloc = true → s.blk + 2 ≤ s.next

theorem std_cap (hL : Std L) {t : Table K V} (hs : 1 ≤ S) (hS : S ≤ 256) (hg : t.gmask + 1 ≤ 2 ^ 51) :
    t.slotCap L ≤ (if L.oneBlock then Alloc.destroyCount S t else (Alloc.destroyCount16 t).2) := by
  rcases hL with rfl | rfl
  · show t.slotCap layout15 ≤ Alloc.totalSlotAllocCount S (t.gmask + 1) (t.slotCap layout15)
    have hsc : t.slotCap layout15 = (t.gmask + 1) * 15 - 1 := rfl
    generalize t.slotCap layout15 = C at *
    have h1 : C * S ≤ C * 256 := Nat.mul_le_mul_left _ hS
    have hW : W = 2 ^ 64 := rfl
    unfold Alloc.totalSlotAllocCount
    simp only
    rw [Nat.mod_eq_of_lt (a := (t.gmask + 1) * 16) (by omega), Nat.mod_eq_of_lt (a := C * S) (by omega),
      Nat.mod_eq_of_lt (a := C * S + 16 + (t.gmask + 1) * 16) (by omega), Nat.mod_eq_of_lt (by omega)]
    rw [Nat.le_div_iff_mul_le (by omega)]
    omega
  · exact Nat.le_refl _

theorem InvA.gmask_le {t : Table K V} (hI : InvA H E t) : t.gmask + 1 ≤ 2 ^ 51 := by
  obtain ⟨j, _, h2, h3, _⟩ := hI.geom
  rw [h3, pow_sub_add]
  exact Nat.pow_le_pow_right (by omega) h2

/-- Indices of the used positions are the indices of the elements. -/
theorem usedIdx {t : Table K V} (hI : InvA H E t) :
    (usedPos L t).map (fun gp => gp.1 * L.S + gp.2)
      = (List.range ((t.gmask + 1) * L.S)).filter fun i => (t.slot i).isSome := by
  unfold usedPos
  rw [range_mul_flatMap, List.map_flatMap, List.filter_flatMap]
  apply List.flatMap_congr
  intro g hg
  have hg := List.mem_range.mp hg
  rw [hI.usedPos_group (by omega), List.map_map, List.filter_map]
  rfl

theorem mem_usedIdx {t : Table K V} (hI : InvA H E t) (i : Nat) :
    i ∈ (usedPos L t).map (fun gp => gp.1 * L.S + gp.2) ↔ (t.slot i).isSome = true := by
  rw [usedIdx hI, List.mem_filter, List.mem_range]
  constructor
  · exact fun h => h.2
  · intro h
    refine ⟨?_, h⟩
    obtain ⟨e, he⟩ := Option.isSome_iff_exists.mp h
    exact hI.idx_lt he

theorem nodup_usedIdx {t : Table K V} (hI : InvA H E t) : ((usedPos L t).map (fun gp => gp.1 * L.S + gp.2)).Nodup := by
  rw [usedIdx hI]
  exact List.Nodup.filter _ List.nodup_range

/-- Destroying a list of objects that are alive. -/
theorem run_dtors (b : Nat) : ∀ (is : List Nat) (h : Heap), h.live.Nodup → is.Nodup → (∀ i ∈ is, (b, i) ∈ h.live) →
    ∃ h', Heap.run (is.map (Ev.dtor b)) h = some h' ∧ h'.blocks = h.blocks ∧ h'.live.Nodup ∧
      ∀ c j, (c, j) ∈ h'.live ↔ (c, j) ∈ h.live ∧ ¬ (c = b ∧ j ∈ is) := by
  intro is
  induction is with
  | nil => intro h hn _ _; exact ⟨h, rfl, rfl, hn, by simp⟩
  | cons i is ih =>
    intro h hn hi hm
    rw [List.nodup_cons] at hi
    have hc : h.live.contains (b, i) = true := by rw [List.contains_iff_mem]; exact hm i (by simp)
    obtain ⟨h', h1, h2, h3, h4⟩ := ih { h with live := h.live.erase (b, i) } (hn.erase _) hi.2 (by
      intro j hj
      rw [List.Nodup.mem_erase_iff hn]
      refine ⟨?_, hm j (by simp [hj])⟩
      intro hq
      rw [Prod.mk.injEq] at hq
      rw [hq.2] at hj
      exact hi.1 hj)
    refine ⟨h', ?_, h2, h3, ?_⟩
    · simp only [List.map_cons, Heap.run, Heap.step, hc, if_true, Option.bind_some]
      exact h1
    · intro c j
      rw [h4]
      simp only
      rw [List.Nodup.mem_erase_iff hn]
      simp only [ne_eq, Prod.mk.injEq, List.mem_cons]
      tauto

/-- Constructing one object. -/
theorem step_ctor {h : Heap} {b i n : Nat} (hb : (b, n) ∈ h.blocks) (hi : i < n) (hl : (b, i) ∉ h.live) :
    h.step (.ctor b i) = some { h with live := (b, i) :: h.live } := by
  have h1 : h.blocks.any (fun x => x.1 == b && decide (i < x.2)) = true := by
    rw [List.any_eq_true]
    exact ⟨(b, n), hb, by simp [hi]⟩
  have h2 : h.live.contains (b, i) = false := by
    cases hq : h.live.contains (b, i) with
    | false => rfl
    | true => exact absurd (List.contains_iff_mem.mp hq) hl
  simp only [Heap.step, h1, h2, Bool.not_false, Bool.and_self, if_true]

theorem placed_none {t t' : Table K V} (hI : InvA H E t) {check : Bool} {x y g p : Nat} (hP : Placed H check t t' x y g p) :
    t.slot (g * L.S + p) = none := by
  have hlt : g * L.S + p < (t.gmask + 1) * L.S := gp_lt hP.p_lt (by have := hP.g_le; omega)
  have hcell : cell H t (g * L.S + p) = .empty := by rw [cell_gp H t hP.p_lt]; exact hP.was
  cases hsl : t.slot (g * L.S + p) with
  | none => rfl
  | some e => have := hI.used _ e hlt hsl; rw [hcell] at this; cases this

/-- Moving elements from the old to the new storage. -/
theorem transferE_ok (hE : E.Lawful) (old : Table K V) (bo n : Nat) : ∀ (ps : List (Nat × Nat)) (es : List (K × V))
    (s : LT K V) (h : Heap), ps.map (fun gp => old.slot (gp.1 * L.S + gp.2)) = es.map some →
    InvA H E s.t → Fresh H s.t → es.Pairwise (fun a b => E.eq a.1 b.1 = false) →
    (∀ e ∈ es, ∀ a ∈ entries L s.t, E.eq e.1 a.1 = false) → s.t.size + es.length ≤ s.t.slotCap L →
    Heap.run s.log Heap.empty = some h → (s.blk, n) ∈ h.blocks → s.t.slotCap L ≤ n → bo ≠ s.blk →
    (∀ b i, (b, i) ∈ h.live ↔ (b = s.blk ∧ (s.t.slot i).isSome = true) ∨
      (b = bo ∧ i ∈ ps.map (fun gp => gp.1 * L.S + gp.2))) → h.live.Nodup →
    (ps.map (fun gp => gp.1 * L.S + gp.2)).Nodup →
    ∃ s' h', transferAllE L E old bo ps s = .ok s' () ∧ s'.blk = s.blk ∧ s'.next = s.next ∧ s'.t.gmask = s.t.gmask ∧
      s'.t.alloc = true ∧ Heap.run s'.log Heap.empty = some h' ∧ h'.blocks = h.blocks ∧ h'.live.Nodup ∧
      ∀ b i, (b, i) ∈ h'.live ↔ b = s.blk ∧ (s'.t.slot i).isSome = true := by
  intro ps
  induction ps with
  | nil =>
    intro es s h hm hI _ _ _ _ hr hb hn hbo hl hnd _
    refine ⟨s, h, rfl, rfl, rfl, rfl, hI.alloc, hr, rfl, hnd, ?_⟩
    intro b i
    rw [hl]; simp
  | cons gp ps ih =>
    intro es s h hm hI hF hpw hd hsz hr hb hn hbo hl hnd hps
    cases es with
    | nil => simp at hm
    | cons e es =>
      rw [List.map_cons, List.map_cons, List.cons.injEq] at hm
      rw [List.pairwise_cons] at hpw
      rw [List.length_cons] at hsz
      rw [List.map_cons, List.nodup_cons] at hps
      obtain ⟨t1, g, p, h1, hP⟩ := hI.findEmpty_ok false e.1 (by omega)
      obtain ⟨t2, h2, h3, hnone, hI2, hp2⟩ := hI.insert hE hP
        (fun i a ha => hd e (by simp) a (hI.mem_iff.mpr ⟨i, ha⟩)) e.2
      have hF2 : Fresh H t2 := by
        have := hF.placed hP
        rw [h3]; exact this
      have hgm : t2.gmask = s.t.gmask := by rw [h3]; exact hP.gmask
      have hslot : t2.slot = upd s.t.slot (g * L.S + p) (some e) := by rw [h3]
      have hsize : t2.size = s.t.size + 1 := by rw [h3]
      have hcap : t2.slotCap L = s.t.slotCap L := by unfold Table.slotCap; rw [hgm]
      have hi : g * L.S + p < s.t.slotCap L := by
        have hq : t1.slotCap L = s.t.slotCap L := by unfold Table.slotCap; rw [hP.gmask]
        unfold constructAt at h2
        split at h2
        · rename_i hc
          rw [Bool.and_eq_true, decide_eq_true_eq, hq] at hc
          exact hc.2
        · cases h2
      have hins : uniqueInsertE L E e s = .ok { s with t := t2, log := s.log ++ [.ctor s.blk (g * L.S + p)] } () := by
        unfold uniqueInsertE onT
        rw [h1]
        simp only [Out.bind_ok, h2, emit]
      have hfree : (s.blk, g * L.S + p) ∉ h.live := by
        rw [hl]
        rintro (⟨_, hq⟩ | ⟨hq, _⟩)
        · rw [hnone] at hq; cases hq
        · exact hbo hq.symm
      have hold : (bo, gp.1 * L.S + gp.2) ∈ (s.blk, g * L.S + p) :: h.live := by
        refine List.mem_cons_of_mem _ ?_
        rw [hl]; right; exact ⟨rfl, by simp⟩
      have hnd2 : ((s.blk, g * L.S + p) :: h.live).Nodup := List.nodup_cons.mpr ⟨hfree, hnd⟩
      have hrun : Heap.run (s.log ++ [.ctor s.blk (g * L.S + p)] ++ [.dtor bo (gp.1 * L.S + gp.2)]) Heap.empty
          = some { h with live := ((s.blk, g * L.S + p) :: h.live).erase (bo, gp.1 * L.S + gp.2) } := by
        rw [run_append, run_append, hr]
        simp only [Option.bind_some, Heap.run, step_ctor hb (Nat.lt_of_lt_of_le hi hn) hfree]
        have : ((s.blk, g * L.S + p) :: h.live).contains (bo, gp.1 * L.S + gp.2) = true := by
          rw [List.contains_iff_mem]; exact hold
        simp only [Heap.step, this, if_true]
        rfl
      obtain ⟨s', h', r1, r2, r3, r4, r5, r6, r7, r8, r9⟩ := ih es
        { s with t := t2, log := s.log ++ [.ctor s.blk (g * L.S + p)] ++ [.dtor bo (gp.1 * L.S + gp.2)] } _
        hm.2 hI2 hF2 hpw.2
        (by
          intro a ha b hb
          rcases List.mem_cons.mp (hp2.mem_iff.mp hb) with rfl | hb
          · have := hpw.1 a ha
            cases hq : E.eq a.1 e.1 with
            | false => rfl
            | true => rw [hE.symm _ _ hq] at this; cases this
          · exact hd a (by simp [ha]) b hb)
        (by simp only; rw [hcap, hsize]; omega) hrun hb (by simp only; rw [hcap]; exact hn) hbo
        (by
          intro b i
          simp only
          rw [List.Nodup.mem_erase_iff hnd2, List.mem_cons, hl, hslot]
          simp only [List.map_cons, List.mem_cons, ne_eq, Prod.mk.injEq]
          by_cases hig : i = g * L.S + p
          · subst hig
            rw [upd_self, hnone]
            simp only [Option.isSome_none, Option.isSome_some]
            by_cases hbb : b = s.blk
            · subst hbb
              have : ¬ s.blk = bo := fun h => hbo h.symm
              simp [this]
            · by_cases hbo' : b = bo
              · subst hbo'
                by_cases hpp : g * L.S + p = gp.1 * L.S + gp.2
                · rw [hpp]
                  simp [hbb, hps.1]
                · simp [hbb, hpp]
              · simp [hbb, hbo']
          · rw [upd_other _ _ hig]
            by_cases hbb : b = s.blk
            · subst hbb
              have : ¬ s.blk = bo := fun h => hbo h.symm
              simp [this, hig]
            · by_cases hbo' : b = bo
              · subst hbo'
                by_cases hpp : i = gp.1 * L.S + gp.2
                · rw [hpp]
                  simp [hbb, hps.1]
                · simp [hbb, hpp]
              · simp [hbb, hbo'])
        (hnd2.erase _) hps.2
      refine ⟨s', h', ?_, r2, r3, r4.trans hgm, r5, r6, r7, r8, r9⟩
      obtain ⟨g0, p0⟩ := gp
      unfold transferAllE
      rw [hm.1]
      simp only [hins, Out.bind_ok]
      exact r1

/-- Giving a block back. -/
theorem step_free {h : Heap} {b n : Nat} (hb : (b, n) ∈ h.blocks) (hl : ∀ o ∈ h.live, o.1 ≠ b) :
    h.step (.free b n) = some { h with blocks := h.blocks.erase (b, n) } := by
  have h1 : h.blocks.contains (b, n) = true := List.contains_iff_mem.mpr hb
  have h2 : h.live.all (fun o => o.1 != b) = true := by
    rw [List.all_eq_true]
    intro o ho
    simp [hl o ho]
  simp only [Heap.step, h1, h2, Bool.and_self, if_true]

/-- Obtaining a block. -/
theorem step_alloc {h : Heap} {b n : Nat} (hb : ∀ x ∈ h.blocks, x.1 ≠ b) :
    h.step (.alloc b n) = some { h with blocks := (b, n) :: h.blocks } := by
  have h1 : (h.blocks.map (·.1)).contains b = false := by
    cases hq : (h.blocks.map (·.1)).contains b with
    | false => rfl
    | true =>
      obtain ⟨x, hx, h2⟩ := List.mem_map.mp (List.contains_iff_mem.mp hq)
      exact absurd h2 (hb x hx)
  simp only [Heap.step, h1, Bool.false_eq_true, if_false]

/-- The counts asked for are the counts given back. -/
theorem owned_fresh (hL : Std L) {k mlf : Nat} (h5 : 5 ≤ k) (h55 : k ≤ 55) (b : Nat) :
    owned L S (freshTable L k mlf : Table K V) b
      = if L.oneBlock then [(b, askSlots L S (2 ^ k))] else [(b, askSlots L S (2 ^ k)), (b + 1, askGroups (2 ^ k))] := by
  have hc := createSlots_ok (L := L) (K := K) (V := V) h5 (emptyTable L mlf) true
  rw [if_pos ⟨rfl, h55⟩] at hc
  rcases hL with rfl | rfl
  · have := (Alloc.C28_dealloc_count hc (Nat.two_pow_pos _) S).1
    show [(b, Alloc.destroyCount S (freshTable layout15 k mlf : Table K V))] = [(b, Alloc.createCount S (2 ^ k))]
    rw [← this]; rfl
  · have := Alloc.C28_dealloc_count16 hc (by omega)
    show [(b, (Alloc.destroyCount16 (freshTable layout16 k mlf : Table K V)).2),
      (b + 1, (Alloc.destroyCount16 (freshTable layout16 k mlf : Table K V)).1)]
      = [(b, (Alloc.createCount16 (2 ^ k)).2), (b + 1, (Alloc.createCount16 (2 ^ k)).1)]
    rw [← this]; rfl

/-- The blocks of a new storage are obtained. -/
theorem run_newBlocks (hL : Std L) {h : Heap} {b k mlf : Nat} (h5 : 5 ≤ k) (h55 : k ≤ 55) (hb : ∀ x ∈ h.blocks, x.1 < b) :
    Heap.run (newBlocks L S b (2 ^ k)) h
      = some { h with blocks := owned L S (freshTable L k mlf : Table K V) b ++ h.blocks } := by
  rw [owned_fresh hL h5 h55]
  unfold newBlocks
  split
  · simp only [Heap.run]
    rw [step_alloc (fun x hx => by have := hb x hx; omega)]
    rfl
  · simp only [Heap.run]
    rw [step_alloc (fun x hx => by have := hb x hx; omega)]
    simp only [Option.bind_some]
    rw [step_alloc]
    · rfl
    · intro x hx
      rcases List.mem_cons.mp hx with rfl | hx
      · simp
      · have := hb x hx; omega

/-- The blocks of a storage are given back when no object is alive in them. -/
theorem run_freeOld (hL : Std L) {h : Heap} {t : Table K V} {b : Nat} {bs : List (Nat × Nat)}
    (hb : h.blocks = bs ++ owned L S t b) (hbs : ∀ x ∈ bs, b + 2 ≤ x.1) (hl : ∀ o ∈ h.live, o.1 ≠ b ∧ o.1 ≠ b + 1) :
    Heap.run (freeOld L S t b) h = some { h with blocks := bs } := by
  have hnot : ∀ n c, c < b + 2 → (c, n) ∉ bs := fun n c hc hm => by have := hbs _ hm; simp only at this; omega
  rcases hL with rfl | rfl
  · have hb' : h.blocks = bs ++ [(b, Alloc.destroyCount S t)] := hb
    show Heap.run [.free b (Alloc.destroyCount S t)] h = _
    simp only [Heap.run]
    rw [step_free (by rw [hb']; simp) (fun o ho => (hl o ho).1), hb', List.erase_append_right _ (hnot _ _ (by omega))]
    simp
  · have hb' : h.blocks = bs ++ [(b, t.slotCap layout16), (b + 1, Alloc.totalGroupAllocCount (t.gmask + 1))] := hb
    show Heap.run [.free (b + 1) (Alloc.totalGroupAllocCount (t.gmask + 1)), .free b (t.slotCap layout16)] h = _
    simp only [Heap.run]
    rw [step_free (by rw [hb']; simp) (fun o ho => (hl o ho).2)]
    simp only [Option.bind_some]
    have he : h.blocks.erase (b + 1, Alloc.totalGroupAllocCount (t.gmask + 1)) = bs ++ [(b, t.slotCap layout16)] := by
      rw [hb', List.erase_append_right _ (hnot _ _ (by omega))]
      simp
    rw [he, step_free (h := { h with blocks := bs ++ [(b, t.slotCap layout16)] }) (by simp) (fun o ho => (hl o ho).1)]
    simp only [Option.bind_some]
    rw [List.erase_append_right _ (hnot _ _ (by omega))]
    simp

theorem run_freeAll (hL : Std L) {h : Heap} {t : Table K V} {b : Nat} (ha : t.alloc = true)
    (hb : h.blocks = owned L S t b) (hl : ∀ o ∈ h.live, o.1 ≠ b ∧ o.1 ≠ b + 1) :
    Heap.run (freeAll L S t b) h = some { h with blocks := [] } := by
  unfold freeAll
  rw [if_pos ha]
  rcases hL with rfl | rfl
  · have hb' : h.blocks = [(b, Alloc.destroyCount S t)] := hb
    show Heap.run [.free b (Alloc.destroyCount S t)] h = _
    simp only [Heap.run]
    rw [step_free (by rw [hb']; simp) (fun o ho => (hl o ho).1), hb']
    simp
  · have hb' : h.blocks = [(b, (Alloc.destroyCount16 t).2), (b + 1, (Alloc.destroyCount16 t).1)] := hb
    show Heap.run [.free b (Alloc.destroyCount16 t).2, .free (b + 1) (Alloc.destroyCount16 t).1] h = _
    simp only [Heap.run]
    rw [step_free (by rw [hb']; simp) (fun o ho => (hl o ho).1)]
    simp only [Option.bind_some]
    have he : h.blocks.erase (b, (Alloc.destroyCount16 t).2) = [(b + 1, (Alloc.destroyCount16 t).1)] := by
      rw [hb']; simp
    rw [he, step_free (h := { h with blocks := [(b + 1, (Alloc.destroyCount16 t).1)] }) (by simp) (fun o ho => (hl o ho).2)]
    simp

/-- What `P` says of the object that is left behind, if one is. -/
def Post {α : Type} (P : LT K V → Prop) : Out (LT K V) α → Prop
  | .ok s _ => P s
  | .throw s => P s
  | .diverge => True
  | .ub => True

theorem Post.bind {α β : Type} {P : LT K V → Prop} {r : Out (LT K V) α} {f : LT K V → α → Out (LT K V) β} (h : Post P r)
    (hf : ∀ s a, P s → Post P (f s a)) : Post P (r.bind f) := by
  cases r with
  | ok s a => exact hf s a h
  | throw s => exact h
  | diverge => trivial
  | ub => trivial

/-- The allocator does not fail between the two requests of group16 (T16:1949, 1952). -/
def Steady (L : Layout) (a : Bool × Bool) : Prop := L.oneBlock = false → a.1 = true → a.2 = true

theorem createE_cases {a : Bool × Bool} (ha : Steady L a) {k : Nat} (h5 : 5 ≤ k) (s : LT K V) :
    (k ≤ 55 ∧ both L a = true ∧ createE L S a (2 ^ k) s
      = .ok { t := freshTable L k s.t.mlf, blk := s.next, next := s.next + 2, log := s.log ++ newBlocks L S s.next (2 ^ k) } ()) ∨
    createE L S a (2 ^ k) s = .throw s := by
  have hle : (2 ^ k ≤ capLimit) ↔ k ≤ 55 := Nat.pow_le_pow_iff_right (by decide)
  unfold createE both
  cases hb : L.oneBlock with
  | true =>
    simp only [if_true]
    rw [createSlots_ok h5]
    by_cases hm : a.1 = true ∧ k ≤ 55
    · rw [if_pos hm]
      left
      exact ⟨hm.2, hm.1, rfl⟩
    · rw [if_neg hm]
      right; rfl
  | false =>
    simp only [Bool.false_eq_true, if_false]
    by_cases hm : a.1 = true ∧ k ≤ 55
    · have h2 := ha hb hm.1
      left
      refine ⟨hm.2, by simp [hm.1, h2], ?_⟩
      rw [if_pos (by rw [Bool.and_eq_true, decide_eq_true_eq, hle]; exact hm), createSlots_ok h5, if_pos ⟨h2, hm.2⟩]
    · right
      rw [if_neg]
      rw [Bool.and_eq_true, decide_eq_true_eq, hle]; exact hm

/-- The state the theorems are about: a table in a reachable condition whose log is in order. -/
def Good (H : Laws L) (E : Env K) (S : Nat) (s : LT K V) : Prop := Inv H E s.t ∧ ∃ h, Led L S s h

theorem Led.blk_lt {s : LT K V} {h : Heap} (hl : Led L S s h) : ∀ x ∈ h.blocks, x.1 < s.next := by
  intro x hx
  rw [hl.blocks] at hx
  split at hx
  · rename_i ha
    have := hl.fresh ha
    unfold owned at hx
    split at hx
    · simp only [List.mem_singleton] at hx; rw [hx]; show s.blk < _; omega
    · simp only [List.mem_cons, List.not_mem_nil, or_false] at hx
      rcases hx with hx | hx
      · rw [hx]; show s.blk < _; omega
      · rw [hx]; show s.blk + 1 < _; omega
  · simp at hx

theorem owned_mem (t : Table K V) (b : Nat) :
    (b, if L.oneBlock then Alloc.destroyCount S t else (Alloc.destroyCount16 t).2) ∈ owned L S t b := by
  unfold owned
  split <;> simp

theorem owned_ge (t : Table K V) (b : Nat) : ∀ x ∈ owned L S t b, b ≤ x.1 := by
  intro x hx
  unfold owned at hx
  split at hx
  · simp only [List.mem_singleton] at hx; rw [hx]
  · simp only [List.mem_cons, List.not_mem_nil, or_false] at hx
    rcases hx with hx | hx
    · rw [hx]
    · rw [hx]; exact Nat.le_succ b

theorem owned_congr {t t' : Table K V} (h : t'.gmask = t.gmask) (b : Nat) : owned L S t' b = owned L S t b := by
  unfold owned Alloc.destroyCount Alloc.destroyCount16 Table.slotCap
  rw [h]

theorem rehashImplE_led (hE : E.Lawful) (hL : Std L) (hs : 1 ≤ S) (hS : S ≤ 256) {a : Bool × Bool} (ha : Steady L a) {s : LT K V}
    (hI : Inv H E s.t) {h : Heap} (hl : Led L S s h) (shrink : Bool) (n : Nat) :
    Post (fun s' => ∃ h', Led L S s' h') (rehashImplE L E S shrink a n s) := by
  unfold rehashImplE
  cases hc : calcCapacity s.t.size n with
  | ub => trivial
  | diverge => trivial
  | ok cap =>
    obtain ⟨k, rfl, hk5, _, _, _⟩ := calcCapacity_ok hc
    simp only
    split
    · rcases createE_cases ha hk5 s with ⟨h55, _, h1⟩ | h1
      · rw [h1]
        simp only [Out.bind_ok]
        have hrun1 : Heap.run (s.log ++ newBlocks L S s.next (2 ^ k)) Heap.empty
            = some { h with blocks := owned L S (freshTable L k s.t.mlf : Table K V) s.next ++ h.blocks } := by
          rw [run_append, hl.run]
          exact run_newBlocks hL hk5 h55 hl.blk_lt
        obtain ⟨hI1, hF1⟩ := freshTable_inv (H := H) (E := E) (V := V) (mlf := s.t.mlf) hk5 h55
        rcases hI.st with hst | hst
        · have hal : s.t.alloc = false := by rw [hst]; rfl
          rw [if_neg (by simp [hal])]
          refine ⟨_, hrun1, ?_, ?_, hl.nodup, fun _ => Nat.le_refl _⟩
          · have := hl.blocks
            rw [hal] at this
            simp only [this, Bool.false_eq_true, if_false, List.append_nil]
            rfl
          · intro b i
            simp only
            rw [hl.live, hal]
            simp [freshTable]
        · have hal := hst.alloc
          rw [if_pos hal]
          have hsc : (freshTable L k s.t.mlf : Table K V).slotCap L = L.slotCap (2 ^ (k - 4)) := by
            unfold Table.slotCap freshTable; simp only [pow_sub_add]
          have hblk := hl.fresh hal
          by_cases hfit : s.t.size ≤ L.slotCap (2 ^ (k - 4))
          · obtain ⟨s', h', r1, r2, r3, r4, r5, r6, r7, r8, r9⟩ := transferE_ok (H := H) hE s.t s.blk _ (usedPos L s.t) (entries L s.t)
              { t := freshTable L k s.t.mlf, blk := s.next, next := s.next + 2, log := s.log ++ newBlocks L S s.next (2 ^ k) } _
              hst.usedPos_map hI1 hF1 hst.pairwise
              (by intro e _ x hx; rw [freshTable_entries] at hx; simp at hx)
              (by simp only; rw [hsc, ← hst.size]; show 0 + s.t.size ≤ _; omega)
              hrun1 (List.mem_append_left _ (owned_mem _ _))
              (std_cap hL hs hS (InvA.gmask_le hI1)) (by simp only; omega)
              (by
                intro b i
                simp only
                rw [hl.live, mem_usedIdx hst]
                simp [freshTable, hal])
              hl.nodup (nodup_usedIdx hst)
            rw [r1]
            simp only [Out.bind_ok]
            refine ⟨{ h' with blocks := owned L S (freshTable L k s.t.mlf : Table K V) s.next }, ?_, ?_, ?_, ?_, ?_⟩
            · show Heap.run (s'.log ++ freeOld L S s.t s.blk) Heap.empty = _
              rw [run_append, r6]
              apply run_freeOld hL (bs := owned L S (freshTable L k s.t.mlf : Table K V) s.next)
              · rw [r7]
                simp only
                rw [hl.blocks, if_pos hal]
              · intro x hx
                have := owned_ge _ _ x hx
                omega
              · intro o ho
                have := ((r9 o.1 o.2).mp ho).1
                simp only at this
                omega
            · show _ = if s'.t.alloc then owned L S s'.t s'.blk else []
              rw [r5, r2, owned_congr r4]
              simp
            · intro b i
              show (b, i) ∈ h'.live ↔ s'.t.alloc = true ∧ b = s'.blk ∧ (s'.t.slot i).isSome = true
              rw [r9, r5, r2]
              simp
            · exact r8
            · intro _
              show s'.blk + 2 ≤ s'.next
              rw [r2, r3]
          · have hd := transferAll_diverge hE s.t (usedPos L s.t) (entries L s.t) _
              hst.usedPos_map hI1 hF1 hst.pairwise
              (by intro e _ x hx; rw [freshTable_entries] at hx; simp at hx)
              (by rw [hsc, ← hst.size]; show _ < 0 + s.t.size; omega)
            have hp := proj_transferAllE (L := L) (E := E) s.t s.blk (usedPos L s.t)
              { t := freshTable L k s.t.mlf, blk := s.next, next := s.next + 2, log := s.log ++ newBlocks L S s.next (2 ^ k) }
            simp only at hp
            rw [hd] at hp
            revert hp
            cases transferAllE L E s.t s.blk (usedPos L s.t)
              { t := freshTable L k s.t.mlf, blk := s.next, next := s.next + 2, log := s.log ++ newBlocks L S s.next (2 ^ k) } with
            | diverge => intro _; trivial
            | _ => intro hp; cases hp
      · rw [h1]
        exact ⟨h, hl⟩
    · exact ⟨h, hl⟩

theorem Led.congr {s : LT K V} {h : Heap} (hl : Led L S s h) {t' : Table K V} (ha : t'.alloc = s.t.alloc) (hg : t'.gmask = s.t.gmask)
    (hs : ∀ i, (t'.slot i).isSome = (s.t.slot i).isSome) : Led L S { s with t := t' } h := by
  refine ⟨hl.run, ?_, ?_, hl.nodup, ?_⟩
  · rw [hl.blocks]; simp only; rw [ha, owned_congr hg]
  · intro b i; simp only; rw [hl.live, ha, hs]
  · intro h; simp only at h ⊢; rw [ha] at h; exact hl.fresh h

theorem Post.of_proj {α : Type} {P : Table K V → Prop} {r : Out (LT K V) α} (h : ∀ s a, r = .ok s a → P s.t)
    (h' : ∀ s, r = .throw s → P s.t) : Post (fun s => P s.t) r := by
  cases r with
  | ok s a => exact h s a rfl
  | throw s => exact h' s rfl
  | diverge => trivial
  | ub => trivial

theorem Post.and {α : Type} {P Q : LT K V → Prop} {r : Out (LT K V) α} (h : Post P r) (h' : Post Q r) : Post (fun s => P s ∧ Q s) r := by
  cases r with
  | ok s a => exact ⟨h, h'⟩
  | throw s => exact ⟨h, h'⟩
  | diverge => trivial
  | ub => trivial

theorem Post.mono {α : Type} {P Q : LT K V → Prop} {r : Out (LT K V) α} (h : Post P r) (h' : ∀ s, P s → Q s) : Post Q r := by
  cases r with
  | ok s a => exact h' _ h
  | throw s => exact h' _ h
  | diverge => trivial
  | ub => trivial

theorem rehashImplE_good (hE : E.Lawful) (hL : Std L) (hs : 1 ≤ S) (hS : S ≤ 256) {a : Bool × Bool} (ha : Steady L a) {s : LT K V}
    (hG : Good H E S s) (shrink : Bool) (n : Nat) : Post (Good H E S) (rehashImplE L E S shrink a n s) := by
  obtain ⟨hI, h, hl⟩ := hG
  refine Post.and ?_ (rehashImplE_led hE hL hs hS ha hI hl shrink n)
  have hc := hI.rehashImpl_cases hE shrink (both L a) n
  rw [← proj_rehashImplE (S := S)] at hc
  generalize rehashImplE L E S shrink a n s = r at hc
  cases r with
  | ok s' u =>
    show Inv H E s'.t
    generalize hq : proj (.ok s' u : Out (LT K V) Unit) = o at hc
    simp only [proj] at hq
    cases hc with
    | same => rw [Out.ok.injEq] at hq; rw [hq.1]; exact hI
    | moved k t' _ _ _ hN => rw [Out.ok.injEq] at hq; rw [hq.1]; exact hN.inv' hI.mlf_lo hI.mlf_hi
    | _ => cases hq
  | throw s' =>
    show Inv H E s'.t
    generalize hq : proj (.throw s' : Out (LT K V) Unit) = o at hc
    simp only [proj] at hq
    cases hc with
    | throw => rw [Out.throw.injEq] at hq; rw [hq]; exact hI
    | _ => cases hq
  | diverge => trivial
  | ub => trivial

/-- Constructing a new element. -/
theorem storeE_led (hL : Std L) (hs : 1 ≤ S) (hS : S ≤ 256) {s : LT K V} (hG : Good H E S s) (ctor : Bool) {k : K} {v : V} :
    Post (fun s' => ∃ h', Led L S s' h') ((onT (findEmpty L E true k) s).bind fun s2 gp =>
      (onT (constructAt L ctor (gp.1 * L.S + gp.2) (k, v)) s2).bind fun s3 _ =>
        .ok (emit s3 [.ctor s3.blk (gp.1 * L.S + gp.2)]) (gp.1 * L.S + gp.2, true)) := by
  obtain ⟨hI, h, hl⟩ := hG
  rcases hI.st with hst | hst
  · have : findEmpty L E true k s.t = .ub := by
      rw [hst]; rfl
    unfold onT
    rw [this]
    trivial
  · by_cases hfit : s.t.size < s.t.slotCap L
    · obtain ⟨t1, g, p, h1, hP⟩ := hst.findEmpty_ok true k hfit
      have hnone := placed_none hst hP
      unfold onT
      rw [h1]
      simp only [Out.bind_ok, constructAt]
      have hq : t1.slotCap L = s.t.slotCap L := by unfold Table.slotCap; rw [hP.gmask]
      by_cases hc : (t1.alloc && decide (g * L.S + p < t1.slotCap L)) = true
      · rw [if_pos hc]
        cases ctor with
        | false => exact ⟨h, hl.congr hP.alloc hP.gmask (fun i => by rw [hP.slot])⟩
        | true =>
        rw [Bool.and_eq_true, decide_eq_true_eq, hq] at hc
        have hfree : (s.blk, g * L.S + p) ∉ h.live := by
          rw [hl.live]
          rintro ⟨_, _, hx⟩
          rw [hnone] at hx; cases hx
        refine ⟨{ h with live := (s.blk, g * L.S + p) :: h.live }, ?_, ?_, ?_, ?_, ?_⟩
        · show Heap.run (s.log ++ [.ctor s.blk (g * L.S + p)]) Heap.empty = _
          rw [run_append, hl.run]
          simp only [Option.bind_some, Heap.run]
          rw [step_ctor (n := if L.oneBlock then Alloc.destroyCount S s.t else (Alloc.destroyCount16 s.t).2)
            (by rw [hl.blocks, if_pos hst.alloc]; exact owned_mem _ _)
            (Nat.lt_of_lt_of_le hc.2 (std_cap hL hs hS (InvA.gmask_le hst))) hfree]
          rfl
        · show h.blocks = if t1.alloc then _ else _
          rw [hl.blocks, if_pos hst.alloc, if_pos hc.1]
          exact (owned_congr hP.gmask _).symm
        · intro b i
          show (b, i) ∈ (s.blk, g * L.S + p) :: h.live ↔ t1.alloc = true ∧ b = s.blk ∧ (upd t1.slot (g * L.S + p) (some (k, v)) i).isSome = true
          rw [List.mem_cons, hl.live, hP.slot, hc.1, hst.alloc, Prod.mk.injEq]
          by_cases hi : i = g * L.S + p
          · subst hi
            rw [upd_self]; simp [hnone]
          · rw [upd_other _ _ hi]; simp [hi]
        · exact List.nodup_cons.mpr ⟨hfree, hl.nodup⟩
        · intro _
          exact hl.fresh hst.alloc
      · rw [if_neg hc]
        trivial
    · unfold onT
      rw [hst.findEmpty_diverge true k (by omega)]
      trivial

theorem emplaceE_led (hE : E.Lawful) (hL : Std L) (hs : 1 ≤ S) (hS : S ≤ 256) {a : Bool × Bool} (ha : Steady L a) {s : LT K V}
    (hG : Good H E S s) (update ctor : Bool) (k : K) (v : V) :
    Post (fun s' => ∃ h', Led L S s' h') (emplaceE L E S update a ctor k v s) := by
  have hG' := hG
  obtain ⟨hI, h, hl⟩ := hG'
  unfold emplaceE findOrInsertE
  rcases hI.find_cases hE k with ⟨hf, _⟩ | ⟨i, e, hi, _, hf⟩
  · rw [hf]
    simp only
    have hgrow : Post (Good H E S) (if s.t.size ≥ s.t.thr then rehashImplE L E S false a (s.t.ctrlCap L * 2 % W) s else .ok s ()) := by
      split
      · exact rehashImplE_good hE hL hs hS ha hG _ _
      · exact hG
    revert hgrow
    generalize (if s.t.size ≥ s.t.thr then rehashImplE L E S false a (s.t.ctrlCap L * 2 % W) s else .ok s ()) = r
    intro hgrow
    cases r with
    | ub => trivial
    | diverge => trivial
    | throw s' => exact hgrow.2
    | ok s' u =>
      have := storeE_led hL hs hS hgrow ctor (k := k) (v := v)
      simp only [Out.bind_ok]
      revert this
      cases onT (findEmpty L E true k) s' with
      | ok s2 gp => simp only [Out.bind_ok, if_true]; exact id
      | throw s2 => exact id
      | diverge => exact id
      | ub => exact id
  · rw [hf]
    simp only [Out.bind_ok, Bool.false_eq_true, if_false]
    split
    · split
      · trivial
      · rename_i e' he'
        refine ⟨h, hl.congr (t' := _) rfl rfl ?_⟩
        intro j
        simp only
        by_cases hj : j = i / L.S * L.S + i % L.S
        · rw [hj, upd_self, he']; rfl
        · rw [upd_other _ _ hj]
    · exact ⟨h, hl⟩

theorem eraseKeyE_led (hE : E.Lawful) {s : LT K V} (hG : Good H E S s) (k : K) :
    Post (fun s' => ∃ h', Led L S s' h') (eraseKeyE L E k s) := by
  obtain ⟨hI, h, hl⟩ := hG
  unfold eraseKeyE
  rcases hI.find_cases hE k with ⟨hf, _⟩ | ⟨i, e, hi, _, hf⟩
  · rw [hf]; exact ⟨h, hl⟩
  · rw [hf]
    simp only
    rcases hI.st with hst | hst
    · rw [hst] at hi; cases hi
    · have hie : i / L.S * L.S + i % L.S = i := gp_eta i
      have hlt : i % L.S < L.S := Nat.mod_lt _ H.S_pos
      obtain ⟨he, _, _⟩ := hst.erase (g := i / L.S) (p := i % L.S) (e := e) hlt (by rw [hie]; exact hi)
      unfold onT
      rw [he]
      simp only [Out.bind_ok]
      have hin : (s.blk, i) ∈ h.live := by rw [hl.live]; exact ⟨hst.alloc, rfl, by rw [hi]; rfl⟩
      refine ⟨{ h with live := h.live.erase (s.blk, i) }, ?_, ?_, ?_, hl.nodup.erase _, fun _ => hl.fresh hst.alloc⟩
      · show Heap.run (s.log ++ [.dtor s.blk (i / L.S * L.S + i % L.S)]) Heap.empty = _
        rw [run_append, hl.run, hie]
        have hc : h.live.contains (s.blk, i) = true := List.contains_iff_mem.mpr hin
        simp only [Option.bind_some, Heap.run, Heap.step, hc, if_true]
      · exact hl.blocks
      · intro b j
        show (b, j) ∈ h.live.erase (s.blk, i) ↔ s.t.alloc = true ∧ b = s.blk ∧ (upd s.t.slot (i / L.S * L.S + i % L.S) none j).isSome = true
        rw [hie, List.Nodup.mem_erase_iff hl.nodup, hl.live, ne_eq, Prod.mk.injEq]
        by_cases hj : j = i
        · rw [hj, upd_self]; simp; tauto
        · rw [upd_other _ _ hj]; simp [hj]

/-- After the destructor has run, nothing is left. -/
theorem destroyE_led (hL : Std L) {s : LT K V} (hG : Good H E S s) :
    Led L S (destroyE L S s) Heap.empty := by
  obtain ⟨hI, h, hl⟩ := hG
  unfold destroyE
  rcases hI.st with hst | hst
  · have hal : s.t.alloc = false := by rw [hst]; rfl
    have h0 : h = Heap.empty := by
      have h1 := hl.blocks
      rw [hal] at h1
      have h2 : h.live = [] := by
        rw [List.eq_nil_iff_forall_not_mem]
        rintro ⟨b, i⟩ hm
        rw [hl.live, hal] at hm
        cases hm.1
      cases h
      simp only [Bool.false_eq_true, if_false] at h1 h2
      rw [h1, h2]; rfl
    refine ⟨?_, rfl, ?_, List.nodup_nil, fun h => by cases h⟩
    · simp only [clearSlotsE, freeAll, hal, Bool.false_eq_true, if_false, List.append_nil]
      rw [hl.run, h0]
    · intro b i
      constructor
      · intro h; cases h
      · rintro ⟨h, _⟩; cases h
  · have hal := hst.alloc
    refine ⟨?_, rfl, ?_, List.nodup_nil, fun h => by cases h⟩
    · simp only
      rw [run_append, run_append, hl.run]
      simp only [Option.bind_some, clearSlotsE, hal, if_true]
      obtain ⟨h', r1, r2, r3, r4⟩ := run_dtors s.blk ((usedPos L s.t).map fun gp => gp.1 * L.S + gp.2) h hl.nodup (nodup_usedIdx hst)
        (by intro i hi; rw [hl.live]; exact ⟨hal, rfl, (mem_usedIdx hst i).mp hi⟩)
      have hm : (usedPos L s.t).map (fun gp => Ev.dtor s.blk (gp.1 * L.S + gp.2))
          = ((usedPos L s.t).map fun gp => gp.1 * L.S + gp.2).map (Ev.dtor s.blk) := by rw [List.map_map]; rfl
      rw [hm, r1]
      simp only [Option.bind_some]
      have h2 : h'.live = [] := by
        rw [List.eq_nil_iff_forall_not_mem]
        rintro ⟨b, i⟩ hx
        rw [r4, hl.live] at hx
        exact hx.2 ⟨hx.1.2.1, (mem_usedIdx hst i).mpr hx.1.2.2⟩
      rw [run_freeAll hL hal (by rw [r2, hl.blocks, if_pos hal]) (by rw [h2]; intro o ho; cases ho)]
      rw [h2]; rfl
    · intro b i
      constructor
      · intro h; cases h
      · rintro ⟨h, _⟩; cases h

theorem clearDataE_led {s : LT K V} (hG : Good H E S s) :
    Post (fun s' => ∃ h', Led L S s' h') (clearDataE L s) := by
  obtain ⟨hI, h, hl⟩ := hG
  unfold clearDataE
  rcases hI.st with hst | hst
  · have hal : s.t.alloc = false := by rw [hst]; rfl
    rw [if_neg (by simp [hal])]
    split
    · trivial
    · exact ⟨h, hl.congr (t' := _) rfl rfl (fun _ => rfl)⟩
  · have hal := hst.alloc
    rw [if_pos hal]
    obtain ⟨h', r1, r2, r3, r4⟩ := run_dtors s.blk ((usedPos L s.t).map fun gp => gp.1 * L.S + gp.2) h hl.nodup (nodup_usedIdx hst)
      (by intro i hi; rw [hl.live]; exact ⟨hal, rfl, (mem_usedIdx hst i).mp hi⟩)
    have hm : (usedPos L s.t).map (fun gp => Ev.dtor s.blk (gp.1 * L.S + gp.2))
        = ((usedPos L s.t).map fun gp => gp.1 * L.S + gp.2).map (Ev.dtor s.blk) := by rw [List.map_map]; rfl
    refine ⟨h', ?_, ?_, ?_, r3, hl.fresh⟩
    · simp only [clearSlotsE, hal, if_true]
      rw [run_append, hl.run, hm]
      exact r1
    · rw [r2, hl.blocks]; rfl
    · intro b i
      rw [r4, hl.live]
      constructor
      · rintro ⟨⟨_, h1, h2⟩, h3⟩
        exact absurd ⟨h1, (mem_usedIdx hst i).mpr h2⟩ h3
      · rintro ⟨_, _, h⟩; cases h

theorem destroyE_good (hL : Std L) {s : LT K V} (hG : Good H E S s) : Good H E S (destroyE L S s) := by
  refine ⟨⟨hG.1.mlf_lo, hG.1.mlf_hi, Or.inl rfl⟩, _, destroyE_led hL hG⟩

theorem led_of_good {α : Type} {r : Out (LT K V) α} (h : Post (Good H E S) r) : Post (fun s' => ∃ h', Led L S s' h') r :=
  h.mono fun _ h => h.2

theorem rehashE_good (hE : E.Lawful) (hL : Std L) (hs : 1 ≤ S) (hS : S ≤ 256) {a : Bool × Bool} (ha : Steady L a) {s : LT K V}
    (hG : Good H E S s) (n : Nat) : Post (Good H E S) (rehashE L E S a n s) := by
  unfold rehashE
  simp only
  split
  · exact rehashImplE_good hE hL hs hS ha hG _ _
  · exact destroyE_good hL hG

theorem onT_read {α : Type} {f : Table K V → Out (Table K V) α} (hf : ∀ t t' x, f t = .ok t' x → t' = t)
    (hf' : ∀ t t', f t = .throw t' → t' = t) {s : LT K V} {P : LT K V → Prop} (h : P s) : Post P (onT f s) := by
  unfold onT
  cases hq : f s.t with
  | ok t' x => have := hf _ _ _ hq; subst this; exact h
  | throw t' => have := hf' _ _ hq; subst this; exact h
  | diverge => trivial
  | ub => trivial

theorem readElem_read (r : Nat × Bool) {s : LT K V} {P : LT K V → Prop} (h : P s) : Post P (onT (fun t => readElem t r) s) := by
  unfold onT readElem
  simp only
  cases s.t.slot r.1 with
  | none => trivial
  | some e => exact h

theorem readValue_read (r : Nat × Bool) {s : LT K V} {P : LT K V → Prop} (h : P s) : Post P (onT (fun t => readValue t r) s) := by
  unfold onT readValue
  simp only
  cases s.t.slot r.1 with
  | none => trivial
  | some e => exact h

theorem toOut_read {α : Type} (f : Table K V → Res α) {s : LT K V} {P : LT K V → Prop} (h : P s) : Post P (onT (fun t => (f t).toOut t) s) := by
  unfold onT
  simp only
  cases f s.t with
  | ok x => exact h
  | diverge => trivial
  | ub => trivial

/-- The log stays in order through one call. -/
theorem execE_led (hE : E.Lawful) (hL : Std L) (hs : 1 ≤ S) (hS : S ≤ 256) {walk : Table K V → Res (List (K × V))} {a : Bool × Bool}
    (ha : Steady L a) {s : LT K V} (hG : Good H E S s) {c : Call K V} (hv : Valid c) :
    Post (fun s' => ∃ h', Led L S s' h') (execE L E S walk a c s) := by
  cases c with
  | insert k v =>
    exact (emplaceE_led hE hL hs hS ha hG _ _ _ _).bind fun s' r h => readElem_read r h
  | assign k v =>
    exact (emplaceE_led hE hL hs hS ha hG _ _ _ _).bind fun s' r h => readElem_read r h
  | index k v =>
    exact (emplaceE_led hE hL hs hS ha hG _ _ _ _).bind fun s' r h => readValue_read r h
  | erase k => exact (eraseKeyE_led hE hG k).bind fun s' r h => h
  | clear d =>
    refine Post.bind ?_ (fun s' r h => h)
    unfold clearE
    split
    · exact ⟨_, destroyE_led hL hG⟩
    · exact clearDataE_led hG
  | reserve n =>
    simp only [execE]
    split
    · trivial
    · refine Post.bind ?_ (fun s' r h => h)
      unfold reserveE
      split
      · exact led_of_good (rehashImplE_good hE hL hs hS ha hG _ _)
      · exact ⟨_, destroyE_led hL hG⟩
  | rehash n =>
    simp only [execE]
    split
    · trivial
    · exact (led_of_good (rehashE_good hE hL hs hS ha hG _)).bind (fun s' r h => h)
  | shrink ro =>
    refine Post.bind ?_ (fun s' r h => h)
    unfold shrinkE
    simp only
    generalize (if ro = true then s.t.size else fitCapacity s.t.mlf s.t.size) = c
    split
    · exact led_of_good (rehashImplE_good hE hL hs hS ha hG _ _)
    · exact ⟨_, destroyE_led hL hG⟩
  | maxLoad m =>
    refine Post.bind ?_ (fun s' r h => h)
    have hG1 : Good H E S { s with t := { s.t with mlf := m } } := by
      obtain ⟨hI, h, hl⟩ := hG
      exact ⟨hI.set_mlf hv.1 hv.2, h, hl.congr rfl rfl (fun _ => rfl)⟩
    unfold setMlfE
    simp only
    cases calcCapacity s.t.size (fitCapacity m (Table.ctrlCap L { s.t with mlf := m })) with
    | ub => trivial
    | diverge => trivial
    | ok cap =>
      simp only
      split
      · exact led_of_good (rehashE_good hE hL hs hS ha hG1 _)
      · exact hG1.2
  | find k => exact toOut_read (P := fun s' => ∃ h', Led L S s' h') (fun t => (lookup L E t k).bind fun o => .ok (Ans.found o)) hG.2
  | contains k => exact toOut_read (P := fun s' => ∃ h', Led L S s' h') (fun t => (contains L E t k).bind fun b => .ok (Ans.bool b)) hG.2
  | count k => exact toOut_read (P := fun s' => ∃ h', Led L S s' h') (fun t => (contains L E t k).bind fun b => .ok (Ans.num (if b then 1 else 0))) hG.2
  | «at» k => exact toOut_read (P := fun s' => ∃ h', Led L S s' h') (fun t => (lookup L E t k).bind fun o => .ok (Ans.value (o.map (·.2)))) hG.2
  | size => exact hG.2
  | empty => exact hG.2
  | iterate => exact toOut_read (P := fun s' => ∃ h', Led L S s' h') (fun t => (walk t).bind fun l => .ok (Ans.items l)) hG.2

theorem execE_good (hE : E.Lawful) (hL : Std L) (hs : 1 ≤ S) (hS : S ≤ 256) {walk : Table K V → Res (List (K × V))}
    (hwalk : ∀ t, Inv H E t → walk t = .ok (entries L t)) {a : Bool × Bool}
    (ha : Steady L a) {s : LT K V} (hG : Good H E S s) {c : Call K V} (hv : Valid c) :
    Post (Good H E S) (execE L E S walk a c s) := by
  refine Post.and ?_ (execE_led hE hL hs hS ha hG hv)
  have hok := hG.1.exec_ok hE hwalk (List.Perm.refl _) (both L a) hv
  rw [← proj_execE (S := S) hG.1 a hv] at hok
  generalize execE L E S walk a c s = r at hok
  cases r with
  | ok s' x => exact hok.1
  | throw s' => exact hok.1
  | diverge => trivial
  | ub => trivial

/-- Forget what the answers of the allocator belong to. -/
def plain (L : Layout) (ops : List ((Bool × Bool) × Call K V)) : List (Bool × Call K V) := ops.map fun o => (both L o.1, o.2)

theorem runE_good (hE : E.Lawful) (hL : Std L) (hs : 1 ≤ S) (hS : S ≤ 256) {walk : Table K V → Res (List (K × V))}
    (hwalk : ∀ t, Inv H E t → walk t = .ok (entries L t)) : ∀ (ops : List ((Bool × Bool) × Call K V)) (s : LT K V), Good H E S s →
    (∀ o ∈ ops, Steady L o.1 ∧ Valid o.2) → ∀ {as s'}, runE L E S walk ops s = .ok (as, s') →
    Good H E S s' ∧ run L E walk (plain L ops) s.t = .ok (as, s'.t) := by
  intro ops
  induction ops with
  | nil =>
    intro s hG _ as s' h
    simp only [runE, Res.ok.injEq, Prod.mk.injEq] at h
    obtain ⟨rfl, rfl⟩ := h
    exact ⟨hG, rfl⟩
  | cons o ops ih =>
    intro s hG hv as s' h
    obtain ⟨a, c⟩ := o
    have h1 := hv (a, c) (by simp)
    have hg := execE_good hE hL hs hS hwalk h1.1 hG h1.2
    have hp := proj_execE (S := S) (walk := walk) hG.1 a h1.2
    simp only [runE] at h
    show _ ∧ run L E walk ((both L a, c) :: plain L ops) s.t = _
    unfold run
    rw [← hp]
    cases hx : execE L E S walk a c s with
    | ub => rw [hx] at h; cases h
    | diverge => rw [hx] at h; cases h
    | throw s1 =>
      rw [hx] at h hg
      simp only at h
      cases hr : runE L E S walk ops s1 with
      | ub => rw [hr] at h; cases h
      | diverge => rw [hr] at h; cases h
      | ok r =>
        rw [hr] at h
        simp only [Res.bind, Res.ok.injEq, Prod.mk.injEq] at h
        obtain ⟨g1, g2⟩ := ih s1 hg (fun o ho => hv o (by simp [ho])) hr
        simp only [proj, g2, Res.bind]
        rw [← h.1, ← h.2]
        exact ⟨g1, rfl⟩
    | ok s1 x =>
      rw [hx] at h hg
      simp only at h
      cases hr : runE L E S walk ops s1 with
      | ub => rw [hr] at h; cases h
      | diverge => rw [hr] at h; cases h
      | ok r =>
        rw [hr] at h
        simp only [Res.bind, Res.ok.injEq, Prod.mk.injEq] at h
        obtain ⟨g1, g2⟩ := ih s1 hg (fun o ho => hv o (by simp [ho])) hr
        simp only [proj, g2, Res.bind]
        rw [← h.1, ← h.2]
        exact ⟨g1, rfl⟩

theorem start_good : Good H E S (start L : LT K V) := by
  refine ⟨⟨(by decide : 128 ≤ 224), Nat.le_refl 224, Or.inl rfl⟩, Heap.empty, rfl, rfl, ?_, List.nodup_nil, fun h => by cases h⟩
  intro b i
  constructor
  · intro h; cases h
  · rintro ⟨h, _⟩; cases h

theorem constructE_good (hL : Std L) {a : Bool × Bool} (ha : Steady L a) (n : Nat) :
    (∀ s, constructE L S a n = .ok s () → Good H E S (s : LT K V)) ∧
    (∀ s, constructE L S a n = .throw s → (s : LT K V) = start L) := by
  unfold constructE
  split
  · cases hc : calcCapacity 0 (fitCapacity 224 n) with
    | ub => exact ⟨fun s h => (by cases h), fun s h => (by cases h)⟩
    | diverge => exact ⟨fun s h => (by cases h), fun s h => (by cases h)⟩
    | ok cap =>
      obtain ⟨k, rfl, hk5, _, _, _⟩ := calcCapacity_ok hc
      simp only
      split
      · exact ⟨fun s h => (by cases h), fun s h => (by cases h)⟩
      · rcases createE_cases (S := S) ha hk5 (start L : LT K V) with ⟨h55, _, h1⟩ | h1
        · rw [h1]
          refine ⟨?_, fun s h => by cases h⟩
          intro s h
          rw [Out.ok.injEq] at h
          rw [← h.1]
          obtain ⟨hI1, hF1⟩ := freshTable_inv (H := H) (E := E) (V := V) (mlf := 224) hk5 h55
          refine ⟨⟨(by decide : 128 ≤ 224), Nat.le_refl 224, Or.inr hI1⟩, { Heap.empty with blocks := owned L S (freshTable L k 224 : Table K V) 0 ++ [] }, ?_, ?_, ?_, List.nodup_nil, fun _ => Nat.le_refl _⟩
          · show Heap.run ([] ++ newBlocks L S 0 (2 ^ k)) Heap.empty = _
            rw [List.nil_append]
            exact run_newBlocks hL hk5 h55 (by intro x hx; cases hx)
          · rw [List.append_nil]; rfl
          · intro b i
            constructor
            · intro h; cases h
            · rintro ⟨_, _, h⟩; cases h
        · rw [h1]
          exact ⟨fun s h => (by cases h), fun s h => (by cases h; rfl)⟩
  · refine ⟨?_, fun s h => by cases h⟩
    intro s h
    rw [Out.ok.injEq] at h
    rw [← h.1]
    exact start_good

/-! ### What a log in order says -/

/-- In any log that is in order, an object has been constructed as often as destroyed, plus once if it is alive. -/
theorem balance_obj (b i : Nat) : ∀ (l : List Ev) (h h' : Heap), h.live.Nodup → Heap.run l h = some h' →
    h'.live.Nodup ∧ l.count (.ctor b i) + h.live.count (b, i) = l.count (.dtor b i) + h'.live.count (b, i) := by
  intro l
  induction l with
  | nil => intro h h' hn hr; cases hr; exact ⟨hn, by simp⟩
  | cons e l ih =>
    intro h h' hn hr
    simp only [Heap.run] at hr
    cases hs : h.step e with
    | none => rw [hs] at hr; cases hr
    | some h1 =>
      rw [hs] at hr
      simp only [Option.bind_some] at hr
      cases e with
      | alloc c n =>
        simp only [Heap.step] at hs
        split at hs
        · cases hs
        · cases hs
          have := ih { h with blocks := (c, n) :: h.blocks } h' hn hr
          simpa [List.count_cons] using this
      | free c n =>
        simp only [Heap.step] at hs
        split at hs
        · cases hs
          have := ih { h with blocks := h.blocks.erase (c, n) } h' hn hr
          simpa [List.count_cons] using this
        · cases hs
      | ctor c j =>
        simp only [Heap.step] at hs
        split at hs
        · rename_i hc
          cases hs
          rw [Bool.and_eq_true, Bool.not_eq_true'] at hc
          have hnot : (c, j) ∉ h.live := by
            intro hm
            rw [List.contains_iff_mem.mpr hm] at hc
            cases hc.2
          have := ih _ h' (List.nodup_cons.mpr ⟨hnot, hn⟩) hr
          refine ⟨this.1, ?_⟩
          have h2 := this.2
          simp only [List.count_cons] at h2 ⊢
          by_cases hq : c = b ∧ j = i
          · obtain ⟨rfl, rfl⟩ := hq
            simp at h2 ⊢; omega
          · have e1 : ((c, j) == (b, i)) = false := by simpa using hq
            have e2 : (Ev.ctor c j == Ev.ctor b i) = false := by simpa using hq
            have e3 : (Ev.ctor c j == Ev.dtor b i) = false := by simp
            rw [e1] at h2; rw [e2, e3]; simpa using h2
        · cases hs
      | dtor c j =>
        simp only [Heap.step] at hs
        split at hs
        · rename_i hc
          cases hs
          have hm := List.contains_iff_mem.mp hc
          have := ih _ h' (hn.erase _) hr
          refine ⟨this.1, ?_⟩
          have h2 := this.2
          simp only [List.count_cons] at h2 ⊢
          rw [List.count_erase] at h2
          by_cases hq : c = b ∧ j = i
          · obtain ⟨rfl, rfl⟩ := hq
            have : 0 < h.live.count (c, j) := List.count_pos_iff.mpr hm
            simp at h2 ⊢; omega
          · have e2 : (Ev.dtor c j == Ev.dtor b i) = false := by simpa using hq
            have e3 : (Ev.dtor c j == Ev.ctor b i) = false := by simp
            have e4 : ((c, j) == (b, i)) = false := by simpa using hq
            rw [e2, e3]
            simp only [e4, Bool.false_eq_true, if_false, Nat.sub_zero, Nat.add_zero] at h2 ⊢
            exact h2
        · cases hs

/-- In any log that is in order, a block has been obtained as often as given back with the same count, plus once if it is held. -/
theorem balance_block (b n : Nat) : ∀ (l : List Ev) (h h' : Heap), Heap.run l h = some h' →
    l.count (.alloc b n) + h.blocks.count (b, n) = l.count (.free b n) + h'.blocks.count (b, n) := by
  intro l
  induction l with
  | nil => intro h h' hr; cases hr; simp
  | cons e l ih =>
    intro h h' hr
    simp only [Heap.run] at hr
    cases hs : h.step e with
    | none => rw [hs] at hr; cases hr
    | some h1 =>
      rw [hs] at hr
      simp only [Option.bind_some] at hr
      have h2 := ih _ _ hr
      simp only [List.count_cons]
      cases e with
      | alloc c m =>
        simp only [Heap.step] at hs
        split at hs
        · cases hs
        · cases hs
          simp only [List.count_cons] at h2
          by_cases hq : c = b ∧ m = n
          · obtain ⟨rfl, rfl⟩ := hq
            simp at h2 ⊢; omega
          · have e1 : ((c, m) == (b, n)) = false := by simpa using hq
            have e2 : (Ev.alloc c m == Ev.alloc b n) = false := by simpa using hq
            have e3 : (Ev.alloc c m == Ev.free b n) = false := by simp
            rw [e1] at h2; rw [e2, e3]; simpa using h2
      | free c m =>
        simp only [Heap.step] at hs
        split at hs
        · rename_i hc
          cases hs
          rw [Bool.and_eq_true] at hc
          have hm := List.contains_iff_mem.mp hc.1
          simp only at h2
          rw [List.count_erase] at h2
          by_cases hq : c = b ∧ m = n
          · obtain ⟨rfl, rfl⟩ := hq
            have : 0 < h.blocks.count (c, m) := List.count_pos_iff.mpr hm
            simp at h2 ⊢; omega
          · have e4 : ((c, m) == (b, n)) = false := by simpa using hq
            have e2 : (Ev.free c m == Ev.free b n) = false := by simpa using hq
            have e3 : (Ev.free c m == Ev.alloc b n) = false := by simp
            rw [e2, e3]
            simp only [e4, Bool.false_eq_true, if_false, Nat.sub_zero, Nat.add_zero] at h2 ⊢
            exact h2
        · cases hs
      | ctor c j =>
        simp only [Heap.step] at hs
        split at hs
        · cases hs; simpa using h2
        · cases hs
      | dtor c j =>
        simp only [Heap.step] at hs
        split at hs
        · cases hs; simpa using h2
        · cases hs

theorem Led.length {s : LT K V} {h : Heap} (hI : Inv H E s.t) (hl : Led L S s h) : h.live.length = s.t.size := by
  rcases hI.st with hst | hst
  · have hal : s.t.alloc = false := by rw [hst]; rfl
    have h2 : h.live = [] := by
      rw [List.eq_nil_iff_forall_not_mem]
      rintro ⟨b, i⟩ hm
      rw [hl.live, hal] at hm
      cases hm.1
    rw [h2, hst]; rfl
  · have hp : h.live.Perm (((usedPos L s.t).map fun gp => gp.1 * L.S + gp.2).map fun i => (s.blk, i)) := by
      rw [List.perm_ext_iff_of_nodup hl.nodup]
      · rintro ⟨b, i⟩
        rw [hl.live, List.mem_map]
        constructor
        · rintro ⟨_, rfl, h⟩
          exact ⟨i, (mem_usedIdx hst i).mpr h, rfl⟩
        · rintro ⟨j, hj, hq⟩
          rw [Prod.mk.injEq] at hq
          rw [← hq.1, ← hq.2]
          exact ⟨hst.alloc, rfl, (mem_usedIdx hst j).mp hj⟩
      · exact (nodup_usedIdx hst).map fun x y h => by simpa using h
    rw [hp.length_eq, List.length_map, List.length_map, hst.size]
    have := congrArg List.length hst.usedPos_map
    rw [List.length_map, List.length_map] at this
    exact this

/-- Destroying a list of slots one of which holds no object is not in order. -/
theorem run_dtors_none (b : Nat) : ∀ (is : List Nat) (h : Heap), h.live.Nodup → (∃ i ∈ is, (b, i) ∉ h.live) →
    Heap.run (is.map (Ev.dtor b)) h = none := by
  intro is
  induction is with
  | nil => rintro h _ ⟨i, hi, _⟩; cases hi
  | cons j is ih =>
    rintro h hn ⟨i, hi, hm⟩
    simp only [List.map_cons, Heap.run, Heap.step]
    split
    · rename_i hc
      simp only [Option.bind_some]
      apply ih _ (hn.erase _)
      rcases List.mem_cons.mp hi with rfl | hi
      · exact absurd (List.contains_iff_mem.mp hc) hm
      · exact ⟨i, hi, fun h => hm (List.mem_of_mem_erase h)⟩
    · rfl

/-! ### C118 -/

/-- C118. Every history of a group15 or group16 map, whatever the allocator answers (for group16 it may not fail between the
two requests that belong together, see `C118_leak16`), has a log that is in order: no element is constructed over another one
or outside its block, none is destroyed twice or before it is constructed, no block is given back twice, with the wrong count,
or with elements in it.  As many elements are alive as `size()` says, and after the destructor nothing is left.  The log is only
an observer: the answers are those of the plain model. -/
theorem C118_lifetimes (hE : E.Lawful) (hL : Std L) (hs : 1 ≤ S) (hS : S ≤ 256) {walk : Table K V → Res (List (K × V))}
    (hwalk : ∀ t, Inv H E t → walk t = .ok (entries L t)) {a : Bool × Bool} (ha : Steady L a) {n : Nat} {s0 s : LT K V}
    (h0 : constructE L S a n = .ok s0 ()) {ops : List ((Bool × Bool) × Call K V)} (hv : ∀ o ∈ ops, Steady L o.1 ∧ Valid o.2)
    {as : List (Ans K V)} (hr : runE L E S walk ops s0 = .ok (as, s)) :
    construct L (both L a) n = .ok s0.t () ∧ run L E walk (plain L ops) s0.t = .ok (as, s.t) ∧
    (∃ h, Heap.run s.log Heap.empty = some h ∧ h.live.length = s.t.size) ∧
    Heap.run (destroyE L S s).log Heap.empty = some Heap.empty := by
  have hG0 := (constructE_good (H := H) (E := E) hL ha n).1 s0 h0
  obtain ⟨hG, hp⟩ := runE_good hE hL hs hS hwalk ops s0 hG0 hv hr
  refine ⟨?_, hp, ?_, (destroyE_led hL hG).run⟩
  · rw [← proj_constructE (S := S), h0]; rfl
  · obtain ⟨h, hl⟩ := hG.2
    exact ⟨h, hl.run, hl.length hG.1⟩

/-- C118. Hence from construction to destruction every element that is constructed is destroyed exactly as often, and every
block is given back as often as it was obtained, with its count. -/
theorem C118_balanced (hE : E.Lawful) (hL : Std L) (hs : 1 ≤ S) (hS : S ≤ 256) {walk : Table K V → Res (List (K × V))}
    (hwalk : ∀ t, Inv H E t → walk t = .ok (entries L t)) {a : Bool × Bool} (ha : Steady L a) {n : Nat} {s0 s : LT K V}
    (h0 : constructE L S a n = .ok s0 ()) {ops : List ((Bool × Bool) × Call K V)} (hv : ∀ o ∈ ops, Steady L o.1 ∧ Valid o.2)
    {as : List (Ans K V)} (hr : runE L E S walk ops s0 = .ok (as, s)) :
    (∀ b i, (destroyE L S s).log.count (.ctor b i) = (destroyE L S s).log.count (.dtor b i)) ∧
    (∀ b m, (destroyE L S s).log.count (.alloc b m) = (destroyE L S s).log.count (.free b m)) := by
  have h := (C118_lifetimes hE hL hs hS hwalk ha h0 hv hr).2.2.2
  constructor
  · intro b i
    have := (balance_obj b i _ _ _ List.nodup_nil h).2
    simpa [Heap.empty] using this
  · intro b m
    have := balance_block b m _ _ _ h
    simpa [Heap.empty] using this

/-- C118. A constructor that throws has obtained nothing. -/
theorem C118_construct_throws (hL : Std L) {a : Bool × Bool} (ha : Steady L a) {n : Nat} {s : LT K V}
    (h0 : constructE L S a n = .throw s) : s.log = [] := by
  rcases hL with rfl | rfl
  · rw [(constructE_good (H := laws15) (E := ⟨fun _ : K => 0, fun _ _ => true⟩) (Or.inl rfl) ha n).2 s h0]
    rfl
  · rw [(constructE_good (H := laws16) (E := ⟨fun _ : K => 0, fun _ _ => true⟩) (Or.inr rfl) ha n).2 s h0]
    rfl

/-- C118, negative. When the second of group16's two requests fails (T16:1952) the block of the first is lost: the constructor
throws, so no destructor will run, and the block is still held. -/
theorem C118_leak16 {n : Nat} (hn : n ≠ 0) (hn' : n ≤ 2 ^ 53) :
    ∃ s c, constructE layout16 S (true, false) n = .throw (s : LT K V) ∧ s.log = [.alloc 1 c] := by
  have hf : fitCapacity 224 n ≤ 2 ^ 53 * 256 / 224 := by
    unfold fitCapacity
    rw [Nat.mod_eq_of_lt (by unfold W; omega)]
    exact Nat.div_le_div_right (Nat.mul_le_mul_right _ hn')
  unfold constructE
  rw [if_pos hn]
  cases hc : calcCapacity 0 (fitCapacity 224 n) with
  | ub => rcases calcCapacity_ub hc with h | h <;> omega
  | diverge => exact absurd hc calcCapacity_diverge
  | ok cap =>
    obtain ⟨k, rfl, h5, h1, h2, h3⟩ := calcCapacity_ok hc
    have hcl : 2 ^ k ≤ capLimit := by unfold capLimit; omega
    refine ⟨{ start layout16 with next := 2, log := [.alloc 1 (askGroups (2 ^ k))] }, askGroups (2 ^ k), ?_, rfl⟩
    simp only
    rw [if_neg (show ¬ wrapRisk layout16 (both layout16 (true, false)) (2 ^ k) = true by simp [wrapRisk, layout16])]
    unfold createE
    rw [if_neg (show ¬ layout16.oneBlock = true by decide), if_pos (by simp [hcl]), createSlots_ok h5, if_neg (by simp)]
    rfl

/-- C118, negative. When the constructor of an inserted element throws, the log is in order so far, but the destructor of the
map destroys an element that does not exist (the control byte is already marked, see C10). -/
theorem C118_ctor_throws (hE : E.Lawful) (hL : Std L) (hs : 1 ≤ S) (hS : S ≤ 256) {a : Bool × Bool} (ha : Steady L a) {s s' : LT K V}
    (hG : Good H E S s) {update : Bool} {k : K} {v : V} {i : Nat} (hx : emplaceE L E S update a true k v s = .ok s' (i, true)) :
    ∃ s1 h, emplaceE L E S update a false k v s = .throw s1 ∧ Heap.run s1.log Heap.empty = some h ∧
      Heap.run (destroyE L S s1).log Heap.empty = none := by
  have hp : emplace L E update (both L a) true k v s.t = .ok s'.t (i, true) := by rw [← proj_emplaceE (S := S), hx]; rfl
  obtain ⟨t1, h1, _, h2⟩ := hG.1.ctor_throws hE hp
  have hled := emplaceE_led hE hL hs hS ha hG update false k v
  rw [← proj_emplaceE (S := S)] at h1
  cases hr : emplaceE L E S update a false k v s with
  | ok s1 r => rw [hr] at h1; cases h1
  | diverge => rw [hr] at h1; cases h1
  | ub => rw [hr] at h1; cases h1
  | throw s1 =>
    rw [hr] at h1 hled
    simp only [proj, Out.throw.injEq] at h1
    obtain ⟨h, hl⟩ := hled
    refine ⟨s1, h, rfl, hl.run, ?_⟩
    rw [← h1] at h2
    unfold destroy at h2
    split at h2
    · cases h2
    · rename_i hd
      rw [Bool.not_eq_true] at hd
      unfold destroyable at hd
      rw [Bool.or_eq_false_iff, Bool.not_eq_false'] at hd
      have hd2 := hd.2
      rw [List.all_eq_false] at hd2
      obtain ⟨gp, hm, hne⟩ := hd2
      simp only [destroyE]
      rw [run_append, run_append, hl.run]
      simp only [Option.bind_some, clearSlotsE, hd.1, if_true]
      have hmm : (usedPos L s1.t).map (fun gp => Ev.dtor s1.blk (gp.1 * L.S + gp.2))
          = ((usedPos L s1.t).map fun gp => gp.1 * L.S + gp.2).map (Ev.dtor s1.blk) := by rw [List.map_map]; rfl
      rw [hmm, run_dtors_none s1.blk _ h hl.nodup]
      · rfl
      · refine ⟨_, List.mem_map.mpr ⟨gp, hm, rfl⟩, ?_⟩
        rw [hl.live]
        rintro ⟨_, _, hq⟩
        exact hne hq

end

/-! ### Examples -/

/-- A history that can be run has the states it goes through. -/
theorem exists_history {K V : Type} {L : Layout} {E : Env K} {S : Nat} {walk : Table K V → Res (List (K × V))} (a : Bool × Bool) (n : Nat)
    (ops : List ((Bool × Bool) × Call K V)) (p : LT K V → Bool)
    (h : (match (constructE L S a n : Out (LT K V) Unit) with
      | .ok s0 _ => (match runE L E S walk ops s0 with | .ok r => p r.2 | _ => false)
      | _ => false) = true) :
    ∃ s0 s as, constructE L S a n = .ok s0 () ∧ runE L E S walk ops s0 = .ok (as, s) ∧ p s = true := by
  cases h0 : (constructE L S a n : Out (LT K V) Unit) with
  | ok s0 u =>
    rw [h0] at h
    simp only at h
    cases hr : runE L E S walk ops s0 with
    | ok r => rw [hr] at h; exact ⟨s0, r.2, r.1, rfl, hr, h⟩
    | diverge => rw [hr] at h; cases h
    | ub => rw [hr] at h; cases h
  | throw s0 => rw [h0] at h; cases h
  | diverge => rw [h0] at h; cases h
  | ub => rw [h0] at h; cases h

/-- 35 insertions (so that the table grows), a growth that fails, an erasure, `clear()`, more insertions, `shrink_to_fit`. -/
def story : List ((Bool × Bool) × Call Nat Nat) :=
  (List.range 35).map (fun i => ((true, true), .insert i i))
    ++ [((false, true), .reserve 1000), ((true, true), .erase 7), ((true, true), .assign 8 1), ((true, true), .index 90 1),
      ((true, true), .clear false), ((true, true), .insert 3 3), ((true, true), .insert 4 4), ((true, true), .shrink false)]

theorem story_ok (L : Layout) : ∀ o ∈ story, Steady L o.1 ∧ Valid o.2 := by
  have h : story.all (fun o => (!o.1.1 || o.1.2) && (match o.2 with | .maxLoad _ => false | _ => true)) = true := by decide +kernel
  intro o ho
  have := List.all_eq_true.mp h o ho
  rw [Bool.and_eq_true] at this
  refine ⟨fun _ h1 => ?_, ?_⟩
  · rw [h1] at this; simpa using this.1
  · cases hq : o.2 with
    | maxLoad m => rw [hq] at this; cases this.2
    | _ => trivial

set_option maxRecDepth 100000 in
example : ∃ s0 s as, constructE layout15 16 (true, true) 1 = .ok s0 () ∧ runE layout15 idEnv 16 walk15 story s0 = .ok (as, s) ∧
    (s.t.size == 2 && s.log.length > 100) = true :=
  exists_history _ _ _ _ (by decide +kernel)

set_option maxRecDepth 100000 in
example : ∃ s0 s as, constructE layout16 16 (true, true) 1 = .ok s0 () ∧ runE layout16 idEnv 16 (walk16 false) story s0 = .ok (as, s) ∧
    (s.t.size == 2 && s.log.length > 100) = true :=
  exists_history _ _ _ _ (by decide +kernel)

/-- A constructor that throws. -/
example : (match (constructE layout15 16 (false, true) 1 : Out (LT Nat Nat) Unit) with | .throw s => s.log == [] | _ => false) = true := by
  decide +kernel

/-- C118, negative. The same leak when a map grows: the destructor of the map leaves a block behind. -/
theorem C118_leak16_growth : ∃ (s0 s : LT Nat Nat) (as : List (Ans Nat Nat)) (h : Heap), constructE layout16 16 (true, true) 1 = .ok s0 () ∧
    runE layout16 idEnv 16 (walk16 false) [((true, true), .insert 1 1), ((true, false), .reserve 100), ((true, true), .insert 2 2)] s0
      = .ok (as, s) ∧
    Heap.run (destroyE layout16 16 s).log Heap.empty = some h ∧ h.blocks.length = 1 := by
  obtain ⟨s0, s, as, h0, h1, h2⟩ := exists_history (L := layout16) (E := idEnv) (S := 16) (walk := walk16 false) (true, true) 1
    [((true, true), .insert 1 1), ((true, false), .reserve 100), ((true, true), .insert 2 2)]
    (fun s => match Heap.run (destroyE layout16 16 s).log Heap.empty with | some h => h.blocks.length == 1 | none => false)
    (by decide +kernel)
  cases hr : Heap.run (destroyE layout16 16 s).log Heap.empty with
  | none => rw [hr] at h2; cases h2
  | some h => rw [hr] at h2; exact ⟨s0, s, as, h, h0, h1, hr, by simpa using h2⟩

/-- A first insertion into an empty map: the hypotheses of `C118_ctor_throws`. -/
example : Good laws15 idEnv 16 (start layout15 : LT Nat Nat) ∧
    ∃ s' i, emplaceE layout15 idEnv 16 false (true, true) true 1 1 (start layout15 : LT Nat Nat) = .ok s' (i, true) := by
  refine ⟨start_good, ?_⟩
  have h : (match emplaceE layout15 idEnv 16 false (true, true) true 1 1 (start layout15 : LT Nat Nat) with | .ok _ r => r.2 | _ => false) = true := by
    decide +kernel
  cases hq : emplaceE layout15 idEnv 16 false (true, true) true 1 1 (start layout15 : LT Nat Nat) with
  | ok s' r =>
    rw [hq] at h
    obtain ⟨i, b⟩ := r
    simp only at h
    exact ⟨s', i, by rw [h]⟩
  | throw _ => rw [hq] at h; cases h
  | diverge => rw [hq] at h; cases h
  | ub => rw [hq] at h; cases h

end Verif.Life
