/-
Model of `group15_flat_table` and `group16_flat_table` (hashmap/group15_flat_table.hpp,
hashmap/group16_flat_table.hpp), generic in the group layout.

Abbreviations in the citations: T15 = src/jstd/hashmap/group15_flat_table.hpp,
T16 = src/jstd/hashmap/group16_flat_table.hpp.

Conventions.
* `size_t` arithmetic that can wrap is written with an explicit `% W`, `W = 2^64`.
* Memory is a function from indices; the owned range is checked on every access and an access
  outside it, or the read of a slot without an element, is the outcome `ub`.
* Loops carry fuel; running out of fuel is the outcome `diverge`.  `Verif.TableInv` proves that the
  fuel given here is never the reason for a `diverge` in a terminating call, and that a
  `diverge` of `findEmpty` is a genuine infinite loop.
* Every call that may allocate carries `mem : Bool`, the answer of the allocator; every call that
  constructs a user element carries `ctor : Bool` (`false`: the constructor throws).
* `assert` is compiled out.
* The configuration is the one of the macros at T15:89-95 and T16:89-95 on a 64-bit target
  (index shift on, hash policy off, no index salt, direct key/value slots).
-/
import Verif.Prober
import Verif.Layout

namespace Verif

/-- The user supplied callables: `hash_for` (the hasher followed by the optional mixing step,
T15:1353-1371, T16:1314-1332) and `key_equal`. -/
structure Env (K : Type) where
  hash : K → Nat
  eq : K → K → Bool

/-- What the documentation of the class requires from hasher and key_equal. -/
structure Env.Lawful {K : Type} (E : Env K) : Prop where
  refl : ∀ a, E.eq a a = true
  symm : ∀ a b, E.eq a b = true → E.eq b a = true
  trans : ∀ a b c, E.eq a b = true → E.eq b c = true → E.eq a c = true
  congr : ∀ a b, E.eq a b = true → E.hash a = E.hash b

/-- `size_t` hash code of a key. -/
def Env.h {K : Type} (E : Env K) (k : K) : Nat := E.hash k % W

/-- The data members of the table (T15:250-261, T16:247-258).  `alloc` says whether `groups_`/`slots_`
point to owned memory or to the static `default_empty_groups()`/`nullptr`.  `slot i` is the
element constructed in slot `i`, if any. -/
structure Table (K V : Type) where
  alloc : Bool
  grp : Nat → Group
  slot : Nat → Option (K × V)
  size : Nat
  thr : Nat
  gmask : Nat
  shift : Nat
  mlf : Nat

/-- Function update. -/
def upd {α : Type} (f : Nat → α) (i : Nat) (a : α) : Nat → α := fun j => if j = i then a else f j

@[simp] theorem upd_self {α : Type} (f : Nat → α) (i : Nat) (a : α) : upd f i a i = a := by
  simp [upd]

theorem upd_other {α : Type} (f : Nat → α) {i j : Nat} (a : α) (h : j ≠ i) : upd f i a j = f j := by
  simp [upd, h]

section Model
variable {K V : Type} (L : Layout) (E : Env K)

/-- Largest capacity for which an allocation can succeed.  A table of `2^55` control
bytes needs more than `2^55` slots-and-groups bytes, beyond the user address space of every x86-64
system; the assumption "such a request throws" is part of the trusted base. -/
def capLimit : Nat := 2 ^ 55

/-- Default constructed table with load factor `mlf/256` (T15:280-308, T16:275-303 with
capacity 0); also the state after `destroy` (T15:1491-1548, T16:1459-1514). -/
def emptyTable (mlf : Nat) : Table K V where
  alloc := false
  grp := fun _ => L.static
  slot := fun _ => none
  size := 0
  thr := 0
  gmask := 0
  shift := 63
  mlf := mlf

/-- May group `g` be read: an owned group, or one of the two static groups. -/
def Table.readable (t : Table K V) (g : Nat) : Bool :=
  if t.alloc then decide (g ≤ t.gmask) else decide (g < 2)

/-- May group `g` be written: the static groups are `const`. -/
def Table.writable (t : Table K V) (g : Nat) : Bool := t.alloc && decide (g ≤ t.gmask)

/-- Number of slots, `slot_capacity()` (T15:582-586, T16:531). -/
def Table.slotCap (t : Table K V) : Nat := L.slotCap (t.gmask + 1)

/-- `capacity()`: 0 without storage (T15:537, 578-580; T16:524). -/
def Table.capacity (t : Table K V) : Nat := if t.alloc then t.slotCap L else 0

/-- `ctrl_capacity()` (T15:543-548, T16:534). -/
def Table.ctrlCap (t : Table K V) : Nat := if t.alloc then (t.gmask + 1) * 16 else L.ctrlCap0

/-- `index_for_hash(hash)` (T15:1377-1417, T16:1338-1378): `hash >> index_shift_`. -/
def Table.home (t : Table K V) (k : K) : Nat := E.h k / 2 ^ t.shift

/-! #### Lookup -/

/-- Inner loop of `find_impl` (T15:2299-2306; T16:2141-2149): compare the key with the slots whose
control byte matched, in ascending position. -/
def scanGroup (t : Table K V) (k : K) (base : Nat) : List Nat → Res (Option Nat)
  | [] => .ok none
  | p :: ps =>
    match t.slot (base + p) with
    | none => .ub
    | some e => if E.eq k e.1 then .ok (some p) else scanGroup t k base ps

/-- Outer loop of `find_impl` (T15:2284-2324) / `find_index` (T16:2125-2167).  The result is the
group and the position of the element, or `none` for `end()`. -/
def findLoop (t : Table K V) (k : K) (tg : Nat) : Nat → Prober → Res (Option (Nat × Nat))
  | 0, _ => .diverge
  | f + 1, pr =>
    if t.readable pr.get then
      (scanGroup E t k (pr.get * L.S) (bitsOf (L.matchHash (t.grp pr.get) tg))).bind fun
        | some p => .ok (some (pr.get, p))
        | none =>
          if !L.isOverflow (t.grp pr.get) tg then .ok none
          else if (pr.next t.gmask).2 then findLoop t k tg f (pr.next t.gmask).1
          else .ok none
    else .ub

/-- `find_impl(key)` (T15:2267-2274 with 2282-2324; T16:2114-2121 `find_index`). -/
def find (t : Table K V) (k : K) : Res (Option (Nat × Nat)) :=
  findLoop L E t k (L.tag (E.h k)) (t.gmask + 2) (Prober.mk0 (t.home E k))

/-- Element the iterator returned by `find` refers to. -/
def lookup (t : Table K V) (k : K) : Res (Option (K × V)) :=
  (find L E t k).bind fun
    | none => .ok none
    | some (g, p) =>
      match t.slot (g * L.S + p) with
      | none => .ub
      | some e => .ok (some e)

/-- `contains(key)` (T15:783-787, T16:729-733). -/
def contains (t : Table K V) (k : K) : Res Bool :=
  (find L E t k).bind fun r => .ok r.isSome

/-! #### Insertion -/

/-- Loop of `find_empty_to_insert<IsNoCheck>` (T15:2332-2389, T16:2171-2213); `check` is
`!IsNoCheck`.  The `next_bucket` result is ignored because `IsNoGrow` is true, so the loop only
ends when a group with an empty control byte is met. -/
def findEmptyLoop (check : Bool) (tg : Nat) : Nat → Prober → Table K V → Out (Table K V) (Nat × Nat)
  | 0, _, _ => .diverge
  | f + 1, pr, t =>
    if t.writable pr.get then
      let m := L.matchEmpty (t.grp pr.get)
      if m ≠ 0 then
        let p := bsf32 m
        let g' := L.setUsed (t.grp pr.get) p tg
        let thr' := if check && L.bump && L.isOverflow g' tg then (t.thr + 1) % W else t.thr
        .ok { t with grp := upd t.grp pr.get g', thr := thr' } (pr.get, p)
      else
        findEmptyLoop check tg f (pr.next t.gmask).1
          { t with grp := upd t.grp pr.get (L.setOverflow (t.grp pr.get) tg) }
    else .ub

/-- `find_empty_to_insert` for a key. -/
def findEmpty (check : Bool) (k : K) (t : Table K V) : Out (Table K V) (Nat × Nat) :=
  findEmptyLoop L check (L.tag (E.h k)) (t.gmask + 2) (Prober.mk0 (t.home E k)) t

/-- `SlotPolicyTraits::construct(slot, ...)` followed by `slot_size_++` (T15:2521-2522, 2449-2451,
2478-2479 and the other overloads; T16 likewise).  When the element constructor throws,
nothing after it runs. -/
def constructAt (ctor : Bool) (i : Nat) (e : K × V) (t : Table K V) : Out (Table K V) Unit :=
  if t.alloc && decide (i < t.slotCap L) then
    if ctor then .ok { t with slot := upd t.slot i (some e), size := (t.size + 1) % W } ()
    else .throw t
  else .ub

/-- `no_grow_unique_insert(slot)` / `no_grow_unique_transfer_insert` (T15:2430-2481, T16:2254-2305). -/
def uniqueInsert (e : K × V) (t : Table K V) : Out (Table K V) Unit :=
  (findEmpty L E false e.1 t).bind fun t' gp => constructAt L true (gp.1 * L.S + gp.2) e t'

/-! #### Storage -/

/-- `run_time::is_pow2` (support/Power2.h:50-59). -/
def isPow2 (n : Nat) : Bool := n &&& (n - 1) == 0

/-- `run_time::round_up<size_t, 32>` (support/Power2.h:256-278) for `n > 1`:
`1 << (bsr64(n - 1) + 1)`; the shift is over-long (undefined) when `n > 2^63`. -/
def roundUp (n : Nat) : Res Nat :=
  if n ≤ 2 ^ 63 then .ok (2 ^ (Nat.log2 (n - 1) + 1)) else .ub

/-- `calc_capacity(init_capacity)` (T15:1213-1220, T16:1161-1168). -/
def calcCapacity (size n : Nat) : Res Nat :=
  let c := max (max n 32) size
  if isPow2 c then .ok c else roundUp c

/-- `calc_slot_threshold` (T15:1242-1245, T16:1177-1180). -/
def calcThr (mlf slotCap : Nat) : Nat :=
  if slotCap > 32 then (slotCap * mlf % W) / 256 else slotCap

/-- `calc_index_shift` (T15:1247-1254, T16:1182-1189); `bsr` of a power of two is its logarithm. -/
def calcShift (cap : Nat) : Nat := 64 - (if cap / 16 ≤ 2 then 1 else Nat.log2 (cap / 16))

/-- `shrink_to_fit_capacity` (T15:1297-1300, T16:1222-1225). -/
def fitCapacity (mlf n : Nat) : Nat := (n * 256 % W) / mlf

/-- A request for more than `capLimit` control bytes.  The byte count that the allocator is asked for may then have
wrapped around (`C28_wrapped_block_too_small`), so that the allocator's consent does not mean that there is enough memory. -/
def wrapRisk (mem : Bool) (n : Nat) : Bool := L.oneBlock && mem && decide (capLimit < n)

/-- `create_slots(new_capacity)` (T15:2049-2105, T16:1933-1980).  The allocation comes first; when it
throws no member has been modified (T16 allocates twice; the leak of the first block when the
second allocation throws is not visible in the members and not modelled). -/
def createSlots (mem : Bool) (cap : Nat) (t : Table K V) : Out (Table K V) Unit :=
  if mem && decide (cap ≤ capLimit) then
    let G := (cap + 15) / 16
    .ok { alloc := true
          grp := fun g => if g + 1 = G then L.markTail L.init else L.init
          slot := fun _ => none
          size := 0
          thr := calcThr t.mlf (L.slotCap G)
          gmask := G - 1
          shift := calcShift cap
          mlf := t.mlf } ()
  else .throw t

/-- Positions visited by the loop over all groups in `rehash_impl` (T15:2137-2156, T16:2013-2024) and
`clear_slots` (T15:1606-1623, T16:1563-1572): in every group the used positions in ascending
order, stopping at the sentinel. -/
def usedPos (t : Table K V) : List (Nat × Nat) :=
  (List.range (t.gmask + 1)).flatMap fun g =>
    ((bitsOf (L.matchUsed (t.grp g))).takeWhile fun p => !L.isSentinel (t.grp g) p).map fun p => (g, p)

/-- Body of the loops above in `rehash_impl`: move the old elements into the new storage. -/
def transferAll (old : Table K V) : List (Nat × Nat) → Table K V → Out (Table K V) Unit
  | [], t => .ok t ()
  | (g, p) :: r, t =>
    match old.slot (g * L.S + p) with
    | none => .ub
    | some e => (uniqueInsert L E e t).bind fun t' _ => transferAll old r t'

/-- `rehash_impl<AllowShrink>(n)` (T15:2109-2182, T16:1984-2046). -/
def rehashImpl (shrink mem : Bool) (n : Nat) (t : Table K V) : Out (Table K V) Unit :=
  match calcCapacity t.size n with
  | .ub => .ub
  | .diverge => .diverge
  | .ok cap =>
    if (!shrink && decide (cap > t.ctrlCap L)) || (shrink && decide (cap ≠ t.ctrlCap L)) then
      (createSlots L mem cap t).bind fun t1 _ =>
        if t.alloc then transferAll L E t (usedPos L t) t1 else .ok t1 ()
    else .ok t ()

/-- `grow_if_necessary()` (T15:1958-1962, T16:1851-1855). -/
def grow (mem : Bool) (t : Table K V) : Out (Table K V) Unit :=
  rehashImpl L E false mem (t.ctrlCap L * 2 % W) t

/-- `find_or_insert(key)` (T15:2393-2427, T16:2217-2251); the flag is `kNeedInsert`. -/
def findOrInsert (mem : Bool) (k : K) (t : Table K V) : Out (Table K V) ((Nat × Nat) × Bool) :=
  match find L E t k with
  | .ub => .ub
  | .diverge => .diverge
  | .ok (some gp) => .ok t (gp, false)
  | .ok none =>
    (if t.size ≥ t.thr then grow L E mem t else .ok t ()).bind fun t1 _ =>
      (findEmpty L E true k t1).bind fun t2 gp => .ok t2 (gp, true)

/-- `emplace_impl<AlwaysUpdate>` and `try_emplace_impl` (T15:2513-2761, T16:2337-2586): `update` is
`AlwaysUpdate`; `insert`, `emplace`, `try_emplace`, `operator[]` use `update = false`,
`insert_or_assign` uses `true`.  Result: slot index of the returned iterator and the flag
"inserted".  The overload taking arbitrary constructor arguments through a temporary slot
(T15:2692-2719) is not covered. -/
def emplace (update mem ctor : Bool) (k : K) (v : V) (t : Table K V) :
    Out (Table K V) (Nat × Bool) :=
  (findOrInsert L E mem k t).bind fun t1 r =>
    let i := r.1.1 * L.S + r.1.2
    if r.2 then (constructAt L ctor i (k, v) t1).bind fun t2 _ => .ok t2 (i, true)
    else if update then
      match t1.slot i with
      | none => .ub
      | some e => .ok { t1 with slot := upd t1.slot i (some (e.1, v)) } (i, false)
    else .ok t1 (i, false)

/-! #### Erasure -/

/-- `erase_slot` with `reset_ctrl` (T15:2764-2801, T16:2588-2613). -/
def eraseAt (g p : Nat) (t : Table K V) : Out (Table K V) Unit :=
  match t.slot (g * L.S + p) with
  | none => .ub
  | some _ =>
    if t.writable g then
      let b := if L.isOverflow (t.grp g) (L.value (t.grp g) p) then 1 else 0
      .ok { t with
            slot := upd t.slot (g * L.S + p) none
            grp := upd t.grp g (L.setEmpty (t.grp g) p)
            thr := (t.thr + W - b) % W
            size := (t.size + W - 1) % W } ()
    else .ub

/-- `find_and_erase(key)` (T15:2804-2816, T16:2615-2628): number of erased elements. -/
def eraseKey (k : K) (t : Table K V) : Out (Table K V) Nat :=
  match find L E t k with
  | .ub => .ub
  | .diverge => .diverge
  | .ok none => .ok t 0
  | .ok (some (g, p)) => (eraseAt L g p t).bind fun t' _ => .ok t' 1

/-! #### Whole-table operations -/

/-- Every position visited by `clear_slots` holds an element (otherwise a destructor would run on
raw memory). -/
def destroyable (t : Table K V) : Bool :=
  !t.alloc || (usedPos L t).all fun gp => (t.slot (gp.1 * L.S + gp.2)).isSome

/-- `destroy<true>()` (T15:1491-1548, T16:1459-1514). -/
def destroy (t : Table K V) : Out (Table K V) Unit :=
  if destroyable L t then .ok (emptyTable L t.mlf) () else .ub

/-- `clear_data()` (T15:1584-1591, T16:1543-1547): destroys the elements, resets the groups, writes the
sentinel (T15 only).  The threshold is left as it is.  `init_groups` skips the static groups
(T15:1558, T16:1524) but `set_sentinel_mark` does not. -/
def clearData (t : Table K V) : Out (Table K V) Unit :=
  if destroyable L t then
    if t.alloc then
      .ok { t with
            grp := fun g => if g = t.gmask then L.markTail L.init else L.init
            slot := fun _ => none
            size := 0 } ()
    else if L.clearMarks then .ub
    else .ok { t with size := 0 } ()
  else .ub

/-- `clear(need_destroy)` (T15:823-830, T16:771-778). -/
def clear (needDestroy : Bool) (t : Table K V) : Out (Table K V) Unit :=
  if needDestroy then destroy L t else clearData L t

/-- `reserve(n)` (T15:732-739, T16:668-675). -/
def reserve (mem : Bool) (n : Nat) (t : Table K V) : Out (Table K V) Unit :=
  if n ≠ 0 then rehashImpl L E false mem (fitCapacity t.mlf n) t else destroy L t

/-- `rehash(n)` (T15:750-758, T16:696-704). -/
def rehash (mem : Bool) (n : Nat) (t : Table K V) : Out (Table K V) Unit :=
  let c := max (fitCapacity t.mlf t.size) n
  if c ≠ 0 then rehashImpl L E L.rehashShrinks mem c t else destroy L t

/-- `shrink_to_fit(read_only)` (T15:761-772, T16:707-718). -/
def shrinkToFit (mem readOnly : Bool) (t : Table K V) : Out (Table K V) Unit :=
  let c := if readOnly then t.size else fitCapacity t.mlf t.size
  if c ≠ 0 then rehashImpl L E true mem c t else destroy L t

/-- `max_load_factor(f)` (T15:620-634, T16:579-593); `m` is the integer obtained from the float after clamping
to [0.5, 0.875] and truncating `256 f`, so `128 ≤ m ≤ 224` (`F32.C124_group_set`). -/
def setMlf (mem : Bool) (m : Nat) (t : Table K V) : Out (Table K V) Unit :=
  let t := { t with mlf := m }
  match calcCapacity t.size (fitCapacity m (t.ctrlCap L)) with
  | .ub => .ub
  | .diverge => .diverge
  | .ok cap => if cap > t.ctrlCap L then rehash L E mem cap t else .ok t ()

/-- Constructor with a capacity (T15:282-308 with `reserve_for_insert` 713-720; T16:277-303, 678-685). -/
def construct (mem : Bool) (n : Nat) : Out (Table K V) Unit :=
  let t : Table K V := emptyTable L 224
  if n ≠ 0 then
    match calcCapacity 0 (fitCapacity 224 n) with
    | .ub => .ub
    | .diverge => .diverge
    | .ok cap => if wrapRisk L mem cap then .ub else createSlots L mem cap t
  else .ok t ()

/-- The elements held by the table, in slot order.  Specification device, not a function of the library. -/
def entries (t : Table K V) : List (K × V) :=
  (List.range ((t.gmask + 1) * L.S)).filterMap t.slot

end Model
end Verif
