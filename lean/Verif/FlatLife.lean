/-
Lifetimes in `flat16_hash_map` (C122): which element objects and memory blocks the map creates and gives up.  The map of
`Verif.Flat` is run together with a log of memory events; `Heap.step` of `Verif.Lifetime`, which knows nothing about hash
tables, decides whether the log is in order.

FL = src/jstd/hashmap/flat16_hash_map.h.

The element type has a destructor that does something.  Simplifications beyond those of `Verif.Flat`:
* `swap_slot` (FL:2060-2070) exchanges the values of two live objects; what it constructs and destroys inside is not logged.
* Control words have no lifetime of their own.  `delete[]` finds the length of the block itself; the log names the length that
  `group_mask_` gives.
-/
import Verif.Lifetime
import Verif.FlatBugs

namespace Verif.Flat.Track
open Verif
open Verif.Spec (Call Ans Distinct)
open Verif.Life (Ev Heap step_ctor step_free step_alloc)

/-- A map, the block that `slots_` points to, the block that `groups_` points to, the first number not used yet, the log. -/
structure LT (K V : Type) where
  t : Map K V
  blk : Nat
  gblk : Nat
  next : Nat
  log : List Ev

section Model
variable {K V : Type} (E : Env K) (sec : Nat → Nat)

/-- Add events to the log. -/
def emit (l : List Ev) (s : LT K V) : LT K V := { s with log := s.log ++ l }

/-- `create_group(c)`, see `Flat.createGroup` (FL:1874-1921): first the groups are obtained (FL:1886) and `groups_` is
overwritten, then the slots (FL:1911). -/
def createE (mem : Mem) (c : Nat) (s : LT K V) : Out (LT K V) Unit :=
  match createGroup mem c s.t with
  | .ok t1 _ =>
    .ok (emit [.alloc s.next ((c + 15) / 16 - 1 + 2), .alloc (s.next + 1) c]
      { s with t := t1, gblk := s.next, blk := s.next + 1, next := s.next + 2 }) ()
  | .throw t' =>
    if mem = .noGroups ∨ memLimit < c then .throw { s with t := t' }
    else .throw (emit [.alloc s.next ((c + 15) / 16 - 1 + 2)] { s with t := t', gblk := s.next, next := s.next + 2 })
  | .diverge => .diverge
  | .ub => .ub

/-- `move_insert_unique(slot)`, see `Flat.insertUnique` (FL:2290-2310). -/
def insertUniqueE (e : K × V) (s : LT K V) : Res (LT K V) :=
  (firstEmpty E s.t e.1).bind fun j =>
    .ok (emit [.ctor s.blk j]
      { s with t := { setUsed s.t j (tagOf E sec e.1) with slot := upd s.t.slot j (some e), size := s.t.size + 1 } })

/-- The loop of `rehash_impl` over the old slots, see `Flat.transferAll` (FL:1965-1978, 2000-2008): every old element is destroyed
after it has been moved (FL:1973-1975, 2003-2005). -/
def transferAllE (old : Map K V) (bo : Nat) : List Nat → LT K V → Res (LT K V)
  | [], s => .ok s
  | i :: is, s =>
    match old.slot i with
    | none => .ub
    | some e => (insertUniqueE E sec e s).bind fun s' => transferAllE old bo is (emit [.dtor bo i] s')

/-- The slots and the groups are given back, with the counts of `t` (FL:1762-1764, 1741-1744 in `destroy`; FL:2015-2019 in
`rehash_impl`). -/
def freeEv (t : Map K V) (b g : Nat) : List Ev := [.free b (cap t), .free g (t.gmask + 2)]

/-- `rehash_impl`, see `Flat.rehashImpl` (FL:1923-2021). -/
def rehashImplE (allowShrink always : Bool) (mem : Mem) (n : Nat) (s : LT K V) : Out (LT K V) Unit :=
  match calcCapacity n with
  | .ub => .ub
  | .diverge => .diverge
  | .ok c =>
    if always || (!allowShrink && decide (cap s.t < c)) || (allowShrink && c != cap s.t) then
      match createE mem c s with
      | .ok s1 _ =>
        match transferAllE E sec s.t s.blk (usedIdx s.t) s1 with
        | .ok s2 =>
          .ok (emit (freeEv s.t s.blk s.gblk) { s2 with t := { s2.t with left := (s2.t.left + W - s2.t.size % W) % W } }) ()
        | .diverge => .diverge
        | .ub => .ub
      | .throw s' => .throw s'
      | .diverge => .diverge
      | .ub => .ub
    else .ok s ()

/-- The loop of `drop_deleted_no_grow`, see `Flat.dropLoop` (FL:2129-2169); `transfer_slot` (FL:2044-2058) constructs the new element
and destroys the old one. -/
def dropLoopE : Nat → Nat → LT K V → Res (LT K V)
  | 0, i, s => if i < cap s.t then .diverge else .ok s
  | f + 1, i, s =>
    if i < cap s.t then
      if s.t.ctrl i = bDeleted then dropLoopE f (i + 1) s
      else
        match s.t.slot i with
        | none => .ub
        | some e =>
          (firstNonUsed E s.t e.1).bind fun j =>
            if j ≤ i ∧ i - j < 16 then dropLoopE f (i + 1) { s with t := setUsed s.t i (tagOf E sec e.1) }
            else if s.t.ctrl j = bEmpty then
              dropLoopE f (i + 1) (emit [.ctor s.blk j, .dtor s.blk i]
                { s with t := { setUnused (setUsed s.t j (tagOf E sec e.1)) i bEmpty with slot := upd (upd s.t.slot j (some e)) i none } })
            else
              match s.t.slot j with
              | none => .ub
              | some e' =>
                dropLoopE f i { s with t := { setUsed s.t j (tagOf E sec e.1) with slot := upd (upd s.t.slot j (some e)) i (some e') } }
    else .ok s

/-- `drop_deleted_no_grow()`, see `Flat.dropDeleted` (FL:2105-2172). -/
def dropDeletedE (s : LT K V) : Out (LT K V) Unit :=
  match dropLoopE E sec (2 * cap s.t) 0 { s with t := convertAll s.t } with
  | .ok s' => .ok { s' with t := { s'.t with left := (thr s'.t + W - s'.t.size % W) % W } } ()
  | .diverge => .diverge
  | .ub => .ub

/-- `reorder_or_grow_if_necessary()`, see `Flat.reorderOrGrow` (FL:1856-1866). -/
def reorderOrGrowE (mem : Mem) (s : LT K V) : Out (LT K V) Unit :=
  if reorders s.t then dropDeletedE E sec s else rehashImplE E sec false true mem (cap s.t * 2 % W) s

/-- A read-only result. -/
def liftE {α β : Type} (r : Res α) (f : α → Out (LT K V) β) : Out (LT K V) β :=
  match r with
  | .ok a => f a
  | .diverge => .diverge
  | .ub => .ub

/-- `find_and_prepare_insert(key)`, see `Flat.prepare` (FL:2363-2445). -/
def prepareE (mem : Mem) (k : K) : Nat → LT K V → Out (LT K V) (Nat × Bool)
  | 0, _ => .diverge
  | f + 1, s =>
    liftE (probe E sec s.t k) fun
      | .hit j => .ok s (j, true)
      | .full => (reorderOrGrowE E sec mem s).bind fun s' _ => prepareE mem k f s'
      | .stop i =>
        if s.t.left = 0 then (reorderOrGrowE E sec mem s).bind fun s' _ => prepareE mem k f s'
        else
          liftE (delLoop s.t (home E s.t k) i (cap s.t) (home E s.t k)) fun
            | some j => .ok s (j, false)
            | none => .ok { s with t := { s.t with left := s.t.left - 1 } } ((i + bsf32 (matchEmpty s.t i)) &&& s.t.mask, false)

/-- `emplace_impl<AlwaysUpdate>`, see `Flat.emplace` (FL:2447-2706).  Only the construction of a new element is an event. -/
def emplaceE (update : Bool) (mem : Mem) (ctor : Bool) (k : K) (v : V) (s : LT K V) : Out (LT K V) (Nat × Bool) :=
  (prepareE E sec mem k 64 s).bind fun s' r =>
    if r.2 then
      match s'.t.slot r.1 with
      | none => .ub
      | some e => .ok (if update then { s' with t := { s'.t with slot := upd s'.t.slot r.1 (some (e.1, v)) } } else s') (r.1, false)
    else if ctor then
      .ok (emit [.ctor s'.blk r.1]
        { s' with t := { setUsed s'.t r.1 (tagOf E sec k) with slot := upd s'.t.slot r.1 (some (k, v)), size := s'.t.size + 1 } }) (r.1, true)
    else .throw { s' with t := setUsed s'.t r.1 (tagOf E sec k) }

/-- `erase_slot(i)`, see `Flat.eraseSlot` (FL:2739-2775): the element is destroyed at the end (FL:2772). -/
def eraseSlotE (i : Nat) (s : LT K V) : Res (LT K V) :=
  (eraseSlot i s.t).bind fun t' => .ok (emit [.dtor s.blk i] { s with t := t' })

/-- `erase(key)`, see `Flat.eraseKey` (FL:1479-1482, 2708-2736). -/
def eraseKeyE (k : K) (s : LT K V) : Out (LT K V) Nat :=
  liftE (findIdx E sec s.t k) fun
    | some i => liftE (eraseSlotE i s) fun s' => .ok s' 1
    | none => .ok s 0

/-- The elements that `destroy_slots` destroys: those with a used control byte (FL:1753-1760). -/
def destroyEv (t : Map K V) (b : Nat) : List Ev := (usedIdx t).map (Ev.dtor b)

/-- `destroy<true>()` (FL:1724-1769), also the destructor (FL:1072-1074). -/
def destroyE (s : LT K V) : LT K V := emit (destroyEv s.t s.blk ++ freeEv s.t s.blk s.gblk) s

/-- `clear(need_destroy)`, see `Flat.clear` (FL:1257-1269).  It is `noexcept`: a failed request ends the program. -/
def clearE (destroy : Bool) (s : LT K V) : Out (LT K V) Unit :=
  if 4 < cap s.t && destroy then createE .ok 4 (destroyE s)
  else
    liftE (destroySlots false s.t) fun t' =>
      .ok (emit (destroyEv s.t s.blk)
        { s with t := { t' with ctrl := fun i => if i < s.t.gmask + 16 then bEmpty else s.t.ctrl i, left := thr s.t } }) ()

/-- `rehash(n, read_only)`, `reserve`, see `Flat.rehash` (FL:1271-1285). -/
def rehashE (mem : Mem) (readOnly : Bool) (n : Nat) (s : LT K V) : Out (LT K V) Unit :=
  rehashImplE E sec true false mem (if readOnly then max n s.t.size else max (minRequire s.t n) s.t.size) s

/-- `shrink_to_fit(read_only)`, see `Flat.shrinkToFit` (FL:1287-1294). -/
def shrinkE (mem : Mem) (readOnly : Bool) (s : LT K V) : Out (LT K V) Unit :=
  rehashImplE E sec true false mem (if readOnly then s.t.size else minRequire s.t s.t.size) s

/-- `max_load_factor(mlf)`, see `Flat.setMlf` (FL:1128-1153). -/
def setMlfE (mem : Mem) (m r : Nat) (s : LT K V) : Out (LT K V) Unit :=
  let s1 := { s with t := { s.t with mlf := m, rev := r } }
  if thr s1.t < usedCount s.t then
    if cap s.t ≤ 32 ∨ (usedCount s.t + W - s.t.size % W) % W < cap s.t / 8 ∨ cap s.t < minRequire s1.t s.t.size then
      rehashE E sec mem false s.t.size s1
    else dropDeletedE E sec s1
  else .ok s1 ()

/-- Constructor with a requested capacity, see `Flat.make` (FL:928-947). -/
def makeE (mem : Mem) (n : Nat) : Out (LT K V) Unit :=
  match calcCapacity n with
  | .ub => .ub
  | .diverge => .diverge
  | .ok c => createE mem c { t := blank, blk := 0, gblk := 0, next := 1, log := [] }

/-- The caller dereferences the returned iterator. -/
def readElemE (s : LT K V) (r : Nat × Bool) : Out (LT K V) (Ans K V) :=
  match s.t.slot r.1 with
  | none => .ub
  | some e => .ok s (.elem e r.2)

/-- `operator[]` returns a reference to the mapped value (FL:1302-1308). -/
def readValueE (s : LT K V) (r : Nat × Bool) : Out (LT K V) (Ans K V) :=
  match s.t.slot r.1 with
  | none => .ub
  | some e => .ok s (.value (some e.2))

/-- One call, see `Flat.exec`. -/
def execE (rv : Nat → Nat) (mem : Mem) : Call K V → LT K V → Out (LT K V) (Ans K V)
  | .insert k v, s => (emplaceE E sec false mem true k v s).bind readElemE
  | .assign k v, s => (emplaceE E sec true mem true k v s).bind readElemE
  | .index k d, s => (emplaceE E sec false mem true k d s).bind readValueE
  | .find k, s => liftE (lookup E sec s.t k) fun o => .ok s (.found o)
  | .contains k, s => liftE (contains E sec s.t k) fun b => .ok s (.bool b)
  | .count k, s => liftE (count E sec s.t k) fun n => .ok s (.num n)
  | .at _, _ => .ub
  | .erase k, s => (eraseKeyE E sec k s).bind fun s' n => .ok s' (.num n)
  | .size, s => .ok s (.num s.t.size)
  | .empty, s => .ok s (.bool (s.t.size == 0))
  | .clear d, s => (clearE d s).bind fun s' _ => .ok s' .unit
  | .reserve n, s => (rehashE E sec mem false n s).bind fun s' _ => .ok s' .unit
  | .rehash n, s => (rehashE E sec mem false n s).bind fun s' _ => .ok s' .unit
  | .shrink ro, s => (shrinkE E sec mem ro s).bind fun s' _ => .ok s' .unit
  | .maxLoad m, s => (setMlfE E sec mem (m % 2 ^ 32) (rv m) s).bind fun s' _ => .ok s' .unit
  | .iterate, s => liftE (walk s.t) fun l => .ok s (.items l)

/-- A history: calls paired with the allocator's answers.  After an exception the caller goes on with the object. -/
def runE (rv : Nat → Nat) : List (Mem × Call K V) → LT K V → Res (List (Ans K V) × LT K V)
  | [], s => .ok ([], s)
  | (mem, c) :: cs, s =>
    match execE E sec rv mem c s with
    | .ub => .ub
    | .diverge => .diverge
    | .throw s' => (runE rv cs s').bind fun r => .ok (.threw :: r.1, r.2)
    | .ok s' a => (runE rv cs s').bind fun r => .ok (a :: r.1, r.2)

end Model

variable {K V : Type} {E : Env K} {sec : Nat → Nat}

/-! ### The log and the heap -/

/-- The log is in order; after it the heap holds the two blocks of the map, and the objects alive are the elements of the map. -/
structure Led (s : LT K V) (h : Heap) : Prop where
  run : Heap.run s.log Heap.empty = some h
  blocks : h.blocks = [(s.blk, cap s.t), (s.gblk, s.t.gmask + 2)]
  live : ∀ b i, (b, i) ∈ h.live ↔ b = s.blk ∧ (s.t.slot i).isSome = true
  nodup : h.live.Nodup
  blk_lt : s.blk < s.next
  gblk_lt : s.gblk < s.next
  ne : s.blk ≠ s.gblk

/-- The log of `s` is in order. -/
def Fine (s : LT K V) : Prop := ∃ h, Led s h

/-- The outcome with the log is that of the plain model, and the log is in order. -/
def Same {α : Type} : Out (LT K V) α → Out (Map K V) α → Prop
  | .ok s a, .ok t b => s.t = t ∧ a = b ∧ Fine s
  | .throw s, .throw t => s.t = t ∧ Fine s
  | .diverge, .diverge => True
  | .ub, .ub => True
  | _, _ => False

theorem Same.bind {α β : Type} {o : Out (LT K V) α} {o' : Out (Map K V) α} (h : Same o o') {f : LT K V → α → Out (LT K V) β}
    {g : Map K V → α → Out (Map K V) β} (hf : ∀ s a, Fine s → o' = .ok s.t a → Same (f s a) (g s.t a)) :
    Same (o.bind f) (o'.bind g) := by
  match o, o', h with
  | .ok s a, .ok t b, ⟨h1, h2, h3⟩ => subst h1; subst h2; exact hf s a h3 rfl
  | .throw s, .throw t, h => exact h
  | .diverge, .diverge, _ => trivial
  | .ub, .ub, _ => trivial

theorem Same.lift {α β : Type} {r : Res α} {f : α → Out (LT K V) β} {g : α → Out (Map K V) β} (h : ∀ a, r = .ok a → Same (f a) (g a)) :
    Same (liftE r f) (Flat.lift r g) := by
  cases r with
  | ok a => exact h a rfl
  | diverge => trivial
  | ub => trivial

theorem step_dtor {h : Heap} {b i : Nat} (hl : (b, i) ∈ h.live) : h.step (.dtor b i) = some { h with live := h.live.erase (b, i) } := by
  have : h.live.contains (b, i) = true := List.contains_iff_mem.mpr hl
  simp only [Heap.step, this, if_true]

theorem Led.congr {s : LT K V} {h : Heap} (hl : Led s h) {t' : Map K V} (h1 : t'.mask = s.t.mask) (h2 : t'.gmask = s.t.gmask)
    (h3 : ∀ i, (t'.slot i).isSome = (s.t.slot i).isSome) : Led { s with t := t' } h := by
  refine ⟨hl.run, ?_, ?_, hl.nodup, hl.blk_lt, hl.gblk_lt, hl.ne⟩
  · rw [hl.blocks]
    show _ = [(s.blk, t'.mask + 1), (s.gblk, t'.gmask + 2)]
    rw [h1, h2]; rfl
  · intro b i
    rw [hl.live]
    show _ ↔ _ ∧ (t'.slot i).isSome = true
    rw [h3]

/-- A new element. -/
theorem Led.put {s : LT K V} {h : Heap} (hl : Led s h) {i : Nat} (hi : i < cap s.t) (hn : s.t.slot i = none) {t' : Map K V} {e : K × V}
    (h1 : t'.mask = s.t.mask) (h2 : t'.gmask = s.t.gmask) (h3 : t'.slot = upd s.t.slot i (some e)) :
    Fine (emit [.ctor s.blk i] { s with t := t' }) := by
  have hm : (s.blk, i) ∉ h.live := by rw [hl.live, hn]; simp
  refine ⟨{ h with live := (s.blk, i) :: h.live }, ?_, ?_, ?_, List.nodup_cons.mpr ⟨hm, hl.nodup⟩, hl.blk_lt, hl.gblk_lt, hl.ne⟩
  · show Heap.run (s.log ++ [.ctor s.blk i]) _ = _
    rw [Life.run_append, hl.run]
    simp only [Option.bind_some, Heap.run]
    rw [step_ctor (n := cap s.t) (by rw [hl.blocks]; simp) hi hm]
    rfl
  · show h.blocks = [(s.blk, t'.mask + 1), (s.gblk, t'.gmask + 2)]
    rw [hl.blocks, h1, h2]; rfl
  · intro b j
    show (b, j) ∈ (s.blk, i) :: h.live ↔ b = s.blk ∧ (t'.slot j).isSome = true
    rw [List.mem_cons, hl.live, h3, Prod.mk.injEq]
    by_cases hj : j = i
    · subst hj; rw [upd_self]; simp [hn]
    · rw [upd_other _ _ hj]; simp [hj]

/-- An element is gone. -/
theorem Led.drop {s : LT K V} {h : Heap} (hl : Led s h) {i : Nat} {e : K × V} (he : s.t.slot i = some e) {t' : Map K V}
    (h1 : t'.mask = s.t.mask) (h2 : t'.gmask = s.t.gmask) (h3 : t'.slot = upd s.t.slot i none) :
    Fine (emit [.dtor s.blk i] { s with t := t' }) := by
  have hm : (s.blk, i) ∈ h.live := by rw [hl.live, he]; simp
  refine ⟨{ h with live := h.live.erase (s.blk, i) }, ?_, ?_, ?_, hl.nodup.erase _, hl.blk_lt, hl.gblk_lt, hl.ne⟩
  · show Heap.run (s.log ++ [.dtor s.blk i]) _ = _
    rw [Life.run_append, hl.run]
    simp only [Option.bind_some, Heap.run]
    rw [step_dtor hm]
    rfl
  · show h.blocks = [(s.blk, t'.mask + 1), (s.gblk, t'.gmask + 2)]
    rw [hl.blocks, h1, h2]; rfl
  · intro b j
    show (b, j) ∈ h.live.erase (s.blk, i) ↔ b = s.blk ∧ (t'.slot j).isSome = true
    rw [List.Nodup.mem_erase_iff hl.nodup, hl.live, h3, ne_eq, Prod.mk.injEq]
    by_cases hj : j = i
    · subst hj
      rw [upd_self]
      simp only [Option.isSome_none, Bool.false_eq_true, and_false, iff_false, and_true]
      rintro ⟨h4, h5, _⟩
      exact h4 h5
    · rw [upd_other _ _ hj]; simp [hj]

theorem mem_usedIdx {t : Map K V} (h : Core E sec t) (i : Nat) : i ∈ usedIdx t ↔ (t.slot i).isSome = true := by
  unfold usedIdx
  rw [List.mem_filter, List.mem_range, decide_eq_true_eq]
  constructor
  · rintro ⟨h1, h2⟩; exact (h.used_iff h1).mp h2
  · intro h1
    have h2 : i < cap t := by
      by_contra hc
      rw [h.tail i (by omega)] at h1
      cases h1
    exact ⟨h2, (h.used_iff h2).mpr h1⟩

theorem nodup_usedIdx (t : Map K V) : (usedIdx t).Nodup := List.nodup_range.filter _

/-! ### Rehash -/

theorem transferE_ok (old : Map K V) (bo : Nat) : ∀ (is : List Nat) (l : List (K × V)) (s : LT K V) (h : Heap), Probed E sec s.t →
    is.map old.slot = l.map some → is.Nodup → occ s.t + l.length < cap s.t → bo ≠ s.blk → (s.blk, cap s.t) ∈ h.blocks →
    h.live.Nodup → (∀ b i, (b, i) ∈ h.live ↔ (b = s.blk ∧ (s.t.slot i).isSome = true) ∨ (b = bo ∧ i ∈ is)) →
    ∃ s' l' h', transferAllE E sec old bo is s = .ok s' ∧ transferAll E sec old is s.t = .ok s'.t ∧ s'.log = s.log ++ l' ∧
      Heap.run l' h = some h' ∧ h'.blocks = h.blocks ∧ h'.live.Nodup ∧
      (∀ b i, (b, i) ∈ h'.live ↔ b = s.blk ∧ (s'.t.slot i).isSome = true) ∧ s'.blk = s.blk ∧ s'.gblk = s.gblk ∧
      s'.next = s.next ∧ s'.t.mask = s.t.mask ∧ s'.t.gmask = s.t.gmask := by
  intro is
  induction is with
  | nil =>
    intro l s h _ _ _ _ _ _ hnd hlive
    exact ⟨s, [], h, rfl, rfl, by simp, rfl, rfl, hnd, fun b i => by rw [hlive]; simp, rfl, rfl, rfl, rfl, rfl⟩
  | cons i is ih =>
    intro l s h hp hml hnd hroom hne hblk hlnd hlive
    cases l with
    | nil => cases hml
    | cons e l =>
      simp only [List.map_cons, List.cons.injEq] at hml
      rw [List.nodup_cons] at hnd
      rw [List.length_cons] at hroom
      obtain ⟨j, f1, f2, f3⟩ := firstEmpty_spec hp.toCore e.1 (by omega)
      have hm1 : (s.blk, j) ∉ h.live := by
        rw [hlive, f2.free]
        rintro (⟨_, hq⟩ | ⟨hq, _⟩)
        · cases hq
        · exact hne hq.symm
      have hs1 : h.step (.ctor s.blk j) = some { h with live := (s.blk, j) :: h.live } := step_ctor hblk f2.lt hm1
      have hnd1 : ((s.blk, j) :: h.live).Nodup := List.nodup_cons.mpr ⟨hm1, hlnd⟩
      have hm2 : (bo, i) ∈ (s.blk, j) :: h.live := List.mem_cons_of_mem _ ((hlive _ _).mpr (Or.inr ⟨rfl, by simp⟩))
      have hs2 := step_dtor (h := { h with live := (s.blk, j) :: h.live }) hm2
      let t1 : Map K V := Flat.put E sec s.t j e
      let s1 : LT K V := emit [.dtor bo i] (emit [.ctor s.blk j] { s with t := t1 })
      have hp1 : Probed E sec t1 := hp.put f2
      have ho1 : occ t1 = occ s.t + 1 := by
        have := occ_put (E := E) (sec := sec) f2.lt e
        rw [f3] at this
        simpa using this
      obtain ⟨s', l', h', g1, g2, g3, g4, g5, g6, g7, g8, g9, g10, g11, g12⟩ := ih l s1
        { h with live := ((s.blk, j) :: h.live).erase (bo, i) } hp1 hml.2 hnd.2 (by
          show occ t1 + l.length < cap s.t
          omega) hne hblk (hnd1.erase _) (by
          intro b x
          show (b, x) ∈ ((s.blk, j) :: h.live).erase (bo, i) ↔ (b = s.blk ∧ (t1.slot x).isSome = true) ∨ (b = bo ∧ x ∈ is)
          rw [List.Nodup.mem_erase_iff hnd1, List.mem_cons, hlive, ne_eq, Prod.mk.injEq, Prod.mk.injEq, List.mem_cons]
          have hsl : t1.slot x = if x = j then some e else s.t.slot x := by
            show upd s.t.slot j (some e) x = _
            by_cases hx : x = j
            · rw [hx, upd_self, if_pos rfl]
            · rw [upd_other _ _ hx, if_neg hx]
          rw [hsl]
          by_cases hb : b = s.blk
          · have hb2 : ¬ b = bo := fun hq => hne (hq.symm.trans hb)
            simp only [hb, hne.symm, false_and, not_false_eq_true, true_and, or_false]
            by_cases hx : x = j
            · simp [hx]
            · simp [hx]
          · simp only [hb, false_and, false_or]
            by_cases hb2 : b = bo
            · simp only [hb2, true_and]
              constructor
              · rintro ⟨h1, h2 | h2⟩
                · exact absurd h2 h1
                · exact h2
              · intro h1
                exact ⟨fun hq => hnd.1 (hq ▸ h1), Or.inr h1⟩
            · simp [hb2])
      refine ⟨s', [.ctor s.blk j, .dtor bo i] ++ l', h', ?_, ?_, ?_, ?_, g5, g6, g7, g8, g9, g10, g11, g12⟩
      · unfold transferAllE
        rw [hml.1]
        simp only
        unfold insertUniqueE
        rw [f1]
        exact g1
      · unfold transferAll
        rw [hml.1]
        simp only
        unfold insertUnique
        rw [f1]
        exact g2
      · rw [g3]
        show s.log ++ [Ev.ctor s.blk j] ++ [Ev.dtor bo i] ++ l' = _
        simp
      · rw [Life.run_append]
        simp only [Heap.run, hs1, Option.bind_some, hs2]
        exact g4

theorem erase_skip {x : Nat × Nat} {l : List (Nat × Nat)} {b n : Nat} (h : x.1 ≠ b) : (x :: l).erase (b, n) = x :: l.erase (b, n) := by
  rw [List.erase_cons, if_neg]
  rw [beq_iff_eq]
  intro hq; exact h (by rw [hq])

theorem erase_hit {x : Nat × Nat} {l : List (Nat × Nat)} : (x :: l).erase x = l := by
  rw [List.erase_cons, if_pos (by simp)]

/-- The outcomes of `rehash_impl` to a capacity with room. -/
theorem rehashImplE_same {s : LT K V} (hf : Fine s) (hc : Core E sec s.t) (sh al : Bool) {mem : Mem} (hmem : mem ≠ .noSlots) (n : Nat)
    (hsz : ∀ c, calcCapacity n = .ok c → s.t.size < c) :
    Same (rehashImplE E sec sh al mem n s) (rehashImpl E sec sh al mem n s.t) := by
  unfold rehashImplE rehashImpl
  cases hcalc : calcCapacity n with
  | ub => trivial
  | diverge => trivial
  | ok c =>
    simp only
    have hlt := hsz c hcalc
    have hcalc' := hcalc
    rw [calcCapacity_eq] at hcalc'
    obtain ⟨j, hj, rfl, _, _⟩ := Robin.calcCapacity_ok hcalc'
    split
    · unfold createE createGroup
      simp only
      by_cases h1 : mem = .noGroups ∨ memLimit < 2 ^ j
      · rw [if_pos h1]
        simp only
        rw [if_pos h1]
        exact ⟨rfl, hf⟩
      · rw [if_neg h1, if_neg hmem]
        rw [not_or] at h1
        simp only
        have hj48 : j ≤ 48 := by
          by_contra hc
          have := Robin.pow_two_le (a := 49) (b := j) (by omega)
          unfold memLimit at h1
          omega
        obtain ⟨f1, f2, f3, f4⟩ := freshMap_inv (K := K) (V := V) (E := E) (sec := sec) hj hj48 s.t.mlf s.t.rev
        obtain ⟨h, hl⟩ := hf
        let g := (2 ^ j + 15) / 16 - 1
        let h1' : Heap := { h with blocks := (s.next + 1, 2 ^ j) :: (s.next, g + 2) :: h.blocks }
        have hrun1 : Heap.run [.alloc s.next (g + 2), .alloc (s.next + 1) (2 ^ j)] h = some h1' := by
          simp only [Heap.run]
          rw [step_alloc (by
            intro x hx
            rw [hl.blocks] at hx
            have := hl.blk_lt
            have := hl.gblk_lt
            simp only [List.mem_cons, List.not_mem_nil, or_false] at hx
            rcases hx with rfl | rfl <;> simp only <;> omega)]
          simp only [Option.bind_some]
          rw [step_alloc (h := { h with blocks := (s.next, g + 2) :: h.blocks }) (by
            intro x hx
            simp only [hl.blocks] at hx
            have := hl.blk_lt
            have := hl.gblk_lt
            simp only [List.mem_cons, List.not_mem_nil, or_false] at hx
            rcases hx with rfl | rfl | rfl <;> simp only <;> omega)]
          rfl
        let s1 : LT K V := emit [.alloc s.next (g + 2), .alloc (s.next + 1) (2 ^ j)]
          { s with t := freshMap (2 ^ j) s.t.mlf s.t.rev, gblk := s.next, blk := s.next + 1, next := s.next + 2 }
        obtain ⟨s', l', h', g1, g2, g3, g4, g5, g6, g7, g8, g9, g10, g11, g12⟩ := transferE_ok s.t s.blk (usedIdx s.t) (entries s.t) s1 h1'
          f1 hc.usedIdx_slots (nodup_usedIdx _) (by
            show occ (freshMap (2 ^ j) s.t.mlf s.t.rev) + _ < cap (freshMap (2 ^ j) s.t.mlf s.t.rev)
            rw [f3, f4, ← hc.size]; omega) (by
            show s.blk ≠ s.next + 1
            have := hl.blk_lt; omega) (by
            show (s.next + 1, cap (freshMap (2 ^ j) s.t.mlf s.t.rev)) ∈ _
            rw [f4]; exact List.mem_cons_self) hl.nodup (by
            intro b i
            show (b, i) ∈ h.live ↔ (_ ∧ ((none : Option (K × V)).isSome = true)) ∨ _
            rw [hl.live, mem_usedIdx hc]
            simp)
        have e1 : transferAllE E sec s.t s.blk (usedIdx s.t) s1 = .ok s' := g1
        have e2 : transferAll E sec s.t (usedIdx s.t) (freshMap (2 ^ j) s.t.mlf s.t.rev) = .ok s'.t := g2
        unfold freshMap at e2
        simp only [s1, g, freshMap] at e1
        rw [e1, e2]
        refine ⟨rfl, rfl, ?_⟩
        have hb1 := hl.blk_lt
        have hb2 := hl.gblk_lt
        have hlive' : ∀ o ∈ h'.live, o.1 = s.next + 1 := by
          rintro ⟨b, i⟩ ho
          exact ((g7 b i).mp ho).1
        have hb0 : h'.blocks = (s.next + 1, 2 ^ j) :: (s.next, g + 2) :: [(s.blk, cap s.t), (s.gblk, s.t.gmask + 2)] := by
          rw [g5, ← hl.blocks]
        have hcap' : cap s'.t = 2 ^ j := by
          unfold cap; rw [g11]; exact f4
        have hg' : s'.t.gmask = g := g12
        suffices hled : Led (emit (freeEv s.t s.blk s.gblk) s') { h' with blocks := [(s.next + 1, 2 ^ j), (s.next, g + 2)] } by
          exact ⟨_, hled.congr (s := emit (freeEv s.t s.blk s.gblk) s')
            (t' := { s'.t with left := (s'.t.left + W - s'.t.size % W) % W }) rfl rfl (fun _ => rfl)⟩
        refine ⟨?_, ?_, ?_, g6, ?_, ?_, ?_⟩
        · show Heap.run (s'.log ++ freeEv s.t s.blk s.gblk) _ = _
          rw [Life.run_append, g3]
          show (Heap.run (s.log ++ [.alloc s.next (g + 2), .alloc (s.next + 1) (2 ^ j)] ++ l') Heap.empty).bind _ = _
          rw [Life.run_append, Life.run_append, hl.run]
          simp only [Option.bind_some]
          rw [hrun1]
          simp only [Option.bind_some]
          rw [g4]
          simp only [Option.bind_some, freeEv, Heap.run]
          rw [step_free (by rw [hb0]; simp) (by intro o ho; rw [hlive' o ho]; omega)]
          simp only [Option.bind_some]
          rw [hb0, erase_skip (by simp only; omega), erase_skip (by simp only; omega), erase_hit]
          rw [step_free (h := { h' with blocks := [(s.next + 1, 2 ^ j), (s.next, g + 2), (s.gblk, s.t.gmask + 2)] })
            (by simp) (by intro o ho; rw [hlive' o ho]; omega)]
          simp only [Option.bind_some]
          rw [erase_skip (by simp only; omega), erase_skip (by simp only; omega), erase_hit]
        · show _ = [(s'.blk, cap s'.t), (s'.gblk, s'.t.gmask + 2)]
          rw [hcap', hg', g8, g9]; rfl
        · intro b i
          show (b, i) ∈ h'.live ↔ b = s'.blk ∧ (s'.t.slot i).isSome = true
          rw [g7, g8]
        · show s'.blk < s'.next
          rw [g8, g10]; show s.next + 1 < s.next + 2; omega
        · show s'.gblk < s'.next
          rw [g9, g10]; show s.next < s.next + 2; omega
        · show s'.blk ≠ s'.gblk
          rw [g8, g9]; show s.next + 1 ≠ s.next; omega
    · exact ⟨rfl, rfl, hf⟩

/-! ### Insertion -/

theorem proj_dropLoopE : ∀ (f i : Nat) (s : LT K V), (dropLoopE E sec f i s).bind (fun s' => .ok s'.t) = dropLoop E sec f i s.t := by
  intro f
  induction f with
  | zero => intro i s; unfold dropLoopE dropLoop; split <;> rfl
  | succ f ih =>
    intro i s
    unfold dropLoopE dropLoop
    split
    · split
      · exact ih _ _
      · cases s.t.slot i with
        | none => rfl
        | some e =>
          simp only
          cases firstNonUsed E s.t e.1 with
          | ub => rfl
          | diverge => rfl
          | ok j =>
            simp only [Res.bind_ok]
            split
            · exact ih _ _
            · split
              · exact ih _ _
              · cases s.t.slot j with
                | none => rfl
                | some e' => exact ih _ _
    · rfl

theorem dropDeletedE_ub {s : LT K V} (h : dropDeleted E sec s.t = .ub) : dropDeletedE E sec s = .ub := by
  unfold dropDeleted at h
  unfold dropDeletedE
  have hp := proj_dropLoopE (E := E) (sec := sec) (2 * cap s.t) 0 { s with t := convertAll s.t }
  simp only at hp
  rw [← hp] at h
  generalize dropLoopE E sec (2 * cap s.t) 0 { s with t := convertAll s.t } = r at h
  cases r with
  | ub => rfl
  | diverge => cases h
  | ok s' => cases h

theorem reorderOrGrowE_same {s : LT K V} (hf : Fine s) (hw : Weak E sec s.t) {mem : Mem} (hmem : mem ≠ .noSlots) {j : Nat}
    (hj : cap s.t = 2 ^ j) : Same (reorderOrGrowE E sec mem s) (reorderOrGrow E sec mem s.t) := by
  cases hre : reorders s.t with
  | true =>
    have hu := reorder_ub_weak hw hre (mem := mem)
    rw [hu]
    unfold reorderOrGrow at hu
    unfold reorderOrGrowE
    rw [if_pos hre] at hu ⊢
    rw [dropDeletedE_ub hu]
    trivial
  | false =>
    unfold reorderOrGrowE reorderOrGrow
    rw [if_neg (by rw [hre]; decide), if_neg (by rw [hre]; decide)]
    apply rehashImplE_same hf hw.toCore _ _ hmem
    intro c hcalc
    rw [calcCapacity_eq] at hcalc
    obtain ⟨i, h1, rfl, h2, _⟩ := Robin.calcCapacity_ok hcalc
    have := hw.cap_le
    have := hw.size_le
    have h4 := hw.cap_ge
    have : cap s.t * 2 % W = cap s.t * 2 := Nat.mod_eq_of_lt (by unfold W; omega)
    omega

theorem prepareE_same {mem : Mem} (hmem : mem ≠ .noSlots) (k : K) : ∀ (f j : Nat) (s : LT K V), Weak E sec s.t → Fine s → cap s.t = 2 ^ j →
    Same (prepareE E sec mem k f s) (prepare E sec mem k f s.t) := by
  intro f
  induction f with
  | zero => intro j s _ _ _; trivial
  | succ f ih =>
    intro j s hw hf hj
    have hgrow : Same ((reorderOrGrowE E sec mem s).bind fun s' _ => prepareE E sec mem k f s')
        ((reorderOrGrow E sec mem s.t).bind fun t' _ => prepare E sec mem k f t') := by
      apply (reorderOrGrowE_same hf hw hmem hj).bind
      intro s1 u hf1 he
      cases hre : reorders s.t with
      | true => rw [reorder_ub_weak hw hre] at he; cases he
      | false =>
        rcases grow_spec hw.toCore hre mem hj with ⟨t1, h1, _, h3⟩ | ⟨t1, h1, _, _⟩
        · rw [h1] at he
          rw [Out.ok.injEq] at he
          have h4 : t1 = s1.t := he.1
          subst h4
          exact ih (j + 1) s1 (h3.weak hw) hf1 h3.cap
        · rw [h1] at he; cases he
    unfold prepareE prepare
    apply Same.lift
    intro p _
    cases p with
    | hit i => exact ⟨rfl, rfl, hf⟩
    | full => exact hgrow
    | stop i =>
      simp only
      split
      · exact hgrow
      · apply Same.lift
        intro r _
        cases r with
        | some j => exact ⟨rfl, rfl, hf⟩
        | none =>
          obtain ⟨h, hl⟩ := hf
          exact ⟨rfl, rfl, h, hl.congr rfl rfl (fun _ => rfl)⟩

theorem emplaceE_same {s : LT K V} (hf : Fine s) (hw : Weak E sec s.t) (update : Bool) {mem : Mem} (hmem : mem ≠ .noSlots) (k : K) (v : V) :
    Same (emplaceE E sec update mem true k v s) (emplace E sec update mem true k v s.t) := by
  obtain ⟨j, h1, h2, h3⟩ := hw.pow
  have hsp := prepare_weak mem k 64 j s.t hw h3 (by omega)
  unfold emplaceE emplace
  apply (prepareE_same hmem k 64 j s hw hf h3).bind
  intro s' r hf' he
  rw [he] at hsp
  obtain ⟨h, hl⟩ := hf'
  obtain ⟨i, b⟩ := r
  cases b with
  | true =>
    simp only [if_true]
    obtain ⟨_, _, _, e, g4, _⟩ := hsp
    rw [g4]
    simp only
    refine ⟨?_, rfl, h, ?_⟩
    · split <;> rfl
    · split
      · refine hl.congr rfl rfl ?_
        intro x
        show (upd s'.t.slot i (some (e.1, v)) x).isSome = _
        by_cases hx : x = i
        · subst hx; rw [upd_self, g4]; rfl
        · rw [upd_other _ _ hx]
      · exact hl
  | false =>
    obtain ⟨_, g2, g3, _⟩ := hsp
    simp only [Bool.false_eq_true, if_false]
    exact ⟨rfl, rfl, hl.put g2 g3 rfl rfl rfl⟩

/-! ### Erasing, clearing -/

theorem eraseKeyE_same {s : LT K V} (hf : Fine s) (hw : Core E sec s.t) (k : K) :
    Same (eraseKeyE E sec k s) (eraseKey E sec k s.t) := by
  unfold eraseKeyE eraseKey
  apply Same.lift
  intro r hr
  cases r with
  | none => exact ⟨rfl, rfl, hf⟩
  | some i =>
    obtain ⟨r', h1, h2⟩ := findIdx_core hw k
    rw [hr] at h1
    rw [Res.ok.injEq] at h1
    obtain ⟨hi, e, he, _⟩ := h2 i h1.symm
    simp only
    unfold eraseSlotE
    rw [eraseSlot_eq hw hi he]
    simp only [Res.bind_ok, liftE, Flat.lift]
    obtain ⟨h, hl⟩ := hf
    refine ⟨rfl, rfl, ?_⟩
    apply hl.drop he
    · split <;> rfl
    · split <;> rfl
    · split <;> rfl

/-- `destroy<true>()`: every element is destroyed, both blocks are given back. -/
theorem destroyE_run {s : LT K V} {h : Heap} (hl : Led s h) (hc : Core E sec s.t) :
    Heap.run (destroyE s).log Heap.empty = some Heap.empty := by
  show Heap.run (s.log ++ (destroyEv s.t s.blk ++ freeEv s.t s.blk s.gblk)) _ = _
  rw [Life.run_append, hl.run]
  simp only [Option.bind_some]
  rw [Life.run_append]
  obtain ⟨h', h1, h2, h3, h4⟩ := Life.run_dtors s.blk (usedIdx s.t) h hl.nodup (nodup_usedIdx _) (by
    intro i hi
    rw [hl.live]
    exact ⟨rfl, (mem_usedIdx hc i).mp hi⟩)
  have h5 : h'.live = [] := by
    rw [List.eq_nil_iff_forall_not_mem]
    rintro ⟨b, i⟩ hm
    rw [h4, hl.live, ← mem_usedIdx hc] at hm
    exact hm.2 hm.1
  unfold destroyEv
  rw [h1]
  simp only [Option.bind_some, freeEv, Heap.run]
  rw [step_free (by rw [h2, hl.blocks]; simp) (by rw [h5]; simp)]
  simp only [Option.bind_some, h2, hl.blocks]
  rw [erase_hit, step_free (by simp) (by simp [h5])]
  simp only [Option.bind_some]
  rw [erase_hit, h5]
  rfl

theorem createE_empty {s : LT K V} (hr : Heap.run s.log Heap.empty = some Heap.empty) {j : Nat} (hj : 2 ≤ j) (mem : Mem) (hmem : mem ≠ .noSlots) :
    Same (createE mem (2 ^ j) s) (createGroup mem (2 ^ j) s.t) ∨ (createE mem (2 ^ j) s = .throw s ∧ createGroup mem (2 ^ j) s.t = .throw s.t) := by
  unfold createE createGroup
  simp only
  by_cases h1 : mem = .noGroups ∨ memLimit < 2 ^ j
  · right
    rw [if_pos h1]
    simp only [if_pos h1, and_true]
  · left
    rw [if_neg h1, if_neg hmem]
    have h4 : 4 ≤ 2 ^ j := Robin.pow_two_le (a := 2) hj
    refine ⟨rfl, rfl, ⟨[(s.next + 1, 2 ^ j), (s.next, (2 ^ j + 15) / 16 - 1 + 2)], []⟩, ?_, ?_, ?_, List.nodup_nil, ?_, ?_, ?_⟩
    · show Heap.run (s.log ++ [.alloc s.next ((2 ^ j + 15) / 16 - 1 + 2), .alloc (s.next + 1) (2 ^ j)]) _ = _
      rw [Life.run_append, hr]
      simp only [Option.bind_some, Heap.run]
      rw [step_alloc (by simp [Heap.empty])]
      simp only [Option.bind_some]
      rw [step_alloc (by simp [Heap.empty])]
      rfl
    · show _ = [(s.next + 1, 2 ^ j - 1 + 1), (s.next, (2 ^ j + 15) / 16 - 1 + 2)]
      rw [Nat.sub_add_cancel (by omega)]
    · intro b i
      show (b, i) ∈ ([] : List (Nat × Nat)) ↔ _ ∧ ((none : Option (K × V)).isSome = true)
      simp
    · show s.next + 1 < s.next + 2; omega
    · show s.next < s.next + 2; omega
    · show s.next + 1 ≠ s.next; omega

/-! ### Histories -/

/-- The calls considered: insertions unless they reorder the table, lookups, any `erase`, `rehash` with room, `clear(true)`. -/
def Fit (t : Map K V) : Call K V → Prop
  | .insert _ _ | .assign _ _ | .index _ _ => reorders t = false
  | .find _ | .contains _ | .count _ | .erase _ | .size | .empty | .iterate => True
  | .rehash n | .reserve n => RoomFor t.size n
  | .shrink ro => t.size < 2 ^ 44 ∧ (ro = true → NotPow t.size)
  | .maxLoad _ => cap t ≤ 32
  | .clear d => d = true ∧ 4 < cap t
  | .at _ => False

/-- A history of such calls, no request for slots failing. -/
def FitAll (E : Env K) (sec : Nat → Nat) (rv : Nat → Nat) : List (Mem × Call K V) → Map K V → Prop
  | [], _ => True
  | (mem, c) :: cs, t => mem ≠ .noSlots ∧ Fit t c ∧
      (∀ t' a, exec E sec rv mem c t = .ok t' a → FitAll E sec rv cs t') ∧
      (∀ t', exec E sec rv mem c t = .throw t' → FitAll E sec rv cs t')

/-- After the call the invariant holds. -/
def Keeps (E : Env K) (sec : Nat → Nat) {α : Type} : Out (Map K V) α → Prop
  | .ok t' _ => Weak E sec t'
  | .throw t' => Weak E sec t'
  | .diverge => False
  | .ub => False

theorem Keeps.bind {α β : Type} {o : Out (Map K V) α} (h : Keeps E sec o) {f : Map K V → α → Out (Map K V) β}
    (hf : ∀ t a, o = .ok t a → Keeps E sec (f t a)) : Keeps E sec (o.bind f) := by
  cases o with
  | ok t a => exact hf t a rfl
  | throw t => exact h
  | diverge => exact h
  | ub => exact h

theorem rehash_keeps {t : Map K V} (h : Weak E sec t) {n : Nat} (h1 : t.size ≤ n) (h2 : n ≤ 2 ^ 63)
    (h3 : NotPow t.size ∨ t.size < n) {mem : Mem} (hmem : mem ≠ .noSlots) : Keeps E sec (rehashImpl E sec true false mem n t) := by
  have hs := rehashImpl_spec h.toCore true false mem n (fun c hc => lt_of_calc hc h1 h3)
  generalize rehashImpl E sec true false mem n t = o at hs
  match o, hs with
  | .ub, hs =>
    have hs' : calcCapacity n = .ub := hs
    rw [calcCapacity_eq] at hs'
    have := Robin.calcCapacity_ub hs'
    exact absurd h2 (by omega)
  | .throw t', ⟨_, g2⟩ =>
    rcases g2 with rfl | g2
    · exact h
    · exact absurd g2 hmem
  | .ok t' u, ⟨cap', _, g2⟩ =>
    rcases g2 with ⟨_, g3⟩ | ⟨rfl, _, _⟩
    · exact g3.weak h
    · exact h

theorem emplace_keeps {t : Map K V} (h : Weak E sec t) (hr : reorders t = false) (update : Bool) {mem : Mem} (hmem : mem ≠ .noSlots) (k : K)
    (v : V) : Keeps E sec (emplace E sec update mem true k v t) ∧
      ∀ t' r, emplace E sec update mem true k v t = .ok t' r → ∃ e, t'.slot r.1 = some e := by
  have := emplace_weak h update mem k v
  generalize emplace E sec update mem true k v t = o at this
  match o, this with
  | .ub, hu => have hu' : reorders t = true := hu; rw [hr] at hu'; cases hu'
  | .throw t', hu => exact ⟨(hu hmem).1, fun _ _ hq => by cases hq⟩
  | .ok t' (i, true), ⟨h1, h2, _⟩ => exact ⟨h1, fun t2 r hq => by cases hq; exact ⟨_, h2⟩⟩
  | .ok t' (i, false), ⟨h1, e, l, _, _, h4⟩ =>
    refine ⟨h1, fun t2 r hq => ?_⟩
    cases hq
    split at h4
    · exact ⟨_, h4.1⟩
    · exact ⟨_, h4.1⟩

theorem rehash_args {t : Map K V} (h : Weak E sec t) {n : Nat} (hr : RoomFor t.size n) :
    t.size ≤ max (minRequire t n) t.size ∧ max (minRequire t n) t.size ≤ 2 ^ 63 ∧
      (NotPow t.size ∨ t.size < max (minRequire t n) t.size) := by
  have hsz : t.size ≤ 2 ^ 48 := Nat.le_trans h.size_le h.cap_le
  have h4 := minRequire_le t n
  refine ⟨by omega, by omega, ?_⟩
  rcases hr with hr | ⟨h5, h6⟩
  · exact Or.inl hr
  · by_cases h7 : t.size < 4
    · exact Or.inl (Or.inl h7)
    · right
      have := minRequire_gt h.rev_lo h.rev_hi (n := n) (by omega) h6
      omega

theorem shrink_args {t : Map K V} (h : Weak E sec t) {ro : Bool} (hs : t.size < 2 ^ 44 ∧ (ro = true → NotPow t.size)) :
    t.size ≤ (if ro then t.size else minRequire t t.size) ∧ (if ro then t.size else minRequire t t.size) ≤ 2 ^ 63 ∧
      (NotPow t.size ∨ t.size < (if ro then t.size else minRequire t t.size)) := by
  have h4 := minRequire_le t t.size
  cases ro with
  | true =>
    simp only [if_true]
    exact ⟨by omega, by omega, Or.inl (hs.2 rfl)⟩
  | false =>
    simp only [Bool.false_eq_true, if_false]
    by_cases h6 : 4 ≤ t.size
    · have := minRequire_gt h.rev_lo h.rev_hi h6 hs.1
      exact ⟨by omega, by omega, Or.inr this⟩
    · have h7 : t.size ≤ minRequire t t.size := by
        unfold minRequire
        have h8 : t.size * t.rev ≤ 4 * 327680 := Nat.mul_le_mul (by omega) h.rev_hi
        have h9 : t.size * 81920 ≤ t.size * t.rev := Nat.mul_le_mul_left _ h.rev_lo
        rw [Nat.mod_eq_of_lt (by unfold W; omega)]
        omega
      exact ⟨h7, by omega, Or.inl (Or.inl (by omega))⟩

/-- One call. -/
theorem execE_ok {rv : Nat → Nat} (hrv : ∀ x, 81920 ≤ rv x ∧ rv x ≤ 327680) {s : LT K V} (hw : Weak E sec s.t) (hf : Fine s) {mem : Mem}
    (hmem : mem ≠ .noSlots) {c : Call K V} (hs : Fit s.t c) :
    Same (execE E sec rv mem c s) (exec E sec rv mem c s.t) ∧ Keeps E sec (exec E sec rv mem c s.t) := by
  have hput : ∀ update k v, reorders s.t = false → Same (emplaceE E sec update mem true k v s) (emplace E sec update mem true k v s.t) ∧
      Keeps E sec (emplace E sec update mem true k v s.t) ∧
      ∀ t' r, emplace E sec update mem true k v s.t = .ok t' r → ∃ e, t'.slot r.1 = some e :=
    fun update k v hr => ⟨emplaceE_same hf hw update hmem k v, emplace_keeps hw hr update hmem k v⟩
  have helem : ∀ update k v, reorders s.t = false → Same ((emplaceE E sec update mem true k v s).bind readElemE)
      ((emplace E sec update mem true k v s.t).bind readElem) ∧ Keeps E sec ((emplace E sec update mem true k v s.t).bind readElem) := by
    intro update k v hr
    obtain ⟨h1, h2, h3⟩ := hput update k v hr
    refine ⟨h1.bind fun s' r hf' he => ?_, h2.bind fun t' r he => ?_⟩
    · obtain ⟨e, he'⟩ := h3 _ _ he
      unfold readElemE readElem
      rw [he']
      exact ⟨rfl, rfl, hf'⟩
    · obtain ⟨e, he'⟩ := h3 _ _ he
      unfold readElem
      rw [he']
      rw [he] at h2
      exact h2
  have hlift : ∀ {α : Type} (r : Res α) (f : α → Ans K V), (∃ a, r = .ok a) →
      Same (liftE r fun a => .ok s (f a)) (Flat.lift r fun a => .ok s.t (f a)) ∧ Keeps E sec (Flat.lift r fun a => .ok s.t (f a)) := by
    rintro α r f ⟨a, rfl⟩
    exact ⟨⟨rfl, rfl, hf⟩, hw⟩
  have hunit : ∀ {o : Out (LT K V) Unit} {o' : Out (Map K V) Unit}, Same o o' → Keeps E sec o' →
      Same (o.bind fun s' _ => .ok s' (Ans.unit : Ans K V)) (o'.bind fun t' _ => .ok t' .unit) ∧
      Keeps E sec (o'.bind fun t' _ => .ok t' (Ans.unit : Ans K V)) := by
    intro o o' h1 h2
    refine ⟨h1.bind fun s' _ hf' _ => ⟨rfl, rfl, hf'⟩, h2.bind fun t' _ he => ?_⟩
    rw [he] at h2; exact h2
  cases c with
  | insert k v => exact helem false k v hs
  | assign k v => exact helem true k v hs
  | index k d =>
    obtain ⟨h1, h2, h3⟩ := hput false k d hs
    refine ⟨h1.bind fun s' r hf' he => ?_, h2.bind fun t' r he => ?_⟩
    · obtain ⟨e, he'⟩ := h3 _ _ he
      unfold readValueE readValue
      rw [he']
      exact ⟨rfl, rfl, hf'⟩
    · obtain ⟨e, he'⟩ := h3 _ _ he
      unfold readValue
      rw [he']
      rw [he] at h2
      exact h2
  | find k =>
    apply hlift
    obtain ⟨r, h1, h2⟩ := findIdx_core hw.toCore k
    unfold lookup
    rw [h1]
    cases r with
    | none => exact ⟨_, rfl⟩
    | some i =>
      obtain ⟨_, e, he, _⟩ := h2 i rfl
      simp only [Res.bind_ok, he]
      exact ⟨_, rfl⟩
  | contains k =>
    apply hlift
    obtain ⟨r, h1, _⟩ := findIdx_core hw.toCore k
    unfold contains
    rw [h1]
    exact ⟨_, rfl⟩
  | count k =>
    apply hlift
    obtain ⟨r, h1, _⟩ := findIdx_core hw.toCore k
    unfold count
    rw [h1]
    exact ⟨_, rfl⟩
  | «at» k => exact hs.elim
  | erase k =>
    refine ⟨(eraseKeyE_same hf hw.toCore k).bind fun s' n hf' _ => ⟨rfl, rfl, hf'⟩, ?_⟩
    simp only [exec]
    rcases eraseKey_weak hw k with ⟨t', e, h1, h2, _⟩ | h1
    · rw [h1]; exact h2
    · rw [h1]; exact hw
  | size => exact ⟨⟨rfl, rfl, hf⟩, hw⟩
  | empty => exact ⟨⟨rfl, rfl, hf⟩, hw⟩
  | clear d =>
    obtain ⟨rfl, h4⟩ : d = true ∧ 4 < cap s.t := hs
    obtain ⟨h, hl⟩ := hf
    have h5 : (decide (4 < cap s.t) && true) = true := by simp [h4]
    have hcl : clear true true s.t = createGroup .ok 4 s.t := by unfold clear; rw [if_pos h5]
    have hcl2 : clearE true s = createE .ok 4 (destroyE s) := by unfold clearE; rw [if_pos h5]
    simp only [execE, exec]
    rw [hcl, hcl2]
    have hk : createGroup .ok 4 s.t = .ok (freshMap 4 s.t.mlf s.t.rev) () := by
      unfold createGroup
      simp only
      rw [if_neg (by unfold memLimit; simp), if_neg (by decide)]
      rfl
    apply hunit
    · rcases createE_empty (s := destroyE s) (destroyE_run hl hw.toCore) (j := 2) (Nat.le_refl _) .ok (by decide) with h6 | ⟨_, h6⟩
      · exact h6
      · have : createGroup .ok (2 ^ 2) (destroyE s).t = createGroup .ok 4 s.t := rfl
        rw [this, hk] at h6; cases h6
    · rw [hk]
      obtain ⟨f1, f2, f3, f4⟩ := freshMap_inv (K := K) (V := V) (E := E) (sec := sec) (j := 2) (Nat.le_refl _) (by omega) s.t.mlf s.t.rev
      exact ⟨f1.toCore, fun hc => by
        have : cap (freshMap 4 s.t.mlf s.t.rev : Map K V) = 4 := f4
        omega, hw.rev_lo, hw.rev_hi⟩
  | reserve n =>
    obtain ⟨a1, a2, a3⟩ := rehash_args hw (n := n) hs
    exact hunit (rehashImplE_same hf hw.toCore true false hmem _ (fun c hc => lt_of_calc hc a1 a3)) (rehash_keeps hw a1 a2 a3 hmem)
  | rehash n =>
    obtain ⟨a1, a2, a3⟩ := rehash_args hw (n := n) hs
    exact hunit (rehashImplE_same hf hw.toCore true false hmem _ (fun c hc => lt_of_calc hc a1 a3)) (rehash_keeps hw a1 a2 a3 hmem)
  | shrink ro =>
    obtain ⟨a1, a2, a3⟩ := shrink_args hw (ro := ro) hs
    exact hunit (rehashImplE_same hf hw.toCore true false hmem _ (fun c hc => lt_of_calc hc a1 a3)) (rehash_keeps hw a1 a2 a3 hmem)
  | maxLoad m =>
    have h32 : cap s.t ≤ 32 := hs
    have hw1 : Weak E sec { s.t with mlf := m % 2 ^ 32, rev := rv m } :=
      ⟨⟨hw.pow, hw.gmask, hw.cell, hw.mirror, hw.tail, hw.size, hw.left⟩, fun hc => by
        have : cap { s.t with mlf := m % 2 ^ 32, rev := rv m } = cap s.t := rfl
        omega, (hrv m).1, (hrv m).2⟩
    have hf1 : Fine { s with t := { s.t with mlf := m % 2 ^ 32, rev := rv m } } := by
      obtain ⟨h, hl⟩ := hf
      exact ⟨h, hl.congr rfl rfl (fun _ => rfl)⟩
    have hsl := hw.size_le
    obtain ⟨a1, a2, a3⟩ := rehash_args hw1 (n := s.t.size) (Or.inr ⟨Nat.le_refl _, by omega⟩)
    have hR := rehashImplE_same hf1 hw1.toCore true false hmem _ (fun c hc => lt_of_calc hc a1 a3)
    have hK := rehash_keeps hw1 a1 a2 a3 hmem
    simp only [execE, exec]
    apply hunit
    · unfold setMlfE setMlf
      simp only
      split
      · rw [if_pos (Or.inl h32), if_pos (Or.inl h32)]
        exact hR
      · exact ⟨rfl, rfl, hf1⟩
    · unfold setMlf
      simp only
      split
      · rw [if_pos (Or.inl h32)]
        exact hK
      · exact hw1
  | iterate =>
    apply hlift
    exact ⟨_, walk_spec hw.toCore⟩

theorem runE_ok {rv : Nat → Nat} (hrv : ∀ x, 81920 ≤ rv x ∧ rv x ≤ 327680) : ∀ (cs : List (Mem × Call K V)) (s : LT K V), Weak E sec s.t → Fine s →
    FitAll E sec rv cs s.t →
    ∃ as s', runE E sec rv cs s = .ok (as, s') ∧ run E sec rv cs s.t = .ok (as, s'.t) ∧ Weak E sec s'.t ∧ Fine s' := by
  intro cs
  induction cs with
  | nil => intro s hw hf _; exact ⟨[], s, rfl, rfl, hw, hf⟩
  | cons p cs ih =>
    intro s hw hf hg
    obtain ⟨mem, c⟩ := p
    obtain ⟨h4, h5, h6, h7⟩ := hg
    obtain ⟨hS, hK⟩ := execE_ok hrv hw hf h4 h5
    unfold runE run
    generalize execE E sec rv mem c s = o at hS
    generalize exec E sec rv mem c s.t = o' at hS hK h6 h7
    match o, o', hS, hK with
    | .ok s1 a, .ok t1 b, ⟨e1, e2, e3⟩, hK =>
      subst e1; subst e2
      obtain ⟨as, s', g1, g2, g3, g4⟩ := ih s1 hK e3 (h6 _ _ rfl)
      refine ⟨a :: as, s', ?_, ?_, g3, g4⟩
      · simp only [g1, Res.bind_ok]
      · simp only [g2, Res.bind_ok]
    | .throw s1, .throw t1, ⟨e1, e3⟩, hK =>
      subst e1
      obtain ⟨as, s', g1, g2, g3, g4⟩ := ih s1 hK e3 (h7 _ rfl)
      refine ⟨.threw :: as, s', ?_, ?_, g3, g4⟩
      · simp only [g1, Res.bind_ok]
      · simp only [g2, Res.bind_ok]

theorem makeE_ok {mem : Mem} {n : Nat} {s : LT K V} (h : makeE mem n = .ok s ()) : make mem n = .ok s.t () ∧ Fine s := by
  unfold makeE at h
  cases hc : calcCapacity n with
  | ub => rw [hc] at h; cases h
  | diverge => rw [hc] at h; cases h
  | ok c =>
    rw [hc] at h
    simp only at h
    have hc' := hc
    rw [calcCapacity_eq] at hc'
    obtain ⟨j, hj, rfl, _, _⟩ := Robin.calcCapacity_ok hc'
    have hm : make mem n = createGroup mem (2 ^ j) (blank : Map K V) := by unfold make; rw [hc]
    have hns : mem ≠ .noSlots := by
      rintro rfl
      unfold createE createGroup at h
      simp only at h
      split at h
      · rename_i h1
        split at h1
        · cases h1
        · cases h1
      · split at h <;> cases h
      · cases h
      · cases h
    rcases createE_empty (s := ({ t := blank, blk := 0, gblk := 0, next := 1, log := [] } : LT K V)) rfl hj mem hns with h1 | ⟨h1, _⟩
    · rw [h] at h1
      rw [hm]
      generalize createGroup mem (2 ^ j) (blank : Map K V) = o at h1
      match o, h1 with
      | .ok t1 b, ⟨e1, _, e3⟩ => subst e1; exact ⟨rfl, e3⟩
    · rw [h] at h1; cases h1

theorem make_weak {mem : Mem} {n : Nat} {t : Map K V} (h : make mem n = .ok t ()) : Weak E sec t := (make_exact h).1

/-- As many objects as elements. -/
theorem Led.length {s : LT K V} {h : Heap} (hl : Led s h) (hc : Core E sec s.t) : h.live.length = s.t.size := by
  have hp : h.live.Perm ((usedIdx s.t).map fun i => (s.blk, i)) := by
    rw [List.perm_ext_iff_of_nodup hl.nodup (List.Nodup.map (fun x y hxy => (Prod.mk.inj hxy).2) (nodup_usedIdx _))]
    rintro ⟨b, i⟩
    rw [hl.live, List.mem_map, ← mem_usedIdx hc]
    simp only [Prod.mk.injEq]
    constructor
    · rintro ⟨rfl, hs⟩; exact ⟨i, hs, rfl, rfl⟩
    · rintro ⟨j, hj, rfl, rfl⟩; exact ⟨rfl, hj⟩
  rw [hp.length_eq, List.length_map, hc.size]
  have := congrArg List.length hc.usedIdx_slots
  simpa using this

/-! ### C122 -/

/-- The log of a map that the destructor may be called on: it is in order, as many objects are alive as `size()` says, and after
the destructor everything is given back, each object destroyed as often as constructed and each block returned with the count it was obtained
with. -/
def InOrder (s : LT K V) : Prop :=
  (∃ h, Heap.run s.log Heap.empty = some h ∧ h.live.Nodup ∧ h.live.length = s.t.size) ∧
  Heap.run (destroyE s).log Heap.empty = some Heap.empty ∧
  (∀ b i, (destroyE s).log.count (.ctor b i) = (destroyE s).log.count (.dtor b i)) ∧
  ∀ b k, (destroyE s).log.count (.alloc b k) = (destroyE s).log.count (.free b k)

theorem Fine.inOrder {s : LT K V} (hf : Fine s) (hc : Core E sec s.t) : InOrder s := by
  obtain ⟨h, hl⟩ := hf
  have g4 := destroyE_run hl hc
  refine ⟨⟨h, hl.run, hl.nodup, hl.length hc⟩, g4, ?_, ?_⟩
  · intro b i
    have := (Life.balance_obj b i _ _ _ List.nodup_nil g4).2
    simpa [Heap.empty] using this
  · intro b k
    have := Life.balance_block b k _ _ _ g4
    simpa [Heap.empty] using this

/-- C122 (partial), for every hash function, lawful or not: a history of the calls of `Fit` is defined, gives the answers of the model
without the log, and its log is in order.  After an exception (a failed request for groups) the caller goes on.

Missing for the full claim: a failed request for slots (`C122_failed_slots`, `C122_failed_constructor`), a throwing constructor of an element
(`C122_throwing_element`), `clear()` (`C122_clear_destroys_twice`), `clear(true)` on at most four slots, an insertion that reorders
(undefined, C70), and `max_load_factor` on more than 32 slots (C76). -/
theorem C122_lifetimes_partial {rv : Nat → Nat} (hrv : ∀ x, 81920 ≤ rv x ∧ rv x ≤ 327680) {mem : Mem} {n : Nat} {s : LT K V}
    (hc : makeE mem n = .ok s ()) {cs : List (Mem × Call K V)} (hg : FitAll E sec rv cs s.t) :
    ∃ as s', runE E sec rv cs s = .ok (as, s') ∧ make mem n = .ok s.t () ∧ run E sec rv cs s.t = .ok (as, s'.t) ∧ InOrder s' := by
  obtain ⟨h1, h2⟩ := makeE_ok hc
  obtain ⟨as, s', g1, g2, g3, g4⟩ := runE_ok hrv cs s (make_weak h1) h2 hg
  exact ⟨as, s', g1, h1, g2, g4.inOrder g3.toCore⟩

theorem fit_of_plain (hE : E.Lawful) {rv : Nat → Nat} (hrv : ∀ x, 81920 ≤ rv x ∧ rv x ≤ 327680) : ∀ (cs : List (Mem × Call K V)) (t : Map K V)
    (m : Spec.Map K V), Reach true E sec t → (entries t).Perm m → PlainAll E.eq m cs → FitAll E sec rv cs t := by
  intro cs
  induction cs with
  | nil => intro t m _ _ _; trivial
  | cons p cs ih =>
    intro t m h1 h2 h3
    obtain ⟨mem, c⟩ := p
    obtain ⟨h4, h5, h6, h7⟩ := h3
    have hstep := exec_ok hE h1 h2 hrv h4 h5.safe
    have hre : reorders t = false := not_reorders h1.toCore h1.counted (h1.clean rfl)
    have hlen : t.size = m.length := by rw [h1.size, h2.length_eq]
    refine ⟨h4, ?_, ?_, ?_⟩
    · cases c with
      | insert k v => exact hre
      | assign k v => exact hre
      | index k v => exact hre
      | reserve n => show RoomFor t.size n; rw [hlen]; exact h5.2
      | rehash n => show RoomFor t.size n; rw [hlen]; exact h5
      | shrink ro => show t.size < _ ∧ (_ → NotPow t.size); rw [hlen]; exact h5
      | «at» k => exact h5.elim
      | clear d => exact h5.elim
      | maxLoad x => exact h5.elim
      | _ => trivial
    · intro t' a he
      rw [he] at hstep
      exact ih t' _ hstep.1 hstep.2.2 h6
    · intro t' he
      rw [he] at hstep
      exact ih t' _ hstep.1 hstep.2.2 (h7 hstep.2.1)

/-- C122 with conditions on the calls only (those of C67): the answers are those of an ideal map, and as many objects are alive as the
ideal map has elements. -/
theorem C122_histories_partial (hE : E.Lawful) {rv : Nat → Nat} (hrv : ∀ x, 81920 ≤ rv x ∧ rv x ≤ 327680) {mem : Mem} {n : Nat}
    {s : LT K V} (hc : makeE mem n = .ok s ()) {cs : List (Mem × Call K V)} (hp : PlainAll E.eq [] cs) :
    ∃ as s' m', runE E sec rv cs s = .ok (as, s') ∧ Spec.AcceptsAll E.eq [] (cs.map (·.2)) as m' ∧ s'.t.size = m'.length ∧ InOrder s' := by
  obtain ⟨h1, h2⟩ := makeE_ok hc
  obtain ⟨k1, k2, _⟩ := make_ok (clean := true) (E := E) (sec := sec) h1
  obtain ⟨as, s', g1, g2, g3, g4⟩ := runE_ok hrv cs s (make_weak h1) h2 (fit_of_plain hE hrv cs s.t [] k1 (by rw [k2]) hp)
  obtain ⟨as2, t', m', e1, _, e3, e4⟩ := plain_run hE hrv cs s.t [] k1 (by rw [k2]) hp
  rw [g2] at e1
  rw [Res.ok.injEq, Prod.mk.injEq] at e1
  obtain ⟨rfl, rfl⟩ := e1
  exact ⟨as, s', m', g1, e4, by rw [g3.size, e3.length_eq], g4.inOrder g3.toCore⟩

/-! ### Where the code goes wrong -/

theorem destroySlots_ok {t : Map K V} (hc : Core E sec t) :
    destroySlots false t = .ok { t with slot := fun i => if t.ctrl i < 128 then none else t.slot i, size := 0 } := by
  unfold destroySlots
  rw [if_neg (by decide), if_pos]
  rw [List.all_eq_true]
  intro i hi
  rw [List.mem_range] at hi
  by_cases h : t.ctrl i < 128
  · simp [(hc.used_iff hi).mp h]
  · have : 128 ≤ t.ctrl i := by omega
    simp [this]

/-- `clear()` on a map with an element in a slot from `group_mask() + 16` on (`destroy_group<false>` empties only the control bytes
before it, FL:1735-1738): the element is destroyed, its control byte stays, and the destructor destroys it again. -/
theorem C122_clear_destroys_twice {s : LT K V} (hf : Fine s) (hw : Weak E sec s.t) {i : Nat} (hi : s.t.gmask + 16 ≤ i)
    (hs : (s.t.slot i).isSome = true) :
    ∃ s' h', clearE false s = .ok s' () ∧ Heap.run s'.log Heap.empty = some h' ∧ h'.live = [] ∧ s'.t.size = 0 ∧
      Heap.run (destroyE s').log Heap.empty = none := by
  obtain ⟨h, hl⟩ := hf
  have hc := hw.toCore
  have hcl : clearE false s = .ok (emit (destroyEv s.t s.blk)
      { s with t := { s.t with slot := fun i => if s.t.ctrl i < 128 then none else s.t.slot i, size := 0,
                               ctrl := fun i => if i < s.t.gmask + 16 then bEmpty else s.t.ctrl i, left := thr s.t } }) () := by
    unfold clearE
    rw [if_neg (by simp), destroySlots_ok hc]
    rfl
  obtain ⟨h', h1, h2, h3, h4⟩ := Life.run_dtors s.blk (usedIdx s.t) h hl.nodup (nodup_usedIdx _) (by
    intro i hi
    rw [hl.live]
    exact ⟨rfl, (mem_usedIdx hc i).mp hi⟩)
  have h5 : h'.live = [] := by
    rw [List.eq_nil_iff_forall_not_mem]
    rintro ⟨b, i⟩ hm
    rw [h4, hl.live, ← mem_usedIdx hc] at hm
    exact hm.2 hm.1
  have hrun : Heap.run (s.log ++ destroyEv s.t s.blk) Heap.empty = some h' := by
    rw [Life.run_append, hl.run]
    exact h1
  refine ⟨_, h', hcl, hrun, h5, rfl, ?_⟩
  unfold destroyE
  show Heap.run (s.log ++ destroyEv s.t s.blk ++ (destroyEv _ s.blk ++ _)) Heap.empty = none
  rw [Life.run_append, hrun]
  simp only [Option.bind_some]
  rw [Life.run_append]
  unfold destroyEv
  rw [Life.run_dtors_none s.blk _ h' h3 ⟨i, ?_, by rw [h5]; simp⟩]
  · rfl
  · have hu := (mem_usedIdx hc i).mpr hs
    unfold usedIdx at hu ⊢
    rw [List.mem_filter, List.mem_range, decide_eq_true_eq] at hu ⊢
    refine ⟨hu.1, ?_⟩
    show (if i < s.t.gmask + 16 then bEmpty else s.t.ctrl i) < 128
    rw [if_neg (by omega)]
    exact hu.2

/-- A growth that obtains the groups and not the slots (FL:1886-1911): the old groups are lost; the elements, if any, are never
destroyed, as the new control bytes are all empty, but their slots are given back. -/
theorem C122_failed_slots {s : LT K V} (hf : Fine s) (hw : Weak E sec s.t) (hc : cap s.t ≤ 2 ^ 47) :
    ∃ s', rehashImplE E sec false true .noSlots (cap s.t * 2 % W) s = .throw s' ∧ s'.gblk ≠ s.gblk ∧
      (∃ h', Heap.run s'.log Heap.empty = some h' ∧ (s.gblk, s.t.gmask + 2) ∈ h'.blocks ∧ h'.live.length = s.t.size) ∧
      (s.t.size ≠ 0 → Heap.run (destroyE s').log Heap.empty = none) ∧
      (s.t.size = 0 → Heap.run (destroyE s').log Heap.empty = some ⟨[(s.gblk, s.t.gmask + 2)], []⟩) := by
  obtain ⟨j, h1, h2, h3⟩ := hw.pow
  have hpow : cap s.t * 2 % W = 2 ^ (j + 1) := by
    rw [Nat.mod_eq_of_lt (by unfold W; omega), Nat.pow_succ, h3]
  have hcalc : calcCapacity (cap s.t * 2 % W) = .ok (2 ^ (j + 1)) := by
    rw [hpow, calcCapacity_eq]
    exact Robin.calcCapacity_pow (by omega)
  have hlim : ¬ (Mem.noSlots = Mem.noGroups ∨ memLimit < 2 ^ (j + 1)) := by
    rw [Nat.pow_succ, ← h3]
    unfold memLimit
    simp only [reduceCtorEq, false_or]
    omega
  obtain ⟨h, hl⟩ := hf
  have hb1 := hl.blk_lt
  have hb2 := hl.gblk_lt
  have hrun : Heap.run (s.log ++ [.alloc s.next ((2 ^ (j + 1) + 15) / 16 - 1 + 2)]) Heap.empty =
      some { h with blocks := (s.next, (2 ^ (j + 1) + 15) / 16 - 1 + 2) :: h.blocks } := by
    rw [Life.run_append, hl.run]
    simp only [Option.bind_some, Heap.run]
    rw [step_alloc (by
      intro x hx
      rw [hl.blocks] at hx
      simp only [List.mem_cons, List.not_mem_nil, or_false] at hx
      rcases hx with rfl | rfl <;> simp only <;> omega)]
    rfl
  have hnone : ∀ c, usedIdx { s.t with ctrl := newCtrl c, gmask := (c + 15) / 16 - 1 } = [] := by
    intro c
    unfold usedIdx
    rw [List.filter_eq_nil_iff]
    intro i _
    rw [decide_eq_true_eq]
    show ¬ newCtrl c i < 128
    unfold newCtrl bEnd bEmpty
    split
    · omega
    · split
      · split <;> omega
      · omega
  refine ⟨emit [.alloc s.next ((2 ^ (j + 1) + 15) / 16 - 1 + 2)] { s with
      t := { s.t with ctrl := newCtrl (2 ^ (j + 1)), gmask := (2 ^ (j + 1) + 15) / 16 - 1 }
      gblk := s.next
      next := s.next + 2 }, ?_, ?_, ⟨_, hrun, ?_, hl.length hw.toCore⟩, ?_, ?_⟩
  · unfold rehashImplE
    rw [hcalc]
    simp only [Bool.true_or, if_true]
    unfold createE createGroup
    simp only [if_neg hlim, if_true]
  · show s.next ≠ s.gblk
    omega
  · rw [hl.blocks]
    simp
  · intro hsz
    unfold destroyE
    show Heap.run (s.log ++ [.alloc s.next ((2 ^ (j + 1) + 15) / 16 - 1 + 2)] ++
      (destroyEv { s.t with ctrl := newCtrl (2 ^ (j + 1)), gmask := (2 ^ (j + 1) + 15) / 16 - 1 } s.blk ++ freeEv _ s.blk _)) _ = _
    rw [Life.run_append, hrun]
    unfold destroyEv
    rw [hnone]
    simp only [Option.bind_some, List.map_nil, List.nil_append, freeEv, Heap.run, Heap.step]
    rw [if_neg]
    · rfl
    · intro hq
      rw [Bool.and_eq_true, List.all_eq_true] at hq
      have hlen := hl.length hw.toCore
      cases hv : h.live with
      | nil => rw [hv] at hlen; exact hsz hlen.symm
      | cons o l =>
        have ho : o ∈ h.live := by rw [hv]; simp
        have h7 := hq.2 o ho
        rw [((hl.live o.1 o.2).mp ho).1] at h7
        simp at h7
  · intro hsz
    unfold destroyE
    show Heap.run (s.log ++ [.alloc s.next ((2 ^ (j + 1) + 15) / 16 - 1 + 2)] ++
      (destroyEv { s.t with ctrl := newCtrl (2 ^ (j + 1)), gmask := (2 ^ (j + 1) + 15) / 16 - 1 } s.blk ++
        [.free s.blk (cap s.t), .free s.next ((2 ^ (j + 1) + 15) / 16 - 1 + 2)])) _ = _
    have hv : h.live = [] := List.length_eq_zero_iff.mp ((hl.length hw.toCore).trans hsz)
    rw [Life.run_append, hrun]
    unfold destroyEv
    rw [hnone]
    simp only [Option.bind_some, List.map_nil, List.nil_append, Heap.run]
    rw [step_free (by rw [hl.blocks]; simp) (by rw [hv]; simp)]
    simp only [Option.bind_some]
    rw [hl.blocks, erase_skip (by simp only; omega), erase_hit]
    rw [step_free (by simp) (by simp only [hv]; simp)]
    simp only [Option.bind_some]
    rw [erase_hit, hv]

/-- A constructor of the map that obtains the groups and not the slots (FL:942, 1885-1911): the object never exists, so its
destructor does not run, and the groups are lost. -/
theorem C122_failed_constructor {n : Nat} (hn : n ≤ 2 ^ 48) : ∃ s : LT K V, makeE .noSlots n = .throw s ∧
    ∃ h, Heap.run s.log Heap.empty = some h ∧ h.blocks ≠ [] := by
  have hcc : ∃ c, calcCapacity n = .ok c ∧ c ≤ 2 ^ 48 := by
    cases hc : calcCapacity n with
    | ub =>
      rw [calcCapacity_eq] at hc
      have := Robin.calcCapacity_ub hc
      omega
    | diverge => exact absurd hc (Robin.calcCapacity_diverge n)
    | ok c =>
      refine ⟨c, rfl, ?_⟩
      rw [calcCapacity_eq] at hc
      obtain ⟨j, h1, rfl, h3, h4⟩ := Robin.calcCapacity_ok hc
      rcases h4 with h4 | h4
      · omega
      · have : j < 49 := by
          by_contra hcc
          have := Robin.pow_two_le (a := 49) (b := j) (by omega)
          omega
        exact Robin.pow_two_le (a := j) (b := 48) (by omega)
  obtain ⟨c, h1, h2⟩ := hcc
  have hlim : ¬ (Mem.noSlots = Mem.noGroups ∨ memLimit < c) := by
    unfold memLimit
    simp only [reduceCtorEq, false_or]
    omega
  refine ⟨emit [.alloc 1 ((c + 15) / 16 - 1 + 2)] {
      t := { blank with ctrl := newCtrl c, gmask := (c + 15) / 16 - 1 }
      blk := 0
      gblk := 1
      next := 3
      log := [] }, ?_, ?_⟩
  · unfold makeE
    rw [h1]
    simp only
    unfold createE createGroup
    simp only [if_neg hlim, if_true]
  · exact ⟨⟨[(1, (c + 15) / 16 - 1 + 2)], []⟩, rfl, by simp⟩

/-- The constructor of a new element throws (FL:2464-2466, 2496-2498, 2541-2545): the control byte has been set before, and the destructor of
the map destroys an object that was never constructed. -/
theorem C122_throwing_element {s : LT K V} (hf : Fine s) (hw : Weak E sec s.t) (update : Bool) {mem : Mem} (hmem : mem ≠ .noSlots) {k : K} {v : V}
    {t1 : Map K V} {i : Nat} (hp : prepare E sec mem k 64 s.t = .ok t1 (i, false)) :
    ∃ s', emplaceE E sec update mem false k v s = .throw s' ∧ (∃ h, Heap.run s'.log Heap.empty = some h) ∧
      Heap.run (destroyE s').log Heap.empty = none := by
  obtain ⟨j, h1, h2, h3⟩ := hw.pow
  have hsp := prepare_weak mem k 64 j s.t hw h3 (by omega)
  have hsm := prepareE_same hmem k 64 j s hw hf h3
  rw [hp] at hsp hsm
  cases hq : prepareE E sec mem k 64 s with
  | throw s1 => rw [hq] at hsm; exact hsm.elim
  | ub => rw [hq] at hsm; exact hsm.elim
  | diverge => rw [hq] at hsm; exact hsm.elim
  | ok s1 r =>
    rw [hq] at hsm
    obtain ⟨rfl, rfl, h, hl⟩ := hsm
    obtain ⟨g1, g2, g3, _⟩ := hsp
    refine ⟨{ s1 with t := setUsed s1.t i (tagOf E sec k) }, ?_, ⟨h, hl.run⟩, ?_⟩
    · unfold emplaceE
      rw [hq]
      simp only [Out.bind, Bool.false_eq_true, if_false]
    · unfold destroyE
      show Heap.run (s1.log ++ (destroyEv _ s1.blk ++ _)) _ = _
      rw [Life.run_append, hl.run]
      simp only [Option.bind_some]
      rw [Life.run_append]
      unfold destroyEv
      rw [Life.run_dtors_none s1.blk _ h hl.nodup ⟨i, ?_, ?_⟩]
      · rfl
      · unfold usedIdx
        rw [List.mem_filter, List.mem_range, decide_eq_true_eq]
        refine ⟨g2, ?_⟩
        show (setUsed s1.t i (tagOf E sec k)).ctrl i < 128
        have ht := Core.tag_lt (E := E) (sec := sec) k
        have hcap := g1.cap_ge
        have hne : i ≠ i + cap s1.t := by omega
        unfold setUsed
        split
        · show upd (upd s1.t.ctrl i (tagOf E sec k)) (i + cap s1.t) (tagOf E sec k) i < 128
          rw [upd_other _ _ hne, upd_self]
          exact ht
        · show upd s1.t.ctrl i (tagOf E sec k) i < 128
          rw [upd_self]
          exact ht
      · rw [hl.live, g3]
        simp

/-! ### Cases -/

open Verif.Robin (hashEnv hashEnv_lawful)

/-- A sufficient test for `FitAll` (integer keys, no failed allocations). -/
def fitB (rv : Nat → Nat) : List (Call Nat Nat) → Map Nat Nat → Bool
  | [], _ => true
  | c :: cs, t =>
    (match c with
     | .insert _ _ | .assign _ _ | .index _ _ => !reorders t
     | .find _ | .contains _ | .count _ | .erase _ | .size | .empty | .iterate => true
     | .rehash n | .reserve n => decide (t.size < 4) || (decide (t.size ≤ n) && decide (n < 2 ^ 44))
     | .shrink ro => decide (t.size < 2 ^ 44) && !ro
     | .maxLoad _ => decide (cap t ≤ 32)
     | .clear d => d && decide (4 < cap t)
     | .at _ => false) &&
    match exec (hashEnv id) id rv .ok c t with
    | .ok t' _ => fitB rv cs t'
    | .throw t' => fitB rv cs t'
    | _ => true

theorem fitB_sound {rv : Nat → Nat} : ∀ (cs : List (Call Nat Nat)) (t : Map Nat Nat), fitB rv cs t = true →
    FitAll (hashEnv id) id rv (cs.map fun c => (Mem.ok, c)) t := by
  intro cs
  induction cs with
  | nil => intro t _; trivial
  | cons c cs ih =>
    intro t h
    unfold fitB at h
    rw [Bool.and_eq_true] at h
    obtain ⟨h1, h2⟩ := h
    have hroom : ∀ n, (decide (t.size < 4) || (decide (t.size ≤ n) && decide (n < 2 ^ 44))) = true → RoomFor t.size n := by
      intro n hn
      rw [Bool.or_eq_true, Bool.and_eq_true, decide_eq_true_eq, decide_eq_true_eq, decide_eq_true_eq] at hn
      rcases hn with hn | hn
      · exact Or.inl (Or.inl hn)
      · exact Or.inr hn
    refine ⟨by decide, ?_, ?_, ?_⟩
    · cases c with
      | insert k v => simpa [Fit] using h1
      | assign k v => simpa [Fit] using h1
      | index k v => simpa [Fit] using h1
      | rehash n => exact hroom n h1
      | reserve n => exact hroom n h1
      | shrink ro =>
        simp only [Bool.and_eq_true, decide_eq_true_eq, Bool.not_eq_true'] at h1
        exact ⟨h1.1, fun hr => by rw [h1.2] at hr; cases hr⟩
      | maxLoad x => exact (of_decide_eq_true h1 : cap t ≤ 32)
      | clear d =>
        rw [Bool.and_eq_true, decide_eq_true_eq] at h1
        exact h1
      | «at» k => cases h1
      | _ => trivial
    · intro t' a he
      rw [he] at h2
      exact ih t' h2
    · intro t' he
      rw [he] at h2
      exact ih t' h2

/-- The start. -/
def startE : LT Nat Nat :=
  { t := start, blk := 2, gblk := 1, next := 3, log := [.alloc 1 2, .alloc 2 4] }

theorem makeE_start : makeE .ok 4 = .ok startE () := rfl

/-- Growth, tombstones, lost keys, `clear(true)`, rehashing. -/
def tour : List (Call Nat Nat) :=
  ins 17 64 ++ [.erase 512, .insert 1024 7, .erase 0, .assign 64 9, .rehash 100, .index 5 0, .erase 5, .shrink false, .clear true, .maxLoad 40000, .insert 3 3,
    .insert 4 4, .insert 5 5, .iterate]

set_option maxRecDepth 100000 in
/-- A history for `C122_lifetimes_partial`. -/
example : fitB (fun _ => 131072) tour startE.t = true := by decide +kernel

set_option maxRecDepth 100000 in
example : ∃ as s, runE (hashEnv id) id (fun _ => 131072) (tour.map fun c => (Mem.ok, c)) startE = .ok (as, s) ∧ InOrder s := by
  obtain ⟨as, s, h1, _, _, h2⟩ := C122_lifetimes_partial (rv := fun _ => 131072) (by intro x; simp) makeE_start
    (fitB_sound tour startE.t (by decide +kernel))
  exact ⟨as, s, h1, h2⟩

/-- A history for `C122_histories_partial`, with a failed request for groups. -/
example : ∃ as s m, runE (hashEnv id) id (fun _ => 131072)
      [(.ok, .insert 1 1), (.ok, .insert 2 2), (.noGroups, .insert 3 3), (.ok, .insert 3 4), (.ok, .erase 1), (.ok, .reserve 50), (.ok, .find 3)] startE = .ok (as, s) ∧
    Spec.AcceptsAll (hashEnv id).eq [] [.insert 1 1, .insert 2 2, .insert 3 3, .insert 3 4, .erase 1, .reserve 50, .find 3] as m ∧ InOrder s := by
  obtain ⟨as, s, m, h1, h2, _, h4⟩ := C122_histories_partial (E := hashEnv id) (sec := id) (hashEnv_lawful id) (rv := fun _ => 131072) (by intro x; simp) makeE_start
    (cs := [(.ok, .insert 1 1), (.ok, .insert 2 2), (.noGroups, .insert 3 3), (.ok, .insert 3 4), (.ok, .erase 1), (.ok, .reserve 50), (.ok, .find 3)])
    (by simp [PlainAll, Plain, next, Spec.insert, Spec.erase, Spec.get, Call.allocates, RoomFor, NotPow, hashEnv])
  exact ⟨as, s, m, h1, h2, h4⟩

/-- The state after a history. -/
theorem fine_play {cs : List (Call Nat Nat)} (hf : fitB (fun _ => 131072) cs startE.t = true) {p : LT Nat Nat → Bool}
    (hp : (match runE (hashEnv id) id (fun _ => 131072) (cs.map fun c => (Mem.ok, c)) startE with
      | .ok (_, s) => p s
      | _ => false) = true) : ∃ s : LT Nat Nat, Weak (hashEnv id) id s.t ∧ Fine s ∧ p s = true := by
  obtain ⟨h1, h2⟩ := makeE_ok makeE_start
  obtain ⟨as, s, g1, _, g3, g4⟩ := runE_ok (rv := fun _ => 131072) (by intro x; simp) (cs.map fun c => (Mem.ok, c)) startE (make_weak h1) h2 (fitB_sound cs startE.t hf)
  rw [g1] at hp
  exact ⟨s, g3, g4, hp⟩

set_option maxRecDepth 100000 in
/-- `C122_clear_destroys_twice` has instances: 33 keys. -/
example : ∃ s : LT Nat Nat, Weak (hashEnv id) id s.t ∧ Fine s ∧ (decide (s.t.gmask + 16 ≤ 25) && (s.t.slot 25).isSome) = true :=
  fine_play (cs := ins 33 1) (by decide +kernel) (by decide +kernel)

set_option maxRecDepth 100000 in
/-- `C122_failed_slots` has instances, with elements and without. -/
example : (∃ s : LT Nat Nat, Weak (hashEnv id) id s.t ∧ Fine s ∧ (decide (cap s.t = 8) && decide (s.t.size ≠ 0)) = true) ∧
    ∃ s : LT Nat Nat, Weak (hashEnv id) id s.t ∧ Fine s ∧ (decide (cap s.t = 4) && decide (s.t.size = 0)) = true :=
  ⟨fine_play (cs := ins 3 1) (by decide +kernel) (by decide +kernel), fine_play (cs := []) (by decide +kernel) (by decide +kernel)⟩

set_option maxRecDepth 100000 in
/-- `C122_throwing_element` has instances: a new key, with a growth before. -/
example : ∃ s : LT Nat Nat, Weak (hashEnv id) id s.t ∧ Fine s ∧ (match prepare (hashEnv id) id .ok 7 64 s.t with
    | .ok t (i, b) => !b && decide (cap t = 8) && decide (i = 7)
    | _ => false) = true :=
  fine_play (cs := ins 2 1) (by decide +kernel) (by decide +kernel)

end Verif.Flat.Track
