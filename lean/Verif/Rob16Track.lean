/-
Lifetimes in `robin16_hash_map` (C126): which element objects and memory blocks the map creates and gives up.  The map of
`Verif.Rob16` is run together with a log of memory events; `Heap.step` of `Verif.Lifetime`, which knows nothing about hash
tables, decides whether the log is in order.

R16 = src/jstd/hashmap/robin16_hash_map.h.

The element type has a destructor that does something.  Simplifications beyond those of `Verif.Rob16`:
* The two stack buffers of `insert_to_place` (R16:2973-2979) are blocks of one element, numbered like all others.
* `Mode.swap` stands for the versions of `swap_pair` that exchange the values of two live objects (R16:2498-2508, 2524-2599); what they
  construct and destroy inside is not logged.  `Mode.tmp` is the version that goes through the second buffer (R16:2510-2522).
* Control words have no lifetime of their own.  `delete[]` finds the length of the block itself; the log names the length that
  `group_mask_` gives.
-/
import Verif.Lifetime
import Verif.Rob16Props
import Verif.Rob16Bugs

namespace Verif.Rob16.Track
open Verif
open Verif.Spec (Call Ans Distinct)
open Verif.Life (Ev Heap step_ctor step_free step_alloc)

/-- How `swap_slot` exchanges two elements (R16:2498-2618): by their `swap`, or through a third object. -/
inductive Mode
  | swap
  | tmp
  deriving DecidableEq

/-- A map, the block that `slots_` points to, the block that `groups_` points to, the first number not used yet, the log. -/
structure LT (K V : Type) where
  t : Map K V
  blk : Nat
  gblk : Nat
  next : Nat
  log : List Ev

section Model
variable {K V : Type} (md : Mode) (E : Env K) (sec : Nat → Nat)

/-- Add events to the log. -/
def emit (l : List Ev) (s : LT K V) : LT K V := { s with log := s.log ++ l }

/-- `create_group(c)`, see `Rob16.createGroup` (R16:2333-2376): first the groups are obtained (R16:2350) and `groups_` is
overwritten, then the slots (R16:2367). -/
def createE (mem : Mem) (c : Nat) (s : LT K V) : Out (LT K V) Unit :=
  match createGroup mem c s.t with
  | .ok t1 _ =>
    .ok (emit [.alloc s.next ((c + 15) / 16 - 1 + 2), .alloc (s.next + 1) c]
      { s with t := t1, gblk := s.next, blk := s.next + 1, next := s.next + 2 }) ()
  | .throw t' =>
    if mem = .noGroups ∨ memLimit < c then .throw { s with t := t' }
    else .throw (emit [.alloc s.next ((c + 15) / 16 - 1 + 2)] { s with t := t', gblk := s.next, next := s.next + 2 })
  | .diverge => .diverge
  | .ub => .ub

/-- `swap_slot(to_insert, slot, tmp)` (R16:2498-2618): `to_insert` is the object in block `n`, `tmp` the one in block `n + 1`, `slot` slot `i`
of block `b`. -/
def tradeEv (b n i : Nat) : List Ev :=
  match md with
  | .swap => []
  | .tmp => [.ctor (n + 1) 0, .dtor n 0, .ctor n 0, .dtor b i, .ctor b i, .dtor (n + 1) 0]

/-- `emplace_rich_slot(to_insert, i, _)` (R16:3025-3038): the element is constructed in the slot, then `to_insert` is destroyed. -/
def richEv (b n i : Nat) : List Ev := [.ctor b i, .dtor n 0]

/-- The loop of `insert_to_place`, see `Rob16.placeLoop` (R16:2989-3022), with its events. -/
def placeLoopE (reh : Bool) (b n target : Nat) : Nat → Nat → Ctrl → K × V → Map K V → Res ((Map K V × Bool) × List Ev)
  | 0, _, _, _, _ => .diverge
  | f + 1, i, c, e, t =>
    if (t.ctrl i).dist = bEmpty then .ok ((putRich t i c e, false), richEv b n i)
    else
      match swapStep t i c e with
      | none => .ub
      | some (t', c', e') =>
        if (reh = false ∧ distLimit < (c'.dist + 1) % 256) ∨ Rob16.next t i = target then
          .ok ((putRich t' target ⟨(c'.dist + 1) % 256, c'.tag⟩ e', true),
            (if (t.ctrl i).dist < c.dist then tradeEv md b n i else []) ++ richEv b n target)
        else
          (placeLoopE reh b n target f (Rob16.next t i) ⟨(c'.dist + 1) % 256, c'.tag⟩ e' t').bind fun q =>
            .ok (q.1, (if (t.ctrl i).dist < c.dist then tradeEv md b n i else []) ++ q.2)

/-- `insert_to_place<reh>(target, c)`, see `Rob16.insertToPlace` (R16:2962-3023): the element is moved from the target into the first buffer
and destroyed (R16:2980-2986). -/
def insertToPlaceE (reh : Bool) (target : Nat) (c : Ctrl) (s : LT K V) : Res (LT K V × Bool) :=
  match s.t.slot target with
  | none => .ub
  | some e =>
    (placeLoopE md reh s.blk s.next target (cap s.t) (Rob16.next s.t target)
      ⟨((s.t.ctrl target).dist + 1) % 256, (s.t.ctrl target).tag⟩ e (setUsed s.t target c)).bind fun q =>
        .ok (emit ([.alloc s.next 1, .alloc (s.next + 1) 1, .ctor s.next 0, .dtor s.blk target] ++ q.2 ++
          [.free (s.next + 1) 1, .free s.next 1]) { s with t := q.1.1, next := s.next + 2 }, q.1.2)

/-- Makes the slot `i` available, see `Rob16.makeRoom` (R16:3051-3063, 3451-3460). -/
def makeRoomE (reh : Bool) (i : Nat) (c : Ctrl) (s : LT K V) : Res (LT K V × Bool) :=
  if (s.t.ctrl i).dist = bEmpty then .ok ({ s with t := setUsed s.t i c }, false) else insertToPlaceE md reh i c s

/-- `move_insert_unique(slot)`, see `Rob16.insertUnique` (R16:3442-3473). -/
def insertUniqueE (e : K × V) (s : LT K V) : Res (LT K V) :=
  (freeUnroll s.t (home E s.t e.1) 4 (home E s.t e.1) 0).bind fun r =>
    (makeRoomE md true r.1 ⟨r.2, tagOf E sec e.1⟩ s).bind fun q =>
      .ok (emit [.ctor q.1.blk r.1] { q.1 with t := { q.1.t with slot := upd q.1.t.slot r.1 (some e), size := q.1.t.size + 1 } })

/-- The loop of `rehash_impl` over the old slots, see `Rob16.transferAll` (R16:2416-2429, 2447-2455): every old element is destroyed after
it has been moved (R16:2425-2426, 2451-2452). -/
def transferAllE (old : Map K V) (bo : Nat) : List Nat → LT K V → Res (LT K V)
  | [], s => .ok s
  | i :: is, s =>
    match old.slot i with
    | none => .ub
    | some e => (insertUniqueE md E sec e s).bind fun s' => transferAllE old bo is (emit [.dtor bo i] s')

/-- The slots and the groups are given back, with the counts of `t` (R16:2220-2223, 2199-2202 in `destroy`; R16:2461-2465 in
`rehash_impl`). -/
def freeEv (t : Map K V) (b g : Nat) : List Ev := [.free b (cap t), .free g (t.gmask + 2)]

/-- `rehash_impl`, see `Rob16.rehashImpl` (R16:2378-2467). -/
def rehashImplE (allowShrink always : Bool) (mem : Mem) (n : Nat) (s : LT K V) : Out (LT K V) Unit :=
  match calcCapacity n with
  | .ub => .ub
  | .diverge => .diverge
  | .ok c =>
    if always || (!allowShrink && decide (cap s.t < c)) || (allowShrink && c != cap s.t) then
      match createE mem c s with
      | .ok s1 _ =>
        if s.t.clen = 0 then .ub
        else
          match transferAllE md E sec s.t s.blk (usedIdx s.t) s1 with
          | .ok s2 => .ok (emit (freeEv s.t s.blk s.gblk) s2) ()
          | .diverge => .diverge
          | .ub => .ub
      | .throw s' => .throw s'
      | .diverge => .diverge
      | .ub => .ub
    else .ok s ()

/-- `grow_if_necessary()`, see `Rob16.grow` (R16:2322-2325). -/
def growE (mem : Mem) (s : LT K V) : Out (LT K V) Unit := rehashImplE md E sec false true mem (cap s.t * 2 % W) s

/-- A read-only result. -/
def liftE {α β : Type} (r : Res α) (f : α → Out (LT K V) β) : Out (LT K V) β :=
  match r with
  | .ok a => f a
  | .diverge => .diverge
  | .ub => .ub

/-- `find_or_prepare_insert(key)`, see `Rob16.prepare` (R16:2828-2960). -/
def prepareE (mem : Mem) (k : K) : Nat → LT K V → Out (LT K V) (Nat × Option Nat)
  | 0, _ => .diverge
  | f + 1, s =>
    liftE (unroll E sec s.t k 4 (home E s.t k) 0) fun
      | .hit j => .ok s (j, none)
      | .full => (growE md E sec mem s).bind fun s' _ => prepareE mem k f s'
      | .stop i d =>
        if s.t.thr ≤ s.t.size then (growE md E sec mem s).bind fun s' _ => prepareE mem k f s' else .ok s (i, some d)

/-- `emplace_impl<AlwaysUpdate>`, see `Rob16.emplace` (R16:3040-3369).  Assigning to a mapped value is no event. -/
def emplaceE (update : Bool) (mem : Mem) (ctor : Bool) (k : K) (v : V) : Nat → LT K V → Out (LT K V) (Nat × Bool)
  | 0, _ => .diverge
  | f + 1, s =>
    (prepareE md E sec mem k 64 s).bind fun s' r =>
      match r.2 with
      | none =>
        match s'.t.slot r.1 with
        | none => .ub
        | some e => .ok (if update then { s' with t := { s'.t with slot := upd s'.t.slot r.1 (some (e.1, v)) } } else s') (r.1, false)
      | some d =>
        liftE (makeRoomE md false r.1 ⟨d, tagOf E sec k⟩ s') fun q =>
          if q.2 then (growE md E sec mem q.1).bind fun s'' _ => emplaceE update mem ctor k v f s''
          else if ctor then
            .ok (emit [.ctor q.1.blk r.1]
              { q.1 with t := { q.1.t with slot := upd q.1.t.slot r.1 (some (k, v)), size := q.1.t.size + 1 } }) (r.1, true)
          else .throw { q.1 with t := { q.1.t with slot := upd q.1.t.slot r.1 none } }

/-- The loop of `erase_slot`, see `Rob16.eraseLoop` (R16:3576-3592); `transfer_slot` (R16:2469-2485) constructs the element in its new place
and destroys the old object. -/
def eraseLoopE (b : Nat) : Nat → Nat → Map K V → Res (Map K V × List Ev)
  | 0, _, _ => .diverge
  | f + 1, i, t =>
    if i + 1 < t.clen then
      if (t.ctrl (i + 1)).dist = bEmpty ∨ (t.ctrl (i + 1)).dist = 0 then .ok (setEmpty t i, [])
      else if i + 1 < cap t then
        match t.slot (i + 1) with
        | none => .ub
        | some e =>
          (eraseLoopE b f (i + 1)
            { setUsed t i ⟨(t.ctrl (i + 1)).dist - 1, (t.ctrl (i + 1)).tag⟩ with
              slot := dropSlot false (upd t.slot i (some e)) (i + 1) }).bind fun q => .ok (q.1, [.ctor b i, .dtor b (i + 1)] ++ q.2)
      else .ub
    else .ub

/-- `erase_slot(i)`, see `Rob16.eraseSlot` (R16:3559-3593): the element is destroyed first (R16:3567). -/
def eraseSlotE (i : Nat) (s : LT K V) : Res (LT K V) :=
  match s.t.slot i with
  | none => .ub
  | some _ =>
    (eraseLoopE s.blk (s.t.clen + 1) i { s.t with slot := dropSlot false s.t.slot i, size := (s.t.size + W - 1) % W }).bind fun q =>
      .ok (emit (.dtor s.blk i :: q.2) { s with t := q.1 })

/-- `erase(key)`, see `Rob16.eraseKey` (R16:1882-1885, 3548-3557). -/
def eraseKeyE (k : K) (s : LT K V) : Out (LT K V) Nat :=
  liftE (findIdx E sec s.t k) fun
    | some i => liftE (eraseSlotE i s) fun s' => .ok s' 1
    | none => .ok s 0

/-- The elements that `destroy_slots` destroys: those with a used control word (R16:2213-2218). -/
def destroyEv (t : Map K V) (b : Nat) : List Ev := ((List.range (cap t)).filter (used t)).map (Ev.dtor b)

/-- `destroy<true>()` (R16:2182-2227), also the destructor (R16:1458-1460). -/
def destroyE (s : LT K V) : LT K V := emit (destroyEv s.t s.blk ++ freeEv s.t s.blk s.gblk) s

/-- `clear(need_destroy)`, see `Rob16.clear` (R16:1664-1675).  It is `noexcept`: a failed request ends the program. -/
def clearE (destroy : Bool) (s : LT K V) : Out (LT K V) Unit :=
  if 4 < cap s.t && destroy then createE .ok 4 (destroyE s)
  else
    liftE (destroySlots false s.t) fun t' =>
      .ok (emit (destroyEv s.t s.blk)
        { s with t := { t' with ctrl := fun i => if i < (s.t.gmask + 1) * 16 then ⟨bEmpty, 0⟩ else s.t.ctrl i } }) ()

/-- `rehash(n, read_only)`, `reserve`, see `Rob16.rehash` (R16:1677-1691). -/
def rehashE (mem : Mem) (readOnly : Bool) (n : Nat) (s : LT K V) : Out (LT K V) Unit :=
  rehashImplE md E sec true false mem (if readOnly then max n s.t.size else max (minRequire s.t n) s.t.size) s

/-- `shrink_to_fit(read_only)`, see `Rob16.shrinkToFit` (R16:1693-1700). -/
def shrinkE (mem : Mem) (readOnly : Bool) (s : LT K V) : Out (LT K V) Unit :=
  rehashImplE md E sec true false mem (if readOnly then s.t.size else minRequire s.t s.t.size) s

/-- `max_load_factor(mlf)`, see `Rob16.setMlf` (R16:1505-1524). -/
def setMlfE (mem : Mem) (m r : Nat) (s : LT K V) : Out (LT K V) Unit :=
  let s1 := { s with t := { s.t with mlf := m, rev := r } }
  if s.t.thr < s.t.size ∧ cap s.t < minRequire s1.t s.t.size then rehashE md E sec mem false s.t.size s1 else .ok s1 ()

/-- Constructor with a requested capacity, see `Rob16.make` (R16:1305-1317). -/
def makeE (mem : Mem) (n : Nat) : Out (LT K V) Unit :=
  match calcCapacity n with
  | .ub => .ub
  | .diverge => .diverge
  | .ok c => createE mem c { t := blank, blk := 0, gblk := 0, next := 1, log := [] }

/-- The caller dereferences the returned iterator. -/
def readElemE (s : LT K V) (r : Nat × Bool) : Out (LT K V) (Ans K V) :=
  match s.t.slot r.1 with
  | none => .ub
  | some e => .ok s (.elem e r.2)

/-- `operator[]` returns a reference to the mapped value (R16:1708-1714). -/
def readValueE (s : LT K V) (r : Nat × Bool) : Out (LT K V) (Ans K V) :=
  match s.t.slot r.1 with
  | none => .ub
  | some e => .ok s (.value (some e.2))

/-- One call, see `Rob16.exec`. -/
def execE (rv : Nat → Nat) (mem : Mem) : Call K V → LT K V → Out (LT K V) (Ans K V)
  | .insert k v, s => (emplaceE md E sec false mem true k v 64 s).bind readElemE
  | .assign k v, s => (emplaceE md E sec true mem true k v 64 s).bind readElemE
  | .index k d, s => (emplaceE md E sec false mem true k d 64 s).bind readValueE
  | .find k, s => liftE (lookup E sec s.t k) fun o => .ok s (.found o)
  | .contains k, s => liftE (contains E sec s.t k) fun b => .ok s (.bool b)
  | .count k, s => liftE (count E sec s.t k) fun n => .ok s (.num n)
  | .at k, s => liftE (atKey E sec s.t k) fun o => .ok s (.value o)
  | .erase k, s => (eraseKeyE E sec k s).bind fun s' n => .ok s' (.num n)
  | .size, s => .ok s (.num s.t.size)
  | .empty, s => .ok s (.bool (s.t.size == 0))
  | .clear d, s => (clearE d s).bind fun s' _ => .ok s' .unit
  | .reserve n, s => (rehashE md E sec mem false n s).bind fun s' _ => .ok s' .unit
  | .rehash n, s => (rehashE md E sec mem false n s).bind fun s' _ => .ok s' .unit
  | .shrink ro, s => (shrinkE md E sec mem ro s).bind fun s' _ => .ok s' .unit
  | .maxLoad m, s => (setMlfE md E sec mem (m % 2 ^ 32) (rv m) s).bind fun s' _ => .ok s' .unit
  | .iterate, s => liftE (walk s.t) fun l => .ok s (.items l)

/-- A history: calls paired with the allocator's answers.  After an exception the caller goes on with the object. -/
def runE (rv : Nat → Nat) : List (Mem × Call K V) → LT K V → Res (List (Ans K V) × LT K V)
  | [], s => .ok ([], s)
  | (mem, c) :: cs, s =>
    match execE md E sec rv mem c s with
    | .ub => .ub
    | .diverge => .diverge
    | .throw s' => (runE rv cs s').bind fun r => .ok (.threw :: r.1, r.2)
    | .ok s' a => (runE rv cs s').bind fun r => .ok (a :: r.1, r.2)

end Model

variable {K V : Type} {md : Mode} {E : Env K} {sec : Nat → Nat}

/-! ### Heaps -/

/-- The objects alive are those of `P`. -/
structure Holds (h : Heap) (P : Nat → Nat → Prop) : Prop where
  nodup : h.live.Nodup
  mem : ∀ b i, (b, i) ∈ h.live ↔ P b i

theorem Holds.congr {h : Heap} {P Q : Nat → Nat → Prop} (hp : Holds h P) (hq : ∀ b i, P b i ↔ Q b i) : Holds h Q :=
  ⟨hp.nodup, fun b i => (hp.mem b i).trans (hq b i)⟩

theorem step_dtor {h : Heap} {b i : Nat} (hl : (b, i) ∈ h.live) : h.step (.dtor b i) = some { h with live := h.live.erase (b, i) } := by
  have : h.live.contains (b, i) = true := List.contains_iff_mem.mpr hl
  simp only [Heap.step, this, if_true]

theorem Holds.ctor {h : Heap} {P : Nat → Nat → Prop} (hp : Holds h P) {b i n : Nat} (hb : (b, n) ∈ h.blocks) (hi : i < n) (hn : ¬ P b i)
    (es : List Ev) : ∃ h', Heap.run (.ctor b i :: es) h = Heap.run es h' ∧ h'.blocks = h.blocks ∧
      Holds h' (fun b' i' => (b' = b ∧ i' = i) ∨ P b' i') := by
  have hm : (b, i) ∉ h.live := fun hc => hn ((hp.mem _ _).mp hc)
  refine ⟨{ h with live := (b, i) :: h.live }, ?_, rfl, List.nodup_cons.mpr ⟨hm, hp.nodup⟩, ?_⟩
  · simp only [Heap.run, step_ctor hb hi hm, Option.bind_some]
  · intro b' i'
    show (b', i') ∈ (b, i) :: h.live ↔ _
    rw [List.mem_cons, hp.mem, Prod.mk.injEq]

theorem Holds.dtor {h : Heap} {P : Nat → Nat → Prop} (hp : Holds h P) {b i : Nat} (hn : P b i) (es : List Ev) :
    ∃ h', Heap.run (.dtor b i :: es) h = Heap.run es h' ∧ h'.blocks = h.blocks ∧ Holds h' (fun b' i' => P b' i' ∧ ¬ (b' = b ∧ i' = i)) := by
  have hm : (b, i) ∈ h.live := (hp.mem _ _).mpr hn
  refine ⟨{ h with live := h.live.erase (b, i) }, ?_, rfl, hp.nodup.erase _, ?_⟩
  · simp only [Heap.run, step_dtor hm, Option.bind_some]
  · intro b' i'
    show (b', i') ∈ h.live.erase (b, i) ↔ _
    rw [List.Nodup.mem_erase_iff hp.nodup, hp.mem, ne_eq, Prod.mk.injEq]
    exact and_comm

theorem erase_skip {x : Nat × Nat} {l : List (Nat × Nat)} {b n : Nat} (h : x.1 ≠ b) : (x :: l).erase (b, n) = x :: l.erase (b, n) := by
  rw [List.erase_cons, if_neg]
  rw [beq_iff_eq]
  intro hq; exact h (by rw [hq])

theorem erase_hit {x : Nat × Nat} {l : List (Nat × Nat)} : (x :: l).erase x = l := by
  rw [List.erase_cons, if_pos (by simp)]

/-- The exchange keeps the objects. -/
theorem run_trade {h : Heap} {P : Nat → Nat → Prop} (hp : Holds h P) {b n i c : Nat} (hb : (b, c) ∈ h.blocks) (hn : (n, 1) ∈ h.blocks)
    (hn1 : (n + 1, 1) ∈ h.blocks) (hi : i < c) (h1 : P b i) (h2 : P n 0) (h3 : ¬ P (n + 1) 0) (hbn : b ≠ n) (hbn1 : b ≠ n + 1) (es : List Ev) :
    ∃ h', Heap.run (tradeEv md b n i ++ es) h = Heap.run es h' ∧ h'.blocks = h.blocks ∧ Holds h' P := by
  cases md with
  | swap => exact ⟨h, rfl, rfl, hp⟩
  | tmp =>
    simp only [tradeEv, List.cons_append, List.nil_append]
    obtain ⟨h1', r1, b1, p1⟩ := hp.ctor (i := 0) hn1 (by omega) h3 (.dtor n 0 :: .ctor n 0 :: .dtor b i :: .ctor b i :: .dtor (n + 1) 0 :: es)
    obtain ⟨h2', r2, b2, p2⟩ := p1.dtor (b := n) (i := 0) (Or.inr h2) (.ctor n 0 :: .dtor b i :: .ctor b i :: .dtor (n + 1) 0 :: es)
    obtain ⟨h3', r3, b3, p3⟩ := p2.ctor (b := n) (i := 0) (n := 1) (by rw [b2, b1]; exact hn) (by omega) (fun hc => hc.2 ⟨rfl, rfl⟩)
      (.dtor b i :: .ctor b i :: .dtor (n + 1) 0 :: es)
    obtain ⟨h4', r4, b4, p4⟩ := p3.dtor (b := b) (i := i) (Or.inr ⟨Or.inr h1, fun hc => hbn hc.1⟩) (.ctor b i :: .dtor (n + 1) 0 :: es)
    obtain ⟨h5', r5, b5, p5⟩ := p4.ctor (b := b) (i := i) (n := c) (by rw [b4, b3, b2, b1]; exact hb) hi (fun hc => hc.2 ⟨rfl, rfl⟩)
      (.dtor (n + 1) 0 :: es)
    obtain ⟨h6', r6, b6, p6⟩ := p5.dtor (b := n + 1) (i := 0)
      (Or.inr ⟨Or.inr ⟨Or.inl ⟨rfl, rfl⟩, by omega⟩, fun hc => hbn1 hc.1.symm⟩) es
    refine ⟨h6', by rw [r1, r2, r3, r4, r5, r6], by rw [b6, b5, b4, b3, b2, b1], p6.congr ?_⟩
    intro b' i'
    by_cases e1 : b' = n + 1 ∧ i' = 0
    · obtain ⟨rfl, rfl⟩ := e1
      simp [h3]
    · by_cases e2 : b' = n ∧ i' = 0
      · obtain ⟨rfl, rfl⟩ := e2
        have : ¬ (b' = b) := fun hq => hbn hq.symm
        simp [h2, this]
      · by_cases e3 : b' = b ∧ i' = i
        · obtain ⟨rfl, rfl⟩ := e3
          simp [h1, e1]
        · simp [e1, e2, e3]

/-! ### The displacement loop -/

theorem used_putRich {t : Map K V} {i : Nat} (hi : i < cap t) {c : Ctrl} (hc : c.dist ≠ 255) (e : K × V) {x : Nat} (hx : x < cap t) :
    ((putRich t i c e).ctrl x).dist ≠ 255 ↔ x = i ∨ (t.ctrl x).dist ≠ 255 := by
  have hw := wrote_putRich hi c e
  by_cases hxi : x = i
  · subst hxi; rw [hw.self]; simp [hc]
  · rw [hw.other x hx hxi]; simp [hxi]

/-- The state of the loop of `insert_to_place` with target `a`: the element `e` with control word `c` is carried to the slot `q` places behind
the target; `q0` places behind it there is an empty slot. -/
structure Carry (E : Env K) (sec : Nat → Nat) (a : Nat) (t : Map K V) (q q0 : Nat) (c : Ctrl) (e : K × V) : Prop where
  tab : Tab E sec t
  lt : a < cap t
  pos : 1 ≤ q
  le : q ≤ q0
  q0_lt : q0 < cap t
  empty : (t.ctrl ((a + q0) % cap t)).dist = 255
  tag : c.tag = tagOf E sec e.1
  dist : c.dist = far E t e.1 ((a + q) % cap t)
  prev : ∃ x, x < cap t ∧ nxt t x = (a + q) % cap t ∧ (t.ctrl x).dist ≠ 255 ∧ c.dist ≤ (t.ctrl x).dist + 1
  spread : Spread E 254 (cap t) (e :: entries t)

theorem Carry.small {a : Nat} {t : Map K V} {q q0 : Nat} {c : Ctrl} {e : K × V} (h : Carry E sec a t q q0 c e) : c.dist < 254 := by
  have h0 := h.tab.cap_ge
  rw [h.dist]
  refine carried_lt h.tab ⟨_, Nat.mod_lt _ (by omega), h.empty⟩ (Nat.mod_lt _ (by omega)) (Or.inr ?_) h.spread
  rw [← h.dist]; exact h.prev

theorem Carry.ne {a : Nat} {t : Map K V} {q q0 : Nat} {c : Ctrl} {e : K × V} (h : Carry E sec a t q q0 c e) : (a + q) % cap t ≠ a := by
  have h1 := h.le
  have h2 := h.q0_lt
  have h3 := h.pos
  have h4 := h.lt
  rw [Flat.add_mod_of_lt h.lt (by omega)]
  split <;> omega

/-- One step over a slot in use. -/
theorem Carry.step {a : Nat} {t : Map K V} {q q0 : Nat} {c : Ctrl} {e : K × V} (h : Carry E sec a t q q0 c e)
    (hemp : (t.ctrl ((a + q) % cap t)).dist ≠ 255) :
    ∃ t1 c1 e1, swapStep t ((a + q) % cap t) c e = some (t1, c1, e1) ∧ Rob16.Same t t1 ∧ c1.dist + 1 < 254 ∧ q < q0 ∧
      Carry E sec a t1 (q + 1) q0 ⟨c1.dist + 1, c1.tag⟩ e1 ∧
      ∀ x, x < cap t → ((t1.ctrl x).dist ≠ 255 ↔ (t.ctrl x).dist ≠ 255) := by
  have h0 := h.tab.cap_ge
  have ha := h.lt
  have hq := h.le
  have hq0 := h.q0_lt
  have hz := h.empty
  have hdist := h.dist
  have hprev := h.prev
  have hi : (a + q) % cap t < cap t := Nat.mod_lt _ (by omega)
  have hzlt : (a + q0) % cap t < cap t := Nat.mod_lt _ (by omega)
  have he : ∃ z, z < cap t ∧ (t.ctrl z).dist = 255 := ⟨_, hzlt, hz⟩
  have hia := h.ne
  have hnxt : nxt t ((a + q) % cap t) = (a + (q + 1)) % cap t := by
    unfold nxt
    rw [Nat.mod_add_mod, Nat.add_assoc]
  have hlt := h.small
  have hqq : q ≠ q0 := by
    rintro rfl
    exact hemp hz
  generalize hidef : (a + q) % cap t = i at *
  obtain ⟨e', he', hd', ht'⟩ := h.tab.cell i hi hemp
  have hzi : (a + q0) % cap t ≠ i := by
    intro hc
    rw [hc] at hz
    exact hemp hz
  have hbi := h.tab.bound i hi
  have hstep : ∃ t1 c1 e1, swapStep t i c e = some (t1, c1, e1) ∧ Tab E sec t1 ∧ Rob16.Same t t1 ∧ (e1 :: entries t1).Perm (e :: entries t) ∧
      (t1.ctrl ((a + q0) % cap t)).dist = 255 ∧ c1.tag = tagOf E sec e1.1 ∧ c1.dist = far E t e1.1 i ∧ far E t e1.1 i + 1 < cap t ∧
      (t1.ctrl i).dist ≠ 255 ∧ c1.dist ≤ (t1.ctrl i).dist ∧ c1.dist < 254 ∧
      ∀ x, x < cap t → ((t1.ctrl x).dist ≠ 255 ↔ (t.ctrl x).dist ≠ 255) := by
    unfold swapStep
    by_cases hs : (t.ctrl i).dist < c.dist
    · rw [if_pos hs, he']
      have hw := wrote_putRich hi c e
      refine ⟨_, _, _, rfl, h.tab.putRich hi hdist h.tag hlt (Or.inr hprev) (Or.inr (by omega)), same_putRich _ _ _ _, ?_,
        ?_, ht', hd', ?_, ?_, ?_, by omega, ?_⟩
      · exact entries_replace (t' := putRich t i c e) hi rfl hw (fun x hx => upd_other _ _ hx) (by omega) (upd_self _ _ _) (by omega) he'
      · rw [hw.other _ hzlt hzi]; exact hz
      · refine far_lt_of_empty h.tab.toBase he hi hemp (Or.inr ?_)
        have hp : Pass E t e'.1 (far E t e'.1 i) := by
          unfold Pass
          rw [h.tab.pos_far e'.1 hi, ← hd']
          exact ⟨hemp, Nat.le_refl _⟩
        exact h.tab.pass_back hp _ (by omega)
      · rw [hw.self]; omega
      · rw [hw.self]; omega
      · intro x hx
        rw [used_putRich hi (by omega) e hx]
        constructor
        · rintro (rfl | hq)
          · exact hemp
          · exact hq
        · exact Or.inr
    · rw [if_neg hs]
      refine ⟨_, _, _, rfl, h.tab, Same.refl _, List.Perm.refl _, hz, h.tag, hdist, ?_, hemp, by omega, hlt, fun _ _ => Iff.rfl⟩
      obtain ⟨x, hx, hxi, hxu, hxd⟩ := hprev
      by_cases hc0 : c.dist = 0
      · rw [← hdist, hc0]; omega
      refine far_lt_of_empty h.tab.toBase he hi hemp (Or.inr ?_)
      have hxp : x = Rob16.pos E t e.1 (far E t e.1 i - 1) := by
        apply nxt_inj hx (h.tab.pos_lt _ _)
        rw [Base.nxt_pos, show far E t e.1 i - 1 + 1 = far E t e.1 i by omega, h.tab.pos_far e.1 hi, hxi]
      unfold Pass
      rw [← hxp]
      exact ⟨hxu, by omega⟩
  obtain ⟨t1, c1, e1, s1, s2, s3, s4, s5, s6, s7, s8, s9, s10, s11, s12⟩ := hstep
  have hcap1 := s3.cap
  have hfar1 : c1.dist + 1 = far E t1 e1.1 (nxt t i) := by
    rw [s3.far, far_nxt h.tab.toBase hi s8, s7]
  have hnx1 : ∀ x, nxt t1 x = nxt t x := fun x => by unfold nxt; rw [hcap1]
  have hC : Carry E sec a t1 (q + 1) q0 ⟨c1.dist + 1, c1.tag⟩ e1 := by
    refine ⟨s2, by rw [hcap1]; exact ha, by omega, by omega, by rw [hcap1]; exact hq0, by rw [hcap1]; exact s5, s6, ?_, ?_, ?_⟩
    · rw [hcap1, ← hnxt]; exact hfar1
    · exact ⟨i, by rw [hcap1]; exact hi, by rw [hnx1, hcap1, hnxt], s9, by show c1.dist + 1 ≤ _; omega⟩
    · rw [hcap1]; exact h.spread.perm s4
  exact ⟨t1, c1, e1, s1, s3, hC.small, by omega, hC, s12⟩

/-- `emplace_rich_slot` into a slot without an object. -/
theorem run_rich {h : Heap} {P : Nat → Nat → Prop} (hp : Holds h P) {b n i c : Nat} (hb : (b, c) ∈ h.blocks) (hi : i < c) (hn : ¬ P b i)
    (h2 : P n 0) : ∃ h', Heap.run (richEv b n i) h = some h' ∧ h'.blocks = h.blocks ∧
      Holds h' (fun b' i' => ((b' = b ∧ i' = i) ∨ P b' i') ∧ ¬ (b' = n ∧ i' = 0)) := by
  obtain ⟨h1, r1, b1, p1⟩ := hp.ctor hb hi hn [.dtor n 0]
  obtain ⟨h2', r2, b2, p2⟩ := p1.dtor (b := n) (i := 0) (Or.inr h2) []
  exact ⟨h2', by unfold richEv; rw [r1, r2]; rfl, by rw [b2, b1], p2⟩

theorem placeLoopE_spec (reh : Bool) {a b n : Nat} {Q : Nat → Nat → Prop} (hQ : ∀ b' i', Q b' i' → b' ≠ b ∧ b' ≠ n ∧ b' ≠ n + 1)
    (hbn : b ≠ n) (hbn1 : b ≠ n + 1) : ∀ (f q q0 : Nat) (c : Ctrl) (e : K × V) (t : Map K V) (h : Heap), Carry E sec a t q q0 c e → q0 < q + f →
    (t.ctrl a).dist ≠ 255 → (b, cap t) ∈ h.blocks → (n, 1) ∈ h.blocks → (n + 1, 1) ∈ h.blocks →
    Holds h (fun b' i' => (b' = b ∧ i' < cap t ∧ (t.ctrl i').dist ≠ 255 ∧ i' ≠ a) ∨ (b' = n ∧ i' = 0) ∨ Q b' i') →
    ∃ t' bb l h', placeLoopE md reh b n a f ((a + q) % cap t) c e t = .ok ((t', bb), l) ∧ Heap.run l h = some h' ∧ h'.blocks = h.blocks ∧
      Rob16.Same t t' ∧ (t'.ctrl a).dist ≠ 255 ∧
      Holds h' (fun b' i' => (b' = b ∧ i' < cap t ∧ (t'.ctrl i').dist ≠ 255 ∧ (bb = true ∨ i' ≠ a)) ∨ Q b' i') := by
  intro f
  induction f with
  | zero => intro q q0 c e t h hc hf; have := hc.le; omega
  | succ f ih =>
    intro q q0 c e t h hc hf hua hb hn hn1 hH
    have h0 := hc.tab.cap_ge
    have hi : (a + q) % cap t < cap t := Nat.mod_lt _ (by omega)
    have hia := hc.ne
    have hlt := hc.small
    have hnxt : Rob16.next t ((a + q) % cap t) = (a + (q + 1)) % cap t := by
      rw [hc.tab.next_eq]
      unfold nxt
      rw [Nat.mod_add_mod, Nat.add_assoc]
    unfold placeLoopE
    by_cases hemp : (t.ctrl ((a + q) % cap t)).dist = 255
    · rw [if_pos hemp]
      obtain ⟨h', r1, r2, r3⟩ := run_rich hH hb hi (by
        rintro (⟨_, _, h1, _⟩ | ⟨h1, _⟩ | h1)
        · exact h1 hemp
        · exact hbn h1
        · exact (hQ _ _ h1).1 rfl) (Or.inr (Or.inl ⟨rfl, rfl⟩))
      generalize (a + q) % cap t = i at *
      refine ⟨_, false, _, h', rfl, r1, r2, same_putRich _ _ _ _, ?_, r3.congr ?_⟩
      · rw [used_putRich hi (by omega) e hc.lt]; exact Or.inr hua
      · intro b' i'
        constructor
        · rintro ⟨⟨rfl, rfl⟩ | ⟨rfl, h1, h2, h3⟩ | ⟨h1, h2⟩ | h1, hnn⟩
          · exact Or.inl ⟨rfl, hi, by rw [used_putRich hi (by omega) e hi]; exact Or.inl rfl, Or.inr hia⟩
          · exact Or.inl ⟨rfl, h1, by rw [used_putRich hi (by omega) e h1]; exact Or.inr h2, Or.inr h3⟩
          · exact absurd ⟨h1, h2⟩ hnn
          · exact Or.inr h1
        · rintro (⟨rfl, h1, h2, h3⟩ | h1)
          · rw [used_putRich hi (by omega) e h1] at h2
            refine ⟨?_, fun hq => hbn hq.1⟩
            rcases h2 with rfl | h2
            · exact Or.inl ⟨rfl, rfl⟩
            · refine Or.inr (Or.inl ⟨rfl, h1, h2, ?_⟩)
              rcases h3 with h3 | h3
              · cases h3
              · exact h3
          · exact ⟨Or.inr (Or.inr (Or.inr h1)), fun hq => (hQ _ _ h1).2.1 hq.1⟩
    · rw [if_neg hemp]
      obtain ⟨t1, c1, e1, s1, s2, s3, s4, s5, s6⟩ := hc.step hemp
      have hcap1 := s2.cap
      rw [s1]
      simp only
      have hmod : (c1.dist + 1) % 256 = c1.dist + 1 := Nat.mod_eq_of_lt (by omega)
      rw [hmod, hnxt]
      have hne : (a + (q + 1)) % cap t ≠ a := by
        have := s5.ne
        rwa [hcap1] at this
      -- the exchange
      have hX : ∀ es, ∃ h1, Heap.run ((if (t.ctrl ((a + q) % cap t)).dist < c.dist then tradeEv md b n ((a + q) % cap t) else []) ++ es) h = Heap.run es h1 ∧
          h1.blocks = h.blocks ∧ Holds h1 (fun b' i' => (b' = b ∧ i' < cap t ∧ (t.ctrl i').dist ≠ 255 ∧ i' ≠ a) ∨ (b' = n ∧ i' = 0) ∨ Q b' i') := by
        intro es
        split
        · refine run_trade hH hb hn hn1 hi (Or.inl ⟨rfl, hi, hemp, hia⟩) (Or.inr (Or.inl ⟨rfl, rfl⟩)) ?_ hbn hbn1 es
          rintro (⟨h1, _⟩ | ⟨h1, _⟩ | h1)
          · exact hbn1 h1.symm
          · omega
          · exact (hQ _ _ h1).2.2 rfl
        · exact ⟨h, rfl, rfl, hH⟩
      have hcongr : ∀ h1 : Heap, Holds h1 (fun b' i' => (b' = b ∧ i' < cap t ∧ (t.ctrl i').dist ≠ 255 ∧ i' ≠ a) ∨ (b' = n ∧ i' = 0) ∨ Q b' i') →
          Holds h1 (fun b' i' => (b' = b ∧ i' < cap t1 ∧ (t1.ctrl i').dist ≠ 255 ∧ i' ≠ a) ∨ (b' = n ∧ i' = 0) ∨ Q b' i') := by
        intro h1 hh
        refine hh.congr fun b' i' => ?_
        rw [hcap1]
        by_cases hlt' : i' < cap t
        · rw [s6 i' hlt']
        · simp [hlt']
      have ha1 : a < cap t1 := by rw [hcap1]; exact hc.lt
      have hua1 : (t1.ctrl a).dist ≠ 255 := (s6 a hc.lt).mpr hua
      by_cases hcond : (reh = false ∧ distLimit < c1.dist + 1) ∨ (a + (q + 1)) % cap t = a
      · rw [if_pos hcond]
        obtain ⟨h1, r1, r2, r3⟩ := hX (richEv b n a)
        obtain ⟨h2, k1, k2, k3⟩ := run_rich (hcongr h1 r3) (b := b) (n := n) (i := a) (c := cap t) (by rw [r2]; exact hb) hc.lt (by
          rintro (⟨_, _, _, h1⟩ | ⟨h1, _⟩ | h1)
          · exact h1 rfl
          · exact hbn h1
          · exact (hQ _ _ h1).1 rfl) (Or.inr (Or.inl ⟨rfl, rfl⟩))
        have hput : ∀ x, x < cap t → (((putRich t1 a ⟨c1.dist + 1, c1.tag⟩ e1).ctrl x).dist ≠ 255 ↔ x = a ∨ (t1.ctrl x).dist ≠ 255) :=
          fun x hx => used_putRich ha1 (show c1.dist + 1 ≠ 255 by omega) e1 (by rw [hcap1]; exact hx)
        refine ⟨_, true, _, h2, rfl, by rw [r1, k1], by rw [k2, r2], s2.trans (same_putRich _ _ _ _), ?_, k3.congr ?_⟩
        · rw [hput a hc.lt]; exact Or.inl rfl
        · intro b' i'
          rw [hcap1]
          constructor
          · rintro ⟨⟨rfl, rfl⟩ | ⟨rfl, h1, h2, h3⟩ | ⟨h1, h2⟩ | h1, hnn⟩
            · exact Or.inl ⟨rfl, hc.lt, by rw [hput _ hc.lt]; exact Or.inl rfl, Or.inl rfl⟩
            · exact Or.inl ⟨rfl, h1, by rw [hput _ h1]; exact Or.inr h2, Or.inl rfl⟩
            · exact absurd ⟨h1, h2⟩ hnn
            · exact Or.inr h1
          · rintro (⟨rfl, h1, h2, h3⟩ | h1)
            · rw [hput _ h1] at h2
              refine ⟨?_, fun hq => hbn hq.1⟩
              by_cases hia' : i' = a
              · exact Or.inl ⟨rfl, hia'⟩
              · refine Or.inr (Or.inl ⟨rfl, h1, ?_, hia'⟩)
                rcases h2 with h2 | h2
                · exact absurd h2 hia'
                · exact h2
            · exact ⟨Or.inr (Or.inr (Or.inr h1)), fun hq => (hQ _ _ h1).2.1 hq.1⟩
      · rw [if_neg hcond]
        obtain ⟨h1, r1, r2, r3⟩ := hX []
        have hrec := ih (q + 1) q0 ⟨c1.dist + 1, c1.tag⟩ e1 t1 h1 s5 (by omega) hua1 (by rw [r2, hcap1]; exact hb) (by rw [r2]; exact hn)
          (by rw [r2]; exact hn1) (hcongr h1 r3)
        rw [hcap1] at hrec
        obtain ⟨t', bb, l, h', g1, g2, g3, g4, g5, g6⟩ := hrec
        obtain ⟨h1', r1', r2', r3'⟩ := hX l
        have hh1 : Heap.run (if (t.ctrl ((a + q) % cap t)).dist < c.dist then tradeEv md b n ((a + q) % cap t) else []) h = some h1 := by
          rw [List.append_nil] at r1
          rw [r1]; rfl
        rw [g1, Res.bind_ok]
        refine ⟨t', bb, _, h', rfl, ?_, by rw [g3, r2], s2.trans g4, g5, g6⟩
        rw [Life.run_append, hh1]
        exact g2

theorem placeLoopE_proj (reh : Bool) (b n a : Nat) : ∀ (f i : Nat) (c : Ctrl) (e : K × V) (t : Map K V),
    (placeLoopE md reh b n a f i c e t).bind (fun q => .ok q.1) = placeLoop reh a f i c e t := by
  intro f
  induction f with
  | zero => intro i c e t; rfl
  | succ f ih =>
    intro i c e t
    unfold placeLoopE placeLoop
    split
    · rfl
    · cases swapStep t i c e with
      | none => rfl
      | some p =>
        obtain ⟨t', c', e'⟩ := p
        simp only
        split
        · rfl
        · rw [← ih]
          cases placeLoopE md reh b n a f (Rob16.next t i) ⟨(c'.dist + 1) % 256, c'.tag⟩ e' t' <;> rfl

theorem placeLoopE_withSlot (reh : Bool) (b n a : Nat) (o : Option (K × V)) : ∀ (f i : Nat) (c : Ctrl) (e : K × V) (t : Map K V), i ≠ a →
    placeLoopE md reh b n a f i c e (withSlot a o t) =
      (placeLoopE md reh b n a f i c e t).bind fun q => .ok (if q.1.2 then q.1 else (withSlot a o q.1.1, false), q.2) := by
  intro f
  induction f with
  | zero => intro i c e t _; rfl
  | succ f ih =>
    intro i c e t hi
    unfold placeLoopE
    by_cases h1 : (t.ctrl i).dist = bEmpty
    · rw [if_pos h1, if_pos (show ((withSlot a o t).ctrl i).dist = bEmpty from h1), putRich_withSlot hi]
      rfl
    · rw [if_neg h1, if_neg (show ¬ ((withSlot a o t).ctrl i).dist = bEmpty from h1)]
      have hslot : (withSlot a o t).slot i = t.slot i := upd_other _ _ hi
      have hnext : Rob16.next (withSlot a o t) i = Rob16.next t i := rfl
      have hctrl : (withSlot a o t).ctrl i = t.ctrl i := rfl
      unfold swapStep
      rw [hctrl, hslot, hnext]
      by_cases h2 : (t.ctrl i).dist < c.dist
      · simp only [if_pos h2]
        cases hs : t.slot i with
        | none => rfl
        | some e' =>
          simp only [Option.map_some]
          by_cases h3 : (reh = false ∧ distLimit < ((t.ctrl i).dist + 1) % 256) ∨ Rob16.next t i = a
          · rw [if_pos h3, if_pos h3, putRich_withSlot hi, putRich_withSlot_self]; rfl
          · rw [if_neg h3, if_neg h3, putRich_withSlot hi, ih _ _ _ _ (fun hc => h3 (Or.inr hc))]
            cases placeLoopE md reh b n a f (Rob16.next t i) ⟨((t.ctrl i).dist + 1) % 256, (t.ctrl i).tag⟩ e' (putRich t i c e) <;> rfl
      · simp only [if_neg h2]
        by_cases h3 : (reh = false ∧ distLimit < (c.dist + 1) % 256) ∨ Rob16.next t i = a
        · rw [if_pos h3, if_pos h3, putRich_withSlot_self]; rfl
        · rw [if_neg h3, if_neg h3, ih _ _ _ _ (fun hc => h3 (Or.inr hc))]
          cases placeLoopE md reh b n a f (Rob16.next t i) ⟨(c.dist + 1) % 256, c.tag⟩ e t <;> rfl

/-- What the target slot holds does not matter. -/
theorem placeLoopE_any {reh : Bool} {b n a : Nat} {o : Option (K × V)} {f i : Nat} {c : Ctrl} {e : K × V} {t t' : Map K V} {bb : Bool} {l : List Ev}
    (hi : i ≠ a) (h : placeLoopE md reh b n a f i c e (withSlot a o t) = .ok ((t', bb), l)) :
    ∃ t0, placeLoopE md reh b n a f i c e t = .ok ((t0, bb), l) ∧ t0.ctrl = t'.ctrl ∧ t0.mask = t'.mask ∧ t0.gmask = t'.gmask := by
  rw [placeLoopE_withSlot reh b n a o f i c e t hi] at h
  cases hr : placeLoopE md reh b n a f i c e t with
  | diverge => rw [hr] at h; cases h
  | ub => rw [hr] at h; cases h
  | ok q =>
    obtain ⟨⟨t0, b0⟩, l0⟩ := q
    rw [hr] at h
    simp only [Res.bind_ok, Res.ok.injEq, Prod.mk.injEq] at h
    obtain ⟨h1, h2⟩ := h
    subst h2
    cases b0 with
    | true =>
      simp only [if_true, Prod.mk.injEq] at h1
      obtain ⟨rfl, rfl⟩ := h1
      exact ⟨t0, rfl, rfl, rfl, rfl⟩
    | false =>
      simp only [Bool.false_eq_true, if_false, Prod.mk.injEq] at h1
      obtain ⟨rfl, rfl⟩ := h1
      exact ⟨t0, rfl, rfl, rfl, rfl⟩

/-- The objects of the map: the slots with a used control word. -/
def Mine (t : Map K V) (b : Nat) (b' i' : Nat) : Prop := b' = b ∧ i' < cap t ∧ (t.ctrl i').dist ≠ 255

/-- What `makeRoom` leaves on the heap: the objects of the map, without the one at `i` if the slot is free now. -/
structure Room (s : LT K V) (h : Heap) (Q : Nat → Nat → Prop) (i : Nat) (s' : LT K V) (bb : Bool) (l : List Ev) (h' : Heap) : Prop where
  log : s'.log = s.log ++ l
  run : Heap.run l h = some h'
  blocks : h'.blocks = h.blocks
  blk : s'.blk = s.blk
  gblk : s'.gblk = s.gblk
  next : s.next ≤ s'.next
  used : (s'.t.ctrl i).dist ≠ 255
  holds : Holds h' (fun b' i' => (Mine s'.t s.blk b' i' ∧ (bb = true ∨ i' ≠ i)) ∨ Q b' i')

theorem makeRoomE_spec (reh : Bool) {s : LT K V} (h : Tab E sec s.t) (he : ∃ z, z < cap s.t ∧ (s.t.ctrl z).dist = 255) {e : K × V} {m : Nat}
    (hm : Stop E s.t e.1 m) (hS : Spread E 254 (cap s.t) (e :: entries s.t)) {hp : Heap} {Q : Nat → Nat → Prop}
    (hb : (s.blk, cap s.t) ∈ hp.blocks) (hfresh : ∀ x ∈ hp.blocks, x.1 < s.next) (hQ : ∀ b' i', Q b' i' → b' ≠ s.blk ∧ b' < s.next)
    (hH : Holds hp (fun b' i' => Mine s.t s.blk b' i' ∨ Q b' i')) :
    ∃ s' bb l h', makeRoomE md reh (pos E s.t e.1 m) ⟨m, tagOf E sec e.1⟩ s = .ok (s', bb) ∧
      makeRoom reh (pos E s.t e.1 m) ⟨m, tagOf E sec e.1⟩ s.t = .ok (s'.t, bb) ∧ Room s hp Q (pos E s.t e.1 m) s' bb l h' := by
  obtain ⟨q0', b0', hplain, hroom⟩ := makeRoom_spec reh h he hm hS
  have h0 := h.cap_ge
  have hi := h.pos_lt (E := E) e.1 m
  have hfar : far E s.t e.1 (pos E s.t e.1 m) = m := Base.far_pos _ hm.lt
  have hprev : m = 0 ∨ ∃ x, x < cap s.t ∧ nxt s.t x = pos E s.t e.1 m ∧ (s.t.ctrl x).dist ≠ 255 ∧ m ≤ (s.t.ctrl x).dist + 1 := by
    by_cases hm0 : m = 0
    · exact Or.inl hm0
    · right
      have hp := hm.front (m - 1) (by omega)
      refine ⟨pos E s.t e.1 (m - 1), h.pos_lt _ _, ?_, hp.1, ?_⟩
      · rw [Base.nxt_pos, show m - 1 + 1 = m by omega]
      · have := hp.2; omega
  have hlt : m < 254 := by
    have := carried_lt h he hi (e := e) (by rw [hfar]; exact hprev) hS
    rwa [hfar] at this
  have hself : (s.t.ctrl (pos E s.t e.1 m)).dist = 255 ∨ (s.t.ctrl (pos E s.t e.1 m)).dist < m := by
    have := hm.not
    unfold Pass at this
    omega
  generalize pos E s.t e.1 m = i at *
  have hT0 : Tab E sec (putRich s.t i ⟨m, tagOf E sec e.1⟩ e) := h.putRich hi hfar.symm rfl hlt hprev (by
    rcases hself with h1 | h1
    · exact Or.inl h1
    · right; show (s.t.ctrl i).dist ≤ m; omega)
  have hw := wrote_putRich hi ⟨m, tagOf E sec e.1⟩ e
  have hup : ∀ x, x < cap s.t → (((putRich s.t i ⟨m, tagOf E sec e.1⟩ e).ctrl x).dist ≠ 255 ↔ x = i ∨ (s.t.ctrl x).dist ≠ 255) :=
    fun x hx => used_putRich hi (show m ≠ 255 by omega) e hx
  by_cases hemp : (s.t.ctrl i).dist = 255
  · refine ⟨{ s with t := setUsed s.t i ⟨m, tagOf E sec e.1⟩ }, false, [], hp, ?_, ?_, ?_⟩
    · unfold makeRoomE; rw [if_pos hemp]
    · unfold makeRoom; rw [if_pos hemp]
    · refine ⟨by simp, rfl, rfl, rfl, rfl, Nat.le_refl _, ?_, hH.congr fun b' i' => ?_⟩
      · exact (hup i hi).mpr (Or.inl rfl)
      · show _ ↔ ((b' = s.blk ∧ i' < cap s.t ∧ ((putRich s.t i ⟨m, tagOf E sec e.1⟩ e).ctrl i').dist ≠ 255) ∧ _) ∨ _
        unfold Mine
        constructor
        · rintro (⟨h1, h2, h3⟩ | h1)
          · refine Or.inl ⟨⟨h1, h2, (hup _ h2).mpr (Or.inr h3)⟩, Or.inr ?_⟩
            rintro rfl; exact h3 hemp
          · exact Or.inr h1
        · rintro (⟨⟨h1, h2, h3⟩, h4⟩ | h1)
          · rcases h4 with h4 | h4
            · cases h4
            · rcases (hup _ h2).mp h3 with h5 | h5
              · exact absurd h5 h4
              · exact Or.inl ⟨h1, h2, h5⟩
          · exact Or.inr h1
  · obtain ⟨eo, heo, hdo, hto⟩ := h.cell i hi hemp
    have hlo : (s.t.ctrl i).dist < m := by
      rcases hself with h1 | h1
      · exact absurd h1 hemp
      · exact h1
    have hmod : ((s.t.ctrl i).dist + 1) % 256 = (s.t.ctrl i).dist + 1 := Nat.mod_eq_of_lt (by omega)
    have hrep : (eo :: entries (putRich s.t i ⟨m, tagOf E sec e.1⟩ e)).Perm (e :: entries s.t) :=
      entries_replace (t' := putRich s.t i ⟨m, tagOf E sec e.1⟩ e) hi rfl hw (fun x hx => upd_other _ _ hx) (show m < 255 by omega) (upd_self _ _ _) (by omega) heo
    have hfo : far E s.t eo.1 i + 1 < cap s.t := by
      refine far_lt_of_empty h.toBase he hi hemp (Or.inr ?_)
      have hp : Pass E s.t eo.1 (far E s.t eo.1 i) := by
        unfold Pass
        rw [h.pos_far eo.1 hi, ← hdo]
        exact ⟨hemp, Nat.le_refl _⟩
      exact h.pass_back hp _ (by omega)
    have hnx : nxt s.t i = (i + 1) % cap s.t := rfl
    have hia : nxt s.t i ≠ i := nxt_ne h.toBase hi
    obtain ⟨q0, hq1, hq2, hq3⟩ : ∃ q0, 1 ≤ q0 ∧ q0 < cap s.t ∧ (s.t.ctrl ((i + q0) % cap s.t)).dist = 255 := by
      obtain ⟨z, hz, hzc⟩ := he
      have hzi : z ≠ i := by rintro rfl; exact hemp hzc
      by_cases hlt : i < z
      · refine ⟨z - i, by omega, by omega, ?_⟩
        rw [show i + (z - i) = z by omega, Nat.mod_eq_of_lt hz]; exact hzc
      · refine ⟨z + cap s.t - i, by omega, by omega, ?_⟩
        rw [show i + (z + cap s.t - i) = z + cap s.t by omega, Nat.add_mod_right, Nat.mod_eq_of_lt hz]; exact hzc
    have hzi : (i + q0) % cap s.t ≠ i := by
      intro hc
      rw [hc] at hq3
      exact hemp hq3
    have hcapp : cap (putRich s.t i ⟨m, tagOf E sec e.1⟩ e) = cap s.t := rfl
    have hC : Carry E sec i (putRich s.t i ⟨m, tagOf E sec e.1⟩ e) 1 q0 ⟨(s.t.ctrl i).dist + 1, (s.t.ctrl i).tag⟩ eo := by
      refine ⟨hT0, hi, Nat.le_refl _, hq1, hq2, ?_, hto, ?_, ?_, hS.perm hrep⟩
      · show ((putRich s.t i ⟨m, tagOf E sec e.1⟩ e).ctrl ((i + q0) % cap s.t)).dist = 255
        rw [hw.other _ (Nat.mod_lt _ (by omega)) hzi]; exact hq3
      · show (s.t.ctrl i).dist + 1 = far E s.t eo.1 (nxt s.t i)
        rw [far_nxt h.toBase hi hfo, hdo]
      · exact ⟨i, hi, rfl, by rw [hw.self]; show m ≠ 255; omega, by rw [hw.self]; show (s.t.ctrl i).dist + 1 ≤ m + 1; omega⟩
    have hblt : s.blk < s.next := hfresh _ hb
    -- the two buffers, and the element moved into the first one
    let h1 : Heap := { hp with blocks := (s.next + 1, 1) :: (s.next, 1) :: hp.blocks }
    have hal : ∀ es, Heap.run (.alloc s.next 1 :: .alloc (s.next + 1) 1 :: es) hp = Heap.run es h1 := by
      intro es
      simp only [Heap.run]
      rw [step_alloc (by intro x hx; have := hfresh x hx; omega)]
      simp only [Option.bind_some]
      rw [step_alloc (h := { hp with blocks := (s.next, 1) :: hp.blocks }) (by
        intro x hx
        rcases List.mem_cons.mp hx with rfl | hx
        · simp only; omega
        · have := hfresh x hx; omega)]
      rfl
    have hH1 : Holds h1 (fun b' i' => Mine s.t s.blk b' i' ∨ Q b' i') := ⟨hH.nodup, hH.mem⟩
    have hnot : ¬ (Mine s.t s.blk s.next 0 ∨ Q s.next 0) := by
      rintro (⟨hq, _⟩ | hq)
      · omega
      · have := (hQ _ _ hq).2; omega
    obtain ⟨h2, r2, b2, p2⟩ := hH1.ctor (b := s.next) (i := 0) (n := 1) (by simp [h1]) (by omega) hnot [.dtor s.blk i]
    obtain ⟨h3, r3, b3, p3⟩ := p2.dtor (b := s.blk) (i := i) (Or.inr (Or.inl ⟨rfl, hi, hemp⟩)) []
    have hb3 : h3.blocks = (s.next + 1, 1) :: (s.next, 1) :: hp.blocks := by rw [b3, b2]
    have hpre : ∀ es, Heap.run ([.alloc s.next 1, .alloc (s.next + 1) 1, .ctor s.next 0, .dtor s.blk i] ++ es) hp = Heap.run es h3 := by
      intro es
      have hr : Heap.run [.alloc s.next 1, .alloc (s.next + 1) 1, .ctor s.next 0, .dtor s.blk i] hp = some h3 := by
        rw [hal, r2, r3]; rfl
      rw [Life.run_append, hr]; rfl
    obtain ⟨t', bb, l, h4, g1, g2, g3, g4, g5, g6⟩ := placeLoopE_spec (md := md) (E := E) (sec := sec) reh (a := i) (b := s.blk) (n := s.next)
      (Q := Q) (fun b' i' hq => by have := hQ b' i' hq; omega) (by omega) (by omega) (cap s.t) 1 q0 _ eo _ h3 hC
      (show q0 < 1 + cap s.t by omega) (by rw [hw.self]; show m ≠ 255; omega) (by rw [hb3, hcapp]; simp [hb]) (by rw [hb3]; simp)
      (by rw [hb3]; simp) (p3.congr fun b' i' => by
        rw [hcapp]
        unfold Mine
        constructor
        · rintro ⟨⟨h1, h2⟩ | ⟨h1, h2, h3⟩ | h1, h4⟩
          · exact Or.inr (Or.inl ⟨h1, h2⟩)
          · exact Or.inl ⟨h1, h2, (hup _ h2).mpr (Or.inr h3), fun h5 => h4 ⟨h1, h5⟩⟩
          · exact Or.inr (Or.inr h1)
        · rintro (⟨h1, h2, h3, h4⟩ | ⟨h1, h2⟩ | h1)
          · rcases (hup _ h2).mp h3 with h5 | h5
            · exact absurd h5 h4
            · exact ⟨Or.inr (Or.inl ⟨h1, h2, h5⟩), fun h6 => h4 h6.2⟩
          · exact ⟨Or.inl ⟨h1, h2⟩, fun h6 => by omega⟩
          · exact ⟨Or.inr (Or.inr h1), fun h6 => (hQ _ _ h1).1 h6.1⟩)
    have hput : putRich s.t i ⟨m, tagOf E sec e.1⟩ e = withSlot i (some e) (setUsed s.t i ⟨m, tagOf E sec e.1⟩) := rfl
    rw [hcapp, hput] at g1
    obtain ⟨t0, k1, k2, k3, k4⟩ := placeLoopE_any (show (i + 1) % cap s.t ≠ i from hia) g1
    have hmk : makeRoomE md reh i ⟨m, tagOf E sec e.1⟩ s = .ok (emit ([.alloc s.next 1, .alloc (s.next + 1) 1, .ctor s.next 0, .dtor s.blk i] ++ l ++
        [.free (s.next + 1) 1, .free s.next 1]) { s with t := t0, next := s.next + 2 }, bb) := by
      unfold makeRoomE
      rw [if_neg hemp]
      unfold insertToPlaceE
      rw [heo]
      simp only
      rw [hmod, h.next_eq, hnx, k1, Res.bind_ok]
    have hmk' : makeRoom reh i ⟨m, tagOf E sec e.1⟩ s.t = .ok (t0, bb) := by
      unfold makeRoom
      rw [if_neg hemp]
      unfold insertToPlace
      rw [heo]
      simp only
      rw [hmod, h.next_eq, hnx, ← placeLoopE_proj (md := md) reh s.blk s.next, k1, Res.bind_ok]
    have hcap0 : cap t0 = cap s.t := by
      unfold cap
      rw [k3, g4.mask]; rfl
    have hlive : ∀ o ∈ h4.live, o.1 ≠ s.next ∧ o.1 ≠ s.next + 1 := by
      rintro ⟨b', i'⟩ ho
      rcases (g6.mem b' i').mp ho with ⟨hq, _⟩ | hq
      · simp only; omega
      · have := (hQ _ _ hq).2
        simp only; omega
    refine ⟨_, bb, _, { h4 with blocks := hp.blocks }, hmk, hmk', rfl, ?_, rfl, rfl, rfl, by show s.next ≤ s.next + 2; omega, ?_, ?_⟩
    · rw [List.append_assoc, hpre, Life.run_append, g2]
      simp only [Option.bind_some, Heap.run]
      rw [step_free (by rw [g3, hb3]; simp) (fun o ho => (hlive o ho).2)]
      simp only [Option.bind_some]
      rw [g3, hb3, erase_hit, step_free (h := { h4 with blocks := (s.next, 1) :: hp.blocks }) (by simp) (fun o ho => (hlive o ho).1)]
      simp only [Option.bind_some]
      rw [erase_hit]
    · show (t0.ctrl i).dist ≠ 255
      rw [k2]; exact g5
    · refine Holds.congr (P := fun b' i' => (b' = s.blk ∧ i' < cap s.t ∧ (t'.ctrl i').dist ≠ 255 ∧ (bb = true ∨ i' ≠ i)) ∨ Q b' i')
        ⟨g6.nodup, g6.mem⟩ fun b' i' => ?_
      show _ ↔ ((b' = s.blk ∧ i' < cap t0 ∧ (t0.ctrl i').dist ≠ 255) ∧ _) ∨ _
      rw [hcap0, k2]
      exact or_congr_left ⟨fun ⟨x1, x2, x3, x4⟩ => ⟨⟨x1, x2, x3⟩, x4⟩, fun ⟨⟨x1, x2, x3⟩, x4⟩ => ⟨x1, x2, x3, x4⟩⟩

end Verif.Rob16.Track
