/-
Lifetimes in `robin_hash_map` with the indirect layout (C131): which element objects and memory blocks the map creates and gives
up.  The map of `Verif.RobInd` is run together with a log of memory events; `Heap.step` of `Verif.Lifetime`, which knows nothing about
hash tables, decides whether the log is in order.

RH = `src/jstd/hashmap/robin_hash_map.h`.

The element type has a destructor that does something (`is_slot_trivial_destructor` is false); only then, and for big elements, is
the layout chosen (RH:328-348).  Simplifications beyond those of `Verif.RobInd`:
* `swap_slot` (RH:4982-4993) exchanges the values of two live objects; what it constructs and destroys inside is not logged.
* The constructor of a new element may throw; moving and swapping elements does not.
* The control block is a block of its own; control words have no lifetime.
* A refused request is one of the two of `create_slots`; the state says whether one has been refused (ghost `oom`).
-/
import Verif.Lifetime
import Verif.RobIndRange

namespace Verif.RobInd.Track
open Verif
open Verif.Spec (Call Ans Distinct)
open Verif.Life (Ev Heap step_ctor step_free step_alloc)
open Verif.Robin (lookups memLimit pow_two_le contents)

/-- A map, the block that `slots_` points to (the block of `ctrls_` has the next number), the first number not used yet, the
log, and a ghost: a request for memory has been refused. -/
structure LT (K V : Type) where
  t : Map K V
  blk : Nat
  next : Nat
  log : List Ev
  oom : Bool

section Model
variable {K V : Type} (chk : Bool) (E : Env K)

/-- Add events to the log. -/
def emit (l : List Ev) (s : LT K V) : LT K V := { s with log := s.log ++ l }

/-- `SlotPolicyTraits::construct` in slot `size()`, see `RobInd.construct` (RH:5879-5880, 6290-6291). -/
def constructE (e : K × V) (s : LT K V) : Res (LT K V) :=
  (construct e s.t).bind fun t' => .ok (emit [.ctor s.blk s.t.size] { s with t := t' })

/-- The length of the control block of a new map (RH:4358-4361). -/
def newCtrls (cap : Nat) : Nat := ((cap + lookups cap + (width - 1)) / width + 1) * width

/-- `create_slots<false>(cap)`, see `RobInd.createSlots` (RH:4328-4398): first the control block is obtained (RH:4364), then the
slot block (RH:4380).  `a` has the answers of the allocator to the two requests. -/
def createE (a : Bool × Bool) (cap : Nat) (s : LT K V) : Out (LT K V) Unit :=
  match createSlots (a.1 && a.2) cap s.t with
  | .ok t1 _ =>
    .ok (emit [.alloc (s.next + 1) (newCtrls cap), .alloc s.next (cap + lookups cap)] { s with t := t1, blk := s.next, next := s.next + 2 }) ()
  | .throw t' =>
    .throw (emit (if a.1 && decide (cap ≤ memLimit) then [.alloc (s.next + 1) (newCtrls cap)] else [])
      { s with t := t', next := s.next + 2, oom := true })
  | .diverge => .diverge
  | .ub => .ub

/-- `indirect_insert_no_grow(old_slot)`, see `RobInd.insertNoGrow` (RH:6203-6233, 6287-6293): the element is constructed from the old
one. -/
def insertNoGrowE (e : K × V) (s : LT K V) : Res (LT K V) :=
  (seek chk E s.t e.1).bind fun (i, d) =>
    (place chk true (ctrlHash E e.1) s.t i d).bind fun (t', done) =>
      if chk && !done then .ub else constructE e { s with t := t' }

/-- The loop over the slots of the old block, see `RobInd.transferAll` (RH:4592-4598): every old element is destroyed after
`indirect_insert_no_grow` (RH:4596). -/
def transferAllE (old : Map K V) (bo : Nat) : List Nat → LT K V → Res (LT K V)
  | [], s => .ok s
  | j :: js, s =>
    match old.slot j with
    | none => .ub
    | some e => (insertNoGrowE chk E e s).bind fun s' => transferAllE old bo js (emit [.dtor bo j] s')

/-- The old blocks are given back (RH:4634-4650), with the counts the map had before. -/
def freeOld (old : Map K V) (bo : Nat) : List Ev :=
  if old.alloc then [.free (bo + 1) ((groups old + 1) * width), .free bo (maxCap old)] else []

/-- `rehash_impl`, see `RobInd.rehashImpl` (RH:4402-4653). -/
def rehashImplE (allowShrink always : Bool) (a : Bool × Bool) (n : Nat) (s : LT K V) : Out (LT K V) Unit :=
  match Robin.calcCapacity n with
  | .ub => .ub
  | .diverge => .diverge
  | .ok cap =>
    if always || (!allowShrink && decide (slotCap s.t < cap)) || (allowShrink && cap != slotCap s.t) then
      match createE a cap s with
      | .ok s1 _ =>
        match transferAllE chk E s.t s.blk (if s.t.alloc then List.range s.t.size else []) s1 with
        | .ok s2 => .ok (emit (freeOld s.t s.blk) s2) ()
        | .diverge => .diverge
        | .ub => .ub
      | .throw s' => .throw s'
      | .diverge => .diverge
      | .ub => .ub
    else .ok s ()

/-- `grow_if_necessary()` (RH:4270-4273). -/
def growE (a : Bool × Bool) (s : LT K V) : Out (LT K V) Unit := rehashImplE chk E false true a ((s.t.mask + 1) * 2) s

/-- A read-only result. -/
def liftE {α β : Type} (r : Res α) (f : α → Out (LT K V) β) : Out (LT K V) β :=
  match r with
  | .ok a => f a
  | .diverge => .diverge
  | .ub => .ub

/-- The end of `indirect_find_and_insert`, see `RobInd.finish` (RH:5652-5665). -/
def finishE (k : K) (s : LT K V) (i : Nat) (d : Ctrl) : Out (LT K V) Found :=
  liftE (place chk false (ctrlHash E k) s.t i d) fun (t', done) => .ok { s with t := t' } (if done then .notExists else .needGrow)

/-- `indirect_find_and_insert(key)`, see `RobInd.findOrInsert` (RH:5618-5665). -/
def findOrInsertE (a : Bool × Bool) (k : K) (s : LT K V) : Out (LT K V) Found :=
  liftE (probe chk E s.t k) fun
    | .hit i => .ok s (.exists_ (s.t.ctrl i).idx)
    | .stop i d =>
      if decide (s.t.thr ≤ s.t.size) || decide (d.dist < 0) then
        (growE chk E a s).bind fun s1 _ =>
          liftE (seek chk E s1.t k) fun (i1, d1) => finishE chk E k s1 i1 d1
      else finishE chk E k s i d

/-- `emplace_impl`, `try_emplace_impl`, see `RobInd.emplaceLoop` (RH:5870-5968, 6101-6141).  `c`: the constructor of the new element
returns; if it throws, the control word has been written already and `slot_size_` has not been changed (RH:5879-5880). -/
def emplaceLoopE (update : Bool) (a : Bool × Bool) (c : Bool) (k : K) (v : V) : Nat → LT K V → Out (LT K V) (Nat × Bool)
  | 0, _ => .diverge
  | f + 1, s =>
    (findOrInsertE chk E a k s).bind fun s' r =>
      match r with
      | .notExists => if c then liftE (constructE (k, v) s') fun s'' => .ok s'' (s'.t.size, true) else .throw s'
      | .exists_ j =>
        match s'.t.slot j with
        | none => .ub
        | some e => .ok (if update then { s' with t := { s'.t with slot := upd s'.t.slot j (some (e.1, v)) } } else s') (j, false)
      | .needGrow => (growE chk E a s').bind fun s'' _ => emplaceLoopE update a c k v f s''

/-- With its full fuel, see `RobInd.emplace` (RH:5870-5968, 6101-6141). -/
def emplaceE (update : Bool) (a : Bool × Bool) (c : Bool) (k : K) (v : V) (s : LT K V) : Out (LT K V) (Nat × Bool) :=
  emplaceLoopE chk E update a c k v 64 s

/-- `indirect_erase_slot(i)`, see `RobInd.eraseSlot` (RH:6495-6536): after the exchange the last element is destroyed (RH:6535). -/
def eraseSlotE (i : Nat) (s : LT K V) : Res (LT K V) :=
  (eraseSlot E i s.t).bind fun t' => .ok (emit [.dtor s.blk (s.t.size - 1)] { s with t := t' })

/-- `erase(key)`, see `RobInd.eraseKey` (RH:3723-3727, 6424-6437). -/
def eraseKeyE (k : K) (s : LT K V) : Out (LT K V) Nat :=
  liftE (findCtrlIdx chk E s.t k) fun
    | some i => if i = maxCap s.t then .ok s 0 else liftE (eraseSlotE E i s) fun s' => .ok s' 1
    | none => .ok s 0

/-- `clear_slots()` (RH:4219-4243, the branch RH:4236-4238). -/
def clearSlotsE (t : Map K V) (b : Nat) : List Ev := (List.range t.size).map fun i => .dtor b i

/-- `clear_data()`, see `RobInd.clearData` (RH:4210-4264). -/
def clearDataE (s : LT K V) : Out (LT K V) Unit :=
  match clearData s.t with
  | .ok t' _ => .ok (emit (clearSlotsE s.t s.blk) { s with t := t' }) ()
  | .throw t' => .throw { s with t := t' }
  | .diverge => .diverge
  | .ub => .ub

/-- The blocks are given back by `destroy_data()` (RH:4175-4208): the slots, then the control words. -/
def freeAll (t : Map K V) (b : Nat) : List Ev :=
  if t.alloc then [.free b (maxCap t), .free (b + 1) ((groups t + 1) * width)] else []

/-- `destroy_data()` (RH:4175-4208), also the destructor (RH:3237-3239); what is left is an empty map. -/
def destroyE (s : LT K V) : LT K V :=
  emit (clearSlotsE s.t s.blk ++ freeAll s.t s.blk) { s with t := emptyMap s.t.mlf s.t.rev }

/-- `clear(need_destroy)`, see `RobInd.clear` (RH:3504-3515).  `clear(true)` calls `destroy_data()` and then `create_slots(0)`, which
calls it again (RH:4329-4336); then `slot_size_` is zero, `slots_` null and `ctrls_` static, so nothing more happens. -/
def clearE (destroy : Bool) (s : LT K V) : Out (LT K V) Unit :=
  if slotCap s.t > 0 && destroy then .ok (destroyE s) () else clearDataE s

/-- `rehash(n, read_only)`, `reserve`, see `RobInd.rehash` (RH:3517-3531). -/
def rehashE (a : Bool × Bool) (readOnly : Bool) (n : Nat) (s : LT K V) : Out (LT K V) Unit :=
  rehashImplE chk E true false a (if readOnly then max n s.t.size else max (minRequire s.t n) s.t.size) s

/-- `shrink_to_fit(read_only)`, see `RobInd.shrinkToFit` (RH:3533-3540). -/
def shrinkE (a : Bool × Bool) (readOnly : Bool) (s : LT K V) : Out (LT K V) Unit :=
  rehashImplE chk E true false a (if readOnly then s.t.size else minRequire s.t s.t.size) s

/-- `max_load_factor(mlf)`, see `RobInd.setMlf` (RH:3316-3335). -/
def setMlfE (a : Bool × Bool) (m r : Nat) (s : LT K V) : Out (LT K V) Unit :=
  let s1 := { s with t := { s.t with mlf := m, rev := r } }
  if s.t.size > s.t.thr && decide (minRequire s1.t s.t.size > slotCap s.t) then rehashE chk E a false s.t.size s1 else .ok s1 ()

/-- The state before the constructor has obtained memory. -/
def start : LT K V := { t := emptyMap 128 512, blk := 0, next := 1, log := [], oom := false }

/-- Constructor with a requested capacity, see `RobInd.make` (RH:3056-3071, 4330-4345). -/
def makeE (a : Bool × Bool) (n : Nat) : Out (LT K V) Unit :=
  if n = 0 then .ok start ()
  else
    match Robin.calcCapacity n with
    | .ub => .ub
    | .diverge => .diverge
    | .ok cap => createE a cap start

/-- A reference to the element is read (RH:2994-2996). -/
def readElemE (s : LT K V) (r : Nat × Bool) : Out (LT K V) (Ans K V) :=
  match s.t.slot r.1 with
  | none => .ub
  | some e => .ok s (.elem e r.2)

/-- A reference to the mapped value is read (RH:3691-3699). -/
def readValueE (s : LT K V) (r : Nat × Bool) : Out (LT K V) (Ans K V) :=
  match s.t.slot r.1 with
  | none => .ub
  | some e => .ok s (.value (some e.2))

/-- One call, see `RobInd.exec` (RH:3268-3270, 3316-3335, 3361-3418, 3504-3540, 3547-3562, 3701-3727, 5870-5968). -/
def execE (rv : Nat → Nat) (a : Bool × Bool) (b : Bool) : Call K V → LT K V → Out (LT K V) (Ans K V)
  | .insert k v, s => (emplaceE chk E false a b k v s).bind readElemE
  | .assign k v, s => (emplaceE chk E true a b k v s).bind readElemE
  | .index k d, s => (emplaceE chk E false a b k d s).bind readValueE
  | .find k, s => liftE (lookup chk E s.t k) fun o => .ok s (.found o)
  | .contains k, s => liftE (contains chk E s.t k) fun b => .ok s (.bool b)
  | .count k, s => liftE (contains chk E s.t k) fun b => .ok s (.num (if b then 1 else 0))
  | .at k, s => liftE (atKey chk E s.t k) fun o => .ok s (.value o)
  | .erase k, s => (eraseKeyE chk E k s).bind fun s' n => .ok s' (.num n)
  | .size, s => .ok s (.num s.t.size)
  | .empty, s => .ok s (.bool (s.t.size == 0))
  | .clear d, s => (clearE d s).bind fun s' _ => .ok s' .unit
  | .reserve n, s => (rehashE chk E a false n s).bind fun s' _ => .ok s' .unit
  | .rehash n, s => (rehashE chk E a false n s).bind fun s' _ => .ok s' .unit
  | .shrink ro, s => (shrinkE chk E a ro s).bind fun s' _ => .ok s' .unit
  | .maxLoad x, s => (setMlfE chk E a (x % 2 ^ 32) (rv x) s).bind fun s' _ => .ok s' .unit
  | .iterate, s => liftE (walk s.t) fun l => .ok s (.items l)

/-- A history: calls with the answers of the allocator to the two requests and of the element constructor.  The caller goes on
after the exception of an element constructor; a refused request for memory ends the history. -/
def runE (rv : Nat → Nat) : List (((Bool × Bool) × Bool) × Call K V) → LT K V → Res (List (Ans K V) × LT K V)
  | [], s => .ok ([], s)
  | (a, c) :: cs, s =>
    match execE chk E rv a.1 a.2 c s with
    | .ub => .ub
    | .diverge => .diverge
    | .throw s' => if s'.oom then .ok ([.threw], s') else (runE rv cs s').bind fun r => .ok (.threw :: r.1, r.2)
    | .ok s' x => (runE rv cs s').bind fun r => .ok (x :: r.1, r.2)

end Model

variable {K V : Type} {chk : Bool} {E : Env K}

/-! ### What the log must say -/

/-- The shape of the map as far as lifetimes are concerned. -/
structure Tidy (t : Map K V) : Prop where
  dense : ∀ j, (t.slot j).isSome = true ↔ j < t.size
  le : t.size ≤ t.slen
  cap : t.alloc = true → maxCap t = t.slen
  bare : t.alloc = false → t.slen = 0

/-- The blocks of a map. -/
def owned (t : Map K V) (b : Nat) : List (Nat × Nat) :=
  if t.alloc then [(b, maxCap t), (b + 1, (groups t + 1) * width)] else []

/-- The first `n` slots of block `b` hold objects, and there are the objects of `other`. -/
structure Own (b n : Nat) (other : Nat × Nat → Prop) (bs : List (Nat × Nat)) (h : Heap) : Prop where
  blocks : h.blocks = bs
  nodup : h.live.Nodup
  live : ∀ o, o ∈ h.live ↔ (o.1 = b ∧ o.2 < n) ∨ other o

/-- A map between two calls. -/
structure Fine (s : LT K V) : Prop where
  tidy : Tidy s.t
  heap : ∃ h, Heap.run s.log Heap.empty = some h ∧ Own s.blk s.t.size (fun _ => False) (owned s.t s.blk) h
  next : s.t.alloc = true → s.blk + 2 ≤ s.next
  lt : s.blk < s.next

theorem Tidy.ctrl {t : Map K V} (h : Tidy t) (w : Nat → Ctrl) : Tidy { t with ctrl := w } := ⟨h.dense, h.le, h.cap, h.bare⟩

theorem Fine.ctrl {s : LT K V} (h : Fine s) (w : Nat → Ctrl) : Fine { s with t := { s.t with ctrl := w } } :=
  ⟨h.tidy.ctrl w, h.heap, h.next, h.lt⟩

theorem place_ctrl {rh : Bool} {hash i : Nat} {t : Map K V} {d : Ctrl} {r : Map K V × Bool} (h : place chk rh hash t i d = .ok r) :
    t.alloc = true ∧ ∃ w, r.1 = { t with ctrl := w } := by
  unfold place at h
  split at h
  · rename_i ha
    refine ⟨ha, ?_⟩
    split at h
    · cases h
    · simp only at h
      split at h
      · cases h; exact ⟨_, rfl⟩
      · cases hq : insertToPlace chk rh t i ⟨d.dist, hash, t.size % 2 ^ 32⟩ with
        | ok q => rw [hq] at h; cases h; exact ⟨_, rfl⟩
        | diverge => rw [hq] at h; cases h
        | ub => rw [hq] at h; cases h
  · cases h

theorem construct_ok {e : K × V} {t t' : Map K V} (h : construct e t = .ok t') :
    t.size < t.slen ∧ t' = { t with slot := upd t.slot t.size (some e), size := t.size + 1 } := by
  unfold construct at h
  split at h
  · rename_i hlt
    cases h
    exact ⟨hlt, rfl⟩
  · cases h

theorem Tidy.construct {e : K × V} {t t' : Map K V} (ht : Tidy t) (h : construct e t = .ok t') : Tidy t' := by
  obtain ⟨h1, rfl⟩ := construct_ok h
  refine ⟨?_, h1, ht.cap, ht.bare⟩
  intro j
  show (upd t.slot t.size (some e) j).isSome = true ↔ j < t.size + 1
  by_cases hj : j = t.size
  · subst hj; simp
  · rw [upd_other _ _ hj, ht.dense]; omega

/-- One more object at the end. -/
theorem Own.ctor {b n N : Nat} {other : Nat × Nat → Prop} {bs : List (Nat × Nat)} {h : Heap} (hO : Own b n other bs h) (hb : (b, N) ∈ bs) (hn : n < N)
    (ho : ¬ other (b, n)) : ∃ h', h.step (.ctor b n) = some h' ∧ Own b (n + 1) other bs h' := by
  have hnl : (b, n) ∉ h.live := by
    rw [hO.live]
    rintro (⟨_, hx⟩ | hx)
    · exact Nat.lt_irrefl _ hx
    · exact ho hx
  refine ⟨_, step_ctor (by rw [hO.blocks]; exact hb) hn hnl, hO.blocks, List.nodup_cons.mpr ⟨hnl, hO.nodup⟩, ?_⟩
  rintro ⟨x, y⟩
  simp only [List.mem_cons, hO.live, Prod.mk.injEq]
  constructor
  · rintro (⟨rfl, rfl⟩ | ⟨rfl, hy⟩ | hx)
    · exact Or.inl ⟨rfl, by omega⟩
    · exact Or.inl ⟨rfl, by omega⟩
    · exact Or.inr hx
  · rintro (⟨rfl, hy⟩ | hx)
    · by_cases hyn : y = n
      · exact Or.inl ⟨rfl, hyn⟩
      · exact Or.inr (Or.inl ⟨rfl, by omega⟩)
    · exact Or.inr (Or.inr hx)

theorem step_dtor {h : Heap} {b i : Nat} (hl : (b, i) ∈ h.live) : h.step (.dtor b i) = some { h with live := h.live.erase (b, i) } := by
  simp [Heap.step, hl]

/-- The last object goes. -/
theorem Own.dtor_last {b n : Nat} {other : Nat × Nat → Prop} {bs : List (Nat × Nat)} {h : Heap} (hO : Own b (n + 1) other bs h)
    (ho : ¬ other (b, n)) : ∃ h', h.step (.dtor b n) = some h' ∧ Own b n other bs h' := by
  have hl : (b, n) ∈ h.live := (hO.live _).mpr (Or.inl ⟨rfl, Nat.lt_succ_self n⟩)
  refine ⟨_, step_dtor hl, hO.blocks, hO.nodup.erase _, ?_⟩
  rintro ⟨x, y⟩
  rw [hO.nodup.mem_erase_iff, hO.live]
  simp only [ne_eq, Prod.mk.injEq]
  constructor
  · rintro ⟨hne, ⟨rfl, hy⟩ | hx⟩
    · exact Or.inl ⟨rfl, by by_cases hyn : y = n
                            · exact (hne ⟨rfl, hyn⟩).elim
                            · omega⟩
    · exact Or.inr hx
  · rintro (⟨rfl, hy⟩ | hx)
    · exact ⟨fun hh => by omega, Or.inl ⟨rfl, by omega⟩⟩
    · exact ⟨fun hh => by obtain ⟨rfl, rfl⟩ := hh; exact ho hx, Or.inr hx⟩

/-- One of the other objects goes. -/
theorem Own.dtor_other {b n bo j : Nat} {js : List Nat} (hjs : (j :: js).Nodup) {bs : List (Nat × Nat)} {h : Heap} (hne : bo ≠ b)
    (hO : Own b n (fun o => o.1 = bo ∧ o.2 ∈ j :: js) bs h) :
    ∃ h', h.step (.dtor bo j) = some h' ∧ Own b n (fun o => o.1 = bo ∧ o.2 ∈ js) bs h' := by
  have hl : (bo, j) ∈ h.live := (hO.live _).mpr (Or.inr ⟨rfl, List.mem_cons_self⟩)
  refine ⟨_, step_dtor hl, hO.blocks, hO.nodup.erase _, ?_⟩
  rintro ⟨x, y⟩
  rw [hO.nodup.mem_erase_iff, hO.live]
  simp only [ne_eq, Prod.mk.injEq, List.mem_cons]
  rw [List.nodup_cons] at hjs
  constructor
  · rintro ⟨hx, ⟨rfl, hy⟩ | ⟨rfl, rfl | hy⟩⟩
    · exact Or.inl ⟨rfl, hy⟩
    · exact (hx ⟨rfl, rfl⟩).elim
    · exact Or.inr ⟨rfl, hy⟩
  · rintro (⟨rfl, hy⟩ | ⟨rfl, hy⟩)
    · exact ⟨fun hh => hne hh.1.symm, Or.inl ⟨rfl, hy⟩⟩
    · exact ⟨fun hh => hjs.1 (hh.2 ▸ hy), Or.inr ⟨rfl, Or.inr hy⟩⟩

theorem run_snoc {l l' : List Ev} {h h1 : Heap} (h0 : Heap.run l h = some h1) : Heap.run (l ++ l') h = Heap.run l' h1 := by
  rw [Life.run_append, h0]; rfl

/-! ### Growth -/

/-- The new block during a rehash, the objects of `js` still standing in the old one. -/
structure Mid (s : LT K V) (bo : Nat) (js : List Nat) (bs : List (Nat × Nat)) : Prop where
  tidy : Tidy s.t
  alloc : s.t.alloc = true
  heap : ∃ h, Heap.run s.log Heap.empty = some h ∧ Own s.blk s.t.size (fun o => o.1 = bo ∧ o.2 ∈ js) (owned s.t s.blk ++ bs) h
  ne : bo ≠ s.blk
  next : s.blk + 2 ≤ s.next

theorem maxCap_construct (t : Map K V) (x : Nat → Option (K × V)) (n : Nat) : maxCap { t with slot := x, size := n } = maxCap t := rfl

theorem insertNoGrowE_ok {e : K × V} {s s' : LT K V} {bo : Nat} {js : List Nat} {bs : List (Nat × Nat)} (hM : Mid s bo js bs)
    (hq : insertNoGrowE chk E e s = .ok s') :
    Mid s' bo js bs ∧ s'.blk = s.blk ∧ s'.oom = s.oom := by
  unfold insertNoGrowE at hq
  cases h1 : seek chk E s.t e.1 with
  | diverge => rw [h1] at hq; cases hq
  | ub => rw [h1] at hq; cases hq
  | ok r =>
    rw [h1] at hq
    simp only [Res.bind_ok] at hq
    cases h2 : place chk true (ctrlHash E e.1) s.t r.1 r.2 with
    | diverge => rw [h2] at hq; cases hq
    | ub => rw [h2] at hq; cases hq
    | ok p =>
      rw [h2] at hq
      obtain ⟨t', done⟩ := p
      obtain ⟨_, w, hw⟩ := place_ctrl h2
      simp only [Res.bind_ok] at hq
      subst hw
      split at hq
      · cases hq
      · unfold constructE at hq
        cases h3 : construct e { s.t with ctrl := w } with
        | diverge => rw [h3] at hq; cases hq
        | ub => rw [h3] at hq; cases hq
        | ok t2 =>
          rw [h3] at hq
          cases hq
          have ht := (hM.tidy.ctrl w).construct h3
          obtain ⟨hlt, rfl⟩ := construct_ok h3
          obtain ⟨h, g1, g2⟩ := hM.heap
          have hmem : (s.blk, maxCap s.t) ∈ owned s.t s.blk ++ bs := by
            unfold owned; rw [hM.alloc]; simp
          obtain ⟨h', g3, g4⟩ := g2.ctor hmem (by rw [hM.tidy.cap hM.alloc]; exact hlt) (fun hx => hM.ne hx.1.symm)
          exact ⟨⟨ht, hM.alloc, ⟨h', by
            show Heap.run (s.log ++ [.ctor s.blk s.t.size]) Heap.empty = some h'
            rw [run_snoc g1]
            show (h.step _).bind (Heap.run []) = _
            rw [g3]; rfl, g4⟩, hM.ne, hM.next⟩, rfl, rfl⟩

theorem transferAllE_ok (old : Map K V) (bo : Nat) {bs : List (Nat × Nat)} : ∀ (js : List Nat) (s s' : LT K V), js.Nodup → Mid s bo js bs →
    transferAllE chk E old bo js s = .ok s' → Mid s' bo [] bs ∧ s'.blk = s.blk ∧ s'.oom = s.oom := by
  intro js
  induction js with
  | nil => intro s s' _ hM hq; cases hq; exact ⟨hM, rfl, rfl⟩
  | cons j js ih =>
    intro s s' hnd hM hq
    unfold transferAllE at hq
    split at hq
    · cases hq
    · rename_i e _
      cases h1 : insertNoGrowE chk E e s with
      | diverge => rw [h1] at hq; cases hq
      | ub => rw [h1] at hq; cases hq
      | ok s1 =>
        rw [h1] at hq
        obtain ⟨h2, h3, h4⟩ := insertNoGrowE_ok hM h1
        obtain ⟨h, g1, g2⟩ := h2.heap
        obtain ⟨h', g3, g4⟩ := g2.dtor_other hnd h2.ne
        obtain ⟨f1, f2, f3⟩ := ih (emit [.dtor bo j] s1) s' (List.nodup_cons.mp hnd).2
          ⟨h2.tidy, h2.alloc, ⟨h', by
            show Heap.run (s1.log ++ [.dtor bo j]) Heap.empty = some h'
            rw [run_snoc g1]
            show (h.step _).bind (Heap.run []) = _
            rw [g3]; rfl, g4⟩, h2.ne, h2.next⟩ hq
        exact ⟨f1, f2.trans h3, f3.trans h4⟩

theorem maxCap_created {mem : Bool} {cap : Nat} {t t1 : Map K V} {u : Unit} (hc : 4 ≤ cap) (h : createSlots mem cap t = .ok t1 u) :
    t1.alloc = true ∧ t1.slen = cap + lookups cap ∧ maxCap t1 = cap + lookups cap ∧ (groups t1 + 1) * width = newCtrls cap ∧ t1.size = 0 ∧
      Tidy t1 := by
  unfold createSlots at h
  simp only at h
  split at h
  · cases h
    have hmc : ∀ (x : Map K V), x.mask = cap - 1 → x.look = lookups cap → maxCap x = cap + lookups cap := by
      intro x hx1 hx2
      unfold maxCap slotCap
      rw [hx1, hx2, if_neg (by omega)]
      omega
    refine ⟨rfl, rfl, hmc _ rfl rfl, ?_, rfl, ?_, ?_, fun _ => hmc _ rfl rfl, fun hx => by cases hx⟩
    · unfold groups newCtrls
      rw [hmc _ rfl rfl]
      rfl
    · intro j
      show (none : Option (K × V)).isSome = true ↔ j < 0
      simp
    · exact Nat.zero_le _
  · cases h

/-- A new block beside the old one. -/
theorem createE_ok {a : Bool × Bool} {cap : Nat} (hc : 4 ≤ cap) {s s1 : LT K V} {u : Unit} (hf : Fine s)
    (h : createE a cap s = .ok s1 u) :
    Mid s1 s.blk (List.range s.t.size) (owned s.t s.blk) ∧ s1.oom = s.oom ∧ s1.t.size = 0 ∧ s1.blk = s.next := by
  unfold createE at h
  split at h
  · rename_i t1 u1 hcr
    cases h
    obtain ⟨h1, h2, h3, h4, h5, h6⟩ := maxCap_created hc hcr
    obtain ⟨hp, g1, g2⟩ := hf.heap
    have hbl : ∀ x ∈ hp.blocks, x.1 < s.next := by
      intro x hx
      rw [g2.blocks] at hx
      unfold owned at hx
      split at hx
      · rename_i ha
        have := hf.next ha
        rcases List.mem_cons.mp hx with rfl | hx
        · exact hf.lt
        · rw [List.mem_singleton] at hx; subst hx
          show s.blk + 1 < s.next
          omega
      · cases hx
    have hs1 : hp.step (.alloc (s.next + 1) (newCtrls cap)) = some { hp with blocks := (s.next + 1, newCtrls cap) :: hp.blocks } :=
      step_alloc fun x hx => by have := hbl x hx; omega
    have hs2 : ({ hp with blocks := (s.next + 1, newCtrls cap) :: hp.blocks } : Heap).step (.alloc s.next (cap + lookups cap)) =
        some { hp with blocks := (s.next, cap + lookups cap) :: (s.next + 1, newCtrls cap) :: hp.blocks } :=
      step_alloc fun x hx => by
        rcases List.mem_cons.mp hx with rfl | hx
        · show s.next + 1 ≠ s.next; omega
        · have := hbl x hx; omega
    refine ⟨⟨h6, h1, ⟨{ hp with blocks := (s.next, cap + lookups cap) :: (s.next + 1, newCtrls cap) :: hp.blocks }, ?_, ?_, g2.nodup, ?_⟩, ?_, ?_⟩, rfl, h5, rfl⟩
    · show Heap.run (s.log ++ [.alloc (s.next + 1) (newCtrls cap), .alloc s.next (cap + lookups cap)]) Heap.empty = _
      rw [run_snoc g1]
      show (hp.step _).bind (fun x => (Heap.step x _).bind (Heap.run [])) = _
      rw [hs1, Option.bind_some, hs2]
      rfl
    · show (s.next, cap + lookups cap) :: (s.next + 1, newCtrls cap) :: hp.blocks = owned t1 s.next ++ owned s.t s.blk
      rw [g2.blocks]
      conv_rhs => rw [owned, h1]
      rw [h3, h4]
      rfl
    · rintro ⟨x, y⟩
      rw [g2.live]
      show _ ↔ (x = s.next ∧ y < t1.size) ∨ _
      rw [h5]
      simp
    · show s.blk ≠ s.next
      have := hf.lt; omega
    · exact Nat.le_refl _
  · cases h
  · cases h
  · cases h

theorem run_freeOld {h : Heap} {t : Map K V} {b nb n : Nat} {bs : List (Nat × Nat)} (hO : Own nb n (fun _ => False) (bs ++ owned t b) h)
    (hne : b ≠ nb) (hb1 : t.alloc = true → ∀ x ∈ bs, x.1 ≠ b ∧ x.1 ≠ b + 1) (hn1 : t.alloc = true → b + 1 ≠ nb) :
    ∃ h', Heap.run (freeOld t b) h = some h' ∧ Own nb n (fun _ => False) bs h' := by
  unfold freeOld
  unfold owned at hO
  by_cases ha : t.alloc = true
  · rw [if_pos ha] at hO ⊢
    have hlv : ∀ o ∈ h.live, o.1 = nb := by
      intro o ho
      rcases (hO.live o).mp ho with hx | hx
      · exact hx.1
      · exact hx.elim
    have s1 : h.step (.free (b + 1) ((groups t + 1) * width)) = some { h with blocks := h.blocks.erase (b + 1, (groups t + 1) * width) } :=
      step_free (by rw [hO.blocks]; simp) (fun o ho => by rw [hlv o ho]; exact Ne.symm (hn1 ha))
    have e1 : h.blocks.erase (b + 1, (groups t + 1) * width) = bs ++ [(b, maxCap t)] := by
      rw [hO.blocks, List.erase_append_right _ (fun hx => (hb1 ha _ hx).2 rfl), List.erase_cons]
      have : ((b, maxCap t) == (b + 1, (groups t + 1) * width)) = false := by
        rw [beq_eq_false_iff_ne]
        intro hx
        have := congrArg Prod.fst hx
        simp at this
      rw [this]
      simp
    rw [e1] at s1
    have s2 : ({ h with blocks := bs ++ [(b, maxCap t)] } : Heap).step (.free b (maxCap t)) = some { h with blocks := bs } := by
      rw [step_free (by simp) (fun o ho => by rw [hlv o ho]; exact Ne.symm hne)]
      congr 2
      show (bs ++ [(b, maxCap t)]).erase (b, maxCap t) = bs
      rw [List.erase_append_right _ (fun hx => (hb1 ha _ hx).1 rfl)]
      simp
    refine ⟨{ h with blocks := bs }, ?_, rfl, hO.nodup, hO.live⟩
    show (h.step _).bind (fun x => (Heap.step x _).bind (Heap.run [])) = _
    rw [s1, Option.bind_some, s2]
    rfl
  · rw [if_neg ha] at hO ⊢
    rw [List.append_nil] at hO
    exact ⟨h, rfl, hO⟩

/-! ### Every call keeps the log in order -/

/-- What a call leaves behind: a map whose log is in order, unless a request for memory was refused. -/
def Keeps {α : Type} (o : Out (LT K V) α) : Prop :=
  (∀ s' x, o = .ok s' x → Fine s') ∧ ∀ s', o = .throw s' → s'.oom = true ∨ Fine s'

theorem keeps_ok {α : Type} {s : LT K V} {x : α} (h : Fine s) : Keeps (.ok s x : Out (LT K V) α) :=
  ⟨fun _ _ hq => by cases hq; exact h, fun _ hq => by cases hq⟩

theorem keeps_ub {α : Type} : Keeps (.ub : Out (LT K V) α) := ⟨fun _ _ hq => (nomatch hq), fun _ hq => (nomatch hq)⟩

theorem keeps_diverge {α : Type} : Keeps (.diverge : Out (LT K V) α) := ⟨fun _ _ hq => (nomatch hq), fun _ hq => (nomatch hq)⟩

theorem Keeps.bind {α β : Type} {o : Out (LT K V) α} {f : LT K V → α → Out (LT K V) β} (h : Keeps o)
    (hf : ∀ s' x, o = .ok s' x → Fine s' → Keeps (f s' x)) : Keeps (o.bind f) := by
  cases ho : o with
  | ok s x => exact hf s x ho (h.1 s x ho)
  | throw s =>
    refine ⟨fun _ _ hq => (nomatch hq), fun s' hq => ?_⟩
    rw [← show s = s' by cases hq; rfl]
    exact h.2 s ho
  | diverge => exact keeps_diverge
  | ub => exact keeps_ub

theorem keeps_lift {α β : Type} {r : Res α} {f : α → Out (LT K V) β} (hf : ∀ x, r = .ok x → Keeps (f x)) : Keeps (liftE r f) := by
  cases hr : r with
  | ok x => exact hf x hr
  | diverge => exact keeps_diverge
  | ub => exact keeps_ub

theorem createE_throw {a : Bool × Bool} {cap : Nat} {s s' : LT K V} (h : createE a cap s = .throw s') : s'.oom = true := by
  unfold createE at h
  split at h <;> cases h
  rfl

theorem keeps_rehashImpl {s : LT K V} (hf : Fine s) (allowShrink always : Bool) (a : Bool × Bool) (n : Nat) :
    Keeps (rehashImplE chk E allowShrink always a n s) := by
  unfold rehashImplE
  split
  · exact keeps_ub
  · exact keeps_diverge
  · rename_i cap hcap
    have hc : 4 ≤ cap := by
      obtain ⟨j, hj, rfl, _⟩ := Robin.calcCapacity_ok hcap
      exact pow_two_le (a := 2) hj
    split
    · cases h1 : createE a cap s with
      | ub => exact keeps_ub
      | diverge => exact keeps_diverge
      | throw s' =>
        refine ⟨fun _ _ hq => (nomatch hq), fun s'' hq => ?_⟩
        rw [← show s' = s'' by cases hq; rfl]
        exact Or.inl (createE_throw h1)
      | ok s1 u =>
        simp only
        obtain ⟨hM, _, _, hb⟩ := createE_ok hc hf h1
        have hjs : (if s.t.alloc then List.range s.t.size else []) = List.range s.t.size := by
          split
          · rfl
          · rename_i hna
            have h1 := hf.tidy.bare (by simpa using hna)
            have h2 := hf.tidy.le
            have h3 : s.t.size = 0 := by omega
            rw [h3]; rfl
        rw [hjs]
        cases h2 : transferAllE chk E s.t s.blk (List.range s.t.size) s1 with
        | ub => exact keeps_ub
        | diverge => exact keeps_diverge
        | ok s2 =>
          obtain ⟨hM2, hb2, _⟩ := transferAllE_ok s.t s.blk _ _ _ List.nodup_range hM h2
          obtain ⟨h, g1, g2⟩ := hM2.heap
          have hblk : s2.blk = s.next := hb2.trans hb
          have hlt := hf.lt
          obtain ⟨h', g3, g4⟩ := run_freeOld (t := s.t) (b := s.blk) (n := s2.t.size) (bs := owned s2.t s2.blk)
            ⟨g2.blocks, g2.nodup, fun o => by rw [g2.live]; simp⟩ hM2.ne
            (by
              intro ha x hx
              have := hf.next ha
              unfold owned at hx
              rw [hM2.alloc] at hx
              simp only [if_true, List.mem_cons, List.not_mem_nil, or_false] at hx
              rcases hx with rfl | rfl <;> simp only <;> omega) (fun ha => by have := hf.next ha; omega)
          exact keeps_ok ⟨hM2.tidy, ⟨h', by
            show Heap.run (s2.log ++ freeOld s.t s.blk) Heap.empty = some h'
            rw [run_snoc g1, g3], g4⟩, fun _ => hM2.next, by have := hM2.next; show s2.blk < s2.next; omega⟩
    · exact keeps_ok hf

theorem probeLoop_hit {t : Map K V} {k : K} : ∀ (f i j : Nat) (d : Ctrl), probeLoop chk E t k f i d = .ok (.hit j) →
    ∃ e, t.slot (t.ctrl j).idx = some e := by
  intro f
  induction f with
  | zero => intro i j d h; cases h
  | succ f ih =>
    intro i j d h
    unfold probeLoop at h
    split at h
    · split at h
      · split at h
        · cases h
        · rename_i e he
          split at h
          · cases h; exact ⟨e, he⟩
          · split at h
            · cases h
            · exact ih _ _ _ h
      · split at h
        · cases h
        · exact ih _ _ _ h
    · cases h

theorem probe_hit {t : Map K V} {k : K} {j : Nat} (h : probe chk E t k = .ok (.hit j)) : ∃ e, t.slot (t.ctrl j).idx = some e :=
  probeLoop_hit _ _ _ _ h

theorem keeps_finish {s : LT K V} (hf : Fine s) (k : K) (i : Nat) (d : Ctrl) : Keeps (finishE chk E k s i d) := by
  refine keeps_lift fun x hx => keeps_ok ?_
  obtain ⟨_, w, hw⟩ := place_ctrl hx
  rw [hw]
  exact hf.ctrl w

theorem keeps_findOrInsert {s : LT K V} (hf : Fine s) (a : Bool × Bool) (k : K) : Keeps (findOrInsertE chk E a k s) := by
  refine keeps_lift fun x hx => ?_
  cases x with
  | hit i => exact keeps_ok hf
  | stop i d =>
    simp only
    split
    · refine Keeps.bind (keeps_rehashImpl hf _ _ _ _) fun s1 _ _ h1 => keeps_lift fun y _ => ?_
      exact keeps_finish h1 _ _ _
    · exact keeps_finish hf _ _ _

/-- A new element is built in a map that has room. -/
theorem fine_construct {e : K × V} {s s' : LT K V} (hf : Fine s) (h : constructE e s = .ok s') : Fine s' := by
  unfold constructE at h
  cases h3 : construct e s.t with
  | diverge => rw [h3] at h; cases h
  | ub => rw [h3] at h; cases h
  | ok t2 =>
    rw [h3] at h
    cases h
    have ht := hf.tidy.construct h3
    obtain ⟨hlt, rfl⟩ := construct_ok h3
    have ha : s.t.alloc = true := by
      by_contra hc
      have := hf.tidy.bare (by simpa using hc)
      omega
    obtain ⟨h, g1, g2⟩ := hf.heap
    have hmem : (s.blk, maxCap s.t) ∈ owned s.t s.blk := by
      unfold owned; rw [ha]; simp
    obtain ⟨h', g3, g4⟩ := g2.ctor hmem (by rw [hf.tidy.cap ha]; exact hlt) (fun hx => hx)
    exact ⟨ht, ⟨h', by
      show Heap.run (s.log ++ [.ctor s.blk s.t.size]) Heap.empty = some h'
      rw [run_snoc g1]
      show (h.step _).bind (Heap.run []) = _
      rw [g3]; rfl, g4⟩, hf.next, hf.lt⟩

theorem Fine.assign {s : LT K V} (hf : Fine s) {j : Nat} {e : K × V} (hj : s.t.slot j = some e) (x : K × V) :
    Fine { s with t := { s.t with slot := upd s.t.slot j (some x) } } := by
  refine ⟨⟨?_, hf.tidy.le, hf.tidy.cap, hf.tidy.bare⟩, hf.heap, hf.next, hf.lt⟩
  intro i
  show (upd s.t.slot j (some x) i).isSome = true ↔ i < s.t.size
  rw [← hf.tidy.dense i]
  by_cases hi : i = j
  · subst hi; simp [hj]
  · rw [upd_other _ _ hi]

theorem keeps_emplace {update : Bool} {a : Bool × Bool} {c : Bool} {k : K} {v : V} : ∀ (f : Nat) {s : LT K V}, Fine s →
    Keeps (emplaceLoopE chk E update a c k v f s) := by
  intro f
  induction f with
  | zero => intro s _; exact keeps_diverge
  | succ f ih =>
    intro s hf
    unfold emplaceLoopE
    refine Keeps.bind (keeps_findOrInsert hf a k) fun s' r _ h1 => ?_
    cases r with
    | notExists =>
      simp only
      split
      · exact keeps_lift fun s'' h2 => keeps_ok (fine_construct h1 h2)
      · exact ⟨fun _ _ hq => (nomatch hq), fun s'' hq => by cases hq; exact Or.inr h1⟩
    | exists_ j =>
      simp only
      split
      · exact keeps_ub
      · rename_i e he
        cases update with
        | true => exact keeps_ok (h1.assign he _)
        | false => exact keeps_ok h1
    | needGrow => exact Keeps.bind (keeps_rehashImpl h1 _ _ _ _) fun s'' _ _ h2 => ih h2

/-- The last element goes. -/
theorem fine_erase {i : Nat} {s s' : LT K V} (hf : Fine s) (hi : ∃ e, s.t.slot (s.t.ctrl i).idx = some e) (h : eraseSlotE E i s = .ok s') : Fine s' := by
  obtain ⟨e0, he0⟩ := hi
  have hlt : (s.t.ctrl i).idx < s.t.size := (hf.tidy.dense _).mp (by rw [he0]; rfl)
  unfold eraseSlotE at h
  cases h1 : eraseSlot E i s.t with
  | diverge => rw [h1] at h; cases h
  | ub => rw [h1] at h; cases h
  | ok t' =>
    rw [h1] at h
    cases h
    obtain ⟨n, hn⟩ : ∃ n, s.t.size = n + 1 := ⟨s.t.size - 1, by omega⟩
    have hshape : Tidy t' ∧ t'.size = n ∧ t'.alloc = s.t.alloc ∧ owned t' s.blk = owned s.t s.blk := by
      unfold eraseSlot at h1
      cases h2 : shiftLoop (s.t.clen - (i + 1)) i s.t.ctrl with
      | diverge => rw [h2] at h1; cases h1
      | ub => rw [h2] at h1; cases h1
      | ok w =>
        rw [h2] at h1
        simp only [Res.bind_ok] at h1
        have hle := hf.tidy.le
        split at h1
        · cases h1
          refine ⟨⟨?_, by show s.t.size - 1 ≤ s.t.slen; omega, hf.tidy.cap, hf.tidy.bare⟩, by show s.t.size - 1 = n; omega, rfl, rfl⟩
          intro j
          show (upd s.t.slot (s.t.size - 1) none j).isSome = true ↔ j < s.t.size - 1
          by_cases hj : j = s.t.size - 1
          · subst hj; simp
          · rw [upd_other _ _ hj, hf.tidy.dense]; omega
        · rename_i hne
          split at h1
          · cases h1
          · rename_i e he
            cases h3 : findCtrlLoop w (s.t.size - 1) (s.t.clen - home E s.t e.1) (home E s.t e.1) with
            | diverge => rw [h3] at h1; cases h1
            | ub => rw [h3] at h1; cases h1
            | ok p =>
              rw [h3] at h1
              cases h1
              refine ⟨⟨?_, by show s.t.size - 1 ≤ s.t.slen; omega, hf.tidy.cap, hf.tidy.bare⟩, by show s.t.size - 1 = n; omega, rfl, rfl⟩
              intro j
              show (upd (upd s.t.slot (s.t.ctrl i).idx (some e)) (s.t.size - 1) none j).isSome = true ↔ j < s.t.size - 1
              by_cases hj : j = s.t.size - 1
              · subst hj; simp
              · rw [upd_other _ _ hj]
                by_cases hj2 : j = (s.t.ctrl i).idx
                · subst hj2; simp; omega
                · rw [upd_other _ _ hj2, hf.tidy.dense]; omega
    obtain ⟨g1, g2, g3, g4⟩ := hshape
    obtain ⟨h, k1, k2⟩ := hf.heap
    rw [hn] at k2
    obtain ⟨h', k3, k4⟩ := k2.dtor_last (fun hx => hx)
    refine ⟨g1, ⟨h', ?_, ?_⟩, fun ha => hf.next (g3 ▸ ha), hf.lt⟩
    · show Heap.run (s.log ++ [.dtor s.blk (s.t.size - 1)]) Heap.empty = some h'
      rw [run_snoc k1, hn]
      show (h.step (.dtor s.blk n)).bind (Heap.run []) = _
      rw [k3]; rfl
    · show Own s.blk t'.size _ (owned t' s.blk) h'
      rw [g2, g4]
      exact k4

theorem keeps_eraseKey {s : LT K V} (hf : Fine s) (k : K) : Keeps (eraseKeyE chk E k s) := by
  refine keeps_lift fun x hx => ?_
  cases x with
  | none => exact keeps_ok hf
  | some i =>
    simp only
    split
    · exact keeps_ok hf
    · refine keeps_lift fun s' h1 => keeps_ok (fine_erase hf ?_ h1)
      unfold findCtrlIdx at hx
      cases hp : probe chk E s.t k with
      | diverge => rw [hp] at hx; cases hx
      | ub => rw [hp] at hx; cases hx
      | ok p =>
        rw [hp] at hx
        cases p with
        | stop i d => cases hx
        | hit j =>
          cases hx
          exact probe_hit hp

/-- All objects of a block are destroyed, from the first to the last. -/
theorem run_dtors {b : Nat} {bs : List (Nat × Nat)} : ∀ (js : List Nat) (h : Heap), js.Nodup → h.blocks = bs → h.live.Nodup →
    (∀ o, o ∈ h.live ↔ o.1 = b ∧ o.2 ∈ js) → Heap.run (js.map fun i => .dtor b i) h = some { blocks := bs, live := [] } := by
  intro js
  induction js with
  | nil =>
    intro h _ hb _ hl
    have : h.live = [] := List.eq_nil_iff_forall_not_mem.mpr fun o ho => by have := ((hl o).mp ho).2; cases this
    cases h
    simp only at hb this
    subst hb; subst this
    rfl
  | cons j js ih =>
    intro h hnd hb hn hl
    show (h.step (.dtor b j)).bind (Heap.run _) = _
    rw [step_dtor ((hl (b, j)).mpr ⟨rfl, List.mem_cons_self⟩), Option.bind_some]
    refine ih _ (List.nodup_cons.mp hnd).2 hb (hn.erase _) ?_
    rintro ⟨x, y⟩
    rw [hn.mem_erase_iff, hl]
    simp only [ne_eq, Prod.mk.injEq, List.mem_cons]
    constructor
    · rintro ⟨h1, h2, h3⟩
      subst h2
      rcases h3 with rfl | h3
      · exact (h1 ⟨rfl, rfl⟩).elim
      · exact ⟨rfl, h3⟩
    · rintro ⟨rfl, h3⟩
      exact ⟨fun hh => (List.nodup_cons.mp hnd).1 (hh.2 ▸ h3), rfl, Or.inr h3⟩

theorem run_clearSlots {s : LT K V} (hf : Fine s) :
    Heap.run (s.log ++ clearSlotsE s.t s.blk) Heap.empty = some { blocks := owned s.t s.blk, live := [] } := by
  obtain ⟨h, g1, g2⟩ := hf.heap
  rw [run_snoc g1]
  exact run_dtors _ h List.nodup_range g2.blocks g2.nodup fun o => by rw [g2.live]; simp

theorem keeps_clearData {s : LT K V} (hf : Fine s) : Keeps (clearDataE s) := by
  unfold clearDataE
  cases hc : clearData s.t with
  | ub => exact keeps_ub
  | diverge => exact keeps_diverge
  | throw t' => unfold clearData at hc; split at hc <;> cases hc
  | ok t' u =>
    refine keeps_ok ?_
    unfold clearData at hc
    split at hc
    · rename_i ha
      cases hc
      refine ⟨⟨fun j => ?_, Nat.zero_le _, hf.tidy.cap, hf.tidy.bare⟩, ⟨_, run_clearSlots hf, rfl, List.nodup_nil, ?_⟩, hf.next, hf.lt⟩
      · show (none : Option (K × V)).isSome = true ↔ j < 0
        simp
      · rintro ⟨x, y⟩
        show _ ↔ (x = s.blk ∧ y < 0) ∨ False
        simp
    · cases hc

theorem run_freeAll {t : Map K V} {b : Nat} : Heap.run (freeAll t b) { blocks := owned t b, live := [] } = some Heap.empty := by
  unfold freeAll owned
  split
  · show (Heap.step _ _).bind (fun x => (Heap.step x _).bind (Heap.run [])) = _
    rw [step_free (by simp) (fun o ho => by cases ho), Option.bind_some, step_free (by simp) (fun o ho => by cases ho), Option.bind_some]
    simp [Heap.run, Heap.empty]
  · rfl

/-- After the destructor nothing is left. -/
theorem run_destroy {s : LT K V} (hf : Fine s) : Heap.run (destroyE s).log Heap.empty = some Heap.empty := by
  show Heap.run (s.log ++ (clearSlotsE s.t s.blk ++ freeAll s.t s.blk)) Heap.empty = _
  rw [← List.append_assoc, run_snoc (run_clearSlots hf)]
  exact run_freeAll

theorem tidy_empty (m r : Nat) : Tidy (emptyMap m r : Map K V) :=
  ⟨fun j => by show (none : Option (K × V)).isSome = true ↔ j < 0; simp, Nat.le_refl 0, fun h => (by cases h), fun _ => rfl⟩

theorem fine_destroy {s : LT K V} (hf : Fine s) : Fine (destroyE s) := by
  refine ⟨tidy_empty _ _, ⟨_, run_destroy hf, rfl, List.nodup_nil, ?_⟩, fun h => (by cases h), hf.lt⟩
  rintro ⟨x, y⟩
  show (x, y) ∈ [] ↔ (x = s.blk ∧ y < 0) ∨ False
  simp

theorem keeps_clear {s : LT K V} (hf : Fine s) (d : Bool) : Keeps (clearE d s) := by
  unfold clearE
  split
  · exact keeps_ok (fine_destroy hf)
  · exact keeps_clearData hf

theorem keeps_readElem {s : LT K V} (hf : Fine s) (r : Nat × Bool) : Keeps (readElemE s r) := by
  unfold readElemE
  split
  · exact keeps_ub
  · exact keeps_ok hf

theorem keeps_readValue {s : LT K V} (hf : Fine s) (r : Nat × Bool) : Keeps (readValueE s r) := by
  unfold readValueE
  split
  · exact keeps_ub
  · exact keeps_ok hf

theorem keeps_setMlf {s : LT K V} (hf : Fine s) (a : Bool × Bool) (m r : Nat) : Keeps (setMlfE chk E a m r s) := by
  have h1 : Fine { s with t := { s.t with mlf := m, rev := r } } :=
    ⟨⟨hf.tidy.dense, hf.tidy.le, hf.tidy.cap, hf.tidy.bare⟩, hf.heap, hf.next, hf.lt⟩
  unfold setMlfE
  simp only
  split
  · exact keeps_rehashImpl h1 _ _ _ _
  · exact keeps_ok h1

theorem keeps_exec {s : LT K V} (hf : Fine s) (rv : Nat → Nat) (a : Bool × Bool) (b : Bool) (c : Call K V) : Keeps (execE chk E rv a b c s) := by
  have unit : ∀ {o : Out (LT K V) Unit}, Keeps o → Keeps (o.bind fun s' _ => .ok s' (.unit : Ans K V)) :=
    fun h => h.bind fun _ _ _ h1 => keeps_ok h1
  cases c with
  | insert k v => exact (keeps_emplace 64 hf).bind fun s' r _ h1 => keeps_readElem h1 r
  | assign k v => exact (keeps_emplace 64 hf).bind fun s' r _ h1 => keeps_readElem h1 r
  | index k d => exact (keeps_emplace 64 hf).bind fun s' r _ h1 => keeps_readValue h1 r
  | find k => exact keeps_lift fun _ _ => keeps_ok hf
  | contains k => exact keeps_lift fun _ _ => keeps_ok hf
  | count k => exact keeps_lift fun _ _ => keeps_ok hf
  | «at» k => exact keeps_lift fun _ _ => keeps_ok hf
  | erase k => exact (keeps_eraseKey hf k).bind fun _ _ _ h1 => keeps_ok h1
  | size => exact keeps_ok hf
  | empty => exact keeps_ok hf
  | clear d => exact unit (keeps_clear hf d)
  | reserve n => exact unit (keeps_rehashImpl hf _ _ _ _)
  | rehash n => exact unit (keeps_rehashImpl hf _ _ _ _)
  | shrink ro => exact unit (keeps_rehashImpl hf _ _ _ _)
  | maxLoad x => exact unit (keeps_setMlf hf _ _ _)
  | iterate => exact keeps_lift fun _ _ => keeps_ok hf

theorem fine_run {rv : Nat → Nat} : ∀ (ops : List (((Bool × Bool) × Bool) × Call K V)) {s s' : LT K V} {as : List (Ans K V)}, Fine s →
    runE chk E rv ops s = .ok (as, s') → s'.oom = false → Fine s' := by
  intro ops
  induction ops with
  | nil => intro s s' as hf h _; cases h; exact hf
  | cons op ops ih =>
    intro s s' as hf h hoom
    obtain ⟨a, c⟩ := op
    unfold runE at h
    have hk := keeps_exec (chk := chk) (E := E) hf rv a.1 a.2 c
    have hcont : ∀ {s1 : LT K V} {x : Ans K V}, Fine s1 →
        ((runE chk E rv ops s1).bind fun r => .ok (x :: r.1, r.2)) = .ok (as, s') → Fine s' := by
      intro s1 x h1 h2
      cases hr : runE chk E rv ops s1 with
      | diverge => rw [hr] at h2; cases h2
      | ub => rw [hr] at h2; cases h2
      | ok r =>
        rw [hr] at h2
        cases h2
        exact ih h1 hr hoom
    cases he : execE chk E rv a.1 a.2 c s with
    | ub => rw [he] at h; cases h
    | diverge => rw [he] at h; cases h
    | ok s1 x => rw [he] at h; exact hcont (hk.1 _ _ he) h
    | throw s1 =>
      rw [he] at h
      simp only at h
      split at h
      · rename_i ho
        cases h
        rw [ho] at hoom; cases hoom
      · rename_i ho
        rcases hk.2 _ he with h1 | h1
        · exact (ho h1).elim
        · exact hcont h1 h

theorem fine_start : Fine (start : LT K V) := by
  refine ⟨tidy_empty _ _, ⟨Heap.empty, rfl, rfl, List.nodup_nil, ?_⟩, fun h => (by cases h), Nat.zero_lt_one⟩
  rintro ⟨x, y⟩
  show (x, y) ∈ [] ↔ (x = 0 ∧ y < 0) ∨ False
  simp

theorem fine_make {a : Bool × Bool} {n : Nat} {s : LT K V} (h : makeE a n = .ok s ()) : Fine s := by
  unfold makeE at h
  split at h
  · cases h; exact fine_start
  · split at h
    · cases h
    · cases h
    · rename_i cap hcap
      have hc : 4 ≤ cap := by
        obtain ⟨j, hj, rfl, _⟩ := Robin.calcCapacity_ok hcap
        exact pow_two_le (a := 2) hj
      obtain ⟨hM, _, h1, h2⟩ := createE_ok hc fine_start h
      obtain ⟨hp, g1, g2⟩ := hM.heap
      refine ⟨hM.tidy, ⟨hp, g1, ?_, g2.nodup, ?_⟩, fun _ => hM.next, ?_⟩
      · rw [g2.blocks]
        show _ ++ [] = _
        rw [List.append_nil]
      · intro o
        rw [g2.live]
        show _ ∨ (_ ∧ o.2 ∈ []) ↔ _
        simp
      · have := hM.next; omega

/-- What holds of the log of a map under `Fine`. -/
theorem Fine.alive {s : LT K V} (hf : Fine s) : ∃ h, Heap.run s.log Heap.empty = some h ∧ h.live.Nodup ∧ h.live.length = s.t.size ∧
    h.blocks = owned s.t s.blk := by
  obtain ⟨hp, g1, g2⟩ := hf.heap
  refine ⟨hp, g1, g2.nodup, ?_, g2.blocks⟩
  have : hp.live.Perm ((List.range s.t.size).map fun i => (s.blk, i)) := by
    rw [List.perm_ext_iff_of_nodup g2.nodup (List.nodup_range.map fun x y hxy => (Prod.mk.inj hxy).2)]
    rintro ⟨x, y⟩
    rw [g2.live]
    simp only [List.mem_map, List.mem_range, Prod.mk.injEq, or_false]
    constructor
    · rintro ⟨rfl, hy⟩; exact ⟨y, hy, rfl, rfl⟩
    · rintro ⟨z, hz, rfl, rfl⟩; exact ⟨rfl, hz⟩
  rw [this.length_eq]; simp

/-! ### The theorems -/

/-- C131: after any history of calls - whatever hash, equality and contents do, and also after constructors of elements have
thrown - that ends without undefined behaviour and without a refused request for memory, the log is in order, exactly one
object lives per element of `size()`, and the destructor leaves nothing behind: every object built has been destroyed once
and every block has been given back with the count it was obtained with.

Missing for the full claim, because the code violates it: histories in which a request for memory is refused
(`C131_lost_block`, `C131_wrong_count`). -/
theorem C131_lifetimes_partial {rv : Nat → Nat} {a : Bool × Bool} {n : Nat} {s0 : LT K V} (h0 : makeE a n = .ok s0 ())
    {ops : List (((Bool × Bool) × Bool) × Call K V)} {as : List (Ans K V)} {s : LT K V} (h : runE chk E rv ops s0 = .ok (as, s))
    (ho : s.oom = false) :
    (∃ h, Heap.run s.log Heap.empty = some h ∧ h.live.Nodup ∧ h.live.length = s.t.size) ∧
    Heap.run (destroyE s).log Heap.empty = some Heap.empty ∧
    (∀ b i, (destroyE s).log.count (.ctor b i) = (destroyE s).log.count (.dtor b i)) ∧
    ∀ b k, (destroyE s).log.count (.alloc b k) = (destroyE s).log.count (.free b k) := by
  have hf := fine_run ops (fine_make h0) h ho
  have g4 := run_destroy hf
  refine ⟨?_, g4, ?_, ?_⟩
  · obtain ⟨hp, g1, g2, g3, _⟩ := hf.alive
    exact ⟨hp, g1, g2, g3⟩
  · intro b i
    have := (Life.balance_obj b i _ _ _ List.nodup_nil g4).2
    simpa [Heap.empty] using this
  · intro b k
    have := Life.balance_block b k _ _ _ g4
    simpa [Heap.empty] using this

/-! ### The log does not change what the map does -/

/-- The outcome without the log. -/
def strip {α : Type} : Out (LT K V) α → Out (Map K V) α
  | .ok s x => .ok s.t x
  | .throw s => .throw s.t
  | .diverge => .diverge
  | .ub => .ub

/-- `o` does what `p` does, throws only when a request is refused, and else leaves the ghost as it was. -/
structure Follows {α : Type} (b : Bool) (o : Out (LT K V) α) (p : Out (Map K V) α) : Prop where
  eq : strip o = p
  throw : ∀ s', o = .throw s' → s'.oom = true
  ok : ∀ s' x, o = .ok s' x → s'.oom = b

theorem follows_ok {α : Type} {b : Bool} {s : LT K V} {x : α} (h : s.oom = b) : Follows b (.ok s x) (.ok s.t x) :=
  ⟨rfl, fun _ hq => (nomatch hq), fun _ _ hq => by cases hq; exact h⟩

theorem follows_ub {α : Type} {b : Bool} : Follows b (.ub : Out (LT K V) α) .ub :=
  ⟨rfl, fun _ hq => (nomatch hq), fun _ _ hq => (nomatch hq)⟩

theorem follows_diverge {α : Type} {b : Bool} : Follows b (.diverge : Out (LT K V) α) .diverge :=
  ⟨rfl, fun _ hq => (nomatch hq), fun _ _ hq => (nomatch hq)⟩

theorem Follows.bind {α β : Type} {b : Bool} {o : Out (LT K V) α} {p : Out (Map K V) α} {f : LT K V → α → Out (LT K V) β}
    {g : Map K V → α → Out (Map K V) β} (h : Follows b o p) (hf : ∀ s x, s.oom = b → Follows b (f s x) (g s.t x)) :
    Follows b (o.bind f) (p.bind g) := by
  obtain ⟨rfl, h2, h3⟩ := h
  cases o with
  | ok s x => exact hf s x (h3 s x rfl)
  | throw s => exact ⟨rfl, fun s' hq => by cases hq; exact h2 s rfl, fun _ _ hq => (nomatch hq)⟩
  | diverge => exact follows_diverge
  | ub => exact follows_ub

theorem follows_lift {α β : Type} {b : Bool} {r : Res α} {f : α → Out (LT K V) β} {g : α → Out (Map K V) β} (h : ∀ x, Follows b (f x) (g x)) :
    Follows b (liftE r f) (lift r g) := by
  cases r with
  | ok x => exact h x
  | diverge => exact follows_diverge
  | ub => exact follows_ub

/-- The same for results that are whole states. -/
structure FollowsR (b : Bool) (o : Res (LT K V)) (p : Res (Map K V)) : Prop where
  eq : (o.bind fun s => .ok s.t) = p
  ok : ∀ s', o = .ok s' → s'.oom = b

theorem FollowsR.lift {β : Type} {b : Bool} {o : Res (LT K V)} {p : Res (Map K V)} (h : FollowsR b o p) {f : LT K V → Out (LT K V) β}
    {g : Map K V → Out (Map K V) β} (hf : ∀ s, s.oom = b → Follows b (f s) (g s.t)) : Follows b (liftE o f) (lift p g) := by
  obtain ⟨rfl, h3⟩ := h
  cases o with
  | ok s => exact hf s (h3 s rfl)
  | diverge => exact follows_diverge
  | ub => exact follows_ub

theorem follows_construct (e : K × V) (s : LT K V) : FollowsR s.oom (constructE e s) (construct e s.t) := by
  unfold constructE
  cases construct e s.t with
  | ok t => exact ⟨rfl, fun s' hq => by cases hq; rfl⟩
  | diverge => exact ⟨rfl, fun s' hq => (nomatch hq)⟩
  | ub => exact ⟨rfl, fun s' hq => (nomatch hq)⟩

theorem follows_insertNoGrow (e : K × V) (s : LT K V) : FollowsR s.oom (insertNoGrowE chk E e s) (insertNoGrow chk E e s.t) := by
  unfold insertNoGrowE insertNoGrow
  cases seek chk E s.t e.1 with
  | diverge => exact ⟨rfl, fun s' hq => (nomatch hq)⟩
  | ub => exact ⟨rfl, fun s' hq => (nomatch hq)⟩
  | ok r =>
    simp only [Res.bind_ok]
    cases place chk true (ctrlHash E e.1) s.t r.1 r.2 with
    | diverge => exact ⟨rfl, fun s' hq => (nomatch hq)⟩
    | ub => exact ⟨rfl, fun s' hq => (nomatch hq)⟩
    | ok q =>
      simp only [Res.bind_ok]
      by_cases hc : (chk && !q.2) = true
      · rw [if_pos hc, if_pos hc]; exact ⟨rfl, fun s' hq => (nomatch hq)⟩
      · rw [if_neg hc, if_neg hc]; exact follows_construct e { s with t := q.1 }

theorem follows_transferAll (old : Map K V) (bo : Nat) : ∀ (js : List Nat) (s : LT K V),
    FollowsR s.oom (transferAllE chk E old bo js s) (transferAll chk E old js s.t) := by
  intro js
  induction js with
  | nil => intro s; exact ⟨rfl, fun s' hq => by cases hq; rfl⟩
  | cons j js ih =>
    intro s
    unfold transferAllE transferAll
    cases old.slot j with
    | none => exact ⟨rfl, fun s' hq => (nomatch hq)⟩
    | some e =>
      simp only
      have h1 := follows_insertNoGrow (chk := chk) (E := E) e s
      cases hq : insertNoGrowE chk E e s with
      | diverge => rw [← h1.eq, hq]; exact ⟨rfl, fun s' hq => (nomatch hq)⟩
      | ub => rw [← h1.eq, hq]; exact ⟨rfl, fun s' hq => (nomatch hq)⟩
      | ok s1 =>
        rw [← h1.eq, hq]
        simp only [Res.bind_ok]
        have := ih (emit [.dtor bo j] s1)
        rw [show (emit [.dtor bo j] s1).oom = s.oom from h1.ok s1 hq] at this
        exact this

theorem follows_create (a : Bool × Bool) (cap : Nat) (s : LT K V) : Follows s.oom (createE a cap s) (createSlots (a.1 && a.2) cap s.t) := by
  unfold createE
  cases createSlots (a.1 && a.2) cap s.t with
  | ok t u => exact follows_ok rfl
  | throw t => exact ⟨rfl, fun s' hq => by cases hq; rfl, fun _ _ hq => (nomatch hq)⟩
  | diverge => exact follows_diverge
  | ub => exact follows_ub

theorem follows_rehashImpl (allowShrink always : Bool) (a : Bool × Bool) (n : Nat) (s : LT K V) :
    Follows s.oom (rehashImplE chk E allowShrink always a n s) (rehashImpl chk E allowShrink always (a.1 && a.2) n s.t) := by
  unfold rehashImplE rehashImpl
  cases Robin.calcCapacity n with
  | ub => exact follows_ub
  | diverge => exact follows_diverge
  | ok cap =>
    simp only
    split
    · have h1 := follows_create a cap s
      rw [← h1.eq]
      cases hc : createE a cap s with
      | ub => exact follows_ub
      | diverge => exact follows_diverge
      | throw s' => exact ⟨rfl, fun s'' hq => by cases hq; exact h1.throw _ hc, fun _ _ hq => (nomatch hq)⟩
      | ok s1 u =>
        simp only [strip]
        have h2 := follows_transferAll (chk := chk) (E := E) s.t s.blk (if s.t.alloc then List.range s.t.size else []) s1
        rw [← h2.eq]
        cases hq : transferAllE chk E s.t s.blk (if s.t.alloc then List.range s.t.size else []) s1 with
        | ub => exact follows_ub
        | diverge => exact follows_diverge
        | ok s2 => exact follows_ok (s := emit (freeOld s.t s.blk) s2) ((h2.ok _ hq).trans (h1.ok _ _ hc))
    · exact follows_ok rfl

theorem follows_finish (k : K) (s : LT K V) (i : Nat) (d : Ctrl) : Follows s.oom (finishE chk E k s i d) (finish chk E k s.t i d) :=
  follows_lift fun x => follows_ok (s := { s with t := x.1 }) rfl

theorem follows_findOrInsert (a : Bool × Bool) (k : K) (s : LT K V) :
    Follows s.oom (findOrInsertE chk E a k s) (findOrInsert chk E (a.1 && a.2) k s.t) := by
  refine follows_lift fun x => ?_
  cases x with
  | hit i => exact follows_ok rfl
  | stop i d =>
    simp only
    split
    · refine (follows_rehashImpl false true a _ s).bind fun s1 _ h1 => follows_lift fun y => ?_
      rw [← h1]
      exact follows_finish k s1 y.1 y.2
    · exact follows_finish k s i d

theorem follows_emplace {update : Bool} {a : Bool × Bool} {k : K} {v : V} : ∀ (f : Nat) (s : LT K V),
    Follows s.oom (emplaceLoopE chk E update a true k v f s) (emplaceLoop chk E update (a.1 && a.2) k v f s.t) := by
  intro f
  induction f with
  | zero => intro s; exact follows_diverge
  | succ f ih =>
    intro s
    unfold emplaceLoopE emplaceLoop
    refine (follows_findOrInsert a k s).bind fun s' r h1 => ?_
    cases r with
    | notExists =>
      simp only [if_true]
      rw [← h1]
      refine (follows_construct (k, v) s').lift fun s'' h2 => ?_
      exact follows_ok h2
    | exists_ j =>
      simp only
      cases s'.t.slot j with
      | none => exact follows_ub
      | some e =>
        cases update with
        | true => exact follows_ok (s := { s' with t := { s'.t with slot := upd s'.t.slot j (some (e.1, v)) } }) h1
        | false => exact follows_ok h1
    | needGrow =>
      simp only
      rw [← h1]
      refine (follows_rehashImpl false true a _ s').bind fun s'' _ h2 => ?_
      rw [← h2]
      exact ih s''

theorem follows_readElem {s : LT K V} {b : Bool} (h : s.oom = b) (r : Nat × Bool) : Follows b (readElemE s r) (readElem s.t r) := by
  unfold readElemE readElem
  cases s.t.slot r.1 with
  | none => exact follows_ub
  | some e => exact follows_ok h

theorem follows_readValue {s : LT K V} {b : Bool} (h : s.oom = b) (r : Nat × Bool) : Follows b (readValueE s r) (readValue s.t r) := by
  unfold readValueE readValue
  cases s.t.slot r.1 with
  | none => exact follows_ub
  | some e => exact follows_ok h

theorem follows_erase (i : Nat) (s : LT K V) : FollowsR s.oom (eraseSlotE E i s) (eraseSlot E i s.t) := by
  unfold eraseSlotE
  cases eraseSlot E i s.t with
  | ok t => exact ⟨rfl, fun s' hq => by cases hq; rfl⟩
  | diverge => exact ⟨rfl, fun s' hq => (nomatch hq)⟩
  | ub => exact ⟨rfl, fun s' hq => (nomatch hq)⟩

theorem follows_eraseKey (k : K) (s : LT K V) : Follows s.oom (eraseKeyE chk E k s) (eraseKey chk E k s.t) := by
  refine follows_lift fun x => ?_
  cases x with
  | none => exact follows_ok rfl
  | some i =>
    simp only
    split
    · exact follows_ok rfl
    · exact (follows_erase i s).lift fun s' h => follows_ok h

theorem follows_clear (d : Bool) (s : LT K V) : Follows s.oom (clearE d s) (clear d s.t) := by
  unfold clearE clear
  split
  · exact follows_ok (s := destroyE s) rfl
  · unfold clearDataE clearData
    by_cases ha : s.t.alloc = true
    · rw [if_pos ha]
      exact follows_ok (s := emit (clearSlotsE s.t s.blk)
        { s with t := { s.t with ctrl := clearedCtrl (slotCap s.t) s.t.look (groups s.t), slot := fun _ => none, size := 0 } }) rfl
    · rw [if_neg ha]
      exact follows_ub

theorem follows_setMlf (a : Bool × Bool) (m r : Nat) (s : LT K V) : Follows s.oom (setMlfE chk E a m r s) (setMlf chk E (a.1 && a.2) m r s.t) := by
  unfold setMlfE setMlf
  simp only
  split
  · exact follows_rehashImpl true false a _ { s with t := { s.t with mlf := m, rev := r } }
  · exact follows_ok (s := { s with t := { s.t with mlf := m, rev := r } }) rfl

theorem follows_exec (rv : Nat → Nat) (a : Bool × Bool) (c : Call K V) (s : LT K V) :
    Follows s.oom (execE chk E rv a true c s) (exec chk E rv (a.1 && a.2) c s.t) := by
  have unit : ∀ {o : Out (LT K V) Unit} {p : Out (Map K V) Unit}, Follows s.oom o p →
      Follows s.oom (o.bind fun s' _ => .ok s' (.unit : Ans K V)) (p.bind fun s' _ => .ok s' (.unit : Ans K V)) :=
    fun h => h.bind fun _ _ h1 => follows_ok h1
  cases c with
  | insert k v => exact (follows_emplace 64 s).bind fun s' r h1 => follows_readElem h1 r
  | assign k v => exact (follows_emplace 64 s).bind fun s' r h1 => follows_readElem h1 r
  | index k d => exact (follows_emplace 64 s).bind fun s' r h1 => follows_readValue h1 r
  | find k => exact follows_lift fun _ => follows_ok rfl
  | contains k => exact follows_lift fun _ => follows_ok rfl
  | count k => exact follows_lift fun _ => follows_ok rfl
  | «at» k => exact follows_lift fun _ => follows_ok rfl
  | erase k => exact (follows_eraseKey k s).bind fun _ _ h1 => follows_ok h1
  | size => exact follows_ok rfl
  | empty => exact follows_ok rfl
  | clear d => exact unit (follows_clear d s)
  | reserve n => exact unit (follows_rehashImpl _ _ _ _ s)
  | rehash n => exact unit (follows_rehashImpl _ _ _ _ s)
  | shrink ro => exact unit (follows_rehashImpl _ _ _ _ s)
  | maxLoad x => exact unit (follows_setMlf _ _ _ s)
  | iterate => exact follows_lift fun _ => follows_ok rfl

/-- The calls as `RobInd.run` takes them. -/
def plain (ops : List (((Bool × Bool) × Bool) × Call K V)) : List (Bool × Call K V) := ops.map fun o => (o.1.1.1 && o.1.1.2, o.2)

theorem follows_run {rv : Nat → Nat} : ∀ (ops : List (((Bool × Bool) × Bool) × Call K V)) (s : LT K V), (∀ o ∈ ops, o.1.2 = true) →
    ((runE chk E rv ops s).bind fun r => .ok (r.1, r.2.t)) = run chk E rv (plain ops) s.t ∧
    ∀ as s', runE chk E rv ops s = .ok (as, s') → as.getLast? ≠ some .threw → s'.oom = s.oom := by
  intro ops
  induction ops with
  | nil => intro s _; exact ⟨rfl, fun as s' h _ => by cases h; rfl⟩
  | cons op ops ih =>
    intro s hc
    obtain ⟨⟨a, b⟩, c⟩ := op
    have hb : b = true := hc _ List.mem_cons_self
    subst hb
    have h1 := follows_exec (chk := chk) (E := E) rv a c s
    have hpl : plain (((a, true), c) :: ops) = (a.1 && a.2, c) :: plain ops := rfl
    rw [hpl, run_cons, ← h1.eq]
    unfold runE
    simp only
    cases he : execE chk E rv a true c s with
    | ub => exact ⟨rfl, fun _ _ h => (nomatch h)⟩
    | diverge => exact ⟨rfl, fun _ _ h => (nomatch h)⟩
    | throw s' =>
      simp only [strip]
      rw [if_pos (h1.throw _ he)]
      exact ⟨rfl, fun as s2 h hl => by cases h; exact (hl rfl).elim⟩
    | ok s1 x =>
      simp only [strip]
      obtain ⟨h2, h3⟩ := ih s1 (fun o ho => hc o (List.mem_cons_of_mem _ ho))
      rw [← h2]
      cases hr : runE chk E rv ops s1 with
      | ub => exact ⟨rfl, fun _ _ h => (nomatch h)⟩
      | diverge => exact ⟨rfl, fun _ _ h => (nomatch h)⟩
      | ok r =>
        refine ⟨rfl, fun as s2 h hl => ?_⟩
        simp only [Res.bind_ok, Res.ok.injEq, Prod.mk.injEq] at h
        obtain ⟨rfl, rfl⟩ := h
        rw [h3 r.1 r.2 hr (fun hq => hl (by rw [List.getLast?_cons, hq]; rfl))]
        exact h1.ok _ _ he

theorem make_strip {a : Bool × Bool} {n : Nat} {s : LT K V} (h : makeE a n = .ok s ()) : make (a.1 && a.2) n = .ok s.t () ∧ s.oom = false := by
  unfold makeE at h
  unfold make
  split at h
  · rename_i hn; cases h; rw [if_pos hn]; exact ⟨rfl, rfl⟩
  · rename_i hn
    rw [if_neg hn]
    cases hc : Robin.calcCapacity n with
    | ub => rw [hc] at h; cases h
    | diverge => rw [hc] at h; cases h
    | ok cap =>
      rw [hc] at h
      simp only at h ⊢
      have h1 := follows_create a cap (start : LT K V)
      exact ⟨by rw [show createSlots (a.1 && a.2) cap (emptyMap 128 512 : Map K V) = strip (createE a cap start) from h1.eq.symm, h]; rfl, h1.ok _ _ h⟩

/-- C131 with room: under the conditions of `C99_indirect_partial` the history does not run into undefined behaviour, and unless
it ends with a refused request for memory, exactly one object per element of the ideal map is alive and the destructor leaves
nothing behind. -/
theorem C131_lifetimes_roomy_partial (hE : E.Lawful) {rv : Nat → Nat} (hrv : ∀ x, 256 ≤ rv x ∧ rv x ≤ 1024) {a : Bool × Bool} {n : Nat}
    {s0 : LT K V} (h0 : makeE a n = .ok s0 ()) {ops : List (((Bool × Bool) × Bool) × Call K V)} (hv : ∀ o ∈ ops, Robin.Valid o.2)
    (hc : ∀ o ∈ ops, o.1.2 = true) (hu : Usable E.eq (decide (n = 0)) [] (plain ops))
    (hr : ∀ i, i ≤ ops.length → Room E (contents E.eq ((plain ops).take i))) :
    ∃ as s, runE false E rv ops s0 = .ok (as, s) ∧ (as.getLast? ≠ some .threw →
      (∃ h, Heap.run s.log Heap.empty = some h ∧ h.live.Nodup ∧ h.live.length = (contents E.eq (plain ops)).length) ∧
      Heap.run (destroyE s).log Heap.empty = some Heap.empty) := by
  obtain ⟨hmk, hoom⟩ := make_strip h0
  obtain ⟨hR, he, hf⟩ := reach_make (E := E) hmk
  have hvp : ∀ c ∈ plain ops, Robin.Valid c.2 := by
    intro c hc
    obtain ⟨o, ho, rfl⟩ := List.mem_map.mp hc
    exact hv o ho
  have h1 := run_ok hE hrv (plain ops) s0.t [] hvp hR (by rw [he])
  have hlen : (plain ops).length = ops.length := List.length_map _
  obtain ⟨g1, g2⟩ := follows_run (chk := false) (E := E) (rv := rv) ops s0 hc
  cases hx : run true E rv (plain ops) s0.t with
  | diverge => rw [hx] at h1; exact h1.elim
  | ub =>
    rw [hx] at h1
    obtain ⟨i, hi, hn⟩ := h1 (decide (n = 0)) (fun h => decide_eq_true (hf h)) hu
    exact (hn (hr i (by omega))).elim
  | ok r =>
    obtain ⟨as, t'⟩ := r
    rw [hx] at h1
    have h4 : run false E rv (plain ops) s0.t = .ok (as, t') := by
      rcases run_chk (E := E) rv (plain ops) s0.t with h4 | h4
      · rw [hx] at h4; cases h4
      · rw [← h4, hx]
    rw [h4] at g1
    cases hq : runE false E rv ops s0 with
    | ub => rw [hq] at g1; cases g1
    | diverge => rw [hq] at g1; cases g1
    | ok r =>
      obtain ⟨as', s⟩ := r
      rw [hq] at g1
      simp only [Res.bind_ok, Res.ok.injEq, Prod.mk.injEq] at g1
      obtain ⟨rfl, rfl⟩ := g1
      refine ⟨as', s, rfl, fun hl => ?_⟩
      obtain ⟨⟨h, k1, k2, k3⟩, k4, _⟩ := C131_lifetimes_partial h0 hq ((g2 _ _ hq hl).trans hoom)
      refine ⟨⟨h, k1, k2, ?_⟩, k4⟩
      obtain ⟨m', _, _, _, h5⟩ := h1
      obtain ⟨f1, f2, f3, _⟩ := h5 hl
      have f4 : (entries s.t).length = s.t.size := by
        rcases f1.st with hfr | ⟨c, hL⟩
        · rw [hfr.entries]
          obtain ⟨m, r, hmr⟩ := hfr
          rw [hmr]; rfl
        · exact hL.toGood.size_eq.symm
      rw [k3, ← f4, f2.length_eq, f3]
      rfl

/-! ### Element constructors that throw -/

theorem growE_throw {a : Bool × Bool} {s s' : LT K V} (h : growE chk E a s = .throw s') : s'.oom = true :=
  (follows_rehashImpl false true a _ s).throw _ h

theorem findOrInsertE_throw {a : Bool × Bool} {k : K} {s s' : LT K V} (h : findOrInsertE chk E a k s = .throw s') : s'.oom = true :=
  (follows_findOrInsert a k s).throw _ h

/-- An insertion that ends with the exception of the element constructor is the beginning of one in which it returns. -/
theorem emplaceLoopE_threw {update : Bool} {a : Bool × Bool} {k : K} {v : V} : ∀ (f : Nat) {s s' : LT K V},
    emplaceLoopE chk E update a false k v f s = .throw s' → s'.oom = false →
    emplaceLoopE chk E update a true k v f s = liftE (constructE (k, v) s') fun s'' => .ok s'' (s'.t.size, true) := by
  intro f
  induction f with
  | zero => intro s s' h; cases h
  | succ f ih =>
    intro s s' h ho
    unfold emplaceLoopE at h ⊢
    cases h1 : findOrInsertE chk E a k s with
    | ub => rw [h1] at h; cases h
    | diverge => rw [h1] at h; cases h
    | throw s1 =>
      rw [h1] at h
      cases h
      rw [findOrInsertE_throw h1] at ho; cases ho
    | ok s1 r =>
      rw [h1] at h
      simp only [Out.bind_ok] at h ⊢
      cases r with
      | notExists =>
        simp only [Bool.false_eq_true, if_false] at h
        cases h
        rfl
      | exists_ j =>
        simp only at h
        split at h <;> cases h
      | needGrow =>
        simp only at h ⊢
        cases h2 : growE chk E a s1 with
        | ub => rw [h2] at h; cases h
        | diverge => rw [h2] at h; cases h
        | throw s2 =>
          rw [h2] at h
          cases h
          rw [growE_throw h2] at ho; cases ho
        | ok s2 u =>
          rw [h2] at h
          exact ih h ho

/-- A search that would end at a new element, in the map where the element was not built. -/
theorem probeLoop_unbuilt {t t' : Map K V} {k : K} {n : Nat} (hc : t.ctrl = t'.ctrl) (hn : t'.slot n = none)
    (hs : ∀ j, j ≠ n → t.slot j = t'.slot j) (hk : ∀ j e, t'.slot j = some e → E.eq e.1 k = false) :
    ∀ (f i j : Nat) (d : Ctrl), probeLoop false E t k f i d = .ok (.hit j) → probeLoop false E t' k f i d = .ub := by
  intro f
  induction f with
  | zero => intro i j d h; cases h
  | succ f ih =>
    intro i j d h
    unfold probeLoop at h ⊢
    rw [hc] at h
    simp only [Bool.false_and, Bool.false_eq_true, if_false] at h ⊢
    split at h
    · rename_i h1
      rw [if_pos h1]
      split at h
      · rename_i h2
        rw [if_pos h2]
        by_cases hidx : (t'.ctrl i).idx = n
        · rw [hidx, hn]
        · rw [hs _ hidx] at h
          cases hsl : t'.slot (t'.ctrl i).idx with
          | none => rfl
          | some e =>
            rw [hsl] at h
            simp only at h ⊢
            rw [hk _ _ hsl] at h ⊢
            exact ih _ _ _ h
      · rename_i h2
        rw [if_neg h2]
        exact ih _ _ _ h
    · cases h

/-- The control word of the new element is written before the element is built.  If the constructor throws, the log stays in
order, but the control word refers to a slot without an object: looking for the key again, or trying the insertion again, reads
it. -/
theorem C131_throwing_element (hE : E.Lawful) {s s' : LT K V} (hf : Fine s) (hR : Reach E s.t) {k : K} {v : V}
    (hk : Spec.get E.eq (entries s.t) k = none) (hr : Room E (entries s.t)) (hr' : Room E (Spec.insert E.eq (entries s.t) k v))
    {rv : Nat → Nat} {a : Bool × Bool} (h : execE false E rv a false (.insert k v) s = .throw s') (ho : s'.oom = false) :
    Heap.run (destroyE s').log Heap.empty = some Heap.empty ∧ contains false E s'.t k = .ub ∧
    ∀ a' b', execE false E rv a' b' (.insert k v) s' = .ub := by
  have hf' : Fine s' := by
    rcases (keeps_exec (chk := false) (E := E) hf rv a false (.insert k v)).2 _ h with h1 | h1
    · rw [ho] at h1; cases h1
    · exact h1
  have h1 : emplaceLoopE false E false a false k v 64 s = .throw s' := by
    simp only [execE, emplaceE] at h
    cases hq : emplaceLoopE false E false a false k v 64 s with
    | ub => rw [hq] at h; cases h
    | diverge => rw [hq] at h; cases h
    | throw s1 => rw [hq] at h; cases h; rfl
    | ok s1 r =>
      rw [hq] at h
      simp only [Out.bind_ok, readElemE] at h
      split at h <;> cases h
  have h2 := emplaceLoopE_threw 64 h1 ho
  have h3 := (follows_emplace (chk := false) (E := E) (update := false) (a := a) (k := k) (v := v) 64 s).eq
  rw [h2] at h3
  have h4 := emplace_ok hE hR (List.Perm.refl _) false (a.1 && a.2) k v
  have h5 : emplace false E false (a.1 && a.2) k v s.t = emplaceLoop false E false (a.1 && a.2) k v 64 s.t := rfl
  have h6 : RobInd.emplace true E false (a.1 && a.2) k v s.t = .ub ∨
      RobInd.emplace true E false (a.1 && a.2) k v s.t = RobInd.emplace false E false (a.1 && a.2) k v s.t := emplaceLoop_chk false _ k v 64 s.t
  have hub : probe false E s'.t k = .ub := by
    cases hc : construct (k, v) s'.t with
    | diverge =>
      unfold construct at hc
      split at hc <;> cases hc
    | ub =>
      exfalso
      have h7 : constructE (k, v) s' = .ub := by unfold constructE; rw [hc]; rfl
      rw [h7] at h3
      have h8 : RobInd.emplace true E false (a.1 && a.2) k v s.t = .ub := by
        rcases h6 with h6 | h6
        · exact h6
        · rw [h6, h5, ← h3]; rfl
      rw [h8] at h4
      rcases h4 with h4 | h4
      · exact h4 hr
      · exact h4 hr'
    | ok t2 =>
      have h7 : constructE (k, v) s' = .ok (emit [.ctor s'.blk s'.t.size] { s' with t := t2 }) := by unfold constructE; rw [hc]; rfl
      rw [h7] at h3
      have h3' : RobInd.emplace false E false (a.1 && a.2) k v s.t = .ok t2 (s'.t.size, true) := by rw [h5, ← h3]; rfl
      rcases h6 with h6 | h6
      · exfalso
        rw [h6] at h4
        rcases h4 with h4 | h4
        · exact h4 hr
        · exact h4 hr'
      · rw [h3'] at h6
        rw [h6] at h4
        obtain ⟨g1, _, e, g3, g4, g5, g6⟩ := h4
        have hget : Spec.get E.eq (entries t2) k = some e := by
          rw [Spec.get_perm hE g5 (g1.distinct hE)]; exact g4
        rcases g1.st with hfr | ⟨c, hL⟩
        · rw [hfr.entries] at hget; cases hget
        · obtain ⟨hlt, ht2⟩ := construct_ok hc
          obtain ⟨i, _, _, hfi, _⟩ := (hL.toGood.find_real hE k).1 e hget
          unfold findCtrlIdx at hfi
          cases hp : probe false E t2 k with
          | diverge => rw [hp] at hfi; cases hfi
          | ub => rw [hp] at hfi; cases hfi
          | ok p =>
            rw [hp] at hfi
            cases p with
            | stop _ _ => cases hfi
            | hit j =>
              have hgo := probeLoop_unbuilt (E := E) (t := t2) (t' := s'.t) (k := k) (n := s'.t.size) (by rw [ht2]) (by
                  have := (hf'.tidy.dense s'.t.size)
                  cases hq : s'.t.slot s'.t.size with
                  | none => rfl
                  | some x => rw [hq] at this; simp at this)
                (fun j hj => by rw [ht2]; exact upd_other _ _ hj)
                (by
                  intro j x hx
                  have hj : j < s'.t.size := (hf'.tidy.dense j).mp (by rw [hx]; rfl)
                  by_contra hc2
                  have hc2 : E.eq x.1 k = true := by simpa using hc2
                  have hd : t2.slot j = some x := by
                    rw [ht2]
                    show upd _ _ _ j = _
                    rw [upd_other _ _ (by omega)]; exact hx
                  have hn : t2.slot s'.t.size = some (k, v) := by rw [ht2]; exact upd_self ..
                  have hsz : t2.size = s'.t.size + 1 := by rw [ht2]
                  have hen := Good.entries_dense hL.toGood.toDense hL.toGood.size_le_slen
                  rw [g6, hsz, List.range_succ, List.filterMap_append] at hen
                  simp only [Bool.false_eq_true, if_false, order, hk, Option.isSome_none, List.filterMap_cons, hn, List.filterMap_nil] at hen
                  have hmem : x ∈ entries s.t := by
                    rw [List.append_cancel_right hen]
                    exact List.mem_filterMap.mpr ⟨j, List.mem_range.mpr hj, hd⟩
                  have := Spec.get_none_iff.mp hk x hmem
                  rw [hE.symm _ _ hc2] at this
                  cases this)
                _ _ _ _ hp
              have e1 : t2.clen = s'.t.clen := by rw [ht2]
              have e2 : home E t2 k = home E s'.t k := by unfold home; rw [ht2]
              rw [e1, e2] at hgo
              exact hgo
  refine ⟨run_destroy hf', ?_, ?_⟩
  · unfold contains findIdx findCtrlIdx
    rw [hub]
    rfl
  · intro a' b'
    simp only [execE, emplaceE]
    unfold emplaceLoopE findOrInsertE
    rw [hub]
    rfl

/-! ### Refused requests -/

theorem rehashImplE_threw {sh al : Bool} {a : Bool × Bool} {n : Nat} {s s' : LT K V} (h : rehashImplE chk E sh al a n s = .throw s') :
    ∃ cap, Robin.calcCapacity n = .ok cap ∧ createE a cap s = .throw s' := by
  unfold rehashImplE at h
  split at h
  · cases h
  · cases h
  · rename_i cap hcap
    refine ⟨cap, hcap, ?_⟩
    split at h
    · split at h
      · split at h <;> cases h
      · rename_i hc; cases h; exact hc
      · cases h
      · cases h
    · cases h

/-- A rehash whose second request, for the slots, is refused has obtained the control block and forgets it: nobody gives it back,
the destructor does not either. -/
theorem C131_lost_block {s s' : LT K V} (hf : Fine s) {sh al : Bool} {n : Nat} (hn : 2 * n ≤ memLimit)
    (h : rehashImplE chk E sh al (true, false) n s = .throw s') :
    (∃ hp x, Heap.run s'.log Heap.empty = some hp ∧ x ∈ hp.blocks ∧ x ∉ owned s.t s.blk) ∧
    Heap.run (destroyE s').log Heap.empty ≠ some Heap.empty := by
  obtain ⟨cap, hcap, hcr⟩ := rehashImplE_threw h
  have hle : cap ≤ memLimit := by
    obtain ⟨j, _, _, _, h4⟩ := Robin.calcCapacity_ok hcap
    unfold memLimit at *
    omega
  have hs' : s' = emit [.alloc (s.next + 1) (newCtrls cap)] { s with t := { s.t with look := lookups cap }, next := s.next + 2, oom := true } := by
    unfold createE at hcr
    have : createSlots ((true, false).1 && (true, false).2) cap s.t = .throw { s.t with look := lookups cap } := rfl
    rw [this] at hcr
    simp only [Bool.true_and, decide_eq_true hle, if_true] at hcr
    cases hcr
    rfl
  subst hs'
  obtain ⟨hp, g1, g2⟩ := hf.heap
  have hown : ∀ x ∈ owned s.t s.blk, x.1 < s.next := by
    intro x hx
    unfold owned at hx
    split at hx
    · rename_i ha
      have := hf.next ha
      simp only [List.mem_cons, List.not_mem_nil, or_false] at hx
      rcases hx with rfl | rfl <;> simp only <;> omega
    · cases hx
  have hr : Heap.run (s.log ++ [.alloc (s.next + 1) (newCtrls cap)]) Heap.empty = some { hp with blocks := (s.next + 1, newCtrls cap) :: hp.blocks } := by
    rw [run_snoc g1]
    show (hp.step _).bind (Heap.run []) = _
    rw [step_alloc fun x hx => by rw [g2.blocks] at hx; have := hown x hx; omega]
    rfl
  refine ⟨⟨_, (s.next + 1, newCtrls cap), hr, List.mem_cons_self, fun hx => by have := hown _ hx; simp only at this; omega⟩, ?_⟩
  intro hq
  have hq : Heap.run ((s.log ++ [.alloc (s.next + 1) (newCtrls cap)]) ++
    (clearSlotsE { s.t with look := lookups cap } s.blk ++ freeAll { s.t with look := lookups cap } s.blk)) Heap.empty = some Heap.empty := hq
  rw [run_snoc hr] at hq
  have hb := Life.balance_block (s.next + 1) (newCtrls cap) _ _ _ hq
  have hz : (clearSlotsE { s.t with look := lookups cap } s.blk ++ freeAll { s.t with look := lookups cap } s.blk).count
      (.free (s.next + 1) (newCtrls cap)) = 0 := by
    rw [List.count_eq_zero]
    intro hm
    rcases List.mem_append.mp hm with hm | hm
    · unfold clearSlotsE at hm
      obtain ⟨_, _, hm⟩ := List.mem_map.mp hm
      cases hm
    · unfold freeAll at hm
      split at hm
      · rename_i ha
        have := hf.next ha
        simp only [List.mem_cons, Ev.free.injEq, List.not_mem_nil, or_false] at hm
        omega
      · cases hm
  rw [hz] at hb
  simp [Heap.empty] at hb

/-- A refused rehash has already changed the number of look-ups: if it differs, the destructor gives the blocks back with the wrong
counts. -/
theorem C131_wrong_count {s s' : LT K V} (hf : Fine s) (ha : s.t.alloc = true) {sh al : Bool} {n cap : Nat} (hcap : Robin.calcCapacity n = .ok cap)
    (hl : lookups cap ≠ s.t.look) (h : rehashImplE chk E sh al (false, false) n s = .throw s') :
    s'.log = s.log ∧ Heap.run (destroyE s').log Heap.empty = none := by
  obtain ⟨cap', hcap', hcr⟩ := rehashImplE_threw h
  rw [hcap] at hcap'
  cases hcap'
  have hs' : s' = { s with t := { s.t with look := lookups cap }, next := s.next + 2, oom := true } := by
    unfold createE at hcr
    have : createSlots ((false, false).1 && (false, false).2) cap s.t = .throw { s.t with look := lookups cap } := rfl
    rw [this] at hcr
    simp only [Bool.false_and, Bool.false_eq_true, if_false] at hcr
    cases hcr
    unfold emit
    rw [List.append_nil]
  subst hs'
  refine ⟨rfl, ?_⟩
  have hc := run_clearSlots hf
  show Heap.run (s.log ++ (clearSlotsE s.t s.blk ++ freeAll { s.t with look := lookups cap } s.blk)) Heap.empty = none
  rw [← List.append_assoc, run_snoc hc]
  unfold freeAll
  rw [if_pos ha]
  have : Heap.step { blocks := owned s.t s.blk, live := [] } (.free s.blk (maxCap { s.t with look := lookups cap })) = none := by
    simp only [Heap.step]
    rw [if_neg]
    rw [Bool.and_eq_true, not_and_or]
    left
    rw [List.contains_iff_mem]
    unfold owned
    rw [if_pos ha]
    simp only [List.mem_cons, Prod.mk.injEq, List.not_mem_nil, or_false]
    have h1 : maxCap { s.t with look := lookups cap } = slotCap s.t + lookups cap := rfl
    have h2 : maxCap s.t = slotCap s.t + s.t.look := rfl
    rw [h1, h2]
    rintro (⟨_, hq⟩ | ⟨hq, _⟩) <;> omega
  show (Heap.step _ _).bind _ = none
  rw [this]
  rfl

/-! ### Ranges -/

section Range
variable (chk : Bool) (E : Env K)

/-- `insert(first, last)`, see `RobInd.insertRange` (RH:3608-3617); every element comes with the answers of the allocator and of its
constructor. -/
def insertRangeE : List (((Bool × Bool) × Bool) × K × V) → LT K V → Out (LT K V) Unit
  | [], s => .ok s ()
  | (a, k, v) :: l, s => (emplaceE chk E false a.1 a.2 k v s).bind fun s' _ => insertRangeE l s'

/-- The constructors from a range and from an initializer list, see `RobInd.fromRange` (RH:3077-3096, 3206-3226).  They catch
nothing: after an exception there is no object, and so no destructor call (the state in `throw` has the log). -/
def fromRangeE (a : Bool × Bool) (n : Nat) (l : List (((Bool × Bool) × Bool) × K × V)) : Out (LT K V) Unit :=
  (makeE a (minRequire (emptyMap 128 512 : Map K V) (max n l.length))).bind fun s _ => insertRangeE chk E l s

end Range

theorem keeps_insertRange : ∀ (l : List (((Bool × Bool) × Bool) × K × V)) {s : LT K V}, Fine s → Keeps (insertRangeE chk E l s) := by
  intro l
  induction l with
  | nil => intro s hf; exact keeps_ok hf
  | cons x l ih =>
    intro s hf
    obtain ⟨a, k, v⟩ := x
    exact (keeps_emplace 64 hf).bind fun s' _ _ h1 => ih h1

theorem finishE_alloc {k : K} {s s' : LT K V} {i : Nat} {d : Ctrl} {r : Found} (h : finishE chk E k s i d = .ok s' r) : s'.t.alloc = true := by
  unfold finishE at h
  cases hp : place chk false (ctrlHash E k) s.t i d with
  | ub => rw [hp] at h; cases h
  | diverge => rw [hp] at h; cases h
  | ok q =>
    rw [hp] at h
    obtain ⟨ha, w, hw⟩ := place_ctrl hp
    cases h
    show q.1.alloc = true
    rw [hw]; exact ha

theorem findOrInsertE_alloc {a : Bool × Bool} {k : K} {s s' : LT K V} (h : findOrInsertE chk E a k s = .ok s' .notExists) : s'.t.alloc = true := by
  unfold findOrInsertE at h
  cases hp : probe chk E s.t k with
  | ub => rw [hp] at h; cases h
  | diverge => rw [hp] at h; cases h
  | ok q =>
    rw [hp] at h
    cases q with
    | hit i => cases h
    | stop i d =>
      simp only [liftE] at h
      split at h
      · cases hg : growE chk E a s with
        | ub => rw [hg] at h; cases h
        | diverge => rw [hg] at h; cases h
        | throw s1 => rw [hg] at h; cases h
        | ok s1 u =>
          rw [hg] at h
          simp only [Out.bind_ok] at h
          cases hs : seek chk E s1.t k with
          | ub => rw [hs] at h; cases h
          | diverge => rw [hs] at h; cases h
          | ok y => rw [hs] at h; exact finishE_alloc h
      · exact finishE_alloc h

theorem emplaceLoopE_alloc {update : Bool} {a : Bool × Bool} {c : Bool} {k : K} {v : V} : ∀ (f : Nat) {s s' : LT K V},
    emplaceLoopE chk E update a c k v f s = .throw s' → s'.oom = false → s'.t.alloc = true := by
  intro f
  induction f with
  | zero => intro s s' h; cases h
  | succ f ih =>
    intro s s' h ho
    unfold emplaceLoopE at h
    cases h1 : findOrInsertE chk E a k s with
    | ub => rw [h1] at h; cases h
    | diverge => rw [h1] at h; cases h
    | throw s1 =>
      rw [h1] at h
      cases h
      rw [findOrInsertE_throw h1] at ho; cases ho
    | ok s1 r =>
      rw [h1] at h
      simp only [Out.bind_ok] at h
      cases r with
      | notExists =>
        simp only at h
        split at h
        · cases hc : constructE (k, v) s1 with
          | ub => rw [hc] at h; cases h
          | diverge => rw [hc] at h; cases h
          | ok s2 => rw [hc] at h; cases h
        · cases h; exact findOrInsertE_alloc h1
      | exists_ j =>
        simp only at h
        split at h <;> cases h
      | needGrow =>
        simp only at h
        cases h2 : growE chk E a s1 with
        | ub => rw [h2] at h; cases h
        | diverge => rw [h2] at h; cases h
        | throw s2 =>
          rw [h2] at h
          cases h
          rw [growE_throw h2] at ho; cases ho
        | ok s2 u =>
          rw [h2] at h
          exact ih h ho

theorem makeE_throw {a : Bool × Bool} {n : Nat} {s : LT K V} (h : (makeE a n : Out (LT K V) Unit) = .throw s) : s.oom = true := by
  unfold makeE at h
  split at h
  · cases h
  · split at h
    · cases h
    · cases h
    · exact (follows_create a _ start).throw _ h

theorem keeps_fromRange (a : Bool × Bool) (n : Nat) (l : List (((Bool × Bool) × Bool) × K × V)) : Keeps (fromRangeE chk E a n l) := by
  refine Keeps.bind ⟨fun s' x h => fine_make (by cases x; exact h), fun s' h => Or.inl (makeE_throw h)⟩ fun s' _ _ h1 => keeps_insertRange l h1

/-- The elements as `RobInd.insertRange` takes them. -/
def plainRange (l : List (((Bool × Bool) × Bool) × K × V)) : List (Bool × K × V) := l.map fun x => (x.1.1.1 && x.1.1.2, x.2)

/-- Without an exception of an element constructor the range is inserted as without the log. -/
theorem strip_insertRange : ∀ (l : List (((Bool × Bool) × Bool) × K × V)) (s : LT K V), s.oom = false → (∀ x ∈ l, x.1.2 = true) →
    Follows false (insertRangeE chk E l s) (insertRange chk E (plainRange l) s.t) := by
  intro l
  induction l with
  | nil => intro s ho _; exact follows_ok ho
  | cons x l ih =>
    intro s ho hc
    obtain ⟨⟨a, b⟩, k, v⟩ := x
    have hb : b = true := hc _ List.mem_cons_self
    subst hb
    have h1 := follows_emplace (chk := chk) (E := E) (update := false) (a := a) (k := k) (v := v) 64 s
    rw [ho] at h1
    exact h1.bind fun s' _ h2 => ih s' h2 fun x hx => hc x (List.mem_cons_of_mem _ hx)

/-- C131 for maps made from ranges: the constructor makes the map of `C113_from_range_partial`; if it returns, the log is in order, and the destructor leaves nothing behind; a
range inserted into a map keeps that, also if an element constructor throws in the middle. -/
theorem C131_range_partial {a : Bool × Bool} {n : Nat} {l : List (((Bool × Bool) × Bool) × K × V)} {s : LT K V}
    (h : fromRangeE chk E a n l = .ok s ()) :
    ((∀ x ∈ l, x.1.2 = true) → fromRange chk E (a.1 && a.2) n (plainRange l) = .ok s.t ()) ∧
    (∃ h, Heap.run s.log Heap.empty = some h ∧ h.live.Nodup ∧ h.live.length = s.t.size) ∧
    Heap.run (destroyE s).log Heap.empty = some Heap.empty ∧
    ∀ l' s', insertRangeE chk E l' s = .ok s' () ∨ (insertRangeE chk E l' s = .throw s' ∧ s'.oom = false) →
      Heap.run (destroyE s').log Heap.empty = some Heap.empty := by
  have hf := (keeps_fromRange a n l).1 _ _ h
  obtain ⟨hp, g1, g2, g3, _⟩ := hf.alive
  refine ⟨fun hc => ?_, ⟨hp, g1, g2, g3⟩, run_destroy hf, fun l' s' h' => ?_⟩
  · unfold fromRangeE at h
    unfold fromRange reserveForInsert
    have hlen : (plainRange l).length = l.length := List.length_map _
    rw [hlen]
    cases hm : (makeE a (minRequire (emptyMap 128 512 : Map K V) (max n l.length)) : Out (LT K V) Unit) with
    | ub => rw [hm] at h; cases h
    | diverge => rw [hm] at h; cases h
    | throw s1 => rw [hm] at h; cases h
    | ok s1 u =>
      rw [hm] at h
      obtain ⟨h1, h2⟩ := make_strip hm
      rw [h1]
      have h3 := strip_insertRange (chk := chk) (E := E) l s1 h2 hc
      show insertRange chk E (plainRange l) s1.t = _
      rw [← h3.eq, show insertRangeE chk E l s1 = .ok s () from h]
      rfl
  have hk := keeps_insertRange (chk := chk) (E := E) l' hf
  rcases h' with h' | ⟨h', ho⟩
  · exact run_destroy (hk.1 _ _ h')
  · rcases hk.2 _ h' with h1 | h1
    · rw [ho] at h1; cases h1
    · exact run_destroy h1

/-- If the constructor of an element throws while a map is made from a range, the blocks obtained and the elements built so far are
lost: there is no map whose destructor could give them back. -/
theorem C131_range_throws {a : Bool × Bool} {n : Nat} {l : List (((Bool × Bool) × Bool) × K × V)} {s : LT K V}
    (h : fromRangeE chk E a n l = .throw s) (ho : s.oom = false) :
    ∃ hp, Heap.run s.log Heap.empty = some hp ∧ hp.blocks.length = 2 ∧ hp.live.length = s.t.size := by
  have hal : s.t.alloc = true := by
    have hins : ∀ (l : List (((Bool × Bool) × Bool) × K × V)) (s1 s2 : LT K V), insertRangeE chk E l s1 = .throw s2 → s2.oom = false →
        s2.t.alloc = true := by
      intro l
      induction l with
      | nil => intro s1 s2 hq; cases hq
      | cons x l ih =>
        intro s1 s2 hq ho2
        obtain ⟨a, k, v⟩ := x
        unfold insertRangeE at hq
        cases he : emplaceE chk E false a.1 a.2 k v s1 with
        | ub => rw [he] at hq; cases hq
        | diverge => rw [he] at hq; cases hq
        | ok s3 r => rw [he] at hq; exact ih _ _ hq ho2
        | throw s3 =>
          rw [he] at hq
          cases hq
          exact emplaceLoopE_alloc 64 he ho2
    unfold fromRangeE at h
    cases hm : (makeE a (minRequire (emptyMap 128 512 : Map K V) (max n l.length)) : Out (LT K V) Unit) with
    | ub => rw [hm] at h; cases h
    | diverge => rw [hm] at h; cases h
    | throw s1 => rw [hm] at h; cases h; rw [makeE_throw hm] at ho; cases ho
    | ok s1 u => rw [hm] at h; exact hins _ _ _ h ho
  rcases (keeps_fromRange a n l).2 _ h with h1 | h1
  · rw [ho] at h1; cases h1
  · obtain ⟨hp, g1, _, g3, g4⟩ := h1.alive
    refine ⟨hp, g1, ?_, g3⟩
    rw [g4]
    unfold owned
    rw [hal]
    rfl

/-! ### The hypotheses can be met -/

section Examples
open Verif.Robin (hashEnv hashEnv_lawful)

/-- A history for `C131_lifetimes_partial`: the constructor of the second element throws, an element is erased, the map rehashed and
cleared. -/
def sample : List (((Bool × Bool) × Bool) × Call Nat Nat) :=
  [(((true, true), true), .insert 1 1), (((true, true), false), .insert 5 2), (((true, true), true), .insert 2 3),
   (((true, true), true), .insert 7 3), (((true, true), true), .erase 7), (((true, true), true), .clear false),
   (((true, true), true), .insert 3 3), (((true, true), true), .rehash 40)]

/-- The answers, the number of objects alive, and whether memory was refused. -/
def played (ops : List (((Bool × Bool) × Bool) × Call Nat Nat)) : Option (List (Ans Nat Nat) × Nat × Bool) :=
  match (makeE (true, true) 4 : Out (LT Nat Nat) Unit) with
  | .ok s0 _ =>
    match runE false (hashEnv id) (fun _ => 512) ops s0 with
    | .ok (as, s) => some (as, s.t.size, s.oom)
    | _ => none
  | _ => none

set_option maxRecDepth 100000 in
example : played sample = some ([.elem (1, 1) true, .threw, .elem (2, 3) true, .elem (7, 3) true, .num 1, .unit, .elem (3, 3) true, .unit], 1, false) := by
  decide +kernel

/-- The history without the exception, for `C131_lifetimes_roomy_partial`. -/
def calm : List (((Bool × Bool) × Bool) × Call Nat Nat) :=
  [(((true, true), true), .insert 1 1), (((true, true), true), .insert 5 2), (((true, true), true), .erase 1),
   (((true, true), true), .rehash 40), (((true, true), true), .clear true), (((true, true), true), .insert 3 3)]

example : ∃ (s0 : LT Nat Nat) (as : List (Ans Nat Nat)) (s : LT Nat Nat), makeE (true, true) 4 = .ok s0 () ∧
    runE false (hashEnv id) (fun _ => 512) calm s0 = .ok (as, s) := by
  obtain ⟨s0, h0⟩ : ∃ s0 : LT Nat Nat, makeE (true, true) 4 = .ok s0 () := ⟨_, rfl⟩
  obtain ⟨as, s, h, _⟩ := C131_lifetimes_roomy_partial (E := hashEnv id) (hashEnv_lawful id) (rv := fun _ => 512) (by intro x; simp)
    (a := (true, true)) (n := 4) h0 (ops := calm) (by
      intro o ho
      simp only [calm, List.mem_cons, List.not_mem_nil, or_false] at ho
      rcases ho with rfl | rfl | rfl | rfl | rfl | rfl <;> trivial) (by
      intro o ho
      simp only [calm, List.mem_cons, List.not_mem_nil, or_false] at ho
      rcases ho with rfl | rfl | rfl | rfl | rfl | rfl <;> rfl) (usable_of_usableB _ _ _ (by decide))
    (fun i hi => room_five (by
      have : ∀ i, i ≤ calm.length → (contents (hashEnv id).eq ((plain calm).take i)).length ≤ 5 := by decide
      exact this i hi))
  exact ⟨s0, as, s, h0, h⟩

/-- A map of capacity 64, as the constructor makes it. -/
theorem roomy_map : ∃ s : LT Nat Nat, makeE (true, true) 64 = .ok s () ∧ Fine s ∧ Reach (hashEnv id) s.t ∧ entries s.t = [] := by
  obtain ⟨s, h⟩ : ∃ s : LT Nat Nat, makeE (true, true) 64 = .ok s () := ⟨_, rfl⟩
  obtain ⟨h1, h2, _⟩ := reach_make (E := hashEnv id) (make_strip h).1
  exact ⟨s, h, fine_make h, h1, h2⟩

/-- What a call on that map does: it throws, and whether memory was refused. -/
def threwB {α : Type} (o : Out (LT Nat Nat) α) : Option Bool := match o with | .throw s => some s.oom | _ => none

theorem threw_of {α : Type} {o : Out (LT Nat Nat) α} {b : Bool} (h : threwB o = some b) : ∃ s, o = .throw s ∧ s.oom = b := by
  cases o with
  | throw s => exact ⟨s, rfl, by simpa [threwB] using h⟩
  | ok => cases h
  | diverge => cases h
  | ub => cases h

set_option maxRecDepth 100000 in
/-- `C131_throwing_element` has instances. -/
example : ∃ s s' : LT Nat Nat, Fine s ∧ Reach (hashEnv id) s.t ∧ Spec.get (hashEnv id).eq (entries s.t) 5 = none ∧
    execE false (hashEnv id) (fun _ => 512) (true, true) false (.insert 5 6) s = .throw s' ∧ s'.oom = false ∧
    contains false (hashEnv id) s'.t 5 = .ub := by
  obtain ⟨s, h0, h1, h2, h3⟩ := roomy_map
  have h4 : (match (makeE (true, true) 64 : Out (LT Nat Nat) Unit) with
      | .ok s _ => threwB (execE false (hashEnv id) (fun _ => 512) (true, true) false (.insert 5 6) s)
      | _ => none) = some false := by decide +kernel
  rw [h0] at h4
  obtain ⟨s', h5, h6⟩ := threw_of h4
  refine ⟨s, s', h1, h2, by rw [h3]; rfl, h5, h6, ?_⟩
  exact (C131_throwing_element (hashEnv_lawful id) h1 h2 (by rw [h3]; rfl) (by rw [h3]; exact room_five (by simp))
    (by rw [h3]; exact room_five (by decide)) h5 h6).2.1

set_option maxRecDepth 100000 in
/-- `C131_lost_block` and `C131_wrong_count` have instances: `rehash(100)` on that map, the memory being refused. -/
example : ∃ s s1 s2 : LT Nat Nat, Fine s ∧ s.t.alloc = true ∧ Robin.calcCapacity 100 = .ok 128 ∧ lookups 128 ≠ s.t.look ∧ 2 * 100 ≤ memLimit ∧
    rehashImplE false (hashEnv id) true false (true, false) 100 s = .throw s1 ∧
    rehashImplE false (hashEnv id) true false (false, false) 100 s = .throw s2 := by
  obtain ⟨s, h0, h1, h2, h3⟩ := roomy_map
  have h4 : (match (makeE (true, true) 64 : Out (LT Nat Nat) Unit) with
      | .ok s _ => (threwB (rehashImplE false (hashEnv id) true false (true, false) 100 s) == some true) &&
          (threwB (rehashImplE false (hashEnv id) true false (false, false) 100 s) == some true) && s.t.alloc && (lookups 128 != s.t.look)
      | _ => false) = true := by decide +kernel
  rw [h0] at h4
  simp only [Bool.and_eq_true, beq_iff_eq, bne_iff_ne] at h4
  obtain ⟨⟨⟨h5, h6⟩, h7⟩, h8⟩ := h4
  obtain ⟨s1, h5, _⟩ := threw_of h5
  obtain ⟨s2, h6, _⟩ := threw_of h6
  exact ⟨s, s1, s2, h1, h7, by decide, h8, by decide, h5, h6⟩

set_option maxRecDepth 100000 in
/-- `C131_range_partial` and `C131_range_throws` have instances. -/
example : (match fromRangeE false (hashEnv id) (true, true) 0 [(((true, true), true), 1, 1), (((true, true), true), 5, 2)] with
      | .ok s _ => s.t.size == 2 | _ => false) = true ∧
    threwB (fromRangeE false (hashEnv id) (true, true) 0 [(((true, true), true), 1, 1), (((true, true), false), 5, 2)]) = some false := by
  decide +kernel

end Examples

end Verif.RobInd.Track
