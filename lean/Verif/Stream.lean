/-
Ranges that can be read only once: the range functions of the maps with the iterators of a stream (C144).

RH = src/jstd/hashmap/robin_hash_map.h, R16 = src/jstd/hashmap/robin16_hash_map.h, FL = src/jstd/hashmap/flat16_hash_map.h,
M15 = src/jstd/hashmap/group15_flat_map.hpp, M16 = src/jstd/hashmap/group16_flat_map.hpp, IT = src/jstd/iterator.h.

The template parameter of the range functions is called `InputIter`, and an input iterator need not allow a second pass: `std::istream_iterator` holds
the last value read, and all its copies read on in one stream.  The state of such a range is therefore the rest of the stream, an iterator is the value it
holds, `none` for the one that has met the end of the stream and equals `last`.  A stream is a finite list; the iterator itself never throws.
-/
import Verif.RobIndRange
import Verif.Rob16Bugs
import Verif.FlatBugs
import Verif.Range16

namespace Verif.Stream

section Model
variable {α M : Type}

/-- `++it` of a stream iterator, and its construction from a stream, as the loops use them (IT:714, 732, FL:1404, R16:1807, RH:3612): the value it holds
afterwards and the rest of the stream. -/
def incr : List α → Option α × List α
  | [] => (none, [])
  | a :: s => (some a, s)

/-- `jstd::distance` for iterators without random access (IT:712-717, 726-736), given the value that `first` holds and the rest of the stream. -/
def distance : Option α → List α → Nat × List α
  | none, s => (0, s)
  | some _, [] => (1, (incr ([] : List α)).2)
  | some _, b :: s => ((distance (incr (b :: s)).1 s).1 + 1, (distance (incr (b :: s)).1 s).2)

/-- The loop of `insert(first, last)` (FL:1403-1407, R16:1806-1810, RH:3611-3615); `ins` is the insertion of one element. -/
def loop (ins : α → M → Out M Unit) : Option α → List α → M → Out M (List α)
  | none, s, t => .ok t s
  | some a, [], t => (ins a t).bind fun t _ => .ok t (incr ([] : List α)).2
  | some a, b :: s, t => (ins a t).bind fun t _ => loop ins (incr (b :: s)).1 s t

/-- `insert(first, last)` (FL:1402-1407, R16:1805-1810, RH:3610-3615), `first` made from a stream that holds `s`.  The answer is the rest of the stream. -/
def insertStream (ins : α → M → Out M Unit) (s : List α) (t : M) : Out M (List α) := loop ins (incr s).1 (incr s).2 t

/-- The range constructors (FL:949-967, R16:1323-1341, RH:3077-3096): the number of elements is counted, room is made, `first` is passed on to `insert`. -/
def construct (room : Nat → Out M Unit) (ins : α → M → Out M Unit) (n : Nat) (s : List α) : Out M Unit :=
  (room (max n (distance (incr s).1 (incr s).2).1)).bind fun t _ =>
    (loop ins (incr s).1 (distance (incr s).1 (incr s).2).2 t).bind fun t _ => .ok t ()

/-- The loop of `insert(first, last)` of the group maps (M15:460-462, M16:457-459): `pos` is advanced, `a`, the value that `first` holds, is inserted. -/
def loopGroup (ins : α → M → Out M Unit) (a : α) : Option α → List α → M → Out M (List α)
  | none, s, t => .ok t s
  | some _, [], t => (ins a t).bind fun t _ => .ok t (incr ([] : List α)).2
  | some _, b :: s, t => (ins a t).bind fun t _ => loopGroup ins a (incr (b :: s)).1 s t

/-- `insert(first, last)` of the group maps (M15:457-463, M16:454-460), also called by their range constructors (M15:150-156, M16:147-153). -/
def insertGroup (ins : α → M → Out M Unit) (s : List α) (t : M) : Out M (List α) :=
  match incr s with
  | (none, s) => .ok t s
  | (some a, s) => loopGroup ins a (some a) s t

end Model

section Maps
variable {K V : Type} (E : Env K)

/-- One insertion of robin_hash_map, direct layout (RH:3613); the element comes with the answer of the allocator. -/
def insRobin (x : Bool × K × V) (t : Robin.Map K V) : Out (Robin.Map K V) Unit :=
  (Robin.emplace false false E false x.1 x.2.1 x.2.2 t).bind fun t _ => .ok t ()

/-- One insertion of robin_hash_map, indirect layout (RH:3613). -/
def insRobInd (x : Bool × K × V) (t : RobInd.Map K V) : Out (RobInd.Map K V) Unit :=
  (RobInd.emplace false E false x.1 x.2.1 x.2.2 t).bind fun t _ => .ok t ()

/-- One insertion of robin16_hash_map (R16:1808). -/
def insRob16 (sec : Nat → Nat) (mem : Rob16.Mem) (x : K × V) (t : Rob16.Map K V) : Out (Rob16.Map K V) Unit :=
  (Rob16.insert E sec false mem true x.1 x.2 t).bind fun t _ => .ok t ()

/-- One insertion of flat16_hash_map (FL:1405). -/
def insFlat (sec : Nat → Nat) (mem : Flat.Mem) (x : K × V) (t : Flat.Map K V) : Out (Flat.Map K V) Unit :=
  (Flat.emplace E sec false mem true x.1 x.2 t).bind fun t _ => .ok t ()

/-- One insertion of a group map (M15:461, M16:458); what the allocator answers does not depend on the element. -/
def insGroup (L : Layout) (mem : Bool) (x : K × V) (t : Table K V) : Out (Table K V) Unit :=
  (emplace L E false mem true x.1 x.2 t).bind fun t _ => .ok t ()

end Maps

/-! ### Lemmas -/

section Lemmas
variable {α M : Type}

theorem distance_some (a : α) : ∀ s : List α, distance (some a) s = (s.length + 1, [])
  | [] => rfl
  | b :: s => by
    show ((distance (some b) s).1 + 1, (distance (some b) s).2) = _
    rw [distance_some b s]
    rfl

/-- What the calls on a list do one after the other. -/
def each (ins : α → M → Out M Unit) : List α → M → Out M Unit
  | [], t => .ok t ()
  | a :: s, t => (ins a t).bind fun t _ => each ins s t

theorem loop_each (ins : α → M → Out M Unit) (a : α) : ∀ (s : List α) (t : M),
    loop ins (some a) s t = (each ins (a :: s) t).bind fun t _ => .ok t [] := by
  intro s
  induction s generalizing a with
  | nil =>
    intro t
    simp only [loop, each, incr]
    cases ins a t <;> rfl
  | cons b s ih =>
    intro t
    simp only [loop, each, incr]
    cases ins a t with
    | ok t1 u => exact ih b t1
    | throw t1 => rfl
    | diverge => rfl
    | ub => rfl

theorem insert_each (ins : α → M → Out M Unit) (s : List α) (t : M) : insertStream ins s t = (each ins s t).bind fun t _ => .ok t [] := by
  cases s with
  | nil => rfl
  | cons a s => exact loop_each ins a s t

theorem out_drop {β : Type} (o : Out M Unit) : ((o.bind fun t _ => .ok t ([] : List β)).bind fun t _ => .ok t ()) = o := by
  cases o <;> rfl

/-- A range constructor inserts the first element only. -/
theorem construct_cons (room : Nat → Out M Unit) (ins : α → M → Out M Unit) (n : Nat) (a : α) (s : List α) :
    construct room ins n (a :: s) = (room (max n (s.length + 1))).bind fun t _ => each ins [a] t := by
  unfold construct
  simp only [incr, distance_some]
  congr 1
  funext t u
  rw [loop_each, out_drop]

theorem loopGroup_each (ins : α → M → Out M Unit) (a b : α) : ∀ (s : List α) (t : M),
    loopGroup ins a (some b) s t = (each ins (List.replicate (s.length + 1) a) t).bind fun t _ => .ok t [] := by
  intro s
  induction s generalizing b with
  | nil =>
    intro t
    simp only [loopGroup, incr, List.length_nil, Nat.zero_add, List.replicate_succ, List.replicate_zero, each]
    cases ins a t <;> rfl
  | cons c s ih =>
    intro t
    simp only [loopGroup, incr]
    show _ = (each ins (a :: List.replicate (s.length + 1) a) t).bind _
    simp only [each]
    cases ins a t with
    | ok t1 u => exact ih c t1
    | throw t1 => rfl
    | diverge => rfl
    | ub => rfl

variable {K V : Type} {E : Env K}

theorem each_robin : ∀ (s : List (Bool × K × V)) (t : Robin.Map K V), each (insRobin E) s t = Robin.insertRange false false E s t
  | [], t => rfl
  | (m, k, v) :: s, t => by
    simp only [each, insRobin, Robin.insertRange]
    cases Robin.emplace false false E false m k v t with
    | ok t1 u => exact each_robin s t1
    | throw t1 => rfl
    | diverge => rfl
    | ub => rfl

theorem each_robInd : ∀ (s : List (Bool × K × V)) (t : RobInd.Map K V), each (insRobInd E) s t = RobInd.insertRange false E s t
  | [], t => rfl
  | (m, k, v) :: s, t => by
    simp only [each, insRobInd, RobInd.insertRange]
    cases RobInd.emplace false E false m k v t with
    | ok t1 u => exact each_robInd s t1
    | throw t1 => rfl
    | diverge => rfl
    | ub => rfl

theorem each_rob16 {sec : Nat → Nat} {mem : Rob16.Mem} : ∀ (s : List (K × V)) (t : Rob16.Map K V),
    each (insRob16 E sec mem) s t = Rob16.insertAll E sec mem s t
  | [], t => rfl
  | e :: s, t => by
    simp only [each, insRob16, Rob16.insertAll]
    cases Rob16.insert E sec false mem true e.1 e.2 t with
    | ok t1 u => exact each_rob16 s t1
    | throw t1 => rfl
    | diverge => rfl
    | ub => rfl

theorem each_flat {sec : Nat → Nat} {mem : Flat.Mem} : ∀ (s : List (K × V)) (t : Flat.Map K V),
    each (insFlat E sec mem) s t = Flat.insertAll E sec mem s t
  | [], t => rfl
  | e :: s, t => by
    simp only [each, insFlat, Flat.insertAll]
    cases Flat.emplace E sec false mem true e.1 e.2 t with
    | ok t1 u => exact each_flat s t1
    | throw t1 => rfl
    | diverge => rfl
    | ub => rfl

theorem each_group {L : Layout} {mem : Bool} : ∀ (s : List (K × V)) (t : Table K V),
    each (insGroup E L mem) s t = insertRange E L (s.map fun e => (mem, e)) t
  | [], t => rfl
  | (k, v) :: s, t => by
    simp only [each, insGroup, insertRange, List.map_cons]
    cases emplace L E false mem true k v t with
    | ok t1 u => exact each_group s t1
    | throw t1 => rfl
    | diverge => rfl
    | ub => rfl

theorem insertGroup_range {L : Layout} {mem : Bool} (s : List (K × V)) (t : Table K V) :
    insertGroup (insGroup E L mem) s t = (insertRangeMap E L (s.map fun e => (mem, e)) t).bind fun t _ => .ok t [] := by
  cases s with
  | nil => rfl
  | cons a s =>
    simp only [insertGroup, incr]
    rw [loopGroup_each, each_group]
    simp only [List.map_replicate, List.map_cons, insertRangeMap, List.map_map]
    congr 2
    show List.replicate (s.length + 1) (mem, a) = (mem, a) :: s.map fun _ => (mem, a)
    rw [List.replicate_succ, List.map_const']

theorem single_of_get {r : List (K × V)} {k : K} {v : V} (hE : E.Lawful) (hs : r.Sublist [(k, v)])
    (hg : ∀ q, Spec.get E.eq r q = Spec.get E.eq [(k, v)] q) : r = [(k, v)] := by
  cases hs with
  | cons _ h =>
    cases h
    have := hg k
    simp [Spec.get, hE.refl] at this
  | cons_cons _ h => cases h; rfl

end Lemmas

/-! ### C144 -/

section Claims
variable {K V : Type} {E : Env K} {sec : Nat → Nat}

/-- C144, robin (partial): `insert(first, last)` with the iterators of a stream reads each element once and inserts it; the stream is empty afterwards.
Missing: contents that do not fit (C31). -/
theorem C144_robin_insert_partial (hE : E.Lawful) {rv : Nat → Nat} (hrv : ∀ x, 256 ≤ rv x ∧ rv x ≤ 1024) {cs : List (Bool × Spec.Call K V)}
    {t : Robin.Map K V} (ht : Robin.Reached E rv cs t) (s : List (Bool × K × V))
    (hr : ∀ i, i ≤ s.length → Robin.Roomy E (Robin.insertAll E.eq (Robin.contents E.eq cs) ((s.take i).map (·.2)))) :
    (∃ t' r, insertStream (insRobin E) s t = .ok t' [] ∧ Robin.walk false t' = .ok r ∧ Spec.Distinct E.eq r ∧
      ∀ q, Spec.get E.eq r q = (Spec.get E.eq (Robin.contents E.eq cs) q).or (Spec.get E.eq (s.map (·.2)) q)) ∨
    (∃ t', insertStream (insRobin E) s t = .throw t') := by
  rw [insert_each, each_robin]
  rcases Robin.C113_insert_range_partial hE hrv ht s hr with ⟨t', r, h1, _, h2, h3, h4⟩ | ⟨_, _, _, _, _, _, t', _, _, _, _, h⟩
  · exact Or.inl ⟨t', r, by rw [h1]; rfl, h2, h3, h4⟩
  · exact Or.inr ⟨t', by rw [h]; rfl⟩

/-- C144, robin, violated: the range constructor with the iterators of a stream makes a map of the first element alone, whatever follows it. -/
theorem C144_robin_construct_first_only (hE : E.Lawful) (mem : Bool) (n : Nat) (m : Bool) (k : K) (v : V) (s : List (Bool × K × V))
    (hn : n < 2 ^ 47) (hs : s.length + 1 < 2 ^ 47) :
    (∃ t, construct (Robin.reserveForInsert false mem) (insRobin E) n ((m, k, v) :: s) = .ok t () ∧ Robin.walk false t = .ok [(k, v)]) ∨
    (∃ t, construct (Robin.reserveForInsert false mem) (insRobin E) n ((m, k, v) :: s) = .throw t) := by
  have hm : ∀ i, i ≤ [(m, k, v)].length → Robin.Roomy E (Robin.insertAll E.eq [] ((([(m, k, v)] : List (Bool × K × V)).take i).map (·.2))) := by
    intro i _
    apply Robin.roomy_five
    match i with
    | 0 => exact Nat.zero_le _
    | i + 1 => simp [Robin.insertAll, Spec.insert, Spec.get]
  have hf : construct (Robin.reserveForInsert false mem) (insRobin E) n ((m, k, v) :: s) =
      Robin.fromRange false false E mem (max n (s.length + 1)) [(m, k, v)] := by
    rw [construct_cons]
    unfold Robin.fromRange
    rw [show max (max n (s.length + 1)) ([(m, k, v)] : List (Bool × K × V)).length = max n (s.length + 1) by simp]
    congr 1
    funext t _
    exact each_robin _ t
  rw [hf]
  rcases Robin.C113_from_range_partial hE (rv := fun _ => 512) (by intro; decide) mem (max n (s.length + 1)) [(m, k, v)] (by omega) (by simp) hm with
    ⟨t, r, h1, h2, h3, h4, h5⟩ | h
  · refine Or.inl ⟨t, h1, ?_⟩
    obtain ⟨hR, hp⟩ := h2.reach hE (by intro; decide)
    have hw := Robin.walk_reach hR
    rw [hw]
    have : (Robin.entries t).Perm [(k, v)] := hp
    rw [List.perm_singleton.mp this]
  · exact Or.inr h

/-- C144, robin with the indirect layout (partial): see `C144_robin_insert_partial`. -/
theorem C144_indirect_insert_partial (hE : E.Lawful) {rv : Nat → Nat} (hrv : ∀ x, 256 ≤ rv x ∧ rv x ≤ 1024) {cs : List (Bool × Spec.Call K V)}
    {t : RobInd.Map K V} (ht : RobInd.Reached E rv cs t) (s : List (Bool × K × V))
    (hr : ∀ i, i ≤ s.length → RobInd.Room E (Robin.insertAll E.eq (Robin.contents E.eq cs) ((s.take i).map (·.2)))) :
    (∃ t' r0 r, insertStream (insRobInd E) s t = .ok t' [] ∧ RobInd.walk t = .ok r0 ∧ RobInd.walk t' = .ok (r0 ++ r) ∧ r.Sublist (s.map (·.2)) ∧
      ∀ q, Spec.get E.eq (r0 ++ r) q = (Spec.get E.eq (Robin.contents E.eq cs) q).or (Spec.get E.eq (s.map (·.2)) q)) ∨
    (∃ t', insertStream (insRobInd E) s t = .throw t') := by
  rw [insert_each, each_robInd]
  rcases RobInd.C113_insert_range_partial hE hrv ht s hr with ⟨t', r0, r, h1, _, h2, h3, h4, _, h5⟩ | ⟨_, _, _, _, _, _, t', _, _, _, _, h⟩
  · exact Or.inl ⟨t', r0, r, by rw [h1]; rfl, h2, h3, h4, h5⟩
  · exact Or.inr ⟨t', by rw [h]; rfl⟩

/-- C144, robin with the indirect layout, violated: the range constructor keeps the first element alone. -/
theorem C144_indirect_construct_first_only (hE : E.Lawful) (mem : Bool) (n : Nat) (m : Bool) (k : K) (v : V) (s : List (Bool × K × V))
    (hn : n < 2 ^ 47) (hs : s.length + 1 < 2 ^ 47) :
    (∃ t, construct (RobInd.reserveForInsert mem) (insRobInd E) n ((m, k, v) :: s) = .ok t () ∧ RobInd.walk t = .ok [(k, v)]) ∨
    (∃ t, construct (RobInd.reserveForInsert mem) (insRobInd E) n ((m, k, v) :: s) = .throw t) := by
  have hm : ∀ i, i ≤ [(m, k, v)].length → RobInd.Room E (Robin.insertAll E.eq [] ((([(m, k, v)] : List (Bool × K × V)).take i).map (·.2))) := by
    intro i _
    apply RobInd.room_five
    match i with
    | 0 => exact Nat.zero_le _
    | i + 1 => simp [Robin.insertAll, Spec.insert, Spec.get]
  have hf : construct (RobInd.reserveForInsert mem) (insRobInd E) n ((m, k, v) :: s) =
      RobInd.fromRange false E mem (max n (s.length + 1)) [(m, k, v)] := by
    rw [construct_cons]
    unfold RobInd.fromRange
    rw [show max (max n (s.length + 1)) ([(m, k, v)] : List (Bool × K × V)).length = max n (s.length + 1) by simp]
    congr 1
    funext t _
    exact each_robInd _ t
  rw [hf]
  rcases RobInd.C113_from_range_partial hE (rv := fun _ => 512) (by intro; decide) mem (max n (s.length + 1)) [(m, k, v)] (by omega) (by simp) hm with
    ⟨t, r, h1, _, h3, h4, _, h5⟩ | h
  · refine Or.inl ⟨t, h1, ?_⟩
    rw [h3, single_of_get hE h4 h5]
  · exact Or.inr h

/-- C144, robin16 (partial): `insert(first, last)` with the iterators of a stream.  Missing: as in C80. -/
theorem C144_robin16_insert_partial (hE : E.Lawful) {mem : Rob16.Mem} (hmem : mem ≠ .noSlots) (s : List (K × V)) {t : Rob16.Map K V}
    (hR : Rob16.Reach E sec t) (hk : ∀ e ∈ s, Rob16.TagOk E sec t e.1) (hS : Rob16.Spread E 129 (Rob16.cap t) (s ++ Rob16.entries t)) :
    (∃ t', insertStream (insRob16 E sec mem) s t = .ok t' [] ∧
      (Rob16.entries t').Perm (s.foldl (fun m e => Spec.insert E.eq m e.1 e.2) (Rob16.entries t))) ∨
    (∃ t', insertStream (insRob16 E sec mem) s t = .throw t') := by
  rw [insert_each, each_rob16]
  rcases Rob16.C90_insert_range_partial hE hmem s hR hk hS with ⟨t', h1, _, h2⟩ | ⟨t', _, _, h, _⟩
  · exact Or.inl ⟨t', by rw [h1]; rfl, h2⟩
  · exact Or.inr ⟨t', by rw [h]; rfl⟩

/-- C144, robin16, violated: a map that the range constructor makes with the iterators of a stream holds the first element alone (for a first key
whose control hash is not 0). -/
theorem C144_robin16_construct_first_only (hE : E.Lawful) {mem : Rob16.Mem} (hmem : mem ≠ .noSlots) (n : Nat) (e : K × V) (s : List (K × V))
    (hn : n < 2 ^ 44) (hs : s.length + 1 < 2 ^ 44) (hk : Rob16.tagOf E sec e.1 ≠ 0) {t : Rob16.Map K V}
    (hc : construct (fun c => Rob16.make mem (Rob16.minRequire (Rob16.blank : Rob16.Map K V) c)) (insRob16 E sec mem) n (e :: s) = .ok t ()) :
    Rob16.entries t = [e] := by
  have hf : construct (fun c => Rob16.make mem (Rob16.minRequire (Rob16.blank : Rob16.Map K V) c)) (insRob16 E sec mem) n (e :: s) =
      Rob16.ofList E sec mem (max n (s.length + 1)) [e] := by
    rw [construct_cons]
    unfold Rob16.ofList
    rw [show max (max n (s.length + 1)) [e].length = max n (s.length + 1) by simp]
    congr 1
    funext t _
    exact each_rob16 _ t
  rw [hf] at hc
  have h := (Rob16.C90_from_range_partial hE hmem (max n (s.length + 1)) [e] (by simp)
    (Or.inl (by intro x hx; rw [List.mem_singleton.mp hx]; exact hk)) (by omega) hc).2
  exact List.perm_singleton.mp h

/-- C144, flat16: `insert(first, last)` with the iterators of a stream. -/
theorem C144_flat16_insert (hE : E.Lawful) {mem : Flat.Mem} (hmem : mem ≠ .noSlots) (s : List (K × V)) {t : Flat.Map K V}
    (hR : Flat.Reach true E sec t) :
    (∃ t', insertStream (insFlat E sec mem) s t = .ok t' [] ∧
      (Flat.entries t').Perm (s.foldl (fun m e => Spec.insert E.eq m e.1 e.2) (Flat.entries t))) ∨
    (∃ t', insertStream (insFlat E sec mem) s t = .throw t') := by
  rw [insert_each, each_flat]
  rcases Flat.C75_insert_range hE hmem s hR with ⟨t', h1, _, h2⟩ | ⟨t', _, _, h, _⟩
  · exact Or.inl ⟨t', by rw [h1]; rfl, h2⟩
  · exact Or.inr ⟨t', by rw [h]; rfl⟩

/-- C144, flat16, violated: a map that the range constructor makes with the iterators of a stream holds the first element alone. -/
theorem C144_flat16_construct_first_only (hE : E.Lawful) {mem : Flat.Mem} (hmem : mem ≠ .noSlots) (n : Nat) (e : K × V) (s : List (K × V))
    {t : Flat.Map K V}
    (hc : construct (fun c => Flat.make mem (Flat.minRequire (Flat.blank : Flat.Map K V) c)) (insFlat E sec mem) n (e :: s) = .ok t ()) :
    Flat.entries t = [e] := by
  have hf : construct (fun c => Flat.make mem (Flat.minRequire (Flat.blank : Flat.Map K V) c)) (insFlat E sec mem) n (e :: s) =
      Flat.ofList E sec mem (max n (s.length + 1)) [e] := by
    rw [construct_cons]
    unfold Flat.ofList
    rw [show max (max n (s.length + 1)) [e].length = max n (s.length + 1) by simp]
    congr 1
    funext t _
    exact each_flat _ t
  rw [hf] at hc
  exact List.perm_singleton.mp (Flat.C75_from_range hE hmem (max n (s.length + 1)) [e] hc).2

/-- C144, group15 and group16, violated: `insert(first, last)` with the iterators of a stream reads the whole stream and inserts the first element
alone; the range constructors call it.  (It does so with all other iterators, too: C12, C48.) -/
theorem C144_group_insert_first_only (hE : E.Lawful) {mem : Bool} {e : K × V} {s r : List (K × V)} {t t' : Table K V} :
    (Reachable layout15 E walk15 t → insertGroup (insGroup E layout15 mem) (e :: s) t = .ok t' r →
      r = [] ∧ ∀ k, E.eq k e.1 = false → lookup layout15 E t' k = lookup layout15 E t k) ∧
    (∀ pad, Reachable layout16 E (walk16 pad) t → insertGroup (insGroup E layout16 mem) (e :: s) t = .ok t' r →
      r = [] ∧ ∀ k, E.eq k e.1 = false → lookup layout16 E t' k = lookup layout16 E t k) := by
  constructor
  · intro ht h
    rw [insertGroup_range] at h
    cases hx : insertRangeMap E layout15 ((e :: s).map fun e => (mem, e)) t with
    | ok t1 u =>
      rw [hx] at h
      cases h
      exact ⟨rfl, C12_map_insert_range_ignores_rest hE ht hx⟩
    | throw t1 => rw [hx] at h; cases h
    | diverge => rw [hx] at h; cases h
    | ub => rw [hx] at h; cases h
  · intro pad ht h
    rw [insertGroup_range] at h
    cases hx : insertRangeMap E layout16 ((e :: s).map fun e => (mem, e)) t with
    | ok t1 u =>
      rw [hx] at h
      cases h
      exact ⟨rfl, C48_map_insert_range_ignores_rest hE ht hx⟩
    | throw t1 => rw [hx] at h; cases h
    | diverge => rw [hx] at h; cases h
    | ub => rw [hx] at h; cases h

end Claims

/-! ### Examples -/

/-- C144: three elements are in the stream, one arrives in the map, which has room for all. -/
example : (match construct (Robin.reserveForInsert false true) (insRobin modEnv) 0 [(true, 7, 1), (true, 8, 2), (true, 9, 3)] with
    | .ok t _ => Robin.itemsAfter (.ok t ()) == some [(7, 1)] && t.size == 1
    | _ => false) = true := by decide +kernel

/-- C144: the insertion of the same stream into a map takes all three. -/
example : (match (Robin.reserveForInsert false true 0 : Out (Robin.Map Nat Nat) Unit) with
    | .ok t _ => (match insertStream (insRobin modEnv) [(true, 7, 1), (true, 8, 2), (true, 9, 3)] t with
      | .ok t r => Robin.itemsAfter (.ok t ()) == some [(8, 2), (9, 3), (7, 1)] && r.isEmpty
      | _ => false)
    | _ => false) = true := by decide +kernel

example : (match construct (RobInd.reserveForInsert true) (insRobInd modEnv) 0 [(true, 7, 1), (true, 8, 2), (true, 9, 3)] with
    | .ok t _ => RobInd.itemsAfter (.ok t ()) == some [(7, 1)]
    | _ => false) = true := by decide +kernel

example : (match construct (fun c => Rob16.make .ok (Rob16.minRequire (Rob16.blank : Rob16.Map Nat Nat) c)) (insRob16 (Robin.hashEnv id) Rob16.odd .ok) 0
      [(1, 1), (5, 2), (6, 3)] with
    | .ok t _ => Rob16.entries t == [(1, 1)]
    | _ => false) = true ∧ Rob16.tagOf (Robin.hashEnv id) Rob16.odd 1 ≠ 0 := by decide +kernel

example : (match construct (fun c => Flat.make .ok (Flat.minRequire (Flat.blank : Flat.Map Nat Nat) c)) (insFlat (Robin.hashEnv id) id .ok) 4
      [(1, 1), (2, 2), (3, 3)] with
    | .ok t _ => Flat.entries t == [(1, 1)]
    | _ => false) = true := by decide +kernel

example : (match insertGroup (insGroup idEnv layout15 true) [(1, 10), (2, 20), (3, 30)] (emptyTable layout15 224 : Table Nat Nat) with
    | .ok t r => t.size == 1 && r.isEmpty && (match lookup layout15 idEnv t 2 with | .ok none => true | _ => false)
    | _ => false) = true := by decide +kernel

end Verif.Stream
