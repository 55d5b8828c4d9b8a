/-
Allocators that are not all equal in programs with robin16 maps (C132): maps that are constructed with an allocator, moved, moved with an
allocator, swapped, used and destroyed.  Built on `Verif.Owners` with the class `robClass` of `Verif.Rob16Owners`.

R16 = `src/jstd/hashmap/robin16_hash_map.h`.

The map has four allocator members (R16:1296-1299).  `get_allocator()` returns `allocator_` (R16:1614-1616).  The array of slots is obtained from
and given back to `slot_allocator_` (R16:2221, 2367, 2461).  Every constructor but one gives the four members the same value; the move
constructor with an allocator stores the argument in `allocator_` only and takes the others, with the content, from the source
(R16:1406-1422).  `swap_policy` exchanges all members or none, since rebinding keeps the traits (R16:3610-3626).  The model has `pub`
for `allocator_` and `alc` for `slot_allocator_`.

Simplifications: there is no assignment and no copy (they cannot be instantiated).  The groups are obtained with `new[]` and not from an allocator
(R16:2350), the log has the allocator of the map with these events too; and events of elements are tagged with `slot_allocator_`,
though they are constructed through `allocator_` or `mutable_allocator_`.  The theorems therefore speak of blocks only, and the violation of a block with
elements in it.
-/
import Verif.AllocProp
import Verif.Rob16Owners

namespace Verif.Owners
open Verif
open Verif.Life

section
variable {α C New Op : Type}

/-- What a program does with robin16 maps. -/
inductive RAct (α New Op : Type)
  | make (i : Nat) (n : New) (a : α)
  | move (i j : Nat)
  | moveWith (i j : Nat) (a : α)
  | swap (i j : Nat)
  | call (i : Nat) (o : Op)
  | drop (i : Nat)

/-- The objects with the allocator that has their slots, and `allocator_` of each. -/
structure RWorld (C α : Type) where
  s : AWorld C α
  pub : Nat → α

/-- No objects. -/
def RWorld.start (a : α) : RWorld C α := ⟨AWorld.start a, fun _ => a⟩

/-- What happens to the slots and `slot_allocator_`: moving with an allocator is moving (R16:1406-1422 with 3595-3608). -/
def RAct.mem : RAct α New Op → AAct α New Empty Op
  | .make i n a => .make i n a
  | .move i j => .move i j
  | .moveWith i j _ => .move i j
  | .swap i j => .swap i j
  | .call i o => .call i o
  | .drop i => .drop i

/-- What happens to `allocator_` (R16:1314, 1334, 1398, 1416, 1437, 3614-3616). -/
def RAct.set (T : Traits α) (pub : Nat → α) : RAct α New Op → Nat → α
  | .make i _ a => upd pub i a
  | .move i j => upd pub i (pub j)
  | .moveWith i _ a => upd pub i a
  | .swap i j => if T.pocs then upd (upd pub i (pub j)) j (pub i) else pub
  | .call _ _ => pub
  | .drop _ => pub

variable (A : Class C New Empty Op) (T : Traits α)

/-- One action. -/
def stepR (x : RAct α New Op) (r : RWorld C α) : Res (RWorld C α) :=
  (stepA A T x.mem r.s).bind fun s' => .ok ⟨s', x.set T r.pub⟩

/-- A program. -/
def runR : List (RAct α New Op) → RWorld C α → Res (RWorld C α)
  | [], r => .ok r
  | x :: xs, r => (stepR A T x r).bind fun r' => runR xs r'

/-- The actions considered: names of new objects are free, and what the standard asks of the caller of `swap`: the results of `get_allocator()`
are equal unless allocators are swapped too. -/
def FitR (r : RWorld C α) : RAct α New Op → Prop
  | .make i n _ => r.s.w.own i = none ∧ A.fitNew n
  | .move i j => r.s.w.own i = none ∧ i ≠ j
  | .moveWith i j _ => r.s.w.own i = none ∧ i ≠ j
  | .swap i j => T.pocs = true ∨ T.same (r.pub i) (r.pub j) = true
  | .call i o => ∃ c, (r.s.w.own i).bind r.s.w.con = some c ∧ A.fit o c
  | .drop _ => True

/-- A map is moved only with an allocator that is equal to the one `get_allocator()` of the source returns. -/
def SameR (T : Traits α) (r : RWorld C α) : RAct α New Op → Prop
  | .moveWith _ j a => T.same a (r.pub j) = true
  | _ => True

/-- A property of all actions of a program. -/
def AlongR (P : RWorld C α → RAct α New Op → Prop) : List (RAct α New Op) → RWorld C α → Prop
  | [], _ => True
  | x :: xs, r => P r x ∧ ∀ r', stepR A T x r = .ok r' → AlongR P xs r'

/-- Every block is given back to an allocator equal to the one it was obtained from. -/
def BlocksFaithful (T : Traits α) (s : AWorld C α) : Prop :=
  ∀ a a' b n n', (a, Ev.alloc b n) ∈ s.log → (a', Ev.free b n') ∈ s.log → T.same a a' = true

/-- Blocks are obtained or given back. -/
def blockEv : Ev → Bool
  | .alloc _ _ => true
  | .free _ _ => true
  | _ => false

variable {A T}

theorem not_assign (x : RAct α New Op) : isAssign x.mem = false := by cases x <;> rfl

theorem not_temp (x : RAct α New Op) (y : Nat) : ¬ isTemp x.mem y := by cases x <;> exact fun h => h

/-- The invariant: the slots are in order, and if maps are moved only with equal allocators (`D`) `get_allocator()` says which allocator
they are from. -/
structure KeptR (D : Prop) (A : Class C New Empty Op) (T : Traits α) (r : RWorld C α) : Prop where
  kept : Kept A T r.s
  tell : D → ∀ i, T.same (r.pub i) (r.s.alc i) = true

variable {D : Prop}

theorem KeptR.start (hT : T.Lawful) (a : α) : KeptR D A T (RWorld.start a) := ⟨Kept.start a, fun _ _ => hT.refl a⟩

theorem KeptR.fit (hT : T.Lawful) (hD : T.pocs = true ∨ D) {r : RWorld C α} (h : KeptR D A T r) {x : RAct α New Op} (hf : FitR A T r x) : FitA A T r.s x.mem := by
  cases x with
  | swap i j =>
    rcases hD with hs | hD
    · exact Or.inl hs
    · have hs := h.tell hD
      rcases hf with hf | hf
      · exact Or.inl hf
      · exact Or.inr (hT.trans _ _ _ (hT.symm _ _ (hs i)) (hT.trans _ _ _ hf (hs j)))
  | _ => exact hf

theorem stepR_kept (hT : T.Lawful) (hD : T.pocs = true ∨ D) {r : RWorld C α} (h : KeptR D A T r) {x : RAct α New Op} (hf : FitR A T r x)
    (hx : D → SameR T r x) :
    ∃ r', stepR A T x r = .ok r' ∧ KeptR D A T r' ∧ r'.pub = x.set T r.pub := by
  obtain ⟨s', h1, h2, h3⟩ := stepA_kept hT h.kept (x := x.mem) (fun hc => by rw [not_assign] at hc; cases hc) (h.fit hT hD hf)
  refine ⟨⟨s', x.set T r.pub⟩, by unfold stepR; rw [h1]; rfl, ⟨h2, ?_⟩, rfl⟩
  intro hd i
  have hs := h.tell hd
  have hx := hx hd
  refine hT.trans _ _ _ ?_ (hT.symm _ _ (h3 i (not_temp x i)))
  have hup : ∀ {f g : Nat → α} {a b : α} (j : Nat), (∀ i, T.same (f i) (g i) = true) → T.same a b = true →
      ∀ i, T.same (upd f j a i) (upd g j b i) = true := by
    intro f g a b j hfg hab i
    by_cases hij : i = j
    · rw [hij, upd_self, upd_self]; exact hab
    · rw [upd_other _ _ hij, upd_other _ _ hij]; exact hfg i
  cases x with
  | make j n a => exact hup j hs (hT.refl a) i
  | move j k => exact hup j hs (hs k) i
  | moveWith j k a => exact hup j hs (hT.trans _ _ _ hx (hs k)) i
  | swap j k =>
    show T.same ((if T.pocs then _ else _ : Nat → α) i) ((if T.pocs then _ else _ : Nat → α) i) = true
    split
    · exact hup k (hup j hs (hs k)) (hs j) i
    · exact hs i
  | call j o => exact hs i
  | drop j => exact hs i

theorem runR_kept (hT : T.Lawful) (hD : T.pocs = true ∨ D) : ∀ (xs : List (RAct α New Op)) {r : RWorld C α}, KeptR D A T r →
    AlongR A T (FitR A T) xs r → (D → AlongR A T (SameR T) xs r) → ∃ r', runR A T xs r = .ok r' ∧ KeptR D A T r' := by
  intro xs
  induction xs with
  | nil => intro r h _ _; exact ⟨r, rfl, h⟩
  | cons x xs ih =>
    intro r h hf hx
    obtain ⟨r1, h1, h2, -⟩ := stepR_kept hT hD h hf.1 (fun d => (hx d).1)
    obtain ⟨r2, g1, g2⟩ := ih h2 (hf.2 r1 h1) (fun d => (hx d).2 r1 h1)
    exact ⟨r2, by unfold runR; rw [h1]; exact g1, g2⟩

theorem Kept.blocks (hT : T.Lawful) {s : AWorld C α} (h : Kept A T s) : BlocksFaithful T s :=
  fun _ _ _ _ _ h1 h2 => h.faithful hT _ _ _ _ h1 h2 rfl

/-- The state after a map was moved, for classes whose objects have no content then. -/
theorem moveWith_eq (hl : A.left = none) {r : RWorld C α} {i j : Nat} {a : α} (h1 : r.s.w.own i = none) :
    stepR A T (.moveWith i j a) r =
      .ok ⟨⟨{ r.s.w with own := upd (upd r.s.w.own i (r.s.w.own j)) j none }, upd r.s.alc i (r.s.alc j), r.s.log⟩, upd r.pub i a⟩ := by
  simp only [stepR, RAct.mem, stepA, moveA, prim, Owners.step, h1, Option.isSome_none, Bool.false_eq_true, if_false, hl, Res.bind_ok]
  rw [by_quiet _ (by rfl)]
  rfl

/-- Events of a call. -/
theorem call_by {r r' : RWorld C α} {i : Nat} {o : Op} (h : stepR A T (.call i o) r = .ok r') :
    ∃ l : List Ev, r'.s.log = r.s.log ++ l.map (fun e => (r.s.alc i, e)) ∧ r'.s.alc = r.s.alc ∧ r'.pub = r.pub := by
  simp only [stepR, RAct.mem, stepA, prim] at h
  cases hs : Owners.step A (.call i o) r.s.w with
  | ok w =>
    rw [hs] at h
    simp only [Res.bind_ok] at h
    cases h
    exact ⟨_, rfl, rfl, rfl⟩
  | _ => rw [hs] at h; cases h

theorem drop_by {r r' : RWorld C α} {i : Nat} (h : stepR A T (.drop i) r = .ok r') :
    ∃ l : List Ev, r'.s.log = r.s.log ++ l.map (fun e => (r.s.alc i, e)) ∧ r'.s.alc = r.s.alc ∧ r'.pub = r.pub := by
  simp only [stepR, RAct.mem, stepA, dropA, prim] at h
  cases hs : Owners.step A (.drop i) r.s.w with
  | ok w =>
    rw [hs] at h
    simp only [Res.bind_ok] at h
    cases h
    exact ⟨_, rfl, rfl, rfl⟩
  | _ => rw [hs] at h; cases h

/-- Calls of one object. -/
theorem calls_by {i : Nat} : ∀ (os : List Op) {r r' : RWorld C α}, runR A T (os.map fun o => RAct.call i o) r = .ok r' →
    ∃ l : List Ev, r'.s.log = r.s.log ++ l.map (fun e => (r.s.alc i, e)) ∧ r'.s.alc = r.s.alc ∧ r'.pub = r.pub := by
  intro os
  induction os with
  | nil => intro r r' h; cases h; exact ⟨[], by simp, rfl, rfl⟩
  | cons o os ih =>
    intro r r' h
    rw [List.map_cons, runR] at h
    cases hs : stepR A T (.call i o) r with
    | ok r1 =>
      rw [hs] at h
      obtain ⟨l1, q1, q2, q3⟩ := call_by hs
      obtain ⟨l2, p1, p2, p3⟩ := ih (r := r1) h
      exact ⟨l1 ++ l2, by rw [p1, q1, q2, List.map_append, List.append_assoc], p2.trans q2, p3.trans q3⟩
    | _ => rw [hs] at h; cases h

/-- A block with an element in it that the content holds was obtained in the program. -/
theorem held_block {s : AWorld C α} (hT : T.Lawful) (h : Kept A T s) {i k : Nat} {c : C} (hk : s.w.own i = some k) (hc : s.w.con k = some c)
    (hn : A.size c ≠ 0) : ∃ x b n p, T.same x (s.alc i) = true ∧ (x, Ev.alloc (Nat.pair k b) n) ∈ s.log ∧
      (∃ y, (y, Ev.ctor (Nat.pair k b) p) ∈ s.log) ∧ Ev.free b n ∈ A.drop c := by
  obtain ⟨g, h1, h2⟩ := A.run c (h.sound.good k c hc)
  have h3 := A.dropped c (h.sound.good k c hc)
  rw [Life.run_append, h1] at h3
  have h3 : Heap.run (A.drop c) g = some Heap.empty := h3
  obtain ⟨o, ho⟩ : ∃ o, o ∈ g.live := by
    cases hl : g.live with
    | nil => rw [hl] at h2; exact absurd h2.symm hn
    | cons o l => exact ⟨o, List.mem_cons_self⟩
  obtain ⟨n, hb⟩ := live_held _ (g := Heap.empty) (fun o ho => (by cases ho)) h1 o ho
  obtain ⟨hh, r1, r2⟩ := h.sound.heap
  have hlt := h.sound.num k (by rw [hc]; rfl)
  have hpart : part A s.w k = g.ren (Nat.pair k) := by unfold part; simp only [hc, h1, Option.getD_some]
  have hb2 : (Nat.pair k o.1, n) ∈ hh.blocks := by
    refine r2.blocks.mem_iff.mpr (List.mem_flatMap.mpr ⟨k, List.mem_range.mpr hlt, ?_⟩)
    rw [hpart]
    exact List.mem_map.mpr ⟨(o.1, n), hb, rfl⟩
  have hl2 : (Nat.pair k o.1, o.2) ∈ hh.live := by
    refine r2.live.mem_iff.mpr (List.mem_flatMap.mpr ⟨k, List.mem_range.mpr hlt, ?_⟩)
    rw [hpart]
    exact List.mem_map.mpr ⟨o, ho, rfl⟩
  have ha : Ev.alloc (Nat.pair k o.1) n ∈ s.w.log := by
    have := Life.balance_block (Nat.pair k o.1) n _ _ _ r1
    have hc : 0 < hh.blocks.count (Nat.pair k o.1, n) := List.count_pos_iff.mpr hb2
    apply List.count_pos_iff.mp
    simp only [Heap.empty, List.count_nil] at this
    omega
  have hct : Ev.ctor (Nat.pair k o.1) o.2 ∈ s.w.log := by
    have := Life.balance_obj (Nat.pair k o.1) o.2 _ _ _ List.nodup_nil r1
    have hc : 0 < hh.live.count (Nat.pair k o.1, o.2) := List.count_pos_iff.mpr hl2
    apply List.count_pos_iff.mp
    simp only [Heap.empty, List.count_nil] at this
    omega
  have hfree : Ev.free o.1 n ∈ A.drop c := by
    have hc : 0 < g.blocks.count (o.1, n) := List.count_pos_iff.mpr hb
    have := Life.balance_block o.1 n _ _ _ h3
    apply List.count_pos_iff.mp
    simp only [Heap.empty, List.count_nil] at this
    omega
  rw [← h.tags, List.mem_map] at ha hct
  obtain ⟨⟨x, e⟩, hx, he⟩ := ha
  obtain ⟨⟨y, e'⟩, hy, he'⟩ := hct
  simp only at he he'
  subst he he'
  obtain ⟨org, o1, o2⟩ := h.org
  obtain ⟨k', y', -, q1, q2⟩ := o1 x _ hx
  have : k = k' := (Nat.pair_eq_pair.mp q1).1
  subst this
  exact ⟨x, o.1, n, o.2, hT.trans _ _ _ q2 (hT.symm _ _ (o2 i k hk)), hx, ⟨y, hy⟩, hfree⟩

/-- A map moved with an allocator, swapped with a new map that has this allocator: the slots are given back to it. -/
theorem moveWith_wrong (hT : T.Lawful) (hl : A.left = none) (hq : T.pocs = false) {r : RWorld C α} (h : Kept A T r.s) {i j m k : Nat} {c : C} {n : New}
    {a : α} (hi : r.s.w.own i = none) (hm : r.s.w.own m = none) (hij : i ≠ j) (hmi : m ≠ i) (hmj : m ≠ j) (hk : r.s.w.own j = some k)
    (hc : r.s.w.con k = some c) (hz : A.size c ≠ 0) (hn : A.fitNew n) :
    AlongR A T (FitR A T) [.moveWith i j a, .make m n a, .swap i m, .drop m] r ∧
    ∃ r', runR A T [.moveWith i j a, .make m n a, .swap i m, .drop m] r = .ok r' ∧
      ∃ x b n p, T.same x (r.s.alc j) = true ∧ (x, Ev.alloc b n) ∈ r'.s.log ∧ (∃ y, (y, Ev.ctor b p) ∈ r'.s.log) ∧ (a, Ev.free b n) ∈ r'.s.log := by
  obtain ⟨r1, hr1⟩ : ∃ r1, r1 = (⟨⟨{ r.s.w with own := upd (upd r.s.w.own i (r.s.w.own j)) j none }, upd r.s.alc i (r.s.alc j), r.s.log⟩,
    upd r.pub i a⟩ : RWorld C α) := ⟨_, rfl⟩
  have e1 : stepR A T (.moveWith i j a) r = .ok r1 := by rw [hr1]; exact moveWith_eq hl hi
  have k1 : Kept A T r1.s := by
    obtain ⟨s', q1, q2, -⟩ := stepA_kept hT h (x := AAct.move i j) (fun hc => by cases hc) ⟨hi, hij⟩
    have e2 : (stepA A T (AAct.move i j) r.s).bind (fun s' => Res.ok (⟨s', upd r.pub i a⟩ : RWorld C α)) = .ok r1 := e1
    rw [q1] at e2
    have : (⟨s', upd r.pub i a⟩ : RWorld C α) = r1 := Res.ok.inj e2
    rw [← this]; exact q2
  have o1 : r1.s.w.own i = some k := by
    rw [hr1]; show upd _ _ _ _ = _; rw [upd_other _ _ hij, upd_self, hk]
  have o2 : r1.s.w.own m = none := by
    rw [hr1]; show upd _ _ _ _ = _; rw [upd_other _ _ hmj, upd_other _ _ hmi, hm]
  have c1 : r1.s.w.con k = some c := by rw [hr1]; exact hc
  have a1 : r1.s.alc i = r.s.alc j := by rw [hr1]; exact upd_self _ _ _
  have p1 : r1.pub i = a := by rw [hr1]; exact upd_self _ _ _
  obtain ⟨d, d1, d2⟩ := A.made n hn
  obtain ⟨r2, hr2⟩ : ∃ r2, r2 = (⟨(r1.s.by a (r1.s.w.add A m d)).setAlc m a, upd r1.pub m a⟩ : RWorld C α) := ⟨_, rfl⟩
  have e2 : stepR A T (.make m n a) r1 = .ok r2 := by
    rw [hr2]
    simp only [stepR, RAct.mem, stepA, makeA, prim, Owners.step, o2, d1, Option.isSome_none, Bool.false_eq_true, if_false, Res.bind_ok, RAct.set]
  have k2 : Kept A T r2.s := by rw [hr2]; exact k1.add hT o2 d2 a
  have hlt := k1.sound.num k (by rw [c1]; rfl)
  have o3 : r2.s.w.own i = some k := by
    rw [hr2]; show upd r1.s.w.own m _ i = _; rw [upd_other _ _ (Ne.symm hmi), o1]
  have c3 : r2.s.w.con k = some c := by
    rw [hr2]; show upd r1.s.w.con _ _ k = _; rw [upd_other _ _ (Nat.ne_of_lt hlt), c1]
  have a3 : r2.s.alc i = r.s.alc j := by
    rw [hr2]; show upd r1.s.alc m a i = _; rw [upd_other _ _ (Ne.symm hmi), a1]
  have a4 : r2.s.alc m = a := by rw [hr2]; exact upd_self _ _ _
  have p3 : r2.pub i = a := by rw [hr2]; show upd r1.pub m a i = _; rw [upd_other _ _ (Ne.symm hmi), p1]
  have p4 : r2.pub m = a := by rw [hr2]; exact upd_self _ _ _
  obtain ⟨x, b, n', p, b1, b2, b3, b4⟩ := held_block hT k2 o3 c3 hz
  obtain ⟨r3, hr3⟩ : ∃ r3, r3 = (⟨⟨{ r2.s.w with own := upd (upd r2.s.w.own i (r2.s.w.own m)) m (r2.s.w.own i) }, r2.s.alc, r2.s.log⟩,
    r2.pub⟩ : RWorld C α) := ⟨_, rfl⟩
  have e3 : stepR A T (.swap i m) r2 = .ok r3 := by
    rw [hr3]
    simp only [stepR, RAct.mem, stepA, swapA_eq, swapped, hq, RAct.set, Res.bind_ok, Bool.false_eq_true, if_false]
  have o5 : r3.s.w.own m = some k := by rw [hr3]; show upd _ _ _ _ = _; rw [upd_self, o3]
  have c5 : r3.s.w.con k = some c := by rw [hr3]; exact c3
  have a5 : r3.s.alc m = a := by rw [hr3]; exact a4
  have l5 : r3.s.log = r2.s.log := by rw [hr3]
  obtain ⟨s4, hd, hs4⟩ : ∃ s4, dropA A m r3.s = .ok s4 ∧
      s4.log = r3.s.log ++ ((A.drop c).map (Ev.ren (Nat.pair k))).map fun e => (r3.s.alc m, e) := ⟨_, dropA_eq o5 c5, rfl⟩
  have e4 : stepR A T (.drop m) r3 = .ok ⟨s4, r3.pub⟩ := by
    simp only [stepR, RAct.mem, stepA, hd, Res.bind_ok, RAct.set]
  refine ⟨⟨⟨hi, hij⟩, fun r' hr => ?_⟩, ⟨s4, r3.pub⟩, ?_, x, Nat.pair k b, n', p, by rw [← a3]; exact b1, ?_, ?_, ?_⟩
  · rw [e1] at hr; cases Res.ok.inj hr
    refine ⟨⟨o2, hn⟩, fun r' hr => ?_⟩
    rw [e2] at hr; cases Res.ok.inj hr
    exact ⟨Or.inr (by rw [p3, p4]; exact hT.refl a), fun r' _ => ⟨trivial, fun _ _ => trivial⟩⟩
  · simp only [runR, e1, e2, e3, e4, Res.bind_ok]
  · rw [hs4]; exact List.mem_append_left _ (l5 ▸ b2)
  · obtain ⟨y, hy⟩ := b3
    exact ⟨y, by rw [hs4]; exact List.mem_append_left _ (l5 ▸ hy)⟩
  · rw [hs4]
    apply List.mem_append_right
    rw [a5]
    exact List.mem_map.mpr ⟨_, List.mem_map.mpr ⟨_, b4, rfl⟩, rfl⟩

/-! ### A test for programs, used in examples -/

/-- A sufficient test for `FitR` and `SameR`. -/
def fitRB (T : Traits α) (tN : New → Bool) (tO : Op → C → Bool) (r : RWorld C α) : RAct α New Op → Bool
  | .make i n _ => (r.s.w.own i).isNone && tN n
  | .move i j => (r.s.w.own i).isNone && decide (i ≠ j)
  | .moveWith i j a => (r.s.w.own i).isNone && decide (i ≠ j) && (T.pocs || T.same a (r.pub j))
  | .swap i j => T.pocs || T.same (r.pub i) (r.pub j)
  | .call i o => match (r.s.w.own i).bind r.s.w.con with | none => false | some c => tO o c
  | .drop _ => true

/-- The test for programs. -/
def progRB (A : Class C New Empty Op) (T : Traits α) (tN : New → Bool) (tO : Op → C → Bool) : List (RAct α New Op) → RWorld C α → Bool
  | [], _ => true
  | x :: xs, r => fitRB T tN tO r x && (match stepR A T x r with | .ok r' => progRB A T tN tO xs r' | _ => true)

theorem progRB_sound {tN : New → Bool} {tO : Op → C → Bool} (hN : ∀ n, tN n = true → A.fitNew n) (hO : ∀ o c, tO o c = true → A.fit o c) :
    ∀ (xs : List (RAct α New Op)) (r : RWorld C α), progRB A T tN tO xs r = true →
      AlongR A T (FitR A T) xs r ∧ (T.pocs = true ∨ AlongR A T (SameR T) xs r) := by
  intro xs
  induction xs with
  | nil => intro r _; exact ⟨trivial, Or.inr trivial⟩
  | cons x xs ih =>
    intro r h
    unfold progRB at h
    rw [Bool.and_eq_true] at h
    have hnext : ∀ r', stepR A T x r = .ok r' → AlongR A T (FitR A T) xs r' ∧ (T.pocs = true ∨ AlongR A T (SameR T) xs r') := by
      intro r' hr
      have h2 := h.2
      rw [hr] at h2
      exact ih r' h2
    have hfit : FitR A T r x ∧ (T.pocs = true ∨ SameR T r x) := by
      have h1 := h.1
      cases x with
      | make i n a =>
        simp only [fitRB, Bool.and_eq_true, Option.isNone_iff_eq_none] at h1
        exact ⟨⟨h1.1, hN _ h1.2⟩, Or.inr trivial⟩
      | move i j =>
        rw [fitRB, Bool.and_eq_true, Option.isNone_iff_eq_none, decide_eq_true_eq] at h1
        exact ⟨h1, Or.inr trivial⟩
      | moveWith i j a =>
        rw [fitRB, Bool.and_eq_true, Bool.and_eq_true, Option.isNone_iff_eq_none, decide_eq_true_eq, Bool.or_eq_true] at h1
        exact ⟨h1.1, h1.2⟩
      | swap i j =>
        rw [fitRB, Bool.or_eq_true] at h1
        exact ⟨h1, Or.inr trivial⟩
      | call i o =>
        rw [fitRB] at h1
        split at h1
        · cases h1
        · rename_i c hc; exact ⟨⟨c, hc, hO _ _ h1⟩, Or.inr trivial⟩
      | drop i => exact ⟨trivial, Or.inr trivial⟩
    refine ⟨⟨hfit.1, fun r' hr => (hnext r' hr).1⟩, ?_⟩
    cases hp : T.pocs with
    | true => exact Or.inl rfl
    | false =>
      have e : ∀ {P : Prop}, (T.pocs = true ∨ P) → P := fun h => h.resolve_left (by rw [hp]; simp)
      exact Or.inr ⟨e hfit.2, fun r' hr => e (hnext r' hr).2⟩

end
end Verif.Owners

namespace Verif.Rob16.Track
open Verif
open Verif.Spec (Call)
open Verif.Life (Ev)
open Verif.Owners (RAct RWorld Traits runR stepR FitR SameR AlongR BlocksFaithful Clean blockEv)

variable {α K V : Type} {md : Mode} {E : Env K} {sec : Nat → Nat}

/-- C132 (partial), robin16: in a program with any number of maps, each with an allocator of its own, every block of slots is given back once
and to an allocator equal to the one it was obtained from, and each element is destroyed once — if allocators are swapped with the maps, or maps are
moved only with allocators equal to their own.  In the second case `get_allocator()` is equal to the allocator that has the slots.
Missing: programs that move a map with an unequal allocator, where it is false (`C132_robin16_swap_wrong_allocator`); exceptions in
constructors. -/
theorem C132_robin16_partial (hE : E.Lawful) {rv : Nat → Nat} (hrv : ∀ x, 81920 ≤ rv x ∧ rv x ≤ 327680) {T : Traits α} (hT : T.Lawful) (a : α)
    {xs : List (RAct α (New K V) (Mem × Call K V))}
    (hf : AlongR (robClass md E sec hE rv hrv) T (FitR (robClass md E sec hE rv hrv) T) xs (RWorld.start a))
    (hs : T.pocs = true ∨ AlongR (robClass md E sec hE rv hrv) T (SameR T) xs (RWorld.start a)) :
    ∃ r, runR (robClass md E sec hE rv hrv) T xs (RWorld.start a) = .ok r ∧ Clean (robClass md E sec hE rv hrv) r.s.w ∧
      r.s.log.map Prod.snd = r.s.w.log ∧ BlocksFaithful T r.s ∧
      (AlongR (robClass md E sec hE rv hrv) T (SameR T) xs (RWorld.start a) → ∀ i, T.same (r.pub i) (r.s.alc i) = true) := by
  obtain ⟨r, h1, h2⟩ := Owners.runR_kept hT hs xs (Owners.KeptR.start hT a) hf id
  exact ⟨r, h1, h2.kept.sound.clean, h2.kept.tags, h2.kept.blocks hT, h2.tell⟩

/-- C132, a violation: a map moved with an allocator says it has this allocator; but every block that calls and the destructor obtain and
give back later is handled by the allocator of the source, so that an allocator that is not equal to it is never used. -/
theorem C132_robin16_move_with (hE : E.Lawful) {rv : Nat → Nat} (hrv : ∀ x, 81920 ≤ rv x ∧ rv x ≤ 327680) {T : Traits α}
    {r : RWorld (LT K V) α} {i j : Nat} {a : α} (hi : r.s.w.own i = none) (hne : T.same (r.s.alc j) a = false) :
    ∃ r1, stepR (robClass md E sec hE rv hrv) T (.moveWith i j a) r = .ok r1 ∧ r1.pub i = a ∧
      ∀ (os : List (Mem × Call K V)) (fin : Bool) r2,
        runR (robClass md E sec hE rv hrv) T (os.map (fun o => RAct.call i o) ++ if fin then [.drop i] else []) r1 = .ok r2 →
        r2.pub i = a ∧ ∃ l, r2.s.log = r1.s.log ++ l ∧ ∀ x e, (x, e) ∈ l → blockEv e = true → x = r.s.alc j ∧ T.same x a = false := by
  obtain ⟨r1, h0, ha, hp⟩ : ∃ r1, stepR (robClass md E sec hE rv hrv) T (.moveWith i j a) r = .ok r1 ∧ r1.s.alc i = r.s.alc j ∧ r1.pub i = a :=
    ⟨_, Owners.moveWith_eq rfl hi, upd_self _ _ _, upd_self _ _ _⟩
  refine ⟨r1, h0, hp, ?_⟩
  intro os fin r2 h
  have hrun : ∀ (xs ys : List (RAct α (New K V) (Mem × Call K V))) r, runR (robClass md E sec hE rv hrv) T (xs ++ ys) r =
      (runR (robClass md E sec hE rv hrv) T xs r).bind fun r' => runR (robClass md E sec hE rv hrv) T ys r' := by
    intro xs ys
    induction xs with
    | nil => intro r; rfl
    | cons x xs ih =>
      intro r
      rw [List.cons_append, runR, runR]
      cases stepR (robClass md E sec hE rv hrv) T x r with
      | ok r' => exact ih r'
      | _ => rfl
  rw [hrun] at h
  cases hm : runR (robClass md E sec hE rv hrv) T (os.map fun o => RAct.call i o) r1 with
  | ok r' =>
    rw [hm] at h
    obtain ⟨l, q1, q2, q3⟩ := Owners.calls_by os hm
    have hall : ∀ (l : List Ev) x e, (x, e) ∈ l.map (fun e => (r.s.alc j, e)) → blockEv e = true → x = r.s.alc j ∧ T.same x a = false := by
      intro l x e he _
      obtain ⟨y, -, hy⟩ := List.mem_map.mp he
      cases hy
      exact ⟨rfl, hne⟩
    cases fin with
    | false =>
      have h' : Res.ok r' = Res.ok r2 := h
      cases Res.ok.inj h'
      exact ⟨by rw [q3, hp], _, q1, by rw [ha]; exact hall l⟩
    | true =>
      have h' : (stepR (robClass md E sec hE rv hrv) T (.drop i) r').bind (fun x => Res.ok x) = Res.ok r2 := h
      cases hd : stepR (robClass md E sec hE rv hrv) T (.drop i) r' with
      | ok r3 =>
        rw [hd] at h'
        cases Res.ok.inj h'
        obtain ⟨l2, p1, p2, p3⟩ := Owners.drop_by hd
        refine ⟨by rw [p3, q3, hp], (l ++ l2).map (fun e => (r.s.alc j, e)), ?_, hall _⟩
        rw [p1, q1, q2, ha, List.map_append, List.append_assoc]
      | _ => rw [hd] at h'; cases h'
  | _ => rw [hm] at h; cases h

/-- C132, a violation: with allocators that are not swapped, a map with elements is moved with an unequal allocator and then swapped with a
new map for which `get_allocator()` is the same, as the standard permits.  The destructor of the new map gives the slots, which are from the
allocator of the source, back to the other one. -/
theorem C132_robin16_swap_wrong_allocator (hE : E.Lawful) {rv : Nat → Nat} (hrv : ∀ x, 81920 ≤ rv x ∧ rv x ≤ 327680) {T : Traits α}
    (hT : T.Lawful) (hq : T.pocs = false) (a0 : α) {xs : List (RAct α (New K V) (Mem × Call K V))}
    (hf : AlongR (robClass md E sec hE rv hrv) T (FitR (robClass md E sec hE rv hrv) T) xs (RWorld.start a0))
    (hs : AlongR (robClass md E sec hE rv hrv) T (SameR T) xs (RWorld.start a0)) {r : RWorld (LT K V) α}
    (hr : runR (robClass md E sec hE rv hrv) T xs (RWorld.start a0) = .ok r) {i j m k : Nat} {c : LT K V} {n : New K V} {a : α}
    (hi : r.s.w.own i = none) (hm : r.s.w.own m = none) (hij : i ≠ j) (hmi : m ≠ i) (hmj : m ≠ j) (hk : r.s.w.own j = some k)
    (hc : r.s.w.con k = some c) (hz : c.t.size ≠ 0) (hn : (robClass md E sec hE rv hrv).fitNew n) (hne : T.same (r.pub j) a = false) :
    AlongR (robClass md E sec hE rv hrv) T (FitR (robClass md E sec hE rv hrv) T) [.moveWith i j a, .make m n a, .swap i m, .drop m] r ∧
    ∃ r', runR (robClass md E sec hE rv hrv) T [.moveWith i j a, .make m n a, .swap i m, .drop m] r = .ok r' ∧
      (∃ x b n p, T.same x (r.pub j) = true ∧ (x, Ev.alloc b n) ∈ r'.s.log ∧ (∃ y, (y, Ev.ctor b p) ∈ r'.s.log) ∧
        (a, Ev.free b n) ∈ r'.s.log) ∧ ¬ BlocksFaithful T r'.s := by
  obtain ⟨r0, h1, h2⟩ := Owners.runR_kept hT (Or.inr trivial) xs (Owners.KeptR.start hT a0) hf (fun _ => hs)
  rw [hr] at h1
  cases Res.ok.inj h1
  obtain ⟨g1, r', g2, x, b, n', p, g3, g4, g5, g6⟩ := Owners.moveWith_wrong hT rfl hq h2.kept hi hm hij hmi hmj hk hc hz hn (a := a)
  have hsay : T.same (r.pub j) (r.s.alc j) = true := h2.tell trivial j
  have hx : T.same x (r.pub j) = true := hT.trans _ _ _ g3 (hT.symm _ _ hsay)
  refine ⟨g1, r', g2, ⟨x, b, n', p, hx, g4, g5, g6⟩, fun hb => ?_⟩
  have := hT.trans _ _ _ (hT.symm _ _ hx) (hb x a b n' n' g4 g6)
  rw [hne] at this
  cases this

/-! ### Examples -/

open Verif.Life (resources resources_lawful)
open Verif.Robin (hashEnv hashEnv_lawful)

/-- Two maps with allocators 1 and 2. -/
def rtwo : List (RAct Nat (New Nat Nat) (Mem × Call Nat Nat)) :=
  [.make 0 (.empty .ok 4) 1, .call 0 (.ok, .insert 3 1), .call 0 (.ok, .insert 64 2), .make 1 (.range .ok 0 [(7, 7), (8, 8), (7, 9)]) 2]

/-- The same, moves with equal allocators, and the end of all maps. -/
def rmany : List (RAct Nat (New Nat Nat) (Mem × Call Nat Nat)) :=
  rtwo ++ [.moveWith 2 1 2, .call 2 (.ok, .reserve 20), .move 3 0, .call 3 (.ok, .insert 9 9), .make 4 (.empty .ok 4) 1, .swap 3 4,
    .call 4 (.ok, .erase 64), .drop 0, .drop 1, .drop 2, .drop 3, .drop 4]

set_option maxRecDepth 100000 in
/-- A program for `C132_robin16_partial`. -/
example : ∃ r, runR (natClass .tmp) (resources false false false) rmany (RWorld.start 0) = .ok r ∧ Clean (natClass .tmp) r.s.w ∧
    r.s.log.map Prod.snd = r.s.w.log ∧ BlocksFaithful (resources false false false) r.s ∧
    ∀ i, (resources false false false).same (r.pub i) (r.s.alc i) = true := by
  have h := Owners.progRB_sound (A := natClass .tmp) (T := resources false false false) (tN := newB .tmp) (tO := callB)
    newB_sound callB_sound rmany (RWorld.start 0) (by decide +kernel)
  obtain ⟨r, h1, h2, h3, h4, h5⟩ := C132_robin16_partial (hashEnv_lawful id) _ (resources_lawful _ _ _) 0 h.1 h.2
  exact ⟨r, h1, h2, h3, h4, h5 (h.2.resolve_left (by simp [resources]))⟩

/-- What the maps 2 and 4 say, and whether a block is given back to another allocator than the one it is from. -/
def rverdict (T : Traits Nat) (xs : List (RAct Nat (New Nat Nat) (Mem × Call Nat Nat))) : Option (Nat × Nat × Bool) :=
  match runR (natClass .tmp) T xs (RWorld.start 0) with
  | .ok r => some (r.pub 2, r.pub 4, r.s.log.any fun x => r.s.log.any fun y => x.2.name == y.2.name && x.1 != y.1)
  | _ => none

set_option maxRecDepth 100000 in
/-- `C132_robin16_move_with` and `C132_robin16_swap_wrong_allocator`: a map of two elements with allocator 1 is moved with allocator 5. -/
example : rverdict (resources false false false) (rtwo ++ [.moveWith 2 0 5, .call 2 (.ok, .reserve 20)]) = some (5, 0, false) ∧
    rverdict (resources false false false) (rtwo ++ [.moveWith 2 0 5, .make 4 (.empty .ok 4) 5, .swap 2 4, .drop 4]) = some (5, 5, true) ∧
    rverdict (resources false false true) (rtwo ++ [.moveWith 2 0 5, .make 4 (.empty .ok 4) 5, .swap 2 4, .drop 4]) = some (5, 5, false) := by
  decide +kernel

end Verif.Rob16.Track
