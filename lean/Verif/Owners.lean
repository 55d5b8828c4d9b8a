/-
Programs with any number of map objects of one class, that are constructed, copied, moved, swapped, used and destroyed in any
order (C130).  Generic part: what a class has to provide, and what follows for the whole program.  The instances are in
`Verif.FlatCopyLife`, `Verif.Rob16CopyLife` and `Verif.GroupOwners`.

FL = `src/jstd/hashmap/flat16_hash_map.h`, T15 = `src/jstd/hashmap/group15_flat_table.hpp`.

A map object owns a content (the blocks its pointers lead to) or nothing (null pointers).  The log of each content is kept
with block numbers of its own; in the log of the program block `b` of content `k` is called `Nat.pair k b`.
-/
import Mathlib.Data.Nat.Pairing
import Verif.CopyLife

namespace Verif.Owners
open Verif
open Verif.Life

/-- A class of map objects.  `make` is a constructor, `copy` the copy constructor, `act` a member function; after an exception
in a member function the program goes on, so the outcome is the content then.  `left` is what the move constructor leaves
behind: null pointers, or a content without blocks.  `fitNew`, `fitCopy` and `fit` say for which
arguments the laws are known. -/
structure Class (C New Cop Op : Type) where
  log : C → List Ev
  drop : C → List Ev
  size : C → Nat
  make : New → Res C
  copy : Cop → C → Res C
  act : Op → C → Res C
  left : Option C
  good : C → Prop
  fitNew : New → Prop
  fitCopy : Cop → C → Prop
  fit : Op → C → Prop
  run : ∀ c, good c → ∃ h, Heap.run (log c) Heap.empty = some h ∧ h.live.length = size c
  dropped : ∀ c, good c → Heap.run (log c ++ drop c) Heap.empty = some Heap.empty
  leaves : ∀ c, left = some c → good c
  made : ∀ n, fitNew n → ∃ c, make n = .ok c ∧ good c
  copied : ∀ o c, good c → fitCopy o c → ∃ c', copy o c = .ok c' ∧ good c'
  acted : ∀ o c, good c → fit o c → ∃ c', act o c = .ok c' ∧ good c' ∧ ∃ l, log c' = log c ++ l

/-- What a program does with its objects.  Assignment is made of these, see `assign` and `moveAssign`. -/
inductive Act (New Cop Op : Type)
  | make (i : Nat) (n : New)
  | copy (i j : Nat) (o : Cop)
  | move (i j : Nat)
  | swap (i j : Nat)
  | call (i : Nat) (o : Op)
  | drop (i : Nat)

/-- Copy assignment (T15:414-421 with 2876-2880): a copy is made (`t` is the temporary), swapped with the object and destroyed. -/
def assign {New Cop Op : Type} (i j t : Nat) (o : Cop) : List (Act New Cop Op) := [.copy t j o, .swap i t, .drop t]

/-- Move assignment with equal allocators (T15:423-431 with 2818-2835). -/
def moveAssign {New Cop Op : Type} (i j t : Nat) : List (Act New Cop Op) := [.move t j, .swap i t, .drop t]

/-- The objects, the contents by number, how many there have been, and the log of the program. -/
structure World (C : Type) where
  own : Nat → Option Nat
  con : Nat → Option C
  num : Nat
  log : List Ev

/-- No objects. -/
def World.start {C : Type} : World C := ⟨fun _ => none, fun _ => none, 0, []⟩

section
variable {C New Cop Op : Type} (A : Class C New Cop Op)

/-- A new content for object `i`. -/
def World.add (w : World C) (i : Nat) (c : C) : World C :=
  { own := upd w.own i (some w.num), con := upd w.con w.num (some c), num := w.num + 1,
    log := w.log ++ (A.log c).map (Ev.ren (Nat.pair w.num)) }

/-- One action.  An object that exists cannot be constructed again, and one without content cannot be called or copied.
The move constructor takes the content and leaves null pointers (FL:1011-1024 with 2777-2787) or the state of an
empty table (T15:344-371); `swap` exchanges the members
(FL:1296-1300, 2807-2810); the destructor of an object without content does nothing (FL:1724-1769). -/
def step : Act New Cop Op → World C → Res (World C)
  | .make i n, w => if (w.own i).isSome then .ub else (A.make n).bind fun c => .ok (w.add A i c)
  | .copy i j o, w =>
    if (w.own i).isSome then .ub
    else match (w.own j).bind w.con with
      | none => .ub
      | some c => (A.copy o c).bind fun c' => .ok (w.add A i c')
  | .move i j, w =>
    if (w.own i).isSome then .ub
    else
      let w' := { w with own := upd (upd w.own i (w.own j)) j none }
      match A.left with
      | none => .ok w'
      | some c => .ok (w'.add A j c)
  | .swap i j, w => .ok { w with own := upd (upd w.own i (w.own j)) j (w.own i) }
  | .call i o, w =>
    match w.own i with
    | none => .ub
    | some k =>
      match w.con k with
      | none => .ub
      | some c => (A.act o c).bind fun c' =>
        .ok { w with con := upd w.con k (some c'), log := w.log ++ ((A.log c').drop (A.log c).length).map (Ev.ren (Nat.pair k)) }
  | .drop i, w =>
    match w.own i with
    | none => .ok w
    | some k =>
      match w.con k with
      | none => .ub
      | some c => .ok { w with own := upd w.own i none, con := upd w.con k none, log := w.log ++ (A.drop c).map (Ev.ren (Nat.pair k)) }

/-- A program. -/
def run : List (Act New Cop Op) → World C → Res (World C)
  | [], w => .ok w
  | x :: xs, w => (step A x w).bind fun w' => run xs w'

/-- The action is one of those considered: a new object has a name that is free, an object used has a content, a moved or swapped
pair consists of two objects. -/
def Fit (w : World C) : Act New Cop Op → Prop
  | .make i n => w.own i = none ∧ A.fitNew n
  | .copy i j o => w.own i = none ∧ ∃ c, (w.own j).bind w.con = some c ∧ A.fitCopy o c
  | .move i j => w.own i = none ∧ i ≠ j
  | .swap _ _ => True
  | .call i o => ∃ c, (w.own i).bind w.con = some c ∧ A.fit o c
  | .drop _ => True

/-- A program of such actions. -/
def FitAll : List (Act New Cop Op) → World C → Prop
  | [], _ => True
  | x :: xs, w => Fit A w x ∧ ∀ w', step A x w = .ok w' → FitAll xs w'

/-! ### The heap of the program -/

/-- The heap of a content, with the names used in the program. -/
def part (w : World C) (k : Nat) : Heap :=
  match w.con k with
  | none => Heap.empty
  | some c => ((Heap.run (A.log c) Heap.empty).getD Heap.empty).ren (Nat.pair k)

/-- `h` is made of the heaps of the contents `ks`. -/
structure Parts (f : Nat → Heap) (ks : List Nat) (h : Heap) : Prop where
  blocks : h.blocks.Perm (ks.flatMap fun k => (f k).blocks)
  live : h.live.Perm (ks.flatMap fun k => (f k).live)

/-- The state of a program. -/
structure Sound (w : World C) : Prop where
  inj : ∀ i j k, w.own i = some k → w.own j = some k → i = j
  owned : ∀ k, (w.con k).isSome = true ↔ ∃ i, w.own i = some k
  num : ∀ k, (w.con k).isSome = true → k < w.num
  good : ∀ k c, w.con k = some c → A.good c
  heap : ∃ h, Heap.run w.log Heap.empty = some h ∧ Parts (part A w) (List.range w.num) h

variable {A}

theorem ren_in (h : Heap) (k : Nat) : (h.ren (Nat.pair k)).In fun x => ∃ y, x = Nat.pair k y := by
  refine ⟨?_, ?_⟩
  · intro x hx
    obtain ⟨y, _, rfl⟩ := List.mem_map.mp hx
    exact ⟨y.1, rfl⟩
  · intro x hx
    obtain ⟨y, _, rfl⟩ := List.mem_map.mp hx
    exact ⟨y.1, rfl⟩

theorem part_in (w : World C) (k : Nat) : (part A w k).In fun x => ∃ y, x = Nat.pair k y := by
  unfold part
  split
  · exact ⟨fun x hx => (by cases hx), fun x hx => (by cases hx)⟩
  · exact ren_in _ _

theorem pair_inj (k : Nat) : Function.Injective (Nat.pair k) := fun _ _ h => (Nat.pair_eq_pair.mp h).2

/-- Events of content `k` change that part only. -/
theorem parts_step {f : Nat → Heap} {n k : Nat} {h : Heap} (hk : k < n) (hp : Parts f (List.range n) h)
    (hin : ∀ j, (f j).In fun x => ∃ y, x = Nat.pair j y) {l : List Ev} {a a' : Heap} (ha : f k = a.ren (Nat.pair k))
    (hr : Heap.run l a = some a') :
    ∃ h', Heap.run (l.map (Ev.ren (Nat.pair k))) h = some h' ∧ Parts (upd f k (a'.ren (Nat.pair k))) (List.range n) h' := by
  have hpe : (List.range n).Perm (k :: (List.range n).erase k) := List.perm_cons_erase (List.mem_range.mpr hk)
  have hnk : k ∉ (List.range n).erase k := fun hm => (List.Nodup.mem_erase_iff List.nodup_range).mp hm |>.1 rfl
  have hb : Both h (a.ren (Nat.pair k)) ⟨((List.range n).erase k).flatMap fun j => (f j).blocks, ((List.range n).erase k).flatMap fun j => (f j).live⟩ := by
    refine ⟨?_, ?_⟩
    · refine hp.blocks.trans ((hpe.flatMap_right _).trans ?_)
      rw [List.flatMap_cons, ha]
    · refine hp.live.trans ((hpe.flatMap_right _).trans ?_)
      rw [List.flatMap_cons, ha]
  have hrun : Heap.run (l.map (Ev.ren (Nat.pair k))) (a.ren (Nat.pair k)) = some (a'.ren (Nat.pair k)) := by
    rw [run_ren (pair_inj k), hr]; rfl
  have hrest : ∀ j y, j ∈ (List.range n).erase k → ¬ ∃ z, Nat.pair j y = Nat.pair k z := by
    rintro j y hj ⟨z, hz⟩
    exact hnk ((Nat.pair_eq_pair.mp hz).1 ▸ hj)
  obtain ⟨h', g1, g2⟩ := run_shuffle (P := fun x => ∃ y, x = Nat.pair k y) (by simpa using Shuffle.append (l.map (Ev.ren (Nat.pair k))) [])
    hb (ren_in a k) (by
      refine ⟨?_, ?_⟩
      · intro x hx
        obtain ⟨j, hj, hx⟩ := List.mem_flatMap.mp hx
        obtain ⟨y, hy⟩ := (hin j).blocks x hx
        rw [hy]; exact hrest j y hj
      · intro x hx
        obtain ⟨j, hj, hx⟩ := List.mem_flatMap.mp hx
        obtain ⟨y, hy⟩ := (hin j).live x hx
        rw [hy]; exact hrest j y hj)
    (by
      intro e he
      obtain ⟨e', _, rfl⟩ := List.mem_map.mp he
      exact ⟨e'.name, by cases e' <;> rfl⟩) (by simp) hrun rfl
  refine ⟨h', g1, ?_, ?_⟩
  · refine g2.blocks.trans (List.Perm.trans ?_ (hpe.flatMap_right _).symm)
    rw [List.flatMap_cons, upd_self]
    apply List.Perm.append_left
    refine List.Perm.of_eq (List.flatMap_congr fun j hj => ?_)
    have hjk : j ≠ k := fun hq => hnk (hq ▸ hj)
    rw [upd_other _ _ hjk]
  · refine g2.live.trans (List.Perm.trans ?_ (hpe.flatMap_right _).symm)
    rw [List.flatMap_cons, upd_self]
    apply List.Perm.append_left
    refine List.Perm.of_eq (List.flatMap_congr fun j hj => ?_)
    have hjk : j ≠ k := fun hq => hnk (hq ▸ hj)
    rw [upd_other _ _ hjk]

theorem part_some {w : World C} {k : Nat} {c : C} (hk : w.con k = some c) {h : Heap} (hr : Heap.run (A.log c) Heap.empty = some h) :
    part A w k = h.ren (Nat.pair k) := by
  unfold part
  rw [hk]
  simp only [hr, Option.getD_some]

theorem empty_ren (k : Nat) : Heap.empty = Heap.empty.ren (Nat.pair k) := rfl

theorem part_upd (w : World C) (own : Nat → Option Nat) (k : Nat) (o : Option C) (n : Nat) (l : List Ev) {a : Heap}
    (ha : match o with
      | none => a = Heap.empty
      | some c => Heap.run (A.log c) Heap.empty = some a) :
    part A ⟨own, upd w.con k o, n, l⟩ = upd (part A w) k (a.ren (Nat.pair k)) := by
  funext j
  by_cases hj : j = k
  · subst hj
    rw [upd_self]
    unfold part
    simp only [upd_self]
    cases o with
    | none => simp only at ha; rw [ha]; rfl
    | some c => simp only at ha; simp only [ha, Option.getD_some]
  · rw [upd_other _ _ hj]
    unfold part
    simp only [upd_other _ _ hj]

theorem Sound.start : Sound A (World.start : World C) := by
  refine ⟨fun i j k h => (by cases h), fun k => ⟨fun h => (by cases h), fun ⟨i, h⟩ => (by cases h)⟩, fun k h => (by cases h),
    fun k c h => (by cases h), Heap.empty, rfl, ?_, ?_⟩
  · exact List.Perm.refl _
  · exact List.Perm.refl _

/-- A new object. -/
theorem Sound.add {w : World C} (h : Sound A w) {i : Nat} (hi : w.own i = none) {c : C} (hc : A.good c) : Sound A (w.add A i c) := by
  obtain ⟨g, hg, _⟩ := A.run c hc
  obtain ⟨h0, hr, hp⟩ := h.heap
  have hnum : w.con w.num = none := by
    cases hq : w.con w.num with
    | none => rfl
    | some c => exact absurd (h.num w.num (by rw [hq]; rfl)) (Nat.lt_irrefl _)
  have hno : ∀ j, w.own j ≠ some w.num := fun j hj => by
    have := (h.owned w.num).mpr ⟨j, hj⟩
    rw [hnum] at this; cases this
  have hp1 : Parts (part A w) (List.range (w.num + 1)) h0 := by
    have he : part A w w.num = Heap.empty := by unfold part; rw [hnum]
    refine ⟨?_, ?_⟩
    · rw [List.range_succ, List.flatMap_append, List.flatMap_singleton, he]
      simpa [Heap.empty] using hp.blocks
    · rw [List.range_succ, List.flatMap_append, List.flatMap_singleton, he]
      simpa [Heap.empty] using hp.live
  obtain ⟨h', k1, k2⟩ := parts_step (Nat.lt_succ_self w.num) hp1 (part_in w) (a := Heap.empty) (by
    unfold part; rw [hnum]; rfl) hg
  refine ⟨?_, ?_, ?_, ?_, h', ?_, ?_⟩
  · intro x y k hx hy
    simp only [World.add] at hx hy
    by_cases h1 : x = i
    · by_cases h2 : y = i
      · rw [h1, h2]
      · rw [h1, upd_self] at hx
        rw [upd_other _ _ h2] at hy
        cases hx
        exact absurd hy (hno y)
    · rw [upd_other _ _ h1] at hx
      by_cases h2 : y = i
      · rw [h2, upd_self] at hy
        cases hy
        exact absurd hx (hno x)
      · rw [upd_other _ _ h2] at hy
        exact h.inj x y k hx hy
  · intro k
    simp only [World.add]
    by_cases hk : k = w.num
    · subst hk
      rw [upd_self]
      exact ⟨fun _ => ⟨i, upd_self _ _ _⟩, fun _ => rfl⟩
    · rw [upd_other _ _ hk, h.owned]
      constructor
      · rintro ⟨j, hj⟩
        refine ⟨j, ?_⟩
        rw [upd_other _ _ (fun hq => by rw [hq, hi] at hj; cases hj)]
        exact hj
      · rintro ⟨j, hj⟩
        by_cases hq : j = i
        · rw [hq, upd_self] at hj
          cases hj
          exact absurd rfl hk
        · rw [upd_other _ _ hq] at hj
          exact ⟨j, hj⟩
  · intro k hk
    simp only [World.add] at hk ⊢
    by_cases hq : k = w.num
    · omega
    · rw [upd_other _ _ hq] at hk
      have := h.num k hk
      omega
  · intro k d hk
    simp only [World.add] at hk
    by_cases hq : k = w.num
    · rw [hq, upd_self] at hk
      cases hk
      exact hc
    · rw [upd_other _ _ hq] at hk
      exact h.good k d hk
  · simp only [World.add]
    rw [Life.run_append, hr]
    exact k1
  · unfold World.add
    rw [part_upd w _ w.num (some c) _ _ hg]
    exact k2

/-- The content of `j` goes to the new object `i`. -/
theorem moved_sound {w : World C} (h : Sound A w) {i j : Nat} (h1 : w.own i = none) (h2 : i ≠ j) :
    Sound A { w with own := upd (upd w.own i (w.own j)) j none } := by
  have hval : ∀ x, upd (upd w.own i (w.own j)) j none x = if x = j then none else if x = i then w.own j else w.own x := by
    intro x
    by_cases hx : x = j
    · rw [hx, upd_self, if_pos rfl]
    · rw [upd_other _ _ hx, if_neg hx]
      by_cases hy : x = i
      · rw [hy, upd_self, if_pos rfl]
      · rw [upd_other _ _ hy, if_neg hy]
  refine ⟨?_, ?_, h.num, h.good, h.heap⟩
  · intro x y k hx hy
    simp only [hval] at hx hy
    split at hx
    · cases hx
    · split at hy
      · cases hy
      · split at hx
        · split at hy
          · simp_all
          · exact absurd (h.inj _ _ k hy hx) (by assumption)
        · split at hy
          · exact absurd (h.inj _ _ k hx hy) (by assumption)
          · exact h.inj x y k hx hy
  · intro k
    show (w.con k).isSome = true ↔ ∃ x, upd (upd w.own i (w.own j)) j none x = some k
    rw [h.owned]
    constructor
    · rintro ⟨x, hx⟩
      by_cases hq : x = j
      · exact ⟨i, by rw [hval, if_neg h2, if_pos rfl, ← hq]; exact hx⟩
      · refine ⟨x, ?_⟩
        rw [hval, if_neg hq, if_neg (fun he => by rw [he, h1] at hx; cases hx)]
        exact hx
    · rintro ⟨x, hx⟩
      rw [hval] at hx
      split at hx
      · cases hx
      · split at hx
        · exact ⟨j, hx⟩
        · exact ⟨x, hx⟩

/-- One action. -/
theorem step_sound {w : World C} (h : Sound A w) {x : Act New Cop Op} (hf : Fit A w x) : ∃ w', step A x w = .ok w' ∧ Sound A w' := by
  cases x with
  | make i n =>
    obtain ⟨h1, h2⟩ := hf
    obtain ⟨c, h3, h4⟩ := A.made n h2
    refine ⟨w.add A i c, ?_, h.add h1 h4⟩
    simp only [step, h1, h3, Option.isSome_none, Bool.false_eq_true, if_false, Res.bind_ok]
  | copy i j o =>
    obtain ⟨h1, c, h2, h3⟩ := hf
    have hgd : A.good c := by
      cases hk : w.own j with
      | none => rw [hk] at h2; cases h2
      | some k => rw [hk] at h2; exact h.good k c h2
    obtain ⟨c', h4, h5⟩ := A.copied o c hgd h3
    refine ⟨w.add A i c', ?_, h.add h1 h5⟩
    simp only [step, h1, h2, h4, Option.isSome_none, Bool.false_eq_true, if_false, Res.bind_ok]
  | move i j =>
    obtain ⟨h1, h2⟩ := hf
    suffices hs : Sound A { w with own := upd (upd w.own i (w.own j)) j none } by
      cases hq : A.left with
      | none => exact ⟨_, by simp only [step, h1, Option.isSome_none, Bool.false_eq_true, if_false, hq], hs⟩
      | some c =>
        exact ⟨_, by simp only [step, h1, Option.isSome_none, Bool.false_eq_true, if_false, hq],
          hs.add (upd_self _ _ _) (A.leaves c hq)⟩
    exact moved_sound h h1 h2
  | swap i j =>
    refine ⟨{ w with own := upd (upd w.own i (w.own j)) j (w.own i) }, rfl, ?_⟩
    have hval : ∀ x, upd (upd w.own i (w.own j)) j (w.own i) x = w.own (if x = j then i else if x = i then j else x) := by
      intro x
      by_cases hx : x = j
      · rw [hx, upd_self, if_pos rfl]
      · rw [upd_other _ _ hx, if_neg hx]
        by_cases hy : x = i
        · rw [hy, upd_self, if_pos rfl]
        · rw [upd_other _ _ hy, if_neg hy]
    refine ⟨?_, ?_, h.num, h.good, h.heap⟩
    · intro x y k hx hy
      simp only [hval] at hx hy
      have := h.inj _ _ k hx hy
      by_cases x1 : x = j
      · by_cases y1 : y = j
        · rw [x1, y1]
        · by_cases y2 : y = i
          · rw [if_pos x1, if_neg y1, if_pos y2] at this
            rw [x1, y2, this]
          · rw [if_pos x1, if_neg y1, if_neg y2] at this
            exact absurd this.symm y2
      · by_cases x2 : x = i
        · by_cases y1 : y = j
          · rw [if_neg x1, if_pos x2, if_pos y1] at this
            rw [x2, y1, this]
          · by_cases y2 : y = i
            · rw [x2, y2]
            · rw [if_neg x1, if_pos x2, if_neg y1, if_neg y2] at this
              exact absurd this.symm y1
        · rw [if_neg x1, if_neg x2] at this
          by_cases y1 : y = j
          · rw [if_pos y1] at this; exact absurd this x2
          · by_cases y2 : y = i
            · rw [if_neg y1, if_pos y2] at this; exact absurd this x1
            · rwa [if_neg y1, if_neg y2] at this
    · intro k
      show (w.con k).isSome = true ↔ ∃ x, upd (upd w.own i (w.own j)) j (w.own i) x = some k
      rw [h.owned]
      constructor
      · rintro ⟨x, hx⟩
        refine ⟨if x = j then i else if x = i then j else x, ?_⟩
        rw [hval]
        have : (if (if x = j then i else if x = i then j else x) = j then i
            else if (if x = j then i else if x = i then j else x) = i then j else (if x = j then i else if x = i then j else x)) = x := by
          by_cases h1 : x = j
          · simp only [h1, if_true]
            split
            · assumption
            · rfl
          · by_cases h2 : x = i
            · simp [h2]
            · simp [h1, h2]
        rw [this]; exact hx
      · rintro ⟨x, hx⟩
        rw [hval] at hx
        exact ⟨_, hx⟩
  | call i o =>
    obtain ⟨c, h2, h3⟩ := hf
    cases hk : w.own i with
    | none => rw [hk] at h2; cases h2
    | some k =>
      rw [hk] at h2
      have hck : w.con k = some c := h2
      obtain ⟨c', h4, h5, l, h6⟩ := A.acted o c (h.good k c hck) h3
      obtain ⟨g, hg, _⟩ := A.run c (h.good k c hck)
      obtain ⟨g', hg', _⟩ := A.run c' h5
      have hl : Heap.run l g = some g' := by
        rw [h6, Life.run_append, hg] at hg'
        exact hg'
      obtain ⟨h0, hr, hp⟩ := h.heap
      obtain ⟨h', k1, k2⟩ := parts_step (h.num k (by rw [hck]; rfl)) hp (part_in w) (part_some hck hg) hl
      refine ⟨{ w with con := upd w.con k (some c'), log := w.log ++ l.map (Ev.ren (Nat.pair k)) }, ?_, ?_⟩
      · simp only [step, hk, hck, h4, Res.bind_ok, h6, List.drop_left]
      · refine ⟨h.inj, ?_, ?_, ?_, h', ?_, ?_⟩
        · intro x
          rw [← h.owned]
          show (upd w.con k (some c') x).isSome = true ↔ _
          by_cases hx : x = k
          · rw [hx, upd_self, hck]; simp
          · rw [upd_other _ _ hx]
        · intro x hx
          apply h.num
          change (upd w.con k (some c') x).isSome = true at hx
          by_cases hxk : x = k
          · rw [hxk, hck]; rfl
          · rwa [upd_other _ _ hxk] at hx
        · intro x d hx
          change upd w.con k (some c') x = some d at hx
          by_cases hxk : x = k
          · rw [hxk, upd_self] at hx
            cases hx; exact h5
          · rw [upd_other _ _ hxk] at hx
            exact h.good x d hx
        · simp only
          rw [Life.run_append, hr]
          exact k1
        · rw [part_upd w _ k (some c') _ _ hg']
          exact k2
  | drop i =>
    cases hk : w.own i with
    | none => exact ⟨w, by simp only [step, hk], h⟩
    | some k =>
      have hs := (h.owned k).mpr ⟨i, hk⟩
      obtain ⟨c, hck⟩ := Option.isSome_iff_exists.mp hs
      obtain ⟨g, hg, _⟩ := A.run c (h.good k c hck)
      have hl : Heap.run (A.drop c) g = some Heap.empty := by
        have := A.dropped c (h.good k c hck)
        rwa [Life.run_append, hg] at this
      obtain ⟨h0, hr, hp⟩ := h.heap
      obtain ⟨h', k1, k2⟩ := parts_step (h.num k hs) hp (part_in w) (part_some hck hg) hl
      refine ⟨{ w with own := upd w.own i none, con := upd w.con k none, log := w.log ++ (A.drop c).map (Ev.ren (Nat.pair k)) }, ?_, ?_⟩
      · simp only [step, hk, hck]
      · refine ⟨?_, ?_, ?_, ?_, h', ?_, ?_⟩
        · intro x y z hx hy
          change upd w.own i none x = some z at hx
          change upd w.own i none y = some z at hy
          by_cases h1 : x = i
          · rw [h1, upd_self] at hx; cases hx
          · by_cases h2 : y = i
            · rw [h2, upd_self] at hy; cases hy
            · rw [upd_other _ _ h1] at hx
              rw [upd_other _ _ h2] at hy
              exact h.inj x y z hx hy
        · intro z
          show (upd w.con k none z).isSome = true ↔ ∃ x, upd w.own i none x = some z
          by_cases hz : z = k
          · rw [hz, upd_self]
            refine ⟨fun hq => (by cases hq), ?_⟩
            rintro ⟨x, hx⟩
            by_cases h1 : x = i
            · rw [h1, upd_self] at hx; cases hx
            · rw [upd_other _ _ h1] at hx
              exact absurd (h.inj x i k hx hk) h1
          · rw [upd_other _ _ hz, h.owned]
            constructor
            · rintro ⟨x, hx⟩
              refine ⟨x, ?_⟩
              rw [upd_other _ _ (fun hq => by rw [hq, hk] at hx; cases hx; exact hz rfl)]
              exact hx
            · rintro ⟨x, hx⟩
              by_cases h1 : x = i
              · rw [h1, upd_self] at hx; cases hx
              · rw [upd_other _ _ h1] at hx
                exact ⟨x, hx⟩
        · intro x hx
          change (upd w.con k none x).isSome = true at hx
          by_cases hxk : x = k
          · rw [hxk, upd_self] at hx; cases hx
          · rw [upd_other _ _ hxk] at hx
            exact h.num x hx
        · intro x d hx
          change upd w.con k none x = some d at hx
          by_cases hxk : x = k
          · rw [hxk, upd_self] at hx; cases hx
          · rw [upd_other _ _ hxk] at hx
            exact h.good x d hx
        · simp only
          rw [Life.run_append, hr]
          exact k1
        · rw [part_upd w _ k none _ _ (a := Heap.empty) rfl]
          exact k2

theorem run_sound : ∀ (xs : List (Act New Cop Op)) {w : World C}, Sound A w → FitAll A xs w → ∃ w', run A xs w = .ok w' ∧ Sound A w' := by
  intro xs
  induction xs with
  | nil => intro w h _; exact ⟨w, rfl, h⟩
  | cons x xs ih =>
    intro w h hf
    obtain ⟨w1, h1, h2⟩ := step_sound h hf.1
    obtain ⟨w2, g1, g2⟩ := ih h2 (hf.2 w1 h1)
    refine ⟨w2, ?_, g2⟩
    unfold run
    rw [h1]
    exact g1

theorem length_flatMap (f : Nat → Heap) (g : Nat → Nat) (n : Nat) (h : ∀ k, k < n → (f k).live.length = g k) :
    ((List.range n).flatMap fun k => (f k).live).length = ((List.range n).map g).sum := by
  rw [List.length_flatMap]
  congr 1
  apply List.map_congr_left
  intro k hk
  exact h k (List.mem_range.mp hk)

/-- What is known about a program: its log is in order; as many element objects are alive as the contents that are owned have
elements; and when no object owns a content, nothing is left. -/
def Clean (A : Class C New Cop Op) (w : World C) : Prop :=
  ∃ h, Heap.run w.log Heap.empty = some h ∧
    h.live.length = ((List.range w.num).map fun k => (w.con k).elim 0 A.size).sum ∧
    (∀ k, (w.con k).isSome = true ↔ ∃ i, w.own i = some k) ∧ (∀ i j k, w.own i = some k → w.own j = some k → i = j) ∧
    ((∀ i, w.own i = none) → h = Heap.empty)

theorem Sound.clean {w : World C} (h : Sound A w) : Clean A w := by
  obtain ⟨h0, hr, hp⟩ := h.heap
  refine ⟨h0, hr, ?_, h.owned, h.inj, ?_⟩
  · rw [hp.live.length_eq]
    apply length_flatMap
    intro k hk
    cases hc : w.con k with
    | none => unfold part; rw [hc]; rfl
    | some c =>
      obtain ⟨g, hg, hl⟩ := A.run c (h.good k c hc)
      rw [part_some hc hg]
      show (g.live.map _).length = A.size c
      rw [List.length_map, hl]
  · intro hno
    have hnone : ∀ k, part A w k = Heap.empty := by
      intro k
      cases hc : w.con k with
      | none => unfold part; rw [hc]
      | some c =>
        obtain ⟨i, hi⟩ := (h.owned k).mp (by rw [hc]; rfl)
        rw [hno i] at hi; cases hi
    have h1 := hp.blocks
    have h2 := hp.live
    simp only [hnone, Heap.empty] at h1 h2
    rw [show ((List.range w.num).flatMap fun _ => ([] : List (Nat × Nat))) = [] by simp] at h1 h2
    cases h0
    simp only at h1 h2
    rw [h1.eq_nil, h2.eq_nil]
    rfl

/-- Programs of the actions considered. -/
theorem program {xs : List (Act New Cop Op)} (hf : FitAll A xs World.start) : ∃ w, run A xs World.start = .ok w ∧ Clean A w := by
  obtain ⟨w, h1, h2⟩ := run_sound xs Sound.start hf
  exact ⟨w, h1, h2.clean⟩

/-! ### A test for programs, used in examples -/

/-- A sufficient test for `Fit`, from tests for the three parts that depend on the class. -/
def fitB (tN : New → Bool) (tC : Cop → C → Bool) (tO : Op → C → Bool) (w : World C) : Act New Cop Op → Bool
  | .make i n => (w.own i).isNone && tN n
  | .copy i j o => (w.own i).isNone && (match (w.own j).bind w.con with | none => false | some c => tC o c)
  | .move i j => (w.own i).isNone && decide (i ≠ j)
  | .swap _ _ => true
  | .call i o => match (w.own i).bind w.con with | none => false | some c => tO o c
  | .drop _ => true

/-- A sufficient test for `FitAll`. -/
def progB (A : Class C New Cop Op) (tN : New → Bool) (tC : Cop → C → Bool) (tO : Op → C → Bool) : List (Act New Cop Op) → World C → Bool
  | [], _ => true
  | x :: xs, w => fitB tN tC tO w x && (match step A x w with | .ok w' => progB A tN tC tO xs w' | _ => true)

theorem progB_sound {tN : New → Bool} {tC : Cop → C → Bool} {tO : Op → C → Bool} (hN : ∀ n, tN n = true → A.fitNew n)
    (hC : ∀ o c, tC o c = true → A.fitCopy o c) (hO : ∀ o c, tO o c = true → A.fit o c) :
    ∀ (xs : List (Act New Cop Op)) (w : World C), progB A tN tC tO xs w = true → FitAll A xs w := by
  intro xs
  induction xs with
  | nil => intro w _; trivial
  | cons x xs ih =>
    intro w h
    unfold progB at h
    rw [Bool.and_eq_true] at h
    obtain ⟨h1, h2⟩ := h
    refine ⟨?_, fun w' hw => ih w' (by rw [hw] at h2; exact h2)⟩
    cases x with
    | make i n =>
      simp only [fitB, Bool.and_eq_true, Option.isNone_iff_eq_none] at h1
      exact ⟨h1.1, hN n h1.2⟩
    | copy i j o =>
      simp only [fitB, Bool.and_eq_true, Option.isNone_iff_eq_none] at h1
      obtain ⟨g1, g2⟩ := h1
      split at g2
      · cases g2
      · rename_i c hc
        exact ⟨g1, c, hc, hC o c g2⟩
    | move i j =>
      simp only [fitB, Bool.and_eq_true, Option.isNone_iff_eq_none, decide_eq_true_eq] at h1
      exact h1
    | swap i j => trivial
    | call i o =>
      simp only [fitB] at h1
      split at h1
      · cases h1
      · rename_i c hc
        exact ⟨c, hc, hO o c h1⟩
    | drop i => trivial

end
end Verif.Owners
