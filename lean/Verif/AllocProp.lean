/-
Allocators that are not all equal (C132): programs with many maps, each with the allocator it was given, that are constructed,
copied, moved, assigned, swapped, used and destroyed.  Generic part over `Verif.Owners`; the theorems for group15 are at the end.

T15 = `src/jstd/hashmap/group15_flat_table.hpp`.

The table has three allocator members, `allocator_`, `group_allocator_` and `slot_allocator_`; every constructor gives them the
same value (T15:301-302, 334, 390) and `swap_policy` exchanges all or none of them, since rebinding keeps the traits
(T15:2865-2873).  The model has one.  A content has its blocks from `group_allocator_` and `slot_allocator_` of the object that owns it and
gives them back to those of the object that owns it then (T15:1512, 1527, 2069-2076, 2165-2178).

Simplification: the constructor that moves from a map with an unequal allocator takes the elements one by one (T15:398-406); here all
elements are constructed first and then those of the source are destroyed, and the new table has the capacity and the load factor of a copy, the source the default load factor.
-/
import Verif.GroupOwners

namespace Verif.Owners
open Verif
open Verif.Life

/-- The allocator type: `operator ==`, the three propagation traits, and `select_on_container_copy_construction`
(T15:311, 394, 416, 430, 2865-2873). -/
structure Traits (α : Type) where
  same : α → α → Bool
  pocca : Bool
  pocma : Bool
  pocs : Bool
  select : α → α

/-- `operator ==` of allocators is an equivalence relation, as the standard demands. -/
structure Traits.Lawful {α : Type} (T : Traits α) : Prop where
  refl : ∀ a, T.same a a = true
  symm : ∀ a b, T.same a b = true → T.same b a = true
  trans : ∀ a b c, T.same a b = true → T.same b c = true → T.same a c = true

/-- Allocators that replace the one of the map at assignment also do so at `swap`, or all allocators are equal. -/
def Traits.Coherent {α : Type} (T : Traits α) : Prop :=
  (T.pocca = true → T.pocs = true) ∧ (T.pocma = true → T.pocs = true) ∨ ∀ a b, T.same a b = true

/-- What a program does with its objects.  `t` is the name of the temporary in assignments. -/
inductive AAct (α New Cop Op : Type)
  | make (i : Nat) (n : New) (a : α)
  | copy (i j : Nat) (o : Cop)
  | copyWith (i j : Nat) (o : Cop) (a : α)
  | move (i j : Nat)
  | moveWith (i j : Nat) (o : Cop) (a : α)
  | assign (i j t : Nat) (o : Cop)
  | moveAssign (i j t : Nat) (o : Cop)
  | swap (i j : Nat)
  | call (i : Nat) (o : Op)
  | drop (i : Nat)

/-- The objects and their contents, the allocator of each object, and the log of the program with the allocator that does each step. -/
structure AWorld (C α : Type) where
  w : World C
  alc : Nat → α
  log : List (α × Ev)

/-- No objects. -/
def AWorld.start {C α : Type} (a : α) : AWorld C α := ⟨World.start, fun _ => a, []⟩

section
variable {α C New Cop Op : Type} (A : Class C New Cop Op) (T : Traits α)

/-- The world after something happened that allocator `a` does. -/
def AWorld.by (s : AWorld C α) (a : α) (w' : World C) : AWorld C α :=
  { s with w := w', log := s.log ++ (w'.log.drop s.w.log.length).map fun e => (a, e) }

/-- An action of `Owners` that allocator `a` does. -/
def prim (a : α) (x : Act New Cop Op) (s : AWorld C α) : Res (AWorld C α) :=
  (Owners.step A x s.w).bind fun w' => .ok (s.by a w')

/-- The allocator members of object `i` are given the value `a`. -/
def AWorld.setAlc (s : AWorld C α) (i : Nat) (a : α) : AWorld C α := { s with alc := upd s.alc i a }

/-- A constructor (T15:282-308). -/
def makeA (i : Nat) (n : New) (a : α) (s : AWorld C α) : Res (AWorld C α) :=
  (prim A a (.make i n) s).bind fun s => .ok (s.setAlc i a)

/-- A copy with an allocator (T15:315-342). -/
def copyWithA (i j : Nat) (o : Cop) (a : α) (s : AWorld C α) : Res (AWorld C α) :=
  (prim A a (.copy i j o) s).bind fun s => .ok (s.setAlc i a)

/-- The move constructor (T15:344-371): allocator and content of the source. -/
def moveA (i j : Nat) (s : AWorld C α) : Res (AWorld C α) :=
  (prim A (s.alc j) (.move i j) s).bind fun s' => .ok (s'.setAlc i (s.alc j))

/-- `destroy<false>` of the source after its elements were moved away (T15:406, 1490-1548): the blocks go back, and the table is
that of an empty map. -/
def emptied (j : Nat) (s : AWorld C α) : Res (AWorld C α) :=
  (prim A (s.alc j) (.drop j) s).bind fun s =>
    match A.left with
    | none => .ok s
    | some c => .ok (s.by (s.alc j) (s.w.add A j c))

/-- The move constructor with an allocator (T15:373-408): the content if the allocators are equal, otherwise the elements. -/
def moveWithA (i j : Nat) (o : Cop) (a : α) (s : AWorld C α) : Res (AWorld C α) :=
  if T.same a (s.alc j) then (prim A a (.move i j) s).bind fun s => .ok (s.setAlc i a)
  else (copyWithA A i j o a s).bind fun s => emptied A j s

/-- `swap_impl` (T15:2837-2880): the contents, and the allocators if they propagate. -/
def swapA (i j : Nat) (s : AWorld C α) : Res (AWorld C α) :=
  (prim A (s.alc i) (.swap i j) s).bind fun s =>
    .ok (if T.pocs then { s with alc := upd (upd s.alc i (s.alc j)) j (s.alc i) } else s)

/-- The destructor (T15:410-412). -/
def dropA (i : Nat) (s : AWorld C α) : Res (AWorld C α) := prim A (s.alc i) (.drop i) s

/-- Copy assignment (T15:414-421): a temporary is made, swapped with the map and destroyed. -/
def assignA (i j t : Nat) (o : Cop) (s : AWorld C α) : Res (AWorld C α) :=
  (copyWithA A t j o (if T.pocca then s.alc j else s.alc i) s).bind fun s => (swapA A T i t s).bind fun s => dropA A t s

/-- Move assignment (T15:423-431, 2818-2835). -/
def moveAssignA (i j t : Nat) (o : Cop) (s : AWorld C α) : Res (AWorld C α) :=
  if i = j then .ok s
  else (if T.pocma then moveA A t j s else moveWithA A T t j o (s.alc i) s).bind fun s =>
    (swapA A T i t s).bind fun s => dropA A t s

/-- One action. -/
def stepA : AAct α New Cop Op → AWorld C α → Res (AWorld C α)
  | .make i n a, s => makeA A i n a s
  | .copy i j o, s => copyWithA A i j o (T.select (s.alc j)) s
  | .copyWith i j o a, s => copyWithA A i j o a s
  | .move i j, s => moveA A i j s
  | .moveWith i j o a, s => moveWithA A T i j o a s
  | .assign i j t o, s => assignA A T i j t o s
  | .moveAssign i j t o, s => moveAssignA A T i j t o s
  | .swap i j, s => swapA A T i j s
  | .call i o, s => prim A (s.alc i) (.call i o) s
  | .drop i, s => dropA A i s

/-- A program. -/
def runA : List (AAct α New Cop Op) → AWorld C α → Res (AWorld C α)
  | [], s => .ok s
  | x :: xs, s => (stepA A T x s).bind fun s' => runA xs s'

/-- The map `j` can be copied. -/
def CanCopy (s : AWorld C α) (j : Nat) (o : Cop) : Prop := ∃ c, (s.w.own j).bind s.w.con = some c ∧ A.fitCopy o c

/-- The actions considered: as in `Owners.Fit`; names of new objects and temporaries are free; and `swap` is called for maps with
equal allocators unless allocators are swapped too, which is what the standard asks of the caller. -/
def FitA (s : AWorld C α) : AAct α New Cop Op → Prop
  | .make i n _ => s.w.own i = none ∧ A.fitNew n
  | .copy i j o => s.w.own i = none ∧ CanCopy A s j o
  | .copyWith i j o _ => s.w.own i = none ∧ CanCopy A s j o
  | .move i j => s.w.own i = none ∧ i ≠ j
  | .moveWith i j o a => s.w.own i = none ∧ i ≠ j ∧ (T.same a (s.alc j) = false → CanCopy A s j o)
  | .assign i j t o => s.w.own t = none ∧ i ≠ t ∧ j ≠ t ∧ CanCopy A s j o
  | .moveAssign i j t o =>
    i = j ∨ s.w.own t = none ∧ i ≠ t ∧ j ≠ t ∧ (T.pocma = false → T.same (s.alc i) (s.alc j) = false → CanCopy A s j o)
  | .swap i j => T.pocs = true ∨ T.same (s.alc i) (s.alc j) = true
  | .call i o => ∃ c, (s.w.own i).bind s.w.con = some c ∧ A.fit o c
  | .drop _ => True

/-- A program of such actions. -/
def FitAllA : List (AAct α New Cop Op) → AWorld C α → Prop
  | [], _ => True
  | x :: xs, s => FitA A T s x ∧ ∀ s', stepA A T x s = .ok s' → FitAllA xs s'

/-- Every block is always handled by equal allocators: the one it was obtained from, the ones that construct and destroy its
elements, and the one it is given back to. -/
def Faithful (s : AWorld C α) : Prop :=
  ∀ a e a' e', (a, e) ∈ s.log → (a', e') ∈ s.log → e.name = e'.name → T.same a a' = true

variable {A T}

/-- Inductive form: `org k` is the allocator content `k` has its blocks from. -/
structure Kept (A : Class C New Cop Op) (T : Traits α) (s : AWorld C α) : Prop where
  sound : Sound A s.w
  tags : s.log.map Prod.snd = s.w.log
  org : ∃ org : Nat → α, (∀ a e, (a, e) ∈ s.log → ∃ k y, k < s.w.num ∧ e.name = Nat.pair k y ∧ T.same a (org k) = true) ∧
    ∀ i k, s.w.own i = some k → T.same (s.alc i) (org k) = true

theorem Kept.faithful (hT : T.Lawful) {s : AWorld C α} (h : Kept A T s) : Faithful T s := by
  obtain ⟨org, h1, -⟩ := h.org
  intro a e a' e' he he' hn
  obtain ⟨k, y, -, q1, q2⟩ := h1 a e he
  obtain ⟨k', y', -, q3, q4⟩ := h1 a' e' he'
  have : k = k' := by
    have hp : Nat.pair k y = Nat.pair k' y' := by rw [← q1, ← q3, hn]
    exact (Nat.pair_eq_pair.mp hp).1
  subst this
  exact hT.trans _ _ _ q2 (hT.symm _ _ q4)

theorem name_ren (f : Nat → Nat) (e : Ev) : (e.ren f).name = f e.name := by cases e <;> rfl

theorem Kept.start (a : α) : Kept A T (AWorld.start a) :=
  ⟨Sound.start, rfl, fun _ => a, fun _ _ h => (by cases h), fun _ _ h => (by cases h)⟩

/-- The owners of the contents, up to a new content. -/
theorem tags_by {s : AWorld C α} (h : s.log.map Prod.snd = s.w.log) {a : α} {w' : World C} {l : List Ev} (hl : w'.log = s.w.log ++ l) :
    (s.by a w').log.map Prod.snd = w'.log ∧ (s.by a w').log = s.log ++ l.map fun e => (a, e) := by
  have hd : (s.by a w').log = s.log ++ l.map fun e => (a, e) := by
    unfold AWorld.by; simp only [hl, List.drop_left]
  refine ⟨?_, hd⟩
  rw [hd, List.map_append, List.map_map, h, hl]
  congr 1
  show l.map (fun e => e) = l
  exact List.map_id' l

/-- A new content for object `i`, by allocator `a`, which becomes or is the allocator of `i`. -/
theorem Kept.add (hT : T.Lawful) {s : AWorld C α} (h : Kept A T s) {i : Nat} (hi : s.w.own i = none) {c : C} (hc : A.good c) (a : α) :
    Kept A T ((s.by a (s.w.add A i c)).setAlc i a) := by
  have hl : (s.w.add A i c).log = s.w.log ++ (A.log c).map (Ev.ren (Nat.pair s.w.num)) := rfl
  obtain ⟨t1, t2⟩ := tags_by h.tags (a := a) hl
  obtain ⟨org, o1, o2⟩ := h.org
  refine ⟨h.sound.add hi hc, t1, upd org s.w.num a, ?_, ?_⟩
  · intro a' e he
    change (a', e) ∈ (s.by a (s.w.add A i c)).log at he
    rw [t2, List.mem_append] at he
    rcases he with he | he
    · obtain ⟨k, y, q1, q2, q3⟩ := o1 a' e he
      exact ⟨k, y, Nat.lt_succ_of_lt q1, q2, by rwa [upd_other _ _ (Nat.ne_of_lt q1)]⟩
    · rw [List.mem_map] at he
      obtain ⟨e1, he1, hee⟩ := he
      cases hee
      rw [List.mem_map] at he1
      obtain ⟨e2, -, rfl⟩ := he1
      exact ⟨s.w.num, e2.name, Nat.lt_succ_self _, name_ren _ _, by rw [upd_self]; exact hT.refl a⟩
  · intro j k hk
    change upd s.w.own i (some s.w.num) j = some k at hk
    show T.same (upd s.alc i a j) _ = true
    by_cases hj : j = i
    · rw [hj, upd_self] at hk
      cases hk
      rw [hj, upd_self, upd_self]
      exact hT.refl a
    · rw [upd_other _ _ hj] at hk
      have : k < s.w.num := h.sound.num k ((h.sound.owned k).mpr ⟨j, hk⟩)
      rw [upd_other _ _ hj, upd_other _ _ (Nat.ne_of_lt this)]
      exact o2 j k hk

/-- Allocators of objects without content do not matter. -/
theorem Kept.setAlc {s : AWorld C α} (h : Kept A T s) {i : Nat} (hi : s.w.own i = none) (a : α) : Kept A T (s.setAlc i a) := by
  obtain ⟨org, o1, o2⟩ := h.org
  refine ⟨h.sound, h.tags, org, o1, ?_⟩
  intro j k hk
  show T.same (upd s.alc i a j) _ = true
  by_cases hj : j = i
  · change s.w.own j = some k at hk
    rw [hj, hi] at hk; cases hk
  · rw [upd_other _ _ hj]; exact o2 j k hk

theorem setAlc_self (s : AWorld C α) (i : Nat) : s.setAlc i (s.alc i) = s := by
  unfold AWorld.setAlc
  have : upd s.alc i (s.alc i) = s.alc := by
    funext j
    by_cases hj : j = i
    · rw [hj, upd_self]
    · rw [upd_other _ _ hj]
  rw [this]

/-- Steps of the content of object `i`, by its allocator. -/
theorem Kept.more {s : AWorld C α} (h : Kept A T s) {i k : Nat} (hk : s.w.own i = some k) {w' : World C} {l : List Ev}
    (hs : Sound A w') (hl : w'.log = s.w.log ++ l.map (Ev.ren (Nat.pair k))) (hn : w'.num = s.w.num)
    (ho : ∀ j x, w'.own j = some x → s.w.own j = some x) : Kept A T (s.by (s.alc i) w') := by
  obtain ⟨t1, t2⟩ := tags_by h.tags (a := s.alc i) hl
  obtain ⟨org, o1, o2⟩ := h.org
  refine ⟨hs, t1, org, ?_, fun j x hx => o2 j x (ho j x hx)⟩
  intro a' e he
  rw [t2, List.mem_append] at he
  show ∃ x y, x < w'.num ∧ _
  rw [hn]
  rcases he with he | he
  · exact o1 a' e he
  · rw [List.mem_map] at he
    obtain ⟨e1, he1, hee⟩ := he
    cases hee
    rw [List.mem_map] at he1
    obtain ⟨e2, -, rfl⟩ := he1
    exact ⟨k, e2.name, h.sound.num k ((h.sound.owned k).mpr ⟨i, hk⟩), name_ren _ _, o2 i k hk⟩

/-- A step without events. -/
theorem Kept.quiet {s : AWorld C α} (h : Kept A T s) {w' : World C} (hs : Sound A w') (hl : w'.log = s.w.log) (hn : w'.num = s.w.num)
    (alc' : Nat → α) (ho : ∀ i k, w'.own i = some k → ∃ j, s.w.own j = some k ∧ ∀ b, T.same (s.alc j) b = true → T.same (alc' i) b = true) :
    Kept A T ⟨w', alc', s.log⟩ := by
  obtain ⟨org, o1, o2⟩ := h.org
  refine ⟨hs, by rw [hl]; exact h.tags, org, fun a e he => ?_, fun i k hk => ?_⟩
  · show ∃ x y, x < w'.num ∧ _
    rw [hn]; exact o1 a e he
  · obtain ⟨j, h1, h2⟩ := ho i k hk
    exact h2 _ (o2 j k h1)

theorem by_quiet {s : AWorld C α} {w' : World C} (a : α) (hl : w'.log = s.w.log) : s.by a w' = { s with w := w' } := by
  unfold AWorld.by
  rw [hl, List.drop_length, List.map_nil, List.append_nil]

theorem makeA_kept (hT : T.Lawful) {s : AWorld C α} (h : Kept A T s) {i : Nat} {n : New} {a : α} (h1 : s.w.own i = none) (h2 : A.fitNew n) :
    ∃ s', makeA A i n a s = .ok s' ∧ Kept A T s' ∧ s'.alc = upd s.alc i a := by
  obtain ⟨c, h3, h4⟩ := A.made n h2
  refine ⟨_, ?_, h.add hT h1 h4 a, rfl⟩
  simp only [makeA, prim, Owners.step, h1, h3, Option.isSome_none, Bool.false_eq_true, if_false, Res.bind_ok]

theorem copyWithA_kept (hT : T.Lawful) {s : AWorld C α} (h : Kept A T s) {i j : Nat} {o : Cop} {a : α} (h1 : s.w.own i = none)
    (h2 : CanCopy A s j o) : ∃ c c', (s.w.own j).bind s.w.con = some c ∧ A.copy o c = .ok c' ∧ A.good c' ∧
      copyWithA A i j o a s = .ok ((s.by a (s.w.add A i c')).setAlc i a) ∧ Kept A T ((s.by a (s.w.add A i c')).setAlc i a) := by
  obtain ⟨c, h2, h3⟩ := h2
  have hgd : A.good c := by
    cases hk : s.w.own j with
    | none => rw [hk] at h2; cases h2
    | some k => rw [hk] at h2; exact h.sound.good k c h2
  obtain ⟨c', h4, h5⟩ := A.copied o c hgd h3
  refine ⟨c, c', h2, h4, h5, ?_, h.add hT h1 h5 a⟩
  simp only [copyWithA, prim, Owners.step, h1, h2, h4, Option.isSome_none, Bool.false_eq_true, if_false, Res.bind_ok]

/-- The content of `j` goes to the new object `i`, whose allocator `a` is equal to that of `j`. -/
theorem move_kept (hT : T.Lawful) {s : AWorld C α} (h : Kept A T s) {i j : Nat} {a b : α} (h1 : s.w.own i = none) (h2 : i ≠ j)
    (ha : T.same a (s.alc j) = true) (hb : T.same b (s.alc j) = true) :
    ∃ s', prim A b (.move i j) s = .ok s' ∧ Kept A T (s'.setAlc i a) ∧ s'.alc = s.alc := by
  have hq : Kept A T ⟨{ s.w with own := upd (upd s.w.own i (s.w.own j)) j none }, upd s.alc i a, s.log⟩ := by
    refine h.quiet (moved_sound h.sound h1 h2) rfl rfl _ ?_
    intro x k hk
    change upd (upd s.w.own i (s.w.own j)) j none x = some k at hk
    by_cases hx : x = j
    · rw [hx, upd_self] at hk; cases hk
    · rw [upd_other _ _ hx] at hk
      by_cases hy : x = i
      · rw [hy, upd_self] at hk
        exact ⟨j, hk, fun b hb => by rw [hy, upd_self]; exact hT.trans _ _ _ ha hb⟩
      · rw [upd_other _ _ hy] at hk
        exact ⟨x, hk, fun b hb => by rw [upd_other _ _ hy]; exact hb⟩
  cases hl : A.left with
  | none =>
    refine ⟨s.by b { s.w with own := upd (upd s.w.own i (s.w.own j)) j none }, ?_, ?_, rfl⟩
    · simp only [prim, Owners.step, h1, Option.isSome_none, Bool.false_eq_true, if_false, hl, Res.bind_ok]
    · rw [by_quiet b (by rfl)]; exact hq
  | some c =>
    refine ⟨s.by b (World.add A { s.w with own := upd (upd s.w.own i (s.w.own j)) j none } j c), ?_, ?_, rfl⟩
    · simp only [prim, Owners.step, h1, Option.isSome_none, Bool.false_eq_true, if_false, hl, Res.bind_ok]
    · have hk := hq.add hT (i := j) (upd_self _ _ _) (A.leaves c hl) b
      obtain ⟨org, o1, o2⟩ := hk.org
      refine ⟨hk.sound, hk.tags, org, o1, ?_⟩
      intro x k hx
      have h3 := o2 x k hx
      by_cases hxj : x = j
      · subst hxj
        show T.same (upd s.alc i a x) (org k) = true
        rw [upd_other _ _ (Ne.symm h2)]
        refine hT.trans _ _ _ (hT.symm _ _ hb) ?_
        have h4 : T.same (upd (upd s.alc i a) x b x) (org k) = true := h3
        rwa [upd_self] at h4
      · have h4 : T.same (upd (upd s.alc i a) j b x) (org k) = true := h3
        rwa [upd_other _ _ hxj] at h4

theorem dropA_kept {s : AWorld C α} (h : Kept A T s) (i : Nat) :
    ∃ s', dropA A i s = .ok s' ∧ Kept A T s' ∧ s'.alc = s.alc ∧ s'.w.own i = none ∧ ∀ j, j ≠ i → s'.w.own j = s.w.own j := by
  cases hk : s.w.own i with
  | none =>
    refine ⟨s, ?_, h, rfl, hk, fun _ _ => rfl⟩
    simp only [dropA, prim, Owners.step, hk, Res.bind_ok, by_quiet]
  | some k =>
    obtain ⟨w', hw, hs⟩ := step_sound h.sound (x := .drop i) trivial
    obtain ⟨c, hck⟩ := Option.isSome_iff_exists.mp ((h.sound.owned k).mpr ⟨i, hk⟩)
    have hw' : w' = { s.w with own := upd s.w.own i none, con := upd s.w.con k none, log := s.w.log ++ (A.drop c).map (Ev.ren (Nat.pair k)) } := by
      simp only [Owners.step, hk, hck] at hw
      cases hw; rfl
    refine ⟨s.by (s.alc i) w', ?_, h.more hk hs (l := A.drop c) (by rw [hw']) (by rw [hw']) ?_, rfl, ?_, ?_⟩
    · simp only [dropA, prim, hw, Res.bind_ok]
    · intro j x hx
      rw [hw'] at hx
      change upd s.w.own i none j = some x at hx
      by_cases hj : j = i
      · rw [hj, upd_self] at hx; cases hx
      · rwa [upd_other _ _ hj] at hx
    · rw [hw']; exact upd_self _ _ _
    · intro j hj; rw [hw']; exact upd_other _ _ hj

theorem emptied_kept (hT : T.Lawful) {s : AWorld C α} (h : Kept A T s) (j : Nat) :
    ∃ s', emptied A j s = .ok s' ∧ Kept A T s' ∧ s'.alc = s.alc ∧ ∀ i, i ≠ j → s'.w.own i = s.w.own i := by
  obtain ⟨s1, h1, h2, h3, h4, h5⟩ := dropA_kept h j
  have h1' : prim A (s.alc j) (.drop j) s = .ok s1 := h1
  cases hl : A.left with
  | none => exact ⟨s1, by simp only [emptied, h1', Res.bind_ok, hl], h2, h3, h5⟩
  | some c =>
    refine ⟨_, by simp only [emptied, h1', Res.bind_ok, hl]; rfl, ?_, ?_, ?_⟩
    · have := h2.add hT h4 (A.leaves c hl) (s1.alc j)
      rwa [show (s1.by (s1.alc j) (s1.w.add A j c)).setAlc j (s1.alc j) = s1.by (s1.alc j) (s1.w.add A j c) from setAlc_self _ _] at this
    · exact h3
    · intro i hi
      show upd s1.w.own j (some s1.w.num) i = _
      rw [upd_other _ _ hi]; exact h5 i hi

theorem moveWithA_kept (hT : T.Lawful) {s : AWorld C α} (h : Kept A T s) {i j : Nat} {o : Cop} {a : α} (h1 : s.w.own i = none) (h2 : i ≠ j)
    (h3 : T.same a (s.alc j) = false → CanCopy A s j o) :
    ∃ s', moveWithA A T i j o a s = .ok s' ∧ Kept A T s' ∧ s'.alc = upd s.alc i a := by
  unfold moveWithA
  cases ha : T.same a (s.alc j) with
  | true =>
    obtain ⟨s', q1, q2, q3⟩ := move_kept hT h h1 h2 ha ha
    exact ⟨_, by rw [if_pos rfl, q1]; rfl, q2, by unfold AWorld.setAlc; rw [q3]⟩
  | false =>
    obtain ⟨c, c', -, -, -, q1, q2⟩ := copyWithA_kept hT h (a := a) h1 (h3 ha)
    obtain ⟨s', q3, q4, q5, -⟩ := emptied_kept hT q2 j
    exact ⟨s', by rw [if_neg (by simp), q1]; exact q3, q4, q5⟩

/-- The allocators after `swap_impl`. -/
def swapped (T : Traits α) (alc : Nat → α) (i j : Nat) : Nat → α := if T.pocs then upd (upd alc i (alc j)) j (alc i) else alc

theorem swapA_eq (s : AWorld C α) (i j : Nat) :
    swapA A T i j s = .ok ⟨{ s.w with own := upd (upd s.w.own i (s.w.own j)) j (s.w.own i) }, swapped T s.alc i j, s.log⟩ := by
  unfold swapA prim swapped
  simp only [Owners.step, Res.bind_ok]
  rw [by_quiet _ (by rfl)]
  cases T.pocs <;> rfl

theorem swapA_kept (hT : T.Lawful) {s : AWorld C α} (h : Kept A T s) {i j : Nat} (hp : T.pocs = true ∨ T.same (s.alc i) (s.alc j) = true) :
    ∃ s', swapA A T i j s = .ok s' ∧ Kept A T s' ∧ s'.alc = swapped T s.alc i j := by
  refine ⟨_, swapA_eq s i j, ?_, rfl⟩
  obtain ⟨w', hw, hs⟩ := step_sound h.sound (x := .swap i j) trivial
  cases hw
  refine h.quiet hs rfl rfl _ ?_
  intro x k hk
  change upd (upd s.w.own i (s.w.own j)) j (s.w.own i) x = some k at hk
  unfold swapped
  cases hpo : T.pocs with
  | true =>
    rw [if_pos rfl]
    by_cases hx : x = j
    · rw [hx, upd_self] at hk
      exact ⟨i, hk, fun b hb => by rw [hx, upd_self]; exact hb⟩
    · rw [upd_other _ _ hx] at hk
      by_cases hy : x = i
      · rw [hy, upd_self] at hk
        exact ⟨j, hk, fun b hb => by rw [upd_other _ _ hx, hy, upd_self]; exact hb⟩
      · rw [upd_other _ _ hy] at hk
        exact ⟨x, hk, fun b hb => by rw [upd_other _ _ hx, upd_other _ _ hy]; exact hb⟩
  | false =>
    rw [if_neg (by simp)]
    have he : T.same (s.alc i) (s.alc j) = true := by
      rcases hp with hp | hp
      · rw [hpo] at hp; cases hp
      · exact hp
    by_cases hx : x = j
    · rw [hx, upd_self] at hk
      exact ⟨i, hk, fun b hb => by rw [hx]; exact hT.trans _ _ _ (hT.symm _ _ he) hb⟩
    · rw [upd_other _ _ hx] at hk
      by_cases hy : x = i
      · rw [hy, upd_self] at hk
        exact ⟨j, hk, fun b hb => by rw [hy]; exact hT.trans _ _ _ he hb⟩
      · rw [upd_other _ _ hy] at hk
        exact ⟨x, hk, fun b hb => hb⟩

/-- The allocator each object has after an action according to the standard: assignment takes that of the source if it
propagates and keeps it otherwise, `swap` exchanges the allocators if they propagate, a copy asks
`select_on_container_copy_construction`. -/
def newAlc (T : Traits α) (alc : Nat → α) : AAct α New Cop Op → Nat → α
  | .make i _ a => upd alc i a
  | .copy i j _ => upd alc i (T.select (alc j))
  | .copyWith i _ _ a => upd alc i a
  | .move i j => upd alc i (alc j)
  | .moveWith i _ _ a => upd alc i a
  | .assign i j _ _ => if T.pocca then upd alc i (alc j) else alc
  | .moveAssign i j _ _ => if T.pocma then upd alc i (alc j) else alc
  | .swap i j => if T.pocs then upd (upd alc i (alc j)) j (alc i) else alc
  | .call _ _ => alc
  | .drop _ => alc

/-- The temporary of an assignment. -/
def isTemp : AAct α New Cop Op → Nat → Prop
  | .assign _ _ t _, x => x = t
  | .moveAssign _ _ t _, x => x = t
  | _, _ => False

/-- After a temporary with allocator `a` was swapped in. -/
theorem swapped_temp (hT : T.Lawful) (alc : Nat → α) {i t : Nat} (hit : i ≠ t) {a : α} {p : Bool} {b : α} (ha : a = if p then b else alc i)
    (hc : (p = true → T.pocs = true) ∨ ∀ a b, T.same a b = true) {x : Nat} (hx : x ≠ t) :
    T.same (swapped T (upd alc t a) i t x) ((if p then upd alc i b else alc) x) = true := by
  rcases hc with hc | hc
  swap
  · exact hc _ _
  have hu : upd alc t a i = alc i := upd_other _ _ hit
  have hx' : upd alc t a x = alc x := upd_other _ _ hx
  unfold swapped
  cases hp : p with
  | true =>
    rw [hc hp, if_pos rfl, if_pos rfl, upd_other _ _ hx]
    rw [hp, if_pos rfl] at ha
    by_cases hxi : x = i
    · rw [hxi, upd_self, upd_self, upd_self, ha]; exact hT.refl _
    · rw [upd_other _ _ hxi, upd_other _ _ hxi, hx']; exact hT.refl _
  | false =>
    rw [hp, if_neg (by simp)] at ha
    rw [if_neg (show ¬ false = true by simp)]
    split
    · rw [upd_other _ _ hx]
      by_cases hxi : x = i
      · rw [hxi, upd_self, upd_self, ha]; exact hT.refl _
      · rw [upd_other _ _ hxi, hx']; exact hT.refl _
    · rw [hx']; exact hT.refl _

/-- Assignments. -/
def isAssign : AAct α New Cop Op → Bool
  | .assign .. => true
  | .moveAssign .. => true
  | _ => false

theorem stepA_kept (hT : T.Lawful) {s : AWorld C α} (h : Kept A T s) {x : AAct α New Cop Op} (hc : isAssign x = true → T.Coherent)
    (hf : FitA A T s x) :
    ∃ s', stepA A T x s = .ok s' ∧ Kept A T s' ∧ ∀ y, ¬ isTemp x y → T.same (s'.alc y) (newAlc T s.alc x y) = true := by
  have heq : ∀ {f g : Nat → α}, f = g → ∀ y, T.same (f y) (g y) = true := fun hfg y => by rw [hfg]; exact hT.refl _
  have hsw : ∀ {alc : Nat → α} {i t : Nat} {a b : α} {p : Bool}, i ≠ t → (a = if p then b else alc i) →
      ((p = true → T.pocs = true) ∨ ∀ a b, T.same a b = true) →
      T.pocs = true ∨ T.same (upd alc t a i) (upd alc t a t) = true := by
    intro alc i t a b p hit ha hcp
    rcases hcp with hcp | hcp
    · cases hp : p with
      | true => exact Or.inl (hcp hp)
      | false =>
        rw [hp, if_neg (by simp)] at ha
        right
        rw [upd_other _ _ hit, upd_self, ha]
        exact hT.refl _
    · exact Or.inr (hcp _ _)
  cases x with
  | make i n a =>
    obtain ⟨s', q1, q2, q3⟩ := makeA_kept hT h (a := a) hf.1 hf.2
    exact ⟨s', q1, q2, fun y _ => heq q3 y⟩
  | copy i j o =>
    obtain ⟨c, c', -, -, -, q1, q2⟩ := copyWithA_kept hT h (a := T.select (s.alc j)) hf.1 hf.2
    exact ⟨_, q1, q2, fun y _ => heq rfl y⟩
  | copyWith i j o a =>
    obtain ⟨c, c', -, -, -, q1, q2⟩ := copyWithA_kept hT h (a := a) hf.1 hf.2
    exact ⟨_, q1, q2, fun y _ => heq rfl y⟩
  | move i j =>
    obtain ⟨s', q1, q2, q3⟩ := move_kept hT h hf.1 hf.2 (hT.refl (s.alc j)) (hT.refl (s.alc j))
    refine ⟨s'.setAlc i (s.alc j), ?_, q2, fun y _ => heq ?_ y⟩
    · show moveA A i j s = _
      unfold moveA; rw [q1]; rfl
    · unfold AWorld.setAlc; rw [q3]; rfl
  | moveWith i j o a =>
    obtain ⟨s', q1, q2, q3⟩ := moveWithA_kept hT h (a := a) hf.1 hf.2.1 hf.2.2
    exact ⟨s', q1, q2, fun y _ => heq q3 y⟩
  | assign i j t o =>
    have hc1 : (T.pocca = true → T.pocs = true) ∨ ∀ a b, T.same a b = true := (hc rfl).imp (fun hq => hq.1) id
    obtain ⟨f1, f2, f3, f4⟩ := hf
    obtain ⟨c, c', -, -, -, q1, q2⟩ := copyWithA_kept hT h (a := if T.pocca then s.alc j else s.alc i) f1 f4
    obtain ⟨s2, q3, q4, q5⟩ := swapA_kept hT q2 (i := i) (j := t) (hsw f2 rfl hc1)
    obtain ⟨s3, q6, q7, q8, -, -⟩ := dropA_kept q4 t
    refine ⟨s3, ?_, q7, fun y hy => ?_⟩
    · show assignA A T i j t o s = _
      unfold assignA; rw [q1]; simp only [Res.bind_ok]; rw [q3]; exact q6
    · rw [q8, q5]
      exact swapped_temp hT s.alc f2 rfl hc1 hy
  | moveAssign i j t o =>
    have hc2 : (T.pocma = true → T.pocs = true) ∨ ∀ a b, T.same a b = true := (hc rfl).imp (fun hq => hq.2) id
    by_cases hij : i = j
    · refine ⟨s, ?_, h, fun y _ => ?_⟩
      · show moveAssignA A T i j t o s = _
        unfold moveAssignA; rw [if_pos hij]
      · apply heq
        show s.alc = if T.pocma then upd s.alc i (s.alc j) else s.alc
        split
        · rw [← hij]
          exact (congrArg AWorld.alc (setAlc_self s i)).symm
        · rfl
    · rcases hf with hf | ⟨f1, f2, f3, f4⟩
      · exact absurd hf hij
      have key : ∃ s1, (if T.pocma then moveA A t j s else moveWithA A T t j o (s.alc i) s) = .ok s1 ∧ Kept A T s1 ∧
          s1.alc = upd s.alc t (if T.pocma then s.alc j else s.alc i) := by
        cases hp : T.pocma with
        | true =>
          obtain ⟨s', q1, q2, q3⟩ := move_kept hT h f1 (Ne.symm f3) (hT.refl (s.alc j)) (hT.refl (s.alc j))
          refine ⟨s'.setAlc t (s.alc j), ?_, q2, ?_⟩
          · rw [if_pos rfl]; unfold moveA; rw [q1]; rfl
          · rw [if_pos rfl]; unfold AWorld.setAlc; rw [q3]
        | false =>
          obtain ⟨s', q1, q2, q3⟩ := moveWithA_kept hT h (a := s.alc i) f1 (Ne.symm f3) (f4 hp)
          exact ⟨s', by rw [if_neg (by simp)]; exact q1, q2, by rw [if_neg (by simp)]; exact q3⟩
      obtain ⟨s1, q1, q2, qa⟩ := key
      obtain ⟨s2, q3, q4, q5⟩ := swapA_kept hT q2 (i := i) (j := t) (by rw [qa]; exact hsw f2 rfl hc2)
      obtain ⟨s3, q6, q7, q8, -, -⟩ := dropA_kept q4 t
      refine ⟨s3, ?_, q7, fun y hy => ?_⟩
      · show moveAssignA A T i j t o s = _
        unfold moveAssignA; rw [if_neg hij, q1]; simp only [Res.bind_ok]; rw [q3]; exact q6
      · rw [q8, q5, qa]
        exact swapped_temp hT s.alc f2 rfl hc2 hy
  | swap i j =>
    obtain ⟨s', q1, q2, q3⟩ := swapA_kept hT h hf
    exact ⟨s', q1, q2, fun y _ => heq q3 y⟩
  | call i o =>
    obtain ⟨c, h2, h3⟩ := hf
    cases hk : s.w.own i with
    | none => rw [hk] at h2; cases h2
    | some k =>
      rw [hk] at h2
      have hck : s.w.con k = some c := h2
      obtain ⟨c', h4, h5, l, h6⟩ := A.acted o c (h.sound.good k c hck) h3
      obtain ⟨w', hw, hs⟩ := step_sound h.sound (x := .call i o) ⟨c, by rw [hk]; exact h2, h3⟩
      have hw' : w' = { s.w with con := upd s.w.con k (some c'), log := s.w.log ++ l.map (Ev.ren (Nat.pair k)) } := by
        simp only [Owners.step, hk, hck, h4, Res.bind_ok, h6, List.drop_left] at hw
        cases hw; rfl
      refine ⟨s.by (s.alc i) w', ?_, h.more hk hs (l := l) (by rw [hw']) (by rw [hw']) (by rw [hw']; exact fun _ _ hx => hx), fun y _ => heq rfl y⟩
      show prim A (s.alc i) (.call i o) s = _
      unfold prim; rw [hw]; rfl
  | drop i =>
    obtain ⟨s', q1, q2, q3, -, -⟩ := dropA_kept h i
    exact ⟨s', q1, q2, fun y _ => heq q3 y⟩

theorem runA_kept (hT : T.Lawful) : ∀ (xs : List (AAct α New Cop Op)) {s : AWorld C α}, (∀ x ∈ xs, isAssign x = true → T.Coherent) →
    Kept A T s → FitAllA A T xs s → ∃ s', runA A T xs s = .ok s' ∧ Kept A T s' := by
  intro xs
  induction xs with
  | nil => intro s _ h _; exact ⟨s, rfl, h⟩
  | cons x xs ih =>
    intro s hc h hf
    obtain ⟨s1, h1, h2, -⟩ := stepA_kept hT h (hc x List.mem_cons_self) hf.1
    obtain ⟨s2, g1, g2⟩ := ih (fun y hy => hc y (List.mem_cons_of_mem _ hy)) h2 (hf.2 s1 h1)
    refine ⟨s2, ?_, g2⟩
    unfold runA
    rw [h1]
    exact g1

/-- Programs whose allocators have coherent traits. -/
theorem programA (hT : T.Lawful) (hc : T.Coherent) (a : α) {xs : List (AAct α New Cop Op)} (hf : FitAllA A T xs (AWorld.start a)) :
    ∃ s, runA A T xs (AWorld.start a) = .ok s ∧ Clean A s.w ∧ s.log.map Prod.snd = s.w.log ∧ Faithful T s := by
  obtain ⟨s, h1, h2⟩ := runA_kept hT xs (fun _ _ _ => hc) (Kept.start a) hf
  exact ⟨s, h1, h2.sound.clean, h2.tags, h2.faithful hT⟩

/-! ### Allocators that replace others at assignment but not at `swap` -/

/-- Objects that are alive are in blocks that are held. -/
theorem live_held : ∀ (l : List Ev) {g g' : Heap}, (∀ o ∈ g.live, ∃ n, (o.1, n) ∈ g.blocks) → Heap.run l g = some g' →
    ∀ o ∈ g'.live, ∃ n, (o.1, n) ∈ g'.blocks := by
  intro l
  induction l with
  | nil => intro g g' h hr; cases hr; exact h
  | cons e l ih =>
    intro g g' h hr
    unfold Heap.run at hr
    cases hs : g.step e with
    | none => rw [hs] at hr; cases hr
    | some g1 =>
      rw [hs] at hr
      refine ih ?_ hr
      cases e with
      | alloc b n =>
        simp only [Heap.step] at hs
        split at hs
        · cases hs
        · cases hs
          intro o ho
          obtain ⟨m, hm⟩ := h o ho
          exact ⟨m, List.mem_cons_of_mem _ hm⟩
      | free b n =>
        simp only [Heap.step] at hs
        split at hs
        · rename_i hq
          cases hs
          intro o ho
          obtain ⟨m, hm⟩ := h o ho
          rw [Bool.and_eq_true, List.all_eq_true] at hq
          have hne := hq.2 o ho
          refine ⟨m, (List.mem_erase_of_ne ?_).mpr hm⟩
          intro hh
          rw [show o.1 = b from congrArg Prod.fst hh] at hne
          simp at hne
        · cases hs
      | ctor b i =>
        simp only [Heap.step] at hs
        split at hs
        · rename_i hq
          cases hs
          intro o ho
          rcases List.mem_cons.mp ho with ho | ho
          · rw [Bool.and_eq_true, List.any_eq_true] at hq
            obtain ⟨⟨y, hy, hy'⟩, -⟩ := hq
            rw [Bool.and_eq_true, beq_iff_eq] at hy'
            exact ⟨y.2, by rw [ho]; show (b, y.2) ∈ _; rw [← hy'.1]; exact hy⟩
          · exact h o ho
        · cases hs
      | dtor b i =>
        simp only [Heap.step] at hs
        split at hs
        · cases hs
          intro o ho
          exact h o (List.mem_of_mem_erase ho)
        · cases hs

/-- The block of a content with elements is obtained in its log and given back by its destructor. -/
theorem block_of {c : C} (hg : A.good c) (hn : A.size c ≠ 0) : ∃ b n, Ev.alloc b n ∈ A.log c ∧ Ev.free b n ∈ A.drop c := by
  obtain ⟨g, h1, h2⟩ := A.run c hg
  have h3 := A.dropped c hg
  rw [Life.run_append, h1] at h3
  have h3 : Heap.run (A.drop c) g = some Heap.empty := h3
  obtain ⟨o, ho⟩ : ∃ o, o ∈ g.live := by
    cases hl : g.live with
    | nil => rw [hl] at h2; exact absurd h2.symm hn
    | cons o l => exact ⟨o, List.mem_cons_self⟩
  obtain ⟨n, hb⟩ := live_held _ (g := Heap.empty) (fun o ho => (by cases ho)) h1 o ho
  have hc : 0 < g.blocks.count (o.1, n) := List.count_pos_iff.mpr hb
  refine ⟨o.1, n, ?_, ?_⟩
  · have := Life.balance_block o.1 n _ _ _ h1
    apply List.count_pos_iff.mp
    simp only [Heap.empty, List.count_nil] at this
    omega
  · have := Life.balance_block o.1 n _ _ _ h3
    apply List.count_pos_iff.mp
    simp only [Heap.empty, List.count_nil] at this
    omega

theorem dropA_eq {s : AWorld C α} {i k : Nat} {c : C} (hk : s.w.own i = some k) (hc : s.w.con k = some c) :
    dropA A i s = .ok ⟨{ s.w with own := upd s.w.own i none, con := upd s.w.con k none, log := s.w.log ++ (A.drop c).map (Ev.ren (Nat.pair k)) },
      s.alc, s.log ++ ((A.drop c).map (Ev.ren (Nat.pair k))).map fun e => (s.alc i, e)⟩ := by
  simp only [dropA, prim, Owners.step, hk, hc, Res.bind_ok, AWorld.by, List.drop_left]

/-- Copy assignment that takes the memory but not the allocator. -/
theorem assign_wrong (hT : T.Lawful) (hp : T.pocca = true) (hq : T.pocs = false) {s : AWorld C α} (h : Kept A T s) {i j t : Nat} {o : Cop}
    (hf : FitA A T s (.assign i j t o : AAct α New Cop Op))
    (hz : ∀ c c', (s.w.own j).bind s.w.con = some c → A.copy o c = .ok c' → A.size c' ≠ 0) :
    ∃ s1 s2, stepA A T (.assign i j t o) s = .ok s1 ∧ s1.alc i = s.alc i ∧ stepA A T (.drop i) s1 = .ok s2 ∧
      ∃ b n, (s.alc j, Ev.alloc b n) ∈ s2.log ∧ (s.alc i, Ev.free b n) ∈ s2.log := by
  obtain ⟨f1, f2, f3, f4⟩ := hf
  obtain ⟨c, c', e1, e2, e3, q1, q2⟩ := copyWithA_kept hT h (a := if T.pocca then s.alc j else s.alc i) f1 f4
  rw [hp, if_pos rfl] at q1 q2
  obtain ⟨b, n, hb1, hb2⟩ := block_of e3 (hz c c' e1 e2)
  -- the swap
  have q3 := swapA_eq (A := A) (T := T) ((s.by (s.alc j) (s.w.add A t c')).setAlc t (s.alc j)) i t
  have halc : swapped T (upd s.alc t (s.alc j)) i t = upd s.alc t (s.alc j) := by unfold swapped; rw [hq]; rfl
  have hown : ∀ x, upd (upd (upd s.w.own t (some s.w.num)) i (upd s.w.own t (some s.w.num) t)) t (upd s.w.own t (some s.w.num) i) x =
      if x = t then s.w.own i else if x = i then some s.w.num else s.w.own x := by
    intro x
    by_cases hx : x = t
    · rw [hx, upd_self, if_pos rfl, upd_other _ _ f2]
    · rw [upd_other _ _ hx, if_neg hx]
      by_cases hy : x = i
      · rw [hy, upd_self, upd_self, if_pos rfl]
      · rw [upd_other _ _ hy, upd_other _ _ hx, if_neg hy]
  have hlog : ((s.by (s.alc j) (s.w.add A t c')).setAlc t (s.alc j)).log =
      s.log ++ ((A.log c').map (Ev.ren (Nat.pair s.w.num))).map fun e => (s.alc j, e) :=
    (tags_by h.tags (a := s.alc j) (w' := s.w.add A t c') (l := (A.log c').map (Ev.ren (Nat.pair s.w.num))) rfl).2
  obtain ⟨s2, hs2⟩ : ∃ s2, s2 = (⟨{ (s.w.add A t c') with own := (upd (upd (upd s.w.own t (some s.w.num)) i (upd s.w.own t (some s.w.num) t)) t (upd s.w.own t (some s.w.num) i)) }, upd s.alc t (s.alc j),
      s.log ++ ((A.log c').map (Ev.ren (Nat.pair s.w.num))).map fun e => (s.alc j, e)⟩ : AWorld C α) := ⟨_, rfl⟩
  have q3' : swapA A T i t ((s.by (s.alc j) (s.w.add A t c')).setAlc t (s.alc j)) = .ok s2 := by
    rw [q3, hlog, hs2]
    show Res.ok (AWorld.mk _ (swapped T (upd s.alc t (s.alc j)) i t) _) = _
    rw [halc]; rfl
  -- the old content of `i` is destroyed
  have hdrop : ∃ s3, dropA A t s2 = .ok s3 ∧ s3.alc = s2.alc ∧ s3.w.own i = some s.w.num ∧ s3.w.con s.w.num = some c' ∧
      ∃ l, s3.log = s2.log ++ l := by
    have hi2 : s2.w.own i = some s.w.num := by
      rw [hs2]; show upd _ _ _ _ = _; rw [hown, if_neg f2, if_pos rfl]
    have hc2 : s2.w.con s.w.num = some c' := by rw [hs2]; exact upd_self _ _ _
    cases hk : s.w.own i with
    | none =>
      have ht : s2.w.own t = none := by rw [hs2]; show upd _ _ _ _ = _; rw [hown, if_pos rfl, hk]
      refine ⟨s2, ?_, rfl, hi2, hc2, [], by rw [List.append_nil]⟩
      simp only [dropA, prim, Owners.step, ht, Res.bind_ok, by_quiet]
    | some k =>
      have ht : s2.w.own t = some k := by rw [hs2]; show upd _ _ _ _ = _; rw [hown, if_pos rfl, hk]
      obtain ⟨d, hd⟩ := Option.isSome_iff_exists.mp ((h.sound.owned k).mpr ⟨i, hk⟩)
      have hlt := h.sound.num k (by rw [hd]; rfl)
      have hd2 : s2.w.con k = some d := by
        rw [hs2]; show upd s.w.con s.w.num (some c') k = _
        rw [upd_other _ _ (Nat.ne_of_lt hlt), hd]
      refine ⟨_, dropA_eq ht hd2, rfl, ?_, ?_, _, rfl⟩
      · show upd s2.w.own t none i = _
        rw [upd_other _ _ f2, hi2]
      · show upd s2.w.con k none s.w.num = _
        rw [upd_other _ _ (Nat.ne_of_gt hlt), hc2]
  obtain ⟨s3, r1, r2, r3, r4, l, r5⟩ := hdrop
  have halci : s3.alc i = s.alc i := by rw [r2, hs2]; exact upd_other _ _ f2
  refine ⟨s3, _, ?_, halci, dropA_eq r3 r4, Nat.pair s.w.num b, n, ?_, ?_⟩
  · show assignA A T i j t o s = _
    unfold assignA; rw [hp, if_pos rfl, q1]; simp only [Res.bind_ok]; rw [q3']; exact r1
  · apply List.mem_append_left
    rw [r5, hs2]
    apply List.mem_append_left
    apply List.mem_append_right
    exact List.mem_map.mpr ⟨_, List.mem_map.mpr ⟨_, hb1, rfl⟩, rfl⟩
  · apply List.mem_append_right
    rw [halci]
    exact List.mem_map.mpr ⟨_, List.mem_map.mpr ⟨_, hb2, rfl⟩, rfl⟩

end
end Verif.Owners

namespace Verif.Owners
open Verif
open Verif.Life

/-! ### A test for programs, used in examples -/

section
variable {α C New Cop Op : Type}

/-- A sufficient test for `FitA`. -/
def fitAB (T : Traits α) (tN : New → Bool) (tC : Cop → C → Bool) (tO : Op → C → Bool) (s : AWorld C α) : AAct α New Cop Op → Bool
  | .make i n _ => (s.w.own i).isNone && tN n
  | .copy i j o => (s.w.own i).isNone && (match (s.w.own j).bind s.w.con with | none => false | some c => tC o c)
  | .copyWith i j o _ => (s.w.own i).isNone && (match (s.w.own j).bind s.w.con with | none => false | some c => tC o c)
  | .move i j => (s.w.own i).isNone && decide (i ≠ j)
  | .moveWith i j o a => (s.w.own i).isNone && decide (i ≠ j) &&
      (T.same a (s.alc j) || (match (s.w.own j).bind s.w.con with | none => false | some c => tC o c))
  | .assign i j t o => (s.w.own t).isNone && decide (i ≠ t) && decide (j ≠ t) &&
      (match (s.w.own j).bind s.w.con with | none => false | some c => tC o c)
  | .moveAssign i j t o => decide (i = j) || (s.w.own t).isNone && decide (i ≠ t) && decide (j ≠ t) &&
      (T.pocma || T.same (s.alc i) (s.alc j) || (match (s.w.own j).bind s.w.con with | none => false | some c => tC o c))
  | .swap i j => T.pocs || T.same (s.alc i) (s.alc j)
  | .call i o => match (s.w.own i).bind s.w.con with | none => false | some c => tO o c
  | .drop _ => true

/-- A sufficient test for `FitAllA`. -/
def progAB (A : Class C New Cop Op) (T : Traits α) (tN : New → Bool) (tC : Cop → C → Bool) (tO : Op → C → Bool) :
    List (AAct α New Cop Op) → AWorld C α → Bool
  | [], _ => true
  | x :: xs, s => fitAB T tN tC tO s x && (match stepA A T x s with | .ok s' => progAB A T tN tC tO xs s' | _ => true)

theorem progAB_sound {A : Class C New Cop Op} {T : Traits α} {tN : New → Bool} {tC : Cop → C → Bool} {tO : Op → C → Bool}
    (hN : ∀ n, tN n = true → A.fitNew n) (hC : ∀ o c, tC o c = true → A.fitCopy o c) (hO : ∀ o c, tO o c = true → A.fit o c) :
    ∀ (xs : List (AAct α New Cop Op)) (s : AWorld C α), progAB A T tN tC tO xs s = true → FitAllA A T xs s := by
  have hcc : ∀ (s : AWorld C α) (j : Nat) (o : Cop), (match (s.w.own j).bind s.w.con with | none => false | some c => tC o c) = true →
      CanCopy A s j o := by
    intro s j o h
    split at h
    · cases h
    · rename_i c hc; exact ⟨c, hc, hC _ _ h⟩
  intro xs
  induction xs with
  | nil => intro s _; trivial
  | cons x xs ih =>
    intro s h
    unfold progAB at h
    rw [Bool.and_eq_true] at h
    refine ⟨?_, fun s' hs => ih s' ?_⟩
    · have h1 := h.1
      cases x with
      | make i n a =>
        simp only [fitAB, Bool.and_eq_true, Option.isNone_iff_eq_none] at h1
        exact ⟨h1.1, hN _ h1.2⟩
      | copy i j o =>
        rw [fitAB, Bool.and_eq_true, Option.isNone_iff_eq_none] at h1
        exact ⟨h1.1, hcc _ _ _ h1.2⟩
      | copyWith i j o a =>
        rw [fitAB, Bool.and_eq_true, Option.isNone_iff_eq_none] at h1
        exact ⟨h1.1, hcc _ _ _ h1.2⟩
      | move i j =>
        rw [fitAB, Bool.and_eq_true, Option.isNone_iff_eq_none, decide_eq_true_eq] at h1
        exact h1
      | moveWith i j o a =>
        rw [fitAB, Bool.and_eq_true, Bool.and_eq_true, Option.isNone_iff_eq_none, decide_eq_true_eq, Bool.or_eq_true] at h1
        refine ⟨h1.1.1, h1.1.2, fun hf => ?_⟩
        rcases h1.2 with hh | hh
        · rw [hf] at hh; cases hh
        · exact hcc _ _ _ hh
      | assign i j t o =>
        rw [fitAB, Bool.and_eq_true, Bool.and_eq_true, Bool.and_eq_true, Option.isNone_iff_eq_none, decide_eq_true_eq, decide_eq_true_eq] at h1
        exact ⟨h1.1.1.1, h1.1.1.2, h1.1.2, hcc _ _ _ h1.2⟩
      | moveAssign i j t o =>
        rw [fitAB, Bool.or_eq_true, Bool.and_eq_true, Bool.and_eq_true, Bool.and_eq_true, Option.isNone_iff_eq_none, decide_eq_true_eq,
          decide_eq_true_eq, decide_eq_true_eq, Bool.or_eq_true, Bool.or_eq_true] at h1
        rcases h1 with h1 | h1
        · exact Or.inl h1
        · refine Or.inr ⟨h1.1.1.1, h1.1.1.2, h1.1.2, fun hp hq => ?_⟩
          rcases h1.2 with (hh | hh) | hh
          · rw [hp] at hh; cases hh
          · rw [hq] at hh; cases hh
          · exact hcc _ _ _ hh
      | swap i j =>
        rw [fitAB, Bool.or_eq_true] at h1
        exact h1
      | call i o =>
        rw [fitAB] at h1
        split at h1
        · cases h1
        · rename_i c hc; exact ⟨c, hc, hO _ _ h1⟩
      | drop i => trivial
    · have h2 := h.2
      rw [hs] at h2
      exact h2

end
end Verif.Owners

namespace Verif.Life
open Verif
open Verif.Group
open Verif.Spec (Call)
open Verif.Owners (AAct AWorld Traits runA stepA FitA FitAllA Faithful Clean newAlc isTemp isAssign)

variable {α K V : Type} {E : Env K} {S : Nat}

/-- C132 (partial), group15: in a program with any number of maps, each with an allocator of its own, every block is obtained from,
used through and given back to allocators that are equal, each block once and each element once (`Clean`) — for allocators
that are swapped whenever they replace others at assignment (`Coherent`), and `swap` used as the standard permits.
Missing: copies into a table of the same capacity, exceptions in constructors. -/
theorem C132_group15_partial (hE : E.Lawful) (hs : 1 ≤ S) (hS : S ≤ 256) {T : Traits α} (hT : T.Lawful) (hc : T.Coherent) (a : α)
    {xs : List (AAct α ((Bool × Bool) × Nat) Bool ((Bool × Bool) × Call K V))} (hf : FitAllA (class15 E S hE hs hS) T xs (AWorld.start a)) :
    ∃ s, runA (class15 E S hE hs hS) T xs (AWorld.start a) = .ok s ∧ Clean (class15 E S hE hs hS) s.w ∧
      s.log.map Prod.snd = s.w.log ∧ Faithful T s :=
  Owners.programA hT hc a hf

/-- C132 (partial), group15: after each action of such a program `get_allocator()` of every map is what the standard says (`newAlc`). -/
theorem C132_get_allocator_partial (hE : E.Lawful) (hs : 1 ≤ S) (hS : S ≤ 256) {T : Traits α} (hT : T.Lawful) (hc : T.Coherent) (a : α)
    {xs : List (AAct α ((Bool × Bool) × Nat) Bool ((Bool × Bool) × Call K V))} (hf : FitAllA (class15 E S hE hs hS) T xs (AWorld.start a))
    {s : AWorld (LT K V) α} (hr : runA (class15 E S hE hs hS) T xs (AWorld.start a) = .ok s)
    {x : AAct α ((Bool × Bool) × Nat) Bool ((Bool × Bool) × Call K V)} (hx : FitA (class15 E S hE hs hS) T s x) :
    ∃ s', stepA (class15 E S hE hs hS) T x s = .ok s' ∧ ∀ i, ¬ isTemp x i → T.same (s'.alc i) (newAlc T s.alc x i) = true := by
  obtain ⟨s0, h1, h2⟩ := Owners.runA_kept hT xs (fun _ _ _ => hc) (Owners.Kept.start a) hf
  rw [hr] at h1
  cases h1
  obtain ⟨s', q1, -, q3⟩ := Owners.stepA_kept hT h2 (fun _ => hc) hx
  exact ⟨s', q1, q3⟩

/-- C132, the violation: when allocators replace others at copy assignment but not at `swap`, a map that a map with elements and an
unequal allocator is assigned to keeps its own allocator and gives the memory of the other one back to it. -/
theorem C132_assign_wrong_allocator (hE : E.Lawful) (hs : 1 ≤ S) (hS : S ≤ 256) {T : Traits α} (hT : T.Lawful) (hp : T.pocca = true)
    (hq : T.pocs = false) (a : α) {xs : List (AAct α ((Bool × Bool) × Nat) Bool ((Bool × Bool) × Call K V))}
    (ha : ∀ x ∈ xs, isAssign x = false) (hf : FitAllA (class15 E S hE hs hS) T xs (AWorld.start a))
    {s : AWorld (LT K V) α} (hr : runA (class15 E S hE hs hS) T xs (AWorld.start a) = .ok s) {i j t : Nat} {mem : Bool}
    (hx : FitA (class15 E S hE hs hS) T s (.assign i j t mem : AAct α ((Bool × Bool) × Nat) Bool ((Bool × Bool) × Call K V)))
    (hz : ∀ c, (s.w.own j).bind s.w.con = some c → c.t.size ≠ 0) (hne : T.same (s.alc j) (s.alc i) = false) :
    ∃ s1 s2, stepA (class15 E S hE hs hS) T (.assign i j t mem) s = .ok s1 ∧ s1.alc i = s.alc i ∧
      stepA (class15 E S hE hs hS) T (.drop i) s1 = .ok s2 ∧
      (∃ b n, (s.alc j, Ev.alloc b n) ∈ s2.log ∧ (s.alc i, Ev.free b n) ∈ s2.log) ∧ ¬ Faithful T s2 := by
  obtain ⟨s0, h1, h2⟩ := Owners.runA_kept hT xs (fun x hx' h => by rw [ha x hx'] at h; cases h) (Owners.Kept.start a) hf
  rw [hr] at h1
  cases h1
  obtain ⟨s1, s2, q1, q2, q3, b, n, q4, q5⟩ := Owners.assign_wrong hT hp hq h2 hx (fun c c' hc hcp => by
    have hG : Good laws15 E S c := by
      cases hk : s.w.own j with
      | none => rw [hk] at hc; cases hc
      | some k => rw [hk] at hc; exact h2.sound.good k c hc
    obtain ⟨c0, d1, d2⟩ := hx.2.2.2
    rw [hc] at d1
    cases d1
    obtain ⟨c1, d3, d4⟩ := d2
    have hcp' : done (copyE E S mem (fun _ => false) (start layout15) c.t) = .ok c' := hcp
    rw [d3] at hcp'
    cases hcp'
    obtain ⟨⟨h, hB, hn⟩, -⟩ := (copyE_beside hE hs hS hG.1 (start_before (K := K) (V := V)) mem).1 c' d3
    obtain ⟨g, hl⟩ := (copyE_good hE hs hS hG.1 d3 d4).2
    have e1 : h = g := by
      have := hB.run
      rw [hl.run] at this
      exact (Option.some.inj this).symm
    have e2 := hl.length (copyE_good hE hs hS hG.1 d3 d4).1
    show c'.t.size ≠ 0
    rw [← e2, ← e1, hn]
    exact hz c hc)
  refine ⟨s1, s2, q1, q2, q3, ⟨b, n, q4, q5⟩, fun hF => ?_⟩
  have := hF _ _ _ _ q4 q5 rfl
  rw [hne] at this
  cases this

/-! ### Examples -/

/-- Allocators with a number, equal if the numbers are (as `pmr` allocators with their resource). -/
def resources (pocca pocma pocs : Bool) : Traits Nat := ⟨fun a b => a == b, pocca, pocma, pocs, fun _ => 0⟩

theorem resources_lawful (p q r : Bool) : (resources p q r).Lawful :=
  ⟨fun a => by simp [resources], fun a b h => by simp [resources] at *; exact h.symm, fun a b c h g => by simp [resources] at *; exact h.trans g⟩

/-- Two maps with allocators 1 and 2. -/
def two : List (AAct Nat ((Bool × Bool) × Nat) Bool ((Bool × Bool) × Call Nat Nat)) :=
  [.make 0 ((true, true), 1) 1, .call 0 ((true, true), .insert 1 1), .make 1 ((true, true), 1) 2, .call 1 ((true, true), .insert 7 7),
   .call 1 ((true, true), .insert 8 8), .call 1 ((true, true), .reserve 100)]

/-- The same, a copy, copies and moves with an allocator, assignments, and the end of all maps. -/
def many : List (AAct Nat ((Bool × Bool) × Nat) Bool ((Bool × Bool) × Call Nat Nat)) :=
  two ++ [.copy 2 1 true, .copyWith 3 1 true 5, .moveWith 4 3 true 5, .assign 0 1 9 true, .call 0 ((true, true), .reserve 200),
    .moveAssign 1 0 9 true, .call 1 ((true, true), .reserve 100), .moveWith 5 1 true 6, .call 1 ((true, true), .insert 3 3), .drop 0, .drop 1, .drop 2, .drop 3, .drop 4, .drop 5]

set_option maxRecDepth 100000 in
example : ∃ s, runA nat15 (resources false false false) many (AWorld.start 0) = .ok s ∧ Clean nat15 s.w ∧
    s.log.map Prod.snd = s.w.log ∧ Faithful (resources false false false) s :=
  C132_group15_partial idEnv_lawful _ _ (resources_lawful _ _ _) (Or.inl ⟨fun h => (by cases h), fun h => (by cases h)⟩) 0
    (Owners.progAB_sound (tN := newB layout15) (tC := copyB) (tO := callB layout15 walk15)
      (fun _ h => newB_sound h) (fun _ _ h => copyB_sound h) (fun _ _ h => callB_sound h) _ _ (by decide +kernel))

set_option maxRecDepth 100000 in
example : ∃ s, runA nat15 (resources true true true) many (AWorld.start 0) = .ok s ∧ Clean nat15 s.w ∧
    s.log.map Prod.snd = s.w.log ∧ Faithful (resources true true true) s :=
  C132_group15_partial idEnv_lawful _ _ (resources_lawful _ _ _) (Or.inl ⟨fun _ => rfl, fun _ => rfl⟩) 0
    (Owners.progAB_sound (tN := newB layout15) (tC := copyB) (tO := callB layout15 walk15)
      (fun _ h => newB_sound h) (fun _ _ h => copyB_sound h) (fun _ _ h => callB_sound h) _ _ (by decide +kernel))

/-- The allocator numbers of the maps 0 and 1 after a program, and the faults: blocks given back to another allocator than the one they
are from. -/
def verdict (T : Traits Nat) (xs : List (AAct Nat ((Bool × Bool) × Nat) Bool ((Bool × Bool) × Call Nat Nat))) : Option (Nat × Nat × Bool) :=
  match runA nat15 T xs (AWorld.start 0) with
  | .ok s => some (s.alc 0, s.alc 1, s.log.any fun x => s.log.any fun y => x.2.name == y.2.name && x.1 != y.1)
  | _ => none

set_option maxRecDepth 100000 in
/-- `C132_get_allocator_partial` and `C132_assign_wrong_allocator`: the map assigned to has allocator 2 with coherent traits, and keeps
allocator 1 and mixes blocks when the allocator is not swapped. -/
example : verdict (resources true true true) (two ++ [.assign 0 1 9 true, .drop 0]) = some (2, 2, false) ∧
    verdict (resources true true false) (two ++ [.assign 0 1 9 true, .drop 0]) = some (1, 2, true) ∧
    verdict (resources false true false) (two ++ [.assign 0 1 9 true, .drop 0]) = some (1, 2, false) := by
  decide +kernel

set_option maxRecDepth 100000 in
/-- The hypotheses of `C132_assign_wrong_allocator`. -/
example : (∀ x ∈ two, isAssign x = false) ∧ FitAllA nat15 (resources true false false) two (AWorld.start 0) ∧
    ∃ s, runA nat15 (resources true false false) two (AWorld.start 0) = .ok s ∧
      FitA nat15 (resources true false false) s (.assign 0 1 9 true) ∧
      (∀ c, (s.w.own 1).bind s.w.con = some c → c.t.size ≠ 0) ∧ (resources true false false).same (s.alc 1) (s.alc 0) = false := by
  refine ⟨by decide, Owners.progAB_sound (tN := newB layout15) (tC := copyB) (tO := callB layout15 walk15)
      (fun _ h => newB_sound h) (fun _ _ h => copyB_sound h) (fun _ _ h => callB_sound h) _ _ (by decide +kernel), ?_⟩
  have h : (match runA nat15 (resources true false false) two (AWorld.start 0) with
      | .ok s => (match (s.w.own 1).bind s.w.con with | none => false | some c => copyB true c && decide (c.t.size ≠ 0)) &&
        (s.w.own 9).isNone && decide ((resources true false false).same (s.alc 1) (s.alc 0) = false)
      | _ => false) = true := by decide +kernel
  split at h
  · rename_i s hs
    refine ⟨s, hs, ?_⟩
    rw [Bool.and_eq_true, Bool.and_eq_true, Option.isNone_iff_eq_none, decide_eq_true_eq] at h
    obtain ⟨⟨h1, h2⟩, h3⟩ := h
    split at h1
    · cases h1
    · rename_i c hc
      rw [Bool.and_eq_true, decide_eq_true_eq] at h1
      exact ⟨⟨h2, by decide, by decide, c, hc, copyB_sound h1.1⟩, fun d hd => (by rw [hc] at hd; cases hd; exact h1.2), h3⟩
  · cases h

end Verif.Life
