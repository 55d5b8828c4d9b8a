/-
Lifetimes when group15 maps are copied and moved (C123).  The log and the heap are those of `Verif.Lifetime`.

T15 = src/jstd/hashmap/group15_flat_table.hpp.

The element type has a destructor that does something; its copy or move constructor may throw.  A constructor of a map that
throws leaves no object behind: no destructor runs for it.
-/
import Verif.Lifetime
import Verif.Copy

namespace Verif.Life
open Verif
open Verif.Spec (Call Ans)

/-! ### Several objects in one program -/

/-- `r` is made of the events of `l` and `m`, each in its order. -/
inductive Shuffle {α : Type} : List α → List α → List α → Prop
  | nil : Shuffle [] [] []
  | left {l m r : List α} (a : α) : Shuffle l m r → Shuffle (a :: l) m (a :: r)
  | right {l m r : List α} (a : α) : Shuffle l m r → Shuffle l (a :: m) (a :: r)

theorem Shuffle.append {α : Type} (l m : List α) : Shuffle l m (l ++ m) := by
  induction l with
  | nil =>
    induction m with
    | nil => exact .nil
    | cons a m ih => exact .right a ih
  | cons a l ih => exact .left a ih

/-- First `l`, then `m`, then the rest of `l`. -/
theorem Shuffle.inside {α : Type} (l m l' : List α) : Shuffle (l ++ l') m (l ++ m ++ l') := by
  induction l with
  | nil =>
    induction m with
    | nil => simpa using Shuffle.append l' []
    | cons a m ih => exact .right a ih
  | cons a l ih => exact .left a ih

/-- Other names for the blocks. -/
def Ev.ren (f : Nat → Nat) : Ev → Ev
  | .alloc b n => .alloc (f b) n
  | .free b n => .free (f b) n
  | .ctor b i => .ctor (f b) i
  | .dtor b i => .dtor (f b) i

/-- The block an event is about. -/
def Ev.name : Ev → Nat
  | .alloc b _ => b
  | .free b _ => b
  | .ctor b _ => b
  | .dtor b _ => b

def renP (f : Nat → Nat) (x : Nat × Nat) : Nat × Nat := (f x.1, x.2)

def Heap.ren (f : Nat → Nat) (h : Heap) : Heap := ⟨h.blocks.map (renP f), h.live.map (renP f)⟩

theorem renP_inj {f : Nat → Nat} (hf : Function.Injective f) : Function.Injective (renP f) := by
  rintro ⟨a, b⟩ ⟨c, d⟩ h
  simp only [renP, Prod.mk.injEq] at h
  rw [hf h.1, h.2]

theorem contains_ren {f : Nat → Nat} (hf : Function.Injective f) (l : List (Nat × Nat)) (b i : Nat) :
    (l.map (renP f)).contains (f b, i) = l.contains (b, i) := by
  rw [Bool.eq_iff_iff, List.contains_iff_mem, List.contains_iff_mem]
  exact ⟨fun h => by
    obtain ⟨x, hx, hq⟩ := List.mem_map.mp h
    rwa [← renP_inj hf (show renP f x = renP f (b, i) from hq)], fun h => List.mem_map.mpr ⟨_, h, rfl⟩⟩

theorem erase_ren {f : Nat → Nat} (hf : Function.Injective f) (l : List (Nat × Nat)) (b i : Nat) :
    (l.map (renP f)).erase (f b, i) = (l.erase (b, i)).map (renP f) :=
  (List.map_erase (renP_inj hf) (a := (b, i)) l).symm

theorem step_ren {f : Nat → Nat} (hf : Function.Injective f) (e : Ev) (h : Heap) : (h.ren f).step (e.ren f) = (h.step e).map (Heap.ren f) := by
  cases e with
  | alloc b n =>
    have : ((h.ren f).blocks.map (·.1)).contains (f b) = (h.blocks.map (·.1)).contains b := by
      rw [Bool.eq_iff_iff, List.contains_iff_mem, List.contains_iff_mem]
      simp only [Heap.ren, List.map_map, List.mem_map, Function.comp, renP]
      constructor
      · rintro ⟨x, hx, hq⟩; exact ⟨x, hx, hf hq⟩
      · rintro ⟨x, hx, hq⟩; exact ⟨x, hx, by rw [hq]⟩
    simp only [Heap.step, Ev.ren, this]
    split <;> rfl
  | free b n =>
    have h1 : (h.ren f).blocks.contains (f b, n) = h.blocks.contains (b, n) := contains_ren hf _ _ _
    have h2 : (h.ren f).live.all (fun o => o.1 != f b) = h.live.all (fun o => o.1 != b) := by
      simp only [Heap.ren, List.all_map]
      congr 1
      funext o
      show (f o.1 != f b) = (o.1 != b)
      rw [Bool.eq_iff_iff, bne_iff_ne, bne_iff_ne]
      exact ⟨fun hq he => hq (by rw [he]), fun hq he => hq (hf he)⟩
    simp only [Heap.step, Ev.ren, h1, h2]
    split
    · simp only [Heap.ren, Option.map_some]
      rw [erase_ren hf]
    · rfl
  | ctor b i =>
    have h1 : (h.ren f).live.contains (f b, i) = h.live.contains (b, i) := contains_ren hf _ _ _
    have h2 : (h.ren f).blocks.any (fun x => x.1 == f b && decide (i < x.2)) = h.blocks.any (fun x => x.1 == b && decide (i < x.2)) := by
      simp only [Heap.ren, List.any_map]
      congr 1
      funext o
      show (f o.1 == f b && decide (i < o.2)) = (o.1 == b && decide (i < o.2))
      congr 1
      rw [Bool.eq_iff_iff, beq_iff_eq, beq_iff_eq]
      exact ⟨fun he => hf he, fun he => by rw [he]⟩
    simp only [Heap.step, Ev.ren, h1, h2]
    split <;> rfl
  | dtor b i =>
    have h1 : (h.ren f).live.contains (f b, i) = h.live.contains (b, i) := contains_ren hf _ _ _
    simp only [Heap.step, Ev.ren, h1]
    split
    · simp only [Heap.ren, Option.map_some]
      rw [erase_ren hf]
    · rfl

theorem run_ren {f : Nat → Nat} (hf : Function.Injective f) : ∀ (l : List Ev) (h : Heap),
    Heap.run (l.map (Ev.ren f)) (h.ren f) = (Heap.run l h).map (Heap.ren f) := by
  intro l
  induction l with
  | nil => intro h; rfl
  | cons e l ih =>
    intro h
    simp only [List.map_cons, Heap.run]
    rw [step_ren hf]
    cases h.step e with
    | none => rfl
    | some h' => exact ih h'

/-- `h` holds what `a` and `b` hold. -/
structure Both (h a b : Heap) : Prop where
  blocks : h.blocks.Perm (a.blocks ++ b.blocks)
  live : h.live.Perm (a.live ++ b.live)

/-- Every block and object of the heap has a name in `P`. -/
structure Heap.In (h : Heap) (P : Nat → Prop) : Prop where
  blocks : ∀ x ∈ h.blocks, P x.1
  live : ∀ x ∈ h.live, P x.1

theorem Both.comm {h a b : Heap} (hb : Both h a b) : Both h b a :=
  ⟨hb.blocks.trans List.perm_append_comm, hb.live.trans List.perm_append_comm⟩

theorem step_in {h h' : Heap} {e : Ev} {P : Nat → Prop} (hP : h.In P) (he : P e.name) (hs : h.step e = some h') : h'.In P := by
  cases e with
  | alloc b n =>
    simp only [Heap.step] at hs
    split at hs
    · cases hs
    · cases hs
      exact ⟨by intro x hx; rcases List.mem_cons.mp hx with rfl | hx; exacts [he, hP.blocks x hx], hP.live⟩
  | free b n =>
    simp only [Heap.step] at hs
    split at hs
    · cases hs
      exact ⟨fun x hx => hP.blocks x (List.mem_of_mem_erase hx), hP.live⟩
    · cases hs
  | ctor b i =>
    simp only [Heap.step] at hs
    split at hs
    · cases hs
      exact ⟨hP.blocks, by intro x hx; rcases List.mem_cons.mp hx with rfl | hx; exacts [he, hP.live x hx]⟩
    · cases hs
  | dtor b i =>
    simp only [Heap.step] at hs
    split at hs
    · cases hs
      exact ⟨hP.blocks, fun x hx => hP.live x (List.mem_of_mem_erase hx)⟩
    · cases hs

/-- An event about one part of the heap leaves the other part alone. -/
theorem step_both {h a b a' : Heap} {e : Ev} {P : Nat → Prop} (hb : Both h a b) (he : P e.name) (hn : b.In (fun x => ¬ P x))
    (hs : a.step e = some a') : ∃ h', h.step e = some h' ∧ Both h' a' b := by
  cases e with
  | alloc x n =>
    simp only [Heap.step] at hs
    split at hs
    · cases hs
    · rename_i hc
      cases hs
      refine ⟨{ h with blocks := (x, n) :: h.blocks }, step_alloc ?_, (hb.blocks.cons _), hb.live⟩
      intro y hy hq
      rcases List.mem_append.mp (hb.blocks.mem_iff.mp hy) with hy | hy
      · exact hc (List.contains_iff_mem.mpr (List.mem_map.mpr ⟨y, hy, hq⟩))
      · exact hn.blocks y hy (by rw [hq]; exact he)
  | free x n =>
    simp only [Heap.step] at hs
    split at hs
    · rename_i hc
      rw [Bool.and_eq_true] at hc
      have hm := List.contains_iff_mem.mp hc.1
      cases hs
      refine ⟨{ h with blocks := h.blocks.erase (x, n) }, step_free (hb.blocks.mem_iff.mpr (List.mem_append_left _ hm)) ?_, ?_, hb.live⟩
      · intro o ho hq
        rcases List.mem_append.mp (hb.live.mem_iff.mp ho) with ho | ho
        · have := List.all_eq_true.mp hc.2 o ho
          rw [bne_iff_ne] at this
          exact this hq
        · exact hn.live o ho (by rw [hq]; exact he)
      · have := hb.blocks.erase (x, n)
        rwa [List.erase_append_left _ hm] at this
    · cases hs
  | ctor x i =>
    simp only [Heap.step] at hs
    split at hs
    · rename_i hc
      rw [Bool.and_eq_true, List.any_eq_true] at hc
      obtain ⟨⟨y, hy, hy2⟩, hl⟩ := hc
      rw [Bool.and_eq_true, beq_iff_eq, decide_eq_true_eq] at hy2
      cases hs
      refine ⟨{ h with live := (x, i) :: h.live }, step_ctor (n := y.2) (hb.blocks.mem_iff.mpr (List.mem_append_left _ ?_)) hy2.2 ?_, hb.blocks,
        hb.live.cons _⟩
      · rw [← hy2.1]; exact hy
      · intro ho
        rcases List.mem_append.mp (hb.live.mem_iff.mp ho) with ho | ho
        · rw [List.contains_iff_mem.mpr ho] at hl; cases hl
        · exact hn.live _ ho he
    · cases hs
  | dtor x i =>
    simp only [Heap.step] at hs
    split at hs
    · rename_i hc
      have hm := List.contains_iff_mem.mp hc
      cases hs
      refine ⟨{ h with live := h.live.erase (x, i) }, ?_, hb.blocks, ?_⟩
      · have : h.live.contains (x, i) = true := List.contains_iff_mem.mpr (hb.live.mem_iff.mpr (List.mem_append_left _ hm))
        simp only [Heap.step, this, if_true]
      · have := hb.live.erase (x, i)
        rwa [List.erase_append_left _ hm] at this
    · cases hs

theorem run_shuffle {P : Nat → Prop} {l m r : List Ev} (hsh : Shuffle l m r) : ∀ {h a b a' b' : Heap}, Both h a b →
    a.In P → b.In (fun x => ¬ P x) → (∀ e ∈ l, P e.name) → (∀ e ∈ m, ¬ P e.name) → Heap.run l a = some a' → Heap.run m b = some b' →
    ∃ h', Heap.run r h = some h' ∧ Both h' a' b' := by
  induction hsh with
  | nil =>
    intro h a b a' b' hb _ _ _ _ h1 h2
    cases h1; cases h2
    exact ⟨h, rfl, hb⟩
  | left e _ ih =>
    intro h a b a' b' hb ha hn hl hm h1 h2
    simp only [Heap.run] at h1
    cases hs : a.step e with
    | none => rw [hs] at h1; cases h1
    | some a1 =>
      rw [hs] at h1
      obtain ⟨h', g1, g2⟩ := step_both hb (hl e (by simp)) hn hs
      obtain ⟨h'', g3, g4⟩ := ih g2 (step_in ha (hl e (by simp)) hs) hn (fun e he => hl e (by simp [he])) hm h1 h2
      exact ⟨h'', by simp only [Heap.run, g1, Option.bind_some]; exact g3, g4⟩
  | right e _ ih =>
    intro h a b a' b' hb ha hn hl hm h1 h2
    simp only [Heap.run] at h2
    cases hs : b.step e with
    | none => rw [hs] at h2; cases h2
    | some b1 =>
      rw [hs] at h2
      obtain ⟨h', g1, g2⟩ := step_both (P := fun x => ¬ P x) hb.comm (hm e (by simp)) ⟨fun x hx hq => hq (ha.blocks x hx), fun x hx hq => hq (ha.live x hx)⟩ hs
      obtain ⟨h'', g3, g4⟩ := ih g2.comm ha (step_in (P := fun x => ¬ P x) hn (hm e (by simp)) hs) hl (fun e he => hm e (by simp [he])) h1 h2
      exact ⟨h'', by simp only [Heap.run, g1, Option.bind_some]; exact g3, g4⟩

/-- Two logs that are in order, of objects whose blocks have different names, are in order however the program interleaves
them, and the heap holds what is left of both. -/
theorem C123_side_by_side {f g : Nat → Nat} (hf : Function.Injective f) (hg : Function.Injective g) (hd : ∀ x y, f x ≠ g y)
    {l m r : List Ev} {a b : Heap} (hl : Heap.run l Heap.empty = some a) (hm : Heap.run m Heap.empty = some b)
    (hr : Shuffle (l.map (Ev.ren f)) (m.map (Ev.ren g)) r) :
    ∃ h, Heap.run r Heap.empty = some h ∧ Both h (a.ren f) (b.ren g) := by
  have hn : ∀ (k : Nat → Nat) (e : Ev), (e.ren k).name = k e.name := by intro k e; cases e <;> rfl
  refine run_shuffle (P := fun x => ∃ y, x = f y) hr (a := Heap.empty) (b := Heap.empty) (a' := a.ren f) (b' := b.ren g)
    ⟨List.Perm.nil, List.Perm.nil⟩ ⟨fun x hx => (by cases hx), fun x hx => (by cases hx)⟩
    ⟨fun x hx => (by cases hx), fun x hx => (by cases hx)⟩ ?_ ?_ ?_ ?_
  · intro e he
    obtain ⟨e', _, rfl⟩ := List.mem_map.mp he
    exact ⟨_, hn f e'⟩
  · intro e he
    obtain ⟨e', _, rfl⟩ := List.mem_map.mp he
    rintro ⟨y, hy⟩
    rw [hn] at hy
    exact hd _ _ hy.symm
  · have := run_ren hf l Heap.empty
    rw [hl] at this
    exact this
  · have := run_ren hg m Heap.empty
    rw [hm] at this
    exact this

/-- If both logs end with nothing held, so does the program. -/
theorem C123_both_empty {f g : Nat → Nat} (hf : Function.Injective f) (hg : Function.Injective g) (hd : ∀ x y, f x ≠ g y)
    {l m r : List Ev} (hl : Heap.run l Heap.empty = some Heap.empty) (hm : Heap.run m Heap.empty = some Heap.empty)
    (hr : Shuffle (l.map (Ev.ren f)) (m.map (Ev.ren g)) r) : Heap.run r Heap.empty = some Heap.empty := by
  obtain ⟨h, h1, h2⟩ := C123_side_by_side hf hg hd hl hm hr
  have e1 : h.blocks = [] := List.Perm.eq_nil h2.blocks
  have e2 : h.live = [] := List.Perm.eq_nil h2.live
  rw [h1]
  cases h
  simp only at e1 e2
  rw [e1, e2]; rfl

/-! ### The model -/

section Model
variable {K V : Type} (E : Env K) (S : Nat)

/-- Slot indices of the elements, in the order in which the loops of T15:1738-1752 and of the iterators visit them. -/
def elemIdx (t : Table K V) : List Nat := (usedPos layout15 t).map fun gp => gp.1 * layout15.S + gp.2

/-- `copy_slots_array_from` (T15:1730-1794): the elements are constructed in the slots of block `b`; `fail n` says whether the `n`-th
construction throws.  The roll-back (T15:1754-1793) walks down from the slot whose construction threw and destroys
that one first; it is skipped when the index is 0.  `done` are the slots constructed so far.  The result says whether it returned. -/
def copyFastE (b : Nat) (fail : Nat → Bool) : Nat → List Nat → List Nat → List Ev × Bool
  | _, _, [] => ([], true)
  | n, done, i :: is =>
    if fail n then (if i = 0 then [] else (i :: done).map (Ev.dtor b), false)
    else (.ctor b i :: (copyFastE b fail (n + 1) (i :: done) is).1, (copyFastE b fail (n + 1) (i :: done) is).2)

/-- `unique_insert(first, last)` (T15:2472-2489) inside the `try` of `copy_slots_from` (T15:1653-1671): when a construction throws,
the control byte is already set, and `destroy<true>()` runs. -/
def copySlowE (fail : Nat → Bool) : Nat → List (K × V) → LT K V → Out (LT K V) Unit
  | _, [], s => .ok s ()
  | n, e :: es, s =>
    (onT (findEmpty layout15 E false e.1) s).bind fun s1 gp =>
      if fail n then .throw (destroyE layout15 S s1)
      else
        (onT (constructAt layout15 true (gp.1 * layout15.S + gp.2) e) s1).bind fun s2 _ =>
          copySlowE fail (n + 1) es (emit s2 [.ctor s2.blk (gp.1 * layout15.S + gp.2)])

/-- The copy constructor (T15:310-342), see `copyOf`: the events of the new object follow those in the log of `base`, its blocks get
names from `base.next` on.  When it throws no object is left. -/
def copyE (mem : Bool) (fail : Nat → Bool) (base : LT K V) (o : Table K V) : Out (LT K V) Unit :=
  if o.size ≠ 0 then
    match calcCapacity 0 (fitCapacity o.mlf o.size) with
    | .ub => .ub
    | .diverge => .diverge
    | .ok cap =>
      (createE layout15 S (mem, true) cap { t := emptyTable layout15 o.mlf, blk := 0, next := base.next, log := base.log }).bind fun s1 _ =>
        if s1.t.ctrlCap layout15 = o.ctrlCap layout15 then
          if (copyFastE s1.blk fail 0 [] (elemIdx o)).2 then
            .ok (emit { s1 with t := fastCopy layout15 o s1.t } (copyFastE s1.blk fail 0 [] (elemIdx o)).1) ()
          else .throw (emit { s1 with t := fastCopy layout15 o s1.t } (copyFastE s1.blk fail 0 [] (elemIdx o)).1)
        else
          match walk15 o with
          | .ub => .ub
          | .diverge => .diverge
          | .ok l => copySlowE E S fail 0 l s1
  else .ok { t := emptyTable layout15 o.mlf, blk := 0, next := base.next, log := base.log } ()

/-- Copy assignment (T15:414-421), see `copyAssign`: the copy is made beside the old contents, the two are swapped, and the old
contents are destroyed with the temporary. -/
def copyAssignE (mem : Bool) (fail : Nat → Bool) (o : Table K V) (this : LT K V) : Out (LT K V) Unit :=
  match copyE E S mem fail this o with
  | .ok c _ => .ok (emit c (clearSlotsE layout15 this.t this.blk ++ freeAll layout15 S this.t this.blk)) ()
  | .throw c => .throw { this with next := c.next, log := c.log }
  | .diverge => .diverge
  | .ub => .ub

/-- The constructor that moves from a table with another allocator (T15:373-408), see `moveWithAlloc`; no element constructor throws.
The elements are constructed in the new block and destroyed in the old one, slot by slot (T15:1893-1908) or by
`move_unique_insert` (T15:2456-2466, 2500-2505), whose steps are those of a rehash. -/
def moveFillE (mem : Bool) (src : LT K V) : Out (LT K V) Unit :=
  if src.t.size ≠ 0 then
    match calcCapacity 0 (fitCapacity 224 src.t.size) with
    | .ub => .ub
    | .diverge => .diverge
    | .ok cap =>
      (createE layout15 S (mem, true) cap { t := emptyTable layout15 224, blk := 0, next := src.next, log := src.log }).bind fun s1 _ =>
        if s1.t.ctrlCap layout15 = src.t.ctrlCap layout15 then
          .ok (emit { s1 with t := fastCopy layout15 src.t s1.t } ((elemIdx src.t).flatMap fun i => [.ctor s1.blk i, .dtor src.blk i])) ()
        else transferAllE layout15 E src.t src.blk (usedPos layout15 src.t) s1
  else .ok { t := emptyTable layout15 224, blk := 0, next := src.next, log := src.log } ()

/-- Then `other.destroy<false>()` (T15:406, 1491-1502, 1518-1548) gives the blocks of the source back. -/
def moveE (mem : Bool) (src : LT K V) : Out (LT K V) Unit :=
  (moveFillE E S mem src).bind fun s2 _ => .ok (emit s2 (freeAll layout15 S src.t src.blk)) ()

end Model

section
variable {K V : Type} {E : Env K} {S : Nat}

/-! ### The log does not change the copy -/

theorem copyFastE_never (b : Nat) : ∀ (is done : List Nat) (n : Nat),
    copyFastE b (fun _ => false) n done is = (is.map (Ev.ctor b), true) := by
  intro is
  induction is with
  | nil => intro done n; rfl
  | cons i is ih =>
    intro done n
    unfold copyFastE
    simp only [Bool.false_eq_true, if_false, ih, List.map_cons]

theorem proj_copySlowE : ∀ (es : List (K × V)) (n : Nat) (s : LT K V),
    proj (copySlowE E S (fun _ => false) n es s) = uniqueInsertAll layout15 E es s.t := by
  intro es
  induction es with
  | nil => intro n s; rfl
  | cons e es ih =>
    intro n s
    unfold copySlowE uniqueInsertAll uniqueInsert
    rw [proj_bind (g := fun t' gp => (constructAt layout15 true (gp.1 * layout15.S + gp.2) e t').bind fun t'' _ => uniqueInsertAll layout15 E es t''),
      proj_onT]
    · cases findEmpty layout15 E false e.1 s.t <;> rfl
    · intro s1 gp
      simp only [Bool.false_eq_true, if_false]
      rw [proj_bind (g := fun t' _ => uniqueInsertAll layout15 E es t'), proj_onT]
      intro s2 _
      rw [ih]; rfl

theorem proj_copyE (mem : Bool) (base : LT K V) (o : Table K V) : proj (copyE E S mem (fun _ => false) base o) = copyOf E mem o := by
  unfold copyE copyOf transplant
  simp only
  split
  · have e : calcCapacity (emptyTable layout15 o.mlf : Table K V).size (fitCapacity (emptyTable layout15 o.mlf : Table K V).mlf o.size)
        = calcCapacity 0 (fitCapacity o.mlf o.size) := rfl
    rw [e]
    cases calcCapacity 0 (fitCapacity o.mlf o.size) with
    | ub => rfl
    | diverge => rfl
    | ok cap =>
      simp only
      rw [proj_bind (g := fun t1 _ => if t1.ctrlCap layout15 = o.ctrlCap layout15 then .ok (fastCopy layout15 o t1) ()
        else match walk15 o with | .ub => .ub | .diverge => .diverge | .ok l => uniqueInsertAll layout15 E l t1), proj_createE]
      · rfl
      · intro s1 _
        rw [copyFastE_never]
        simp only [if_true]
        split
        · rfl
        · cases walk15 o with
          | ub => rfl
          | diverge => rfl
          | ok l => exact proj_copySlowE l 0 s1
  · rfl

/-! ### The log of a copy is in order -/

/-- Constructing a list of objects. -/
theorem run_ctors (b n : Nat) : ∀ (is : List Nat) (h : Heap), (b, n) ∈ h.blocks → h.live.Nodup → is.Nodup → (∀ i ∈ is, i < n) →
    (∀ i ∈ is, (b, i) ∉ h.live) →
    ∃ h', Heap.run (is.map (Ev.ctor b)) h = some h' ∧ h'.blocks = h.blocks ∧ h'.live.Nodup ∧
      ∀ c j, (c, j) ∈ h'.live ↔ (c, j) ∈ h.live ∨ (c = b ∧ j ∈ is) := by
  intro is
  induction is with
  | nil => intro h _ hn _ _ _; exact ⟨h, rfl, rfl, hn, by simp⟩
  | cons i is ih =>
    intro h hb hn hi hlt hm
    rw [List.nodup_cons] at hi
    obtain ⟨h', h1, h2, h3, h4⟩ := ih { h with live := (b, i) :: h.live } hb (List.nodup_cons.mpr ⟨hm i (by simp), hn⟩) hi.2
      (fun j hj => hlt j (by simp [hj])) (by
        intro j hj hq
        rcases List.mem_cons.mp hq with hq | hq
        · rw [Prod.mk.injEq] at hq
          rw [hq.2] at hj
          exact hi.1 hj
        · exact hm j (by simp [hj]) hq)
    refine ⟨h', ?_, h2, h3, ?_⟩
    · simp only [List.map_cons, Heap.run]
      rw [step_ctor hb (hlt i (by simp)) (hm i (by simp))]
      exact h1
    · intro c j
      rw [h4]
      simp only [List.mem_cons, Prod.mk.injEq]
      tauto


/-- Constructing copies of the elements one by one in a new storage, beside other objects `Lv`. -/
theorem copySlowE_ok (hE : E.Lawful) (n0 : Nat) (Lv : Nat → Nat → Prop) : ∀ (es : List (K × V)) (n : Nat)
    (s : LT K V) (h : Heap), InvA laws15 E s.t → Fresh laws15 s.t → es.Pairwise (fun a b => E.eq a.1 b.1 = false) →
    (∀ e ∈ es, ∀ a ∈ entries layout15 s.t, E.eq e.1 a.1 = false) → s.t.size + es.length ≤ s.t.slotCap layout15 →
    Heap.run s.log Heap.empty = some h → (s.blk, n0) ∈ h.blocks → s.t.slotCap layout15 ≤ n0 → (∀ i, ¬ Lv s.blk i) →
    (∀ b i, (b, i) ∈ h.live ↔ (b = s.blk ∧ (s.t.slot i).isSome = true) ∨ Lv b i) → h.live.Nodup → ∀ fail : Nat → Bool,
    ((∀ j, n ≤ j → j < n + es.length → fail j = false) → ∃ s' h', copySlowE E S fail n es s = .ok s' () ∧ s'.blk = s.blk ∧ s'.next = s.next ∧
      s'.t.gmask = s.t.gmask ∧ s'.t.alloc = true ∧ Heap.run s'.log Heap.empty = some h' ∧ h'.blocks = h.blocks ∧ h'.live.Nodup ∧
      ∀ b i, (b, i) ∈ h'.live ↔ (b = s.blk ∧ (s'.t.slot i).isSome = true) ∨ Lv b i) ∧
    (∀ j, n ≤ j → j < n + es.length → fail j = true → ∃ s', copySlowE E S fail n es s = .throw s' ∧ Heap.run s'.log Heap.empty = none) := by
  intro es
  induction es with
  | nil =>
    intro n s h hI _ _ _ _ hr hb hn hv hl hnd fail
    exact ⟨fun _ => ⟨s, h, rfl, rfl, rfl, rfl, hI.alloc, hr, rfl, hnd, hl⟩, fun j h1 h2 => by simp at h2; omega⟩
  | cons e es ih =>
    intro n s h hI hF hpw hd hsz hr hb hn hv hl hnd fail
    rw [List.pairwise_cons] at hpw
    rw [List.length_cons] at hsz
    obtain ⟨t1, g, p, h1, hP⟩ := hI.findEmpty_ok false e.1 (by omega)
    obtain ⟨t2, h2, h3, hnone, hI2, hp2⟩ := hI.insert hE hP
      (fun i a ha => hd e (by simp) a (hI.mem_iff.mpr ⟨i, ha⟩)) e.2
    have hF2 : Fresh laws15 t2 := by
      have := hF.placed hP
      rw [h3]; exact this
    have hgm : t2.gmask = s.t.gmask := by rw [h3]; exact hP.gmask
    have hslot : t2.slot = upd s.t.slot (g * layout15.S + p) (some e) := by rw [h3]
    have hsize : t2.size = s.t.size + 1 := by rw [h3]
    have hcap : t2.slotCap layout15 = s.t.slotCap layout15 := by unfold Table.slotCap; rw [hgm]
    have hi : g * layout15.S + p < s.t.slotCap layout15 := by
      have hq : t1.slotCap layout15 = s.t.slotCap layout15 := by unfold Table.slotCap; rw [hP.gmask]
      unfold constructAt at h2
      split at h2
      · rename_i hc
        rw [Bool.and_eq_true, decide_eq_true_eq, hq] at hc
        exact hc.2
      · cases h2
    have hfree : (s.blk, g * layout15.S + p) ∉ h.live := by
      rw [hl, hnone]
      rintro (⟨_, hq⟩ | hq)
      · cases hq
      · exact hv _ hq
    have hfe : onT (findEmpty layout15 E false e.1) s = .ok { s with t := t1 } (g, p) := by
      unfold onT; rw [h1]
    have hct : onT (constructAt layout15 true (g * layout15.S + p) e) { s with t := t1 } = .ok { s with t := t2 } () := by
      unfold onT; simp only; rw [h2]
    have hnd2 : ((s.blk, g * layout15.S + p) :: h.live).Nodup := List.nodup_cons.mpr ⟨hfree, hnd⟩
    have hrun : Heap.run (s.log ++ [.ctor s.blk (g * layout15.S + p)]) Heap.empty
        = some { h with live := (s.blk, g * layout15.S + p) :: h.live } := by
      rw [run_append, hr]
      simp only [Option.bind_some, Heap.run, step_ctor hb (Nat.lt_of_lt_of_le hi hn) hfree]
    have hih := ih (n + 1) { s with t := t2, log := s.log ++ [.ctor s.blk (g * layout15.S + p)] } _ hI2 hF2 hpw.2
      (by
        intro a ha b hb
        rcases List.mem_cons.mp (hp2.mem_iff.mp hb) with rfl | hb
        · have := hpw.1 a ha
          cases hq : E.eq a.1 e.1 with
          | false => rfl
          | true => rw [hE.symm _ _ hq] at this; cases this
        · exact hd a (by simp [ha]) b hb)
      (by simp only; rw [hcap, hsize]; omega) hrun hb (by simp only; rw [hcap]; exact hn) hv
      (by
        intro b i
        simp only
        rw [List.mem_cons, hl, hslot, Prod.mk.injEq]
        by_cases hig : i = g * layout15.S + p
        · subst hig
          rw [upd_self, hnone]
          simp
        · rw [upd_other _ _ hig]
          simp [hig])
      hnd2 fail
    have heq : fail n = false → copySlowE E S fail n (e :: es) s = copySlowE E S fail (n + 1) es
        { s with t := t2, log := s.log ++ [.ctor s.blk (g * layout15.S + p)] } := by
      intro hf
      conv_lhs => unfold copySlowE
      rw [hfe]
      simp only [Out.bind_ok, hf, Bool.false_eq_true, if_false, hct, emit]
    constructor
    · intro hf
      obtain ⟨s', h', r1, r2, r3, r4, r5, r6, r7, r8, r9⟩ := hih.1 (fun j a b => hf j (by omega) (by rw [List.length_cons]; omega))
      refine ⟨s', h', ?_, r2, r3, r4.trans hgm, r5, r6, r7, r8, r9⟩
      rw [heq (hf n (Nat.le_refl _) (by simp))]
      exact r1
    · intro j hj1 hj2 hj3
      cases hf : fail n with
      | false =>
        obtain ⟨s', r1, r2⟩ := hih.2 j (by
          rcases Nat.eq_or_lt_of_le hj1 with rfl | h
          · rw [hf] at hj3; cases hj3
          · exact h) (by rw [List.length_cons] at hj2; omega) hj3
        exact ⟨s', by rw [heq hf]; exact r1, r2⟩
      | true =>
        refine ⟨destroyE layout15 S { s with t := t1 }, ?_, ?_⟩
        · unfold copySlowE
          rw [hfe]
          simp only [Out.bind_ok, hf, if_true]
        · have hal : t1.alloc = true := by
            have := hI2.alloc
            rw [h3] at this; exact this
          have hu : usedPos layout15 t2 = usedPos layout15 t1 := by rw [h3]; rfl
          have hm := (mem_usedIdx hI2 (g * layout15.S + p)).mpr (by rw [hslot, upd_self]; rfl)
          rw [hu] at hm
          simp only [destroyE]
          rw [run_append, run_append, hr]
          simp only [Option.bind_some, clearSlotsE, hal, if_true]
          have hmm : (usedPos layout15 t1).map (fun gp => Ev.dtor s.blk (gp.1 * layout15.S + gp.2))
              = ((usedPos layout15 t1).map fun gp => gp.1 * layout15.S + gp.2).map (Ev.dtor s.blk) := by rw [List.map_map]; rfl
          rw [hmm, run_dtors_none s.blk _ h hnd ⟨_, hm, hfree⟩]
          rfl

/-! ### Copies slot by slot -/

/-- The control bytes of the table say where its elements are. -/
structure Marked (t : Table K V) : Prop where
  used : ∀ i, i ∈ elemIdx t ↔ (t.slot i).isSome = true
  nodup : (elemIdx t).Nodup

theorem marked {t : Table K V} (hI : InvA laws15 E t) : Marked t := ⟨mem_usedIdx hI, nodup_usedIdx hI⟩

/-- What a slot-by-slot copy looks like. -/
theorem fastCopy_facts {o : Table K V} (hA : InvA laws15 E o) {k m : Nat} (he : 2 ^ k = o.ctrlCap layout15) :
    let t := fastCopy layout15 o (freshTable layout15 k m)
    t.alloc = true ∧ t.gmask = o.gmask ∧ t.slot = o.slot ∧ elemIdx t = elemIdx o ∧ Marked t := by
  intro t
  obtain ⟨j, hj1, hj2, hj3, hj4, _⟩ := hA.ctrlCap_eq
  have hjk : k = j + 4 := by
    rw [hj4] at he; exact Nat.pow_right_injective (Nat.le_refl 2) he
  have hg : t.gmask = o.gmask := by
    rw [hj3]; show 2 ^ (k - 4) - 1 = _; rw [hjk, Nat.add_sub_cancel]
  have hs : t.slot = o.slot := by
    funext i
    show (if i < o.slotCap layout15 then o.slot i else none) = o.slot i
    split
    · rfl
    · rename_i hi
      symm
      have hc15 : o.slotCap layout15 = (o.gmask + 1) * 15 - 1 := rfl
      by_cases hb : (o.gmask + 1) * 15 ≤ i
      · exact hA.oob i hb
      · have hlast : i = 15 * o.gmask + 14 := by omega
        rw [hlast]; exact none_after_last hA (Nat.le_refl _)
  have hu : elemIdx t = elemIdx o := by
    unfold elemIdx usedPos
    rw [hg]
    congr 1
    apply List.flatMap_congr
    intro g hgm
    have hle : g ≤ o.gmask := by have := List.mem_range.mp hgm; omega
    have : t.grp g = o.grp g := by
      show (if g ≤ o.gmask then o.grp g else _) = _
      rw [if_pos hle]
    rw [this]
  refine ⟨rfl, hg, hs, hu, ?_⟩
  constructor
  · rw [hu, hs]; exact (marked hA).used
  · rw [hu]; exact (marked hA).nodup

theorem copyFastE_ok (b : Nat) (fail : Nat → Bool) : ∀ (is done : List Nat) (n : Nat), (∀ j, n ≤ j → j < n + is.length → fail j = false) →
    copyFastE b fail n done is = (is.map (Ev.ctor b), true) := by
  intro is
  induction is with
  | nil => intro done n _; rfl
  | cons i is ih =>
    intro done n h
    unfold copyFastE
    rw [h n (Nat.le_refl _) (by simp), ih _ (n + 1) (fun j a b => h j (by omega) (by rw [List.length_cons]; omega))]
    rfl

/-- A copy that is given up: either the roll-back begins with an object that does not exist, or there is no roll-back and the
block is still held. -/
theorem copyFastE_fail (b m : Nat) (fail : Nat → Bool) : ∀ (is done : List Nat) (n : Nat) (h : Heap), (b, m) ∈ h.blocks → h.live.Nodup →
    is.Nodup → (∀ i ∈ is, i < m) → (∀ i ∈ is, (b, i) ∉ h.live) → ∀ j, n ≤ j → j < n + is.length → fail j = true →
    (∀ l, n ≤ l → l < j → fail l = false) →
    (copyFastE b fail n done is).2 = false ∧
    (is[j - n]? ≠ some 0 → Heap.run (copyFastE b fail n done is).1 h = none) ∧
    (is[j - n]? = some 0 → ∃ h', Heap.run (copyFastE b fail n done is).1 h = some h' ∧ h'.blocks = h.blocks) := by
  intro is
  induction is with
  | nil => intro done n h _ _ _ _ _ j a b; simp at b; omega
  | cons i is ih =>
    intro done n h hb hn hi hlt hm j j1 j2 j3 j4
    rw [List.nodup_cons] at hi
    unfold copyFastE
    by_cases hj : n = j
    · subst hj
      simp only [j3, if_true, true_and, Nat.sub_self, List.getElem?_cons_zero]
      constructor
      · intro hi0
        rw [if_neg (fun hq => hi0 (by rw [hq]))]
        exact run_dtors_none b _ h hn ⟨i, by simp, hm i (by simp)⟩
      · intro hi0
        rw [if_pos (by simpa using hi0)]
        exact ⟨h, rfl, rfl⟩
    · rw [j4 n (Nat.le_refl _) (by omega)]
      simp only [Bool.false_eq_true, if_false]
      obtain ⟨r1, r2, r3⟩ := ih (i :: done) (n + 1) { h with live := (b, i) :: h.live } hb (List.nodup_cons.mpr ⟨hm i (by simp), hn⟩) hi.2
        (fun j hj => hlt j (by simp [hj])) (by
          intro j hj hq
          rcases List.mem_cons.mp hq with hq | hq
          · rw [Prod.mk.injEq] at hq
            rw [hq.2] at hj
            exact hi.1 hj
          · exact hm j (by simp [hj]) hq)
        j (by omega) (by rw [List.length_cons] at j2; omega) j3 (fun l a b => j4 l (by omega) b)
      have hx : (i :: is)[j - n]? = is[j - (n + 1)]? := by
        rw [show j - n = (j - (n + 1)) + 1 by omega, List.getElem?_cons_succ]
      rw [hx, Heap.run, step_ctor hb (hlt i (by simp)) (hm i (by simp))]
      exact ⟨r1, r2, r3⟩

/-! ### A storage beside other objects -/

/-- After the log of `s` the heap holds what `h0` held and the storage and the elements of `s`. -/
structure Beside (S : Nat) (base : LT K V) (h0 : Heap) (s : LT K V) (h : Heap) : Prop where
  run : Heap.run s.log Heap.empty = some h
  blocks : h.blocks = (if s.t.alloc then owned layout15 S s.t s.blk else []) ++ h0.blocks
  live : ∀ b i, (b, i) ∈ h.live ↔ (s.t.alloc = true ∧ b = s.blk ∧ (s.t.slot i).isSome = true) ∨ (b, i) ∈ h0.live
  nodup : h.live.Nodup
  fresh : s.t.alloc = true → base.next ≤ s.blk ∧ s.blk + 2 ≤ s.next
  next : base.next ≤ s.next
  marked : s.t.alloc = true → Marked s.t

/-- What is required of the history before. -/
structure Before (base : LT K V) (h0 : Heap) : Prop where
  run : Heap.run base.log Heap.empty = some h0
  blocks : ∀ x ∈ h0.blocks, x.1 < base.next
  live : ∀ x ∈ h0.live, x.1 < base.next
  nodup : h0.live.Nodup

theorem Led.before {s : LT K V} {h : Heap} (hl : Led layout15 S s h) : Before s h := by
  refine ⟨hl.run, hl.blk_lt, ?_, hl.nodup⟩
  rintro ⟨b, i⟩ hx
  have := (hl.live b i).mp hx
  have h2 := hl.fresh this.1
  simp only
  omega

theorem start_before : Before (start layout15 : LT K V) Heap.empty :=
  ⟨rfl, fun x hx => (by cases hx), fun x hx => (by cases hx), List.nodup_nil⟩

theorem elemIdx_length {t : Table K V} (hI : InvA laws15 E t) : (elemIdx t).length = t.size := by
  have := congrArg List.length hI.usedPos_map
  rw [List.length_map, List.length_map] at this
  unfold elemIdx
  rw [List.length_map, this, hI.size]

theorem Beside.count {base : LT K V} {h0 h : Heap} {s : LT K V} (hB : Beside S base h0 s h) (hb : Before base h0) :
    h.live.length = (if s.t.alloc then (elemIdx s.t).length else 0) + h0.live.length := by
  cases ha : s.t.alloc with
  | false =>
    have hp : h.live.Perm h0.live := by
      rw [List.perm_ext_iff_of_nodup hB.nodup hb.nodup]
      rintro ⟨b, i⟩
      rw [hB.live, ha]; simp
    simp [hp.length_eq]
  | true =>
    have hd : ((elemIdx s.t).map (fun i => (s.blk, i)) ++ h0.live).Nodup := by
      rw [List.nodup_append]
      refine ⟨((hB.marked ha).nodup).map fun x y h => by simpa using h, hb.nodup, ?_⟩
      rintro x hx y hy rfl
      obtain ⟨i, _, rfl⟩ := List.mem_map.mp hx
      have := hb.live _ hy
      have h2 := hB.fresh ha
      simp only at this
      omega
    have hp : h.live.Perm ((elemIdx s.t).map (fun i => (s.blk, i)) ++ h0.live) := by
      rw [List.perm_ext_iff_of_nodup hB.nodup hd]
      rintro ⟨b, i⟩
      rw [hB.live, List.mem_append, ha, List.mem_map]
      have hm := (hB.marked ha).used
      constructor
      · rintro (⟨_, rfl, h⟩ | h)
        · exact Or.inl ⟨i, (hm i).mpr h, rfl⟩
        · exact Or.inr h
      · rintro (⟨j, hj, hq⟩ | h)
        · rw [Prod.mk.injEq] at hq
          left
          rw [← hq.1, ← hq.2]
          exact ⟨rfl, rfl, (hm j).mp hj⟩
        · exact Or.inr h
    rw [hp.length_eq, List.length_append, List.length_map, if_pos rfl]

/-- Destroying the object leaves what was there before. -/
theorem Beside.destroy {base : LT K V} {h0 h : Heap} {s : LT K V} (hB : Beside S base h0 s h) (hb : Before base h0) :
    ∃ h', Heap.run (destroyE layout15 S s).log Heap.empty = some h' ∧ h'.blocks = h0.blocks ∧ h'.live.Nodup ∧
      ∀ b i, (b, i) ∈ h'.live ↔ (b, i) ∈ h0.live := by
  unfold destroyE
  cases ha : s.t.alloc with
  | false =>
    refine ⟨h, ?_, ?_, hB.nodup, ?_⟩
    · simp only [clearSlotsE, freeAll, ha, Bool.false_eq_true, if_false, List.append_nil]
      exact hB.run
    · rw [hB.blocks, ha]; rfl
    · intro b i; rw [hB.live, ha]; simp
  | true =>
    have hM := hB.marked ha
    have hf := hB.fresh ha
    obtain ⟨h', r1, r2, r3, r4⟩ := run_dtors s.blk (elemIdx s.t) h hB.nodup hM.nodup
      (by intro i hi; rw [hB.live]; exact Or.inl ⟨ha, rfl, (hM.used i).mp hi⟩)
    have hlv : ∀ b i, (b, i) ∈ h'.live ↔ (b, i) ∈ h0.live := by
      intro b i
      rw [r4, hB.live]
      constructor
      · rintro ⟨⟨_, h1, h2⟩ | h1, h3⟩
        · exact absurd ⟨h1, (hM.used i).mpr h2⟩ h3
        · exact h1
      · intro h1
        refine ⟨Or.inr h1, ?_⟩
        rintro ⟨rfl, _⟩
        have := hb.live _ h1
        simp only at this
        omega
    refine ⟨{ h' with blocks := h0.blocks }, ?_, rfl, r3, hlv⟩
    simp only
    rw [run_append, run_append, hB.run]
    simp only [Option.bind_some, clearSlotsE, ha, if_true]
    have hm : (usedPos layout15 s.t).map (fun gp => Ev.dtor s.blk (gp.1 * layout15.S + gp.2))
        = (elemIdx s.t).map (Ev.dtor s.blk) := by unfold elemIdx; rw [List.map_map]; rfl
    rw [hm, r1]
    simp only [Option.bind_some, freeAll, ha, if_true]
    show Heap.run [.free s.blk (Alloc.destroyCount S s.t)] h' = _
    have hb' : h'.blocks = (s.blk, Alloc.destroyCount S s.t) :: h0.blocks := by
      rw [r2, hB.blocks, ha]; rfl
    simp only [Heap.run]
    rw [step_free (by rw [hb']; simp), hb']
    · simp
    · rintro ⟨b, i⟩ ho rfl
      have := hb.live _ ((hlv _ _).mp ho)
      simp only at this
      omega

/-- The copy constructor: it obtains a block and constructs the elements in it, or it throws and has done nothing. -/
theorem copyE_beside (hE : E.Lawful) (hs : 1 ≤ S) (hS : S ≤ 256) {o : Table K V} (hI : Inv laws15 E o) {base : LT K V} {h0 : Heap}
    (hb : Before base h0) (mem : Bool) :
    (∀ s, copyE E S mem (fun _ => false) base o = .ok s () → (∃ h, Beside S base h0 s h ∧ h.live.length = o.size + h0.live.length) ∧
      (s.t.ctrlCap layout15 ≠ o.ctrlCap layout15 ∨ o.size = 0 → Inv laws15 E s.t)) ∧
    (∀ s, copyE E S mem (fun _ => false) base o = .throw s → s.log = base.log ∧ s.next = base.next) := by
  unfold copyE
  by_cases h0' : o.size = 0
  · rw [if_neg (by simpa using h0')]
    refine ⟨?_, fun s h => (by cases h)⟩
    rintro s h
    rw [Out.ok.injEq] at h
    rw [← h.1]
    have hB : Beside S base h0 { t := emptyTable layout15 o.mlf, blk := 0, next := base.next, log := base.log } h0 :=
      ⟨hb.run, rfl, by intro b i; simp [emptyTable], hb.nodup, fun h => (by cases h), Nat.le_refl _, fun h => (by cases h)⟩
    exact ⟨⟨h0, hB, by omega⟩, fun _ => inv_empty hI.mlf_lo hI.mlf_hi⟩
  rw [if_pos h0']
  have hA : InvA laws15 E o := by
    rcases hI.st with h | h
    · exfalso; apply h0'; rw [h]; rfl
    · exact h
  have hsz := hI.size_le
  cases hc : calcCapacity 0 (fitCapacity o.mlf o.size) with
  | diverge => exact ⟨fun s h => (by cases h), fun s h => (by cases h)⟩
  | ub => exact ⟨fun s h => (by cases h), fun s h => (by cases h)⟩
  | ok cap =>
    obtain ⟨k, rfl, hk5, hkn, _, hkm⟩ := calcCapacity_ok hc
    simp only
    rcases createE_cases (L := layout15) (S := S) (a := (mem, true)) (fun h => by cases h) hk5
      ({ t := emptyTable layout15 o.mlf, blk := 0, next := base.next, log := base.log } : LT K V) with ⟨h55, _, h1⟩ | h1
    · rw [h1]
      simp only [Out.bind_ok]
      obtain ⟨hI1, hF1⟩ := freshTable_inv (H := laws15) (E := E) (V := V) (mlf := o.mlf) hk5 h55
      have hrun1 : Heap.run (base.log ++ newBlocks layout15 S base.next (2 ^ k)) Heap.empty
          = some { h0 with blocks := owned layout15 S (freshTable layout15 k o.mlf : Table K V) base.next ++ h0.blocks } := by
        rw [run_append, hb.run]
        exact run_newBlocks (Or.inl rfl) hk5 h55 hb.blocks
      have hcc : (freshTable layout15 k o.mlf : Table K V).ctrlCap layout15 = 2 ^ k := by
        unfold Table.ctrlCap freshTable
        simp only [if_true, pow_sub_add]
        conv_rhs => rw [show k = (k - 4) + 4 by omega, Nat.pow_add]
      have hsc : (freshTable layout15 k o.mlf : Table K V).slotCap layout15 = layout15.slotCap (2 ^ (k - 4)) := by
        unfold Table.slotCap freshTable; simp only [pow_sub_add]
      have hfit := fit15 hI.mlf_lo hI.mlf_hi hsz hc
      have hcap := std_cap (L := layout15) (S := S) (Or.inl rfl) hs hS (InvA.gmask_le hI1)
      have hmt : (emptyTable layout15 o.mlf : Table K V).mlf = o.mlf := rfl
      rw [hmt]
      by_cases he : 2 ^ k = o.ctrlCap layout15
      · rw [if_pos (by rw [← he]; exact hcc), copyFastE_never]
        simp only [if_true]
        refine ⟨?_, fun s h => (by cases h)⟩
        intro s h
        rw [Out.ok.injEq] at h
        obtain ⟨f1, f2, f3, f4, f5⟩ := fastCopy_facts hA (m := o.mlf) he
        obtain ⟨h', r1, r2, r3, r4⟩ := run_ctors base.next _ (elemIdx o)
          { h0 with blocks := owned layout15 S (freshTable layout15 k o.mlf : Table K V) base.next ++ h0.blocks }
          (List.mem_append_left _ (owned_mem _ _)) hb.nodup (marked hA).nodup
          (by
            intro i hi
            refine Nat.lt_of_lt_of_le ?_ hcap
            have h2 := ((marked hA).used i).mp hi
            have hg : (freshTable layout15 k o.mlf : Table K V).slotCap layout15 = o.slotCap layout15 := by
              unfold Table.slotCap; rw [← f2]; rfl
            rw [hg]
            have hc15 : o.slotCap layout15 = (o.gmask + 1) * 15 - 1 := rfl
            by_contra hge
            have hnone : o.slot i = none := by
              by_cases hb : (o.gmask + 1) * 15 ≤ i
              · exact hA.oob i hb
              · have hlast : i = 15 * o.gmask + 14 := by omega
                rw [hlast]; exact none_after_last hA (Nat.le_refl _)
            rw [hnone] at h2; cases h2)
          (by
            intro i _ hq
            have := hb.live _ hq
            simp at this)
        have hB : Beside S base h0 s h' := by
          rw [← h.1]
          refine ⟨?_, ?_, ?_, r3, ?_, ?_, fun _ => f5⟩
          · show Heap.run ((base.log ++ newBlocks layout15 S base.next (2 ^ k)) ++ _) _ = _
            rw [run_append, hrun1]
            exact r1
          · rw [r2]; rfl
          · intro b i
            rw [r4]
            show _ ↔ (true = true ∧ b = base.next ∧ ((fastCopy layout15 o (freshTable layout15 k o.mlf)).slot i).isSome = true) ∨ _
            rw [f3, (marked hA).used]
            simp only [true_and]
            tauto
          · intro _; exact ⟨Nat.le_refl _, Nat.le_refl _⟩
          · show base.next ≤ base.next + 2; omega
        refine ⟨⟨h', hB, ?_⟩, ?_⟩
        · rw [hB.count hb, ← h.1]
          show (if true = true then (elemIdx (fastCopy layout15 o (freshTable layout15 k o.mlf))).length else 0) + _ = _
          rw [if_pos rfl, f4, elemIdx_length hA]
        · rintro (h2 | h2)
          · exfalso
            apply h2
            rw [← h.1, ← he, ← hcc]
            rfl
          · exact absurd h2 h0'
      · rw [if_neg (by rw [hcc]; exact he), walk15_eq hI]
        simp only
        have hnb : ∀ i, (base.next, i) ∉ h0.live := fun i hq => by have := hb.live _ hq; simp at this
        obtain ⟨hok, _⟩ := copySlowE_ok (S := S) hE _ (fun b i => (b, i) ∈ h0.live) (entries layout15 o) 0
          { t := freshTable layout15 k o.mlf, blk := base.next, next := base.next + 2, log := base.log ++ newBlocks layout15 S base.next (2 ^ k) } _
          hI1 hF1 hA.pairwise (by intro e _ a ha; rw [freshTable_entries] at ha; simp at ha)
          (by simp only; rw [hsc, ← hA.size]; show 0 + o.size ≤ _; omega)
          hrun1 (List.mem_append_left _ (owned_mem _ _)) hcap hnb
          (by intro b i; simp [freshTable]) hb.nodup (fun _ => false)
        obtain ⟨s', h', r1, r2, r3, r4, r5, r6, r7, r8, r9⟩ := hok (fun _ _ _ => rfl)
        obtain ⟨t2, h2', hI2, hF2, hp2, hg2⟩ := uniqueInsertAll_ok (H := laws15) hE (entries layout15 o) _ hI1 hF1 hA.pairwise
          (by intro e _ a ha; rw [freshTable_entries] at ha; simp at ha)
          (by rw [hsc, ← hA.size]; show 0 + o.size ≤ _; omega)
        have hp3 := proj_copySlowE (E := E) (S := S) (entries layout15 o) 0
          { t := freshTable layout15 k o.mlf, blk := base.next, next := base.next + 2, log := base.log ++ newBlocks layout15 S base.next (2 ^ k) }
        rw [r1] at hp3 ⊢
        simp only [proj] at hp3
        rw [h2', Out.ok.injEq] at hp3
        rw [freshTable_entries, List.append_nil] at hp2
        refine ⟨?_, fun s h => (by cases h)⟩
        intro s h
        rw [Out.ok.injEq] at h
        rw [← h.1]
        have hB : Beside S base h0 s' h' := by
          refine ⟨r6, ?_, ?_, r8, ?_, ?_, fun _ => ?_⟩
          · rw [r7, r5, if_pos rfl, r2]
            simp only
            rw [owned_congr r4]
          · intro b i
            rw [r9, r5, r2]; simp
          · intro _; rw [r2, r3]; exact ⟨Nat.le_refl _, Nat.le_refl _⟩
          · rw [r3]; show base.next ≤ base.next + 2; omega
          · rw [hp3.1]; exact marked hI2
        refine ⟨⟨h', hB, ?_⟩, ?_⟩
        · rw [hB.count hb, r5, if_pos rfl, hp3.1, elemIdx_length hI2, hI2.size, hp2.length_eq, ← hA.size]
        · intro _
          rw [hp3.1]
          exact ⟨by rw [hg2.mlf]; exact hI.mlf_lo, by rw [hg2.mlf]; exact hI.mlf_hi, Or.inr hI2⟩
    · rw [h1]
      simp only [Out.bind]
      refine ⟨fun s h => (by cases h), ?_⟩
      intro s h
      rw [Out.throw.injEq] at h
      rw [← h]
      exact ⟨rfl, rfl⟩

theorem live_nil {h : Heap} (h1 : h.blocks = []) (h2 : ∀ b i, (b, i) ∈ h.live ↔ (b, i) ∈ Heap.empty.live) : h = Heap.empty := by
  have : h.live = [] := by
    rw [List.eq_nil_iff_forall_not_mem]
    rintro ⟨b, i⟩ hx
    have := (h2 b i).mp hx
    cases this
  cases h
  simp only at h1 this
  rw [h1, this]; rfl

/-! ### C123: copies -/

/-- C123. The copy constructor of group15 constructs one element for each element of the source, in a block of its own, in order; as many
are alive as the source has; destroying the copy destroys each of them and gives the block back.  This includes the copies that
report a size of 0 (C11). -/
theorem C123_copy (hE : E.Lawful) (hs : 1 ≤ S) (hS : S ≤ 256) {o : Table K V} (ho : Reachable layout15 E walk15 o) {mem : Bool} {s : LT K V}
    (hc : copyE E S mem (fun _ => false) (start layout15) o = .ok s ()) :
    copyOf E mem o = .ok s.t () ∧ (∃ h, Heap.run s.log Heap.empty = some h ∧ h.live.length = o.size) ∧
    Heap.run (destroyE layout15 S s).log Heap.empty = some Heap.empty := by
  obtain ⟨⟨h, hB, hn⟩, _⟩ := (copyE_beside hE hs hS (ho.inv15 hE) (start_before (K := K) (V := V)) mem).1 s hc
  refine ⟨?_, ⟨h, hB.run, hn⟩, ?_⟩
  · rw [← proj_copyE (S := S) mem (start layout15), hc]; rfl
  · obtain ⟨h', r1, r2, _, r4⟩ := hB.destroy start_before
    rw [r1, live_nil r2 r4]

/-- C123. A copy constructor that finds no memory has obtained nothing. -/
theorem C123_copy_no_memory (hE : E.Lawful) (hs : 1 ≤ S) (hS : S ≤ 256) {o : Table K V} (ho : Reachable layout15 E walk15 o) {mem : Bool}
    {s : LT K V} (hc : copyE E S mem (fun _ => false) (start layout15) o = .throw s) : s.log = [] :=
  ((copyE_beside hE hs hS (ho.inv15 hE) (start_before (K := K) (V := V)) mem).2 s hc).1

/-- C123. A copy whose capacity differs from that of its source (or a copy of an empty map) can be used like any other map:
whatever calls follow, its log stays in order and its destructor leaves nothing. -/
theorem C123_copy_then (hE : E.Lawful) (hs : 1 ≤ S) (hS : S ≤ 256) {o : Table K V} (ho : Reachable layout15 E walk15 o) {mem : Bool}
    {s : LT K V} (hc : copyE E S mem (fun _ => false) (start layout15) o = .ok s ())
    (hne : s.t.ctrlCap layout15 ≠ o.ctrlCap layout15 ∨ o.size = 0)
    {ops : List ((Bool × Bool) × Call K V)} (hv : ∀ op ∈ ops, Valid op.2) {as : List (Ans K V)} {s' : LT K V}
    (hr : runE layout15 E S walk15 ops s = .ok (as, s')) :
    (∃ h, Heap.run s'.log Heap.empty = some h ∧ h.live.length = s'.t.size) ∧
    Heap.run (destroyE layout15 S s').log Heap.empty = some Heap.empty := by
  obtain ⟨⟨h, hB, hn⟩, hinv⟩ := (copyE_beside hE hs hS (ho.inv15 hE) (start_before (K := K) (V := V)) mem).1 s hc
  have hG : Good laws15 E S s := by
    refine ⟨hinv hne, h, hB.run, ?_, ?_, hB.nodup, fun ha => (hB.fresh ha).2⟩
    · rw [hB.blocks]; show _ ++ [] = _; rw [List.append_nil]
    · intro b i; rw [hB.live]
      constructor
      · rintro (h | h)
        · exact h
        · cases h
      · exact Or.inl
  obtain ⟨hG', _⟩ := runE_good hE (Or.inl rfl) hs hS (fun _ h => walk15_eq h) ops s hG
    (fun op h => ⟨fun hq => (by cases hq), hv op h⟩) hr
  obtain ⟨h', hl⟩ := hG'.2
  exact ⟨⟨h', hl.run, hl.length hG'.1⟩, (destroyE_led (Or.inl rfl) hG').run⟩

/-- C123. A map and its copy share nothing: whatever is done to the source before and after, however the two interleave and whichever
is destroyed first, everything is in order and nothing is left when both are gone. -/
theorem C123_copy_and_source (hE : E.Lawful) (hs : 1 ≤ S) (hS : S ≤ 256) {a : Bool × Bool} {n : Nat} {s0 s1 s2 : LT K V}
    (h0 : constructE layout15 S a n = .ok s0 ()) {ops ops' : List ((Bool × Bool) × Call K V)} (hv : ∀ o ∈ ops ++ ops', Valid o.2)
    {as as' : List (Ans K V)} (hr : runE layout15 E S walk15 ops s0 = .ok (as, s1)) (hr' : runE layout15 E S walk15 ops' s1 = .ok (as', s2))
    {mem : Bool} {c : LT K V} (hc : copyE E S mem (fun _ => false) (start layout15) s1.t = .ok c ())
    {f g : Nat → Nat} (hf : Function.Injective f) (hg : Function.Injective g) (hd : ∀ x y, f x ≠ g y) {l : List Ev}
    (hl : Shuffle ((destroyE layout15 S s2).log.map (Ev.ren f)) ((destroyE layout15 S c).log.map (Ev.ren g)) l) :
    Heap.run l Heap.empty = some Heap.empty := by
  have hst : ∀ x : Bool × Bool, Steady layout15 x := fun x h => by cases h
  have hG0 := (constructE_good (H := laws15) (E := E) (Or.inl rfl) (hst a) n).1 s0 h0
  obtain ⟨hG1, hp1⟩ := runE_good hE (Or.inl rfl) hs hS (fun _ h => walk15_eq h) ops s0 hG0 (fun o h => ⟨hst _, hv o (by simp [h])⟩) hr
  obtain ⟨hG2, _⟩ := runE_good hE (Or.inl rfl) hs hS (fun _ h => walk15_eq h) ops' s1 hG1 (fun o h => ⟨hst _, hv o (by simp [h])⟩) hr'
  obtain ⟨⟨h, hB, hn⟩, _⟩ := (copyE_beside hE hs hS hG1.1 (start_before (K := K) (V := V)) mem).1 c hc
  obtain ⟨h', r1, r2, _, r4⟩ := hB.destroy start_before
  exact C123_both_empty hf hg hd (destroyE_led (Or.inl rfl) hG2).run (by rw [r1, live_nil r2 r4]) hl

/-! ### C123: copy assignment -/

/-- C123. Copy assignment destroys every element of the old contents and gives their block back; as many elements are alive
afterwards as the source has, and the destructor leaves nothing.  When it finds no memory the map has its old contents and
nothing has happened. -/
theorem C123_copy_assign (hE : E.Lawful) (hs : 1 ≤ S) (hS : S ≤ 256) {o : Table K V} (ho : Reachable layout15 E walk15 o)
    {a : Bool × Bool} {n : Nat} {s0 this : LT K V} (h0 : constructE layout15 S a n = .ok s0 ()) {ops : List ((Bool × Bool) × Call K V)}
    (hv : ∀ o ∈ ops, Valid o.2) {as : List (Ans K V)} (hr : runE layout15 E S walk15 ops s0 = .ok (as, this)) (mem : Bool) :
    (∀ s, copyAssignE E S mem (fun _ => false) o this = .ok s () → copyAssign E mem o this.t = .ok s.t () ∧
      (∃ h, Heap.run s.log Heap.empty = some h ∧ h.live.length = o.size) ∧
      Heap.run (destroyE layout15 S s).log Heap.empty = some Heap.empty) ∧
    (∀ s, copyAssignE E S mem (fun _ => false) o this = .throw s → s = this) := by
  have hst : ∀ x : Bool × Bool, Steady layout15 x := fun x h => by cases h
  have hG0 := (constructE_good (H := laws15) (E := E) (Or.inl rfl) (hst a) n).1 s0 h0
  obtain ⟨hG, hp⟩ := runE_good hE (Or.inl rfl) hs hS (fun _ h => walk15_eq h) ops s0 hG0 (fun o h => ⟨hst _, hv o h⟩) hr
  obtain ⟨hIt, ht, hlt⟩ := hG
  obtain ⟨hok, hth⟩ := copyE_beside hE hs hS (ho.inv15 hE) hlt.before mem
  have hpj := proj_copyE (E := E) (S := S) mem this o
  unfold copyAssignE copyAssign
  cases hc : copyE E S mem (fun _ => false) this o with
  | ok c u =>
    refine ⟨?_, fun s h => by cases h⟩
    rintro s h
    simp only at h
    rw [Out.ok.injEq] at h
    obtain ⟨⟨h1, hB, hn⟩, _⟩ := hok c hc
    rw [hc] at hpj
    simp only [proj] at hpj
    -- the old contents are destroyed
    have hrun : ∃ h2, Heap.run (clearSlotsE layout15 this.t this.blk ++ freeAll layout15 S this.t this.blk) h1 = some h2 ∧
        h2.blocks = (if c.t.alloc then owned layout15 S c.t c.blk else []) ∧ h2.live.Nodup ∧
        ∀ b i, (b, i) ∈ h2.live ↔ (c.t.alloc = true ∧ b = c.blk ∧ (c.t.slot i).isSome = true) := by
      rcases hIt.st with hst' | hA
      · have hal : this.t.alloc = false := by rw [hst']; rfl
        refine ⟨h1, ?_, ?_, hB.nodup, ?_⟩
        · simp only [clearSlotsE, freeAll, hal, Bool.false_eq_true, if_false, List.append_nil]; rfl
        · rw [hB.blocks, hlt.blocks, hal]; simp
        · intro b i; rw [hB.live, hlt.live, hal]; simp
      · have hal := hA.alloc
        have hfr := hlt.fresh hal
        obtain ⟨h', r1, r2, r3, r4⟩ := run_dtors this.blk (elemIdx this.t) h1 hB.nodup (marked hA).nodup
          (by intro i hi; rw [hB.live, hlt.live]; exact Or.inr ⟨hal, rfl, ((marked hA).used i).mp hi⟩)
        have hlv : ∀ b i, (b, i) ∈ h'.live ↔ (c.t.alloc = true ∧ b = c.blk ∧ (c.t.slot i).isSome = true) := by
          intro b i
          rw [r4, hB.live, hlt.live, (marked hA).used]
          constructor
          · rintro ⟨h | h, h3⟩
            · exact h
            · exact absurd h.2 h3
          · rintro ⟨a1, a2, a3⟩
            refine ⟨Or.inl ⟨a1, a2, a3⟩, ?_⟩
            rintro ⟨rfl, _⟩
            have := (hB.fresh a1).1
            omega
        refine ⟨{ h' with blocks := if c.t.alloc then owned layout15 S c.t c.blk else [] }, ?_, rfl, r3, hlv⟩
        have hm : (usedPos layout15 this.t).map (fun gp => Ev.dtor this.blk (gp.1 * layout15.S + gp.2))
            = (elemIdx this.t).map (Ev.dtor this.blk) := by unfold elemIdx; rw [List.map_map]; rfl
        rw [run_append]
        simp only [clearSlotsE, hal, if_true, hm, r1, Option.bind_some, freeAll]
        show Heap.run [.free this.blk (Alloc.destroyCount S this.t)] h' = _
        have hb' : h'.blocks = (if c.t.alloc then owned layout15 S c.t c.blk else []) ++ [(this.blk, Alloc.destroyCount S this.t)] := by
          rw [r2, hB.blocks, hlt.blocks, hal]; rfl
        have hnot : (this.blk, Alloc.destroyCount S this.t) ∉ (if c.t.alloc then owned layout15 S c.t c.blk else []) := by
          intro hq
          cases hca : c.t.alloc with
          | false => rw [hca] at hq; cases hq
          | true =>
            rw [hca, if_pos rfl] at hq
            have := owned_ge _ _ _ hq
            have h3 := (hB.fresh hca).1
            simp only at this
            omega
        simp only [Heap.run]
        rw [step_free (by rw [hb']; simp), hb', List.erase_append_right _ hnot]
        · simp
        · rintro ⟨b, i⟩ ho rfl
          have h2 := (hlv _ _).mp ho
          have h3 := (hB.fresh h2.1).1
          have h4 : this.blk = c.blk := h2.2.1
          omega
    obtain ⟨h2, q1, q2, q3, q4⟩ := hrun
    have hB2 : Beside S (start layout15) Heap.empty s h2 := by
      rw [← h.1]
      refine ⟨?_, ?_, ?_, q3, fun ha => ⟨Nat.zero_le _, (hB.fresh ha).2⟩, Nat.zero_le _, hB.marked⟩
      · show Heap.run (c.log ++ _) Heap.empty = _
        rw [run_append, hB.run]
        exact q1
      · show _ = _ ++ []
        rw [q2, List.append_nil]; rfl
      · intro b i
        rw [q4]
        show _ ↔ _ ∨ (b, i) ∈ []
        simp [emit]
    refine ⟨?_, ⟨h2, hB2.run, ?_⟩, ?_⟩
    · rw [← hpj]
      simp only
      rw [hIt.destroy_eq]
      simp only [Out.bind_ok]
      rw [← h.1]
      rfl
    · have e1 := hB2.count start_before
      have e2 := hB.count hlt.before
      rw [← h.1] at e1
      have e3 : h2.live.length = (if c.t.alloc then (elemIdx c.t).length else 0) + 0 := e1
      omega
    · obtain ⟨h', r1, r2, _, r4⟩ := hB2.destroy start_before
      rw [r1, live_nil r2 r4]
  | throw c =>
    refine ⟨fun s h => (by cases h), ?_⟩
    intro s h
    simp only at h
    rw [Out.throw.injEq] at h
    obtain ⟨e1, e2⟩ := hth c hc
    rw [← h, e1, e2]
  | diverge => exact ⟨fun s h => (by cases h), fun s h => (by cases h)⟩
  | ub => exact ⟨fun s h => (by cases h), fun s h => (by cases h)⟩

/-! ### C123: an element constructor that throws -/

theorem createE_succeeds {s : LT K V} {k : Nat} (h5 : 5 ≤ k) (h55 : k ≤ 55) :
    createE layout15 S (true, true) (2 ^ k) s
      = .ok { t := freshTable layout15 k s.t.mlf, blk := s.next, next := s.next + 2, log := s.log ++ newBlocks layout15 S s.next (2 ^ k) } () := by
  unfold createE
  rw [if_pos (show layout15.oneBlock = true by decide), createSlots_ok h5, if_pos ⟨rfl, h55⟩]

/-- C123, negative. When the constructor of an element throws while a map is copied, the copy constructor throws, and what it leaves is never
in order: either its roll-back destroys an element that was never constructed, or it has lost its block.  The first happens
whenever the capacities differ, and whenever the element is not in slot 0; the second when it is in slot 0. -/
theorem C123_copy_throws (hE : E.Lawful) (hs : 1 ≤ S) (hS : S ≤ 256) {o : Table K V} (ho : Reachable layout15 E walk15 o) (hsz : o.size < 2 ^ 54)
    {fail : Nat → Bool} {j : Nat} (hj : j < o.size) (hf : fail j = true) (hf' : ∀ l < j, fail l = false) :
    ∃ s cap, copyE E S true fail (start layout15) o = .throw s ∧ calcCapacity 0 (fitCapacity o.mlf o.size) = .ok cap ∧
      (cap ≠ o.ctrlCap layout15 ∨ (elemIdx o)[j]? ≠ some 0 → Heap.run s.log Heap.empty = none) ∧
      (cap = o.ctrlCap layout15 ∧ (elemIdx o)[j]? = some 0 → ∃ h, Heap.run s.log Heap.empty = some h ∧ h.blocks ≠ []) := by
  have hI := ho.inv15 hE
  have h0' : o.size ≠ 0 := by omega
  have hA : InvA laws15 E o := by
    rcases hI.st with h | h
    · exfalso; apply h0'; rw [h]; rfl
    · exact h
  have hle := hI.size_le
  have hfc := fitCapacity_le_two (n := o.size) hI.mlf_lo
  unfold copyE
  rw [if_pos h0']
  cases hc : calcCapacity 0 (fitCapacity o.mlf o.size) with
  | diverge => exact absurd hc calcCapacity_diverge
  | ub =>
    exfalso
    rcases calcCapacity_ub hc with h | h <;> omega
  | ok cap =>
    obtain ⟨k, rfl, hk5, hkn, _, hkm⟩ := calcCapacity_ok hc
    have h55 : k ≤ 55 := by
      by_contra hq
      have := calcCapacity_big hc (by omega)
      omega
    simp only
    rw [createE_succeeds hk5 h55]
    simp only [Out.bind_ok]
    obtain ⟨hI1, hF1⟩ := freshTable_inv (H := laws15) (E := E) (V := V) (mlf := o.mlf) hk5 h55
    have hrun1 : Heap.run (newBlocks layout15 S 0 (2 ^ k)) Heap.empty
        = some { Heap.empty with blocks := owned layout15 S (freshTable layout15 k o.mlf : Table K V) 0 ++ [] } :=
      run_newBlocks (Or.inl rfl) hk5 h55 (fun x hx => by cases hx)
    have hcc : (freshTable layout15 k o.mlf : Table K V).ctrlCap layout15 = 2 ^ k := by
      unfold Table.ctrlCap freshTable
      simp only [if_true, pow_sub_add]
      conv_rhs => rw [show k = (k - 4) + 4 by omega, Nat.pow_add]
    have hsc : (freshTable layout15 k o.mlf : Table K V).slotCap layout15 = layout15.slotCap (2 ^ (k - 4)) := by
      unfold Table.slotCap freshTable; simp only [pow_sub_add]
    have hfit := fit15 hI.mlf_lo hI.mlf_hi hle hc
    have hcap := std_cap (L := layout15) (S := S) (Or.inl rfl) hs hS (InvA.gmask_le hI1)
    have hmt : (emptyTable layout15 o.mlf : Table K V).mlf = o.mlf := rfl
    have hst : (start layout15 : LT K V).next = 0 := rfl
    have hlog : (start layout15 : LT K V).log = [] := rfl
    rw [hmt, hst, hlog, List.nil_append]
    by_cases he : 2 ^ k = o.ctrlCap layout15
    · rw [if_pos (by rw [← he]; exact hcc)]
      obtain ⟨f1, f2, f3, f4, f5⟩ := fastCopy_facts hA (m := o.mlf) he
      have hel := elemIdx_length hA
      obtain ⟨r1, r2, r3⟩ := copyFastE_fail 0 _ fail (elemIdx o) [] 0
        { Heap.empty with blocks := owned layout15 S (freshTable layout15 k o.mlf : Table K V) 0 ++ [] }
        (List.mem_append_left _ (owned_mem _ _)) List.nodup_nil (marked hA).nodup
        (by
          intro i hi
          refine Nat.lt_of_lt_of_le ?_ hcap
          have h2 := ((marked hA).used i).mp hi
          have hg : (freshTable layout15 k o.mlf : Table K V).slotCap layout15 = o.slotCap layout15 := by
            unfold Table.slotCap; rw [← f2]; rfl
          rw [hg]
          have hc15 : o.slotCap layout15 = (o.gmask + 1) * 15 - 1 := rfl
          by_contra hge
          have hnone : o.slot i = none := by
            by_cases hb : (o.gmask + 1) * 15 ≤ i
            · exact hA.oob i hb
            · have hlast : i = 15 * o.gmask + 14 := by omega
              rw [hlast]; exact none_after_last hA (Nat.le_refl _)
          rw [hnone] at h2; cases h2)
        (fun i _ hq => by cases hq) j (Nat.zero_le _) (by omega) hf (fun l _ h => hf' l h)
      rw [r1, if_neg (by decide)]
      refine ⟨_, _, rfl, rfl, ?_, ?_⟩
      · rintro (h | h)
        · exact absurd he h
        · show Heap.run (_ ++ _) _ = _
          rw [run_append, hrun1]
          exact r2 h
      · rintro ⟨_, h⟩
        obtain ⟨h', q1, q2⟩ := r3 h
        refine ⟨h', ?_, ?_⟩
        · show Heap.run (_ ++ _) _ = _
          rw [run_append, hrun1]
          exact q1
        · rw [q2]
          intro hq
          have := List.mem_append_left [] (owned_mem (L := layout15) (S := S) (freshTable layout15 k o.mlf : Table K V) 0)
          rw [show owned layout15 S (freshTable layout15 k o.mlf : Table K V) 0 ++ [] = [] from hq] at this
          cases this
    · rw [if_neg (by rw [hcc]; exact he), walk15_eq hI]
      simp only
      obtain ⟨_, hth⟩ := copySlowE_ok (S := S) hE _ (fun _ _ => False) (entries layout15 o) 0
        { t := freshTable layout15 k o.mlf, blk := 0, next := 0 + 2, log := newBlocks layout15 S 0 (2 ^ k) } _
        hI1 hF1 hA.pairwise (by intro e _ a ha; rw [freshTable_entries] at ha; simp at ha)
        (by simp only; rw [hsc, ← hA.size]; show 0 + o.size ≤ _; omega)
        hrun1 (List.mem_append_left _ (owned_mem _ _)) hcap (fun _ h => h)
        (by intro b i; simp [freshTable, Heap.empty]) List.nodup_nil fail
      obtain ⟨s', r1, r2⟩ := hth j (Nat.zero_le _) (by rw [← hA.size]; omega) hf
      rw [r1]
      refine ⟨s', _, rfl, rfl, fun _ => r2, ?_⟩
      rintro ⟨h, _⟩
      exact absurd h he


/-! ### C123: moving between allocators -/

/-- Moving objects one by one from one block to another. -/
theorem run_moves (nb ob n : Nat) (hne : nb ≠ ob) : ∀ (is : List Nat) (h : Heap), (nb, n) ∈ h.blocks → h.live.Nodup → is.Nodup → (∀ i ∈ is, i < n) →
    (∀ i ∈ is, (nb, i) ∉ h.live) → (∀ i ∈ is, (ob, i) ∈ h.live) →
    ∃ h', Heap.run (is.flatMap fun i => [Ev.ctor nb i, Ev.dtor ob i]) h = some h' ∧ h'.blocks = h.blocks ∧ h'.live.Nodup ∧
      ∀ c j, (c, j) ∈ h'.live ↔ ((c, j) ∈ h.live ∧ ¬ (c = ob ∧ j ∈ is)) ∨ (c = nb ∧ j ∈ is) := by
  intro is
  induction is with
  | nil => intro h _ hn _ _ _ _; exact ⟨h, rfl, rfl, hn, by simp⟩
  | cons i is ih =>
    intro h hb hn hi hlt hm ho
    rw [List.nodup_cons] at hi
    have hmi := hm i (by simp)
    have hoi := ho i (by simp)
    have hnd1 : ((nb, i) :: h.live).Nodup := List.nodup_cons.mpr ⟨hmi, hn⟩
    have hmem : ∀ c j, (c, j) ∈ ((nb, i) :: h.live).erase (ob, i) ↔ (c, j) ≠ (ob, i) ∧ ((c, j) = (nb, i) ∨ (c, j) ∈ h.live) := by
      intro c j
      rw [hnd1.mem_erase_iff, List.mem_cons]
    obtain ⟨h', h1, h2, h3, h4⟩ := ih { h with live := ((nb, i) :: h.live).erase (ob, i) } hb (hnd1.erase _) hi.2
      (fun j hj => hlt j (by simp [hj]))
      (by
        intro j hj hq
        rw [hmem] at hq
        rcases hq.2 with hq | hq
        · rw [Prod.mk.injEq] at hq
          rw [hq.2] at hj
          exact hi.1 hj
        · exact hm j (by simp [hj]) hq)
      (by
        intro j hj
        rw [hmem]
        refine ⟨?_, Or.inr (ho j (by simp [hj]))⟩
        intro hq
        rw [Prod.mk.injEq] at hq
        rw [hq.2] at hj
        exact hi.1 hj)
    refine ⟨h', ?_, h2, h3, ?_⟩
    · rw [List.flatMap_cons, run_append]
      simp only [Heap.run]
      rw [step_ctor hb (hlt i (by simp)) hmi]
      have hc : ((nb, i) :: h.live).contains (ob, i) = true := List.contains_iff_mem.mpr (by simp [hoi])
      simp only [Option.bind_some, Heap.step, hc, if_true]
      exact h1
    · intro c j
      rw [h4, hmem]
      simp only [List.mem_cons, Prod.mk.injEq, ne_eq]
      by_cases hc : c = ob
      · subst hc
        have : ¬ c = nb := fun hq => hne hq.symm
        simp only [this, false_and, or_false, false_or, true_and]
        tauto
      · by_cases hcn : c = nb
        · subst hcn
          simp only [hc, false_and, not_false_eq_true, true_and, and_true]
          tauto
        · simp [hc, hcn]

theorem transferAll_uniqueInsertAll (old : Table K V) : ∀ (ps : List (Nat × Nat)) (es : List (K × V)) (t : Table K V),
    ps.map (fun gp => old.slot (gp.1 * layout15.S + gp.2)) = es.map some →
    transferAll layout15 E old ps t = uniqueInsertAll layout15 E es t := by
  intro ps
  induction ps with
  | nil =>
    intro es t h
    cases es with
    | nil => rfl
    | cons e es => cases h
  | cons gp ps ih =>
    intro es t h
    cases es with
    | nil => cases h
    | cons e es =>
      rw [List.map_cons, List.map_cons, List.cons.injEq] at h
      obtain ⟨g, p⟩ := gp
      unfold transferAll uniqueInsertAll
      simp only at h
      rw [h.1]
      simp only
      congr 1
      funext t' _
      exact ih es t' h.2

/-- The log does not change the move. -/
theorem proj_moveE {src : LT K V} (hI : Inv laws15 E src.t) (mem : Bool) {s : LT K V} (h : moveE E S mem src = .ok s ()) :
    moveWithAlloc E mem src.t = .ok s.t (emptyTable layout15 src.t.mlf) := by
  have hp : proj (moveFillE E S mem src) = transplant layout15 E walk15 mem 224 src.t := by
    unfold moveFillE transplant
    simp only
    split
    · rename_i h0
      have hA : InvA laws15 E src.t := by
        rcases hI.st with h | h
        · exfalso; apply h0; rw [h]; rfl
        · exact h
      have e : calcCapacity (emptyTable layout15 224 : Table K V).size (fitCapacity (emptyTable layout15 224 : Table K V).mlf src.t.size)
          = calcCapacity 0 (fitCapacity 224 src.t.size) := rfl
      rw [e]
      cases calcCapacity 0 (fitCapacity 224 src.t.size) with
      | ub => rfl
      | diverge => rfl
      | ok cap =>
        simp only
        rw [proj_bind (g := fun t1 _ => if t1.ctrlCap layout15 = src.t.ctrlCap layout15 then .ok (fastCopy layout15 src.t t1) ()
          else match walk15 src.t with | .ub => .ub | .diverge => .diverge | .ok l => uniqueInsertAll layout15 E l t1), proj_createE]
        · rfl
        · intro s1 _
          split
          · rfl
          · rw [walk15_eq hI, proj_transferAllE, transferAll_uniqueInsertAll _ _ _ _ hA.usedPos_map]
    · rfl
  unfold moveE at h
  unfold moveWithAlloc
  rw [← hp]
  cases hf : moveFillE E S mem src with
  | ok s2 u =>
    rw [hf] at h
    simp only [Out.bind_ok] at h
    rw [Out.ok.injEq] at h
    simp only [proj, Out.bind_ok]
    rw [← h.1]
    rfl
  | throw s2 => rw [hf] at h; cases h
  | diverge => rw [hf] at h; cases h
  | ub => rw [hf] at h; cases h

/-- C123. Moving a map to another allocator: each element is constructed in the new block and destroyed in the old one, the old block is
given back, as many elements are alive as before, and the destructor of the new map leaves nothing.  When the new
allocator has no memory, nothing has happened to the source. -/
theorem C123_move (hE : E.Lawful) (hs : 1 ≤ S) (hS : S ≤ 256) {a : Bool × Bool} {n : Nat} {s0 src : LT K V}
    (h0 : constructE layout15 S a n = .ok s0 ()) {ops : List ((Bool × Bool) × Call K V)} (hv : ∀ o ∈ ops, Valid o.2) {as : List (Ans K V)}
    (hr : runE layout15 E S walk15 ops s0 = .ok (as, src)) (mem : Bool) :
    (∀ s, moveE E S mem src = .ok s () → moveWithAlloc E mem src.t = .ok s.t (emptyTable layout15 src.t.mlf) ∧
      (∃ h, Heap.run s.log Heap.empty = some h ∧ h.live.length = src.t.size ∧ ∀ x ∈ h.blocks ++ h.live, src.next ≤ x.1) ∧
      Heap.run (destroyE layout15 S s).log Heap.empty = some Heap.empty) ∧
    (∀ s, moveE E S mem src = .throw s → s.log = src.log ∧ s.next = src.next) := by
  have hst : ∀ x : Bool × Bool, Steady layout15 x := fun x h => by cases h
  have hG0 := (constructE_good (H := laws15) (E := E) (Or.inl rfl) (hst a) n).1 s0 h0
  obtain ⟨⟨hI, hh, hl⟩, hp⟩ := runE_good hE (Or.inl rfl) hs hS (fun _ h => walk15_eq h) ops s0 hG0 (fun o h => ⟨hst _, hv o h⟩) hr
  have hbf := hl.before
  -- the new storage beside the old one, whose elements are gone
  suffices hfill : (∀ s, moveFillE E S mem src = .ok s () → ∃ h, Heap.run s.log Heap.empty = some h ∧
      h.blocks = (if s.t.alloc then owned layout15 S s.t s.blk else []) ++ hh.blocks ∧ h.live.Nodup ∧
      (∀ b i, (b, i) ∈ h.live ↔ (s.t.alloc = true ∧ b = s.blk ∧ (s.t.slot i).isSome = true)) ∧
      (s.t.alloc = true → src.next ≤ s.blk ∧ s.blk + 2 ≤ s.next ∧ Marked s.t ∧ (elemIdx s.t).length = src.t.size) ∧
      (s.t.alloc = false → src.t.size = 0)) ∧
      (∀ s, moveFillE E S mem src = .throw s → s.log = src.log ∧ s.next = src.next) by
    constructor
    · intro s hm
      refine ⟨proj_moveE hI mem hm, ?_⟩
      unfold moveE at hm
      cases hf : moveFillE E S mem src with
      | throw s2 => rw [hf] at hm; cases hm
      | diverge => rw [hf] at hm; cases hm
      | ub => rw [hf] at hm; cases hm
      | ok s2 u =>
        rw [hf] at hm
        simp only [Out.bind_ok] at hm
        rw [Out.ok.injEq] at hm
        obtain ⟨h1, q1, q2, q3, q4, q5, q6⟩ := hfill.1 s2 hf
        have hfree : Heap.run (freeAll layout15 S src.t src.blk) h1
            = some { h1 with blocks := if s2.t.alloc then owned layout15 S s2.t s2.blk else [] } := by
          cases hal : src.t.alloc with
          | false =>
            unfold freeAll
            rw [if_neg (by rw [hal]; decide)]
            have : h1.blocks = (if s2.t.alloc then owned layout15 S s2.t s2.blk else []) := by
              rw [q2, hl.blocks, hal]; simp
            rw [← this]; rfl
          | true =>
            have hfr := hl.fresh hal
            unfold freeAll
            rw [if_pos hal]
            show Heap.run [.free src.blk (Alloc.destroyCount S src.t)] h1 = _
            have hb' : h1.blocks = (if s2.t.alloc then owned layout15 S s2.t s2.blk else []) ++ [(src.blk, Alloc.destroyCount S src.t)] := by
              rw [q2, hl.blocks, hal]; rfl
            have hnot : (src.blk, Alloc.destroyCount S src.t) ∉ (if s2.t.alloc then owned layout15 S s2.t s2.blk else []) := by
              intro hq
              cases hca : s2.t.alloc with
              | false => rw [hca] at hq; cases hq
              | true =>
                rw [hca, if_pos rfl] at hq
                have := owned_ge _ _ _ hq
                have h3 := (q5 hca).1
                simp only at this
                omega
            simp only [Heap.run]
            rw [step_free (by rw [hb']; simp), hb', List.erase_append_right _ hnot]
            · simp
            · rintro ⟨b, i⟩ ho rfl
              have h2 := (q4 _ _).mp ho
              have h3 := (q5 h2.1).1
              have h4 : src.blk = s2.blk := h2.2.1
              omega
        have hB : Beside S (start layout15) Heap.empty s { h1 with blocks := if s2.t.alloc then owned layout15 S s2.t s2.blk else [] } := by
          rw [← hm.1]
          refine ⟨?_, ?_, ?_, q3, fun ha => ⟨Nat.zero_le _, (q5 ha).2.1⟩, Nat.zero_le _, fun ha => (q5 ha).2.2.1⟩
          · show Heap.run (s2.log ++ _) Heap.empty = _
            rw [run_append, q1]
            exact hfree
          · show _ = _ ++ []
            rw [List.append_nil]; rfl
          · intro b i
            simp only
            rw [q4]
            show _ ↔ _ ∨ (b, i) ∈ []
            simp [emit]
        refine ⟨⟨_, hB.run, ?_, ?_⟩, ?_⟩
        · rw [hB.count start_before, ← hm.1]
          show (if s2.t.alloc then (elemIdx s2.t).length else 0) + 0 = _
          cases hal : s2.t.alloc with
          | true => rw [if_pos rfl, (q5 hal).2.2.2, Nat.add_zero]
          | false => rw [q6 hal]; rfl
        · rintro ⟨b, i⟩ hx
          rcases List.mem_append.mp hx with hx | hx
          · cases hal : s2.t.alloc with
            | false => simp only [hal] at hx; cases hx
            | true =>
              simp only [hal, if_true] at hx
              have := owned_ge _ _ _ hx
              exact Nat.le_trans (q5 hal).1 this
          · have := (q4 b i).mp hx
            have h3 := (q5 this.1).1
            rw [← this.2.1] at h3
            exact h3
        · obtain ⟨h', r1, r2, _, r4⟩ := hB.destroy start_before
          rw [r1, live_nil r2 r4]
    · intro s hm
      unfold moveE at hm
      cases hf : moveFillE E S mem src with
      | ok s2 u => rw [hf] at hm; cases hm
      | diverge => rw [hf] at hm; cases hm
      | ub => rw [hf] at hm; cases hm
      | throw s2 =>
        rw [hf] at hm
        simp only [Out.bind] at hm
        rw [Out.throw.injEq] at hm
        rw [← hm]
        exact hfill.2 s2 hf
  unfold moveFillE
  by_cases h0' : src.t.size = 0
  · rw [if_neg (by simpa using h0')]
    refine ⟨?_, fun s h => (by cases h)⟩
    intro s h
    rw [Out.ok.injEq] at h
    rw [← h.1]
    refine ⟨hh, hl.run, rfl, hl.nodup, ?_, fun h => (by cases h), fun _ => h0'⟩
    have hlen := hl.length hI
    rw [h0'] at hlen
    intro b i
    rw [List.length_eq_zero_iff.mp hlen]
    simp [emptyTable]
  rw [if_pos h0']
  have hA : InvA laws15 E src.t := by
    rcases hI.st with h | h
    · exfalso; apply h0'; rw [h]; rfl
    · exact h
  have hal := hA.alloc
  have hfr := hl.fresh hal
  have hsz := hI.size_le
  cases hc : calcCapacity 0 (fitCapacity 224 src.t.size) with
  | diverge => exact ⟨fun s h => (by cases h), fun s h => (by cases h)⟩
  | ub => exact ⟨fun s h => (by cases h), fun s h => (by cases h)⟩
  | ok cap =>
    obtain ⟨k, rfl, hk5, hkn, _, hkm⟩ := calcCapacity_ok hc
    simp only
    rcases createE_cases (L := layout15) (S := S) (a := (mem, true)) (fun h => by cases h) hk5
      ({ t := emptyTable layout15 224, blk := 0, next := src.next, log := src.log } : LT K V) with ⟨h55, _, h1⟩ | h1
    · rw [h1]
      simp only [Out.bind_ok]
      obtain ⟨hI1, hF1⟩ := freshTable_inv (H := laws15) (E := E) (V := V) (mlf := 224) hk5 h55
      have hrun1 : Heap.run (src.log ++ newBlocks layout15 S src.next (2 ^ k)) Heap.empty
          = some { hh with blocks := owned layout15 S (freshTable layout15 k 224 : Table K V) src.next ++ hh.blocks } := by
        rw [run_append, hl.run]
        exact run_newBlocks (Or.inl rfl) hk5 h55 hbf.blocks
      have hcc : (freshTable layout15 k 224 : Table K V).ctrlCap layout15 = 2 ^ k := by
        unfold Table.ctrlCap freshTable
        simp only [if_true, pow_sub_add]
        conv_rhs => rw [show k = (k - 4) + 4 by omega, Nat.pow_add]
      have hsc : (freshTable layout15 k 224 : Table K V).slotCap layout15 = layout15.slotCap (2 ^ (k - 4)) := by
        unfold Table.slotCap freshTable; simp only [pow_sub_add]
      have hfit := fit15 (by omega) (by omega) hsz hc
      have hcap := std_cap (L := layout15) (S := S) (Or.inl rfl) hs hS (InvA.gmask_le hI1)
      have hmt : (emptyTable layout15 224 : Table K V).mlf = 224 := rfl
      rw [hmt]
      have hnb : ∀ i, (src.next, i) ∉ hh.live := fun i hq => by have := hbf.live _ hq; simp at this
      by_cases he : 2 ^ k = src.t.ctrlCap layout15
      · rw [if_pos (by rw [← he]; exact hcc)]
        refine ⟨?_, fun s h => (by cases h)⟩
        intro s h
        rw [Out.ok.injEq] at h
        obtain ⟨f1, f2, f3, f4, f5⟩ := fastCopy_facts hA (m := 224) he
        obtain ⟨h', r1, r2, r3, r4⟩ := run_moves src.next src.blk _ (by omega) (elemIdx src.t)
          { hh with blocks := owned layout15 S (freshTable layout15 k 224 : Table K V) src.next ++ hh.blocks }
          (List.mem_append_left _ (owned_mem _ _)) hl.nodup (marked hA).nodup
          (by
            intro i hi
            refine Nat.lt_of_lt_of_le ?_ hcap
            have h2 := ((marked hA).used i).mp hi
            have hg : (freshTable layout15 k 224 : Table K V).slotCap layout15 = src.t.slotCap layout15 := by
              unfold Table.slotCap; rw [← f2]; rfl
            rw [hg]
            have hc15 : src.t.slotCap layout15 = (src.t.gmask + 1) * 15 - 1 := rfl
            by_contra hge
            have hnone : src.t.slot i = none := by
              by_cases hb : (src.t.gmask + 1) * 15 ≤ i
              · exact hA.oob i hb
              · have hlast : i = 15 * src.t.gmask + 14 := by omega
                rw [hlast]; exact none_after_last hA (Nat.le_refl _)
            rw [hnone] at h2; cases h2)
          (fun i _ => hnb i)
          (by intro i hi; show _ ∈ hh.live; rw [hl.live]; exact ⟨hal, rfl, ((marked hA).used i).mp hi⟩)
        refine ⟨h', ?_, ?_, r3, ?_, ?_, ?_⟩
        · rw [← h.1]
          show Heap.run ((src.log ++ newBlocks layout15 S src.next (2 ^ k)) ++ _) _ = _
          rw [run_append, hrun1]
          exact r1
        · rw [← h.1, r2]; rfl
        · intro b i
          rw [← h.1, r4]
          show _ ↔ (true = true ∧ b = src.next ∧ ((fastCopy layout15 src.t (freshTable layout15 k 224)).slot i).isSome = true)
          rw [f3, (marked hA).used, hl.live]
          constructor
          · rintro (⟨⟨_, a1, a2⟩, a3⟩ | ⟨a1, a2⟩)
            · exact absurd ⟨a1, a2⟩ a3
            · exact ⟨rfl, a1, a2⟩
          · rintro ⟨_, a1, a2⟩
            exact Or.inr ⟨a1, a2⟩
        · intro _
          rw [← h.1]
          exact ⟨Nat.le_refl _, Nat.le_refl _, f5, by
            show (elemIdx (fastCopy layout15 src.t (freshTable layout15 k 224))).length = _
            rw [f4, elemIdx_length hA]⟩
        · intro hq
          rw [← h.1] at hq
          cases hq
      · rw [if_neg (by rw [hcc]; exact he)]
        obtain ⟨s', h', r1, r2, r3, r4, r5, r6, r7, r8, r9⟩ := transferE_ok (H := laws15) hE src.t src.blk _ (usedPos layout15 src.t) (entries layout15 src.t)
          { t := freshTable layout15 k 224, blk := src.next, next := src.next + 2, log := src.log ++ newBlocks layout15 S src.next (2 ^ k) } _
          hA.usedPos_map hI1 hF1 hA.pairwise
          (by intro e _ x hx; rw [freshTable_entries] at hx; simp at hx)
          (by simp only; rw [hsc, ← hA.size]; show 0 + src.t.size ≤ _; omega)
          hrun1 (List.mem_append_left _ (owned_mem _ _)) hcap (by simp only; omega)
          (by
            intro b i
            simp only
            rw [hl.live, mem_usedIdx hA]
            simp [freshTable, hal])
          hl.nodup (nodup_usedIdx hA)
        obtain ⟨t2, h2', hI2, hF2, hp2, hg2⟩ := uniqueInsertAll_ok (H := laws15) hE (entries layout15 src.t) _ hI1 hF1 hA.pairwise
          (by intro e _ a ha; rw [freshTable_entries] at ha; simp at ha)
          (by rw [hsc, ← hA.size]; show 0 + src.t.size ≤ _; omega)
        have hp3 := proj_transferAllE (L := layout15) (E := E) src.t src.blk (usedPos layout15 src.t)
          { t := freshTable layout15 k 224, blk := src.next, next := src.next + 2, log := src.log ++ newBlocks layout15 S src.next (2 ^ k) }
        rw [transferAll_uniqueInsertAll _ _ _ _ hA.usedPos_map] at hp3
        simp only at hp3
        rw [r1] at hp3 ⊢
        simp only [proj] at hp3
        rw [h2', Out.ok.injEq] at hp3
        rw [freshTable_entries, List.append_nil] at hp2
        refine ⟨?_, fun s h => (by cases h)⟩
        intro s h
        rw [Out.ok.injEq] at h
        rw [← h.1]
        refine ⟨h', r6, ?_, r8, ?_, ?_, ?_⟩
        · rw [r7, r5, if_pos rfl, r2]
          simp only
          rw [owned_congr r4]
        · intro b i
          rw [r9, r5, r2]; simp
        · intro _
          rw [r2, r3, hp3.1, elemIdx_length hI2, hI2.size, hp2.length_eq, ← hA.size]
          exact ⟨Nat.le_refl _, Nat.le_refl _, marked hI2, rfl⟩
        · intro hq; rw [r5] at hq; cases hq
    · rw [h1]
      simp only [Out.bind]
      refine ⟨fun s h => (by cases h), ?_⟩
      intro s h
      rw [Out.throw.injEq] at h
      rw [← h]
      exact ⟨rfl, rfl⟩

end

/-! ### Examples -/

/-- A history of `n` insertions. -/
def srcOps (n : Nat) : List ((Bool × Bool) × Call Nat Nat) := (List.range n).map fun i => ((true, true), .insert i i)

theorem srcOps_ok (n : Nat) : ∀ o ∈ srcOps n, Valid o.2 := by
  intro o ho
  obtain ⟨i, _, rfl⟩ := List.mem_map.mp ho
  trivial

/-- The source and the copy of a history. -/
def copyIs (n : Nat) (more : List ((Bool × Bool) × Call Nat Nat)) (p : LT Nat Nat → LT Nat Nat → Bool) : Bool :=
  match (constructE layout15 16 (true, true) 1 : Out (LT Nat Nat) Unit) with
  | .ok s0 _ =>
    match runE layout15 idEnv 16 walk15 (srcOps n ++ more) s0 with
    | .ok r => (match copyE idEnv 16 true (fun _ => false) (start layout15) r.2.t with | .ok c _ => p r.2 c | _ => false)
    | _ => false
  | _ => false

set_option maxRecDepth 100000 in
/-- A copy slot by slot (equal capacities): 5 elements are alive, the size is 0. -/
example : copyIs 5 [] (fun s c => s.t.size == 5 && c.t.size == 0 && c.log.length == 6) = true := by decide +kernel

set_option maxRecDepth 100000 in
/-- A copy element by element (the source has more room than it needs). -/
example : copyIs 5 [((true, true), .reserve 100)] (fun s c => s.t.ctrlCap layout15 == 128 && c.t.ctrlCap layout15 == 32 && c.t.size == 5 && c.log.length == 6) = true := by
  decide +kernel

set_option maxRecDepth 100000 in
/-- Copy assignment over a map with elements; a move; a copy that finds no memory. -/
example : (match (constructE layout15 16 (true, true) 1 : Out (LT Nat Nat) Unit) with
  | .ok s0 _ =>
    match runE layout15 idEnv 16 walk15 (srcOps 5) s0 with
    | .ok r =>
      (match copyAssignE idEnv 16 true (fun _ => false) r.2.t r.2 with | .ok c _ => c.log.length == 18 | _ => false) &&
      (match moveE idEnv 16 true r.2 with | .ok c _ => c.log.length == 18 | _ => false) &&
      (match copyE idEnv 16 false (fun _ => false) (start layout15) r.2.t with | .throw c => c.log == [] | _ => false) &&
      (match copyE idEnv 16 true (fun n => n == 3) (start layout15) r.2.t with | .throw c => c.log.length == 8 && (Heap.run c.log Heap.empty).isNone | _ => false) &&
      (match copyE idEnv 16 true (fun n => n == 0) (start layout15) r.2.t with
        | .throw c => (match Heap.run c.log Heap.empty with | some h => h.blocks.length == 1 | none => false) | _ => false)
    | _ => false
  | _ => false) = true := by decide +kernel

/-- Names that differ, and orders of two logs: one after the other, or one inside the other. -/
example : Function.Injective (fun n => 2 * n) ∧ Function.Injective (fun n => 2 * n + 1) ∧ (∀ x y : Nat, 2 * x ≠ 2 * y + 1) ∧
    ∀ l m : List Ev, Shuffle l m (l ++ m) :=
  ⟨fun a b h => by simp only at h; omega, fun a b h => by simp only at h; omega, fun x y => by omega, Shuffle.append⟩

end Verif.Life
