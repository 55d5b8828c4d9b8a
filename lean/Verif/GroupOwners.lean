/-
Programs with any number of group15 or group16 maps (C130): the class for `Verif.Owners`.

T15 = `src/jstd/hashmap/group15_flat_table.hpp`, T16 = `src/jstd/hashmap/group16_flat_table.hpp`.

Maps with equal allocators.  The constructor with a capacity, for group15 also the copy constructor; the move constructors
(T15:344-371, T16:335-360) leave the state of an empty table.
-/
import Verif.Owners

namespace Verif.Life
open Verif
open Verif.Spec (Call Ans)

variable {K V : Type} {L : Layout} {H : Laws L} {E : Env K} {S : Nat}

/-! ### Events are only added -/

/-- The log of the outcome continues that of `s`. -/
def Ext {α : Type} (s : LT K V) : Out (LT K V) α → Prop := Post fun s' => s.log <+: s'.log

theorem Ext.trans {α : Type} {s s1 : LT K V} (h : s.log <+: s1.log) {o : Out (LT K V) α} (ho : Ext s1 o) : Ext s o :=
  Post.mono ho fun _ h' => h.trans h'

theorem Ext.bind {α β : Type} {s : LT K V} {o : Out (LT K V) α} (h : Ext s o) {f : LT K V → α → Out (LT K V) β}
    (hf : ∀ s' a, Ext s' (f s' a)) : Ext s (o.bind f) := by
  cases o with
  | ok s' a => exact (hf s' a).trans h
  | throw s' => exact h
  | diverge => trivial
  | ub => trivial

theorem ext_refl {α : Type} (s : LT K V) (a : α) : Ext s (.ok s a) := List.prefix_refl _

theorem onT_ext {α : Type} (f : Table K V → Out (Table K V) α) (s : LT K V) : Ext s (onT f s) := by
  unfold onT
  split
  · exact List.prefix_refl _
  · exact List.prefix_refl _
  · trivial
  · trivial

theorem createE_ext (a : Bool × Bool) (cap : Nat) (s : LT K V) : Ext s (createE L S a cap s) := by
  unfold createE
  split
  · split
    · exact List.prefix_append _ _
    · exact List.prefix_refl _
    · trivial
    · trivial
  · split
    · split
      · exact List.prefix_append _ _
      · exact List.prefix_append _ _
      · trivial
      · trivial
    · exact List.prefix_refl _

theorem uniqueInsertE_ext (e : K × V) (s : LT K V) : Ext s (uniqueInsertE L E e s) :=
  Ext.bind (onT_ext _ s) fun s1 _ => Ext.bind (onT_ext _ s1) fun _ _ => List.prefix_append _ _

theorem transferAllE_ext (old : Table K V) (bo : Nat) : ∀ (ps : List (Nat × Nat)) (s : LT K V), Ext s (transferAllE L E old bo ps s) := by
  intro ps
  induction ps with
  | nil => intro s; exact List.prefix_refl _
  | cons gp ps ih =>
    intro s
    obtain ⟨g, p⟩ := gp
    unfold transferAllE
    split
    · trivial
    · exact Ext.bind (uniqueInsertE_ext _ s) fun s1 _ => (ih (emit s1 _)).trans (List.prefix_append _ _)

theorem rehashImplE_ext (sh : Bool) (a : Bool × Bool) (n : Nat) (s : LT K V) : Ext s (rehashImplE L E S sh a n s) := by
  unfold rehashImplE
  split
  · trivial
  · trivial
  · split
    · refine Ext.bind (createE_ext a _ s) fun s1 _ => ?_
      split
      · exact Ext.bind (transferAllE_ext _ _ _ s1) fun s2 _ => List.prefix_append _ _
      · exact List.prefix_refl _
    · exact List.prefix_refl _

theorem emplaceE_ext (u : Bool) (a : Bool × Bool) (c : Bool) (k : K) (v : V) (s : LT K V) : Ext s (emplaceE L E S u a c k v s) := by
  refine Ext.bind ?_ fun s1 r => ?_
  · unfold findOrInsertE
    split
    · trivial
    · trivial
    · exact List.prefix_refl _
    · refine Ext.bind ?_ fun s1 _ => Ext.bind (onT_ext _ s1) fun s2 _ => List.prefix_refl _
      split
      · exact rehashImplE_ext _ _ _ s
      · exact List.prefix_refl _
  · simp only
    split
    · exact Ext.bind (onT_ext _ s1) fun _ _ => List.prefix_append _ _
    · split
      · split
        · trivial
        · exact List.prefix_refl _
      · exact List.prefix_refl _

theorem destroyE_ext (s : LT K V) : s.log <+: (destroyE L S s).log := by
  unfold destroyE
  simp only [List.append_assoc]
  exact List.prefix_append _ _

theorem rehashE_ext (a : Bool × Bool) (n : Nat) (s : LT K V) : Ext s (rehashE L E S a n s) := by
  unfold rehashE
  simp only
  split
  · exact rehashImplE_ext _ _ _ s
  · exact destroyE_ext s

theorem execE_ext (walk : Table K V → Res (List (K × V))) (a : Bool × Bool) (c : Call K V) (s : LT K V) : Ext s (execE L E S walk a c s) := by
  cases c with
  | insert k v => exact Ext.bind (emplaceE_ext _ _ _ _ _ s) fun s' _ => onT_ext _ s'
  | assign k v => exact Ext.bind (emplaceE_ext _ _ _ _ _ s) fun s' _ => onT_ext _ s'
  | index k v => exact Ext.bind (emplaceE_ext _ _ _ _ _ s) fun s' _ => onT_ext _ s'
  | erase k =>
    refine Ext.bind ?_ fun s' _ => List.prefix_refl _
    unfold eraseKeyE
    split
    · trivial
    · trivial
    · exact List.prefix_refl _
    · exact Ext.bind (onT_ext _ s) fun _ _ => List.prefix_append _ _
  | clear d =>
    refine Ext.bind ?_ fun s' _ => List.prefix_refl _
    unfold clearE
    split
    · exact destroyE_ext s
    · unfold clearDataE
      split
      · exact List.prefix_append _ _
      · split
        · trivial
        · exact List.prefix_refl _
  | reserve n =>
    simp only [execE]
    split
    · trivial
    · refine Ext.bind ?_ fun s' _ => List.prefix_refl _
      unfold reserveE
      split
      · exact rehashImplE_ext _ _ _ s
      · exact destroyE_ext s
  | rehash n =>
    simp only [execE]
    split
    · trivial
    · exact Ext.bind (rehashE_ext _ _ s) fun s' _ => List.prefix_refl _
  | shrink ro =>
    refine Ext.bind ?_ fun s' _ => List.prefix_refl _
    unfold shrinkE
    split <;> simp only <;> split
    · exact rehashImplE_ext _ _ _ s
    · exact destroyE_ext s
    · exact rehashImplE_ext _ _ _ s
    · exact destroyE_ext s
  | maxLoad m =>
    refine Ext.bind ?_ fun s' _ => List.prefix_refl _
    unfold setMlfE
    simp only
    split
    · trivial
    · trivial
    · split
      · exact Ext.trans (s1 := { s with t := { s.t with mlf := m } }) (List.prefix_refl _) (rehashE_ext _ _ _)
      · exact List.prefix_refl _
  | find k => exact onT_ext _ s
  | contains k => exact onT_ext _ s
  | count k => exact onT_ext _ s
  | «at» k => exact onT_ext _ s
  | size => exact List.prefix_refl _
  | empty => exact List.prefix_refl _
  | iterate => exact onT_ext _ s

/-! ### C130 -/

/-- One call on a map.  After an exception the caller goes on. -/
def callE (L : Layout) (E : Env K) (S : Nat) (walk : Table K V → Res (List (K × V))) (a : Bool × Bool) (c : Call K V) (s : LT K V) : Res (LT K V) :=
  match execE L E S walk a c s with
  | .ok s' _ => .ok s'
  | .throw s' => .ok s'
  | .diverge => .diverge
  | .ub => .ub

/-- What a constructor that returns leaves; programs in which a constructor throws are not considered. -/
def done (o : Out (LT K V) Unit) : Res (LT K V) :=
  match o with
  | .ok s _ => .ok s
  | .throw _ => .ub
  | .diverge => .diverge
  | .ub => .ub

theorem callE_good (hE : E.Lawful) (hL : Std L) (hs : 1 ≤ S) (hS : S ≤ 256) {walk : Table K V → Res (List (K × V))}
    (hwalk : ∀ t, Inv H E t → walk t = .ok (entries L t)) {a : Bool × Bool} (ha : Steady L a) {s : LT K V} (hG : Good H E S s) {c : Call K V}
    (hv : Valid c) {s' : LT K V} (h : callE L E S walk a c s = .ok s') : Good H E S s' ∧ ∃ l, s'.log = s.log ++ l := by
  have h1 := execE_good hE hL hs hS hwalk ha hG hv
  have h2 := execE_ext (L := L) (E := E) (S := S) walk a c s
  unfold callE at h
  generalize execE L E S walk a c s = o at h h1 h2
  match o, h, h1, h2 with
  | .ok s1 x, h, h1, ⟨l, hl⟩ => cases h; exact ⟨h1, l, hl.symm⟩
  | .throw s1, h, h1, ⟨l, hl⟩ => cases h; exact ⟨h1, l, hl.symm⟩

/-- group15 or group16 maps as a class of objects (T15:282-431, T16:277-408); `copy` is the copy constructor, if it is considered. -/
def groupClass (L : Layout) (H : Laws L) (E : Env K) (S : Nat) (hE : E.Lawful) (hL : Std L) (hs : 1 ≤ S) (hS : S ≤ 256)
    (walk : Table K V → Res (List (K × V))) (hwalk : ∀ t, Inv H E t → walk t = .ok (entries L t))
    (copy : Bool → LT K V → Res (LT K V)) (fitCopy : Bool → LT K V → Prop)
    (copied : ∀ o c, Good H E S c → fitCopy o c → ∃ c', copy o c = .ok c' ∧ Good H E S c') :
    Owners.Class (LT K V) ((Bool × Bool) × Nat) Bool ((Bool × Bool) × Call K V) where
  log s := s.log
  drop s := clearSlotsE L s.t s.blk ++ freeAll L S s.t s.blk
  size s := s.t.size
  make n := done (constructE L S n.1 n.2)
  copy := copy
  act o s := callE L E S walk o.1 o.2 s
  left := some (start L)
  good s := Good H E S s
  fitNew n := Steady L n.1 ∧ ∃ s : LT K V, constructE L S n.1 n.2 = .ok s ()
  fitCopy := fitCopy
  fit o s := Steady L o.1 ∧ Valid o.2 ∧ ∃ s', callE L E S walk o.1 o.2 s = .ok s'
  run := fun s h => by
    obtain ⟨g, hl⟩ := h.2
    exact ⟨g, hl.run, hl.length h.1⟩
  dropped := fun s h => by
    have := (destroyE_led hL h).run
    unfold destroyE at this
    simp only [List.append_assoc] at this
    exact this
  leaves := fun c h => by cases h; exact start_good
  made := fun n h => by
    obtain ⟨h1, s, h2⟩ := h
    exact ⟨s, by rw [h2]; rfl, (constructE_good hL h1 n.2).1 s h2⟩
  copied := copied
  acted := fun o s h hf => by
    obtain ⟨h1, h2, s', h3⟩ := hf
    obtain ⟨g1, g2⟩ := callE_good hE hL hs hS hwalk h1 h h2 h3
    exact ⟨s', h3, g1, g2⟩

/-- C123_copy_then, the state of a copy. -/
theorem copyE_good (hE : E.Lawful) (hs : 1 ≤ S) (hS : S ≤ 256) {o : Table K V} (hI : Inv laws15 E o) {mem : Bool} {s : LT K V}
    (hc : copyE E S mem (fun _ => false) (start layout15) o = .ok s ()) (hne : s.t.ctrlCap layout15 ≠ o.ctrlCap layout15 ∨ o.size = 0) :
    Good laws15 E S s := by
  obtain ⟨⟨h, hB, hn⟩, hinv⟩ := (copyE_beside hE hs hS hI (start_before (K := K) (V := V)) mem).1 s hc
  refine ⟨hinv hne, h, hB.run, ?_, ?_, hB.nodup, fun ha => (hB.fresh ha).2⟩
  · rw [hB.blocks]; show _ ++ [] = _; rw [List.append_nil]
  · intro b i; rw [hB.live]
    constructor
    · rintro (h | h)
      · exact h
      · cases h
    · exact Or.inl

/-- group15: copies whose capacity differs from that of the source or that are empty (the others report a size of 0, C11, and are
treated in C123). -/
def class15 (E : Env K) (S : Nat) (hE : E.Lawful) (hs : 1 ≤ S) (hS : S ≤ 256) :
    Owners.Class (LT K V) ((Bool × Bool) × Nat) Bool ((Bool × Bool) × Call K V) :=
  groupClass layout15 laws15 E S hE (Or.inl rfl) hs hS walk15 (fun _ h => walk15_eq h)
    (fun mem s => done (copyE E S mem (fun _ => false) (start layout15) s.t))
    (fun mem s => ∃ s', copyE E S mem (fun _ => false) (start layout15) s.t = .ok s' () ∧
      (s'.t.ctrlCap layout15 ≠ s.t.ctrlCap layout15 ∨ s.t.size = 0))
    (fun mem s hG ⟨s', h1, h2⟩ => ⟨s', by rw [h1]; rfl, copyE_good hE hs hS hG.1 h1 h2⟩)

/-- group16, without copies. -/
def class16 (E : Env K) (S : Nat) (pad : Bool) (hE : E.Lawful) (hs : 1 ≤ S) (hS : S ≤ 256) :
    Owners.Class (LT K V) ((Bool × Bool) × Nat) Bool ((Bool × Bool) × Call K V) :=
  groupClass layout16 laws16 E S hE (Or.inr rfl) hs hS (walk16 pad) (fun _ h => walk16_eq h pad)
    (fun _ _ => .ub) (fun _ _ => False) (fun _ _ _ h => h.elim)

/-- C130 (partial), group15: a program with any number of maps that are constructed, copied, copy assigned, moved, move assigned, swapped, used and
destroyed in any order requests and gives back every block once, constructs and destroys every element once, keeps alive the elements
of the maps that exist, and leaves nothing when all maps are gone.  A map that was moved from can be used again.  Missing:
copies into a table of the same capacity, exceptions in constructors, unequal allocators. -/
theorem C130_group15_partial (hE : E.Lawful) (hs : 1 ≤ S) (hS : S ≤ 256)
    {xs : List (Owners.Act ((Bool × Bool) × Nat) Bool ((Bool × Bool) × Call K V))}
    (hf : Owners.FitAll (class15 E S hE hs hS) xs Owners.World.start) :
    ∃ w, Owners.run (class15 E S hE hs hS) xs Owners.World.start = .ok w ∧ Owners.Clean (class15 E S hE hs hS) w :=
  Owners.program hf

/-- C130 (partial), group16: as for group15 without copies; no request for slots fails after one for groups succeeded. -/
theorem C130_group16_partial (hE : E.Lawful) (pad : Bool) (hs : 1 ≤ S) (hS : S ≤ 256)
    {xs : List (Owners.Act ((Bool × Bool) × Nat) Bool ((Bool × Bool) × Call K V))}
    (hf : Owners.FitAll (class16 E S pad hE hs hS) xs Owners.World.start) :
    ∃ w, Owners.run (class16 E S pad hE hs hS) xs Owners.World.start = .ok w ∧ Owners.Clean (class16 E S pad hE hs hS) w :=
  Owners.program hf

/-! ### Examples -/

/-- Tests for `class15` and `class16`. -/
def newB (L : Layout) (n : (Bool × Bool) × Nat) : Bool :=
  n.1.2 && (match (constructE L 16 n.1 n.2 : Out (LT Nat Nat) Unit) with | .ok _ _ => true | _ => false)

def copyB (mem : Bool) (s : LT Nat Nat) : Bool :=
  match copyE idEnv 16 mem (fun _ => false) (start layout15) s.t with
  | .ok s' _ => decide (s'.t.ctrlCap layout15 ≠ s.t.ctrlCap layout15 ∨ s.t.size = 0)
  | _ => false

def callB (L : Layout) (walk : Table Nat Nat → Res (List (Nat × Nat))) (o : (Bool × Bool) × Call Nat Nat) (s : LT Nat Nat) : Bool :=
  o.1.2 && (match o.2 with | .maxLoad m => decide (128 ≤ m ∧ m ≤ 224) | _ => true) &&
    (match callE L idEnv 16 walk o.1 o.2 s with | .ok _ => true | _ => false)

theorem newB_sound {L : Layout} {n : (Bool × Bool) × Nat} (h : newB L n = true) :
    Steady L n.1 ∧ ∃ s : LT Nat Nat, constructE L 16 n.1 n.2 = .ok s () := by
  unfold newB at h
  rw [Bool.and_eq_true] at h
  refine ⟨fun _ _ => h.1, ?_⟩
  have h2 := h.2
  split at h2
  · rename_i s u hc; exact ⟨s, hc⟩
  · cases h2

theorem copyB_sound {mem : Bool} {s : LT Nat Nat} (h : copyB mem s = true) :
    ∃ s', copyE idEnv 16 mem (fun _ => false) (start layout15) s.t = .ok s' () ∧
      (s'.t.ctrlCap layout15 ≠ s.t.ctrlCap layout15 ∨ s.t.size = 0) := by
  unfold copyB at h
  split at h
  · rename_i s' u hc; exact ⟨s', hc, by simpa using h⟩
  · cases h

theorem callB_sound {L : Layout} {walk : Table Nat Nat → Res (List (Nat × Nat))} {o : (Bool × Bool) × Call Nat Nat} {s : LT Nat Nat}
    (h : callB L walk o s = true) : Steady L o.1 ∧ Valid o.2 ∧ ∃ s', callE L idEnv 16 walk o.1 o.2 s = .ok s' := by
  unfold callB at h
  rw [Bool.and_eq_true, Bool.and_eq_true] at h
  obtain ⟨⟨h1, h2⟩, h3⟩ := h
  refine ⟨fun _ _ => h1, ?_, ?_⟩
  · obtain ⟨a, c⟩ := o
    cases c with
    | maxLoad m => simpa [Valid] using h2
    | _ => trivial
  · split at h3
    · rename_i s' hc; exact ⟨s', hc⟩
    · cases h3

/-- A program: two maps, growth, a moved map and a new use of the old one, swaps, an exception, erasures. -/
def prog : List (Owners.Act ((Bool × Bool) × Nat) Bool ((Bool × Bool) × Call Nat Nat)) :=
  [.make 0 ((true, true), 1), .call 0 ((true, true), .insert 1 1), .call 0 ((true, true), .insert 2 2), .call 0 ((true, true), .insert 3 3),
   .make 1 ((true, true), 40), .call 1 ((true, true), .insert 7 7), .call 1 ((true, true), .insert 8 8), .call 0 ((true, true), .erase 1),
   .swap 0 1, .move 3 0, .call 0 ((true, true), .insert 5 5), .call 3 ((false, true), .rehash 500), .call 3 ((true, true), .rehash 100),
   .call 0 ((true, true), .clear false), .call 3 ((true, true), .shrink false), .swap 0 3]

/-- The same followed by copies, copy assignment and move assignment. -/
def prog15 : List (Owners.Act ((Bool × Bool) × Nat) Bool ((Bool × Bool) × Call Nat Nat)) :=
  prog ++ [.call 0 ((true, true), .reserve 100), .copy 4 0 true, .call 4 ((true, true), .insert 9 9)] ++ Owners.assign 1 0 9 true ++ Owners.moveAssign 0 4 9

abbrev nat15 : Owners.Class (LT Nat Nat) ((Bool × Bool) × Nat) Bool ((Bool × Bool) × Call Nat Nat) :=
  class15 idEnv 16 idEnv_lawful (by decide) (by decide)

abbrev nat16 : Owners.Class (LT Nat Nat) ((Bool × Bool) × Nat) Bool ((Bool × Bool) × Call Nat Nat) :=
  class16 idEnv 16 false idEnv_lawful (by decide) (by decide)

set_option maxRecDepth 100000 in
/-- Programs for `C130_group15_partial`: in the end the maps hold five elements. -/
example : (match Owners.run nat15 prog15 Owners.World.start with
    | .ok w => decide (((List.range w.num).map fun k => (w.con k).elim 0 nat15.size).sum = 5) | _ => false) = true := by
  decide +kernel

set_option maxRecDepth 100000 in
example : ∃ w, Owners.run nat15 prog15 Owners.World.start = .ok w ∧ Owners.Clean nat15 w :=
  C130_group15_partial idEnv_lawful _ _ (Owners.progB_sound (tN := newB layout15) (tC := copyB) (tO := callB layout15 walk15)
    (fun _ h => newB_sound h) (fun _ _ h => copyB_sound h) (fun _ _ h => callB_sound h) _ _ (by decide +kernel))

set_option maxRecDepth 100000 in
example : ∃ w, Owners.run nat16 (prog ++ [.drop 0, .drop 1, .drop 3]) Owners.World.start = .ok w ∧ Owners.Clean nat16 w :=
  C130_group16_partial idEnv_lawful false _ _ (Owners.progB_sound (tN := newB layout16) (tC := fun _ _ => false) (tO := callB layout16 (walk16 false))
    (fun _ h => newB_sound h) (fun _ _ h => by cases h) (fun _ _ h => callB_sound h) _ _ (by decide +kernel))

end Verif.Life
