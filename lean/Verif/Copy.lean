/-
Copy construction and assignment, moving with an allocator argument, swap and range insertion of group15
maps (C11, C12, C17, C41).  T15 = group15_flat_table.hpp, M15 = group15_flat_map.hpp.

Not covered: the plain move constructor (T15:344-371) names a member function `get_ctrl_allocator_ref` that does
not exist, so it cannot be instantiated; the roll-back code of `copy_slots_array_from` (T15:1754-1793) for
throwing copy constructors.
-/
import Verif.Props15

namespace Verif
open Spec (Call Ans)

set_option maxRecDepth 100000

section Model
variable {K V : Type} (L : Layout) (E : Env K)

/-- `unique_insert(first, last)` (T15:2484-2489) and `move_unique_insert` (T15:2500-2505) over the elements
visited by the iterators. -/
def uniqueInsertAll : List (K × V) → Table K V → Out (Table K V) Unit
  | [], t => .ok t ()
  | e :: r, t => (uniqueInsert L E e t).bind fun t' _ => uniqueInsertAll r t'

/-- `fast_copy_slots_from` (T15:1673-1794) and `fast_move_slots_from` (T15:1820-1950): the groups are copied byte by
byte and the slots of all used positions are copied.  No other member is written. -/
def fastCopy (o t : Table K V) : Table K V :=
  { t with
    grp := fun g => if g ≤ o.gmask then o.grp g else t.grp g
    slot := fun i => if i < o.slotCap L then o.slot i else t.slot i }

/-- The body of the copy constructor (T15:335-342), with `mlf_` already set to `m`, for the source `o`; also the body
of the moving constructor for unequal allocators (T15:398-404).  `walk` is the iteration over `o`. -/
def transplant (walk : Table K V → Res (List (K × V))) (mem : Bool) (m : Nat) (o : Table K V) : Out (Table K V) Unit :=
  let t : Table K V := emptyTable L m
  if o.size ≠ 0 then
    match calcCapacity t.size (fitCapacity t.mlf o.size) with   -- reserve_for_insert, T15:712-720
    | .ub => .ub
    | .diverge => .diverge
    | .ok cap =>
      (createSlots L mem cap t).bind fun t1 _ =>
        if t1.ctrlCap L = o.ctrlCap L then .ok (fastCopy L o t1) ()
        else
          match walk o with
          | .ub => .ub
          | .diverge => .diverge
          | .ok l => uniqueInsertAll L E l t1
  else .ok t ()

end Model

section Model15
variable {K V : Type} (E : Env K)

/-- Copy constructor (T15:310-342): the load factor is taken from the source. -/
def copyOf (mem : Bool) (o : Table K V) : Out (Table K V) Unit := transplant layout15 E walk15 mem o.mlf o

/-- Copy assignment (T15:414-421): copy into a temporary, swap, destroy the old contents with the temporary. -/
def copyAssign (mem : Bool) (o this : Table K V) : Out (Table K V) Unit :=
  match copyOf E mem o with
  | .ok t _ => (destroy layout15 this).bind fun _ _ => .ok t ()
  | .throw _ => .throw this
  | .diverge => .diverge
  | .ub => .ub

/-- `group15_flat_table(table && other, allocator)` (T15:373-408), unequal allocators: the new table (with the default
load factor) and what is left of `other`. -/
def moveWithAlloc (mem : Bool) (o : Table K V) : Out (Table K V) (Table K V) :=
  (transplant layout15 E walk15 mem 224 o).bind fun t _ => .ok t (emptyTable layout15 o.mlf)

/-- An object: the table together with its hasher and key_equal. -/
structure Obj (K V : Type) where
  env : Env K
  tab : Table K V

/-- `swap(this->m, other.m)` for one member `m`. -/
def swapMember {α β : Type} (get : α → β) (set : β → α → α) (p : α × α) : α × α := (set (get p.2) p.1, set (get p.1) p.2)

/-- `swap_content` (T15:2838-2855): one swap per member.  Swapping the pointers `groups_`, `slots_` exchanges the
storage behind them (`alloc` and `grp`, `slot` in the model). -/
def swapContent (p : Table K V × Table K V) : Table K V × Table K V :=
  let p := swapMember (fun t => (t.alloc, t.grp)) (fun x t => { t with alloc := x.1, grp := x.2 }) p
  let p := swapMember (·.slot) (fun x t => { t with slot := x }) p
  let p := swapMember (·.size) (fun x t => { t with size := x }) p
  let p := swapMember (·.thr) (fun x t => { t with thr := x }) p
  let p := swapMember (·.gmask) (fun x t => { t with gmask := x }) p
  let p := swapMember (·.shift) (fun x t => { t with shift := x }) p
  swapMember (·.mlf) (fun x t => { t with mlf := x }) p

/-- `swap_policy` (T15:2857-2874), without the allocators. -/
def swapPolicy (p : Env K × Env K) : Env K × Env K :=
  let p := swapMember (·.hash) (fun x e => { e with hash := x }) p
  swapMember (·.eq) (fun x e => { e with eq := x }) p

/-- `swap(other)` (T15:1022-1027, 2877-2880) of two distinct objects. -/
def swapObj (a b : Obj K V) : Obj K V × Obj K V :=
  let c := swapContent (a.tab, b.tab)
  let p := swapPolicy (a.env, b.env)
  (⟨p.1, c.1⟩, ⟨p.2, c.2⟩)

/-- The table-level `insert(first, last)` (T15:895-901); every element comes with the allocator's answer. -/
def insertRange (L : Layout) : List (Bool × K × V) → Table K V → Out (Table K V) Unit
  | [], t => .ok t ()
  | (mem, k, v) :: r, t => (emplace L E false mem true k v t).bind fun t' _ => insertRange L r t'

/-- The map-level `insert(first, last)` (M15:457-463, used by the range and initializer_list constructors M15:150-157,
187-206): the loop advances `pos` but emplaces `*first`. -/
def insertRangeMap (L : Layout) : List (Bool × K × V) → Table K V → Out (Table K V) Unit
  | [], t => .ok t ()
  | (mem, e) :: r, t => insertRange E L (((mem, e) :: r).map fun x => (x.1, e)) t

end Model15

/-! ### Lemmas -/

section
variable {K V : Type} {L : Layout} {H : Laws L} {E : Env K}

theorem uniqueInsertAll_ok (hE : E.Lawful) : ∀ (es : List (K × V)) (t : Table K V),
    InvA H E t → Fresh H t → es.Pairwise (fun a b => E.eq a.1 b.1 = false) →
    (∀ e ∈ es, ∀ a ∈ entries L t, E.eq e.1 a.1 = false) → t.size + es.length ≤ t.slotCap L →
    ∃ t', uniqueInsertAll L E es t = .ok t' () ∧ InvA H E t' ∧ Fresh H t' ∧
      (entries L t').Perm (es ++ entries L t) ∧ SameGeom t t' := by
  intro es
  induction es with
  | nil => intro t hI hF _ _ _; exact ⟨t, rfl, hI, hF, List.Perm.refl _, ⟨rfl, rfl, rfl, rfl⟩⟩
  | cons e es ih =>
    intro t hI hF hpw hd hsz
    rw [List.pairwise_cons] at hpw
    rw [List.length_cons] at hsz
    obtain ⟨t1, h1, hI1, hF1, hp1, hg1, hs1⟩ := hI.uniqueInsert_ok hE hF (hd e (by simp)) (by omega)
    have hcap : t1.slotCap L = t.slotCap L := by unfold Table.slotCap; rw [hg1.gmask]
    obtain ⟨t2, h2, hI2, hF2, hp2, hg2⟩ := ih t1 hI1 hF1 hpw.2
      (by
        intro a ha b hb
        rcases List.mem_cons.mp (hp1.mem_iff.mp hb) with rfl | hb
        · have := hpw.1 a ha
          cases hq : E.eq a.1 b.1 with
          | false => rfl
          | true => rw [hE.symm _ _ hq] at this; cases this
        · exact hd a (by simp [ha]) b hb)
      (by rw [hcap, hs1]; omega)
    refine ⟨t2, ?_, hI2, hF2, ?_, ?_⟩
    · unfold uniqueInsertAll
      simp only [h1, Out.bind_ok]
      exact h2
    · exact hp2.trans ((List.Perm.append_left es hp1).trans List.perm_middle)
    · exact ⟨hg2.gmask.trans hg1.gmask, hg2.shift.trans hg1.shift, hg2.mlf.trans hg1.mlf, hg2.thr.trans hg1.thr⟩

theorem scanGroup_congr {t t' : Table K V} (hs : t'.slot = t.slot) (k : K) (base : Nat) : ∀ ps,
    scanGroup E t' k base ps = scanGroup E t k base ps := by
  intro ps
  induction ps with
  | nil => rfl
  | cons p ps ih => unfold scanGroup; rw [hs, ih]

theorem findLoop_congr {t t' : Table K V} (ha : t'.alloc = t.alloc) (hm : t'.gmask = t.gmask)
    (hg : ∀ g, t.readable g = true → t'.grp g = t.grp g) (hs : t'.slot = t.slot) (k : K) (tg : Nat) : ∀ f pr,
    findLoop L E t' k tg f pr = findLoop L E t k tg f pr := by
  have hr : ∀ g, t'.readable g = t.readable g := by intro g; unfold Table.readable; rw [ha, hm]
  intro f
  induction f with
  | zero => intro pr; rfl
  | succ f ih =>
    intro pr
    unfold findLoop
    rw [hr]
    split
    · rename_i h
      rw [hg _ h, scanGroup_congr hs, hm, ih]
    · rfl

theorem lookup_congr {t t' : Table K V} (ha : t'.alloc = t.alloc) (hm : t'.gmask = t.gmask) (hsh : t'.shift = t.shift)
    (hg : ∀ g, t.readable g = true → t'.grp g = t.grp g) (hs : t'.slot = t.slot) (k : K) :
    lookup L E t' k = lookup L E t k := by
  unfold lookup find Table.home
  rw [findLoop_congr ha hm hg hs, hm, hsh, hs]

/-- All outcomes of `transplant` (15-slot groups). -/
inductive TransCase (E : Env K) (mem : Bool) (m : Nat) (o : Table K V) : Out (Table K V) Unit → Prop
  | empty (h : o.size = 0) : TransCase E mem m o (.ok (emptyTable layout15 m) ())
  | throw (h0 : o.size ≠ 0) (h : mem = false ∨ 2 ^ 54 ≤ o.size) : TransCase E mem m o (.throw (emptyTable layout15 m))
  | slow (k : Nat) (t : Table K V) (h0 : o.size ≠ 0) (hc : calcCapacity 0 (fitCapacity m o.size) = .ok (2 ^ k))
      (hne : 2 ^ k ≠ o.ctrlCap layout15) (hN : NewStore laws15 E k m t)
      (hp : (entries layout15 t).Perm (entries layout15 o)) : TransCase E mem m o (.ok t ())
  | fast (k : Nat) (t : Table K V) (h0 : o.size ≠ 0) (hc : calcCapacity 0 (fitCapacity m o.size) = .ok (2 ^ k))
      (he : 2 ^ k = o.ctrlCap layout15) (hs : t.size = 0) (hcap : t.capacity layout15 = o.capacity layout15)
      (hl : ∀ k, lookup layout15 E t k = lookup layout15 E o k) : TransCase E mem m o (.ok t ())

theorem transplant_cases {o : Table K V} (hE : E.Lawful) (hI : Inv laws15 E o) (mem : Bool) {m : Nat} (h1 : 128 ≤ m) (h2 : m ≤ 224) :
    TransCase E mem m o (transplant layout15 E walk15 mem m o) := by
  unfold transplant
  simp only
  by_cases h0 : o.size = 0
  · rw [if_neg (by simpa using h0)]; exact .empty h0
  rw [if_pos h0]
  have hA : InvA laws15 E o := by
    rcases hI.st with h | h
    · exfalso; apply h0; rw [h]; rfl
    · exact h
  have hsz := hI.size_le
  show TransCase E mem m o (match calcCapacity 0 (fitCapacity m o.size) with
    | .ub => _ | .diverge => _ | .ok cap => _)
  cases hc : calcCapacity 0 (fitCapacity m o.size) with
  | diverge => exact absurd hc calcCapacity_diverge
  | ub =>
    exfalso
    have := fitCapacity_le (n := o.size) h1
    rcases calcCapacity_ub hc with h | h <;> omega
  | ok cap =>
    obtain ⟨k, rfl, hk5, hkn, _, hkm⟩ := calcCapacity_ok hc
    simp only
    rw [createSlots_ok hk5]
    by_cases hm : mem = true ∧ k ≤ 55
    · rw [if_pos hm]
      simp only [Out.bind_ok]
      obtain ⟨hI1, hF1⟩ := freshTable_inv (H := laws15) (E := E) (V := V) (mlf := m) hk5 hm.2
      have hcc : (freshTable layout15 k m : Table K V).ctrlCap layout15 = 2 ^ k := by
        unfold Table.ctrlCap freshTable
        simp only [if_true, pow_sub_add]
        conv_rhs => rw [show k = (k - 4) + 4 by omega, Nat.pow_add]
      show TransCase E mem m o (if (freshTable layout15 k m : Table K V).ctrlCap layout15 = o.ctrlCap layout15 then _ else _)
      rw [hcc]
      by_cases he : 2 ^ k = o.ctrlCap layout15
      · rw [if_pos he]
        obtain ⟨j, hj1, hj2, hj3, hj4, _⟩ := hA.ctrlCap_eq
        obtain ⟨j', hj1', hj2', hj3', hj4'⟩ := hA.geom
        have hjk : k = j + 4 := by
          rw [hj4] at he; exact Nat.pow_right_injective (Nat.le_refl 2) he
        have hjj : j' = j := by
          rw [hj3] at hj3'
          have a := pow_sub_add j
          have b := pow_sub_add j'
          exact Nat.pow_right_injective (Nat.le_refl 2) (show 2 ^ j' = 2 ^ j by omega)
        refine .fast k _ h0 hc he rfl ?_ ?_
        · rw [hA.capacity_eq]
          unfold Table.capacity Table.slotCap fastCopy freshTable
          simp only [if_true]
          rw [hj3, hjk, Nat.add_sub_cancel]
        · intro key
          apply lookup_congr
          · rw [hA.alloc]; rfl
          · rw [hj3]; unfold fastCopy freshTable; simp only; rw [hjk, Nat.add_sub_cancel]
          · rw [hj4', hjj]; unfold fastCopy freshTable; simp only; rw [hjk, Nat.add_sub_cancel]
          · intro g hg
            unfold Table.readable at hg
            rw [if_pos hA.alloc, decide_eq_true_eq] at hg
            unfold fastCopy
            simp only [hg, if_true]
          · funext i
            unfold fastCopy freshTable
            simp only
            split
            · rfl
            · rename_i hi
              symm
              have hc15 : o.slotCap layout15 = (o.gmask + 1) * 15 - 1 := rfl
              by_cases hb : (o.gmask + 1) * 15 ≤ i
              · exact hA.oob i hb
              · have hlast : i = 15 * o.gmask + 14 := by omega
                rw [hlast]; exact none_after_last hA (Nat.le_refl _)
      · rw [if_neg he, walk15_eq hI]
        simp only
        obtain ⟨t2, h2', hI2, hF2, hp2, hg2⟩ := uniqueInsertAll_ok hE (entries layout15 o) _ hI1 hF1 hA.pairwise
          (by intro e _ a ha; rw [freshTable_entries] at ha; simp at ha)
          (by
            have : (freshTable layout15 k m : Table K V).slotCap layout15 = layout15.slotCap (2 ^ (k - 4)) := by
              unfold Table.slotCap freshTable; simp only [pow_sub_add]
            rw [this, ← hA.size]
            show 0 + o.size ≤ _
            rw [Nat.zero_add]
            exact fit15 h1 h2 hsz hc)
        show TransCase E mem m o (uniqueInsertAll layout15 E (entries layout15 o) (freshTable layout15 k m))
        rw [h2']
        rw [freshTable_entries, List.append_nil] at hp2
        exact .slow k t2 h0 hc he ⟨hk5, hm.2, hI2, hF2, hg2.gmask, hg2.mlf, hg2.thr⟩ hp2
    · rw [if_neg hm]
      refine .throw h0 ?_
      by_cases hmem : mem = true
      · right
        have hk : 55 < k := by by_contra hq; exact hm ⟨hmem, by omega⟩
        have := calcCapacity_big hc hk
        have := fitCapacity_le_two (n := o.size) h1
        omega
      · left; simpa using hmem

end

/-! ### C11 -/

section
variable {K V : Type} {E : Env K}

/-- `t` is a faithful copy of `o`: same size, same lookups, iteration visits the same elements, and whatever is done to
it afterwards is answered like an ideal map that starts with the contents of `o`. -/
def FaithfulCopy (E : Env K) (o t : Table K V) : Prop :=
  t.size = o.size ∧ (∀ k, lookup layout15 E t k = lookup layout15 E o k) ∧
  ∃ l l', walk15 o = .ok l ∧ walk15 t = .ok l' ∧ l'.Perm l ∧
    ∀ (ops : List (Bool × Call K V)) (as : List (Ans K V)) (t' : Table K V), (∀ op ∈ ops, Valid op.2) →
      run layout15 E walk15 ops t = .ok (as, t') →
      ∃ m, Spec.AcceptsAll E.eq l (ops.map (·.2)) as m ∧ ∃ l'', walk15 t' = .ok l'' ∧ l''.Perm m

theorem faithful_of_inv (hE : E.Lawful) {o t : Table K V} (ho : Inv laws15 E o) (ht : Inv laws15 E t)
    (hp : (entries layout15 t).Perm (entries layout15 o)) : FaithfulCopy E o t := by
  refine ⟨by rw [ht.size_eq, ho.size_eq, hp.length_eq], ?_, _, _, walk15_eq ho, walk15_eq ht, hp, ?_⟩
  · intro k; rw [ht.lookup_eq hE, ho.lookup_eq hE, Spec.get_perm hE hp ht.pairwise]
  · intro ops as t' hv hr
    have := run_ok hE (fun _ h => walk15_eq h) ops t _ ht hp hv
    rw [hr] at this
    obtain ⟨hI, m, h1, h2⟩ := this
    exact ⟨m, h1, _, walk15_eq hI, h2⟩

theorem Reachable.inv15 (hE : E.Lawful) {t : Table K V} (h : Reachable layout15 E walk15 t) : Inv laws15 E t :=
  h.inv hE (fun _ h => walk15_eq h)

/-- C11, partial. Copying a reachable map either runs out of memory or returns; the copy is faithful whenever its
capacity differs from the source's (or the source is empty).  Missing: equal capacities, see below. -/
theorem C11_copy_partial (hE : E.Lawful) {o : Table K V} (ho : Reachable layout15 E walk15 o) (mem : Bool) :
    (∃ t, copyOf E mem o = .ok t () ∧ (o.size = 0 ∨ t.capacity layout15 ≠ o.capacity layout15 → FaithfulCopy E o t)) ∨
    (∃ t, copyOf E mem o = .throw t ∧ (mem = false ∨ 2 ^ 54 ≤ o.size)) := by
  have hI := ho.inv15 hE
  have hC := transplant_cases hE hI mem hI.mlf_lo hI.mlf_hi
  unfold copyOf
  generalize transplant layout15 E walk15 mem o.mlf o = r at hC
  cases hC with
  | empty h =>
    refine Or.inl ⟨_, rfl, fun _ => faithful_of_inv hE hI (inv_empty hI.mlf_lo hI.mlf_hi) ?_⟩
    have : entries layout15 o = [] := List.length_eq_zero_iff.mp (by rw [← hI.size_eq]; exact h)
    rw [this, entries_empty]
  | throw h0 h => exact Or.inr ⟨_, rfl, h⟩
  | slow k t h0 hc hne hN hp =>
    exact Or.inl ⟨_, rfl, fun _ => faithful_of_inv hE hI (hN.inv' hI.mlf_lo hI.mlf_hi) hp⟩
  | fast k t h0 hc he hs hcap hl =>
    refine Or.inl ⟨_, rfl, fun h => ?_⟩
    rcases h with h | h
    · exact absurd h h0
    · exact absurd hcap h

/-- C11, violated part. Whenever the copy of a non-empty map has the capacity of the source, the copy reports
`size() == 0` and iterates over nothing, although `find` finds every element. -/
theorem C11_equal_capacity_copy_broken (hE : E.Lawful) {o : Table K V} (ho : Reachable layout15 E walk15 o) (h0 : o.size ≠ 0) {mem : Bool}
    {t : Table K V} (hc : copyOf E mem o = .ok t ()) (he : t.capacity layout15 = o.capacity layout15) :
    t.size = 0 ∧ walk15 t = .ok [] ∧ ∀ k, lookup layout15 E t k = lookup layout15 E o k := by
  have hI := ho.inv15 hE
  have hC := transplant_cases hE hI mem hI.mlf_lo hI.mlf_hi
  unfold copyOf at hc
  rw [hc] at hC
  cases hC with
  | empty h => exact absurd h h0
  | slow k t h0 hc hne hN hp =>
    exfalso
    rcases hI.st with h | hA
    · exact h0 (by rw [h]; rfl)
    · obtain ⟨j, hj1, hj2, hj3, hj4, _⟩ := hA.ctrlCap_eq
      rw [hN.capacity_eq, hA.capacity_eq] at he
      unfold Table.slotCap at he
      rw [hj3, pow_sub_add, slotCap15, slotCap15] at he
      have := Nat.two_pow_pos j
      have := Nat.two_pow_pos (k - 4)
      have h2 : 2 ^ (k - 4) = 2 ^ j := by omega
      have h3 := Nat.pow_right_injective (Nat.le_refl 2) h2
      have := hN.k_ge
      apply hne
      rw [hj4, ← h3]; congr 1; omega
  | fast k t h0 hc he hs hcap hl =>
    refine ⟨hs, ?_, hl⟩
    unfold walk15 begin15
    rw [if_neg (by simpa using hs)]
    simp only [Res.bind_ok]
    rw [hs]; rfl

/-- C11, violated part. The broken case is the normal one: it happens to every map of at most 28 elements that has the
initial capacity and the default load factor. -/
theorem C11_small_copy_broken (hE : E.Lawful) {o : Table K V} (ho : Reachable layout15 E walk15 o) (h0 : o.size ≠ 0) (h28 : o.size ≤ 28)
    (hcap : o.capacity layout15 = 29) (hm : o.mlf = 224) :
    ∃ t, copyOf E true o = .ok t () ∧ t.size = 0 ∧ walk15 t = .ok [] ∧ ∀ k, lookup layout15 E t k = lookup layout15 E o k := by
  have hcc : calcCapacity 0 (fitCapacity 224 o.size) = .ok 32 := by
    have hf : fitCapacity 224 o.size ≤ 32 := by
      unfold fitCapacity
      rw [Nat.mod_eq_of_lt (by unfold W; omega)]
      omega
    unfold calcCapacity
    rw [show max (max (fitCapacity 224 o.size) 32) 0 = 32 by omega]
    rfl
  rcases C11_copy_partial hE ho true with ⟨t, ht, _⟩ | ⟨t, _, h | h⟩
  · refine ⟨t, ht, C11_equal_capacity_copy_broken hE ho h0 ht ?_⟩
    have hI := ho.inv15 hE
    have hC := transplant_cases hE hI true hI.mlf_lo hI.mlf_hi
    unfold copyOf at ht
    rw [ht] at hC
    cases hC with
    | empty h => exact absurd h h0
    | slow k t h0 hc hne hN hp =>
      rw [hm, hcc, Res.ok.injEq] at hc
      have : k = 5 := Nat.pow_right_injective (Nat.le_refl 2) (show 2 ^ k = 2 ^ 5 by omega)
      rw [hN.capacity_eq, hcap, this]; rfl
    | fast k t h0 hc he hs hcap hl => exact hcap
  · cases h
  · omega

/-- Such a map: 20 elements inserted into a default constructed object. -/
example : ∃ t : Table Nat Nat, Reachable layout15 modEnv walk15 t ∧ (t.size == 20 && t.capacity layout15 == 29 && t.mlf == 224) = true :=
  exists_reachable 0 (insertsFrom 0 20) _ (by decide +kernel)

/-- And a map whose copy is faithful: 20 elements in a table of 59 slots. -/
example : ∃ t : Table Nat Nat, Reachable layout15 modEnv walk15 t ∧
    (match copyOf modEnv true t with | .ok t' _ => t.size == 20 && t'.size == 20 && t'.capacity layout15 != t.capacity layout15 | _ => false) = true :=
  exists_reachable 40 (insertsFrom 0 20) _ (by decide +kernel)

/-- C11. Copy assignment is the copy constructor; when it throws, the assigned map is unchanged. -/
theorem C11_copy_assign (hE : E.Lawful) {o this : Table K V} (ht : Reachable layout15 E walk15 this) (mem : Bool) :
    (∀ t, copyAssign E mem o this = .ok t () ↔ copyOf E mem o = .ok t ()) ∧
    (∀ t, copyAssign E mem o this = .throw t ↔ t = this ∧ ∃ t', copyOf E mem o = .throw t') := by
  unfold copyAssign
  rw [(ht.inv15 hE).destroy_eq]
  cases copyOf E mem o <;> simp [Out.bind, eq_comm]

example : (match copyAssign modEnv true (emptyTable layout15 224 : Table Nat Nat) (emptyTable layout15 200) with
    | .ok t _ => t.size == 0 | _ => false) = true := by decide +kernel

/-! ### C41: moving with an allocator argument -/

/-- C41, partial. Moving a map into one with an unequal allocator: nothing is lost when the capacities differ, and the
source is left empty. -/
theorem C41_move_with_allocator_partial (hE : E.Lawful) {o : Table K V} (ho : Reachable layout15 E walk15 o) (mem : Bool) :
    (∃ t r, moveWithAlloc E mem o = .ok t r ∧ r = emptyTable layout15 o.mlf ∧
      (o.size = 0 ∨ t.capacity layout15 ≠ o.capacity layout15 → FaithfulCopy E o t)) ∨
    (∃ t, moveWithAlloc E mem o = .throw t ∧ (mem = false ∨ 2 ^ 54 ≤ o.size)) := by
  have hI := ho.inv15 hE
  have hC := transplant_cases hE hI mem (m := 224) (by omega) (by omega)
  unfold moveWithAlloc
  generalize transplant layout15 E walk15 mem 224 o = r at hC
  cases hC with
  | empty h =>
    refine Or.inl ⟨_, _, rfl, rfl, fun _ => faithful_of_inv hE hI (inv_empty (by omega) (by omega)) ?_⟩
    have : entries layout15 o = [] := List.length_eq_zero_iff.mp (by rw [← hI.size_eq]; exact h)
    rw [this, entries_empty]
  | throw h0 h => exact Or.inr ⟨_, rfl, h⟩
  | slow k t h0 hc hne hN hp =>
    exact Or.inl ⟨_, _, rfl, rfl, fun _ => faithful_of_inv hE hI (hN.inv' (by omega) (by omega)) hp⟩
  | fast k t h0 hc he hs hcap hl =>
    refine Or.inl ⟨_, _, rfl, rfl, fun h => ?_⟩
    rcases h with h | h
    · exact absurd h h0
    · exact absurd hcap h

/-- C41, violated part. With equal capacities the moved-to map reports size 0: the number of elements is lost. -/
theorem C41_equal_capacity_move_broken (hE : E.Lawful) {o : Table K V} (ho : Reachable layout15 E walk15 o) (h0 : o.size ≠ 0) (h28 : o.size ≤ 28)
    (hcap : o.capacity layout15 = 29) : ∃ t r, moveWithAlloc E true o = .ok t r ∧ t.size = 0 ∧ r.size = 0 := by
  have hcc : calcCapacity 0 (fitCapacity 224 o.size) = .ok 32 := by
    have hf : fitCapacity 224 o.size ≤ 32 := by
      unfold fitCapacity
      rw [Nat.mod_eq_of_lt (by unfold W; omega)]
      omega
    unfold calcCapacity
    rw [show max (max (fitCapacity 224 o.size) 32) 0 = 32 by omega]
    rfl
  have hI := ho.inv15 hE
  have hC := transplant_cases hE hI true (m := 224) (by omega) (by omega)
  unfold moveWithAlloc
  generalize transplant layout15 E walk15 true 224 o = r at hC
  cases hC with
  | empty h => exact absurd h h0
  | throw h0 h =>
    rcases h with h | h
    · cases h
    · omega
  | slow k t h0 hc hne hN hp =>
    exfalso
    rcases hI.st with h | hA
    · exact h0 (by rw [h]; rfl)
    · rw [hcc, Res.ok.injEq] at hc
      obtain ⟨j, hj1, hj2, hj3, hj4, _⟩ := hA.ctrlCap_eq
      rw [hA.capacity_eq] at hcap
      unfold Table.slotCap at hcap
      rw [hj3, pow_sub_add, slotCap15] at hcap
      apply hne
      rw [← hc, hj4, Nat.pow_add]
      have := Nat.two_pow_pos j
      omega
  | fast k t h0 hc he hs hcap hl => exact ⟨_, _, rfl, hs, rfl⟩

example : ∃ t : Table Nat Nat, Reachable layout15 modEnv walk15 t ∧ (t.size == 20 && t.capacity layout15 == 29) = true :=
  exists_reachable 0 (insertsFrom 0 20) _ (by decide +kernel)

/-! ### C17 -/

theorem swapContent_eq (a b : Table K V) : swapContent (a, b) = (b, a) := by
  cases a; cases b
  simp only [swapContent, swapMember]

theorem swapPolicy_eq (a b : Env K) : swapPolicy (a, b) = (b, a) := by
  cases a; cases b
  simp only [swapPolicy, swapMember]

/-- C17. After `swap(a, b)` every history of calls on `a` gives what it would have given on `b`, and vice versa. -/
theorem C17_swap (a b : Obj K V) (ops : List (Bool × Call K V)) :
    run layout15 (swapObj a b).1.env walk15 ops (swapObj a b).1.tab = run layout15 b.env walk15 ops b.tab ∧
    run layout15 (swapObj a b).2.env walk15 ops (swapObj a b).2.tab = run layout15 a.env walk15 ops a.tab ∧
    (swapObj a b).1.tab.capacity layout15 = b.tab.capacity layout15 ∧ (swapObj a b).2.tab.capacity layout15 = a.tab.capacity layout15 := by
  unfold swapObj
  rw [swapContent_eq, swapPolicy_eq]
  exact ⟨rfl, rfl, rfl, rfl⟩

/-- Two maps with different contents and hashers. -/
example : ((swapObj ⟨idEnv, emptyTable layout15 224⟩ ⟨clashEnv, (emptyTable layout15 200 : Table Nat Nat)⟩).1.tab.mlf == 200 &&
    (swapObj ⟨idEnv, emptyTable layout15 224⟩ ⟨clashEnv, (emptyTable layout15 200 : Table Nat Nat)⟩).1.env.hash 5 == clashEnv.hash 5) = true := by
  decide +kernel

/-! ### C12 -/

/-- Contents after inserting the elements of a range one after the other. -/
def Spec.insertAll (eq : K → K → Bool) (l : List (K × V)) (m : Spec.Map K V) : Spec.Map K V :=
  l.foldl (fun m e => Spec.insert eq m e.1 e.2) m

theorem Spec.get_insertAll (hE : E.Lawful) : ∀ (l : List (K × V)) (m : Spec.Map K V) (k : K),
    Spec.get E.eq (Spec.insertAll E.eq l m) k = (Spec.get E.eq m k).or (l.find? fun e => E.eq k e.1) := by
  intro l
  induction l with
  | nil => intro m k; simp [Spec.insertAll]
  | cons e l ih =>
    intro m k
    show Spec.get E.eq (Spec.insertAll E.eq l (Spec.insert E.eq m e.1 e.2)) k = _
    rw [ih]
    have key : Spec.get E.eq (Spec.insert E.eq m e.1 e.2) k = (Spec.get E.eq m k).or (if E.eq k e.1 then some e else none) := by
      cases hq : E.eq k e.1 with
      | false => rw [Spec.get_insert_other _ _ hq]; simp
      | true =>
        have hsame : Spec.get E.eq m k = Spec.get E.eq m e.1 := by
          unfold Spec.get
          congr 1
          funext a
          cases h1 : E.eq e.1 a.1 with
          | true => exact hE.trans _ _ _ hq h1
          | false =>
            cases h2 : E.eq k a.1 with
            | false => rfl
            | true => rw [hE.trans _ _ _ (hE.symm _ _ hq) h2] at h1; cases h1
        cases hg : Spec.get E.eq m e.1 with
        | some a => rw [Spec.insert_present hg, hsame, hg]; rfl
        | none =>
          rw [Spec.insert_absent hg, hsame, hg]
          unfold Spec.get
          rw [List.find?_cons, hq]; rfl
    rw [key, List.find?_cons]
    cases E.eq k e.1 <;> simp

theorem insertRange_ok {L : Layout} {H : Laws L} (hE : E.Lawful) : ∀ (l : List (Bool × K × V)) (t : Table K V), Inv H E t →
    match insertRange E L l t with
    | .ok t' _ => Inv H E t' ∧ (entries L t').Perm (Spec.insertAll E.eq (l.map (·.2)) (entries L t))
    | .throw t' => Inv H E t' ∧ ∃ pre x post, l = pre ++ x :: post ∧ insertRange E L pre t = .ok t' () ∧
        (entries L t').Perm (Spec.insertAll E.eq (pre.map (·.2)) (entries L t))
    | .diverge => True
    | .ub => False := by
  have hperm : ∀ (l : List (K × V)) {a b : Spec.Map K V}, a.Perm b → Spec.Distinct E.eq a →
      (Spec.insertAll E.eq l a).Perm (Spec.insertAll E.eq l b) := by
    intro l
    induction l with
    | nil => intro a b h _; exact h
    | cons e l ih =>
      intro a b h hd
      have hg := Spec.get_perm hE h hd e.1
      cases hq : Spec.get E.eq a e.1 with
      | some x =>
        have h1 := Spec.insert_present hq (v := e.2)
        have h2 := Spec.insert_present (hg ▸ hq) (v := e.2)
        show (Spec.insertAll E.eq l (Spec.insert E.eq a e.1 e.2)).Perm (Spec.insertAll E.eq l (Spec.insert E.eq b e.1 e.2))
        rw [h1, h2]
        exact ih h hd
      | none =>
        have h1 := Spec.insert_absent hq (v := e.2)
        have h2 := Spec.insert_absent (hg ▸ hq) (v := e.2)
        show (Spec.insertAll E.eq l (Spec.insert E.eq a e.1 e.2)).Perm (Spec.insertAll E.eq l (Spec.insert E.eq b e.1 e.2))
        rw [h1, h2]
        refine ih (List.Perm.cons _ h) ?_
        rw [Spec.Distinct, List.pairwise_cons]
        exact ⟨fun x hx => Spec.get_none_iff.mp hq x hx, hd⟩
  intro l
  induction l with
  | nil => intro t hI; exact ⟨hI, List.Perm.refl _⟩
  | cons x l ih =>
    obtain ⟨mem, k, v⟩ := x
    intro t hI
    have hstep := hI.emplace_ok hE (List.Perm.refl _) false mem k v (hI.emplace_cases hE false mem k v)
    cases hr : emplace L E false mem true k v t with
    | diverge => simp only [insertRange, hr, Out.bind]
    | ub => rw [hr] at hstep; exact hstep.elim
    | throw t' =>
      rw [hr] at hstep
      have : t' = t := hstep
      subst this
      simp only [insertRange, hr, Out.bind]
      exact ⟨hI, [], (mem, k, v), l, rfl, rfl, List.Perm.refl _⟩
    | ok t' a =>
      rw [hr] at hstep
      obtain ⟨hI', _, m', e, hm', _, _, hp⟩ := hstep
      simp only [Bool.false_eq_true, if_false] at hm'
      have hrec := ih t' hI'
      have hstep : ∀ l, insertRange E L ((mem, k, v) :: l) t = insertRange E L l t' := by
        intro l; simp only [insertRange, hr, Out.bind_ok]
      rw [hstep]
      rw [hm'] at hp
      cases hr2 : insertRange E L l t' with
      | diverge => trivial
      | ub => rw [hr2] at hrec; exact hrec
      | throw t2 =>
        rw [hr2] at hrec
        obtain ⟨h1, pre, x, post, h2, h3, h4⟩ := hrec
        exact ⟨h1, (mem, k, v) :: pre, x, post, by rw [h2]; rfl, by rw [hstep]; exact h3,
          h4.trans (hperm _ hp hI'.pairwise)⟩
      | ok t2 u =>
        rw [hr2] at hrec
        exact ⟨hrec.1, hrec.2.trans (hperm _ hp hI'.pairwise)⟩

/-- C12, the table-level overload. If `insert(first, last)` returns, the map has its old elements and, for every key of the
range that was absent, the first element of the range with that key; if memory runs out in the middle, a proper prefix
of the range has been inserted in this sense.  The call is never undefined. -/
theorem C12_table_insert_range (hE : E.Lawful) {t : Table K V} (ht : Reachable layout15 E walk15 t) (l : List (Bool × K × V)) :
    insertRange E layout15 l t ≠ .ub ∧
    (∀ t', insertRange E layout15 l t = .ok t' () → ∀ k o, lookup layout15 E t k = .ok o →
      lookup layout15 E t' k = .ok (o.or ((l.map (·.2)).find? fun e => E.eq k e.1))) ∧
    (∀ t', insertRange E layout15 l t = .throw t' → ∃ n < l.length, ∀ k o, lookup layout15 E t k = .ok o →
      lookup layout15 E t' k = .ok (o.or (((l.take n).map (·.2)).find? fun e => E.eq k e.1))) := by
  have hI := ht.inv15 hE
  have h := insertRange_ok hE l t hI
  have hlk : ∀ {t' : Table K V} {l' : List (K × V)}, Inv laws15 E t' → (entries layout15 t').Perm (Spec.insertAll E.eq l' (entries layout15 t)) →
      ∀ k o, lookup layout15 E t k = .ok o → lookup layout15 E t' k = .ok (o.or (l'.find? fun e => E.eq k e.1)) := by
    intro t' l' hI' hp k o ho
    rw [hI.lookup_eq hE, Res.ok.injEq] at ho
    rw [hI'.lookup_eq hE, Spec.get_perm hE hp hI'.pairwise, Spec.get_insertAll hE, ho]
  refine ⟨?_, ?_, ?_⟩
  · intro hq; rw [hq] at h; exact h
  · intro t' hq
    rw [hq] at h
    exact hlk h.1 h.2
  · intro t' hq
    rw [hq] at h
    obtain ⟨h1, pre, x, post, rfl, _, h4⟩ := h
    refine ⟨pre.length, by simp, ?_⟩
    rw [List.take_left' rfl]
    exact hlk h1 h4

/-- A call that adds two elements and skips a present and a repeated key. -/
example : ∃ t : Table Nat Nat, Reachable layout15 modEnv walk15 t ∧
    (match insertRange modEnv layout15 [(true, 3, 1), (true, 50, 2), (true, 50, 3), (true, 60, 4)] t with
      | .ok t' _ => t.size == 20 && t'.size == 22 | _ => false) = true :=
  exists_reachable 0 (insertsFrom 0 20) _ (by decide +kernel)

/-- C12. The table-level overload is exactly the history of one `insert` per element, as long as memory suffices. -/
theorem C12_range_is_single_inserts {L : Layout} {H : Laws L} {walk : Table K V → Res (List (K × V))} (hE : E.Lawful) :
    ∀ (l : List (Bool × K × V)) (t t' : Table K V), Inv H E t → (insertRange E L l t = .ok t' () ↔
      ∃ as, run L E walk (l.map fun x => (x.1, .insert x.2.1 x.2.2)) t = .ok (as, t') ∧ .threw ∉ as) := by
  intro l
  induction l with
  | nil =>
    intro t t' _
    simp only [insertRange, List.map_nil, run, Out.ok.injEq, Res.ok.injEq, Prod.mk.injEq]
    exact ⟨fun h => ⟨[], ⟨rfl, h.1⟩, by simp⟩, fun ⟨as, h, _⟩ => ⟨h.2, trivial⟩⟩
  | cons x l ih =>
    obtain ⟨mem, k, v⟩ := x
    intro t t' hI
    have hstep := hI.emplace_ok hE (List.Perm.refl _) false mem k v (hI.emplace_cases hE false mem k v)
    cases hr : emplace L E false mem true k v t with
    | diverge => simp [insertRange, hr, Out.bind, run, exec]
    | ub => rw [hr] at hstep; exact hstep.elim
    | throw t2 =>
      simp only [insertRange, hr, Out.bind, List.map_cons, run, exec, reduceCtorEq, false_iff, not_exists, not_and, not_not]
      intro as h
      cases hq : run L E walk (l.map fun x => (x.1, Spec.Call.insert x.2.1 x.2.2)) t2 <;> rw [hq] at h <;>
        simp only [Res.bind, Res.ok.injEq, Prod.mk.injEq, reduceCtorEq] at h
      rw [← h.1]; simp
    | ok t2 a =>
      rw [hr] at hstep
      obtain ⟨hI', _, m', e, _, he, _, _⟩ := hstep
      simp only [insertRange, hr, Out.bind_ok, List.map_cons, run, exec, readElem, he]
      rw [ih t2 t' hI']
      constructor
      · rintro ⟨as, h1, h2⟩
        rw [h1]
        exact ⟨_, rfl, by simpa using h2⟩
      · rintro ⟨as, h1, h2⟩
        cases hq : run L E walk (l.map fun x => (x.1, Spec.Call.insert x.2.1 x.2.2)) t2 <;> rw [hq] at h1 <;>
          simp only [Res.bind, Res.ok.injEq, Prod.mk.injEq, reduceCtorEq] at h1
        rename_i r
        refine ⟨r.1, by rw [← h1.2], ?_⟩
        intro hm
        apply h2
        rw [← h1.1]
        exact List.mem_cons_of_mem _ hm

/-- C12, violated part (the overload users of group15_flat_map call, also through the range and initializer_list
constructors): only the first element of the range is ever inserted. -/
theorem C12_map_insert_range_ignores_rest (hE : E.Lawful) {t t' : Table K V} (ht : Reachable layout15 E walk15 t)
    {b : Bool} {e : K × V} {l : List (Bool × K × V)} (h : insertRangeMap E layout15 ((b, e) :: l) t = .ok t' ()) :
    ∀ k, E.eq k e.1 = false → lookup layout15 E t' k = lookup layout15 E t k := by
  intro k hk
  have hI := ht.inv15 hE
  have hl := hI.lookup_eq hE k
  rw [(C12_table_insert_range hE ht _).2.1 t' h k _ hl, hl]
  congr 1
  rw [List.find?_eq_none.mpr, Option.or_none]
  intro x hx
  simp only [List.mem_map] at hx
  obtain ⟨y, ⟨z, _, rfl⟩, rfl⟩ := hx
  simp [hk]

/-- Three elements are given, one is inserted. -/
example : (match insertRangeMap idEnv layout15 [(true, 1, 10), (true, 2, 20), (true, 3, 30)] (emptyTable layout15 224 : Table Nat Nat) with
    | .ok t _ => t.size == 1 && (match lookup layout15 idEnv t 2 with | .ok none => true | _ => false) | _ => false) = true := by decide +kernel

/-- C12, partial: ranges of at most one element (or of one repeated element) are handled correctly. -/
theorem C12_map_insert_range_partial (hE : E.Lawful) {t t' : Table K V} (ht : Reachable layout15 E walk15 t) {l : List (Bool × K × V)}
    (hsame : ∀ x ∈ l, ∀ y ∈ l, E.eq x.2.1 y.2.1 = true) (h : insertRangeMap E layout15 l t = .ok t' ()) :
    ∀ k o, lookup layout15 E t k = .ok o → lookup layout15 E t' k = .ok (o.or ((l.map (·.2)).find? fun e => E.eq k e.1)) := by
  intro k o ho
  cases l with
  | nil =>
    simp only [insertRangeMap, Out.ok.injEq] at h
    rw [← h.1, ho]; simp
  | cons x r =>
    obtain ⟨b, e⟩ := x
    rw [(C12_table_insert_range hE ht _).2.1 t' h k o ho]
    congr 2
    simp only [List.map_cons, List.find?_cons]
    cases hk : E.eq k e.1 with
    | true => rfl
    | false =>
      simp only
      rw [List.find?_eq_none.mpr, List.find?_eq_none.mpr]
      · intro x hx
        simp only [List.mem_map] at hx
        obtain ⟨z, hz, rfl⟩ := hx
        intro hq
        have := hsame z (by simp [hz]) (b, e) (by simp)
        rw [hE.trans _ _ _ hq this] at hk; cases hk
      · intro x hx
        simp only [List.mem_map] at hx
        obtain ⟨y, ⟨z, _, rfl⟩, rfl⟩ := hx
        simp [hk]

example : ∀ x ∈ [((true, 1, 10) : Bool × Nat × Nat)], ∀ y ∈ [((true, 1, 10) : Bool × Nat × Nat)], idEnv.eq x.2.1 y.2.1 = true := by decide

end
end Verif
