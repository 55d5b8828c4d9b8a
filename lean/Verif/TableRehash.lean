/-
Allocation, capacity arithmetic and re-insertion of all elements (`rehash_impl`).
-/
import Verif.TableOps

namespace Verif

section
variable {K V : Type} {L : Layout} (H : Laws L) {E : Env K}

/-- No group has been left by an insertion while it still has (or again has) an empty byte: holds from
an allocation until the first erasure. -/
def Fresh (t : Table K V) : Prop :=
  ∀ g y, g ≤ t.gmask → L.isOverflow (t.grp g) y = true → ∀ i, i < L.S → H.view (t.grp g) i ≠ .empty

variable {H}

theorem Fresh.placed {t t' : Table K V} {check : Bool} {h x g p : Nat} (hF : Fresh H t)
    (hP : Placed H check t t' h x g p) : Fresh H t' := by
  intro g' y hg' hy i hi
  rw [hP.gmask] at hg'
  rw [hP.view g' i hi]
  split
  · simp
  · rcases hP.ovf_full g' y hy with h | h
    · exact hF g' y hg' h i hi
    · exact h i hi

/-- In a fresh table the threshold is never raised by an insertion, and the new element sits in a group that
has not overflowed. -/
theorem Fresh.place_thr {t t' : Table K V} {check : Bool} {h x g p : Nat} (hF : Fresh H t)
    (hP : Placed H check t t' h x g p) : t'.thr = t.thr := by
  rcases hP.thr with h | ⟨_, _, h3, _⟩
  · exact h
  · exact absurd hP.was (hF g _ hP.g_le h3 p hP.p_lt)

theorem Fresh.place_ovf {t t' : Table K V} {check : Bool} {h x g p : Nat} (hF : Fresh H t)
    (hP : Placed H check t t' h x g p) (y : Nat) : L.isOverflow (t'.grp g) y = false := by
  cases hq : L.isOverflow (t'.grp g) y with
  | false => rfl
  | true =>
    exfalso
    rcases hP.ovf_full g y hq with h | h
    · exact hF g y hP.g_le h p hP.p_lt hP.was
    · exact h p hP.p_lt hP.was

/-! ### Capacity arithmetic -/

theorem isPow2_iff {n : Nat} (hn : n ≠ 0) : isPow2 n = true ↔ ∃ k, n = 2 ^ k := by
  unfold isPow2
  simp only [beq_iff_eq]
  constructor
  · intro h
    obtain ⟨p, q, rfl⟩ := exists_low_bit hn
    have h2 := clearLowBit_eq p q
    unfold clearLowBit at h2
    rw [h2] at h
    have hq : q = 0 := by
      rcases Nat.mul_eq_zero.mp h with h3 | h3
      · have := Nat.two_pow_pos (p + 1); omega
      · exact h3
    exact ⟨p, by rw [hq]; simp⟩
  · rintro ⟨k, rfl⟩
    have := clearLowBit_eq k 0
    simp

theorem pow2_ge_32 {k : Nat} (h : 32 ≤ 2 ^ k) : 5 ≤ k := by
  by_contra hc
  have : 2 ^ k ≤ 2 ^ 4 := Nat.pow_le_pow_right (by decide) (by omega)
  omega

/-- What `calc_capacity` returns: the least power of two that is at least 32, the request and the size. -/
theorem calcCapacity_ok {size n cap : Nat} (h : calcCapacity size n = .ok cap) :
    ∃ k, cap = 2 ^ k ∧ 5 ≤ k ∧ n ≤ cap ∧ size ≤ cap ∧ (cap = 32 ∨ cap < 2 * max n size) := by
  unfold calcCapacity at h
  simp only at h
  by_cases hp : isPow2 (max (max n 32) size) = true
  · rw [if_pos hp] at h
    obtain ⟨k, hk⟩ := (isPow2_iff (by omega)).mp hp
    cases h
    refine ⟨k, hk, pow2_ge_32 (by omega), by omega, by omega, by omega⟩
  · rw [if_neg hp] at h
    unfold roundUp at h
    split at h
    · cases h
      have h1 : max (max n 32) size - 1 < 2 ^ (Nat.log2 (max (max n 32) size - 1) + 1) := Nat.lt_log2_self
      have h2 : 2 ^ (Nat.log2 (max (max n 32) size - 1)) ≤ max (max n 32) size - 1 :=
        Nat.log2_self_le (by omega)
      refine ⟨_, rfl, pow2_ge_32 (by omega), by omega, by omega, ?_⟩
      rw [Nat.pow_succ] at h1 ⊢
      by_cases h32 : max (max n 32) size = 32
      · exfalso; apply hp; rw [h32]; rfl
      · right; omega
    · cases h

theorem calcCapacity_ub {size n : Nat} (h : calcCapacity size n = .ub) : 2 ^ 63 < n ∨ 2 ^ 63 < size := by
  unfold calcCapacity at h
  simp only at h
  split at h
  · cases h
  · unfold roundUp at h
    split at h
    · cases h
    · omega

theorem calcCapacity_diverge {size n : Nat} : calcCapacity size n ≠ .diverge := by
  unfold calcCapacity roundUp
  simp only
  split
  · simp
  · split <;> simp

theorem fitCapacity_le {m n : Nat} (hm : 128 ≤ m) : fitCapacity m n ≤ 2 ^ 57 := by
  unfold fitCapacity
  have h1 : n * 256 % W < 2 ^ 64 := Nat.mod_lt _ (by unfold W; positivity)
  apply Nat.div_le_of_le_mul
  have : 128 * 2 ^ 57 ≤ m * 2 ^ 57 := Nat.mul_le_mul_right _ hm
  omega

/-! ### Allocation -/

/-- The table made by `create_slots(2^k)`. -/
def freshTable (L : Layout) (k mlf : Nat) : Table K V where
  alloc := true
  grp := fun g => if g + 1 = 2 ^ (k - 4) then L.markTail L.init else L.init
  slot := fun _ => none
  size := 0
  thr := calcThr mlf (L.slotCap (2 ^ (k - 4)))
  gmask := 2 ^ (k - 4) - 1
  shift := 64 - (k - 4)
  mlf := mlf

theorem groups_of_cap {k : Nat} (h : 5 ≤ k) : (2 ^ k + 15) / 16 = 2 ^ (k - 4) := by
  obtain ⟨j, rfl⟩ : ∃ j, k = j + 4 := ⟨k - 4, by omega⟩
  rw [Nat.pow_add, show j + 4 - 4 = j by omega]
  omega

theorem calcShift_pow {k : Nat} (h : 5 ≤ k) : calcShift (2 ^ k) = 64 - (k - 4) := by
  obtain ⟨j, rfl⟩ : ∃ j, k = j + 4 := ⟨k - 4, by omega⟩
  unfold calcShift
  rw [show 2 ^ (j + 4) / 16 = 2 ^ j by rw [Nat.pow_add]; omega, show j + 4 - 4 = j by omega]
  split
  · rename_i hle
    have : j ≤ 1 := by
      by_contra hc
      have : 2 ^ 2 ≤ 2 ^ j := Nat.pow_le_pow_right (by decide) (by omega)
      omega
    omega
  · rw [Nat.log2_two_pow]

theorem createSlots_ok {k : Nat} (h5 : 5 ≤ k) (t : Table K V) (mem : Bool) :
    createSlots L mem (2 ^ k) t
      = if mem = true ∧ k ≤ 55 then .ok (freshTable L k t.mlf) () else .throw t := by
  unfold createSlots capLimit
  have hle : (2 ^ k ≤ 2 ^ 55) ↔ k ≤ 55 := Nat.pow_le_pow_iff_right (by decide)
  simp only [Bool.and_eq_true, decide_eq_true_eq, hle]
  split
  · simp only [groups_of_cap h5, calcShift_pow h5]
    rfl
  · rfl

theorem entries_none {t : Table K V} (h : ∀ i, t.slot i = none) : entries L t = [] := by
  unfold entries
  rw [List.filterMap_eq_nil_iff]
  intro a _; exact h a

/-- Control bytes of a table whose groups have just been initialised. -/
theorem cell_init {t : Table K V} {G : Nat} (hG : 0 < G)
    (hgrp : t.grp = fun g => if g + 1 = G then L.markTail L.init else L.init) (i : Nat) :
    cell H t i = if H.tail.isSome = true ∧ i + 1 = G * L.S then .sentinel else .empty := by
  have hS := H.S_pos
  have hm : i % L.S < L.S := Nat.mod_lt _ hS
  have hd := Nat.div_add_mod i L.S
  unfold cell
  rw [hgrp]
  simp only
  by_cases hl : i / L.S + 1 = G
  · rw [if_pos hl, H.view_mark _ hm]
    by_cases ht : H.tail = some (i % L.S)
    · have h1 := H.tail_spec _ ht
      rw [if_pos ht, if_pos]
      refine ⟨by simp [ht], ?_⟩
      rw [← hl, Nat.add_mul, Nat.mul_comm (i / L.S)]; omega
    · rw [if_neg ht, if_neg]
      rintro ⟨h1, h2⟩
      obtain ⟨q, hq⟩ := Option.isSome_iff_exists.mp h1
      have h3 := H.tail_spec _ hq
      apply ht
      rw [hq]; congr 1
      rw [← hl, Nat.add_mul, Nat.mul_comm (i / L.S)] at h2; omega
  · rw [if_neg hl, H.view_init _ hm, if_neg]
    rintro ⟨_, h2⟩
    apply hl
    have h3 : i = (G - 1) * L.S + (L.S - 1) := by
      obtain ⟨G', rfl⟩ : ∃ G', G = G' + 1 := ⟨G - 1, by omega⟩
      rw [Nat.add_mul] at h2
      simp; omega
    rw [h3, gp_div (by omega)]; omega

/-- Emptied storage satisfies the invariant. -/
theorem InvA.of_init {t : Table K V} (ha : t.alloc = true)
    (hgeom : ∃ j, 1 ≤ j ∧ j ≤ 51 ∧ t.gmask = 2 ^ j - 1 ∧ t.shift = 64 - j)
    (hgrp : t.grp = fun g => if g + 1 = t.gmask + 1 then L.markTail L.init else L.init)
    (hslot : ∀ i, t.slot i = none) (hsize : t.size = 0) : InvA H E t ∧ Fresh H t := by
  have hc := cell_init (H := H) (Nat.succ_pos _) hgrp
  refine ⟨?_, ?_⟩
  · refine
      { alloc := ha, geom := hgeom
        used := fun i e _ h => by rw [hslot] at h; cases h
        isome := fun i x _ h => by rw [hc] at h; split at h <;> cases h
        sent := fun i _ => by rw [hc]; split <;> simp_all
        oob := fun i _ => hslot i
        reach := fun i e h => by rw [hslot] at h; cases h
        uniq := fun i j a b h => by rw [hslot] at h; cases h
        size := by rw [hsize, entries_none hslot]; rfl }
  · intro g y _ hy
    rw [hgrp] at hy
    simp only at hy
    split at hy
    · rw [H.ovf_mark] at hy; cases hy
    · rw [H.ovf_init] at hy; cases hy

theorem freshTable_inv {k mlf : Nat} (h5 : 5 ≤ k) (h55 : k ≤ 55) :
    InvA H E (freshTable L k mlf : Table K V) ∧ Fresh H (freshTable L k mlf : Table K V) := by
  apply InvA.of_init rfl
  · exact ⟨k - 4, by omega, by omega, rfl, rfl⟩
  · unfold freshTable
    simp only [pow_sub_add]
  · intro i; rfl
  · rfl

theorem freshTable_entries (k mlf : Nat) : entries L (freshTable L k mlf : Table K V) = [] :=
  entries_none (fun _ => rfl)

/-! ### Enumeration of the used positions -/

theorem takeWhile_filter_last {n : Nat} (p q : Nat → Bool) (h : ∀ i, i + 1 < n → p i = true → q i = true) :
    ((List.range n).filter p).takeWhile q = (List.range n).filter (fun i => p i && q i) := by
  cases n with
  | zero => rfl
  | succ n =>
    rw [List.range_succ, List.filter_append, List.filter_append]
    have h1 : ∀ a ∈ (List.range n).filter p, q a = true := by
      intro a ha
      obtain ⟨h2, h3⟩ := List.mem_filter.mp ha
      exact h a (by have := List.mem_range.mp h2; omega) h3
    rw [List.takeWhile_append_of_pos h1]
    congr 1
    · apply List.filter_congr
      intro a ha
      have := List.mem_range.mp ha
      cases hp : p a with
      | false => rfl
      | true => simp [h a (by omega) hp]
    · cases hp : p n <;> cases hq : q n <;> simp [hp, hq]

theorem range_mul_flatMap (G S : Nat) :
    List.range (G * S) = (List.range G).flatMap fun g => (List.range S).map fun p => g * S + p := by
  induction G with
  | zero => simp
  | succ G ih =>
    rw [Nat.add_mul, Nat.one_mul, List.range_add, ih, List.range_succ, List.flatMap_append]
    simp

theorem InvA.usedPos_group {t : Table K V} (hI : InvA H E t) {g : Nat} (hg : g ≤ t.gmask) :
    ((bitsOf (L.matchUsed (t.grp g))).takeWhile fun p => !L.isSentinel (t.grp g) p)
      = (List.range L.S).filter fun p => (t.slot (g * L.S + p)).isSome := by
  rw [bitsOf_eq (by have := H.S_le; omega : L.S ≤ 32) (H.matchUsed_lt _), takeWhile_filter_last]
  · apply List.filter_congr
    intro p hp
    have hp := List.mem_range.mp hp
    have hlt : g * L.S + p < (t.gmask + 1) * L.S := gp_lt hp (by omega)
    have hb := H.matchUsed_bit (t.grp g) p hp
    have hs := H.isSentinel_eq (t.grp g) p hp
    have hcell := cell_gp H t (g := g) hp
    cases hv : H.view (t.grp g) p with
    | empty =>
      rw [hv] at hcell hb
      have h1 : (L.matchUsed (t.grp g)).testBit p = false := by
        cases hq : (L.matchUsed (t.grp g)).testBit p with
        | false => rfl
        | true => exact absurd rfl (hb.mp hq)
      have h2 : t.slot (g * L.S + p) = none := by
        cases hsl : t.slot (g * L.S + p) with
        | none => rfl
        | some e => have := hI.used _ e hlt hsl; rw [hcell] at this; cases this
      rw [h1, h2]; rfl
    | sentinel =>
      rw [hv] at hcell
      have h1 := hs.mpr hv
      have h2 : t.slot (g * L.S + p) = none := by
        cases hsl : t.slot (g * L.S + p) with
        | none => rfl
        | some e => have := hI.used _ e hlt hsl; rw [hcell] at this; cases this
      rw [h1, h2]; simp
    | used x =>
      rw [hv] at hcell hb hs
      have h1 := hb.mpr (by simp)
      have h2 : L.isSentinel (t.grp g) p = false := by
        cases hq : L.isSentinel (t.grp g) p with
        | false => rfl
        | true => exact absurd (hs.mp hq) (by simp)
      rw [h1, h2, hI.isome _ x hlt hcell]; rfl
  · intro p hp _
    have hpS : p < L.S := by omega
    cases hq : L.isSentinel (t.grp g) p with
    | false => rfl
    | true =>
      exfalso
      have hv := (H.isSentinel_eq (t.grp g) p hpS).mp hq
      have hlt : g * L.S + p < (t.gmask + 1) * L.S := gp_lt hpS (by omega)
      have := (hI.sent _ hlt).mp (by rw [cell_gp H t hpS]; exact hv)
      have h2 : (g + 1) * L.S ≤ (t.gmask + 1) * L.S := Nat.mul_le_mul_right _ (by omega)
      rw [Nat.add_mul g] at h2; omega

/-- The enumeration of used positions reads back exactly the stored elements, in slot order. -/
theorem InvA.usedPos_map {t : Table K V} (hI : InvA H E t) :
    (usedPos L t).map (fun gp => t.slot (gp.1 * L.S + gp.2)) = (entries L t).map some := by
  unfold usedPos entries
  rw [range_mul_flatMap, List.map_flatMap, List.filterMap_flatMap, List.map_flatMap]
  have aux : ∀ (l : List Nat) (f f' : Nat → List (Option (K × V))), (∀ g ∈ l, f g = f' g) →
      l.flatMap f = l.flatMap f' := by
    intro l f f' h
    induction l with
    | nil => rfl
    | cons a l ih =>
      rw [List.flatMap_cons, List.flatMap_cons, h a (by simp), ih (fun g hg => h g (by simp [hg]))]
  apply aux
  intro g hg
  have hg := List.mem_range.mp hg
  rw [hI.usedPos_group (by omega), List.map_map, List.filterMap_map]
  generalize List.range L.S = l
  induction l with
  | nil => rfl
  | cons p l ih =>
    rw [List.filter_cons, List.filterMap_cons]
    simp only [Function.comp]
    cases hsl : t.slot (g * L.S + p) with
    | none => simpa using ih
    | some e =>
      simp only [Option.isSome_some, if_true, List.map_cons, hsl, Function.comp]
      congr 1

/-! ### Re-insertion -/

/-- Facts about a table that are kept while elements are only added. -/
structure SameGeom (t t' : Table K V) : Prop where
  gmask : t'.gmask = t.gmask
  shift : t'.shift = t.shift
  mlf : t'.mlf = t.mlf
  thr : t'.thr = t.thr

theorem InvA.uniqueInsert_ok {t : Table K V} (hI : InvA H E t) (hE : E.Lawful) (hF : Fresh H t) {e : K × V}
    (hk : ∀ a ∈ entries L t, E.eq e.1 a.1 = false) (hs : t.size < t.slotCap L) :
    ∃ t', uniqueInsert L E e t = .ok t' () ∧ InvA H E t' ∧ Fresh H t' ∧
      (entries L t').Perm (e :: entries L t) ∧ SameGeom t t' ∧ t'.size = t.size + 1 := by
  obtain ⟨t1, g, p, h1, hP⟩ := hI.findEmpty_ok false e.1 hs
  obtain ⟨t2, h2, h3, _, h4, h5⟩ := hI.insert hE hP
    (fun i a ha => hk a (hI.mem_iff.mpr ⟨i, ha⟩)) e.2
  refine ⟨t2, ?_, h4, ?_, h5, ?_, ?_⟩
  · unfold uniqueInsert; rw [h1]; exact h2
  · have := hF.placed hP
    rw [h3]; exact this
  · rw [h3]
    have hthr : t1.thr = t.thr := hF.place_thr hP
    exact ⟨hP.gmask, hP.shift, hP.mlf, hthr⟩
  · rw [h3]

/-- Moving a list of elements with pairwise inequivalent keys into fresh storage with enough room. -/
theorem transferAll_ok (hE : E.Lawful) (old : Table K V) : ∀ (ps : List (Nat × Nat)) (es : List (K × V))
    (t : Table K V), ps.map (fun gp => old.slot (gp.1 * L.S + gp.2)) = es.map some →
    InvA H E t → Fresh H t → es.Pairwise (fun a b => E.eq a.1 b.1 = false) →
    (∀ e ∈ es, ∀ a ∈ entries L t, E.eq e.1 a.1 = false) → t.size + es.length ≤ t.slotCap L →
    ∃ t', transferAll L E old ps t = .ok t' () ∧ InvA H E t' ∧ Fresh H t' ∧
      (entries L t').Perm (es ++ entries L t) ∧ SameGeom t t' := by
  intro ps
  induction ps with
  | nil =>
    intro es t hm hI hF _ _ _
    cases es with
    | nil => exact ⟨t, rfl, hI, hF, List.Perm.refl _, ⟨rfl, rfl, rfl, rfl⟩⟩
    | cons e es => simp at hm
  | cons gp ps ih =>
    intro es t hm hI hF hpw hd hsz
    cases es with
    | nil => simp at hm
    | cons e es =>
      rw [List.map_cons, List.map_cons, List.cons.injEq] at hm
      rw [List.pairwise_cons] at hpw
      rw [List.length_cons] at hsz
      obtain ⟨t1, h1, hI1, hF1, hp1, hg1, hs1⟩ := hI.uniqueInsert_ok hE hF (hd e (by simp)) (by omega)
      have hcap : t1.slotCap L = t.slotCap L := by unfold Table.slotCap; rw [hg1.gmask]
      obtain ⟨t2, h2, hI2, hF2, hp2, hg2⟩ := ih es t1 hm.2 hI1 hF1 hpw.2
        (by
          intro a ha b hb
          rcases List.mem_cons.mp (hp1.mem_iff.mp hb) with rfl | hb
          · have := hpw.1 a ha
            cases hq : E.eq a.1 b.1 with
            | false => rfl
            | true => rw [hE.symm _ _ hq] at this; cases this
          · exact hd a (by simp [ha]) b hb)
        (by rw [hcap, hs1]; omega)
      refine ⟨t2, ?_, hI2, hF2, ?_, ?_⟩
      · unfold transferAll
        rw [hm.1]
        simp only [h1, Out.bind_ok]
        exact h2
      · refine hp2.trans ?_
        refine (List.Perm.append_left es hp1).trans ?_
        exact List.perm_middle
      · exact ⟨hg2.gmask.trans hg1.gmask, hg2.shift.trans hg1.shift, hg2.mlf.trans hg1.mlf,
          hg2.thr.trans hg1.thr⟩

/-- With too little room the re-insertion never ends. -/
theorem transferAll_diverge (hE : E.Lawful) (old : Table K V) : ∀ (ps : List (Nat × Nat)) (es : List (K × V))
    (t : Table K V), ps.map (fun gp => old.slot (gp.1 * L.S + gp.2)) = es.map some →
    InvA H E t → Fresh H t → es.Pairwise (fun a b => E.eq a.1 b.1 = false) →
    (∀ e ∈ es, ∀ a ∈ entries L t, E.eq e.1 a.1 = false) → t.slotCap L < t.size + es.length →
    transferAll L E old ps t = .diverge := by
  intro ps
  induction ps with
  | nil =>
    intro es t hm hI hF _ _ hsz
    cases es with
    | nil =>
      have := hI.size_le_slotCap
      simp at hsz; omega
    | cons e es => simp at hm
  | cons gp ps ih =>
    intro es t hm hI hF hpw hd hsz
    cases es with
    | nil => simp at hm
    | cons e es =>
      rw [List.map_cons, List.map_cons, List.cons.injEq] at hm
      rw [List.pairwise_cons] at hpw
      rw [List.length_cons] at hsz
      unfold transferAll
      rw [hm.1]
      simp only
      by_cases hfull : t.slotCap L ≤ t.size
      · unfold uniqueInsert
        rw [hI.findEmpty_diverge false e.1 hfull]; rfl
      · obtain ⟨t1, h1, hI1, hF1, hp1, hg1, hs1⟩ := hI.uniqueInsert_ok hE hF (hd e (by simp)) (by omega)
        have hcap : t1.slotCap L = t.slotCap L := by unfold Table.slotCap; rw [hg1.gmask]
        rw [h1]
        simp only [Out.bind_ok]
        refine ih es t1 hm.2 hI1 hF1 hpw.2 ?_ (by rw [hcap, hs1]; omega)
        intro a ha b hb
        rcases List.mem_cons.mp (hp1.mem_iff.mp hb) with rfl | hb
        · have := hpw.1 a ha
          cases hq : E.eq a.1 b.1 with
          | false => rfl
          | true => rw [hE.symm _ _ hq] at this; cases this
        · exact hd a (by simp [ha]) b hb

end
end Verif
