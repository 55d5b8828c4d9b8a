/-
The memory blocks behind a table (C28): sizes, alignment and placement of slots and groups.
T15 = group15_flat_table.hpp (one block for slots and groups), T16 = group16_flat_table.hpp (two blocks).
Addresses and sizes are `size_t` values, computed modulo 2^64 as in the code.  `S` is `sizeof(slot_type)`;
`sizeof(group_type)` and `kGroupAlignment` are 16 (T15:203-210, T16:203-211).
-/
import Verif.Props15

namespace Verif.Alloc
open Verif

/-! ### Model -/

/-- `(x + 16 - 1) & ~(16 - 1)` in `AlignedGroups` (T15:1983, T16:1874) and `AlignedSlotsAndGroups` (T15:2004). -/
def align16 (x : Nat) : Nat := ((x + 15) % W) &&& (W - 1 - 15)

/-- `TotalSlotAllocCount<16>(group_capacity, slot_capacity)` (T15:2030-2036): number of `slot_type` objects to allocate. -/
def totalSlotAllocCount (S G C : Nat) : Nat :=
  let groupBytes := G * 16 % W
  let slotBytes := C * S % W
  let total := (slotBytes + 16 + groupBytes) % W
  (total + S - 1) % W / S

/-- `AlignedSlotsAndGroups<16>(slots, slot_capacity)` (T15:1996-2010): address of the first group. -/
def alignedSlotsAndGroups (S slots C : Nat) : Nat := align16 ((slots + C * S) % W)

/-- `TotalGroupAllocCount<16>(group_capacity)` (T16:1910-1915): number of `group_type` objects to allocate. -/
def totalGroupAllocCount (G : Nat) : Nat :=
  let total := (G * 16 % W + 16) % W
  (total + 16 - 1) % W / 16

/-- `AlignedGroups<16>(groups_alloc)` (T16:1868-1881). -/
def alignedGroups (base : Nat) : Nat := align16 base

/-- Objects requested by `create_slots(cap)` of T15 (T15:2058-2076). -/
def createCount (S cap : Nat) : Nat :=
  let G := (cap + 15) / 16                       -- calc_group_capacity, T15:1260-1265
  let C := G * 15 - 1                            -- calc_slot_capacity, T15:1237-1240
  totalSlotAllocCount S G C

/-- Objects given back by `destroy_slots` (T15:1529-1531), computed from the members of the table. -/
def destroyCount {K V : Type} (S : Nat) (t : Table K V) : Nat :=
  totalSlotAllocCount S (t.gmask + 1) (t.slotCap layout15)

/-- Objects given back for the old storage at the end of `rehash_impl` (T15:2173-2179). -/
def rehashCount (S oldGroupCap : Nat) : Nat := totalSlotAllocCount S oldGroupCap (oldGroupCap * 15 - 1)

/-- T16: groups and slots requested by `create_slots(cap)` (T16:1940-1953). -/
def createCount16 (cap : Nat) : Nat × Nat := (totalGroupAllocCount ((cap + 15) / 16), cap)

/-- T16: groups and slots given back by `destroy_groups(group_capacity())`, `destroy_slots()` (T16:1473-1495). -/
def destroyCount16 {K V : Type} (t : Table K V) : Nat × Nat := (totalGroupAllocCount (t.gmask + 1), t.slotCap layout16)

/-! ### Lemmas -/

theorem and_mask_eq {x : Nat} (h : x < W) : x &&& (W - 1 - 15) = x / 16 * 16 := by
  apply Nat.eq_of_testBit_eq
  intro i
  have hm : W - 1 - 15 = 2 ^ 4 * (2 ^ 60 - 1) := by decide
  have hx : x / 16 * 16 = 2 ^ 4 * (x / 2 ^ 4) := by omega
  rw [Nat.testBit_and, hm, hx, Nat.testBit_two_pow_mul, Nat.testBit_two_pow_mul, Nat.testBit_two_pow_sub_one,
    Nat.testBit_div_two_pow]
  by_cases h4 : 4 ≤ i
  · have : i - 4 + 4 = i := by omega
    simp only [h4, decide_true, Bool.true_and, this]
    by_cases h60 : i - 4 < 60
    · simp [h60]
    · have : x.testBit i = false := Nat.testBit_lt_two_pow (Nat.lt_of_lt_of_le h (by
        unfold W; exact Nat.pow_le_pow_right (by omega) (by omega)))
      simp [this]
  · simp [h4]

theorem align16_spec {x : Nat} (h : x + 15 < W) : align16 x % 16 = 0 ∧ x ≤ align16 x ∧ align16 x < x + 16 := by
  unfold align16
  rw [Nat.mod_eq_of_lt h, and_mask_eq h]
  omega

theorem div_up_mul {x S : Nat} (hS : 1 ≤ S) : x ≤ (x + S - 1) / S * S ∧ (x + S - 1) / S * S < x + S := by
  have h := Nat.div_add_mod (x + S - 1) S
  have h2 := Nat.mod_lt (x + S - 1) (show 0 < S by omega)
  rw [Nat.mul_comm] at h
  omega

/-! ### C28 -/

/-- C28, one block (group15).  If the byte count does not overflow `size_t` and the block lies in the address space, then
the groups start at a 16-byte aligned address behind the last slot and end inside the block. -/
theorem C28_single_block {S G C base : Nat} (hS : 1 ≤ S) (hno : C * S + 16 + G * 16 + S ≤ 2 ^ 64)
    (hblk : base + totalSlotAllocCount S G C * S ≤ 2 ^ 64) :
    let g := alignedSlotsAndGroups S base C
    g % 16 = 0 ∧ base + C * S ≤ g ∧ g + G * 16 ≤ base + totalSlotAllocCount S G C * S := by
  have hW : W = 2 ^ 64 := rfl
  have hcount : totalSlotAllocCount S G C = (C * S + 16 + G * 16 + S - 1) / S := by
    unfold totalSlotAllocCount
    simp only
    rw [Nat.mod_eq_of_lt (a := G * 16) (by omega), Nat.mod_eq_of_lt (a := C * S) (by omega),
      Nat.mod_eq_of_lt (a := C * S + 16 + G * 16) (by omega), Nat.mod_eq_of_lt (by omega)]
  have hdiv := div_up_mul (x := C * S + 16 + G * 16) hS
  rw [hcount] at hblk ⊢
  generalize (C * S + 16 + G * 16 + S - 1) / S * S = B at *
  simp only
  unfold alignedSlotsAndGroups
  rw [Nat.mod_eq_of_lt (a := base + C * S) (by omega)]
  obtain ⟨h1, h2, h3⟩ := align16_spec (x := base + C * S) (by omega)
  exact ⟨h1, h2, by omega⟩

/-- Hence no slot shares a byte with a group and both lie in the block. -/
theorem C28_disjoint {S G C base i j : Nat} (hS : 1 ≤ S) (hno : C * S + 16 + G * 16 + S ≤ 2 ^ 64)
    (hblk : base + totalSlotAllocCount S G C * S ≤ 2 ^ 64) (hi : i < C) (hj : j < G) :
    let g := alignedSlotsAndGroups S base C
    base + i * S + S ≤ g + j * 16 ∧ g + j * 16 + 16 ≤ base + totalSlotAllocCount S G C * S := by
  obtain ⟨_, h2, h3⟩ := C28_single_block hS hno hblk
  have h4 : i * S + S ≤ C * S := by
    rw [← Nat.succ_mul]; exact Nat.mul_le_mul_right _ hi
  have h5 : j * 16 + 16 ≤ G * 16 := by omega
  simp only
  omega

/-- Slots of 24 bytes at an address that is not 16-byte aligned. -/
example : totalSlotAllocCount 24 2 29 = 31 ∧ alignedSlotsAndGroups 24 1000 29 = 1696 := by decide +kernel

/-- C28, two blocks (group16).  The groups start aligned and fit into their block, and so does the control byte behind
the last group, which the iterator reads. -/
theorem C28_group_block {G base : Nat} (hno : G * 16 + 48 ≤ 2 ^ 64) (hblk : base + totalGroupAllocCount G * 16 ≤ 2 ^ 64) :
    let g := alignedGroups base
    g % 16 = 0 ∧ base ≤ g ∧ g + G * 16 + 1 ≤ base + totalGroupAllocCount G * 16 := by
  have hW : W = 2 ^ 64 := rfl
  have hcount : totalGroupAllocCount G = G + 1 := by
    unfold totalGroupAllocCount
    simp only
    rw [Nat.mod_eq_of_lt (a := G * 16) (by omega), Nat.mod_eq_of_lt (a := G * 16 + 16) (by omega), Nat.mod_eq_of_lt (by omega)]
    omega
  rw [hcount] at hblk ⊢
  obtain ⟨h1, h2, h3⟩ := align16_spec (x := base) (by omega)
  exact ⟨h1, h2, by show align16 base + G * 16 + 1 ≤ _; omega⟩

example : totalGroupAllocCount 4 = 5 ∧ alignedGroups 1004 = 1008 := by decide +kernel

section
variable {K V : Type} {E : Env K}

/-- C28. The number of objects given back is the number requested: by the destructor for the storage made by
`create_slots`, and by `rehash_impl` for the storage it replaces. -/
theorem C28_dealloc_count {mem : Bool} {cap : Nat} {t t' : Table K V} (h : createSlots layout15 mem cap t = .ok t' ())
    (hc : 1 ≤ cap) (S : Nat) :
    destroyCount S t' = createCount S cap ∧ rehashCount S (t'.gmask + 1) = createCount S cap := by
  unfold createSlots at h
  split at h
  · cases h
    have hG : (cap + 15) / 16 - 1 + 1 = (cap + 15) / 16 := by omega
    unfold destroyCount rehashCount createCount Table.slotCap
    simp only [hG]
    exact ⟨rfl, trivial⟩
  · cases h

/-- The same for group16. -/
theorem C28_dealloc_count16 {mem : Bool} {k : Nat} {t t' : Table K V} (h : createSlots layout16 mem (2 ^ k) t = .ok t' ())
    (hc : 4 ≤ k) : destroyCount16 t' = createCount16 (2 ^ k) := by
  unfold createSlots at h
  split at h
  · cases h
    obtain ⟨j, rfl⟩ : ∃ j, k = j + 4 := ⟨k - 4, by omega⟩
    have hp := Nat.two_pow_pos j
    have he : 2 ^ (j + 4) = 2 ^ j * 16 := Nat.pow_add 2 j 4
    unfold destroyCount16 createCount16 Table.slotCap
    have hG : (2 ^ (j + 4) + 15) / 16 - 1 + 1 = (2 ^ (j + 4) + 15) / 16 := by omega
    simp only [hG]
    have : layout16.slotCap ((2 ^ (j + 4) + 15) / 16) = 2 ^ (j + 4) := by
      show (2 ^ (j + 4) + 15) / 16 * 16 = _
      omega
    rw [this]
  · cases h

/-- The storage of a reachable object is always released with the count it was requested with: the members that the
count is computed from determine the capacity argument of `create_slots`. -/
theorem C28_reachable_count (hE : E.Lawful) {t : Table K V} (ht : Reachable layout15 E walk15 t) (hs : t.capacity layout15 ≠ 0) (S : Nat) :
    destroyCount S t = createCount S (t.ctrlCap layout15) := by
  have hI := ht.inv hE (H := laws15) (fun _ h => walk15_eq h)
  rcases hI.st with h | hA
  · exfalso; apply hs; rw [h]; rfl
  · obtain ⟨j, hj1, hj2, hj3, hj4, _⟩ := hA.ctrlCap_eq
    have hp := Nat.two_pow_pos j
    have he : 2 ^ (j + 4) = 2 ^ j * 16 := Nat.pow_add 2 j 4
    unfold destroyCount createCount
    have : (2 ^ (j + 4) + 15) / 16 = t.gmask + 1 := by omega
    rw [hj4]
    simp only [this]
    rfl

example : ∃ t : Table Nat Nat, Reachable layout15 modEnv walk15 t ∧ (t.capacity layout15 == 59) = true :=
  exists_reachable 0 (insertsFrom 0 40) _ (by decide +kernel)

/-- The storage of a reachable map with fewer than 2^48 slots of at most 2^12 bytes satisfies the hypothesis of
`C28_single_block`: its byte count does not wrap. -/
theorem C28_reachable_no_wrap (hE : E.Lawful) {t : Table K V} (ht : Reachable layout15 E walk15 t) (hs : t.capacity layout15 ≠ 0)
    (hc : t.capacity layout15 < 2 ^ 48) {S : Nat} (hS : S ≤ 2 ^ 12) :
    t.slotCap layout15 * S + 16 + (t.gmask + 1) * 16 + S ≤ 2 ^ 64 := by
  have hI := ht.inv hE (H := laws15) (fun _ h => walk15_eq h)
  rcases hI.st with h | hA
  · exfalso; apply hs; rw [h]; rfl
  · rw [hA.capacity_eq] at hc
    have hsc : t.slotCap layout15 = (t.gmask + 1) * 15 - 1 := rfl
    have h1 : t.slotCap layout15 * S ≤ 2 ^ 48 * 2 ^ 12 := Nat.mul_le_mul (by omega) hS
    omega

end

/-- C28, violated part.  If the byte count does overflow, the wrapped count describes a block that is too small. -/
theorem C28_wrapped_block_too_small {S G C : Nat} (hov : 2 ^ 64 ≤ C * S + 16 + G * 16) :
    totalSlotAllocCount S G C * S < C * S + 16 + G * 16 := by
  unfold totalSlotAllocCount
  simp only
  have hW : W = 2 ^ 64 := rfl
  have hd : ∀ y, y / S * S ≤ y := fun y => Nat.div_mul_le_self y S
  have h1 := hd (((C * S % W + 16 + G * 16 % W) % W + S - 1) % W)
  have h2 : ((C * S % W + 16 + G * 16 % W) % W + S - 1) % W < W := Nat.mod_lt _ (by omega)
  omega

/-- C28, violated part.  `rehash(2^60)` of a map with 16-byte slots asks the allocator for 0 slots, then initialises
2^56 groups. -/
theorem C28_huge_rehash_asks_for_nothing : createCount 16 (2 ^ 60) = 0 ∧ (2 ^ 60 + 15) / 16 = 2 ^ 56 := by decide +kernel

end Verif.Alloc
