/-
Control-byte groups: `group15_meta_ctrl`/`flat_map_group15` and
`group16_meta_ctrl`/`flat_map_group16`, presented through one interface `Layout`, and the
laws (`Laws`) that the table proofs need.  The SSE2 instructions are modelled bytewise.
-/
import Verif.Basic

namespace Verif

/-- A group: 16 control bytes (flat_map_group15.hpp:503, flat_map_group16.hpp:546).
Only indices 0..15 are meaningful. -/
abbrev Group := Nat → Nat

/-- Store one control byte. -/
def Group.set (g : Group) (p v : Nat) : Group := fun i => if i = p then v else g i

/-- `_mm_movemask_epi8` applied to a bytewise comparison: bit `i` is set iff the comparison
holds for byte `i` (`i < n`).  Models `_mm_cmpeq_epi8`/`_mm_cmplt_epi8` + `_mm_movemask_epi8`. -/
def moveMask (p : Nat → Bool) : Nat → Nat
  | 0 => 0
  | n + 1 => moveMask p n + (if p n then 2 ^ n else 0)

theorem moveMask_lt (p : Nat → Bool) (n : Nat) : moveMask p n < 2 ^ n := by
  induction n with
  | zero => simp [moveMask]
  | succ n ih =>
    simp only [moveMask]; split <;> rw [Nat.pow_succ] <;> omega

theorem testBit_moveMask (p : Nat → Bool) (n i : Nat) :
    (moveMask p n).testBit i = (decide (i < n) && p i) := by
  induction n with
  | zero => simp [moveMask]
  | succ n ih =>
    simp only [moveMask]
    have hlt := moveMask_lt p n
    by_cases hp : p n
    · simp only [hp, if_true]
      rw [Nat.add_comm]
      by_cases hi : i = n
      · subst hi
        rw [Nat.testBit_two_pow_add_eq]
        rw [ih]; simp [hp]
      · by_cases hin : i < n
        · rw [Nat.testBit_two_pow_add_gt hin, ih]
          simp [hin, Nat.lt_succ_of_lt hin]
        · have h1 : n < i := by omega
          rw [Nat.testBit_lt_two_pow]
          · have : ¬ i < n + 1 := by omega
            simp [this]
          · have : 2 ^ (n+1) ≤ 2 ^ i := Nat.pow_le_pow_right (by decide) (by omega)
            rw [Nat.pow_succ] at this; omega
    · simp only [hp]
      simp only [Bool.false_eq_true, if_false, Nat.add_zero, ih]
      by_cases hi : i = n
      · subst hi; simp [hp]
      · have : i < n + 1 ↔ i < n := by omega
        simp [this]

/-- The two group layouts of the library seen through one interface.  Every field is one
member function of the group/ctrl classes or one table constant; the two instances
`layout15` and `layout16` carry the citations. -/
structure Layout where
  /-- number of slots served by one group (`kGroupSize` 15 / `kGroupWidth` 16) -/
  S : Nat
  /-- `ctrl_for_hash` -/
  tag : Nat → Nat
  /-- a freshly initialised group (`clear_groups`) -/
  init : Group
  /-- `set_sentinel_mark` applied to the last group -/
  markTail : Group → Group
  /-- contents of a group of the static `default_empty_groups()` -/
  static : Group
  matchHash : Group → Nat → Nat
  matchEmpty : Group → Nat
  matchUsed : Group → Nat
  isSentinel : Group → Nat → Bool
  isOverflow : Group → Nat → Bool
  setUsed : Group → Nat → Nat → Group
  setEmpty : Group → Nat → Group
  setOverflow : Group → Nat → Group
  /-- `group->value(pos)` / `ctrl->value()` -/
  value : Group → Nat → Nat
  /-- `calc_slot_capacity(group_capacity)` -/
  slotCap : Nat → Nat
  /-- `ctrl_capacity()` of a table without storage -/
  ctrlCap0 : Nat
  /-- does `find_empty_to_insert<false>` raise the threshold when it reuses a slot of a group
  that has overflowed (`GROUPxx_USE_NEW_OVERFLOW`) -/
  bump : Bool
  /-- template argument of `rehash_impl` in `rehash(n)` -/
  rehashShrinks : Bool
  /-- does `clear_data` write the sentinel mark -/
  clearMarks : Bool
  /-- slots and groups share one block whose size is computed in `size_t` (T15:2030, `GROUP15_USE_SEPARATE_SLOTS` 0) -/
  oneBlock : Bool

/-! ### Group of 15 slots -/
namespace G15

/-- `group15_meta_ctrl::reduced_hash`/`repeated_hash` (flat_map_group15.hpp:88-166): the 256-entry
table maps byte `b` to `b` except `0 ↦ kEmptyHash = 8`, `1 ↦ kSentinelHash = 9`.  The table was
checked against this formula mechanically; all four bytes of an entry are equal, so
one byte is modelled. -/
def reducedHash (h : Nat) : Nat :=
  let b := h % 256
  if b = 0 then 8 else if b = 1 then 9 else b

/-- `flat_map_group15::match_empty` (flat_map_group15.hpp:437-453). -/
def matchEmpty (g : Group) : Nat := moveMask (fun i => g i == 0) 16 &&& 0x7FFF

/-- `flat_map_group15::match_used` (flat_map_group15.hpp:456-459); `~` on 32 bits. -/
def matchUsed (g : Group) : Nat := (matchEmpty g ^^^ 0xFFFFFFFF) &&& 0x7FFF

/-- `flat_map_group15::match_hash(hash)` (flat_map_group15.hpp:462-483, `make_hash_bits` 425-434). -/
def matchHash (g : Group) (h : Nat) : Nat := moveMask (fun i => g i == reducedHash h) 16 &&& 0x7FFF

/-- `group15_meta_ctrl::is_not_overflow` negated (flat_map_group15.hpp:238-250, 365-372):
bit `hash % 8` of byte 15. -/
def isOverflow (g : Group) (h : Nat) : Bool := (g 15).testBit (h % 8)

/-- `set_overflow` (flat_map_group15.hpp:252-263, 414-417). -/
def setOverflow (g : Group) (h : Nat) : Group := g.set 15 (g 15 ||| 2 ^ (h % 8))

/-- `set_used` (flat_map_group15.hpp:223-226, 402-406): the byte becomes `(uint8_t)hash`. -/
def setUsed (g : Group) (p h : Nat) : Group := g.set p (h % 256)

/-- `set_empty` (flat_map_group15.hpp:215-217, 391-395). -/
def setEmpty (g : Group) (p : Nat) : Group := g.set p 0

/-- `set_sentinel` (flat_map_group15.hpp:397-400), position `kGroupSize - 1 = 14`. -/
def setSentinel (g : Group) : Group := g.set 14 1

/-- `is_sentinel(pos)` (flat_map_group15.hpp:190-193, 347-351). -/
def isSentinel (g : Group) (p : Nat) : Bool := g p == 1

/-- `is_empty(pos)` (flat_map_group15.hpp:185-188). -/
def isEmpty (g : Group) (p : Nat) : Bool := g p == 0

end G15

/-- `flat_map_group15` with the constants of `group15_flat_table`
(group15_flat_table.hpp:89-95 configuration macros, 1190-1206 static groups, 1237-1240
`calc_slot_capacity`, 1420-1434 `ctrl_for_hash`, 1584-1591 `clear_data`, 2038-2045
`set_sentinel_mark`, 543-548 `ctrl_capacity`, 750-758 `rehash`). -/
def layout15 : Layout where
  S := 15
  tag := G15.reducedHash
  init := fun _ => 0
  markTail := G15.setSentinel
  static := fun i => if i = 14 then 1 else 0
  matchHash := G15.matchHash
  matchEmpty := G15.matchEmpty
  matchUsed := G15.matchUsed
  isSentinel := G15.isSentinel
  isOverflow := G15.isOverflow
  setUsed := G15.setUsed
  setEmpty := G15.setEmpty
  setOverflow := G15.setOverflow
  value := fun g p => g p
  slotCap := fun G => G * 15 - 1
  ctrlCap0 := 16
  bump := false
  rehashShrinks := false
  clearMarks := true
  oneBlock := true    -- T15:90

/-! ### Group of 16 slots -/
namespace G16

/-- `group16_meta_ctrl::reduced_hash`/`repeated_hash` (flat_map_group16.hpp:88-165): the 256-entry
table maps byte `b` to its low 7 bits, except `0 ↦ kEmptyHash = 8`.  The table was checked
against this formula mechanically. -/
def reducedHash (h : Nat) : Nat :=
  let b := h % 128
  if b = 0 then 8 else b

/-- `match_empty` (flat_map_group16.hpp:412-440): bytes whose low 7 bits are 0. -/
def matchEmpty (g : Group) : Nat := moveMask (fun i => g i % 128 == 0) 16

/-- `match_used` (flat_map_group16.hpp:443-483), branch `kEmptySlot == 0`: signed
`0 < (byte & 0x7F)`; the masked byte is at most 127, so signed and unsigned order agree. -/
def matchUsed (g : Group) : Nat := moveMask (fun i => decide (0 < g i % 128)) 16

/-- `match_hash` (flat_map_group16.hpp:486-534, `make_hash_bits` 400-409). -/
def matchHash (g : Group) (h : Nat) : Nat := moveMask (fun i => g i % 128 == reducedHash h) 16

/-- `is_overflow` (flat_map_group16.hpp:208-211, 329-333): bit 7 of byte `hash % 16`. -/
def isOverflow (g : Group) (h : Nat) : Bool := (g (h % 16)).testBit 7

/-- `set_overflow` (flat_map_group16.hpp:244-247, 384-388). -/
def setOverflow (g : Group) (h : Nat) : Group := g.set (h % 16) (g (h % 16) ||| 128)

/-- `set_used` (flat_map_group16.hpp:230-235, 372-376): keeps bit 7. -/
def setUsed (g : Group) (p h : Nat) : Group := g.set p ((g p &&& 128) ||| (h % 256))

/-- `set_empty` (flat_map_group16.hpp:226-228, 366-370): keeps bit 7. -/
def setEmpty (g : Group) (p : Nat) : Group := g.set p (g p &&& 128)

/-- `has_any_overflow`, 64-bit branch (flat_map_group16.hpp:341-347): the two 8-byte halves are
and-ed, so byte `i` is combined with byte `i + 8`. -/
def hasAnyOverflow (g : Group) : Bool :=
  (List.range 8).any (fun i => (g i).testBit 7 && (g (i + 8)).testBit 7)

end G16

/-- `flat_map_group16` with the constants of `group16_flat_table`
(group16_flat_table.hpp:89-95 configuration macros, 1138-1154 static groups, 529-546 capacities,
1381-1398 `ctrl_for_hash`, 1543-1547 `clear_data`, 696-704 `rehash`, 2185-2192 threshold
adjustment).  There is no sentinel in this layout. -/
def layout16 : Layout where
  S := 16
  tag := G16.reducedHash
  init := fun _ => 0
  markTail := fun g => g
  static := fun _ => 0
  matchHash := G16.matchHash
  matchEmpty := G16.matchEmpty
  matchUsed := G16.matchUsed
  isSentinel := fun _ _ => false
  isOverflow := G16.isOverflow
  setUsed := G16.setUsed
  setEmpty := G16.setEmpty
  setOverflow := G16.setOverflow
  value := fun g p => g p
  slotCap := fun G => G * 16
  ctrlCap0 := 0
  bump := true
  rehashShrinks := true
  clearMarks := false
  oneBlock := false   -- T16:90

/-! ### Laws -/

/-- What a control byte says about its slot. -/
inductive Cell
  | empty
  | sentinel
  | used (tag : Nat)
  deriving DecidableEq

/-- What the table needs to know about a layout. -/
structure Laws (L : Layout) where
  view : Group → Nat → Cell
  S_pos : 0 < L.S
  S_le : L.S ≤ 16
  S_ge : 15 ≤ L.S
  /-- position of the sentinel in the last group -/
  tail : Option Nat
  matchHash_lt : ∀ g h, L.matchHash g h < 2 ^ L.S
  matchHash_bit : ∀ g h i, i < L.S →
    ((L.matchHash g (L.tag h)).testBit i = true ↔ view g i = .used (L.tag h))
  matchEmpty_lt : ∀ g, L.matchEmpty g < 2 ^ L.S
  matchEmpty_bit : ∀ g i, i < L.S → ((L.matchEmpty g).testBit i = true ↔ view g i = .empty)
  matchUsed_lt : ∀ g, L.matchUsed g < 2 ^ L.S
  matchUsed_bit : ∀ g i, i < L.S → ((L.matchUsed g).testBit i = true ↔ view g i ≠ .empty)
  isSentinel_eq : ∀ g i, i < L.S → (L.isSentinel g i = true ↔ view g i = .sentinel)
  view_setUsed : ∀ g p h i, p < L.S → i < L.S →
    view (L.setUsed g p (L.tag h)) i = if i = p then .used (L.tag h) else view g i
  view_setEmpty : ∀ g p i, p < L.S → i < L.S →
    view (L.setEmpty g p) i = if i = p then .empty else view g i
  view_setOverflow : ∀ g h i, i < L.S → view (L.setOverflow g h) i = view g i
  ovf_setUsed : ∀ g p h x, p < L.S → L.isOverflow (L.setUsed g p (L.tag h)) x = L.isOverflow g x
  ovf_setEmpty : ∀ g p x, p < L.S → L.isOverflow (L.setEmpty g p) x = L.isOverflow g x
  ovf_setOverflow_self : ∀ g h, L.isOverflow (L.setOverflow g h) h = true
  ovf_setOverflow_mono : ∀ g h x, L.isOverflow g x = true → L.isOverflow (L.setOverflow g h) x = true
  ovf_value : ∀ g p h, p < L.S → view g p = .used (L.tag h) →
    L.isOverflow g (L.value g p) = L.isOverflow g (L.tag h)
  view_init : ∀ i, i < L.S → view L.init i = .empty
  ovf_init : ∀ x, L.isOverflow L.init x = false
  view_mark : ∀ i, i < L.S →
    view (L.markTail L.init) i = if tail = some i then .sentinel else .empty
  ovf_mark : ∀ x, L.isOverflow (L.markTail L.init) x = false
  static_not_used : ∀ i h, i < L.S → view L.static i ≠ .used h
  ovf_static : ∀ x, L.isOverflow L.static x = false
  /-- the sentinel, if any, sits at the last position and is not a slot -/
  tail_spec : ∀ i, tail = some i → i + 1 = L.S
  slotCap_spec : ∀ G, 0 < G → L.slotCap G + (if tail.isSome then 1 else 0) = G * L.S
  ctrlCap0_le : L.ctrlCap0 ≤ 16

theorem testBit_0x7FFF (i : Nat) : (0x7FFF : Nat).testBit i = decide (i < 15) := by
  have := Nat.testBit_two_pow_sub_one 15 i
  simpa using this

theorem testBit_0xFFFFFFFF (i : Nat) : (0xFFFFFFFF : Nat).testBit i = decide (i < 32) := by
  have := Nat.testBit_two_pow_sub_one 32 i
  simpa using this

theorem and_7FFF_lt (m : Nat) : m &&& 0x7FFF < 2 ^ 15 := by
  have := @Nat.and_le_right m 0x7FFF
  omega

/-! ### The laws for groups of 15 -/
namespace G15

/-- Meaning of a control byte of a 15-slot group. -/
def view (g : Group) (p : Nat) : Cell :=
  if g p = 0 then .empty else if g p = 1 then .sentinel else .used (g p)

theorem view_empty_iff (g : Group) (p : Nat) : view g p = .empty ↔ g p = 0 := by
  unfold view
  split
  · simp [*]
  · split <;> simp [*]

theorem view_sentinel_iff (g : Group) (p : Nat) : view g p = .sentinel ↔ g p = 1 := by
  unfold view
  split
  · simp [*]
  · split <;> simp [*]

theorem view_used_iff (g : Group) (p t : Nat) :
    view g p = .used t ↔ g p = t ∧ 2 ≤ g p := by
  unfold view
  split
  · simp [*]
  · split
    · simp [*]
    · have : 2 ≤ g p := by omega
      simp [this]

theorem reducedHash_lt (h : Nat) : reducedHash h < 256 := by
  unfold reducedHash; simp only
  split
  · omega
  · split <;> omega

theorem reducedHash_ge (h : Nat) : 2 ≤ reducedHash h := by
  unfold reducedHash; simp only
  split
  · omega
  · split <;> omega

theorem reducedHash_idem (h : Nat) : reducedHash (reducedHash h) = reducedHash h := by
  have h1 := reducedHash_lt h
  have h2 := reducedHash_ge h
  generalize reducedHash h = b at *
  unfold reducedHash
  rw [Nat.mod_eq_of_lt h1]
  simp only
  split
  · omega
  · split <;> omega

theorem matchEmpty_bit (g : Group) (i : Nat) :
    (matchEmpty g).testBit i = (decide (i < 15) && (g i == 0)) := by
  unfold matchEmpty
  rw [Nat.testBit_and, testBit_moveMask, testBit_0x7FFF]
  by_cases h : i < 15
  · have : i < 16 := by omega
    simp [h, this]
  · simp [h]

theorem matchUsed_bit (g : Group) (i : Nat) :
    (matchUsed g).testBit i = (decide (i < 15) && !(g i == 0)) := by
  unfold matchUsed
  rw [Nat.testBit_and, Nat.testBit_xor, testBit_0xFFFFFFFF, testBit_0x7FFF, matchEmpty_bit]
  by_cases h : i < 15
  · have : i < 32 := by omega
    simp [h, this]
  · simp [h]

theorem matchHash_bit (g : Group) (h i : Nat) :
    (matchHash g h).testBit i = (decide (i < 15) && (g i == reducedHash h)) := by
  unfold matchHash
  rw [Nat.testBit_and, testBit_moveMask, testBit_0x7FFF]
  by_cases h : i < 15
  · have : i < 16 := by omega
    simp [h, this]
  · simp [h]

end G15

/-- `layout15` satisfies the laws. -/
def laws15 : Laws layout15 where
  view := G15.view
  S_pos := by decide
  S_le := by decide
  S_ge := by decide
  tail := some 14
  matchHash_lt := fun g h => and_7FFF_lt _
  matchHash_bit := by
    intro g h i hi
    have hi' : i < 15 := hi
    have h2 := G15.reducedHash_ge h
    rw [show layout15.matchHash g (layout15.tag h) = G15.matchHash g (G15.reducedHash h) from rfl,
      G15.matchHash_bit, G15.reducedHash_idem, G15.view_used_iff,
      show layout15.tag h = G15.reducedHash h from rfl]
    simp only [hi', decide_true, Bool.true_and, beq_iff_eq]
    omega
  matchEmpty_lt := fun g => and_7FFF_lt _
  matchEmpty_bit := by
    intro g i hi
    have hi' : i < 15 := hi
    rw [show layout15.matchEmpty g = G15.matchEmpty g from rfl, G15.matchEmpty_bit,
      G15.view_empty_iff]
    simp [hi']
  matchUsed_lt := fun g => and_7FFF_lt _
  matchUsed_bit := by
    intro g i hi
    have hi' : i < 15 := hi
    rw [show layout15.matchUsed g = G15.matchUsed g from rfl, G15.matchUsed_bit,
      ne_eq, G15.view_empty_iff]
    simp [hi']
  isSentinel_eq := by
    intro g i hi
    rw [show layout15.isSentinel g i = (g i == 1) from rfl, G15.view_sentinel_iff]
    simp
  view_setUsed := by
    intro g p h i hp hi
    show G15.view (G15.setUsed g p (G15.reducedHash h)) i = _
    have h2 := G15.reducedHash_ge h
    have h3 := G15.reducedHash_lt h
    unfold G15.view G15.setUsed Group.set
    by_cases hip : i = p
    · simp only [hip, if_true]
      rw [Nat.mod_eq_of_lt h3]
      have h0 : G15.reducedHash h ≠ 0 := by omega
      have h1 : G15.reducedHash h ≠ 1 := by omega
      simp [h0, h1, layout15]
    · simp [hip]
  view_setEmpty := by
    intro g p i hp hi
    show G15.view (G15.setEmpty g p) i = _
    unfold G15.view G15.setEmpty Group.set
    by_cases hip : i = p <;> simp [hip]
  view_setOverflow := by
    intro g h i hi
    have hi' : i < 15 := hi
    show G15.view (G15.setOverflow g h) i = _
    unfold G15.view G15.setOverflow Group.set
    have : i ≠ 15 := by omega
    simp [this]
  ovf_setUsed := by
    intro g p h x hp
    have hp' : p < 15 := hp
    show G15.isOverflow (G15.setUsed g p _) x = G15.isOverflow g x
    unfold G15.isOverflow G15.setUsed Group.set
    have : 15 ≠ p := by omega
    simp [this]
  ovf_setEmpty := by
    intro g p x hp
    have hp' : p < 15 := hp
    show G15.isOverflow (G15.setEmpty g p) x = G15.isOverflow g x
    unfold G15.isOverflow G15.setEmpty Group.set
    have : 15 ≠ p := by omega
    simp [this]
  ovf_setOverflow_self := by
    intro g h
    show G15.isOverflow (G15.setOverflow g h) h = true
    unfold G15.isOverflow G15.setOverflow Group.set
    simp [Nat.testBit_or, Nat.testBit_two_pow_self]
  ovf_setOverflow_mono := by
    intro g h x hx
    have hx : G15.isOverflow g x = true := hx
    show G15.isOverflow (G15.setOverflow g h) x = true
    unfold G15.isOverflow G15.setOverflow Group.set at *
    simp [Nat.testBit_or, hx]
  ovf_value := by
    intro g p h hp hv
    have hv : G15.view g p = .used (G15.reducedHash h) := hv
    show G15.isOverflow g (g p) = G15.isOverflow g (G15.reducedHash h)
    have : g p = G15.reducedHash h := by
      unfold G15.view at hv
      split at hv
      · cases hv
      · split at hv
        · cases hv
        · exact Cell.used.inj hv
    rw [this]
  view_init := by intro i hi; rfl
  ovf_init := by intro x; simp [layout15, G15.isOverflow]
  view_mark := by
    intro i hi
    show G15.view (G15.setSentinel fun _ => 0) i = _
    unfold G15.view G15.setSentinel Group.set
    by_cases h : i = 14
    · subst h; simp
    · have : (14 : Nat) ≠ i := fun e => h e.symm
      simp [h, this]
  ovf_mark := by
    intro x
    simp [layout15, G15.isOverflow, G15.setSentinel, Group.set]
  static_not_used := by
    intro i h hi
    show G15.view (fun i => if i = 14 then 1 else 0) i ≠ _
    unfold G15.view
    by_cases h : i = 14 <;> simp [h]
  ovf_static := by
    intro x
    simp [layout15, G15.isOverflow]
  tail_spec := by
    intro i hi
    have : 14 = i := by simpa using hi
    subst this; rfl
  slotCap_spec := by
    intro G hG
    show G * 15 - 1 + (if (some 14 : Option Nat).isSome then 1 else 0) = G * 15
    simp; omega
  ctrlCap0_le := by decide

/-! ### The laws for groups of 16 -/
namespace G16

/-- Meaning of a control byte of a 16-slot group. -/
def view (g : Group) (p : Nat) : Cell :=
  if g p % 128 = 0 then .empty else .used (g p % 128)

theorem view_empty_iff (g : Group) (p : Nat) : view g p = .empty ↔ g p % 128 = 0 := by
  unfold view
  split <;> simp [*]

theorem view_sentinel_iff (g : Group) (p : Nat) : ¬ view g p = .sentinel := by
  unfold view
  split <;> simp [*]

theorem view_used_iff (g : Group) (p t : Nat) :
    view g p = .used t ↔ g p % 128 = t ∧ 0 < g p % 128 := by
  unfold view
  split
  · simp [*]
  · have : 0 < g p % 128 := by omega
    simp [this]

theorem reducedHash_lt (h : Nat) : reducedHash h < 128 := by
  unfold reducedHash; simp only
  split <;> omega

theorem reducedHash_pos (h : Nat) : 0 < reducedHash h := by
  unfold reducedHash; simp only
  split <;> omega

theorem reducedHash_idem (h : Nat) : reducedHash (reducedHash h) = reducedHash h := by
  have h1 := reducedHash_lt h
  have h2 := reducedHash_pos h
  generalize reducedHash h = b at *
  unfold reducedHash
  rw [Nat.mod_eq_of_lt h1]
  simp only
  split <;> omega

/-- `v & 0x80` keeps exactly bit 7. -/
theorem testBit_and_128 (v i : Nat) : (v &&& 128).testBit i = (decide (i = 7) && v.testBit 7) := by
  rw [Nat.testBit_and]
  have : (128 : Nat).testBit i = decide (i = 7) := by
    have := @Nat.testBit_two_pow 7 i
    simp only [show (2:Nat)^7 = 128 from rfl] at this
    rw [this]
    by_cases h : i = 7
    · simp [h]
    · have : ¬ 7 = i := fun e => h e.symm
      simp [h, this]
  rw [this]
  by_cases h : i = 7
  · subst h; simp
  · simp [h]

theorem mod128_eq_of_bits {a b : Nat} (h : ∀ i, i < 7 → a.testBit i = b.testBit i) :
    a % 128 = b % 128 := by
  apply Nat.eq_of_testBit_eq
  intro i
  rw [show (128:Nat) = 2^7 from rfl, Nat.testBit_mod_two_pow, Nat.testBit_mod_two_pow]
  by_cases hi : i < 7
  · simp [hi, h i hi]
  · simp [hi]

theorem mod128_or128 (v : Nat) : (v ||| 128) % 128 = v % 128 := by
  apply mod128_eq_of_bits
  intro i hi
  rw [Nat.testBit_or]
  have := @Nat.testBit_two_pow 7 i
  simp only [show (2:Nat)^7 = 128 from rfl] at this
  rw [this]
  have : ¬ 7 = i := by omega
  simp [this]

theorem mod128_and128 (v : Nat) : (v &&& 128) % 128 = 0 := by
  have : (v &&& 128) % 128 = 0 % 128 := by
    apply mod128_eq_of_bits
    intro i hi
    rw [testBit_and_128]
    have : ¬ i = 7 := by omega
    simp [this]
  simpa using this

theorem mod128_and128_or (v b : Nat) (hb : b < 128) : ((v &&& 128) ||| b) % 128 = b := by
  have : ((v &&& 128) ||| b) % 128 = b % 128 := by
    apply mod128_eq_of_bits
    intro i hi
    rw [Nat.testBit_or, testBit_and_128]
    have : ¬ i = 7 := by omega
    simp [this]
  rw [this, Nat.mod_eq_of_lt hb]

theorem bit7_of_lt {b : Nat} (hb : b < 128) : b.testBit 7 = false :=
  Nat.testBit_lt_two_pow (by simpa using hb)

end G16

/-- `layout16` satisfies the laws. -/
def laws16 : Laws layout16 where
  view := G16.view
  S_pos := by decide
  S_le := by decide
  S_ge := by decide
  tail := none
  matchHash_lt := fun g h => moveMask_lt _ 16
  matchHash_bit := by
    intro g h i hi
    have hi' : i < 16 := hi
    have h2 := G16.reducedHash_pos h
    rw [show layout16.matchHash g (layout16.tag h) = G16.matchHash g (G16.reducedHash h) from rfl]
    unfold G16.matchHash
    rw [testBit_moveMask, G16.reducedHash_idem, G16.view_used_iff,
      show layout16.tag h = G16.reducedHash h from rfl]
    simp only [hi', decide_true, Bool.true_and, beq_iff_eq]
    omega
  matchEmpty_lt := fun g => moveMask_lt _ 16
  matchEmpty_bit := by
    intro g i hi
    have hi' : i < 16 := hi
    rw [show layout16.matchEmpty g = G16.matchEmpty g from rfl]
    unfold G16.matchEmpty
    rw [testBit_moveMask, G16.view_empty_iff]
    simp [hi']
  matchUsed_lt := fun g => moveMask_lt _ 16
  matchUsed_bit := by
    intro g i hi
    have hi' : i < 16 := hi
    rw [show layout16.matchUsed g = G16.matchUsed g from rfl]
    unfold G16.matchUsed
    rw [testBit_moveMask, ne_eq, G16.view_empty_iff]
    simp only [hi', decide_true, Bool.true_and, decide_eq_true_eq]
    omega
  isSentinel_eq := by
    intro g i hi
    have := G16.view_sentinel_iff g i
    simp [layout16, this]
  view_setUsed := by
    intro g p h i hp hi
    show G16.view (G16.setUsed g p (G16.reducedHash h)) i = _
    have h2 := G16.reducedHash_pos h
    have h3 := G16.reducedHash_lt h
    unfold G16.view G16.setUsed Group.set
    by_cases hip : i = p
    · simp only [hip, if_true]
      rw [Nat.mod_eq_of_lt (by omega : G16.reducedHash h < 256), G16.mod128_and128_or _ _ h3]
      have h0 : G16.reducedHash h ≠ 0 := by omega
      simp [h0, layout16]
    · simp [hip]
  view_setEmpty := by
    intro g p i hp hi
    show G16.view (G16.setEmpty g p) i = _
    unfold G16.view G16.setEmpty Group.set
    by_cases hip : i = p
    · simp [hip, G16.mod128_and128]
    · simp [hip]
  view_setOverflow := by
    intro g h i hi
    show G16.view (G16.setOverflow g h) i = _
    unfold G16.view G16.setOverflow Group.set
    by_cases hip : i = h % 16
    · simp [hip, G16.mod128_or128]
    · simp [hip]
  ovf_setUsed := by
    intro g p h x hp
    show G16.isOverflow (G16.setUsed g p (G16.reducedHash h)) x = G16.isOverflow g x
    have h3 := G16.reducedHash_lt h
    unfold G16.isOverflow G16.setUsed Group.set
    by_cases hip : x % 16 = p
    · simp only [hip, if_true]
      rw [Nat.testBit_or, G16.testBit_and_128, Nat.mod_eq_of_lt (by omega : G16.reducedHash h < 256),
        G16.bit7_of_lt h3]
      simp
    · simp [hip]
  ovf_setEmpty := by
    intro g p x hp
    show G16.isOverflow (G16.setEmpty g p) x = G16.isOverflow g x
    unfold G16.isOverflow G16.setEmpty Group.set
    by_cases hip : x % 16 = p
    · simp only [hip, if_true]
      rw [G16.testBit_and_128]; simp
    · simp [hip]
  ovf_setOverflow_self := by
    intro g h
    show G16.isOverflow (G16.setOverflow g h) h = true
    unfold G16.isOverflow G16.setOverflow Group.set
    simp only [if_true]
    rw [Nat.testBit_or, show (128:Nat) = 2^7 from rfl, Nat.testBit_two_pow_self]; simp
  ovf_setOverflow_mono := by
    intro g h x hx
    have hx : G16.isOverflow g x = true := hx
    show G16.isOverflow (G16.setOverflow g h) x = true
    unfold G16.isOverflow G16.setOverflow Group.set at *
    by_cases hip : x % 16 = h % 16
    · simp only [hip, if_true]
      rw [Nat.testBit_or, show (128:Nat) = 2^7 from rfl, Nat.testBit_two_pow_self]; simp
    · simp [hip, hx]
  ovf_value := by
    intro g p h hp hv
    have hv : G16.view g p = .used (G16.reducedHash h) := hv
    show G16.isOverflow g (g p) = G16.isOverflow g (G16.reducedHash h)
    have : g p % 128 = G16.reducedHash h := by
      unfold G16.view at hv
      split at hv
      · cases hv
      · exact Cell.used.inj hv
    unfold G16.isOverflow
    have e : g p % 16 = G16.reducedHash h % 16 := by omega
    rw [e]
  view_init := by intro i hi; rfl
  ovf_init := by intro x; simp [layout16, G16.isOverflow]
  view_mark := by
    intro i hi
    show G16.view (fun _ => 0) i = _
    simp [G16.view]
  ovf_mark := by intro x; simp [layout16, G16.isOverflow]
  static_not_used := by
    intro i h hi
    show G16.view (fun _ => 0) i ≠ _
    simp [G16.view]
  ovf_static := by intro x; simp [layout16, G16.isOverflow]
  tail_spec := by intro i hi; simp at hi
  slotCap_spec := by
    intro G hG
    show G * 16 + (if (none : Option Nat).isSome then 1 else 0) = G * 16
    simp
  ctrlCap0_le := by decide

end Verif
