/-
The groups of `flat16_hash_map` at the level of machine words: the SSE2/SSSE3 version that the table model stands for, and the
fallback with two 64-bit words.  Property C78.
-/
import Verif.Flat
import Verif.Simd

namespace Verif.Flat
open Simd

/-! ### Instructions not yet in Simd.lean -/

/-- `_mm_set1_epi8`. -/
def set1_epi8 (c : Nat) : Nat := pack (fun _ => c) 16
/-- `_mm_sign_epi8(a, b)`: bytewise `a`, `0` or `-a` by the sign of `b`. -/
def sign_epi8 (a b : Nat) : Nat :=
  pack (fun i => if byte b i = 0 then 0 else if byte b i < 128 then byte a i else 256 - byte a i) 16
/-- `_mm_shuffle_epi8(a, b)`: byte `i` is `0` if the top bit of byte `i` of `b` is set, otherwise the byte of `a` with that number
modulo 16. -/
def shuffle_epi8 (a b : Nat) : Nat := pack (fun i => if 128 ≤ byte b i then 0 else byte a (byte b i % 16)) 16
/-- `_mm_or_si128`. -/
def or_si128 (a b : Nat) : Nat := a ||| b
/-- `_mm_andnot_si128(a, b)`: `~a & b`. -/
def andnot_si128 (a b : Nat) : Nat := ((2 ^ 128 - 1) ^^^ a) &&& b

/-! ### The SSE2 version (FL:254-406); `v` are the 16 control bytes -/

/-- `matchControlTag`, `matchHash`, `matchDeleted` (FL:288-298, 316-318). -/
def tagW (v c : Nat) : Nat := movemask_epi8 (cmpeq_epi8 v (set1_epi8 c))
/-- `matchEmpty` with SSSE3 (FL:300-314). -/
def emptyW (v : Nat) : Nat := movemask_epi8 (sign_epi8 v v)
/-- `matchEmptyOrDeleted` (FL:320-326). -/
def emptyOrDeletedW (v : Nat) : Nat :=
  let _match_mask := cmplt_epi8 v (set1_epi8 bEnd)
  movemask_epi8 v
/-- `matchUnused` (FL:340-344). -/
def unusedW (v : Nat) : Nat := movemask_epi8 v
/-- `matchUsed` (FL:334-338). -/
def usedW (v : Nat) : Nat := unusedW v ^^^ 0xFFFF
/-- `matchNotEmptyOrNotDeleted` (FL:328-332). -/
def notEmptyOrDeletedW (v : Nat) : Nat := emptyOrDeletedW v ^^^ 0xFFFF
/-- `conventSpecialToEmptyAndUsedToDeleted` with SSSE3 (FL:346-358). -/
def convertW (v : Nat) : Nat := or_si128 (shuffle_epi8 (set1_epi8 126) v) (set1_epi8 128)
/-- The same without SSSE3 (FL:353-356). -/
def convertW2 (v : Nat) : Nat := or_si128 (set1_epi8 128) (andnot_si128 (cmplt_epi8 v setzero) (set1_epi8 126))

theorem byte_set1_epi8 {c i : Nat} (hc : c < 256) (hi : i < 16) : byte (set1_epi8 c) i = c := by
  rw [set1_epi8, byte_pack _ hi, Nat.mod_eq_of_lt hc]

theorem byte_or (a b i : Nat) : byte (a ||| b) i = byte a i ||| byte b i := by
  apply Nat.eq_of_testBit_eq
  intro j
  rw [Nat.testBit_or]
  by_cases h : j < 8
  · simp [testBit_byte, h, Nat.testBit_or]
  · have : ∀ v, (byte v i).testBit j = false := fun v =>
      Nat.testBit_lt_two_pow (Nat.lt_of_lt_of_le (byte_lt v i)
        (show 2 ^ 8 ≤ 2 ^ j from Nat.pow_le_pow_right (by decide) (by omega)))
    simp [this]

theorem byte_xor (a b i : Nat) : byte (a ^^^ b) i = byte a i ^^^ byte b i := by
  apply Nat.eq_of_testBit_eq
  intro j
  rw [Nat.testBit_xor]
  by_cases h : j < 8
  · simp [testBit_byte, h, Nat.testBit_xor]
  · have : ∀ v, (byte v i).testBit j = false := fun v =>
      Nat.testBit_lt_two_pow (Nat.lt_of_lt_of_le (byte_lt v i)
        (show 2 ^ 8 ≤ 2 ^ j from Nat.pow_le_pow_right (by decide) (by omega)))
    simp [this]

theorem byte_ones {i : Nat} (hi : i < 16) : byte (2 ^ 128 - 1) i = 255 := by
  have : ∀ i : Fin 16, byte (2 ^ 128 - 1) i.1 = 255 := by decide +kernel
  exact this ⟨i, hi⟩

theorem top_bit (b : Nat) (h : b < 256) : b.testBit 7 = decide (128 ≤ b) := by
  have : ∀ b : Fin 256, b.1.testBit 7 = decide (128 ≤ b.1) := by decide +kernel
  exact this ⟨b, h⟩

theorem testBit_movemask_byte (v i : Nat) : (movemask_epi8 v).testBit i = decide (i < 16 ∧ 128 ≤ byte v i) := by
  rw [testBit_movemask, ← testBit_byte v i 7 (by decide), top_bit _ (byte_lt v i)]
  by_cases h : i < 16 <;> simp [h]

theorem tagW_bit (v : Nat) {c : Nat} (hc : c < 256) (i : Nat) : (tagW v c).testBit i = decide (i < 16 ∧ byte v i = c) := by
  unfold tagW cmpeq_epi8
  rw [testBit_movemask_pack]
  by_cases h : i < 16
  · rw [byte_set1_epi8 hc h]
  · simp [h]

theorem emptyW_bit (v i : Nat) : (emptyW v).testBit i = decide (i < 16 ∧ byte v i = bEmpty) := by
  unfold emptyW
  rw [testBit_movemask_byte]
  by_cases h : i < 16
  · unfold sign_epi8
    rw [byte_pack _ h]
    have hb := byte_lt v i
    generalize byte v i = b at hb
    have : ∀ b : Fin 256, decide (128 ≤ (if b.1 = 0 then 0 else if b.1 < 128 then b.1 else 256 - b.1) % 256) = decide (b.1 = bEmpty) := by
      decide +kernel
    have := this ⟨b, hb⟩
    simpa [h] using this
  · simp [h]

theorem xor_full (m i : Nat) : (m ^^^ 0xFFFF).testBit i = ((m.testBit i) ^^ decide (i < 16)) := by
  rw [Nat.testBit_xor]
  congr 1
  exact Nat.testBit_two_pow_sub_one 16 i

/-- C78, the masks the map relies on are exact, for every content of a group: bit `i` of the mask is set if and only if the byte `i` is the
tag, is empty, is deleted, has its top bit set (unused), has not (used). -/
theorem C78_masks_exact (v : Nat) {c : Nat} (hc : c < 256) (i : Nat) :
    ((tagW v c).testBit i = true ↔ i < 16 ∧ byte v i = c) ∧
    ((emptyW v).testBit i = true ↔ i < 16 ∧ byte v i = bEmpty) ∧
    ((tagW v bDeleted).testBit i = true ↔ i < 16 ∧ byte v i = bDeleted) ∧
    ((unusedW v).testBit i = true ↔ i < 16 ∧ 128 ≤ byte v i) ∧
    ((usedW v).testBit i = true ↔ i < 16 ∧ byte v i < 128) := by
  refine ⟨?_, ?_, ?_, ?_, ?_⟩
  · rw [tagW_bit v hc]; simp
  · rw [emptyW_bit]; simp
  · rw [tagW_bit v (by decide)]; simp
  · unfold unusedW; rw [testBit_movemask_byte]; simp
  · unfold usedW unusedW
    rw [xor_full, testBit_movemask_byte]
    by_cases h : i < 16 <;> simp [h]

/-- C78, both versions of the conversion before a reordering: unused bytes (the end mark included) become empty, used ones deleted. -/
theorem C78_convert_exact (v : Nat) {i : Nat} (hi : i < 16) :
    byte (convertW v) i = (if 128 ≤ byte v i then bEmpty else bDeleted) ∧
    byte (convertW2 v) i = (if 128 ≤ byte v i then bEmpty else bDeleted) := by
  have hb := byte_lt v i
  constructor
  · unfold convertW or_si128 shuffle_epi8
    rw [byte_or, byte_set1_epi8 (by decide) hi, byte_pack _ hi, byte_set1_epi8 (by decide) (Nat.mod_lt _ (by decide))]
    split <;> decide
  · unfold convertW2 or_si128 andnot_si128 cmplt_epi8
    rw [byte_or, byte_and, byte_xor, byte_ones hi, byte_set1_epi8 (by decide) hi, byte_set1_epi8 (by decide) hi, byte_pack _ hi, byte_zero]
    unfold signed8
    generalize byte v i = b at hb
    by_cases h : 128 ≤ b
    · rw [if_pos h, if_pos (by rw [if_neg (by omega)]; simp; omega)]
      decide
    · rw [if_neg h, if_neg (by rw [if_pos (by omega)]; simp)]; decide

/-- C78 is violated by `matchEmptyOrDeleted`: it also reports end marks; it is exact if and only if the group has none. -/
theorem C78_empty_or_deleted_wrong (v : Nat) (hv : ∀ i, i < 16 → byte v i < 128 ∨ byte v i = bEmpty ∨ byte v i = bDeleted ∨ byte v i = bEnd) :
    (∀ i, (emptyOrDeletedW v).testBit i = true ↔ i < 16 ∧ (byte v i = bEmpty ∨ byte v i = bDeleted)) ↔
      ∀ i, i < 16 → byte v i ≠ bEnd := by
  have hbit : ∀ i, (emptyOrDeletedW v).testBit i = true ↔ i < 16 ∧ 128 ≤ byte v i := by
    intro i
    unfold emptyOrDeletedW
    rw [testBit_movemask_byte]; simp
  constructor
  · intro h i hi he
    have := ((h i).mp ((hbit i).mpr ⟨hi, by rw [he]; decide⟩)).2
    rw [he] at this
    rcases this with h | h <;> cases h
  · intro h i
    rw [hbit]
    refine ⟨fun ⟨h1, h2⟩ => ⟨h1, ?_⟩, fun ⟨h1, h2⟩ => ⟨h1, ?_⟩⟩
    · rcases hv i h1 with h3 | h3 | h3 | h3
      · omega
      · exact Or.inl h3
      · exact Or.inr h3
      · exact absurd h3 (h i h1)
    · rcases h2 with h2 | h2
      · rw [h2]
      · rw [h2]; decide

/-- `matchNotEmptyOrNotDeleted` is the complement of `matchEmptyOrDeleted`; so it misses the end mark as that one reports it. -/
theorem C78_not_empty_or_deleted (v : Nat) (i : Nat) :
    ((notEmptyOrDeletedW v).testBit i = true ↔ i < 16 ∧ (emptyOrDeletedW v).testBit i = false) ∧
    ((notEmptyOrDeletedW v).testBit i = true ↔ i < 16 ∧ byte v i < 128) := by
  have hbit : (emptyOrDeletedW v).testBit i = decide (i < 16 ∧ 128 ≤ byte v i) := by
    unfold emptyOrDeletedW
    rw [testBit_movemask_byte]
  unfold notEmptyOrDeletedW
  rw [xor_full, hbit]
  by_cases h : i < 16 <;> simp [h]

/-- The bytewise masks of the table model are those of the instructions. -/
theorem masks_of_table {K V : Type} (t : Map K V) (i : Nat) (hb : ∀ p, p < 16 → t.ctrl (i + p) < 256) {tg : Nat} (ht : tg < 256) :
    matchTag t i tg = tagW (pack (fun p => t.ctrl (i + p)) 16) tg ∧ matchEmpty t i = emptyW (pack (fun p => t.ctrl (i + p)) 16) ∧
      matchUnused t i = unusedW (pack (fun p => t.ctrl (i + p)) 16) := by
  have hbyte : ∀ p, p < 16 → byte (pack (fun p => t.ctrl (i + p)) 16) p = t.ctrl (i + p) := fun p hp => by
    rw [byte_pack _ hp, Nat.mod_eq_of_lt (hb p hp)]
  refine ⟨?_, ?_, ?_⟩
  · apply Nat.eq_of_testBit_eq
    intro p
    unfold matchTag
    rw [testBit_moveMask, tagW_bit _ ht]
    by_cases h : p < 16
    · rw [hbyte p h]; simp [h]; rfl
    · simp [h]
  · apply Nat.eq_of_testBit_eq
    intro p
    unfold matchEmpty matchTag
    rw [testBit_moveMask, emptyW_bit]
    by_cases h : p < 16
    · rw [hbyte p h]; simp [h]; rfl
    · simp [h]
  · apply Nat.eq_of_testBit_eq
    intro p
    unfold matchUnused unusedW
    rw [testBit_moveMask, testBit_movemask_byte]
    by_cases h : p < 16
    · rw [hbyte p h]; simp [h]
    · simp [h]

example : tagW (pack (fun i => if i < 3 then 5 else if i = 7 then 0xFE else 0x80) 16) 5 = 7 ∧
    emptyW (pack (fun i => if i < 3 then 5 else if i = 7 then 0xFE else 0x80) 16) = 0xFF78 ∧
    usedW (pack (fun i => if i < 3 then 5 else if i = 7 then 0xFE else 0x80) 16) = 7 := by decide +kernel

example : emptyOrDeletedW (pack (fun i => if i = 4 then 0xFF else 5) 16) = 16 := by decide +kernel

/-! ### The fallback without SSE2 (FL:408-692)

It cannot be instantiated as it stands: `to_bitmask128(data)` of a constant group is assigned to a pointer to non-constant
(FL:470-472, 546), and the table stores the masks in a `std::uint32_t` (FL:2182).  The definitions below read it as if these types were
right, which changes no value. -/

namespace U64

def kMSBs : Nat := 0x8080808080808080
def kLSBs : Nat := 0x0101010101010101
/-- `kFullMask64` is declared `std::uint32_t` (FL:464). -/
def kFullMask64 : Nat := 0x8080808080808080 % 2 ^ 32

/-- `~x`. -/
def not64 (x : Nat) : Nat := (2 ^ 64 - 1) ^^^ x

/-- One half of `matchControlTag` (FL:525-557). -/
def tagH (x c : Nat) : Nat := ((x ^^^ c * kLSBs) + 2 ^ 64 - kLSBs) % 2 ^ 64 &&& not64 (x ^^^ c * kLSBs) &&& kMSBs
/-- One half of `matchEmpty` (FL:559-567). -/
def emptyH (x : Nat) : Nat := x &&& ((not64 x <<< 6) % 2 ^ 64) &&& kMSBs
/-- One half of `matchDeleted` (FL:569-586). -/
def deletedH (x : Nat) : Nat :=
  let y := (x + 2 ^ 64 - kLSBs) % 2 ^ 64
  y &&& ((not64 y <<< 6) % 2 ^ 64) &&& kMSBs
/-- One half of `matchUnused` (FL:618-624). -/
def unusedH (x : Nat) : Nat := x &&& kMSBs

/-- `hasAnyMatch`, `hasAnyEmpty`, … (FL:635-663) from the two halves. -/
def hasAny (f : Nat → Nat) (low high : Nat) : Bool := f low != 0 && f high != 0
/-- `isAllEmpty`, `isAllDeleted`, … (FL:665-688) from the two halves. -/
def isAll (f : Nat → Nat) (low high : Nat) : Bool := f low == kFullMask64 && f high == kFullMask64
/-- `isAllUsed` (FL:680-683). -/
def isAllUsed (low high : Nat) : Bool := isAll unusedH low high

theorem msb_bit (j : Nat) : kMSBs.testBit j = decide (j < 64 ∧ j % 8 = 7) := by
  by_cases h : j < 64
  · have : ∀ j : Fin 64, kMSBs.testBit j.1 = decide (j.1 % 8 = 7) := by decide +kernel
    have := this ⟨j, h⟩
    simpa [h] using this
  · have : kMSBs.testBit j = false := Nat.testBit_lt_two_pow (Nat.lt_of_lt_of_le (by decide : kMSBs < 2 ^ 64) (Nat.pow_le_pow_right (by decide) (by omega)))
    simp [h, this]

/-- The mask of empty bytes is right for the bytes that occur. -/
theorem C78_fallback_empty (x : Nat) (hx : ∀ i, i < 8 → byte x i < 128 ∨ byte x i = bEmpty ∨ byte x i = bDeleted ∨ byte x i = bEnd) (j : Nat) :
    (emptyH x).testBit j = true ↔ j < 64 ∧ j % 8 = 7 ∧ byte x (j / 8) = bEmpty := by
  unfold emptyH
  rw [Nat.testBit_and, Nat.testBit_and, msb_bit, Nat.testBit_mod_two_pow, Nat.testBit_shiftLeft]
  by_cases h : j < 64 ∧ j % 8 = 7
  · have h1 : (not64 x).testBit (j - 6) = !x.testBit (j - 6) := by
      unfold not64
      rw [Nat.testBit_xor, Nat.testBit_two_pow_sub_one]
      have : j - 6 < 64 := by omega
      simp [this]
    have h2 : x.testBit j = (byte x (j / 8)).testBit 7 := by
      rw [testBit_byte _ _ _ (by decide)]; congr 1; omega
    have h3 : x.testBit (j - 6) = (byte x (j / 8)).testBit 1 := by
      rw [testBit_byte _ _ _ (by decide)]; congr 1; omega
    have h6 : 6 ≤ j := by omega
    rw [h1, h2, h3]
    have hb := byte_lt x (j / 8)
    have hv := hx (j / 8) (by omega)
    generalize byte x (j / 8) = b at hb hv
    have key : (b.testBit 7 && !b.testBit 1) = true ↔ b = bEmpty := by
      rcases hv with hv | hv | hv | hv
      · have := top_bit b hb
        rw [this]
        have h1 : ¬ 128 ≤ b := by omega
        have h2 : b ≠ bEmpty := by unfold bEmpty; omega
        simp [h1, h2]
      all_goals subst hv; decide
    simp only [h.1, h.2, h6, decide_true, Bool.true_and, Bool.and_true, true_and, and_self]
    exact key
  · constructor
    · intro hh
      simp only [Bool.and_eq_true, decide_eq_true_eq] at hh
      exact absurd hh.2 h
    · intro hh; exact absurd ⟨hh.1, hh.2.1⟩ h

/-- Bytes of a difference: one less, and another one less after a borrow. -/
theorem byte_sub (y : Nat) {i : Nat} (hi : i < 8) :
    byte ((y + 2 ^ 64 - kLSBs) % 2 ^ 64) i =
      (byte y i + 255 + (if y % 2 ^ (8 * i) < kLSBs % 2 ^ (8 * i) then 255 else 0)) % 256 := by
  unfold byte kLSBs
  have h8 : i = 0 ∨ i = 1 ∨ i = 2 ∨ i = 3 ∨ i = 4 ∨ i = 5 ∨ i = 6 ∨ i = 7 := by omega
  rcases h8 with rfl | rfl | rfl | rfl | rfl | rfl | rfl | rfl <;> simp only [Nat.reduceMul, Nat.reducePow, Nat.reduceMod] <;> split <;> omega

theorem borrow_zero (y : Nat) {i : Nat} (hi : i < 8) (h : y % 2 ^ (8 * i) < kLSBs % 2 ^ (8 * i)) : ∃ l, l < i ∧ byte y l = 0 := by
  by_contra hn
  have hall : ∀ l, l < i → byte y l ≠ 0 := fun l hl he => hn ⟨l, hl, he⟩
  unfold kLSBs at h
  unfold byte at hall
  have h0 := hall 0
  have h1 := hall 1
  have h2 := hall 2
  have h3 := hall 3
  have h4 := hall 4
  have h5 := hall 5
  have h6 := hall 6
  clear hall hn
  have h8 : i = 0 ∨ i = 1 ∨ i = 2 ∨ i = 3 ∨ i = 4 ∨ i = 5 ∨ i = 6 ∨ i = 7 := by omega
  simp only [Nat.reduceMul, Nat.reducePow] at h0 h1 h2 h3 h4 h5 h6
  rcases h8 with rfl | rfl | rfl | rfl | rfl | rfl | rfl | rfl <;> simp only [Nat.reduceMul, Nat.reducePow, Nat.reduceMod] at h <;> omega

theorem byte_tags {c i : Nat} (hc : c < 256) (hi : i < 8) : byte (c * kLSBs) i = c := by
  have : ∀ c : Fin 256, ∀ i : Fin 8, byte (c.1 * kLSBs) i.1 = c.1 := by decide +kernel
  exact this ⟨c, hc⟩ ⟨i, hi⟩

/-- Which bits `matchControlTag` of the fallback sets: those of the bytes that are equal to the tag, and of bytes that differ from it in the
lowest bit only and follow a borrow. -/
theorem tagH_bit (x : Nat) {c : Nat} (hc : c < 256) (j : Nat) :
    (tagH x c).testBit j = true ↔ j < 64 ∧ j % 8 = 7 ∧ (byte x (j / 8) = c ∨
      byte x (j / 8) = c ^^^ 1 ∧ (x ^^^ c * kLSBs) % 2 ^ (8 * (j / 8)) < kLSBs % 2 ^ (8 * (j / 8))) := by
  unfold tagH
  rw [Nat.testBit_and, Nat.testBit_and, msb_bit]
  by_cases h : j < 64 ∧ j % 8 = 7
  · obtain ⟨i, hi, rfl⟩ : ∃ i, i < 8 ∧ j = 8 * i + 7 := ⟨j / 8, by omega, by omega⟩
    rw [show (8 * i + 7) / 8 = i by omega]
    have h1 : (not64 (x ^^^ c * kLSBs)).testBit (8 * i + 7) = !(x ^^^ c * kLSBs).testBit (8 * i + 7) := by
      unfold not64
      rw [Nat.testBit_xor, Nat.testBit_two_pow_sub_one]
      simp [h.1]
    rw [h1, ← testBit_byte _ i 7 (by decide), ← testBit_byte _ i 7 (by decide), byte_sub _ hi, top_bit _ (Nat.mod_lt _ (by decide)),
      top_bit _ (byte_lt _ _)]
    have hx : byte (x ^^^ c * kLSBs) i = byte x i ^^^ c := by rw [byte_xor, byte_tags hc hi]
    have hb := byte_lt (x ^^^ c * kLSBs) i
    have e0 : byte (x ^^^ c * kLSBs) i = 0 ↔ byte x i = c := by rw [hx]; exact Nat.xor_eq_zero_iff
    have e1 : byte (x ^^^ c * kLSBs) i = 1 ↔ byte x i = c ^^^ 1 := by
      rw [hx]
      constructor
      · intro hh
        rw [← hh, Nat.xor_comm (byte x i), ← Nat.xor_assoc, Nat.xor_self, Nat.zero_xor]
      · intro hh
        rw [hh, Nat.xor_right_comm, Nat.xor_self, Nat.zero_xor]
    rw [← e0, ← e1]
    generalize byte (x ^^^ c * kLSBs) i = b at hb
    by_cases hq : (x ^^^ c * kLSBs) % 2 ^ (8 * i) < kLSBs % 2 ^ (8 * i)
    · simp only [hq, if_true, h.1, h.2, decide_true, Bool.and_true, true_and, and_true, Bool.and_eq_true, decide_eq_true_eq, Bool.not_eq_true',
        decide_eq_false_iff_not]
      omega
    · simp only [hq, if_false, h.1, h.2, decide_true, Bool.and_true, true_and, and_false, or_false, Bool.and_eq_true, decide_eq_true_eq,
        Bool.not_eq_true', decide_eq_false_iff_not]
      omega
  · constructor
    · intro hh
      simp only [Bool.and_eq_true, decide_eq_true_eq] at hh
      exact absurd hh.2 h
    · intro hh; exact absurd ⟨hh.1, hh.2.1⟩ h

/-- C78, the fallback: `matchControlTag` sets the bit of every byte that is equal to the tag; a bit that it sets without need belongs to a
byte that differs from the tag in the lowest bit only, and some byte before it is equal to the tag.  So the first bit that is set is
that of the first equal byte. -/
theorem C78_fallback_tag (x : Nat) {c : Nat} (hc : c < 256) :
    (∀ i, i < 8 → byte x i = c → (tagH x c).testBit (8 * i + 7) = true) ∧
    (∀ j, (tagH x c).testBit j = true → ∃ i, i < 8 ∧ j = 8 * i + 7 ∧ (byte x i = c ∨ byte x i = c ^^^ 1 ∧ ∃ l, l < i ∧ byte x l = c)) := by
  refine ⟨fun i hi he => (tagH_bit x hc _).mpr ⟨by omega, by omega, Or.inl (by rw [show (8 * i + 7) / 8 = i by omega]; exact he)⟩, ?_⟩
  intro j hj
  obtain ⟨h1, h2, h3⟩ := (tagH_bit x hc j).mp hj
  refine ⟨j / 8, by omega, by omega, ?_⟩
  rcases h3 with h3 | ⟨h3, h4⟩
  · exact Or.inl h3
  · obtain ⟨l, hl, hz⟩ := borrow_zero _ (by omega) h4
    refine Or.inr ⟨h3, l, hl, ?_⟩
    rw [byte_xor, byte_tags hc (by omega)] at hz
    exact Nat.xor_eq_zero_iff.mp hz

/-- C78 is violated by the fallback: every `hasAny…` is wrong whenever exactly one half of the group has a match. -/
theorem C78_fallback_has_any_wrong (f : Nat → Nat) (low high : Nat) (h : (f low ≠ 0 ∧ f high = 0) ∨ (f low = 0 ∧ f high ≠ 0)) :
    hasAny f low high = false := by
  unfold hasAny
  rcases h with ⟨_, h⟩ | ⟨h, _⟩ <;> simp [h]

/-- C78 is violated by the fallback: `isAllEmpty`, `isAllUnused` are false on the group where every byte is empty, `isAllDeleted` on
the one where every byte is deleted, `isAllUsed` on a group of used bytes; and `isAllEmpty` is true on a group with eight
empty bytes out of 16. -/
theorem C78_fallback_is_all_wrong :
    isAll emptyH 0x8080808080808080 0x8080808080808080 = false ∧ isAll unusedH 0x8080808080808080 0x8080808080808080 = false ∧
    isAll deletedH 0xFEFEFEFEFEFEFEFE 0xFEFEFEFEFEFEFEFE = false ∧ isAllUsed 0x0505050505050505 0x0505050505050505 = false ∧
    isAll emptyH 0x0505050580808080 0x0505050580808080 = true := by decide +kernel

/-- C78 is violated by the fallback: `matchDeleted` reports an end mark that follows a byte 0x00 as deleted (the subtraction borrows),
`matchHash` a byte that differs from the tag in the lowest bit after a match. -/
theorem C78_fallback_false_matches :
    deletedH 0x050505050505FF05 = 0 ∧ deletedH 0x050505050505FF00 ≠ 0 ∧ tagH 0x0505050505051312 0x12 = 0x8080 := by
  decide +kernel

/-- `C78_fallback_tag`: the first bit is that of byte 1. -/
example : tagH 0x0505050505130512 0x05 = 0x8080808080008000 := by decide +kernel

example : hasAny emptyH 0x8005050505050505 0x0505050505050505 = false ∧ emptyH 0x8005050505050505 ≠ 0 := by decide +kernel

end U64
end Verif.Flat
