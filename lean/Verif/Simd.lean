/-
The SSE2 level of the two group layouts: 128-bit words, the intrinsics used by `match_*`, and the
literal hash tables.  Proves that the bytewise functions of Layout.lean compute the same masks, and
properties C19 and C26.
-/
import Verif.Layout
import Verif.HashTables
import Mathlib.Data.Nat.Bitwise

namespace Verif

namespace Simd

/-- Byte `i` of a 128-bit word (little endian, as in memory). -/
def byte (v i : Nat) : Nat := v / 2 ^ (8 * i) % 256

/-- The word whose bytes are `f 0, f 1, ..., f (n-1)`. -/
def pack (f : Nat → Nat) : Nat → Nat
  | 0 => 0
  | n + 1 => pack f n + 2 ^ (8 * n) * (f n % 256)

/-- `_mm_load_si128` of the 16 control bytes (flat_map_group15.hpp:318-334, flat_map_group16.hpp:308-310). -/
def load (g : Group) : Nat := pack g 16

/-- `_mm_setzero_si128`. -/
def setzero : Nat := 0

/-- `_mm_set1_epi32`: four copies of a 32-bit value. -/
def set1_epi32 (d : Nat) : Nat := d % 2 ^ 32 * (1 + 2 ^ 32 + 2 ^ 64 + 2 ^ 96)

/-- `_mm_and_si128`. -/
def and_si128 (a b : Nat) : Nat := a &&& b

/-- `_mm_cmpeq_epi8`: bytewise comparison, `0xFF` for equal. -/
def cmpeq_epi8 (a b : Nat) : Nat := pack (fun i => if byte a i = byte b i then 255 else 0) 16

/-- A byte read as `int8_t`. -/
def signed8 (b : Nat) : Int := if b < 128 then b else (b : Int) - 256

/-- `_mm_cmplt_epi8`: bytewise signed comparison. -/
def cmplt_epi8 (a b : Nat) : Nat := pack (fun i => if signed8 (byte a i) < signed8 (byte b i) then 255 else 0) 16

/-- `_mm_movemask_epi8`: the top bits of the 16 bytes. -/
def movemask_epi8 (v : Nat) : Nat := moveMask (fun i => v.testBit (8 * i + 7)) 16

theorem pack_lt (f : Nat → Nat) (n : Nat) : pack f n < 2 ^ (8 * n) := by
  induction n with
  | zero => simp [pack]
  | succ n ih =>
    have : 2 ^ (8 * (n + 1)) = 2 ^ (8 * n) * 256 := by rw [Nat.mul_succ, Nat.pow_add]
    have h2 : f n % 256 < 256 := Nat.mod_lt _ (by decide)
    unfold pack
    rw [this]
    calc _ < 2 ^ (8 * n) + 2 ^ (8 * n) * (f n % 256) := by omega
      _ = 2 ^ (8 * n) * (f n % 256 + 1) := by rw [Nat.mul_add, Nat.mul_one, Nat.add_comm]
      _ ≤ _ := Nat.mul_le_mul_left _ h2

theorem byte_pack (f : Nat → Nat) {n i : Nat} (h : i < n) : byte (pack f n) i = f i % 256 := by
  induction n with
  | zero => omega
  | succ n ih =>
    unfold pack byte
    by_cases hi : i = n
    · subst hi
      rw [Nat.add_mul_div_left _ _ (Nat.two_pow_pos _), Nat.div_eq_of_lt (pack_lt f i), Nat.zero_add, Nat.mod_mod]
    · have hin : i < n := by omega
      rw [← ih hin, byte]
      have : 2 ^ (8 * n) = 2 ^ (8 * i) * (256 * 2 ^ (8 * (n - i - 1))) := by
        rw [show (256 : Nat) = 2 ^ 8 from rfl, ← Nat.pow_add, ← Nat.pow_add]; congr 1; omega
      rw [this, Nat.mul_assoc, Nat.add_mul_div_left _ _ (Nat.two_pow_pos _), Nat.mul_assoc, Nat.add_mul_mod_self_left]

theorem byte_lt (v i : Nat) : byte v i < 256 := Nat.mod_lt _ (by decide)

theorem testBit_byte (v i j : Nat) (h : j < 8) : (byte v i).testBit j = v.testBit (8 * i + j) := by
  unfold byte
  rw [show (256 : Nat) = 2 ^ 8 from rfl, Nat.testBit_mod_two_pow, Nat.testBit_div_two_pow]
  simp [h, Nat.add_comm]

theorem byte_and (a b i : Nat) : byte (a &&& b) i = byte a i &&& byte b i := by
  apply Nat.eq_of_testBit_eq
  intro j
  rw [Nat.testBit_and]
  by_cases h : j < 8
  · simp [testBit_byte, h, Nat.testBit_and]
  · have : ∀ v, (byte v i).testBit j = false := fun v =>
      Nat.testBit_lt_two_pow (Nat.lt_of_lt_of_le (byte_lt v i)
        (show 2 ^ 8 ≤ 2 ^ j from Nat.pow_le_pow_right (by decide) (by omega)))
    simp [this]

theorem byte_load {g : Group} (hg : ∀ i, i < 16 → g i < 256) {i : Nat} (h : i < 16) : byte (load g) i = g i := by
  rw [load, byte_pack _ h, Nat.mod_eq_of_lt (hg i h)]

/-- Byte `i` of `_mm_set1_epi32(c * 0x01010101)` is `c`. -/
theorem byte_set1 {c i : Nat} (hc : c < 256) (hi : i < 16) : byte (set1_epi32 (c * 0x01010101)) i = c := by
  unfold set1_epi32
  rw [Nat.mod_eq_of_lt (by omega)]
  have : c * 0x01010101 * (1 + 2 ^ 32 + 2 ^ 64 + 2 ^ 96) = pack (fun _ => c) 16 := by
    simp only [pack, Nat.mod_eq_of_lt hc]; omega
  rw [this, byte_pack _ hi, Nat.mod_eq_of_lt hc]

theorem byte_zero (i : Nat) : byte setzero i = 0 := by simp [byte, setzero]

theorem testBit_movemask (v i : Nat) : (movemask_epi8 v).testBit i = (decide (i < 16) && v.testBit (8 * i + 7)) :=
  testBit_moveMask _ _ _

theorem testBit_movemask_pack (p : Nat → Prop) [DecidablePred p] (i : Nat) :
    (movemask_epi8 (pack (fun i => if p i then 255 else 0) 16)).testBit i = decide (i < 16 ∧ p i) := by
  rw [testBit_movemask]
  by_cases h : i < 16
  · rw [← testBit_byte _ _ _ (by decide), byte_pack _ h]
    by_cases hp : p i <;> simp [h, hp]
    decide
  · simp [h]

end Simd

open Simd

/-! ### group15 -/

namespace G15

/-- `repeated_hash` (flat_map_group15.hpp:88-161) by table lookup; `narrow_cast<uint8_t>` is `% 256`. -/
def repeatedHash (h : Nat) : Nat := dwordHashs15.getD (h % 256) 0

/-- `reduced_hash` (flat_map_group15.hpp:163-166). -/
def reducedHashT (h : Nat) : Nat := repeatedHash h % 256

/-- `match_empty()` on the 128-bit word `v` (flat_map_group15.hpp:437-453). -/
def matchEmptyW (v : Nat) : Nat := movemask_epi8 (cmpeq_epi8 setzero v) &&& 0x7FFF

/-- `match_used()` (flat_map_group15.hpp:456-459). -/
def matchUsedW (v : Nat) : Nat := (matchEmptyW v ^^^ 0xFFFFFFFF) &&& 0x7FFF

/-- `match_hash(hash)` (flat_map_group15.hpp:462-483 with `make_hash_bits` 425-434). -/
def matchHashW (v h : Nat) : Nat := movemask_epi8 (cmpeq_epi8 v (set1_epi32 (repeatedHash h))) &&& 0x7FFF

/-- The literal table agrees with the formula used by the table model, all four bytes of an entry being equal. -/
theorem repeatedHash_eq (h : Nat) : repeatedHash h = reducedHash h * 0x01010101 := by
  have key : ∀ b : Fin 256, dwordHashs15.getD b.1 0 = (if b.1 = 0 then 8 else if b.1 = 1 then 9 else b.1) * 0x01010101 := by
    decide +kernel
  exact key ⟨h % 256, Nat.mod_lt _ (by decide)⟩

theorem reducedHashT_eq (h : Nat) : reducedHashT h = reducedHash h := by
  unfold reducedHashT
  rw [repeatedHash_eq]
  have := reducedHash_lt h
  omega

theorem matchEmptyW_bit (v i : Nat) : (matchEmptyW v).testBit i = true ↔ i < 15 ∧ byte v i = 0 := by
  unfold matchEmptyW cmpeq_epi8
  rw [Nat.testBit_and, testBit_movemask_pack, testBit_0x7FFF]
  simp only [byte_zero, Bool.and_eq_true, decide_eq_true_eq]
  constructor
  · rintro ⟨⟨_, h2⟩, h3⟩; exact ⟨h3, h2.symm⟩
  · rintro ⟨h1, h2⟩; exact ⟨⟨by omega, h2.symm⟩, h1⟩

theorem matchUsedW_bit (v i : Nat) : (matchUsedW v).testBit i = true ↔ i < 15 ∧ byte v i ≠ 0 := by
  unfold matchUsedW
  rw [Nat.testBit_and, Nat.testBit_xor, testBit_0x7FFF, testBit_0xFFFFFFFF]
  by_cases h : i < 15
  · have h' : i < 32 := by omega
    have := matchEmptyW_bit v i
    cases hb : (matchEmptyW v).testBit i <;> simp_all
  · simp [h]

theorem matchHashW_bit (v h i : Nat) : (matchHashW v h).testBit i = true ↔ i < 15 ∧ byte v i = reducedHashT h := by
  unfold matchHashW cmpeq_epi8
  rw [Nat.testBit_and, testBit_movemask_pack, testBit_0x7FFF, repeatedHash_eq, reducedHashT_eq]
  simp only [Bool.and_eq_true, decide_eq_true_eq]
  have hr := reducedHash_lt h
  constructor
  · rintro ⟨⟨h1, h2⟩, h3⟩; rw [byte_set1 hr h1] at h2; exact ⟨h3, h2⟩
  · rintro ⟨h1, h2⟩; rw [byte_set1 hr (by omega)]; exact ⟨⟨by omega, h2⟩, h1⟩

/-- The bytewise functions of the table model compute the masks of the SSE2 code. -/
theorem match_load {g : Group} (hg : ∀ i, i < 16 → g i < 256) (h : Nat) :
    matchEmptyW (load g) = matchEmpty g ∧ matchUsedW (load g) = matchUsed g ∧ matchHashW (load g) h = matchHash g h := by
  have key : ∀ a b : Nat, (∀ i, a.testBit i = true ↔ b.testBit i = true) → a = b := fun a b hab =>
    Nat.eq_of_testBit_eq fun i => Bool.eq_iff_iff.mpr (hab i)
  refine ⟨key _ _ fun i => ?_, key _ _ fun i => ?_, key _ _ fun i => ?_⟩
  · rw [matchEmptyW_bit]
    unfold matchEmpty
    rw [Nat.testBit_and, testBit_moveMask, testBit_0x7FFF]
    by_cases h : i < 15
    · rw [byte_load hg (by omega)]; simp [h]; omega
    · simp [h]
  · rw [matchUsedW_bit]
    unfold matchUsed matchEmpty
    rw [Nat.testBit_and, Nat.testBit_xor, Nat.testBit_and, testBit_moveMask, testBit_0x7FFF, testBit_0xFFFFFFFF]
    by_cases h : i < 15
    · rw [byte_load hg (by omega)]
      have h1 : i < 16 := by omega
      have h2 : i < 32 := by omega
      simp [h, h1, h2]
    · simp [h]
  · rw [matchHashW_bit, reducedHashT_eq]
    unfold matchHash
    rw [Nat.testBit_and, testBit_moveMask, testBit_0x7FFF]
    by_cases h : i < 15
    · rw [byte_load hg (by omega)]
      have h1 : i < 16 := by omega
      simp [h, h1]
    · simp [h]

end G15

/-- C19. For every 128-bit group content `v` and every hash value: the three masks have no bit at or above 15, and bit
`i < 15` says exactly that byte `i` is empty, is not empty, holds the reduced hash; the reduced hash is never one of the
reserved bytes `0` (empty) and `1` (sentinel) and fits in a byte. -/
theorem C19_matching_exact (v h : Nat) :
    (∀ i, (G15.matchEmptyW v).testBit i = true ↔ i < 15 ∧ byte v i = 0) ∧
    (∀ i, (G15.matchUsedW v).testBit i = true ↔ i < 15 ∧ byte v i ≠ 0) ∧
    (∀ i, (G15.matchHashW v h).testBit i = true ↔ i < 15 ∧ byte v i = G15.reducedHashT h) ∧
    2 ≤ G15.reducedHashT h ∧ G15.reducedHashT h < 256 :=
  ⟨G15.matchEmptyW_bit v, G15.matchUsedW_bit v, G15.matchHashW_bit v h,
    by rw [G15.reducedHashT_eq]; exact G15.reducedHash_ge h, by rw [G15.reducedHashT_eq]; exact G15.reducedHash_lt h⟩

/-- A concrete group: two empty bytes, a sentinel, several equal tags, an overflow byte equal to the tag. -/
example : let v := 0x07_01_07_44_00_07_12_13_14_15_16_17_18_19_00_07
    G15.matchEmptyW v = 2 ^ 11 + 2 ^ 1 ∧ G15.matchUsedW v = 2 ^ 15 - 1 - 2 ^ 11 - 2 ^ 1 ∧
    G15.matchHashW v 0xABC07 = 2 ^ 13 + 2 ^ 10 + 2 ^ 0 := by decide +kernel

/-- C19, overflow marks. Marking the class of `h` is seen by exactly the hashes of the same class (equal modulo 8), on top of
what was marked before, and leaves the 15 other bytes, hence all the matching masks, unchanged. -/
theorem C19_overflow_exact (g : Group) (h x : Nat) :
    (G15.isOverflow (G15.setOverflow g h) x = (G15.isOverflow g x || decide (x % 8 = h % 8))) ∧
    ∀ i, i ≠ 15 → G15.setOverflow g h i = g i := by
  constructor
  · unfold G15.isOverflow G15.setOverflow Group.set
    simp only [if_true, Nat.testBit_or, Nat.testBit_two_pow]
    simp [eq_comm]
  · intro i hi
    simp [G15.setOverflow, Group.set, hi]

/-- Both outcomes for a group with earlier marks. -/
example : let g : Group := fun i => if i = 15 then 0b00000100 else 7
    G15.isOverflow (G15.setOverflow g 13) 5 = true ∧ G15.isOverflow (G15.setOverflow g 13) 10 = true ∧
    G15.isOverflow (G15.setOverflow g 13) 6 = false := by decide

/-- C19, storing and erasing: exactly the addressed byte changes, and the overflow byte never does. -/
theorem C19_stores_exact (g : Group) {p : Nat} (hp : p < 15) (h x : Nat) :
    G15.setUsed g p (G15.reducedHashT h) p = G15.reducedHashT h ∧ G15.setEmpty g p p = 0 ∧
    (∀ i, i ≠ p → G15.setUsed g p (G15.reducedHashT h) i = g i ∧ G15.setEmpty g p i = g i) ∧
    G15.isOverflow (G15.setUsed g p (G15.reducedHashT h)) x = G15.isOverflow g x ∧
    G15.isOverflow (G15.setEmpty g p) x = G15.isOverflow g x := by
  have hr := G15.reducedHash_lt h
  rw [G15.reducedHashT_eq]
  have h15 : ¬ (15 = p) := by omega
  refine ⟨by simp [G15.setUsed, Group.set, Nat.mod_eq_of_lt hr], by simp [G15.setEmpty, Group.set], fun i hi => ?_, ?_, ?_⟩
  · simp [G15.setUsed, G15.setEmpty, Group.set, hi]
  · simp [G15.isOverflow, G15.setUsed, Group.set, h15]
  · simp [G15.isOverflow, G15.setEmpty, Group.set, h15]

/-- A concrete store. -/
example : (G15.setUsed (fun _ => 3) 14 (G15.reducedHashT 0x1201)) 14 = 9 := by decide +kernel

/-! ### group16 -/

namespace G16

/-- `repeated_hash` (flat_map_group16.hpp:87-160) by table lookup. -/
def repeatedHash (h : Nat) : Nat := dwordHashs16.getD (h % 256) 0

/-- `reduced_hash` (flat_map_group16.hpp:162-165). -/
def reducedHashT (h : Nat) : Nat := repeatedHash h % 256

/-- `make_mask_bits()` (flat_map_group16.hpp:391-397), `kHashMask32 = 0x7F7F7F7F`. -/
def maskBits : Nat := set1_epi32 0x7F7F7F7F

/-- `match_empty()` on the 128-bit word `v` (flat_map_group16.hpp:412-440, branch `kEmptySlot == 0`). -/
def matchEmptyW (v : Nat) : Nat := movemask_epi8 (cmpeq_epi8 setzero (and_si128 v maskBits))

/-- `match_used()` (flat_map_group16.hpp:443-483, branch `kEmptySlot == 0`): signed comparison. -/
def matchUsedW (v : Nat) : Nat := movemask_epi8 (cmplt_epi8 setzero (and_si128 v maskBits))

/-- `match_hash(hash)` (flat_map_group16.hpp:486-534 with `make_hash_bits` 400-409). -/
def matchHashW (v h : Nat) : Nat := movemask_epi8 (cmpeq_epi8 (and_si128 v maskBits) (set1_epi32 (repeatedHash h)))

/-- `has_any_overflow()`, 64-bit branch (flat_map_group16.hpp:341-347): `part0 & part1 & 0x8080808080808080`. -/
def hasAnyOverflowW (v : Nat) : Bool := v % 2 ^ 64 &&& v / 2 ^ 64 &&& 0x8080808080808080 != 0

/-- `has_any_overflow()`, 32-bit branch (flat_map_group16.hpp:348-357); `kSizeofSizeT` is 4 there. -/
def hasAnyOverflowW32 (v : Nat) : Bool :=
  v % 2 ^ 32 &&& v / 2 ^ 32 % 2 ^ 32 &&& 0x80808080 != 0 || v / 2 ^ 64 % 2 ^ 32 &&& v / 2 ^ 96 &&& 0x80808080 != 0

theorem repeatedHash_eq (h : Nat) : repeatedHash h = reducedHash h * 0x01010101 := by
  have key : ∀ b : Fin 256, dwordHashs16.getD b.1 0 = (if b.1 % 128 = 0 then 8 else b.1 % 128) * 0x01010101 := by
    decide +kernel
  have := key ⟨h % 256, Nat.mod_lt _ (by decide)⟩
  unfold repeatedHash reducedHash
  rw [this]
  simp only [Nat.mod_mod_of_dvd h (show 128 ∣ 256 by decide)]

theorem reducedHashT_eq (h : Nat) : reducedHashT h = reducedHash h := by
  unfold reducedHashT
  rw [repeatedHash_eq]
  have := reducedHash_lt h
  omega

theorem byte_masked (v : Nat) {i : Nat} (hi : i < 16) : byte (and_si128 v maskBits) i = byte v i % 128 := by
  unfold and_si128 maskBits
  rw [byte_and, show (0x7F7F7F7F : Nat) = 127 * 0x01010101 from rfl, byte_set1 (by decide) hi,
    show (127 : Nat) = 2 ^ 7 - 1 from rfl, Nat.and_two_pow_sub_one_eq_mod]

theorem matchEmptyW_bit (v i : Nat) : (matchEmptyW v).testBit i = true ↔ i < 16 ∧ byte v i % 128 = 0 := by
  unfold matchEmptyW cmpeq_epi8
  rw [testBit_movemask_pack]
  simp only [byte_zero, decide_eq_true_eq]
  constructor
  · rintro ⟨h1, h2⟩; rw [byte_masked v h1] at h2; exact ⟨h1, h2.symm⟩
  · rintro ⟨h1, h2⟩; rw [byte_masked v h1]; exact ⟨h1, h2.symm⟩

theorem matchUsedW_bit (v i : Nat) : (matchUsedW v).testBit i = true ↔ i < 16 ∧ byte v i % 128 ≠ 0 := by
  unfold matchUsedW cmplt_epi8
  rw [testBit_movemask_pack]
  simp only [byte_zero, decide_eq_true_eq]
  have hs : ∀ b : Nat, signed8 0 < signed8 (b % 128) ↔ b % 128 ≠ 0 := by
    intro b
    have : b % 128 < 128 := Nat.mod_lt _ (by decide)
    simp only [signed8, this, if_true, show (0 : Nat) < 128 by decide]
    omega
  constructor
  · rintro ⟨h1, h2⟩; rw [byte_masked v h1, hs] at h2; exact ⟨h1, h2⟩
  · rintro ⟨h1, h2⟩; rw [byte_masked v h1, hs]; exact ⟨h1, h2⟩

theorem matchHashW_bit (v h i : Nat) : (matchHashW v h).testBit i = true ↔ i < 16 ∧ byte v i % 128 = reducedHashT h := by
  unfold matchHashW cmpeq_epi8
  rw [testBit_movemask_pack, repeatedHash_eq, reducedHashT_eq]
  simp only [decide_eq_true_eq]
  have hr : reducedHash h < 256 := Nat.lt_trans (reducedHash_lt h) (by decide)
  constructor
  · rintro ⟨h1, h2⟩; rw [byte_set1 hr h1, byte_masked v h1] at h2; exact ⟨h1, h2⟩
  · rintro ⟨h1, h2⟩; rw [byte_set1 hr h1, byte_masked v h1]; exact ⟨h1, h2⟩

/-- The bytewise functions of the table model compute the masks of the SSE2 code. -/
theorem match_load {g : Group} (hg : ∀ i, i < 16 → g i < 256) (h : Nat) :
    matchEmptyW (load g) = matchEmpty g ∧ matchUsedW (load g) = matchUsed g ∧ matchHashW (load g) h = matchHash g h := by
  have key : ∀ a b : Nat, (∀ i, a.testBit i = true ↔ b.testBit i = true) → a = b := fun a b hab =>
    Nat.eq_of_testBit_eq fun i => Bool.eq_iff_iff.mpr (hab i)
  refine ⟨key _ _ fun i => ?_, key _ _ fun i => ?_, key _ _ fun i => ?_⟩
  · rw [matchEmptyW_bit]
    unfold matchEmpty
    rw [testBit_moveMask]
    by_cases h : i < 16
    · rw [byte_load hg h]; simp [h]
    · simp [h]
  · rw [matchUsedW_bit]
    unfold matchUsed
    rw [testBit_moveMask]
    by_cases h : i < 16
    · rw [byte_load hg h]; simp [h, Nat.pos_iff_ne_zero]
    · simp [h]
  · rw [matchHashW_bit, reducedHashT_eq]
    unfold matchHash
    rw [testBit_moveMask]
    by_cases h : i < 16
    · rw [byte_load hg h]; simp [h]
    · simp [h]

end G16

/-- C26. For every 128-bit group content and every hash value: the masks have no bit at or above 16, and each bit depends
only on the low seven bits of its byte, never on the overflow flag stored in the same byte. -/
theorem C26_matching_exact (v h : Nat) :
    (∀ i, (G16.matchEmptyW v).testBit i = true ↔ i < 16 ∧ byte v i % 128 = 0) ∧
    (∀ i, (G16.matchUsedW v).testBit i = true ↔ i < 16 ∧ byte v i % 128 ≠ 0) ∧
    (∀ i, (G16.matchHashW v h).testBit i = true ↔ i < 16 ∧ byte v i % 128 = G16.reducedHashT h) ∧
    1 ≤ G16.reducedHashT h ∧ G16.reducedHashT h < 128 :=
  ⟨G16.matchEmptyW_bit v, G16.matchUsedW_bit v, G16.matchHashW_bit v h,
    by rw [G16.reducedHashT_eq]; exact G16.reducedHash_pos h, by rw [G16.reducedHashT_eq]; exact G16.reducedHash_lt h⟩

/-- A concrete group with overflow flags on empty and used bytes. -/
example : let v := 0x87_01_07_C4_80_07_12_13_14_15_16_17_18_19_00_87
    G16.matchEmptyW v = 2 ^ 11 + 2 ^ 1 ∧ G16.matchUsedW v = 2 ^ 16 - 1 - 2 ^ 11 - 2 ^ 1 ∧
    G16.matchHashW v 0xABC87 = 2 ^ 15 + 2 ^ 13 + 2 ^ 10 + 2 ^ 0 := by decide +kernel

/-- C26, flags and tags are independent: storing or erasing changes exactly the tag of the addressed byte and no flag; marking
overflow changes no tag and exactly the flag of its class (hashes equal modulo 16). -/
theorem C26_stores_exact (g : Group) {p : Nat} (hp : p < 16) (h x : Nat) :
    G16.setUsed g p (G16.reducedHashT h) p % 128 = G16.reducedHashT h ∧ G16.setEmpty g p p % 128 = 0 ∧
    (∀ i, i ≠ p → G16.setUsed g p (G16.reducedHashT h) i = g i ∧ G16.setEmpty g p i = g i) ∧
    G16.isOverflow (G16.setUsed g p (G16.reducedHashT h)) x = G16.isOverflow g x ∧
    G16.isOverflow (G16.setEmpty g p) x = G16.isOverflow g x ∧
    (∀ i, G16.setOverflow g h i % 128 = g i % 128) ∧
    (G16.isOverflow (G16.setOverflow g h) x = (G16.isOverflow g x || decide (x % 16 = h % 16))) := by
  have hr := G16.reducedHash_lt h
  rw [G16.reducedHashT_eq]
  have h1 : G16.reducedHash h % 256 = G16.reducedHash h := Nat.mod_eq_of_lt (by omega)
  have ho := laws16.ovf_setUsed g p h x hp
  have he := laws16.ovf_setEmpty g p x hp
  refine ⟨?_, ?_, fun i hi => ?_, ho, he, fun i => ?_, ?_⟩
  · simp only [G16.setUsed, Group.set, if_true, h1]
    exact G16.mod128_and128_or _ _ hr
  · simp only [G16.setEmpty, Group.set, if_true]
    exact G16.mod128_and128 _
  · simp [G16.setUsed, G16.setEmpty, Group.set, hi]
  · simp only [G16.setOverflow, Group.set]
    split
    · rename_i h2; rw [G16.mod128_or128, h2]
    · rfl
  · simp only [G16.isOverflow, G16.setOverflow, Group.set]
    split
    · rename_i h2; simp only [h2, Nat.testBit_or, decide_true, Bool.or_true]; rw [show (128 : Nat).testBit 7 = true by decide, Bool.or_true]
    · rename_i h2; simp [h2]

/-- A concrete store into a byte carrying a flag, and both outcomes of a flag query. -/
example : let g : Group := fun i => if i = 3 then 0x85 else 0x11
    G16.setUsed g 3 (G16.reducedHashT 0x80) 3 = 0x88 ∧ G16.isOverflow (G16.setOverflow g 0x25) 0x15 = true ∧
    G16.isOverflow (G16.setOverflow g 0x25) 0x16 = false := by decide +kernel

/-- C26, violated part: `has_any_overflow()` answers `false` for every group whose flags all lie in one half, for instance
for every group obtained from an unflagged one by a single `set_overflow`. -/
theorem C26_has_any_overflow_wrong (v : Nat) (i : Nat) (hi : i < 16) (hb : v.testBit (8 * i + 7) = true)
    (hone : ∀ j, j < 16 → v.testBit (8 * j + 7) = true → j = i) :
    (∃ j, j < 16 ∧ 128 ≤ byte v j) ∧ G16.hasAnyOverflowW v = false := by
  refine ⟨⟨i, hi, ?_⟩, ?_⟩
  · rw [← testBit_byte _ _ _ (by decide)] at hb
    exact Nat.ge_two_pow_of_testBit hb
  unfold G16.hasAnyOverflowW
  rw [bne_eq_false_iff_eq]
  apply Nat.eq_of_testBit_eq
  intro n
  rw [Nat.zero_testBit, Nat.testBit_and, Nat.testBit_and, Nat.testBit_mod_two_pow, Nat.testBit_div_two_pow]
  by_contra hne
  simp only [Bool.not_eq_false, Bool.and_eq_true, decide_eq_true_eq] at hne
  obtain ⟨⟨⟨hn, h1⟩, h2⟩, h3⟩ := hne
  have hm : ∀ n : Fin 64, (0x8080808080808080 : Nat).testBit n.1 = true → n.1 % 8 = 7 := by decide +kernel
  have h7 := hm ⟨n, hn⟩ h3
  simp only at h7
  have e1 := hone (n / 8) (by omega) (by rw [show 8 * (n / 8) + 7 = n by omega]; exact h1)
  have e2 := hone (n / 8 + 8) (by omega) (by rw [show 8 * (n / 8 + 8) + 7 = n + 64 by omega]; exact h2)
  omega

/-- Such a group. -/
example : G16.hasAnyOverflowW (0x05_05_05_05_05_05_05_05_05_05_85_05_05_05_05_05) = false ∧
    (0x05_05_05_05_05_05_05_05_05_05_85_05_05_05_05_05 : Nat).testBit (8 * 5 + 7) = true := by decide +kernel

end Verif
