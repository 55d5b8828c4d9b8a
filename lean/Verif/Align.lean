/-
Rounding sizes and addresses up to an alignment (C149).

UT = src/jstd/utility/utility.h
-/
import Verif.Ranges
import Verif.FloatNear
import Verif.PropsBits

namespace Verif.Align
open Ranges (End)

/-- The two assertions on the alignment (UT:91-92, 71-72, 102-103): positive, and a power of two. -/
def alignmentOk (a : Nat) : Bool := decide (0 < a) && (a &&& ((a + W - 1) % W)) == 0

/-- `(x + alignment - 1) & ~(alignment - 1)` (UT:93, 104, 116); 64-bit words. -/
def roundUp (x a : Nat) : Nat := ((x + a + W - 1) % W) &&& ((W - 1) ^^^ ((a + W - 1) % W))

/-- `align_to(size, alignment)` (UT:88-96). -/
def alignTo (asserts : Bool) (size a : Nat) : End Nat :=
  if asserts ∧ alignmentOk a = false then .abort
  else if asserts ∧ roundUp size a / a * a % W ≠ roundUp size a then .abort
  else .ret (roundUp size a)

/-- `pointer_align_to(address, alignment)` (UT:98-106); the one with a constant alignment (UT:108-118) computes the same. -/
def pointerAlignTo (asserts : Bool) (ptr a : Nat) : End Nat :=
  if asserts ∧ alignmentOk a = false then .abort else .ret (roundUp ptr a)

/-- `check_alignment(address, alignment)` (UT:66-74); the one with a constant alignment (UT:76-86) computes the same. -/
def checkAlignment (asserts : Bool) (ptr a : Nat) : End Bool :=
  if asserts ∧ alignmentOk a = false then .abort else .ret ((ptr &&& ((a + W - 1) % W)) == 0)

/-! ### Lemmas -/

theorem pred_mod {a : Nat} (h0 : 0 < a) (h : a < W) : (a + W - 1) % W = a - 1 := by
  rw [show a + W - 1 = a - 1 + W by omega, Nat.add_mod_right, Nat.mod_eq_of_lt (by omega)]

theorem pow_lt {k : Nat} (hk : k < 64) : 2 ^ k < W := Nat.pow_lt_pow_right (by decide) hk

theorem not_mask {k : Nat} (hk : k < 64) : (W - 1) ^^^ (2 ^ k - 1) = (2 ^ (64 - k) - 1) <<< k := by
  apply Nat.eq_of_testBit_eq
  intro i
  show Nat.testBit ((2 ^ 64 - 1) ^^^ (2 ^ k - 1)) i = _
  rw [Nat.testBit_xor, Nat.testBit_two_pow_sub_one, Nat.testBit_two_pow_sub_one, Nat.testBit_shiftLeft, Nat.testBit_two_pow_sub_one]
  by_cases h1 : i < k
  · simp [h1, show i < 64 by omega, show ¬ k ≤ i by omega]
  · by_cases h2 : i < 64
    · simp [h1, h2, show k ≤ i by omega, show i - k < 64 - k by omega]
    · simp [h1, h2, show k ≤ i by omega, show ¬ i - k < 64 - k by omega]

/-- What is computed: the remainder is cut off from the sum, modulo 2^64. -/
theorem roundUp_eq (x : Nat) {k : Nat} (hk : k < 64) : roundUp x (2 ^ k) = (x + 2 ^ k - 1) % W / 2 ^ k * 2 ^ k := by
  have hp : 0 < 2 ^ k := Nat.two_pow_pos k
  have hm : ∀ y, y < W → y / 2 ^ k % 2 ^ (64 - k) = y / 2 ^ k := by
    intro y hy
    apply Nat.mod_eq_of_lt
    rw [Nat.div_lt_iff_lt_mul hp, ← Nat.pow_add, Nat.sub_add_cancel (by omega)]
    exact hy
  unfold roundUp
  rw [pred_mod hp (pow_lt hk), not_mask hk, FloatNear.and_mask, show x + 2 ^ k + W - 1 = x + 2 ^ k - 1 + W by omega, Nat.add_mod_right,
    hm _ (Nat.mod_lt _ (by decide)), Nat.shiftLeft_eq]

theorem alignmentOk_iff {a : Nat} (ha : a < W) : alignmentOk a = true ↔ ∃ k, k < 64 ∧ a = 2 ^ k := by
  unfold alignmentOk
  by_cases h0 : 0 < a
  · rw [decide_eq_true h0, Bool.true_and, pred_mod h0 ha]
    have h1 : (a &&& (a - 1) == 0) = isPow2 a := rfl
    rw [h1, C21_is_pow2]
    constructor
    · rintro (h | ⟨k, hk⟩)
      · omega
      · refine ⟨k, ?_, hk⟩
        by_contra hcon
        have : 2 ^ 64 ≤ 2 ^ k := Nat.pow_le_pow_right (by decide) (by omega)
        unfold W at ha
        omega
    · rintro ⟨k, _, hk⟩
      exact Or.inr ⟨k, hk⟩
  · rw [decide_eq_false h0, Bool.false_and]
    constructor
    · intro h; cases h
    · rintro ⟨k, _, hk⟩
      have := Nat.two_pow_pos k
      omega

/-! ### C149 -/

/-- C149 (partial): `align_to` gives the least multiple of the alignment that is not below the size, if it is less than 2^64.  Missing: see `C149_align_to_wraps`. -/
theorem C149_align_to_partial (asserts : Bool) {size k : Nat} (hk : k < 64) (hs : size + 2 ^ k - 1 < W) :
    ∃ r, alignTo asserts size (2 ^ k) = .ret r ∧ 2 ^ k ∣ r ∧ size ≤ r ∧ ∀ m, 2 ^ k ∣ m → size ≤ m → r ≤ m := by
  have hp : 0 < 2 ^ k := Nat.two_pow_pos k
  have he : roundUp size (2 ^ k) = (size + 2 ^ k - 1) / 2 ^ k * 2 ^ k := by rw [roundUp_eq _ hk, Nat.mod_eq_of_lt hs]
  have hok := (alignmentOk_iff (pow_lt hk)).mpr ⟨k, hk, rfl⟩
  have hle : (size + 2 ^ k - 1) / 2 ^ k * 2 ^ k ≤ size + 2 ^ k - 1 := Nat.div_mul_le_self _ _
  refine ⟨roundUp size (2 ^ k), ?_, ⟨(size + 2 ^ k - 1) / 2 ^ k, by rw [Nat.mul_comm]; exact he⟩, ?_, ?_⟩
  · unfold alignTo
    rw [if_neg (by rw [hok]; simp), if_neg]
    rw [he, Nat.mul_div_cancel _ hp, Nat.mod_eq_of_lt (by omega)]
    simp
  · rw [he]
    have h1 := Nat.div_add_mod (size + 2 ^ k - 1) (2 ^ k)
    have h2 := Nat.mod_lt (size + 2 ^ k - 1) hp
    rw [Nat.mul_comm] at h1
    omega
  · rintro m ⟨c, rfl⟩ hm
    rw [he, Nat.mul_comm]
    apply Nat.mul_le_mul_left
    rw [Nat.div_le_iff_le_mul_add_pred hp]
    omega

/-- C149, violated: for sizes (and addresses) so large that the next multiple is 2^64, the result is 0, and the assertions do not notice. -/
theorem C149_align_to_wraps (asserts : Bool) {size k : Nat} (hk : k < 64) (hs : size < W) (hw : W ≤ size + 2 ^ k - 1) :
    alignTo asserts size (2 ^ k) = .ret 0 ∧ pointerAlignTo asserts size (2 ^ k) = .ret 0 := by
  have hp : 0 < 2 ^ k := Nat.two_pow_pos k
  have hok := (alignmentOk_iff (pow_lt hk)).mpr ⟨k, hk, rfl⟩
  have he : roundUp size (2 ^ k) = 0 := by
    rw [roundUp_eq _ hk, show size + 2 ^ k - 1 = (size + 2 ^ k - 1 - W) + W by omega, Nat.add_mod_right,
      Nat.mod_eq_of_lt (by have := pow_lt hk; omega), Nat.div_eq_of_lt (by omega), Nat.zero_mul]
  constructor
  · unfold alignTo
    rw [he, hok]
    simp
  · unfold pointerAlignTo
    rw [he, hok]
    simp

/-- C149 (partial): an address that has been aligned is aligned, and it is less than one alignment behind the original one; an aligned address stays.
Missing: addresses at the very end. -/
theorem C149_pointer_partial (asserts : Bool) {ptr k : Nat} (hk : k < 64) (hs : ptr + 2 ^ k - 1 < W) :
    ∃ q, pointerAlignTo asserts ptr (2 ^ k) = .ret q ∧ checkAlignment asserts q (2 ^ k) = .ret true ∧ ptr ≤ q ∧ q < ptr + 2 ^ k ∧
      (checkAlignment asserts ptr (2 ^ k) = .ret true → q = ptr) := by
  have hp : 0 < 2 ^ k := Nat.two_pow_pos k
  have he : roundUp ptr (2 ^ k) = (ptr + 2 ^ k - 1) / 2 ^ k * 2 ^ k := by rw [roundUp_eq _ hk, Nat.mod_eq_of_lt hs]
  have hok := (alignmentOk_iff (pow_lt hk)).mpr ⟨k, hk, rfl⟩
  have h1 := Nat.div_add_mod (ptr + 2 ^ k - 1) (2 ^ k)
  have h2 := Nat.mod_lt (ptr + 2 ^ k - 1) hp
  rw [Nat.mul_comm] at h1
  have hchk : ∀ q, checkAlignment asserts q (2 ^ k) = .ret (q % 2 ^ k == 0) := by
    intro q
    unfold checkAlignment
    rw [if_neg (by rw [hok]; simp), pred_mod hp (pow_lt hk), Nat.and_two_pow_sub_one_eq_mod]
  refine ⟨roundUp ptr (2 ^ k), ?_, ?_, by omega, by omega, ?_⟩
  · unfold pointerAlignTo
    rw [if_neg (by rw [hok]; simp)]
  · rw [hchk, he, Nat.mul_mod_left]
    rfl
  · intro h
    rw [hchk] at h
    have h3 : ptr % 2 ^ k = 0 := by
      have : (ptr % 2 ^ k == 0) = true := by injection h
      exact eq_of_beq this
    rw [he]
    obtain ⟨c, hc⟩ := Nat.dvd_of_mod_eq_zero h3
    rw [hc, show 2 ^ k * c + 2 ^ k - 1 = 2 ^ k * c + (2 ^ k - 1) by omega, Nat.mul_add_div hp, Nat.div_eq_of_lt (by omega), Nat.add_zero, Nat.mul_comm]

/-- C149, `check_alignment` is true exactly for the multiples of the alignment; with assertions all three functions abort exactly for alignments that are no power of two. -/
theorem C149_check {ptr a : Nat} (ha : a < W) :
    (∀ k asserts, k < 64 → a = 2 ^ k → checkAlignment asserts ptr a = .ret (decide (a ∣ ptr))) ∧
    (checkAlignment true ptr a = .abort ↔ ¬ ∃ k, k < 64 ∧ a = 2 ^ k) ∧
    (pointerAlignTo true ptr a = .abort ↔ ¬ ∃ k, k < 64 ∧ a = 2 ^ k) ∧
    (alignTo true ptr a = .abort ↔ ¬ ∃ k, k < 64 ∧ a = 2 ^ k) := by
  have hiff := alignmentOk_iff ha
  refine ⟨?_, ?_, ?_, ?_⟩
  · rintro k asserts hk rfl
    have hok := hiff.mpr ⟨k, hk, rfl⟩
    unfold checkAlignment
    rw [if_neg (by rw [hok]; simp), pred_mod (Nat.two_pow_pos k) ha, Nat.and_two_pow_sub_one_eq_mod]
    congr 1
    rw [beq_eq_decide, decide_eq_decide]
    exact (Nat.dvd_iff_mod_eq_zero).symm
  · rw [← hiff]
    unfold checkAlignment
    cases h : alignmentOk a <;> simp
  · rw [← hiff]
    unfold pointerAlignTo
    cases h : alignmentOk a <;> simp
  · rw [← hiff]
    unfold alignTo
    cases h : alignmentOk a with
    | false => simp
    | true =>
      obtain ⟨k, hk, rfl⟩ := hiff.mp h
      have hp : 0 < 2 ^ k := Nat.two_pow_pos k
      have : roundUp ptr (2 ^ k) / 2 ^ k * 2 ^ k % W = roundUp ptr (2 ^ k) := by
        rw [roundUp_eq _ hk, Nat.mul_div_cancel _ hp, Nat.mod_eq_of_lt]
        exact Nat.lt_of_le_of_lt (Nat.div_mul_le_self _ _) (Nat.mod_lt _ (by decide))
      simp [this]

/-! ### Examples -/

example : alignTo true 13 8 = .ret 16 ∧ alignTo true 16 8 = .ret 16 ∧ alignTo true (2 ^ 64 - 3) 8 = .ret 0 ∧ alignTo true 5 6 = .abort := by
  refine ⟨?_, ?_, ?_, ?_⟩ <;> rfl

example : 13 + 2 ^ 3 - 1 < W ∧ W ≤ 2 ^ 64 - 3 + 2 ^ 3 - 1 := by decide

example : (8 : Nat) < W ∧ checkAlignment true 24 8 = .ret true ∧ checkAlignment true 20 8 = .ret false ∧ pointerAlignTo true 20 8 = .ret 24 ∧
    pointerAlignTo true 20 0 = .abort := by
  refine ⟨by decide, ?_, ?_, ?_, ?_⟩ <;> rfl

end Verif.Align
