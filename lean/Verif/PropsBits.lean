/-
Properties C21 (power-of-two rounding) and C22 (bit helpers).
-/
import Verif.Bits
import Verif.TableRehash

namespace Verif
open Bits

/-! ### C22 -/

/-- C22. The portable 32-bit population counts (fast and slow version) are exact for every word. -/
theorem C22_popcnt32 {x : Nat} (hx : x < 2 ^ 32) : popcnt x = popcount 32 x ∧ popcntSlow x = popcount 32 x :=
  ⟨popcnt_eq hx, popcntSlow_eq hx⟩

example : popcnt 0xFFF0_0F01 = 17 ∧ popcntSlow 0xFFFF_FFFF = 32 := by decide +kernel

/-- C22. The portable 32-bit leading and trailing zero counts are exact for every word (32 for zero). -/
theorem C22_clz_ctz32 {x : Nat} (hx : x < 2 ^ 32) :
    (x ≠ 0 → (∃ p, IsHighest x p ∧ clz x + p = 31) ∧ IsLowest x (ctz x)) ∧ (x = 0 → clz x = 32 ∧ ctz x = 32) := by
  constructor
  · intro h0
    refine ⟨⟨_, isHighest_log2 h0, ?_⟩, ?_⟩
    · have := (Nat.log2_lt h0).mpr hx
      rw [clz_eq h0 hx]; omega
    · obtain ⟨p, q, rfl⟩ := exists_low_bit h0
      rw [ctz_eq hx]; exact isLowest_low p q
  · rintro rfl; decide +kernel

example : clz 0x0001_8000 = 15 ∧ ctz 0x0001_8000 = 15 := by decide +kernel

/-- C22. Isolating and clearing the lowest set bit, for words of 32 or 64 (or any number of) bits. -/
theorem C22_low_bit {w x : Nat} (hx : x < 2 ^ w) (h0 : x ≠ 0) :
    ∃ p, IsLowest x p ∧ ls1b w x = 2 ^ p ∧ ∀ i, (clearLow w x).testBit i = (x.testBit i && decide (i ≠ p)) := by
  have hw := Nat.two_pow_pos w
  have hs : (x + 2 ^ w - 1) % 2 ^ w = x - 1 := by
    rw [show x + 2 ^ w - 1 = (x - 1) + 2 ^ w by omega, Nat.add_mod_right, Nat.mod_eq_of_lt (by omega)]
  obtain ⟨p, q, rfl⟩ := exists_low_bit h0
  refine ⟨p, isLowest_low p q, ls1b_eq hx, fun i => ?_⟩
  unfold clearLow
  rw [hs]
  exact testBit_clearLowBit p q i

example : ls1b 64 0xF000_0000_0000_0000 = 2 ^ 60 ∧ clearLow 64 0xF000_0000_0000_0000 = 0xE000_0000_0000_0000 ∧ clearLow 32 0 = 0 ∧ ls1b 32 0 = 0 := by
  decide +kernel

/-- C22. Leading/trailing zero counts and the highest bit built on the intrinsics. -/
theorem C22_counts {w x : Nat} (hx : x < 2 ^ w) (h0 : x ≠ 0) :
    IsLowest x (countTrailingZeros w x) ∧ (∃ p, IsHighest x p ∧ countLeadingZeros w x + p + 1 = w ∧ ms1b x = 2 ^ p) := by
  unfold countTrailingZeros countLeadingZeros ms1b bsr
  simp only [ne_eq, h0, not_false_eq_true, if_true]
  have := (Nat.log2_lt h0).mpr hx
  exact ⟨bsf_isLowest h0 hx, _, isHighest_log2 h0, by omega, rfl⟩

/-- C22, the argument 0: both counts are the width. -/
theorem C22_counts_zero (w : Nat) : countTrailingZeros w 0 = w ∧ countLeadingZeros w 0 = w := ⟨rfl, rfl⟩

example : countTrailingZeros 64 0x50 = 4 ∧ countLeadingZeros 64 0x50 = 57 ∧ countLeadingZeros 32 0 = 32 := by decide +kernel

/-- C22, violated part. The active branch of the portable 64-bit population count uses 32-bit masks and counts only the lower
half of its argument, for every word; it is right exactly for words below `2^32`. -/
theorem C22_popcnt64_wrong {x : Nat} (hx : x < 2 ^ 64) :
    popcnt64 x = popcount 32 x ∧ (popcnt64 x = popcount 64 x ↔ x < 2 ^ 32) := by
  have h : popcnt64 x = popcount 32 x := by rw [popcnt64_eq hx, popcount_mod]
  refine ⟨h, ?_⟩
  rw [h, eq_comm]
  exact popcount_half hx

example : popcnt64 0xFFFF_FFFF_0000_0001 = 1 := by decide +kernel

/-- C22, violated part. The portable 64-bit leading zero count is wrong for every word from `2^32` on, and the trailing zero
count is wrong for every word whose lower 33 bits are zero. -/
theorem C22_clzll_ctzll_wrong {x p : Nat} (hx : x < 2 ^ 64) (h0 : x ≠ 0) :
    (IsHighest x p → (clzll x + p = 63 ↔ x < 2 ^ 32)) ∧ (IsLowest x p → (ctzll x = p ↔ p ≤ 32)) := by
  constructor
  · intro hp
    rw [clzll_eq h0 hx, hp.unique (isHighest_log2 h0), ← Nat.log2_lt h0]
    have := (Nat.log2_lt h0).mpr hx
    omega
  · intro hp
    obtain ⟨p', q, rfl⟩ := exists_low_bit h0
    rw [ctzll_eq hx, hp.unique (isLowest_low p' q)]
    omega

example : clzll (2 ^ 40) = 32 ∧ ctzll (2 ^ 40) = 32 ∧ clzll 5 = 61 ∧ ctzll 40 = 3 := by decide +kernel

/-- C22, violated part. The `bsr32` offered to compilers without intrinsics returns the number of leading zeros; it is not the
index of the highest bit for any word at all. -/
theorem C22_bsr32_fallback_wrong {x : Nat} (hx : x < 2 ^ 32) (h0 : x ≠ 0) : ¬ IsHighest x (bsr32Fallback x) := by
  intro h
  have := h.unique (isHighest_log2 h0)
  unfold bsr32Fallback at this
  rw [clz_eq h0 hx] at this
  have := (Nat.log2_lt h0).mpr hx
  omega

example : bsr32Fallback 8 = 28 := by decide +kernel

/-- C22, violated part. The same for `bsr64`, except for words in `[2^32, 2^33)`. -/
theorem C22_bsr64_fallback_wrong {x : Nat} (hx : x < 2 ^ 64) (h0 : x ≠ 0) :
    IsHighest x (bsr64Fallback x) ↔ 2 ^ 32 ≤ x ∧ x < 2 ^ 33 := by
  have hL := (Nat.log2_lt h0).mpr hx
  have e : IsHighest x (bsr64Fallback x) ↔ Nat.log2 x = 32 := by
    unfold bsr64Fallback
    rw [clzll_eq h0 hx]
    constructor
    · intro h
      have := h.unique (isHighest_log2 h0)
      omega
    · intro h
      have := isHighest_log2 h0
      rw [h] at this ⊢
      exact this
  rw [e, Nat.log2_eq_iff h0]

example : bsr64Fallback 8 = 60 := by decide +kernel

/-- C22, violated part. `bsf64` of a 32-bit build adds 32 in the wrong branch: it is wrong for every word. -/
theorem C22_bsf64_on_32bit_wrong {x : Nat} (hx : x < 2 ^ 64) (h0 : x ≠ 0) : ¬ IsLowest x (bsf64on32 x) := by
  unfold bsf64on32
  simp only
  intro h
  by_cases hl : x % 2 ^ 32 = 0
  · simp only [hl, ne_eq, not_true_eq_false, if_false] at h
    have hh : x / 2 ^ 32 ≠ 0 := by omega
    have h1 := bsf_isLowest hh (w := 32) (by omega)
    have h2 : x.testBit (bsf 32 (x / 2 ^ 32) + 32) = true := by
      have := h1.1
      rwa [Nat.testBit_div_two_pow] at this
    have hlt : bsf 32 (x / 2 ^ 32) < 32 := by
      have h3 := Nat.ge_two_pow_of_testBit h1.1
      by_contra hge
      have : 2 ^ 32 ≤ 2 ^ bsf 32 (x / 2 ^ 32) := Nat.pow_le_pow_right (by decide) (by omega)
      omega
    have h4 : (x % 2 ^ 32).testBit (bsf 32 (x / 2 ^ 32)) = true := by
      rw [Nat.testBit_mod_two_pow, h.1, Bool.and_true]; exact decide_eq_true hlt
    rw [hl] at h4; simp at h4
  · simp only [ne_eq, hl, not_false_eq_true, if_true] at h
    have h1 := bsf_isLowest hl (w := 32) (Nat.mod_lt _ (by decide))
    have h2 := h1.1
    rw [Nat.testBit_mod_two_pow] at h2
    simp only [Bool.and_eq_true] at h2
    have := h.2 _ h2.2
    omega

example : bsf64on32 1 = 32 ∧ bsf64on32 (2 ^ 40) = 8 := by decide +kernel

/-- C22. `bsr64` and `popcnt64` of a 32-bit build are exact. -/
theorem C22_bsr64_on_32bit {x : Nat} (hx : x < 2 ^ 64) :
    (x ≠ 0 → IsHighest x (bsr64on32 x)) ∧ popcnt64on32 x = popcount 64 x := by
  constructor
  · intro h0
    suffices bsr64on32 x = Nat.log2 x by rw [this]; exact isHighest_log2 h0
    unfold bsr64on32 bsr
    simp only
    by_cases hh : x / 2 ^ 32 = 0
    · simp only [hh, ne_eq, not_true_eq_false, if_false]
      congr 1; omega
    · simp only [ne_eq, hh, not_false_eq_true, if_true]
      obtain ⟨h1, h2⟩ := (Nat.log2_eq_iff hh).mp rfl
      symm
      rw [Nat.log2_eq_iff h0, Nat.pow_add, show Nat.log2 (x / 2 ^ 32) + 32 + 1 = (Nat.log2 (x / 2 ^ 32) + 1) + 32 by omega,
        Nat.pow_add]
      generalize 2 ^ Nat.log2 (x / 2 ^ 32) = a at *
      generalize 2 ^ (Nat.log2 (x / 2 ^ 32) + 1) = b at *
      omega
  · unfold popcnt64on32
    rw [popcnt_eq (by omega), popcnt_eq (Nat.mod_lt _ (by decide)), popcount_mod]
    have hs : popcount 64 x = popcount 32 x + ((List.range 32).filter fun i => x.testBit (32 + i)).length := by
      unfold popcount
      rw [show (64 : Nat) = 32 + 32 from rfl, List.range_add, List.filter_append, List.length_append, List.filter_map, List.length_map]
      rfl
    rw [hs, Nat.add_comm]
    congr 1
    unfold popcount
    congr 1
    apply List.filter_congr
    intro i _
    rw [Nat.testBit_div_two_pow, Nat.add_comm]

example : bsr64on32 (2 ^ 40 + 7) = 40 ∧ popcnt64on32 (2 ^ 40 + 7) = 4 := by decide +kernel

/-- C22. `log2_int` of BitUtils is the rounded-up logarithm for `n ≥ 2` but 1 for `n = 1`. -/
theorem C22_log2_bits {n : Nat} (h : 2 ≤ n) (k : Nat) : n ≤ 2 ^ k ↔ log2Bits n ≤ k := by
  unfold log2Bits bsr
  rw [if_pos (by omega), Nat.add_one_le_iff, Nat.log2_lt (by omega)]; omega

example : log2Bits 5 = 3 ∧ log2Bits 8 = 3 ∧ log2Bits 9 = 4 ∧ log2Bits 1 = 1 := by decide

/-! ### C21 -/

/-- A power of two. -/
def Pow2 (m : Nat) : Prop := ∃ k, m = 2 ^ k

/-- `r` is the least power of two with property `P`. -/
def LeastPow2 (P : Nat → Prop) (r : Nat) : Prop := Pow2 r ∧ P r ∧ ∀ m, Pow2 m → P m → r ≤ m

/-- `r` is the greatest power of two with property `P`. -/
def GreatestPow2 (P : Nat → Prop) (r : Nat) : Prop := Pow2 r ∧ P r ∧ ∀ m, Pow2 m → P m → m ≤ r

namespace P2

/-- `1 << s` on 64-bit words; over-long shifts are undefined. -/
def shl64 (s : Nat) : Res Nat := if s < 64 then .ok (2 ^ s) else .ub

/-- `run_time::round_up<uint64_t>` (Power2.h:256-278). -/
def roundUp64 (n : Nat) : Res Nat := if n > 1 then shl64 (Nat.log2 (n - 1) + 1) else .ok n

/-- `run_time::round_up<uint32_t>` (Power2.h:256-278): saturates above `2^31`. -/
def roundUp32 (n : Nat) : Nat := if n ≤ 2 ^ 31 then (if n > 1 then 2 ^ (Nat.log2 (n - 1) + 1) else n) else 2 ^ 32 - 1

/-- `run_time::round_down<uint64_t>` (Power2.h:191-211). -/
def roundDown (n : Nat) : Res Nat := if n > 1 then shl64 (Nat.log2 (n - 1)) else .ok 0

/-- `run_time::round_to<uint64_t>` (Power2.h:224-241). -/
def roundTo (n : Nat) : Res Nat := if n > 0 then shl64 (Nat.log2 n) else .ok 0

/-- `run_time::next_pow2<uint64_t>` (Power2.h:292-314). -/
def nextPow2 (n : Nat) : Res Nat := if n > 0 then shl64 (Nat.log2 n + 1) else .ok 1

/-- `run_time::prev_pow2<uint64_t>` (Power2.h:160-178). -/
def prevPow2 (n : Nat) : Res Nat := if n > 1 then shl64 (Nat.log2 n - 1) else .ok 0

/-- `run_time::log2_int<uint64_t>` (Power2.h:327-352). -/
def log2Int (n : Nat) : Nat := if n > 1 then Nat.log2 (n - 1) + 1 else 0

/-- `compile_time::round_to_pow2_impl<N, Power2>` (Power2.h:434-451); the template recursion doubles `Power2`, starting at 1, so
65 instantiations suffice (fuel). -/
def ctRoundToImpl (N : Nat) : Nat → Nat → Nat
  | 0, _ => 2 ^ 63
  | f + 1, P =>
    if N ≥ 2 ^ 63 then 2 ^ 63
    else if P = 2 ^ 63 ∨ P ≥ N then P / 2
    else ctRoundToImpl N f (if P < 2 ^ 63 then P * 2 else 0)

/-- `compile_time::round_to_pow2<N>` (Power2.h:453-456). -/
def ctRoundTo (N : Nat) : Nat := if isPow2 N then N else ctRoundToImpl N 65 1

/-- `compile_time::round_down_pow2<N>` (Power2.h:462-465). -/
def ctRoundDown (N : Nat) : Nat := if N ≠ 0 then ctRoundTo (N - 1) else 0

/-- `compile_time::round_up_pow2_impl<N, Power2>` (Power2.h:471-488). -/
def ctRoundUpImpl (N : Nat) : Nat → Nat → Nat
  | 0, _ => 2 ^ 64 - 1
  | f + 1, P =>
    if N > 2 ^ 63 then 2 ^ 64 - 1
    else if P = 2 ^ 63 ∨ P ≥ N then P
    else ctRoundUpImpl N f (if P < 2 ^ 63 then P * 2 else 0)

/-- `compile_time::round_up_pow2<N>` (Power2.h:490-493). -/
def ctRoundUp (N : Nat) : Nat := if isPow2 N then N else ctRoundUpImpl N 65 1

/-- `compile_time::next_pow2_impl<N, Power2>` (Power2.h:499-517). -/
def ctNextImpl (N : Nat) : Nat → Nat → Nat
  | 0, _ => 2 ^ 64 - 1
  | f + 1, P =>
    if N ≥ 2 ^ 63 then 2 ^ 64 - 1
    else if P = 2 ^ 63 ∨ P > N then P
    else ctNextImpl N f (if P < 2 ^ 63 then P * 2 else 0)

/-- `compile_time::next_pow2<N>` (Power2.h:518-526). -/
def ctNext (N : Nat) : Nat := if N = 0 then 1 else ctNextImpl N 65 1

/-- `compile_time::countTrailingZeros_impl<Bits, N>` (Power2.h:716-728): halves until 0. -/
def ctTrailImpl : Nat → Nat → Nat → Nat
  | 0, bits, _ => bits
  | f + 1, bits, N => if N = 0 then (if bits > 0 then bits - 1 else 64) else ctTrailImpl f (bits + 1) (N / 2)

/-- `compile_time::countTrailingZeros<N>` (Power2.h:803-809). -/
def ctTrail (N : Nat) : Nat := ctTrailImpl 65 0 (if isPow2 N then N else ctRoundUp N)

/-- `compile_time::countLeadingZeros_impl<Bits, N>` (Power2.h:619-631): doubles (mod 2^64) until 0. -/
def ctLeadImpl : Nat → Nat → Nat → Nat
  | 0, bits, _ => bits
  | f + 1, bits, N => if N = 0 then (if bits > 0 then bits - 1 else 0) else ctLeadImpl f (bits + 1) (N * 2 % 2 ^ 64)

/-- `compile_time::countLeadingZeros<N>` (Power2.h:706-712). -/
def ctLead (N : Nat) : Nat := ctLeadImpl 66 0 (if isPow2 N then N else ctRoundDown N)

theorem pow2_lt_iff {a b : Nat} : 2 ^ a < 2 ^ b ↔ a < b := Nat.pow_lt_pow_iff_right (by decide)
theorem pow2_le_iff {a b : Nat} : 2 ^ a ≤ 2 ^ b ↔ a ≤ b := Nat.pow_le_pow_iff_right (by decide)

theorem least_of {n : Nat} (h : 2 ≤ n) : LeastPow2 (n ≤ ·) (2 ^ (Nat.log2 (n - 1) + 1)) := by
  have h0 : n - 1 ≠ 0 := by omega
  obtain ⟨_, h2⟩ := (Nat.log2_eq_iff h0).mp rfl
  refine ⟨⟨_, rfl⟩, by omega, ?_⟩
  rintro _ ⟨k, rfl⟩ hk
  rw [pow2_le_iff, Nat.add_one_le_iff, Nat.log2_lt h0]; omega

theorem next_of {n : Nat} (h0 : n ≠ 0) : LeastPow2 (n < ·) (2 ^ (Nat.log2 n + 1)) := by
  obtain ⟨_, h2⟩ := (Nat.log2_eq_iff h0).mp rfl
  refine ⟨⟨_, rfl⟩, h2, ?_⟩
  rintro _ ⟨k, rfl⟩ hk
  rw [pow2_le_iff, Nat.add_one_le_iff, Nat.log2_lt h0]; exact hk

theorem greatest_of {n : Nat} (h0 : n ≠ 0) : GreatestPow2 (· ≤ n) (2 ^ Nat.log2 n) := by
  obtain ⟨h1, _⟩ := (Nat.log2_eq_iff h0).mp rfl
  refine ⟨⟨_, rfl⟩, h1, ?_⟩
  rintro _ ⟨k, rfl⟩ hk
  rw [pow2_le_iff]; exact (Nat.le_log2 h0).mpr hk

theorem shl64_ok {s : Nat} (h : s < 64) : shl64 s = .ok (2 ^ s) := if_pos h

end P2
open P2

/-- C21. `is_pow2(n)` holds exactly for 0 and the powers of two. -/
theorem C21_is_pow2 (n : Nat) : isPow2 n = true ↔ n = 0 ∨ Pow2 n := by
  by_cases h : n = 0
  · subst h; simp [isPow2]
  · rw [isPow2_iff (by omega)]; simp [h, Pow2]

example : isPow2 1024 = true ∧ isPow2 1025 = false := by decide

/-- C21. `round_up(n)` is the least power of two at or above `n`, for every `n` up to `2^63`; beyond, the shift is undefined.
(`round_up(0) = 0`.) -/
theorem C21_round_up {n : Nat} (h1 : 1 ≤ n) (hn : n < 2 ^ 64) :
    (n ≤ 2 ^ 63 → ∃ r, roundUp64 n = .ok r ∧ LeastPow2 (n ≤ ·) r) ∧ (2 ^ 63 < n → roundUp64 n = .ub) := by
  by_cases h : n = 1
  · subst h
    refine ⟨fun _ => ⟨1, rfl, ⟨0, rfl⟩, Nat.le_refl _, fun m _ h => h⟩, fun h => by omega⟩
  · have h2 : n > 1 := by omega
    unfold roundUp64
    rw [if_pos h2]
    have h0 : n - 1 ≠ 0 := by omega
    constructor
    · intro hle
      have : Nat.log2 (n - 1) < 63 := (Nat.log2_lt h0).mpr (by omega)
      exact ⟨_, shl64_ok (by omega), least_of h2⟩
    · intro hgt
      have : 63 ≤ Nat.log2 (n - 1) := (Nat.le_log2 h0).mpr (by omega)
      unfold shl64
      rw [if_neg (by omega)]

example : roundUp64 1000 = .ok 1024 ∧ roundUp64 1024 = .ok 1024 ∧ roundUp64 (2 ^ 63 + 1) = .ub := by decide +kernel

/-- C21. The 32-bit version is exact up to `2^31` and saturates to `2^32 - 1`, which is not a power of two, beyond. -/
theorem C21_round_up32 {n : Nat} (h1 : 1 ≤ n) : (n ≤ 2 ^ 31 → LeastPow2 (n ≤ ·) (roundUp32 n)) ∧
    (2 ^ 31 < n → roundUp32 n = 2 ^ 32 - 1) := by
  unfold roundUp32
  constructor
  · intro h
    rw [if_pos h]
    split
    · exact least_of (by omega)
    · rw [show n = 1 by omega]; exact ⟨⟨0, rfl⟩, Nat.le_refl _, fun m _ h => h⟩
  · intro h; rw [if_neg (by omega)]

example : roundUp32 (2 ^ 31 - 5) = 2 ^ 31 := by decide +kernel

/-- C21. `round_down(n)` is the greatest power of two strictly below `n` (as documented, `round_down(8) = 4`), for `n ≥ 2`. -/
theorem C21_round_down {n : Nat} (h1 : 2 ≤ n) (hn : n < 2 ^ 64) : ∃ r, roundDown n = .ok r ∧ GreatestPow2 (· < n) r := by
  unfold roundDown
  rw [if_pos (by omega)]
  have h0 : n - 1 ≠ 0 := by omega
  have : Nat.log2 (n - 1) < 64 := (Nat.log2_lt h0).mpr (by omega)
  refine ⟨_, shl64_ok this, ?_⟩
  obtain ⟨a, b, c⟩ := greatest_of h0
  exact ⟨a, by omega, fun m hm hlt => c m hm (by omega)⟩

example : roundDown 8 = .ok 4 ∧ roundDown 9 = .ok 8 := by decide +kernel

/-- C21. `round_to(n)` is the greatest power of two at or below `n`. -/
theorem C21_round_to {n : Nat} (h1 : 1 ≤ n) (hn : n < 2 ^ 64) : ∃ r, roundTo n = .ok r ∧ GreatestPow2 (· ≤ n) r := by
  unfold roundTo
  rw [if_pos (by omega)]
  have : Nat.log2 n < 64 := (Nat.log2_lt (by omega)).mpr hn
  exact ⟨_, shl64_ok this, greatest_of (by omega)⟩

example : roundTo 7 = .ok 4 ∧ roundTo 8 = .ok 8 := by decide +kernel

/-- C21. `next_pow2(n)` is the least power of two above `n` for every `n < 2^63`, and undefined beyond. -/
theorem C21_next_pow2 {n : Nat} (hn : n < 2 ^ 64) :
    (n < 2 ^ 63 → ∃ r, nextPow2 n = .ok r ∧ LeastPow2 (n < ·) r) ∧ (2 ^ 63 ≤ n → nextPow2 n = .ub) := by
  unfold nextPow2
  by_cases h0 : n = 0
  · subst h0
    refine ⟨fun _ => ⟨1, rfl, ⟨0, rfl⟩, by decide, fun m _ h => h⟩, fun h => by simp at h⟩
  · rw [if_pos (by omega)]
    constructor
    · intro h
      have : Nat.log2 n < 63 := (Nat.log2_lt h0).mpr h
      exact ⟨_, shl64_ok (by omega), next_of h0⟩
    · intro h
      have : 63 ≤ Nat.log2 n := (Nat.le_log2 h0).mpr h
      unfold shl64
      rw [if_neg (by omega)]

example : nextPow2 7 = .ok 8 ∧ nextPow2 8 = .ok 16 ∧ nextPow2 (2 ^ 63) = .ub := by decide +kernel

/-- C21. `prev_pow2(n)` is half of the greatest power of two at or below `n` (as documented), for `n ≥ 2`. -/
theorem C21_prev_pow2 {n : Nat} (h1 : 2 ≤ n) (hn : n < 2 ^ 64) : ∃ r, prevPow2 n = .ok r ∧ GreatestPow2 (· ≤ n) (2 * r) := by
  unfold prevPow2
  rw [if_pos (by omega)]
  have hl : 1 ≤ Nat.log2 n := (Nat.le_log2 (by omega)).mpr (by omega)
  have : Nat.log2 n < 64 := (Nat.log2_lt (by omega)).mpr hn
  refine ⟨_, shl64_ok (by omega), ?_⟩
  rw [show 2 * 2 ^ (Nat.log2 n - 1) = 2 ^ Nat.log2 n by
    conv_rhs => rw [show Nat.log2 n = (Nat.log2 n - 1) + 1 by omega, Nat.pow_succ]
    omega]
  exact greatest_of (by omega)

example : prevPow2 7 = .ok 2 ∧ prevPow2 8 = .ok 4 := by decide +kernel

/-- C21. `log2_int(n)` is the rounded-up logarithm for every `n ≥ 1`. -/
theorem C21_log2_int {n : Nat} (h : 1 ≤ n) (k : Nat) : n ≤ 2 ^ k ↔ log2Int n ≤ k := by
  unfold log2Int
  split
  · rw [Nat.add_one_le_iff, Nat.log2_lt (by omega)]; omega
  · have := Nat.two_pow_pos k
    simp; omega

example : log2Int 1 = 0 ∧ log2Int 8 = 3 ∧ log2Int 9 = 4 := by decide

/-- C21. `calc_capacity(n)` of the group tables returns the least power of two that is at least `n`, the current size and the
minimum capacity 32. -/
theorem C21_calc_capacity {size n cap : Nat} (h : calcCapacity size n = .ok cap) :
    LeastPow2 (fun m => n ≤ m ∧ size ≤ m ∧ 32 ≤ m) cap := by
  obtain ⟨k, rfl, h1, h2, h3, h4⟩ := calcCapacity_ok h
  have h32 : 2 ^ 5 ≤ 2 ^ k := pow2_le_iff.mpr h1
  refine ⟨⟨k, rfl⟩, ⟨h2, h3, h32⟩, ?_⟩
  rintro _ ⟨j, rfl⟩ ⟨a, b, c⟩
  rcases h4 with h4 | h4
  · rw [h4]; exact c
  · by_contra hlt
    have hjk : j + 1 ≤ k := pow2_lt_iff.mp (by omega)
    have : 2 ^ (j + 1) ≤ 2 ^ k := pow2_le_iff.mpr hjk
    rw [Nat.pow_succ] at this
    omega

example : calcCapacity 3 33 = .ok 64 ∧ calcCapacity 100 33 = .ok 128 ∧ calcCapacity 0 0 = .ok 32 := by decide +kernel

/-- The undefined inputs of `calc_capacity`. -/
theorem C21_calc_capacity_total {size n : Nat} (hs : size ≤ 2 ^ 63) (hn : n ≤ 2 ^ 63) : ∃ cap, calcCapacity size n = .ok cap := by
  cases h : calcCapacity size n with
  | ok c => exact ⟨c, rfl⟩
  | ub => rcases calcCapacity_ub h with h | h <;> omega
  | diverge => exact absurd h calcCapacity_diverge

/-! #### compile-time versions -/

namespace P2

theorem ctRoundUpImpl_eq {N : Nat} (hN : N ≤ 2 ^ 63) (h2 : 2 ≤ N) : ∀ (f j : Nat), j + f = 65 → 2 ^ j < 2 * N → j ≤ 63 →
    ctRoundUpImpl N f (2 ^ j) = 2 ^ (Nat.log2 (N - 1) + 1) := by
  have h0 : N - 1 ≠ 0 := by omega
  have hL : Nat.log2 (N - 1) < 63 := (Nat.log2_lt h0).mpr (by omega)
  obtain ⟨h3, h4⟩ := (Nat.log2_eq_iff h0).mp rfl
  intro f
  induction f with
  | zero => intro j h1 _ h5; omega
  | succ f ih =>
    intro j h1 h5 h6
    unfold ctRoundUpImpl
    rw [if_neg (by omega)]
    have hiff : 2 ^ j ≥ N ↔ j ≥ Nat.log2 (N - 1) + 1 := by
      rw [ge_iff_le, ge_iff_le, Nat.add_one_le_iff, Nat.log2_lt h0]; omega
    by_cases hj : 2 ^ j ≥ N
    · rw [if_pos (Or.inr hj)]
      have h7 := hiff.mp hj
      have h8 : j < Nat.log2 (N - 1) + 2 := by
        apply pow2_lt_iff.mp
        rw [Nat.pow_succ (m := Nat.log2 (N - 1) + 1), Nat.pow_succ]
        rw [Nat.pow_succ] at h4
        omega
      congr 1; omega
    · have h7 : j < Nat.log2 (N - 1) + 1 := by
        by_contra hc; exact hj (hiff.mpr (by omega))
      have h8 : 2 ^ j < 2 ^ 63 := pow2_lt_iff.mpr (by omega)
      rw [if_neg (by omega), if_pos h8, ← Nat.pow_succ]
      exact ih (j + 1) (by omega) (by rw [Nat.pow_succ]; omega) (by omega)

theorem ctRoundToImpl_eq {N : Nat} (hN : N < 2 ^ 63) (h2 : 2 ≤ N) : ∀ (f j : Nat), j + f = 65 → 2 ^ j < 2 * N → j ≤ 63 →
    ctRoundToImpl N f (2 ^ j) = 2 ^ Nat.log2 (N - 1) := by
  have h0 : N - 1 ≠ 0 := by omega
  have hL : Nat.log2 (N - 1) < 63 := (Nat.log2_lt h0).mpr (by omega)
  obtain ⟨h3, h4⟩ := (Nat.log2_eq_iff h0).mp rfl
  intro f
  induction f with
  | zero => intro j h1 _ h5; omega
  | succ f ih =>
    intro j h1 h5 h6
    unfold ctRoundToImpl
    rw [if_neg (by omega)]
    have hiff : 2 ^ j ≥ N ↔ j ≥ Nat.log2 (N - 1) + 1 := by
      rw [ge_iff_le, ge_iff_le, Nat.add_one_le_iff, Nat.log2_lt h0]; omega
    by_cases hj : 2 ^ j ≥ N
    · rw [if_pos (Or.inr hj)]
      have h7 := hiff.mp hj
      have h8 : j < Nat.log2 (N - 1) + 2 := by
        apply pow2_lt_iff.mp
        rw [Nat.pow_succ (m := Nat.log2 (N - 1) + 1), Nat.pow_succ]
        rw [Nat.pow_succ] at h4
        omega
      rw [show j = Nat.log2 (N - 1) + 1 by omega, Nat.pow_succ, Nat.mul_div_cancel _ (by decide)]
    · have h7 : j < Nat.log2 (N - 1) + 1 := by
        by_contra hc; exact hj (hiff.mpr (by omega))
      have h8 : 2 ^ j < 2 ^ 63 := pow2_lt_iff.mpr (by omega)
      rw [if_neg (by omega), if_pos h8, ← Nat.pow_succ]
      exact ih (j + 1) (by omega) (by rw [Nat.pow_succ]; omega) (by omega)

theorem ctNextImpl_eq {N : Nat} (hN : N < 2 ^ 63) (h2 : 1 ≤ N) : ∀ (f j : Nat), j + f = 65 → 2 ^ j ≤ 2 * N → j ≤ 63 →
    ctNextImpl N f (2 ^ j) = 2 ^ (Nat.log2 N + 1) := by
  have h0 : N ≠ 0 := by omega
  have hL : Nat.log2 N < 63 := (Nat.log2_lt h0).mpr hN
  obtain ⟨h3, h4⟩ := (Nat.log2_eq_iff h0).mp rfl
  intro f
  induction f with
  | zero => intro j h1 _ h5; omega
  | succ f ih =>
    intro j h1 h5 h6
    unfold ctNextImpl
    rw [if_neg (by omega)]
    have hiff : 2 ^ j > N ↔ j ≥ Nat.log2 N + 1 := by
      rw [gt_iff_lt, ge_iff_le, Nat.add_one_le_iff, Nat.log2_lt h0]
    by_cases hj : 2 ^ j > N
    · rw [if_pos (Or.inr hj)]
      have h7 := hiff.mp hj
      have h8 : j < Nat.log2 N + 2 := by
        apply pow2_lt_iff.mp
        rw [Nat.pow_succ (m := Nat.log2 N + 1), Nat.pow_succ]
        rw [Nat.pow_succ] at h4
        omega
      congr 1; omega
    · have h7 : j < Nat.log2 N + 1 := by
        by_contra hc; exact hj (hiff.mpr (by omega))
      have h8 : 2 ^ j < 2 ^ 63 := pow2_lt_iff.mpr (by omega)
      rw [if_neg (by omega), if_pos h8, ← Nat.pow_succ]
      exact ih (j + 1) (by omega) (by rw [Nat.pow_succ]; omega) (by omega)

theorem log2_sub_one {N : Nat} (h2 : 2 ≤ N) (hp : ¬ Pow2 N) : Nat.log2 (N - 1) = Nat.log2 N := by
  obtain ⟨h3, h4⟩ := (Nat.log2_eq_iff (show N ≠ 0 by omega)).mp rfl
  rw [Nat.log2_eq_iff (by omega)]
  have : N ≠ 2 ^ Nat.log2 N := fun h => hp ⟨_, h⟩
  omega

theorem ctRoundTo_eq {N : Nat} (h1 : 1 ≤ N) (hN : N < 2 ^ 64) : ctRoundTo N = 2 ^ Nat.log2 N := by
  unfold ctRoundTo
  by_cases hp : isPow2 N = true
  · rw [if_pos hp]
    rcases (C21_is_pow2 N).mp hp with h | ⟨k, h⟩
    · omega
    · rw [h, Nat.log2_two_pow]
  · rw [if_neg hp]
    have hnp : ¬ Pow2 N := fun h => hp ((C21_is_pow2 N).mpr (Or.inr h))
    have h2 : 2 ≤ N := by
      by_contra hlt
      exact hnp ⟨0, by omega⟩
    by_cases hb : N < 2 ^ 63
    · have := ctRoundToImpl_eq hb h2 65 0 rfl (by omega) (by omega)
      rw [Nat.pow_zero] at this
      rw [this, log2_sub_one h2 hnp]
    · unfold ctRoundToImpl
      rw [if_pos (by omega)]
      congr 1
      symm
      rw [Nat.log2_eq_iff (by omega)]
      exact ⟨by omega, hN⟩

theorem ctRoundUp_eq {N : Nat} (h1 : 2 ≤ N) (hN : N ≤ 2 ^ 63) : ctRoundUp N = 2 ^ (Nat.log2 (N - 1) + 1) := by
  unfold ctRoundUp
  by_cases hp : isPow2 N = true
  · rw [if_pos hp]
    rcases (C21_is_pow2 N).mp hp with h | h
    · omega
    · obtain ⟨_, b, c⟩ := least_of h1
      exact Nat.le_antisymm b (c N h (Nat.le_refl N))
  · rw [if_neg hp]
    exact ctRoundUpImpl_eq hN h1 65 0 rfl (by omega) (by omega)

end P2

/-- C21. The compile-time roundings compute the same functions for every template argument in range. -/
theorem C21_compile_time {N : Nat} (hN : N < 2 ^ 64) :
    (1 ≤ N → GreatestPow2 (· ≤ N) (ctRoundTo N)) ∧
    (2 ≤ N → GreatestPow2 (· < N) (ctRoundDown N)) ∧
    (1 ≤ N → N ≤ 2 ^ 63 → LeastPow2 (N ≤ ·) (ctRoundUp N)) ∧
    (N < 2 ^ 63 → LeastPow2 (N < ·) (ctNext N)) := by
  refine ⟨fun h => ?_, fun h => ?_, fun h h' => ?_, fun h => ?_⟩
  · rw [ctRoundTo_eq h hN]; exact greatest_of (by omega)
  · unfold ctRoundDown
    rw [if_pos (by omega), ctRoundTo_eq (by omega) (by omega)]
    obtain ⟨a, b, c⟩ := greatest_of (show N - 1 ≠ 0 by omega)
    exact ⟨a, by omega, fun m hm hlt => c m hm (by omega)⟩
  · by_cases h1 : N = 1
    · subst h1; exact ⟨⟨0, by decide⟩, by decide, fun m _ h => by simpa [ctRoundUp, isPow2] using h⟩
    · rw [ctRoundUp_eq (by omega) h']; exact least_of (by omega)
  · unfold ctNext
    by_cases h0 : N = 0
    · subst h0
      exact ⟨⟨0, rfl⟩, by decide, fun m _ h => h⟩
    · have := ctNextImpl_eq h (by omega) 65 0 rfl (by omega) (by omega)
      rw [Nat.pow_zero] at this
      rw [if_neg h0, this]; exact next_of h0

example : ctRoundTo 1000 = 512 ∧ ctRoundDown 1024 = 512 ∧ ctRoundUp 1000 = 1024 ∧ ctNext 1024 = 2048 ∧ ctRoundTo (2 ^ 64 - 1) = 2 ^ 63 := by
  decide +kernel

namespace P2

theorem ctTrailImpl_eq : ∀ (f bits k : Nat), k + 1 < f → ctTrailImpl f bits (2 ^ k) = bits + k := by
  intro f
  induction f with
  | zero => intro _ _ h; omega
  | succ f ih =>
    intro bits k h
    have := Nat.two_pow_pos k
    unfold ctTrailImpl
    rw [if_neg (by omega)]
    cases k with
    | zero =>
      obtain ⟨f', rfl⟩ : ∃ f', f = f' + 1 := ⟨f - 1, by omega⟩
      simp [ctTrailImpl]
    | succ k =>
      rw [Nat.pow_succ, Nat.mul_div_cancel _ (by decide), ih _ _ (by omega)]; omega

theorem ctLeadImpl_eq : ∀ (f bits k : Nat), k ≤ 63 → 65 - k ≤ f → ctLeadImpl f bits (2 ^ k) = bits + 63 - k := by
  intro f
  induction f with
  | zero => intro _ _ _ h; omega
  | succ f ih =>
    intro bits k hk h
    have := Nat.two_pow_pos k
    unfold ctLeadImpl
    rw [if_neg (by omega), ← Nat.pow_succ]
    by_cases h63 : k = 63
    · subst h63
      obtain ⟨f', rfl⟩ : ∃ f', f = f' + 1 := ⟨f - 1, by omega⟩
      simp [ctLeadImpl]
    · have : 2 ^ (k + 1) < 2 ^ 64 := pow2_lt_iff.mpr (by omega)
      rw [Nat.mod_eq_of_lt this, ih _ _ (by omega) (by omega)]; omega

end P2

/-- C22. `compile_time::countLeadingZeros<N>` is exact for every non-zero argument. -/
theorem C22_compile_time_clz {N : Nat} (h1 : 1 ≤ N) (hN : N < 2 ^ 64) : ∃ p, IsHighest N p ∧ ctLead N + p = 63 := by
  refine ⟨_, isHighest_log2 (by omega), ?_⟩
  have hL : Nat.log2 N < 64 := (Nat.log2_lt (by omega)).mpr hN
  have key : (if isPow2 N then N else ctRoundDown N) = 2 ^ Nat.log2 N := by
    by_cases hp : isPow2 N = true
    · rw [if_pos hp]
      rcases (C21_is_pow2 N).mp hp with h | ⟨k, h⟩
      · omega
      · conv_lhs => rw [h]
        rw [h, Nat.log2_two_pow]
    · have hnp : ¬ Pow2 N := fun h => hp ((C21_is_pow2 N).mpr (Or.inr h))
      have h2 : 2 ≤ N := by
        by_contra hlt
        exact hnp ⟨0, by omega⟩
      rw [if_neg hp]
      unfold ctRoundDown
      rw [if_pos (by omega), ctRoundTo_eq (by omega) (by omega), log2_sub_one h2 hnp]
  unfold ctLead
  rw [key, ctLeadImpl_eq _ _ _ (by omega) (by omega)]; omega

example : ctLead 1000 = 54 ∧ ctLead 1024 = 53 := by decide +kernel

/-- C22, violated part. `compile_time::countTrailingZeros<N>` rounds `N` up to a power of two first; it is right for powers of
two and wrong for every other argument up to `2^63`. -/
theorem C22_compile_time_ctz_wrong {N p : Nat} (h1 : 1 ≤ N) (hN : N ≤ 2 ^ 63) (hp : IsLowest N p) : ctTrail N = p ↔ Pow2 N := by
  by_cases hi : isPow2 N = true
  · rcases (C21_is_pow2 N).mp hi with h | ⟨k, h⟩
    · omega
    · have hk : k ≤ 63 := by rw [h] at hN; exact pow2_le_iff.mp hN
      have hpk : p = k := hp.unique (by
        have := isLowest_low k 0
        rw [h]; simpa using this)
      refine ⟨fun _ => ⟨k, h⟩, fun _ => ?_⟩
      unfold ctTrail
      rw [if_pos hi, h, ctTrailImpl_eq _ _ _ (by omega)]; omega
  · have hnp : ¬ Pow2 N := fun h => hi ((C21_is_pow2 N).mpr (Or.inr h))
    refine ⟨fun h => ?_, fun h => absurd h hnp⟩
    exfalso
    have h2 : 2 ≤ N := by
      by_contra hlt
      exact hnp ⟨0, by omega⟩
    unfold ctTrail at h
    have hL : Nat.log2 (N - 1) < 63 := (Nat.log2_lt (by omega)).mpr (by omega)
    rw [if_neg hi, ctRoundUp_eq h2 hN, ctTrailImpl_eq _ _ _ (by omega), log2_sub_one h2 hnp] at h
    have := (isHighest_log2 (show N ≠ 0 by omega)).2 p hp.1
    omega

example : ctTrail 6 = 3 ∧ ctTrail 8 = 3 := by decide +kernel

end Verif
