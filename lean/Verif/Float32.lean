/-
Binary floating point of 32 bits: the values a `float` can have, rounding to nearest with ties to even, and the operations that
the load factor code of the maps uses (C124).  Values are rational numbers; +0 and -0 are one value (none of the code
below divides by a zero of either sign).  Arithmetic is done in 32 bits (FLT_EVAL_METHOD = 0, as with SSE code).
-/
import Mathlib.Data.Int.Log
import Mathlib.Data.Rat.Floor
import Mathlib.Tactic.Linarith
import Mathlib.Tactic.NormNum
import Mathlib.Tactic.Positivity
import Mathlib.Tactic.FieldSimp
import Mathlib.Tactic.Ring
import Verif.Basic

namespace Verif.F32

/-- A `float`. -/
inductive F where
  | nan
  | inf (neg : Bool)
  | fin (q : ℚ)
deriving DecidableEq

/-- The float with bit pattern `b` (binary32: 1 bit sign, 8 bits exponent, 23 bits fraction). -/
def ofBits (b : Nat) : F :=
  let s : ℚ := if b / 2 ^ 31 % 2 = 1 then -1 else 1
  let e : Nat := b / 2 ^ 23 % 256
  let f : Nat := b % 2 ^ 23
  if e = 255 then (if f = 0 then .inf (b / 2 ^ 31 % 2 == 1) else .nan)
  else if e = 0 then .fin (s * f * 2 ^ (-149 : ℤ))
  else .fin (s * ((2 ^ 23 + f : Nat) : ℚ) * 2 ^ ((e : ℤ) - 150))

/-- Round to an integer, ties to even. -/
def roundEven (r : ℚ) : ℤ :=
  if r - ⌊r⌋ < 1 / 2 then ⌊r⌋
  else if 1 / 2 < r - ⌊r⌋ then ⌊r⌋ + 1
  else if ⌊r⌋ % 2 = 0 then ⌊r⌋ else ⌊r⌋ + 1

/-- Exponent of the unit in the last place of a float near `q`. -/
def ulpExp (q : ℚ) : ℤ := max (Int.log 2 |q|) (-126) - 23

/-- `q` rounded to 24 binary digits (fewer when subnormal). -/
def roundQ (q : ℚ) : ℚ := roundEven (q / 2 ^ ulpExp q) * 2 ^ ulpExp q

/-- The float nearest to `q`. -/
def round (q : ℚ) : F := if |roundQ q| < 2 ^ 128 then .fin (roundQ q) else .inf (decide (q < 0))

/-- `a < b`; false when one of them is not a number. -/
def lt : F → F → Bool
  | .fin a, .fin b => decide (a < b)
  | .inf s, .inf s' => s && !s'
  | .inf s, .fin _ => s
  | .fin _, .inf s => !s
  | _, _ => false

/-- `a <= b`; false when one of them is not a number. -/
def le (a b : F) : Bool := lt a b || (a == b && a != .nan)

/-- `a * b`. -/
def mul : F → F → F
  | .fin a, .fin b => round (a * b)
  | .inf s, .fin b => if b = 0 then .nan else .inf (s != decide (b < 0))
  | .fin a, .inf s => if a = 0 then .nan else .inf (s != decide (a < 0))
  | .inf s, .inf s' => .inf (s != s')
  | _, _ => .nan

/-- `a / b`.  For `b = 0` the sign of the result is that of `+0`. -/
def div : F → F → F
  | .fin a, .fin b => if b = 0 then (if a = 0 then .nan else .inf (decide (a < 0))) else round (a / b)
  | .inf s, .fin b => .inf (s != decide (b < 0))
  | .fin _, .inf _ => .fin 0
  | _, _ => .nan

/-- `(float)n` for an unsigned integer. -/
def ofNat (n : Nat) : F := round n

/-- `std::ceil(float)`; the result of a finite number with a fraction is below 2^24 and needs no rounding. -/
def ceil : F → F
  | .fin q => .fin ⌈q⌉
  | x => x

/-- Conversion to an unsigned integer type with values below `n`: the fraction is dropped; undefined when the result does not fit. -/
def toUnsigned (n : Nat) : F → Res Nat
  | .fin q => if -1 < q ∧ q < n then .ok ⌊q⌋₊ else .ub
  | _ => .ub

/-! ### Rounding to an integer -/

theorem roundEven_int (z : ℤ) : roundEven z = z := by
  unfold roundEven
  simp

theorem roundEven_lb (r : ℚ) : ⌊r⌋ ≤ roundEven r := by
  unfold roundEven; split_ifs <;> omega

theorem roundEven_ub (r : ℚ) : roundEven r ≤ ⌊r⌋ + 1 := by
  unfold roundEven; split_ifs <;> omega

theorem roundEven_err (r : ℚ) : |(roundEven r : ℚ) - r| ≤ 1 / 2 := by
  have h1 := Int.floor_le r
  have h2 := Int.lt_floor_add_one r
  unfold roundEven
  rw [abs_le]
  split_ifs <;> push_cast <;> constructor <;> linarith

theorem roundEven_mono {r s : ℚ} (h : r ≤ s) : roundEven r ≤ roundEven s := by
  have hf := Int.floor_le_floor h
  rcases hf.lt_or_eq with hlt | heq
  · exact (roundEven_ub r).trans ((Int.add_one_le_of_lt hlt).trans (roundEven_lb s))
  · unfold roundEven
    rw [← heq]
    split_ifs <;> first | omega | (exfalso; linarith)

/-! ### Rounding to a float -/

theorem two_zpow_pos (e : ℤ) : (0 : ℚ) < 2 ^ e := zpow_pos (by norm_num) e

/-- A number with at most 24 binary digits, not smaller than the subnormal numbers. -/
def Rep (q : ℚ) : Prop := ∃ m k : ℤ, q = m * 2 ^ k ∧ |m| ≤ 2 ^ 24 ∧ -149 ≤ k

theorem log_spec {q : ℚ} (h : 0 < q) : (2 : ℚ) ^ Int.log 2 q ≤ q ∧ q < 2 ^ (Int.log 2 q + 1) := by
  have h1 := Int.zpow_log_le_self (b := 2) (by norm_num) h
  have h2 := Int.lt_zpow_succ_log_self (b := 2) (by norm_num) q
  push_cast at h1 h2
  exact ⟨h1, h2⟩

theorem zpow_lt_iff {a b : ℤ} : (2 : ℚ) ^ a < 2 ^ b ↔ a < b := zpow_lt_zpow_iff_right₀ (by norm_num)

theorem zpow_le_iff {a b : ℤ} : (2 : ℚ) ^ a ≤ 2 ^ b ↔ a ≤ b := zpow_le_zpow_iff_right₀ (by norm_num)

/-- Rounding with a given exponent. -/
def roundAt (e : ℤ) (q : ℚ) : ℚ := roundEven (q / 2 ^ e) * 2 ^ e

theorem roundAt_mono (e : ℤ) {p q : ℚ} (h : p ≤ q) : roundAt e p ≤ roundAt e q := by
  unfold roundAt
  have := two_zpow_pos e
  apply mul_le_mul_of_nonneg_right _ this.le
  exact_mod_cast roundEven_mono (div_le_div_of_nonneg_right h this.le)

theorem roundAt_fix {e k : ℤ} (h : e ≤ k) (m : ℤ) : roundAt e (m * 2 ^ k) = m * 2 ^ k := by
  unfold roundAt
  have h1 : (m : ℚ) * 2 ^ k / 2 ^ e = ((m * 2 ^ (k - e).toNat : ℤ) : ℚ) := by
    push_cast
    rw [← zpow_natCast, Int.toNat_of_nonneg (by omega), zpow_sub₀ (by norm_num)]
    ring
  rw [h1, roundEven_int]
  push_cast
  rw [← zpow_natCast, Int.toNat_of_nonneg (by omega), zpow_sub₀ (by norm_num)]
  have := (two_zpow_pos e).ne'
  field_simp

theorem roundAt_err (e : ℤ) (q : ℚ) : |roundAt e q - q| ≤ 2 ^ e / 2 := by
  unfold roundAt
  have h := two_zpow_pos e
  have h1 := roundEven_err (q / 2 ^ e)
  have h2 : (roundEven (q / 2 ^ e) : ℚ) * 2 ^ e - q = (roundEven (q / 2 ^ e) - q / 2 ^ e) * 2 ^ e := by field_simp
  rw [h2, abs_mul, abs_of_pos h]
  nlinarith

theorem roundQ_pos_eq {q : ℚ} (h : 0 < q) : roundQ q = roundAt (max (Int.log 2 q) (-126) - 23) q := by
  unfold roundQ ulpExp roundAt
  rw [abs_of_pos h]

/-- Rounding of numbers in `[2^e, 2^(e+1))`. -/
theorem roundQ_at {q : ℚ} {e : ℤ} (he : -126 ≤ e) (h1 : 2 ^ e ≤ q) (h2 : q < 2 ^ (e + 1)) : roundQ q = roundAt (e - 23) q := by
  have hq : 0 < q := (two_zpow_pos e).trans_le h1
  obtain ⟨h3, h4⟩ := log_spec hq
  have h5 : Int.log 2 q = e := by
    have := zpow_lt_iff.mp (h3.trans_lt h2)
    have := zpow_lt_iff.mp (h1.trans_lt h4)
    omega
  rw [roundQ_pos_eq hq, h5, max_eq_left he]

theorem roundQ_zero : roundQ 0 = 0 := by
  unfold roundQ
  rw [zero_div]
  have : roundEven 0 = 0 := roundEven_int 0
  rw [this]; simp

/-- Numbers with at most 24 binary digits are not changed. -/
theorem roundQ_rep {q : ℚ} (hr : Rep q) (h : 0 ≤ q) : roundQ q = q := by
  rcases h.lt_or_eq with hq | rfl
  · obtain ⟨m, k, rfl, hm, hk⟩ := hr
    rw [roundQ_pos_eq hq]
    by_cases hm24 : m = 2 ^ 24
    · subst hm24
      have e1 : (((2 : ℤ) ^ 24 : ℤ) : ℚ) * 2 ^ k = 2 ^ (k + 24) := by
        rw [zpow_add₀ (by norm_num)]; norm_num; ring
      have e2 : Int.log 2 ((2 : ℚ) ^ (k + 24)) = k + 24 := by
        have := Int.log_zpow (R := ℚ) (b := 2) (by norm_num) (k + 24)
        push_cast at this; exact this
      rw [e1, e2]
      have : ((1 : ℤ) : ℚ) * 2 ^ (k + 24) = 2 ^ (k + 24) := by norm_num
      rw [← this]
      exact roundAt_fix (by omega) 1
    · apply roundAt_fix
      obtain ⟨h3, h4⟩ := log_spec hq
      have h5 : (m : ℚ) * 2 ^ k < 2 ^ (k + 24) := by
        rw [zpow_add₀ (by norm_num), mul_comm]
        apply mul_lt_mul_of_pos_left _ (two_zpow_pos k)
        have : m < 2 ^ 24 := lt_of_le_of_ne (le_of_abs_le hm) hm24
        exact_mod_cast this
      have := zpow_lt_iff.mp (h3.trans_lt h5)
      omega
  · exact roundQ_zero

theorem roundQ_nonneg {q : ℚ} (h : 0 ≤ q) : 0 ≤ roundQ q := by
  unfold roundQ
  apply mul_nonneg _ (two_zpow_pos _).le
  have h1 : roundEven ((0 : ℤ) : ℚ) ≤ roundEven (q / 2 ^ ulpExp q) := roundEven_mono (by push_cast; exact div_nonneg h (two_zpow_pos _).le)
  rw [roundEven_int] at h1
  exact_mod_cast h1

/-- Rounding keeps the order. -/
theorem roundQ_mono {p q : ℚ} (hp : 0 ≤ p) (h : p ≤ q) : roundQ p ≤ roundQ q := by
  rcases hp.lt_or_eq with hp0 | rfl
  · have hq0 := hp0.trans_le h
    obtain ⟨a1, a2⟩ := log_spec hp0
    obtain ⟨b1, b2⟩ := log_spec hq0
    have hle : Int.log 2 p ≤ Int.log 2 q := by
      have := zpow_lt_iff.mp (a1.trans_lt (h.trans_lt b2)); omega
    rw [roundQ_pos_eq hp0, roundQ_pos_eq hq0]
    by_cases heq : max (Int.log 2 p) (-126) = max (Int.log 2 q) (-126)
    · rw [heq]; exact roundAt_mono _ h
    · have hlt : max (Int.log 2 p) (-126) < max (Int.log 2 q) (-126) := lt_of_le_of_ne (max_le_max_right _ hle) heq
      have hq1 : max (Int.log 2 q) (-126) = Int.log 2 q := by omega
      rw [hq1] at hlt ⊢
      have one : ∀ k : ℤ, ((1 : ℤ) : ℚ) * 2 ^ k = 2 ^ k := fun k => by norm_num
      have h1 : roundAt (max (Int.log 2 p) (-126) - 23) p ≤ 2 ^ (max (Int.log 2 p) (-126) + 1) := by
        have := roundAt_mono (max (Int.log 2 p) (-126) - 23) (p := p) (q := ((1 : ℤ) : ℚ) * 2 ^ (max (Int.log 2 p) (-126) + 1))
          (by rw [one]; exact a2.le.trans (zpow_le_iff.mpr (by omega)))
        rwa [roundAt_fix (by omega), one] at this
      have h2 : (2 : ℚ) ^ Int.log 2 q ≤ roundAt (Int.log 2 q - 23) q := by
        have := roundAt_mono (Int.log 2 q - 23) (p := ((1 : ℤ) : ℚ) * 2 ^ (Int.log 2 q)) (q := q) (by rw [one]; exact b1)
        rwa [roundAt_fix (by omega), one] at this
      exact h1.trans ((zpow_le_iff.mpr (by omega)).trans h2)
  · rw [roundQ_zero]; exact roundQ_nonneg h

theorem roundQ_le_rep {q z : ℚ} (hq : 0 ≤ q) (hz : Rep z) (h : q ≤ z) : roundQ q ≤ z := by
  have := roundQ_mono hq h
  rwa [roundQ_rep hz (hq.trans h)] at this

theorem rep_le_roundQ {q z : ℚ} (h0 : 0 ≤ z) (hz : Rep z) (h : z ≤ q) : z ≤ roundQ q := by
  have := roundQ_mono h0 h
  rwa [roundQ_rep hz h0] at this

/-- The relative error of a number that is not subnormal. -/
theorem roundQ_err {q : ℚ} (h : 2 ^ (-126 : ℤ) ≤ q) : |roundQ q - q| ≤ q * 2 ^ (-24 : ℤ) := by
  have hq : 0 < q := (two_zpow_pos _).trans_le h
  obtain ⟨h1, h2⟩ := log_spec hq
  have h3 : -126 ≤ Int.log 2 q := by
    have := zpow_lt_iff.mp (h.trans_lt h2); omega
  rw [roundQ_at h3 h1 h2]
  refine (roundAt_err _ _).trans ?_
  have : (2 : ℚ) ^ (Int.log 2 q - 23) / 2 = 2 ^ Int.log 2 q * 2 ^ (-24 : ℤ) := by
    rw [zpow_sub₀ (by norm_num)]; norm_num; ring
  rw [this]
  exact mul_le_mul_of_nonneg_right h1 (two_zpow_pos _).le

theorem Rep.mul_two {q : ℚ} (h : Rep q) (j : ℕ) : Rep (q * 2 ^ j) := by
  obtain ⟨m, k, rfl, hm, hk⟩ := h
  refine ⟨m, k + j, ?_, hm, by omega⟩
  rw [zpow_add₀ (by norm_num), zpow_natCast]; ring

theorem Rep.of_nat {n : Nat} (h : n ≤ 2 ^ 24) : Rep n :=
  ⟨n, 0, by simp, by rw [abs_of_nonneg (by positivity)]; exact_mod_cast h, by norm_num⟩

theorem Rep.of_scaled {n : Nat} (h : n ≤ 2 ^ 24) (k : ℤ) (hk : -149 ≤ k) : Rep (n * 2 ^ k) :=
  ⟨n, k, by simp, by rw [abs_of_nonneg (by positivity)]; exact_mod_cast h, hk⟩

theorem round_eq {q : ℚ} (h0 : 0 ≤ q) (h : q ≤ 2 ^ 127) : round q = .fin (roundQ q) := by
  have h1 : roundQ q ≤ 2 ^ 127 := by
    refine roundQ_le_rep h0 ?_ h
    refine ⟨1, 127, by norm_num, by norm_num, by norm_num⟩
  unfold round
  rw [if_pos]
  rw [abs_of_nonneg (roundQ_nonneg h0)]
  exact h1.trans_lt (by norm_num)

theorem ofBits_rep {b : Nat} {q : ℚ} (h : ofBits b = .fin q) : Rep q := by
  unfold ofBits at h
  simp only at h
  have hp : ∀ n : Nat, n < 2 ^ 24 → ∀ k : ℤ, -149 ≤ k → Rep (1 * n * 2 ^ k) := fun n hn k hk =>
    ⟨n, k, by push_cast; ring, by rw [abs_of_nonneg (by positivity)]; exact_mod_cast hn.le, hk⟩
  have hm : ∀ n : Nat, n < 2 ^ 24 → ∀ k : ℤ, -149 ≤ k → Rep (-1 * n * 2 ^ k) := fun n hn k hk =>
    ⟨-n, k, by push_cast; ring, by rw [abs_neg, abs_of_nonneg (by positivity)]; exact_mod_cast hn.le, hk⟩
  split_ifs at h with h1 h2 h3 h4 <;> cases h
  · exact hm _ (by omega) _ (by omega)
  · exact hp _ (by omega) _ (by omega)
  · exact hm _ (by omega) _ (by omega)
  · exact hp _ (by omega) _ (by omega)

end Verif.F32
