/-
The load factors as the caller sees them: `load_factor()`, `max_load_factor()` and `max_load_factor(float)` of the five maps (C124).

T15 = src/jstd/hashmap/group15_flat_table.hpp, T16 = src/jstd/hashmap/group16_flat_table.hpp, RB = src/jstd/hashmap/robin_hash_map.h,
FL = src/jstd/hashmap/flat16_hash_map.h, R16 = src/jstd/hashmap/robin16_hash_map.h.
-/
import Verif.Float32

namespace Verif.F32

/-! ### The model -/

/-- The two comparisons at the start of `max_load_factor(float)` (T15:622-625, T16:581-584, RB:3317-3320, FL:1129-1132, R16:1506-1509). -/
def clamp (lo hi x : F) : F :=
  let y := if lt x lo then lo else x
  if lt hi y then hi else y

/-- What `max_load_factor(float)` of the group maps stores in `mlf_` (T15:229-233, 620-627, T16:226-230, 579-586). -/
def groupArg (x : F) : Res Nat := toUnsigned W (mul (ofNat 256) (clamp (round 0.5) (round 0.875) x))

/-- What `max_load_factor(float)` of the other maps stores in `n_mlf_` and `n_mlf_rev_`, with the amplification `A` and the bounds
`lo`, `hi` of the map (RB:3316-3326, FL:1128-1138, R16:1505-1515). -/
def ceilArg (A : Nat) (lo hi x : F) : Res (Nat × Nat) :=
  (toUnsigned (2 ^ 32) (ceil (mul (clamp lo hi x) (ofNat A)))).bind fun m =>
    (toUnsigned (2 ^ 32) (ceil (mul (div (round 1) (clamp lo hi x)) (ofNat A)))).bind fun r => .ok (m, r)

/-- robin (RB:279-286): 0.3f, 0.6f, 256. -/
def robinArg : F → Res (Nat × Nat) := ceilArg 256 (round 0.3) (round 0.6)

/-- flat16 and robin16 (FL:134-140, R16:152-159): 0.2f, 0.8f, 65536. -/
def flatArg : F → Res (Nat × Nat) := ceilArg 65536 (round 0.2) (round 0.8)

/-- `max_load_factor()` (T15:616-618, T16:575-577, RB:3345-3347, FL:1163-1165, R16:1534-1536) when `m` is stored. -/
def maxLoad (A m : Nat) : F := div (ofNat m) (ofNat A)

/-- `load_factor()` of the group maps (T15:608-614, T16:568-573) with `n` elements and `capacity()` `c`. -/
def groupLoad (n c : Nat) : F := if c ≠ 0 then div (ofNat n) (ofNat c) else .fin 0

/-- `load_factor()` of robin, flat16 and robin16 (RB:3312-3314, FL:1124-1126, R16:1501-1503). -/
def plainLoad (n c : Nat) : F := div (ofNat n) (ofNat c)

/-! ### Constants -/

theorem roundEven_near {r : ℚ} {z : ℤ} (h1 : (z : ℚ) - 1 / 2 < r) (h2 : r < z + 1 / 2) : roundEven r = z := by
  have h := abs_le.mp (roundEven_err r)
  have h3 : (roundEven r : ℚ) < z + 1 := by linarith [h.2]
  have h4 : (z : ℚ) - 1 < roundEven r := by linarith [h.1]
  have h5 : roundEven r < z + 1 := by exact_mod_cast h3
  have h6 : z - 1 < roundEven r := by exact_mod_cast h4
  omega

/-- Rounding of `q` in `[2^e, 2^(e+1))` to the multiple `z` of `2^(e-23)`. -/
theorem roundQ_near {q : ℚ} {e z : ℤ} (he : -126 ≤ e) (h1 : 2 ^ e ≤ q) (h2 : q < 2 ^ (e + 1))
    (h3 : ((z : ℚ) - 1 / 2) * 2 ^ (e - 23) < q) (h4 : q < ((z : ℚ) + 1 / 2) * 2 ^ (e - 23)) : roundQ q = z * 2 ^ (e - 23) := by
  rw [roundQ_at he h1 h2, roundAt, roundEven_near]
  · rw [lt_div_iff₀ (two_zpow_pos _)]; exact h3
  · rw [div_lt_iff₀ (two_zpow_pos _)]; exact h4

theorem c05 : round 0.5 = .fin (1 / 2) := by
  rw [round_eq (by norm_num) (by norm_num), roundQ_rep ⟨1, -1, by norm_num, by norm_num, by norm_num⟩ (by norm_num)]; norm_num

theorem c0875 : round 0.875 = .fin (7 / 8) := by
  rw [round_eq (by norm_num) (by norm_num), roundQ_rep ⟨7, -3, by norm_num, by norm_num, by norm_num⟩ (by norm_num)]; norm_num

theorem c1 : round 1 = .fin 1 := by
  rw [round_eq (by norm_num) (by norm_num), roundQ_rep ⟨1, 0, by norm_num, by norm_num, by norm_num⟩ (by norm_num)]

theorem c03 : round 0.3 = .fin (10066330 / 2 ^ 25) := by
  rw [round_eq (by norm_num) (by norm_num), roundQ_near (e := -2) (z := 10066330)] <;> norm_num

theorem c06 : round 0.6 = .fin (10066330 / 2 ^ 24) := by
  rw [round_eq (by norm_num) (by norm_num), roundQ_near (e := -1) (z := 10066330)] <;> norm_num

theorem c02 : round 0.2 = .fin (13421773 / 2 ^ 26) := by
  rw [round_eq (by norm_num) (by norm_num), roundQ_near (e := -3) (z := 13421773)] <;> norm_num

theorem c08 : round 0.8 = .fin (13421773 / 2 ^ 24) := by
  rw [round_eq (by norm_num) (by norm_num), roundQ_near (e := -1) (z := 13421773)] <;> norm_num

theorem ofNat_eq {n : Nat} (h : n ≤ 2 ^ 24) : ofNat n = .fin n := by
  unfold ofNat
  rw [round_eq (by positivity), roundQ_rep (Rep.of_nat h) (by positivity)]
  exact (show (n : ℚ) ≤ 2 ^ 24 by exact_mod_cast h).trans (by norm_num)

/-! ### Clamping -/

/-- `y` is the number in `[lo, hi]` nearest to `x`. -/
def Nearest (lo hi : ℚ) : F → ℚ → Prop
  | .nan, _ => False
  | .inf s, y => y = if s then lo else hi
  | .fin q, y => y = max lo (min q hi)

theorem clamp_spec {lo hi : ℚ} (h : lo ≤ hi) {x : F} (hx : x ≠ .nan) : ∃ y, Nearest lo hi x y ∧ clamp (.fin lo) (.fin hi) x = .fin y ∧
    lo ≤ y ∧ y ≤ hi ∧ (y = lo ∨ y = hi ∨ x = .fin y) := by
  cases x with
  | nan => exact absurd rfl hx
  | inf s =>
    cases s with
    | true => exact ⟨lo, rfl, by simp [clamp, lt, not_lt.mpr h], le_refl _, h, Or.inl rfl⟩
    | false => exact ⟨hi, rfl, by simp [clamp, lt], h, le_refl _, Or.inr (Or.inl rfl)⟩
  | fin q =>
    refine ⟨max lo (min q hi), rfl, ?_, le_max_left _ _, max_le h (min_le_right _ _), ?_⟩
    · unfold clamp lt
      simp only [decide_eq_true_eq]
      by_cases h1 : q < lo
      · simp only [h1, if_true, decide_eq_true_eq, not_lt.mpr h, if_false]
        rw [max_eq_left ((min_le_left _ _).trans h1.le)]
      · simp only [h1, if_false, decide_eq_true_eq]
        by_cases h2 : hi < q
        · simp only [h2, if_true]; rw [min_eq_right h2.le, max_eq_right h]
        · simp only [h2, if_false]; rw [min_eq_left (not_lt.mp h2), max_eq_right (not_lt.mp h1)]
    · rcases le_total lo (min q hi) with h1 | h1
      · rw [max_eq_right h1]
        rcases le_total q hi with h2 | h2
        · rw [min_eq_left h2]; exact Or.inr (Or.inr rfl)
        · rw [min_eq_right h2]; exact Or.inr (Or.inl rfl)
      · rw [max_eq_left h1]; exact Or.inl rfl

theorem clamp_nan (lo hi : F) : clamp lo hi .nan = .nan := by
  cases lo <;> cases hi <;> rfl

theorem rep_clamped {lo hi : ℚ} (hl : Rep lo) (hh : Rep hi) {b : Nat} {y : ℚ} (h : y = lo ∨ y = hi ∨ ofBits b = .fin y) : Rep y := by
  rcases h with rfl | rfl | h
  · exact hl
  · exact hh
  · exact ofBits_rep h

/-- Multiplication by a power of two is exact. -/
theorem round_scaled {y : ℚ} (hy : Rep y) (h0 : 0 ≤ y) (h1 : y ≤ 8) {A j : Nat} (hA : A = 2 ^ j) (hj : j ≤ 24) :
    round (y * (A : ℚ)) = .fin (y * A) := by
  subst hA
  have h2 : (2 : ℚ) ^ j ≤ 2 ^ 24 := pow_le_pow_right₀ (by norm_num) hj
  have h3 : roundQ (y * (2 ^ j : Nat)) = y * (2 ^ j : Nat) := by
    push_cast
    exact roundQ_rep (hy.mul_two j) (by positivity)
  rw [round_eq (by positivity), h3]
  push_cast
  have : y * 2 ^ j ≤ 8 * 2 ^ 24 := mul_le_mul h1 h2 (by positivity) (by norm_num)
  exact this.trans (by norm_num)

/-- The result of rounding has at most 24 binary digits. -/
theorem rep_roundQ {q : ℚ} (h : 0 ≤ q) : Rep (roundQ q) := by
  rcases h.lt_or_eq with hq | rfl
  · obtain ⟨h1, h2⟩ := log_spec hq
    rw [roundQ_pos_eq hq]
    have hp := two_zpow_pos (max (Int.log 2 q) (-126) - 23)
    refine ⟨roundEven (q / 2 ^ (max (Int.log 2 q) (-126) - 23)), max (Int.log 2 q) (-126) - 23, rfl, ?_, by omega⟩
    have h3 : roundEven ((0 : ℤ) : ℚ) ≤ roundEven (q / 2 ^ (max (Int.log 2 q) (-126) - 23)) :=
      roundEven_mono (by push_cast; exact div_nonneg h hp.le)
    have h4 : roundEven (q / 2 ^ (max (Int.log 2 q) (-126) - 23)) ≤ roundEven ((2 ^ 24 : ℤ) : ℚ) := by
      apply roundEven_mono
      rw [div_le_iff₀ hp]
      refine h2.le.trans ?_
      have : ((2 ^ 24 : ℤ) : ℚ) * 2 ^ (max (Int.log 2 q) (-126) - 23) = 2 ^ (max (Int.log 2 q) (-126) + 1) := by
        rw [show max (Int.log 2 q) (-126) + 1 = 24 + (max (Int.log 2 q) (-126) - 23) by ring, zpow_add₀ (by norm_num)]
        norm_num
      rw [this]
      exact zpow_le_iff.mpr (by omega)
    rw [roundEven_int] at h3 h4
    rw [abs_of_nonneg h3]; exact h4
  · rw [roundQ_zero]; exact ⟨0, 0, by norm_num, by norm_num, by norm_num⟩

/-! ### The getter -/

/-- `max_load_factor()` returns the stored fraction exactly. -/
theorem maxLoad_eq {A j m : Nat} (hA : A = 2 ^ j) (hj : j ≤ 24) (hm : m ≤ 2 ^ 24) : maxLoad A m = .fin ((m : ℚ) / A) := by
  subst hA
  unfold maxLoad
  have h1 : (2 : Nat) ^ j ≤ 2 ^ 24 := Nat.pow_le_pow_right (by omega) hj
  rw [ofNat_eq hm, ofNat_eq h1]
  have h2 : ((2 ^ j : Nat) : ℚ) ≠ 0 := by positivity
  simp only [div, h2, if_false]
  have h3 : (m : ℚ) / (2 ^ j : Nat) = m * 2 ^ (-(j : ℤ)) := by
    rw [zpow_neg, zpow_natCast]; push_cast; rfl
  have h0 : 0 ≤ (m : ℚ) / (2 ^ j : Nat) := by positivity
  have hr : Rep ((m : ℚ) / (2 ^ j : Nat)) := by rw [h3]; exact Rep.of_scaled hm _ (by omega)
  rw [round_eq h0, roundQ_rep hr h0]
  rw [div_le_iff₀ (by positivity)]
  have h4 : (m : ℚ) ≤ 2 ^ 24 := by exact_mod_cast hm
  have h5 : (1 : ℚ) ≤ (2 ^ j : Nat) := by exact_mod_cast Nat.one_le_two_pow
  nlinarith

/-! ### The setters -/

/-- C124, group15 and group16: `max_load_factor(x)` for any `x` that is a number takes the nearest number in [0.5, 0.875] and rounds it
down to a multiple of 1/256; that is what `max_load_factor()` returns from then on. -/
theorem C124_group_set {b : Nat} (hb : ofBits b ≠ .nan) : ∃ m y, groupArg (ofBits b) = .ok m ∧ 128 ≤ m ∧ m ≤ 224 ∧
    Nearest (1 / 2) (7 / 8) (ofBits b) y ∧ maxLoad 256 m = .fin (m / 256) ∧ (m : ℚ) / 256 ≤ y ∧ y < m / 256 + 1 / 256 := by
  obtain ⟨y, h1, h2, h3, h4, h5⟩ := clamp_spec (lo := 1 / 2) (hi := 7 / 8) (by norm_num) hb
  have hr : Rep y := rep_clamped ⟨1, -1, by norm_num, by norm_num, by norm_num⟩ ⟨7, -3, by norm_num, by norm_num, by norm_num⟩ h5
  have h6 := round_scaled hr (by linarith) (by linarith) (A := 256) (j := 8) (by norm_num) (by omega)
  have h7 : groupArg (ofBits b) = .ok ⌊y * (256 : Nat)⌋₊ := by
    unfold groupArg
    rw [c05, c0875, h2, ofNat_eq (by norm_num), show mul (.fin (256 : Nat)) (.fin y) = round ((256 : Nat) * y) from rfl, mul_comm, h6]
    unfold toUnsigned W
    simp only
    rw [if_pos]
    push_cast
    constructor <;> linarith
  have h8 := Nat.floor_le (show 0 ≤ y * (256 : Nat) by push_cast; linarith)
  have h9 := Nat.lt_floor_add_one (y * (256 : Nat))
  generalize ⌊y * (256 : Nat)⌋₊ = m at h7 h8 h9
  push_cast at h8 h9
  have h10 : 128 ≤ m := by
    have : (127 : ℚ) < m := by linarith
    have : 127 < m := by exact_mod_cast this
    omega
  have h11 : m ≤ 224 := by
    have : (m : ℚ) ≤ 224 := by linarith
    exact_mod_cast this
  exact ⟨m, y, h7, h10, h11, h1, maxLoad_eq (j := 8) (by norm_num) (by omega) (by omega), by linarith, by linarith⟩

/-- The common part of the other setters. -/
theorem ceilArg_spec {A j : Nat} (hA : A = 2 ^ j) (hj : j ≤ 16) {lo hi : ℚ} (hlo : 1 / 8 < lo) (hlh : lo ≤ hi) (hhi : hi ≤ 1) (rl : Rep lo) (rh : Rep hi)
    {b : Nat} (hb : ofBits b ≠ .nan) : ∃ m r y, ceilArg A (.fin lo) (.fin hi) (ofBits b) = .ok (m, r) ∧ Nearest lo hi (ofBits b) y ∧ Rep y ∧
      lo ≤ y ∧ y ≤ hi ∧ m = ⌈y * A⌉₊ ∧ r = ⌈roundQ (1 / y) * A⌉₊ := by
  obtain ⟨y, h1, h2, h3, h4, h5⟩ := clamp_spec hlh hb
  have hr : Rep y := rep_clamped rl rh h5
  have hy : 0 < y := by linarith
  have hA1 : (1 : ℚ) ≤ A := by subst hA; exact_mod_cast Nat.one_le_two_pow
  have hA2 : (A : ℚ) ≤ 2 ^ 16 := by subst hA; exact_mod_cast Nat.pow_le_pow_right (by omega) hj
  have hA3 : A ≤ 2 ^ 24 := by
    have : A ≤ 2 ^ 16 := by exact_mod_cast hA2
    omega
  have e1 := round_scaled hr hy.le (by linarith) hA (by omega)
  have i0 : 0 ≤ 1 / y := by positivity
  have i1 : 1 / y ≤ 8 := by rw [div_le_iff₀ hy]; linarith
  have i2 : roundQ (1 / y) ≤ 8 := roundQ_le_rep i0 (by simpa using Rep.of_nat (n := 8) (by norm_num)) i1
  have e2 := round_scaled (rep_roundQ i0) (roundQ_nonneg i0) i2 hA (by omega)
  have conv : ∀ z : ℚ, 0 ≤ z → z ≤ 2 ^ 20 → toUnsigned (2 ^ 32) (ceil (.fin z)) = .ok ⌈z⌉₊ := by
    intro z hz hz2
    have k1 : (0 : ℤ) ≤ ⌈z⌉ := Int.ceil_nonneg hz
    have k2 : ⌈z⌉ ≤ 2 ^ 20 := Int.ceil_le.mpr (by push_cast; exact hz2)
    unfold ceil toUnsigned
    simp only
    rw [if_pos]
    · rw [← Int.floor_toNat, Int.floor_intCast, Int.ceil_toNat]
    · constructor
      · exact_mod_cast (show (-1 : ℤ) < ⌈z⌉ by omega)
      · exact_mod_cast (show ⌈z⌉ < 2 ^ 32 by omega)
  refine ⟨_, _, y, ?_, h1, hr, h3, h4, rfl, rfl⟩
  unfold ceilArg
  rw [h2, ofNat_eq hA3, c1]
  have d : div (.fin 1) (.fin y) = .fin (roundQ (1 / y)) := by
    simp only [div, hy.ne', if_false]
    exact round_eq i0 (i1.trans (by norm_num))
  rw [d]
  simp only [mul]
  rw [e1, e2, conv _ (by positivity) (by nlinarith), conv _ (mul_nonneg (roundQ_nonneg i0) (by positivity)) (by nlinarith [roundQ_nonneg i0])]
  rfl

theorem recip_bounds {lo hi y : ℚ} (hlo : 0 < lo) (h1 : lo ≤ y) (h2 : y ≤ hi) : roundQ (1 / hi) ≤ roundQ (1 / y) ∧ roundQ (1 / y) ≤ roundQ (1 / lo) := by
  have hy := hlo.trans_le h1
  have hh := hy.trans_le h2
  exact ⟨roundQ_mono (by positivity) (one_div_le_one_div_of_le hy h2), roundQ_mono (by positivity) (one_div_le_one_div_of_le hlo h1)⟩

theorem ceil_bounds {z : ℚ} (h : 0 ≤ z) : z ≤ ⌈z⌉₊ ∧ (⌈z⌉₊ : ℚ) < z + 1 := ⟨Nat.le_ceil z, Nat.ceil_lt_add_one h⟩

theorem rep_c03 : Rep (10066330 / 2 ^ 25) := ⟨10066330, -25, by norm_num, by norm_num, by norm_num⟩
theorem rep_c06 : Rep (10066330 / 2 ^ 24) := ⟨10066330, -24, by norm_num, by norm_num, by norm_num⟩
theorem rep_c02 : Rep (13421773 / 2 ^ 26) := ⟨13421773, -26, by norm_num, by norm_num, by norm_num⟩
theorem rep_c08 : Rep (13421773 / 2 ^ 24) := ⟨13421773, -24, by norm_num, by norm_num, by norm_num⟩

/-- C124, robin: `max_load_factor(x)` for any `x` that is a number takes the nearest number in [0.3f, 0.6f] and rounds it up to a multiple
of 1/256; that is what `max_load_factor()` returns from then on.  The stored reciprocal is not too small for the stored factor. -/
theorem C124_robin_set {b : Nat} (hb : ofBits b ≠ .nan) : ∃ m r y, robinArg (ofBits b) = .ok (m, r) ∧ 77 ≤ m ∧ m ≤ 154 ∧ 427 ≤ r ∧ r ≤ 854 ∧
    256 * 256 ≤ m * r ∧ Nearest (10066330 / 2 ^ 25) (10066330 / 2 ^ 24) (ofBits b) y ∧
    maxLoad 256 m = .fin (m / 256) ∧ y ≤ (m : ℚ) / 256 ∧ (m : ℚ) / 256 < y + 1 / 256 := by
  obtain ⟨m, r, y, h1, h2, h3, h4, h5, hm, hr⟩ := ceilArg_spec (A := 256) (j := 8) (by norm_num) (by omega)
    (lo := 10066330 / 2 ^ 25) (hi := 10066330 / 2 ^ 24) (by norm_num) (by norm_num) (by norm_num) rep_c03 rep_c06 hb
  have hy : 0 < y := lt_of_lt_of_le (by norm_num) h4
  obtain ⟨r1, r2⟩ := recip_bounds (by norm_num) h4 h5
  have i0 : 0 ≤ roundQ (1 / y) := roundQ_nonneg (by positivity)
  obtain ⟨a1, a2⟩ := ceil_bounds (z := y * (256 : Nat)) (by positivity)
  obtain ⟨b1, b2⟩ := ceil_bounds (z := roundQ (1 / y) * (256 : Nat)) (mul_nonneg i0 (by positivity))
  rw [← hm] at a1 a2
  rw [← hr] at b1 b2
  push_cast at a1 a2 b1 b2
  have r1' : (5 / 3 - 1 / 1000 : ℚ) ≤ roundQ (1 / y) := by
    refine le_trans ?_ r1
    rw [roundQ_near (e := 0) (z := 13981013)] <;> norm_num
  have r2' : roundQ (1 / y) ≤ (10 / 3 + 1 / 1000 : ℚ) := by
    refine le_trans r2 ?_
    rw [roundQ_near (e := 1) (z := 13981013)] <;> norm_num
  have err := roundQ_err (q := 1 / y) (by
    refine le_trans ?_ (one_div_le_one_div_of_le hy h5)
    norm_num)
  have l1 : 77 ≤ m := by
    have : (76 : ℚ) < m := by norm_num at h4; linarith
    have : 76 < m := by exact_mod_cast this
    omega
  have l2 : m ≤ 154 := by
    have : (m : ℚ) < 155 := by norm_num at h5; linarith
    have : m < 155 := by exact_mod_cast this
    omega
  have l3 : 427 ≤ r := by
    have : (426 : ℚ) < r := by linarith
    have : 426 < r := by exact_mod_cast this
    omega
  have l4 : r ≤ 854 := by
    have : (r : ℚ) < 855 := by linarith
    have : r < 855 := by exact_mod_cast this
    omega
  refine ⟨m, r, y, by unfold robinArg; rw [c03, c06]; exact h1, l1, l2, l3, l4, ?_, h2, maxLoad_eq (j := 8) (by norm_num) (by omega) (by omega), by linarith, by linarith⟩
  have k1 : 1 - 2 ^ (-24 : ℤ) ≤ y * roundQ (1 / y) := by
    have := (abs_le.mp err).1
    have k2 : y * (1 / y) = 1 := by field_simp
    have k3 : y * (1 / y * 2 ^ (-24 : ℤ)) = 2 ^ (-24 : ℤ) := by rw [← mul_assoc, k2, one_mul]
    nlinarith
  have k2 : (65535 : ℚ) < m * r := by
    have k3 : (y * 256) * (roundQ (1 / y) * 256) ≤ m * r := mul_le_mul a1 b1 (by positivity) (by positivity)
    generalize roundQ (1 / y) = w at k1 k3
    norm_num at k1
    nlinarith
  have : 65535 < m * r := by exact_mod_cast k2
  omega

/-- C124, flat16 and robin16: `max_load_factor(x)` for any `x` that is a number takes the nearest number in [0.2f, 0.8f] and rounds it up
to a multiple of 1/65536; that is what `max_load_factor()` returns from then on. -/
theorem C124_flat_set {b : Nat} (hb : ofBits b ≠ .nan) : ∃ m r y, flatArg (ofBits b) = .ok (m, r) ∧ 13108 ≤ m ∧ m ≤ 52429 ∧
    81920 ≤ r ∧ r ≤ 327680 ∧ Nearest (13421773 / 2 ^ 26) (13421773 / 2 ^ 24) (ofBits b) y ∧
    maxLoad 65536 m = .fin (m / 65536) ∧ y ≤ (m : ℚ) / 65536 ∧ (m : ℚ) / 65536 < y + 1 / 65536 := by
  obtain ⟨m, r, y, h1, h2, h3, h4, h5, hm, hr⟩ := ceilArg_spec (A := 65536) (j := 16) (by norm_num) (by omega)
    (lo := 13421773 / 2 ^ 26) (hi := 13421773 / 2 ^ 24) (by norm_num) (by norm_num) (by norm_num) rep_c02 rep_c08 hb
  have hy : 0 < y := lt_of_lt_of_le (by norm_num) h4
  obtain ⟨r1, r2⟩ := recip_bounds (by norm_num) h4 h5
  have i0 : 0 ≤ roundQ (1 / y) := roundQ_nonneg (by positivity)
  obtain ⟨a1, a2⟩ := ceil_bounds (z := y * (65536 : Nat)) (by positivity)
  rw [← hm] at a1 a2
  push_cast at a1 a2
  have e1 : roundQ (1 / (13421773 / 2 ^ 24)) = 5 / 4 := by
    rw [roundQ_near (e := 0) (z := 10485760)] <;> norm_num
  have e2 : roundQ (1 / (13421773 / 2 ^ 26)) = 5 := by
    rw [roundQ_near (e := 2) (z := 10485760)] <;> norm_num
  rw [e1] at r1
  rw [e2] at r2
  have l1 : 13108 ≤ m := by
    have : (13107 : ℚ) < m := by norm_num at h4; linarith
    have : 13107 < m := by exact_mod_cast this
    omega
  have l2 : m ≤ 52429 := by
    have : (m : ℚ) < 52430 := by norm_num at h5; linarith
    have : m < 52430 := by exact_mod_cast this
    omega
  have l3 : 81920 ≤ r := by
    rw [hr]
    have : (81919 : ℚ) < (⌈roundQ (1 / y) * (65536 : Nat)⌉₊ : ℚ) := lt_of_lt_of_le (by push_cast; linarith) (Nat.le_ceil _)
    have : 81919 < ⌈roundQ (1 / y) * (65536 : Nat)⌉₊ := by exact_mod_cast this
    omega
  have l4 : r ≤ 327680 := by
    rw [hr]
    exact Nat.ceil_le.mpr (by push_cast; linarith)
  exact ⟨m, r, y, by unfold flatArg; rw [c02, c08]; exact h1, l1, l2, l3, l4, h2, maxLoad_eq (j := 16) (by norm_num) (by omega) (by omega), by linarith, by linarith⟩

/-- C124 is violated for NaN: both comparisons are false, and the conversion of NaN to an integer is undefined. -/
theorem C124_nan {b : Nat} (hb : ofBits b = .nan) : groupArg (ofBits b) = .ub ∧ robinArg (ofBits b) = .ub ∧ flatArg (ofBits b) = .ub := by
  rw [hb]
  refine ⟨?_, ?_, ?_⟩
  · unfold groupArg; rw [clamp_nan, ofNat_eq (by norm_num)]; rfl
  · unfold robinArg ceilArg; rw [clamp_nan, ofNat_eq (by norm_num)]; rfl
  · unfold flatArg ceilArg; rw [clamp_nan, ofNat_eq (by norm_num)]; rfl

example : ofBits 0x7FC00000 = .nan := by norm_num [ofBits]
example : ofBits 0x3F000000 = .fin (1 / 2) := by norm_num [ofBits]

/-! ### `load_factor()` -/

theorem nat_le_127 {n : Nat} (h : n < W) : (n : ℚ) ≤ 2 ^ 127 := by
  have : (n : ℚ) < 2 ^ 64 := by unfold W at h; exact_mod_cast h
  exact this.le.trans (by norm_num)

theorem one_le_roundQ {n : Nat} (h : 0 < n) : 1 ≤ roundQ n := by
  have := rep_le_roundQ (q := n) (z := (1 : Nat)) (by norm_num) (Rep.of_nat (by norm_num)) (by exact_mod_cast h)
  simpa using this

/-- The two conversions and the division, all rounded. -/
theorem plainLoad_eq {n c : Nat} (hn : n ≤ c) (h0 : 0 < c) (hc : c < W) : plainLoad n c = .fin (roundQ (roundQ n / roundQ c)) ∧
    0 ≤ roundQ n / roundQ c ∧ roundQ n / roundQ c ≤ 1 := by
  have h1 := one_le_roundQ h0
  have h2 : roundQ n ≤ roundQ c := roundQ_mono (by positivity) (by exact_mod_cast hn)
  have h3 : 0 ≤ roundQ n := roundQ_nonneg (by positivity)
  have h4 : 0 ≤ roundQ n / roundQ c := div_nonneg h3 (by linarith)
  have h5 : roundQ n / roundQ c ≤ 1 := (div_le_one (by linarith)).mpr h2
  refine ⟨?_, h4, h5⟩
  unfold plainLoad ofNat
  rw [round_eq (by positivity) (nat_le_127 (by omega)), round_eq (by positivity) (nat_le_127 hc)]
  have h6 : roundQ (c : ℚ) ≠ 0 := by linarith
  simp only [div, h6, if_false]
  exact round_eq h4 (h5.trans (by norm_num))

theorem groupLoad_eq {n c : Nat} (h0 : 0 < c) : groupLoad n c = plainLoad n c := by
  unfold groupLoad plainLoad
  rw [if_pos (by omega)]

theorem le_fin {a b : ℚ} : le (.fin a) (.fin b) = true ↔ a ≤ b := by
  unfold le lt
  simp only [Bool.or_eq_true, decide_eq_true_eq, Bool.and_eq_true, beq_iff_eq, F.fin.injEq, bne_iff_ne]
  constructor
  · rintro (h | ⟨h, _⟩)
    · exact h.le
    · exact h.le
  · intro h
    rcases h.lt_or_eq with h | h
    · exact Or.inl h
    · exact Or.inr ⟨h, by simp⟩

/-- C124: `load_factor()` is `size() / capacity()` up to a relative error of 2^-22. -/
theorem C124_load_accurate {n c : Nat} (hn : n ≤ c) (h0 : 0 < c) (hc : c < W) : ∃ q, plainLoad n c = .fin q ∧ groupLoad n c = .fin q ∧
    0 ≤ q ∧ q ≤ 1 ∧ |q - n / c| ≤ (n / c : ℚ) / 2 ^ 22 := by
  obtain ⟨h1, h2, h3⟩ := plainLoad_eq hn h0 hc
  refine ⟨_, h1, by rw [groupLoad_eq h0]; exact h1, roundQ_nonneg h2, ?_, ?_⟩
  · exact roundQ_le_rep h2 (by simpa using Rep.of_nat (n := 1) (by norm_num)) h3
  rcases Nat.eq_zero_or_pos n with rfl | hp
  · push_cast
    rw [roundQ_zero, zero_div, roundQ_zero]; norm_num
  · have hc' : (0 : ℚ) < c := by exact_mod_cast h0
    have hp' : (0 : ℚ) < n := by exact_mod_cast hp
    have hnorm : ∀ k : Nat, 0 < k → |roundQ k - k| ≤ k * 2 ^ (-24 : ℤ) := fun k hk => roundQ_err (by
      have : (1 : ℚ) ≤ k := by exact_mod_cast hk
      exact le_trans (by norm_num) this)
    have e1 := abs_le.mp (hnorm n hp)
    have e2 := abs_le.mp (hnorm c h0)
    have r1 := one_le_roundQ h0
    have r0 := one_le_roundQ hp
    have hclt : (c : ℚ) < 2 ^ 64 := by unfold W at hc; exact_mod_cast hc
    have rc : roundQ (c : ℚ) ≤ 2 ^ 65 := by
      have := e2.2
      norm_num at this ⊢
      linarith
    have e3 := abs_le.mp (roundQ_err (q := roundQ n / roundQ c) (by
      rw [le_div_iff₀ (by linarith)]
      have : (2 : ℚ) ^ (-126 : ℤ) * roundQ c ≤ 2 ^ (-126 : ℤ) * 2 ^ 65 := mul_le_mul_of_nonneg_left rc (by positivity)
      refine this.trans (le_trans (by norm_num) r0)))
    have hpc : (0 : ℚ) < roundQ c := by linarith
    generalize roundQ (roundQ n / roundQ c) = z at e3
    generalize hA : roundQ (n : ℚ) = A at *
    generalize hC : roundQ (c : ℚ) = C at *
    have q1 : A / C ≤ (n / c : ℚ) * (1 + 2 ^ (-22 : ℤ) / 2 + 2 ^ (-22 : ℤ) / 16) := by
      rw [div_le_iff₀ hpc, div_mul_eq_mul_div, div_mul_eq_mul_div, le_div_iff₀ hc']
      have := e1.2
      have := e2.1
      norm_num at *
      nlinarith
    have q2 : (n / c : ℚ) * (1 - 2 ^ (-22 : ℤ) / 2 - 2 ^ (-22 : ℤ) / 16) ≤ A / C := by
      rw [le_div_iff₀ hpc, div_mul_eq_mul_div, div_mul_eq_mul_div, div_le_iff₀ hc']
      have := e1.1
      have := e2.2
      norm_num at *
      nlinarith
    have hx : (0 : ℚ) < n / c := by positivity
    generalize (n / c : ℚ) = x at *
    generalize A / C = y at *
    norm_num at *
    rw [abs_le]
    constructor <;> linarith

theorem load_le_of {n c : Nat} (hn : n ≤ c) (h0 : 0 < c) (hc : c < W) {A j m : Nat} (hA : A = 2 ^ j) (hj : j ≤ 16) (hm : m ≤ 2 ^ 24) {z : ℚ}
    (hz : Rep z) (h1 : (n : ℚ) ≤ z) (h2 : z * A ≤ m * roundQ c) : le (plainLoad n c) (maxLoad A m) = true := by
  obtain ⟨e1, e2, _⟩ := plainLoad_eq hn h0 hc
  have hA0 : (0 : ℚ) < A := by subst hA; positivity
  have hr : Rep ((m : ℚ) / A) := by
    have : (m : ℚ) / A = m * 2 ^ (-(j : ℤ)) := by subst hA; rw [zpow_neg, zpow_natCast]; push_cast; rfl
    rw [this]; exact Rep.of_scaled hm _ (by omega)
  rw [e1, maxLoad_eq hA (by omega) hm, le_fin]
  apply roundQ_le_rep e2 hr
  have h3 : roundQ n ≤ z := roundQ_le_rep (by positivity) hz h1
  have h4 := one_le_roundQ h0
  rw [div_le_div_iff₀ (by linarith) hA0]
  nlinarith

/-- C124: in tables whose capacity is a power of two, `load_factor() <= max_load_factor()` holds in floating point when it holds for the
exact numbers. -/
theorem C124_load_le_pow {n k : Nat} (hk : k < 64) (hn : n ≤ 2 ^ k) {A j m : Nat} (hA : A = 2 ^ j) (hj : j ≤ 16) (hm : m ≤ 2 ^ 24)
    (h : n * A ≤ 2 ^ k * m) : le (plainLoad n (2 ^ k)) (maxLoad A m) = true := by
  have hA0 : (0 : ℚ) < A := by subst hA; positivity
  have hz : Rep ((2 ^ k : Nat) * m / A : ℚ) := by
    have : ((2 ^ k : Nat) * m / A : ℚ) = m * 2 ^ ((k : ℤ) - j) := by
      subst hA; rw [zpow_sub₀ (by norm_num), zpow_natCast, zpow_natCast]; push_cast; ring
    rw [this]; exact Rep.of_scaled hm _ (by omega)
  have hp : Rep ((2 ^ k : Nat) : ℚ) := ⟨1, k, by push_cast; simp, by norm_num, by omega⟩
  refine load_le_of hn (Nat.two_pow_pos k) (by unfold W; exact Nat.pow_lt_pow_right (by omega) hk) hA hj hm hz ?_ ?_
  · rw [le_div_iff₀ hA0]; exact_mod_cast h
  · rw [roundQ_rep hp (by positivity), div_mul_cancel₀ _ hA0.ne']
    exact le_of_eq (mul_comm _ _)

/-- C124: the same for the capacities of group15, which are one less than a multiple of fifteen. -/
theorem C124_load_le_group15 {n k m : Nat} (hk : k < 60) (hn : n ≤ 15 * 2 ^ k - 1) (hm : m ≤ 256) (h : n * 256 ≤ (15 * 2 ^ k - 1) * m) :
    le (groupLoad n (15 * 2 ^ k - 1)) (maxLoad 256 m) = true := by
  have hk1 : 1 ≤ 2 ^ k := Nat.one_le_two_pow
  have hk2 : 2 ^ k ≤ 2 ^ 59 := Nat.pow_le_pow_right (by omega) (by omega)
  rw [groupLoad_eq (by omega)]
  by_cases hs : k ≤ 20
  · have hk3 : 2 ^ k ≤ 2 ^ 20 := Nat.pow_le_pow_right (by omega) hs
    have hr : Rep ((15 * 2 ^ k - 1 : Nat) : ℚ) := Rep.of_nat (by omega)
    refine load_le_of hn (by omega) (by unfold W; omega) (A := 256) (j := 8) (by norm_num) (by omega) (by omega) (z := n) (Rep.of_nat (by omega)) (le_refl _) ?_
    rw [roundQ_rep hr (by positivity), mul_comm (m : ℚ)]
    exact_mod_cast h
  · have hz : Rep (15 * m * 2 ^ ((k : ℤ) - 8) : ℚ) := by
      have := Rep.of_scaled (n := 15 * m) (by omega) ((k : ℤ) - 8) (by omega)
      push_cast at this; exact this
    have e8 : (2 : ℚ) ^ ((k : ℤ) - 8) * 256 = 2 ^ k := by
      rw [zpow_sub₀ (by norm_num), zpow_natCast]; norm_num
    have e20 : (2 : ℚ) ^ ((k : ℤ) + 3 - 23) * 2 ^ 20 = 2 ^ k := by
      rw [show (k : ℤ) + 3 - 23 = (k : ℤ) - 20 by ring, zpow_sub₀ (by norm_num), zpow_natCast]; norm_num
    have hcap : ((15 * 2 ^ k - 1 : Nat) : ℚ) = 15 * 2 ^ k - 1 := by
      rw [Nat.cast_sub (by omega)]; push_cast; ring
    have e3 : (2 : ℚ) ^ ((k : ℤ) + 3) = 8 * 2 ^ k := by rw [zpow_add₀ (by norm_num), zpow_natCast]; norm_num; ring
    have e4 : (2 : ℚ) ^ ((k : ℤ) + 3 + 1) = 16 * 2 ^ k := by rw [zpow_add₀ (by norm_num), e3]; norm_num; ring
    have hk1' : (1 : ℚ) ≤ 2 ^ k := by exact_mod_cast hk1
    have hround : (15 * 2 ^ k : ℚ) ≤ roundQ ((15 * 2 ^ k - 1 : Nat) : ℚ) := by
      rw [hcap, roundQ_at (e := (k : ℤ) + 3) (by omega) (by rw [e3]; linarith) (by rw [e4]; linarith)]
      unfold roundAt
      generalize hu : (2 : ℚ) ^ ((k : ℤ) + 3 - 23) = u at e20
      have hu2 : 2 ≤ u := by
        rw [← hu]
        have : (2 : ℚ) ^ (1 : ℤ) ≤ 2 ^ ((k : ℤ) + 3 - 23) := zpow_le_iff.mpr (by omega)
        simpa using this
      have hdiv : (15 * 2 ^ k - 1 : ℚ) / u = 15 * 2 ^ 20 - 1 / u := by
        rw [← e20]; field_simp
      rw [hdiv]
      have hr : (15 * 2 ^ 20 : ℤ) ≤ roundEven (15 * 2 ^ 20 - 1 / u) := by
        have hmono : roundEven (15 * 2 ^ 20 - 1 / 2) ≤ roundEven (15 * 2 ^ 20 - 1 / u) := by
          apply roundEven_mono
          have : 1 / u ≤ 1 / 2 := one_div_le_one_div_of_le (by norm_num) hu2
          linarith
        have hv : roundEven (15 * 2 ^ 20 - 1 / 2) = 15 * 2 ^ 20 := by
          have hfl : ⌊(15 * 2 ^ 20 - 1 / 2 : ℚ)⌋ = 15728639 := by
            rw [Int.floor_eq_iff]; norm_num
          unfold roundEven
          rw [hfl]
          norm_num
        rw [hv] at hmono; exact hmono
      have hr' : ((15 * 2 ^ 20 : ℤ) : ℚ) ≤ roundEven (15 * 2 ^ 20 - 1 / u) := by exact_mod_cast hr
      calc (15 * 2 ^ k : ℚ) = ((15 * 2 ^ 20 : ℤ) : ℚ) * u := by rw [← e20]; push_cast; ring
        _ ≤ _ := mul_le_mul_of_nonneg_right hr' (by linarith)
    refine load_le_of hn (by omega) (by unfold W; omega) (A := 256) (j := 8) (by norm_num) (by omega) (by omega) hz ?_ ?_
    · have h' : (n : ℚ) * 256 ≤ (15 * 2 ^ k - 1) * m := by rw [← hcap]; exact_mod_cast h
      have hm0 : (0 : ℚ) ≤ m := by positivity
      nlinarith
    · have hm0 : (0 : ℚ) ≤ m := by positivity
      push_cast
      calc (15 * m * 2 ^ ((k : ℤ) - 8) * 256 : ℚ) = m * (15 * 2 ^ k) := by rw [← e8]; ring
        _ ≤ _ := mul_le_mul_of_nonneg_left hround hm0

/-- C124 is violated: `load_factor()` of an empty map without storage is 0/0, not a number, for robin. -/
theorem C124_empty_nan : plainLoad 0 0 = .nan ∧ groupLoad 0 0 = .fin 0 := by
  refine ⟨?_, rfl⟩
  unfold plainLoad
  rw [ofNat_eq (by norm_num)]
  simp [div]

end Verif.F32
