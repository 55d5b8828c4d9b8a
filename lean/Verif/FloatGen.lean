/-
Binary floating point of any precision: rounding to nearest with ties to even, its order, and the operations of `float` and `double`.
Values are those of `F32.F`; +0 and -0 are one value.
-/
import Verif.Float32

namespace Verif.FG

open F32 (F roundEven roundEven_int roundEven_mono roundAt roundAt_mono roundAt_fix roundAt_err two_zpow_pos log_spec zpow_lt_iff zpow_le_iff)

/-- A binary format: digits, least exponent of normal numbers, and the exponent where infinity starts. -/
structure Fmt where
  p : ℕ
  emin : ℤ
  emax : ℤ

/-- `float` (IEC 60559 binary32). -/
def b32 : Fmt := ⟨24, -126, 128⟩

/-- `double` (IEC 60559 binary64). -/
def b64 : Fmt := ⟨53, -1022, 1024⟩

/-- What the lemmas need of a format. -/
structure Fmt.WF (f : Fmt) : Prop where
  p2 : 2 ≤ f.p
  neg : f.emin + f.p ≤ 0
  pos : 1 ≤ f.emax

theorem b32_wf : b32.WF := ⟨by decide, by decide, by decide⟩
theorem b64_wf : b64.WF := ⟨by decide, by decide, by decide⟩

variable {f : Fmt}

/-- `q` rounded to the digits of the format (fewer when subnormal). -/
def rnd (f : Fmt) (q : ℚ) : ℚ := roundAt (max (Int.log 2 |q|) f.emin - (f.p - 1)) q

/-- The floating point number nearest to `q`. -/
def toF (f : Fmt) (q : ℚ) : F := if |rnd f q| < 2 ^ f.emax then .fin (rnd f q) else .inf (decide (q < 0))

/-- `a + b`. -/
def add (f : Fmt) : F → F → F
  | .fin a, .fin b => toF f (a + b)
  | .inf s, .inf s' => if s = s' then .inf s else .nan
  | .inf s, .fin _ => .inf s
  | .fin _, .inf s => .inf s
  | _, _ => .nan

/-- `a - b`. -/
def sub (f : Fmt) : F → F → F
  | .fin a, .fin b => toF f (a - b)
  | .inf s, .inf s' => if s = s' then .nan else .inf s
  | .inf s, .fin _ => .inf s
  | .fin _, .inf s => .inf (!s)
  | _, _ => .nan

/-- `a * b`. -/
def mul (f : Fmt) : F → F → F
  | .fin a, .fin b => toF f (a * b)
  | .inf s, .fin b => if b = 0 then .nan else .inf (s != decide (b < 0))
  | .fin a, .inf s => if a = 0 then .nan else .inf (s != decide (a < 0))
  | .inf s, .inf s' => .inf (s != s')
  | _, _ => .nan

/-- `a / b`.  For `b = 0` the sign of the result is that of `+0`. -/
def div (f : Fmt) : F → F → F
  | .fin a, .fin b => if b = 0 then (if a = 0 then .nan else .inf (decide (a < 0))) else toF f (a / b)
  | .inf s, .fin b => .inf (s != decide (b < 0))
  | .fin _, .inf _ => .fin 0
  | _, _ => .nan

/-- `a + b * c` rounded once, as compilers may do it for processors with the instruction. -/
def fma (f : Fmt) : F → F → F → F
  | .fin a, .fin b, .fin c => toF f (a + b * c)
  | a, b, c => add f a (mul f b c)

/-- Conversion of an unsigned integer. -/
def ofNat (f : Fmt) (n : ℕ) : F := toF f n

/-- A number with at most `p` binary digits, not smaller than the subnormal numbers. -/
def Rep (f : Fmt) (q : ℚ) : Prop := ∃ m k : ℤ, q = m * 2 ^ k ∧ |m| ≤ 2 ^ f.p ∧ f.emin - (f.p - 1) ≤ k

/-- A finite floating point number of the format. -/
def Fin (f : Fmt) (q : ℚ) : Prop := Rep f q ∧ |q| < 2 ^ f.emax

/-! ### Rounding -/

theorem roundEven_neg (r : ℚ) : roundEven (-r) = -roundEven r := by
  by_cases hz : r = ⌊r⌋
  · rw [hz, ← Int.cast_neg, roundEven_int, roundEven_int]
  · have h1 := Int.floor_le r
    have h2 := Int.lt_floor_add_one r
    have h3 : (⌊r⌋ : ℚ) < r := lt_of_le_of_ne h1 (Ne.symm hz)
    have hf : ⌊-r⌋ = -⌊r⌋ - 1 := by
      rw [Int.floor_eq_iff]
      push_cast
      constructor <;> linarith
    unfold roundEven
    rw [hf]
    push_cast
    split_ifs <;> first | omega | (exfalso; linarith)

theorem rnd_neg (q : ℚ) : rnd f (-q) = -rnd f q := by
  unfold rnd roundAt
  rw [abs_neg, neg_div, roundEven_neg]
  push_cast
  ring

theorem rnd_pos_eq {q : ℚ} (h : 0 < q) : rnd f q = roundAt (max (Int.log 2 q) f.emin - (f.p - 1)) q := by
  unfold rnd
  rw [abs_of_pos h]

theorem rnd_zero : rnd f 0 = 0 := by
  unfold rnd roundAt
  rw [zero_div]
  have : roundEven 0 = 0 := roundEven_int 0
  rw [this]; simp

theorem Rep.neg {q : ℚ} (h : Rep f q) : Rep f (-q) := by
  obtain ⟨m, k, rfl, hm, hk⟩ := h
  exact ⟨-m, k, by push_cast; ring, by rwa [abs_neg], hk⟩

theorem rnd_rep_nonneg (hf : 2 ≤ f.p) {q : ℚ} (hr : Rep f q) (h : 0 ≤ q) : rnd f q = q := by
  rcases h.lt_or_eq with hq | rfl
  · obtain ⟨m, k, rfl, hm, hk⟩ := hr
    rw [rnd_pos_eq hq]
    by_cases hmp : m = 2 ^ f.p
    · subst hmp
      have e1 : (((2 : ℤ) ^ f.p : ℤ) : ℚ) * 2 ^ k = 2 ^ (k + f.p) := by
        rw [zpow_add₀ (by norm_num), zpow_natCast]; push_cast; ring
      have e2 : Int.log 2 ((2 : ℚ) ^ (k + f.p)) = k + f.p := by
        have := Int.log_zpow (R := ℚ) (b := 2) (by norm_num) (k + f.p)
        push_cast at this; exact this
      rw [e1, e2]
      have : ((1 : ℤ) : ℚ) * 2 ^ (k + f.p) = 2 ^ (k + f.p) := by norm_num
      rw [← this]
      exact roundAt_fix (by omega) 1
    · apply roundAt_fix
      obtain ⟨h3, h4⟩ := log_spec hq
      have h5 : (m : ℚ) * 2 ^ k < 2 ^ (k + f.p) := by
        rw [zpow_add₀ (by norm_num), mul_comm]
        apply mul_lt_mul_of_pos_left _ (two_zpow_pos k)
        have : m < 2 ^ f.p := lt_of_le_of_ne (le_of_abs_le hm) hmp
        rw [zpow_natCast]
        exact_mod_cast this
      have := zpow_lt_iff.mp (h3.trans_lt h5)
      omega
  · exact rnd_zero

/-- Numbers of the format are not changed. -/
theorem rnd_rep (hf : 2 ≤ f.p) {q : ℚ} (hr : Rep f q) : rnd f q = q := by
  rcases le_total 0 q with h | h
  · exact rnd_rep_nonneg hf hr h
  · have := rnd_rep_nonneg hf hr.neg (neg_nonneg.2 h)
    rw [rnd_neg] at this
    linarith

theorem rnd_nonneg {q : ℚ} (h : 0 ≤ q) : 0 ≤ rnd f q := by
  unfold rnd roundAt
  apply mul_nonneg _ (two_zpow_pos _).le
  have h1 : roundEven ((0 : ℤ) : ℚ) ≤ roundEven (q / 2 ^ (max (Int.log 2 |q|) f.emin - (f.p - 1))) :=
    roundEven_mono (by push_cast; exact div_nonneg h (two_zpow_pos _).le)
  rw [roundEven_int] at h1
  exact_mod_cast h1

theorem rnd_mono_nonneg (hf : 2 ≤ f.p) {p q : ℚ} (hp : 0 ≤ p) (h : p ≤ q) : rnd f p ≤ rnd f q := by
  rcases hp.lt_or_eq with hp0 | rfl
  · have hq0 := hp0.trans_le h
    obtain ⟨a1, a2⟩ := log_spec hp0
    obtain ⟨b1, b2⟩ := log_spec hq0
    have hle : Int.log 2 p ≤ Int.log 2 q := by
      have := zpow_lt_iff.mp (a1.trans_lt (h.trans_lt b2)); omega
    rw [rnd_pos_eq hp0, rnd_pos_eq hq0]
    by_cases heq : max (Int.log 2 p) f.emin = max (Int.log 2 q) f.emin
    · rw [heq]; exact roundAt_mono _ h
    · have hlt : max (Int.log 2 p) f.emin < max (Int.log 2 q) f.emin := lt_of_le_of_ne (max_le_max_right _ hle) heq
      have hq1 : max (Int.log 2 q) f.emin = Int.log 2 q := by omega
      rw [hq1] at hlt ⊢
      have one : ∀ k : ℤ, ((1 : ℤ) : ℚ) * 2 ^ k = 2 ^ k := fun k => by norm_num
      have h1 : roundAt (max (Int.log 2 p) f.emin - (f.p - 1)) p ≤ 2 ^ (max (Int.log 2 p) f.emin + 1) := by
        have := roundAt_mono (max (Int.log 2 p) f.emin - (f.p - 1)) (p := p) (q := ((1 : ℤ) : ℚ) * 2 ^ (max (Int.log 2 p) f.emin + 1))
          (by rw [one]; exact a2.le.trans (zpow_le_iff.mpr (by omega)))
        rwa [roundAt_fix (by omega), one] at this
      have h2 : (2 : ℚ) ^ Int.log 2 q ≤ roundAt (Int.log 2 q - (f.p - 1)) q := by
        have := roundAt_mono (Int.log 2 q - (f.p - 1)) (p := ((1 : ℤ) : ℚ) * 2 ^ (Int.log 2 q)) (q := q) (by rw [one]; exact b1)
        rwa [roundAt_fix (by omega), one] at this
      exact h1.trans ((zpow_le_iff.mpr (by omega)).trans h2)
  · rw [rnd_zero]; exact rnd_nonneg h

/-- Rounding keeps the order. -/
theorem rnd_mono (hf : 2 ≤ f.p) {p q : ℚ} (h : p ≤ q) : rnd f p ≤ rnd f q := by
  rcases le_total 0 p with hp | hp
  · exact rnd_mono_nonneg hf hp h
  · rcases le_total 0 q with hq | hq
    · have h1 := rnd_nonneg (f := f) (neg_nonneg.2 hp)
      rw [rnd_neg] at h1
      have h2 := rnd_nonneg (f := f) hq
      linarith
    · have := rnd_mono_nonneg hf (neg_nonneg.2 hq) (neg_le_neg h)
      rw [rnd_neg, rnd_neg] at this
      linarith

theorem rnd_le_rep (hf : 2 ≤ f.p) {q z : ℚ} (hz : Rep f z) (h : q ≤ z) : rnd f q ≤ z := by
  have := rnd_mono hf h
  rwa [rnd_rep hf hz] at this

theorem rep_le_rnd (hf : 2 ≤ f.p) {q z : ℚ} (hz : Rep f z) (h : z ≤ q) : z ≤ rnd f q := by
  have := rnd_mono hf h
  rwa [rnd_rep hf hz] at this

/-- What rounding gives is a number of the format. -/
theorem rep_rnd (q : ℚ) : Rep f (rnd f q) := by
  suffices H : ∀ q : ℚ, 0 < q → Rep f (rnd f q) by
    rcases lt_trichotomy q 0 with h | rfl | h
    · have := (H (-q) (neg_pos.2 h)).neg
      rwa [rnd_neg, neg_neg] at this
    · rw [rnd_zero]
      exact ⟨0, f.emin - (f.p - 1), by simp, by simp, le_rfl⟩
    · exact H q h
  intro q hq
  obtain ⟨h1, h2⟩ := log_spec hq
  rw [rnd_pos_eq hq]
  set e := max (Int.log 2 q) f.emin - (f.p - 1) with he
  refine ⟨roundEven (q / 2 ^ e), e, rfl, ?_, by omega⟩
  have h3 : (0 : ℤ) ≤ roundEven (q / 2 ^ e) := by
    have : roundEven ((0 : ℤ) : ℚ) ≤ roundEven (q / 2 ^ e) := roundEven_mono (by push_cast; exact div_nonneg hq.le (two_zpow_pos _).le)
    rwa [roundEven_int] at this
  rw [abs_of_nonneg h3]
  have h4 : q / 2 ^ e ≤ ((2 ^ f.p : ℤ) : ℚ) := by
    rw [div_le_iff₀ (two_zpow_pos e)]
    push_cast
    rw [← zpow_natCast, ← zpow_add₀ (by norm_num)]
    exact h2.le.trans (zpow_le_iff.mpr (by omega))
  have := roundEven_mono h4
  rwa [roundEven_int] at this

/-- The relative error of a number that is not subnormal. -/
theorem rnd_err {q : ℚ} (h : 2 ^ f.emin ≤ q) : |rnd f q - q| ≤ q * 2 ^ (-(f.p : ℤ)) := by
  have hq : 0 < q := (two_zpow_pos _).trans_le h
  obtain ⟨h1, h2⟩ := log_spec hq
  have h3 : f.emin ≤ Int.log 2 q := by
    have := zpow_lt_iff.mp (h.trans_lt h2); omega
  rw [rnd_pos_eq hq, max_eq_left h3]
  refine (roundAt_err _ _).trans ?_
  have : (2 : ℚ) ^ (Int.log 2 q - ((f.p : ℤ) - 1)) / 2 = 2 ^ Int.log 2 q * 2 ^ (-(f.p : ℤ)) := by
    rw [show Int.log 2 q - ((f.p : ℤ) - 1) = Int.log 2 q + -(f.p : ℤ) + 1 by omega, zpow_add₀ (by norm_num), zpow_add₀ (by norm_num)]
    norm_num
  rw [this]
  exact mul_le_mul_of_nonneg_right h1 (two_zpow_pos _).le

theorem rnd_at {q : ℚ} {e : ℤ} (he : f.emin ≤ e) (h1 : 2 ^ e ≤ q) (h2 : q < 2 ^ (e + 1)) : rnd f q = roundAt (e - (f.p - 1)) q := by
  have hq : 0 < q := (two_zpow_pos e).trans_le h1
  obtain ⟨h3, h4⟩ := log_spec hq
  have h5 : Int.log 2 q = e := by
    have := zpow_lt_iff.mp (h3.trans_lt h2)
    have := zpow_lt_iff.mp (h1.trans_lt h4)
    omega
  rw [rnd_pos_eq hq, h5, max_eq_left he]

theorem rep_scaled {n : ℕ} (h : n ≤ 2 ^ f.p) (k : ℤ) (hk : f.emin - (f.p - 1) ≤ k) : Rep f (n * 2 ^ k) :=
  ⟨n, k, by simp, by rw [abs_of_nonneg (by positivity)]; exact_mod_cast h, hk⟩

theorem rep_pow (k : ℤ) (hk : f.emin - (f.p - 1) ≤ k) : Rep f (2 ^ k) :=
  ⟨1, k, by simp, by simpa using one_le_pow₀ (by norm_num : (1 : ℤ) ≤ 2), hk⟩

theorem toF_fin (hf : f.WF) {q lo hi : ℚ} (hlo : Fin f lo) (hhi : Fin f hi) (h1 : lo ≤ q) (h2 : q ≤ hi) : toF f q = .fin (rnd f q) := by
  unfold toF
  rw [if_pos]
  have a := rep_le_rnd hf.p2 hlo.1 h1
  have b := rnd_le_rep hf.p2 hhi.1 h2
  have c := abs_lt.1 hlo.2
  have d := abs_lt.1 hhi.2
  rw [abs_lt]
  constructor <;> linarith

theorem toF_rep (hf : 2 ≤ f.p) {q : ℚ} (h : Fin f q) : toF f q = .fin q := by
  unfold toF
  rw [rnd_rep hf h.1, if_pos h.2]

/-- A number of the format that is below 1 keeps a distance from it. -/
theorem rep_below_one (hf : f.WF) {r : ℚ} (hr : Rep f r) (h1 : r < 1) : r ≤ 1 - 2 ^ (-(f.p : ℤ)) := by
  obtain ⟨m, k, rfl, hm, hk⟩ := hr
  have hp := hf.p2
  by_cases h : -(f.p : ℤ) ≤ k
  · have e : (m : ℚ) * 2 ^ k = ((m * 2 ^ (k + f.p).toNat : ℤ) : ℚ) * 2 ^ (-(f.p : ℤ)) := by
      push_cast
      rw [← zpow_natCast, Int.toNat_of_nonneg (by omega), mul_assoc, ← zpow_add₀ (by norm_num)]
      congr 2
      omega
    rw [e] at h1 ⊢
    generalize m * 2 ^ (k + f.p).toNat = n at *
    have hpos := two_zpow_pos (-(f.p : ℤ))
    have e1 : (2 : ℚ) ^ (-(f.p : ℤ)) * 2 ^ f.p = 1 := by
      rw [← zpow_natCast, ← zpow_add₀ (by norm_num)]; simp
    have h2 : (n : ℚ) < 2 ^ f.p := by
      by_contra hc
      have := mul_le_mul_of_nonneg_right (not_lt.1 hc) hpos.le
      rw [mul_comm, e1] at this
      linarith
    have h3 : n + 1 ≤ 2 ^ f.p := by
      have : n < 2 ^ f.p := by exact_mod_cast h2
      omega
    have h4 : ((n : ℚ) + 1) * 2 ^ (-(f.p : ℤ)) ≤ 2 ^ f.p * 2 ^ (-(f.p : ℤ)) :=
      mul_le_mul_of_nonneg_right (by exact_mod_cast h3) hpos.le
    rw [mul_comm (2 ^ f.p), e1] at h4
    linarith
  · have h2 : (m : ℚ) * 2 ^ k ≤ 2 ^ f.p * 2 ^ (-(f.p : ℤ) - 1) := by
      have a : (m : ℚ) ≤ 2 ^ f.p := by exact_mod_cast le_of_abs_le hm
      have b : (2 : ℚ) ^ k ≤ 2 ^ (-(f.p : ℤ) - 1) := zpow_le_iff.2 (by omega)
      calc (m : ℚ) * 2 ^ k ≤ 2 ^ f.p * 2 ^ k := mul_le_mul_of_nonneg_right a (two_zpow_pos k).le
        _ ≤ _ := mul_le_mul_of_nonneg_left b (by positivity)
    have h3 : (2 : ℚ) ^ f.p * 2 ^ (-(f.p : ℤ) - 1) = 1 / 2 := by
      rw [← zpow_natCast, ← zpow_add₀ (by norm_num), show (f.p : ℤ) + (-(f.p : ℤ) - 1) = -1 by omega]
      norm_num
    have h4 : (2 : ℚ) ^ (-(f.p : ℤ)) ≤ 2 ^ (-1 : ℤ) := zpow_le_iff.2 (by omega)
    have h5 : (2 : ℚ) ^ (-1 : ℤ) = 1 / 2 := by norm_num
    rw [h3] at h2
    rw [h5] at h4
    generalize (2 : ℚ) ^ (-(f.p : ℤ)) = z at *
    generalize (m : ℚ) * 2 ^ k = y at *
    linarith

/-- A difference below the normal numbers is exact. -/
theorem rep_sub_small {a b : ℚ} (ha : Rep f a) (hb : Rep f b) (h : |a - b| < 2 ^ (f.emin + 1)) : Rep f (a - b) := by
  obtain ⟨m, k, rfl, -, hk⟩ := ha
  obtain ⟨n, l, rfl, -, hl⟩ := hb
  set u : ℤ := f.emin - (f.p - 1) with hu
  have e : ∀ (m k : ℤ), u ≤ k → (m : ℚ) * 2 ^ k = ((m * 2 ^ (k - u).toNat : ℤ) : ℚ) * 2 ^ u := by
    intro m k hk
    push_cast
    rw [← zpow_natCast, Int.toNat_of_nonneg (by omega), mul_assoc, ← zpow_add₀ (by norm_num)]
    congr 2
    omega
  rw [e m k hk, e n l hl, ← sub_mul] at h ⊢
  refine ⟨m * 2 ^ (k - u).toNat - n * 2 ^ (l - u).toNat, u, by push_cast; ring, ?_, le_rfl⟩
  rw [← Int.cast_sub] at h
  generalize m * 2 ^ (k - u).toNat - n * 2 ^ (l - u).toNat = z at h ⊢
  rw [abs_mul, abs_of_pos (two_zpow_pos u), show f.emin + 1 = (f.p : ℤ) + u by omega, zpow_add₀ (by norm_num), zpow_natCast] at h
  have h1 := lt_of_mul_lt_mul_right h (two_zpow_pos u).le
  have h2 : ((|z| : ℤ) : ℚ) < ((2 ^ f.p : ℤ) : ℚ) := by push_cast; exact h1
  exact_mod_cast h2.le

end Verif.FG
