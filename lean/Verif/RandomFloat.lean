/-
The floating point functions of the random number helpers (C98, C139).

RG = `src/jstd/system/RandomGen.h`.

The words of the generator are arbitrary numbers below 2^32.  `float` and `double` are binary32 and binary64, rounded to nearest; each operation is
rounded to its type (as SSE code does), or a product and the sum after it are rounded once (`fused`, as compilers may do where there is an
instruction for it).
-/
import Verif.FloatGen
import Verif.RandomRange

namespace Verif.FG

open F32 (F roundEven roundEven_int roundEven_mono roundAt roundAt_mono roundAt_fix roundAt_err two_zpow_pos log_spec zpow_lt_iff zpow_le_iff)

/-- `nextFloat()` (RG:175-177); the constant is converted to `float`. -/
def nextFloat (u : ℕ) : F := div b32 (ofNat b32 u) (ofNat b32 0xFFFFFFFF)

/-- `nextDouble()` (RG:179-181). -/
def nextDouble (u : ℕ) : F := div b64 (ofNat b64 u) (ofNat b64 0xFFFFFFFF)

/-- `nextDouble53()` (RG:184-187), from two words. -/
def nextDouble53 (x y : ℕ) : F :=
  div b64 (add b64 (mul b64 (ofNat b64 (x >>> 5)) (ofNat b64 67108864)) (ofNat b64 (y >>> 6))) (ofNat b64 9007199254740992)

/-- `nextFloat(min, max)`, `nextDouble(min, max)`, `nextDouble53(min, max)` (RG:189-229) with the factor `r`. -/
def inRange (f : Fmt) (fused : Bool) (r lo hi : F) : F :=
  if F32.lt lo hi then (if fused then fma f lo r (sub f hi lo) else add f lo (mul f r (sub f hi lo)))
  else if F32.lt hi lo then (if fused then fma f hi r (sub f lo hi) else add f hi (mul f r (sub f lo hi)))
  else lo

/-! ### Numbers between 0 and 1 -/

theorem fin_nat (hf : f.WF) {n : ℕ} (h : n ≤ 2 ^ f.p) (h2 : (n : ℚ) < 2 ^ f.emax) : Fin f n := by
  have := rep_scaled (f := f) h 0 (by have := hf.neg; have := hf.p2; omega)
  rw [zpow_zero, mul_one] at this
  exact ⟨this, by rwa [abs_of_nonneg (by positivity)]⟩

theorem fin_one (hf : f.WF) : Fin f 1 := by
  have := fin_nat hf (n := 1) Nat.one_le_two_pow (by
    have : (2 : ℚ) ^ (0 : ℤ) < 2 ^ f.emax := zpow_lt_iff.2 (by have := hf.pos; omega)
    simpa using this)
  simpa using this

theorem fin_zero (hf : f.WF) : Fin f 0 := by
  have := fin_nat hf (n := 0) (Nat.zero_le _) (by simpa using two_zpow_pos f.emax)
  simpa using this

/-- Integers with few digits are exact. -/
theorem ofNat_b64 {n : ℕ} (h : n ≤ 2 ^ 53) : ofNat b64 n = .fin n := by
  have hf : Fin b64 n := fin_nat b64_wf h (by
    have h1 : (n : ℚ) ≤ 2 ^ (53 : ℤ) := by exact_mod_cast h
    exact h1.trans_lt (zpow_lt_iff.2 (by decide)))
  exact toF_rep (by decide) hf

theorem toF_nat64 {n : ℕ} {q : ℚ} (hq : q = n) (h : n ≤ 2 ^ 53) : toF b64 q = .fin n := by
  rw [hq]
  exact ofNat_b64 h

/-- C98: the operations of `nextDouble53()` are exact, so it is below 1. -/
theorem C98_exact {x y : ℕ} (hx : x < 2 ^ 32) (hy : y < 2 ^ 32) :
    nextDouble53 x y = .fin (Rand.num53 x y / 2 ^ 53) ∧ (Rand.num53 x y / 2 ^ 53 : ℚ) < 1 ∧ Rep b64 (Rand.num53 x y / 2 ^ 53) := by
  have h1 := Rand.C98_below_one x y hx hy
  have ha : x >>> 5 < 2 ^ 27 := by rw [Nat.shiftRight_eq_div_pow]; omega
  have hb : y >>> 6 < 2 ^ 26 := by rw [Nat.shiftRight_eq_div_pow]; omega
  have hlt : (Rand.num53 x y / 2 ^ 53 : ℚ) < 1 := by
    rw [div_lt_one (by positivity)]
    exact_mod_cast h1
  have hrep : Rep b64 (Rand.num53 x y / 2 ^ 53) := by
    have := rep_scaled (f := b64) (n := Rand.num53 x y) h1.le (-53) (by decide)
    rwa [zpow_neg, ← div_eq_mul_inv, show ((2 : ℚ) ^ (53 : ℤ)) = 2 ^ 53 from rfl] at this
  refine ⟨?_, hlt, hrep⟩
  have hfin : Fin b64 (Rand.num53 x y / 2 ^ 53) := by
    refine ⟨hrep, ?_⟩
    rw [abs_of_nonneg (by positivity)]
    have := (fin_one b64_wf).2
    rw [abs_one] at this
    exact hlt.trans this
  unfold nextDouble53
  rw [ofNat_b64 (by omega), ofNat_b64 (n := 67108864) (by decide), ofNat_b64 (n := y >>> 6) (by omega), ofNat_b64 (n := 9007199254740992) (by decide)]
  simp only [mul]
  rw [toF_nat64 (n := x >>> 5 * 67108864) (by push_cast; rfl) (by omega)]
  simp only [add]
  rw [toF_nat64 (n := Rand.num53 x y) (by unfold Rand.num53; push_cast; rfl) h1.le]
  simp only [div]
  rw [if_neg (by norm_num), show ((9007199254740992 : ℕ) : ℚ) = 2 ^ 53 by norm_num]
  exact toF_rep (by decide) hfin

/-- `nextDouble()`: zero for the word 0, one for the greatest word, and a number of the format. -/
theorem nextDouble_eq {u : ℕ} (hu : u < 2 ^ 32) : nextDouble u = .fin (rnd b64 (u / 4294967295)) := by
  unfold nextDouble
  rw [ofNat_b64 (by omega), ofNat_b64 (n := 0xFFFFFFFF) (by decide)]
  simp only [div]
  rw [if_neg (by norm_num)]
  have h1 : (u : ℚ) / 4294967295 ≤ 1 := by
    rw [div_le_one (by norm_num)]
    exact_mod_cast (by omega : u ≤ 4294967295)
  exact toF_fin b64_wf (fin_zero b64_wf) (fin_one b64_wf) (by positivity) (by simpa using h1)

theorem toF32_unit {q : ℚ} (h0 : 0 ≤ q) (h1 : q ≤ 2 ^ (32 : ℤ)) : toF b32 q = .fin (rnd b32 q) := by
  refine toF_fin b32_wf (fin_zero b32_wf) ⟨rep_pow 32 (by decide), ?_⟩ h0 h1
  rw [abs_of_pos (two_zpow_pos _)]
  exact zpow_lt_iff.2 (by decide)

/-- The constant of `nextFloat()` is 2^32. -/
theorem const32 : ofNat b32 0xFFFFFFFF = .fin (2 ^ 32) := by
  unfold ofNat
  have e : ((0xFFFFFFFF : ℕ) : ℚ) = 4294967295 := by norm_num
  rw [e, toF32_unit (by norm_num) (by norm_num), rnd_at (e := 31) (by decide) (by norm_num) (by norm_num)]
  congr 1
  have h : roundEven (4294967295 / 2 ^ (31 - ((b32.p : ℤ) - 1))) = 2 ^ 24 := by
    unfold roundEven b32
    norm_num
  unfold roundAt
  rw [h]
  norm_num [b32]

/-- `nextFloat()`: the word rounded to 24 digits, over 2^32. -/
theorem nextFloat_eq {u : ℕ} (hu : u < 2 ^ 32) : nextFloat u = .fin (rnd b32 u * 2 ^ (-32 : ℤ)) ∧ Rep b32 (rnd b32 u * 2 ^ (-32 : ℤ)) := by
  have hu' : (u : ℚ) ≤ 2 ^ (32 : ℤ) := by exact_mod_cast hu.le
  have h0 : 0 ≤ rnd b32 u := rnd_nonneg (by positivity)
  have h1 : rnd b32 u ≤ 2 ^ (32 : ℤ) := rnd_le_rep (by decide) (rep_pow 32 (by decide)) hu'
  have hrep : Rep b32 (rnd b32 u * 2 ^ (-32 : ℤ)) := by
    rcases Nat.eq_zero_or_pos u with rfl | hpos
    · rw [Nat.cast_zero, rnd_zero, zero_mul]
      exact (fin_zero b32_wf).1
    · have hq : (0 : ℚ) < u := by exact_mod_cast hpos
      rw [rnd_pos_eq hq]
      have h3 : 0 ≤ Int.log 2 (u : ℚ) := by
        obtain ⟨-, h4⟩ := log_spec hq
        have h5 : (2 : ℚ) ^ (0 : ℤ) ≤ u := by rw [zpow_zero]; exact_mod_cast hpos
        have := zpow_lt_iff.1 (h5.trans_lt h4)
        omega
      obtain ⟨h6, h7⟩ := log_spec hq
      have he : max (Int.log 2 (u : ℚ)) b32.emin = Int.log 2 (u : ℚ) := max_eq_left (by show (-126 : ℤ) ≤ _; omega)
      rw [he]
      generalize Int.log 2 (u : ℚ) = e at *
      refine ⟨roundEven (u / 2 ^ (e - ((b32.p : ℤ) - 1))), e - ((b32.p : ℤ) - 1) - 32, ?_, ?_, ?_⟩
      · unfold roundAt
        rw [mul_assoc, ← zpow_add₀ (by norm_num)]
        rfl
      · have h8 : (0 : ℤ) ≤ roundEven (u / 2 ^ (e - ((b32.p : ℤ) - 1))) := by
          have : roundEven ((0 : ℤ) : ℚ) ≤ roundEven (u / 2 ^ (e - ((b32.p : ℤ) - 1))) :=
            roundEven_mono (by push_cast; exact div_nonneg hq.le (two_zpow_pos _).le)
          rwa [roundEven_int] at this
        rw [abs_of_nonneg h8]
        have h9 : (u : ℚ) / 2 ^ (e - ((b32.p : ℤ) - 1)) ≤ ((2 ^ b32.p : ℤ) : ℚ) := by
          rw [div_le_iff₀ (two_zpow_pos _)]
          push_cast
          rw [← zpow_natCast, ← zpow_add₀ (by norm_num)]
          exact h7.le.trans (zpow_le_iff.mpr (by omega))
        have := roundEven_mono h9
        rwa [roundEven_int] at this
      · show (-126 : ℤ) - ((24 : ℤ) - 1) ≤ e - ((24 : ℤ) - 1) - 32
        omega
  refine ⟨?_, hrep⟩
  unfold nextFloat
  rw [const32]
  unfold ofNat
  rw [toF32_unit (by positivity) hu']
  simp only [div]
  rw [if_neg (by norm_num)]
  have e : rnd b32 u / 2 ^ 32 = rnd b32 u * 2 ^ (-32 : ℤ) := by
    rw [zpow_neg, div_eq_mul_inv]; rfl
  rw [e]
  refine toF_rep (by decide) ⟨hrep, ?_⟩
  rw [abs_of_nonneg (mul_nonneg h0 (two_zpow_pos _).le)]
  have h2 : rnd b32 u * 2 ^ (-32 : ℤ) ≤ 2 ^ (32 : ℤ) * 2 ^ (-32 : ℤ) := mul_le_mul_of_nonneg_right h1 (two_zpow_pos _).le
  rw [← zpow_add₀ (by norm_num)] at h2
  exact h2.trans_lt (zpow_lt_iff.2 (by decide))

/-! ### Numbers in a range -/

/-- The scaled factor stays below the difference although that is rounded. -/
theorem scaled_le (hf : f.WF) {r lo hi : ℚ} (hr0 : 0 ≤ r) (hr : r ≤ 1 - 2 ^ (-(f.p : ℤ)) ∨ (r ≤ 1 ∧ Rep f (hi - lo)))
    (hlo : Rep f lo) (hhi : Rep f hi) (h : lo < hi) :
    rnd f (r * rnd f (hi - lo)) ≤ hi - lo ∧ r * rnd f (hi - lo) ≤ hi - lo := by
  have hT : 0 < hi - lo := sub_pos.2 h
  by_cases hrep : Rep f (hi - lo)
  · have hr1 : r ≤ 1 := by
      rcases hr with hr | hr
      · exact hr.trans (sub_le_self _ (two_zpow_pos _).le)
      · exact hr.1
    rw [rnd_rep hf.p2 hrep]
    have : r * (hi - lo) ≤ hi - lo := by nlinarith
    exact ⟨rnd_le_rep hf.p2 hrep this, this⟩
  · have hr1 : r ≤ 1 - 2 ^ (-(f.p : ℤ)) := hr.resolve_right fun h => hrep h.2
    have hbig : 2 ^ (f.emin + 1) ≤ hi - lo := by
      by_contra hc
      exact hrep (rep_sub_small hhi hlo (by rw [abs_of_pos hT]; exact not_le.1 hc))
    have hnorm : 2 ^ f.emin ≤ hi - lo := (zpow_le_iff.2 (by omega)).trans hbig
    have herr := (abs_le.1 (rnd_err (f := f) hnorm)).2
    have hd0 : 2 ^ (f.emin + 1) ≤ rnd f (hi - lo) := rep_le_rnd hf.p2 (rep_pow _ (by have := hf.p2; omega)) hbig
    have hdrep := rep_rnd (f := f) (hi - lo)
    have hmono := fun x => rnd_mono (f := f) hf.p2 (p := hi - lo) (q := x)
    have heps := two_zpow_pos (-(f.p : ℤ))
    generalize hdd : rnd f (hi - lo) = d at *
    generalize hε : (2 : ℚ) ^ (-(f.p : ℤ)) = ε at *
    generalize hi - lo = T at *
    have hdpos : 0 < d := (two_zpow_pos _).trans_le hd0
    have hx0 : 0 ≤ r * d := mul_nonneg hr0 hdpos.le
    have hx1 : r * d ≤ (1 - ε) * d := mul_le_mul_of_nonneg_right hr1 hdpos.le
    have hxT : r * d ≤ T := by
      have h1 : (1 - ε) * d ≤ (1 - ε) * (T + T * ε) := by
        apply mul_le_mul_of_nonneg_left (by linarith)
        linarith
      nlinarith [mul_pos hT (mul_pos heps heps)]
    refine ⟨?_, hxT⟩
    have hxd : rnd f (r * d) ≤ d := rnd_le_rep hf.p2 hdrep (by nlinarith)
    rcases hxd.lt_or_eq with hlt | heq
    · by_contra hc
      have := hmono (rnd f (r * d)) (not_le.1 hc).le
      rw [rnd_rep hf.p2 (rep_rnd _)] at this
      linarith
    · exfalso
      by_cases hn : 2 ^ f.emin ≤ r * d
      · have h2 := (abs_le.1 (rnd_err (f := f) hn)).2
        rw [heq, hε] at h2
        nlinarith [mul_pos hdpos (mul_pos heps heps), mul_le_mul_of_nonneg_right hx1 heps.le]
      · have h3 : rnd f (r * d) ≤ 2 ^ f.emin := rnd_le_rep hf.p2 (rep_pow _ (by have := hf.p2; omega)) (not_le.1 hn).le
        rw [heq] at h3
        have h4 := zpow_le_iff.1 (hd0.trans h3)
        omega

/-- The sum stays between the ends; rounded once or twice. -/
theorem between (hf : f.WF) (fused : Bool) {r lo hi : ℚ} (hr0 : 0 ≤ r)
    (hr : r ≤ 1 - 2 ^ (-(f.p : ℤ)) ∨ (r ≤ 1 ∧ Rep f (hi - lo))) (hlo : Fin f lo) (hhi : Fin f hi) (h : lo < hi)
    (hov : |rnd f (hi - lo)| < 2 ^ f.emax) :
    ∃ v, (if fused then fma f (.fin lo) (.fin r) (sub f (.fin hi) (.fin lo))
      else add f (.fin lo) (mul f (.fin r) (sub f (.fin hi) (.fin lo)))) = .fin v ∧ lo ≤ v ∧ v ≤ hi := by
  obtain ⟨h1, h2⟩ := scaled_le hf hr0 hr hlo.1 hhi.1 h
  have hd0 : 0 ≤ rnd f (hi - lo) := rnd_nonneg (sub_pos.2 h).le
  have hs : sub f (.fin hi) (.fin lo) = .fin (rnd f (hi - lo)) := by
    simp only [sub, toF]
    rw [if_pos hov]
  have hp0 : 0 ≤ r * rnd f (hi - lo) := mul_nonneg hr0 hd0
  have hr1 : r ≤ 1 := by
    rcases hr with hr | hr
    · exact hr.trans (sub_le_self _ (two_zpow_pos _).le)
    · exact hr.1
  rw [hs]
  have fin : ∀ x, 0 ≤ x → x ≤ hi - lo → toF f (lo + x) = .fin (rnd f (lo + x)) ∧ lo ≤ rnd f (lo + x) ∧ rnd f (lo + x) ≤ hi :=
    fun x hx0 hx1 => ⟨toF_fin hf hlo hhi (by linarith) (by linarith), rep_le_rnd hf.p2 hlo.1 (by linarith),
      rnd_le_rep hf.p2 hhi.1 (by linarith)⟩
  cases fused
  · have hm : mul f (.fin r) (.fin (rnd f (hi - lo))) = .fin (rnd f (r * rnd f (hi - lo))) := by
      simp only [mul]
      refine toF_fin hf (fin_zero hf) ⟨rep_rnd (f := f) (hi - lo), hov⟩ hp0 ?_
      nlinarith
    obtain ⟨a, b, c⟩ := fin _ (rnd_nonneg hp0) h1
    refine ⟨_, ?_, b, c⟩
    rw [if_neg (by simp), hm]
    exact a
  · obtain ⟨a, b, c⟩ := fin _ hp0 h2
    refine ⟨_, ?_, b, c⟩
    rw [if_pos rfl]
    exact a

/-- What the ends of a range must satisfy for a factor `r`: the difference does not overflow, and if `r` is 1 it is exact. -/
def Good (f : Fmt) (r lo hi : ℚ) : Prop :=
  |rnd f (hi - lo)| < 2 ^ f.emax ∧ (r = 1 → Rep f (hi - lo))

theorem inRange_between (hf : f.WF) (fused : Bool) {r lo hi : ℚ} (hr0 : 0 ≤ r) (hr1 : r ≤ 1) (hrep : Rep f r)
    (hlo : Fin f lo) (hhi : Fin f hi) (hg : Good f r lo hi) :
    ∃ v, inRange f fused (.fin r) (.fin lo) (.fin hi) = .fin v ∧ min lo hi ≤ v ∧ v ≤ max lo hi := by
  have key : ∀ {a b : ℚ}, (r = 1 → Rep f (b - a)) → (r ≤ 1 - 2 ^ (-(f.p : ℤ)) ∨ (r ≤ 1 ∧ Rep f (b - a))) := by
    intro a b h
    rcases hr1.lt_or_eq with h1 | h1
    · exact .inl (rep_below_one hf hrep h1)
    · exact .inr ⟨hr1, h h1⟩
  unfold inRange
  simp only [F32.lt, decide_eq_true_eq]
  rcases lt_trichotomy lo hi with h | h | h
  · rw [if_pos h, min_eq_left h.le, max_eq_right h.le]
    exact between hf fused hr0 (key hg.2) hlo hhi h hg.1
  · subst h
    exact ⟨lo, by simp, by simp, by simp⟩
  · rw [if_neg (not_lt.2 h.le), if_pos h, min_eq_right h.le, max_eq_left h.le]
    have e : lo - hi = -(hi - lo) := by ring
    refine between hf fused hr0 (key fun h1 => ?_) hhi hlo h ?_
    · rw [e]; exact (hg.2 h1).neg
    · rw [e, rnd_neg, abs_neg]; exact hg.1

/-! ### When the factor is 1 -/

theorem rnd32_top {u : ℕ} (h1 : 2 ^ 31 ≤ u) (h2 : u < 2 ^ 32) : rnd b32 u = roundEven (u / 256) * 256 := by
  rw [rnd_at (e := 31) (by decide) (by exact_mod_cast h1) (by exact_mod_cast h2)]
  unfold roundAt
  norm_num [b32]

theorem rnd32_one {u : ℕ} (hu : u < 2 ^ 32) : rnd b32 u = 2 ^ (32 : ℤ) ↔ 2 ^ 32 - 128 ≤ u := by
  constructor
  · intro h
    by_contra hc
    have h1 : (u : ℚ) ≤ ((2 ^ 32 - 129 : ℕ) : ℚ) := by exact_mod_cast (by omega : u ≤ 2 ^ 32 - 129)
    have h2 := rnd_mono (f := b32) (by decide) h1
    have e : roundEven (((2 ^ 32 - 129 : ℕ) : ℚ) / 256) = 2 ^ 24 - 1 := by
      unfold roundEven
      norm_num
    rw [h, rnd32_top (by decide) (by decide), e] at h2
    norm_num at h2
  · intro h
    apply le_antisymm
    · exact rnd_le_rep (by decide) (rep_pow 32 (by decide)) (by exact_mod_cast hu.le)
    · have h1 : ((2 ^ 32 - 128 : ℕ) : ℚ) ≤ (u : ℚ) := by exact_mod_cast h
      have h2 := rnd_mono (f := b32) (by decide) h1
      have e : roundEven (((2 ^ 32 - 128 : ℕ) : ℚ) / 256) = 2 ^ 24 := by
        unfold roundEven
        norm_num
      rw [rnd32_top (by decide) (by decide), e] at h2
      refine le_trans ?_ h2
      norm_num

/-- `nextFloat()` is between 0 and 1, and is 1 for the 128 greatest words. -/
theorem nextFloat_unit {u : ℕ} (hu : u < 2 ^ 32) :
    ∃ r, nextFloat u = .fin r ∧ Rep b32 r ∧ 0 ≤ r ∧ r ≤ 1 ∧ (r = 1 ↔ 2 ^ 32 - 128 ≤ u) := by
  obtain ⟨h, hrep⟩ := nextFloat_eq hu
  have hp := two_zpow_pos (-32)
  have e : (2 : ℚ) ^ (32 : ℤ) * 2 ^ (-32 : ℤ) = 1 := by rw [← zpow_add₀ (by norm_num)]; rfl
  have h1 : rnd b32 u ≤ 2 ^ (32 : ℤ) := rnd_le_rep (by decide) (rep_pow 32 (by decide)) (by exact_mod_cast hu.le)
  refine ⟨_, h, hrep, mul_nonneg (rnd_nonneg (by positivity)) hp.le, ?_, ?_⟩
  · rw [← e]
    exact mul_le_mul_of_nonneg_right h1 hp.le
  · rw [← rnd32_one hu, ← e]
    exact ⟨fun h => mul_right_cancel₀ hp.ne' h, fun h => by rw [h]⟩

/-- `nextDouble()` is between 0 and 1, and is 1 for the greatest word only. -/
theorem nextDouble_unit {u : ℕ} (hu : u < 2 ^ 32) :
    ∃ r, nextDouble u = .fin r ∧ Rep b64 r ∧ 0 ≤ r ∧ r ≤ 1 ∧ (r = 1 ↔ u = 2 ^ 32 - 1) := by
  have h1 : (u : ℚ) / 4294967295 ≤ 1 := by
    rw [div_le_one (by norm_num)]
    exact_mod_cast (by omega : u ≤ 4294967295)
  refine ⟨_, nextDouble_eq hu, rep_rnd _, rnd_nonneg (by positivity), rnd_le_rep (by decide) (fin_one b64_wf).1 h1, ?_, ?_⟩
  · intro h
    by_contra hc
    have h2 : (u : ℚ) ≤ 4294967294 := by exact_mod_cast (by omega : u ≤ 4294967294)
    have hz : Rep b64 (((2 ^ 33 - 1 : ℕ) : ℚ) * 2 ^ (-33 : ℤ)) := rep_scaled (by decide) _ (by decide)
    have h3 : (u : ℚ) / 4294967295 ≤ ((2 ^ 33 - 1 : ℕ) : ℚ) * 2 ^ (-33 : ℤ) := by
      rw [div_le_iff₀ (by norm_num)]
      refine h2.trans ?_
      norm_num
    have h4 := rnd_le_rep (f := b64) (by decide) hz h3
    rw [h] at h4
    norm_num at h4
  · rintro rfl
    have e : (((2 ^ 32 - 1 : ℕ) : ℚ) / 4294967295) = 1 := by norm_num
    rw [e]
    exact rnd_rep (by decide) (fin_one b64_wf).1

/-! ### The claim -/

/-- C139 (partial: the difference of the ends must not overflow, and for the words that give the factor 1 it must be exact).  For all words and all finite
ends, in either order, with one or two roundings: `nextFloat()` and `nextDouble()` are between 0 and 1, `nextDouble53()` is below 1, and
the versions with a range stay in it. -/
theorem C139_partial (fused : Bool) {u x y : ℕ} (hu : u < 2 ^ 32) (hx : x < 2 ^ 32) (hy : y < 2 ^ 32) :
    (∃ r, nextFloat u = .fin r ∧ 0 ≤ r ∧ r ≤ 1 ∧ ∀ lo hi, Fin b32 lo → Fin b32 hi → |rnd b32 (hi - lo)| < 2 ^ (128 : ℤ) →
      (2 ^ 32 - 128 ≤ u → Rep b32 (hi - lo)) →
      ∃ v, inRange b32 fused (nextFloat u) (.fin lo) (.fin hi) = .fin v ∧ min lo hi ≤ v ∧ v ≤ max lo hi) ∧
    (∃ r, nextDouble u = .fin r ∧ 0 ≤ r ∧ r ≤ 1 ∧ ∀ lo hi, Fin b64 lo → Fin b64 hi → |rnd b64 (hi - lo)| < 2 ^ (1024 : ℤ) →
      (u = 2 ^ 32 - 1 → Rep b64 (hi - lo)) →
      ∃ v, inRange b64 fused (nextDouble u) (.fin lo) (.fin hi) = .fin v ∧ min lo hi ≤ v ∧ v ≤ max lo hi) ∧
    (∃ r, nextDouble53 x y = .fin r ∧ 0 ≤ r ∧ r < 1 ∧ ∀ lo hi, Fin b64 lo → Fin b64 hi → |rnd b64 (hi - lo)| < 2 ^ (1024 : ℤ) →
      ∃ v, inRange b64 fused (nextDouble53 x y) (.fin lo) (.fin hi) = .fin v ∧ min lo hi ≤ v ∧ v ≤ max lo hi) := by
  obtain ⟨r, e, hrep, h0, h1, hone⟩ := nextFloat_unit hu
  obtain ⟨s, e', hrep', h0', h1', hone'⟩ := nextDouble_unit hu
  obtain ⟨e3, h3, hrep3⟩ := C98_exact hx hy
  have h30 : (0 : ℚ) ≤ Rand.num53 x y / 2 ^ 53 := by positivity
  refine ⟨⟨r, e, h0, h1, ?_⟩, ⟨s, e', h0', h1', ?_⟩, ⟨_, e3, h30, h3, ?_⟩⟩
  · intro lo hi hlo hhi hov hex
    rw [e]
    exact inRange_between b32_wf fused h0 h1 hrep hlo hhi ⟨hov, fun h => hex (hone.1 h)⟩
  · intro lo hi hlo hhi hov hex
    rw [e']
    exact inRange_between b64_wf fused h0' h1' hrep' hlo hhi ⟨hov, fun h => hex (hone'.1 h)⟩
  · intro lo hi hlo hhi hov
    rw [e3]
    exact inRange_between b64_wf fused h30 h3.le hrep3 hlo hhi ⟨hov, fun h => absurd h h3.ne⟩

/-- C139: `nextFloat()` reaches 1 for exactly 128 words, `nextDouble()` for one. -/
theorem C139_one {u : ℕ} (hu : u < 2 ^ 32) :
    (nextFloat u = .fin 1 ↔ 2 ^ 32 - 128 ≤ u) ∧ (nextDouble u = .fin 1 ↔ u = 2 ^ 32 - 1) := by
  obtain ⟨r, e, -, -, -, hone⟩ := nextFloat_unit hu
  obtain ⟨s, e', -, -, -, hone'⟩ := nextDouble_unit hu
  rw [e, e', ← hone, ← hone']
  exact ⟨by simp, by simp⟩

/-- C139 fails: if the difference of two finite ends overflows, no word gives a number of the range; the result is infinite, or not a number if the
factor is 0. -/
theorem C139_overflow_violated (fused : Bool) {r lo hi : ℚ} (h0 : 0 ≤ r) (h : lo < hi) (hov : 2 ^ f.emax ≤ |rnd f (hi - lo)|) :
    inRange f fused (.fin r) (.fin lo) (.fin hi) = if r = 0 then .nan else .inf false := by
  have hs : sub f (.fin hi) (.fin lo) = .inf false := by
    simp only [sub, toF]
    rw [if_neg (not_lt.2 hov)]
    simp [h.le]
  unfold inRange
  simp only [F32.lt, decide_eq_true_eq, if_pos h, hs]
  rcases h0.lt_or_eq with hr | rfl
  · have : ¬ r < 0 := not_lt.2 h0
    cases fused <;> simp [fma, mul, add, hr.ne', this]
  · cases fused <;> simp [fma, mul, add]

theorem rep_int32 (z k : ℤ) (hz : |z| ≤ 2 ^ 24) (hk : -149 ≤ k) : Rep b32 (z * 2 ^ k) := ⟨z, k, rfl, hz, hk⟩

/-- C139 fails: between -1 and 1.5 * 2^-24 the 128 greatest words give 2^-23, above the maximum; rounded once or twice. -/
theorem C139_above_violated (fused : Bool) {u : ℕ} (hu : u < 2 ^ 32) (h : 2 ^ 32 - 128 ≤ u) :
    inRange b32 fused (nextFloat u) (.fin (-1)) (.fin (3 * 2 ^ (-25 : ℤ))) = .fin (2 ^ (-23 : ℤ)) ∧
    Fin b32 (-1) ∧ Fin b32 (3 * 2 ^ (-25 : ℤ)) ∧ (3 * 2 ^ (-25 : ℤ) : ℚ) < 2 ^ (-23 : ℤ) := by
  have big : ∀ q : ℚ, |q| ≤ 2 → |q| < 2 ^ b32.emax := fun q hq =>
    hq.trans_lt (by
      have : (2 : ℚ) ^ (1 : ℤ) < 2 ^ b32.emax := zpow_lt_iff.2 (by decide)
      simpa using this)
  have hd : rnd b32 (3 * 2 ^ (-25 : ℤ) - -1) = 1 + 2 ^ (-23 : ℤ) := by
    rw [rnd_at (e := 0) (by decide) (by norm_num) (by norm_num)]
    have e : roundEven ((3 * 2 ^ (-25 : ℤ) - -1) / 2 ^ ((0 : ℤ) - ((b32.p : ℤ) - 1))) = 2 ^ 23 + 1 := by
      unfold roundEven b32
      norm_num
    unfold roundAt
    rw [e]
    norm_num [b32]
  have hrd : Rep b32 (1 + 2 ^ (-23 : ℤ)) := by
    have := rep_rnd (f := b32) (3 * 2 ^ (-25 : ℤ) - -1)
    rwa [hd] at this
  have hsub : sub b32 (.fin (3 * 2 ^ (-25 : ℤ))) (.fin (-1)) = .fin (1 + 2 ^ (-23 : ℤ)) := by
    simp only [sub, toF]
    rw [hd, if_pos (big _ (by rw [abs_of_nonneg] <;> norm_num))]
  have hres : toF b32 (-1 + (1 + 2 ^ (-23 : ℤ))) = .fin (2 ^ (-23 : ℤ)) := by
    rw [show (-1 + (1 + 2 ^ (-23 : ℤ)) : ℚ) = 2 ^ (-23 : ℤ) by ring]
    exact toF_rep (by decide) ⟨rep_pow _ (by decide), big _ (by rw [abs_of_nonneg] <;> norm_num)⟩
  refine ⟨?_, ⟨?_, big _ (by norm_num)⟩, ⟨?_, big _ (by rw [abs_of_nonneg] <;> norm_num)⟩, by norm_num⟩
  · rw [(C139_one hu).1.2 h]
    unfold inRange
    simp only [F32.lt, decide_eq_true_eq]
    rw [if_pos (by norm_num), hsub]
    cases fused
    · simp only [mul, one_mul]
      rw [toF_rep (by decide) ⟨hrd, big _ (by rw [abs_of_nonneg] <;> norm_num)⟩]
      exact hres
    · simp only [fma, one_mul]
      exact hres
  · have := rep_int32 (-1) 0 (by norm_num) (by norm_num)
    norm_num at this ⊢
    exact this
  · have := rep_int32 3 (-25) (by norm_num) (by norm_num)
    push_cast at this
    exact this

/-- The hypotheses of `C139_partial` hold for -1 and 1, for every word. -/
example {u : ℕ} (hu : u < 2 ^ 32) : ∃ v, inRange b32 false (nextFloat u) (.fin (-1)) (.fin 1) = .fin v ∧ min (-1) 1 ≤ v ∧ v ≤ max (-1) 1 := by
  obtain ⟨⟨r, -, -, -, h⟩, -⟩ := C139_partial false hu hu hu
  have h2 : Rep b32 (1 - -1) := by
    have := rep_pow (f := b32) 1 (by decide)
    norm_num at this ⊢
    exact this
  have hneg : Fin b32 (-1) := ⟨(fin_one b32_wf).1.neg, by rw [abs_neg]; exact (fin_one b32_wf).2⟩
  refine h (-1) 1 hneg (fin_one b32_wf) ?_ fun _ => h2
  rw [rnd_rep (by decide) h2]
  norm_num

/-- The ends -1.5 * 2^127 and 1.5 * 2^127 are finite and their difference overflows. -/
example : Fin b32 (3 * 2 ^ (126 : ℤ)) ∧ Fin b32 (-(3 * 2 ^ (126 : ℤ))) ∧ 2 ^ b32.emax ≤ |rnd b32 (3 * 2 ^ (126 : ℤ) - -(3 * 2 ^ (126 : ℤ)))| := by
  have h1 : Fin b32 (3 * 2 ^ (126 : ℤ)) := ⟨rep_int32 3 126 (by norm_num) (by norm_num), by rw [abs_of_nonneg (by positivity)]; norm_num [b32]⟩
  refine ⟨h1, ⟨h1.1.neg, by rw [abs_neg]; exact h1.2⟩, ?_⟩
  have h2 : Rep b32 (3 * 2 ^ (126 : ℤ) - -(3 * 2 ^ (126 : ℤ))) := by
    have := rep_int32 3 127 (by norm_num) (by norm_num)
    norm_num at this ⊢
    exact this
  rw [rnd_rep (by decide) h2, abs_of_nonneg (by positivity)]
  norm_num [b32]

end Verif.FG
