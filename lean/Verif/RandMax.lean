/-
`LibcRand::rand32` and `rand64` for all values of `RAND_MAX` above 0xFFFF (C97).

LR = src/jstd/system/LibcRand.h
-/
import Verif.RandomWords
import Mathlib.Algebra.BigOperators.Group.Finset.Basic
import Mathlib.Algebra.Order.BigOperators.Group.Finset
import Mathlib.Tactic.Linarith
import Mathlib.Tactic.Ring
import Mathlib.Algebra.Group.Action.Defs

namespace Verif.Rand

/-- `LibcRand::rand32` with `RAND_MAX >= 0xFFFF` (LR:109-113); `R` is `RAND_MAX`. -/
def rand32Of (R a b : Nat) : Nat := ((a &&& R) <<< 16 ||| (b &&& R)) % 2 ^ 32

/-- `LibcRand::rand64` with `RAND_MAX >= 0xFFFF` (LR:133-139). -/
def rand64Of (R a b c d : Nat) : Nat := ((a &&& R) <<< 48 ||| (b &&& R) <<< 32 ||| (c &&& R) <<< 16 ||| (d &&& R)) % 2 ^ 64

/-- The functions of `Random` and `RandomWords` are instances. -/
theorem rand32Of_wide (a b : Nat) : rand32Of 0x7FFFFFFF a b = rand32Wide a b ∧ rand32Of 0xFFFF a b = rand32Half a b := ⟨rfl, rfl⟩

theorem rand64Of_wide (a b c d : Nat) : rand64Of 0x7FFFFFFF a b c d = rand64Wide a b c d ∧ rand64Of 0xFFFF a b c d = rand64Half a b c d := ⟨rfl, rfl⟩

/-! ### Lemmas -/

theorem low_of_and {R x : Nat} (hR : R % 2 ^ 16 = 2 ^ 16 - 1) (h : (x &&& R) % 2 ^ 16 = 0) : x % 2 ^ 16 = 0 := by
  rw [Nat.and_mod_two_pow, hR, Nat.and_two_pow_sub_one_eq_mod, Nat.mod_mod] at h
  exact h

/-- `RAND_MAX` without its low half is a value of the library that is not masked to 0. -/
theorem top_and {R e : Nat} (hR : R + 1 = 2 ^ 16 * e) (he : 2 ≤ e) : ((e - 1) * 2 ^ 16 &&& R) ≠ 0 := by
  have h1 : R = (e - 1) <<< 16 ||| (2 ^ 16 - 1) := by
    rw [or_last _ _ _ (by decide)]
    omega
  have h2 : (e - 1) * 2 ^ 16 = (e - 1) <<< 16 := (Nat.shiftLeft_eq _ _).symm
  have h3 : (e - 1) <<< 16 &&& ((e - 1) <<< 16 ||| (2 ^ 16 - 1)) = (e - 1) <<< 16 := by
    apply Nat.eq_of_testBit_eq
    intro i
    rw [Nat.testBit_and, Nat.testBit_or]
    cases Nat.testBit ((e - 1) <<< 16) i <;> simp
  rw [h2, h1, h3, Nat.shiftLeft_eq]
  omega

/-- The library values whose low half is 0. -/
def lows (R : Nat) : Finset Nat := (Finset.range (R + 1)).filter fun x => x % 2 ^ 16 = 0

theorem lows_card {R e : Nat} (hR : R + 1 = 2 ^ 16 * e) : (lows R).card = e := by
  have h := hits_eq (R + 1) (2 ^ 16) 0 (by decide)
  unfold hits at h
  rw [Nat.zero_mod] at h
  unfold lows
  rw [h, hR, Nat.mul_div_cancel_left _ (by decide), Nat.mul_mod_right, if_neg (Nat.not_lt_zero _), Nat.add_zero]

theorem lows_erase_card {R e : Nat} (hR : R + 1 = 2 ^ 16 * e) (he : 2 ≤ e) : ((lows R).erase ((e - 1) * 2 ^ 16)).card = e - 1 := by
  rw [Finset.card_erase_of_mem, lows_card hR]
  simp only [lows, Finset.mem_filter, Finset.mem_range, Nat.mul_mod_left, and_true]
  omega

/-- A value that is masked to 0. -/
theorem mem_erase_of_and {R e x : Nat} (hR : R + 1 = 2 ^ 16 * e) (he : 2 ≤ e) (hx : x < R + 1) (h : x &&& R = 0) : x ∈ (lows R).erase ((e - 1) * 2 ^ 16) := by
  rw [Finset.mem_erase]
  refine ⟨?_, ?_⟩
  · rintro rfl
    exact top_and hR he h
  · simp only [lows, Finset.mem_filter, Finset.mem_range]
    exact ⟨hx, low_of_and (R := R) (by omega) (by rw [h, Nat.zero_mod])⟩

/-! ### C97 -/

/-- C97, violated: for no `RAND_MAX` above 0xFFFF is `rand32` uniform, even if the library is. -/
theorem C97_other_max32 (R : Nat) (h1 : 0xFFFF < R) (h2 : R < 2 ^ 31) :
    ¬ ∃ N, ∀ v, v < 2 ^ 32 →
      ((Finset.range (R + 1) ×ˢ Finset.range (R + 1)).filter fun p => rand32Of R p.1 p.2 = v).card = N := by
  rintro ⟨N, hN⟩
  have hsum := Finset.card_eq_sum_card_fiberwise (s := Finset.range (R + 1) ×ˢ Finset.range (R + 1)) (t := Finset.range (2 ^ 32))
    (f := fun p : Nat × Nat => rand32Of R p.1 p.2) (fun p _ => Finset.mem_coe.mpr (Finset.mem_range.mpr (Nat.mod_lt _ (by decide))))
  rw [Finset.sum_congr rfl (fun v hv => hN v (Finset.mem_range.mp hv)), Finset.sum_const, Finset.card_product, Finset.card_range, Finset.card_range,
    smul_eq_mul] at hsum
  have hdvd : 2 ^ 16 ∣ R + 1 := by
    rw [← Nat.pow_dvd_pow_iff (n := 2) (by decide)]
    exact ⟨N, by rw [Nat.pow_two, hsum, ← Nat.pow_mul]⟩
  obtain ⟨e, he⟩ := hdvd
  have he2 : 2 ≤ e := by omega
  have hNe : N = e * e := by
    have : 2 ^ 32 * N = 2 ^ 32 * (e * e) := by
      rw [← hsum, he]
      ring
    exact Nat.eq_of_mul_eq_mul_left (by decide) this
  have hsub : ((Finset.range (R + 1) ×ˢ Finset.range (R + 1)).filter fun p => rand32Of R p.1 p.2 = 0) ⊆ lows R ×ˢ (lows R).erase ((e - 1) * 2 ^ 16) := by
    rintro ⟨a, b⟩ hp
    simp only [Finset.mem_filter, Finset.mem_product, Finset.mem_range] at hp
    obtain ⟨⟨ha, hb⟩, h0⟩ := hp
    unfold rand32Of at h0
    rw [Nat.or_mod_two_pow, Nat.or_eq_zero_iff, Nat.shiftLeft_eq] at h0
    have hb' : b &&& R = 0 := by
      have := Nat.and_le_right (n := b) (m := R)
      omega
    rw [Finset.mem_product]
    refine ⟨?_, mem_erase_of_and he he2 hb hb'⟩
    simp only [lows, Finset.mem_filter, Finset.mem_range]
    exact ⟨ha, low_of_and (R := R) (by omega) (by omega)⟩
  have hle := Finset.card_le_card hsub
  rw [hN 0 (by decide), Finset.card_product, lows_card he, lows_erase_card he he2, hNe] at hle
  have := Nat.le_of_mul_le_mul_left hle (by omega)
  omega

/-- C97, violated: nor is `rand64`. -/
theorem C97_other_max64 (R : Nat) (h1 : 0xFFFF < R) (h2 : R < 2 ^ 31) :
    ¬ ∃ N, ∀ v, v < 2 ^ 64 →
      ((Finset.range (R + 1) ×ˢ Finset.range (R + 1) ×ˢ Finset.range (R + 1) ×ˢ Finset.range (R + 1)).filter
        fun p => rand64Of R p.1 p.2.1 p.2.2.1 p.2.2.2 = v).card = N := by
  rintro ⟨N, hN⟩
  have hsum := Finset.card_eq_sum_card_fiberwise (s := Finset.range (R + 1) ×ˢ Finset.range (R + 1) ×ˢ Finset.range (R + 1) ×ˢ Finset.range (R + 1))
    (t := Finset.range (2 ^ 64)) (f := fun p : Nat × Nat × Nat × Nat => rand64Of R p.1 p.2.1 p.2.2.1 p.2.2.2)
    (fun p _ => Finset.mem_coe.mpr (Finset.mem_range.mpr (Nat.mod_lt _ (by decide))))
  rw [Finset.sum_congr rfl (fun v hv => hN v (Finset.mem_range.mp hv)), Finset.sum_const, Finset.card_product, Finset.card_product, Finset.card_product,
    Finset.card_range, Finset.card_range, smul_eq_mul] at hsum
  have hdvd : 2 ^ 16 ∣ R + 1 := by
    rw [← Nat.pow_dvd_pow_iff (n := 4) (by decide)]
    exact ⟨N, by rw [← Nat.pow_mul, ← hsum]; ring⟩
  obtain ⟨e, he⟩ := hdvd
  have he2 : 2 ≤ e := by omega
  have hNe : N = e * (e * (e * e)) := by
    have : 2 ^ 64 * N = 2 ^ 64 * (e * (e * (e * e))) := by
      rw [← hsum, he]
      ring
    exact Nat.eq_of_mul_eq_mul_left (by decide) this
  have hsub : ((Finset.range (R + 1) ×ˢ Finset.range (R + 1) ×ˢ Finset.range (R + 1) ×ˢ Finset.range (R + 1)).filter
        fun p => rand64Of R p.1 p.2.1 p.2.2.1 p.2.2.2 = 0) ⊆
      lows R ×ˢ (lows R).erase ((e - 1) * 2 ^ 16) ×ˢ (lows R).erase ((e - 1) * 2 ^ 16) ×ˢ (lows R).erase ((e - 1) * 2 ^ 16) := by
    rintro ⟨a, b, c, d⟩ hp
    simp only [Finset.mem_filter, Finset.mem_product, Finset.mem_range] at hp
    obtain ⟨⟨ha, hb, hc, hd⟩, h0⟩ := hp
    unfold rand64Of at h0
    simp only [Nat.or_mod_two_pow, Nat.or_eq_zero_iff, Nat.shiftLeft_eq] at h0
    have hle : ∀ x, x &&& R ≤ R := fun x => Nat.and_le_right
    have lb := hle b
    have lc := hle c
    have ld := hle d
    simp only [Finset.mem_product]
    refine ⟨?_, mem_erase_of_and he he2 hb (by omega), mem_erase_of_and he he2 hc (by omega), mem_erase_of_and he he2 hd (by omega)⟩
    simp only [lows, Finset.mem_filter, Finset.mem_range]
    exact ⟨ha, low_of_and (R := R) (by omega) (by omega)⟩
  have hle := Finset.card_le_card hsub
  rw [hN 0 (by decide), Finset.card_product, Finset.card_product, Finset.card_product, lows_card he, lows_erase_card he he2, hNe] at hle
  have h3 := Nat.le_of_mul_le_mul_left hle (by omega)
  obtain ⟨k, rfl⟩ : ∃ k, e = k + 1 := ⟨e - 1, by omega⟩
  rw [Nat.add_sub_cancel] at h3
  nlinarith [Nat.zero_le (k * k)]

/-- The hypotheses hold for instance for `RAND_MAX` 0x3FFFFFFF and 99999. -/
example : 0xFFFF < 0x3FFFFFFF ∧ 0x3FFFFFFF < 2 ^ 31 ∧ 0xFFFF < 99999 ∧ 99999 < 2 ^ 31 := by decide

end Verif.Rand
