/-
Model of `group_quadratic_prober` (src/jstd/hashmap/group_quadratic_prober.hpp).
-/
import Mathlib.Data.Fintype.EquivFin
import Mathlib.Data.Nat.Bitwise
import Mathlib.Data.Nat.ModEq
import Mathlib.Data.Nat.Prime.Basic
import Mathlib.Tactic.Ring
import Mathlib.Tactic.Linarith

namespace Verif

/-- Prober state: `index_`, `step_` (group_quadratic_prober.hpp:96-98). -/
structure Prober where
  index : Nat
  step : Nat
  deriving DecidableEq, Repr

/-- Constructor (group_quadratic_prober.hpp:70). -/
def Prober.mk0 (index : Nat) : Prober := ⟨index, 0⟩

/-- `get()` (group_quadratic_prober.hpp:72-74). -/
def Prober.get (p : Prober) : Nat := p.index

/-- `next_bucket(mask)` (group_quadratic_prober.hpp:89-93).  The additions are on `size_t`;
they cannot wrap because `index, step <= mask < 2^63` whenever it is called by the tables, so
they are modelled on `Nat`. -/
def Prober.next (p : Prober) (mask : Nat) : Prober × Bool :=
  let step := p.step + 1
  (⟨(p.index + step) &&& mask, step⟩, decide (step ≤ mask))

/-- Prober state after `n` calls of `next_bucket`. -/
def Prober.iter (mask : Nat) (p : Prober) : Nat → Prober
  | 0 => p
  | n + 1 => ((Prober.iter mask p n).next mask).1

/-- Index of the `n`-th bucket visited from start `h`. -/
def probe (mask h n : Nat) : Nat := (Prober.iter mask (Prober.mk0 h) n).get

@[simp] theorem iter_step (mask h n : Nat) : (Prober.iter mask (Prober.mk0 h) n).step = n := by
  induction n with
  | zero => rfl
  | succ n ih => simp [Prober.iter, Prober.next, ih]

theorem probe_zero (mask h : Nat) : probe mask h 0 = h := rfl

theorem probe_succ (mask h n : Nat) : probe mask h (n + 1) = (probe mask h n + (n + 1)) &&& mask := by
  simp [probe, Prober.iter, Prober.next, Prober.get]

theorem probe_eq {k h : Nat} (hh : h < 2 ^ k) (n : Nat) :
    probe (2 ^ k - 1) h n = (h + n * (n + 1) / 2) % 2 ^ k := by
  induction n with
  | zero => simp [probe_zero, Nat.mod_eq_of_lt hh]
  | succ n ih =>
    rw [probe_succ, ih, Nat.and_two_pow_sub_one_eq_mod]
    have : (n + 1) * (n + 1 + 1) / 2 = n * (n + 1) / 2 + (n + 1) := by
      have : (n + 1) * (n + 1 + 1) = n * (n + 1) + (n + 1) * 2 := by ring
      rw [this, Nat.add_mul_div_right _ _ (by omega)]
    rw [this, Nat.mod_add_mod, Nat.add_assoc]

theorem probe_lt {k h : Nat} (hh : h < 2 ^ k) (n : Nat) : probe (2 ^ k - 1) h n < 2 ^ k := by
  rw [probe_eq hh]; exact Nat.mod_lt _ (Nat.two_pow_pos k)

theorem tri_inj {k m n : Nat} (hmn : m < n) (hn : n < 2 ^ k) (h : Nat) :
    (h + m * (m + 1) / 2) % 2 ^ k ≠ (h + n * (n + 1) / 2) % 2 ^ k := by
  intro he
  have hd : 2 ^ k ∣ (h + n * (n + 1) / 2) - (h + m * (m + 1) / 2) :=
    (Nat.modEq_iff_dvd' (by
      apply Nat.add_le_add_left; apply Nat.div_le_div_right; nlinarith)).1 he
  have hsub : (h + n * (n + 1) / 2) - (h + m * (m + 1) / 2)
      = n * (n + 1) / 2 - m * (m + 1) / 2 := by omega
  rw [hsub] at hd
  have hem : 2 ∣ m * (m + 1) := (Nat.even_mul_succ_self m).two_dvd
  have hen : 2 ∣ n * (n + 1) := (Nat.even_mul_succ_self n).two_dvd
  obtain ⟨a, ha⟩ := hem
  obtain ⟨b, hb⟩ := hen
  rw [ha, hb, Nat.mul_div_cancel_left _ (by omega), Nat.mul_div_cancel_left _ (by omega)] at hd
  obtain ⟨d, rfl⟩ : ∃ d, n = m + d + 1 := ⟨n - m - 1, by omega⟩
  have hprod : 2 ^ (k + 1) ∣ (d + 1) * (2 * m + d + 2) := by
    have : (d + 1) * (2 * m + d + 2) = 2 * (b - a) := by
      have h1 : (m + d + 1) * (m + d + 1 + 1) = m * (m + 1) + (d + 1) * (2 * m + d + 2) := by ring
      rw [ha, hb] at h1; omega
    rw [this, Nat.pow_succ, Nat.mul_comm]
    exact Nat.mul_dvd_mul_left 2 hd
  have hpw : 2 ^ (k + 1) = 2 * 2 ^ k := by rw [Nat.pow_succ]; omega
  rcases Nat.even_or_odd' d with ⟨c, rfl | rfl⟩
  · have hcop : Nat.Coprime (2 ^ (k + 1)) (2 * c + 1) :=
      Nat.Coprime.pow_left _ (Nat.coprime_two_left.2 ⟨c, rfl⟩)
    have := Nat.le_of_dvd (by omega) (hcop.dvd_of_dvd_mul_left hprod)
    omega
  · have hcop : Nat.Coprime (2 ^ (k + 1)) (2 * m + (2 * c + 1) + 2) :=
      Nat.Coprime.pow_left _ (Nat.coprime_two_left.2 ⟨m + c + 1, by ring⟩)
    have := Nat.le_of_dvd (by omega) (hcop.dvd_of_dvd_mul_right hprod)
    omega

theorem probe_inj {k h m n : Nat} (hh : h < 2 ^ k) (hm : m < 2 ^ k) (hn : n < 2 ^ k)
    (he : probe (2 ^ k - 1) h m = probe (2 ^ k - 1) h n) : m = n := by
  rw [probe_eq hh, probe_eq hh] at he
  rcases lt_trichotomy m n with hlt | heq | hgt
  · exact absurd he (tri_inj hlt hn h)
  · exact heq
  · exact absurd he.symm (tri_inj hgt hm h)

theorem probe_surj {k h : Nat} (hh : h < 2 ^ k) {g : Nat} (hg : g < 2 ^ k) :
    ∃ n, n < 2 ^ k ∧ probe (2 ^ k - 1) h n = g := by
  let f : Fin (2 ^ k) → Fin (2 ^ k) := fun n => ⟨probe (2 ^ k - 1) h n, probe_lt hh n⟩
  have hinj : Function.Injective f := by
    intro a b hab
    exact Fin.ext (probe_inj hh a.2 b.2 (Fin.mk.inj hab))
  obtain ⟨n, hn⟩ := Finite.surjective_of_injective hinj ⟨g, hg⟩
  exact ⟨n, n.2, Fin.mk.inj hn⟩

end Verif
