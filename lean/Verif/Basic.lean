/-
Outcomes, machine-word helpers and the bit-scan loop shared by all models.
-/
import Mathlib.Data.Nat.Bitwise
import Mathlib.Data.List.Basic

namespace Verif

/-- Outcome of a C++ computation on an object of type `σ` returning `α`.
`ok s a`    normal return, object left in state `s`;
`throw s`   an exception left the function, object left in state `s`;
`diverge`   the call never returns;
`ub`        undefined behaviour: access outside owned memory, write to the
            read-only static group, read of a slot that holds no element,
            or an over-long shift. -/
inductive Out (σ α : Type) : Type
  | ok (s : σ) (a : α)
  | throw (s : σ)
  | diverge
  | ub

/-- Outcome of a read-only computation (cannot change the object, cannot throw). -/
inductive Res (α : Type) : Type
  | ok (a : α)
  | diverge
  | ub
  deriving DecidableEq

namespace Res
/-- Sequencing of read-only computations. -/
def bind {α β : Type} : Res α → (α → Res β) → Res β
  | .ok a, f => f a
  | .diverge, _ => .diverge
  | .ub, _ => .ub
@[simp] theorem bind_ok {α β : Type} (a : α) (f : α → Res β) : (Res.ok a).bind f = f a := rfl
@[simp] theorem bind_diverge {α β : Type} (f : α → Res β) : (Res.diverge : Res α).bind f = .diverge := rfl
@[simp] theorem bind_ub {α β : Type} (f : α → Res β) : (Res.ub : Res α).bind f = .ub := rfl
end Res

namespace Out
/-- Sequencing of two steps on the same object; an exception, divergence or
undefined behaviour in the first step ends the computation. -/
def bind {σ α β : Type} : Out σ α → (σ → α → Out σ β) → Out σ β
  | .ok s a, f => f s a
  | .throw s, _ => .throw s
  | .diverge, _ => .diverge
  | .ub, _ => .ub
@[simp] theorem bind_ok {σ α β : Type} (s : σ) (a : α) (f : σ → α → Out σ β) :
    (Out.ok s a).bind f = f s a := rfl
@[simp] theorem bind_throw {σ α β : Type} (s : σ) (f : σ → α → Out σ β) :
    (Out.throw s : Out σ α).bind f = .throw s := rfl
end Out

/-- `size_t` is 64 bits wide (model of the 64-bit build, `JSTD_WORD_LEN == 64`). -/
def W : Nat := 2 ^ 64

/-! ### Bit scans -/

/-- `BitUtils::bsf32` (src/jstd/support/BitUtils.h:223-237, `__builtin_ctz`): index of the
lowest set bit.  The intrinsic is modelled by its documentation; the argument 0 (excluded by
`JSTD_ASSUME(x != 0)`) yields 32. -/
def bsf32 (m : Nat) : Nat := ((List.range 32).find? m.testBit).getD 32

/-- `BitUtils::clearLowBit32` (src/jstd/support/BitUtils.h:510-512). -/
def clearLowBit (m : Nat) : Nat := m &&& (m - 1)

/-- Positions visited by the loop
`while (mask != 0) { pos = bsf32(mask); ...; mask = clearLowBit32(mask); }`
(group15_flat_table.hpp:2299-2306, 1611-1620, 2142-2153; group16_flat_table.hpp:2015-2022,
2141-2149), in order.  The first argument is fuel; 32 is enough for a 32-bit mask
(theorem `scanBits_eq`). -/
def scanBits : Nat → Nat → List Nat
  | 0, _ => []
  | f + 1, m => if m = 0 then [] else bsf32 m :: scanBits f (clearLowBit m)

/-- The loop with its full fuel. -/
def bitsOf (m : Nat) : List Nat := scanBits 32 m

theorem exists_low_bit {m : Nat} (h : m ≠ 0) : ∃ p q, m = 2 ^ p * (2 * q + 1) := by
  induction m using Nat.strong_induction_on with
  | _ m ih =>
    rcases Nat.even_or_odd' m with ⟨c, rfl | rfl⟩
    · obtain ⟨p, q, hc⟩ := ih c (by omega) (by omega)
      exact ⟨p + 1, q, by rw [Nat.pow_succ, Nat.mul_comm (2 ^ p) 2, Nat.mul_assoc, ← hc]⟩
    · exact ⟨0, c, by simp⟩

theorem testBit_low {p q i : Nat} :
    (2 ^ p * (2 * q + 1)).testBit i = (decide (p ≤ i) && (2 * q + 1).testBit (i - p)) := by
  rw [Nat.testBit_two_pow_mul]

theorem clearLowBit_eq (p q : Nat) : clearLowBit (2 ^ p * (2 * q + 1)) = 2 ^ (p + 1) * q := by
  unfold clearLowBit
  have h1 : 2 ^ p * (2 * q + 1) - 1 = 2 ^ p * (2 * q) + (2 ^ p - 1) := by
    have := Nat.two_pow_pos p
    rw [Nat.mul_add, Nat.mul_one]; omega
  rw [h1]
  apply Nat.eq_of_testBit_eq
  intro i
  rw [Nat.testBit_and, Nat.testBit_two_pow_mul, Nat.testBit_two_pow_mul_add _ (by
    have := Nat.two_pow_pos p; omega), Nat.testBit_two_pow_mul]
  by_cases hi : i < p
  · have : ¬ p ≤ i := by omega
    have h2 : ¬ p + 1 ≤ i := by omega
    simp [this, h2]
  · simp only [hi, if_false]
    by_cases hip : i = p
    · subst hip; simp
    · have h3 : p ≤ i := by omega
      have h4 : p + 1 ≤ i := by omega
      obtain ⟨k, rfl⟩ : ∃ k, i = p + 1 + k := ⟨i - (p + 1), by omega⟩
      have : p + 1 + k - p = k + 1 := by omega
      rw [this]
      simp only [Nat.testBit_succ]
      have e1 : (2 * q + 1) / 2 = q := by omega
      have e2 : (2 * q) / 2 = q := by omega
      have e3 : p + 1 + k - (p + 1) = k := by omega
      rw [e1, e2, e3]
      simp [h3, h4]

theorem testBit_clearLowBit (p q i : Nat) :
    (clearLowBit (2 ^ p * (2 * q + 1))).testBit i
      = ((2 ^ p * (2 * q + 1)).testBit i && decide (i ≠ p)) := by
  rw [clearLowBit_eq, Nat.testBit_two_pow_mul, Nat.testBit_two_pow_mul]
  by_cases hi : p + 1 ≤ i
  · have h3 : p ≤ i := by omega
    have h5 : i ≠ p := by omega
    obtain ⟨k, rfl⟩ : ∃ k, i = p + 1 + k := ⟨i - (p + 1), by omega⟩
    have : p + 1 + k - p = k + 1 := by omega
    rw [this, Nat.testBit_succ]
    have e1 : (2 * q + 1) / 2 = q := by omega
    have e3 : p + 1 + k - (p + 1) = k := by omega
    simp [e1, e3, h3, h5, hi]
  · by_cases hp : i = p
    · simp [hp]
    · have : ¬ p ≤ i := by omega
      simp [hi, this]

theorem filter_low {p q n : Nat} (hn : p < n) :
    (List.range n).filter (2 ^ p * (2 * q + 1)).testBit
      = p :: (List.range n).filter (clearLowBit (2 ^ p * (2 * q + 1))).testBit := by
  obtain ⟨k, rfl⟩ : ∃ k, n = p + (1 + k) := ⟨n - p - 1, by omega⟩
  rw [List.range_add, List.filter_append, List.filter_append]
  have h1 : (List.range p).filter (2 ^ p * (2 * q + 1)).testBit = [] := by
    rw [List.filter_eq_nil_iff]
    intro a ha
    have := List.mem_range.1 ha
    rw [testBit_low]
    have : ¬ p ≤ a := by omega
    simp [this]
  have h2 : (List.range p).filter (clearLowBit (2 ^ p * (2 * q + 1))).testBit = [] := by
    rw [List.filter_eq_nil_iff]
    intro a ha
    have := List.mem_range.1 ha
    rw [testBit_clearLowBit, testBit_low]
    have : ¬ p ≤ a := by omega
    simp [this]
  rw [h1, h2, List.nil_append, List.nil_append, Nat.add_comm 1 k, List.range_succ_eq_map]
  simp only [List.map_cons, Nat.add_zero, List.map_map]
  rw [List.filter_cons_of_pos, List.filter_cons_of_neg]
  · congr 1
    apply List.filter_congr
    intro x hx
    rw [testBit_clearLowBit]
    obtain ⟨y, hy, rfl⟩ := List.mem_map.1 hx
    simp
  · rw [testBit_clearLowBit]; simp
  · rw [testBit_low]; simp

theorem bsf32_low {p q : Nat} (h : p < 32) : bsf32 (2 ^ p * (2 * q + 1)) = p := by
  unfold bsf32
  have : (List.range 32).find? (2 ^ p * (2 * q + 1)).testBit = some p := by
    rw [← List.head?_filter, filter_low h]; rfl
  rw [this]; rfl

theorem low_lt {p q n : Nat} (h : 2 ^ p * (2 * q + 1) < 2 ^ n) : p < n := by
  by_contra hc
  have h1 : 2 ^ n ≤ 2 ^ p := Nat.pow_le_pow_right (by omega) (by omega)
  have h2 : 2 ^ p ≤ 2 ^ p * (2 * q + 1) := Nat.le_mul_of_pos_right _ (by omega)
  omega

theorem clearLowBit_lt {m n : Nat} (h : m < 2 ^ n) : clearLowBit m < 2 ^ n :=
  lt_of_le_of_lt Nat.and_le_left h

theorem filter_testBit_extend {m a n : Nat} (h : m < 2 ^ a) (han : a ≤ n) :
    (List.range n).filter m.testBit = (List.range a).filter m.testBit := by
  obtain ⟨k, rfl⟩ : ∃ k, n = a + k := ⟨n - a, by omega⟩
  rw [List.range_add, List.filter_append]
  have : ((List.range k).map (a + ·)).filter m.testBit = [] := by
    rw [List.filter_eq_nil_iff]
    intro x hx
    obtain ⟨y, _, rfl⟩ := List.mem_map.1 hx
    have : m < 2 ^ (a + y) := lt_of_lt_of_le h (Nat.pow_le_pow_right (by omega) (by omega))
    simp [Nat.testBit_lt_two_pow this]
  rw [this, List.append_nil]

theorem scanBits_eq {n : Nat} (hn : n ≤ 32) : ∀ (f m : Nat), m < 2 ^ n →
    ((List.range n).filter m.testBit).length ≤ f →
    scanBits f m = (List.range n).filter m.testBit := by
  intro f
  induction f with
  | zero =>
    intro m _ hl
    have : (List.range n).filter m.testBit = [] := List.length_eq_zero_iff.1 (by omega)
    rw [this]; rfl
  | succ f ih =>
    intro m hm hl
    by_cases h0 : m = 0
    · subst h0; simp [scanBits]
    · obtain ⟨p, q, rfl⟩ := exists_low_bit h0
      have hp : p < n := low_lt hm
      simp only [scanBits, h0, if_false]
      rw [bsf32_low (by omega), filter_low hp]
      congr 1
      apply ih
      · exact clearLowBit_lt hm
      · rw [filter_low hp, List.length_cons] at hl; omega

/-- The bit-scan loop visits exactly the set bits, ascending. -/
theorem bitsOf_eq {n m : Nat} (hn : n ≤ 32) (hm : m < 2 ^ n) :
    bitsOf m = (List.range n).filter m.testBit := by
  unfold bitsOf
  apply scanBits_eq hn _ _ hm
  calc _ ≤ (List.range n).length := List.length_filter_le _ _
    _ = n := List.length_range
    _ ≤ 32 := hn

theorem bsf32_spec {m : Nat} (h0 : m ≠ 0) (hm : m < 2 ^ 32) :
    m.testBit (bsf32 m) = true ∧ ∀ i, m.testBit i = true → bsf32 m ≤ i := by
  obtain ⟨p, q, rfl⟩ := exists_low_bit h0
  have hp := low_lt hm
  rw [bsf32_low hp]
  refine ⟨by simp [testBit_low], ?_⟩
  intro i hi
  rw [testBit_low] at hi
  simp at hi
  exact hi.1

end Verif
