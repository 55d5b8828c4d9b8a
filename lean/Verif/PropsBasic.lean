/-
Properties C18 (quadratic prober) and C20 (bit-scan loops).
-/
import Verif.Prober
import Verif.Basic
import Mathlib.Data.List.Nodup
import Mathlib.Data.List.Range

namespace Verif

/-! ### C18 -/

/-- Buckets seen by the loop
`do { visit(prober.get()); } while (prober.next_bucket(mask));`
(the probing loops of group15_flat_table.hpp:2288-2321 and group16_flat_table.hpp:2130-2164 when nothing stops them
earlier), with fuel; `none` means that `next_bucket` was still true when the fuel ran out. -/
def proberLoop (mask : Nat) : Nat → Prober → Option (List Nat)
  | 0, _ => none
  | f + 1, p =>
    match p.next mask with
    | (p', true) => (proberLoop mask f p').map (p.get :: ·)
    | (_, false) => some [p.get]

theorem proberLoop_eq (mask h : Nat) : ∀ (f n : Nat), n ≤ mask → mask < n + f →
    proberLoop mask f (Prober.iter mask (Prober.mk0 h) n) =
      some ((List.range (mask + 1 - n)).map fun i => probe mask h (n + i)) := by
  intro f
  induction f with
  | zero => intro n h1 h2; omega
  | succ f ih =>
    intro n h1 h2
    have hnext : (Prober.iter mask (Prober.mk0 h) n).next mask =
        (Prober.iter mask (Prober.mk0 h) (n + 1), decide (n + 1 ≤ mask)) := by
      simp [Prober.iter, Prober.next]
    have hget : (Prober.iter mask (Prober.mk0 h) n).get = probe mask h n := rfl
    unfold proberLoop
    rw [hnext, hget]
    by_cases hm : n + 1 ≤ mask
    · simp only [hm, decide_true]
      rw [ih (n + 1) hm (by omega)]
      have : mask + 1 - n = (mask + 1 - (n + 1)) + 1 := by omega
      rw [this, List.range_succ_eq_map]
      simp only [Option.map_some, List.map_cons, List.map_map, Nat.add_zero, Option.some.injEq, List.cons.injEq, true_and]
      apply List.map_congr_left
      intro a _
      simp only [Function.comp]
      congr 1; omega
    · have : mask + 1 - n = 1 := by omega
      simp [hm, this]

/-- C18. For every table of `2^k` buckets and every start bucket, the probing loop ends by itself and has then visited every
bucket exactly once: the visited list is a permutation of `0, …, 2^k - 1`, beginning with the start bucket.  (Any fuel of at
least `2^k` gives the same list, so the loop makes exactly `2^k` visits.) -/
theorem C18_prober_visits_each_bucket_once {k h : Nat} (hh : h < 2 ^ k) {f : Nat} (hf : 2 ^ k ≤ f) :
    ∃ l, proberLoop (2 ^ k - 1) f (Prober.mk0 h) = some l ∧ l.Perm (List.range (2 ^ k)) ∧ l.head? = some h := by
  have h2 := Nat.two_pow_pos k
  have e : 2 ^ k - 1 + 1 - 0 = 2 ^ k := by omega
  refine ⟨_, proberLoop_eq (2 ^ k - 1) h f 0 (by omega) (by omega), ?_, ?_⟩
  · rw [e]
    simp only [Nat.zero_add]
    rw [List.perm_ext_iff_of_nodup _ List.nodup_range]
    · intro a
      simp only [List.mem_map, List.mem_range]
      constructor
      · rintro ⟨n, _, rfl⟩; exact probe_lt hh n
      · intro ha; exact probe_surj hh ha
    · refine (List.nodup_map_iff_inj_on List.nodup_range).mpr ?_
      intro a ha b hb hab
      exact probe_inj hh (List.mem_range.mp ha) (List.mem_range.mp hb) hab
  · rw [e]
    have : 2 ^ k = (2 ^ k - 1) + 1 := by omega
    rw [this, List.range_succ_eq_map]
    simp [probe_zero]

/-- The walk over eight buckets from bucket 5. -/
example : proberLoop 7 8 (Prober.mk0 5) = some [5, 6, 0, 3, 7, 4, 2, 1] := by decide

/-- C18, when the loop ends: the `n`-th call of `next_bucket` returns true exactly for `n < 2^k`. -/
theorem C18_next_bucket_result (k h n : Nat) :
    ((Prober.iter (2 ^ k - 1) (Prober.mk0 h) n).next (2 ^ k - 1)).2 = decide (n + 1 < 2 ^ k) := by
  have := Nat.two_pow_pos k
  simp only [Prober.next, iter_step, decide_eq_decide]
  omega

example : ((Prober.iter (2 ^ 3 - 1) (Prober.mk0 5) 6).next (2 ^ 3 - 1)).2 = true ∧
    ((Prober.iter (2 ^ 3 - 1) (Prober.mk0 5) 7).next (2 ^ 3 - 1)).2 = false := by decide

/-! ### C20 -/

/-- C20. For every 32-bit mask the bit-scan loop visits exactly the set bits, each once, in ascending order; any fuel of at least
32 gives the same result, so the loop ends after as many rounds as there are set bits. -/
theorem C20_bit_scan_loop {m : Nat} (hm : m < 2 ^ 32) :
    (bitsOf m).Pairwise (· < ·) ∧ (∀ i, i ∈ bitsOf m ↔ m.testBit i = true) ∧
    ∀ f, (bitsOf m).length ≤ f → scanBits f m = bitsOf m := by
  have h := bitsOf_eq (Nat.le_refl 32) hm
  refine ⟨?_, ?_, ?_⟩
  · rw [h]; exact List.Pairwise.filter _ List.pairwise_lt_range
  · intro i
    rw [h, List.mem_filter, List.mem_range]
    refine ⟨fun h => h.2, fun h1 => ⟨?_, h1⟩⟩
    by_contra hi
    rw [Nat.testBit_lt_two_pow (Nat.lt_of_lt_of_le hm (Nat.pow_le_pow_right (by decide) (by omega)))] at h1
    cases h1
  · intro f hf
    rw [h] at hf ⊢
    exact scanBits_eq (Nat.le_refl 32) f m hm hf

example : bitsOf 0b1000000000000000000000000101101 = [0, 2, 3, 5, 30] := by decide +kernel

end Verif
