/-
`HashMapAnalyzer`: the distribution of the elements over the buckets (C155).

HA = src/jstd/hashmap/hashmap_analyzer.h

The rates are exact fractions: the rounding of `double` is not modelled.  `calc_std_deviation` and `calc_std_errors` (HA:188-233), the name (HA:138-154) and the
printing (HA:392-443) are not modelled.  A counter of a loop over the buckets cannot exceed the number of buckets and is not reduced; `total_count` is.
-/
import Verif.Buckets
import Mathlib.Data.Rat.Floor
import Mathlib.Tactic.Linarith
import Mathlib.Tactic.FieldSimp
import Mathlib.Tactic.Ring

namespace Verif.Analyzer

/-! ### The model -/

/-- What the analyzer asks its container (HA:114-136): `size()`, `entry_count()` if there is one, `bucket_count()` and `bucket_size(n)`. -/
structure Cont where
  size : Nat
  entryCount : Option Nat
  bucketCount : Nat
  bucketSize : Nat → Nat

/-- `entry_count()` (HA:118-124). -/
def entryCount (c : Cont) : Nat :=
  match c.entryCount with
  | some n => n
  | none => c.bucketCount

/-- `bucket_mask()` (HA:126-128). -/
def bucketMask (c : Cont) : Nat := (c.bucketCount + W - 1) % W

/-- The loop of `read_bucket_sizes` (HA:163-168) for `k` more buckets from `i` on: the sizes and the total. -/
def readLoop (f : Nat → Nat) : Nat → Nat → Nat → List Nat × Nat
  | 0, _, total => ([], total)
  | k + 1, i, total =>
    let r := readLoop f k (i + 1) ((total + f i) % W)
    (f i :: r.1, r.2)

/-- The loop of `get_max_bucket_count` (HA:175-186). -/
def maxLoop : List Nat → Nat → Nat
  | [], m => m
  | x :: l, m => maxLoop l (if x > m then x else m)

/-- The loop of `calc_usage_count` (HA:242-253). -/
def usageLoop : List Nat → Nat → Nat
  | [], n => n
  | x :: l, n => usageLoop l (if x > 0 then n + 1 else n)

/-- The loop of `calc_conflict_count` (HA:288-300). -/
def conflictLoop : List Nat → Nat → Nat
  | [], n => n
  | x :: l, n => conflictLoop l (if x > 1 then n + 1 else n)

/-- The loop of `calc_perfect_count` (HA:322-334). -/
def perfectLoop : List Nat → Nat → Nat
  | [], n => n
  | x :: l, n => perfectLoop l (if x = 1 then n + 1 else n)

/-- A count as a percentage of another one, 0 if that is 0 (HA:255-272, 302-320, 336-354). -/
def rate (count total : Nat) : Rat := (if total ≠ 0 then (count : Rat) / total else 0) * 100

/-- `calc_coverage_rate` (HA:235-240). -/
def coverageRate (c : Cont) : Rat := if entryCount c ≠ 0 then (c.size : Rat) / entryCount c * 100 else 0

/-- `calc_unused_rate` (HA:274-282); the difference is one of `size_t`. -/
def unusedRate (c : Cont) (usage : Nat) : Rat :=
  (if c.size ≠ 0 then (((c.size + W - usage) % W : Nat) : Rat) / c.size else 0) * 100

/-- `Result` (HA:40-69), without the two deviations. -/
structure Result where
  entrySize : Nat
  entryCapacity : Nat
  bucketMask : Nat
  bucketCapacity : Nat
  maxBucketCount : Nat
  coverageRate : Rat
  usageRate : Rat
  usageRateTotal : Rat
  unusedRate : Rat
  unusedRateTotal : Rat
  conflictRate : Rat
  conflictRateTotal : Rat
  perfectRate : Rat
  perfectRateTotal : Rat

/-- How `start_analyse` ends: an assertion fails, it returns `false`, or it returns `true` with a result. -/
inductive Analysis where
  | abort
  | nothing
  | done (r : Result)

/-- `start_analyse` (HA:357-390, 170-172); `dbg`: with assertions. -/
def analyse (dbg : Bool) (c : Cont) : Analysis :=
  let r := readLoop c.bucketSize c.bucketCount 0 0
  if dbg && decide (r.2 ≠ c.size) then .abort
  else if r.2 > 0 then
    let usage := usageLoop r.1 0
    let conflict := conflictLoop r.1 0
    let perfect := perfectLoop r.1 0
    .done
      { entrySize := c.size
        entryCapacity := entryCount c
        bucketMask := bucketMask c
        bucketCapacity := c.bucketCount
        maxBucketCount := maxLoop r.1 0
        coverageRate := coverageRate c
        usageRate := rate usage c.size
        usageRateTotal := rate usage r.1.length
        unusedRate := unusedRate c usage
        unusedRateTotal := 100 - rate usage r.1.length
        conflictRate := rate conflict c.size
        conflictRateTotal := rate conflict r.1.length
        perfectRate := rate perfect c.size
        perfectRateTotal := rate perfect r.1.length }
  else .nothing

/-- A group15 map as the container: no `entry_count()`, `bucket_count()` and `bucket_size(n)` of T15 = src/jstd/hashmap/group15_flat_table.hpp (T15:594-595, 578-580). -/
def ofGroup15 {K V : Type} (t : Table K V) : Cont :=
  { size := t.size
    entryCount := none
    bucketCount := t.capacity layout15
    bucketSize := fun _ => 1 }

/-- A group16 map as the container: no `entry_count()`, `bucket_count()` and `bucket_size(n)` of T16 = src/jstd/hashmap/group16_flat_table.hpp (T16:554-555). -/
def ofGroup16 {K V : Type} (t : Table K V) : Cont :=
  { size := t.size
    entryCount := none
    bucketCount := Buckets.countGroup16 t
    bucketSize := Buckets.bucketSize16 t }

/-! ### The loops -/

theorem readLoop_fst (f : Nat → Nat) (k i total : Nat) : (readLoop f k i total).1 = (List.range' i k).map f := by
  induction k generalizing i total with
  | zero => rfl
  | succ k ih => simp only [readLoop, ih, List.range'_succ, List.map_cons]

theorem readLoop_snd (f : Nat → Nat) (k i total : Nat) (ht : total < W) :
    (readLoop f k i total).2 = (total + ((List.range' i k).map f).sum) % W := by
  induction k generalizing i total with
  | zero => simp [readLoop, Nat.mod_eq_of_lt ht]
  | succ k ih =>
    simp only [readLoop]
    rw [ih _ _ (Nat.mod_lt _ (by decide)), List.range'_succ, List.map_cons, List.sum_cons, Nat.mod_add_mod, Nat.add_assoc]

theorem usageLoop_eq (l : List Nat) (n : Nat) : usageLoop l n = n + (l.filter (fun x => decide (0 < x))).length := by
  induction l generalizing n with
  | nil => rfl
  | cons x l ih =>
    simp only [usageLoop, ih, List.filter_cons]
    by_cases h : 0 < x <;> simp [h]
    omega

theorem conflictLoop_eq (l : List Nat) (n : Nat) : conflictLoop l n = n + (l.filter (fun x => decide (1 < x))).length := by
  induction l generalizing n with
  | nil => rfl
  | cons x l ih =>
    simp only [conflictLoop, ih, List.filter_cons]
    by_cases h : 1 < x <;> simp [h]
    omega

theorem perfectLoop_eq (l : List Nat) (n : Nat) : perfectLoop l n = n + (l.filter (fun x => decide (x = 1))).length := by
  induction l generalizing n with
  | nil => rfl
  | cons x l ih =>
    simp only [perfectLoop, ih, List.filter_cons]
    by_cases h : x = 1 <;> simp [h]
    omega

theorem maxLoop_spec (l : List Nat) (m : Nat) :
    m ≤ maxLoop l m ∧ (∀ x ∈ l, x ≤ maxLoop l m) ∧ (maxLoop l m = m ∨ maxLoop l m ∈ l) := by
  induction l generalizing m with
  | nil => exact ⟨Nat.le_refl _, by simp, Or.inl rfl⟩
  | cons x l ih =>
    obtain ⟨h1, h2, h3⟩ := ih (if x > m then x else m)
    simp only [maxLoop]
    by_cases h : x > m
    · rw [if_pos h] at *
      refine ⟨by omega, ?_, ?_⟩
      · intro y hy
        rcases List.mem_cons.mp hy with rfl | hy
        · exact h1
        · exact h2 y hy
      · rcases h3 with h3 | h3
        · right; rw [h3]; exact List.mem_cons_self
        · right; exact List.mem_cons_of_mem _ h3
    · rw [if_neg h] at *
      refine ⟨h1, ?_, ?_⟩
      · intro y hy
        rcases List.mem_cons.mp hy with rfl | hy
        · omega
        · exact h2 y hy
      · rcases h3 with h3 | h3
        · left; exact h3
        · right; exact List.mem_cons_of_mem _ h3

theorem filter_pos_le_sum (l : List Nat) : (l.filter (fun x => decide (0 < x))).length ≤ l.sum := by
  induction l with
  | nil => simp
  | cons x l ih =>
    rw [List.filter_cons, List.sum_cons]
    by_cases h : 0 < x <;> simp [h] <;> omega

theorem filter_split (l : List Nat) :
    (l.filter (fun x => decide (1 < x))).length + (l.filter (fun x => decide (x = 1))).length = (l.filter (fun x => decide (0 < x))).length := by
  induction l with
  | nil => rfl
  | cons x l ih =>
    simp only [List.filter_cons]
    rcases Nat.lt_or_ge 1 x with h | h
    · simp [h, show ¬ x = 1 by omega, show 0 < x by omega]; omega
    · by_cases h1 : x = 1
      · subst h1; simp; omega
      · simp [show x = 0 by omega]; omega

theorem rate_mono {a b n : Nat} (h : a ≤ b) : rate a n ≤ rate b n := by
  unfold rate
  split
  · have h' : (a : Rat) ≤ b := by exact_mod_cast h
    have : (a : Rat) / n ≤ b / n := div_le_div_of_nonneg_right h' (Nat.cast_nonneg n)
    linarith
  · exact le_refl _

theorem rate_nonneg (a n : Nat) : 0 ≤ rate a n := by
  unfold rate
  split
  · have : (0 : Rat) ≤ (a : Rat) / n := div_nonneg (Nat.cast_nonneg a) (Nat.cast_nonneg n)
    linarith
  · norm_num

theorem rate_le {a n : Nat} (h : a ≤ n) : rate a n ≤ 100 := by
  refine le_trans (rate_mono h) ?_
  unfold rate
  split
  · rename_i h0
    have : (n : Rat) / n = 1 := div_self (by exact_mod_cast h0)
    rw [this]; norm_num
  · norm_num

theorem rate_add (a b n : Nat) : rate a n + rate b n = rate (a + b) n := by
  unfold rate
  split
  · push_cast; ring
  · norm_num

/-! ### The claims -/

/-- The number of buckets whose size satisfies `p`. -/
def buckets (c : Cont) (p : Nat → Bool) : Nat := ((List.range c.bucketCount).filter fun i => p (c.bucketSize i)).length

theorem filter_map_range (c : Cont) (p : Nat → Bool) :
    (((List.range' 0 c.bucketCount).map c.bucketSize).filter p).length = buckets c p := by
  unfold buckets
  rw [List.filter_map, List.length_map, List.range_eq_range']
  rfl

/-- C155 (partial): if the sizes of the buckets add up to `size()`, then no assertion fails, the analysis fails for the empty container only, and otherwise it counts
the buckets: those that are used, used by several elements and used by one, in percent of the elements and of the buckets; no rate is above 100 percent, the used and unused ones
add up to 100 percent, and `max_bucket_count` is the size of a largest bucket.  Missing: containers whose `bucket_size` is something else, see `C155_group16`. -/
theorem C155_analyse_partial (dbg : Bool) (c : Cont) (hs : ((List.range c.bucketCount).map c.bucketSize).sum = c.size) (hw : c.size < W) :
    (c.size = 0 → analyse dbg c = .nothing) ∧
    (c.size ≠ 0 → ∃ r, analyse dbg c = .done r ∧
      r.entrySize = c.size ∧ r.bucketCapacity = c.bucketCount ∧
      r.usageRate * c.size = 100 * buckets c (fun x => decide (0 < x)) ∧
      r.conflictRate * c.size = 100 * buckets c (fun x => decide (1 < x)) ∧
      r.perfectRate * c.size = 100 * buckets c (fun x => decide (x = 1)) ∧
      r.usageRateTotal * c.bucketCount = 100 * buckets c (fun x => decide (0 < x)) ∧
      r.conflictRateTotal * c.bucketCount = 100 * buckets c (fun x => decide (1 < x)) ∧
      r.perfectRateTotal * c.bucketCount = 100 * buckets c (fun x => decide (x = 1)) ∧
      0 < r.usageRate ∧ r.usageRate ≤ 100 ∧ r.usageRateTotal ≤ 100 ∧
      r.usageRate + r.unusedRate = 100 ∧ r.usageRateTotal + r.unusedRateTotal = 100 ∧
      r.conflictRate + r.perfectRate = r.usageRate ∧ r.conflictRateTotal + r.perfectRateTotal = r.usageRateTotal ∧
      (c.entryCount = none → r.coverageRate * c.bucketCount = 100 * c.size) ∧
      (∀ n, c.entryCount = some n → n ≠ 0 → r.coverageRate * n = 100 * c.size) ∧
      (c.bucketCount < W → r.bucketMask + 1 = c.bucketCount) ∧
      (∀ n, c.entryCount = some n → r.entryCapacity = n) ∧ (c.entryCount = none → r.entryCapacity = c.bucketCount) ∧
      (∀ i, i < c.bucketCount → c.bucketSize i ≤ r.maxBucketCount) ∧
      (∃ i, i < c.bucketCount ∧ c.bucketSize i = r.maxBucketCount) ∧ 0 < r.maxBucketCount) := by
  have h2 : (readLoop c.bucketSize c.bucketCount 0 0).2 = c.size := by
    rw [readLoop_snd _ _ _ _ (by decide), ← List.range_eq_range', hs, Nat.zero_add, Nat.mod_eq_of_lt hw]
  have h1 := readLoop_fst c.bucketSize c.bucketCount 0 0
  constructor
  · intro h0
    simp [analyse, h2, h0]
  · intro h0
    have hu := usageLoop_eq ((List.range' 0 c.bucketCount).map c.bucketSize) 0
    have hc := conflictLoop_eq ((List.range' 0 c.bucketCount).map c.bucketSize) 0
    have hp := perfectLoop_eq ((List.range' 0 c.bucketCount).map c.bucketSize) 0
    have hsp := filter_split ((List.range' 0 c.bucketCount).map c.bucketSize)
    have hle := filter_pos_le_sum ((List.range' 0 c.bucketCount).map c.bucketSize)
    rw [← List.range_eq_range', hs, List.range_eq_range'] at hle
    rw [filter_map_range] at hu hc hp hle
    rw [filter_map_range, filter_map_range, filter_map_range] at hsp
    have hub : buckets c (fun x => decide (0 < x)) ≤ c.bucketCount := by
      unfold buckets
      refine le_trans (List.length_filter_le _ _) (by rw [List.length_range])
    have hbc : c.bucketCount ≠ 0 := by
      intro h
      rw [h] at hs
      exact h0 hs.symm
    obtain ⟨-, m2, m3⟩ := maxLoop_spec ((List.range' 0 c.bucketCount).map c.bucketSize) 0
    have hall : ∀ i, i < c.bucketCount → c.bucketSize i ≤ maxLoop ((List.range' 0 c.bucketCount).map c.bucketSize) 0 := fun i hi =>
      m2 _ (List.mem_map.mpr ⟨i, by rw [← List.range_eq_range']; exact List.mem_range.mpr hi, rfl⟩)
    have hmp : 0 < maxLoop ((List.range' 0 c.bucketCount).map c.bucketSize) 0 := by
      apply Nat.pos_of_ne_zero
      intro hz
      apply h0
      rw [← hs]
      apply List.sum_eq_zero
      intro x hx
      obtain ⟨i, hi, rfl⟩ := List.mem_map.mp hx
      have := hall i (List.mem_range.mp hi)
      omega
    have hmm : ∃ i, i < c.bucketCount ∧ c.bucketSize i = maxLoop ((List.range' 0 c.bucketCount).map c.bucketSize) 0 := by
      rcases m3 with m3 | m3
      · omega
      · obtain ⟨i, hi, h⟩ := List.mem_map.mp m3
        rw [← List.range_eq_range'] at hi
        exact ⟨i, List.mem_range.mp hi, h⟩
    have hupos : 0 < buckets c (fun x => decide (0 < x)) := by
      obtain ⟨i, hi, h⟩ := hmm
      unfold buckets
      apply List.length_pos_of_mem (a := i)
      rw [List.mem_filter]
      exact ⟨List.mem_range.mpr hi, by rw [h]; exact decide_eq_true hmp⟩
    have q0 : (c.size : Rat) ≠ 0 := by exact_mod_cast h0
    have qb : (c.bucketCount : Rat) ≠ 0 := by exact_mod_cast hbc
    have rsz : ∀ a, rate a c.size * c.size = 100 * a := by
      intro a; unfold rate; rw [if_pos h0]; field_simp
    have rbc : ∀ a, rate a c.bucketCount * c.bucketCount = 100 * a := by
      intro a; unfold rate; rw [if_pos hbc]; field_simp
    have hlen : ((List.range' 0 c.bucketCount).map c.bucketSize).length = c.bucketCount := by simp
    rw [Nat.zero_add] at hu hc hp
    have hA : analyse dbg c = .done
        { entrySize := c.size, entryCapacity := entryCount c, bucketMask := bucketMask c, bucketCapacity := c.bucketCount
          maxBucketCount := maxLoop ((List.range' 0 c.bucketCount).map c.bucketSize) 0
          coverageRate := coverageRate c
          usageRate := rate (buckets c (fun x => decide (0 < x))) c.size
          usageRateTotal := rate (buckets c (fun x => decide (0 < x))) c.bucketCount
          unusedRate := unusedRate c (buckets c (fun x => decide (0 < x)))
          unusedRateTotal := 100 - rate (buckets c (fun x => decide (0 < x))) c.bucketCount
          conflictRate := rate (buckets c (fun x => decide (1 < x))) c.size
          conflictRateTotal := rate (buckets c (fun x => decide (1 < x))) c.bucketCount
          perfectRate := rate (buckets c (fun x => decide (x = 1))) c.size
          perfectRateTotal := rate (buckets c (fun x => decide (x = 1))) c.bucketCount } := by
      unfold analyse
      simp only [h1, h2, hu, hc, hp, hlen]
      rw [if_neg (by simp), if_pos (by omega)]
    refine ⟨_, hA, ?_⟩
    · refine ⟨rfl, rfl, rsz _, rsz _, rsz _, rbc _, rbc _, rbc _, ?_, rate_le hle, rate_le hub, ?_, by ring, ?_, ?_, ?_, ?_, ?_, ?_, ?_, hall, hmm, hmp⟩
      · show 0 < rate _ _
        unfold rate
        rw [if_pos h0]
        have : (0 : Rat) < buckets c (fun x => decide (0 < x)) := by exact_mod_cast hupos
        have h' : (0 : Rat) < c.size := by exact_mod_cast Nat.pos_of_ne_zero h0
        have := div_pos this h'
        linarith
      · show rate _ _ + unusedRate _ _ = 100
        unfold rate unusedRate
        rw [if_pos h0, if_pos h0]
        rw [show (c.size + W - buckets c (fun x => decide (0 < x))) % W = c.size - buckets c (fun x => decide (0 < x)) by
          rw [show c.size + W - buckets c (fun x => decide (0 < x)) = c.size - buckets c (fun x => decide (0 < x)) + W by omega,
            Nat.add_mod_right, Nat.mod_eq_of_lt (by omega)]]
        rw [Nat.cast_sub hle]
        field_simp
        ring
      · show rate _ _ + rate _ _ = rate _ _
        rw [rate_add, hsp]
      · show rate _ _ + rate _ _ = rate _ _
        rw [rate_add, hsp]
      · intro hn
        show coverageRate c * _ = _
        unfold coverageRate entryCount
        rw [hn]
        simp only
        rw [if_pos hbc]
        field_simp
      · intro n hn hn0
        show coverageRate c * _ = _
        have : (n : Rat) ≠ 0 := by exact_mod_cast hn0
        unfold coverageRate entryCount
        rw [hn]
        simp only
        rw [if_pos hn0]
        field_simp
      · intro hb
        show (c.bucketCount + W - 1) % W + 1 = _
        rw [show c.bucketCount + W - 1 = c.bucketCount - 1 + W by omega, Nat.add_mod_right, Nat.mod_eq_of_lt (by omega)]
        omega
      · intro n hn
        show entryCount c = n
        unfold entryCount
        rw [hn]
      · intro hn
        show entryCount c = _
        unfold entryCount
        rw [hn]

theorem analyse_ones (c : Cont) (h1 : ∀ i, c.bucketSize i = 1) (hs : c.size < c.bucketCount) (hw : c.bucketCount < W) :
    analyse true c = .abort ∧
    ∃ r, analyse false c = .done r ∧
      r.usageRateTotal = 100 ∧ r.maxBucketCount = 1 ∧
      (c.size ≠ 0 → 100 < r.usageRate ∧ r.unusedRate * c.size = 100 * ((c.size + W - c.bucketCount : Nat) : Rat)) := by
  have hl : (List.range' 0 c.bucketCount).map c.bucketSize = List.replicate c.bucketCount 1 := by
    rw [List.eq_replicate_iff]
    refine ⟨by simp, ?_⟩
    intro x hx
    obtain ⟨i, _, rfl⟩ := List.mem_map.mp hx
    exact h1 i
  have r1 : (readLoop c.bucketSize c.bucketCount 0 0).1 = List.replicate c.bucketCount 1 := by
    rw [readLoop_fst]; exact hl
  have h2 : (readLoop c.bucketSize c.bucketCount 0 0).2 = c.bucketCount := by
    rw [readLoop_snd _ _ _ _ (by decide)]
    show (0 + ((List.range' 0 c.bucketCount).map c.bucketSize).sum) % W = _
    rw [hl, List.sum_replicate_nat, Nat.zero_add, Nat.mul_one, Nat.mod_eq_of_lt hw]
  have hu : usageLoop (List.replicate c.bucketCount 1) 0 = c.bucketCount := by
    rw [usageLoop_eq, Nat.zero_add, List.filter_replicate_of_pos (by decide), List.length_replicate]
  constructor
  · unfold analyse
    simp only [h2]
    have hne : c.bucketCount ≠ c.size := Nat.ne_of_gt hs
    rw [decide_eq_true hne]
    rfl
  · refine ⟨_, by
      unfold analyse
      simp only [r1, h2, hu]
      rw [if_neg (by simp), if_pos (by omega)], ?_, ?_, ?_⟩
    · show rate _ _ = 100
      have : (c.bucketCount : Rat) ≠ 0 := by exact_mod_cast (show c.bucketCount ≠ 0 by omega)
      rw [List.length_replicate]
      unfold rate
      rw [if_pos (by omega), div_self this]
      norm_num
    · show maxLoop _ 0 = 1
      obtain ⟨_, m2, m3⟩ := maxLoop_spec (List.replicate c.bucketCount 1) 0
      have h3 := m2 1 (List.mem_replicate.mpr ⟨by omega, rfl⟩)
      rcases m3 with m3 | m3
      · omega
      · exact List.eq_of_mem_replicate m3
    · intro h0
      have q0 : (0 : Rat) < c.size := by exact_mod_cast Nat.pos_of_ne_zero h0
      constructor
      · show 100 < rate c.bucketCount c.size
        unfold rate
        rw [if_pos h0]
        have h3 : (c.size : Rat) < c.bucketCount := by exact_mod_cast hs
        have h4 : 1 < (c.bucketCount : Rat) / c.size := (one_lt_div q0).mpr h3
        linarith
      · show (if c.size ≠ 0 then (((c.size + W - c.bucketCount) % W : Nat) : Rat) / c.size else 0) * 100 * c.size = _
        rw [if_pos h0, Nat.mod_eq_of_lt (by omega)]
        have := q0.ne'
        field_simp

/-- C155, group16, violated: `bucket_size` is 1 for every bucket.  Unless every slot has an element, the assertion of `read_bucket_sizes` fails; without assertions the
analysis of an empty map with storage is a success, and for a map that is not empty the usage is above 100 percent and the unused rate is the one of a count near 2^64. -/
theorem C155_group16 {K V : Type} (t : Table K V) (hs : t.size < Buckets.countGroup16 t) (hw : Buckets.countGroup16 t < W) :
    analyse true (ofGroup16 t) = .abort ∧
    ∃ r, analyse false (ofGroup16 t) = .done r ∧
      r.usageRateTotal = 100 ∧ r.maxBucketCount = 1 ∧
      (t.size ≠ 0 → 100 < r.usageRate ∧ r.unusedRate * t.size = 100 * ((t.size + W - Buckets.countGroup16 t : Nat) : Rat)) :=
  analyse_ones (ofGroup16 t) (fun _ => rfl) hs hw

/-- C155, group15, violated in the same way. -/
theorem C155_group15 {K V : Type} (t : Table K V) (hs : t.size < t.capacity layout15) (hw : t.capacity layout15 < W) :
    analyse true (ofGroup15 t) = .abort ∧
    ∃ r, analyse false (ofGroup15 t) = .done r ∧
      r.usageRateTotal = 100 ∧ r.maxBucketCount = 1 ∧
      (t.size ≠ 0 → 100 < r.usageRate ∧ r.unusedRate * t.size = 100 * ((t.size + W - t.capacity layout15 : Nat) : Rat)) :=
  analyse_ones (ofGroup15 t) (fun _ => rfl) hs hw

/-- C155, maps without storage: there are no buckets, and the analysis fails as it should. -/
theorem C155_group_fresh_partial {K V : Type} (dbg : Bool) (mlf : Nat) :
    analyse dbg (ofGroup16 (emptyTable layout16 mlf : Table K V)) = .nothing ∧
    analyse dbg (ofGroup15 (emptyTable layout15 mlf : Table K V)) = .nothing := by
  cases dbg <;> exact ⟨rfl, rfl⟩

/-! ### Examples -/

/-- C155: four buckets with three, no, one and two elements. -/
example : ∃ c : Cont, ((List.range c.bucketCount).map c.bucketSize).sum = c.size ∧ c.size < W ∧ c.size ≠ 0 ∧ c.bucketCount = 4 :=
  ⟨⟨6, none, 4, fun i => if i = 0 then 3 else if i = 2 then 1 else if i = 3 then 2 else 0⟩, by decide +kernel, by decide, by decide, rfl⟩

/-- C155, empty: no elements in eight buckets. -/
example : ∃ c : Cont, ((List.range c.bucketCount).map c.bucketSize).sum = c.size ∧ c.size < W ∧ c.size = 0 ∧ c.bucketCount = 8 :=
  ⟨⟨0, some 8, 8, fun _ => 0⟩, by decide +kernel, by decide, rfl, rfl⟩

/-- C155, group16: a map of 20 elements that was built by insertions. -/
example : ∃ t : Table Nat Nat, Reachable layout16 idEnv (walk16 true) t ∧
    (decide (t.size < Buckets.countGroup16 t) && decide (Buckets.countGroup16 t < W) && t.size == 20) = true :=
  exists_reachable 0 (insertsFrom 0 20) _ (by decide +kernel)

/-- C155, group15. -/
example : ∃ t : Table Nat Nat, Reachable layout15 idEnv walk15 t ∧
    (decide (t.size < t.capacity layout15) && decide (t.capacity layout15 < W) && t.size == 20) = true :=
  exists_reachable 0 (insertsFrom 0 20) _ (by decide +kernel)

end Verif.Analyzer
