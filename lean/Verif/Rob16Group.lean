/-
The groups of `robin16_hash_map` at the level of machine words: the AVX2 version that the table model stands for (two mask bits for a
slot), and the AVX-512 version (one bit).  Property C93.
-/
import Verif.Rob16Run
import Mathlib.Data.Nat.Bitwise

namespace Verif.Rob16

/-! ### Instructions -/

/-- 16-bit word `i` of a 256-bit word (little endian, as in memory). -/
def lane (v i : Nat) : Nat := v / 2 ^ (16 * i) % 65536

/-- The word whose 16-bit words are `f 0, f 1, ..., f (n-1)`. -/
def lanes (f : Nat → Nat) : Nat → Nat
  | 0 => 0
  | n + 1 => lanes f n + 2 ^ (16 * n) * (f n % 65536)

/-- A 16-bit word read as `int16_t`. -/
def signed16 (b : Nat) : Int := if b < 32768 then b else (b : Int) - 65536
/-- An integer as a 16-bit word, with the signed saturation of `adds`. -/
def saturate16 (x : Int) : Nat := ((max (-32768) (min 32767 x)) % 65536).toNat

/-- `_mm256_set1_epi16`. -/
def set1 (c : Nat) : Nat := lanes (fun _ => c) 16
/-- `_mm256_setr_epi16(0, 1, ..., 15)`: `kDistanceBase` (R16:776-778). -/
def base : Nat := lanes (fun i => i) 16
/-- `_mm256_srli_epi16(v, 8)`. -/
def srli8 (v : Nat) : Nat := lanes (fun i => lane v i / 256) 16
/-- `_mm256_cmpeq_epi16`. -/
def cmpeq (a b : Nat) : Nat := lanes (fun i => if lane a i = lane b i then 65535 else 0) 16
/-- `_mm256_setones_si256` (src/jstd/support/BitVec.h:894-900). -/
def ones : Nat := cmpeq 0 0
/-- `_mm256_cmpgt_epi16`: signed comparison. -/
def cmpgt (a b : Nat) : Nat := lanes (fun i => if signed16 (lane b i) < signed16 (lane a i) then 65535 else 0) 16
/-- `_mm256_adds_epi16`: signed addition with saturation. -/
def addSat (a b : Nat) : Nat := lanes (fun i => saturate16 (signed16 (lane a i) + signed16 (lane b i))) 16
/-- `_mm256_andnot_si256(a, b)`: `~a & b`. -/
def andnot (a b : Nat) : Nat := ((2 ^ 256 - 1) ^^^ a) &&& b
/-- `_mm256_movemask_epi8`: the top bits of the 32 bytes. -/
def movemask (v : Nat) : Nat := moveMask (fun j => v.testBit (8 * j + 7)) 32
/-- `_mm256_movepi16_mask`: the top bits of the 16 words. -/
def movepi16 (v : Nat) : Nat := moveMask (fun j => v.testBit (16 * j + 15)) 16

/-! ### The AVX2 version (R16:685-969); `v` are the 16 control words -/

/-- The 16 control words from `g` on as they lie in memory (R16:207-227: the distance is the low byte, the hash the high one). -/
def loadWords (g : Nat → Ctrl) : Nat := lanes (fun i => (g i).dist % 256 + 256 * ((g i).tag % 256)) 16

/-- `matchLowTag` (R16:728-738), before the mask is taken. -/
def lowEq (v c : Nat) : Nat := cmpeq (set1 c) (v &&& srli8 ones)
/-- `matchHighTag`, `matchHash` (R16:740-752), before the mask is taken. -/
def highEq (v c : Nat) : Nat := cmpeq (set1 c) (srli8 v)
/-- `matchUsed` (R16:758-768), before the mask is taken. -/
def belowEnd (v : Nat) : Nat := cmpgt (set1 bEnd) (v &&& srli8 ones)
/-- `matchUsedOrEndOf` (R16:875-897), before the mask is taken. -/
def belowEmpty (v : Nat) : Nat := cmpgt (srli8 ones) (v &&& srli8 ones)
/-- `matchEmptyOrZero` (R16:845-873), before the mask is taken. -/
def emptyOrZero (v : Nat) : Nat := cmpeq (v &&& srli8 ones) (srli8 ones) ||| cmpeq (v &&& srli8 ones) 0
/-- `empty_mask` of `matchHashAndDistance` (R16:784-794), `result_mask` of `matchEmptyAndDistance` (R16:905-914). -/
def emptyOrNear (v d : Nat) : Nat := cmpeq (set1 bEmpty) (v &&& srli8 ones) ||| cmpgt (addSat (set1 d) base) (v &&& srli8 ones)
/-- `result_mask` of `matchHashAndDistance` (R16:795-796). -/
def hashAndDist (v tg d : Nat) : Nat := andnot (emptyOrNear v d) (cmpeq (srli8 v) (set1 tg))

/-- A mask of the AVX2 version with one bit for a slot: the comparison is shifted before `movemask` (R16:736-737 and the like). -/
def mask2 (m : Nat) : Nat := movemask (srli8 m)
/-- The mask of `matchEmptyAndDistance` (R16:915-917: the shift is commented out). -/
def maskBoth (m : Nat) : Nat := movemask m
/-- `bitPos(pos)` (R16:963-965). -/
def bitPos (p : Nat) : Nat := p / 2

/-! ### Lemmas about the instructions -/

theorem lanes_lt (f : Nat → Nat) (n : Nat) : lanes f n < 2 ^ (16 * n) := by
  induction n with
  | zero => simp [lanes]
  | succ n ih =>
    have : 2 ^ (16 * (n + 1)) = 2 ^ (16 * n) * 65536 := by rw [Nat.mul_succ, Nat.pow_add]
    have h2 : f n % 65536 < 65536 := Nat.mod_lt _ (by decide)
    unfold lanes
    rw [this]
    calc _ < 2 ^ (16 * n) + 2 ^ (16 * n) * (f n % 65536) := by omega
      _ = 2 ^ (16 * n) * (f n % 65536 + 1) := by rw [Nat.mul_add, Nat.mul_one, Nat.add_comm]
      _ ≤ _ := Nat.mul_le_mul_left _ h2

theorem lane_lanes (f : Nat → Nat) {n i : Nat} (h : i < n) : lane (lanes f n) i = f i % 65536 := by
  induction n with
  | zero => omega
  | succ n ih =>
    unfold lanes lane
    by_cases hi : i = n
    · subst hi
      rw [Nat.add_mul_div_left _ _ (Nat.two_pow_pos _), Nat.div_eq_of_lt (lanes_lt f i), Nat.zero_add, Nat.mod_mod]
    · have hin : i < n := by omega
      rw [← ih hin, lane]
      have : 2 ^ (16 * n) = 2 ^ (16 * i) * (65536 * 2 ^ (16 * (n - i - 1))) := by
        rw [show (65536 : Nat) = 2 ^ 16 from rfl, ← Nat.pow_add, ← Nat.pow_add]; congr 1; omega
      rw [this, Nat.mul_assoc, Nat.add_mul_div_left _ _ (Nat.two_pow_pos _), Nat.mul_assoc, Nat.add_mul_mod_self_left]

theorem lane_lt (v i : Nat) : lane v i < 65536 := Nat.mod_lt _ (by decide)

theorem testBit_lane (v i j : Nat) (h : j < 16) : (lane v i).testBit j = v.testBit (16 * i + j) := by
  unfold lane
  rw [show (65536 : Nat) = 2 ^ 16 from rfl, Nat.testBit_mod_two_pow, Nat.testBit_div_two_pow]
  simp [h, Nat.add_comm]

theorem lane_high (v i j : Nat) (h : ¬ j < 16) : (lane v i).testBit j = false :=
  Nat.testBit_lt_two_pow (Nat.lt_of_lt_of_le (lane_lt v i) (show 2 ^ 16 ≤ 2 ^ j from Nat.pow_le_pow_right (by decide) (by omega)))

theorem lane_and (a b i : Nat) : lane (a &&& b) i = lane a i &&& lane b i := by
  apply Nat.eq_of_testBit_eq
  intro j
  rw [Nat.testBit_and]
  by_cases h : j < 16
  · simp [testBit_lane, h, Nat.testBit_and]
  · simp [lane_high _ _ _ h]

theorem lane_or (a b i : Nat) : lane (a ||| b) i = lane a i ||| lane b i := by
  apply Nat.eq_of_testBit_eq
  intro j
  rw [Nat.testBit_or]
  by_cases h : j < 16
  · simp [testBit_lane, h, Nat.testBit_or]
  · simp [lane_high _ _ _ h]

theorem lane_xor (a b i : Nat) : lane (a ^^^ b) i = lane a i ^^^ lane b i := by
  apply Nat.eq_of_testBit_eq
  intro j
  rw [Nat.testBit_xor]
  by_cases h : j < 16
  · simp [testBit_lane, h, Nat.testBit_xor]
  · simp [lane_high _ _ _ h]

theorem lane_ones {i : Nat} (hi : i < 16) : lane ones i = 65535 := by
  unfold ones cmpeq
  rw [lane_lanes _ hi, if_pos rfl]

theorem lane_full {i : Nat} (hi : i < 16) : lane (2 ^ 256 - 1) i = 65535 := by
  have : ∀ i : Fin 16, lane (2 ^ 256 - 1) i.1 = 65535 := by decide +kernel
  exact this ⟨i, hi⟩

theorem lane_set1 {c i : Nat} (hc : c < 65536) (hi : i < 16) : lane (set1 c) i = c := by
  unfold set1
  rw [lane_lanes _ hi, Nat.mod_eq_of_lt hc]

theorem lane_srli8 (v : Nat) {i : Nat} (hi : i < 16) : lane (srli8 v) i = lane v i / 256 := by
  unfold srli8
  have := lane_lt v i
  rw [lane_lanes _ hi, Nat.mod_eq_of_lt (by omega)]

theorem lane_low (v : Nat) {i : Nat} (hi : i < 16) : lane (v &&& srli8 ones) i = lane v i % 256 := by
  rw [lane_and, lane_srli8 _ hi, lane_ones hi, show 65535 / 256 = 2 ^ 8 - 1 from rfl, Nat.and_two_pow_sub_one_eq_mod]

theorem lane_addSat {d i : Nat} (hd : d < 256) (hi : i < 16) : lane (addSat (set1 d) base) i = d + i := by
  unfold addSat
  rw [lane_lanes _ hi, lane_set1 (by omega) hi, base, lane_lanes _ hi, Nat.mod_eq_of_lt (by omega : i < 65536)]
  unfold signed16 saturate16
  rw [if_pos (by omega), if_pos (by omega)]
  omega

/-- The word has all bits set where `p` holds and is 0 elsewhere: the result of a comparison. -/
def Bools (v : Nat) (p : Nat → Prop) [DecidablePred p] : Prop := ∀ i, i < 16 → lane v i = if p i then 65535 else 0

theorem bools_lanes (p : Nat → Prop) [DecidablePred p] : Bools (lanes (fun i => if p i then 65535 else 0) 16) p := by
  intro i hi
  rw [lane_lanes _ hi]
  split <;> rfl

theorem Bools.congr {v : Nat} {p q : Nat → Prop} [DecidablePred p] [DecidablePred q] (h : Bools v p) (hpq : ∀ i, i < 16 → (p i ↔ q i)) :
    Bools v q := by
  intro i hi
  rw [h i hi]
  by_cases hp : p i
  · rw [if_pos hp, if_pos ((hpq i hi).mp hp)]
  · rw [if_neg hp, if_neg (fun hq => hp ((hpq i hi).mpr hq))]

theorem Bools.or {a b : Nat} {p q : Nat → Prop} [DecidablePred p] [DecidablePred q] (ha : Bools a p) (hb : Bools b q) :
    Bools (a ||| b) (fun i => p i ∨ q i) := by
  intro i hi
  rw [lane_or, ha i hi, hb i hi]
  by_cases hp : p i <;> by_cases hq : q i <;> simp [hp, hq]

theorem Bools.andnot {a b : Nat} {p q : Nat → Prop} [DecidablePred p] [DecidablePred q] (ha : Bools a p) (hb : Bools b q) :
    Bools (Rob16.andnot a b) (fun i => ¬ p i ∧ q i) := by
  intro i hi
  unfold Rob16.andnot
  rw [lane_and, lane_xor, ha i hi, hb i hi, lane_full hi]
  by_cases hp : p i <;> by_cases hq : q i <;> simp [hp, hq]

/-- The bits of the shifted mask: bit `2 * i` for word `i`, the odd bits are 0. -/
theorem Bools.mask2 {v : Nat} {p : Nat → Prop} [DecidablePred p] (h : Bools v p) (j : Nat) :
    (Rob16.mask2 v).testBit j = decide (j < 32 ∧ j % 2 = 0 ∧ p (j / 2)) := by
  unfold Rob16.mask2 movemask
  rw [testBit_moveMask]
  by_cases hj : j < 32
  · have hi : j / 2 < 16 := by omega
    rcases Nat.mod_two_eq_zero_or_one j with h2 | h2
    · have e : (srli8 v).testBit (8 * j + 7) = (lane (srli8 v) (j / 2)).testBit 7 := by
        rw [testBit_lane _ _ _ (by decide)]; congr 1; omega
      rw [e, lane_srli8 _ hi, h _ hi]
      by_cases hp : p (j / 2) <;> simp [hj, h2, hp]
      decide
    · have e : (srli8 v).testBit (8 * j + 7) = (lane (srli8 v) (j / 2)).testBit 15 := by
        rw [testBit_lane _ _ _ (by decide)]; congr 1; omega
      rw [e, lane_srli8 _ hi, h _ hi]
      by_cases hp : p (j / 2)
      · rw [if_pos hp, show (65535 / 256 : Nat).testBit 15 = false by decide]; simp [h2]
      · rw [if_neg hp]; simp [h2]
  · simp [hj]

/-- The bits of the mask without the shift: bits `2 * i` and `2 * i + 1` for word `i`. -/
theorem Bools.maskBoth {v : Nat} {p : Nat → Prop} [DecidablePred p] (h : Bools v p) (j : Nat) :
    (Rob16.maskBoth v).testBit j = decide (j < 32 ∧ p (j / 2)) := by
  unfold Rob16.maskBoth movemask
  rw [testBit_moveMask]
  by_cases hj : j < 32
  · have hi : j / 2 < 16 := by omega
    rcases Nat.mod_two_eq_zero_or_one j with h2 | h2
    · have e : v.testBit (8 * j + 7) = (lane v (j / 2)).testBit 7 := by
        rw [testBit_lane _ _ _ (by decide)]; congr 1; omega
      rw [e, h _ hi]
      by_cases hp : p (j / 2) <;> simp [hj, hp]
      decide
    · have e : v.testBit (8 * j + 7) = (lane v (j / 2)).testBit 15 := by
        rw [testBit_lane _ _ _ (by decide)]; congr 1; omega
      rw [e, h _ hi]
      by_cases hp : p (j / 2) <;> simp [hj, hp]
      decide
  · simp [hj]

/-- The bits of the AVX-512 mask. -/
theorem Bools.movepi16 {v : Nat} {p : Nat → Prop} [DecidablePred p] (h : Bools v p) (j : Nat) :
    (Rob16.movepi16 v).testBit j = decide (j < 16 ∧ p j) := by
  unfold Rob16.movepi16
  rw [testBit_moveMask]
  by_cases hj : j < 16
  · rw [← testBit_lane _ _ _ (by decide), h _ hj]
    by_cases hp : p j <;> simp [hj, hp]
    decide
  · simp [hj]

theorem lowEq_bools (v : Nat) {c : Nat} (hc : c < 256) : Bools (lowEq v c) (fun i => lane v i % 256 = c) := by
  refine (bools_lanes _).congr fun i hi => ?_
  rw [lane_set1 (by omega) hi, lane_low _ hi]
  exact eq_comm

theorem highEq_bools (v : Nat) {c : Nat} (hc : c < 256) : Bools (highEq v c) (fun i => lane v i / 256 = c) := by
  refine (bools_lanes _).congr fun i hi => ?_
  rw [lane_set1 (by omega) hi, lane_srli8 _ hi]
  exact eq_comm

/-- A signed comparison of small words. -/
theorem signed16_lt {a b : Nat} (ha : a < 32768) (hb : b < 32768) : signed16 a < signed16 b ↔ a < b := by
  unfold signed16
  rw [if_pos ha, if_pos hb]
  omega

theorem belowEnd_bools (v : Nat) : Bools (belowEnd v) (fun i => lane v i % 256 < bEnd) := by
  refine (bools_lanes _).congr fun i hi => ?_
  rw [lane_set1 (by decide) hi, lane_low _ hi, signed16_lt (by omega) (by decide)]

theorem belowEmpty_bools (v : Nat) : Bools (belowEmpty v) (fun i => lane v i % 256 < bEmpty) := by
  refine (bools_lanes _).congr fun i hi => ?_
  rw [lane_srli8 _ hi, lane_ones hi, lane_low _ hi, signed16_lt (by omega) (by decide)]

theorem emptyOrZero_bools (v : Nat) : Bools (emptyOrZero v) (fun i => lane v i % 256 = bEmpty ∨ lane v i % 256 = 0) := by
  refine ((bools_lanes _).or (bools_lanes _)).congr fun i hi => ?_
  rw [lane_srli8 _ hi, lane_ones hi, lane_low _ hi, show lane 0 i = 0 by simp [lane]]

theorem emptyOrNear_bools (v : Nat) {d : Nat} (hd : d < 256) :
    Bools (emptyOrNear v d) (fun i => lane v i % 256 = bEmpty ∨ lane v i % 256 < d + i) := by
  refine ((bools_lanes _).or (bools_lanes _)).congr fun i hi => ?_
  rw [lane_set1 (by decide) hi, lane_low _ hi, lane_addSat hd hi, signed16_lt (by omega) (by omega)]
  exact or_congr eq_comm Iff.rfl

theorem hashAndDist_bools (v : Nat) {tg d : Nat} (ht : tg < 256) (hd : d < 256) :
    Bools (hashAndDist v tg d) (fun i => ¬ (lane v i % 256 = bEmpty ∨ lane v i % 256 < d + i) ∧ lane v i / 256 = tg) := by
  refine ((emptyOrNear_bools v hd).andnot (bools_lanes _)).congr fun i hi => ?_
  rw [lane_set1 (by omega) hi, lane_srli8 _ hi]

/-- C93, the masks of the AVX2 version are exact for every content of a group: bit `2 * i` is set if and only if word `i` has the
control hash, is empty, is in use (an end mark is not, or is), is empty or at home, is empty or nearer to its home than the sought
distance, is not and has the control hash; all odd bits are 0. -/
theorem C93_masks_exact (v : Nat) {tg d : Nat} (ht : tg < 256) (hd : d < 256) (j : Nat) :
    ((mask2 (highEq v tg)).testBit j = true ↔ j < 32 ∧ j % 2 = 0 ∧ lane v (j / 2) / 256 = tg) ∧
    ((mask2 (lowEq v bEmpty)).testBit j = true ↔ j < 32 ∧ j % 2 = 0 ∧ lane v (j / 2) % 256 = 255) ∧
    ((mask2 (belowEnd v)).testBit j = true ↔ j < 32 ∧ j % 2 = 0 ∧ lane v (j / 2) % 256 < 254) ∧
    ((mask2 (belowEmpty v)).testBit j = true ↔ j < 32 ∧ j % 2 = 0 ∧ lane v (j / 2) % 256 < 255) ∧
    ((mask2 (emptyOrZero v)).testBit j = true ↔ j < 32 ∧ j % 2 = 0 ∧ (lane v (j / 2) % 256 = 255 ∨ lane v (j / 2) % 256 = 0)) ∧
    ((mask2 (emptyOrNear v d)).testBit j = true ↔
      j < 32 ∧ j % 2 = 0 ∧ (lane v (j / 2) % 256 = 255 ∨ lane v (j / 2) % 256 < d + j / 2)) ∧
    ((mask2 (hashAndDist v tg d)).testBit j = true ↔
      j < 32 ∧ j % 2 = 0 ∧ lane v (j / 2) % 256 ≠ 255 ∧ d + j / 2 ≤ lane v (j / 2) % 256 ∧ lane v (j / 2) / 256 = tg) ∧
    ((maskBoth (emptyOrNear v d)).testBit j = true ↔ j < 32 ∧ (lane v (j / 2) % 256 = 255 ∨ lane v (j / 2) % 256 < d + j / 2)) := by
  refine ⟨?_, ?_, ?_, ?_, ?_, ?_, ?_, ?_⟩
  · rw [(highEq_bools v ht).mask2, decide_eq_true_eq]
  · rw [(lowEq_bools v (by decide)).mask2, decide_eq_true_eq]
  · rw [(belowEnd_bools v).mask2, decide_eq_true_eq]
  · rw [(belowEmpty_bools v).mask2, decide_eq_true_eq]
  · rw [(emptyOrZero_bools v).mask2, decide_eq_true_eq]
  · rw [(emptyOrNear_bools v hd).mask2, decide_eq_true_eq]
  · rw [(hashAndDist_bools v ht hd).mask2, decide_eq_true_eq, not_or, Nat.not_lt, and_assoc]
  · rw [(emptyOrNear_bools v hd).maskBoth, decide_eq_true_eq]

/-- C93, the AVX-512 version (R16:456-686) finds the same words, with one bit for each. -/
theorem C93_avx512_same (v : Nat) {tg d : Nat} (ht : tg < 256) (hd : d < 256) (i : Nat) :
    (movepi16 (highEq v tg)).testBit i = (mask2 (highEq v tg)).testBit (2 * i) ∧
    (movepi16 (lowEq v bEmpty)).testBit i = (mask2 (lowEq v bEmpty)).testBit (2 * i) ∧
    (movepi16 (belowEnd v)).testBit i = (mask2 (belowEnd v)).testBit (2 * i) ∧
    (movepi16 (belowEmpty v)).testBit i = (mask2 (belowEmpty v)).testBit (2 * i) ∧
    (movepi16 (emptyOrZero v)).testBit i = (mask2 (emptyOrZero v)).testBit (2 * i) ∧
    (movepi16 (emptyOrNear v d)).testBit i = (mask2 (emptyOrNear v d)).testBit (2 * i) ∧
    (movepi16 (hashAndDist v tg d)).testBit i = (mask2 (hashAndDist v tg d)).testBit (2 * i) ∧
    (movepi16 (emptyOrNear v d)).testBit i = (maskBoth (emptyOrNear v d)).testBit (2 * i) := by
  have key : ∀ (m : Nat) (p : Nat → Prop) [DecidablePred p], Bools m p → (movepi16 m).testBit i = (mask2 m).testBit (2 * i) ∧
      (movepi16 m).testBit i = (maskBoth m).testBit (2 * i) := by
    intro m p _ h
    rw [h.movepi16, h.mask2, h.maskBoth, show 2 * i / 2 = i by omega, show 2 * i % 2 = 0 by omega]
    have : 2 * i < 32 ↔ i < 16 := by omega
    simp [this]
  exact ⟨(key _ _ (highEq_bools v ht)).1, (key _ _ (lowEq_bools v (by decide))).1, (key _ _ (belowEnd_bools v)).1,
    (key _ _ (belowEmpty_bools v)).1, (key _ _ (emptyOrZero_bools v)).1, (key _ _ (emptyOrNear_bools v hd)).1,
    (key _ _ (hashAndDist_bools v ht hd)).1, (key _ _ (emptyOrNear_bools v hd)).2⟩

theorem filter_double (p : Nat → Bool) : ∀ n, (((List.range (2 * n)).filter fun j => decide (j % 2 = 0) && p (j / 2)).map (· / 2)) =
    (List.range n).filter p := by
  intro n
  induction n with
  | zero => rfl
  | succ n ih =>
    rw [show 2 * (n + 1) = 2 * n + 1 + 1 by omega, List.range_succ, List.range_succ, List.filter_append, List.filter_append, List.map_append,
      List.map_append, ih, List.range_succ, List.filter_append]
    have h1 : 2 * n % 2 = 0 := by omega
    have h2 : 2 * n / 2 = n := by omega
    have e2 : List.filter (fun j => decide (j % 2 = 0) && p (j / 2)) [2 * n + 1] = [] := by simp
    rw [e2, List.map_nil, List.append_nil]
    congr 1
    cases hp : p n with
    | true => simp [hp]
    | false => simp [hp]

/-- The loop over a shifted mask with `bsf32`, `clearLowBit32` and `bitPos` visits the positions in ascending order, each one once. -/
theorem Bools.scan {m : Nat} {p : Nat → Prop} [DecidablePred p] (h : Bools m p) :
    (bitsOf (Rob16.mask2 m)).map bitPos = (List.range 16).filter fun i => decide (p i) := by
  have hlt : Rob16.mask2 m < 2 ^ 32 := moveMask_lt _ _
  rw [bitsOf_eq (Nat.le_refl 32) hlt, ← filter_double (fun i => decide (p i)) 16]
  show List.map (· / 2) _ = _
  congr 1
  apply List.filter_congr
  intro j hj
  have hj := List.mem_range.mp hj
  rw [h.mask2]
  simp [hj]

/-- The first set bit of the mask without the shift is that of the first position. -/
theorem Bools.first {m : Nat} {p : Nat → Prop} [DecidablePred p] (h : Bools m p) (h0 : Rob16.maskBoth m ≠ 0) :
    ((List.range 16).filter fun i => decide (p i)).head? = some (bitPos (bsf32 (Rob16.maskBoth m))) := by
  obtain ⟨h1, h2⟩ := bsf32_spec h0 (moveMask_lt _ _)
  rw [h.maskBoth, decide_eq_true_eq] at h1
  rw [List.head?_filter]
  rw [List.find?_eq_some_iff_getElem]
  refine ⟨decide_eq_true h1.2, bitPos (bsf32 (Rob16.maskBoth m)), by simp [bitPos]; omega, by simp, ?_⟩
  intro j hj
  have hj' : j < bsf32 (Rob16.maskBoth m) / 2 := hj
  simp only [List.getElem_range]
  rw [Bool.not_eq_eq_eq_not, Bool.not_true, decide_eq_false_iff_not]
  intro hp
  have := h2 (2 * j) (by rw [h.maskBoth, decide_eq_true_eq]; exact ⟨by omega, by rw [show 2 * j / 2 = j by omega]; exact hp⟩)
  omega

theorem masks_of_words {K V : Type} (t : Map K V) (i : Nat)
    (hb : ∀ p, p < 16 → (t.ctrl (i + p)).dist < 256 ∧ ((t.ctrl (i + p)).dist ≠ 255 → (t.ctrl (i + p)).tag < 256))
    {tg d : Nat} (ht : tg < 256) (hd : d < 256) :
    let v := loadWords fun p => t.ctrl (i + p)
    (bitsOf (mask2 (hashAndDist v tg d))).map bitPos = hits t i d tg ∧
    (bitsOf (mask2 (emptyOrNear v d))).map bitPos = stops t i d ∧
    (maskBoth (emptyOrNear v d) = 0 ↔ stops t i d = []) ∧
    (maskBoth (emptyOrNear v d) ≠ 0 → (stops t i d).head? = some (bitPos (bsf32 (maskBoth (emptyOrNear v d))))) ∧
    (bitsOf (mask2 (belowEnd v))).map bitPos = (List.range 16).filter fun p => decide ((t.ctrl (i + p)).dist < bEnd) := by
  intro v
  have hl : ∀ p, p < 16 → lane v p = (t.ctrl (i + p)).dist % 256 + 256 * ((t.ctrl (i + p)).tag % 256) := fun p hp => by
    show lane (lanes _ _) p = _
    rw [lane_lanes _ hp, Nat.mod_eq_of_lt (by show (t.ctrl (i + p)).dist % 256 + 256 * ((t.ctrl (i + p)).tag % 256) < _; omega)]
  have hlow : ∀ p, p < 16 → lane v p % 256 = (t.ctrl (i + p)).dist := fun p hp => by have := (hb p hp).1; rw [hl p hp]; omega
  have hhigh : ∀ p, p < 16 → (t.ctrl (i + p)).dist ≠ 255 → lane v p / 256 = (t.ctrl (i + p)).tag := fun p hp hne => by
    have := (hb p hp).2 hne
    rw [hl p hp]; omega
  have hs : stops t i d = (List.range 16).filter fun p => decide (lane v p % 256 = bEmpty ∨ lane v p % 256 < d + p) := by
    unfold stops
    apply List.filter_congr
    intro p hp
    rw [hlow p (List.mem_range.mp hp), Bool.decide_or]
  have hB := emptyOrNear_bools v hd
  refine ⟨?_, ?_, ?_, ?_, ?_⟩
  · rw [(hashAndDist_bools v ht hd).scan]
    unfold hits
    apply List.filter_congr
    intro p hp
    rw [hlow p (List.mem_range.mp hp), Bool.decide_and, decide_not, Bool.decide_or]
    by_cases he : (t.ctrl (i + p)).dist = bEmpty
    · simp [he]
    · rw [hhigh p (List.mem_range.mp hp) he]
  · rw [hB.scan, hs]
  · constructor
    · intro h0
      rw [hs, List.filter_eq_nil_iff]
      intro p hp hq
      have := hB.maskBoth (2 * p)
      rw [h0, Nat.zero_testBit, eq_comm, decide_eq_false_iff_not, show 2 * p / 2 = p by omega] at this
      have hp := List.mem_range.mp hp
      exact this ⟨by omega, of_decide_eq_true hq⟩
    · intro h0
      by_contra hne
      have := hB.first hne
      rw [← hs, h0] at this
      cases this
  · intro h0
    rw [hs]
    exact hB.first h0
  · rw [(belowEnd_bools v).scan]
    apply List.filter_congr
    intro p hp
    rw [hlow p (List.mem_range.mp hp)]

theorem tagOf_lt {K : Type} (E : Env K) (sec : Nat → Nat) (k : K) : tagOf E sec k < 256 := by
  unfold tagOf
  rw [show (0xFF : Nat) = 2 ^ 8 - 1 from rfl, Nat.and_two_pow_sub_one_eq_mod]
  omega

/-- The control words of a reachable table are pairs of bytes (the hash bits of empty ones do not matter). -/
theorem ctrl_bytes {K V : Type} {E : Env K} {sec : Nat → Nat} {t : Map K V} (h : Tab E sec t) {i : Nat} (hi : i < t.clen) :
    (t.ctrl i).dist < 256 ∧ ((t.ctrl i).dist ≠ 255 → (t.ctrl i).tag < 256) := by
  have hin : ∀ i, i < cap t → (t.ctrl i).dist < 256 ∧ ((t.ctrl i).dist ≠ 255 → (t.ctrl i).tag < 256) := by
    intro i hi
    refine ⟨by have := h.bound i hi; omega, fun hne => ?_⟩
    obtain ⟨e, _, _, he⟩ := h.cell i hi hne
    rw [he]
    exact tagOf_lt E sec e.1
  by_cases h1 : i < cap t
  · exact hin i h1
  · have hc := h.clen
    have hg := h.gmask
    by_cases h2 : i < cap t + 16 ∧ i < 2 * cap t
    · obtain ⟨h3, h4⟩ := h.mirror (i - cap t) (by omega) (by omega)
      rw [show i - cap t + cap t = i by omega] at h3 h4
      have h5 := hin (i - cap t) (by omega)
      rw [h3]
      exact ⟨h5.1, fun hne => by rw [h4 hne]; exact h5.2 hne⟩
    · have hs : cap t < 16 := by
        rcases h.cap_cases with h6 | h6 | ⟨m, h6, h7⟩
        · omega
        · omega
        · exfalso
          rw [hg, h7] at hc
          omega
      rcases h.cap_cases with h6 | h6 | ⟨m, h6, h7⟩
      · have := h.tail hs i (by omega) (by rw [hc, hg, h6] at hi; omega)
        omega
      · have := h.tail hs i (by omega) (by rw [hc, hg, h6] at hi; omega)
        omega
      · omega

/-- C93, what the functions of a reachable map do with the masks of the 16 control words from `i` on: the loops of lookup and
insertion compare the key with the elements at the positions that are not nearer to their home than the sought key and have its control
hash, in ascending order and each once; a probe stops if and only if some position is empty or nearer to its home, and the position used
is the first one; a rehash visits exactly the words below the end mark. -/
theorem C93_table_masks {K V : Type} {E : Env K} {sec : Nat → Nat} {t : Map K V} (hR : Reach E sec t) {i : Nat} (hi : i + 16 ≤ t.clen)
    (k : K) {d : Nat} (hd : d < 256) :
    let v := loadWords fun p => t.ctrl (i + p)
    (bitsOf (mask2 (hashAndDist v (tagOf E sec k) d))).map bitPos = hits t i d (tagOf E sec k) ∧
    (bitsOf (mask2 (emptyOrNear v d))).map bitPos = stops t i d ∧
    (maskBoth (emptyOrNear v d) = 0 ↔ stops t i d = []) ∧
    (maskBoth (emptyOrNear v d) ≠ 0 → (stops t i d).head? = some (bitPos (bsf32 (maskBoth (emptyOrNear v d))))) ∧
    (bitsOf (mask2 (belowEnd v))).map bitPos = (List.range 16).filter fun p => decide ((t.ctrl (i + p)).dist < bEnd) :=
  masks_of_words t i (fun p hp => ctrl_bytes hR.toTab (by omega)) (tagOf_lt E sec k) hd

/-- C93, the tests of a whole group (R16:935-961): `isAllEmpty` and `isAllUnused` compare with 0x55555555, `hasAnyEmpty` and `isAllUsed`
with 0.  `isAllUsed` is true for a group of used words and end marks. -/
theorem C93_group_tests (v : Nat) :
    (mask2 (lowEq v bEmpty) = 0x55555555 ↔ ∀ i, i < 16 → lane v i % 256 = 255) ∧
    (mask2 (lowEq v bEmpty) ≠ 0 ↔ ∃ i, i < 16 ∧ lane v i % 256 = 255) ∧
    (mask2 (lowEq v bEmpty) = 0 ↔ ∀ i, i < 16 → lane v i % 256 ≠ 255) ∧
    (movepi16 (lowEq v bEmpty) = 0xFFFF ↔ ∀ i, i < 16 → lane v i % 256 = 255) := by
  have hB := lowEq_bools v (c := bEmpty) (by decide)
  have hz : mask2 (lowEq v bEmpty) = 0 ↔ ∀ i, i < 16 → lane v i % 256 ≠ 255 := by
    constructor
    · intro h i hi he
      have := hB.mask2 (2 * i)
      rw [h, Nat.zero_testBit, eq_comm, decide_eq_false_iff_not, show 2 * i / 2 = i by omega] at this
      exact this ⟨by omega, by omega, he⟩
    · intro h
      apply Nat.eq_of_testBit_eq
      intro j
      rw [hB.mask2, Nat.zero_testBit, decide_eq_false_iff_not]
      intro ⟨h1, _, h3⟩
      exact h (j / 2) (by omega) h3
  have h5 : ∀ j, (0x55555555 : Nat).testBit j = decide (j < 32 ∧ j % 2 = 0) := by
    intro j
    by_cases hj : j < 32
    · have : ∀ j : Fin 32, (0x55555555 : Nat).testBit j.1 = decide (j.1 < 32 ∧ j.1 % 2 = 0) := by decide +kernel
      exact this ⟨j, hj⟩
    · have : (0x55555555 : Nat).testBit j = false :=
        Nat.testBit_lt_two_pow (Nat.lt_of_lt_of_le (by decide : 0x55555555 < 2 ^ 32) (Nat.pow_le_pow_right (by decide) (by omega)))
      simp [this, hj]
  refine ⟨?_, ?_, hz, ?_⟩
  · constructor
    · intro h i hi
      have := hB.mask2 (2 * i)
      rw [h, h5, show 2 * i / 2 = i by omega] at this
      have h1 : 2 * i < 32 ∧ 2 * i % 2 = 0 := by omega
      rw [decide_eq_true h1, eq_comm, decide_eq_true_eq] at this
      exact this.2.2
    · intro h
      apply Nat.eq_of_testBit_eq
      intro j
      rw [hB.mask2, h5]
      by_cases hj : j < 32
      · have := h (j / 2) (by omega)
        have hbe : lane v (j / 2) % 256 = bEmpty := this
        simp [hbe]
      · simp [hj]
  · rw [Ne, hz]
    constructor
    · intro h
      by_contra hc
      exact h fun i hi he => hc ⟨i, hi, he⟩
    · rintro ⟨i, hi, he⟩ h
      exact h i hi he
  · constructor
    · intro h i hi
      have := hB.movepi16 i
      rw [h, show (0xFFFF : Nat) = 2 ^ 16 - 1 from rfl, Nat.testBit_two_pow_sub_one, decide_eq_true hi, eq_comm, decide_eq_true_eq] at this
      exact this.2
    · intro h
      apply Nat.eq_of_testBit_eq
      intro j
      rw [hB.movepi16, show (0xFFFF : Nat) = 2 ^ 16 - 1 from rfl, Nat.testBit_two_pow_sub_one]
      by_cases hj : j < 16
      · have hbe : lane v j % 256 = bEmpty := h j hj
        simp [hbe]
      · simp [hj]

example : let v := loadWords fun p => if p = 3 then ⟨255, 7⟩ else if p < 3 then ⟨p, 7⟩ else if p < 6 then ⟨0, 9⟩ else ⟨254, 0⟩
    mask2 (hashAndDist v 7 0) = 0x15 ∧ mask2 (emptyOrNear v 0) = 0x540 ∧ maskBoth (emptyOrNear v 0) = 0xFC0 ∧
    mask2 (belowEnd v) = 0x515 ∧ mask2 (lowEq v bEmpty) = 0x40 ∧ movepi16 (belowEnd v) = 0x37 := by decide +kernel

end Verif.Rob16
