/-
The helpers for lanes of vector registers in the header that every map includes (C138).

BV = `src/jstd/support/BitVec.h`.

A register is a vector of its bits; the `index` of the templates is a number below the number of lanes (BV:496, 544, 609, 672, 721, 794).
Intrinsics are modelled by what the manual of the processor says.  The code for 32-bit x86 (BV:416-438, 839-858) has syntax errors and is left out, and
so are the branches after `__AVX__ && __SSE4_1__` of `mm256_extract_epi64` (BV:743-785), which have the same fault.
-/
import Batteries.Data.BitVec.Lemmas
import Verif.Basic

namespace Verif.Vec

/-! ### Intrinsics -/

/-- `_mm256_castsi256_si128` (BV:499). -/
def castLow (x : BitVec 256) : BitVec 128 := x.extractLsb' 0 128

/-- `_mm256_castsi128_si256` (BV:551): the upper half `u` is undefined. -/
def castUp (u x : BitVec 128) : BitVec 256 := u ++ x

/-- `_mm256_extracti128_si256`, `_mm256_extractf128_si256` (BV:504, 520): half `h`. -/
def extractHalf (x : BitVec 256) (h : Nat) : BitVec 128 := x.extractLsb' (128 * h) 128

/-- `_mm256_inserti128_si256`, `_mm256_insertf128_si256` (BV:567, 576). -/
def insertHalf (x : BitVec 256) (y : BitVec 128) (h : Nat) : BitVec 256 :=
  BitVec.ofFnLE fun k => if k.val / 128 = h then y.getLsbD (k.val % 128) else x.getLsbD k.val

/-- `_mm256_blend_epi32(a, b, mask)` (BV:552). -/
def blend32 (a b : BitVec 256) (mask : Nat) : BitVec 256 :=
  BitVec.ofFnLE fun k => if mask.testBit (k.val / 32) then b.getLsbD k.val else a.getLsbD k.val

/-- `_mm256_broadcastq_epi64` (BV:683): the low 64 bits in every lane. -/
def broadcastq (x : BitVec 128) : BitVec 256 := BitVec.ofFnLE fun k => x.getLsbD (k.val % 64)

/-- `_mm_extract_epi16` (BV:500): zero extended to `int`. -/
def extract16 (x : BitVec 128) (i : Nat) : BitVec 32 := (x.extractLsb' (16 * i) 16).setWidth 32

/-- `_mm_insert_epi16` (BV:550): the low 16 bits of the `int`. -/
def insert16 (x : BitVec 128) (v : BitVec 32) (i : Nat) : BitVec 128 :=
  BitVec.ofFnLE fun k => if k.val / 16 = i then v.getLsbD (k.val % 16) else x.getLsbD k.val

/-- `_mm_extract_epi32` (BV:618). -/
def extract32 (x : BitVec 128) (i : Nat) : BitVec 32 := x.extractLsb' (32 * i) 32

/-- `_mm_insert_epi32` (BV:692). -/
def insert32 (x : BitVec 128) (v : BitVec 32) (i : Nat) : BitVec 128 :=
  BitVec.ofFnLE fun k => if k.val / 32 = i then v.getLsbD (k.val % 32) else x.getLsbD k.val

/-- `_mm_extract_epi64` (BV:730). -/
def extract64 (x : BitVec 128) (i : Nat) : BitVec 64 := x.extractLsb' (64 * i) 64

/-- `_mm_insert_epi64` (BV:814). -/
def insert64 (x : BitVec 128) (v : BitVec 64) (i : Nat) : BitVec 128 :=
  BitVec.ofFnLE fun k => if k.val / 64 = i then v.getLsbD (k.val % 64) else x.getLsbD k.val

/-- `_mm_cvtsi128_si32` (BV:377). -/
def low32 (x : BitVec 128) : BitVec 32 := x.extractLsb' 0 32

/-- `_mm_cvtsi128_si64` (BV:726). -/
def low64 (x : BitVec 128) : BitVec 64 := x.extractLsb' 0 64

/-- `_mm_cvtsi32_si128` (BV:391): the rest is zero. -/
def of32 (v : BitVec 32) : BitVec 128 := v.setWidth 128

/-- `_mm_cvtsi64_si128` (BV:399): the rest is zero. -/
def of64 (v : BitVec 64) : BitVec 128 := v.setWidth 128

/-- `_mm_shuffle_epi32(x, 0)` (BV:392). -/
def shuffle0 (x : BitVec 128) : BitVec 128 := BitVec.ofFnLE fun k => x.getLsbD (k.val % 32)

/-- `_mm_unpacklo_epi64` (BV:400). -/
def unpacklo64 (x y : BitVec 128) : BitVec 128 := y.extractLsb' 0 64 ++ x.extractLsb' 0 64

/-- Byte `i`. -/
def byte (x : BitVec 128) (i : Nat) : BitVec 8 := x.extractLsb' (8 * i) 8

/-- An operation on every byte. -/
def bytewise (f : BitVec 8 → BitVec 8 → BitVec 8) (x y : BitVec 128) : BitVec 128 :=
  BitVec.ofFnLE fun k => (f (byte x (k.val / 8)) (byte y (k.val / 8))).getLsbD (k.val % 8)

/-- One byte of `_mm_subs_epi8` (BV:354): the difference of signed bytes, saturated. -/
def subs (a b : BitVec 8) : BitVec 8 := BitVec.ofInt 8 (max (-128) (min 127 (a.toInt - b.toInt)))

/-- One byte of `_mm_cmpeq_epi8` (BV:355). -/
def cmpeq (a b : BitVec 8) : BitVec 8 := if a = b then .allOnes 8 else 0

/-- One byte of `_mm_cmpgt_epi8` (BV:358). -/
def cmpgt (a b : BitVec 8) : BitVec 8 := if b.toInt < a.toInt then .allOnes 8 else 0

/-! ### The helpers -/

/-- `_mm_cmpgt_epi8_fixed` (BV:350-359); `uc`: gcc with `-funsigned-char`. -/
def cmpgtFixed (uc : Bool) (a b : BitVec 128) : BitVec 128 :=
  if uc then bytewise cmpeq (bytewise (· &&& ·) (bytewise subs b a) (bytewise (fun _ _ => 0x80#8) a b)) (bytewise (fun _ _ => 0x80#8) a b)
  else bytewise cmpgt a b

/-- `_mm_cmplt_epi8_fixed` (BV:361-370). -/
def cmpltFixed (uc : Bool) (a b : BitVec 128) : BitVec 128 :=
  if uc then bytewise cmpeq (bytewise (· &&& ·) (bytewise subs a b) (bytewise (fun _ _ => 0x80#8) a b)) (bytewise (fun _ _ => 0x80#8) a b)
  else bytewise cmpgt b a

/-- `SSE::mm_cvtsi128_si32_low` (BV:374-379), `AVX512::mm_cvtsi128_si16` (BV:870-874). -/
def sseLow (x : BitVec 128) : BitVec 32 := low32 x &&& 0xFFFF#32

/-- `SSE::mm_cvtsi128_si32_high` (BV:381-386): shift of an unsigned number. -/
def sseHigh (x : BitVec 128) : BitVec 32 := low32 x >>> 16

/-- `SSE::mm_set1_epi32` (BV:388-394). -/
def set1x32 (v : BitVec 32) : BitVec 128 := shuffle0 (of32 v)

/-- `SSE::mm_set1_epi64` (BV:396-402). -/
def set1x64 (v : BitVec 64) : BitVec 128 := unpacklo64 (of64 v) (of64 v)

/-- `AVX::mm256_cvtsi256_si32_low` (BV:480-484). -/
def avxLow (x : BitVec 256) : BitVec 32 := x.extractLsb' 0 32 &&& 0xFFFF#32

/-- `AVX::mm256_cvtsi256_si32_high` (BV:486-490): `_mm256_cvtsi256_si32` is an `int`, and so is what is shifted. -/
def avxHigh (x : BitVec 256) : BitVec 32 := (x.extractLsb' 0 32).sshiftRight 16

/-- `AVX::mm256_extract_epi16<i>` (BV:492-534), the same with AVX and AVX2. -/
def avxExtract16 (i : Nat) (x : BitVec 256) : BitVec 32 :=
  if i < 8 then extract16 (castLow x) (i % 8) else extract16 (extractHalf x (i / 8)) (i % 8)

/-- `AVX::mm256_insert_epi16<i>` (BV:540-593) with AVX2 (`true`) or AVX. -/
def avxInsert16 (avx2 : Bool) (u : BitVec 128) (i : Nat) (x : BitVec 256) (v : BitVec 32) : BitVec 256 :=
  if i < 8 then
    (if avx2 then blend32 (castUp u (insert16 (castLow x) v (i % 8))) x 0b11110000
    else insertHalf x (insert16 (castLow x) v (i % 8)) (i / 8))
  else insertHalf x (insert16 (extractHalf x (i / 8)) v (i % 8)) (i / 8)

/-- `AVX::mm256_insert_epi16_gcc<i>` (BV:595-603). -/
def avxInsert16Gcc (i : Nat) (x : BitVec 256) (v : BitVec 32) : BitVec 256 :=
  insertHalf x (insert16 (extractHalf x (i / 8)) v (i % 8)) (i / 8)

/-- `AVX::mm256_extract_epi32<i>` (BV:605-666) with SSE4.1. -/
def avxExtract32 (i : Nat) (x : BitVec 256) : BitVec 32 :=
  if i = 0 then low32 (castLow x)
  else if i < 4 then extract32 (castLow x) (i % 4)
  else if i = 4 then low32 (extractHalf x (i / 4))
  else extract32 (extractHalf x (i / 4)) (i % 4)

/-- `AVX::mm256_insert_epi32<i>` (BV:668-710); the argument of 64 bits is narrowed to `int` by the call of the intrinsic (BV:676, 682, 692). -/
def avxInsert32 (avx2 : Bool) (u : BitVec 128) (i : Nat) (x : BitVec 256) (v : BitVec 64) : BitVec 256 :=
  if avx2 then
    (if i = 0 then blend32 x (castUp u (of32 (v.setWidth 32))) 0b00000001
    else blend32 x (broadcastq (of32 (v.setWidth 32))) (0b00000001 <<< i))
  else if i < 4 then insertHalf x (insert32 (castLow x) (v.setWidth 32) (i % 4)) (i / 4)
  else insertHalf x (insert32 (extractHalf x (i / 4)) (v.setWidth 32) (i % 4)) (i / 4)

/-- `AVX::mm256_extract_epi64<i>` (BV:717-742) with SSE4.1. -/
def avxExtract64 (i : Nat) (x : BitVec 256) : BitVec 64 :=
  if i = 0 then low64 (castLow x)
  else if i = 1 then extract64 (castLow x) (i % 2)
  else if i = 2 then low64 (extractHalf x (i / 2))
  else extract64 (extractHalf x (i / 2)) (i % 2)

/-- `AVX::mm256_insert_epi64<i>` (BV:790-832). -/
def avxInsert64 (avx2 : Bool) (u : BitVec 128) (i : Nat) (x : BitVec 256) (v : BitVec 64) : BitVec 256 :=
  if avx2 then
    (if i = 0 then blend32 x (castUp u (of64 v)) 0b00000011
    else blend32 x (broadcastq (of64 v)) (0b00000011 <<< (i * 2)))
  else if i < 2 then insertHalf x (insert64 (castLow x) v (i % 2)) (i / 2)
  else insertHalf x (insert64 (extractHalf x (i / 2)) v (i % 2)) (i / 2)

/-! ### What they should do -/

/-- Lane `i` of width `w`. -/
def lane {n : Nat} (w i : Nat) (x : BitVec n) : BitVec w := x.extractLsb' (w * i) w

theorem getLsbD_lane {n w i k : Nat} (x : BitVec n) : (lane w i x).getLsbD k = (decide (k < w) && x.getLsbD (w * i + k)) := by
  unfold lane
  rw [BitVec.getLsbD_extractLsb']

/-! ### Extraction -/

theorem extract16_lane {i : Nat} (x : BitVec 256) : avxExtract16 i x = (lane 16 i x).setWidth 32 := by
  apply BitVec.eq_of_getLsbD_eq
  intro k hk
  unfold avxExtract16 extract16 castLow extractHalf lane
  split
  · simp only [BitVec.getLsbD_setWidth, BitVec.getLsbD_extractLsb', hk, decide_true, Bool.true_and]
    by_cases h : k < 16
    · rw [show 0 + (16 * (i % 8) + k) = 16 * i + k by omega]
      simp [h]; intro; omega
    · simp [h]
  · simp only [BitVec.getLsbD_setWidth, BitVec.getLsbD_extractLsb', hk, decide_true, Bool.true_and]
    by_cases h : k < 16
    · rw [show 128 * (i / 8) + (16 * (i % 8) + k) = 16 * i + k by omega]
      simp [h]; intro; omega
    · simp [h]

theorem extract32_lane {i : Nat} (x : BitVec 256) : avxExtract32 i x = lane 32 i x := by
  apply BitVec.eq_of_getLsbD_eq
  intro k hk
  unfold avxExtract32 extract32 low32 castLow extractHalf lane
  split_ifs with h0 h1 h2 <;> simp only [BitVec.getLsbD_extractLsb', hk, decide_true, Bool.true_and]
  · rw [show 0 + (0 + k) = 32 * i + k by omega]; simp; intro; omega
  · rw [show 0 + (32 * (i % 4) + k) = 32 * i + k by omega]; simp; intro; omega
  · rw [show 128 * (i / 4) + (0 + k) = 32 * i + k by omega]; simp; intro; omega
  · rw [show 128 * (i / 4) + (32 * (i % 4) + k) = 32 * i + k by omega]; simp; intro; omega

theorem extract64_lane {i : Nat} (x : BitVec 256) : avxExtract64 i x = lane 64 i x := by
  apply BitVec.eq_of_getLsbD_eq
  intro k hk
  unfold avxExtract64 extract64 low64 castLow extractHalf lane
  split_ifs with h0 h1 h2 <;> simp only [BitVec.getLsbD_extractLsb', hk, decide_true, Bool.true_and]
  · rw [show 0 + (0 + k) = 64 * i + k by omega]; simp; intro; omega
  · rw [show 0 + (64 * (i % 2) + k) = 64 * i + k by omega]; simp; intro; omega
  · rw [show 128 * (i / 2) + (0 + k) = 64 * i + k by omega]; simp; intro; omega
  · rw [show 128 * (i / 2) + (64 * (i % 2) + k) = 64 * i + k by omega]; simp; intro; omega

/-! ### Insertion -/

/-- A bit of a register with lane `i` replaced. -/
def putBit {w : Nat} (i : Nat) (x : BitVec 256) (v : BitVec w) (k : Nat) : Bool :=
  if k / w = i then v.getLsbD (k % w) else x.getLsbD k

/-- All bits right: the lanes are right. -/
theorem lanes_of_bits {w m : Nat} (hw : 0 < w) (hm : w * m = 256) {i : Nat} {x r : BitVec 256} {v : BitVec w}
    (h : ∀ k, k < 256 → r.getLsbD k = putBit i x v k) {j : Nat} (hj : j < m) : lane w j r = if j = i then v else lane w j x := by
  apply BitVec.eq_of_getLsbD_eq
  intro k hk
  have hlt : w * j + k < 256 := by
    have h1 : w * (j + 1) ≤ w * m := Nat.mul_le_mul_left _ hj
    rw [Nat.mul_add] at h1
    omega
  rw [getLsbD_lane, h _ hlt]
  have hd : (w * j + k) / w = j := by rw [Nat.mul_add_div hw, Nat.div_eq_of_lt hk, Nat.add_zero]
  have hr : (w * j + k) % w = k := by rw [Nat.mul_add_mod, Nat.mod_eq_of_lt hk]
  simp only [putBit, hd, hr, hk, decide_true, Bool.true_and]
  by_cases hji : j = i
  · simp [hji]
  · rw [if_neg hji, if_neg hji, getLsbD_lane]
    simp [hk]

theorem getLsbD_insertHalf {x : BitVec 256} {y : BitVec 128} {h k : Nat} (hk : k < 256) :
    (insertHalf x y h).getLsbD k = if k / 128 = h then y.getLsbD (k % 128) else x.getLsbD k := by
  unfold insertHalf
  rw [BitVec.getLsbD_ofFnLE]
  simp [hk]

theorem getLsbD_blend32 {a b : BitVec 256} {m k : Nat} (hk : k < 256) :
    (blend32 a b m).getLsbD k = if m.testBit (k / 32) then b.getLsbD k else a.getLsbD k := by
  unfold blend32
  rw [BitVec.getLsbD_ofFnLE]
  simp [hk]

theorem getLsbD_broadcastq {x : BitVec 128} {k : Nat} (hk : k < 256) : (broadcastq x).getLsbD k = x.getLsbD (k % 64) := by
  unfold broadcastq
  rw [BitVec.getLsbD_ofFnLE]
  simp [hk]

theorem getLsbD_insert16 {x : BitVec 128} {v : BitVec 32} {i k : Nat} (hk : k < 128) :
    (insert16 x v i).getLsbD k = if k / 16 = i then v.getLsbD (k % 16) else x.getLsbD k := by
  unfold insert16
  rw [BitVec.getLsbD_ofFnLE]
  simp [hk]

theorem getLsbD_insert32 {x : BitVec 128} {v : BitVec 32} {i k : Nat} (hk : k < 128) :
    (insert32 x v i).getLsbD k = if k / 32 = i then v.getLsbD (k % 32) else x.getLsbD k := by
  unfold insert32
  rw [BitVec.getLsbD_ofFnLE]
  simp [hk]

theorem getLsbD_insert64 {x : BitVec 128} {v : BitVec 64} {i k : Nat} (hk : k < 128) :
    (insert64 x v i).getLsbD k = if k / 64 = i then v.getLsbD (k % 64) else x.getLsbD k := by
  unfold insert64
  rw [BitVec.getLsbD_ofFnLE]
  simp [hk]

theorem getLsbD_half {x : BitVec 256} {h k : Nat} : (extractHalf x h).getLsbD k = (decide (k < 128) && x.getLsbD (128 * h + k)) := by
  unfold extractHalf
  rw [BitVec.getLsbD_extractLsb']

theorem getLsbD_low {x : BitVec 256} {k : Nat} : (castLow x).getLsbD k = (decide (k < 128) && x.getLsbD k) := by
  unfold castLow
  rw [BitVec.getLsbD_extractLsb', Nat.zero_add]

theorem getLsbD_castUp {u x : BitVec 128} {k : Nat} (hk : k < 128) : (castUp u x).getLsbD k = x.getLsbD k := by
  unfold castUp
  rw [BitVec.getLsbD_append]
  simp [hk]

/-- Lane `i % 8` of the half `i / 8`, with the half put back. -/
theorem half16_bits {i : Nat} {x : BitVec 256} {v : BitVec 32} {y : BitVec 128} (hy : ∀ k, k < 128 → y.getLsbD k = x.getLsbD (128 * (i / 8) + k)) :
    ∀ k, k < 256 → (insertHalf x (insert16 y v (i % 8)) (i / 8)).getLsbD k = putBit i x (v.setWidth 16) k := by
  intro k hk
  rw [getLsbD_insertHalf hk, getLsbD_insert16 (Nat.mod_lt _ (by decide)), hy _ (Nat.mod_lt _ (by decide)), putBit]
  by_cases h : k / 16 = i
  · rw [if_pos (by omega), if_pos (by omega), if_pos h, show k % 128 % 16 = k % 16 by omega, BitVec.getLsbD_setWidth]
    simp [Nat.mod_lt]
  · rw [if_neg h]
    split
    · rename_i h1
      rw [if_neg (by omega), show 128 * (i / 8) + k % 128 = k by omega]
    · rfl

theorem half32_bits {i : Nat} {x : BitVec 256} {v : BitVec 32} {y : BitVec 128} (hy : ∀ k, k < 128 → y.getLsbD k = x.getLsbD (128 * (i / 4) + k)) :
    ∀ k, k < 256 → (insertHalf x (insert32 y v (i % 4)) (i / 4)).getLsbD k = putBit i x v k := by
  intro k hk
  rw [getLsbD_insertHalf hk, getLsbD_insert32 (Nat.mod_lt _ (by decide)), hy _ (Nat.mod_lt _ (by decide)), putBit]
  by_cases h : k / 32 = i
  · rw [if_pos (by omega), if_pos (by omega), if_pos h, show k % 128 % 32 = k % 32 by omega]
  · rw [if_neg h]
    split
    · rename_i h1
      rw [if_neg (by omega), show 128 * (i / 4) + k % 128 = k by omega]
    · rfl

theorem half64_bits {i : Nat} {x : BitVec 256} {v : BitVec 64} {y : BitVec 128} (hy : ∀ k, k < 128 → y.getLsbD k = x.getLsbD (128 * (i / 2) + k)) :
    ∀ k, k < 256 → (insertHalf x (insert64 y v (i % 2)) (i / 2)).getLsbD k = putBit i x v k := by
  intro k hk
  rw [getLsbD_insertHalf hk, getLsbD_insert64 (Nat.mod_lt _ (by decide)), hy _ (Nat.mod_lt _ (by decide)), putBit]
  by_cases h : k / 64 = i
  · rw [if_pos (by omega), if_pos (by omega), if_pos h, show k % 128 % 64 = k % 64 by omega]
  · rw [if_neg h]
    split
    · rename_i h1
      rw [if_neg (by omega), show 128 * (i / 2) + k % 128 = k by omega]
    · rfl

theorem low_of_half {x : BitVec 256} {h : Nat} (h0 : h = 0) : ∀ k, k < 128 → (castLow x).getLsbD k = x.getLsbD (128 * h + k) := by
  intro k hk
  rw [getLsbD_low, h0]
  simp [hk]

theorem half_of_half {x : BitVec 256} {h : Nat} : ∀ k, k < 128 → (extractHalf x h).getLsbD k = x.getLsbD (128 * h + k) := by
  intro k hk
  rw [getLsbD_half]
  simp [hk]

theorem insert16_bits {avx2 : Bool} {u : BitVec 128} {i : Nat} {x : BitVec 256} {v : BitVec 32} :
    ∀ k, k < 256 → (avxInsert16 avx2 u i x v).getLsbD k = putBit i x (v.setWidth 16) k := by
  intro k hk
  unfold avxInsert16
  split_ifs with h8 h2
  · rw [getLsbD_blend32 hk, putBit]
    have hm : (0b11110000 : Nat).testBit (k / 32) = decide (128 ≤ k) := by
      have : k / 32 < 8 := by omega
      have hall : ∀ q < 8, (0b11110000 : Nat).testBit q = decide (4 ≤ q) := by decide
      rw [hall _ this]
      exact decide_eq_decide.2 (by omega)
    rw [hm]
    by_cases h : 128 ≤ k
    · rw [if_pos (by simpa using h), if_neg (by omega)]
    · rw [if_neg (by simpa using h), getLsbD_castUp (by omega), getLsbD_insert16 (by omega), show i % 8 = i by omega]
      split
      · rw [BitVec.getLsbD_setWidth]
        simp [Nat.mod_lt]
      · rw [getLsbD_low]
        simp; omega
  · exact half16_bits (low_of_half (by omega)) k hk
  · exact half16_bits half_of_half k hk

theorem insert16gcc_bits {i : Nat} {x : BitVec 256} {v : BitVec 32} :
    ∀ k, k < 256 → (avxInsert16Gcc i x v).getLsbD k = putBit i x (v.setWidth 16) k :=
  half16_bits half_of_half

theorem testBit_one_shl {i q : Nat} : (0b00000001 <<< i : Nat).testBit q = decide (q = i) := by
  rw [Nat.shiftLeft_eq, Nat.one_mul, Nat.testBit_two_pow]
  exact decide_eq_decide.2 eq_comm

theorem testBit_three_shl {i q : Nat} : (0b00000011 <<< (i * 2) : Nat).testBit q = decide (q / 2 = i) := by
  rw [Nat.testBit_shiftLeft]
  by_cases h : i * 2 ≤ q
  · have h3 : ∀ n, (0b00000011 : Nat).testBit n = decide (n < 2) := by
      intro n
      rcases n with _ | _ | n
      · rfl
      · rfl
      · rw [Nat.testBit_lt_two_pow]
        · simp
        · calc (3 : Nat) < 2 ^ 2 := by decide
            _ ≤ 2 ^ (n + 1 + 1) := Nat.pow_le_pow_right (by decide) (by omega)
    rw [h3]
    simp only [h, decide_true, Bool.true_and]
    exact decide_eq_decide.2 (by omega)
  · simp [h]
    omega

theorem insert64_bits {avx2 : Bool} {u : BitVec 128} {i : Nat} {x : BitVec 256} {v : BitVec 64} :
    ∀ k, k < 256 → (avxInsert64 avx2 u i x v).getLsbD k = putBit i x v k := by
  intro k hk
  unfold avxInsert64
  split_ifs with h2 h0 h2'
  · have hm := testBit_three_shl (i := 0) (q := k / 32)
    rw [Nat.zero_mul, Nat.shiftLeft_zero] at hm
    rw [getLsbD_blend32 hk, putBit, hm, h0]
    by_cases h : k / 64 = 0
    · rw [if_pos (by simp; omega), if_pos h, getLsbD_castUp (by omega), of64, BitVec.getLsbD_setWidth, show k % 64 = k by omega]
      simp; omega
    · rw [if_neg (by simp; omega), if_neg h]
  · rw [getLsbD_blend32 hk, putBit, testBit_three_shl]
    by_cases h : k / 64 = i
    · rw [if_pos (by simp; omega), if_pos h, getLsbD_broadcastq hk, of64, BitVec.getLsbD_setWidth]
      simp; omega
    · rw [if_neg (by simp; omega), if_neg h]
  · exact half64_bits (low_of_half (by omega)) k hk
  · exact half64_bits half_of_half k hk

theorem insert32_bits {avx2 : Bool} {u : BitVec 128} {i : Nat} {x : BitVec 256} {v : BitVec 64} (hi : avx2 = true → i % 2 = 0) :
    ∀ k, k < 256 → (avxInsert32 avx2 u i x v).getLsbD k = putBit i x (v.setWidth 32) k := by
  intro k hk
  unfold avxInsert32
  split_ifs with h2 h0 h2'
  · have hm := testBit_one_shl (i := 0) (q := k / 32)
    rw [Nat.shiftLeft_zero] at hm
    rw [getLsbD_blend32 hk, putBit, hm, h0]
    by_cases h : k / 32 = 0
    · rw [if_pos (by simpa using h), if_pos h, getLsbD_castUp (by omega), of32, BitVec.getLsbD_setWidth, show k % 32 = k by omega]
      simp; omega
    · rw [if_neg (by simpa using h), if_neg h]
  · rw [getLsbD_blend32 hk, putBit, testBit_one_shl]
    by_cases h : k / 32 = i
    · have := hi h2
      rw [if_pos (by simpa using h), if_pos h, getLsbD_broadcastq hk, of32, BitVec.getLsbD_setWidth, show k % 64 = k % 32 by omega]
      simp; omega
    · rw [if_neg (by simpa using h), if_neg h]
  · exact half32_bits (low_of_half (by omega)) k hk
  · exact half32_bits half_of_half k hk

/-- With AVX2 an odd lane gets zero. -/
theorem insert32_odd {u : BitVec 128} {i : Nat} {x : BitVec 256} {v : BitVec 64} (hi : i % 2 = 1) :
    ∀ k, k < 256 → (avxInsert32 true u i x v).getLsbD k = putBit i x (0 : BitVec 32) k := by
  intro k hk
  unfold avxInsert32
  rw [if_pos rfl, if_neg (by omega), getLsbD_blend32 hk, putBit, testBit_one_shl]
  by_cases h : k / 32 = i
  · rw [if_pos (by simpa using h), if_pos h, getLsbD_broadcastq hk, of32, BitVec.getLsbD_setWidth, BitVec.getLsbD_of_ge _ _ (show 32 ≤ k % 64 by omega)]
    simp
  · rw [if_neg (by simpa using h), if_neg h]

/-! ### Comparison of bytes -/

theorem byte_bytewise (f : BitVec 8 → BitVec 8 → BitVec 8) (x y : BitVec 128) {i : Nat} (hi : i < 16) :
    byte (bytewise f x y) i = f (byte x i) (byte y i) := by
  apply BitVec.eq_of_getLsbD_eq
  intro k hk
  unfold byte bytewise
  rw [BitVec.getLsbD_extractLsb', BitVec.getLsbD_ofFnLE]
  simp only [hk, decide_true, Bool.true_and, show 8 * i + k < 128 by omega, dite_true, show (8 * i + k) / 8 = i by omega, show (8 * i + k) % 8 = k by omega]
  rfl

/-- The sign bit of a number that fits a byte. -/
theorem sign_bit {d : Int} (h0 : -128 ≤ d) (h1 : d ≤ 127) : BitVec.ofInt 8 d &&& 0x80#8 = 0x80#8 ↔ d < 0 := by
  have hall : ∀ n : Nat, n < 256 → (BitVec.ofInt 8 ((n : Int) - 128) &&& 0x80#8 = 0x80#8 ↔ n < 128) := by decide +kernel
  have h := hall (d + 128).toNat (by omega)
  rw [show ((d + 128).toNat : Int) - 128 = d by omega] at h
  rw [h]
  omega

/-- The sign of the saturated difference is the comparison. -/
theorem subs_sign (a b : BitVec 8) : cmpeq (subs a b &&& 0x80#8) 0x80#8 = if a.toInt < b.toInt then .allOnes 8 else 0 := by
  have h : subs a b &&& 0x80#8 = 0x80#8 ↔ a.toInt < b.toInt := by
    unfold subs
    rw [sign_bit (by omega) (by omega)]
    omega
  unfold cmpeq
  by_cases hlt : a.toInt < b.toInt
  · rw [if_pos (h.2 hlt), if_pos hlt]
  · rw [if_neg (mt h.1 hlt), if_neg hlt]

theorem byte_cmpgtFixed (uc : Bool) (x y : BitVec 128) {i : Nat} (hi : i < 16) :
    byte (cmpgtFixed uc x y) i = if (byte y i).toInt < (byte x i).toInt then .allOnes 8 else 0 := by
  unfold cmpgtFixed
  split
  · simp only [byte_bytewise _ _ _ hi, subs_sign]
  · rw [byte_bytewise _ _ _ hi, cmpgt]

theorem byte_cmpltFixed (uc : Bool) (x y : BitVec 128) {i : Nat} (hi : i < 16) :
    byte (cmpltFixed uc x y) i = if (byte x i).toInt < (byte y i).toInt then .allOnes 8 else 0 := by
  unfold cmpltFixed
  split
  · simp only [byte_bytewise _ _ _ hi, subs_sign]
  · rw [byte_bytewise _ _ _ hi, cmpgt]

/-! ### Low words and constants -/

theorem low_word {v : BitVec 32} : v &&& 0xFFFF#32 = (v.extractLsb' 0 16).setWidth 32 := by
  apply BitVec.eq_of_getLsbD_eq
  intro k hk
  have hall : ∀ q < 32, (0xFFFF#32).getLsbD q = decide (q < 16) := by decide
  rw [BitVec.getLsbD_and, hall _ hk, BitVec.getLsbD_setWidth, BitVec.getLsbD_extractLsb', Nat.zero_add]
  by_cases h : k < 16 <;> simp [h, hk]

theorem sseLow_lane (x : BitVec 128) : sseLow x = (lane 16 0 x).setWidth 32 := by
  unfold sseLow
  rw [low_word]
  congr 1
  apply BitVec.eq_of_getLsbD_eq
  intro k hk
  unfold low32 lane
  simp only [BitVec.getLsbD_extractLsb', hk, decide_true, Bool.true_and]
  simp; intro; omega

theorem avxLow_lane (x : BitVec 256) : avxLow x = (lane 16 0 x).setWidth 32 := by
  unfold avxLow
  rw [low_word]
  congr 1
  apply BitVec.eq_of_getLsbD_eq
  intro k hk
  unfold lane
  simp only [BitVec.getLsbD_extractLsb', hk, decide_true, Bool.true_and]
  simp; intro; omega

theorem sseHigh_lane (x : BitVec 128) : sseHigh x = (lane 16 1 x).setWidth 32 := by
  apply BitVec.eq_of_getLsbD_eq
  intro k hk
  unfold sseHigh low32 lane
  rw [BitVec.getLsbD_ushiftRight, BitVec.getLsbD_setWidth, BitVec.getLsbD_extractLsb', BitVec.getLsbD_extractLsb']
  by_cases h : k < 16
  · simp [h, hk]; intro; omega
  · simp [h]; intro; omega

/-- The upper half of the low 32 bits, sign extended. -/
theorem avxHigh_lane (x : BitVec 256) : avxHigh x = (lane 16 1 x).signExtend 32 := by
  apply BitVec.eq_of_getLsbD_eq
  intro k hk
  unfold avxHigh
  rw [BitVec.getLsbD_sshiftRight, BitVec.getLsbD_signExtend, BitVec.msb_eq_getLsbD_last, BitVec.msb_eq_getLsbD_last]
  unfold lane
  simp only [BitVec.getLsbD_extractLsb']
  by_cases h : k < 16
  · simp [h, hk, show 16 + k < 32 by omega, show ¬ 32 ≤ k by omega]
  · simp [h, hk, show ¬ 16 + k < 32 by omega, show ¬ 32 ≤ k by omega]

theorem set1x32_lane (v : BitVec 32) {i : Nat} (hi : i < 4) : lane 32 i (set1x32 v) = v := by
  apply BitVec.eq_of_getLsbD_eq
  intro k hk
  rw [getLsbD_lane]
  unfold set1x32 shuffle0 of32
  rw [BitVec.getLsbD_ofFnLE]
  simp only [hk, decide_true, Bool.true_and, show 32 * i + k < 128 by omega, dite_true, BitVec.getLsbD_setWidth, show (32 * i + k) % 32 = k by omega]
  simp; intro; omega

theorem set1x64_lane (v : BitVec 64) {i : Nat} (hi : i < 2) : lane 64 i (set1x64 v) = v := by
  apply BitVec.eq_of_getLsbD_eq
  intro k hk
  rw [getLsbD_lane]
  unfold set1x64 unpacklo64 of64
  rw [BitVec.getLsbD_append]
  simp only [BitVec.getLsbD_extractLsb', BitVec.getLsbD_setWidth, hk, decide_true, Bool.true_and]
  rcases (by omega : i = 0 ∨ i = 1) with rfl | rfl
  · simp [hk]; intro; omega
  · simp [hk, show ¬ 64 + k < 64 by omega, show k < 128 by omega]

/-! ### The claim -/

/-- Every lane `j` of `r` is that of `x`, except lane `i`, which is `v`. -/
def Inserted {n : Nat} (w i : Nat) (x r : BitVec n) (v : BitVec w) : Prop :=
  ∀ j, j < n / w → lane w j r = if j = i then v else lane w j x

/-- C138.  For every register, every value, every index and whatever the undefined half of a cast holds: extracting a lane of 16, 32 or 64 bits gives that lane,
inserting replaces that lane by the low bits of the value and leaves the others, with AVX and with AVX2.  With AVX2 this is shown for 32-bit lanes of even
index only; the byte comparisons are the signed ones for both kinds of `char`. -/
theorem C138_partial (u : BitVec 128) (x : BitVec 256) (y z : BitVec 128) :
    (∀ i, i < 16 → avxExtract16 i x = (lane 16 i x).setWidth 32) ∧
    (∀ i, i < 8 → avxExtract32 i x = lane 32 i x) ∧
    (∀ i, i < 4 → avxExtract64 i x = lane 64 i x) ∧
    (∀ avx2 i v, i < 16 → Inserted 16 i x (avxInsert16 avx2 u i x v) (v.setWidth 16)) ∧
    (∀ i v, i < 16 → Inserted 16 i x (avxInsert16Gcc i x v) (v.setWidth 16)) ∧
    (∀ avx2 i v, i < 8 → (avx2 = true → i % 2 = 0) → Inserted 32 i x (avxInsert32 avx2 u i x v) (v.setWidth 32)) ∧
    (∀ avx2 i v, i < 4 → Inserted 64 i x (avxInsert64 avx2 u i x v) v) ∧
    (∀ uc i, i < 16 → byte (cmpgtFixed uc y z) i = (if (byte z i).toInt < (byte y i).toInt then .allOnes 8 else 0) ∧
      byte (cmpltFixed uc y z) i = (if (byte y i).toInt < (byte z i).toInt then .allOnes 8 else 0)) ∧
    sseLow y = (lane 16 0 y).setWidth 32 ∧ sseHigh y = (lane 16 1 y).setWidth 32 ∧ avxLow x = (lane 16 0 x).setWidth 32 ∧
    (∀ v i, i < 4 → lane 32 i (set1x32 v) = v) ∧ (∀ v i, i < 2 → lane 64 i (set1x64 v) = v) :=
  ⟨fun _ _ => extract16_lane x, fun _ _ => extract32_lane x, fun _ _ => extract64_lane x,
    fun _ _ _ _ _ hj => lanes_of_bits (m := 16) (by decide) (by decide) insert16_bits hj,
    fun _ _ _ _ hj => lanes_of_bits (m := 16) (by decide) (by decide) insert16gcc_bits hj,
    fun _ _ _ _ he _ hj => lanes_of_bits (m := 8) (by decide) (by decide) (insert32_bits he) hj,
    fun _ _ _ _ _ hj => lanes_of_bits (m := 4) (by decide) (by decide) insert64_bits hj,
    fun uc _ hi => ⟨byte_cmpgtFixed uc y z hi, byte_cmpltFixed uc y z hi⟩, sseLow_lane y, sseHigh_lane y, avxLow_lane x,
    fun v _ hi => set1x32_lane v hi, fun v _ hi => set1x64_lane v hi⟩

/-- C138 fails: with AVX2, inserting into a 32-bit lane of odd index stores zero whatever the value, so what is read back is the value only if its low 32 bits are
zero; the build with AVX stores the value. -/
theorem C138_insert32_violated {i : Nat} (hi : i < 8) (ho : i % 2 = 1) (u : BitVec 128) (x : BitVec 256) (v : BitVec 64) :
    Inserted 32 i x (avxInsert32 true u i x v) 0 ∧
    (avxExtract32 i (avxInsert32 true u i x v) = v.setWidth 32 ↔ v.setWidth 32 = 0) ∧
    avxExtract32 i (avxInsert32 false u i x v) = v.setWidth 32 := by
  have h0 : Inserted 32 i x (avxInsert32 true u i x v) 0 :=
    fun _ hj => lanes_of_bits (m := 8) (by decide) (by decide) (insert32_odd ho) hj
  have h1 := lanes_of_bits (m := 8) (j := i) (by decide) (by decide)
    (insert32_bits (avx2 := false) (u := u) (i := i) (x := x) (v := v) (by simp)) hi
  refine ⟨h0, ?_, ?_⟩
  · rw [extract32_lane, h0 i hi, if_pos rfl]
    exact eq_comm
  · rw [extract32_lane, h1, if_pos rfl]

/-- C138 fails: the upper half of the low 32 bits of a register of 256 bits comes back sign extended, while the function of the same name for 128 bits
zero extends. -/
theorem C138_high_violated (x : BitVec 256) :
    avxHigh x = (lane 16 1 x).signExtend 32 ∧ sseHigh (castLow x) = (lane 16 1 x).setWidth 32 ∧
    (avxHigh x = sseHigh (castLow x) ↔ (lane 16 1 x).msb = false) := by
  have h1 : sseHigh (castLow x) = (lane 16 1 x).setWidth 32 := by
    rw [sseHigh_lane]
    congr 1
    apply BitVec.eq_of_getLsbD_eq
    intro k hk
    simp only [getLsbD_lane, getLsbD_low, hk, decide_true, Bool.true_and]
    simp; intro; omega
  refine ⟨avxHigh_lane x, h1, ?_⟩
  rw [h1, avxHigh_lane]
  generalize lane 16 1 x = l
  constructor
  · intro h
    have h2 := congrArg (fun z => z.getLsbD 31) h
    simp only [BitVec.getLsbD_signExtend, BitVec.getLsbD_setWidth] at h2
    simpa using h2
  · intro h
    exact BitVec.signExtend_eq_setWidth_of_msb_false h

/-- A register, the lanes 0 to 7 of 32 bits holding 0 to 7. -/
example : avxExtract32 3 (0x0000000700000006000000050000000400000003000000020000000100000000#256) = 3 := by decide +kernel

/-- Storing 9 in lane 3 and in lane 2 with AVX2. -/
example : avxExtract32 3 (avxInsert32 true 0 3 (0x0000000700000006000000050000000400000003000000020000000100000000#256) 9) = 0 ∧
    avxExtract32 2 (avxInsert32 true 0 2 (0x0000000700000006000000050000000400000003000000020000000100000000#256) 9) = 9 ∧
    avxExtract32 3 (avxInsert32 false 0 3 (0x0000000700000006000000050000000400000003000000020000000100000000#256) 9) = 9 := by
  decide +kernel

/-- A register whose second word is negative. -/
example : avxHigh 0x80000000#256 = 0xFFFF8000#32 ∧ sseHigh 0x80000000#128 = 0x8000#32 := by decide +kernel

end Verif.Vec
