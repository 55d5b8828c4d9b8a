/-
The groups of `robin_hash_map` at the level of 256-bit registers (RH:1489-2736), for the three control words: one byte, two bytes
(AVX2 and AVX512 versions), eight bytes.  The loops of the map that work on groups (`begin`, rehash, `clear_ctrls`) are given here in
this form and proved equal to the definitions of Robin.lean and RobInd.lean.  Property C117.

A register is the function that gives its bytes 0 to 31 (little endian, as in memory).  The instructions follow Intel's documentation.
-/
import Verif.Robin
import Verif.RobInd
import Verif.RobinBugs

namespace Verif.RobinGroup

/-- `__m256i`. -/
abbrev Reg := Nat → Nat

/-! ### Instructions -/

/-- A byte read as `int8_t`. -/
def s8 (b : Nat) : Int := if b < 128 then b else (b : Int) - 256
/-- A 16-bit word read as `int16_t`. -/
def s16 (w : Nat) : Int := if w < 32768 then w else (w : Int) - 65536
/-- A 64-bit word read as `int64_t`. -/
def s64 (w : Nat) : Int := if w < 2 ^ 63 then w else (w : Int) - 2 ^ 64
/-- Two's complement in 8 bits. -/
def enc8 (x : Int) : Nat := (x % 256).toNat
/-- Two's complement in 16 bits. -/
def enc16 (x : Int) : Nat := (x % 65536).toNat

/-- Word `i` of 16 bits. -/
def u16 (r : Reg) (i : Nat) : Nat := r (2 * i) + 256 * r (2 * i + 1)
/-- The register with the 16-bit words `f 0, f 1, …`. -/
def of16 (f : Nat → Nat) : Reg := fun j => if j % 2 = 0 then f (j / 2) % 256 else f (j / 2) / 256 % 256
/-- Word `i` of 64 bits. -/
def u64 (r : Reg) (i : Nat) : Nat :=
  r (8 * i) + 2 ^ 8 * r (8 * i + 1) + 2 ^ 16 * r (8 * i + 2) + 2 ^ 24 * r (8 * i + 3) + 2 ^ 32 * r (8 * i + 4) +
    2 ^ 40 * r (8 * i + 5) + 2 ^ 48 * r (8 * i + 6) + 2 ^ 56 * r (8 * i + 7)
/-- The register with the 64-bit words `f 0, f 1, …`. -/
def of64 (f : Nat → Nat) : Reg := fun j => f (j / 8) / 2 ^ (8 * (j % 8)) % 256

/-- `_mm256_setzero_si256`. -/
def setzero : Reg := fun _ => 0
/-- `_mm256_setones_si256` (support/BitVec.h:894-900): all bits set. -/
def setones : Reg := fun _ => 255
/-- `_mm256_set1_epi8`. -/
def set1_epi8 (c : Int) : Reg := fun _ => enc8 c
/-- `_mm256_set1_epi16`. -/
def set1_epi16 (c : Int) : Reg := of16 fun _ => enc16 c
/-- `_mm256_set1_epi64x`. -/
def set1_epi64x (c : Nat) : Reg := of64 fun _ => c
/-- `_mm256_cmpeq_epi8`. -/
def cmpeq_epi8 (a b : Reg) : Reg := fun j => if a j = b j then 255 else 0
/-- `_mm256_cmpgt_epi8`: signed comparison. -/
def cmpgt_epi8 (a b : Reg) : Reg := fun j => if s8 (b j) < s8 (a j) then 255 else 0
/-- `_mm256_cmpeq_epi16`. -/
def cmpeq_epi16 (a b : Reg) : Reg := of16 fun i => if u16 a i = u16 b i then 65535 else 0
/-- `_mm256_cmpgt_epi16`: signed comparison. -/
def cmpgt_epi16 (a b : Reg) : Reg := of16 fun i => if s16 (u16 b i) < s16 (u16 a i) then 65535 else 0
/-- `_mm256_cmpeq_epi64`. -/
def cmpeq_epi64 (a b : Reg) : Reg := of64 fun i => if u64 a i = u64 b i then 2 ^ 64 - 1 else 0
/-- `_mm256_cmpgt_epi64`: signed comparison. -/
def cmpgt_epi64 (a b : Reg) : Reg := of64 fun i => if s64 (u64 b i) < s64 (u64 a i) then 2 ^ 64 - 1 else 0
/-- `_mm256_adds_epi8`: signed addition with saturation. -/
def adds_epi8 (a b : Reg) : Reg := fun j => enc8 (max (-128) (min 127 (s8 (a j) + s8 (b j))))
/-- `_mm256_adds_epi16`: signed addition with saturation. -/
def adds_epi16 (a b : Reg) : Reg := of16 fun i => enc16 (max (-32768) (min 32767 (s16 (u16 a i) + s16 (u16 b i))))
/-- `_mm256_and_si256`. -/
def and_si256 (a b : Reg) : Reg := fun j => a j &&& b j
/-- `_mm256_andnot_si256(a, b)`: `~a & b`. -/
def andnot_si256 (a b : Reg) : Reg := fun j => (255 ^^^ a j) &&& b j
/-- `_mm256_srli_epi16(a, n)`. -/
def srli_epi16 (a : Reg) (n : Nat) : Reg := of16 fun i => if n > 15 then 0 else u16 a i / 2 ^ n
/-- `_mm256_slli_epi16(a, n)`; a count above 15 gives zero. -/
def slli_epi16 (a : Reg) (n : Nat) : Reg := of16 fun i => if n > 15 then 0 else u16 a i * 2 ^ n % 65536
/-- `_mm256_srli_epi64(a, n)`. -/
def srli_epi64 (a : Reg) (n : Nat) : Reg := of64 fun i => if n > 63 then 0 else u64 a i / 2 ^ n
/-- `_mm256_movemask_epi8`: the top bits of the 32 bytes. -/
def movemask_epi8 (a : Reg) : Nat := moveMask (fun j => decide (128 ≤ a j)) 32
/-- `_mm256_movepi16_mask` (AVX512): the top bits of the 16 words. -/
def movepi16_mask (a : Reg) : Nat := moveMask (fun i => decide (32768 ≤ u16 a i)) 16
/-- `_mm256_storeu_si256` to the byte address `p`. -/
def store (mem : Nat → Nat) (p : Nat) (r : Reg) : Nat → Nat := fun j => if p ≤ j ∧ j < p + 32 then r (j - p) else mem j

/-! ### One-byte control words, `BitMask256_AVX<T, false, false>` (RH:1511-1691) -/

namespace B1

/-- `matchTag(tag)` (RH:1555-1561). -/
def matchTag (r : Reg) (tag : Int) : Nat := movemask_epi8 (cmpeq_epi8 r (set1_epi8 tag))
/-- `matchEmpty()` (RH:1568-1578): `kEmptySlot` is a signed byte, so it differs from `0b11111111` and the second branch is taken. -/
def matchEmpty (r : Reg) : Nat := if (-1 : Int) = 255 then movemask_epi8 (cmpeq_epi8 r setones) else matchTag r (-1)
/-- `matchNonEmpty()` (RH:1580-1597), the second branch. -/
def matchNonEmpty (r : Reg) : Nat := movemask_epi8 (andnot_si256 (cmpeq_epi8 (set1_epi16 (-1)) r) setones)
/-- `matchUsed()` (RH:1599-1605). -/
def matchUsed (r : Reg) : Nat := movemask_epi8 (cmpgt_epi8 r setones)
/-- `matchUnused()` (RH:1607-1613). -/
def matchUnused (r : Reg) : Nat := movemask_epi8 (cmpgt_epi8 setzero r)
/-- The vector of probe distances of the 32 control words (RH:1617-1625, 1645-1653). -/
def distances (distance : Int) : Reg := adds_epi8 (set1_epi8 distance) fun j => j
/-- `matchHashAndDistance(distance)` (RH:1615-1632): `maskEmpty`, `maskHash`. -/
def matchHashAndDistance (r : Reg) (distance : Int) : Nat × Nat :=
  let match_mask := cmpeq_epi8 (distances distance) r
  let empty_mask := cmpgt_epi8 (distances distance) r
  (movemask_epi8 empty_mask, movemask_epi8 (andnot_si256 empty_mask match_mask))
/-- `matchEmptyAndDistance(distance)` (RH:1644-1657). -/
def matchEmptyAndDistance (r : Reg) (distance : Int) : Nat := movemask_epi8 (cmpgt_epi8 (distances distance) r)
/-- `isAllEmpty()` (RH:1676-1678). -/
def isAllEmpty (r : Reg) : Bool := matchEmpty r == 0xFFFFFFFF
/-- `bitPos` (RH:1688-1690). -/
def bitPos (p : Nat) : Nat := p

end B1

/-! ### Two-byte control words, `BitMask256_AVX<T, true, false>` without AVX512 (RH:1928-2166) -/

namespace B2

/-- `matchTag(ctrl_tag)` (RH:1972-1979). -/
def matchTag (r : Reg) (tag : Int) : Nat := movemask_epi8 (srli_epi16 (cmpeq_epi16 r (set1_epi16 tag)) 8)
/-- `matchHighTag(ctrl_tag)` (RH:1993-2001). -/
def matchHighTag (r : Reg) (tag : Nat) : Nat :=
  movemask_epi8 (srli_epi16 (cmpeq_epi16 (srli_epi16 r 8) (set1_epi16 tag)) 8)
/-- `matchHash(ctrl_hash)` (RH:2003-2014). -/
def matchHash (r : Reg) (hash : Nat) : Nat := movemask_epi8 (slli_epi16 (cmpeq_epi8 r (set1_epi16 hash)) 8)
/-- `matchEmpty()` (RH:2016-2027), the second branch as above. -/
def matchEmpty (r : Reg) : Nat := matchHighTag r 255
/-- `matchNonEmpty()` (RH:2029-2048), the second branch. -/
def matchNonEmpty (r : Reg) : Nat :=
  movemask_epi8 (srli_epi16 (andnot_si256 (cmpeq_epi8 (set1_epi16 (-256)) r) setones) 8)
/-- `matchUsed()` (RH:2050-2057). -/
def matchUsed (r : Reg) : Nat := movemask_epi8 (srli_epi16 (cmpgt_epi16 r setones) 8)
/-- `matchUnused()` (RH:2059-2066). -/
def matchUnused (r : Reg) : Nat := movemask_epi8 (srli_epi16 (cmpgt_epi16 setzero r) 8)
/-- The vector `dist_1_hash` (RH:2070-2079): probe distance and hash of the 16 control words. -/
def distances (distHash : Int) : Reg := adds_epi16 (set1_epi16 distHash) (of16 fun i => 256 * i)
/-- `matchHashAndDistance(dist_and_hash)` (RH:2068-2089): `maskEmpty`, `maskHash`. -/
def matchHashAndDistance (r : Reg) (distHash : Int) : Nat × Nat :=
  let high_mask := slli_epi16 setones 8
  let match_mask := cmpeq_epi16 (distances distHash) r
  let empty_mask := cmpgt_epi16 (and_si256 (distances distHash) high_mask) (and_si256 r high_mask)
  (movemask_epi8 (srli_epi16 empty_mask 8), movemask_epi8 (srli_epi16 (andnot_si256 empty_mask match_mask) 8))
/-- `matchEmptyAndDistance(distance)` (RH:2102-2131). -/
def matchEmptyAndDistance (r : Reg) (distance : Int) : Nat :=
  movemask_epi8 (cmpgt_epi16 (adds_epi16 (slli_epi16 (set1_epi16 distance) 8) (of16 fun i => 256 * i)) r)
/-- `isAllEmpty()` (RH:2151-2153). -/
def isAllEmpty (r : Reg) : Bool := matchEmpty r == 0x55555555
/-- `bitPos` (RH:2163-2165). -/
def bitPos (p : Nat) : Nat := p / 2

/-! The AVX512 version (RH:1695-1924) where it differs. -/

/-- `matchUsed()` (RH:1815-1821). -/
def matchUsed512 (r : Reg) : Nat := movepi16_mask (cmpgt_epi16 r setones)
/-- `matchUnused()` (RH:1823-1829). -/
def matchUnused512 (r : Reg) : Nat := movepi16_mask (cmpgt_epi16 setzero r)
/-- `matchEmpty()` (RH:1780-1782). -/
def matchEmpty512 (r : Reg) : Nat := matchUnused512 r
/-- `matchEmptyOnly()` (RH:1784-1794). -/
def matchEmptyOnly512 (r : Reg) : Nat := movepi16_mask (cmpeq_epi16 (srli_epi16 r 8) (set1_epi16 255))
/-- `isAllEmpty()` (RH:1909-1911). -/
def isAllEmpty512 (r : Reg) : Bool := matchEmpty512 r == 0xFFFF

end B2

/-! ### Eight-byte control words, `BitMask256_AVX<T, true, true>` (RH:2367-2563; with AVX512 RH:2172-2363) -/

namespace B8

/-- `matchHash(ctrl_hash)` (RH:2442-2451): shifts the 16-bit words by 56. -/
def matchHash (r : Reg) (hash : Nat) : Nat :=
  movemask_epi8 (srli_epi64 (cmpeq_epi64 (slli_epi16 r 56) (slli_epi16 (set1_epi64x hash) 56)) 56)
/-- `matchEmpty()` (RH:2453-2461). -/
def matchEmpty (r : Reg) : Nat :=
  movemask_epi8 (srli_epi64 (cmpeq_epi64 (set1_epi64x 0xFF00) (and_si256 r (set1_epi64x 0xFF00))) 56)
/-- `matchNonEmpty()` and `matchUsed()` (RH:2463-2475). -/
def matchUsed (r : Reg) : Nat :=
  movemask_epi8 (srli_epi64 (cmpgt_epi64 (set1_epi64x 0xFF00) (and_si256 r (set1_epi64x 0xFF00))) 56)
/-- `isAllEmpty()` (RH:2546-2548). -/
def isAllEmpty (r : Reg) : Bool := matchEmpty r == 0x55555555

end B8

/-! ### Control words in memory -/

/-- The bytes of the control words (RH:465-474: one byte `dist`; RH:795-807: `hash`, then `dist`). -/
def bytes (st : Bool) (c : Nat → Robin.Ctrl) (j : Nat) : Nat :=
  if st then if j % 2 = 0 then (c (j / 2)).hash else enc8 (c (j / 2)).dist else enc8 (c j).dist

/-- `_mm256_loadu_si256` at the control word `i`. -/
def load (st : Bool) (c : Nat → Robin.Ctrl) (i : Nat) : Reg := fun j => bytes st c ((if st then 2 * i else i) + j)

/-- The ranges of the members of a control word: a signed byte and a byte (RH:465-474, 798-807). -/
def WF (c : Robin.Ctrl) : Prop := -128 ≤ c.dist ∧ c.dist ≤ 127 ∧ c.hash < 256

/-- `group.matchUsed()` (RH:2656-2658) at the control word `i`; `avx512` tells which version was compiled. -/
def usedMask (st avx512 : Bool) (c : Nat → Robin.Ctrl) (i : Nat) : Nat :=
  if st then if avx512 then B2.matchUsed512 (load true c i) else B2.matchUsed (load true c i)
  else B1.matchUsed (load false c i)

/-- `group_mask::pos` (RH:2701-2703). -/
def pos (st avx512 : Bool) (p : Nat) : Nat := (if st && !avx512 then B2.bitPos p else B1.bitPos p) % 256

/-- The loop of `begin()` over the groups (RH:3368-3376); `n` groups are left. -/
def beginLoop (st avx512 : Bool) (c : Nat → Robin.Ctrl) : Nat → Nat → Option Nat
  | 0, _ => none
  | n + 1, i =>
    if usedMask st avx512 c i ≠ 0 then some (i + pos st avx512 (bsf32 (usedMask st avx512 c i)))
    else beginLoop st avx512 c n (i + Robin.width st)

/-- The slots that the rehash loop over `n` groups visits from the control word `i` on (RH:4555-4571). -/
def rehashLoop (st avx512 : Bool) (c : Nat → Robin.Ctrl) : Nat → Nat → List Nat
  | 0, _ => []
  | n + 1, i =>
    (bitsOf (usedMask st avx512 c i)).map (fun p => i + pos st avx512 p) ++
      rehashLoop st avx512 c n (i + Robin.width st)

/-! ### The instructions on comparison results -/

theorem enc8_lt (x : Int) : enc8 x < 256 := by unfold enc8; omega
theorem enc16_lt (x : Int) : enc16 x < 65536 := by unfold enc16; omega
theorem s8_enc8 {x : Int} (h1 : -128 ≤ x) (h2 : x ≤ 127) : s8 (enc8 x) = x := by unfold s8 enc8; omega
theorem s16_enc16 {x : Int} (h1 : -32768 ≤ x) (h2 : x ≤ 32767) : s16 (enc16 x) = x := by unfold s16 enc16; omega

theorem u16_of16 (f : Nat → Nat) (i : Nat) : u16 (of16 f) i = f i % 65536 := by
  unfold u16 of16
  rw [if_pos (by omega), if_neg (by omega), show 2 * i / 2 = i by omega, show (2 * i + 1) / 2 = i by omega]
  omega

/-- The bytes of a comparison result. -/
def sel (p : Nat → Bool) : Reg := fun j => if p j then 255 else 0

theorem sel16 (p : Nat → Bool) : of16 (fun i => if p i then 65535 else 0) = sel fun j => p (j / 2) := by
  funext j
  unfold of16 sel
  by_cases h : p (j / 2) = true <;> simp [h]

theorem movemask_sel (p : Nat → Bool) (j : Nat) : (movemask_epi8 (sel p)).testBit j = (decide (j < 32) && p j) := by
  unfold movemask_epi8 sel
  rw [testBit_moveMask]
  cases p j <;> simp

theorem u16_sel (p : Nat → Bool) (i : Nat) : u16 (sel fun j => p (j / 2)) i = if p i then 65535 else 0 := by
  rw [← sel16, u16_of16]; split <;> rfl

theorem movepi16_sel (p : Nat → Bool) (i : Nat) :
    (movepi16_mask (sel fun j => p (j / 2))).testBit i = (decide (i < 16) && p i) := by
  unfold movepi16_mask
  rw [testBit_moveMask, u16_sel]
  cases p i <;> simp

theorem srli_sel (p : Nat → Bool) : srli_epi16 (sel fun j => p (j / 2)) 8 = sel fun j => decide (j % 2 = 0) && p (j / 2) := by
  funext j
  unfold srli_epi16
  rw [show (fun i => if (8 : Nat) > 15 then 0 else u16 (sel fun j => p (j / 2)) i / 2 ^ 8) = fun i => if p i then 255 else 0 by
    funext i; rw [u16_sel]; cases p i <;> rfl]
  unfold of16 sel
  by_cases h : j % 2 = 0 <;> by_cases h2 : p (j / 2) = true <;> simp [h, h2]

/-- A word-wise comparison, shifted and read as a mask: the even bits. -/
theorem mask_srli (p : Nat → Bool) (j : Nat) :
    (movemask_epi8 (srli_epi16 (sel fun j => p (j / 2)) 8)).testBit j = (decide (j < 32 ∧ j % 2 = 0) && p (j / 2)) := by
  rw [srli_sel, movemask_sel]
  by_cases h1 : j < 32 <;> by_cases h2 : j % 2 = 0 <;> simp [h1, h2]

theorem andnot_sel (p q : Nat → Bool) : andnot_si256 (sel p) (sel q) = sel fun j => !p j && q j := by
  funext j
  unfold andnot_si256 sel
  by_cases h : p j = true <;> by_cases h2 : q j = true <;> simp [h, h2]

theorem setones_sel : setones = sel fun _ => true := rfl

theorem s8_ones : s8 255 = -1 := rfl
theorem u16_ones (i : Nat) : u16 setones i = 65535 := by unfold u16 setones; omega
theorem u16_zero (i : Nat) : u16 setzero i = 0 := rfl

/-! ### Loaded control words -/

section
variable {c : Nat → Robin.Ctrl}

theorem load1 (i j : Nat) : load false c i j = enc8 (c (i + j)).dist := rfl

theorem u16_load (i j : Nat) : u16 (load true c i) j = (c (i + j)).hash + 256 * enc8 (c (i + j)).dist := by
  unfold u16 load bytes
  simp only [if_true]
  rw [if_pos (by omega), if_neg (by omega), show (2 * i + 2 * j) / 2 = i + j by omega, show (2 * i + (2 * j + 1)) / 2 = i + j by omega]

theorem s16_load {i j : Nat} (h : WF (c (i + j))) :
    s16 (u16 (load true c i) j) = (c (i + j)).dist * 256 + (c (i + j)).hash := by
  obtain ⟨h1, h2, h3⟩ := h
  rw [u16_load]
  unfold s16 enc8
  omega

/-! ### The masks -/

theorem used1_bit {i j : Nat} (hc : j < 32 → WF (c (i + j))) :
    (B1.matchUsed (load false c i)).testBit j = (decide (j < 32) && (c (i + j)).isUsed) := by
  have : cmpgt_epi8 (load false c i) setones = sel fun j => decide (-1 < s8 (enc8 (c (i + j)).dist)) := by
    funext j
    unfold cmpgt_epi8 sel
    rw [load1, show s8 (setones j) = -1 from rfl]
    simp
  unfold B1.matchUsed
  rw [this, movemask_sel]
  by_cases hj : j < 32
  · obtain ⟨h1, h2, _⟩ := hc hj
    rw [s8_enc8 h1 h2]
    unfold Robin.Ctrl.isUsed
    congr 1
  · simp [hj]

theorem unused1_bit {i j : Nat} (hc : j < 32 → WF (c (i + j))) :
    (B1.matchUnused (load false c i)).testBit j = (decide (j < 32) && !(c (i + j)).isUsed) := by
  have : cmpgt_epi8 setzero (load false c i) = sel fun j => decide (s8 (enc8 (c (i + j)).dist) < 0) := by
    funext j
    unfold cmpgt_epi8 sel
    rw [load1, show s8 (setzero j) = 0 from rfl]
    simp
  unfold B1.matchUnused
  rw [this, movemask_sel]
  by_cases hj : j < 32
  · obtain ⟨h1, h2, _⟩ := hc hj
    rw [s8_enc8 h1 h2]
    unfold Robin.Ctrl.isUsed
    congr 1
    by_cases h : (c (i + j)).dist < 0
    · simp [h]
    · simp [h]; omega
  · simp [hj]

theorem enc8_inj {x y : Int} (h1 : -128 ≤ x) (h2 : x ≤ 127) (h3 : -128 ≤ y) (h4 : y ≤ 127) : enc8 x = enc8 y ↔ x = y := by
  unfold enc8; omega

theorem tag1_bit {d : Int} (h1 : -128 ≤ d) (h2 : d ≤ 127) {i j : Nat} (hc : j < 32 → WF (c (i + j))) :
    (B1.matchTag (load false c i) d).testBit j = (decide (j < 32) && decide ((c (i + j)).dist = d)) := by
  have : cmpeq_epi8 (load false c i) (set1_epi8 d) = sel fun j => decide (enc8 (c (i + j)).dist = enc8 d) := by
    funext j
    unfold cmpeq_epi8 sel
    rw [load1, show set1_epi8 d j = enc8 d from rfl]
    simp
  unfold B1.matchTag
  rw [this, movemask_sel]
  by_cases hj : j < 32
  · obtain ⟨h3, h4, _⟩ := hc hj
    congr 1
    exact decide_eq_decide.mpr (enc8_inj h3 h4 h1 h2)
  · simp [hj]

theorem nonEmpty1_bit {i j : Nat} (hc : j < 32 → WF (c (i + j))) :
    (B1.matchNonEmpty (load false c i)).testBit j = (decide (j < 32) && !(c (i + j)).isEmpty) := by
  have : cmpeq_epi8 (set1_epi16 (-1)) (load false c i) = sel fun j => decide (enc8 (c (i + j)).dist = 255) := by
    funext j
    unfold cmpeq_epi8 sel
    rw [load1]
    have : set1_epi16 (-1) j = 255 := by
      have h6 : enc16 (-1) = 65535 := by decide
      unfold set1_epi16 of16
      simp only [h6]
      split <;> rfl
    rw [this]
    simp [eq_comm]
  unfold B1.matchNonEmpty
  rw [this, setones_sel, andnot_sel, movemask_sel]
  by_cases hj : j < 32
  · obtain ⟨h3, h4, _⟩ := hc hj
    unfold Robin.Ctrl.isEmpty
    by_cases h : (c (i + j)).dist = -1
    · rw [h, show enc8 (-1) = 255 by decide]; simp
    · have : enc8 (c (i + j)).dist ≠ 255 := by unfold enc8; omega
      simp [h, this]
  · simp [hj]

/-- The probe distance that `matchHashAndDistance` compares with: it stops at 127. -/
theorem distances1 {d : Int} (h1 : 0 ≤ d) (h2 : d ≤ 127) {j : Nat} (hj : j < 32) :
    B1.distances d j = enc8 (min 127 (d + j)) := by
  unfold B1.distances adds_epi8 set1_epi8
  rw [s8_enc8 (by omega) h2]
  have : s8 j = j := by unfold s8; rw [if_pos (by omega)]
  rw [this]
  congr 1
  omega

theorem dist1_bit {d : Int} (h1 : 0 ≤ d) (h2 : d ≤ 127) {i j : Nat} (hc : j < 32 → WF (c (i + j))) :
    (B1.matchHashAndDistance (load false c i) d).1.testBit j = (decide (j < 32) && decide ((c (i + j)).dist < min 127 (d + j))) ∧
    (B1.matchHashAndDistance (load false c i) d).2.testBit j = (decide (j < 32) && decide ((c (i + j)).dist = min 127 (d + j))) := by
  have e1 : cmpgt_epi8 (B1.distances d) (load false c i) =
      sel fun j => decide (s8 (enc8 (c (i + j)).dist) < s8 (B1.distances d j)) := by
    funext j; unfold cmpgt_epi8 sel; rw [load1]; simp
  have e2 : cmpeq_epi8 (B1.distances d) (load false c i) = sel fun j => decide (B1.distances d j = enc8 (c (i + j)).dist) := by
    funext j; unfold cmpeq_epi8 sel; rw [load1]; simp
  unfold B1.matchHashAndDistance
  simp only [e1, e2, andnot_sel, movemask_sel]
  by_cases hj : j < 32
  · obtain ⟨h3, h4, _⟩ := hc hj
    rw [distances1 h1 h2 hj, s8_enc8 h3 h4, s8_enc8 (by omega) (by omega)]
    simp only [hj, decide_true, Bool.true_and]
    refine ⟨trivial, ?_⟩
    have : enc8 (min 127 (d + j)) = enc8 (c (i + j)).dist ↔ (c (i + j)).dist = min 127 (d + j) := by
      unfold enc8; omega
    by_cases hh : (c (i + j)).dist = min 127 (d + j)
    · simp [hh]
    · simp [this, hh]
  · simp [hj]

theorem used2_sel (i : Nat) :
    cmpgt_epi16 (load true c i) setones = sel fun j => decide (-1 < s16 (u16 (load true c i) (j / 2))) := by
  unfold cmpgt_epi16
  rw [← sel16 fun j => decide (-1 < s16 (u16 (load true c i) j))]
  congr 1
  funext j
  rw [u16_ones, show s16 65535 = -1 from rfl]
  simp

theorem unused2_sel (i : Nat) :
    cmpgt_epi16 setzero (load true c i) = sel fun j => decide (s16 (u16 (load true c i) (j / 2)) < 0) := by
  unfold cmpgt_epi16
  rw [← sel16 fun j => decide (s16 (u16 (load true c i) j) < 0)]
  congr 1
  funext j
  rw [u16_zero, show s16 0 = 0 from rfl]
  simp

/-- The high byte of every word compared with 255. -/
theorem empty2_sel (i : Nat) : cmpeq_epi16 (srli_epi16 (load true c i) 8) (set1_epi16 (255 : Nat)) =
    sel fun j => decide (u16 (load true c i) (j / 2) / 256 % 65536 = 255) := by
  unfold cmpeq_epi16
  rw [← sel16 fun j => decide (u16 (load true c i) j / 256 % 65536 = 255)]
  congr 1
  funext j
  unfold srli_epi16 set1_epi16
  rw [u16_of16, u16_of16, if_neg (show ¬ (8 : Nat) > 15 by decide), show enc16 (255 : Nat) % 65536 = 255 from rfl]
  simp

theorem used2_iff {x : Robin.Ctrl} {w : Nat} (hx : WF x) (hw : s16 w = x.dist * 256 + x.hash) : decide (-1 < s16 w) = x.isUsed := by
  obtain ⟨h1, h2, h3⟩ := hx
  rw [hw]
  unfold Robin.Ctrl.isUsed
  exact decide_eq_decide.mpr (by omega)

theorem unused2_iff {x : Robin.Ctrl} {w : Nat} (hx : WF x) (hw : s16 w = x.dist * 256 + x.hash) : decide (s16 w < 0) = !x.isUsed := by
  rw [← used2_iff hx hw, ← decide_not]
  exact decide_eq_decide.mpr (by omega)

theorem empty2_iff {x : Robin.Ctrl} {w : Nat} (hx : WF x) (hw : w = x.hash + 256 * enc8 x.dist) :
    decide (w / 256 % 65536 = 255) = x.isEmpty := by
  obtain ⟨h1, h2, h3⟩ := hx
  have := enc8_lt x.dist
  have h4 : w / 256 % 65536 = enc8 x.dist := by omega
  rw [h4]
  unfold Robin.Ctrl.isEmpty
  rw [show (x.dist == -1) = decide (x.dist = -1) from rfl]
  exact decide_eq_decide.mpr (by unfold enc8; omega)

theorem used2_bit {i j : Nat} (hc : j < 32 → WF (c (i + j / 2))) :
    (B2.matchUsed (load true c i)).testBit j = (decide (j < 32 ∧ j % 2 = 0) && (c (i + j / 2)).isUsed) := by
  unfold B2.matchUsed
  rw [used2_sel, mask_srli fun j => decide (-1 < s16 (u16 (load true c i) j))]
  by_cases hj : j < 32
  · rw [used2_iff (hc hj) (s16_load (hc hj))]
  · simp [hj]

theorem unused2_bit {i j : Nat} (hc : j < 32 → WF (c (i + j / 2))) :
    (B2.matchUnused (load true c i)).testBit j = (decide (j < 32 ∧ j % 2 = 0) && !(c (i + j / 2)).isUsed) := by
  unfold B2.matchUnused
  rw [unused2_sel, mask_srli fun j => decide (s16 (u16 (load true c i) j) < 0)]
  by_cases hj : j < 32
  · rw [unused2_iff (hc hj) (s16_load (hc hj))]
  · simp [hj]

theorem empty2_bit {i j : Nat} (hc : j < 32 → WF (c (i + j / 2))) :
    (B2.matchEmpty (load true c i)).testBit j = (decide (j < 32 ∧ j % 2 = 0) && (c (i + j / 2)).isEmpty) := by
  unfold B2.matchEmpty B2.matchHighTag
  rw [empty2_sel, mask_srli fun j => decide (u16 (load true c i) j / 256 % 65536 = 255)]
  by_cases hj : j < 32
  · rw [empty2_iff (hc hj) (u16_load i (j / 2))]
  · simp [hj]

theorem used512_bit {i j : Nat} (hc : j < 16 → WF (c (i + j))) :
    (B2.matchUsed512 (load true c i)).testBit j = (decide (j < 16) && (c (i + j)).isUsed) := by
  unfold B2.matchUsed512
  rw [used2_sel, movepi16_sel fun j => decide (-1 < s16 (u16 (load true c i) j))]
  by_cases hj : j < 16
  · rw [used2_iff (hc hj) (s16_load (hc hj))]
  · simp [hj]

theorem unused512_bit {i j : Nat} (hc : j < 16 → WF (c (i + j))) :
    (B2.matchUnused512 (load true c i)).testBit j = (decide (j < 16) && !(c (i + j)).isUsed) := by
  unfold B2.matchUnused512
  rw [unused2_sel, movepi16_sel fun j => decide (s16 (u16 (load true c i) j) < 0)]
  by_cases hj : j < 16
  · rw [unused2_iff (hc hj) (s16_load (hc hj))]
  · simp [hj]

theorem emptyOnly512_bit {i j : Nat} (hc : j < 16 → WF (c (i + j))) :
    (B2.matchEmptyOnly512 (load true c i)).testBit j = (decide (j < 16) && (c (i + j)).isEmpty) := by
  unfold B2.matchEmptyOnly512
  have := empty2_sel (c := c) i
  rw [show ((255 : Nat) : Int) = 255 from rfl] at this
  rw [this, movepi16_sel fun j => decide (u16 (load true c i) j / 256 % 65536 = 255)]
  by_cases hj : j < 16
  · rw [empty2_iff (hc hj) (u16_load i j)]
  · simp [hj]

/-! ### The positions that the loops of the map visit -/

/-- Every second bit. -/
theorem find_even (p : Nat → Bool) (n : Nat) :
    (List.range (2 * n)).find? (fun j => decide (j % 2 = 0) && p (j / 2)) = ((List.range n).find? p).map (2 * ·) := by
  induction n with
  | zero => rfl
  | succ n ih =>
    rw [show 2 * (n + 1) = 2 * n + 1 + 1 by omega, List.range_succ, List.range_succ, List.find?_append, List.find?_append, ih,
      List.range_succ, List.find?_append]
    cases hf : (List.range n).find? p with
    | some a => rfl
    | none =>
      cases hp : p n with
      | true => simp [hp]
      | false => simp [hp]

theorem filter_even (p : Nat → Bool) (n : Nat) :
    ((List.range (2 * n)).filter fun j => decide (j % 2 = 0) && p (j / 2)).map (· / 2) = (List.range n).filter p := by
  induction n with
  | zero => rfl
  | succ n ih =>
    rw [show 2 * (n + 1) = 2 * n + 1 + 1 by omega, List.range_succ, List.range_succ, List.filter_append, List.filter_append,
      List.map_append, List.map_append, ih, List.range_succ, List.filter_append, List.append_assoc]
    congr 1
    have h1 : (2 * n + 1) % 2 ≠ 0 := by omega
    cases hp : p n <;> simp [hp]

theorem bsf_find {m n : Nat} (hn : n ≤ 32) (hm : m < 2 ^ n) :
    (if m ≠ 0 then some (bsf32 m) else none) = (List.range n).find? m.testBit := by
  by_cases h0 : m = 0
  · subst h0
    rw [if_neg (by simp)]
    symm
    rw [List.find?_eq_none]
    intro x _
    simp
  · rw [if_pos h0]
    obtain ⟨h1, h2⟩ := bsf32_spec h0 (Nat.lt_of_lt_of_le hm (Nat.pow_le_pow_right (by decide) hn))
    symm
    rw [List.find?_range_eq_some]
    refine ⟨h1, ?_, ?_⟩
    · rw [List.mem_range]
      apply Nat.lt_of_not_le
      intro hle
      rw [Nat.testBit_lt_two_pow (Nat.lt_of_lt_of_le hm (Nat.pow_le_pow_right (by decide) hle))] at h1
      cases h1
    · intro j hj
      cases hb : m.testBit j with
      | false => rfl
      | true => have := h2 j hb; omega

theorem find_congr {p q : Nat → Bool} {n : Nat} (h : ∀ j, j < n → p j = q j) : (List.range n).find? p = (List.range n).find? q := by
  induction n with
  | zero => rfl
  | succ n ih =>
    rw [List.range_succ, List.find?_append, List.find?_append, ih fun j hj => h j (by omega)]
    simp only [List.find?_cons, h n (by omega), List.find?_nil]

theorem filter_congr' {p q : Nat → Bool} {n : Nat} (h : ∀ j, j < n → p j = q j) : (List.range n).filter p = (List.range n).filter q :=
  List.filter_congr fun x hx => h x (List.mem_range.mp hx)

theorem usedMask_lt (st a5 : Bool) (i : Nat) : usedMask st a5 c i < 2 ^ (if st && a5 then 16 else 32) := by
  cases st <;> cases a5 <;> exact moveMask_lt _ _

/-- The used positions of a group, as the masks give them. -/
theorem group_used (st a5 : Bool) {i : Nat} (hc : ∀ j, j < Robin.width st → WF (c (i + j))) :
    ((if usedMask st a5 c i ≠ 0 then some (i + pos st a5 (bsf32 (usedMask st a5 c i))) else none) =
      ((List.range (Robin.width st)).find? fun j => (c (i + j)).isUsed).map (i + ·)) ∧
    (bitsOf (usedMask st a5 c i)).map (fun p => i + pos st a5 p) =
      ((List.range (Robin.width st)).filter fun j => (c (i + j)).isUsed).map (i + ·) := by
  have hlt := usedMask_lt (c := c) st a5 i
  have hn : (if st && a5 then 16 else 32 : Nat) ≤ 32 := by split <;> decide
  have e1 : (if usedMask st a5 c i ≠ 0 then some (i + pos st a5 (bsf32 (usedMask st a5 c i))) else none) =
      ((List.range (if st && a5 then 16 else 32)).find? (usedMask st a5 c i).testBit).map fun p => i + pos st a5 p := by
    rw [← bsf_find hn hlt]
    split <;> rfl
  rw [e1, bitsOf_eq hn hlt]
  have hpos : ∀ p, p < 32 → pos st a5 p = if st && !a5 then p / 2 else p := by
    intro p hp
    unfold pos B1.bitPos B2.bitPos
    split <;> exact Nat.mod_eq_of_lt (by omega)
  cases st with
  | false =>
    have hb : ∀ j, j < 32 → (usedMask false a5 c i).testBit j = (c (i + j)).isUsed := by
      intro j hj
      show (B1.matchUsed (load false c i)).testBit j = _
      rw [used1_bit fun h => hc j h]; simp [hj]
    show ((List.range 32).find? _).map _ = ((List.range 32).find? _).map _ ∧
      ((List.range 32).filter _).map _ = ((List.range 32).filter _).map _
    rw [find_congr hb, filter_congr' hb]
    constructor
    · cases hf : (List.range 32).find? fun j => (c (i + j)).isUsed with
      | none => rfl
      | some a =>
        have := List.mem_range.mp (List.mem_of_find?_eq_some hf)
        simp [hpos a this]
    · apply List.map_congr_left
      intro a ha
      have := List.mem_range.mp (List.mem_of_mem_filter ha)
      simp [hpos a this]
  | true =>
    cases a5 with
    | true =>
      have hb : ∀ j, j < 16 → (usedMask true true c i).testBit j = (c (i + j)).isUsed := by
        intro j hj
        show (B2.matchUsed512 (load true c i)).testBit j = _
        rw [used512_bit fun h => hc j h]; simp [hj]
      show ((List.range 16).find? _).map _ = ((List.range 16).find? _).map _ ∧
        ((List.range 16).filter _).map _ = ((List.range 16).filter _).map _
      rw [find_congr hb, filter_congr' hb]
      constructor
      · cases hf : (List.range 16).find? fun j => (c (i + j)).isUsed with
        | none => rfl
        | some a =>
          have := List.mem_range.mp (List.mem_of_find?_eq_some hf)
          simp [hpos a (by omega)]
      · apply List.map_congr_left
        intro a ha
        have := List.mem_range.mp (List.mem_of_mem_filter ha)
        simp [hpos a (by omega)]
    | false =>
      have hb : ∀ j, j < 32 → (usedMask true false c i).testBit j =
          (decide (j % 2 = 0) && (fun j => (c (i + j)).isUsed) (j / 2)) := by
        intro j hj
        show (B2.matchUsed (load true c i)).testBit j = _
        rw [used2_bit fun h => hc (j / 2) (show j / 2 < 16 by omega)]; simp [hj]
      show ((List.range 32).find? _).map _ = ((List.range 16).find? _).map _ ∧
        ((List.range 32).filter _).map _ = ((List.range 16).filter _).map _
      rw [find_congr hb, filter_congr' hb, ← filter_even (fun j => (c (i + j)).isUsed) 16]
      constructor
      · rw [show (32 : Nat) = 2 * 16 from rfl, find_even fun j => (c (i + j)).isUsed]
        cases hf : (List.range 16).find? fun j => (c (i + j)).isUsed with
        | none => rfl
        | some a =>
          have := List.mem_range.mp (List.mem_of_find?_eq_some hf)
          simp [hpos (2 * a) (by omega)]
      · rw [List.map_map]
        apply List.map_congr_left
        intro a ha
        have := List.mem_range.mp (List.mem_of_mem_filter ha)
        simp [hpos a (by omega)]

theorem range_split (w n : Nat) : List.range ((n + 1) * w) = List.range w ++ (List.range (n * w)).map (w + ·) := by
  rw [Nat.add_mul, Nat.one_mul, Nat.add_comm, List.range_add]

theorem beginLoop_eq (st a5 : Bool) (n i : Nat) (hc : ∀ j, j < n * Robin.width st → WF (c (i + j))) :
    beginLoop st a5 c n i = ((List.range (n * Robin.width st)).find? fun j => (c (i + j)).isUsed).map (i + ·) := by
  induction n generalizing i with
  | zero => simp [beginLoop]
  | succ n ih =>
    have hg := (group_used (c := c) st a5 (i := i) fun j hj => hc j (by rw [Nat.add_mul]; omega)).1
    rw [range_split, List.find?_append]
    unfold beginLoop
    cases hf : (List.range (Robin.width st)).find? fun j => (c (i + j)).isUsed with
    | some a =>
      rw [hf] at hg
      split at hg
      · rw [if_pos (by assumption), hg]; rfl
      · cases hg
    | none =>
      rw [hf] at hg
      split at hg
      · cases hg
      · rw [if_neg (by assumption), ih (i + Robin.width st) fun j hj => by
          rw [Nat.add_assoc]; exact hc _ (by rw [Nat.add_mul]; omega)]
        rw [Option.none_or, List.find?_map]
        simp only [Option.map_map]
        congr 1
        · funext x; simp [Nat.add_assoc]
        · congr 1; funext x; simp [Nat.add_assoc]

theorem rehashLoop_eq (st a5 : Bool) (n i : Nat) (hc : ∀ j, j < n * Robin.width st → WF (c (i + j))) :
    rehashLoop st a5 c n i = ((List.range (n * Robin.width st)).filter fun j => (c (i + j)).isUsed).map (i + ·) := by
  induction n generalizing i with
  | zero => simp [rehashLoop]
  | succ n ih =>
    have hg := (group_used (c := c) st a5 (i := i) fun j hj => hc j (by rw [Nat.add_mul]; omega)).2
    rw [range_split, List.filter_append, List.map_append, ← hg]
    unfold rehashLoop
    rw [ih (i + Robin.width st) fun j hj => by rw [Nat.add_assoc]; exact hc _ (by rw [Nat.add_mul]; omega)]
    rw [List.filter_map, List.map_map]
    congr 2
    · funext x; simp [Nat.add_assoc]
    · congr 1; funext x; simp [Nat.add_assoc]

end

/-! ### `clear_ctrls` -/

/-- A 32-byte store into a block of `len` bytes. -/
def storeIn (len p : Nat) (r : Reg) (mem : Nat → Nat) : Res (Nat → Nat) := if p + 32 ≤ len then .ok (store mem p r) else .ub

/-- The loop of `clear_ctrls` over the groups (RH:4251-4253), from group `g` on. -/
def fillLoop (len : Nat) (e : Reg) : Nat → Nat → (Nat → Nat) → Res (Nat → Nat)
  | 0, _, mem => .ok mem
  | n + 1, g, mem => (storeIn len (32 * g) e mem).bind fun mem' => fillLoop len e n (g + 1) mem'

/-- `clear_ctrls(ctrls, slot_capacity, max_lookups, group_count)` (RH:4246-4264) on a block of `len` bytes; `s` is the size of a control
word, `32 / s` the group width, `e` and `f` are the registers of `fillAllEmpty` and `fillAllEndOf`. -/
def clearCtrls (s : Nat) (e f : Reg) (cap look G len : Nat) (mem : Nat → Nat) : Res (Nat → Nat) :=
  (fillLoop len e G 0 mem).bind fun m1 =>
    if 32 / s ≤ cap then storeIn len (32 * G) e m1
    else (storeIn len (s * (cap + look)) f m1).bind fun m2 => storeIn len (32 * G) f m2

/-- The register of `fillAllEmpty` (RH:1547-1549, 1731-1733, 1964-1966). -/
def emptyReg (st : Bool) : Reg := if st then set1_epi16 (-256) else set1_epi8 (-1)
/-- The register of `fillAllEndOf` (RH:1551-1553, 1735-1737, 1968-1970). -/
def endReg (st : Bool) : Reg := if st then set1_epi16 (-512) else set1_epi8 (-2)
/-- The register of `fillAllEmpty` of the eight-byte control words (RH:2208-2210, 2403-2405). -/
def emptyReg8 : Reg := set1_epi64x 0xFF00
/-- The register of `fillAllEndOf` of the eight-byte control words (RH:2212-2214, 2407-2409). -/
def endReg8 : Reg := set1_epi64x 0xFE00

theorem fillLoop_eq {len : Nat} {e : Reg} (n g : Nat) (mem : Nat → Nat) (h : 32 * (g + n) ≤ len) :
    ∃ m, fillLoop len e n g mem = .ok m ∧ ∀ j, m j = if 32 * g ≤ j ∧ j < 32 * (g + n) then e (j % 32) else mem j := by
  induction n generalizing g mem with
  | zero => exact ⟨mem, rfl, fun j => by rw [if_neg (by omega)]⟩
  | succ n ih =>
    obtain ⟨m, h1, h2⟩ := ih (g + 1) (store mem (32 * g) e) (by omega)
    refine ⟨m, ?_, fun j => ?_⟩
    · unfold fillLoop storeIn
      rw [if_pos (by omega)]
      exact h1
    · rw [h2]
      by_cases h3 : 32 * (g + 1) ≤ j ∧ j < 32 * (g + 1 + n)
      · rw [if_pos h3, if_pos (by omega)]
      · rw [if_neg h3]
        unfold store
        by_cases h4 : 32 * g ≤ j ∧ j < 32 * g + 32
        · rw [if_pos h4, if_pos (by omega)]
          congr 1
          omega
        · rw [if_neg h4, if_neg (by omega)]

theorem clearCtrls_eq {s : Nat} (hs : s = 1 ∨ s = 2 ∨ s = 8) {e f : Reg} {eb fb : Nat → Nat} (he : ∀ k, e k = eb (k % s))
    (hf : ∀ k, f k = fb (k % s)) {cap look G : Nat} (hG : s * (cap + look) ≤ 32 * G) (mem : Nat → Nat) :
    ∃ m, clearCtrls s e f cap look G (32 * (G + 1)) mem = .ok m ∧ ∀ j, j < 32 * (G + 1) →
      m j = if cap < 32 / s ∧ ((s * (cap + look) ≤ j ∧ j < s * (cap + look) + 32) ∨ 32 * G ≤ j) then fb (j % s) else eb (j % s) := by
  obtain ⟨m1, h1, h2⟩ := fillLoop_eq (len := 32 * (G + 1)) (e := e) G 0 mem (by omega)
  have hmod : ∀ j, j % 32 % s = j % s := by intro j; rcases hs with rfl | rfl | rfl <;> omega
  unfold clearCtrls
  rw [h1]
  simp only [Res.bind_ok]
  by_cases hc : 32 / s ≤ cap
  · rw [if_pos hc]
    refine ⟨store m1 (32 * G) e, by unfold storeIn; rw [if_pos (by omega)], fun j hj => ?_⟩
    rw [if_neg (by omega)]
    unfold store
    by_cases h4 : 32 * G ≤ j ∧ j < 32 * G + 32
    · rw [if_pos h4, he]
      congr 1
      rcases hs with rfl | rfl | rfl <;> omega
    · rw [if_neg h4, h2, if_pos (by omega), he, hmod]
  · rw [if_neg hc]
    have e1 : storeIn (32 * (G + 1)) (s * (cap + look)) f m1 = .ok (store m1 (s * (cap + look)) f) := by
      unfold storeIn; rw [if_pos (by omega)]
    rw [e1]
    simp only [Res.bind_ok]
    refine ⟨store (store m1 (s * (cap + look)) f) (32 * G) f, by unfold storeIn; rw [if_pos (by omega)], fun j hj => ?_⟩
    have hoff : ∀ j, s * (cap + look) ≤ j → (j - s * (cap + look)) % s = j % s := by
      intro j hj
      obtain ⟨d, rfl⟩ := Nat.exists_eq_add_of_le hj
      rw [Nat.add_sub_cancel_left, Nat.mul_add_mod]
    generalize s * (cap + look) = P at *
    unfold store
    by_cases h4 : 32 * G ≤ j ∧ j < 32 * G + 32
    · rw [if_pos h4, if_pos (by omega), hf]
      congr 1
      rcases hs with rfl | rfl | rfl <;> omega
    · rw [if_neg h4]
      by_cases h5 : P ≤ j ∧ j < P + 32
      · rw [if_pos h5, if_pos (by omega), hf, hoff j h5.1]
      · rw [if_neg h5, h2, if_pos (by omega), if_neg (by omega), he, hmod]

/-! ### C117 -/

variable {c : Nat → Robin.Ctrl}

/-- C117, one-byte control words: for every content of a group, bit `j` of the masks is set exactly if the control word `j` is used, is
unused, is empty, is not empty, holds the tag `d`. -/
theorem C117_masks_one_byte {i j : Nat} (hc : j < 32 → WF (c (i + j))) {d : Int} (h1 : -128 ≤ d) (h2 : d ≤ 127) :
    ((B1.matchUsed (load false c i)).testBit j = true ↔ j < 32 ∧ 0 ≤ (c (i + j)).dist) ∧
    ((B1.matchUnused (load false c i)).testBit j = true ↔ j < 32 ∧ (c (i + j)).dist < 0) ∧
    ((B1.matchEmpty (load false c i)).testBit j = true ↔ j < 32 ∧ (c (i + j)).dist = -1) ∧
    ((B1.matchNonEmpty (load false c i)).testBit j = true ↔ j < 32 ∧ (c (i + j)).dist ≠ -1) ∧
    ((B1.matchTag (load false c i) d).testBit j = true ↔ j < 32 ∧ (c (i + j)).dist = d) := by
  refine ⟨?_, ?_, ?_, ?_, ?_⟩
  · rw [used1_bit hc]; simp [Robin.Ctrl.isUsed]
  · rw [unused1_bit hc]; simp [Robin.Ctrl.isUsed]
  · unfold B1.matchEmpty
    rw [if_neg (by decide), tag1_bit (by decide) (by decide) hc]; simp
  · rw [nonEmpty1_bit hc]; simp [Robin.Ctrl.isEmpty]
  · rw [tag1_bit h1 h2 hc]; simp

/-- C117, two-byte control words: the AVX2 masks have bit `2 j` for the control word `j`, the AVX512 masks bit `j`. -/
theorem C117_masks_two_bytes {i : Nat} (hc : ∀ j, j < 16 → WF (c (i + j))) (j : Nat) :
    ((B2.matchUsed (load true c i)).testBit j = true ↔ j < 32 ∧ j % 2 = 0 ∧ 0 ≤ (c (i + j / 2)).dist) ∧
    ((B2.matchUnused (load true c i)).testBit j = true ↔ j < 32 ∧ j % 2 = 0 ∧ (c (i + j / 2)).dist < 0) ∧
    ((B2.matchEmpty (load true c i)).testBit j = true ↔ j < 32 ∧ j % 2 = 0 ∧ (c (i + j / 2)).dist = -1) ∧
    ((B2.matchUsed512 (load true c i)).testBit j = true ↔ j < 16 ∧ 0 ≤ (c (i + j)).dist) ∧
    ((B2.matchUnused512 (load true c i)).testBit j = true ↔ j < 16 ∧ (c (i + j)).dist < 0) ∧
    ((B2.matchEmptyOnly512 (load true c i)).testBit j = true ↔ j < 16 ∧ (c (i + j)).dist = -1) := by
  have hc' : j < 32 → WF (c (i + j / 2)) := fun h => hc _ (by omega)
  refine ⟨?_, ?_, ?_, ?_, ?_, ?_⟩
  · rw [used2_bit hc']; simp [Robin.Ctrl.isUsed, and_assoc]
  · rw [unused2_bit hc']; simp [Robin.Ctrl.isUsed, and_assoc]
  · rw [empty2_bit hc']; simp [Robin.Ctrl.isEmpty, and_assoc]
  · rw [used512_bit (hc j)]; simp [Robin.Ctrl.isUsed]
  · rw [unused512_bit (hc j)]; simp [Robin.Ctrl.isUsed]
  · rw [emptyOnly512_bit (hc j)]; simp [Robin.Ctrl.isEmpty]

/-- C117: `begin()` as the code computes it, group by group with the vector instructions, is the first used control word, for both
control words, both instruction sets and every content of the control block. -/
theorem C117_begin {K V : Type} (st a5 : Bool) (t : Robin.Map K V)
    (hc : ∀ j, j < Robin.groups st t * Robin.width st → WF (t.ctrl j)) :
    (beginLoop st a5 t.ctrl (Robin.groups st t) 0).getD (Robin.maxCap t) = Robin.beginIdx st t := by
  rw [beginLoop_eq st a5 _ 0 fun j hj => by rw [Nat.zero_add]; exact hc j hj]
  unfold Robin.beginIdx
  simp

/-- C117: the slots that a rehash moves, group by group with the vector instructions, are those of all used control words, each once and
in ascending order. -/
theorem C117_rehash_visits (st a5 : Bool) (n : Nat) (hc : ∀ j, j < n * Robin.width st → WF (c j)) :
    rehashLoop st a5 c n 0 = (List.range (n * Robin.width st)).filter fun i => decide (0 ≤ (c i).dist) := by
  rw [rehashLoop_eq st a5 _ 0 fun j hj => by rw [Nat.zero_add]; exact hc j hj]
  simp only [Nat.zero_add, Robin.Ctrl.isUsed]
  exact List.map_id _

/-- C117 for the maps a program can reach: `begin()` and the rehash loop computed with the vector instructions are the ones of the model,
about which C33, C34 and the other theorems on `robin_hash_map` speak. -/
theorem C117_reached_partial {K V : Type} {E : Env K} (hE : E.Lawful) {rv : Nat → Nat} (hrv : ∀ x, 256 ≤ rv x ∧ rv x ≤ 1024)
    {cs : List (Bool × Spec.Call K V)} {t : Robin.Map K V} (h : Robin.Reached E rv cs t) (a5 : Bool) :
    (beginLoop false a5 t.ctrl (Robin.groups false t) 0).getD (Robin.maxCap t) = Robin.beginIdx false t ∧
    (32 ≤ Robin.slotCap t → rehashLoop false a5 t.ctrl (Robin.groups false t) 0 = Robin.usedIdx false t) := by
  have hw : ∀ j, j < Robin.groups false t * Robin.width false → WF (t.ctrl j) := by
    rcases (h.reach hE hrv).1.st with ⟨m, r, rfl⟩ | ⟨c, hl⟩
    · intro j _
      show WF (if j < 4 then Robin.Ctrl.empty else Robin.Ctrl.endOf)
      split <;> exact ⟨by decide, by decide, by decide⟩
    · intro j hj
      have h1 : j < t.clen := by
        rw [hl.clen, Nat.add_mul]
        unfold Robin.groups at hj
        rw [hl.toShape.maxCap, hl.slen] at hj
        simp only [Robin.width, Bool.false_eq_true, if_false] at hj
        omega
      obtain ⟨h2, h3, h4⟩ := hl.dist_le h1
      exact ⟨by omega, h3, by omega⟩
  refine ⟨C117_begin false a5 t hw, fun hcap => ?_⟩
  rw [C117_rehash_visits false a5 _ hw]
  unfold Robin.usedIdx
  rw [if_pos (show Robin.width false ≤ _ from hcap)]
  rfl

/-- C117: `clear_ctrls` writes the whole block of `G + 1` groups, stays inside it, and leaves the control words that the model says. -/
theorem C117_clear (st : Bool) {cap look G : Nat} (hG : cap + look ≤ G * Robin.width st) (mem : Nat → Nat) :
    ∃ m, clearCtrls (if st then 2 else 1) (emptyReg st) (endReg st) cap look G (32 * (G + 1)) mem = .ok m ∧
      ∀ j, j < 32 * (G + 1) → m j = bytes st (Robin.clearedCtrl st cap look G) j := by
  cases st with
  | false =>
    obtain ⟨m, h1, h2⟩ := clearCtrls_eq (s := 1) (Or.inl rfl) (e := emptyReg false) (f := endReg false) (eb := fun _ => 255)
      (fb := fun _ => 254) (fun _ => rfl) (fun _ => rfl) (cap := cap) (look := look) (G := G)
      (by simp only [Robin.width, Bool.false_eq_true, if_false] at hG; omega) mem
    refine ⟨m, h1, fun j hj => ?_⟩
    rw [h2 j hj]
    unfold bytes Robin.clearedCtrl Robin.width
    simp only [Bool.false_eq_true, if_false]
    by_cases hh : cap < 32 ∧ (cap + look ≤ j ∧ j < cap + look + 32 ∨ G * 32 ≤ j)
    · rw [if_pos hh, if_pos (by omega)]; decide
    · rw [if_neg hh, if_neg (by omega)]; decide
  | true =>
    have hreg : ∀ (x : Int) (b : Nat) (_ : enc16 x = 256 * b) (_ : b < 256) (k : Nat),
        set1_epi16 x k = if k % 2 = 0 then 0 else b := by
      intro x b hx hb k
      unfold set1_epi16 of16
      simp only [hx]
      split <;> omega
    obtain ⟨m, h1, h2⟩ := clearCtrls_eq (s := 2) (Or.inr (Or.inl rfl)) (e := emptyReg true) (f := endReg true)
      (eb := fun b => if b = 0 then 0 else 255) (fb := fun b => if b = 0 then 0 else 254)
      (hreg (-256) 255 (by decide) (by decide)) (hreg (-512) 254 (by decide) (by decide)) (cap := cap) (look := look) (G := G)
      (by simp only [Robin.width, if_true] at hG; omega) mem
    refine ⟨m, h1, fun j hj => ?_⟩
    rw [h2 j hj]
    unfold bytes Robin.clearedCtrl Robin.width
    simp only [if_true]
    by_cases hh : cap < 16 ∧ (cap + look ≤ j / 2 ∧ j / 2 < cap + look + 16 ∨ G * 16 ≤ j / 2)
    · rw [if_pos hh, if_pos (by omega)]
      split <;> decide
    · rw [if_neg hh, if_neg (by omega)]
      split <;> decide

/-! The masks that only disabled code uses (`#if 0` at RH:5193, 5393, 5528, 6342), and those of the eight-byte control words. -/

theorem and_high (r : Reg) (hr : ∀ j, r j < 256) (i : Nat) : u16 (and_si256 r (slli_epi16 setones 8)) i = u16 r i / 256 * 256 := by
  have h1 : slli_epi16 setones 8 = fun j => if j % 2 = 0 then 0 else 255 := by
    funext j
    unfold slli_epi16 of16
    simp only [u16_ones]
    by_cases h : j % 2 = 0 <;> simp [h]
  rw [h1]
  unfold u16 and_si256
  simp only
  rw [if_pos (by omega), if_neg (by omega), Nat.and_zero]
  have h2 := hr (2 * i)
  have h3 : r (2 * i + 1) &&& 255 = r (2 * i + 1) := by
    rw [show (255 : Nat) = 2 ^ 8 - 1 from rfl, Nat.and_two_pow_sub_one_eq_mod]
    exact Nat.mod_eq_of_lt (hr _)
  rw [h3]
  omega

theorem s16_high {x : Int} {w : Nat} (hw : w < 65536) (h : s16 w = x) : s16 (w / 256 * 256) = x / 256 * 256 := by
  subst h
  unfold s16
  split <;> rename_i h1 <;> split <;> rename_i h2 <;> omega

/-- C117, the masks of a probe: as long as the probe distance stays within a byte they tell, for every control word of the group, whether
it holds the searched hash at the searched distance (`maskHash`) and whether it ends the search (`maskEmpty`). -/
theorem C117_probe_masks {i j : Nat} {d : Int} {hash : Nat} (h1 : 0 ≤ d) :
    (d + 31 ≤ 127 → (j < 32 → WF (c (i + j))) →
      ((B1.matchHashAndDistance (load false c i) d).1.testBit j = true ↔ j < 32 ∧ (c (i + j)).dist < d + j) ∧
      ((B1.matchHashAndDistance (load false c i) d).2.testBit j = true ↔ j < 32 ∧ (c (i + j)).dist = d + j)) ∧
    (d + 15 ≤ 127 → hash < 256 → (∀ j, WF (c j)) →
      ((B2.matchHashAndDistance (load true c i) (d * 256 + hash)).1.testBit j = true ↔
        j < 32 ∧ j % 2 = 0 ∧ (c (i + j / 2)).dist < d + (j / 2 : Nat)) ∧
      ((B2.matchHashAndDistance (load true c i) (d * 256 + hash)).2.testBit j = true ↔
        j < 32 ∧ j % 2 = 0 ∧ (c (i + j / 2)).dist = d + (j / 2 : Nat) ∧ (c (i + j / 2)).hash = hash)) := by
  constructor
  · intro h2 hc
    obtain ⟨e1, e2⟩ := dist1_bit h1 (by omega) hc (d := d)
    rw [e1, e2]
    simp only [Bool.and_eq_true, decide_eq_true_eq]
    constructor <;> constructor <;> rintro ⟨h3, h4⟩ <;> exact ⟨h3, by omega⟩
  · intro h2 hh hc
    have hd : ∀ n, n < 16 → s16 (u16 (B2.distances (d * 256 + hash)) n) = (d + n) * 256 + hash ∧
        u16 (B2.distances (d * 256 + hash)) n < 65536 := by
      intro n hn
      unfold B2.distances adds_epi16
      rw [u16_of16]
      constructor
      · unfold set1_epi16
        rw [u16_of16, u16_of16, Nat.mod_eq_of_lt (enc16_lt _), Nat.mod_eq_of_lt (enc16_lt _), s16_enc16 (by omega) (by omega),
          Nat.mod_eq_of_lt (by omega : 256 * n < 65536)]
        have : s16 (256 * n) = 256 * n := by unfold s16; rw [if_pos (by omega)]; simp
        rw [this, s16_enc16 (by omega) (by omega)]
        omega
      · exact Nat.mod_lt _ (by decide)
    have hb1 : ∀ j, load true c i j < 256 := by
      intro j
      unfold load bytes
      simp only [if_true]
      split
      · exact (hc _).2.2
      · exact enc8_lt _
    have hb2 : ∀ j, B2.distances (d * 256 + hash) j < 256 := by
      intro j
      unfold B2.distances adds_epi16 of16
      split <;> exact Nat.mod_lt _ (by decide)
    have hlt : ∀ n, u16 (load true c i) n < 65536 := by
      intro n
      have h3 := hb1 (2 * n)
      have h4 := hb1 (2 * n + 1)
      unfold u16; omega
    have e1 : cmpgt_epi16 (and_si256 (B2.distances (d * 256 + hash)) (slli_epi16 setones 8)) (and_si256 (load true c i) (slli_epi16 setones 8))
        = sel fun j => decide (s16 (u16 (load true c i) (j / 2) / 256 * 256) < s16 (u16 (B2.distances (d * 256 + hash)) (j / 2) / 256 * 256)) := by
      rw [← sel16 fun n => decide (s16 (u16 (load true c i) n / 256 * 256) < s16 (u16 (B2.distances (d * 256 + hash)) n / 256 * 256))]
      unfold cmpgt_epi16
      congr 1
      funext n
      rw [and_high _ hb1, and_high _ hb2]
      simp
    have e2 : cmpeq_epi16 (B2.distances (d * 256 + hash)) (load true c i) =
        sel fun j => decide (u16 (B2.distances (d * 256 + hash)) (j / 2) = u16 (load true c i) (j / 2)) := by
      rw [← sel16 fun n => decide (u16 (B2.distances (d * 256 + hash)) n = u16 (load true c i) n)]
      unfold cmpeq_epi16
      congr 1
      funext n
      simp
    unfold B2.matchHashAndDistance
    simp only [e1, e2, andnot_sel]
    rw [mask_srli fun n => decide (s16 (u16 (load true c i) n / 256 * 256) < s16 (u16 (B2.distances (d * 256 + hash)) n / 256 * 256)),
      mask_srli fun n => (!decide (s16 (u16 (load true c i) n / 256 * 256) < s16 (u16 (B2.distances (d * 256 + hash)) n / 256 * 256)) &&
        decide (u16 (B2.distances (d * 256 + hash)) n = u16 (load true c i) n))]
    by_cases hj : j < 32
    · obtain ⟨h3, h4⟩ := hd (j / 2) (by omega)
      have h5 := s16_load (hc (i + j / 2))
      obtain ⟨w1, w2, w3⟩ := hc (i + j / 2)
      have h6 := hlt (j / 2)
      have hinj : u16 (B2.distances (d * 256 + hash)) (j / 2) = u16 (load true c i) (j / 2) ↔
          (c (i + j / 2)).dist = d + (j / 2 : Nat) ∧ (c (i + j / 2)).hash = hash := by
        constructor
        · intro he
          rw [he, h5] at h3
          omega
        · rintro ⟨ha, hb⟩
          have : s16 (u16 (B2.distances (d * 256 + hash)) (j / 2)) = s16 (u16 (load true c i) (j / 2)) := by rw [h3, h5, ha, hb]
          unfold s16 at this
          split at this <;> split at this <;> omega
      rw [s16_high h6 h5, s16_high h4 h3]
      have hcmp : ((c (i + j / 2)).dist * 256 + (c (i + j / 2)).hash) / 256 * 256 < ((d + (j / 2 : Nat)) * 256 + (hash : Int)) / 256 * 256 ↔
          (c (i + j / 2)).dist < d + (j / 2 : Nat) := by omega
      simp only [Bool.and_eq_true, decide_eq_true_eq, Bool.not_eq_true', decide_eq_false_iff_not, hcmp, hinj]
      constructor
      · constructor
        · rintro ⟨⟨a, b⟩, e⟩; exact ⟨a, b, e⟩
        · rintro ⟨a, b, e⟩; exact ⟨⟨a, b⟩, e⟩
      · constructor
        · rintro ⟨⟨a, b⟩, _, e⟩; exact ⟨a, b, e⟩
        · rintro ⟨a, b, e⟩; exact ⟨⟨a, b⟩, by omega, e⟩
    · simp [hj]

/-! The remaining masks. -/

theorem load_even (i j : Nat) (h : j % 2 = 0) : load true c i j = (c (i + j / 2)).hash := by
  unfold load bytes
  simp only [if_true]
  rw [if_pos (by omega), show (2 * i + j) / 2 = i + j / 2 by omega]

theorem load_odd (i j : Nat) (h : j % 2 = 1) : load true c i j = enc8 (c (i + j / 2)).dist := by
  unfold load bytes
  simp only [if_true]
  rw [if_neg (by omega), show (2 * i + j) / 2 = i + j / 2 by omega]

theorem set1_16 (w j : Nat) (hw : w < 65536) : set1_epi16 w j = if j % 2 = 0 then w % 256 else w / 256 := by
  unfold set1_epi16 of16
  have : enc16 w = w := by unfold enc16; omega
  simp only [this]
  split <;> omega

/-- A bytewise comparison, shifted to the left and read as a mask: the odd bits tell about the even bytes. -/
theorem mask_slli (p : Nat → Bool) (j : Nat) :
    (movemask_epi8 (slli_epi16 (sel p) 8)).testBit j = (decide (j < 32 ∧ j % 2 = 1) && p (j - 1)) := by
  have : slli_epi16 (sel p) 8 = sel fun j => decide (j % 2 = 1) && p (j - 1) := by
    funext j
    unfold slli_epi16 of16 u16 sel
    simp only [if_neg (show ¬ (8 : Nat) > 15 by decide)]
    by_cases h : j % 2 = 0
    · rw [if_pos h]
      simp [h]
    · rw [if_neg h, show 2 * (j / 2) = j - 1 by omega]
      by_cases h2 : p (j - 1) = true
      · simp [h2, show j % 2 = 1 by omega]
        split <;> decide
      · simp [h2]
        split <;> decide
  rw [this, movemask_sel]
  by_cases h1 : j < 32 <;> by_cases h2 : j % 2 = 1 <;> simp [h1, h2]

/-- A bytewise comparison, shifted to the right and read as a mask: the even bits tell about the odd bytes. -/
theorem mask_srli8 (p : Nat → Bool) (j : Nat) :
    (movemask_epi8 (srli_epi16 (sel p) 8)).testBit j = (decide (j < 32 ∧ j % 2 = 0) && p (j + 1)) := by
  have : srli_epi16 (sel p) 8 = sel fun j => decide (j % 2 = 0) && p (j + 1) := by
    funext j
    unfold srli_epi16 of16 u16 sel
    simp only [if_neg (show ¬ (8 : Nat) > 15 by decide)]
    by_cases h : j % 2 = 0
    · rw [if_pos h, show 2 * (j / 2) + 1 = j + 1 by omega, show 2 * (j / 2) = j by omega]
      by_cases h2 : p (j + 1) = true
      · by_cases h3 : p j = true <;> simp [h2, h3, h]
      · by_cases h3 : p j = true <;> simp [h2, h3]
    · rw [if_neg h]
      simp [h]
      split <;> split <;> omega
  rw [this, movemask_sel]
  by_cases h1 : j < 32 <;> by_cases h2 : j % 2 = 0 <;> simp [h1, h2]

/-- C117, the other masks of the two-byte control words: `matchHash` tells in its odd bits which hash bytes are equal, `matchTag` compares
whole control words, `matchNonEmpty` tells which are not empty; `isAllEmpty` of both control words. -/
theorem C117_other_masks {i : Nat} (hc : ∀ j, WF (c (i + j))) {x : Robin.Ctrl} (hx : WF x) (j : Nat) :
    ((B2.matchHash (load true c i) x.hash).testBit j = true ↔ j < 32 ∧ j % 2 = 1 ∧ (c (i + j / 2)).hash = x.hash) ∧
    ((B2.matchTag (load true c i) (x.dist * 256 + x.hash)).testBit j = true ↔ j < 32 ∧ j % 2 = 0 ∧ c (i + j / 2) = x) ∧
    ((B2.matchNonEmpty (load true c i)).testBit j = true ↔ j < 32 ∧ j % 2 = 0 ∧ (c (i + j / 2)).dist ≠ -1) ∧
    (B1.isAllEmpty (load false c i) = true ↔ ∀ j, j < 32 → (c (i + j)).dist = -1) ∧
    (B2.isAllEmpty (load true c i) = true ↔ ∀ j, j < 16 → (c (i + j)).dist = -1) := by
  obtain ⟨x1, x2, x3⟩ := hx
  refine ⟨?_, ?_, ?_, ?_, ?_⟩
  · have : cmpeq_epi8 (load true c i) (set1_epi16 x.hash) = sel fun j => decide (load true c i j = set1_epi16 x.hash j) := by
      funext j; unfold cmpeq_epi8 sel; simp
    unfold B2.matchHash
    rw [this, mask_slli]
    by_cases h : j < 32 ∧ j % 2 = 1
    · rw [set1_16 _ _ (by omega), if_pos (by omega), load_even _ _ (by omega), show (j - 1) / 2 = j / 2 by omega, Nat.mod_eq_of_lt x3]
      simp [h.1, h.2]
    · simp only [h, decide_false, Bool.false_and]
      constructor
      · intro h2; cases h2
      · rintro ⟨h1, h2, _⟩; exact absurd ⟨h1, h2⟩ h
  · have : cmpeq_epi16 (load true c i) (set1_epi16 (x.dist * 256 + x.hash)) =
        sel fun j => decide (u16 (load true c i) (j / 2) = enc16 (x.dist * 256 + x.hash)) := by
      rw [← sel16 fun n => decide (u16 (load true c i) n = enc16 (x.dist * 256 + x.hash))]
      unfold cmpeq_epi16
      congr 1
      funext n
      unfold set1_epi16
      rw [u16_of16, Nat.mod_eq_of_lt (enc16_lt _)]
      simp
    unfold B2.matchTag
    rw [this, mask_srli fun n => decide (u16 (load true c i) n = enc16 (x.dist * 256 + x.hash))]
    have h2 : u16 (load true c i) (j / 2) = enc16 (x.dist * 256 + x.hash) ↔ c (i + j / 2) = x := by
      rw [u16_load]
      obtain ⟨h3, h4, h5⟩ := hc (j / 2)
      constructor
      · intro h
        have : (c (i + j / 2)).dist = x.dist ∧ (c (i + j / 2)).hash = x.hash := by
          unfold enc16 enc8 at h; omega
        cases hcc : c (i + j / 2)
        cases x
        simp_all
      · intro h
        rw [h]; unfold enc16 enc8; omega
    simp only [h2, Bool.and_eq_true, decide_eq_true_eq, and_assoc]
  · have : cmpeq_epi8 (set1_epi16 (-256)) (load true c i) = sel fun j => decide (set1_epi16 (-256) j = load true c i j) := by
      funext j; unfold cmpeq_epi8 sel; simp
    unfold B2.matchNonEmpty
    rw [this, setones_sel, andnot_sel, mask_srli8]
    by_cases h : j < 32 ∧ j % 2 = 0
    · have h3 : set1_epi16 (-256) (j + 1) = 255 := by
        unfold set1_epi16 of16
        rw [if_neg (by omega), show enc16 (-256) = 65280 by decide]
        show 65280 / 256 % 256 = 255
        omega
      rw [load_odd _ _ (by omega), h3, show (j + 1) / 2 = j / 2 by omega]
      obtain ⟨h4, h5, _⟩ := hc (j / 2)
      have : 255 = enc8 (c (i + j / 2)).dist ↔ (c (i + j / 2)).dist = -1 := by unfold enc8; omega
      simp [h.1, h.2, this]
    · simp only [h, decide_false, Bool.false_and]
      constructor
      · intro h2; cases h2
      · rintro ⟨h1, h2, _⟩; exact absurd ⟨h1, h2⟩ h
  · unfold B1.isAllEmpty
    rw [beq_iff_eq]
    have hb : ∀ j, (B1.matchEmpty (load false c i)).testBit j = (decide (j < 32) && decide ((c (i + j)).dist = -1)) := fun j => by
      unfold B1.matchEmpty
      rw [if_neg (by decide), tag1_bit (by decide) (by decide) fun _ => hc j]
    constructor
    · intro h j hj
      have h2 := hb j
      rw [h, show (0xFFFFFFFF : Nat) = 2 ^ 32 - 1 from rfl, Nat.testBit_two_pow_sub_one] at h2
      simpa [hj] using h2
    · intro h
      apply Nat.eq_of_testBit_eq
      intro j
      rw [hb, show (0xFFFFFFFF : Nat) = 2 ^ 32 - 1 from rfl, Nat.testBit_two_pow_sub_one]
      by_cases hj : j < 32
      · simp [hj, h j hj]
      · simp [hj]
  · unfold B2.isAllEmpty
    rw [beq_iff_eq]
    have hb : ∀ j, (B2.matchEmpty (load true c i)).testBit j = (decide (j < 32 ∧ j % 2 = 0) && decide ((c (i + j / 2)).dist = -1)) := fun j => by
      rw [empty2_bit fun _ => hc _]; rfl
    have h5 : ∀ j, Nat.testBit 0x55555555 j = decide (j < 32 ∧ j % 2 = 0) := by
      intro j
      by_cases hj : j < 32
      · have : ∀ j : Fin 32, Nat.testBit 0x55555555 j = decide (j.1 < 32 ∧ j.1 % 2 = 0) := by decide
        exact this ⟨j, hj⟩
      · rw [Nat.testBit_lt_two_pow (Nat.lt_of_lt_of_le (by decide : 0x55555555 < 2 ^ 32) (Nat.pow_le_pow_right (by decide) (by omega)))]
        simp [hj]
    constructor
    · intro h j hj
      have h2 := hb (2 * j)
      rw [h, h5, show 2 * j / 2 = j by omega] at h2
      simpa [show 2 * j < 32 by omega] using h2
    · intro h
      apply Nat.eq_of_testBit_eq
      intro j
      rw [hb, h5]
      by_cases hj : j < 32 ∧ j % 2 = 0
      · simp [hj, h (j / 2) (by omega)]
      · simp [hj]

/-- C117, `matchEmptyAndDistance`: the control words that end a search at the distance `d` from the first one.  Both bits of a two-byte
control word are set. -/
theorem C117_empty_and_distance {i j : Nat} {d : Int} (h1 : 0 ≤ d) (hc : ∀ j, WF (c (i + j))) :
    (d + 31 ≤ 127 →
      ((B1.matchEmptyAndDistance (load false c i) d).testBit j = true ↔ j < 32 ∧ (c (i + j)).dist < d + j)) ∧
    (d + 15 ≤ 127 →
      ((B2.matchEmptyAndDistance (load true c i) d).testBit j = true ↔ j < 32 ∧ (c (i + j / 2)).dist < d + (j / 2 : Nat))) := by
  constructor
  · intro h2
    show (B1.matchHashAndDistance (load false c i) d).1.testBit j = true ↔ _
    rw [(dist1_bit h1 (by omega) fun _ => hc j).1]
    simp only [Bool.and_eq_true, decide_eq_true_eq]
    constructor <;> rintro ⟨h3, h4⟩ <;> exact ⟨h3, by omega⟩
  · intro h2
    have : cmpgt_epi16 (adds_epi16 (slli_epi16 (set1_epi16 d) 8) (of16 fun i => 256 * i)) (load true c i) = sel fun j =>
        decide (s16 (u16 (load true c i) (j / 2)) < s16 (u16 (adds_epi16 (slli_epi16 (set1_epi16 d) 8) (of16 fun i => 256 * i)) (j / 2))) := by
      rw [← sel16 fun n => decide (s16 (u16 (load true c i) n) < s16 (u16 (adds_epi16 (slli_epi16 (set1_epi16 d) 8) (of16 fun i => 256 * i)) n))]
      unfold cmpgt_epi16
      congr 1
      funext n
      simp
    unfold B2.matchEmptyAndDistance
    rw [this, movemask_sel]
    by_cases hj : j < 32
    · have h3 : s16 (u16 (adds_epi16 (slli_epi16 (set1_epi16 d) 8) (of16 fun i => 256 * i)) (j / 2)) = (d + (j / 2 : Nat)) * 256 := by
        unfold adds_epi16 slli_epi16 set1_epi16
        rw [u16_of16, u16_of16, u16_of16, u16_of16, if_neg (show ¬ (8 : Nat) > 15 by decide), Nat.mod_eq_of_lt (enc16_lt _)]
        have e1 : enc16 d % 65536 * 2 ^ 8 % 65536 % 65536 = (d * 256).toNat := by unfold enc16; omega
        have e2 : 256 * (j / 2) % 65536 = 256 * (j / 2) := by omega
        rw [e1, e2]
        have e3 : s16 (d * 256).toNat = d * 256 := by unfold s16; rw [if_pos (by omega)]; omega
        have e4 : s16 (256 * (j / 2)) = 256 * (j / 2 : Nat) := by unfold s16; rw [if_pos (by omega)]; omega
        rw [e3, e4, s16_enc16 (by omega) (by omega)]
        omega
      rw [h3, s16_load (hc (j / 2))]
      obtain ⟨w1, w2, w3⟩ := hc (j / 2)
      simp only [hj, decide_true, Bool.true_and, true_and, decide_eq_true_eq]
      omega
    · simp [hj]

/-- C117 does not hold near the end of the distance range: the addition saturates, and with a probe distance of 128 the mask of matches
still reports a control word of distance 127. -/
theorem C117_probe_mask_saturates :
    (B1.matchHashAndDistance (load false (fun _ => ⟨127, 0⟩) 0) 127).2 = 0xFFFFFFFF ∧
    (B2.matchHashAndDistance (load true (fun _ => ⟨127, 255⟩) 0) (127 * 256 + 3)).2 = 0x55555554 := by
  decide +kernel

/-- C117 is violated by the AVX512 `matchEmpty` of the two-byte control words: end marks count as empty, and `isAllEmpty` holds for a
group of end marks. -/
theorem C117_avx512_empty_wrong {i : Nat} (hc : ∀ j, j < 16 → WF (c (i + j))) :
    (∀ j, (B2.matchEmpty512 (load true c i)).testBit j = true ↔ j < 16 ∧ ((c (i + j)).dist = -1)) ↔
      ∀ j, j < 16 → (c (i + j)).dist < 0 → (c (i + j)).dist = -1 := by
  have h : ∀ j, (B2.matchEmpty512 (load true c i)).testBit j = true ↔ j < 16 ∧ (c (i + j)).dist < 0 := by
    intro j
    show (B2.matchUnused512 (load true c i)).testBit j = true ↔ _
    rw [unused512_bit (hc j)]
    simp [Robin.Ctrl.isUsed]
  constructor
  · intro h1 j hj hd
    exact ((h1 j).mp ((h j).mpr ⟨hj, hd⟩)).2
  · intro h1 j
    rw [h]
    constructor
    · rintro ⟨a, b⟩; exact ⟨a, h1 j a b⟩
    · rintro ⟨a, b⟩; exact ⟨a, by omega⟩

example : B2.isAllEmpty512 (load true (fun _ => Robin.Ctrl.endOf) 0) = true := by decide +kernel

/-! Eight-byte control words -/

/-- Byte `j` of the control words of the indirect layout (RH:1129-1156): `hash`, `dist`, two reserved bytes, `index`. -/
def bytes8 (c : Nat → RobInd.Ctrl) (j : Nat) : Nat :=
  match j % 8 with
  | 0 => (c (j / 8)).hash
  | 1 => enc8 (c (j / 8)).dist
  | 2 => 0
  | 3 => 0
  | k + 4 => (c (j / 8)).idx / 2 ^ (8 * k) % 256

/-- `_mm256_loadu_si256` at the control word `i`. -/
def load8 (c : Nat → RobInd.Ctrl) (i : Nat) : Reg := fun j => bytes8 c (8 * i + j)

theorem set_tag8 (b j : Nat) (hb : b < 256) : set1_epi64x (256 * b) j = if j % 8 = 1 then b else 0 := by
  unfold set1_epi64x of64
  have h8 : j % 8 < 8 := Nat.mod_lt _ (by decide)
  generalize j % 8 = k at h8
  have : k = 0 ∨ k = 1 ∨ k = 2 ∨ k = 3 ∨ k = 4 ∨ k = 5 ∨ k = 6 ∨ k = 7 := by omega
  rcases this with rfl | rfl | rfl | rfl | rfl | rfl | rfl | rfl <;> simp <;> omega

theorem u64_tag8 (b i : Nat) (hb : b < 256) : u64 (set1_epi64x (256 * b)) i = 256 * b := by
  unfold u64
  simp only [set_tag8 _ _ hb]
  rw [if_neg (by omega), if_pos (by omega), if_neg (by omega), if_neg (by omega), if_neg (by omega), if_neg (by omega),
    if_neg (by omega), if_neg (by omega)]
  omega

theorem u64_and_dist (c : Nat → RobInd.Ctrl) (i j : Nat) :
    u64 (and_si256 (load8 c i) (set1_epi64x 0xFF00)) j = 256 * enc8 (c (i + j)).dist := by
  have h0 : ∀ k, k % 8 ≠ 1 → and_si256 (load8 c i) (set1_epi64x 0xFF00) k = 0 := by
    intro k hk
    unfold and_si256
    rw [show (0xFF00 : Nat) = 256 * 255 from rfl, set_tag8 _ _ (by decide), if_neg hk, Nat.and_zero]
  have h1 : and_si256 (load8 c i) (set1_epi64x 0xFF00) (8 * j + 1) = enc8 (c (i + j)).dist := by
    unfold and_si256 load8 bytes8
    rw [show (0xFF00 : Nat) = 256 * 255 from rfl, set_tag8 _ _ (by decide), if_pos (by omega),
      show (8 * i + (8 * j + 1)) % 8 = 1 by omega, show (8 * i + (8 * j + 1)) / 8 = i + j by omega]
    show enc8 _ &&& 255 = _
    rw [show (255 : Nat) = 2 ^ 8 - 1 from rfl, Nat.and_two_pow_sub_one_eq_mod]
    exact Nat.mod_eq_of_lt (enc8_lt _)
  unfold u64
  rw [h1, h0 _ (by omega), h0 _ (by omega), h0 _ (by omega), h0 _ (by omega), h0 _ (by omega), h0 _ (by omega), h0 _ (by omega)]
  omega

theorem sel64 (p : Nat → Bool) : of64 (fun i => if p i then 2 ^ 64 - 1 else 0) = sel fun j => p (j / 8) := by
  funext j
  unfold of64 sel
  have h8 : j % 8 < 8 := Nat.mod_lt _ (by decide)
  generalize j % 8 = k at h8
  by_cases h : p (j / 8) = true
  · have : k = 0 ∨ k = 1 ∨ k = 2 ∨ k = 3 ∨ k = 4 ∨ k = 5 ∨ k = 6 ∨ k = 7 := by omega
    rcases this with rfl | rfl | rfl | rfl | rfl | rfl | rfl | rfl <;> simp [h]
  · simp [h]

theorem u64_sel (p : Nat → Bool) (i : Nat) : u64 (sel fun j => p (j / 8)) i = if p i then 2 ^ 64 - 1 else 0 := by
  unfold u64 sel
  beta_reduce
  rw [show 8 * i / 8 = i by omega, show (8 * i + 1) / 8 = i by omega, show (8 * i + 2) / 8 = i by omega,
    show (8 * i + 3) / 8 = i by omega, show (8 * i + 4) / 8 = i by omega, show (8 * i + 5) / 8 = i by omega,
    show (8 * i + 6) / 8 = i by omega, show (8 * i + 7) / 8 = i by omega]
  by_cases h : p i = true <;> simp [h]

theorem mask_srli64 (p : Nat → Bool) (j : Nat) :
    (movemask_epi8 (srli_epi64 (sel fun j => p (j / 8)) 56)).testBit j = (decide (j < 32 ∧ j % 8 = 0) && p (j / 8)) := by
  have : srli_epi64 (sel fun j => p (j / 8)) 56 = sel fun j => decide (j % 8 = 0) && p (j / 8) := by
    funext j
    unfold srli_epi64
    rw [show (fun i => if (56 : Nat) > 63 then 0 else u64 (sel fun j => p (j / 8)) i / 2 ^ 56) = fun i => if p i then 255 else 0 by
      funext i; rw [u64_sel]; cases p i <;> rfl]
    unfold of64 sel
    by_cases h : p (j / 8) = true
    · have h8 : j % 8 < 8 := Nat.mod_lt _ (by decide)
      simp only [h, if_true, Bool.and_true, decide_eq_true_eq]
      generalize j % 8 = k at h8
      have : k = 0 ∨ k = 1 ∨ k = 2 ∨ k = 3 ∨ k = 4 ∨ k = 5 ∨ k = 6 ∨ k = 7 := by omega
      rcases this with rfl | rfl | rfl | rfl | rfl | rfl | rfl | rfl <;> simp
    · simp [h]
  rw [this, movemask_sel]
  by_cases h1 : j < 32 <;> by_cases h2 : j % 8 = 0 <;> simp [h1, h2]

/-- C117 is violated by `matchUsed` of the eight-byte control words: it reports every control word that is not empty, so end marks count
as used; `matchEmpty` is exact. -/
theorem C117_indirect_used_wrong {c : Nat → RobInd.Ctrl} {i : Nat} (hc : ∀ j, -128 ≤ (c j).dist ∧ (c j).dist ≤ 127) (j : Nat) :
    ((B8.matchUsed (load8 c i)).testBit j = true ↔ j < 32 ∧ j % 8 = 0 ∧ (c (i + j / 8)).dist ≠ -1) ∧
    ((B8.matchEmpty (load8 c i)).testBit j = true ↔ j < 32 ∧ j % 8 = 0 ∧ (c (i + j / 8)).dist = -1) := by
  have e1 : cmpgt_epi64 (set1_epi64x 0xFF00) (and_si256 (load8 c i) (set1_epi64x 0xFF00)) =
      sel fun j => decide (enc8 (c (i + j / 8)).dist < 255) := by
    rw [← sel64 fun n => decide (enc8 (c (i + n)).dist < 255)]
    unfold cmpgt_epi64
    congr 1
    funext n
    rw [u64_and_dist, show (0xFF00 : Nat) = 256 * 255 from rfl, u64_tag8 _ _ (by decide)]
    have := enc8_lt (c (i + n)).dist
    have h3 : s64 (256 * enc8 (c (i + n)).dist) < s64 (256 * 255) ↔ enc8 (c (i + n)).dist < 255 := by
      unfold s64
      rw [if_pos (by omega), if_pos (by omega)]
      omega
    simp [h3]
  have e2 : cmpeq_epi64 (set1_epi64x 0xFF00) (and_si256 (load8 c i) (set1_epi64x 0xFF00)) =
      sel fun j => decide (enc8 (c (i + j / 8)).dist = 255) := by
    rw [← sel64 fun n => decide (enc8 (c (i + n)).dist = 255)]
    unfold cmpeq_epi64
    congr 1
    funext n
    rw [u64_and_dist, show (0xFF00 : Nat) = 256 * 255 from rfl, u64_tag8 _ _ (by decide)]
    have h3 : 256 * 255 = 256 * enc8 (c (i + n)).dist ↔ enc8 (c (i + n)).dist = 255 := by omega
    simp [h3]
  unfold B8.matchUsed B8.matchEmpty
  rw [e1, e2, mask_srli64 fun n => decide (enc8 (c (i + n)).dist < 255), mask_srli64 fun n => decide (enc8 (c (i + n)).dist = 255)]
  obtain ⟨h1, h2⟩ := hc (i + j / 8)
  have h3 : enc8 (c (i + j / 8)).dist = 255 ↔ (c (i + j / 8)).dist = -1 := by unfold enc8; omega
  have h4 : enc8 (c (i + j / 8)).dist < 255 ↔ (c (i + j / 8)).dist ≠ -1 := by
    have := enc8_lt (c (i + j / 8)).dist
    omega
  simp only [Bool.and_eq_true, decide_eq_true_eq, h3, h4, and_assoc, and_self]

/-- C117 is violated by `matchHash` of the eight-byte control words: it shifts everything out and reports all four control words whatever
the hash; `isAllEmpty` is never true, `kFullMask32_Half` has 16 bits where the mask has four. -/
theorem C117_indirect_hash_wrong (r : Reg) (hash : Nat) : B8.matchHash r hash = 0x01010101 ∧ B8.isAllEmpty r = false := by
  constructor
  · unfold B8.matchHash
    have hz : ∀ r : Reg, slli_epi16 r 56 = setzero := by
      intro r
      funext j
      unfold slli_epi16 of16 setzero
      simp only [if_pos (show (56 : Nat) > 15 by decide)]
      split <;> rfl
    rw [hz, hz]
    decide +kernel
  · unfold B8.isAllEmpty B8.matchEmpty
    rw [beq_eq_false_iff_ne]
    intro h
    have h2 : ∀ (p : Nat → Bool), (movemask_epi8 (srli_epi64 (sel fun j => p (j / 8)) 56)).testBit 2 = false := by
      intro p; rw [mask_srli64]; simp
    have h3 : cmpeq_epi64 (set1_epi64x 0xFF00) (and_si256 r (set1_epi64x 0xFF00)) =
        sel fun j => decide (u64 (set1_epi64x 0xFF00) (j / 8) = u64 (and_si256 r (set1_epi64x 0xFF00)) (j / 8)) := by
      rw [← sel64 fun n => decide (u64 (set1_epi64x 0xFF00) n = u64 (and_si256 r (set1_epi64x 0xFF00)) n)]
      unfold cmpeq_epi64
      congr 1
      funext n
      simp
    have h4 := h2 fun n => decide (u64 (set1_epi64x 0xFF00) n = u64 (and_si256 r (set1_epi64x 0xFF00)) n)
    rw [← h3, h] at h4
    exact absurd h4 (by decide)

/-- C117: `clear_ctrls` of the eight-byte control words. -/
theorem C117_clear_indirect {cap look G : Nat} (hG : cap + look ≤ G * RobInd.width) (mem : Nat → Nat) :
    ∃ m, clearCtrls 8 emptyReg8 endReg8 cap look G (32 * (G + 1)) mem = .ok m ∧
      ∀ j, j < 32 * (G + 1) → m j = bytes8 (RobInd.clearedCtrl cap look G) j := by
  obtain ⟨m, h1, h2⟩ := clearCtrls_eq (s := 8) (Or.inr (Or.inr rfl)) (e := emptyReg8) (f := endReg8)
    (eb := fun b => if b = 1 then 255 else 0) (fb := fun b => if b = 1 then 254 else 0)
    (fun k => set_tag8 255 k (by decide)) (fun k => set_tag8 254 k (by decide)) (cap := cap) (look := look) (G := G)
    (by unfold RobInd.width at hG; omega) mem
  refine ⟨m, h1, fun j hj => ?_⟩
  rw [h2 j hj]
  have hb : ∀ (x : RobInd.Ctrl) (b : Nat), x.hash = 0 → x.idx = 0 → enc8 x.dist = b → x = RobInd.clearedCtrl cap look G (j / 8) →
      bytes8 (RobInd.clearedCtrl cap look G) j = if j % 8 = 1 then b else 0 := by
    intro x b hh hi hd hx
    unfold bytes8
    rw [← hx, hh, hi, hd]
    have h8 : j % 8 < 8 := Nat.mod_lt _ (by decide)
    generalize j % 8 = k at h8
    have : k = 0 ∨ k = 1 ∨ k = 2 ∨ k = 3 ∨ k = 4 ∨ k = 5 ∨ k = 6 ∨ k = 7 := by omega
    rcases this with rfl | rfl | rfl | rfl | rfl | rfl | rfl | rfl <;> simp
  by_cases hh : cap < 4 ∧ (cap + look ≤ j / 8 ∧ j / 8 < cap + look + 4 ∨ G * 4 ≤ j / 8)
  · rw [if_pos (by omega), hb RobInd.Ctrl.endOf 254 rfl rfl (by decide)
      (by unfold RobInd.clearedCtrl RobInd.width; rw [if_pos hh])]
  · rw [if_neg (by omega), hb RobInd.Ctrl.empty 255 rfl rfl (by decide)
      (by unfold RobInd.clearedCtrl RobInd.width; rw [if_neg hh])]

/-! ### Examples -/

/-- A block of a group with three elements, an empty rest and end marks behind. -/
def demo : Nat → Robin.Ctrl := fun i => if i = 5 then ⟨0, 7⟩ else if i = 6 then ⟨1, 9⟩ else if i = 20 then ⟨3, 0⟩ else if i < 24 then .empty else .endOf

theorem demo_wf (i : Nat) : WF (demo i) := by
  unfold demo
  split
  · exact ⟨by decide, by decide, by decide⟩
  · split
    · exact ⟨by decide, by decide, by decide⟩
    · split
      · exact ⟨by decide, by decide, by decide⟩
      · split <;> exact ⟨by decide, by decide, by decide⟩

example : B1.matchUsed (load false demo 0) = 2 ^ 5 + 2 ^ 6 + 2 ^ 20 ∧ B2.matchUsed (load true demo 0) = 2 ^ 10 + 2 ^ 12 ∧
    B2.matchUsed512 (load true demo 0) = 2 ^ 5 + 2 ^ 6 ∧ beginLoop true false demo 2 0 = some 5 ∧
    rehashLoop true false demo 2 0 = [5, 6, 20] ∧ rehashLoop false true demo 1 0 = [5, 6, 20] := by decide +kernel

example (i j : Nat) := C117_masks_one_byte (c := demo) (i := i) (j := j) (fun _ => demo_wf _) (d := -2) (by decide) (by decide)
example (i j : Nat) := C117_masks_two_bytes (c := demo) (i := i) (fun _ _ => demo_wf _) j
example := C117_rehash_visits (c := demo) true false 2 fun _ _ => demo_wf _
example (j : Nat) := C117_probe_masks (c := demo) (i := 5) (j := j) (d := 0) (hash := 7) (by decide)
example (j : Nat) := C117_other_masks (c := demo) (i := 0) (x := ⟨3, 0⟩) (fun _ => demo_wf _) ⟨by decide, by decide, by decide⟩ j
example (j : Nat) := C117_empty_and_distance (c := demo) (i := 5) (j := j) (d := 3) (by decide) (fun _ => demo_wf _)
example (j : Nat) := C117_indirect_used_wrong (c := fun _ => RobInd.Ctrl.endOf) (i := 0) (fun _ => ⟨by decide, by decide⟩) j
example : B8.matchUsed (load8 (fun _ => RobInd.Ctrl.endOf) 0) = 0x01010101 := by decide +kernel
example := C117_clear false (cap := 8) (look := 6) (G := 1) (by decide) fun _ => 0
example := C117_clear true (cap := 64) (look := 12) (G := 5) (by decide) fun _ => 0
example := C117_clear_indirect (cap := 4) (look := 4) (G := 2) (by decide) fun _ => 0

/-- The hypotheses of `C117_reached_partial` are met by a map with 40 elements, which has more than one group. -/
example : ∃ cs, ∃ t : Robin.Map Nat Nat, Robin.Reached (Robin.hashEnv id) (fun _ => 512) cs t ∧ 32 ≤ Robin.slotCap t := by
  have h1 : (Robin.stateOf (Robin.hashEnv id) 0 (Robin.ins 40)).isSome = true := by decide +kernel
  obtain ⟨t, ht⟩ := Option.isSome_iff_exists.mp h1
  have h2 : ((Robin.stateOf (Robin.hashEnv id) 0 (Robin.ins 40)).map fun t => decide (32 ≤ Robin.slotCap t)) = some true := by decide +kernel
  rw [ht] at h2
  exact ⟨_, t, Robin.reached_of ht (by decide), by simpa using h2⟩

end Verif.RobinGroup
