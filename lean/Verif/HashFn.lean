/-
The string hash functions of src/jstd/hasher (`hash_crc32.h`, `hashes.h`, `hash_helper.h`, `fnv1a.h`) as functions on a
block of readable memory: which bytes they read, and what the result depends on.
HC = hasher/hash_crc32.h, HS = hasher/hashes.h, HH = hasher/hash_helper.h, FN = hasher/fnv1a.h.

Simplifications: a length is a `Nat` below 2^63 (no object is longer), so `ssize_t remain` never goes negative; loads that
are not aligned are allowed (they are on the modelled x86-64); computing a pointer is never an error, only a load is.
-/
import Verif.Basic

namespace Verif.HashFn

/-- One byte of memory. -/
abbrev Byte := Fin 256

/-- Little-endian value of a list of bytes. -/
def le : List Byte → Nat
  | [] => 0
  | b :: bs => b.val + 256 * le bs

/-- An `n`-byte load at offset `o` of the memory block `m`, e.g. `*(uint64_t *)(data + o)`; a load that leaves the block is
`ub`. -/
def load (m : List Byte) (o n : Nat) : Res Nat :=
  if o + n ≤ m.length then .ok (le ((m.drop o).take n)) else .ub

/-! ### Functions that read whole words and mask the last one -/

/-- The loop of `intel_crc32_x64` (HC:151-173, word size 8), `intel_crc32_x86` (HC:111-133, word size 4): whole words while
`remain >= kStepSize`, then one more whole word, masked to the remaining bytes.  `step` is the `_mm_crc32_u64`/`_u32`
instruction. -/
def maskedLoop (step : Nat → Nat → Nat) (N : Nat) (m : List Byte) : Nat → Nat → Nat → Nat → Res Nat
  | 0, _, _, _ => .diverge
  | f + 1, o, remain, acc =>
    if N ≤ remain then
      (load m o N).bind fun w => maskedLoop step N m f (o + N) (remain - N) (step acc w)
    else if 0 < remain then
      (load m o N).bind fun w => .ok (step acc (w &&& ((2 ^ (8 * N) - 1) >>> ((N - remain) * 8))))
    else .ok acc

/-- `hash_crc32(data, length)` on x86-64 with SSE4.2 (HC:237-248, `intel_crc32_x64` HC:140-176): the 64-bit accumulator is
narrowed to 32 bits at the end. -/
def hashCrc32 (crc : Nat → Nat → Nat) (m : List Byte) (len : Nat) : Res Nat :=
  (maskedLoop crc 8 m (len + 1) 0 len (2 ^ 64 - 1)).bind fun r => .ok (r % 2 ^ 32)

/-- `hash_crc32(data, length)` on 32-bit x86 with SSE4.2 (`intel_crc32_x86` HC:100-136). -/
def hashCrc32x86 (crc : Nat → Nat → Nat) (m : List Byte) (len : Nat) : Res Nat :=
  maskedLoop crc 4 m (len + 1) 0 len (2 ^ 32 - 1)

/-- One round of `primaryHash_aligned` (HS:1137-1141, 1147-1152) with `hash_type` of `N` bytes. -/
def primaryStep (N : Nat) (h w : Nat) : Nat :=
  let mul := 0x397A4A6CC6A4A793 % 2 ^ (8 * N)
  let h1 := (h + w) % 2 ^ (8 * N) * mul % 2 ^ (8 * N)
  h1 ^^^ (h1 >>> (4 * N))

/-- `HashUtils::primaryHash` on x86 (HS:1196-1203 calling `primaryHash_aligned` HS:1120-1154), `hash_type` of `N` bytes. -/
def primaryHash (N : Nat) (m : List Byte) (len seed : Nat) : Res Nat :=
  maskedLoop (primaryStep N) N m (len + 1) 0 len
    (seed % 2 ^ (8 * N) ^^^ (0x397A4A6CC6A4A793 % 2 ^ (8 * N) * len % 2 ^ (8 * N)))

/-- The two loops of `intel_crc32_simple_x64` (HC:216-228, word size 8) and `intel_crc32_simple_x86` (HC:189-200, word size
4): `n` whole words … -/
def wordLoop (step : Nat → Nat → Nat) (N : Nat) (m : List Byte) : Nat → Nat → Nat → Res Nat
  | 0, _, acc => .ok acc
  | n + 1, o, acc => (load m o N).bind fun w => wordLoop step N m n (o + N) (step acc w)

/-- `intel_crc32_simple_x64(data, length)` (HC:207-231): whole words, then single bytes on the narrowed accumulator. -/
def crc32Simple (crc crc8 : Nat → Nat → Nat) (m : List Byte) (len : Nat) : Res Nat :=
  (wordLoop crc 8 m (len / 8) 0 (2 ^ 64 - 1)).bind fun a =>
    (wordLoop crc8 1 m (len % 8) (len / 8 * 8) (a % 2 ^ 32)).bind fun r => .ok (r % 2 ^ 32 ^^^ (2 ^ 32 - 1))

/-! ### Polynomial hashes -/

/-- The unrolled loop of `BKDRHash_31` (HS:358-363) and `BKDRHash` (HS:321-326): four elements a round; elements are `w` bytes
wide and `n` rounds are left.  `seed` is 31 resp. 131. -/
def bkdrQuads (seed w : Nat) (m : List Byte) : Nat → Nat → Nat → Res Nat
  | 0, _, h => .ok h
  | n + 1, i, h =>
    (load m (i * w) w).bind fun a => (load m ((i + 1) * w) w).bind fun b =>
    (load m ((i + 2) * w) w).bind fun c => (load m ((i + 3) * w) w).bind fun d =>
      bkdrQuads seed w m n (i + 4)
        ((h * (seed ^ 4 % 2 ^ 32) + a * (seed ^ 3 % 2 ^ 32) + b * (seed ^ 2 % 2 ^ 32) + c * seed + d) % 2 ^ 32)

/-- The rest loop (HS:365-368, 328-331) and the whole loop of `BKDRHash_31_std` (HS:391-394): one element a round. -/
def bkdrOnes (seed w : Nat) (m : List Byte) : Nat → Nat → Nat → Res Nat
  | 0, _, h => .ok h
  | n + 1, i, h => (load m (i * w) w).bind fun a => bkdrOnes seed w m n (i + 1) ((h * seed + a) % 2 ^ 32)

/-- `BKDRHash_31<CharTy>(key, len)` = `Times31` (HS:341-371, 404-407) and `BKDRHash` (HS:304-334), `sizeof(CharTy) = w`.
`len *= sizeof(CharTy)`, but `src` still points to elements of `w` bytes (`uchar_type` is `make_unsigned<CharTy>`,
char_traits.h:91-94, 112). -/
def bkdr (seed w : Nat) (m : List Byte) (len : Nat) : Res Nat :=
  (bkdrQuads seed w m (len * w / 4) 0 0).bind fun h => bkdrOnes seed w m (len * w % 4) (len * w / 4 * 4) h

/-- `Times31<CharTy>(key, len)` (HS:404-407). -/
def times31 (w : Nat) (m : List Byte) (len : Nat) : Res Nat := bkdr 31 w m len

/-- `Times31Std<CharTy>(key, len)` (HS:414-417, `BKDRHash_31_std` HS:378-397). -/
def times31Std (w : Nat) (m : List Byte) (len : Nat) : Res Nat := bkdrOnes 31 w m (len * w) 0 0

/-! ### FNV1A Yoshimura -/

/-- `_rotl_twise32(x, 5)` on 32 bits (FN:39). -/
def rotl5 (x : Nat) : Nat := (x <<< 5) % 2 ^ 32 ||| (x >>> 27)

/-- Loop of `FNV1A_Yoshimura` for at least 16 bytes (FN:103-120): `n` rounds are left, `p` is the offset, `d` is `line_offset`. -/
def yoshLoop (m : List Byte) (d : Nat) : Nat → Nat → Nat → Nat → Res (Nat × Nat)
  | 0, _, a, b => .ok (a, b)
  | n + 1, p, a, b =>
    (load m p 4).bind fun x0 => (load m (p + d) 4).bind fun y0 =>
    (load m (p + 4 + d) 4).bind fun y1 => (load m (p + 4) 4).bind fun x1 =>
      yoshLoop m d n (p + 8)
        ((a ^^^ (rotl5 x0 ^^^ y0)) * 709607 % 2 ^ 32) ((b ^^^ (rotl5 y1 ^^^ x1)) * 709607 % 2 ^ 32)

/-- The branch of `FNV1A_Yoshimura` for fewer than 16 bytes (FN:121-141).  The `char` read at FN:139 is sign-extended. -/
def yoshShort (m : List Byte) (len : Nat) : Res (Nat × Nat) :=
  (if len &&& 8 ≠ 0 then
      (load m 0 4).bind fun x => (load m 4 4).bind fun y =>
        .ok (8, (2166136261 ^^^ x) * 709607 % 2 ^ 32, (2166136261 ^^^ y) * 709607 % 2 ^ 32)
    else .ok (0, 2166136261, 2166136261)).bind fun (p, a, b) =>
  (if len &&& 4 ≠ 0 then
      (load m p 2).bind fun x => (load m (p + 2) 2).bind fun y =>
        .ok (p + 4, (a ^^^ x) * 709607 % 2 ^ 32, (b ^^^ y) * 709607 % 2 ^ 32)
    else .ok (p, a, b)).bind fun (p, a, b) =>
  (if len &&& 2 ≠ 0 then
      (load m p 2).bind fun x => .ok (p + 2, (a ^^^ x) * 709607 % 2 ^ 32, b)
    else .ok (p, a, b)).bind fun (p, a, b) =>
  if len &&& 1 ≠ 0 then
    (load m p 1).bind fun x =>
      .ok ((a ^^^ (if x < 128 then x else 2 ^ 32 - 256 + x)) * 709607 % 2 ^ 32, b)
  else .ok (a, b)

/-- `FNV1A_Yoshimura(data, data_len)` (FN:89-145). -/
def yoshimura (m : List Byte) (len : Nat) : Res Nat :=
  (if 16 ≤ len then
      let cnt := len / 16 + (if len % 16 ≠ 0 then 1 else 0)
      yoshLoop m (len - cnt * 8) cnt 0 2166136261 2166136261
    else yoshShort m len).bind fun (a, b) =>
    let h := (a ^^^ rotl5 b) * 709607 % 2 ^ 32
    .ok (h ^^^ (h >>> 16))

/-! ### Facts about loads -/

theorem load_ok {m : List Byte} {o n : Nat} (h : o + n ≤ m.length) :
    load m o n = .ok (le ((m.drop o).take n)) := if_pos h

theorem load_ub {m : List Byte} {o n : Nat} (h : m.length < o + n) : load m o n = .ub :=
  if_neg (by omega)

theorem load_ne_diverge (m : List Byte) (o n : Nat) : load m o n ≠ .diverge := by
  unfold load; split <;> simp

theorem le_append (a b : List Byte) : le (a ++ b) = le a + 256 ^ a.length * le b := by
  induction a with
  | nil => simp [le]
  | cons x xs ih =>
    simp only [List.cons_append, le, ih, List.length_cons, Nat.pow_succ]
    rw [Nat.mul_add, ← Nat.mul_assoc, Nat.mul_comm 256 (256 ^ _), Nat.add_assoc]

theorem le_lt (a : List Byte) : le a < 256 ^ a.length := by
  induction a with
  | nil => simp [le]
  | cons x xs ih =>
    simp only [le, List.length_cons, Nat.pow_succ]
    have := x.isLt
    omega

theorem load_append_left {s pad : List Byte} {o n : Nat} (h : o + n ≤ s.length) :
    load (s ++ pad) o n = .ok (le ((s.drop o).take n)) := by
  rw [load_ok (by simp; omega)]
  rw [List.drop_append_of_le_length (by omega), List.take_append_of_le_length (by simp; omega)]

/-- The mask keeps exactly the bytes that belong to the string. -/
theorem le_mask {N r : Nat} (l : List Byte) (hl : l.length = N) (hr : r ≤ N) :
    le l &&& ((2 ^ (8 * N) - 1) >>> ((N - r) * 8)) = le (l.take r) := by
  have e1 : (2 ^ (8 * N) - 1) >>> ((N - r) * 8) = 2 ^ (8 * r) - 1 := by
    rw [Nat.shiftRight_eq_div_pow]
    have hp : 2 ^ (8 * N) = 2 ^ (8 * r) * 2 ^ ((N - r) * 8) := by
      rw [← Nat.pow_add]; congr 1; omega
    have h1 := Nat.two_pow_pos (8 * r)
    have h2 := Nat.two_pow_pos ((N - r) * 8)
    rw [hp]
    generalize 2 ^ ((N - r) * 8) = B at *
    generalize 2 ^ (8 * r) = A at *
    obtain ⟨k, rfl⟩ : ∃ k, A = k + 1 := ⟨A - 1, by omega⟩
    have : (k + 1) * B - 1 = (B - 1) + B * k := by
      rw [Nat.add_mul, Nat.mul_comm]; omega
    rw [this, Nat.add_mul_div_left _ _ h2, Nat.div_eq_of_lt (by omega)]
    omega
  rw [e1, Nat.and_two_pow_sub_one_eq_mod]
  have hs : l = l.take r ++ l.drop r := (List.take_append_drop r l).symm
  have hlen : (l.take r).length = r := by simp; omega
  conv_lhs => rw [hs]
  rw [le_append, hlen]
  have h8 : (256 : Nat) ^ r = 2 ^ (8 * r) := by
    rw [Nat.pow_mul]
  rw [h8, Nat.add_mul_mod_self_left, Nat.mod_eq_of_lt]
  rw [← h8]
  have := le_lt (l.take r)
  rwa [hlen] at this

end Verif.HashFn
