/-
`hasher/sha1.h`: the functions built on the SHA instructions.
S1 = src/jstd/hasher/sha1.h, compiled with JSTD_HAVE_SMID_SHA and for x86-64 unless said otherwise.

The instructions are written down from Intel's documentation (Intel 64 and IA-32 Architectures Software Developer's Manual,
volume 2).  The specification of SHA-1 is FIPS 180-4, written down independently of the instructions.

Simplifications: a length is a `Nat` below 2^63 (no object is longer), so `ssize_t remain` is exact;
where it would become negative (last block) it is 0 here, the loop ends either way.  Memory is the list of
readable bytes from `data` on, as in `HashFn`.
-/
import Verif.HashFn

namespace Verif.Sha1
open Verif.HashFn (Byte)

/-- A 32-bit word. -/
abbrev Word := BitVec 32

/-! ### FIPS 180-4 -/

/-- ROTL (FIPS 180-4, 3.2). -/
def rotl (n : Nat) (x : Word) : Word := x.rotateLeft n

/-- The logical functions Ch, Parity, Maj, Parity (FIPS 180-4, 4.1.1). -/
def fips_f (t : Nat) (x y z : Word) : Word :=
  if t < 20 then (x &&& y) ^^^ (~~~x &&& z)
  else if t < 40 then x ^^^ y ^^^ z
  else if t < 60 then (x &&& y) ^^^ (x &&& z) ^^^ (y &&& z)
  else x ^^^ y ^^^ z

/-- The constants (FIPS 180-4, 4.2.1). -/
def fips_K (t : Nat) : Word :=
  if t < 20 then 0x5a827999 else if t < 40 then 0x6ed9eba1 else if t < 60 then 0x8f1bbcdc else 0xca62c1d6

/-- The message schedule (FIPS 180-4, 6.1.2 step 1); `M` are the sixteen words of the block. -/
def sched (M : Nat → Word) (t : Nat) : Word :=
  if _ : t < 16 then M t
  else rotl 1 (sched M (t - 3) ^^^ sched M (t - 8) ^^^ sched M (t - 14) ^^^ sched M (t - 16))
termination_by t

/-- The five working variables. -/
structure St where
  a : Word
  b : Word
  c : Word
  d : Word
  e : Word
  deriving DecidableEq

/-- One round (FIPS 180-4, 6.1.2 step 3). -/
def fips_round (w : Word) (t : Nat) (s : St) : St :=
  { a := rotl 5 s.a + fips_f t s.b s.c s.d + s.e + fips_K t + w
    b := s.a, c := rotl 30 s.b, d := s.c, e := s.d }

/-- The working variables after `t` rounds. -/
def rounds (M : Nat → Word) (h : St) : Nat → St
  | 0 => h
  | t + 1 => fips_round (sched M t) t (rounds M h t)

/-- The next intermediate hash value (FIPS 180-4, 6.1.2 step 4). -/
def compress (M : Nat → Word) (h : St) : St :=
  let s := rounds M h 80
  { a := s.a + h.a, b := s.b + h.b, c := s.c + h.c, d := s.d + h.d, e := s.e + h.e }

/-- Big-endian word `t` of the message block that starts at byte `o` (FIPS 180-4, 3.1, 5.2.1); bytes behind the end count as 0. -/
def wordAt (d : List Byte) (o t : Nat) : Word :=
  let b := fun i => (d.getD (o + 4 * t + i) 0).val
  BitVec.ofNat 32 (b 0 * 2 ^ 24 + b 1 * 2 ^ 16 + b 2 * 2 ^ 8 + b 3)

/-- The intermediate hash value after `n` blocks. -/
def chain (d : List Byte) (h : St) : Nat → St
  | 0 => h
  | n + 1 => compress (wordAt d (64 * n)) (chain d h n)

/-- The initial hash value (FIPS 180-4, 5.3.1). -/
def fips_H0 : St := ⟨0x67452301, 0xefcdab89, 0x98badcfe, 0x10325476, 0xc3d2e1f0⟩

/-- Padding (FIPS 180-4, 5.1.1): a one bit, zeros, the length in bits as a 64-bit big-endian number. -/
def fips_pad (msg : List Byte) : List Byte :=
  msg ++ [128] ++ List.replicate ((119 - msg.length % 64) % 64) 0
    ++ (List.range 8).map fun i => (⟨8 * msg.length / 256 ^ (7 - i) % 256, Nat.mod_lt _ (by decide)⟩ : Byte)

/-- SHA-1 (FIPS 180-4, 6.1.2). -/
def sha1 (msg : List Byte) : St := chain (fips_pad msg) fips_H0 ((fips_pad msg).length / 64)

/-! ### The instructions -/

/-- A 128-bit register as four 32-bit lanes, `x3` = bits 127–96. -/
structure V where
  x3 : Word
  x2 : Word
  x1 : Word
  x0 : Word
  deriving DecidableEq

/-- `_mm_setzero_si128`. -/
def setzero : V := ⟨0, 0, 0, 0⟩

/-- `_mm_set_epi32`. -/
def set_epi32 (e3 e2 e1 e0 : Word) : V := ⟨e3, e2, e1, e0⟩

/-- `_mm_add_epi32`. -/
def add_epi32 (a b : V) : V := ⟨a.x3 + b.x3, a.x2 + b.x2, a.x1 + b.x1, a.x0 + b.x0⟩

/-- `_mm_xor_si128`. -/
def xor_si128 (a b : V) : V := ⟨a.x3 ^^^ b.x3, a.x2 ^^^ b.x2, a.x1 ^^^ b.x1, a.x0 ^^^ b.x0⟩

/-- Lane `i`. -/
def V.lane (v : V) (i : Nat) : Word := if i = 0 then v.x0 else if i = 1 then v.x1 else if i = 2 then v.x2 else v.x3

/-- `_mm_shuffle_epi32` (PSHUFD). -/
def shuffle_epi32 (v : V) (imm : Nat) : V :=
  ⟨v.lane (imm / 64 % 4), v.lane (imm / 16 % 4), v.lane (imm / 4 % 4), v.lane (imm % 4)⟩

/-- `_mm_shuffle_epi8` (PSHUFB) with a mask whose bytes are below 128. -/
def shuffle_epi8 (v : List Byte) (mask : List Nat) : List Byte := mask.map fun k => v.getD (k % 16) 0

/-- The lanes of sixteen bytes. -/
def lanes (v : List Byte) : V :=
  let b := fun i => (v.getD i 0).val
  let w := fun i => BitVec.ofNat 32 (b i + b (i + 1) * 2 ^ 8 + b (i + 2) * 2 ^ 16 + b (i + 3) * 2 ^ 24)
  ⟨w 12, w 8, w 4, w 0⟩

/-- The functions f0 … f3 of SHA1RNDS4. -/
def rnds_f (i : Nat) (b c d : Word) : Word :=
  if i = 0 then (b &&& c) ^^^ (~~~b &&& d) else if i = 2 then (b &&& c) ^^^ (b &&& d) ^^^ (c &&& d) else b ^^^ c ^^^ d

/-- The constants K0 … K3 of SHA1RNDS4. -/
def rnds_K (i : Nat) : Word :=
  if i = 0 then 0x5A827999 else if i = 1 then 0x6ED9EBA1 else if i = 2 then 0x8F1BBCDC else 0xCA62C1D6

/-- `_mm_sha1rnds4_epu32(a, b, i)` (SHA1RNDS4): four rounds; the first takes word plus E from the top lane of `b`. -/
def sha1rnds4 (x y : V) (i : Nat) : V :=
  let A0 := x.x3; let B0 := x.x2; let C0 := x.x1; let D0 := x.x0
  let A1 := rnds_f i B0 C0 D0 + rotl 5 A0 + y.x3 + rnds_K i
  let B1 := A0; let C1 := rotl 30 B0; let D1 := C0; let E1 := D0
  let A2 := rnds_f i B1 C1 D1 + rotl 5 A1 + y.x2 + E1 + rnds_K i
  let B2 := A1; let C2 := rotl 30 B1; let D2 := C1; let E2 := D1
  let A3 := rnds_f i B2 C2 D2 + rotl 5 A2 + y.x1 + E2 + rnds_K i
  let B3 := A2; let C3 := rotl 30 B2; let D3 := C2; let E3 := D2
  let A4 := rnds_f i B3 C3 D3 + rotl 5 A3 + y.x0 + E3 + rnds_K i
  ⟨A4, A3, rotl 30 B3, C3⟩

/-- `_mm_sha1nexte_epu32(a, b)` (SHA1NEXTE). -/
def sha1nexte (a b : V) : V := ⟨b.x3 + rotl 30 a.x3, b.x2, b.x1, b.x0⟩

/-- `_mm_sha1msg1_epu32(a, b)` (SHA1MSG1). -/
def sha1msg1 (a b : V) : V := ⟨a.x1 ^^^ a.x3, a.x0 ^^^ a.x2, b.x3 ^^^ a.x1, b.x2 ^^^ a.x0⟩

/-- `_mm_sha1msg2_epu32(a, b)` (SHA1MSG2). -/
def sha1msg2 (a b : V) : V :=
  let w16 := rotl 1 (a.x3 ^^^ b.x2)
  ⟨w16, rotl 1 (a.x2 ^^^ b.x1), rotl 1 (a.x1 ^^^ b.x0), rotl 1 (a.x0 ^^^ w16)⟩

/-! ### `sha1_x86` -/

/-- The bytes of `MASK` (S1:295), byte 0 first. -/
def mask : List Nat := [15, 14, 13, 12, 11, 10, 9, 8, 7, 6, 5, 4, 3, 2, 1, 0]

/-- `_mm_loadu_si128((const __m128i *)(data + o))`. -/
def loadu (m : List Byte) (o : Nat) : Res (List Byte) := if o + 16 ≤ m.length then .ok ((m.drop o).take 16) else .ub

/-- Sixteen bytes of the block for `MSG0` … `MSG3` (`j` = 0 … 3; S1:311-318, 325-335, 343-353, 362-372): loaded, or copied and filled
up with zeros (`memcpy` reads exactly the remaining bytes), or zeros. -/
def part (m : List Byte) (o remain j : Nat) : Res (List Byte) :=
  if 16 * j ≠ 0 ∧ remain ≤ 16 * j then .ok (List.replicate 16 0)
  else if remain < 16 * (j + 1) then
    if o + remain ≤ m.length then
      .ok ((m.drop (o + 16 * j)).take (remain - 16 * j) ++ List.replicate (16 * (j + 1) - remain) 0)
    else .ub
  else loadu m (o + 16 * j)

/-- The local variables of `sha1_x86` (S1:293-294). -/
structure R where
  ABCD : V
  E0 : V
  E1 : V
  MSG0 : V
  MSG1 : V
  MSG2 : V
  MSG3 : V

/-- Rounds 0-3 from `E0 = _mm_add_epi32` on (S1:320-322). -/
def g0 (r : R) : R :=
  let r := { r with E0 := add_epi32 r.E0 r.MSG0 }
  let r := { r with E1 := r.ABCD }
  { r with ABCD := sha1rnds4 r.ABCD r.E0 0 }

/-- Rounds 4-7 (S1:337-340). -/
def g1 (r : R) : R :=
  let r := { r with E1 := sha1nexte r.E1 r.MSG1 }
  let r := { r with E0 := r.ABCD }
  let r := { r with ABCD := sha1rnds4 r.ABCD r.E1 0 }
  { r with MSG0 := sha1msg1 r.MSG0 r.MSG1 }

/-- Rounds 8-11 (S1:355-359). -/
def g2 (r : R) : R :=
  let r := { r with E0 := sha1nexte r.E0 r.MSG2 }
  let r := { r with E1 := r.ABCD }
  let r := { r with ABCD := sha1rnds4 r.ABCD r.E0 0 }
  let r := { r with MSG1 := sha1msg1 r.MSG1 r.MSG2 }
  { r with MSG0 := xor_si128 r.MSG0 r.MSG2 }

/-- Rounds 12-15 (S1:374-379), 28-31 (S1:406-411), 44-47 (S1:438-443), 60-63 (S1:470-475). -/
def gA (i : Nat) (r : R) : R :=
  let r := { r with E1 := sha1nexte r.E1 r.MSG3 }
  let r := { r with E0 := r.ABCD }
  let r := { r with MSG0 := sha1msg2 r.MSG0 r.MSG3 }
  let r := { r with ABCD := sha1rnds4 r.ABCD r.E1 i }
  let r := { r with MSG2 := sha1msg1 r.MSG2 r.MSG3 }
  { r with MSG1 := xor_si128 r.MSG1 r.MSG3 }

/-- Rounds 16-19 (S1:382-387), 32-35 (S1:414-419), 48-51 (S1:446-451), 64-67 (S1:478-483). -/
def gB (i : Nat) (r : R) : R :=
  let r := { r with E0 := sha1nexte r.E0 r.MSG0 }
  let r := { r with E1 := r.ABCD }
  let r := { r with MSG1 := sha1msg2 r.MSG1 r.MSG0 }
  let r := { r with ABCD := sha1rnds4 r.ABCD r.E0 i }
  let r := { r with MSG3 := sha1msg1 r.MSG3 r.MSG0 }
  { r with MSG2 := xor_si128 r.MSG2 r.MSG0 }

/-- Rounds 20-23 (S1:390-395), 36-39 (S1:422-427), 52-55 (S1:454-459). -/
def gC (i : Nat) (r : R) : R :=
  let r := { r with E1 := sha1nexte r.E1 r.MSG1 }
  let r := { r with E0 := r.ABCD }
  let r := { r with MSG2 := sha1msg2 r.MSG2 r.MSG1 }
  let r := { r with ABCD := sha1rnds4 r.ABCD r.E1 i }
  let r := { r with MSG0 := sha1msg1 r.MSG0 r.MSG1 }
  { r with MSG3 := xor_si128 r.MSG3 r.MSG1 }

/-- Rounds 24-27 (S1:398-403), 40-43 (S1:430-435), 56-59 (S1:462-467). -/
def gD (i : Nat) (r : R) : R :=
  let r := { r with E0 := sha1nexte r.E0 r.MSG2 }
  let r := { r with E1 := r.ABCD }
  let r := { r with MSG3 := sha1msg2 r.MSG3 r.MSG2 }
  let r := { r with ABCD := sha1rnds4 r.ABCD r.E0 i }
  let r := { r with MSG1 := sha1msg1 r.MSG1 r.MSG2 }
  { r with MSG0 := xor_si128 r.MSG0 r.MSG2 }

/-- Rounds 68-71 (S1:486-490). -/
def g17 (r : R) : R :=
  let r := { r with E1 := sha1nexte r.E1 r.MSG1 }
  let r := { r with E0 := r.ABCD }
  let r := { r with MSG2 := sha1msg2 r.MSG2 r.MSG1 }
  let r := { r with ABCD := sha1rnds4 r.ABCD r.E1 3 }
  { r with MSG3 := xor_si128 r.MSG3 r.MSG1 }

/-- Rounds 72-75 (S1:493-496). -/
def g18 (r : R) : R :=
  let r := { r with E0 := sha1nexte r.E0 r.MSG2 }
  let r := { r with E1 := r.ABCD }
  let r := { r with MSG3 := sha1msg2 r.MSG3 r.MSG2 }
  { r with ABCD := sha1rnds4 r.ABCD r.E0 3 }

/-- Rounds 76-79 (S1:499-501). -/
def g19 (r : R) : R :=
  let r := { r with E1 := sha1nexte r.E1 r.MSG3 }
  let r := { r with E0 := r.ABCD }
  { r with ABCD := sha1rnds4 r.ABCD r.E1 3 }

/-- The body of the loop (S1:306-505); the loads are collected in front: they read `data` only. -/
def body (m : List Byte) (o remain : Nat) (r : R) : Res R :=
  (part m o remain 0).bind fun p0 => (part m o remain 1).bind fun p1 =>
  (part m o remain 2).bind fun p2 => (part m o remain 3).bind fun p3 =>
    let ABCD_SAVE := r.ABCD
    let E0_SAVE := r.E0
    let r := g0 { r with MSG0 := lanes (shuffle_epi8 p0 mask) }
    let r := g1 { r with MSG1 := lanes (shuffle_epi8 p1 mask) }
    let r := g2 { r with MSG2 := lanes (shuffle_epi8 p2 mask) }
    let r := gA 0 { r with MSG3 := lanes (shuffle_epi8 p3 mask) }
    let r := gA 1 (gD 1 (gC 1 (gB 0 r)))
    let r := gA 2 (gD 2 (gC 1 (gB 1 r)))
    let r := gA 3 (gD 2 (gC 2 (gB 2 r)))
    let r := g19 (g18 (g17 (gB 3 r)))
    let r := { r with E0 := sha1nexte r.E0 E0_SAVE }
    .ok { r with ABCD := add_epi32 r.ABCD ABCD_SAVE }

/-- `while (likely(remain > 0))` (S1:305-509). -/
def loop (m : List Byte) : Nat → Nat → Nat → R → Res R
  | 0, _, _, _ => .diverge
  | f + 1, o, remain, r =>
    if 0 < remain then (body m o remain r).bind fun r => loop m f (o + 64) (remain - 64) r else .ok r

/-- `sha1_x86(state, data, length)` (S1:290-531): `state` is loaded with an instruction that demands alignment (S1:299); the result is
not stored back (S1:513-514). -/
def sha1_x86 (aligned : Bool) (state : St) (m : List Byte) (length : Nat) : Res Word :=
  if aligned then
    let ABCD := set_epi32 state.d state.c state.b state.a
    let E0 := set_epi32 state.e 0 0 0
    let ABCD := shuffle_epi32 ABCD 0x1B
    (loop m (length + 1) 0 length ⟨ABCD, E0, setzero, setzero, setzero, setzero, setzero⟩).bind fun r =>
      let ABCD := shuffle_epi32 r.ABCD 0x1B
      let sha1 : Nat := ABCD.x0.toNat + 2 ^ 32 * ABCD.x1.toNat
      .ok (BitVec.ofNat 32 ((sha1 >>> 32) ^^^ (sha1 &&& 0xFFFFFFFF)))
  else .ub

/-- `s_sha1_state` (S1:285). -/
def s_sha1_state : St := ⟨0x67452301, 0xEFCDAB89, 0x98BADCFE, 0x10325476, 0xC3D2E1F0⟩

/-- `sha1_x86(data, length)` (S1:533-536); `s_sha1_state` is `alignas(16)` (S1:284). -/
def sha1Data (m : List Byte) (length : Nat) : Res Word := sha1_x86 true s_sha1_state m length

/-! ### `sha1_msg2` -/

/-- All 64 bits: `kMaskOne` (S1:140) and either half of `__ones` (S1:58, 148). -/
def kMaskOne : Nat := 2 ^ 64 - 1

/-- `_mm_and_si128` of sixteen bytes and a mask given by its low and high 64 bits. -/
def and_si128 (v : List Byte) (lohi : Nat × Nat) : List Byte :=
  (List.range 16).map fun i =>
    let k := if i < 8 then lohi.1 >>> (8 * i) % 256 else lohi.2 >>> (8 * (i - 8)) % 256
    ⟨((v.getD i 0).val &&& k) % 256, Nat.mod_lt _ (by decide)⟩

/-- The mask of `sha1_msg2_x64` (S1:156-169, 202-215): `rest` is the number of bytes too many. -/
def maskX64 (rest : Nat) : Nat × Nat :=
  if rest ≤ 7 then (kMaskOne, kMaskOne >>> (rest * 8))
  else if rest < 16 then (kMaskOne >>> ((rest &&& 7) * 8), 0)
  else (kMaskOne, kMaskOne)

/-- `_mm_srl_epi64` (PSRLQ) of one half. -/
def srl64 (x count : Nat) : Nat := if 63 < count then 0 else x >>> count

/-- The mask of `sha1_msg2_x86` (S1:63-75, 87-99). -/
def maskX86 (rest : Nat) : Nat × Nat :=
  if rest ≤ 7 then (kMaskOne, srl64 kMaskOne (rest * 8)) else (srl64 kMaskOne (rest * 8 - 64), 0)

/-- The loop of `sha1_msg2_x64` (S1:150-254) and of `sha1_msg2_x86` (S1:60-119), which differ in the mask. -/
def msg2Loop (msk : Nat → Nat × Nat) (m : List Byte) : Nat → Nat → Nat → V → V → Res (V × V)
  | 0, _, _, _, _ => .diverge
  | f + 1, o, remain, msg1, msg2 =>
    if remain ≤ 16 then
      (loadu m o).bind fun data1 =>
        let data1 := and_si128 data1 (msk (16 - remain))
        .ok (sha1msg2 (lanes data1) msg1, msg2)
    else if remain ≤ 32 then
      (loadu m o).bind fun data1 => (loadu m (o + 16)).bind fun data2 =>
        let data2 := and_si128 data2 (msk (32 - remain))
        .ok (sha1msg2 (lanes data1) msg1, sha1msg2 (lanes data2) msg2)
    else
      (loadu m o).bind fun data1 => (loadu m (o + 16)).bind fun data2 =>
        let msg1 := sha1msg2 (lanes data1) msg1
        let msg2 := sha1msg2 (lanes data2) msg2
        msg2Loop msk m f (o + 32) (remain - 32) msg1 msg2

/-- S1:256-258, 121-123. -/
def msg2Finish (msg1 msg2 : V) : V :=
  let msg1 := sha1msg1 msg1 msg2
  let msg1 := sha1rnds4 msg1 msg2 1
  shuffle_epi32 msg1 0x1B

/-- `sha1_msg2_x64(data, length)` (S1:133-268). -/
def sha1_msg2_x64 (m : List Byte) (length : Nat) : Res Word :=
  if 0 < length then
    (msg2Loop maskX64 m length 0 length setzero setzero).bind fun r =>
      let v := msg2Finish r.1 r.2
      let sha1 : Nat := v.x0.toNat + 2 ^ 32 * v.x1.toNat
      .ok (BitVec.ofNat 32 ((sha1 >>> 32) ^^^ (sha1 &&& 0xFFFFFFFF)))
  else .ok 0

/-- `sha1_msg2_x86(data, length)` (S1:44-131). -/
def sha1_msg2_x86 (m : List Byte) (length : Nat) : Res Word :=
  if 0 < length then
    (msg2Loop maskX86 m length 0 length setzero setzero).bind fun r => .ok (msg2Finish r.1 r.2).x0
  else .ok 0

/-- `sha1_msg2` (S1:270-277), by the bits of the processor. -/
def sha1_msg2 (x64 : Bool) (m : List Byte) (length : Nat) : Res Word :=
  if x64 then sha1_msg2_x64 m length else sha1_msg2_x86 m length

/-! ### Four rounds at a time -/

theorem fips_f_eq (t i : Nat) (ht : t < 80) (hi : t / 20 = i) (x y z : Word) : fips_f t x y z = rnds_f i x y z := by
  have : i = 0 ∧ t < 20 ∨ i = 1 ∧ ¬ t < 20 ∧ t < 40 ∨ i = 2 ∧ ¬ t < 20 ∧ ¬ t < 40 ∧ t < 60
      ∨ i = 3 ∧ ¬ t < 20 ∧ ¬ t < 40 ∧ ¬ t < 60 := by omega
  unfold fips_f rnds_f
  rcases this with ⟨rfl, h⟩ | ⟨rfl, h1, h⟩ | ⟨rfl, h1, h2, h⟩ | ⟨rfl, h1, h2, h⟩ <;> simp [*]

theorem fips_K_eq (t i : Nat) (ht : t < 80) (hi : t / 20 = i) : fips_K t = rnds_K i := by
  have : i = 0 ∧ t < 20 ∨ i = 1 ∧ ¬ t < 20 ∧ t < 40 ∨ i = 2 ∧ ¬ t < 20 ∧ ¬ t < 40 ∧ t < 60
      ∨ i = 3 ∧ ¬ t < 20 ∧ ¬ t < 40 ∧ ¬ t < 60 := by omega
  unfold fips_K rnds_K
  rcases this with ⟨rfl, h⟩ | ⟨rfl, h1, h⟩ | ⟨rfl, h1, h2, h⟩ | ⟨rfl, h1, h2, h⟩ <;> simp [*]

/-- The first four working variables after `4 * n` rounds. -/
def abcd (M : Nat → Word) (h : St) (n : Nat) : V :=
  let s := rounds M h (4 * n); ⟨s.a, s.b, s.c, s.d⟩

/-- Four words of the schedule. -/
def vec (M : Nat → Word) (n : Nat) : V :=
  ⟨sched M (4 * n), sched M (4 * n + 1), sched M (4 * n + 2), sched M (4 * n + 3)⟩

theorem add1 (f a w e k : Word) : f + a + (w + e) + k = a + f + e + k + w := by ac_rfl
theorem add2 (f a w e k : Word) : f + a + w + e + k = a + f + e + k + w := by ac_rfl

theorem round_first (M : Nat → Word) (h : St) (n t i : Nat) (ht : t < 80) (hi : t / 20 = i) (hn : n = t + 1) :
    rounds M h n = ⟨rnds_f i (rounds M h t).b (rounds M h t).c (rounds M h t).d + rotl 5 (rounds M h t).a
      + (sched M t + (rounds M h t).e) + rnds_K i, (rounds M h t).a, rotl 30 (rounds M h t).b, (rounds M h t).c,
      (rounds M h t).d⟩ := by
  subst hn
  rw [add1, rounds, fips_round, fips_f_eq t i ht hi, fips_K_eq t i ht hi]

theorem round_next (M : Nat → Word) (h : St) (n t i : Nat) (ht : t < 80) (hi : t / 20 = i) (hn : n = t + 1) :
    rounds M h n = ⟨rnds_f i (rounds M h t).b (rounds M h t).c (rounds M h t).d + rotl 5 (rounds M h t).a
      + sched M t + (rounds M h t).e + rnds_K i, (rounds M h t).a, rotl 30 (rounds M h t).b, (rounds M h t).c,
      (rounds M h t).d⟩ := by
  subst hn
  rw [add2, rounds, fips_round, fips_f_eq t i ht hi, fips_K_eq t i ht hi]

theorem rnds4_rounds (M : Nat → Word) (h : St) (n i : Nat) (hn : n < 20) (hi : n / 5 = i) :
    sha1rnds4 (abcd M h n) ⟨sched M (4 * n) + (rounds M h (4 * n)).e, sched M (4 * n + 1), sched M (4 * n + 2),
      sched M (4 * n + 3)⟩ i = abcd M h (n + 1) := by
  have h4 := round_next M h (4 * (n + 1)) (4 * n + 3) i (by omega) (by omega) (by omega)
  have h3 := round_next M h (4 * n + 3) (4 * n + 2) i (by omega) (by omega) (by omega)
  have h2 := round_next M h (4 * n + 2) (4 * n + 1) i (by omega) (by omega) (by omega)
  have h1 := round_first M h (4 * n + 1) (4 * n) i (by omega) (by omega) (by omega)
  unfold abcd
  rw [h4, h3, h2, h1]
  rfl

theorem rounds_e (M : Nat → Word) (h : St) (n : Nat) :
    (rounds M h (4 * (n + 1))).e = rotl 30 (rounds M h (4 * n)).a := by
  have e4 : 4 * (n + 1) = 4 * n + 3 + 1 := by omega
  rw [e4]
  simp only [rounds, fips_round]

theorem nexte_rounds (M : Nat → Word) (h : St) (n i : Nat) (hn : n + 1 < 20) (hi : (n + 1) / 5 = i) :
    sha1rnds4 (abcd M h (n + 1)) (sha1nexte (abcd M h n) (vec M (n + 1))) i = abcd M h (n + 2) := by
  rw [← rnds4_rounds M h (n + 1) i hn hi, rounds_e]
  rfl

theorem sched_step (M : Nat → Word) (n : Nat) :
    sha1msg2 (xor_si128 (sha1msg1 (vec M n) (vec M (n + 1))) (vec M (n + 2))) (vec M (n + 3)) = vec M (n + 4) := by
  have key : ∀ t, sched M (t + 16)
      = rotl 1 (sched M (t + 13) ^^^ sched M (t + 8) ^^^ sched M (t + 2) ^^^ sched M t) := by
    intro t
    conv => lhs; unfold sched
    rw [dif_neg (by omega)]
    congr 1
  have e' : ∀ j, 4 * (n + j) = 4 * n + 4 * j := by intro j; omega
  have k0 := key (4 * n)
  have k1 := key (4 * n + 1)
  have k2 := key (4 * n + 2)
  have k3 := key (4 * n + 3)
  simp only [vec, sha1msg2, xor_si128, sha1msg1, e'] at *
  simp only [Nat.add_assoc, Nat.reduceAdd, Nat.reduceMul] at *
  rw [k0, k1, k2, k3, k0]
  congr 2 <;> ac_rfl

/-! ### The registers in front of the paragraph for the rounds `4 * (k + 3)` … -/

/-- What the registers hold. -/
structure Q (M : Nat → Word) (h : St) (k : Nat) (x e ma mb mc md : V) : Prop where
  hx : x = abcd M h (k + 3)
  he : e = abcd M h (k + 2)
  ha : ma = vec M (k + 3)
  hb : mb = xor_si128 (sha1msg1 (vec M k) (vec M (k + 1))) (vec M (k + 2))
  hc : mc = sha1msg1 (vec M (k + 1)) (vec M (k + 2))
  hd : md = vec M (k + 2)

theorem Q.step {M : Nat → Word} {h : St} {k : Nat} {x e ma mb mc md : V} (q : Q M h k x e ma mb mc md) (i : Nat)
    (hk : k < 17) (hi : (k + 3) / 5 = i) :
    Q M h (k + 1) (sha1rnds4 x (sha1nexte e ma) i) x (sha1msg2 mb ma) (xor_si128 mc ma) (sha1msg1 md ma) ma := by
  obtain ⟨rfl, rfl, rfl, rfl, rfl, rfl⟩ := q
  exact ⟨nexte_rounds M h (k + 2) i (by omega) hi, rfl, sched_step M k, rfl, rfl, rfl⟩

/-- The registers that carry the hash value. -/
structure Rel (r : R) (h : St) : Prop where
  hx : r.ABCD = ⟨h.a, h.b, h.c, h.d⟩
  he : r.E0 = ⟨h.e, 0, 0, 0⟩

/-- The block with its four vectors loaded. -/
def blockRegs (v0 v1 v2 v3 : V) (r : R) : R :=
  let r1 := g0 { r with MSG0 := v0 }
  let r1 := g1 { r1 with MSG1 := v1 }
  let r1 := g2 { r1 with MSG2 := v2 }
  let r1 := gA 0 { r1 with MSG3 := v3 }
  let r1 := gA 1 (gD 1 (gC 1 (gB 0 r1)))
  let r1 := gA 2 (gD 2 (gC 1 (gB 1 r1)))
  let r1 := gA 3 (gD 2 (gC 2 (gB 2 r1)))
  g19 (g18 (g17 (gB 3 r1)))

theorem sched_lt (M : Nat → Word) (t : Nat) (ht : t < 16) : sched M t = M t := by
  unfold sched; rw [dif_pos ht]

theorem QA {M h k i} (r : R) (q : Q M h k r.ABCD r.E1 r.MSG3 r.MSG0 r.MSG1 r.MSG2) (hk : k < 17) (hi : (k + 3) / 5 = i) :
    Q M h (k + 1) (gA i r).ABCD (gA i r).E0 (gA i r).MSG0 (gA i r).MSG1 (gA i r).MSG2 (gA i r).MSG3 := q.step i hk hi

theorem QB {M h k i} (r : R) (q : Q M h k r.ABCD r.E0 r.MSG0 r.MSG1 r.MSG2 r.MSG3) (hk : k < 17) (hi : (k + 3) / 5 = i) :
    Q M h (k + 1) (gB i r).ABCD (gB i r).E1 (gB i r).MSG1 (gB i r).MSG2 (gB i r).MSG3 (gB i r).MSG0 := q.step i hk hi

theorem QC {M h k i} (r : R) (q : Q M h k r.ABCD r.E1 r.MSG1 r.MSG2 r.MSG3 r.MSG0) (hk : k < 17) (hi : (k + 3) / 5 = i) :
    Q M h (k + 1) (gC i r).ABCD (gC i r).E0 (gC i r).MSG2 (gC i r).MSG3 (gC i r).MSG0 (gC i r).MSG1 := q.step i hk hi

theorem QD {M h k i} (r : R) (q : Q M h k r.ABCD r.E0 r.MSG2 r.MSG3 r.MSG0 r.MSG1) (hk : k < 17) (hi : (k + 3) / 5 = i) :
    Q M h (k + 1) (gD i r).ABCD (gD i r).E1 (gD i r).MSG3 (gD i r).MSG0 (gD i r).MSG1 (gD i r).MSG2 := q.step i hk hi

theorem Q0 (M : Nat → Word) (h : St) (r : R) (hr : Rel r h) :
    let r1 := g0 { r with MSG0 := vec M 0 }
    let r1 := g1 { r1 with MSG1 := vec M 1 }
    let r1 := g2 { r1 with MSG2 := vec M 2 }
    let r1 := { r1 with MSG3 := vec M 3 }
    Q M h 0 r1.ABCD r1.E1 r1.MSG3 r1.MSG0 r1.MSG1 r1.MSG2 := by
  have a0 : r.ABCD = abcd M h 0 := hr.hx
  have a1 : sha1rnds4 (abcd M h 0) (add_epi32 r.E0 (vec M 0)) 0 = abcd M h 1 := by
    have e : add_epi32 r.E0 (vec M 0)
        = ⟨sched M (4 * 0) + (rounds M h (4 * 0)).e, sched M (4 * 0 + 1), sched M (4 * 0 + 2), sched M (4 * 0 + 3)⟩ := by
      rw [hr.he]
      simp only [add_epi32, vec]
      congr 1
      · exact BitVec.add_comm _ _
      all_goals exact BitVec.zero_add _
    rw [e]
    exact rnds4_rounds M h 0 0 (by omega) (by omega)
  have a2 := nexte_rounds M h 0 0 (by omega) (by omega)
  have a3 := nexte_rounds M h 1 0 (by omega) (by omega)
  refine ⟨?_, ?_, rfl, rfl, rfl, rfl⟩
  · show sha1rnds4 (sha1rnds4 (sha1rnds4 r.ABCD (add_epi32 r.E0 (vec M 0)) 0) (sha1nexte r.ABCD (vec M 1)) 0)
      (sha1nexte (sha1rnds4 r.ABCD (add_epi32 r.E0 (vec M 0)) 0) (vec M 2)) 0 = _
    rw [a0, a1, a2, a3]
  · show sha1rnds4 (sha1rnds4 r.ABCD (add_epi32 r.E0 (vec M 0)) 0) (sha1nexte r.ABCD (vec M 1)) 0 = _
    rw [a0, a1, a2]

theorem blockRegs_eq (M : Nat → Word) (h : St) (r : R) (hr : Rel r h) :
    (blockRegs (vec M 0) (vec M 1) (vec M 2) (vec M 3) r).ABCD = abcd M h 20
    ∧ (blockRegs (vec M 0) (vec M 1) (vec M 2) (vec M 3) r).E0 = abcd M h 19 := by
  have q := Q0 M h r hr
  have q := QA (i := 0) _ q (by omega) (by omega)
  have q := QB (i := 0) _ q (by omega) (by omega)
  have q := QC (i := 1) _ q (by omega) (by omega)
  have q := QD (i := 1) _ q (by omega) (by omega)
  have q := QA (i := 1) _ q (by omega) (by omega)
  have q := QB (i := 1) _ q (by omega) (by omega)
  have q := QC (i := 1) _ q (by omega) (by omega)
  have q := QD (i := 2) _ q (by omega) (by omega)
  have q := QA (i := 2) _ q (by omega) (by omega)
  have q := QB (i := 2) _ q (by omega) (by omega)
  have q := QC (i := 2) _ q (by omega) (by omega)
  have q := QD (i := 2) _ q (by omega) (by omega)
  have q := QA (i := 3) _ q (by omega) (by omega)
  have q := QB (i := 3) _ q (by omega) (by omega)
  unfold blockRegs
  dsimp only
  generalize gB 3 _ = rr at *
  have q1 := q.step 3 (by omega) (by omega)
  have q2 := q1.step 3 (by omega) (by omega)
  have q3 := q2.step 3 (by omega) (by omega)
  exact ⟨q3.hx, q3.he⟩

/-! ### Loading a block -/

theorem shuffle_words (p d : List Byte) (o j : Nat) (hp : ∀ i, i < 16 → p.getD i 0 = d.getD (o + 16 * j + i) 0) :
    lanes (shuffle_epi8 p mask)
      = ⟨wordAt d o (4 * j), wordAt d o (4 * j + 1), wordAt d o (4 * j + 2), wordAt d o (4 * j + 3)⟩ := by
  have q : ∀ i, i < 16 → ∀ k, k = o + 16 * j + i → p.getD i 0 = d.getD k 0 := fun i hi k hk => hk ▸ hp i hi
  unfold lanes shuffle_epi8 mask wordAt
  simp only [List.map, List.getD_cons_succ, List.getD_cons_zero, Nat.reduceMod]
  have hw : ∀ t i0 i1 i2 i3, i3 < 16 → i2 = i3 + 1 → i1 = i2 + 1 → i0 = i1 + 1 → i0 < 16 → 4 * t = 16 * j + i3 →
      BitVec.ofNat 32 ((p.getD i0 0).val + (p.getD i1 0).val * 2 ^ 8 + (p.getD i2 0).val * 2 ^ 16 + (p.getD i3 0).val * 2 ^ 24)
      = BitVec.ofNat 32 ((d.getD (o + 4 * t + 0) 0).val * 2 ^ 24 + (d.getD (o + 4 * t + 1) 0).val * 2 ^ 16
        + (d.getD (o + 4 * t + 2) 0).val * 2 ^ 8 + (d.getD (o + 4 * t + 3) 0).val) := by
    intro t i0 i1 i2 i3 h3 h2 h1 h0 h00 ht
    rw [q i0 (by omega) (o + 4 * t + 3) (by omega), q i1 (by omega) (o + 4 * t + 2) (by omega),
      q i2 (by omega) (o + 4 * t + 1) (by omega), q i3 (by omega) (o + 4 * t + 0) (by omega)]
    congr 1
    omega
  congr 1
  · exact hw (4 * j) 3 2 1 0 (by omega) rfl rfl rfl (by omega) (by omega)
  · exact hw (4 * j + 1) 7 6 5 4 (by omega) rfl rfl rfl (by omega) (by omega)
  · exact hw (4 * j + 2) 11 10 9 8 (by omega) rfl rfl rfl (by omega) (by omega)
  · exact hw (4 * j + 3) 15 14 13 12 (by omega) rfl rfl rfl (by omega) (by omega)

theorem getD_take_drop (m : List Byte) (o n i : Nat) (hi : i < n) :
    ((m.drop o).take n).getD i 0 = m.getD (o + i) 0 := by
  simp [List.getD_eq_getElem?_getD, hi]

theorem getD_take (m : List Byte) (n i : Nat) : (m.take n).getD i 0 = if i < n then m.getD i 0 else 0 := by
  by_cases h : i < n <;> simp [List.getD_eq_getElem?_getD, List.getElem?_take, h]

theorem getD_replicate (n i : Nat) : (List.replicate n (0 : Byte)).getD i 0 = 0 := by
  by_cases h : i < n <;> simp [List.getD_eq_getElem?_getD, h]

theorem part_eq (m : List Byte) (o remain j : Nat) (hr : 0 < remain) (hm : o + remain ≤ m.length) :
    ∃ p, part m o remain j = .ok p ∧ ∀ i, i < 16 → p.getD i 0 = (m.take (o + remain)).getD (o + 16 * j + i) 0 := by
  unfold part
  by_cases h1 : 16 * j ≠ 0 ∧ remain ≤ 16 * j
  · rw [if_pos h1]
    refine ⟨_, rfl, fun i _ => ?_⟩
    rw [getD_replicate, getD_take, if_neg (show ¬ o + 16 * j + i < o + remain by omega)]
  rw [if_neg h1]
  have h1' : 16 * j < remain := by omega
  by_cases h2 : remain < 16 * (j + 1)
  · rw [if_pos h2, if_pos hm]
    refine ⟨_, rfl, fun i hi => ?_⟩
    have hl : ((m.drop (o + 16 * j)).take (remain - 16 * j)).length = remain - 16 * j := by
      simp; omega
    by_cases h3 : i < remain - 16 * j
    · rw [List.getD_append _ _ _ _ (by omega), getD_take_drop _ _ _ _ h3, getD_take,
        if_pos (show o + 16 * j + i < o + remain by omega)]
    · rw [List.getD_append_right _ _ _ _ (by omega), getD_replicate, getD_take,
        if_neg (show ¬ o + 16 * j + i < o + remain by omega)]
  · rw [if_neg h2]
    unfold loadu
    rw [if_pos (show o + 16 * j + 16 ≤ m.length by omega)]
    refine ⟨_, rfl, fun i hi => ?_⟩
    rw [getD_take_drop _ _ _ _ hi, getD_take, if_pos (show o + 16 * j + i < o + remain by omega)]

theorem vec_words (d : List Byte) (o j : Nat) (hj : j < 4) :
    vec (wordAt d o) j = ⟨wordAt d o (4 * j), wordAt d o (4 * j + 1), wordAt d o (4 * j + 2), wordAt d o (4 * j + 3)⟩ := by
  unfold vec
  rw [sched_lt _ _ (by omega), sched_lt _ _ (by omega), sched_lt _ _ (by omega), sched_lt _ _ (by omega)]

theorem body_eq (m : List Byte) (o remain : Nat) (r : R) (h : St) (hr : 0 < remain) (hm : o + remain ≤ m.length)
    (hl : Rel r h) :
    ∃ r', body m o remain r = .ok r' ∧ Rel r' (compress (wordAt (m.take (o + remain)) o) h) := by
  obtain ⟨p0, e0, q0⟩ := part_eq m o remain 0 hr hm
  obtain ⟨p1, e1, q1⟩ := part_eq m o remain 1 hr hm
  obtain ⟨p2, e2, q2⟩ := part_eq m o remain 2 hr hm
  obtain ⟨p3, e3, q3⟩ := part_eq m o remain 3 hr hm
  generalize m.take (o + remain) = d at *
  have v0 := (shuffle_words p0 d o 0 q0).trans (vec_words d o 0 (by omega)).symm
  have v1 := (shuffle_words p1 d o 1 q1).trans (vec_words d o 1 (by omega)).symm
  have v2 := (shuffle_words p2 d o 2 q2).trans (vec_words d o 2 (by omega)).symm
  have v3 := (shuffle_words p3 d o 3 q3).trans (vec_words d o 3 (by omega)).symm
  have hb := blockRegs_eq (wordAt d o) h r hl
  have e : body m o remain r = .ok
      (let b := blockRegs (vec (wordAt d o) 0) (vec (wordAt d o) 1) (vec (wordAt d o) 2) (vec (wordAt d o) 3) r
       let b := { b with E0 := sha1nexte b.E0 r.E0 }
       { b with ABCD := add_epi32 b.ABCD r.ABCD }) := by
    unfold body
    rw [e0, e1, e2, e3, ← v0, ← v1, ← v2, ← v3]
    rfl
  refine ⟨_, e, ?_⟩
  generalize blockRegs (vec (wordAt d o) 0) (vec (wordAt d o) 1) (vec (wordAt d o) 2) (vec (wordAt d o) 3) r = b at *
  constructor
  · show add_epi32 b.ABCD r.ABCD = _
    rw [hb.1, hl.hx]
    rfl
  · show sha1nexte b.E0 r.E0 = _
    rw [hb.2, hl.he]
    show (⟨h.e + rotl 30 (rounds (wordAt d o) h (4 * 19)).a, 0, 0, 0⟩ : V) = ⟨(rounds (wordAt d o) h 80).e + h.e, 0, 0, 0⟩
    rw [← rounds_e, BitVec.add_comm]

theorem loop_eq (m : List Byte) (length : Nat) (hm : length ≤ m.length) (h0 : St) : ∀ f n remain r,
    remain < f → 64 * n + remain = length → Rel r (chain (m.take length) h0 n) →
    ∃ r', loop m f (64 * n) remain r = .ok r' ∧ Rel r' (chain (m.take length) h0 ((length + 63) / 64)) := by
  intro f
  induction f with
  | zero => intro n remain r hf; omega
  | succ f ih =>
    intro n remain r hf hn hr
    unfold loop
    by_cases hz : 0 < remain
    · rw [if_pos hz]
      obtain ⟨r', e, hr'⟩ := body_eq m (64 * n) remain r _ hz (by omega) hr
      rw [e]
      rw [hn] at hr'
      show ∃ r'', loop m f (64 * n + 64) (remain - 64) r' = .ok r'' ∧ _
      by_cases h64 : 64 ≤ remain
      · have := ih (n + 1) (remain - 64) r' (by omega) (by omega) hr'
        rwa [show 64 * (n + 1) = 64 * n + 64 by omega] at this
      · have e1 : remain - 64 = 0 := by omega
        have e2 : (length + 63) / 64 = n + 1 := by omega
        rw [e1, e2]
        obtain ⟨f', rfl⟩ : ∃ f', f = f' + 1 := ⟨f - 1, by omega⟩
        exact ⟨r', rfl, hr'⟩
    · rw [if_neg hz]
      have : (length + 63) / 64 = n := by omega
      rw [this]
      exact ⟨r, rfl, hr⟩

/-! ### C119 -/

theorem fold_words (x0 x1 : Word) :
    BitVec.ofNat 32 (((x0.toNat + 2 ^ 32 * x1.toNat) >>> 32) ^^^ ((x0.toNat + 2 ^ 32 * x1.toNat) &&& 0xFFFFFFFF)) = x0 ^^^ x1 := by
  have hx0 := x0.isLt
  have hx1 := x1.isLt
  have e1 : (x0.toNat + 2 ^ 32 * x1.toNat) >>> 32 = x1.toNat := by
    rw [Nat.shiftRight_eq_div_pow]; omega
  have e2 : (x0.toNat + 2 ^ 32 * x1.toNat) &&& 0xFFFFFFFF = x0.toNat := by
    rw [show (0xFFFFFFFF : Nat) = 2 ^ 32 - 1 by rfl, Nat.and_two_pow_sub_one_eq_mod]; omega
  rw [e1, e2]
  apply BitVec.eq_of_toNat_eq
  rw [BitVec.toNat_ofNat, BitVec.toNat_xor, Nat.xor_comm]
  exact Nat.mod_eq_of_lt (Nat.xor_lt_two_pow hx0 hx1)

/-- C119. For every state, every block of memory and every length within it, `sha1_x86` returns the exclusive or of the first two words
that FIPS 180-4's compression function gives when it is iterated over the `length` bytes, the last block filled up with
zeros. -/
theorem C119_sha1_x86 (h : St) (m : List Byte) (length : Nat) (hm : length ≤ m.length) :
    sha1_x86 true h m length
      = .ok ((chain (m.take length) h ((length + 63) / 64)).a ^^^ (chain (m.take length) h ((length + 63) / 64)).b) := by
  have hr : Rel ⟨⟨h.a, h.b, h.c, h.d⟩, ⟨h.e, 0, 0, 0⟩, setzero, setzero, setzero, setzero, setzero⟩
      (chain (m.take length) h 0) := ⟨rfl, rfl⟩
  obtain ⟨r', e, hr'⟩ := loop_eq m length hm h (length + 1) 0 length _ (by omega) (by omega) hr
  have e' : sha1_x86 true h m length = (Res.ok r').bind fun r =>
      .ok (BitVec.ofNat 32 ((((shuffle_epi32 r.ABCD 0x1B).x0.toNat + 2 ^ 32 * (shuffle_epi32 r.ABCD 0x1B).x1.toNat) >>> 32)
        ^^^ (((shuffle_epi32 r.ABCD 0x1B).x0.toNat + 2 ^ 32 * (shuffle_epi32 r.ABCD 0x1B).x1.toNat) &&& 0xFFFFFFFF))) := by
    rw [← e]; rfl
  rw [e']
  simp only [Res.bind, fold_words, hr'.hx]
  rfl

theorem pad_length (msg : List Byte) : (fips_pad msg).length % 64 = 0 := by
  unfold fips_pad
  simp only [List.length_append, List.length_cons, List.length_nil, List.length_replicate, List.length_map, List.length_range]
  omega

/-- C119. Over a message padded by the caller as FIPS 180-4 prescribes, `sha1_x86(data, length)` returns the exclusive or of the first two
words of the SHA-1 digest. -/
theorem C119_padded (msg : List Byte) :
    sha1Data (fips_pad msg) (fips_pad msg).length = .ok ((sha1 msg).a ^^^ (sha1 msg).b) := by
  unfold sha1Data sha1
  rw [C119_sha1_x86 _ _ _ (Nat.le_refl _), List.take_length]
  have : ((fips_pad msg).length + 63) / 64 = (fips_pad msg).length / 64 := by
    have := pad_length msg
    omega
  rw [this]
  rfl

theorem wordAt_congr (d d' : List Byte) (o t : Nat) (h : ∀ i, d.getD i 0 = d'.getD i 0) : wordAt d o t = wordAt d' o t := by
  unfold wordAt; simp only [h]

theorem chain_congr (d d' : List Byte) (h0 : St) (h : ∀ i, d.getD i 0 = d'.getD i 0) (n : Nat) : chain d h0 n = chain d' h0 n := by
  induction n with
  | zero => rfl
  | succ n ih =>
    unfold chain
    rw [ih, show wordAt d (64 * n) = wordAt d' (64 * n) from funext fun t => wordAt_congr d d' _ t h]

/-- C119, negative. The function does not pad: zeros behind a message that stay inside its last block leave the value unchanged, for every
message whose length is no multiple of 64.  (SHA-1 mixes in the length.) -/
theorem C119_no_padding (h : St) (msg : List Byte) (k : Nat) (hk : (msg.length + k + 63) / 64 = (msg.length + 63) / 64) :
    sha1_x86 true h (msg ++ List.replicate k 0) (msg.length + k) = sha1_x86 true h msg msg.length := by
  have e : msg.length + k = (msg ++ List.replicate k (0 : Byte)).length := by simp
  rw [C119_sha1_x86 h msg _ (Nat.le_refl _), C119_sha1_x86 _ _ _ (by omega), hk]
  have hc : ∀ i, ((msg ++ List.replicate k (0 : Byte)).take (msg.length + k)).getD i 0 = (msg.take msg.length).getD i 0 := by
    intro i
    rw [e, List.take_length, List.take_length]
    by_cases hi : i < msg.length
    · rw [List.getD_append _ _ _ _ hi]
    · rw [List.getD_append_right _ _ _ _ (by omega), getD_replicate, List.getD_eq_default _ _ (by omega)]
  rw [chain_congr _ _ h hc]

example : (([1, 2, 3] : List Byte).length + 5 + 63) / 64 = (([1, 2, 3] : List Byte).length + 63) / 64 := by decide

/-- C119. The empty message: no block is processed. -/
theorem C119_empty (m : List Byte) : sha1Data m 0 = .ok (0x67452301 ^^^ 0xefcdab89) := by
  unfold sha1Data
  rw [C119_sha1_x86 _ _ _ (Nat.zero_le _)]
  rfl

/-- The published digest of "abc" starts with a9993e36 4706816a. -/
example : sha1Data (fips_pad [97, 98, 99]) 64 = .ok (0xa9993e36 ^^^ 0x4706816a) := by decide +kernel

/-! ### C120: `sha1_msg2` -/

/-- Sixteen bytes of a message, zeros behind its end. -/
def blk (d : List Byte) (i : Nat) : V := lanes ((List.range 16).map fun j => d.getD (16 * i + j) 0)

/-- The value after the first `n` of every second block of sixteen bytes, from block `c` on. -/
def stream (d : List Byte) (c : Nat) : Nat → V
  | 0 => setzero
  | n + 1 => sha1msg2 (blk d (2 * n + c)) (stream d c n)

theorem lanes_congr (v v' : List Byte) (h : ∀ i, i < 16 → v.getD i 0 = v'.getD i 0) : lanes v = lanes v' := by
  unfold lanes
  simp only [h 0 (by omega), h 1 (by omega), h 2 (by omega), h 3 (by omega), h 4 (by omega), h 5 (by omega), h 6 (by omega),
    h 7 (by omega), h 8 (by omega), h 9 (by omega), h 10 (by omega), h 11 (by omega), h 12 (by omega), h 13 (by omega),
    h 14 (by omega), h 15 (by omega), Nat.reduceAdd]

theorem getD_range_map (f : Nat → Byte) (i : Nat) (hi : i < 16) : ((List.range 16).map f).getD i 0 = f i := by
  simp [List.getD_eq_getElem?_getD, hi]

theorem mask64_byte : ∀ rest : Fin 16, ∀ i : Fin 16,
    (if i.val < 8 then (maskX64 rest).1 >>> (8 * i.val) % 256 else (maskX64 rest).2 >>> (8 * (i.val - 8)) % 256)
      = if i.val + rest.val < 16 then 255 else 0 := by decide +kernel

theorem mask86_byte : ∀ rest : Fin 16, ∀ i : Fin 16,
    (if i.val < 8 then (maskX86 rest).1 >>> (8 * i.val) % 256 else (maskX86 rest).2 >>> (8 * (i.val - 8)) % 256)
      = if i.val + rest.val < 16 then 255 else 0 := by decide +kernel

/-- Either mask keeps the first `16 - rest` bytes. -/
def Keeps (msk : Nat → Nat × Nat) : Prop := ∀ rest, rest < 16 → ∀ i, i < 16 →
  (if i < 8 then (msk rest).1 >>> (8 * i) % 256 else (msk rest).2 >>> (8 * (i - 8)) % 256) = if i + rest < 16 then 255 else 0

theorem keeps64 : Keeps maskX64 := fun r hr i hi => mask64_byte ⟨r, hr⟩ ⟨i, hi⟩
theorem keeps86 : Keeps maskX86 := fun r hr i hi => mask86_byte ⟨r, hr⟩ ⟨i, hi⟩

theorem and_getD {msk : Nat → Nat × Nat} (hk : Keeps msk) (v : List Byte) (rest i : Nat) (hr : rest < 16) (hi : i < 16) :
    (and_si128 v (msk rest)).getD i 0 = if i + rest < 16 then v.getD i 0 else 0 := by
  unfold and_si128
  rw [getD_range_map _ i hi]
  dsimp only
  apply Fin.ext
  have hk' := hk rest hr i hi
  show ((v.getD i 0).val &&& (if i < 8 then (msk rest).1 >>> (8 * i) % 256 else (msk rest).2 >>> (8 * (i - 8)) % 256)) % 256 = _
  rw [hk']
  by_cases h : i + rest < 16
  · rw [if_pos h, if_pos h]
    have e : (v.getD i 0).val &&& 255 = (v.getD i 0).val % 2 ^ 8 := Nat.and_two_pow_sub_one_eq_mod _ 8
    rw [e]
    have := (v.getD i 0).isLt
    omega
  · rw [if_neg h, if_neg h]
    simp

/-- A load inside the message. -/
theorem loadu_full (m : List Byte) (length i : Nat) (hi : 16 * (i + 1) ≤ length) (hm : 16 * (i + 1) ≤ m.length) :
    ∃ v, loadu m (16 * i) = .ok v ∧ lanes v = blk (m.take length) i := by
  unfold loadu
  rw [if_pos (show 16 * i + 16 ≤ m.length by omega)]
  refine ⟨_, rfl, ?_⟩
  unfold blk
  apply lanes_congr
  intro j hj
  rw [getD_take_drop _ _ _ _ hj, getD_range_map _ _ hj, getD_take, if_pos (by omega)]

/-- The last load with its mask. -/
theorem loadu_masked {msk : Nat → Nat × Nat} (hk : Keeps msk) (m : List Byte) (length i : Nat) (hl : 16 * i < length)
    (hi : length ≤ 16 * (i + 1)) (hm : 16 * (i + 1) ≤ m.length) :
    ∃ v, loadu m (16 * i) = .ok v ∧ lanes (and_si128 v (msk (16 * (i + 1) - length))) = blk (m.take length) i := by
  unfold loadu
  rw [if_pos (show 16 * i + 16 ≤ m.length by omega)]
  refine ⟨_, rfl, ?_⟩
  unfold blk
  apply lanes_congr
  intro j hj
  rw [and_getD hk _ _ _ (by omega) hj, getD_take_drop _ _ _ _ hj, getD_range_map _ _ hj, getD_take]
  by_cases h : 16 * i + j < length
  · rw [if_pos h, if_pos (show j + (16 * (i + 1) - length) < 16 by omega)]
  · rw [if_neg h, if_neg (show ¬ j + (16 * (i + 1) - length) < 16 by omega)]

theorem msg2Loop_eq {msk : Nat → Nat × Nat} (hk : Keeps msk) (m : List Byte) (length : Nat)
    (hm : 16 * ((length + 15) / 16) ≤ m.length) : ∀ f n remain,
    0 < remain → remain ≤ f → 32 * n + remain = length →
    msg2Loop msk m f (32 * n) remain (stream (m.take length) 0 n) (stream (m.take length) 1 n)
      = .ok (stream (m.take length) 0 (((length + 15) / 16 + 1) / 2), stream (m.take length) 1 ((length + 15) / 16 / 2)) := by
  intro f
  induction f with
  | zero => intro n remain h0 hf; omega
  | succ f ih =>
    intro n remain h0 hf hn
    unfold msg2Loop
    have en : 32 * n = 16 * (2 * n) := by omega
    have en1 : 32 * n + 16 = 16 * (2 * n + 1) := by omega
    by_cases h16 : remain ≤ 16
    · rw [if_pos h16]
      obtain ⟨v, e, hv⟩ := loadu_masked hk m length (2 * n) (by omega) (by omega) (by omega)
      rw [en, e]
      have e1 : ((length + 15) / 16 + 1) / 2 = n + 1 := by omega
      have e2 : (length + 15) / 16 / 2 = n := by omega
      have e3 : 16 - remain = 16 * (2 * n + 1) - length := by omega
      rw [e1, e2]
      show Res.ok (sha1msg2 (lanes (and_si128 v (msk (16 - remain)))) _, _) = _
      rw [e3, hv]
      rfl
    · rw [if_neg h16]
      obtain ⟨v, e, hv⟩ := loadu_full m length (2 * n) (by omega) (by omega)
      by_cases h32 : remain ≤ 32
      · rw [if_pos h32]
        obtain ⟨w, e', hw⟩ := loadu_masked hk m length (2 * n + 1) (by omega) (by omega) (by omega)
        rw [en1, en, e, e']
        have e1 : ((length + 15) / 16 + 1) / 2 = n + 1 := by omega
        have e2 : (length + 15) / 16 / 2 = n + 1 := by omega
        have e3 : 32 - remain = 16 * (2 * n + 1 + 1) - length := by omega
        rw [e1, e2]
        show Res.ok (sha1msg2 (lanes v) _, sha1msg2 (lanes (and_si128 w (msk (32 - remain)))) _) = _
        rw [e3, hv, hw]
        rfl
      · rw [if_neg h32]
        obtain ⟨w, e', hw⟩ := loadu_full m length (2 * n + 1) (by omega) (by omega)
        have := ih (n + 1) (remain - 32) (by omega) (by omega) (by omega)
        rw [en1, en, e, e']
        show msg2Loop msk m f (16 * (2 * n) + 32) (remain - 32) (sha1msg2 (lanes v) _) (sha1msg2 (lanes w) _) = _
        rw [hv, hw, ← this, show 32 * (n + 1) = 16 * (2 * n) + 32 by omega]
        rfl

theorem msg2Loop_ub {msk : Nat → Nat × Nat} (m : List Byte) (length : Nat) (hm : m.length < 16 * ((length + 15) / 16)) :
    ∀ f n remain a b, 0 < remain → remain ≤ f → 32 * n + remain = length → msg2Loop msk m f (32 * n) remain a b = .ub := by
  intro f
  induction f with
  | zero => intro n remain a b h0 hf; omega
  | succ f ih =>
    intro n remain a b h0 hf hn
    unfold msg2Loop loadu
    by_cases h16 : remain ≤ 16
    · rw [if_pos h16, if_neg (by omega)]; rfl
    · rw [if_neg h16]
      by_cases h32 : remain ≤ 32
      · rw [if_pos h32]
        by_cases h : 32 * n + 16 ≤ m.length
        · rw [if_pos h, if_neg (by omega)]; rfl
        · rw [if_neg h]; rfl
      · rw [if_neg h32]
        by_cases h : 32 * n + 16 ≤ m.length
        · by_cases h' : 32 * n + 16 + 16 ≤ m.length
          · rw [if_pos h, if_pos h']
            exact ih (n + 1) (remain - 32) _ _ (by omega) (by omega) (by omega)
          · rw [if_pos h, if_neg h']; rfl
        · rw [if_neg h]; rfl

/-- The two streams of a message, mixed. -/
def mixed (d : List Byte) : V :=
  msg2Finish (stream d 0 (((d.length + 15) / 16 + 1) / 2)) (stream d 1 ((d.length + 15) / 16 / 2))

/-- C120. When the memory is readable up to the next multiple of sixteen, `sha1_msg2` computes a function of the `length` bytes alone: the
blocks of sixteen bytes, the last one filled up with zeros, alternately feed two streams, which are mixed; the 32-bit
version returns the first word, the 64-bit version the exclusive or of two.  The empty string gives 0. -/
theorem C120_msg2_partial (x64 : Bool) (m : List Byte) (length : Nat) (hm : 16 * ((length + 15) / 16) ≤ m.length) :
    sha1_msg2 x64 m length = .ok (if length = 0 then 0 else
      if x64 then (mixed (m.take length)).x0 ^^^ (mixed (m.take length)).x1 else (mixed (m.take length)).x0) := by
  by_cases h0 : length = 0
  · subst h0; cases x64 <;> rfl
  have hl : (m.take length).length = length := by rw [List.length_take]; omega
  unfold mixed
  rw [if_neg h0, hl]
  cases x64 with
  | true =>
    simp only [sha1_msg2, sha1_msg2_x64, if_pos (show 0 < length by omega), if_true]
    have := msg2Loop_eq keeps64 m length hm length 0 length (by omega) (by omega) (by omega)
    simp only [Nat.mul_zero, stream] at this
    rw [this]
    simp only [Res.bind, fold_words]
  | false =>
    simp only [sha1_msg2, sha1_msg2_x86, if_pos (show 0 < length by omega), Bool.false_eq_true, if_false]
    have := msg2Loop_eq keeps86 m length hm length 0 length (by omega) (by omega) (by omega)
    simp only [Nat.mul_zero, stream] at this
    rw [this]
    rfl

/-- C120, negative. Otherwise the call is undefined behaviour: it reads behind the block. In particular it is for every string whose
length is no multiple of sixteen in memory of exactly that size. -/
theorem C120_msg2_reads_behind (x64 : Bool) (m : List Byte) (length : Nat) (hm : m.length < 16 * ((length + 15) / 16)) :
    sha1_msg2 x64 m length = .ub := by
  have h0 : 0 < length := by omega
  cases x64 with
  | true =>
    simp only [sha1_msg2, sha1_msg2_x64, if_pos h0, if_true]
    have := msg2Loop_ub (msk := maskX64) m length hm length 0 length setzero setzero h0 (Nat.le_refl _) (by omega)
    rw [Nat.mul_zero] at this
    rw [this]; rfl
  | false =>
    simp only [sha1_msg2, sha1_msg2_x86, if_pos h0, Bool.false_eq_true, if_false]
    have := msg2Loop_ub (msk := maskX86) m length hm length 0 length setzero setzero h0 (Nat.le_refl _) (by omega)
    rw [Nat.mul_zero] at this
    rw [this]; rfl

/-- C120. Two places in memory with the same string give the same value. -/
theorem C120_msg2_string (x64 : Bool) (m m' : List Byte) (length : Nat) (hm : 16 * ((length + 15) / 16) ≤ m.length)
    (hm' : 16 * ((length + 15) / 16) ≤ m'.length) (h : m.take length = m'.take length) :
    sha1_msg2 x64 m length = sha1_msg2 x64 m' length := by
  rw [C120_msg2_partial x64 m length hm, C120_msg2_partial x64 m' length hm', h]

theorem blk_congr (d d' : List Byte) (h : ∀ i, d.getD i 0 = d'.getD i 0) (i : Nat) : blk d i = blk d' i := by
  unfold blk; simp only [h]

theorem stream_congr (d d' : List Byte) (h : ∀ i, d.getD i 0 = d'.getD i 0) (c n : Nat) : stream d c n = stream d' c n := by
  induction n with
  | zero => rfl
  | succ n ih => unfold stream; rw [ih, blk_congr d d' h]

/-- C120, negative. The length does not enter: zeros behind a string, inside its last sixteen bytes, leave the value unchanged. -/
theorem C120_msg2_zeros (x64 : Bool) (m m' d : List Byte) (k : Nat) (hd : 0 < d.length)
    (hk : (d.length + k + 15) / 16 = (d.length + 15) / 16)
    (hm : 16 * ((d.length + 15) / 16) ≤ m.length) (hm' : 16 * ((d.length + 15) / 16) ≤ m'.length)
    (h : m.take d.length = d) (h' : m'.take (d.length + k) = d ++ List.replicate k 0) :
    sha1_msg2 x64 m d.length = sha1_msg2 x64 m' (d.length + k) := by
  have hc : ∀ i, d.getD i 0 = (d ++ List.replicate k (0 : Byte)).getD i 0 := by
    intro i
    by_cases hi : i < d.length
    · rw [List.getD_append _ _ _ _ hi]
    · rw [List.getD_append_right _ _ _ _ (by omega), getD_replicate, List.getD_eq_default _ _ (by omega)]
  rw [C120_msg2_partial x64 m _ hm, C120_msg2_partial x64 m' _ (by omega), h, h',
    if_neg (show ¬ d.length = 0 by omega), if_neg (show ¬ d.length + k = 0 by omega)]
  have e : mixed d = mixed (d ++ List.replicate k (0 : Byte)) := by
    unfold mixed
    rw [List.length_append, List.length_replicate, hk, stream_congr _ _ hc, stream_congr _ _ hc]
  rw [e]

/-- A string of three bytes with sixteen readable, and the same string followed by a zero. -/
example : 16 * ((3 + 15) / 16) ≤ (List.replicate 16 (7 : Byte)).length ∧ (3 + 1 + 15) / 16 = (3 + 15) / 16
    ∧ ([7, 7, 7, 0, 7, 7, 7, 7, 7, 7, 7, 7, 7, 7, 7, 7] : List Byte).take (3 + 1) = [7, 7, 7] ++ List.replicate 1 0 := by decide

example : ([7, 7, 7] : List Byte).length < 16 * ((3 + 15) / 16) := by decide

/-- The value depends on the bytes: a changed byte changes it. -/
example : sha1_msg2 true (List.replicate 16 7) 3 ≠ sha1_msg2 true (8 :: List.replicate 15 7) 3
    ∧ sha1_msg2 true (List.replicate 16 7) 3 ≠ .ub := by decide +kernel

end Verif.Sha1
