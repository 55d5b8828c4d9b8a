/-
`jstd::string_view`: equality, ordering, substrings.
SV = string/string_view.h, SU = string/string_utils.h, ST = string/string_traits.h, SL = string/string_libc.h,
SS = string/string_stl.h, SE = support/SSEHelper.h.

The comparison code is selected at compile time by STRING_UTILS_MODE.  A program that defines nothing gets the SSE4.2 code
when compiled with SSE4.2 (undefined macros are 0, so `STRING_UTILS_MODE == STRING_UTILS_SSE42` holds at SU:179, 421, 484);
the benchmarks define the values 0..3 and choose STL.  All four modes are modelled.

A pointer is modelled by the readable bytes from it on; reading further is `ub`.  Sizes are below 2^64.  The null pointer is
`none`.  `kAssumeAlwaysNotEqual` is true (SU:36), so the shortcut for equal pointers is never taken.
-/
import Verif.HashFn

namespace Verif.Str
open Verif.HashFn

/-- An unaligned load of `n` bytes (`_mm_loadu_si128`: 16). -/
def loadB (m : List Byte) (o n : Nat) : Res (List Byte) :=
  if o + n ≤ m.length then .ok ((m.drop o).take n) else .ub

/-- The positive part of `(int)length` (SU:192, 432, 496): the conversion keeps the low 32 bits as a signed number, and the
loops do nothing for a number that is not positive. -/
def slen (n : Nat) : Nat := (Int.bmod n (2 ^ 32)).toNat

/-- `_mm_cmpestri`/`_mm_cmpestrc` with EQUAL_EACH, NEGATIVE_POLARITY, LEAST_SIGNIFICANT and the same length on both sides
(SU:199, 440-441, 504-505): the first of the first `len` words of `v` bytes that differ; carry is set iff there is one. -/
def mismatch (v : Nat) (x y : List Byte) (len : Nat) : Option Nat :=
  (List.range len).find? fun i => (x.drop (i * v)).take v ≠ (y.drop (i * v)).take v

/-- The loop of `str_utils::is_equal` in SSE4.2 mode (SU:193-214).  Characters are `w` bytes, the SSE instruction works on
words of `v` bytes (SE:13-39: 1 for `char`, 2 for `short` and `wchar_t`), `kMaxSize = 16 / v`. -/
def sseEqual (w v : Nat) (m1 m2 : List Byte) : Nat → Nat → Nat → Res Bool
  | 0, _, _ => .diverge
  | f + 1, o, n =>
    if 0 < n then
      (loadB m1 o 16).bind fun x => (loadB m2 o 16).bind fun y =>
        match mismatch v x y (min n (16 / v)) with
        | none => sseEqual w v m1 m2 f (o + 16 / v * w) (n - 16 / v)
        | some _ => .ok false
    else .ok true

/-- `str_utils::is_equal(str1, str2, length)`, SSE4.2 mode (SU:181-215). -/
def isEqualSse (w v : Nat) (m1 m2 : List Byte) (length : Nat) : Res Bool :=
  sseEqual w v m1 m2 (length + 1) 0 (slen length)

/-- The loop of `str_utils::compare` in SSE4.2 mode (SU:434-471, 498-532): after a mismatch at word `i` the *characters* at
index `i` of the block are compared (SU:458-466, 522-530). -/
def sseCompare (w v : Nat) (m1 m2 : List Byte) : Nat → Nat → Nat → Res Int
  | 0, _, _ => .diverge
  | f + 1, o, n =>
    if 0 < n then
      (loadB m1 o 16).bind fun x => (loadB m2 o 16).bind fun y =>
        match mismatch v x y (min n (16 / v)) with
        | none => sseCompare w v m1 m2 f (o + 16 / v * w) (n - 16 / v)
        | some i => (load m1 (o + i * w) w).bind fun c1 => (load m2 (o + i * w) w).bind fun c2 =>
            .ok (if c1 > c2 then 1 else -1)
    else .ok 0

/-- `str_utils::compare(str1, str2, count)`, SSE4.2 mode (SU:417-478). -/
def compareSse (w v : Nat) (m1 m2 : List Byte) (count : Nat) : Res Int :=
  sseCompare w v m1 m2 (count + 1) 0 (slen count)

/-- `str_utils::is_equal(str1, str2, length)`, U64 mode (SU:219-274): `length` counts characters, but the pointers are cast to
8-byte words and `length` *bytes* are compared, for every character type. -/
def u64Equal (m1 m2 : List Byte) : Nat → Nat → Nat → Res Bool
  | 0, _, _ => .diverge
  | f + 1, o, n =>
    if 0 < n then
      if 8 ≤ n then
        (load m1 o 8).bind fun x => (load m2 o 8).bind fun y =>
          if x = y then u64Equal m1 m2 f (o + 8) (n - 8) else .ok false
      else
        (load m1 o 8).bind fun x => (load m2 o 8).bind fun y =>
          .ok (decide (x &&& ((2 ^ 64 - 1) >>> ((8 - n) * 8)) = y &&& ((2 ^ 64 - 1) >>> ((8 - n) * 8))))
    else .ok true

/-- U64 mode, from the start. -/
def isEqualU64 (m1 m2 : List Byte) (length : Nat) : Res Bool := u64Equal m1 m2 (length + 1) 0 length

/-- `stl::StrEqual(str1, str2, count)` (SS:43-49): `memcmp(str1, str2, count * sizeof(CharTy)) == 0`; all bytes must be
readable. -/
def isEqualStl (w : Nat) (m1 m2 : List Byte) (count : Nat) : Res Bool :=
  (loadB m1 0 (count * w)).bind fun x => (loadB m2 0 (count * w)).bind fun y => .ok (decide (x = y))

/-- `strncmp(str1, str2, n)` up to the sign (C standard): compares unsigned bytes and stops after `n` bytes or a common NUL. -/
def strncmp : List Byte → List Byte → Nat → Res Int
  | _, _, 0 => .ok 0
  | a :: as, b :: bs, n + 1 =>
    if a ≠ b then .ok (if a > b then 1 else -1) else if a = 0 then .ok 0 else strncmp as bs n
  | _, _, _ + 1 => .ub

/-- `libc::StrEqual(const char *, const char *, count)` (SL:124-130). -/
def isEqualLibc (m1 m2 : List Byte) (count : Nat) : Res Bool := (strncmp m1 m2 count).bind fun r => .ok (decide (r = 0))

/-- Compile-time mode for `char` (SU:179, 217, 276, 285). -/
inductive Mode
  | sse42 | u64 | stl | libc
  deriving DecidableEq

/-- `str_utils::is_equal(const char *, const char *, size_t)`. -/
def isEqual (mode : Mode) (m1 m2 : List Byte) (n : Nat) : Res Bool :=
  match mode with
  | .sse42 => isEqualSse 1 1 m1 m2 n
  | .u64 => isEqualU64 m1 m2 n
  | .stl => isEqualStl 1 m1 m2 n
  | .libc => isEqualLibc m1 m2 n

/-- A `string_view` (SV:59-61): pointer and size.  `none` is the null pointer. -/
structure View where
  /-- The readable bytes from `data_` on. -/
  data : Option (List Byte)
  /-- `size_`. -/
  size : Nat

/-- `operator ==` (SV:517-519 → SV:363-365 → ST:44-46 → `is_equal_safe` SU:378-395, 351-368). -/
def View.eq (mode : Mode) (a b : View) : Res Bool :=
  if a.size ≠ b.size then .ok false
  else match a.data, b.data with
    | some m1, some m2 => isEqual mode m1 m2 a.size
    | some _, none => .ok false
    | none, some _ => .ok false
    | none, none => .ok true

/-- `operator !=` (SV:521-523). -/
def View.ne (mode : Mode) (a b : View) : Res Bool := (a.eq mode b).bind fun r => .ok (!r)

/-- `str_utils::compare(const char *, const char *, size_t)` (SU:417-478); `memcmp` is the library function, whose result has
only a specified sign (SS:143-149, SL:271-275). -/
def compareN (mode : Mode) (memcmp : List Byte → List Byte → Int) (m1 m2 : List Byte) (n : Nat) : Res Int :=
  match mode with
  | .sse42 => compareSse 1 1 m1 m2 n
  | .stl => (loadB m1 0 n).bind fun x => (loadB m2 0 n).bind fun y => .ok (memcmp x y)
  | .u64 | .libc => strncmp m1 m2 n

/-- `compare(const string_view &)` (SV:442-444 → ST:56-58 → `compare_safe` SU:626-653, `compare_safe_impl` SU:596-612). -/
def View.compare (mode : Mode) (memcmp : List Byte → List Byte → Int) (a b : View) : Res Int :=
  (match a.data, b.data with
    | some m1, some m2 => compareN mode memcmp m1 m2 (min a.size b.size)
    | some _, none => .ok 1
    | none, _ => .ok (-1)).bind fun r =>
  .ok (if r ≠ 0 then r else if a.size > b.size then 1 else if a.size < b.size then -1 else 0)

/-- `operator <` (SV:525-527). -/
def View.lt (mode : Mode) (memcmp : List Byte → List Byte → Int) (a b : View) : Res Bool :=
  (a.compare mode memcmp b).bind fun r => .ok (decide (r = -1))
/-- `operator <=` (SV:529-531): tests for IsBigger. -/
def View.le (mode : Mode) (memcmp : List Byte → List Byte → Int) (a b : View) : Res Bool :=
  (a.compare mode memcmp b).bind fun r => .ok (decide (r = 1))
/-- `operator >` (SV:533-535). -/
def View.gt (mode : Mode) (memcmp : List Byte → List Byte → Int) (a b : View) : Res Bool :=
  (a.compare mode memcmp b).bind fun r => .ok (decide (r = 1))
/-- `operator >=` (SV:537-539): tests for IsSmaller. -/
def View.ge (mode : Mode) (memcmp : List Byte → List Byte → Int) (a b : View) : Res Bool :=
  (a.compare mode memcmp b).bind fun r => .ok (decide (r = -1))

/-- `npos` (SV:57). -/
def npos : Nat := 2 ^ 64 - 1

/-- `rcount` of `copy`, `is_equal`, `compare` (SV:330, 387, 402, 465, 480): the sum wraps around. -/
def rcount (size pos count : Nat) : Nat := if (pos + count) % 2 ^ 64 ≤ size then count else size - pos

/-- `substr(pos, count)` (SV:335-346); `none` is the exception `out_of_range`.  The pointer moves by `pos`. -/
def View.substr (a : View) (pos count : Nat) : Option View :=
  if pos > a.size then none
  else some ⟨a.data.map (·.drop pos), if count ≠ npos then rcount a.size pos count else a.size - pos⟩

/-- `strncpy(dest, src, n)` (C standard) as the bytes written to `dest`: up to the first NUL, then NULs. -/
def strncpyBytes : List Byte → Nat → Option (List Byte)
  | _, 0 => some []
  | b :: bs, n + 1 => if b = 0 then some (List.replicate (n + 1) 0) else (strncpyBytes bs n).map (b :: ·)
  | [], _ + 1 => none

/-- `copy(dest, count, pos)` (SV:325-332 → ST:30-34 → `str_copy` SU:122-126): outcome for a destination of `room` bytes: the
bytes written and the returned number (`result - dest`, and `strncpy` returns `dest`). -/
def View.copy (a : View) (room count pos : Nat) : Option (Res (List Byte × Nat)) :=
  if pos > a.size then none
  else match a.data with
    | none => some .ub
    | some m =>
      let n := rcount a.size pos count
      if n ≤ room then
        match strncpyBytes (m.drop pos) n with
        | some l => some (.ok (l, 0))
        | none => some .ub
      else some .ub

/-- `compare(pos, count, sv)` (SV:450-457 → `compare_safe(s1, s2, count)` SU:614-624): neither size is looked at. -/
def View.compare3 (mode : Mode) (memcmp : List Byte → List Byte → Int) (a : View) (pos count : Nat) (b : View) :
    Option (Res Int) :=
  if pos > a.size then none
  else some (match a.data, b.data with
    | some m1, some m2 => compareN mode memcmp (m1.drop pos) m2 count
    | some _, none => .ok 1
    | none, _ => .ok (-1))

/-- `hash_helper<jstd::string_view>::getHashCode` (HH:249-258) with SSE4.2; `crc` is the CRC instruction. -/
def View.hash (crc : Nat → Nat → Nat) (a : View) : Res Nat :=
  match a.data with
  | some m => hashCrc32 crc m a.size
  | none => .ok 0

end Verif.Str
