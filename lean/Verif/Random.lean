/-
The random number helpers: `MT19937_32` and `MT19937_64` (src/jstd/system/MT19937_32.h and
MT19937_64.h), `LibcRand` (src/jstd/system/LibcRand.h) and the integer and 53-bit members of
`BasicRandomGenerator` (src/jstd/system/RandomGen.h).

Abbreviations: M32 = src/jstd/system/MT19937_32.h, M64 = src/jstd/system/MT19937_64.h,
LR = src/jstd/system/LibcRand.h, RG = src/jstd/system/RandomGen.h.

`time` and the C library's `rand` are parameters.  An access behind the `state` array is undefined
behaviour; so that something can also be said about a machine on which the words behind the array
can be read, the contents of those words are an optional parameter (`Os.past`).
-/
import Mathlib.Data.Nat.Count
import Mathlib.Data.Int.CardIntervalMod
import Verif.Basic

namespace Verif.Rand

/-! ### The generators -/

/-- Constants and bit operations in which M32 and M64 differ. -/
structure Params (w : Nat) where
  /-- `N` (M32:146, M64:146) -/
  N : Nat
  /-- `M` (M32:146, M64:146) -/
  M : Nat
  /-- multiplier of `init` (M32:183, M64:183) -/
  initMul : BitVec w
  /-- first multiplier of `init_keys` (M32:213, M64:213) -/
  keyMul1 : BitVec w
  /-- second multiplier of `init_keys` (M32:228, M64:228) -/
  keyMul2 : BitVec w
  /-- value stored last by `init_keys` (M32:237, M64:237) -/
  msb : BitVec w
  /-- `twist` (M32:260-262, M64:260-262) -/
  twist : BitVec w → BitVec w → BitVec w
  /-- tempering part of `rand` (M32:291-295, M64:291-295) -/
  temper : BitVec w → BitVec w

/-- `MT19937_32::mixbits` (M32:256-258). -/
def mix32 (u v : BitVec 32) : BitVec 32 := (u &&& 0x80000000#32) ||| (v &&& 0x7FFFFFFF#32)

/-- `MT19937_32::twist` (M32:260-262). -/
def twist32 (u v : BitVec 32) : BitVec 32 :=
  (mix32 u v >>> 1) ^^^ (if v &&& 1#32 ≠ 0#32 then 2567483615#32 else 0#32)

/-- Tempering of `MT19937_32::rand` (M32:291-296). -/
def temper32 (y : BitVec 32) : BitVec 32 :=
  let y := y ^^^ (y >>> 11)
  let y := y ^^^ ((y <<< 7) &&& 0x9d2c5680#32)
  let y := y ^^^ ((y <<< 15) &&& 0xefc60000#32)
  y ^^^ (y >>> 18)

/-- `MT19937_64::mixbits` (M64:256-258). -/
def mix64 (u v : BitVec 64) : BitVec 64 :=
  (u &&& 0x8000000000000000#64) ||| (v &&& 0x7FFFFFFFFFFFFFFF#64)

/-- `MT19937_64::twist` (M64:260-262). -/
def twist64 (u v : BitVec 64) : BitVec 64 :=
  (mix64 u v >>> 1) ^^^ (if v &&& 1#64 ≠ 0#64 then 0xB5026F5AA96619E9#64 else 0#64)

/-- Tempering of `MT19937_64::rand` (M64:291-296). -/
def temper64 (y : BitVec 64) : BitVec 64 :=
  let y := y ^^^ ((y >>> 29) &&& 0x5555555555555555#64)
  let y := y ^^^ ((y <<< 17) &&& 0x71D67FFFEDA60000#64)
  let y := y ^^^ ((y <<< 37) &&& 0xFFF7EEE000000000#64)
  y ^^^ (y >>> 43)

/-- `MT19937_32` (M32:143-146, 183, 213, 228, 237). -/
def mt32 : Params 32 where
  N := 624
  M := 397
  initMul := 1812433253#32
  keyMul1 := 1664525#32
  keyMul2 := 1566083941#32
  msb := 0x80000000#32
  twist := twist32
  temper := temper32

/-- `MT19937_64` (M64:143-146, 183, 213, 228, 237). -/
def mt64 : Params 64 where
  N := 312
  M := 156
  initMul := 6364136223846793005#64
  keyMul1 := 1664525#64
  keyMul2 := 1566083941#64
  msb := 0x8000000000000000#64
  twist := twist64
  temper := temper64

/-- A generator object (M32:148-151, M64:148-151): `next` as an index into `state`, `none` for
`nullptr`. -/
structure Gen (w : Nat) where
  next : Option Nat
  left : Nat
  state : Nat → BitVec w

/-- What a generator takes from outside: the clock `init` reads for seed 0, the C library word that
`rand` falls back to, and the words in memory behind `state` if they can be read at all. -/
structure Os (w : Nat) where
  clock : BitVec w
  libc : BitVec w
  past : Option (Nat → BitVec w)

/-- A read of `state[i]` through a pointer into `state`. -/
def look {w : Nat} (P : Params w) (o : Os w) (s : Nat → BitVec w) (i : Nat) : Res (BitVec w) :=
  if i < P.N then .ok (s i)
  else match o.past with
    | none => .ub
    | some m => .ok (m (i - P.N))

/-- Store into an array. -/
def put {w : Nat} (s : Nat → BitVec w) (i : Nat) (x : BitVec w) : Nat → BitVec w :=
  fun j => if j = i then x else s j

/-- The loop of `init` (M32:182-189, M64:182-189): `n` passes from index `j` on. -/
def initLoop {w : Nat} (P : Params w) : Nat → Nat → (Nat → BitVec w) → (Nat → BitVec w)
  | 0, _, s => s
  | n + 1, j, s =>
    initLoop P n (j + 1)
      (put s j (P.initMul * (s (j - 1) ^^^ (s (j - 1) >>> 30)) + BitVec.ofNat w j))

/-- `init(initSeed)` (M32:175-190, M64:175-190). -/
def init {w : Nat} (P : Params w) (o : Os w) (seed : BitVec w) (s : Nat → BitVec w) :
    Nat → BitVec w :=
  initLoop P (P.N - 1) 1 (put s 0 (if seed = 0#w then o.clock else seed))

/-- The first loop of `init_keys` (M32:210-223, M64:210-223).  `init_key[j]` behind the end of the
key is undefined behaviour. -/
def keyLoop1 {w : Nat} (P : Params w) (keys : List (BitVec w)) :
    Nat → Nat → Nat → (Nat → BitVec w) → Res (Nat × (Nat → BitVec w))
  | 0, i, _, s => .ok (i, s)
  | k + 1, i, j, s =>
    match keys[j]? with
    | none => .ub
    | some x =>
      let s := put s i
        ((s i ^^^ ((s (i - 1) ^^^ (s (i - 1) >>> 30)) * P.keyMul1)) + x + BitVec.ofNat w j)
      let i := i + 1
      let j := j + 1
      let s' := if i ≥ P.N then put s 0 (s (P.N - 1)) else s
      let i' := if i ≥ P.N then 1 else i
      let j' := if j ≥ keys.length then 0 else j
      keyLoop1 P keys k i' j' s'

/-- The second loop of `init_keys` (M32:225-235, M64:225-235). -/
def keyLoop2 {w : Nat} (P : Params w) :
    Nat → Nat → (Nat → BitVec w) → (Nat → BitVec w)
  | 0, _, s => s
  | k + 1, i, s =>
    let s := put s i
      ((s i ^^^ ((s (i - 1) ^^^ (s (i - 1) >>> 30)) * P.keyMul2)) - BitVec.ofNat w i)
    let i := i + 1
    let s' := if i ≥ P.N then put s 0 (s (P.N - 1)) else s
    let i' := if i ≥ P.N then 1 else i
    keyLoop2 P k i' s'

/-- `init_keys` (M32:206-238, M64:206-238). -/
def initKeys {w : Nat} (P : Params w) (keys : List (BitVec w)) (s : Nat → BitVec w) :
    Res (Nat → BitVec w) :=
  (keyLoop1 P keys (if P.N > keys.length then P.N else keys.length) 1 0 s).bind fun r =>
    .ok (put (keyLoop2 P (P.N - 1) r.1 r.2) 0 P.msb)

/-- One of the two loops of `next_state` (M32:243-249, M64:243-249): `n` passes with `p` moving up
from index `p`, each storing `p[off] ^ twist(p[0], p[1])`. -/
def stateLoop {w : Nat} (P : Params w) (o : Os w) (off : Nat) :
    Nat → Nat → (Nat → BitVec w) → Res (Nat → BitVec w)
  | 0, _, s => .ok s
  | n + 1, p, s =>
    (look P o s (p + off)).bind fun x =>
      (look P o s p).bind fun u =>
        (look P o s (p + 1)).bind fun v =>
          stateLoop P o off n (p + 1) (put s p (x ^^^ P.twist u v))

/-- The array part of `next_state` (M32:240-251, M64:240-251).  The loop headers
`for (i = K + 1; --i; ++p)` and `for (i = M; --i; ++p)` run `N - M` and `M - 1` times. -/
def nextBlock {w : Nat} (P : Params w) (o : Os w) (s : Nat → BitVec w) : Res (Nat → BitVec w) :=
  (stateLoop P o P.M (P.N - P.M) 0 s).bind fun s =>
    (stateLoop P o (P.N - P.M) (P.M - 1) (P.N - P.M) s).bind fun s =>
      (look P o s (P.N - 1 + (P.N - P.M))).bind fun x =>
        .ok (put s (P.N - 1) (x ^^^ P.twist (s (P.N - 1)) (s 0)))

/-- `next_state` (M32:240-254, M64:240-254). -/
def nextState {w : Nat} (P : Params w) (o : Os w) (g : Gen w) : Res (Gen w) :=
  (nextBlock P o g.state).bind fun s => .ok ⟨some 0, P.N, s⟩

/-- The seed constructor (M32:154-156, M64:154-156) on uninitialised memory `raw`. -/
def ctor {w : Nat} (P : Params w) (o : Os w) (raw : Nat → BitVec w) (seed : BitVec w) : Gen w :=
  ⟨none, 1, init P o seed raw⟩

/-- The key constructors (M32:158-166 with 192-200, M64:158-166 with 192-200). -/
def ctorKeys {w : Nat} (P : Params w) (o : Os w) (raw : Nat → BitVec w) (keys : List (BitVec w))
    (seed : BitVec w) : Res (Gen w) :=
  (initKeys P keys (init P o seed raw)).bind fun s => .ok ⟨none, 1, s⟩

/-- `srand(initSeed)` (M32:265-268, M64:265-268). -/
def srand {w : Nat} (P : Params w) (o : Os w) (g : Gen w) (seed : BitVec w) : Res (Gen w) :=
  nextState P o { g with state := init P o seed g.state }

/-- `srand(init_key, ..)` (M32:270-278, M64:270-278). -/
def srandKeys {w : Nat} (P : Params w) (o : Os w) (g : Gen w) (keys : List (BitVec w))
    (seed : BitVec w) : Res (Gen w) :=
  (initKeys P keys (init P o seed g.state)).bind fun s => nextState P o { g with state := s }

/-- `rand` (M32:280-297, M64:280-297). -/
def rand {w : Nat} (P : Params w) (o : Os w) (g : Gen w) : Res (Gen w × BitVec w) :=
  let left := (g.left + 2 ^ w - 1) % 2 ^ w
  (if left = 0 then nextState P o { g with left := left } else .ok { g with left := left }).bind
    fun g =>
      match g.next with
      | some q => (look P o g.state q).bind fun y => .ok ({ g with next := some (q + 1) }, P.temper y)
      | none => .ok (g, P.temper o.libc)

/-- `n` calls of `rand` and the last word returned. -/
def draw {w : Nat} (P : Params w) (o : Os w) : Nat → Gen w → Res (Gen w × BitVec w)
  | 0, g => rand P o g
  | n + 1, g => (rand P o g).bind fun r => draw P o n r.1

/-! ### The C library words -/

/-- `LibcRand::rand32` with `RAND_MAX == 0x7FFF` (LR:103-108); `a`, `b`, `c` are the values of the
three calls of `::rand()`. -/
def rand32Small (a b c : Nat) : Nat :=
  ((a &&& 0x7FFF) <<< 30 ||| (b &&& 0x7FFF) <<< 15 ||| (c &&& 0x7FFF)) % 2 ^ 32

/-- `LibcRand::rand32` with `RAND_MAX >= 0xFFFF` (LR:109-113), for `RAND_MAX == 0x7FFFFFFF`. -/
def rand32Wide (a b : Nat) : Nat :=
  ((a &&& 0x7FFFFFFF) <<< 16 ||| (b &&& 0x7FFFFFFF)) % 2 ^ 32

/-- `LibcRand::rand64` with `RAND_MAX >= 0xFFFF` (LR:133-139), for `RAND_MAX == 0x7FFFFFFF`. -/
def rand64Wide (a b c d : Nat) : Nat :=
  ((a &&& 0x7FFFFFFF) <<< 48 ||| (b &&& 0x7FFFFFFF) <<< 32 ||| (c &&& 0x7FFFFFFF) <<< 16 |||
    (d &&& 0x7FFFFFFF)) % 2 ^ 64

/-! ### Integers in a range -/

/-- `nextInteger<V, U>(minValue, maxValue)` with `V` signed and `U` unsigned of `w` bits
(RG:240-253); `raw` is the word of `nextInteger<V>()` (RG:232-238) as an unsigned number.
`maxValue - minValue + 1` is computed in `V`; the remainder and the sum are computed in `U` and
converted back to `V`. -/
def nextSigned (w : Nat) (lo hi : Int) (raw : Nat) : Res Int :=
  let span (a b : Int) : Res Int :=
    let n := b - a + 1
    if b - a < 2 ^ (w - 1) ∧ n < 2 ^ (w - 1) then .ok n else .ub
  let from_ (a n : Int) : Res Int :=
    if n = 0 then .ub else .ok (Int.bmod (a + (raw : Int) % n) (2 ^ w))
  if lo ≤ hi then (span lo hi).bind (from_ lo) else (span hi lo).bind (from_ hi)

/-- `nextInteger<V>(minValue, maxValue)` with `V` unsigned of `w` bits (RG:240-253). -/
def nextUnsigned (w : Nat) (lo hi raw : Nat) : Res Nat :=
  let from_ (a b : Nat) : Res Nat :=
    let n := (b - a + 1) % 2 ^ w
    if n = 0 then .ub else .ok ((a + raw % n) % 2 ^ w)
  if lo ≤ hi then from_ lo hi else from_ hi lo

/-- `nextInt(maxValue)` (RG:162-164): the argument is converted to `size_t`, the result of
`nextUInt(0, maxValue)` back to `intptr_t`. -/
def nextInt (hi : Int) (raw : Nat) : Res Int :=
  (nextUnsigned 64 0 (hi % 2 ^ 64).toNat raw).bind fun r => .ok (Int.bmod r (2 ^ 64))

/-- The integer `a * 67108864 + b` of `nextDouble53` (RG:184-187), which is divided by 2^53; `x` and
`y` are the two words of `nextUInt32()`. -/
def num53 (x y : Nat) : Nat := (x >>> 5) * 67108864 + (y >>> 6)

end Verif.Rand
