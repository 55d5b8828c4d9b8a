/-
The clock and sleep functions of the system headers (C156).

TM = src/jstd/system/time.h, SL = src/jstd/system/sleep.h

The branches for Linux and for other Unix systems are modelled, those for Windows are not.  `double` is replaced by exact fractions.  The clock calls succeed.
`int64_t` arithmetic that overflows is undefined.
-/
import Verif.Basic
import Mathlib.Data.Rat.Floor
import Mathlib.Tactic.Linarith
import Mathlib.Tactic.FieldSimp
import Mathlib.Tactic.Ring

namespace Verif.SysTime

/-! ### The model -/

/-- The branches of the preprocessor (TM:23-37). -/
inductive Os where
  | linux
  | unix
  deriving DecidableEq

/-- What the clock shows: `struct timespec` with nanoseconds for Linux, `struct timeval` with microseconds otherwise (TM:79-94). -/
structure Clock where
  sec : Int
  sub : Int

/-- A result of `int64_t` arithmetic; `jmc_timestamp_t` is `int64_t` (TM:43). -/
def i64 (x : Int) : Res Int := if -2 ^ 63 ≤ x ∧ x < 2 ^ 63 then .ok x else .ub

/-- `jmc_get_nanosec` (TM:70-98). -/
def nanosec : Os → Clock → Res Int
  | .linux, c => (i64 (1000000000 * c.sec)).bind fun a => i64 (a + c.sub)
  | .unix, c => (i64 (1000000000 * c.sec)).bind fun a => (i64 (1000 * c.sub)).bind fun b => i64 (a + b)

/-- `jmc_get_millisec` (TM:102-130). -/
def millisec : Os → Clock → Res Int
  | .linux, c => (i64 (1000 * c.sec)).bind fun a => i64 (a + c.sub.tdiv 1000000)
  | .unix, c => (i64 (1000 * c.sec)).bind fun a => i64 (a + c.sub.tdiv 1000)

/-- `jmc_get_second` (TM:134-150). -/
def second : Os → Clock → Res Rat
  | .linux, c => (nanosec .linux c).bind fun t => .ok (t * (1 / 10 ^ 9))
  | .unix, c => (nanosec .unix c).bind fun t => .ok (t * (1 / 10 ^ 6))

/-- `jmc_get_millisecf` (TM:154-170). -/
def millisecf : Os → Clock → Res Rat
  | .linux, c => (nanosec .linux c).bind fun t => .ok (t * (1 / 10 ^ 6))
  | .unix, c => (nanosec .unix c).bind fun t => .ok (t * (1 / 10 ^ 3))

/-- `jmc_get_timestamp` (TM:175-202), also the end time of the functions below. -/
def timestamp : Os → Clock → Res Int
  | .linux, c => (i64 (1000000000 * c.sec)).bind fun a => i64 (a + c.sub)
  | .unix, c => (i64 (1000000 * c.sec)).bind fun a => i64 (a + c.sub)

/-- `jmc_get_interval_ms` (TM:328-343). -/
def intervalMs : Os → Int → Int
  | .linux, t => t.tdiv 1000000
  | .unix, t => t.tdiv 1000

/-- `jmc_get_interval_msf` (TM:348-363). -/
def intervalMsf : Os → Int → Rat
  | .linux, t => t * (1 / 10 ^ 6)
  | .unix, t => t * (1 / 10 ^ 3)

/-- `jmc_get_interval_sec` (TM:368-383). -/
def intervalSec : Os → Int → Rat
  | .linux, t => t * (1 / 10 ^ 9)
  | .unix, t => t * (1 / 10 ^ 6)

/-- `jmc_get_elapsedtime_ms` (TM:207-242), at the time `c`. -/
def elapsedMs : Os → Int → Clock → Res Int
  | .linux, start, c => (timestamp .linux c).bind fun e => (i64 (e - start)).bind fun d => .ok (d.tdiv 1000000)
  | .unix, start, c => (timestamp .unix c).bind fun e => (i64 (e - start)).bind fun d => .ok (d.tdiv 1000)

/-- `jmc_get_elapsedtime_msf` (TM:247-283). -/
def elapsedMsf : Os → Int → Clock → Res Rat
  | .linux, start, c => (timestamp .linux c).bind fun e => (i64 (e - start)).bind fun d => .ok (d * (1 / 10 ^ 6))
  | .unix, start, c => (timestamp .unix c).bind fun e => (i64 (e - start)).bind fun d => .ok (d * (1 / 10 ^ 3))

/-- `jmc_get_elapsedtime_sec` (TM:288-323). -/
def elapsedSec : Os → Int → Clock → Res Rat
  | .linux, start, c => (timestamp .linux c).bind fun e => (i64 (e - start)).bind fun d => .ok (d * (1 / 10 ^ 9))
  | .unix, start, c => (timestamp .unix c).bind fun e => (i64 (e - start)).bind fun d => .ok (d * (1 / 10 ^ 6))

/-- The microseconds `thread_sleep` passes to `usleep` (SL:141-144); `unsigned int` has 32 bits. -/
def sleepUs (ms : Nat) : Nat := ms * 1000 % 2 ^ 32

/-- Those of `thread_wsleep` (SL:148-154). -/
def wsleepUs (ms : Nat) : Nat := if ms ≠ 0 then ms * 1000 % 2 ^ 32 else 250

/-- The inner loop of the sleep functions for other systems (SL:198-200, 216-218): `fuel` rounds at most, `none` if it still runs.  `j` is an `unsigned int`. -/
def busyInner : Nat → Nat → Option Unit
  | 0, _ => none
  | fuel + 1, j => if 0 ≤ j then busyInner fuel ((j + 2 ^ 32 - 1) % 2 ^ 32) else some ()

/-- The outer loop (SL:196-201, 214-219) for `k` more rounds, `start` being the first `j`; `sum` is left out. -/
def busyOuter (fuel start : Nat) : Nat → Option Unit
  | 0 => some ()
  | k + 1 => (busyInner fuel start).bind fun _ => busyOuter fuel start k

/-- `thread_sleep` for other systems (SL:191-203). -/
def otherSleep (fuel ms : Nat) : Option Unit := busyOuter fuel 50000 ms

/-- `thread_wsleep` for other systems (SL:206-222). -/
def otherWsleep (fuel ms : Nat) : Option Unit := if ms ≠ 0 then otherSleep fuel ms else busyOuter fuel 1000 1

/-! ### The claims -/

/-- The time a clock shows, in seconds. -/
def time : Os → Clock → Rat
  | .linux, c => c.sec + c.sub / 10 ^ 9
  | .unix, c => c.sec + c.sub / 10 ^ 6

/-- A clock after 1970 and before the year 2242. -/
def Valid : Os → Clock → Prop
  | .linux, c => 0 ≤ c.sec ∧ c.sec < 2 ^ 33 ∧ 0 ≤ c.sub ∧ c.sub < 10 ^ 9
  | .unix, c => 0 ≤ c.sec ∧ c.sec < 2 ^ 33 ∧ 0 ≤ c.sub ∧ c.sub < 10 ^ 6

theorem i64_ok {x : Int} (h1 : -2 ^ 63 ≤ x) (h2 : x < 2 ^ 63) : i64 x = .ok x := if_pos ⟨h1, h2⟩

theorem nanosec_eq {os : Os} {c : Clock} (h : Valid os c) :
    nanosec os c = .ok (1000000000 * c.sec + (match os with | .linux => c.sub | .unix => 1000 * c.sub)) := by
  cases os
  · obtain ⟨h1, h2, h3, h4⟩ := h
    simp only [nanosec]
    rw [i64_ok (by omega) (by omega), Res.bind_ok, i64_ok (by omega) (by omega)]
  · obtain ⟨h1, h2, h3, h4⟩ := h
    simp only [nanosec]
    rw [i64_ok (by omega) (by omega), Res.bind_ok, i64_ok (by omega) (by omega), Res.bind_ok, i64_ok (by omega) (by omega)]

theorem timestamp_eq {os : Os} {c : Clock} (h : Valid os c) :
    timestamp os c = .ok ((match os with | .linux => 1000000000 * c.sec | .unix => 1000000 * c.sec) + c.sub) := by
  cases os
  · obtain ⟨h1, h2, h3, h4⟩ := h
    simp only [timestamp]
    rw [i64_ok (by omega) (by omega), Res.bind_ok, i64_ok (by omega) (by omega)]
  · obtain ⟨h1, h2, h3, h4⟩ := h
    simp only [timestamp]
    rw [i64_ok (by omega) (by omega), Res.bind_ok, i64_ok (by omega) (by omega)]

theorem tdiv_bounds {a : Int} (h : 0 ≤ a) {b : Int} (hb : 0 < b) : ((a.tdiv b : Int) : Rat) ≤ a / b ∧ (a : Rat) / b < (a.tdiv b : Int) + 1 := by
  rw [Int.tdiv_eq_ediv_of_nonneg h]
  have h1 := Int.ediv_mul_le a (Int.ne_of_gt hb)
  have h2 := Int.lt_ediv_add_one_mul_self a hb
  have hb' : (0 : Rat) < b := by exact_mod_cast hb
  constructor
  · rw [le_div_iff₀ hb']
    exact_mod_cast h1
  · rw [div_lt_iff₀ hb']
    exact_mod_cast h2

/-- C156, the time of day: `jmc_get_nanosec` is exact and `jmc_get_millisec` is rounded down; for Linux `jmc_get_second` and `jmc_get_millisecf` are exact too.  Missing:
those two for other Unix systems, see `C156_unix_float`. -/
theorem C156_now_partial {os : Os} {c : Clock} (h : Valid os c) :
    (∃ n, nanosec os c = .ok n ∧ (n : Rat) = time os c * 10 ^ 9) ∧
    (∃ m, millisec os c = .ok m ∧ (m : Rat) ≤ time os c * 10 ^ 3 ∧ time os c * 10 ^ 3 < m + 1) ∧
    (os = .linux → second os c = .ok (time os c) ∧ millisecf os c = .ok (time os c * 10 ^ 3)) := by
  refine ⟨⟨_, nanosec_eq h, ?_⟩, ?_, ?_⟩
  · cases os
    · simp only [time]; push_cast; ring
    · simp only [time]; push_cast; ring
  · cases os
    · obtain ⟨h1, h2, h3, h4⟩ := h
      obtain ⟨b1, b2⟩ := tdiv_bounds h3 (show (0 : Int) < 1000000 by decide)
      have e : c.sub.tdiv 1000000 = c.sub / 1000000 := Int.tdiv_eq_ediv_of_nonneg h3
      refine ⟨1000 * c.sec + c.sub.tdiv 1000000, ?_, ?_, ?_⟩
      · simp only [millisec]
        rw [i64_ok (by omega) (by omega), Res.bind_ok, i64_ok (by omega) (by omega)]
      · simp only [time]; push_cast at *; linarith
      · simp only [time]; push_cast at *; linarith
    · obtain ⟨h1, h2, h3, h4⟩ := h
      obtain ⟨b1, b2⟩ := tdiv_bounds h3 (show (0 : Int) < 1000 by decide)
      have e : c.sub.tdiv 1000 = c.sub / 1000 := Int.tdiv_eq_ediv_of_nonneg h3
      refine ⟨1000 * c.sec + c.sub.tdiv 1000, ?_, ?_, ?_⟩
      · simp only [millisec]
        rw [i64_ok (by omega) (by omega), Res.bind_ok, i64_ok (by omega) (by omega)]
      · simp only [time]; push_cast at *; linarith
      · simp only [time]; push_cast at *; linarith
  · rintro rfl
    simp only [second, millisecf, nanosec_eq h, Res.bind_ok, time]
    constructor
    · congr 1; push_cast; ring
    · congr 1; push_cast; ring

/-- C156, violated: for Unix systems other than Linux `jmc_get_second` is the time in milliseconds and `jmc_get_millisecf` the one in microseconds. -/
theorem C156_unix_float {c : Clock} (h : Valid .unix c) :
    second .unix c = .ok (time .unix c * 10 ^ 3) ∧ millisecf .unix c = .ok (time .unix c * 10 ^ 6) := by
  simp only [second, millisecf, nanosec_eq h, Res.bind_ok, time]
  constructor
  · congr 1; push_cast; ring
  · congr 1; push_cast; ring

/-- C156, elapsed time: between two readings of the clock `jmc_get_timestamp` measures the difference, the floating-point functions give it exactly and the integer ones
rounded down. -/
theorem C156_elapsed {os : Os} {c d : Clock} (hc : Valid os c) (hd : Valid os d) :
    ∃ a b, timestamp os c = .ok a ∧ timestamp os d = .ok b ∧
      elapsedSec os a d = .ok (time os d - time os c) ∧ elapsedMsf os a d = .ok ((time os d - time os c) * 10 ^ 3) ∧
      intervalSec os (b - a) = time os d - time os c ∧ intervalMsf os (b - a) = (time os d - time os c) * 10 ^ 3 ∧
      (time os c ≤ time os d → ∃ m, elapsedMs os a d = .ok m ∧ intervalMs os (b - a) = m ∧ 0 ≤ m ∧
        (m : Rat) ≤ (time os d - time os c) * 10 ^ 3 ∧ (time os d - time os c) * 10 ^ 3 < m + 1) ∧
      (time os d + 1 / 10 ^ 3 ≤ time os c → ∃ m, elapsedMs os a d = .ok m ∧ m < 0) := by
  refine ⟨_, _, timestamp_eq hc, timestamp_eq hd, ?_⟩
  cases os
  · obtain ⟨h1, h2, h3, h4⟩ := hc
    have hd' := hd
    obtain ⟨g1, g2, g3, g4⟩ := hd'
    have hi : i64 (1000000000 * d.sec + d.sub - (1000000000 * c.sec + c.sub)) = .ok (1000000000 * d.sec + d.sub - (1000000000 * c.sec + c.sub)) :=
      i64_ok (by omega) (by omega)
    simp only [elapsedSec, elapsedMsf, elapsedMs, intervalSec, intervalMsf, intervalMs, timestamp_eq hd, Res.bind_ok, hi, time]
    refine ⟨by congr 1; push_cast; ring, by congr 1; push_cast; ring, by push_cast; ring, by push_cast; ring, ?_, ?_⟩
    · intro hle
      have h0 : 0 ≤ 1000000000 * d.sec + d.sub - (1000000000 * c.sec + c.sub) := by
        have : (0 : Rat) ≤ ((1000000000 * d.sec + d.sub - (1000000000 * c.sec + c.sub) : Int) : Rat) := by push_cast; linarith
        exact_mod_cast this
      obtain ⟨b1, b2⟩ := tdiv_bounds h0 (show (0 : Int) < 1000000 by decide)
      refine ⟨_, rfl, rfl, Int.tdiv_nonneg h0 (by decide), ?_, ?_⟩
      · push_cast at *; linarith
      · push_cast at *; linarith
    · intro hle
      have h0 : 1000000 ≤ -(1000000000 * d.sec + d.sub - (1000000000 * c.sec + c.sub)) := by
        have : (1000000 : Rat) ≤ ((-(1000000000 * d.sec + d.sub - (1000000000 * c.sec + c.sub)) : Int) : Rat) := by push_cast; linarith
        exact_mod_cast this
      refine ⟨_, rfl, ?_⟩
      have e := Int.neg_tdiv (a := 1000000000 * d.sec + d.sub - (1000000000 * c.sec + c.sub)) (b := 1000000)
      rw [Int.tdiv_eq_ediv_of_nonneg (by omega)] at e
      omega
  · obtain ⟨h1, h2, h3, h4⟩ := hc
    have hd' := hd
    obtain ⟨g1, g2, g3, g4⟩ := hd'
    have hi : i64 (1000000 * d.sec + d.sub - (1000000 * c.sec + c.sub)) = .ok (1000000 * d.sec + d.sub - (1000000 * c.sec + c.sub)) :=
      i64_ok (by omega) (by omega)
    simp only [elapsedSec, elapsedMsf, elapsedMs, intervalSec, intervalMsf, intervalMs, timestamp_eq hd, Res.bind_ok, hi, time]
    refine ⟨by congr 1; push_cast; ring, by congr 1; push_cast; ring, by push_cast; ring, by push_cast; ring, ?_, ?_⟩
    · intro hle
      have h0 : 0 ≤ 1000000 * d.sec + d.sub - (1000000 * c.sec + c.sub) := by
        have : (0 : Rat) ≤ ((1000000 * d.sec + d.sub - (1000000 * c.sec + c.sub) : Int) : Rat) := by push_cast; linarith
        exact_mod_cast this
      obtain ⟨b1, b2⟩ := tdiv_bounds h0 (show (0 : Int) < 1000 by decide)
      refine ⟨_, rfl, rfl, Int.tdiv_nonneg h0 (by decide), ?_, ?_⟩
      · push_cast at *; linarith
      · push_cast at *; linarith
    · intro hle
      have h0 : 1000 ≤ -(1000000 * d.sec + d.sub - (1000000 * c.sec + c.sub)) := by
        have : (1000 : Rat) ≤ ((-(1000000 * d.sec + d.sub - (1000000 * c.sec + c.sub)) : Int) : Rat) := by push_cast; linarith
        exact_mod_cast this
      refine ⟨_, rfl, ?_⟩
      have e := Int.neg_tdiv (a := 1000000 * d.sec + d.sub - (1000000 * c.sec + c.sub)) (b := 1000)
      rw [Int.tdiv_eq_ediv_of_nonneg (by omega)] at e
      omega

/-- C156, sleeping (partial): up to 4294967 milliseconds (71 minutes) `usleep` is called with the duration asked for; `thread_wsleep(0)` sleeps less than a millisecond, but
does sleep.  Missing: longer durations, see `C156_sleep_long`. -/
theorem C156_sleep_partial (ms : Nat) (h : ms ≤ 4294967) :
    sleepUs ms = ms * 1000 ∧ (ms ≠ 0 → wsleepUs ms = ms * 1000) ∧ 0 < wsleepUs 0 ∧ wsleepUs 0 < 1000 := by
  refine ⟨?_, ?_, by decide, by decide⟩
  · unfold sleepUs; omega
  · intro h0; unfold wsleepUs; rw [if_pos h0]; omega

/-- C156, violated: every longer duration is cut to less than 72 minutes, and some to nothing. -/
theorem C156_sleep_long (ms : Nat) (h : 4294967 < ms) :
    sleepUs ms < ms * 1000 ∧ wsleepUs ms < ms * 1000 ∧ sleepUs ms < 72 * 60 * 1000000 ∧ sleepUs 536870912 = 0 := by
  refine ⟨?_, ?_, ?_, by decide⟩
  · unfold sleepUs; omega
  · unfold wsleepUs; rw [if_pos (by omega)]; omega
  · unfold sleepUs; omega

theorem busyInner_none (fuel j : Nat) : busyInner fuel j = none := by
  induction fuel generalizing j with
  | zero => rfl
  | succ fuel ih => rw [busyInner, if_pos (Nat.zero_le j)]; exact ih _

/-- C156, violated: on other systems `thread_sleep` returns for 0 milliseconds only, and `thread_wsleep` never returns. -/
theorem C156_sleep_other (fuel ms : Nat) :
    otherSleep fuel 0 = some () ∧ (ms ≠ 0 → otherSleep fuel ms = none) ∧ otherWsleep fuel ms = none := by
  have h : ∀ s k, k ≠ 0 → busyOuter fuel s k = none := by
    intro s k hk
    cases k with
    | zero => exact absurd rfl hk
    | succ k => simp only [busyOuter, busyInner_none]; rfl
  refine ⟨rfl, fun h0 => h _ _ h0, ?_⟩
  unfold otherWsleep
  split
  · rename_i h0; exact h _ _ h0
  · exact h _ _ (by decide)

/-! ### Examples -/

/-- C156: a clock of each system in 2026, and one a second earlier. -/
example : Valid .linux ⟨1795000000, 123456789⟩ ∧ Valid .linux ⟨1794999999, 999999999⟩ ∧
    time .linux ⟨1794999999, 999999999⟩ ≤ time .linux ⟨1795000000, 123456789⟩ ∧
    Valid .unix ⟨1795000000, 123456⟩ ∧ Valid .unix ⟨1794999998, 5⟩ ∧
    time .unix ⟨1794999998, 5⟩ + 1 / 10 ^ 3 ≤ time .unix ⟨1795000000, 123456⟩ := by
  refine ⟨by simp [Valid], by simp [Valid], by norm_num [time], by simp [Valid], by simp [Valid], by norm_num [time]⟩

/-- C156, sleeping: a minute, and a day. -/
example : (60000 : Nat) ≤ 4294967 ∧ 4294967 < 86400000 := by decide

end Verif.SysTime
