/-
The stop watch of the benchmarks (C150).

SW = src/jstd/test/StopWatch.h

A time is the number of ticks of its clock; clocks do not go backwards.  Seconds are rational numbers: the rounding of `double` is not modelled, nor are overflows
(of 63 bits: after 292 years of nanoseconds).  `StopWatchExBase` cannot be used: `getDurationTime` (SW:358-361) does not compile, and `stop`, `pause`, `again` and the
reading functions call it.
-/
import Mathlib.Data.Rat.Floor
import Mathlib.Tactic.Linarith
import Mathlib.Tactic.FieldSimp
import Mathlib.Tactic.Ring
import Mathlib.Tactic.NormNum

namespace Verif.Watch

/-- The clocks (on Linux): `std::chrono` with nanoseconds (SW:533-564), `clock()` with `CLOCKS_PER_SEC` = 10^6 (SW:461-490), and `gettimeofday` (SW:495-529). -/
inductive Clock | chrono | cpu | tod
  deriving DecidableEq

/-- How many ticks a second has; the definition of the clock, not of the code. -/
def Clock.perSec : Clock → Nat
  | .chrono => 10 ^ 9
  | .cpu => 10 ^ 6
  | .tod => 10 ^ 6

/-- `gettimeofday`: seconds and microseconds (SW:516-520). -/
def timeval (t : Nat) : Nat × Nat := (t / 10 ^ 6, t % 10 ^ 6)

/-- `to_timestamp_us` (SW:508-510). -/
def toUs (v : Nat × Nat) : Int := v.1 * 10 ^ 6 + v.2

/-- `duration_time(now, old)` of time points: SW:554-557 (`duration_cast` to seconds), SW:474-476 and 483-485, SW:512-514 and 522-524. -/
def durationTime : Clock → Nat → Nat → ℚ
  | .chrono, now, old => (((now : Int) - old : Int) : ℚ) / 10 ^ 9
  | .cpu, now, old => (((now : Int) - old : Int) : ℚ) / 10 ^ 6
  | .tod, now, old => ((toUs (timeval now) - toUs (timeval old) : Int) : ℚ)

/-- `start_time_` and `stop_time_` (SW:119-120). -/
structure SW where
  start : Nat
  stop : Nat

/-- What can be done to a `StopWatchBase`; `read` stands for the functions that only read. -/
inductive Op | start | stop | restart | reset | read
  deriving DecidableEq

/-- One operation at the time `now`: SW:143-146 (`start` leaves `stop_time_`), 148-151, 137-141, 133-135. -/
def step (s : SW) (now : Nat) : Op → SW
  | .start => { s with start := now }
  | .stop => { s with stop := now }
  | .restart => ⟨now, now⟩
  | .reset => ⟨now, now⟩
  | .read => s

/-- A history: before every operation some ticks pass. -/
def run : Nat → SW → List (Nat × Op) → Nat × SW
  | now, s, [] => (now, s)
  | now, s, (gap, op) :: h => run (now + gap) (step s (now + gap) op) h

/-- A watch constructed at the time `t` (SW:125-127), and its history. -/
def watch (t : Nat) (h : List (Nat × Op)) : Nat × SW := run t ⟨t, t⟩ h

/-- `getElapsedTime`, `getElapsedSecond` (SW:199-203, 217-219). -/
def elapsed (c : Clock) (s : SW) : ℚ := durationTime c s.stop s.start

/-- `getElapsedNanosec` (SW:205-207). -/
def elapsedNano (c : Clock) (s : SW) : ℚ := elapsed c s * 10 ^ 9

/-- `getElapsedMicrosec` (SW:209-211). -/
def elapsedMicro (c : Clock) (s : SW) : ℚ := elapsed c s * 10 ^ 6

/-- `getElapsedMillisec` (SW:213-215). -/
def elapsedMilli (c : Clock) (s : SW) : ℚ := elapsed c s * 1000

/-- `peekElapsedTime` at the time `now` (SW:173-177). -/
def peek (c : Clock) (s : SW) (now : Nat) : ℚ := durationTime c now s.start

/-- `timestamp()` of the `std::chrono` watch (SW:160-165, 559-563): `duration_cast` to a whole number of seconds since the program has started. -/
def timestamp (now base : Nat) : Nat := (now - base) / 10 ^ 9

/-- `duration(now, old).seconds()` of two such timestamps (SW:167-171, 550-552, 89-91). -/
def durationStamp (now old : Nat) : ℚ := ((now - old : Nat) : ℚ)

/-! ### Lemmas -/

/-- The ticks that pass in a history. -/
def ticks (h : List (Nat × Op)) : Nat := (h.map Prod.fst).sum

theorem run_append (h1 h2 : List (Nat × Op)) : ∀ now s, run now s (h1 ++ h2) = run (run now s h1).1 (run now s h1).2 h2 := by
  induction h1 with
  | nil => intro now s; rfl
  | cons x h1 ih => intro now s; exact ih _ _

theorem run_now (h : List (Nat × Op)) : ∀ now s, (run now s h).1 = now + ticks h := by
  induction h with
  | nil => intro now s; rfl
  | cons x h ih =>
    intro now s
    show (run (now + x.1) _ h).1 = _
    rw [ih]
    simp only [ticks, List.map_cons, List.sum_cons]
    omega

/-- Operations that set the start. -/
def Op.starts (o : Op) : Prop := o = .start ∨ o = .restart ∨ o = .reset

/-- Operations that set the stop. -/
def Op.stops (o : Op) : Prop := o = .stop ∨ o = .restart ∨ o = .reset

theorem step_start {s : SW} {now : Nat} {o : Op} (h : o.starts) : (step s now o).start = now := by
  rcases h with rfl | rfl | rfl <;> rfl

theorem step_stop {s : SW} {now : Nat} {o : Op} (h : o.stops) : (step s now o).stop = now := by
  rcases h with rfl | rfl | rfl <;> rfl

theorem run_start (h : List (Nat × Op)) : ∀ now s, (∀ x ∈ h, ¬ x.2.starts) → (run now s h).2.start = s.start := by
  induction h with
  | nil => intro now s _; rfl
  | cons x h ih =>
    intro now s hn
    show (run (now + x.1) (step s (now + x.1) x.2) h).2.start = _
    rw [ih _ _ (fun y hy => hn y (List.mem_cons_of_mem _ hy))]
    have hx := hn x (List.mem_cons_self ..)
    cases ho : x.2 <;> rw [ho] at hx <;> first | rfl | exact absurd (by simp [Op.starts]) hx

theorem run_stop (h : List (Nat × Op)) : ∀ now s, (∀ x ∈ h, ¬ x.2.stops) → (run now s h).2.stop = s.stop := by
  induction h with
  | nil => intro now s _; rfl
  | cons x h ih =>
    intro now s hn
    show (run (now + x.1) (step s (now + x.1) x.2) h).2.stop = _
    rw [ih _ _ (fun y hy => hn y (List.mem_cons_of_mem _ hy))]
    have hx := hn x (List.mem_cons_self ..)
    cases ho : x.2 <;> rw [ho] at hx <;> first | rfl | exact absurd (by simp [Op.stops]) hx

/-- The start time after a history whose last starting operation is known. -/
theorem start_at (t : Nat) (pre post : List (Nat × Op)) (g : Nat) {o : Op} (ho : o.starts) (hp : ∀ x ∈ post, ¬ x.2.starts) :
    (watch t (pre ++ (g, o) :: post)).2.start = t + ticks pre + g := by
  unfold watch
  rw [run_append]
  show (run (_ + g) (step _ (_ + g) o) post).2.start = _
  rw [run_start _ _ _ hp, step_start ho, run_now]

theorem stop_at (t : Nat) (pre post : List (Nat × Op)) (g : Nat) {o : Op} (ho : o.stops) (hp : ∀ x ∈ post, ¬ x.2.stops) :
    (watch t (pre ++ (g, o) :: post)).2.stop = t + ticks pre + g := by
  unfold watch
  rw [run_append]
  show (run (_ + g) (step _ (_ + g) o) post).2.stop = _
  rw [run_stop _ _ _ hp, step_stop ho, run_now]

theorem ticks_append (h1 h2 : List (Nat × Op)) : ticks (h1 ++ h2) = ticks h1 + ticks h2 := by
  simp [ticks]

theorem ticks_cons (g : Nat) (o : Op) (h : List (Nat × Op)) : ticks ((g, o) :: h) = g + ticks h := by
  simp [ticks]

theorem toUs_timeval (t : Nat) : toUs (timeval t) = t := by
  unfold toUs timeval
  simp only
  omega

/-- With `std::chrono` and `clock()`, durations are seconds. -/
theorem duration_seconds {c : Clock} (hc : c ≠ .tod) (now old : Nat) : durationTime c now old = ((now : ℚ) - old) / c.perSec := by
  cases c with
  | chrono => norm_num [durationTime, Clock.perSec]
  | cpu => norm_num [durationTime, Clock.perSec]
  | tod => exact absurd rfl hc

/-! ### C150 -/

/-- C150 (partial): after a start (or restart, reset) and later a stop, the elapsed time is the time between the last start and the last stop, in all units.
Missing: watches that are read without a stop, `C150_start_negative`, and `gettimeofday`, `C150_tod_unit`. -/
theorem C150_elapsed_partial {c : Clock} (hc : c ≠ .tod) (t : Nat) (pre mid post : List (Nat × Op)) (g g' : Nat) {o : Op} (ho : o.starts)
    (hm : ∀ x ∈ mid, ¬ x.2.starts) (hp : ∀ x ∈ post, ¬ x.2.starts ∧ ¬ x.2.stops) :
    let s := (watch t (pre ++ (g, o) :: (mid ++ (g', .stop) :: post))).2
    elapsed c s = ((ticks mid + g' : Nat) : ℚ) / c.perSec ∧ elapsedMilli c s = ((ticks mid + g' : Nat) : ℚ) / c.perSec * 10 ^ 3 ∧
    elapsedMicro c s = ((ticks mid + g' : Nat) : ℚ) / c.perSec * 10 ^ 6 ∧ elapsedNano c s = ((ticks mid + g' : Nat) : ℚ) / c.perSec * 10 ^ 9 := by
  intro s
  have h1 : s.start = t + ticks pre + g := by
    apply start_at t pre _ g ho
    intro x hx
    rcases List.mem_append.mp hx with hx | hx
    · exact hm x hx
    · rcases List.mem_cons.mp hx with rfl | hx
      · simp [Op.starts]
      · exact (hp x hx).1
  have h2 : s.stop = t + ticks (pre ++ (g, o) :: mid) + g' := by
    have := stop_at t (pre ++ (g, o) :: mid) post g' (o := .stop) (Or.inl rfl) (fun x hx => (hp x hx).2)
    rw [← this]
    show (watch t (pre ++ (g, o) :: (mid ++ (g', .stop) :: post))).2.stop = _
    simp
  have h3 : elapsed c s = ((ticks mid + g' : Nat) : ℚ) / c.perSec := by
    unfold elapsed
    rw [duration_seconds hc, h1, h2, ticks_append, ticks_cons]
    push_cast
    congr 1
    ring
  refine ⟨h3, ?_, ?_, ?_⟩
  · unfold elapsedMilli; rw [h3]; norm_num
  · unfold elapsedMicro; rw [h3]
  · unfold elapsedNano; rw [h3]

/-- C150, violated: a watch that has been started but not stopped shows a negative time, namely the one between the last stop (or restart, reset, construction) and the start;
`start` does not set `stop_time_`. -/
theorem C150_start_negative {c : Clock} (hc : c ≠ .tod) (t : Nat) (pre mid post : List (Nat × Op)) (g g' : Nat) {o : Op} (ho : o.stops)
    (hm : ∀ x ∈ mid, ¬ x.2.stops) (hp : ∀ x ∈ post, ¬ x.2.starts ∧ ¬ x.2.stops) :
    elapsed c (watch t (pre ++ (g, o) :: (mid ++ (g', .start) :: post))).2 = - (((ticks mid + g' : Nat) : ℚ) / c.perSec) ∧
    elapsed c (watch t (mid ++ (g', .start) :: post)).2 = - (((ticks mid + g' : Nat) : ℚ) / c.perSec) := by
  have hall : ∀ x ∈ mid ++ (g', Op.start) :: post, ¬ x.2.stops := by
    intro x hx
    rcases List.mem_append.mp hx with hx | hx
    · exact hm x hx
    · rcases List.mem_cons.mp hx with rfl | hx
      · simp [Op.stops]
      · exact (hp x hx).2
  have h2 : (watch t (pre ++ (g, o) :: (mid ++ (g', .start) :: post))).2.stop = t + ticks pre + g := by
    exact stop_at t pre _ g ho hall
  have h1 : (watch t (pre ++ (g, o) :: (mid ++ (g', .start) :: post))).2.start = t + ticks (pre ++ (g, o) :: mid) + g' := by
    have := start_at t (pre ++ (g, o) :: mid) post g' (o := .start) (Or.inl rfl) (fun x hx => (hp x hx).1)
    rw [← this]
    simp
  have h3 : (watch t (mid ++ (g', .start) :: post)).2.stop = t := run_stop _ _ _ hall
  have h4 : (watch t (mid ++ (g', .start) :: post)).2.start = t + ticks mid + g' :=
    start_at t mid post g' (o := .start) (Or.inl rfl) (fun x hx => (hp x hx).1)
  unfold elapsed
  refine ⟨?_, ?_⟩
  · rw [duration_seconds hc, h1, h2, ticks_append, ticks_cons, ← neg_div]
    push_cast
    congr 1
    ring
  · rw [duration_seconds hc, h3, h4, ← neg_div]
    push_cast
    congr 1
    ring

/-- C150: the running time is the time since the last start, and nothing else resets it; a watch that has only been restarted shows 0. -/
theorem C150_peek {c : Clock} (hc : c ≠ .tod) (t : Nat) (pre post : List (Nat × Op)) (g g' : Nat) {o : Op} (ho : o.starts) (hp : ∀ x ∈ post, ¬ x.2.starts) :
    let w := watch t (pre ++ (g, o) :: post)
    peek c w.2 (w.1 + g') = ((ticks post + g' : Nat) : ℚ) / c.perSec ∧
    (o ≠ .start → (∀ x ∈ post, ¬ x.2.stops) → elapsed c w.2 = 0) := by
  intro w
  have h1 : w.2.start = t + ticks pre + g := start_at t pre post g ho hp
  have h0 : w.1 = t + ticks (pre ++ (g, o) :: post) := run_now _ _ _
  refine ⟨?_, ?_⟩
  · unfold peek
    rw [duration_seconds hc, h1, h0, ticks_append, ticks_cons]
    push_cast
    congr 1
    ring
  · intro hs hq
    have hst : o.stops := by
      rcases ho with rfl | h
      · exact absurd rfl hs
      · exact Or.inr h
    have h2 : w.2.stop = t + ticks pre + g := stop_at t pre post g hst hq
    unfold elapsed
    rw [duration_seconds hc, h1, h2, sub_self, zero_div]

/-- C150, violated: with `gettimeofday`, what is called seconds are microseconds, whatever the two times are; the other units are a million times too large, too. -/
theorem C150_tod_unit (s : SW) :
    elapsed .tod s = ((s.stop : ℚ) - s.start) / Clock.tod.perSec * 10 ^ 6 ∧
    elapsedMilli .tod s = ((s.stop : ℚ) - s.start) / Clock.tod.perSec * 10 ^ 9 := by
  have h : elapsed .tod s = (s.stop : ℚ) - s.start := by
    unfold elapsed
    simp only [durationTime, toUs_timeval]
    push_cast
    ring
  refine ⟨?_, ?_⟩
  · rw [h]; norm_num [Clock.perSec]
  · unfold elapsedMilli
    rw [h]
    simp only [Clock.perSec]
    norm_num
    ring

/-- C150 (partial): the difference of two timestamps of the `std::chrono` watch misses the true time by less than a second.  Missing: the fractions, see `C150_stamp_coarse`. -/
theorem C150_stamp_partial {base old now : Nat} (h1 : base ≤ old) (h2 : old ≤ now) :
    |durationStamp (timestamp now base) (timestamp old base) - durationTime .chrono now old| < 1 := by
  have hle : (old - base) / 10 ^ 9 ≤ (now - base) / 10 ^ 9 := Nat.div_le_div_right (by omega)
  have ha := Nat.div_add_mod (now - base) (10 ^ 9)
  have hb := Nat.div_add_mod (old - base) (10 ^ 9)
  have ma := Nat.mod_lt (now - base) (show 0 < 10 ^ 9 by decide)
  have mb := Nat.mod_lt (old - base) (show 0 < 10 ^ 9 by decide)
  rw [duration_seconds (by decide)]
  unfold durationStamp timestamp
  rw [Nat.cast_sub hle]
  generalize (now - base) / 10 ^ 9 = p at *
  generalize (old - base) / 10 ^ 9 = q at *
  generalize (now - base) % 10 ^ 9 = x at *
  generalize (old - base) % 10 ^ 9 = y at *
  have hn : (now : ℚ) = base + (10 ^ 9 * p + x) := by
    have : now = base + (10 ^ 9 * p + x) := by omega
    rw [this]; push_cast; ring
  have ho : (old : ℚ) = base + (10 ^ 9 * q + y) := by
    have : old = base + (10 ^ 9 * q + y) := by omega
    rw [this]; push_cast; ring
  have hx : (x : ℚ) < 10 ^ 9 := by exact_mod_cast ma
  have hy : (y : ℚ) < 10 ^ 9 := by exact_mod_cast mb
  have hx0 : (0 : ℚ) ≤ x := Nat.cast_nonneg x
  have hy0 : (0 : ℚ) ≤ y := Nat.cast_nonneg y
  rw [hn, ho]
  have he : (p : ℚ) - q - ((base + (10 ^ 9 * p + x)) - (base + (10 ^ 9 * q + y))) / (Clock.chrono.perSec : ℚ) = (y - x) / 10 ^ 9 := by
    simp only [Clock.perSec]
    push_cast
    field_simp
    ring
  rw [he, abs_lt]
  constructor
  · rw [lt_div_iff₀ (by norm_num)]; linarith
  · rw [div_lt_iff₀ (by norm_num)]; linarith

/-- C150, violated: timestamps cannot tell times of the same second apart, so that any shorter time may be shown as 0. -/
theorem C150_stamp_coarse (base d : Nat) (hd : d < 10 ^ 9) :
    durationStamp (timestamp (base + d) base) (timestamp base base) = 0 ∧ durationTime .chrono (base + d) base = (d : ℚ) / 10 ^ 9 := by
  refine ⟨?_, ?_⟩
  · unfold durationStamp timestamp
    rw [Nat.add_sub_cancel_left, Nat.div_eq_of_lt hd, Nat.sub_self, Nat.zero_div, Nat.sub_zero]
    rfl
  · rw [duration_seconds (by decide)]
    norm_num [Clock.perSec]

/-! ### Examples -/

/-- start, 5 s, stop. -/
example : elapsed .chrono (watch 7 [(1, .start), (5 * 10 ^ 9, .stop), (3, .read)]).2 = 5 := by
  norm_num [watch, run, step, elapsed, durationTime]

/-- Started again after 2 s and read: minus 2 s. -/
example : elapsed .chrono (watch 7 [(1, .start), (5 * 10 ^ 9, .stop), (2 * 10 ^ 9, .start), (10 ^ 9, .read)]).2 = -2 := by
  norm_num [watch, run, step, elapsed, durationTime]

example : Op.starts .reset ∧ Op.stops .reset ∧ ¬ Op.starts .stop ∧ ¬ Op.stops .start ∧ ¬ Op.starts .read ∧ ¬ Op.stops .read := by
  simp [Op.starts, Op.stops]

example : elapsed .tod ⟨3, 2000003⟩ = 2000000 ∧ elapsed .cpu ⟨3, 2000003⟩ = 2 := by
  constructor <;> norm_num [elapsed, durationTime, toUs, timeval]

end Verif.Watch
