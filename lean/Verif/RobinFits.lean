/-
When does a robin hood table have room?  A counting condition on the home positions of the keys, sufficient for every
insertion to find its place inside the block and within reach of the distance byte.
-/
import Verif.RobinPlace

namespace Verif.Robin
open Spec (Distinct)

variable {K V : Type} {E : Env K}

/-- How many elements have their home position between `a` and `b`. -/
def homes (E : Env K) (c a b : Nat) (l : List (K × V)) : Nat :=
  l.countP fun e => decide (a ≤ hm E c e.1 ∧ hm E c e.1 ≤ b)

/-- The elements `l` fit into a block of capacity `c`: those at home at `a` or later fit between `a` and the end of the
slots, and those at home between `a` and `h` fit between `a` and
`h + 126` (one position less than the distance byte can count, so that a search that ends behind them still can). -/
structure Fits (E : Env K) (c : Nat) (l : List (K × V)) : Prop where
  room : ∀ a, a < c → a + homes E c a (c - 1) l ≤ c + lookups c
  near : ∀ a h, a ≤ h → h < c → a + homes E c a h l ≤ h + 127

theorem homes_perm {c a b : Nat} {l l' : List (K × V)} (h : l.Perm l') : homes E c a b l = homes E c a b l' :=
  h.countP_eq _

theorem Fits.perm {c : Nat} {l l' : List (K × V)} (h : l.Perm l') (hf : Fits E c l) : Fits E c l' :=
  ⟨fun a ha => by rw [← homes_perm h]; exact hf.room a ha, fun a x h1 h2 => by rw [← homes_perm h]; exact hf.near a x h1 h2⟩

theorem Fits.sublist {c : Nat} {l l' : List (K × V)} (h : l'.Sublist l) (hf : Fits E c l) : Fits E c l' := by
  have hle : ∀ a b, homes E c a b l' ≤ homes E c a b l := fun a b => h.countP_le
  exact ⟨fun a ha => by have := hf.room a ha; have := hle a (c - 1); omega,
    fun a x h1 h2 => by have := hf.near a x h1 h2; have := hle a x; omega⟩

/-- The key cannot be placed. -/
def Stuck (t : Map K V) (h0 : Nat) : Prop :=
  Crowded t h0 ∨ ∃ i d, Stop t h0 i d ∧ (t.slen ≤ i ∨ i < t.slen ∧ (NoRoom t i ∨ Wraps t i))

/-! ### Counting cells -/

theorem countP_range_ge (Q : Nat → Bool) (a b : Nat) : ∀ n, (∀ p, a ≤ p → p < b → p < n → Q p = true) →
    min n b - a ≤ (List.range n).countP Q := by
  intro n
  induction n with
  | zero => intro _; omega
  | succ n ih =>
    intro h
    rw [List.range_succ, List.countP_append]
    have h1 := ih (fun p h1 h2 h3 => h p h1 h2 (by omega))
    by_cases hn : a ≤ n ∧ n < b
    · have : List.countP Q [n] = 1 := by simp [h n hn.1 hn.2 (by omega)]
      omega
    · omega

theorem countP_filterMap_range (f : Nat → Option (K × V)) (P : K × V → Bool) (n : Nat) :
    ((List.range n).filterMap f).countP P = (List.range n).countP fun p => match f p with | some e => P e | none => false := by
  induction n with
  | zero => rfl
  | succ n ih =>
    rw [List.range_succ, List.filterMap_append, List.countP_append, List.countP_append, ih]
    congr 1
    cases hf : f n with
    | none => simp [hf]
    | some e => simp [hf, List.countP_cons]

/-- Occupied cells from `a` to `q`, all at home between `x` and `y`. -/
theorem homes_ge {t : Map K V} {c a q x y : Nat} (hq : q < t.slen)
    (h : ∀ p, a ≤ p → p ≤ q → ∃ e, t.slot p = some e ∧ x ≤ hm E c e.1 ∧ hm E c e.1 ≤ y) :
    q + 1 - a ≤ homes E c x y (entries t) := by
  unfold homes entries
  rw [countP_filterMap_range]
  have := countP_range_ge (fun p => match t.slot p with
    | some e => decide (x ≤ hm E c e.1 ∧ hm E c e.1 ≤ y) | none => false) a (q + 1) t.slen (by
      intro p h1 h2 _
      obtain ⟨e, e1, e2, e3⟩ := h p h1 (by omega)
      simp only [e1, e2, e3, and_self, decide_true])
  omega

theorem homes_cons {c x y : Nat} {e : K × V} {l : List (K × V)} (h1 : x ≤ hm E c e.1) (h2 : hm E c e.1 ≤ y) :
    homes E c x y (e :: l) = homes E c x y l + 1 := by
  unfold homes
  rw [List.countP_cons_of_pos]
  simp [h1, h2]

/-! ### Runs of occupied cells -/

/-- The home position of the element in cell `p`. -/
def cellHome (t : Map K V) (p : Nat) : Int := (p : Int) - (t.ctrl p).dist

theorem Good.cellHome {t : Map K V} {c p : Nat} (h : Good E t c) (hp : p < t.slen) (hd : 0 ≤ (t.ctrl p).dist) :
    ∃ e, t.slot p = some e ∧ Robin.cellHome t p = hm E c e.1 := by
  obtain ⟨e, h1, h2, _, h4⟩ := h.used hp hd
  refine ⟨e, h1, ?_⟩
  unfold Robin.cellHome
  rw [h4]; simp only; omega

theorem Good.home_mono {t : Map K V} {c x : Nat} (h : Good E t c) : ∀ n, x + n < t.slen →
    (∀ p, x ≤ p → p ≤ x + n → 0 ≤ (t.ctrl p).dist) → Robin.cellHome t x ≤ Robin.cellHome t (x + n) := by
  intro n
  induction n with
  | zero => intro _ _; exact Int.le_refl _
  | succ n ih =>
    intro hn hu
    have h1 := ih (by omega) (fun p a b => hu p a (by omega))
    have h2 : Robin.cellHome t (x + n) ≤ Robin.cellHome t (x + n + 1) := by
      unfold Robin.cellHome
      have h3 := hu (x + n + 1) (by omega) (by omega)
      have h4 := hu (x + n) (by omega) (by omega)
      by_cases hz : 0 < (t.ctrl (x + n + 1)).dist
      · have := h.order (x + n) (by omega) hz
        omega
      · omega
    exact Int.le_trans h1 h2

theorem Good.run_start {t : Map K V} {c : Nat} (h : Good E t c) : ∀ p, p < t.slen → 0 ≤ (t.ctrl p).dist →
    ∃ a, a ≤ p ∧ Robin.cellHome t a = a ∧ ∀ x, a ≤ x → x ≤ p → 0 ≤ (t.ctrl x).dist := by
  intro p
  induction p with
  | zero =>
    intro hp hd
    obtain ⟨e, _, h2, _, h4⟩ := h.used hp hd
    refine ⟨0, Nat.le_refl _, ?_, ?_⟩
    · unfold Robin.cellHome; rw [h4]; simp only; omega
    · intro x _ hx
      have : x = 0 := by omega
      subst this; exact hd
  | succ p ih =>
    intro hp hd
    by_cases hz : (t.ctrl (p + 1)).dist = 0
    · refine ⟨p + 1, Nat.le_refl _, ?_, ?_⟩
      · unfold Robin.cellHome; omega
      · intro x h1 h2
        have : x = p + 1 := by omega
        subst this; exact hd
    · have := h.order p hp (by omega)
      obtain ⟨a, ha, h1, h2⟩ := ih (by omega) (by omega)
      refine ⟨a, by omega, h1, ?_⟩
      intro x hx1 hx2
      by_cases hx : x = p + 1
      · subst hx; exact hd
      · exact h2 x hx1 (by omega)

/-- Occupied cells from `h0` to `q`: they belong to a run that starts at some `a ≤ h0`, and everything in it is at home between
`a` and the home of the last one. -/
theorem Good.block {t : Map K V} {c h0 q : Nat} (h : Good E t c) (hq : q < t.slen) (hle : h0 ≤ q)
    (hu : ∀ p, h0 ≤ p → p ≤ q → 0 ≤ (t.ctrl p).dist) : ∃ a, a ≤ h0 ∧ ∀ p, a ≤ p → p ≤ q →
      ∃ e, t.slot p = some e ∧ a ≤ hm E c e.1 ∧ (hm E c e.1 : Int) ≤ Robin.cellHome t q := by
  obtain ⟨a, ha, h1, h2⟩ := h.run_start h0 (by omega) (hu h0 (Nat.le_refl _) hle)
  refine ⟨a, ha, ?_⟩
  have hall : ∀ p, a ≤ p → p ≤ q → 0 ≤ (t.ctrl p).dist := by
    intro p hp1 hp2
    by_cases hp : p ≤ h0
    · exact h2 p hp1 hp
    · exact hu p (by omega) hp2
  intro p hp1 hp2
  obtain ⟨e, he, hc⟩ := h.cellHome (p := p) (by omega) (hall p hp1 hp2)
  have m1 := h.home_mono (x := a) (p - a) (by omega) (fun x hx1 hx2 => hall x hx1 (by omega))
  have m2 := h.home_mono (x := p) (q - p) (by omega) (fun x hx1 hx2 => hall x (by omega) (by omega))
  rw [Nat.add_sub_cancel' hp1] at m1
  rw [Nat.add_sub_cancel' hp2] at m2
  exact ⟨e, he, by omega, by omega⟩

/-- A key whose addition leaves the counting condition true can be placed. -/
theorem Fits.not_stuck {t : Map K V} {c : Nat} {k : K} {v : V} (h : Good E t c) (hf : Fits E c ((k, v) :: entries t)) :
    ¬ Stuck t (hm E c k) := by
  have hkc := h.toShape.hm_lt (E := E) k
  have hsl := h.toShape.slen
  have hcs := h.toShape.c_le_slen
  have hclen := h.toShape.clen_ge
  -- the last slot is full
  have hfull : (∀ p, hm E c k ≤ p → p < t.slen → 0 ≤ (t.ctrl p).dist) → False := by
    intro hu
    obtain ⟨a, ha, hb⟩ := h.block (h0 := hm E c k) (q := t.slen - 1) (by omega) (by omega) (fun p h1 h2 => hu p h1 (by omega))
    have h1 := homes_ge (t := t) (E := E) (c := c) (a := a) (q := t.slen - 1) (x := a) (y := c - 1) (by omega) (by
      intro p hp1 hp2
      obtain ⟨e, e1, e2, _⟩ := hb p hp1 hp2
      have := h.toShape.hm_lt (E := E) e.1
      exact ⟨e, e1, e2, by omega⟩)
    have h2 := hf.room a (by omega)
    rw [homes_cons (e := (k, v)) ha (by simp only; omega)] at h2
    omega
  -- a cell at distance 127
  have hfar : ∀ q, q < t.slen → hm E c k ≤ q → (∀ p, hm E c k ≤ p → p ≤ q → 0 ≤ (t.ctrl p).dist) → (t.ctrl q).dist = 127 →
      (hm E c k : Int) ≤ cellHome t q → False := by
    intro q hq hkq hu hd hle
    obtain ⟨a, ha, hb⟩ := h.block (h0 := hm E c k) hq hkq hu
    obtain ⟨eq, _, hceq⟩ := h.cellHome hq (by omega)
    have hlt := h.toShape.hm_lt (E := E) eq.1
    have hcq : cellHome t q = (q : Int) - 127 := by unfold cellHome; rw [hd]
    have h1 := homes_ge (t := t) (E := E) (c := c) (a := a) (q := q) (x := a) (y := q - 127) hq (by
      intro p hp1 hp2
      obtain ⟨e, e1, e2, e3⟩ := hb p hp1 hp2
      exact ⟨e, e1, e2, by omega⟩)
    have h2 := hf.near a (q - 127) (by omega) (by omega)
    rw [homes_cons (e := (k, v)) ha (by simp only; omega)] at h2
    omega
  rintro (hc | ⟨i, d, hs, hi⟩)
  · have h127 := hc 127 (Nat.le_refl _)
    have hdl := h.dist_le (p := hm E c k + 127) (by omega)
    apply hfar (hm E c k + 127) h127.1 (by omega)
    · intro p hp1 hp2
      have := (hc (p - hm E c k) (by omega)).2
      rw [Nat.add_sub_cancel' hp1] at this
      omega
    · have := h127.2; omega
    · unfold cellHome; have := h127.2; omega
  · have hge := hs.ge
    have hbef : ∀ p, hm E c k ≤ p → p < i → 0 ≤ (t.ctrl p).dist := by
      intro p hp1 hp2
      have := hs.before (p - hm E c k) (by omega)
      rw [Nat.add_sub_cancel' hp1] at this
      omega
    rcases hi with hi | ⟨hi, hn | ⟨q, hq1, hq2, hq3, hq4⟩⟩
    · exact hfull fun p h1 h2 => hbef p h1 (by omega)
    · apply hfull
      intro p h1 h2
      by_cases hp : p < i
      · exact hbef p h1 hp
      · exact hn p (by omega) h2
    · apply hfar q hq2 (by omega)
      · intro p hp1 hp2
        by_cases hp : p < i
        · exact hbef p hp1 hp
        · exact hq4 p (by omega) hp2
      · exact hq3
      · have hl := hs.less
        rw [hs.d_eq] at hl
        simp only at hl
        have m := h.home_mono (x := i) (q - i) (by omega) (fun x hx1 hx2 => hq4 x hx1 (by omega))
        rw [Nat.add_sub_cancel' hq1] at m
        have : (hm E c k : Int) ≤ cellHome t i := by unfold cellHome; omega
        omega

/-- A search in a map that satisfies the counting condition ends before the distance byte overflows. -/
theorem Fits.not_crowded {t : Map K V} {c : Nat} (h : Good E t c) (hf : Fits E c (entries t)) {h0 : Nat} (hc0 : h0 < c) :
    ¬ Crowded t h0 := by
  intro hc
  have hclen := h.toShape.clen_ge
  have h127 := hc 127 (Nat.le_refl _)
  have hdl := h.dist_le (p := h0 + 127) (by omega)
  have hd : (t.ctrl (h0 + 127)).dist = 127 := by have := h127.2; omega
  obtain ⟨a, ha, hb⟩ := h.block (h0 := h0) h127.1 (by omega) (by
    intro p hp1 hp2
    have := (hc (p - h0) (by omega)).2
    rw [Nat.add_sub_cancel' hp1] at this
    omega)
  have hcq : cellHome t (h0 + 127) = h0 := by unfold cellHome; rw [hd]; omega
  have h1 := homes_ge (t := t) (E := E) (c := c) (a := a) (q := h0 + 127) (x := a) (y := h0) h127.1 (by
    intro p hp1 hp2
    obtain ⟨e, e1, e2, e3⟩ := hb p hp1 hp2
    exact ⟨e, e1, e2, by omega⟩)
  have h2 := hf.near a h0 ha hc0
  omega

end Verif.Robin
