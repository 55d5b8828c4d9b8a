/-
Robin hood displacement on the model of `robin16_hash_map`: how far an element can be from its home, and what `insert_to_place` does to
the table.
-/
import Verif.Rob16Inv
import Mathlib.Data.List.Nodup
import Mathlib.Data.List.Perm.Subperm
import Mathlib.Data.Nat.ModEq

namespace Verif.Rob16
open Spec (Distinct)

variable {K V : Type} {E : Env K} {sec : Nat → Nat}

/-! ### Crowding -/

/-- The home position of `x` in a table of `c` slots is one of the `n + 1` from `a` on, around the table. -/
def inWindow (c a n x : Nat) : Bool := decide ((x % c + c - a) % c ≤ n)

/-- The elements are spread over the home positions: no stretch of `n + 1` positions is the home of more than `n + B` of them. -/
def Spread (E : Env K) (B c : Nat) (l : List (K × V)) : Prop :=
  ∀ a n, a < c → n < c → l.countP (fun e => inWindow c a n (E.h e.1)) ≤ n + B

theorem Spread.perm {B c : Nat} {l l' : List (K × V)} (h : Spread E B c l) (hp : l'.Perm l) : Spread E B c l' := by
  intro a n h1 h2
  rw [hp.countP_eq]; exact h a n h1 h2

theorem Spread.sub {B c : Nat} {l l' : List (K × V)} (h : Spread E B c l) (hp : l'.Subperm l) : Spread E B c l' :=
  fun a n h1 h2 => Nat.le_trans (hp.countP_le _) (h a n h1 h2)

/-- Few elements are always spread. -/
theorem spread_of_length {B c : Nat} {l : List (K × V)} (h : l.length ≤ B) : Spread E B c l :=
  fun _ n _ _ => Nat.le_trans List.countP_le_length (by omega)

theorem Spread.mono {B B' c : Nat} {l : List (K × V)} (h : Spread E B c l) (hB : B ≤ B') : Spread E B' c l :=
  fun a n h1 h2 => Nat.le_trans (h a n h1 h2) (by omega)

theorem sub_mod_of {c a y : Nat} (ha : a < c) (hy : y < c) : ((a + y) % c + c - a) % c = y := by
  rw [Flat.add_mod_of_lt ha hy]
  split
  · rw [show a + y + c - a = y + c by omega, Nat.add_mod_right, Nat.mod_eq_of_lt hy]
  · rw [show a + y - c + c - a = y by omega, Nat.mod_eq_of_lt hy]

/-- Doubling the table keeps the elements spread. -/
theorem Spread.double {B c : Nat} {l : List (K × V)} (hc : 0 < c) (h : Spread E B c l) : Spread E B (2 * c) l := by
  intro a n h1 h2
  by_cases hn : n < c
  · refine Nat.le_trans (List.countP_mono_left ?_) (h (a % c) n (Nat.mod_lt _ hc) hn)
    intro e _ he
    unfold inWindow at he ⊢
    simp only [decide_eq_true_eq] at he ⊢
    generalize E.h e.1 = x at he ⊢
    -- x ≡ a + y mod 2c
    have hx : x % (2 * c) < 2 * c := Nat.mod_lt _ (by omega)
    have hxc : x % c = x % (2 * c) % c := (Nat.mod_mul_left_mod _ _ _).symm
    generalize x % (2 * c) = z at he hx hxc
    rw [hxc]
    have key : ∃ y, y ≤ n ∧ (z = a + y ∨ z + 2 * c = a + y) := by
      by_cases hza : a ≤ z
      · refine ⟨z - a, ?_, by omega⟩
        rw [show z + 2 * c - a = z - a + 2 * c by omega, Nat.add_mod_right, Nat.mod_eq_of_lt (by omega)] at he
        exact he
      · refine ⟨z + 2 * c - a, ?_, by omega⟩
        rw [Nat.mod_eq_of_lt (by omega)] at he
        exact he
    obtain ⟨y, hy, hz⟩ := key
    have hzc : z % c = (a % c + y) % c := by
      rw [Nat.mod_add_mod]
      rcases hz with hz | hz
      · rw [hz]
      · rw [← hz, show z + 2 * c = z + c * 2 by omega, Nat.add_mul_mod_self_left]
    rw [hzc, sub_mod_of (Nat.mod_lt _ hc) (by omega)]
    exact hy
  · refine Nat.le_trans (List.countP_le_length) ?_
    have h3 := h 0 (c - 1) hc (by omega)
    have h4 : l.countP (fun e => inWindow c 0 (c - 1) (E.h e.1)) = l.length := by
      rw [List.countP_eq_length]
      intro e _
      unfold inWindow
      have := Nat.mod_lt (E.h e.1 % c + c - 0) hc
      simp only [decide_eq_true_eq]
      omega
    omega

/-- Counting along a run of slots: `f y` is the element at offset `y` of a run that starts at its home position `a`, `d y` how far it is
from home. -/
theorem spread_lt {B c a w : Nat} {l : List (K × V)} (hS : Spread E B c l) (ha : a < c) (hw : w < c) (f : Nat → K × V) (d : Nat → Nat)
    (h0 : d 0 = 0) (hstep : ∀ y, y < w → d (y + 1) ≤ d y + 1) (hhome : ∀ y, y ≤ w → (E.h (f y).1 + d y) % c = (a + y) % c)
    (hsub : ((List.range (w + 1)).map f).Subperm l) : d w < B := by
  have hle : ∀ y, y ≤ w → d y ≤ y := by
    intro y
    induction y with
    | zero => intro _; omega
    | succ y ih => intro hy; have := hstep y (by omega); have := ih (by omega); omega
  have hmono : ∀ z y, y + z = w → y - d y ≤ w - d w := by
    intro z
    induction z with
    | zero => intro y hy; rw [Nat.add_zero] at hy; rw [hy]
    | succ z ih =>
      intro y hy
      have h1 := ih (y + 1) (by omega)
      have h2 := hstep y (by omega)
      have h3 := hle y (by omega)
      have h4 := hle (y + 1) (by omega)
      omega
  have hcount : ((List.range (w + 1)).map f).countP (fun e => inWindow c a (w - d w) (E.h e.1)) = w + 1 := by
    have : ((List.range (w + 1)).map f).length = w + 1 := by simp
    refine Eq.trans ?_ this
    rw [List.countP_eq_length]
    intro e he
    obtain ⟨y, hy, rfl⟩ := List.mem_map.mp he
    have hy := List.mem_range.mp hy
    have h1 := hle y (by omega)
    have h2 := hhome y (by omega)
    have h3 : E.h (f y).1 % c = (a + (y - d y)) % c := by
      have e1 : a + y = a + (y - d y) + d y := by omega
      rw [e1] at h2
      exact Nat.ModEq.add_right_cancel' (d y) h2
    unfold inWindow
    rw [h3, sub_mod_of ha (by omega)]
    simp only [decide_eq_true_eq]
    exact hmono (w - y) y (by omega)
  have h1 := hsub.countP_le (fun e => inWindow c a (w - d w) (E.h e.1))
  have h2 := hS a (w - d w) ha (by omega)
  rw [hcount] at h1
  have := hle w (Nat.le_refl _)
  omega

theorem filterMap_subperm {α β : Type} {f : α → Option β} {l l' : List α} (h : l.Subperm l') :
    (l.filterMap f).Subperm (l'.filterMap f) := by
  obtain ⟨m, h1, h2⟩ := h
  exact ⟨m.filterMap f, h1.filterMap f, h2.filterMap f⟩

/-- Elements in a run of used slots are a part of the elements. -/
theorem run_subperm {t : Map K V} (h : Base t) {a w : Nat} (hw : w < cap t) (f : Nat → K × V)
    (hf : ∀ y, y < w → (t.ctrl ((a + y) % cap t)).dist ≠ 255 ∧ t.slot ((a + y) % cap t) = some (f y)) :
    ((List.range w).map f).Subperm (entries t) := by
  have h0 := h.cap_ge
  have h1 : ((List.range w).map fun y => (a + y) % cap t).Subperm (List.range (cap t)) := by
    apply List.Nodup.subperm
    · refine List.Nodup.map_on ?_ List.nodup_range
      intro x hx y hy hxy
      have hx := List.mem_range.mp hx
      have hy := List.mem_range.mp hy
      have h2 : (x : Nat) % cap t = y % cap t := Nat.ModEq.add_left_cancel' a hxy
      rwa [Nat.mod_eq_of_lt (by omega), Nat.mod_eq_of_lt (by omega)] at h2
    · intro x hx
      obtain ⟨y, _, rfl⟩ := List.mem_map.mp hx
      exact List.mem_range.mpr (Nat.mod_lt _ (by omega))
  have h2 := filterMap_subperm (f := cellAt t) h1
  have h3 : ((List.range w).map fun y => (a + y) % cap t).filterMap (cellAt t) = (List.range w).map f := by
    rw [List.filterMap_map]
    have : ∀ n, n ≤ w → (List.range n).filterMap (cellAt t ∘ fun y => (a + y) % cap t) = (List.range n).map f := by
      intro n
      induction n with
      | zero => intro _; rfl
      | succ n ih =>
        intro hn
        rw [List.range_succ, List.filterMap_append, List.map_append, ih (by omega)]
        congr 1
        obtain ⟨h4, h5⟩ := hf n (by omega)
        have h6 : cellAt t ((a + n) % cap t) = some (f n) := by
          rw [cellAt_eq h (Nat.mod_lt _ (by omega)), if_pos h4, h5]
        simp [h6]
    exact this w (Nat.le_refl _)
  rw [h3] at h2
  exact h2

/-- How far an element can be from home that stands behind a slot `x` and continues its run. -/
theorem carried_lt {B : Nat} {t : Map K V} (h : Tab E sec t) (he : ∃ z, z < cap t ∧ (t.ctrl z).dist = 255) {i : Nat} (hi : i < cap t)
    {e : K × V} (hprev : far E t e.1 i = 0 ∨
      ∃ x, x < cap t ∧ nxt t x = i ∧ (t.ctrl x).dist ≠ 255 ∧ far E t e.1 i ≤ (t.ctrl x).dist + 1)
    (hS : Spread E B (cap t) (e :: entries t)) : far E t e.1 i < B := by
  classical
  have h0 := h.cap_ge
  have hfar : ∀ (k : K) x, x < cap t → (E.h k + far E t k x) % cap t = x := fun k x hx => h.pos_far k hx
  rcases hprev with hz | ⟨x, hx, hxi, hxu, hle⟩
  · refine spread_lt hS hi (w := 0) (by omega) (fun _ => e) (fun _ => far E t e.1 i) hz (fun y hy => by omega) ?_ ?_
    · intro y hy
      have hy : y = 0 := by omega
      subst hy
      rw [hfar e.1 i hi, Nat.add_zero, Nat.mod_eq_of_lt hi]
    · have h1 : (List.range (0 + 1)).map (fun _ => e) = [e] := rfl
      rw [h1]
      exact (List.Sublist.cons_cons e (List.nil_sublist _)).subperm
  · -- the last empty slot in front
    have hback : ∃ w, 1 ≤ w ∧ w ≤ cap t ∧ (t.ctrl ((i + cap t - w) % cap t)).dist = 255 := by
      obtain ⟨z, hz, hzc⟩ := he
      by_cases hzi : z < i
      · refine ⟨i - z, by omega, by omega, ?_⟩
        rw [show i + cap t - (i - z) = z + cap t by omega, Nat.add_mod_right, Nat.mod_eq_of_lt hz]; exact hzc
      · refine ⟨i + cap t - z, by omega, by omega, ?_⟩
        rw [show i + cap t - (i + cap t - z) = z by omega, Nat.mod_eq_of_lt hz]; exact hzc
    have hex : ∃ w, 1 ≤ w ∧ (t.ctrl ((i + cap t - w) % cap t)).dist = 255 := by
      obtain ⟨w, h1, _, h2⟩ := hback; exact ⟨w, h1, h2⟩
    obtain ⟨w0, hw1, hw2, hw3⟩ := hback
    have hspec := Nat.find_spec hex
    have hmin := fun m hm => Nat.find_min hex (m := m) hm
    have hwle : Nat.find hex ≤ cap t := Nat.le_trans (Nat.find_min' hex (m := w0) ⟨hw1, hw3⟩) hw2
    generalize Nat.find hex = w at hspec hmin hwle
    obtain ⟨hwpos, hwe⟩ := hspec
    have hxeq : x = (i + cap t - 1) % cap t := by
      unfold nxt at hxi
      rw [Flat.add_mod_of_lt hx (by omega)] at hxi
      split at hxi
      · rw [← hxi, show x + 1 + cap t - 1 = x + cap t by omega, Nat.add_mod_right, Nat.mod_eq_of_lt hx]
      · rw [show i + cap t - 1 = x by omega, Nat.mod_eq_of_lt hx]
    have hw2' : w ≠ 1 := by
      rintro rfl
      rw [← hxeq] at hwe
      exact hxu hwe
    -- the run starts behind it
    have ha : (i + cap t - (w - 1)) % cap t < cap t := Nat.mod_lt _ (by omega)
    have hslot : ∀ y, y ≤ w - 1 → ((i + cap t - (w - 1)) % cap t + y) % cap t = (i + cap t - (w - 1 - y)) % cap t := by
      intro y hy
      rw [Nat.mod_add_mod]
      congr 1; omega
    have hused : ∀ y, y < w - 1 → (t.ctrl (((i + cap t - (w - 1)) % cap t + y) % cap t)).dist ≠ 255 := by
      intro y hy hc
      rw [hslot y (by omega)] at hc
      exact hmin (w - 1 - y) (by omega) ⟨by omega, hc⟩
    have hnxt : ∀ y, nxt t (((i + cap t - (w - 1)) % cap t + y) % cap t) = ((i + cap t - (w - 1)) % cap t + (y + 1)) % cap t := by
      intro y
      unfold nxt
      rw [Nat.mod_add_mod, Nat.add_assoc]
    generalize hadef : (i + cap t - (w - 1)) % cap t = a at ha hslot hused hnxt
    have hlast : (a + (w - 1)) % cap t = i := by
      rw [hslot _ (Nat.le_refl _), Nat.sub_self, Nat.sub_zero, Nat.add_mod_right, Nat.mod_eq_of_lt hi]
    have hxa : (a + (w - 2)) % cap t = x := by
      rw [hslot _ (by omega), show w - 1 - (w - 2) = 1 by omega, hxeq]
    have hstart : (t.ctrl a).dist = 0 := by
      have ho := h.order _ (Nat.mod_lt (i + cap t - w) (by omega : 0 < cap t))
      have hn : nxt t ((i + cap t - w) % cap t) = a := by
        unfold nxt
        rw [Nat.mod_add_mod, ← hadef]
        congr 1; omega
      rw [hn] at ho
      have h1 := hused 0 (by omega)
      rw [Nat.add_zero, Nat.mod_eq_of_lt ha] at h1
      rcases ho with ho | ho | ho
      · exact absurd ho h1
      · exact ho
      · exact absurd hwe ho.1
    -- its elements
    let f : Nat → K × V := fun y => if y = w - 1 then e else (t.slot ((a + y) % cap t)).getD e
    let d : Nat → Nat := fun y => if y = w - 1 then far E t e.1 i else (t.ctrl ((a + y) % cap t)).dist
    have hcell : ∀ y, y < w - 1 → t.slot ((a + y) % cap t) = some (f y) ∧
        (t.ctrl ((a + y) % cap t)).dist = far E t (f y).1 ((a + y) % cap t) := by
      intro y hy
      obtain ⟨e', he', hd, _⟩ := h.cell _ (Nat.mod_lt _ (by omega)) (hused y hy)
      have : f y = e' := by
        show (if y = w - 1 then e else (t.slot ((a + y) % cap t)).getD e) = e'
        rw [if_neg (by omega), he']; rfl
      rw [this]; exact ⟨he', hd⟩
    have hdw : d (w - 1) = far E t e.1 i := if_pos rfl
    have hfw : f (w - 1) = e := if_pos rfl
    have hd : ∀ y, y < w - 1 → d y = (t.ctrl ((a + y) % cap t)).dist := fun y hy => if_neg (by omega)
    have := spread_lt hS ha (w := w - 1) (by omega) f d ?_ ?_ ?_ ?_
    · rw [hdw] at this; exact this
    · rw [hd 0 (by omega), Nat.add_zero, Nat.mod_eq_of_lt ha]; exact hstart
    · intro y hy
      by_cases hy1 : y + 1 = w - 1
      · rw [hd y hy, hy1, hdw]
        have : y = w - 2 := by omega
        rw [this, hxa]; exact hle
      · rw [hd y hy, hd (y + 1) (by omega)]
        have ho := h.order _ (Nat.mod_lt (a + y) (by omega : 0 < cap t))
        rw [hnxt] at ho
        have := hused (y + 1) (by omega)
        rcases ho with ho | ho | ho
        · exact absurd ho this
        · omega
        · exact ho.2
    · intro y hy
      by_cases hy1 : y = w - 1
      · rw [hy1, hfw, hdw, hlast, hfar e.1 i hi]
      · rw [hd y (by omega), (hcell y (by omega)).2, hfar _ _ (Nat.mod_lt _ (by omega))]
    · rw [List.range_succ, List.map_append]
      have h1 : [w - 1].map f = [e] := by simp [hfw]
      rw [h1]
      have h2 := run_subperm h.toBase (a := a) (w := w - 1) (by omega) f (fun y hy => ⟨hused y hy, (hcell y hy).1⟩)
      refine List.perm_append_comm.subperm.trans ?_
      exact (List.subperm_cons e).mpr h2

/-! ### Writing a control word -/

/-- The same size, counters and load factor. -/
structure Same (t t' : Map K V) : Prop where
  mask : t'.mask = t.mask
  gmask : t'.gmask = t.gmask
  clen : t'.clen = t.clen
  size : t'.size = t.size
  thr : t'.thr = t.thr
  mlf : t'.mlf = t.mlf
  rev : t'.rev = t.rev

theorem Same.refl (t : Map K V) : Same t t := ⟨rfl, rfl, rfl, rfl, rfl, rfl, rfl⟩

theorem Same.trans {a b c : Map K V} (h : Same a b) (g : Same b c) : Same a c :=
  ⟨g.mask.trans h.mask, g.gmask.trans h.gmask, g.clen.trans h.clen, g.size.trans h.size, g.thr.trans h.thr, g.mlf.trans h.mlf,
    g.rev.trans h.rev⟩

theorem Same.cap {t t' : Map K V} (h : Same t t') : cap t' = cap t := by unfold Rob16.cap; rw [h.mask]

theorem Same.far {t t' : Map K V} (h : Same t t') (k : K) (i : Nat) : far E t' k i = far E t k i := by
  unfold Rob16.far; rw [h.cap]

theorem same_putRich (t : Map K V) (i : Nat) (c : Ctrl) (e : K × V) : Same t (putRich t i c e) := ⟨rfl, rfl, rfl, rfl, rfl, rfl, rfl⟩

/-- `f` is the control block of `t` after slot `i` got the word `c` (for an empty word the hash bits do not matter). -/
structure Wrote (t : Map K V) (f : Nat → Ctrl) (i : Nat) (c : Ctrl) : Prop where
  self : f i = c
  other : ∀ x, x < cap t → x ≠ i → f x = t.ctrl x
  copy : ∀ x, cap t ≤ x → x ≠ i + cap t → f x = t.ctrl x
  mirror : i < 16 → (f (i + cap t)).dist = c.dist ∧ (c.dist ≠ 255 → (f (i + cap t)).tag = c.tag)

theorem wrote_setUsed {t : Map K V} {i : Nat} (hi : i < cap t) (c : Ctrl) : Wrote t (setUsed t i c).ctrl i c := by
  unfold setUsed
  simp only
  split
  · constructor
    · rw [upd_other _ _ (by omega), upd_self]
    · intro x h1 h2; rw [upd_other _ _ (by omega), upd_other _ _ h2]
    · intro x h1 h2; rw [upd_other _ _ h2, upd_other _ _ (by omega)]
    · intro _; rw [upd_self]; exact ⟨rfl, fun _ => rfl⟩
  · constructor
    · exact upd_self _ _ _
    · intro x h1 h2; exact upd_other _ _ h2
    · intro x h1 h2; exact upd_other _ _ (by omega)
    · intro h; omega

theorem wrote_setEmpty {t : Map K V} {i : Nat} (hi : i < cap t) : Wrote t (setEmpty t i).ctrl i ⟨255, (t.ctrl i).tag⟩ := by
  unfold setEmpty
  simp only
  split
  · constructor
    · rw [upd_other _ _ (by omega), upd_self]
    · intro x h1 h2; rw [upd_other _ _ (by omega), upd_other _ _ h2]
    · intro x h1 h2; rw [upd_other _ _ h2, upd_other _ _ (by omega)]
    · intro _; rw [upd_self]; exact ⟨rfl, fun h => absurd rfl h⟩
  · constructor
    · exact upd_self _ _ _
    · intro x h1 h2; exact upd_other _ _ h2
    · intro x h1 h2; exact upd_other _ _ (by omega)
    · intro h; omega

theorem nxt_ne {t : Map K V} (h : Base t) {i : Nat} (hi : i < cap t) : nxt t i ≠ i := by
  have := h.cap_ge
  unfold nxt
  rw [Flat.add_mod_of_lt hi (by omega)]
  split <;> omega

/-- The control words after a write that respects the order. -/
theorem Base.write {t t' : Map K V} {i : Nat} {c : Ctrl} (h : Base t) (hi : i < cap t) (hm : t'.mask = t.mask)
    (hg : t'.gmask = t.gmask) (hl : t'.clen = t.clen) (hw : Wrote t t'.ctrl i c) (hb : c.dist = 255 ∨ c.dist < 254)
    (hprev : ∀ x, x < cap t → nxt t x = i → c.dist = 255 ∨ c.dist = 0 ∨ ((t.ctrl x).dist ≠ 255 ∧ c.dist ≤ (t.ctrl x).dist + 1))
    (hnext : (t.ctrl (nxt t i)).dist = 255 ∨ (t.ctrl (nxt t i)).dist = 0 ∨ (c.dist ≠ 255 ∧ (t.ctrl (nxt t i)).dist ≤ c.dist + 1)) :
    Base t' := by
  have hcap : cap t' = cap t := by unfold cap; rw [hm]
  have hnx : ∀ x, nxt t' x = nxt t x := fun x => by unfold nxt; rw [hcap]
  have hge := h.cap_ge
  refine ⟨by rw [hcap]; exact h.pow, by rw [hcap, hg]; exact h.gmask, by rw [hl, hg]; exact h.clen, ?_, ?_, ?_, ?_⟩
  · intro x hx
    rw [hcap] at hx
    by_cases hxi : x = i
    · rw [hxi, hw.self]; exact hb
    · rw [hw.other x hx hxi]; exact h.bound x hx
  · intro x hx
    rw [hcap] at hx
    rw [hnx]
    by_cases hxi : x = i
    · rw [hxi, hw.self, hw.other _ (h.nxt_lt i) (nxt_ne h hi)]; exact hnext
    · by_cases hni : nxt t x = i
      · rw [hni, hw.self, hw.other x hx hxi]; exact hprev x hx hni
      · rw [hw.other x hx hxi, hw.other _ (h.nxt_lt x) hni]; exact h.order x hx
  · intro x hx h16
    rw [hcap] at hx ⊢
    by_cases hxi : x = i
    · subst hxi; rw [hw.self]; exact hw.mirror h16
    · rw [hw.other x hx hxi, hw.copy _ (by omega) (by omega)]; exact h.mirror x hx h16
  · intro h16 x h1 h2
    rw [hcap] at h16 h1
    rw [hw.copy x (by omega) (by omega)]
    exact h.tail h16 x h1 h2

/-- The table after such a write together with an element. -/
theorem Tab.write {t t' : Map K V} {i : Nat} {c : Ctrl} (h : Tab E sec t) (hi : i < cap t) (hsame : t'.mask = t.mask)
    (hw : Wrote t t'.ctrl i c) (hB : Base t') (hs : ∀ x, x ≠ i → t'.slot x = t.slot x)
    (hc : c.dist ≠ 255 → ∃ e, t'.slot i = some e ∧ c.dist = far E t e.1 i ∧ c.tag = tagOf E sec e.1) : Tab E sec t' := by
  have hcap : cap t' = cap t := by unfold cap; rw [hsame]
  have hfar : ∀ k x, far E t' k x = far E t k x := fun k x => by unfold far; rw [hcap]
  refine ⟨hB, ?_⟩
  intro x hx
  rw [hcap] at hx
  unfold CellOk
  by_cases hxi : x = i
  · subst hxi
    rw [hw.self]
    simp only [hfar]
    exact hc
  · rw [hw.other x hx hxi, hs x hxi]
    simp only [hfar]
    exact h.cell x hx

/-! ### Elements after a write -/

/-- What the cells are after a write. -/
theorem cellAt_write {t t' : Map K V} {i : Nat} {c : Ctrl} (hi : i < cap t) (hw : Wrote t t'.ctrl i c)
    (hs : ∀ x, x ≠ i → t'.slot x = t.slot x) (x : Nat) (hx : x < cap t) :
    cellAt t' x = upd (cellAt t) i (if c.dist < 255 then t'.slot i else none) x := by
  by_cases hxi : x = i
  · subst hxi
    rw [upd_self]
    unfold cellAt used bEmpty
    rw [hw.self]
    by_cases h : c.dist < 255 <;> simp [h]
  · rw [upd_other _ _ hxi]
    unfold cellAt used
    rw [hw.other x hx hxi, hs x hxi]

theorem entries_write {t t' : Map K V} {i : Nat} {c : Ctrl} (hi : i < cap t) (hm : t'.mask = t.mask) (hw : Wrote t t'.ctrl i c)
    (hs : ∀ x, x ≠ i → t'.slot x = t.slot x) :
    entries t' = (List.range (cap t)).filterMap (upd (cellAt t) i (if c.dist < 255 then t'.slot i else none)) := by
  unfold entries
  have hcap : cap t' = cap t := by unfold cap; rw [hm]
  rw [hcap]
  apply filterMap_congr'
  intro x hx
  exact cellAt_write hi hw hs x (List.mem_range.mp hx)

/-- Filling an empty slot. -/
theorem entries_fill {t t' : Map K V} {i : Nat} {c : Ctrl} (hi : i < cap t) (hm : t'.mask = t.mask) (hw : Wrote t t'.ctrl i c)
    (hs : ∀ x, x ≠ i → t'.slot x = t.slot x) (hc : c.dist < 255) {e : K × V} (he : t'.slot i = some e)
    (h0 : (t.ctrl i).dist = 255) : (entries t').Perm (e :: entries t) := by
  rw [entries_write hi hm hw hs, if_pos hc, he]
  refine perm_upd_some hi _ ?_ e
  unfold cellAt used bEmpty
  rw [h0]; rfl

/-- Replacing an element. -/
theorem entries_replace {t t' : Map K V} {i : Nat} {c : Ctrl} (hi : i < cap t) (hm : t'.mask = t.mask) (hw : Wrote t t'.ctrl i c)
    (hs : ∀ x, x ≠ i → t'.slot x = t.slot x) (hc : c.dist < 255) {e e' : K × V} (he : t'.slot i = some e)
    (hu : (t.ctrl i).dist < 255) (he' : t.slot i = some e') : (e' :: entries t').Perm (e :: entries t) := by
  rw [entries_write hi hm hw hs, if_pos hc, he]
  have h0 : cellAt t i = some e' := by
    unfold cellAt used bEmpty
    rw [decide_eq_true hu, if_pos rfl]; exact he'
  have h1 := perm_upd_none hi (cellAt t) e' h0
  have h2 := perm_upd_some hi (upd (cellAt t) i none) (upd_self _ _ _) e
  have h3 : upd (upd (cellAt t) i none) i (some e) = upd (cellAt t) i (some e) := by
    funext x
    by_cases hx : x = i
    · subst hx; rw [upd_self, upd_self]
    · rw [upd_other _ _ hx, upd_other _ _ hx, upd_other _ _ hx]
  rw [h3] at h2
  refine (h2.cons e').trans ?_
  refine (List.Perm.swap _ _ _).trans ?_
  exact h1.symm.cons e

/-- Emptying a slot. -/
theorem entries_empty {t t' : Map K V} {i : Nat} {c : Ctrl} (hi : i < cap t) (hm : t'.mask = t.mask) (hw : Wrote t t'.ctrl i c)
    (hs : ∀ x, x ≠ i → t'.slot x = t.slot x) (hc : c.dist = 255) {e' : K × V}
    (hu : (t.ctrl i).dist < 255) (he' : t.slot i = some e') : (entries t).Perm (e' :: entries t') := by
  rw [entries_write hi hm hw hs, if_neg (by omega)]
  refine perm_upd_none hi (cellAt t) e' ?_
  unfold cellAt used bEmpty
  rw [decide_eq_true hu, if_pos rfl]; exact he'

/-! ### The displacement loop -/

theorem nxt_inj {t : Map K V} {x y : Nat} (hx : x < cap t) (hy : y < cap t) (h : nxt t x = nxt t y) : x = y := by
  unfold nxt at h
  by_cases h1 : cap t = 1
  · omega
  · rw [Flat.add_mod_of_lt hx (by omega), Flat.add_mod_of_lt hy (by omega)] at h
    split at h <;> split at h <;> omega

theorem far_nxt {t : Map K V} (h : Base t) {k : K} {i : Nat} (hi : i < cap t) (hf : far E t k i + 1 < cap t) :
    far E t k (nxt t i) = far E t k i + 1 := by
  have h1 := h.pos_far (E := E) k hi
  have h2 : nxt t i = pos E t k (far E t k i + 1) := by
    rw [← Base.nxt_pos, h1]
  rw [h2, Base.far_pos k hf]

/-- With an empty slot no element is a whole round away from home. -/
theorem far_lt_of_empty {t : Map K V} (h : Base t) (he : ∃ z, z < cap t ∧ (t.ctrl z).dist = 255) {k : K} {i : Nat} (hi : i < cap t)
    (hu : (t.ctrl i).dist ≠ 255) (hp : far E t k i = 0 ∨ Pass E t k (far E t k i - 1)) : far E t k i + 1 < cap t := by
  obtain ⟨z, hz, hzc⟩ := he
  have h0 := h.cap_ge
  by_contra hc
  have h1 := h.far_lt (E := E) k i
  rcases hp with hp | hp
  · omega
  · have h2 := h.far_lt (E := E) k z
    by_cases h3 : far E t k z = far E t k i
    · have h4 := h.pos_far (E := E) k hz
      rw [h3, h.pos_far k hi] at h4
      rw [h4] at hu
      exact hu hzc
    · have h4 := (h.pass_back hp (far E t k z) (by omega)).1
      rw [h.pos_far k hz] at h4
      exact h4 hzc

/-- What a rehash needs of a table: every used slot holds an element. -/
structure Weak (t : Map K V) : Prop where
  pow : ∃ j, 2 ≤ j ∧ j ≤ 48 ∧ cap t = 2 ^ j
  clen : t.clen ≠ 0
  cell : ∀ i, i < cap t → (t.ctrl i).dist = 255 ∨ ((t.ctrl i).dist < 254 ∧ ∃ e, t.slot i = some e)

theorem Tab.weak {t : Map K V} (h : Tab E sec t) : Weak t := by
  refine ⟨h.pow, by have := h.clen_eq; omega, ?_⟩
  intro i hi
  rcases h.bound i hi with h1 | h1
  · exact Or.inl h1
  · obtain ⟨e, he, _⟩ := h.cell i hi (by omega)
    exact Or.inr ⟨h1, e, he⟩

theorem wrote_putRich {t : Map K V} {i : Nat} (hi : i < cap t) (c : Ctrl) (e : K × V) : Wrote t (putRich t i c e).ctrl i c :=
  wrote_setUsed hi c

theorem Weak.putRich {t : Map K V} (h : Weak t) {i : Nat} (hi : i < cap t) {c : Ctrl} (hc : c.dist < 254) (e : K × V) :
    Weak (putRich t i c e) := by
  refine ⟨h.pow, h.clen, ?_⟩
  intro x hx
  have hx : x < cap t := hx
  by_cases hxi : x = i
  · subst hxi
    rw [(wrote_putRich hi c e).self]
    exact Or.inr ⟨hc, e, upd_self _ _ _⟩
  · rw [(wrote_putRich hi c e).other x hx hxi]
    have : (Rob16.putRich t i c e).slot x = t.slot x := upd_other _ _ hxi
    rw [this]
    exact h.cell x hx

/-- Writing the carried element into slot `i`. -/
theorem Tab.putRich {t : Map K V} (h : Tab E sec t) {i : Nat} (hi : i < cap t) {c : Ctrl} {e : K × V} (hd : c.dist = far E t e.1 i)
    (ht : c.tag = tagOf E sec e.1) (hlt : c.dist < 254)
    (hprev : c.dist = 0 ∨ ∃ x, x < cap t ∧ nxt t x = i ∧ (t.ctrl x).dist ≠ 255 ∧ c.dist ≤ (t.ctrl x).dist + 1)
    (hself : (t.ctrl i).dist = 255 ∨ (t.ctrl i).dist ≤ c.dist) : Tab E sec (putRich t i c e) := by
  have hw := wrote_putRich hi c e
  refine h.write hi rfl hw ?_ (fun x hx => upd_other _ _ hx) (fun _ => ⟨e, upd_self _ _ _, hd, ht⟩)
  refine h.toBase.write hi rfl rfl rfl hw (Or.inr hlt) ?_ ?_
  · intro x hx hxi
    rcases hprev with h0 | ⟨y, hy, hyi, h1, h2⟩
    · exact Or.inr (Or.inl h0)
    · have := nxt_inj hx hy (hxi.trans hyi.symm)
      subst this
      exact Or.inr (Or.inr ⟨h1, h2⟩)
  · have ho := h.order i hi
    rcases ho with ho | ho | ho
    · exact Or.inl ho
    · exact Or.inr (Or.inl ho)
    · right; right
      exact ⟨by omega, by omega⟩

theorem placeLoop_spec (reh : Bool) {a : Nat} : ∀ (f q q0 : Nat) (c : Ctrl) (e : K × V) (t : Map K V), Tab E sec t → a < cap t →
    1 ≤ q → q ≤ q0 → q0 < cap t → q0 < q + f → (t.ctrl ((a + q0) % cap t)).dist = 255 → c.tag = tagOf E sec e.1 →
    c.dist = far E t e.1 ((a + q) % cap t) →
    (∃ x, x < cap t ∧ nxt t x = (a + q) % cap t ∧ (t.ctrl x).dist ≠ 255 ∧ c.dist ≤ (t.ctrl x).dist + 1) →
    Spread E 254 (cap t) (e :: entries t) →
    ∃ t' b, placeLoop reh a f ((a + q) % cap t) c e t = .ok (t', b) ∧ Same t t' ∧
      (b = false → Tab E sec t' ∧ (entries t').Perm (e :: entries t) ∧ t'.slot a = t.slot a) ∧
      (b = true → reh = false ∧ ¬ Spread E 129 (cap t) (e :: entries t) ∧ Weak t' ∧
        ∀ ea, t.slot a = some ea → (t.ctrl a).dist < 255 → (ea :: entries t').Perm (e :: entries t)) := by
  intro f
  induction f with
  | zero => intro q q0 c e t _ _ _ h1 _ h2; omega
  | succ f ih =>
    intro q q0 c e t h ha hq1 hq hq0 hf hz htag hdist hprev hS
    have h0 := h.cap_ge
    have hi : (a + q) % cap t < cap t := Nat.mod_lt _ (by omega)
    have hzlt : (a + q0) % cap t < cap t := Nat.mod_lt _ (by omega)
    have he : ∃ z, z < cap t ∧ (t.ctrl z).dist = 255 := ⟨_, hzlt, hz⟩
    have hia : (a + q) % cap t ≠ a := by
      rw [Flat.add_mod_of_lt ha (by omega)]
      split <;> omega
    have hnxt : nxt t ((a + q) % cap t) = (a + (q + 1)) % cap t := by
      unfold nxt
      rw [Nat.mod_add_mod, Nat.add_assoc]
    have hlt : c.dist < 254 := by
      rw [hdist]
      refine carried_lt h he hi ?_ hS
      right
      rw [← hdist]; exact hprev
    generalize hidef : (a + q) % cap t = i at *
    unfold placeLoop
    by_cases hemp : (t.ctrl i).dist = 255
    · rw [if_pos hemp]
      refine ⟨_, false, rfl, same_putRich _ _ _ _, fun _ => ⟨?_, ?_, ?_⟩, fun hb => by cases hb⟩
      · exact h.putRich hi hdist htag hlt (Or.inr hprev) (Or.inl hemp)
      · exact entries_fill (t' := putRich t i c e) hi rfl (wrote_putRich hi c e) (fun x hx => upd_other _ _ hx) (by omega) (upd_self _ _ _) hemp
      · exact upd_other _ _ (fun h => hia h.symm)
    · rw [if_neg hemp]
      have hqq : q ≠ q0 := by
        rintro rfl
        rw [hidef] at hz
        exact hemp hz
      obtain ⟨e', he', hd', ht'⟩ := h.cell i hi hemp
      have hzi : (a + q0) % cap t ≠ i := by
        intro hc
        rw [hc] at hz
        exact hemp hz
      have hbi := h.bound i hi
      -- what is carried on
      have hstep : ∃ t1 c1 e1, swapStep t i c e = some (t1, c1, e1) ∧ Tab E sec t1 ∧ Same t t1 ∧ (e1 :: entries t1).Perm (e :: entries t) ∧
          t1.slot a = t.slot a ∧ t1.ctrl a = t.ctrl a ∧ (t1.ctrl ((a + q0) % cap t)).dist = 255 ∧ c1.tag = tagOf E sec e1.1 ∧
          c1.dist = far E t e1.1 i ∧ far E t e1.1 i + 1 < cap t ∧ (t1.ctrl i).dist ≠ 255 ∧ c1.dist ≤ (t1.ctrl i).dist ∧ c1.dist < 254 := by
        unfold swapStep
        by_cases hs : (t.ctrl i).dist < c.dist
        · rw [if_pos hs, he']
          have hw := wrote_putRich hi c e
          refine ⟨_, _, _, rfl, h.putRich hi hdist htag hlt (Or.inr hprev) (Or.inr (by omega)), same_putRich _ _ _ _, ?_,
            upd_other _ _ (fun h => hia h.symm), ?_, ?_, ht', hd', ?_, ?_, ?_, by omega⟩
          · exact entries_replace (t' := putRich t i c e) hi rfl hw (fun x hx => upd_other _ _ hx) (by omega) (upd_self _ _ _) (by omega) he'
          · rw [hw.other a ha (fun h => hia h.symm)]
          · rw [hw.other _ hzlt hzi]; exact hz
          · refine far_lt_of_empty h.toBase he hi hemp (Or.inr ?_)
            have hp : Pass E t e'.1 (far E t e'.1 i) := by
              unfold Pass
              rw [h.pos_far e'.1 hi, ← hd']
              exact ⟨hemp, Nat.le_refl _⟩
            exact h.pass_back hp _ (by omega)
          · rw [hw.self]; omega
          · rw [hw.self]; omega
        · rw [if_neg hs]
          refine ⟨_, _, _, rfl, h, Same.refl _, List.Perm.refl _, rfl, rfl, hz, htag, hdist, ?_, hemp, by omega, hlt⟩
          obtain ⟨x, hx, hxi, hxu, hxd⟩ := hprev
          by_cases hc0 : c.dist = 0
          · rw [← hdist, hc0]; omega
          refine far_lt_of_empty h.toBase he hi hemp (Or.inr ?_)
          have hxp : x = pos E t e.1 (far E t e.1 i - 1) := by
            apply nxt_inj hx (h.pos_lt _ _)
            rw [Base.nxt_pos, show far E t e.1 i - 1 + 1 = far E t e.1 i by omega, h.pos_far e.1 hi, hxi]
          unfold Pass
          rw [← hxp]
          exact ⟨hxu, by omega⟩
      obtain ⟨t1, c1, e1, s1, s2, s3, s4, s5, s6, s7, s8, s9, s10, s11, s12, s13⟩ := hstep
      rw [s1]
      simp only
      have hcap1 := s3.cap
      have hmod : (c1.dist + 1) % 256 = c1.dist + 1 := Nat.mod_eq_of_lt (by omega)
      have hfar1 : c1.dist + 1 = far E t1 e1.1 (nxt t i) := by
        rw [s3.far, far_nxt h.toBase hi s10, s9]
      have he1 : ∃ z, z < cap t1 ∧ (t1.ctrl z).dist = 255 := ⟨_, by rw [hcap1]; exact hzlt, s7⟩
      have hnx1 : ∀ x, nxt t1 x = nxt t x := fun x => by unfold nxt; rw [hcap1]
      have hprev1 : ∃ x, x < cap t1 ∧ nxt t1 x = nxt t i ∧ (t1.ctrl x).dist ≠ 255 ∧ c1.dist + 1 ≤ (t1.ctrl x).dist + 1 :=
        ⟨i, by rw [hcap1]; exact hi, hnx1 i, s11, by omega⟩
      have hS1 : ∀ B, Spread E B (cap t) (e :: entries t) → c1.dist + 1 < B := by
        intro B hB
        rw [hfar1]
        refine carried_lt s2 he1 (by rw [hcap1]; exact h.nxt_lt i) ?_ (by rw [hcap1]; exact hB.perm s4)
        right
        rw [← hfar1]; exact hprev1
      rw [hmod, h.next_eq, hnxt]
      by_cases hcond : (reh = false ∧ distLimit < c1.dist + 1) ∨ (a + (q + 1)) % cap t = a
      · rw [if_pos hcond]
        have hne : (a + (q + 1)) % cap t ≠ a := by
          rw [Flat.add_mod_of_lt ha (by omega)]
          split <;> omega
        have hcond : reh = false ∧ distLimit < c1.dist + 1 := by
          rcases hcond with hcond | hcond
          · exact hcond
          · exact absurd hcond hne
        refine ⟨_, true, rfl, s3.trans (same_putRich _ _ _ _), fun hb => (by cases hb), fun _ => ⟨hcond.1, ?_, ?_, ?_⟩⟩
        · intro hB
          have := hS1 129 hB
          have := hcond.2
          unfold distLimit at this
          omega
        · exact s2.weak.putRich (by rw [hcap1]; exact ha) (hS1 254 hS) _
        · intro ea hea hua
          have hw := wrote_putRich (t := t1) (by rw [hcap1]; exact ha) ⟨c1.dist + 1, c1.tag⟩ e1
          refine (entries_replace (t := t1) (t' := putRich t1 a ⟨c1.dist + 1, c1.tag⟩ e1) (by rw [hcap1]; exact ha) rfl hw (fun x hx => upd_other _ _ hx) ?_ (upd_self _ _ _)
            (by rw [s6]; exact hua) (by rw [s5]; exact hea)).trans s4
          have := hS1 254 hS
          show c1.dist + 1 < 255
          omega
      · rw [if_neg hcond]
        have := ih (q + 1) q0 ⟨c1.dist + 1, c1.tag⟩ e1 t1 s2 (by rw [hcap1]; exact ha) (by omega) (by omega) (by rw [hcap1]; exact hq0)
          (by omega) (by rw [hcap1]; exact s7) s8 (by rw [hcap1, ← hnxt]; exact hfar1)
          (by obtain ⟨x, x1, x2, x3, x4⟩ := hprev1; exact ⟨x, x1, by rw [x2, hcap1, hnxt], x3, x4⟩) (by rw [hcap1]; exact hS.perm s4)
        rw [hcap1] at this
        obtain ⟨t', b, g1, g2, g3, g4⟩ := this
        refine ⟨t', b, g1, s3.trans g2, ?_, ?_⟩
        · intro hb
          obtain ⟨k1, k2, k3⟩ := g3 hb
          exact ⟨k1, k2.trans s4, k3.trans s5⟩
        · intro hb
          obtain ⟨k1, k2, k3, k4⟩ := g4 hb
          refine ⟨k1, fun hB => k2 (hB.perm s4), k3, ?_⟩
          intro ea hea hua
          exact (k4 ea (by rw [s5]; exact hea) (by rw [s6]; exact hua)).trans s4

/-! ### The target slot is not read -/

/-- Another element in slot `a`. -/
def withSlot (a : Nat) (o : Option (K × V)) (t : Map K V) : Map K V := { t with slot := upd t.slot a o }

theorem upd_comm {α : Type} (f : Nat → α) {i j : Nat} (h : i ≠ j) (x y : α) : upd (upd f i x) j y = upd (upd f j y) i x := by
  funext z
  by_cases h1 : z = j
  · subst h1; rw [upd_self, upd_other _ _ (fun h' => h h'.symm), upd_self]
  · rw [upd_other _ _ h1]
    by_cases h2 : z = i
    · subst h2; rw [upd_self, upd_self]
    · rw [upd_other _ _ h2, upd_other _ _ h2, upd_other _ _ h1]

theorem upd_twice {α : Type} (f : Nat → α) (i : Nat) (x y : α) : upd (upd f i x) i y = upd f i y := by
  funext z
  by_cases h1 : z = i
  · subst h1; rw [upd_self, upd_self]
  · rw [upd_other _ _ h1, upd_other _ _ h1, upd_other _ _ h1]

theorem putRich_withSlot {a i : Nat} (h : i ≠ a) (o : Option (K × V)) (t : Map K V) (c : Ctrl) (e : K × V) :
    putRich (withSlot a o t) i c e = withSlot a o (putRich t i c e) := by
  unfold putRich withSlot setUsed
  simp only [upd_comm t.slot (fun h' => h h'.symm) o (some e)]
  rfl

theorem putRich_withSlot_self (a : Nat) (o : Option (K × V)) (t : Map K V) (c : Ctrl) (e : K × V) :
    putRich (withSlot a o t) a c e = putRich t a c e := by
  unfold putRich withSlot setUsed
  simp only [upd_twice]
  rfl

theorem placeLoop_withSlot (reh : Bool) (a : Nat) (o : Option (K × V)) : ∀ (f i : Nat) (c : Ctrl) (e : K × V) (t : Map K V), i ≠ a →
    placeLoop reh a f i c e (withSlot a o t) =
      (placeLoop reh a f i c e t).bind fun q => .ok (if q.2 then q else (withSlot a o q.1, false)) := by
  intro f
  induction f with
  | zero => intro i c e t _; rfl
  | succ f ih =>
    intro i c e t hi
    unfold placeLoop
    by_cases h1 : (t.ctrl i).dist = bEmpty
    · rw [if_pos h1, if_pos (show ((withSlot a o t).ctrl i).dist = bEmpty from h1), putRich_withSlot hi]
      rfl
    · rw [if_neg h1, if_neg (show ¬ ((withSlot a o t).ctrl i).dist = bEmpty from h1)]
      have hslot : (withSlot a o t).slot i = t.slot i := upd_other _ _ hi
      have hnext : next (withSlot a o t) i = next t i := rfl
      have hctrl : (withSlot a o t).ctrl i = t.ctrl i := rfl
      unfold swapStep
      rw [hctrl, hslot, hnext]
      by_cases h2 : (t.ctrl i).dist < c.dist
      · rw [if_pos h2, if_pos h2]
        cases hs : t.slot i with
        | none => rfl
        | some e' =>
          simp only [Option.map_some]
          by_cases h3 : (reh = false ∧ distLimit < ((t.ctrl i).dist + 1) % 256) ∨ next t i = a
          · rw [if_pos h3, if_pos h3, putRich_withSlot hi, putRich_withSlot_self]; rfl
          · rw [if_neg h3, if_neg h3, putRich_withSlot hi]
            exact ih _ _ _ _ (fun hc => h3 (Or.inr hc))
      · rw [if_neg h2, if_neg h2]
        simp only
        by_cases h3 : (reh = false ∧ distLimit < (c.dist + 1) % 256) ∨ next t i = a
        · rw [if_pos h3, if_pos h3, putRich_withSlot_self]; rfl
        · rw [if_neg h3, if_neg h3]
          exact ih _ _ _ _ (fun hc => h3 (Or.inr hc))

/-! ### Making room for a new key -/

/-- What `makeRoom` leaves: with `false` the slot only lacks the element, with `true` the elements are those before. -/
structure RoomOk (E : Env K) (sec : Nat → Nat) (reh : Bool) (t : Map K V) (i : Nat) (e : K × V) (q : Map K V) (b : Bool) : Prop where
  same : Same t q
  done : b = false → Tab E sec (withSlot i (some e) q) ∧ (entries (withSlot i (some e) q)).Perm (e :: entries t)
  full : b = true → reh = false ∧ ¬ Spread E 129 (cap t) (e :: entries t) ∧ Weak q ∧ (entries q).Perm (entries t)

theorem makeRoom_spec (reh : Bool) {t : Map K V} (h : Tab E sec t) (he : ∃ z, z < cap t ∧ (t.ctrl z).dist = 255) {e : K × V} {m : Nat}
    (hm : Stop E t e.1 m) (hS : Spread E 254 (cap t) (e :: entries t)) :
    ∃ q b, makeRoom reh (pos E t e.1 m) ⟨m, tagOf E sec e.1⟩ t = .ok (q, b) ∧ RoomOk E sec reh t (pos E t e.1 m) e q b := by
  have h0 := h.cap_ge
  have hi := h.pos_lt (E := E) e.1 m
  have hfar : far E t e.1 (pos E t e.1 m) = m := Base.far_pos _ hm.lt
  have hprev : m = 0 ∨ ∃ x, x < cap t ∧ nxt t x = pos E t e.1 m ∧ (t.ctrl x).dist ≠ 255 ∧ m ≤ (t.ctrl x).dist + 1 := by
    by_cases hm0 : m = 0
    · exact Or.inl hm0
    · right
      have hp := hm.front (m - 1) (by omega)
      refine ⟨pos E t e.1 (m - 1), h.pos_lt _ _, ?_, hp.1, ?_⟩
      · rw [Base.nxt_pos, show m - 1 + 1 = m by omega]
      · have := hp.2; omega
  have hlt : m < 254 := by
    have := carried_lt h he hi (e := e) (by rw [hfar]; exact hprev) hS
    rwa [hfar] at this
  have hself : (t.ctrl (pos E t e.1 m)).dist = 255 ∨ (t.ctrl (pos E t e.1 m)).dist < m := by
    have := hm.not
    unfold Pass at this
    omega
  generalize pos E t e.1 m = i at *
  have hT0 : Tab E sec (putRich t i ⟨m, tagOf E sec e.1⟩ e) := h.putRich hi hfar.symm rfl hlt hprev (by
    rcases hself with h1 | h1
    · exact Or.inl h1
    · right; show (t.ctrl i).dist ≤ m; omega)
  have hw := wrote_putRich hi ⟨m, tagOf E sec e.1⟩ e
  unfold makeRoom
  by_cases hemp : (t.ctrl i).dist = 255
  · rw [if_pos hemp]
    refine ⟨_, false, rfl, ⟨rfl, rfl, rfl, rfl, rfl, rfl, rfl⟩, fun _ => ⟨hT0, ?_⟩, fun hb => by cases hb⟩
    exact entries_fill (t' := putRich t i ⟨m, tagOf E sec e.1⟩ e) hi rfl hw (fun x hx => upd_other _ _ hx) (show m < 255 by omega) (upd_self _ _ _) hemp
  · rw [if_neg hemp]
    unfold insertToPlace
    obtain ⟨eo, heo, hdo, hto⟩ := h.cell i hi hemp
    rw [heo]
    simp only
    have hlo : (t.ctrl i).dist < m := by
      rcases hself with h1 | h1
      · exact absurd h1 hemp
      · exact h1
    have hmod : ((t.ctrl i).dist + 1) % 256 = (t.ctrl i).dist + 1 := Nat.mod_eq_of_lt (by omega)
    have hrep : (eo :: entries (putRich t i ⟨m, tagOf E sec e.1⟩ e)).Perm (e :: entries t) :=
      entries_replace (t' := putRich t i ⟨m, tagOf E sec e.1⟩ e) hi rfl hw (fun x hx => upd_other _ _ hx) (show m < 255 by omega) (upd_self _ _ _) (by omega) heo
    have hfo : far E t eo.1 i + 1 < cap t := by
      refine far_lt_of_empty h.toBase he hi hemp (Or.inr ?_)
      have hp : Pass E t eo.1 (far E t eo.1 i) := by
        unfold Pass
        rw [h.pos_far eo.1 hi, ← hdo]
        exact ⟨hemp, Nat.le_refl _⟩
      exact h.pass_back hp _ (by omega)
    have hnx : nxt t i = (i + 1) % cap t := rfl
    have hia : nxt t i ≠ i := nxt_ne h.toBase hi
    obtain ⟨q0, hq1, hq2, hq3⟩ : ∃ q0, 1 ≤ q0 ∧ q0 < cap t ∧ (t.ctrl ((i + q0) % cap t)).dist = 255 := by
      obtain ⟨z, hz, hzc⟩ := he
      have hzi : z ≠ i := by rintro rfl; exact hemp hzc
      by_cases hlt : i < z
      · refine ⟨z - i, by omega, by omega, ?_⟩
        rw [show i + (z - i) = z by omega, Nat.mod_eq_of_lt hz]; exact hzc
      · refine ⟨z + cap t - i, by omega, by omega, ?_⟩
        rw [show i + (z + cap t - i) = z + cap t by omega, Nat.add_mod_right, Nat.mod_eq_of_lt hz]; exact hzc
    have hzi : (i + q0) % cap t ≠ i := by
      intro hc
      rw [hc] at hq3
      exact hemp hq3
    obtain ⟨T', b, g1, g2, g3, g4⟩ := placeLoop_spec (E := E) (sec := sec) reh (a := i) (cap t) 1 q0 ⟨(t.ctrl i).dist + 1, (t.ctrl i).tag⟩ eo
      (putRich t i ⟨m, tagOf E sec e.1⟩ e) hT0 hi (Nat.le_refl _) hq1 hq2 (show q0 < 1 + cap t by omega)
      (by show ((putRich t i ⟨m, tagOf E sec e.1⟩ e).ctrl ((i + q0) % cap t)).dist = 255
          rw [hw.other _ (Nat.mod_lt _ (by omega)) hzi]; exact hq3) hto
      (by show (t.ctrl i).dist + 1 = far E t eo.1 (nxt t i)
          rw [far_nxt h.toBase hi hfo, hdo])
      ⟨i, hi, rfl, by rw [hw.self]; show m ≠ 255; omega, by rw [hw.self]; show (t.ctrl i).dist + 1 ≤ m + 1; omega⟩
      (hS.perm hrep)
    have hcapp : cap (putRich t i ⟨m, tagOf E sec e.1⟩ e) = cap t := rfl
    have hput : putRich t i ⟨m, tagOf E sec e.1⟩ e = withSlot i (some e) (setUsed t i ⟨m, tagOf E sec e.1⟩) := rfl
    have hcs : cap (withSlot i (some e) (setUsed t i ⟨m, tagOf E sec e.1⟩)) = cap t := rfl
    rw [hput, hcs, placeLoop_withSlot reh i (some e) _ _ _ _ _ (show (i + 1) % cap t ≠ i from hia)] at g1
    rw [hmod, h.next_eq, hnx]
    cases hr : placeLoop reh i (cap t) ((i + 1) % cap t) ⟨(t.ctrl i).dist + 1, (t.ctrl i).tag⟩ eo (setUsed t i ⟨m, tagOf E sec e.1⟩) with
    | diverge => rw [hr] at g1; cases g1
    | ub => rw [hr] at g1; cases g1
    | ok p =>
      obtain ⟨q, b'⟩ := p
      rw [hr] at g1
      simp only [Res.bind_ok, Res.ok.injEq] at g1
      cases b' with
      | false =>
        simp only [Bool.false_eq_true, if_false, Prod.mk.injEq] at g1
        obtain ⟨rfl, rfl⟩ := g1
        obtain ⟨k1, k2, _⟩ := g3 rfl
        refine ⟨q, false, rfl, ?_, fun _ => ⟨k1, k2.trans hrep⟩, fun hb => by cases hb⟩
        exact ⟨g2.mask, g2.gmask, g2.clen, g2.size, g2.thr, g2.mlf, g2.rev⟩
      | true =>
        simp only [if_true, Prod.mk.injEq] at g1
        obtain ⟨rfl, rfl⟩ := g1
        obtain ⟨k1, k2, k3, k4⟩ := g4 rfl
        refine ⟨q, true, rfl, ⟨g2.mask, g2.gmask, g2.clen, g2.size, g2.thr, g2.mlf, g2.rev⟩, fun hb => (by cases hb),
          fun _ => ⟨k1, fun hB => k2 (hB.perm hrep), k3, ?_⟩⟩
        have hp := (k4 e (upd_self _ _ _) (by rw [hw.self]; show m < 255; omega)).trans hrep
        exact hp.cons_inv

end Verif.Rob16
