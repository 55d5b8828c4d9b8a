/-
Invariant of the robin hood table (direct layout, no stored hash) and its preservation by the
elementary steps: probing, placing an element, backward shift.
-/
import Verif.Robin
import Verif.ListAux
import Verif.History

namespace Verif.Robin
open Spec (Distinct)

variable {K V : Type} {E : Env K}

/-- Home position of a key in a block of capacity `c`. -/
def hm (E : Env K) (c : Nat) (k : K) : Nat := E.h k % c

/-- Control words behind the last slot. -/
def tailCtrl (c : Nat) : Ctrl := if c < 32 then .endOf else .empty

/-- Sizes and pointers of an allocated map of capacity `c`. -/
structure Shape (t : Map K V) (c : Nat) : Prop where
  alloc : t.alloc = true
  pow : ∃ j, 2 ≤ j ∧ j ≤ 48 ∧ c = 2 ^ j
  mask : t.mask = c - 1
  look : t.look = lookups c
  slen : t.slen = c + lookups c
  last : t.last = some t.slen
  clen : t.clen = ((c + lookups c + 31) / 32 + 1) * 32

/-- A slot and its control word. -/
def CellOK (E : Env K) (c : Nat) (x : Ctrl) (o : Option (K × V)) (p : Nat) : Prop :=
  (o = none ∧ x = Ctrl.empty) ∨
    ∃ e, o = some e ∧ hm E c e.1 ≤ p ∧ p - hm E c e.1 ≤ 127 ∧ x = ⟨(p : Int) - (hm E c e.1 : Int), 0⟩

/-- The invariant of an allocated map of capacity `c`. -/
structure Good (E : Env K) (t : Map K V) (c : Nat) : Prop extends Shape t c where
  cell : ∀ p, p < t.slen → CellOK E c (t.ctrl p) (t.slot p) p
  tail : ∀ p, t.slen ≤ p → t.slot p = none ∧ (p < t.clen → t.ctrl p = tailCtrl c)
  order : ∀ p, p + 1 < t.slen → 0 < (t.ctrl (p + 1)).dist → (t.ctrl (p + 1)).dist ≤ (t.ctrl p).dist + 1
  distinct : Distinct E.eq (entries t)
  size : t.size = (entries t).length

/-- What remains of the invariant when `insert_to_place` gives up with `kNeedGrow`. -/
structure Weak (E : Env K) (t : Map K V) (c : Nat) : Prop extends Shape t c where
  cell : ∀ p, p < t.slen → (t.slot p = none ∧ t.ctrl p = Ctrl.empty) ∨ (∃ e, t.slot p = some e ∧ 0 ≤ (t.ctrl p).dist ∧ (t.ctrl p).hash = 0)
  tail : ∀ p, t.slen ≤ p → t.slot p = none ∧ (p < t.clen → t.ctrl p = tailCtrl c)
  distinct : Distinct E.eq (entries t)
  size : t.size = (entries t).length

theorem Good.weak {t : Map K V} {c : Nat} (h : Good E t c) : Weak E t c where
  toShape := h.toShape
  cell := by
    intro p hp
    rcases h.cell p hp with h1 | ⟨e, h1, h2, h3, h4⟩
    · exact Or.inl h1
    · refine Or.inr ⟨e, h1, ?_, by rw [h4]⟩
      rw [h4]; simp only; omega
  tail := h.tail
  distinct := h.distinct
  size := h.size

/-! ### Numbers -/

theorem lookups_bounds (c : Nat) : 4 ≤ lookups c ∧ lookups c ≤ 128 := by
  unfold lookups minLookups
  simp only
  split <;> omega

theorem wrap8_id {x : Int} (h1 : -128 ≤ x) (h2 : x ≤ 127) : Ctrl.wrap8 x = x := by
  unfold Ctrl.wrap8; omega

namespace Shape
variable {t : Map K V} {c : Nat}

theorem c_ge (h : Shape t c) : 4 ≤ c := by
  obtain ⟨j, h1, _, rfl⟩ := h.pow
  calc 4 = 2 ^ 2 := rfl
    _ ≤ 2 ^ j := Nat.pow_le_pow_right (by decide) h1

theorem slotCap (h : Shape t c) : slotCap t = c := by
  have := h.c_ge
  have hm := h.mask
  unfold Robin.slotCap
  rw [if_neg (by omega)]
  omega

theorem maxCap (h : Shape t c) : maxCap t = t.slen := by
  unfold Robin.maxCap
  rw [h.slotCap, h.look, h.slen]

theorem clen_ge (h : Shape t c) : t.slen + 32 ≤ t.clen := by
  rw [h.clen, h.slen]; omega

theorem maxDist (h : Shape t c) : 1024 ≤ maxDist t := by
  unfold Robin.maxDist
  rw [h.look]
  have := lookups_bounds c
  rw [Nat.mod_eq_of_lt (by omega)]
  omega

theorem home (h : Shape t c) (k : K) : home E t k = hm E c k := by
  obtain ⟨j, _, _, rfl⟩ := h.pow
  unfold Robin.home hm
  rw [h.mask, Nat.and_two_pow_sub_one_eq_mod]

theorem hm_lt (h : Shape t c) (k : K) : hm E c k < c := Nat.mod_lt _ (by have := h.c_ge; omega)

theorem c_le_slen (h : Shape t c) : c + 4 ≤ t.slen := by
  have := lookups_bounds c
  rw [h.slen]; omega
end Shape

theorem uval_lt (d : Ctrl) : d.uval false < 256 := by
  unfold Ctrl.uval
  simp only [Bool.false_eq_true, if_false]
  omega

theorem Shape.no_max {t : Map K V} {c : Nat} (h : Shape t c) (d : Ctrl) : decide (Robin.maxDist t ≤ d.uval false) = false := by
  have h1 := h.maxDist
  have h2 := uval_lt d
  exact decide_eq_false (by omega)

/-! ### Entries -/

theorem mem_entries {t : Map K V} {e : K × V} : e ∈ entries t ↔ ∃ p, p < t.slen ∧ t.slot p = some e :=
  mem_filterMap_range _ _

theorem entries_congr {t t' : Map K V} (h1 : t'.slen = t.slen) (h2 : ∀ p, p < t.slen → t'.slot p = t.slot p) :
    entries t' = entries t := by
  unfold entries
  rw [h1]
  apply filterMap_congr'
  intro p hp
  exact h2 p (List.mem_range.mp hp)

/-- Exchanging the contents of two occupied slots. -/
theorem perm_swap {α : Type} {n i j : Nat} (hi : i < n) (hj : j < n) (hij : i ≠ j) (f : Nat → Option α) {a b : α}
    (ha : f i = some a) (hb : f j = some b) :
    ((List.range n).filterMap (upd (upd f i (some b)) j (some a))).Perm ((List.range n).filterMap f) := by
  have e1 := perm_upd_none hi f a ha
  have hb' : upd f i none j = some b := by rw [upd_other _ _ (fun h => hij h.symm)]; exact hb
  have e2 := perm_upd_none hj (upd f i none) b hb'
  have e3 := perm_upd_some hj (upd (upd f i none) j none) (upd_self _ _ _) a
  have e4 := perm_upd_some hi (upd (upd (upd f i none) j none) j (some a))
    (by rw [upd_other _ _ hij, upd_other _ _ hij, upd_self]) b
  have hfun : upd (upd (upd (upd f i none) j none) j (some a)) i (some b) = upd (upd f i (some b)) j (some a) := by
    funext x
    by_cases hx : x = i
    · subst hx; rw [upd_self, upd_other _ _ hij, upd_self]
    · by_cases hy : x = j
      · subst hy; rw [upd_other _ _ hx, upd_self, upd_self]
      · simp only [upd, hx, hy, if_false]
  rw [hfun] at e4
  refine e4.trans ?_
  refine (List.Perm.cons _ e3).trans ?_
  refine (List.Perm.swap _ _ _).trans ?_
  refine (List.Perm.cons _ e2.symm).trans ?_
  exact e1.symm

/-- Moving the content of an occupied slot to a free one. -/
theorem perm_move {α : Type} {n i j : Nat} (hi : i < n) (hj : j < n) (hij : i ≠ j) (f : Nat → Option α) {a : α}
    (ha : f j = some a) (hb : f i = none) :
    ((List.range n).filterMap (upd (upd f i (some a)) j none)).Perm ((List.range n).filterMap f) := by
  have e1 := perm_upd_some hi f hb a
  have e2 := perm_upd_none hj (upd f i (some a)) a (by rw [upd_other _ _ (fun h => hij h.symm)]; exact ha)
  exact (List.Perm.cons_inv (a := a) (e2.symm.trans e1))

/-! ### Probing -/

theorem Good.used {t : Map K V} {c p : Nat} (h : Good E t c) (hp : p < t.slen) (hd : 0 ≤ (t.ctrl p).dist) :
    ∃ e, t.slot p = some e ∧ hm E c e.1 ≤ p ∧ p - hm E c e.1 ≤ 127 ∧ t.ctrl p = ⟨(p : Int) - (hm E c e.1 : Int), 0⟩ := by
  rcases h.cell p hp with ⟨_, h2⟩ | h2
  · rw [h2] at hd; simp [Ctrl.empty] at hd
  · exact h2

theorem Good.lt_slen {t : Map K V} {c p : Nat} (h : Good E t c) (hp : p < t.clen) (hd : 0 ≤ (t.ctrl p).dist) : p < t.slen := by
  apply Classical.byContradiction
  intro hn
  have := (h.tail p (by omega)).2 hp
  rw [this] at hd
  unfold tailCtrl at hd
  split at hd <;> simp [Ctrl.empty, Ctrl.endOf] at hd

theorem Good.dist_le {t : Map K V} {c p : Nat} (h : Good E t c) (hp : p < t.clen) : -2 ≤ (t.ctrl p).dist ∧ (t.ctrl p).dist ≤ 127 ∧
    (t.ctrl p).hash = 0 := by
  by_cases hs : p < t.slen
  · rcases h.cell p hs with ⟨_, h2⟩ | ⟨e, _, h3, h4, h5⟩
    · rw [h2]; simp [Ctrl.empty]
    · rw [h5]; exact ⟨by simp only; omega, by simp only; omega, rfl⟩
  · rw [(h.tail p (by omega)).2 hp]
    unfold tailCtrl
    split <;> simp [Ctrl.empty, Ctrl.endOf]

/-- Every cell between the home position of an element and the element itself is at least as far from home. -/
theorem Good.chain {t : Map K V} {c p : Nat} {e : K × V} (h : Good E t c) (hp : p < t.slen) (he : t.slot p = some e) :
    ∀ n m, m + n = p - hm E c e.1 → (m : Int) ≤ (t.ctrl (hm E c e.1 + m)).dist := by
  have hc : hm E c e.1 ≤ p ∧ t.ctrl p = ⟨(p : Int) - (hm E c e.1 : Int), 0⟩ := by
    rcases h.cell p hp with ⟨h1, _⟩ | ⟨e', h1, h2, _, h4⟩
    · rw [h1] at he; cases he
    · rw [h1] at he; cases he; exact ⟨h2, h4⟩
  intro n
  induction n with
  | zero =>
    intro m hm'
    have : hm E c e.1 + m = p := by omega
    rw [this, hc.2]; simp only; omega
  | succ n ih =>
    intro m hm'
    have h1 := ih (m + 1) (by omega)
    have h2 := h.order (hm E c e.1 + m) (by omega) (by rw [Nat.add_assoc]; omega)
    rw [← Nat.add_assoc] at h1
    omega

/-- The loop has passed `n` cells from the home position `h0`: all of them at least as far from home, none with the key. -/
def Passed (E : Env K) (t : Map K V) (k : K) (h0 n : Nat) : Prop :=
  ∀ m, m < n → (m : Int) ≤ (t.ctrl (h0 + m)).dist ∧ ∀ e, t.slot (h0 + m) = some e → E.eq e.1 k = false

/-- Where a probe for an absent key stops. -/
structure Stop (t : Map K V) (h0 : Nat) (i : Nat) (d : Ctrl) : Prop where
  ge : h0 ≤ i
  d_eq : d = ⟨(i : Int) - (h0 : Int), 0⟩
  le : i - h0 ≤ 127
  lt : i < t.clen
  less : (t.ctrl i).dist < d.dist
  before : ∀ m, m < i - h0 → (m : Int) ≤ (t.ctrl (h0 + m)).dist

theorem hm_congr (hE : E.Lawful) {c : Nat} {a b : K} (h : E.eq a b = true) : hm E c a = hm E c b := by
  unfold hm Env.h
  rw [hE.congr a b h]

/-- A key that the probe has not met is not in the map. -/
theorem absent_of_stop (hE : E.Lawful) {t : Map K V} {c : Nat} (h : Good E t c) {k : K} {i : Nat} {d : Ctrl}
    (hs : Stop t (hm E c k) i d) (hp : Passed E t k (hm E c k) (i - hm E c k)) : ∀ e ∈ entries t, E.eq e.1 k = false := by
  intro e he
  obtain ⟨p, hp1, hp2⟩ := mem_entries.mp he
  cases hq : E.eq e.1 k with
  | false => rfl
  | true =>
    exfalso
    have hh := hm_congr (c := c) hE hq
    have hle : hm E c e.1 ≤ p := by
      rcases h.cell p hp1 with ⟨h1, _⟩ | ⟨e', h1, h2, _, _⟩
      · rw [h1] at hp2; cases hp2
      · rw [h1] at hp2; cases hp2; exact h2
    by_cases hlt : p < i
    · have := (hp (p - hm E c k) (by omega)).2 e (by rw [Nat.add_sub_cancel' (by omega)]; exact hp2)
      rw [hq] at this; cases this
    · have hge := hs.ge
      have := h.chain hp1 hp2 (p - i) (i - hm E c k) (by omega)
      rw [hh, Nat.add_sub_cancel' hge] at this
      have hl := hs.less
      rw [hs.d_eq] at hl
      simp only at hl
      omega

theorem val_false (x : Ctrl) : x.val false = x.dist := by simp [Ctrl.val]

/-- The distance byte is about to overflow: 128 cells in a row from `h0` on, each at least as far from home. -/
def Crowded (t : Map K V) (h0 : Nat) : Prop := ∀ m, m ≤ 127 → h0 + m < t.slen ∧ (m : Int) ≤ (t.ctrl (h0 + m)).dist

theorem probeLoop_spec {t : Map K V} {c : Nat} (h : Good E t c) {k : K} : ∀ (f n : Nat), n ≤ 127 →
    f = t.clen - (hm E c k + n) → hm E c k + n < t.clen → Passed E t k (hm E c k) n →
    match probeLoop false true E t k f (hm E c k + n) ⟨(n : Int), 0⟩ with
    | .ok (.hit i) => i < t.slen ∧ ∃ e, t.slot i = some e ∧ E.eq e.1 k = true
    | .ok (.stop i d) => Stop t (hm E c k) i d ∧ Passed E t k (hm E c k) (i - hm E c k)
    | .diverge => False
    | .ub => Crowded t (hm E c k) ∧ Passed E t k (hm E c k) 128 := by
  intro f
  induction f with
  | zero => intro n _ _ _ _; omega
  | succ f ih =>
    intro n hn hf hlt hp
    unfold probeLoop
    rw [val_false, val_false]
    by_cases hle : (n : Int) ≤ (t.ctrl (hm E c k + n)).dist
    · have hs := h.lt_slen hlt (by omega)
      obtain ⟨e, he, _⟩ := h.used hs (by omega)
      simp only [hle, if_true, Bool.not_false, Bool.true_or, he, Bool.true_and]
      cases hq : E.eq e.1 k with
      | true => simp only [if_true]; exact ⟨hs, e, he, hq⟩
      | false =>
        by_cases h127 : (n : Int) = 127
        · simp only [h127, Bool.false_eq_true, if_false, BEq.rfl, if_true]
          constructor
          · intro m hm'
            by_cases hmn : m = n
            · subst hmn; exact ⟨hs, hle⟩
            · have h1 := (hp m (by omega)).1
              exact ⟨h.lt_slen (by omega) (by omega), h1⟩
          · intro m hm'
            by_cases hmn : m = n
            · subst hmn
              refine ⟨hle, ?_⟩
              intro e' he'
              rw [he] at he'; cases he'; exact hq
            · exact hp m (by omega)
        · have hinc : Ctrl.inc ⟨(n : Int), 0⟩ = ⟨((n + 1 : Nat) : Int), 0⟩ := by
            unfold Ctrl.inc
            rw [wrap8_id (by simp only; omega) (by simp only; omega)]
            simp
          simp only [Bool.false_eq_true, if_false, beq_iff_eq, h127]
          rw [hinc, Nat.add_assoc]
          have := h.toShape.clen_ge
          apply ih (n + 1) (by omega) (by omega) (by omega)
          intro m hm'
          by_cases hmn : m = n
          · subst hmn
            refine ⟨hle, ?_⟩
            intro e' he'
            rw [he] at he'; cases he'; exact hq
          · exact hp m (by omega)
    · simp only [hle, if_false]
      refine ⟨⟨by omega, ?_, by omega, hlt, by simp only; omega, ?_⟩, ?_⟩
      · congr 1; omega
      · intro m hm'; exact (hp m (by omega)).1
      · have : hm E c k + n - hm E c k = n := by omega
        rw [this]; exact hp

theorem probe_spec {t : Map K V} {c : Nat} (h : Good E t c) (k : K) :
    match probe false true E t k with
    | .ok (.hit i) => i < t.slen ∧ ∃ e, t.slot i = some e ∧ E.eq e.1 k = true
    | .ok (.stop i d) => Stop t (hm E c k) i d ∧ Passed E t k (hm E c k) (i - hm E c k)
    | .diverge => False
    | .ub => Crowded t (hm E c k) ∧ Passed E t k (hm E c k) 128 := by
  unfold probe
  rw [h.toShape.home]
  have := h.toShape.hm_lt (E := E) k
  have := h.toShape.c_le_slen
  have := h.toShape.clen_ge
  exact probeLoop_spec h _ 0 (by omega) (by omega) (by omega) (by intro m hm; omega)

theorem seekLoop_spec {t : Map K V} {c : Nat} (h : Good E t c) {h0 : Nat} : ∀ (f n : Nat), n ≤ 127 →
    f = t.clen - (h0 + n) → h0 + n < t.clen → (∀ m, m < n → (m : Int) ≤ (t.ctrl (h0 + m)).dist) →
    match seekLoop false true t f (h0 + n) ⟨(n : Int), 0⟩ with
    | .ok (i, d) => Stop t h0 i d
    | .diverge => False
    | .ub => Crowded t h0 := by
  intro f
  induction f with
  | zero => intro n _ _ _ _; omega
  | succ f ih =>
    intro n hn hf hlt hp
    unfold seekLoop
    rw [val_false, val_false]
    by_cases hle : (n : Int) ≤ (t.ctrl (h0 + n)).dist
    · simp only [hle, if_true, Bool.true_and]
      have hs := h.lt_slen hlt (by omega)
      by_cases h127 : (n : Int) = 127
      · simp only [h127, BEq.rfl, if_true]
        intro m hm'
        by_cases hmn : m = n
        · subst hmn; exact ⟨hs, hle⟩
        · have h1 := hp m (by omega)
          exact ⟨h.lt_slen (by omega) (by omega), h1⟩
      · have hinc : Ctrl.inc ⟨(n : Int), 0⟩ = ⟨((n + 1 : Nat) : Int), 0⟩ := by
          unfold Ctrl.inc
          rw [wrap8_id (by simp only; omega) (by simp only; omega)]
          simp
        simp only [beq_iff_eq, h127, if_false]
        rw [hinc, Nat.add_assoc]
        have := h.toShape.clen_ge
        apply ih (n + 1) (by omega) (by omega) (by omega)
        intro m hm'
        by_cases hmn : m = n
        · subst hmn; exact hle
        · exact hp m (by omega)
    · simp only [hle, if_false]
      refine ⟨by omega, ?_, by omega, hlt, by simp only; omega, ?_⟩
      · congr 1; omega
      · intro m hm'; exact hp m (by omega)

theorem seek_spec {t : Map K V} {c : Nat} (h : Good E t c) (k : K) :
    match seek false true E t k with
    | .ok (i, d) => Stop t (hm E c k) i d
    | .diverge => False
    | .ub => Crowded t (hm E c k) := by
  unfold seek
  rw [h.toShape.home]
  have := h.toShape.hm_lt (E := E) k
  have := h.toShape.c_le_slen
  have := h.toShape.clen_ge
  exact seekLoop_spec h (h0 := hm E c k) _ 0 (by omega) (by omega) (by omega) (by intro m hm; omega)

end Verif.Robin
