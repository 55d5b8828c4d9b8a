/-
Robin hood insertion keeps the invariant: placing an element, erasing with backward shift.
-/
import Verif.RobinInv

namespace Verif.Robin
open Spec (Distinct)

variable {K V : Type} {E : Env K}

/-- `t` and `t0` differ in control words and slots only. -/
def SameShape (t0 t : Map K V) : Prop := t = { t0 with ctrl := t.ctrl, slot := t.slot }

theorem SameShape.refl (t : Map K V) : SameShape t t := rfl

theorem SameShape.upd {t0 t : Map K V} (h : SameShape t0 t) (f : Nat → Ctrl) (g : Nat → Option (K × V)) :
    SameShape t0 { t with ctrl := f, slot := g } := by
  unfold SameShape at h ⊢
  rw [h]

theorem SameShape.slen {t0 t : Map K V} (h : SameShape t0 t) : t.slen = t0.slen := by rw [h]
theorem SameShape.clen {t0 t : Map K V} (h : SameShape t0 t) : t.clen = t0.clen := by rw [h]
theorem SameShape.size {t0 t : Map K V} (h : SameShape t0 t) : t.size = t0.size := by rw [h]
theorem SameShape.last {t0 t : Map K V} (h : SameShape t0 t) : t.last = t0.last := by rw [h]
theorem SameShape.look {t0 t : Map K V} (h : SameShape t0 t) : t.look = t0.look := by rw [h]
theorem SameShape.thr {t0 t : Map K V} (h : SameShape t0 t) : t.thr = t0.thr := by rw [h]
theorem SameShape.mlf {t0 t : Map K V} (h : SameShape t0 t) : t.mlf = t0.mlf := by rw [h]
theorem SameShape.rev {t0 t : Map K V} (h : SameShape t0 t) : t.rev = t0.rev := by rw [h]

theorem SameShape.shape {t0 t : Map K V} {c : Nat} (h : SameShape t0 t) (hs : Shape t0 c) : Shape t c := by
  rw [h]
  exact ⟨hs.alloc, hs.pow, hs.mask, hs.look, hs.slen, hs.last, hs.clen⟩

/-- The state of `insert_to_place` before it looks at index `i`; `ec` is the carried element. -/
structure Carry (E : Env K) (c : Nat) (t0 t : Map K V) (p0 i : Nat) (d rich : Ctrl) (ec : K × V) : Prop where
  same : SameShape t0 t
  lt : p0 < i
  le : i ≤ t0.slen
  ctrlOut : ∀ p, p < p0 ∨ i ≤ p → t.ctrl p = t0.ctrl p
  slotOut : ∀ p, p < p0 ∨ i ≤ p → t.slot p = t0.slot p
  d0 : t.ctrl p0 = d
  s0 : t.slot p0 = some ec
  rich_eq : rich = ⟨(i : Int) - (hm E c ec.1 : Int), 0⟩
  rich_pos : 0 < rich.dist
  rich_le : rich.dist ≤ 127
  orig : (t0.ctrl (i - 1)).dist + 1 = rich.dist
  prev : rich.dist ≤ (t.ctrl (i - 1)).dist + 1
  cells : ∀ p, p0 < p → p < i → ∃ e, t.slot p = some e ∧ hm E c e.1 ≤ p ∧ p - hm E c e.1 ≤ 127 ∧
    t.ctrl p = ⟨(p : Int) - (hm E c e.1 : Int), 0⟩
  order : ∀ p, p0 ≤ p → p + 1 < i → 0 < (t.ctrl (p + 1)).dist → (t.ctrl (p + 1)).dist ≤ (t.ctrl p).dist + 1
  perm : (entries t).Perm (entries t0)
  full : ∀ p, p0 ≤ p → p < i → 0 ≤ (t0.ctrl p).dist

/-- `insert_to_place` finds no empty slot from `p0` on. -/
def NoRoom (t : Map K V) (p0 : Nat) : Prop := ∀ p, p0 ≤ p → p < t.slen → 0 ≤ (t.ctrl p).dist

/-- The distance byte of a carried element is about to overflow. -/
def Wraps (t : Map K V) (p0 : Nat) : Prop :=
  ∃ q, p0 ≤ q ∧ q < t.slen ∧ (t.ctrl q).dist = 127 ∧ ∀ p, p0 ≤ p → p ≤ q → 0 ≤ (t.ctrl p).dist

/-- Room has been made at index `p0`: everything but slot `p0` is as in a good map. -/
structure Made (E : Env K) (c : Nat) (t0 t : Map K V) (p0 : Nat) (d : Ctrl) : Prop where
  same : SameShape t0 t
  d0 : t.ctrl p0 = d
  s0 : t.slot p0 = none
  cells : ∀ p, p < t0.slen → p ≠ p0 → CellOK E c (t.ctrl p) (t.slot p) p
  tail : ∀ p, t0.slen ≤ p → t.slot p = none ∧ (p < t0.clen → t.ctrl p = tailCtrl c)
  order : ∀ p, p + 1 < t0.slen → 0 < (t.ctrl (p + 1)).dist → (t.ctrl (p + 1)).dist ≤ (t.ctrl p).dist + 1
  perm : (entries t).Perm (entries t0)

theorem needGrow_spec {c : Nat} {t0 t : Map K V} {p0 i : Nat} {d rich : Ctrl} {ec : K × V} (h0 : Good E t0 c) (hE : E.Lawful)
    (h : Carry E c t0 t p0 i d rich ec) {r : Ctrl} (hr : 0 ≤ r.dist) (hr0 : r.hash = 0) : ∃ t', needGrow p0 t r = .ok (t', false) ∧
    Weak E t' c ∧ SameShape t0 t' ∧ (entries t').Perm (entries t0) := by
  unfold needGrow
  rw [h.s0]
  have hsame : SameShape t0 { t with ctrl := upd t.ctrl p0 r } := h.same.upd _ _
  have hent : entries { t with ctrl := upd t.ctrl p0 r } = entries t := rfl
  refine ⟨_, rfl, ?_, hsame, by rw [hent]; exact h.perm⟩
  refine { toShape := hsame.shape h0.toShape, cell := ?_, tail := ?_, distinct := ?_, size := ?_ }
  · intro p hp
    have hp' : p < t0.slen := by rw [hsame.slen] at hp; exact hp
    simp only
    by_cases hpe : p = p0
    · subst hpe
      right
      exact ⟨ec, h.s0, by rw [upd_self]; exact hr, by rw [upd_self]; exact hr0⟩
    · rw [upd_other _ _ hpe]
      by_cases hin : p0 < p ∧ p < i
      · right
        obtain ⟨e, e1, e2, e3, e4⟩ := h.cells p hin.1 hin.2
        exact ⟨e, e1, by rw [e4]; simp only; omega, by rw [e4]⟩
      · rw [h.ctrlOut p (by omega), h.slotOut p (by omega)]
        exact h0.weak.cell p hp'
  · intro p hp
    have hp' : t0.slen ≤ p := by rw [hsame.slen] at hp; exact hp
    have hpe : p ≠ p0 := by have := h.lt; have := h.le; omega
    simp only
    rw [upd_other _ _ hpe, h.ctrlOut p (by have := h.le; omega), h.slotOut p (by have := h.le; omega), h.same.clen]
    exact h0.tail p hp'
  · rw [hent]; exact Spec.Distinct.perm hE h.perm.symm h0.distinct
  · rw [hent, h.perm.length_eq, ← h0.size]; exact h.same.size

theorem placeLoop_spec (hE : E.Lawful) {c : Nat} {t0 : Map K V} {p0 : Nat} {d : Ctrl} (h0 : Good E t0 c)
    (hd : d.dist ≤ (t0.ctrl (p0 - 1)).dist + 1) (hp0 : 1 ≤ p0) (rh : Bool) :
    ∀ (f : Nat) (t : Map K V) (i : Nat) (rich : Ctrl) (ec : K × V), f = t0.slen - i → Carry E c t0 t p0 i d rich ec →
    match placeLoop false true rh p0 f t i rich with
    | .ok (t', true) => Made E c t0 t' p0 d
    | .ok (t', false) => (Weak E t' c ∧ SameShape t0 t' ∧ (entries t').Perm (entries t0)) ∧ NoRoom t0 p0
    | .diverge => False
    | .ub => Wraps t0 p0 := by
  intro f
  induction f with
  | zero =>
    intro t i rich ec hf h
    unfold placeLoop
    obtain ⟨t', e1, e2, e3, e4⟩ := needGrow_spec h0 hE h (r := rich) (by have := h.rich_pos; omega) (by rw [h.rich_eq])
    rw [e1]
    exact ⟨⟨e2, e3, e4⟩, fun p hp1 hp2 => h.full p hp1 (by omega)⟩
  | succ f ih =>
    intro t i rich ec hf h
    have hlt : i < t0.slen := by omega
    have hp0i := h.lt
    have hci : t.ctrl i = t0.ctrl i := h.ctrlOut i (Or.inr (Nat.le_refl _))
    have hsi : t.slot i = t0.slot i := h.slotOut i (Or.inr (Nat.le_refl _))
    have hrp := h.rich_pos
    have hrl := h.rich_le
    have hclen := h0.toShape.clen_ge
    unfold placeLoop
    rw [hci]
    by_cases hemp : (t0.ctrl i).isEmpty = true
    · rw [if_pos hemp, h.s0]
      have hemp' : (t0.ctrl i).dist = -1 := by simpa [Ctrl.isEmpty] using hemp
      have hnone : t0.slot i = none := by
        rcases h0.cell i hlt with ⟨h1, _⟩ | ⟨e, _, h2, _, h3⟩
        · exact h1
        · rw [h3] at hemp'; simp only at hemp'; omega
      simp only
      refine { same := h.same.upd _ _, d0 := ?_, s0 := upd_self _ _ _, cells := ?_, tail := ?_, order := ?_, perm := ?_ }
      · show upd t.ctrl i rich p0 = d
        rw [upd_other _ _ (by omega)]; exact h.d0
      · intro p hp hpe
        show CellOK E c (upd t.ctrl i rich p) (upd (upd t.slot i (some ec)) p0 none p) p
        rw [upd_other _ _ hpe]
        by_cases hpi : p = i
        · subst hpi
          rw [upd_self, upd_self]
          right
          have hre := h.rich_eq
          rw [hre] at hrl hrp
          simp only at hrl hrp
          exact ⟨ec, rfl, by omega, by omega, hre⟩
        · rw [upd_other _ _ hpi, upd_other _ _ hpi]
          by_cases hin : p0 < p ∧ p < i
          · obtain ⟨e, e1, e2, e3, e4⟩ := h.cells p hin.1 hin.2
            exact Or.inr ⟨e, e1, e2, e3, e4⟩
          · rw [h.ctrlOut p (by omega), h.slotOut p (by omega)]
            exact h0.cell p hp
      · intro p hp
        show upd (upd t.slot i (some ec)) p0 none p = none ∧ (p < t0.clen → upd t.ctrl i rich p = tailCtrl c)
        rw [upd_other _ _ (by omega), upd_other _ _ (by omega), upd_other _ _ (by omega), h.ctrlOut p (by omega),
          h.slotOut p (by omega)]
        exact h0.tail p hp
      · intro p hp
        show 0 < (upd t.ctrl i rich (p + 1)).dist → (upd t.ctrl i rich (p + 1)).dist ≤ (upd t.ctrl i rich p).dist + 1
        by_cases h1 : p + 1 = i
        · subst h1
          rw [upd_self, upd_other _ _ (by omega)]
          intro _
          have := h.prev
          simpa using this
        · rw [upd_other _ _ h1]
          by_cases h2 : p = i
          · subst h2
            rw [h.ctrlOut (p + 1) (by omega)]
            intro hpos
            have := h0.order p hp hpos
            omega
          · rw [upd_other _ _ h2]
            by_cases h3 : p0 ≤ p ∧ p + 1 < i
            · exact h.order p h3.1 h3.2
            · by_cases h4 : p + 1 = p0
              · subst h4
                rw [h.d0, h.ctrlOut p (by omega)]
                intro _
                simpa using hd
              · rw [h.ctrlOut (p + 1) (by omega), h.ctrlOut p (by omega)]
                exact h0.order p hp
      · refine List.Perm.trans ?_ h.perm
        show ((List.range t.slen).filterMap (upd (upd t.slot i (some ec)) p0 none)).Perm _
        rw [h.same.slen]
        have := perm_move (n := t0.slen) hlt (show p0 < t0.slen by omega) (show i ≠ p0 by omega) t.slot h.s0
          (by rw [hsi]; exact hnone)
        unfold entries
        rw [h.same.slen]
        exact this
    · rw [if_neg hemp]
      have hemp' : (t0.ctrl i).dist ≠ -1 := by simpa [Ctrl.isEmpty] using hemp
      have hused : 0 ≤ (t0.ctrl i).dist := by
        rcases h0.cell i hlt with ⟨_, h1⟩ | ⟨e, _, h2, _, h3⟩
        · rw [h1] at hemp'; simp [Ctrl.empty] at hemp'
        · rw [h3]; simp only; omega
      obtain ⟨e, he1, he2, he3, he4⟩ := h0.used hlt hused
      have hmd : ∀ x : Ctrl, decide (maxDist t ≤ x.uval false) = false := fun x => (h.same.shape h0.toShape).no_max x
      have hre := h.rich_eq
      have horig := h.orig
      by_cases hless : (t0.ctrl i).dist < rich.dist
      · rw [if_pos hless]
        simp only [hmd, Bool.and_false, Bool.false_eq_true, if_false]
        have hdi : (t0.ctrl i).dist + 1 ≤ 127 := by omega
        have hinc : (t0.ctrl i).inc = ⟨(t0.ctrl i).dist + 1, 0⟩ := by
          unfold Ctrl.inc
          rw [wrap8_id (by omega) hdi, (h0.dist_le (p := i) (by omega)).2.2]
        apply ih _ (i + 1) _ e (by omega)
        rw [hinc]
        refine { same := h.same.upd _ _, lt := by omega, le := by omega, ctrlOut := ?_, slotOut := ?_, d0 := ?_, s0 := ?_,
                 rich_eq := ?_, rich_pos := ?_, rich_le := hdi, orig := by simp, prev := ?_, cells := ?_, order := ?_, perm := ?_, full := ?_ }
        · intro p hp
          show upd t.ctrl i rich p = _
          rw [upd_other _ _ (by omega)]; exact h.ctrlOut p (by omega)
        · intro p hp
          show upd (upd t.slot i (t.slot p0)) p0 (t.slot i) p = _
          rw [upd_other _ _ (by omega), upd_other _ _ (by omega)]; exact h.slotOut p (by omega)
        · show upd t.ctrl i rich p0 = d
          rw [upd_other _ _ (by omega)]; exact h.d0
        · show upd (upd t.slot i (t.slot p0)) p0 (t.slot i) p0 = some e
          rw [upd_self, hsi]; exact he1
        · rw [he4]; simp only [Nat.cast_add, Nat.cast_one]; congr 1; omega
        · show 0 < (t0.ctrl i).dist + 1
          omega
        · show (t0.ctrl i).dist + 1 ≤ (upd t.ctrl i rich (i + 1 - 1)).dist + 1
          rw [Nat.add_sub_cancel, upd_self]; omega
        · intro p hp1 hp2
          show ∃ e, upd (upd t.slot i (t.slot p0)) p0 (t.slot i) p = some e ∧ _ ∧ _ ∧ upd t.ctrl i rich p = _
          rw [upd_other _ _ (show p ≠ p0 by omega)]
          by_cases hpi : p = i
          · subst hpi
            rw [upd_self, upd_self, h.s0]
            rw [hre] at hrl hrp
            simp only at hrl hrp
            exact ⟨ec, rfl, by omega, by omega, hre⟩
          · rw [upd_other _ _ hpi, upd_other _ _ hpi]
            exact h.cells p hp1 (by omega)
        · intro p hp1 hp2
          show 0 < (upd t.ctrl i rich (p + 1)).dist → (upd t.ctrl i rich (p + 1)).dist ≤ (upd t.ctrl i rich p).dist + 1
          rw [upd_other _ _ (show p ≠ i by omega)]
          by_cases h1 : p + 1 = i
          · subst h1
            rw [upd_self]
            intro _
            have := h.prev
            simpa using this
          · rw [upd_other _ _ h1]
            exact h.order p hp1 (by omega)
        · refine List.Perm.trans ?_ h.perm
          unfold entries
          show ((List.range t.slen).filterMap (upd (upd t.slot i (t.slot p0)) p0 (t.slot i))).Perm _
          rw [h.same.slen, h.s0, hsi, he1]
          exact perm_swap (n := t0.slen) hlt (show p0 < t0.slen by omega) (show i ≠ p0 by omega) t.slot (hsi.trans he1) h.s0
        · intro p hp1 hp2
          by_cases hpi : p = i
          · subst hpi; exact hused
          · exact h.full p hp1 (by omega)
      · rw [if_neg hless]
        simp only [hmd, Bool.and_false, Bool.false_eq_true, if_false, Bool.true_and]
        by_cases h127 : rich.dist = 127
        · simp only [h127, BEq.rfl, if_true]
          refine ⟨i, by omega, hlt, by have := h0.dist_le (p := i) (by omega); omega, ?_⟩
          intro p hp1 hp2
          by_cases hpi : p = i
          · subst hpi; exact hused
          · exact h.full p hp1 (by omega)
        · simp only [beq_iff_eq, h127, if_false]
          -- equal homes: the cell stays
          have hdpos : 0 < (t0.ctrl i).dist := by omega
          obtain ⟨q, rfl⟩ : ∃ q, i = q + 1 := ⟨i - 1, by omega⟩
          have hord := h0.order q hlt hdpos
          simp only [Nat.add_sub_cancel] at horig
          have heq : (t0.ctrl (q + 1)).dist = rich.dist := by omega
          have hinc : rich.inc = ⟨rich.dist + 1, 0⟩ := by
            unfold Ctrl.inc
            rw [wrap8_id (by omega) (by omega), hre]
          apply ih _ (q + 1 + 1) _ ec (by omega)
          rw [hinc]
          refine { same := h.same, lt := by omega, le := by omega, ctrlOut := ?_, slotOut := ?_, d0 := h.d0, s0 := h.s0,
                   rich_eq := ?_, rich_pos := ?_, rich_le := ?_, orig := ?_, prev := ?_, cells := ?_, order := ?_, perm := h.perm,
                   full := ?_ }
          · intro p hp; exact h.ctrlOut p (by omega)
          · intro p hp; exact h.slotOut p (by omega)
          · rw [hre]; simp only [Nat.cast_add, Nat.cast_one]; congr 1; omega
          · show 0 < rich.dist + 1
            omega
          · show rich.dist + 1 ≤ 127
            omega
          · show (t0.ctrl (q + 1 + 1 - 1)).dist + 1 = rich.dist + 1
            rw [Nat.add_sub_cancel, heq]
          · show rich.dist + 1 ≤ (t.ctrl (q + 1 + 1 - 1)).dist + 1
            rw [Nat.add_sub_cancel, hci, heq]
          · intro p hp1 hp2
            by_cases hpi : p = q + 1
            · subst hpi
              rw [hsi, hci]
              exact ⟨e, he1, he2, he3, he4⟩
            · exact h.cells p hp1 (by omega)
          · intro p hp1 hp2
            by_cases h1 : p = q
            · subst h1
              rw [hci, heq]
              intro _
              have := h.prev
              simpa using this
            · exact h.order p hp1 (by omega)
          · intro p hp1 hp2
            by_cases hpi : p = q + 1
            · subst hpi; exact hused
            · exact h.full p hp1 (by omega)

theorem insertToPlace_eq {c : Nat} {t : Map K V} (h : Shape t c) (rh : Bool) (i : Nat) (d : Ctrl) :
    insertToPlace false true rh t i d =
      placeLoop false true rh i (t.slen - (i + 1)) { t with ctrl := upd t.ctrl i d } (i + 1) (t.ctrl i).inc := by
  unfold insertToPlace
  split
  · rename_i hn; rw [h.last] at hn; cases hn
  · rename_i n hn; rw [h.last] at hn; cases hn; rfl

/-- The place found by a probe for an absent key, in a good map. -/
theorem place_spec (hE : E.Lawful) {c : Nat} {t : Map K V} (h : Good E t c) {h0 i : Nat} {d : Ctrl} (hs : Stop t h0 i d)
    (hi : i < t.slen) (rh : Bool) :
    match place false true rh t i d with
    | .ok (t', true) => Made E c t t' i d
    | .ok (t', false) => (Weak E t' c ∧ SameShape t t' ∧ (entries t').Perm (entries t)) ∧ NoRoom t i
    | .diverge => False
    | .ub => Wraps t i := by
  unfold place
  rw [if_pos h.alloc]
  have hd := hs.d_eq
  have hge := hs.ge
  have hpred : ∀ p, p + 1 = i → 0 < d.dist → d.dist ≤ (t.ctrl p).dist + 1 := by
    intro p hp hpos
    rw [hd] at hpos ⊢
    simp only at hpos ⊢
    have := hs.before (p - h0) (by omega)
    rw [Nat.add_sub_cancel' (by omega)] at this
    omega
  by_cases hemp : (t.ctrl i).isEmpty = true
  · rw [if_pos hemp]
    have hemp' : (t.ctrl i).dist = -1 := by simpa [Ctrl.isEmpty] using hemp
    have hnone : t.slot i = none := by
      rcases h.cell i hi with ⟨h1, _⟩ | ⟨e, _, h2, _, h3⟩
      · exact h1
      · rw [h3] at hemp'; simp only at hemp'; omega
    simp only
    refine { same := (SameShape.refl t).upd _ _, d0 := upd_self _ _ _, s0 := hnone, cells := ?_, tail := ?_, order := ?_,
             perm := List.Perm.refl _ }
    · intro p hp hpe
      show CellOK E c (upd t.ctrl i d p) _ p
      rw [upd_other _ _ hpe]; exact h.cell p hp
    · intro p hp
      show t.slot p = none ∧ (p < t.clen → upd t.ctrl i d p = tailCtrl c)
      rw [upd_other _ _ (by omega)]; exact h.tail p hp
    · intro p hp
      show 0 < (upd t.ctrl i d (p + 1)).dist → (upd t.ctrl i d (p + 1)).dist ≤ (upd t.ctrl i d p).dist + 1
      by_cases h1 : p + 1 = i
      · rw [h1, upd_self, upd_other _ _ (by omega)]
        exact hpred p h1
      · rw [upd_other _ _ h1]
        by_cases h2 : p = i
        · subst h2
          intro hpos
          have := h.order p hp hpos
          omega
        · rw [upd_other _ _ h2]; exact h.order p hp
  · rw [if_neg hemp]
    rw [insertToPlace_eq h.toShape]
    have hemp' : (t.ctrl i).dist ≠ -1 := by simpa [Ctrl.isEmpty] using hemp
    have hused : 0 ≤ (t.ctrl i).dist := by
      rcases h.cell i hi with ⟨_, h1⟩ | ⟨e, _, h2, _, h3⟩
      · rw [h1] at hemp'; simp [Ctrl.empty] at hemp'
      · rw [h3]; simp only; omega
    obtain ⟨e, he1, he2, he3, he4⟩ := h.used hi hused
    have hless := hs.less
    have hle := hs.le
    have hdd : d.dist = (i : Int) - (h0 : Int) := by rw [hd]
    have hclen := h.toShape.clen_ge
    have hip : 1 ≤ i := by omega
    have hpr := hpred (i - 1) (by omega) (by omega)
    have hinc : (t.ctrl i).inc = ⟨(t.ctrl i).dist + 1, 0⟩ := by
      unfold Ctrl.inc
      rw [wrap8_id (by omega) (by omega), (h.dist_le (p := i) (by omega)).2.2]
    rw [hinc]
    apply placeLoop_spec hE h hpr hip rh _ _ _ _ e rfl
    refine { same := (SameShape.refl t).upd _ _, lt := by omega, le := by omega, ctrlOut := ?_, slotOut := fun p _ => rfl,
             d0 := upd_self _ _ _, s0 := he1, rich_eq := ?_, rich_pos := ?_, rich_le := ?_, orig := by simp,
             prev := ?_, cells := ?_, order := ?_, perm := List.Perm.refl _,
             full := ?_ }
    · intro p hp
      show upd t.ctrl i d p = _
      rw [upd_other _ _ (by omega)]
    · rw [he4]; simp only [Nat.cast_add, Nat.cast_one]; congr 1; omega
    · show 0 < (t.ctrl i).dist + 1
      omega
    · show (t.ctrl i).dist + 1 ≤ 127
      omega
    · show (t.ctrl i).dist + 1 ≤ (upd t.ctrl i d (i + 1 - 1)).dist + 1
      rw [Nat.add_sub_cancel, upd_self]; omega
    · intro p hp1 hp2; omega
    · intro p hp1 hp2; omega
    · intro p hp1 hp2
      have : p = i := by omega
      subst this; exact hused

/-- Constructing the new element in the room made for it. -/
theorem Made.good (hE : E.Lawful) {c : Nat} {t0 t : Map K V} {i : Nat} {d : Ctrl} {k : K} (v : V) (h0 : Good E t0 c)
    (h : Made E c t0 t i d) (hs : Stop t0 (hm E c k) i d) (hi : i < t0.slen) (hk : ∀ e ∈ entries t0, E.eq e.1 k = false) :
    ∃ t', construct i (k, v) t = .ok t' ∧ Good E t' c ∧ (entries t').Perm ((k, v) :: entries t0) ∧ t'.slot i = some (k, v) ∧
      t'.mlf = t0.mlf ∧ t'.rev = t0.rev ∧ t'.thr = t0.thr := by
  unfold construct
  rw [if_pos (show i < t.slen by rw [h.same.slen]; exact hi)]
  have hent : (entries { t with slot := upd t.slot i (some (k, v)), size := t.size + 1 }).Perm ((k, v) :: entries t0) := by
    unfold entries
    show ((List.range t.slen).filterMap (upd t.slot i (some (k, v)))).Perm _
    have h1 := perm_upd_some (n := t.slen) (by rw [h.same.slen]; exact hi) t.slot h.s0 (k, v)
    exact h1.trans (List.Perm.cons _ h.perm)
  have hsh : Shape { t with slot := upd t.slot i (some (k, v)), size := t.size + 1 } c := by
    have := h.same.shape h0.toShape
    exact ⟨this.alloc, this.pow, this.mask, this.look, this.slen, this.last, this.clen⟩
  refine ⟨_, rfl, ?_, hent, upd_self _ _ _, h.same.mlf, h.same.rev, h.same.thr⟩
  refine { toShape := hsh, cell := ?_, tail := ?_, order := ?_, distinct := ?_, size := ?_ }
  · intro p hp
    have hp' : p < t0.slen := by rw [← h.same.slen]; exact hp
    show CellOK E c (t.ctrl p) (upd t.slot i (some (k, v)) p) p
    by_cases hpi : p = i
    · subst hpi
      rw [upd_self, h.d0]
      exact Or.inr ⟨(k, v), rfl, hs.ge, hs.le, hs.d_eq⟩
    · rw [upd_other _ _ hpi]; exact h.cells p hp' hpi
  · intro p hp
    have hp' : t0.slen ≤ p := by rw [← h.same.slen]; exact hp
    show upd t.slot i (some (k, v)) p = none ∧ (p < t.clen → _)
    rw [upd_other _ _ (by omega), h.same.clen]
    exact h.tail p hp'
  · intro p hp
    have hp' : p + 1 < t0.slen := by rw [← h.same.slen]; exact hp
    exact h.order p hp'
  · apply Spec.Distinct.perm hE hent.symm
    rw [Distinct, List.pairwise_cons]
    refine ⟨?_, h0.distinct⟩
    intro e he
    cases hq : E.eq k e.1 with
    | false => rfl
    | true =>
      have := hk e he
      rw [hE.symm _ _ hq] at this
      cases this
  · rw [hent.length_eq]
    show t.size + 1 = _
    rw [h.same.size, h0.size]; rfl

/-- A probe that stops behind the slots: nothing can be constructed there. -/
theorem place_out {c : Nat} {t : Map K V} (h : Good E t c) {i : Nat} {d : Ctrl} (hi : ¬ i < t.slen) (rh : Bool) :
    match place false true rh t i d with
    | .ok (t', true) => SameShape t t'
    | .ok (_, false) => False
    | .diverge => False
    | .ub => True := by
  unfold place
  rw [if_pos h.alloc]
  by_cases hemp : (t.ctrl i).isEmpty = true
  · rw [if_pos hemp]; exact (SameShape.refl t).upd _ _
  · rw [if_neg hemp]
    rw [insertToPlace_eq h.toShape]
    have : t.slen - (i + 1) = 0 := by omega
    rw [this]
    unfold placeLoop needGrow
    simp only [(h.tail i (by omega)).1]

/-! ### Erasing -/

/-- The state of `erase_slot` before it looks at the control word after the hole `i`. -/
structure Hole (E : Env K) (c : Nat) (t0 t : Map K V) (i0 i : Nat) (ee : K × V) : Prop where
  same : SameShape t0 t
  le : i0 ≤ i
  lt : i < t0.slen
  ctrlOut : ∀ p, p < i0 ∨ i ≤ p → t.ctrl p = t0.ctrl p
  slotOut : ∀ p, p < i0 ∨ i < p → t.slot p = t0.slot p
  hole : t.slot i = none
  moved : ∀ p, i0 ≤ p → p < i → t.slot p = t0.slot (p + 1) ∧ 0 < (t0.ctrl (p + 1)).dist ∧
    t.ctrl p = ⟨(t0.ctrl (p + 1)).dist - 1, 0⟩
  used : 0 ≤ (t0.ctrl i).dist
  perm : (ee :: entries t).Perm (entries t0)

/-- The map after the hole has been closed. -/
structure Closed (E : Env K) (c : Nat) (t0 t : Map K V) (ee : K × V) : Prop where
  same : SameShape t0 t
  cells : ∀ p, p < t0.slen → CellOK E c (t.ctrl p) (t.slot p) p
  tail : ∀ p, t0.slen ≤ p → t.slot p = none ∧ (p < t0.clen → t.ctrl p = tailCtrl c)
  order : ∀ p, p + 1 < t0.slen → 0 < (t.ctrl (p + 1)).dist → (t.ctrl (p + 1)).dist ≤ (t.ctrl p).dist + 1
  perm : (ee :: entries t).Perm (entries t0)

theorem shiftLoop_spec {c : Nat} {t0 : Map K V} {i0 : Nat} {ee : K × V} (h0 : Good E t0 c) :
    ∀ (f : Nat) (i : Nat) (t : Map K V), f = t0.clen - (i + 1) → Hole E c t0 t i0 i ee →
    ∃ t', shiftLoop f i t = .ok t' ∧ Closed E c t0 t' ee := by
  intro f
  induction f with
  | zero =>
    intro i t hf h
    have := h0.toShape.clen_ge
    have := h.lt
    omega
  | succ f ih =>
    intro i t hf h
    have hlt := h.lt
    have hle := h.le
    have hcl : i + 1 < t0.clen := by omega
    have hc1 : t.ctrl (i + 1) = t0.ctrl (i + 1) := h.ctrlOut _ (by omega)
    have hs1 : t.slot (i + 1) = t0.slot (i + 1) := h.slotOut _ (by omega)
    unfold shiftLoop
    rw [hc1]
    by_cases hd : (t0.ctrl (i + 1)).dist ≤ 0
    · rw [if_pos hd]
      refine ⟨_, rfl, ?_⟩
      refine { same := h.same.upd _ _, cells := ?_, tail := ?_, order := ?_, perm := h.perm }
      · intro p hp
        show CellOK E c (upd t.ctrl i Ctrl.empty p) (t.slot p) p
        by_cases hpi : p = i
        · subst hpi; rw [upd_self]; exact Or.inl ⟨h.hole, rfl⟩
        · rw [upd_other _ _ hpi]
          by_cases hin : i0 ≤ p ∧ p < i
          · obtain ⟨e1, e2, e3⟩ := h.moved p hin.1 hin.2
            obtain ⟨e, g1, g2, g3, g4⟩ := h0.used (p := p + 1) (by omega) (by omega)
            rw [e1, e3, g1, g4]
            rw [g4] at e2
            simp only [Nat.cast_add, Nat.cast_one] at e2
            refine Or.inr ⟨e, rfl, by omega, by omega, ?_⟩
            simp only [Nat.cast_add, Nat.cast_one]; congr 1; omega
          · rw [h.ctrlOut p (by omega), h.slotOut p (by omega)]; exact h0.cell p hp
      · intro p hp
        show t.slot p = none ∧ (p < t0.clen → upd t.ctrl i Ctrl.empty p = tailCtrl c)
        rw [upd_other _ _ (by omega), h.ctrlOut p (by omega), h.slotOut p (by omega)]
        exact h0.tail p hp
      · intro p hp
        show 0 < (upd t.ctrl i Ctrl.empty (p + 1)).dist → (upd t.ctrl i Ctrl.empty (p + 1)).dist ≤ (upd t.ctrl i Ctrl.empty p).dist + 1
        by_cases h1 : p + 1 = i
        · rw [h1, upd_self]; intro hx; simp [Ctrl.empty] at hx
        · rw [upd_other _ _ h1]
          by_cases h2 : p = i
          · subst h2; rw [hc1]; intro hx; omega
          · rw [upd_other _ _ h2]
            by_cases h3 : i0 ≤ p ∧ p + 1 < i
            · obtain ⟨_, a2, a3⟩ := h.moved p h3.1 (by omega)
              obtain ⟨_, b2, b3⟩ := h.moved (p + 1) (by omega) h3.2
              rw [a3, b3]
              simp only
              intro hx
              have := h0.order (p + 1) (by omega) b2
              omega
            · by_cases h4 : p + 1 = i0
              · subst h4
                have hne : p + 1 < i := by omega
                obtain ⟨_, b2, b3⟩ := h.moved (p + 1) (by omega) hne
                rw [b3, h.ctrlOut p (by omega)]
                simp only
                intro hx
                have q1 := h0.order (p + 1) (by omega) b2
                have q2 := h0.order p (by omega) (by omega)
                omega
              · rw [h.ctrlOut (p + 1) (by omega), h.ctrlOut p (by omega)]
                exact h0.order p hp
    · rw [if_neg hd]
      have hsl := h0.lt_slen hcl (by omega)
      obtain ⟨e, g1, g2, g3, g4⟩ := h0.used hsl (by omega)
      rw [hs1, g1]
      simp only
      have hdl := h0.dist_le hcl
      have hdec : (t0.ctrl (i + 1)).dec = ⟨(t0.ctrl (i + 1)).dist - 1, 0⟩ := by
        unfold Ctrl.dec
        rw [wrap8_id (by omega) (by omega), hdl.2.2]
      rw [hdec]
      apply ih (i + 1) _ (by omega)
      refine { same := h.same.upd _ _, le := by omega, lt := hsl, ctrlOut := ?_, slotOut := ?_, hole := upd_self _ _ _,
               moved := ?_, used := by omega, perm := ?_ }
      · intro p hp
        show upd t.ctrl i _ p = _
        rw [upd_other _ _ (by omega)]; exact h.ctrlOut p (by omega)
      · intro p hp
        show upd (upd t.slot i (some e)) (i + 1) none p = _
        rw [upd_other _ _ (by omega), upd_other _ _ (by omega)]; exact h.slotOut p (by omega)
      · intro p hp1 hp2
        show upd (upd t.slot i (some e)) (i + 1) none p = _ ∧ _ ∧ upd t.ctrl i _ p = _
        rw [upd_other _ _ (by omega)]
        by_cases hpi : p = i
        · subst hpi
          rw [upd_self, upd_self, g1]
          exact ⟨rfl, by omega, rfl⟩
        · rw [upd_other _ _ hpi, upd_other _ _ hpi]
          exact h.moved p hp1 (by omega)
      · refine List.Perm.trans (List.Perm.cons _ ?_) h.perm
        unfold entries
        show ((List.range t.slen).filterMap (upd (upd t.slot i (some e)) (i + 1) none)).Perm _
        rw [h.same.slen]
        exact perm_move (n := t0.slen) hlt hsl (by omega) t.slot (hs1.trans g1) h.hole

/-- `erase_slot` on an occupied slot of a good map. -/
theorem eraseSlot_spec {c : Nat} {t : Map K V} {i : Nat} {ee : K × V} (h : Good E t c) (hE : E.Lawful) (hi : i < t.slen)
    (he : t.slot i = some ee) : ∃ t', eraseSlot i t = .ok t' ∧ Good E t' c ∧ (ee :: entries t').Perm (entries t) ∧
    t'.mlf = t.mlf ∧ t'.rev = t.rev ∧ t'.thr = t.thr := by
  have hu : 0 ≤ (t.ctrl i).dist := by
    rcases h.weak.cell i hi with ⟨h1, _⟩ | ⟨_, _, h2⟩
    · rw [h1] at he; cases he
    · exact h2.1
  obtain ⟨t1, e1, e2⟩ := shiftLoop_spec (i0 := i) (ee := ee) h _ i { t with slot := upd t.slot i none } rfl
    { same := (SameShape.refl t).upd _ _, le := Nat.le_refl _, lt := hi, ctrlOut := fun p _ => rfl,
      slotOut := fun p hp => upd_other _ _ (by omega), hole := upd_self _ _ _, moved := fun p h1 h2 => by omega, used := hu,
      perm := (perm_upd_none hi t.slot ee he).symm }
  unfold eraseSlot
  rw [e1, Res.bind_ok]
  refine ⟨_, rfl, ?_, e2.perm, e2.same.mlf, e2.same.rev, e2.same.thr⟩
  have hsh := e2.same.shape h.toShape
  refine { toShape := ⟨hsh.alloc, hsh.pow, hsh.mask, hsh.look, hsh.slen, hsh.last, hsh.clen⟩, cell := ?_, tail := ?_, order := ?_,
           distinct := ?_, size := ?_ }
  · intro p hp; exact e2.cells p (by rw [← e2.same.slen]; exact hp)
  · intro p hp
    have := e2.tail p (by rw [← e2.same.slen]; exact hp)
    rw [← e2.same.clen] at this
    exact this
  · intro p hp; exact e2.order p (by rw [← e2.same.slen]; exact hp)
  · have := Spec.Distinct.perm hE e2.perm.symm h.distinct
    rw [Distinct, List.pairwise_cons] at this
    exact this.2
  · show t1.size - 1 = (entries t1).length
    rw [e2.same.size, h.size, ← e2.perm.length_eq]; rfl

end Verif.Robin
