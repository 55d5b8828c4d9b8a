/-
Invariant of the robin hood table with the indirect layout.  A control word and the element it refers to are seen as a cell
of a table with the direct layout; the invariant of that table is reused.
-/
import Verif.RobInd
import Verif.RobinOps

namespace Verif.RobInd
open Spec (Distinct)
open Robin (hm lookups tailCtrl)

variable {K V : Type} {E : Env K}

/-- The control words as those of a table with the direct layout. -/
def absC (n c : Nat) (w : Nat → Ctrl) (p : Nat) : Robin.Ctrl := if p < n then ⟨(w p).dist, 0⟩ else tailCtrl c

/-- The elements the control words refer to. -/
def absS (n : Nat) (s : Nat → Option (K × V)) (w : Nat → Ctrl) (p : Nat) : Option (K × V) :=
  if p < n ∧ 0 ≤ (w p).dist then s (w p).idx else none

/-- The table with the direct layout that holds the same elements. -/
def abs (c : Nat) (t : Map K V) : Robin.Map K V where
  alloc := t.alloc
  ctrl := absC t.slen c t.ctrl
  slot := absS t.slen t.slot t.ctrl
  last := some t.slen
  size := t.size
  mask := t.mask
  look := t.look
  thr := t.thr
  mlf := t.mlf
  rev := t.rev
  clen := ((c + lookups c + 31) / 32 + 1) * 32
  slen := t.slen

/-- Sizes and pointers of an allocated map of capacity `c`. -/
structure Shape (t : Map K V) (c : Nat) : Prop where
  alloc : t.alloc = true
  pow : ∃ j, 2 ≤ j ∧ j ≤ 48 ∧ c = 2 ^ j
  mask : t.mask = c - 1
  look : t.look = lookups c
  slen : t.slen = c + lookups c
  last : t.last = none ∨ t.last = some t.slen
  clen : t.clen = ((c + lookups c + 3) / 4 + 1) * 4

/-- The slots: the first `size` hold elements, the others are free. -/
structure Dense (t : Map K V) : Prop where
  some_ : ∀ j, j < t.size → ∃ e, t.slot j = some e
  none_ : ∀ j, t.size ≤ j → t.slot j = none

/-- The invariant of an allocated map of capacity `c`. -/
structure Good (E : Env K) (t : Map K V) (c : Nat) : Prop extends Shape t c, Dense t where
  abs : Robin.Good E (abs c t) c
  idx : ∀ p, p < t.slen → 0 ≤ (t.ctrl p).dist → (t.ctrl p).idx < t.size
  hash : ∀ p e, p < t.slen → 0 ≤ (t.ctrl p).dist → t.slot (t.ctrl p).idx = some e → (t.ctrl p).hash = ctrlHash E e.1
  unused : ∀ p, p < t.clen → (t.ctrl p).dist < 0 → t.ctrl p = Ctrl.empty
  tail : ∀ p, t.slen ≤ p → p < t.clen → t.ctrl p = Ctrl.empty
  small : t.size ≤ 2 ^ 32

/-- What remains of the invariant when `indirect_insert_to_place` gives up with `kNeedGrow`. -/
structure Weak (E : Env K) (t : Map K V) (c : Nat) : Prop extends Shape t c, Dense t where
  distinct : Distinct E.eq (entries t)
  size_le : t.size ≤ t.slen

namespace Shape
variable {t : Map K V} {c : Nat}

theorem c_ge (h : Shape t c) : 4 ≤ c := by
  obtain ⟨j, h1, _, rfl⟩ := h.pow
  calc 4 = 2 ^ 2 := rfl
    _ ≤ 2 ^ j := Nat.pow_le_pow_right (by decide) h1

theorem slotCap (h : Shape t c) : slotCap t = c := by
  have := h.c_ge
  have hm := h.mask
  unfold RobInd.slotCap
  rw [if_neg (by omega)]
  omega

theorem maxCap (h : Shape t c) : maxCap t = t.slen := by
  unfold RobInd.maxCap
  rw [h.slotCap, h.look, h.slen]

theorem clen_ge (h : Shape t c) : t.slen + 4 ≤ t.clen := by
  rw [h.clen, h.slen]; omega

theorem home (h : Shape t c) (k : K) : home E t k = hm E c k := by
  obtain ⟨j, _, _, rfl⟩ := h.pow
  unfold RobInd.home hm
  rw [h.mask, Nat.and_two_pow_sub_one_eq_mod]

theorem hm_lt (h : Shape t c) (k : K) : hm E c k < c := Nat.mod_lt _ (by have := h.c_ge; omega)

theorem c_le_slen (h : Shape t c) : c + 4 ≤ t.slen := by
  have := Robin.lookups_bounds c
  rw [h.slen]; omega

/-- The two views of a map have the same shape. -/
theorem abs (h : Shape t c) : Robin.Shape (abs c t) c :=
  ⟨h.alloc, h.pow, h.mask, h.look, h.slen, rfl, rfl⟩
end Shape

/-! ### Entries -/

theorem mem_entries {t : Map K V} {e : K × V} : e ∈ entries t ↔ ∃ p, p < t.slen ∧ t.slot p = some e :=
  mem_filterMap_range _ _

theorem absC_lt {n c p : Nat} {w : Nat → Ctrl} (h : p < n) : absC n c w p = ⟨(w p).dist, 0⟩ := if_pos h

theorem absS_used {n p : Nat} {s : Nat → Option (K × V)} {w : Nat → Ctrl} (h : p < n) (hd : 0 ≤ (w p).dist) :
    absS n s w p = s (w p).idx := if_pos ⟨h, hd⟩

theorem absS_unused {n p : Nat} {s : Nat → Option (K × V)} {w : Nat → Ctrl} (hd : ¬ (p < n ∧ 0 ≤ (w p).dist)) :
    absS n s w p = none := if_neg hd

/-- The indices in the used control words. -/
def idxs (n : Nat) (w : Nat → Ctrl) : List Nat := (List.range n).filterMap fun p => if 0 ≤ (w p).dist then some (w p).idx else none

theorem mem_idxs {n : Nat} {w : Nat → Ctrl} {j : Nat} : j ∈ idxs n w ↔ ∃ p, p < n ∧ 0 ≤ (w p).dist ∧ (w p).idx = j := by
  unfold idxs
  rw [mem_filterMap_range]
  constructor
  · rintro ⟨p, h1, h2⟩
    split at h2
    · exact ⟨p, h1, ‹_›, by simpa using h2⟩
    · cases h2
  · rintro ⟨p, h1, h2, h3⟩
    exact ⟨p, h1, by rw [if_pos h2, h3]⟩

theorem entries_abs (c : Nat) (t : Map K V) : Robin.entries (abs c t) = (idxs t.slen t.ctrl).filterMap t.slot := by
  unfold Robin.entries idxs
  rw [List.filterMap_filterMap]
  apply filterMap_congr'
  intro p hp
  show absS t.slen t.slot t.ctrl p = _
  have : p < t.slen := List.mem_range.mp hp
  by_cases hd : 0 ≤ (t.ctrl p).dist
  · rw [absS_used this hd, if_pos hd]; rfl
  · rw [absS_unused (by omega), if_neg hd]; rfl

theorem nodup_idxs_aux {f : Nat → Option Nat} {s : Nat → Option (K × V)} (hE : E.Lawful) : ∀ (l : List Nat),
    (∀ p ∈ l, ∀ j, f p = some j → ∃ e, s j = some e) → Distinct E.eq ((l.filterMap f).filterMap s) → (l.filterMap f).Nodup := by
  intro l
  induction l with
  | nil => intro _ _; exact List.nodup_nil
  | cons p l ih =>
    intro hs hd
    cases hf : f p with
    | none =>
      rw [List.filterMap_cons_none hf] at hd ⊢
      exact ih (fun q hq => hs q (List.mem_cons_of_mem _ hq)) hd
    | some j =>
      rw [List.filterMap_cons_some hf] at hd ⊢
      obtain ⟨e, he⟩ := hs p (by simp) j hf
      rw [List.filterMap_cons_some he, Distinct, List.pairwise_cons] at hd
      rw [List.nodup_cons]
      refine ⟨?_, ih (fun q hq => hs q (List.mem_cons_of_mem _ hq)) hd.2⟩
      intro hmem
      have := hd.1 e (List.mem_filterMap.mpr ⟨j, hmem, he⟩)
      rw [hE.refl] at this
      cases this

namespace Good
variable {t : Map K V} {c : Nat}

theorem size_le_slen (h : Good E t c) : t.size ≤ t.slen := by
  have h1 : t.size = (Robin.entries (RobInd.abs c t)).length := h.abs.size
  rw [h1, Robin.entries]
  refine Nat.le_trans (List.length_filterMap_le _ _) ?_
  rw [List.length_range]
  exact Nat.le_refl _

/-- The used control words refer to the first `size` slots, each of them once. -/
theorem idxs_perm (h : Good E t c) (hE : E.Lawful) : (idxs t.slen t.ctrl).Perm (List.range t.size) := by
  have hlt : ∀ j ∈ idxs t.slen t.ctrl, j < t.size := by
    intro j hj
    obtain ⟨p, h1, h2, h3⟩ := mem_idxs.mp hj
    rw [← h3]; exact h.idx p h1 h2
  have hnd : (idxs t.slen t.ctrl).Nodup := by
    apply nodup_idxs_aux (s := t.slot) hE
    · intro p hp j hf
      split at hf
      · cases hf
        exact h.some_ _ (h.idx p (List.mem_range.mp hp) ‹_›)
      · cases hf
    · have := h.abs.distinct
      rw [entries_abs] at this
      exact this
  have hlen : (idxs t.slen t.ctrl).length = t.size := by
    have h1 : t.size = (Robin.entries (RobInd.abs c t)).length := h.abs.size
    rw [entries_abs] at h1
    rw [h1, List.length_filterMap_eq_countP, List.countP_eq_length.mpr]
    intro j hj
    obtain ⟨e, he⟩ := h.some_ j (hlt j hj)
    rw [he]; rfl
  apply List.Subperm.perm_of_length_le
  · exact List.subperm_of_subset hnd fun j hj => List.mem_range.mpr (hlt j hj)
  · rw [List.length_range, hlen]

theorem entries_dense (h : Dense t) (hs : t.size ≤ t.slen) : entries t = (List.range t.size).filterMap t.slot :=
  Robin.filterMap_range_extend t.slot hs (fun p h1 _ => h.none_ p h1)

theorem entries_perm (h : Good E t c) (hE : E.Lawful) : (Robin.entries (RobInd.abs c t)).Perm (entries t) := by
  rw [entries_abs, entries_dense h.toDense h.size_le_slen]
  exact (h.idxs_perm hE).filterMap _

theorem distinct (h : Good E t c) (hE : E.Lawful) : Distinct E.eq (entries t) :=
  Spec.Distinct.perm hE (h.entries_perm hE) h.abs.distinct

theorem weak (h : Good E t c) (hE : E.Lawful) : Weak E t c :=
  { toShape := h.toShape, toDense := h.toDense, distinct := h.distinct hE, size_le := h.size_le_slen }
end Good

theorem Dense.length {t : Map K V} (h : Dense t) (hs : t.size ≤ t.slen) : (entries t).length = t.size := by
  rw [Good.entries_dense h hs, List.length_filterMap_eq_countP, List.countP_eq_length.mpr, List.length_range]
  intro j hj
  obtain ⟨e, he⟩ := h.some_ j (List.mem_range.mp hj)
  rw [he]; rfl

namespace Good
variable {t : Map K V} {c : Nat}

theorem size_eq (h : Good E t c) : t.size = (entries t).length := (h.toDense.length h.size_le_slen).symm

theorem dist_ge (h : Good E t c) {p : Nat} (hp : p < t.slen) : -1 ≤ (t.ctrl p).dist ∧ (t.ctrl p).dist ≤ 127 := by
  have hcl := h.toShape.abs.clen_ge
  have h1 := h.abs.dist_le (p := p) (by have : (RobInd.abs c t).slen = t.slen := rfl; omega)
  have h2 : ((RobInd.abs c t).ctrl p).dist = (t.ctrl p).dist := by
    show (absC t.slen c t.ctrl p).dist = _
    rw [absC_lt hp]
  rw [h2] at h1
  refine ⟨?_, h1.2.1⟩
  by_cases hd : (t.ctrl p).dist < 0
  · rw [h.unused p (by have := h.toShape.clen_ge; omega) hd]; simp [Ctrl.empty]
  · omega

/-- A used control word and its element. -/
theorem used (h : Good E t c) {p : Nat} (hp : p < t.slen) (hd : 0 ≤ (t.ctrl p).dist) :
    ∃ e, t.slot (t.ctrl p).idx = some e ∧ (RobInd.abs c t).slot p = some e ∧ (t.ctrl p).hash = ctrlHash E e.1 ∧
      hm E c e.1 ≤ p ∧ (t.ctrl p).dist = (p : Int) - (hm E c e.1 : Int) := by
  obtain ⟨e, he⟩ := h.some_ _ (h.idx p hp hd)
  have hs : (RobInd.abs c t).slot p = some e := by
    show absS t.slen t.slot t.ctrl p = _
    rw [absS_used hp hd, he]
  have hc : (RobInd.abs c t).ctrl p = ⟨(t.ctrl p).dist, 0⟩ := absC_lt hp
  rcases h.abs.cell p hp with ⟨h1, _⟩ | ⟨e', h1, h2, _, h4⟩
  · rw [h1] at hs; cases hs
  · rw [h1] at hs; cases hs
    rw [hc] at h4
    injection h4 with h5 _
    exact ⟨e, he, h1, h.hash p e hp hd he, h2, h5⟩

theorem hash_lt (h : Good E t c) {p : Nat} (hp : p < t.clen) : (t.ctrl p).hash < 256 := by
  by_cases hs : p < t.slen
  · by_cases hd : 0 ≤ (t.ctrl p).dist
    · obtain ⟨e, _, _, h3, _⟩ := h.used hs hd
      rw [h3]
      unfold ctrlHash
      have := Nat.and_le_right (n := Robin.fibonacciHash (E.h e.1)) (m := 255)
      omega
    · rw [h.unused p hp (by omega)]; simp [Ctrl.empty]
  · rw [h.tail p (by omega) hp]; simp [Ctrl.empty]

/-- The comparison of the probe loops. -/
theorem low_le (h : Good E t c) {p n : Nat} (hp : p < t.clen) : (⟨(n : Int), 0, 0⟩ : Ctrl).low ≤ (t.ctrl p).low ↔ (n : Int) ≤ (t.ctrl p).dist := by
  have := h.hash_lt hp
  unfold Ctrl.low
  simp only
  omega
end Good

/-! ### Probing -/

theorem inc_nat {n : Nat} (h : n < 127) : Ctrl.inc ⟨(n : Int), 0, 0⟩ = ⟨((n + 1 : Nat) : Int), 0, 0⟩ := by
  unfold Ctrl.inc
  rw [Robin.wrap8_id (by simp only; omega) (by simp only; omega)]
  simp

theorem probeLoop_spec (hE : E.Lawful) {t : Map K V} {c : Nat} (h : Good E t c) {k : K} : ∀ (f n : Nat), n ≤ 127 →
    f = t.clen - (hm E c k + n) → hm E c k + n ≤ t.slen → Robin.Passed E (abs c t) k (hm E c k) n →
    match probeLoop true E t k f (hm E c k + n) ⟨(n : Int), 0, 0⟩ with
    | .ok (.hit i) => i < t.slen ∧ 0 ≤ (t.ctrl i).dist ∧ ∃ e, t.slot (t.ctrl i).idx = some e ∧ E.eq e.1 k = true
    | .ok (.stop i d) => Robin.Stop (abs c t) (hm E c k) i ⟨d.dist, 0⟩ ∧ Robin.Passed E (abs c t) k (hm E c k) (i - hm E c k)
    | .diverge => False
    | .ub => Robin.Crowded (abs c t) (hm E c k) ∧ Robin.Passed E (abs c t) k (hm E c k) 128 := by
  have hclen := h.toShape.clen_ge
  have hclen' := h.toShape.abs.clen_ge
  have hsl : (abs c t).slen = t.slen := rfl
  intro f
  induction f with
  | zero => intro n _ _ _ _; omega
  | succ f ih =>
    intro n hn hf hle hp
    unfold probeLoop
    have hlow := h.low_le (p := hm E c k + n) (n := n) (by omega)
    by_cases hcmp : (n : Int) ≤ (t.ctrl (hm E c k + n)).dist
    · rw [if_pos (hlow.mpr hcmp)]
      have hs : hm E c k + n < t.slen := by
        apply Classical.byContradiction
        intro hn'
        rw [h.tail _ (by omega) (by omega)] at hcmp
        simp only [Ctrl.empty] at hcmp
        omega
      obtain ⟨e, he, hae, hha, _, _⟩ := h.used hs (by omega)
      have hac : ((abs c t).ctrl (hm E c k + n)).dist = (t.ctrl (hm E c k + n)).dist := by
        show (absC t.slen c t.ctrl _).dist = _
        rw [absC_lt hs]
      -- one more cell passed, if the key is not there
      have hpass : E.eq e.1 k = false → Robin.Passed E (abs c t) k (hm E c k) (n + 1) := by
        intro hq m hm'
        by_cases hmn : m = n
        · subst hmn
          refine ⟨by rw [hac]; exact hcmp, ?_⟩
          intro e' he'
          rw [hae] at he'; cases he'; exact hq
        · exact hp m (by omega)
      have hnext : E.eq e.1 k = false →
          match (if (true && (⟨(n : Int), 0, 0⟩ : Ctrl).dist == 127) then Res.ub
            else probeLoop true E t k f (hm E c k + n + 1) (Ctrl.inc ⟨(n : Int), 0, 0⟩)) with
          | .ok (.hit i) => i < t.slen ∧ 0 ≤ (t.ctrl i).dist ∧ ∃ e, t.slot (t.ctrl i).idx = some e ∧ E.eq e.1 k = true
          | .ok (.stop i d) => Robin.Stop (abs c t) (hm E c k) i ⟨d.dist, 0⟩ ∧ Robin.Passed E (abs c t) k (hm E c k) (i - hm E c k)
          | .diverge => False
          | .ub => Robin.Crowded (abs c t) (hm E c k) ∧ Robin.Passed E (abs c t) k (hm E c k) 128 := by
        intro hq
        by_cases h127 : n = 127
        · subst h127
          rw [if_pos (by rfl)]
          have hps := hpass hq
          refine ⟨?_, hps⟩
          intro m hm'
          have h1 := (hps m (by omega)).1
          exact ⟨h.abs.lt_slen (by omega) (by omega), h1⟩
        · rw [if_neg (by simp; omega), inc_nat (by omega), Nat.add_assoc]
          exact ih (n + 1) (by omega) (by omega) (by omega) (hpass hq)
      by_cases hh : (t.ctrl (hm E c k + n)).hash = ctrlHash E k
      · rw [if_pos (by rw [hh]; simp), he]
        simp only
        cases hq : E.eq e.1 k with
        | true => simp only [if_true]; exact ⟨hs, by omega, e, he, hq⟩
        | false => simp only [Bool.false_eq_true, if_false]; exact hnext hq
      · rw [if_neg (by simpa using hh)]
        apply hnext
        cases hq : E.eq e.1 k with
        | false => rfl
        | true =>
          exfalso
          apply hh
          rw [hha]
          unfold ctrlHash Env.h
          rw [hE.congr _ _ hq]
    · rw [if_neg (fun hx => hcmp (hlow.mp hx))]
      refine ⟨⟨by omega, ?_, by omega, by omega, ?_, ?_⟩, ?_⟩
      · show (⟨(n : Int), 0⟩ : Robin.Ctrl) = _
        congr 1; omega
      · show (absC t.slen c t.ctrl _).dist < (n : Int)
        unfold absC tailCtrl
        split
        · show (t.ctrl (hm E c k + n)).dist < (n : Int); omega
        · split <;> simp [Robin.Ctrl.empty, Robin.Ctrl.endOf] <;> omega
      · intro m hm'; exact (hp m (by omega)).1
      · have : hm E c k + n - hm E c k = n := by omega
        rw [this]; exact hp

theorem probe_spec (hE : E.Lawful) {t : Map K V} {c : Nat} (h : Good E t c) (k : K) :
    match probe true E t k with
    | .ok (.hit i) => i < t.slen ∧ 0 ≤ (t.ctrl i).dist ∧ ∃ e, t.slot (t.ctrl i).idx = some e ∧ E.eq e.1 k = true
    | .ok (.stop i d) => Robin.Stop (abs c t) (hm E c k) i ⟨d.dist, 0⟩ ∧ Robin.Passed E (abs c t) k (hm E c k) (i - hm E c k)
    | .diverge => False
    | .ub => Robin.Crowded (abs c t) (hm E c k) ∧ Robin.Passed E (abs c t) k (hm E c k) 128 := by
  unfold probe
  rw [h.toShape.home]
  have := h.toShape.hm_lt (E := E) k
  have := h.toShape.c_le_slen
  have := h.toShape.clen_ge
  exact probeLoop_spec hE h _ 0 (by omega) (by omega) (by omega) (by intro m hm; omega)

theorem seekLoop_spec {t : Map K V} {c : Nat} (h : Good E t c) {h0 : Nat} : ∀ (f n : Nat), n ≤ 127 →
    f = t.clen - (h0 + n) → h0 + n ≤ t.slen → (∀ m, m < n → (m : Int) ≤ ((abs c t).ctrl (h0 + m)).dist) →
    match seekLoop true t f (h0 + n) ⟨(n : Int), 0, 0⟩ with
    | .ok (i, d) => Robin.Stop (abs c t) h0 i ⟨d.dist, 0⟩
    | .diverge => False
    | .ub => Robin.Crowded (abs c t) h0 := by
  have hclen := h.toShape.clen_ge
  have hclen' := h.toShape.abs.clen_ge
  have hsl : (abs c t).slen = t.slen := rfl
  intro f
  induction f with
  | zero => intro n _ _ _ _; omega
  | succ f ih =>
    intro n hn hf hle hp
    unfold seekLoop
    have hlow := h.low_le (p := h0 + n) (n := n) (by omega)
    by_cases hcmp : (n : Int) ≤ (t.ctrl (h0 + n)).dist
    · rw [if_pos (hlow.mpr hcmp)]
      have hs : h0 + n < t.slen := by
        apply Classical.byContradiction
        intro hn'
        rw [h.tail _ (by omega) (by omega)] at hcmp
        simp only [Ctrl.empty] at hcmp
        omega
      have hac : ((abs c t).ctrl (h0 + n)).dist = (t.ctrl (h0 + n)).dist := by
        show (absC t.slen c t.ctrl _).dist = _
        rw [absC_lt hs]
      have hps : ∀ m, m < n + 1 → (m : Int) ≤ ((abs c t).ctrl (h0 + m)).dist := by
        intro m hm'
        by_cases hmn : m = n
        · subst hmn; rw [hac]; exact hcmp
        · exact hp m (by omega)
      by_cases h127 : n = 127
      · subst h127
        rw [if_pos (by rfl)]
        intro m hm'
        have h1 := hps m (by omega)
        exact ⟨h.abs.lt_slen (by omega) (by omega), h1⟩
      · rw [if_neg (by simp; omega), inc_nat (by omega), Nat.add_assoc]
        exact ih (n + 1) (by omega) (by omega) (by omega) hps
    · rw [if_neg (fun hx => hcmp (hlow.mp hx))]
      refine ⟨by omega, ?_, by omega, by omega, ?_, ?_⟩
      · show (⟨(n : Int), 0⟩ : Robin.Ctrl) = _
        congr 1; omega
      · show (absC t.slen c t.ctrl _).dist < (n : Int)
        unfold absC tailCtrl
        split
        · show (t.ctrl (h0 + n)).dist < (n : Int); omega
        · split <;> simp [Robin.Ctrl.empty, Robin.Ctrl.endOf] <;> omega
      · intro m hm'; exact hp m (by omega)

theorem seek_spec {t : Map K V} {c : Nat} (h : Good E t c) (k : K) :
    match seek true E t k with
    | .ok (i, d) => Robin.Stop (abs c t) (hm E c k) i ⟨d.dist, 0⟩
    | .diverge => False
    | .ub => Robin.Crowded (abs c t) (hm E c k) := by
  unfold seek
  rw [h.toShape.home]
  have := h.toShape.hm_lt (E := E) k
  have := h.toShape.c_le_slen
  have := h.toShape.clen_ge
  exact seekLoop_spec h (h0 := hm E c k) _ 0 (by omega) (by omega) (by omega) (by intro m hm; omega)

end Verif.RobInd
