/-
How the modifiers of the model of `robin16_hash_map` change the invariants: rehash, insertion, erase, clear.
-/
import Verif.Rob16Place
import Verif.FlatOps

namespace Verif.Rob16
open Spec (Distinct)

variable {K V : Type} {E : Env K} {sec : Nat → Nat}

/-! ### Insertion of elements known to be absent -/

theorem Tab.withSize {t : Map K V} (h : Tab E sec t) (n : Nat) : Tab E sec { t with size := n } :=
  ⟨⟨h.pow, h.gmask, h.clen, h.bound, h.order, h.mirror, h.tail⟩, h.cell⟩

theorem stop_exists {t : Map K V} (h : Core E sec t) (k : K) : ∃ m, Stop E t k m := by
  obtain ⟨m, h1, h2, h3, h4⟩ := h.first_stop (E := E) k h.exists_empty
  exact ⟨m, h1, h2, h3, h4⟩

/-- The map after the element has been written into the slot made free for it. -/
theorem Core.put {t q : Map K V} (h : Core E sec t) {i : Nat} {e : K × V} (hs : Same t q) (hT : Tab E sec (withSlot i (some e) q))
    (hp : (entries (withSlot i (some e) q)).Perm (e :: entries t)) (hr : t.size + 1 < cap t) :
    Core E sec { q with slot := upd q.slot i (some e), size := q.size + 1 } ∧
    (entries { q with slot := upd q.slot i (some e), size := q.size + 1 }).Perm (e :: entries t) := by
  have hp' : (entries { q with slot := upd q.slot i (some e), size := q.size + 1 }).Perm (e :: entries t) := hp
  refine ⟨⟨hT.withSize (q.size + 1), ?_, ?_⟩, hp'⟩
  · rw [hp'.length_eq, List.length_cons, ← h.size]
    show q.size + 1 = _
    rw [hs.size]
  · show q.size + 1 < cap q
    rw [hs.size, hs.cap]; exact hr

theorem insertUnique_spec {t : Map K V} (h : Core E sec t) {e : K × V} (hr : t.size + 1 < cap t)
    (hS : Spread E 254 (cap t) (e :: entries t)) :
    ∃ t', insertUnique E sec e t = .ok t' ∧ Core E sec t' ∧ (entries t').Perm (e :: entries t) ∧ t'.mask = t.mask ∧ t'.thr = t.thr ∧
      t'.mlf = t.mlf ∧ t'.rev = t.rev ∧ t'.size = t.size + 1 := by
  obtain ⟨m, hm⟩ := stop_exists h e.1
  obtain ⟨q, b, h1, h2⟩ := makeRoom_spec true h.toTab h.exists_empty hm hS
  have hb : b = false := by
    cases b with
    | false => rfl
    | true => cases (h2.full rfl).1
  subst hb
  obtain ⟨h3, h4⟩ := h2.done rfl
  obtain ⟨h5, h6⟩ := h.put h2.same h3 h4 hr
  refine ⟨_, ?_, h5, h6, h2.same.mask, h2.same.thr, h2.same.mlf, h2.same.rev, ?_⟩
  · unfold insertUnique
    have := freeUnroll_spec h.toBase hm 4 0 (by omega)
    rw [← h.home_eq] at this
    rw [this, Res.bind_ok, h1, Res.bind_ok]
  · show q.size + 1 = _
    rw [h2.same.size]

/-- A rehash inserts the old elements one by one. -/
def insertAllUnique (E : Env K) (sec : Nat → Nat) : List (K × V) → Map K V → Res (Map K V)
  | [], t => .ok t
  | e :: es, t => (insertUnique E sec e t).bind fun t' => insertAllUnique E sec es t'

theorem insertAllUnique_spec : ∀ (l : List (K × V)) (t : Map K V), Core E sec t → t.size + l.length < cap t →
    Spread E 254 (cap t) (l ++ entries t) →
    ∃ t', insertAllUnique E sec l t = .ok t' ∧ Core E sec t' ∧ (entries t').Perm (l ++ entries t) ∧ t'.mask = t.mask ∧
      t'.thr = t.thr ∧ t'.mlf = t.mlf ∧ t'.rev = t.rev := by
  intro l
  induction l with
  | nil => intro t h _ _; exact ⟨t, rfl, h, List.Perm.refl _, rfl, rfl, rfl, rfl⟩
  | cons e l ih =>
    intro t h hr hS
    simp only [List.length_cons] at hr
    have hp : ((e :: l) ++ entries t).Perm (l ++ e :: entries t) := List.perm_middle.symm
    obtain ⟨t1, h1, h2, h3, h4, h5, h6, h7, h8⟩ := insertUnique_spec h (e := e) (by omega)
      ((hS.perm hp.symm).sub (List.sublist_append_right l _).subperm)
    have hcap : cap t1 = cap t := by unfold cap; rw [h4]
    obtain ⟨t2, g1, g2, g3, g4, g5, g6, g7⟩ := ih t1 h2 (by omega)
      (by rw [hcap]; exact hS.perm ((h3.append_left l).trans hp.symm))
    refine ⟨t2, ?_, g2, ?_, g4.trans h4, g5.trans h5, g6.trans h6, g7.trans h7⟩
    · unfold insertAllUnique
      rw [h1]; exact g1
    · exact g3.trans ((h3.append_left l).trans hp.symm)

theorem transferAll_eq (old : Map K V) : ∀ (is : List Nat) (l : List (K × V)) (t : Map K V),
    is.map old.slot = l.map some → transferAll E sec old is t = insertAllUnique E sec l t := by
  intro is
  induction is with
  | nil =>
    intro l t h
    cases l with
    | nil => rfl
    | cons a l => cases h
  | cons i is ih =>
    intro l t h
    cases l with
    | nil => cases h
    | cons a l =>
      simp only [List.map_cons, List.cons.injEq] at h
      unfold transferAll insertAllUnique
      rw [h.1]
      simp only
      congr 1
      funext t'
      exact ih l t' h.2

theorem Weak.usedIdx_slots {t : Map K V} (h : Weak t) : (usedIdx t).map t.slot = (entries t).map some := by
  unfold usedIdx entries
  have : ∀ n, n ≤ cap t → ((List.range n).filter fun i => decide ((t.ctrl i).dist < if 16 ≤ cap t then bEnd else bEmpty)).map t.slot =
      ((List.range n).filterMap (cellAt t)).map some := by
    intro n
    induction n with
    | zero => intro _; rfl
    | succ n ih =>
      intro hn
      rw [List.range_succ, List.filter_append, List.map_append, List.filterMap_append, List.map_append, ih (by omega)]
      congr 1
      rcases h.cell n (by omega) with h1 | ⟨h1, e, h2⟩
      · have h3 : ¬ (t.ctrl n).dist < (if 16 ≤ cap t then bEnd else bEmpty) := by
          rw [h1]; split <;> decide
        have h4 : cellAt t n = none := by
          unfold cellAt used bEmpty; rw [h1]; rfl
        simp [h3, h4]
      · have h3 : (t.ctrl n).dist < (if 16 ≤ cap t then bEnd else bEmpty) := by
          split
          · exact h1
          · show (t.ctrl n).dist < 255; omega
        have h4 : cellAt t n = some e := by
          unfold cellAt used bEmpty
          rw [decide_eq_true (show (t.ctrl n).dist < 255 by omega), if_pos rfl]; exact h2
        simp [h3, h4, h2]
  exact this (cap t) (Nat.le_refl _)

/-! ### Rehash -/

theorem calcCapacity_eq (n : Nat) : calcCapacity n = Robin.calcCapacity n := rfl

/-- A new block. -/
def freshMap (c mlf rev : Nat) : Map K V :=
  { ctrl := newCtrl c, clen := ((c + 15) / 16 - 1 + 2) * 16, gmask := (c + 15) / 16 - 1, slot := fun _ => none, size := 0, mask := c - 1,
    thr := c * mlf % W / 65536, mlf := mlf, rev := rev }

theorem freshMap_inv {j : Nat} (h1 : 2 ≤ j) (h2 : j ≤ 48) (m r : Nat) : Core E sec (freshMap (2 ^ j) m r : Map K V) ∧
    entries (freshMap (2 ^ j) m r : Map K V) = [] ∧ cap (freshMap (2 ^ j) m r : Map K V) = 2 ^ j := by
  have h4 : 4 ≤ 2 ^ j := Robin.pow_two_le (a := 2) h1
  have hcap : cap (freshMap (2 ^ j) m r : Map K V) = 2 ^ j := by
    unfold cap freshMap
    simp only
    omega
  have hsmall : 2 ^ j < 16 → 2 ^ j ≤ 8 := by
    intro h3
    by_contra hc
    have : j < 4 := by
      by_contra hc
      have := Robin.pow_two_le (a := 4) (b := j) (by omega)
      omega
    have := Robin.pow_two_le (a := j) (b := 3) (by omega)
    omega
  have hzero : ∀ i, i < 2 * 2 ^ j → (2 ^ j < 16 ∨ i < 2 ^ j + 16) → newCtrl (2 ^ j) i = ⟨bEmpty, 0⟩ := by
    intro i hi h3
    unfold newCtrl
    rw [if_neg (by omega)]
  have hbig : 16 ≤ 2 ^ j → ∀ i, newCtrl (2 ^ j) i = ⟨bEmpty, 0⟩ := by
    intro h3 i
    unfold newCtrl
    rw [if_neg (by omega)]
  have hent : entries (freshMap (2 ^ j) m r : Map K V) = [] := by
    unfold entries
    rw [List.filterMap_eq_nil_iff]
    intro i hi
    rw [hcap] at hi
    have hi := List.mem_range.mp hi
    have : (freshMap (2 ^ j) m r : Map K V).ctrl i = ⟨bEmpty, 0⟩ := hzero i (by omega) (by omega)
    unfold cellAt used
    rw [this]; rfl
  have hemp : ∀ i, i < 2 ^ j → ((freshMap (2 ^ j) m r : Map K V).ctrl i).dist = 255 := by
    intro i hi
    have : (freshMap (2 ^ j) m r : Map K V).ctrl i = ⟨bEmpty, 0⟩ := hzero i (by omega) (by omega)
    rw [this]
  refine ⟨⟨⟨⟨⟨j, h1, h2, hcap⟩, ?_, rfl, ?_, ?_, ?_, ?_⟩, ?_⟩, by rw [hent]; rfl, ?_⟩, hent, hcap⟩
  · rw [hcap]; rfl
  · intro i hi
    rw [hcap] at hi
    exact Or.inl (hemp i hi)
  · intro i hi
    left
    apply hemp
    unfold nxt
    rw [hcap]
    exact Nat.mod_lt _ (by omega)
  · intro i hi h16
    rw [hcap] at hi ⊢
    have h3 : (freshMap (2 ^ j) m r : Map K V).ctrl (i + 2 ^ j) = ⟨bEmpty, 0⟩ := hzero _ (by omega) (by omega)
    rw [h3, hemp i hi]
    exact ⟨rfl, fun h => absurd rfl h⟩
  · intro hc i h3 h5
    rw [hcap] at hc h3
    have h6 : (freshMap (2 ^ j) m r : Map K V).ctrl i = ⟨bEnd, 0⟩ := by
      show newCtrl (2 ^ j) i = _
      unfold newCtrl
      rw [if_pos (by omega)]
    rw [h6]
    exact ⟨Or.inl rfl, rfl⟩
  · intro i hi hu
    rw [hcap] at hi
    exact absurd (hemp i hi) hu
  · rw [hcap]
    show 0 < 2 ^ j
    omega

/-- What a rehash to capacity `c` leaves. -/
structure Moved (E : Env K) (sec : Nat → Nat) (t t' : Map K V) (c : Nat) : Prop where
  inv : Core E sec t'
  perm : (entries t').Perm (entries t)
  cap : cap t' = c
  mlf : t'.mlf = t.mlf
  rev : t'.rev = t.rev
  thr : t'.thr = c * t.mlf % W / 65536

/-- The outcomes of `rehash_impl`. -/
def RehashOk (E : Env K) (sec : Nat → Nat) (sh al : Bool) (mem : Mem) (n : Nat) (t : Map K V) : Out (Map K V) Unit → Prop
  | .ok t' _ => ∃ c, calcCapacity n = .ok c ∧ ((c ≤ memLimit ∧ Moved E sec t t' c) ∨ (t' = t ∧ al = false ∧ (sh = true → c = Rob16.cap t)))
  | .throw t' => (∃ c, calcCapacity n = .ok c ∧ (mem ≠ .ok ∨ memLimit < c)) ∧ (t' = t ∨ mem = .noSlots)
  | .diverge => False
  | .ub => calcCapacity n = .ub

/-- The elements fit into a table of `c` slots. -/
def Fits (E : Env K) (c : Nat) (l : List (K × V)) : Prop := l.length < c ∧ Spread E 254 c l

/-- A rehash to a capacity into which the elements fit; it only needs every used slot to hold an element. -/
theorem rehashImpl_spec {t : Map K V} (h : Weak t) (sh al : Bool) (mem : Mem) (n : Nat)
    (hfit : ∀ c, calcCapacity n = .ok c → Fits E c (entries t)) :
    RehashOk E sec sh al mem n t (rehashImpl E sec sh al mem n t) := by
  unfold rehashImpl
  cases hcalc : calcCapacity n with
  | ub => exact hcalc
  | diverge => rw [calcCapacity_eq] at hcalc; exact absurd hcalc (Robin.calcCapacity_diverge n)
  | ok c =>
    simp only
    obtain ⟨hlt, hS⟩ := hfit c hcalc
    have hcalc' := hcalc
    rw [calcCapacity_eq] at hcalc'
    obtain ⟨j, hj, rfl, _, _⟩ := Robin.calcCapacity_ok hcalc'
    split
    · rename_i hcond
      unfold createGroup
      simp only
      by_cases h1 : mem = .noGroups ∨ memLimit < 2 ^ j
      · rw [if_pos h1]
        simp only
        refine ⟨⟨_, hcalc, ?_⟩, Or.inl rfl⟩
        rcases h1 with h1 | h1
        · left; rw [h1]; decide
        · right; exact h1
      · rw [if_neg h1]
        rw [not_or] at h1
        by_cases h2 : mem = .noSlots
        · rw [if_pos h2]
          simp only
          refine ⟨⟨_, hcalc, Or.inl (by rw [h2]; decide)⟩, Or.inr h2⟩
        · rw [if_neg h2]
          simp only
          rw [if_neg h.clen]
          have hj48 : j ≤ 48 := by
            by_contra hc
            have := Robin.pow_two_le (a := 49) (b := j) (by omega)
            unfold memLimit at h1
            omega
          obtain ⟨f1, f2, f3⟩ := freshMap_inv (K := K) (V := V) (E := E) (sec := sec) hj hj48 t.mlf t.rev
          rw [transferAll_eq t (usedIdx t) (entries t) _ h.usedIdx_slots]
          obtain ⟨t2, g1, g2, g3, g4, g5, g6, g7⟩ := insertAllUnique_spec (entries t) _ f1
            (by rw [f3]; show 0 + _ < _; omega) (by rw [f2, f3, List.append_nil]; exact hS)
          have g1' : insertAllUnique E sec (entries t) ⟨newCtrl (2 ^ j), ((2 ^ j + 15) / 16 - 1 + 2) * 16, (2 ^ j + 15) / 16 - 1,
              fun _ => none, 0, 2 ^ j - 1, 2 ^ j * t.mlf % W / 65536, t.mlf, t.rev⟩ = .ok t2 := g1
          rw [g1']
          simp only
          have hcap2 : cap t2 = 2 ^ j := by
            rw [← f3]; unfold Rob16.cap; rw [g4]
          refine ⟨_, hcalc, Or.inl ⟨by omega, g2, ?_, hcap2, g6, g7, g5⟩⟩
          rw [f2, List.append_nil] at g3; exact g3
    · rename_i hcond
      refine ⟨_, hcalc, Or.inr ⟨rfl, ?_, ?_⟩⟩
      · cases al <;> simp at hcond ⊢
      · intro hsh
        subst hsh
        cases al <;> simp at hcond
        exact hcond

theorem Weak.cap_ge {t : Map K V} (h : Weak t) : 4 ≤ cap t := by
  obtain ⟨j, h1, _, h3⟩ := h.pow
  rw [h3]
  exact Nat.pow_le_pow_right (n := 2) (by decide) h1

theorem Weak.cap_le {t : Map K V} (h : Weak t) : cap t ≤ 2 ^ 48 := by
  obtain ⟨j, _, h2, h3⟩ := h.pow
  rw [h3]
  exact Nat.pow_le_pow_right (by decide) h2

theorem grow_spec {t : Map K V} (h : Weak t) (hlen : (entries t).length ≤ cap t) (hS : Spread E 254 (cap t) (entries t)) (mem : Mem)
    {j : Nat} (hj : cap t = 2 ^ j) : (∃ t', grow E sec mem t = .ok t' () ∧ j + 1 ≤ 48 ∧ Moved E sec t t' (2 ^ (j + 1))) ∨
      (∃ t', grow E sec mem t = .throw t' ∧ (mem ≠ .ok ∨ memLimit < 2 * cap t') ∧ (t' = t ∨ mem = .noSlots)) := by
  have hge := h.cap_ge
  have h2 : 2 ≤ j := by
    by_contra hc
    have := Robin.pow_two_le (a := j) (b := 1) (by omega)
    omega
  have hW : cap t * 2 % W = 2 ^ (j + 1) := by
    rw [Nat.mod_eq_of_lt, hj, Nat.pow_succ]
    have := h.cap_le
    unfold W; omega
  have hcalc : calcCapacity (2 ^ (j + 1)) = .ok (2 ^ (j + 1)) := by
    rw [calcCapacity_eq]; exact Robin.calcCapacity_pow (by omega)
  unfold grow
  rw [hW]
  have hsp := rehashImpl_spec (E := E) (sec := sec) h false true mem (2 ^ (j + 1)) (by
    intro c hc
    rw [hcalc] at hc
    cases hc
    have h2c : 2 ^ (j + 1) = 2 * cap t := by rw [Nat.pow_succ, hj]; omega
    rw [h2c]
    exact ⟨by omega, hS.double (by omega)⟩)
  generalize rehashImpl E sec false true mem (2 ^ (j + 1)) t = o at hsp
  cases o with
  | diverge => exact hsp.elim
  | ub => simp only [RehashOk] at hsp; rw [hcalc] at hsp; cases hsp
  | ok t' u =>
    obtain ⟨c, hc, hsp⟩ := hsp
    rw [hcalc] at hc
    cases hc
    rcases hsp with ⟨h3, h4⟩ | ⟨_, h3, _⟩
    · left
      refine ⟨t', rfl, ?_, h4⟩
      by_contra hc
      have := Robin.pow_two_le (a := 49) (b := j + 1) (by omega)
      unfold memLimit at h3
      omega
    · cases h3
  | throw t' =>
    obtain ⟨⟨c, hc, h3⟩, h4⟩ := hsp
    rw [hcalc] at hc
    cases hc
    right
    refine ⟨t', rfl, ?_, h4⟩
    rcases h3 with h3 | h3
    · exact Or.inl h3
    · rcases h4 with rfl | h4
      · right; rw [hj]; rw [Nat.pow_succ] at h3; omega
      · left; rw [h4]; decide

/-! ### Insertion of a key -/

/-- The invariant of a map in use; the threshold leaves one slot empty. -/
structure Live (E : Env K) (sec : Nat → Nat) (t : Map K V) : Prop extends Inv E sec t where
  thr : t.thr < cap t
  mlf : t.mlf < 65536

/-- No element has the key. -/
def Absent (E : Env K) (t : Map K V) (k : K) : Prop := ∀ e ∈ entries t, E.eq e.1 k = false

theorem absent_iff {t : Map K V} (h : Base t) {k : K} : Absent E t k ↔ ∀ x, x < cap t → ¬ KeyAt E t k x := by
  constructor
  · rintro ha x hx ⟨hu, e, hs, heq⟩
    have := ha e ((mem_entries h).mpr ⟨x, hx, hu, hs⟩)
    rw [heq] at this; cases this
  · intro ha e he
    obtain ⟨x, hx, hu, hs⟩ := (mem_entries h).mp he
    cases hq : E.eq e.1 k with
    | false => rfl
    | true => exact absurd ⟨hu, e, hs, hq⟩ (ha x hx)

theorem Absent.perm {t t' : Map K V} {k : K} (h : Absent E t k) (hp : (entries t').Perm (entries t)) : Absent E t' k :=
  fun e he => h e (hp.mem_iff.mp he)

theorem thr_lt {c m : Nat} (hc : 0 < c) (hm : m < 65536) : c * m % W / 65536 < c := by
  have h1 : c * m % W ≤ c * m := Nat.mod_le _ _
  have h2 : c * m ≤ c * 65535 := Nat.mul_le_mul_left _ (by omega)
  omega

theorem Moved.live (hE : E.Lawful) {t t' : Map K V} {c : Nat} (hd : Distinct E.eq (entries t)) (hm : t.mlf < 65536)
    (h : Moved E sec t t' c) : Live E sec t' := by
  have hge := h.inv.cap_ge
  have hcap := h.cap
  refine ⟨⟨h.inv, hd.perm hE h.perm.symm⟩, ?_, by rw [h.mlf]; exact hm⟩
  rw [h.thr, ← hcap]
  exact thr_lt (by omega) hm

/-- From `t` to `t'` the table only grows; elements that were spread stay so. -/
structure Wider (E : Env K) (t t' : Map K V) : Prop where
  le : cap t ≤ cap t'
  spread : ∀ B (l : List (K × V)), Spread E B (cap t) l → Spread E B (cap t') l
  mlf : t'.mlf = t.mlf
  rev : t'.rev = t.rev

theorem Wider.refl (t : Map K V) : Wider E t t := ⟨Nat.le_refl _, fun _ _ h => h, rfl, rfl⟩

theorem Wider.trans {a b c : Map K V} (h : Wider E a b) (g : Wider E b c) : Wider E a c :=
  ⟨Nat.le_trans h.le g.le, fun B l hl => g.spread B l (h.spread B l hl), g.mlf.trans h.mlf, g.rev.trans h.rev⟩

theorem Same.wider {t t' : Map K V} (h : Same t t') : Wider E t t' :=
  ⟨Nat.le_of_eq h.cap.symm, fun B l hl => by rw [h.cap]; exact hl, h.mlf, h.rev⟩

theorem Moved.wider {t t' : Map K V} {j : Nat} (hj : Rob16.cap t = 2 ^ j) (h : Moved E sec t t' (2 ^ (j + 1))) : Wider E t t' := by
  have h2 : Rob16.cap t' = 2 * Rob16.cap t := by rw [h.cap, Nat.pow_succ, hj]; omega
  have hp : 0 < Rob16.cap t := by rw [hj]; exact Nat.two_pow_pos _
  exact ⟨by omega, fun B l hl => by rw [h2]; exact hl.double hp, h.mlf, h.rev⟩

theorem TagOk.mono {t t' : Map K V} {k : K} (h : TagOk E sec t k) (hc : cap t ≤ cap t') : TagOk E sec t' k := by
  rcases h with h | h
  · exact Or.inl (by omega)
  · exact Or.inr h

/-- The outcomes of `find_or_prepare_insert`. -/
def PrepOk (E : Env K) (sec : Nat → Nat) (mem : Mem) (t : Map K V) (k : K) : Out (Map K V) (Nat × Option Nat) → Prop
  | .ok t' (i, none) => t' = t ∧ i < cap t ∧ KeyAt E t k i
  | .ok t' (i, some m) => Absent E t k ∧ Live E sec t' ∧ Stop E t' k m ∧ i = pos E t' k m ∧ t'.size < t'.thr ∧
      (entries t').Perm (entries t) ∧ Wider E t t'
  | .throw t' => Absent E t k ∧ (mem ≠ .ok ∨ memLimit < 2 * cap t') ∧
      (mem ≠ .noSlots → Live E sec t' ∧ (entries t').Perm (entries t) ∧ Wider E t t')
  | .diverge => False
  | .ub => False

theorem prepare_spec (hE : E.Lawful) (mem : Mem) (k : K) : ∀ (f j : Nat) (t : Map K V), Live E sec t → TagOk E sec t k →
    Spread E 254 (cap t) (entries t) → cap t = 2 ^ j → 49 ≤ f + j → PrepOk E sec mem t k (prepare E sec mem k f t) := by
  intro f
  induction f with
  | zero =>
    intro j t h _ _ hj hf
    have := h.cap_le
    have := Robin.pow_two_le (a := 49) (b := j) (by omega)
    omega
  | succ f ih =>
    intro j t h hk hS hj hf
    -- what a growth does
    have hgrow : Absent E t k → PrepOk E sec mem t k ((grow E sec mem t).bind fun t' _ => prepare E sec mem k f t') := by
      intro ha
      rcases grow_spec h.toTab.weak (by rw [← h.size]; exact Nat.le_of_lt h.room) hS mem hj with ⟨t1, h1, h2, h3⟩ | ⟨t1, h1, h2, h3⟩
      · rw [h1]
        have hw := h3.wider hj
        have hsp := ih (j + 1) t1 (h3.live hE h.distinct h.mlf) (hk.mono hw.le) ((hw.spread _ _ hS).perm h3.perm) h3.cap (by omega)
        show PrepOk E sec mem t k (prepare E sec mem k f t1)
        generalize prepare E sec mem k f t1 = o at hsp
        match o, hsp with
        | .ok t2 (i, none), hsp =>
          exact absurd hsp.2.2 ((absent_iff h3.inv.toBase).mp (ha.perm h3.perm) i hsp.2.1)
        | .ok t2 (i, some m), ⟨g1, g2, g3, g4, g5, g6, g7⟩ =>
          exact ⟨ha, g2, g3, g4, g5, g6.trans h3.perm, hw.trans g7⟩
        | .throw t2, ⟨g1, g2, g3⟩ =>
          refine ⟨ha, g2, fun hm => ?_⟩
          obtain ⟨g4, g5, g6⟩ := g3 hm
          exact ⟨g4, g5.trans h3.perm, hw.trans g6⟩
      · rw [h1]
        refine ⟨ha, h2, fun hm => ?_⟩
        rcases h3 with rfl | h3
        · exact ⟨h, List.Perm.refl _, Wider.refl _⟩
        · exact absurd h3 hm
    unfold prepare
    obtain ⟨m, hm, hp⟩ := probe_spec h.toTab hE hk h.exists_empty (s := 4) (by decide)
    rcases hp with ⟨x, h1, h2, h3⟩ | ⟨h1, h2⟩
    · rw [h1]; exact ⟨rfl, h2, h3⟩
    · rw [h1]
      have ha := (absent_iff h.toBase).mpr h2
      simp only [lift]
      split
      · exact hgrow ha
      · rename_i hl
        exact ⟨ha, h, hm, rfl, by omega, List.Perm.refl _, Wider.refl _⟩

/-- The outcomes of `emplace`: an element is added, or the one with the key is left or gets the value, or an exception leaves the
function; the table is intact unless the displacement limit was exceeded, the slots could not be allocated, or the constructor
threw. -/
def EmplaceOk (E : Env K) (sec : Nat → Nat) (update : Bool) (mem : Mem) (ctor : Bool) (k : K) (v : V) (t : Map K V) :
    Out (Map K V) (Nat × Bool) → Prop
  | .ok t' (i, b) =>
    (b = true ∧ ctor = true ∧ Absent E t k ∧ Live E sec t' ∧ (entries t').Perm ((k, v) :: entries t) ∧ i < cap t' ∧
      t'.slot i = some (k, v) ∧ Wider E t t') ∨
    (b = false ∧ i < cap t ∧ (t.ctrl i).dist ≠ 255 ∧ ∃ e, t.slot i = some e ∧ E.eq e.1 k = true ∧
      t' = if update then { t with slot := upd t.slot i (some (e.1, v)) } else t)
  | .throw t' => Absent E t k ∧ (mem ≠ .ok ∨ ctor = false ∨ memLimit < 2 * cap t') ∧
      (mem ≠ .noSlots → ctor = true → (entries t').Perm (entries t) ∧ Wider E t t' ∧
        (Live E sec t' ∨ (¬ Spread E 129 (cap t) ((k, v) :: entries t) ∧ Weak t')))
  | .diverge => False
  | .ub => False

theorem Live.put (hE : E.Lawful) {t q : Map K V} (h : Live E sec t) {i : Nat} {e : K × V} (hs : Same t q)
    (hT : Tab E sec (withSlot i (some e) q)) (hp : (entries (withSlot i (some e) q)).Perm (e :: entries t))
    (ha : Absent E t e.1) (hr : t.size < t.thr) :
    Live E sec { q with slot := upd q.slot i (some e), size := q.size + 1 } ∧
    (entries { q with slot := upd q.slot i (some e), size := q.size + 1 }).Perm (e :: entries t) := by
  have hthr := h.thr
  obtain ⟨h1, h2⟩ := h.toCore.put hs hT hp (by omega)
  refine ⟨⟨⟨h1, ?_⟩, ?_, ?_⟩, h2⟩
  · refine Distinct.perm hE h2.symm (List.Pairwise.cons ?_ h.distinct)
    intro e' he'
    exact Robin.absent_symm hE (ha e' he')
  · show q.thr < cap q
    rw [hs.thr, hs.cap]; exact hthr
  · show q.mlf < 65536
    rw [hs.mlf]; exact h.mlf

theorem emplace_spec (hE : E.Lawful) (update : Bool) (mem : Mem) (ctor : Bool) (k : K) (v : V) : ∀ (f j : Nat) (t : Map K V),
    Live E sec t → TagOk E sec t k → Spread E 254 (cap t) ((k, v) :: entries t) → cap t = 2 ^ j → 49 ≤ f + j →
    EmplaceOk E sec update mem ctor k v t (emplace E sec update mem ctor k v f t) := by
  intro f
  induction f with
  | zero =>
    intro j t h _ _ hj hf
    have := h.cap_le
    have := Robin.pow_two_le (a := 49) (b := j) (by omega)
    omega
  | succ f ih =>
    intro j t h hk hS hj hf
    unfold emplace
    have hS0 : Spread E 254 (cap t) (entries t) := hS.sub (List.sublist_cons_self _ _).subperm
    have hj2 : 2 ≤ j := by
      by_contra hc
      have := h.cap_ge
      have := Robin.pow_two_le (a := j) (b := 1) (by omega)
      omega
    have hsp := prepare_spec hE mem k 64 j t h hk hS0 hj (by omega)
    generalize prepare E sec mem k 64 t = o at hsp
    match o, hsp with
    | .throw t', ⟨g1, g2, g3⟩ =>
      refine ⟨g1, g2.imp_right Or.inr, fun hm _ => ?_⟩
      obtain ⟨g4, g5, g6⟩ := g3 hm
      exact ⟨g5, g6, Or.inl g4⟩
    | .ok t' (i, none), ⟨g1, g2, g3, e, g4, g5⟩ =>
      subst g1
      simp only [Out.bind_ok, g4]
      exact Or.inr ⟨rfl, g2, g3, e, g4, g5, rfl⟩
    | .ok t' (i, some m), ⟨g1, g2, g3, g4, g5, g6, g7⟩ =>
      simp only [Out.bind_ok]
      have hS' : Spread E 254 (cap t') ((k, v) :: entries t') := (g7.spread _ _ hS).perm (g6.cons _)
      obtain ⟨q, b, h1, h2⟩ := makeRoom_spec (e := (k, v)) false g2.toTab g2.exists_empty g3 hS'
      rw [g4, h1]
      simp only [lift]
      have hwid : Wider E t q := g7.trans h2.same.wider
      cases b with
      | false =>
        simp only [Bool.false_eq_true, if_false]
        obtain ⟨h3, h4⟩ := h2.done rfl
        cases ctor with
        | false =>
          rw [if_neg (by decide)]
          exact ⟨g1, Or.inr (Or.inl rfl), fun _ hc => by cases hc⟩
        | true =>
          rw [if_pos rfl]
          obtain ⟨h5, h6⟩ := g2.put hE h2.same h3 h4 (g1.perm g6) g5
          refine Or.inl ⟨rfl, rfl, g1, h5, h6.trans (g6.cons _), ?_, upd_self _ _ _, ?_⟩
          · show pos E t' k m < cap q
            rw [h2.same.cap]; exact g2.pos_lt _ _
          · exact ⟨hwid.le, hwid.spread, hwid.mlf, hwid.rev⟩
      | true =>
        simp only [if_true]
        obtain ⟨_, h3, h4, h5⟩ := h2.full rfl
        have hpq : (entries q).Perm (entries t) := h5.trans g6
        have hn : ¬ Spread E 129 (cap t) ((k, v) :: entries t) := fun hc => h3 ((g7.spread _ _ hc).perm (g6.cons _))
        obtain ⟨jq, hjq1, _, hjq⟩ := h4.pow
        have hjle : j ≤ jq := by
          by_contra hc
          have h6 := Robin.pow_two_le (a := jq + 1) (b := j) (by omega)
          have := hwid.le
          rw [Nat.pow_succ] at h6
          have := h.cap_ge
          omega
        have hlenq : (entries q).length ≤ cap q := by
          rw [h5.length_eq, ← g2.size, h2.same.cap]; exact Nat.le_of_lt g2.room
        rcases grow_spec (E := E) (sec := sec) h4 hlenq ((hwid.spread _ _ hS0).perm hpq) mem hjq with ⟨t1, k1, k2, k3⟩ | ⟨t1, k1, k2, k3⟩
        · rw [k1]
          simp only [Out.bind_ok]
          have hw1 : Wider E t t1 := hwid.trans (k3.wider hjq)
          have hp1 : (entries t1).Perm (entries t) := k3.perm.trans hpq
          have hd1 : Distinct E.eq (entries q) := h.distinct.perm hE hpq.symm
          have hsp := ih (jq + 1) t1 (k3.live hE hd1 (by rw [hwid.mlf]; exact h.mlf)) (hk.mono hw1.le)
            ((hw1.spread _ _ hS).perm (hp1.cons _)) k3.cap (by omega)
          have ha1 : Absent E t1 k := g1.perm hp1
          generalize emplace E sec update mem ctor k v f t1 = o at hsp
          match o, hsp with
          | .ok t2 (i, b), Or.inl ⟨l1, l2, l3, l4, l5, l6, l7, l8⟩ =>
            exact Or.inl ⟨l1, l2, g1, l4, l5.trans (hp1.cons _), l6, l7, hw1.trans l8⟩
          | .ok t2 (i, b), Or.inr ⟨l1, l2, l3, e, l4, l5, l6⟩ =>
            exact absurd ⟨l3, e, l4, l5⟩ ((absent_iff k3.inv.toBase).mp ha1 i l2)
          | .throw t2, ⟨l1, l2, l3⟩ =>
            refine ⟨g1, l2, fun hm hc => ?_⟩
            obtain ⟨l4, l5, l6⟩ := l3 hm hc
            refine ⟨l4.trans hp1, hw1.trans l5, ?_⟩
            rcases l6 with l6 | ⟨_, l6⟩
            · exact Or.inl l6
            · exact Or.inr ⟨hn, l6⟩
        · rw [k1]
          refine ⟨g1, k2.imp_right Or.inr, fun hm _ => ?_⟩
          rcases k3 with rfl | k3
          · exact ⟨hpq, hwid, Or.inr ⟨hn, h4⟩⟩
          · exact absurd k3 hm

theorem entries_setVal {t : Map K V} {i : Nat} (hi : i < cap t) (hu : (t.ctrl i).dist < 255) {e : K × V} (he : t.slot i = some e) (v : V) :
    ∃ A B, entries t = A ++ e :: B ∧ entries { t with slot := upd t.slot i (some (e.1, v)) } = A ++ (e.1, v) :: B := by
  obtain ⟨A, B, hAB⟩ := filterMap_range_upd hi (cellAt t)
  have hused : used t i = true := by unfold used bEmpty; exact decide_eq_true hu
  refine ⟨A, B, ?_, ?_⟩
  · have h1 := hAB (some e)
    have h2 : upd (cellAt t) i (some e) = cellAt t := by
      funext x
      by_cases hx : x = i
      · subst hx; rw [upd_self]; unfold cellAt; rw [if_pos hused, he]
      · rw [upd_other _ _ hx]
    rw [h2] at h1
    unfold entries
    rw [h1]; simp
  · have h1 := hAB (some (e.1, v))
    have h2 : cellAt { t with slot := upd t.slot i (some (e.1, v)) } = upd (cellAt t) i (some (e.1, v)) := by
      funext x
      by_cases hx : x = i
      · subst hx
        rw [upd_self]
        unfold cellAt
        rw [if_pos (show used { t with slot := upd t.slot x (some (e.1, v)) } x = true from hused)]
        exact upd_self _ _ _
      · rw [upd_other _ _ hx]
        unfold cellAt
        show (if used t x then upd t.slot i (some (e.1, v)) x else none) = _
        rw [upd_other _ _ hx]
    unfold entries
    show (List.range (cap t)).filterMap _ = _
    rw [h2, h1]; simp

theorem Live.setVal {t : Map K V} (h : Live E sec t) {i : Nat} (hi : i < cap t) (hu : (t.ctrl i).dist ≠ 255) {e : K × V}
    (he : t.slot i = some e) (v : V) : Live E sec { t with slot := upd t.slot i (some (e.1, v)) } := by
  have hlt : (t.ctrl i).dist < 255 := by have := h.bound i hi; omega
  obtain ⟨A, B, h1, h2⟩ := entries_setVal hi hlt he v
  refine ⟨⟨⟨⟨⟨h.pow, h.gmask, h.clen, h.bound, h.order, h.mirror, h.tail⟩, ?_⟩, ?_, h.room⟩, ?_⟩, h.thr, h.mlf⟩
  · intro x hx hux
    obtain ⟨e', h3, h4, h5⟩ := h.cell x hx hux
    by_cases hxi : x = i
    · subst hxi
      rw [he] at h3
      cases h3
      exact ⟨(e.1, v), upd_self _ _ _, h4, h5⟩
    · exact ⟨e', (upd_other _ _ hxi).trans h3, h4, h5⟩
  · rw [h2]
    have := h.size
    rw [h1] at this
    simp only [List.length_append, List.length_cons] at this ⊢
    exact this
  · rw [h2]
    have hd := h.distinct
    rw [h1] at hd
    unfold Distinct at hd ⊢
    rw [List.pairwise_append, List.pairwise_cons] at hd ⊢
    refine ⟨hd.1, hd.2.1, ?_⟩
    intro a ha b hb
    rcases List.mem_cons.mp hb with rfl | hb
    · exact hd.2.2 a ha e (by simp)
    · exact hd.2.2 a ha b (by simp [hb])

end Verif.Rob16
