/-
The operations of the robin hood table on states that satisfy the invariant: creation, rehash, insertion with growth,
erasure, clearing, iteration.  An undefined outcome is traced back to a violation of the counting condition.
-/
import Verif.RobinFits
import Verif.TableRehash

namespace Verif.Robin
open Spec (Distinct)

variable {K V : Type} {E : Env K}

/-! ### New blocks -/

theorem calcCapacity_ok {n cap : Nat} (h : calcCapacity n = .ok cap) : ∃ j, 2 ≤ j ∧ cap = 2 ^ j ∧ n ≤ cap ∧ (cap = 4 ∨ cap < 2 * n) := by
  have hj : ∀ j, 4 ≤ 2 ^ j → 2 ≤ j := by
    intro j hj
    by_contra hc
    have : 2 ^ j ≤ 2 ^ 1 := Nat.pow_le_pow_right (by decide) (by omega)
    omega
  unfold calcCapacity at h
  simp only at h
  by_cases hp : isPow2 (max n 4) = true
  · rw [if_pos hp] at h
    obtain ⟨k, hk⟩ := (isPow2_iff (by omega)).mp hp
    cases h
    exact ⟨k, hj k (by omega), hk, by omega, by omega⟩
  · rw [if_neg hp] at h
    unfold roundUp at h
    split at h
    · cases h
      have h1 : max n 4 - 1 < 2 ^ (Nat.log2 (max n 4 - 1) + 1) := Nat.lt_log2_self
      have h2 : 2 ^ (Nat.log2 (max n 4 - 1)) ≤ max n 4 - 1 := Nat.log2_self_le (by omega)
      refine ⟨_, hj _ (by omega), rfl, by omega, ?_⟩
      rw [Nat.pow_succ] at h1 ⊢
      by_cases h4 : max n 4 = 4
      · exfalso; apply hp; rw [h4]; rfl
      · right; omega
    · cases h

theorem calcCapacity_diverge (n : Nat) : calcCapacity n ≠ .diverge := by
  unfold calcCapacity roundUp
  simp only
  split
  · simp
  · split <;> simp

theorem calcCapacity_ub {n : Nat} (h : calcCapacity n = .ub) : 2 ^ 63 < n := by
  unfold calcCapacity at h
  simp only at h
  split at h
  · cases h
  · unfold roundUp at h
    split at h
    · cases h
    · omega

theorem calcCapacity_pow {j : Nat} (h : 2 ≤ j) : calcCapacity (2 ^ j) = .ok (2 ^ j) := by
  have h4 : 2 ^ 2 ≤ 2 ^ j := Nat.pow_le_pow_right (by decide) h
  unfold calcCapacity
  have : max (2 ^ j) 4 = 2 ^ j := by omega
  simp only [this]
  rw [if_pos ((isPow2_iff (by omega)).mpr ⟨j, rfl⟩)]

/-- A block without elements. -/
theorem good_of_cleared {t : Map K V} {c : Nat} (hs : Shape t c)
    (hc : t.ctrl = clearedCtrl false c (lookups c) ((c + lookups c + 31) / 32)) (hn : t.slot = fun _ => none)
    (hz : t.size = 0) : Good E t c ∧ entries t = [] := by
  have hent : entries t = [] := by
    unfold entries
    rw [hn]
    simp
  have hw : width false = 32 := rfl
  refine ⟨{ toShape := hs, cell := ?_, tail := ?_, order := ?_, distinct := ?_, size := ?_ }, hent⟩
  · intro p hp
    rw [hs.slen] at hp
    left
    refine ⟨by rw [hn], ?_⟩
    rw [hc]
    unfold clearedCtrl
    rw [hw, if_neg (by omega)]
  · intro p hp
    rw [hs.slen] at hp
    refine ⟨by rw [hn], ?_⟩
    intro hp2
    rw [hs.clen] at hp2
    rw [hc]
    unfold clearedCtrl tailCtrl
    rw [hw]
    by_cases h32 : c < 32
    · rw [if_pos (by omega), if_pos h32]
    · rw [if_neg (by omega), if_neg h32]
  · intro p hp hd
    exfalso
    rw [hs.slen] at hp
    rw [hc] at hd
    unfold clearedCtrl at hd
    rw [hw, if_neg (by omega)] at hd
    simp [Ctrl.empty] at hd
  · rw [hent]; exact List.Pairwise.nil
  · rw [hent, hz]; rfl

theorem createSlots_good {t : Map K V} {j : Nat} (h : 2 ≤ j) {mem : Bool} {t1 : Map K V}
    (he : createSlots false mem (2 ^ j) t = .ok t1 ()) : Good E t1 (2 ^ j) ∧ entries t1 = [] ∧ t1.mlf = t.mlf ∧ t1.rev = t.rev ∧
      t1.thr = 2 ^ j * t.mlf / 256 := by
  unfold createSlots at he
  simp only at he
  split at he
  · rename_i hm
    have hm' : 2 ^ j ≤ 2 ^ 48 := by
      simp only [Bool.and_eq_true, decide_eq_true_eq] at hm
      exact hm.2
    have hj : j ≤ 48 := (Nat.pow_le_pow_iff_right (by decide)).mp hm'
    cases he
    refine ⟨(good_of_cleared ?_ rfl rfl rfl).1, (good_of_cleared (E := E) (c := 2 ^ j) ?_ rfl rfl rfl).2, rfl, rfl, rfl⟩ <;>
      exact ⟨rfl, ⟨j, h, hj, rfl⟩, rfl, rfl, rfl, rfl, rfl⟩
  · cases he

theorem createSlots_cases (t : Map K V) (cap : Nat) (mem : Bool) :
    (∃ t1, createSlots false mem cap t = .ok t1 ()) ∨
      createSlots false mem cap t = .throw { t with look := lookups cap } ∧ (mem = false ∨ 2 ^ 48 < cap) := by
  unfold createSlots
  simp only
  cases mem with
  | false => right; exact ⟨rfl, Or.inl rfl⟩
  | true =>
    by_cases hc : cap ≤ memLimit
    · left; simp [hc]
    · right
      simp only [hc, decide_false, Bool.and_false, Bool.false_eq_true, if_false]
      exact ⟨trivial, Or.inr (by unfold memLimit at hc; omega)⟩

/-! ### Moving the elements of an old block -/

theorem absent_symm (hE : E.Lawful) {a b : K} (h : E.eq a b = false) : E.eq b a = false := by
  cases hq : E.eq b a with
  | false => rfl
  | true => rw [hE.symm _ _ hq] at h; cases h

/-- The element has been added. -/
structure Added (E : Env K) (t t' : Map K V) (c i : Nat) (e : K × V) : Prop where
  good : Good E t' c
  perm : (entries t').Perm (e :: entries t)
  at_i : t'.slot i = some e
  mlf : t'.mlf = t.mlf
  rev : t'.rev = t.rev
  thr : t'.thr = t.thr

theorem insertNoGrow_spec (hE : E.Lawful) {c : Nat} {t : Map K V} (h : Good E t c) (e : K × V)
    (hk : ∀ x ∈ entries t, E.eq x.1 e.1 = false) :
    match insertNoGrow false true E 0 e t with
    | .ok t' => ∃ i, Added E t t' c i e
    | .diverge => False
    | .ub => Stuck t (hm E c e.1) := by
  unfold insertNoGrow
  have h1 := seek_spec h e.1
  cases hs : seek false true E t e.1 with
  | diverge => rw [hs] at h1; exact h1
  | ub => rw [hs] at h1; exact Or.inl h1
  | ok r =>
    obtain ⟨i, d⟩ := r
    rw [hs] at h1
    simp only [Res.bind_ok]
    have h1' : Stop t (hm E c e.1) i d := h1
    have hd0 : ({ d with hash := 0 } : Ctrl) = d := by rw [h1'.d_eq]
    rw [hd0]
    by_cases hi : i < t.slen
    · have h2 := place_spec hE h h1' hi true
      cases hp : place false true true t i d with
      | diverge => rw [hp] at h2; exact h2
      | ub => rw [hp] at h2; exact Or.inr ⟨i, d, h1', Or.inr ⟨hi, Or.inr h2⟩⟩
      | ok r =>
        obtain ⟨t', b⟩ := r
        rw [hp] at h2
        cases b with
        | false =>
          simp only [Res.bind_ok, Bool.not_false, Bool.and_self, if_true]
          exact Or.inr ⟨i, d, h1', Or.inr ⟨hi, Or.inl h2.2⟩⟩
        | true =>
          simp only [Res.bind_ok, Bool.not_true, Bool.and_false, Bool.false_eq_true, if_false]
          obtain ⟨t'', g1, g2, g3, g4, g5, g6, g7⟩ := Made.good hE e.2 h h2 h1' hi hk
          rw [g1]
          exact ⟨i, g2, g3, g4, g5, g6, g7⟩
    · have h2 := place_out h (d := d) hi true
      have hst : Stuck t (hm E c e.1) := Or.inr ⟨i, d, h1', Or.inl (by omega)⟩
      cases hp : place false true true t i d with
      | diverge => rw [hp] at h2; exact h2
      | ub => exact hst
      | ok r =>
        obtain ⟨t', b⟩ := r
        rw [hp] at h2
        cases b with
        | false => exact h2.elim
        | true =>
          simp only [Res.bind_ok, Bool.not_true, Bool.and_false, Bool.false_eq_true, if_false]
          unfold construct
          have h2' : SameShape t t' := h2
          rw [if_neg (by rw [h2'.slen]; exact hi)]
          exact hst

theorem transferAll_spec (hE : E.Lawful) {c : Nat} (old : Map K V) : ∀ (is : List Nat) (t : Map K V), Good E t c →
    (∀ i ∈ is, ∃ e, old.slot i = some e ∧ (old.ctrl i).hash = 0) →
    Distinct E.eq (is.filterMap old.slot ++ entries t) →
    match transferAll false true E old is t with
    | .ok t' => Good E t' c ∧ (entries t').Perm (is.filterMap old.slot ++ entries t) ∧ t'.mlf = t.mlf ∧ t'.rev = t.rev ∧ t'.thr = t.thr
    | .diverge => False
    | .ub => ¬ Fits E c (is.filterMap old.slot ++ entries t) := by
  intro is
  induction is with
  | nil =>
    intro t h _ _
    simp only [transferAll, List.filterMap_nil, List.nil_append]
    exact ⟨h, List.Perm.refl _, trivial, trivial, trivial⟩
  | cons i is ih =>
    intro t h hu hd
    obtain ⟨e, he, hz⟩ := hu i (by simp)
    have hl : (i :: is).filterMap old.slot = e :: is.filterMap old.slot := by simp [he]
    rw [hl] at hd ⊢
    unfold transferAll
    rw [he, hz, ite_self]
    simp only
    rw [List.cons_append, Distinct, List.pairwise_cons] at hd
    have hk : ∀ x ∈ entries t, E.eq x.1 e.1 = false := fun x hx =>
      absent_symm hE (hd.1 x (List.mem_append_right _ hx))
    have h1 := insertNoGrow_spec hE h e hk
    cases hr : insertNoGrow false true E 0 e t with
    | diverge => rw [hr] at h1; exact h1
    | ub =>
      rw [hr] at h1
      simp only [Res.bind_ub]
      intro hf
      have hf' : Fits E c (e :: entries t) := hf.sublist (by
        rw [List.cons_append]
        exact List.Sublist.cons_cons _ (List.sublist_append_right _ _))
      exact hf'.not_stuck h h1
    | ok t1 =>
      rw [hr] at h1
      obtain ⟨i1, ha⟩ := h1
      simp only [Res.bind_ok]
      have hp1 : (is.filterMap old.slot ++ entries t1).Perm (e :: is.filterMap old.slot ++ entries t) :=
        (List.Perm.append_left _ ha.perm).trans List.perm_middle
      have h2 := ih t1 ha.good (fun i hi => hu i (List.mem_cons_of_mem _ hi))
        (Spec.Distinct.perm hE hp1.symm (by rw [List.cons_append, Distinct, List.pairwise_cons]; exact hd))
      cases hr2 : transferAll false true E old is t1 with
      | diverge => rw [hr2] at h2; exact h2
      | ub =>
        rw [hr2] at h2
        exact fun hf => h2 (hf.perm hp1.symm)
      | ok t2 =>
        rw [hr2] at h2
        obtain ⟨g1, g2, g3, g4, g5⟩ := h2
        exact ⟨g1, g2.trans hp1, g3.trans ha.mlf, g4.trans ha.rev, g5.trans ha.thr⟩

theorem filterMap_range_extend {α : Type} (f : Nat → Option α) {n N : Nat} (hn : n ≤ N) (h : ∀ p, n ≤ p → p < N → f p = none) :
    (List.range N).filterMap f = (List.range n).filterMap f := by
  obtain ⟨m, rfl⟩ : ∃ m, N = n + m := ⟨N - n, by omega⟩
  rw [List.range_add, List.filterMap_append, List.filterMap_map]
  have : List.filterMap (f ∘ fun x => n + x) (List.range m) = [] := by
    rw [List.filterMap_eq_nil_iff]
    intro a ha
    exact h (n + a) (by omega) (by have := List.mem_range.mp ha; omega)
  rw [this, List.append_nil]

/-- The indices a rehash visits are those of the elements. -/
theorem usedIdx_spec {c : Nat} {t : Map K V} (h : Weak E t c) :
    (∀ i ∈ usedIdx false t, ∃ e, t.slot i = some e ∧ (t.ctrl i).hash = 0) ∧ (usedIdx false t).filterMap t.slot = entries t := by
  have hw : width false = 32 := rfl
  have hN : ∃ N, (if width false ≤ slotCap t then groups false t * width false else if t.alloc = true then maxCap t else 0) = N ∧
      t.slen ≤ N ∧ N ≤ t.clen := by
    refine ⟨_, rfl, ?_⟩
    have := h.toShape.clen
    have := h.toShape.slen
    unfold groups
    rw [h.alloc, if_pos rfl, h.toShape.maxCap, hw]
    split <;> constructor <;> omega
  obtain ⟨N, hN1, hN2, hN3⟩ := hN
  unfold usedIdx
  rw [hN1]
  have hus : ∀ i, i < N → ((t.ctrl i).isUsed = true ∧ (∃ e, t.slot i = some e ∧ (t.ctrl i).hash = 0)) ∨
      ((t.ctrl i).isUsed = false ∧ t.slot i = none) := by
    intro i hi
    by_cases hs : i < t.slen
    · rcases h.cell i hs with ⟨h1, h2⟩ | ⟨e, h1, h2, h3⟩
      · right; exact ⟨by rw [h2]; rfl, h1⟩
      · left; exact ⟨by unfold Ctrl.isUsed; exact decide_eq_true h2, e, h1, h3⟩
    · right
      obtain ⟨h1, h2⟩ := h.tail i (by omega)
      refine ⟨?_, h1⟩
      rw [h2 (by omega)]
      unfold tailCtrl
      split <;> rfl
  constructor
  · intro i hi
    rw [List.mem_filter, List.mem_range] at hi
    rcases hus i hi.1 with ⟨_, h1⟩ | ⟨h1, _⟩
    · exact h1
    · rw [h1] at hi; cases hi.2
  · rw [List.filterMap_filter]
    rw [filterMap_congr' (g := t.slot)]
    · exact filterMap_range_extend t.slot hN2 (fun p h1 _ => (h.tail p h1).1)
    · intro i hi
      rcases hus i (List.mem_range.mp hi) with ⟨h1, _⟩ | ⟨h1, h2⟩
      · rw [h1]; rfl
      · rw [h1, h2]; rfl

/-- A map without storage. -/
def Fresh (t : Map K V) : Prop := ∃ m r, t = emptyMap false m r

theorem Fresh.entries {t : Map K V} (h : Fresh t) : Robin.entries t = [] := by
  obtain ⟨m, r, rfl⟩ := h; rfl

theorem Fresh.usedIdx {t : Map K V} (h : Fresh t) : Robin.usedIdx false t = [] := by
  obtain ⟨m, r, rfl⟩ := h
  rfl

/-- The elements of `t` have moved into a block of capacity `cap`. -/
structure Moved (E : Env K) (t t' : Map K V) (cap : Nat) : Prop where
  good : Good E t' cap
  perm : (entries t').Perm (entries t)
  mlf : t'.mlf = t.mlf
  rev : t'.rev = t.rev
  thr : t'.thr = cap * t.mlf / 256

/-- Outcomes of `rehash_impl(n)`. -/
def RehashOk (E : Env K) (t : Map K V) (always mem : Bool) (n : Nat) : Out (Map K V) Unit → Prop
  | .ok t' _ => (∃ cap, calcCapacity n = .ok cap ∧ cap ≤ 2 ^ 48 ∧ Moved E t t' cap) ∨
      (always = false ∧ t' = t ∧ ∃ cap, calcCapacity n = .ok cap ∧ slotCap t ≥ cap)
  | .throw _ => mem = false ∨ ∃ cap, calcCapacity n = .ok cap ∧ 2 ^ 48 < cap
  | .diverge => False
  | .ub => calcCapacity n = .ub ∨ ∃ cap, calcCapacity n = .ok cap ∧ ¬ Fits E cap (entries t)

theorem rehashImpl_spec (hE : E.Lawful) {t : Map K V} (h : Fresh t ∨ ∃ c, Weak E t c) (sh al mem : Bool) (n : Nat) :
    RehashOk E t al mem n (rehashImpl false true E sh al mem n t) := by
  unfold rehashImpl
  cases hc : calcCapacity n with
  | ub => exact Or.inl hc
  | diverge => exact (calcCapacity_diverge n hc).elim
  | ok cap =>
    simp only
    split
    · rename_i hdo
      obtain ⟨j, hj, rfl, hn, _⟩ := calcCapacity_ok hc
      rcases createSlots_cases t (2 ^ j) mem with ⟨t1, ht1⟩ | ⟨ht1, hb⟩
      · rw [ht1]
        simp only
        obtain ⟨g1, g2, g3, g4, g5⟩ := createSlots_good (E := E) hj ht1
        have hl : (∀ i ∈ usedIdx false t, ∃ e, t.slot i = some e ∧ (t.ctrl i).hash = 0) ∧
            (usedIdx false t).filterMap t.slot = entries t ∧ Distinct E.eq (entries t) := by
          rcases h with h | ⟨c, h⟩
          · rw [h.usedIdx, h.entries]
            exact ⟨by simp, rfl, List.Pairwise.nil⟩
          · exact ⟨(usedIdx_spec h).1, (usedIdx_spec h).2, h.distinct⟩
        have h3 := transferAll_spec hE t (usedIdx false t) t1 g1 hl.1 (by rw [g2, List.append_nil, hl.2.1]; exact hl.2.2)
        rw [g2, List.append_nil, hl.2.1] at h3
        cases hr : transferAll false true E t (usedIdx false t) t1 with
        | diverge => rw [hr] at h3; exact h3
        | ub => rw [hr] at h3; exact Or.inr ⟨_, hc, h3⟩
        | ok t2 =>
          rw [hr] at h3
          obtain ⟨q1, q2, q3, q4, q5⟩ := h3
          left
          refine ⟨2 ^ j, hc, ?_, q1, q2, q3.trans g3, q4.trans g4, q5.trans g5⟩
          obtain ⟨j', _, hj', he⟩ := q1.pow
          rw [he]
          exact Nat.pow_le_pow_right (by decide) hj'
      · rw [ht1]
        rcases hb with hb | hb
        · exact Or.inl hb
        · exact Or.inr ⟨_, hc, hb⟩
    · rename_i hdo
      cases al with
      | true => simp at hdo
      | false =>
        right
        refine ⟨rfl, rfl, cap, hc, ?_⟩
        cases sh with
        | false => simpa using hdo
        | true =>
          simp only [Bool.false_or, Bool.not_true, Bool.false_and, Bool.true_and, bne_iff_ne, ne_eq, Decidable.not_not] at hdo
          omega

/-! ### Insertion -/

/-- An allocated map between two calls. -/
structure Live (E : Env K) (t : Map K V) (c : Nat) : Prop extends Good E t c where
  thr_le : t.thr ≤ c
  size_le : t.size ≤ c

theorem mul_div_le {c m : Nat} (h : m ≤ 256) : c * m / 256 ≤ c :=
  Nat.div_le_of_le_mul (by rw [Nat.mul_comm 256]; exact Nat.mul_le_mul_left _ h)

theorem Moved.live {t t' : Map K V} {cap : Nat} (h : Moved E t t' cap) (hm : t.mlf ≤ 256) (hs : (entries t).length ≤ cap) :
    Live E t' cap :=
  { toGood := h.good
    thr_le := by rw [h.thr]; exact mul_div_le hm
    size_le := by rw [h.good.size, h.perm.length_eq]; exact hs }

/-- `grow_if_necessary` from a block of capacity `2^j`. -/
def GrowOk (E : Env K) (t : Map K V) (j : Nat) : Out (Map K V) Unit → Prop
  | .ok t' _ => j ≤ 48 ∧ Moved E t t' (2 ^ j)
  | .throw _ => True
  | .diverge => False
  | .ub => ¬ Fits E (2 ^ j) (entries t)

theorem grow_spec (hE : E.Lawful) {t : Map K V} {j : Nat} (h : Weak E t (2 ^ j) ∨ Fresh t ∧ j = 1) (hj : 1 ≤ j) (mem : Bool) :
    GrowOk E t (j + 1) (grow false true E mem t) := by
  unfold grow
  have h1 := rehashImpl_spec hE (t := t) (by
    rcases h with h | h
    · exact Or.inr ⟨_, h⟩
    · exact Or.inl h.1) false true mem ((t.mask + 1) * 2)
  have hc : calcCapacity ((t.mask + 1) * 2) = .ok (2 ^ (j + 1)) := by
    rcases h with h | ⟨⟨m, r, rfl⟩, rfl⟩
    · rw [h.mask, Nat.sub_add_cancel (Nat.one_le_two_pow), ← Nat.pow_succ]
      exact calcCapacity_pow (by omega)
    · show calcCapacity (2 : Nat) = _
      decide
  cases hr : rehashImpl false true E false true mem ((t.mask + 1) * 2) t with
  | diverge => rw [hr] at h1; exact h1
  | throw t' => trivial
  | ub =>
    rw [hr] at h1
    rcases h1 with h1 | ⟨cap, h1, h2⟩
    · rw [hc] at h1; cases h1
    · rw [hc] at h1; cases h1; exact h2
  | ok t' u =>
    rw [hr] at h1
    rcases h1 with ⟨cap, h1, h2, h3⟩ | ⟨h1, _⟩
    · rw [hc] at h1; cases h1
      exact ⟨(Nat.pow_le_pow_iff_right (by decide)).mp h2, h3⟩
    · cases h1

/-- What follows `find_or_insert` in the emplace functions. -/
def emplaceTail (E : Env K) (update mem : Bool) (k : K) (v : V) (f : Nat) (t' : Map K V) : Found → Out (Map K V) (Nat × Bool)
  | .notExists i => lift (construct i (k, v) t') fun t'' => .ok t'' (i, true)
  | .exists_ i =>
    match t'.slot i with
    | none => .ub
    | some e => .ok (if update then { t' with slot := upd t'.slot i (some (e.1, v)) } else t') (i, false)
  | .needGrow => (grow false true E mem t').bind fun t'' _ => emplaceLoop false true E update mem k v f t''

theorem emplaceLoop_succ (update mem : Bool) (k : K) (v : V) (f : Nat) (t : Map K V) :
    emplaceLoop false true E update mem k v (f + 1) t =
      (findOrInsert false true E mem k t).bind fun t' r => emplaceTail E update mem k v f t' r := by
  conv => lhs; unfold emplaceLoop
  congr 1

/-- Outcomes of placing an absent key in a good map. -/
inductive TailCase (E : Env K) (t : Map K V) (c : Nat) (update mem : Bool) (k : K) (v : V) (f : Nat) : Out (Map K V) (Nat × Bool) → Prop
  | added (i : Nat) (t' : Map K V) (h : Added E t t' c i (k, v)) : TailCase E t c update mem k v f (.ok t' (i, true))
  | ub (h : Stuck t (hm E c k)) : TailCase E t c update mem k v f .ub
  | grow (t' : Map K V) (h : Weak E t' c) (hs : SameShape t t') (hp : (entries t').Perm (entries t)) (h' : Stuck t (hm E c k)) :
      TailCase E t c update mem k v f ((grow false true E mem t').bind fun t'' _ => emplaceLoop false true E update mem k v f t'')

theorem finish_spec (hE : E.Lawful) {c : Nat} {t : Map K V} (h : Good E t c) {k : K} {i : Nat} {d : Ctrl}
    (hs : Stop t (hm E c k) i d) (hk : ∀ x ∈ entries t, E.eq x.1 k = false) (update mem : Bool) (v : V) (f : Nat) :
    TailCase E t c update mem k v f ((finish false true E k t i d).bind fun t' r => emplaceTail E update mem k v f t' r) := by
  unfold finish
  have hd0 : ({ d with hash := ctrlHash false E k } : Ctrl) = d := by rw [hs.d_eq]; rfl
  rw [hd0]
  by_cases hi : i < t.slen
  · have h2 := place_spec hE h hs hi false
    cases hp : place false true false t i d with
    | diverge => rw [hp] at h2; exact h2.elim
    | ub => rw [hp] at h2; exact .ub (Or.inr ⟨i, d, hs, Or.inr ⟨hi, Or.inr h2⟩⟩)
    | ok r =>
      obtain ⟨t', b⟩ := r
      rw [hp] at h2
      cases b with
      | false =>
        simp only [lift, Out.bind_ok, Bool.false_eq_true, if_false, emplaceTail]
        exact .grow t' h2.1.1 h2.1.2.1 h2.1.2.2 (Or.inr ⟨i, d, hs, Or.inr ⟨hi, Or.inl h2.2⟩⟩)
      | true =>
        obtain ⟨t'', g1, g2, g3, g4, g5, g6, g7⟩ := Made.good hE v h h2 hs hi hk
        simp only [lift, Out.bind_ok, if_true, emplaceTail, g1]
        exact .added i t'' ⟨g2, g3, g4, g5, g6, g7⟩
  · have h2 := place_out h (d := d) hi false
    have hst : Stuck t (hm E c k) := Or.inr ⟨i, d, hs, Or.inl (by omega)⟩
    cases hp : place false true false t i d with
    | diverge => rw [hp] at h2; exact h2.elim
    | ub => exact .ub hst
    | ok r =>
      obtain ⟨t', b⟩ := r
      rw [hp] at h2
      cases b with
      | false => exact h2.elim
      | true =>
        have h2' : SameShape t t' := h2
        simp only [lift, Out.bind_ok, if_true, emplaceTail, construct]
        rw [if_neg (by rw [h2'.slen]; exact hi)]
        exact .ub hst

/-- For some capacity that the map may use, the elements (or the elements and the new one) do not fit. -/
def Cramped (E : Env K) (t : Map K V) (k : K) (v : V) : Prop :=
  ∃ j, 2 ≤ j ∧ ((entries t).length ≤ 2 ^ j ∧ ¬ Fits E (2 ^ j) (entries t) ∨
    (∀ x ∈ entries t, E.eq x.1 k = false) ∧ (entries t).length + 1 ≤ 2 ^ j ∧ ¬ Fits E (2 ^ j) ((k, v) :: entries t))

/-- Outcomes of an insertion. -/
def EmplaceOk (E : Env K) (t : Map K V) (update : Bool) (k : K) (v : V) : Out (Map K V) (Nat × Bool) → Prop
  | .ok t' (i, b) =>
      (b = true ∧ (∀ x ∈ entries t, E.eq x.1 k = false) ∧ (entries t').Perm ((k, v) :: entries t) ∧ t'.slot i = some (k, v) ∧
        t'.mlf = t.mlf ∧ t'.rev = t.rev ∧ ∃ c', Live E t' c') ∨
      (b = false ∧ i < t.slen ∧ ∃ e, t.slot i = some e ∧ E.eq e.1 k = true ∧
        t' = if update then { t with slot := upd t.slot i (some (e.1, v)) } else t)
  | .throw _ => True
  | .diverge => False
  | .ub => Cramped E t k v

theorem EmplaceOk.of_moved {t t1 : Map K V} {c : Nat} {update : Bool} {k : K} {v : V} (hm : Moved E t t1 c)
    (hk : ∀ x ∈ entries t, E.eq x.1 k = false) {r : Out (Map K V) (Nat × Bool)} (h : EmplaceOk E t1 update k v r) :
    EmplaceOk E t update k v r := by
  cases r with
  | throw => trivial
  | diverge => exact h
  | ub =>
    obtain ⟨j, h1, ⟨h2, h3⟩ | ⟨_, h2, h3⟩⟩ := h
    · exact ⟨j, h1, Or.inl ⟨by rw [← hm.perm.length_eq]; exact h2, fun hf => h3 (hf.perm hm.perm.symm)⟩⟩
    · exact ⟨j, h1, Or.inr ⟨hk, by rw [← hm.perm.length_eq]; exact h2, fun hf => h3 (hf.perm (List.Perm.cons _ hm.perm.symm))⟩⟩
  | ok t' p =>
    obtain ⟨i, b⟩ := p
    rcases h with ⟨h1, h2, h3, h4, h5, h6, h7⟩ | ⟨_, h2, e, h3, h4, _⟩
    · left
      exact ⟨h1, hk, h3.trans (List.Perm.cons _ hm.perm), h4, h5.trans hm.mlf, h6.trans hm.rev, h7⟩
    · exfalso
      have := hk e (hm.perm.mem_iff.mp (mem_entries.mpr ⟨i, h2, h3⟩))
      rw [this] at h4; cases h4

theorem pow_two_le {a b : Nat} (h : a ≤ b) : 2 ^ a ≤ 2 ^ b := Nat.pow_le_pow_right (by decide) h

theorem weak_moved {t t' : Map K V} {c : Nat} (hs : SameShape t t') (hp : (entries t').Perm (entries t)) {t2 : Map K V}
    (h : Moved E t' t2 c) : Moved E t t2 c :=
  ⟨h.good, h.perm.trans hp, h.mlf.trans hs.mlf, h.rev.trans hs.rev, by rw [h.thr, hs.mlf]⟩

theorem emplaceLoop_spec (hE : E.Lawful) (update mem : Bool) (k : K) (v : V) : ∀ (f j : Nat) (t : Map K V),
    (Live E t (2 ^ j) ∨ Fresh t ∧ j = 1) → 1 ≤ j → 50 ≤ f + j → t.mlf ≤ 256 →
    EmplaceOk E t update k v (emplaceLoop false true E update mem k v f t) := by
  intro f
  induction f with
  | zero =>
    intro j t h _ hf _
    rcases h with h | ⟨_, h⟩
    · obtain ⟨j', _, h2, h3⟩ := h.pow
      have := Nat.pow_right_injective (Nat.le_refl 2) h3
      omega
    · omega
  | succ f ih =>
    intro j t h hj1 hf hmlf
    rw [emplaceLoop_succ]
    -- growth, then the place
    have hgrow : (Weak E t (2 ^ j) ∨ Fresh t ∧ j = 1) → (entries t).length ≤ 2 ^ j → (∀ x ∈ entries t, E.eq x.1 k = false) →
        EmplaceOk E t update k v (((grow false true E mem t).bind fun t1 _ =>
          lift (seek false true E t1 k) fun (i1, d1) => finish false true E k t1 i1 d1).bind fun t' r =>
            emplaceTail E update mem k v f t' r) := by
      intro hw hlen hk
      have hg := grow_spec hE hw hj1 mem
      have hp2 : 2 ^ (j + 1) = 2 ^ j + 2 ^ j := by rw [Nat.pow_succ]; omega
      have hp1 : 1 ≤ 2 ^ j := Nat.one_le_two_pow
      cases hr : grow false true E mem t with
      | diverge => rw [hr] at hg; exact hg.elim
      | throw t' => trivial
      | ub =>
        rw [hr] at hg
        exact ⟨j + 1, by omega, Or.inl ⟨by omega, hg⟩⟩
      | ok t1 u =>
        rw [hr] at hg
        obtain ⟨_, hmv⟩ := hg
        have hl1 : (entries t1).length ≤ 2 ^ (j + 1) := by rw [hmv.perm.length_eq]; omega
        have hk1 : ∀ x ∈ entries t1, E.eq x.1 k = false := fun x hx => hk x (hmv.perm.mem_iff.mp hx)
        have hstuck : Stuck t1 (hm E (2 ^ (j + 1)) k) → Cramped E t k v := fun hst =>
          ⟨j + 1, by omega, Or.inr ⟨hk, by omega, fun hf' => (hf'.perm (List.Perm.cons _ hmv.perm.symm)).not_stuck hmv.good hst⟩⟩
        simp only [Out.bind_ok]
        have hs := seek_spec hmv.good k
        cases hsk : seek false true E t1 k with
        | diverge => rw [hsk] at hs; exact hs.elim
        | ub => rw [hsk] at hs; exact hstuck (Or.inl hs)
        | ok q =>
          obtain ⟨i1, d1⟩ := q
          rw [hsk] at hs
          simp only [lift]
          have hlive1 := hmv.live hmlf (by omega)
          have hfs := finish_spec hE hmv.good hs hk1 update mem v f
          generalize (finish false true E k t1 i1 d1).bind (fun t' r => emplaceTail E update mem k v f t' r) = R at hfs ⊢
          cases hfs with
          | added i t2 ha =>
            left
            refine ⟨rfl, hk, ha.perm.trans (List.Perm.cons _ hmv.perm), ha.at_i, ha.mlf.trans hmv.mlf, ha.rev.trans hmv.rev,
              2 ^ (j + 1), { toGood := ha.good, thr_le := by rw [ha.thr]; exact hlive1.thr_le, size_le := ?_ }⟩
            rw [ha.good.size, ha.perm.length_eq, List.length_cons, hmv.perm.length_eq]
            omega
          | ub hst => exact hstuck hst
          | grow t2 hw2 hs2 hp2' hst =>
            apply EmplaceOk.of_moved hmv hk
            have hg2 := grow_spec hE (Or.inl hw2) (by omega) mem
            cases hr2 : grow false true E mem t2 with
            | diverge => rw [hr2] at hg2; exact hg2.elim
            | throw t' => trivial
            | ub =>
              exact ⟨j + 1, by omega, Or.inr ⟨hk1, by rw [hmv.perm.length_eq]; omega, fun hf' => hf'.not_stuck hmv.good hst⟩⟩
            | ok t3 u =>
              rw [hr2] at hg2
              obtain ⟨_, hm3⟩ := hg2
              have hm3' := weak_moved hs2 hp2' hm3
              apply EmplaceOk.of_moved hm3' hk1
              have hmlf1 : t1.mlf ≤ 256 := by rw [hmv.mlf]; exact hmlf
              have := pow_two_le (show j + 1 ≤ j + 1 + 1 by omega)
              exact ih (j + 1 + 1) t3 (Or.inl (hm3'.live hmlf1 (by omega))) (by omega) (by omega) (by rw [hm3'.mlf]; exact hmlf1)
    unfold findOrInsert
    rcases h with h | ⟨⟨m, r, rfl⟩, rfl⟩
    · have hlen : (entries t).length ≤ 2 ^ j := by rw [← h.size]; exact h.size_le
      have hp := probe_spec h.toGood k
      have hj2 : 2 ≤ j := by
        obtain ⟨j', h1, _, h3⟩ := h.pow
        have := Nat.pow_right_injective (Nat.le_refl 2) h3
        omega
      cases hpr : probe false true E t k with
      | diverge => rw [hpr] at hp; exact hp.elim
      | ub =>
        rw [hpr] at hp
        -- the probe itself runs out of distances
        simp only [lift]
        exact ⟨j, hj2, Or.inl ⟨hlen, fun hf' => hf'.not_crowded h.toGood (h.toShape.hm_lt k) hp.1⟩⟩
      | ok q =>
        rw [hpr] at hp
        simp only [lift]
        cases q with
        | hit i =>
          obtain ⟨hi, e, he, heq⟩ := hp
          simp only [Out.bind_ok, emplaceTail, he]
          right
          exact ⟨rfl, hi, e, he, heq, rfl⟩
        | stop i d =>
          obtain ⟨hs, hps⟩ := hp
          have hk := absent_of_stop hE h.toGood hs hps
          simp only [h.toShape.no_max, Bool.or_false, decide_eq_true_eq]
          by_cases hthr : t.thr ≤ t.size
          · rw [if_pos hthr]
            exact hgrow (Or.inl h.toGood.weak) hlen hk
          · rw [if_neg hthr]
            have hsz := h.size
            have hth := h.thr_le
            have hstuck : Stuck t (hm E (2 ^ j) k) → Cramped E t k v := fun hst =>
              ⟨j, hj2, Or.inr ⟨hk, by omega, fun hf' => hf'.not_stuck h.toGood hst⟩⟩
            have hfs := finish_spec hE h.toGood hs hk update mem v f
            generalize (finish false true E k t i d).bind (fun t' r => emplaceTail E update mem k v f t' r) = R at hfs ⊢
            cases hfs with
            | added i t2 ha =>
              left
              refine ⟨rfl, hk, ha.perm, ha.at_i, ha.mlf, ha.rev, 2 ^ j,
                { toGood := ha.good, thr_le := by rw [ha.thr]; exact h.thr_le, size_le := ?_ }⟩
              rw [ha.good.size, ha.perm.length_eq, List.length_cons]
              omega
            | ub hst => exact hstuck hst
            | grow t2 hw2 hs2 hp2' hst =>
              have hg2 := grow_spec hE (Or.inl hw2) (by omega) mem
              cases hr2 : grow false true E mem t2 with
              | diverge => rw [hr2] at hg2; exact hg2.elim
              | throw t' => trivial
              | ub => exact hstuck hst
              | ok t3 u =>
                rw [hr2] at hg2
                obtain ⟨_, hm3⟩ := hg2
                have hm3' := weak_moved hs2 hp2' hm3
                apply EmplaceOk.of_moved hm3' hk
                have := pow_two_le (show j ≤ j + 1 by omega)
                exact ih (j + 1) t3 (Or.inl (hm3'.live hmlf (by omega))) (by omega) (by omega) (by rw [hm3'.mlf]; exact hmlf)
    · have hp0 : probe false true E (emptyMap false m r : Map K V) k = .ok (.stop 0 ⟨0, 0⟩) := by
        unfold probe
        have hh : home E (emptyMap false m r : Map K V) k = 0 := by
          unfold home emptyMap
          simp
        rw [hh]
        rfl
      rw [hp0]
      simp only [lift]
      rw [if_pos (by rfl)]
      exact hgrow (Or.inr ⟨⟨m, r, rfl⟩, rfl⟩) (by rw [Fresh.entries ⟨m, r, rfl⟩]; simp) (by rw [Fresh.entries ⟨m, r, rfl⟩]; simp)

end Verif.Robin
