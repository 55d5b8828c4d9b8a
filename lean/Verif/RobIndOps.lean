/-
The operations of the robin hood table with the indirect layout on states that satisfy the invariant: creation, rehash,
insertion with growth.  An undefined outcome is traced back to a violation of the counting condition.
-/
import Verif.RobIndErase

namespace Verif.RobInd
open Spec (Distinct)
open Robin (hm lookups tailCtrl Fits Stuck absent_symm mul_div_le pow_two_le)

variable {K V : Type} {E : Env K}

/-! ### New blocks -/

theorem clearedCtrl_empty {c look G i : Nat} (h : 4 ≤ c) : clearedCtrl c look G i = Ctrl.empty := by
  unfold clearedCtrl
  rw [if_neg (by unfold width; omega)]

/-- A block without elements. -/
theorem good_of_cleared {t : Map K V} {c : Nat} (hs : Shape t c) (hc : ∀ i, t.ctrl i = Ctrl.empty) (hn : t.slot = fun _ => none)
    (hz : t.size = 0) : Good E t c ∧ entries t = [] := by
  have hent : entries t = [] := by
    unfold entries
    rw [hn]
    simp
  have hR := Robin.good_of_cleared (E := E) hs.abs (by
      funext p
      show absC t.slen c t.ctrl p = _
      have hsl := hs.slen
      unfold absC Robin.clearedCtrl tailCtrl
      have hw : Robin.width false = 32 := rfl
      rw [hw]
      by_cases hp : p < t.slen
      · rw [if_pos hp, if_neg (by omega), hc]; rfl
      · rw [if_neg hp]
        by_cases h32 : c < 32
        · rw [if_pos h32, if_pos (by omega)]
        · rw [if_neg h32, if_neg (by omega)])
    (by
      funext p
      show absS t.slen t.slot t.ctrl p = none
      unfold absS
      rw [hn]
      simp)
    hz
  refine ⟨{ toShape := hs, some_ := ?_, none_ := ?_, abs := hR.1, idx := ?_, hash := ?_, unused := ?_, tail := ?_, small := ?_ }, hent⟩
  · intro j hj; omega
  · intro j _; rw [hn]
  · intro p _ hd; rw [hc] at hd; simp [Ctrl.empty] at hd
  · intro p e _ hd; rw [hc] at hd; simp [Ctrl.empty] at hd
  · intro p _ _; exact hc p
  · intro p _ _; exact hc p
  · omega

theorem createSlots_good {t : Map K V} {j : Nat} (h : 2 ≤ j) {mem : Bool} {t1 : Map K V}
    (he : createSlots mem (2 ^ j) t = .ok t1 ()) : Good E t1 (2 ^ j) ∧ entries t1 = [] ∧ t1.mlf = t.mlf ∧ t1.rev = t.rev ∧
      t1.thr = 2 ^ j * t.mlf / 256 ∧ t1.last = some t1.slen := by
  unfold createSlots at he
  simp only at he
  split at he
  · rename_i hm
    have hm' : 2 ^ j ≤ 2 ^ 48 := by
      simp only [Bool.and_eq_true, decide_eq_true_eq] at hm
      exact hm.2
    have hj : j ≤ 48 := (Nat.pow_le_pow_iff_right (by decide)).mp hm'
    have h4 : 2 ^ 2 ≤ 2 ^ j := Nat.pow_le_pow_right (by decide) h
    cases he
    refine ⟨(good_of_cleared ?_ (fun i => clearedCtrl_empty h4) rfl rfl).1,
      (good_of_cleared (E := E) (c := 2 ^ j) ?_ (fun i => clearedCtrl_empty h4) rfl rfl).2, rfl, rfl, rfl, rfl⟩ <;>
      exact ⟨rfl, ⟨j, h, hj, rfl⟩, rfl, rfl, rfl, Or.inr rfl, rfl⟩
  · cases he

theorem createSlots_cases (t : Map K V) (cap : Nat) (mem : Bool) :
    (∃ t1, createSlots mem cap t = .ok t1 ()) ∨
      createSlots mem cap t = .throw { t with look := lookups cap } ∧ (mem = false ∨ 2 ^ 48 < cap) := by
  unfold createSlots
  simp only
  cases mem with
  | false => right; exact ⟨rfl, Or.inl rfl⟩
  | true =>
    by_cases hc : cap ≤ Robin.memLimit
    · left; simp [hc]
    · right
      simp only [hc, decide_false, Bool.and_false, Bool.false_eq_true, if_false]
      exact ⟨trivial, Or.inr (by unfold Robin.memLimit at hc; omega)⟩

/-! ### Moving the elements of an old block -/

/-- The counting condition speaks about the entries in either order. -/
theorem Good.not_stuck (hE : E.Lawful) {t : Map K V} {c : Nat} (h : Good E t c) {k : K} {v : V} (hf : Fits E c ((k, v) :: entries t))
    (hs : Stuck (RobInd.abs c t) (hm E c k)) : False :=
  (hf.perm ((h.entries_perm hE).symm.cons _)).not_stuck h.abs hs

theorem insertNoGrow_spec (hE : E.Lawful) {c : Nat} {t : Map K V} (h : Good E t c) (e : K × V)
    (hk : ∀ x ∈ entries t, E.eq x.1 e.1 = false) :
    match insertNoGrow true E e t with
    | .ok t' => Added E t t' c e
    | .diverge => False
    | .ub => Stuck (abs c t) (hm E c e.1) ∨ 2 ^ 32 ≤ t.size := by
  unfold insertNoGrow
  have h1 := seek_spec h e.1
  cases hs : seek true E t e.1 with
  | diverge => rw [hs] at h1; exact h1
  | ub => rw [hs] at h1; exact Or.inl (Or.inl h1)
  | ok r =>
    obtain ⟨i, d⟩ := r
    rw [hs] at h1
    simp only [Res.bind_ok]
    have h1' : Robin.Stop (abs c t) (hm E c e.1) i ⟨d.dist, 0⟩ := h1
    have h2 := place_spec hE h h1' true (ctrlHash E e.1)
    cases hp : place true true (ctrlHash E e.1) t i d with
    | diverge => rw [hp] at h2; exact h2
    | ub => rw [hp] at h2; exact h2
    | ok r =>
      obtain ⟨t', b⟩ := r
      rw [hp] at h2
      cases b with
      | false =>
        simp only [Res.bind_ok, Bool.not_false, Bool.and_self, if_true]
        exact Or.inl h2.2
      | true =>
        simp only [Res.bind_ok, Bool.not_true, Bool.and_false, Bool.false_eq_true, if_false]
        obtain ⟨t'', g1, g2⟩ := Made.added hE (k := e.1) e.2 h h2.1 rfl h1' h2.2.1 h2.2.2 hk
        rw [g1]
        exact g2

theorem transferAll_spec (hE : E.Lawful) {c : Nat} (old : Map K V) : ∀ (js : List Nat) (t : Map K V), Good E t c →
    (∀ j ∈ js, ∃ e, old.slot j = some e) → Distinct E.eq (entries t ++ js.filterMap old.slot) →
    match transferAll true E old js t with
    | .ok t' => Good E t' c ∧ entries t' = entries t ++ js.filterMap old.slot ∧ t'.mlf = t.mlf ∧ t'.rev = t.rev ∧ t'.thr = t.thr ∧
        t'.last = t.last ∧ t'.slen = t.slen
    | .diverge => False
    | .ub => ¬ Fits E c (entries t ++ js.filterMap old.slot) ∨ 2 ^ 32 < (entries t ++ js.filterMap old.slot).length := by
  intro js
  induction js with
  | nil =>
    intro t h _ _
    simp only [transferAll, List.filterMap_nil, List.append_nil]
    exact ⟨h, trivial, trivial, trivial, trivial, trivial, trivial⟩
  | cons j js ih =>
    intro t h hu hd
    obtain ⟨e, he⟩ := hu j (by simp)
    have hl : (j :: js).filterMap old.slot = e :: js.filterMap old.slot := by simp [he]
    rw [hl] at hd ⊢
    unfold transferAll
    rw [he]
    simp only
    have hk : ∀ x ∈ entries t, E.eq x.1 e.1 = false := by
      intro x hx
      rw [Distinct, List.pairwise_append] at hd
      exact hd.2.2 x hx e (by simp)
    have h1 := insertNoGrow_spec hE h e hk
    cases hr : insertNoGrow true E e t with
    | diverge => rw [hr] at h1; exact h1
    | ub =>
      rw [hr] at h1
      simp only [Res.bind_ub]
      rcases h1 with h1 | h1
      · left
        intro hf
        have hf' : Fits E c (e :: entries t) :=
          (hf.perm List.perm_middle).sublist (List.Sublist.cons_cons _ (List.sublist_append_left _ _))
        exact h.not_stuck hE hf' h1
      · right
        rw [List.length_append, List.length_cons, ← h.size_eq]
        omega
    | ok t1 =>
      rw [hr] at h1
      simp only [Res.bind_ok]
      have hap : entries t1 ++ js.filterMap old.slot = entries t ++ e :: js.filterMap old.slot := by
        rw [h1.entries, List.append_assoc]; rfl
      have h2 := ih t1 h1.good (fun i hi => hu i (List.mem_cons_of_mem _ hi)) (by rw [hap]; exact hd)
      have hsl : t1.slen = t.slen := by rw [h1.good.slen, h.slen]
      rw [hap] at h2
      cases hr2 : transferAll true E old js t1 with
      | diverge => rw [hr2] at h2; exact h2
      | ub => rw [hr2] at h2; exact h2
      | ok t2 =>
        rw [hr2] at h2
        obtain ⟨g1, g2, g3, g4, g5, g6, g7⟩ := h2
        exact ⟨g1, g2, g3.trans h1.mlf, g4.trans h1.rev, g5.trans h1.thr, g6.trans h1.last, g7.trans hsl⟩

/-- A map without storage. -/
def Fresh (t : Map K V) : Prop := ∃ m r, t = emptyMap m r

theorem Fresh.entries {t : Map K V} (h : Fresh t) : RobInd.entries t = [] := by
  obtain ⟨m, r, rfl⟩ := h; rfl

/-- The elements of `t` have moved into a block of capacity `cap`; the order of iteration is the same. -/
structure Moved (E : Env K) (t t' : Map K V) (cap : Nat) : Prop where
  good : Good E t' cap
  same : entries t' = entries t
  mlf : t'.mlf = t.mlf
  rev : t'.rev = t.rev
  thr : t'.thr = cap * t.mlf / 256
  last : t'.last = some t'.slen

/-- Outcomes of `rehash_impl(n)`. -/
def RehashOk (E : Env K) (t : Map K V) (always mem : Bool) (n : Nat) : Out (Map K V) Unit → Prop
  | .ok t' _ => (∃ cap, Robin.calcCapacity n = .ok cap ∧ cap ≤ 2 ^ 48 ∧ Moved E t t' cap) ∨
      (always = false ∧ t' = t ∧ ∃ cap, Robin.calcCapacity n = .ok cap ∧ slotCap t ≥ cap)
  | .throw _ => mem = false ∨ ∃ cap, Robin.calcCapacity n = .ok cap ∧ 2 ^ 48 < cap
  | .diverge => False
  | .ub => Robin.calcCapacity n = .ub ∨ ∃ cap, Robin.calcCapacity n = .ok cap ∧ (¬ Fits E cap (entries t) ∨ 2 ^ 32 < (entries t).length)

theorem rehashImpl_spec (hE : E.Lawful) {t : Map K V} (h : Fresh t ∨ ∃ c, Weak E t c) (sh al mem : Bool) (n : Nat) :
    RehashOk E t al mem n (rehashImpl true E sh al mem n t) := by
  unfold rehashImpl
  cases hc : Robin.calcCapacity n with
  | ub => exact Or.inl hc
  | diverge => exact (Robin.calcCapacity_diverge n hc).elim
  | ok cap =>
    simp only
    split
    · rename_i hdo
      obtain ⟨j, hj, rfl, hn, _⟩ := Robin.calcCapacity_ok hc
      rcases createSlots_cases t (2 ^ j) mem with ⟨t1, ht1⟩ | ⟨ht1, hb⟩
      · rw [ht1]
        simp only
        obtain ⟨g1, g2, g3, g4, g5, g6⟩ := createSlots_good (E := E) hj ht1
        have hl : (∀ i ∈ (if t.alloc = true then List.range t.size else []), ∃ e, t.slot i = some e) ∧
            (if t.alloc = true then List.range t.size else []).filterMap t.slot = entries t ∧ Distinct E.eq (entries t) := by
          rcases h with ⟨m, r, rfl⟩ | ⟨c, h⟩
          · exact ⟨by simp [emptyMap], rfl, List.Pairwise.nil⟩
          · rw [if_pos h.alloc]
            exact ⟨fun i hi => h.some_ i (List.mem_range.mp hi), (Good.entries_dense h.toDense h.size_le).symm, h.distinct⟩
        have h3 := transferAll_spec hE t (if t.alloc = true then List.range t.size else []) t1 g1 hl.1
          (by rw [g2, List.nil_append, hl.2.1]; exact hl.2.2)
        rw [g2, List.nil_append, hl.2.1] at h3
        cases hr : transferAll true E t (if t.alloc = true then List.range t.size else []) t1 with
        | diverge => rw [hr] at h3; exact h3
        | ub => rw [hr] at h3; exact Or.inr ⟨_, hc, h3⟩
        | ok t2 =>
          rw [hr] at h3
          obtain ⟨q1, q2, q3, q4, q5, q6, q7⟩ := h3
          left
          refine ⟨2 ^ j, hc, ?_, q1, q2, q3.trans g3, q4.trans g4, q5.trans g5, by rw [q6, g6, q7]⟩
          obtain ⟨j', _, hj', he⟩ := q1.pow
          rw [he]
          exact Nat.pow_le_pow_right (by decide) hj'
      · rw [ht1]
        rcases hb with hb | hb
        · exact Or.inl hb
        · exact Or.inr ⟨_, hc, hb⟩
    · rename_i hdo
      cases al with
      | true => simp at hdo
      | false =>
        right
        refine ⟨rfl, rfl, cap, hc, ?_⟩
        cases sh with
        | false => simpa using hdo
        | true =>
          simp only [Bool.false_or, Bool.not_true, Bool.false_and, Bool.true_and, bne_iff_ne, ne_eq, Decidable.not_not] at hdo
          omega

/-! ### Insertion -/

/-- An allocated map between two calls. -/
structure Live (E : Env K) (t : Map K V) (c : Nat) : Prop extends Good E t c where
  thr_le : t.thr ≤ c
  size_le : t.size ≤ c

theorem Moved.live {t t' : Map K V} {cap : Nat} (h : Moved E t t' cap) (hm : t.mlf ≤ 256) (hs : (entries t).length ≤ cap) :
    Live E t' cap :=
  { toGood := h.good
    thr_le := by rw [h.thr]; exact mul_div_le hm
    size_le := by rw [h.good.size_eq, h.same]; exact hs }

/-- `grow_if_necessary` from a block of capacity `2^j`. -/
def GrowOk (E : Env K) (t : Map K V) (j : Nat) : Out (Map K V) Unit → Prop
  | .ok t' _ => j ≤ 48 ∧ Moved E t t' (2 ^ j)
  | .throw _ => True
  | .diverge => False
  | .ub => ¬ Fits E (2 ^ j) (entries t) ∨ 2 ^ 32 < (entries t).length

theorem grow_spec (hE : E.Lawful) {t : Map K V} {j : Nat} (h : Weak E t (2 ^ j) ∨ Fresh t ∧ j = 1) (hj : 1 ≤ j) (mem : Bool) :
    GrowOk E t (j + 1) (grow true E mem t) := by
  unfold grow
  have h1 := rehashImpl_spec hE (t := t) (by
    rcases h with h | h
    · exact Or.inr ⟨_, h⟩
    · exact Or.inl h.1) false true mem ((t.mask + 1) * 2)
  have hc : Robin.calcCapacity ((t.mask + 1) * 2) = .ok (2 ^ (j + 1)) := by
    rcases h with h | ⟨⟨m, r, rfl⟩, rfl⟩
    · rw [h.mask, Nat.sub_add_cancel (Nat.one_le_two_pow), ← Nat.pow_succ]
      exact Robin.calcCapacity_pow (by omega)
    · show Robin.calcCapacity (2 : Nat) = _
      decide
  cases hr : rehashImpl true E false true mem ((t.mask + 1) * 2) t with
  | diverge => rw [hr] at h1; exact h1
  | throw t' => trivial
  | ub =>
    rw [hr] at h1
    rcases h1 with h1 | ⟨cap, h1, h2⟩
    · rw [hc] at h1; cases h1
    · rw [hc] at h1; cases h1; exact h2
  | ok t' u =>
    rw [hr] at h1
    rcases h1 with ⟨cap, h1, h2, h3⟩ | ⟨h1, _⟩
    · rw [hc] at h1; cases h1
      exact ⟨(Nat.pow_le_pow_iff_right (by decide)).mp h2, h3⟩
    · cases h1

/-- What follows `find_or_insert` in the emplace functions. -/
def emplaceTail (E : Env K) (update mem : Bool) (k : K) (v : V) (f : Nat) (t' : Map K V) : Found → Out (Map K V) (Nat × Bool)
  | .notExists => lift (construct (k, v) t') fun t'' => .ok t'' (t'.size, true)
  | .exists_ j =>
    match t'.slot j with
    | none => .ub
    | some e => .ok (if update then { t' with slot := upd t'.slot j (some (e.1, v)) } else t') (j, false)
  | .needGrow => (grow true E mem t').bind fun t'' _ => emplaceLoop true E update mem k v f t''

theorem emplaceLoop_succ (update mem : Bool) (k : K) (v : V) (f : Nat) (t : Map K V) :
    emplaceLoop true E update mem k v (f + 1) t =
      (findOrInsert true E mem k t).bind fun t' r => emplaceTail E update mem k v f t' r := by
  conv => lhs; unfold emplaceLoop
  congr 1

/-- Outcomes of placing an absent key in a good map. -/
inductive TailCase (E : Env K) (t : Map K V) (c : Nat) (update mem : Bool) (k : K) (v : V) (f : Nat) : Out (Map K V) (Nat × Bool) → Prop
  | added (t' : Map K V) (h : Added E t t' c (k, v)) : TailCase E t c update mem k v f (.ok t' (t.size, true))
  | ub (h : Stuck (abs c t) (hm E c k) ∨ 2 ^ 32 ≤ t.size) : TailCase E t c update mem k v f .ub
  | grow (w : Nat → Ctrl) (h' : Stuck (abs c t) (hm E c k)) :
      TailCase E t c update mem k v f ((grow true E mem { t with ctrl := w }).bind fun t'' _ => emplaceLoop true E update mem k v f t'')

theorem finish_spec (hE : E.Lawful) {c : Nat} {t : Map K V} (h : Good E t c) {k : K} {i : Nat} {d : Ctrl}
    (hs : Robin.Stop (abs c t) (hm E c k) i ⟨d.dist, 0⟩) (hk : ∀ x ∈ entries t, E.eq x.1 k = false) (update mem : Bool) (v : V) (f : Nat) :
    TailCase E t c update mem k v f ((finish true E k t i d).bind fun t' r => emplaceTail E update mem k v f t' r) := by
  unfold finish
  have h2 := place_spec hE h hs false (ctrlHash E k)
  cases hp : place true false (ctrlHash E k) t i d with
  | diverge => rw [hp] at h2; exact h2.elim
  | ub => rw [hp] at h2; exact .ub h2
  | ok r =>
    obtain ⟨t', b⟩ := r
    rw [hp] at h2
    cases b with
    | false =>
      obtain ⟨⟨w, rfl⟩, h3⟩ := h2
      simp only [lift, Out.bind_ok, Bool.false_eq_true, if_false, emplaceTail]
      exact .grow w h3
    | true =>
      obtain ⟨t'', g1, g2⟩ := Made.added hE v h h2.1 rfl hs h2.2.1 h2.2.2 hk
      simp only [lift, Out.bind_ok, if_true, emplaceTail, g1]
      obtain ⟨w, hw⟩ := h2.1.ctrl
      have : t'.size = t.size := by rw [hw]
      rw [this]
      exact .added t'' g2

/-- The number of elements reaches `2^32`, or for some capacity that the map may use the elements (or the elements and the new
one) do not fit. -/
def Cramped (E : Env K) (l : List (K × V)) (k : K) (v : V) : Prop :=
  2 ^ 32 ≤ l.length ∨ ∃ j, 2 ≤ j ∧ (l.length ≤ 2 ^ j ∧ ¬ Fits E (2 ^ j) l ∨
    (∀ x ∈ l, E.eq x.1 k = false) ∧ l.length + 1 ≤ 2 ^ j ∧ ¬ Fits E (2 ^ j) ((k, v) :: l))

/-- Outcomes of an insertion. -/
def EmplaceOk (E : Env K) (t : Map K V) (update : Bool) (k : K) (v : V) : Out (Map K V) (Nat × Bool) → Prop
  | .ok t' (i, b) =>
      (b = true ∧ (∀ x ∈ entries t, E.eq x.1 k = false) ∧ entries t' = entries t ++ [(k, v)] ∧ t'.slot i = some (k, v) ∧ i < t'.size ∧
        t'.mlf = t.mlf ∧ t'.rev = t.rev ∧ ∃ c', Live E t' c') ∨
      (b = false ∧ i < t.size ∧ ∃ e, t.slot i = some e ∧ E.eq e.1 k = true ∧
        t' = if update then { t with slot := upd t.slot i (some (e.1, v)) } else t)
  | .throw _ => True
  | .diverge => False
  | .ub => Cramped E (entries t) k v

theorem EmplaceOk.of_moved {t t1 : Map K V} {c : Nat} {update : Bool} {k : K} {v : V} (hm : Moved E t t1 c)
    (hk : ∀ x ∈ entries t, E.eq x.1 k = false) {r : Out (Map K V) (Nat × Bool)} (h : EmplaceOk E t1 update k v r) :
    EmplaceOk E t update k v r := by
  cases r with
  | throw => trivial
  | diverge => exact h
  | ub =>
    have h' : Cramped E (entries t1) k v := h
    rw [hm.same] at h'
    exact h'
  | ok t' p =>
    obtain ⟨i, b⟩ := p
    rcases h with ⟨h1, h2, h3, h4, h0, h5, h6, h7⟩ | ⟨_, h2, e, h3, h4, _⟩
    · left
      exact ⟨h1, hk, by rw [h3, hm.same], h4, h0, h5.trans hm.mlf, h6.trans hm.rev, h7⟩
    · exfalso
      have hsz := hm.good.size_le_slen
      have := hk e (by rw [← hm.same]; exact mem_entries.mpr ⟨i, by omega, h3⟩)
      rw [this] at h4; cases h4

/-- After `kNeedGrow` the control words may be broken, the rest is as before. -/
theorem Good.weak_ctrl {t : Map K V} {c : Nat} (h : Good E t c) (hE : E.Lawful) (w : Nat → Ctrl) : Weak E { t with ctrl := w } c :=
  { toShape := ⟨h.alloc, h.pow, h.mask, h.look, h.slen, h.last, h.clen⟩
    some_ := h.some_
    none_ := h.none_
    distinct := h.distinct hE
    size_le := h.size_le_slen }

theorem moved_ctrl {t t2 : Map K V} {c : Nat} {w : Nat → Ctrl} (h : Moved E { t with ctrl := w } t2 c) : Moved E t t2 c :=
  ⟨h.good, h.same, h.mlf, h.rev, h.thr, h.last⟩

theorem emplaceLoop_spec (hE : E.Lawful) (update mem : Bool) (k : K) (v : V) : ∀ (f j : Nat) (t : Map K V),
    (Live E t (2 ^ j) ∨ Fresh t ∧ j = 1) → 1 ≤ j → 50 ≤ f + j → t.mlf ≤ 256 →
    EmplaceOk E t update k v (emplaceLoop true E update mem k v f t) := by
  intro f
  induction f with
  | zero =>
    intro j t h _ hf _
    rcases h with h | ⟨_, h⟩
    · obtain ⟨j', _, h2, h3⟩ := h.pow
      have := Nat.pow_right_injective (Nat.le_refl 2) h3
      omega
    · omega
  | succ f ih =>
    intro j t h hj1 hf hmlf
    rw [emplaceLoop_succ]
    -- an absent key with its place, in a live map
    have hput : ∀ (j : Nat) (t : Map K V) (i : Nat) (d : Ctrl), Live E t (2 ^ j) → 2 ≤ j → 50 ≤ f + (j + 1) → t.mlf ≤ 256 →
        t.size < 2 ^ j → Robin.Stop (abs (2 ^ j) t) (hm E (2 ^ j) k) i ⟨d.dist, 0⟩ → (∀ x ∈ entries t, E.eq x.1 k = false) →
        EmplaceOk E t update k v ((finish true E k t i d).bind fun t' r => emplaceTail E update mem k v f t' r) := by
      intro j t i d hl hj2 hf hmlf hlt hs hk
      have hsz := hl.size_eq
      have hstuck : Stuck (abs (2 ^ j) t) (hm E (2 ^ j) k) → Cramped E (entries t) k v := fun hst =>
        Or.inr ⟨j, hj2, Or.inr ⟨hk, by omega, fun hf' => hl.toGood.not_stuck hE hf' hst⟩⟩
      have hfs := finish_spec hE hl.toGood hs hk update mem v f
      generalize (finish true E k t i d).bind (fun t' r => emplaceTail E update mem k v f t' r) = R at hfs ⊢
      cases hfs with
      | added t2 ha =>
        left
        refine ⟨rfl, hk, ha.entries, ha.at_size, by rw [ha.size]; omega, ha.mlf, ha.rev, 2 ^ j,
          { toGood := ha.good, thr_le := by rw [ha.thr]; exact hl.thr_le, size_le := by rw [ha.size]; omega }⟩
      | ub hst =>
        rcases hst with hst | hst
        · exact hstuck hst
        · exact Or.inl (by rw [← hsz]; exact hst)
      | grow w hst =>
        have hg2 := grow_spec hE (Or.inl (hl.toGood.weak_ctrl hE w)) (by omega) mem
        cases hr2 : grow true E mem { t with ctrl := w } with
        | diverge => rw [hr2] at hg2; exact hg2.elim
        | throw t' => trivial
        | ub => exact hstuck hst
        | ok t3 u =>
          rw [hr2] at hg2
          obtain ⟨_, hm3⟩ := hg2
          have hm3' := moved_ctrl hm3
          apply EmplaceOk.of_moved hm3' hk
          have := pow_two_le (show j ≤ j + 1 by omega)
          exact ih (j + 1) t3 (Or.inl (hm3'.live hmlf (by omega))) (by omega) (by omega) (by rw [hm3'.mlf]; exact hmlf)
    -- growth, then the place
    have hgrow : (Weak E t (2 ^ j) ∨ Fresh t ∧ j = 1) → (entries t).length ≤ 2 ^ j → (∀ x ∈ entries t, E.eq x.1 k = false) →
        EmplaceOk E t update k v (((grow true E mem t).bind fun t1 _ =>
          lift (seek true E t1 k) fun (i1, d1) => finish true E k t1 i1 d1).bind fun t' r =>
            emplaceTail E update mem k v f t' r) := by
      intro hw hlen hk
      have hg := grow_spec hE hw hj1 mem
      have hp2 : 2 ^ (j + 1) = 2 ^ j + 2 ^ j := by rw [Nat.pow_succ]; omega
      have hp1 : 1 ≤ 2 ^ j := Nat.one_le_two_pow
      cases hr : grow true E mem t with
      | diverge => rw [hr] at hg; exact hg.elim
      | throw t' => trivial
      | ub =>
        rw [hr] at hg
        rcases hg with hg | hg
        · exact Or.inr ⟨j + 1, by omega, Or.inl ⟨by omega, hg⟩⟩
        · exact Or.inl (by omega)
      | ok t1 u =>
        rw [hr] at hg
        obtain ⟨_, hmv⟩ := hg
        have hk1 : ∀ x ∈ entries t1, E.eq x.1 k = false := by rw [hmv.same]; exact hk
        simp only [Out.bind_ok]
        have hlive1 := hmv.live hmlf (by omega)
        have hs := seek_spec hmv.good k
        apply EmplaceOk.of_moved hmv hk
        have hsz1 := hmv.good.size_eq
        rw [hmv.same] at hsz1
        cases hsk : seek true E t1 k with
        | diverge => rw [hsk] at hs; exact hs.elim
        | ub =>
          rw [hsk] at hs
          exact Or.inr ⟨j + 1, by omega, Or.inr ⟨hk1, by rw [hmv.same]; omega, fun hf' => hmv.good.not_stuck hE hf' (Or.inl hs)⟩⟩
        | ok q =>
          obtain ⟨i1, d1⟩ := q
          rw [hsk] at hs
          simp only [lift]
          exact hput (j + 1) t1 i1 d1 hlive1 (by omega) (by omega) (by rw [hmv.mlf]; exact hmlf) (by omega) hs hk1
    unfold findOrInsert
    rcases h with h | ⟨⟨m, r, rfl⟩, rfl⟩
    · have hsz := h.size_eq
      have hlen : (entries t).length ≤ 2 ^ j := by rw [← hsz]; exact h.size_le
      have hp := probe_spec hE h.toGood k
      have hj2 : 2 ≤ j := by
        obtain ⟨j', h1, _, h3⟩ := h.pow
        have := Nat.pow_right_injective (Nat.le_refl 2) h3
        omega
      cases hpr : probe true E t k with
      | diverge => rw [hpr] at hp; exact hp.elim
      | ub =>
        rw [hpr] at hp
        -- the probe itself runs out of distances
        simp only [lift]
        exact Or.inr ⟨j, hj2, Or.inl ⟨hlen, fun hf' =>
          (hf'.perm (h.toGood.entries_perm hE).symm).not_crowded h.abs (h.toShape.hm_lt k) hp.1⟩⟩
      | ok q =>
        rw [hpr] at hp
        simp only [lift]
        cases q with
        | hit i =>
          obtain ⟨hi, hd, e, he, heq⟩ := hp
          simp only [Out.bind_ok, emplaceTail, he]
          right
          exact ⟨rfl, h.idx i hi hd, e, he, heq, rfl⟩
        | stop i d =>
          obtain ⟨hs, hps⟩ := hp
          have hk : ∀ x ∈ entries t, E.eq x.1 k = false := fun x hx =>
            Robin.absent_of_stop hE h.abs hs hps x ((h.toGood.entries_perm hE).mem_iff.mpr hx)
          have hneg : decide (d.dist < 0) = false := by
            apply decide_eq_false
            have := hs.d_eq
            injection this with h1 _
            have := hs.ge
            omega
          simp only [hneg, Bool.or_false, decide_eq_true_eq]
          by_cases hthr : t.thr ≤ t.size
          · rw [if_pos hthr]
            exact hgrow (Or.inl (h.toGood.weak hE)) hlen hk
          · rw [if_neg hthr]
            have hth := h.thr_le
            exact hput j t i d h hj2 (by omega) hmlf (by omega) hs hk
    · have hp0 : probe true E (emptyMap m r : Map K V) k = .ok (.stop 0 ⟨0, 0, 0⟩) := by
        unfold probe
        have hh : home E (emptyMap m r : Map K V) k = 0 := by
          unfold home emptyMap
          simp
        rw [hh]
        rfl
      rw [hp0]
      simp only [lift]
      rw [if_pos (by rfl)]
      exact hgrow (Or.inr ⟨⟨m, r, rfl⟩, rfl⟩) (by rw [Fresh.entries ⟨m, r, rfl⟩]; simp) (by rw [Fresh.entries ⟨m, r, rfl⟩]; simp)

end Verif.RobInd
