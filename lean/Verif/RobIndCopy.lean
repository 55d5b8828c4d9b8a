/-
Copy, move and swap of `robin_hash_map` with the indirect layout (properties C103 and C104).
-/
import Verif.RobIndProps

namespace Verif.RobInd
open Spec (Distinct Call Ans)
open Robin (next contents Ended lookups)

/-- `value` of a control word (RH:1150-1156): the eight bytes as a signed number. -/
def Ctrl.val (c : Ctrl) : Int :=
  let u : Nat := c.hash + (c.dist % 256).toNat * 256 + c.idx * 2 ^ 32
  if u < 2 ^ 63 then u else (u : Int) - 2 ^ 64

section Model
variable {K V : Type} (E : Env K)

/-- The search loop of `unique_find_and_insert` (RH:6324-6327).  It compares the whole words, not the two low bytes.  The fuel is the
number of control words from `i` to the end of the control block; reading beyond it is `ub`. -/
def uniqueSeekLoop (t : Map K V) : Nat → Nat → Ctrl → Res (Nat × Ctrl)
  | 0, _, _ => .ub
  | f + 1, i, d => if d.val ≤ (t.ctrl i).val then uniqueSeekLoop t f (i + 1) d.inc else .ok (i, d)

/-- From the home position (RH:6316-6322). -/
def uniqueSeek (t : Map K V) (k : K) : Res (Nat × Ctrl) :=
  uniqueSeekLoop t (t.clen - home E t k) (home E t k) ⟨0, 0, 0⟩

/-- `reserve_for_insert(n)` on a new map (RH:4276-4279). -/
def reserveForInsert (mem : Bool) (n : Nat) : Out (Map K V) Unit := make mem (minRequire (emptyMap 128 512 : Map K V) n)

/-- Copy constructor (RH:3113-3143) with `unique_insert` (RH:6377-6420).  `rest es t i d` is what the code does when the search for
the place of the first element has stopped at control word `i` and the elements `es` are still to be copied; it is a parameter,
because the search never stops (`C103_copy_undefined`).  On an exception there is no object; the state in `throw` has no meaning. -/
def copyCtor (rest : List (K × V) → Map K V → Nat → Ctrl → Out (Map K V) Unit) (mem : Bool) (other : Map K V) : Out (Map K V) Unit :=
  (reserveForInsert mem other.size).bind fun t _ => lift (walk other) fun l =>
    match l with
    | [] => .ok t ()
    | e :: es => lift (uniqueSeek E t e.1) fun (i, d) => rest es t i d

/-- Move constructor (RH:3145-3168): the new map and what is left of the old one.  `slot_threshold_` is initialised with
`exchange(other.slot_size_, 0)`, after `slot_size_` has been set to zero, and the threshold of `other` is not touched. -/
def moveCtor (other : Map K V) : Map K V × Map K V :=
  ({ other with thr := 0 }, { (emptyMap 128 512 : Map K V) with thr := other.thr })

/-- The pointer `last_slot_` of one map together with the block of another: both null if neither owns a block, otherwise
it does not point into the block. -/
def foreignLast (a b : Map K V) : Option Nat := if !a.alloc && !b.alloc then some 0 else none

/-- `swap_impl` (RH:6555-6588).  Every member is exchanged except `last_slot_`. -/
def swapMaps (a b : Map K V) : Map K V × Map K V := ({ b with last := foreignLast a b }, { a with last := foreignLast a b })

/-- Copy assignment (RH:3242-3249): the new value of `*this`. -/
def copyAssign (rest : List (K × V) → Map K V → Nat → Ctrl → Out (Map K V) Unit) (mem : Bool) (this other : Map K V) : Out (Map K V) Unit :=
  match copyCtor E rest mem other with
  | .ok tmp _ => .ok (swapMaps this tmp).1 ()
  | .throw _ => .throw this
  | .diverge => .diverge
  | .ub => .ub

/-- Move assignment with a propagating or always equal allocator (RH:3251-3259, 6539-6545): `*this` and what is left of
`other`. -/
def moveAssign (this other : Map K V) : Map K V × Map K V := ((swapMaps this (moveCtor other).1).1, (moveCtor other).2)

end Model

variable {K V : Type} {E : Env K}

/-! ### The copy constructor -/

theorem inc_word (d : Ctrl) (h : d.hash = 0 ∧ d.idx = 0) : d.inc.hash = 0 ∧ d.inc.idx = 0 := h

/-- A distance counter is never above the empty word. -/
theorem val_le_empty {d : Ctrl} (h : d.hash = 0 ∧ d.idx = 0) : d.val ≤ Ctrl.empty.val := by
  have he : Ctrl.empty.val = 65280 := by decide
  rw [he]
  unfold Ctrl.val
  rw [h.1, h.2]
  have h1 : 0 ≤ d.dist % 256 := Int.emod_nonneg _ (by omega)
  have h2 : d.dist % 256 < 256 := Int.emod_lt_of_pos _ (by omega)
  generalize d.dist % 256 = x at *
  obtain ⟨n, rfl⟩ := Int.eq_ofNat_of_zero_le h1
  simp only [Int.toNat_natCast]
  rw [if_pos (by omega)]
  omega

theorem uniqueSeekLoop_empty {t : Map K V} (ht : ∀ i, t.ctrl i = Ctrl.empty) : ∀ (f i : Nat) (d : Ctrl), d.hash = 0 ∧ d.idx = 0 →
    uniqueSeekLoop t f i d = .ub := by
  intro f
  induction f with
  | zero => intro i d _; rfl
  | succ f ih =>
    intro i d h
    unfold uniqueSeekLoop
    rw [ht, if_pos (val_le_empty h)]
    exact ih _ _ (inc_word d h)

theorem walk_reach {t : Map K V} (hR : Reach E t) : walk t = .ok (entries t) := by
  rcases hR.st with ⟨a, b, rfl⟩ | ⟨c, h⟩
  · rfl
  · exact walk_spec h.toGood

theorem reserve_eq {n : Nat} (h : n ≤ 2 ^ 48) : minRequire (emptyMap 128 512 : Map K V) n = 2 * n := by
  unfold minRequire
  show n * 512 % W / 256 = 2 * n
  rw [Nat.mod_eq_of_lt (by unfold W; omega)]
  omega

/-- C103 is violated: copying any map that holds an element is undefined, unless the allocation fails.  The search for a free
control word compares the word `0x000000000000FF00` of an empty slot with a distance counter that is never greater, and leaves
the control block. -/
theorem C103_copy_undefined (hE : E.Lawful) {rv : Nat → Nat} (hrv : ∀ x, 256 ≤ rv x ∧ rv x ≤ 1024) {cs : List (Bool × Call K V)}
    {t : Map K V} (h : Reached E rv cs t) (hne : contents E.eq cs ≠ [])
    (rest : List (K × V) → Map K V → Nat → Ctrl → Out (Map K V) Unit) (mem : Bool) (this : Map K V) :
    (copyCtor E rest mem t = .ub ∧ copyAssign E rest mem this t = .ub) ∨
      ((∃ t', copyCtor E rest mem t = .throw t') ∧ copyAssign E rest mem this t = .throw this) ∧ (mem = false ∨ 2 ^ 46 < t.size) := by
  obtain ⟨hR, hm, _⟩ := h.reach hE hrv
  have hs48 := hR.size_le
  have hen : entries t ≠ [] := fun hx => hne (by rw [hx] at hm; exact hm.symm.eq_nil)
  have hpos : 0 < t.size := by rw [hR.size]; exact List.length_pos_iff.mpr hen
  obtain ⟨e, es, hes⟩ := List.exists_cons_of_ne_nil hen
  cases hc : Robin.calcCapacity (2 * t.size) with
  | ub => have := Robin.calcCapacity_ub hc; omega
  | diverge => exact (Robin.calcCapacity_diverge _ hc).elim
  | ok cap =>
    obtain ⟨j, hj, rfl, h6, h7⟩ := Robin.calcCapacity_ok hc
    have hmk : (make mem (2 * t.size) : Out (Map K V) Unit) = createSlots mem (2 ^ j) (emptyMap 128 512) := by
      unfold make
      rw [if_neg (by omega), hc]
    rcases createSlots_cases (emptyMap 128 512 : Map K V) (2 ^ j) mem with ⟨t1, h1⟩ | ⟨h1, h2⟩
    · left
      have hct : ∀ i, t1.ctrl i = Ctrl.empty := by
        unfold createSlots at h1
        simp only at h1
        split at h1
        · cases h1
          intro i
          exact clearedCtrl_empty (Robin.pow_two_le (a := 2) hj)
        · cases h1
      have hu : uniqueSeek E t1 e.1 = .ub := uniqueSeekLoop_empty hct _ _ _ ⟨rfl, rfl⟩
      have hcc : copyCtor E rest mem t = .ub := by
        unfold copyCtor reserveForInsert
        rw [reserve_eq hs48, hmk, h1, Out.bind_ok, walk_reach hR, hes]
        simp only [lift]
        rw [hu]
      exact ⟨hcc, by unfold copyAssign; rw [hcc]⟩
    · right
      have hcc : ∃ t', copyCtor E rest mem t = .throw t' := ⟨_, by unfold copyCtor reserveForInsert; rw [reserve_eq hs48, hmk, h1]; rfl⟩
      refine ⟨⟨hcc, ?_⟩, ?_⟩
      · obtain ⟨t', hcc⟩ := hcc
        unfold copyAssign; rw [hcc]
      · rcases h2 with h2 | h2
        · exact Or.inl h2
        · right
          rcases h7 with h7 | h7
          · rw [h7] at h2; omega
          · omega

/-- C103, what holds: the copy of a map without elements is a default constructed map. -/
theorem C103_copy_empty_partial (hE : E.Lawful) {rv : Nat → Nat} (hrv : ∀ x, 256 ≤ rv x ∧ rv x ≤ 1024) {cs : List (Bool × Call K V)}
    {t : Map K V} (h : Reached E rv cs t) (he : contents E.eq cs = [])
    (rest : List (K × V) → Map K V → Nat → Ctrl → Out (Map K V) Unit) (mem : Bool) :
    copyCtor E rest mem t = .ok (emptyMap 128 512) () := by
  obtain ⟨hR, hm, _⟩ := h.reach hE hrv
  have hen : entries t = [] := by rw [he] at hm; exact hm.eq_nil
  have hz : t.size = 0 := by rw [hR.size, hen]; rfl
  unfold copyCtor reserveForInsert
  rw [reserve_eq hR.size_le, hz, walk_reach hR, hen]
  rfl

/-! ### Move and swap -/

/-- Every later history on a map in a state between calls. -/
theorem run_from (hE : E.Lawful) {rv : Nat → Nat} (hrv : ∀ x, 256 ≤ rv x ∧ rv x ≤ 1024) {t : Map K V} (hR : Reach E t)
    {m : Spec.Map K V} (hm : (entries t).Perm m) {bare : Bool} (hb : Fresh t → bare = true)
    {cs : List (Bool × Call K V)} (hv : ∀ c ∈ cs, Robin.Valid c.2)
    (hu : Usable E.eq bare m cs) (hr : ∀ i, i ≤ cs.length → Room E ((cs.take i).foldl (fun m c => next E.eq m c.2) m)) :
    ∃ as t' m', run false E rv cs t = .ok (as, t') ∧
      Spec.AcceptsAll E.eq m ((cs.map (·.2)).take as.length) as m' ∧ Ended cs as ∧ Ordered E.eq (entries t) cs as := by
  have h1 := run_ok hE hrv cs t m hv hR hm
  cases hx : run true E rv cs t with
  | diverge => rw [hx] at h1; exact h1.elim
  | ub =>
    rw [hx] at h1
    obtain ⟨i, hi, hn⟩ := h1 bare hb hu
    exact (hn (hr i hi)).elim
  | ok r =>
    obtain ⟨as, t'⟩ := r
    rw [hx] at h1
    obtain ⟨m', h2, h3, h5, _⟩ := h1
    rcases run_chk (E := E) rv cs t with h4 | h4
    · rw [hx] at h4; cases h4
    · exact ⟨as, t', m', by rw [← h4, hx], h2, h3, h5⟩

theorem Live.set_members {t : Map K V} {c : Nat} (h : Live E t c) {x : Option Nat} (hx : x = none ∨ x = some t.slen) {n : Nat}
    (hn : n ≤ c) : Live E { t with last := x, thr := n } c :=
  { toShape := ⟨h.alloc, h.pow, h.mask, h.look, h.slen, hx, h.clen⟩
    some_ := h.some_, none_ := h.none_, idx := h.idx, hash := h.hash, unused := h.unused, tail := h.tail, small := h.small
    abs := by
      have := h.abs
      exact { toShape := ⟨this.alloc, this.pow, this.mask, this.look, this.slen, this.last, this.clen⟩
              cell := this.cell, tail := this.tail, order := this.order, distinct := this.distinct, size := this.size }
    thr_le := hn
    size_le := h.size_le }

theorem moved_reach {t : Map K V} (hR : Reach E t) : Reach E (moveCtor t).1 ∧ entries (moveCtor t).1 = entries t ∧
    (Fresh (moveCtor t).1 → Fresh t) := by
  refine ⟨⟨hR.mlf, hR.rev_lo, hR.rev_hi, ?_⟩, rfl, ?_⟩
  · rcases hR.st with ⟨a, b, rfl⟩ | ⟨c, h⟩
    · exact Or.inl ⟨a, b, rfl⟩
    · exact Or.inr ⟨c, h.set_members h.last (Nat.zero_le _)⟩
  · intro hf
    rcases hR.st with h | ⟨c, h⟩
    · exact h
    · exact ((h.set_members h.last (Nat.zero_le _)).not_fresh hf).elim

/-- C104 for the move constructor, target: the new map holds the elements, in the same order, and every later history on it is
answered as by an ideal map with these contents. -/
theorem C104_move_target (hE : E.Lawful) {rv : Nat → Nat} (hrv : ∀ x, 256 ≤ rv x ∧ rv x ≤ 1024) {cs : List (Bool × Call K V)}
    {t : Map K V} (h : Reached E rv cs t) {cs' : List (Bool × Call K V)} (hv : ∀ c ∈ cs', Robin.Valid c.2)
    (hu : Usable E.eq (!t.alloc) (contents E.eq cs) cs') (hr : ∀ i, i ≤ cs'.length → Room E (contents E.eq (cs ++ cs'.take i))) :
    ∃ as t'' m', run false E rv cs' (moveCtor t).1 = .ok (as, t'') ∧
      Spec.AcceptsAll E.eq (contents E.eq cs) ((cs'.map (·.2)).take as.length) as m' ∧ Ended cs' as ∧
      Ordered E.eq (orderAll E.eq [] cs) cs' as := by
  obtain ⟨hR, hm, ho⟩ := h.reach hE hrv
  obtain ⟨h1, h2, h3⟩ := moved_reach hR
  rw [← ho, ← h2]
  apply run_from hE hrv h1 (by rw [h2]; exact hm) (fun hf => ?_) hv hu
  · intro i hi
    have := hr i hi
    unfold contents at this ⊢
    rw [List.foldl_append] at this
    exact this
  · obtain ⟨a, b, rfl⟩ := h3 hf
    rfl

theorem swapped_reach {a b : Map K V} (hR : Reach E b) (hal : a.alloc = b.alloc ∨ b.alloc = true) : Reach E (swapMaps a b).1 ∧
    entries (swapMaps a b).1 = entries b ∧ (Fresh (swapMaps a b).1 → Fresh b) := by
  rcases hR.st with ⟨m, r, rfl⟩ | ⟨c, h⟩
  · have ha : a.alloc = false := by
      rcases hal with h | h
      · exact h
      · cases h
    have hs : (swapMaps a (emptyMap m r : Map K V)).1 = emptyMap m r := by
      simp only [swapMaps, foreignLast, ha]
      rfl
    rw [hs]
    exact ⟨hR, rfl, id⟩
  · have hl : foreignLast a b = none := by unfold foreignLast; rw [h.alloc]; simp
    have hlive := h.set_members (x := foreignLast a b) (Or.inl hl) h.thr_le
    exact ⟨⟨hR.mlf, hR.rev_lo, hR.rev_hi, Or.inr ⟨c, hlive⟩⟩, rfl, fun hf => (hlive.not_fresh hf).elim⟩

/-- C104 for `swap` (the new `a`, if the old `b` owns storage or neither map does): it holds the elements of the old `b` in the same order,
and every later history on it is answered as by an ideal map with these contents. -/
theorem C104_swap_partial (hE : E.Lawful) {rv : Nat → Nat} (hrv : ∀ x, 256 ≤ rv x ∧ rv x ≤ 1024) {cs : List (Bool × Call K V)}
    {a b : Map K V} (h : Reached E rv cs b) (hal : a.alloc = b.alloc ∨ b.alloc = true)
    {cs' : List (Bool × Call K V)} (hv : ∀ c ∈ cs', Robin.Valid c.2)
    (hu : Usable E.eq (!b.alloc) (contents E.eq cs) cs') (hr : ∀ i, i ≤ cs'.length → Room E (contents E.eq (cs ++ cs'.take i))) :
    ∃ as t'' m', run false E rv cs' (swapMaps a b).1 = .ok (as, t'') ∧
      Spec.AcceptsAll E.eq (contents E.eq cs) ((cs'.map (·.2)).take as.length) as m' ∧ Ended cs' as ∧
      Ordered E.eq (orderAll E.eq [] cs) cs' as := by
  obtain ⟨hR, hm, ho⟩ := h.reach hE hrv
  obtain ⟨h1, h2, h3⟩ := swapped_reach hR hal
  rw [← ho, ← h2]
  apply run_from hE hrv h1 (by rw [h2]; exact hm) (fun hf => ?_) hv hu
  · intro i hi
    have := hr i hi
    unfold contents at this ⊢
    rw [List.foldl_append] at this
    exact this
  · obtain ⟨a, b, rfl⟩ := h3 hf
    rfl

/-- C104 for move assignment from a map that owns storage. -/
theorem C104_move_assign_partial (hE : E.Lawful) {rv : Nat → Nat} (hrv : ∀ x, 256 ≤ rv x ∧ rv x ≤ 1024) {cs : List (Bool × Call K V)}
    {this other : Map K V} (h : Reached E rv cs other) (hal : this.alloc = other.alloc ∨ other.alloc = true)
    {cs' : List (Bool × Call K V)} (hv : ∀ c ∈ cs', Robin.Valid c.2)
    (hu : Usable E.eq (!other.alloc) (contents E.eq cs) cs') (hr : ∀ i, i ≤ cs'.length → Room E (contents E.eq (cs ++ cs'.take i))) :
    ∃ as t'' m', run false E rv cs' (moveAssign this other).1 = .ok (as, t'') ∧
      Spec.AcceptsAll E.eq (contents E.eq cs) ((cs'.map (·.2)).take as.length) as m' ∧ Ended cs' as ∧
      Ordered E.eq (orderAll E.eq [] cs) cs' as := by
  obtain ⟨hR, hm, ho⟩ := h.reach hE hrv
  obtain ⟨g1, g2, g3⟩ := moved_reach hR
  obtain ⟨h1, h2, h3⟩ := swapped_reach (a := this) g1 hal
  have h2' : entries (moveAssign this other).1 = entries other := h2.trans g2
  rw [← ho, ← h2']
  apply run_from hE hrv (t := (moveAssign this other).1) h1 (by rw [h2']; exact hm) (fun hf => ?_) hv hu
  · intro i hi
    have := hr i hi
    unfold contents at this ⊢
    rw [List.foldl_append] at this
    exact this
  · obtain ⟨a, b, rfl⟩ := g3 (h3 hf)
    rfl

/-- C104 is violated by the move constructor: inserting any key into a moved-from map is undefined (it writes into the static
control words), whenever the map had a nonzero threshold, that is, owned storage. -/
theorem C104_moved_from_insert {t : Map K V} (h : 0 < t.thr) (k : K) (v : V) (mem update : Bool) :
    emplace false E update mem k v (moveCtor t).2 = .ub := by
  unfold emplace emplaceLoop findOrInsert
  have hh : home E (moveCtor t).2 k = 0 := by
    unfold home moveCtor emptyMap
    simp
  have hp : probe false E (moveCtor t).2 k = .ok (.stop 0 ⟨0, 0, 0⟩) := by
    unfold probe
    rw [hh]
    rfl
  rw [hp]
  have h1 : (decide ((moveCtor t).2.thr ≤ (moveCtor t).2.size) || decide ((⟨0, 0, 0⟩ : Ctrl).dist < 0)) = false := by
    have e1 : (moveCtor t).2.thr = t.thr := rfl
    have e2 : (moveCtor t).2.size = 0 := rfl
    rw [e1, e2, decide_eq_false (by omega)]
    rfl
  simp only [lift]
  rw [h1, if_neg (by decide)]
  rfl

/-- C104 is violated by `swap` of a map with storage and one without: afterwards `find` on the empty one differs from `end()` for
every key, and dereferencing the result is undefined. -/
theorem C104_swap_with_default (a : Map K V) (ha : a.alloc = true) (m r : Nat) (k : K) :
    lookup false E (swapMaps a (emptyMap m r : Map K V)).1 k = .ub := by
  have hl : foreignLast a (emptyMap m r : Map K V) = none := by unfold foreignLast; rw [ha]; rfl
  unfold lookup findIter findIdx findCtrlIdx
  have hp : probe false E (swapMaps a (emptyMap m r : Map K V)).1 k = .ok (.stop 0 ⟨0, 0, 0⟩) := by
    unfold probe
    have hh : home E (swapMaps a (emptyMap m r : Map K V)).1 k = 0 := by
      unfold home swapMaps emptyMap
      simp
    rw [hh]
    rfl
  rw [hp]
  simp only [Res.bind_ok, swapMaps, hl]
  rfl

end Verif.RobInd
