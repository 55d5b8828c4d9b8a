/-
Histories of calls on a robin hood map with the indirect layout, compared with the ideal map and with the exact order of
iteration.
-/
import Verif.RobIndOps
import Verif.RobinProps

namespace Verif.RobInd
open Spec (Distinct Call Ans)
open Robin (Fits Roomy next after absent_symm mul_div_le pow_two_le)

/-! ### Histories -/

section Model
variable {K V : Type} (chk : Bool) (E : Env K)

/-- The caller dereferences the iterator returned by `insert_or_assign` and the like (RH:3621-3629, `operator *` RH:2994-2996). -/
def readElem (t : Map K V) (r : Nat × Bool) : Out (Map K V) (Ans K V) :=
  match t.slot r.1 with
  | none => .ub
  | some e => .ok t (.elem e r.2)

/-- `operator[]` returns a reference to the mapped value (RH:3691-3699). -/
def readValue (t : Map K V) (r : Nat × Bool) : Out (Map K V) (Ans K V) :=
  match t.slot r.1 with
  | none => .ub
  | some e => .ok t (.value (some e.2))

/-- One call.  `x` names the `float` that is passed: `x % 2^32` is the `n_mlf_` and `rv x` the `n_mlf_rev_` that `max_load_factor` computes from it
(see `Verif.LoadFactor`).
`reserve` and `rehash` are the same function.  The members called: `empty`, `size` RH:3268-3270, `max_load_factor` RH:3316-3335,
`begin`, `end` RH:3361-3418, `clear` RH:3504-3515, `reserve`, `rehash`, `shrink_to_fit` RH:3517-3540, `contains`, `find`
RH:3547-3562, `insert`, `insert_or_assign`, `emplace`, `try_emplace` RH:3580-3689, `operator []` RH:3691-3699, `at` RH:3701-3721,
`erase` RH:3723-3727. -/
def exec (rv : Nat → Nat) (mem : Bool) : Call K V → Map K V → Out (Map K V) (Ans K V)
  | .insert k v, t => (emplace chk E false mem k v t).bind readElem
  | .assign k v, t => (emplace chk E true mem k v t).bind readElem
  | .index k d, t => (emplace chk E false mem k d t).bind readValue
  | .find k, t => lift (lookup chk E t k) fun o => .ok t (.found o)
  | .contains k, t => lift (contains chk E t k) fun b => .ok t (.bool b)
  | .count k, t => lift (contains chk E t k) fun b => .ok t (.num (if b then 1 else 0))
  | .at k, t => lift (atKey chk E t k) fun o => .ok t (.value o)
  | .erase k, t => (eraseKey chk E k t).bind fun t' n => .ok t' (.num n)
  | .size, t => .ok t (.num t.size)
  | .empty, t => .ok t (.bool (t.size == 0))
  | .clear d, t => (clear d t).bind fun t' _ => .ok t' .unit
  | .reserve n, t => (rehash chk E mem false n t).bind fun t' _ => .ok t' .unit
  | .rehash n, t => (rehash chk E mem false n t).bind fun t' _ => .ok t' .unit
  | .shrink ro, t => (shrinkToFit chk E mem ro t).bind fun t' _ => .ok t' .unit
  | .maxLoad m, t => (setMlf chk E mem (m % 2 ^ 32) (rv m) t).bind fun t' _ => .ok t' .unit
  | .iterate, t => lift (walk t) fun l => .ok t (.items l)

/-- A history: calls paired with the allocator's answers.  An exception ends it. -/
def run (rv : Nat → Nat) : List (Bool × Call K V) → Map K V → Res (List (Ans K V) × Map K V)
  | [], t => .ok ([], t)
  | (mem, c) :: cs, t =>
    match exec chk E rv mem c t with
    | .ub => .ub
    | .diverge => .diverge
    | .throw t' => .ok ([.threw], t')
    | .ok t' a => (run rv cs t').bind fun r => .ok (a :: r.1, r.2)

end Model

variable {K V : Type} {E : Env K}

/-! ### The order of iteration -/

/-- The last element takes the place of the one at position `i`. -/
def swapRemove {α : Type} (l : List α) (i : Nat) : List α :=
  match l.getLast? with
  | none => []
  | some e => (l.set i e).dropLast

/-- The elements in the order of iteration, after a call. -/
def order (eq : K → K → Bool) (l : List (K × V)) : Call K V → List (K × V)
  | .insert k v => if (Spec.get eq l k).isSome then l else l ++ [(k, v)]
  | .index k v => if (Spec.get eq l k).isSome then l else l ++ [(k, v)]
  | .assign k v => if (Spec.get eq l k).isSome then l.map fun e => if eq k e.1 then (e.1, v) else e else l ++ [(k, v)]
  | .erase k =>
    match l.findIdx? fun e => eq k e.1 with
    | none => l
    | some i => swapRemove l i
  | .clear _ => []
  | _ => l

theorem dense_getElem? {s : Nat → Option (K × V)} {n : Nat} : ∀ N, n ≤ N → (∀ j, j < n → ∃ e, s j = some e) →
    (∀ j, n ≤ j → s j = none) → ∀ j, ((List.range N).filterMap s)[j]? = s j := by
  intro N hN h1 h2 j
  rw [Robin.filterMap_range_extend s hN (fun p hp _ => h2 p hp)]
  have hlen : ∀ m, m ≤ n → ((List.range m).filterMap s).length = m ∧ ∀ j, j < m → ((List.range m).filterMap s)[j]? = s j := by
    intro m
    induction m with
    | zero => intro _; exact ⟨rfl, fun j hj => by omega⟩
    | succ m ih =>
      intro hm
      obtain ⟨g1, g2⟩ := ih (by omega)
      obtain ⟨e, he⟩ := h1 m (by omega)
      rw [List.range_succ, List.filterMap_append]
      have hs : [m].filterMap s = [e] := by simp [he]
      rw [hs]
      refine ⟨by simp [g1], ?_⟩
      intro j hj
      by_cases hjm : j < m
      · rw [List.getElem?_append_left (by omega)]; exact g2 j hjm
      · have : j = m := by omega
        subst this
        rw [List.getElem?_append_right (by omega), g1, Nat.sub_self, he]; rfl
  obtain ⟨g1, g2⟩ := hlen n (Nat.le_refl _)
  by_cases hj : j < n
  · exact g2 j hj
  · rw [List.getElem?_eq_none (by omega), h2 j (by omega)]

/-- The elements in the order of iteration are the slots in order. -/
theorem Dense.getElem? {t : Map K V} (h : Dense t) (hs : t.size ≤ t.slen) (j : Nat) : (entries t)[j]? = t.slot j :=
  dense_getElem? _ hs h.some_ h.none_ j

theorem Good.getElem? {t : Map K V} {c : Nat} (h : Good E t c) (j : Nat) : (entries t)[j]? = t.slot j :=
  h.toDense.getElem? h.size_le_slen j

theorem swapRemove_getElem? {α : Type} {l : List α} {i : Nat} (hi : i < l.length) (j : Nat) :
    (swapRemove l i)[j]? = if j + 1 < l.length then (if j = i then l[l.length - 1]? else l[j]?) else none := by
  unfold swapRemove
  rw [List.getLast?_eq_getElem?]
  obtain ⟨e, he⟩ : ∃ e, l[l.length - 1]? = some e := ⟨_, List.getElem?_eq_getElem (by omega)⟩
  rw [he]
  simp only
  rw [List.getElem?_dropLast, List.length_set]
  by_cases hj : j + 1 < l.length
  · rw [if_pos (by omega), if_pos hj, List.getElem?_set]
    by_cases hji : j = i
    · subst hji; rw [if_pos rfl, if_pos hi, if_pos rfl]
    · rw [if_neg (fun hx => hji hx.symm), if_neg hji]
  · rw [if_neg (by omega), if_neg hj]

theorem Removed.order {t t' : Map K V} {c ei : Nat} {ee : K × V} (h : Good E t c) (hr : Removed E t t' c ei ee) (hei : ei < t.size) :
    entries t' = swapRemove (entries t) ei := by
  apply List.ext_getElem?
  intro j
  have hsz := h.size_eq
  rw [hr.good.getElem?, swapRemove_getElem? (by omega), hr.slot, ← hsz]
  rw [h.getElem?, h.getElem?]
  by_cases hj : j + 1 < t.size
  · rw [if_pos hj, upd_other _ _ (by omega)]
    by_cases hji : j = ei
    · subst hji; rw [upd_self, if_pos rfl]
    · rw [upd_other _ _ hji, if_neg hji]
  · rw [if_neg hj]
    by_cases hjs : j = t.size - 1
    · subst hjs; exact upd_self _ _ _
    · rw [upd_other _ _ hjs, upd_other _ _ (by omega)]; exact h.none_ j (by omega)

/-! ### Iteration -/

theorem walkLoop_spec {t : Map K V} (h : Dense t) : ∀ (f j : Nat), j + f = t.size →
    walkLoop t f j = .ok ((List.range' j f).filterMap t.slot) := by
  intro f
  induction f with
  | zero => intro j _; rfl
  | succ f ih =>
    intro j hj
    unfold walkLoop
    obtain ⟨e, he⟩ := h.some_ j (by omega)
    rw [he]
    simp only
    rw [ih (j + 1) (by omega), Res.bind_ok, List.range'_succ, List.filterMap_cons_some he]

theorem walk_spec {t : Map K V} {c : Nat} (h : Good E t c) : walk t = .ok (entries t) := by
  unfold walk
  rw [walkLoop_spec h.toDense t.size 0 (by omega), Good.entries_dense h.toDense h.size_le_slen, List.range_eq_range']

/-! ### Read-only calls -/

theorem findCtrlIdx_spec (hE : E.Lawful) {t : Map K V} {c : Nat} (h : Good E t c) (k : K) :
    match findCtrlIdx true E t k with
    | .ok (some i) => i < t.slen ∧ 0 ≤ (t.ctrl i).dist ∧ ∃ e, t.slot (t.ctrl i).idx = some e ∧ Spec.get E.eq (entries t) k = some e
    | .ok none => Spec.get E.eq (entries t) k = none
    | .diverge => False
    | .ub => ¬ Fits E c (entries t) ∧ Spec.get E.eq (entries t) k = none := by
  have hperm := h.entries_perm hE
  have hdis := h.distinct hE
  unfold findCtrlIdx
  have hp := probe_spec hE h k
  cases hpr : probe true E t k with
  | diverge => rw [hpr] at hp; exact hp
  | ub =>
    rw [hpr] at hp
    refine ⟨fun hf => (hf.perm hperm.symm).not_crowded h.abs (h.toShape.hm_lt k) hp.1, ?_⟩
    refine Spec.get_none_iff.mpr fun e he => absent_symm hE ?_
    cases hq : E.eq e.1 k with
    | false => rfl
    | true =>
      exfalso
      obtain ⟨p, hp1, hp2⟩ := Robin.mem_entries.mp (hperm.mem_iff.mpr he)
      have hh := Robin.hm_congr (c := c) hE hq
      rcases h.abs.cell p hp1 with ⟨h1, _⟩ | ⟨e', h1, h2, h3, _⟩
      · rw [h1] at hp2; cases hp2
      · rw [h1] at hp2; cases hp2
        have := (hp.2 (p - Robin.hm E c k) (by omega)).2 e (by rw [Nat.add_sub_cancel' (by omega)]; exact h1)
        rw [hq] at this; cases this
  | ok q =>
    rw [hpr] at hp
    simp only [Res.bind_ok]
    cases q with
    | hit i =>
      obtain ⟨hi, hd, e, he, heq⟩ := hp
      have := h.idx i hi hd
      have := h.size_le_slen
      exact ⟨hi, hd, e, he, (Spec.get_some_iff hE hdis).mpr ⟨mem_entries.mpr ⟨_, by omega, he⟩, hE.symm _ _ heq⟩⟩
    | stop i d =>
      obtain ⟨hs, hps⟩ := hp
      have hk := Robin.absent_of_stop hE h.abs hs hps
      exact Spec.get_none_iff.mpr fun e he => absent_symm hE (hk e (hperm.mem_iff.mpr he))

theorem findIdx_spec (hE : E.Lawful) {t : Map K V} {c : Nat} (h : Good E t c) (k : K) :
    match findIdx true E t k with
    | .ok (some j) => j < t.size ∧ ∃ e, t.slot j = some e ∧ Spec.get E.eq (entries t) k = some e
    | .ok none => Spec.get E.eq (entries t) k = none
    | .diverge => False
    | .ub => ¬ Fits E c (entries t) ∧ Spec.get E.eq (entries t) k = none := by
  have hp := findCtrlIdx_spec hE h k
  unfold findIdx
  cases hpr : findCtrlIdx true E t k with
  | diverge => rw [hpr] at hp; exact hp
  | ub => rw [hpr] at hp; exact hp
  | ok q =>
    rw [hpr] at hp
    cases q with
    | none => exact hp
    | some i =>
      obtain ⟨h1, h2, h3⟩ := hp
      exact ⟨h.idx i h1 h2, h3⟩

theorem probe_fresh (m r : Nat) (k : K) : probe true E (emptyMap m r : Map K V) k = .ok (.stop 0 ⟨0, 0, 0⟩) := by
  unfold probe
  have hh : home E (emptyMap m r : Map K V) k = 0 := by
    unfold home emptyMap
    simp
  rw [hh]
  rfl

theorem findCtrlIdx_fresh {t : Map K V} (h : Fresh t) (k : K) : findCtrlIdx true E t k = .ok none := by
  obtain ⟨m, r, rfl⟩ := h
  unfold findCtrlIdx
  rw [probe_fresh]
  rfl

theorem findIdx_fresh {t : Map K V} (h : Fresh t) (k : K) : findIdx true E t k = .ok none := by
  unfold findIdx
  rw [findCtrlIdx_fresh h]
  rfl

/-! ### Invariant between calls -/

/-- The states a map can be in between two calls. -/
structure Reach (E : Env K) (t : Map K V) : Prop where
  mlf : t.mlf ≤ 256
  rev_lo : 256 ≤ t.rev
  rev_hi : t.rev ≤ 1024
  st : Fresh t ∨ ∃ c, Live E t c

/-- The elements `l` fit into every block of at least `l.length` positions, and their number fits into the index field of a
control word. -/
def Room (E : Env K) (l : List (K × V)) : Prop := Roomy E l ∧ l.length < 2 ^ 32

theorem Room.perm {l l' : List (K × V)} (h : l.Perm l') (hr : Room E l) : Room E l' :=
  ⟨hr.1.perm h, by rw [← h.length_eq]; exact hr.2⟩

/-- The reasons for an undefined outcome. -/
def Undefined (E : Env K) (t : Map K V) (m : Spec.Map K V) (c : Call K V) : Prop :=
  ¬ Room E m ∨ ¬ Room E (next E.eq m c) ∨ (Fresh t ∧ ∃ d, c = .clear d) ∨ (¬ Fresh t ∧ ∃ k, c = .find k ∧ Spec.get E.eq m k = none)

/-- Correctness of one call. -/
def StepOk (E : Env K) (t : Map K V) (m : Spec.Map K V) (c : Call K V) : Out (Map K V) (Ans K V) → Prop
  | .ok t' a => Reach E t' ∧ Spec.Accepts E.eq m c a (next E.eq m c) ∧ (entries t').Perm (next E.eq m c) ∧
      entries t' = order E.eq (entries t) c ∧ (c = .iterate → a = .items (entries t))
  | .throw _ => c.allocates = true
  | .diverge => False
  | .ub => Undefined E t m c

theorem Reach.distinct (hE : E.Lawful) {t : Map K V} (h : Reach E t) : Distinct E.eq (entries t) := by
  rcases h.st with h | ⟨c, h⟩
  · rw [h.entries]; exact List.Pairwise.nil
  · exact h.toGood.distinct hE

theorem Reach.size {t : Map K V} (h : Reach E t) : t.size = (entries t).length := by
  rcases h.st with h | ⟨c, h⟩
  · rw [h.entries]; obtain ⟨m, r, rfl⟩ := h; rfl
  · exact h.size_eq

/-- Replacing the mapped value of an element. -/
theorem Live.assign (hE : E.Lawful) {t : Map K V} {c i : Nat} {e : K × V} (h : Live E t c) (hi : i < t.size) (he : t.slot i = some e)
    (v : V) : Live E { t with slot := upd t.slot i (some (e.1, v)) } c ∧ ∃ A B, entries t = A ++ e :: B ∧
      entries { t with slot := upd t.slot i (some (e.1, v)) } = A ++ (e.1, v) :: B := by
  have hsl := h.size_le_slen
  have hRl : Robin.Live E (abs c t) c := { toGood := h.abs, thr_le := h.thr_le, size_le := h.size_le }
  obtain ⟨p, p1, p2, p3⟩ := mem_idxs.mp ((h.toGood.idxs_perm hE).mem_iff.mpr (List.mem_range.mpr hi))
  have hsp : (abs c t).slot p = some e := by
    show absS t.slen t.slot t.ctrl p = _
    rw [absS_used p1 p2, p3, he]
  obtain ⟨hRn, _⟩ := hRl.assign p1 hsp v
  have habs : (abs c { t with slot := upd t.slot i (some (e.1, v)) } : Robin.Map K V) =
      { abs c t with slot := upd (abs c t).slot p (some (e.1, v)) } := by
    simp only [abs]
    congr 1
    funext q
    by_cases hq : q = p
    · subst hq; rw [absS_used p1 p2, p3, upd_self, upd_self]
    · rw [upd_other _ _ hq]
      by_cases hu : q < t.slen ∧ 0 ≤ (t.ctrl q).dist
      · rw [absS_used hu.1 hu.2, absS_used hu.1 hu.2, upd_other]
        intro hx
        exact hq (h.toGood.idx_inj hE q p hu.1 p1 hu.2 p2 (by rw [hx, p3]))
      · rw [absS_unused hu, absS_unused hu]
  obtain ⟨A, B, hAB⟩ := filterMap_range_upd (show i < t.slen by omega) t.slot
  have h1 : entries t = A ++ e :: B := by
    have := hAB (t.slot i)
    rw [upd_eq_self, he] at this
    unfold entries
    rw [this]; simp
  have h2 : entries { t with slot := upd t.slot i (some (e.1, v)) } = A ++ (e.1, v) :: B := by
    have := hAB (some (e.1, v))
    unfold entries
    show (List.range t.slen).filterMap (upd t.slot i (some (e.1, v))) = _
    rw [this]; simp
  refine ⟨?_, A, B, h1, h2⟩
  refine { toShape := ⟨h.alloc, h.pow, h.mask, h.look, h.slen, h.last, h.clen⟩, some_ := ?_, none_ := ?_,
           abs := by rw [habs]; exact hRn.toGood, idx := h.idx, hash := ?_, unused := h.unused, tail := h.tail, small := h.small,
           thr_le := h.thr_le, size_le := h.size_le }
  · intro j hj
    show ∃ e', upd t.slot i (some (e.1, v)) j = some e'
    by_cases hji : j = i
    · subst hji; exact ⟨_, upd_self _ _ _⟩
    · rw [upd_other _ _ hji]; exact h.some_ j hj
  · intro j hj
    have hj' : t.size ≤ j := hj
    show upd t.slot i (some (e.1, v)) j = none
    rw [upd_other _ _ (by omega)]; exact h.none_ j hj
  · intro q e' hq hd he'
    have he2 : upd t.slot i (some (e.1, v)) (t.ctrl q).idx = some e' := he'
    show (t.ctrl q).hash = _
    by_cases hqi : (t.ctrl q).idx = i
    · rw [hqi, upd_self] at he2
      cases he2
      exact h.hash q e hq hd (by rw [hqi]; exact he)
    · rw [upd_other _ _ hqi] at he2
      exact h.hash q e' hq hd he2

theorem emplace_ok (hE : E.Lawful) {t : Map K V} (hR : Reach E t) {m : Spec.Map K V} (hm : (entries t).Perm m)
    (update mem : Bool) (k : K) (v : V) :
    match emplace true E update mem k v t with
    | .ok t' (i, b) => Reach E t' ∧ b = (Spec.get E.eq m k).isNone ∧ ∃ e, t'.slot i = some e ∧
        Spec.get E.eq (after E.eq update m k v) k = some e ∧ (entries t').Perm (after E.eq update m k v) ∧
        entries t' = order E.eq (entries t) (if update then .assign k v else .insert k v)
    | .throw _ => True
    | .diverge => False
    | .ub => ¬ Room E m ∨ ¬ Room E (after E.eq update m k v) := by
  have hdis := hR.distinct hE
  have hdm : Distinct E.eq m := Spec.Distinct.perm hE hm hdis
  have hgete : Spec.get E.eq (entries t) k = Spec.get E.eq m k := Spec.get_perm hE hm hdis k
  have habs : (∀ x ∈ entries t, E.eq x.1 k = false) → Spec.get E.eq m k = none := fun hk =>
    Spec.get_none_iff.mpr fun e he => absent_symm hE (hk e (hm.mem_iff.mpr he))
  have haft : Spec.get E.eq m k = none → after E.eq update m k v = (k, v) :: m := by
    intro hg
    unfold after
    cases update
    · exact Spec.insert_absent hg v
    · simp [Spec.assign, hg]
  have hspec : EmplaceOk E t update k v (emplace true E update mem k v t) := by
    unfold emplace
    rcases hR.st with h | ⟨c, h⟩
    · exact emplaceLoop_spec hE update mem k v 64 1 t (Or.inr ⟨h, rfl⟩) (by omega) (by omega) hR.mlf
    · obtain ⟨j, h1, h2, rfl⟩ := h.pow
      exact emplaceLoop_spec hE update mem k v 64 j t (Or.inl h) (by omega) (by omega) hR.mlf
  cases hr : emplace true E update mem k v t with
  | throw t' => trivial
  | diverge => rw [hr] at hspec; exact hspec
  | ub =>
    rw [hr] at hspec
    rcases hspec with hb | ⟨j, h1, ⟨h2, h3⟩ | ⟨hk, h2, h3⟩⟩
    · left
      intro hroom
      have h1 := hroom.2
      rw [← hm.length_eq] at h1
      omega
    · left
      intro hroom
      exact h3 ((hroom.perm hm.symm).1 j h1 h2)
    · right
      rw [haft (habs hk)]
      intro hroom
      exact h3 ((hroom.perm (List.Perm.cons _ hm.symm)).1 j h1 (by simpa using h2))
  | ok t' p =>
    obtain ⟨i, b⟩ := p
    rw [hr] at hspec
    simp only
    rcases hspec with ⟨hb, hk, hp, hi, _, h5, h6, c', h7⟩ | ⟨hb, hi, e, he, heq, ht'⟩
    · have hg := habs hk
      rw [haft hg]
      refine ⟨⟨by rw [h5]; exact hR.mlf, by rw [h6]; exact hR.rev_lo, by rw [h6]; exact hR.rev_hi, Or.inr ⟨c', h7⟩⟩,
        by rw [hb, hg]; rfl, (k, v), hi, Spec.get_cons_self hE _ _ _, ?_, ?_⟩
      · rw [hp]
        exact List.perm_append_comm.trans (List.Perm.cons _ hm)
      · rw [hp]
        cases update <;> simp [order, hgete, hg]
    · have hke : E.eq k e.1 = true := hE.symm _ _ heq
      obtain ⟨c, h⟩ : ∃ c, Live E t c := by
        rcases hR.st with h | h
        · obtain ⟨a, b, rfl⟩ := h
          exact (Nat.not_lt_zero _ hi).elim
        · exact h
      have hsl := h.size_le_slen
      have hget : Spec.get E.eq m k = some e :=
        (Spec.get_some_iff hE hdm).mpr ⟨hm.mem_iff.mp (mem_entries.mpr ⟨i, by omega, he⟩), hke⟩
      cases update with
      | false =>
        simp only [Bool.false_eq_true, if_false] at ht'
        subst ht'
        refine ⟨hR, by rw [hb, hget]; rfl, e, he, ?_, ?_, ?_⟩
        · simp only [after, Bool.false_eq_true, if_false, Spec.insert_present hget v]; exact hget
        · simp only [after, Bool.false_eq_true, if_false, Spec.insert_present hget v]; exact hm
        · simp [order, hgete, hget]
      | true =>
        simp only [if_true] at ht'
        subst ht'
        obtain ⟨hl, A, B, h1, h2⟩ := h.assign hE hi he v
        have hmap : entries { t with slot := upd t.slot i (some (e.1, v)) } =
            (entries t).map fun x => if E.eq k x.1 then (x.1, v) else x := by
          rw [h2, h1]
          have hd := hdis
          rw [h1] at hd
          rw [Spec.assign_at hE hd hke]
        have hperm : (entries { t with slot := upd t.slot i (some (e.1, v)) }).Perm (Spec.assign E.eq m k v) := by
          rw [hmap]
          unfold Spec.assign
          rw [if_pos (by simp [hget])]
          exact hm.map _
        have hdn := hl.toGood.distinct hE
        refine ⟨⟨hR.mlf, hR.rev_lo, hR.rev_hi, Or.inr ⟨c, hl⟩⟩, by rw [hb, hget]; rfl, (e.1, v), upd_self _ _ _, ?_, ?_, ?_⟩
        · simp only [after, if_true]
          rw [← Spec.get_perm hE hperm hdn, Spec.get_some_iff hE hdn]
          refine ⟨?_, hke⟩
          rw [h2]; simp
        · simp only [after, if_true]; exact hperm
        · rw [hmap]
          simp [order, hgete, hget]

/-- A rehash, from every state between calls. -/
theorem rehash_ok (hE : E.Lawful) {t : Map K V} (hR : Reach E t) {m : Spec.Map K V} (hm : (entries t).Perm m)
    {c : Call K V} (hc : c.allocates = true) (hn : next E.eq m c = m) (ha : Spec.Accepts E.eq m c .unit m)
    {n : Nat} (h1 : t.size ≤ n) (h2 : n ≤ 2 ^ 63) (mem : Bool) (t0 : Map K V) (ho : order E.eq (entries t0) c = entries t)
    (hi : c ≠ .iterate) :
    StepOk E t0 m c ((rehashImpl true E true false mem n t).bind fun t' _ => .ok t' .unit) := by
  have hs := rehashImpl_spec hE (t := t) (by
    rcases hR.st with h | ⟨c, h⟩
    · exact Or.inl h
    · exact Or.inr ⟨c, h.toGood.weak hE⟩) true false mem n
  cases hr : rehashImpl true E true false mem n t with
  | throw t' => exact hc
  | diverge => rw [hr] at hs; exact hs
  | ub =>
    rw [hr] at hs
    rcases hs with hs | ⟨cap, h3, h4⟩
    · have := Robin.calcCapacity_ub hs; omega
    · obtain ⟨j, hj, rfl, h6, _⟩ := Robin.calcCapacity_ok h3
      left
      intro hroom
      have := hR.size
      rcases h4 with h4 | h4
      · exact h4 ((hroom.perm hm.symm).1 j hj (by omega))
      · have h5 := (hroom.perm hm.symm).2
        omega
  | ok t' u =>
    rw [hr] at hs
    simp only [Out.bind_ok]
    rcases hs with ⟨cap, h3, _, h4⟩ | ⟨_, rfl, _⟩
    · obtain ⟨j, hj, rfl, h6, _⟩ := Robin.calcCapacity_ok h3
      have := hR.size
      refine ⟨⟨by rw [h4.mlf]; exact hR.mlf, by rw [h4.rev]; exact hR.rev_lo, by rw [h4.rev]; exact hR.rev_hi,
        Or.inr ⟨_, h4.live hR.mlf (by omega)⟩⟩, by rw [hn]; exact ha, by rw [hn, h4.same]; exact hm, by rw [h4.same, ho], fun hx => (hi hx).elim⟩
    · exact ⟨hR, by rw [hn]; exact ha, by rw [hn]; exact hm, ho.symm, fun hx => (hi hx).elim⟩

theorem minRequire_le (t : Map K V) (n : Nat) : minRequire t n ≤ 2 ^ 56 := by
  unfold minRequire
  have : n * t.rev % W < 2 ^ 64 := Nat.mod_lt _ (by unfold W; decide)
  omega

theorem Reach.size_le {t : Map K V} (h : Reach E t) : t.size ≤ 2 ^ 48 := by
  rcases h.st with ⟨a, b, rfl⟩ | ⟨c, h⟩
  · exact Nat.zero_le _
  · obtain ⟨j, _, hj, rfl⟩ := h.pow
    have := h.size_le
    have := pow_two_le hj
    omega

theorem Reach.minRequire_ge {t : Map K V} (h : Reach E t) : t.size ≤ minRequire t t.size := by
  unfold minRequire
  have h1 := h.size_le
  have h2 : t.size * t.rev ≤ 2 ^ 48 * 1024 := Nat.mul_le_mul h1 h.rev_hi
  have h3 : t.size * 256 ≤ t.size * t.rev := Nat.mul_le_mul_left _ h.rev_lo
  rw [Nat.mod_eq_of_lt (by unfold W; omega)]
  omega

theorem Live.set_mlf {t : Map K V} {c : Nat} (h : Live E t c) (m r : Nat) : Live E { t with mlf := m, rev := r } c :=
  { toShape := ⟨h.alloc, h.pow, h.mask, h.look, h.slen, h.last, h.clen⟩
    some_ := h.some_, none_ := h.none_, idx := h.idx, hash := h.hash, unused := h.unused, tail := h.tail, small := h.small
    abs := by
      have := h.abs
      exact { toShape := ⟨this.alloc, this.pow, this.mask, this.look, this.slen, this.last, this.clen⟩
              cell := this.cell, tail := this.tail, order := this.order, distinct := this.distinct, size := this.size }
    thr_le := h.thr_le
    size_le := h.size_le }

theorem Fresh.get {t : Map K V} (h : Fresh t) (k : K) : Spec.get E.eq (RobInd.entries t) k = none := by rw [h.entries]; rfl

theorem Live.not_fresh {t : Map K V} {c : Nat} (h : Live E t c) : ¬ Fresh t := by
  rintro ⟨m, r, rfl⟩
  have := h.alloc
  cases this

/-- The position of a present key in the order of iteration. -/
theorem findIdx?_slot (hE : E.Lawful) {l : List (K × V)} (hd : Distinct E.eq l) {k : K} {e : K × V} {j : Nat}
    (hj : l[j]? = some e) (hk : E.eq k e.1 = true) : l.findIdx? (fun x => E.eq k x.1) = some j := by
  rw [List.findIdx?_eq_some_iff_getElem]
  obtain ⟨hlt, he⟩ := List.getElem?_eq_some_iff.mp hj
  refine ⟨hlt, by rw [he]; exact hk, ?_⟩
  intro i hi
  have := List.pairwise_iff_getElem.mp hd i j (by omega) hlt hi
  rw [he] at this
  cases hq : E.eq k l[i].1 with
  | false => simp
  | true =>
    exfalso
    have h2 := hE.trans _ _ _ (hE.symm _ _ hq) hk
    rw [this] at h2; cases h2

/-- Every call, from every state between calls: the answer of the ideal map, or an undefined outcome for one of the
listed reasons. -/
theorem exec_ok (hE : E.Lawful) {t : Map K V} (hR : Reach E t) {m : Spec.Map K V} (hm : (entries t).Perm m)
    {rv : Nat → Nat} (hrv : ∀ x, 256 ≤ rv x ∧ rv x ≤ 1024) (mem : Bool) {c : Call K V} (hv : Robin.Valid c) :
    StepOk E t m c (exec true E rv mem c t) := by
  have hget : ∀ k, Spec.get E.eq (entries t) k = Spec.get E.eq m k := Spec.get_perm hE hm (hR.distinct hE)
  have hfindc : ∀ k, findCtrlIdx true E t k = .ub → Undefined E t m c := by
    intro k hub
    rcases hR.st with h | ⟨c', h⟩
    · rw [findCtrlIdx_fresh h] at hub; cases hub
    · have := findCtrlIdx_spec hE h.toGood k
      rw [hub] at this
      left
      intro hroom
      obtain ⟨j, hj, _, rfl⟩ := h.pow
      exact this.1 ((hroom.perm hm.symm).1 j hj (by rw [← h.size_eq]; exact h.size_le))
  have hfind : ∀ k, findIdx true E t k = .ub → Undefined E t m c := by
    intro k hub
    refine hfindc k ?_
    unfold findIdx at hub
    cases hq : findCtrlIdx true E t k with
    | ub => rfl
    | diverge => rw [hq] at hub; cases hub
    | ok r => rw [hq] at hub; cases r <;> cases hub
  have hfok : ∀ k r, findIdx true E t k = .ok r → match r with
      | some i => i < t.slen ∧ i < t.size ∧ t.last ≠ some i ∧ ∃ e, t.slot i = some e ∧ Spec.get E.eq m k = some e
      | none => Spec.get E.eq m k = none := by
    intro k r hr
    rcases hR.st with h | ⟨c', h⟩
    · rw [findIdx_fresh h] at hr
      cases hr
      rw [← hget, h.entries]; rfl
    · have := findIdx_spec hE h.toGood k
      rw [hr] at this
      cases r with
      | none => rw [← hget]; exact this
      | some i =>
        obtain ⟨h1, e, h2, h3⟩ := this
        have := h.size_le_slen
        exact ⟨by omega, h1, by rcases h.last with hx | hx <;> rw [hx] <;> intro hy <;> cases hy; omega, e, h2, by rw [← hget]; exact h3⟩
  have hfdiv : ∀ k, findIdx true E t k ≠ .diverge := by
    intro k hd
    rcases hR.st with h | ⟨c', h⟩
    · rw [findIdx_fresh h] at hd; cases hd
    · have := findIdx_spec hE h.toGood k
      rw [hd] at this; exact this
  have hcont : ∀ k, contains true E t k = .ub ∧ Undefined E t m c ∨ contains true E t k = .ok (Spec.get E.eq m k).isSome := by
    intro k
    unfold contains
    cases hf : findIdx true E t k with
    | ub => left; exact ⟨rfl, hfind k hf⟩
    | diverge => exact (hfdiv k hf).elim
    | ok r =>
      right
      have := hfok k r hf
      cases r with
      | none => simp only [Res.bind_ok]; rw [this]; rfl
      | some i =>
        obtain ⟨h1, _, h3, e, _, h5⟩ := this
        simp only [Res.bind_ok]
        rw [h5, decide_eq_true h3]
        rfl
  cases c with
  | insert k v =>
    have := emplace_ok hE hR hm false mem k v
    simp only [exec]
    cases hr : emplace true E false mem k v t with
    | ok t' r =>
      obtain ⟨i, b⟩ := r
      rw [hr] at this
      obtain ⟨h1, h2, e, h3, h4, h5, h6⟩ := this
      simp only [Out.bind_ok, readElem]
      rw [h3]
      exact ⟨h1, ⟨rfl, h4, h2⟩, h5, h6, fun hx => by cases hx⟩
    | throw t' => rfl
    | diverge => rw [hr] at this; exact this
    | ub =>
      rw [hr] at this
      rcases this with h | h
      · exact Or.inl h
      · exact Or.inr (Or.inl h)
  | assign k v =>
    have := emplace_ok hE hR hm true mem k v
    simp only [exec]
    cases hr : emplace true E true mem k v t with
    | ok t' r =>
      obtain ⟨i, b⟩ := r
      rw [hr] at this
      obtain ⟨h1, h2, e, h3, h4, h5, h6⟩ := this
      simp only [Out.bind_ok, readElem]
      rw [h3]
      exact ⟨h1, ⟨rfl, h4, h2⟩, h5, h6, fun hx => by cases hx⟩
    | throw t' => rfl
    | diverge => rw [hr] at this; exact this
    | ub =>
      rw [hr] at this
      rcases this with h | h
      · exact Or.inl h
      · exact Or.inr (Or.inl h)
  | index k v =>
    have := emplace_ok hE hR hm false mem k v
    simp only [exec]
    cases hr : emplace true E false mem k v t with
    | ok t' r =>
      obtain ⟨i, b⟩ := r
      rw [hr] at this
      obtain ⟨h1, h2, e, h3, h4, h5, h6⟩ := this
      simp only [Out.bind_ok, readValue]
      rw [h3]
      have h4' : Spec.get E.eq (Spec.insert E.eq m k v) k = some e := h4
      exact ⟨h1, ⟨rfl, by rw [show next E.eq m (Call.index k v) = Spec.insert E.eq m k v from rfl, h4']; rfl, rfl⟩, h5, h6, fun hx => by cases hx⟩
    | throw t' => rfl
    | diverge => rw [hr] at this; exact this
    | ub =>
      rw [hr] at this
      rcases this with h | h
      · exact Or.inl h
      · exact Or.inr (Or.inl h)
  | find k =>
    simp only [exec, lookup, findIter]
    cases hf : findIdx true E t k with
    | ub => exact hfind k hf
    | diverge => exact (hfdiv k hf).elim
    | ok r =>
      have := hfok k r hf
      cases r with
      | some i =>
        obtain ⟨h1, h2, _, e, h4, h5⟩ := this
        simp only [Res.bind_ok]
        rw [if_neg (by unfold endPtr; intro hx; cases hx; omega)]
        simp only [h4]
        exact ⟨hR, ⟨rfl, h5.symm⟩, hm, rfl, fun hx => by cases hx⟩
      | none =>
        simp only [Res.bind_ok]
        rcases hR.st with h | ⟨c', h⟩
        · obtain ⟨a, b, rfl⟩ := h
          have hl : (emptyMap a b : Map K V).last = endPtr (emptyMap a b : Map K V) := rfl
          rw [if_pos hl]
          exact ⟨hR, ⟨rfl, this.symm⟩, hm, rfl, fun hx => by cases hx⟩
        · by_cases hl : t.last = endPtr t
          · rw [if_pos hl]
            exact ⟨hR, ⟨rfl, this.symm⟩, hm, rfl, fun hx => by cases hx⟩
          · rw [if_neg hl]
            have hU : Undefined E t m (.find k) := Or.inr (Or.inr (Or.inr ⟨h.not_fresh, k, rfl, this⟩))
            rcases h.last with hx | hx
            · rw [hx]; exact hU
            · rw [hx]
              simp only
              rw [h.none_ t.slen h.size_le_slen]
              exact hU
  | contains k =>
    simp only [exec]
    rcases hcont k with ⟨h, h'⟩ | h
    · rw [h]; exact h'
    · rw [h]; exact ⟨hR, ⟨rfl, rfl⟩, hm, rfl, fun hx => by cases hx⟩
  | count k =>
    simp only [exec]
    rcases hcont k with ⟨h, h'⟩ | h
    · rw [h]; exact h'
    · rw [h]; exact ⟨hR, ⟨rfl, rfl⟩, hm, rfl, fun hx => by cases hx⟩
  | «at» k =>
    simp only [exec, atKey]
    cases hf : findIdx true E t k with
    | ub => exact hfind k hf
    | diverge => exact (hfdiv k hf).elim
    | ok r =>
      have := hfok k r hf
      cases r with
      | none =>
        simp only [Res.bind_ok, lift]
        exact ⟨hR, ⟨rfl, by rw [show Spec.get E.eq m k = none from this]; rfl⟩, hm, rfl, fun hx => by cases hx⟩
      | some i =>
        obtain ⟨h1, _, h3, e, h4, h5⟩ := this
        simp only [Res.bind_ok]
        rw [if_neg h3, h4]
        exact ⟨hR, ⟨rfl, by rw [h5]; rfl⟩, hm, rfl, fun hx => by cases hx⟩
  | erase k =>
    simp only [exec, eraseKey]
    have hnone : Spec.get E.eq m k = none → StepOk E t m (.erase k) (.ok t (.num 0)) := by
      intro hn
      have he : Spec.erase E.eq m k = m := by
        unfold Spec.erase
        rw [List.filter_eq_self]
        intro e he
        rw [Spec.get_none_iff.mp hn e he]; rfl
      refine ⟨hR, ⟨rfl, by rw [hn]; rfl⟩, ?_, ?_, fun hx => by cases hx⟩
      · show (entries t).Perm (Spec.erase E.eq m k)
        rw [he]; exact hm
      · have hnf : (entries t).findIdx? (fun e => E.eq k e.1) = none := by
          rw [List.findIdx?_eq_none_iff]
          exact Spec.get_none_iff.mp ((hget k).trans hn)
        simp only [order]
        rw [hnf]
    rcases hR.st with h | ⟨c', h⟩
    · rw [findCtrlIdx_fresh h]
      exact hnone (by rw [← hget, h.get])
    · have hspec := findCtrlIdx_spec hE h.toGood k
      cases hf : findCtrlIdx true E t k with
      | ub => exact hfindc k hf
      | diverge => rw [hf] at hspec; exact hspec.elim
      | ok r =>
        rw [hf] at hspec
        cases r with
        | none => exact hnone (by rw [← hget]; exact hspec)
        | some i =>
          obtain ⟨h1, h2, e, h4, h5⟩ := hspec
          have h5' := h5
          rw [hget] at h5
          simp only [lift]
          rw [h.toShape.maxCap, if_neg (by omega)]
          obtain ⟨t', ee, g0, g1, g2⟩ := eraseSlot_spec hE h.toGood h1 h2
          rw [g0] at h4
          cases h4
          rw [g1]
          simp only [Out.bind_ok]
          have hdm : Distinct E.eq m := Spec.Distinct.perm hE hm (hR.distinct hE)
          have hei : (t.ctrl i).idx < t.size := h.idx i h1 h2
          refine ⟨⟨by rw [g2.mlf]; exact hR.mlf, by rw [g2.rev]; exact hR.rev_lo, by rw [g2.rev]; exact hR.rev_hi, Or.inr ⟨c',
            { toGood := g2.good, thr_le := by rw [g2.thr]; exact h.thr_le, size_le := ?_ }⟩⟩, ⟨rfl, by rw [h5]; rfl⟩, ?_, ?_,
            fun hx => by cases hx⟩
          · have q1 := g2.perm.length_eq
            have q2 := h.size_eq
            have q3 := h.size_le
            rw [g2.good.size_eq]
            simp only [List.length_cons] at q1
            omega
          · exact (Spec.erase_perm hE hdm (hm.symm.trans g2.perm.symm) ((Spec.get_some_iff hE hdm).mp h5).2).symm
          · have hfi := findIdx?_slot hE (hR.distinct hE) (k := k) (j := (t.ctrl i).idx) (e := e) (by rw [h.getElem?, g0])
              ((Spec.get_some_iff hE hdm).mp h5).2
            simp only [order]
            rw [hfi]
            exact g2.order h.toGood hei
  | size =>
    simp only [exec]
    exact ⟨hR, ⟨rfl, by rw [hR.size, hm.length_eq]⟩, hm, rfl, fun hx => by cases hx⟩
  | empty =>
    simp only [exec]
    refine ⟨hR, ⟨rfl, ?_⟩, hm, rfl, fun hx => by cases hx⟩
    rw [hR.size, hm.length_eq]
    simp
  | clear d =>
    simp only [exec, clear]
    rcases hR.st with h | ⟨c', h⟩
    · obtain ⟨a, b, rfl⟩ := h
      have : clearData (emptyMap a b : Map K V) = .ub := rfl
      rw [if_neg (by simp [slotCap, emptyMap]), this]
      right; right; left
      exact ⟨⟨a, b, rfl⟩, d, rfl⟩
    · have hc4 := h.toShape.c_ge
      cases d with
      | true =>
        rw [h.toShape.slotCap, if_pos (by simp; omega)]
        exact ⟨⟨hR.mlf, hR.rev_lo, hR.rev_hi, Or.inl ⟨_, _, rfl⟩⟩, rfl, List.Perm.refl _, rfl, fun hx => by cases hx⟩
      | false =>
        rw [if_neg (by simp)]
        unfold clearData
        rw [if_pos h.alloc]
        simp only [Out.bind_ok]
        have hg := good_of_cleared (E := E)
          (t := ({ t with ctrl := clearedCtrl (slotCap t) t.look (groups t), slot := fun _ => none, size := 0 } : Map K V))
          (c := c') ⟨h.alloc, h.pow, h.mask, h.look, h.slen, h.last, h.clen⟩
          (by
            intro i
            show clearedCtrl (slotCap t) t.look (groups t) i = _
            rw [h.toShape.slotCap]
            exact clearedCtrl_empty hc4) rfl rfl
        refine ⟨⟨hR.mlf, hR.rev_lo, hR.rev_hi, Or.inr ⟨c', { toGood := hg.1, thr_le := h.thr_le, size_le := Nat.zero_le _ }⟩⟩, rfl, ?_, ?_,
          fun hx => by cases hx⟩
        · rw [hg.2]; exact List.Perm.refl _
        · rw [hg.2]; rfl
  | reserve n =>
    simp only [exec, rehash, Bool.false_eq_true, if_false]
    have := minRequire_le t n
    have := hR.size_le
    exact rehash_ok hE hR hm rfl rfl (by show m = if n = 0 then [] else m; exact (if_neg hv).symm) (by omega) (by omega) mem t rfl (by intro hx; cases hx)
  | rehash n =>
    simp only [exec, rehash, Bool.false_eq_true, if_false]
    have := minRequire_le t n
    have := hR.size_le
    exact rehash_ok hE hR hm (by rfl) (by rfl) (by rfl) (by omega) (by omega) mem t rfl (by intro hx; cases hx)
  | shrink ro =>
    simp only [exec, shrinkToFit]
    have := minRequire_le t t.size
    have := hR.size_le
    have := hR.minRequire_ge
    exact rehash_ok hE hR hm (by rfl) (by rfl) (by rfl) (by split <;> omega) (by split <;> omega) mem t rfl (by intro hx; cases hx)
  | maxLoad x =>
    simp only [exec, setMlf]
    have hR1 : Reach E { t with mlf := x % 2 ^ 32, rev := rv x } := by
      refine ⟨hv, (hrv x).1, (hrv x).2, ?_⟩
      rcases hR.st with h | ⟨c', h⟩
      · obtain ⟨a, b, rfl⟩ := h
        exact Or.inl ⟨x % 2 ^ 32, rv x, rfl⟩
      · exact Or.inr ⟨c', h.set_mlf _ _⟩
    split
    · simp only [rehash, Bool.false_eq_true, if_false]
      have := minRequire_le { t with mlf := x % 2 ^ 32, rev := rv x } t.size
      have := hR.size_le
      exact rehash_ok hE hR1 hm (by rfl) (by rfl) (by rfl) (Nat.le_max_right _ _) (Nat.max_le.mpr ⟨by omega, by show t.size ≤ _; omega⟩) mem t rfl (by intro hx; cases hx)
    · exact ⟨hR1, rfl, hm, rfl, fun hx => by cases hx⟩
  | iterate =>
    simp only [exec]
    rcases hR.st with h | ⟨c', h⟩
    · obtain ⟨a, b, rfl⟩ := h
      exact ⟨hR, ⟨rfl, hm⟩, hm, rfl, fun _ => rfl⟩
    · rw [walk_spec h.toGood]
      exact ⟨hR, ⟨rfl, hm⟩, hm, rfl, fun _ => rfl⟩

end Verif.RobInd
