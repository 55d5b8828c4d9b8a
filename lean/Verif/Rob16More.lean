/-
Properties C87 to C92 of `robin16_hash_map`: failures, load factor, rehashing, ranges, moves, iteration.
-/
import Verif.Rob16Limit

namespace Verif.Rob16
open Spec (Distinct Call Ans)

variable {K V : Type} {E : Env K} {sec : Nat → Nat}

/-! ### Insertions without growth -/

/-- With room and the elements spread well enough, the insertion of a new key does not change the capacity. -/
theorem insert_stays (hE : E.Lawful) {t : Map K V} (hR : Reach E sec t) (update : Bool) (mem : Mem) {k : K} (v : V) (hk : TagOk E sec t k)
    (ha : Absent E t k) (hroom : t.size < t.thr) (hS : Spread E 129 (cap t) ((k, v) :: entries t)) :
    ∃ t1 i, insert E sec update mem true k v t = .ok t1 (i, true) ∧ Reach E sec t1 ∧ (entries t1).Perm ((k, v) :: entries t) ∧
      t1.slot i = some (k, v) ∧ cap t1 = cap t ∧ t1.thr = t.thr ∧ t1.mlf = t.mlf ∧ t1.rev = t.rev := by
  have hS2 := hS.mono (B' := 254) (by omega)
  obtain ⟨j, j1, j2, j3⟩ := hR.pow
  have hsp := prepare_spec hE mem k 64 j t hR.toLive hk (hS2.sub (List.sublist_cons_self _ _).subperm) j3 (by omega)
  have hes := emplace_spec hE update mem true k v 64 j t hR.toLive hk hS2 j3 (by omega)
  obtain ⟨i, d, hp⟩ := prepare_stays hE mem hR.toLive hk ha hroom 63
  rw [hp] at hsp
  obtain ⟨_, _, g3, g4, _, _, _⟩ := hsp
  obtain ⟨q, b, h1, h2⟩ := makeRoom_spec (e := (k, v)) false hR.toTab hR.exists_empty g3 hS2
  cases b with
  | true => exact absurd hS (h2.full rfl).2.1
  | false =>
    have hi : emplace E sec update mem true k v 64 t = .ok { q with slot := upd q.slot i (some (k, v)), size := q.size + 1 } (i, true) := by
      unfold emplace
      rw [hp]
      simp only [Out.bind_ok]
      rw [g4, h1]
      rfl
    rw [hi] at hes
    rcases hes with ⟨_, _, _, s1, s2, _, s3, s4⟩ | ⟨s, _⟩
    · exact ⟨_, i, hi, s1.reach hR s4.rev, s2, s3, h2.same.cap, h2.same.thr, s4.mlf, s4.rev⟩
    · cases s

theorem absent_of {t : Map K V} (hE : E.Lawful) (h : Core E sec t) {k : K} (hk : TagOk E sec t k) (hn : contains E sec t k = .ok false) :
    Absent E t k := by
  unfold contains at hn
  rcases findIdx_spec h hE hk with ⟨x, h1, h2, h3⟩ | ⟨_, h2⟩
  · rw [h1] at hn; cases hn
  · exact (absent_iff h.toBase).mpr h2

/-! ### C87: failures -/

/-- The home position of the key is empty. -/
theorem contains_free {t : Map K V} {k : K} (h : home E t k < t.clen) (hc : (t.ctrl (home E t k)).dist = 255) :
    contains E sec t k = .ok false := by
  have hp : passes t (home E t k) 0 = false := by unfold passes; rw [hc]; rfl
  unfold contains findIdx unroll
  rw [if_pos h, if_neg (by rw [hp]; decide)]
  rfl

/-- The home position of the key has its control word and no element. -/
theorem contains_hole {t : Map K V} {k : K} (h : home E t k < t.clen) (hc : t.ctrl (home E t k) = ⟨0, tagOf E sec k⟩)
    (hs : t.slot (home E t k) = none) : contains E sec t k = .ub := by
  have hp : passes t (home E t k) 0 = true := by unfold passes; rw [hc]; rfl
  unfold contains findIdx unroll
  rw [if_pos h, if_pos hp, hc, if_pos rfl, hs]
  rfl

/-- A rehash that throws, but not for the slots, has done nothing. -/
theorem rehash_throw {t t' : Map K V} {sh al : Bool} {mem : Mem} (hmem : mem ≠ .noSlots) {n : Nat}
    (hr : rehashImpl E sec sh al mem n t = .throw t') : t' = t := by
  unfold rehashImpl at hr
  cases hc : calcCapacity n with
  | ub => rw [hc] at hr; cases hr
  | diverge => rw [hc] at hr; cases hr
  | ok c =>
    rw [hc] at hr
    simp only at hr
    split at hr
    · unfold createGroup at hr
      simp only at hr
      by_cases h1 : mem = .noGroups ∨ memLimit < c
      · rw [if_pos h1] at hr
        cases hr
        rfl
      · rw [if_neg h1, if_neg hmem] at hr
        simp only at hr
        split at hr
        · cases hr
        · split at hr <;> cases hr
    · cases hr

/-- C87 (partial).  If an insertion or a rehash throws because no control words can be allocated, the map keeps its elements and goes on
working.  Missing: failed allocations of slots and throwing constructors (the theorems below), insertions that exceed the displacement
limit. -/
theorem C87_failure_partial (hE : E.Lawful) {t t' : Map K V} (hR : Reach E sec t) {mem : Mem} (hmem : mem ≠ .noSlots) :
    (∀ (update : Bool) (k : K) (v : V), TagOk E sec t k → Spread E 129 (cap t) ((k, v) :: entries t) →
      insert E sec update mem true k v t = .throw t' → Reach E sec t' ∧ (entries t').Perm (entries t)) ∧
    (∀ (ro : Bool) (n : Nat), rehash E sec mem ro n t = .throw t' → t' = t) := by
  constructor
  · intro update k v hk hS hi
    have := insert_ok hE hR (List.Perm.refl _) update hmem k v hk (hS.mono (by omega))
    rw [hi] at this
    exact ⟨this.2 hS, this.1⟩
  · intro ro n hr
    exact rehash_throw hmem hr

/-- C87, the violation: a growth that fails to allocate the new slots throws and loses all elements: `size()` stays, no key is found. -/
theorem C87_failed_growth_loses_all {t : Map K V} (hR : Reach E sec t) (hc : 8 ≤ cap t) (hm : 2 * cap t ≤ memLimit) :
    ∃ t', grow E sec .noSlots t = .throw t' ∧ t'.size = t.size ∧ ∀ k, contains E sec t' k = .ok false := by
  have hle := hR.cap_le
  obtain ⟨j, h1, h2, h3⟩ := hR.pow
  have hW : cap t * 2 % W = 2 ^ (j + 1) := by
    rw [Nat.mod_eq_of_lt (by unfold W; omega), h3, Nat.pow_succ]
  have hcalc : calcCapacity (2 ^ (j + 1)) = .ok (2 ^ (j + 1)) := by
    rw [calcCapacity_eq]; exact Robin.calcCapacity_pow (by omega)
  have hp : (2 : Nat) ^ (j + 1) = 2 * cap t := by rw [h3, Nat.pow_succ]; omega
  refine ⟨{ t with ctrl := newCtrl (2 ^ (j + 1)), clen := ((2 ^ (j + 1) + 15) / 16 - 1 + 2) * 16, gmask := (2 ^ (j + 1) + 15) / 16 - 1 },
    ?_, rfl, fun k => ?_⟩
  · unfold grow rehashImpl
    rw [hW, hcalc]
    simp only [Bool.true_or, if_true]
    unfold createGroup
    simp only
    rw [if_neg (by rw [not_or]; exact ⟨by decide, by omega⟩), if_pos trivial]
  · have hh : home E t k < cap t := by rw [hR.home_eq]; exact hR.pos_lt k _
    have hct : newCtrl (2 ^ (j + 1)) (home E t k) = ⟨255, 0⟩ := by
      unfold newCtrl
      rw [if_neg (by rw [hp]; omega)]
    refine contains_free (show home E t k < ((2 ^ (j + 1) + 15) / 16 - 1 + 2) * 16 by rw [hp]; omega) ?_
    show (newCtrl (2 ^ (j + 1)) (home E t k)).dist = 255
    rw [hct]

/-- C87, the violation: an element whose constructor throws stays in the control words.  A lookup of its key is then undefined. -/
theorem C87_throwing_constructor {t : Map K V} (hR : Reach E sec t) (update : Bool) (mem : Mem) (k : K) (v : V)
    (hroom : t.size < t.thr) (hfree : (t.ctrl (E.h k % cap t)).dist = 255) :
    ∃ t', insert E sec update mem false k v t = .throw t' ∧ t'.size = t.size ∧ contains E sec t' k = .ub := by
  have hge := hR.cap_ge
  have hhome : home E t k = E.h k % cap t := by unfold home; rw [hR.and_mask]
  have hlt : E.h k % cap t < cap t := Nat.mod_lt _ (by omega)
  have hclen := hR.clen_eq
  have hps : passes t (E.h k % cap t) 0 = false := by
    unfold passes; rw [hfree]; rfl
  have hpr : prepare E sec mem k 64 t = .ok t (E.h k % cap t, some 0) := by
    unfold prepare unroll
    rw [hhome, if_pos (by omega), if_neg (by rw [hps]; decide)]
    simp only [lift]
    rw [if_neg (by omega)]
  refine ⟨{ setUsed t (E.h k % cap t) ⟨0, tagOf E sec k⟩ with slot := upd t.slot (E.h k % cap t) none }, ?_, rfl, ?_⟩
  · unfold insert emplace
    rw [hpr]
    simp only [Out.bind_ok]
    unfold makeRoom
    rw [if_pos hfree]
    rfl
  · have hct : (setUsed t (E.h k % cap t) ⟨0, tagOf E sec k⟩).ctrl (E.h k % cap t) = ⟨0, tagOf E sec k⟩ := by
      unfold setUsed
      simp only
      split
      · rw [upd_other _ _ (by omega), upd_self]
      · rw [upd_self]
    refine contains_hole (t := { setUsed t (E.h k % cap t) ⟨0, tagOf E sec k⟩ with slot := upd t.slot (E.h k % cap t) none })
      (show home E t k < t.clen by omega) ?_ ?_
    · show (setUsed t (E.h k % cap t) ⟨0, tagOf E sec k⟩).ctrl (home E t k) = _
      rw [hhome, hct]
    · show upd t.slot (E.h k % cap t) none (home E t k) = none
      rw [hhome, upd_self]

/-! ### C88: max_load_factor -/

/-- The state between the two steps of `max_load_factor`. -/
theorem Reach.setLoad {t : Map K V} (h : Reach E sec t) {m r : Nat} (hm : m < 65536) (hr : 81920 ≤ r ∧ r ≤ 327680) :
    Reach E sec { t with mlf := m, rev := r } :=
  ⟨⟨⟨⟨⟨⟨h.pow, h.gmask, h.clen, h.bound, h.order, h.mirror, h.tail⟩, h.cell⟩, h.size, h.room⟩, h.distinct⟩, h.thr, hm⟩, hr.1, hr.2⟩

/-- C88, the violation.  `max_load_factor(x)` on a map whose size does not exceed the old threshold changes nothing but the number that is
reported: the next insertion does not make the table grow even if the load then exceeds `x`. -/
theorem C88_load_exceeded (hE : E.Lawful) {t : Map K V} (hR : Reach E sec t) {m r : Nat} (hm : m < 65536) (hr : 81920 ≤ r ∧ r ≤ 327680)
    (mem : Mem) (k : K) (v : V) (hk : TagOk E sec t k) (hn : contains E sec t k = .ok false) (hroom : t.size < t.thr)
    (hS : Spread E 129 (cap t) ((k, v) :: entries t)) (hx : cap t * m < (t.size + 1) * 65536) :
    ∃ t1 t2 i, setMlf E sec mem m r t = .ok t1 () ∧ insert E sec false mem true k v t1 = .ok t2 (i, true) ∧ t2.mlf = m ∧
      t2.size = t.size + 1 ∧ cap t2 = cap t ∧ cap t2 * t2.mlf < t2.size * 65536 := by
  have hset : setMlf E sec mem m r t = .ok { t with mlf := m, rev := r } () := by
    unfold setMlf
    simp only
    rw [if_neg (by omega)]
  have hR1 : Reach E sec { t with mlf := m, rev := r } := hR.setLoad hm hr
  obtain ⟨t2, i, h1, h2, h3, _, h5, _, h7, _⟩ := insert_stays hE hR1 false mem v hk (absent_of hE hR.toCore hk hn) hroom hS
  have hs : t2.size = t.size + 1 := by
    rw [h2.size, h3.length_eq, List.length_cons]
    show (entries t).length + 1 = _
    rw [hR.size]
  have h5' : cap t2 = cap t := h5
  have h7' : t2.mlf = m := h7
  refine ⟨_, t2, i, hset, h1, h7', hs, h5', ?_⟩
  rw [h5', h7', hs]
  exact hx

/-- What `rehashImpl_spec` says about a state between calls. -/
theorem rehash_moves (hE : E.Lawful) {t : Map K V} (hR : Reach E sec t) {mem : Mem} (hmem : mem ≠ .noSlots) {n : Nat}
    (hs : RehashOk E sec true false mem n t (rehashImpl E sec true false mem n t)) (hub : calcCapacity n ≠ .ub) :
    (∃ t', rehashImpl E sec true false mem n t = .ok t' () ∧ Reach E sec t' ∧ (entries t').Perm (entries t) ∧ t'.mlf = t.mlf ∧
      (t'.thr = cap t' * t.mlf % W / 65536 ∨ t' = t) ∧ ∃ c, calcCapacity n = .ok c ∧ cap t' = c) ∨
    rehashImpl E sec true false mem n t = .throw t := by
  generalize rehashImpl E sec true false mem n t = o at hs
  match o, hs with
  | .ub, hs => exact absurd hs hub
  | .throw t', ⟨_, hs⟩ =>
    rcases hs with rfl | hs
    · exact Or.inr rfl
    · exact absurd hs hmem
  | .ok t' (), ⟨c, hc, hs⟩ =>
    left
    rcases hs with ⟨_, hM⟩ | ⟨rfl, _, hs⟩
    · refine ⟨t', rfl, (hM.live hE hR.distinct hR.mlf).reach hR hM.rev, hM.perm, hM.mlf, Or.inl ?_, c, hc, hM.cap⟩
      rw [hM.cap]; exact hM.thr
    · exact ⟨t', rfl, hR, List.Perm.refl _, rfl, Or.inr rfl, c, hc, (hs rfl).symm⟩

/-- C88 (partial).  `max_load_factor(x)` keeps the elements, and the map goes on working.  Missing: the effect on the load before the next
rehash (`C88_load_exceeded`). -/
theorem C88_max_load_partial (hE : E.Lawful) {t : Map K V} (hR : Reach E sec t) {mem : Mem} (hmem : mem ≠ .noSlots) {m r : Nat} (hm : m < 65536)
    (hr : 81920 ≤ r ∧ r ≤ 327680) (hfit : ∀ c, calcCapacity (max (t.size * r % W / 65536) t.size) = .ok c → Fits E c (entries t)) :
    ((∃ t', setMlf E sec mem m r t = .ok t' () ∧ t'.mlf = m ∧ Reach E sec t' ∧ (entries t').Perm (entries t)) ∨
      (∃ t', setMlf E sec mem m r t = .throw t' ∧ Reach E sec t' ∧ (entries t').Perm (entries t))) := by
  have hR1 : Reach E sec { t with mlf := m, rev := r } := hR.setLoad hm hr
  unfold setMlf
  simp only
  split
  · have hs := rehashImpl_spec (E := E) (sec := sec) hR1.toTab.weak true false mem
      (max (minRequire { t with mlf := m, rev := r } t.size) t.size) hfit
    rw [show rehash E sec mem false t.size { t with mlf := m, rev := r } = rehashImpl E sec true false mem
      (max (minRequire { t with mlf := m, rev := r } t.size) t.size) { t with mlf := m, rev := r } from rfl]
    have hub : calcCapacity (max (minRequire { t with mlf := m, rev := r } t.size) t.size) ≠ .ub := by
      intro h
      rw [calcCapacity_eq] at h
      have h1 := Robin.calcCapacity_ub h
      have h2 := minRequire_le { t with mlf := m, rev := r } t.size
      have h3 := hR.size_le
      omega
    have hok := rehash_moves hE hR1 hmem hs hub
    rcases hok with ⟨t', h1, h2, h3, h4, _⟩ | h1
    · exact Or.inl ⟨t', h1, h4, h2, h3⟩
    · exact Or.inr ⟨_, h1, hR1, List.Perm.refl _⟩
  · exact Or.inl ⟨_, rfl, rfl, hR1, List.Perm.refl _⟩

/-! ### C89: rehash, reserve, shrink_to_fit -/

/-- C89 (partial).  `rehash(n)`, `reserve(n)` and `shrink_to_fit()` to a capacity into which the elements fit either return, with the same
elements and this capacity, or throw and do nothing.  Missing: failed allocations of slots (C87), elements that do not fit, and requests
so large that their product with the reciprocal of the load factor wraps (Rob16Bugs.lean). -/
theorem C89_rehash_partial (hE : E.Lawful) {t : Map K V} (hR : Reach E sec t) {mem : Mem} (hmem : mem ≠ .noSlots) {n : Nat} (hn : n ≤ 2 ^ 63)
    (hfit : ∀ c, calcCapacity n = .ok c → Fits E c (entries t)) :
    (∃ t' c, rehashImpl E sec true false mem n t = .ok t' () ∧ Reach E sec t' ∧ (entries t').Perm (entries t) ∧ calcCapacity n = .ok c ∧
      cap t' = c ∧ ∀ k, TagOk E sec t k → TagOk E sec t' k → lookup E sec t' k = lookup E sec t k) ∨
    rehashImpl E sec true false mem n t = .throw t := by
  have hub : calcCapacity n ≠ .ub := by
    intro h
    rw [calcCapacity_eq] at h
    have := Robin.calcCapacity_ub h
    omega
  rcases rehash_moves hE hR hmem (rehashImpl_spec (E := E) (sec := sec) hR.toTab.weak true false mem n hfit) hub with
    ⟨t', h1, h2, h3, _, _, c, h5, h6⟩ | h1
  · refine Or.inl ⟨t', c, h1, h2, h3, h5, h6, fun k hk hk' => ?_⟩
    rw [lookup_eq hE hR.toInv hk, lookup_eq hE h2.toInv hk', Spec.get_perm hE h3 h2.distinct]
  · exact Or.inr h1

/-- New keys, inserted one after the other into a table with room for all of them, do not change its capacity. -/
theorem insertAll_stays (hE : E.Lawful) (mem : Mem) : ∀ (l : List (K × V)) (t : Map K V), Reach E sec t → (∀ e ∈ l, TagOk E sec t e.1) →
    Distinct E.eq (l ++ entries t) → t.size + l.length ≤ t.thr → Spread E 129 (cap t) (l ++ entries t) →
    ∃ t', insertAll E sec mem l t = .ok t' () ∧ Reach E sec t' ∧ (entries t').Perm (l ++ entries t) ∧ cap t' = cap t := by
  intro l
  induction l with
  | nil => intro t hR _ _ _ _; exact ⟨t, rfl, hR, List.Perm.refl _, rfl⟩
  | cons e l ih =>
    intro t hR hk hd hsz hS
    rw [List.length_cons] at hsz
    rw [List.cons_append] at hd hS
    have ha : Absent E t e.1 := fun x hx =>
      eq_false_symm hE ((List.pairwise_cons.mp hd).1 x (List.mem_append_right _ hx))
    obtain ⟨t1, i, h1, h2, h3, _, h4, h5, _⟩ := insert_stays hE hR false mem e.2 (hk e List.mem_cons_self) ha (by omega)
      (hS.sub ((List.sublist_append_right l _).cons_cons e).subperm)
    have hs1 : t1.size = t.size + 1 := by rw [h2.size, h3.length_eq, List.length_cons, hR.size]
    have hp1 : (l ++ entries t1).Perm (e :: (l ++ entries t)) := (h3.append_left l).trans List.perm_middle
    obtain ⟨t', g1, g2, g3, g4⟩ := ih t1 h2 (fun x hx => (hk x (List.mem_cons_of_mem _ hx)).mono (by omega)) (hd.perm hE hp1.symm) (by omega)
      (by rw [h4]; exact hS.perm hp1)
    refine ⟨t', ?_, g2, g3.trans hp1, by omega⟩
    unfold insertAll
    rw [h1, Out.bind_ok]
    exact g1

/-- C89, the purpose of `reserve(n)`: after it the map can be filled up to `n` elements without another change of the capacity (default load
factor, elements spread well enough for the displacement limit). -/
theorem C89_reserve (hE : E.Lawful) {t t' : Map K V} (hR : Reach E sec t) (hh : Half t) {mem : Mem} (hmem : mem ≠ .noSlots) {n : Nat}
    (hsz : t.size ≤ n) (hn : n < 2 ^ 44) (hn0 : n ≠ 0) (hS : ∀ c, 2 * n ≤ c → Spread E 254 c (entries t))
    (hr : rehash E sec mem false n t = .ok t' ()) :
    2 * n ≤ cap t' ∧ ∀ (mem' : Mem) (l : List (K × V)), (∀ e ∈ l, TagOk E sec t' e.1) → Distinct E.eq (l ++ entries t') →
      t'.size + l.length ≤ n → Spread E 129 (cap t') (l ++ entries t') →
      ∃ t2, insertAll E sec mem' l t' = .ok t2 () ∧ Reach E sec t2 ∧ (entries t2).Perm (l ++ entries t') ∧ cap t2 = cap t' := by
  have hmin : max (minRequire t n) t.size = 2 * n := by rw [hh.minRequire (by omega)]; omega
  have hr' : rehashImpl E sec true false mem (2 * n) t = .ok t' () := by
    rw [← hmin]; exact hr
  have hfit : ∀ c, calcCapacity (2 * n) = .ok c → Fits E c (entries t) := fun c hc =>
    ⟨by rw [← hR.size]; have := (calc_ge hc).1; omega, hS c (calc_ge hc).1⟩
  have hs := rehashImpl_spec (E := E) (sec := sec) hR.toTab.weak true false mem (2 * n) hfit
  have hub : calcCapacity (2 * n) ≠ .ub := by
    intro h
    rw [calcCapacity_eq] at h
    have := Robin.calcCapacity_ub h
    omega
  rcases rehash_moves hE hR hmem hs hub with ⟨t1, h1, h2, h3, _, h4, c, h5, h6⟩ | h1
  · rw [hr'] at h1
    cases h1
    have hge := (calc_ge h5).1
    refine ⟨by omega, fun mem' l hk hd hl hS' => ?_⟩
    have hthr : t'.thr = cap t' / 2 := by
      rcases h4 with h4 | h4
      · rw [h4, hh.mlf, half_thr h2.cap_le]
      · rw [h4]; exact hh.thr
    exact insertAll_stays hE mem' l t' h2 hk hd (by omega) hS'
  · rw [hr'] at h1; cases h1

/-! ### C90: ranges -/

theorem insert_sub (l : List (K × V)) (m : Spec.Map K V) : (l.foldl (fun m e => Spec.insert E.eq m e.1 e.2) m).Subperm (l ++ m) := by
  induction l generalizing m with
  | nil => exact List.Subperm.refl _
  | cons e l ih =>
    refine (ih _).trans ?_
    have h1 : (Spec.insert E.eq m e.1 e.2).Subperm (e :: m) := by
      unfold Spec.insert
      split
      · exact (List.sublist_cons_self _ _).subperm
      · exact List.Subperm.refl _
    exact ((List.subperm_append_left l).mpr h1).trans List.perm_middle.subperm

theorem insertAll_spec (hE : E.Lawful) {mem : Mem} (hmem : mem ≠ .noSlots) : ∀ (l : List (K × V)) (t : Map K V) (m : Spec.Map K V),
    Reach E sec t → (entries t).Perm m → (∀ e ∈ l, TagOk E sec t e.1) → Spread E 129 (cap t) (l ++ m) →
    match insertAll E sec mem l t with
    | .ok t' _ => Reach E sec t' ∧ (entries t').Perm (l.foldl (fun m e => Spec.insert E.eq m e.1 e.2) m)
    | .throw t' => Reach E sec t' ∧ ∃ a b, l = a ++ b ∧ (entries t').Perm (a.foldl (fun m e => Spec.insert E.eq m e.1 e.2) m)
    | _ => False := by
  intro l
  induction l with
  | nil => intro t m h1 h2 _ _; exact ⟨h1, h2⟩
  | cons e l ih =>
    intro t m h1 h2 hk hS
    rw [List.cons_append] at hS
    have hSe : Spread E 129 (cap t) (e :: m) := hS.sub ((List.sublist_append_right l _).cons_cons e).subperm
    have hS2 := hSe.mono (B' := 254) (by omega)
    have hke := hk e List.mem_cons_self
    have hp := insert_ok hE h1 h2 false hmem e.1 e.2 hke hS2
    obtain ⟨j, j1, j2, j3⟩ := h1.pow
    have hes := emplace_spec hE false mem true e.1 e.2 64 j t h1.toLive hke (hS2.perm (h2.cons e)) j3 (by omega)
    unfold insertAll
    unfold insert at hp ⊢
    generalize emplace E sec false mem true e.1 e.2 64 t = o at hp hes
    match o, hp, hes with
    | .throw t', ⟨g1, g2⟩, _ => exact ⟨g2 hSe, [], e :: l, rfl, g1⟩
    | .ok t' (i, b), ⟨g1, _, _, _, _, g2⟩, hes =>
      simp only [Out.bind_ok]
      have hw : Wider E t t' := by
        rcases hes with ⟨_, _, _, _, _, _, _, hw⟩ | ⟨_, _, _, _, _, _, hw⟩
        · exact hw
        · rw [hw]; exact Wider.refl t
      have g2' : (entries t').Perm (Spec.insert E.eq m e.1 e.2) := g2
      have hsub : (l ++ Spec.insert E.eq m e.1 e.2).Subperm (e :: (l ++ m)) :=
        ((List.subperm_append_left l).mpr (insert_sub [e] m)).trans List.perm_middle.subperm
      have hi := ih t' _ g1 g2' (fun x hx => (hk x (List.mem_cons_of_mem _ hx)).mono hw.le) ((hw.spread _ _ hS).sub hsub)
      generalize insertAll E sec mem l t' = o2 at hi
      match o2, hi with
      | .ok t2 _, hi => exact hi
      | .throw t2, ⟨q1, a, b, q2, q3⟩ => exact ⟨q1, e :: a, b, by rw [q2]; rfl, q3⟩

/-- C90 (partial): inserting a range is inserting its elements one by one, so of equal keys the first one wins; if an exception stops it,
the elements before that point are there.  Missing: as in C80. -/
theorem C90_insert_range_partial (hE : E.Lawful) {mem : Mem} (hmem : mem ≠ .noSlots) (l : List (K × V)) {t : Map K V} (hR : Reach E sec t)
    (hk : ∀ e ∈ l, TagOk E sec t e.1) (hS : Spread E 129 (cap t) (l ++ entries t)) :
    (∃ t', insertAll E sec mem l t = .ok t' () ∧ Reach E sec t' ∧
      (entries t').Perm (l.foldl (fun m e => Spec.insert E.eq m e.1 e.2) (entries t))) ∨
    (∃ t' a b, insertAll E sec mem l t = .throw t' ∧ Reach E sec t' ∧ l = a ++ b ∧
      (entries t').Perm (a.foldl (fun m e => Spec.insert E.eq m e.1 e.2) (entries t))) := by
  have h := insertAll_spec hE hmem l t (entries t) hR (List.Perm.refl _) hk hS
  generalize insertAll E sec mem l t = o at h
  match o, h with
  | .ok t' (), h => exact Or.inl ⟨t', rfl, h.1, h.2⟩
  | .throw t', ⟨h1, a, b, h2, h3⟩ => exact Or.inr ⟨t', a, b, rfl, h1, h2, h3⟩

/-- C90 (partial), the constructor from a range or an initializer list, for ranges of at most 129 elements whose keys have a control hash
other than 0 or that are longer than four.  Missing: longer ranges whose elements are not spread. -/
theorem C90_from_range_partial (hE : E.Lawful) {mem : Mem} (hmem : mem ≠ .noSlots) (n : Nat) (l : List (K × V)) (hl : l.length ≤ 129)
    (hk : (∀ e ∈ l, tagOf E sec e.1 ≠ 0) ∨ 5 ≤ l.length) (hn : n < 2 ^ 44) {t : Map K V} (hc : ofList E sec mem n l = .ok t ()) :
    Reach E sec t ∧ (entries t).Perm (l.foldl (fun m e => Spec.insert E.eq m e.1 e.2) []) := by
  unfold ofList at hc
  have hmk := fun (t1 : Map K V) =>
    make_ok (E := E) (sec := sec) (mem := mem) (n := minRequire (blank : Map K V) (max n l.length)) (t := t1)
  have hmin : minRequire (blank : Map K V) (max n l.length) = 2 * max n l.length := by
    show max n l.length * 131072 % W / 65536 = _
    rw [Nat.mod_eq_of_lt (by unfold W; omega)]
    omega
  rw [hmin] at hc hmk
  generalize make mem (2 * max n l.length) = o at hc hmk
  match o, hc with
  | .ok t1 (), hc =>
    obtain ⟨h1, h2, j, _, _, h3, h4, _⟩ := hmk t1 rfl
    simp only [Out.bind_ok] at hc
    have hcap : cap t1 = 2 ^ j := by rw [h3]; exact cap_fresh (Nat.two_pow_pos _)
    have htag : ∀ e ∈ l, TagOk E sec t1 e.1 := by
      intro e he
      rcases hk with hk | hk
      · exact Or.inr (hk e he)
      · left
        by_contra hcon
        have hj3 : j ≤ 3 := by
          by_contra hj
          have := Robin.pow_two_le (a := 4) (b := j) (by omega)
          omega
        have := Robin.pow_two_le (a := j) (b := 3) hj3
        omega
    have h := insertAll_spec hE hmem l t1 [] h1 (by rw [h2]) htag (spread_of_length (by rw [List.append_nil]; exact hl))
    rw [hc] at h
    exact h

/-! ### C91: swap and move -/

/-- C91 (partial): `swap` exchanges the two maps, the move constructor hands the elements over.  Missing: the moved-from map
(`C91_moved_from_undefined`). -/
theorem C91_swap_move_partial (hE : E.Lawful) {a b : Map K V} (hA : Reach E sec a) (hB : Reach E sec b) {k : K} (hka : TagOk E sec a k)
    (hkb : TagOk E sec b k) :
    lookup E sec (swapMaps a b).1 k = .ok (Spec.get E.eq (entries b) k) ∧ lookup E sec (swapMaps a b).2 k = .ok (Spec.get E.eq (entries a) k) ∧
    (swapMaps a b).1.size = b.size ∧ (swapMaps a b).2.size = a.size ∧ Reach E sec (moveOf a).1 ∧
    lookup E sec (moveOf a).1 k = .ok (Spec.get E.eq (entries a) k) :=
  ⟨lookup_eq hE hB.toInv hkb, lookup_eq hE hA.toInv hka, rfl, rfl, hA, lookup_eq hE hA.toInv hka⟩

/-- C91, the violation: every use of a moved-from map but asking for its size is undefined: lookups, insertions, iteration, even `clear()`
followed by an insertion. -/
theorem C91_moved_from_undefined (a : Map K V) (update triv : Bool) (mem : Mem) (ctor : Bool) (k : K) (v : V) :
    contains E sec (moveOf a).2 k = .ub ∧ insert E sec update mem ctor k v (moveOf a).2 = .ub ∧ walk (moveOf a).2 = .ub ∧
    (moveOf a).2.size = 0 ∧
    ∃ t', clear triv false (moveOf a).2 = .ok t' () ∧ insert E sec update mem ctor k v t' = .ub := by
  have hblank : ∀ t : Map K V, t.clen = 0 → contains E sec t k = .ub ∧ insert E sec update mem ctor k v t = .ub := by
    intro t ht
    constructor
    · unfold contains findIdx unroll
      rw [if_neg (by omega)]
      rfl
    · unfold insert emplace prepare unroll
      rw [if_neg (by omega)]
      rfl
  obtain ⟨h1, h2⟩ := hblank (moveOf a).2 rfl
  refine ⟨h1, h2, rfl, rfl, ?_⟩
  have hd : destroySlots triv (moveOf a).2 = .ok { (moveOf a).2 with size := 0 } := by
    unfold destroySlots
    rw [if_pos (by show (triv || true) = true; simp)]
  refine ⟨{ ({ (moveOf a).2 with size := 0 } : Map K V) with
    ctrl := fun i => if i < ((moveOf a).2.gmask + 1) * 16 then ⟨bEmpty, 0⟩ else (moveOf a).2.ctrl i }, ?_, (hblank _ rfl).2⟩
  unfold clear
  rw [if_neg (by rw [Bool.and_false]; exact Bool.false_ne_true), hd]
  rfl

/-! ### C92: iteration -/

/-- C92: a range-for loop visits every element exactly once, from every reachable state: the keys it yields are pairwise different, their
number is `size()`, and a key is among them exactly if `find` finds it, with the same value. -/
theorem C92_iteration (hE : E.Lawful) {t : Map K V} (hR : Reach E sec t) :
    ∃ l, walk t = .ok l ∧ Distinct E.eq l ∧ l.length = t.size ∧ (∀ e ∈ l, TagOk E sec t e.1 → lookup E sec t e.1 = .ok (some e)) ∧
      ∀ k e, TagOk E sec t k → lookup E sec t k = .ok (some e) → e ∈ l ∧ E.eq e.1 k = true := by
  refine ⟨entries t, walk_spec hR.toTab, hR.distinct, hR.size.symm, ?_, ?_⟩
  · intro e he hk
    rw [lookup_eq hE hR.toInv hk, (Spec.get_some_iff hE hR.distinct).mpr ⟨he, hE.refl _⟩]
  · intro k e hk hl
    rw [lookup_eq hE hR.toInv hk, Res.ok.injEq, Spec.get_some_iff hE hR.distinct] at hl
    exact ⟨hl.1, hE.symm _ _ hl.2⟩

/-! ### C85: a history -/

/-- C85, the violation, through the interface: a key with some hash, 129 keys with the next hash, inserted into a map made for 512 slots;
the insertion of another key with the first hash then exhausts the memory. -/
theorem C85_history (hE : E.Lawful) {a : Nat} {l : List (K × V)} (hlen : l.length = 129) (hl : ∀ e ∈ l, E.h e.1 = a + 1) {e0 : K × V} {k : K}
    (v : V) (h0 : E.h e0.1 = a) (hk : E.h k = a) (hd : Distinct E.eq ((k, v) :: e0 :: l)) :
    ∃ t0 t1 t2 : Map K V, make .ok 512 = .ok t0 () ∧ insertAll E sec .ok (e0 :: l) t0 = .ok t1 () ∧ t1.size = 130 ∧ cap t1 = 512 ∧
      insert E sec false .ok true k v t1 = .throw t2 ∧ memLimit < 2 * cap t2 := by
  have hmk : (make .ok 512 : Out (Map K V) Unit) = .ok (freshMap 512 32768 131072) () := rfl
  obtain ⟨r0, n0, _⟩ := make_ok (E := E) (sec := sec) hmk
  have hc0 : cap (freshMap 512 32768 131072 : Map K V) = 512 := rfl
  have ht0 : (freshMap 512 32768 131072 : Map K V).thr = 256 := rfl
  have hs0 : (freshMap 512 32768 131072 : Map K V).size = 0 := rfl
  obtain ⟨hd1, hd2⟩ := List.pairwise_cons.mp hd
  have hS : Spread E 129 512 (e0 :: l) := by
    intro b n hb hn
    by_cases hn0 : 1 ≤ n
    · refine Nat.le_trans List.countP_le_length ?_
      rw [List.length_cons]; omega
    · have hn0 : n = 0 := by omega
      subst hn0
      rw [List.countP_cons]
      by_cases hz : inWindow 512 b 0 (E.h e0.1) = true
      · have : l.countP (fun e => inWindow 512 b 0 (E.h e.1)) = 0 := by
          rw [List.countP_eq_zero]
          intro e he hw
          rw [hl e he] at hw
          rw [h0] at hz
          unfold inWindow at hz hw
          simp only [decide_eq_true_eq] at hz hw
          omega
        rw [this]
        split <;> omega
      · rw [if_neg hz]
        refine Nat.le_trans List.countP_le_length ?_
        omega
  obtain ⟨t1, g1, g2, g3, g4⟩ := insertAll_stays hE .ok (e0 :: l) _ r0 (fun e _ => Or.inl (by omega)) (by rw [n0, List.append_nil]; exact hd2)
    (by rw [List.length_cons]; omega) (by rw [n0, List.append_nil]; exact hS)
  rw [n0, List.append_nil] at g3
  have hsz : t1.size = 130 := by rw [g2.size, g3.length_eq, List.length_cons, hlen]
  have htag : TagOk E sec t1 k := Or.inl (by omega)
  have hn : contains E sec t1 k = .ok false := by
    unfold contains
    rcases findIdx_spec g2.toCore hE htag with ⟨x, _, h2, h3⟩ | ⟨h1, _⟩
    · exact absurd h3 ((absent_iff g2.toBase).mp (fun y hy => eq_false_symm hE (hd1 y (g3.mem_iff.mp hy))) x h2)
    · rw [h1]; rfl
  have hcr : Crowd E (E.h k) (entries t1) := by
    refine Crowd.perm (l := e0 :: l) ⟨⟨e0, List.mem_cons_self, by rw [h0, hk]⟩, ?_⟩ g3
    rw [List.countP_cons]
    have : l.countP (fun e => E.h e.1 == E.h k + 1) = l.length := by
      rw [List.countP_eq_length]
      intro e he
      rw [hl e he, hk]
      exact beq_self_eq_true _
    omega
  obtain ⟨t2, m1, m2, _⟩ := C85_insert_exhausts hE g2 false k v htag hn (by omega) hcr
  exact ⟨_, t1, t2, hmk, g1, hsz, by omega, m1, m2⟩

end Verif.Rob16
