/-
Properties C85 and C86 of `robin16_hash_map`: what the limits on displacements and distances do.
-/
import Verif.Rob16Props

namespace Verif.Rob16
open Spec (Distinct Call Ans)

variable {K V : Type} {E : Env K} {sec : Nat → Nat}

/-! ### Counting -/

/-- The elements whose distance from the position `far k` lies in a stretch of `n` are at most `n`. -/
theorem count_le {t : Map K V} (h : Tab E sec t) (k : K) (P : K × V → Bool) (lo n : Nat)
    (hP : ∀ i e, i < cap t → (t.ctrl i).dist ≠ 255 → t.slot i = some e → P e = true → lo ≤ far E t k i ∧ far E t k i < lo + n) :
    (entries t).countP P ≤ n := by
  have h1 : (entries t).countP P = ((List.range (cap t)).filter fun i => (cellAt t i).any P).length := by
    unfold entries
    rw [List.countP_filterMap, List.countP_eq_length_filter]
    congr 2
    funext i
    cases cellAt t i <;> rfl
  rw [h1]
  have hmem : ∀ i, i ∈ (List.range (cap t)).filter (fun i => (cellAt t i).any P) → i < cap t ∧ lo ≤ far E t k i ∧ far E t k i < lo + n := by
    intro i hi
    rw [List.mem_filter, List.mem_range] at hi
    obtain ⟨h2, h3⟩ := hi
    refine ⟨h2, ?_⟩
    rcases h.cellAt h2 with ⟨hu, e, he, hc⟩ | ⟨_, hc⟩
    · rw [hc] at h3
      exact hP i e h2 hu he h3
    · rw [hc] at h3; cases h3
  have hnd : (((List.range (cap t)).filter fun i => (cellAt t i).any P).map (far E t k)).Nodup := by
    refine List.Nodup.map_on ?_ (List.nodup_range.filter _)
    intro x hx y hy hxy
    rw [← h.pos_far (E := E) k (hmem x hx).1, ← h.pos_far (E := E) k (hmem y hy).1, hxy]
  have hsub : (((List.range (cap t)).filter fun i => (cellAt t i).any P).map (far E t k)) ⊆ List.range' lo n := by
    intro d hd
    rw [List.mem_map] at hd
    obtain ⟨i, hi, rfl⟩ := hd
    rw [List.mem_range'_1]
    exact (hmem i hi).2
  have := (hnd.subperm hsub).length_le
  rwa [List.length_map, List.length_range'] at this

/-! ### C85: the displacement limit -/

/-- One element has hash `a`, at least 129 have hash `a + 1`. -/
def Crowd (E : Env K) (a : Nat) (l : List (K × V)) : Prop :=
  (∃ e ∈ l, E.h e.1 = a) ∧ 129 ≤ l.countP fun e => E.h e.1 == a + 1

theorem Crowd.perm {a : Nat} {l l' : List (K × V)} (h : Crowd E a l) (hp : l'.Perm l) : Crowd E a l' := by
  obtain ⟨⟨e, he, hh⟩, h2⟩ := h
  exact ⟨⟨e, hp.mem_iff.mpr he, hh⟩, by rw [hp.countP_eq]; exact h2⟩

theorem setUsed_other {t : Map K V} {i x : Nat} (c : Ctrl) (hx : x < cap t) (hne : x ≠ i) : (setUsed t i c).ctrl x = t.ctrl x := by
  unfold setUsed
  simp only
  split
  · rw [upd_other _ _ (by omega), upd_other _ _ hne]
  · rw [upd_other _ _ hne]

/-- Along elements that are as far from home as the carried one, nothing changes until the limit is exceeded. -/
theorem placeLoop_limit {t : Map K V} (h : Base t) {a : Nat} {k : K} {m d0 tg : Nat} {c : Ctrl} {e : K × V}
    (hrun : ∀ i, 1 ≤ i → i ≤ 128 → (t.ctrl (pos E t k (m + i))).dist = d0 + i) (hd : d0 + 128 < 254) :
    ∀ (f i : Nat), 1 ≤ i → i ≤ 128 → 129 - i ≤ f → pos E t k (m + i) ≠ a →
      ∃ q, placeLoop false a f (pos E t k (m + i)) ⟨d0 + i, tg⟩ e (setUsed t a c) = .ok (q, true) := by
  intro f
  induction f with
  | zero => intro i h1 h2 h3; omega
  | succ f ih =>
    intro i h1 h2 h3 hne
    unfold placeLoop
    have hi := hrun i h1 h2
    rw [← setUsed_other c (h.pos_lt k _) hne] at hi
    rw [if_neg (by rw [hi]; unfold bEmpty; omega)]
    have hsw : swapStep (setUsed t a c) (pos E t k (m + i)) ⟨d0 + i, tg⟩ e = some (setUsed t a c, ⟨d0 + i, tg⟩, e) := by
      unfold swapStep
      rw [if_neg (by rw [hi]; simp)]
    rw [hsw]
    simp only
    rw [show next (setUsed t a c) (pos E t k (m + i)) = next t (pos E t k (m + i)) from rfl]
    split
    · exact ⟨_, rfl⟩
    · rename_i hn
      rw [not_or] at hn
      have hlim : ¬ distLimit < (d0 + i + 1) % 256 := fun hc => hn.1 ⟨trivial, hc⟩
      have hn2 := hn.2
      rw [Nat.mod_eq_of_lt (by omega)] at hlim ⊢
      unfold distLimit at hlim
      rw [h.next_eq, Base.nxt_pos] at hn2 ⊢
      exact ih (i + 1) (by omega) (by omega) (by omega) hn2

/-- Making room for a key among a crowd exceeds the limit, in every table. -/
theorem makeRoom_limit {t : Map K V} (h : Tab E sec t) {k : K} {m : Nat} (hm : Stop E t k m)
    (hc : Crowd E (E.h k) (entries t)) : ∃ q, makeRoom false (pos E t k m) ⟨m, tagOf E sec k⟩ t = .ok (q, true) := by
  have hge := h.cap_ge
  obtain ⟨⟨e0, he0, hh0⟩, hcnt⟩ := hc
  -- the element with the same hash is in front of the stop
  have hm1 : 1 ≤ m := by
    by_contra hcon
    have hm0 : m = 0 := by omega
    subst hm0
    obtain ⟨x, hx, hu, hs⟩ := (mem_entries h.toBase).mp he0
    obtain ⟨e, he, hd, _⟩ := h.cell x hx hu
    rw [hs] at he
    cases he
    have hfar : far E t e0.1 x = far E t k x := by unfold far; rw [hh0]
    have hp : Pass E t k (far E t k x) := by
      unfold Pass
      rw [h.pos_far k hx, ← hfar, ← hd]
      exact ⟨hu, Nat.le_refl _⟩
    exact hm.not (h.pass_back hp 0 (Nat.zero_le _))
  -- an element with the next hash is far behind it
  have hY : ∃ x, x < cap t ∧ (t.ctrl x).dist ≠ 255 ∧ ∃ e, t.slot x = some e ∧ E.h e.1 = E.h k + 1 ∧ m - 1 + 128 ≤ far E t e.1 x := by
    by_contra hcon
    obtain ⟨ek, hek, hhk⟩ : ∃ e ∈ entries t, E.h e.1 = E.h k + 1 := by
      by_contra hno
      have : (entries t).countP (fun e => E.h e.1 == E.h k + 1) = 0 := by
        rw [List.countP_eq_zero]
        intro e he hq
        exact hno ⟨e, he, by simpa using hq⟩
      omega
    have := count_le h ek.1 (fun e => E.h e.1 == E.h k + 1) (m - 1) 128 (by
      intro i e hi hu hs hq
      have hq : E.h e.1 = E.h k + 1 := by simpa using hq
      have hfe : far E t e.1 i = far E t ek.1 i := by unfold far; rw [hq, hhk]
      rw [← hfe]
      refine ⟨?_, ?_⟩
      · by_contra hlt
        -- it would stop the probe earlier
        obtain ⟨e', he', hd, _⟩ := h.cell i hi hu
        rw [hs] at he'
        cases he'
        have hpos : pos E t k (far E t e.1 i + 1) = i := by
          have := h.pos_far (E := E) e.1 hi
          unfold pos at this ⊢
          rw [hq] at this
          rw [show E.h k + (far E t e.1 i + 1) = E.h k + 1 + far E t e.1 i by omega]
          exact this
        have hp := hm.front (far E t e.1 i + 1) (by omega)
        unfold Pass at hp
        rw [hpos, hd] at hp
        omega
      · by_contra hlt
        exact hcon ⟨i, hi, hu, e, hs, hq, by omega⟩)
    omega
  obtain ⟨x, hx, hu, e, hs, hhe, hfar⟩ := hY
  obtain ⟨e', he', hd, _⟩ := h.cell x hx hu
  rw [hs] at he'
  cases he'
  have hpe : ∀ j, pos E t e.1 j = pos E t k (j + 1) := by
    intro j
    unfold pos
    rw [hhe]
    congr 1
    omega
  have hpass : ∀ j, j ≤ far E t e.1 x → (t.ctrl (pos E t k (j + 1))).dist ≠ 255 ∧ j ≤ (t.ctrl (pos E t k (j + 1))).dist := by
    intro j hj
    have hp : Pass E t e.1 (far E t e.1 x) := by
      unfold Pass
      rw [h.pos_far e.1 hx, ← hd]
      exact ⟨hu, Nat.le_refl _⟩
    have := h.pass_back hp j hj
    unfold Pass at this
    rwa [hpe] at this
  have hbnd := (h.pass_le (E := E) (k := e.1) (j := far E t e.1 x) (by
    unfold Pass
    rw [h.pos_far e.1 hx, ← hd]
    exact ⟨hu, Nat.le_refl _⟩))
  -- the distances from the stop on
  have hrun : ∀ i, i ≤ 128 → (t.ctrl (pos E t k (m + i))).dist = m - 1 + i := by
    intro i
    induction i with
    | zero =>
      intro _
      have h1 := hpass (m - 1) (by omega)
      rw [show m - 1 + 1 = m by omega] at h1
      have h2 := hm.not
      unfold Pass at h2
      rw [Nat.add_zero]
      omega
    | succ i ih =>
      intro hi
      have h1 := ih (by omega)
      have h2 := hpass (m + i) (by omega)
      have h3 := h.order (pos E t k (m + i)) (h.pos_lt k _)
      rw [Base.nxt_pos] at h3
      rw [show m + i + 1 = m + (i + 1) by omega] at h2 h3
      omega
  have hr0 := hrun 0 (by omega)
  rw [Nat.add_zero, Nat.add_zero] at hr0
  unfold makeRoom
  rw [if_neg (by rw [hr0]; unfold bEmpty; omega)]
  unfold insertToPlace
  have hpm := h.pos_lt (E := E) k m
  obtain ⟨et, het, _⟩ := h.cell (pos E t k m) hpm (by omega)
  rw [het]
  simp only
  rw [hr0, Nat.mod_eq_of_lt (by omega), h.next_eq, Base.nxt_pos]
  have hcap : 129 ≤ cap t := by
    have h1 := List.countP_le_length (p := fun e => E.h e.1 == E.h k + 1) (l := entries t)
    have h2 : (entries t).length ≤ cap t := by
      unfold entries
      exact length_filterMap_range_le _ fun i h1 h2 => by omega
    omega
  have hne : pos E t k (m + 1) ≠ pos E t k m := by
    unfold pos
    rw [← Nat.add_assoc]
    generalize E.h k + m = y
    intro hc
    have h1 := Nat.mod_lt y (show 0 < cap t by omega)
    rw [Nat.add_mod, Nat.mod_eq_of_lt (show 1 < cap t by omega)] at hc
    by_cases h2 : y % cap t + 1 < cap t
    · rw [Nat.mod_eq_of_lt h2] at hc; omega
    · rw [show y % cap t + 1 = cap t by omega, Nat.mod_self] at hc; omega
  exact placeLoop_limit h.toBase (fun i _ hi => hrun i hi) (by omega) (cap t) 1 (by omega) (by omega) (by omega) hne

/-- An insertion of an absent key among a crowd never succeeds: every table is found too crowded. -/
theorem emplace_limit (hE : E.Lawful) (update : Bool) (mem : Mem) (ctor : Bool) (k : K) (v : V) : ∀ (f j : Nat) (t : Map K V),
    Live E sec t → TagOk E sec t k → Spread E 254 (cap t) ((k, v) :: entries t) → Absent E t k → Crowd E (E.h k) (entries t) →
    cap t = 2 ^ j → ∀ t' r, emplace E sec update mem ctor k v f t ≠ .ok t' r := by
  intro f
  induction f with
  | zero => intro j t _ _ _ _ _ _ t' r h; cases h
  | succ f ih =>
    intro j t h hk hS ha hc hj t9 r9
    unfold emplace
    have hS0 : Spread E 254 (cap t) (entries t) := hS.sub (List.sublist_cons_self _ _).subperm
    have hj2 : 2 ≤ j := by
      by_contra hc
      have := h.cap_ge
      have := Robin.pow_two_le (a := j) (b := 1) (by omega)
      omega
    have hsp := prepare_spec hE mem k 64 j t h hk hS0 hj (by omega)
    generalize prepare E sec mem k 64 t = o at hsp
    match o, hsp with
    | .throw t', _ => intro h; cases h
    | .ok t' (i, none), ⟨_, g2, g3⟩ => exact absurd g3 ((absent_iff h.toBase).mp ha i g2)
    | .ok t' (i, some m), ⟨g1, g2, g3, g4, g5, g6, g7⟩ =>
      simp only [Out.bind_ok]
      have hS' : Spread E 254 (cap t') ((k, v) :: entries t') := (g7.spread _ _ hS).perm (g6.cons _)
      obtain ⟨q, b, h1, h2⟩ := makeRoom_spec (e := (k, v)) false g2.toTab g2.exists_empty g3 hS'
      obtain ⟨q', hq'⟩ := makeRoom_limit g2.toTab g3 (hc.perm g6)
      rw [h1] at hq'
      cases hq'
      rw [g4, h1]
      simp only [lift, if_true]
      have hwid : Wider E t q := g7.trans h2.same.wider
      obtain ⟨_, _, h4, h5⟩ := h2.full rfl
      have hpq : (entries q).Perm (entries t) := h5.trans g6
      obtain ⟨jq, _, _, hjq⟩ := h4.pow
      have hlenq : (entries q).length ≤ cap q := by
        rw [h5.length_eq, ← g2.size, h2.same.cap]; exact Nat.le_of_lt g2.room
      rcases grow_spec (E := E) (sec := sec) h4 hlenq ((hwid.spread _ _ hS0).perm hpq) mem hjq with ⟨t1, k1, k2, k3⟩ | ⟨t1, k1, k2, k3⟩
      · rw [k1]
        simp only [Out.bind_ok]
        have hw1 : Wider E t t1 := hwid.trans (k3.wider hjq)
        have hp1 : (entries t1).Perm (entries t) := k3.perm.trans hpq
        have hd1 : Distinct E.eq (entries q) := h.distinct.perm hE hpq.symm
        exact ih (jq + 1) t1 (k3.live hE hd1 (by rw [hwid.mlf]; exact h.mlf)) (hk.mono hw1.le)
          ((hw1.spread _ _ hS).perm (hp1.cons _)) (ha.perm hp1) (hc.perm hp1) k3.cap t9 r9
      · rw [k1]
        intro h; cases h

/-- C85, the violation.  One key with some hash and 129 keys with the next hash, in a map of at most 253 elements: the insertion of a new
key with the first hash doubles the table until the memory is exhausted and then fails, whatever the capacity.  The elements are kept.
The memory is exhausted by 131 elements. -/
theorem C85_insert_exhausts (hE : E.Lawful) {t : Map K V} (hR : Reach E sec t) (update : Bool) (k : K) (v : V) (hk : TagOk E sec t k)
    (hn : contains E sec t k = .ok false) (hsz : t.size ≤ 253) (hc : Crowd E (E.h k) (entries t)) :
    ∃ t', insert E sec update .ok true k v t = .throw t' ∧ memLimit < 2 * cap t' ∧ (entries t').Perm (entries t) := by
  have ha : Absent E t k := by
    unfold contains at hn
    rcases findIdx_spec hR.toCore hE hk with ⟨x, h1, h2, h3⟩ | ⟨_, h2⟩
    · rw [h1] at hn; cases hn
    · exact (absent_iff hR.toBase).mpr h2
  have hS : Spread E 254 (cap t) ((k, v) :: entries t) := spread_of_length (by
    rw [List.length_cons, ← hR.size]; omega)
  obtain ⟨j, h1, h2, h3⟩ := hR.pow
  have hspec := emplace_spec hE update .ok true k v 64 j t hR.toLive hk hS h3 (by omega)
  have hno := emplace_limit hE update .ok true k v 64 j t hR.toLive hk hS ha hc h3
  unfold insert
  generalize emplace E sec update .ok true k v 64 t = o at hspec hno
  match o, hspec, hno with
  | .ok t' r, _, hno => exact absurd rfl (hno t' r)
  | .throw t', ⟨_, s2, s3⟩, _ =>
    refine ⟨t', rfl, ?_, (s3 (by decide) rfl).1⟩
    rcases s2 with s2 | s2 | s2
    · exact absurd rfl s2
    · cases s2
    · exact s2

/-- C85 (partial).  While the elements are spread well enough, an insertion leaves the capacity alone or, if exactly half of the slots are in
use, doubles it once.  Missing: elements that are not spread as well (`C85_insert_exhausts`), other maximal load factors. -/
theorem C85_growth_partial (hE : E.Lawful) {t t' : Map K V} (hR : Reach E sec t) (hh : Half t) (update : Bool) (mem : Mem) (ctor : Bool) (k : K)
    (v : V) (hk : TagOk E sec t k) (hS : Spread E 129 (cap t) ((k, v) :: entries t)) {r : Nat × Bool}
    (hi : insert E sec update mem ctor k v t = .ok t' r) : cap t' = cap t ∨ (cap t' = 2 * cap t ∧ 2 * t.size = cap t) := by
  obtain ⟨j, h1, h2, h3⟩ := hR.pow
  have := emplace_half hE update mem ctor k v 64 j t hR.toLive hk (hS.mono (by omega)) hh h3 (by omega)
  unfold insert at hi
  rw [hi] at this
  exact this.2 hS

/-! ### C86: distances above 253 -/

/-- Among keys with one hash a new one goes into the first empty slot, at a distance that is the number of elements. -/
theorem same_hash_stop {t : Map K V} (h : Core E sec t) {k : K} (hall : ∀ e ∈ entries t, E.h e.1 = E.h k) {m : Nat} (hm : Stop E t k m) :
    (t.ctrl (pos E t k m)).dist = 255 ∧ t.size ≤ m := by
  have hfar : ∀ x e, x < cap t → (t.ctrl x).dist ≠ 255 → t.slot x = some e → (t.ctrl x).dist = far E t k x := by
    intro x e hx hu hs
    obtain ⟨e', he', hd, _⟩ := h.cell x hx hu
    rw [hs] at he'
    cases he'
    rw [hd]
    unfold far
    rw [hall e ((mem_entries h.toBase).mpr ⟨x, hx, hu, hs⟩)]
  constructor
  · by_contra hu
    have hp := h.pos_lt (E := E) k m
    obtain ⟨e, he, _⟩ := h.cell _ hp hu
    have := hfar _ e hp hu he
    rw [Base.far_pos k hm.lt] at this
    exact hm.not ⟨hu, by rw [this]⟩
  · have := count_le h.toTab k (fun _ => true) 0 m (by
      intro i e hi hu hs _
      refine ⟨Nat.zero_le _, ?_⟩
      have hd := hfar i e hi hu hs
      by_contra hc
      have hp : Pass E t k (far E t k i) := by
        unfold Pass
        rw [h.pos_far k hi]
        exact ⟨hu, by omega⟩
      exact hm.not (h.pass_back hp m (by omega)))
    rw [h.size]
    simpa using this

/-- A rehash does not see a slot with distance 254. -/
theorem rehash_blind {t : Map K V} {i tg : Nat} {e : K × V} (h16 : 16 ≤ cap t) (hi : i < cap t) (hu : (t.ctrl i).dist = 255)
    (sh al : Bool) (mem : Mem) (n s : Nat) {c : Nat} (hc : calcCapacity n = .ok c)
    (hdo : (al || (!sh && decide (cap t < c)) || (sh && c != cap t)) = true) {t2 : Map K V} :
    rehashImpl E sec sh al mem n { setUsed t i ⟨254, tg⟩ with slot := upd t.slot i (some e), size := s } = .ok t2 () ↔
      rehashImpl E sec sh al mem n t = .ok t2 () := by
  have hcap : cap ({ setUsed t i ⟨254, tg⟩ with slot := upd t.slot i (some e), size := s } : Map K V) = cap t := rfl
  have hidx : usedIdx ({ setUsed t i ⟨254, tg⟩ with slot := upd t.slot i (some e), size := s } : Map K V) = usedIdx t := by
    unfold usedIdx
    rw [hcap, if_pos h16]
    apply List.filter_congr
    intro x hx
    rw [List.mem_range] at hx
    show decide (((setUsed t i ⟨254, tg⟩).ctrl x).dist < bEnd) = decide ((t.ctrl x).dist < bEnd)
    by_cases hxi : x = i
    · subst hxi
      have : (setUsed t x ⟨254, tg⟩).ctrl x = ⟨254, tg⟩ := by
        unfold setUsed
        simp only
        split
        · rw [upd_other _ _ (by omega), upd_self]
        · rw [upd_self]
      rw [this, hu]
      rfl
    · rw [setUsed_other _ hx hxi]
  have hni : i ∉ usedIdx t := by
    unfold usedIdx
    rw [List.mem_filter, if_pos h16, hu]
    intro hh
    exact absurd hh.2 (by decide)
  have htr : ∀ (is : List Nat) (q : Map K V), i ∉ is →
      transferAll E sec ({ setUsed t i ⟨254, tg⟩ with slot := upd t.slot i (some e), size := s } : Map K V) is q = transferAll E sec t is q := by
    intro is
    induction is with
    | nil => intro q _; rfl
    | cons x is ih =>
      intro q hx
      rw [List.mem_cons, not_or] at hx
      unfold transferAll
      show (match upd t.slot i (some e) x with
        | none => Res.ub
        | some e => (insertUnique E sec e q).bind fun t' => transferAll E sec _ is t') = _
      rw [upd_other _ _ (Ne.symm hx.1)]
      cases t.slot x with
      | none => rfl
      | some e' =>
        simp only
        congr 1
        funext q'
        exact ih q' hx.2
  unfold rehashImpl
  rw [hc]
  simp only
  rw [hcap, if_pos hdo, hidx, if_pos hdo]
  unfold createGroup
  simp only
  by_cases h1 : mem = .noGroups ∨ memLimit < c
  · rw [if_pos h1, if_pos h1]; constructor <;> (intro h; cases h)
  · rw [if_neg h1, if_neg h1]
    by_cases h2 : mem = .noSlots
    · rw [if_pos h2, if_pos h2]; constructor <;> (intro h; cases h)
    · rw [if_neg h2, if_neg h2]
      simp only [htr _ _ hni]
      exact Iff.rfl

/-- C86, the violation.  254 keys with one hash are in the map and it need not grow.  The insertion of another key with this hash succeeds,
the returned iterator is at the new element and `size()` is 255.  Every rehash to another capacity, by `rehash`, `reserve`, `shrink_to_fit`
or for a later insertion, then loses the key, without an error; and `rehash` to another capacity does happen. -/
theorem C86_key_lost (hE : E.Lawful) {t : Map K V} (hR : Reach E sec t) (update : Bool) (mem : Mem) (k : K) (v : V)
    (hn : contains E sec t k = .ok false) (hsz : t.size = 254) (hroom : t.size < t.thr) (hall : ∀ e ∈ entries t, E.h e.1 = E.h k) :
    ∃ t1 i, insert E sec update mem true k v t = .ok t1 (i, true) ∧ t1.slot i = some (k, v) ∧ t1.size = 255 ∧ cap t1 = cap t ∧
      (∀ (mem' : Mem) (t2 : Map K V), ((∃ ro n, rehash E sec mem' ro n t1 = .ok t2 ()) ∨ (∃ ro, shrinkToFit E sec mem' ro t1 = .ok t2 ()) ∨
        grow E sec mem' t1 = .ok t2 ()) → cap t2 ≠ cap t1 → t2.size = 254 ∧ contains E sec t2 k = .ok false) ∧
      ∀ (n c : Nat), calcCapacity (max (minRequire t n) 255) = .ok c → c ≠ cap t → c ≤ memLimit →
        ∃ t2, rehash E sec .ok false n t1 = .ok t2 () ∧ cap t2 = c := by
  have hthr := hR.thr
  have h16 : 16 ≤ cap t := by omega
  have hk : TagOk E sec t k := Or.inl h16
  have ha : Absent E t k := by
    unfold contains at hn
    rcases findIdx_spec hR.toCore hE hk with ⟨x, h1, h2, h3⟩ | ⟨_, h2⟩
    · rw [h1] at hn; cases hn
    · exact (absent_iff hR.toBase).mpr h2
  have hlen : (entries t).length = 254 := by rw [← hR.size, hsz]
  have hS : ∀ c, Spread E 254 c (entries t) := fun c => spread_of_length (by omega)
  obtain ⟨j, j1, j2, j3⟩ := hR.pow
  have hsp := prepare_spec hE mem k 64 j t hR.toLive hk (hS _) j3 (by omega)
  obtain ⟨i, d, hp⟩ := prepare_stays hE mem hR.toLive hk ha hroom 63
  rw [hp] at hsp
  obtain ⟨_, _, g3, g4, _, _, _⟩ := hsp
  obtain ⟨q1, q2⟩ := same_hash_stop hR.toCore hall g3
  have hle := g3.le
  have hd : d = 254 := by omega
  subst hd
  have hi : i < cap t := by rw [g4]; exact hR.pos_lt k _
  rw [← g4] at q1
  refine ⟨{ setUsed t i ⟨254, tagOf E sec k⟩ with slot := upd t.slot i (some (k, v)), size := t.size + 1 }, i, ?_, upd_self _ _ _, ?_, rfl, ?_, ?_⟩
  · unfold insert emplace
    rw [hp]
    simp only [Out.bind_ok]
    unfold makeRoom
    rw [if_pos q1]
    rfl
  · show t.size + 1 = 255
    omega
  · intro mem' t2 hr hne
    have hcore : ∀ (sh al : Bool) (n : Nat), 255 ≤ n → rehashImpl E sec sh al mem' n
        { setUsed t i ⟨254, tagOf E sec k⟩ with slot := upd t.slot i (some (k, v)), size := t.size + 1 } = .ok t2 () →
        t2.size = 254 ∧ contains E sec t2 k = .ok false := by
      intro sh al n hbig hr
      cases hc : calcCapacity n with
      | ub => unfold rehashImpl at hr; rw [hc] at hr; cases hr
      | diverge => unfold rehashImpl at hr; rw [hc] at hr; cases hr
      | ok c =>
        have hdo : (al || (!sh && decide (cap t < c)) || (sh && c != cap t)) = true := by
          by_contra hcon
          unfold rehashImpl at hr
          rw [hc] at hr
          have hr2 : (if (al || (!sh && decide (cap t < c)) || (sh && c != cap t)) = true then _ else _) = _ := hr
          rw [if_neg hcon] at hr2
          cases hr2
          exact hne rfl
        have hr' := (rehash_blind h16 hi q1 sh al mem' n (t.size + 1) hc hdo).mp hr
        have hcn := (calc_ge hc).1
        have hspec := rehashImpl_spec (E := E) (sec := sec) hR.toTab.weak sh al mem' n (fun c' hc' => by
          rw [hc] at hc'
          cases hc'
          exact ⟨by omega, hS _⟩)
        rw [hr'] at hspec
        obtain ⟨c', hc', hm | ⟨hm, _⟩⟩ := hspec
        · have hM := hm.2
          have hcap2 : 16 ≤ cap t2 := by
            rw [hc] at hc'
            cases hc'
            rw [hM.cap]; omega
          refine ⟨by rw [hM.inv.size, hM.perm.length_eq, hlen], ?_⟩
          unfold contains
          rcases findIdx_spec hM.inv hE (k := k) (Or.inl hcap2) with ⟨x, _, h2, h3⟩ | ⟨h1, _⟩
          · exact absurd h3 ((absent_iff hM.inv.toBase).mp (ha.perm hM.perm) x h2)
          · rw [h1]; rfl
        · rw [hm] at hne; exact absurd rfl hne
    rcases hr with ⟨ro, n, hr⟩ | ⟨ro, hr⟩ | hr
    · refine hcore _ _ _ ?_ hr
      show 255 ≤ if ro then max n (t.size + 1) else max _ (t.size + 1)
      split <;> omega
    · refine hcore _ _ _ ?_ hr
      show 255 ≤ if ro then t.size + 1 else (t.size + 1) * t.rev % W / 65536
      have h1 := hR.rev_lo
      have h2 := hR.rev_hi
      split
      · omega
      · rw [hsz, Nat.mod_eq_of_lt (by unfold W; omega)]
        omega
    · refine hcore _ _ _ ?_ hr
      show 255 ≤ cap t * 2 % W
      have := hR.cap_le
      rw [Nat.mod_eq_of_lt (by unfold W; omega)]
      omega
  · intro n c hc hne hlim
    have hdo : (false || (!true && decide (cap t < c)) || (true && c != cap t)) = true := by simpa using hne
    have hcn := (calc_ge hc).1
    have hspec := rehashImpl_spec (E := E) (sec := sec) hR.toTab.weak true false .ok (max (minRequire t n) 255) (fun c' hc' => by
      rw [hc] at hc'
      cases hc'
      exact ⟨by omega, hS _⟩)
    have hiff := fun t2 => rehash_blind (E := E) (sec := sec) (tg := tagOf E sec k) (e := (k, v)) (t2 := t2) h16 hi q1 true false .ok _ (t.size + 1) hc hdo
    show ∃ t2, rehashImpl E sec true false .ok (if false = true then _ else max (minRequire t n) (t.size + 1)) _ = _ ∧ _
    rw [hsz]
    simp only [Bool.false_eq_true, if_false]
    rw [hsz] at hiff
    generalize hr : rehashImpl E sec true false .ok (max (minRequire t n) 255) t = o at hspec
    match o, hspec with
    | .ok t2 _, ⟨c', hc', hm⟩ =>
      rw [hc] at hc'
      cases hc'
      refine ⟨t2, (hiff t2).mpr hr, ?_⟩
      rcases hm with hm | ⟨_, _, hm⟩
      · exact hm.2.cap
      · exact absurd (hm rfl) hne
    | .throw t', ⟨⟨c', hc', hm⟩, _⟩ =>
      rw [hc] at hc'
      cases hc'
      rcases hm with hm | hm
      · exact absurd rfl hm
      · omega
    | .ub, hm =>
      have hm' : calcCapacity (max (minRequire t n) 255) = .ub := hm
      rw [hc] at hm'
      cases hm'

/-- The insertion of a new key among at most 253 keys with the same hash, while the map need not grow. -/
theorem insert_same_hash (hE : E.Lawful) {t : Map K V} (hR : Reach E sec t) (update : Bool) (mem : Mem) {k : K} (v : V) (hk : TagOk E sec t k)
    (ha : Absent E t k) (hsz : t.size ≤ 253) (hroom : t.size < t.thr) (hall : ∀ e ∈ entries t, E.h e.1 = E.h k) :
    ∃ t1 i, insert E sec update mem true k v t = .ok t1 (i, true) ∧ Reach E sec t1 ∧ (entries t1).Perm ((k, v) :: entries t) ∧
      cap t1 = cap t ∧ t1.thr = t.thr ∧ t1.rev = t.rev := by
  have hS : Spread E 254 (cap t) ((k, v) :: entries t) := spread_of_length (by rw [List.length_cons, ← hR.size]; omega)
  obtain ⟨j, j1, j2, j3⟩ := hR.pow
  have hsp := prepare_spec hE mem k 64 j t hR.toLive hk (hS.sub (List.sublist_cons_self _ _).subperm) j3 (by omega)
  have hes := emplace_spec hE update mem true k v 64 j t hR.toLive hk hS j3 (by omega)
  obtain ⟨i, d, hp⟩ := prepare_stays hE mem hR.toLive hk ha hroom 63
  rw [hp] at hsp
  obtain ⟨_, _, g3, g4, _, _, _⟩ := hsp
  obtain ⟨q1, _⟩ := same_hash_stop hR.toCore hall g3
  rw [← g4] at q1
  have hi : emplace E sec update mem true k v 64 t =
      .ok { setUsed t i ⟨d, tagOf E sec k⟩ with slot := upd t.slot i (some (k, v)), size := t.size + 1 } (i, true) := by
    unfold emplace
    rw [hp]
    simp only [Out.bind_ok]
    unfold makeRoom
    rw [if_pos q1]
    rfl
  rw [hi] at hes
  rcases hes with ⟨_, _, _, s1, s2, _⟩ | ⟨s, _⟩
  · exact ⟨_, i, hi, s1.reach hR rfl, s2, rfl, rfl, rfl⟩
  · cases s

/-- At most 254 different keys with one hash, inserted one after the other into a map with enough slots. -/
theorem insertAll_same_hash (hE : E.Lawful) (a : Nat) : ∀ (l : List (K × V)) (t : Map K V), Reach E sec t → 16 ≤ cap t →
    Distinct E.eq (l ++ entries t) → (∀ e ∈ l, E.h e.1 = a) → (∀ e ∈ entries t, E.h e.1 = a) → t.size + l.length ≤ 254 → 254 < t.thr →
    ∃ t', insertAll E sec .ok l t = .ok t' () ∧ Reach E sec t' ∧ (entries t').Perm (l ++ entries t) ∧ cap t' = cap t ∧ t'.thr = t.thr ∧
      t'.rev = t.rev := by
  intro l
  induction l with
  | nil => intro t hR _ _ _ _ _ _; exact ⟨t, rfl, hR, List.Perm.refl _, rfl, rfl, rfl⟩
  | cons e l ih =>
    intro t hR h16 hd hl hall hsz hthr
    rw [List.length_cons] at hsz
    have hek := hl e List.mem_cons_self
    rw [List.cons_append] at hd
    have ha : Absent E t e.1 := fun x hx =>
      eq_false_symm hE ((List.pairwise_cons.mp hd).1 x (List.mem_append_right _ hx))
    obtain ⟨t1, i, h1, h2, h3, h4, h5, h6⟩ := insert_same_hash hE hR false .ok e.2 (Or.inl h16) ha (by omega) (by omega)
      (fun x hx => by rw [hall x hx, hek])
    have hs1 : t1.size = t.size + 1 := by rw [h2.size, h3.length_eq, List.length_cons, hR.size]
    have hp1 : (l ++ entries t1).Perm (e :: (l ++ entries t)) := (h3.append_left l).trans List.perm_middle
    obtain ⟨t', g1, g2, g3, g4, g5, g6⟩ := ih t1 h2 (by omega) (hd.perm hE hp1.symm) (fun x hx => hl x (List.mem_cons_of_mem _ hx))
      (fun x hx => by
        rcases List.mem_cons.mp (h3.mem_iff.mp hx) with rfl | hx
        · exact hek
        · exact hall x hx) (by omega) (by omega)
    refine ⟨t', ?_, g2, g3.trans hp1, by omega, by omega, by omega⟩
    unfold insertAll
    rw [h1, Out.bind_ok]
    exact g1

/-- C86, the violation, through the interface: 255 different keys with one hash are inserted into a map made for 512 slots.  All insertions
succeed and `size()` is 255; after `reserve(1000)` it is 254 and the last key is gone. -/
theorem C86_history (hE : E.Lawful) {a : Nat} {l : List (K × V)} (hlen : l.length = 254) {k : K} (v : V) (hl : ∀ e ∈ l, E.h e.1 = a)
    (hk : E.h k = a) (hd : Distinct E.eq ((k, v) :: l)) :
    ∃ t0 t1 t2 t3 : Map K V, ∃ i, make .ok 512 = .ok t0 () ∧ insertAll E sec .ok l t0 = .ok t1 () ∧
      insert E sec false .ok true k v t1 = .ok t2 (i, true) ∧ t2.size = 255 ∧ rehash E sec .ok false 1000 t2 = .ok t3 () ∧ t3.size = 254 ∧
      contains E sec t3 k = .ok false := by
  have h0 : (make .ok 512 : Out (Map K V) Unit) = .ok (freshMap 512 32768 131072) () := rfl
  obtain ⟨r0, e0, _⟩ := make_ok (E := E) (sec := sec) h0
  have hc0 : cap (freshMap 512 32768 131072 : Map K V) = 512 := rfl
  have ht0 : (freshMap 512 32768 131072 : Map K V).thr = 256 := rfl
  have hs0 : (freshMap 512 32768 131072 : Map K V).size = 0 := rfl
  obtain ⟨hd1, hd2⟩ := List.pairwise_cons.mp hd
  obtain ⟨t1, g1, g2, g3, g4, g5, g6⟩ := insertAll_same_hash hE a l _ r0 (by omega) (by rw [e0, List.append_nil]; exact hd2) hl
    (by rw [e0]; intro x hx; cases hx) (by omega) (by omega)
  rw [e0, List.append_nil] at g3
  have hsz : t1.size = 254 := by rw [g2.size, g3.length_eq, hlen]
  have hn : contains E sec t1 k = .ok false := by
    unfold contains
    rcases findIdx_spec g2.toCore hE (k := k) (Or.inl (by omega)) with ⟨x, _, h2, h3⟩ | ⟨h1, _⟩
    · exact absurd h3 ((absent_iff g2.toBase).mp (fun y hy => eq_false_symm hE (hd1 y (g3.mem_iff.mp hy))) x h2)
    · rw [h1]; rfl
  obtain ⟨t2, i, k1, k2, k3, k4, k5, k6⟩ := C86_key_lost hE g2 false .ok k v hn hsz (by omega)
    (fun e he => by rw [hl e (g3.mem_iff.mp he), hk])
  have hrev : t1.rev = 131072 := g6
  have hmin : max (minRequire t1 1000) 255 = 2000 := by
    unfold minRequire; rw [hrev]; rfl
  have hcalc : calcCapacity 2000 = .ok 2048 := by decide +kernel
  obtain ⟨t3, m1, m2⟩ := k6 1000 2048 (by rw [hmin]; exact hcalc) (by omega) (by unfold memLimit; omega)
  obtain ⟨m3, m4⟩ := k5 .ok t3 (Or.inl ⟨false, 1000, m1⟩) (by omega)
  exact ⟨_, t1, t2, t3, i, h0, g1, k1, k3, m1, m3, m4⟩

end Verif.Rob16
