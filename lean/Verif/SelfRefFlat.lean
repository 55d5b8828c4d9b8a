/-
References into a `flat16_hash_map`: arguments that refer to an element of the map itself and references kept across calls
(C107).

A reference to the mapped value in slot `j` is the address of that slot, so it is modelled by the slot number.
-/
import Verif.FlatBugs
import Verif.SelfRef

namespace Verif.Flat
open Spec (Distinct Call Ans)
open Robin (hashEnv hashEnv_lawful)

section Model
variable {K V : Type} (E : Env K) (sec : Nat → Nat)

/-- Reading through a reference to the mapped value in slot `j` that was taken when the map was `t`, at a moment when it is `t1`.
Slot arrays of different size are different blocks, and `rehash_impl` gives the old one back (FL:2012-2019). -/
def valueAt (t t1 : Map K V) (j : Nat) : Res V :=
  if cap t1 = cap t then
    match t1.slot j with
    | some e => .ok e.2
    | none => .ub
  else .ub

/-- `emplace_impl<AlwaysUpdate>(key, mapped)` (FL:2447-2706) when `mapped` is a reference to the mapped value in slot `j` of the same map:
`find_and_prepare_insert(key)` runs first (FL:2363-2445), then the constructor or the assignment reads the reference. -/
def emplaceRef (update : Bool) (mem : Mem) (k : K) (j : Nat) (t : Map K V) : Out (Map K V) (Nat × Bool) :=
  (prepare E sec mem k 64 t).bind fun t' r =>
    if r.2 then
      match t'.slot r.1 with
      | none => .ub
      | some e =>
        if update then
          match valueAt t t' j with
          | .ok v => .ok { t' with slot := upd t'.slot r.1 (some (e.1, v)) } (r.1, false)
          | _ => .ub
        else .ok t' (r.1, false)
    else
      match valueAt t t' j with
      | .ok v => .ok { setUsed t' r.1 (tagOf E sec k) with slot := upd t'.slot r.1 (some (k, v)), size := t'.size + 1 } (r.1, true)
      | _ => .ub

/-- `m.insert_or_assign(k, it->second)` (`update`) or `m.emplace(k, it->second)`, `m.try_emplace(k, it->second)` with `it` at slot `j`
(FL:1370-1477), and the element the returned iterator points at. -/
def execRef (update : Bool) (mem : Mem) (k : K) (j : Nat) (t : Map K V) : Out (Map K V) (Ans K V) :=
  (emplaceRef E sec update mem k j t).bind readElem

end Model

variable {K V : Type} {E : Env K} {sec : Nat → Nat}

/-- `find_and_prepare_insert` either leaves the slot array alone or has moved to a larger block. -/
theorem Inv.prepare_frame_succ (hE : E.Lawful) {t t' : Map K V} (h : Inv E sec t) {mem : Mem} {k : K} {r : Nat × Bool} {f : Nat} (hf : 48 ≤ f)
    (hx : prepare E sec mem k (f + 1) t = .ok t' r) :
    (t'.slot = t.slot ∧ cap t' = cap t) ∨ (cap t < cap t' ∧ r.2 = false) := by
  obtain ⟨j, h1, h2, h3⟩ := h.pow
  have hsp := prepare_spec hE mem k (f + 1) j t h h3 (by omega)
  obtain ⟨i, b⟩ := r
  cases b with
  | true =>
    rw [hx] at hsp
    rw [hsp.1]; exact Or.inl ⟨rfl, rfl⟩
  | false =>
    have hgrow : ((reorderOrGrow E sec mem t).bind fun t1 _ => prepare E sec mem k f t1) = .ok t' (i, false) →
        cap t < cap t' := by
      intro hx
      cases hre : reorders t with
      | true => rw [reorder_ub h hre] at hx; cases hx
      | false =>
        rcases grow_spec h.toCore hre mem h3 with ⟨t1, g1, g2, g3⟩ | ⟨t1, g1, g2, g3⟩
        · rw [g1] at hx
          have hx : prepare E sec mem k f t1 = .ok t' (i, false) := hx
          have hsp := prepare_spec hE mem k f (j + 1) t1 (g3.toInv hE h.distinct) g3.cap (by omega)
          rw [hx] at hsp
          have := hsp.2.2.2.2.2.1
          rw [g3.cap, Nat.pow_succ, ← h3] at this
          have := h.cap_ge
          omega
        · rw [g1] at hx; cases hx
    unfold prepare at hx
    obtain ⟨q, h4, h5⟩ := probe_spec h.toCore k
    rw [h4] at hx
    simp only [lift] at hx
    cases q with
    | hit i => cases hx
    | full => exact Or.inr ⟨hgrow hx, rfl⟩
    | stop i' =>
      simp only at hx
      split at hx
      · exact Or.inr ⟨hgrow hx, rfl⟩
      · left
        split at hx
        · split at hx
          · cases hx; exact ⟨rfl, rfl⟩
          · cases hx; exact ⟨rfl, rfl⟩
        · cases hx
        · cases hx

theorem Inv.prepare_frame (hE : E.Lawful) {t t' : Map K V} (h : Inv E sec t) {mem : Mem} {k : K} {r : Nat × Bool}
    (hx : prepare E sec mem k 64 t = .ok t' r) :
    (t'.slot = t.slot ∧ cap t' = cap t) ∨ (cap t < cap t' ∧ r.2 = false) :=
  h.prepare_frame_succ hE (f := 63) (by omega) hx

/-- What a call with a reference to its own element does, in terms of the call with a copy of the value. -/
theorem Inv.emplaceRef_eq (hE : E.Lawful) {t : Map K V} (h : Inv E sec t) {j : Nat} {s : K × V} (hj : t.slot j = some s)
    (update : Bool) (mem : Mem) (k : K) :
    emplaceRef E sec update mem k j t =
      match emplace E sec update mem true k s.2 t with
      | .ok t' r => if cap t' = cap t then .ok t' r else .ub
      | o => o := by
  unfold emplaceRef emplace
  cases hp : prepare E sec mem k 64 t with
  | throw _ => rfl
  | diverge => rfl
  | ub => rfl
  | ok t' r =>
    simp only [Out.bind_ok]
    rcases h.prepare_frame hE hp with ⟨h1, h2⟩ | ⟨h1, h2⟩
    · have hv : valueAt t t' j = .ok s.2 := by
        unfold valueAt
        rw [if_pos h2, h1, hj]
      rw [hv]
      by_cases hr : r.2 = true
      · rw [if_pos hr, if_pos hr]
        cases hs : t'.slot r.1 with
        | none => rfl
        | some e =>
          cases update with
          | true => simp only [if_true]; rw [if_pos]; exact h2
          | false => simp only [Bool.false_eq_true, if_false]; rw [if_pos h2]
      · rw [if_neg hr, if_neg hr]
        simp only [if_true]
        rw [if_pos]; exact h2
    · have hv : valueAt t t' j = .ub := by
        unfold valueAt
        rw [if_neg (by omega)]
      rw [hv, h2]
      simp only [Bool.false_eq_true, if_false, if_true]
      rw [if_neg]
      show ¬ cap t' = cap t
      omega

theorem Inv.execRef_eq (hE : E.Lawful) {t : Map K V} (h : Inv E sec t) {j : Nat} {s : K × V} (hj : t.slot j = some s)
    (update : Bool) (mem : Mem) (k : K) (rv : Nat → Nat) :
    execRef E sec update mem k j t =
      match exec E sec rv mem (putCall update k s.2) t with
      | .ok t' a => if cap t' = cap t then .ok t' a else .ub
      | o => o := by
  have he : exec E sec rv mem (putCall update k s.2) t = (emplace E sec update mem true k s.2 t).bind readElem := by
    cases update <;> rfl
  rw [he]
  unfold execRef
  rw [h.emplaceRef_eq hE hj]
  cases emplace E sec update mem true k s.2 t with
  | throw _ => rfl
  | diverge => rfl
  | ub => rfl
  | ok t' r =>
    simp only [Out.bind_ok]
    unfold readElem
    by_cases hc : cap t' = cap t
    · rw [if_pos hc]
      simp only [Out.bind_ok]
      cases t'.slot r.1 with
      | none => rfl
      | some e => simp only; rw [if_pos hc]
    · rw [if_neg hc]
      cases t'.slot r.1 with
      | none => rfl
      | some e => simp only; rw [if_neg hc]; rfl

/-- C107 (partial). `m.insert_or_assign(k, r)`, `m.emplace(k, r)` or `m.try_emplace(k, r)` where `r` refers to the mapped value of an element
of `m` itself: when the same call with a copy of the value returns without a change of `capacity()`, or throws, the call with the reference
does exactly the same.  The growing case is missing, see the next theorem. -/
theorem C107_reference_argument_partial (hE : E.Lawful) {clean : Bool} {t : Map K V} (hR : Reach clean E sec t) {j : Nat} {s : K × V}
    (hj : t.slot j = some s) {rv : Nat → Nat} {update : Bool} {mem : Mem} {k : K} {t' : Map K V} :
    (∀ a, exec E sec rv mem (putCall update k s.2) t = .ok t' a → cap t' = cap t → execRef E sec update mem k j t = .ok t' a) ∧
    (exec E sec rv mem (putCall update k s.2) t = .throw t' → execRef E sec update mem k j t = .throw t') := by
  rw [hR.toInv.execRef_eq hE hj update mem k rv]
  refine ⟨fun a hx hc => ?_, fun hx => ?_⟩
  · rw [hx]; simp only; rw [if_pos hc]
  · rw [hx]

/-- C107, deviation. Whenever the same call with a copy of the value changes `capacity()`, the call with the reference reads freed
memory. -/
theorem C107_reference_argument_dangles (hE : E.Lawful) {clean : Bool} {t : Map K V} (hR : Reach clean E sec t) {j : Nat} {s : K × V}
    (hj : t.slot j = some s) {rv : Nat → Nat} {update : Bool} {mem : Mem} {k : K} {t' : Map K V} {a : Ans K V}
    (hx : exec E sec rv mem (putCall update k s.2) t = .ok t' a) (hc : cap t' ≠ cap t) :
    execRef E sec update mem k j t = .ub := by
  rw [hR.toInv.execRef_eq hE hj update mem k rv, hx]
  simp only
  rw [if_neg hc]

/-! ### References kept across calls -/

/-- An insertion at unchanged capacity leaves every element in its slot, up to the mapped value of the element addressed. -/
theorem Inv.emplace_stays (hE : E.Lawful) {t t' : Map K V} (h : Inv E sec t) {i : Nat} {e : K × V} (hi : t.slot i = some e)
    {update : Bool} {mem : Mem} {k : K} {v : V} {r : Nat × Bool}
    (hx : emplace E sec update mem true k v t = .ok t' r) (hc : cap t' = cap t) :
    t'.slot i = some (if update = true ∧ E.eq k e.1 = true then (e.1, v) else e) := by
  obtain ⟨j, h1, h2, h3⟩ := h.pow
  have hsp := prepare_spec hE mem k 64 j t h h3 (by omega)
  have hil : i < cap t := by
    by_contra hcc
    rw [h.tail i (by omega)] at hi; cases hi
  unfold emplace at hx
  cases hp : prepare E sec mem k 64 t with
  | throw _ => rw [hp] at hx; cases hx
  | diverge => rw [hp] at hx; cases hx
  | ub => rw [hp] at hx; cases hx
  | ok t1 q =>
    have hf := h.prepare_frame hE hp
    rw [hp] at hx hsp
    simp only [Out.bind_ok] at hx
    obtain ⟨x, b⟩ := q
    cases b with
    | true =>
      obtain ⟨g1, g2, e', g3, g4⟩ := hsp
      subst g1
      simp only [if_true, g3] at hx
      cases update with
      | false =>
        simp only [Bool.false_eq_true, if_false, Out.ok.injEq] at hx
        rw [← hx.1]; simpa using hi
      | true =>
        simp only [if_true, Out.ok.injEq] at hx
        rw [← hx.1]
        simp only [true_and]
        by_cases hix : i = x
        · subst hix
          rw [hi] at g3
          cases g3
          rw [upd_self, if_pos (hE.symm _ _ g4)]
        · rw [upd_other _ _ hix, hi, if_neg]
          intro hk
          have hd := h.distinct
          have hperm := entries_drop (t := t1) hil hi 0 0
          have hd2 := hd.perm hE hperm
          have hm : e' ∈ entries (Flat.drop t1 i 0 0) := by
            rw [mem_entries]
            exact ⟨x, g2, by show upd t1.slot i none x = some e'; rw [upd_other _ _ (Ne.symm hix)]; exact g3⟩
          have := (List.pairwise_cons.mp hd2).1 e' hm
          rw [hE.trans _ _ _ (hE.symm _ _ hk) (hE.symm _ _ g4)] at this
          cases this
    | false =>
      obtain ⟨g1, g2, _⟩ := hsp
      simp only [Bool.false_eq_true, if_false, if_true, Out.ok.injEq] at hx
      have hne : ¬ (update = true ∧ E.eq k e.1 = true) := by
        rintro ⟨_, hk⟩
        have := g1 e (mem_entries.mpr ⟨i, hil, hi⟩)
        rw [hE.symm _ _ hk] at this; cases this
      rw [if_neg hne]
      rcases hf with ⟨f1, f2⟩ | ⟨f1, _⟩
      · rw [← hx.1]
        have hix : i ≠ x := by
          intro hix; subst hix
          have := g2.place.free
          rw [f1, hi] at this; cases this
        show upd t1.slot x (some (k, v)) i = some e
        rw [upd_other _ _ hix, f1, hi]
      · exfalso
        rw [← hx.1] at hc
        have : cap t1 = cap t := hc
        omega

theorem insertUnique_cap {e : K × V} {t t' : Map K V} (h : insertUnique E sec e t = .ok t') : cap t' = cap t := by
  unfold insertUnique at h
  cases hf : firstEmpty E t e.1 with
  | ok i => rw [hf] at h; cases h; rfl
  | ub => rw [hf] at h; cases h
  | diverge => rw [hf] at h; cases h

theorem transferAll_cap {old : Map K V} : ∀ (is : List Nat) (t t' : Map K V), transferAll E sec old is t = .ok t' → cap t' = cap t
  | [], t, t', h => by cases h; rfl
  | i :: is, t, t', h => by
    unfold transferAll at h
    split at h
    · cases h
    · cases hu : insertUnique E sec _ t with
      | ok t1 =>
        rw [hu] at h
        exact (transferAll_cap is t1 t' h).trans (insertUnique_cap hu)
      | ub => rw [hu] at h; cases h
      | diverge => rw [hu] at h; cases h

theorem createGroup_cap {mem : Mem} {c : Nat} {t t' : Map K V} {u : Unit} (hc : 1 ≤ c) (h : createGroup mem c t = .ok t' u) : cap t' = c := by
  unfold createGroup at h
  simp only at h
  split at h
  · cases h
  · split at h
    · cases h
    · simp only [Out.ok.injEq] at h
      rw [← h.1]
      unfold cap
      simp only
      omega

/-- `rehash_impl` without `AlwaysResize` that leaves the capacity alone has not moved anything. -/
theorem rehash_stays {t t' : Map K V} {mem : Mem} {n : Nat} {u : Unit}
    (hx : rehashImpl E sec true false mem n t = .ok t' u) (hc : cap t' = cap t) : t' = t := by
  unfold rehashImpl at hx
  cases hcalc : calcCapacity n with
  | ub => rw [hcalc] at hx; cases hx
  | diverge => rw [hcalc] at hx; cases hx
  | ok c =>
    rw [hcalc] at hx
    simp only at hx
    by_cases hcc : c = cap t
    · rw [if_neg (by simp [hcc])] at hx
      cases hx; rfl
    · exfalso
      rw [if_pos (by simp [hcc])] at hx
      have h4 : 1 ≤ c := by
        rw [calcCapacity_eq] at hcalc
        obtain ⟨j, hj, rfl, _⟩ := Robin.calcCapacity_ok hcalc
        exact Nat.two_pow_pos _
      cases hg : createGroup mem c t with
      | ok t1 u1 =>
        rw [hg] at hx
        simp only at hx
        have h5 : cap t1 = c := createGroup_cap h4 hg
        split at hx
        · rename_i t2 ht
          simp only [Out.ok.injEq] at hx
          have h6 : cap t' = cap t2 := by unfold cap; rw [← hx.1]
          exact hcc (h5.symm.trans ((transferAll_cap _ _ _ ht).symm.trans (h6.symm.trans hc)))
        · cases hx
        · cases hx
      | throw _ => rw [hg] at hx; cases hx
      | diverge => rw [hg] at hx; cases hx
      | ub => rw [hg] at hx; cases hx

theorem bind_readElem {o : Out (Map K V) (Nat × Bool)} {t' : Map K V} {a : Ans K V} (hx : o.bind readElem = .ok t' a) : ∃ r, o = .ok t' r := by
  cases o with
  | ok s r =>
    unfold readElem at hx
    simp only [Out.bind_ok] at hx
    split at hx
    · cases hx
    · cases hx; exact ⟨r, rfl⟩
  | throw s => cases hx
  | diverge => cases hx
  | ub => cases hx

theorem bind_readValue {o : Out (Map K V) (Nat × Bool)} {t' : Map K V} {a : Ans K V} (hx : o.bind readValue = .ok t' a) : ∃ r, o = .ok t' r := by
  cases o with
  | ok s r =>
    unfold readValue at hx
    simp only [Out.bind_ok] at hx
    split at hx
    · cases hx
    · cases hx; exact ⟨r, rfl⟩
  | throw s => cases hx
  | diverge => cases hx
  | ub => cases hx

theorem bind_unit {o : Out (Map K V) Unit} {t' : Map K V} {a b : Ans K V} (hx : (o.bind fun t' _ => .ok t' b) = .ok t' a) :
    ∃ u, o = .ok t' u := by
  cases o with
  | ok s r => simp only [Out.bind_ok, Out.ok.injEq] at hx; exact ⟨r, by rw [hx.1]⟩
  | throw s => cases hx
  | diverge => cases hx
  | ub => cases hx

theorem lift_same {α : Type} {r : Res α} {f : α → Ans K V} {t t' : Map K V} {a : Ans K V}
    (hx : lift r (fun x => .ok t (f x)) = .ok t' a) : t' = t := by
  cases r <;> simp only [lift] at hx <;> cases hx; rfl

/-- C107. A call other than `clear` that returns and does not change `capacity()` leaves every element it does not itself remove or
overwrite in its slot, unchanged: references and iterators to it stay valid. -/
theorem C107_references_stay (hE : E.Lawful) {clean : Bool} {t t' : Map K V} (hR : Reach clean E sec t) {i : Nat} {e : K × V}
    (hi : t.slot i = some e) {rv : Nat → Nat} {mem : Mem} {c : Call K V} (hcl : ∀ d, c ≠ .clear d)
    (hk : ∀ k, touched c = some k → E.eq k e.1 = false) {a : Ans K V}
    (hx : exec E sec rv mem c t = .ok t' a) (hc : cap t' = cap t) : t'.slot i = some e := by
  have h := hR.toInv
  cases c with
  | insert k v =>
    obtain ⟨r, hx⟩ := bind_readElem hx
    have := h.emplace_stays hE hi hx hc
    simpa using this
  | assign k v =>
    obtain ⟨r, hx⟩ := bind_readElem hx
    have := h.emplace_stays hE hi hx hc
    rw [this, if_neg]
    intro hq; rw [hk k rfl] at hq; cases hq.2
  | index k d =>
    obtain ⟨r, hx⟩ := bind_readValue hx
    have := h.emplace_stays hE hi hx hc
    simpa using this
  | find k => rw [lift_same hx]; exact hi
  | contains k => rw [lift_same hx]; exact hi
  | count k => rw [lift_same hx]; exact hi
  | «at» k => cases hx
  | iterate => rw [lift_same hx]; exact hi
  | size => cases hx; exact hi
  | empty => cases hx; exact hi
  | clear d => exact absurd rfl (hcl d)
  | erase k =>
    simp only [exec, eraseKey] at hx
    rcases findIdx_spec hE h.toInv0 k with ⟨x, e', h1, h2, h3, h4, _⟩ | ⟨h1, _⟩
    · rw [h1] at hx
      simp only [lift] at hx
      rw [eraseSlot_eq h.toCore h2 h3] at hx
      simp only [Out.bind_ok, Out.ok.injEq] at hx
      have hne : i ≠ x := by
        intro hq; subst hq
        rw [hi] at h3; cases h3
        have := hk k rfl
        rw [hE.symm _ _ h4] at this; cases this
      rw [← hx.1]
      split
      · show upd t.slot x none i = some e
        rw [upd_other _ _ hne]; exact hi
      · show upd t.slot x none i = some e
        rw [upd_other _ _ hne]; exact hi
    · rw [h1] at hx
      cases hx; exact hi
  | reserve n =>
    obtain ⟨u, hx⟩ := bind_unit hx
    rw [rehash_stays hx hc]; exact hi
  | rehash n =>
    obtain ⟨u, hx⟩ := bind_unit hx
    rw [rehash_stays hx hc]; exact hi
  | shrink ro =>
    obtain ⟨u, hx⟩ := bind_unit hx
    rw [rehash_stays hx hc]; exact hi
  | maxLoad m =>
    obtain ⟨u, hx⟩ := bind_unit hx
    unfold setMlf at hx
    simp only at hx
    split at hx
    · split at hx
      · rw [rehash_stays hx hc]; exact hi
      · rename_i hn
        exfalso
        have hn : ¬ (cap t ≤ 32 ∨ (usedCount t + W - t.size % W) % W < cap t / 8 ∨ cap t < minRequire { t with mlf := m % 2 ^ 32, rev := rv m } t.size) := hn
        simp only [not_or] at hn
        have h1 : 32 < cap t := by omega
        have h2 : delCount t = (usedCount t + W - t.size % W) % W := rfl
        have h3 := del_eq h.toCore (h.counted h1)
        have h4 := h.occ_eq
        have h5 := occ_le t
        have hcore : Core E sec { t with mlf := m % 2 ^ 32, rev := rv m } := ⟨h.pow, h.gmask, h.cell, h.mirror, h.tail, h.size, h.left⟩
        rw [dropDeleted_ub hcore (by show 16 ≤ cap t; omega) (by show t.size < cap t; omega)] at hx
        cases hx
    · cases hx; exact hi

/-- C107. `insert_or_assign` of a present key writes the new value into the slot of the element, which keeps its key. -/
theorem C107_assign_in_place (hE : E.Lawful) {clean : Bool} {t t' : Map K V} (hR : Reach clean E sec t) {i : Nat} {e : K × V}
    (hi : t.slot i = some e) {rv : Nat → Nat} {mem : Mem} {k : K} {v : V} (hk : E.eq k e.1 = true) {a : Ans K V}
    (hx : exec E sec rv mem (.assign k v) t = .ok t' a) : t'.slot i = some (e.1, v) ∧ cap t' = cap t := by
  have h := hR.toInv
  have hil : i < cap t := by
    by_contra hcc
    rw [h.tail i (by omega)] at hi; cases hi
  obtain ⟨r, hx⟩ := bind_readElem hx
  have hcap : cap t' = cap t := by
    have hsp := emplace_spec hE h true mem true k v
    rw [hx] at hsp
    obtain ⟨x, b⟩ := r
    rcases hsp with ⟨_, _, h1, _⟩ | ⟨_, _, e', _, _, h1⟩
    · have := h1 e (mem_entries.mpr ⟨i, hil, hi⟩)
      rw [hE.symm _ _ hk] at this; cases this
    · rw [h1]; rfl
  have := h.emplace_stays hE hi hx hcap
  rw [if_pos ⟨rfl, hk⟩] at this
  exact ⟨this, hcap⟩

/-! ### Cases that meet the hypotheses -/

set_option maxRecDepth 100000

/-- Does the call return with an object and answer satisfying `f`? -/
def stepIs (c : Call Nat Nat) (f : Map Nat Nat → Ans Nat Nat → Bool) (t : Map Nat Nat) : Bool :=
  match exec (hashEnv id) id (fun _ => 131072) .ok c t with
  | .ok t' a => f t' a
  | _ => false

/-- Replacing a present value does not reallocate, a new key does. -/
example : ∃ t : Map Nat Nat, Reach true (hashEnv id) id t ∧ ((t.slot 1).isSome &&
    stepIs (putCall true 5 9) (fun t' a => a == .elem (5, 9) false && cap t == cap t') t &&
    stepIs (putCall false 90 9) (fun t' a => a == .elem (90, 9) true && cap t != cap t') t) = true :=
  reach_play (cs := ins 8 1) (p := fun t => (t.slot 1).isSome &&
    stepIs (putCall true 5 9) (fun t' a => a == .elem (5, 9) false && cap t == cap t') t &&
    stepIs (putCall false 90 9) (fun t' a => a == .elem (90, 9) true && cap t != cap t') t) (by decide +kernel) (by decide +kernel)

/-- An insertion, an erasure and a rehash that keep `capacity()`, and an assignment to a present key. -/
example : ∃ t : Map Nat Nat, Reach true (hashEnv id) id t ∧ ((t.slot 1).isSome &&
    stepIs (.insert 90 9) (fun t' _ => cap t == cap t') t &&
    stepIs (.erase 5) (fun t' _ => cap t == cap t') t &&
    stepIs (.rehash 8) (fun t' _ => cap t == cap t') t &&
    stepIs (.assign 5 9) (fun _ a => a == .elem (5, 9) false) t) = true :=
  reach_play (cs := ins 7 1) (p := fun t => (t.slot 1).isSome &&
    stepIs (.insert 90 9) (fun t' _ => cap t == cap t') t &&
    stepIs (.erase 5) (fun t' _ => cap t == cap t') t &&
    stepIs (.rehash 8) (fun t' _ => cap t == cap t') t &&
    stepIs (.assign 5 9) (fun _ a => a == .elem (5, 9) false) t) (by decide +kernel) (by decide +kernel)

end Verif.Flat
