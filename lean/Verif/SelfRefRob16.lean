/-
Arguments that are references into the same `robin16_hash_map`, and references across calls (C112).

Abbreviation: R16 = src/jstd/hashmap/robin16_hash_map.h.
-/
import Verif.Rob16Bugs
import Verif.SelfRefRobin

namespace Verif.Rob16
open Spec (Distinct Call Ans)
open Robin (res_bind_ok out_bind_ok upd_twice upd_same hashEnv hashEnv_lawful)

section Model
variable {K V : Type} (E : Env K) (sec : Nat → Nat)

/-- Read through a reference to the mapped value in slot `j`, taken in state `t`, when the map is in state `t1`.  A map of another
capacity has another block. -/
def valueAt (t t1 : Map K V) (j : Nat) : Res V :=
  if t1.mask = t.mask then
    match t1.slot j with
    | some e => .ok e.2
    | none => .ub
  else .ub

/-- `emplace_impl<AlwaysUpdate>(key, mapped)` (R16:3129-3191, 3193-3252) when `mapped` is a reference to the mapped value in the used slot `j`
of the same map (the overload R16:3318-3369 for other first arguments makes a copy of the value first and is not meant): `find_or_prepare_insert(key)` and `insert_to_place` (R16:2962-3023) run first, the forwarded
reference is read by the constructor or the assignment after them.  The element that was in the insertion place is moved away and destroyed
(R16:2980-2986).  `t0` is the map at the time of the call.  Constructors of elements return. -/
def emplaceRef (update : Bool) (mem : Mem) (k : K) (j : Nat) (t0 : Map K V) : Nat → Map K V → Out (Map K V) (Nat × Bool)
  | 0, _ => .diverge
  | f + 1, t =>
    (prepare E sec mem k 64 t).bind fun t' r =>
      match r.2 with
      | none =>
        match t'.slot r.1 with
        | none => .ub
        | some e =>
          if update then
            match valueAt t0 t' j with
            | .ok v => .ok { t' with slot := upd t'.slot r.1 (some (e.1, v)) } (r.1, false)
            | _ => .ub
          else .ok t' (r.1, false)
      | some d =>
        lift (makeRoom false r.1 ⟨d, tagOf E sec k⟩ t') fun q =>
          if q.2 then (grow E sec mem q.1).bind fun t'' _ => emplaceRef update mem k j t0 f t''
          else if j = r.1 then .ub
          else
            match valueAt t0 q.1 j with
            | .ok v => .ok { q.1 with slot := upd q.1.slot r.1 (some (k, v)), size := q.1.size + 1 } (r.1, true)
            | _ => .ub

/-- The calls made by one insertion (R16:3040-3369), as `insert`. -/
def insertRef (update : Bool) (mem : Mem) (k : K) (j : Nat) (t : Map K V) : Out (Map K V) (Nat × Bool) :=
  emplaceRef E sec update mem k j t 64 t

end Model

variable {K V : Type} {E : Env K} {sec : Nat → Nat}

/-- What the call with the reference into slot `j` makes of the outcome of the call with a copy. -/
def viaRef (update : Bool) (k : K) (j : Nat) (t : Map K V) : Out (Map K V) (Nat × Bool) → Out (Map K V) (Nat × Bool)
  | .ok t' (i, true) =>
    if t'.mask = t.mask then
      if j = i then .ub else
        match t'.slot j with
        | none => .ub
        | some e => .ok { t' with slot := upd t'.slot i (some (k, e.2)) } (i, true)
    else .ub
  | .ok t' (i, false) => if update = true ∧ t'.mask ≠ t.mask then .ub else .ok t' (i, false)
  | o => o

theorem lift_ok {α β : Type} {r : Res α} {f : α → Out (Map K V) β} {t' : Map K V} {b : β} (h : lift r f = .ok t' b) :
    ∃ a, r = .ok a ∧ f a = .ok t' b := by
  cases r with
  | ok a => exact ⟨a, rfl, h⟩
  | diverge => cases h
  | ub => cases h

theorem putRich_mask (t : Map K V) (i : Nat) (c : Ctrl) (e : K × V) : (putRich t i c e).mask = t.mask := rfl

theorem placeLoop_mask (reh : Bool) (target : Nat) : ∀ (f i : Nat) (c : Ctrl) (e : K × V) (t : Map K V) {q : Map K V × Bool},
    placeLoop reh target f i c e t = .ok q → q.1.mask = t.mask := by
  intro f
  induction f with
  | zero => intro i c e t q h; cases h
  | succ f ih =>
    intro i c e t q h
    unfold placeLoop at h
    split at h
    · cases h; rfl
    · cases hs : swapStep t i c e with
      | none => rw [hs] at h; cases h
      | some x =>
        obtain ⟨t1, c1, e1⟩ := x
        rw [hs] at h
        have h1 : t1.mask = t.mask := by
          unfold swapStep at hs
          split at hs
          · cases hx : t.slot i with
            | none => rw [hx] at hs; cases hs
            | some y => rw [hx] at hs; cases hs; rfl
          · cases hs; rfl
        simp only at h
        split at h
        · cases h; exact h1
        · exact (ih _ _ _ _ h).trans h1

theorem makeRoom_mask {reh : Bool} {i : Nat} {c : Ctrl} {t : Map K V} {q : Map K V × Bool} (h : makeRoom reh i c t = .ok q) :
    q.1.mask = t.mask := by
  unfold makeRoom at h
  split at h
  · cases h; rfl
  · unfold insertToPlace at h
    cases hs : t.slot i with
    | none => rw [hs] at h; cases h
    | some e =>
      rw [hs] at h
      simp only at h
      exact (placeLoop_mask _ _ _ _ _ _ _ h).trans rfl

theorem insertUnique_mask {e : K × V} {t t' : Map K V} (h : insertUnique E sec e t = .ok t') : t'.mask = t.mask := by
  unfold insertUnique at h
  obtain ⟨r, _, h⟩ := res_bind_ok h
  obtain ⟨q, h1, h⟩ := res_bind_ok h
  cases h
  exact makeRoom_mask h1

theorem transferAll_mask (old : Map K V) : ∀ (is : List Nat) (t : Map K V) {t' : Map K V}, transferAll E sec old is t = .ok t' → t'.mask = t.mask := by
  intro is
  induction is with
  | nil => intro t t' h; cases h; rfl
  | cons i is ih =>
    intro t t' h
    unfold transferAll at h
    cases hs : old.slot i with
    | none => rw [hs] at h; cases h
    | some e =>
      rw [hs] at h
      obtain ⟨t1, h1, h⟩ := res_bind_ok h
      exact (ih t1 h).trans (insertUnique_mask h1)

theorem rehashImpl_mask {sh al : Bool} {mem : Mem} {n : Nat} {t t' : Map K V} {u : Unit} (h : rehashImpl E sec sh al mem n t = .ok t' u) :
    ∃ c, calcCapacity n = .ok c ∧ ((t' = t ∧ al = false) ∨ (cap t' = c ∧ c ≤ 2 ^ 48 ∧ (al = false → sh = true → c ≠ cap t))) := by
  unfold rehashImpl at h
  cases hc : calcCapacity n with
  | ub => rw [hc] at h; cases h
  | diverge => rw [hc] at h; cases h
  | ok c =>
    rw [hc] at h
    simp only at h
    refine ⟨c, rfl, ?_⟩
    split at h
    · rename_i hcond
      right
      unfold createGroup at h
      simp only at h
      split at h
      · rename_i t1 _ heq
        split at heq
        · cases heq
        · rename_i hn
          split at heq
          · cases heq
          · cases heq
            split at h
            · cases h
            · split at h
              · rename_i t2 ht2
                cases h
                have h1 := transferAll_mask _ _ _ ht2
                have h2 : 4 ≤ c := by
                  rw [calcCapacity_eq] at hc
                  obtain ⟨j, hj, rfl, _⟩ := Robin.calcCapacity_ok hc
                  exact Robin.pow_two_le hj
                refine ⟨by unfold cap; rw [h1]; show c - 1 + 1 = c; omega, ?_, fun ha hs => ?_⟩
                · have : ¬ memLimit < c := fun hx => hn (Or.inr hx)
                  unfold memLimit at this; omega
                · subst ha hs; simpa using hcond
              · cases h
              · cases h
      · cases h
      · cases h
      · cases h
    · rename_i hcond
      cases h
      left
      cases al with
      | true => simp at hcond
      | false => exact ⟨rfl, rfl⟩

/-- A map that can grow, and one that has grown out of it. -/
theorem grow_mask {mem : Mem} {t t' : Map K V} {u : Unit} (hc : cap t ≤ 2 ^ 48) (h : grow E sec mem t = .ok t' u) :
    t.mask < t'.mask ∧ cap t' ≤ 2 ^ 48 := by
  unfold grow at h
  obtain ⟨c, h1, ⟨_, h2⟩ | ⟨h2, h3, _⟩⟩ := rehashImpl_mask h
  · cases h2
  · rw [calcCapacity_eq] at h1
    obtain ⟨j, _, _, h5, _⟩ := Robin.calcCapacity_ok h1
    rw [Nat.mod_eq_of_lt (by unfold W; omega)] at h5
    unfold cap at *
    omega

theorem prepare_mask {mem : Mem} {k : K} : ∀ (f : Nat) (t : Map K V) {t' : Map K V} {r : Nat × Option Nat}, cap t ≤ 2 ^ 48 →
    prepare E sec mem k f t = .ok t' r → (t' = t ∨ t.mask < t'.mask) ∧ cap t' ≤ 2 ^ 48 := by
  intro f
  induction f with
  | zero => intro t t' r _ h; cases h
  | succ f ih =>
    intro t t' r hc h
    have hgrow : (grow E sec mem t).bind (fun t' _ => prepare E sec mem k f t') = .ok t' r → (t' = t ∨ t.mask < t'.mask) ∧ cap t' ≤ 2 ^ 48 := by
      intro h
      obtain ⟨t1, u, h1, h2⟩ := out_bind_ok h
      obtain ⟨h3, h4⟩ := grow_mask hc h1
      obtain ⟨h5, h6⟩ := ih t1 h4 h2
      refine ⟨Or.inr ?_, h6⟩
      rcases h5 with h5 | h5
      · rw [h5]; exact h3
      · omega
    unfold prepare at h
    obtain ⟨q, _, h⟩ := lift_ok h
    cases q with
    | hit j => cases h; exact ⟨Or.inl rfl, hc⟩
    | full => exact hgrow h
    | stop i d =>
      simp only at h
      split at h
      · exact hgrow h
      · cases h; exact ⟨Or.inl rfl, hc⟩

theorem valueAt_grown {t0 t : Map K V} (h : t0.mask < t.mask) (j : Nat) : valueAt t0 t j = .ub := by
  unfold valueAt
  rw [if_neg (by omega)]

/-- After a growth every read of the reference is undefined. -/
theorem emplaceRef_grown (update : Bool) (mem : Mem) (k : K) (v : V) (j : Nat) (t0 : Map K V) : ∀ (f : Nat) (t : Map K V), t0.mask < t.mask →
    cap t ≤ 2 ^ 48 → emplaceRef E sec update mem k j t0 f t = viaRef update k j t0 (emplace E sec update mem true k v f t) := by
  intro f
  induction f with
  | zero => intro t _ _; rfl
  | succ f ih =>
    intro t ht hc
    unfold emplaceRef emplace
    cases h1 : prepare E sec mem k 64 t with
    | throw s => rfl
    | diverge => rfl
    | ub => rfl
    | ok t1 r =>
      obtain ⟨h2, hc1⟩ := prepare_mask 64 t hc h1
      have hm : t0.mask < t1.mask := by
        rcases h2 with h2 | h2
        · rw [h2]; exact ht
        · omega
      have hm1 : t1.mask ≠ t0.mask := by omega
      simp only [Out.bind_ok]
      obtain ⟨i, o⟩ := r
      cases o with
      | none =>
        simp only [valueAt_grown hm]
        cases hs : t1.slot i with
        | none => rfl
        | some e =>
          cases update with
          | true => simp [viaRef, hm1]
          | false => simp [viaRef]
      | some d =>
        simp only
        cases hr : makeRoom false i ⟨d, tagOf E sec k⟩ t1 with
        | diverge => rfl
        | ub => rfl
        | ok q =>
          have hq := makeRoom_mask hr
          have hm2 : q.1.mask ≠ t0.mask := by rw [hq]; exact hm1
          simp only [lift]
          by_cases hb : q.2 = true
          · rw [if_pos hb, if_pos hb]
            cases hg : grow E sec mem q.1 with
            | throw s => rfl
            | diverge => rfl
            | ub => rfl
            | ok t2 u =>
              obtain ⟨h5, h6⟩ := grow_mask (by unfold cap; rw [hq]; exact hc1) hg
              exact ih t2 (by omega) h6
          · rw [if_neg hb, if_neg hb, valueAt_grown (by omega)]
            simp [viaRef, hm2]

/-- The call with the reference against the call with a copy of the value. -/
theorem emplaceRef_eq {t : Map K V} {j : Nat} {s : K × V} (hc : cap t ≤ 2 ^ 48) (hj : t.slot j = some s) (update : Bool) (mem : Mem) (k : K) (F : Nat) :
    emplaceRef E sec update mem k j t F t = viaRef update k j t (emplace E sec update mem true k s.2 F t) := by
  cases F with
  | zero => rfl
  | succ f =>
    unfold emplaceRef emplace
    cases h1 : prepare E sec mem k 64 t with
    | throw s => rfl
    | diverge => rfl
    | ub => rfl
    | ok t1 r =>
      obtain ⟨h2, hc1⟩ := prepare_mask 64 t hc h1
      simp only [Out.bind_ok]
      obtain ⟨i, o⟩ := r
      cases o with
      | none =>
        simp only
        cases hs : t1.slot i with
        | none => rfl
        | some e =>
          cases update with
          | false => simp [viaRef]
          | true =>
            rcases h2 with h2 | h2
            · subst h2
              simp [viaRef, valueAt, hj]
            · have hm : t1.mask ≠ t.mask := by omega
              simp [viaRef, valueAt_grown h2, hm]
      | some d =>
        simp only
        cases hr : makeRoom false i ⟨d, tagOf E sec k⟩ t1 with
        | diverge => rfl
        | ub => rfl
        | ok q =>
          have hq := makeRoom_mask hr
          simp only [lift]
          by_cases hb : q.2 = true
          · rw [if_pos hb, if_pos hb]
            cases hg : grow E sec mem q.1 with
            | throw s => rfl
            | diverge => rfl
            | ub => rfl
            | ok t2 u =>
              obtain ⟨h5, h6⟩ := grow_mask (by unfold cap; rw [hq]; exact hc1) hg
              refine emplaceRef_grown update mem k s.2 j t f t2 ?_ h6
              rcases h2 with h2 | h2
              · rw [← h2]; omega
              · omega
          · rw [if_neg hb, if_neg hb]
            unfold viaRef valueAt
            simp only [if_true]
            by_cases hji : j = i
            · rw [if_pos hji, if_pos hji, ite_self]
            · rw [if_neg hji, if_neg hji]
              by_cases hm : q.1.mask = t.mask
              · rw [if_pos hm, if_pos hm, upd_other _ _ hji]
                cases hs : q.1.slot j with
                | none => rfl
                | some e => simp only [upd_twice]
              · rw [if_neg hm, if_neg hm]

theorem emplace_slot (update : Bool) (mem : Mem) (k : K) (v : V) : ∀ (f : Nat) (t : Map K V) {t' : Map K V} {i : Nat},
    emplace E sec update mem true k v f t = .ok t' (i, true) → t'.slot i = some (k, v) := by
  intro f
  induction f with
  | zero => intro t t' i h; cases h
  | succ f ih =>
    intro t t' i h
    unfold emplace at h
    obtain ⟨t1, ⟨i1, o⟩, _, h⟩ := out_bind_ok h
    cases o with
    | none =>
      simp only at h
      split at h <;> cases h
    | some d =>
      obtain ⟨q, _, h⟩ := lift_ok h
      simp only at h
      split at h
      · obtain ⟨t2, _, _, h⟩ := out_bind_ok h
        exact ih t2 h
      · cases h; exact upd_self _ _ _

/-- A present key is hit and nothing but its slot is touched. -/
theorem insert_present (hE : E.Lawful) {t : Map K V} (hR : Reach E sec t) {k : K} (hk : TagOk E sec t k) {e : K × V} (hm : e ∈ entries t)
    (he : E.eq e.1 k = true) (update : Bool) (mem : Mem) (v : V) : ∃ i x, i < cap t ∧ used t i = true ∧ t.slot i = some x ∧ E.eq x.1 k = true ∧
      insert E sec update mem true k v t = .ok (if update then { t with slot := upd t.slot i (some (x.1, v)) } else t) (i, false) := by
  obtain ⟨m, _, hp⟩ := probe_spec hR.toTab hE hk hR.exists_empty (s := 4) (by decide)
  rcases hp with ⟨i, h1, h2, h3⟩ | ⟨h1, h2⟩
  · obtain ⟨hu, x, hs, hx⟩ := h3
    refine ⟨i, x, h2, ?_, hs, hx, ?_⟩
    · have := hR.bound i h2
      unfold used bEmpty
      rcases this with h4 | h4
      · exact absurd h4 hu
      · simp; omega
    · unfold insert
      generalize hF : (64 : Nat) = F
      obtain ⟨f, rfl⟩ : ∃ f, F = f + 1 := ⟨F - 1, by omega⟩
      unfold emplace
      have hp : prepare E sec mem k 64 t = .ok t (i, none) := by
        rw [hF]
        unfold prepare
        rw [h1]
        rfl
      rw [hp]
      simp only [Out.bind_ok, hs]
  · exfalso
    exact h2 _ ((mem_entries hR.toBase).mp hm).choose_spec.1 ⟨((mem_entries hR.toBase).mp hm).choose_spec.2.1, e,
      ((mem_entries hR.toBase).mp hm).choose_spec.2.2, he⟩

/-- The slot `j` holds the element `s`: what a reference to the mapped value of `s` refers to. -/
def At (t : Map K V) (j : Nat) (s : K × V) : Prop := j < cap t ∧ cellAt t j = some s

theorem At.slot {t : Map K V} {j : Nat} {s : K × V} (h : At t j s) : used t j = true ∧ t.slot j = some s := by
  have h1 := h.2
  unfold cellAt at h1
  split at h1
  · exact ⟨by assumption, h1⟩
  · cases h1

theorem At.key {t : Map K V} {j : Nat} {s : K × V} (h : At t j s) : (t.ctrl j).dist ≠ 255 := by
  have := h.slot.1
  unfold used bEmpty at this
  simp only [decide_eq_true_eq] at this
  omega

theorem At.mem {t : Map K V} (hB : Base t) {j : Nat} {s : K × V} (h : At t j s) : s ∈ entries t :=
  (mem_entries hB).mpr ⟨j, h.1, h.key, h.slot.2⟩

theorem cellAt_inj (hE : E.Lawful) {t : Map K V} (h : Inv E sec t) {i j : Nat} {e s : K × V} (hi : At t i e) (hj : At t j s)
    (hk : E.eq e.1 s.1 = true) : i = j := by
  have hd := h.distinct
  unfold entries at hd
  rw [Distinct, List.pairwise_filterMap, List.pairwise_iff_getElem] at hd
  have key : ∀ {a b : Nat} {x y : K × V}, a < b → At t a x → At t b y → E.eq x.1 y.1 = false := by
    intro a b x y hab ha hb
    exact hd a b (by simpa using ha.1) (by simpa using hb.1) hab x (by simpa using ha.2) y (by simpa using hb.2)
  rcases Nat.lt_trichotomy i j with hlt | heq | hlt
  · rw [key hlt hi hj] at hk; cases hk
  · exact heq
  · have := key hlt hj hi
    rw [hE.symm _ _ hk] at this; cases this

theorem mask_of_cap {t t' : Map K V} (h : cap t' = cap t) : t'.mask = t.mask := by unfold cap at h; omega

theorem insertRef_eq {t : Map K V} (hR : Reach E sec t) {j : Nat} {s : K × V} (hj : At t j s) (update : Bool) (mem : Mem) (k : K) :
    insertRef E sec update mem k j t = viaRef update k j t (insert E sec update mem true k s.2 t) :=
  emplaceRef_eq hR.cap_le hj.slot.2 update mem k 64

/-- C112. `emplace(key, m.at(x))`, `try_emplace` and `insert_or_assign` with a reference to the mapped value of an element `s` of the same map do
what the call with a copy of that value does: if the key is present; if the call throws; and if the call keeps `capacity()` and leaves `s`
in its slot.  Missing: the insertions that grow the map or move `s` (C112_reference_argument_dangles, C112_reference_argument_moved). -/
theorem C112_reference_argument_partial (hE : E.Lawful) {t : Map K V} (hR : Reach E sec t) {j : Nat} {s : K × V} (hj : At t j s)
    {update : Bool} {mem : Mem} {k : K} (hk : TagOk E sec t k) {t' : Map K V} :
    (Spec.get E.eq (entries t) k ≠ none → insertRef E sec update mem k j t = insert E sec update mem true k s.2 t) ∧
    (insert E sec update mem true k s.2 t = .throw t' → insertRef E sec update mem k j t = .throw t') ∧
    (∀ r, insert E sec update mem true k s.2 t = .ok t' r → cap t' = cap t → t'.slot j = some s →
      insertRef E sec update mem k j t = .ok t' r) := by
  rw [insertRef_eq hR hj]
  have hpres : ∀ e, Spec.get E.eq (entries t) k = some e → ∃ t1 i, insert E sec update mem true k s.2 t = .ok t1 (i, false) ∧ t1.mask = t.mask := by
    intro e hg
    obtain ⟨h1, h2⟩ := (Spec.get_some_iff hE hR.distinct).mp hg
    obtain ⟨i, x, _, _, _, _, h3⟩ := insert_present hE hR hk h1 (hE.symm _ _ h2) update mem s.2
    exact ⟨_, i, h3, by cases update <;> rfl⟩
  refine ⟨fun hg => ?_, fun hx => (by rw [hx]; rfl), fun r hx hc hs => ?_⟩
  · cases hg' : Spec.get E.eq (entries t) k with
    | none => exact absurd hg' hg
    | some e =>
      obtain ⟨t1, i, h2, h3⟩ := hpres e hg'
      rw [h2]
      simp [viaRef, h3]
  · obtain ⟨i, b⟩ := r
    have hmk := mask_of_cap hc
    cases b with
    | false => rw [hx]; simp [viaRef, hmk]
    | true =>
      have h1 := emplace_slot update mem k s.2 64 t hx
      have hne : j ≠ i := by
        rintro rfl
        rw [h1] at hs
        have hsk : (k, s.2) = s := Option.some.inj hs
        obtain ⟨t1, i, h2, _⟩ := hpres s ((Spec.get_some_iff hE hR.distinct).mpr ⟨hj.mem hR.toBase, by rw [← hsk]; exact hE.refl k⟩)
        rw [hx] at h2; cases h2
      rw [hx]
      unfold viaRef
      simp only
      rw [if_pos hmk, if_neg hne, hs]
      simp only
      rw [upd_same h1]

/-- C112, deviation. Whenever the same call with a copy of the value inserts a new element and changes `capacity()`, the call with the reference
reads freed memory. -/
theorem C112_reference_argument_dangles {t : Map K V} (hR : Reach E sec t) {j : Nat} {s : K × V} (hj : At t j s)
    {update : Bool} {mem : Mem} {k : K} {t' : Map K V} {i : Nat}
    (hx : insert E sec update mem true k s.2 t = .ok t' (i, true)) (hc : cap t' ≠ cap t) : insertRef E sec update mem k j t = .ub := by
  rw [insertRef_eq hR hj, hx]
  unfold viaRef
  simp only
  rw [if_neg fun hmk => hc (by unfold cap; rw [hmk])]

/-- C112, deviation. Whenever the same call with a copy of the value inserts a new element, keeps `capacity()`, and moves the element `s` the
reference refers to, then either the call with the reference reads a destroyed object, or the new element gets the value of the
element that came into the place of `s`. -/
theorem C112_reference_argument_moved {t : Map K V} (hR : Reach E sec t) {j : Nat} {s : K × V} (hj : At t j s)
    {update : Bool} {mem : Mem} {k : K} {t' : Map K V} {i : Nat}
    (hx : insert E sec update mem true k s.2 t = .ok t' (i, true)) (hc : cap t' = cap t) (hs : t'.slot j ≠ some s) :
    insertRef E sec update mem k j t = .ub ∨
      ∃ e, e ≠ s ∧ t'.slot j = some e ∧ j ≠ i ∧
        insertRef E sec update mem k j t = .ok { t' with slot := upd t'.slot i (some (k, e.2)) } (i, true) := by
  rw [insertRef_eq hR hj, hx]
  unfold viaRef
  simp only
  rw [if_pos (mask_of_cap hc)]
  by_cases hji : j = i
  · left; rw [if_pos hji]
  · rw [if_neg hji]
    cases he : t'.slot j with
    | none => left; rfl
    | some e => right; exact ⟨e, fun hes => hs (by rw [he, hes]), rfl, hji, rfl⟩

/-- What the caller sees of the insertion: the flag, the new capacity and the element, or `none` for an undefined outcome. -/
def seenRef (r : Out (Map Nat Nat) (Nat × Bool)) : Option (Bool × Nat × Option (Nat × Nat)) :=
  match r with
  | .ok t (i, b) => some (b, cap t, cellAt t i)
  | _ => none

/-- The test behind the witnesses: `emplace(k, v)` with a copy gives `x`, with a reference to the mapped value of `s` in slot `j` gives `y`. -/
def refB (k j : Nat) (s : Nat × Nat) (x y : Option (Bool × Nat × Option (Nat × Nat))) (t : Map Nat Nat) : Bool :=
  decide (j < cap t) && (cellAt t j == some s) && (seenRef (insert (hashEnv id) odd false .ok true k s.2 t) == x) &&
    (seenRef (insertRef (hashEnv id) odd false .ok k j t) == y)

theorem ref_of {cs : List (Call Nat Nat)} {k j : Nat} {s : Nat × Nat} {x y : Option (Bool × Nat × Option (Nat × Nat))}
    (hg : guardedB false (fun _ => 131072) cs start [] = true) (hp : endsIn (play false odd cs) (fun _ t => refB k j s x y t) = true) :
    ∃ t, Reach (hashEnv id) odd t ∧ At t j s ∧ seenRef (insert (hashEnv id) odd false .ok true k s.2 t) = x ∧
      seenRef (insertRef (hashEnv id) odd false .ok k j t) = y := by
  obtain ⟨t, h1, h2⟩ := reach_play hg hp
  unfold refB at h2
  simp only [Bool.and_eq_true, decide_eq_true_eq, beq_iff_eq] at h2
  obtain ⟨⟨⟨h3, h4⟩, h5⟩, h6⟩ := h2
  exact ⟨t, h1, ⟨h3, h4⟩, h5, h6⟩

set_option maxRecDepth 100000

/-- C112, deviation. With 0, 1, 2 in a map of eight positions, `m.emplace(8, m.at(2))` stores 1, the value of key 1, for key 8; with a copy of the
value it stores 2. -/
theorem C112_wrong_value : ∃ t, Reach (hashEnv id) odd t ∧ At t 2 (2, 2) ∧
    seenRef (insert (hashEnv id) odd false .ok true 8 2 t) = some (true, 8, some (8, 2)) ∧
    seenRef (insertRef (hashEnv id) odd false .ok 8 2 t) = some (true, 8, some (8, 1)) :=
  ref_of (cs := ins 3 1) (s := (2, 2)) (by decide +kernel) (by decide +kernel)

/-- C112, deviation. In the same map `m.emplace(8, m.at(1))` reads a destroyed object. -/
theorem C112_destroyed_value : ∃ t, Reach (hashEnv id) odd t ∧ At t 1 (1, 1) ∧
    seenRef (insert (hashEnv id) odd false .ok true 8 1 t) = some (true, 8, some (8, 1)) ∧
    seenRef (insertRef (hashEnv id) odd false .ok 8 1 t) = none :=
  ref_of (cs := ins 3 1) (s := (1, 1)) (by decide +kernel) (by decide +kernel)

/-- C112, deviation. With 0, …, 3 in a map of eight positions, `m.emplace(8, m.at(1))` reads freed memory. -/
theorem C112_freed_value : ∃ t, Reach (hashEnv id) odd t ∧ At t 1 (1, 1) ∧
    seenRef (insert (hashEnv id) odd false .ok true 8 1 t) = some (true, 16, some (8, 1)) ∧
    seenRef (insertRef (hashEnv id) odd false .ok 8 1 t) = none :=
  ref_of (cs := ins 4 1) (s := (1, 1)) (by decide +kernel) (by decide +kernel)

/-- A call of C112_reference_argument_partial with a new key: nothing moves. -/
example : ∃ t, Reach (hashEnv id) odd t ∧ At t 1 (1, 1) ∧
    seenRef (insert (hashEnv id) odd false .ok true 5 1 t) = some (true, 8, some (5, 1)) ∧
    seenRef (insertRef (hashEnv id) odd false .ok 5 1 t) = some (true, 8, some (5, 1)) :=
  ref_of (cs := ins 3 1) (s := (1, 1)) (by decide +kernel) (by decide +kernel)

/-! ### References across calls -/

theorem rehashImpl_same {mem : Mem} {n : Nat} {t t' : Map K V} {u : Unit} (h : rehashImpl E sec true false mem n t = .ok t' u)
    (hc : cap t' = cap t) : t' = t := by
  obtain ⟨c, _, ⟨h1, _⟩ | ⟨h1, _, h2⟩⟩ := rehashImpl_mask h
  · exact h1
  · exact absurd (h1.symm.trans hc) (h2 rfl rfl)

/-- The calls that neither add nor remove an element, with keys that are not taken for an end mark. -/
def Quiet (E : Env K) (sec : Nat → Nat) (t : Map K V) : Call K V → Prop
  | .insert k _ | .assign k _ | .index k _ => TagOk E sec t k ∧ Spec.get E.eq (entries t) k ≠ none
  | .erase k => TagOk E sec t k ∧ Spec.get E.eq (entries t) k = none
  | .clear _ => False
  | _ => True

/-- C112. A call that neither adds nor removes an element and does not change `capacity()` leaves every element it does not itself
overwrite in its slot, unchanged: references and iterators to it stay valid. -/
theorem C112_references_stay_partial (hE : E.Lawful) {triv : Bool} {rv : Nat → Nat} {t t' : Map K V} (hR : Reach E sec t) {j : Nat} {s : K × V}
    (hj : At t j s) {mem : Mem} {c : Call K V} {a : Ans K V} (hq : Quiet E sec t c) (hk : ∀ k v, c = .assign k v → E.eq s.1 k = false)
    (hx : exec E sec triv rv mem c t = .ok t' a) (hc : cap t' = cap t) : At t' j s := by
  have hlift : ∀ {α : Type} {r : Res α} {f : α → Ans K V}, lift r (fun x => Out.ok t (f x)) = .ok t' a → At t' j s := by
    intro α r f h
    obtain ⟨x, _, h⟩ := lift_ok h
    cases h; exact hj
  have hput : ∀ (update : Bool) (k : K) (v : V) {t1 : Map K V} {r : Nat × Bool}, TagOk E sec t k ∧ Spec.get E.eq (entries t) k ≠ none →
      (update = true → E.eq s.1 k = false) → insert E sec update mem true k v t = .ok t1 r → At t1 j s := by
    intro update k v t1 r hg hk h1
    cases hg' : Spec.get E.eq (entries t) k with
    | none => exact absurd hg' hg.2
    | some e =>
      obtain ⟨h2, h3⟩ := (Spec.get_some_iff hE hR.distinct).mp hg'
      obtain ⟨i, x, _, _, h4, h5, h6⟩ := insert_present hE hR hg.1 h2 (hE.symm _ _ h3) update mem v
      rw [h6] at h1
      cases update with
      | false => cases h1; exact hj
      | true =>
        cases h1
        have hji : j ≠ i := by
          rintro rfl
          rw [hj.slot.2] at h4
          cases h4
          rw [hk rfl] at h5; cases h5
        refine ⟨hj.1, ?_⟩
        have := hj.2
        unfold cellAt at this ⊢
        show (if used t j then upd t.slot i _ j else none) = some s
        rw [upd_other _ _ hji]; exact this
  cases c with
  | insert k v =>
    obtain ⟨s1, ⟨i, b⟩, h1, h2⟩ := out_bind_ok hx
    have := hput false k v hq (by simp) h1
    unfold readElem at h2
    split at h2
    · cases h2
    · cases h2; exact this
  | assign k v =>
    obtain ⟨s1, ⟨i, b⟩, h1, h2⟩ := out_bind_ok hx
    have := hput true k v hq (fun _ => hk k v rfl) h1
    unfold readElem at h2
    split at h2
    · cases h2
    · cases h2; exact this
  | index k v =>
    obtain ⟨s1, ⟨i, b⟩, h1, h2⟩ := out_bind_ok hx
    have := hput false k v hq (by simp) h1
    unfold readValue at h2
    split at h2
    · cases h2
    · cases h2; exact this
  | find k => exact hlift hx
  | contains k => exact hlift hx
  | count k => exact hlift hx
  | «at» k => exact hlift hx
  | iterate => exact hlift hx
  | size => cases hx; exact hj
  | empty => cases hx; exact hj
  | erase k =>
    obtain ⟨s1, n, h1, h2⟩ := out_bind_ok hx
    cases h2
    unfold eraseKey at h1
    rcases findIdx_spec hR.toCore hE hq.1 with ⟨x, h2, h3, h4, e, h5, h6⟩ | ⟨h2, _⟩
    · exfalso
      have := (Spec.get_some_iff hE hR.distinct).mpr ⟨(mem_entries hR.toBase).mpr ⟨x, h3, h4, h5⟩, hE.symm _ _ h6⟩
      rw [hq.2] at this; cases this
    · rw [h2] at h1; cases h1; exact hj
  | clear d => exact hq.elim
  | reserve n =>
    obtain ⟨s1, u, h1, h2⟩ := out_bind_ok hx
    cases h2
    rw [rehashImpl_same h1 hc]; exact hj
  | rehash n =>
    obtain ⟨s1, u, h1, h2⟩ := out_bind_ok hx
    cases h2
    rw [rehashImpl_same h1 hc]; exact hj
  | shrink ro =>
    obtain ⟨s1, u, h1, h2⟩ := out_bind_ok hx
    cases h2
    rw [rehashImpl_same h1 hc]; exact hj
  | maxLoad x =>
    obtain ⟨s1, u, h1, h2⟩ := out_bind_ok hx
    cases h2
    unfold setMlf at h1
    simp only at h1
    split at h1
    · rw [rehashImpl_same h1 hc]; exact hj
    · cases h1; exact hj

/-- C112. `insert_or_assign` of a present key writes the new value into the slot of the element, which keeps its key, and touches no
other slot. -/
theorem C112_assign_in_place (hE : E.Lawful) {t : Map K V} (hR : Reach E sec t) {j : Nat} {s : K × V} (hj : At t j s) {mem : Mem} {k : K} (v : V)
    (hk : E.eq k s.1 = true) (hg : TagOk E sec t k) :
    ∃ t', insert E sec true mem true k v t = .ok t' (j, false) ∧ cap t' = cap t ∧ At t' j (s.1, v) ∧ ∀ i, i ≠ j → cellAt t' i = cellAt t i := by
  obtain ⟨i, x, h1, h2, h3, h4, h5⟩ := insert_present hE hR hg (hj.mem hR.toBase) (hE.symm _ _ hk) true mem v
  have hi : At t i x := ⟨h1, by unfold cellAt; rw [h2]; exact h3⟩
  have hij : i = j := cellAt_inj hE hR.toInv hi hj (hE.trans _ _ _ h4 hk)
  subst hij
  have hxs : x = s := Option.some.inj (hi.2.symm.trans hj.2)
  subst hxs
  refine ⟨_, h5, rfl, ⟨h1, ?_⟩, fun i' hi' => ?_⟩
  · unfold cellAt
    show (if used t i then upd t.slot i _ i else none) = _
    rw [h2, upd_self]; rfl
  · unfold cellAt
    show (if used t i' then upd t.slot i _ i' else none) = _
    rw [upd_other _ _ hi']

/-- The element in slot `j` and the capacity after a history. -/
def sees (n : Nat) (l : List (Nat × Option (Nat × Nat))) (t : Map Nat Nat) : Bool :=
  (cap t == n) && l.all fun p => cellAt t p.1 == p.2

/-- An assignment to another key, and the assignment of C112_assign_in_place. -/
example : ∃ t, Reach (hashEnv id) odd t ∧ At t 2 (2, 2) ∧ Quiet (hashEnv id) odd t (Call.assign 1 9) ∧
    ∃ t' a, exec (hashEnv id) odd false (fun _ => 131072) .ok (Call.assign 1 9) t = .ok t' a ∧ cap t' = cap t := by
  obtain ⟨t, h1, h2⟩ := reach_play (triv := false) (cs := ins 3 1) (p := fun t => sees 8 [(2, some (2, 2)), (1, some (1, 1))] t &&
    (match exec (hashEnv id) odd false (fun _ => 131072) .ok (Call.assign 1 9) t with
     | .ok t' _ => cap t' == 8
     | _ => false)) (by decide +kernel) (by decide +kernel)
  unfold sees at h2
  simp only [Bool.and_eq_true, beq_iff_eq, List.all_cons, List.all_nil, and_true] at h2
  obtain ⟨⟨hc, h3, h4⟩, h5⟩ := h2
  have ha : At t 1 (1, 1) := ⟨by omega, h4⟩
  refine ⟨t, h1, ⟨by omega, h3⟩, ⟨odd_ok t 1, ?_⟩, ?_⟩
  · have := (Spec.get_some_iff (hashEnv_lawful id) h1.distinct).mpr ⟨ha.mem h1.toBase, (hashEnv_lawful id).refl 1⟩
    rw [this]; simp
  · cases hx : exec (hashEnv id) odd false (fun _ => 131072) .ok (Call.assign 1 9) t with
    | ub => rw [hx] at h5; cases h5
    | diverge => rw [hx] at h5; cases h5
    | throw s => rw [hx] at h5; cases h5
    | ok t' a =>
      rw [hx] at h5
      exact ⟨t', a, rfl, by rw [hc]; simpa using h5⟩

/-- C112, deviation. With 0, 1, 2 in a map of eight positions, `emplace(8, …)` keeps `capacity()` and moves the elements 1 and 2. -/
theorem C112_insert_moves :
    endsIn (play false odd (ins 3 1)) (fun _ t => sees 8 [(1, some (1, 1)), (2, some (2, 2))] t) = true ∧
    endsIn (play false odd (ins 3 1 ++ [Call.insert 8 8])) (fun _ t => sees 8 [(1, some (8, 8)), (2, some (1, 1))] t) = true := by
  decide +kernel

/-- C112, deviation. With 0, 8, 16 in a map of eight positions, `erase(8)` keeps `capacity()` and moves the element 16. -/
theorem C112_erase_moves :
    endsIn (play false odd (ins 3 8)) (fun _ t => sees 8 [(1, some (8, 1)), (2, some (16, 2))] t) = true ∧
    endsIn (play false odd (ins 3 8 ++ [Call.erase 8])) (fun _ t => sees 8 [(1, some (16, 2)), (2, none)] t) = true := by
  decide +kernel

end Verif.Rob16
