/-
Arguments that are references into the same `robin_hash_map`, direct layout (C110).

Abbreviation: RH = src/jstd/hashmap/robin_hash_map.h.
-/
import Verif.RobinLoad

namespace Verif.Robin
open Spec (Distinct Call Ans)

section Model
variable {K V : Type} (store chk : Bool) (E : Env K)

/-- Read through a reference to the mapped value in slot `j`, taken in state `t`, when the map is in state `t1`.  A map of another
capacity has another block; an element that was moved away from slot `j` is destroyed. -/
def valueAt (t t1 : Map K V) (j : Nat) : Res V :=
  if t1.mask = t.mask then
    match t1.slot j with
    | some e => .ok e.2
    | none => .ub
  else .ub

/-- `emplace_impl<AlwaysUpdate>(key, mapped)` (RH:5870-5968) and `try_emplace_impl(key, mapped)` (RH:6101-6141) when `mapped` is a reference to
the mapped value in slot `j` of the same map: `find_or_insert(key)` runs first and makes room by moving elements
(`insert_to_place` RH:5706-5778), the forwarded reference is read by the constructor or the assignment after it.  `t0` is the map at the time of the
call. -/
def emplaceRefLoop (update mem : Bool) (k : K) (j : Nat) (t0 : Map K V) : Nat → Map K V → Out (Map K V) (Nat × Bool)
  | 0, _ => .diverge
  | f + 1, t =>
    (findOrInsert store chk E mem k t).bind fun t' r =>
      match r with
      | .notExists i =>
        match valueAt t0 t' j with
        | .ok v => lift (construct i (k, v) t') fun t'' => .ok t'' (i, true)
        | _ => .ub
      | .exists_ i =>
        match t'.slot i with
        | none => .ub
        | some e =>
          if update then
            match valueAt t0 t' j with
            | .ok v => .ok { t' with slot := upd t'.slot i (some (e.1, v)) } (i, false)
            | _ => .ub
          else .ok t' (i, false)
      | .needGrow => (grow store chk E mem t').bind fun t'' _ => emplaceRefLoop update mem k j t0 f t''

/-- With its full fuel, as `emplace` for `emplace_impl` (RH:5870-5968). -/
def emplaceRef (update mem : Bool) (k : K) (j : Nat) (t : Map K V) : Out (Map K V) (Nat × Bool) :=
  emplaceRefLoop store chk E update mem k j t 64 t

end Model

variable {K V : Type} {E : Env K} {store chk : Bool}

/-- What the call with the reference into slot `j` makes of the outcome of the call with a copy. -/
def viaRef (update : Bool) (k : K) (j : Nat) (t : Map K V) : Out (Map K V) (Nat × Bool) → Out (Map K V) (Nat × Bool)
  | .ok t' (i, true) =>
    if t'.mask = t.mask then
      if j = i then .ub else
        match t'.slot j with
        | none => .ub
        | some e => .ok { t' with slot := upd t'.slot i (some (k, e.2)) } (i, true)
    else .ub
  | .ok t' (i, false) => if update = true ∧ t'.mask ≠ t.mask then .ub else .ok t' (i, false)
  | o => o

theorem upd_twice {α : Type} (f : Nat → α) (i : Nat) (a b : α) : upd (upd f i a) i b = upd f i b := by
  funext x
  by_cases h : x = i
  · subst h; rw [upd_self, upd_self]
  · rw [upd_other _ _ h, upd_other _ _ h, upd_other _ _ h]

theorem placeLoop_hole (rh : Bool) (p0 : Nat) : ∀ (f : Nat) (t : Map K V) (i : Nat) (r : Ctrl) {t' : Map K V},
    placeLoop store chk rh p0 f t i r = .ok (t', true) → t'.slot p0 = none := by
  have hng : ∀ {t t' : Map K V} {r : Ctrl}, needGrow p0 t r = .ok (t', true) → False := by
    intro t t' r h
    unfold needGrow at h
    cases hs : t.slot p0 with
    | none => rw [hs] at h; cases h
    | some e => rw [hs] at h; cases h
  intro f
  induction f with
  | zero => intro t i r t' h; exact (hng h).elim
  | succ f ih =>
    intro t i r t' h
    unfold placeLoop at h
    split at h
    · cases hs : t.slot p0 with
      | none => rw [hs] at h; cases h
      | some e => rw [hs] at h; cases h; exact upd_self _ _ _
    · split at h
      · simp only at h
        split at h
        · exact (hng h).elim
        · exact ih _ _ _ h
      · split at h
        · cases h
        · split at h
          · exact (hng h).elim
          · exact ih _ _ _ h

theorem place_hole {rh : Bool} {t t' : Map K V} {i : Nat} {d : Ctrl} (hc : (t.ctrl i).isEmpty = true → t.slot i = none)
    (h : place store chk rh t i d = .ok (t', true)) : t'.slot i = none := by
  unfold place at h
  split at h
  · split at h
    · rename_i he; cases h; exact hc he
    · unfold insertToPlace at h
      cases hl : t.last with
      | none => rw [hl] at h; cases h
      | some n => rw [hl] at h; exact placeLoop_hole _ _ _ _ _ _ h
  · cases h

/-- The place for a new element is empty. -/
theorem findOrInsert_hole {mem : Bool} {k : K} {t t' : Map K V} {i : Nat} (hc : ∀ p, (t.ctrl p).isEmpty = true → t.slot p = none)
    (h : findOrInsert store chk E mem k t = .ok t' (.notExists i)) : Grew t t' ∨ (Fr t t' ∧ t'.slot i = none) := by
  unfold findOrInsert at h
  obtain ⟨q, h1, h⟩ := lift_ok h
  cases q with
  | hit i => cases h
  | stop i0 d =>
    simp only at h
    split at h
    · obtain ⟨t1, u, hg, h⟩ := out_bind_ok h
      obtain ⟨⟨i1, d1⟩, _, h⟩ := lift_ok h
      exact Or.inl (Grew.fr (grow_fr hg) (finish_fr h))
    · refine Or.inr ⟨finish_fr h, ?_⟩
      unfold finish at h
      obtain ⟨⟨t1, b⟩, h2, h⟩ := lift_ok h
      cases b with
      | false => cases h
      | true => cases h; exact place_hole (hc _) h2

theorem Grew.mask_lt {t t' : Map K V} (h : Grew t t') : t.mask < t'.mask := by have := h.1; omega

theorem valueAt_grown {t0 t : Map K V} (h : t0.mask < t.mask) (j : Nat) : valueAt t0 t j = .ub := by
  unfold valueAt
  rw [if_neg (by omega)]

/-- After a growth every read of the reference is undefined. -/
theorem emplaceRefLoop_grown (update mem : Bool) (k : K) (v : V) (j : Nat) (t0 : Map K V) : ∀ (f : Nat) (t : Map K V), t0.mask < t.mask →
    emplaceRefLoop store chk E update mem k j t0 f t = viaRef update k j t0 (emplaceLoop store chk E update mem k v f t) := by
  intro f
  induction f with
  | zero => intro t _; rfl
  | succ f ih =>
    intro t ht
    unfold emplaceRefLoop emplaceLoop
    cases h1 : findOrInsert store chk E mem k t with
    | throw s => rfl
    | diverge => rfl
    | ub => rfl
    | ok t1 r =>
      have hm : t0.mask < t1.mask := by
        rcases findOrInsert_fr h1 with ⟨h2, _⟩ | ⟨h2, _⟩ | ⟨h2, _⟩
        · rw [h2]; exact ht
        · rw [h2.mask]; exact ht
        · have := h2.mask_lt; omega
      simp only [Out.bind_ok]
      cases r with
      | notExists i =>
        simp only [valueAt_grown hm]
        cases hc : construct i (k, v) t1 with
        | ok t2 =>
          have hm2 : t2.mask ≠ t0.mask := by rw [(construct_fr hc).mask]; omega
          simp only [lift, viaRef, if_neg hm2]
        | diverge => unfold construct at hc; split at hc <;> cases hc
        | ub => rfl
      | exists_ i =>
        simp only [valueAt_grown hm]
        cases hs : t1.slot i with
        | none => rfl
        | some e =>
          cases update with
          | true => simp only [if_true, viaRef]; rw [if_pos ⟨trivial, fun h => by omega⟩]
          | false => simp [viaRef]
      | needGrow =>
        simp only
        cases h2 : grow store chk E mem t1 with
        | throw s => rfl
        | diverge => rfl
        | ub => rfl
        | ok t2 u =>
          simp only [Out.bind_ok]
          have := (show Grew t1 t2 from grow_fr h2).mask_lt
          exact ih t2 (by omega)

/-- The call with the reference against the call with a copy of the value. -/
theorem emplaceRef_eq {t : Map K V} {j : Nat} {s : K × V} (hj : t.slot j = some s)
    (hc : ∀ p, (t.ctrl p).isEmpty = true → t.slot p = none) (update mem : Bool) (k : K) (F : Nat) :
    emplaceRefLoop store chk E update mem k j t F t = viaRef update k j t (emplaceLoop store chk E update mem k s.2 F t) := by
  cases F with
  | zero => rfl
  | succ f =>
    unfold emplaceRefLoop emplaceLoop
    cases h1 : findOrInsert store chk E mem k t with
    | throw s => rfl
    | diverge => rfl
    | ub => rfl
    | ok t1 r =>
      simp only [Out.bind_ok]
      cases r with
      | notExists i =>
        simp only
        rcases findOrInsert_hole hc h1 with hg | ⟨hf, hi⟩
        · have hm := hg.mask_lt
          simp only [valueAt_grown hm]
          cases hcs : construct i (k, s.2) t1 with
          | ok t2 =>
            have hm2 : t2.mask ≠ t.mask := by rw [(construct_fr hcs).mask]; omega
            simp only [lift, viaRef, if_neg hm2]
          | diverge => unfold construct at hcs; split at hcs <;> cases hcs
          | ub => rfl
        · unfold valueAt construct
          rw [if_pos hf.mask]
          by_cases hlt : i < t1.slen
          · simp only [if_pos hlt, lift, viaRef]
            rw [if_pos hf.mask]
            by_cases hji : j = i
            · subst hji
              simp only [hi, if_true]
            · rw [if_neg hji, upd_other _ _ hji]
              cases hs : t1.slot j with
              | none => rfl
              | some e =>
                simp only [upd_twice]
          · simp only [if_neg hlt, lift]
            cases hs : t1.slot j <;> rfl
      | exists_ i =>
        simp only
        rcases findOrInsert_fr h1 with ⟨h2, _⟩ | ⟨_, h2, _⟩ | ⟨_, h2⟩
        · subst h2
          cases hs : t1.slot i with
          | none => rfl
          | some e =>
            cases update with
            | true => simp [valueAt, hj, viaRef]
            | false => simp [viaRef]
        · exact absurd rfl (h2 i)
        · exact absurd rfl (h2 i)
      | needGrow =>
        simp only
        cases h2 : grow store chk E mem t1 with
        | throw s => rfl
        | diverge => rfl
        | ub => rfl
        | ok t2 u =>
          simp only [Out.bind_ok]
          have h3 : t.mask < t2.mask := by
            have h4 := (show Grew t1 t2 from grow_fr h2).mask_lt
            rcases findOrInsert_fr h1 with ⟨h2, _⟩ | ⟨h2, _⟩ | ⟨h2, _⟩
            · rw [h2] at h4; exact h4
            · rw [h2.mask] at h4; exact h4
            · have := h2.mask_lt; omega
          exact emplaceRefLoop_grown update mem k s.2 j t f t2 h3

/-- An empty control word has an empty slot. -/
theorem Reach.hollow {t : Map K V} (h : Reach E t) : ∀ p, (t.ctrl p).isEmpty = true → t.slot p = none := by
  intro p hp
  rcases h.st with ⟨a, b, rfl⟩ | ⟨c, h⟩
  · rfl
  · by_cases hlt : p < t.slen
    · rcases h.cell p hlt with ⟨h1, _⟩ | ⟨e, _, h2, _, h4⟩
      · exact h1
      · exfalso
        rw [h4] at hp
        simp only [Ctrl.isEmpty, beq_iff_eq] at hp
        omega
    · exact (h.tail p (by omega)).1

theorem mask_of_slotCap {t t' : Map K V} (h : slotCap t' = slotCap t) : t'.mask = t.mask := by
  unfold slotCap at h
  split at h <;> split at h <;> omega

/-- A present key is hit and nothing but its slot is touched. -/
theorem emplace_present (hE : E.Lawful) {t : Map K V} (hR : Reach E t) {k : K} {e : K × V} (hk : Spec.get E.eq (entries t) k = some e)
    (update mem : Bool) (v : V) : ∃ i, t.slot i = some e ∧ emplace false false E update mem k v t =
      .ok (if update then { t with slot := upd t.slot i (some (e.1, v)) } else t) (i, false) := by
  rcases hR.st with hf | ⟨c, hl⟩
  · rw [hf.entries] at hk; cases hk
  · obtain ⟨i, g1, g2, g3⟩ := (hl.toGood.find_real hE k).1 e hk
    refine ⟨i, g3, ?_⟩
    have hp : probe false false E t k = .ok (.hit i) := by
      unfold findIdx at g2
      obtain ⟨q, h1, h2⟩ := res_bind_ok g2
      cases q with
      | hit i' => simp only [Res.ok.injEq, Option.some.injEq] at h2; rw [h1, h2]
      | stop _ _ => cases h2
    unfold emplace
    generalize hF : (64 : Nat) = F
    obtain ⟨f, rfl⟩ : ∃ f, F = f + 1 := ⟨F - 1, by omega⟩
    unfold emplaceLoop findOrInsert
    rw [hp]
    simp only [lift, Out.bind_ok, g3]

/-- A new element is in the slot of the returned iterator. -/
theorem emplaceLoop_slot (update mem : Bool) (k : K) (v : V) : ∀ (f : Nat) (t : Map K V) {t' : Map K V} {i : Nat},
    emplaceLoop store chk E update mem k v f t = .ok t' (i, true) → t'.slot i = some (k, v) := by
  intro f
  induction f with
  | zero => intro t t' i h; cases h
  | succ f ih =>
    intro t t' i h
    unfold emplaceLoop at h
    obtain ⟨t1, r, _, h⟩ := out_bind_ok h
    cases r with
    | notExists i1 =>
      obtain ⟨t2, h2, h⟩ := lift_ok h
      cases h
      unfold construct at h2
      split at h2
      · cases h2; exact upd_self _ _ _
      · cases h2
    | exists_ i1 =>
      simp only at h
      split at h <;> cases h
    | needGrow =>
      obtain ⟨t2, _, _, h⟩ := out_bind_ok h
      exact ih t2 h

theorem upd_same {α : Type} {f : Nat → α} {i : Nat} {a : α} (h : f i = a) : upd f i a = f := by
  funext x
  by_cases hx : x = i
  · subst hx; rw [upd_self, h]
  · rw [upd_other _ _ hx]

theorem Reach.mem_of_slot {t : Map K V} (h : Reach E t) {j : Nat} {s : K × V} (hj : t.slot j = some s) : s ∈ entries t := by
  have hlt : j < t.slen := by
    rcases h.st with ⟨a, b, rfl⟩ | ⟨c, h⟩
    · cases hj
    · refine Nat.lt_of_not_le fun hle => ?_
      rw [(h.tail j hle).1] at hj; cases hj
  unfold entries
  exact List.mem_filterMap.mpr ⟨j, List.mem_range.mpr hlt, hj⟩

/-- C110. `m.insert_or_assign(k, r)`, `m.emplace(k, r)` or `m.try_emplace(k, r)` where `r` refers to the mapped value of an element `s` of `m`
itself (in slot `j`): the call does exactly what the same call with a copy of the value does if `k` is present; if the call with the copy
throws; and if the call with the copy returns, keeps `capacity()` and leaves `s` in its slot.  The other cases are missing, see the
next theorems. -/
theorem C110_reference_argument_partial (hE : E.Lawful) {rv : Nat → Nat} (hrv : ∀ x, 256 ≤ rv x ∧ rv x ≤ 1024) {cs : List (Bool × Call K V)}
    {t : Map K V} (h : Reached E rv cs t) {j : Nat} {s : K × V} (hj : t.slot j = some s) {update mem : Bool} {k : K} {t' : Map K V} :
    (Spec.get E.eq (contents E.eq cs) k ≠ none →
      emplaceRef false false E update mem k j t = emplace false false E update mem k s.2 t) ∧
    (emplace false false E update mem k s.2 t = .throw t' → emplaceRef false false E update mem k j t = .throw t') ∧
    (∀ r, emplace false false E update mem k s.2 t = .ok t' r → slotCap t' = slotCap t → t'.slot j = some s →
      emplaceRef false false E update mem k j t = .ok t' r) := by
  obtain ⟨hR, hm⟩ := h.reach hE hrv
  have heq : emplaceRef false false E update mem k j t = viaRef update k j t (emplace false false E update mem k s.2 t) :=
    emplaceRef_eq hj hR.hollow update mem k 64
  rw [heq]
  have hpres : ∀ e, Spec.get E.eq (entries t) k = some e → ∃ t1 i, emplace false false E update mem k s.2 t = .ok t1 (i, false) ∧ t1.mask = t.mask := by
    intro e hg
    obtain ⟨i, _, h2⟩ := emplace_present hE hR hg update mem s.2
    exact ⟨_, i, h2, by cases update <;> rfl⟩
  refine ⟨fun hk => ?_, fun hx => (by rw [hx]; rfl), fun r hx hc hs => ?_⟩
  · rw [← Spec.get_perm hE hm hR.distinct] at hk
    cases hg : Spec.get E.eq (entries t) k with
    | none => exact absurd hg hk
    | some e =>
      obtain ⟨t1, i, h2, h3⟩ := hpres e hg
      rw [h2]
      simp [viaRef, h3]
  · obtain ⟨i, b⟩ := r
    have hmk := mask_of_slotCap hc
    cases b with
    | false => rw [hx]; simp [viaRef, hmk]
    | true =>
      have h1 := emplaceLoop_slot update mem k s.2 64 t hx
      have hne : j ≠ i := by
        rintro rfl
        rw [h1] at hs
        have hsk : (k, s.2) = s := Option.some.inj hs
        have hg : Spec.get E.eq (entries t) k = some s :=
          (Spec.get_some_iff hE hR.distinct).mpr ⟨hR.mem_of_slot hj, by rw [← hsk]; exact hE.refl k⟩
        obtain ⟨t1, i, h2, _⟩ := hpres s hg
        rw [hx] at h2; cases h2
      rw [hx]
      unfold viaRef
      simp only
      rw [if_pos hmk, if_neg hne, hs]
      simp only
      rw [upd_same h1]

/-- C110, deviation. Whenever the same call with a copy of the value inserts a new element and changes `capacity()`, the call with the reference
reads freed memory. -/
theorem C110_reference_argument_dangles (hE : E.Lawful) {rv : Nat → Nat} (hrv : ∀ x, 256 ≤ rv x ∧ rv x ≤ 1024) {cs : List (Bool × Call K V)}
    {t : Map K V} (h : Reached E rv cs t) {j : Nat} {s : K × V} (hj : t.slot j = some s) {update mem : Bool} {k : K} {t' : Map K V} {i : Nat}
    (hx : emplace false false E update mem k s.2 t = .ok t' (i, true)) (hc : slotCap t' ≠ slotCap t) :
    emplaceRef false false E update mem k j t = .ub := by
  obtain ⟨hR, hm⟩ := h.reach hE hrv
  have heq : emplaceRef false false E update mem k j t = viaRef update k j t (emplace false false E update mem k s.2 t) :=
    emplaceRef_eq hj hR.hollow update mem k 64
  rw [heq, hx]
  unfold viaRef
  simp only
  rw [if_neg fun hmk => hc (by unfold slotCap; rw [hmk])]

/-- C110, deviation. Whenever the same call with a copy of the value inserts a new element, keeps `capacity()`, and moves the element `s` the
reference refers to, then either the call with the reference reads a destroyed object, or the new element gets the value of the
element that came into the place of `s`. -/
theorem C110_reference_argument_moved (hE : E.Lawful) {rv : Nat → Nat} (hrv : ∀ x, 256 ≤ rv x ∧ rv x ≤ 1024) {cs : List (Bool × Call K V)}
    {t : Map K V} (h : Reached E rv cs t) {j : Nat} {s : K × V} (hj : t.slot j = some s) {update mem : Bool} {k : K} {t' : Map K V} {i : Nat}
    (hx : emplace false false E update mem k s.2 t = .ok t' (i, true)) (hc : slotCap t' = slotCap t) (hs : t'.slot j ≠ some s) :
    emplaceRef false false E update mem k j t = .ub ∨
      ∃ e, e ≠ s ∧ t'.slot j = some e ∧ j ≠ i ∧
        emplaceRef false false E update mem k j t = .ok { t' with slot := upd t'.slot i (some (k, e.2)) } (i, true) := by
  obtain ⟨hR, hm⟩ := h.reach hE hrv
  have heq : emplaceRef false false E update mem k j t = viaRef update k j t (emplace false false E update mem k s.2 t) :=
    emplaceRef_eq hj hR.hollow update mem k 64
  rw [heq, hx]
  unfold viaRef
  simp only
  rw [if_pos (mask_of_slotCap hc)]
  by_cases hji : j = i
  · left; rw [if_pos hji]
  · rw [if_neg hji]
    cases he : t'.slot j with
    | none => left; rfl
    | some e => right; exact ⟨e, fun hes => hs (by rw [he, hes]), rfl, hji, rfl⟩

/-- What the caller sees of the reference: the flag, the new capacity and the value stored, or `none` for an undefined outcome. -/
def seenRef (r : Out (Map Nat Nat) (Nat × Bool)) : Option (Bool × Nat × Option (Nat × Nat)) :=
  match r with
  | .ok t (i, b) => some (b, slotCap t, t.slot i)
  | _ => none

theorem ref_of {n : Nat} {cs : List (Call Nat Nat)} {k j : Nat} {s : Nat × Nat} {x y : Option (Bool × Nat × Option (Nat × Nat))} (hv : cs.all validB = true)
    (h0 : ((stateOf idEnv n cs).map fun t => t.slot j) = some (some s))
    (h1 : ((stateOf idEnv n cs).map fun t => seenRef (emplace false false idEnv false true k s.2 t)) = some x)
    (h2 : ((stateOf idEnv n cs).map fun t => seenRef (emplaceRef false false idEnv false true k j t)) = some y) :
    ∃ t, Reached idEnv (fun _ => 512) (cs.map fun c => (true, c)) t ∧ t.slot j = some s ∧
      seenRef (emplace false false idEnv false true k s.2 t) = x ∧ seenRef (emplaceRef false false idEnv false true k j t) = y := by
  cases ht : stateOf idEnv n cs with
  | none => rw [ht] at h0; cases h0
  | some t =>
    rw [ht] at h0 h1 h2
    simp only [Option.map_some, Option.some.injEq] at h0 h1 h2
    exact ⟨t, reached_of ht hv, h0, h1, h2⟩

/-- C110, deviation. With 0, 1, 2 in a map of eight positions, `m.emplace(8, m.at(2))` stores 1, the value of key 1, for key 8; with a copy of the
value it stores 2. -/
theorem C110_wrong_value : ∃ t, Reached idEnv (fun _ => 512) ((ins 3).map fun c => (true, c)) t ∧ t.slot 2 = some (2, 2) ∧
    seenRef (emplace false false idEnv false true 8 2 t) = some (true, 8, some (8, 2)) ∧
    seenRef (emplaceRef false false idEnv false true 8 2 t) = some (true, 8, some (8, 1)) :=
  ref_of (s := (2, 2)) (n := 0) (by decide) (by decide +kernel) (by decide +kernel) (by decide +kernel)

/-- C110, deviation. In the same map `m.emplace(8, m.at(1))` reads a destroyed object. -/
theorem C110_destroyed_value : ∃ t, Reached idEnv (fun _ => 512) ((ins 3).map fun c => (true, c)) t ∧ t.slot 1 = some (1, 1) ∧
    seenRef (emplace false false idEnv false true 8 1 t) = some (true, 8, some (8, 1)) ∧
    seenRef (emplaceRef false false idEnv false true 8 1 t) = none :=
  ref_of (s := (1, 1)) (n := 0) (by decide) (by decide +kernel) (by decide +kernel) (by decide +kernel)

/-- C110, deviation. With 0, …, 3 in a map of eight positions, `m.emplace(8, m.at(1))` reads freed memory. -/
theorem C110_freed_value : ∃ t, Reached idEnv (fun _ => 512) ((ins 4).map fun c => (true, c)) t ∧ t.slot 1 = some (1, 1) ∧
    seenRef (emplace false false idEnv false true 8 1 t) = some (true, 16, some (8, 1)) ∧
    seenRef (emplaceRef false false idEnv false true 8 1 t) = none :=
  ref_of (s := (1, 1)) (n := 0) (by decide) (by decide +kernel) (by decide +kernel) (by decide +kernel)

/-- A call of C110_reference_argument_partial with a new key: nothing moves. -/
example : ∃ t, Reached idEnv (fun _ => 512) ((ins 3).map fun c => (true, c)) t ∧ t.slot 1 = some (1, 1) ∧
    seenRef (emplace false false idEnv false true 5 1 t) = some (true, 8, some (5, 1)) ∧
    seenRef (emplaceRef false false idEnv false true 5 1 t) = some (true, 8, some (5, 1)) :=
  ref_of (s := (1, 1)) (n := 0) (by decide) (by decide +kernel) (by decide +kernel) (by decide +kernel)

/-! ### References across calls -/

theorem probeLoop_hit {t : Map K V} {k : K} : ∀ (f i : Nat) (d : Ctrl) {p : Nat}, probeLoop store chk E t k f i d = .ok (.hit p) →
    ∃ e, t.slot p = some e ∧ E.eq e.1 k = true := by
  intro f
  induction f with
  | zero => intro i d p h; cases h
  | succ f ih =>
    intro i d p h
    unfold probeLoop at h
    split at h
    · split at h
      · cases hs : t.slot i with
        | none => rw [hs] at h; cases h
        | some e =>
          rw [hs] at h
          simp only at h
          split at h
          · cases h; exact ⟨e, hs, by assumption⟩
          · split at h
            · cases h
            · exact ih _ _ h
      · split at h
        · cases h
        · exact ih _ _ h
    · cases h

theorem rehashImpl_same {mem : Bool} {n : Nat} {t t' : Map K V} {u : Unit} (h : rehashImpl store chk E true false mem n t = .ok t' u)
    (hc : slotCap t' = slotCap t) : t' = t := by
  obtain ⟨cap, h1, ⟨_, h2, _⟩ | ⟨h2, _⟩⟩ := rehashImpl_fr h
  · exact h2
  · obtain ⟨x, hx, rfl, _⟩ := calcCapacity_ok h1
    have h4 := pow_two_le hx
    have hcap : 2 ^ x = slotCap t := by
      rw [← hc]; unfold slotCap; rw [h2]; split <;> omega
    unfold rehashImpl at h
    rw [h1] at h
    simp only [Bool.false_or, Bool.not_true, Bool.false_and, Bool.true_and] at h
    rw [if_neg (by simp [hcap])] at h
    cases h; rfl

/-- The calls that neither add nor remove an element. -/
def Quiet (eq : K → K → Bool) (m : Spec.Map K V) : Call K V → Prop
  | .insert k _ => Spec.get eq m k ≠ none
  | .assign k _ => Spec.get eq m k ≠ none
  | .index k _ => Spec.get eq m k ≠ none
  | .erase k => Spec.get eq m k = none
  | .clear _ => False
  | _ => True

/-- C110. A call that neither adds nor removes an element and does not change `capacity()` leaves every element it does not itself
overwrite in its slot, unchanged: references and iterators to it stay valid. -/
theorem C110_references_stay_partial (hE : E.Lawful) {rv : Nat → Nat} (hrv : ∀ x, 256 ≤ rv x ∧ rv x ≤ 1024) {cs : List (Bool × Call K V)}
    {t t' : Map K V} (h : Reached E rv cs t) {j : Nat} {s : K × V} (hj : t.slot j = some s) {mem : Bool} {c : Call K V} {a : Ans K V}
    (hq : Quiet E.eq (contents E.eq cs) c) (hk : ∀ k v, c = .assign k v → E.eq s.1 k = false)
    (hx : exec false false E rv mem c t = .ok t' a) (hc : slotCap t' = slotCap t) : t'.slot j = some s := by
  obtain ⟨hR, hm⟩ := h.reach hE hrv
  have hget : ∀ k, Spec.get E.eq (entries t) k = Spec.get E.eq (contents E.eq cs) k := Spec.get_perm hE hm hR.distinct
  have hlift : ∀ {α : Type} {r : Res α} {f : α → Ans K V}, lift r (fun x => Out.ok t (f x)) = .ok t' a → t'.slot j = some s := by
    intro α r f h
    obtain ⟨x, _, h⟩ := lift_ok h
    cases h; exact hj
  have hput : ∀ (update : Bool) (k : K) (v : V) {t1 : Map K V} {r : Nat × Bool}, Spec.get E.eq (contents E.eq cs) k ≠ none →
      (update = true → E.eq s.1 k = false) → emplace false false E update mem k v t = .ok t1 r → t1.slot j = some s := by
    intro update k v t1 r hg hk h1
    rw [← hget] at hg
    cases hg' : Spec.get E.eq (entries t) k with
    | none => exact absurd hg' hg
    | some e =>
      obtain ⟨i, h2, h3⟩ := emplace_present hE hR hg' update mem v
      rw [h3] at h1
      cases update with
      | false => cases h1; exact hj
      | true =>
        cases h1
        show upd t.slot i _ j = some s
        by_cases hji : j = i
        · subst hji
          rw [hj] at h2
          cases h2
          have := hE.symm _ _ ((Spec.get_some_iff hE hR.distinct).mp hg').2
          rw [hk rfl] at this; cases this
        · rw [upd_other _ _ hji]; exact hj
  cases c with
  | insert k v =>
    obtain ⟨s1, ⟨i, b⟩, h1, h2⟩ := out_bind_ok hx
    have := hput false k v hq (by simp) h1
    unfold readElem at h2
    split at h2
    · cases h2
    · cases h2; exact this
  | assign k v =>
    obtain ⟨s1, ⟨i, b⟩, h1, h2⟩ := out_bind_ok hx
    have := hput true k v hq (fun _ => hk k v rfl) h1
    unfold readElem at h2
    split at h2
    · cases h2
    · cases h2; exact this
  | index k v =>
    obtain ⟨s1, ⟨i, b⟩, h1, h2⟩ := out_bind_ok hx
    have := hput false k v hq (by simp) h1
    unfold readValue at h2
    split at h2
    · cases h2
    · cases h2; exact this
  | find k => exact hlift hx
  | contains k => exact hlift hx
  | count k => exact hlift hx
  | «at» k => exact hlift hx
  | iterate => exact hlift hx
  | size => cases hx; exact hj
  | empty => cases hx; exact hj
  | erase k =>
    obtain ⟨s1, n, h1, h2⟩ := out_bind_ok hx
    cases h2
    unfold eraseKey at h1
    obtain ⟨q, h2, h3⟩ := lift_ok h1
    cases q with
    | none => cases h3; exact hj
    | some i =>
      exfalso
      unfold findIdx at h2
      obtain ⟨q, h4, h5⟩ := res_bind_ok h2
      cases q with
      | stop _ _ => cases h5
      | hit p =>
        obtain ⟨e, h6, h7⟩ := probeLoop_hit _ _ _ h4
        have hq' : Spec.get E.eq (contents E.eq cs) k = none := hq
        have := (Spec.get_some_iff hE hR.distinct).mpr ⟨hR.mem_of_slot h6, hE.symm _ _ h7⟩
        rw [hget, hq'] at this; cases this
  | clear d => exact hq.elim
  | reserve n =>
    obtain ⟨s1, u, h1, h2⟩ := out_bind_ok hx
    cases h2
    rw [rehashImpl_same h1 hc]; exact hj
  | rehash n =>
    obtain ⟨s1, u, h1, h2⟩ := out_bind_ok hx
    cases h2
    rw [rehashImpl_same h1 hc]; exact hj
  | shrink ro =>
    obtain ⟨s1, u, h1, h2⟩ := out_bind_ok hx
    cases h2
    rw [rehashImpl_same h1 hc]; exact hj
  | maxLoad x =>
    obtain ⟨s1, u, h1, h2⟩ := out_bind_ok hx
    cases h2
    unfold setMlf at h1
    simp only at h1
    split at h1
    · rw [rehashImpl_same h1 hc]; exact hj
    · cases h1; exact hj

theorem Good.slot_inj (hE : E.Lawful) {t : Map K V} {c : Nat} (h : Good E t c) {i j : Nat} {e s : K × V} (hi : t.slot i = some e)
    (hj : t.slot j = some s) (hk : E.eq e.1 s.1 = true) : i = j := by
  have hlt : ∀ {i : Nat} {e : K × V}, t.slot i = some e → i < t.slen := by
    intro i e he
    refine Nat.lt_of_not_le fun hle => ?_
    rw [(h.tail i hle).1] at he; cases he
  have hd := h.distinct
  unfold entries at hd
  rw [Distinct, List.pairwise_filterMap, List.pairwise_iff_getElem] at hd
  have key : ∀ {a b : Nat} {x y : K × V}, a < b → t.slot a = some x → t.slot b = some y → E.eq x.1 y.1 = false := by
    intro a b x y hab ha hb
    have h1 := hlt ha
    have h2 := hlt hb
    exact hd a b (by simpa using h1) (by simpa using h2) hab x (by simpa using ha) y (by simpa using hb)
  rcases Nat.lt_trichotomy i j with hlt | heq | hlt
  · rw [key hlt hi hj] at hk; cases hk
  · exact heq
  · have := key hlt hj hi
    rw [hE.symm _ _ hk] at this; cases this

/-- C110. `insert_or_assign` of a present key writes the new value into the slot of the element, which keeps its key, and touches no
other slot. -/
theorem C110_assign_in_place (hE : E.Lawful) {rv : Nat → Nat} (hrv : ∀ x, 256 ≤ rv x ∧ rv x ≤ 1024) {cs : List (Bool × Call K V)}
    {t : Map K V} (h : Reached E rv cs t) {j : Nat} {s : K × V} (hj : t.slot j = some s) {mem : Bool} {k : K} (v : V) (hk : E.eq k s.1 = true) :
    ∃ t', emplace false false E true mem k v t = .ok t' (j, false) ∧ slotCap t' = slotCap t ∧ t'.slot j = some (s.1, v) ∧
      ∀ i, i ≠ j → t'.slot i = t.slot i := by
  obtain ⟨hR, hm⟩ := h.reach hE hrv
  have hg := (Spec.get_some_iff hE hR.distinct).mpr ⟨hR.mem_of_slot hj, hk⟩
  obtain ⟨i, h1, h2⟩ := emplace_present hE hR hg true mem v
  have hij : i = j := by
    rcases hR.st with ⟨a, b, rfl⟩ | ⟨c, hl⟩
    · cases hj
    · exact hl.toGood.slot_inj hE h1 hj (hE.refl _)
  subst hij
  exact ⟨_, h2, rfl, upd_self _ _ _, fun i hi => upd_other _ _ hi⟩

/-- An assignment to another key, and the assignment of C110_assign_in_place. -/
example : ∃ t t' a, Reached idEnv (fun _ => 512) ((ins 3).map fun c => (true, c)) t ∧ t.slot 2 = some (2, 2) ∧
    Quiet idEnv.eq (contents idEnv.eq ((ins 3).map fun c => (true, c))) (Call.assign 1 9) ∧
    exec false false idEnv (fun _ => 512) true (Call.assign 1 9) t = .ok t' a ∧ slotCap t' = slotCap t := by
  have h : ((stateOf idEnv 0 (ins 3)).map fun t => (t.slot 2, slotCap t, match exec false false idEnv (fun _ => 512) true (Call.assign 1 9) t with
    | .ok t' _ => slotCap t'
    | _ => 0)) = some (some (2, 2), 8, 8) := by decide +kernel
  cases ht : stateOf idEnv 0 (ins 3) with
  | none => rw [ht] at h; cases h
  | some t =>
    rw [ht] at h
    simp only [Option.map_some, Option.some.injEq, Prod.mk.injEq] at h
    cases hx : exec false false idEnv (fun _ => 512) true (Call.assign 1 9) t with
    | ub => rw [hx] at h; cases h.2.2
    | diverge => rw [hx] at h; cases h.2.2
    | throw s => rw [hx] at h; cases h.2.2
    | ok t' r =>
      rw [hx] at h
      exact ⟨t, t', r, reached_of ht (by decide), h.1, by unfold Quiet; decide, hx ▸ rfl, by rw [h.2.1]; exact h.2.2⟩

/-- C110, deviation. With 0, 1, 2 in a map of eight positions, `emplace(8, …)` keeps `capacity()` and moves the elements 1 and 2. -/
theorem C110_insert_moves : ∃ t t' : Map Nat Nat, Reached idEnv (fun _ => 512) ((ins 3).map fun c => (true, c)) t ∧
    Reached idEnv (fun _ => 512) ((ins 3 ++ [Call.insert 8 8]).map fun c => (true, c)) t' ∧ slotCap t = slotCap t' ∧
    t.slot 1 = some (1, 1) ∧ t'.slot 1 = some (8, 8) ∧ t.slot 2 = some (2, 2) ∧ t'.slot 2 = some (1, 1) := by
  have h : ((stateOf idEnv 0 (ins 3)).map fun t => (slotCap t, t.slot 1, t.slot 2)) = some (8, some (1, 1), some (2, 2)) := by decide +kernel
  have h' : ((stateOf idEnv 0 (ins 3 ++ [Call.insert 8 8])).map fun t => (slotCap t, t.slot 1, t.slot 2)) =
    some (8, some (8, 8), some (1, 1)) := by decide +kernel
  cases ht : stateOf idEnv 0 (ins 3) with
  | none => rw [ht] at h; cases h
  | some t =>
    cases ht' : stateOf idEnv 0 (ins 3 ++ [Call.insert 8 8]) with
    | none => rw [ht'] at h'; cases h'
    | some t' =>
      rw [ht] at h; rw [ht'] at h'
      simp only [Option.map_some, Option.some.injEq, Prod.mk.injEq] at h h'
      exact ⟨t, t', reached_of ht (by decide), reached_of ht' (by decide), by omega, h.2.1, h'.2.1, h.2.2, h'.2.2⟩

/-- C110, deviation. With 0, 8, 16 in a map of eight positions, `erase(8)` keeps `capacity()` and moves the element 16. -/
theorem C110_erase_moves : ∃ t t' : Map Nat Nat, Reached idEnv (fun _ => 512) (([Call.insert 0 0, Call.insert 8 8, Call.insert 16 16]).map fun c => (true, c)) t ∧
    Reached idEnv (fun _ => 512) (([Call.insert 0 0, Call.insert 8 8, Call.insert 16 16, Call.erase 8]).map fun c => (true, c)) t' ∧
    slotCap t = slotCap t' ∧ t.slot 2 = some (16, 16) ∧ t'.slot 2 = none ∧ t'.slot 1 = some (16, 16) := by
  have h : ((stateOf idEnv 0 [Call.insert 0 0, Call.insert 8 8, Call.insert 16 16]).map fun t => (slotCap t, t.slot 2)) = some (8, some (16, 16)) := by decide +kernel
  have h' : ((stateOf idEnv 0 [Call.insert 0 0, Call.insert 8 8, Call.insert 16 16, Call.erase 8]).map fun t => (slotCap t, t.slot 2, t.slot 1)) =
    some (8, none, some (16, 16)) := by decide +kernel
  cases ht : stateOf idEnv 0 [Call.insert 0 0, Call.insert 8 8, Call.insert 16 16] with
  | none => rw [ht] at h; cases h
  | some t =>
    cases ht' : stateOf idEnv 0 [Call.insert 0 0, Call.insert 8 8, Call.insert 16 16, Call.erase 8] with
    | none => rw [ht'] at h'; cases h'
    | some t' =>
      rw [ht] at h; rw [ht'] at h'
      simp only [Option.map_some, Option.some.injEq, Prod.mk.injEq] at h h'
      exact ⟨t, t', reached_of ht (by decide), reached_of ht' (by decide), by omega, h.2, h'.2.1, h'.2.2⟩

end Verif.Robin
