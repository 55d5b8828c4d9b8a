/-
Arguments that are references into the same `robin_hash_map`, and references across calls, indirect layout (C111).

Abbreviation: RH = src/jstd/hashmap/robin_hash_map.h.
-/
import Verif.RobIndLoad
import Verif.SelfRefRobin
import Verif.SelfRef

namespace Verif.RobInd
open Spec (Distinct Call Ans)
open Robin (next contents pow_two_le ins res_bind_ok out_bind_ok upd_twice upd_same)

section Model
variable {K V : Type} (chk : Bool) (E : Env K)

/-- Read through a reference to the mapped value in slot `j`, taken in state `t`, when the map is in state `t1`.  A map of another
capacity has another block. -/
def valueAt (t t1 : Map K V) (j : Nat) : Res V :=
  if t1.mask = t.mask then
    match t1.slot j with
    | some e => .ok e.2
    | none => .ub
  else .ub

/-- `emplace_impl<AlwaysUpdate>(key, mapped)` (RH:5870-5968) and `try_emplace_impl(key, mapped)` (RH:6101-6141) when `mapped` is a reference to
the mapped value in slot `j` of the same map: `find_or_insert(key)` (RH:5618-5665) runs first, the forwarded reference is read by the
constructor or the assignment after it.  `t0` is the map at the time of the call. -/
def emplaceRefLoop (update mem : Bool) (k : K) (j : Nat) (t0 : Map K V) : Nat → Map K V → Out (Map K V) (Nat × Bool)
  | 0, _ => .diverge
  | f + 1, t =>
    (findOrInsert chk E mem k t).bind fun t' r =>
      match r with
      | .notExists =>
        match valueAt t0 t' j with
        | .ok v => lift (construct (k, v) t') fun t'' => .ok t'' (t'.size, true)
        | _ => .ub
      | .exists_ i =>
        match t'.slot i with
        | none => .ub
        | some e =>
          if update then
            match valueAt t0 t' j with
            | .ok v => .ok { t' with slot := upd t'.slot i (some (e.1, v)) } (i, false)
            | _ => .ub
          else .ok t' (i, false)
      | .needGrow => (grow chk E mem t').bind fun t'' _ => emplaceRefLoop update mem k j t0 f t''

/-- With its full fuel, as `emplace` for `emplace_impl` (RH:5870-5968). -/
def emplaceRef (update mem : Bool) (k : K) (j : Nat) (t : Map K V) : Out (Map K V) (Nat × Bool) :=
  emplaceRefLoop chk E update mem k j t 64 t

end Model

variable {K V : Type} {E : Env K} {chk : Bool}

/-- What the call with the reference makes of the outcome of the call with a copy, in the map `t`. -/
def viaRef (update : Bool) (t : Map K V) : Out (Map K V) (Nat × Bool) → Out (Map K V) (Nat × Bool)
  | .ok t' (i, b) => if t'.mask = t.mask then .ok t' (i, b) else if b || update then .ub else .ok t' (i, b)
  | o => o

theorem Grew.mask_lt {t t' : Map K V} (h : Grew t t') : t.mask < t'.mask := by have := h.1; omega

theorem valueAt_grown {t0 t : Map K V} (h : t0.mask < t.mask) (j : Nat) : valueAt t0 t j = .ub := by
  unfold valueAt
  rw [if_neg (by omega)]

/-- After a growth every read of the reference is undefined. -/
theorem emplaceRefLoop_grown (update mem : Bool) (k : K) (v : V) (j : Nat) (t0 : Map K V) : ∀ (f : Nat) (t : Map K V), t0.mask < t.mask →
    emplaceRefLoop chk E update mem k j t0 f t = viaRef update t0 (emplaceLoop chk E update mem k v f t) := by
  intro f
  induction f with
  | zero => intro t _; rfl
  | succ f ih =>
    intro t ht
    unfold emplaceRefLoop emplaceLoop
    cases h1 : findOrInsert chk E mem k t with
    | throw s => rfl
    | diverge => rfl
    | ub => rfl
    | ok t1 r =>
      have hm : t0.mask < t1.mask := by
        rcases findOrInsert_fr h1 with ⟨h2, _⟩ | ⟨h2, _⟩ | ⟨h2, _⟩
        · rw [h2]; exact ht
        · rw [h2.mask]; exact ht
        · have := h2.mask_lt; omega
      simp only [Out.bind_ok]
      cases r with
      | notExists =>
        simp only [valueAt_grown hm]
        cases hc : construct (k, v) t1 with
        | ok t2 =>
          have hm2 : t2.mask ≠ t0.mask := by rw [(construct_fr hc).mask]; omega
          simp [lift, viaRef, hm2]
        | diverge => unfold construct at hc; split at hc <;> cases hc
        | ub => rfl
      | exists_ i =>
        simp only [valueAt_grown hm]
        have hm2 : t1.mask ≠ t0.mask := by omega
        cases hs : t1.slot i with
        | none => rfl
        | some e =>
          cases update with
          | true => simp [viaRef, hm2]
          | false => simp [viaRef]
      | needGrow =>
        simp only
        cases h2 : grow chk E mem t1 with
        | throw s => rfl
        | diverge => rfl
        | ub => rfl
        | ok t2 u =>
          simp only [Out.bind_ok]
          have := (show Grew t1 t2 from grow_fr h2).mask_lt
          exact ih t2 (by omega)

theorem finish_slot {k : K} {t t' : Map K V} {i : Nat} {d : Ctrl} {r : Found} (h : finish chk E k t i d = .ok t' r) :
    t'.slot = t.slot := by
  unfold finish at h
  obtain ⟨⟨t1, b⟩, h1, h⟩ := lift_ok h
  cases h
  unfold place at h1
  split at h1
  · split at h1
    · cases h1
    · simp only at h1
      split at h1
      · cases h1; rfl
      · obtain ⟨⟨w, b⟩, _, h1⟩ := res_bind_ok h1
        cases h1; rfl
  · cases h1

/-- The search for a place does not move elements unless the map grows. -/
theorem findOrInsert_slot {mem : Bool} {k : K} {t t' : Map K V} {r : Found} (h : findOrInsert chk E mem k t = .ok t' r) :
    Grew t t' ∨ (t'.slot = t.slot ∧ t'.mask = t.mask ∧ t'.size = t.size) := by
  rcases findOrInsert_fr h with ⟨h2, _⟩ | ⟨h2, _, _, h3⟩ | ⟨h2, _⟩
  · right; rw [h2]; exact ⟨rfl, rfl, rfl⟩
  · by_cases hg : Grew t t'
    · exact Or.inl hg
    · refine Or.inr ⟨?_, h2.mask, h3⟩
      unfold findOrInsert at h
      obtain ⟨q, h1, h⟩ := lift_ok h
      cases q with
      | hit i => cases h; rfl
      | stop i d =>
        simp only at h
        split at h
        · exfalso
          obtain ⟨t1, u, hg', h⟩ := out_bind_ok h
          obtain ⟨⟨i1, d1⟩, _, h⟩ := lift_ok h
          exact hg (Grew.fr (grow_fr hg') (finish_fr h))
        · exact finish_slot h
  · exact Or.inl h2

/-- The call with the reference against the call with a copy of the value. -/
theorem emplaceRef_eq {t : Map K V} {j : Nat} {s : K × V} (hj : t.slot j = some s) (update mem : Bool) (k : K) (F : Nat) :
    emplaceRefLoop chk E update mem k j t F t = viaRef update t (emplaceLoop chk E update mem k s.2 F t) := by
  cases F with
  | zero => rfl
  | succ f =>
    unfold emplaceRefLoop emplaceLoop
    cases h1 : findOrInsert chk E mem k t with
    | throw s => rfl
    | diverge => rfl
    | ub => rfl
    | ok t1 r =>
      simp only [Out.bind_ok]
      rcases findOrInsert_slot h1 with hg | ⟨hs, hm, _⟩
      · have hm := hg.mask_lt
        cases r with
        | notExists =>
          simp only [valueAt_grown hm]
          cases hcs : construct (k, s.2) t1 with
          | ok t2 =>
            have hm2 : t2.mask ≠ t.mask := by rw [(construct_fr hcs).mask]; omega
            simp [lift, viaRef, hm2]
          | diverge => unfold construct at hcs; split at hcs <;> cases hcs
          | ub => rfl
        | exists_ i =>
          simp only [valueAt_grown hm]
          have hm2 : t1.mask ≠ t.mask := by omega
          cases hs : t1.slot i with
          | none => rfl
          | some e =>
            cases update with
            | true => simp [viaRef, hm2]
            | false => simp [viaRef]
        | needGrow =>
          simp only
          cases h2 : grow chk E mem t1 with
          | throw s => rfl
          | diverge => rfl
          | ub => rfl
          | ok t2 u =>
            simp only [Out.bind_ok]
            have := (show Grew t1 t2 from grow_fr h2).mask_lt
            exact emplaceRefLoop_grown update mem k s.2 j t f t2 (by omega)
      · have hv : valueAt t t1 j = .ok s.2 := by unfold valueAt; rw [if_pos hm, hs, hj]
        cases r with
        | notExists =>
          simp only [hv]
          cases hcs : construct (k, s.2) t1 with
          | ok t2 => simp [lift, viaRef, (construct_fr hcs).mask, hm]
          | diverge => unfold construct at hcs; split at hcs <;> cases hcs
          | ub => rfl
        | exists_ i =>
          simp only [hv]
          cases hs : t1.slot i with
          | none => rfl
          | some e => cases update <;> simp [viaRef, hm]
        | needGrow =>
          simp only
          cases h2 : grow chk E mem t1 with
          | throw s => rfl
          | diverge => rfl
          | ub => rfl
          | ok t2 u =>
            simp only [Out.bind_ok]
            have := (show Grew t1 t2 from grow_fr h2).mask_lt
            exact emplaceRefLoop_grown update mem k s.2 j t f t2 (by omega)

theorem mask_of_slotCap {t t' : Map K V} (h : slotCap t' = slotCap t) : t'.mask = t.mask := by
  unfold slotCap at h
  split at h <;> split at h <;> omega

/-- C111. `m.insert_or_assign(k, r)`, `m.emplace(k, r)` or `m.try_emplace(k, r)` where `r` refers to the mapped value of an element of `m` itself
(in slot `j`): when the same call with a copy of the value returns without a change of `capacity()`, or throws, the call with the reference does exactly the
same.  The growing case is missing, see the next theorem. -/
theorem C111_reference_argument_partial {rv : Nat → Nat} {cs : List (Bool × Call K V)} {t : Map K V} (_h : Reached E rv cs t) {j : Nat} {s : K × V}
    (hj : t.slot j = some s) {update mem : Bool} {k : K} {t' : Map K V} :
    (∀ r, emplace false E update mem k s.2 t = .ok t' r → slotCap t' = slotCap t → emplaceRef false E update mem k j t = .ok t' r) ∧
    (emplace false E update mem k s.2 t = .throw t' → emplaceRef false E update mem k j t = .throw t') := by
  have heq : emplaceRef false E update mem k j t = viaRef update t (emplace false E update mem k s.2 t) := emplaceRef_eq hj update mem k 64
  rw [heq]
  refine ⟨fun r hx hc => ?_, fun hx => (by rw [hx]; rfl)⟩
  rw [hx]
  unfold viaRef
  simp only
  rw [if_pos (mask_of_slotCap hc)]

/-- C111, deviation. Whenever the same call with a copy of the value inserts a new element and changes `capacity()`, the call with the reference
reads freed memory. -/
theorem C111_reference_argument_dangles {rv : Nat → Nat} {cs : List (Bool × Call K V)} {t : Map K V} (_h : Reached E rv cs t) {j : Nat} {s : K × V}
    (hj : t.slot j = some s) {update mem : Bool} {k : K} {t' : Map K V} {i : Nat}
    (hx : emplace false E update mem k s.2 t = .ok t' (i, true)) (hc : slotCap t' ≠ slotCap t) :
    emplaceRef false E update mem k j t = .ub := by
  have heq : emplaceRef false E update mem k j t = viaRef update t (emplace false E update mem k s.2 t) := emplaceRef_eq hj update mem k 64
  rw [heq, hx]
  unfold viaRef
  simp only
  rw [if_neg fun hmk => hc (by unfold slotCap; rw [hmk]), Bool.true_or, if_pos rfl]

/-- What the caller sees: the flag, the new capacity and the element at the returned iterator, or `none` for an undefined outcome. -/
def seenRef (r : Out (Map Nat Nat) (Nat × Bool)) : Option (Bool × Nat × Option (Nat × Nat)) :=
  match r with
  | .ok t (i, b) => some (b, slotCap t, t.slot i)
  | _ => none

theorem ref_of {n : Nat} {cs : List (Call Nat Nat)} {k j : Nat} {s : Nat × Nat} {x y : Option (Bool × Nat × Option (Nat × Nat))}
    (hv : cs.all Robin.validB = true)
    (h0 : ((stateOf idEnv n cs).map fun t => t.slot j) = some (some s))
    (h1 : ((stateOf idEnv n cs).map fun t => seenRef (emplace false idEnv false true k s.2 t)) = some x)
    (h2 : ((stateOf idEnv n cs).map fun t => seenRef (emplaceRef false idEnv false true k j t)) = some y) :
    ∃ t, Reached idEnv (fun _ => 512) (cs.map fun c => (true, c)) t ∧ t.slot j = some s ∧
      seenRef (emplace false idEnv false true k s.2 t) = x ∧ seenRef (emplaceRef false idEnv false true k j t) = y := by
  cases ht : stateOf idEnv n cs with
  | none => rw [ht] at h0; cases h0
  | some t =>
    rw [ht] at h0 h1 h2
    simp only [Option.map_some, Option.some.injEq] at h0 h1 h2
    exact ⟨t, reached_of ht hv, h0, h1, h2⟩

/-- C111, deviation. With 0, …, 3 in a map of eight positions, `m.emplace(8, m.at(1))` reads freed memory. -/
theorem C111_freed_value : ∃ t, Reached idEnv (fun _ => 512) ((ins 4).map fun c => (true, c)) t ∧ t.slot 1 = some (1, 1) ∧
    seenRef (emplace false idEnv false true 8 1 t) = some (true, 16, some (8, 1)) ∧
    seenRef (emplaceRef false idEnv false true 8 1 t) = none :=
  ref_of (s := (1, 1)) (n := 0) (by decide) (by decide +kernel) (by decide +kernel) (by decide +kernel)

/-- A call of C111_reference_argument_partial with a new key whose control word displaces others: the elements stay. -/
example : ∃ t, Reached idEnv (fun _ => 512) ((ins 3).map fun c => (true, c)) t ∧ t.slot 2 = some (2, 2) ∧
    seenRef (emplace false idEnv false true 8 2 t) = some (true, 8, some (8, 2)) ∧
    seenRef (emplaceRef false idEnv false true 8 2 t) = some (true, 8, some (8, 2)) :=
  ref_of (s := (2, 2)) (n := 0) (by decide) (by decide +kernel) (by decide +kernel) (by decide +kernel)

/-! ### References across calls -/

theorem probeLoop_hit {t : Map K V} {k : K} : ∀ (f i : Nat) (d : Ctrl) {p : Nat}, probeLoop chk E t k f i d = .ok (.hit p) →
    ∃ e, t.slot (t.ctrl p).idx = some e ∧ E.eq e.1 k = true := by
  intro f
  induction f with
  | zero => intro i d p h; cases h
  | succ f ih =>
    intro i d p h
    unfold probeLoop at h
    split at h
    · split at h
      · cases hs : t.slot (t.ctrl i).idx with
        | none => rw [hs] at h; cases h
        | some e =>
          rw [hs] at h
          simp only at h
          split at h
          · cases h; exact ⟨e, hs, by assumption⟩
          · split at h
            · cases h
            · exact ih _ _ h
      · split at h
        · cases h
        · exact ih _ _ h
    · cases h

theorem rehashImpl_same {mem : Bool} {n : Nat} {t t' : Map K V} {u : Unit} (h : rehashImpl chk E true false mem n t = .ok t' u)
    (hc : slotCap t' = slotCap t) : t' = t := by
  obtain ⟨cap, h1, ⟨_, h2, _⟩ | ⟨h2, _⟩⟩ := rehashImpl_fr h
  · exact h2
  · obtain ⟨x, hx, rfl, _⟩ := Robin.calcCapacity_ok h1
    have h4 := pow_two_le hx
    have hcap : 2 ^ x = slotCap t := by
      rw [← hc]; unfold slotCap; rw [h2]; split <;> omega
    unfold rehashImpl at h
    rw [h1] at h
    simp only [Bool.false_or, Bool.not_true, Bool.false_and, Bool.true_and] at h
    rw [if_neg (by simp [hcap])] at h
    cases h; rfl

/-- The slot of an element that is neither the assigned one nor moved by a growth. -/
theorem emplaceLoop_stays (update mem : Bool) (k : K) (v : V) (f : Nat) {t t' : Map K V} {r : Nat × Bool}
    (h : emplaceLoop chk E update mem k v f t = .ok t' r) (hm : t'.mask = t.mask) {j : Nat} {s : K × V} (hj : t.slot j = some s)
    (hk : update = true → E.eq s.1 k = false) (hsz : j < t.size) : t'.slot j = some s := by
  cases f with
  | zero => cases h
  | succ f =>
    unfold emplaceLoop at h
    obtain ⟨t1, q, h1, hy⟩ := out_bind_ok h
    clear h
    rename' hy => h
    rcases findOrInsert_slot h1 with hg | ⟨hs, hm1, hz⟩
    · exfalso
      have hg1 := hg.mask_lt
      cases q with
      | notExists =>
        obtain ⟨t2, h2, h⟩ := lift_ok h
        cases h
        have := (construct_fr h2).mask
        omega
      | exists_ i =>
        simp only at h
        split at h
        · cases h
        · cases update <;> cases h <;> exact absurd (show t1.mask = t.mask from hm) (by omega)
      | needGrow =>
        obtain ⟨t2, u, h2, h⟩ := out_bind_ok h
        have h3 := (show Grew t1 t2 from grow_fr h2).mask_lt
        obtain ⟨i, b⟩ := r
        rcases emplaceLoop_fr _ _ _ _ _ _ h with ⟨_, h4, _⟩ | ⟨_, h4, _⟩ | h4
        · have := h4.mask; omega
        · have := h4.mask; omega
        · have := h4.mask_lt; omega
    · cases q with
      | notExists =>
        obtain ⟨t2, h2, h⟩ := lift_ok h
        cases h
        unfold construct at h2
        split at h2
        · cases h2
          show upd t1.slot t1.size _ j = some s
          rw [upd_other _ _ (by omega), hs]; exact hj
        · cases h2
      | exists_ i =>
        simp only at h
        cases he : t1.slot i with
        | none => rw [he] at h; cases h
        | some e =>
          rw [he] at h
          cases update with
          | false =>
            cases h
            show t1.slot j = some s
            rw [hs]; exact hj
          | true =>
            cases h
            show upd t1.slot i _ j = some s
            by_cases hji : j = i
            · exfalso
              subst hji
              rw [hs, hj] at he
              cases he
              unfold findOrInsert at h1
              obtain ⟨q, h5, h1⟩ := lift_ok h1
              cases q with
              | hit p =>
                simp only [Out.ok.injEq, Found.exists_.injEq] at h1
                obtain ⟨e', h6, h7⟩ := probeLoop_hit _ _ _ h5
                rw [h1.2, hj] at h6
                cases h6
                rw [hk rfl] at h7; cases h7
              | stop p d =>
                simp only at h1
                have hfin : ∀ {t t' : Map K V} {p d}, finish chk E k t p d = .ok t' (.exists_ j) → False := by
                  intro t t' p d h
                  unfold finish at h
                  obtain ⟨⟨t1, b⟩, _, h⟩ := lift_ok h
                  cases b <;> cases h
                split at h1
                · obtain ⟨_, _, _, h1⟩ := out_bind_ok h1
                  obtain ⟨_, _, h1⟩ := lift_ok h1
                  exact hfin h1
                · exact hfin h1
            · rw [upd_other _ _ hji, hs]; exact hj
      | needGrow =>
        exfalso
        obtain ⟨t2, u, h2, h⟩ := out_bind_ok h
        have h3 := (show Grew t1 t2 from grow_fr h2).mask_lt
        obtain ⟨i, b⟩ := r
        rcases emplaceLoop_fr _ _ _ _ _ _ h with ⟨_, h4, _⟩ | ⟨_, h4, _⟩ | h4
        · have := h4.mask; omega
        · have := h4.mask; omega
        · have := h4.mask_lt; omega

theorem Reach.lt_size {t : Map K V} (h : Reach E t) {j : Nat} {s : K × V} (hj : t.slot j = some s) : j < t.size := by
  rcases h.st with ⟨a, b, rfl⟩ | ⟨c, h⟩
  · cases hj
  · refine Nat.lt_of_not_le fun hle => ?_
    rw [h.none_ j hle] at hj; cases hj

/-- C111. A call other than `clear` that does not change `capacity()` leaves every element it does not itself remove or overwrite in its slot,
unchanged, so that references and iterators to it stay valid; except that a call of `erase` that removes an element may move the last one. -/
theorem C111_references_stay_partial (hE : E.Lawful) {rv : Nat → Nat} (hrv : ∀ x, 256 ≤ rv x ∧ rv x ≤ 1024) {cs : List (Bool × Call K V)}
    {t t' : Map K V} (h : Reached E rv cs t) {j : Nat} {s : K × V} (hj : t.slot j = some s) {mem : Bool} {c : Call K V} {a : Ans K V}
    (hcl : ∀ d, c ≠ .clear d) (hk : ∀ k, touched c = some k → E.eq s.1 k = false)
    (hlast : ∀ k, c = .erase k → j + 1 ≠ t.size ∨ Spec.get E.eq (contents E.eq cs) k = none)
    (hx : exec false E rv mem c t = .ok t' a) (hc : slotCap t' = slotCap t) : t'.slot j = some s := by
  obtain ⟨hR, hm, _⟩ := h.reach hE hrv
  have hget : ∀ k, Spec.get E.eq (entries t) k = Spec.get E.eq (contents E.eq cs) k := Spec.get_perm hE hm (hR.distinct hE)
  have hsz := hR.lt_size hj
  have hlift : ∀ {α : Type} {r : Res α} {f : α → Ans K V}, lift r (fun x => Out.ok t (f x)) = .ok t' a → t'.slot j = some s := by
    intro α r f h
    obtain ⟨x, _, h⟩ := lift_ok h
    cases h; exact hj
  have hmk := mask_of_slotCap hc
  cases c with
  | insert k v =>
    obtain ⟨s1, ⟨i, b⟩, h1, h2⟩ := out_bind_ok hx
    unfold readElem at h2
    split at h2
    · cases h2
    · cases h2; exact emplaceLoop_stays _ _ _ _ _ h1 hmk hj (by simp) hsz
  | assign k v =>
    obtain ⟨s1, ⟨i, b⟩, h1, h2⟩ := out_bind_ok hx
    unfold readElem at h2
    split at h2
    · cases h2
    · cases h2; exact emplaceLoop_stays _ _ _ _ _ h1 hmk hj (fun _ => hk k rfl) hsz
  | index k v =>
    obtain ⟨s1, ⟨i, b⟩, h1, h2⟩ := out_bind_ok hx
    unfold readValue at h2
    split at h2
    · cases h2
    · cases h2; exact emplaceLoop_stays _ _ _ _ _ h1 hmk hj (by simp) hsz
  | find k => exact hlift hx
  | contains k => exact hlift hx
  | count k => exact hlift hx
  | «at» k => exact hlift hx
  | iterate => exact hlift hx
  | size => cases hx; exact hj
  | empty => cases hx; exact hj
  | erase k =>
    obtain ⟨s1, n, h1, h2⟩ := out_bind_ok hx
    cases h2
    unfold eraseKey at h1
    obtain ⟨q, h2, h3⟩ := lift_ok h1
    cases q with
    | none => cases h3; exact hj
    | some i =>
      unfold findCtrlIdx at h2
      obtain ⟨q, h4, h5⟩ := res_bind_ok h2
      cases q with
      | stop _ _ => cases h5
      | hit p =>
        cases h5
        obtain ⟨e, h6, h7⟩ := probeLoop_hit _ _ _ h4
        simp only at h3
        split at h3
        · cases h3; exact hj
        · obtain ⟨t1, h8, h3⟩ := lift_ok h3
          cases h3
          have hne : j ≠ (t.ctrl i).idx := by
            rintro rfl
            rw [hj] at h6
            cases h6
            rw [hk k rfl] at h7; cases h7
          have hnl : j ≠ t.size - 1 := by
            rcases hlast k rfl with h9 | h9
            · omega
            · exfalso
              have hmem : e ∈ entries t := by
                have h10 := hR.lt_size h6
                rcases hR.st with ⟨a, b, rfl⟩ | ⟨c, hl⟩
                · cases hj
                · have h11 := hl.size_le_slen
                  exact List.mem_filterMap.mpr ⟨_, List.mem_range.mpr (by omega), h6⟩
              have := (Spec.get_some_iff hE (hR.distinct hE)).mpr ⟨hmem, hE.symm _ _ h7⟩
              rw [hget, h9] at this; cases this
          unfold eraseSlot at h8
          obtain ⟨w, _, h8⟩ := res_bind_ok h8
          simp only at h8
          split at h8
          · cases h8
            show upd t.slot (t.size - 1) none j = some s
            rw [upd_other _ _ hnl]; exact hj
          · cases hl : t.slot (t.size - 1) with
            | none => rw [hl] at h8; cases h8
            | some x =>
              rw [hl] at h8
              obtain ⟨p, _, h8⟩ := res_bind_ok h8
              cases h8
              show upd (upd t.slot (t.ctrl i).idx (some x)) (t.size - 1) none j = some s
              rw [upd_other _ _ hnl, upd_other _ _ hne]; exact hj
  | clear d => exact (hcl d rfl).elim
  | reserve n =>
    obtain ⟨s1, u, h1, h2⟩ := out_bind_ok hx
    cases h2
    rw [rehashImpl_same h1 hc]; exact hj
  | rehash n =>
    obtain ⟨s1, u, h1, h2⟩ := out_bind_ok hx
    cases h2
    rw [rehashImpl_same h1 hc]; exact hj
  | shrink ro =>
    obtain ⟨s1, u, h1, h2⟩ := out_bind_ok hx
    cases h2
    rw [rehashImpl_same h1 hc]; exact hj
  | maxLoad x =>
    obtain ⟨s1, u, h1, h2⟩ := out_bind_ok hx
    cases h2
    unfold setMlf at h1
    simp only at h1
    split at h1
    · rw [rehashImpl_same h1 hc]; exact hj
    · cases h1; exact hj

theorem Good.slot_inj (hE : E.Lawful) {t : Map K V} {c : Nat} (h : Good E t c) {i j : Nat} {e s : K × V} (hi : t.slot i = some e)
    (hj : t.slot j = some s) (hk : E.eq e.1 s.1 = true) : i = j := by
  have hlt : ∀ {i : Nat} {e : K × V}, t.slot i = some e → i < t.slen := by
    intro i e he
    have := h.size_le_slen
    refine Nat.lt_of_not_le fun hle => ?_
    rw [h.none_ i (by omega)] at he; cases he
  have hd := h.distinct hE
  unfold entries at hd
  rw [Distinct, List.pairwise_filterMap, List.pairwise_iff_getElem] at hd
  have key : ∀ {a b : Nat} {x y : K × V}, a < b → t.slot a = some x → t.slot b = some y → E.eq x.1 y.1 = false := by
    intro a b x y hab ha hb
    have h1 := hlt ha
    have h2 := hlt hb
    exact hd a b (by simpa using h1) (by simpa using h2) hab x (by simpa using ha) y (by simpa using hb)
  rcases Nat.lt_trichotomy i j with hlt | heq | hlt
  · rw [key hlt hi hj] at hk; cases hk
  · exact heq
  · have := key hlt hj hi
    rw [hE.symm _ _ hk] at this; cases this

/-- C111, deviation. Erasing an element that is not the last one (in the order of the slots) moves the last one into its slot: references to the last
element dangle, references to the erased one show the last one. -/
theorem C111_erase_moves_last (hE : E.Lawful) {rv : Nat → Nat} (hrv : ∀ x, 256 ≤ rv x ∧ rv x ≤ 1024) {cs : List (Bool × Call K V)}
    {t : Map K V} (h : Reached E rv cs t) {j : Nat} {s e : K × V} (hj : t.slot j = some s) (hl : t.slot (t.size - 1) = some e)
    (hne : j ≠ t.size - 1) {k : K} (hk : E.eq k s.1 = true) :
    ∃ t', eraseKey false E k t = .ok t' 1 ∧ slotCap t' = slotCap t ∧ t'.slot j = some e ∧ t'.slot (t.size - 1) = none := by
  obtain ⟨hR, hm, _⟩ := h.reach hE hrv
  have hlt := hR.lt_size hj
  rcases hR.st with ⟨a, b, rfl⟩ | ⟨c, hg⟩
  · cases hj
  · have hsl := hg.size_le_slen
    have hmem : s ∈ entries t := List.mem_filterMap.mpr ⟨_, List.mem_range.mpr (by omega), hj⟩
    have hgs := (Spec.get_some_iff hE (hR.distinct hE)).mpr ⟨hmem, hk⟩
    obtain ⟨i, g1, g2, g3, g4⟩ := (hg.toGood.find_real hE k).1 s hgs
    obtain ⟨t', ee, e1, e2, e3⟩ := eraseSlot_spec hE hg.toGood g1 g2
    have hij : (t.ctrl i).idx = j := hg.toGood.slot_inj hE g4 hj (hE.refl _)
    have hx : eraseKey false E k t = .ok t' 1 := by
      unfold eraseKey
      rw [g3]
      simp only [lift]
      rw [if_neg (by rw [hg.toShape.maxCap]; omega), e2]
    refine ⟨t', hx, by unfold slotCap; rw [(eraseKey_fr hx).mask], ?_⟩
    unfold eraseSlot at e2
    obtain ⟨w, _, e2⟩ := res_bind_ok e2
    simp only at e2
    rw [if_neg (by omega), hl] at e2
    obtain ⟨p, _, e2⟩ := res_bind_ok e2
    cases e2
    refine ⟨?_, upd_self _ _ _⟩
    show upd (upd t.slot (t.ctrl i).idx (some e)) (t.size - 1) none j = some e
    rw [upd_other _ _ hne, hij, upd_self]

/-- C111. `insert_or_assign` of a present key writes the new value into the slot of the element, which keeps its key, and touches no
other slot. -/
theorem C111_assign_in_place (hE : E.Lawful) {rv : Nat → Nat} (hrv : ∀ x, 256 ≤ rv x ∧ rv x ≤ 1024) {cs : List (Bool × Call K V)}
    {t : Map K V} (h : Reached E rv cs t) {j : Nat} {s : K × V} (hj : t.slot j = some s) {mem : Bool} {k : K} (v : V) (hk : E.eq k s.1 = true) :
    ∃ t', emplace false E true mem k v t = .ok t' (j, false) ∧ slotCap t' = slotCap t ∧ t'.slot j = some (s.1, v) ∧
      ∀ i, i ≠ j → t'.slot i = t.slot i := by
  obtain ⟨hR, hm, _⟩ := h.reach hE hrv
  have hlt := hR.lt_size hj
  rcases hR.st with ⟨a, b, rfl⟩ | ⟨c, hg⟩
  · cases hj
  · have hsl := hg.size_le_slen
    have hmem : s ∈ entries t := List.mem_filterMap.mpr ⟨_, List.mem_range.mpr (by omega), hj⟩
    have hgs := (Spec.get_some_iff hE (hR.distinct hE)).mpr ⟨hmem, hk⟩
    obtain ⟨i, g1, g2, g3, g4⟩ := (hg.toGood.find_real hE k).1 s hgs
    have hij : (t.ctrl i).idx = j := hg.toGood.slot_inj hE g4 hj (hE.refl _)
    have hp : probe false E t k = .ok (.hit i) := by
      unfold findCtrlIdx at g3
      obtain ⟨q, h1, h2⟩ := res_bind_ok g3
      cases q with
      | hit i' => simp only [Res.ok.injEq, Option.some.injEq] at h2; rw [h1, h2]
      | stop _ _ => cases h2
    refine ⟨{ t with slot := upd t.slot j (some (s.1, v)) }, ?_, rfl, upd_self _ _ _, fun i hi => upd_other _ _ hi⟩
    unfold emplace
    generalize hF : (64 : Nat) = F
    obtain ⟨f, rfl⟩ : ∃ f, F = f + 1 := ⟨F - 1, by omega⟩
    unfold emplaceLoop findOrInsert
    rw [hp]
    simp only [lift, Out.bind_ok, hij, hj, if_true]

/-- In a map of 0, …, 2: a new key keeps `capacity()`; erasing 0 moves 2. -/
example : ∃ t t' a, Reached idEnv (fun _ => 512) ((ins 3).map fun c => (true, c)) t ∧ t.slot 0 = some (0, 0) ∧ t.size = 3 ∧
    t.slot (t.size - 1) = some (2, 2) ∧
    exec false idEnv (fun _ => 512) true (Call.insert 8 9) t = .ok t' a ∧ slotCap t' = slotCap t := by
  have h : ((stateOf idEnv 0 (ins 3)).map fun t => (t.slot 0, t.size, t.slot 2)) = some (some (0, 0), 3, some (2, 2)) := by decide +kernel
  have h' : ((stateOf idEnv 0 (ins 3)).map fun t => (slotCap t, match exec false idEnv (fun _ => 512) true (Call.insert 8 9) t with
    | .ok t' _ => slotCap t'
    | _ => 0)) = some (8, 8) := by decide +kernel
  cases ht : stateOf idEnv 0 (ins 3) with
  | none => rw [ht] at h; cases h
  | some t =>
    rw [ht] at h h'
    simp only [Option.map_some, Option.some.injEq, Prod.mk.injEq] at h h'
    cases hx : exec false idEnv (fun _ => 512) true (Call.insert 8 9) t with
    | ub => rw [hx] at h'; cases h'.2
    | diverge => rw [hx] at h'; cases h'.2
    | throw s => rw [hx] at h'; cases h'.2
    | ok t' r =>
      rw [hx] at h'
      exact ⟨t, t', r, reached_of ht (by decide), h.1, h.2.1, by rw [h.2.1]; exact h.2.2, hx ▸ rfl, by rw [h'.1]; exact h'.2⟩

end Verif.RobInd
