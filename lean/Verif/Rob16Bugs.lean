/-
Where `robin16_hash_map` does not do what its interface promises, and concrete cases meeting the hypotheses of the theorems in
Rob16Props.lean, Rob16Limit.lean and Rob16More.lean.
-/
import Verif.Rob16More
import Verif.RobinBugs

namespace Verif.Rob16
open Spec (Distinct Call Ans)
open Robin (hashEnv hashEnv_lawful)

/-! ### Concrete histories -/

/-- The map made by the default constructor (`kDefaultCapacity`, R16:150). -/
def start : Map Nat Nat := freshMap 4 32768 131072

theorem make_start : make .ok 4 = .ok start () := rfl

/-- A history without failed allocations, from a default constructed map, with the identity as hash function
and a given function for the control hash. -/
def play (triv : Bool) (sec : Nat → Nat) (cs : List (Call Nat Nat)) : Res (List (Ans Nat Nat) × Map Nat Nat) :=
  run (hashEnv id) sec triv (fun _ => 131072) (cs.map fun c => (.ok, c)) start

/-- Insert the keys `0, s, 2s, …`, `n` of them. -/
def ins (n s : Nat) : List (Call Nat Nat) := (List.range n).map fun k => .insert (k * s) k

/-- The history ends in a state with property `p`. -/
def endsIn (r : Res (List (Ans Nat Nat) × Map Nat Nat)) (p : List (Ans Nat Nat) → Map Nat Nat → Bool) : Bool :=
  match r with
  | .ok (as, t) => p as t
  | _ => false

def isUb {α : Type} : Res α → Bool
  | .ub => true
  | _ => false

def isDiverge {α : Type} : Res α → Bool
  | .diverge => true
  | _ => false

/-- The last answer. -/
def lastIs (a : Ans Nat Nat) (as : List (Ans Nat Nat)) : Bool := as.getLast? == some a

/-- A control hash that is never 0. -/
def odd (x : Nat) : Nat := 2 * x + 1

set_option maxRecDepth 100000

/-- C81 is violated: two keys with home 3 in four slots, and `erase` of the first one is undefined. -/
theorem C81_erase_last_slot :
    isUb (play false odd [.insert 3 3, .insert 7 7, .erase 3]) = true ∧ isUb (play true odd [.insert 3 3, .insert 7 7, .erase 3]) = true ∧
    endsIn (play false odd [.insert 2 2, .insert 6 6, .erase 2, .iterate]) (fun as _ => lastIs (.items [(6, 6)]) as) = true := by
  decide +kernel

/-- C82 is violated: a lookup of a key with control hash 0 in a map of four slots is undefined. -/
theorem C82_tag_zero_undefined :
    isUb (play false (· / 256) [.insert 257 1, .insert 261 2, .contains 5]) = true ∧
    endsIn (play false (· / 256) [.insert 257 1, .insert 261 2, .contains 517]) (fun as _ => lastIs (.bool false) as) = true := by
  decide +kernel

/-- C83 is violated: after `clear()` and two insertions a key is found that is not in the map, or the lookup is undefined (keys and values
with destructors). -/
theorem C83_clear_leaves_ghost :
    endsIn (play true odd ([.reserve 8] ++ [13, 29, 45, 61, 77].map (fun k => .insert k k) ++
      [.clear false, .insert 13 1, .insert 29 2, .contains 61])) (fun as t => lastIs (.bool true) as && t.size == 2) = true ∧
    isUb (play false odd ([.reserve 8] ++ [13, 29, 45, 61, 77].map (fun k => .insert k k) ++
      [.clear false, .insert 13 1, .insert 29 2, .contains 61])) = true := by
  decide +kernel

/-- C84 is violated by `rehash(0)`: four elements in four slots, with `max_load_factor()` 0.5. -/
theorem C84_rehash_exceeds_load :
    endsIn (play false odd (ins 4 1 ++ [.rehash 0])) (fun _ t => t.size == 4 && cap t == 4 && t.mlf == 32768) = true := by
  decide +kernel

/-- C89 is violated: `reserve(2^47)` on a map with three elements in eight slots returns, and the capacity is 4 (the product wraps). -/
theorem C89_reserve_wraps :
    endsIn (play false odd (ins 3 1)) (fun _ t => cap t == 8) = true ∧
    endsIn (play false odd (ins 3 1 ++ [.reserve (2 ^ 47)])) (fun as t => lastIs .unit as && cap t == 4) = true := by
  decide +kernel

/-- C87 is violated: an insertion that fails to allocate the new slots throws and loses all elements: `size()` is 4, no key is found. -/
theorem C87_failed_insertion_loses_elements :
    endsIn (run (hashEnv id) odd false (fun _ => 131072)
      ((ins 4 1).map (fun c => (Mem.ok, c)) ++ [(.noSlots, .insert 4 4), (.ok, .size), (.ok, .contains 0), (.ok, .contains 1)]) start)
      (fun as _ => as.drop 4 == [.threw, .num 4, .bool false, .bool false]) = true := by
  decide +kernel

/-! ### Cases that meet the hypotheses of the theorems -/

/-- A sufficient test for `Fits` after `calc_capacity(n)`. -/
def fitsB (n : Nat) (m : Spec.Map Nat Nat) : Bool :=
  match calcCapacity n with
  | .ok c => decide (m.length < c ∧ m.length ≤ 254)
  | _ => true

/-- A sufficient test for `Guarded` (integer keys, no failed allocations). -/
def guardedB (triv : Bool) (rv : Nat → Nat) : List (Call Nat Nat) → Map Nat Nat → Spec.Map Nat Nat → Bool
  | [], _, _ => true
  | c :: cs, t, m =>
    (match c with
     | .insert _ _ | .assign _ _ | .index _ _ => decide (m.length < 129)
     | .erase _ => (t.ctrl 0).dist == 255 || (t.ctrl 0).dist == 0
     | .clear d => (d && decide (4 < cap t)) || decide (cap t < 16)
     | .reserve n => n != 0 && fitsB (max (minRequire t n) t.size) m
     | .rehash n => fitsB (max (minRequire t n) t.size) m
     | .shrink ro => fitsB (if ro then t.size else minRequire t t.size) m
     | .maxLoad x => decide (x % 2 ^ 32 < 65536) && fitsB (max (t.size * rv x % W / 65536) t.size) m
     | _ => true) &&
    match exec (hashEnv id) odd triv rv .ok c t with
    | .ok t' _ => guardedB triv rv cs t' (after (hashEnv id).eq m c)
    | .throw t' => guardedB triv rv cs t' m
    | _ => true

theorem odd_tag (k : Nat) : tagOf (hashEnv id) odd k ≠ 0 := by
  unfold tagOf odd
  rw [show (0xFF : Nat) = 2 ^ 8 - 1 from rfl, Nat.and_two_pow_sub_one_eq_mod]
  omega

theorem odd_ok (t : Map Nat Nat) (k : Nat) : TagOk (hashEnv id) odd t k := Or.inr (odd_tag k)

theorem fitsB_sound {n : Nat} {m : Spec.Map Nat Nat} (h : fitsB n m = true) : ∀ c, calcCapacity n = .ok c → Fits (hashEnv id) c m := by
  intro c hc
  unfold fitsB at h
  rw [hc] at h
  simp only [decide_eq_true_eq] at h
  exact ⟨h.1, spread_of_length h.2⟩

theorem guardedB_sound {triv : Bool} {rv : Nat → Nat} : ∀ (cs : List (Call Nat Nat)) (t : Map Nat Nat) (m : Spec.Map Nat Nat),
    guardedB triv rv cs t m = true → Guarded (hashEnv id) odd triv rv (cs.map fun c => (Mem.ok, c)) t m := by
  intro cs
  induction cs with
  | nil => intro t m _; trivial
  | cons c cs ih =>
    intro t m h
    unfold guardedB at h
    rw [Bool.and_eq_true] at h
    obtain ⟨h1, h2⟩ := h
    have hsp : ∀ k v B, 129 ≤ B → m.length < 129 → Spread (hashEnv id) B (cap t) ((k, v) :: m) :=
      fun k v B hB hm => spread_of_length (by simp only [List.length_cons]; omega)
    refine ⟨by decide, ?_, ?_, ?_⟩
    · cases c with
      | insert k v => exact ⟨odd_ok t k, hsp _ _ _ (by omega) (by simpa using h1)⟩
      | assign k v => exact ⟨odd_ok t k, hsp _ _ _ (by omega) (by simpa using h1)⟩
      | index k v => exact ⟨odd_ok t k, hsp _ _ _ (by omega) (by simpa using h1)⟩
      | erase k =>
        refine ⟨odd_ok t k, fun i _ _ hw => ?_⟩
        simp only [Bool.or_eq_true, beq_iff_eq] at h1
        have := hw.2
        omega
      | find k => exact odd_ok t k
      | contains k => exact odd_ok t k
      | count k => exact odd_ok t k
      | «at» k => exact odd_ok t k
      | size => trivial
      | empty => trivial
      | iterate => trivial
      | clear d =>
        simp only [Bool.or_eq_true, Bool.and_eq_true, decide_eq_true_eq] at h1
        exact h1.imp id Or.inl
      | reserve n =>
        simp only [Bool.and_eq_true, bne_iff_ne, ne_eq] at h1
        exact ⟨h1.1, fitsB_sound h1.2⟩
      | rehash n => exact fitsB_sound h1
      | shrink ro => exact fitsB_sound h1
      | maxLoad x =>
        simp only [Bool.and_eq_true, decide_eq_true_eq] at h1
        exact ⟨h1.1, fitsB_sound h1.2⟩
    · intro t' a he
      rw [he] at h2
      exact ih _ _ h2
    · intro t' he
      rw [he] at h2
      refine ⟨?_, ih _ _ h2⟩
      cases c with
      | insert k v => exact hsp _ _ _ (by omega) (by simpa using h1)
      | assign k v => exact hsp _ _ _ (by omega) (by simpa using h1)
      | index k v => exact hsp _ _ _ (by omega) (by simpa using h1)
      | _ => trivial

/-- A concrete reachable state with property `p`. -/
theorem reach_play {triv : Bool} {cs : List (Call Nat Nat)} {p : Map Nat Nat → Bool}
    (hg : guardedB triv (fun _ => 131072) cs start [] = true) (hp : endsIn (play triv odd cs) (fun _ t => p t) = true) :
    ∃ t, Reach (hashEnv id) odd t ∧ p t = true := by
  obtain ⟨h1, h2, _⟩ := make_ok (E := hashEnv id) (sec := odd) make_start
  obtain ⟨as, t', m', e1, e2, _, _⟩ := run_ok (hashEnv_lawful id) (triv := triv) (rv := fun _ => 131072) (fun _ => by omega) _ start [] h1
    (by rw [h2]) (guardedB_sound cs start [] hg)
  refine ⟨t', e2, ?_⟩
  unfold play at hp
  rw [e1] at hp
  exact hp

/-- C79, guarded by the states: every kind of call, with displaced elements, an erasure, `clear(true)` and `max_load_factor`. -/
example : Guarded (hashEnv id) odd false (fun _ => 131072)
    (([.insert 3 1, .insert 8 2, .insert 16 3, .assign 8 7, .erase 8, .reserve 20, .index 9 0, .at 9, .maxLoad 40000, .rehash 30, .shrink false,
      .count 9, .clear true, .insert 7 1, .iterate] : List (Call Nat Nat)).map fun c => (Mem.ok, c)) start [] :=
  guardedB_sound _ _ _ (by decide +kernel)

example : endsIn (play false odd [.insert 3 1, .insert 8 2, .insert 16 3, .assign 8 7, .erase 8, .reserve 20, .index 9 0, .iterate])
    (fun as t => lastIs (.items [(3, 1), (9, 0), (16, 3)]) as && cap t == 64) = true := by decide +kernel

/-- A sufficient test for `PlainAll` (integer keys, odd control hashes, no failed allocations). -/
def plainB : List (Call Nat Nat) → Spec.Map Nat Nat → Bool
  | [], _ => true
  | c :: cs, m =>
    (match c with
     | .insert _ _ | .assign _ _ | .index _ _ => decide (m.length < 129)
     | .erase k => (Spec.get (hashEnv id).eq m k).isNone || m.all fun e => decide ((hashEnv id).h e.1 ≤ m.length)
     | .clear d => d || m.isEmpty
     | .reserve n => decide (n ≠ 0 ∧ m.length ≤ n ∧ n < 2 ^ 44 ∧ m.length ≤ 254)
     | .rehash n => decide (m.length ≤ n ∧ n < 2 ^ 44 ∧ m.length ≤ 254)
     | .shrink ro => !ro && decide (m.length ≤ 254)
     | .maxLoad _ => false
     | _ => true) &&
    plainB cs (after (hashEnv id).eq m c) && (!c.allocates || plainB cs m)

theorem low_of {m : Spec.Map Nat Nat} (h : ∀ e ∈ m, (hashEnv id).h e.1 ≤ m.length) : Low (hashEnv id) m := by
  intro j hj e he
  have h1 := h e he
  have h2 : (hashEnv id).h e.1 % 2 ^ j ≤ (hashEnv id).h e.1 := Nat.mod_le _ _
  show _ + _ ≤ _
  omega

theorem plainB_sound : ∀ (cs : List (Call Nat Nat)) (m : Spec.Map Nat Nat), plainB cs m = true →
    PlainAll (hashEnv id) odd false m (cs.map fun c => (Mem.ok, c)) := by
  intro cs
  induction cs with
  | nil => intro m _; trivial
  | cons c cs ih =>
    intro m h
    unfold plainB at h
    simp only [Bool.and_eq_true] at h
    obtain ⟨⟨h1, h2⟩, h3⟩ := h
    have ht : ∀ k v, m.length < 129 → Thin (hashEnv id) 129 ((k, v) :: m) := fun k v hm j _ =>
      spread_of_length (by simp only [List.length_cons]; omega)
    have ht' : m.length ≤ 254 → Thin (hashEnv id) 254 m := fun hm j _ => spread_of_length hm
    refine ⟨by decide, ?_, ih _ h2, ?_⟩
    · cases c with
      | insert k v => exact ⟨Or.inr (odd_tag k), ht k v (by simpa using h1)⟩
      | assign k v => exact ⟨Or.inr (odd_tag k), ht k v (by simpa using h1)⟩
      | index k v => exact ⟨Or.inr (odd_tag k), ht k v (by simpa using h1)⟩
      | erase k =>
        refine ⟨Or.inr (odd_tag k), ?_⟩
        simp only [Bool.or_eq_true, Option.isNone_iff_eq_none, List.all_eq_true, decide_eq_true_eq] at h1
        exact h1.imp id low_of
      | find k => exact Or.inr (odd_tag k)
      | contains k => exact Or.inr (odd_tag k)
      | count k => exact Or.inr (odd_tag k)
      | «at» k => exact Or.inr (odd_tag k)
      | size => trivial
      | empty => trivial
      | iterate => trivial
      | clear d =>
        cases d with
        | true => rfl
        | false => exact (by simpa using h1 : m = [])
      | reserve n =>
        simp only [decide_eq_true_eq] at h1
        exact ⟨h1.1, h1.2.1, h1.2.2.1, fun hb => (by cases hb), ht' h1.2.2.2⟩
      | rehash n =>
        simp only [decide_eq_true_eq] at h1
        exact ⟨h1.1, h1.2.1, fun hb => (by cases hb), ht' h1.2.2⟩
      | shrink ro =>
        simp only [Bool.and_eq_true, Bool.not_eq_true', decide_eq_true_eq] at h1
        exact ⟨h1.1, by omega, fun hb => (by cases hb), ht' h1.2⟩
      | maxLoad x => cases h1
    · intro hc
      rw [hc] at h3
      exact ih _ (by simpa using h3)

/-- C79 and C84 without conditions on the states: conditions on the ideal map. -/
example : PlainAll (hashEnv id) odd false ([] : Spec.Map Nat Nat)
    (([.insert 0 1, .insert 1 2, .assign 0 7, .erase 1, .reserve 100, .index 2 0, .rehash 5, .shrink false, .clear true, .insert 8 8, .iterate] :
      List (Call Nat Nat)).map fun c => (Mem.ok, c)) :=
  plainB_sound _ _ (by decide +kernel)

/-- C79 for few insertions: forty of them (the slot count grows from 16 to 128). -/
example : (((List.range 40).map fun k => ((Mem.ok, .insert k k) : Mem × Call Nat Nat)).countP fun p => adds p.2) ≤ 129 := by decide

/-- C80 to C84: a reachable state with displaced elements. -/
example : ∃ t : Map Nat Nat, Reach (hashEnv id) odd t ∧ (cap t == 16 && t.size == 5 && (t.ctrl 3).dist == 3 && (t.ctrl 4).dist == 4) = true :=
  reach_play (triv := false) (cs := [.insert 0 0, .insert 16 1, .insert 32 2, .insert 48 3, .insert 64 4]) (by decide +kernel) (by decide +kernel)

/-- C81, the violation: a reachable state with two keys that belong into the last slot. -/
example : ∃ t : Map Nat Nat, Reach (hashEnv id) odd t ∧ (cap t == 4 && t.size == 2 && (t.ctrl 0).dist == 1 && (t.ctrl 3).dist == 0) = true :=
  reach_play (triv := false) (cs := [.insert 3 0, .insert 7 1]) (by decide +kernel) (by decide +kernel)

/-- C83: a reachable state with the first 16 slots empty. -/
example : ∃ t : Map Nat Nat, Reach (hashEnv id) odd t ∧ (cap t == 32 && t.size == 2 && (List.range 16).all fun i => (t.ctrl i).dist == 255) = true :=
  reach_play (triv := false) (cs := [.reserve 16, .insert 20 0, .insert 30 1]) (by decide +kernel) (by decide +kernel)

/-- C85 and C86: keys with the required hashes, for the hash function `k / 1000`. -/
example : ∃ (l : List (Nat × Nat)) (e0 : Nat × Nat) (k : Nat), l.length = 129 ∧ (∀ e ∈ l, (hashEnv (· / 1000)).h e.1 = 0 + 1) ∧
    (hashEnv (· / 1000)).h e0.1 = 0 ∧ (hashEnv (· / 1000)).h k = 0 ∧ Distinct (hashEnv (· / 1000)).eq ((k, 0) :: e0 :: l) := by
  refine ⟨(List.range 129).map fun i => (1000 + i, i), (0, 0), 1, by simp, ?_, rfl, rfl, ?_⟩
  · decide +kernel
  · unfold Distinct; decide +kernel

example : ∃ (l : List (Nat × Nat)) (k : Nat), l.length = 254 ∧ (∀ e ∈ l, (hashEnv (· / 1000)).h e.1 = 0) ∧
    (hashEnv (· / 1000)).h k = 0 ∧ Distinct (hashEnv (· / 1000)).eq ((k, 0) :: l) := by
  refine ⟨(List.range 254).map fun i => (i, i), 254, by simp, ?_, rfl, ?_⟩
  · decide +kernel
  · unfold Distinct; decide +kernel

/-- C87: a reachable state in which the next insertion must grow, and one with a free home position and room. -/
example : ∃ t : Map Nat Nat, Reach (hashEnv id) odd t ∧ (cap t == 8 && t.size == 4 && t.thr == 4 && (t.ctrl (5 % cap t)).dist == 255) = true :=
  reach_play (triv := false) (cs := ins 4 1) (by decide +kernel) (by decide +kernel)

example : ∃ t : Map Nat Nat, Reach (hashEnv id) odd t ∧ (cap t == 8 && decide (t.size < t.thr) && (t.ctrl (5 % cap t)).dist == 255) = true :=
  reach_play (triv := false) (cs := ins 3 1) (by decide +kernel) (by decide +kernel)

/-- C88: three elements in eight slots; with `max_load_factor(0.4)` (`n_mlf_` 26214) a fourth one is above it. -/
example : ∃ t : Map Nat Nat, Reach (hashEnv id) odd t ∧ (cap t == 8 && t.size == 3 && decide (t.size < t.thr) &&
    decide (cap t * 26214 < (t.size + 1) * 65536)) = true :=
  reach_play (triv := false) (cs := ins 3 1) (by decide +kernel) (by decide +kernel)

/-- C89: `reserve(20)` on three elements. -/
example : endsIn (play false odd (ins 3 1 ++ [.reserve 20])) (fun as t => lastIs .unit as && cap t == 64 && t.thr == 32) = true := by
  decide +kernel

/-- C90. -/
example : (match ofList (hashEnv id) odd .ok 0 [(1, 1), (5, 2), (1, 3)] with
    | .ok t _ => entries t == [(1, 1), (5, 2)] && cap t == 8
    | _ => false) = true := by decide +kernel

end Verif.Rob16
