/-
Where `robin_hash_map` does not do what its interface promises, and concrete cases meeting the hypotheses of the theorems
in RobinProps.lean and RobinCopy.lean.
-/
import Verif.RobinCopy

namespace Verif.Robin
open Spec (Distinct Call Ans)

variable {K V : Type} {E : Env K}

/-! ### A map without storage -/

theorem probe_bare {store chk : Bool} (m r : Nat) (k : K) : probe store chk E (emptyMap store m r : Map K V) k = .ok (.stop 0 ⟨0, 0⟩) := by
  unfold probe
  have hh : home E (emptyMap store m r : Map K V) k = 0 := by
    unfold home emptyMap
    simp
  rw [hh]
  cases store <;> rfl

/-- C31 is violated by `find` on a default constructed map: for every key the returned iterator has index 0, while `end()` has index 4;
dereferencing it is undefined. -/
theorem C31_find_default {store : Bool} (m r : Nat) (k : K) :
    findIter store false E (emptyMap store m r : Map K V) k = .ok 0 ∧ maxCap (emptyMap store m r : Map K V) = 4 ∧
      lookup store false E (emptyMap store m r : Map K V) k = .ub := by
  have h : findIter store false E (emptyMap store m r : Map K V) k = .ok 0 := by
    unfold findIter findIdx
    rw [probe_bare]
    rfl
  refine ⟨h, rfl, ?_⟩
  unfold lookup
  rw [h]
  rfl

/-- C31 is violated by `clear` on a map without storage: it writes into the static control words. -/
theorem C31_clear_default {store : Bool} (m r : Nat) (d : Bool) : clear store d (emptyMap store m r : Map K V) = .ub := by
  cases d <;> rfl

/-! ### Concrete histories -/

/-- Integer keys with a given hash function. -/
def hashEnv (f : Nat → Nat) : Env Nat := ⟨f, fun a b => a == b⟩

theorem hashEnv_lawful (f : Nat → Nat) : (hashEnv f).Lawful where
  refl := by intro a; simp [hashEnv]
  symm := by intro a b; simp only [hashEnv, beq_iff_eq]; omega
  trans := by intro a b c; simp only [hashEnv, beq_iff_eq]; omega
  congr := by intro a b; simp only [hashEnv, beq_iff_eq]; intro h; rw [h]

/-- A history without failed allocations, from a default constructed map. -/
def play (store : Bool) (f : Nat → Nat) (cs : List (Call Nat Nat)) : Res (List (Ans Nat Nat) × Map Nat Nat) :=
  run store false (hashEnv f) (fun _ => 512) (cs.map fun c => (true, c)) (emptyMap store 128 512)

/-- Insert the keys `0 … n-1`. -/
def ins (n : Nat) : List (Call Nat Nat) := (List.range n).map fun k => .insert k k

/-- The history ends in a state with property `p`. -/
def endsIn (r : Res (List (Ans Nat Nat) × Map Nat Nat)) (p : List (Ans Nat Nat) → Map Nat Nat → Bool) : Bool :=
  match r with
  | .ok (as, t) => p as t
  | _ => false

/-- The history is undefined. -/
def isUb {α : Type} : Res α → Bool
  | .ub => true
  | _ => false

set_option maxRecDepth 100000

/-- C33 is violated: 17 keys with equal hashes end up at distances up to 16 in a map of capacity 64, for which `max_lookups()`
is 12. -/
theorem C33_distance_exceeds_max_lookups :
    endsIn (play false (fun _ => 0) (ins 17)) (fun _ t => t.look == 12 && t.slot 16 == some (16, 16) && t.ctrl 16 == ⟨16, 0⟩) = true := by
  decide +kernel

/-- C33 is violated: twelve keys at home at the last position of a map of capacity 32.  The twelfth is constructed behind the
end of the 42 slots (the check `uvalue >= max_distance()` cannot fire with a one-byte control word). -/
theorem C33_writes_past_the_slots :
    endsIn (play false (fun _ => 31) (.reserve 16 :: ins 11)) (fun _ t => t.slen == 42 && t.slot 41 == some (10, 10)) = true ∧
      isUb (play false (fun _ => 31) (.reserve 16 :: ins 12)) = true := by
  constructor <;> decide +kernel

/-- The same through `shrink_to_fit`. -/
theorem C33_shrink_writes_past_the_slots :
    endsIn (play false (fun _ => 31) (.reserve 32 :: ins 12)) (fun _ t => t.size == 12) = true ∧
      isUb (play false (fun _ => 31) (.reserve 32 :: ins 12 ++ [.shrink false])) = true := by
  constructor <;> decide +kernel

/-- Keys below 20 at home at 31, the others at 62 (at 30 in a map of capacity 32). -/
def lossy (k : Nat) : Nat := if k < 20 then 31 else 62

/-- C31 is violated: thirteen elements, all found.  After `shrink_to_fit()` the size is still 13, but `contains(0)` is false
and the loop over the map visits twelve elements: `insert_to_place<true>` found no room and its result was not looked at. -/
theorem C31_growth_loses_an_element :
    endsIn (play false lossy (.reserve 32 :: ins 11 ++ [.insert 20 20, .insert 21 21, .contains 0, .shrink false, .size, .contains 0, .iterate]))
      (fun as _ => as.drop 14 == [.bool true, .unit, .num 13, .bool false,
        .items [(20, 20), (21, 21), (1, 1), (2, 2), (3, 3), (4, 4), (5, 5), (6, 6), (7, 7), (8, 8), (9, 9), (10, 10)]]) = true := by
  decide +kernel

/-- C31 is violated: with 128 equal hashes in the map, the distance byte wraps in the search for an absent key and the search goes on
into slots that hold no element. -/
theorem C31_distance_wraps :
    endsIn (play false (fun _ => 0) (.reserve 200 :: ins 128)) (fun _ t => t.size == 128 &&
      isUb (contains false false (hashEnv fun _ => 0) t 128)) = true := by
  decide +kernel

/-- C31 is violated after a failed allocation: two elements in a map of capacity 4, the third insertion throws `std::bad_alloc`, and
then `find` of an absent key is no longer `end()`, because `max_lookups_` has been changed. -/
theorem C31_find_after_failed_allocation :
    endsIn (run false false idEnv (fun _ => 512) [(true, .insert 0 0), (true, .insert 1 1), (true, .find 7), (false, .insert 2 2)]
        (emptyMap false 128 512)) (fun as t => as == [.elem (0, 0) true, .elem (1, 1) true, .found none, .threw] &&
          t.size == 2 && findIter false false idEnv t 7 == .ok 8 && maxCap t == 10 &&
          isUb (lookup false false idEnv t 7)) = true := by
  decide +kernel

/-- C31 is violated by the layout that stores hashes: nine keys are in the map and found until the map grows from capacity 16 to
32; then `contains(1)` is false, although the loop over the map still visits the element. -/
theorem C31_stored_hash_growth :
    endsIn (play true (fun k => k) (ins 8 ++ [.contains 1, .insert 8 8, .size, .contains 1]))
      (fun as t => as.drop 8 == [.bool true, .elem (8, 8) true, .num 9, .bool false] && t.slot 1 == some (1, 1)) = true := by
  decide +kernel

/-! ### Concrete cases for the theorems -/

/-- `Valid` and `Usable` as tests. -/
def validB : Call K V → Bool
  | .maxLoad m => decide (m % 2 ^ 32 ≤ 256)
  | .reserve n => decide (n ≠ 0)
  | _ => true

theorem valid_of_validB {c : Call K V} (h : validB c = true) : Valid c := by
  cases c <;> simp_all [validB, Valid]

def needsStorage : Call K V → Bool
  | .find _ | .clear _ => true
  | _ => false

def usableB : Bool → List (Bool × Call K V) → Bool
  | _, [] => true
  | bare, c :: cs => !(bare && needsStorage c.2) && usableB (bareAfter bare c.2) cs

theorem usable_of_usableB : ∀ (cs : List (Bool × Call K V)) (bare : Bool), usableB bare cs = true → Usable bare cs := by
  intro cs
  induction cs with
  | nil => intro _ _; trivial
  | cons c cs ih =>
    intro bare h
    simp only [usableB, Bool.and_eq_true, Bool.not_eq_true'] at h
    refine ⟨?_, ih _ h.2⟩
    intro hb
    have h1 := h.1
    rw [hb] at h1
    constructor
    · intro k hk; rw [hk] at h1; cases h1
    · intro d hd; rw [hd] at h1; cases h1

/-- Distinct keys below the number of elements, identity hash: they fit into every block. -/
theorem roomy_dense {l : List (Nat × Nat)} (hd : (l.map (·.1)).Nodup) (hlt : ∀ e ∈ l, e.1 < l.length) (hW : l.length ≤ W) :
    Roomy idEnv l := by
  intro j hj hlen
  have hh : ∀ e ∈ l, hm idEnv (2 ^ j) e.1 = e.1 := by
    intro e he
    have := hlt e he
    unfold hm Env.h idEnv
    simp only
    rw [Nat.mod_eq_of_lt (show e.1 < W by omega), Nat.mod_eq_of_lt (by omega)]
  have hc : ∀ a b, homes idEnv (2 ^ j) a b l ≤ b + 1 - a := by
    intro a b
    have h1 : homes idEnv (2 ^ j) a b l = ((l.map (·.1)).filter fun k => decide (a ≤ k ∧ k ≤ b)).length := by
      unfold homes
      rw [← List.countP_eq_length_filter, List.countP_map]
      apply List.countP_congr
      intro e he
      rw [hh e he]
      rfl
    have h2 : ((l.map (·.1)).filter fun k => decide (a ≤ k ∧ k ≤ b)).Subperm (List.range' a (b + 1 - a)) := by
      apply List.Nodup.subperm (hd.filter _)
      intro k hk
      rw [List.mem_filter] at hk
      have := of_decide_eq_true hk.2
      rw [List.mem_range'_1]
      omega
    have h3 := h2.length_le
    rw [List.length_range'] at h3
    omega
  have := lookups_bounds (2 ^ j)
  exact ⟨fun a ha => by have := hc a (2 ^ j - 1); omega, fun a x h1 h2 => by have := hc a x; omega⟩

theorem contents_append (eq : K → K → Bool) (cs : List (Bool × Call K V)) (c : Bool × Call K V) :
    contents eq (cs ++ [c]) = next eq (contents eq cs) c.2 := by
  unfold contents
  rw [List.foldl_append]
  rfl

/-- The keys `n-1 … 0`, in the order in which the ideal map lists them. -/
def dense (n : Nat) : List (Nat × Nat) := ((List.range n).map fun k => (k, k)).reverse

theorem contents_ins : ∀ n, contents idEnv.eq ((ins n).map fun c => (true, c)) = dense n := by
  intro n
  induction n with
  | zero => rfl
  | succ n ih =>
    unfold ins at ih ⊢
    rw [List.range_succ, List.map_append, List.map_append]
    show contents idEnv.eq (_ ++ [(true, Call.insert n n)]) = _
    rw [contents_append, ih]
    show Spec.insert idEnv.eq (dense n) n n = _
    have : Spec.get idEnv.eq (dense n) n = none := by
      rw [Spec.get_none_iff]
      intro e he
      unfold dense at he
      simp only [List.mem_reverse, List.mem_map, List.mem_range] at he
      obtain ⟨k, hk, rfl⟩ := he
      simp only [idEnv, beq_eq_false_iff_ne]
      omega
    rw [Spec.insert_absent this]
    unfold dense
    rw [List.range_succ, List.map_append, List.reverse_append]
    rfl

theorem roomy_dense_n {n : Nat} (h : n ≤ W) : Roomy idEnv (dense n) := by
  have hl : (dense n).length = n := by simp [dense]
  apply roomy_dense
  · unfold dense
    rw [List.map_reverse, List.nodup_reverse, List.map_map]
    show ((List.range n).map fun k => k).Nodup
    rw [List.map_id']
    exact List.nodup_range
  · intro e he
    rw [hl]
    unfold dense at he
    simp only [List.mem_reverse, List.mem_map, List.mem_range] at he
    obtain ⟨k, hk, rfl⟩ := he
    exact hk
  · rw [hl]; exact h

/-- The hypotheses of C31 are met by histories of every length: inserting the keys `0 … n-1` with the identity hash, for every `n`. -/
theorem C31_dense (n : Nat) (hn : n ≤ W) {t0 : Map Nat Nat} (h0 : make false true 1 = .ok t0 ()) :
    ∃ as t' m', run false false idEnv (fun _ => 512) ((ins n).map fun c => (true, c)) t0 = .ok (as, t') ∧
      Spec.AcceptsAll idEnv.eq [] (((((ins n).map fun c => (true, c))).map (·.2)).take as.length) as m' ∧
      Ended ((ins n).map fun c => (true, c)) as := by
  apply C31_robin_partial idEnv_lawful (fun _ => ⟨by omega, by omega⟩) h0
  · intro c hc
    unfold ins at hc
    simp only [List.map_map, List.mem_map, Function.comp] at hc
    obtain ⟨k, _, rfl⟩ := hc
    trivial
  · have : ∀ (l : List Nat), Usable (decide ((1 : Nat) = 0)) ((l.map fun k => Call.insert k k).map fun c => ((true, c) : Bool × Call Nat Nat)) := by
      intro l
      induction l with
      | nil => trivial
      | cons k l ih => exact ⟨fun h => (by cases h), ih⟩
    exact this _
  · intro i hi
    have : ((ins n).map fun c => ((true, c) : Bool × Call Nat Nat)).take i = (ins (min i n)).map fun c => (true, c) := by
      unfold ins
      rw [List.map_map, List.map_map, ← List.map_take, List.take_range]
    rw [this, contents_ins]
    exact roomy_dense_n (by omega)

/-- A mixed history with growth, displacement, erasure, clearing and a failed allocation at the end. -/
def mixed : List (Bool × Call Nat Nat) :=
  [(true, .insert 0 10), (true, .insert 1 11), (true, .assign 0 12), (true, .find 1), (true, .insert 2 13), (true, .erase 0),
    (true, .contains 0), (true, .maxLoad 154), (true, .clear true), (true, .index 7 0), (true, .find 8), (true, .insert 8 8),
    (false, .insert 9 9)]

/-- It meets the hypotheses of `C31_robin_small_partial`; every key has the same hash. -/
example : ∃ as t' m', run false false clashEnv (fun _ => 512) mixed (emptyMap false 128 512 : Map Nat Nat) = .ok (as, t') ∧
    Spec.AcceptsAll clashEnv.eq [] ((mixed.map (·.2)).take as.length) as m' ∧ Ended mixed as := by
  refine C31_robin_small_partial clashEnv_lawful (fun _ => ⟨by omega, by omega⟩) (mem := true) (n := 0) rfl ?_
    (usable_of_usableB _ _ (by rfl)) ?_
  · have h : mixed.all (fun c => validB c.2) = true := by decide
    intro c hc
    exact valid_of_validB (List.all_eq_true.mp h c hc)
  · decide

/-- The state after a complete history without failed allocations, if the checked code is defined. -/
def stateOf (E : Env Nat) (n : Nat) (cs : List (Call Nat Nat)) : Option (Map Nat Nat) :=
  match (make false true n : Out (Map Nat Nat) Unit) with
  | .ok t0 _ =>
    match run false true E (fun _ => 512) (cs.map fun c => (true, c)) t0 with
    | .ok (as, t) => if as.getLast? = some .threw then none else some t
    | _ => none
  | _ => none

theorem reached_of {E : Env Nat} {n : Nat} {cs : List (Call Nat Nat)} {t : Map Nat Nat} (h : stateOf E n cs = some t)
    (hv : cs.all validB = true) : Reached E (fun _ => 512) (cs.map fun c => (true, c)) t := by
  refine ⟨?_, n, true, ?_⟩
  · intro c hc
    obtain ⟨c', h1, rfl⟩ := List.mem_map.mp hc
    exact valid_of_validB (List.all_eq_true.mp hv c' h1)
  · unfold stateOf at h
    split at h
    · rename_i t0 u he
      split at h
      · rename_i as t' hr
        split at h
        · cases h
        · rename_i hl
          cases h
          exact ⟨t0, as, he, hr, hl⟩
      · cases h
    · cases h

/-- Eight keys, one of them erased. -/
def hist1 : List (Call Nat Nat) := ins 8 ++ [.erase 3]
/-- The same set in another order. -/
def hist2 : List (Call Nat Nat) := [.reserve 8] ++ [7, 6, 5, 4, 2, 1, 0].map fun k => .insert k k

/-- C32 and C33 speak about such states: eight keys with equal hashes, one of them erased from the middle of the cluster, and the
same set inserted in another order. -/
example : ∃ t t', Reached clashEnv (fun _ => 512) (hist1.map fun c => (true, c)) t ∧
    Reached clashEnv (fun _ => 512) (hist2.map fun c => (true, c)) t' ∧
    slotCap t = 16 ∧ slotCap t' = 16 ∧ (t.ctrl 11).dist = 6 ∧ t.slot 11 ≠ t'.slot 11 ∧
    (contents clashEnv.eq (hist1.map fun c => (true, c))).Perm (contents clashEnv.eq (hist2.map fun c => (true, c))) := by
  have h1 : (stateOf clashEnv 0 hist1).isSome = true := by decide +kernel
  have h2 : (stateOf clashEnv 0 hist2).isSome = true := by decide +kernel
  obtain ⟨t, ht⟩ := Option.isSome_iff_exists.mp h1
  obtain ⟨t', ht'⟩ := Option.isSome_iff_exists.mp h2
  have h3 : ((stateOf clashEnv 0 hist1).map fun t => (slotCap t, (t.ctrl 11).dist, t.slot 11)) = some (16, 6, some (7, 7)) := by
    decide +kernel
  have h4 : ((stateOf clashEnv 0 hist2).map fun t => (slotCap t, t.slot 11)) = some (16, some (0, 0)) := by
    decide +kernel
  rw [ht] at h3
  rw [ht'] at h4
  simp only [Option.map_some, Option.some.injEq, Prod.mk.injEq] at h3 h4
  refine ⟨t, t', reached_of ht (by decide), reached_of ht' (by decide), h3.1, h4.1, h3.2.1, ?_, by decide⟩
  rw [h3.2.2, h4.2]
  decide

/-- C34: two maps with storage, an absent key. -/
example : ∃ a b, Reached clashEnv (fun _ => 512) ((ins 3).map fun c => (true, c)) a ∧
    Reached clashEnv (fun _ => 512) ((ins 5).map fun c => (true, c)) b ∧ a.alloc = true ∧ 0 < a.thr ∧
    Roomy clashEnv (contents clashEnv.eq ((ins 5).map fun c => (true, c))) ∧
    Spec.get clashEnv.eq (contents clashEnv.eq ((ins 5).map fun c => (true, c))) 99 = none := by
  have h1 : (stateOf clashEnv 0 (ins 3)).isSome = true := by decide +kernel
  have h2 : (stateOf clashEnv 0 (ins 5)).isSome = true := by decide +kernel
  obtain ⟨t, ht⟩ := Option.isSome_iff_exists.mp h1
  obtain ⟨t', ht'⟩ := Option.isSome_iff_exists.mp h2
  have h3 : ((stateOf clashEnv 0 (ins 3)).map fun t => (t.alloc, t.thr)) = some (true, 4) := by decide +kernel
  rw [ht] at h3
  simp only [Option.map_some, Option.some.injEq, Prod.mk.injEq] at h3
  exact ⟨t, t', reached_of ht (by decide), reached_of ht' (by decide), h3.1, by omega, roomy_five (by decide), by decide⟩

end Verif.Robin
