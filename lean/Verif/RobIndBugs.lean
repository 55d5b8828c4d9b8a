/-
Where `robin_hash_map` with the indirect layout does not do what its interface promises, and concrete cases meeting the
hypotheses of the theorems in RobIndProps.lean and RobIndCopy.lean.
-/
import Verif.RobIndCopy
import Verif.RobinBugs

namespace Verif.RobInd
open Spec (Distinct Call Ans)
open Robin (next contents Ended hashEnv hashEnv_lawful ins isUb bareAfter dense contents_ins roomy_dense_n)

variable {K V : Type} {E : Env K}

/-- C99 is violated by `clear` on a map without storage: it writes into the static control words. -/
theorem C99_clear_default (m r : Nat) (d : Bool) : clear d (emptyMap m r : Map K V) = .ub := by cases d <;> rfl

/-! ### Concrete histories -/

/-- A history without failed allocations, from a default constructed map. -/
def play (f : Nat → Nat) (cs : List (Call Nat Nat)) : Res (List (Ans Nat Nat) × Map Nat Nat) :=
  run false (hashEnv f) (fun _ => 512) (cs.map fun c => (true, c)) (emptyMap 128 512)

/-- The history ends in a state with property `p`. -/
def endsIn (r : Res (List (Ans Nat Nat) × Map Nat Nat)) (p : List (Ans Nat Nat) → Map Nat Nat → Bool) : Bool :=
  match r with
  | .ok (as, t) => p as t
  | _ => false

set_option maxRecDepth 100000

/-- C99 is violated: seventeen keys at home at the last position of a map of capacity 64 (load one quarter).  The search for an
eighteenth reads behind the 80 control words. -/
theorem C99_reads_past_the_control_words :
    endsIn (play (fun _ => 63) (.reserve 32 :: ins 17)) (fun _ t => t.size == 17 && t.clen == 80 && slotCap t == 64 &&
      isUb (contains false (hashEnv fun _ => 63) t 17)) = true := by
  decide +kernel

/-- C99 is violated: twelve keys at home at the last position of a map of capacity 32.  `contains(11)` is true, `erase(11)` answers 0 and
erases nothing. -/
theorem C99_erase_answers_zero :
    endsIn (play (fun _ => 31) (.reserve 16 :: ins 12 ++ [.contains 11, .erase 11, .size, .contains 11]))
      (fun as _ => as.drop 13 == [.bool true, .num 0, .num 12, .bool true]) = true := by
  decide +kernel

/-- C99 is violated: thirteen elements, all found.  After `shrink_to_fit()` the size is still 13 and iteration visits 21, but
`contains(21)` is false: `indirect_insert_to_place<true>` found no room for the last control word, put it over the new one, and its result
was not looked at. -/
theorem C99_shrink_loses_a_control_word :
    endsIn (play Robin.lossy (.reserve 32 :: ins 11 ++ [.insert 20 20, .insert 21 21, .contains 21, .shrink false, .size, .contains 21]))
      (fun as t => as.drop 14 == [.bool true, .unit, .num 13, .bool false] && t.slot 12 == some (21, 21)) = true := by
  decide +kernel

/-- C99 is violated after a failed allocation: two elements in a map of capacity 4, the third insertion throws `std::bad_alloc`, and
then `max_slot_capacity()` is greater than the number of slots in the block. -/
theorem C99_after_failed_allocation :
    endsIn (run false idEnv (fun _ => 512) [(true, .insert 0 0), (true, .insert 1 1), (false, .insert 2 2)]
        (emptyMap 128 512)) (fun as t => as == [.elem (0, 0) true, .elem (1, 1) true, .threw] &&
          t.size == 2 && t.slen == 8 && maxCap t == 10) = true := by
  decide +kernel

/-! ### Concrete cases for the theorems -/

/-- `Usable` as a test. -/
def usableB (eq : K → K → Bool) : Bool → Spec.Map K V → List (Bool × Call K V) → Bool
  | _, _, [] => true
  | bare, m, c :: cs =>
    (match c.2 with
      | .clear _ => !bare
      | .find k => (Spec.get eq m k).isSome
      | _ => true) && usableB eq (bareAfter bare c.2) (next eq m c.2) cs

theorem usable_of_usableB {eq : K → K → Bool} : ∀ (cs : List (Bool × Call K V)) (bare : Bool) (m : Spec.Map K V),
    usableB eq bare m cs = true → Usable eq bare m cs := by
  intro cs
  induction cs with
  | nil => intro _ _ _; trivial
  | cons c cs ih =>
    intro bare m h
    simp only [usableB, Bool.and_eq_true] at h
    refine ⟨?_, ?_, ih _ _ h.2⟩
    · intro hb d hd
      have h1 := h.1
      rw [hd, hb] at h1
      cases h1
    · intro k hk
      have h1 := h.1
      rw [hk] at h1
      exact h1

/-- A mixed history with growth, displacement, erasure, clearing and a failed allocation at the end. -/
def mixed : List (Bool × Call Nat Nat) :=
  [(true, .insert 0 10), (true, .insert 1 11), (true, .assign 0 12), (true, .find 1), (true, .insert 2 13), (true, .erase 0),
    (true, .contains 0), (true, .iterate), (true, .maxLoad 154), (true, .clear true), (true, .index 7 0), (true, .find 7), (true, .insert 8 8),
    (true, .clear false), (true, .insert 8 8), (true, .insert 9 8), (true, .shrink true), (false, .insert 10 9)]

theorem mixed_valid : ∀ c ∈ mixed, Robin.Valid c.2 := by
  have h : mixed.all (fun c => Robin.validB c.2) = true := by decide
  intro c hc
  exact Robin.valid_of_validB (List.all_eq_true.mp h c hc)

/-- It meets the hypotheses of `C99_indirect_small_partial`; every key has the same hash. -/
example : ∃ as t' m', run false clashEnv (fun _ => 512) mixed (emptyMap 128 512 : Map Nat Nat) = .ok (as, t') ∧
    Spec.AcceptsAll clashEnv.eq [] ((mixed.map (·.2)).take as.length) as m' ∧ Ended mixed as :=
  C99_indirect_small_partial clashEnv_lawful (fun _ => ⟨by omega, by omega⟩) (mem := true) (n := 0) rfl mixed_valid
    (usable_of_usableB _ _ _ (by rfl)) (by decide)

/-- And those of `C100_order_partial`. -/
example : ∃ as t', run false clashEnv (fun _ => 512) mixed (emptyMap 128 512 : Map Nat Nat) = .ok (as, t') ∧
    Ordered clashEnv.eq [] mixed as ∧ (as.getLast? ≠ some .threw → walk t' = .ok (orderAll clashEnv.eq [] mixed)) :=
  C100_order_partial clashEnv_lawful (fun _ => ⟨by omega, by omega⟩) (mem := true) (n := 0) rfl mixed_valid
    (usable_of_usableB _ _ _ (by rfl)) (fun i hi => room_five (by revert i; decide))

/-- The hypotheses of C99 and C100 are met by histories of every length below 2^32: inserting the keys `0 … n-1` with the identity hash.  The
map then lists them in the order of insertion. -/
theorem C100_dense (n : Nat) (hn : n < 2 ^ 32) :
    ∃ as t', run false idEnv (fun _ => 512) ((ins n).map fun c => (true, c)) (emptyMap 128 512 : Map Nat Nat) = .ok (as, t') ∧
      (as.getLast? ≠ some .threw → walk t' = .ok ((List.range n).map fun k => (k, k))) := by
  obtain ⟨as, t', h1, _, h3⟩ := C100_order_partial (E := idEnv) (V := Nat) idEnv_lawful (rv := fun _ => 512) (fun _ => ⟨by omega, by omega⟩)
    (mem := true) (n := 0) (t0 := emptyMap 128 512) rfl (cs := (ins n).map fun c => (true, c)) (by
      intro c hc
      unfold ins at hc
      simp only [List.map_map, List.mem_map, Function.comp] at hc
      obtain ⟨k, _, rfl⟩ := hc
      trivial) (by
      have : ∀ (l : List Nat) b m, Usable idEnv.eq b m ((l.map fun k => Call.insert k k).map fun c => ((true, c) : Bool × Call Nat Nat)) := by
        intro l
        induction l with
        | nil => intro _ _; trivial
        | cons k l ih => intro b m; exact ⟨fun _ _ h => (by cases h), fun _ h => (by cases h), ih _ _⟩
      exact this _ _ _) (by
      intro i hi
      have : ((ins n).map fun c => ((true, c) : Bool × Call Nat Nat)).take i = (ins (min i n)).map fun c => (true, c) := by
        unfold ins
        rw [List.map_map, List.map_map, ← List.map_take, List.take_range]
      rw [this, contents_ins]
      refine ⟨roomy_dense_n (by unfold W; omega), ?_⟩
      have : (dense (min i n)).length = min i n := by simp [dense]
      omega)
  refine ⟨as, t', h1, fun hl => ?_⟩
  rw [h3 hl]
  have h4 := orderAll_inserts (E := idEnv) (V := Nat) idEnv_lawful true ((List.range n).map fun k => (k, k)) [] (by
    rw [List.nil_append]
    unfold Distinct
    rw [List.pairwise_map]
    refine List.Pairwise.imp ?_ (List.nodup_range (n := n))
    intro a b hab
    simp only [idEnv, beq_eq_false_iff_ne]
    exact hab)
  rw [List.nil_append] at h4
  rw [← h4]
  unfold ins
  rw [List.map_map, List.map_map]
  rfl

/-- The state after a complete history without failed allocations, if the checked code is defined. -/
def stateOf (E : Env Nat) (n : Nat) (cs : List (Call Nat Nat)) : Option (Map Nat Nat) :=
  match (make true n : Out (Map Nat Nat) Unit) with
  | .ok t0 _ =>
    match run true E (fun _ => 512) (cs.map fun c => (true, c)) t0 with
    | .ok (as, t) => if as.getLast? = some .threw then none else some t
    | _ => none
  | _ => none

theorem reached_of {E : Env Nat} {n : Nat} {cs : List (Call Nat Nat)} {t : Map Nat Nat} (h : stateOf E n cs = some t)
    (hv : cs.all Robin.validB = true) : Reached E (fun _ => 512) (cs.map fun c => (true, c)) t := by
  refine ⟨?_, n, true, ?_⟩
  · intro c hc
    obtain ⟨c', h1, rfl⟩ := List.mem_map.mp hc
    exact Robin.valid_of_validB (List.all_eq_true.mp hv c' h1)
  · unfold stateOf at h
    split at h
    · rename_i t0 u he
      split at h
      · rename_i as t' hr
        split at h
        · cases h
        · rename_i hl
          cases h
          exact ⟨t0, as, he, hr, hl⟩
      · cases h
    · cases h

/-- C101 to C104 speak about such states: five keys with equal hashes, one of them erased, an absent and a present key, storage and a
nonzero threshold. -/
example : ∃ t, Reached clashEnv (fun _ => 512) ((ins 5 ++ [Call.erase 1]).map fun c => (true, c)) t ∧ t.alloc = true ∧ 0 < t.thr ∧
    Spec.get clashEnv.eq (contents clashEnv.eq ((ins 5 ++ [Call.erase 1]).map fun c => (true, c))) 1 = none ∧
    Spec.get clashEnv.eq (contents clashEnv.eq ((ins 5 ++ [Call.erase 1]).map fun c => (true, c))) 3 = some (3, 3) ∧
    contents clashEnv.eq ((ins 5 ++ [Call.erase 1]).map fun c => (true, c)) ≠ [] ∧
    Robin.Fits clashEnv (slotCap t) (contents clashEnv.eq ((ins 5 ++ [Call.erase 1]).map fun c => (true, c))) ∧
    walk t = .ok [(0, 0), (4, 4), (2, 2), (3, 3)] := by
  have h1 : (stateOf clashEnv 0 (ins 5 ++ [Call.erase 1])).isSome = true := by decide +kernel
  obtain ⟨t, ht⟩ := Option.isSome_iff_exists.mp h1
  have h3 : ((stateOf clashEnv 0 (ins 5 ++ [Call.erase 1])).map fun t => (t.alloc, t.thr, slotCap t)) = some (true, 8, 16) := by
    decide +kernel
  have h4 : ((stateOf clashEnv 0 (ins 5 ++ [Call.erase 1])).map fun t => decide (walk t = .ok [(0, 0), (4, 4), (2, 2), (3, 3)])) =
      some true := by
    decide +kernel
  rw [ht] at h3 h4
  simp only [Option.map_some, Option.some.injEq, Prod.mk.injEq, decide_eq_true_eq] at h3 h4
  refine ⟨t, reached_of ht (by decide), h3.1, by omega, by decide, by decide, by decide, ?_, h4⟩
  rw [h3.2.2]
  exact Robin.roomy_five (by decide) 4 (by decide) (by decide)

end Verif.RobInd
