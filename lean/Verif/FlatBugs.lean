/-
Where `flat16_hash_map` does not do what its interface promises, and concrete cases meeting the hypotheses of the theorems
in FlatProps.lean.
-/
import Verif.FlatProps
import Verif.RobinBugs

namespace Verif.Flat
open Spec (Distinct Call Ans)
open Robin (hashEnv hashEnv_lawful)

/-! ### Concrete histories -/

/-- The map made by the default constructor (`kDefaultCapacity`, FL:132). -/
def start : Map Nat Nat := freshMap 4 32768 131072

theorem make_start : make .ok 4 = .ok start () := rfl

/-- A history without failed allocations, from a default constructed map, with the identity as hash function. -/
def play (cs : List (Call Nat Nat)) : Res (List (Ans Nat Nat) × Map Nat Nat) :=
  run (hashEnv id) id (fun _ => 131072) (cs.map fun c => (.ok, c)) start

/-- Insert the keys `0, s, 2s, …`, `n` of them. -/
def ins (n s : Nat) : List (Call Nat Nat) := (List.range n).map fun k => .insert (k * s) k

/-- The history ends in a state with property `p`. -/
def endsIn (r : Res (List (Ans Nat Nat) × Map Nat Nat)) (p : List (Ans Nat Nat) → Map Nat Nat → Bool) : Bool :=
  match r with
  | .ok (as, t) => p as t
  | _ => false

def isUb {α : Type} : Res α → Bool
  | .ub => true
  | _ => false

def isDiverge {α : Type} : Res α → Bool
  | .diverge => true
  | _ => false

/-- The last answer. -/
def lastIs (a : Ans Nat Nat) (as : List (Ans Nat Nat)) : Bool := as.getLast? == some a

set_option maxRecDepth 100000

/-- C69 is violated: 17 keys with the same home in a map of 64 slots.  `erase(512)` makes the key 1024 unfindable, though it is
still there (iteration yields it) and `size()` counts it. -/
theorem C69_erase_loses_a_key :
    endsIn (play (ins 17 64 ++ [.contains 1024])) (fun as _ => lastIs (.bool true) as) = true ∧
    endsIn (play (ins 17 64 ++ [.erase 512, .contains 1024])) (fun as _ => lastIs (.bool false) as) = true ∧
    endsIn (play (ins 17 64 ++ [.erase 512])) (fun _ t => t.size == 16 && (entries t).contains (1024, 16)) = true := by
  decide +kernel

/-- C69 is violated: inserting the lost key again then gives a second element with the same key. -/
theorem C69_erase_then_duplicate :
    endsIn (play (ins 17 64 ++ [.erase 512, .insert 1024 7])) (fun as t =>
      lastIs (.elem (1024, 7) true) as && (entries t).contains (1024, 7) && (entries t).contains (1024, 16)) = true := by
  decide +kernel

/-- C70 is violated: 32 insertions into a map, 8 erasures, and the next insertion of a new key is undefined. -/
theorem C70_insert_after_erase_undefined :
    isUb (play (ins 32 64 ++ ((List.range 8).map fun k => .erase (k * 64)) ++ [.insert 5 5])) = true := by
  decide +kernel

/-- C71 is violated by `rehash(0)`: three elements in four slots, with `max_load_factor()` 0.5. -/
theorem C71_rehash_exceeds_load :
    endsIn (play (ins 3 1 ++ [.rehash 0])) (fun _ t => t.size == 3 && cap t == 4 && t.mlf == 32768) = true := by
  decide +kernel

/-- C73 is violated on a small map: after `clear()` (and after `clear(true)`), an insertion and iterating are undefined: the end
mark is gone. -/
theorem C73_clear_breaks_iteration :
    isUb (play (ins 2 1 ++ [.clear false, .insert 1 1, .iterate])) = true ∧
    isUb (play (ins 2 1 ++ [.clear true, .insert 1 1, .iterate])) = true ∧
    endsIn (play (ins 2 1 ++ [.insert 1 1, .iterate])) (fun as _ => lastIs (.items [(0, 0), (1, 1)]) as) = true := by
  decide +kernel

/-- C73 is violated on larger maps: after `clear()` the map has size 0 and still contains the keys in slots from 19 on. -/
theorem C73_clear_keeps_keys :
    endsIn (play (ins 32 1 ++ [.clear false, .contains 25])) (fun as t => lastIs (.bool true) as && t.size == 0) = true := by
  decide +kernel

/-- C74 is violated: `rehash(0)` (and `shrink_to_fit(true)`) of a map with the four keys 1, 2, 3, 5 does not terminate: the only
free slot of the new table is slot 0, whose mirrored control byte is the end mark. -/
theorem C74_rehash_diverges :
    isDiverge (play [.insert 1 1, .insert 2 2, .insert 3 3, .insert 5 5, .rehash 0]) = true ∧
    isDiverge (play [.insert 1 1, .insert 2 2, .insert 3 3, .insert 5 5, .shrink true]) = true := by
  decide +kernel

/-- C74 is violated: `reserve(2^47)` on the default map returns without reserving anything (the product wraps). -/
theorem C74_reserve_wraps : endsIn (play [.reserve (2 ^ 47)]) (fun as t => lastIs .unit as && cap t == 4) = true := by
  decide +kernel

/-- What `copyOf` gives for the final state of a history, followed by another history on the copy. -/
def copyThen (cs ds : List (Call Nat Nat)) : Res (List (Ans Nat Nat) × Map Nat Nat) :=
  (play cs).bind fun r =>
    match copyOf (hashEnv id) id .ok r.2 with
    | .ok t _ => run (hashEnv id) id (fun _ => 131072) (ds.map fun c => (.ok, c)) t
    | .throw _ => .ub
    | .ub => .ub
    | .diverge => .diverge

/-- C75 is violated: a copy of a map with 17 elements, and 33 insertions of new keys into the copy are undefined.  The same
insertions into the original are fine. -/
theorem C75_copy_then_insert_undefined :
    isUb (copyThen (ins 17 1) ((List.range 33).map fun k => .insert (100 + k) k)) = true ∧
    endsIn (copyThen (ins 17 1) ((List.range 32).map fun k => .insert (100 + k) k)) (fun _ t => t.size == 49) = true ∧
    endsIn (play (ins 17 1 ++ (List.range 33).map fun k => .insert (100 + k) k)) (fun _ t => t.size == 50) = true := by
  decide +kernel

/-- C75 is violated: the copy has the default maximal load factor. -/
theorem C75_copy_resets_load :
    endsIn (play [.maxLoad 52429]) (fun _ t => t.mlf == 52429) = true ∧
    endsIn (copyThen [.maxLoad 52429] []) (fun _ t => t.mlf == 32768) = true := by
  decide +kernel

/-- C76 is violated: `max_load_factor(0.8)` (`n_mlf_` 52429) on a map with 17 elements in 64 slots, and 16 more insertions, without any
`erase`, are undefined.  Without the call they are fine. -/
theorem C76_max_load_then_insert_undefined :
    isUb (run (hashEnv id) id (fun _ => 81920) ((ins 17 1 ++ Call.maxLoad 52429 :: (List.range 16).map fun k => Call.insert (100 + k) k).map
      fun c => (Mem.ok, c)) start) = true ∧
    endsIn (play (ins 17 1 ++ (List.range 16).map fun k => .insert (100 + k) k)) (fun _ t => t.size == 33) = true := by
  decide +kernel

/-- C77 is violated: an insertion that fails to allocate the new slots throws and loses all elements: `size()` is 2, no key is found. -/
theorem C77_failed_growth_loses_elements :
    endsIn (run (hashEnv id) id (fun _ => 131072)
      [(.ok, .insert 0 0), (.ok, .insert 1 1), (.noSlots, .insert 2 2), (.ok, .size), (.ok, .contains 0), (.ok, .contains 1)] start)
      (fun as _ => as == [.elem (0, 0) true, .elem (1, 1) true, .threw, .num 2, .bool false, .bool false]) = true := by
  decide +kernel

/-- C77 is violated: if the constructor of an element throws, a later lookup of the key is undefined, and iteration too. -/
theorem C77_throwing_constructor_corrupts :
    (match emplace (hashEnv id) id false .ok false 3 3 start with
     | .throw t => isUb (findIdx (hashEnv id) id t 3) && isUb (walk t) && t.size == 0
     | _ => false) = true := by
  decide +kernel

/-! ### Cases that meet the hypotheses of the theorems of FlatProps.lean -/

/-- A sufficient test for `Guarded` (integer keys, no failed allocations). -/
def guardedB (clean : Bool) (rv : Nat → Nat) : List (Call Nat Nat) → Map Nat Nat → Spec.Map Nat Nat → Bool
  | [], _, _ => true
  | c :: cs, t, m =>
    (match c with
     | .insert _ _ | .assign _ _ | .index _ _ => clean || !reorders t
     | .erase k => (Spec.get (hashEnv id).eq m k).isNone ||
         if clean then decide (cap t ≤ 16) || decide (m.length ≤ 14)
         else (List.range (cap t)).all fun i => !((t.slot i).any fun e => e.1 == k) || tombstone t i
     | .clear d => d && decide (4 < cap t)
     | .reserve n => n != 0 && (decide (m.length < 4) || decide (m.length ≤ n ∧ n < 2 ^ 44))
     | .rehash n => decide (m.length < 4) || decide (m.length ≤ n ∧ n < 2 ^ 44)
     | .maxLoad _ => decide (cap t ≤ 32)
     | .shrink _ | .at _ => false
     | _ => true) &&
    match exec (hashEnv id) id rv .ok c t with
    | .ok t' _ => guardedB clean rv cs t' (next (hashEnv id).eq m c)
    | .throw t' => guardedB clean rv cs t' m
    | _ => true

theorem guardedB_sound {clean : Bool} {rv : Nat → Nat} : ∀ (cs : List (Call Nat Nat)) (t : Map Nat Nat) (m : Spec.Map Nat Nat),
    guardedB clean rv cs t m = true → Guarded clean (hashEnv id) id rv (cs.map fun c => (Mem.ok, c)) t m := by
  intro cs
  induction cs with
  | nil => intro t m _; trivial
  | cons c cs ih =>
    intro t m h
    unfold guardedB at h
    rw [Bool.and_eq_true] at h
    obtain ⟨h1, h2⟩ := h
    refine ⟨by decide, ?_, ?_, ?_⟩
    · cases c with
      | insert k v => simpa [Safe] using h1
      | assign k v => simpa [Safe] using h1
      | index k v => simpa [Safe] using h1
      | erase k =>
        simp only [Bool.or_eq_true, Option.isNone_iff_eq_none] at h1
        rcases h1 with h1 | h1
        · exact Or.inl h1
        · right
          cases clean with
          | true => simpa using h1
          | false =>
            simp only [Bool.false_eq_true, if_false] at h1 ⊢
            right
            intro i hi hk
            obtain ⟨e, he, heq⟩ := hk
            have := List.all_eq_true.mp h1 i (List.mem_range.mpr hi)
            rw [he] at this
            have heq' : (e.1 == k) = true := heq
            simpa [heq'] using this
      | find k => trivial
      | contains k => trivial
      | count k => trivial
      | size => trivial
      | empty => trivial
      | iterate => trivial
      | clear d => simpa [Safe] using h1
      | reserve n =>
        simp only [Bool.and_eq_true, bne_iff_ne, ne_eq, Bool.or_eq_true, decide_eq_true_eq] at h1
        exact ⟨h1.1, h1.2.imp Or.inl id⟩
      | rehash n =>
        simp only [Bool.or_eq_true, decide_eq_true_eq] at h1
        exact h1.imp Or.inl id
      | maxLoad x => simpa [Safe] using h1
      | shrink ro => cases h1
      | «at» k => cases h1
    · intro t' a he
      have he' : exec (hashEnv id) id rv .ok c t = .ok t' a := he
      rw [he'] at h2
      exact ih _ _ h2
    · intro t' he
      have he' : exec (hashEnv id) id rv .ok c t = .throw t' := he
      rw [he'] at h2
      exact ih _ _ h2

/-- A concrete reachable state with property `p`. -/
theorem reach_play {clean : Bool} {cs : List (Call Nat Nat)} {p : Map Nat Nat → Bool}
    (hg : guardedB clean (fun _ => 131072) cs start [] = true) (hp : endsIn (play cs) (fun _ t => p t) = true) :
    ∃ t, Reach clean (hashEnv id) id t ∧ p t = true := by
  obtain ⟨h1, h2, _⟩ := make_ok (clean := clean) (E := hashEnv id) (sec := id) make_start
  obtain ⟨as, t', m', e1, e2, _, _⟩ := run_ok (hashEnv_lawful id) (rv := fun _ => 131072) (fun _ => by omega) _ start [] h1 (by rw [h2])
    (guardedB_sound cs start [] hg)
  refine ⟨t', e2, ?_⟩
  unfold play at hp
  rw [e1] at hp
  exact hp

/-- C67: insertions, an erasure, `reserve` and a growth. -/
example : PlainAll (hashEnv id).eq ([] : Spec.Map Nat Nat)
    ((([.insert 3 1, .insert 5 2, .assign 3 7, .erase 5, .reserve 100, .index 9 0, .iterate] : List (Call Nat Nat))).map fun c => (Mem.ok, c)) := by
  simp [PlainAll, Plain, next, Call.allocates, RoomFor, NotPow, Spec.erase, Spec.insert, Spec.assign, Spec.get, hashEnv]

example : endsIn (play [.insert 3 1, .insert 5 2, .assign 3 7, .erase 5, .reserve 100, .index 9 0, .iterate])
    (fun as t => lastIs (.items [(3, 7), (9, 0)]) as && cap t == 256) = true := by decide +kernel

/-- C67: forty insertions with five growths. -/
example : endsIn (play (ins 40 1 ++ [.find 39])) (fun as t => lastIs (.found (some (39, 39))) as && cap t == 128) = true := by
  decide +kernel

/-- C67, guarded by the states: `clear(true)` and `max_load_factor`. -/
example : Guarded true (hashEnv id) id (fun _ => 131072)
    (([.insert 3 1, .maxLoad 40000, .insert 5 2, .insert 6 2, .clear true, .insert 7 1, .iterate] : List (Call Nat Nat)).map
      fun c => (Mem.ok, c)) start [] := guardedB_sound _ _ _ (by decide +kernel)

/-- C67 and C68 with a tombstone: 17 keys with the same home, the first one erased. -/
example : ∃ t : Map Nat Nat, Reach false (hashEnv id) id t ∧ (dels t == 1 && !reorders t && t.size == 16) = true :=
  reach_play (cs := ins 17 64 ++ [.erase 0]) (by decide +kernel) (by decide +kernel)

/-- C69. -/
example : ∃ t : Map Nat Nat, Reach true (hashEnv id) id t ∧ (cap t == 32 && t.size == 10) = true :=
  reach_play (cs := ins 10 32) (by decide +kernel) (by decide +kernel)

/-- C70. -/
example : ∃ t : Map Nat Nat, Reach false (hashEnv id) id t ∧ (reorders t && t.left == 0 && !(entries t).any fun e => e.1 == 5) = true :=
  reach_play (cs := ins 32 64 ++ (List.range 8).map fun k => .erase (k * 64)) (by decide +kernel) (by decide +kernel)

/-- C71: the ninth element into 16 slots. -/
example : endsIn (play (ins 8 1)) (fun _ t => cap t == 16 && t.size == 8) = true ∧
    endsIn (play (ins 9 1)) (fun _ t => cap t == 32 && t.size == 9) = true := by decide +kernel

/-- A sufficient test for `BagGuarded`. -/
def bagB (rv : Nat → Nat) : List (Call Nat Nat) → Map Nat Nat → Bool
  | [], _ => true
  | c :: cs, t =>
    (match c with
     | .insert _ _ | .assign _ _ => !reorders t
     | .find _ | .contains _ | .erase _ | .size | .empty | .iterate => true
     | .rehash n => decide (t.size ≤ n ∧ n < 2 ^ 44)
     | _ => false) &&
    match exec (hashEnv id) id rv .ok c t with
    | .ok t' _ => bagB rv cs t'
    | .throw t' => bagB rv cs t'
    | _ => true

theorem bagB_sound {rv : Nat → Nat} : ∀ (cs : List (Call Nat Nat)) (t : Map Nat Nat), bagB rv cs t = true →
    BagGuarded (hashEnv id) id rv (cs.map fun c => (Mem.ok, c)) t := by
  intro cs
  induction cs with
  | nil => intro t _; trivial
  | cons c cs ih =>
    intro t h
    unfold bagB at h
    rw [Bool.and_eq_true] at h
    obtain ⟨h1, h2⟩ := h
    refine ⟨by decide, ?_, ?_, ?_⟩
    · cases c with
      | insert k v => simpa [BagSafe] using h1
      | assign k v => simpa [BagSafe] using h1
      | rehash n => exact Or.inr (by simpa using h1)
      | find k => trivial
      | contains k => trivial
      | erase k => trivial
      | size => trivial
      | empty => trivial
      | iterate => trivial
      | count k => cases h1
      | index k v => cases h1
      | «at» k => cases h1
      | clear d => cases h1
      | reserve n => cases h1
      | shrink n => cases h1
      | maxLoad n => cases h1
    · intro t' a he
      have he' : exec (hashEnv id) id rv .ok c t = .ok t' a := he
      rw [he'] at h2
      exact ih _ h2
    · intro t' he
      have he' : exec (hashEnv id) id rv .ok c t = .throw t' := he
      rw [he'] at h2
      exact ih _ h2

/-- C72: a history that loses a key, inserts it again, and iterates. -/
example : BagGuarded (hashEnv id) id (fun _ => 131072)
    ((ins 17 64 ++ ([.erase 512, .contains 1024, .insert 1024 7, .iterate] : List (Call Nat Nat))).map fun c => (Mem.ok, c)) start :=
  bagB_sound _ _ (by decide +kernel)

/-- C73. -/
example : ∃ t : Map Nat Nat, Reach true (hashEnv id) id t ∧ (cap t == 8 && t.size == 3) = true :=
  reach_play (cs := ins 3 1) (by decide +kernel) (by decide +kernel)

/-- C74: the lost key of C69 is found again after `rehash(100)`. -/
example : endsIn (play (ins 17 64 ++ [.erase 512, .contains 1024, .rehash 100, .contains 1024])) (fun as t =>
    as.drop 18 == [.bool false, .unit, .bool true] && cap t == 256) = true := by decide +kernel

example : ∃ t : Map Nat Nat, Weak (hashEnv id) id t ∧ Distinct (hashEnv id).eq (entries t) ∧
    (t.size == 16 && (match contains (hashEnv id) id t 1024 with | .ok false => true | _ => false)) = true := by
  obtain ⟨as, t', e1, e2, _⟩ := bag_run (rv := fun _ => 131072) _ start
    (make_exact (E := hashEnv id) (sec := id) make_start).1 (bagB_sound (ins 17 64 ++ [.erase 512]) start (by decide +kernel))
  have h : endsIn (play (ins 17 64 ++ [.erase 512])) (fun _ t => ((entries t).map (·.1) == (List.range 8 ++ List.range' 9 8).map (· * 64)) &&
    (t.size == 16 && (match contains (hashEnv id) id t 1024 with | .ok false => true | _ => false))) = true := by decide +kernel
  unfold play at h
  rw [e1] at h
  simp only [endsIn, Bool.and_eq_true, beq_iff_eq] at h
  refine ⟨t', e2, ?_, by simpa using h.2⟩
  have hn : ((entries t').map (·.1)).Nodup := by rw [h.1]; decide
  unfold Distinct
  rw [List.Nodup, List.pairwise_map] at hn
  refine hn.imp fun hab => ?_
  simpa [hashEnv] using hab

/-- C75: a copy, and use of the copy. -/
example : endsIn (copyThen (ins 10 1) [.find 9, .erase 9, .insert 100 1]) (fun as t =>
    as == [.found (some (9, 9)), .num 1, .elem (100, 1) true] && t.size == 10) = true := by decide +kernel

/-- C75: of equal keys in a range the first one wins. -/
example : (match ofList (hashEnv id) id .ok 4 [(1, 1), (2, 2), (1, 3)] with
    | .ok t _ => entries t == [(1, 1), (2, 2)]
    | _ => false) = true := by decide +kernel

/-- C76. -/
example : ∃ t : Map Nat Nat, Reach true (hashEnv id) id t ∧ (cap t == 32 && t.size == 16) = true :=
  reach_play (cs := ins 16 1) (by decide +kernel) (by decide +kernel)

/-- C76, effect: 10 bytes in use, more than the threshold of 6 that load factor 0.2 gives for 32 slots. -/
example : ∃ t : Map Nat Nat, Reach true (hashEnv id) id t ∧ (cap t == 32 && decide (cap t * 13108 % W / 65536 < usedCount t)) = true :=
  reach_play (cs := ins 10 1) (by decide +kernel) (by decide +kernel)

/-- C77: an insertion that throws, with a working map afterwards. -/
example : endsIn (run (hashEnv id) id (fun _ => 131072)
    [(.ok, .insert 0 0), (.ok, .insert 1 1), (.noGroups, .insert 2 2), (.ok, .size), (.ok, .contains 0), (.ok, .insert 2 2)] start)
    (fun as _ => as == [.elem (0, 0) true, .elem (1, 1) true, .threw, .num 2, .bool true, .elem (2, 2) true]) = true := by
  decide +kernel

end Verif.Flat
