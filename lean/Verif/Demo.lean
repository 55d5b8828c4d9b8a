/-
Concrete environments and a helper to exhibit concrete reachable objects by kernel evaluation.
-/
import Verif.Api

namespace Verif
open Spec (Call Ans)

deriving instance DecidableEq for Spec.Ans
deriving instance DecidableEq for Res

/-- Integer keys, identity hash. -/
def idEnv : Env Nat := ⟨fun k => k, fun a b => a == b⟩

/-- Integer keys, all hashes equal. -/
def clashEnv : Env Nat := ⟨fun _ => 5, fun a b => a == b⟩

/-- Keys compared modulo 100 (so that equivalent keys are distinguishable), with a hash that respects it. -/
def modEnv : Env Nat := ⟨fun k => k % 100, fun a b => a % 100 == b % 100⟩

theorem idEnv_lawful : idEnv.Lawful where
  refl := by intro a; simp [idEnv]
  symm := by intro a b; simp only [idEnv, beq_iff_eq]; omega
  trans := by intro a b c; simp only [idEnv, beq_iff_eq]; omega
  congr := by intro a b; simp only [idEnv, beq_iff_eq]; omega

theorem clashEnv_lawful : clashEnv.Lawful where
  refl := by intro a; simp [clashEnv]
  symm := by intro a b; simp only [clashEnv, beq_iff_eq]; omega
  trans := by intro a b c; simp only [clashEnv, beq_iff_eq]; omega
  congr := by intro a b _; rfl

theorem modEnv_lawful : modEnv.Lawful where
  refl := by intro a; simp [modEnv]
  symm := by intro a b; simp only [modEnv, beq_iff_eq]; omega
  trans := by intro a b c; simp only [modEnv, beq_iff_eq]; omega
  congr := by intro a b; simp only [modEnv, beq_iff_eq]; omega

/-- `Valid` as a test. -/
def validB {K V : Type} : Call K V → Bool
  | .maxLoad m => decide (128 ≤ m ∧ m ≤ 224)
  | _ => true

theorem valid_of_validB {K V : Type} {c : Call K V} (h : validB c = true) : Valid c := by
  cases c with
  | maxLoad m =>
    simp only [validB, decide_eq_true_eq] at h
    exact h
  | _ => trivial

/-- Does the history complete in an object with property `p`? -/
def runSat {K V : Type} (L : Layout) (E : Env K) (walk : Table K V → Res (List (K × V))) (n : Nat)
    (ops : List (Bool × Call K V)) (p : Table K V → Bool) : Bool :=
  match (construct L true n : Out (Table K V) Unit) with
  | .ok t0 _ =>
    match run L E walk ops t0 with
    | .ok (_, t) => p t && ops.all (fun op => validB op.2)
    | _ => false
  | _ => false

theorem exists_reachable {K V : Type} {L : Layout} {E : Env K} {walk : Table K V → Res (List (K × V))} (n : Nat)
    (ops : List (Bool × Call K V)) (p : Table K V → Bool) (h : runSat L E walk n ops p = true) :
    ∃ t, Reachable L E walk t ∧ p t = true := by
  unfold runSat at h
  split at h
  · rename_i t0 u h0
    split at h
    · rename_i as t hr
      rw [Bool.and_eq_true] at h
      refine ⟨t, ⟨true, n, t0, ops, as, h0, ?_, hr⟩, h.1⟩
      intro op hop
      exact valid_of_validB (List.all_eq_true.mp h.2 op hop)
    · cases h
  · cases h

/-- `insert` of the keys `a, a+1, …` (`n` of them), value = key. -/
def insertsFrom (a n : Nat) : List (Bool × Call Nat Nat) := (List.range n).map fun i => (true, .insert (a + i) (a + i))

/-- `erase` of the keys `a, a+1, …` (`n` of them). -/
def erasesFrom (a n : Nat) : List (Bool × Call Nat Nat) := (List.range n).map fun i => (true, .erase (a + i))

/-- Does the call return normally, with an object and answer satisfying `f`? -/
def stepSat {K V : Type} (L : Layout) (E : Env K) (walk : Table K V → Res (List (K × V))) (mem : Bool) (c : Call K V)
    (f : Table K V → Ans K V → Bool) (t : Table K V) : Bool :=
  match exec L E walk mem c t with
  | .ok t' a => f t' a
  | _ => false

/-- Does the call throw? -/
def stepThrows {K V : Type} (L : Layout) (E : Env K) (walk : Table K V → Res (List (K × V))) (mem : Bool) (c : Call K V)
    (t : Table K V) : Bool :=
  match exec L E walk mem c t with
  | .throw _ => true
  | _ => false

end Verif
