/-
The specification: an ideal finite map, independent of the table model.

A map is a list of (key, value) pairs, no two keys equivalent; the order carries no meaning.
`Accepts m c a m'` says that an ideal map with contents `m` may answer call `c` with `a` and then
has contents `m'`.
-/
import Mathlib.Data.List.Perm.Basic

namespace Verif.Spec

variable {K V : Type}

/-- Contents of an ideal map. -/
abbrev Map (K V : Type) := List (K × V)

variable (eq : K → K → Bool)

/-- The stored pair whose key is equivalent to `k`. -/
def get (m : Map K V) (k : K) : Option (K × V) := m.find? fun e => eq k e.1

/-- Insert unless an equivalent key is present. -/
def insert (m : Map K V) (k : K) (v : V) : Map K V := if (get eq m k).isSome then m else (k, v) :: m

/-- Insert, or replace the mapped value (keeping the stored key). -/
def assign (m : Map K V) (k : K) (v : V) : Map K V :=
  if (get eq m k).isSome then m.map fun e => if eq k e.1 then (e.1, v) else e else (k, v) :: m

/-- Remove the pair with an equivalent key. -/
def erase (m : Map K V) (k : K) : Map K V := m.filter fun e => !eq k e.1

/-- No two stored keys are equivalent. -/
def Distinct (m : Map K V) : Prop := m.Pairwise fun a b => eq a.1 b.1 = false

/-- The calls of the public interface. -/
inductive Call (K V : Type)
  | insert (k : K) (v : V)        -- insert, emplace, try_emplace
  | assign (k : K) (v : V)        -- insert_or_assign
  | index (k : K) (dflt : V)      -- operator[], `dflt` the value-initialised mapped value
  | find (k : K)
  | contains (k : K)
  | count (k : K)
  | at (k : K)
  | erase (k : K)
  | size
  | empty
  | clear (destroy : Bool)
  | reserve (n : Nat)
  | rehash (n : Nat)
  | shrink (readOnly : Bool)
  | maxLoad (m : Nat)             -- max_load_factor, in 256ths
  | iterate                       -- for (auto & e : map)

/-- What the caller sees. -/
inductive Ans (K V : Type)
  | elem (e : K × V) (inserted : Bool)
  | found (o : Option (K × V))    -- none: end()
  | value (o : Option V)          -- none: std::out_of_range
  | bool (b : Bool)
  | num (n : Nat)
  | items (l : List (K × V))
  | unit
  | threw                         -- std::bad_alloc

/-- Calls that may have to allocate. -/
def Call.allocates : Call K V → Bool
  | .insert _ _ | .assign _ _ | .index _ _ | .reserve _ | .rehash _ | .shrink _ | .maxLoad _ => true
  | _ => false

/-- The ideal map's answers.  A call that runs out of memory changes nothing. -/
def Accepts (m : Map K V) : Call K V → Ans K V → Map K V → Prop
  | .insert k v, .elem e b, m' => m' = insert eq m k v ∧ get eq m' k = some e ∧ b = (get eq m k).isNone
  | .assign k v, .elem e b, m' => m' = assign eq m k v ∧ get eq m' k = some e ∧ b = (get eq m k).isNone
  | .index k d, .value o, m' => m' = insert eq m k d ∧ o = (get eq m' k).map (·.2) ∧ o.isSome
  | .find k, .found o, m' => m' = m ∧ o = get eq m k
  | .contains k, .bool b, m' => m' = m ∧ b = (get eq m k).isSome
  | .count k, .num n, m' => m' = m ∧ n = if (get eq m k).isSome then 1 else 0
  | .at k, .value o, m' => m' = m ∧ o = (get eq m k).map (·.2)
  | .erase k, .num n, m' => m' = erase eq m k ∧ n = if (get eq m k).isSome then 1 else 0
  | .size, .num n, m' => m' = m ∧ n = m.length
  | .empty, .bool b, m' => m' = m ∧ (b = true ↔ m = [])
  | .clear _, .unit, m' => m' = []
  | .reserve n, .unit, m' => m' = if n = 0 then [] else m   -- reserve(0) destroys, see C29
  | .rehash _, .unit, m' => m' = m
  | .shrink _, .unit, m' => m' = m
  | .maxLoad _, .unit, m' => m' = m
  | .iterate, .items l, m' => m' = m ∧ l.Perm m
  | c, .threw, m' => c.allocates = true ∧ m' = m
  | _, _, _ => False

/-- A whole history. -/
def AcceptsAll : Map K V → List (Call K V) → List (Ans K V) → Map K V → Prop
  | m, [], [], m' => m' = m
  | m, c :: cs, a :: as, m' => ∃ m1, Accepts eq m c a m1 ∧ AcceptsAll m1 cs as m'
  | _, _, _, _ => False

end Verif.Spec
