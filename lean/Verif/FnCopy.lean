/-
Copies of maps whose hash function and comparison have a state (C133): a map object is its table together with its function
objects.

FL = `src/jstd/hashmap/flat16_hash_map.h`, T15 = `src/jstd/hashmap/group15_flat_table.hpp`.

robin16 is written like flat16 (its copy constructor cannot be instantiated), robin like group15.
-/
import Verif.FlatBugs
import Verif.Copy

namespace Verif
open Verif.Spec (Distinct)

/-- A map object: its function objects `hasher_` and `key_equal_` (what `hash_function()` and `key_eq()` return copies of), and its
table (FL:919-920, T15:269-270). -/
structure FnMap (K Tab : Type) where
  fns : Env K
  t : Tab

namespace Flat
variable {K V : Type} {E E0 : Env K} {sec : Nat → Nat}

/-- The copy constructor (FL:984-1009): the function objects of the copy are default constructed ones (`E0`; FL:994), and the
elements of the source are entered with them. -/
def copyMap (E0 : Env K) (sec : Nat → Nat) (mem : Mem) (o : FnMap K (Map K V)) : Out (FnMap K (Map K V)) Unit :=
  match copyOf E0 sec mem o.t with
  | .ok t _ => .ok ⟨E0, t⟩ ()
  | .throw t => .throw ⟨E0, t⟩
  | .diverge => .diverge
  | .ub => .ub

/-- The elements of a copy, whatever its functions are. -/
theorem copyMap_entries {o c : FnMap K (Map K V)} (hw : Core o.fns sec o.t) (hs : o.t.size < 2 ^ 47) {mem : Mem}
    (hc : copyMap E0 sec mem o = .ok c ()) : c.fns = E0 ∧ Probed E0 sec c.t ∧ (entries c.t).Perm (entries o.t) ∧ c.t.size = o.t.size := by
  have hc' : ∃ t', copyOf E0 sec mem o.t = .ok t' () ∧ c = ⟨E0, t'⟩ := by
    unfold copyMap at hc
    split at hc
    · rename_i t _ h; cases hc; exact ⟨t, h, rfl⟩
    all_goals cases hc
  obtain ⟨t', hc1, rfl⟩ := hc'
  refine ⟨rfl, ?_⟩
  unfold copyOf at hc1
  rw [walk_spec hw] at hc1
  have hmk := fun (t1 : Map K V) => make_ok (clean := true) (E := E0) (sec := sec) (mem := mem) (n := minRequire (blank : Map K V) o.t.size) (t := t1)
  generalize make mem (minRequire (blank : Map K V) o.t.size) = r at hc1 hmk
  match r, hc1 with
  | .ok t1 (), hc1 =>
    obtain ⟨h1, h2, j, h3, h4, h5, h6, h7⟩ := hmk t1 rfl
    simp only [Out.bind_ok, lift] at hc1
    have hcap : cap t1 = 2 ^ j := by
      rw [h5]; unfold cap freshMap
      exact Nat.sub_add_cancel Nat.one_le_two_pow
    have hreq : minRequire (blank : Map K V) o.t.size = o.t.size * 2 := by
      show o.t.size * 131072 % W / 65536 = _
      rw [Nat.mod_eq_of_lt (by unfold W; omega)]
      omega
    have h8 : occ t1 = 0 := by
      rw [h1.occ_eq, h1.clean rfl, h1.size, h2]; rfl
    obtain ⟨t2, g1, g2, g3, g4, g5, g6, g7, g8⟩ := insertAllUnique_spec (entries o.t) t1 h1.toProbed (by
      rw [h8, hcap, ← hw.size]; omega)
    rw [g1] at hc1
    cases hc1
    rw [h2, List.append_nil] at g3
    exact ⟨g2, g3, by rw [g2.size, g3.length_eq, hw.size]⟩

/-- C133 (partial), flat16: a copy has the elements of its source.  If a default constructed comparison is the one of the source, it
also answers like its source, whatever the two hash functions are.  Missing: comparisons with a state, see below. -/
theorem C133_flat16_partial (hE : E.Lawful) (hE0 : E0.Lawful) {clean : Bool} {t : Map K V} (hR : Reach clean E sec t) (hs : t.size < 2 ^ 47)
    {mem : Mem} {c : FnMap K (Map K V)} (hc : copyMap E0 sec mem ⟨E, t⟩ = .ok c ()) :
    (∃ l l', walk t = .ok l ∧ walk c.t = .ok l' ∧ l'.Perm l) ∧ c.t.size = t.size ∧
      (E0.eq = E.eq → ∀ k, lookup c.fns sec c.t k = lookup E sec t k) := by
  obtain ⟨h1, h2, h3, h4⟩ := copyMap_entries (o := ⟨E, t⟩) hR.toCore hs hc
  have h3 : (entries c.t).Perm (entries t) := h3
  refine ⟨⟨_, _, walk_spec hR.toCore, walk_spec h2.toCore, h3⟩, h4, fun he k => ?_⟩
  have hd0 : Distinct E0.eq (entries c.t) := by rw [he]; exact hR.distinct.perm hE h3.symm
  rw [h1, lookup_eq hE0 ⟨h2, hd0⟩, lookup_eq hE hR.toInv0, he]
  rw [Spec.get_perm hE h3 (by rw [← he]; exact hd0)]

/-- C133, the violation: the copy does not have the comparison of its source but the default constructed one, and answers
differently for every key about which the two disagree. -/
theorem C133_flat16_other_answers (hE : E.Lawful) (hE0 : E0.Lawful) {clean : Bool} {t : Map K V} (hR : Reach clean E sec t) (hs : t.size < 2 ^ 47)
    (hd : Distinct E0.eq (entries t)) {mem : Mem} {c : FnMap K (Map K V)} (hc : copyMap E0 sec mem ⟨E, t⟩ = .ok c ()) {k : K}
    (hk : Spec.get E0.eq (entries t) k ≠ Spec.get E.eq (entries t) k) :
    c.fns = E0 ∧ lookup c.fns sec c.t k = .ok (Spec.get E0.eq (entries t) k) ∧ lookup E sec t k = .ok (Spec.get E.eq (entries t) k) ∧
      lookup c.fns sec c.t k ≠ lookup E sec t k := by
  obtain ⟨h1, h2, h3, h4⟩ := copyMap_entries (o := ⟨E, t⟩) hR.toCore hs hc
  have hd0 : Distinct E0.eq (entries c.t) := hd.perm hE0 (List.Perm.symm h3)
  have e1 : lookup c.fns sec c.t k = .ok (Spec.get E0.eq (entries t) k) := by
    rw [h1, lookup_eq hE0 ⟨h2, hd0⟩, Spec.get_perm hE0 h3 hd0]
  have e2 := lookup_eq hE hR.toInv0 k
  refine ⟨h1, e1, e2, fun h => ?_⟩
  rw [e1, e2] at h
  exact hk (Res.ok.inj h)

/-- C133, the violation: when a default constructed comparison takes two keys of the source for the same, the copy has two elements
with one key. -/
theorem C133_flat16_duplicate_keys {clean : Bool} {t : Map K V} (hE0 : E0.Lawful) (hR : Reach clean E sec t) (hs : t.size < 2 ^ 47)
    (hd : ¬ Distinct E0.eq (entries t)) {mem : Mem} {c : FnMap K (Map K V)} (hc : copyMap E0 sec mem ⟨E, t⟩ = .ok c ()) :
    ∃ l, walk c.t = .ok l ∧ ¬ Distinct c.fns.eq l := by
  obtain ⟨h1, h2, h3, h4⟩ := copyMap_entries (o := ⟨E, t⟩) hR.toCore hs hc
  refine ⟨_, walk_spec h2.toCore, fun h => hd ?_⟩
  rw [h1] at h
  exact h.perm hE0 h3

/-- Comparisons with a modulus as their state; the default is 10. -/
def modulus (n : Nat) : Env Nat := ⟨fun k => k % n, fun a b => a % n == b % n⟩

theorem modulus_lawful (n : Nat) : (modulus n).Lawful :=
  ⟨fun a => by simp [modulus], fun a b h => by simp [modulus] at *; exact h.symm,
    fun a b c h g => by simp [modulus] at *; exact h.trans g, fun a b h => by simpa [modulus] using h⟩

/-- A map with the elements of `l`, under the comparison modulo `n`. -/
theorem reach_of {n : Nat} {l : List (Nat × Nat)} {P : Map Nat Nat → Bool}
    (h : (match ofList (modulus n) id .ok 0 l with | .ok t _ => P t | _ => false) = true) :
    ∃ t, Reach true (modulus n) id t ∧ P t = true := by
  split at h
  · rename_i t u ht
    unfold ofList at ht
    cases hm : (make .ok (minRequire (blank : Map Nat Nat) (max 0 l.length))) with
    | ok t1 v =>
      rw [hm] at ht
      simp only [Out.bind_ok] at ht
      obtain ⟨h1, h2, -⟩ := make_ok (clean := true) (E := modulus n) (sec := id) hm
      have h3 := insertAll_spec (modulus_lawful n) (mem := .ok) (by simp) l t1 [] h1 (by rw [h2])
      rw [ht] at h3
      exact ⟨t, h3.1, h⟩
    | throw t1 => rw [hm] at ht; cases ht
    | diverge => rw [hm] at ht; cases ht
    | ub => rw [hm] at ht; cases ht
  · cases h

/-- The answers of a copy and of its source, and the keys in the copy as the copy compares them. -/
def copyAnswers (E0 E : Env Nat) (t : Map Nat Nat) (k : Nat) : Option (Option (Nat × Nat) × Option (Nat × Nat) × List Nat) :=
  match copyMap E0 id .ok ⟨E, t⟩ with
  | .ok c _ =>
    match lookup c.fns id c.t k, lookup E id t k, walk c.t with
    | .ok a, .ok b, .ok l => some (a, b, l.map fun e => e.1 % 10)
    | _, _, _ => none
  | _ => none

/-- `C133_flat16_partial`: the default constructed comparison is that of the source. -/
example : ∃ t, Reach true (modulus 10) id t ∧ decide (copyAnswers (modulus 10) (modulus 10) t 23 = some (some (3, 30), some (3, 30), [4, 3])) = true :=
  reach_of (l := [(3, 30), (4, 40), (13, 7)]) (by decide +kernel)

/-- `C133_flat16_other_answers`: the source compares modulo 100 and has no key like 23, the copy finds one. -/
example : ∃ t, Reach true (modulus 100) id t ∧ decide (copyAnswers (modulus 10) (modulus 100) t 23 = some (some (3, 30), none, [4, 3]) ∧
    (∀ a ∈ entries t, ∀ b ∈ entries t, (modulus 10).eq a.1 b.1 = true → a = b)) = true :=
  reach_of (l := [(3, 30), (4, 40)]) (by decide +kernel)

/-- `C133_flat16_duplicate_keys`: the copy has both 3 and 13, which are equal for it. -/
example : ∃ t, Reach true (modulus 100) id t ∧ decide ((copyAnswers (modulus 10) (modulus 100) t 13).map (·.2) = some (some (13, 130), [3, 3])) = true :=
  reach_of (l := [(3, 30), (13, 130)]) (by decide +kernel)

end Flat

namespace FnGroup
variable {K V : Type} {E : Env K}

/-- The copy constructor (T15:310-342): the function objects are copied (T15:333). -/
def copyMap (mem : Bool) (o : FnMap K (Table K V)) : Out (FnMap K (Table K V)) Unit :=
  match copyOf o.fns mem o.t with
  | .ok t _ => .ok ⟨o.fns, t⟩ ()
  | .throw t => .throw ⟨o.fns, t⟩
  | .diverge => .diverge
  | .ub => .ub

/-- C133, group15: a copy has the function objects of its source and answers like it, also a copy that counts no elements (C11). -/
theorem C133_group15 (hE : E.Lawful) {t : Table K V} (ho : Reachable layout15 E walk15 t) {mem : Bool} {c : FnMap K (Table K V)}
    (hc : copyMap mem ⟨E, t⟩ = .ok c ()) : c.fns = E ∧ ∀ k, lookup layout15 c.fns c.t k = lookup layout15 E t k := by
  have hc' : ∃ t', copyOf E mem t = .ok t' () ∧ c = ⟨E, t'⟩ := by
    unfold copyMap at hc
    split at hc
    · rename_i t' _ h; cases hc; exact ⟨t', h, rfl⟩
    all_goals cases hc
  obtain ⟨t', h1, rfl⟩ := hc'
  refine ⟨rfl, ?_⟩
  by_cases he : t.size = 0 ∨ t'.capacity layout15 ≠ t.capacity layout15
  · rcases C11_copy_partial hE ho mem with ⟨t2, h2, h3⟩ | ⟨t2, h2, -⟩
    · rw [h1] at h2
      cases h2
      exact (h3 he).2.1
    · rw [h1] at h2; cases h2
  · rw [not_or, not_not] at he
    exact (C11_equal_capacity_copy_broken hE ho he.1 h1 he.2).2.2

/-- A copy of a map with the comparison modulo 100. -/
example : ∃ c : FnMap Nat (Table Nat Nat), copyMap true ⟨Flat.modulus 100, emptyTable layout15 224⟩ = .ok c () ∧ c.fns = Flat.modulus 100 :=
  ⟨_, rfl, rfl⟩

end FnGroup
end Verif
