/-
robin16, the constructor from a range of any length (C90): `C90_from_range_partial` (Rob16More.lean) is limited to 129 elements, this one is not.

R16 = src/jstd/hashmap/robin16_hash_map.h
-/
import Verif.Rob16Bugs

namespace Verif.Rob16
variable {K V : Type} {E : Env K} {sec : Nat → Nat}

/-- C90 (partial), the constructor from a range or an initializer list (R16:1323-1341, 1424-1443) of any length below 2^44, if in tables of at least twice that size no more
than 129 elements crowd.  Missing: ranges whose elements crowd (C85), and short ranges with a control hash of 0 (C82). -/
theorem C90_from_long_range_partial (hE : E.Lawful) {mem : Mem} (hmem : mem ≠ .noSlots) {n : Nat} (hn : n < 2 ^ 44) {l : List (K × V)} (hl : l.length < 2 ^ 44)
    (hS : ∀ j, 2 * max n l.length ≤ 2 ^ j → Spread E 129 (2 ^ j) l) (hk : (∀ e ∈ l, tagOf E sec e.1 ≠ 0) ∨ 5 ≤ l.length) {t : Map K V}
    (hc : ofList E sec mem n l = .ok t ()) :
    Reach E sec t ∧ (entries t).Perm (l.foldl (fun m e => Spec.insert E.eq m e.1 e.2) []) := by
  unfold ofList at hc
  have hmk := fun (t1 : Map K V) =>
    make_ok (E := E) (sec := sec) (mem := mem) (n := minRequire (blank : Map K V) (max n l.length)) (t := t1)
  have hmin : minRequire (blank : Map K V) (max n l.length) = 2 * max n l.length := by
    show max n l.length * 131072 % W / 65536 = _
    rw [Nat.mod_eq_of_lt (by unfold W; omega)]
    omega
  rw [hmin] at hc hmk
  generalize make mem (2 * max n l.length) = o at hc hmk
  match o, hc with
  | .ok t1 (), hc =>
    obtain ⟨h1, h2, j, _, _, h3, h4, _⟩ := hmk t1 rfl
    simp only [Out.bind_ok] at hc
    have hcap : cap t1 = 2 ^ j := by rw [h3]; exact cap_fresh (Nat.two_pow_pos _)
    have htag : ∀ e ∈ l, TagOk E sec t1 e.1 := by
      intro e he
      rcases hk with hk | hk
      · exact Or.inr (hk e he)
      · left
        by_contra hcon
        have hj3 : j ≤ 3 := by
          by_contra hj
          have := Robin.pow_two_le (a := 4) (b := j) (by omega)
          omega
        have := Robin.pow_two_le (a := j) (b := 3) hj3
        omega
    have h := insertAll_spec hE hmem l t1 [] h1 (by rw [h2]) htag (by rw [List.append_nil, hcap]; exact hS j (by omega))
    rw [hc] at h
    exact h

/-- Elements with different home positions are spread. -/
theorem spread_of_homes {c : Nat} {l : List (K × V)} (h : (l.map fun e => E.h e.1 % c).Nodup) : Spread E 1 c l := by
  intro a n ha hn
  rw [List.countP_eq_length_filter]
  have h1 : ((l.filter fun e => inWindow c a n (E.h e.1)).map fun e => E.h e.1 % c).Nodup := h.sublist (List.filter_sublist.map _)
  have h2 : (((l.filter fun e => inWindow c a n (E.h e.1)).map fun e => E.h e.1 % c).map fun x => (x + c - a) % c).Nodup := by
    refine List.Nodup.map_on ?_ h1
    intro x hx y hy hxy
    obtain ⟨e, _, rfl⟩ := List.mem_map.mp hx
    obtain ⟨e', _, rfl⟩ := List.mem_map.mp hy
    have g1 : E.h e.1 % c < c := Nat.mod_lt _ (by omega)
    have g2 : E.h e'.1 % c < c := Nat.mod_lt _ (by omega)
    generalize E.h e.1 % c = x at *
    generalize E.h e'.1 % c = y at *
    have hx' : (x + c - a) % c = if a ≤ x then x - a else x + c - a := by
      split
      · rw [show x + c - a = x - a + c by omega, Nat.add_mod_right, Nat.mod_eq_of_lt (by omega)]
      · rw [Nat.mod_eq_of_lt (by omega)]
    have hy' : (y + c - a) % c = if a ≤ y then y - a else y + c - a := by
      split
      · rw [show y + c - a = y - a + c by omega, Nat.add_mod_right, Nat.mod_eq_of_lt (by omega)]
      · rw [Nat.mod_eq_of_lt (by omega)]
    simp only [hx', hy'] at hxy
    split at hxy <;> split at hxy <;> omega
  have h3 : (((l.filter fun e => inWindow c a n (E.h e.1)).map fun e => E.h e.1 % c).map fun x => (x + c - a) % c) ⊆ List.range (n + 1) := by
    intro z hz
    obtain ⟨x, hx, rfl⟩ := List.mem_map.mp hz
    obtain ⟨e, he, rfl⟩ := List.mem_map.mp hx
    have := of_decide_eq_true (List.mem_filter.mp he).2
    exact List.mem_range.mpr (by omega)
  have h4 := (List.subperm_of_subset h2 h3).length_le
  rw [List.length_map, List.length_map, List.length_range] at h4
  exact h4

/-- C90 (partial), in particular: a range of any length below 2^44 (and at least 5) whose elements have different hash values modulo every table size that is large enough is
constructed completely.  Missing: as before. -/
theorem C90_from_distinct_homes_partial (hE : E.Lawful) {mem : Mem} (hmem : mem ≠ .noSlots) {n : Nat} (hn : n < 2 ^ 44) {l : List (K × V)} (hl : l.length < 2 ^ 44)
    (h5 : 5 ≤ l.length) (hh : ∀ j, 2 * max n l.length ≤ 2 ^ j → (l.map fun e => E.h e.1 % 2 ^ j).Nodup) {t : Map K V} (hc : ofList E sec mem n l = .ok t ()) :
    Reach E sec t ∧ (entries t).Perm (l.foldl (fun m e => Spec.insert E.eq m e.1 e.2) []) :=
  C90_from_long_range_partial hE hmem hn hl (fun j hj => (spread_of_homes (hh j hj)).mono (by decide)) (Or.inr h5) hc

/-- The hypotheses of C90: the keys 0, …, 199 with the identity as hash function (the index bits are taken from the hash value itself). -/
example : (∀ j, 2 * max 0 ((List.range 200).map fun k => (k, k)).length ≤ 2 ^ j →
    (((List.range 200).map fun k => (k, k)).map fun e => (Robin.hashEnv id).h e.1 % 2 ^ j).Nodup) := by
  intro j hj
  rw [List.length_map, List.length_range] at hj
  rw [List.map_map]
  refine List.Nodup.map_on ?_ List.nodup_range
  intro x hx y hy h
  have hx := List.mem_range.mp hx
  have hy := List.mem_range.mp hy
  have h : x % W % 2 ^ j = y % W % 2 ^ j := h
  unfold W at h
  rw [Nat.mod_eq_of_lt (a := x) (by omega), Nat.mod_eq_of_lt (a := y) (by omega), Nat.mod_eq_of_lt (by omega), Nat.mod_eq_of_lt (by omega)] at h
  exact h

/-- And 130 of them are constructed. -/
example : (match ofList (Robin.hashEnv id) odd .ok 0 ((List.range 130).map fun k => (k, k)) with | .ok t _ => t.size == 130 | _ => false) = true := by decide +kernel

end Verif.Rob16
