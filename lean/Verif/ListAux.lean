/- List lemmas about `(List.range n).filterMap f`, the reading of a slot array. -/
import Mathlib.Data.List.Basic
import Mathlib.Data.List.Perm.Basic
import Mathlib.Data.List.Range
import Verif.Table

namespace Verif

theorem filterMap_congr' {α β : Type} {l : List α} {f g : α → Option β}
    (h : ∀ a ∈ l, f a = g a) : l.filterMap f = l.filterMap g := by
  induction l with
  | nil => rfl
  | cons a l ih =>
    have h1 := h a (by simp)
    have h2 := ih (fun b hb => h b (by simp [hb]))
    simp only [List.filterMap_cons, h1, h2]

theorem range_split {n i : Nat} (hi : i < n) :
    List.range n = List.range i ++ i :: (List.range' (i + 1) (n - i - 1)) := by
  have h1 : n = i + (1 + (n - i - 1)) := by omega
  conv_lhs => rw [h1]
  rw [List.range_eq_range', List.range_eq_range', ← List.range'_append (step := 1)]
  congr 1
  rw [show 1 + (n - i - 1) = (n - i - 1) + 1 by omega, List.range'_succ]
  simp

/-- Storing into one cell of an array, seen through the list of stored elements. -/
theorem filterMap_range_upd {α : Type} {n i : Nat} (hi : i < n) (f : Nat → Option α) :
    ∃ A B : List α,
      (∀ o : Option α, (List.range n).filterMap (upd f i o) = A ++ o.toList ++ B) := by
  refine ⟨(List.range i).filterMap f, (List.range' (i + 1) (n - i - 1)).filterMap f, ?_⟩
  intro o
  rw [range_split hi, List.filterMap_append, List.filterMap_cons]
  have h1 : (List.range i).filterMap (upd f i o) = (List.range i).filterMap f := by
    apply filterMap_congr'
    intro a ha
    have := List.mem_range.mp ha
    exact upd_other _ _ (by omega)
  have h2 : (List.range' (i + 1) (n - i - 1)).filterMap (upd f i o)
      = (List.range' (i + 1) (n - i - 1)).filterMap f := by
    apply filterMap_congr'
    intro a ha
    have := (List.mem_range'_1.mp ha).1
    exact upd_other _ _ (by omega)
  rw [h1, h2, upd_self]
  cases o <;> simp

theorem upd_eq_self {α : Type} (f : Nat → α) (i : Nat) : upd f i (f i) = f := by
  funext j
  by_cases h : j = i
  · subst h; simp
  · exact upd_other _ _ h

theorem perm_upd_some {α : Type} {n i : Nat} (hi : i < n) (f : Nat → Option α) (h : f i = none) (e : α) :
    ((List.range n).filterMap (upd f i (some e))).Perm (e :: (List.range n).filterMap f) := by
  obtain ⟨A, B, hAB⟩ := filterMap_range_upd hi f
  have h1 := hAB (some e)
  have h2 := hAB (f i)
  rw [upd_eq_self, h] at h2
  rw [h1, h2]
  simp only [Option.toList_some, Option.toList_none, List.append_nil, List.append_assoc, List.cons_append,
    List.nil_append]
  exact List.perm_middle

theorem perm_upd_none {α : Type} {n i : Nat} (hi : i < n) (f : Nat → Option α) (e : α) (h : f i = some e) :
    ((List.range n).filterMap f).Perm (e :: (List.range n).filterMap (upd f i none)) := by
  obtain ⟨A, B, hAB⟩ := filterMap_range_upd hi f
  have h1 := hAB none
  have h2 := hAB (f i)
  rw [upd_eq_self, h] at h2
  rw [h1, h2]
  simp only [Option.toList_some, Option.toList_none, List.append_nil, List.append_assoc, List.cons_append,
    List.nil_append]
  exact List.perm_middle

theorem length_filterMap_range_ge {α : Type} {n m : Nat} (f : Nat → Option α) (hm : m ≤ n)
    (h : ∀ i, i < m → (f i).isSome) : m ≤ ((List.range n).filterMap f).length := by
  induction m generalizing n with
  | zero => omega
  | succ m ih =>
    obtain ⟨e, he⟩ := Option.isSome_iff_exists.mp (h m (by omega))
    have hp := perm_upd_none (by omega : m < n) f e he
    rw [hp.length_eq, List.length_cons]
    have := ih (n := m) (Nat.le_refl m) (fun i hi => h i (by omega))
    have h2 : ((List.range m).filterMap f).length ≤ ((List.range n).filterMap (upd f m none)).length := by
      rw [range_split (by omega : m < n), List.filterMap_append]
      have : (List.range m).filterMap (upd f m none) = (List.range m).filterMap f := by
        apply filterMap_congr'
        intro a ha
        have := List.mem_range.mp ha
        exact upd_other _ _ (by omega)
      rw [this, List.length_append]; omega
    omega

theorem length_filterMap_range_le {α : Type} {n m : Nat} (f : Nat → Option α)
    (h : ∀ i, m ≤ i → i < n → f i = none) : ((List.range n).filterMap f).length ≤ m := by
  induction n with
  | zero => simp
  | succ n ih =>
    rw [List.range_succ, List.filterMap_append, List.length_append]
    by_cases hm : m ≤ n
    · have h0 := h n hm (by omega)
      have := ih (fun i h1 h2 => h i h1 (by omega))
      simp [h0]; omega
    · have := List.length_filterMap_le f (List.range n)
      rw [List.length_range] at this
      have h2 := List.length_filterMap_le f [n]
      simp only [List.length_cons, List.length_nil] at h2
      omega

theorem mem_filterMap_range {α : Type} {n : Nat} (f : Nat → Option α) (a : α) :
    a ∈ (List.range n).filterMap f ↔ ∃ i, i < n ∧ f i = some a := by
  simp [List.mem_filterMap, List.mem_range]

end Verif
