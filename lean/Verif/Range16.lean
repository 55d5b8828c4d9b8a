/-
Range insertion, swap and erasure of a range of keys for group16 maps (C48, C49, C50).  T16 = group16_flat_table.hpp,
M16 = group16_flat_map.hpp.

`insertRange` models T16:843-849, `insertRangeMap` M16:454-460 (used by the range and initializer_list constructors, M16:138-206,
and by insert(initializer_list)), `swapObj` T16:971-981, 2649-2690; the text of these functions is that of the group15 files.

Copying and moving group16 maps is not modelled because it does not compile: `unique_insert` and `move_unique_insert`
(T16:2308-2328) call the non-const `flat_map_iterator::hashmap()` (flat_map_iterator.hpp:218-220), which returns a
`const hashmap_type *` as `hashmap_type *`; the plain move constructor names the non-existent `get_ctrl_allocator_ref` (T16:358).
-/
import Verif.Copy
import Verif.Props16b

namespace Verif
open Spec (Call Ans)

set_option maxRecDepth 100000

section Model
variable {K V : Type} (E : Env K)

/-- `n` times `num_deleted += erase(k)`. -/
def eraseTimes (L : Layout) (k : K) : Nat → Table K V → Out (Table K V) Nat
  | 0, t => .ok t 0
  | n + 1, t => (eraseKey L E k t).bind fun t' a => (eraseTimes L k n t').bind fun t'' b => .ok t'' (a + b)

/-- `erase(first, last)` for a range of keys (M16:648-659): the loop advances `iter` but erases `*first`. -/
def eraseRangeMap (L : Layout) : List K → Table K V → Out (Table K V) Nat
  | [], t => .ok t 0
  | k :: r, t => eraseTimes E L k (r.length + 1) t

end Model

section
variable {K V : Type} {E : Env K} {pad : Bool}

theorem Reachable.inv16 (hE : E.Lawful) {t : Table K V} (h : Reachable layout16 E (walk16 pad) t) : Inv laws16 E t :=
  h.inv hE (fun _ h => walk16_eq h pad)

/-! ### C48 range insertion -/

/-- C48, the table-level overload. If `insert(first, last)` returns, the map has its old elements and, for every key of the
range that was absent, the first element of the range with that key; if memory runs out in the middle, a proper prefix
of the range has been inserted in this sense.  The call is never undefined. -/
theorem C48_table_insert_range (hE : E.Lawful) {t : Table K V} (ht : Reachable layout16 E (walk16 pad) t) (l : List (Bool × K × V)) :
    insertRange E layout16 l t ≠ .ub ∧
    (∀ t', insertRange E layout16 l t = .ok t' () → ∀ k o, lookup layout16 E t k = .ok o →
      lookup layout16 E t' k = .ok (o.or ((l.map (·.2)).find? fun e => E.eq k e.1))) ∧
    (∀ t', insertRange E layout16 l t = .throw t' → ∃ n < l.length, ∀ k o, lookup layout16 E t k = .ok o →
      lookup layout16 E t' k = .ok (o.or (((l.take n).map (·.2)).find? fun e => E.eq k e.1))) := by
  have hI := ht.inv16 hE
  have h := insertRange_ok hE l t hI
  have hlk : ∀ {t' : Table K V} {l' : List (K × V)}, Inv laws16 E t' → (entries layout16 t').Perm (Spec.insertAll E.eq l' (entries layout16 t)) →
      ∀ k o, lookup layout16 E t k = .ok o → lookup layout16 E t' k = .ok (o.or (l'.find? fun e => E.eq k e.1)) := by
    intro t' l' hI' hp k o ho
    rw [hI.lookup_eq hE, Res.ok.injEq] at ho
    rw [hI'.lookup_eq hE, Spec.get_perm hE hp hI'.pairwise, Spec.get_insertAll hE, ho]
  refine ⟨?_, ?_, ?_⟩
  · intro hq; rw [hq] at h; exact h
  · intro t' hq
    rw [hq] at h
    exact hlk h.1 h.2
  · intro t' hq
    rw [hq] at h
    obtain ⟨h1, pre, x, post, rfl, _, h4⟩ := h
    refine ⟨pre.length, by simp, ?_⟩
    rw [List.take_left' rfl]
    exact hlk h1 h4

/-- A call that adds two elements and skips a present and a repeated key. -/
example : ∃ t : Table Nat Nat, Reachable layout16 modEnv (walk16 true) t ∧
    (match insertRange modEnv layout16 [(true, 3, 1), (true, 50, 2), (true, 50, 3), (true, 60, 4)] t with
      | .ok t' _ => t.size == 20 && t'.size == 22 | _ => false) = true :=
  exists_reachable 0 (insertsFrom 0 20) _ (by decide +kernel)

/-- C48, violated part (the overload users of group16_flat_map call, also through the range and initializer_list
constructors): only the first element of the range is ever inserted. -/
theorem C48_map_insert_range_ignores_rest (hE : E.Lawful) {t t' : Table K V} (ht : Reachable layout16 E (walk16 pad) t)
    {b : Bool} {e : K × V} {l : List (Bool × K × V)} (h : insertRangeMap E layout16 ((b, e) :: l) t = .ok t' ()) :
    ∀ k, E.eq k e.1 = false → lookup layout16 E t' k = lookup layout16 E t k := by
  intro k hk
  have hI := ht.inv16 hE
  have hl := hI.lookup_eq hE k
  rw [(C48_table_insert_range hE ht _).2.1 t' h k _ hl, hl]
  congr 1
  rw [List.find?_eq_none.mpr, Option.or_none]
  intro x hx
  simp only [List.mem_map] at hx
  obtain ⟨y, ⟨z, _, rfl⟩, rfl⟩ := hx
  simp [hk]

/-- Three elements are given, one is inserted. -/
example : (match insertRangeMap idEnv layout16 [(true, 1, 10), (true, 2, 20), (true, 3, 30)] (emptyTable layout16 224 : Table Nat Nat) with
    | .ok t _ => t.size == 1 && (match lookup layout16 idEnv t 2 with | .ok none => true | _ => false) | _ => false) = true := by decide +kernel

/-- C48, partial: ranges of at most one element (or of one repeated element) are handled correctly. -/
theorem C48_map_insert_range_partial (hE : E.Lawful) {t t' : Table K V} (ht : Reachable layout16 E (walk16 true) t) {l : List (Bool × K × V)}
    (hsame : ∀ x ∈ l, ∀ y ∈ l, E.eq x.2.1 y.2.1 = true) (h : insertRangeMap E layout16 l t = .ok t' ()) :
    ∀ k o, lookup layout16 E t k = .ok o → lookup layout16 E t' k = .ok (o.or ((l.map (·.2)).find? fun e => E.eq k e.1)) := by
  intro k o ho
  cases l with
  | nil =>
    simp only [insertRangeMap, Out.ok.injEq] at h
    rw [← h.1, ho]; simp
  | cons x r =>
    obtain ⟨b, e⟩ := x
    rw [(C48_table_insert_range hE ht _).2.1 t' h k o ho]
    congr 2
    simp only [List.map_cons, List.find?_cons]
    cases hk : E.eq k e.1 with
    | true => rfl
    | false =>
      simp only
      rw [List.find?_eq_none.mpr, List.find?_eq_none.mpr]
      · intro x hx
        simp only [List.mem_map] at hx
        obtain ⟨z, hz, rfl⟩ := hx
        intro hq
        have := hsame z (by simp [hz]) (b, e) (by simp)
        rw [hE.trans _ _ _ hq this] at hk; cases hk
      · intro x hx
        simp only [List.mem_map] at hx
        obtain ⟨y, ⟨z, _, rfl⟩, rfl⟩ := hx
        simp [hk]

example : ∀ x ∈ [((true, 1, 10) : Bool × Nat × Nat)], ∀ y ∈ [((true, 1, 10) : Bool × Nat × Nat)], idEnv.eq x.2.1 y.2.1 = true := by decide

/-! ### C49 swap -/

/-- C49. After `swap(a, b)` every history of calls on `a` gives what it would have given on `b`, and vice versa. -/
theorem C49_swap (a b : Obj K V) (ops : List (Bool × Call K V)) :
    run layout16 (swapObj a b).1.env (walk16 pad) ops (swapObj a b).1.tab = run layout16 b.env (walk16 pad) ops b.tab ∧
    run layout16 (swapObj a b).2.env (walk16 pad) ops (swapObj a b).2.tab = run layout16 a.env (walk16 pad) ops a.tab ∧
    (swapObj a b).1.tab.capacity layout16 = b.tab.capacity layout16 ∧ (swapObj a b).2.tab.capacity layout16 = a.tab.capacity layout16 := by
  unfold swapObj
  rw [swapContent_eq, swapPolicy_eq]
  exact ⟨rfl, rfl, rfl, rfl⟩

/-- Two maps with different contents and hashers. -/
example : ((swapObj ⟨idEnv, emptyTable layout16 224⟩ ⟨clashEnv, (emptyTable layout16 200 : Table Nat Nat)⟩).1.tab.mlf == 200 &&
    (swapObj ⟨idEnv, emptyTable layout16 224⟩ ⟨clashEnv, (emptyTable layout16 200 : Table Nat Nat)⟩).1.env.hash 5 == clashEnv.hash 5) = true := by
  decide +kernel

/-! ### C50 erasing a range of keys -/

theorem eraseKey_reach (hE : E.Lawful) {t : Table K V} (ht : Reachable layout16 E (walk16 pad) t) (k : K) :
    ∃ t' n, eraseKey layout16 E k t = .ok t' n ∧ Reachable layout16 E (walk16 pad) t' ∧
      ((∃ e, lookup layout16 E t k = .ok (some e) ∧ n = 1 ∧ t'.size + 1 = t.size) ∨
       (lookup layout16 E t k = .ok none ∧ n = 0 ∧ t'.size = t.size)) ∧
      (∀ k', E.eq k k' = true → lookup layout16 E t' k' = .ok none) ∧
      ∀ k', E.eq k' k = false → lookup layout16 E t' k' = lookup layout16 E t k' := by
  obtain ⟨t', a, hx, h1, h2, h3⟩ := C23_erase_exact hE ht true k
  have hr := ht.step (c := .erase k) (by trivial) (Or.inl ⟨a, hx⟩)
  simp only [exec] at hx
  cases hq : eraseKey layout16 E k t with
  | ok t1 n =>
    rw [hq] at hx
    simp only [Out.bind_ok, Out.ok.injEq] at hx
    obtain ⟨rfl, rfl⟩ := hx
    refine ⟨_, n, rfl, hr, ?_, h2, h3⟩
    rcases h1 with ⟨e, a1, a2, a3⟩ | ⟨a1, a2, a3⟩
    · cases a2; exact Or.inl ⟨e, a1, rfl, a3⟩
    · cases a2; exact Or.inr ⟨a1, rfl, a3⟩
  | _ => rw [hq] at hx; cases hx

theorem eraseTimes_none (hE : E.Lawful) {k : K} : ∀ (n : Nat) {t : Table K V}, Reachable layout16 E (walk16 pad) t →
    lookup layout16 E t k = .ok none → ∃ t', eraseTimes E layout16 k n t = .ok t' 0 ∧ Reachable layout16 E (walk16 pad) t' ∧
      t'.size = t.size ∧ (∀ k', E.eq k k' = true → lookup layout16 E t' k' = .ok none) ∧
      ∀ k', E.eq k' k = false → lookup layout16 E t' k' = lookup layout16 E t k' := by
  intro n
  induction n with
  | zero =>
    intro t ht hk
    refine ⟨t, rfl, ht, rfl, ?_, fun _ _ => rfl⟩
    intro k' hk'
    have hI := ht.inv16 hE
    rw [hI.lookup_eq hE, Res.ok.injEq] at hk ⊢
    rw [Spec.get_none_iff] at hk ⊢
    intro e he
    have := hk e he
    cases hq : E.eq k' e.1 with
    | false => rfl
    | true => rw [hE.trans _ _ _ hk' hq] at this; cases this
  | succ n ih =>
    intro t ht hk
    obtain ⟨t1, m, h1, hr, h2, h3, h4⟩ := eraseKey_reach hE ht k
    rcases h2 with ⟨e, h2, _⟩ | ⟨_, rfl, hs⟩
    · rw [hk] at h2; cases h2
    · obtain ⟨t2, g1, g2, g3, g4, g5⟩ := ih hr (h3 k (hE.refl k))
      refine ⟨t2, ?_, g2, by omega, g4, fun k' hk' => by rw [g5 k' hk', h4 k' hk']⟩
      simp only [eraseTimes, h1, Out.bind_ok, g1, Nat.add_zero]

/-- C50, violated: `erase(first, last)` over keys removes the first key of the range only.  Every other element stays, whatever the
rest of the range; the returned number is 0 or 1. -/
theorem C50_erase_keys_ignores_rest (hE : E.Lawful) {t : Table K V} (ht : Reachable layout16 E (walk16 pad) t) (k : K) (l : List K) :
    ∃ t' n, eraseRangeMap E layout16 (k :: l) t = .ok t' n ∧
      ((∃ e, lookup layout16 E t k = .ok (some e) ∧ n = 1 ∧ t'.size + 1 = t.size) ∨
       (lookup layout16 E t k = .ok none ∧ n = 0 ∧ t'.size = t.size)) ∧
      (∀ k', E.eq k k' = true → lookup layout16 E t' k' = .ok none) ∧
      ∀ k', E.eq k' k = false → lookup layout16 E t' k' = lookup layout16 E t k' := by
  obtain ⟨t1, m, h1, hr, h2, h3, h4⟩ := eraseKey_reach hE ht k
  obtain ⟨t2, g1, g2, g3, g4, g5⟩ := eraseTimes_none hE l.length hr (h3 k (hE.refl k))
  refine ⟨t2, m, ?_, ?_, g4, fun k' hk' => by rw [g5 k' hk', h4 k' hk']⟩
  · simp only [eraseRangeMap, eraseTimes, h1, Out.bind_ok, g1, Nat.add_zero]
  · rw [g3]; exact h2

/-- Three present keys are given, one is erased. -/
example : ∃ t : Table Nat Nat, Reachable layout16 modEnv (walk16 true) t ∧
    (match eraseRangeMap modEnv layout16 [3, 4, 5] t with | .ok t' n => n == 1 && t.size == 20 && t'.size == 19 | _ => false) = true :=
  exists_reachable 0 (insertsFrom 0 20) (fun t => match eraseRangeMap modEnv layout16 [3, 4, 5] t with
    | .ok t' n => n == 1 && t.size == 20 && t'.size == 19 | _ => false) (by decide +kernel)

/-- C50 (partial): a range of equivalent keys is handled correctly: afterwards no key of the range is present, every other element
is, and the result is the number of elements removed.  Missing: ranges with different keys, see above. -/
theorem C50_erase_keys_partial (hE : E.Lawful) {t : Table K V} (ht : Reachable layout16 E (walk16 pad) t) {l : List K}
    (hsame : ∀ x ∈ l, ∀ y ∈ l, E.eq x y = true) :
    ∃ t' n, eraseRangeMap E layout16 l t = .ok t' n ∧ t'.size + n = t.size ∧ (∀ k ∈ l, lookup layout16 E t' k = .ok none) ∧
      ∀ k', (∀ k ∈ l, E.eq k' k = false) → lookup layout16 E t' k' = lookup layout16 E t k' := by
  cases l with
  | nil => exact ⟨t, 0, rfl, rfl, by simp, fun _ _ => rfl⟩
  | cons k r =>
    obtain ⟨t', n, h1, h2, h3, h4⟩ := C50_erase_keys_ignores_rest hE ht k r
    refine ⟨t', n, h1, ?_, fun k' hk' => h3 k' (hsame k (by simp) k' hk'), fun k' hk' => h4 k' (hk' k (by simp))⟩
    rcases h2 with ⟨_, _, h, h'⟩ | ⟨_, h, h'⟩ <;> omega

example : ∀ x ∈ [3, 103], ∀ y ∈ [3, 103], modEnv.eq x y = true := by decide

end
end Verif
