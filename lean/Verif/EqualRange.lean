/-
`equal_range` of `flat16_hash_map` and `robin16_hash_map` (property C114).
-/
import Verif.FlatBugs
import Verif.Rob16Bugs

namespace Verif.Spec

/-- In a list without equal keys the element that is found is the only one with its key. -/
theorem filter_eq_of_get {K V : Type} {E : Env K} (hE : E.Lawful) {l : List (K × V)} (hd : Distinct E.eq l) {k : K} {e : K × V}
    (h : get E.eq l k = some e) : (l.filter fun x => E.eq k x.1) = [e] := by
  induction l with
  | nil => cases h
  | cons a l ih =>
    have hd' : (∀ b ∈ l, E.eq a.1 b.1 = false) ∧ Distinct E.eq l := List.pairwise_cons.mp hd
    by_cases hk : E.eq k a.1 = true
    · have ha : e = a := by
        have h' : (a :: l).find? (fun x => E.eq k x.1) = some e := h
        rw [List.find?_cons_of_pos (p := fun x : K × V => E.eq k x.1) hk] at h'
        exact (Option.some.inj h').symm
      rw [List.filter_cons_of_pos (p := fun x : K × V => E.eq k x.1) hk, ha]
      have : l.filter (fun x => E.eq k x.1) = [] := by
        rw [List.filter_eq_nil_iff]
        intro b hb hkb
        have := hE.trans _ _ _ (hE.symm _ _ hk) hkb
        rw [hd'.1 b hb] at this
        cases this
      rw [this]
    · have h' : (a :: l).find? (fun x => E.eq k x.1) = some e := h
      rw [List.find?_cons_of_neg (p := fun x : K × V => E.eq k x.1) hk] at h'
      rw [List.filter_cons_of_neg (p := fun x : K × V => E.eq k x.1) hk]
      exact ih hd'.2 h'

end Verif.Spec

namespace Verif.Flat
open Spec (Distinct Call Ans)

section Model
variable {K V : Type} (E : Env K) (sec : Nat → Nat)

/-- `equal_range(key)` (FL:1354-1368); an iterator is its index, `end()` is the slot count. -/
def equalRange (t : Map K V) (k : K) : Res (Nat × Nat) :=
  (findIdx E sec t k).bind fun
    | some i => (nextIdx t (clen t - (i + 1)) i).bind fun j => .ok (i, j)
    | none => .ok (cap t, cap t)

/-- The caller's loop `for (; first != last; ++first)` over a pair of iterators, reading every element. -/
def readRange (t : Map K V) : Nat → Nat → Nat → Res (List (K × V))
  | 0, _, _ => .diverge
  | f + 1, i, j =>
    if i = j then .ok [] else
      match t.slot i with
      | none => .ub
      | some e => (nextIdx t (clen t - (i + 1)) i).bind fun i' => (readRange t f i' j).bind fun l => .ok (e :: l)

/-- What the caller finds in `equal_range(key)`. -/
def readEqual (t : Map K V) (k : K) : Res (List (K × V)) :=
  (equalRange E sec t k).bind fun (i, j) => readRange t (cap t + 1) i j

end Model

variable {K V : Type} {E : Env K} {sec : Nat → Nat}

theorem readEqual_hit {t : Map K V} (h : Core E sec t) {k : K} {i : Nat} {e : K × V} (hf : findIdx E sec t k = .ok (some i))
    (hi : i < cap t) (hs : t.slot i = some e) : readEqual E sec t k = .ok [e] := by
  have hl := h.clen_eq
  obtain ⟨j, e1, e2, _⟩ := nextIdx_spec h (clen t - (i + 1)) i hi (by omega)
  unfold readEqual equalRange
  rw [hf]
  simp only [Res.bind_ok, e1]
  obtain ⟨f, hF⟩ : ∃ f, cap t + 1 = f + 2 := ⟨cap t - 1, by omega⟩
  rw [hF]
  unfold readRange
  rw [if_neg (by omega), hs]
  simp only [e1, Res.bind_ok]
  unfold readRange
  rw [if_pos rfl]; rfl

theorem readEqual_miss {t : Map K V} {k : K} (hf : findIdx E sec t k = .ok none) : readEqual E sec t k = .ok [] := by
  unfold readEqual equalRange
  rw [hf]
  simp only [Res.bind_ok]
  unfold readRange
  rw [if_pos rfl]

/-- C114 (partial), flat16.  In every state that C67 reaches, `equal_range(k)` is a range with exactly the element with an equal key if
there is one, and an empty range otherwise.  Missing: the states in which a lookup itself is wrong (FlatBugs.lean). -/
theorem C114_flat_equal_range_partial (hE : E.Lawful) {clean : Bool} {t : Map K V} (hR : Reach clean E sec t) (k : K) :
    ∃ l, walk t = .ok l ∧ readEqual E sec t k = .ok (l.filter fun e => E.eq k e.1) ∧ (l.filter fun e => E.eq k e.1).length ≤ 1 := by
  have hd := hR.distinct
  refine ⟨entries t, walk_spec hR.toCore, ?_⟩
  rcases findIdx_spec hE hR.toInv0 k with ⟨i, e, h1, h2, h3, h4, h5⟩ | ⟨h1, h2, h3⟩
  · have := Spec.filter_eq_of_get hE hd h5
    rw [this, readEqual_hit hR.toCore h1 h2 h3]
    exact ⟨rfl, Nat.le_refl _⟩
  · have : (entries t).filter (fun e => E.eq k e.1) = [] := by
      rw [List.filter_eq_nil_iff]
      intro e he
      have := Spec.get_none_iff.mp h3 e he
      simp [this]
    rw [this, readEqual_miss h1]
    exact ⟨rfl, Nat.zero_le _⟩

/-- C114, flat16, also in the states that have lost keys: `equal_range` agrees with `find`. -/
theorem C114_flat_agrees_with_find_partial {t : Map K V} (h : Core E sec t) (k : K) :
    (∃ e, lookup E sec t k = .ok (some e) ∧ E.eq e.1 k = true ∧ readEqual E sec t k = .ok [e]) ∨
      (lookup E sec t k = .ok none ∧ readEqual E sec t k = .ok []) := by
  obtain ⟨r, h1, h2⟩ := findIdx_core h k
  cases r with
  | none => exact Or.inr ⟨by unfold lookup; rw [h1]; rfl, readEqual_miss h1⟩
  | some i =>
    obtain ⟨h3, e, h4, h5⟩ := h2 i rfl
    refine Or.inl ⟨e, ?_, h5, readEqual_hit h h1 h3 h4⟩
    unfold lookup
    rw [h1]
    simp only [Res.bind_ok, h4]

/-- C114: 17 keys with the same home, the first one erased: the range of the second key, and of the erased one. -/
example : ∃ t : Map Nat Nat, Reach false (Robin.hashEnv id) id t ∧
    (match readEqual (Robin.hashEnv id) id t 64, readEqual (Robin.hashEnv id) id t 0 with
      | .ok a, .ok b => a == [(64, 1)] && b == []
      | _, _ => false) = true :=
  reach_play (cs := ins 17 64 ++ [.erase 0]) (by decide +kernel) (by decide +kernel)

end Verif.Flat

namespace Verif.Rob16
open Spec (Distinct Call Ans)

section Model
variable {K V : Type} (E : Env K) (sec : Nat → Nat)

/-- `equal_range(key)` (R16:1757-1771); an iterator is its index, `end()` is the slot count. -/
def equalRange (t : Map K V) (k : K) : Res (Nat × Nat) :=
  (findIdx E sec t k).bind fun
    | some i => (nextIdx t (t.clen - (i + 1)) i).bind fun j => .ok (i, j)
    | none => .ok (cap t, cap t)

/-- The caller's loop `for (; first != last; ++first)` over a pair of iterators, reading every element. -/
def readRange (t : Map K V) : Nat → Nat → Nat → Res (List (K × V))
  | 0, _, _ => .diverge
  | f + 1, i, j =>
    if i = j then .ok [] else
      match t.slot i with
      | none => .ub
      | some e => (nextIdx t (t.clen - (i + 1)) i).bind fun i' => (readRange t f i' j).bind fun l => .ok (e :: l)

/-- What the caller finds in `equal_range(key)`. -/
def readEqual (t : Map K V) (k : K) : Res (List (K × V)) :=
  (equalRange E sec t k).bind fun (i, j) => readRange t (cap t + 1) i j

end Model

variable {K V : Type} {E : Env K} {sec : Nat → Nat}

/-- C114 (partial), robin16.  In every state that C79 reaches, `equal_range(k)` is a range with exactly the element with an equal key if
there is one, and an empty range otherwise.  Missing: keys with control hash 0 in maps of less than 16 slots (Rob16Bugs.lean). -/
theorem C114_rob16_equal_range_partial (hE : E.Lawful) {t : Map K V} (hR : Reach E sec t) {k : K} (hk : TagOk E sec t k) :
    ∃ l, walk t = .ok l ∧ readEqual E sec t k = .ok (l.filter fun e => E.eq k e.1) ∧ (l.filter fun e => E.eq k e.1).length ≤ 1 := by
  have hd := hR.distinct
  refine ⟨entries t, walk_spec hR.toTab, ?_⟩
  rcases find_spec hE hR.toInv hk with ⟨i, e, h1, h2, _, h3, h4, h5⟩ | ⟨h1, h2, h3⟩
  · have := Spec.filter_eq_of_get hE hd h5
    rw [this]
    refine ⟨?_, Nat.le_refl _⟩
    have hl := hR.toTab.clen_eq
    obtain ⟨j, e1, e2, _⟩ := nextIdx_spec hR.toTab (t.clen - (i + 1)) i h2 (by omega)
    unfold readEqual equalRange
    rw [h1]
    simp only [Res.bind_ok, e1]
    obtain ⟨f, hF⟩ : ∃ f, cap t + 1 = f + 2 := ⟨cap t - 1, by omega⟩
    rw [hF]
    unfold readRange
    rw [if_neg (by omega), h3]
    simp only [e1, Res.bind_ok]
    unfold readRange
    rw [if_pos rfl]; rfl
  · have : (entries t).filter (fun e => E.eq k e.1) = [] := by
      rw [List.filter_eq_nil_iff]
      intro e he
      have := Spec.get_none_iff.mp h3 e he
      simp [this]
    rw [this]
    refine ⟨?_, Nat.zero_le _⟩
    unfold readEqual equalRange
    rw [h1]
    simp only [Res.bind_ok]
    unfold readRange
    rw [if_pos rfl]

/-- C114: displaced elements. -/
example : ∃ t : Map Nat Nat, Reach (Robin.hashEnv id) odd t ∧
    (match readEqual (Robin.hashEnv id) odd t 32, readEqual (Robin.hashEnv id) odd t 5 with
      | .ok a, .ok b => a == [(32, 2)] && b == []
      | _, _ => false) = true :=
  reach_play (triv := false) (cs := [.insert 0 0, .insert 16 1, .insert 32 2, .insert 48 3, .insert 64 4]) (by decide +kernel) (by decide +kernel)

end Verif.Rob16
