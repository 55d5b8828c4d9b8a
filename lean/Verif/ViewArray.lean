/-
`string_view_array`, an array of pointers to elements that it deletes (C146).

VA = src/jstd/string/string_view_array.h

A program has a list of arrays, the local variables of nested blocks; the last one is destroyed first.  The elements are numbered in the order of their
allocation.  `operator new` does not fail, and `std::vector` is what the standard says (a vector that has been moved from by a constructor is empty).
The copy constructor and `copy` (VA:98-100, 175-179, 188-193) apply `*` to an element instead of a pointer and do not compile when they are used; `cbegin`, `cend` and the
`begin`, `end` of constant arrays (VA:115-121) neither.
-/
import Verif.Table

namespace Verif.ViewArray

/-- The state of a program: the elements that are alive, the number of the next one, what the elements contain (first, second), and the arrays (`array_`, VA:82), where
`none` is a null pointer. -/
structure St (V : Type) where
  live : List Nat
  next : Nat
  val : Nat → V
  arrs : List (List (Option Nat))

/-- What a statement yields: nothing, an element, whether a pointer is null, a number, an exception. -/
inductive Ans (V : Type) where
  | unit
  | elem (v : V)
  | null (b : Bool)
  | num (n : Nat)
  | threw
  deriving DecidableEq

/-- The statements of a program. -/
inductive Op (V : Type) where
  | make
  | move (a : Nat)
  | push (a : Nat) (v : V)
  | pop (a : Nat)
  | clear (a : Nat)
  | resize (a n : Nat)
  | get (a i : Nat)
  | set (a i : Nat) (v : V)
  | «at» (a i : Nat)
  | size (a : Nat)
  | swap (a b : Nat)
  | leave

section Model
variable {V : Type}

/-- The loop of `destroy` (VA:84-92): `delete` of a pointer to an element that is not alive is undefined. -/
def destroy : List (Option Nat) → List Nat → Res (List Nat)
  | [], live => .ok live
  | none :: ps, live => destroy ps live
  | some p :: ps, live => if p ∈ live then destroy ps (live.erase p) else .ub

/-- `array_.resize(n)` (VA:137-139): new pointers are null. -/
def resized (n : Nat) (x : List (Option Nat)) : List (Option Nat) :=
  if n ≤ x.length then x.take n else x ++ List.replicate (n - x.length) none

/-- Run `f` on the array `a`; there is no such program if there is no such array. -/
def on {β : Type} (s : St V) (a : Nat) (f : List (Option Nat) → Res β) : Res β :=
  match s.arrs[a]? with
  | none => .ub
  | some x => f x

/-- A statement: the constructors (VA:95-96, 102-104), the destructor (VA:106-108), `size` (VA:110), `clear` (VA:129-131), `resize` (VA:137-139), `push_back` of a
new element (VA:141-147), `pop_back` (VA:149-151), `operator []` read and assigned to (VA:153-159, 43-47), `at` (VA:161-173), `swap` (VA:181-185, 195-197). -/
def exec (s : St V) : Op V → Res (Ans V × St V)
  | .make => .ok (.unit, { s with arrs := s.arrs ++ [[]] })
  | .move a => on s a fun x => .ok (.unit, { s with arrs := s.arrs.set a [] ++ [x] })
  | .push a v => on s a fun x =>
      .ok (.unit, ⟨s.next :: s.live, s.next + 1, upd s.val s.next v, s.arrs.set a (x ++ [some s.next])⟩)
  | .pop a => on s a fun x =>
      if x.length = 0 then .ub else .ok (.unit, { s with arrs := s.arrs.set a (x.take (x.length - 1)) })
  | .clear a => on s a fun _ => .ok (.unit, { s with arrs := s.arrs.set a [] })
  | .resize a n => on s a fun x => .ok (.unit, { s with arrs := s.arrs.set a (resized n x) })
  | .get a i => on s a fun x =>
      match x[i]? with
      | some (some p) => if p ∈ s.live then .ok (.elem (s.val p), s) else .ub
      | _ => .ub
  | .set a i v => on s a fun x =>
      match x[i]? with
      | some (some p) => if p ∈ s.live then .ok (.unit, { s with val := upd s.val p v }) else .ub
      | _ => .ub
  | .at a i => on s a fun x =>
      match x[i]? with
      | some r => .ok (.null r.isNone, s)
      | none => .ok (.threw, s)
  | .size a => on s a fun x => .ok (.num x.length, s)
  | .swap a b => on s a fun x => on s b fun y =>
      .ok (.unit, if a = b then s else { s with arrs := (s.arrs.set a y).set b x })
  | .leave =>
      match s.arrs.getLast? with
      | none => .ub
      | some x => (destroy x s.live).bind fun l => .ok (.unit, { s with live := l, arrs := s.arrs.dropLast })

/-- A program. -/
def run : List (Op V) → St V → Res (List (Ans V) × St V)
  | [], s => .ok ([], s)
  | o :: os, s => (exec s o).bind fun r => (run os r.2).bind fun q => .ok (r.1 :: q.1, q.2)

/-- All arrays that are left are destroyed; the elements that are alive after that are leaked. -/
def finish (s : St V) : Res (List Nat) := destroy s.arrs.flatten s.live

/-- The start of a program. -/
def start (d : V) : St V := ⟨[], 0, fun _ => d, []⟩

/-- `a.push_back(b.at(i))`: a second pointer to the same element (VA:141-143, 161-166). -/
def pushShared (s : St V) (a b i : Nat) : Res (St V) :=
  on s b fun y =>
    match y[i]? with
    | some r => on s a fun x => .ok { s with arrs := s.arrs.set a (x ++ [r]) }
    | none => .ub

end Model

/-! ### What a program should do -/

/-- Arrays of elements (some places may be without one); the number of elements that were removed. -/
structure Sp (V : Type) where
  arrs : List (List (Option V))
  lost : Nat

section Spec
variable {V : Type}

/-- The number of elements. -/
def elems (x : List (Option V)) : Nat := x.countP Option.isSome

def onS {β : Type} (t : Sp V) (a : Nat) (f : List (Option V) → Res β) : Res β :=
  match t.arrs[a]? with
  | none => .ub
  | some x => f x

/-- Keep the first `n` places of array `a`. -/
def cut (t : Sp V) (a n : Nat) (x : List (Option V)) : Sp V := ⟨t.arrs.set a (x.take n), t.lost + elems (x.drop n)⟩

def spec (t : Sp V) : Op V → Res (Ans V × Sp V)
  | .make => .ok (.unit, ⟨t.arrs ++ [[]], t.lost⟩)
  | .move a => onS t a fun x => .ok (.unit, ⟨t.arrs.set a [] ++ [x], t.lost⟩)
  | .push a v => onS t a fun x => .ok (.unit, ⟨t.arrs.set a (x ++ [some v]), t.lost⟩)
  | .pop a => onS t a fun x => if x.length = 0 then .ub else .ok (.unit, cut t a (x.length - 1) x)
  | .clear a => onS t a fun x => .ok (.unit, cut t a 0 x)
  | .resize a n => onS t a fun x =>
      .ok (.unit, if n ≤ x.length then cut t a n x else ⟨t.arrs.set a (x ++ List.replicate (n - x.length) none), t.lost⟩)
  | .get a i => onS t a fun x =>
      match x[i]? with
      | some (some v) => .ok (.elem v, t)
      | _ => .ub
  | .set a i v => onS t a fun x =>
      match x[i]? with
      | some (some _) => .ok (.unit, ⟨t.arrs.set a (x.set i (some v)), t.lost⟩)
      | _ => .ub
  | .at a i => onS t a fun x =>
      match x[i]? with
      | some r => .ok (.null r.isNone, t)
      | none => .ok (.threw, t)
  | .size a => onS t a fun x => .ok (.num x.length, t)
  | .swap a b => onS t a fun x => onS t b fun y => .ok (.unit, ⟨(t.arrs.set a y).set b x, t.lost⟩)
  | .leave =>
      match t.arrs.getLast? with
      | none => .ub
      | some _ => .ok (.unit, ⟨t.arrs.dropLast, t.lost⟩)

def specs : List (Op V) → Sp V → Res (List (Ans V) × Sp V)
  | [], t => .ok ([], t)
  | o :: os, t => (spec t o).bind fun r => (specs os r.2).bind fun q => .ok (r.1 :: q.1, q.2)

end Spec

/-! ### Lemmas -/

/-- The pointers that are not null. -/
def ptrOf (x : List (Option Nat)) : List Nat := x.filterMap id

theorem ptrOf_append (x y : List (Option Nat)) : ptrOf (x ++ y) = ptrOf x ++ ptrOf y := List.filterMap_append

theorem ptrOf_none (n : Nat) : ptrOf (List.replicate n none) = [] := by
  induction n with
  | zero => rfl
  | succ n ih => rw [List.replicate_succ]; exact ih

/-- Replacing an array replaces its pointers. -/
theorem count_set (q : Nat) : ∀ (l : List (List (Option Nat))) (a : Nat) (x y : List (Option Nat)), l[a]? = some x →
    (ptrOf (l.set a y).flatten).count q + (ptrOf x).count q = (ptrOf l.flatten).count q + (ptrOf y).count q
  | [], a, x, y, h => by simp at h
  | z :: l, 0, x, y, h => by
    simp at h
    subst h
    simp [ptrOf_append]
    omega
  | z :: l, a + 1, x, y, h => by
    have := count_set q l a x y (by simpa using h)
    simp [ptrOf_append]
    omega

theorem count_mem (q : Nat) : ∀ (l : List (List (Option Nat))) (a : Nat) (x : List (Option Nat)), l[a]? = some x →
    (ptrOf x).count q ≤ (ptrOf l.flatten).count q
  | [], a, x, h => by simp at h
  | z :: l, 0, x, h => by
    simp at h
    subst h
    simp [ptrOf_append]
  | z :: l, a + 1, x, h => by
    have := count_mem q l a x (by simpa using h)
    simp [ptrOf_append]
    omega

theorem destroy_spec : ∀ (x : List (Option Nat)) (live : List Nat), (∀ q, (ptrOf x).count q ≤ live.count q) →
    ∃ l, destroy x live = .ok l ∧ ∀ q, l.count q + (ptrOf x).count q = live.count q
  | [], live, _ => ⟨live, rfl, fun q => by simp [ptrOf]⟩
  | none :: ps, live, h => destroy_spec ps live h
  | some p :: ps, live, h => by
    have hp : ptrOf (some p :: ps) = p :: ptrOf ps := rfl
    rw [hp] at h ⊢
    have hm : p ∈ live := by
      have := h p
      rw [List.count_cons_self] at this
      exact List.count_pos_iff.mp (by omega)
    obtain ⟨l, h1, h2⟩ := destroy_spec ps (live.erase p) (fun q => by
      have h3 := h q
      rw [List.count_erase]
      rw [List.count_cons] at h3
      by_cases hq : p = q
      · subst hq; simp at h3 ⊢; omega
      · simp [hq] at h3 ⊢; omega)
    refine ⟨l, by simp only [destroy]; rw [if_pos hm, h1], fun q => ?_⟩
    have h3 := h2 q
    have h4 := h q
    rw [List.count_erase] at h3
    rw [List.count_cons] at h4 ⊢
    by_cases hq : p = q
    · subst hq; simp at h3 h4 ⊢; omega
    · simp [hq] at h3 h4 ⊢; omega

/-- Deleting a pointer twice is undefined. -/
theorem destroy_twice : ∀ (x : List (Option Nat)) (live : List Nat) (p : Nat), live.count p < (ptrOf x).count p → destroy x live = .ub
  | [], live, p, h => by simp [ptrOf] at h
  | none :: ps, live, p, h => destroy_twice ps live p h
  | some r :: ps, live, p, h => by
    have hp : ptrOf (some r :: ps) = r :: ptrOf ps := rfl
    rw [hp] at h
    simp only [destroy]
    split
    · rename_i hm
      have hm := List.count_pos_iff.mpr hm
      refine destroy_twice ps _ p ?_
      rw [List.count_erase]
      rw [List.count_cons] at h
      by_cases hq : p = r
      · subst hq; simp at h ⊢; omega
      · have h1 : ¬ r = p := fun e => hq e.symm
        simp [h1] at h ⊢
        omega
    · rfl

theorem split_at {α : Type} : ∀ {l : List α} {i : Nat} {x : α}, l[i]? = some x → ∃ A B, l = A ++ x :: B ∧ A.length = i
  | [], i, x, h => by simp at h
  | y :: l, 0, x, h => ⟨[], l, by simpa using h, rfl⟩
  | y :: l, i + 1, x, h => by
    obtain ⟨A, B, h1, h2⟩ := split_at (l := l) (i := i) (x := x) (by simpa using h)
    exact ⟨y :: A, B, by rw [h1]; rfl, by rw [List.length_cons, h2]⟩

theorem set_at {α : Type} : ∀ (A : List α) (x y : α) (B : List α), (A ++ x :: B).set A.length y = A ++ y :: B
  | [], x, y, B => rfl
  | z :: A, x, y, B => by simp

/-- The state of the program and what it stands for. -/
structure Rel {V : Type} (s : St V) (t : Sp V) : Prop where
  arrs : t.arrs = s.arrs.map fun x => x.map fun r => r.map s.val
  once : ∀ q, s.live.count q ≤ 1
  fresh : ∀ q, s.next ≤ q → s.live.count q = 0
  lost : ∃ d : List Nat, d.length = t.lost ∧ ∀ q, s.live.count q = (ptrOf s.arrs.flatten).count q + d.count q

section Lemmas
variable {V : Type} {s : St V} {t : Sp V}

theorem Rel.at (h : Rel s t) (a : Nat) : t.arrs[a]? = (s.arrs[a]?).map fun x => x.map fun r => r.map s.val := by
  rw [h.arrs, List.getElem?_map]

theorem elems_map (f : Nat → V) (x : List (Option Nat)) : elems (x.map fun r => r.map f) = (ptrOf x).length := by
  induction x with
  | nil => rfl
  | cons r x ih =>
    unfold elems at ih ⊢
    cases r with
    | none => simpa [ptrOf] using ih
    | some p => simpa [ptrOf] using ih

/-- Values of other elements do not matter. -/
theorem map_upd (f : Nat → V) (p : Nat) (v : V) {x : List (Option Nat)} (h : (ptrOf x).count p = 0) :
    (x.map fun r => r.map (upd f p v)) = x.map fun r => r.map f := by
  apply List.map_congr_left
  intro r hr
  cases r with
  | none => rfl
  | some q =>
    have hq : q ≠ p := by
      intro e
      subst e
      exact absurd h (Nat.ne_of_gt (List.count_pos_iff.mpr (List.mem_filterMap.mpr ⟨some q, hr, rfl⟩)))
    show some (upd f p v q) = some (f q)
    rw [upd_other _ _ hq]

theorem maps_upd (f : Nat → V) (p : Nat) (v : V) {l : List (List (Option Nat))} (h : (ptrOf l.flatten).count p = 0) :
    (l.map fun x => x.map fun r => r.map (upd f p v)) = l.map fun x => x.map fun r => r.map f := by
  apply List.map_congr_left
  intro x hx
  apply map_upd
  obtain ⟨a, _, ha⟩ := List.getElem_of_mem hx
  have := count_mem p l a x (by rw [← ha]; exact List.getElem?_eq_getElem _)
  omega

/-- Keeping a part of an array loses the elements of the rest. -/
theorem Rel.cut (h : Rel s t) {a : Nat} {x : List (Option Nat)} (hx : s.arrs[a]? = some x) (n : Nat) :
    Rel { s with arrs := s.arrs.set a (x.take n) } (cut t a n (x.map fun r => r.map s.val)) := by
  obtain ⟨d, h1, h2⟩ := h.lost
  refine ⟨?_, h.once, h.fresh, ptrOf (x.drop n) ++ d, ?_, fun q => ?_⟩
  · show t.arrs.set a _ = _
    rw [h.arrs, List.map_set, List.map_take]
  · show _ = t.lost + elems _
    rw [List.length_append, h1, ← List.map_drop, elems_map]
    omega
  · have h3 := count_set q s.arrs a x (x.take n) hx
    have h4 : (ptrOf x).count q = (ptrOf (x.take n)).count q + (ptrOf (x.drop n)).count q := by
      rw [← List.count_append, ← ptrOf_append, List.take_append_drop]
    have h5 := h2 q
    show s.live.count q = _
    rw [List.count_append]
    show s.live.count q = (ptrOf (s.arrs.set a (x.take n)).flatten).count q + _
    omega

theorem Rel.live (h : Rel s t) {a : Nat} {x : List (Option Nat)} (hx : s.arrs[a]? = some x) {i p : Nat} (hp : x[i]? = some (some p)) : p ∈ s.live := by
  obtain ⟨d, _, h2⟩ := h.lost
  have h1 := count_mem p s.arrs a x hx
  have h3 : 0 < (ptrOf x).count p := List.count_pos_iff.mpr (List.mem_filterMap.mpr ⟨some p, List.mem_of_getElem? hp, rfl⟩)
  have h4 := h2 p
  exact List.count_pos_iff.mp (by omega)

/-- Every statement does what it should do, apart from the elements that are removed. -/
theorem exec_spec (h : Rel s t) (o : Op V) :
    match spec t o with
    | .ok (a, t') => ∃ s', exec s o = .ok (a, s') ∧ Rel s' t'
    | _ => exec s o = .ub := by
  have hlost := h.lost
  cases o with
  | make =>
    refine ⟨_, rfl, ?_, h.once, h.fresh, ?_⟩
    · show t.arrs ++ [[]] = _
      rw [h.arrs, List.map_append]; rfl
    · obtain ⟨d, h1, h2⟩ := hlost
      exact ⟨d, h1, fun q => by have := h2 q; simpa using this⟩
  | move a =>
    simp only [spec, exec, onS, on]
    rw [h.at a]
    cases hx : s.arrs[a]? with
    | none => rfl
    | some x =>
      refine ⟨_, rfl, ?_, h.once, h.fresh, ?_⟩
      · show t.arrs.set a [] ++ [_] = _
        rw [h.arrs, List.map_append, List.map_set]; rfl
      · obtain ⟨d, h1, h2⟩ := hlost
        refine ⟨d, h1, fun q => ?_⟩
        have h3 := h2 q
        have h4 := count_set q s.arrs a x [] hx
        have h5 : (ptrOf ([] : List (Option Nat))).count q = 0 := rfl
        show s.live.count q = (ptrOf (s.arrs.set a [] ++ [x]).flatten).count q + _
        rw [List.flatten_append, ptrOf_append, List.count_append]
        have h6 : (ptrOf [x].flatten).count q = (ptrOf x).count q := by simp
        omega
  | push a v =>
    simp only [spec, exec, onS, on]
    rw [h.at a]
    cases hx : s.arrs[a]? with
    | none => rfl
    | some x =>
      obtain ⟨d, h1, h2⟩ := hlost
      have hz : (ptrOf s.arrs.flatten).count s.next = 0 := by
        have := h2 s.next
        have := h.fresh s.next (Nat.le_refl _)
        omega
      refine ⟨_, rfl, ?_, ?_, ?_, d, h1, ?_⟩
      · show t.arrs.set a _ = _
        rw [h.arrs, List.map_set, maps_upd _ _ _ hz, List.map_append, map_upd]
        · show _ = List.set _ a (_ ++ [some (upd s.val s.next v s.next)])
          rw [upd_self]
        · have := count_mem s.next s.arrs a x hx
          omega
      · intro q
        show (s.next :: s.live).count q ≤ 1
        rw [List.count_cons]
        have h3 := h.once q
        by_cases hq : s.next = q
        · subst hq
          have := h.fresh s.next (Nat.le_refl _)
          simp; omega
        · simp [hq]; omega
      · intro q hq
        have hq : s.next + 1 ≤ q := hq
        show (s.next :: s.live).count q = 0
        rw [List.count_cons, h.fresh q (by omega)]
        have : ¬ s.next = q := by omega
        simp [this]
      · intro q
        have h3 := h2 q
        have h4 := count_set q s.arrs a x (x ++ [some s.next]) hx
        rw [ptrOf_append, List.count_append] at h4
        have h5 : ptrOf [some s.next] = [s.next] := rfl
        rw [h5] at h4
        show (s.next :: s.live).count q = (ptrOf (s.arrs.set a (x ++ [some s.next])).flatten).count q + _
        have h6 : (s.next :: s.live).count q = s.live.count q + [s.next].count q := by simp [List.count_cons]
        omega
  | pop a =>
    simp only [spec, exec, onS, on]
    rw [h.at a]
    cases hx : s.arrs[a]? with
    | none => rfl
    | some x =>
      simp only [Option.map_some, List.length_map]
      by_cases hl : x.length = 0
      · simp only [if_pos hl]
      · simp only [if_neg hl]
        exact ⟨_, rfl, h.cut hx _⟩
  | clear a =>
    simp only [spec, exec, onS, on]
    rw [h.at a]
    cases hx : s.arrs[a]? with
    | none => rfl
    | some x => exact ⟨_, rfl, h.cut hx 0⟩
  | resize a n =>
    simp only [spec, exec, onS, on]
    rw [h.at a]
    cases hx : s.arrs[a]? with
    | none => rfl
    | some x =>
      simp only [Option.map_some, List.length_map]
      unfold resized
      by_cases hl : n ≤ x.length
      · simp only [if_pos hl]
        exact ⟨_, rfl, h.cut hx n⟩
      · simp only [if_neg hl]
        obtain ⟨d, h1, h2⟩ := hlost
        refine ⟨_, rfl, ?_, h.once, h.fresh, d, h1, fun q => ?_⟩
        · show t.arrs.set a _ = _
          rw [h.arrs, List.map_set, List.map_append, List.map_replicate]; rfl
        · have h3 := h2 q
          have h4 := count_set q s.arrs a x (x ++ List.replicate (n - x.length) none) hx
          rw [ptrOf_append, ptrOf_none, List.append_nil] at h4
          show s.live.count q = (ptrOf (s.arrs.set a (x ++ List.replicate (n - x.length) none)).flatten).count q + _
          omega
  | get a i =>
    simp only [spec, exec, onS, on]
    rw [h.at a]
    cases hx : s.arrs[a]? with
    | none => rfl
    | some x =>
      simp only [Option.map_some, List.getElem?_map]
      cases hi : x[i]? with
      | none => rfl
      | some r =>
        cases r with
        | none => rfl
        | some p =>
          simp only [Option.map_some, if_pos (h.live hx hi)]
          exact ⟨_, rfl, h⟩
  | set a i v =>
    simp only [spec, exec, onS, on]
    rw [h.at a]
    cases hx : s.arrs[a]? with
    | none => rfl
    | some x =>
      simp only [Option.map_some, List.getElem?_map]
      cases hi : x[i]? with
      | none => rfl
      | some r =>
        cases r with
        | none => rfl
        | some p =>
          simp only [Option.map_some, if_pos (h.live hx hi)]
          refine ⟨_, rfl, ?_, h.once, h.fresh, hlost⟩
          show t.arrs.set a _ = _
          obtain ⟨d, _, h2⟩ := hlost
          have hc : (ptrOf s.arrs.flatten).count p ≤ 1 := by
            have := h2 p
            have := h.once p
            omega
          obtain ⟨A, B, h3, h4⟩ := split_at hx
          obtain ⟨C, D, h5, h6⟩ := split_at hi
          rw [h3, h5] at hc
          have e1 : ptrOf (some p :: D) = p :: ptrOf D := rfl
          simp only [List.flatten_append, List.flatten_cons, ptrOf_append, List.count_append, e1, List.count_cons_self] at hc
          rw [h.arrs, h3, h5]
          subst h4 h6
          simp only [List.map_append, List.map_cons]
          have e2 := set_at (A.map fun x => x.map fun r => r.map s.val)
          have e3 := set_at (C.map fun r => r.map s.val)
          simp only [List.length_map] at e2 e3
          rw [e2, e3, maps_upd _ _ _ (by omega), maps_upd _ _ _ (by omega), map_upd _ _ _ (by omega), map_upd _ _ _ (by omega)]
          simp only [Option.map_some, upd_self]
  | «at» a i =>
    simp only [spec, exec, onS, on]
    rw [h.at a]
    cases hx : s.arrs[a]? with
    | none => rfl
    | some x =>
      simp only [Option.map_some, List.getElem?_map]
      cases hi : x[i]? with
      | none => exact ⟨_, rfl, h⟩
      | some r =>
        simp only [Option.map_some, Option.isNone_map]
        exact ⟨_, rfl, h⟩
  | size a =>
    simp only [spec, exec, onS, on]
    rw [h.at a]
    cases hx : s.arrs[a]? with
    | none => rfl
    | some x =>
      simp only [Option.map_some, List.length_map]
      exact ⟨_, rfl, h⟩
  | swap a b =>
    simp only [spec, exec, onS, on]
    rw [h.at a, h.at b]
    cases hx : s.arrs[a]? with
    | none => rfl
    | some x =>
      cases hy : s.arrs[b]? with
      | none => rfl
      | some y =>
        by_cases hab : a = b
        · simp only [if_pos hab]
          refine ⟨s, rfl, ?_⟩
          subst hab
          rw [hx] at hy
          cases hy
          show Rel s ⟨(t.arrs.set a _).set a _, t.lost⟩
          have : (t.arrs.set a (x.map fun r => r.map s.val)).set a (x.map fun r => r.map s.val) = t.arrs := by
            rw [h.arrs]
            obtain ⟨A, B, h3, h4⟩ := split_at hx
            rw [h3]
            subst h4
            simp only [List.map_append, List.map_cons]
            have e2 := set_at (A.map fun x => x.map fun r => r.map s.val)
            simp only [List.length_map] at e2
            rw [e2, e2]
          rw [this]
          exact h
        · simp only [if_neg hab]
          obtain ⟨d, h1, h2⟩ := hlost
          refine ⟨_, rfl, ?_, h.once, h.fresh, d, h1, fun q => ?_⟩
          · show (t.arrs.set a _).set b _ = _
            rw [h.arrs, List.map_set, List.map_set]
          · have h3 := h2 q
            have h4 := count_set q s.arrs a x y hx
            have h5 := count_set q (s.arrs.set a y) b y x (by rw [List.getElem?_set_ne hab]; exact hy)
            show s.live.count q = (ptrOf ((s.arrs.set a y).set b x).flatten).count q + _
            omega
  | leave =>
    simp only [spec, exec]
    rw [h.arrs, List.getLast?_map]
    cases hx : s.arrs.getLast? with
    | none => rfl
    | some x =>
      obtain ⟨d, h1, h2⟩ := hlost
      obtain ⟨ys, h3⟩ := List.getLast?_eq_some_iff.mp hx
      have h4 : ∀ q, (ptrOf s.arrs.flatten).count q = (ptrOf ys.flatten).count q + (ptrOf x).count q := by
        intro q
        rw [h3, List.flatten_append, ptrOf_append, List.count_append]
        simp
      obtain ⟨l, h5, h6⟩ := destroy_spec x s.live (fun q => by have := h2 q; have := h4 q; omega)
      simp only [Option.map_some]
      rw [h5]
      have h7 : s.arrs.dropLast = ys := by rw [h3, List.dropLast_concat]
      refine ⟨_, rfl, ?_, fun q => ?_, fun q hq => ?_, d, h1, fun q => ?_⟩
      · show (s.arrs.map _).dropLast = List.map _ s.arrs.dropLast
        rw [List.map_dropLast]
      · show l.count q ≤ 1
        have := h6 q; have := h.once q; omega
      · show l.count q = 0
        have := h6 q; have := h.fresh q hq; omega
      · show l.count q = (ptrOf s.arrs.dropLast.flatten).count q + _
        rw [h7]
        have := h6 q; have := h2 q; have := h4 q; omega

theorem run_spec : ∀ (os : List (Op V)) {s : St V} {t : Sp V}, Rel s t →
    match specs os t with
    | .ok (as, t') => ∃ s', run os s = .ok (as, s') ∧ Rel s' t'
    | _ => run os s = .ub := by
  intro os
  induction os with
  | nil => intro s t h; exact ⟨s, rfl, h⟩
  | cons o os ih =>
    intro s t h
    have h1 := exec_spec h o
    unfold specs run
    cases hs : spec t o with
    | ub => rw [hs] at h1; simp only at h1; rw [h1]; rfl
    | diverge => rw [hs] at h1; simp only at h1; rw [h1]; rfl
    | ok r =>
      obtain ⟨a, t1⟩ := r
      rw [hs] at h1
      obtain ⟨s1, h2, h3⟩ := h1
      rw [h2]
      simp only [Res.bind_ok]
      have h4 := ih h3
      cases hq : specs os t1 with
      | ub => rw [hq] at h4; simp only at h4; rw [h4]; rfl
      | diverge => rw [hq] at h4; simp only at h4; rw [h4]; rfl
      | ok q =>
        obtain ⟨as, t2⟩ := q
        rw [hq] at h4
        obtain ⟨s2, h5, h6⟩ := h4
        rw [h5]
        exact ⟨s2, rfl, h6⟩

theorem rel_start (d : V) : Rel (start d) ⟨[], 0⟩ :=
  ⟨rfl, fun q => by simp [start], fun q _ => by simp [start], [], rfl, fun q => by simp [start, ptrOf]⟩

theorem Rel.finish (h : Rel s t) : ∃ l, finish s = .ok l ∧ l.length = t.lost := by
  obtain ⟨d, h1, h2⟩ := h.lost
  obtain ⟨l, h3, h4⟩ := destroy_spec s.arrs.flatten s.live (fun q => by have := h2 q; omega)
  refine ⟨l, h3, ?_⟩
  have : l.Perm d := List.perm_iff_count.mpr fun q => by have := h2 q; have := h4 q; omega
  rw [this.length_eq, h1]

end Lemmas

/-! ### C146 -/

section Claims
variable {V : Type}

/-- C146 (partial): a program without copies gets from its arrays what it would get from arrays of elements, it is undefined exactly when it reads where there is no
element (or from no array), and when all arrays are destroyed the elements that are still alive are as many as `pop_back`, `clear` and `resize` have removed.
Missing: those should be none. -/
theorem C146_programs_partial (d : V) (os : List (Op V)) :
    match specs os ⟨[], 0⟩ with
    | .ok (as, t) => ∃ s l, run os (start d) = .ok (as, s) ∧ finish s = .ok l ∧ l.length = t.lost
    | _ => run os (start d) = .ub := by
  have h := run_spec os (rel_start d)
  cases hs : specs os (⟨[], 0⟩ : Sp V) with
  | ok r =>
    obtain ⟨as, t⟩ := r
    rw [hs] at h
    obtain ⟨s, h1, h2⟩ := h
    obtain ⟨l, h3, h4⟩ := h2.finish
    exact ⟨s, l, h1, h3, h4⟩
  | ub => rw [hs] at h; exact h
  | diverge => rw [hs] at h; exact h

/-- The statements that do not remove elements. -/
def keeps : Op V → Bool
  | .pop _ | .clear _ | .resize _ _ => false
  | _ => true

theorem spec_lost {t t' : Sp V} {o : Op V} {a : Ans V} (ho : keeps o = true) (h : spec t o = .ok (a, t')) : t'.lost = t.lost := by
  cases o <;> simp only [spec, onS, keeps] at h ho <;> (try cases ho) <;> (repeat' split at h) <;> cases h <;> rfl

theorem specs_lost : ∀ (os : List (Op V)) {t t' : Sp V} {as : List (Ans V)}, (∀ o ∈ os, keeps o = true) → specs os t = .ok (as, t') → t'.lost = t.lost
  | [], t, t', as, _, h => by cases h; rfl
  | o :: os, t, t', as, ho, h => by
    unfold specs at h
    cases h1 : spec t o with
    | ub => rw [h1] at h; cases h
    | diverge => rw [h1] at h; cases h
    | ok r =>
      rw [h1] at h
      simp only [Res.bind_ok] at h
      cases h2 : specs os r.2 with
      | ub => rw [h2] at h; cases h
      | diverge => rw [h2] at h; cases h
      | ok q =>
        rw [h2] at h
        cases h
        rw [specs_lost os (fun o ho' => ho o (List.mem_cons_of_mem _ ho')) h2, spec_lost (ho o List.mem_cons_self) h1]

/-- C146 (partial): a program that only constructs, moves, swaps, pushes, reads and assigns deletes every element exactly once.  Missing: `pop_back`, `clear`, `resize`. -/
theorem C146_no_leak_partial (d : V) {os : List (Op V)} (hk : ∀ o ∈ os, keeps o = true) {as : List (Ans V)} {s : St V} (hr : run os (start d) = .ok (as, s)) :
    finish s = .ok [] := by
  have h := C146_programs_partial d os
  cases hs : specs os (⟨[], 0⟩ : Sp V) with
  | ok r =>
    obtain ⟨as', t⟩ := r
    rw [hs] at h
    obtain ⟨s', l, h1, h2, h3⟩ := h
    rw [hr] at h1
    cases h1
    have h4 := specs_lost os hk hs
    have h5 : l = [] := List.length_eq_zero_iff.mp (by rw [h3, h4])
    rw [h2, h5]
  | ub => rw [hs] at h; simp only at h; rw [hr] at h; cases h
  | diverge => rw [hs] at h; simp only at h; rw [hr] at h; cases h

/-- C146, violated: `clear` leaks every element of the array, whatever the program has done before. -/
theorem C146_clear_leaks (d : V) {os : List (Op V)} {as : List (Ans V)} {s s' : St V} {l l' : List Nat} (hr : run os (start d) = .ok (as, s)) {a : Nat}
    {x : List (Option Nat)} (hx : s.arrs[a]? = some x) (hc : exec s (.clear a) = .ok (.unit, s')) (hl : finish s = .ok l) (hl' : finish s' = .ok l') :
    l'.length = l.length + x.countP Option.isSome := by
  have h := run_spec os (rel_start d)
  cases hs : specs os (⟨[], 0⟩ : Sp V) with
  | ok r =>
    obtain ⟨as', t⟩ := r
    rw [hs] at h
    obtain ⟨s1, h1, h2⟩ := h
    rw [hr] at h1
    cases h1
    have hs' : s' = { s with arrs := s.arrs.set a (x.take 0) } := by
      simp only [exec, on, hx] at hc
      cases hc
      rfl
    obtain ⟨m, h3, h4⟩ := h2.finish
    have h5 := h2.cut hx 0
    rw [← hs'] at h5
    obtain ⟨m', h6, h7⟩ := h5.finish
    rw [hl] at h3
    rw [hl'] at h6
    cases h3
    cases h6
    have h8 : (cut t a 0 (x.map fun r => r.map s.val)).lost = t.lost + (ptrOf x).length := by
      show t.lost + elems _ = _
      rw [List.drop_zero, elems_map]
    have h9 : (ptrOf x).length = x.countP Option.isSome := by
      show (x.filterMap id).length = _
      rw [List.length_filterMap_eq_countP]
      rfl
    omega
  | ub => rw [hs] at h; simp only at h; rw [hr] at h; cases h
  | diverge => rw [hs] at h; simp only at h; rw [hr] at h; cases h

/-- C146, violated: after a `resize` to a larger size, `operator []` of a new place is undefined. -/
theorem C146_resize_undefined {s s' : St V} {a n : Nat} {x : List (Option Nat)} (hx : s.arrs[a]? = some x) (hr : exec s (.resize a n) = .ok (.unit, s'))
    {i : Nat} (h1 : x.length ≤ i) (_h2 : i < n) : exec s' (.get a i) = .ub ∧ ∀ v, exec s' (.set a i v) = .ub := by
  simp only [exec, on, hx] at hr
  cases hr
  have ha : a < s.arrs.length := by
    obtain ⟨h, _⟩ := List.getElem?_eq_some_iff.mp hx
    exact h
  have hg : (s.arrs.set a (resized n x))[a]? = some (resized n x) := by simp [ha]
  have hn : (resized n x)[i]? = some none := by
    unfold resized
    rw [if_neg (by omega), List.getElem?_append_right h1, List.getElem?_replicate, if_pos (by omega)]
  constructor
  · simp only [exec, on, hg, hn]
  · intro v
    simp only [exec, on, hg, hn]

/-- C146, violated: whatever the program has done before, a pointer that `at` gives, pushed onto an array, is deleted twice. -/
theorem C146_shared_deleted_twice (d : V) {os : List (Op V)} {as : List (Ans V)} {s s' : St V} (hr : run os (start d) = .ok (as, s)) {a b i p : Nat}
    {y : List (Option Nat)} (hy : s.arrs[b]? = some y) (hp : y[i]? = some (some p)) (hs : pushShared s a b i = .ok s') : finish s' = .ub := by
  have h := run_spec os (rel_start d)
  cases hsp : specs os (⟨[], 0⟩ : Sp V) with
  | ok r =>
    obtain ⟨as', t⟩ := r
    rw [hsp] at h
    obtain ⟨s1, h1, h2⟩ := h
    rw [hr] at h1
    cases h1
    cases hx : s.arrs[a]? with
    | none => simp only [pushShared, on, hy, hp, hx] at hs; cases hs
    | some x =>
      simp only [pushShared, on, hy, hp, hx] at hs
      cases hs
      refine destroy_twice _ _ p ?_
      have h3 := count_set p s.arrs a x (x ++ [some p]) hx
      have h4 : (ptrOf (x ++ [some p])).count p = (ptrOf x).count p + 1 := by
        rw [ptrOf_append, List.count_append]
        have : ptrOf [some p] = [p] := rfl
        rw [this]; simp
      have h5 := h2.once p
      have h6 := count_mem p s.arrs b y hy
      have h7 : 0 < (ptrOf y).count p := List.count_pos_iff.mpr (List.mem_filterMap.mpr ⟨some p, List.mem_of_getElem? hp, rfl⟩)
      show s.live.count p < (ptrOf (s.arrs.set a (x ++ [some p])).flatten).count p
      omega
  | ub => rw [hsp] at h; simp only at h; rw [hr] at h; cases h
  | diverge => rw [hsp] at h; simp only at h; rw [hr] at h; cases h

end Claims

/-! ### Examples -/

/-- A program with everything that keeps elements. -/
def prog : List (Op Nat) :=
  [.make, .push 0 5, .push 0 6, .make, .push 1 7, .swap 0 1, .move 1, .set 2 0 8, .get 2 0, .get 0 0, .at 2 1, .at 2 2, .size 1, .leave, .push 1 9]

/-- The answers of a program, and how many elements are leaked. -/
def outcome (os : List (Op Nat)) : Option (List (Ans Nat) × Nat) :=
  match run os (start 0) with
  | .ok (as, s) =>
    match finish s with
    | .ok l => some (as, l.length)
    | _ => none
  | _ => none

/-- C146: the answers and no leaks. -/
example : (∀ o ∈ prog, keeps o = true) ∧ outcome prog =
    some ([.unit, .unit, .unit, .unit, .unit, .unit, .unit, .unit, .elem 8, .elem 7, .null false, .threw, .num 0, .unit, .unit], 0) := by decide

/-- C146: three elements, one popped, and one removed by `resize`; the third is deleted. -/
example : outcome [.make, .push 0 1, .push 0 2, .push 0 3, .pop 0, .resize 0 1] = some ([.unit, .unit, .unit, .unit, .unit, .unit], 2) := by decide

/-- C146: `clear` leaks. -/
example : outcome [.make, .push 0 1, .push 0 2, .clear 0] = some ([.unit, .unit, .unit, .unit], 2) ∧
    outcome [.make, .push 0 1, .push 0 2] = some ([.unit, .unit, .unit], 0) := by decide

/-- C146: a place that `resize` has made. -/
example : outcome [.make, .push 0 1, .resize 0 2, .at 0 1] = some ([.unit, .unit, .unit, .null true], 0) ∧
    outcome [.make, .push 0 1, .resize 0 2, .get 0 1] = none := by decide

/-- C146: one element, two pointers. -/
example : (match run [.make, .push 0 1] (start 0) with
    | .ok (_, s) =>
      match pushShared s 0 0 0 with
      | .ok s' => (match finish s' with | .ub => true | _ => false)
      | _ => false
    | _ => false) = true := by decide

end Verif.ViewArray
