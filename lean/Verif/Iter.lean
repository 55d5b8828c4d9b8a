/-
Model of the iterators of both group tables and of the range-for loop over a table.

F15 = src/jstd/hashmap/flat_map_iterator15.hpp, F = src/jstd/hashmap/flat_map_iterator.hpp.
-/
import Verif.TableStep

namespace Verif

/-- `BitUtils::bsr32` (support/BitUtils.h:275-289): index of the highest set bit of a non-zero
argument. -/
def bsr32 (m : Nat) : Nat := Nat.log2 m

section Model
variable {K V : Type}

/-! #### group15: F15:401-628 (configuration `ITERATOR15_USE_LOCATOR == 0`) -/

/-- `flat_map_iterator15`: `ctrl_` and `slot_` (F15:434-435) as offsets from the start of the group array and the
slot array; `slot = none` is the null pointer.  The group array is 16-byte aligned, so the address
of a control byte modulo 16 is its offset modulo 16. -/
structure It15 where
  ctrl : Nat
  slot : Option Nat

/-- `operator ==` (F15:474-488) compares the slot pointers only. -/
def It15.eq (a b : It15) : Bool := a.slot == b.slot

/-- `end()` (T15:518-520): both pointers null. -/
def end15 : It15 := ⟨0, none⟩

/-- Second loop of `increment` (F15:567-583). -/
def inc15b (t : Table K V) : Nat → Nat → Nat → Res It15
  | 0, _, _ => .diverge
  | f + 1, c, s =>
    if t.readable (c / 16) then
      let m := G15.matchUsed (t.grp (c / 16))
      if m ≠ 0 then
        if !G15.isSentinel (t.grp (c / 16)) (bsf32 m) then .ok ⟨c + bsf32 m, some (s + bsf32 m)⟩
        else .ok ⟨c, none⟩
      else inc15b t f (c + 16) (s + 15)
    else .ub

/-- First loop of `increment` (F15:550-565). -/
def inc15a (t : Table K V) : Nat → Nat → Nat → Res It15
  | 0, _, _ => .diverge
  | f + 1, c, s =>
    if c % 16 = 14 then inc15b t (t.gmask + 2) (c + 2) (s + 1)
    else if t.readable ((c + 1) / 16) then
      if G15.isEmpty (t.grp ((c + 1) / 16)) ((c + 1) % 16) then inc15a t f (c + 1) (s + 1)
      else if !G15.isSentinel (t.grp ((c + 1) / 16)) ((c + 1) % 16) then .ok ⟨c + 1, some (s + 1)⟩
      else .ok ⟨c + 1, none⟩
    else .ub

/-- `operator ++` (F15:490-494). -/
def inc15 (t : Table K V) (it : It15) : Res It15 :=
  match it.slot with
  | none => .ub
  | some s => inc15a t 16 it.ctrl s

/-- Second loop of `decrement` (F15:606-626); moving a pointer before the start of its array is undefined. -/
def dec15b (t : Table K V) : Nat → Nat → Nat → Res It15
  | 0, _, _ => .diverge
  | f + 1, c, s =>
    if t.readable (c / 16) then
      let m := G15.matchUsed (t.grp (c / 16))
      if m ≠ 0 then
        if !G15.isSentinel (t.grp (c / 16)) (bsr32 m) then
          if 14 - bsr32 m ≤ c ∧ 14 - bsr32 m ≤ s then .ok ⟨c - (14 - bsr32 m), some (s - (14 - bsr32 m))⟩
          else .ub
        else .ok ⟨c, none⟩
      else if 16 ≤ c ∧ 15 ≤ s then dec15b t f (c - 16) (s - 15) else .ub
    else .ub

/-- First loop of `decrement` (F15:588-604). -/
def dec15a (t : Table K V) : Nat → Nat → Nat → Res It15
  | 0, _, _ => .diverge
  | f + 1, c, s =>
    if s = 0 then .ub
    else if c % 16 = 0 then
      if 2 ≤ c then dec15b t (t.gmask + 2) (c - 2) (s - 1) else .ub
    else if t.readable ((c - 1) / 16) then
      if G15.isEmpty (t.grp ((c - 1) / 16)) ((c - 1) % 16) then dec15a t f (c - 1) (s - 1)
      else if !G15.isSentinel (t.grp ((c - 1) / 16)) ((c - 1) % 16) then .ok ⟨c - 1, some (s - 1)⟩
      else .ok ⟨c - 1, none⟩
    else .ub

/-- `operator --` (F15:503-507). -/
def dec15 (t : Table K V) (it : It15) : Res It15 :=
  match it.slot with
  | none => .ub
  | some s => dec15a t 16 it.ctrl s

/-- Loop of `find_first_used_index` (T15:1120-1133). -/
def first15 (t : Table K V) : Nat → Nat → Nat → Res It15
  | 0, _, _ => .diverge
  | f + 1, g, base =>
    if g < t.gmask + 1 then
      if t.readable g then
        let m := G15.matchUsed (t.grp g)
        if m ≠ 0 then
          if !G15.isSentinel (t.grp g) (bsf32 m) then .ok ⟨16 * g + bsf32 m, some (base + bsf32 m)⟩
          else .ok end15
        else first15 t f (g + 1) (base + 15)
      else .ub
    else .ok end15

/-- `begin()` (T15:513-516, 1115-1136). -/
def begin15 (t : Table K V) : Res It15 :=
  if t.size ≠ 0 then first15 t (t.gmask + 2) 0 0 else .ok end15

/-- The user's loop `for (it = begin(); it != end(); ++it) use(*it);`. -/
def walkLoop15 (t : Table K V) : Nat → It15 → Res (List (K × V))
  | 0, _ => .diverge
  | f + 1, it =>
    match it.slot with
    | none => .ok []
    | some s =>
      match t.slot s with
      | none => .ub
      | some e => (inc15 t it).bind fun it' => (walkLoop15 t f it').bind fun l => .ok (e :: l)

/-- Elements visited by the range-for loop, in order. -/
def walk15 (t : Table K V) : Res (List (K × V)) := (begin15 t).bind (walkLoop15 t (t.size + 1))

/-! #### group16: F:65-251 (`ITERATOR_USE_GROUP_SCAN == 0`), an iterator is an index -/

/-- `ctrl->is_empty()` for the control byte with index `i` (flat_map_group16.hpp:198-201).  The byte at
index `capacity` lies in the alignment padding of the allocation (T16:1910-1915 reserve
`kGroupAlignment` extra bytes): it may be read, its value `pad` is arbitrary. -/
def ctrlEmpty16 (pad : Bool) (t : Table K V) (i : Nat) : Bool :=
  if i < (t.gmask + 1) * 16 then (t.grp (i / 16) (i % 16)) % 128 == 0 else pad

/-- Loop of `operator ++` (F:158-163). -/
def inc16Loop (pad : Bool) (t : Table K V) (cap : Nat) : Nat → Nat → Res Nat
  | 0, _ => .diverge
  | f + 1, i =>
    if i < cap then
      if t.readable ((i + 1) / 16) || decide (i + 1 = cap) then
        if !ctrlEmpty16 pad t (i + 1) then .ok (i + 1) else inc16Loop pad t cap f (i + 1)
      else .ub
    else .ok i

/-- `operator ++` (F:147-168). -/
def inc16 (pad : Bool) (t : Table K V) (i : Nat) : Res Nat :=
  inc16Loop pad t (t.capacity layout16) (t.capacity layout16 + 1) i

/-- Loop of `operator --` (F:182-187). -/
def dec16Loop (pad : Bool) (t : Table K V) : Nat → Res Nat
  | 0 => .ok 0
  | i + 1 =>
    if t.readable (i / 16) then
      if !ctrlEmpty16 pad t i then .ok i else dec16Loop pad t i
    else .ub

/-- `operator --` (F:177-191). -/
def dec16 (pad : Bool) (t : Table K V) (i : Nat) : Res Nat := dec16Loop pad t i

/-- Loop of `find_first_used_index` (T16:1071-1078). -/
def first16 (t : Table K V) (cap : Nat) : Nat → Nat → Res Nat
  | 0, _ => .diverge
  | f + 1, i =>
    if i < cap then
      if t.readable (i / 16) then
        if !ctrlEmpty16 false t i then .ok i else first16 t cap f (i + 1)
      else .ub
    else .ok cap

/-- `begin()` (T16:500-503, 1053-1082). -/
def begin16 (t : Table K V) : Res Nat :=
  if t.size ≠ 0 then first16 t (t.capacity layout16) (t.capacity layout16 + 1) 0
  else .ok (t.capacity layout16)

/-- The user's loop `for (it = begin(); it != end(); ++it) use(*it);`; `end()` is the index
`slot_capacity()` (T16:505-507). -/
def walkLoop16 (pad : Bool) (t : Table K V) : Nat → Nat → Res (List (K × V))
  | 0, _ => .diverge
  | f + 1, i =>
    if i = t.capacity layout16 then .ok []
    else
      match t.slot i with
      | none => .ub
      | some e => (inc16 pad t i).bind fun i' => (walkLoop16 pad t f i').bind fun l => .ok (e :: l)

/-- Elements visited by the range-for loop, in order. -/
def walk16 (pad : Bool) (t : Table K V) : Res (List (K × V)) :=
  (begin16 t).bind (walkLoop16 pad t (t.size + 1))

/-- `erase(iterator)` (T16:958-963 with 1273-1278): erases the element and returns the iterator to the
next one. -/
def eraseIter16 (pad : Bool) (t : Table K V) (i : Nat) : Out (Table K V) Nat :=
  (eraseAt layout16 (i / 16) (i % 16) t).bind fun t' _ =>
    if !ctrlEmpty16 pad t' i then .ok t' i
    else
      match inc16 pad t' i with
      | .ok j => .ok t' j
      | .diverge => .diverge
      | .ub => .ub

end Model

/-! ### Correctness -/

section
variable {K V : Type} {E : Env K} {t : Table K V}

/-- `r` is the first occupied slot at or after `i`. -/
def NextIs (t : Table K V) (i : Nat) : Option Nat → Prop
  | some j => i ≤ j ∧ (t.slot j).isSome ∧ ∀ l, i ≤ l → l < j → t.slot l = none
  | none => ∀ l, i ≤ l → t.slot l = none

/-- Elements in slots `i`, `i+1`, ... -/
def entriesFrom (n : Nat) (t : Table K V) (i : Nat) : List (K × V) :=
  (List.range' i (n - i)).filterMap t.slot

theorem entriesFrom_none {n i : Nat} (h : NextIs t i none) : entriesFrom n t i = [] := by
  unfold entriesFrom
  rw [List.filterMap_eq_nil_iff]
  intro a ha
  exact h a (List.mem_range'_1.mp ha).1

theorem entriesFrom_step {n i : Nat} (hi : i < n) (h : t.slot i = none) :
    entriesFrom n t i = entriesFrom n t (i + 1) := by
  unfold entriesFrom
  rw [show n - i = (n - (i + 1)) + 1 by omega, List.range'_succ, List.filterMap_cons, h]

theorem entriesFrom_cons {n i : Nat} (hi : i < n) {e : K × V} (h : t.slot i = some e) :
    entriesFrom n t i = e :: entriesFrom n t (i + 1) := by
  unfold entriesFrom
  rw [show n - i = (n - (i + 1)) + 1 by omega, List.range'_succ, List.filterMap_cons, h]

theorem entriesFrom_some {n i j : Nat} (hj : j < n) (h : NextIs t i (some j)) {e : K × V}
    (he : t.slot j = some e) : entriesFrom n t i = e :: entriesFrom n t (j + 1) := by
  obtain ⟨h1, h2, h3⟩ := h
  obtain ⟨d, rfl⟩ : ∃ d, j = i + d := ⟨j - i, by omega⟩
  clear h1 h2
  induction d generalizing i with
  | zero => exact entriesFrom_cons hj he
  | succ d ih =>
    rw [entriesFrom_step (by omega) (h3 i (by omega) (by omega))]
    rw [show i + (d + 1) = (i + 1) + d by omega] at *
    exact ih hj he (fun l h4 h5 => h3 l (by omega) h5)

theorem NextIs.step {i : Nat} {r : Option Nat} (h : t.slot i = none) (hn : NextIs t (i + 1) r) : NextIs t i r := by
  cases r with
  | none =>
    intro l hl
    by_cases hq : l = i
    · rw [hq]; exact h
    · exact hn l (by omega)
  | some j =>
    obtain ⟨h1, h2, h3⟩ := hn
    refine ⟨by omega, h2, ?_⟩
    intro l hl hlj
    by_cases hq : l = i
    · rw [hq]; exact h
    · exact h3 l (by omega) hlj

theorem NextIs.skip {i j : Nat} {r : Option Nat} (hij : i ≤ j) (h : ∀ l, i ≤ l → l < j → t.slot l = none)
    (hn : NextIs t j r) : NextIs t i r := by
  obtain ⟨d, rfl⟩ : ∃ d, j = i + d := ⟨j - i, by omega⟩
  clear hij
  induction d generalizing i with
  | zero => exact hn
  | succ d ih =>
    refine NextIs.step (h i (by omega) (by omega)) (ih ?_ ?_)
    · intro l h1 h2; exact h l (by omega) (by omega)
    · rw [show i + 1 + d = i + (d + 1) by omega]; exact hn

theorem NextIs.unique {i : Nat} {r r' : Option Nat} (h : NextIs t i r) (h' : NextIs t i r') : r = r' := by
  cases r with
  | none =>
    cases r' with
    | none => rfl
    | some j => have := h j h'.1; have h2 := h'.2.1; rw [this] at h2; cases h2
  | some j =>
    cases r' with
    | none => have := h' j h.1; have h2 := h.2.1; rw [this] at h2; cases h2
    | some j' =>
      rcases Nat.lt_trichotomy j j' with hlt | heq | hgt
      · have := h'.2.2 j h.1 hlt; have h2 := h.2.1; rw [this] at h2; cases h2
      · rw [heq]
      · have := h.2.2 j' h'.1 hgt; have h2 := h'.2.1; rw [this] at h2; cases h2

/-! #### group15 -/

/-- The iterator to slot `i`. -/
def at15 (i : Nat) : It15 := ⟨16 * (i / 15) + i % 15, some i⟩

theorem at15_gp {g p : Nat} (hp : p < 15) : at15 (15 * g + p) = ⟨16 * g + p, some (15 * g + p)⟩ := by
  unfold at15
  rw [Nat.mul_add_div (by omega), Nat.mul_add_mod, Nat.div_eq_of_lt hp, Nat.mod_eq_of_lt hp]; rfl

/-- An iterator agreeing with a slot position (or the end). -/
def Denotes (it : It15) : Option Nat → Prop
  | some j => it = at15 j
  | none => it.slot = none

theorem cell15 (t : Table K V) {g p : Nat} (hp : p < 15) :
    cell laws15 t (15 * g + p) = G15.view (t.grp g) p := by
  have := cell_gp laws15 t (g := g) (p := p) hp
  rw [show g * layout15.S = 15 * g from Nat.mul_comm _ _] at this
  exact this

section
variable (hI : InvA laws15 E t)
include hI

theorem slot15_none_of_empty {g p : Nat} (hp : p < 15) (h : G15.view (t.grp g) p = .empty) : t.slot (15 * g + p) = none := by
  cases hs : t.slot (15 * g + p) with
  | none => rfl
  | some e =>
    have := hI.used _ e (hI.idx_lt hs) hs
    rw [cell15 t hp, h] at this; cases this

theorem slot15_some_of_used {g p : Nat} (hg : g ≤ t.gmask) (hp : p < 15) (h1 : (t.grp g) p ≠ 0) (h2 : (t.grp g) p ≠ 1) :
    (t.slot (15 * g + p)).isSome := by
  refine hI.isome _ ((t.grp g) p) ?_ ?_
  · show _ < (t.gmask + 1) * 15; omega
  · rw [cell15 t hp, G15.view_used_iff]; exact ⟨rfl, by omega⟩

theorem sent15_iff {g p : Nat} (hg : g ≤ t.gmask) (hp : p < 15) : (t.grp g) p = 1 ↔ g = t.gmask ∧ p = 14 := by
  have := hI.sent (15 * g + p) (by show _ < (t.gmask + 1) * 15; omega)
  rw [cell15 t hp, G15.view_sentinel_iff] at this
  rw [this]
  show (_ ∧ 15 * g + p + 1 = (t.gmask + 1) * 15) ↔ _
  simp only [laws15, Option.isSome_some, true_and]
  omega

theorem none_after_last {l : Nat} (hl : 15 * t.gmask + 14 ≤ l) : t.slot l = none := by
  by_cases hq : l = 15 * t.gmask + 14
  · have h1 := (sent15_iff hI (Nat.le_refl t.gmask) (show 14 < 15 by omega)).mpr ⟨rfl, rfl⟩
    cases hs : t.slot l with
    | none => rfl
    | some e =>
      have := hI.used _ e (hI.idx_lt hs) hs
      rw [hq, cell15 t (by omega), (G15.view_sentinel_iff _ _).mpr h1] at this; cases this
  · exact hI.oob l (by show (t.gmask + 1) * 15 ≤ l; omega)

theorem readable15 {g : Nat} (hg : g ≤ t.gmask) : t.readable g = true := by
  simp [Table.readable, hI.alloc, hg]

omit hI in
theorem matchUsed15_bsf {g : Nat} (h : G15.matchUsed (t.grp g) ≠ 0) :
    bsf32 (G15.matchUsed (t.grp g)) < 15 ∧ (t.grp g) (bsf32 (G15.matchUsed (t.grp g))) ≠ 0 ∧
    ∀ p, p < bsf32 (G15.matchUsed (t.grp g)) → G15.view (t.grp g) p = .empty := by
  have hlt : G15.matchUsed (t.grp g) < 2 ^ 15 := laws15.matchUsed_lt _
  have hs := bsf32_spec h (by omega)
  have h15 : bsf32 (G15.matchUsed (t.grp g)) < 15 := by
    by_contra hc
    have : (G15.matchUsed (t.grp g)).testBit (bsf32 (G15.matchUsed (t.grp g))) = false :=
      Nat.testBit_lt_two_pow (lt_of_lt_of_le hlt (Nat.pow_le_pow_right (by decide) (by omega)))
    rw [this] at hs; exact absurd hs.1 (by simp)
  have hv := (laws15.matchUsed_bit (t.grp g) _ h15).mp hs.1
  refine ⟨h15, fun h0 => hv ((G15.view_empty_iff _ _).mpr h0), ?_⟩
  intro p hp
  by_contra hc
  have := (laws15.matchUsed_bit (t.grp g) p (by show p < 15; omega)).mpr hc
  have := hs.2 p this
  omega

omit hI in
theorem matchUsed15_zero {g : Nat} (h : G15.matchUsed (t.grp g) = 0) {p : Nat} (hp : p < 15) :
    G15.view (t.grp g) p = .empty := by
  by_contra hc
  have : (G15.matchUsed (t.grp g)).testBit p = true := (laws15.matchUsed_bit (t.grp g) p hp).mpr hc
  rw [h] at this; simp at this

theorem inc15b_ok : ∀ (f g : Nat), g ≤ t.gmask → t.gmask - g < f →
    ∃ it r, inc15b t f (16 * g) (15 * g) = .ok it ∧ NextIs t (15 * g) r ∧ Denotes it r := by
  intro f
  induction f with
  | zero => intro g _ h; omega
  | succ f ih =>
    intro g hg hf
    unfold inc15b
    rw [show 16 * g / 16 = g by omega, if_pos (readable15 hI hg)]
    simp only
    by_cases hm : G15.matchUsed (t.grp g) = 0
    · have hlt : g < t.gmask := by
        by_contra hc
        have : g = t.gmask := by omega
        have h1 := (sent15_iff hI hg (show 14 < 15 by omega)).mpr ⟨this, rfl⟩
        have h2 := matchUsed15_zero hm (show 14 < 15 by omega)
        rw [G15.view_empty_iff] at h2; omega
      rw [if_neg (by simpa using hm)]
      obtain ⟨it, r, h1, h2, h3⟩ := ih (g + 1) (by omega) (by omega)
      refine ⟨it, r, ?_, ?_, h3⟩
      · rw [← h1, Nat.mul_add 15, Nat.mul_add 16]
      · refine NextIs.skip (j := 15 * (g + 1)) (by omega) ?_ h2
        intro l hl1 hl2
        have := slot15_none_of_empty hI (show l - 15 * g < 15 by omega)
          (matchUsed15_zero hm (by omega))
        rwa [show 15 * g + (l - 15 * g) = l by omega] at this
    · rw [if_pos hm]
      obtain ⟨hp, hne, hbelow⟩ := matchUsed15_bsf hm
      generalize bsf32 (G15.matchUsed (t.grp g)) = p at *
      have hskip : ∀ l, 15 * g ≤ l → l < 15 * g + p → t.slot l = none := by
        intro l hl1 hl2
        have := slot15_none_of_empty hI (show l - 15 * g < 15 by omega) (hbelow (l - 15 * g) (by omega))
        rwa [show 15 * g + (l - 15 * g) = l by omega] at this
      by_cases hse : (t.grp g) p = 1
      · have hq := (sent15_iff hI hg hp).mp hse
        refine ⟨⟨16 * g, none⟩, none, by simp [G15.isSentinel, hse], ?_, rfl⟩
        refine NextIs.skip (j := 15 * g + p) (by omega) hskip ?_
        intro l hl
        exact none_after_last hI (by omega)
      · refine ⟨_, some (15 * g + p), by simp [G15.isSentinel, hse], ?_, (at15_gp hp).symm⟩
        exact ⟨by omega, slot15_some_of_used hI hg hp hne hse, hskip⟩

theorem inc15a_ok : ∀ (f g p : Nat), g ≤ t.gmask → p < 15 → ¬(g = t.gmask ∧ p = 14) → 14 - p < f →
    ∃ it r, inc15a t f (16 * g + p) (15 * g + p) = .ok it ∧ NextIs t (15 * g + p + 1) r ∧ Denotes it r := by
  intro f
  induction f with
  | zero => intro g p _ _ _ h; omega
  | succ f ih =>
    intro g p hg hp hns hf
    unfold inc15a
    by_cases h14 : p = 14
    · rw [if_pos (by omega)]
      obtain ⟨it, r, h1, h2, h3⟩ := inc15b_ok hI (t.gmask + 2) (g + 1) (by omega) (by omega)
      refine ⟨it, r, ?_, ?_, h3⟩
      · rw [← h1]; congr 1 <;> omega
      · rw [show 15 * g + p + 1 = 15 * (g + 1) by omega]; exact h2
    · rw [if_neg (by omega), show (16 * g + p + 1) / 16 = g by omega, if_pos (readable15 hI hg),
        show (16 * g + p + 1) % 16 = p + 1 by omega]
      by_cases he : (t.grp g) (p + 1) = 0
      · rw [if_pos (by simp [G15.isEmpty, he])]
        have hnone := slot15_none_of_empty hI (show p + 1 < 15 by omega) ((G15.view_empty_iff _ _).mpr he)
        have hns' : ¬(g = t.gmask ∧ p + 1 = 14) := by
          intro hc
          have := (sent15_iff hI hg (show p + 1 < 15 by omega)).mpr hc
          omega
        obtain ⟨it, r, h1, h2, h3⟩ := ih g (p + 1) hg (by omega) hns' (by omega)
        exact ⟨it, r, h1, NextIs.step hnone h2, h3⟩
      · rw [if_neg (by simpa [G15.isEmpty] using he)]
        by_cases hse : (t.grp g) (p + 1) = 1
        · have hq := (sent15_iff hI hg (show p + 1 < 15 by omega)).mp hse
          refine ⟨⟨16 * g + p + 1, none⟩, none, by simp [G15.isSentinel, hse], ?_, rfl⟩
          intro l hl
          exact none_after_last hI (by omega)
        · refine ⟨_, some (15 * g + (p + 1)), by simp [G15.isSentinel, hse]; omega, ?_,
            (at15_gp (show p + 1 < 15 by omega)).symm⟩
          exact ⟨by omega, slot15_some_of_used hI hg (by omega) he hse, fun l h1 h2 => by omega⟩

/-- `++it` moves to the next occupied slot, or to `end()` when there is none. -/
theorem inc15_ok {i : Nat} (hi : (t.slot i).isSome) :
    ∃ it r, inc15 t (at15 i) = .ok it ∧ NextIs t (i + 1) r ∧ Denotes it r := by
  obtain ⟨e, he⟩ := Option.isSome_iff_exists.mp hi
  have hlt : i < (t.gmask + 1) * 15 := hI.idx_lt he
  have hg : i / 15 ≤ t.gmask := by omega
  have hns : ¬(i / 15 = t.gmask ∧ i % 15 = 14) := by
    intro hc
    have := none_after_last hI (l := i) (by omega)
    rw [this] at he; cases he
  obtain ⟨it, r, h1, h2, h3⟩ := inc15a_ok hI 16 (i / 15) (i % 15) hg (by omega) hns (by omega)
  refine ⟨it, r, ?_, ?_, h3⟩
  · rw [← h1]
    show inc15a t 16 (16 * (i / 15) + i % 15) i = _
    congr 1; omega
  · rwa [show 15 * (i / 15) + i % 15 + 1 = i + 1 by omega] at h2

theorem first15_ok : ∀ (f g : Nat), g ≤ t.gmask → t.gmask - g < f →
    ∃ it r, first15 t f g (15 * g) = .ok it ∧ NextIs t (15 * g) r ∧ Denotes it r := by
  intro f
  induction f with
  | zero => intro g _ h; omega
  | succ f ih =>
    intro g hg hf
    unfold first15
    rw [if_pos (by omega), if_pos (readable15 hI hg)]
    simp only
    by_cases hm : G15.matchUsed (t.grp g) = 0
    · have hlt : g < t.gmask := by
        by_contra hc
        have : g = t.gmask := by omega
        have h1 := (sent15_iff hI hg (show 14 < 15 by omega)).mpr ⟨this, rfl⟩
        have h2 := matchUsed15_zero hm (show 14 < 15 by omega)
        rw [G15.view_empty_iff] at h2; omega
      rw [if_neg (by simpa using hm)]
      obtain ⟨it, r, h1, h2, h3⟩ := ih (g + 1) (by omega) (by omega)
      refine ⟨it, r, ?_, ?_, h3⟩
      · rw [← h1, Nat.mul_add 15]
      · refine NextIs.skip (j := 15 * (g + 1)) (by omega) ?_ h2
        intro l hl1 hl2
        have := slot15_none_of_empty hI (show l - 15 * g < 15 by omega)
          (matchUsed15_zero hm (by omega))
        rwa [show 15 * g + (l - 15 * g) = l by omega] at this
    · rw [if_pos hm]
      obtain ⟨hp, hne, hbelow⟩ := matchUsed15_bsf hm
      generalize bsf32 (G15.matchUsed (t.grp g)) = p at *
      have hskip : ∀ l, 15 * g ≤ l → l < 15 * g + p → t.slot l = none := by
        intro l hl1 hl2
        have := slot15_none_of_empty hI (show l - 15 * g < 15 by omega) (hbelow (l - 15 * g) (by omega))
        rwa [show 15 * g + (l - 15 * g) = l by omega] at this
      by_cases hse : (t.grp g) p = 1
      · have hq := (sent15_iff hI hg hp).mp hse
        refine ⟨end15, none, by simp [G15.isSentinel, hse], ?_, rfl⟩
        refine NextIs.skip (j := 15 * g + p) (by omega) hskip ?_
        intro l hl
        exact none_after_last hI (by omega)
      · refine ⟨_, some (15 * g + p), by simp [G15.isSentinel, hse], ?_, (at15_gp hp).symm⟩
        exact ⟨by omega, slot15_some_of_used hI hg hp hne hse, hskip⟩

theorem walkLoop15_ok : ∀ (f : Nat) (it : It15) (i : Nat) (r : Option Nat), Denotes it r → NextIs t i r →
    (entriesFrom ((t.gmask + 1) * 15) t i).length < f →
    walkLoop15 t f it = .ok (entriesFrom ((t.gmask + 1) * 15) t i) := by
  intro f
  induction f with
  | zero => intro it i r _ _ h; omega
  | succ f ih =>
    intro it i r hd hn hf
    unfold walkLoop15
    cases r with
    | none =>
      rw [show it.slot = none from hd, entriesFrom_none hn]
    | some j =>
      have hd : it = at15 j := hd
      subst hd
      obtain ⟨e, he⟩ := Option.isSome_iff_exists.mp hn.2.1
      have hlt : j < (t.gmask + 1) * 15 := hI.idx_lt he
      rw [entriesFrom_some hlt hn he] at hf ⊢
      rw [List.length_cons] at hf
      obtain ⟨it', r', h1, h2, h3⟩ := inc15_ok hI hn.2.1
      simp only [at15] at h1 ⊢
      simp only [he, h1, Res.bind_ok]
      rw [ih it' (j + 1) r' h3 h2 (by omega)]
      rfl

end

/-- The range-for loop over a group15 table visits exactly the stored elements, once each. -/
theorem walk15_eq (hI : Inv laws15 E t) : walk15 t = .ok (entries layout15 t) := by
  unfold walk15 begin15
  have hsz := hI.size_eq
  by_cases h0 : t.size = 0
  · have hnil : entries layout15 t = [] := List.length_eq_zero_iff.mp (by omega)
    rw [if_neg (by simpa using h0), hnil]
    simp only [Res.bind_ok]
    rfl
  · rw [if_pos h0]
    have hA : InvA laws15 E t := by
      rcases hI.st with h1 | h1
      · exfalso; apply h0; rw [h1]; rfl
      · exact h1
    obtain ⟨it, r, h1, h2, h3⟩ := first15_ok hA (t.gmask + 2) 0 (by omega) (by omega)
    rw [h1]
    simp only [Res.bind_ok]
    have he : entriesFrom ((t.gmask + 1) * 15) t 0 = entries layout15 t := by
      unfold entriesFrom entries
      rw [Nat.sub_zero, ← List.range_eq_range']; rfl
    rw [walkLoop15_ok hA (t.size + 1) it 0 r h3 h2 (by rw [he]; omega), he]

/-! Decrement. -/

/-- `j` is the last occupied slot before `i`. -/
def PrevIs (t : Table K V) (i j : Nat) : Prop :=
  j < i ∧ (t.slot j).isSome ∧ ∀ l, j < l → l < i → t.slot l = none

theorem bsr32_spec {m : Nat} (h : m ≠ 0) :
    m.testBit (bsr32 m) = true ∧ ∀ i, m.testBit i = true → i ≤ bsr32 m := by
  unfold bsr32
  refine ⟨Nat.testBit_log2 h, ?_⟩
  intro i hi
  by_contra hc
  have h1 : m < 2 ^ (m.log2 + 1) := Nat.lt_log2_self
  have h2 : m < 2 ^ i := lt_of_lt_of_le h1 (Nat.pow_le_pow_right (by decide) (by omega))
  rw [Nat.testBit_lt_two_pow h2] at hi; cases hi

theorem matchUsed15_bsr {g : Nat} (h : G15.matchUsed (t.grp g) ≠ 0) :
    bsr32 (G15.matchUsed (t.grp g)) < 15 ∧ (t.grp g) (bsr32 (G15.matchUsed (t.grp g))) ≠ 0 ∧
    ∀ p, p < 15 → bsr32 (G15.matchUsed (t.grp g)) < p → G15.view (t.grp g) p = .empty := by
  have hlt : G15.matchUsed (t.grp g) < 2 ^ 15 := laws15.matchUsed_lt _
  have hs := bsr32_spec h
  have h15 : bsr32 (G15.matchUsed (t.grp g)) < 15 := by
    by_contra hc
    have : (G15.matchUsed (t.grp g)).testBit (bsr32 (G15.matchUsed (t.grp g))) = false :=
      Nat.testBit_lt_two_pow (lt_of_lt_of_le hlt (Nat.pow_le_pow_right (by decide) (by omega)))
    rw [this] at hs; exact absurd hs.1 (by simp)
  have hv := (laws15.matchUsed_bit (t.grp g) _ h15).mp hs.1
  refine ⟨h15, fun h0 => hv ((G15.view_empty_iff _ _).mpr h0), ?_⟩
  intro p hp15 hp
  by_contra hc
  have := (laws15.matchUsed_bit (t.grp g) p hp15).mpr hc
  have := hs.2 p this
  omega

section
variable (hI : InvA laws15 E t)
include hI

/-- The occupied slot `j` has the control byte `used`. -/
theorem used15 {j : Nat} (h : (t.slot j).isSome) :
    j / 15 ≤ t.gmask ∧ (t.grp (j / 15)) (j % 15) ≠ 0 ∧ (t.grp (j / 15)) (j % 15) ≠ 1 := by
  obtain ⟨e, he⟩ := Option.isSome_iff_exists.mp h
  have hlt : j < (t.gmask + 1) * 15 := hI.idx_lt he
  have hu := hI.used j e hlt he
  rw [show j = 15 * (j / 15) + j % 15 by omega, cell15 t (by omega), G15.view_used_iff] at hu
  refine ⟨by omega, ?_, ?_⟩ <;> omega

theorem dec15b_ok {j i : Nat} (hP : PrevIs t i j) : ∀ (f g : Nat), g < t.gmask → 15 * g + 15 ≤ i → j < 15 * g + 15 →
    g < f → dec15b t f (16 * g + 14) (15 * g + 14) = .ok (at15 j) := by
  intro f
  induction f with
  | zero => intro g _ _ _ h; omega
  | succ f ih =>
    intro g hg hgi hj hf
    unfold dec15b
    rw [show (16 * g + 14) / 16 = g by omega, if_pos (readable15 hI (by omega))]
    simp only
    obtain ⟨u1, u2, u3⟩ := used15 hI hP.2.1
    by_cases hm : G15.matchUsed (t.grp g) = 0
    · have hjg : j < 15 * g := by
        by_contra hc
        have hq : j / 15 = g := by omega
        have := matchUsed15_zero hm (p := j % 15) (by omega)
        rw [G15.view_empty_iff] at this
        rw [hq] at u2; exact u2 this
      rw [if_neg (by simpa using hm), if_pos (by omega)]
      have := ih (g - 1) (by omega) (by omega) (by omega) (by omega)
      rw [← this]; congr 1 <;> omega
    · rw [if_pos hm]
      obtain ⟨hp, hne, habove⟩ := matchUsed15_bsr hm
      generalize bsr32 (G15.matchUsed (t.grp g)) = p at *
      have hse : (t.grp g) p ≠ 1 := by
        intro hc
        have := (sent15_iff hI (by omega) hp).mp hc
        omega
      rw [if_pos (by simp [G15.isSentinel, hse]), if_pos (by omega)]
      have hsome := slot15_some_of_used hI (by omega) hp hne hse
      have hjp : j = 15 * g + p := by
        rcases Nat.lt_trichotomy j (15 * g + p) with h1 | h1 | h1
        · have := hP.2.2 (15 * g + p) h1 (by omega)
          rw [this] at hsome; cases hsome
        · exact h1
        · exfalso
          have hq : j / 15 = g := by omega
          have := habove (j % 15) (by omega) (by omega)
          rw [G15.view_empty_iff] at this
          rw [hq] at u2; exact u2 this
      rw [hjp, at15_gp hp]
      rw [show 16 * g + 14 - (14 - p) = 16 * g + p by omega, show 15 * g + 14 - (14 - p) = 15 * g + p by omega]

theorem dec15a_ok {j i : Nat} (hP : PrevIs t i j) : ∀ (f g p : Nat), g ≤ t.gmask → p < 15 →
    15 * g + p ≤ i → j < 15 * g + p → p < f →
    dec15a t f (16 * g + p) (15 * g + p) = .ok (at15 j) := by
  intro f
  induction f with
  | zero => intro g p _ _ _ _ h; omega
  | succ f ih =>
    intro g p hg hp hgi hj hf
    unfold dec15a
    obtain ⟨u1, u2, u3⟩ := used15 hI hP.2.1
    rw [if_neg (by omega)]
    by_cases h0 : p = 0
    · rw [if_pos (by omega), if_pos (by omega)]
      have := dec15b_ok hI hP (t.gmask + 2) (g - 1) (by omega) (by omega) (by omega) (by omega)
      rw [← this]; congr 1 <;> omega
    · rw [if_neg (by omega), show (16 * g + p - 1) / 16 = g by omega, if_pos (readable15 hI hg),
        show (16 * g + p - 1) % 16 = p - 1 by omega]
      by_cases he : (t.grp g) (p - 1) = 0
      · rw [if_pos (by simp [G15.isEmpty, he])]
        have hjne : j ≠ 15 * g + (p - 1) := by
          rintro rfl
          have e1 : (15 * g + (p - 1)) / 15 = g := by omega
          have e2 : (15 * g + (p - 1)) % 15 = p - 1 := by omega
          rw [e1, e2] at u2; exact u2 he
        have := ih g (p - 1) hg (by omega) (by omega) (by omega) (by omega)
        rw [← this]; congr 1 <;> omega
      · rw [if_neg (by simpa [G15.isEmpty] using he)]
        have hse : (t.grp g) (p - 1) ≠ 1 := by
          intro hc
          have := (sent15_iff hI hg (show p - 1 < 15 by omega)).mp hc
          omega
        rw [if_pos (by simp [G15.isSentinel, hse])]
        have hsome := slot15_some_of_used hI hg (show p - 1 < 15 by omega) he hse
        have hjp : j = 15 * g + (p - 1) := by
          by_contra hc
          have := hP.2.2 (15 * g + (p - 1)) (by omega) (by omega)
          rw [this] at hsome; cases hsome
        rw [hjp, at15_gp (by omega)]
        rw [show 16 * g + p - 1 = 16 * g + (p - 1) by omega, show 15 * g + p - 1 = 15 * g + (p - 1) by omega]

/-- `--it` moves to the previous occupied slot whenever there is one. -/
theorem dec15_ok {i j : Nat} (hi : (t.slot i).isSome) (hP : PrevIs t i j) : dec15 t (at15 i) = .ok (at15 j) := by
  obtain ⟨u1, _, _⟩ := used15 hI hi
  have := dec15a_ok hI hP 16 (i / 15) (i % 15) u1 (by omega) (by omega) (by have := hP.1; omega) (by omega)
  rw [← this]
  show dec15a t 16 (16 * (i / 15) + i % 15) i = _
  congr 1; omega

end

/-! #### group16 -/

section
variable (hI : InvA laws16 E t)
include hI

theorem cap16 : t.capacity layout16 = (t.gmask + 1) * 16 := by
  unfold Table.capacity; rw [if_pos hI.alloc]; rfl

theorem ctrlEmpty16_iff (pad : Bool) {i : Nat} (hi : i < (t.gmask + 1) * 16) :
    ctrlEmpty16 pad t i = true ↔ t.slot i = none := by
  unfold ctrlEmpty16
  rw [if_pos hi, beq_iff_eq, ← G16.view_empty_iff]
  have hc : cell laws16 t i = G16.view (t.grp (i / 16)) (i % 16) := rfl
  rw [← hc]
  constructor
  · intro h
    cases hs : t.slot i with
    | none => rfl
    | some e => have := hI.used i e hi hs; rw [h] at this; cases this
  · intro h
    cases hq : cell laws16 t i with
    | empty => rfl
    | sentinel => exact absurd hq (G16.view_sentinel_iff _ _)
    | used x => have := hI.isome i x hi hq; rw [h] at this; cases this

theorem readable16 {g : Nat} (hg : g ≤ t.gmask) : t.readable g = true := by
  simp [Table.readable, hI.alloc, hg]

/-- The index meant by "next occupied slot or end". -/
def idx16 (t : Table K V) : Option Nat → Nat
  | some j => j
  | none => t.capacity layout16

theorem nextIs16_end : NextIs t ((t.gmask + 1) * 16) none := fun l hl => hI.oob l hl

theorem inc16Loop_ok (pad : Bool) : ∀ (f i : Nat), i < (t.gmask + 1) * 16 → (t.gmask + 1) * 16 - i < f →
    ∃ r, inc16Loop pad t (t.capacity layout16) f i = .ok (idx16 t r) ∧ NextIs t (i + 1) r := by
  intro f
  induction f with
  | zero => intro i _ h; omega
  | succ f ih =>
    intro i hi hf
    unfold inc16Loop
    have hcap := cap16 hI
    rw [if_pos (by omega)]
    by_cases hlast : i + 1 = (t.gmask + 1) * 16
    · rw [if_pos (by simp [hcap, hlast])]
      refine ⟨none, ?_, by rw [hlast]; exact nextIs16_end hI⟩
      show _ = Res.ok (t.capacity layout16)
      by_cases hp : ctrlEmpty16 pad t (i + 1) = true
      · rw [if_neg (by simp [hp])]
        cases f with
        | zero => omega
        | succ f =>
          unfold inc16Loop
          rw [if_neg (by omega), hlast, hcap]
      · rw [if_pos (by simpa using hp), hlast, hcap]
    · rw [if_pos (by simp [readable16 hI (show (i + 1) / 16 ≤ t.gmask by omega)])]
      have hiff := ctrlEmpty16_iff hI pad (show i + 1 < (t.gmask + 1) * 16 by omega)
      by_cases he : t.slot (i + 1) = none
      · rw [if_neg (by simp [hiff.mpr he])]
        obtain ⟨r, h1, h2⟩ := ih (i + 1) (by omega) (by omega)
        exact ⟨r, h1, NextIs.step he h2⟩
      · have : ctrlEmpty16 pad t (i + 1) = false := by
          cases hq : ctrlEmpty16 pad t (i + 1) with
          | false => rfl
          | true => exact absurd (hiff.mp hq) he
        rw [if_pos (by simp [this])]
        refine ⟨some (i + 1), rfl, Nat.le_refl _, ?_, fun l h1 h2 => by omega⟩
        exact Option.isSome_iff_ne_none.mpr he

theorem inc16_ok (pad : Bool) {i : Nat} (hi : i < (t.gmask + 1) * 16) :
    ∃ r, inc16 pad t i = .ok (idx16 t r) ∧ NextIs t (i + 1) r := by
  have hcap := cap16 hI
  exact inc16Loop_ok hI pad _ i hi (by omega)

theorem first16_ok : ∀ (f i : Nat), i ≤ (t.gmask + 1) * 16 → (t.gmask + 1) * 16 - i < f →
    ∃ r, first16 t (t.capacity layout16) f i = .ok (idx16 t r) ∧ NextIs t i r := by
  intro f
  induction f with
  | zero => intro i _ h; omega
  | succ f ih =>
    intro i hi hf
    unfold first16
    have hcap := cap16 hI
    by_cases hlast : i = (t.gmask + 1) * 16
    · rw [if_neg (by omega)]
      exact ⟨none, rfl, by rw [hlast]; exact nextIs16_end hI⟩
    · rw [if_pos (by omega), if_pos (readable16 hI (show i / 16 ≤ t.gmask by omega))]
      have hiff := ctrlEmpty16_iff hI false (show i < (t.gmask + 1) * 16 by omega)
      by_cases he : t.slot i = none
      · rw [if_neg (by simp [hiff.mpr he])]
        obtain ⟨r, h1, h2⟩ := ih (i + 1) (by omega) (by omega)
        exact ⟨r, h1, NextIs.step he h2⟩
      · have : ctrlEmpty16 false t i = false := by
          cases hq : ctrlEmpty16 false t i with
          | false => rfl
          | true => exact absurd (hiff.mp hq) he
        rw [if_pos (by simp [this])]
        refine ⟨some i, rfl, Nat.le_refl _, ?_, fun l h1 h2 => by omega⟩
        exact Option.isSome_iff_ne_none.mpr he

theorem walkLoop16_ok (pad : Bool) : ∀ (f i : Nat) (r : Option Nat), NextIs t i r →
    (entriesFrom ((t.gmask + 1) * 16) t i).length < f →
    walkLoop16 pad t f (idx16 t r) = .ok (entriesFrom ((t.gmask + 1) * 16) t i) := by
  intro f
  induction f with
  | zero => intro i r _ h; omega
  | succ f ih =>
    intro i r hn hf
    unfold walkLoop16
    have hcap := cap16 hI
    cases r with
    | none =>
      rw [if_pos (show idx16 t none = t.capacity layout16 from rfl), entriesFrom_none hn]
    | some j =>
      obtain ⟨e, he⟩ := Option.isSome_iff_exists.mp hn.2.1
      have hlt : j < (t.gmask + 1) * 16 := hI.idx_lt he
      show (if j = _ then _ else _) = _
      rw [if_neg (by omega)]
      rw [entriesFrom_some hlt hn he] at hf ⊢
      rw [List.length_cons] at hf
      obtain ⟨r', h1, h2⟩ := inc16_ok hI pad hlt
      simp only [idx16, he, h1, Res.bind_ok]
      have := ih (j + 1) r' h2 (by omega)
      simp only [idx16] at this
      rw [this]; rfl

theorem dec16_ok (pad : Bool) {j : Nat} : ∀ {i : Nat}, i ≤ (t.gmask + 1) * 16 → PrevIs t i j → dec16 pad t i = .ok j := by
  intro i
  induction i with
  | zero => intro _ h; have := h.1; omega
  | succ i ih =>
    intro hi hP
    unfold dec16 dec16Loop
    rw [if_pos (readable16 hI (show i / 16 ≤ t.gmask by omega))]
    have hiff := ctrlEmpty16_iff hI pad (show i < (t.gmask + 1) * 16 by omega)
    by_cases hij : j = i
    · subst hij
      have : ctrlEmpty16 pad t j = false := by
        cases hq : ctrlEmpty16 pad t j with
        | false => rfl
        | true => have := hiff.mp hq; have h2 := hP.2.1; rw [this] at h2; cases h2
      rw [if_pos (by simp [this])]
    · have h1 := hP.1
      rw [if_neg (by simp [hiff.mpr (hP.2.2 i (by omega) (by omega))])]
      exact ih (by omega) ⟨by omega, hP.2.1, fun l h2 h3 => hP.2.2 l h2 (by omega)⟩

end

/-- The range-for loop over a group16 table visits exactly the stored elements, once each. -/
theorem walk16_eq (hI : Inv laws16 E t) (pad : Bool) : walk16 pad t = .ok (entries layout16 t) := by
  unfold walk16 begin16
  have hsz := hI.size_eq
  by_cases h0 : t.size = 0
  · have hnil : entries layout16 t = [] := List.length_eq_zero_iff.mp (by omega)
    rw [if_neg (by simpa using h0), hnil]
    simp only [Res.bind_ok]
    unfold walkLoop16
    rw [if_pos rfl]
  · rw [if_pos h0]
    have hA : InvA laws16 E t := by
      rcases hI.st with h1 | h1
      · exfalso; apply h0; rw [h1]; rfl
      · exact h1
    have hcap := cap16 hA
    obtain ⟨r, h1, h2⟩ := first16_ok hA (t.capacity layout16 + 1) 0 (by omega) (by omega)
    rw [h1]
    simp only [Res.bind_ok]
    have he : entriesFrom ((t.gmask + 1) * 16) t 0 = entries layout16 t := by
      unfold entriesFrom entries
      rw [Nat.sub_zero, ← List.range_eq_range']; rfl
    rw [walkLoop16_ok hA pad (t.size + 1) 0 r h2 (by rw [he]; omega), he]

end
end Verif
