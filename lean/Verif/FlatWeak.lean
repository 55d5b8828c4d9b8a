/-
What still holds of `flat16_hash_map` after any `erase`, also after one that has cut the probe sequence of other keys: the
elements, their number, iteration, and every lookup that finds something.
-/
import Verif.FlatRun

namespace Verif.Flat
open Spec (Call Ans)

variable {K V : Type} {E : Env K} {sec : Nat → Nat}

/-- The invariant that every `erase` keeps. -/
structure Weak (E : Env K) (sec : Nat → Nat) (t : Map K V) : Prop extends Core E sec t where
  counted : 32 < cap t → Counted t
  rev_lo : 81920 ≤ t.rev
  rev_hi : t.rev ≤ 327680

/-- The outcomes of `find_and_prepare_insert`. -/
def PrepWeak (E : Env K) (sec : Nat → Nat) (mem : Mem) (t : Map K V) (k : K) : Out (Map K V) (Nat × Bool) → Prop
  | .ok t' (i, true) => Weak E sec t' ∧ (entries t').Perm (entries t) ∧ i < cap t' ∧ KeyAt E t' k i
  | .ok t' (i, false) => Core E sec t' ∧ i < cap t' ∧ t'.slot i = none ∧
      (32 < cap t' → (t'.left + (occ t' + (t'.ctrl i == bEmpty).toNat)) % W = thr t') ∧
      (entries t').Perm (entries t) ∧ t'.rev = t.rev
  | .throw t' => mem ≠ .noSlots → Weak E sec t' ∧ (entries t').Perm (entries t)
  | .diverge => False
  | .ub => reorders t = true

theorem Moved.weak {t t' : Map K V} {c : Nat} (ht : Weak E sec t) (h : Moved E sec t t' c) : Weak E sec t' :=
  ⟨h.inv.toCore, fun _ => h.counted, by rw [h.rev]; exact ht.rev_lo, by rw [h.rev]; exact ht.rev_hi⟩

theorem reorder_ub_weak {t : Map K V} (h : Weak E sec t) (hr : reorders t = true) {mem : Mem} :
    reorderOrGrow E sec mem t = .ub := by
  unfold reorderOrGrow
  rw [if_pos hr]
  unfold reorders at hr
  simp only [Bool.and_eq_true, decide_eq_true_eq] at hr
  rw [del_eq h.toCore (h.counted hr.1)] at hr
  have := h.occ_eq
  have := occ_le t
  exact dropDeleted_ub h.toCore (by omega) (by omega)

theorem prepare_weak (mem : Mem) (k : K) : ∀ (f j : Nat) (t : Map K V), Weak E sec t → cap t = 2 ^ j →
    49 ≤ f + j → PrepWeak E sec mem t k (prepare E sec mem k f t) := by
  intro f
  induction f with
  | zero =>
    intro j t h hj hf
    have := h.cap_le
    have := Robin.pow_two_le (a := 49) (b := j) (by omega)
    omega
  | succ f ih =>
    intro j t h hj hf
    have hgrow : PrepWeak E sec mem t k ((reorderOrGrow E sec mem t).bind fun t' _ => prepare E sec mem k f t') := by
      cases hre : reorders t with
      | true =>
        rw [reorder_ub_weak h hre]
        exact hre
      | false =>
        rcases grow_spec h.toCore hre mem hj with ⟨t1, h1, h2, h3⟩ | ⟨t1, h1, h2, h3⟩
        · rw [h1]
          have hsp := ih (j + 1) t1 (h3.weak h) h3.cap (by omega)
          show PrepWeak E sec mem t k (prepare E sec mem k f t1)
          generalize prepare E sec mem k f t1 = o at hsp
          match o, hsp with
          | .ok t2 (i, true), ⟨g1, g2, g3, g4⟩ => exact ⟨g1, g2.trans h3.perm, g3, g4⟩
          | .ok t2 (i, false), ⟨g1, g2, g3, g4, g5, g6⟩ => exact ⟨g1, g2, g3, g4, g5.trans h3.perm, g6.trans h3.rev⟩
          | .throw t2, g1 => exact fun hm => ⟨(g1 hm).1, (g1 hm).2.trans h3.perm⟩
          | .ub, hsp =>
            have := not_reorders h3.inv.toCore (fun _ => h3.counted) h3.dels
            simp only [PrepWeak] at hsp
            rw [this] at hsp; cases hsp
        · rw [h1]
          intro hm
          rcases h3 with rfl | h3
          · exact ⟨h, List.Perm.refl _⟩
          · exact absurd h3 hm
    unfold prepare
    obtain ⟨r, h1, h2⟩ := probe_spec h.toCore k
    rw [h1]
    simp only [lift]
    cases r with
    | hit i => exact ⟨h, List.Perm.refl _, h2⟩
    | full => exact hgrow
    | stop i =>
      simp only
      by_cases hl : t.left = 0
      · rw [if_pos hl]; exact hgrow
      · rw [if_neg hl]
        obtain ⟨jl, hjl, rfl, hne, hprev, _⟩ := h2
        have hd := delLoop_spec h.toCore k hjl hprev (cap t) 0 (by omega) (by have := h.windows_le; omega)
        rw [← h.home_eq] at hd
        rcases hd with ⟨i, h3, h4, h5⟩ | h3
        · rw [h3]
          exact ⟨h.toCore, h4.lt, h4.free, fun hc => by rw [h5]; exact h.counted hc, List.Perm.refl _, rfl⟩
        · rw [h3]
          simp only
          have hm : matchEmpty t (base E t k jl) ≠ 0 := fun hm => hne ((matchEmpty_zero _ _).mp hm)
          obtain ⟨h4, h5⟩ := bsf_matchTag hm
          obtain ⟨h6, h7⟩ := place_of h.toCore hjl h4 (Or.inl h5) hprev
          rw [h.and_mask]
          have hlw := h.left
          refine ⟨h.toCore.withLeft (by omega), h6.lt, h6.free, ?_, List.Perm.refl _, rfl⟩
          intro hc
          have h8 := h.counted hc
          have h9 : t.ctrl ((base E t k jl + bsf32 (matchEmpty t (base E t k jl))) % cap t) = bEmpty := h7.trans h5
          have h10 : (t.left - 1 + (occ t + 1)) % W = thr t := by
            rw [show t.left - 1 + (occ t + 1) = t.left + occ t by omega]; exact h8
          simp only [h9]
          exact h10

theorem counted_put {t : Map K V} {i : Nat} (hi : i < cap t)
    (hc : 32 < cap t → (t.left + (occ t + (t.ctrl i == bEmpty).toNat)) % W = thr t) (e : K × V) :
    32 < cap t → Counted (put E sec t i e) := by
  intro h32
  have h1 := hc h32
  have h2 := occ_put (E := E) (sec := sec) hi e
  have h3 : occ (put E sec t i e) = occ t + (t.ctrl i == bEmpty).toNat := by
    by_cases hb : t.ctrl i = bEmpty
    · rw [hb] at h2 ⊢
      simpa using h2
    · have h4 : (t.ctrl i == bEmpty) = false := by simpa using hb
      have h5 : (t.ctrl i != bEmpty) = true := by simpa using hb
      rw [h4]
      rw [h5] at h2
      simp only [Bool.toNat_true] at h2
      simp only [Bool.toNat_false]
      omega
  unfold Counted
  rw [h3]
  exact h1

theorem Weak.setVal {t : Map K V} (h : Weak E sec t) {i : Nat} (hi : i < cap t) {e : K × V} (he : t.slot i = some e) (v : V) :
    Weak E sec { t with slot := upd t.slot i (some (e.1, v)) } := by
  obtain ⟨A, B, h1, h2⟩ := entries_setVal hi he v
  refine ⟨⟨h.pow, h.gmask, ?_, h.mirror, ?_, ?_, h.left⟩, h.counted, h.rev_lo, h.rev_hi⟩
  · intro x hx
    show (∀ e', upd t.slot i (some (e.1, v)) x = some e' → t.ctrl x = tagOf E sec e'.1) ∧
      (upd t.slot i (some (e.1, v)) x = none → t.ctrl x = bEmpty ∨ t.ctrl x = bDeleted)
    by_cases hxi : x = i
    · subst hxi
      rw [upd_self]
      refine ⟨fun e' he' => ?_, fun hn => by cases hn⟩
      cases he'
      exact (h.cell x hx).1 e he
    · rw [upd_other _ _ hxi]
      exact h.cell x hx
  · intro x hx
    have hx' : cap t ≤ x := hx
    show upd t.slot i (some (e.1, v)) x = none
    rw [upd_other _ _ (by omega)]
    exact h.tail x hx'
  · rw [h2]
    have := h.size
    rw [h1] at this
    simp only [List.length_append, List.length_cons] at this ⊢
    exact this

/-- The outcomes of an insertion in terms of the elements. -/
def PutWeak (E : Env K) (sec : Nat → Nat) (update : Bool) (mem : Mem) (k : K) (v : V) (t : Map K V) :
    Out (Map K V) (Nat × Bool) → Prop
  | .ok t' (i, true) => Weak E sec t' ∧ t'.slot i = some (k, v) ∧ (entries t').Perm ((k, v) :: entries t)
  | .ok t' (i, false) => Weak E sec t' ∧ ∃ e l, E.eq e.1 k = true ∧ (entries t).Perm (e :: l) ∧
      (if update then t'.slot i = some (e.1, v) ∧ (entries t').Perm ((e.1, v) :: l)
       else t'.slot i = some e ∧ (entries t').Perm (e :: l))
  | .throw t' => mem ≠ .noSlots → Weak E sec t' ∧ (entries t').Perm (entries t)
  | .diverge => False
  | .ub => reorders t = true

theorem emplace_weak {t : Map K V} (h : Weak E sec t) (update : Bool) (mem : Mem) (k : K) (v : V) :
    PutWeak E sec update mem k v t (emplace E sec update mem true k v t) := by
  obtain ⟨j, h1, h2, h3⟩ := h.pow
  have hsp := prepare_weak mem k 64 j t h h3 (by omega)
  unfold emplace
  generalize prepare E sec mem k 64 t = o at hsp
  match o, hsp with
  | .ub, hsp => exact hsp
  | .throw t', g => exact g
  | .ok t' (i, true), ⟨g1, g2, g3, e, g4, g5⟩ =>
    simp only [Out.bind_ok, if_true, g4]
    obtain ⟨A, B, e1, e2⟩ := entries_setVal g3 g4 v
    have hp : (entries t).Perm (e :: (A ++ B)) := by
      refine g2.symm.trans ?_
      rw [e1]; exact List.perm_middle
    cases update with
    | false =>
      refine ⟨g1, e, A ++ B, g5, hp, ?_⟩
      simp only [Bool.false_eq_true, if_false]
      exact ⟨g4, g2.trans hp⟩
    | true =>
      refine ⟨g1.setVal g3 g4 v, e, A ++ B, g5, hp, ?_⟩
      simp only [if_true]
      refine ⟨upd_self _ _ _, ?_⟩
      rw [e2]; exact List.perm_middle
  | .ok t' (i, false), ⟨g1, g2, g3, g4, g5, g6⟩ =>
    simp only [Out.bind_ok, Bool.false_eq_true, if_false]
    rw [if_pos trivial]
    exact ⟨⟨g1.put (e := (k, v)) g2 g3, counted_put g2 g4 (k, v), (by show 81920 ≤ t'.rev; rw [g6]; exact h.rev_lo),
      (by show t'.rev ≤ 327680; rw [g6]; exact h.rev_hi)⟩,
      upd_self _ _ _, (entries_put g2 g3 (k, v)).trans (g5.cons _)⟩

/-- `erase(key)`: it removes one element with the key, or nothing. -/
theorem eraseKey_weak {t : Map K V} (h : Weak E sec t) (k : K) :
    (∃ t' e, eraseKey E sec k t = .ok t' 1 ∧ Weak E sec t' ∧ E.eq e.1 k = true ∧ (entries t).Perm (e :: entries t')) ∨
    eraseKey E sec k t = .ok t 0 := by
  unfold eraseKey
  obtain ⟨r, h1, h2⟩ := findIdx_core h.toCore k
  rw [h1]
  cases r with
  | none => exact Or.inr rfl
  | some i =>
    left
    obtain ⟨hi, e, he, heq⟩ := h2 i rfl
    simp only [lift]
    rw [eraseSlot_eq h.toCore hi he]
    simp only
    refine ⟨_, e, rfl, ?_, heq, ?_⟩
    · split
      · exact ⟨h.toCore.drop hi he (Or.inr rfl) h.left, fun hc => (Counted.drop h.toCore (h.counted hc) hi he).1, h.rev_lo, h.rev_hi⟩
      · exact ⟨h.toCore.drop hi he (Or.inl rfl) (Nat.mod_lt _ (by decide)),
          fun hc => (Counted.drop h.toCore (h.counted hc) hi he).2, h.rev_lo, h.rev_hi⟩
    · split <;> exact entries_drop hi he _ _

/-! ### Histories -/

/-- What a bag of elements with contents `b` may answer: nothing is said about a lookup that finds nothing. -/
def BagAccepts (eq : K → K → Bool) (b : List (K × V)) : Call K V → Ans K V → List (K × V) → Prop
  | .insert k v, .elem e new, b' =>
    if new then e = (k, v) ∧ b'.Perm ((k, v) :: b) else e ∈ b ∧ eq e.1 k = true ∧ b'.Perm b
  | .assign k v, .elem e new, b' =>
    if new then e = (k, v) ∧ b'.Perm ((k, v) :: b)
    else ∃ e0 l, eq e0.1 k = true ∧ b.Perm (e0 :: l) ∧ e = (e0.1, v) ∧ b'.Perm ((e0.1, v) :: l)
  | .find k, .found o, b' => b'.Perm b ∧ ∀ e, o = some e → e ∈ b ∧ eq e.1 k = true
  | .contains k, .bool a, b' => b'.Perm b ∧ (a = true → ∃ e ∈ b, eq e.1 k = true)
  | .erase k, .num n, b' => (n = 1 ∧ ∃ e, eq e.1 k = true ∧ b.Perm (e :: b')) ∨ (n = 0 ∧ b'.Perm b)
  | .size, .num n, b' => b'.Perm b ∧ n = b.length
  | .empty, .bool a, b' => b'.Perm b ∧ (a = true ↔ b = [])
  | .iterate, .items l, b' => b'.Perm b ∧ l.Perm b
  | .rehash _, .unit, b' => b'.Perm b
  | .shrink _, .unit, b' => b'.Perm b
  | _, .threw, b' => b'.Perm b
  | _, _, _ => False

/-- A whole history. -/
def BagAcceptsAll (eq : K → K → Bool) : List (K × V) → List (Call K V) → List (Ans K V) → List (K × V) → Prop
  | b, [], [], b' => b'.Perm b
  | b, c :: cs, a :: as, b' => ∃ b1, BagAccepts eq b c a b1 ∧ BagAcceptsAll eq b1 cs as b'
  | _, _, _, _ => False

/-- The calls considered: insertions unless they reorder the table, lookups, any `erase`, `rehash` with room. -/
def BagSafe (t : Map K V) : Call K V → Prop
  | .insert _ _ | .assign _ _ => reorders t = false
  | .find _ | .contains _ | .erase _ | .size | .empty | .iterate => True
  | .rehash n => RoomFor t.size n
  | .shrink ro => t.size < 2 ^ 44 ∧ (ro = true → NotPow t.size)
  | _ => False

def BagGuarded (E : Env K) (sec : Nat → Nat) (rv : Nat → Nat) : List (Mem × Call K V) → Map K V → Prop
  | [], _ => True
  | (mem, c) :: cs, t => mem ≠ .noSlots ∧ BagSafe t c ∧
      (∀ t' a, exec E sec rv mem c t = .ok t' a → BagGuarded E sec rv cs t') ∧
      (∀ t', exec E sec rv mem c t = .throw t' → BagGuarded E sec rv cs t')

def BagStep (E : Env K) (sec : Nat → Nat) (t : Map K V) (c : Call K V) : Out (Map K V) (Ans K V) → Prop
  | .ok t' a => Weak E sec t' ∧ BagAccepts E.eq (entries t) c a (entries t')
  | .throw t' => Weak E sec t' ∧ (entries t').Perm (entries t)
  | .diverge => False
  | .ub => False

theorem rehash_weak {t : Map K V} (h : Weak E sec t) {n : Nat} (h1 : t.size ≤ n) (h2 : n ≤ 2 ^ 63)
    (h3 : NotPow t.size ∨ t.size < n) {mem : Mem} (hmem : mem ≠ .noSlots) {c : Call K V}
    (hc : ∀ b b' : List (K × V), b'.Perm b → BagAccepts E.eq b c .unit b') :
    BagStep E sec t c ((rehashImpl E sec true false mem n t).bind fun t' _ => .ok t' .unit) := by
  have hs := rehashImpl_spec h.toCore true false mem n (fun c hc => lt_of_calc hc h1 h3)
  generalize rehashImpl E sec true false mem n t = o at hs
  match o, hs with
  | .ub, hs =>
    have hs' : calcCapacity n = .ub := hs
    rw [calcCapacity_eq] at hs'
    have := Robin.calcCapacity_ub hs'
    exact absurd h2 (by omega)
  | .throw t', ⟨_, g2⟩ =>
    rcases g2 with rfl | g2
    · exact ⟨h, List.Perm.refl _⟩
    · exact absurd g2 hmem
  | .ok t' u, ⟨cap', _, g2⟩ =>
    simp only [Out.bind_ok]
    rcases g2 with ⟨_, g3⟩ | ⟨rfl, _, _⟩
    · exact ⟨g3.weak h, hc _ _ g3.perm⟩
    · exact ⟨h, hc _ _ (List.Perm.refl _)⟩

theorem bag_step {rv : Nat → Nat} {t : Map K V} (h : Weak E sec t) {mem : Mem} (hmem : mem ≠ .noSlots) {c : Call K V}
    (hs : BagSafe t c) : BagStep E sec t c (exec E sec rv mem c t) := by
  have hsz : t.size ≤ 2 ^ 48 := Nat.le_trans h.size_le h.cap_le
  have hfind : ∀ k, ∃ r, findIdx E sec t k = .ok r ∧ ∀ i, r = some i → ∃ e, t.slot i = some e ∧ e ∈ entries t ∧ E.eq e.1 k = true := by
    intro k
    obtain ⟨r, h1, h2⟩ := findIdx_core h.toCore k
    refine ⟨r, h1, fun i hi => ?_⟩
    obtain ⟨h3, e, h4, h5⟩ := h2 i hi
    exact ⟨e, h4, mem_entries.mpr ⟨i, h3, h4⟩, h5⟩
  cases c with
  | insert k v =>
    have := emplace_weak h false mem k v
    have hs' : reorders t = false := hs
    simp only [exec]
    generalize emplace E sec false mem true k v t = o at this
    match o, this with
    | .ub, hu => have hu' : reorders t = true := hu; rw [hs'] at hu'; cases hu'
    | .throw t', hu => exact hu hmem
    | .ok t' (i, true), ⟨h1, h2, h3⟩ =>
      simp only [Out.bind_ok, readElem, h2]
      refine ⟨h1, ?_⟩
      simp only [BagAccepts, if_true]
      exact ⟨trivial, h3⟩
    | .ok t' (i, false), ⟨h1, e, l, h2, h3, h4⟩ =>
      simp only [Bool.false_eq_true, if_false] at h4
      simp only [Out.bind_ok, readElem, h4.1]
      refine ⟨h1, ?_⟩
      simp only [BagAccepts, Bool.false_eq_true, if_false]
      exact ⟨h3.mem_iff.mpr (by simp), h2, h4.2.trans h3.symm⟩
  | assign k v =>
    have := emplace_weak h true mem k v
    have hs' : reorders t = false := hs
    simp only [exec]
    generalize emplace E sec true mem true k v t = o at this
    match o, this with
    | .ub, hu => have hu' : reorders t = true := hu; rw [hs'] at hu'; cases hu'
    | .throw t', hu => exact hu hmem
    | .ok t' (i, true), ⟨h1, h2, h3⟩ =>
      simp only [Out.bind_ok, readElem, h2]
      refine ⟨h1, ?_⟩
      simp only [BagAccepts, if_true]
      exact ⟨trivial, h3⟩
    | .ok t' (i, false), ⟨h1, e, l, h2, h3, h4⟩ =>
      simp only [if_true] at h4
      simp only [Out.bind_ok, readElem, h4.1]
      refine ⟨h1, ?_⟩
      simp only [BagAccepts, Bool.false_eq_true, if_false]
      exact ⟨e, l, h2, h3, rfl, h4.2⟩
  | find k =>
    obtain ⟨r, h1, h2⟩ := hfind k
    simp only [exec, lookup]
    rw [h1]
    cases r with
    | none => exact ⟨h, List.Perm.refl _, fun e he => by cases he⟩
    | some i =>
      obtain ⟨e, h3, h4, h5⟩ := h2 i rfl
      simp only [Res.bind_ok, h3]
      exact ⟨h, List.Perm.refl _, fun e' he => by cases he; exact ⟨h4, h5⟩⟩
  | contains k =>
    obtain ⟨r, h1, h2⟩ := hfind k
    simp only [exec, contains]
    rw [h1]
    cases r with
    | none => exact ⟨h, List.Perm.refl _, fun he => by cases he⟩
    | some i =>
      obtain ⟨e, h3, h4, h5⟩ := h2 i rfl
      exact ⟨h, List.Perm.refl _, fun _ => ⟨e, h4, h5⟩⟩
  | erase k =>
    simp only [exec]
    rcases eraseKey_weak h k with ⟨t', e, h1, h2, h3, h4⟩ | h1
    · rw [h1]
      exact ⟨h2, Or.inl ⟨rfl, e, h3, h4⟩⟩
    · rw [h1]
      exact ⟨h, Or.inr ⟨rfl, List.Perm.refl _⟩⟩
  | size => exact ⟨h, List.Perm.refl _, h.size⟩
  | empty =>
    refine ⟨h, List.Perm.refl _, ?_⟩
    rw [beq_iff_eq, h.size, List.length_eq_zero_iff]
  | iterate =>
    simp only [exec]
    rw [walk_spec h.toCore]
    exact ⟨h, List.Perm.refl _, List.Perm.refl _⟩
  | rehash n =>
    have hr : RoomFor t.size n := hs
    have h4 := minRequire_le t n
    refine rehash_weak h (Nat.le_max_right _ _) ?_ ?_ hmem (fun _ _ hp => hp)
    · show max (minRequire t n) t.size ≤ 2 ^ 63; omega
    · rcases hr with hr | ⟨h5, h6⟩
      · exact Or.inl hr
      · by_cases h7 : t.size < 4
        · exact Or.inl (Or.inl h7)
        · right
          have := minRequire_gt h.rev_lo h.rev_hi (n := n) (by omega) h6
          show t.size < max (minRequire t n) t.size; omega
  | shrink ro =>
    have hs' : t.size < 2 ^ 44 ∧ (ro = true → NotPow t.size) := hs
    simp only [exec, shrinkToFit]
    have h4 := minRequire_le t t.size
    have h5 : 4 ≤ t.size → t.size < minRequire t t.size := fun h' => minRequire_gt h.rev_lo h.rev_hi h' hs'.1
    cases ro with
    | true =>
      simp only [if_true]
      exact rehash_weak h (Nat.le_refl _) (by omega) (Or.inl (hs'.2 rfl)) hmem (fun _ _ hp => hp)
    | false =>
      simp only [Bool.false_eq_true, if_false]
      by_cases h6 : 4 ≤ t.size
      · exact rehash_weak h (Nat.le_of_lt (h5 h6)) (by omega) (Or.inr (h5 h6)) hmem (fun _ _ hp => hp)
      · have h7 : t.size ≤ minRequire t t.size := by
          unfold minRequire
          have h8 : t.size * t.rev ≤ 4 * 327680 := Nat.mul_le_mul (by omega) h.rev_hi
          have h9 : t.size * 81920 ≤ t.size * t.rev := Nat.mul_le_mul_left _ h.rev_lo
          rw [Nat.mod_eq_of_lt (by unfold W; omega)]
          omega
        exact rehash_weak h h7 (by omega) (Or.inl (Or.inl (by omega))) hmem (fun _ _ hp => hp)
  | index k d => exact hs.elim
  | count k => exact hs.elim
  | «at» k => exact hs.elim
  | clear d => exact hs.elim
  | reserve n => exact hs.elim
  | maxLoad x => exact hs.elim

theorem bag_run {rv : Nat → Nat} : ∀ (cs : List (Mem × Call K V)) (t : Map K V), Weak E sec t → BagGuarded E sec rv cs t →
    ∃ as t', run E sec rv cs t = .ok (as, t') ∧ Weak E sec t' ∧ BagAcceptsAll E.eq (entries t) (cs.map (·.2)) as (entries t') := by
  intro cs
  induction cs with
  | nil => intro t h _; exact ⟨[], t, rfl, h, List.Perm.refl _⟩
  | cons p cs ih =>
    intro t h hg
    obtain ⟨mem, c⟩ := p
    obtain ⟨h4, h5, h6, h7⟩ := hg
    have hstep := bag_step (rv := rv) h h4 h5
    unfold run
    generalize exec E sec rv mem c t = o at hstep h6 h7
    match o, hstep with
    | .ok t1 a, ⟨g1, g2⟩ =>
      obtain ⟨as, t', e1, e2, e3⟩ := ih t1 g1 (h6 t1 a rfl)
      refine ⟨a :: as, t', ?_, e2, _, g2, e3⟩
      simp only [e1, Res.bind_ok]
    | .throw t1, ⟨g1, g2⟩ =>
      obtain ⟨as, t', e1, e2, e3⟩ := ih t1 g1 (h7 t1 rfl)
      refine ⟨.threw :: as, t', ?_, e2, _, ?_, e3⟩
      · simp only [e1, Res.bind_ok]
      · cases c <;> exact g2

end Verif.Flat
