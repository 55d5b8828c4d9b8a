/-
`emplace` and `erase` on the model of `flat16_hash_map`: what they do to the elements, the invariants, and when they leave
defined behaviour.
-/
import Verif.FlatOps
import Mathlib.Data.List.Nodup
import Mathlib.Data.List.Perm.Subperm

namespace Verif.Flat
open Spec (Distinct)

variable {K V : Type} {E : Env K} {sec : Nat → Nat}

/-! ### Absent keys -/

/-- No element has the key. -/
def Absent (E : Env K) (t : Map K V) (k : K) : Prop := ∀ e ∈ entries t, E.eq e.1 k = false

theorem absent_iff {t : Map K V} {k : K} : Absent E t k ↔ ∀ x, x < cap t → ¬ KeyAt E t k x := by
  constructor
  · rintro h x hx ⟨e, hs, heq⟩
    have := h e (mem_entries.mpr ⟨x, hx, hs⟩)
    rw [heq] at this; cases this
  · intro h e he
    obtain ⟨x, hx, hs⟩ := mem_entries.mp he
    cases hq : E.eq e.1 k with
    | false => rfl
    | true => exact absurd ⟨e, hs, hq⟩ (h x hx)

theorem Absent.perm {t t' : Map K V} {k : K} (h : Absent E t k) (hp : (entries t').Perm (entries t)) : Absent E t' k :=
  fun e he => h e (hp.mem_iff.mp he)

/-! ### The counters -/

theorem Core.occ_lt {t : Map K V} (h : Core E sec t) : occ t < W := by
  have h1 := h.cap_le
  have h2 := occ_le t
  have h3 : 2 ^ 48 < W := by unfold W; omega
  exact Nat.lt_of_le_of_lt (Nat.le_trans h2 h1) h3

theorem mod_sub_of_add {a b c : Nat} (ha : a < W) (hb : b < W) (h : (a + b) % W = c) : (c + W - a % W) % W = b := by
  unfold W at *
  omega

theorem used_eq {t : Map K V} (h : Core E sec t) (hc : Counted t) : usedCount t = occ t :=
  mod_sub_of_add h.left h.occ_lt hc

theorem del_eq {t : Map K V} (h : Core E sec t) (hc : Counted t) : delCount t = dels t := by
  unfold delCount
  rw [used_eq h hc, h.occ_eq]
  have := h.occ_lt
  have h2 := h.occ_eq
  have h3 := h.size_lt
  rw [Nat.mod_eq_of_lt h3, show t.size + dels t + W - t.size = dels t + W by omega, Nat.add_mod_right, Nat.mod_eq_of_lt (by omega)]

theorem not_reorders {t : Map K V} (h : Core E sec t) (hc : 32 < cap t → Counted t) (hd : dels t = 0) : reorders t = false := by
  unfold reorders
  by_cases h1 : 32 < cap t
  · rw [del_eq h (hc h1), hd]
    have : ¬ cap t / 8 ≤ 0 := by omega
    simp [this]
  · simp [h1]

/-! ### Reordering in place -/

theorem convertAll_byte {t : Map K V} (h : Core E sec t) (h16 : 16 ≤ cap t) {i : Nat} (hi : i < cap t) :
    (convertAll t).ctrl i = if (t.slot i).isSome then bDeleted else bEmpty := by
  unfold convertAll
  simp only
  have hg : (t.gmask + 1) * 16 = cap t := by
    rw [h.gmask]
    rcases h.cap_cases with hc | hc | ⟨m, hm, hc⟩ <;> omega
  rw [if_neg (by omega), hg, if_pos hi]
  have := h.used_iff hi
  by_cases hs : (t.slot i).isSome = true
  · rw [if_pos hs, if_neg (by have := this.mpr hs; omega)]
  · rw [if_neg hs, if_pos]
    by_contra hc
    exact hs (this.mp (by omega))

theorem dropLoop_ub {t : Map K V} (h : Core E sec t) (h16 : 16 ≤ cap t) {i0 : Nat} (hi0 : i0 < cap t) (hn : t.slot i0 = none) :
    ∀ f i, i ≤ i0 → i0 < f + i → dropLoop E sec f i (convertAll t) = .ub := by
  intro f
  induction f with
  | zero => intro i h1 h2; omega
  | succ f ih =>
    intro i h1 h2
    unfold dropLoop
    have hcap : cap (convertAll t) = cap t := rfl
    have hslot : (convertAll t).slot = t.slot := rfl
    rw [hcap, if_pos (by omega), convertAll_byte h h16 (by omega)]
    cases hs : t.slot i with
    | none => simp [hslot, hs, bEmpty, bDeleted]
    | some e =>
      simp only [Option.isSome_some, if_true]
      have : i ≠ i0 := by rintro rfl; rw [hs] at hn; cases hn
      exact ih (i + 1) (by omega) (by omega)

/-- Reordering in place reads a slot without an element whenever there is one. -/
theorem dropDeleted_ub {t : Map K V} (h : Core E sec t) (h16 : 16 ≤ cap t) (hs : t.size < cap t) : dropDeleted E sec t = .ub := by
  have hex : ∃ i, i < cap t ∧ t.slot i = none := by
    by_contra hc
    have h1 : (List.range (cap t)).countP (fun i => (t.slot i).isSome) = (List.range (cap t)).length := by
      rw [List.countP_eq_length]
      intro i hi
      cases hq : t.slot i with
      | none => exact absurd ⟨i, List.mem_range.mp hi, hq⟩ hc
      | some e => rfl
    rw [countP_isSome, List.length_range] at h1
    have := h.size
    unfold entries at this
    omega
  obtain ⟨i0, h1, h2⟩ := hex
  unfold dropDeleted
  rw [dropLoop_ub h h16 h1 h2 _ 0 (by omega) (by omega)]

theorem reorder_ub {t : Map K V} (h : Inv E sec t) (hr : reorders t = true) {mem : Mem} : reorderOrGrow E sec mem t = .ub := by
  unfold reorderOrGrow
  rw [if_pos hr]
  unfold reorders at hr
  simp only [Bool.and_eq_true, decide_eq_true_eq] at hr
  rw [del_eq h.toCore (h.counted hr.1)] at hr
  have := h.occ_eq
  have := occ_le t
  exact dropDeleted_ub h.toCore (by omega) (by omega)

/-! ### Deleted bytes on the probe sequence -/

theorem delLoop_spec {t : Map K V} (h : Core E sec t) (k : K) {jl : Nat} (hjl : jl < windows t)
    (hprev : ∀ j', j' < jl → NoEmpty t (base E t k j')) : ∀ (f j : Nat), j ≤ jl → windows t ≤ f + j →
    (∃ i, delLoop t (home E t k) (base E t k jl) f (base E t k j) = .ok (some i) ∧ Place E t k i ∧ t.ctrl i = bDeleted) ∨
    delLoop t (home E t k) (base E t k jl) f (base E t k j) = .ok none := by
  intro f
  induction f with
  | zero => intro j h1 h2; omega
  | succ f ih =>
    intro j hj hf
    unfold delLoop
    rw [if_pos (h.readable (h.base_lt k j))]
    by_cases hm : matchDeleted t (base E t k j) = 0
    · rw [if_neg (by simpa using hm)]
      by_cases h1 : base E t k j = base E t k jl
      · rw [if_pos h1]; exact Or.inr rfl
      · rw [if_neg h1]
        split
        · exact Or.inr rfl
        · rw [h.nextGroup_base]
          have : j ≠ jl := by rintro rfl; exact h1 rfl
          exact ih (j + 1) (by omega) (by omega)
    · rw [if_pos (by simpa using hm), h.and_mask]
      obtain ⟨h1, h2⟩ := bsf_matchTag hm
      obtain ⟨h3, h4⟩ := place_of h (by omega) h1 (Or.inr h2) (fun j' hj' => hprev j' (by omega))
      exact Or.inl ⟨_, rfl, h3, h4.trans h2⟩

/-! ### Preparing an insertion -/

/-- A table with a place for the new key. -/
structure Ready (E : Env K) (sec : Nat → Nat) (t : Map K V) (k : K) (i : Nat) : Prop where
  inv : Inv0 E sec t
  place : Place E t k i
  counted : 32 < cap t → (t.left + (occ t + (t.ctrl i == bEmpty).toNat)) % W = thr t

/-- The outcomes of `find_and_prepare_insert`. -/
def PrepOk (E : Env K) (sec : Nat → Nat) (mem : Mem) (t : Map K V) (k : K) : Out (Map K V) (Nat × Bool) → Prop
  | .ok t' (i, true) => t' = t ∧ i < cap t ∧ KeyAt E t k i
  | .ok t' (i, false) => Absent E t k ∧ Ready E sec t' k i ∧ (entries t').Perm (entries t) ∧ t'.mlf = t.mlf ∧ t'.rev = t.rev ∧
      cap t ≤ cap t' ∧ (dels t = 0 → dels t' = 0)
  | .throw t' => Absent E t k ∧ (mem ≠ .ok ∨ memLimit < 2 * cap t') ∧
      (mem ≠ .noSlots → Inv E sec t' ∧ (entries t').Perm (entries t) ∧ t'.mlf = t.mlf ∧ t'.rev = t.rev ∧ cap t ≤ cap t' ∧
        (dels t = 0 → dels t' = 0))
  | .diverge => False
  | .ub => reorders t = true ∧ Absent E t k

theorem grow_spec {t : Map K V} (h : Core E sec t) (hr : reorders t = false) (mem : Mem) {j : Nat}
    (hj : cap t = 2 ^ j) : (∃ t', reorderOrGrow E sec mem t = .ok t' () ∧ j + 1 ≤ 48 ∧ Moved E sec t t' (2 ^ (j + 1))) ∨
      (∃ t', reorderOrGrow E sec mem t = .throw t' ∧ (mem ≠ .ok ∨ memLimit < 2 * cap t') ∧ (t' = t ∨ mem = .noSlots)) := by
  have h2 : 2 ≤ j := by
    by_contra hc
    have := h.cap_ge
    have := Robin.pow_two_le (a := j) (b := 1) (by omega)
    omega
  have hW : cap t * 2 % W = 2 ^ (j + 1) := by
    rw [Nat.mod_eq_of_lt, hj, Nat.pow_succ]
    have := h.cap_le
    unfold W; omega
  have hcalc : calcCapacity (2 ^ (j + 1)) = .ok (2 ^ (j + 1)) := by
    rw [calcCapacity_eq]; exact Robin.calcCapacity_pow (by omega)
  unfold reorderOrGrow
  rw [hr, hW]
  simp only [Bool.false_eq_true, if_false]
  have hsp := rehashImpl_spec h false true mem (2 ^ (j + 1)) (by
    intro c hc
    rw [hcalc] at hc
    cases hc
    have := h.size_le
    rw [Nat.pow_succ, ← hj]
    have := h.cap_ge
    omega)
  generalize rehashImpl E sec false true mem (2 ^ (j + 1)) t = o at hsp
  cases o with
  | diverge => exact hsp.elim
  | ub => simp only [RehashOk] at hsp; rw [hcalc] at hsp; cases hsp
  | ok t' u =>
    obtain ⟨c, hc, hsp⟩ := hsp
    rw [hcalc] at hc
    cases hc
    rcases hsp with ⟨h3, h4⟩ | ⟨_, h3, _⟩
    · left
      refine ⟨t', rfl, ?_, h4⟩
      by_contra hc
      have := Robin.pow_two_le (a := 49) (b := j + 1) (by omega)
      unfold memLimit at h3
      omega
    · cases h3
  | throw t' =>
    obtain ⟨⟨c, hc, h3⟩, h4⟩ := hsp
    rw [hcalc] at hc
    cases hc
    right
    refine ⟨t', rfl, ?_, h4⟩
    rcases h3 with h3 | h3
    · exact Or.inl h3
    · rcases h4 with rfl | h4
      · right; rw [hj]; rw [Nat.pow_succ] at h3; omega
      · left; rw [h4]; decide

theorem Moved.toInv (hE : E.Lawful) {t t' : Map K V} {c : Nat} (hd : Distinct E.eq (entries t)) (h : Moved E sec t t' c) : Inv E sec t' :=
  ⟨⟨h.inv, hd.perm hE h.perm.symm⟩, fun _ => h.counted⟩

theorem Moved.dels {t t' : Map K V} {c : Nat} (h : Moved E sec t t' c) : dels t' = 0 := by
  have := h.inv.occ_eq
  have := h.clean
  omega

theorem not_counted_zero {t : Map K V} {k : K} {i : Nat} (hi : t.ctrl i = bDeleted) (h : Inv E sec t) (hp : Place E t k i) :
    Ready E sec t k i :=
  ⟨h.toInv0, hp, fun hc => by rw [hi]; exact h.counted hc⟩

theorem prepare_spec (hE : E.Lawful) (mem : Mem) (k : K) : ∀ (f j : Nat) (t : Map K V), Inv E sec t → cap t = 2 ^ j →
    49 ≤ f + j → PrepOk E sec mem t k (prepare E sec mem k f t) := by
  intro f
  induction f with
  | zero =>
    intro j t h hj hf
    have := h.cap_le
    have := Robin.pow_two_le (a := 49) (b := j) (by omega)
    omega
  | succ f ih =>
    intro j t h hj hf
    -- what a growth does
    have hgrow : Absent E t k → PrepOk E sec mem t k ((reorderOrGrow E sec mem t).bind fun t' _ => prepare E sec mem k f t') := by
      intro ha
      cases hre : reorders t with
      | true =>
        rw [reorder_ub h hre]
        exact ⟨hre, ha⟩
      | false =>
        rcases grow_spec h.toCore hre mem hj with ⟨t1, h1, h2, h3⟩ | ⟨t1, h1, h2, h3⟩
        · rw [h1]
          have hsp := ih (j + 1) t1 (h3.toInv hE h.distinct) h3.cap (by omega)
          have hcap : cap t ≤ cap t1 := by rw [h3.cap, hj]; exact Robin.pow_two_le (by omega)
          show PrepOk E sec mem t k (prepare E sec mem k f t1)
          generalize prepare E sec mem k f t1 = o at hsp
          match o, hsp with
          | .ok t2 (i, true), hsp =>
            exact absurd hsp.2.2 (absent_iff.mp (ha.perm h3.perm) i hsp.2.1)
          | .ok t2 (i, false), ⟨g1, g2, g3, g4, g5, g6, g7⟩ =>
            exact ⟨ha, g2, g3.trans h3.perm, g4.trans h3.mlf, g5.trans h3.rev, Nat.le_trans hcap g6, fun _ => g7 h3.dels⟩
          | .throw t2, ⟨g1, g2, g3⟩ =>
            refine ⟨ha, g2, fun hm => ?_⟩
            obtain ⟨g4, g5, g6, g7, g8, g9⟩ := g3 hm
            exact ⟨g4, g5.trans h3.perm, g6.trans h3.mlf, g7.trans h3.rev, Nat.le_trans hcap g8, fun _ => g9 h3.dels⟩
          | .ub, hsp =>
            have := not_reorders h3.inv.toCore (fun _ => h3.counted) h3.dels
            simp only [PrepOk] at hsp
            rw [this] at hsp; cases hsp.1
        · rw [h1]
          refine ⟨ha, h2, fun hm => ?_⟩
          rcases h3 with rfl | h3
          · exact ⟨h, List.Perm.refl _, rfl, rfl, Nat.le_refl _, id⟩
          · exact absurd h3 hm
    unfold prepare
    obtain ⟨r, h1, h2⟩ := probe_spec h.toCore k
    rw [h1]
    simp only [lift]
    cases r with
    | hit i => exact ⟨rfl, h2.1, h2.2⟩
    | full => exact hgrow (absent_iff.mpr (absent_of_probe h.toCore h.reach hE h2 (by intro j; simp)))
    | stop i =>
      have ha := absent_iff.mpr (absent_of_probe h.toCore h.reach hE h2 (by intro j; simp))
      simp only
      by_cases hl : t.left = 0
      · rw [if_pos hl]; exact hgrow ha
      · rw [if_neg hl]
        obtain ⟨jl, hjl, rfl, hne, hprev, _⟩ := h2
        have hd := delLoop_spec h.toCore k hjl hprev (cap t) 0 (by omega) (by have := h.windows_le; omega)
        rw [← h.home_eq] at hd
        rcases hd with ⟨i, h3, h4, h5⟩ | h3
        · rw [h3]
          exact ⟨ha, not_counted_zero h5 h h4, List.Perm.refl _, rfl, rfl, Nat.le_refl _, id⟩
        · rw [h3]
          simp only
          have hm : matchEmpty t (base E t k jl) ≠ 0 := fun hm => hne ((matchEmpty_zero _ _).mp hm)
          obtain ⟨h4, h5⟩ := bsf_matchTag hm
          obtain ⟨h6, h7⟩ := place_of h.toCore hjl h4 (Or.inl h5) hprev
          rw [h.and_mask]
          have hlw := h.left
          refine ⟨ha, ⟨h.toInv0.withLeft (by omega), ⟨h6.lt, h6.free, h6.front⟩, ?_⟩, List.Perm.refl _, rfl, rfl, Nat.le_refl _, id⟩
          intro hc
          have h8 := h.counted hc
          have h9 : t.ctrl ((base E t k jl + bsf32 (matchEmpty t (base E t k jl))) % cap t) = bEmpty := h7.trans h5
          have h10 : (t.left - 1 + (occ t + 1)) % W = thr t := by
            rw [show t.left - 1 + (occ t + 1) = t.left + occ t by omega]; exact h8
          simp only [h9]
          exact h10

/-! ### `emplace` -/

theorem entries_setVal {t : Map K V} {i : Nat} (hi : i < cap t) {e : K × V} (he : t.slot i = some e) (v : V) :
    ∃ A B, entries t = A ++ e :: B ∧ entries { t with slot := upd t.slot i (some (e.1, v)) } = A ++ (e.1, v) :: B := by
  obtain ⟨A, B, hAB⟩ := filterMap_range_upd hi t.slot
  refine ⟨A, B, ?_, ?_⟩
  · have h1 := hAB (t.slot i)
    rw [he] at h1
    have h2 : upd t.slot i (some e) = t.slot := by
      funext x
      by_cases hx : x = i
      · subst hx; rw [upd_self, he]
      · rw [upd_other _ _ hx]
    rw [h2] at h1
    unfold entries
    rw [h1]; simp
  · have h1 := hAB (some (e.1, v))
    show (List.range (cap t)).filterMap (upd t.slot i (some (e.1, v))) = _
    rw [h1]; simp

theorem Inv.setVal {t : Map K V} (h : Inv E sec t) {i : Nat} (hi : i < cap t) {e : K × V} (he : t.slot i = some e) (v : V) :
    Inv E sec { t with slot := upd t.slot i (some (e.1, v)) } := by
  obtain ⟨A, B, h1, h2⟩ := entries_setVal hi he v
  have hslot : ∀ x e', upd t.slot i (some (e.1, v)) x = some e' → ∃ e0, t.slot x = some e0 ∧ e0.1 = e'.1 := by
    intro x e' hx
    by_cases hxi : x = i
    · subst hxi
      rw [upd_self] at hx
      cases hx
      exact ⟨e, he, rfl⟩
    · rw [upd_other _ _ hxi] at hx
      exact ⟨e', hx, rfl⟩
  have hcore : Core E sec { t with slot := upd t.slot i (some (e.1, v)) } := by
    refine ⟨h.pow, h.gmask, ?_, h.mirror, ?_, ?_, h.left⟩
    · intro x hx
      refine ⟨?_, ?_⟩
      · intro e' he'
        obtain ⟨e0, h3, h4⟩ := hslot x e' he'
        rw [← h4]
        exact (h.cell x hx).1 e0 h3
      · intro hn
        have hn' : upd t.slot i (some (e.1, v)) x = none := hn
        by_cases hxi : x = i
        · subst hxi; rw [upd_self] at hn'; cases hn'
        · rw [upd_other _ _ hxi] at hn'
          exact (h.cell x hx).2 hn'
    · intro x hx
      have hx' : cap t ≤ x := hx
      show upd t.slot i (some (e.1, v)) x = none
      rw [upd_other _ _ (by omega)]
      exact h.tail x hx'
    · rw [h2]
      have := h.size
      rw [h1] at this
      simp only [List.length_append, List.length_cons] at this ⊢
      exact this
  refine ⟨⟨⟨hcore, ?_⟩, ?_⟩, h.counted⟩
  · intro x e' hx he' j hj
    obtain ⟨e0, h3, h4⟩ := hslot x e' he'
    rw [← h4] at hj ⊢
    exact h.reach x e0 hx h3 j hj
  · rw [h2]
    have hd := h.distinct
    rw [h1] at hd
    unfold Distinct at hd ⊢
    rw [List.pairwise_append, List.pairwise_cons] at hd ⊢
    refine ⟨hd.1, hd.2.1, ?_⟩
    intro a ha b hb
    rcases List.mem_cons.mp hb with rfl | hb
    · exact hd.2.2 a ha e (by simp)
    · exact hd.2.2 a ha b (by simp [hb])

theorem Ready.put_inv {t : Map K V} {k : K} {i : Nat} (h : Ready E sec t k i) (hE : E.Lawful) (ha : Absent E t k) (v : V) :
    Inv E sec (put E sec t i (k, v)) := by
  refine ⟨h.inv.put hE (e := (k, v)) h.place (absent_iff.mp ha), ?_⟩
  intro hc
  have h1 := h.counted hc
  have h2 := occ_put (E := E) (sec := sec) h.place.lt (k, v)
  have h3 : occ (put E sec t i (k, v)) = occ t + (t.ctrl i == bEmpty).toNat := by
    by_cases hb : t.ctrl i = bEmpty
    · rw [hb] at h2 ⊢
      simpa using h2
    · have h4 : (t.ctrl i == bEmpty) = false := by simpa using hb
      have h5 : (t.ctrl i != bEmpty) = true := by simpa using hb
      rw [h4]
      rw [h5] at h2
      simp only [Bool.toNat_true] at h2
      simp only [Bool.toNat_false]
      omega
  unfold Counted
  rw [h3]
  exact h1

theorem dels_put {t : Map K V} {i : Nat} (hi : i < cap t) (e : K × V) (hd : dels t = 0) : dels (put E sec t i e) = 0 := by
  have hw : Wrote t (put E sec t i e).ctrl i (tagOf E sec e.1) := wrote_setUsed hi (Core.tag_lt _)
  have := dels_write (t' := put E sec t i e) hi rfl hw
  have hb : (tagOf E sec e.1 == bDeleted) = false := by
    have := Core.tag_lt (E := E) (sec := sec) e.1
    simp only [beq_eq_false_iff_ne]
    unfold bDeleted; omega
  rw [hb, hd] at this
  simp only [Bool.toNat_false] at this
  omega

/-- The outcomes of `emplace`: an element is added, or the one with the key is left or gets the value, or an exception
leaves the function, or the table reorders itself (which is undefined). -/
def EmplaceOk (E : Env K) (sec : Nat → Nat) (update : Bool) (mem : Mem) (ctor : Bool) (k : K) (v : V) (t : Map K V) :
    Out (Map K V) (Nat × Bool) → Prop
  | .ok t' (i, b) =>
    (b = true ∧ ctor = true ∧ Absent E t k ∧ Inv E sec t' ∧ (entries t').Perm ((k, v) :: entries t) ∧ i < cap t' ∧
      t'.slot i = some (k, v) ∧ t'.mlf = t.mlf ∧ t'.rev = t.rev ∧ cap t ≤ cap t' ∧ (dels t = 0 → dels t' = 0)) ∨
    (b = false ∧ i < cap t ∧ ∃ e, t.slot i = some e ∧ E.eq e.1 k = true ∧
      t' = if update then { t with slot := upd t.slot i (some (e.1, v)) } else t)
  | .throw t' => Absent E t k ∧ (mem ≠ .ok ∨ ctor = false ∨ memLimit < 2 * cap t') ∧
      (mem ≠ .noSlots → ctor = true → Inv E sec t' ∧ (entries t').Perm (entries t) ∧ t'.mlf = t.mlf ∧ t'.rev = t.rev ∧
        cap t ≤ cap t' ∧ (dels t = 0 → dels t' = 0))
  | .diverge => False
  | .ub => reorders t = true ∧ Absent E t k

theorem emplace_spec (hE : E.Lawful) {t : Map K V} (h : Inv E sec t) (update : Bool) (mem : Mem) (ctor : Bool) (k : K) (v : V) :
    EmplaceOk E sec update mem ctor k v t (emplace E sec update mem ctor k v t) := by
  obtain ⟨j, h1, h2, h3⟩ := h.pow
  have hsp := prepare_spec hE mem k 64 j t h h3 (by omega)
  unfold emplace
  generalize prepare E sec mem k 64 t = o at hsp
  match o, hsp with
  | .ub, hsp => exact hsp
  | .throw t', ⟨g1, g2, g3⟩ => exact ⟨g1, g2.imp_right Or.inr, fun hm _ => g3 hm⟩
  | .ok t' (i, true), ⟨g1, g2, e, g3, g4⟩ =>
    subst g1
    simp only [Out.bind_ok, if_true, g3]
    exact Or.inr ⟨rfl, g2, e, g3, g4, rfl⟩
  | .ok t' (i, false), ⟨g1, g2, g3, g4, g5, g6, g7⟩ =>
    simp only [Out.bind_ok, Bool.false_eq_true, if_false]
    cases ctor with
    | false =>
      rw [if_neg (by decide)]
      exact ⟨g1, Or.inr (Or.inl rfl), fun _ hc => by cases hc⟩
    | true =>
      rw [if_pos rfl]
      exact Or.inl ⟨rfl, rfl, g1, g2.put_inv hE (g1.perm g3) v, (entries_put g2.place.lt g2.place.free (k, v)).trans (g3.cons _),
        g2.place.lt, upd_self _ _ _, g4, g5, g6, fun hd => dels_put g2.place.lt (k, v) (g7 hd)⟩

/-! ### `erase` -/

/-- The map after slot `i` has been emptied and its byte set to `b`. -/
def drop (t : Map K V) (i b l : Nat) : Map K V :=
  { setUnused t i b with slot := upd t.slot i none, size := (t.size + W - 1) % W, left := l }

theorem entries_drop {t : Map K V} {i : Nat} (hi : i < cap t) {e : K × V} (he : t.slot i = some e) (b l : Nat) :
    (entries t).Perm (e :: entries (drop t i b l)) := perm_upd_none hi t.slot e he

theorem Core.drop {t : Map K V} (h : Core E sec t) {i : Nat} (hi : i < cap t) {e : K × V} (he : t.slot i = some e) {b l : Nat}
    (hb : b = bEmpty ∨ b = bDeleted) (hl : l < W) : Core E sec (drop t i b l) := by
  have hp := entries_drop hi he b l
  have hw : Wrote t (Flat.drop t i b l).ctrl i b :=
    wrote_setUnused hi (by unfold bEmpty bDeleted at hb; omega)
  refine h.write hi rfl rfl hw ⟨?_, fun _ => hb⟩ ?_ ?_ hl
  · intro e' he'
    have : (Flat.drop t i b l).slot i = none := upd_self _ _ _
    rw [this] at he'; cases he'
  · intro x hx; exact upd_other _ _ hx
  · have h1 := h.size
    have h2 := h.size_lt
    have h3 := hp.length_eq
    rw [List.length_cons] at h3
    show (t.size + W - 1) % W = _
    rw [show t.size + W - 1 = (t.size - 1) + W by omega, Nat.add_mod_right, Nat.mod_eq_of_lt (by omega)]
    omega

/-- The outcome of `erase_slot` on a slot with an element. -/
theorem eraseSlot_eq {t : Map K V} (h : Core E sec t) {i : Nat} (hi : i < cap t) {e : K × V} (he : t.slot i = some e) :
    eraseSlot i t = .ok (if tombstone t i then Flat.drop t i bDeleted t.left else Flat.drop t i bEmpty ((t.left + 1) % W)) := by
  unfold eraseSlot
  have hn : nextGroup t i < cap t := by
    unfold nextGroup
    rw [h.and_mask]
    exact Nat.mod_lt _ (by omega)
  rw [h.readable hi, h.readable hn, he]
  simp only [Bool.or_true, Bool.and_true, if_true]
  cases tombstone t i <;> rfl

theorem Counted.drop {t : Map K V} (h : Core E sec t) (hc : Counted t) {i : Nat} (hi : i < cap t) {e : K × V}
    (he : t.slot i = some e) :
    Counted (Flat.drop t i bDeleted t.left) ∧ Counted (Flat.drop t i bEmpty ((t.left + 1) % W)) := by
  have hu : t.ctrl i < 128 := (h.used_iff hi).mpr (by simp [he])
  have hne : (t.ctrl i != bEmpty) = true := by
    simp only [bne_iff_ne]; unfold bEmpty; omega
  constructor
  · have hw : Wrote t (Flat.drop t i bDeleted t.left).ctrl i bDeleted := wrote_setUnused hi (by decide)
    have h1 := occ_write (t' := Flat.drop t i bDeleted t.left) hi rfl hw
    rw [hne] at h1
    have h2 : occ (Flat.drop t i bDeleted t.left) = occ t := by
      have : (bDeleted != bEmpty) = true := by decide
      rw [this] at h1; omega
    unfold Counted
    rw [h2]; exact hc
  · have hw : Wrote t (Flat.drop t i bEmpty ((t.left + 1) % W)).ctrl i bEmpty := wrote_setUnused hi (by decide)
    have h1 := occ_write (t' := Flat.drop t i bEmpty ((t.left + 1) % W)) hi rfl hw
    rw [hne] at h1
    have h2 : occ (Flat.drop t i bEmpty ((t.left + 1) % W)) + 1 = occ t := by
      have : (bEmpty != bEmpty) = false := by decide
      rw [this] at h1; exact h1
    unfold Counted
    have h3 : (Flat.drop t i bEmpty ((t.left + 1) % W)).left = (t.left + 1) % W := rfl
    have h4 : thr (Flat.drop t i bEmpty ((t.left + 1) % W)) = thr t := rfl
    rw [h3, h4, Nat.mod_add_mod, Nat.add_assoc, Nat.add_comm 1, h2]
    exact hc

theorem dels_drop {t : Map K V} {i : Nat} (hi : i < cap t) (hd : dels t = 0) (l : Nat) : dels (drop t i bEmpty l) = 0 := by
  have hw : Wrote t (drop t i bEmpty l).ctrl i bEmpty := wrote_setUnused hi (by decide)
  have := dels_write (t' := drop t i bEmpty l) hi rfl hw
  have hb : (bEmpty == bDeleted) = false := by decide
  rw [hb, hd] at this
  simp only [Bool.toNat_false] at this
  omega

/-- Every element is in the first group of its probe sequence. -/
def Near (E : Env K) (t : Map K V) : Prop := ∀ i e, i < cap t → t.slot i = some e → dist E t e.1 i < 16

/-- The invariant after `erase_slot`, unless an empty byte is written in front of an element outside its first group. -/
theorem Inv.eraseSlot (hE : E.Lawful) {t : Map K V} (h : Inv E sec t) {i : Nat} (hi : i < cap t) {e : K × V} (he : t.slot i = some e)
    (hn : tombstone t i = true ∨ Near E t) :
    ∃ t', eraseSlot i t = .ok t' ∧ Inv E sec t' ∧ (entries t).Perm (e :: entries t') ∧ t'.mask = t.mask ∧ t'.mlf = t.mlf ∧
      t'.rev = t.rev := by
  rw [eraseSlot_eq h.toCore hi he]
  have hdis : ∀ b l, Distinct E.eq (entries (Flat.drop t i b l)) := by
    intro b l
    have := h.distinct.perm hE (entries_drop hi he b l)
    exact (List.pairwise_cons.mp this).2
  have hsl : ∀ b l x e', (Flat.drop t i b l).slot x = some e' → t.slot x = some e' := by
    intro b l x e' hx
    have hx' : upd t.slot i none x = some e' := hx
    by_cases hxi : x = i
    · subst hxi; rw [upd_self] at hx'; cases hx'
    · rwa [upd_other _ _ hxi] at hx'
  cases ht : tombstone t i with
  | true =>
    refine ⟨_, rfl, ⟨⟨⟨?_, ?_⟩, hdis _ _⟩, ?_⟩, ?_, rfl, rfl, rfl⟩
    · exact h.toCore.drop hi he (Or.inr rfl) h.left
    · intro x e' hx he' j hj
      have hw : Wrote t (Flat.drop t i bDeleted t.left).ctrl i bDeleted := wrote_setUnused hi (by decide)
      exact (h.reach x e' hx (hsl _ _ x e' he') j hj).write h.toCore (h.base_lt _ _) hw (by decide)
    · intro hc; exact (Counted.drop h.toCore (h.counted hc) hi he).1
    · exact entries_drop hi he _ _
  | false =>
    have hnear : Near E t := by
      rcases hn with hn | hn
      · rw [ht] at hn; cases hn
      · exact hn
    refine ⟨_, rfl, ⟨⟨⟨?_, ?_⟩, hdis _ _⟩, ?_⟩, ?_, rfl, rfl, rfl⟩
    · exact h.toCore.drop hi he (Or.inl rfl) (Nat.mod_lt _ (by decide))
    · intro x e' hx he' j hj
      have h1 := hnear x e' hx (hsl _ _ x e' he')
      have h2 : dist E (Flat.drop t i bEmpty ((t.left + 1) % W)) e'.1 x = dist E t e'.1 x := rfl
      rw [if_neg (by decide), h2] at hj
      omega
    · intro hc; exact (Counted.drop h.toCore (h.counted hc) hi he).2
    · exact entries_drop hi he _ _

/-! ### Tables in which `erase` is safe -/

/-- A group without an empty byte in a table of more than 16 slots covers at least 15 bytes that are not empty. -/
theorem occ_of_noEmpty {t : Map K V} (h : Core E sec t) (h16 : 16 < cap t) {b : Nat} (hb : b < cap t) (hn : NoEmpty t b) :
    15 ≤ occ t := by
  let L := ((List.range 16).map fun p => (b + p) % cap t).filter fun r => r != 0
  have hnd : ((List.range 16).map fun p => (b + p) % cap t).Nodup := by
    rw [List.nodup_map_iff_inj_on List.nodup_range]
    intro x hx y hy hxy
    have hx := List.mem_range.mp hx
    have hy := List.mem_range.mp hy
    rw [add_mod_of_lt hb (by omega), add_mod_of_lt hb (by omega)] at hxy
    split at hxy <;> split at hxy <;> omega
  have hlen : 15 ≤ L.length := by
    have h1 := List.length_eq_length_filter_add (l := (List.range 16).map fun p => (b + p) % cap t) (fun r => r != 0)
    have h2 : (((List.range 16).map fun p => (b + p) % cap t).filter fun r => !(r != 0)).length ≤ 1 := by
      have h3 := List.nodup_iff_count_le_one.mp hnd 0
      rw [List.count_eq_length_filter] at h3
      refine Nat.le_trans (Nat.le_of_eq ?_) h3
      congr 1
      apply List.filter_congr
      intro x _
      cases h : x == 0 <;> simp [bne, h]
    rw [List.length_map, List.length_range] at h1
    have h4 : L.length = (((List.range 16).map fun p => (b + p) % cap t).filter fun r => r != 0).length := rfl
    rw [← h4] at h1
    omega
  have hsub : L ⊆ (List.range (cap t)).filter fun i => t.ctrl i != bEmpty := by
    intro r hr
    obtain ⟨h1, h2⟩ := List.mem_filter.mp hr
    obtain ⟨p, hp, rfl⟩ := List.mem_map.mp h1
    have hp := List.mem_range.mp hp
    rw [List.mem_filter]
    have hlt : (b + p) % cap t < cap t := Nat.mod_lt _ (by omega)
    refine ⟨List.mem_range.mpr hlt, ?_⟩
    have h0 : (b + p) % cap t ≠ 0 := by simpa using h2
    have hseen := h.byte_seen hb hp (by omega) (Or.inr h0)
    have := hn p hp
    rw [hseen] at this
    simpa using this
  have hle := (List.subperm_of_subset (hnd.filter _) hsub).length_le
  unfold occ
  rw [List.countP_eq_length_filter]
  exact Nat.le_trans hlen hle

/-- In a table without tombstones that has at most 16 slots or at most 14 elements, every element is in the first group of
its probe sequence and `erase` writes no tombstone. -/
def Small (t : Map K V) : Prop := dels t = 0 ∧ (cap t ≤ 16 ∨ t.size ≤ 14)

theorem Small.near {t : Map K V} (h : Core E sec t) (hr : Reachable E t) (hs : Small t) : Near E t := by
  intro i e hi he
  have hd := h.dist_lt e.1 i
  by_contra hc
  rcases hs.2 with h1 | h1
  · omega
  · have h2 := hr i e hi he 0 (by omega)
    have h3 := occ_of_noEmpty h (by omega) (h.base_lt e.1 0) h2
    have h4 := h.occ_eq
    have := hs.1
    omega

theorem Small.tombstone {t : Map K V} (h : Core E sec t) (hs : Small t) {i : Nat} (hi : i < cap t) : tombstone t i = false := by
  unfold Flat.tombstone
  rcases hs.2 with h1 | h1
  · have : nextGroup t i = i := by
      unfold nextGroup
      rw [h.and_mask]
      have h2 : cap t = 4 ∨ cap t = 8 ∨ cap t = 16 := by
        rcases h.cap_cases with hc | hc | ⟨m, hm, hc⟩
        · exact Or.inl hc
        · exact Or.inr (Or.inl hc)
        · right; right; omega
      rcases h2 with h2 | h2 | h2 <;> rw [h2] at hi ⊢ <;> omega
    simp [this]
  · by_cases hm : matchEmpty t i = 0
    · by_cases h16 : cap t ≤ 16
      · have : nextGroup t i = i := by
          unfold nextGroup
          rw [h.and_mask]
          have h2 : cap t = 4 ∨ cap t = 8 ∨ cap t = 16 := by
            rcases h.cap_cases with hc | hc | ⟨m, hm, hc⟩
            · exact Or.inl hc
            · exact Or.inr (Or.inl hc)
            · right; right; omega
          rcases h2 with h2 | h2 | h2 <;> rw [h2] at hi ⊢ <;> omega
        simp [this]
      · have := occ_of_noEmpty h (by omega) hi ((matchEmpty_zero _ _).mp hm)
        have := h.occ_eq
        have := hs.1
        omega
    · have : (matchEmpty t i == 0) = false := by simpa using hm
      simp [this]

end Verif.Flat
