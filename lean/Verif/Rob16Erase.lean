/-
`erase` and `clear` on the model of `robin16_hash_map`.
-/
import Verif.Rob16Ops

namespace Verif.Rob16
open Spec (Distinct)

variable {K V : Type} {E : Env K} {sec : Nat → Nat}

/-! ### The backward shift -/

/-- Slot `i` is a hole: its control word is still that of an element, the other slots hold `L`. -/
structure Hole (E : Env K) (sec : Nat → Nat) (t : Map K V) (i : Nat) (L : List (K × V)) : Prop where
  base : Base t
  lt : i < cap t
  used : (t.ctrl i).dist ≠ 255
  cell : ∀ x, x < cap t → x ≠ i → CellOk E sec t x
  perm : ((List.range (cap t)).filterMap (upd (cellAt t) i none)).Perm L

/-- The elements behind slot `i` are all away from home, up to the last slot, and so is the one in slot 0. -/
def Wraps (t : Map K V) (i : Nat) : Prop :=
  (∀ j, i < j → j < cap t → (t.ctrl j).dist ≠ 255 ∧ (t.ctrl j).dist ≠ 0) ∧ (t.ctrl 0).dist ≠ 255 ∧ (t.ctrl 0).dist ≠ 0

/-- The hole becomes an empty slot. -/
theorem Hole.close {t : Map K V} {i : Nat} {L : List (K × V)} (h : Hole E sec t i L)
    (hn : (t.ctrl (nxt t i)).dist = 255 ∨ (t.ctrl (nxt t i)).dist = 0) : Tab E sec (setEmpty t i) ∧ (entries (setEmpty t i)).Perm L := by
  have hw := wrote_setEmpty h.lt
  have hcap : cap (setEmpty t i) = cap t := rfl
  refine ⟨⟨?_, ?_⟩, ?_⟩
  · refine h.base.write h.lt rfl rfl rfl hw (Or.inl rfl) (fun x _ _ => Or.inl rfl) ?_
    rcases hn with hn | hn
    · exact Or.inl hn
    · exact Or.inr (Or.inl hn)
  · intro x hx
    have hx : x < cap t := hx
    by_cases hxi : x = i
    · subst hxi
      intro hu
      rw [hw.self] at hu
      exact absurd rfl hu
    · have hc := h.cell x hx hxi
      unfold CellOk at hc ⊢
      rw [hw.other x hx hxi]
      exact hc
  · rw [entries_write (t' := setEmpty t i) h.lt rfl hw (fun _ _ => rfl), if_neg (Nat.lt_irrefl 255)]
    exact h.perm

/-- The map after the element behind the hole has moved into it. -/
def shift (triv : Bool) (t : Map K V) (i : Nat) (e : K × V) : Map K V :=
  { setUsed t i ⟨(t.ctrl (i + 1)).dist - 1, (t.ctrl (i + 1)).tag⟩ with slot := dropSlot triv (upd t.slot i (some e)) (i + 1) }

theorem dropSlot_other (triv : Bool) (s : Nat → Option (K × V)) {i x : Nat} (h : x ≠ i) : dropSlot triv s i x = s x := by
  unfold dropSlot
  split
  · rfl
  · exact upd_other _ _ h

theorem Hole.shift {t : Map K V} {i : Nat} {L : List (K × V)} (triv : Bool) (h : Hole E sec t i L) (hi : i + 1 < cap t)
    (h1 : (t.ctrl (i + 1)).dist ≠ 255) (h2 : (t.ctrl (i + 1)).dist ≠ 0) :
    ∃ e, t.slot (i + 1) = some e ∧ Hole E sec (shift triv t i e) (i + 1) L ∧
      ∀ x, x < cap t → x ≠ i → (Rob16.shift triv t i e).ctrl x = t.ctrl x := by
  obtain ⟨e, he, hd, ht⟩ := h.cell (i + 1) hi (by omega) h1
  have hw : Wrote t (Rob16.shift triv t i e).ctrl i ⟨(t.ctrl (i + 1)).dist - 1, (t.ctrl (i + 1)).tag⟩ := wrote_setUsed h.lt _
  have hnx : nxt t i = i + 1 := by unfold nxt; exact Nat.mod_eq_of_lt hi
  have ho := h.base.order i h.lt
  rw [hnx] at ho
  have hbi := h.base.bound (i + 1) hi
  have hslot : ∀ x, x ≠ i → x ≠ i + 1 → (Rob16.shift triv t i e).slot x = t.slot x := by
    intro x hx1 hx2
    show dropSlot triv (upd t.slot i (some e)) (i + 1) x = _
    rw [dropSlot_other _ _ hx2, upd_other _ _ hx1]
  have hsi : (Rob16.shift triv t i e).slot i = some e := by
    show dropSlot triv (upd t.slot i (some e)) (i + 1) i = _
    rw [dropSlot_other _ _ (by omega), upd_self]
  refine ⟨e, he, ⟨?_, hi, ?_, ?_, ?_⟩, hw.other⟩
  · refine h.base.write h.lt rfl rfl rfl hw (Or.inr ?_) ?_ ?_
    · show (t.ctrl (i + 1)).dist - 1 < 254
      omega
    · intro x hx hxi
      have hox := h.base.order x hx
      rw [hxi] at hox
      have hu := h.used
      show (t.ctrl (i + 1)).dist - 1 = 255 ∨ (t.ctrl (i + 1)).dist - 1 = 0 ∨
        ((t.ctrl x).dist ≠ 255 ∧ (t.ctrl (i + 1)).dist - 1 ≤ (t.ctrl x).dist + 1)
      omega
    · rw [hnx]
      show (t.ctrl (i + 1)).dist = 255 ∨ (t.ctrl (i + 1)).dist = 0 ∨
        ((t.ctrl (i + 1)).dist - 1 ≠ 255 ∧ (t.ctrl (i + 1)).dist ≤ (t.ctrl (i + 1)).dist - 1 + 1)
      omega
  · rw [hw.other _ hi (by omega)]; exact h1
  · intro x hx hxi
    have hx : x < cap t := hx
    by_cases hxe : x = i
    · subst hxe
      intro _
      refine ⟨e, hsi, ?_, ?_⟩
      · rw [hw.self]
        show (t.ctrl (x + 1)).dist - 1 = far E t e.1 x
        have hf : 1 ≤ far E t e.1 (x + 1) := by omega
        have hp : pos E t e.1 (far E t e.1 (x + 1) - 1) = x := by
          apply nxt_inj (h.base.pos_lt _ _) h.lt
          rw [Base.nxt_pos, show far E t e.1 (x + 1) - 1 + 1 = far E t e.1 (x + 1) by omega, h.base.pos_far e.1 hi, hnx]
        have hfl := h.base.far_lt (E := E) e.1 (x + 1)
        have := Base.far_pos (t := t) (E := E) e.1 (j := far E t e.1 (x + 1) - 1) (by omega)
        rw [hp] at this
        omega
      · rw [hw.self]; exact ht
    · have hc := h.cell x hx hxe
      unfold CellOk at hc ⊢
      rw [hw.other x hx hxe, hslot x hxe hxi]
      exact hc
  · refine List.Perm.trans ?_ h.perm
    have hcap : cap (Rob16.shift triv t i e) = cap t := rfl
    rw [hcap]
    have hused : Rob16.used t (i + 1) = true := by
      unfold Rob16.used bEmpty; exact decide_eq_true (by omega)
    have hc1 : cellAt t (i + 1) = some e := by
      unfold cellAt; rw [if_pos hused]; exact he
    have hcell : ∀ x, x < cap t → upd (cellAt (Rob16.shift triv t i e)) (i + 1) none x = upd (upd (upd (cellAt t) i none) (i + 1) none) i (some e) x := by
      intro x hx
      by_cases hx1 : x = i + 1
      · subst hx1
        rw [upd_self, upd_other _ _ (by omega), upd_self]
      · rw [upd_other _ _ hx1]
        by_cases hx2 : x = i
        · subst hx2
          rw [upd_self]
          unfold cellAt Rob16.used
          rw [hw.self, hsi]
          rw [if_pos (decide_eq_true (show (t.ctrl (x + 1)).dist - 1 < bEmpty by unfold bEmpty; omega))]
        · rw [upd_other _ _ hx2, upd_other _ _ hx1, upd_other _ _ hx2]
          unfold cellAt Rob16.used
          rw [hw.other x hx hx2, hslot x hx2 hx1]
    rw [filterMap_congr' (fun x hx => hcell x (List.mem_range.mp hx))]
    refine (perm_upd_some h.lt _ (by rw [upd_other _ _ (by omega), upd_self]) e).trans ?_
    exact (perm_upd_none hi (upd (cellAt t) i none) e (by rw [upd_other _ _ (by omega)]; exact hc1)).symm

theorem eraseLoop_spec (triv : Bool) {L : List (K × V)} : ∀ (f i : Nat) (t : Map K V), Hole E sec t i L → cap t - i ≤ f →
    (i ≠ 0 ∨ ∃ z, i < z ∧ z < cap t ∧ (t.ctrl z).dist = 255) →
    (¬ Wraps t i → ∃ t', eraseLoop triv f i t = .ok t' ∧ Same t t' ∧ Tab E sec t' ∧ (entries t').Perm L) ∧
    (Wraps t i → eraseLoop triv f i t = .ub) := by
  intro f
  induction f with
  | zero => intro i t h hf _; have := h.lt; omega
  | succ f ih =>
    intro i t h hf hz
    have hlt := h.lt
    have hcl := h.base.clen_eq
    unfold eraseLoop
    rw [if_pos (by omega)]
    by_cases hi : i + 1 < cap t
    · have hnx : nxt t i = i + 1 := by unfold nxt; exact Nat.mod_eq_of_lt hi
      by_cases hs : (t.ctrl (i + 1)).dist = 255 ∨ (t.ctrl (i + 1)).dist = 0
      · rw [if_pos hs]
        refine ⟨fun _ => ⟨_, rfl, ⟨rfl, rfl, rfl, rfl, rfl, rfl, rfl⟩, h.close (by rw [hnx]; exact hs)⟩, ?_⟩
        intro hw
        have := hw.1 (i + 1) (by omega) hi
        omega
      · rw [if_neg hs, if_pos hi]
        obtain ⟨e, he, hH, hoth⟩ := h.shift triv hi (by omega) (by omega)
        rw [he]
        simp only
        have hcap : cap (shift triv t i e) = cap t := rfl
        have := ih (i + 1) (shift triv t i e) hH (by clear hz; rw [hcap]; omega) (Or.inl (Nat.succ_ne_zero i))
        have hW : Wraps (shift triv t i e) (i + 1) ↔ Wraps t i := by
          constructor
          · rintro ⟨w1, w2⟩
            have w3 : ∀ j, i < j → j < cap t → (t.ctrl j).dist ≠ 255 ∧ (t.ctrl j).dist ≠ 0 := by
              intro j hj1 hj2
              by_cases hj : j = i + 1
              · rw [hj]; omega
              · have := w1 j (by omega) hj2
                rwa [hoth j hj2 (by omega)] at this
            refine ⟨w3, ?_⟩
            rcases hz with hz | ⟨z, hz1, hz2, hz3⟩
            · rwa [hoth 0 (by omega) (by omega)] at w2
            · exact absurd hz3 (w3 z hz1 hz2).1
          · rintro ⟨w1, w2⟩
            refine ⟨?_, ?_⟩
            · intro j hj1 hj2
              have hj2 : j < cap t := hj2
              rw [hoth j hj2 (by omega)]
              exact w1 j (by omega) hj2
            · rcases hz with hz | ⟨z, hz1, hz2, hz3⟩
              · rw [hoth 0 (by omega) (by omega)]; exact w2
              · exact absurd hz3 (w1 z hz1 hz2).1
        refine ⟨fun hw => ?_, fun hw => this.2 (hW.mpr hw)⟩
        obtain ⟨t', g1, g2, g3, g4⟩ := this.1 (fun hc => hw (hW.mp hc))
        refine ⟨t', g1, ?_, g3, g4⟩
        exact ⟨g2.mask, g2.gmask, g2.clen, g2.size, g2.thr, g2.mlf, g2.rev⟩
    · have hie : i + 1 = cap t := by omega
      have hnx : nxt t i = 0 := by unfold nxt; rw [hie, Nat.mod_self]
      have hm := (h.base.mirror 0 (by omega) (by omega)).1
      rw [Nat.zero_add] at hm
      rw [hie, hm]
      by_cases hs : (t.ctrl 0).dist = 255 ∨ (t.ctrl 0).dist = 0
      · rw [if_pos hs]
        refine ⟨fun _ => ⟨_, rfl, ⟨rfl, rfl, rfl, rfl, rfl, rfl, rfl⟩, h.close (by rw [hnx]; exact hs)⟩, ?_⟩
        intro hw
        have := hw.2
        omega
      · rw [if_neg hs, if_neg (by omega)]
        refine ⟨fun hw => absurd ⟨fun j hj1 hj2 => by omega, by omega, by omega⟩ hw, fun _ => rfl⟩

/-- `erase_slot`, exactly: it reads behind the slots if and only if the elements behind the erased one are displaced beyond the
last slot. -/
theorem eraseSlot_spec (hE : E.Lawful) (triv : Bool) {t : Map K V} (h : Live E sec t) {i : Nat} (hi : i < cap t)
    (hu : (t.ctrl i).dist ≠ 255) {e : K × V} (he : t.slot i = some e) :
    (¬ Wraps t i → ∃ t', eraseSlot triv i t = .ok t' ∧ Live E sec t' ∧ (entries t).Perm (e :: entries t') ∧ t'.mask = t.mask ∧
      t'.thr = t.thr ∧ t'.mlf = t.mlf ∧ t'.rev = t.rev) ∧
    (Wraps t i → eraseSlot triv i t = .ub) := by
  have hused : used t i = true := by
    unfold used bEmpty; exact decide_eq_true (by have := h.bound i hi; omega)
  have hcell : cellAt t i = some e := by unfold cellAt; rw [if_pos hused, he]
  have hpL := perm_upd_none hi (cellAt t) e hcell
  have hH : Hole E sec { t with slot := dropSlot triv t.slot i, size := (t.size + W - 1) % W } i
      ((List.range (cap t)).filterMap (upd (cellAt t) i none)) := by
    refine ⟨⟨h.pow, h.gmask, h.clen, h.bound, h.order, h.mirror, h.tail⟩, hi, hu, ?_, ?_⟩
    · intro x hx hxi
      have hc := h.cell x hx
      unfold CellOk at hc ⊢
      show _ → ∃ e, dropSlot triv t.slot i x = some e ∧ _
      rw [dropSlot_other _ _ hxi]
      exact hc
    · refine List.Perm.of_eq (filterMap_congr' ?_)
      intro x hx
      by_cases hxi : x = i
      · subst hxi; rw [upd_self, upd_self]
      · rw [upd_other _ _ hxi, upd_other _ _ hxi]
        unfold cellAt
        show (if used t x then dropSlot triv t.slot i x else none) = _
        rw [dropSlot_other _ _ hxi]
  have hz : i ≠ 0 ∨ ∃ z, i < z ∧ z < cap t ∧ (t.ctrl z).dist = 255 := by
    by_cases h0 : i = 0
    · right
      obtain ⟨z, hz1, hz2⟩ := h.exists_empty
      refine ⟨z, ?_, hz1, hz2⟩
      have : z ≠ i := by rintro rfl; exact hu hz2
      omega
    · exact Or.inl h0
  have hcl := h.clen_eq
  have hsp := eraseLoop_spec triv (t.clen + 1) i _ hH (show cap t - i ≤ t.clen + 1 by omega) hz
  unfold eraseSlot
  rw [he]
  simp only
  refine ⟨fun hw => ?_, fun hw => hsp.2 hw⟩
  obtain ⟨t', g1, g2, g3, g4⟩ := hsp.1 hw
  have hp : (entries t).Perm (e :: entries t') := hpL.trans (g4.symm.cons _)
  have hsize : t'.size = (t.size + W - 1) % W := g2.size
  have hcap' : cap t' = cap t := g2.cap
  have hlen := hp.length_eq
  rw [List.length_cons, ← h.size] at hlen
  have hlt : t.size < W := by
    have h1 := h.cap_le
    have h2 := h.room
    have h3 : 2 ^ 48 < W := by unfold W; omega
    omega
  have hsz : t'.size = (entries t').length := by
    rw [hsize, show t.size + W - 1 = (t.size - 1) + W by omega, Nat.add_mod_right, Nat.mod_eq_of_lt (by omega)]
    omega
  refine ⟨t', g1, ⟨⟨⟨g3, hsz, ?_⟩, ?_⟩, ?_, ?_⟩, hp, g2.mask, g2.thr, g2.mlf, g2.rev⟩
  · rw [hcap', hsz]
    have := h.room
    omega
  · exact (List.pairwise_cons.mp (h.distinct.perm hE hp)).2
  · rw [hcap', show t'.thr = t.thr from g2.thr]; exact h.thr
  · rw [show t'.mlf = t.mlf from g2.mlf]; exact h.mlf

/-! ### Maps in which `erase` is safe -/

/-- Every element has its home so far in front that even all elements of the map in a row end before the last slot. -/
def Front (E : Env K) (c : Nat) (l : List (K × V)) : Prop := ∀ e ∈ l, E.h e.1 % c + l.length ≤ c

/-- Then no element is displaced beyond the last slot. -/
theorem front_head {t : Map K V} (h : Core E sec t) (hf : Front E (cap t) (entries t)) :
    (t.ctrl 0).dist = 255 ∨ (t.ctrl 0).dist = 0 := by
  by_contra hc
  rw [not_or] at hc
  have hge := h.cap_ge
  obtain ⟨e, he, hd, _⟩ := h.cell 0 (by omega) hc.1
  have hp : Pass E t e.1 (far E t e.1 0) := by
    unfold Pass
    rw [h.pos_far e.1 (by omega), ← hd]
    exact ⟨hc.1, Nat.le_refl _⟩
  have hback := h.pass_back hp
  have hfar : far E t e.1 0 + 1 < cap t := far_lt_of_empty h.toBase h.exists_empty (by omega) hc.1 (Or.inr (hback _ (by omega)))
  have hex : ∀ y, ∃ e' : K × V, y < far E t e.1 0 + 1 → (t.ctrl ((E.h e.1 + y) % cap t)).dist ≠ 255 ∧ t.slot ((E.h e.1 + y) % cap t) = some e' := by
    intro y
    by_cases hy : y < far E t e.1 0 + 1
    · have hpy := (hback y (by omega)).1
      obtain ⟨e', he', _⟩ := h.cell _ (h.pos_lt (E := E) e.1 y) hpy
      exact ⟨e', fun _ => ⟨hpy, he'⟩⟩
    · exact ⟨e, fun h => absurd h hy⟩
  obtain ⟨f, hfun⟩ := Classical.axiomOfChoice hex
  have hsub := (run_subperm h.toBase hfar f (fun y hy => hfun y hy)).length_le
  rw [List.length_map, List.length_range] at hsub
  have hmem : e ∈ entries t := (mem_entries h.toBase).mpr ⟨0, by omega, hc.1, he⟩
  have h1 := hf e hmem
  have hlt : E.h e.1 % cap t < cap t := Nat.mod_lt _ (by omega)
  have hfeq : far E t e.1 0 = (cap t - E.h e.1 % cap t) % cap t := by
    unfold far; rw [Nat.zero_add]
  by_cases h0 : E.h e.1 % cap t = 0
  · rw [h0, Nat.sub_zero, Nat.mod_self] at hfeq
    omega
  · rw [Nat.mod_eq_of_lt (by omega)] at hfeq
    omega

theorem Front.not_wraps {t : Map K V} (h : Core E sec t) (hf : Front E (cap t) (entries t)) (i : Nat) : ¬ Wraps t i := by
  intro hw
  have := front_head h hf
  have := hw.2
  omega

/-! ### `clear` -/

/-- When `clear` leaves no stale copies of control words: it makes a new table, or the table has no groups behind the copies, or
the first 16 slots were empty. -/
def Clears (destroy : Bool) (t : Map K V) : Prop :=
  (destroy = true ∧ 4 < cap t) ∨ cap t < 16 ∨ ∀ i, i < 16 → (t.ctrl i).dist = 255

theorem Live.fresh {j : Nat} (h1 : 2 ≤ j) (h2 : j ≤ 48) {m r : Nat} (hm : m < 65536) :
    Live E sec (freshMap (2 ^ j) m r : Map K V) ∧ entries (freshMap (2 ^ j) m r : Map K V) = [] := by
  obtain ⟨g1, g2, g3⟩ := freshMap_inv (K := K) (V := V) (E := E) (sec := sec) h1 h2 m r
  refine ⟨⟨⟨g1, by rw [g2]; exact List.Pairwise.nil⟩, ?_, hm⟩, g2⟩
  rw [g3]
  exact thr_lt (Nat.two_pow_pos _) hm

theorem destroySlots_spec {t : Map K V} (h : Tab E sec t) (triv : Bool) : ∃ s, destroySlots triv t = .ok { t with slot := s, size := 0 } := by
  unfold destroySlots
  split
  · exact ⟨t.slot, rfl⟩
  · rw [if_pos]
    · exact ⟨_, rfl⟩
    · rw [List.all_eq_true]
      intro i hi
      have hi := List.mem_range.mp hi
      by_cases hu : used t i = true
      · have : (t.ctrl i).dist ≠ 255 := by
          unfold used bEmpty at hu
          have := of_decide_eq_true hu
          omega
        obtain ⟨e, he, _⟩ := h.cell i hi this
        simp [he]
      · simp [hu]

theorem clear_spec {t : Map K V} (h : Live E sec t) (triv destroy : Bool) (hc : Clears destroy t) :
    ∃ t', clear triv destroy t = .ok t' () ∧ Live E sec t' ∧ entries t' = [] ∧ t'.mlf = t.mlf ∧ t'.rev = t.rev ∧
      (if 4 < cap t ∧ destroy = true then t' = freshMap 4 t.mlf t.rev else t'.mask = t.mask ∧ t'.thr = t.thr) := by
  unfold clear
  by_cases h1 : (decide (4 < cap t) && destroy) = true
  · rw [if_pos h1]
    obtain ⟨g1, g2⟩ := Live.fresh (K := K) (V := V) (E := E) (sec := sec) (j := 2) (by omega) (by omega) (m := t.mlf) (r := t.rev) h.mlf
    refine ⟨freshMap (2 ^ 2) t.mlf t.rev, ?_, g1, g2, rfl, rfl, by rw [if_pos (by simpa using h1)]; rfl⟩
    unfold createGroup
    simp only
    rw [if_neg (by unfold memLimit; simp), if_neg (by simp)]
    rfl
  · rw [if_neg h1]
    have hc : cap t < 16 ∨ ∀ i, i < 16 → (t.ctrl i).dist = 255 := by
      rcases hc with hc | hc
      · simp [hc.1, hc.2] at h1
      · exact hc
    obtain ⟨s, hs⟩ := destroySlots_spec h.toTab triv
    rw [hs]
    simp only [lift]
    have hge := h.cap_ge
    have hg := h.gmask
    have hN : cap t ≤ (t.gmask + 1) * 16 ∧ (16 ≤ cap t → (t.gmask + 1) * 16 = cap t) ∧ (cap t < 16 → (t.gmask + 1) * 16 = 16) ∧
        (cap t < 16 → cap t ≤ 8) := by
      rcases h.cap_cases with hcc | hcc | ⟨m, hm, hcc⟩ <;> rw [hcc] at hg ⊢ <;> refine ⟨?_, ?_, ?_, ?_⟩ <;> omega
    obtain ⟨hN1, hN2, hN3, hN4⟩ := hN
    have hz : ∀ i, i < cap t → (if i < (t.gmask + 1) * 16 then (⟨bEmpty, 0⟩ : Ctrl) else t.ctrl i) = ⟨bEmpty, 0⟩ := by
      intro i hi
      rw [if_pos (by omega)]
    have hent : entries { t with slot := s, size := 0, ctrl := fun i => if i < (t.gmask + 1) * 16 then ⟨bEmpty, 0⟩ else t.ctrl i } = [] := by
      unfold entries
      rw [List.filterMap_eq_nil_iff]
      intro i hi
      have hi : i < cap t := List.mem_range.mp hi
      unfold cellAt used
      simp only [hz i hi]
      rfl
    refine ⟨_, rfl, ⟨⟨⟨⟨⟨h.pow, h.gmask, h.clen, ?_, ?_, ?_, ?_⟩, ?_⟩, by rw [hent]; rfl, show 0 < cap t by omega⟩,
      by rw [hent]; exact List.Pairwise.nil⟩, h.thr, h.mlf⟩, hent, rfl, rfl,
      by rw [if_neg (by simpa using h1)]; exact ⟨rfl, rfl⟩⟩
    · intro i hi
      have hi : i < cap t := hi
      simp only
      rw [hz i hi]; exact Or.inl rfl
    · intro i hi
      have : nxt t i < cap t := h.nxt_lt i
      left
      show (if nxt t i < (t.gmask + 1) * 16 then (⟨bEmpty, 0⟩ : Ctrl) else t.ctrl (nxt t i)).dist = 255
      rw [hz _ this]
    · intro i hi h16
      have hi : i < cap t := hi
      simp only
      rw [hz i hi]
      refine ⟨?_, fun hc => absurd rfl hc⟩
      show (if i + cap t < (t.gmask + 1) * 16 then (⟨bEmpty, 0⟩ : Ctrl) else t.ctrl (i + cap t)).dist = 255
      by_cases hlt : i + cap t < (t.gmask + 1) * 16
      · rw [if_pos hlt]
      · rw [if_neg hlt, (h.mirror i hi h16).1]
        rcases hc with hc | hc
        · exfalso
          have := hN3 hc
          have := hN4 hc
          omega
        · exact hc i h16
    · intro hcap i hi1 hi2
      simp only
      split
      · exact ⟨Or.inr rfl, rfl⟩
      · exact h.tail hcap i hi1 hi2
    · intro i hi hu
      have hi : i < cap t := hi
      simp only at hu
      rw [hz i hi] at hu
      exact absurd rfl hu

end Verif.Rob16
