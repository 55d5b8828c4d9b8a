/-
Erasing with the indirect layout: the backward shift of the control words is that of the direct layout; then the last element
takes the slot of the erased one.
-/
import Verif.RobIndPlace

namespace Verif.RobInd
open Spec (Distinct)
open Robin (hm lookups tailCtrl)

variable {K V : Type} {E : Env K}

/-- The used words other than that at `i` refer to different slots, and not to slot `ei`. -/
structure Apart (n : Nat) (w : Nat → Ctrl) (i ei : Nat) : Prop where
  inj : ∀ p q, p < n → q < n → p ≠ i → q ≠ i → 0 ≤ (w p).dist → 0 ≤ (w q).dist → (w p).idx = (w q).idx → p = q
  ne : ∀ p, p < n → p ≠ i → 0 ≤ (w p).dist → (w p).idx ≠ ei

theorem tailCtrl_dist (c : Nat) : (tailCtrl c).dist ≤ 0 := by
  unfold tailCtrl
  split
  · simp [Robin.Ctrl.endOf]
  · simp [Robin.Ctrl.empty]

/-- The outcome of the backward shift. -/
structure Shifted (E : Env K) (c : Nat) (t : Map K V) (w w' : Nat → Ctrl) (i ei : Nat) : Prop where
  words : ∀ p, p < t.slen → Word E t.slot t.size (w' p)
  tail : ∀ p, t.slen ≤ p → w' p = w p
  inj : ∀ p q, p < t.slen → q < t.slen → 0 ≤ (w' p).dist → 0 ≤ (w' q).dist → (w' p).idx = (w' q).idx → p = q
  ne : ∀ p, p < t.slen → 0 ≤ (w' p).dist → (w' p).idx ≠ ei
  kept : ∀ p, p < t.slen → p ≠ i → 0 ≤ (w p).dist → ∃ q, q < t.slen ∧ 0 ≤ (w' q).dist ∧ (w' q).idx = (w p).idx
  direct : ∀ g, t.slen - i ≤ g → Robin.shiftLoop g i (carried c t i w none) =
    .ok { abs c t with ctrl := absC t.slen c w', slot := absS t.slen t.slot w' }

theorem shiftLoop_sim {c : Nat} {t : Map K V} (h : Shape t c) {ei : Nat} : ∀ (f : Nat) (w : Nat → Ctrl) (i : Nat),
    f = t.clen - (i + 1) → i < t.slen → (∀ p, p < t.slen → Word E t.slot t.size (w p)) →
    (∀ p, t.slen ≤ p → p < t.clen → w p = Ctrl.empty) → Apart t.slen w i ei →
    ∃ w', shiftLoop f i w = .ok w' ∧ Shifted E c t w w' i ei := by
  have hclen := h.clen_ge
  intro f
  induction f with
  | zero => intro w i hf hi; omega
  | succ f ih =>
    intro w i hf hi hw ht ha
    unfold shiftLoop
    by_cases hd : (w (i + 1)).dist ≤ 0
    · rw [if_pos hd]
      have hused : ∀ p, 0 ≤ (upd w i Ctrl.empty p).dist → p ≠ i ∧ upd w i Ctrl.empty p = w p := by
        intro p hp
        by_cases hpi : p = i
        · subst hpi; rw [upd_self] at hp; simp [Ctrl.empty] at hp
        · exact ⟨hpi, upd_other _ _ hpi⟩
      refine ⟨_, rfl, ?_, fun p hp => upd_other _ _ (by omega), ?_, ?_, ?_, ?_⟩
      · intro p hp
        by_cases hpi : p = i
        · subst hpi; rw [upd_self]; exact Or.inl rfl
        · rw [upd_other _ _ hpi]; exact hw p hp
      · intro p q hp hq h1 h2 h3
        obtain ⟨a1, a2⟩ := hused p h1
        obtain ⟨b1, b2⟩ := hused q h2
        rw [a2] at h1 h3; rw [b2] at h2 h3
        exact ha.inj p q hp hq a1 b1 h1 h2 h3
      · intro p hp h1
        obtain ⟨a1, a2⟩ := hused p h1
        rw [a2] at h1 ⊢
        exact ha.ne p hp a1 h1
      · intro p hp hpi h1
        exact ⟨p, hp, by rw [upd_other _ _ hpi]; exact h1, by rw [upd_other _ _ hpi]⟩
      · intro g hg
        obtain ⟨g, rfl⟩ : ∃ g', g = g' + 1 := ⟨g - 1, by omega⟩
        unfold Robin.shiftLoop
        have hcd : ((carried c t i w none).ctrl (i + 1)).dist ≤ 0 := by
          show (absC t.slen c w (i + 1)).dist ≤ 0
          by_cases hs : i + 1 < t.slen
          · rw [absC_lt hs]; exact hd
          · unfold absC; rw [if_neg hs]; exact tailCtrl_dist c
        rw [if_pos hcd]
        simp only [carried]
        rw [absC_upd _ _ hi, absS_upd _ _ _ hi, if_neg (by simp [Ctrl.empty])]
        rfl
    · rw [if_neg hd]
      have hs : i + 1 < t.slen := by
        apply Classical.byContradiction
        intro hn
        rw [ht (i + 1) (by omega) (by omega)] at hd
        simp [Ctrl.empty] at hd
      obtain ⟨h1, h2, h3, e, h4, h5⟩ : 0 ≤ (w (i + 1)).dist ∧ (w (i + 1)).dist ≤ 127 ∧ (w (i + 1)).idx < t.size ∧
          ∃ e, t.slot (w (i + 1)).idx = some e ∧ (w (i + 1)).hash = ctrlHash E e.1 := by
        rcases hw (i + 1) hs with hx | hx
        · rw [hx] at hd; simp [Ctrl.empty] at hd
        · exact hx
      have hdec : (w (i + 1)).dec = ⟨(w (i + 1)).dist - 1, (w (i + 1)).hash, (w (i + 1)).idx⟩ := by
        unfold Ctrl.dec
        rw [Robin.wrap8_id (by omega) (by omega)]
      have hdec' : Robin.Ctrl.dec ⟨(w (i + 1)).dist, 0⟩ = ⟨(w (i + 1)).dist - 1, 0⟩ := by
        unfold Robin.Ctrl.dec
        rw [Robin.wrap8_id (by simp only; omega) (by simp only; omega)]
      rw [hdec]
      have hnw : 0 ≤ (w (i + 1)).dist - 1 := by omega
      -- a word of the new array away from the new hole
      have hnew : ∀ p, p ≠ i + 1 → (p = i ∧ upd w i ⟨(w (i + 1)).dist - 1, (w (i + 1)).hash, (w (i + 1)).idx⟩ p =
          ⟨(w (i + 1)).dist - 1, (w (i + 1)).hash, (w (i + 1)).idx⟩) ∨
          (p ≠ i ∧ upd w i ⟨(w (i + 1)).dist - 1, (w (i + 1)).hash, (w (i + 1)).idx⟩ p = w p) := by
        intro p _
        by_cases hpi : p = i
        · subst hpi; exact Or.inl ⟨rfl, upd_self _ _ _⟩
        · exact Or.inr ⟨hpi, upd_other _ _ hpi⟩
      obtain ⟨w', e1, e2⟩ := ih (upd w i ⟨(w (i + 1)).dist - 1, (w (i + 1)).hash, (w (i + 1)).idx⟩) (i + 1) (by omega) hs
        (by
          intro p hp
          by_cases hpi : p = i
          · subst hpi; rw [upd_self]
            exact Or.inr ⟨hnw, by simp only; omega, h3, e, h4, h5⟩
          · rw [upd_other _ _ hpi]; exact hw p hp)
        (by intro p hp hpc; rw [upd_other _ _ (by omega)]; exact ht p hp hpc)
        (by
          constructor
          · intro p q hp hq hpn hqn g1 g2 g3
            rcases hnew p hpn with ⟨a, a'⟩ | ⟨a, a'⟩ <;> rcases hnew q hqn with ⟨b, b'⟩ | ⟨b, b'⟩
            · omega
            · rw [a', b'] at g3
              rw [b'] at g2
              exact absurd (ha.inj q (i + 1) hq hs b (by omega) g2 h1 g3.symm) (by omega)
            · rw [a', b'] at g3
              rw [a'] at g1
              exact absurd (ha.inj p (i + 1) hp hs a (by omega) g1 h1 g3) (by omega)
            · rw [a', b'] at g3
              rw [a'] at g1
              rw [b'] at g2
              exact ha.inj p q hp hq a b g1 g2 g3
          · intro p hp hpn g1
            rcases hnew p hpn with ⟨a, a'⟩ | ⟨a, a'⟩
            · rw [a']; exact ha.ne (i + 1) hs (by omega) h1
            · rw [a'] at g1 ⊢; exact ha.ne p hp a g1)
      refine ⟨w', e1, e2.words, ?_, e2.inj, e2.ne, ?_, ?_⟩
      · intro p hp; rw [e2.tail p hp, upd_other _ _ (by omega)]
      · intro p hp hpi g1
        by_cases hp1 : p = i + 1
        · subst hp1
          obtain ⟨q, q1, q2, q3⟩ := e2.kept i hi (by omega) (by rw [upd_self]; exact hnw)
          exact ⟨q, q1, q2, by rw [q3, upd_self]⟩
        · obtain ⟨q, q1, q2, q3⟩ := e2.kept p hp hp1 (by rw [upd_other _ _ hpi]; exact g1)
          exact ⟨q, q1, q2, by rw [q3, upd_other _ _ hpi]⟩
      · intro g hg
        obtain ⟨g, rfl⟩ : ∃ g', g = g' + 1 := ⟨g - 1, by omega⟩
        unfold Robin.shiftLoop
        have hci : (carried c t i w none).ctrl (i + 1) = ⟨(w (i + 1)).dist, 0⟩ := absC_lt hs
        have hsi : (carried c t i w none).slot (i + 1) = some e := by
          show upd _ i none (i + 1) = _
          rw [upd_other _ _ (by omega), absS_used hs h1, h4]
        rw [hci, hsi, if_neg hd]
        simp only
        rw [hdec']
        rw [← e2.direct g (by omega)]
        congr 1
        simp only [carried]
        rw [absC_upd _ _ hi, absS_upd _ _ _ hi, if_pos hnw, h4]
        congr 1
        funext p
        by_cases hp : p = i + 1
        · subst hp; rw [upd_self, upd_self]
        · rw [upd_other _ _ hp, upd_other _ _ hp]
          by_cases hpi : p = i
          · subst hpi; rw [upd_self, upd_self]
          · rw [upd_other _ _ hpi, upd_other _ _ hpi, upd_other _ _ hpi]

theorem findCtrlLoop_spec {w : Nat → Ctrl} {target p : Nat} (hp : (w p).idx = target) : ∀ (f i : Nat), i ≤ p → p < i + f →
    ∃ q, findCtrlLoop w target f i = .ok q ∧ i ≤ q ∧ q ≤ p ∧ (w q).idx = target := by
  intro f
  induction f with
  | zero => intro i h1 h2; omega
  | succ f ih =>
    intro i h1 h2
    unfold findCtrlLoop
    by_cases hx : (w i).idx = target
    · rw [if_pos hx]; exact ⟨i, rfl, Nat.le_refl _, h1, hx⟩
    · rw [if_neg hx]
      have : i ≠ p := by rintro rfl; exact hx hp
      obtain ⟨q, q1, q2, q3, q4⟩ := ih (i + 1) (by omega) (by omega)
      exact ⟨q, q1, by omega, q3, q4⟩

/-- The map after the element of slot `ei` has been removed. -/
structure Removed (E : Env K) (t t' : Map K V) (c ei : Nat) (ee : K × V) : Prop where
  good : Good E t' c
  perm : (ee :: entries t').Perm (entries t)
  slot : t'.slot = upd (upd t.slot ei (t.slot (t.size - 1))) (t.size - 1) none
  size : t'.size = t.size - 1
  mlf : t'.mlf = t.mlf
  rev : t'.rev = t.rev
  thr : t'.thr = t.thr

/-- Two used control words refer to different slots. -/
theorem Good.idx_inj {c : Nat} {t : Map K V} (hE : E.Lawful) (h : Good E t c) :
    ∀ p q, p < t.slen → q < t.slen → 0 ≤ (t.ctrl p).dist → 0 ≤ (t.ctrl q).dist → (t.ctrl p).idx = (t.ctrl q).idx → p = q := by
  intro p q hp hq h1 h2 h3
  obtain ⟨e, a1, a2, _, _, _⟩ := h.used hp h1
  obtain ⟨e', b1, b2, _, _, _⟩ := h.used hq h2
  rw [h3, b1] at a1
  cases a1
  have hdis := h.abs.distinct
  apply Classical.byContradiction
  intro hne
  have aux : ∀ p q, p < q → q < t.slen → (RobInd.abs c t).slot p = some e → (RobInd.abs c t).slot q = some e → False := by
    intro p q hpq hq x1 x2
    have hsl : (RobInd.abs c t).slen = t.slen := rfl
    unfold Robin.entries at hdis
    rw [hsl, show t.slen = (q) + (t.slen - q) by omega, List.range_add, List.filterMap_append, Distinct, List.pairwise_append] at hdis
    have := hdis.2.2 e (List.mem_filterMap.mpr ⟨p, List.mem_range.mpr hpq, x1⟩) e
      (List.mem_filterMap.mpr ⟨q, List.mem_map.mpr ⟨0, List.mem_range.mpr (by omega), by omega⟩, x2⟩)
    rw [hE.refl] at this
    cases this
  rcases Nat.lt_or_gt_of_ne hne with hlt | hlt
  · exact aux p q hlt hq a2 b2
  · exact aux q p hlt hp b2 a2

/-- `indirect_erase_slot` on the control word at index `i`. -/
theorem eraseSlot_spec {c : Nat} {t : Map K V} {i : Nat} (hE : E.Lawful) (h : Good E t c) (hi : i < t.slen)
    (hd : 0 ≤ (t.ctrl i).dist) : ∃ t' ee, t.slot (t.ctrl i).idx = some ee ∧ eraseSlot E i t = .ok t' ∧ Removed E t t' c (t.ctrl i).idx ee := by
  have hclen := h.toShape.clen_ge
  have hb := h.small
  have hei := h.idx i hi hd
  obtain ⟨ee, hee, hae, _, _, _⟩ := h.used hi hd
  have hinj := h.idx_inj hE
  obtain ⟨w', e1, e2⟩ := shiftLoop_sim (E := E) h.toShape (ei := (t.ctrl i).idx) _ t.ctrl i rfl hi (fun p hp => h.word hp) h.tail
    ⟨fun p q hp hq _ _ h1 h2 h3 => hinj p q hp hq h1 h2 h3, fun p hp hpi h1 h2 => hpi (hinj p i hp hi h1 hd h2)⟩
  -- the direct table
  obtain ⟨td, d1, d2, d3, _, _, _⟩ := Robin.eraseSlot_spec h.abs hE hi hae
  have hRs : Robin.eraseSlot i (abs c t) = .ok { abs c t with ctrl := absC t.slen c w', slot := absS t.slen t.slot w', size := t.size - 1 } := by
    unfold Robin.eraseSlot
    have hst : ({ abs c t with slot := upd (abs c t).slot i none } : Robin.Map K V) = carried c t i t.ctrl none := rfl
    have hcl := h.toShape.abs.clen_ge
    have hsl : (abs c t).slen = t.slen := rfl
    rw [hst, e2.direct _ (by omega), Res.bind_ok]
    rfl
  rw [hRs] at d1
  cases d1
  -- every slot but the erased one is still referred to
  have hcov : ∀ j, j < t.size → j ≠ (t.ctrl i).idx → ∃ q, q < t.slen ∧ 0 ≤ (w' q).dist ∧ (w' q).idx = j := by
    intro j hj hne
    have : j ∈ idxs t.slen t.ctrl := (h.idxs_perm hE).mem_iff.mpr (List.mem_range.mpr hj)
    obtain ⟨p, p1, p2, p3⟩ := mem_idxs.mp this
    have hpi : p ≠ i := by rintro rfl; exact hne p3.symm
    obtain ⟨q, q1, q2, q3⟩ := e2.kept p p1 hpi p2
    exact ⟨q, q1, q2, by rw [q3, p3]⟩
  have hwd : ∀ p, p < t.slen → 0 ≤ (w' p).dist → (w' p).idx < t.size ∧ ∃ e, t.slot (w' p).idx = some e ∧ (w' p).hash = ctrlHash E e.1 := by
    intro p hp hx
    rcases e2.words p hp with hw | ⟨_, _, hw3, hw4⟩
    · rw [hw] at hx; simp [Ctrl.empty] at hx
    · exact ⟨hw3, hw4⟩
  have hun : ∀ p, p < t.clen → (w' p).dist < 0 → w' p = Ctrl.empty := by
    intro p hp hx
    by_cases hs : p < t.slen
    · rcases e2.words p hs with hw | ⟨hw, _⟩
      · exact hw
      · omega
    · rw [e2.tail p (by omega)]; exact h.tail p (by omega) hp
  have hslots := h.size_le_slen
  unfold eraseSlot
  rw [e1, Res.bind_ok]
  simp only
  by_cases hlast : (t.ctrl i).idx = t.size - 1
  · rw [if_pos hlast]
    refine ⟨_, ee, hee, rfl, ?_⟩
    have habs : (abs c { t with ctrl := w', slot := upd t.slot (t.size - 1) none, size := t.size - 1 } : Robin.Map K V) =
        { abs c t with ctrl := absC t.slen c w', slot := absS t.slen t.slot w', size := t.size - 1 } := by
      simp only [abs]
      congr 1
      funext p
      by_cases hp : p < t.slen ∧ 0 ≤ (w' p).dist
      · rw [absS_used hp.1 hp.2, absS_used hp.1 hp.2]
        exact upd_other _ _ (by have := e2.ne p hp.1 hp.2; omega)
      · rw [absS_unused hp, absS_unused hp]
    have hgood : Good E { t with ctrl := w', slot := upd t.slot (t.size - 1) none, size := t.size - 1 } c := by
      refine { toShape := ⟨h.alloc, h.pow, h.mask, h.look, h.slen, h.last, h.clen⟩, some_ := ?_, none_ := ?_,
               abs := by rw [habs]; exact d2, idx := ?_, hash := ?_, unused := hun, tail := ?_, small := (show t.size - 1 ≤ 2 ^ 32 by omega) }
      · intro j hj
        have hj' : j < t.size - 1 := hj
        obtain ⟨e, he⟩ := h.some_ j (by omega)
        exact ⟨e, by show upd t.slot _ none j = _; rw [upd_other _ _ (by omega)]; exact he⟩
      · intro j hj
        have hj' : t.size - 1 ≤ j := hj
        show upd t.slot _ none j = _
        by_cases hjs : j = t.size - 1
        · subst hjs; exact upd_self _ _ _
        · rw [upd_other _ _ hjs]; exact h.none_ j (by omega)
      · intro p hp hx
        have hx1 := (hwd p hp hx).1
        have hx2 := e2.ne p hp hx
        show (w' p).idx < t.size - 1
        omega
      · intro p e hp hx he
        obtain ⟨_, e', y1, y2⟩ := hwd p hp hx
        have hx2 := e2.ne p hp hx
        have he' : upd t.slot (t.size - 1) none (w' p).idx = some e := he
        rw [upd_other _ _ (by omega), y1] at he'
        cases he'
        exact y2
      · intro p hp hpc
        show w' p = _
        rw [e2.tail p hp]; exact h.tail p hp hpc
    refine ⟨hgood, ?_, ?_, rfl, rfl, rfl, rfl⟩
    · have hp := hgood.entries_perm hE
      rw [habs] at hp
      exact ((hp.cons ee).symm.trans d3).trans (h.entries_perm hE)
    · show upd t.slot (t.size - 1) none = _
      rw [hlast]
      funext j
      by_cases hj : j = t.size - 1
      · subst hj; rw [upd_self, upd_self]
      · rw [upd_other _ _ hj, upd_other _ _ hj, upd_other _ _ hj]
  · rw [if_neg hlast]
    obtain ⟨el, hel⟩ := h.some_ (t.size - 1) (by omega)
    rw [hel]
    simp only
    obtain ⟨p, p1, p2, p3⟩ := hcov (t.size - 1) (by omega) (by omega)
    -- it stands at or after its home position
    have hhome : hm E c el.1 ≤ p := by
      have hsp : absS t.slen t.slot w' p = some el := by rw [absS_used p1 p2, p3, hel]
      rcases d2.cell p p1 with ⟨x1, _⟩ | ⟨e', x1, x2, _, _⟩
      · rw [show absS t.slen t.slot w' p = none from x1] at hsp; cases hsp
      · rw [show absS t.slen t.slot w' p = some e' from x1] at hsp; cases hsp; exact x2
    obtain ⟨q, q1, q2, q3, q4⟩ := findCtrlLoop_spec p3 (t.clen - home E t el.1) (home E t el.1)
      (by rw [h.toShape.home]; exact hhome) (by rw [h.toShape.home]; omega)
    have hqd : 0 ≤ (w' q).dist := by
      apply Classical.byContradiction
      intro hx
      rw [hun q (by omega) (by omega)] at q4
      simp [Ctrl.empty] at q4
      omega
    have hqs : q < t.slen := by omega
    rw [q1, Res.bind_ok]
    have hmod : (t.ctrl i).idx % 2 ^ 32 = (t.ctrl i).idx := Nat.mod_eq_of_lt (by omega)
    rw [hmod]
    refine ⟨_, ee, hee, rfl, ?_⟩
    have hother : ∀ r, r < t.slen → r ≠ q → 0 ≤ (w' r).dist → (w' r).idx ≠ t.size - 1 := by
      intro r hr hrq hx hy
      exact hrq (e2.inj r q hr hqs hx hqd (by rw [hy, q4]))
    have habs : (abs c { t with ctrl := upd w' q { w' q with idx := (t.ctrl i).idx }, slot := upd (upd t.slot (t.ctrl i).idx (some el)) (t.size - 1) none, size := t.size - 1 } : Robin.Map K V) =
        { abs c t with ctrl := absC t.slen c w', slot := absS t.slen t.slot w', size := t.size - 1 } := by
      simp only [abs]
      rw [absC_upd _ _ hqs]
      congr 1
      · funext r
        by_cases hr : r = q
        · subst hr; rw [upd_self, absC_lt hqs]
        · rw [upd_other _ _ hr]
      · rw [absS_upd _ _ _ hqs, if_pos hqd]
        funext r
        by_cases hr : r = q
        · subst hr
          rw [upd_self, absS_used hqs hqd, q4, hel]
          simp only
          rw [upd_other _ _ hlast, upd_self]
        · rw [upd_other _ _ hr]
          by_cases hp : r < t.slen ∧ 0 ≤ (w' r).dist
          · rw [absS_used hp.1 hp.2, absS_used hp.1 hp.2]
            rw [upd_other _ _ (hother r hp.1 hr hp.2), upd_other _ _ (e2.ne r hp.1 hp.2)]
          · rw [absS_unused hp, absS_unused hp]
    have hgood : Good E { t with ctrl := upd w' q { w' q with idx := (t.ctrl i).idx }, slot := upd (upd t.slot (t.ctrl i).idx (some el)) (t.size - 1) none, size := t.size - 1 } c := by
      refine { toShape := ⟨h.alloc, h.pow, h.mask, h.look, h.slen, h.last, h.clen⟩, some_ := ?_, none_ := ?_,
               abs := by rw [habs]; exact d2, idx := ?_, hash := ?_, unused := ?_, tail := ?_, small := (show t.size - 1 ≤ 2 ^ 32 by omega) }
      · intro j hj
        have hj' : j < t.size - 1 := hj
        show ∃ e, upd (upd t.slot (t.ctrl i).idx (some el)) (t.size - 1) none j = some e
        rw [upd_other _ _ (by omega)]
        by_cases hje : j = (t.ctrl i).idx
        · subst hje; exact ⟨el, upd_self _ _ _⟩
        · rw [upd_other _ _ hje]; exact h.some_ j (by omega)
      · intro j hj
        have hj' : t.size - 1 ≤ j := hj
        show upd (upd t.slot (t.ctrl i).idx (some el)) (t.size - 1) none j = none
        by_cases hjs : j = t.size - 1
        · subst hjs; exact upd_self _ _ _
        · rw [upd_other _ _ hjs, upd_other _ _ (by omega)]; exact h.none_ j (by omega)
      · intro r hr hx
        show (upd w' q { w' q with idx := (t.ctrl i).idx } r).idx < t.size - 1
        have hx' : 0 ≤ (upd w' q { w' q with idx := (t.ctrl i).idx } r).dist := hx
        by_cases hrq : r = q
        · subst hrq; rw [upd_self]; show (t.ctrl i).idx < _; omega
        · rw [upd_other _ _ hrq] at hx' ⊢
          have hx1 := (hwd r hr hx').1
          have hx2 := hother r hr hrq hx'
          omega
      · intro r e hr hx he
        have hx' : 0 ≤ (upd w' q { w' q with idx := (t.ctrl i).idx } r).dist := hx
        have he' : upd (upd t.slot (t.ctrl i).idx (some el)) (t.size - 1) none (upd w' q { w' q with idx := (t.ctrl i).idx } r).idx = some e := he
        show (upd w' q { w' q with idx := (t.ctrl i).idx } r).hash = _
        by_cases hrq : r = q
        · subst hrq
          rw [upd_self] at he' ⊢
          simp only at he' ⊢
          rw [upd_other _ _ hlast, upd_self] at he'
          cases he'
          obtain ⟨_, e', y1, y2⟩ := hwd r hqs hqd
          rw [q4, hel] at y1
          cases y1
          exact y2
        · rw [upd_other _ _ hrq] at hx' he' ⊢
          obtain ⟨_, e', y1, y2⟩ := hwd r hr hx'
          rw [upd_other _ _ (hother r hr hrq hx'), upd_other _ _ (e2.ne r hr hx'), y1] at he'
          cases he'
          exact y2
      · intro r hr hx
        have hx' : (upd w' q { w' q with idx := (t.ctrl i).idx } r).dist < 0 := hx
        show upd w' q _ r = _
        by_cases hrq : r = q
        · subst hrq; rw [upd_self] at hx'; simp only at hx'; omega
        · rw [upd_other _ _ hrq] at hx' ⊢; exact hun r hr hx'
      · intro p hp hpc
        show upd w' q _ p = _
        have hp' : t.slen ≤ p := hp
        rw [upd_other _ _ (by omega), e2.tail p hp]; exact h.tail p hp hpc
    refine ⟨hgood, ?_, ?_, rfl, rfl, rfl, rfl⟩
    · have hp := hgood.entries_perm hE
      rw [habs] at hp
      exact ((hp.cons ee).symm.trans d3).trans (h.entries_perm hE)
    · show upd (upd t.slot (t.ctrl i).idx (some el)) (t.size - 1) none = _
      rw [hel]

end Verif.RobInd
