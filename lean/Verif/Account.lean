/-
Accounting of the growth threshold: which histories can never make an insertion or a rehash spin.
-/
import Verif.History

namespace Verif
open Spec (Call Ans)

section
variable {K V : Type} {L : Layout} {H : Laws L} {E : Env K} {walk : Table K V → Res (List (K × V))}

/-- The outcome is not a hang, and every resulting object satisfies `P`. -/
def NoHang {α : Type} (P : Table K V → Prop) : Out (Table K V) α → Prop
  | .ok t' _ => P t'
  | .throw t' => P t'
  | .diverge => False
  | .ub => True

theorem NoHang.bind {α β : Type} {P : Table K V → Prop} {r : Out (Table K V) α} {f : Table K V → α → Out (Table K V) β}
    (h : NoHang P r) (hf : ∀ t a, P t → NoHang P (f t a)) : NoHang P (r.bind f) := by
  cases r with
  | ok t a => exact hf t a h
  | throw t => exact h
  | diverge => exact h
  | ub => trivial

theorem noHang_toOut {α : Type} {P : Table K V → Prop} {t : Table K V} (h : P t) {r : Res α} (hr : r ≠ .diverge) :
    NoHang P (r.toOut t) := by
  cases r with
  | ok a => exact h
  | diverge => exact hr rfl
  | ub => trivial

theorem calcThr_le {m s : Nat} (hm : m ≤ 224) (hs : s ≤ 2 ^ 55) : calcThr m s ≤ s := by
  unfold calcThr
  split
  · have h1 : s * m ≤ s * 224 := Nat.mul_le_mul_left _ hm
    rw [Nat.mod_eq_of_lt (by unfold W; omega)]
    omega
  · exact Nat.le_refl _

theorem calcThr_ge {m s : Nat} (h1 : 128 ≤ m) (hm : m ≤ 224) (hs : s ≤ 2 ^ 55) : s / 2 ≤ calcThr m s := by
  unfold calcThr
  split
  · have h2 : s * m ≤ s * 224 := Nat.mul_le_mul_left _ hm
    have h3 : s * 128 ≤ s * m := Nat.mul_le_mul_left _ h1
    rw [Nat.mod_eq_of_lt (by unfold W; omega)]
    omega
  · omega

theorem pow_le_51 {k : Nat} (h : k ≤ 55) : 2 ^ (k - 4) ≤ 2 ^ 51 := Nat.pow_le_pow_right (by omega) (by omega)

theorem NewStore.slotCap_eq {t' : Table K V} {k m : Nat} (hN : NewStore H E k m t') :
    t'.slotCap L = L.slotCap (2 ^ (k - 4)) := by
  unfold Table.slotCap
  rw [hN.gmask, pow_sub_add]

theorem NewStore.slotCap_le {t' : Table K V} {k m : Nat} (hN : NewStore H E k m t') :
    L.slotCap (2 ^ (k - 4)) ≤ 2 ^ 55 := by
  have h1 := H.slotCap_spec (2 ^ (k - 4)) (Nat.two_pow_pos _)
  have h2 := H.S_le
  have h3 := pow_le_51 hN.k_le
  have : 2 ^ (k - 4) * L.S ≤ 2 ^ 51 * 16 := Nat.mul_le_mul h3 h2
  omega

theorem NewStore.thr_le {t' : Table K V} {k m : Nat} (hN : NewStore H E k m t') (hm : m ≤ 224) :
    t'.thr ≤ t'.slotCap L := by
  rw [hN.slotCap_eq, hN.thr]
  exact calcThr_le hm hN.slotCap_le

/-! ### Without erasures: both layouts -/

/-- Holds as long as no element has been erased: the threshold never exceeds the slots, and overflow marks
are only on groups without an empty slot. -/
def AccN (H : Laws L) (t : Table K V) : Prop := t.thr ≤ t.slotCap L ∧ (L.bump = true → Fresh H t)

theorem Inv.accN_emplace {t : Table K V} (hI : Inv H E t) (hA : AccN H t) {update mem : Bool} {k : K} {v : V}
    {r : Out (Table K V) (Nat × Bool)} (hC : EmplaceCase H E t update mem k v r) : NoHang (AccN H) r := by
  cases hC with
  | found i e hi hk => cases update <;> exact hA
  | throw hk hs h => exact hA
  | placed i t' hk hs hP =>
    cases hb : L.bump with
    | false =>
      have ht : t'.thr = t.thr := by
        rcases hP.thr with h | ⟨h, _⟩
        · exact h
        · rw [hb] at h; cases h
      refine ⟨?_, fun h => by rw [hb] at h; cases h⟩
      rw [ht, Table.slotCap, hP.gmask]; exact hA.1
    | true =>
      obtain ⟨h1, h2, _⟩ := hP.fresh (hA.2 hb)
      refine ⟨?_, fun _ => h1⟩
      rw [h2, Table.slotCap, hP.gmask]; exact hA.1
  | grown i t1 t' hk hs hm c hc hN hp hP =>
    obtain ⟨h1, h2, _⟩ := hP.fresh hN.fresh
    refine ⟨?_, fun _ => h1⟩
    have := hN.thr_le hI.mlf_hi
    rw [h2, Table.slotCap, hP.gmask]; exact this
  | diverge hk hs hfull =>
    have := hA.1
    omega

theorem Inv.accN_rehash {t : Table K V} (hI : Inv H E t) (hA : AccN H t) {shrink mem : Bool} {n : Nat}
    {r : Out (Table K V) Unit} (hC : RehashCase H E t shrink mem n r)
    (hfit : ∀ k, shrink = true → calcCapacity t.size n = .ok (2 ^ k) → t.size ≤ L.slotCap (2 ^ (k - 4))) :
    NoHang (AccN H) r := by
  cases hC with
  | ub h => trivial
  | throw k hk hc h => exact hA
  | same k hk hc h => exact hA
  | moved k t' hm hc h hN hp => exact ⟨hN.thr_le hI.mlf_hi, fun _ => hN.fresh⟩
  | diverge k hm hk hs hc h =>
    have := hfit k hs hc
    omega

theorem accN_empty (m : Nat) : AccN H (emptyTable L m : Table K V) := by
  refine ⟨Nat.zero_le _, fun _ => ?_⟩
  intro g y _ hy
  have : L.isOverflow L.static y = false := H.ovf_static y
  rw [show (emptyTable L m : Table K V).grp g = L.static from rfl, this] at hy
  cases hy

/-! ### With erasures: fifteen-slot groups -/

/-- The threshold keeps up with the number of elements.  The second alternative is the state after a
`max_load_factor` call whose rehash ran out of memory, followed by a growth. -/
def AccE (E : Env K) (t : Table K V) : Prop :=
  t.thr ≤ t.slotCap layout15 ∧
    (t.size ≤ t.thr ∨
      (t.size ≤ t.thr + 1 ∧ ∃ i e, t.slot i = some e ∧
        layout15.isOverflow (t.grp (i / 15)) (layout15.tag (E.h e.1)) = false))

theorem AccE.accN {t : Table K V} (h : AccE E t) : AccN laws15 t := ⟨h.1, fun h => by cases h⟩

theorem accE_empty (m : Nat) : AccE E (emptyTable layout15 m : Table K V) := ⟨Nat.zero_le _, Or.inl (Nat.zero_le _)⟩

theorem slotCap15 (j : Nat) : layout15.slotCap (2 ^ j) = 2 ^ j * 15 - 1 := rfl

/-- New storage of larger capacity: the old contents are below the new threshold. -/
theorem Inv.size_le_newThr {t t' : Table K V} (hI : Inv laws15 E t) {k : Nat} (hN : NewStore laws15 E k t.mlf t')
    (hk : t.ctrlCap layout15 < 2 ^ k) : t.size ≤ t'.thr := by
  rcases hI.st with h | h
  · rw [h]; exact Nat.zero_le _
  · obtain ⟨j, h1, h2, h3, h4, _⟩ := h.ctrlCap_eq
    have h5 := h.size_le_slotCap
    rw [Table.slotCap, h3, pow_sub_add, slotCap15] at h5
    rw [hN.thr]
    refine Nat.le_trans ?_ (calcThr_ge hI.mlf_lo hI.mlf_hi hN.slotCap_le)
    rw [slotCap15]
    rw [h4] at hk
    have h6 : j + 4 < k := (Nat.pow_lt_pow_iff_right (by omega)).mp hk
    have h7 : 2 ^ (j + 1) ≤ 2 ^ (k - 4) := Nat.pow_le_pow_right (by omega) (by omega)
    rw [Nat.pow_succ] at h7
    omega

theorem Inv.accE_emplace {t : Table K V} (hI : Inv laws15 E t) (hA : AccE E t) {update mem : Bool} {k : K} {v : V}
    {r : Out (Table K V) (Nat × Bool)} (hC : EmplaceCase laws15 E t update mem k v r) : NoHang (AccE E) r := by
  cases hC with
  | found i e hi hk =>
    cases update with
    | false => exact hA
    | true =>
      refine ⟨hA.1, ?_⟩
      rcases hA.2 with h | ⟨h, j, b, hj, hb⟩
      · exact Or.inl h
      · refine Or.inr ⟨h, ?_⟩
        by_cases hij : j = i
        · subst hij
          rw [hi] at hj
          cases hj
          exact ⟨j, (e.1, v), upd_self _ _ _, hb⟩
        · exact ⟨j, b, by show upd _ _ _ j = _; rw [upd_other _ _ hij]; exact hj, hb⟩
  | throw hk hs h => exact hA
  | placed i t' hk hs hP =>
    have ht : t'.thr = t.thr := by
      rcases hP.thr with h | ⟨h, _⟩
      · exact h
      · cases h
    refine ⟨?_, Or.inl ?_⟩
    · rw [ht, Table.slotCap, hP.gmask]; exact hA.1
    · rw [ht, hP.size]; omega
  | grown i t1 t' hk hs hm c hc hN hp hP =>
    obtain ⟨h1, h2, h3⟩ := hP.fresh hN.fresh
    have hcap : t.ctrlCap layout15 < 2 ^ c := by
      have : 0 < t.ctrlCap layout15 ∨ t.ctrlCap layout15 = 0 := by omega
      omega
    have h4 := hI.size_le_newThr hN hcap
    refine ⟨?_, Or.inr ⟨?_, i, (k, v), hP.at_i, h3 _⟩⟩
    · have := hN.thr_le hI.mlf_hi
      rw [h2, Table.slotCap, hP.gmask]; exact this
    · have h5 : t1.size = t.size := by
        rw [hN.inv.size, hp.length_eq, hI.size_eq]
      rw [h2, hP.size, h5]; omega
  | diverge hk hs hfull =>
    have := hA.1
    omega

theorem Inv.accE_rehash {t : Table K V} (hI : Inv laws15 E t) (hA : AccE E t) {mem : Bool} {n : Nat}
    {r : Out (Table K V) Unit} (hC : RehashCase laws15 E t false mem n r) : NoHang (AccE E) r := by
  cases hC with
  | ub h => trivial
  | throw k hk hc h => exact hA
  | same k hk hc h => exact hA
  | moved k t' hm hc h hN hp =>
    refine ⟨hN.thr_le hI.mlf_hi, Or.inl ?_⟩
    have h5 : t'.size = t.size := by
      rw [hN.inv.size, hp.length_eq, hI.size_eq]
    rw [h5]
    exact hI.size_le_newThr hN h
  | diverge k hm hk hs hc h => cases hs

theorem Inv.accE_erase {t : Table K V} (hI : Inv laws15 E t) (hA : AccE E t) {k : K}
    {r : Out (Table K V) Nat} (hC : EraseCase laws15 E t k r) : NoHang (AccE E) r := by
  cases hC with
  | absent hk => exact hA
  | removed g p e hp hi hk hI' hperm =>
    have hp : p < 15 := hp
    have hi : t.slot (g * 15 + p) = some e := hi
    have hIA := hI.slot_lt hi
    have hlt := hIA.idx_lt hi
    have hval : layout15.isOverflow (t.grp g) (layout15.value (t.grp g) p) =
        layout15.isOverflow (t.grp g) (layout15.tag (E.h e.1)) := by
      apply laws15.ovf_value _ _ _ hp
      have := hIA.used _ _ hlt hi
      rw [show (g * 15 + p) = g * layout15.S + p from rfl, cell_gp laws15 t hp] at this
      exact this
    have hthr : t.thr < W := by
      have h1 := hA.1
      have := hIA.ctrlCap_eq
      obtain ⟨j, h1, h2, h3, _⟩ := hIA.geom
      have h4 : t.slotCap layout15 = 2 ^ j * 15 - 1 := by rw [Table.slotCap, h3, pow_sub_add, slotCap15]
      have h5 : 2 ^ j ≤ 2 ^ 51 := Nat.pow_le_pow_right (by omega) h2
      unfold W; omega
    have hsz : 1 ≤ t.size := by
      rw [hI.size_eq, hperm.length_eq]; simp
    have hnothr : InvA.erased layout15 g p t = { InvA.erased layout15 g p t with
        thr := t.thr - (if layout15.isOverflow (t.grp g) (layout15.tag (E.h e.1)) then 1 else 0) } ∨
        (layout15.isOverflow (t.grp g) (layout15.tag (E.h e.1)) = true ∧ t.thr = 0) := by
      by_cases hz : layout15.isOverflow (t.grp g) (layout15.tag (E.h e.1)) = true ∧ t.thr = 0
      · exact Or.inr hz
      · left
        have hb : (if layout15.isOverflow (t.grp g) (layout15.tag (E.h e.1)) then 1 else 0) ≤ t.thr := by
          split
          · rename_i h
            have : t.thr ≠ 0 := fun h' => hz ⟨h, h'⟩
            omega
          · omega
        have : (InvA.erased layout15 g p t).thr =
            t.thr - (if layout15.isOverflow (t.grp g) (layout15.tag (E.h e.1)) then 1 else 0) := by
          simp only [InvA.erased, hval]
          generalize (if layout15.isOverflow (t.grp g) (layout15.tag (E.h e.1)) = true then 1 else 0) = b at hb ⊢
          rw [show t.thr + W - b = (t.thr - b) + W by omega, Nat.add_mod_right, Nat.mod_eq_of_lt (by omega)]
        rw [← this]
    have hwit : ∀ i b, t.slot i = some b → layout15.isOverflow (t.grp (i / 15)) (layout15.tag (E.h b.1)) = false →
        layout15.isOverflow (t.grp g) (layout15.tag (E.h e.1)) = true →
        i ≠ g * 15 + p ∧ (InvA.erased layout15 g p t).slot i = some b ∧
          layout15.isOverflow ((InvA.erased layout15 g p t).grp (i / 15)) (layout15.tag (E.h b.1)) = false := by
      intro i b hb ho hov
      have hne : i ≠ g * 15 + p := by
        intro h
        rw [h, hi] at hb
        cases hb
        rw [h, show (g * 15 + p) / 15 = g by omega, hov] at ho
        cases ho
      refine ⟨hne, ?_, ?_⟩
      · show upd _ _ _ i = _
        rw [show g * layout15.S + p = g * 15 + p from rfl, upd_other _ _ hne]; exact hb
      · show layout15.isOverflow (upd _ _ _ (i / 15)) _ = _
        by_cases hg : i / 15 = g
        · rw [hg, upd_self, laws15.ovf_setEmpty _ _ _ hp, ← hg]; exact ho
        · rw [upd_other _ _ hg]; exact ho
    -- a mark on the erased element's group forces a positive threshold
    have hpos : ¬(layout15.isOverflow (t.grp g) (layout15.tag (E.h e.1)) = true ∧ t.thr = 0) := by
      rintro ⟨hov, hz⟩
      rcases hA.2 with h | ⟨h, i, b, hb, ho⟩
      · omega
      · obtain ⟨hne, hb', _⟩ := hwit i b hb ho hov
        have h1 : b ∈ entries layout15 (InvA.erased layout15 g p t) := (hI'.mem_iff).mpr ⟨i, hb'⟩
        have h2 : 1 ≤ (entries layout15 (InvA.erased layout15 g p t)).length := List.length_pos_of_mem h1
        have h3 := hI.size_eq
        rw [hperm.length_eq, List.length_cons] at h3
        omega
    have hthr' : (InvA.erased layout15 g p t).thr =
        t.thr - (if layout15.isOverflow (t.grp g) (layout15.tag (E.h e.1)) then 1 else 0) := by
      rcases hnothr with h | h
      · rw [h]
      · exact (hpos h).elim
    have hsize' : (InvA.erased layout15 g p t).size = t.size - 1 := rfl
    refine ⟨?_, ?_⟩
    · have : (InvA.erased layout15 g p t).slotCap layout15 = t.slotCap layout15 := rfl
      have := hA.1
      omega
    · rw [hthr', hsize']
      rcases hA.2 with h | ⟨h, i, b, hb, ho⟩
      · left; split <;> omega
      · cases hov : layout15.isOverflow (t.grp g) (layout15.tag (E.h e.1)) with
        | false =>
          left
          simp only [Bool.false_eq_true, if_false]
          omega
        | true =>
          obtain ⟨_, hb', ho'⟩ := hwit i b hb ho hov
          right
          have : t.thr ≠ 0 := fun h' => hpos ⟨hov, h'⟩
          refine ⟨?_, i, b, hb', ho'⟩
          simp only [if_true]
          omega

/-! ### Whole calls -/

/-- Lookups and iteration of a reachable table never hang. -/
theorem Inv.noHang_read {P : Table K V → Prop} {t : Table K V} (hI : Inv H E t) (hE : E.Lawful)
    (hwalk : ∀ t, Inv H E t → walk t = .ok (entries L t)) (hP : P t) (mem : Bool) (c : Call K V)
    (hc : c.allocates = false) (hne : ∀ k, c ≠ .erase k) (hcl : ∀ d, c ≠ .clear d) :
    NoHang P (exec L E walk mem c t) := by
  cases c with
  | insert k v => cases hc
  | assign k v => cases hc
  | index k v => cases hc
  | reserve n => cases hc
  | rehash n => cases hc
  | shrink n => cases hc
  | maxLoad n => cases hc
  | erase k => exact absurd rfl (hne k)
  | clear d => exact absurd rfl (hcl d)
  | find k => simp only [exec, hI.lookup_eq hE]; exact hP
  | contains k => simp only [exec, hI.contains_eq hE]; exact hP
  | count k => simp only [exec, hI.contains_eq hE]; exact hP
  | «at» k => simp only [exec, hI.lookup_eq hE]; exact hP
  | size => exact hP
  | empty => exact hP
  | iterate => simp only [exec, hwalk t hI]; exact hP

theorem noHang_readElem {P : Table K V → Prop} {t : Table K V} (h : P t) (r : Nat × Bool) : NoHang P (readElem t r) := by
  unfold readElem
  cases t.slot r.1 with
  | none => trivial
  | some e => exact h

theorem noHang_readValue {P : Table K V → Prop} {t : Table K V} (h : P t) (r : Nat × Bool) : NoHang P (readValue t r) := by
  unfold readValue
  cases t.slot r.1 with
  | none => trivial
  | some e => exact h

/-- No call except `erase` and the shrinking ones can hang or break the accounting. -/
theorem Inv.noHang_main {P : Table K V → Prop} {t : Table K V} (hI : Inv H E t) (hE : E.Lawful)
    (hwalk : ∀ t, Inv H E t → walk t = .ok (entries L t)) (hP : P t)
    (hempty : ∀ m, P (emptyTable L m))
    (hclr : t.alloc = true → P (cleared L t))
    (mem : Bool) (c : Call K V) (hmlf : ∀ m, c = .maxLoad m → P { t with mlf := m })
    (hemp : ∀ update mem k v r, EmplaceCase H E t update mem k v r → NoHang P r)
    (hreh : ∀ t1 : Table K V, Inv H E t1 → P t1 → ∀ mem n r, RehashCase H E t1 false mem n r → NoHang P r)
    (hreh' : ((∃ n, c = .rehash n) ∨ ∃ m, c = .maxLoad m) → ∀ t1 : Table K V, Inv H E t1 → P t1 → ∀ mem n r, fitCapacity t1.mlf t1.size ≤ n →
      RehashCase H E t1 L.rehashShrinks mem n r → NoHang P r)
    (hv : Valid c) (hne : ∀ k, c ≠ .erase k) (hsh : ∀ b, c ≠ .shrink b) :
    NoHang P (exec L E walk mem c t) := by
  have hR : ((∃ n, c = .rehash n) ∨ ∃ m, c = .maxLoad m) → ∀ t1 : Table K V, Inv H E t1 → P t1 → ∀ n, NoHang P (rehash L E mem n t1) := by
    intro hc t1 hI1 hP1 n
    unfold rehash
    simp only
    split
    · exact hreh' hc t1 hI1 hP1 mem _ _ (Nat.le_max_left _ _) (hI1.rehashImpl_cases hE _ mem _)
    · rw [hI1.destroy_eq]; exact hempty _
  cases hc : c.allocates with
  | false =>
    by_cases hcl : ∃ d, c = .clear d
    · obtain ⟨d, rfl⟩ := hcl
      simp only [exec, clear]
      refine NoHang.bind ?_ (fun t a h => h)
      cases d with
      | true => simp only [if_true]; rw [hI.destroy_eq]; exact hempty _
      | false =>
        simp only [Bool.false_eq_true, if_false]
        rcases hI.clearData_eq with ⟨h1, h2, h3, h4, h5⟩ | ⟨h1, h2, h3⟩ | ⟨h1, h2, h3⟩
        · rw [h2]; exact hclr h1
        · rw [h3]; trivial
        · rw [h3]; exact hP
    · exact hI.noHang_read hE hwalk hP mem c hc hne (fun d h => hcl ⟨d, h⟩)
  | true =>
    cases c with
    | insert k v =>
      exact NoHang.bind (hemp _ _ _ _ _ (hI.emplace_cases hE false mem k v)) fun t a h => noHang_readElem h a
    | assign k v =>
      exact NoHang.bind (hemp _ _ _ _ _ (hI.emplace_cases hE true mem k v)) fun t a h => noHang_readElem h a
    | index k v =>
      exact NoHang.bind (hemp _ _ _ _ _ (hI.emplace_cases hE false mem k v)) fun t a h => noHang_readValue h a
    | reserve n =>
      simp only [exec, reserve]
      by_cases hw : wrapRisk L mem (fitCapacity t.mlf n) = true
      · rw [if_pos hw]; trivial
      rw [if_neg hw]
      refine NoHang.bind ?_ (fun t a h => h)
      split
      · exact hreh t hI hP mem _ _ (hI.rehashImpl_cases hE _ mem _)
      · rw [hI.destroy_eq]; exact hempty _
    | rehash n =>
      simp only [exec]
      by_cases hw : wrapRisk L mem n = true
      · rw [if_pos hw]; trivial
      rw [if_neg hw]
      exact NoHang.bind (hR (Or.inl ⟨n, rfl⟩) t hI hP n) (fun t a h => h)
    | shrink b => exact absurd rfl (hsh b)
    | maxLoad x =>
      obtain ⟨h1, h2⟩ := hv
      simp only [exec, setMlf]
      refine NoHang.bind ?_ (fun t a h => h)
      cases hc : calcCapacity t.size (fitCapacity x (Table.ctrlCap L { t with mlf := x })) with
      | diverge => exact absurd hc calcCapacity_diverge
      | ub => trivial
      | ok cap =>
        simp only
        split
        · exact hR (Or.inr ⟨x, rfl⟩) _ (hI.set_mlf h1 h2) (hmlf x rfl) cap
        · exact hmlf x rfl
    | erase k => cases hc
    | clear k => cases hc
    | find k => cases hc
    | contains k => cases hc
    | count k => cases hc
    | «at» k => cases hc
    | size => cases hc
    | empty => cases hc
    | iterate => cases hc

/-- Fifteen-slot groups: no call except `shrink_to_fit` can hang or break the accounting. -/
theorem Inv.exec15 {t : Table K V} (hI : Inv laws15 E t) (hE : E.Lawful)
    (hwalk : ∀ t, Inv laws15 E t → walk t = .ok (entries layout15 t)) (hA : AccE E t)
    (mem : Bool) (c : Call K V) (hv : Valid c) (hsh : ∀ b, c ≠ .shrink b) :
    NoHang (AccE E) (exec layout15 E walk mem c t) := by
  by_cases he : ∃ k, c = .erase k
  · obtain ⟨k, rfl⟩ := he
    exact NoHang.bind (hI.accE_erase hA (hI.erase_cases hE k)) (fun t a h => h)
  · refine hI.noHang_main hE hwalk hA accE_empty ?_ mem c ?_ ?_ ?_ ?_ hv (fun k h => he ⟨k, h⟩) hsh
    · intro _
      exact ⟨hA.1, Or.inl (Nat.zero_le _)⟩
    · intro m _; exact hA
    · intro _ _ _ _ _ h; exact hI.accE_emplace hA h
    · intro t1 hI1 hA1 _ _ _ h; exact hI1.accE_rehash hA1 h
    · intro _ t1 hI1 hA1 _ _ _ _ h; exact hI1.accE_rehash hA1 h

theorem slotCap16 (j : Nat) : layout16.slotCap (2 ^ j) = 2 ^ j * 16 := rfl

/-- Fifteen-slot groups: `shrink_to_fit()` leaves room for all elements. -/
theorem fit15 {m s s0 k : Nat} (h0 : 128 ≤ m) (hm : m ≤ 224) (hs : s ≤ 2 ^ 55)
    (hc : calcCapacity s0 (fitCapacity m s) = .ok (2 ^ k)) : s ≤ layout15.slotCap (2 ^ (k - 4)) := by
  obtain ⟨k', h1, h2, h3, _, _⟩ := calcCapacity_ok hc
  have hk : k = k' := Nat.pow_right_injective (Nat.le_refl 2) h1
  subst hk
  rw [slotCap15]
  unfold fitCapacity at h3
  rw [Nat.mod_eq_of_lt (by unfold W; omega)] at h3
  have h4 : s * 256 < (2 ^ k + 1) * m := by
    have := Nat.lt_mul_div_succ (s * 256) (by omega : 0 < m)
    calc s * 256 < m * (s * 256 / m + 1) := this
      _ ≤ m * (2 ^ k + 1) := Nat.mul_le_mul_left _ (by omega)
      _ = _ := Nat.mul_comm _ _
  have h5 : (2 ^ k + 1) * m ≤ (2 ^ k + 1) * 224 := Nat.mul_le_mul_left _ hm
  obtain ⟨q, rfl⟩ : ∃ q, k = q + 5 := ⟨k - 5, by omega⟩
  rw [show q + 5 - 4 = q + 1 by omega]
  rw [Nat.pow_add] at h4 h5
  rw [Nat.pow_succ]
  have := Nat.two_pow_pos q
  omega

/-- Fifteen-slot groups: no call except `erase` and `shrink_to_fit(true)` can hang or push the threshold beyond
the number of slots. -/
theorem Inv.exec15N {t : Table K V} (hI : Inv laws15 E t) (hE : E.Lawful)
    (hwalk : ∀ t, Inv laws15 E t → walk t = .ok (entries layout15 t)) (hA : AccN laws15 t)
    (mem : Bool) (c : Call K V) (hv : Valid c) (hne : ∀ k, c ≠ .erase k) (hsh : c ≠ .shrink true) :
    NoHang (AccN laws15) (exec layout15 E walk mem c t) := by
  by_cases hs : c = .shrink false
  · subst hs
    simp only [exec, shrinkToFit]
    refine NoHang.bind ?_ (fun t a h => h)
    simp only [Bool.false_eq_true, if_false]
    split
    · refine hI.accN_rehash hA (hI.rehashImpl_cases hE _ mem _) ?_
      intro k _ hc
      exact fit15 hI.mlf_lo hI.mlf_hi hI.size_le hc
    · rw [hI.destroy_eq]; exact accN_empty _
  · refine hI.noHang_main hE hwalk hA accN_empty ?_ mem c ?_ ?_ ?_ ?_ hv hne ?_
    · intro _
      exact ⟨hA.1, fun h => by cases h⟩
    · intro m _; exact hA
    · intro _ _ _ _ _ h; exact hI.accN_emplace hA h
    · intro t1 hI1 hA1 _ _ _ h; exact hI1.accN_rehash hA1 h (fun k h => by cases h)
    · intro _ t1 hI1 hA1 _ _ _ _ h; exact hI1.accN_rehash hA1 h (fun k h => by cases h)
    · intro b h
      cases b
      · exact hs h
      · exact hsh h

/-- Sixteen-slot groups: every new capacity has room for all elements. -/
theorem fit16 {s n k : Nat} (hc : calcCapacity s n = .ok (2 ^ k)) : s ≤ layout16.slotCap (2 ^ (k - 4)) := by
  obtain ⟨k', h1, h2, h3, h4, _⟩ := calcCapacity_ok hc
  have hk : k = k' := Nat.pow_right_injective (Nat.le_refl 2) h1
  subst hk
  rw [slotCap16]
  obtain ⟨q, rfl⟩ : ∃ q, k = q + 5 := ⟨k - 5, by omega⟩
  rw [show q + 5 - 4 = q + 1 by omega, Nat.pow_succ]
  rw [Nat.pow_add] at h4
  omega

/-- Sixteen-slot groups: no call except `erase` can hang or push the threshold beyond the number of slots. -/
theorem Inv.exec16N {t : Table K V} (hI : Inv laws16 E t) (hE : E.Lawful)
    (hwalk : ∀ t, Inv laws16 E t → walk t = .ok (entries layout16 t)) (hA : AccN laws16 t)
    (mem : Bool) (c : Call K V) (hv : Valid c) (hne : ∀ k, c ≠ .erase k) :
    NoHang (AccN laws16) (exec layout16 E walk mem c t) := by
  by_cases hs : ∃ b, c = .shrink b
  · obtain ⟨b, rfl⟩ := hs
    simp only [exec, shrinkToFit]
    refine NoHang.bind ?_ (fun t a h => h)
    generalize (if b = true then t.size else fitCapacity t.mlf t.size) = n
    split
    · refine hI.accN_rehash hA (hI.rehashImpl_cases hE _ mem _) ?_
      intro k _ hc
      exact fit16 hc
    · rw [hI.destroy_eq]; exact accN_empty _
  · refine hI.noHang_main hE hwalk hA accN_empty ?_ mem c ?_ ?_ ?_ ?_ hv hne (fun b h => hs ⟨b, h⟩)
    · intro hal
      rcases hI.clearData_eq with ⟨h1, h2, h3, h4, h5⟩ | ⟨h1, h2, h3⟩ | ⟨h1, h2, h3⟩
      · exact ⟨hA.1, fun _ => h4⟩
      · rw [h1] at hal; cases hal
      · rw [h1] at hal; cases hal
    · intro m _; exact hA
    · intro _ _ _ _ _ h; exact hI.accN_emplace hA h
    · intro t1 hI1 hA1 _ _ _ h; exact hI1.accN_rehash hA1 h (fun k h => by cases h)
    · intro _ t1 hI1 hA1 _ _ _ _ h; exact hI1.accN_rehash hA1 h (fun k _ hc => fit16 hc)

end
end Verif
