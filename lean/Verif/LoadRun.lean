/-
The load factors along histories (C124): `load_factor()` never exceeds `max_load_factor()`, and where it does.

T15 = src/jstd/hashmap/group15_flat_table.hpp, T16 = src/jstd/hashmap/group16_flat_table.hpp, RB = src/jstd/hashmap/robin_hash_map.h,
FL = src/jstd/hashmap/flat16_hash_map.h, R16 = src/jstd/hashmap/robin16_hash_map.h.
-/
import Verif.LoadFactor
import Verif.Copy
import Verif.FlatBugs
import Verif.RobinLoad
import Verif.RobIndLoad
import Verif.Rob16Bugs

namespace Verif
open Spec (Call Ans)

/-! ### group15 -/

section
variable {K V : Type} {E : Env K}

/-- The threshold is at most the share of the slots that `max_load_factor()` allows, and the elements are below it.  (With
`max_load_factor()` below 131/256 the growth from 29 to 59 slots breaks this.) -/
def Below (t : Table K V) : Prop := 131 ≤ t.mlf → t.thr ≤ calcThr t.mlf (t.slotCap layout15) ∧ t.size ≤ t.thr

theorem below_empty (m : Nat) : Below (emptyTable layout15 m : Table K V) := fun _ => ⟨Nat.zero_le _, Nat.zero_le _⟩

theorem NewStore.below {t t' : Table K V} (hI : Inv laws15 E t) {k : Nat} (hN : NewStore laws15 E k t.mlf t')
    (hp : (entries layout15 t').Perm (entries layout15 t)) (hk : t.ctrlCap layout15 < 2 ^ k) : Below t' := by
  intro _
  have h5 : t'.size = t.size := by rw [hN.inv.size, hp.length_eq, hI.size_eq]
  refine ⟨?_, by rw [h5]; exact hI.size_le_newThr hN hk⟩
  rw [hN.slotCap_eq, hN.thr, hN.mlf]

theorem calcThr_eq {m s : Nat} (hs : 32 < s) (hm : m ≤ 224) (h2 : s ≤ 2 ^ 55) : calcThr m s = s * m / 256 := by
  unfold calcThr
  rw [if_pos hs, Nat.mod_eq_of_lt]
  have : s * m ≤ s * 224 := Nat.mul_le_mul_left _ hm
  unfold W; omega

theorem Inv.below_emplace {t : Table K V} (hI : Inv laws15 E t) (hA : Below t) {update mem : Bool} {k : K} {v : V}
    {r : Out (Table K V) (Nat × Bool)} (hC : EmplaceCase laws15 E t update mem k v r) (hr : r ≠ .diverge) : NoHang Below r := by
  cases hC with
  | found i e hi hk => cases update <;> exact hA
  | throw hk hs h => exact hA
  | placed i t' hk hs hP =>
    have ht : t'.thr = t.thr := by
      rcases hP.thr with h | ⟨h, _⟩
      · exact h
      · cases h
    intro h
    rw [hP.mlf] at h
    obtain ⟨h1, h2⟩ := hA h
    rw [ht, Table.slotCap, hP.gmask, hP.mlf, hP.size]
    exact ⟨h1, by omega⟩
  | grown i t1 t' hk hs hm c hc hN hp hP =>
    obtain ⟨_, h2, _⟩ := hP.fresh hN.fresh
    intro h
    rw [hP.mlf, hN.mlf] at h
    obtain ⟨h3, h4⟩ := hA h
    have h5 : t1.size = t.size := by rw [hN.inv.size, hp.length_eq, hI.size_eq]
    have h6 : t'.slotCap layout15 = layout15.slotCap (2 ^ (c - 4)) := by
      rw [← hN.slotCap_eq]; unfold Table.slotCap; rw [hP.gmask]
    rw [h2, hP.mlf, hN.mlf, hN.thr, h6, hP.size, h5]
    refine ⟨Nat.le_refl _, ?_⟩
    have hlo := hI.mlf_lo
    have hhi := hI.mlf_hi
    have hle := hN.slotCap_le
    rcases hI.st with he | hJ
    · have : t.size = 0 := by rw [he]; rfl
      have hcap := calcThr_ge hI.mlf_lo hI.mlf_hi hN.slotCap_le
      rw [slotCap15] at hcap ⊢
      have : 2 ≤ 2 ^ (c - 4) := by
        have := Nat.pow_le_pow_right (n := 2) (by omega) (show 1 ≤ c - 4 by have := hN.k_ge; omega)
        omega
      omega
    · obtain ⟨j, j1, j2, j3, j4, _⟩ := hJ.ctrlCap_eq
      have hs1 : t.slotCap layout15 = 2 ^ j * 15 - 1 := by rw [Table.slotCap, j3, pow_sub_add, slotCap15]
      have hj : 2 ≤ 2 ^ j := by
        have := Nat.pow_le_pow_right (n := 2) (by omega) j1
        omega
      have hcj : c = j + 5 := by
        rw [j4] at hc
        have : 2 ^ (j + 4) = 16 * 2 ^ j := by rw [Nat.pow_add]; omega
        have h7 : 2 ^ c = 2 ^ (j + 5) := by rw [hc, Nat.pow_succ 2 (j + 4)]; omega
        exact Nat.pow_right_injective (Nat.le_refl 2) h7
      have hs2 : layout15.slotCap (2 ^ (c - 4)) = 2 ^ j * 30 - 1 := by
        rw [slotCap15, hcj, show j + 5 - 4 = j + 1 by omega, Nat.pow_succ]; omega
      rw [hs2] at hle ⊢
      rw [calcThr_eq (by omega) hhi hle]
      rw [hs1] at h3
      by_cases hj1 : j = 1
      · subst hj1
        have : (2 ^ 1 * 30 - 1) * 131 ≤ (2 ^ 1 * 30 - 1) * t.mlf := Nat.mul_le_mul_left _ h
        have h8 : calcThr t.mlf (2 ^ 1 * 15 - 1) = 29 := rfl
        omega
      · have hj4 : 4 ≤ 2 ^ j := by
          have := Nat.pow_le_pow_right (n := 2) (by omega) (show 2 ≤ j by omega)
          omega
        rw [calcThr_eq (by omega) hhi (by omega)] at h3
        have h8 : (2 ^ j * 15 - 1) * t.mlf + (2 ^ j * 15) * t.mlf = (2 ^ j * 30 - 1) * t.mlf := by
          rw [← Nat.add_mul]; congr 1; omega
        have h9 : 60 * t.mlf ≤ 2 ^ j * 15 * t.mlf := Nat.mul_le_mul_right _ (by omega)
        omega
  | diverge hk hs hfull => exact absurd rfl hr

theorem Inv.below_rehash {t : Table K V} (hI : Inv laws15 E t) (hA : Below t) {mem : Bool} {n : Nat}
    {r : Out (Table K V) Unit} (hC : RehashCase laws15 E t false mem n r) : NoHang Below r := by
  cases hC with
  | ub h => trivial
  | throw k hk hc h => exact hA
  | same k hk hc h => exact hA
  | moved k t' hm hc h hN hp => exact hN.below hI hp h
  | diverge k hm hk hs hc h => cases hs

theorem Inv.below_erase {t : Table K V} (hI : Inv laws15 E t) (hA : Below t) {k : K}
    {r : Out (Table K V) Nat} (hC : EraseCase laws15 E t k r) : NoHang Below r := by
  cases hC with
  | absent hk => exact hA
  | removed g p e hp hi hk hI' hperm =>
    intro h
    obtain ⟨h1, h2⟩ := hA h
    have hIA := hI.slot_lt hi
    have hsz : 1 ≤ t.size := by rw [hI.size_eq, hperm.length_eq]; simp
    have hthr : t.thr < W := by
      obtain ⟨j, _, j2, j3, _⟩ := hIA.geom
      have h4 : t.slotCap layout15 = 2 ^ j * 15 - 1 := by rw [Table.slotCap, j3, pow_sub_add, slotCap15]
      have h5 : 2 ^ j ≤ 2 ^ 51 := Nat.pow_le_pow_right (by omega) j2
      have := calcThr_le (m := t.mlf) (s := t.slotCap layout15) hI.mlf_hi (by omega)
      unfold W; omega
    have hsize' : (InvA.erased layout15 g p t).size = t.size - 1 := rfl
    have hle : t.thr - 1 ≤ (InvA.erased layout15 g p t).thr ∧ (InvA.erased layout15 g p t).thr ≤ t.thr := by
      simp only [InvA.erased]
      have hb : (if layout15.isOverflow (t.grp g) (layout15.value (t.grp g) p) = true then 1 else 0) ≤ 1 := by split <;> omega
      generalize (if layout15.isOverflow (t.grp g) (layout15.value (t.grp g) p) = true then 1 else 0) = b at hb ⊢
      rw [show t.thr + W - b = (t.thr - b) + W by omega, Nat.add_mod_right, Nat.mod_eq_of_lt (by omega)]
      omega
    have h3 : (InvA.erased layout15 g p t).slotCap layout15 = t.slotCap layout15 := rfl
    have h4 : (InvA.erased layout15 g p t).mlf = t.mlf := rfl
    rw [h3, h4, hsize']
    omega

/-- A successful `max_load_factor(x)` moves to new storage and leaves the elements below the new threshold. -/
theorem Inv.below_maxLoad {walk : Table K V → Res (List (K × V))} {t : Table K V} (hI : Inv laws15 E t) (hE : E.Lawful) {mem : Bool} {m : Nat} (hm : 128 ≤ m ∧ m ≤ 224) {t' : Table K V}
    {a : Ans K V} (h : exec layout15 E walk mem (.maxLoad m) t = .ok t' a) : Below t' ∧ t'.mlf = m := by
  have hI1 := hI.set_mlf hm.1 hm.2
  simp only [exec, setMlf] at h
  have hcx : Table.ctrlCap layout15 { t with mlf := m } = t.ctrlCap layout15 := rfl
  rw [hcx] at h
  have hcb : t.ctrlCap layout15 ≤ 2 ^ 55 ∧ 16 ≤ t.ctrlCap layout15 := by
    rcases hI.st with h | h
    · rw [h]; exact ⟨show 16 ≤ 2 ^ 55 by omega, Nat.le_refl _⟩
    · obtain ⟨j, h1, h2, h3, h4, _⟩ := h.ctrlCap_eq
      rw [h4]
      exact ⟨Nat.pow_le_pow_right (by omega) (by omega), by
        have := Nat.pow_le_pow_right (n := 2) (by omega) (show 4 ≤ j + 4 by omega)
        omega⟩
  have hfit : t.ctrlCap layout15 < fitCapacity m (t.ctrlCap layout15) := by
    unfold fitCapacity
    rw [Nat.mod_eq_of_lt (by unfold W; omega)]
    apply (Nat.le_div_iff_mul_le (by omega)).mpr
    have : (t.ctrlCap layout15).succ * m ≤ (t.ctrlCap layout15).succ * 224 := Nat.mul_le_mul_left _ hm.2
    omega
  cases hcap : calcCapacity t.size (fitCapacity m (t.ctrlCap layout15)) with
  | diverge => exact absurd hcap calcCapacity_diverge
  | ub => rw [hcap] at h; cases h
  | ok cap =>
    rw [hcap] at h
    simp only at h
    obtain ⟨k, hk, _, hk1, hk2, hk3⟩ := calcCapacity_ok hcap
    rw [if_pos (by omega)] at h
    unfold rehash at h
    simp only at h
    rw [if_pos (by omega)] at h
    have hR := hI1.rehashImpl_cases hE layout15.rehashShrinks mem (max (fitCapacity m t.size) cap)
    generalize rehashImpl layout15 E layout15.rehashShrinks mem (max (fitCapacity m t.size) cap) { t with mlf := m } = r at hR h
    cases hR with
    | ub => cases h
    | throw => cases h
    | same k' hk' hc' h' =>
      obtain ⟨k2, e1, e2, e3, e4, e5⟩ := calcCapacity_ok hc'
      rw [if_neg (by decide)] at h'
      omega
    | moved k' t1 hm hc' h' hN hp =>
      rw [if_neg (by decide)] at h'
      cases h
      exact ⟨hN.below hI1 hp h', hN.mlf⟩
    | diverge k' hm hk' hs hc' h' => cases hs

/-- The calls of a history and their answers: no `shrink_to_fit`, and every `max_load_factor(x)` succeeded. -/
def Steady (p : (Bool × Call K V) × Ans K V) : Prop :=
  (∀ b, p.1.2 ≠ .shrink b) ∧ ∀ m, p.1.2 = .maxLoad m → p.2 ≠ .threw

theorem Inv.below_exec {t : Table K V} (hI : Inv laws15 E t) (hE : E.Lawful) (hA : AccE E t) (hB : Below t)
    (mem : Bool) (c : Call K V) (hv : Valid c) (hsh : ∀ b, c ≠ .shrink b) (hm : ∀ m, c ≠ .maxLoad m) :
    NoHang Below (exec layout15 E walk15 mem c t) := by
  have hwalk : ∀ t : Table K V, Inv laws15 E t → walk15 t = .ok (entries layout15 t) := fun _ h => walk15_eq h
  by_cases he : ∃ k, c = .erase k
  · obtain ⟨k, rfl⟩ := he
    exact NoHang.bind (hI.below_erase hB (hI.erase_cases hE k)) (fun t a h => h)
  · refine hI.noHang_main hE hwalk hB below_empty ?_ mem c ?_ ?_ ?_ ?_ hv (fun k h => he ⟨k, h⟩) hsh
    · intro _ h
      exact ⟨(hB h).1, Nat.zero_le _⟩
    · intro m h; exact absurd h (hm m)
    · intro _ _ _ _ r h
      refine hI.below_emplace hB h ?_
      rintro rfl
      exact (hI.accE_emplace hA h)
    · intro t1 hI1 hA1 _ _ _ h; exact hI1.below_rehash hA1 h
    · intro _ t1 hI1 hA1 _ _ _ _ h; exact hI1.below_rehash hA1 h

theorem below_run (hE : E.Lawful) : ∀ (ops : List (Bool × Call K V)) (t : Table K V), Inv laws15 E t → AccE E t → Below t →
    (∀ op ∈ ops, Valid op.2) → ∀ as t', run layout15 E walk15 ops t = .ok (as, t') → (∀ p ∈ ops.zip as, Steady p) →
    Inv laws15 E t' ∧ Below t' := by
  have hwalk : ∀ t : Table K V, Inv laws15 E t → walk15 t = .ok (entries layout15 t) := fun _ h => walk15_eq h
  intro ops
  induction ops with
  | nil =>
    intro t hI hA hB _ as t' h _
    simp only [run, Res.ok.injEq, Prod.mk.injEq] at h
    rw [← h.2]; exact ⟨hI, hB⟩
  | cons op ops ih =>
    obtain ⟨mem, c⟩ := op
    intro t hI hA hB hv as t' h hs
    have hstep := hI.exec_ok hE hwalk (List.Perm.refl _) mem (hv (mem, c) (by simp))
    have key : ∀ (t1 : Table K V) (a : Ans K V), Inv laws15 E t1 → (Steady ((mem, c), a) → AccE E t1 ∧ Below t1) →
        run layout15 E walk15 ((mem, c) :: ops) t = ((run layout15 E walk15 ops t1).bind fun r => .ok (a :: r.1, r.2)) →
        Inv laws15 E t' ∧ Below t' := by
      intro t1 a hI1 hP hrun
      rw [h] at hrun
      cases hr : run layout15 E walk15 ops t1 with
      | diverge => rw [hr] at hrun; cases hrun
      | ub => rw [hr] at hrun; cases hrun
      | ok r =>
        obtain ⟨as1, t2⟩ := r
        rw [hr] at hrun
        simp only [Res.bind_ok, Res.ok.injEq, Prod.mk.injEq] at hrun
        obtain ⟨rfl, rfl⟩ := hrun
        have hs0 : Steady ((mem, c), a) := hs _ (by simp)
        obtain ⟨a1, b1⟩ := hP hs0
        exact ih t1 hI1 a1 b1 (fun op h => hv op (List.mem_cons_of_mem _ h)) as1 t' hr
          (fun p hp => hs p (by rw [List.zip_cons_cons]; exact List.mem_cons_of_mem _ hp))
    have hAcc : (∀ b, c ≠ .shrink b) → NoHang (AccE E) (exec layout15 E walk15 mem c t) :=
      fun h => hI.exec15 hE hwalk hA mem c (hv (mem, c) (by simp)) h
    cases hr : exec layout15 E walk15 mem c t with
    | ok t1 a =>
      rw [hr] at hstep hAcc
      refine key t1 a hstep.1 (fun hs0 => ⟨hAcc hs0.1, ?_⟩) (by simp only [run, hr])
      by_cases hm : ∃ m, c = .maxLoad m
      · obtain ⟨m, rfl⟩ := hm
        exact (hI.below_maxLoad hE (hv (mem, .maxLoad m) (by simp)) hr).1
      · have := hI.below_exec hE hA hB mem c (hv (mem, c) (by simp)) hs0.1 (fun m h => hm ⟨m, h⟩)
        rw [hr] at this; exact this
    | throw t1 =>
      rw [hr] at hstep hAcc
      refine key t1 .threw hstep.1 (fun hs0 => ⟨hAcc hs0.1, ?_⟩) (by simp only [run, hr])
      by_cases hm : ∃ m, c = .maxLoad m
      · obtain ⟨m, rfl⟩ := hm
        exact absurd rfl (hs0.2 m rfl)
      · have := hI.below_exec hE hA hB mem c (hv (mem, c) (by simp)) hs0.1 (fun m h => hm ⟨m, h⟩)
        rw [hr] at this; exact this
    | diverge => simp only [run, hr] at h; cases h
    | ub => simp only [run, hr] at h; cases h

theorem construct_below {mem : Bool} {n : Nat} {t : Table K V} (h : construct layout15 mem n = .ok t ()) : AccE E t ∧ Below t := by
  unfold construct at h
  simp only at h
  split at h
  · split at h
    · cases h
    · cases h
    · rename_i hc
      obtain ⟨k, h1, h2, h3, h4, h5⟩ := calcCapacity_ok hc
      subst h1
      by_cases hw : wrapRisk layout15 mem (2 ^ k) = true
      · rw [if_pos hw] at h; cases h
      rw [if_neg hw, createSlots_ok h2] at h
      split at h
      · rename_i hm
        obtain ⟨_, hk⟩ := hm
        cases h
        have hinv := freshTable_inv (K := K) (V := V) (H := laws15) (E := E) (mlf := 224) h2 hk
        have hN : NewStore laws15 E k 224 (freshTable layout15 k 224 : Table K V) :=
          ⟨h2, hk, hinv.1, hinv.2, rfl, rfl, rfl⟩
        refine ⟨⟨hN.thr_le (by omega), Or.inl (Nat.zero_le _)⟩, fun _ => ⟨?_, Nat.zero_le _⟩⟩
        show (freshTable layout15 k 224 : Table K V).thr ≤ calcThr 224 ((freshTable layout15 k 224 : Table K V).slotCap layout15)
        rw [hN.slotCap_eq, hN.thr]
      · cases h
  · cases h
    exact ⟨accE_empty _, below_empty _⟩

/-- C124 (partial), group15.  After every history without `shrink_to_fit` in which every `max_load_factor(x)` succeeded, with any answers
of the allocator to the other calls: if the map has more than 29 slots and `max_load_factor()` is at least 131/256, the `float` returned by
`load_factor()` is at most the `float` returned by `max_load_factor()`.  Missing, because the code violates it: the smallest table
(`C124_group15_small_full`), values below 131/256 (`C124_group15_half_exceeded`) and `shrink_to_fit` (`C124_group15_shrink_exceeded`). -/
theorem C124_group15_load_partial (hE : E.Lawful) {mem : Bool} {n : Nat} {t0 : Table K V} (h0 : construct layout15 mem n = .ok t0 ())
    {ops : List (Bool × Call K V)} (hv : ∀ op ∈ ops, Valid op.2) {as : List (Ans K V)} {t : Table K V}
    (hr : run layout15 E walk15 ops t0 = .ok (as, t)) (hs : ∀ p ∈ ops.zip as, Steady p) (hc : 29 < t.capacity layout15)
    (hm : 131 ≤ t.mlf) : F32.le (F32.groupLoad t.size (t.capacity layout15)) (F32.maxLoad 256 t.mlf) = true := by
  obtain ⟨hI0, _⟩ := construct_spec (H := laws15) (E := E) h0
  obtain ⟨hA0, hB0⟩ := construct_below (E := E) h0
  obtain ⟨hI, hB⟩ := below_run hE ops t0 hI0 hA0 hB0 hv as t hr hs
  obtain ⟨h1, h2⟩ := hB hm
  rcases hI.st with h | hJ
  · rw [h] at hc; exact absurd hc (by show ¬29 < 0; omega)
  obtain ⟨j, j1, j2, j3, _⟩ := hJ.ctrlCap_eq
  have hs1 : t.slotCap layout15 = 15 * 2 ^ j - 1 := by rw [Table.slotCap, j3, pow_sub_add, slotCap15, Nat.mul_comm]
  have hj : 2 ≤ 2 ^ j := by
    have := Nat.pow_le_pow_right (n := 2) (by omega) j1
    omega
  have hj51 : 2 ^ j ≤ 2 ^ 51 := Nat.pow_le_pow_right (by omega) j2
  rw [hJ.capacity_eq, hs1] at hc ⊢
  rw [hs1] at h1
  have hj4 : 4 ≤ 2 ^ j := by
    have h3 : j ≠ 1 := by rintro rfl; omega
    have := Nat.pow_le_pow_right (n := 2) (by omega) (show 2 ≤ j by omega)
    omega
  have hhi := hI.mlf_hi
  rw [calcThr_eq (by omega) hhi (by omega)] at h1
  have h3 : (15 * 2 ^ j - 1) * t.mlf ≤ (15 * 2 ^ j - 1) * 224 := Nat.mul_le_mul_left _ hhi
  exact F32.C124_load_le_group15 (by omega) (by omega) (by omega) (by omega)

/-- A history of the required form: the limit lowered to 0.6, then 70 insertions into 119 slots, the last of which is given memory
only at the second attempt. -/
example : (match (construct layout15 true 0 : Out (Table Nat Nat) Unit) with
    | .ok t0 _ => match run layout15 modEnv walk15 ([(true, .maxLoad 153)] ++ insertsFrom 0 35 ++ [(false, .insert 35 0)] ++ insertsFrom 35 35) t0 with
      | .ok (as, t) => t.size == 70 && t.capacity layout15 == 119 && t.mlf == 153 && as.head? != some .threw && as.contains .threw
      | _ => false
    | _ => false) = true := by
  set_option maxRecDepth 100000 in decide +kernel

/-- C124, `max_load_factor(x)` followed by `max_load_factor()` in group15: when the call returns, `m/256` is returned, the value described
by `C124_group_set`, and the elements are below the new threshold. -/
theorem C124_group15_set (hE : E.Lawful) {t : Table K V} (ht : Reachable layout15 E walk15 t) {b : Nat} (hb : F32.ofBits b ≠ .nan) :
    ∃ m : Nat, F32.groupArg (F32.ofBits b) = .ok m ∧ ∀ (mem : Bool) (t' : Table K V) (a : Ans K V),
      exec layout15 E walk15 mem (.maxLoad m) t = .ok t' a → F32.maxLoad 256 t'.mlf = .fin (m / 256) ∧ (131 ≤ m → t'.size ≤ t'.thr) := by
  obtain ⟨m, y, h1, h2, h3, h4, h5, h6⟩ := F32.C124_group_set hb
  refine ⟨m, h1, fun mem t' a h => ?_⟩
  have hI := ht.inv hE (H := laws15) (fun _ h => walk15_eq h)
  obtain ⟨h7, h8⟩ := hI.below_maxLoad hE ⟨h2, h3⟩ h
  exact ⟨by rw [h8]; exact h5, fun hm => (h7 (by omega)).2⟩

example : F32.ofBits 0x3F000000 ≠ .nan := by
  rw [show F32.ofBits 0x3F000000 = .fin (1 / 2) by norm_num [F32.ofBits]]; nofun

theorem plainLoad_small {n c : Nat} (hc : 0 < c) (hn : n ≤ c) (h24 : c ≤ 2 ^ 24) : F32.plainLoad n c = .fin (F32.roundQ (n / c)) := by
  have h1 : (0 : ℚ) < c := by exact_mod_cast hc
  have h2 : (n : ℚ) / c ≤ 1 := by
    rw [div_le_one h1]; exact_mod_cast hn
  unfold F32.plainLoad
  rw [F32.ofNat_eq (by omega), F32.ofNat_eq h24]
  simp only [F32.div]
  rw [if_neg h1.ne', F32.round_eq (by positivity) (by linarith [show (1 : ℚ) < 2 ^ 127 by norm_num])]

/-- A way to see that `n` elements on `c` slots exceed the limit `m / 2^j`. -/
theorem load_exceeds {n c j m : Nat} (hc : 0 < c) (hn : n ≤ c) (h24 : c ≤ 2 ^ 24) (hj : j ≤ 16) (hm : 2 * m + 1 ≤ 2 ^ 24)
    (h : (2 * m + 1) * c ≤ 2 * 2 ^ j * n) : F32.lt (F32.maxLoad (2 ^ j) m) (F32.plainLoad n c) = true ∧
      F32.lt (F32.maxLoad (2 ^ j) m) (F32.groupLoad n c) = true := by
  have h1 : (0 : ℚ) < c := by exact_mod_cast hc
  have h2 : (0 : ℚ) < 2 ^ j := by positivity
  have hz : F32.Rep (((2 * m + 1 : Nat) : ℚ) / 2 ^ (j + 1)) := by
    have : (((2 * m + 1 : Nat) : ℚ) / 2 ^ (j + 1)) = (2 * m + 1 : Nat) * 2 ^ (-((j + 1 : Nat) : ℤ)) := by
      rw [zpow_neg, zpow_natCast, div_eq_mul_inv]
    rw [this]; exact F32.Rep.of_scaled hm _ (by omega)
  have h3 : ((2 * m + 1 : Nat) : ℚ) / 2 ^ (j + 1) ≤ n / c := by
    rw [div_le_div_iff₀ (by positivity) h1]
    have : ((2 * m + 1) * c : Nat) ≤ ((2 * 2 ^ j * n : Nat) : ℚ) := by exact_mod_cast h
    push_cast at this ⊢
    rw [pow_succ]; linarith
  have h4 := F32.rep_le_roundQ (by positivity) hz h3
  have h5 : F32.lt (F32.maxLoad (2 ^ j) m) (.fin (F32.roundQ (n / c))) = true := by
    rw [F32.maxLoad_eq (A := 2 ^ j) (j := j) rfl (by omega) (by omega)]
    simp only [F32.lt, decide_eq_true_eq]
    refine lt_of_lt_of_le ?_ h4
    push_cast
    rw [div_lt_div_iff₀ h2 (by positivity), pow_succ]
    nlinarith
  refine ⟨by rw [plainLoad_small hc hn h24]; exact h5, ?_⟩
  unfold F32.groupLoad
  rw [if_pos (by omega)]
  have := plainLoad_small hc hn h24
  unfold F32.plainLoad at this
  rw [this]; exact h5

/-- Deviation from C124: a group15 map of 29 slots is filled completely while `max_load_factor()` is 0.875. -/
theorem C124_group15_small_full : (∃ t : Table Nat Nat, Reachable layout15 modEnv walk15 t ∧
    (t.size == 29 && t.capacity layout15 == 29 && t.mlf == 224) = true) ∧
    F32.lt (F32.maxLoad 256 224) (F32.groupLoad 29 29) = true :=
  ⟨exists_reachable 0 (insertsFrom 0 29) _ (by decide +kernel),
    (load_exceeds (n := 29) (c := 29) (j := 8) (m := 224) (by omega) (by omega) (by omega) (by omega) (by omega) (by omega)).2⟩

/-- Deviation from C124: after `max_load_factor(0.5f)` the thirtieth insertion grows a group15 map to 59 slots, more than half of which
are then in use. -/
theorem C124_group15_half_exceeded : (∃ t : Table Nat Nat, Reachable layout15 modEnv walk15 t ∧
    (t.size == 30 && t.capacity layout15 == 59 && t.mlf == 128) = true) ∧
    F32.lt (F32.maxLoad 256 128) (F32.groupLoad 30 59) = true :=
  ⟨exists_reachable 0 ((true, .maxLoad 128) :: insertsFrom 0 30) _ (by decide +kernel),
    (load_exceeds (n := 30) (c := 59) (j := 8) (m := 128) (by omega) (by omega) (by omega) (by omega) (by omega) (by omega)).2⟩

/-- Deviation from C124: `shrink_to_fit()` packs 55 elements into 59 slots while `max_load_factor()` is 0.875. -/
theorem C124_group15_shrink_exceeded : (∃ t : Table Nat Nat, Reachable layout15 modEnv walk15 t ∧
    (t.size == 55 && t.capacity layout15 == 59 && t.mlf == 224) = true) ∧
    F32.lt (F32.maxLoad 256 224) (F32.groupLoad 55 59) = true :=
  ⟨exists_reachable 0 (insertsFrom 0 55 ++ [(true, .shrink false)]) _ (by set_option maxRecDepth 100000 in decide +kernel),
    (load_exceeds (n := 55) (c := 59) (j := 8) (m := 224) (by omega) (by omega) (by omega) (by omega) (by omega) (by omega)).2⟩

end

/-! ### group16 -/

section
variable {K V : Type} {E : Env K}

/-- The same for sixteen-slot groups, as long as nothing has been erased. -/
def Below16 (t : Table K V) : Prop :=
  Fresh laws16 t ∧ (132 ≤ t.mlf → t.thr ≤ calcThr t.mlf (t.slotCap layout16) ∧ t.size ≤ t.thr)

theorem below16_empty (m : Nat) : Below16 (emptyTable layout16 m : Table K V) :=
  ⟨(accN_empty (H := laws16) m).2 rfl, fun _ => ⟨Nat.zero_le _, Nat.zero_le _⟩⟩

theorem Inv.size_le_newThr16 {t t' : Table K V} (hI : Inv laws16 E t) {k : Nat} (hN : NewStore laws16 E k t.mlf t')
    (hk : t.ctrlCap layout16 < 2 ^ k) : t.size ≤ t'.thr := by
  rcases hI.st with h | h
  · rw [h]; exact Nat.zero_le _
  · obtain ⟨j, h1, h2, h3, h4, h5⟩ := h.ctrlCap_eq
    rw [hN.thr]
    refine Nat.le_trans ?_ (calcThr_ge hI.mlf_lo hI.mlf_hi hN.slotCap_le)
    rw [slotCap16]
    rw [h4] at hk
    have h6 : j + 4 < k := (Nat.pow_lt_pow_iff_right (by omega)).mp hk
    have h7 : 2 ^ (j + 1) ≤ 2 ^ (k - 4) := Nat.pow_le_pow_right (by omega) (by omega)
    rw [Nat.pow_succ] at h7
    rw [Nat.pow_add] at h5
    omega

theorem NewStore.below16 {t t' : Table K V} (hI : Inv laws16 E t) {k : Nat} (hN : NewStore laws16 E k t.mlf t')
    (hp : (entries layout16 t').Perm (entries layout16 t)) (hk : t.ctrlCap layout16 < 2 ^ k) : Below16 t' := by
  refine ⟨hN.fresh, fun _ => ?_⟩
  have h5 : t'.size = t.size := by rw [hN.inv.size, hp.length_eq, hI.size_eq]
  refine ⟨?_, by rw [h5]; exact hI.size_le_newThr16 hN hk⟩
  rw [hN.slotCap_eq, hN.thr, hN.mlf]

theorem Inv.below16_emplace {t : Table K V} (hI : Inv laws16 E t) (hA : Below16 t) {update mem : Bool} {k : K} {v : V}
    {r : Out (Table K V) (Nat × Bool)} (hC : EmplaceCase laws16 E t update mem k v r) (hr : r ≠ .diverge) : NoHang Below16 r := by
  cases hC with
  | found i e hi hk => cases update <;> exact hA
  | throw hk hs h => exact hA
  | placed i t' hk hs hP =>
    obtain ⟨h1, h2, _⟩ := hP.fresh hA.1
    refine ⟨h1, fun h => ?_⟩
    rw [hP.mlf] at h
    obtain ⟨h3, h4⟩ := hA.2 h
    rw [h2, Table.slotCap, hP.gmask, hP.mlf, hP.size]
    exact ⟨h3, by omega⟩
  | grown i t1 t' hk hs hm c hc hN hp hP =>
    obtain ⟨h1, h2, _⟩ := hP.fresh hN.fresh
    refine ⟨h1, fun h => ?_⟩
    rw [hP.mlf, hN.mlf] at h
    obtain ⟨h3, h4⟩ := hA.2 h
    have h5 : t1.size = t.size := by rw [hN.inv.size, hp.length_eq, hI.size_eq]
    have h6 : t'.slotCap layout16 = layout16.slotCap (2 ^ (c - 4)) := by
      rw [← hN.slotCap_eq]; unfold Table.slotCap; rw [hP.gmask]
    rw [h2, hP.mlf, hN.mlf, hN.thr, h6, hP.size, h5]
    refine ⟨Nat.le_refl _, ?_⟩
    have hlo := hI.mlf_lo
    have hhi := hI.mlf_hi
    have hle := hN.slotCap_le
    rcases hI.st with he | hJ
    · have : t.size = 0 := by rw [he]; rfl
      have hcap := calcThr_ge hI.mlf_lo hI.mlf_hi hN.slotCap_le
      rw [slotCap16] at hcap ⊢
      have : 2 ≤ 2 ^ (c - 4) := by
        have := Nat.pow_le_pow_right (n := 2) (by omega) (show 1 ≤ c - 4 by have := hN.k_ge; omega)
        omega
      omega
    · obtain ⟨j, j1, j2, j3, j4, _⟩ := hJ.ctrlCap_eq
      have hs1 : t.slotCap layout16 = 2 ^ j * 16 := by rw [Table.slotCap, j3, pow_sub_add, slotCap16]
      have hj : 2 ≤ 2 ^ j := by
        have := Nat.pow_le_pow_right (n := 2) (by omega) j1
        omega
      have hcj : c = j + 5 := by
        rw [j4] at hc
        have : 2 ^ (j + 4) = 16 * 2 ^ j := by rw [Nat.pow_add]; omega
        have h7 : 2 ^ c = 2 ^ (j + 5) := by rw [hc, Nat.pow_succ 2 (j + 4)]; omega
        exact Nat.pow_right_injective (Nat.le_refl 2) h7
      have hs2 : layout16.slotCap (2 ^ (c - 4)) = 2 ^ j * 32 := by
        rw [slotCap16, hcj, show j + 5 - 4 = j + 1 by omega, Nat.pow_succ]; omega
      rw [hs2] at hle ⊢
      rw [calcThr_eq (by omega) hhi hle]
      rw [hs1] at h3
      by_cases hj1 : j = 1
      · subst hj1
        have : (2 ^ 1 * 32) * 132 ≤ (2 ^ 1 * 32) * t.mlf := Nat.mul_le_mul_left _ h
        have h8 : calcThr t.mlf (2 ^ 1 * 16) = 32 := rfl
        omega
      · have hj4 : 4 ≤ 2 ^ j := by
          have := Nat.pow_le_pow_right (n := 2) (by omega) (show 2 ≤ j by omega)
          omega
        rw [calcThr_eq (by omega) hhi (by omega)] at h3
        have h8 : (2 ^ j * 16) * t.mlf + (2 ^ j * 16) * t.mlf = (2 ^ j * 32) * t.mlf := by
          rw [← Nat.add_mul]; congr 1; omega
        have h9 : 60 * t.mlf ≤ 2 ^ j * 16 * t.mlf := Nat.mul_le_mul_right _ (by omega)
        omega
  | diverge hk hs hfull => exact absurd rfl hr

theorem Inv.below16_rehash {t : Table K V} (hI : Inv laws16 E t) (hA : Below16 t) {mem : Bool} {n : Nat}
    {r : Out (Table K V) Unit} (hC : RehashCase laws16 E t false mem n r) : NoHang Below16 r := by
  cases hC with
  | ub h => trivial
  | throw k hk hc h => exact hA
  | same k hk hc h => exact hA
  | moved k t' hm hc h hN hp => exact hN.below16 hI hp h
  | diverge k hm hk hs hc h => cases hs

/-- A successful `max_load_factor(x)` moves to new storage and leaves the elements below the new threshold. -/
theorem Inv.below16_maxLoad {walk : Table K V → Res (List (K × V))} {t : Table K V} (hI : Inv laws16 E t) (hE : E.Lawful) {mem : Bool}
    {m : Nat} (hm : 128 ≤ m ∧ m ≤ 224) {t' : Table K V} {a : Ans K V} (h : exec layout16 E walk mem (.maxLoad m) t = .ok t' a) :
    Below16 t' ∧ t'.mlf = m := by
  have hI1 := hI.set_mlf hm.1 hm.2
  simp only [exec, setMlf] at h
  have hcx : Table.ctrlCap layout16 { t with mlf := m } = t.ctrlCap layout16 := rfl
  rw [hcx] at h
  have hcb : t.ctrlCap layout16 = 0 ∨ t.ctrlCap layout16 ≤ 2 ^ 55 ∧ 16 ≤ t.ctrlCap layout16 := by
    rcases hI.st with h | h
    · rw [h]; exact Or.inl rfl
    · obtain ⟨j, h1, h2, h3, h4, _⟩ := h.ctrlCap_eq
      rw [h4]
      exact Or.inr ⟨Nat.pow_le_pow_right (by omega) (by omega), by
        have := Nat.pow_le_pow_right (n := 2) (by omega) (show 4 ≤ j + 4 by omega)
        omega⟩
  have hfit : t.ctrlCap layout16 = 0 ∨ t.ctrlCap layout16 < fitCapacity m (t.ctrlCap layout16) := by
    rcases hcb with h0 | hcb
    · exact Or.inl h0
    right
    unfold fitCapacity
    rw [Nat.mod_eq_of_lt (by unfold W; omega)]
    apply (Nat.le_div_iff_mul_le (by omega)).mpr
    have : (t.ctrlCap layout16).succ * m ≤ (t.ctrlCap layout16).succ * 224 := Nat.mul_le_mul_left _ hm.2
    omega
  cases hcap : calcCapacity t.size (fitCapacity m (t.ctrlCap layout16)) with
  | diverge => exact absurd hcap calcCapacity_diverge
  | ub => rw [hcap] at h; cases h
  | ok cap =>
    rw [hcap] at h
    simp only at h
    obtain ⟨k, hk, _, hk1, hk2, hk3⟩ := calcCapacity_ok hcap
    have hpos := Nat.two_pow_pos k
    rw [if_pos (by omega)] at h
    unfold rehash at h
    simp only at h
    rw [if_pos (by omega)] at h
    have hR := hI1.rehashImpl_cases hE layout16.rehashShrinks mem (max (fitCapacity m t.size) cap)
    generalize rehashImpl layout16 E layout16.rehashShrinks mem (max (fitCapacity m t.size) cap) { t with mlf := m } = r at hR h
    cases hR with
    | ub => cases h
    | throw => cases h
    | same k' hk' hc' h' =>
      obtain ⟨k2, e1, e2, e3, e4, e5⟩ := calcCapacity_ok hc'
      rw [if_pos (by decide)] at h'
      omega
    | moved k' t1 hm hc' h' hN hp =>
      obtain ⟨k2, e1, e2, e3, e4, e5⟩ := calcCapacity_ok hc'
      cases h
      exact ⟨hN.below16 hI1 hp (by omega), hN.mlf⟩
    | diverge k' hm hk' hs hc' h' => cases h

/-- The calls of a history and their answers: no `erase`, `shrink_to_fit` or `rehash`, and every `max_load_factor(x)` succeeded. -/
def Growing (p : (Bool × Call K V) × Ans K V) : Prop :=
  match p.1.2 with
  | .erase _ | .shrink _ | .rehash _ => False
  | .maxLoad _ => p.2 ≠ .threw
  | _ => True

theorem Inv.below16_exec {pad : Bool} {t : Table K V} (hI : Inv laws16 E t) (hE : E.Lawful) (hA : AccN laws16 t) (hB : Below16 t)
    (mem : Bool) (c : Call K V) (hv : Valid c) (hne : ∀ k, c ≠ .erase k) (hsh : ∀ b, c ≠ .shrink b) (hre : ∀ n, c ≠ .rehash n)
    (hm : ∀ m, c ≠ .maxLoad m) : NoHang Below16 (exec layout16 E (walk16 pad) mem c t) := by
  refine hI.noHang_main hE (fun _ h => walk16_eq h pad) hB below16_empty ?_ mem c ?_ ?_ ?_ ?_ hv hne hsh
  · intro hal
    rcases hI.clearData_eq with ⟨h1, h2, h3, h4, h5⟩ | ⟨h1, h2, h3⟩ | ⟨h1, h2, h3⟩
    · exact ⟨h4, fun h => ⟨(hB.2 h).1, Nat.zero_le _⟩⟩
    · rw [h1] at hal; cases hal
    · rw [h1] at hal; cases hal
  · intro m h; exact absurd h (hm m)
  · intro _ _ _ _ r h
    refine hI.below16_emplace hB h ?_
    rintro rfl
    exact (hI.accN_emplace hA h)
  · intro t1 hI1 hA1 _ _ _ h; exact hI1.below16_rehash hA1 h
  · rintro (⟨n, h⟩ | ⟨m, h⟩)
    · exact absurd h (hre n)
    · exact absurd h (hm m)

theorem below16_run {pad : Bool} (hE : E.Lawful) : ∀ (ops : List (Bool × Call K V)) (t : Table K V), Inv laws16 E t → AccN laws16 t →
    Below16 t → (∀ op ∈ ops, Valid op.2) → ∀ as t', run layout16 E (walk16 pad) ops t = .ok (as, t') → (∀ p ∈ ops.zip as, Growing p) →
    Inv laws16 E t' ∧ Below16 t' := by
  intro ops
  induction ops with
  | nil =>
    intro t hI hA hB _ as t' h _
    simp only [run, Res.ok.injEq, Prod.mk.injEq] at h
    rw [← h.2]; exact ⟨hI, hB⟩
  | cons op ops ih =>
    obtain ⟨mem, c⟩ := op
    intro t hI hA hB hv as t' h hs
    have hstep := hI.exec_ok hE (fun _ h => walk16_eq h pad) (List.Perm.refl _) mem (hv (mem, c) (by simp))
    have key : ∀ (t1 : Table K V) (a : Ans K V), Inv laws16 E t1 → (Growing ((mem, c), a) → AccN laws16 t1 ∧ Below16 t1) →
        run layout16 E (walk16 pad) ((mem, c) :: ops) t = ((run layout16 E (walk16 pad) ops t1).bind fun r => .ok (a :: r.1, r.2)) →
        Inv laws16 E t' ∧ Below16 t' := by
      intro t1 a hI1 hP hrun
      rw [h] at hrun
      cases hr : run layout16 E (walk16 pad) ops t1 with
      | diverge => rw [hr] at hrun; cases hrun
      | ub => rw [hr] at hrun; cases hrun
      | ok r =>
        obtain ⟨as1, t2⟩ := r
        rw [hr] at hrun
        simp only [Res.bind_ok, Res.ok.injEq, Prod.mk.injEq] at hrun
        obtain ⟨rfl, rfl⟩ := hrun
        obtain ⟨a1, b1⟩ := hP (hs _ (by simp))
        exact ih t1 hI1 a1 b1 (fun op h => hv op (List.mem_cons_of_mem _ h)) as1 t' hr
          (fun p hp => hs p (by rw [List.zip_cons_cons]; exact List.mem_cons_of_mem _ hp))
    have hne : ∀ a, Growing ((mem, c), a) → (∀ k, c ≠ .erase k) ∧ (∀ b, c ≠ .shrink b) ∧ (∀ n, c ≠ .rehash n) := by
      intro a h
      refine ⟨?_, ?_, ?_⟩ <;> (rintro x rfl; exact h)
    have hAcc : (∀ k, c ≠ .erase k) → NoHang (AccN laws16) (exec layout16 E (walk16 pad) mem c t) :=
      fun h => hI.exec16N hE (fun _ h => walk16_eq h pad) hA mem c (hv (mem, c) (by simp)) h
    cases hr : exec layout16 E (walk16 pad) mem c t with
    | ok t1 a =>
      rw [hr] at hstep hAcc
      refine key t1 a hstep.1 (fun hs0 => ⟨hAcc (hne a hs0).1, ?_⟩) (by simp only [run, hr])
      by_cases hm : ∃ m, c = .maxLoad m
      · obtain ⟨m, rfl⟩ := hm
        exact (hI.below16_maxLoad hE (hv (mem, .maxLoad m) (by simp)) hr).1
      · obtain ⟨n1, n2, n3⟩ := hne a hs0
        have := hI.below16_exec hE hA hB mem c (hv (mem, c) (by simp)) n1 n2 n3 (fun m h => hm ⟨m, h⟩) (pad := pad)
        rw [hr] at this; exact this
    | throw t1 =>
      rw [hr] at hstep hAcc
      refine key t1 .threw hstep.1 (fun hs0 => ⟨hAcc (hne _ hs0).1, ?_⟩) (by simp only [run, hr])
      by_cases hm : ∃ m, c = .maxLoad m
      · obtain ⟨m, rfl⟩ := hm
        exact absurd rfl hs0
      · obtain ⟨n1, n2, n3⟩ := hne _ hs0
        have := hI.below16_exec hE hA hB mem c (hv (mem, c) (by simp)) n1 n2 n3 (fun m h => hm ⟨m, h⟩) (pad := pad)
        rw [hr] at this; exact this
    | diverge => simp only [run, hr] at h; cases h
    | ub => simp only [run, hr] at h; cases h

theorem construct_below16 {mem : Bool} {n : Nat} {t : Table K V} (h : construct layout16 mem n = .ok t ()) : Below16 t := by
  unfold construct at h
  simp only at h
  split at h
  · split at h
    · cases h
    · cases h
    · rename_i hc
      obtain ⟨k, h1, h2, h3, h4, h5⟩ := calcCapacity_ok hc
      subst h1
      by_cases hw : wrapRisk layout16 mem (2 ^ k) = true
      · rw [if_pos hw] at h; cases h
      rw [if_neg hw, createSlots_ok h2] at h
      split at h
      · rename_i hm
        obtain ⟨_, hk⟩ := hm
        cases h
        have hinv := freshTable_inv (K := K) (V := V) (H := laws16) (E := (⟨fun _ => 0, fun _ _ => true⟩ : Env K)) (mlf := 224) h2 hk
        have hN : NewStore laws16 (⟨fun _ => 0, fun _ _ => true⟩ : Env K) k 224 (freshTable layout16 k 224 : Table K V) :=
          ⟨h2, hk, hinv.1, hinv.2, rfl, rfl, rfl⟩
        refine ⟨hN.fresh, fun _ => ⟨?_, Nat.zero_le _⟩⟩
        show (freshTable layout16 k 224 : Table K V).thr ≤ calcThr 224 ((freshTable layout16 k 224 : Table K V).slotCap layout16)
        rw [hN.slotCap_eq, hN.thr]
      · cases h
  · cases h
    exact below16_empty _

/-- C124 (partial), group16.  After every history without `erase`, `rehash` and `shrink_to_fit` in which every `max_load_factor(x)`
succeeded: if the map has more than 32 slots and `max_load_factor()` is at least 132/256, `load_factor()` is at most
`max_load_factor()`.  Missing, because the code violates it: the smallest table (`C124_group16_small_full`).  Not covered: values below
132/256 and erasures, after which the threshold drifts upwards (`C24_insert_hangs`). -/
theorem C124_group16_load_partial {pad : Bool} (hE : E.Lawful) {mem : Bool} {n : Nat} {t0 : Table K V}
    (h0 : construct layout16 mem n = .ok t0 ()) {ops : List (Bool × Call K V)} (hv : ∀ op ∈ ops, Valid op.2) {as : List (Ans K V)}
    {t : Table K V} (hr : run layout16 E (walk16 pad) ops t0 = .ok (as, t)) (hs : ∀ p ∈ ops.zip as, Growing p)
    (hc : 32 < t.capacity layout16) (hm : 132 ≤ t.mlf) :
    F32.le (F32.groupLoad t.size (t.capacity layout16)) (F32.maxLoad 256 t.mlf) = true := by
  obtain ⟨hI0, _, _, hA0⟩ := construct_spec (H := laws16) (E := E) h0
  obtain ⟨hI, hB⟩ := below16_run hE ops t0 hI0 hA0 (construct_below16 h0) hv as t hr hs
  obtain ⟨h1, h2⟩ := hB.2 hm
  rcases hI.st with h | hJ
  · rw [h] at hc; exact absurd hc (by show ¬32 < 0; omega)
  obtain ⟨j, j1, j2, j3, _⟩ := hJ.ctrlCap_eq
  have hs1 : t.slotCap layout16 = 2 ^ (j + 4) := by rw [Table.slotCap, j3, pow_sub_add, slotCap16, Nat.pow_add]
  have hj55 : 2 ^ (j + 4) ≤ 2 ^ 55 := Nat.pow_le_pow_right (by omega) (by omega)
  rw [hJ.capacity_eq, hs1] at hc ⊢
  rw [hs1] at h1
  have hhi := hI.mlf_hi
  rw [calcThr_eq (by omega) hhi hj55] at h1
  have h3 : 2 ^ (j + 4) * t.mlf ≤ 2 ^ (j + 4) * 224 := Nat.mul_le_mul_left _ hhi
  have := F32.C124_load_le_pow (n := t.size) (k := j + 4) (A := 256) (j := 8) (m := t.mlf) (by omega) (by omega) (by norm_num) (by omega)
    (by omega) (by omega)
  unfold F32.groupLoad
  rw [if_pos (by omega)]
  exact this

/-- A history of the required form. -/
example : (match (construct layout16 true 0 : Out (Table Nat Nat) Unit) with
    | .ok t0 _ => match run layout16 modEnv (walk16 false) ([(true, .maxLoad 153)] ++ insertsFrom 0 35 ++ [(true, .reserve 50), (true, .size)]) t0 with
      | .ok (as, t) => t.size == 35 && t.capacity layout16 == 128 && t.mlf == 153 && !as.contains .threw
      | _ => false
    | _ => false) = true := by
  set_option maxRecDepth 100000 in decide +kernel

/-- Deviation from C124: a group16 map of 32 slots is filled completely while `max_load_factor()` is 0.875. -/
theorem C124_group16_small_full (pad : Bool) : (∃ t : Table Nat Nat, Reachable layout16 modEnv (walk16 pad) t ∧
    (t.size == 32 && t.capacity layout16 == 32 && t.mlf == 224) = true) ∧
    F32.lt (F32.maxLoad 256 224) (F32.groupLoad 32 32) = true :=
  ⟨exists_reachable 0 (insertsFrom 0 32) _ (by cases pad <;> decide +kernel),
    (load_exceeds (n := 32) (c := 32) (j := 8) (m := 224) (by omega) (by omega) (by omega) (by omega) (by omega) (by omega)).2⟩

end
end Verif

/-! ### The name of a `float` in a history -/

namespace Verif.F32
open Spec (Call Ans)

/-- In a history the `float` from which `max_load_factor(float)` computes `m` and `r` is named `m + 2^32 r`. -/
def nameOf (m r : Nat) : Nat := m + 2 ^ 32 * r

/-- The second number of a name, and `d` where there is none in the range `lo` to `hi` that floats lead to. -/
def recipOf (lo hi d x : Nat) : Nat := if lo ≤ x / 2 ^ 32 ∧ x / 2 ^ 32 ≤ hi then x / 2 ^ 32 else d

theorem nameOf_mod {m r : Nat} (h : m < 2 ^ 32) : nameOf m r % 2 ^ 32 = m := by unfold nameOf; omega

theorem recipOf_nameOf {lo hi d m r : Nat} (h : m < 2 ^ 32) (h1 : lo ≤ r) (h2 : r ≤ hi) : recipOf lo hi d (nameOf m r) = r := by
  unfold recipOf nameOf
  have : (m + 2 ^ 32 * r) / 2 ^ 32 = r := by omega
  rw [this, if_pos ⟨h1, h2⟩]

theorem recipOf_range {lo hi d : Nat} (h1 : lo ≤ d) (h2 : d ≤ hi) (x : Nat) : lo ≤ recipOf lo hi d x ∧ recipOf lo hi d x ≤ hi := by
  unfold recipOf
  split
  · assumption
  · exact ⟨h1, h2⟩

/-- The reciprocals in a history of a robin map. -/
def robinRecip : Nat → Nat := recipOf 256 1024 512
/-- The reciprocals in a history of a flat16 or robin16 map. -/
def flatRecip : Nat → Nat := recipOf 81920 327680 131072

/-- C124, robin (direct layout).  For every `float` that is a number, `max_load_factor(x)` is one of the calls of which the histories of
C31-C40 and C109 consist: its name is valid, the call stores the two integers computed from the float, and the reciprocals of all names are
in the range those theorems ask for. -/
theorem C124_robin_calls {K V : Type} {E : Env K} {b : Nat} (hb : ofBits b ≠ .nan) : ∃ m r, robinArg (ofBits b) = .ok (m, r) ∧
    Robin.Valid (.maxLoad (nameOf m r) : Call K V) ∧ (∀ x, 256 ≤ robinRecip x ∧ robinRecip x ≤ 1024) ∧
    (∀ store chk mem (t : Robin.Map K V), Robin.exec store chk E robinRecip mem (.maxLoad (nameOf m r)) t =
      (Robin.setMlf store chk E mem m r t).bind fun t' _ => .ok t' .unit) ∧
    ∀ chk mem (t : RobInd.Map K V), RobInd.exec chk E robinRecip mem (.maxLoad (nameOf m r)) t =
      (RobInd.setMlf chk E mem m r t).bind fun t' _ => .ok t' .unit := by
  obtain ⟨m, r, y, h1, h2, h3, h4, h5, _⟩ := C124_robin_set hb
  have hm : nameOf m r % 2 ^ 32 = m := nameOf_mod (by omega)
  have hr : robinRecip (nameOf m r) = r := recipOf_nameOf (by omega) (by omega) (by omega)
  refine ⟨m, r, h1, ?_, recipOf_range (by omega) (by omega), ?_, ?_⟩
  · show nameOf m r % 2 ^ 32 ≤ 256
    rw [hm]; omega
  · intro store chk mem t
    simp only [Robin.exec, hm, hr]
  · intro chk mem t
    simp only [RobInd.exec, hm, hr]

/-- C124, flat16 and robin16: the same for the histories of C67-C90. -/
theorem C124_flat_calls {K V : Type} {E : Env K} {sec : Nat → Nat} {b : Nat} (hb : ofBits b ≠ .nan) : ∃ m r,
    flatArg (ofBits b) = .ok (m, r) ∧ nameOf m r % 2 ^ 32 < 65536 ∧ (∀ x, 81920 ≤ flatRecip x ∧ flatRecip x ≤ 327680) ∧
    (∀ mem (t : Flat.Map K V), Flat.exec E sec flatRecip mem (.maxLoad (nameOf m r)) t =
      (Flat.setMlf E sec mem m r t).bind fun t' _ => .ok t' .unit) ∧
    ∀ triv mem (t : Rob16.Map K V), Rob16.exec E sec triv flatRecip mem (.maxLoad (nameOf m r)) t =
      (Rob16.setMlf E sec mem m r t).bind fun t' _ => .ok t' .unit := by
  obtain ⟨m, r, y, h1, h2, h3, h4, h5, _⟩ := C124_flat_set hb
  have hm : nameOf m r % 2 ^ 32 = m := nameOf_mod (by omega)
  have hr : flatRecip (nameOf m r) = r := recipOf_nameOf (by omega) (by omega) (by omega)
  refine ⟨m, r, h1, by rw [hm]; omega, recipOf_range (by omega) (by omega), ?_, ?_⟩
  · intro mem t
    simp only [Flat.exec, hm, hr]
  · intro triv mem t
    simp only [Rob16.exec, hm, hr]

/-- `0.3f` and the two numbers a robin map stores for it. -/
theorem robinArg_03 : ofBits 0x3E99999A = round 0.3 ∧ robinArg (round 0.3) = .ok (77, 854) := by
  refine ⟨by rw [c03]; norm_num [ofBits], ?_⟩
  have h1 : round (10066330 / 2 ^ 25 * (256 : Nat)) = .fin (10066330 / 2 ^ 25 * (256 : Nat)) :=
    round_scaled (j := 8) rep_c03 (by norm_num) (by norm_num) (by norm_num) (by omega)
  have h2 : round (1 / (10066330 / 2 ^ 25)) = .fin (13981013 / 2 ^ 22) := by
    rw [round_eq (by norm_num) (by norm_num), roundQ_near (e := 1) (z := 13981013)] <;> norm_num
  have h3 : round (13981013 / 2 ^ 22 * (256 : Nat)) = .fin (13981013 / 2 ^ 22 * (256 : Nat)) :=
    round_scaled (j := 8) ⟨13981013, -22, by norm_num, by norm_num, by norm_num⟩ (by norm_num) (by norm_num) (by norm_num) (by omega)
  have h4 : clamp (.fin (10066330 / 2 ^ 25)) (.fin (10066330 / 2 ^ 24)) (.fin (10066330 / 2 ^ 25)) = .fin (10066330 / 2 ^ 25) := by
    norm_num [clamp, lt]
  unfold robinArg ceilArg
  rw [c03, c06, h4, c1, ofNat_eq (by norm_num)]
  simp only [mul, div]
  rw [h1, if_neg (by norm_num), h2]
  simp only
  rw [h3]
  have h5 : ⌈(10066330 / 2 ^ 25 * (256 : Nat) : ℚ)⌉ = 77 := by rw [Int.ceil_eq_iff]; norm_num
  have h6 : ⌈(13981013 / 2 ^ 22 * (256 : Nat) : ℚ)⌉ = 854 := by rw [Int.ceil_eq_iff]; norm_num
  simp only [ceil, h5, h6, toUnsigned]
  norm_num [Res.bind]

end Verif.F32

/-! ### robin -/

namespace Verif.Robin
open Spec (Call Ans)

/-- C124 (partial), robin, direct layout.  After every history of C109 (no `max_load_factor(x)`, no `reserve` or `rehash` below `size()`,
no `shrink_to_fit(true)`) `max_load_factor()` is 0.5 and, if the map has storage, `load_factor()` is at most that.  Missing, because the
code violates it: the calls excluded (`C109_rehash_exceeds_load`, `C109_shrink_exceeds_load`, `C124_robin_limit_exceeded`) and a map without
storage, where `load_factor()` is not a number (`C124_robin_empty_nan`). -/
theorem C124_robin_load_partial {K V : Type} {E : Env K} (hE : E.Lawful) {rv : Nat → Nat} (hrv : ∀ x, 256 ≤ rv x ∧ rv x ≤ 1024)
    {cs : List (Bool × Call K V)} {t : Map K V} (h : Reached E rv cs t) (ht : TameAll E [] cs) : F32.maxLoad 256 t.mlf = .fin (1 / 2) ∧
      (slotCap t ≠ 0 → F32.le (F32.plainLoad t.size (slotCap t)) (F32.maxLoad 256 t.mlf) = true) := by
  have hh := h.half hE hrv ht
  have hl := C109_load_partial hE hrv h ht
  refine ⟨by rw [hh.mlf, F32.maxLoad_eq (A := 256) (j := 8) (by norm_num) (by omega) (by omega)]; norm_num, fun hne => ?_⟩
  obtain ⟨hR, _⟩ := h.reach hE hrv
  rcases hR.st with ⟨a, b, rfl⟩ | ⟨c, hl'⟩
  · exact absurd rfl hne
  · obtain ⟨j, j1, j2, j3⟩ := hl'.toShape.pow
    have hc : slotCap t = 2 ^ j := by rw [hl'.toShape.slotCap, j3]
    rw [hc] at hl ⊢
    rw [hh.mlf]
    exact F32.C124_load_le_pow (by omega) (by omega) (A := 256) (j := 8) (by norm_num) (by omega) (by omega) (by omega)

/-- The history of the example beside C109. -/
example : ∃ t, Reached idEnv (fun _ => 512) (loadHist.map fun c => (true, c)) t ∧ TameAll idEnv [] (loadHist.map fun c => (true, c)) ∧
    slotCap t ≠ 0 := by
  obtain ⟨t, h1, h2, h3, _⟩ := load_of (E := idEnv) (n := 0) (cs := loadHist) (c := 16) (s := 4) (x := 128) (by decide)
    (by decide +kernel)
  exact ⟨t, h1, tame_of_tameB _ _ (by decide +kernel), by omega⟩

/-- Deviation from C124: `load_factor()` of a default constructed robin map is not a number. -/
theorem C124_robin_empty_nan {K V : Type} {E : Env K} {rv : Nat → Nat} (mem : Bool) : ∃ t : Map K V, make false mem 0 = .ok t () ∧
    Reached E rv [] t ∧ F32.plainLoad t.size (slotCap t) = .nan :=
  ⟨emptyMap false 128 512, rfl, ⟨nofun, 0, mem, _, [], rfl, rfl, nofun⟩, F32.C124_empty_nan.1⟩

/-- Deviation from C124: after three insertions, `max_load_factor(0.3f)` and a fourth insertion four of eight positions are in use,
while `max_load_factor()` is 77/256. -/
theorem C124_robin_limit_exceeded : ∃ t, Reached idEnv F32.robinRecip ((ins 3 ++ [Call.maxLoad (F32.nameOf 77 854), Call.insert 3 3]).map
    fun c => (true, c)) t ∧ F32.lt (F32.maxLoad 256 t.mlf) (F32.plainLoad t.size (slotCap t)) = true := by
  have h : (match (make false true 0 : Out (Map Nat Nat) Unit) with
      | .ok t0 _ => match run false true idEnv F32.robinRecip ((ins 3 ++ [Call.maxLoad (F32.nameOf 77 854), Call.insert 3 3]).map
          fun c => (true, c)) t0 with
        | .ok (as, t) => t.size == 4 && slotCap t == 8 && t.mlf == 77 && !as.contains .threw
        | _ => false
      | _ => false) = true := by decide +kernel
  split at h
  · rename_i t0 u h0
    split at h
    · rename_i as t hr
      simp only [Bool.and_eq_true, beq_iff_eq, Bool.not_eq_true'] at h
      obtain ⟨⟨⟨h1, h2⟩, h3⟩, h4⟩ := h
      refine ⟨t, ⟨?_, 0, true, t0, as, h0, hr, ?_⟩, ?_⟩
      · intro c hc
        obtain ⟨c', hc', rfl⟩ := List.mem_map.mp hc
        exact valid_of_validB (List.all_eq_true.mp (show (ins 3 ++ [Call.maxLoad (F32.nameOf 77 854), Call.insert 3 3]).all validB = true by decide) c' hc')
      · intro h5
        have := List.mem_of_getLast? h5
        rw [← List.contains_iff_mem, h4] at this
        cases this
      · rw [h1, h2, h3]
        exact (load_exceeds (n := 4) (c := 8) (j := 8) (m := 77) (by omega) (by omega) (by omega) (by omega) (by omega) (by omega)).1
    · cases h
  · cases h

end Verif.Robin

namespace Verif.RobInd
open Spec (Call Ans)
open Robin (TameAll tame_of_tameB)

/-- C124 (partial), robin, indirect layout: as `Robin.C124_robin_load_partial`. -/
theorem C124_robin_load_partial {K V : Type} {E : Env K} (hE : E.Lawful) {rv : Nat → Nat} (hrv : ∀ x, 256 ≤ rv x ∧ rv x ≤ 1024)
    {cs : List (Bool × Call K V)} {t : Map K V} (h : Reached E rv cs t) (ht : TameAll E [] cs) : F32.maxLoad 256 t.mlf = .fin (1 / 2) ∧
      (slotCap t ≠ 0 → F32.le (F32.plainLoad t.size (slotCap t)) (F32.maxLoad 256 t.mlf) = true) := by
  have hh := h.half hE hrv ht
  have hl := C109_load_partial hE hrv h ht
  refine ⟨by rw [hh.mlf, F32.maxLoad_eq (A := 256) (j := 8) (by norm_num) (by omega) (by omega)]; norm_num, fun hne => ?_⟩
  obtain ⟨hR, _⟩ := h.reach hE hrv
  rcases hR.st with ⟨a, b, rfl⟩ | ⟨c, hl'⟩
  · exact absurd rfl hne
  · obtain ⟨j, j1, j2, j3⟩ := hl'.toShape.pow
    have hc : slotCap t = 2 ^ j := by rw [hl'.toShape.slotCap, j3]
    rw [hc] at hl ⊢
    rw [hh.mlf]
    exact F32.C124_load_le_pow (by omega) (by omega) (A := 256) (j := 8) (by norm_num) (by omega) (by omega) (by omega)

example : ∃ t, Reached idEnv (fun _ => 512) (loadHist.map fun c => (true, c)) t ∧ TameAll idEnv [] (loadHist.map fun c => (true, c)) ∧
    slotCap t ≠ 0 := by
  obtain ⟨t, h1, h2, h3, _⟩ := load_of (E := idEnv) (n := 0) (cs := loadHist) (c := 16) (s := 4) (x := 128) (by decide)
    (by decide +kernel)
  exact ⟨t, h1, tame_of_tameB _ _ (by decide +kernel), by omega⟩

end Verif.RobInd

/-! ### flat16 -/

namespace Verif.Flat
open Spec (Call Ans)

/-- C124 (partial), flat16.  After every history of insertions, erasures and lookups that is defined, `max_load_factor()` is 0.5 and
`load_factor()` is at most that.  Missing: `rehash`, `reserve`, `shrink_to_fit` and `max_load_factor(x)` (deviations of C71). -/
theorem C124_flat_load_partial {K V : Type} {E : Env K} {sec : Nat → Nat} {rv : Nat → Nat} {mem : Mem} {n : Nat} {t : Map K V}
    (hc : make mem n = .ok t ()) (cs : List (Mem × Call K V)) (hp : ∀ p ∈ cs, p.1 ≠ .noSlots ∧ Fill p.2) {as : List (Ans K V)}
    {t' : Map K V} (hr : run E sec rv cs t = .ok (as, t')) : F32.maxLoad 65536 t'.mlf = .fin (1 / 2) ∧
      F32.le (F32.plainLoad t'.size (cap t')) (F32.maxLoad 65536 t'.mlf) = true := by
  obtain ⟨h1, h2⟩ := make_exact (E := E) (sec := sec) hc
  obtain ⟨h3, h4⟩ := fill_run cs t h1 h2 hp as t' hr
  have hl := h4.half h3.toCore
  obtain ⟨j, j1, j2, j3⟩ := h3.toCore.pow
  refine ⟨by rw [h4.2, F32.maxLoad_eq (A := 65536) (j := 16) (by norm_num) (by omega) (by omega)]; norm_num, ?_⟩
  rw [j3] at hl ⊢
  rw [h4.2]
  exact F32.C124_load_le_pow (by omega) (by omega) (A := 65536) (j := 16) (by norm_num) (by omega) (by omega) (by omega)

/-- A history of the required form, which reaches the limit. -/
example : (∀ c ∈ ins 8 1, Fill c) ∧ endsIn (play (ins 8 1)) (fun _ t => cap t == 16 && t.size == 8) = true := by
  refine ⟨fun c hc => ?_, by decide +kernel⟩
  obtain ⟨i, _, rfl⟩ := List.mem_map.mp hc
  trivial

/-- Deviation from C124: `rehash(0)` packs three elements into four slots while `max_load_factor()` is 0.5. -/
theorem C124_flat_rehash_exceeded :
    endsIn (play (ins 3 1 ++ [.rehash 0])) (fun _ t => t.size == 3 && cap t == 4 && t.mlf == 32768) = true ∧
    F32.lt (F32.maxLoad 65536 32768) (F32.plainLoad 3 4) = true :=
  ⟨C71_rehash_exceeds_load, (load_exceeds (n := 3) (c := 4) (j := 16) (m := 32768) (by omega) (by omega) (by omega) (by omega) (by omega) (by omega)).1⟩

end Verif.Flat

/-! ### robin16 -/

namespace Verif.Rob16
open Spec (Call Ans)
open Verif.Robin (hashEnv)

/-- C124 (partial), robin16.  After every history of C79 `max_load_factor()` is 0.5 and `load_factor()` is at most that.  Missing: as in
`C84_load_partial`. -/
theorem C124_robin16_load_partial {K V : Type} {E : Env K} {sec : Nat → Nat} (hE : E.Lawful) {triv : Bool} {rv : Nat → Nat}
    (hrv : ∀ x, 81920 ≤ rv x ∧ rv x ≤ 327680) {mem : Mem} {n : Nat} {t : Map K V} (hc : make mem n = .ok t ()) (big : Bool)
    (hb : big = true → 8 < n) (cs : List (Mem × Call K V)) (hp : PlainAll E sec big [] cs) {as : List (Ans K V)} {t' : Map K V}
    (hr : run E sec triv rv cs t = .ok (as, t')) : F32.maxLoad 65536 t'.mlf = .fin (1 / 2) ∧
      F32.le (F32.plainLoad t'.size (cap t')) (F32.maxLoad 65536 t'.mlf) = true := by
  obtain ⟨h1, h2⟩ := make_state (E := E) (sec := sec) hc big hb
  obtain ⟨as', t'', m', e1, e2, e3, e4⟩ := plain_run hE (triv := triv) hrv cs t [] h1 (by rw [h2]) hp
  rw [hr] at e1
  cases e1
  obtain ⟨j, j1, j2, j3⟩ := e2.pow
  have hl := e2.half.load
  refine ⟨by rw [e2.half.mlf, F32.maxLoad_eq (A := 65536) (j := 16) (by norm_num) (by omega) (by omega)]; norm_num, ?_⟩
  rw [j3] at hl ⊢
  rw [e2.half.mlf]
  exact F32.C124_load_le_pow (by omega) (by omega) (A := 65536) (j := 16) (by norm_num) (by omega) (by omega) (by omega)

/-- A history of the required form. -/
example : PlainAll (hashEnv id) odd false ([] : Spec.Map Nat Nat)
    (([.insert 0 1, .insert 1 2, .assign 0 7, .erase 1, .reserve 100, .index 2 0, .insert 8 8, .iterate] :
      List (Call Nat Nat)).map fun c => (Mem.ok, c)) :=
  plainB_sound _ _ (by decide +kernel)

/-- Deviation from C124: `rehash(0)` packs four elements into four slots while `max_load_factor()` is 0.5. -/
theorem C124_robin16_rehash_exceeded :
    endsIn (play false odd (ins 4 1 ++ [.rehash 0])) (fun _ t => t.size == 4 && cap t == 4 && t.mlf == 32768) = true ∧
    F32.lt (F32.maxLoad 65536 32768) (F32.plainLoad 4 4) = true :=
  ⟨C84_rehash_exceeds_load, (load_exceeds (n := 4) (c := 4) (j := 16) (m := 32768) (by omega) (by omega) (by omega) (by omega) (by omega) (by omega)).1⟩

end Verif.Rob16
