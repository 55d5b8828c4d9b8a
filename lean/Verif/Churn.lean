/-
C30: does the capacity stay bounded when the number of live elements stays bounded?  Without deletions it does; with
deletions it does not: erasing an element of an overflowed group lowers the growth threshold for good
(`reset_ctrl`, T15:2764-2783), so that erasing and re-inserting one key over and over again
makes the table double its storage again and again.
-/
import Verif.Props15b

namespace Verif
open Spec (Call Ans)

/-- The objects that can be reached from a default constructed map when every call returns normally and the number of
elements never exceeds `n`. -/
inductive ChurnReach {K V : Type} (E : Env K) (n : Nat) : Table K V → Prop
  | start {t : Table K V} (h : construct layout15 true 0 = .ok t ()) : ChurnReach E n t
  | step {t t' : Table K V} {mem : Bool} {c : Call K V} {a : Ans K V} (h : ChurnReach E n t) (hv : Valid c)
      (hx : exec layout15 E walk15 mem c t = .ok t' a) (hs : t'.size ≤ n) : ChurnReach E n t'

theorem ChurnReach.reachable {K V : Type} {E : Env K} {n : Nat} {t : Table K V} (h : ChurnReach E n t) :
    Reachable layout15 E walk15 t := by
  induction h with
  | start h => exact ⟨true, 0, _, [], [], h, by simp, rfl⟩
  | step h hv hx hs ih => exact ih.step hv (Or.inl ⟨_, hx⟩)

section
variable {K V : Type} {E : Env K} {t : Table K V}

/-- `find_empty_to_insert` takes the home group when it has room. -/
theorem findEmpty_first {L : Layout} {H : Laws L} (hI : InvA H E t) (check : Bool) (k : K)
    (hm : L.matchEmpty (t.grp (t.home E k)) ≠ 0) :
    ∃ t', findEmpty L E check k t = .ok t' (t.home E k, bsf32 (L.matchEmpty (t.grp (t.home E k)))) := by
  obtain ⟨j, _, hj, hg, hs⟩ := hI.geom
  have hl := hI.home_lt hj hs k
  have hw : t.writable (t.home E k) = true := by
    have : t.home E k ≤ t.gmask := by rw [hg]; omega
    simp [Table.writable, hI.alloc, this]
  unfold findEmpty
  show ∃ t', findEmptyLoop L check _ ((t.gmask + 1) + 1) _ t = _
  unfold findEmptyLoop
  have hget : (Prober.mk0 (t.home E k)).get = t.home E k := rfl
  rw [hget, if_pos hw, if_pos hm]
  exact ⟨_, rfl⟩

/-- With the constant hash 5 every key lives in group 0 unless that group overflows. -/
theorem clash_home {V : Type} {t : Table Nat V} (hI : InvA laws15 clashEnv t) (k : Nat) : t.home clashEnv k = 0 := by
  obtain ⟨j, _, hj, _, hs⟩ := hI.geom
  unfold Table.home
  have h1 : clashEnv.h k = 5 := rfl
  have h2 : 2 ^ 13 ≤ 2 ^ t.shift := Nat.pow_le_pow_right (by omega) (by omega)
  rw [h1]
  exact Nat.div_eq_of_lt (by omega)

/-- The states of the churning history: 16 colliding keys, at least one of them in group 0. -/
structure Churned (t : Table Nat Nat) : Prop where
  inv : Inv laws15 clashEnv t
  size : t.size = 16
  thr_ge : 16 ≤ t.thr
  thr_lt : t.thr < W
  occ : ∃ p e, p < 15 ∧ t.slot p = some e

theorem Churned.invA {t : Table Nat Nat} (h : Churned t) : InvA laws15 clashEnv t := by
  rcases h.inv.st with h1 | h1
  · have := h.size; rw [h1] at this; cases this
  · exact h1

/-- Sixteen keys do not fit into group 0, so its overflow bit is set. -/
theorem Churned.ovf {t : Table Nat Nat} (h : Churned t) :
    layout15.isOverflow (t.grp 0) (layout15.tag 5) = true := by
  have hA := h.invA
  have : ∃ i e, 15 ≤ i ∧ t.slot i = some e := by
    by_contra hc
    push Not at hc
    have h1 : (entries layout15 t).length ≤ 15 := by
      unfold entries
      apply length_filterMap_range_le
      intro i hi _
      cases hq : t.slot i with
      | none => rfl
      | some e => exact absurd hq (hc i e hi)
    rw [← hA.size, h.size] at h1
    omega
  obtain ⟨i, e, hi, hs⟩ := this
  obtain ⟨n, hn, h1, h2⟩ := hA.reach i e hs
  rw [clash_home hA] at h1 h2
  have hS : i / layout15.S ≠ 0 := by
    show i / 15 ≠ 0
    omega
  have hn0 : 0 < n := by
    rcases Nat.eq_zero_or_pos n with h3 | h3
    · subst h3
      have h4 : probe t.gmask 0 0 = 0 := probe_zero _ _
      omega
    · exact h3
  have h5 := h2 0 hn0
  have h4 : probe t.gmask 0 0 = 0 := probe_zero _ _
  have h6 : clashEnv.h e.1 = 5 := rfl
  rwa [h4, h6] at h5

/-- One round: erase a key of group 0 and insert it again. -/
theorem Churned.round {t : Table Nat Nat} (h : Churned t) (hcap : t.ctrlCap layout15 ≤ 2 ^ 54) :
    ∃ k v t1 t2 a b, exec layout15 clashEnv walk15 true (.erase k) t = .ok t1 a ∧ t1.size = 15 ∧
      exec layout15 clashEnv walk15 true (.insert k v) t1 = .ok t2 b ∧ Churned t2 ∧
      ((t2.ctrlCap layout15 = t.ctrlCap layout15 ∧ t2.thr + 1 = t.thr) ∨ t2.ctrlCap layout15 = 2 * t.ctrlCap layout15) := by
  have hE := clashEnv_lawful
  have hA := h.invA
  obtain ⟨p, e, hp, hs⟩ := h.occ
  have hpS : p < layout15.S := hp
  have hs0 : t.slot (0 * layout15.S + p) = some e := by rw [Nat.zero_mul, Nat.zero_add]; exact hs
  obtain ⟨he1, he2, he3⟩ := hA.erase hpS hs0
  have hfind := h.inv.find_some hE hs (hE.refl e.1)
  have hdiv : p / layout15.S = 0 := Nat.div_eq_of_lt hpS
  have hmod : p % layout15.S = p := Nat.mod_eq_of_lt hpS
  rw [hdiv, hmod] at hfind
  have hview : laws15.view (t.grp 0) p = .used (layout15.tag 5) := by
    have h1 := hA.used p e (by rw [Nat.add_mul]; show p < _ + 1 * 15; omega) hs
    unfold cell at h1
    rw [hdiv, hmod] at h1
    exact h1
  have hb : layout15.isOverflow (t.grp 0) (layout15.value (t.grp 0) p) = true := by
    rw [laws15.ovf_value _ _ _ hpS hview]; exact h.ovf
  generalize hdef : InvA.erased layout15 0 p t = t1 at he1 he2 he3
  have ht1 : t1 = { t with slot := upd t.slot p none, grp := upd t.grp 0 (layout15.setEmpty (t.grp 0) p)
                           thr := t.thr - 1, size := 15 } := by
    rw [← hdef]
    unfold InvA.erased
    simp only [hb, if_true, h.size, Nat.zero_mul, Nat.zero_add]
    have hlt := h.thr_lt
    have hge := h.thr_ge
    rw [show t.thr + W - 1 = (t.thr - 1) + W by omega, Nat.add_mod_right, Nat.mod_eq_of_lt (by omega)]
  have hx1 : exec layout15 clashEnv walk15 true (.erase e.1) t = .ok t1 (.num 1) := by
    simp only [exec, eraseKey, hfind, he1, Out.bind]
  have hm1 : t1.mlf = t.mlf := by rw [ht1]
  have hI1 : Inv laws15 clashEnv t1 := ⟨hm1 ▸ h.inv.mlf_lo, hm1 ▸ h.inv.mlf_hi, Or.inr he2⟩
  have hroom : layout15.matchEmpty (t1.grp (t1.home clashEnv e.1)) ≠ 0 := by
    rw [clash_home he2]
    intro hc
    have := (matchEmpty_zero laws15 (t1.grp 0)).mp hc p hpS
    apply this
    rw [ht1]
    simp only [upd_self]
    rw [laws15.view_setEmpty _ _ _ hpS hpS, if_pos rfl]
  obtain ⟨t1', hfe⟩ := findEmpty_first he2 true e.1 hroom
  have habs : ∀ i a, t1.slot i = some a → clashEnv.eq e.1 a.1 = false := by
    intro i a hi
    cases hq : clashEnv.eq e.1 a.1 with
    | false => rfl
    | true =>
      exfalso
      have hne : i ≠ p := by
        rintro rfl
        rw [ht1] at hi
        simp only [upd_self] at hi
        cases hi
      have hi' : t.slot i = some a := by
        rw [ht1] at hi
        simp only at hi
        rwa [upd_other _ _ hne] at hi
      exact hne (hA.uniq i p a e hi' hs (hE.symm _ _ hq))
  have hfn := hI1.find_none habs
  have hC := hI1.emplace_cases hE false true e.1 e.2
  have hcc1 : t1.ctrlCap layout15 = t.ctrlCap layout15 := by rw [ht1]; rfl
  have hsz1 : t1.size = 15 := by rw [ht1]
  have hthr1 : t1.thr = t.thr - 1 := by rw [ht1]
  refine ⟨e.1, e.2, t1, ?_⟩
  generalize hr : emplace layout15 clashEnv false true true e.1 e.2 t1 = r at hC
  cases hC with
  | found i a hi hk => rw [habs i a hi] at hk; cases hk
  | throw hk hs h' =>
    exfalso
    rcases h' with h' | h'
    · cases h'
    · rw [hcc1] at h'; omega
  | placed i t2 hk hlt hAdd =>
    refine ⟨t2, .num 1, .elem (e.1, e.2) true, hx1, hsz1, ?_, ?_, Or.inl ?_⟩
    · simp only [exec, hr, Out.bind_ok, readElem, hAdd.at_i]
    · have hthr : t2.thr = t1.thr := by
        rcases hAdd.thr with h1 | ⟨h1, _⟩
        · exact h1
        · cases h1
      refine ⟨⟨by rw [hAdd.mlf]; exact hI1.mlf_lo, by rw [hAdd.mlf]; exact hI1.mlf_hi, Or.inr hAdd.inv⟩,
        by rw [hAdd.size, hsz1], by omega, by have := h.thr_lt; omega, ?_⟩
      have hi : i < 15 := by
        unfold emplace findOrInsert at hr
        rw [hfn] at hr
        simp only at hr
        rw [if_neg (by omega)] at hr
        simp only [Out.bind_ok] at hr
        rw [hfe] at hr
        simp only [Out.bind_ok, if_true] at hr
        rw [clash_home he2] at hr
        have hb := (bsf_matchEmpty laws15 (g := t1.grp 0) (by rw [clash_home he2] at hroom; exact hroom)).1
        have hb : bsf32 (layout15.matchEmpty (t1.grp 0)) < 15 := hb
        unfold constructAt at hr
        split at hr
        · simp only [if_true, Out.bind_ok, Out.ok.injEq, Prod.mk.injEq] at hr
          omega
        · cases hr
      exact ⟨i, _, hi, hAdd.at_i⟩
    · refine ⟨?_, ?_⟩
      · rw [← hcc1]
        unfold Table.ctrlCap
        rw [hAdd.gmask, if_pos hAdd.inv.alloc, if_pos he2.alloc]
      · have hthr : t2.thr = t1.thr := by
          rcases hAdd.thr with h1 | ⟨h1, _⟩
          · exact h1
          · cases h1
        have := h.thr_ge
        omega
  | grown i tg t2 hk hge hm c hc hN hp hAdd hgr =>
    obtain ⟨hF, hthr, hov⟩ := hAdd.fresh hN.fresh
    obtain ⟨j, hj1, hj2, hj3, hj4, _⟩ := hA.ctrlCap_eq
    have hj5 : 2 ^ (1 + 4) ≤ 2 ^ (j + 4) := Nat.pow_le_pow_right (by omega) (by omega)
    have hc' : 2 ^ c = 2 ^ (j + 5) := by
      rw [hc, hcc1, hj4, Nat.pow_succ 2 (j + 4)]
      omega
    have hcj : c = j + 5 := Nat.pow_right_injective (Nat.le_refl 2) hc'
    subst hcj
    have hpow : 2 ^ (1 + 1) ≤ 2 ^ (j + 1) := Nat.pow_le_pow_right (by omega) (by omega)
    have hSC : layout15.slotCap (2 ^ (j + 5 - 4)) = 2 ^ (j + 1) * 15 - 1 := rfl
    have hle := hN.slotCap_le
    have hthr2 : t2.thr = calcThr t1.mlf (2 ^ (j + 1) * 15 - 1) := by rw [hthr, hN.thr, hSC]
    rw [hSC] at hle
    have hlo := calcThr_ge hI1.mlf_lo hI1.mlf_hi hle
    have hhi := calcThr_le hI1.mlf_hi hle
    have hszg : tg.size = 15 := by rw [hN.inv.size, hp.length_eq, ← hI1.size_eq, hsz1]
    refine ⟨t2, .num 1, .elem (e.1, e.2) true, hx1, hsz1, ?_, ?_, Or.inr ?_⟩
    · simp only [exec, hr, Out.bind_ok, readElem, hAdd.at_i]
    · refine ⟨⟨by rw [hAdd.mlf, hN.mlf]; exact hI1.mlf_lo, by rw [hAdd.mlf, hN.mlf]; exact hI1.mlf_hi, Or.inr hAdd.inv⟩,
        by rw [hAdd.size, hszg], by omega, by unfold W; omega, ?_⟩
      by_cases hi : i < 15
      · exact ⟨i, _, hi, hAdd.at_i⟩
      · have h0 : layout15.isOverflow (t2.grp 0) (layout15.tag 5) = true := by
          obtain ⟨n, hn, h1, h2⟩ := hAdd.inv.reach i _ hAdd.at_i
          rw [clash_home hAdd.inv] at h1 h2
          have h4 : probe t2.gmask 0 0 = 0 := probe_zero _ _
          have hS : i / layout15.S ≠ 0 := by
            show i / 15 ≠ 0
            omega
          have hn0 : 0 < n := by
            rcases Nat.eq_zero_or_pos n with h3 | h3
            · subst h3; omega
            · exact h3
          have h5 := h2 0 hn0
          have h6 : clashEnv.h e.1 = 5 := rfl
          rw [h4] at h5
          simpa only [h6] using h5
        have hne := hF 0 _ (Nat.zero_le _) h0 0 (by decide)
        have hsome : (t2.slot 0).isSome := by
          apply hAdd.inv.some_of_not_empty
          · unfold Table.slotCap
            rw [hAdd.gmask, hN.gmask, pow_sub_add, hSC]
            omega
          · exact hne
        obtain ⟨e', he'⟩ := Option.isSome_iff_exists.mp hsome
        exact ⟨0, e', by omega, he'⟩
    · unfold Table.ctrlCap
      rw [if_pos hAdd.inv.alloc, if_pos hA.alloc, hAdd.gmask, hN.gmask, pow_sub_add, hj3, pow_sub_add,
        show j + 5 - 4 = j + 1 by omega, Nat.pow_succ]
      omega
  | diverge hk hlt hfull =>
    exfalso
    rw [hsz1] at hfull
    unfold Table.slotCap at hfull
    obtain ⟨j, hj1, hj2, hj3, _⟩ := he2.ctrlCap_eq
    have hpow : 2 ^ 1 ≤ 2 ^ j := Nat.pow_le_pow_right (by omega) (by omega)
    have : layout15.slotCap (t1.gmask + 1) = (t1.gmask + 1) * 15 - 1 := rfl
    rw [this, hj3, pow_sub_add] at hfull
    omega

/-- Repeating the round until the storage doubles. -/
theorem Churned.double {n : Nat} : ∀ {t : Table Nat Nat}, t.thr ≤ n → Churned t → ChurnReach clashEnv 16 t →
    t.ctrlCap layout15 ≤ 2 ^ 54 → ∃ t', ChurnReach clashEnv 16 t' ∧ Churned t' ∧
      t'.ctrlCap layout15 = 2 * t.ctrlCap layout15 := by
  induction n with
  | zero => intro t h1 h2; have := h2.thr_ge; omega
  | succ n ih =>
    intro t hn h hr hcap
    obtain ⟨k, v, t1, t2, a, b, hx1, hs1, hx2, hC, hcase⟩ := h.round hcap
    have hr2 : ChurnReach clashEnv 16 t2 :=
      .step (.step hr (by trivial) hx1 (by omega)) (by trivial) hx2 (by rw [hC.size])
    rcases hcase with ⟨hc, ht⟩ | hc
    · obtain ⟨t', h1, h2, h3⟩ := ih (by omega) hC hr2 (by omega)
      exact ⟨t', h1, h2, by omega⟩
    · exact ⟨t2, hr2, hC, hc⟩

/-- A history without exceptions and its object, evaluated call by call. -/
def churnRun (n : Nat) : List (Call Nat Nat) → Table Nat Nat → Option (Table Nat Nat)
  | [], t => some t
  | c :: cs, t =>
    match exec layout15 clashEnv walk15 true c t with
    | .ok t' _ => if t'.size ≤ n && validB c then churnRun n cs t' else none
    | _ => none

theorem churnRun_reach {n : Nat} : ∀ (cs : List (Call Nat Nat)) {t t' : Table Nat Nat}, ChurnReach clashEnv n t →
    churnRun n cs t = some t' → ChurnReach clashEnv n t' := by
  intro cs
  induction cs with
  | nil => intro t t' h1 h2; cases h2; exact h1
  | cons c cs ih =>
    intro t t' h1 h2
    unfold churnRun at h2
    split at h2
    · rename_i t1 a hx
      split at h2
      · rename_i hc
        rw [Bool.and_eq_true] at hc
        exact ih (.step h1 (valid_of_validB hc.2) hx (of_decide_eq_true hc.1)) h2
      · cases h2
    · cases h2

/-- Is the object usable as the start of the churning history? -/
def churnStart (t : Table Nat Nat) : Bool :=
  t.size == 16 && decide (16 ≤ t.thr) && decide (t.thr < W) && (t.slot 0).isSome && t.ctrlCap layout15 == 32

set_option maxRecDepth 100000 in
theorem exists_churned : ∃ t, ChurnReach clashEnv 16 t ∧ Churned t ∧ t.ctrlCap layout15 = 32 := by
  have h : (match churnRun 16 ((List.range 16).map fun i => Call.insert i i) (emptyTable layout15 224) with
      | some t => churnStart t
      | none => false) = true := by decide +kernel
  split at h
  · rename_i t ht
    have hr := churnRun_reach _ (.start (n := 16) (E := clashEnv) (t := emptyTable layout15 224) rfl) ht
    unfold churnStart at h
    simp only [Bool.and_eq_true, beq_iff_eq, decide_eq_true_eq] at h
    obtain ⟨⟨⟨⟨h1, h2⟩, h3⟩, h4⟩, h5⟩ := h
    obtain ⟨e, he⟩ := Option.isSome_iff_exists.mp h4
    exact ⟨t, hr, ⟨hr.reachable.inv clashEnv_lawful (fun _ h => walk15_eq h), h1, h2, h3, ⟨0, e, by omega, he⟩⟩, h5⟩
  · cases h

theorem exists_churned_pow (d : Nat) (hd : d ≤ 50) :
    ∃ t, ChurnReach clashEnv 16 t ∧ Churned t ∧ t.ctrlCap layout15 = 32 * 2 ^ d := by
  induction d with
  | zero => exact exists_churned
  | succ d ih =>
    obtain ⟨t, h1, h2, h3⟩ := ih (by omega)
    have : 2 ^ d ≤ 2 ^ 49 := Nat.pow_le_pow_right (by omega) (by omega)
    obtain ⟨t', h4, h5, h6⟩ := Churned.double (Nat.le_refl _) h2 h1 (by omega)
    exact ⟨t', h4, h5, by rw [h6, h3, Nat.pow_succ]; omega⟩

/-- C30 is violated: with a hash function that maps all keys to the same value, a map that never holds more than 16
elements can be driven to any capacity the memory allows (every call returning normally), by erasing
and re-inserting keys. -/
theorem C30_churn_unbounded (N : Nat) (hN : N ≤ 2 ^ 54) :
    ∃ t : Table Nat Nat, ChurnReach clashEnv 16 t ∧ t.size = 16 ∧ N ≤ t.capacity layout15 := by
  obtain ⟨t, h1, h2, h3⟩ := exists_churned_pow 50 (Nat.le_refl _)
  refine ⟨t, h1, h2.size, ?_⟩
  obtain ⟨j, _, _, hj3, hj4, _⟩ := h2.invA.ctrlCap_eq
  unfold Table.capacity
  rw [if_pos h2.invA.alloc]
  show N ≤ (t.gmask + 1) * 15 - 1
  rw [hj4] at h3
  rw [hj3, pow_sub_add]
  rw [Nat.pow_add] at h3
  omega

/-- The bound asked for by C30 does not exist. -/
theorem C30_no_bound : ¬ ∃ B : Nat → Nat, (∀ n, B n < 2 ^ 54) ∧ ∀ n (t : Table Nat Nat), ChurnReach clashEnv n t →
    t.capacity layout15 ≤ B n := by
  rintro ⟨B, hB, h⟩
  obtain ⟨t, h1, _, h3⟩ := C30_churn_unbounded (2 ^ 54) (Nat.le_refl _)
  have := h 16 t h1
  have := hB 16
  omega

/-! ### Without deletions -/

/-- Calls that only add or read elements. -/
def Grows : Call K V → Prop
  | .insert _ _ | .assign _ _ | .index _ _ | .find _ | .contains _ | .count _ | .at _ | .size | .empty | .iterate => True
  | _ => False

/-- Objects reached from a default constructed map by calls that only add or read elements; the calls may throw. -/
inductive GrowReach (E : Env K) : Table K V → Prop
  | start {t : Table K V} (h : construct layout15 true 0 = .ok t ()) : GrowReach E t
  | ok {t t' : Table K V} {mem : Bool} {c : Call K V} {a : Ans K V} (h : GrowReach E t) (hv : Grows c)
      (hx : exec layout15 E walk15 mem c t = .ok t' a) : GrowReach E t'
  | threw {t t' : Table K V} {mem : Bool} {c : Call K V} (h : GrowReach E t) (hv : Grows c)
      (hx : exec layout15 E walk15 mem c t = .throw t') : GrowReach E t'

/-- The threshold belongs to the capacity, and the capacity to the number of elements. -/
structure GrowInv (E : Env K) (t : Table K V) : Prop where
  inv : Inv laws15 E t
  thr : t.alloc = true → t.thr = calcThr t.mlf (t.slotCap layout15)
  cap : t.capacity layout15 ≤ max 29 (4 * t.size + 3)

/-- Insertions keep the capacity proportional to the number of elements. -/
theorem GrowInv.emplace (hE : E.Lawful) (h : GrowInv E t) (update mem : Bool) (k : K) (v : V) {r : Out (Table K V) (Nat × Bool)}
    (hr : emplace layout15 E update mem true k v t = r) :
    (∀ t' a, r = .ok t' a → GrowInv E t') ∧ ∀ t', r = .throw t' → GrowInv E t' := by
  have hI := h.inv
  have hC := hI.emplace_cases hE update mem k v
  rw [hr] at hC
  cases hC with
  | found i e hi hk =>
    refine ⟨?_, by intro t' h'; cases h'⟩
    intro t' a h'
    simp only [Out.ok.injEq] at h'
    rw [← h'.1]
    cases update with
    | false => exact h
    | true =>
      exact ⟨⟨hI.mlf_lo, hI.mlf_hi, Or.inr ((hI.slot_lt hi).assign hi v).1⟩, h.thr, h.cap⟩
  | throw hk hs h' =>
    refine ⟨(by intro t' a h'; cases h'), ?_⟩
    intro t' h'; cases h'; exact h
  | placed i t' hk hs hA =>
    refine ⟨?_, by intro t' h'; cases h'⟩
    intro t'' a h'
    simp only [Out.ok.injEq] at h'
    rw [← h'.1]
    have hIA : InvA laws15 E t := by
      rcases hI.st with h1 | h1
      · rw [h1] at hs; cases hs
      · exact h1
    have hthr : t'.thr = t.thr := by
      rcases hA.thr with h1 | ⟨h1, _⟩
      · exact h1
      · cases h1
    have hsc : t'.slotCap layout15 = t.slotCap layout15 := by unfold Table.slotCap; rw [hA.gmask]
    refine ⟨⟨by rw [hA.mlf]; exact hI.mlf_lo, by rw [hA.mlf]; exact hI.mlf_hi, Or.inr hA.inv⟩, ?_, ?_⟩
    · intro _; rw [hthr, hA.mlf, hsc]; exact h.thr hIA.alloc
    · have := h.cap
      unfold Table.capacity at this ⊢
      rw [if_pos hIA.alloc] at this
      rw [if_pos hA.inv.alloc, hsc, hA.size]
      omega
  | grown i t1 t' hk hs hm c hc hN hp hA hg =>
    refine ⟨?_, by intro t' h'; cases h'⟩
    intro t'' a h'
    simp only [Out.ok.injEq] at h'
    rw [← h'.1]
    have hsc : t'.slotCap layout15 = layout15.slotCap (2 ^ (c - 4)) := by
      rw [← hN.slotCap_eq]; unfold Table.slotCap; rw [hA.gmask]
    have hsz : t1.size = t.size := by rw [hN.inv.size, hp.length_eq, ← hI.size_eq]
    refine ⟨⟨by rw [hA.mlf, hN.mlf]; exact hI.mlf_lo, by rw [hA.mlf, hN.mlf]; exact hI.mlf_hi, Or.inr hA.inv⟩, ?_, ?_⟩
    · intro _
      rw [(hA.fresh hN.fresh).2.1, hN.thr, hA.mlf, hN.mlf, hsc]
    · unfold Table.capacity
      rw [if_pos hA.inv.alloc, hsc, hA.size, hsz]
      show 2 ^ (c - 4) * 15 - 1 ≤ _
      rcases hI.st with h1 | h1
      · have hcc : t.ctrlCap layout15 = 16 := by rw [h1]; rfl
        rw [hcc] at hc
        have : c = 5 := Nat.pow_right_injective (Nat.le_refl 2) (hc.trans (by rfl))
        subst this
        omega
      · obtain ⟨j, hj1, hj2, hj3, hj4, _⟩ := h1.ctrlCap_eq
        have hj5 : 2 ^ (1 + 4) ≤ 2 ^ (j + 4) := Nat.pow_le_pow_right (by omega) (by omega)
        have hc' : 2 ^ c = 2 ^ (j + 5) := by
          rw [hc, hj4, Nat.pow_succ 2 (j + 4)]
          omega
        have hcj : c = j + 5 := Nat.pow_right_injective (Nat.le_refl 2) hc'
        have hthr := h.thr h1.alloc
        have hs0 : t.slotCap layout15 = 2 ^ j * 15 - 1 := by
          unfold Table.slotCap
          rw [hj3, pow_sub_add]
          rfl
        rw [hs0] at hthr
        have hb : 2 ^ j ≤ 2 ^ 51 := Nat.pow_le_pow_right (by omega) hj2
        have hlo := calcThr_ge hI.mlf_lo hI.mlf_hi (show 2 ^ j * 15 - 1 ≤ 2 ^ 55 by omega)
        rw [hcj, show j + 5 - 4 = j + 1 by omega, Nat.pow_succ]
        omega
  | diverge hk hs hf => exact ⟨(by intro t' a h'; cases h'), (by intro t' h'; cases h')⟩

theorem bind_ok_state {σ α β : Type} {r : Out σ α} {f : σ → α → Out σ β} {s : σ} {b : β}
    (h : r.bind f = .ok s b) : ∃ s1 a, r = .ok s1 a ∧ f s1 a = .ok s b := by
  cases r with
  | ok s1 a => exact ⟨s1, a, rfl, h⟩
  | throw s1 => cases h
  | ub => cases h
  | diverge => cases h

theorem toOut_ok {σ α : Type} {s s' : σ} {r : Res α} {a : α} (h : r.toOut s = .ok s' a) : s' = s := by
  cases r with
  | ok b => cases h; rfl
  | ub => cases h
  | diverge => cases h

theorem toOut_throw {σ α : Type} {s s' : σ} {r : Res α} (h : r.toOut s = .throw s') : s' = s := by
  cases r <;> cases h

theorem readElem_ok {t t' : Table K V} {r : Nat × Bool} {a : Ans K V} (h : readElem t r = .ok t' a) : t' = t := by
  unfold readElem at h
  split at h
  · cases h
  · cases h; rfl

theorem readValue_ok {t t' : Table K V} {r : Nat × Bool} {a : Ans K V} (h : readValue t r = .ok t' a) : t' = t := by
  unfold readValue at h
  split at h
  · cases h
  · cases h; rfl

theorem bind_throw_state {K V β : Type} {r : Out (Table K V) (Nat × Bool)} {f : Table K V → Nat × Bool → Out (Table K V) β}
    {s : Table K V} (hf : ∀ t a, f t a ≠ .throw s) (h : r.bind f = .throw s) : r = .throw s := by
  cases r with
  | ok s1 a => exact absurd h (hf s1 a)
  | throw s1 => cases h; rfl
  | ub => cases h
  | diverge => cases h

theorem GrowInv.step (hE : E.Lawful) (h : GrowInv E t) {mem : Bool} {c : Call K V} (hv : Grows c) :
    (∀ t' a, exec layout15 E walk15 mem c t = .ok t' a → GrowInv E t') ∧
    ∀ t', exec layout15 E walk15 mem c t = .throw t' → GrowInv E t' := by
  cases c with
  | insert k v =>
    have hh := h.emplace hE false mem k v rfl
    simp only [exec]
    refine ⟨fun t' a hx => ?_, fun t' hx => ?_⟩
    · obtain ⟨s1, b, h1, h2⟩ := bind_ok_state hx
      rw [readElem_ok h2]; exact hh.1 _ _ h1
    · exact hh.2 _ (bind_throw_state (fun _ _ => readElem_ne_throw) hx)
  | assign k v =>
    have hh := h.emplace hE true mem k v rfl
    simp only [exec]
    refine ⟨fun t' a hx => ?_, fun t' hx => ?_⟩
    · obtain ⟨s1, b, h1, h2⟩ := bind_ok_state hx
      rw [readElem_ok h2]; exact hh.1 _ _ h1
    · exact hh.2 _ (bind_throw_state (fun _ _ => readElem_ne_throw) hx)
  | index k v =>
    have hh := h.emplace hE false mem k v rfl
    simp only [exec]
    refine ⟨fun t' a hx => ?_, fun t' hx => ?_⟩
    · obtain ⟨s1, b, h1, h2⟩ := bind_ok_state hx
      rw [readValue_ok h2]; exact hh.1 _ _ h1
    · exact hh.2 _ (bind_throw_state (fun _ _ => readValue_ne_throw) hx)
  | find k | contains k | count k | «at» k | iterate =>
    simp only [exec]
    exact ⟨fun t' a hx => by rw [toOut_ok hx]; exact h, fun t' hx => by rw [toOut_throw hx]; exact h⟩
  | size | empty =>
    simp only [exec]
    exact ⟨fun t' a hx => by cases hx; exact h, fun t' hx => by cases hx⟩
  | erase k | clear d | reserve n | rehash n | shrink b | maxLoad m => exact absurd hv (by simp [Grows])

theorem GrowReach.inv (hE : E.Lawful) {t : Table K V} (h : GrowReach E t) : GrowInv E t := by
  induction h with
  | @start t h =>
    obtain ⟨h1, _⟩ := construct_spec (H := laws15) (E := E) h
    have ht : t = emptyTable layout15 224 := by
      simp only [construct, ne_eq, not_true, if_false, Out.ok.injEq] at h
      exact h.1.symm
    refine ⟨h1, ?_, ?_⟩
    · intro ha; rw [ht] at ha; cases ha
    · rw [ht]; exact Nat.zero_le _
  | ok h hv hx ih => exact (ih.step hE hv).1 _ _ hx
  | threw h hv hx ih => exact (ih.step hE hv).2 _ hx

/-- C30 for histories without deletions: the capacity is at most four times the number of elements (plus a constant),
for every hash function.  Missing from the full claim: histories with deletions, for which it is false
(`C30_churn_unbounded`). -/
theorem C30_no_deletions_partial (hE : E.Lawful) {t : Table K V} (h : GrowReach E t) :
    t.capacity layout15 ≤ max 29 (4 * t.size + 3) := (h.inv hE).cap

end

/-- A concrete object. -/
example : ∃ t : Table Nat Nat, GrowReach clashEnv t ∧ t.size = 1 ∧ t.capacity layout15 = 29 := by
  have h0 : GrowReach clashEnv (emptyTable layout15 224 : Table Nat Nat) := .start rfl
  have hx : stepSat layout15 clashEnv walk15 true (.insert 7 8) (fun t _ => t.size == 1 && t.capacity layout15 == 29)
    (emptyTable layout15 224 : Table Nat Nat) = true := by decide +kernel
  unfold stepSat at hx
  split at hx
  · rename_i t' a h1
    simp only [Bool.and_eq_true, beq_iff_eq] at hx
    exact ⟨t', h0.ok (by trivial) h1, hx.1, hx.2⟩
  · cases hx

end Verif
