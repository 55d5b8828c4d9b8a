/-
Property theorems for group15 maps, second part (C13-C16, C29, C35, C36).
-/
import Verif.Props15

namespace Verif
open Spec (Call Ans)

set_option maxRecDepth 100000

section
variable {K V : Type} {E : Env K}

/-! ### C13 shrink_to_fit -/

/-- C13 (partial). `shrink_to_fit()` always returns or throws `bad_alloc`; `shrink_to_fit(true)`, when it
returns, is also correct.  Missing: termination of `shrink_to_fit(true)` and of later insertions, which fail
(`C13_read_only_hangs`, `C13_insert_after_shrink_hangs`). -/
theorem C13_shrink_to_fit_partial (hE : E.Lawful) {t : Table K V} (ht : Reachable layout15 E walk15 t) (mem : Bool) :
    (∀ ro t' a, exec layout15 E walk15 mem (.shrink ro) t = .ok t' a →
      (∀ k, lookup layout15 E t' k = lookup layout15 E t k) ∧ t'.size = t.size) ∧
    ((∃ t', exec layout15 E walk15 mem (.shrink false) t = .ok t' .unit) ∨
      exec layout15 E walk15 mem (.shrink false) t = .throw t) := by
  have hI := ht.inv hE (H := laws15) (fun _ h => walk15_eq h)
  constructor
  · intro ro t' a hx
    obtain ⟨_, m', hacc, hl, hl', hs, hs'⟩ := hI.step hE (fun _ h => walk15_eq h) (by trivial) hx
    have hm : m' = entries layout15 t := by
      have ha := exec_ne_threw hx
      cases a with
      | unit => exact hacc
      | threw => exact absurd rfl ha
      | _ => exact hacc.elim
    subst hm
    exact ⟨fun k => by rw [hl, hl'], by rw [hs, hs']⟩
  · simp only [exec, shrinkToFit, Bool.false_eq_true, if_false]
    split
    · have hR := hI.rehashImpl_cases hE true mem (fitCapacity t.mlf t.size)
      generalize rehashImpl layout15 E true mem (fitCapacity t.mlf t.size) t = r at hR
      cases hR with
      | ub h =>
        have := fitCapacity_le (n := t.size) hI.mlf_lo
        omega
      | throw k hk hc h => exact Or.inr rfl
      | same k hk hc h => exact Or.inl ⟨_, rfl⟩
      | moved k t' hm hc h hN hp => exact Or.inl ⟨_, rfl⟩
      | diverge k hm hk hs hc h =>
        have := fit15 hI.mlf_lo hI.mlf_hi hI.size_le hc
        omega
    · rw [hI.destroy_eq]
      exact Or.inl ⟨_, rfl⟩

/-- Concrete object: shrinking releases storage. -/
example : ∃ t : Table Nat Nat, Reachable layout15 modEnv walk15 t ∧
    (stepSat layout15 modEnv walk15 true (.shrink false) (fun t' _ => t.capacity layout15 == 119 && t'.capacity layout15 == 29) t) = true :=
  exists_reachable 100 (insertsFrom 0 20) (fun t => stepSat layout15 modEnv walk15 true (.shrink false) (fun t' _ => t.capacity layout15 == 119 && t'.capacity layout15 == 29) t)
    (by decide +kernel)

/-- C13 is violated: whenever 30, 31 or 32 elements are stored, `shrink_to_fit(true)` never returns. -/
theorem C13_read_only_hangs (hE : E.Lawful) {t : Table K V} (ht : Reachable layout15 E walk15 t)
    (h1 : 30 ≤ t.size) (h2 : t.size ≤ 32) : exec layout15 E walk15 true (.shrink true) t = .diverge := by
  have hI := ht.inv hE (H := laws15) (fun _ h => walk15_eq h)
  have hA : InvA laws15 E t := by
    rcases hI.st with h | h
    · rw [h] at h1; cases h1
    · exact h
  simp only [exec, shrinkToFit, if_true]
  rw [if_pos (by omega)]
  have hR := hI.rehashImpl_cases hE true true t.size
  generalize rehashImpl layout15 E true true t.size t = r at hR
  have hk32 : ∀ k, calcCapacity t.size t.size = .ok (2 ^ k) → k = 5 := by
    intro k hc
    obtain ⟨k', h3, h4, h5, h6, h7⟩ := calcCapacity_ok hc
    have : k = k' := Nat.pow_right_injective (Nat.le_refl 2) h3
    subst this
    by_contra hne
    have : 2 ^ 6 ≤ 2 ^ k := Nat.pow_le_pow_right (by omega) (by omega)
    rcases h7 with h7 | h7 <;> omega
  cases hR with
  | ub h => omega
  | throw k hk hc h =>
    have := hk32 k hc
    rcases h with h | h
    · cases h
    · omega
  | same k hk hc h =>
    have h5 := hk32 k hc
    subst h5
    obtain ⟨j, h6, h7, h8, h9, _⟩ := hA.ctrlCap_eq
    rw [if_pos rfl, h9] at h
    have : j + 4 = 5 := Nat.pow_right_injective (Nat.le_refl 2) h.symm
    have h10 := hA.size_le_slotCap
    rw [Table.slotCap, h8, show j = 1 by omega] at h10
    have : layout15.slotCap (2 ^ 1 - 1 + 1) = 29 := rfl
    omega
  | moved k t' hm hc h hN hp =>
    have h5 := hk32 k hc
    subst h5
    have h10 := hN.inv.size_le_slotCap
    rw [hN.slotCap_eq, hN.inv.size, hp.length_eq, ← hI.size_eq] at h10
    have : layout15.slotCap (2 ^ (5 - 4)) = 29 := rfl
    omega
  | diverge k hm hk hs hc h => rfl

/-- Concrete object. -/
example : ∃ t : Table Nat Nat, Reachable layout15 idEnv walk15 t ∧
    (t.size == 31) = true :=
  exists_reachable 0 (insertsFrom 0 31) (fun t => t.size == 31)
    (by decide +kernel)

/-- The history: at load factor 0.5, 32 colliding keys in a large table, `shrink_to_fit()` (64 control bytes,
threshold 29 < 32), erase the 30 keys of the overflowed groups (the threshold wraps below zero), fill
all 59 slots. -/
def shrinkHistory : List (Bool × Call Nat Nat) :=
  [(true, .maxLoad 128), (true, .reserve 64)] ++ insertsFrom 0 32 ++ [(true, .shrink false)] ++ erasesFrom 0 30 ++
    insertsFrom 100 57

/-- C13 is violated: after `shrink_to_fit()` and deletions an insertion may never return. -/
theorem C13_insert_after_shrink_hangs :
    ∃ t : Table Nat Nat, Reachable layout15 clashEnv walk15 t ∧ t.size = 59 ∧ ∀ mem k v, 200 ≤ k →
      exec layout15 clashEnv walk15 mem (.insert k v) t = .diverge := by
  obtain ⟨t, ht, hp⟩ := exists_reachable (L := layout15) (E := clashEnv) (walk := walk15) 0 shrinkHistory
    (fun t => t.size == 59 && decide (t.size < t.thr) && t.capacity layout15 == 59 &&
      (entries layout15 t).all fun e => decide (e.1 < 200)) (by decide +kernel)
  simp only [Bool.and_eq_true, beq_iff_eq, decide_eq_true_eq] at hp
  obtain ⟨⟨⟨h1, h2⟩, h3⟩, h4⟩ := hp
  refine ⟨t, ht, h1, ?_⟩
  intro mem k v hk
  have hI := ht.inv clashEnv_lawful (H := laws15) (fun _ h => walk15_eq h)
  have hC := hI.emplace_cases clashEnv_lawful false mem k v
  simp only [exec]
  generalize emplace layout15 clashEnv false mem true k v t = r at hC
  cases hC with
  | found i e hi hk' =>
    have := List.all_eq_true.mp h4 e (hI.mem_iff.mpr ⟨i, hi⟩)
    simp only [decide_eq_true_eq] at this
    simp only [clashEnv, beq_iff_eq] at hk'
    omega
  | throw hk hs h => omega
  | placed i t' hk hs hA =>
    have h5 := hA.inv.size_le_slotCap
    have h6 : t.alloc = true := by
      cases hq : t.alloc with
      | true => rfl
      | false => have := hI.alloc_iff.mp hq; omega
    rw [Table.slotCap, hA.gmask, hA.size] at h5
    rw [Table.capacity, if_pos h6, Table.slotCap] at h3
    omega
  | grown i t1 t' hk hs hm c hc hN hp hA => omega
  | diverge hk hs hfull => rfl

/-! ### C14 reserve -/

/-- Calls that insert. -/
def IsInsert : Call K V → Prop
  | .insert _ _ | .assign _ _ | .index _ _ => True
  | _ => False

theorem run_inserts {L : Layout} {H : Laws L} (hb : L.bump = false) (hE : E.Lawful) {walk : Table K V → Res (List (K × V))} :
    ∀ (ops : List (Bool × Call K V)) (t : Table K V), InvA H E t → Inv H E t → (∀ op ∈ ops, IsInsert op.2) →
      t.size + ops.length ≤ t.thr → t.thr ≤ t.slotCap L →
      ∃ as t', run L E walk ops t = .ok (as, t') ∧ t'.capacity L = t.capacity L := by
  intro ops
  induction ops with
  | nil => intro t _ _ _ _ _; exact ⟨[], t, rfl, rfl⟩
  | cons op ops ih =>
    obtain ⟨mem, c⟩ := op
    intro t hA hI hop hsz hsc
    rw [List.length_cons] at hsz
    have hop' : ∀ op ∈ ops, IsInsert op.2 := fun o h => hop o (List.mem_cons_of_mem _ h)
    have key : ∀ update k v, ∃ t1 r e, emplace L E update mem true k v t = .ok t1 r ∧ t1.slot r.1 = some e ∧
        InvA H E t1 ∧ Inv H E t1 ∧ t1.size + ops.length ≤ t1.thr ∧ t1.thr ≤ t1.slotCap L ∧ t1.capacity L = t.capacity L := by
      intro update k v
      have hC := hI.emplace_cases hE update mem k v
      generalize emplace L E update mem true k v t = r at hC
      cases hC with
      | found i e hi hk =>
        cases update with
        | false => exact ⟨t, _, e, rfl, hi, hA, hI, by omega, hsc, rfl⟩
        | true =>
          obtain ⟨h1, _⟩ := hA.assign hi v
          refine ⟨_, (i, false), (e.1, v), rfl, upd_self _ _ _, h1, ⟨hI.mlf_lo, hI.mlf_hi, Or.inr h1⟩, ?_, hsc, rfl⟩
          show t.size + ops.length ≤ t.thr
          omega
      | throw hk hs h => omega
      | placed i t' hk hs hP =>
        have ht : t'.thr = t.thr := by
          rcases hP.thr with h | ⟨h, _⟩
          · exact h
          · rw [hb] at h; cases h
        refine ⟨t', (i, true), _, rfl, hP.at_i, hP.inv,
          ⟨by rw [hP.mlf]; exact hI.mlf_lo, by rw [hP.mlf]; exact hI.mlf_hi, Or.inr hP.inv⟩, ?_, ?_, ?_⟩
        · rw [ht, hP.size]; omega
        · rw [ht, Table.slotCap, hP.gmask]; exact hsc
        · rw [hP.inv.capacity_eq, hA.capacity_eq, Table.slotCap, hP.gmask]; rfl
      | grown i t1 t2 hk hs hm c hc' hN hp hA => omega
      | diverge hk hs hfull =>
        omega
    have hc := hop (mem, c) (by simp)
    have fin : ∀ (t1 : Table K V) (a : Ans K V), exec L E walk mem c t = .ok t1 a → InvA H E t1 → Inv H E t1 →
        t1.size + ops.length ≤ t1.thr → t1.thr ≤ t1.slotCap L → t1.capacity L = t.capacity L →
        ∃ as t', run L E walk ((mem, c) :: ops) t = .ok (as, t') ∧ t'.capacity L = t.capacity L := by
      intro t1 a hx h1 h2 h3 h3' h4
      obtain ⟨as, t', h5, h6⟩ := ih t1 h1 h2 hop' h3 h3'
      exact ⟨a :: as, t', by simp only [run, hx, h5, Res.bind_ok], by rw [h6, h4]⟩
    cases c with
    | insert k v =>
      obtain ⟨t1, r, e, h1, h2, h3, h4, h5, h5', h6⟩ := key false k v
      exact fin t1 (.elem e r.2) (by simp only [exec, h1, Out.bind_ok, readElem, h2]) h3 h4 h5 h5' h6
    | assign k v =>
      obtain ⟨t1, r, e, h1, h2, h3, h4, h5, h5', h6⟩ := key true k v
      exact fin t1 (.elem e r.2) (by simp only [exec, h1, Out.bind_ok, readElem, h2]) h3 h4 h5 h5' h6
    | index k v =>
      obtain ⟨t1, r, e, h1, h2, h3, h4, h5, h5', h6⟩ := key false k v
      exact fin t1 (.value (some e.2)) (by simp only [exec, h1, Out.bind_ok, readValue, h2]) h3 h4 h5 h5' h6
    | _ => exact hc.elim

/-- Enough control bytes for `n` elements: nearly all of them stay below the threshold. -/
theorem thr15_ge {m n G : Nat} (h0 : 128 ≤ m) (hm : m ≤ 224) (hG : G = 2 ∨ 4 ≤ G) (hG' : G ≤ 2 ^ 51) (hn : n ≤ 2 ^ 55)
    (hfit : fitCapacity m n ≤ 16 * G) :
    15 * n ≤ 16 * calcThr m (G * 15 - 1) + 43 ∧ (n ≤ 28 → n ≤ calcThr m (G * 15 - 1)) ∧ n ≤ G * 15 - 1 := by
  unfold fitCapacity at hfit
  rw [Nat.mod_eq_of_lt (by unfold W; omega)] at hfit
  have h4 : n * 256 < (16 * G + 1) * m := by
    have := Nat.lt_mul_div_succ (n * 256) (by omega : 0 < m)
    calc n * 256 < m * (n * 256 / m + 1) := this
      _ ≤ m * (16 * G + 1) := Nat.mul_le_mul_left _ (by omega)
      _ = _ := Nat.mul_comm _ _
  have h5 : (16 * G + 1) * m ≤ (16 * G + 1) * 224 := Nat.mul_le_mul_left _ hm
  have h7 : n ≤ G * 15 - 1 := by omega
  refine ⟨?_, ?_, h7⟩
  · unfold calcThr
    split
    · have h6 : (G * 15 - 1) * m ≤ (G * 15 - 1) * 224 := Nat.mul_le_mul_left _ hm
      rw [Nat.mod_eq_of_lt (by unfold W; omega)]
      have h8 : (G * 15 - 1) * m = 15 * (G * m) - m := by
        rw [Nat.sub_mul, Nat.one_mul, show G * 15 * m = 15 * (G * m) by ring]
      have h9 : (16 * G + 1) * m = 16 * (G * m) + m := by ring
      have h10 : m ≤ G * m := Nat.le_mul_of_pos_left _ (by omega)
      rw [h8]
      rw [h9] at h4
      generalize G * m = x at h4 h10
      omega
    · omega
  · intro h
    unfold calcThr
    split
    · have h6 : (G * 15 - 1) * m ≤ (G * 15 - 1) * 224 := Nat.mul_le_mul_left _ hm
      rw [Nat.mod_eq_of_lt (by unfold W; omega)]
      have h11 : (G * 15 - 1) * 128 ≤ (G * 15 - 1) * m := Nat.mul_le_mul_left _ h0
      omega
    · omega

/-- C14 (partial). On a newly constructed map `reserve(n)` succeeds, gives capacity() >= n, and then any
insertions up to about 15/16 of `n` (all `n` when `n <= 28`) complete without reallocating and without
needing the allocator.  Missing: the last sixteenth, see `C14_reserve_56_reallocates`. -/
theorem C14_reserve_partial (hE : E.Lawful) {mem0 : Bool} {n0 : Nat} {t0 : Table K V}
    (h0 : construct layout15 mem0 n0 = .ok t0 ()) {n : Nat} (h1 : 1 ≤ n) (hn : n ≤ 2 ^ 50) :
    ∃ t1, exec layout15 E walk15 true (.reserve n) t0 = .ok t1 .unit ∧ n ≤ t1.capacity layout15 ∧
      ∀ ops : List (Bool × Call K V), (∀ op ∈ ops, IsInsert op.2) →
        (16 * ops.length + 43 ≤ 15 * n ∨ (n ≤ 28 ∧ ops.length ≤ n)) →
        ∃ as t2, run layout15 E walk15 ops t1 = .ok (as, t2) ∧ t2.capacity layout15 = t1.capacity layout15 := by
  have hfit2 := fitCapacity_le_two (n := n) (m := t0.mlf)
  obtain ⟨hI, he, hz, hA⟩ := construct_spec (H := laws15) (E := E) h0
  have hfit2 := hfit2 hI.mlf_lo
  have hst : t0.alloc = true → ∃ k, NewStore laws15 E k t0.mlf t0 := by
    intro hal
    unfold construct at h0
    simp only at h0
    split at h0
    · split at h0
      · cases h0
      · cases h0
      · rename_i hc
        obtain ⟨k, h1, h2, h3, h4, h5⟩ := calcCapacity_ok hc
        subst h1
        by_cases hw : wrapRisk layout15 mem0 (2 ^ k) = true
        · rw [if_pos hw] at h0; cases h0
        rw [if_neg hw, createSlots_ok h2] at h0
        split at h0
        · rename_i hm
          obtain ⟨_, hk⟩ := hm
          cases h0
          have hinv := freshTable_inv (K := K) (V := V) (H := laws15) (E := E) (mlf := 224) h2 hk
          exact ⟨k, h2, hk, hinv.1, hinv.2, rfl, rfl, rfl⟩
        · cases h0
    · cases h0; cases hal
  -- the storage after the call, with enough groups for `n`
  have key : ∃ t1 k, exec layout15 E walk15 true (.reserve n) t0 = .ok t1 .unit ∧ NewStore laws15 E k t0.mlf t1 ∧
      t1.size = 0 ∧ fitCapacity t0.mlf n ≤ 2 ^ k := by
    rw [exec_reserve (wrapRisk_small (by omega))]
    unfold reserve
    rw [if_pos (by omega)]
    have hR := hI.rehashImpl_cases hE false true (fitCapacity t0.mlf n)
    generalize rehashImpl layout15 E false true (fitCapacity t0.mlf n) t0 = r at hR
    cases hR with
    | ub h => omega
    | throw k hk hc h =>
      rcases h with h | h
      · cases h
      · have := calcCapacity_big hc h
        omega
    | same k hk hc h =>
      rw [if_neg (by simp)] at h
      obtain ⟨k', h2, h3, h4, h5, h6⟩ := calcCapacity_ok hc
      have hal : t0.alloc = true := by
        cases hq : t0.alloc with
        | true => rfl
        | false =>
          exfalso
          have : t0.ctrlCap layout15 = 16 := by unfold Table.ctrlCap; rw [hq]; rfl
          have : 2 ^ 5 ≤ 2 ^ k := Nat.pow_le_pow_right (by omega) hk
          omega
      obtain ⟨k2, hN⟩ := hst hal
      refine ⟨t0, k2, rfl, hN, hz, ?_⟩
      have h7 : t0.ctrlCap layout15 = 2 ^ k2 := by
        unfold Table.ctrlCap
        rw [hal, hN.gmask, pow_sub_add]
        obtain ⟨q, hq⟩ : ∃ q, k2 = q + 4 := ⟨k2 - 4, by have := hN.k_ge; omega⟩
        rw [hq, Nat.add_sub_cancel, Nat.pow_add]; rfl
      omega
    | moved k t' hm hc h hN hp =>
      obtain ⟨k', h2, h3, h4, h5, h6⟩ := calcCapacity_ok hc
      refine ⟨t', k, rfl, hN, ?_, h4⟩
      rw [hN.inv.size, hp.length_eq, he]; rfl
    | diverge k hm hk hs hc h => cases hs
  obtain ⟨t1, k, hx, hN, hz1, hf⟩ := key
  have hk5 := hN.k_ge
  have hG : 2 ^ (k - 4) = 2 ∨ 4 ≤ 2 ^ (k - 4) := by
    by_cases h : k = 5
    · subst h; left; rfl
    · right
      have : 2 ^ 2 ≤ 2 ^ (k - 4) := Nat.pow_le_pow_right (by omega) (by omega)
      omega
  have h16 : 16 * 2 ^ (k - 4) = 2 ^ k := by
    obtain ⟨q, rfl⟩ : ∃ q, k = q + 4 := ⟨k - 4, by omega⟩
    rw [Nat.add_sub_cancel, Nat.pow_add]; omega
  obtain ⟨hb1, hb2, hb3⟩ := thr15_ge (n := n) hI.mlf_lo hI.mlf_hi hG (pow_le_51 hN.k_le) (by omega) (by omega)
  refine ⟨t1, hx, ?_, ?_⟩
  · rw [hN.capacity_eq]; exact hb3
  · intro ops hop hlen
    have hthr : t1.thr = calcThr t0.mlf (2 ^ (k - 4) * 15 - 1) := hN.thr
    refine run_inserts rfl hE ops t1 hN.inv (hN.inv' hI.mlf_lo hI.mlf_hi) hop ?_ (hN.thr_le hI.mlf_hi)
    rw [hz1, hthr]
    rcases hlen with h | ⟨h, h'⟩
    · omega
    · have := hb2 h
      omega

/-- Concrete case: reserve(40) on a default constructed map, then 34 insertions. -/
example : (construct layout15 true 0 : Out (Table Nat Nat) Unit) = .ok (emptyTable layout15 224) () ∧
    16 * (insertsFrom 0 34).length + 43 ≤ 15 * 40 := ⟨rfl, by decide⟩

/-- C14 is violated: after `reserve(56)` on a new map the 52nd insertion reallocates (59 -> 119 slots), and
fails when memory is exhausted. -/
theorem C14_reserve_56_reallocates :
    ∃ t1 : Table Nat Nat, exec layout15 idEnv walk15 true (.reserve 56) (emptyTable layout15 224) = .ok t1 .unit ∧
      t1.capacity layout15 = 59 ∧
      (∃ as t2, run layout15 idEnv walk15 (insertsFrom 0 52) t1 = .ok (as, t2) ∧ t2.capacity layout15 = 119) ∧
      ∃ as t2, run layout15 idEnv walk15 (insertsFrom 0 51 ++ [(false, .insert 51 51)]) t1 = .ok (as, t2) ∧
        as.getLast? = some .threw := by
  refine ⟨_, rfl, by decide +kernel, ?_, ?_⟩
  · have h : (match exec layout15 idEnv walk15 true (.reserve 56) (emptyTable layout15 224 : Table Nat Nat) with
        | .ok t1 _ => (match run layout15 idEnv walk15 (insertsFrom 0 52) t1 with
          | .ok (_, t2) => t2.capacity layout15 == 119
          | _ => false)
        | _ => false) = true := by decide +kernel
    split at h
    · rename_i t1 a he
      cases he
      split at h
      · exact ⟨_, _, by assumption, by simpa using h⟩
      · cases h
    · cases h
  · have h : (match exec layout15 idEnv walk15 true (.reserve 56) (emptyTable layout15 224 : Table Nat Nat) with
        | .ok t1 _ => (match run layout15 idEnv walk15 (insertsFrom 0 51 ++ [(false, .insert 51 51)]) t1 with
          | .ok (as, _) => as.getLast? == some .threw
          | _ => false)
        | _ => false) = true := by decide +kernel
    split at h
    · rename_i t1 a he
      cases he
      split at h
      · exact ⟨_, _, by assumption, by simpa using h⟩
      · cases h
    · cases h

/-! ### C15 max_load_factor -/

/-- C15 (partial). `max_load_factor` keeps the contents. -/
theorem C15_max_load_factor_partial (hE : E.Lawful) {t : Table K V} (ht : Reachable layout15 E walk15 t) {mem : Bool}
    {m : Nat} (h1 : 128 ≤ m) (h2 : m ≤ 224) {t' : Table K V} {a : Ans K V}
    (hx : exec layout15 E walk15 mem (.maxLoad m) t = .ok t' a) :
    (∀ k, lookup layout15 E t' k = lookup layout15 E t k) ∧ t'.size = t.size := by
  have hI := ht.inv hE (H := laws15) (fun _ h => walk15_eq h)
  obtain ⟨_, m', hacc, hl, hl', hs, hs'⟩ := hI.step hE (fun _ h => walk15_eq h) (by exact ⟨h1, h2⟩) hx
  have hm : m' = entries layout15 t := by
    have ha := exec_ne_threw hx
    cases a with
    | unit => exact hacc
    | threw => exact absurd rfl ha
    | _ => exact hacc.elim
  subst hm
  exact ⟨fun k => by rw [hl, hl'], by rw [hs, hs']⟩

/-- Concrete object and call. -/
example : ∃ t : Table Nat Nat, Reachable layout15 modEnv walk15 t ∧
    (stepSat layout15 modEnv walk15 true (.maxLoad 200) (fun t' _ => t'.size == 25) t) = true :=
  exists_reachable 0 (insertsFrom 0 25) (fun t => stepSat layout15 modEnv walk15 true (.maxLoad 200) (fun t' _ => t'.size == 25) t)
    (by decide +kernel)

/-- C15 is violated: `max_load_factor` (any value, even the current one) always moves to a larger table. -/
theorem C15_always_reallocates (hE : E.Lawful) {t : Table K V} (ht : Reachable layout15 E walk15 t)
    {m : Nat} (h1 : 128 ≤ m) (h2 : m ≤ 224) (hc : t.capacity layout15 < 2 ^ 52) :
    ∃ t', exec layout15 E walk15 true (.maxLoad m) t = .ok t' .unit ∧ t.capacity layout15 < t'.capacity layout15 := by
  have hI := ht.inv hE (H := laws15) (fun _ h => walk15_eq h)
  have hI1 := hI.set_mlf h1 h2
  have hszc := hI.size_le_capacity
  have hcc : t.ctrlCap layout15 < 2 ^ 53 := by
    by_contra h
    have := ctrlCap_big hI (by omega)
    omega
  have hcpos : 16 ≤ t.ctrlCap layout15 := by
    unfold Table.ctrlCap
    split
    · omega
    · exact Nat.le_refl _
  simp only [exec, setMlf]
  have hcx : Table.ctrlCap layout15 { t with mlf := m } = t.ctrlCap layout15 := rfl
  rw [hcx]
  have hfit : t.ctrlCap layout15 < fitCapacity m (t.ctrlCap layout15) := by
    unfold fitCapacity
    rw [Nat.mod_eq_of_lt (by unfold W; omega)]
    apply (Nat.le_div_iff_mul_le (by omega)).mpr
    have : (t.ctrlCap layout15).succ * m ≤ (t.ctrlCap layout15).succ * 224 := Nat.mul_le_mul_left _ h2
    omega
  have hfit2 := fitCapacity_le_two (n := t.ctrlCap layout15) h1
  cases hcap : calcCapacity t.size (fitCapacity m (t.ctrlCap layout15)) with
  | diverge => exact absurd hcap calcCapacity_diverge
  | ub => rcases calcCapacity_ub hcap with h | h <;> omega
  | ok cap =>
    simp only
    obtain ⟨k, hk, _, hk1, hk2, hk3⟩ := calcCapacity_ok hcap
    rw [if_pos (by omega)]
    unfold rehash
    simp only
    rw [if_pos (by omega)]
    have hs2 := fitCapacity_le_two (n := t.size) h1
    have hR := hI1.rehashImpl_cases hE layout15.rehashShrinks true (max (fitCapacity m t.size) cap)
    generalize rehashImpl layout15 E layout15.rehashShrinks true (max (fitCapacity m t.size) cap) { t with mlf := m } = r at hR
    cases hR with
    | ub h => omega
    | throw k' hk' hc' h =>
      rcases h with h | h
      · cases h
      · have h3 := calcCapacity_big hc' h
        have h4 : ({ t with mlf := m } : Table K V).size = t.size := rfl
        omega
    | same k' hk' hc' h =>
      obtain ⟨k2, e1, e2, e3, e4, e5⟩ := calcCapacity_ok hc'
      rw [if_neg (by decide)] at h
      have : Table.ctrlCap layout15 { t with mlf := m } = t.ctrlCap layout15 := rfl
      omega
    | moved k' t' hm hc' h hN hp =>
      rw [if_neg (by decide)] at h
      exact ⟨t', rfl, hI1.capacity_lt hN h⟩
    | diverge k' hm hk' hs hc' h => cases hs

/-- Concrete objects: also a default constructed map, and setting the value that is in force. -/
example : ∃ t : Table Nat Nat, Reachable layout15 modEnv walk15 t ∧
    (t.mlf == 224 && stepSat layout15 modEnv walk15 true (.maxLoad 224) (fun t' _ => t.capacity layout15 == 29 && t'.capacity layout15 == 59) t) = true :=
  exists_reachable 0 (insertsFrom 0 25) (fun t => t.mlf == 224 && stepSat layout15 modEnv walk15 true (.maxLoad 224) (fun t' _ => t.capacity layout15 == 29 && t'.capacity layout15 == 59) t)
    (by decide +kernel)

/-! ### C16 clear -/

/-- C16 (partial). `clear()` and `clear(true)` empty an object that owns storage; it stays usable (it is reachable,
so all other theorems apply).  Missing: objects without storage, see `C16_clear_unallocated_undefined`. -/
theorem C16_clear_partial (hE : E.Lawful) {t : Table K V} (ht : Reachable layout15 E walk15 t) (mem d : Bool)
    (hc : d = true ∨ 0 < t.capacity layout15) :
    ∃ t', exec layout15 E walk15 mem (.clear d) t = .ok t' .unit ∧ t'.size = 0 ∧
      (∀ k, lookup layout15 E t' k = .ok none) ∧ walk15 t' = .ok [] ∧ Reachable layout15 E walk15 t' ∧
      (d = false → t'.capacity layout15 = t.capacity layout15) := by
  have hI := ht.inv hE (H := laws15) (fun _ h => walk15_eq h)
  have key : ∃ t', exec layout15 E walk15 mem (.clear d) t = .ok t' .unit ∧
      (d = false → t'.capacity layout15 = t.capacity layout15) := by
    simp only [exec, clear]
    cases d with
    | true =>
      simp only [if_true]
      rw [hI.destroy_eq]
      exact ⟨_, rfl, fun h => by cases h⟩
    | false =>
      simp only [Bool.false_eq_true, if_false]
      rcases hc with hc | hc
      · cases hc
      rcases hI.clearData_eq with ⟨h1, h2, h3, h4, h5⟩ | ⟨h1, h2, h3⟩ | ⟨h1, h2, h3⟩
      · rw [h2]; exact ⟨_, rfl, fun _ => rfl⟩
      · rw [h1, empty_capacity] at hc; cases hc
      · rw [h1, empty_capacity] at hc; cases hc
  obtain ⟨t', hx, hcap⟩ := key
  obtain ⟨hI', m', hacc, hl, hl', hs, hs'⟩ := hI.step hE (fun _ h => walk15_eq h) (by trivial) hx
  have hm : m' = [] := hacc
  subst hm
  refine ⟨t', hx, hs', fun k => by rw [hl']; rfl, ?_, ht.step (by trivial) (Or.inl ⟨_, hx⟩), hcap⟩
  rw [walk15_eq hI']
  have : entries layout15 t' = [] := List.length_eq_zero_iff.mp (by rw [← hI'.size_eq, hs']; rfl)
  rw [this]

/-- Concrete object. -/
example : ∃ t : Table Nat Nat, Reachable layout15 modEnv walk15 t ∧
    (t.size == 25 && decide (0 < t.capacity layout15)) = true :=
  exists_reachable 0 (insertsFrom 0 40 ++ erasesFrom 5 15) (fun t => t.size == 25 && decide (0 < t.capacity layout15))
    (by decide +kernel)

/-- C16 is violated: `clear()` on an object that owns no storage (default constructed, or after `clear(true)`,
`reserve(0)`) writes to the shared constant group. -/
theorem C16_clear_unallocated_undefined (hE : E.Lawful) {t : Table K V} (ht : Reachable layout15 E walk15 t)
    (mem : Bool) (hc : t.capacity layout15 = 0) : exec layout15 E walk15 mem (.clear false) t = .ub := by
  have hI := ht.inv hE (H := laws15) (fun _ h => walk15_eq h)
  have hal := hI.alloc_iff.mpr hc
  simp only [exec, clear, Bool.false_eq_true, if_false]
  rcases hI.clearData_eq with ⟨h1, h2, h3, h4, h5⟩ | ⟨h1, h2, h3⟩ | ⟨h1, h2, h3⟩
  · rw [h1] at hal; cases hal
  · rw [h3]; rfl
  · cases h2

/-- Concrete objects: default constructed, and cleared with `clear(true)`. -/
example : ∃ t : Table Nat Nat, Reachable layout15 modEnv walk15 t ∧
    (t.capacity layout15 == 0) = true :=
  exists_reachable 0 (insertsFrom 0 3 ++ [(true, .clear true)]) (fun t => t.capacity layout15 == 0)
    (by decide +kernel)

/-! ### C29 reserve(0), rehash(0) -/

/-- C29, the part that holds: `rehash(0)` on a non-empty map keeps everything and always returns. -/
theorem C29_rehash_zero_partial (hE : E.Lawful) {t : Table K V} (ht : Reachable layout15 E walk15 t) (mem : Bool)
    (hs : 0 < t.size) (hc : t.capacity layout15 < 2 ^ 52) :
    (∃ t', exec layout15 E walk15 mem (.rehash 0) t = .ok t' .unit ∧
      (∀ k, lookup layout15 E t' k = lookup layout15 E t k) ∧ t'.size = t.size ∧
      t.capacity layout15 ≤ t'.capacity layout15) ∨ exec layout15 E walk15 mem (.rehash 0) t = .throw t := by
  have hI := ht.inv hE (H := laws15) (fun _ h => walk15_eq h)
  have hszc := hI.size_le_capacity
  have key : (∃ t', exec layout15 E walk15 mem (.rehash 0) t = .ok t' .unit) ∨
      exec layout15 E walk15 mem (.rehash 0) t = .throw t := by
    rw [exec_rehash (wrapRisk_small (by omega))]
    simp only [rehash]
    have hp := fitCapacity_pos hI.mlf_hi (by have := hI.mlf_lo; omega) hs hI.size_le
    have hs2 := fitCapacity_le_two (n := t.size) hI.mlf_lo
    rw [if_pos (by omega)]
    have hR := hI.rehashImpl_cases hE layout15.rehashShrinks mem (max (fitCapacity t.mlf t.size) 0)
    generalize rehashImpl layout15 E layout15.rehashShrinks mem (max (fitCapacity t.mlf t.size) 0) t = r at hR
    cases hR with
    | ub h => omega
    | throw k hk hc h => exact Or.inr rfl
    | same k hk hc h => exact Or.inl ⟨_, rfl⟩
    | moved k t' hm hc h hN hp => exact Or.inl ⟨_, rfl⟩
    | diverge k hm hk hs hc h => cases hs
  rcases key with ⟨t', hx⟩ | hx
  · obtain ⟨h1, h2, h3⟩ := C08_growth_preserves hE ht (Or.inr ⟨0, rfl, Or.inr hs⟩) hx
    exact Or.inl ⟨t', hx, h1, h2, h3⟩
  · exact Or.inr hx

/-- Concrete object. -/
example : ∃ t : Table Nat Nat, Reachable layout15 modEnv walk15 t ∧
    (t.size == 25) = true :=
  exists_reachable 0 (insertsFrom 0 40 ++ erasesFrom 5 15) (fun t => t.size == 25)
    (by decide +kernel)

/-- C29 is violated: `reserve(0)` discards every element. -/
theorem C29_reserve_zero_discards (hE : E.Lawful) {t : Table K V} (ht : Reachable layout15 E walk15 t) (mem : Bool) :
    ∃ t', exec layout15 E walk15 mem (.reserve 0) t = .ok t' .unit ∧ t'.size = 0 ∧
      ∀ k, lookup layout15 E t' k = .ok none := by
  have hI := ht.inv hE (H := laws15) (fun _ h => walk15_eq h)
  have hx : exec layout15 E walk15 mem (.reserve 0) t = .ok (emptyTable layout15 t.mlf) .unit := by
    rw [exec_reserve (wrapRisk_small (by simp [fitCapacity]))]
    unfold reserve
    rw [if_neg (by simp), hI.destroy_eq]; rfl
  obtain ⟨hI', m', hacc, hl, hl', hs, hs'⟩ := hI.step hE (fun _ h => walk15_eq h) (by trivial) hx
  have hm : m' = [] := by
    have h : m' = if 0 = 0 then [] else _ := hacc
    simpa using h
  subst hm
  exact ⟨_, hx, hs', fun k => by rw [hl']; rfl⟩

/-- Concrete object that really loses elements. -/
example : ∃ t : Table Nat Nat, Reachable layout15 modEnv walk15 t ∧
    (t.size == 25 && stepSat layout15 modEnv walk15 true (.reserve 0) (fun t' _ => t'.size == 0) t) = true :=
  exists_reachable 0 (insertsFrom 0 40 ++ erasesFrom 5 15) (fun t => t.size == 25 && stepSat layout15 modEnv walk15 true (.reserve 0) (fun t' _ => t'.size == 0) t)
    (by decide +kernel)

/-! ### C35 at and operator[] -/

/-- C35. `at(k)` never changes the map; it yields the mapped value, or `out_of_range` (`none`) exactly when `k`
is absent. -/
theorem C35_at (hE : E.Lawful) {t : Table K V} (ht : Reachable layout15 E walk15 t) (mem : Bool) (k : K) :
    ∃ o, lookup layout15 E t k = .ok o ∧ exec layout15 E walk15 mem (.at k) t = .ok t (.value (o.map (·.2))) := by
  have hI := ht.inv hE (H := laws15) (fun _ h => walk15_eq h)
  refine ⟨_, hI.lookup_eq hE k, ?_⟩
  simp only [exec, hI.lookup_eq hE]; rfl

/-- Both answers occur. -/
example : ∃ t : Table Nat Nat, Reachable layout15 modEnv walk15 t ∧
    (stepSat layout15 modEnv walk15 true (.at 130) (fun _ a => a == .value (some 30)) t &&
      stepSat layout15 modEnv walk15 true (.at 10) (fun _ a => a == .value none) t) = true :=
  exists_reachable 0 (insertsFrom 0 40 ++ erasesFrom 5 15) (fun t => stepSat layout15 modEnv walk15 true (.at 130) (fun _ a => a == .value (some 30)) t &&
      stepSat layout15 modEnv walk15 true (.at 10) (fun _ a => a == .value none) t)
    (by decide +kernel)

/-- C35. `operator[](k)` yields the mapped value if `k` is present and changes nothing; otherwise it inserts the
default value, yields it, and changes nothing else. -/
theorem C35_index (hE : E.Lawful) {t : Table K V} (ht : Reachable layout15 E walk15 t) {mem : Bool} {k : K} {d : V}
    {t' : Table K V} {a : Ans K V} (hx : exec layout15 E walk15 mem (.index k d) t = .ok t' a) :
    (∃ e, lookup layout15 E t k = .ok (some e) ∧ a = .value (some e.2) ∧ t'.size = t.size ∧
        ∀ k', lookup layout15 E t' k' = lookup layout15 E t k') ∨
    (lookup layout15 E t k = .ok none ∧ a = .value (some d) ∧ t'.size = t.size + 1 ∧
        lookup layout15 E t' k = .ok (some (k, d)) ∧
        ∀ k', E.eq k' k = false → lookup layout15 E t' k' = lookup layout15 E t k') := by
  have h : ∃ e b, exec layout15 E walk15 mem (.insert k d) t = .ok t' (.elem e b) ∧ a = .value (some e.2) := by
    simp only [exec] at hx ⊢
    cases hr : emplace layout15 E false mem true k d t with
    | ok t1 r =>
      rw [hr] at hx
      simp only [Out.bind_ok, readValue] at hx
      simp only [Out.bind_ok, readElem]
      split at hx
      · cases hx
      · rename_i e he
        cases hx
        exact ⟨e, r.2, rfl, rfl⟩
    | _ => rw [hr] at hx; cases hx
  obtain ⟨e, b, hx', ha⟩ := h
  rcases C02_insert_never_overwrites hE ht hx' with ⟨e', h1, h2, h3, h4⟩ | ⟨h1, h2, h3, h4, h5⟩
  · cases h2
    exact Or.inl ⟨e, h1, ha, h3, h4⟩
  · cases h2
    exact Or.inr ⟨h1, ha, h3, h4, h5⟩

/-- Both cases occur. -/
example : ∃ t : Table Nat Nat, Reachable layout15 modEnv walk15 t ∧
    (stepSat layout15 modEnv walk15 true (.index 130 0) (fun _ a => a == .value (some 30)) t &&
      stepSat layout15 modEnv walk15 true (.index 10 0) (fun _ a => a == .value (some 0)) t) = true :=
  exists_reachable 0 (insertsFrom 0 40 ++ erasesFrom 5 15) (fun t => stepSat layout15 modEnv walk15 true (.index 130 0) (fun _ a => a == .value (some 30)) t &&
      stepSat layout15 modEnv walk15 true (.index 10 0) (fun _ a => a == .value (some 0)) t)
    (by decide +kernel)

/-! ### C36 bidirectional iteration -/

/-- `begin()` advanced `n` times. -/
def advance15 (t : Table K V) : Nat → Res It15
  | 0 => begin15 t
  | n + 1 => (advance15 t n).bind (inc15 t)

theorem advance15_form {t : Table K V} (hI : Inv laws15 E t) : ∀ n it, advance15 t n = .ok it →
    it.slot = none ∨ ∃ i, it = at15 i ∧ (t.slot i).isSome ∧ InvA laws15 E t := by
  intro n
  induction n with
  | zero =>
    intro it h
    unfold advance15 begin15 at h
    split at h
    · have hA : InvA laws15 E t := by
        rcases hI.st with h1 | h1
        · rename_i h0
          exfalso; apply h0; rw [h1]; rfl
        · exact h1
      obtain ⟨it', r, h1, h2, h3⟩ := first15_ok hA (t.gmask + 2) 0 (by omega) (by omega)
      rw [h1] at h
      cases h
      cases r with
      | none => exact Or.inl h3
      | some j => exact Or.inr ⟨j, h3, h2.2.1, hA⟩
    · cases h; exact Or.inl rfl
  | succ n ih =>
    intro it h
    unfold advance15 at h
    cases hr : advance15 t n with
    | ok it0 =>
      rw [hr] at h
      simp only [Res.bind_ok] at h
      rcases ih it0 hr with h1 | ⟨i, h1, h2, hA⟩
      · unfold inc15 at h
        rw [h1] at h
        cases h
      · subst h1
        obtain ⟨it', r, h3, h4, h5⟩ := inc15_ok hA h2
        rw [h3] at h
        cases h
        cases r with
        | none => exact Or.inl h5
        | some j => exact Or.inr ⟨j, h5, h4.2.1, hA⟩
    | _ => rw [hr] at h; cases h

/-- C36. For consecutive iterators `a`, `b = ++a` obtained from `begin()`, with `b` not `end()`: `--b` is `a`, so
`--(++a) == a` and `++(--b) == b`. -/
theorem C36_decrement_inverts_increment (hE : E.Lawful) {t : Table K V} (ht : Reachable layout15 E walk15 t)
    {n : Nat} {a b : It15} (ha : advance15 t n = .ok a) (hb : inc15 t a = .ok b) (hne : b.slot ≠ none) :
    dec15 t b = .ok a ∧ (dec15 t b).bind (inc15 t) = .ok b := by
  have hI := ht.inv hE (H := laws15) (fun _ h => walk15_eq h)
  have hd : dec15 t b = .ok a := by
    rcases advance15_form hI n a ha with h1 | ⟨i, h1, h2, hA⟩
    · unfold inc15 at hb
      rw [h1] at hb
      cases hb
    · subst h1
      obtain ⟨it', r, h3, h4, h5⟩ := inc15_ok hA h2
      rw [h3] at hb
      cases hb
      cases r with
      | none => exact absurd h5 hne
      | some j =>
        have h6 : b = at15 j := h5
        subst h6
        refine dec15_ok hA h4.2.1 ⟨by have := h4.1; omega, h2, ?_⟩
        intro l hl1 hl2
        exact h4.2.2 l (by omega) hl2
  rw [hd]
  exact ⟨rfl, hb⟩

/-- Concrete iterators in different groups. -/
example : ∃ t : Table Nat Nat, Reachable layout15 clashEnv walk15 t ∧
    (match advance15 t 14 with | .ok a => (match inc15 t a with | .ok b => b.slot == some 15 && a.slot == some 14 | _ => false) | _ => false) = true :=
  exists_reachable 0 (insertsFrom 0 25) (fun t => match advance15 t 14 with | .ok a => (match inc15 t a with | .ok b => b.slot == some 15 && a.slot == some 14 | _ => false) | _ => false)
    (by decide +kernel)

/-- C36 does not extend to `--end()`, which a bidirectional iterator should support: it dereferences a null pointer. -/
theorem C36_decrement_end_undefined (t : Table K V) : dec15 t end15 = .ub := rfl

end
end Verif
