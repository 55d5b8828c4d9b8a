/-
Property theorems for group16 maps, second part: growth (C42), throwing constructors (C43), reserve (C44),
max_load_factor (C45), reserve(0)/rehash(0) (C46), at/operator[] (C47).
-/
import Verif.Props16

namespace Verif
open Spec (Call Ans)

set_option maxRecDepth 100000

section
variable {K V : Type} {E : Env K} {pad : Bool}

/-- C42. `reserve(n)` (n > 0) and `rehash(n)` keep the contents; `reserve` never reduces capacity().  Both leave at least
`n` slots, so a `rehash(n)` that shrinks still leaves room for all elements. -/
theorem C42_growth_preserves (hE : E.Lawful) {t : Table K V} (ht : Reachable layout16 E (walk16 pad) t) {mem : Bool} {n : Nat}
    {c : Call K V} (hc : (0 < n ∧ c = .reserve n) ∨ (c = .rehash n ∧ (0 < n ∨ 0 < t.size)))
    {t' : Table K V} {a : Ans K V} (hx : exec layout16 E (walk16 pad) mem c t = .ok t' a) :
    (∀ k, lookup layout16 E t' k = lookup layout16 E t k) ∧ t'.size = t.size ∧ t.size ≤ t'.capacity layout16 ∧
      (c = .reserve n → t.capacity layout16 ≤ t'.capacity layout16) ∧ (c = .rehash n → n ≤ t'.capacity layout16) := by
  have hI := ht.inv hE (H := laws16) (fun _ h => walk16_eq h pad)
  have hv : Valid c := by
    rcases hc with ⟨_, rfl⟩ | ⟨rfl, _⟩ <;> trivial
  obtain ⟨hI', m', hacc, hl, hl', hs, hs'⟩ := hI.step hE (fun _ h => walk16_eq h pad) hv hx
  have hm : m' = entries layout16 t := by
    have ha := exec_ne_threw hx
    rcases hc with ⟨hn, rfl⟩ | ⟨rfl, _⟩
    · cases a with
      | unit =>
        have h : m' = if n = 0 then [] else _ := hacc
        rwa [if_neg (by omega)] at h
      | threw => exact absurd rfl ha
      | _ => exact hacc.elim
    · cases a with
      | unit => exact hacc
      | threw => exact absurd rfl ha
      | _ => exact hacc.elim
  subst hm
  have hsz : t'.size = t.size := by rw [hs, hs']
  refine ⟨fun k => by rw [hl, hl'], hsz, hsz ▸ hI'.size_le_capacity, ?_, ?_⟩
  · intro hcr
    rcases hc with ⟨hn, rfl⟩ | ⟨rfl, _⟩
    · rw [exec_reserve_of_ne_ub (by rw [hx]; simp)] at hx
      unfold reserve at hx
      rw [if_pos (by omega)] at hx
      have hR := hI.rehashImpl_cases hE false mem (fitCapacity t.mlf n)
      cases hr : rehashImpl layout16 E false mem (fitCapacity t.mlf n) t with
      | ok t1 u =>
        rw [hr] at hx hR
        cases hx
        exact hR.capacity_le hI
      | _ => rw [hr] at hx; cases hx
    · cases hcr
  · intro hcr
    rcases hc with ⟨hn, rfl⟩ | ⟨rfl, hn⟩
    · cases hcr
    · rw [exec_rehash_of_ne_ub (by rw [hx]; simp)] at hx
      simp only [rehash] at hx
      rw [if_pos ?_] at hx
      · have hR := hI.rehashImpl_cases hE layout16.rehashShrinks mem (max (fitCapacity t.mlf t.size) n)
        generalize rehashImpl layout16 E layout16.rehashShrinks mem (max (fitCapacity t.mlf t.size) n) t = r at hR hx
        cases hR with
        | ub h => cases hx
        | throw k hk hc h => cases hx
        | same k hk hc h =>
          cases hx
          obtain ⟨k2, e1, e2, e3, e4, e5⟩ := calcCapacity_ok hc
          rw [if_pos (by rfl)] at h
          rcases hI.st with he | hA
          · rw [he] at h
            have : 2 ^ 5 ≤ 2 ^ k := Nat.pow_le_pow_right (by omega) hk
            have h0 : Table.ctrlCap layout16 (emptyTable layout16 t.mlf : Table K V) = 0 := rfl
            omega
          · obtain ⟨j, _, _, hg, hj, _⟩ := hA.ctrlCap_eq
            rw [hA.capacity_eq, Table.slotCap, hg, pow_sub_add, slotCap16]
            rw [Nat.pow_add] at hj
            omega
        | moved k t1 hm hc h hN hp =>
          cases hx
          obtain ⟨k2, e1, e2, e3, e4, e5⟩ := calcCapacity_ok hc
          rw [hN.capacity_eq, slotCap16]
          obtain ⟨q, rfl⟩ : ∃ q, k = q + 4 := ⟨k - 4, by have := hN.k_ge; omega⟩
          rw [Nat.add_sub_cancel]
          have : 2 ^ (q + 4) = 2 ^ q * 16 := Nat.pow_add 2 q 4
          omega
        | diverge k hm hk hs hc h => cases hx
      · rcases hn with hn | hn
        · omega
        · have := fitCapacity_pos hI.mlf_hi (by have := hI.mlf_lo; omega) hn hI.size_le
          omega

/-- Concrete object and calls; all really move the elements, the last one into fewer slots. -/
example : ∃ t : Table Nat Nat, Reachable layout16 modEnv (walk16 true) t ∧
    (stepSat layout16 modEnv (walk16 true) true (.reserve 100) (fun t' _ => t'.capacity layout16 == 128) t &&
      stepSat layout16 modEnv (walk16 true) true (.rehash 200) (fun t' _ => t'.capacity layout16 == 256) t &&
      stepSat layout16 modEnv (walk16 true) true (.rehash 1) (fun t' _ => t'.capacity layout16 == 32) t) = true :=
  exists_reachable 64 (insertsFrom 0 20) (fun t => stepSat layout16 modEnv (walk16 true) true (.reserve 100) (fun t' _ => t'.capacity layout16 == 128) t &&
      stepSat layout16 modEnv (walk16 true) true (.rehash 200) (fun t' _ => t'.capacity layout16 == 256) t &&
      stepSat layout16 modEnv (walk16 true) true (.rehash 1) (fun t' _ => t'.capacity layout16 == 32) t)
    (by decide +kernel)

/-- C42. An insertion keeps every other element (C02, C03) and never reduces capacity(). -/
theorem C42_insert_never_reduces_capacity (hE : E.Lawful) {t : Table K V} (ht : Reachable layout16 E (walk16 pad) t) {mem : Bool}
    {k : K} {v : V} {c : Call K V} (hc : c = .insert k v ∨ c = .assign k v ∨ c = .index k v)
    {t' : Table K V} {a : Ans K V} (hx : exec layout16 E (walk16 pad) mem c t = .ok t' a) :
    t.capacity layout16 ≤ t'.capacity layout16 := by
  have hI := ht.inv hE (H := laws16) (fun _ h => walk16_eq h pad)
  have key : ∀ upd (f : Table K V → Nat × Bool → Out (Table K V) (Ans K V)),
      (∀ t1 r t2 b, f t1 r = .ok t2 b → t2 = t1) →
      (emplace layout16 E upd mem true k v t).bind f = .ok t' a → t.capacity layout16 ≤ t'.capacity layout16 := by
    intro upd f hf h
    have hC := hI.emplace_cases hE upd mem k v
    cases hr : emplace layout16 E upd mem true k v t with
    | ok t1 u =>
      rw [hr] at h hC
      have := hf _ _ _ _ h
      subst this
      exact hC.capacity_le hI
    | _ => rw [hr] at h; cases h
  have h1 : ∀ (t1 : Table K V) (r : Nat × Bool) (t2 : Table K V) b, readElem t1 r = .ok t2 b → t2 = t1 := by
    intro t1 r t2 b h
    unfold readElem at h
    split at h <;> cases h
    rfl
  have h2 : ∀ (t1 : Table K V) (r : Nat × Bool) (t2 : Table K V) b, readValue t1 r = .ok t2 b → t2 = t1 := by
    intro t1 r t2 b h
    unfold readValue at h
    split at h <;> cases h
    rfl
  rcases hc with rfl | rfl | rfl
  · exact key _ _ h1 hx
  · exact key _ _ h1 hx
  · exact key _ _ h2 hx

/-- Concrete object where the insertion grows the table. -/
example : ∃ t : Table Nat Nat, Reachable layout16 modEnv (walk16 true) t ∧
    (stepSat layout16 modEnv (walk16 true) true (.insert 90 9) (fun t' _ => t.capacity layout16 == 32 && t'.capacity layout16 == 64) t) = true :=
  exists_reachable 0 (insertsFrom 0 32) (fun t => stepSat layout16 modEnv (walk16 true) true (.insert 90 9) (fun t' _ => t.capacity layout16 == 32 && t'.capacity layout16 == 64) t)
    (by decide +kernel)


/-- C43 (partial). A throwing constructor is harmless when nothing is inserted: if an equivalent key is present,
`insert` does not construct anything and leaves the object as it is.  Missing: the case where it does construct,
which is violated, see `C43_throwing_constructor_corrupts`. -/
theorem C43_throwing_constructor_partial {t : Table K V}
    (mem : Bool) {k : K} {e : K × V} (hk : lookup layout16 E t k = .ok (some e)) (v : V) :
    ∃ i, emplace layout16 E false mem false k v t = .ok t (i, false) ∧ t.slot i = some e := by
  unfold lookup at hk
  cases hf : find layout16 E t k with
  | ok o =>
    rw [hf] at hk
    cases o with
    | none => cases hk
    | some gp =>
      simp only [Res.bind_ok] at hk
      split at hk
      · cases hk
      · rename_i e' he
        cases hk
        refine ⟨_, ?_, he⟩
        simp only [emplace, findOrInsert, hf, Out.bind_ok, Bool.false_eq_true, if_false]
  | _ => rw [hf] at hk; cases hk

/-- Concrete object and key. -/
example : ∃ t : Table Nat Nat, Reachable layout16 modEnv (walk16 true) t ∧
    (match lookup layout16 modEnv t 105 with | .ok (some (5, 5)) => true | _ => false) = true :=
  exists_reachable 0 (insertsFrom 0 29) (fun t => match lookup layout16 modEnv t 105 with | .ok (some (5, 5)) => true | _ => false)
    (by decide +kernel)

/-- C43 is violated, always: whenever an insertion would add an element and its constructor throws, the object is
left in a state where looking up the key, and even destroying the map, is undefined behaviour. -/
theorem C43_throwing_constructor_corrupts (hE : E.Lawful) {t : Table K V} (ht : Reachable layout16 E (walk16 pad) t)
    {update mem : Bool} {k : K} {v : V} {t' : Table K V} {i : Nat}
    (hx : emplace layout16 E update mem true k v t = .ok t' (i, true)) :
    ∃ t1, emplace layout16 E update mem false k v t = .throw t1 ∧ lookup layout16 E t1 k = .ub ∧
      exec layout16 E (walk16 pad) mem (.clear true) t1 = .ub := by
  obtain ⟨t1, h1, h2, h3⟩ := (ht.inv hE (H := laws16) (fun _ h => walk16_eq h pad)).ctor_throws hE hx
  exact ⟨t1, h1, h2, by simp only [exec, clear, if_true, h3]; rfl⟩

/-- Concrete object and key. -/
example : ∃ t : Table Nat Nat, Reachable layout16 modEnv (walk16 true) t ∧
    (match emplace layout16 modEnv false true true 50 1 t with | .ok _ (_, true) => true | _ => false) = true :=
  exists_reachable 0 (insertsFrom 0 29)
    (fun t => match emplace layout16 modEnv false true true 50 1 t with | .ok _ (_, true) => true | _ => false)
    (by decide +kernel)


/-! ### C44 reserve -/

/-- Insertions below the threshold of a table without erasures stay in the same storage. -/
theorem run_inserts_fresh {L : Layout} {H : Laws L} (hE : E.Lawful) {walk : Table K V → Res (List (K × V))} :
    ∀ (ops : List (Bool × Call K V)) (t : Table K V), InvA H E t → Inv H E t → Fresh H t → (∀ op ∈ ops, IsInsert op.2) →
      t.size + ops.length ≤ t.thr → t.thr ≤ t.slotCap L →
      ∃ as t', run L E walk ops t = .ok (as, t') ∧ t'.capacity L = t.capacity L := by
  intro ops
  induction ops with
  | nil => intro t _ _ _ _ _ _; exact ⟨[], t, rfl, rfl⟩
  | cons op ops ih =>
    obtain ⟨mem, c⟩ := op
    intro t hA hI hF hop hsz hsc
    rw [List.length_cons] at hsz
    have hop' : ∀ op ∈ ops, IsInsert op.2 := fun o h => hop o (List.mem_cons_of_mem _ h)
    have key : ∀ update k v, ∃ t1 r e, emplace L E update mem true k v t = .ok t1 r ∧ t1.slot r.1 = some e ∧
        InvA H E t1 ∧ Inv H E t1 ∧ Fresh H t1 ∧ t1.size + ops.length ≤ t1.thr ∧ t1.thr ≤ t1.slotCap L ∧
        t1.capacity L = t.capacity L := by
      intro update k v
      have hC := hI.emplace_cases hE update mem k v
      generalize emplace L E update mem true k v t = r at hC
      cases hC with
      | found i e hi hk =>
        cases update with
        | false => exact ⟨t, _, e, rfl, hi, hA, hI, hF, by omega, hsc, rfl⟩
        | true =>
          obtain ⟨h1, _⟩ := hA.assign hi v
          refine ⟨_, (i, false), (e.1, v), rfl, upd_self _ _ _, h1, ⟨hI.mlf_lo, hI.mlf_hi, Or.inr h1⟩, hF, ?_, hsc, rfl⟩
          show t.size + ops.length ≤ t.thr
          omega
      | throw hk hs h => omega
      | placed i t' hk hs hP =>
        obtain ⟨hF', ht, _⟩ := hP.fresh hF
        refine ⟨t', (i, true), _, rfl, hP.at_i, hP.inv,
          ⟨by rw [hP.mlf]; exact hI.mlf_lo, by rw [hP.mlf]; exact hI.mlf_hi, Or.inr hP.inv⟩, hF', ?_, ?_, ?_⟩
        · rw [ht, hP.size]; omega
        · rw [ht, Table.slotCap, hP.gmask]; exact hsc
        · rw [hP.inv.capacity_eq, hA.capacity_eq, Table.slotCap, hP.gmask]; rfl
      | grown i t1 t2 hk hs hm c hc' hN hp hA => omega
      | diverge hk hs hfull =>
        omega
    have hc := hop (mem, c) (by simp)
    have fin : ∀ (t1 : Table K V) (a : Ans K V), exec L E walk mem c t = .ok t1 a → InvA H E t1 → Inv H E t1 → Fresh H t1 →
        t1.size + ops.length ≤ t1.thr → t1.thr ≤ t1.slotCap L → t1.capacity L = t.capacity L →
        ∃ as t', run L E walk ((mem, c) :: ops) t = .ok (as, t') ∧ t'.capacity L = t.capacity L := by
      intro t1 a hx h1 h2 h0 h3 h3' h4
      obtain ⟨as, t', h5, h6⟩ := ih t1 h1 h2 h0 hop' h3 h3'
      exact ⟨a :: as, t', by simp only [run, hx, h5, Res.bind_ok], by rw [h6, h4]⟩
    cases c with
    | insert k v =>
      obtain ⟨t1, r, e, h1, h2, h3, h4, h0, h5, h5', h6⟩ := key false k v
      exact fin t1 (.elem e r.2) (by simp only [exec, h1, Out.bind_ok, readElem, h2]) h3 h4 h0 h5 h5' h6
    | assign k v =>
      obtain ⟨t1, r, e, h1, h2, h3, h4, h0, h5, h5', h6⟩ := key true k v
      exact fin t1 (.elem e r.2) (by simp only [exec, h1, Out.bind_ok, readElem, h2]) h3 h4 h0 h5 h5' h6
    | index k v =>
      obtain ⟨t1, r, e, h1, h2, h3, h4, h0, h5, h5', h6⟩ := key false k v
      exact fin t1 (.value (some e.2)) (by simp only [exec, h1, Out.bind_ok, readValue, h2]) h3 h4 h0 h5 h5' h6
    | _ => exact hc.elim

/-- With the default load factor, exactly enough groups. -/
theorem thr16_ge {n G : Nat} (hG : 2 ≤ G) (hG' : G ≤ 2 ^ 51) (hn : n ≤ 2 ^ 50) (hfit : fitCapacity 224 n ≤ 16 * G) :
    n ≤ calcThr 224 (G * 16) := by
  unfold fitCapacity at hfit
  rw [Nat.mod_eq_of_lt (by unfold W; omega)] at hfit
  unfold calcThr
  split
  · rw [Nat.mod_eq_of_lt (by unfold W; omega)]
    omega
  · omega

/-- C44 (partial). On a newly constructed map `reserve(n)` succeeds, and then any `n` insertions complete without
reallocating and without needing the allocator.  Missing: maps whose max_load_factor was changed
(`C44_reserve_after_max_load_factor_reallocates`) and maps after erasures (`C44_reserve_after_erase_reallocates`). -/
theorem C44_reserve_partial (hE : E.Lawful) {mem0 : Bool} {n0 : Nat} {t0 : Table K V}
    (h0 : construct layout16 mem0 n0 = .ok t0 ()) {n : Nat} (h1 : 1 ≤ n) (hn : n ≤ 2 ^ 50) :
    ∃ t1, exec layout16 E (walk16 pad) true (.reserve n) t0 = .ok t1 .unit ∧ n ≤ t1.capacity layout16 ∧
      ∀ ops : List (Bool × Call K V), (∀ op ∈ ops, IsInsert op.2) → ops.length ≤ n →
        ∃ as t2, run layout16 E (walk16 pad) ops t1 = .ok (as, t2) ∧ t2.capacity layout16 = t1.capacity layout16 := by
  have hmlf : t0.mlf = 224 := by
    unfold construct at h0
    simp only at h0
    split at h0
    · split at h0
      · cases h0
      · cases h0
      · rename_i cap hc
        split at h0
        · cases h0
        · unfold createSlots at h0
          split at h0 <;> cases h0
          rfl
    · cases h0; rfl
  have hfit2 := fitCapacity_le_two (n := n) (m := 224) (by omega)
  obtain ⟨hI, he, hz, hA⟩ := construct_spec (H := laws16) (E := E) h0
  have hst : t0.alloc = true → ∃ k, NewStore laws16 E k t0.mlf t0 := by
    intro hal
    unfold construct at h0
    simp only at h0
    split at h0
    · split at h0
      · cases h0
      · cases h0
      · rename_i hc
        obtain ⟨k, h1, h2, h3, h4, h5⟩ := calcCapacity_ok hc
        subst h1
        by_cases hw : wrapRisk layout16 mem0 (2 ^ k) = true
        · rw [if_pos hw] at h0; cases h0
        rw [if_neg hw, createSlots_ok h2] at h0
        split at h0
        · rename_i hm
          obtain ⟨_, hk⟩ := hm
          cases h0
          have hinv := freshTable_inv (K := K) (V := V) (H := laws16) (E := E) (mlf := 224) h2 hk
          exact ⟨k, h2, hk, hinv.1, hinv.2, rfl, rfl, rfl⟩
        · cases h0
    · cases h0; cases hal
  have key : ∃ t1 k, exec layout16 E (walk16 pad) true (.reserve n) t0 = .ok t1 .unit ∧ NewStore laws16 E k 224 t1 ∧
      t1.size = 0 ∧ fitCapacity 224 n ≤ 2 ^ k := by
    rw [hmlf] at hst
    rw [exec_reserve (wrapRisk_small (by rw [hmlf]; omega))]
    unfold reserve
    rw [if_pos (by omega), hmlf]
    have hR := hI.rehashImpl_cases hE false true (fitCapacity 224 n)
    generalize rehashImpl layout16 E false true (fitCapacity 224 n) t0 = r at hR
    cases hR with
    | ub h => omega
    | throw k hk hc h =>
      rcases h with h | h
      · cases h
      · have := calcCapacity_big hc h
        omega
    | same k hk hc h =>
      rw [if_neg (by simp)] at h
      obtain ⟨k', h2, h3, h4, h5, h6⟩ := calcCapacity_ok hc
      have hal : t0.alloc = true := by
        cases hq : t0.alloc with
        | true => rfl
        | false =>
          exfalso
          have : t0.ctrlCap layout16 = 0 := by unfold Table.ctrlCap; rw [hq]; rfl
          have : 2 ^ 5 ≤ 2 ^ k := Nat.pow_le_pow_right (by omega) hk
          omega
      obtain ⟨k2, hN⟩ := hst hal
      refine ⟨t0, k2, rfl, hN, hz, ?_⟩
      have h7 : t0.ctrlCap layout16 = 2 ^ k2 := by
        unfold Table.ctrlCap
        rw [hal, hN.gmask, pow_sub_add]
        obtain ⟨q, hq⟩ : ∃ q, k2 = q + 4 := ⟨k2 - 4, by have := hN.k_ge; omega⟩
        rw [hq, Nat.add_sub_cancel, Nat.pow_add]; rfl
      omega
    | moved k t' hm hc h hN hp =>
      obtain ⟨k', h2, h3, h4, h5, h6⟩ := calcCapacity_ok hc
      refine ⟨t', k, rfl, hmlf ▸ hN, ?_, h4⟩
      rw [hN.inv.size, hp.length_eq, he]; rfl
    | diverge k hm hk hs hc h => cases hs
  obtain ⟨t1, k, hx, hN, hz1, hf⟩ := key
  have hk5 := hN.k_ge
  have hG : 2 ≤ 2 ^ (k - 4) := by
    have : 2 ^ 1 ≤ 2 ^ (k - 4) := Nat.pow_le_pow_right (by omega) (by omega)
    omega
  have h16 : 16 * 2 ^ (k - 4) = 2 ^ k := by
    obtain ⟨q, rfl⟩ : ∃ q, k = q + 4 := ⟨k - 4, by omega⟩
    rw [Nat.add_sub_cancel, Nat.pow_add]; omega
  have hb := thr16_ge (n := n) hG (pow_le_51 hN.k_le) hn (by omega)
  have hthr : t1.thr = calcThr 224 (2 ^ (k - 4) * 16) := hN.thr
  have hle := hN.thr_le (by omega)
  refine ⟨t1, hx, ?_, ?_⟩
  · rw [hN.inv.capacity_eq]; omega
  · intro ops hop hlen
    exact run_inserts_fresh hE ops t1 hN.inv (hN.inv' (by omega) (by omega)) hN.fresh hop (by omega) hle

/-- Concrete case: reserve(56) on a default constructed map, then 56 insertions; the 57th reallocates. -/
example : (construct layout16 true 0 : Out (Table Nat Nat) Unit) = .ok (emptyTable layout16 224) () ∧
    runSat layout16 idEnv (walk16 true) 0 ((true, .reserve 56) :: insertsFrom 0 56) (fun t : Table Nat Nat => t.capacity layout16 == 64) = true ∧
    runSat layout16 idEnv (walk16 true) 0 ((true, .reserve 56) :: insertsFrom 0 57) (fun t : Table Nat Nat => t.capacity layout16 == 128) = true :=
  ⟨rfl, by decide +kernel, by decide +kernel⟩

/-- C44 is violated after `max_load_factor(0.512)`: `reserve(33)` then provides for 32 elements only; the 33rd insertion
reallocates (64 -> 128 slots), and fails when memory is exhausted. -/
theorem C44_reserve_after_max_load_factor_reallocates :
    runSat layout16 idEnv (walk16 true) 0 [(true, .maxLoad 131), (true, .reserve 33)]
      (fun t : Table Nat Nat => t.size == 0 && t.capacity layout16 == 64) = true ∧
    runSat layout16 idEnv (walk16 true) 0 ([(true, .maxLoad 131), (true, .reserve 33)] ++ insertsFrom 0 33)
      (fun t : Table Nat Nat => t.size == 33 && t.capacity layout16 == 128) = true ∧
    runSat layout16 idEnv (walk16 true) 0 ([(true, .maxLoad 131), (true, .reserve 33)] ++ insertsFrom 0 32)
      (fun t : Table Nat Nat => t.size == 32 && stepThrows layout16 idEnv (walk16 true) false (.insert 32 0) t) = true :=
  ⟨by decide +kernel, by decide +kernel, by decide +kernel⟩

/-- Keys below 100 belong to the lower half of the groups, all others to the upper half. -/
def halfEnv : Env Nat := ⟨fun k => if k < 100 then 5 else 2 ^ 63 + 5, fun a b => a == b⟩

theorem halfEnv_lawful : halfEnv.Lawful where
  refl := by intro a; simp [halfEnv]
  symm := by intro a b; simp only [halfEnv, beq_iff_eq]; omega
  trans := by intro a b c; simp only [halfEnv, beq_iff_eq]; omega
  congr := by intro a b; simp only [halfEnv, beq_iff_eq]; intro h; rw [h]

/-- C44 is violated after erasures: each erasure in a group that has overflowed lowers the threshold for good.  Here
17 insertions and 10 erasures leave 7 elements in 32 slots; `reserve(28)` changes nothing, yet growing from 22 to 23
elements reallocates. -/
theorem C44_reserve_after_erase_reallocates :
    runSat layout16 halfEnv (walk16 true) 0 (insertsFrom 0 17 ++ erasesFrom 0 10 ++ [(true, .reserve 28)] ++ insertsFrom 200 15)
      (fun t : Table Nat Nat => t.size == 22 && t.capacity layout16 == 32) = true ∧
    runSat layout16 halfEnv (walk16 true) 0 (insertsFrom 0 17 ++ erasesFrom 0 10 ++ [(true, .reserve 28)] ++ insertsFrom 200 16)
      (fun t : Table Nat Nat => t.size == 23 && t.capacity layout16 == 64) = true ∧
    runSat layout16 halfEnv (walk16 true) 0 (insertsFrom 0 17 ++ erasesFrom 0 10 ++ [(true, .reserve 28)] ++ insertsFrom 200 15)
      (fun t : Table Nat Nat => stepThrows layout16 halfEnv (walk16 true) false (.insert 300 0) t) = true :=
  ⟨by decide +kernel, by decide +kernel, by decide +kernel⟩

/-! ### C45 max_load_factor -/

/-- C45 (partial). `max_load_factor` keeps the contents. -/
theorem C45_max_load_factor_partial (hE : E.Lawful) {t : Table K V} (ht : Reachable layout16 E (walk16 pad) t) {mem : Bool}
    {m : Nat} (h1 : 128 ≤ m) (h2 : m ≤ 224) {t' : Table K V} {a : Ans K V}
    (hx : exec layout16 E (walk16 pad) mem (.maxLoad m) t = .ok t' a) :
    (∀ k, lookup layout16 E t' k = lookup layout16 E t k) ∧ t'.size = t.size := by
  have hI := ht.inv hE (H := laws16) (fun _ h => walk16_eq h pad)
  obtain ⟨_, m', hacc, hl, hl', hs, hs'⟩ := hI.step hE (fun _ h => walk16_eq h pad) (by exact ⟨h1, h2⟩) hx
  have hm : m' = entries layout16 t := by
    have ha := exec_ne_threw hx
    cases a with
    | unit => exact hacc
    | threw => exact absurd rfl ha
    | _ => exact hacc.elim
  subst hm
  exact ⟨fun k => by rw [hl, hl'], by rw [hs, hs']⟩

/-- Concrete object and call. -/
example : ∃ t : Table Nat Nat, Reachable layout16 modEnv (walk16 true) t ∧
    (stepSat layout16 modEnv (walk16 true) true (.maxLoad 200) (fun t' _ => t'.size == 25) t) = true :=
  exists_reachable 0 (insertsFrom 0 25) (fun t => stepSat layout16 modEnv (walk16 true) true (.maxLoad 200) (fun t' _ => t'.size == 25) t)
    (by decide +kernel)

/-- C45 is violated: `max_load_factor` (any value, even the current one) always moves to a larger table. -/
theorem C45_always_reallocates (hE : E.Lawful) {t : Table K V} (ht : Reachable layout16 E (walk16 pad) t)
    {m : Nat} (h1 : 128 ≤ m) (h2 : m ≤ 224) (hc : t.capacity layout16 < 2 ^ 52) :
    ∃ t', exec layout16 E (walk16 pad) true (.maxLoad m) t = .ok t' .unit ∧ t.capacity layout16 < t'.capacity layout16 := by
  have hI := ht.inv hE (H := laws16) (fun _ h => walk16_eq h pad)
  have hI1 := hI.set_mlf h1 h2
  have hszc := hI.size_le_capacity
  have hcc : t.ctrlCap layout16 < 2 ^ 53 := by
    by_contra h
    have := ctrlCap_big hI (by omega)
    omega
  simp only [exec, setMlf]
  have hcx : Table.ctrlCap layout16 { t with mlf := m } = t.ctrlCap layout16 := rfl
  rw [hcx]
  have hfit2 := fitCapacity_le_two (n := t.ctrlCap layout16) h1
  cases hcap : calcCapacity t.size (fitCapacity m (t.ctrlCap layout16)) with
  | diverge => exact absurd hcap calcCapacity_diverge
  | ub => rcases calcCapacity_ub hcap with h | h <;> omega
  | ok cap =>
    simp only
    obtain ⟨k, hk, h5, hk1, hk2, hk3⟩ := calcCapacity_ok hcap
    have hgt : t.ctrlCap layout16 < cap := by
      rcases hI.st with he | hA
      · rw [he]
        have : 2 ^ 5 ≤ 2 ^ k := Nat.pow_le_pow_right (by omega) h5
        have h0 : Table.ctrlCap layout16 (emptyTable layout16 t.mlf : Table K V) = 0 := rfl
        omega
      · obtain ⟨j, hj1, _, _, hj, _⟩ := hA.ctrlCap_eq
        have : 2 ^ 5 ≤ 2 ^ (j + 4) := Nat.pow_le_pow_right (by omega) (by omega)
        have : t.ctrlCap layout16 < fitCapacity m (t.ctrlCap layout16) := by
          unfold fitCapacity
          rw [Nat.mod_eq_of_lt (by unfold W; omega)]
          apply (Nat.le_div_iff_mul_le (by omega)).mpr
          have : (t.ctrlCap layout16).succ * m ≤ (t.ctrlCap layout16).succ * 224 := Nat.mul_le_mul_left _ h2
          omega
        omega
    rw [if_pos (by omega)]
    unfold rehash
    simp only
    rw [if_pos (by omega)]
    have hs2 := fitCapacity_le_two (n := t.size) h1
    have hR := hI1.rehashImpl_cases hE layout16.rehashShrinks true (max (fitCapacity m t.size) cap)
    generalize rehashImpl layout16 E layout16.rehashShrinks true (max (fitCapacity m t.size) cap) { t with mlf := m } = r at hR
    cases hR with
    | ub h => omega
    | throw k' hk' hc' h =>
      rcases h with h | h
      · cases h
      · have h3 := calcCapacity_big hc' h
        have h4 : ({ t with mlf := m } : Table K V).size = t.size := rfl
        omega
    | same k' hk' hc' h =>
      obtain ⟨k2, e1, e2, e3, e4, e5⟩ := calcCapacity_ok hc'
      rw [if_pos (by rfl)] at h
      have : Table.ctrlCap layout16 { t with mlf := m } = t.ctrlCap layout16 := rfl
      omega
    | moved k' t' hm hc' h hN hp =>
      obtain ⟨k2, e1, e2, e3, e4, e5⟩ := calcCapacity_ok hc'
      have h6 : Table.ctrlCap layout16 { t with mlf := m } = t.ctrlCap layout16 := rfl
      exact ⟨t', rfl, hI1.capacity_lt hN (by omega)⟩
    | diverge k' hm hk' hs hc' h =>
      have := fit16 hc'
      omega

/-- Concrete object, setting the value that is in force. -/
example : ∃ t : Table Nat Nat, Reachable layout16 modEnv (walk16 true) t ∧
    (t.mlf == 224 && stepSat layout16 modEnv (walk16 true) true (.maxLoad 224) (fun t' _ => t.capacity layout16 == 32 && t'.capacity layout16 == 64) t) = true :=
  exists_reachable 0 (insertsFrom 0 25) (fun t => t.mlf == 224 && stepSat layout16 modEnv (walk16 true) true (.maxLoad 224) (fun t' _ => t.capacity layout16 == 32 && t'.capacity layout16 == 64) t)
    (by decide +kernel)


/-! ### C46 reserve(0), rehash(0) -/

/-- C46, the part that holds: `rehash(0)` on a non-empty map keeps everything and always returns. -/
theorem C46_rehash_zero_partial (hE : E.Lawful) {t : Table K V} (ht : Reachable layout16 E (walk16 pad) t) (mem : Bool)
    (hs : 0 < t.size) (hc : t.capacity layout16 < 2 ^ 52) :
    (∃ t', exec layout16 E (walk16 pad) mem (.rehash 0) t = .ok t' .unit ∧
      (∀ k, lookup layout16 E t' k = lookup layout16 E t k) ∧ t'.size = t.size) ∨ exec layout16 E (walk16 pad) mem (.rehash 0) t = .throw t := by
  have hI := ht.inv hE (H := laws16) (fun _ h => walk16_eq h pad)
  have hszc := hI.size_le_capacity
  have key : (∃ t', exec layout16 E (walk16 pad) mem (.rehash 0) t = .ok t' .unit) ∨
      exec layout16 E (walk16 pad) mem (.rehash 0) t = .throw t := by
    rw [exec_rehash (wrapRisk_small (by omega))]
    simp only [rehash]
    have hp := fitCapacity_pos hI.mlf_hi (by have := hI.mlf_lo; omega) hs hI.size_le
    have hs2 := fitCapacity_le_two (n := t.size) hI.mlf_lo
    rw [if_pos (by omega)]
    have hR := hI.rehashImpl_cases hE layout16.rehashShrinks mem (max (fitCapacity t.mlf t.size) 0)
    generalize rehashImpl layout16 E layout16.rehashShrinks mem (max (fitCapacity t.mlf t.size) 0) t = r at hR
    cases hR with
    | ub h => omega
    | throw k hk hc h => exact Or.inr rfl
    | same k hk hc h => exact Or.inl ⟨_, rfl⟩
    | moved k t' hm hc h hN hp => exact Or.inl ⟨_, rfl⟩
    | diverge k hm hk hs hc h =>
      have := fit16 hc
      omega
  rcases key with ⟨t', hx⟩ | hx
  · obtain ⟨h1, h2, _⟩ := C42_growth_preserves hE ht (n := 0) (Or.inr ⟨rfl, Or.inr hs⟩) hx
    exact Or.inl ⟨t', hx, h1, h2⟩
  · exact Or.inr hx

/-- Concrete object. -/
example : ∃ t : Table Nat Nat, Reachable layout16 modEnv (walk16 true) t ∧
    (t.size == 25) = true :=
  exists_reachable 0 (insertsFrom 0 40 ++ erasesFrom 5 15) (fun t => t.size == 25)
    (by decide +kernel)

/-- C46 is violated: `reserve(0)` discards every element. -/
theorem C46_reserve_zero_discards (hE : E.Lawful) {t : Table K V} (ht : Reachable layout16 E (walk16 pad) t) (mem : Bool) :
    ∃ t', exec layout16 E (walk16 pad) mem (.reserve 0) t = .ok t' .unit ∧ t'.size = 0 ∧
      ∀ k, lookup layout16 E t' k = .ok none := by
  have hI := ht.inv hE (H := laws16) (fun _ h => walk16_eq h pad)
  have hx : exec layout16 E (walk16 pad) mem (.reserve 0) t = .ok (emptyTable layout16 t.mlf) .unit := by
    rw [exec_reserve (wrapRisk_small (by simp [fitCapacity]))]
    unfold reserve
    rw [if_neg (by simp), hI.destroy_eq]; rfl
  obtain ⟨hI', m', hacc, hl, hl', hs, hs'⟩ := hI.step hE (fun _ h => walk16_eq h pad) (by trivial) hx
  have hm : m' = [] := by
    have h : m' = if 0 = 0 then [] else _ := hacc
    simpa using h
  subst hm
  exact ⟨_, hx, hs', fun k => by rw [hl']; rfl⟩

/-- Concrete object that really loses elements. -/
example : ∃ t : Table Nat Nat, Reachable layout16 modEnv (walk16 true) t ∧
    (t.size == 25 && stepSat layout16 modEnv (walk16 true) true (.reserve 0) (fun t' _ => t'.size == 0) t) = true :=
  exists_reachable 0 (insertsFrom 0 40 ++ erasesFrom 5 15) (fun t => t.size == 25 && stepSat layout16 modEnv (walk16 true) true (.reserve 0) (fun t' _ => t'.size == 0) t)
    (by decide +kernel)

/-! ### C47 at and operator[] -/

/-- C47. `at(k)` never changes the map; it yields the mapped value, or `out_of_range` (`none`) exactly when `k`
is absent. -/
theorem C47_at (hE : E.Lawful) {t : Table K V} (ht : Reachable layout16 E (walk16 pad) t) (mem : Bool) (k : K) :
    ∃ o, lookup layout16 E t k = .ok o ∧ exec layout16 E (walk16 pad) mem (.at k) t = .ok t (.value (o.map (·.2))) := by
  have hI := ht.inv hE (H := laws16) (fun _ h => walk16_eq h pad)
  refine ⟨_, hI.lookup_eq hE k, ?_⟩
  simp only [exec, hI.lookup_eq hE]; rfl

/-- Both answers occur. -/
example : ∃ t : Table Nat Nat, Reachable layout16 modEnv (walk16 true) t ∧
    (stepSat layout16 modEnv (walk16 true) true (.at 130) (fun _ a => a == .value (some 30)) t &&
      stepSat layout16 modEnv (walk16 true) true (.at 10) (fun _ a => a == .value none) t) = true :=
  exists_reachable 0 (insertsFrom 0 40 ++ erasesFrom 5 15) (fun t => stepSat layout16 modEnv (walk16 true) true (.at 130) (fun _ a => a == .value (some 30)) t &&
      stepSat layout16 modEnv (walk16 true) true (.at 10) (fun _ a => a == .value none) t)
    (by decide +kernel)

/-- C47. `operator[](k)` yields the mapped value if `k` is present and changes nothing; otherwise it inserts the
default value, yields it, and changes nothing else. -/
theorem C47_index (hE : E.Lawful) {t : Table K V} (ht : Reachable layout16 E (walk16 pad) t) {mem : Bool} {k : K} {d : V}
    {t' : Table K V} {a : Ans K V} (hx : exec layout16 E (walk16 pad) mem (.index k d) t = .ok t' a) :
    (∃ e, lookup layout16 E t k = .ok (some e) ∧ a = .value (some e.2) ∧ t'.size = t.size ∧
        ∀ k', lookup layout16 E t' k' = lookup layout16 E t k') ∨
    (lookup layout16 E t k = .ok none ∧ a = .value (some d) ∧ t'.size = t.size + 1 ∧
        lookup layout16 E t' k = .ok (some (k, d)) ∧
        ∀ k', E.eq k' k = false → lookup layout16 E t' k' = lookup layout16 E t k') := by
  have h : ∃ e b, exec layout16 E (walk16 pad) mem (.insert k d) t = .ok t' (.elem e b) ∧ a = .value (some e.2) := by
    simp only [exec] at hx ⊢
    cases hr : emplace layout16 E false mem true k d t with
    | ok t1 r =>
      rw [hr] at hx
      simp only [Out.bind_ok, readValue] at hx
      simp only [Out.bind_ok, readElem]
      split at hx
      · cases hx
      · rename_i e he
        cases hx
        exact ⟨e, r.2, rfl, rfl⟩
    | _ => rw [hr] at hx; cases hx
  obtain ⟨e, b, hx', ha⟩ := h
  rcases C23_insert_never_overwrites hE ht hx' with ⟨e', h1, h2, h3, h4⟩ | ⟨h1, h2, h3, h4, h5⟩
  · cases h2
    exact Or.inl ⟨e, h1, ha, h3, h4⟩
  · cases h2
    exact Or.inr ⟨h1, ha, h3, h4, h5⟩

/-- Both cases occur. -/
example : ∃ t : Table Nat Nat, Reachable layout16 modEnv (walk16 true) t ∧
    (stepSat layout16 modEnv (walk16 true) true (.index 130 0) (fun _ a => a == .value (some 30)) t &&
      stepSat layout16 modEnv (walk16 true) true (.index 10 0) (fun _ a => a == .value (some 0)) t) = true :=
  exists_reachable 0 (insertsFrom 0 40 ++ erasesFrom 5 15) (fun t => stepSat layout16 modEnv (walk16 true) true (.index 130 0) (fun _ a => a == .value (some 30)) t &&
      stepSat layout16 modEnv (walk16 true) true (.index 10 0) (fun _ a => a == .value (some 0)) t)
    (by decide +kernel)


end
end Verif
