/-
Property theorems for group15 maps (C01-C09, C13-C16, C29, C35, C36).

Vocabulary: `Reachable layout15 E walk15 t` (Api.lean) - the user obtained `t` by a constructor and a
history of public calls; `exec layout15 E walk15 mem c t` - one public call, `mem` the allocator's
answer; `lookup` - `find`; `t.capacity layout15` - `capacity()`; `Spec` - the ideal finite map.
`E.Lawful` is the C++ requirement on Hash and KeyEqual; the hash may be constant.
-/
import Verif.Capacity
import Verif.Demo

namespace Verif
open Spec (Call Ans)

set_option maxRecDepth 100000

section
variable {K V : Type} {E : Env K}

/-- C01. In every history that completes, all answers are those of the ideal finite map, and iteration
afterwards yields its contents. -/
theorem C01_history_refines_ideal_map (hE : E.Lawful) {mem : Bool} {n : Nat} {t0 : Table K V}
    (h0 : construct layout15 mem n = .ok t0 ()) {ops : List (Bool × Call K V)} (hv : ∀ op ∈ ops, Valid op.2)
    {as : List (Ans K V)} {t : Table K V} (hr : run layout15 E walk15 ops t0 = .ok (as, t)) :
    ∃ m, Spec.AcceptsAll E.eq [] (ops.map (·.2)) as m ∧ ∃ l, walk15 t = .ok l ∧ l.Perm m := by
  obtain ⟨hI0, he, _, _⟩ := construct_spec (H := laws15) (E := E) h0
  have := run_ok hE (fun _ h => walk15_eq h) ops t0 [] hI0 (by rw [he]) hv
  rw [hr] at this
  obtain ⟨hI, m, h1, h2⟩ := this
  exact ⟨m, h1, _, walk15_eq hI, h2⟩

/-- A history with growth, deletions, a failed allocation, reassignment, shrinking and iteration completes. -/
example : ∃ t : Table Nat Nat, Reachable layout15 modEnv walk15 t ∧ (t.size == 36 && t.capacity layout15 == 59) = true :=
  exists_reachable 0 (insertsFrom 0 40 ++ erasesFrom 3 5 ++ [(true, .reserve 70), (false, .insert 61 0), (true, .assign 20 7), (true, .shrink false), (true, .iterate)]) _ (by decide +kernel)

/-- C01/C07. Every history of calls (shrink_to_fit aside, see C13) completes, except that it may end in one of
two kinds of undefined calls: `clear()` on an object that owns no storage (C16), or `rehash(n)`, `reserve(n)` with `n > 2^54`
(the byte count of the block can wrap around, C28). -/
theorem C07_history_completes (hE : E.Lawful) {mem : Bool} {n : Nat} {t0 : Table K V}
    (h0 : construct layout15 mem n = .ok t0 ()) {ops : List (Bool × Call K V)} (hv : ∀ op ∈ ops, Valid op.2)
    (hs : ∀ op ∈ ops, ∀ b, op.2 ≠ .shrink b) :
    (∃ as t, run layout15 E walk15 ops t0 = .ok (as, t)) ∨
    (∃ pre op post as t, ops = pre ++ op :: post ∧ run layout15 E walk15 pre t0 = .ok (as, t) ∧
      ((op.2 = .clear false ∧ t.capacity layout15 = 0) ∨ ∃ n, 2 ^ 54 < n ∧ (op.2 = .rehash n ∨ op.2 = .reserve n))) := by
  obtain ⟨hI0, he, hz, hA⟩ := construct_spec (H := laws15) (E := E) h0
  have hcor := run_ok hE (fun _ h => walk15_eq h) ops t0 [] hI0 (by rw [he]) hv
  have hnh := run_noHang (P := AccE E) (Q := fun c => ∀ b, c ≠ .shrink b) hE (fun _ h => walk15_eq h)
    (fun t mem c hI hA hv hq => hI.exec15 hE (fun _ h => walk15_eq h) hA mem c hv hq) ops t0 hI0
    ⟨hA.1, Or.inl (by omega)⟩ hv hs
  cases hr : run layout15 E walk15 ops t0 with
  | ok r => exact Or.inl ⟨r.1, r.2, rfl⟩
  | diverge => exact absurd hr hnh.1
  | ub =>
    rw [hr] at hcor
    obtain ⟨pre, op, post, as, t1, h1, h2, h3⟩ := hcor
    refine Or.inr ⟨pre, op, post, as, t1, h1, h2, ?_⟩
    have hI1 : Inv laws15 E t1 :=
      Reachable.inv hE (fun _ h => walk15_eq h) ⟨mem, n, t0, pre, as, h0, fun o ho => hv o (by rw [h1]; simp [ho]), h2⟩
    obtain ⟨m, c⟩ := op
    cases c with
    | clear d =>
      cases d with
      | false => exact Or.inl ⟨rfl, hI1.alloc_iff.mp h3.2⟩
      | true => exact h3.elim
    | rehash n => exact Or.inr ⟨n, by rcases h3 with h | h <;> omega, Or.inl rfl⟩
    | reserve n =>
      have := fitCapacity_le_two (n := n) hI1.mlf_lo
      have := h3.2
      exact Or.inr ⟨n, by omega, Or.inr rfl⟩
    | _ => exact h3.elim

/-- A history of the required form, with colliding hashes, that completes. -/
example : (run layout15 clashEnv walk15 (insertsFrom 0 35 ++ erasesFrom 10 20 ++ insertsFrom 50 25 ++ [(false, .reserve 500)])
      (emptyTable layout15 224 : Table Nat Nat) matches .ok _) = true := by decide +kernel

/-- C07. Whatever the history (shrink_to_fit included), the only undefined calls are those two: every other call
reads and writes only owned control bytes and slots, and never an unconstructed slot. -/
theorem C07_undefined_calls (hE : E.Lawful) {mem : Bool} {n : Nat} {t0 : Table K V}
    (h0 : construct layout15 mem n = .ok t0 ()) {ops : List (Bool × Call K V)} (hv : ∀ op ∈ ops, Valid op.2)
    (hr : run layout15 E walk15 ops t0 = .ub) :
    ∃ pre op post as t, ops = pre ++ op :: post ∧ run layout15 E walk15 pre t0 = .ok (as, t) ∧
      ((op.2 = .clear false ∧ t.capacity layout15 = 0) ∨ ∃ n, 2 ^ 54 < n ∧ (op.2 = .rehash n ∨ op.2 = .reserve n)) := by
  obtain ⟨hI0, he, hz, hA⟩ := construct_spec (H := laws15) (E := E) h0
  have hcor := run_ok hE (fun _ h => walk15_eq h) ops t0 [] hI0 (by rw [he]) hv
  rw [hr] at hcor
  obtain ⟨pre, op, post, as, t1, h1, h2, h3⟩ := hcor
  refine ⟨pre, op, post, as, t1, h1, h2, ?_⟩
  have hI1 : Inv laws15 E t1 :=
    Reachable.inv hE (fun _ h => walk15_eq h) ⟨mem, n, t0, pre, as, h0, fun o ho => hv o (by rw [h1]; simp [ho]), h2⟩
  obtain ⟨m, c⟩ := op
  cases c with
  | clear d =>
    cases d with
    | false => exact Or.inl ⟨rfl, hI1.alloc_iff.mp h3.2⟩
    | true => exact h3.elim
  | rehash n => exact Or.inr ⟨n, by rcases h3 with h | h <;> omega, Or.inl rfl⟩
  | reserve n =>
    have := fitCapacity_le_two (n := n) hI1.mlf_lo
    have := h3.2
    exact Or.inr ⟨n, by omega, Or.inr rfl⟩
  | _ => exact h3.elim

/-- Both kinds of undefined call exist. -/
example : (run layout15 idEnv walk15 [(true, .insert 1 1), (true, .clear true), (true, .clear false)]
      (emptyTable layout15 224 : Table Nat Nat) matches .ub) = true ∧
    (run layout15 idEnv walk15 [(true, .insert 1 1), (true, .rehash (2 ^ 60))]
      (emptyTable layout15 224 : Table Nat Nat) matches .ub) = true := by decide +kernel

/-- C07. Histories with `shrink_to_fit()` terminate as well, provided nothing is erased after a
`shrink_to_fit` (and `read_only` is not used): `pre` has no shrink, `post` no erase. -/
theorem C07_terminates_with_shrink (hE : E.Lawful) {mem : Bool} {n : Nat} {t0 : Table K V}
    (h0 : construct layout15 mem n = .ok t0 ()) {pre post : List (Bool × Call K V)}
    (hv : ∀ op ∈ pre ++ post, Valid op.2) (hs : ∀ op ∈ pre, ∀ b, op.2 ≠ .shrink b)
    (hp : ∀ op ∈ post, (∀ k, op.2 ≠ .erase k) ∧ op.2 ≠ .shrink true) :
    run layout15 E walk15 (pre ++ post) t0 ≠ .diverge := by
  obtain ⟨hI0, he, hz, hA⟩ := construct_spec (H := laws15) (E := E) h0
  have hvp : ∀ op ∈ pre, Valid op.2 := fun o h => hv o (by simp [h])
  have hcor := run_ok hE (fun _ h => walk15_eq h) pre t0 [] hI0 (by rw [he]) hvp
  have hnh := run_noHang (P := AccE E) (Q := fun c => ∀ b, c ≠ .shrink b) hE (fun _ h => walk15_eq h)
    (fun t mem c hI hA hv hq => hI.exec15 hE (fun _ h => walk15_eq h) hA mem c hv hq) pre t0 hI0
    ⟨hA.1, Or.inl (by omega)⟩ hvp hs
  rw [run_append]
  cases hr : run layout15 E walk15 pre t0 with
  | diverge => exact absurd hr hnh.1
  | ub => simp [Res.bind]
  | ok r =>
    rw [hr] at hcor
    have hA1 := hnh.2 r.1 r.2 hr
    have hnh2 := run_noHang (P := AccN laws15) (Q := fun c => (∀ k, c ≠ .erase k) ∧ c ≠ .shrink true) hE
      (fun _ h => walk15_eq h)
      (fun t mem c hI hA hv hq => hI.exec15N hE (fun _ h => walk15_eq h) hA mem c hv hq.1 hq.2) post r.2 hcor.1
      hA1.accN (fun o h => hv o (by simp [h])) hp
    simp only [Res.bind_ok]
    cases hr2 : run layout15 E walk15 post r.2 with
    | diverge => exact absurd hr2 hnh2.1
    | ub => simp [Res.bind]
    | ok s => simp [Res.bind]

/-- A history of the required form: 20 elements in a table of 119 slots, shrunk, then more insertions. -/
example : (run layout15 idEnv walk15 (((true, .reserve 100) :: insertsFrom 0 20) ++ ((true, .shrink false) :: insertsFrom 20 20))
      (emptyTable layout15 224 : Table Nat Nat) matches .ok _) = true := by decide +kernel

/-- C02. -/
theorem C02_insert_never_overwrites (hE : E.Lawful) {t : Table K V} (ht : Reachable layout15 E walk15 t) {mem : Bool}
    {k : K} {v : V} {t' : Table K V} {a : Ans K V} (hx : exec layout15 E walk15 mem (.insert k v) t = .ok t' a) :
    (∃ e, lookup layout15 E t k = .ok (some e) ∧ a = .elem e false ∧ t'.size = t.size ∧
        ∀ k', lookup layout15 E t' k' = lookup layout15 E t k') ∨
    (lookup layout15 E t k = .ok none ∧ a = .elem (k, v) true ∧ t'.size = t.size + 1 ∧
        lookup layout15 E t' k = .ok (some (k, v)) ∧
        ∀ k', E.eq k' k = false → lookup layout15 E t' k' = lookup layout15 E t k') :=
  (ht.inv hE (fun _ h => walk15_eq h)).insert_api hE (fun _ h => walk15_eq h) hx

/-- Both cases occur: a present (equivalent, different) key with another value, and an absent key that makes the table grow. -/
example : ∃ t : Table Nat Nat, Reachable layout15 modEnv walk15 t ∧
    (stepSat layout15 modEnv walk15 true (.insert 105 9) (fun _ a => a == .elem (5, 5) false) t &&
      stepSat layout15 modEnv walk15 true (.insert 90 9) (fun t' a => a == .elem (90, 9) true && t.capacity layout15 != t'.capacity layout15) t) = true :=
  exists_reachable 0 (insertsFrom 0 29) (fun t => stepSat layout15 modEnv walk15 true (.insert 105 9) (fun _ a => a == .elem (5, 5) false) t &&
      stepSat layout15 modEnv walk15 true (.insert 90 9) (fun t' a => a == .elem (90, 9) true && t.capacity layout15 != t'.capacity layout15) t)
    (by decide +kernel)

/-- C03. -/
theorem C03_insert_or_assign (hE : E.Lawful) {t : Table K V} (ht : Reachable layout15 E walk15 t) {mem : Bool}
    {k : K} {v : V} {t' : Table K V} {a : Ans K V} (hx : exec layout15 E walk15 mem (.assign k v) t = .ok t' a) :
    ((∃ e, lookup layout15 E t k = .ok (some e) ∧ a = .elem (e.1, v) false ∧ t'.size = t.size ∧
        lookup layout15 E t' k = .ok (some (e.1, v))) ∨
     (lookup layout15 E t k = .ok none ∧ a = .elem (k, v) true ∧ t'.size = t.size + 1 ∧
        lookup layout15 E t' k = .ok (some (k, v)))) ∧
    ∀ k', E.eq k' k = false → lookup layout15 E t' k' = lookup layout15 E t k' :=
  (ht.inv hE (fun _ h => walk15_eq h)).assign_api hE (fun _ h => walk15_eq h) hx

/-- Both cases occur; the stored key is kept. -/
example : ∃ t : Table Nat Nat, Reachable layout15 modEnv walk15 t ∧
    (stepSat layout15 modEnv walk15 true (.assign 105 9) (fun _ a => a == .elem (5, 9) false) t &&
      stepSat layout15 modEnv walk15 true (.assign 90 9) (fun t' a => a == .elem (90, 9) true && t.capacity layout15 != t'.capacity layout15) t) = true :=
  exists_reachable 0 (insertsFrom 0 29) (fun t => stepSat layout15 modEnv walk15 true (.assign 105 9) (fun _ a => a == .elem (5, 9) false) t &&
      stepSat layout15 modEnv walk15 true (.assign 90 9) (fun t' a => a == .elem (90, 9) true && t.capacity layout15 != t'.capacity layout15) t)
    (by decide +kernel)

/-- C04. `erase(k)` always returns; it removes exactly `k`. -/
theorem C04_erase_exact (hE : E.Lawful) {t : Table K V} (ht : Reachable layout15 E walk15 t) (mem : Bool) (k : K) :
    ∃ t' a, exec layout15 E walk15 mem (.erase k) t = .ok t' a ∧
      ((∃ e, lookup layout15 E t k = .ok (some e) ∧ a = .num 1 ∧ t'.size + 1 = t.size) ∨
       (lookup layout15 E t k = .ok none ∧ a = .num 0 ∧ t'.size = t.size)) ∧
      (∀ k', E.eq k k' = true → lookup layout15 E t' k' = .ok none) ∧
      ∀ k', E.eq k' k = false → lookup layout15 E t' k' = lookup layout15 E t k' := by
  have hI := ht.inv hE (H := laws15) (fun _ h => walk15_eq h)
  obtain ⟨t', a, hx⟩ := hI.erase_total (walk := walk15) hE mem k
  exact ⟨t', a, hx, hI.erase_api hE (fun _ h => walk15_eq h) hx⟩

/-- Both cases occur, in a table with overflowing groups. -/
example : ∃ t : Table Nat Nat, Reachable layout15 clashEnv walk15 t ∧
    (stepSat layout15 clashEnv walk15 true (.erase 20) (fun _ a => a == .num 1) t &&
      stepSat layout15 clashEnv walk15 true (.erase 30) (fun _ a => a == .num 0) t) = true :=
  exists_reachable 0 (insertsFrom 0 29) (fun t => stepSat layout15 clashEnv walk15 true (.erase 20) (fun _ a => a == .num 1) t &&
      stepSat layout15 clashEnv walk15 true (.erase 30) (fun _ a => a == .num 0) t)
    (by decide +kernel)

/-- C05. -/
theorem C05_size_is_number_of_elements (hE : E.Lawful) {t : Table K V} (ht : Reachable layout15 E walk15 t) (mem : Bool) :
    ∃ l, walk15 t = .ok l ∧ exec layout15 E walk15 mem .size t = .ok t (.num l.length) ∧
      ∃ b, exec layout15 E walk15 mem .empty t = .ok t (.bool b) ∧ (b = true ↔ l = []) := by
  have hI := ht.inv hE (H := laws15) (fun _ h => walk15_eq h)
  refine ⟨_, walk15_eq hI, by simp only [exec, hI.size_eq], _, rfl, ?_⟩
  rw [beq_iff_eq, hI.size_eq, List.length_eq_zero_iff]

/-- Concrete object. -/
example : ∃ t : Table Nat Nat, Reachable layout15 modEnv walk15 t ∧
    (t.size == 25) = true :=
  exists_reachable 0 (insertsFrom 0 40 ++ erasesFrom 5 15) (fun t => t.size == 25)
    (by decide +kernel)

/-- C06. Walking from `begin()` with `++` to `end()` returns; it visits size() elements, no two with equivalent
keys, and exactly the elements `find` finds. -/
theorem C06_iteration_visits_each_once (hE : E.Lawful) {t : Table K V} (ht : Reachable layout15 E walk15 t) :
    ∃ l, walk15 t = .ok l ∧ l.length = t.size ∧ l.Pairwise (fun a b => E.eq a.1 b.1 = false) ∧
      ∀ e, e ∈ l ↔ lookup layout15 E t e.1 = .ok (some e) :=
  (ht.inv hE (fun _ h => walk15_eq h)).walk_api hE (fun _ h => walk15_eq h)

/-- Concrete object, elements spread over several groups with gaps. -/
example : ∃ t : Table Nat Nat, Reachable layout15 modEnv walk15 t ∧
    (t.size == 25 && t.capacity layout15 == 59) = true :=
  exists_reachable 0 (insertsFrom 0 40 ++ erasesFrom 5 15) (fun t => t.size == 25 && t.capacity layout15 == 59)
    (by decide +kernel)

/-- C08. Inserting, reserving and rehashing never reduce capacity(); reserve (n > 0) and rehash keep the
contents; afterwards at least `n` slots exist. -/
theorem C08_growth_preserves (hE : E.Lawful) {t : Table K V} (ht : Reachable layout15 E walk15 t) {mem : Bool}
    {c : Call K V} (hc : (∃ n, 0 < n ∧ c = .reserve n) ∨ ∃ n, c = .rehash n ∧ (0 < n ∨ 0 < t.size))
    {t' : Table K V} {a : Ans K V} (hx : exec layout15 E walk15 mem c t = .ok t' a) :
    (∀ k, lookup layout15 E t' k = lookup layout15 E t k) ∧ t'.size = t.size ∧
      t.capacity layout15 ≤ t'.capacity layout15 := by
  have hI := ht.inv hE (H := laws15) (fun _ h => walk15_eq h)
  have hv : Valid c := by
    rcases hc with ⟨n, _, rfl⟩ | ⟨n, rfl, _⟩ <;> trivial
  obtain ⟨_, m', hacc, hl, hl', hs, hs'⟩ := hI.step hE (fun _ h => walk15_eq h) hv hx
  have hm : m' = entries layout15 t := by
    have ha := exec_ne_threw hx
    rcases hc with ⟨n, hn, rfl⟩ | ⟨n, rfl, _⟩
    · cases a with
      | unit =>
        have h : m' = if n = 0 then [] else _ := hacc
        rwa [if_neg (by omega)] at h
      | threw => exact absurd rfl ha
      | _ => exact hacc.elim
    · cases a with
      | unit => exact hacc
      | threw => exact absurd rfl ha
      | _ => exact hacc.elim
  subst hm
  refine ⟨fun k => by rw [hl, hl'], by rw [hs, hs'], ?_⟩
  have key : ∀ n, (rehashImpl layout15 E false mem n t).bind (fun t' _ => Out.ok t' Ans.unit) = .ok t' a →
      t.capacity layout15 ≤ t'.capacity layout15 := by
    intro n h
    have hR := hI.rehashImpl_cases hE false mem n
    cases hr : rehashImpl layout15 E false mem n t with
    | ok t1 u =>
      rw [hr] at h hR
      cases h
      exact hR.capacity_le hI
    | _ => rw [hr] at h; cases h
  rcases hc with ⟨n, hn, rfl⟩ | ⟨n, rfl, hn⟩
  · rw [exec_reserve_of_ne_ub (by rw [hx]; simp)] at hx
    unfold reserve at hx
    rw [if_pos (by omega)] at hx
    exact key _ hx
  · rw [exec_rehash_of_ne_ub (by rw [hx]; simp)] at hx
    simp only [rehash] at hx
    rw [if_pos ?_] at hx
    · exact key _ hx
    · rcases hn with hn | hn
      · omega
      · have := fitCapacity_pos hI.mlf_hi (by have := hI.mlf_lo; omega) hn hI.size_le
        omega

/-- Concrete object and calls; both really move the elements. -/
example : ∃ t : Table Nat Nat, Reachable layout15 modEnv walk15 t ∧
    (stepSat layout15 modEnv walk15 true (.reserve 100) (fun t' _ => t'.capacity layout15 == 119) t &&
      stepSat layout15 modEnv walk15 true (.rehash 200) (fun t' _ => t'.capacity layout15 == 239) t) = true :=
  exists_reachable 0 (insertsFrom 0 20) (fun t => stepSat layout15 modEnv walk15 true (.reserve 100) (fun t' _ => t'.capacity layout15 == 119) t &&
      stepSat layout15 modEnv walk15 true (.rehash 200) (fun t' _ => t'.capacity layout15 == 239) t)
    (by decide +kernel)

/-- C08. An insertion keeps every other element (C02, C03) and never reduces capacity(). -/
theorem C08_insert_never_reduces_capacity (hE : E.Lawful) {t : Table K V} (ht : Reachable layout15 E walk15 t) {mem : Bool}
    {k : K} {v : V} {c : Call K V} (hc : c = .insert k v ∨ c = .assign k v ∨ c = .index k v)
    {t' : Table K V} {a : Ans K V} (hx : exec layout15 E walk15 mem c t = .ok t' a) :
    t.capacity layout15 ≤ t'.capacity layout15 := by
  have hI := ht.inv hE (H := laws15) (fun _ h => walk15_eq h)
  have key : ∀ upd (f : Table K V → Nat × Bool → Out (Table K V) (Ans K V)),
      (∀ t1 r t2 b, f t1 r = .ok t2 b → t2 = t1) →
      (emplace layout15 E upd mem true k v t).bind f = .ok t' a → t.capacity layout15 ≤ t'.capacity layout15 := by
    intro upd f hf h
    have hC := hI.emplace_cases hE upd mem k v
    cases hr : emplace layout15 E upd mem true k v t with
    | ok t1 u =>
      rw [hr] at h hC
      have := hf _ _ _ _ h
      subst this
      exact hC.capacity_le hI
    | _ => rw [hr] at h; cases h
  have h1 : ∀ (t1 : Table K V) (r : Nat × Bool) (t2 : Table K V) b, readElem t1 r = .ok t2 b → t2 = t1 := by
    intro t1 r t2 b h
    unfold readElem at h
    split at h <;> cases h
    rfl
  have h2 : ∀ (t1 : Table K V) (r : Nat × Bool) (t2 : Table K V) b, readValue t1 r = .ok t2 b → t2 = t1 := by
    intro t1 r t2 b h
    unfold readValue at h
    split at h <;> cases h
    rfl
  rcases hc with rfl | rfl | rfl
  · exact key _ _ h1 hx
  · exact key _ _ h1 hx
  · exact key _ _ h2 hx

/-- Concrete object where the insertion grows the table. -/
example : ∃ t : Table Nat Nat, Reachable layout15 modEnv walk15 t ∧
    (stepSat layout15 modEnv walk15 true (.insert 90 9) (fun t' _ => t.capacity layout15 == 29 && t'.capacity layout15 == 59) t) = true :=
  exists_reachable 0 (insertsFrom 0 29) (fun t => stepSat layout15 modEnv walk15 true (.insert 90 9) (fun t' _ => t.capacity layout15 == 29 && t'.capacity layout15 == 59) t)
    (by decide +kernel)

/-- C09. When a call throws, the object has the same elements, size and capacity as before (apart from the
load factor set by max_load_factor it is the same object), and the reason is a refused allocation or a size
of at least 2^52. -/
theorem C09_failed_allocation_changes_nothing (hE : E.Lawful) {t : Table K V} (ht : Reachable layout15 E walk15 t)
    {mem : Bool} {c : Call K V} (hv : Valid c) {t' : Table K V} (hx : exec layout15 E walk15 mem c t = .throw t') :
    (t' = t ∨ ∃ m, c = .maxLoad m ∧ t' = { t with mlf := m }) ∧
    (∀ k, lookup layout15 E t' k = lookup layout15 E t k) ∧ t'.size = t.size ∧
      t'.capacity layout15 = t.capacity layout15 ∧
    (mem = false ∨ 2 ^ 52 ≤ t.capacity layout15 ∨ ∃ n, 2 ^ 52 ≤ n ∧ (c = .reserve n ∨ c = .rehash n)) := by
  have hI := ht.inv hE (H := laws15) (fun _ h => walk15_eq h)
  obtain ⟨h1, h2⟩ := hI.throw_api hE hv hx
  have hstep := hI.exec_ok hE (walk := walk15) (fun _ h => walk15_eq h) (List.Perm.refl _) mem hv
  rw [hx] at hstep
  obtain ⟨hI', _, hp⟩ := hstep
  refine ⟨h1, ?_, ?_, ?_, h2⟩
  · intro k
    rw [hI'.lookup_eq hE, hI.lookup_eq hE, Spec.get_perm hE hp hI'.pairwise]
  · rw [hI'.size_eq, hI.size_eq, hp.length_eq]
  · rcases h1 with rfl | ⟨m, _, rfl⟩ <;> rfl

/-- Every allocating call can fail. -/
example : ∃ t : Table Nat Nat, Reachable layout15 modEnv walk15 t ∧
    (stepThrows layout15 modEnv walk15 false (.insert 90 9) t && stepThrows layout15 modEnv walk15 false (.reserve 90) t &&
      stepThrows layout15 modEnv walk15 false (.rehash 90) t && stepThrows layout15 modEnv walk15 false (.maxLoad 200) t) = true :=
  exists_reachable 0 (insertsFrom 0 29) (fun t => stepThrows layout15 modEnv walk15 false (.insert 90 9) t && stepThrows layout15 modEnv walk15 false (.reserve 90) t &&
      stepThrows layout15 modEnv walk15 false (.rehash 90) t && stepThrows layout15 modEnv walk15 false (.maxLoad 200) t)
    (by decide +kernel)

/-- C09. If an insertion grows the table when memory is available, then with a failing allocator it throws and
leaves the very same object. -/
theorem C09_growth_throws (hE : E.Lawful) {t : Table K V} (ht : Reachable layout15 E walk15 t)
    {k : K} {v : V} {t' : Table K V} {a : Ans K V} (hx : exec layout15 E walk15 true (.insert k v) t = .ok t' a)
    (hc : t'.capacity layout15 ≠ t.capacity layout15) : exec layout15 E walk15 false (.insert k v) t = .throw t := by
  have hI := ht.inv hE (H := laws15) (fun _ h => walk15_eq h)
  have h1 := hI.emplace_cases hE false true k v
  have h2 := hI.emplace_cases hE false false k v
  have h0 : ∃ r, emplace layout15 E false true true k v t = .ok t' r := by
    simp only [exec] at hx
    cases hr : emplace layout15 E false true true k v t with
    | ok t1 r =>
      rw [hr] at hx
      simp only [Out.bind_ok, readElem] at hx
      split at hx <;> cases hx
      exact ⟨r, rfl⟩
    | _ => rw [hr] at hx; cases hx
  obtain ⟨r, h0⟩ := h0
  rw [h0] at h1
  have h3 : t.thr ≤ t.size ∧ ∀ i e, t.slot i = some e → E.eq k e.1 = false := by
    generalize hr : Out.ok t' r = o at h1
    cases h1 with
    | found i e hi hk => cases hr; exact absurd rfl hc
    | throw hk hs h => cases hr
    | placed i t1 hk hs hA =>
      cases hr
      exfalso
      apply hc
      rcases hI.st with he | hI'
      · rw [he] at hs; cases hs
      · rw [hA.inv.capacity_eq, hI'.capacity_eq, Table.slotCap, hA.gmask]; rfl
    | grown i t1 t2 hk hs hm c hc' hN hp hA => exact ⟨hs, hk⟩
    | diverge hk hs hfull => cases hr
  have h4 : emplace layout15 E false false true k v t = .throw t := by
    generalize emplace layout15 E false false true k v t = o at h2
    cases h2 with
    | found i e hi hk => rw [h3.2 i e hi] at hk; cases hk
    | throw hk hs h => rfl
    | placed i t1 hk hs hA => omega
    | grown i t1 t2 hk hs hm c hc' hN hp hA => cases hm
    | diverge hk hs hfull => omega
  simp only [exec, h4]; rfl

/-- Concrete object where the insertion grows the table. -/
example : ∃ t : Table Nat Nat, Reachable layout15 modEnv walk15 t ∧
    (stepSat layout15 modEnv walk15 true (.insert 90 9) (fun t' _ => t'.capacity layout15 != t.capacity layout15) t) = true :=
  exists_reachable 0 (insertsFrom 0 29) (fun t => stepSat layout15 modEnv walk15 true (.insert 90 9) (fun t' _ => t'.capacity layout15 != t.capacity layout15) t)
    (by decide +kernel)

end
end Verif
