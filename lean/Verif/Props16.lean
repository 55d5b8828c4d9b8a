/-
Property theorems for group16 maps (C23-C25, C27, C37-C40).

Vocabulary as in Props15.lean, with `layout16` and `walk16 pad`; `pad` is the value of the padding byte
behind the control bytes that `++` may read, it is arbitrary.
-/
import Verif.Ctor
import Verif.Props15b

namespace Verif
open Spec (Call Ans)

set_option maxRecDepth 100000

section
variable {K V : Type} {E : Env K} {pad : Bool}

/-! ### C23 finite map -/

/-- C23. In every history that completes, all answers are those of the ideal finite map, and iteration
afterwards yields its contents. -/
theorem C23_history_refines_ideal_map (hE : E.Lawful) {mem : Bool} {n : Nat} {t0 : Table K V}
    (h0 : construct layout16 mem n = .ok t0 ()) {ops : List (Bool × Call K V)} (hv : ∀ op ∈ ops, Valid op.2)
    {as : List (Ans K V)} {t : Table K V} (hr : run layout16 E (walk16 pad) ops t0 = .ok (as, t)) :
    ∃ m, Spec.AcceptsAll E.eq [] (ops.map (·.2)) as m ∧ ∃ l, walk16 pad t = .ok l ∧ l.Perm m := by
  obtain ⟨hI0, he, _, _⟩ := construct_spec (H := laws16) (E := E) h0
  have := run_ok hE (fun _ h => walk16_eq h pad) ops t0 [] hI0 (by rw [he]) hv
  rw [hr] at this
  obtain ⟨hI, m, h1, h2⟩ := this
  exact ⟨m, h1, _, walk16_eq hI pad, h2⟩

/-- A history with growth, deletions, a failed allocation, reassignment, shrinking and iteration completes. -/
example : ∃ t : Table Nat Nat, Reachable layout16 modEnv (walk16 true) t ∧ (t.size == 36 && t.capacity layout16 == 64) = true :=
  exists_reachable 0 (insertsFrom 0 40 ++ erasesFrom 3 5 ++ [(true, .reserve 70), (true, .insert 61 0), (true, .assign 20 7),
    (true, .shrink false), (true, .iterate)]) _ (by decide +kernel)

/-- C23. Whatever the history, the only undefined call is `rehash(n)` with `n > 2^63`: every other call reads and
writes only owned control bytes and slots, and never an unconstructed slot. -/
theorem C23_undefined_calls (hE : E.Lawful) {mem : Bool} {n : Nat} {t0 : Table K V}
    (h0 : construct layout16 mem n = .ok t0 ()) {ops : List (Bool × Call K V)} (hv : ∀ op ∈ ops, Valid op.2)
    (hr : run layout16 E (walk16 pad) ops t0 = .ub) : ∃ op ∈ ops, ∃ n, op.2 = .rehash n ∧ 2 ^ 63 < n := by
  obtain ⟨hI0, he, hz, hA⟩ := construct_spec (H := laws16) (E := E) h0
  have hcor := run_ok hE (fun _ h => walk16_eq h pad) ops t0 [] hI0 (by rw [he]) hv
  rw [hr] at hcor
  obtain ⟨pre, op, post, as, t1, h1, h2, h3⟩ := hcor
  refine ⟨op, by rw [h1]; simp, ?_⟩
  obtain ⟨m, c⟩ := op
  cases c with
  | clear d =>
    cases d with
    | false => cases h3.1
    | true => exact h3.elim
  | rehash n =>
    rcases h3 with h3 | h3
    · exact ⟨n, rfl, h3⟩
    · cases h3.1
  | reserve n => cases h3.1
  | _ => exact h3.elim

/-- Such a call. -/
example : (run layout16 idEnv (walk16 true) [(true, .insert 1 1), (true, .rehash (2 ^ 63 + 1))]
      (emptyTable layout16 224 : Table Nat Nat) matches .ub) = true := by decide +kernel

/-- C23, insertion. -/
theorem C23_insert_never_overwrites (hE : E.Lawful) {t : Table K V} (ht : Reachable layout16 E (walk16 pad) t) {mem : Bool}
    {k : K} {v : V} {t' : Table K V} {a : Ans K V} (hx : exec layout16 E (walk16 pad) mem (.insert k v) t = .ok t' a) :
    (∃ e, lookup layout16 E t k = .ok (some e) ∧ a = .elem e false ∧ t'.size = t.size ∧
        ∀ k', lookup layout16 E t' k' = lookup layout16 E t k') ∨
    (lookup layout16 E t k = .ok none ∧ a = .elem (k, v) true ∧ t'.size = t.size + 1 ∧
        lookup layout16 E t' k = .ok (some (k, v)) ∧
        ∀ k', E.eq k' k = false → lookup layout16 E t' k' = lookup layout16 E t k') :=
  (ht.inv hE (fun _ h => walk16_eq h pad)).insert_api hE (fun _ h => walk16_eq h pad) hx

/-- Both cases occur, the second one with growth. -/
example : ∃ t : Table Nat Nat, Reachable layout16 modEnv (walk16 false) t ∧
    (stepSat layout16 modEnv (walk16 false) true (.insert 105 9) (fun _ a => a == .elem (5, 5) false) t &&
     stepSat layout16 modEnv (walk16 false) true (.insert 90 9)
       (fun t' a => a == .elem (90, 9) true && t.capacity layout16 != t'.capacity layout16) t) = true :=
  exists_reachable 0 (insertsFrom 0 32) (fun t =>
    stepSat layout16 modEnv (walk16 false) true (.insert 105 9) (fun _ a => a == .elem (5, 5) false) t &&
     stepSat layout16 modEnv (walk16 false) true (.insert 90 9)
       (fun t' a => a == .elem (90, 9) true && t.capacity layout16 != t'.capacity layout16) t) (by decide +kernel)

/-- C23, insert_or_assign. -/
theorem C23_insert_or_assign (hE : E.Lawful) {t : Table K V} (ht : Reachable layout16 E (walk16 pad) t) {mem : Bool}
    {k : K} {v : V} {t' : Table K V} {a : Ans K V} (hx : exec layout16 E (walk16 pad) mem (.assign k v) t = .ok t' a) :
    ((∃ e, lookup layout16 E t k = .ok (some e) ∧ a = .elem (e.1, v) false ∧ t'.size = t.size ∧
        lookup layout16 E t' k = .ok (some (e.1, v))) ∨
     (lookup layout16 E t k = .ok none ∧ a = .elem (k, v) true ∧ t'.size = t.size + 1 ∧
        lookup layout16 E t' k = .ok (some (k, v)))) ∧
    ∀ k', E.eq k' k = false → lookup layout16 E t' k' = lookup layout16 E t k' :=
  (ht.inv hE (fun _ h => walk16_eq h pad)).assign_api hE (fun _ h => walk16_eq h pad) hx

/-- Both cases occur. -/
example : ∃ t : Table Nat Nat, Reachable layout16 modEnv (walk16 false) t ∧
    (stepSat layout16 modEnv (walk16 false) true (.assign 105 9) (fun _ a => a == .elem (5, 9) false) t &&
     stepSat layout16 modEnv (walk16 false) true (.assign 90 9) (fun _ a => a == .elem (90, 9) true) t) = true :=
  exists_reachable 0 (insertsFrom 0 32) (fun t =>
    stepSat layout16 modEnv (walk16 false) true (.assign 105 9) (fun _ a => a == .elem (5, 9) false) t &&
     stepSat layout16 modEnv (walk16 false) true (.assign 90 9) (fun _ a => a == .elem (90, 9) true) t) (by decide +kernel)

/-- C23, erase: always returns, removes exactly `k`. -/
theorem C23_erase_exact (hE : E.Lawful) {t : Table K V} (ht : Reachable layout16 E (walk16 pad) t) (mem : Bool) (k : K) :
    ∃ t' a, exec layout16 E (walk16 pad) mem (.erase k) t = .ok t' a ∧
      ((∃ e, lookup layout16 E t k = .ok (some e) ∧ a = .num 1 ∧ t'.size + 1 = t.size) ∨
       (lookup layout16 E t k = .ok none ∧ a = .num 0 ∧ t'.size = t.size)) ∧
      (∀ k', E.eq k k' = true → lookup layout16 E t' k' = .ok none) ∧
      ∀ k', E.eq k' k = false → lookup layout16 E t' k' = lookup layout16 E t k' := by
  have hI := ht.inv hE (H := laws16) (fun _ h => walk16_eq h pad)
  obtain ⟨t', a, hx⟩ := hI.erase_total (walk := walk16 pad) hE mem k
  exact ⟨t', a, hx, hI.erase_api hE (fun _ h => walk16_eq h pad) hx⟩

/-- Both cases occur, in a table with overflowing groups. -/
example : ∃ t : Table Nat Nat, Reachable layout16 clashEnv (walk16 true) t ∧
    (stepSat layout16 clashEnv (walk16 true) true (.erase 20) (fun _ a => a == .num 1) t &&
     stepSat layout16 clashEnv (walk16 true) true (.erase 30) (fun _ a => a == .num 0) t) = true :=
  exists_reachable 0 (insertsFrom 0 29) (fun t =>
    stepSat layout16 clashEnv (walk16 true) true (.erase 20) (fun _ a => a == .num 1) t &&
     stepSat layout16 clashEnv (walk16 true) true (.erase 30) (fun _ a => a == .num 0) t) (by decide +kernel)

/-! ### C25 iteration -/

/-- C25 (and the size part of C23). -/
theorem C25_iteration_visits_each_once (hE : E.Lawful) {t : Table K V} (ht : Reachable layout16 E (walk16 pad) t) :
    ∃ l, walk16 pad t = .ok l ∧ l.length = t.size ∧ l.Pairwise (fun a b => E.eq a.1 b.1 = false) ∧
      ∀ e, e ∈ l ↔ lookup layout16 E t e.1 = .ok (some e) :=
  (ht.inv hE (fun _ h => walk16_eq h pad)).walk_api hE (fun _ h => walk16_eq h pad)

/-- Concrete object with gaps. -/
example : ∃ t : Table Nat Nat, Reachable layout16 modEnv (walk16 true) t ∧ (t.size == 25 && t.capacity layout16 == 64) = true :=
  exists_reachable 0 (insertsFrom 0 40 ++ erasesFrom 5 15) _ (by decide +kernel)

/-! ### C24 termination -/

/-- C24 (partial). A history without `erase` never hangs.  Missing: histories with `erase`, which can hang, see
`C24_insert_hangs`. -/
theorem C24_terminates_without_erase_partial (hE : E.Lawful) {mem : Bool} {n : Nat} {t0 : Table K V}
    (h0 : construct layout16 mem n = .ok t0 ()) {ops : List (Bool × Call K V)} (hv : ∀ op ∈ ops, Valid op.2)
    (hne : ∀ op ∈ ops, ∀ k, op.2 ≠ .erase k) : run layout16 E (walk16 pad) ops t0 ≠ .diverge := by
  obtain ⟨hI0, he, hz, hA⟩ := construct_spec (H := laws16) (E := E) h0
  exact (run_noHang (P := AccN laws16) (Q := fun c => ∀ k, c ≠ .erase k) hE (fun _ h => walk16_eq h pad)
    (fun t mem c hI hA hv hq => hI.exec16N hE (fun _ h => walk16_eq h pad) hA mem c hv hq) ops t0 hI0 hA hv hne).1

/-- A history of the required form, with colliding hashes. -/
example : (run layout16 clashEnv (walk16 true) (insertsFrom 0 40 ++ [(true, .shrink true), (true, .clear false)] ++ insertsFrom 50 35)
      (emptyTable layout16 224 : Table Nat Nat) matches .ok _) = true := by decide +kernel

/-- C24 (partial). In any reachable state, an insertion returns (or throws) as long as size() < capacity(). -/
theorem C24_insert_returns_partial (hE : E.Lawful) {t : Table K V} (ht : Reachable layout16 E (walk16 pad) t)
    (hs : t.size < t.capacity layout16) (mem : Bool) (k : K) (v : V) :
    (∃ t' a, exec layout16 E (walk16 pad) mem (.insert k v) t = .ok t' a) ∨
      exec layout16 E (walk16 pad) mem (.insert k v) t = .throw t := by
  have hI := ht.inv hE (H := laws16) (fun _ h => walk16_eq h pad)
  have hC := hI.emplace_cases hE false mem k v
  simp only [exec]
  generalize emplace layout16 E false mem true k v t = r at hC
  cases hC with
  | found i e hi hk => exact Or.inl ⟨t, .elem e false, by simp [readElem, hi]⟩
  | throw hk hs h => exact Or.inr rfl
  | placed i t' hk hs hA => exact Or.inl ⟨t', .elem (k, v) true, by simp [readElem, hA.at_i]⟩
  | grown i t1 t' hk hs hm c hc hN hp hA => exact Or.inl ⟨t', .elem (k, v) true, by simp [readElem, hA.at_i]⟩
  | diverge hk hs' hfull =>
    exfalso
    have : t.alloc = true := by
      cases hq : t.alloc with
      | true => rfl
      | false => have := hI.alloc_iff.mp hq; omega
    rw [Table.capacity, if_pos this] at hs
    omega

/-- Concrete object, load limit drifted above the number of slots. -/
example : ∃ t : Table Nat Nat, Reachable layout16 idEnv (walk16 true) t ∧
    (decide (t.size < t.capacity layout16) && decide (t.capacity layout16 < t.thr)) = true :=
  exists_reachable 0 ((List.range 16).map (fun i => (true, .insert (16 * i + 1) 0)) ++ [(true, .insert 2 0)] ++
    (List.range 16).map (fun i => (true, .erase (16 * i + 1))) ++ (List.range 16).map (fun i => (true, .insert (16 * i + 18) 0)))
    (fun t => decide (t.size < t.capacity layout16) && decide (t.capacity layout16 < t.thr)) (by decide +kernel)

/-- Fill group 0 with one overflow class, push one element of another class past it, empty the group, refill it
with the other class (every such insertion raises the load limit), fill all 32 slots. -/
def driftHistory : List (Bool × Call Nat Nat) :=
  (List.range 16).map (fun i => (true, .insert (16 * i + 1) 0)) ++ [(true, .insert 2 0)] ++
    (List.range 16).map (fun i => (true, .erase (16 * i + 1))) ++ (List.range 16).map (fun i => (true, .insert (16 * i + 18) 0)) ++
    (List.range 15).map (fun i => (true, .insert (16 * i + 3) 0))

/-- C24 is violated: a history of insertions and erasures after which no further insertion of a new key returns. -/
theorem C24_insert_hangs (pad : Bool) :
    ∃ t : Table Nat Nat, Reachable layout16 idEnv (walk16 pad) t ∧ t.size = 32 ∧ ∀ mem k v, 1000 ≤ k →
      exec layout16 idEnv (walk16 pad) mem (.insert k v) t = .diverge := by
  have hrun : runSat layout16 idEnv (walk16 pad) 0 driftHistory
    (fun t => t.size == 32 && decide (t.size < t.thr) && t.capacity layout16 == 32 &&
      (entries layout16 t).all fun e => decide (e.1 < 1000)) = true := by
    cases pad <;> decide +kernel
  obtain ⟨t, ht, hp⟩ := exists_reachable (L := layout16) (E := idEnv) (walk := walk16 pad) 0 driftHistory _ hrun
  simp only [Bool.and_eq_true, beq_iff_eq, decide_eq_true_eq] at hp
  obtain ⟨⟨⟨h1, h2⟩, h3⟩, h4⟩ := hp
  refine ⟨t, ht, h1, ?_⟩
  intro mem k v hk
  have hI := ht.inv idEnv_lawful (H := laws16) (fun _ h => walk16_eq h pad)
  have hC := hI.emplace_cases idEnv_lawful false mem k v
  simp only [exec]
  generalize emplace layout16 idEnv false mem true k v t = r at hC
  cases hC with
  | found i e hi hk' =>
    have := List.all_eq_true.mp h4 e (hI.mem_iff.mpr ⟨i, hi⟩)
    simp only [decide_eq_true_eq] at this
    simp only [idEnv, beq_iff_eq] at hk'
    omega
  | throw hk hs h => omega
  | placed i t' hk hs hA =>
    have h5 := hA.inv.size_le_slotCap
    have h6 : t.alloc = true := by
      cases hq : t.alloc with
      | true => rfl
      | false => have := hI.alloc_iff.mp hq; omega
    rw [Table.slotCap, hA.gmask, hA.size] at h5
    rw [Table.capacity, if_pos h6, Table.slotCap] at h3
    omega
  | grown i t1 t' hk hs hm c hc hN hp hA => omega
  | diverge hk hs hfull => rfl

/-! ### C27 shrink_to_fit -/

/-- C27, the call itself: `shrink_to_fit` with either flag returns or throws `bad_alloc`, keeps all elements,
and the result is again reachable (C23 applies to it). -/
theorem C27_shrink_to_fit (hE : E.Lawful) {t : Table K V} (ht : Reachable layout16 E (walk16 pad) t) (mem ro : Bool) :
    (∃ t', exec layout16 E (walk16 pad) mem (.shrink ro) t = .ok t' .unit ∧
      (∀ k, lookup layout16 E t' k = lookup layout16 E t k) ∧ t'.size = t.size ∧ Reachable layout16 E (walk16 pad) t') ∨
      exec layout16 E (walk16 pad) mem (.shrink ro) t = .throw t := by
  have hI := ht.inv hE (H := laws16) (fun _ h => walk16_eq h pad)
  have key : (∃ t', exec layout16 E (walk16 pad) mem (.shrink ro) t = .ok t' .unit) ∨
      exec layout16 E (walk16 pad) mem (.shrink ro) t = .throw t := by
    simp only [exec, shrinkToFit]
    have hn : (if ro = true then t.size else fitCapacity t.mlf t.size) ≤ 2 ^ 57 := by
      have := hI.size_le
      have := fitCapacity_le (n := t.size) hI.mlf_lo
      split <;> omega
    generalize (if ro = true then t.size else fitCapacity t.mlf t.size) = n at hn
    split
    · have hR := hI.rehashImpl_cases hE true mem n
      generalize rehashImpl layout16 E true mem n t = r at hR
      cases hR with
      | ub h => omega
      | throw k hk hc h => exact Or.inr rfl
      | same k hk hc h => exact Or.inl ⟨_, rfl⟩
      | moved k t' hm hc h hN hp => exact Or.inl ⟨_, rfl⟩
      | diverge k hm hk hs hc h =>
        have := fit16 hc
        omega
    · rw [hI.destroy_eq]
      exact Or.inl ⟨_, rfl⟩
  rcases key with ⟨t', hx⟩ | hx
  · refine Or.inl ⟨t', hx, ?_⟩
    obtain ⟨_, m', hacc, hl, hl', hs, hs'⟩ := hI.step hE (fun _ h => walk16_eq h pad) (by trivial) hx
    have hm : m' = entries layout16 t := hacc
    subst hm
    exact ⟨fun k => by rw [hl, hl'], by rw [hs, hs'], ht.step (by trivial) (Or.inl ⟨_, hx⟩)⟩
  · exact Or.inr hx

/-- Concrete object: shrinking releases storage. -/
example : ∃ t : Table Nat Nat, Reachable layout16 modEnv (walk16 true) t ∧
    stepSat layout16 modEnv (walk16 true) true (.shrink true) (fun t' _ => t.capacity layout16 == 128 && t'.capacity layout16 == 32) t = true :=
  exists_reachable 100 (insertsFrom 0 30) (fun t =>
    stepSat layout16 modEnv (walk16 true) true (.shrink true) (fun t' _ => t.capacity layout16 == 128 && t'.capacity layout16 == 32) t)
    (by decide +kernel)

/-! ### C37 bidirectional iteration -/

/-- `begin()` advanced `n` times. -/
def advance16 (pad : Bool) (t : Table K V) : Nat → Res Nat
  | 0 => begin16 t
  | n + 1 => (advance16 pad t n).bind (inc16 pad t)

theorem advance16_form {t : Table K V} (hI : Inv laws16 E t) : ∀ n i, advance16 pad t n = .ok i →
    i = t.capacity layout16 ∨ ((t.slot i).isSome ∧ i < (t.gmask + 1) * 16 ∧ InvA laws16 E t) := by
  intro n
  induction n with
  | zero =>
    intro i h
    unfold advance16 begin16 at h
    split at h
    · have hA : InvA laws16 E t := by
        rcases hI.st with h1 | h1
        · rename_i h0
          exfalso; apply h0; rw [h1]; rfl
        · exact h1
      obtain ⟨r, h1, h2⟩ := first16_ok hA (t.capacity layout16 + 1) 0 (by omega) (by rw [cap16 hA]; omega)
      rw [h1] at h
      cases h
      cases r with
      | none => exact Or.inl rfl
      | some j =>
        obtain ⟨e, he⟩ := Option.isSome_iff_exists.mp h2.2.1
        exact Or.inr ⟨h2.2.1, hA.idx_lt he, hA⟩
    · cases h; exact Or.inl rfl
  | succ n ih =>
    intro i h
    unfold advance16 at h
    cases hr : advance16 pad t n with
    | ok i0 =>
      rw [hr] at h
      simp only [Res.bind_ok] at h
      rcases ih i0 hr with h1 | ⟨h1, h2, hA⟩
      · unfold inc16 inc16Loop at h
        rw [if_neg (by omega)] at h
        cases h
        exact Or.inl h1
      · obtain ⟨r, h3, h4⟩ := inc16_ok hA pad h2
        rw [h3] at h
        cases h
        cases r with
        | none => exact Or.inl rfl
        | some j =>
          obtain ⟨e, he⟩ := Option.isSome_iff_exists.mp h4.2.1
          exact Or.inr ⟨h4.2.1, hA.idx_lt he, hA⟩
    | _ => rw [hr] at h; cases h

/-- C37. For an iterator `a` obtained from `begin()` that is not `end()`: `++a` is defined, and `--(++a) == a`, also
when `++a` is `end()`. -/
theorem C37_decrement_inverts_increment (hE : E.Lawful) {t : Table K V} (ht : Reachable layout16 E (walk16 pad) t)
    {n a : Nat} (ha : advance16 pad t n = .ok a) (hne : a ≠ t.capacity layout16) :
    ∃ b, inc16 pad t a = .ok b ∧ dec16 pad t b = .ok a := by
  have hI := ht.inv hE (H := laws16) (fun _ h => walk16_eq h pad)
  rcases advance16_form hI n a ha with h1 | ⟨h1, h2, hA⟩
  · exact absurd h1 hne
  · obtain ⟨r, h3, h4⟩ := inc16_ok hA pad h2
    refine ⟨_, h3, ?_⟩
    have hcap := cap16 hA
    cases r with
    | none =>
      refine dec16_ok hA pad (by simp only [idx16]; omega) ⟨by simp only [idx16]; omega, h1, ?_⟩
      intro l h5 _
      exact h4 l (by omega)
    | some j =>
      obtain ⟨e, he⟩ := Option.isSome_iff_exists.mp h4.2.1
      have := hA.idx_lt he
      refine dec16_ok hA pad (by simp only [idx16]; exact Nat.le_of_lt this) ⟨h4.1, h1, ?_⟩
      intro l h5 h6
      exact h4.2.2 l (by omega) h6

/-- Concrete iterators in different groups, and the last element. -/
example : ∃ t : Table Nat Nat, Reachable layout16 clashEnv (walk16 true) t ∧
    (match advance16 true t 15, advance16 true t 24 with
      | .ok a, .ok b => decide (a < t.capacity layout16) && (inc16 true t a == .ok 16) && decide (b < t.capacity layout16) &&
        (inc16 true t b == .ok (t.capacity layout16))
      | _, _ => false) = true :=
  exists_reachable 0 (insertsFrom 0 25) (fun t => match advance16 true t 15, advance16 true t 24 with
      | .ok a, .ok b => decide (a < t.capacity layout16) && (inc16 true t a == .ok 16) && decide (b < t.capacity layout16) &&
        (inc16 true t b == .ok (t.capacity layout16))
      | _, _ => false) (by decide +kernel)

/-! ### C38 erasing while iterating -/

/-- The user's loop `for (it = begin(); it != end();) if (p(*it)) it = erase(it); else ++it;`; the result is the
number of erased elements. -/
def eraseIfLoop16 (pad : Bool) (p : K × V → Bool) : Nat → Nat → Table K V → Out (Table K V) Nat
  | 0, _, _ => .diverge
  | f + 1, i, t =>
    if i = t.capacity layout16 then .ok t 0
    else
      match t.slot i with
      | none => .ub
      | some e =>
        if p e then
          (eraseIter16 pad t i).bind fun t' j => (eraseIfLoop16 pad p f j t').bind fun t'' n => .ok t'' (n + 1)
        else
          match inc16 pad t i with
          | .ok j => eraseIfLoop16 pad p f j t
          | .diverge => .diverge
          | .ub => .ub

/-- The whole loop. -/
def eraseIf16 (pad : Bool) (p : K × V → Bool) (t : Table K V) : Out (Table K V) Nat :=
  match begin16 t with
  | .ok i => eraseIfLoop16 pad p (t.size + 1) i t
  | .diverge => .diverge
  | .ub => .ub

theorem entriesFrom_congr {n i : Nat} {t t' : Table K V} (h : ∀ l, i ≤ l → t'.slot l = t.slot l) :
    entriesFrom n t' i = entriesFrom n t i := by
  unfold entriesFrom
  apply List.filterMap_congr
  intro l hl
  have := (List.mem_range'_1.mp hl).1
  exact h l this

theorem eraseIter16_ok {t : Table K V} (hI : InvA laws16 E t) {i : Nat} {e : K × V} (hi : t.slot i = some e) :
    ∃ t' r, eraseIter16 pad t i = .ok t' (idx16 t' r) ∧ InvA laws16 E t' ∧ t'.gmask = t.gmask ∧ t'.mlf = t.mlf ∧
      (∀ l, t'.slot l = if l = i then none else t.slot l) ∧ NextIs t' (i + 1) r ∧
      (entries layout16 t).Perm (e :: entries layout16 t') := by
  have hlt : i < (t.gmask + 1) * 16 := hI.idx_lt hi
  have hi' : t.slot (i / 16 * layout16.S + i % 16) = some e := by
    rw [show i / 16 * layout16.S + i % 16 = i by show i / 16 * 16 + i % 16 = i; omega]; exact hi
  obtain ⟨h1, h2, h3⟩ := hI.erase (show i % 16 < layout16.S from Nat.mod_lt _ (by decide)) hi'
  have hs : ∀ l, (InvA.erased layout16 (i / 16) (i % 16) t).slot l = if l = i then none else t.slot l := by
    intro l
    show upd t.slot (i / 16 * 16 + i % 16) none l = _
    rw [show i / 16 * 16 + i % 16 = i by omega]
    rfl
  obtain ⟨r, h4, h5⟩ := inc16_ok h2 pad hlt
  refine ⟨_, r, ?_, h2, rfl, rfl, hs, h5, h3⟩
  unfold eraseIter16
  rw [h1]
  simp only [Out.bind_ok]
  rw [if_neg]
  · rw [h4]
  · have := (ctrlEmpty16_iff h2 pad (i := i) hlt).mpr (by rw [hs, if_pos rfl])
    simp [this]

theorem eraseIfLoop16_ok (p : K × V → Bool) : ∀ (f i : Nat) (r : Option Nat) (t : Table K V), InvA laws16 E t →
    NextIs t i r → (entriesFrom ((t.gmask + 1) * 16) t i).length < f →
    ∃ t' n, eraseIfLoop16 pad p f (idx16 t r) t = .ok t' n ∧ InvA laws16 E t' ∧ t'.gmask = t.gmask ∧ t'.mlf = t.mlf ∧
      (∀ l, t'.slot l = if i ≤ l then (t.slot l).filter (fun e => !p e) else t.slot l) ∧ t.size = t'.size + n := by
  intro f
  induction f with
  | zero => intro i r t _ _ h; omega
  | succ f ih =>
    intro i r t hI hn hf
    unfold eraseIfLoop16
    have hcap := cap16 hI
    cases r with
    | none =>
      rw [if_pos (show idx16 t none = t.capacity layout16 from rfl)]
      refine ⟨t, 0, rfl, hI, rfl, rfl, ?_, rfl⟩
      intro l
      split
      · rename_i h
        rw [hn l h]; rfl
      · rfl
    | some j =>
      obtain ⟨e, he⟩ := Option.isSome_iff_exists.mp hn.2.1
      have hlt : j < (t.gmask + 1) * 16 := hI.idx_lt he
      rw [if_neg (show idx16 t (some j) ≠ _ by simp only [idx16]; omega)]
      rw [entriesFrom_some hlt hn he, List.length_cons] at hf
      simp only [idx16, he]
      have hjl := hn.1
      by_cases hp : p e = true
      · rw [if_pos hp]
        obtain ⟨t1, r1, h1, h2, h3, hmlf, h4, h5, h6⟩ := eraseIter16_ok (pad := pad) hI he
        have hc : entriesFrom ((t1.gmask + 1) * 16) t1 (j + 1) = entriesFrom ((t.gmask + 1) * 16) t (j + 1) := by
          rw [h3]
          apply entriesFrom_congr
          intro l hl
          rw [h4, if_neg (by omega)]
        obtain ⟨t2, n, g1, g2, g3, gm, g4, g5⟩ := ih (j + 1) r1 t1 h2 h5 (by rw [hc]; omega)
        rw [h1]
        simp only [Out.bind_ok]
        rw [g1]
        refine ⟨t2, n + 1, rfl, g2, by rw [g3, h3], by rw [gm, hmlf], ?_, ?_⟩
        · intro l
          rw [g4, h4]
          by_cases hlj : l = j
          · subst hlj
            rw [if_neg (by omega), if_pos rfl, if_pos hjl, he]
            simp [Option.filter, hp]
          · rw [if_neg hlj]
            by_cases hjl2 : j + 1 ≤ l
            · rw [if_pos hjl2, if_pos (by omega)]
            · rw [if_neg hjl2]
              by_cases hil : i ≤ l
              · rw [if_pos hil, hn.2.2 l hil (by omega)]; rfl
              · rw [if_neg hil]
        · have := h6.length_eq
          rw [List.length_cons, ← hI.size, ← h2.size] at this
          omega
      · rw [if_neg hp]
        obtain ⟨r1, h1, h2⟩ := inc16_ok hI pad hlt
        rw [h1]
        simp only
        obtain ⟨t2, n, g1, g2, g3, gm, g4, g5⟩ := ih (j + 1) r1 t hI h2 (by omega)
        refine ⟨t2, n, g1, g2, g3, gm, ?_, g5⟩
        intro l
        rw [g4]
        by_cases hlj : l = j
        · subst hlj
          rw [if_neg (by omega), if_pos hjl, he]
          simp [Option.filter, hp]
        · by_cases hjl2 : j + 1 ≤ l
          · rw [if_pos hjl2, if_pos (by omega)]
          · rw [if_neg hjl2]
            by_cases hil : i ≤ l
            · rw [if_pos hil, hn.2.2 l hil (by omega)]; rfl
            · rw [if_neg hil]

theorem filterMap_filter {α : Type} (l : List Nat) (f : Nat → Option α) (q : α → Bool) :
    l.filterMap (fun i => (f i).filter q) = (l.filterMap f).filter q := by
  induction l with
  | nil => rfl
  | cons a l ih =>
    rw [List.filterMap_cons, List.filterMap_cons]
    cases h : f a with
    | none => simpa using ih
    | some b =>
      rw [List.filter_cons, ← ih]
      by_cases hq : q b = true <;> simp [Option.filter, hq]

/-- C38. The erase-while-iterating loop visits every element once, erases exactly those satisfying the predicate,
returns their number, and leaves the others (in the same order) findable. -/
theorem C38_erase_while_iterating (hE : E.Lawful) {t : Table K V} (ht : Reachable layout16 E (walk16 pad) t)
    (p : K × V → Bool) {l : List (K × V)} (hl : walk16 pad t = .ok l) :
    ∃ t' n, eraseIf16 pad p t = .ok t' n ∧ walk16 pad t' = .ok (l.filter fun e => !p e) ∧ t.size = t'.size + n ∧
      t'.size = (l.filter fun e => !p e).length ∧
      ∀ e, lookup layout16 E t' e.1 = .ok (some e) ↔ lookup layout16 E t e.1 = .ok (some e) ∧ p e = false := by
  have hI := ht.inv hE (H := laws16) (fun _ h => walk16_eq h pad)
  have key : ∃ t' n, eraseIf16 pad p t = .ok t' n ∧ Inv laws16 E t' ∧ t.size = t'.size + n ∧
      entries layout16 t' = (entries layout16 t).filter fun e => !p e := by
    unfold eraseIf16 begin16
    by_cases h0 : t.size = 0
    · rw [if_neg (by simpa using h0)]
      simp only
      unfold eraseIfLoop16
      rw [if_pos rfl]
      refine ⟨t, 0, rfl, hI, rfl, ?_⟩
      have : entries layout16 t = [] := List.length_eq_zero_iff.mp (by rw [← hI.size_eq]; exact h0)
      rw [this]; rfl
    · rw [if_pos h0]
      have hA : InvA laws16 E t := by
        rcases hI.st with h1 | h1
        · exfalso; apply h0; rw [h1]; rfl
        · exact h1
      obtain ⟨r, h1, h2⟩ := first16_ok hA (t.capacity layout16 + 1) 0 (by omega) (by rw [cap16 hA]; omega)
      rw [h1]
      simp only
      have he : entriesFrom ((t.gmask + 1) * 16) t 0 = entries layout16 t := by
        unfold entriesFrom entries
        rw [Nat.sub_zero, ← List.range_eq_range']; rfl
      obtain ⟨t', n, g1, g2, g3, gm, g4, g5⟩ := eraseIfLoop16_ok (pad := pad) p (t.size + 1) 0 r t hA h2
        (by rw [he, ← hI.size_eq]; omega)
      refine ⟨t', n, g1, ⟨by rw [gm]; exact hI.mlf_lo, by rw [gm]; exact hI.mlf_hi, Or.inr g2⟩, g5, ?_⟩
      unfold entries
      rw [g3, ← filterMap_filter]
      apply List.filterMap_congr
      intro a _
      rw [g4, if_pos (Nat.zero_le _)]
  obtain ⟨t', n, h1, hI', h2, h3⟩ := key
  rw [walk16_eq hI pad] at hl
  cases hl
  refine ⟨t', n, h1, by rw [walk16_eq hI' pad, h3], h2, by rw [hI'.size_eq, h3], ?_⟩
  intro e
  rw [hI'.lookup_eq hE, hI.lookup_eq hE, Res.ok.injEq, Res.ok.injEq, Spec.get_some_iff hE hI'.pairwise,
    Spec.get_some_iff hE hI.pairwise, h3]
  simp [hE.refl]

/-- Concrete object; the loop erases 13 of 25 elements. -/
example : ∃ t : Table Nat Nat, Reachable layout16 modEnv (walk16 true) t ∧
    (match eraseIf16 true (fun e => e.1 % 2 == 0) t with | .ok t' n => t.size == 25 && n == 13 && t'.size == 12 | _ => false) = true :=
  exists_reachable 0 (insertsFrom 0 40 ++ erasesFrom 5 15)
    (fun t => match eraseIf16 true (fun e => e.1 % 2 == 0) t with | .ok t' n => t.size == 25 && n == 13 && t'.size == 12 | _ => false)
    (by decide +kernel)

/-! ### C39 failing allocations -/

/-- C39. A call that throws leaves the object unchanged (max_load_factor keeps the new factor), for group16 maps. -/
theorem C39_failed_allocation_changes_nothing (hE : E.Lawful) {t : Table K V} (ht : Reachable layout16 E (walk16 pad) t)
    {mem : Bool} {c : Call K V} (hv : Valid c) {t' : Table K V} (hx : exec layout16 E (walk16 pad) mem c t = .throw t') :
    (t' = t ∨ ∃ m, c = .maxLoad m ∧ t' = { t with mlf := m }) ∧
    (∀ k, lookup layout16 E t' k = lookup layout16 E t k) ∧ t'.size = t.size ∧
      t'.capacity layout16 = t.capacity layout16 ∧
    (mem = false ∨ 2 ^ 52 ≤ t.capacity layout16 ∨ ∃ n, 2 ^ 52 ≤ n ∧ (c = .reserve n ∨ c = .rehash n)) := by
  have hI := ht.inv hE (H := laws16) (fun _ h => walk16_eq h pad)
  obtain ⟨h1, h2⟩ := hI.throw_api hE hv hx
  have hstep := hI.exec_ok hE (walk := walk16 pad) (fun _ h => walk16_eq h pad) (List.Perm.refl _) mem hv
  rw [hx] at hstep
  obtain ⟨hI', _, hp⟩ := hstep
  refine ⟨h1, ?_, ?_, ?_, h2⟩
  · intro k
    rw [hI'.lookup_eq hE, hI.lookup_eq hE, Spec.get_perm hE hp hI'.pairwise]
  · rw [hI'.size_eq, hI.size_eq, hp.length_eq]
  · rcases h1 with rfl | ⟨m, _, rfl⟩ <;> rfl

/-- Every allocating call can fail. -/
example : ∃ t : Table Nat Nat, Reachable layout16 modEnv (walk16 true) t ∧
    (stepThrows layout16 modEnv (walk16 true) false (.insert 90 9) t && stepThrows layout16 modEnv (walk16 true) false (.reserve 90) t) = true :=
  exists_reachable 0 (insertsFrom 0 32) (fun t =>
    stepThrows layout16 modEnv (walk16 true) false (.insert 90 9) t && stepThrows layout16 modEnv (walk16 true) false (.reserve 90) t)
    (by decide +kernel)

/-! ### C40 clear -/

/-- C40. `clear()` and `clear(true)` are defined on every group16 map and empty it; `clear()` keeps the capacity. -/
theorem C40_clear (hE : E.Lawful) {t : Table K V} (ht : Reachable layout16 E (walk16 pad) t) (mem d : Bool) :
    ∃ t', exec layout16 E (walk16 pad) mem (.clear d) t = .ok t' .unit ∧ t'.size = 0 ∧
      (∀ k, lookup layout16 E t' k = .ok none) ∧ walk16 pad t' = .ok [] ∧ Reachable layout16 E (walk16 pad) t' ∧
      (d = false → t'.capacity layout16 = t.capacity layout16) := by
  have hI := ht.inv hE (H := laws16) (fun _ h => walk16_eq h pad)
  have key : ∃ t', exec layout16 E (walk16 pad) mem (.clear d) t = .ok t' .unit ∧
      (d = false → t'.capacity layout16 = t.capacity layout16) := by
    simp only [exec, clear]
    cases d with
    | true =>
      simp only [if_true]
      rw [hI.destroy_eq]
      exact ⟨_, rfl, fun h => by cases h⟩
    | false =>
      simp only [Bool.false_eq_true, if_false]
      rcases hI.clearData_eq with ⟨h1, h2, h3, h4, h5⟩ | ⟨h1, h2, h3⟩ | ⟨h1, h2, h3⟩
      · rw [h2]; exact ⟨_, rfl, fun _ => rfl⟩
      · cases h2
      · rw [h3]; exact ⟨_, rfl, fun _ => rfl⟩
  obtain ⟨t', hx, hcap⟩ := key
  obtain ⟨hI', m', hacc, hl, hl', hs, hs'⟩ := hI.step hE (fun _ h => walk16_eq h pad) (by trivial) hx
  have hm : m' = [] := hacc
  subst hm
  refine ⟨t', hx, hs', fun k => by rw [hl']; rfl, ?_, ht.step (by trivial) (Or.inl ⟨_, hx⟩), hcap⟩
  rw [walk16_eq hI' pad]
  have : entries layout16 t' = [] := List.length_eq_zero_iff.mp (by rw [← hI'.size_eq, hs']; rfl)
  rw [this]

/-- Concrete object. -/
example : ∃ t : Table Nat Nat, Reachable layout16 modEnv (walk16 true) t ∧ (t.size == 25 && t.capacity layout16 == 64) = true :=
  exists_reachable 0 (insertsFrom 0 40 ++ erasesFrom 5 15) _ (by decide +kernel)

end
end Verif
