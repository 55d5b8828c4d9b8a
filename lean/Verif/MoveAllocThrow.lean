/-
Element constructors that throw while a group15 map is moved to another allocator (C123).

T15 = `src/jstd/hashmap/group15_flat_table.hpp`.
-/
import Verif.CopyLife
import Verif.MoveThrow

namespace Verif.Life
open Verif
open Verif.Spec (Call Ans)

/-! ### The model -/

section Model
variable {K V : Type} (E : Env K) (S : Nat)

/-- `move_slots_array_from` (T15:1884-1951), see `copyFastE`: each element is constructed in block `nb` and then destroyed in block `ob`;
the roll-back (T15:1910-1949) walks down from the slot whose construction threw, destroys that one first, and is skipped when the index is 0.
It does not construct anything in the old block again. -/
def moveFastE (nb ob : Nat) (fail : Nat → Bool) : Nat → List Nat → List Nat → List Ev × Bool
  | _, _, [] => ([], true)
  | n, done, i :: is =>
    if fail n then (if i = 0 then [] else (i :: done).map (Ev.dtor nb), false)
    else (.ctor nb i :: .dtor ob i :: (moveFastE nb ob fail (n + 1) (i :: done) is).1, (moveFastE nb ob fail (n + 1) (i :: done) is).2)

/-- The constructor that moves from a table with another allocator (T15:373-408), see `moveFillE`; `fail n` says whether the `n`-th
construction throws.  Element by element (T15:1805-1816, 2456-2466, 2500-2505) an exception is caught and `destroy<true>()` runs; slot by slot
there is only the roll-back of `moveFastE`.  When the constructor throws, no destructor of the new object runs. -/
def moveFillThrowE (mem : Bool) (fail : Nat → Bool) (src : LT K V) : Out (LT K V) Unit :=
  if src.t.size ≠ 0 then
    match calcCapacity 0 (fitCapacity 224 src.t.size) with
    | .ub => .ub
    | .diverge => .diverge
    | .ok cap =>
      (createE layout15 S (mem, true) cap { t := emptyTable layout15 224, blk := 0, next := src.next, log := src.log }).bind fun s1 _ =>
        if s1.t.ctrlCap layout15 = src.t.ctrlCap layout15 then
          if (moveFastE s1.blk src.blk fail 0 [] (elemIdx src.t)).2 then
            .ok (emit { s1 with t := fastCopy layout15 src.t s1.t } (moveFastE s1.blk src.blk fail 0 [] (elemIdx src.t)).1) ()
          else .throw (emit { s1 with t := fastCopy layout15 src.t s1.t } (moveFastE s1.blk src.blk fail 0 [] (elemIdx src.t)).1)
        else
          match transferThrowE layout15 E fail src.t src.blk 0 (usedPos layout15 src.t) s1 with
          | .throw s2 => .throw (destroyE layout15 S s2)
          | r => r
  else .ok { t := emptyTable layout15 224, blk := 0, next := src.next, log := src.log } ()

/-- Then `other.destroy<false>()` (T15:406), see `moveE`. -/
def moveThrowE (mem : Bool) (fail : Nat → Bool) (src : LT K V) : Out (LT K V) Unit :=
  (moveFillThrowE E S mem fail src).bind fun s2 _ => .ok (emit s2 (freeAll layout15 S src.t src.blk)) ()

end Model

section
variable {K V : Type} {E : Env K} {S : Nat}

/-! ### Lemmas -/

theorem moveFastE_never (nb ob : Nat) : ∀ (is done : List Nat) (n : Nat),
    moveFastE nb ob (fun _ => false) n done is = (is.flatMap fun i => [Ev.ctor nb i, Ev.dtor ob i], true) := by
  intro is
  induction is with
  | nil => intro done n; rfl
  | cons i is ih =>
    intro done n
    unfold moveFastE
    rw [ih]
    rfl

theorem findEmptyLoop_no_throw {check : Bool} {tag : Nat} {r : Table K V} : ∀ (f : Nat) (p : Prober) (t : Table K V),
    findEmptyLoop layout15 check tag f p t ≠ .throw r := by
  intro f
  induction f with
  | zero => intro p t h; cases h
  | succ f ih =>
    intro p t h
    unfold findEmptyLoop at h
    simp only at h
    split at h
    · split at h
      · cases h
      · exact ih _ _ h
    · cases h

theorem transferAllE_no_throw (old : Table K V) (bo : Nat) (r : LT K V) : ∀ (ps : List (Nat × Nat)) (s : LT K V),
    transferAllE layout15 E old bo ps s ≠ .throw r := by
  intro ps
  induction ps with
  | nil => intro s h; cases h
  | cons gp ps ih =>
    intro s h
    unfold transferAllE at h
    cases hq : old.slot (gp.1 * layout15.S + gp.2) with
    | none => simp only [hq] at h; cases h
    | some e =>
      simp only [hq] at h
      unfold uniqueInsertE onT at h
      cases h1 : findEmpty layout15 E false e.1 s.t with
      | throw t => exact findEmptyLoop_no_throw _ _ _ h1
      | diverge => simp only [h1] at h; cases h
      | ub => simp only [h1] at h; cases h
      | ok t gp' =>
        simp only [h1, Out.bind_ok] at h
        unfold constructAt at h
        by_cases h2 : (t.alloc && decide (gp'.1 * layout15.S + gp'.2 < t.slotCap layout15)) = true
        · simp only [h2, if_true, Out.bind_ok] at h
          exact ih _ h
        · simp only [h2] at h
          cases h

/-- A move that is given up: either the roll-back begins with an object that does not exist, or there is no roll-back and the block is still held. -/
theorem moveFastE_fail (nb ob m : Nat) (fail : Nat → Bool) : ∀ (is done : List Nat) (n : Nat) (h : Heap), (nb, m) ∈ h.blocks → h.live.Nodup →
    is.Nodup → (∀ i ∈ is, i < m) → (∀ i ∈ is, (nb, i) ∉ h.live) → (∀ i ∈ is, (ob, i) ∈ h.live) → ∀ j, n ≤ j → j < n + is.length → fail j = true →
    (∀ l, n ≤ l → l < j → fail l = false) →
    (moveFastE nb ob fail n done is).2 = false ∧
    (is[j - n]? ≠ some 0 → Heap.run (moveFastE nb ob fail n done is).1 h = none) ∧
    (is[j - n]? = some 0 → ∃ h', Heap.run (moveFastE nb ob fail n done is).1 h = some h' ∧ h'.blocks = h.blocks) := by
  intro is
  induction is with
  | nil => intro done n h _ _ _ _ _ _ j a b; simp at b; omega
  | cons i is ih =>
    intro done n h hb hn hi hlt hm ho j j1 j2 j3 j4
    rw [List.nodup_cons] at hi
    unfold moveFastE
    by_cases hj : n = j
    · subst hj
      simp only [j3, if_true, true_and, Nat.sub_self, List.getElem?_cons_zero]
      constructor
      · intro hi0
        rw [if_neg (fun hq => hi0 (by rw [hq]))]
        exact run_dtors_none nb _ h hn ⟨i, by simp, hm i (by simp)⟩
      · intro hi0
        rw [if_pos (by simpa using hi0)]
        exact ⟨h, rfl, rfl⟩
    · rw [j4 n (Nat.le_refl _) (by omega)]
      simp only [Bool.false_eq_true, if_false]
      have hmi := hm i (by simp)
      have hoi := ho i (by simp)
      have hnd1 : ((nb, i) :: h.live).Nodup := List.nodup_cons.mpr ⟨hmi, hn⟩
      have hmem : ∀ c l, (c, l) ∈ ((nb, i) :: h.live).erase (ob, i) ↔ (c, l) ≠ (ob, i) ∧ ((c, l) = (nb, i) ∨ (c, l) ∈ h.live) := by
        intro c l
        rw [hnd1.mem_erase_iff, List.mem_cons]
      obtain ⟨r1, r2, r3⟩ := ih (i :: done) (n + 1) { h with live := ((nb, i) :: h.live).erase (ob, i) } hb (hnd1.erase _) hi.2
        (fun j hj => hlt j (by simp [hj]))
        (by
          intro j hj hq
          rw [hmem] at hq
          rcases hq.2 with hq | hq
          · rw [Prod.mk.injEq] at hq
            rw [hq.2] at hj
            exact hi.1 hj
          · exact hm j (by simp [hj]) hq)
        (by
          intro j hj
          rw [hmem]
          refine ⟨?_, Or.inr (ho j (by simp [hj]))⟩
          intro hq
          rw [Prod.mk.injEq] at hq
          rw [hq.2] at hj
          exact hi.1 hj)
        j (by omega) (by rw [List.length_cons] at j2; omega) j3 (fun l a b => j4 l (by omega) b)
      have hx : (i :: is)[j - n]? = is[j - (n + 1)]? := by
        rw [show j - n = (j - (n + 1)) + 1 by omega, List.getElem?_cons_succ]
      have hc : ((nb, i) :: h.live).contains (ob, i) = true := List.contains_iff_mem.mpr (by simp [hoi])
      rw [hx, Heap.run, step_ctor hb (hlt i (by simp)) hmi]
      simp only [Option.bind_some, Heap.run, Heap.step, hc, if_true]
      exact ⟨r1, r2, r3⟩

/-! ### C123 -/

/-- C123 (partial): when no constructor throws this is the move of `C123_move`.  Missing: `C123_move_throws`. -/
theorem C123_move_never_throws_partial (mem : Bool) (src : LT K V) : moveThrowE E S mem (fun _ => false) src = moveE E S mem src := by
  unfold moveThrowE moveE
  congr 1
  unfold moveFillThrowE moveFillE
  by_cases h0 : src.t.size ≠ 0
  · rw [if_pos h0, if_pos h0]
    cases calcCapacity 0 (fitCapacity 224 src.t.size) with
    | ub => rfl
    | diverge => rfl
    | ok cap =>
      simp only
      congr 1
      funext s1 _
      rw [moveFastE_never, transferThrowE_never (fun _ => rfl)]
      simp only [if_true]
      split
      · rfl
      · rename_i hq
        have hnt : ∀ s2, transferAllE layout15 E src.t src.blk (usedPos layout15 src.t) s1 ≠ .throw s2 := fun s2 => transferAllE_no_throw _ _ s2 _ _
        cases hr : transferAllE layout15 E src.t src.blk (usedPos layout15 src.t) s1 with
        | throw s2 => exact absurd hr (hnt s2)
        | _ => rfl
  · rw [if_neg h0, if_neg h0]

/-- C123, violated: when the constructor of an element throws while a map is moved to another allocator, the constructor throws, and what it leaves is
never in order: either an element that was never constructed is destroyed, or the new block is lost.  The first happens whenever the capacities differ,
and whenever the element is not in slot 0; the second when it is in slot 0. -/
theorem C123_move_throws (hE : E.Lawful) (hs : 1 ≤ S) (hS : S ≤ 256) {a : Bool × Bool} {n : Nat} {s0 src : LT K V}
    (h0 : constructE layout15 S a n = .ok s0 ()) {ops : List ((Bool × Bool) × Call K V)} (hv : ∀ o ∈ ops, Valid o.2) {as : List (Ans K V)}
    (hr : runE layout15 E S walk15 ops s0 = .ok (as, src)) (hsz : src.t.size < 2 ^ 54)
    {fail : Nat → Bool} {j : Nat} (hj : j < src.t.size) (hf : fail j = true) (hf' : ∀ l < j, fail l = false) :
    ∃ s cap, moveThrowE E S true fail src = .throw s ∧ calcCapacity 0 (fitCapacity 224 src.t.size) = .ok cap ∧
      (cap ≠ src.t.ctrlCap layout15 ∨ (elemIdx src.t)[j]? ≠ some 0 → Heap.run s.log Heap.empty = none) ∧
      (cap = src.t.ctrlCap layout15 ∧ (elemIdx src.t)[j]? = some 0 →
        ∃ h, Heap.run s.log Heap.empty = some h ∧ ∃ x ∈ h.blocks, src.next ≤ x.1) := by
  have hst : ∀ x : Bool × Bool, Steady layout15 x := fun x h => by cases h
  have hG0 := (constructE_good (H := laws15) (E := E) (Or.inl rfl) (hst a) n).1 s0 h0
  obtain ⟨⟨hI, hh, hl⟩, hp⟩ := runE_good hE (Or.inl rfl) hs hS (fun _ h => walk15_eq h) ops s0 hG0 (fun o h => ⟨hst _, hv o h⟩) hr
  have hbf := hl.before
  have h0' : src.t.size ≠ 0 := by omega
  have hA : InvA laws15 E src.t := by
    rcases hI.st with h | h
    · exfalso; apply h0'; rw [h]; rfl
    · exact h
  have hal := hA.alloc
  have hfr := hl.fresh hal
  have hle := hI.size_le
  have hfc := fitCapacity_le_two (m := 224) (n := src.t.size) (by omega)
  unfold moveThrowE moveFillThrowE
  rw [if_pos h0']
  cases hc : calcCapacity 0 (fitCapacity 224 src.t.size) with
  | diverge => exact absurd hc calcCapacity_diverge
  | ub =>
    exfalso
    rcases calcCapacity_ub hc with h | h <;> omega
  | ok cap =>
    obtain ⟨k, rfl, hk5, hkn, _, hkm⟩ := calcCapacity_ok hc
    have h55 : k ≤ 55 := by
      by_contra hq
      have := calcCapacity_big hc (by omega)
      omega
    simp only
    rw [createE_succeeds hk5 h55]
    simp only [Out.bind_ok]
    obtain ⟨hI1, hF1⟩ := freshTable_inv (H := laws15) (E := E) (V := V) (mlf := 224) hk5 h55
    have hrun1 : Heap.run (src.log ++ newBlocks layout15 S src.next (2 ^ k)) Heap.empty
        = some { hh with blocks := owned layout15 S (freshTable layout15 k 224 : Table K V) src.next ++ hh.blocks } := by
      rw [run_append, hl.run]
      exact run_newBlocks (Or.inl rfl) hk5 h55 hbf.blocks
    have hcc : (freshTable layout15 k 224 : Table K V).ctrlCap layout15 = 2 ^ k := by
      unfold Table.ctrlCap freshTable
      simp only [if_true, pow_sub_add]
      conv_rhs => rw [show k = (k - 4) + 4 by omega, Nat.pow_add]
    have hsc : (freshTable layout15 k 224 : Table K V).slotCap layout15 = layout15.slotCap (2 ^ (k - 4)) := by
      unfold Table.slotCap freshTable; simp only [pow_sub_add]
    have hfit := fit15 (by omega) (by omega) hle hc
    have hcap := std_cap (L := layout15) (S := S) (Or.inl rfl) hs hS (InvA.gmask_le hI1)
    have hmt : (emptyTable layout15 224 : Table K V).mlf = 224 := rfl
    rw [hmt]
    have hnb : ∀ i, (src.next, i) ∉ hh.live := fun i hq => by have := hbf.live _ hq; simp at this
    by_cases he : 2 ^ k = src.t.ctrlCap layout15
    · rw [if_pos (by rw [← he]; exact hcc)]
      obtain ⟨f1, f2, f3, f4, f5⟩ := fastCopy_facts hA (m := 224) he
      have hel := elemIdx_length hA
      obtain ⟨r1, r2, r3⟩ := moveFastE_fail src.next src.blk _ fail (elemIdx src.t) [] 0
        { hh with blocks := owned layout15 S (freshTable layout15 k 224 : Table K V) src.next ++ hh.blocks }
        (List.mem_append_left _ (owned_mem _ _)) hl.nodup (marked hA).nodup
        (by
          intro i hi
          refine Nat.lt_of_lt_of_le ?_ hcap
          have h2 := ((marked hA).used i).mp hi
          have hg : (freshTable layout15 k 224 : Table K V).slotCap layout15 = src.t.slotCap layout15 := by
            unfold Table.slotCap; rw [← f2]; rfl
          rw [hg]
          have hc15 : src.t.slotCap layout15 = (src.t.gmask + 1) * 15 - 1 := rfl
          by_contra hge
          have hnone : src.t.slot i = none := by
            by_cases hb : (src.t.gmask + 1) * 15 ≤ i
            · exact hA.oob i hb
            · have hlast : i = 15 * src.t.gmask + 14 := by omega
              rw [hlast]; exact none_after_last hA (Nat.le_refl _)
          rw [hnone] at h2; cases h2)
        (fun i _ => hnb i)
        (by intro i hi; show _ ∈ hh.live; rw [hl.live]; exact ⟨hal, rfl, ((marked hA).used i).mp hi⟩)
        j (Nat.zero_le _) (by omega) hf (fun l _ h => hf' l h)
      rw [r1, if_neg (by decide)]
      refine ⟨_, _, rfl, rfl, ?_, ?_⟩
      · rintro (h | h)
        · exact absurd he h
        · show Heap.run (_ ++ _) _ = _
          rw [run_append, hrun1]
          exact r2 h
      · rintro ⟨_, h⟩
        obtain ⟨h', q1, q2⟩ := r3 h
        refine ⟨h', ?_, ?_⟩
        · show Heap.run (_ ++ _) _ = _
          rw [run_append, hrun1]
          exact q1
        · rw [q2]
          exact ⟨_, List.mem_append_left _ (owned_mem _ _), Nat.le_refl _⟩
    · rw [if_neg (by rw [hcc]; exact he)]
      obtain ⟨s', h', i, e, r1, r2, r3, r4, r5, r6, r7, r8⟩ := transferThrow_spec (H := laws15) (fail := fail) hE src.t src.blk _
        (usedPos layout15 src.t) (entries layout15 src.t) 0
        { t := freshTable layout15 k 224, blk := src.next, next := src.next + 2, log := src.log ++ newBlocks layout15 S src.next (2 ^ k) } _
        hA.usedPos_map hI1 hF1 hA.pairwise
        (by intro e _ x hx; rw [freshTable_entries] at hx; simp at hx)
        (by simp only; rw [hsc, ← hA.size]; show 0 + src.t.size ≤ _; omega)
        hrun1 (List.mem_append_left _ (owned_mem _ _)) hcap (by simp only; omega)
        (by
          intro b i
          simp only
          rw [hl.live, mem_usedIdx hA]
          simp [freshTable, hal])
        hl.nodup (nodup_usedIdx hA) j (by rw [usedPos_length hA]; exact hj) (by rw [Nat.zero_add]; exact hf)
        (fun l hl => by rw [Nat.zero_add]; exact hf' l hl)
      rw [r1]
      refine ⟨destroyE layout15 S s', _, rfl, rfl, fun _ => ?_, ?_⟩
      · apply r7.destroy r3 r5
        rw [r8, r2]
        rintro (⟨_, hq⟩ | ⟨hq, _⟩)
        · rw [r7.free] at hq; cases hq
        · have hq' : src.next = src.blk := hq
          omega
      · rintro ⟨h, _⟩
        exact absurd h he

end

/-! ### Examples -/

set_option maxRecDepth 100000 in
/-- The hypotheses of `C123_move_throws`: five elements, equal capacities; the third and the first construction throw. -/
example : (match (constructE layout15 16 (true, true) 1 : Out (LT Nat Nat) Unit) with
  | .ok s0 _ =>
    match runE layout15 idEnv 16 walk15 (srcOps 5) s0 with
    | .ok r =>
      r.2.t.size == 5 &&
      (match moveThrowE idEnv 16 true (fun n => n == 2) r.2 with | .throw c => (Heap.run c.log Heap.empty).isNone | _ => false) &&
      (match moveThrowE idEnv 16 true (fun n => n == 0) r.2 with
        | .throw c => (match Heap.run c.log Heap.empty with | some h => h.blocks.length == 2 | none => false) | _ => false)
    | _ => false
  | _ => false) = true := by decide +kernel

set_option maxRecDepth 100000 in
/-- And with different capacities. -/
example : (match (constructE layout15 16 (true, true) 1 : Out (LT Nat Nat) Unit) with
  | .ok s0 _ =>
    match runE layout15 idEnv 16 walk15 (srcOps 5 ++ [((true, true), .reserve 100)]) s0 with
    | .ok r => (match moveThrowE idEnv 16 true (fun n => n == 0) r.2 with | .throw c => (Heap.run c.log Heap.empty).isNone | _ => false)
    | _ => false
  | _ => false) = true := by decide +kernel

end Verif.Life
