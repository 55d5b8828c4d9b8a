/-
Element constructors that throw while a group15 or group16 map moves its elements to a new storage (C134).

T15 = `src/jstd/hashmap/group15_flat_table.hpp`, T16 = `src/jstd/hashmap/group16_flat_table.hpp`.

The other models assume that elements can be moved without an exception.  Here `fail n` says whether the construction of the `n`-th
element in the new storage throws (element types without a move constructor are copied, and a copy may need memory).
-/
import Verif.Lifetime

namespace Verif.Life
open Verif
open Verif.Spec (Call Ans)

/-! ### The model -/

section Model
variable {K V : Type} (L : Layout) (E : Env K) (S : Nat) (fail : Nat → Bool)

/-- The loop of `rehash_impl` (T15:2137-2156, T16:2013-2024), see `transferAllE`.  When the construction throws (T15:2449, T16:2273) the control
byte is already written (T15:2445, T16:2269), and nothing catches the exception. -/
def transferThrowE (old : Table K V) (bo : Nat) : Nat → List (Nat × Nat) → LT K V → Out (LT K V) Unit
  | _, [], s => .ok s ()
  | n, (g, p) :: r, s =>
    match old.slot (g * L.S + p) with
    | none => .ub
    | some e =>
      (onT (findEmpty L E false e.1) s).bind fun s1 gp =>
        if fail n then .throw s1
        else
          (onT (constructAt L true (gp.1 * L.S + gp.2) e) s1).bind fun s2 _ =>
            transferThrowE old bo (n + 1) r (emit s2 [.ctor s2.blk (gp.1 * L.S + gp.2), .dtor bo (g * L.S + p)])

/-- `rehash_impl<AllowShrink>(n)` (T15:2109-2182, T16:1984-2046), see `rehashImplE`. -/
def rehashThrowE (shrink : Bool) (a : Bool × Bool) (n : Nat) (s : LT K V) : Out (LT K V) Unit :=
  match calcCapacity s.t.size n with
  | .ub => .ub
  | .diverge => .diverge
  | .ok cap =>
    if (!shrink && decide (cap > s.t.ctrlCap L)) || (shrink && decide (cap ≠ s.t.ctrlCap L)) then
      (createE L S a cap s).bind fun s1 _ =>
        if s.t.alloc then
          (transferThrowE L E fail s.t s.blk 0 (usedPos L s.t) s1).bind fun s2 _ => .ok (emit s2 (freeOld L S s.t s.blk)) ()
        else .ok s1 ()
    else .ok s ()

/-- `find_or_insert(key)` (T15:2393-2427, T16:2217-2251), see `findOrInsertE`. -/
def findOrInsertThrowE (a : Bool × Bool) (k : K) (s : LT K V) : Out (LT K V) ((Nat × Nat) × Bool) :=
  match find L E s.t k with
  | .ub => .ub
  | .diverge => .diverge
  | .ok (some gp) => .ok s (gp, false)
  | .ok none =>
    (if s.t.size ≥ s.t.thr then rehashThrowE L E S fail false a (s.t.ctrlCap L * 2 % W) s else .ok s ()).bind fun s1 _ =>
      (onT (findEmpty L E true k) s1).bind fun s2 gp => .ok s2 (gp, true)

/-- `emplace_impl`, `try_emplace_impl` (T15:2513-2684, 2723-2761, T16:2337-2507, 2550-2586), see `emplaceE`; the construction of the new
element itself does not throw. -/
def emplaceThrowE (update : Bool) (a : Bool × Bool) (k : K) (v : V) (s : LT K V) : Out (LT K V) (Nat × Bool) :=
  (findOrInsertThrowE L E S fail a k s).bind fun s1 r =>
    let i := r.1.1 * L.S + r.1.2
    if r.2 then
      (onT (constructAt L true i (k, v)) s1).bind fun s2 _ => .ok (emit s2 [.ctor s2.blk i]) (i, true)
    else if update then
      match s1.t.slot i with
      | none => .ub
      | some e => .ok { s1 with t := { s1.t with slot := upd s1.t.slot i (some (e.1, v)) } } (i, false)
    else .ok s1 (i, false)

/-- `rehash(n)` (T15:750-758, T16:696-704), see `rehashE`. -/
def rehashCallThrowE (a : Bool × Bool) (n : Nat) (s : LT K V) : Out (LT K V) Unit :=
  let c := max (fitCapacity s.t.mlf s.t.size) n
  if c ≠ 0 then rehashThrowE L E S fail L.rehashShrinks a c s else .ok (destroyE L S s) ()

/-- `reserve(n)` (T15:732-739, T16:668-675), see `reserveE`. -/
def reserveThrowE (a : Bool × Bool) (n : Nat) (s : LT K V) : Out (LT K V) Unit :=
  if n ≠ 0 then rehashThrowE L E S fail false a (fitCapacity s.t.mlf n) s else .ok (destroyE L S s) ()

/-- `shrink_to_fit(read_only)` (T15:761-772, T16:707-718), see `shrinkE`. -/
def shrinkThrowE (a : Bool × Bool) (readOnly : Bool) (s : LT K V) : Out (LT K V) Unit :=
  let c := if readOnly then s.t.size else fitCapacity s.t.mlf s.t.size
  if c ≠ 0 then rehashThrowE L E S fail true a c s else .ok (destroyE L S s) ()

/-- `max_load_factor(f)` (T15:620-634, T16:579-593), see `setMlfE`. -/
def setMlfThrowE (a : Bool × Bool) (m : Nat) (s : LT K V) : Out (LT K V) Unit :=
  let s := { s with t := { s.t with mlf := m } }
  match calcCapacity s.t.size (fitCapacity m (s.t.ctrlCap L)) with
  | .ub => .ub
  | .diverge => .diverge
  | .ok cap => if cap > s.t.ctrlCap L then rehashCallThrowE L E S fail a cap s else .ok s ()

/-- One public call, see `execE` (T15:732-998, T16:668-946). -/
def execThrowE (walk : Table K V → Res (List (K × V))) (a : Bool × Bool) : Call K V → LT K V → Out (LT K V) (Ans K V)
  | .insert k v, s => (emplaceThrowE L E S fail false a k v s).bind fun s' r => onT (fun t => readElem t r) s'
  | .assign k v, s => (emplaceThrowE L E S fail true a k v s).bind fun s' r => onT (fun t => readElem t r) s'
  | .index k d, s => (emplaceThrowE L E S fail false a k d s).bind fun s' r => onT (fun t => readValue t r) s'
  | .reserve n, s =>
    if wrapRisk L (both L a) (fitCapacity s.t.mlf n) then .ub else (reserveThrowE L E S fail a n s).bind fun s' _ => .ok s' .unit
  | .rehash n, s => if wrapRisk L (both L a) n then .ub else (rehashCallThrowE L E S fail a n s).bind fun s' _ => .ok s' .unit
  | .shrink ro, s => (shrinkThrowE L E S fail a ro s).bind fun s' _ => .ok s' .unit
  | .maxLoad m, s => (setMlfThrowE L E S fail a m s).bind fun s' _ => .ok s' .unit
  | c, s => execE L E S walk a c s

end Model

/-! ### Nothing throws -/

section
variable {K V : Type} {L : Layout} {H : Laws L} {E : Env K} {S : Nat} {fail : Nat → Bool}

theorem transferThrowE_never (hf : ∀ n, fail n = false) (old : Table K V) (bo : Nat) : ∀ (ps : List (Nat × Nat)) (n : Nat) (s : LT K V),
    transferThrowE L E fail old bo n ps s = transferAllE L E old bo ps s := by
  intro ps
  induction ps with
  | nil => intro n s; rfl
  | cons gp ps ih =>
    intro n s
    obtain ⟨g, p⟩ := gp
    unfold transferThrowE transferAllE
    cases old.slot (g * L.S + p) with
    | none => rfl
    | some e =>
      simp only
      unfold uniqueInsertE
      cases onT (findEmpty L E false e.1) s with
      | ok s1 gp =>
        simp only [Out.bind_ok, hf, Bool.false_eq_true, if_false]
        cases onT (constructAt L true (gp.1 * L.S + gp.2) e) s1 with
        | ok s2 _ =>
          simp only [Out.bind_ok]
          rw [ih]
          simp only [emit, List.append_assoc, List.singleton_append]
        | _ => rfl
      | _ => rfl

theorem rehashThrowE_never (hf : ∀ n, fail n = false) (shrink : Bool) (a : Bool × Bool) (n : Nat) (s : LT K V) :
    rehashThrowE L E S fail shrink a n s = rehashImplE L E S shrink a n s := by
  unfold rehashThrowE rehashImplE
  simp only [transferThrowE_never hf]
  cases calcCapacity s.t.size n <;> rfl

theorem emplaceThrowE_never (hf : ∀ n, fail n = false) (update : Bool) (a : Bool × Bool) (k : K) (v : V) (s : LT K V) :
    emplaceThrowE L E S fail update a k v s = emplaceE L E S update a true k v s := by
  have h : findOrInsertThrowE L E S fail a k s = findOrInsertE L E S a k s := by
    unfold findOrInsertThrowE findOrInsertE
    simp only [rehashThrowE_never hf]
    cases find L E s.t k with
    | ok o => cases o <;> rfl
    | _ => rfl
  unfold emplaceThrowE emplaceE
  rw [h]
  rfl

theorem setMlfThrowE_never (hf : ∀ n, fail n = false) (a : Bool × Bool) (m : Nat) (s : LT K V) :
    setMlfThrowE L E S fail a m s = setMlfE L E S a m s := by
  unfold setMlfThrowE setMlfE rehashCallThrowE rehashE
  simp only [rehashThrowE_never hf]
  cases calcCapacity s.t.size (fitCapacity m (Table.ctrlCap L { s.t with mlf := m })) <;> rfl

/-- C134 (partial). If no construction throws the calls do what they do in C118.  Missing: those that throw, see below. -/
theorem C134_group_partial (hf : ∀ n, fail n = false) (walk : Table K V → Res (List (K × V))) (a : Bool × Bool) (c : Call K V) (s : LT K V) :
    execThrowE L E S fail walk a c s = execE L E S walk a c s := by
  cases c <;>
    simp only [execThrowE, execE, emplaceThrowE_never hf, rehashThrowE_never hf, rehashCallThrowE, rehashE, reserveE, shrinkE, setMlfThrowE_never hf,
      reserveThrowE, shrinkThrowE]

/-! ### A control byte without an element -/

/-- The table `t` has the elements `es`, and slot `i` is marked as if `e` were in it, but no element is there. -/
structure Ghost (H : Laws L) (E : Env K) (t : Table K V) (i : Nat) (e : K × V) (es : List (K × V)) : Prop where
  free : t.slot i = none
  full : InvA H E (withElem t i (t.size + 1) e)
  perm : (entries L (withElem t i (t.size + 1) e)).Perm (e :: es)

theorem Ghost.size {t : Table K V} {i : Nat} {e : K × V} {es : List (K × V)} (hg : Ghost H E t i e es) : t.size = es.length := by
  have h := hg.full.size
  rw [hg.perm.length_eq, List.length_cons] at h
  have : (withElem t i (t.size + 1) e).size = t.size + 1 := rfl
  omega

theorem Ghost.find {t : Table K V} {i : Nat} {e : K × V} {es : List (K × V)} (hg : Ghost H E t i e es) (k : K) :
    find L E t k = .ub ∨ (find L E t k = find L E (withElem t i (t.size + 1) e) k ∧
      ∀ g p, Verif.find L E (withElem t i (t.size + 1) e) k = .ok (some (g, p)) → g * L.S + p ≠ i) :=
  findLoop_ub (L := L) (E := E) t (s := t.size + 1) (e := e) hg.free k (L.tag (E.h k)) (t.gmask + 2) (Prober.mk0 (t.home E k))

/-- Looking for the missing element reads a slot in which nothing is. -/
theorem Ghost.lookup_self (hE : E.Lawful) {t : Table K V} {i : Nat} {e : K × V} {es : List (K × V)} (hg : Ghost H E t i e es) {k : K}
    (hk : E.eq k e.1 = true) : lookup L E t k = .ub := by
  have hat : (withElem t i (t.size + 1) e).slot i = some e := upd_self _ _ _
  have hf := hg.full.find_some hE hat hk
  have : Verif.find L E t k = .ub := by
    rcases hg.find k with h | ⟨_, h⟩
    · exact h
    · exact absurd (gp_eta i) (h _ _ hf)
  unfold lookup
  rw [this]; rfl

/-- Every other answer is right for `es`. -/
theorem Ghost.lookup (hE : E.Lawful) {t : Table K V} {i : Nat} {e : K × V} {es : List (K × V)} (hg : Ghost H E t i e es) (k : K) :
    lookup L E t k = .ub ∨ lookup L E t k = .ok (Spec.get E.eq es k) := by
  cases hk : E.eq k e.1 with
  | true => exact Or.inl (hg.lookup_self hE hk)
  | false =>
    have hpw : (e :: es).Pairwise (fun a b => E.eq a.1 b.1 = false) := by
      exact Spec.Distinct.perm hE hg.perm hg.full.pairwise
    rcases hg.find k with h | ⟨h1, h2⟩
    · left; unfold Verif.lookup; rw [h]; rfl
    · right
      unfold Verif.lookup
      rw [h1]
      by_cases hx : ∃ j a, (withElem t i (t.size + 1) e).slot j = some a ∧ E.eq k a.1 = true
      · obtain ⟨j, a, hj, ha⟩ := hx
        have hf := hg.full.find_some hE hj ha
        have hji := h2 _ _ hf
        rw [gp_eta] at hji
        rw [hf]
        simp only [Res.bind_ok]
        have hw : (withElem t i (t.size + 1) e).slot j = t.slot j := upd_other _ _ hji
        rw [gp_eta, ← hw, hj]
        have hm := hg.perm.mem_iff.mp (hg.full.mem_iff.mpr ⟨j, hj⟩)
        rcases List.mem_cons.mp hm with rfl | hm
        · rw [ha] at hk; cases hk
        · rw [(Spec.get_some_iff hE (List.pairwise_cons.mp hpw).2).mpr ⟨hm, ha⟩]
      · rw [hg.full.find_none (fun j a hj => by
          cases hq : E.eq k a.1 with
          | false => rfl
          | true => exact absurd ⟨j, a, hj, hq⟩ hx)]
        simp only [Res.bind_ok]
        rw [(Spec.get_none_iff).mpr]
        intro a ha
        obtain ⟨j, hj⟩ := hg.full.mem_iff.mp (hg.perm.mem_iff.mpr (List.mem_cons_of_mem _ ha))
        cases hq : E.eq k a.1 with
        | false => rfl
        | true => exact absurd ⟨j, a, hj, hq⟩ hx

/-- The destructor destroys the element that is not there. -/
theorem Ghost.destroy {s : LT K V} {i : Nat} {e : K × V} {es : List (K × V)} (hg : Ghost H E s.t i e es) {h : Heap}
    (hr : Heap.run s.log Heap.empty = some h) (hnd : h.live.Nodup) (hfree : (s.blk, i) ∉ h.live) :
    Heap.run (destroyE L S s).log Heap.empty = none := by
  have hal : s.t.alloc = true := hg.full.alloc
  have hm := (mem_usedIdx hg.full i).mpr (by
    have hat : (withElem s.t i (s.t.size + 1) e).slot i = some e := upd_self _ _ _
    rw [hat]; rfl)
  have hu : usedPos L (withElem s.t i (s.t.size + 1) e) = usedPos L s.t := rfl
  rw [hu] at hm
  simp only [destroyE]
  rw [run_append, run_append, hr]
  simp only [Option.bind_some, clearSlotsE, hal, if_true]
  have hmm : (usedPos L s.t).map (fun gp => Ev.dtor s.blk (gp.1 * L.S + gp.2))
      = ((usedPos L s.t).map fun gp => gp.1 * L.S + gp.2).map (Ev.dtor s.blk) := by rw [List.map_map]; rfl
  rw [hmm, run_dtors_none s.blk _ h hnd ⟨_, hm, hfree⟩]
  rfl

theorem Ghost.congr {t : Table K V} {i : Nat} {e : K × V} {es es' : List (K × V)} (hg : Ghost H E t i e es) (hp : es.Perm es') :
    Ghost H E t i e es' := ⟨hg.free, hg.full, hg.perm.trans (hp.cons e)⟩

/-! ### The loop -/

theorem transferThrow_spec (hE : E.Lawful) (old : Table K V) (bo n : Nat) : ∀ (ps : List (Nat × Nat)) (es : List (K × V)) (m : Nat)
    (s : LT K V) (h : Heap), ps.map (fun gp => old.slot (gp.1 * L.S + gp.2)) = es.map some →
    InvA H E s.t → Fresh H s.t → es.Pairwise (fun a b => E.eq a.1 b.1 = false) →
    (∀ e ∈ es, ∀ a ∈ entries L s.t, E.eq e.1 a.1 = false) → s.t.size + es.length ≤ s.t.slotCap L →
    Heap.run s.log Heap.empty = some h → (s.blk, n) ∈ h.blocks → s.t.slotCap L ≤ n → bo ≠ s.blk →
    (∀ b i, (b, i) ∈ h.live ↔ (b = s.blk ∧ (s.t.slot i).isSome = true) ∨
      (b = bo ∧ i ∈ ps.map (fun gp => gp.1 * L.S + gp.2))) → h.live.Nodup →
    (ps.map (fun gp => gp.1 * L.S + gp.2)).Nodup →
    ∀ j, j < ps.length → fail (m + j) = true → (∀ l < j, fail (m + l) = false) →
    ∃ s' h' i e, transferThrowE L E fail old bo m ps s = .throw s' ∧ s'.blk = s.blk ∧ Heap.run s'.log Heap.empty = some h' ∧
      h'.blocks = h.blocks ∧ h'.live.Nodup ∧ es[j]? = some e ∧ Ghost H E s'.t i e (es.take j ++ entries L s.t) ∧
      ∀ b i, (b, i) ∈ h'.live ↔ (b = s.blk ∧ (s'.t.slot i).isSome = true) ∨
        (b = bo ∧ i ∈ (ps.drop j).map (fun gp => gp.1 * L.S + gp.2)) := by
  intro ps
  induction ps with
  | nil => intro es m s h _ _ _ _ _ _ _ _ _ _ _ _ _ j hj; simp at hj
  | cons gp ps ih =>
    intro es m s h hm hI hF hpw hd hsz hr hb hn hbo hl hnd hps j hj hf hf'
    cases es with
    | nil => simp at hm
    | cons e es =>
      rw [List.map_cons, List.map_cons, List.cons.injEq] at hm
      rw [List.pairwise_cons] at hpw
      rw [List.length_cons] at hsz
      have hps0 := hps
      rw [List.map_cons, List.nodup_cons] at hps
      obtain ⟨t1, g, p, h1, hP⟩ := hI.findEmpty_ok false e.1 (by omega)
      obtain ⟨t2, h2, h3, hnone, hI2, hp2⟩ := hI.insert hE hP
        (fun i a ha => hd e (by simp) a (hI.mem_iff.mpr ⟨i, ha⟩)) e.2
      have hfe : onT (findEmpty L E false e.1) s = .ok { s with t := t1 } (g, p) := by
        unfold onT; rw [h1]
      cases j with
      | zero =>
        refine ⟨{ s with t := t1 }, h, g * L.S + p, e, ?_, rfl, hr, rfl, hnd, rfl, ?_, ?_⟩
        · unfold transferThrowE
          simp only [hm.1]
          rw [hfe]
          simp only [Out.bind_ok]
          rw [if_pos (show fail m = true from hf)]
        · have hw : withElem t1 (g * L.S + p) (t1.size + 1) e = t2 := by
            rw [h3, withElem, hP.slot, hP.size]
          refine ⟨by rw [hP.slot]; exact hnone, by rw [hw]; exact hI2, ?_⟩
          rw [hw]
          exact hp2
        · intro b i
          rw [hl]
          simp only [hP.slot, List.drop_zero]
      | succ j =>
        have hf0 : fail m = false := hf' 0 (by omega)
        have hF2 : Fresh H t2 := by
          have := hF.placed hP
          rw [h3]; exact this
        have hgm : t2.gmask = s.t.gmask := by rw [h3]; exact hP.gmask
        have hslot : t2.slot = upd s.t.slot (g * L.S + p) (some e) := by rw [h3]
        have hsize : t2.size = s.t.size + 1 := by rw [h3]
        have hcap : t2.slotCap L = s.t.slotCap L := by unfold Table.slotCap; rw [hgm]
        have hi : g * L.S + p < s.t.slotCap L := by
          have hq : t1.slotCap L = s.t.slotCap L := by unfold Table.slotCap; rw [hP.gmask]
          unfold constructAt at h2
          split at h2
          · rename_i hc
            rw [Bool.and_eq_true, decide_eq_true_eq, hq] at hc
            exact hc.2
          · cases h2
        have hct : onT (constructAt L true (g * L.S + p) e) { s with t := t1 } = .ok { s with t := t2 } () := by
          unfold onT; simp only; rw [h2]
        have hfree : (s.blk, g * L.S + p) ∉ h.live := by
          rw [hl]
          rintro (⟨_, hq⟩ | ⟨hq, _⟩)
          · rw [hnone] at hq; cases hq
          · exact hbo hq.symm
        have hold : (bo, gp.1 * L.S + gp.2) ∈ (s.blk, g * L.S + p) :: h.live := by
          refine List.mem_cons_of_mem _ ?_
          rw [hl]; right; exact ⟨rfl, by simp⟩
        have hnd2 : ((s.blk, g * L.S + p) :: h.live).Nodup := List.nodup_cons.mpr ⟨hfree, hnd⟩
        have hrun : Heap.run (s.log ++ [.ctor s.blk (g * L.S + p), .dtor bo (gp.1 * L.S + gp.2)]) Heap.empty
            = some { h with live := ((s.blk, g * L.S + p) :: h.live).erase (bo, gp.1 * L.S + gp.2) } := by
          rw [run_append, hr]
          simp only [Option.bind_some, Heap.run, step_ctor hb (Nat.lt_of_lt_of_le hi hn) hfree]
          have : ((s.blk, g * L.S + p) :: h.live).contains (bo, gp.1 * L.S + gp.2) = true := by
            rw [List.contains_iff_mem]; exact hold
          simp only [Heap.step, this, if_true]
          rfl
        obtain ⟨s', h', i, e', r1, r2, r3, r4, r5, r6, r7, r8⟩ := ih es (m + 1)
          { s with t := t2, log := s.log ++ [.ctor s.blk (g * L.S + p), .dtor bo (gp.1 * L.S + gp.2)] } _
          hm.2 hI2 hF2 hpw.2
          (by
            intro a ha b hb
            rcases List.mem_cons.mp (hp2.mem_iff.mp hb) with rfl | hb
            · have := hpw.1 a ha
              cases hq : E.eq a.1 e.1 with
              | false => rfl
              | true => rw [hE.symm _ _ hq] at this; cases this
            · exact hd a (by simp [ha]) b hb)
          (by simp only; rw [hcap, hsize]; omega) hrun hb (by simp only; rw [hcap]; exact hn) hbo
          (by
            intro b i
            simp only
            rw [List.Nodup.mem_erase_iff hnd2, List.mem_cons, hl, hslot]
            simp only [List.map_cons, List.mem_cons, ne_eq, Prod.mk.injEq]
            by_cases hig : i = g * L.S + p
            · subst hig
              rw [upd_self, hnone]
              simp only [Option.isSome_none, Option.isSome_some]
              by_cases hbb : b = s.blk
              · subst hbb
                have : ¬ s.blk = bo := fun h => hbo h.symm
                simp [this]
              · by_cases hbo' : b = bo
                · subst hbo'
                  by_cases hpp : g * L.S + p = gp.1 * L.S + gp.2
                  · rw [hpp]
                    simp [hbb, hps.1]
                  · simp [hbb, hpp]
                · simp [hbb, hbo']
            · rw [upd_other _ _ hig]
              by_cases hbb : b = s.blk
              · subst hbb
                have : ¬ s.blk = bo := fun h => hbo h.symm
                simp [this, hig]
              · by_cases hbo' : b = bo
                · subst hbo'
                  by_cases hpp : i = gp.1 * L.S + gp.2
                  · rw [hpp]
                    simp [hbb, hps.1]
                  · simp [hbb, hpp]
                · simp [hbb, hbo'])
          (hnd2.erase _) hps.2 j (by simpa using hj) (by rw [← hf]; congr 1; omega)
          (fun l hl => by have := hf' (l + 1) (by omega); rw [← this]; congr 1; omega)
        refine ⟨s', h', i, e', ?_, r2, r3, r4, r5, by simpa using r6, ?_, by simpa using r8⟩
        · unfold transferThrowE
          simp only [hm.1]
          rw [hfe]
          simp only [Out.bind_ok, hf0, Bool.false_eq_true, if_false]
          rw [hct]
          simp only [Out.bind_ok, emit]
          exact r1
        · refine r7.congr ?_
          rw [List.take_succ_cons, List.cons_append]
          exact (hp2.append_left _).trans List.perm_middle

/-- What a map `s1` is after the construction of its `j`-th element in the new storage has thrown; `s` is the map before the call. -/
structure Lost (L : Layout) (E : Env K) (S : Nat) (s s1 : LT K V) (j : Nat) : Prop where
  /-- it has forgotten all elements but the first `j` -/
  size : s1.t.size = j
  gone : ∀ e ∈ (entries L s.t).drop j, ∀ x, lookup L E s1.t e.1 ≠ .ok (some x)
  /-- the old block is not its block any more, but it has not been given back, and the forgotten elements are alive in it -/
  blk : s1.blk ≠ s.blk
  log : ∃ h, Heap.run s1.log Heap.empty = some h ∧ (∃ n, (s.blk, n) ∈ h.blocks) ∧
    (h.live.filter fun o => o.1 == s.blk).length = s.t.size - j
  /-- looking for the element whose constructor threw reads a slot without an object -/
  self : ∀ e, (entries L s.t)[j]? = some e → lookup L E s1.t e.1 = .ub
  /-- so may other calls; those that do not are right for the first `j` elements -/
  lookup : ∀ k, lookup L E s1.t k = .ub ∨ lookup L E s1.t k = .ok (Spec.get E.eq ((entries L s.t).take j) k)
  /-- the destructor destroys an object that does not exist -/
  destroy : Heap.run (destroyE L S s1).log Heap.empty = none

theorem usedPos_length {t : Table K V} (hI : InvA H E t) : (usedPos L t).length = t.size := by
  have := congrArg List.length hI.usedPos_map
  rw [List.length_map, List.length_map] at this
  rw [this, hI.size]

theorem rehashThrow_lost (hE : E.Lawful) (hL : Std L) (hs : 1 ≤ S) (hS : S ≤ 256) {a : Bool × Bool} (ha : Steady L a) {s s2 : LT K V}
    (hI : Inv H E s.t) {h : Heap} (hl : Led L S s h) {shrink : Bool} {n : Nat} (hx : rehashImplE L E S shrink a n s = .ok s2 ()) (hb : s2.blk ≠ s.blk)
    {j : Nat} (hj : j < s.t.size) (hf : fail j = true) (hf' : ∀ l < j, fail l = false) :
    ∃ s1, rehashThrowE L E S fail shrink a n s = .throw s1 ∧ Lost L E S s s1 j := by
  have hst : InvA H E s.t := by
    rcases hI.st with hst | hst
    · rw [hst] at hj; exact absurd hj (Nat.not_lt_zero _)
    · exact hst
  have hal := hst.alloc
  unfold rehashImplE at hx
  unfold rehashThrowE
  cases hc : calcCapacity s.t.size n with
  | ub => rw [hc] at hx; cases hx
  | diverge => rw [hc] at hx; cases hx
  | ok cap =>
    rw [hc] at hx
    obtain ⟨k, rfl, hk5, _, _, _⟩ := calcCapacity_ok hc
    simp only at hx ⊢
    split at hx
    · rename_i hcond
      rw [if_pos hcond]
      rcases createE_cases ha hk5 s with ⟨h55, _, h1⟩ | h1
      · rw [h1] at hx ⊢
        simp only [Out.bind_ok, hal, if_true] at hx ⊢
        have hrun1 : Heap.run (s.log ++ newBlocks L S s.next (2 ^ k)) Heap.empty
            = some { h with blocks := owned L S (freshTable L k s.t.mlf : Table K V) s.next ++ h.blocks } := by
          rw [run_append, hl.run]
          exact run_newBlocks hL hk5 h55 hl.blk_lt
        obtain ⟨hI1, hF1⟩ := freshTable_inv (H := H) (E := E) (V := V) (mlf := s.t.mlf) hk5 h55
        have hsc : (freshTable L k s.t.mlf : Table K V).slotCap L = L.slotCap (2 ^ (k - 4)) := by
          unfold Table.slotCap freshTable; simp only [pow_sub_add]
        have hblk := hl.fresh hal
        have hfit : s.t.size ≤ L.slotCap (2 ^ (k - 4)) := by
          by_contra hfit
          have hd := transferAll_diverge hE s.t (usedPos L s.t) (entries L s.t) _
            hst.usedPos_map hI1 hF1 hst.pairwise
            (by intro e _ x hx; rw [freshTable_entries] at hx; simp at hx)
            (by rw [hsc, ← hst.size]; show _ < 0 + s.t.size; omega)
          have hp := proj_transferAllE (L := L) (E := E) s.t s.blk (usedPos L s.t)
            { t := freshTable L k s.t.mlf, blk := s.next, next := s.next + 2, log := s.log ++ newBlocks L S s.next (2 ^ k) }
          simp only at hp
          rw [hd] at hp
          revert hp hx
          cases transferAllE L E s.t s.blk (usedPos L s.t)
            { t := freshTable L k s.t.mlf, blk := s.next, next := s.next + 2, log := s.log ++ newBlocks L S s.next (2 ^ k) } with
          | diverge => intro hx; cases hx
          | _ => intro _ hp; cases hp
        obtain ⟨s', h', i, e, r1, r2, r3, r4, r5, r6, r7, r8⟩ := transferThrow_spec (H := H) (fail := fail) hE s.t s.blk _ (usedPos L s.t) (entries L s.t) 0
          { t := freshTable L k s.t.mlf, blk := s.next, next := s.next + 2, log := s.log ++ newBlocks L S s.next (2 ^ k) } _
          hst.usedPos_map hI1 hF1 hst.pairwise
          (by intro e _ x hx; rw [freshTable_entries] at hx; simp at hx)
          (by simp only; rw [hsc, ← hst.size]; show 0 + s.t.size ≤ _; omega)
          hrun1 (List.mem_append_left _ (owned_mem _ _))
          (std_cap hL hs hS (InvA.gmask_le hI1)) (by simp only; omega)
          (by
            intro b i
            simp only
            rw [hl.live, mem_usedIdx hst]
            simp [freshTable, hal])
          hl.nodup (nodup_usedIdx hst) j (by rw [usedPos_length hst]; exact hj) (by rw [Nat.zero_add]; exact hf)
          (fun l hl => by rw [Nat.zero_add]; exact hf' l hl)
        rw [freshTable_entries, List.append_nil] at r7
        refine ⟨s', by rw [r1]; rfl, ?_⟩
        have hlen : ((entries L s.t).take j).length = j := by
          rw [List.length_take, ← hst.size]; omega
        have hlook := fun k => r7.lookup hE k
        have hne : s.next ≠ s.blk := by omega
        refine ⟨by rw [r7.size, hlen], ?_, ?_, ?_, ?_, hlook, ?_⟩
        · intro x hx y hy
          have hxs : Spec.get E.eq ((entries L s.t).take j) x.1 = none := by
            rw [Spec.get_none_iff]
            intro z hz
            have hpw := hst.pairwise
            rw [← List.take_append_drop j (entries L s.t), List.pairwise_append] at hpw
            have := hpw.2.2 z hz x hx
            cases hq : E.eq x.1 z.1 with
            | false => rfl
            | true => rw [hE.symm _ _ hq] at this; cases this
          rcases hlook x.1 with h1 | h1
          · rw [h1] at hy; cases hy
          · rw [h1, hxs] at hy; cases hy
        · rw [r2]; exact hne
        · refine ⟨h', r3, ⟨if L.oneBlock then Alloc.destroyCount S s.t else (Alloc.destroyCount16 s.t).2, ?_⟩, ?_⟩
          · rw [r4]
            refine List.mem_append_right _ ?_
            rw [hl.blocks, if_pos hal]
            exact owned_mem _ _
          · have hp : (h'.live.filter fun o => o.1 == s.blk).Perm
                ((((usedPos L s.t).drop j).map fun gp => gp.1 * L.S + gp.2).map fun i => (s.blk, i)) := by
              rw [List.perm_ext_iff_of_nodup]
              · rintro ⟨b, i⟩
                rw [List.mem_filter, r8]
                simp only [List.mem_map, beq_iff_eq]
                constructor
                · rintro ⟨⟨h1, _⟩ | ⟨h1, h2⟩, h3⟩
                  · exact absurd (h1.symm.trans h3) hne
                  · exact ⟨i, h2, by rw [h3]⟩
                · rintro ⟨i', h2, h3⟩
                  cases h3
                  exact ⟨Or.inr ⟨rfl, h2⟩, rfl⟩
              · exact r5.filter _
              · apply List.Nodup.map (fun x y h => by cases h; rfl)
                have := nodup_usedIdx hst
                rw [List.map_drop]
                exact this.sublist (List.drop_sublist _ _)
            rw [hp.length_eq, List.length_map, List.length_map, List.length_drop, usedPos_length hst]
        · intro x hx
          rw [r6] at hx
          cases hx
          exact r7.lookup_self hE (hE.refl _)
        · apply r7.destroy r3 r5
          rw [r8, r2]
          rintro (⟨_, hq⟩ | ⟨hq, _⟩)
          · rw [r7.free] at hq; cases hq
          · exact hne hq
      · rw [h1] at hx; cases hx
    · cases hx; exact absurd rfl hb

theorem onT_blk {α : Type} {f : Table K V → Out (Table K V) α} {s s' : LT K V} {x : α} (h : onT f s = .ok s' x) : s'.blk = s.blk := by
  unfold onT at h
  split at h <;> cases h
  rfl

theorem emplaceThrow_lost (hE : E.Lawful) (hL : Std L) (hs : 1 ≤ S) (hS : S ≤ 256) {a : Bool × Bool} (ha : Steady L a) {s s2 : LT K V}
    (hI : Inv H E s.t) {h : Heap} (hl : Led L S s h) {update : Bool} {k : K} {v : V} {r : Nat × Bool} (hx : emplaceE L E S update a true k v s = .ok s2 r)
    (hb : s2.blk ≠ s.blk) {j : Nat} (hj : j < s.t.size) (hf : fail j = true) (hf' : ∀ l < j, fail l = false) :
    ∃ s1, emplaceThrowE L E S fail update a k v s = .throw s1 ∧ Lost L E S s s1 j := by
  unfold emplaceE findOrInsertE at hx
  unfold emplaceThrowE findOrInsertThrowE
  cases hq : find L E s.t k with
  | ub => rw [hq] at hx; cases hx
  | diverge => rw [hq] at hx; cases hx
  | ok o =>
    rw [hq] at hx
    cases o with
    | some gp =>
      exfalso
      simp only [Out.bind_ok, Bool.false_eq_true, if_false] at hx
      split at hx
      · split at hx
        · cases hx
        · cases hx; exact hb rfl
      · cases hx; exact hb rfl
    | none =>
      simp only at hx ⊢
      have key : ∀ s0 : LT K V, (((onT (findEmpty L E true k) s0).bind fun s2 gp => Out.ok s2 (gp, true)).bind fun s1 r =>
          if r.2 = true then (onT (constructAt L true (r.1.1 * L.S + r.1.2) (k, v)) s1).bind fun s2 _ =>
            Out.ok (emit s2 [.ctor s2.blk (r.1.1 * L.S + r.1.2)]) (r.1.1 * L.S + r.1.2, true)
          else if update = true then
            match s1.t.slot (r.1.1 * L.S + r.1.2) with
            | none => .ub
            | some e => .ok { s1 with t := { s1.t with slot := upd s1.t.slot (r.1.1 * L.S + r.1.2) (some (e.1, v)) } } (r.1.1 * L.S + r.1.2, false)
          else .ok s1 (r.1.1 * L.S + r.1.2, false)) = .ok s2 r → s2.blk = s0.blk := by
        intro s0 h0
        cases h1 : onT (findEmpty L E true k) s0 with
        | ok s1 gp =>
          rw [h1] at h0
          simp only [Out.bind_ok, if_true] at h0
          cases h2 : onT (constructAt L true (gp.1 * L.S + gp.2) (k, v)) s1 with
          | ok s3 u =>
            rw [h2] at h0
            cases h0
            exact (onT_blk h2).trans (onT_blk h1)
          | _ => rw [h2] at h0; cases h0
        | _ => rw [h1] at h0; cases h0
      by_cases hz : s.t.size ≥ s.t.thr
      · rw [if_pos hz] at hx ⊢
        cases hr : rehashImplE L E S false a (s.t.ctrlCap L * 2 % W) s with
        | ok s0 u =>
          rw [hr] at hx
          simp only [Out.bind_ok] at hx
          have := key s0 hx
          obtain ⟨s1, q1, q2⟩ := rehashThrow_lost hE hL hs hS ha hI hl hr (by rw [← this]; exact hb) hj hf hf'
          exact ⟨s1, by rw [q1]; rfl, q2⟩
        | _ => rw [hr] at hx; cases hx
      · rw [if_neg hz] at hx
        exact absurd (key s hx) hb

theorem destroyE_blk (s : LT K V) : (destroyE L S s).blk = s.blk := rfl

theorem rehashCallThrow_lost (hE : E.Lawful) (hL : Std L) (hs : 1 ≤ S) (hS : S ≤ 256) {a : Bool × Bool} (ha : Steady L a) {s s2 : LT K V}
    (hI : Inv H E s.t) {h : Heap} (hl : Led L S s h) {n : Nat} (hx : rehashE L E S a n s = .ok s2 ())
    (hb : s2.blk ≠ s.blk) {j : Nat} (hj : j < s.t.size) (hf : fail j = true) (hf' : ∀ l < j, fail l = false) :
    ∃ s1, rehashCallThrowE L E S fail a n s = .throw s1 ∧ Lost L E S s s1 j := by
  unfold rehashE at hx
  unfold rehashCallThrowE
  simp only at hx ⊢
  split at hx
  · rename_i hc
    rw [if_pos hc]
    exact rehashThrow_lost hE hL hs hS ha hI hl hx hb hj hf hf'
  · cases hx; exact absurd rfl hb

theorem bind_unit {s2 : LT K V} {r : Out (LT K V) Unit} {x : Ans K V} (h : (r.bind fun s' _ => Out.ok s' .unit) = .ok s2 x) : r = .ok s2 () := by
  cases r with
  | ok s u => cases h; rfl
  | _ => cases h

/-- One call. -/
theorem execThrow_lost (hE : E.Lawful) (hL : Std L) (hs : 1 ≤ S) (hS : S ≤ 256) {walk : Table K V → Res (List (K × V))} {a : Bool × Bool}
    (ha : Steady L a) {s s2 : LT K V} (hG : Good H E S s) {c : Call K V} (hv : Valid c) {x : Ans K V} (hx : execE L E S walk a c s = .ok s2 x)
    (hb : s2.blk ≠ s.blk) {j : Nat} (hj : j < s.t.size) (hf : fail j = true) (hf' : ∀ l < j, fail l = false) :
    ∃ s1, execThrowE L E S fail walk a c s = .throw s1 ∧ Lost L E S s s1 j := by
  obtain ⟨hI, h, hl⟩ := hG
  have emp : ∀ (update : Bool) (k : K) (v : V) (f : Nat × Bool → Table K V → Out (Table K V) (Ans K V)),
      ((emplaceE L E S update a true k v s).bind fun s' r => onT (f r) s') = .ok s2 x →
      ∃ s1, ((emplaceThrowE L E S fail update a k v s).bind fun s' r => onT (f r) s') = .throw s1 ∧ Lost L E S s s1 j := by
    intro update k v f h0
    cases hr : emplaceE L E S update a true k v s with
    | ok s0 r =>
      rw [hr] at h0
      simp only [Out.bind_ok] at h0
      obtain ⟨s1, q1, q2⟩ := emplaceThrow_lost (fail := fail) hE hL hs hS ha hI hl hr (by rw [← onT_blk h0]; exact hb) hj hf hf'
      exact ⟨s1, by rw [q1]; rfl, q2⟩
    | _ => rw [hr] at h0; cases h0
  have fin : ∀ {r : Out (LT K V) Unit}, (∃ s1, r = .throw s1 ∧ Lost L E S s s1 j) →
      ∃ s1, (r.bind fun s' _ => Out.ok s' (.unit : Ans K V)) = .throw s1 ∧ Lost L E S s s1 j := by
    rintro r ⟨s1, h1, h2⟩
    exact ⟨s1, by rw [h1]; rfl, h2⟩
  cases c with
  | insert k v => exact emp false k v (fun r t => readElem t r) hx
  | assign k v => exact emp true k v (fun r t => readElem t r) hx
  | index k v => exact emp false k v (fun r t => readValue t r) hx
  | reserve n =>
    simp only [execE] at hx
    simp only [execThrowE]
    split at hx
    · cases hx
    · rename_i hw
      rw [if_neg hw]
      apply fin
      have h0 := bind_unit hx
      unfold reserveE at h0
      unfold reserveThrowE
      split at h0
      · rename_i hc
        rw [if_pos hc]
        exact rehashThrow_lost hE hL hs hS ha hI hl h0 hb hj hf hf'
      · cases h0; exact absurd rfl hb
  | rehash n =>
    simp only [execE] at hx
    simp only [execThrowE]
    split at hx
    · cases hx
    · rename_i hw
      rw [if_neg hw]
      exact fin (rehashCallThrow_lost hE hL hs hS ha hI hl (bind_unit hx) hb hj hf hf')
  | shrink ro =>
    simp only [execE] at hx
    simp only [execThrowE]
    apply fin
    have h0 := bind_unit hx
    unfold shrinkE at h0
    unfold shrinkThrowE
    simp only at h0 ⊢
    generalize (if ro = true then s.t.size else fitCapacity s.t.mlf s.t.size) = cc at h0 ⊢
    split at h0
    · rename_i hc
      rw [if_pos hc]
      exact rehashThrow_lost hE hL hs hS ha hI hl h0 hb hj hf hf'
    · cases h0; exact absurd rfl hb
  | maxLoad m =>
    simp only [execE] at hx
    simp only [execThrowE]
    apply fin
    have h0 := bind_unit hx
    unfold setMlfE at h0
    unfold setMlfThrowE
    simp only at h0 ⊢
    cases hc : calcCapacity s.t.size (fitCapacity m (Table.ctrlCap L { s.t with mlf := m })) with
    | ub => rw [hc] at h0; cases h0
    | diverge => rw [hc] at h0; cases h0
    | ok cap =>
      rw [hc] at h0
      simp only at h0 ⊢
      split at h0
      · rename_i hc
        rw [if_pos hc]
        have hl' : Led L S { s with t := { s.t with mlf := m } } h := hl.congr rfl rfl (fun _ => rfl)
        obtain ⟨s1, q1, q2⟩ := rehashCallThrow_lost (fail := fail) hE hL hs hS ha (s := { s with t := { s.t with mlf := m } })
          (hI.set_mlf hv.1 hv.2) hl' h0 hb hj hf hf'
        exact ⟨s1, q1, q2.size, q2.gone, q2.blk, q2.log, q2.self, q2.lookup, q2.destroy⟩
      · cases h0; exact absurd rfl hb
  | erase k =>
    exfalso
    simp only [execE] at hx
    unfold eraseKeyE at hx
    split at hx
    · cases hx
    · cases hx
    · cases hx; exact hb rfl
    · rename_i g p _
      cases h1 : onT (eraseAt L g p) s with
      | ok s0 u =>
        rw [h1] at hx
        cases hx
        exact hb (show s0.blk = s.blk from onT_blk h1)
      | _ => rw [h1] at hx; cases hx
  | clear d =>
    exfalso
    simp only [execE] at hx
    have h0 := bind_unit hx
    unfold clearE at h0
    split at h0
    · cases h0; exact hb rfl
    · unfold clearDataE at h0
      split at h0
      · cases h0; exact hb rfl
      · split at h0
        · cases h0
        · cases h0; exact hb rfl
  | _ =>
    exfalso
    simp only [execE] at hx
    exact hb (onT_blk hx)

/-- C134, the violation, for every map: whenever a call would move the elements to a new block, and the constructor that moves the `j`-th of
them throws, the call throws and leaves a map that has lost all later elements, together with the old block in which they are still alive; the
element itself is marked but not there, so that looking for it and destroying the map are undefined. -/
theorem C134_group_throws (hE : E.Lawful) (hL : Std L) (hs : 1 ≤ S) (hS : S ≤ 256) {walk : Table K V → Res (List (K × V))}
    (hwalk : ∀ t, Inv H E t → walk t = .ok (entries L t)) {a : Bool × Bool} (ha : Steady L a) {n : Nat} {s0 s : LT K V}
    (h0 : constructE L S a n = .ok s0 ()) {ops : List ((Bool × Bool) × Call K V)} (hv : ∀ o ∈ ops, Steady L o.1 ∧ Valid o.2)
    {as : List (Ans K V)} (hr : runE L E S walk ops s0 = .ok (as, s)) {b : Bool × Bool} (hbs : Steady L b) {c : Call K V} (hc : Valid c)
    {x : Ans K V} {s2 : LT K V} (hx : execE L E S walk b c s = .ok s2 x) (hne : s2.blk ≠ s.blk)
    {j : Nat} (hj : j < s.t.size) (hf : fail j = true) (hf' : ∀ l < j, fail l = false) :
    ∃ s1, execThrowE L E S fail walk b c s = .throw s1 ∧ Lost L E S s s1 j := by
  have hG0 := (constructE_good (H := H) (E := E) hL ha n).1 s0 h0
  obtain ⟨hG, _⟩ := runE_good hE hL hs hS hwalk ops s0 hG0 hv hr
  exact execThrow_lost hE hL hs hS hbs hG hc hx hne hj hf hf'

end

/-! ### Examples -/

/-- The calls after which the examples grow: five elements. -/
def fiveOps : List ((Bool × Bool) × Call Nat Nat) := (List.range 5).map fun i => ((true, true), .insert i (10 * i))

theorem fiveOps_ok (L : Layout) : ∀ o ∈ fiveOps, Steady L o.1 ∧ Valid o.2 := by
  intro o ho
  obtain ⟨i, _, rfl⟩ := List.mem_map.mp ho
  exact ⟨fun _ _ => rfl, trivial⟩

/-- Whether `reserve(100)` obtains a new block, and whether element 2 cannot be found after the move of element 1 has thrown. -/
def growsAndLoses (L : Layout) (walk : Table Nat Nat → Res (List (Nat × Nat))) (s : LT Nat Nat) : Bool :=
  (match execE L idEnv 16 walk (true, true) (.reserve 100) s with | .ok s2 _ => decide (s2.blk ≠ s.blk) | _ => false) && decide (1 < s.t.size) &&
    (match execThrowE L idEnv 16 (fun n => n == 1) walk (true, true) (.reserve 100) s with
    | .throw s1 => decide (s1.t.size = 1) && (match lookup L idEnv s1.t 2 with | .ok none => true | _ => false)
    | _ => false)

set_option maxRecDepth 100000 in
/-- The hypotheses of `C134_group_throws` for group15. -/
example : ∃ s0 s as, constructE layout15 16 (true, true) 1 = .ok s0 () ∧ runE layout15 idEnv 16 walk15 fiveOps s0 = .ok (as, s) ∧
    growsAndLoses layout15 walk15 s = true :=
  exists_history _ _ _ _ (by decide +kernel)

set_option maxRecDepth 100000 in
/-- The hypotheses of `C134_group_throws` for group16. -/
example : ∃ s0 s as, constructE layout16 16 (true, true) 1 = .ok s0 () ∧ runE layout16 idEnv 16 (walk16 false) fiveOps s0 = .ok (as, s) ∧
    growsAndLoses layout16 (walk16 false) s = true :=
  exists_history _ _ _ _ (by decide +kernel)

end Verif.Life
