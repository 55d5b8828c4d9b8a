/-
Element constructors that throw while a robin map moves its elements to a new storage (C134, continued), direct layout.

RH = `src/jstd/hashmap/robin_hash_map.h`.

`fail n` says whether the construction of the `n`-th element in the new storage (RH:6272) throws.  The exchanges of elements that are
already in the new storage (`insert_to_place`, RH:5706-5779) and the construction of the element that an insertion adds (C121) are kept
without exceptions.
-/
import Verif.RobinThrow

namespace Verif.Robin.Track
open Verif
open Verif.Spec (Call Ans Distinct)
open Verif.Life (Ev Heap)

/-! ### The model -/

section Model
variable {K V : Type} (m : Mode) (E : Env K) (fail : Nat → Bool)

/-- The loop of `rehash_impl` (RH:4560-4572, 4577-4587), see `transferAllE`.  When the construction in `insert_no_grow` throws
(RH:6272) the control word is already written and room has been made (RH:6145-6172, 6270), and nothing catches the exception. -/
def transferThrowE (old : Map K V) (bo : Nat) : Nat → List Nat → LT K V → Out (LT K V) Unit
  | _, [], s => .ok s ()
  | n, i :: is, s =>
    match old.slot i with
    | none => .ub
    | some e =>
      if fail n then
        liftE (seek false true E s.t e.1) fun (j, d) =>
          liftE (placeE m true j { d with hash := 0 } s) fun (s', done) => if done && decide (j < s'.t.slen) then .throw s' else .ub
      else liftE (insertNoGrowE m E e s) fun s' => transferThrowE old bo (n + 1) is (emit [.dtor bo i] false s')

/-- `rehash_impl` (RH:4402-4653), see `rehashImplE`. -/
def rehashThrowE (allowShrink always : Bool) (a : Bool × Bool) (n : Nat) (s : LT K V) : Out (LT K V) Unit :=
  match calcCapacity n with
  | .ub => .ub
  | .diverge => .diverge
  | .ok cap =>
    if always || (!allowShrink && decide (slotCap s.t < cap)) || (allowShrink && cap != slotCap s.t) then
      (createE a cap s).bind fun s1 _ =>
        (transferThrowE m E fail s.t s.blk 0 (usedIdx false s.t) s1).bind fun s2 _ => .ok (emit (freeOld s.t s.blk) false s2) ()
    else .ok s ()

/-- `grow_if_necessary()` (RH:4270-4273), see `growE`. -/
def growThrowE (a : Bool × Bool) (s : LT K V) : Out (LT K V) Unit := rehashThrowE m E fail false true a ((s.t.mask + 1) * 2) s

/-- `direct_find_and_insert(key)` (RH:5468-5616), see `findOrInsertE`. -/
def findOrInsertThrowE (a : Bool × Bool) (k : K) (s : LT K V) : Out (LT K V) Found :=
  liftE (probe false true E s.t k) fun
    | .hit i => .ok s (.exists_ i)
    | .stop i d =>
      if decide (s.t.thr ≤ s.t.size) || decide (maxDist s.t ≤ d.uval false) then
        (growThrowE m E fail a s).bind fun s1 _ =>
          liftE (seek false true E s1.t k) fun (i1, d1) => finishE m s1 i1 d1
      else finishE m s i d

/-- `emplace_impl`, `try_emplace_impl` (RH:5870-5968, 6101-6141), see `emplaceLoopE`; the construction of the new element itself does
not throw. -/
def emplaceThrowE (update : Bool) (a : Bool × Bool) (k : K) (v : V) : Nat → LT K V → Out (LT K V) (Nat × Bool)
  | 0, _ => .diverge
  | f + 1, s =>
    (findOrInsertThrowE m E fail a k s).bind fun s' r =>
      match r with
      | .notExists i => liftE (constructE i (k, v) s') fun s'' => .ok s'' (i, true)
      | .exists_ i =>
        match s'.t.slot i with
        | none => .ub
        | some e => .ok (if update then { s' with t := { s'.t with slot := upd s'.t.slot i (some (e.1, v)) } } else s') (i, false)
      | .needGrow => (growThrowE m E fail a s').bind fun s'' _ => emplaceThrowE update a k v f s''

/-- `rehash(n, read_only)`, `reserve` (RH:3517-3531), see `rehashE`. -/
def rehashCallThrowE (a : Bool × Bool) (readOnly : Bool) (n : Nat) (s : LT K V) : Out (LT K V) Unit :=
  rehashThrowE m E fail true false a (if readOnly then max n s.t.size else max (minRequire s.t n) s.t.size) s

/-- `shrink_to_fit(read_only)` (RH:3533-3540), see `shrinkE`. -/
def shrinkThrowE (a : Bool × Bool) (readOnly : Bool) (s : LT K V) : Out (LT K V) Unit :=
  rehashThrowE m E fail true false a (if readOnly then s.t.size else minRequire s.t s.t.size) s

/-- `max_load_factor(mlf)` (RH:3316-3335), see `setMlfE`. -/
def setMlfThrowE (a : Bool × Bool) (x r : Nat) (s : LT K V) : Out (LT K V) Unit :=
  let s1 := { s with t := { s.t with mlf := x, rev := r } }
  if s.t.size > s.t.thr && decide (minRequire s1.t s.t.size > slotCap s.t) then rehashCallThrowE m E fail a false s.t.size s1 else .ok s1 ()

/-- One call (RH:3316-3335, 3504-3540, 5870-5968), see `execE`. -/
def execThrowE (rv : Nat → Nat) (a : Bool × Bool) : Call K V → LT K V → Out (LT K V) (Ans K V)
  | .insert k v, s => (emplaceThrowE m E fail false a k v 64 s).bind readElemE
  | .assign k v, s => (emplaceThrowE m E fail true a k v 64 s).bind readElemE
  | .index k d, s => (emplaceThrowE m E fail false a k d 64 s).bind readValueE
  | .reserve n, s => (rehashCallThrowE m E fail a false n s).bind fun s' _ => .ok s' .unit
  | .rehash n, s => (rehashCallThrowE m E fail a false n s).bind fun s' _ => .ok s' .unit
  | .shrink ro, s => (shrinkThrowE m E fail a ro s).bind fun s' _ => .ok s' .unit
  | .maxLoad x, s => (setMlfThrowE m E fail a (x % 2 ^ 32) (rv x) s).bind fun s' _ => .ok s' .unit
  | c, s => execE m E rv a c s

end Model

/-! ### Nothing throws -/

section
variable {K V : Type} {m : Mode} {E : Env K} {fail : Nat → Bool}

theorem transferThrowE_never (hf : ∀ n, fail n = false) (old : Map K V) (bo : Nat) : ∀ (is : List Nat) (n : Nat) (s : LT K V),
    transferThrowE m E fail old bo n is s = liftE (transferAllE m E old bo is s) fun s' => .ok s' () := by
  intro is
  induction is with
  | nil => intro n s; rfl
  | cons i is ih =>
    intro n s
    unfold transferThrowE transferAllE
    cases old.slot i with
    | none => rfl
    | some e =>
      simp only [hf, Bool.false_eq_true, if_false]
      cases insertNoGrowE m E e s with
      | ok s' =>
        simp only [liftE, Res.bind_ok]
        exact ih _ _
      | _ => rfl

theorem rehashThrowE_never (hf : ∀ n, fail n = false) (sh al : Bool) (a : Bool × Bool) (n : Nat) (s : LT K V) :
    rehashThrowE m E fail sh al a n s = rehashImplE m E sh al a n s := by
  unfold rehashThrowE rehashImplE
  simp only [transferThrowE_never hf]
  cases calcCapacity n with
  | ok c =>
    simp only
    split
    · cases createE a c s with
      | ok s1 u =>
        simp only [Out.bind_ok]
        cases transferAllE m E s.t s.blk (usedIdx false s.t) s1 <;> rfl
      | _ => rfl
    · rfl
  | _ => rfl

theorem growThrowE_never (hf : ∀ n, fail n = false) (a : Bool × Bool) (s : LT K V) : growThrowE m E fail a s = growE m E a s :=
  rehashThrowE_never hf _ _ _ _ _

theorem findOrInsertThrowE_never (hf : ∀ n, fail n = false) (a : Bool × Bool) (k : K) (s : LT K V) :
    findOrInsertThrowE m E fail a k s = findOrInsertE m E a k s := by
  unfold findOrInsertThrowE findOrInsertE
  rw [growThrowE_never hf]
  cases probe false true E s.t k with
  | ok q => cases q <;> rfl
  | _ => rfl

theorem emplaceThrowE_never (hf : ∀ n, fail n = false) (update : Bool) (a : Bool × Bool) (k : K) (v : V) : ∀ (f : Nat) (s : LT K V),
    emplaceThrowE m E fail update a k v f s = emplaceLoopE m E update a k v f s := by
  intro f
  induction f with
  | zero => intro s; rfl
  | succ f ih =>
    intro s
    unfold emplaceThrowE emplaceLoopE
    rw [findOrInsertThrowE_never hf]
    congr 1
    funext s' r
    cases r with
    | notExists i => rfl
    | exists_ i => rfl
    | needGrow =>
      simp only [growThrowE_never hf]
      congr 1
      funext s'' _
      exact ih s''

/-- C134 (partial). If no construction throws the calls do what they do in C121.  Missing: those that throw, see below. -/
theorem C134_robin_partial (hf : ∀ n, fail n = false) (rv : Nat → Nat) (a : Bool × Bool) (c : Call K V) (s : LT K V) :
    execThrowE m E fail rv a c s = execE m E rv a c s := by
  cases c <;> simp only [execThrowE, execE, emplaceThrowE_never hf, emplaceE, rehashCallThrowE, shrinkThrowE, setMlfThrowE,
    rehashThrowE_never hf, rehashE, shrinkE, setMlfE]

/-! ### A construction throws -/

theorem placed_bind_ok {α β : Type} {x : Res α} {f : α → Res β} {b : β} (h : x.bind f = .ok b) : ∃ a, x = .ok a ∧ f a = .ok b := by
  cases x with
  | ok a => exact ⟨a, rfl, h⟩
  | diverge => cases h
  | ub => cases h

/-- A place that has been made is marked, and nothing has been lost. -/
theorem placeE_vacant (hE : E.Lawful) {c : Nat} {s : LT K V} (hG : Good E s.t c) {h0 i : Nat} {d : Ctrl} (hs : Stop s.t h0 i d) {rh : Bool}
    {s' : LT K V} (hq : placeE m rh i d s = .ok (s', true)) (hi : i < s'.t.slen) :
    Vacant s' i ∧ SameShape s.t s'.t ∧ (entries s'.t).Perm (entries s.t) := by
  obtain ⟨h5, h6⟩ := placeE_none hE hG hs hq
  have hpj := proj_placeE (m := m) rh i d s
  rw [hq] at hpj
  simp only [Res.bind_ok] at hpj
  have hsp := place_spec hE hG hs (by rw [← h6]; exact hi) rh
  rw [← hpj] at hsp
  have hsp : Made E c s.t s'.t i d := hsp
  refine ⟨⟨?_, h5, ?_⟩, hsp.same, hsp.perm⟩
  · rw [hsp.d0, hs.d_eq]
    have := hs.ge
    simp only [Ctrl.isUsed]
    rw [decide_eq_true_eq]
    omega
  · rw [(hsp.same.shape hG.toShape).maxCap]
    exact hi

/-- A lookup that reaches the slot that holds nothing is undefined; any other takes no notice of it. -/
theorem probeLoop_hole {t : Map K V} {i : Nat} (hn : t.slot i = none) (e : K × V) (n : Nat) (k : K) : ∀ (f p : Nat) (d : Ctrl),
    probeLoop false true E t k f p d = .ub ∨
      (probeLoop false true E t k f p d = probeLoop false true E { t with slot := upd t.slot i (some e), size := n } k f p d ∧
        probeLoop false true E t k f p d ≠ .ok (.hit i)) := by
  intro f
  induction f with
  | zero => intro p d; exact Or.inl rfl
  | succ f ih =>
    intro p d
    unfold probeLoop
    simp only [Bool.not_false, Bool.true_or, if_true]
    split
    · by_cases hp : p = i
      · subst hp
        rw [hn]
        exact Or.inl rfl
      · rw [upd_other _ _ hp]
        cases t.slot p with
        | none => exact Or.inl rfl
        | some x =>
          simp only
          split
          · right
            exact ⟨rfl, by simp only [ne_eq, Res.ok.injEq, Probe.hit.injEq]; exact hp⟩
          · split
            · exact Or.inl rfl
            · exact ih _ _
    · right
      exact ⟨rfl, by simp⟩

/-- Looking for the missing element reads a slot in which nothing is. -/
theorem findIdx_hole (hE : E.Lawful) {t : Map K V} {c i n : Nat} {e : K × V} (hn : t.slot i = none)
    (hG : Good E { t with slot := upd t.slot i (some e), size := n } c) (hi : i < t.slen)
    (hk : ∀ x ∈ entries t, E.eq x.1 e.1 = false) : findIdx false true E t e.1 = .ub := by
  rcases probeLoop_hole (E := E) hn e n e.1 (t.clen - home E t e.1) (home E t e.1) ⟨0, 0⟩ with h | ⟨h1, h2⟩
  · unfold findIdx probe
    rw [h]
    rfl
  · exfalso
    have hs := findIdx_spec hE hG e.1
    have hp : probe false true E { t with slot := upd t.slot i (some e), size := n } e.1 = probe false true E t e.1 := h1.symm
    have h2 : probe false true E t e.1 ≠ .ok (.hit i) := h2
    unfold findIdx at hs
    rw [hp] at hs
    have hmem : e ∈ entries ({ t with slot := upd t.slot i (some e), size := n } : Map K V) := by
      unfold entries
      exact List.mem_filterMap.mpr ⟨i, List.mem_range.mpr hi, upd_self _ _ _⟩
    have hget : Spec.get E.eq (entries ({ t with slot := upd t.slot i (some e), size := n } : Map K V)) e.1 ≠ none := by
      intro hq
      have := Spec.get_none_iff.mp hq e hmem
      rw [hE.refl] at this
      cases this
    cases hpr : probe false true E t e.1 with
    | ub => rw [hpr] at hs; exact hget hs.2
    | diverge => rw [hpr] at hs; exact hs
    | ok q =>
      rw [hpr] at hs
      cases q with
      | stop a b => exact hget hs
      | hit j =>
        obtain ⟨hlt, x, hx, hg⟩ := hs
        have hji : j ≠ i := by rintro rfl; exact h2 hpr
        have hx : upd t.slot i (some e) j = some x := hx
        rw [upd_other _ _ hji] at hx
        have h3 := hk x (List.mem_filterMap.mpr ⟨j, List.mem_range.mpr hlt, hx⟩)
        rw [hE.symm _ _ ((Spec.get_some_iff hE hG.distinct).mp hg).2] at h3
        cases h3

theorem transferThrow_spec (hE : E.Lawful) {c : Nat} (old : Map K V) (bo : Nat) {bs : List (Nat × Nat)} : ∀ (is : List Nat) (n j : Nat) (s : LT K V),
    Good E s.t c → bo ≠ s.blk → is.Nodup → Ground s (Left bo is) bs → Ok (Own s.blk s.t.slot (Left bo is) bs) s →
    (∀ i ∈ is, ∃ e, old.slot i = some e ∧ (old.ctrl i).hash = 0) → Distinct E.eq (is.filterMap old.slot ++ entries s.t) →
    j < is.length → fail (n + j) = true → (∀ x, x < j → fail (n + x) = false) →
    ∀ s', transferAllE m E old bo is s = .ok s' →
      ∃ s2 i, transferThrowE m E fail old bo n is s = .throw s2 ∧ Vacant s2 i ∧ Shape s2.t c ∧ s2.blk = s.blk ∧
        s2.t.size = s.t.size + j ∧ (entries s2.t).Perm ((is.take j).filterMap old.slot ++ entries s.t) ∧
        (∃ e, (is.drop j).filterMap old.slot = e :: (is.drop (j + 1)).filterMap old.slot ∧ findIdx false true E s2.t e.1 = .ub) ∧
        Ok (Own s.blk s2.t.slot (Left bo (is.drop j)) bs) s2 := by
  intro is
  induction is with
  | nil => intro n j s _ _ _ _ _ _ _ hj; simp at hj
  | cons i is ih =>
    intro n j s hG hbo hnd hgr h hu hd hj hfl hfl' s' hq
    unfold transferAllE at hq
    obtain ⟨e, he, _⟩ := hu i List.mem_cons_self
    rw [he] at hq
    simp only at hq
    have hcons : (i :: is).filterMap old.slot = e :: is.filterMap old.slot := by
      rw [List.filterMap_cons, he]
    rw [hcons, List.cons_append] at hd
    have hd' := hd
    rw [Distinct, List.pairwise_cons] at hd'
    cases hin : insertNoGrowE m E e s with
    | ub => rw [hin] at hq; cases hq
    | diverge => rw [hin] at hq; cases hq
    | ok s1 =>
      rw [hin, Res.bind_ok] at hq
      have hab : ∀ x ∈ entries s.t, E.eq x.1 e.1 = false := fun x hx => absent_symm hE (hd'.1 x (List.mem_append_right _ hx))
      cases j with
      | zero =>
        have hin' := hin
        unfold insertNoGrowE at hin'
        have hsk := seek_spec hG e.1
        cases hs : seek false true E s.t e.1 with
        | ub => rw [hs] at hin'; cases hin'
        | diverge => rw [hs] at hin'; cases hin'
        | ok q =>
          obtain ⟨p, d⟩ := q
          rw [hs] at hin' hsk
          simp only [Res.bind_ok, d_hash hsk] at hin'
          cases hpl : placeE m true p d s with
          | ub => rw [hpl] at hin'; cases hin'
          | diverge => rw [hpl] at hin'; cases hin'
          | ok r =>
            obtain ⟨s2, done⟩ := r
            rw [hpl] at hin'
            simp only [Res.bind_ok] at hin'
            cases done with
            | false => cases hin'
            | true =>
              have hlt : p < s2.t.slen := by
                simp only [Bool.not_true, Bool.false_eq_true, if_false] at hin'
                unfold constructE construct at hin'
                split at hin'
                · assumption
                · cases hin'
              obtain ⟨hv, hss, hpm⟩ := placeE_vacant hE hG hsk hpl hlt
              obtain ⟨h2, h3, _⟩ := placeE_ok hG hgr h hpl
              have hcon : constructE p e s2 = .ok s1 := by simpa using hin'
              have hs1 : s1.t = { s2.t with slot := upd s2.t.slot p (some e), size := s2.t.size + 1 } := by
                unfold constructE construct at hcon
                rw [if_pos hlt] at hcon
                cases hcon
                rfl
              have hG1 := (insertNoGrowE_ok hE hG hgr h hab hin).2.2.2.1
              rw [hs1] at hG1
              refine ⟨s2, p, ?_, hv, hss.shape hG.toShape, h3, ?_, by simpa using hpm, ⟨e, hcons,
                findIdx_hole hE hv.none hG1 hlt fun x hx => hab x (hpm.mem_iff.mp hx)⟩, h2⟩
              · unfold transferThrowE
                rw [he]
                simp only [show fail n = true from hfl, if_true]
                rw [hs]
                simp only [liftE]
                rw [d_hash hsk, hpl]
                simp [hlt]
              · rw [hss]; rfl
      | succ j =>
        obtain ⟨h1, h2, h3, h4, h5⟩ := insertNoGrowE_ok hE hG hgr h hab hin
        rw [List.nodup_cons] at hnd
        have hsl : s1.t.slen = s.t.slen := by rw [h4.slen, hG.slen]
        have hsz : s1.t.size = s.t.size + 1 := by rw [h4.size, hG.size, h5.length_eq, List.length_cons]
        have hb' : (emit [Ev.dtor bo i] false s1).blk = s.blk := h2
        obtain ⟨s2, p, g1, g2, g3, g4, g5, g6, g8, g7⟩ := ih (n + 1) j (emit [.dtor bo i] false s1) h4 (by rw [hb']; exact hbo)
          hnd.2 (by
            refine ⟨?_, ?_, ?_, ?_⟩
            · show s1.blk < s1.next
              rw [h2, h3]; exact hgr.blk
            · show ∀ x ∈ bs, x.1 < s1.next
              rw [h3]; exact hgr.below
            · show ∀ o, Left bo is o → o.1 < s1.next
              rw [h3]
              exact fun o ho => hgr.other o ⟨ho.1, List.mem_cons_of_mem _ ho.2⟩
            · show (s1.blk, s1.t.slen) ∈ bs
              rw [h2, hsl]; exact hgr.mem)
          (by
            rw [hb']
            apply Ok.emit h1
            intro h' hO
            right
            have hl : (bo, i) ∈ h'.live := (hO.live bo i).mpr (Or.inr ⟨hbo, rfl, List.mem_cons_self⟩)
            refine ⟨rfl, { h' with live := h'.live.erase (bo, i) }, ?_, hO.blocks, hO.nodup.erase _, ?_⟩
            · simp only [Heap.run]
              rw [step_dtor hl]
              rfl
            · intro b j
              rw [List.Nodup.mem_erase_iff hO.nodup, hO.live]
              unfold Left
              by_cases hb : b = s.blk
              · subst hb
                simp [Ne.symm hbo]
                rfl
              · simp only [hb, false_and, false_or, not_false_eq_true, true_and, List.mem_cons, ne_eq, Prod.mk.injEq]
                constructor
                · rintro ⟨g1, rfl, rfl | g2⟩
                  · exact (g1 ⟨rfl, rfl⟩).elim
                  · exact ⟨rfl, g2⟩
                · rintro ⟨rfl, g2⟩
                  exact ⟨fun hh => hnd.1 (hh.2 ▸ g2), rfl, Or.inr g2⟩)
          (fun j hj => hu j (List.mem_cons_of_mem _ hj))
          (Spec.Distinct.perm hE (List.Perm.trans List.perm_middle.symm (List.Perm.append_left _ h5.symm)) hd)
          (by simpa using hj) (by rw [← hfl]; congr 1; omega) (by intro x hx; have := hfl' (x + 1) (by omega); rw [← this]; congr 1; omega) s' hq
        refine ⟨s2, p, ?_, g2, g3, g4.trans hb', ?_, ?_, g8, ?_⟩
        · unfold transferThrowE
          rw [he]
          have h0 : fail n = false := hfl' 0 (by omega)
          simp only [h0, Bool.false_eq_true, if_false]
          rw [hin]
          exact g1
        · have : s2.t.size = s1.t.size + j := g5
          omega
        · rw [List.take_succ_cons, List.filterMap_cons, he, List.cons_append]
          refine g6.trans (List.Perm.trans (List.Perm.append_left _ h5) List.perm_middle)
        · rw [hb'] at g7
          exact g7

/-- What a map `s1` is after the construction of its `j`-th element in the new storage has thrown; `s` is the map before the call. -/
structure Lost (E : Env K) (s s1 : LT K V) (j : Nat) : Prop where
  /-- The elements moved before are there, the others are not; looking for the element whose move has thrown is undefined. -/
  size : s1.t.size = j
  moved : ∃ l e rest, (l ++ e :: rest).Perm (entries s.t) ∧ l.length = j ∧ (entries s1.t).Perm l ∧ findIdx false true E s1.t e.1 = .ub
  /-- A slot counts as used and holds no element; the destructor destroys it all the same. -/
  hole : ∃ i, Vacant s1 i
  destroyed : Heap.run (destroyE s1).log Heap.empty = none
  /-- The map does not know the old blocks any more, in which the elements not moved are alive. -/
  blk : s1.blk ≠ s.blk
  leaked : ∃ is : List Nat, is.Nodup ∧ is.length = s.t.size - j ∧
    Ok (fun h => (∀ x ∈ owned s.t s.blk, x ∈ h.blocks) ∧ ∀ i, (s.blk, i) ∈ h.live ↔ i ∈ is) s1
  owns : s.t.alloc = true

theorem destroy_hole {s : LT K V} {i : Nat} (hv : Vacant s i) {other : Obj → Prop} {bs : List (Nat × Nat)} (hok : Ok (Own s.blk s.t.slot other bs) s) :
    Heap.run (destroyE s).log Heap.empty = none := by
  unfold destroyE emit
  simp only
  rw [Life.run_append]
  rcases hok with ⟨_, hn⟩ | ⟨_, h, hn, hO⟩
  · rw [hn]; rfl
  · rw [hn, Option.bind_some, Life.run_append]
    have : Heap.run (clearSlotsE s.t s.blk) h = none := by
      unfold clearSlotsE
      refine Life.run_dtors_none s.blk _ h hO.nodup ⟨i, ?_, ?_⟩
      · rw [List.mem_filter, List.mem_range]
        exact ⟨hv.lt, hv.used⟩
      · rw [hO.live, hv.none]
        simp
    rw [this]
    rfl

theorem rehashThrow_lost (hE : E.Lawful) {s : LT K V} (hst : Fresh s.t ∨ ∃ c, Weak E s.t c) (hf : Fine s) {sh al : Bool} {a : Bool × Bool}
    {n : Nat} {s' : LT K V} {u : Unit} (hq : rehashImplE m E sh al a n s = .ok s' u) (hb : s'.blk ≠ s.blk) {j : Nat} (hj : j < s.t.size)
    (hfl : fail j = true) (hfl' : ∀ x < j, fail x = false) : ∃ s1, rehashThrowE m E fail sh al a n s = .throw s1 ∧ Lost E s s1 j := by
  rcases hst with ⟨x, y, hxy⟩ | ⟨c0, hW⟩
  · rw [hxy] at hj
    simp [emptyMap] at hj
  unfold rehashImplE at hq
  unfold rehashThrowE
  cases hc : calcCapacity n with
  | ub => rw [hc] at hq; cases hq
  | diverge => rw [hc] at hq; cases hq
  | ok cap =>
    rw [hc] at hq
    simp only at hq ⊢
    split at hq
    · rename_i hcond
      rw [if_pos hcond]
      obtain ⟨k, hk, rfl, _⟩ := calcCapacity_ok hc
      cases hcr : createE a (2 ^ k) s with
      | ub => rw [hcr] at hq; cases hq
      | diverge => rw [hcr] at hq; cases hq
      | throw t' => rw [hcr] at hq; cases hq
      | ok s1 w =>
        rw [hcr] at hq
        simp only [Out.bind_ok] at hq ⊢
        have hbelow : ∀ x ∈ owned s.t s.blk, x.1 < s.next := by
          intro x hx
          unfold owned at hx
          split at hx
          · rename_i ha
            have := hf.blk2 ha
            simp only [List.mem_cons, List.not_mem_nil, or_false] at hx
            rcases hx with rfl | rfl <;> simp only <;> omega
          · cases hx
        obtain ⟨h1, h2, h3, h4, h5, h6⟩ := createE_ok (E := E) hk hf.ok (fun h' hh => by rw [hh.blocks]; exact hbelow) hcr
        have hblk := hf.blk
        cases htr : transferAllE m E s.t s.blk (usedIdx false s.t) s1 with
        | ub => rw [htr] at hq; cases hq
        | diverge => rw [htr] at hq; cases hq
        | ok s2 =>
          have hno : ∀ x ∈ owned s1.t s1.blk, s.next ≤ x.1 ∧ x.1 < s1.next := by
            intro x hx
            unfold owned at hx
            rw [if_pos h4.alloc] at hx
            simp only [List.mem_cons, List.not_mem_nil, or_false] at hx
            rw [h3]
            rcases hx with rfl | rfl <;> simp only <;> omega
          have hlen : (usedIdx false s.t).length = s.t.size := by
            rw [hW.size, ← (usedIdx_spec hW).2]
            have hall := (usedIdx_spec hW).1
            generalize usedIdx false s.t = is at hall
            induction is with
            | nil => rfl
            | cons p is ih =>
              obtain ⟨e, he, _⟩ := hall p List.mem_cons_self
              rw [List.filterMap_cons, he, List.length_cons, List.length_cons, ih fun q hq => hall q (List.mem_cons_of_mem _ hq)]
          obtain ⟨s3, p, g1, g2, g3, g4, g5, g6, ⟨e0, g8, g9⟩, g7⟩ := transferThrow_spec (fail := fail) hE (bs := owned s1.t s1.blk ++ owned s.t s.blk) s.t s.blk
            (usedIdx false s.t) 0 j s1 h4
            (by rw [h2]; omega) (nodup_usedIdx _)
            ⟨by rw [h2, h3]; omega, by
              intro x hx
              rcases List.mem_append.mp hx with hx | hx
              · exact (hno x hx).2
              · have := hbelow x hx; omega, by
              rintro o ⟨ho, _⟩
              rw [ho]; omega, by
              apply List.mem_append_left
              unfold owned
              rw [if_pos h4.alloc, h4.toShape.maxCap]
              exact List.mem_cons_self⟩
            (h1.mono (by
              rintro h' ⟨h0, hh, rfl⟩
              refine ⟨by simp only; rw [hh.blocks], hh.nodup, ?_⟩
              intro b i
              simp only
              rw [hh.live, h6 i, h2]
              unfold Left
              simp
              rw [mem_usedIdx hW]
              constructor
              · rintro ⟨rfl, g⟩; exact ⟨by omega, rfl, g⟩
              · rintro ⟨_, g⟩; exact g))
            (usedIdx_spec hW).1 (by rw [h5, List.append_nil, (usedIdx_spec hW).2]; exact hW.distinct) (by rw [hlen]; exact hj)
            (by rw [Nat.zero_add]; exact hfl) (by intro x hx; rw [Nat.zero_add]; exact hfl' x hx) s2 htr
          refine ⟨s3, by rw [g1]; rfl, ?_, ?_, ⟨p, g2⟩, ?_, ?_, ?_, hW.alloc⟩
          · have h0 : s1.t.size = 0 := by rw [h4.size, h5]; rfl
            omega
          · refine ⟨((usedIdx false s.t).take j).filterMap s.t.slot, e0, ((usedIdx false s.t).drop (j + 1)).filterMap s.t.slot, ?_, ?_, ?_, g9⟩
            · rw [← g8, ← List.filterMap_append, List.take_append_drop, (usedIdx_spec hW).2]
            · have hg := g6.length_eq
              rw [h5, List.append_nil] at hg
              rw [← hg]
              have hall := (usedIdx_spec hW).1
              have hlj : ((usedIdx false s.t).take j).length = j := by rw [List.length_take, hlen]; omega
              rw [hg]
              refine Eq.trans ?_ hlj
              have hall' : ∀ q ∈ (usedIdx false s.t).take j, ∃ e, s.t.slot q = some e := fun q hq => by
                obtain ⟨e, he, _⟩ := hall q (List.mem_of_mem_take hq)
                exact ⟨e, he⟩
              generalize (usedIdx false s.t).take j = is at hall'
              induction is with
              | nil => rfl
              | cons p is ih =>
                obtain ⟨e, he⟩ := hall' p List.mem_cons_self
                rw [List.filterMap_cons, he, List.length_cons, List.length_cons, ih fun q hq => hall' q (List.mem_cons_of_mem _ hq)]
            · rw [h5, List.append_nil] at g6
              exact g6
          · exact destroy_hole g2 (by rw [g4]; exact g7)
          · rw [g4, h2]; omega
          · refine ⟨(usedIdx false s.t).drop j, (nodup_usedIdx _).sublist (List.drop_sublist _ _), by rw [List.length_drop, hlen], ?_⟩
            refine g7.mono fun h hO => ⟨fun x hx => ?_, fun i => ?_⟩
            · rw [hO.blocks]
              exact List.mem_append_right _ hx
            · rw [hO.live]
              have : s.blk ≠ s1.blk := by rw [h2]; omega
              simp [this, Left]
    · cases hq
      exact absurd rfl hb

theorem transferAllE_blk (old : Map K V) (bo : Nat) : ∀ (is : List Nat) (s s' : LT K V), transferAllE m E old bo is s = .ok s' → s'.blk = s.blk := by
  intro is
  induction is with
  | nil => intro s s' h; cases h; rfl
  | cons i is ih =>
    intro s s' h
    unfold transferAllE at h
    split at h
    · cases h
    · obtain ⟨s1, h1, h2⟩ := placed_bind_ok h
      rw [ih _ _ h2]
      show s1.blk = s.blk
      unfold insertNoGrowE at h1
      obtain ⟨⟨p, d⟩, _, h1⟩ := placed_bind_ok h1
      obtain ⟨⟨s3, done⟩, h3, h1⟩ := placed_bind_ok h1
      have h4 : s3.blk = s.blk := by
        unfold placeE at h3
        split at h3
        · split at h3
          · cases h3; rfl
          · obtain ⟨r, _, h3⟩ := placed_bind_ok h3
            cases h3
            rfl
        · cases h3
      simp only at h1
      split at h1
      · cases h1
      · unfold constructE at h1
        obtain ⟨t', _, h1⟩ := placed_bind_ok h1
        cases h1
        exact h4

/-- `grow_if_necessary`. -/
theorem growThrow_lost (hE : E.Lawful) {s : LT K V} (hst : Fresh s.t ∨ ∃ c, Weak E s.t c) (hf : Fine s) {a : Bool × Bool} {s' : LT K V} {u : Unit}
    (hq : growE m E a s = .ok s' u) {j : Nat} (hj : j < s.t.size) (hfl : fail j = true) (hfl' : ∀ x < j, fail x = false) :
    ∃ s1, growThrowE m E fail a s = .throw s1 ∧ Lost E s s1 j := by
  refine rehashThrow_lost hE hst hf hq ?_ hj hfl hfl'
  have hblk := hf.blk
  unfold growE rehashImplE at hq
  cases hc : calcCapacity ((s.t.mask + 1) * 2) with
  | ub => rw [hc] at hq; cases hq
  | diverge => rw [hc] at hq; cases hq
  | ok cap =>
    rw [hc] at hq
    simp only [Bool.true_or, if_true] at hq
    cases hcr : createE a cap s with
    | ub => rw [hcr] at hq; cases hq
    | diverge => rw [hcr] at hq; cases hq
    | throw t' => rw [hcr] at hq; cases hq
    | ok s1 w =>
      rw [hcr] at hq
      simp only at hq
      have h1 : s1.blk = s.next := by
        unfold createE at hcr
        split at hcr <;> cases hcr
        rfl
      cases htr : transferAllE m E s.t s.blk (usedIdx false s.t) s1 with
      | ub => rw [htr] at hq; cases hq
      | diverge => rw [htr] at hq; cases hq
      | ok s2 =>
        rw [htr] at hq
        cases hq
        have h2 := transferAllE_blk _ _ _ _ _ htr
        show s2.blk ≠ s.blk
        omega

theorem Lost.congr {s s' s1 : LT K V} {j : Nat} (h : Lost E s' s1 j) (h1 : s'.t.size = s.t.size) (h2 : (entries s'.t).Perm (entries s.t))
    (h3 : s'.blk = s.blk) (h4 : owned s'.t s'.blk = owned s.t s.blk) (h5 : s'.t.alloc = s.t.alloc) : Lost E s s1 j where
  size := h.size
  moved := by
    obtain ⟨l, e, rest, g1, g2⟩ := h.moved
    exact ⟨l, e, rest, g1.trans h2, g2⟩
  hole := h.hole
  destroyed := h.destroyed
  blk := h3 ▸ h.blk
  leaked := by
    obtain ⟨is, g1, g2, g3⟩ := h.leaked
    rw [h4, h3] at g3
    exact ⟨is, g1, h1 ▸ g2, g3⟩
  owns := h5 ▸ h.owns

/-- `insert_to_place` gives up: the elements are there in another order. -/
theorem finishE_needGrow (hE : E.Lawful) {c : Nat} {s : LT K V} (hG : Good E s.t c) (hf : Fine s) {h0 i : Nat} {d : Ctrl} (hs : Stop s.t h0 i d)
    {s' : LT K V} (hq : finishE m s i d = .ok s' .needGrow) :
    s'.blk = s.blk ∧ SameShape s.t s'.t ∧ (entries s'.t).Perm (entries s.t) := by
  unfold finishE at hq
  rw [d_hash hs] at hq
  obtain ⟨⟨s1, done⟩, hp, h2⟩ := liftE_ok hq
  cases done with
  | true => simp at h2
  | false =>
    simp only [Bool.false_eq_true, if_false, Out.ok.injEq] at h2
    obtain ⟨rfl, _⟩ := h2
    have hpj := proj_placeE (m := m) false i d s
    rw [hp] at hpj
    simp only [Res.bind_ok] at hpj
    refine ⟨(placeE_ok hG (hf.ground hG.toShape) hf.ok hp).2.1, ?_⟩
    by_cases hi : i < s.t.slen
    · have hsp := place_spec hE hG hs hi false
      rw [← hpj] at hsp
      exact hsp.1.2
    · have hsp := place_out hG hi (d := d) false
      rw [← hpj] at hsp
      exact hsp.elim

theorem finishE_blk {c : Nat} {s : LT K V} (hG : Good E s.t c) (hf : Fine s) {i : Nat} {d : Ctrl} {s' : LT K V} {r : Found}
    (hq : finishE m s i d = .ok s' r) : s'.blk = s.blk := by
  unfold finishE at hq
  obtain ⟨⟨s1, done⟩, hp, h2⟩ := liftE_ok hq
  cases h2
  exact (placeE_ok hG (hf.ground hG.toShape) hf.ok hp).2.1

theorem emplaceThrow_lost (hE : E.Lawful) {s : LT K V} (hst : Sound E s.t) (hf : Fine s) {update : Bool} {a : Bool × Bool} {k : K} {v : V}
    {f : Nat} {s' : LT K V} {r : Nat × Bool} (hq : emplaceLoopE m E update a k v f s = .ok s' r) (hb : s'.blk ≠ s.blk) {j : Nat} (hj : j < s.t.size)
    (hfl : fail j = true) (hfl' : ∀ x < j, fail x = false) : ∃ s1, emplaceThrowE m E fail update a k v f s = .throw s1 ∧ Lost E s s1 j := by
  cases f with
  | zero => cases hq
  | succ f =>
    obtain ⟨c, hG⟩ : ∃ c, Good E s.t c := by
      rcases hst with ⟨x, y, hxy⟩ | h
      · rw [hxy] at hj; simp [emptyMap] at hj
      · exact h
    unfold emplaceLoopE at hq
    obtain ⟨s1, q, hfi, hq⟩ := bindE_ok hq
    unfold emplaceThrowE findOrInsertThrowE
    unfold findOrInsertE at hfi
    obtain ⟨p, hpr, hfi⟩ := liftE_ok hfi
    rw [hpr]
    have hstop := probe_spec hG k
    rw [hpr] at hstop
    cases p with
    | hit i =>
      cases hfi
      simp only at hq
      split at hq
      · cases hq
      · cases hq
        exfalso
        apply hb
        split <;> rfl
    | stop i d =>
      simp only [liftE] at hfi ⊢
      split at hfi
      · rename_i hc
        rw [if_pos hc]
        obtain ⟨s2, u, hg, _⟩ := bindE_ok hfi
        obtain ⟨s3, h1, h2⟩ := growThrow_lost (fail := fail) hE (Or.inr ⟨c, hG.weak⟩) hf hg hj hfl hfl'
        exact ⟨s3, by rw [h1]; rfl, h2⟩
      · rename_i hc
        rw [if_neg hc, hfi]
        simp only [Out.bind_ok]
        cases q with
        | exists_ i1 =>
          unfold finishE at hfi
          obtain ⟨⟨_, done⟩, _, h2⟩ := liftE_ok hfi
          cases done <;> cases h2
        | notExists i1 =>
          exfalso
          obtain ⟨s2, hcon, h2⟩ := liftE_ok hq
          cases h2
          apply hb
          rw [← finishE_blk hG hf hfi]
          unfold constructE construct at hcon
          split at hcon
          · cases hcon; rfl
          · cases hcon
        | needGrow =>
          simp only at hq ⊢
          obtain ⟨s2, u, hg, _⟩ := bindE_ok hq
          obtain ⟨h1, h2, h3⟩ := finishE_needGrow hE hG hf hstop.1 hfi
          obtain ⟨h4, ⟨h5, _⟩ | ⟨_, h5, _⟩⟩ := finishE_ok hE hG hf hstop.1 hfi
          · cases h5
          · obtain ⟨s3, g1, g2⟩ := growThrow_lost (fail := fail) hE (Or.inr ⟨c, h5⟩) h4 hg (by rw [h2.size]; exact hj) hfl hfl'
            exact ⟨s3, by rw [g1]; rfl, g2.congr h2.size h3 h1 (by rw [h1]; exact owned_same h2 _) (by rw [h2])⟩

/-- One call. -/
theorem execThrow_lost (hE : E.Lawful) {s : LT K V} (hR : Reach E s.t) (hf : Fine s) {rv : Nat → Nat} {a : Bool × Bool} {c : Call K V}
    {s2 : LT K V} {x : Ans K V} (hx : execE m E rv a c s = .ok s2 x) (hb : s2.blk ≠ s.blk) {j : Nat} (hj : j < s.t.size) (hfl : fail j = true)
    (hfl' : ∀ x < j, fail x = false) : ∃ s1, execThrowE m E fail rv a c s = .throw s1 ∧ Lost E s s1 j := by
  have hst : Sound E s.t := hR.st.imp id fun ⟨c, h⟩ => ⟨c, h.toGood⟩
  cases c with
  | insert k v =>
    obtain ⟨s1, r, h1, h2⟩ := bindE_ok hx
    cases readElemE_ok h2
    obtain ⟨s3, h3, h4⟩ := emplaceThrow_lost (fail := fail) hE hst hf h1 hb hj hfl hfl'
    exact ⟨s3, by simp only [execThrowE]; rw [h3]; rfl, h4⟩
  | assign k v =>
    obtain ⟨s1, r, h1, h2⟩ := bindE_ok hx
    cases readElemE_ok h2
    obtain ⟨s3, h3, h4⟩ := emplaceThrow_lost (fail := fail) hE hst hf h1 hb hj hfl hfl'
    exact ⟨s3, by simp only [execThrowE]; rw [h3]; rfl, h4⟩
  | index k v =>
    obtain ⟨s1, r, h1, h2⟩ := bindE_ok hx
    cases readValueE_ok h2
    obtain ⟨s3, h3, h4⟩ := emplaceThrow_lost (fail := fail) hE hst hf h1 hb hj hfl hfl'
    exact ⟨s3, by simp only [execThrowE]; rw [h3]; rfl, h4⟩
  | find k => obtain ⟨_, _, h1⟩ := liftE_ok hx; cases h1; exact absurd rfl hb
  | contains k => obtain ⟨_, _, h1⟩ := liftE_ok hx; cases h1; exact absurd rfl hb
  | count k => obtain ⟨_, _, h1⟩ := liftE_ok hx; cases h1; exact absurd rfl hb
  | «at» k => obtain ⟨_, _, h1⟩ := liftE_ok hx; cases h1; exact absurd rfl hb
  | erase k =>
    exfalso
    obtain ⟨s1, r, h1, h2⟩ := bindE_ok hx
    cases h2
    apply hb
    unfold eraseKeyE at h1
    obtain ⟨o, _, h1⟩ := liftE_ok h1
    cases o with
    | none => cases h1; rfl
    | some i =>
      simp only at h1
      split at h1
      · cases h1; rfl
      · obtain ⟨s3, h3, h1⟩ := liftE_ok h1
        cases h1
        unfold eraseSlotE at h3
        obtain ⟨⟨t', l⟩, _, h3⟩ := placed_bind_ok h3
        cases h3
        rfl
  | size => cases hx; exact absurd rfl hb
  | empty => cases hx; exact absurd rfl hb
  | clear d =>
    exfalso
    obtain ⟨s1, r, h1, h2⟩ := bindE_ok hx
    cases h2
    apply hb
    unfold clearE at h1
    split at h1
    · split at h1
      · cases h1; rfl
      · cases h1
    · unfold clearDataE at h1
      split at h1 <;> cases h1
      rfl
  | reserve n =>
    obtain ⟨s1, r, h1, h2⟩ := bindE_ok hx
    cases h2
    obtain ⟨s3, h3, h4⟩ := rehashThrow_lost (fail := fail) hE hst.weak hf h1 hb hj hfl hfl'
    exact ⟨s3, by simp only [execThrowE, rehashCallThrowE]; rw [h3]; rfl, h4⟩
  | rehash n =>
    obtain ⟨s1, r, h1, h2⟩ := bindE_ok hx
    cases h2
    obtain ⟨s3, h3, h4⟩ := rehashThrow_lost (fail := fail) hE hst.weak hf h1 hb hj hfl hfl'
    exact ⟨s3, by simp only [execThrowE, rehashCallThrowE]; rw [h3]; rfl, h4⟩
  | shrink ro =>
    obtain ⟨s1, r, h1, h2⟩ := bindE_ok hx
    cases h2
    obtain ⟨s3, h3, h4⟩ := rehashThrow_lost (fail := fail) hE hst.weak hf h1 hb hj hfl hfl'
    exact ⟨s3, by simp only [execThrowE, shrinkThrowE]; rw [h3]; rfl, h4⟩
  | maxLoad y =>
    obtain ⟨s1, r, h1, h2⟩ := bindE_ok hx
    cases h2
    unfold setMlfE at h1
    dsimp only at h1
    split at h1
    · rename_i hc
      obtain ⟨s3, h3, h4⟩ := rehashThrow_lost (fail := fail) hE (sound_mlf hst (y % 2 ^ 32) (rv y)).weak (fine_mlf hf _ _) h1 hb hj hfl hfl'
      refine ⟨s3, ?_, h4.congr rfl (List.Perm.refl _) rfl rfl rfl⟩
      simp only [execThrowE, setMlfThrowE]
      rw [if_pos hc]
      simp only [rehashCallThrowE]
      rw [h3]
      rfl
    · cases h1
      exact absurd rfl hb
  | iterate => obtain ⟨_, _, h1⟩ := liftE_ok hx; cases h1; exact absurd rfl hb

/-- C134, the violation in robin (direct layout), after every history: whenever a call would obtain new slots and the constructor that moves
the `j`-th element throws, the call throws and leaves a map that has lost that element and all later ones, together with the old blocks; a
slot is marked but empty, so that looking for the element and destroying the map are undefined. -/
theorem C134_robin_throws (hE : E.Lawful) {rv : Nat → Nat} (hrv : ∀ x, 256 ≤ rv x ∧ rv x ≤ 1024) {a0 : Bool × Bool} {n : Nat} {s0 s : LT K V}
    (hc0 : makeE a0 n = .ok s0 ()) {ops : List ((Bool × Bool) × Call K V)} (hv : ∀ o ∈ ops, Valid o.2) {as : List (Ans K V)}
    (hr : runE m E rv ops s0 = .ok (as, s)) (ht : as.getLast? ≠ some .threw) {a : Bool × Bool} {c : Call K V} {s2 : LT K V} {x : Ans K V}
    (hx : execE m E rv a c s = .ok s2 x) (hb : s2.blk ≠ s.blk) {j : Nat} (hj : j < s.t.size) (hfl : fail j = true)
    (hfl' : ∀ x < j, fail x = false) : ∃ s1, execThrowE m E fail rv a c s = .throw s1 ∧ Lost E s s1 j := by
  obtain ⟨hf0, _, hmk⟩ := makeE_ok hc0
  obtain ⟨hR0, he0, _⟩ := reach_make (E := E) hmk
  rcases runE_ok (m := m) hE hrv ops s0 [] hv hR0 hf0 (by rw [he0]) with ⟨h1, _⟩ | ⟨as', s', h1, h2, h3⟩
  · rw [h1] at hr; cases hr
  · rw [hr] at h1
    cases h1
    have hrun := run_ok hE hrv (plain ops) s0.t [] (by
      intro c hc
      obtain ⟨o, ho, rfl⟩ := List.mem_map.mp hc
      exact hv o ho) hR0 (by rw [he0])
    rw [h2] at hrun
    obtain ⟨m', _, _, h5⟩ := hrun
    exact execThrow_lost hE (h5 ht).1 (h3 ht).1 hx hb hj hfl hfl'

end

/-! ### Examples -/

/-- Whether the call obtains new slots, and whether element 1 cannot be found after the move of element 0 has thrown. -/
def growsAndLoses (c : Call Nat Nat) (s : LT Nat Nat) : Bool :=
  (match execE .swap (hashEnv id) (fun _ => 512) (true, true) c s with | .ok s2 _ => decide (s2.blk ≠ s.blk) | _ => false) && decide (1 < s.t.size) &&
    (match execThrowE .swap (hashEnv id) (fun n => n == 1) (fun _ => 512) (true, true) c s with
    | .throw s1 => decide (s1.t.size = 1) && !s1.bad
    | _ => false)

set_option maxRecDepth 100000 in
/-- The hypotheses of `C134_robin_throws`, for an insertion. -/
example : ∃ s : LT Nat Nat, Reach (hashEnv id) s.t ∧ Fine s ∧ growsAndLoses (.insert 7 7) s = true :=
  fine_of_play (m := .swap) (n := 4) (cs := [.insert 1 1, .insert 5 2]) (by decide) (by decide +kernel)

set_option maxRecDepth 100000 in
/-- The hypotheses of `C134_robin_throws`, for `reserve`. -/
example : ∃ s : LT Nat Nat, Reach (hashEnv id) s.t ∧ Fine s ∧ growsAndLoses (.reserve 100) s = true :=
  fine_of_play (m := .swap) (n := 16) (cs := [.insert 1 1, .insert 17 2, .insert 3 3]) (by decide) (by decide +kernel)

end Verif.Robin.Track
