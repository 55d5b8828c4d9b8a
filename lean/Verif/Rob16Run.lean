/-
Histories of calls on `robin16_hash_map`, compared with the ideal map.
-/
import Verif.Rob16Erase
import Verif.FlatRun

namespace Verif.Rob16
open Spec (Distinct Call Ans)

/-! ### Histories -/

section Model
variable {K V : Type} (E : Env K) (sec : Nat → Nat)

/-- The caller dereferences the returned iterator. -/
def readElem (t : Map K V) (r : Nat × Bool) : Out (Map K V) (Ans K V) :=
  match t.slot r.1 with
  | none => .ub
  | some e => .ok t (.elem e r.2)

/-- `operator[]` returns a reference to the mapped value (R16:1708-1714). -/
def readValue (t : Map K V) (r : Nat × Bool) : Out (Map K V) (Ans K V) :=
  match t.slot r.1 with
  | none => .ub
  | some e => .ok t (.value (some e.2))

/-- `at(key)` (R16:1716-1736): the mapped value, `none` for the exception. -/
def atKey (t : Map K V) (k : K) : Res (Option V) := (lookup E sec t k).bind fun o => .ok (o.map (·.2))

/-- One call.  `x` names the `float` that is passed: `x % 2^32` is the `n_mlf_` and `rv x` the `n_mlf_rev_` that `max_load_factor` computes from it
(see `Verif.LoadFactor`).  `reserve` and `rehash`
are the same function. -/
def exec (triv : Bool) (rv : Nat → Nat) (mem : Mem) : Call K V → Map K V → Out (Map K V) (Ans K V)
  | .insert k v, t => (insert E sec false mem true k v t).bind readElem
  | .assign k v, t => (insert E sec true mem true k v t).bind readElem
  | .index k d, t => (insert E sec false mem true k d t).bind readValue
  | .find k, t => lift (lookup E sec t k) fun o => .ok t (.found o)
  | .contains k, t => lift (contains E sec t k) fun b => .ok t (.bool b)
  | .count k, t => lift (count E sec t k) fun n => .ok t (.num n)
  | .at k, t => lift (atKey E sec t k) fun o => .ok t (.value o)
  | .erase k, t => (eraseKey E sec triv k t).bind fun t' n => .ok t' (.num n)
  | .size, t => .ok t (.num t.size)
  | .empty, t => .ok t (.bool (t.size == 0))
  | .clear d, t => (clear triv d t).bind fun t' _ => .ok t' .unit
  | .reserve n, t => (rehash E sec mem false n t).bind fun t' _ => .ok t' .unit
  | .rehash n, t => (rehash E sec mem false n t).bind fun t' _ => .ok t' .unit
  | .shrink ro, t => (shrinkToFit E sec mem ro t).bind fun t' _ => .ok t' .unit
  | .maxLoad m, t => (setMlf E sec mem (m % 2 ^ 32) (rv m) t).bind fun t' _ => .ok t' .unit
  | .iterate, t => lift (walk t) fun l => .ok t (.items l)

/-- A history: calls paired with the allocator's answers.  After an exception the caller goes on with the object. -/
def run (triv : Bool) (rv : Nat → Nat) : List (Mem × Call K V) → Map K V → Res (List (Ans K V) × Map K V)
  | [], t => .ok ([], t)
  | (mem, c) :: cs, t =>
    match exec E sec triv rv mem c t with
    | .ub => .ub
    | .diverge => .diverge
    | .throw t' => (run triv rv cs t').bind fun r => .ok (.threw :: r.1, r.2)
    | .ok t' a => (run triv rv cs t').bind fun r => .ok (a :: r.1, r.2)

end Model

variable {K V : Type} {E : Env K} {sec : Nat → Nat}

/-! ### Iteration -/

/-- The elements from index `i` on. -/
def rest (t : Map K V) (i : Nat) : List (K × V) := (List.range' i (cap t - i)).filterMap (cellAt t)

theorem rest_zero (t : Map K V) : rest t 0 = entries t := by
  unfold rest entries
  rw [Nat.sub_zero, List.range_eq_range']

theorem rest_end {t : Map K V} {i : Nat} (h : cap t ≤ i) : rest t i = [] := by
  unfold rest
  have : cap t - i = 0 := by omega
  rw [this]; rfl

theorem rest_succ {t : Map K V} {i : Nat} (h : i < cap t) : rest t i = (cellAt t i).toList ++ rest t (i + 1) := by
  unfold rest
  obtain ⟨n, hn⟩ : ∃ n, cap t - i = n + 1 := ⟨cap t - i - 1, by omega⟩
  have : cap t - (i + 1) = n := by omega
  rw [hn, this, List.range'_succ, List.filterMap_cons]
  cases cellAt t i <;> rfl

/-- Slot `i` is used. -/
def Busy (t : Map K V) (i : Nat) : Prop := (t.ctrl i).dist ≠ 255

theorem Tab.cellAt {t : Map K V} (h : Tab E sec t) {i : Nat} (hi : i < cap t) :
    (Busy t i ∧ ∃ e, t.slot i = some e ∧ cellAt t i = some e) ∨ (¬ Busy t i ∧ cellAt t i = none) := by
  rw [cellAt_eq h.toBase hi]
  by_cases hu : Busy t i
  · obtain ⟨e, he, _⟩ := h.cell i hi hu
    exact Or.inl ⟨hu, e, he, by rw [if_pos (show (t.ctrl i).dist ≠ 255 from hu), he]⟩
  · exact Or.inr ⟨hu, by rw [if_neg (show ¬ (t.ctrl i).dist ≠ 255 from hu)]⟩

theorem nextIdx_spec {t : Map K V} (h : Tab E sec t) : ∀ (f i : Nat), i < cap t → cap t - i ≤ f →
    ∃ j, nextIdx t f i = .ok j ∧ i < j ∧ j ≤ cap t ∧ (j < cap t → Busy t j) ∧ rest t (i + 1) = rest t j := by
  intro f
  induction f with
  | zero => intro i _ _; omega
  | succ f ih =>
    intro i hi hf
    unfold nextIdx
    by_cases hn : i + 1 < cap t
    · rcases h.cellAt hn with ⟨hu, e, he, hc⟩ | ⟨hu, hc⟩
      · rw [if_neg (fun hh => hu hh.1)]
        exact ⟨i + 1, rfl, by omega, by omega, fun _ => hu, rfl⟩
      · have hu' : (t.ctrl (i + 1)).dist = 255 := by unfold Busy at hu; omega
        rw [if_pos ⟨hu', hn⟩]
        obtain ⟨j, e1, e2, e3, e4, e5⟩ := ih (i + 1) hn (by omega)
        refine ⟨j, e1, by omega, e3, e4, ?_⟩
        rw [rest_succ hn, hc, ← e5]; rfl
    · rw [if_neg (fun hh => hn hh.2)]
      exact ⟨i + 1, rfl, by omega, by omega, fun h' => by omega, rfl⟩

theorem walkLoop_spec {t : Map K V} (h : Tab E sec t) : ∀ (f i : Nat), i ≤ cap t → (i < cap t → Busy t i) →
    cap t - i < f → walkLoop t f i = .ok (rest t i) := by
  intro f
  induction f with
  | zero => intro i _ _ _; omega
  | succ f ih =>
    intro i hi hs hf
    unfold walkLoop
    by_cases he : i = cap t
    · rw [if_pos he, rest_end (by omega)]
    · rw [if_neg he]
      have hlt : i < cap t := by omega
      rcases h.cellAt hlt with ⟨hu, e, hse, hc⟩ | ⟨hu, _⟩
      · rw [hse]
        simp only
        have hclen := h.clen_eq
        obtain ⟨j, e1, e2, e3, e4, e5⟩ := nextIdx_spec h (t.clen - (i + 1)) i hlt (by omega)
        rw [e1, Res.bind_ok, ih j e3 e4 (by omega), Res.bind_ok, rest_succ hlt, hc, e5]
        rfl
      · exact absurd (hs hlt) hu

/-- Iteration gives the elements, from every state that satisfies the invariant of control words and slots. -/
theorem walk_spec {t : Map K V} (h : Tab E sec t) : walk t = .ok (entries t) := by
  unfold walk
  have hclen := h.clen_eq
  have hge := h.cap_ge
  rw [if_neg (by omega)]
  have hN : cap t ≤ (t.gmask + 1) * 16 ∧ ((t.gmask + 1) * 16 = cap t ∨ (cap t < 16 ∧ (t.gmask + 1) * 16 = 16)) := by
    have hg := h.gmask
    rcases h.cap_cases with hc | hc | ⟨m, hm, hc⟩ <;> rw [hc] at hg ⊢ <;> refine ⟨?_, ?_⟩ <;> omega
  have hskip : ∀ b, b ≤ cap t → (∀ i, i < b → ¬ Busy t i) → rest t b = entries t := by
    intro b
    induction b with
    | zero => intro _ _; exact rest_zero t
    | succ b ih =>
      intro hb hz
      rw [← ih (by omega) (fun i hi => hz i (by omega)), rest_succ (i := b) (by omega)]
      rcases h.cellAt (i := b) (by omega) with ⟨hu, _⟩ | ⟨_, hc⟩
      · exact absurd hu (hz b (by omega))
      · rw [hc]; rfl
  have hun : ∀ i, i < cap t → ¬ (t.ctrl i).dist < 254 → ¬ Busy t i := by
    intro i hi hu hb
    unfold Busy at hb
    have := h.bound i hi
    omega
  unfold beginIdx
  cases hf : (List.range ((t.gmask + 1) * 16)).find? fun i => decide ((t.ctrl i).dist < bEnd) with
  | none =>
    rw [List.find?_eq_none] at hf
    simp only [Option.getD_none]
    rw [walkLoop_spec h _ _ (Nat.le_refl _) (fun h' => by omega) (by omega)]
    congr 1
    apply hskip _ (Nat.le_refl _)
    intro i hi
    apply hun i hi
    have := hf i (List.mem_range.mpr (by omega))
    simpa using this
  | some b =>
    simp only [Option.getD_some]
    rw [List.find?_range_eq_some] at hf
    obtain ⟨h1, h2, h3⟩ := hf
    have hb := List.mem_range.mp h2
    have hd : (t.ctrl b).dist < 254 := of_decide_eq_true h1
    have hlt : b < cap t := by
      by_contra hc
      -- a copied word can only look used if its original does, and that comes first
      have hsm : cap t < 16 := by omega
      by_cases h2c : b < 2 * cap t
      · have hm := (h.mirror (b - cap t) (by omega) (by omega)).1
        rw [show b - cap t + cap t = b by omega] at hm
        have := h3 (b - cap t) (by omega)
        rw [← hm] at this
        simp [bEnd] at this
        omega
      · have := (h.tail hsm b (by omega) (by omega)).1
        omega
    have hbusy : Busy t b := by unfold Busy; omega
    rw [walkLoop_spec h _ _ (by omega) (fun _ => hbusy) (by omega)]
    congr 1
    apply hskip _ (by omega)
    intro i hi
    apply hun i (by omega)
    have := h3 i hi
    simpa using this

/-! ### Lookups -/

theorem find_spec (hE : E.Lawful) {t : Map K V} (h : Inv E sec t) {k : K} (hk : TagOk E sec t k) :
    (∃ i e, findIdx E sec t k = .ok (some i) ∧ i < cap t ∧ (t.ctrl i).dist ≠ 255 ∧ t.slot i = some e ∧ E.eq e.1 k = true ∧
      Spec.get E.eq (entries t) k = some e) ∨
    (findIdx E sec t k = .ok none ∧ Absent E t k ∧ Spec.get E.eq (entries t) k = none) := by
  rcases findIdx_spec h.toCore hE hk with ⟨i, h1, h2, h3, e, h4, h5⟩ | ⟨h1, h2⟩
  · exact Or.inl ⟨i, e, h1, h2, h3, h4, h5,
      (Spec.get_some_iff hE h.distinct).mpr ⟨(mem_entries h.toBase).mpr ⟨i, h2, h3, h4⟩, hE.symm _ _ h5⟩⟩
  · have ha := (absent_iff h.toBase).mpr h2
    exact Or.inr ⟨h1, ha, Spec.get_none_iff.mpr fun e he => Robin.absent_symm hE (ha e he)⟩

/-! ### Invariant between calls -/

/-- The states a map can be in between two calls. -/
structure Reach (E : Env K) (sec : Nat → Nat) (t : Map K V) : Prop extends Live E sec t where
  rev_lo : 81920 ≤ t.rev
  rev_hi : t.rev ≤ 327680

theorem Live.reach {t t' : Map K V} (hR : Reach E sec t) (h : Live E sec t') (hr : t'.rev = t.rev) : Reach E sec t' :=
  ⟨h, by rw [hr]; exact hR.rev_lo, by rw [hr]; exact hR.rev_hi⟩

/-- The contents of the ideal map after a call. -/
def after (eq : K → K → Bool) (m : Spec.Map K V) (c : Call K V) : Spec.Map K V := Flat.next eq m c

/-- The calls that are safe in a state; the others are the subject of Rob16Bugs.lean. -/
def Safe (E : Env K) (sec : Nat → Nat) (rv : Nat → Nat) (t : Map K V) (m : Spec.Map K V) : Call K V → Prop
  | .insert k v | .assign k v | .index k v => TagOk E sec t k ∧ Spread E 254 (cap t) ((k, v) :: m)
  | .find k | .contains k | .count k | .at k => TagOk E sec t k
  | .erase k => TagOk E sec t k ∧ ∀ i, i < cap t → KeyAt E t k i → ¬ Wraps t i
  | .clear d => Clears d t
  | .reserve n => n ≠ 0 ∧ ∀ c, calcCapacity (max (minRequire t n) t.size) = .ok c → Fits E c m
  | .rehash n => ∀ c, calcCapacity (max (minRequire t n) t.size) = .ok c → Fits E c m
  | .shrink ro => ∀ c, calcCapacity (if ro then t.size else minRequire t t.size) = .ok c → Fits E c m
  | .maxLoad x => x % 2 ^ 32 < 65536 ∧ ∀ c, calcCapacity (max (t.size * rv x % W / 65536) t.size) = .ok c → Fits E c m
  | _ => True

/-- A call that will not exceed the displacement limit. -/
def Calm (E : Env K) (t : Map K V) (m : Spec.Map K V) : Call K V → Prop
  | .insert k v | .assign k v | .index k v => Spread E 129 (cap t) ((k, v) :: m)
  | _ => True

/-- Correctness of one call. -/
def StepOk (E : Env K) (sec : Nat → Nat) (t : Map K V) (m : Spec.Map K V) (c : Call K V) : Out (Map K V) (Ans K V) → Prop
  | .ok t' a => Reach E sec t' ∧ Spec.Accepts E.eq m c a (after E.eq m c) ∧ (entries t').Perm (after E.eq m c)
  | .throw t' => c.allocates = true ∧ (entries t').Perm m ∧ (Calm E t m c → Reach E sec t')
  | .diverge => False
  | .ub => False

/-- The outcomes of an insertion, compared with the ideal map. -/
def PutOk (E : Env K) (sec : Nat → Nat) (update : Bool) (t : Map K V) (m : Spec.Map K V) (k : K) (v : V) :
    Out (Map K V) (Nat × Bool) → Prop
  | .ok t' (i, b) => Reach E sec t' ∧ b = (Spec.get E.eq m k).isNone ∧ ∃ e, t'.slot i = some e ∧
      Spec.get E.eq (Flat.after E.eq update m k v) k = some e ∧ (entries t').Perm (Flat.after E.eq update m k v)
  | .throw t' => (entries t').Perm m ∧ (Spread E 129 (cap t) ((k, v) :: m) → Reach E sec t')
  | .diverge => False
  | .ub => False

theorem insert_ok (hE : E.Lawful) {t : Map K V} (hR : Reach E sec t) {m : Spec.Map K V} (hm : (entries t).Perm m) (update : Bool)
    {mem : Mem} (hmem : mem ≠ .noSlots) (k : K) (v : V) (hk : TagOk E sec t k) (hS : Spread E 254 (cap t) ((k, v) :: m)) :
    PutOk E sec update t m k v (insert E sec update mem true k v t) := by
  have hdm : Distinct E.eq m := Spec.Distinct.perm hE hm hR.distinct
  have habs : Absent E t k → Spec.get E.eq m k = none := fun hk =>
    Spec.get_none_iff.mpr fun e he => Robin.absent_symm hE (hk e (hm.mem_iff.mpr he))
  have haft : Spec.get E.eq m k = none → Flat.after E.eq update m k v = (k, v) :: m := by
    intro hg
    unfold Flat.after
    cases update
    · exact Spec.insert_absent hg v
    · simp [Spec.assign, hg]
  obtain ⟨j, h1, h2, h3⟩ := hR.pow
  have hspec := emplace_spec hE update mem true k v 64 j t hR.toLive hk (hS.perm (hm.cons _)) h3 (by omega)
  unfold insert
  generalize emplace E sec update mem true k v 64 t = o at hspec
  match o, hspec with
  | .throw t', ⟨_, _, h3⟩ =>
    obtain ⟨g1, g2, g3⟩ := h3 hmem rfl
    refine ⟨g1.trans hm, fun hB => ?_⟩
    rcases g3 with g3 | ⟨g3, _⟩
    · exact g3.reach hR g2.rev
    · exact absurd (hB.perm (hm.cons _)) g3
  | .ok t' (i, b), Or.inl ⟨hb, _, hk, g1, g2, g3, g4, g5⟩ =>
    have hg := habs hk
    show _ ∧ _
    rw [haft hg]
    exact ⟨g1.reach hR g5.rev, by rw [hb, hg]; rfl,
      (k, v), g4, Spec.get_cons_self hE _ _ _, g2.trans (List.Perm.cons _ hm)⟩
  | .ok t' (i, b), Or.inr ⟨hb, hi, hu, e, he, heq, ht'⟩ =>
    have hke : E.eq k e.1 = true := hE.symm _ _ heq
    have hget : Spec.get E.eq m k = some e :=
      (Spec.get_some_iff hE hdm).mpr ⟨hm.mem_iff.mp ((mem_entries hR.toBase).mpr ⟨i, hi, hu, he⟩), hke⟩
    cases update with
    | false =>
      simp only [Bool.false_eq_true, if_false] at ht'
      subst ht'
      refine ⟨hR, by rw [hb, hget]; rfl, e, he, ?_, ?_⟩
      · simp only [Flat.after, Bool.false_eq_true, if_false, Spec.insert_present hget v]; exact hget
      · simp only [Flat.after, Bool.false_eq_true, if_false, Spec.insert_present hget v]; exact hm
    | true =>
      simp only [if_true] at ht'
      subst ht'
      have hinv := hR.toLive.setVal hi hu he v
      obtain ⟨A, B, h1, h2⟩ := entries_setVal hi (by have := hR.bound i hi; omega) he v
      have hd := hR.distinct
      have hperm : (entries { t with slot := upd t.slot i (some (e.1, v)) }).Perm (Spec.assign E.eq m k v) := by
        rw [h2]
        unfold Spec.assign
        rw [if_pos (by simp [hget])]
        refine List.Perm.trans ?_ (hm.map _)
        rw [h1]
        rw [h1] at hd
        rw [Spec.assign_at hE hd hke]
      refine ⟨hinv.reach hR rfl, by rw [hb, hget]; rfl, (e.1, v), upd_self _ _ _, ?_, ?_⟩
      · simp only [Flat.after, if_true]
        rw [← Spec.get_perm hE hperm hinv.distinct, Spec.get_some_iff hE hinv.distinct]
        refine ⟨?_, hke⟩
        rw [h2]; simp
      · simp only [Flat.after, if_true]; exact hperm

/-! ### Rehash -/

theorem minRequire_le (t : Map K V) (n : Nat) : minRequire t n ≤ 2 ^ 48 := by
  unfold minRequire
  have : n * t.rev % W < 2 ^ 64 := Nat.mod_lt _ (by unfold W; decide)
  omega

/-- A rehash, from every state between calls. -/
theorem rehash_ok (hE : E.Lawful) {t t0 : Map K V} (hR : Reach E sec t) {m : Spec.Map K V}
    (hm : (entries t).Perm m) {c : Call K V} (hc : c.allocates = true) (hn : after E.eq m c = m)
    (ha : Spec.Accepts E.eq m c .unit m) {n : Nat} (h2 : n ≤ 2 ^ 63) (hfit : ∀ c, calcCapacity n = .ok c → Fits E c m) {mem : Mem}
    (hmem : mem ≠ .noSlots) :
    StepOk E sec t0 m c ((rehashImpl E sec true false mem n t).bind fun t' _ => .ok t' .unit) := by
  have hs := rehashImpl_spec (E := E) (sec := sec) hR.toTab.weak true false mem n
    (fun c hc => ⟨by rw [hm.length_eq]; exact (hfit c hc).1, (hfit c hc).2.perm hm⟩)
  generalize rehashImpl E sec true false mem n t = o at hs
  match o, hs with
  | .ub, hs =>
    have hs' : calcCapacity n = .ub := hs
    rw [calcCapacity_eq] at hs'
    have := Robin.calcCapacity_ub hs'
    exact absurd h2 (by omega)
  | .throw t', ⟨_, g2⟩ =>
    rcases g2 with rfl | g2
    · exact ⟨hc, hm, fun _ => hR⟩
    · exact absurd g2 hmem
  | .ok t' u, ⟨cap', _, g2⟩ =>
    simp only [Out.bind_ok]
    rcases g2 with ⟨_, g3⟩ | ⟨rfl, _, _⟩
    · exact ⟨(g3.live hE hR.distinct hR.mlf).reach hR g3.rev, by rw [hn]; exact ha, by rw [hn]; exact g3.perm.trans hm⟩
    · exact ⟨hR, by rw [hn]; exact ha, by rw [hn]; exact hm⟩

theorem Core.size_le {t : Map K V} (h : Core E sec t) : t.size ≤ 2 ^ 48 := by
  have := h.room
  have := h.cap_le
  omega

/-- Every safe call, from every state between calls, answers like the ideal map. -/
theorem exec_ok (hE : E.Lawful) {triv : Bool} {t : Map K V} (hR : Reach E sec t) {m : Spec.Map K V}
    (hm : (entries t).Perm m) {rv : Nat → Nat} (hrv : ∀ x, 81920 ≤ rv x ∧ rv x ≤ 327680) {mem : Mem} (hmem : mem ≠ .noSlots)
    {c : Call K V} (hs : Safe E sec rv t m c) : StepOk E sec t m c (exec E sec triv rv mem c t) := by
  have hget : ∀ k, Spec.get E.eq (entries t) k = Spec.get E.eq m k := Spec.get_perm hE hm hR.distinct
  have hlen : t.size = m.length := by rw [hR.size, hm.length_eq]
  have hsz : t.size ≤ 2 ^ 48 := hR.size_le
  have hreh : ∀ n, (∀ c, calcCapacity (max (minRequire t n) t.size) = .ok c → Fits E c m) → ∀ c : Call K V, c.allocates = true →
      after E.eq m c = m → Spec.Accepts E.eq m c .unit m →
      StepOk E sec t m c ((rehash E sec mem false n t).bind fun t' _ => .ok t' .unit) := by
    intro n hr c h1 h2 h3
    have h4 := minRequire_le t n
    exact rehash_ok hE hR hm h1 h2 h3 (show max (minRequire t n) t.size ≤ 2 ^ 63 by omega) hr hmem
  cases c with
  | insert k v =>
    have := insert_ok hE hR hm false hmem k v hs.1 hs.2
    simp only [exec]
    generalize insert E sec false mem true k v t = o at this
    match o, this with
    | .throw t', ⟨h1, h2⟩ => exact ⟨rfl, h1, h2⟩
    | .ok t' (i, b), ⟨h1, h2, e, h3, h4, h5⟩ =>
      simp only [Out.bind_ok, readElem, h3]
      exact ⟨h1, ⟨rfl, h4, h2⟩, h5⟩
  | assign k v =>
    have := insert_ok hE hR hm true hmem k v hs.1 hs.2
    simp only [exec]
    generalize insert E sec true mem true k v t = o at this
    match o, this with
    | .throw t', ⟨h1, h2⟩ => exact ⟨rfl, h1, h2⟩
    | .ok t' (i, b), ⟨h1, h2, e, h3, h4, h5⟩ =>
      simp only [Out.bind_ok, readElem, h3]
      exact ⟨h1, ⟨rfl, h4, h2⟩, h5⟩
  | index k v =>
    have := insert_ok hE hR hm false hmem k v hs.1 hs.2
    simp only [exec]
    generalize insert E sec false mem true k v t = o at this
    match o, this with
    | .throw t', ⟨h1, h2⟩ => exact ⟨rfl, h1, h2⟩
    | .ok t' (i, b), ⟨h1, h2, e, h3, h4, h5⟩ =>
      simp only [Out.bind_ok, readValue, h3]
      have h4' : Spec.get E.eq (Spec.insert E.eq m k v) k = some e := h4
      exact ⟨h1, ⟨rfl, by rw [show after E.eq m (Call.index k v) = Spec.insert E.eq m k v from rfl, h4']; rfl, rfl⟩, h5⟩
  | find k =>
    simp only [exec, lookup]
    rcases find_spec hE hR.toInv (k := k) hs with ⟨i, e, h1, h2, hu, h3, h4, h5⟩ | ⟨h1, h2, h3⟩
    · rw [h1]
      simp only [Res.bind_ok, h3]
      exact ⟨hR, ⟨rfl, by rw [← hget, h5]⟩, hm⟩
    · rw [h1]
      exact ⟨hR, ⟨rfl, by rw [← hget, h3]⟩, hm⟩
  | contains k =>
    simp only [exec, contains]
    rcases find_spec hE hR.toInv (k := k) hs with ⟨i, e, h1, h2, hu, h3, h4, h5⟩ | ⟨h1, h2, h3⟩
    · rw [h1]
      exact ⟨hR, ⟨rfl, by rw [← hget, h5]; rfl⟩, hm⟩
    · rw [h1]
      exact ⟨hR, ⟨rfl, by rw [← hget, h3]; rfl⟩, hm⟩
  | count k =>
    simp only [exec, count]
    rcases find_spec hE hR.toInv (k := k) hs with ⟨i, e, h1, h2, hu, h3, h4, h5⟩ | ⟨h1, h2, h3⟩
    · rw [h1]
      exact ⟨hR, ⟨rfl, by rw [← hget, h5]; rfl⟩, hm⟩
    · rw [h1]
      exact ⟨hR, ⟨rfl, by rw [← hget, h3]; rfl⟩, hm⟩
  | «at» k =>
    simp only [exec, atKey, lookup]
    rcases find_spec hE hR.toInv (k := k) hs with ⟨i, e, h1, h2, hu, h3, h4, h5⟩ | ⟨h1, h2, h3⟩
    · rw [h1]
      simp only [Res.bind_ok, h3]
      exact ⟨hR, ⟨rfl, by rw [← hget, h5]⟩, hm⟩
    · rw [h1]
      exact ⟨hR, ⟨rfl, by rw [← hget, h3]⟩, hm⟩
  | erase k =>
    simp only [exec, eraseKey]
    rcases find_spec hE hR.toInv (k := k) hs.1 with ⟨i, e, h1, h2, hu, h3, h4, h5⟩ | ⟨h1, h2, h3⟩
    · rw [h1]
      simp only [lift]
      have hke : E.eq k e.1 = true := hE.symm _ _ h4
      have hgm : Spec.get E.eq m k = some e := by rw [← hget, h5]
      obtain ⟨t', g1, g2, g3, _, _, _, g6⟩ := (eraseSlot_spec hE triv hR.toLive h2 hu h3).1 (hs.2 i h2 ⟨hu, e, h3, h4⟩)
      rw [g1]
      refine ⟨g2.reach hR g6, ⟨rfl, by rw [hgm]; rfl⟩, ?_⟩
      exact (Spec.erase_perm hE (hR.distinct.perm hE hm) (hm.symm.trans g3) hke).symm
    · rw [h1]
      have hgm : Spec.get E.eq m k = none := by rw [← hget, h3]
      have her : Spec.erase E.eq m k = m := by
        unfold Spec.erase
        rw [List.filter_eq_self]
        intro a ha
        rw [Spec.get_none_iff.mp hgm a ha]; rfl
      have hn : after E.eq m (Call.erase k : Call K V) = m := her
      exact ⟨hR, by rw [hn]; exact ⟨her.symm, by rw [hgm]; rfl⟩, by rw [hn]; exact hm⟩
  | size => exact ⟨hR, ⟨rfl, hlen⟩, hm⟩
  | empty =>
    refine ⟨hR, ⟨rfl, ?_⟩, hm⟩
    rw [beq_iff_eq, hlen, List.length_eq_zero_iff]
  | clear d =>
    obtain ⟨t', g1, g2, g3, _, g5, _⟩ := clear_spec hR.toLive triv d hs
    simp only [exec]
    rw [g1]
    refine ⟨g2.reach hR g5, rfl, ?_⟩
    rw [g3]; exact List.Perm.nil
  | reserve n => exact hreh n hs.2 _ rfl rfl (by show m = if n = 0 then [] else m; rw [if_neg hs.1])
  | rehash n => exact hreh n hs _ rfl rfl rfl
  | shrink ro =>
    simp only [exec, shrinkToFit]
    have h4 := minRequire_le t t.size
    refine rehash_ok (c := Call.shrink _) hE hR hm rfl rfl (by rfl) ?_ hs hmem
    split <;> omega
  | maxLoad x =>
    obtain ⟨hx, hfit⟩ := hs
    have hR1 : Reach E sec { t with mlf := x % 2 ^ 32, rev := rv x } :=
      ⟨⟨⟨⟨⟨⟨hR.pow, hR.gmask, hR.clen, hR.bound, hR.order, hR.mirror, hR.tail⟩, hR.cell⟩, hR.size, hR.room⟩, hR.distinct⟩, hR.thr, hx⟩,
        (hrv x).1, (hrv x).2⟩
    simp only [exec, setMlf]
    split
    · have h4 := minRequire_le { t with mlf := x % 2 ^ 32, rev := rv x } t.size
      refine rehash_ok (c := Call.maxLoad x) hE hR1 hm rfl rfl (by rfl) ?_ hfit hmem
      show max (minRequire { t with mlf := x % 2 ^ 32, rev := rv x } t.size) t.size ≤ 2 ^ 63; omega
    · exact ⟨hR1, rfl, hm⟩
  | iterate =>
    simp only [exec]
    rw [walk_spec hR.toTab]
    exact ⟨hR, ⟨rfl, hm⟩, hm⟩

/-! ### Histories -/

/-- Every call of the history is safe in the state in which it is made, no allocation of slots fails, and no allocation of control
words fails after the displacement limit was exceeded. -/
def Guarded (E : Env K) (sec : Nat → Nat) (triv : Bool) (rv : Nat → Nat) : List (Mem × Call K V) → Map K V → Spec.Map K V → Prop
  | [], _, _ => True
  | (mem, c) :: cs, t, m => mem ≠ .noSlots ∧ Safe E sec rv t m c ∧
      (∀ t' a, exec E sec triv rv mem c t = .ok t' a → Guarded E sec triv rv cs t' (after E.eq m c)) ∧
      (∀ t', exec E sec triv rv mem c t = .throw t' → Calm E t m c ∧ Guarded E sec triv rv cs t' m)

theorem run_ok (hE : E.Lawful) {triv : Bool} {rv : Nat → Nat} (hrv : ∀ x, 81920 ≤ rv x ∧ rv x ≤ 327680) :
    ∀ (cs : List (Mem × Call K V)) (t : Map K V) (m : Spec.Map K V), Reach E sec t → (entries t).Perm m →
      Guarded E sec triv rv cs t m →
      ∃ as t' m', run E sec triv rv cs t = .ok (as, t') ∧ Reach E sec t' ∧ (entries t').Perm m' ∧
        Spec.AcceptsAll E.eq m (cs.map (·.2)) as m' := by
  intro cs
  induction cs with
  | nil => intro t m h1 h2 _; exact ⟨[], t, m, rfl, h1, h2, rfl⟩
  | cons p cs ih =>
    intro t m h1 h2 h3
    obtain ⟨mem, c⟩ := p
    obtain ⟨h4, h5, h6, h7⟩ := h3
    have hstep := exec_ok hE (triv := triv) h1 h2 hrv h4 h5
    unfold run
    generalize exec E sec triv rv mem c t = o at hstep h6 h7
    match o, hstep with
    | .ok t1 a, ⟨g1, g2, g3⟩ =>
      obtain ⟨as, t', m', e1, e2, e3, e4⟩ := ih t1 _ g1 g3 (h6 t1 a rfl)
      refine ⟨a :: as, t', m', ?_, e2, e3, _, g2, e4⟩
      simp only [e1, Res.bind_ok]
    | .throw t1, ⟨g1, g2, g3⟩ =>
      obtain ⟨hcalm, hrest⟩ := h7 t1 rfl
      obtain ⟨as, t', m', e1, e2, e3, e4⟩ := ih t1 m (g3 hcalm) g2 hrest
      refine ⟨.threw :: as, t', m', ?_, e2, e3, m, ?_, e4⟩
      · simp only [e1, Res.bind_ok]
      · cases c <;> simp [Call.allocates] at g1 <;> exact ⟨rfl, rfl⟩

end Verif.Rob16
