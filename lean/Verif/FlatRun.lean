/-
Histories of calls on `flat16_hash_map`, compared with the ideal map.
-/
import Verif.FlatStep
import Verif.RobinRun

namespace Verif.Flat
open Spec (Distinct Call Ans)

/-! ### Histories -/

section Model
variable {K V : Type} (E : Env K) (sec : Nat → Nat)

/-- The caller dereferences the returned iterator. -/
def readElem (t : Map K V) (r : Nat × Bool) : Out (Map K V) (Ans K V) :=
  match t.slot r.1 with
  | none => .ub
  | some e => .ok t (.elem e r.2)

/-- `operator[]` returns a reference to the mapped value (FL:1302-1308). -/
def readValue (t : Map K V) (r : Nat × Bool) : Out (Map K V) (Ans K V) :=
  match t.slot r.1 with
  | none => .ub
  | some e => .ok t (.value (some e.2))

/-- One call.  `x` names the `float` that is passed: `x % 2^32` is the `n_mlf_` and `rv x` the `n_mlf_rev_` that `max_load_factor` computes from it
(see `Verif.LoadFactor`).  `reserve` and `rehash`
are the same function.  `at` cannot be instantiated (FL:1310-1330 name members that a slot does not have); its line here
stands for that.  The elements have trivial destructors. -/
def exec (rv : Nat → Nat) (mem : Mem) : Call K V → Map K V → Out (Map K V) (Ans K V)
  | .insert k v, t => (emplace E sec false mem true k v t).bind readElem
  | .assign k v, t => (emplace E sec true mem true k v t).bind readElem
  | .index k d, t => (emplace E sec false mem true k d t).bind readValue
  | .find k, t => lift (lookup E sec t k) fun o => .ok t (.found o)
  | .contains k, t => lift (contains E sec t k) fun b => .ok t (.bool b)
  | .count k, t => lift (count E sec t k) fun n => .ok t (.num n)
  | .at _, _ => .ub
  | .erase k, t => (eraseKey E sec k t).bind fun t' n => .ok t' (.num n)
  | .size, t => .ok t (.num t.size)
  | .empty, t => .ok t (.bool (t.size == 0))
  | .clear d, t => (clear true d t).bind fun t' _ => .ok t' .unit
  | .reserve n, t => (rehash E sec mem false n t).bind fun t' _ => .ok t' .unit
  | .rehash n, t => (rehash E sec mem false n t).bind fun t' _ => .ok t' .unit
  | .shrink ro, t => (shrinkToFit E sec mem ro t).bind fun t' _ => .ok t' .unit
  | .maxLoad m, t => (setMlf E sec mem (m % 2 ^ 32) (rv m) t).bind fun t' _ => .ok t' .unit
  | .iterate, t => lift (walk t) fun l => .ok t (.items l)

/-- A history: calls paired with the allocator's answers.  After an exception the caller goes on with the object. -/
def run (rv : Nat → Nat) : List (Mem × Call K V) → Map K V → Res (List (Ans K V) × Map K V)
  | [], t => .ok ([], t)
  | (mem, c) :: cs, t =>
    match exec E sec rv mem c t with
    | .ub => .ub
    | .diverge => .diverge
    | .throw t' => (run rv cs t').bind fun r => .ok (.threw :: r.1, r.2)
    | .ok t' a => (run rv cs t').bind fun r => .ok (a :: r.1, r.2)

end Model

variable {K V : Type} {E : Env K} {sec : Nat → Nat}

/-! ### Iteration -/

/-- The elements from index `i` on. -/
def rest (t : Map K V) (i : Nat) : List (K × V) := (List.range' i (cap t - i)).filterMap t.slot

theorem rest_zero (t : Map K V) : rest t 0 = entries t := by
  unfold rest entries
  rw [Nat.sub_zero, List.range_eq_range']

theorem rest_end {t : Map K V} {i : Nat} (h : cap t ≤ i) : rest t i = [] := by
  unfold rest
  have : cap t - i = 0 := by omega
  rw [this]; rfl

theorem rest_succ {t : Map K V} {i : Nat} (h : i < cap t) : rest t i = (t.slot i).toList ++ rest t (i + 1) := by
  unfold rest
  obtain ⟨n, hn⟩ : ∃ n, cap t - i = n + 1 := ⟨cap t - i - 1, by omega⟩
  have : cap t - (i + 1) = n := by omega
  rw [hn, this, List.range'_succ, List.filterMap_cons]
  cases t.slot i <;> rfl

/-- The byte behind the last slot never looks like an unused slot. -/
theorem Core.end_mark {t : Map K V} (h : Core E sec t) : ¬ (128 ≤ t.ctrl (cap t) ∧ t.ctrl (cap t) < 255) := by
  have hge := h.cap_ge
  have hl := h.clen_eq
  have hm := h.mirror (cap t) (Nat.le_refl _) (by omega)
  rw [if_pos (by omega)] at hm
  by_cases h0 : 128 ≤ t.ctrl 0
  · rw [if_pos ⟨rfl, h0⟩] at hm
    rw [hm]; decide
  · rw [if_neg (fun h => h0 h.2), Nat.sub_self] at hm
    rw [hm]; omega

theorem nextIdx_spec {t : Map K V} (h : Core E sec t) : ∀ (f i : Nat), i < cap t → cap t - i ≤ f →
    ∃ j, nextIdx t f i = .ok j ∧ i < j ∧ j ≤ cap t ∧ (j < cap t → (t.slot j).isSome = true) ∧ rest t (i + 1) = rest t j := by
  intro f
  induction f with
  | zero => intro i _ _; omega
  | succ f ih =>
    intro i hi hf
    unfold nextIdx
    by_cases hn : i + 1 < cap t
    · have hu := h.used_iff hn
      cases hs : t.slot (i + 1) with
      | none =>
        rw [hs] at hu
        have h1 : t.ctrl (i + 1) = bEmpty ∨ t.ctrl (i + 1) = bDeleted := (h.cell _ hn).2 hs
        rw [if_pos (by unfold bEmpty bDeleted at h1; omega)]
        obtain ⟨j, e1, e2, e3, e4, e5⟩ := ih (i + 1) hn (by omega)
        refine ⟨j, e1, by omega, e3, e4, ?_⟩
        rw [rest_succ hn, hs, ← e5]; rfl
      | some e =>
        rw [hs] at hu
        have := hu.mpr rfl
        rw [if_neg (by omega)]
        exact ⟨i + 1, rfl, by omega, by omega, fun _ => by rw [hs]; rfl, rfl⟩
    · have he : i + 1 = cap t := by omega
      rw [he, if_neg h.end_mark]
      exact ⟨cap t, rfl, by omega, by omega, fun h' => by omega, rfl⟩

theorem walkLoop_spec {t : Map K V} (h : Core E sec t) : ∀ (f i : Nat), i ≤ cap t → (i < cap t → (t.slot i).isSome = true) →
    cap t - i < f → walkLoop t f i = .ok (rest t i) := by
  intro f
  induction f with
  | zero => intro i _ _ _; omega
  | succ f ih =>
    intro i hi hs hf
    unfold walkLoop
    by_cases he : i = cap t
    · rw [if_pos he, rest_end (by omega)]
    · rw [if_neg he]
      have hlt : i < cap t := by omega
      obtain ⟨e, hse⟩ := Option.isSome_iff_exists.mp (hs hlt)
      rw [hse]
      simp only
      have hclen := h.clen_eq
      obtain ⟨j, e1, e2, e3, e4, e5⟩ := nextIdx_spec h (clen t - (i + 1)) i hlt (by omega)
      rw [e1, Res.bind_ok, ih j e3 e4 (by omega), Res.bind_ok, rest_succ hlt, hse, e5]
      rfl

/-- Iteration gives the elements, from every state that satisfies the invariant of bytes and slots. -/
theorem walk_spec {t : Map K V} (h : Core E sec t) : walk t = .ok (entries t) := by
  unfold walk
  have hclen := h.clen_eq
  have hge := h.cap_ge
  have hN : cap t ≤ (t.gmask + 1) * 16 ∧ (t.gmask + 1) * 16 ≤ clen t := by
    constructor
    · rw [h.gmask]; omega
    · unfold clen; omega
  have hskip : ∀ b, b ≤ cap t → (∀ i, i < b → t.slot i = none) → rest t b = entries t := by
    intro b
    induction b with
    | zero => intro _ _; exact rest_zero t
    | succ b ih =>
      intro hb hz
      rw [← ih (by omega) (fun i hi => hz i (by omega)), rest_succ (i := b) (by omega), hz b (by omega)]
      rfl
  have hun : ∀ i, i < cap t → ¬ t.ctrl i < 128 → t.slot i = none := by
    intro i hi hu
    cases hs : t.slot i with
    | none => rfl
    | some e => exact absurd ((h.used_iff hi).mpr (by rw [hs]; rfl)) hu
  unfold beginIdx
  cases hf : (List.range ((t.gmask + 1) * 16)).find? fun i => decide (t.ctrl i < 128) with
  | none =>
    rw [List.find?_eq_none] at hf
    simp only [Option.getD_none]
    rw [walkLoop_spec h _ _ (Nat.le_refl _) (fun h' => by omega) (by omega)]
    congr 1
    apply hskip _ (Nat.le_refl _)
    intro i hi
    apply hun i hi
    have := hf i (List.mem_range.mpr (by omega))
    simpa using this
  | some b =>
    simp only [Option.getD_some]
    rw [List.find?_range_eq_some] at hf
    obtain ⟨h1, h2, h3⟩ := hf
    have hb := List.mem_range.mp h2
    have hd : t.ctrl b < 128 := of_decide_eq_true h1
    have hlt : b < cap t := by
      by_contra hc
      -- a copied byte can only look used if its original does, and that comes first
      have hm := h.mirror b (by omega) (by omega)
      by_cases h2c : b < 2 * cap t
      · rw [if_pos h2c] at hm
        split at hm
        · rw [hm] at hd; unfold bEnd at hd; omega
        · have := h3 (b - cap t) (by omega)
          rw [← hm] at this
          simp at this
          omega
      · rw [if_neg h2c] at hm
        rw [hm] at hd; unfold bEnd at hd; omega
    have hsome := (h.used_iff hlt).mp hd
    rw [walkLoop_spec h _ _ (by omega) (fun _ => hsome) (by omega)]
    congr 1
    apply hskip _ (by omega)
    intro i hi
    apply hun i (by omega)
    have := h3 i hi
    simpa using this

/-! ### Lookups -/

/-- A lookup that finds something is right in every state that satisfies the invariant of bytes and slots. -/
theorem findIdx_core {t : Map K V} (h : Core E sec t) (k : K) :
    ∃ r, findIdx E sec t k = .ok r ∧ ∀ i, r = some i → i < cap t ∧ KeyAt E t k i := by
  obtain ⟨r, h1, h2⟩ := probe_spec h k
  unfold findIdx
  rw [h1]
  simp only [Res.bind_ok]
  cases r with
  | hit j => exact ⟨_, rfl, fun i hi => by cases hi; exact h2⟩
  | stop j => exact ⟨_, rfl, fun i hi => by cases hi⟩
  | full => exact ⟨_, rfl, fun i hi => by cases hi⟩

theorem findIdx_spec (hE : E.Lawful) {t : Map K V} (h : Inv0 E sec t) (k : K) :
    (∃ i e, findIdx E sec t k = .ok (some i) ∧ i < cap t ∧ t.slot i = some e ∧ E.eq e.1 k = true ∧
      Spec.get E.eq (entries t) k = some e) ∨
    (findIdx E sec t k = .ok none ∧ Absent E t k ∧ Spec.get E.eq (entries t) k = none) := by
  obtain ⟨r, h1, h2⟩ := probe_spec h.toCore k
  unfold findIdx
  rw [h1]
  simp only [Res.bind_ok]
  have hno : (∀ j, r ≠ .hit j) → Absent E t k ∧ Spec.get E.eq (entries t) k = none := by
    intro hh
    have ha := absent_iff.mpr (absent_of_probe h.toCore h.reach hE h2 hh)
    exact ⟨ha, Spec.get_none_iff.mpr fun e he => Robin.absent_symm hE (ha e he)⟩
  cases r with
  | hit j =>
    obtain ⟨h3, e, h4, h5⟩ := h2
    exact Or.inl ⟨j, e, rfl, h3, h4, h5, (Spec.get_some_iff hE h.distinct).mpr ⟨mem_entries.mpr ⟨j, h3, h4⟩, hE.symm _ _ h5⟩⟩
  | stop j => exact Or.inr ⟨rfl, hno (by intro j; simp)⟩
  | full => exact Or.inr ⟨rfl, hno (by intro j; simp)⟩

/-! ### Invariant between calls -/

/-- The states a map can be in between two calls; `clean`: no tombstones. -/
structure Reach (clean : Bool) (E : Env K) (sec : Nat → Nat) (t : Map K V) : Prop extends Inv E sec t where
  rev_lo : 81920 ≤ t.rev
  rev_hi : t.rev ≤ 327680
  clean : clean = true → dels t = 0

/-- The contents of the ideal map after a call. -/
def next (eq : K → K → Bool) (m : Spec.Map K V) : Call K V → Spec.Map K V
  | .insert k v => Spec.insert eq m k v
  | .assign k v => Spec.assign eq m k v
  | .index k d => Spec.insert eq m k d
  | .erase k => Spec.erase eq m k
  | .clear _ => []
  | _ => m

/-- A number of elements that does not fill a table of minimal capacity. -/
def NotPow (s : Nat) : Prop := s < 4 ∨ ∀ j, s ≠ 2 ^ j

/-- Room for `s` elements after `reserve(n)`. -/
def RoomFor (s n : Nat) : Prop := NotPow s ∨ (s ≤ n ∧ n < 2 ^ 44)

/-- The calls that are safe in a state; the others are the subject of FlatBugs.lean. -/
def Safe (clean : Bool) (E : Env K) (t : Map K V) (m : Spec.Map K V) : Call K V → Prop
  | .insert _ _ | .assign _ _ | .index _ _ => clean = true ∨ reorders t = false
  | .erase k => Spec.get E.eq m k = none ∨
      if clean then cap t ≤ 16 ∨ m.length ≤ 14
      else Near E t ∨ ∀ i, i < cap t → KeyAt E t k i → tombstone t i = true
  | .clear d => d = true ∧ 4 < cap t
  | .reserve n => n ≠ 0 ∧ RoomFor m.length n
  | .rehash n => RoomFor m.length n
  | .shrink ro => m.length < 2 ^ 44 ∧ (ro = true → NotPow m.length)
  | .maxLoad _ => cap t ≤ 32
  | .at _ => False
  | _ => True

/-- Correctness of one call. -/
def StepOk (clean : Bool) (E : Env K) (sec : Nat → Nat) (m : Spec.Map K V) (c : Call K V) : Out (Map K V) (Ans K V) → Prop
  | .ok t' a => Reach clean E sec t' ∧ Spec.Accepts E.eq m c a (next E.eq m c) ∧ (entries t').Perm (next E.eq m c)
  | .throw t' => Reach clean E sec t' ∧ c.allocates = true ∧ (entries t').Perm m
  | .diverge => False
  | .ub => False

/-- The ideal map after an insertion. -/
def after (eq : K → K → Bool) (update : Bool) (m : Spec.Map K V) (k : K) (v : V) : Spec.Map K V :=
  if update then Spec.assign eq m k v else Spec.insert eq m k v

/-- The outcomes of an insertion, compared with the ideal map. -/
def PutOk (clean : Bool) (E : Env K) (sec : Nat → Nat) (update : Bool) (m : Spec.Map K V) (k : K) (v : V) :
    Out (Map K V) (Nat × Bool) → Prop
  | .ok t' (i, b) => Reach clean E sec t' ∧ b = (Spec.get E.eq m k).isNone ∧ ∃ e, t'.slot i = some e ∧
      Spec.get E.eq (after E.eq update m k v) k = some e ∧ (entries t').Perm (after E.eq update m k v)
  | .throw t' => Reach clean E sec t' ∧ (entries t').Perm m
  | .diverge => False
  | .ub => False

theorem emplace_ok (hE : E.Lawful) {clean : Bool} {t : Map K V} (hR : Reach clean E sec t) {m : Spec.Map K V}
    (hm : (entries t).Perm m) (update : Bool) {mem : Mem} (hmem : mem ≠ .noSlots) (k : K) (v : V)
    (hs : clean = true ∨ reorders t = false) :
    PutOk clean E sec update m k v (emplace E sec update mem true k v t) := by
  have hdm : Distinct E.eq m := Spec.Distinct.perm hE hm hR.distinct
  have habs : Absent E t k → Spec.get E.eq m k = none := fun hk =>
    Spec.get_none_iff.mpr fun e he => Robin.absent_symm hE (hk e (hm.mem_iff.mpr he))
  have haft : Spec.get E.eq m k = none → after E.eq update m k v = (k, v) :: m := by
    intro hg
    unfold after
    cases update
    · exact Spec.insert_absent hg v
    · simp [Spec.assign, hg]
  have hnr : reorders t = false := by
    rcases hs with hs | hs
    · exact not_reorders hR.toCore hR.counted (hR.clean hs)
    · exact hs
  have hspec := emplace_spec hE hR.toInv update mem true k v
  generalize emplace E sec update mem true k v t = o at hspec
  match o, hspec with
  | .ub, ⟨h1, _⟩ => rw [hnr] at h1; cases h1
  | .throw t', ⟨_, _, h3⟩ =>
    obtain ⟨g1, g2, g3, g4, g5, g6⟩ := h3 hmem rfl
    exact ⟨⟨g1, by rw [g4]; exact hR.rev_lo, by rw [g4]; exact hR.rev_hi, fun hc => g6 (hR.clean hc)⟩, g2.trans hm⟩
  | .ok t' (i, b), Or.inl ⟨hb, _, hk, g1, g2, g3, g4, g5, g6, g7, g8⟩ =>
    have hg := habs hk
    show _ ∧ _
    rw [haft hg]
    exact ⟨⟨g1, by rw [g6]; exact hR.rev_lo, by rw [g6]; exact hR.rev_hi, fun hc => g8 (hR.clean hc)⟩, by rw [hb, hg]; rfl,
      (k, v), g4, Spec.get_cons_self hE _ _ _, g2.trans (List.Perm.cons _ hm)⟩
  | .ok t' (i, b), Or.inr ⟨hb, hi, e, he, heq, ht'⟩ =>
    have hke : E.eq k e.1 = true := hE.symm _ _ heq
    have hget : Spec.get E.eq m k = some e :=
      (Spec.get_some_iff hE hdm).mpr ⟨hm.mem_iff.mp (mem_entries.mpr ⟨i, hi, he⟩), hke⟩
    cases update with
    | false =>
      simp only [Bool.false_eq_true, if_false] at ht'
      subst ht'
      refine ⟨hR, by rw [hb, hget]; rfl, e, he, ?_, ?_⟩
      · simp only [after, Bool.false_eq_true, if_false, Spec.insert_present hget v]; exact hget
      · simp only [after, Bool.false_eq_true, if_false, Spec.insert_present hget v]; exact hm
    | true =>
      simp only [if_true] at ht'
      subst ht'
      have hinv := hR.toInv.setVal hi he v
      obtain ⟨A, B, h1, h2⟩ := entries_setVal hi he v
      have hd := hR.distinct
      have hperm : (entries { t with slot := upd t.slot i (some (e.1, v)) }).Perm (Spec.assign E.eq m k v) := by
        rw [h2]
        unfold Spec.assign
        rw [if_pos (by simp [hget])]
        refine List.Perm.trans ?_ (hm.map _)
        rw [h1]
        rw [h1] at hd
        rw [Spec.assign_at hE hd hke]
      refine ⟨⟨hinv, hR.rev_lo, hR.rev_hi, hR.clean⟩, by rw [hb, hget]; rfl, (e.1, v), upd_self _ _ _, ?_, ?_⟩
      · simp only [after, if_true]
        rw [← Spec.get_perm hE hperm hinv.distinct, Spec.get_some_iff hE hinv.distinct]
        refine ⟨?_, hke⟩
        rw [h2]; simp
      · simp only [after, if_true]; exact hperm

/-! ### Rehash -/

theorem minRequire_le (t : Map K V) (n : Nat) : minRequire t n ≤ 2 ^ 48 := by
  unfold minRequire
  have : n * t.rev % W < 2 ^ 64 := Nat.mod_lt _ (by unfold W; decide)
  omega

theorem minRequire_gt {t : Map K V} (h1 : 81920 ≤ t.rev) (h2 : t.rev ≤ 327680) {n : Nat} (h4 : 4 ≤ n) (hn : n < 2 ^ 44) :
    n < minRequire t n := by
  unfold minRequire
  have h5 : n * t.rev ≤ n * 327680 := Nat.mul_le_mul_left _ h2
  have h3 : n * 81920 ≤ n * t.rev := Nat.mul_le_mul_left _ h1
  rw [Nat.mod_eq_of_lt (by unfold W; omega)]
  omega

theorem lt_of_calc {s n c : Nat} (h : calcCapacity n = .ok c) (hs : s ≤ n) (hp : NotPow s ∨ s < n) : s < c := by
  rw [calcCapacity_eq] at h
  obtain ⟨j, h1, h2, h3, _⟩ := Robin.calcCapacity_ok h
  have h4 := Robin.pow_two_le (a := 2) (b := j) h1
  rcases hp with (hp | hp) | hp
  · omega
  · have := hp j
    omega
  · omega

/-- A rehash, from every state between calls. -/
theorem rehash_ok (hE : E.Lawful) {clean : Bool} {t : Map K V} (hR : Reach clean E sec t) {m : Spec.Map K V}
    (hm : (entries t).Perm m) {c : Call K V} (hc : c.allocates = true) (hn : next E.eq m c = m)
    (ha : Spec.Accepts E.eq m c .unit m) {n : Nat} (h1 : t.size ≤ n) (h2 : n ≤ 2 ^ 63) (h3 : NotPow t.size ∨ t.size < n) {mem : Mem}
    (hmem : mem ≠ .noSlots) :
    StepOk clean E sec m c ((rehashImpl E sec true false mem n t).bind fun t' _ => .ok t' .unit) := by
  have hs := rehashImpl_spec hR.toCore true false mem n (fun c hc => lt_of_calc hc h1 h3)
  generalize rehashImpl E sec true false mem n t = o at hs
  match o, hs with
  | .ub, hs =>
    have hs' : calcCapacity n = .ub := hs
    rw [calcCapacity_eq] at hs'
    have := Robin.calcCapacity_ub hs'
    exact absurd h2 (by omega)
  | .throw t', ⟨_, g2⟩ =>
    rcases g2 with rfl | g2
    · exact ⟨hR, hc, hm⟩
    · exact absurd g2 hmem
  | .ok t' u, ⟨cap', _, g2⟩ =>
    simp only [Out.bind_ok]
    rcases g2 with ⟨_, g3⟩ | ⟨rfl, _, _⟩
    · exact ⟨⟨g3.toInv hE hR.distinct, by rw [g3.rev]; exact hR.rev_lo, by rw [g3.rev]; exact hR.rev_hi, fun _ => g3.dels⟩,
        by rw [hn]; exact ha, by rw [hn]; exact g3.perm.trans hm⟩
    · exact ⟨hR, by rw [hn]; exact ha, by rw [hn]; exact hm⟩

theorem Reach.fresh {clean : Bool} {j : Nat} (h1 : 2 ≤ j) (h2 : j ≤ 48) {m r : Nat} (h3 : 81920 ≤ r) (h4 : r ≤ 327680) :
    Reach clean E sec (freshMap (2 ^ j) m r : Map K V) ∧ entries (freshMap (2 ^ j) m r : Map K V) = [] := by
  obtain ⟨g1, g2, g3, g4⟩ := freshMap_inv (K := K) (V := V) (E := E) (sec := sec) h1 h2 m r
  refine ⟨⟨⟨⟨g1, by rw [g2]; exact List.Pairwise.nil⟩, fun _ => ?_⟩, h3, h4, fun _ => ?_⟩, g2⟩
  · unfold Counted
    have h5 : (freshMap (2 ^ j) m r : Map K V).left = thr (freshMap (2 ^ j) m r : Map K V) := by
      unfold thr; rw [g4]; rfl
    rw [g3, h5, Nat.add_zero, Nat.mod_eq_of_lt (thr_lt _)]
  · have := g1.occ_eq
    omega

/-- Every safe call, from every state between calls, answers like the ideal map. -/
theorem exec_ok (hE : E.Lawful) {clean : Bool} {t : Map K V} (hR : Reach clean E sec t) {m : Spec.Map K V}
    (hm : (entries t).Perm m) {rv : Nat → Nat} (hrv : ∀ x, 81920 ≤ rv x ∧ rv x ≤ 327680) {mem : Mem} (hmem : mem ≠ .noSlots)
    {c : Call K V} (hs : Safe clean E t m c) : StepOk clean E sec m c (exec E sec rv mem c t) := by
  have hget : ∀ k, Spec.get E.eq (entries t) k = Spec.get E.eq m k := Spec.get_perm hE hm hR.distinct
  have hlen : t.size = m.length := by rw [hR.size, hm.length_eq]
  have hsz : t.size ≤ 2 ^ 48 := Nat.le_trans hR.size_le hR.cap_le
  have hreh : ∀ n, RoomFor m.length n → ∀ c : Call K V, c.allocates = true → next E.eq m c = m → Spec.Accepts E.eq m c .unit m →
      StepOk clean E sec m c ((rehash E sec mem false n t).bind fun t' _ => .ok t' .unit) := by
    intro n hr c h1 h2 h3
    have h4 := minRequire_le t n
    refine rehash_ok hE hR hm h1 h2 h3 (Nat.le_max_right _ _) ?_ ?_ hmem
    · show max (minRequire t n) t.size ≤ 2 ^ 63; omega
    · rw [← hlen] at hr
      rcases hr with hr | ⟨h5, h6⟩
      · exact Or.inl hr
      · by_cases h7 : t.size < 4
        · exact Or.inl (Or.inl h7)
        · right
          have := minRequire_gt hR.rev_lo hR.rev_hi (n := n) (by omega) h6
          show t.size < max (minRequire t n) t.size; omega
  cases c with
  | insert k v =>
    have := emplace_ok hE hR hm false hmem k v hs
    simp only [exec]
    generalize emplace E sec false mem true k v t = o at this
    match o, this with
    | .throw t', ⟨h1, h2⟩ => exact ⟨h1, rfl, h2⟩
    | .ok t' (i, b), ⟨h1, h2, e, h3, h4, h5⟩ =>
      simp only [Out.bind_ok, readElem, h3]
      exact ⟨h1, ⟨rfl, h4, h2⟩, h5⟩
  | assign k v =>
    have := emplace_ok hE hR hm true hmem k v hs
    simp only [exec]
    generalize emplace E sec true mem true k v t = o at this
    match o, this with
    | .throw t', ⟨h1, h2⟩ => exact ⟨h1, rfl, h2⟩
    | .ok t' (i, b), ⟨h1, h2, e, h3, h4, h5⟩ =>
      simp only [Out.bind_ok, readElem, h3]
      exact ⟨h1, ⟨rfl, h4, h2⟩, h5⟩
  | index k v =>
    have := emplace_ok hE hR hm false hmem k v hs
    simp only [exec]
    generalize emplace E sec false mem true k v t = o at this
    match o, this with
    | .throw t', ⟨h1, h2⟩ => exact ⟨h1, rfl, h2⟩
    | .ok t' (i, b), ⟨h1, h2, e, h3, h4, h5⟩ =>
      simp only [Out.bind_ok, readValue, h3]
      have h4' : Spec.get E.eq (Spec.insert E.eq m k v) k = some e := h4
      exact ⟨h1, ⟨rfl, by rw [show next E.eq m (Call.index k v) = Spec.insert E.eq m k v from rfl, h4']; rfl, rfl⟩, h5⟩
  | find k =>
    simp only [exec, lookup]
    rcases findIdx_spec hE hR.toInv0 k with ⟨i, e, h1, h2, h3, h4, h5⟩ | ⟨h1, h2, h3⟩
    · rw [h1]
      simp only [Res.bind_ok, h3]
      exact ⟨hR, ⟨rfl, by rw [← hget, h5]⟩, hm⟩
    · rw [h1]
      exact ⟨hR, ⟨rfl, by rw [← hget, h3]⟩, hm⟩
  | contains k =>
    simp only [exec, contains]
    rcases findIdx_spec hE hR.toInv0 k with ⟨i, e, h1, h2, h3, h4, h5⟩ | ⟨h1, h2, h3⟩
    · rw [h1]
      exact ⟨hR, ⟨rfl, by rw [← hget, h5]; rfl⟩, hm⟩
    · rw [h1]
      exact ⟨hR, ⟨rfl, by rw [← hget, h3]; rfl⟩, hm⟩
  | count k =>
    simp only [exec, count]
    rcases findIdx_spec hE hR.toInv0 k with ⟨i, e, h1, h2, h3, h4, h5⟩ | ⟨h1, h2, h3⟩
    · rw [h1]
      exact ⟨hR, ⟨rfl, by rw [← hget, h5]; rfl⟩, hm⟩
    · rw [h1]
      exact ⟨hR, ⟨rfl, by rw [← hget, h3]; rfl⟩, hm⟩
  | «at» k => exact hs.elim
  | erase k =>
    simp only [exec, eraseKey]
    rcases findIdx_spec hE hR.toInv0 k with ⟨i, e, h1, h2, h3, h4, h5⟩ | ⟨h1, h2, h3⟩
    · rw [h1]
      simp only [lift]
      have hke : E.eq k e.1 = true := hE.symm _ _ h4
      have hgm : Spec.get E.eq m k = some e := by rw [← hget, h5]
      have hsafe : (clean = true → Small t) ∧ (tombstone t i = true ∨ Near E t) := by
        rcases hs with hs | hs
        · rw [hgm] at hs; cases hs
        · cases clean with
          | true =>
            have hsm : Small t := ⟨hR.clean rfl, by rw [hlen]; exact hs⟩
            exact ⟨fun _ => hsm, Or.inr (hsm.near hR.toCore hR.reach)⟩
          | false =>
            refine ⟨fun h => (by cases h), ?_⟩
            rcases hs with hs | hs
            · exact Or.inr hs
            · exact Or.inl (hs i h2 ⟨e, h3, h4⟩)
      obtain ⟨t', g1, g2, g3, g4, g5, g6⟩ := hR.toInv.eraseSlot hE h2 h3 hsafe.2
      rw [g1]
      refine ⟨⟨g2, by rw [g6]; exact hR.rev_lo, by rw [g6]; exact hR.rev_hi, ?_⟩, ⟨rfl, by rw [hgm]; rfl⟩, ?_⟩
      · intro hc
        rw [eraseSlot_eq hR.toCore h2 h3, (hsafe.1 hc).tombstone hR.toCore h2] at g1
        simp only [Bool.false_eq_true, if_false, Res.ok.injEq] at g1
        rw [← g1]
        exact dels_drop h2 (hR.clean hc) _
      · exact (Spec.erase_perm hE (hR.distinct.perm hE hm) (hm.symm.trans g3) hke).symm
    · rw [h1]
      have hgm : Spec.get E.eq m k = none := by rw [← hget, h3]
      have her : Spec.erase E.eq m k = m := by
        unfold Spec.erase
        rw [List.filter_eq_self]
        intro a ha
        rw [Spec.get_none_iff.mp hgm a ha]; rfl
      have hn : next E.eq m (Call.erase k : Call K V) = m := her
      exact ⟨hR, by rw [hn]; exact ⟨her.symm, by rw [hgm]; rfl⟩, by rw [hn]; exact hm⟩
  | size => exact ⟨hR, ⟨rfl, hlen⟩, hm⟩
  | empty =>
    refine ⟨hR, ⟨rfl, ?_⟩, hm⟩
    rw [beq_iff_eq, hlen, List.length_eq_zero_iff]
  | clear d =>
    have h4 := hs.2
    have hd : d = true := hs.1
    subst hd
    have hcl : clear true true t = .ok (freshMap (2 ^ 2) t.mlf t.rev) () := by
      unfold clear createGroup
      rw [decide_eq_true h4]
      rfl
    simp only [exec]
    rw [hcl]
    obtain ⟨h5, h6⟩ := Reach.fresh (K := K) (V := V) (E := E) (sec := sec) (clean := clean) (j := 2) (by omega) (by omega) (m := t.mlf) hR.rev_lo hR.rev_hi
    refine ⟨h5, rfl, ?_⟩
    rw [h6]; exact List.Perm.nil
  | reserve n => exact hreh n hs.2 _ rfl rfl (by show m = if n = 0 then [] else m; rw [if_neg hs.1])
  | rehash n => exact hreh n hs _ rfl rfl rfl
  | shrink ro =>
    simp only [exec, shrinkToFit]
    have h4 := minRequire_le t t.size
    have h5 : 4 ≤ t.size → t.size < minRequire t t.size := fun h => minRequire_gt hR.rev_lo hR.rev_hi h (by rw [hlen]; exact hs.1)
    cases ro with
    | true =>
      simp only [if_true]
      exact rehash_ok (c := Call.shrink _) hE hR hm rfl rfl (by rfl) (Nat.le_refl _) (by omega) (Or.inl (by rw [hlen]; exact hs.2 rfl)) hmem
    | false =>
      simp only [Bool.false_eq_true, if_false]
      by_cases h6 : 4 ≤ t.size
      · exact rehash_ok (c := Call.shrink _) hE hR hm rfl rfl (by rfl) (Nat.le_of_lt (h5 h6)) (by omega) (Or.inr (h5 h6)) hmem
      · have h7 : t.size ≤ minRequire t t.size := by
          unfold minRequire
          have h8 : t.size * t.rev ≤ 4 * 327680 := Nat.mul_le_mul (by omega) hR.rev_hi
          have h9 : t.size * 81920 ≤ t.size * t.rev := Nat.mul_le_mul_left _ hR.rev_lo
          rw [Nat.mod_eq_of_lt (by unfold W; omega)]
          omega
        exact rehash_ok (c := Call.shrink _) hE hR hm rfl rfl (by rfl) h7 (by omega) (Or.inl (Or.inl (by omega))) hmem
  | maxLoad x =>
    have hcap : cap t ≤ 32 := hs
    have hR1 : Reach clean E sec { t with mlf := x % 2 ^ 32, rev := rv x } :=
      ⟨⟨⟨⟨⟨hR.pow, hR.gmask, hR.cell, hR.mirror, hR.tail, hR.size, hR.left⟩, hR.reach⟩, hR.distinct⟩,
        fun h => absurd h (by have : cap { t with mlf := x % 2 ^ 32, rev := rv x } = cap t := rfl
                              omega)⟩, (hrv x).1, (hrv x).2, hR.clean⟩
    simp only [exec, setMlf]
    split
    · rw [if_pos (Or.inl hcap)]
      have h4 := minRequire_le { t with mlf := x % 2 ^ 32, rev := rv x } t.size
      have hsc := hR.size_le
      refine rehash_ok (c := Call.maxLoad x) hE hR1 hm rfl rfl (by rfl) (Nat.le_max_right _ _) ?_ ?_ hmem
      · show max (minRequire { t with mlf := x % 2 ^ 32, rev := rv x } t.size) t.size ≤ 2 ^ 63; omega
      · by_cases h7 : t.size < 4
        · exact Or.inl (Or.inl h7)
        · right
          have := minRequire_gt (t := { t with mlf := x % 2 ^ 32, rev := rv x }) (hrv x).1 (hrv x).2 (n := t.size) (by omega) (by omega)
          show t.size < max (minRequire { t with mlf := x % 2 ^ 32, rev := rv x } t.size) t.size; omega
    · exact ⟨hR1, rfl, hm⟩
  | iterate =>
    simp only [exec]
    rw [walk_spec hR.toCore]
    exact ⟨hR, ⟨rfl, hm⟩, hm⟩

/-! ### Histories -/

/-- Every call of the history is safe in the state in which it is made, and no allocation of slots fails. -/
def Guarded (clean : Bool) (E : Env K) (sec : Nat → Nat) (rv : Nat → Nat) : List (Mem × Call K V) → Map K V → Spec.Map K V → Prop
  | [], _, _ => True
  | (mem, c) :: cs, t, m => mem ≠ .noSlots ∧ Safe clean E t m c ∧
      (∀ t' a, exec E sec rv mem c t = .ok t' a → Guarded clean E sec rv cs t' (next E.eq m c)) ∧
      (∀ t', exec E sec rv mem c t = .throw t' → Guarded clean E sec rv cs t' m)

theorem run_ok (hE : E.Lawful) {clean : Bool} {rv : Nat → Nat} (hrv : ∀ x, 81920 ≤ rv x ∧ rv x ≤ 327680) :
    ∀ (cs : List (Mem × Call K V)) (t : Map K V) (m : Spec.Map K V), Reach clean E sec t → (entries t).Perm m →
      Guarded clean E sec rv cs t m →
      ∃ as t' m', run E sec rv cs t = .ok (as, t') ∧ Reach clean E sec t' ∧ (entries t').Perm m' ∧
        Spec.AcceptsAll E.eq m (cs.map (·.2)) as m' := by
  intro cs
  induction cs with
  | nil => intro t m h1 h2 _; exact ⟨[], t, m, rfl, h1, h2, rfl⟩
  | cons p cs ih =>
    intro t m h1 h2 h3
    obtain ⟨mem, c⟩ := p
    obtain ⟨h4, h5, h6, h7⟩ := h3
    have hstep := exec_ok hE h1 h2 hrv h4 h5
    unfold run
    generalize exec E sec rv mem c t = o at hstep h6 h7
    match o, hstep with
    | .ok t1 a, ⟨g1, g2, g3⟩ =>
      obtain ⟨as, t', m', e1, e2, e3, e4⟩ := ih t1 _ g1 g3 (h6 t1 a rfl)
      refine ⟨a :: as, t', m', ?_, e2, e3, _, g2, e4⟩
      simp only [e1, Res.bind_ok]
    | .throw t1, ⟨g1, g2, g3⟩ =>
      obtain ⟨as, t', m', e1, e2, e3, e4⟩ := ih t1 m g1 g3 (h7 t1 rfl)
      refine ⟨.threw :: as, t', m', ?_, e2, e3, m, ?_, e4⟩
      · simp only [e1, Res.bind_ok]
      · cases c <;> simp [Call.allocates] at g2 <;> exact ⟨rfl, rfl⟩

end Verif.Flat
