/-
Properties of `robin_hash_map` with the indirect layout: histories (C99) and the order of iteration (C100).
-/
import Verif.RobIndChk

namespace Verif.RobInd
open Spec (Distinct Call Ans)
open Robin (Roomy next contents givesStorage bareAfter bind_ok_inv Ended accepts_threw mul_div_le pow_two_le)

variable {K V : Type} {E : Env K}

/-! ### Histories that keep the map usable -/

/-- No `clear` while the map has no storage, and `find` only of keys that are present. -/
def Usable (eq : K → K → Bool) : Bool → Spec.Map K V → List (Bool × Call K V) → Prop
  | _, _, [] => True
  | bare, m, c :: cs => (bare = true → ∀ d, c.2 ≠ .clear d) ∧ (∀ k, c.2 = .find k → (Spec.get eq m k).isSome) ∧
      Usable eq (bareAfter bare c.2) (next eq m c.2) cs

/-! ### Which calls leave the map without storage -/

theorem rehash_not_fresh (hE : E.Lawful) {t : Map K V} (hR : Reach E t) {n : Nat} {mem : Bool} {t' : Map K V}
    (he : rehashImpl true E true false mem n t = .ok t' ()) : ¬ Fresh t' := by
  have hs := rehashImpl_spec hE (t := t) (by
    rcases hR.st with h | ⟨c, h⟩
    · exact Or.inl h
    · exact Or.inr ⟨c, h.toGood.weak hE⟩) true false mem n
  rw [he] at hs
  rcases hs with ⟨cap, _, _, h4⟩ | ⟨_, rfl, cap, h3, h4⟩
  · rintro ⟨m, r, rfl⟩
    have := h4.good.alloc
    cases this
  · rintro ⟨m, r, rfl⟩
    obtain ⟨j, hj, rfl, _⟩ := Robin.calcCapacity_ok h3
    have : (4 : Nat) ≤ 2 ^ j := pow_two_le (a := 2) hj
    have h0 : slotCap (emptyMap m r : Map K V) = 0 := rfl
    omega

theorem lift_ok {α β : Type} {r : Res α} {f : α → Out (Map K V) β} {t : Map K V} {b : β} (h : lift r f = .ok t b) :
    ∃ a, r = .ok a ∧ f a = .ok t b := by
  cases r with
  | ok a => exact ⟨a, rfl, h⟩
  | diverge => cases h
  | ub => cases h

theorem exec_not_threw {chk : Bool} {rv : Nat → Nat} {mem : Bool} {c : Call K V} {t t' : Map K V} :
    exec chk E rv mem c t ≠ .ok t' .threw := by
  intro h
  cases c <;> simp only [exec] at h
  case insert k v =>
    obtain ⟨s, x, _, h5⟩ := bind_ok_inv h
    unfold readElem at h5
    split at h5 <;> cases h5
  case assign k v =>
    obtain ⟨s, x, _, h5⟩ := bind_ok_inv h
    unfold readElem at h5
    split at h5 <;> cases h5
  case index k v =>
    obtain ⟨s, x, _, h5⟩ := bind_ok_inv h
    unfold readValue at h5
    split at h5 <;> cases h5
  all_goals first
    | cases h
    | (have h1 := lift_ok h; obtain ⟨_, _, h2⟩ := h1; cases h2)
    | (have h1 := bind_ok_inv h; obtain ⟨_, _, _, h2⟩ := h1; cases h2)

theorem exec_fresh (hE : E.Lawful) {t : Map K V} (hR : Reach E t) {m : Spec.Map K V}
    {rv : Nat → Nat} {mem : Bool} {c : Call K V} {t' : Map K V} {a : Ans K V}
    (he : exec true E rv mem c t = .ok t' a) (hs : StepOk E t m c (.ok t' a)) {bare : Bool} (hb : Fresh t → bare = true)
    (hf : Fresh t') : bareAfter bare c = true := by
  have hins : ∀ (n : Spec.Map K V) k e, (entries t').Perm n → Spec.get E.eq n k = some e → False := by
    intro n k e hp hg
    rw [hf.entries] at hp
    have : n = [] := hp.symm.eq_nil
    subst this
    cases hg
  cases c with
  | insert k v =>
    obtain ⟨_, h2, h3, _⟩ := hs
    cases a with
    | elem e b => exact (hins _ k e h3 h2.2.1).elim
    | threw => exact (exec_not_threw he).elim
    | _ => exact h2.elim
  | assign k v =>
    obtain ⟨_, h2, h3, _⟩ := hs
    cases a with
    | elem e b => exact (hins _ k e h3 h2.2.1).elim
    | threw => exact (exec_not_threw he).elim
    | _ => exact h2.elim
  | index k v =>
    obtain ⟨_, h2, h3, _⟩ := hs
    cases a with
    | value o =>
      obtain ⟨h4, h5, h6⟩ := h2
      rw [h5, Option.isSome_map] at h6
      obtain ⟨e, h7⟩ := Option.isSome_iff_exists.mp h6
      exact (hins _ k e h3 h7).elim
    | threw => exact (exec_not_threw he).elim
    | _ => exact h2.elim
  | find k =>
    simp only [exec] at he
    obtain ⟨_, _, h2⟩ := lift_ok he
    cases h2
    exact hb hf
  | contains k =>
    simp only [exec] at he
    obtain ⟨_, _, h2⟩ := lift_ok he
    cases h2
    exact hb hf
  | count k =>
    simp only [exec] at he
    obtain ⟨_, _, h2⟩ := lift_ok he
    cases h2
    exact hb hf
  | «at» k =>
    simp only [exec] at he
    obtain ⟨_, _, h2⟩ := lift_ok he
    cases h2
    exact hb hf
  | erase k =>
    apply hb
    rcases hR.st with h | ⟨c, h⟩
    · exact h
    · exfalso
      simp only [exec, eraseKey] at he
      obtain ⟨s, n, h1, h2⟩ := bind_ok_inv he
      cases h2
      obtain ⟨r, h3, h4⟩ := lift_ok h1
      cases r with
      | none => cases h4; exact h.not_fresh hf
      | some i =>
        simp only at h4
        split at h4
        · cases h4; exact h.not_fresh hf
        · obtain ⟨t2, h5, h6⟩ := lift_ok h4
          cases h6
          have hfi := findCtrlIdx_spec hE h.toGood k
          rw [h3] at hfi
          obtain ⟨hi, hd, _⟩ := hfi
          obtain ⟨t3, _, _, g1, g2⟩ := eraseSlot_spec hE h.toGood hi hd
          rw [g1] at h5
          cases h5
          obtain ⟨m, r, rfl⟩ := hf
          have := g2.good.alloc
          cases this
  | size => cases he; exact hb hf
  | empty => cases he; exact hb hf
  | clear d =>
    cases d with
    | true => rfl
    | false =>
      apply hb
      rcases hR.st with h | ⟨c, h⟩
      · exact h
      · exfalso
        simp only [exec, clear, Bool.and_false, Bool.false_eq_true, if_false] at he
        obtain ⟨s, n, h1, h2⟩ := bind_ok_inv he
        cases h2
        unfold clearData at h1
        rw [if_pos h.alloc] at h1
        cases h1
        obtain ⟨m, r, hf⟩ := hf
        have : t.alloc = false := congrArg Map.alloc hf
        rw [h.alloc] at this
        cases this
  | reserve n =>
    simp only [exec, rehash, Bool.false_eq_true, if_false] at he
    obtain ⟨s, u, h1, h2⟩ := bind_ok_inv he
    cases h2
    exact (rehash_not_fresh hE hR h1 hf).elim
  | rehash n =>
    simp only [exec, rehash, Bool.false_eq_true, if_false] at he
    obtain ⟨s, u, h1, h2⟩ := bind_ok_inv he
    cases h2
    exact (rehash_not_fresh hE hR h1 hf).elim
  | shrink ro =>
    simp only [exec, shrinkToFit] at he
    obtain ⟨s, u, h1, h2⟩ := bind_ok_inv he
    cases h2
    exact (rehash_not_fresh hE hR h1 hf).elim
  | maxLoad x =>
    apply hb
    rcases hR.st with h | ⟨c, h⟩
    · exact h
    · exfalso
      simp only [exec, setMlf] at he
      obtain ⟨s, u, h1, h2⟩ := bind_ok_inv he
      cases h2
      have hl := h.set_mlf (x % 2 ^ 32) (rv x)
      split at h1
      · simp only [rehash, Bool.false_eq_true, if_false] at h1
        have hs := rehashImpl_spec hE (t := { t with mlf := x % 2 ^ 32, rev := rv x }) (Or.inr ⟨c, hl.toGood.weak hE⟩) true false mem
          (max (minRequire { t with mlf := x % 2 ^ 32, rev := rv x } t.size) t.size)
        rw [h1] at hs
        rcases hs with ⟨cap, _, _, h4⟩ | ⟨_, h4, _⟩
        · obtain ⟨m, r, rfl⟩ := hf
          have := h4.good.alloc
          cases this
        · subst h4; exact hl.not_fresh hf
      · cases h1; exact hl.not_fresh hf
  | iterate =>
    simp only [exec] at he
    obtain ⟨_, _, h2⟩ := lift_ok he
    cases h2
    exact hb hf

/-! ### Whole histories -/

/-- The elements in the order of iteration after a history, from the history alone. -/
def orderAll (eq : K → K → Bool) (l : List (K × V)) (cs : List (Bool × Call K V)) : List (K × V) := cs.foldl (fun l c => order eq l c.2) l

/-- The answers of the calls `iterate` in a history: the elements in order. -/
def Ordered (eq : K → K → Bool) : List (K × V) → List (Bool × Call K V) → List (Ans K V) → Prop
  | l, c :: cs, a :: as => (c.2 = .iterate → a = .items l) ∧ Ordered eq (order eq l c.2) cs as
  | _, _, _ => True

/-- Correct answers, and the final state if there was no exception. -/
def RunOk (E : Env K) (l : List (K × V)) (m : Spec.Map K V) (cs : List (Bool × Call K V)) (as : List (Ans K V)) (t' : Map K V) : Prop :=
  ∃ m', Spec.AcceptsAll E.eq m ((cs.map (·.2)).take as.length) as m' ∧ Ended cs as ∧ Ordered E.eq l cs as ∧
    (as.getLast? ≠ some .threw → Reach E t' ∧ (entries t').Perm m' ∧ m' = cs.foldl (fun m c => next E.eq m c.2) m ∧
      entries t' = orderAll E.eq l cs)

/-- The checked code is undefined, or right; it always terminates. -/
theorem run_ok (hE : E.Lawful) {rv : Nat → Nat} (hrv : ∀ x, 256 ≤ rv x ∧ rv x ≤ 1024) :
    ∀ (cs : List (Bool × Call K V)) (t : Map K V) (m : Spec.Map K V), (∀ c ∈ cs, Robin.Valid c.2) → Reach E t → (entries t).Perm m →
      match run true E rv cs t with
      | .ok (as, t') => RunOk E (entries t) m cs as t'
      | .diverge => False
      | .ub => ∀ bare, (Fresh t → bare = true) → Usable E.eq bare m cs →
          ∃ n, n ≤ cs.length ∧ ¬ Room E ((cs.take n).foldl (fun m c => next E.eq m c.2) m) := by
  intro cs
  induction cs with
  | nil =>
    intro t m _ hR hm
    exact ⟨m, rfl, Or.inl rfl, trivial, fun _ => ⟨hR, hm, rfl, rfl⟩⟩
  | cons c cs ih =>
    intro t m hv hR hm
    obtain ⟨mem, c⟩ := c
    have hs := exec_ok hE hR hm hrv mem (hv _ (List.mem_cons_self ..))
    unfold run
    cases hx : exec true E rv mem c t with
    | ub =>
      rw [hx] at hs
      simp only
      intro bare hb hu
      rcases hs with h | h | ⟨h1, d, h2⟩ | ⟨_, k, h2, h3⟩
      · exact ⟨0, Nat.zero_le _, h⟩
      · exact ⟨1, by simp, h⟩
      · exact (hu.1 (hb h1) d h2).elim
      · have := hu.2.1 k h2
        rw [h3] at this
        cases this
    | diverge => rw [hx] at hs; exact hs
    | throw t' =>
      rw [hx] at hs
      simp only
      refine ⟨m, ?_, Or.inr rfl, ?_, fun h => (h rfl).elim⟩
      · exact ⟨m, accepts_threw hs, by simp [Spec.AcceptsAll]⟩
      · refine ⟨fun hi => ?_, by unfold Ordered; split <;> trivial⟩
        have hi' : c = .iterate := hi
        subst hi'
        cases hs
    | ok t' a =>
      rw [hx] at hs
      simp only
      have hi := ih t' (next E.eq m c) (fun c' hc' => hv c' (List.mem_cons_of_mem _ hc')) hs.1 hs.2.2.1
      cases hr : run true E rv cs t' with
      | diverge => rw [hr] at hi; exact hi
      | ub =>
        rw [hr] at hi
        simp only [Res.bind_ub]
        intro bare hb hu
        obtain ⟨n, h1, h2⟩ := hi (bareAfter bare c) (fun hf => exec_fresh hE hR hx hs hb hf) hu.2.2
        exact ⟨n + 1, by simp only [List.length_cons]; omega, h2⟩
      | ok r =>
        obtain ⟨as, t2⟩ := r
        rw [hr] at hi
        simp only [Res.bind_ok]
        obtain ⟨m', h1, h2, h4, h3⟩ := hi
        rw [hs.2.2.2.1] at h4
        have hne : a ≠ .threw := fun ha => exec_not_threw (ha ▸ hx)
        refine ⟨m', ⟨_, hs.2.1, h1⟩, ?_, ⟨hs.2.2.2.2, h4⟩, ?_⟩
        · rcases h2 with h2 | h2
          · left; simp [h2]
          · right
            rw [List.getLast?_cons, h2]
            rfl
        · intro hl
          have := h3 (by
            intro hl2
            apply hl
            rw [List.getLast?_cons, hl2]
            rfl)
          rw [hs.2.2.2.1] at this
          exact this

theorem reach_default : Reach E (emptyMap 128 512 : Map K V) :=
  ⟨by show 128 ≤ 256; omega, by show 256 ≤ 512; omega, by show 512 ≤ 1024; omega, Or.inl ⟨_, _, rfl⟩⟩

theorem reach_make {mem : Bool} {n : Nat} {t : Map K V} (h : (make mem n : Out (Map K V) Unit) = .ok t ()) :
    Reach E t ∧ entries t = [] ∧ (Fresh t → n = 0) := by
  unfold make at h
  by_cases hn : n = 0
  · rw [if_pos hn] at h
    cases h
    exact ⟨reach_default, rfl, fun _ => hn⟩
  · rw [if_neg hn] at h
    cases hc : Robin.calcCapacity n with
    | ub => rw [hc] at h; cases h
    | diverge => rw [hc] at h; cases h
    | ok cap =>
      rw [hc] at h
      obtain ⟨j, hj, rfl, _⟩ := Robin.calcCapacity_ok hc
      obtain ⟨h1, h2, h3, h4, h5, _⟩ := createSlots_good (E := E) hj h
      have hl : Live E t (2 ^ j) := { toGood := h1, thr_le := by rw [h5]; exact mul_div_le (by show 128 ≤ 256; omega),
                                      size_le := by rw [h1.size_eq, h2]; exact Nat.zero_le _ }
      refine ⟨⟨by rw [h3]; show 128 ≤ 256; omega, by rw [h4]; show 256 ≤ 512; omega, by rw [h4]; show 512 ≤ 1024; omega,
        Or.inr ⟨_, hl⟩⟩, h2, fun hf => (hl.not_fresh hf).elim⟩

/-! ### C99 -/

/-- C99, for all hash functions and all histories in which the contents always fit (`Room`: for every capacity at least the
number of elements, no more elements are at home in any interval than there is room for behind it; fewer than 2^32
elements) and `find` is only called with keys that are present.  The code as it is answers every call as the ideal map does,
until the end or until a failed allocation throws.

Missing for the full claim, because the code violates it: `find` of a missing key (`C101_find_missing`), `clear` on a map without
storage (`C99_clear_default`), and contents that do not fit (`C99_reads_past_the_control_words`, `C99_erase_answers_zero`). -/
theorem C99_indirect_partial (hE : E.Lawful) {rv : Nat → Nat} (hrv : ∀ x, 256 ≤ rv x ∧ rv x ≤ 1024) {mem : Bool} {n : Nat}
    {t0 : Map K V} (h0 : make mem n = .ok t0 ()) {cs : List (Bool × Call K V)} (hv : ∀ c ∈ cs, Robin.Valid c.2)
    (hu : Usable E.eq (decide (n = 0)) [] cs) (hr : ∀ i, i ≤ cs.length → Room E (contents E.eq (cs.take i))) :
    ∃ as t' m', run false E rv cs t0 = .ok (as, t') ∧
      Spec.AcceptsAll E.eq [] ((cs.map (·.2)).take as.length) as m' ∧ Ended cs as := by
  obtain ⟨hR, he, hf⟩ := reach_make (E := E) h0
  have h1 := run_ok hE hrv cs t0 [] hv hR (by rw [he])
  cases hx : run true E rv cs t0 with
  | diverge => rw [hx] at h1; exact h1.elim
  | ub =>
    rw [hx] at h1
    obtain ⟨i, hi, hn⟩ := h1 (decide (n = 0)) (fun h => decide_eq_true (hf h)) hu
    exact (hn (hr i hi)).elim
  | ok r =>
    obtain ⟨as, t'⟩ := r
    rw [hx] at h1
    obtain ⟨m', h2, h3, _⟩ := h1
    rcases run_chk (E := E) rv cs t0 with h4 | h4
    · rw [hx] at h4; cases h4
    · exact ⟨as, t', m', by rw [← h4, hx], h2, h3⟩

/-- C99 without the conditions on the contents and on `find`: the checked code, which differs from the real one only by
stopping with an undefined outcome where the distance byte would overflow, an index would not fit into its 32 bits or a rehash
find no room, never loops, and whenever it is defined the real code does the same and answers as the ideal map. -/
theorem C99_indirect_checked_partial (hE : E.Lawful) {rv : Nat → Nat} (hrv : ∀ x, 256 ≤ rv x ∧ rv x ≤ 1024) {mem : Bool} {n : Nat}
    {t0 : Map K V} (h0 : make mem n = .ok t0 ()) {cs : List (Bool × Call K V)} (hv : ∀ c ∈ cs, Robin.Valid c.2) :
    run true E rv cs t0 ≠ .diverge ∧
      ∀ as t', run true E rv cs t0 = .ok (as, t') →
        run false E rv cs t0 = .ok (as, t') ∧
        ∃ m', Spec.AcceptsAll E.eq [] ((cs.map (·.2)).take as.length) as m' ∧ Ended cs as := by
  obtain ⟨hR, he, hf⟩ := reach_make (E := E) h0
  have h1 := run_ok hE hrv cs t0 [] hv hR (by rw [he])
  refine ⟨fun hd => by rw [hd] at h1; exact h1, ?_⟩
  intro as t' hx
  rw [hx] at h1
  obtain ⟨m', h2, h3, _⟩ := h1
  rcases run_chk (E := E) rv cs t0 with h4 | h4
  · rw [hx] at h4; cases h4
  · exact ⟨by rw [← h4, hx], m', h2, h3⟩

/-- Five elements fit into every block, whatever their hashes. -/
theorem room_five {l : List (K × V)} (h : l.length ≤ 5) : Room E l := ⟨Robin.roomy_five h, by omega⟩

/-- C99 for every hash function, as long as there are never more than five elements. -/
theorem C99_indirect_small_partial (hE : E.Lawful) {rv : Nat → Nat} (hrv : ∀ x, 256 ≤ rv x ∧ rv x ≤ 1024) {mem : Bool} {n : Nat}
    {t0 : Map K V} (h0 : make mem n = .ok t0 ()) {cs : List (Bool × Call K V)} (hv : ∀ c ∈ cs, Robin.Valid c.2)
    (hu : Usable E.eq (decide (n = 0)) [] cs) (hr : ∀ i, i ≤ cs.length → (contents E.eq (cs.take i)).length ≤ 5) :
    ∃ as t' m', run false E rv cs t0 = .ok (as, t') ∧
      Spec.AcceptsAll E.eq [] ((cs.map (·.2)).take as.length) as m' ∧ Ended cs as :=
  C99_indirect_partial hE hrv h0 hv hu fun i hi => room_five (hr i hi)

/-! ### C100 -/

/-- C100: the order of iteration depends on the history of calls only, not on hashes, capacities or rehashes.  A new element comes
last, an assignment keeps the place, an erasure moves the last element to the place of the erased one, and `reserve`, `rehash`,
`shrink_to_fit` and growth keep the order.  For histories as in `C99_indirect_partial` without a failed allocation. -/
theorem C100_order_partial (hE : E.Lawful) {rv : Nat → Nat} (hrv : ∀ x, 256 ≤ rv x ∧ rv x ≤ 1024) {mem : Bool} {n : Nat}
    {t0 : Map K V} (h0 : make mem n = .ok t0 ()) {cs : List (Bool × Call K V)} (hv : ∀ c ∈ cs, Robin.Valid c.2)
    (hu : Usable E.eq (decide (n = 0)) [] cs) (hr : ∀ i, i ≤ cs.length → Room E (contents E.eq (cs.take i))) :
    ∃ as t', run false E rv cs t0 = .ok (as, t') ∧ Ordered E.eq [] cs as ∧
      (as.getLast? ≠ some .threw → walk t' = .ok (orderAll E.eq [] cs)) := by
  obtain ⟨hR, he, hf⟩ := reach_make (E := E) h0
  have h1 := run_ok hE hrv cs t0 [] hv hR (by rw [he])
  cases hx : run true E rv cs t0 with
  | diverge => rw [hx] at h1; exact h1.elim
  | ub =>
    rw [hx] at h1
    obtain ⟨i, hi, hn⟩ := h1 (decide (n = 0)) (fun h => decide_eq_true (hf h)) hu
    exact (hn (hr i hi)).elim
  | ok r =>
    obtain ⟨as, t'⟩ := r
    rw [hx, he] at h1
    obtain ⟨m', h2, h3, h5, h6⟩ := h1
    refine ⟨as, t', ?_, h5, fun hl => ?_⟩
    · rcases run_chk (E := E) rv cs t0 with h4 | h4
      · rw [hx] at h4; cases h4
      · rw [← h4, hx]
    · obtain ⟨g1, _, _, g4⟩ := h6 hl
      rw [← g4]
      rcases g1.st with ⟨a, b, rfl⟩ | ⟨c, h⟩
      · rfl
      · exact walk_spec h.toGood

/-- Elements inserted under different keys into an empty map are met in the order of insertion. -/
theorem orderAll_inserts (hE : E.Lawful) (mem : Bool) : ∀ (l l0 : List (K × V)), Distinct E.eq (l0 ++ l) →
    orderAll E.eq l0 (l.map fun e => (mem, Call.insert e.1 e.2)) = l0 ++ l := by
  intro l
  induction l with
  | nil => intro l0 _; simp [orderAll]
  | cons e l ih =>
    intro l0 hd
    have hg : Spec.get E.eq l0 e.1 = none := by
      refine Spec.get_none_iff.mpr fun x hx => ?_
      have := (List.pairwise_append.mp hd).2.2 x hx e (List.mem_cons_self ..)
      exact Robin.absent_symm hE this
    have := ih (l0 ++ [e]) (by simpa using hd)
    simp only [orderAll, List.map_cons, List.foldl_cons, order, hg, Option.isSome_none, Bool.false_eq_true, if_false] at this ⊢
    simpa using this

/-! ### Reached states -/

/-- The states reached by complete histories in which the checked code is defined.  (The code as it is then behaves the same,
`C99_indirect_checked_partial`.) -/
def Reached (E : Env K) (rv : Nat → Nat) (cs : List (Bool × Call K V)) (t : Map K V) : Prop :=
  (∀ c ∈ cs, Robin.Valid c.2) ∧ ∃ n mem t0 as, make mem n = .ok t0 () ∧ run true E rv cs t0 = .ok (as, t) ∧
    as.getLast? ≠ some .threw

theorem Reached.reach (hE : E.Lawful) {rv : Nat → Nat} (hrv : ∀ x, 256 ≤ rv x ∧ rv x ≤ 1024) {cs : List (Bool × Call K V)}
    {t : Map K V} (h : Reached E rv cs t) : Reach E t ∧ (entries t).Perm (contents E.eq cs) ∧ entries t = orderAll E.eq [] cs := by
  obtain ⟨hv, n, mem, t0, as, h0, h1, h2⟩ := h
  obtain ⟨hR, he, _⟩ := reach_make (E := E) h0
  have h3 := run_ok hE hrv cs t0 [] hv hR (by rw [he])
  rw [h1, he] at h3
  obtain ⟨m', _, _, _, h4⟩ := h3
  obtain ⟨a, b, c, d⟩ := h4 h2
  exact ⟨a, by rw [c] at b; exact b, d⟩

/-- The real code finds every present key of a good map; an absent one is reported absent if the elements fit. -/
theorem Good.find_real (hE : E.Lawful) {t : Map K V} {c : Nat} (h : Good E t c) (k : K) :
    (∀ e, Spec.get E.eq (entries t) k = some e → ∃ i, i < t.slen ∧ 0 ≤ (t.ctrl i).dist ∧ findCtrlIdx false E t k = .ok (some i) ∧
      t.slot (t.ctrl i).idx = some e) ∧
      (Spec.get E.eq (entries t) k = none → Robin.Fits E c (entries t) → findCtrlIdx false E t k = .ok none) := by
  have h1 := findCtrlIdx_spec hE h k
  have hle := findCtrlIdx_chk (E := E) t k
  cases hf : findCtrlIdx true E t k with
  | diverge => rw [hf] at h1; exact h1.elim
  | ub =>
    rw [hf] at h1
    exact ⟨fun e he => (by rw [h1.2] at he; cases he), fun _ hfit => (h1.1 hfit).elim⟩
  | ok o =>
    rw [hf] at h1
    have hr : findCtrlIdx false E t k = .ok o := by
      rcases hle with h2 | h2
      · rw [hf] at h2; cases h2
      · rw [← h2, hf]
    cases o with
    | none =>
      have h1' : Spec.get E.eq (entries t) k = none := h1
      exact ⟨fun e he => (by rw [h1'] at he; cases he), fun _ _ => hr⟩
    | some i =>
      obtain ⟨g1, g0, e, g2, g3⟩ := h1
      refine ⟨fun e' he => ⟨i, g1, g0, hr, ?_⟩, fun hn => (by rw [g3] at hn; cases hn)⟩
      rw [g3] at he; cases he
      exact g2

/-- The answers of `find`, `contains` and `at` for a present key. -/
theorem Good.read_real (hE : E.Lawful) {t : Map K V} {c : Nat} (h : Good E t c) {k : K} {e : K × V}
    (hk : Spec.get E.eq (entries t) k = some e) :
    lookup false E t k = .ok (some e) ∧ contains false E t k = .ok true ∧ atKey false E t k = .ok (some e.2) := by
  obtain ⟨i, b0, b1, b2, b3⟩ := (h.find_real hE k).1 e hk
  have hi := h.idx i b0 b1
  have hs := h.size_le_slen
  have hl : t.last ≠ some (t.ctrl i).idx := by
    rcases h.last with hx | hx <;> rw [hx] <;> intro hy
    · cases hy
    · have := Option.some.inj hy
      omega
  have hf : findIdx false E t k = .ok (some (t.ctrl i).idx) := by unfold findIdx; rw [b2]; rfl
  refine ⟨?_, ?_, ?_⟩
  · unfold lookup findIter
    rw [hf]
    simp only [Res.bind_ok]
    rw [if_neg (by unfold endPtr; intro hx; have := Option.some.inj hx; omega), b3]
  · unfold contains
    rw [hf]
    simp only [Res.bind_ok]
    rw [decide_eq_true hl]
  · unfold atKey
    rw [hf]
    simp only [Res.bind_ok]
    rw [if_neg hl, b3]

/-- The answers of `contains` and `at` for an absent key. -/
theorem Good.read_absent (hE : E.Lawful) {t : Map K V} {c : Nat} (h : Good E t c) {k : K}
    (hk : Spec.get E.eq (entries t) k = none) (hfit : Robin.Fits E c (entries t)) :
    contains false E t k = .ok false ∧ atKey false E t k = .ok none := by
  have b2 := (h.find_real hE k).2 hk hfit
  have hf : findIdx false E t k = .ok none := by unfold findIdx; rw [b2]; rfl
  refine ⟨?_, ?_⟩
  · unfold contains; rw [hf]; rfl
  · unfold atKey; rw [hf]; rfl

/-! ### C101 -/

/-- C101 is violated: on every map that owns storage, `find` of an absent key returns an iterator different from `end()`
(`last_slot()` behind the last slot of the block, `end()` behind the last element), and dereferencing it is undefined. -/
theorem C101_find_missing (hE : E.Lawful) {rv : Nat → Nat} (hrv : ∀ x, 256 ≤ rv x ∧ rv x ≤ 1024) {cs : List (Bool × Call K V)}
    {t : Map K V} (h : Reached E rv cs t) (ha : t.alloc = true) {k : K} (hk : Spec.get E.eq (contents E.eq cs) k = none)
    (hfit : Robin.Fits E (slotCap t) (contents E.eq cs)) :
    (∃ p, findIter false E t k = .ok p ∧ p ≠ endPtr t) ∧ lookup false E t k = .ub := by
  obtain ⟨hR, hm, _⟩ := h.reach hE hrv
  have hget := Spec.get_perm hE hm (hR.distinct hE) k
  rcases hR.st with ⟨a, b, rfl⟩ | ⟨c, hl⟩
  · cases ha
  · rw [hl.toShape.slotCap] at hfit
    have b2 := (hl.toGood.find_real hE k).2 (hget.trans hk) (hfit.perm hm.symm)
    have hf : findIter false E t k = .ok t.last := by unfold findIter findIdx; rw [b2]; rfl
    have hne : t.last ≠ endPtr t := by
      have h1 := hl.size_le
      have h2 := hl.slen
      have h3 := (Robin.lookups_bounds c).1
      unfold endPtr
      rcases hl.last with hx | hx <;> rw [hx] <;> intro hy
      · cases hy
      · have := Option.some.inj hy
        omega
    refine ⟨⟨_, hf, hne⟩, ?_⟩
    unfold lookup
    rw [hf]
    simp only [Res.bind_ok]
    rw [if_neg hne]
    rcases hl.last with hx | hx <;> rw [hx]
    simp only
    rw [hl.none_ t.slen hl.size_le_slen]

/-- C101, what holds: `find` of a present key gives its element, `contains` and `at` are right for every key, and on a
map without storage `find` is `end()`. -/
theorem C101_find_partial (hE : E.Lawful) {rv : Nat → Nat} (hrv : ∀ x, 256 ≤ rv x ∧ rv x ≤ 1024) {cs : List (Bool × Call K V)}
    {t : Map K V} (h : Reached E rv cs t) (k : K) :
    (∀ e, Spec.get E.eq (contents E.eq cs) k = some e →
      lookup false E t k = .ok (some e) ∧ contains false E t k = .ok true ∧ atKey false E t k = .ok (some e.2)) ∧
    (Spec.get E.eq (contents E.eq cs) k = none → Robin.Fits E (slotCap t) (contents E.eq cs) →
      contains false E t k = .ok false ∧ atKey false E t k = .ok none) ∧
    (t.alloc = false → findIter false E t k = .ok (endPtr t)) := by
  obtain ⟨hR, hm, _⟩ := h.reach hE hrv
  have hget := Spec.get_perm hE hm (hR.distinct hE) k
  rcases hR.st with hf | ⟨c, hl⟩
  · have hn : Spec.get E.eq (contents E.eq cs) k = none := by rw [← hget, hf.get]
    have h2 : findIdx false E t k = .ok none := by
      rcases findIdx_chk (E := E) t k with h3 | h3
      · rw [findIdx_fresh hf] at h3; cases h3
      · rw [← h3, findIdx_fresh hf]
    refine ⟨fun e he => (by rw [hn] at he; cases he), fun _ _ => ⟨by unfold contains; rw [h2]; rfl, by unfold atKey; rw [h2]; rfl⟩,
      fun _ => ?_⟩
    unfold findIter
    rw [h2]
    obtain ⟨a, b, rfl⟩ := hf
    rfl
  · refine ⟨fun e he => hl.toGood.read_real hE (hget.trans he), fun hn hfit => ?_, fun ha => ?_⟩
    · rw [hl.toShape.slotCap] at hfit
      exact hl.toGood.read_absent hE (hget.trans hn) (hfit.perm hm.symm)
    · rw [hl.alloc] at ha; cases ha

/-! ### C102 -/

/-- C102: `erase(k)` of a present key answers 1 and makes the size one smaller.  Every other key keeps its value, as `find`,
`contains` and `at` tell; the key itself is gone.  In the order of iteration the last element takes the place of the erased one, all
others keep their places (and their addresses). -/
theorem C102_erase_keeps_others (hE : E.Lawful) {rv : Nat → Nat} (hrv : ∀ x, 256 ≤ rv x ∧ rv x ≤ 1024) {cs : List (Bool × Call K V)}
    {t : Map K V} (h : Reached E rv cs t) {k : K} {e : K × V} (hk : Spec.get E.eq (contents E.eq cs) k = some e) :
    ∃ t', eraseKey false E k t = .ok t' 1 ∧ t'.size + 1 = t.size ∧ slotCap t' = slotCap t ∧
      (∀ k' e', E.eq k k' = false → Spec.get E.eq (contents E.eq cs) k' = some e' →
        lookup false E t' k' = .ok (some e') ∧ contains false E t' k' = .ok true ∧ atKey false E t' k' = .ok (some e'.2)) ∧
      (∀ k', Robin.Fits E (slotCap t) (contents E.eq cs) → E.eq k k' = true ∨ Spec.get E.eq (contents E.eq cs) k' = none →
        contains false E t' k' = .ok false ∧ atKey false E t' k' = .ok none) ∧
      ∃ i, t.slot i = some e ∧ i < t.size ∧ walk t' = .ok (swapRemove (entries t) i) ∧
        ∀ j, j + 1 < t.size → j ≠ i → t'.slot j = t.slot j := by
  obtain ⟨hR, hm, _⟩ := h.reach hE hrv
  have hd : Distinct E.eq (contents E.eq cs) := Spec.Distinct.perm hE hm (hR.distinct hE)
  have hget : ∀ k, Spec.get E.eq (entries t) k = Spec.get E.eq (contents E.eq cs) k := Spec.get_perm hE hm (hR.distinct hE)
  rcases hR.st with hf | ⟨c, hl⟩
  · rw [← hget, hf.entries] at hk; cases hk
  · obtain ⟨i, g1, g0, g2, g3⟩ := (hl.toGood.find_real hE k).1 e (by rw [hget]; exact hk)
    obtain ⟨t', ee, e0, e1, e2⟩ := eraseSlot_spec hE hl.toGood g1 g0
    rw [g3] at e0
    cases e0
    have hi := hl.idx i g1 g0
    have hkm : E.eq k e.1 = true := ((Spec.get_some_iff hE hd).mp hk).2
    have hdl : Distinct E.eq (e :: entries t') := Spec.Distinct.perm hE e2.perm.symm (hl.toGood.distinct hE)
    have hd' := e2.good.distinct hE
    have hother : ∀ k' e', E.eq k k' = false → Spec.get E.eq (contents E.eq cs) k' = some e' → Spec.get E.eq (entries t') k' = some e' := by
      intro k' e' hne hg
      obtain ⟨a1, a2⟩ := (Spec.get_some_iff hE hd).mp hg
      have a3 : e' ∈ e :: entries t' := e2.perm.mem_iff.mpr (hm.mem_iff.mpr a1)
      rw [Spec.get_some_iff hE hd']
      refine ⟨?_, a2⟩
      rcases List.mem_cons.mp a3 with rfl | a3
      · exfalso
        have := hE.trans _ _ _ hkm (hE.symm _ _ a2)
        rw [hne] at this; cases this
      · exact a3
    have hgone : ∀ k', E.eq k k' = true ∨ Spec.get E.eq (contents E.eq cs) k' = none → Spec.get E.eq (entries t') k' = none := by
      intro k' hc
      rw [Spec.get_none_iff]
      intro x hx
      cases hq : E.eq k' x.1 with
      | false => rfl
      | true =>
        exfalso
        rcases hc with hc | hc
        · have hx' := (List.pairwise_cons.mp hdl).1 x hx
          have := hE.trans _ _ _ (hE.symm _ _ hkm) (hE.trans _ _ _ hc hq)
          rw [hx'] at this; cases this
        · have := Spec.get_none_iff.mp hc x (hm.mem_iff.mp (e2.perm.mem_iff.mp (List.mem_cons_of_mem _ hx)))
          rw [hq] at this; cases this
    have hsz : t'.size + 1 = t.size := by rw [e2.good.size_eq, hl.size_eq, ← e2.perm.length_eq]; simp
    refine ⟨t', ?_, hsz, by rw [hl.toShape.slotCap, e2.good.toShape.slotCap], ?_, ?_, (t.ctrl i).idx, g3, hi, ?_, ?_⟩
    · unfold eraseKey
      rw [g2]
      simp only [lift]
      rw [if_neg (by rw [hl.toShape.maxCap]; omega), e1]
    · intro k' e' hne hg
      exact e2.good.read_real hE (hother k' e' hne hg)
    · intro k' hfit hc
      rw [hl.toShape.slotCap] at hfit
      exact e2.good.read_absent hE (hgone k' hc) ((hfit.perm (hm.symm.trans e2.perm.symm)).sublist (List.sublist_cons_self _ _))
    · rw [walk_spec e2.good, e2.order hl.toGood hi]
    · intro j hj hne
      rw [e2.slot, upd_other _ _ (by omega), upd_other _ _ hne]

end Verif.RobInd
