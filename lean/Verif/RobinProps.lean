/-
Properties C31 (lookup), C32 (erasure and layout) and C33 (probe distances) of `robin_hash_map`.
-/
import Verif.RobinChk

namespace Verif.Robin
open Spec (Distinct Call Ans)

variable {K V : Type} {E : Env K}

/-! ### Histories that keep the map usable -/

/-- The contents of the ideal map after a history. -/
def contents (eq : K → K → Bool) (cs : List (Bool × Call K V)) : Spec.Map K V := cs.foldl (fun m c => next eq m c.2) []

/-- Calls after which the map owns storage. -/
def givesStorage : Call K V → Bool
  | .insert _ _ | .assign _ _ | .index _ _ | .reserve _ | .rehash _ | .shrink _ => true
  | _ => false

/-- Is the map without storage after the call, if it was (`bare`) before? -/
def bareAfter (bare : Bool) : Call K V → Bool
  | .clear true => true
  | c => if givesStorage c then false else bare

/-- No `find` and no `clear` while the map has no storage. -/
def Usable : Bool → List (Bool × Call K V) → Prop
  | _, [] => True
  | bare, c :: cs => (bare = true → (∀ k, c.2 ≠ .find k) ∧ ∀ d, c.2 ≠ .clear d) ∧ Usable (bareAfter bare c.2) cs

/-! ### Which calls leave the map without storage -/

theorem Live.not_fresh {t : Map K V} {c : Nat} (h : Live E t c) : ¬ Fresh t := by
  rintro ⟨m, r, rfl⟩
  have := h.alloc
  cases this

theorem rehash_not_fresh (hE : E.Lawful) {t : Map K V} (hR : Reach E t) {n : Nat} {mem : Bool} {t' : Map K V}
    (he : rehashImpl false true E true false mem n t = .ok t' ()) : ¬ Fresh t' := by
  have hs := rehashImpl_spec hE (t := t) (by
    rcases hR.st with h | ⟨c, h⟩
    · exact Or.inl h
    · exact Or.inr ⟨c, h.toGood.weak⟩) true false mem n
  rw [he] at hs
  rcases hs with ⟨cap, _, _, h4⟩ | ⟨_, rfl, cap, h3, h4⟩
  · rintro ⟨m, r, rfl⟩
    have := h4.good.alloc
    cases this
  · rintro ⟨m, r, rfl⟩
    obtain ⟨j, hj, rfl, _⟩ := calcCapacity_ok h3
    have : (4 : Nat) ≤ 2 ^ j := pow_two_le (a := 2) hj
    have h0 : slotCap (emptyMap false m r : Map K V) = 0 := rfl
    omega

theorem lift_ok {α β : Type} {r : Res α} {f : α → Out (Map K V) β} {t : Map K V} {b : β} (h : Robin.lift r f = .ok t b) :
    ∃ a, r = .ok a ∧ f a = .ok t b := by
  cases r with
  | ok a => exact ⟨a, rfl, h⟩
  | diverge => cases h
  | ub => cases h

theorem bind_ok_inv {σ α β : Type} {r : Out σ α} {f : σ → α → Out σ β} {t : σ} {b : β} (h : r.bind f = .ok t b) :
    ∃ s a, r = .ok s a ∧ f s a = .ok t b := by
  cases r with
  | ok s a => exact ⟨s, a, rfl, h⟩
  | throw s => cases h
  | diverge => cases h
  | ub => cases h

theorem exec_not_threw {store chk : Bool} {rv : Nat → Nat} {mem : Bool} {c : Call K V} {t t' : Map K V} :
    exec store chk E rv mem c t ≠ .ok t' .threw := by
  intro h
  cases c <;> simp only [exec] at h
  case insert k v =>
    obtain ⟨s, x, _, h5⟩ := bind_ok_inv h
    unfold readElem at h5
    split at h5 <;> cases h5
  case assign k v =>
    obtain ⟨s, x, _, h5⟩ := bind_ok_inv h
    unfold readElem at h5
    split at h5 <;> cases h5
  case index k v =>
    obtain ⟨s, x, _, h5⟩ := bind_ok_inv h
    unfold readValue at h5
    split at h5 <;> cases h5
  all_goals first
    | cases h
    | (have h1 := lift_ok h; obtain ⟨_, _, h2⟩ := h1; cases h2)
    | (have h1 := bind_ok_inv h; obtain ⟨_, _, _, h2⟩ := h1; cases h2)

theorem exec_fresh (hE : E.Lawful) {t : Map K V} (hR : Reach E t) {m : Spec.Map K V}
    {rv : Nat → Nat} {mem : Bool} {c : Call K V} {t' : Map K V} {a : Ans K V}
    (he : exec false true E rv mem c t = .ok t' a) (hs : StepOk E t m c (.ok t' a)) {bare : Bool} (hb : Fresh t → bare = true)
    (hf : Fresh t') : bareAfter bare c = true := by
  have hins : ∀ (n : Spec.Map K V) k e, (entries t').Perm n → Spec.get E.eq n k = some e → False := by
    intro n k e hp hg
    rw [hf.entries] at hp
    have : n = [] := hp.symm.eq_nil
    subst this
    cases hg
  cases c with
  | insert k v =>
    obtain ⟨_, h2, h3⟩ := hs
    cases a with
    | elem e b => exact (hins _ k e h3 h2.2.1).elim
    | threw => exact (exec_not_threw he).elim
    | _ => exact h2.elim
  | assign k v =>
    obtain ⟨_, h2, h3⟩ := hs
    cases a with
    | elem e b => exact (hins _ k e h3 h2.2.1).elim
    | threw => exact (exec_not_threw he).elim
    | _ => exact h2.elim
  | index k v =>
    obtain ⟨_, h2, h3⟩ := hs
    cases a with
    | value o =>
      obtain ⟨h4, h5, h6⟩ := h2
      rw [h5, Option.isSome_map] at h6
      obtain ⟨e, h7⟩ := Option.isSome_iff_exists.mp h6
      exact (hins _ k e h3 h7).elim
    | threw => exact (exec_not_threw he).elim
    | _ => exact h2.elim
  | find k =>
    simp only [exec] at he
    obtain ⟨_, _, h2⟩ := lift_ok he
    cases h2
    exact hb hf
  | contains k =>
    simp only [exec] at he
    obtain ⟨_, _, h2⟩ := lift_ok he
    cases h2
    exact hb hf
  | count k =>
    simp only [exec] at he
    obtain ⟨_, _, h2⟩ := lift_ok he
    cases h2
    exact hb hf
  | «at» k =>
    simp only [exec] at he
    obtain ⟨_, _, h2⟩ := lift_ok he
    cases h2
    exact hb hf
  | erase k =>
    apply hb
    rcases hR.st with h | ⟨c, h⟩
    · exact h
    · exfalso
      simp only [exec, eraseKey] at he
      obtain ⟨s, n, h1, h2⟩ := bind_ok_inv he
      cases h2
      obtain ⟨r, h3, h4⟩ := lift_ok h1
      cases r with
      | none => cases h4; exact h.not_fresh hf
      | some i =>
        simp only at h4
        split at h4
        · cases h4; exact h.not_fresh hf
        · obtain ⟨t2, h5, h6⟩ := lift_ok h4
          cases h6
          have hfi := findIdx_spec hE h.toGood k
          rw [h3] at hfi
          obtain ⟨hi, e, h7, _⟩ := hfi
          obtain ⟨t3, g1, g2, _⟩ := eraseSlot_spec h.toGood hE hi h7
          rw [g1] at h5
          cases h5
          obtain ⟨m, r, rfl⟩ := hf
          have := g2.alloc
          cases this
  | size => cases he; exact hb hf
  | empty => cases he; exact hb hf
  | clear d =>
    cases d with
    | true => rfl
    | false =>
      apply hb
      rcases hR.st with h | ⟨c, h⟩
      · exact h
      · exfalso
        simp only [exec, clear, Bool.and_false, Bool.false_eq_true, if_false] at he
        obtain ⟨s, n, h1, h2⟩ := bind_ok_inv he
        cases h2
        unfold clearData at h1
        rw [if_pos h.alloc] at h1
        cases h1
        obtain ⟨m, r, hf⟩ := hf
        have : t.alloc = false := congrArg Map.alloc hf
        rw [h.alloc] at this
        cases this
  | reserve n =>
    simp only [exec, rehash, Bool.false_eq_true, if_false] at he
    obtain ⟨s, u, h1, h2⟩ := bind_ok_inv he
    cases h2
    exact (rehash_not_fresh hE hR h1 hf).elim
  | rehash n =>
    simp only [exec, rehash, Bool.false_eq_true, if_false] at he
    obtain ⟨s, u, h1, h2⟩ := bind_ok_inv he
    cases h2
    exact (rehash_not_fresh hE hR h1 hf).elim
  | shrink ro =>
    simp only [exec, shrinkToFit] at he
    obtain ⟨s, u, h1, h2⟩ := bind_ok_inv he
    cases h2
    exact (rehash_not_fresh hE hR h1 hf).elim
  | maxLoad x =>
    apply hb
    rcases hR.st with h | ⟨c, h⟩
    · exact h
    · exfalso
      simp only [exec, setMlf] at he
      obtain ⟨s, u, h1, h2⟩ := bind_ok_inv he
      cases h2
      have hl := h.set_mlf (x % 2 ^ 32) (rv x)
      split at h1
      · simp only [rehash, Bool.false_eq_true, if_false] at h1
        have hs := rehashImpl_spec hE (t := { t with mlf := x % 2 ^ 32, rev := rv x }) (Or.inr ⟨c, hl.toGood.weak⟩) true false mem
          (max (minRequire { t with mlf := x % 2 ^ 32, rev := rv x } t.size) t.size)
        rw [h1] at hs
        rcases hs with ⟨cap, _, _, h4⟩ | ⟨_, h4, _⟩
        · obtain ⟨m, r, rfl⟩ := hf
          have := h4.good.alloc
          cases this
        · subst h4; exact hl.not_fresh hf
      · cases h1; exact hl.not_fresh hf
  | iterate =>
    simp only [exec] at he
    obtain ⟨_, _, h2⟩ := lift_ok he
    cases h2
    exact hb hf

/-! ### Whole histories -/

/-- A history is complete, or ended by an exception. -/
def Ended (cs : List (Bool × Call K V)) (as : List (Ans K V)) : Prop := as.length = cs.length ∨ as.getLast? = some .threw

/-- Correct answers, and the final state if there was no exception. -/
def RunOk (E : Env K) (m : Spec.Map K V) (cs : List (Bool × Call K V)) (as : List (Ans K V)) (t' : Map K V) : Prop :=
  ∃ m', Spec.AcceptsAll E.eq m ((cs.map (·.2)).take as.length) as m' ∧ Ended cs as ∧
    (as.getLast? ≠ some .threw → Reach E t' ∧ (entries t').Perm m' ∧ m' = cs.foldl (fun m c => next E.eq m c.2) m)

theorem accepts_threw {eq : K → K → Bool} {m : Spec.Map K V} {c : Call K V} (h : c.allocates = true) : Spec.Accepts eq m c .threw m := by
  cases c <;> exact ⟨h, rfl⟩

/-- The checked code is undefined, or right; it always terminates. -/
theorem run_ok (hE : E.Lawful) {rv : Nat → Nat} (hrv : ∀ x, 256 ≤ rv x ∧ rv x ≤ 1024) :
    ∀ (cs : List (Bool × Call K V)) (t : Map K V) (m : Spec.Map K V), (∀ c ∈ cs, Valid c.2) → Reach E t → (entries t).Perm m →
      match run false true E rv cs t with
      | .ok (as, t') => RunOk E m cs as t'
      | .diverge => False
      | .ub => ∀ bare, (Fresh t → bare = true) → Usable bare cs →
          ∃ n, n ≤ cs.length ∧ ¬ Roomy E ((cs.take n).foldl (fun m c => next E.eq m c.2) m) := by
  intro cs
  induction cs with
  | nil =>
    intro t m _ hR hm
    exact ⟨m, rfl, Or.inl rfl, fun _ => ⟨hR, hm, rfl⟩⟩
  | cons c cs ih =>
    intro t m hv hR hm
    obtain ⟨mem, c⟩ := c
    have hs := exec_ok hE hR hm hrv mem (hv _ (List.mem_cons_self ..))
    unfold run
    cases hx : exec false true E rv mem c t with
    | ub =>
      rw [hx] at hs
      simp only
      intro bare hb hu
      rcases hs with h | h | ⟨h1, h2⟩
      · exact ⟨0, Nat.zero_le _, h⟩
      · exact ⟨1, by simp, h⟩
      · exfalso
        have := hu.1 (hb h1)
        rcases h2 with ⟨k, h2⟩ | ⟨d, h2⟩
        · exact this.1 k h2
        · exact this.2 d h2
    | diverge => rw [hx] at hs; exact hs
    | throw t' =>
      rw [hx] at hs
      simp only
      refine ⟨m, ?_, Or.inr rfl, fun h => (h rfl).elim⟩
      exact ⟨m, accepts_threw hs, by simp [Spec.AcceptsAll]⟩
    | ok t' a =>
      rw [hx] at hs
      simp only
      have hi := ih t' (next E.eq m c) (fun c' hc' => hv c' (List.mem_cons_of_mem _ hc')) hs.1 hs.2.2
      cases hr : run false true E rv cs t' with
      | diverge => rw [hr] at hi; exact hi
      | ub =>
        rw [hr] at hi
        simp only [Res.bind_ub]
        intro bare hb hu
        obtain ⟨n, h1, h2⟩ := hi (bareAfter bare c) (fun hf => exec_fresh hE hR hx hs hb hf) hu.2
        exact ⟨n + 1, by simp only [List.length_cons]; omega, h2⟩
      | ok r =>
        obtain ⟨as, t2⟩ := r
        rw [hr] at hi
        simp only [Res.bind_ok]
        obtain ⟨m', h1, h2, h3⟩ := hi
        have hne : a ≠ .threw := fun ha => exec_not_threw (ha ▸ hx)
        refine ⟨m', ⟨_, hs.2.1, h1⟩, ?_, ?_⟩
        · rcases h2 with h2 | h2
          · left; simp [h2]
          · right
            rw [List.getLast?_cons, h2]
            rfl
        · intro hl
          apply h3
          intro hl2
          apply hl
          rw [List.getLast?_cons, hl2]
          rfl

theorem reach_default : Reach E (emptyMap false 128 512 : Map K V) :=
  ⟨by show 128 ≤ 256; omega, by show 256 ≤ 512; omega, by show 512 ≤ 1024; omega, Or.inl ⟨_, _, rfl⟩⟩

theorem reach_make {mem : Bool} {n : Nat} {t : Map K V} (h : (make false mem n : Out (Map K V) Unit) = .ok t ()) :
    Reach E t ∧ entries t = [] ∧ (Fresh t → n = 0) := by
  unfold make at h
  by_cases hn : n = 0
  · rw [if_pos hn] at h
    cases h
    exact ⟨reach_default, rfl, fun _ => hn⟩
  · rw [if_neg hn] at h
    cases hc : calcCapacity n with
    | ub => rw [hc] at h; cases h
    | diverge => rw [hc] at h; cases h
    | ok cap =>
      rw [hc] at h
      obtain ⟨j, hj, rfl, _⟩ := calcCapacity_ok hc
      obtain ⟨h1, h2, h3, h4, h5⟩ := createSlots_good (E := E) hj h
      have hl : Live E t (2 ^ j) := { toGood := h1, thr_le := by rw [h5]; exact mul_div_le (by show 128 ≤ 256; omega),
                                      size_le := by rw [h1.size, h2]; exact Nat.zero_le _ }
      refine ⟨⟨by rw [h3]; show 128 ≤ 256; omega, by rw [h4]; show 256 ≤ 512; omega, by rw [h4]; show 512 ≤ 1024; omega,
        Or.inr ⟨_, hl⟩⟩, h2, fun hf => (hl.not_fresh hf).elim⟩

/-! ### C31 -/

/-- C31, for all hash functions and all histories in which the contents always fit (`Roomy`: for every capacity at least the
number of elements, no more elements are at home in any interval than there is room for behind it).  The code as it is answers
every call as the ideal map does, until the end or until a failed allocation throws.

Missing for the full claim, because the code violates it: `find` and `clear` on a map without storage
(`C31_find_default`, `C31_clear_default`), contents that do not fit (`C33_writes_past_the_slots`,
`C31_growth_loses_an_element`), and use of the map after a failed allocation (`C31_find_after_failed_allocation`). -/
theorem C31_robin_partial (hE : E.Lawful) {rv : Nat → Nat} (hrv : ∀ x, 256 ≤ rv x ∧ rv x ≤ 1024) {mem : Bool} {n : Nat}
    {t0 : Map K V} (h0 : make false mem n = .ok t0 ()) {cs : List (Bool × Call K V)} (hv : ∀ c ∈ cs, Valid c.2)
    (hu : Usable (decide (n = 0)) cs) (hr : ∀ i, i ≤ cs.length → Roomy E (contents E.eq (cs.take i))) :
    ∃ as t' m', run false false E rv cs t0 = .ok (as, t') ∧
      Spec.AcceptsAll E.eq [] ((cs.map (·.2)).take as.length) as m' ∧ Ended cs as := by
  obtain ⟨hR, he, hf⟩ := reach_make (E := E) h0
  have h1 := run_ok hE hrv cs t0 [] hv hR (by rw [he])
  cases hx : run false true E rv cs t0 with
  | diverge => rw [hx] at h1; exact h1.elim
  | ub =>
    rw [hx] at h1
    obtain ⟨i, hi, hn⟩ := h1 (decide (n = 0)) (fun h => decide_eq_true (hf h)) hu
    exact (hn (hr i hi)).elim
  | ok r =>
    obtain ⟨as, t'⟩ := r
    rw [hx] at h1
    obtain ⟨m', h2, h3, _⟩ := h1
    rcases run_chk (E := E) (store := false) rv cs t0 with h4 | h4
    · rw [hx] at h4; cases h4
    · exact ⟨as, t', m', by rw [← h4, hx], h2, h3⟩

/-- C31 without the condition on the contents: the checked code, which differs from the real one only by stopping with an
undefined outcome where the distance byte would overflow or a rehash find no room, never loops, and whenever it is defined
the real code does the same and answers as the ideal map. -/
theorem C31_robin_checked_partial (hE : E.Lawful) {rv : Nat → Nat} (hrv : ∀ x, 256 ≤ rv x ∧ rv x ≤ 1024) {mem : Bool} {n : Nat}
    {t0 : Map K V} (h0 : make false mem n = .ok t0 ()) {cs : List (Bool × Call K V)} (hv : ∀ c ∈ cs, Valid c.2) :
    run false true E rv cs t0 ≠ .diverge ∧
      ∀ as t', run false true E rv cs t0 = .ok (as, t') →
        run false false E rv cs t0 = .ok (as, t') ∧
        ∃ m', Spec.AcceptsAll E.eq [] ((cs.map (·.2)).take as.length) as m' ∧ Ended cs as := by
  obtain ⟨hR, he, hf⟩ := reach_make (E := E) h0
  have h1 := run_ok hE hrv cs t0 [] hv hR (by rw [he])
  refine ⟨fun hd => by rw [hd] at h1; exact h1, ?_⟩
  intro as t' hx
  rw [hx] at h1
  obtain ⟨m', h2, h3, _⟩ := h1
  rcases run_chk (E := E) (store := false) rv cs t0 with h4 | h4
  · rw [hx] at h4; cases h4
  · exact ⟨by rw [← h4, hx], m', h2, h3⟩

/-- Five elements fit into every block, whatever their hashes. -/
theorem roomy_five {l : List (K × V)} (h : l.length ≤ 5) : Roomy E l := by
  intro j hj _
  have hc : ∀ a b, homes E (2 ^ j) a b l ≤ 5 := fun a b => Nat.le_trans List.countP_le_length h
  have := lookups_bounds (2 ^ j)
  exact ⟨fun a ha => by have := hc a (2 ^ j - 1); omega, fun a x h1 h2 => by have := hc a x; omega⟩

/-- C31 for every hash function, as long as there are never more than five elements. -/
theorem C31_robin_small_partial (hE : E.Lawful) {rv : Nat → Nat} (hrv : ∀ x, 256 ≤ rv x ∧ rv x ≤ 1024) {mem : Bool} {n : Nat}
    {t0 : Map K V} (h0 : make false mem n = .ok t0 ()) {cs : List (Bool × Call K V)} (hv : ∀ c ∈ cs, Valid c.2)
    (hu : Usable (decide (n = 0)) cs) (hr : ∀ i, i ≤ cs.length → (contents E.eq (cs.take i)).length ≤ 5) :
    ∃ as t' m', run false false E rv cs t0 = .ok (as, t') ∧
      Spec.AcceptsAll E.eq [] ((cs.map (·.2)).take as.length) as m' ∧ Ended cs as :=
  C31_robin_partial hE hrv h0 hv hu fun i hi => roomy_five (hr i hi)

/-! ### C32 -/

theorem countP_range_lt {f g : Nat → Bool} {p : Nat} (h1 : ∀ q, q < p → f q = g q) (h2 : f p = true) : ∀ n,
    (∀ q, p ≤ q → q < n → g q = false) →
    (List.range n).countP g + (if p < n then 1 else 0) ≤ (List.range n).countP f := by
  intro n
  induction n with
  | zero => intro _; simp
  | succ n ih =>
    intro h3
    have hi := ih fun q a b => h3 q a (by omega)
    rw [List.range_succ, List.countP_append, List.countP_append]
    have hf : ∀ b : Nat → Bool, [n].countP b = if b n = true then 1 else 0 := by
      intro b
      by_cases hb : b n = true <;> simp [hb]
    rw [hf, hf]
    by_cases hn : n < p
    · have e1 : (if p < n then 1 else 0) = 0 := if_neg (by omega)
      have e2 : (if p < n + 1 then 1 else 0) = 0 := if_neg (by omega)
      rw [h1 n hn, e2]
      rw [e1] at hi
      omega
    · rw [h3 n (by omega) (by omega)]
      by_cases he : n = p
      · subst he
        rw [h2]
        simp only [Nat.lt_irrefl, if_false, Nat.lt_succ_self, if_true, Bool.false_eq_true] at hi ⊢
        omega
      · have e1 : (if p < n then 1 else 0) = 1 := if_pos (by omega)
        have e2 : (if p < n + 1 then 1 else 0) = 1 := if_pos (by omega)
        rw [e1] at hi
        rw [e2, if_neg (by decide)]
        omega

/-- Cell `p` holds an element at home at `y`. -/
def isHome (t : Map K V) (y p : Nat) : Bool := decide (0 ≤ (t.ctrl p).dist ∧ cellHome t p = (y : Int))

theorem Good.homes_eq {t : Map K V} {c : Nat} (h : Good E t c) (y : Nat) :
    homes E c y y (entries t) = (List.range t.slen).countP (isHome t y) := by
  unfold homes entries
  rw [countP_filterMap_range]
  apply List.countP_congr
  intro p hp
  have hp' := List.mem_range.mp hp
  unfold isHome Robin.cellHome
  rcases h.cell p hp' with ⟨h1, h2⟩ | ⟨e, h1, h2, h3, h4⟩
  · rw [h1, h2]; simp [Ctrl.empty]
  · rw [h1, h4]
    simp only [decide_eq_true_eq]
    omega

theorem Good.slen_eq {t t' : Map K V} {c : Nat} (h : Good E t c) (h' : Good E t' c) : t'.slen = t.slen := by
  rw [h.slen, h'.slen]

/-- One direction of the comparison of two layouts at cell `p`. -/
theorem layout_step {t t' : Map K V} {c : Nat} (h : Good E t c) (h' : Good E t' c)
    (hp : (entries t).Perm (entries t')) {p : Nat} (hlt : p < t.slen) (ih : ∀ q, q < p → t.ctrl q = t'.ctrl q)
    (hu : 0 ≤ (t.ctrl p).dist) : (t.ctrl p).dist ≤ (t'.ctrl p).dist := by
  obtain ⟨e, h1, h2, h3, h4⟩ := h.used hlt hu
  have hc := homes_perm (E := E) (c := c) (a := hm E c e.1) (b := hm E c e.1) hp
  rw [h.homes_eq, h'.homes_eq, h.slen_eq h'] at hc
  have hex : ∃ q, p ≤ q ∧ q < t.slen ∧ isHome t' (hm E c e.1) q = true := by
    by_contra hno
    have := countP_range_lt (f := isHome t (hm E c e.1)) (g := isHome t' (hm E c e.1)) (p := p)
      (fun q hq => by unfold isHome Robin.cellHome; rw [ih q hq])
      (by unfold isHome Robin.cellHome; rw [h4]; simp only [decide_eq_true_eq]; omega) t.slen
      (fun q a b => by
        cases hq : isHome t' (hm E c e.1) q with
        | false => rfl
        | true => exact (hno ⟨q, a, b, hq⟩).elim)
    rw [if_pos hlt] at this
    omega
  obtain ⟨q, q1, q2, q3⟩ := hex
  unfold isHome at q3
  obtain ⟨q4, q5⟩ := of_decide_eq_true q3
  have hq' : q < t'.slen := by rw [h.slen_eq h']; exact q2
  obtain ⟨e', g1, g2⟩ := h'.cellHome hq' q4
  have hh : hm E c e'.1 = hm E c e.1 := by omega
  obtain ⟨g3, g4⟩ : hm E c e'.1 ≤ q ∧ True := by
    obtain ⟨e2, a1, a2, _⟩ := h'.used hq' q4
    rw [a1] at g1; cases g1
    exact ⟨a2, trivial⟩
  have := h'.chain hq' g1 (q - p) (p - hm E c e'.1) (by omega)
  rw [show hm E c e'.1 + (p - hm E c e'.1) = p by omega] at this
  rw [h4]
  simp only
  omega

/-- Two maps of the same capacity with the same elements have the same control words: the layout does not depend on the
order of insertions, nor on elements that were inserted and erased in between. -/
theorem layout_unique {t t' : Map K V} {c : Nat} (h : Good E t c) (h' : Good E t' c) (hp : (entries t).Perm (entries t')) :
    ∀ p, p < t.clen → t.ctrl p = t'.ctrl p := by
  have hs := h.slen_eq h'
  have hin : ∀ p, p < t.slen → t.ctrl p = t'.ctrl p := by
    intro p
    induction p using Nat.strongRecOn with
    | _ p ih =>
      intro hlt
      have ih1 : ∀ q, q < p → t.ctrl q = t'.ctrl q := fun q hq => ih q hq (by omega)
      rcases h.cell p hlt with ⟨_, h2⟩ | ⟨e, h1, h2, h3, h4⟩
      · rcases h'.cell p (by omega) with ⟨_, g2⟩ | ⟨e', _, g2, g3, g4⟩
        · rw [h2, g2]
        · exfalso
          have := layout_step h' h hp.symm (p := p) (by omega) (fun q hq => (ih1 q hq).symm) (by rw [g4]; simp only; omega)
          rw [g4, h2] at this
          simp only [Ctrl.empty] at this
          omega
      · have a1 := layout_step h h' hp hlt ih1 (by rw [h4]; simp only; omega)
        have hu' : 0 ≤ (t'.ctrl p).dist := by rw [h4] at a1; simp only at a1; omega
        have a2 := layout_step h' h hp.symm (p := p) (by omega) (fun q hq => (ih1 q hq).symm) hu'
        obtain ⟨e', _, _, _, g4⟩ := h'.used (p := p) (by omega) hu'
        rw [h4, g4] at a1 a2
        simp only at a1 a2
        rw [h4, g4]
        simp only [Ctrl.mk.injEq, and_true]
        omega
  intro p hp
  by_cases hlt : p < t.slen
  · exact hin p hlt
  · rw [(h.tail p (by omega)).2 hp, (h'.tail p (by omega)).2 (by rw [h'.clen, ← h.clen]; exact hp)]

/-- The states reached by complete histories in which the checked code is defined.  (The code as it is then behaves the same,
`C31_robin_checked_partial`.) -/
def Reached (E : Env K) (rv : Nat → Nat) (cs : List (Bool × Call K V)) (t : Map K V) : Prop :=
  (∀ c ∈ cs, Valid c.2) ∧ ∃ n mem t0 as, make false mem n = .ok t0 () ∧ run false true E rv cs t0 = .ok (as, t) ∧
    as.getLast? ≠ some .threw

theorem Reached.reach (hE : E.Lawful) {rv : Nat → Nat} (hrv : ∀ x, 256 ≤ rv x ∧ rv x ≤ 1024) {cs : List (Bool × Call K V)}
    {t : Map K V} (h : Reached E rv cs t) : Reach E t ∧ (entries t).Perm (contents E.eq cs) := by
  obtain ⟨hv, n, mem, t0, as, h0, h1, h2⟩ := h
  obtain ⟨hR, he, _⟩ := reach_make (E := E) h0
  have h3 := run_ok hE hrv cs t0 [] hv hR (by rw [he])
  rw [h1] at h3
  obtain ⟨m', _, _, h4⟩ := h3
  obtain ⟨a, b, c⟩ := h4 h2
  exact ⟨a, by rw [c] at b; exact b⟩

/-- The real code finds every present key of a good map; an absent one is reported absent if the elements fit. -/
theorem Good.find_real (hE : E.Lawful) {t : Map K V} {c : Nat} (h : Good E t c) (k : K) :
    (∀ e, Spec.get E.eq (entries t) k = some e → ∃ i, i < t.slen ∧ findIdx false false E t k = .ok (some i) ∧ t.slot i = some e) ∧
      (Spec.get E.eq (entries t) k = none → Fits E c (entries t) → findIdx false false E t k = .ok none) := by
  have h1 := findIdx_spec hE h k
  have hle := findIdx_chk (E := E) (store := false) t k
  cases hf : findIdx false true E t k with
  | diverge => rw [hf] at h1; exact h1.elim
  | ub =>
    rw [hf] at h1
    exact ⟨fun e he => (by rw [h1.2] at he; cases he), fun _ hfit => (h1.1 hfit).elim⟩
  | ok o =>
    rw [hf] at h1
    have hr : findIdx false false E t k = .ok o := by
      rcases hle with h2 | h2
      · rw [hf] at h2; cases h2
      · rw [← h2, hf]
    cases o with
    | none =>
      have h1' : Spec.get E.eq (entries t) k = none := h1
      exact ⟨fun e he => (by rw [h1'] at he; cases he), fun _ _ => hr⟩
    | some i =>
      obtain ⟨g1, e, g2, g3⟩ := h1
      refine ⟨fun e' he => ⟨i, g1, hr, ?_⟩, fun hn => (by rw [g3] at hn; cases hn)⟩
      rw [g3] at he; cases he
      exact g2

/-- C32: `erase(k)` of a present key succeeds, makes the size one smaller, and afterwards every other key is found with its
value, by `find`, `contains` and `at`.  No condition on the contents is needed here. -/
theorem C32_erase_keeps_others (hE : E.Lawful) {rv : Nat → Nat} (hrv : ∀ x, 256 ≤ rv x ∧ rv x ≤ 1024) {cs : List (Bool × Call K V)}
    {t : Map K V} (h : Reached E rv cs t) {k : K} {e : K × V} (hk : Spec.get E.eq (contents E.eq cs) k = some e) :
    ∃ t', eraseKey false false E k t = .ok t' 1 ∧ t'.size + 1 = t.size ∧ slotCap t' = slotCap t ∧
      (∀ k' e', E.eq k k' = false → Spec.get E.eq (contents E.eq cs) k' = some e' →
        lookup false false E t' k' = .ok (some e') ∧ contains false false E t' k' = .ok true ∧
        atKey false false E t' k' = .ok (some e'.2)) ∧
      (∀ k', Fits E (slotCap t) (contents E.eq cs) →
        E.eq k k' = true ∨ Spec.get E.eq (contents E.eq cs) k' = none →
        lookup false false E t' k' = .ok none ∧ contains false false E t' k' = .ok false ∧ atKey false false E t' k' = .ok none) := by
  obtain ⟨hR, hm⟩ := h.reach hE hrv
  have hd : Distinct E.eq (contents E.eq cs) := Spec.Distinct.perm hE hm hR.distinct
  have hget : ∀ k, Spec.get E.eq (entries t) k = Spec.get E.eq (contents E.eq cs) k := Spec.get_perm hE hm hR.distinct
  rcases hR.st with hf | ⟨c, hl⟩
  · rw [← hget, hf.entries] at hk; cases hk
  · obtain ⟨i, g1, g2, g3⟩ := (hl.toGood.find_real hE k).1 e (by rw [hget]; exact hk)
    obtain ⟨t', e1, e2, e3, _⟩ := eraseSlot_spec hl.toGood hE g1 g3
    have hsz : t'.size + 1 = t.size := by rw [e2.size, hl.size, ← e3.length_eq]; simp
    have hkm : E.eq k e.1 = true := ((Spec.get_some_iff hE hd).mp hk).2
    have hdl : Distinct E.eq (e :: entries t') := Spec.Distinct.perm hE e3.symm hl.distinct
    have hother : ∀ k' e', E.eq k k' = false → Spec.get E.eq (contents E.eq cs) k' = some e' → Spec.get E.eq (entries t') k' = some e' := by
      intro k' e' hne hg
      obtain ⟨a1, a2⟩ := (Spec.get_some_iff hE hd).mp hg
      have a3 : e' ∈ e :: entries t' := e3.mem_iff.mpr (hm.mem_iff.mpr a1)
      rw [Spec.get_some_iff hE e2.distinct]
      refine ⟨?_, a2⟩
      rcases List.mem_cons.mp a3 with rfl | a3
      · exfalso
        have := hE.trans _ _ _ hkm (hE.symm _ _ a2)
        rw [hne] at this; cases this
      · exact a3
    have hgone : ∀ k', E.eq k k' = true ∨ Spec.get E.eq (contents E.eq cs) k' = none → Spec.get E.eq (entries t') k' = none := by
      intro k' hc
      rw [Spec.get_none_iff]
      intro x hx
      cases hq : E.eq k' x.1 with
      | false => rfl
      | true =>
        exfalso
        rcases hc with hc | hc
        · have hx' := (List.pairwise_cons.mp hdl).1 x hx
          have := hE.trans _ _ _ (hE.symm _ _ hkm) (hE.trans _ _ _ hc hq)
          rw [hx'] at this; cases this
        · have := Spec.get_none_iff.mp hc x (hm.mem_iff.mp (e3.mem_iff.mp (List.mem_cons_of_mem _ hx)))
          rw [hq] at this; cases this
    refine ⟨t', ?_, hsz, by rw [hl.toShape.slotCap, e2.toShape.slotCap], ?_, ?_⟩
    · unfold eraseKey
      rw [g2]
      simp only [lift]
      rw [if_neg (by rw [hl.toShape.maxCap]; omega), e1]
    · intro k' e' hne hg
      obtain ⟨i', b1, b2, b3⟩ := (e2.find_real hE k').1 e' (hother k' e' hne hg)
      refine ⟨?_, ?_, ?_⟩
      · unfold lookup findIter
        rw [b2]
        simp only [Res.bind_ok]
        rw [if_neg (by rw [e2.toShape.maxCap]; omega), b3]
      · unfold contains
        rw [b2]
        simp only [Res.bind_ok]
        rw [e2.last, decide_eq_true (by intro hx; cases hx; omega)]
      · unfold atKey
        rw [b2]
        simp only [Res.bind_ok]
        rw [e2.last, if_neg (by intro hx; cases hx; omega), b3]
    · intro k' hfit hc
      rw [hl.toShape.slotCap] at hfit
      have hfit' : Fits E c (entries t') := (hfit.perm (hm.symm.trans e3.symm)).sublist (List.sublist_cons_self _ _)
      have b2 := (e2.find_real hE k').2 (hgone k' hc) hfit'
      refine ⟨?_, ?_, ?_⟩
      · unfold lookup findIter
        rw [b2]
        simp only [Res.bind_ok]
        rw [e2.last]
        simp only [Res.bind_ok]
        rw [if_pos e2.toShape.maxCap.symm]
      · unfold contains
        rw [b2]
        rfl
      · unfold atKey
        rw [b2]
        rfl

/-- C32: `erase(k)` of an absent key changes nothing, if the elements fit. -/
theorem C32_erase_absent (hE : E.Lawful) {rv : Nat → Nat} (hrv : ∀ x, 256 ≤ rv x ∧ rv x ≤ 1024) {cs : List (Bool × Call K V)}
    {t : Map K V} (h : Reached E rv cs t) (hfit : Fits E (slotCap t) (contents E.eq cs)) {k : K}
    (hk : Spec.get E.eq (contents E.eq cs) k = none) : eraseKey false false E k t = .ok t 0 := by
  obtain ⟨hR, hm⟩ := h.reach hE hrv
  have hget := Spec.get_perm hE hm hR.distinct k
  unfold eraseKey
  rcases hR.st with hf | ⟨c, hl⟩
  · have h1 := findIdx_fresh (E := E) hf k
    rcases findIdx_chk (E := E) (store := false) t k with h2 | h2
    · rw [h1] at h2; cases h2
    · rw [← h2, h1]; rfl
  · rw [hl.toShape.slotCap] at hfit
    rw [(hl.toGood.find_real hE k).2 (by rw [hget]; exact hk) (hfit.perm hm.symm)]
    rfl

/-- C32, no tombstones: the control words after any history are determined by the capacity and the elements present; erased
elements leave no trace. -/
theorem C32_layout_history_independent (hE : E.Lawful) {rv : Nat → Nat} (hrv : ∀ x, 256 ≤ rv x ∧ rv x ≤ 1024)
    {cs cs' : List (Bool × Call K V)} {t t' : Map K V} (h : Reached E rv cs t) (h' : Reached E rv cs' t')
    (hcap : slotCap t = slotCap t') (hm : (contents E.eq cs).Perm (contents E.eq cs')) :
    t.clen = t'.clen ∧ ∀ p, p < t.clen → t.ctrl p = t'.ctrl p := by
  obtain ⟨h1, h2⟩ := h.reach hE hrv
  obtain ⟨h3, h4⟩ := h'.reach hE hrv
  have hp := h2.trans (hm.trans h4.symm)
  rcases h1.st with ⟨a, b, rfl⟩ | ⟨c, hl⟩
  · rcases h3.st with ⟨a', b', rfl⟩ | ⟨c', hl'⟩
    · exact ⟨rfl, fun p _ => rfl⟩
    · have := hl'.toShape.slotCap
      have := hl'.toShape.c_ge
      have : slotCap (emptyMap false a b : Map K V) = 0 := rfl
      omega
  · rcases h3.st with ⟨a', b', rfl⟩ | ⟨c', hl'⟩
    · have := hl.toShape.slotCap
      have := hl.toShape.c_ge
      have : slotCap (emptyMap false a' b' : Map K V) = 0 := rfl
      omega
    · have e1 := hl.toShape.slotCap
      have e2 := hl'.toShape.slotCap
      have : c' = c := by omega
      subst this
      exact ⟨by rw [hl.clen, hl'.clen], layout_unique hl.toGood hl'.toGood hp⟩

/-! ### C33 -/

/-- C33, what holds: while the contents fit, every element is inside the slot array, not before its home position, and at
most 127 positions behind it; its control word records the distance.

Missing, because the code violates it: the bound `max_lookups()` (`C33_distance_exceeds_max_lookups`), and contents
that do not fit (`C33_writes_past_the_slots`). -/
theorem C33_robin_partial (hE : E.Lawful) {rv : Nat → Nat} (hrv : ∀ x, 256 ≤ rv x ∧ rv x ≤ 1024) {cs : List (Bool × Call K V)}
    {t : Map K V} (h : Reached E rv cs t) {p : Nat} {e : K × V} (hp : t.slot p = some e) :
    p < slotCap t + t.look ∧ home E t e.1 ≤ p ∧ p ≤ home E t e.1 + 127 ∧ (t.ctrl p).dist = (p : Int) - home E t e.1 := by
  obtain ⟨hR, _⟩ := h.reach hE hrv
  rcases hR.st with ⟨a, b, rfl⟩ | ⟨c, hl⟩
  · cases hp
  · have hlt : p < t.slen := by
      by_contra hn
      rw [(hl.tail p (by omega)).1] at hp
      cases hp
    rw [hl.toShape.home]
    have hmc : slotCap t + t.look = t.slen := hl.toShape.maxCap
    rcases hl.cell p hlt with ⟨h1, _⟩ | ⟨e', h1, h2, h3, h4⟩
    · rw [h1] at hp; cases hp
    · rw [h1] at hp; cases hp
      rw [h4]
      exact ⟨by omega, h2, by omega, rfl⟩

/-- C33, when the advertised bound does hold: if among the elements at home between `a` and `b` there are never more than
`b - a + L`, every distance is below `L`. -/
theorem C33_distance_bound (hE : E.Lawful) {rv : Nat → Nat} (hrv : ∀ x, 256 ≤ rv x ∧ rv x ≤ 1024) {cs : List (Bool × Call K V)}
    {t : Map K V} (h : Reached E rv cs t) {L : Nat}
    (hL : ∀ a b, a ≤ b → b < slotCap t →
      a + (contents E.eq cs).countP (fun e => decide (a ≤ home E t e.1 ∧ home E t e.1 ≤ b)) ≤ b + L)
    {p : Nat} {e : K × V} (hp : t.slot p = some e) : p < home E t e.1 + L := by
  obtain ⟨hR, hperm⟩ := h.reach hE hrv
  rcases hR.st with ⟨a, b, rfl⟩ | ⟨c, hl⟩
  · cases hp
  · have hlt : p < t.slen := by
      by_contra hn
      rw [(hl.tail p (by omega)).1] at hp
      cases hp
    have hu : 0 ≤ (t.ctrl p).dist := by
      rcases hl.cell p hlt with ⟨h1, _⟩ | ⟨e', h1, h2, h3, h4⟩
      · rw [h1] at hp; cases hp
      · rw [h4]; simp only; omega
    obtain ⟨e', g1, g2⟩ := hl.toGood.cellHome hlt hu
    rw [hp] at g1; cases g1
    obtain ⟨a, ha, hb⟩ := hl.toGood.block hlt (Nat.le_refl p) (fun q a b => by
      have : q = p := by omega
      subst this; exact hu)
    obtain ⟨e2, b1, b2, b3⟩ := hb p ha (Nat.le_refl _)
    rw [hp] at b1; cases b1
    have hge := homes_ge (E := E) (c := c) (a := a) (x := a) (y := hm E c e.1) hlt (fun q h1 h2 => by
      obtain ⟨e3, c1, c2, c3⟩ := hb q h1 h2
      exact ⟨e3, c1, c2, by omega⟩)
    have := hL a (hm E c e.1) b2 (by rw [hl.toShape.slotCap]; exact hl.toShape.hm_lt _)
    have heq : (contents E.eq cs).countP (fun e' => decide (a ≤ home E t e'.1 ∧ home E t e'.1 ≤ hm E c e.1)) =
        homes E c a (hm E c e.1) (entries t) := by
      rw [homes_perm hperm]
      unfold homes
      congr 1
      funext e'
      rw [hl.toShape.home]
    rw [heq] at this
    rw [hl.toShape.home]
    omega

end Verif.Robin
