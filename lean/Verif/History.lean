/-
Execution of whole histories of public calls on the table model, and the refinement of the ideal map.
-/
import Verif.Spec
import Verif.Iter

namespace Verif
open Spec (Call Ans)

namespace Res
/-- A read-only computation as a step that leaves the object alone. -/
def toOut {σ α : Type} (s : σ) : Res α → Out σ α
  | .ok a => .ok s a
  | .diverge => .diverge
  | .ub => .ub
end Res

section Model
variable {K V : Type} (L : Layout) (E : Env K) (walk : Table K V → Res (List (K × V)))

/-- Dereference the iterator returned by an insertion. -/
def readElem (t : Table K V) (r : Nat × Bool) : Out (Table K V) (Ans K V) :=
  match t.slot r.1 with
  | none => .ub
  | some e => .ok t (.elem e r.2)

/-- Dereference the iterator returned by the `try_emplace` inside `operator[]`. -/
def readValue (t : Table K V) (r : Nat × Bool) : Out (Table K V) (Ans K V) :=
  match t.slot r.1 with
  | none => .ub
  | some e => .ok t (.value (some e.2))

/-- One public call.  `insert`, `emplace`, `try_emplace`: T15:835-998, T16:783-946 (all forward to
`emplace_impl<false>`/`try_emplace_impl`); `insert_or_assign`: `emplace_impl<true>`; `operator[]`:
group15_flat_map.hpp:348-355 (try_emplace with a value-initialised mapped value); `at`:
group15_flat_map.hpp:326-345 (find, `std::out_of_range` at end()); `count`/`contains`: T15:778-787;
`mem` is the allocator's answer, `walk` the range-for loop of the table in question.
The element constructors do not throw here (see C10). -/
def exec (mem : Bool) : Call K V → Table K V → Out (Table K V) (Ans K V)
  | .insert k v, t => (emplace L E false mem true k v t).bind readElem
  | .assign k v, t => (emplace L E true mem true k v t).bind readElem
  | .index k d, t => (emplace L E false mem true k d t).bind readValue
  | .find k, t => ((lookup L E t k).bind fun o => .ok (.found o)).toOut t
  | .contains k, t => ((contains L E t k).bind fun b => .ok (.bool b)).toOut t
  | .count k, t => ((contains L E t k).bind fun b => .ok (.num (if b then 1 else 0))).toOut t
  | .at k, t => ((lookup L E t k).bind fun o => .ok (.value (o.map (·.2)))).toOut t
  | .erase k, t => (eraseKey L E k t).bind fun t' n => .ok t' (.num n)
  | .size, t => .ok t (.num t.size)
  | .empty, t => .ok t (.bool (t.size == 0))
  | .clear d, t => (clear L d t).bind fun t' _ => .ok t' .unit
  | .reserve n, t => if wrapRisk L mem (fitCapacity t.mlf n) then .ub else (reserve L E mem n t).bind fun t' _ => .ok t' .unit
  | .rehash n, t => if wrapRisk L mem n then .ub else (rehash L E mem n t).bind fun t' _ => .ok t' .unit
  | .shrink ro, t => (shrinkToFit L E mem ro t).bind fun t' _ => .ok t' .unit
  | .maxLoad m, t => (setMlf L E mem m t).bind fun t' _ => .ok t' .unit
  | .iterate, t => ((walk t).bind fun l => .ok (.items l)).toOut t

/-- A history: calls paired with the allocator's answers.  Exceptions are caught by the caller, who goes
on using the map. -/
def run : List (Bool × Call K V) → Table K V → Res (List (Ans K V) × Table K V)
  | [], t => .ok ([], t)
  | (mem, c) :: cs, t =>
    match exec L E walk mem c t with
    | .ub => .ub
    | .diverge => .diverge
    | .throw t' => (run cs t').bind fun r => .ok (.threw :: r.1, r.2)
    | .ok t' a => (run cs t').bind fun r => .ok (a :: r.1, r.2)

end Model

section
variable {K V : Type} {L : Layout} {E : Env K} {walk : Table K V → Res (List (K × V))}

theorem exec_reserve {mem : Bool} {n : Nat} {t : Table K V} (h : wrapRisk L mem (fitCapacity t.mlf n) = false) :
    exec L E walk mem (.reserve n) t = (reserve L E mem n t).bind fun t' _ => .ok t' .unit := by
  simp only [exec, h, Bool.false_eq_true, if_false]

theorem exec_rehash {mem : Bool} {n : Nat} {t : Table K V} (h : wrapRisk L mem n = false) :
    exec L E walk mem (.rehash n) t = (rehash L E mem n t).bind fun t' _ => .ok t' .unit := by
  simp only [exec, h, Bool.false_eq_true, if_false]

theorem exec_reserve_of_ne_ub {mem : Bool} {n : Nat} {t : Table K V} (h : exec L E walk mem (.reserve n) t ≠ .ub) :
    exec L E walk mem (.reserve n) t = (reserve L E mem n t).bind fun t' _ => .ok t' .unit := by
  apply exec_reserve
  cases hw : wrapRisk L mem (fitCapacity t.mlf n) with
  | false => rfl
  | true => simp [exec, hw] at h

theorem exec_rehash_of_ne_ub {mem : Bool} {n : Nat} {t : Table K V} (h : exec L E walk mem (.rehash n) t ≠ .ub) :
    exec L E walk mem (.rehash n) t = (rehash L E mem n t).bind fun t' _ => .ok t' .unit := by
  apply exec_rehash
  cases hw : wrapRisk L mem n with
  | false => rfl
  | true => simp [exec, hw] at h

theorem wrapRisk_small {mem : Bool} {n : Nat} (h : n ≤ 2 ^ 55) : wrapRisk L mem n = false := by
  unfold wrapRisk capLimit
  rw [decide_eq_false (by omega), Bool.and_false]

end

/-! ### The ideal map up to reordering -/

namespace Spec
variable {K V : Type} {E : Env K}

theorem get_some_iff (hE : E.Lawful) {m : Map K V} (hd : Distinct E.eq m) {k : K} {e : K × V} :
    get E.eq m k = some e ↔ e ∈ m ∧ E.eq k e.1 = true := by
  constructor
  · intro h
    exact ⟨List.mem_of_find?_eq_some h, List.find?_some (p := fun a : K × V => E.eq k a.1) h⟩
  · rintro ⟨hm, hk⟩
    unfold get
    induction m with
    | nil => simp at hm
    | cons a m ih =>
      rw [Distinct, List.pairwise_cons] at hd
      rw [List.find?_cons]
      rcases List.mem_cons.mp hm with rfl | hm
      · simp [hk]
      · have : E.eq k a.1 = false := by
          cases hq : E.eq k a.1 with
          | false => rfl
          | true =>
            have := hd.1 e hm
            rw [hE.trans _ _ _ (hE.symm _ _ hq) hk] at this; cases this
        simp only [this]
        exact ih hd.2 hm

theorem get_none_iff {m : Map K V} {k : K} :
    get E.eq m k = none ↔ ∀ e ∈ m, E.eq k e.1 = false := by
  unfold get
  rw [List.find?_eq_none]
  simp

theorem Distinct.perm (hE : E.Lawful) {m m' : Map K V} (hp : m.Perm m') (h : Distinct E.eq m) : Distinct E.eq m' := by
  refine List.Perm.pairwise hp h ?_
  intro a b hab
  cases hq : E.eq b.1 a.1 with
  | false => rfl
  | true => rw [hE.symm _ _ hq] at hab; cases hab

theorem get_perm (hE : E.Lawful) {m m' : Map K V} (hp : m.Perm m') (h : Distinct E.eq m) (k : K) :
    get E.eq m k = get E.eq m' k := by
  have h' := h.perm hE hp
  cases hq : get E.eq m' k with
  | none =>
    rw [get_none_iff] at hq ⊢
    intro e he; exact hq e (hp.mem_iff.mp he)
  | some e =>
    rw [get_some_iff hE h'] at hq
    rw [get_some_iff hE h]
    exact ⟨hp.mem_iff.mpr hq.1, hq.2⟩

theorem insert_absent {m : Map K V} {k : K} (h : get E.eq m k = none) (v : V) :
    insert E.eq m k v = (k, v) :: m := by unfold insert; simp [h]

theorem insert_present {m : Map K V} {k : K} {e : K × V} (h : get E.eq m k = some e) (v : V) :
    insert E.eq m k v = m := by unfold insert; simp [h]

theorem get_cons_self (hE : E.Lawful) (m : Map K V) (k : K) (v : V) : get E.eq ((k, v) :: m) k = some (k, v) := by
  unfold get; simp [hE.refl]

/-- Assigning to a present key, on a list where its position is known. -/
theorem assign_at (hE : E.Lawful) {A B : Map K V} {k : K} {e : K × V} (hd : Distinct E.eq (A ++ e :: B))
    (hk : E.eq k e.1 = true) (v : V) :
    (A ++ e :: B).map (fun a => if E.eq k a.1 then (a.1, v) else a) = A ++ (e.1, v) :: B := by
  rw [Distinct, List.pairwise_append, List.pairwise_cons] at hd
  obtain ⟨_, ⟨hB, _⟩, hA⟩ := hd
  have h1 : A.map (fun a => if E.eq k a.1 then (a.1, v) else a) = A := by
    conv_rhs => rw [← List.map_id A]
    apply List.map_congr_left
    intro a ha
    have h2 : E.eq k a.1 = false := by
      cases hq : E.eq k a.1 with
      | false => rfl
      | true =>
        have := hA a ha e (by simp)
        rw [hE.trans _ _ _ (hE.symm _ _ hq) hk] at this; cases this
    simp [h2]
  have h3 : B.map (fun a => if E.eq k a.1 then (a.1, v) else a) = B := by
    conv_rhs => rw [← List.map_id B]
    apply List.map_congr_left
    intro a ha
    have h2 : E.eq k a.1 = false := by
      cases hq : E.eq k a.1 with
      | false => rfl
      | true =>
        have := hB a ha
        rw [hE.trans _ _ _ (hE.symm _ _ hk) hq] at this; cases this
    simp [h2]
  rw [List.map_append, List.map_cons, h1, h3]
  simp [hk]

theorem erase_perm (hE : E.Lawful) {m m' : Map K V} {k : K} {e : K × V} (hd : Distinct E.eq m)
    (hp : m.Perm (e :: m')) (hk : E.eq k e.1 = true) : (erase E.eq m k).Perm m' := by
  have h1 : (erase E.eq m k).Perm (erase E.eq (e :: m') k) := List.Perm.filter _ hp
  refine h1.trans ?_
  unfold erase
  have hd' := hd.perm hE hp
  rw [Distinct, List.pairwise_cons] at hd'
  rw [List.filter_cons]
  simp only [hk, Bool.not_true, Bool.false_eq_true, if_false]
  rw [List.filter_eq_self.mpr]
  intro a ha
  have h2 : E.eq k a.1 = false := by
    cases hq : E.eq k a.1 with
    | false => rfl
    | true =>
      have := hd'.1 a ha
      rw [hE.trans _ _ _ (hE.symm _ _ hk) hq] at this; cases this
  simp [h2]

end Spec

/-! ### Each call refines the ideal map -/

section
variable {K V : Type} {L : Layout} {H : Laws L} {E : Env K} {walk : Table K V → Res (List (K × V))}

/-- `max_load_factor` arguments after the clamping done by the library. -/
def Valid : Call K V → Prop
  | .maxLoad m => 128 ≤ m ∧ m ≤ 224
  | _ => True

/-- The calls whose behaviour is undefined: `clear()` on a table without storage when the layout writes a
sentinel, `rehash(n)` with `n > 2^63`, and `rehash`, `reserve` of more than 2^55 control bytes when slots and groups
share one block. -/
def BadCall (L : Layout) (t : Table K V) : Call K V → Prop
  | .clear false => L.clearMarks = true ∧ t.alloc = false
  | .rehash n => 2 ^ 63 < n ∨ L.oneBlock = true ∧ 2 ^ 55 < n
  | .reserve n => L.oneBlock = true ∧ 2 ^ 55 < fitCapacity t.mlf n
  | _ => False

/-- Correctness of an outcome; termination is treated separately. -/
def StepOk (H : Laws L) (E : Env K) (t : Table K V) (m : Spec.Map K V) (c : Call K V) :
    Out (Table K V) (Ans K V) → Prop
  | .ok t' a => Inv H E t' ∧ ∃ m', Spec.Accepts E.eq m c a m' ∧ (entries L t').Perm m'
  | .throw t' => Inv H E t' ∧ c.allocates = true ∧ (entries L t').Perm m
  | .diverge => True
  | .ub => BadCall L t c

theorem InvA.set_mlf {t : Table K V} (hI : InvA H E t) (m : Nat) : InvA H E { t with mlf := m } :=
  { alloc := hI.alloc, geom := hI.geom, used := hI.used, isome := hI.isome, sent := hI.sent, oob := hI.oob
    reach := hI.reach, uniq := hI.uniq, size := hI.size }

theorem Inv.set_mlf {t : Table K V} (hI : Inv H E t) {m : Nat} (h1 : 128 ≤ m) (h2 : m ≤ 224) :
    Inv H E { t with mlf := m } := by
  refine ⟨h1, h2, ?_⟩
  rcases hI.st with h | h
  · left
    have : ({ t with mlf := m } : Table K V) = { (emptyTable L t.mlf : Table K V) with mlf := m } := by
      rw [← h]
    rw [this]; rfl
  · exact Or.inr (h.set_mlf m)

theorem NewStore.inv' {t' : Table K V} {k m : Nat} (hN : NewStore H E k m t') (h1 : 128 ≤ m) (h2 : m ≤ 224) :
    Inv H E t' := ⟨by rw [hN.mlf]; exact h1, by rw [hN.mlf]; exact h2, Or.inr hN.inv⟩

/-- Rehashing keeps the contents whatever happens. -/
theorem RehashCase.stepOk {t : Table K V} (hI : Inv H E t) {m : Spec.Map K V} (hm : (entries L t).Perm m)
    {shrink mem : Bool} {n : Nat} {r : Out (Table K V) Unit} (hR : RehashCase H E t shrink mem n r)
    {c : Call K V} (hc : c.allocates = true) (ha : Spec.Accepts E.eq m c .unit m)
    {t0 : Table K V} (hub : 2 ^ 63 < n → BadCall L t0 c) :
    StepOk H E t0 m c (r.bind fun t' _ => .ok t' .unit) := by
  cases hR with
  | ub h => exact hub h
  | throw k hk hc' h => exact ⟨hI, hc, hm⟩
  | same k hk hc' h => exact ⟨hI, m, ha, hm⟩
  | moved k t' hmem hc' h hN hp => exact ⟨hN.inv' hI.mlf_lo hI.mlf_hi, m, ha, hp.trans hm⟩
  | diverge k hmem hk hs hc' h => trivial

theorem fitCapacity_pos {m s : Nat} (hm : m ≤ 224) (h0 : 0 < m) (hs : 0 < s) (hb : s ≤ 2 ^ 55) : fitCapacity m s ≠ 0 := by
  unfold fitCapacity
  rw [Nat.mod_eq_of_lt (by unfold W; omega)]
  have : 1 ≤ s * 256 / m := (Nat.le_div_iff_mul_le h0).mpr (by omega)
  omega

theorem Inv.lookup_eq {t : Table K V} (hI : Inv H E t) (hE : E.Lawful) (k : K) :
    lookup L E t k = .ok (Spec.get E.eq (entries L t) k) := by
  unfold lookup
  rcases hI.find_cases hE k with ⟨hf, hk⟩ | ⟨i, e, hi, hk, hf⟩
  · rw [hf]
    simp only [Res.bind_ok]
    rw [(Spec.get_none_iff).mpr]
    intro e he
    obtain ⟨i, hi⟩ := hI.mem_iff.mp he
    exact hk i e hi
  · rw [hf]
    simp only [Res.bind_ok]
    rw [gp_eta, hi, (Spec.get_some_iff hE hI.pairwise).mpr ⟨hI.mem_iff.mpr ⟨i, hi⟩, hk⟩]

theorem Inv.contains_eq {t : Table K V} (hI : Inv H E t) (hE : E.Lawful) (k : K) :
    contains L E t k = .ok (Spec.get E.eq (entries L t) k).isSome := by
  unfold contains
  rcases hI.find_cases hE k with ⟨hf, hk⟩ | ⟨i, e, hi, hk, hf⟩
  · rw [hf]
    simp only [Res.bind_ok]
    rw [(Spec.get_none_iff).mpr]
    · rfl
    · intro e he
      obtain ⟨i, hi⟩ := hI.mem_iff.mp he
      exact hk i e hi
  · rw [hf]
    simp only [Res.bind_ok]
    rw [(Spec.get_some_iff hE hI.pairwise).mpr ⟨hI.mem_iff.mpr ⟨i, hi⟩, hk⟩]; rfl

/-- Outcome of an insertion against the ideal map; `update` selects `insert_or_assign`. -/
def EmplaceOk (H : Laws L) (E : Env K) (t : Table K V) (m : Spec.Map K V) (update : Bool) (k : K) (v : V) :
    Out (Table K V) (Nat × Bool) → Prop
  | .ok t' (i, b) => Inv H E t' ∧ b = (Spec.get E.eq m k).isNone ∧
      ∃ m' e, m' = (if update then Spec.assign E.eq m k v else Spec.insert E.eq m k v) ∧
        t'.slot i = some e ∧ Spec.get E.eq m' k = some e ∧ (entries L t').Perm m'
  | .throw t' => t' = t
  | .diverge => True
  | .ub => False

theorem Inv.emplace_ok {t : Table K V} (hI : Inv H E t) (hE : E.Lawful) {m : Spec.Map K V}
    (hm : (entries L t).Perm m) (update mem : Bool) (k : K) (v : V) {r : Out (Table K V) (Nat × Bool)}
    (hC : EmplaceCase H E t update mem k v r) : EmplaceOk H E t m update k v r := by
  have hd := hI.pairwise
  have hdm : Spec.Distinct E.eq m := Spec.Distinct.perm hE hm hd
  have habs : (∀ i e, t.slot i = some e → E.eq k e.1 = false) → Spec.get E.eq m k = none := by
    intro hk
    rw [Spec.get_none_iff]
    intro e he
    obtain ⟨i, hi⟩ := hI.mem_iff.mp (hm.mem_iff.mpr he)
    exact hk i e hi
  cases hC with
  | found i e hi hk =>
    have hget : Spec.get E.eq m k = some e :=
      (Spec.get_some_iff hE hdm).mpr ⟨hm.mem_iff.mp (hI.mem_iff.mpr ⟨i, hi⟩), hk⟩
    cases update with
    | false =>
      simp only [Bool.false_eq_true, if_false]
      exact ⟨hI, by simp [hget], m, e, (Spec.insert_present hget v).symm, hi, hget, hm⟩
    | true =>
      simp only [if_true]
      obtain ⟨hI', A, B, h1, h2⟩ := (hI.slot_lt hi).assign hi v
      have hperm : (entries L { t with slot := upd t.slot i (some (e.1, v)) }).Perm (Spec.assign E.eq m k v) := by
        rw [h2]
        unfold Spec.assign
        rw [if_pos (by simp [hget])]
        refine List.Perm.trans ?_ (hm.map _)
        rw [h1]
        rw [h1] at hd
        rw [Spec.assign_at hE hd hk]
      refine ⟨⟨hI.mlf_lo, hI.mlf_hi, Or.inr hI'⟩, by simp [hget], _, (e.1, v), rfl, upd_self _ _ _, ?_, hperm⟩
      have hd' := hI'.pairwise
      show Spec.get E.eq (Spec.assign E.eq m k v) k = _
      rw [← Spec.get_perm hE hperm hd']
      rw [Spec.get_some_iff hE hd']
      refine ⟨?_, hk⟩
      rw [h2]; simp
  | throw hk hs h => rfl
  | placed i t' hk hs hA =>
    have hget := habs hk
    have hp : (entries L t').Perm ((k, v) :: m) := hA.perm.trans (List.Perm.cons _ hm)
    refine ⟨⟨by rw [hA.mlf]; exact hI.mlf_lo, by rw [hA.mlf]; exact hI.mlf_hi, Or.inr hA.inv⟩,
      by simp [hget], (k, v) :: m, (k, v), ?_, hA.at_i, Spec.get_cons_self hE _ _ _, hp⟩
    cases update
    · exact (Spec.insert_absent hget v).symm
    · simp [Spec.assign, hget]
  | grown i t1 t' hk hs hmem c hc hN hp1 hA =>
    have hget := habs hk
    have hp : (entries L t').Perm ((k, v) :: m) := hA.perm.trans (List.Perm.cons _ (hp1.trans hm))
    refine ⟨⟨by rw [hA.mlf, hN.mlf]; exact hI.mlf_lo, by rw [hA.mlf, hN.mlf]; exact hI.mlf_hi, Or.inr hA.inv⟩,
      by simp [hget], (k, v) :: m, (k, v), ?_, hA.at_i, Spec.get_cons_self hE _ _ _, hp⟩
    cases update
    · exact (Spec.insert_absent hget v).symm
    · simp [Spec.assign, hget]
  | diverge hk hs hfull => trivial

/-- Every public call, from every reachable state, answers like the ideal map. -/
theorem Inv.exec_ok {t : Table K V} (hI : Inv H E t) (hE : E.Lawful)
    (hwalk : ∀ t, Inv H E t → walk t = .ok (entries L t))
    {m : Spec.Map K V} (hm : (entries L t).Perm m) (mem : Bool) {c : Call K V} (hv : Valid c) :
    StepOk H E t m c (exec L E walk mem c t) := by
  have hd := hI.pairwise
  have hget : ∀ k, Spec.get E.eq (entries L t) k = Spec.get E.eq m k := Spec.get_perm hE hm hd
  cases c with
  | insert k v =>
    have := hI.emplace_ok hE hm false mem k v (hI.emplace_cases hE false mem k v)
    simp only [exec]
    cases hr : emplace L E false mem true k v t with
    | ok t' r =>
      rw [hr] at this
      obtain ⟨h1, h2, m', e, h3, h4, h5, h6⟩ := this
      simp only [Out.bind_ok, readElem]
      rw [h4]
      exact ⟨h1, m', ⟨h3, h5, h2⟩, h6⟩
    | throw t' =>
      rw [hr] at this
      have : t' = t := this
      subst this
      exact ⟨hI, rfl, hm⟩
    | diverge => trivial
    | ub => rw [hr] at this; exact this.elim
  | assign k v =>
    have := hI.emplace_ok hE hm true mem k v (hI.emplace_cases hE true mem k v)
    simp only [exec]
    cases hr : emplace L E true mem true k v t with
    | ok t' r =>
      rw [hr] at this
      obtain ⟨h1, h2, m', e, h3, h4, h5, h6⟩ := this
      simp only [Out.bind_ok, readElem]
      rw [h4]
      exact ⟨h1, m', ⟨h3, h5, h2⟩, h6⟩
    | throw t' =>
      rw [hr] at this
      have : t' = t := this
      subst this
      exact ⟨hI, rfl, hm⟩
    | diverge => trivial
    | ub => rw [hr] at this; exact this.elim
  | index k v =>
    have := hI.emplace_ok hE hm false mem k v (hI.emplace_cases hE false mem k v)
    simp only [exec]
    cases hr : emplace L E false mem true k v t with
    | ok t' r =>
      rw [hr] at this
      obtain ⟨h1, h2, m', e, h3, h4, h5, h6⟩ := this
      simp only [Out.bind_ok, readValue]
      rw [h4]
      exact ⟨h1, m', ⟨h3, by rw [h5]; rfl, rfl⟩, h6⟩
    | throw t' =>
      rw [hr] at this
      have : t' = t := this
      subst this
      exact ⟨hI, rfl, hm⟩
    | diverge => trivial
    | ub => rw [hr] at this; exact this.elim
  | find k =>
    simp only [exec]
    rw [hI.lookup_eq hE]
    exact ⟨hI, m, ⟨rfl, hget k⟩, hm⟩
  | contains k =>
    simp only [exec]
    rw [hI.contains_eq hE]
    exact ⟨hI, m, ⟨rfl, by rw [hget k]⟩, hm⟩
  | count k =>
    simp only [exec]
    rw [hI.contains_eq hE]
    exact ⟨hI, m, ⟨rfl, by rw [hget k]⟩, hm⟩
  | «at» k =>
    simp only [exec]
    rw [hI.lookup_eq hE]
    exact ⟨hI, m, ⟨rfl, by rw [hget k]⟩, hm⟩
  | erase k =>
    simp only [exec]
    have hC := hI.erase_cases hE k
    generalize eraseKey L E k t = r at hC
    cases hC with
    | absent hk =>
      have hn : Spec.get E.eq m k = none := by
        rw [Spec.get_none_iff]
        intro e he
        obtain ⟨i, hi⟩ := hI.mem_iff.mp (hm.mem_iff.mpr he)
        exact hk i e hi
      refine ⟨hI, m, ⟨?_, by simp [hn]⟩, hm⟩
      unfold Spec.erase
      rw [List.filter_eq_self.mpr]
      intro a ha
      rw [(Spec.get_none_iff.mp hn) a ha]; rfl
    | removed g p e hp hi hk hI' hperm =>
      have hs : Spec.get E.eq m k = some e :=
        (Spec.get_some_iff hE (Spec.Distinct.perm hE hm hd)).mpr
          ⟨hm.mem_iff.mp (hI.mem_iff.mpr ⟨_, hi⟩), hk⟩
      refine ⟨⟨hI.mlf_lo, hI.mlf_hi, Or.inr hI'⟩, Spec.erase E.eq m k, ⟨rfl, by simp [hs]⟩, ?_⟩
      exact (Spec.erase_perm hE (Spec.Distinct.perm hE hm hd) (hm.symm.trans hperm) hk).symm
  | size =>
    exact ⟨hI, m, ⟨rfl, by rw [hI.size_eq, hm.length_eq]⟩, hm⟩
  | empty =>
    refine ⟨hI, m, ⟨rfl, ?_⟩, hm⟩
    rw [beq_iff_eq, hI.size_eq, hm.length_eq, List.length_eq_zero_iff]
  | clear d =>
    simp only [exec, clear]
    cases d with
    | true =>
      simp only [if_true]
      rw [hI.destroy_eq]
      exact ⟨inv_empty hI.mlf_lo hI.mlf_hi, [], rfl, by rw [entries_empty]⟩
    | false =>
      simp only [Bool.false_eq_true, if_false]
      rcases hI.clearData_eq with ⟨h1, h2, h3, h4, h5⟩ | ⟨h1, h2, h3⟩ | ⟨h1, h2, h3⟩
      · rw [h2]
        exact ⟨⟨hI.mlf_lo, hI.mlf_hi, Or.inr h3⟩, [], rfl, by rw [h5]⟩
      · rw [h3]; exact ⟨h2, by rw [h1]; rfl⟩
      · rw [h3]; exact ⟨hI, [], rfl, by rw [h1, entries_empty]⟩
  | reserve n =>
    simp only [exec, reserve]
    split
    · rename_i hw
      simp only [wrapRisk, capLimit, Bool.and_eq_true] at hw
      exact ⟨hw.1.1, of_decide_eq_true hw.2⟩
    by_cases hn : n = 0
    · rw [if_neg (by simpa using hn), hI.destroy_eq]
      exact ⟨inv_empty hI.mlf_lo hI.mlf_hi, [], by simp [Spec.Accepts, hn], by rw [entries_empty]⟩
    · rw [if_pos hn]
      refine (hI.rehashImpl_cases hE false mem _).stepOk hI hm rfl ?_ ?_
      · show m = if n = 0 then [] else m
        rw [if_neg hn]
      · intro h
        have := fitCapacity_le (n := n) hI.mlf_lo
        omega
  | rehash n =>
    simp only [exec, rehash]
    have hfit := fitCapacity_le (n := t.size) hI.mlf_lo
    split
    · rename_i hw
      simp only [wrapRisk, capLimit, Bool.and_eq_true] at hw
      exact Or.inr ⟨hw.1.1, of_decide_eq_true hw.2⟩
    by_cases hn : max (fitCapacity t.mlf t.size) n = 0
    · have h0 : t.size = 0 := by
        by_contra hc
        have := fitCapacity_pos hI.mlf_hi (by have := hI.mlf_lo; omega) (by omega : 0 < t.size) hI.size_le
        omega
      have hnil : m = [] := by
        rw [hI.size_eq, hm.length_eq] at h0
        exact List.length_eq_zero_iff.mp h0
      rw [if_neg (by simpa using hn), hI.destroy_eq]
      exact ⟨inv_empty hI.mlf_lo hI.mlf_hi, m, rfl, by rw [entries_empty, hnil]⟩
    · rw [if_pos hn]
      refine (hI.rehashImpl_cases hE _ mem _).stepOk hI hm rfl (by rfl) ?_
      intro h
      left
      omega
  | shrink ro =>
    simp only [exec, shrinkToFit]
    have hfit := fitCapacity_le (n := t.size) hI.mlf_lo
    have hsz := hI.size_le
    by_cases hn : (if ro then t.size else fitCapacity t.mlf t.size) = 0
    · have h0 : t.size = 0 := by
        by_contra hc
        have := fitCapacity_pos hI.mlf_hi (by have := hI.mlf_lo; omega) (by omega : 0 < t.size) hI.size_le
        cases ro <;> simp at hn <;> omega
      have hnil : m = [] := by
        rw [hI.size_eq, hm.length_eq] at h0
        exact List.length_eq_zero_iff.mp h0
      rw [if_neg (by simpa using hn), hI.destroy_eq]
      exact ⟨inv_empty hI.mlf_lo hI.mlf_hi, m, rfl, by rw [entries_empty, hnil]⟩
    · rw [if_pos hn]
      refine (hI.rehashImpl_cases hE _ mem _).stepOk hI hm rfl (by rfl) ?_
      intro h
      cases ro <;> simp at h <;> omega
  | maxLoad x =>
    obtain ⟨h1, h2⟩ := hv
    have hI1 := hI.set_mlf h1 h2
    have hm1 : (entries L { t with mlf := x }).Perm m := hm
    simp only [exec, setMlf]
    have hsz := hI.size_le
    have hfit := fitCapacity_le (n := t.ctrlCap L) h1
    cases hc : calcCapacity t.size (fitCapacity x (Table.ctrlCap L { t with mlf := x })) with
    | diverge => exact absurd hc calcCapacity_diverge
    | ub =>
      exfalso
      rcases calcCapacity_ub hc with h | h
      · have : fitCapacity x (Table.ctrlCap L { t with mlf := x }) = fitCapacity x (t.ctrlCap L) := rfl
        omega
      · omega
    | ok cap =>
      simp only
      obtain ⟨kk, hk1, _, _, _, hk2⟩ := calcCapacity_ok hc
      have hcap : cap ≤ 2 ^ 62 := by
        have : fitCapacity x (Table.ctrlCap L { t with mlf := x }) = fitCapacity x (t.ctrlCap L) := rfl
        omega
      split
      · unfold rehash
        simp only
        have hfit2 := fitCapacity_le (n := t.size) h1
        rw [if_pos (by omega)]
        refine (hI1.rehashImpl_cases hE _ mem _).stepOk hI1 hm1 rfl (by rfl) ?_
        intro h
        omega
      · exact ⟨hI1, m, rfl, hm1⟩
  | iterate =>
    simp only [exec]
    rw [hwalk t hI]
    exact ⟨hI, m, ⟨rfl, hm⟩, hm⟩

end
end Verif
