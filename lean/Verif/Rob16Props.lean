/-
Properties C79 to C84 of `robin16_hash_map`.
-/
import Verif.Rob16Run
import Verif.Api

namespace Verif.Rob16
open Spec (Distinct Call Ans)

variable {K V : Type} {E : Env K} {sec : Nat → Nat}

/-! ### Construction -/

theorem Reach.fresh {j : Nat} (h1 : 2 ≤ j) (h2 : j ≤ 48) {m r : Nat} (hm : m < 65536) (hr1 : 81920 ≤ r) (hr2 : r ≤ 327680) :
    Reach E sec (freshMap (2 ^ j) m r : Map K V) ∧ entries (freshMap (2 ^ j) m r : Map K V) = [] := by
  obtain ⟨g1, g2⟩ := Live.fresh (K := K) (V := V) (E := E) (sec := sec) h1 h2 (m := m) (r := r) hm
  exact ⟨⟨g1, hr1, hr2⟩, g2⟩

theorem cap_fresh {c m r : Nat} (hc : 0 < c) : cap (freshMap c m r : Map K V) = c := by
  unfold cap freshMap
  exact Nat.sub_add_cancel hc

/-- A constructor with a capacity gives an empty map with the smallest power of two that is large enough. -/
theorem make_ok {mem : Mem} {n : Nat} {t : Map K V} (h : make mem n = .ok t ()) :
    Reach E sec t ∧ entries t = [] ∧ (∃ j, 2 ≤ j ∧ j ≤ 48 ∧ t = freshMap (2 ^ j) 32768 131072 ∧ n ≤ 2 ^ j ∧ (2 ^ j = 4 ∨ 2 ^ j < 2 * n)) := by
  unfold make at h
  cases hc : calcCapacity n with
  | ub => rw [hc] at h; cases h
  | diverge => rw [hc] at h; cases h
  | ok c =>
    rw [hc] at h
    have hc' := hc
    rw [calcCapacity_eq] at hc'
    obtain ⟨j, h1, rfl, h3, h4⟩ := Robin.calcCapacity_ok hc'
    unfold createGroup at h
    simp only at h
    split at h
    · cases h
    · rename_i hl
      rw [not_or] at hl
      split at h
      · cases h
      · have hj48 : j ≤ 48 := by
          by_contra hcc
          have := Robin.pow_two_le (a := 49) (b := j) (by omega)
          have h5 := hl.2
          unfold memLimit at h5
          omega
        have ht : t = freshMap (2 ^ j) 32768 131072 := by
          cases h
          rfl
        obtain ⟨g1, g2⟩ := Reach.fresh (K := K) (V := V) (E := E) (sec := sec) h1 hj48 (m := 32768) (r := 131072) (by omega) (by omega)
          (by omega)
        subst ht
        exact ⟨g1, g2, j, h1, hj48, rfl, h3, h4⟩

/-! ### C79: histories guarded by the state -/

/-- C79 (partial).  From every constructor, every guarded history is defined, terminates, and gives the answers of an ideal map; at the end
the elements are those of the ideal map.  Missing for the full claim: the calls that `Safe` excludes; they violate it, see
Rob16Bugs.lean. -/
theorem C79_guarded_partial (hE : E.Lawful) {triv : Bool} {rv : Nat → Nat} (hrv : ∀ x, 81920 ≤ rv x ∧ rv x ≤ 327680) {mem : Mem}
    {n : Nat} {t : Map K V} (hc : make mem n = .ok t ()) (cs : List (Mem × Call K V)) (hp : Guarded E sec triv rv cs t []) :
    ∃ as t' m', run E sec triv rv cs t = .ok (as, t') ∧ Spec.AcceptsAll E.eq [] (cs.map (·.2)) as m' ∧ (entries t').Perm m' := by
  obtain ⟨h1, h2, _⟩ := make_ok (E := E) (sec := sec) hc
  obtain ⟨as, t', m', e1, _, e3, e4⟩ := run_ok hE hrv cs t [] h1 (by rw [h2]) hp
  exact ⟨as, t', m', e1, e4, e3⟩

/-! ### Half full tables -/

/-- The state of a map whose maximum load factor is the default 0.5. -/
structure Half (t : Map K V) : Prop where
  mlf : t.mlf = 32768
  rev : t.rev = 131072
  thr : t.thr = cap t / 2
  load : 2 * t.size ≤ cap t

theorem half_thr {c : Nat} (hc : c ≤ 2 ^ 48) : c * 32768 % W / 65536 = c / 2 := by
  rw [Nat.mod_eq_of_lt (by unfold W; omega)]
  omega

theorem Half.same {t q : Map K V} (h : Half t) (hs : Same t q) : Half q :=
  ⟨hs.mlf.trans h.mlf, hs.rev.trans h.rev, by rw [hs.thr, h.thr, hs.cap], by rw [hs.size, hs.cap]; exact h.load⟩

theorem Half.moved {t t' : Map K V} {c : Nat} (h : Half t) (hs : t.size = (entries t).length) (hm : Moved E sec t t' c)
    (hc : 2 * t.size ≤ c) : Half t' := by
  have h1 := hm.cap
  have h2 := hm.inv.cap_le
  refine ⟨hm.mlf.trans h.mlf, hm.rev.trans h.rev, ?_, ?_⟩
  · rw [hm.thr, h.mlf, h1, half_thr (by omega)]
  · rw [hm.inv.size, hm.perm.length_eq, ← hs, h1]; exact hc

theorem Half.room {t : Map K V} (h : Half t) (hge : 4 ≤ cap t) : t.size + 1 < cap t := by
  have := h.load
  omega

/-- A capacity is even. -/
theorem cap_even {t : Map K V} {j : Nat} (hj : cap t = 2 ^ j) (hge : 4 ≤ cap t) : ∃ c, cap t = 2 * c := by
  obtain ⟨i, rfl⟩ : ∃ i, j = i + 1 := ⟨j - 1, by
    by_contra hc
    have : j = 0 := by omega
    subst this
    omega⟩
  exact ⟨2 ^ i, by rw [hj, Nat.pow_succ]; omega⟩

/-- Unchanged, or doubled because the table was half full. -/
def Steps (t t' : Map K V) : Prop := cap t' = cap t ∨ (cap t' = 2 * cap t ∧ 2 * t.size = cap t)

def PrepHalf (mem : Mem) (t : Map K V) : Out (Map K V) (Nat × Option Nat) → Prop
  | .ok t' (_, none) => t' = t
  | .ok t' (_, some _) => Half t' ∧ Steps t t' ∧ t'.size = t.size
  | .throw t' => mem ≠ .noSlots → Half t'
  | _ => True

/-- With room there is no growth. -/
theorem prepare_stays (hE : E.Lawful) (mem : Mem) {k : K} {t : Map K V} (h : Live E sec t) (hk : TagOk E sec t k) (ha : Absent E t k)
    (hr : t.size < t.thr) (f : Nat) : ∃ i d, prepare E sec mem k (f + 1) t = .ok t (i, some d) := by
  unfold prepare
  obtain ⟨m, hm, hq⟩ := probe_spec h.toTab hE hk h.exists_empty (s := 4) (by decide)
  rcases hq with ⟨x, h1, h2, h3⟩ | ⟨h1, h2⟩
  · exact absurd h3 ((absent_iff h.toBase).mp ha x h2)
  · rw [h1]
    simp only [lift]
    rw [if_neg (by omega)]
    exact ⟨_, _, rfl⟩

theorem prepare_half (hE : E.Lawful) (mem : Mem) (k : K) (f : Nat) {t : Map K V} {j : Nat} (h : Live E sec t)
    (hk : TagOk E sec t k) (hS : Spread E 254 (cap t) (entries t)) (hh : Half t) (hj : cap t = 2 ^ j) :
    PrepHalf mem t (prepare E sec mem k (f + 2) t) := by
  have hgrow : Absent E t k → t.thr ≤ t.size →
      PrepHalf mem t ((grow E sec mem t).bind fun t' _ => prepare E sec mem k (f + 1) t') := by
    intro ha hfull
    have hge := h.cap_ge
    obtain ⟨c, hc⟩ := cap_even hj hge
    have hload := hh.load
    have hthr := hh.thr
    rcases grow_spec h.toTab.weak (by rw [← h.size]; exact Nat.le_of_lt h.room) hS mem hj with ⟨t1, h1, h2, h3⟩ | ⟨t1, h1, h2, h3⟩
    · rw [h1]
      have hw := h3.wider hj
      have hc1 : cap t1 = 2 * cap t := by rw [h3.cap, Nat.pow_succ, hj]; omega
      have hh1 : Half t1 := hh.moved h.size h3 (by rw [← h3.cap]; omega)
      have hs1 : t1.size = t.size := by rw [h3.inv.size, h3.perm.length_eq, ← h.size]
      have hl1 := h3.live hE h.distinct h.mlf
      have hthr1 := hh1.thr
      obtain ⟨i, d, hp⟩ := prepare_stays hE mem (k := k) hl1 (hk.mono hw.le) (ha.perm h3.perm) (by omega) f
      show PrepHalf mem t (prepare E sec mem k (f + 1) t1)
      rw [hp]
      exact ⟨hh1, Or.inr ⟨hc1, by omega⟩, hs1⟩
    · rw [h1]
      intro hm
      rcases h3 with rfl | h3
      · exact hh
      · exact absurd h3 hm
  unfold prepare
  obtain ⟨m, hm, hp⟩ := probe_spec h.toTab hE hk h.exists_empty (s := 4) (by decide)
  rcases hp with ⟨x, h1, h2, h3⟩ | ⟨h1, h2⟩
  · rw [h1]; rfl
  · rw [h1]
    have ha := (absent_iff h.toBase).mpr h2
    simp only [lift]
    split
    · exact hgrow ha (by assumption)
    · exact ⟨hh, Or.inl rfl, rfl⟩

def EmplaceHalf (mem : Mem) (ctor : Bool) (t : Map K V) (P : Prop) : Out (Map K V) (Nat × Bool) → Prop
  | .ok t' _ => Half t' ∧ (P → Steps t t')
  | .throw t' => mem ≠ .noSlots → ctor = true → Half t'
  | _ => True

theorem emplace_half (hE : E.Lawful) (update : Bool) (mem : Mem) (ctor : Bool) (k : K) (v : V) : ∀ (f j : Nat) (t : Map K V),
    Live E sec t → TagOk E sec t k → Spread E 254 (cap t) ((k, v) :: entries t) → Half t → cap t = 2 ^ j → 49 ≤ f + j →
    EmplaceHalf mem ctor t (Spread E 129 (cap t) ((k, v) :: entries t)) (emplace E sec update mem ctor k v f t) := by
  intro f
  induction f with
  | zero => intro j t _ _ _ _ _ _; exact trivial
  | succ f ih =>
    intro j t h hk hS hh hj hf
    unfold emplace
    have hS0 : Spread E 254 (cap t) (entries t) := hS.sub (List.sublist_cons_self _ _).subperm
    have hj2 : 2 ≤ j := by
      by_contra hc
      have := h.cap_ge
      have := Robin.pow_two_le (a := j) (b := 1) (by omega)
      omega
    have hsp := prepare_spec hE mem k 64 j t h hk hS0 hj (by omega)
    have hph := prepare_half hE mem k 62 h hk hS0 hh hj
    generalize prepare E sec mem k 64 t = o at hsp hph
    match o, hsp, hph with
    | .throw t', ⟨g1, g2, g3⟩, hph => exact fun hm _ => hph hm
    | .ok t' (i, none), ⟨g1, g2, g3, e, g4, g5⟩, hph =>
      subst g1
      simp only [Out.bind_ok, g4]
      refine ⟨?_, fun _ => Or.inl ?_⟩ <;> cases update
      · exact hh
      · exact ⟨hh.mlf, hh.rev, hh.thr, hh.load⟩
      · rfl
      · rfl
    | .ok t' (i, some m), ⟨g1, g2, g3, g4, g5, g6, g7⟩, ⟨p1, p2, p3⟩ =>
      simp only [Out.bind_ok]
      have hS' : Spread E 254 (cap t') ((k, v) :: entries t') := (g7.spread _ _ hS).perm (g6.cons _)
      obtain ⟨q, b, h1, h2⟩ := makeRoom_spec (e := (k, v)) false g2.toTab g2.exists_empty g3 hS'
      rw [g4, h1]
      simp only [lift]
      have hwid : Wider E t q := g7.trans h2.same.wider
      have hq := p1.same h2.same
      cases b with
      | false =>
        simp only [Bool.false_eq_true, if_false]
        cases ctor with
        | false => rw [if_neg (by decide)]; exact fun _ hc => by cases hc
        | true =>
          rw [if_pos rfl]
          refine ⟨⟨hq.mlf, hq.rev, hq.thr, ?_⟩, fun _ => ?_⟩
          · show 2 * (q.size + 1) ≤ cap q
            rw [h2.same.size, h2.same.cap]
            have := p1.thr
            omega
          · unfold Steps at p2 ⊢
            rw [← h2.same.cap] at p2
            exact p2
      | true =>
        simp only [if_true]
        obtain ⟨_, h3, h4, h5⟩ := h2.full rfl
        have hpq : (entries q).Perm (entries t) := h5.trans g6
        have hn : ¬ Spread E 129 (cap t) ((k, v) :: entries t) := fun hc => h3 ((g7.spread _ _ hc).perm (g6.cons _))
        obtain ⟨jq, hjq1, _, hjq⟩ := h4.pow
        have hjle : j ≤ jq := by
          by_contra hc
          have h6 := Robin.pow_two_le (a := jq + 1) (b := j) (by omega)
          have := hwid.le
          rw [Nat.pow_succ] at h6
          have := h.cap_ge
          omega
        have hszq : q.size = (entries q).length := by rw [h2.same.size, h5.length_eq, g2.size]
        have hlenq : (entries q).length ≤ cap q := by
          rw [h5.length_eq, ← g2.size, h2.same.cap]; exact Nat.le_of_lt g2.room
        rcases grow_spec (E := E) (sec := sec) h4 hlenq ((hwid.spread _ _ hS0).perm hpq) mem hjq with ⟨t1, k1, k2, k3⟩ | ⟨t1, k1, k2, k3⟩
        · rw [k1]
          simp only [Out.bind_ok]
          have hw1 : Wider E t t1 := hwid.trans (k3.wider hjq)
          have hp1 : (entries t1).Perm (entries t) := k3.perm.trans hpq
          have hd1 : Distinct E.eq (entries q) := h.distinct.perm hE hpq.symm
          have hload := hq.load
          have hpow : (2 : Nat) ^ (jq + 1) = 2 * cap q := by rw [hjq, Nat.pow_succ]; omega
          have hsp := ih (jq + 1) t1 (k3.live hE hd1 (by rw [hwid.mlf]; exact h.mlf)) (hk.mono hw1.le)
            ((hw1.spread _ _ hS).perm (hp1.cons _)) (hq.moved hszq k3 (by omega)) k3.cap (by omega)
          generalize emplace E sec update mem ctor k v f t1 = o at hsp
          match o, hsp with
          | .ub, _ => exact trivial
          | .diverge, _ => exact trivial
          | .ok t2 r, hsp => exact ⟨hsp.1, fun hc => absurd hc hn⟩
          | .throw t2, hsp => exact hsp
        · rw [k1]
          intro hm _
          rcases k3 with rfl | k3
          · exact hq
          · exact absurd k3 hm

/-! ### C79: histories, conditions on the ideal map only -/

/-- The elements are spread over every table that is large enough for them. -/
def Thin (E : Env K) (B : Nat) (l : List (K × V)) : Prop := ∀ j, l.length < 2 ^ j → Spread E B (2 ^ j) l

/-- In every table of which they fill at most half, the elements have their home positions so far in front that none is displaced
beyond the last slot. -/
def Low (E : Env K) (l : List (K × V)) : Prop := ∀ j, 2 * l.length ≤ 2 ^ j → Front E (2 ^ j) l

/-- The calls considered: everything but `max_load_factor`, with conditions on the ideal map.  `big` says that the map is kept at 16 slots
or more; otherwise no key may have the control hash 0. -/
def Plain (E : Env K) (sec : Nat → Nat) (big : Bool) (m : Spec.Map K V) : Call K V → Prop
  | .insert k v | .assign k v | .index k v => (big = true ∨ tagOf E sec k ≠ 0) ∧ Thin E 129 ((k, v) :: m)
  | .find k | .contains k | .count k | .at k => big = true ∨ tagOf E sec k ≠ 0
  | .erase k => (big = true ∨ tagOf E sec k ≠ 0) ∧ (Spec.get E.eq m k = none ∨ Low E m)
  | .clear d => if d then big = false else m = []
  | .reserve n => n ≠ 0 ∧ m.length ≤ n ∧ n < 2 ^ 44 ∧ (big = true → 5 ≤ n) ∧ Thin E 254 m
  | .rehash n => m.length ≤ n ∧ n < 2 ^ 44 ∧ (big = true → 5 ≤ n) ∧ Thin E 254 m
  | .shrink ro => ro = false ∧ m.length < 2 ^ 44 ∧ (big = true → 5 ≤ m.length) ∧ Thin E 254 m
  | .maxLoad _ => False
  | .size | .empty | .iterate => True

/-- A history of such calls.  No allocation of slots fails (allocations of control words may), and after an exception the caller goes
on. -/
def PlainAll (E : Env K) (sec : Nat → Nat) (big : Bool) : Spec.Map K V → List (Mem × Call K V) → Prop
  | _, [] => True
  | m, (mem, c) :: cs => mem ≠ .noSlots ∧ Plain E sec big m c ∧ PlainAll E sec big (after E.eq m c) cs ∧
      (c.allocates = true → PlainAll E sec big m cs)

/-- The state between the calls of such a history. -/
structure PState (E : Env K) (sec : Nat → Nat) (big : Bool) (t : Map K V) : Prop extends Reach E sec t where
  half : Half t
  large : big = true → 16 ≤ cap t

theorem Half.minRequire {t : Map K V} (h : Half t) {n : Nat} (hn : n < 2 ^ 47) : minRequire t n = 2 * n := by
  unfold Rob16.minRequire
  rw [h.rev, Nat.mod_eq_of_lt (by unfold W; omega)]
  omega

theorem calc_ge {n c : Nat} (h : calcCapacity n = .ok c) : n ≤ c ∧ 4 ≤ c ∧ ∃ j, c = 2 ^ j := by
  rw [calcCapacity_eq] at h
  obtain ⟨j, h1, rfl, h3, _⟩ := Robin.calcCapacity_ok h
  exact ⟨h3, Robin.pow_two_le (a := 2) (b := j) h1, j, rfl⟩

theorem calc_big {n c : Nat} (h : calcCapacity n = .ok c) (hn : 9 ≤ n) : 16 ≤ c := by
  obtain ⟨h1, _, j, rfl⟩ := calc_ge h
  have : ¬ j ≤ 3 := fun hj => by have := Robin.pow_two_le (a := j) (b := 3) hj; omega
  exact Robin.pow_two_le (a := 4) (b := j) (by omega)

theorem PState.spread {big : Bool} {t : Map K V} (h : PState E sec big t) {B : Nat} {m : List (K × V)} {e : K × V} (hm : (entries t).Perm m)
    (hT : Thin E B (e :: m)) : Spread E B (cap t) (e :: m) := by
  obtain ⟨j, _, _, hj⟩ := h.pow
  have hge := h.cap_ge
  have := h.half.room hge
  rw [hj]
  apply hT
  rw [← hj, List.length_cons, ← hm.length_eq, ← h.size]
  exact this

theorem fits_of {n c : Nat} {m : List (K × V)} (h : calcCapacity n = .ok c) (hn : 2 * m.length ≤ n) (hT : Thin E 254 m) : Fits E c m := by
  obtain ⟨h1, h2, j, rfl⟩ := calc_ge h
  have h3 : m.length < 2 ^ j := by omega
  exact ⟨h3, hT j h3⟩

theorem Plain.safe (hE : E.Lawful) {big : Bool} {rv : Nat → Nat} {m : Spec.Map K V} {t : Map K V} (hP : PState E sec big t) (hm : (entries t).Perm m)
    {c : Call K V} (h : Plain E sec big m c) : Safe E sec rv t m c ∧ Calm E t m c := by
  have htag : ∀ k, big = true ∨ tagOf E sec k ≠ 0 → TagOk E sec t k := fun k hk => hk.imp_left hP.large
  have hlen : t.size = m.length := by rw [hP.size, hm.length_eq]
  cases c with
  | insert k v => exact ⟨⟨htag k h.1, (hP.spread hm h.2).mono (by omega)⟩, hP.spread hm h.2⟩
  | assign k v => exact ⟨⟨htag k h.1, (hP.spread hm h.2).mono (by omega)⟩, hP.spread hm h.2⟩
  | index k v => exact ⟨⟨htag k h.1, (hP.spread hm h.2).mono (by omega)⟩, hP.spread hm h.2⟩
  | erase k =>
    refine ⟨⟨htag k h.1, fun i hi hk => ?_⟩, trivial⟩
    rcases h.2 with hg | hL
    · obtain ⟨hu, e, he, heq⟩ := hk
      have := Spec.get_none_iff.mp hg e (hm.mem_iff.mp ((mem_entries hP.toBase).mpr ⟨i, hi, hu, he⟩))
      rw [hE.symm _ _ heq] at this
      cases this
    · obtain ⟨j, _, _, hj⟩ := hP.pow
      have hF := hL j (by rw [← hj, ← hlen]; exact hP.half.load)
      refine Front.not_wraps hP.toCore ?_ i
      intro e he
      rw [hj, hm.length_eq]
      exact hF e (hm.mem_iff.mp he)
  | find k => exact ⟨htag k h, trivial⟩
  | contains k => exact ⟨htag k h, trivial⟩
  | count k => exact ⟨htag k h, trivial⟩
  | «at» k => exact ⟨htag k h, trivial⟩
  | size => exact ⟨trivial, trivial⟩
  | empty => exact ⟨trivial, trivial⟩
  | iterate => exact ⟨trivial, trivial⟩
  | clear d =>
    refine ⟨?_, trivial⟩
    have hge := hP.cap_ge
    cases d with
    | true =>
      by_cases h4 : 4 < cap t
      · exact Or.inl ⟨rfl, h4⟩
      · exact Or.inr (Or.inl (by omega))
    | false =>
      right
      by_cases h16 : cap t < 16
      · exact Or.inl h16
      · right
        intro i hi
        have hm0 : m = [] := h
        rcases hP.toTab.cellAt (i := i) (by omega) with ⟨hu, e, he, _⟩ | ⟨hu, _⟩
        · have := (mem_entries hP.toBase).mpr ⟨i, by omega, hu, he⟩
          rw [hm.mem_iff, hm0] at this; cases this
        · unfold Busy at hu; omega
  | reserve n =>
    obtain ⟨h0, h1, h2, _, h4⟩ := h
    refine ⟨⟨h0, fun c hc => fits_of hc ?_ h4⟩, trivial⟩
    rw [hP.half.minRequire (by omega)]; omega
  | rehash n =>
    obtain ⟨h1, h2, _, h4⟩ := h
    refine ⟨fun c hc => fits_of hc ?_ h4, trivial⟩
    rw [hP.half.minRequire (by omega)]; omega
  | shrink ro =>
    obtain ⟨rfl, h2, _, h4⟩ := h
    refine ⟨fun c hc => fits_of hc ?_ h4, trivial⟩
    simp only [Bool.false_eq_true, if_false]
    rw [hP.half.minRequire (by omega)]; omega
  | maxLoad x => exact h.elim

/-- What a call does to the load and the capacity. -/
def Kept (big : Bool) : Out (Map K V) (Ans K V) → Prop
  | .ok t' _ => Half t' ∧ (big = true → 16 ≤ cap t')
  | .throw t' => Half t' ∧ (big = true → 16 ≤ cap t')
  | _ => True

theorem rehash_kept {big : Bool} {t : Map K V} (hP : PState E sec big t) {mem : Mem} (hmem : mem ≠ .noSlots) {n : Nat}
    (hfit : ∀ c, calcCapacity n = .ok c → Fits E c (entries t)) (hn : 2 * t.size ≤ n) (hb : big = true → 9 ≤ n) :
    Kept big ((rehashImpl E sec true false mem n t).bind fun t' _ => .ok t' .unit) := by
  have hs := rehashImpl_spec (E := E) (sec := sec) hP.toTab.weak true false mem n hfit
  generalize rehashImpl E sec true false mem n t = o at hs
  match o, hs with
  | .ub, _ => exact trivial
  | .throw t', ⟨_, g2⟩ =>
    rcases g2 with rfl | g2
    · exact ⟨hP.half, hP.large⟩
    · exact absurd g2 hmem
  | .ok t' u, ⟨c, hc, g2⟩ =>
    simp only [Out.bind_ok]
    rcases g2 with ⟨_, g3⟩ | ⟨rfl, _, _⟩
    · have := (calc_ge hc).1
      exact ⟨hP.half.moved hP.size g3 (by omega), fun h => by rw [g3.cap]; exact calc_big hc (hb h)⟩
    · exact ⟨hP.half, hP.large⟩

theorem exec_kept (hE : E.Lawful) {triv : Bool} {big : Bool} {rv : Nat → Nat} {m : Spec.Map K V} {t : Map K V} (hP : PState E sec big t)
    (hm : (entries t).Perm m) {mem : Mem} (hmem : mem ≠ .noSlots) {c : Call K V} (h : Plain E sec big m c) :
    Kept big (exec E sec triv rv mem c t) := by
  obtain ⟨hs, hcalm⟩ := h.safe hE (rv := rv) hP hm
  have hlen : t.size = m.length := by rw [hP.size, hm.length_eq]
  have hput : ∀ (u : Bool) (k : K) (v : V) (g : Map K V → Nat × Bool → Out (Map K V) (Ans K V)),
      (∀ t r, match g t r with | .ok t' _ => t' = t | .throw _ => False | _ => True) →
      (TagOk E sec t k ∧ Spread E 254 (cap t) ((k, v) :: m)) → Kept big ((insert E sec u mem true k v t).bind g) := by
    intro u k v g hg ⟨hk, hS⟩
    obtain ⟨j, h1, h2, h3⟩ := hP.pow
    have hx := emplace_half hE u mem true k v 64 j t hP.toLive hk (hS.perm (hm.cons _)) hP.half h3 (by omega)
    have hy := emplace_spec hE u mem true k v 64 j t hP.toLive hk (hS.perm (hm.cons _)) h3 (by omega)
    unfold insert
    generalize emplace E sec u mem true k v 64 t = o at hx hy
    have hbig : ∀ {t' : Map K V}, cap t ≤ cap t' → big = true → 16 ≤ cap t' := fun hle hb => Nat.le_trans (hP.large hb) hle
    match o, hx, hy with
    | .throw t', hx, ⟨_, _, h3⟩ => exact ⟨hx hmem rfl, hbig (h3 hmem rfl).2.1.le⟩
    | .ok t' (i, b), hx, hy =>
      simp only [Out.bind_ok]
      have hle : cap t ≤ cap t' := by
        rcases hy with ⟨_, _, _, _, _, _, _, hw⟩ | ⟨_, _, _, e, _, _, rfl⟩
        · exact hw.le
        · cases u <;> exact Nat.le_refl _
      have := hg t' (i, b)
      generalize g t' (i, b) = q at this
      match q, this with
      | .ub, _ => exact trivial
      | .diverge, _ => exact trivial
      | .throw t2, hq => exact hq.elim
      | .ok t2 a, hq =>
        have hq' : t2 = t' := hq
        subst hq'; exact ⟨hx.1, hbig hle⟩
  have hread : ∀ {α : Type} (r : Res α) (f : α → Ans K V), Kept big (lift r (fun x => Out.ok t (f x))) := by
    intro α r f
    cases r with
    | ok a => exact ⟨hP.half, hP.large⟩
    | ub => exact trivial
    | diverge => exact trivial
  have hre : ∀ (t : Map K V) r, match readElem t r with | .ok t' _ => t' = t | .throw _ => False | _ => True := by
    intro t r; unfold readElem; cases t.slot r.1 <;> trivial
  have hrv : ∀ (t : Map K V) r, match readValue t r with | .ok t' _ => t' = t | .throw _ => False | _ => True := by
    intro t r; unfold readValue; cases t.slot r.1 <;> trivial
  have hfit : ∀ {n}, (∀ c, calcCapacity n = .ok c → Fits E c m) → ∀ c, calcCapacity n = .ok c → Fits E c (entries t) :=
    fun hf c hc => ⟨by rw [hm.length_eq]; exact (hf c hc).1, (hf c hc).2.perm hm⟩
  cases c with
  | insert k v => exact hput false k v _ hre hs
  | assign k v => exact hput true k v _ hre hs
  | index k v => exact hput false k v _ hrv hs
  | erase k =>
    simp only [exec, eraseKey]
    rcases find_spec hE hP.toInv (k := k) hs.1 with ⟨i, e, h1, h2, hu, h3, h4, h5⟩ | ⟨h1, h2, h3⟩
    · rw [h1]
      simp only [lift]
      obtain ⟨t', g1, g2, g3, g4, g5, g6, g7⟩ := (eraseSlot_spec hE triv hP.toLive h2 hu h3).1 (hs.2 i h2 ⟨hu, e, h3, h4⟩)
      rw [g1]
      have hcap : cap t' = cap t := by unfold cap; rw [g4]
      have hsz := g3.length_eq
      rw [← hP.size, List.length_cons, ← g2.size] at hsz
      have := hP.half.load
      exact ⟨⟨g6.trans hP.half.mlf, g7.trans hP.half.rev, by rw [g5, hP.half.thr, hcap], by omega⟩, fun hb => by rw [hcap]; exact hP.large hb⟩
    · rw [h1]; exact ⟨hP.half, hP.large⟩
  | find k => exact hread _ _
  | contains k => exact hread _ _
  | count k => exact hread _ _
  | «at» k => exact hread _ _
  | iterate => exact hread _ _
  | size => exact ⟨hP.half, hP.large⟩
  | empty => exact ⟨hP.half, hP.large⟩
  | clear d =>
    obtain ⟨t', g1, g2, g3, g4, g5, g6⟩ := clear_spec hP.toLive triv d hs
    simp only [exec]
    rw [g1]
    have hsz : t'.size = 0 := by rw [g2.size, g3]; rfl
    split at g6
    · rename_i hd
      have hb : big = false := by
        have h' := h
        rw [hd.2] at h'
        exact h'
      refine ⟨⟨g4.trans hP.half.mlf, g5.trans hP.half.rev, ?_, by omega⟩, fun hc => by rw [hb] at hc; cases hc⟩
      rw [g6, hP.half.mlf, cap_fresh (by decide)]; exact half_thr (by decide)
    · have hcap : cap t' = cap t := by unfold cap; rw [g6.1]
      exact ⟨⟨g4.trans hP.half.mlf, g5.trans hP.half.rev, by rw [g6.2, hP.half.thr, hcap], by omega⟩,
        fun hb => by rw [hcap]; exact hP.large hb⟩
  | reserve n =>
    obtain ⟨h0, h1, h2, h3, h4⟩ := h
    have hq := hP.half.minRequire (n := n) (by omega)
    exact rehash_kept hP hmem (hfit hs.2) (by simp only [Bool.false_eq_true, if_false]; rw [hq]; omega) (fun hb => by
      simp only [Bool.false_eq_true, if_false]; rw [hq]; have := h3 hb; omega)
  | rehash n =>
    obtain ⟨h1, h2, h3, h4⟩ := h
    have hq := hP.half.minRequire (n := n) (by omega)
    exact rehash_kept hP hmem (hfit hs) (by simp only [Bool.false_eq_true, if_false]; rw [hq]; omega) (fun hb => by
      simp only [Bool.false_eq_true, if_false]; rw [hq]; have := h3 hb; omega)
  | shrink ro =>
    obtain ⟨rfl, h2, h3, h4⟩ := h
    have hq := hP.half.minRequire (n := t.size) (by omega)
    exact rehash_kept hP hmem (hfit hs) (by simp only [Bool.false_eq_true, if_false]; rw [hq]) (fun hb => by
      simp only [Bool.false_eq_true, if_false]; rw [hq]; have := h3 hb; omega)
  | maxLoad x => exact h.elim

theorem plain_run (hE : E.Lawful) {triv big : Bool} {rv : Nat → Nat} (hrv : ∀ x, 81920 ≤ rv x ∧ rv x ≤ 327680) :
    ∀ (cs : List (Mem × Call K V)) (t : Map K V) (m : Spec.Map K V), PState E sec big t → (entries t).Perm m →
      PlainAll E sec big m cs →
      ∃ as t' m', run E sec triv rv cs t = .ok (as, t') ∧ PState E sec big t' ∧ (entries t').Perm m' ∧
        Spec.AcceptsAll E.eq m (cs.map (·.2)) as m' := by
  intro cs
  induction cs with
  | nil => intro t m h1 h2 _; exact ⟨[], t, m, rfl, h1, h2, rfl⟩
  | cons p cs ih =>
    intro t m h1 h2 h3
    obtain ⟨mem, c⟩ := p
    obtain ⟨h4, h5, h6, h7⟩ := h3
    obtain ⟨hs, hcalm⟩ := h5.safe hE (rv := rv) h1 h2
    have hstep := exec_ok hE (triv := triv) h1.toReach h2 hrv h4 hs
    have hkept := exec_kept hE (triv := triv) (rv := rv) h1 h2 h4 h5
    unfold run
    generalize exec E sec triv rv mem c t = o at hstep hkept
    match o, hstep, hkept with
    | .ok t1 a, ⟨g1, g2, g3⟩, ⟨k1, k2⟩ =>
      obtain ⟨as, t', m', e1, e2, e3, e4⟩ := ih t1 _ ⟨g1, k1, k2⟩ g3 h6
      refine ⟨a :: as, t', m', ?_, e2, e3, _, g2, e4⟩
      simp only [e1, Res.bind_ok]
    | .throw t1, ⟨g1, g2, g3⟩, ⟨k1, k2⟩ =>
      obtain ⟨as, t', m', e1, e2, e3, e4⟩ := ih t1 m ⟨g3 hcalm, k1, k2⟩ g2 (h7 g1)
      refine ⟨.threw :: as, t', m', ?_, e2, e3, m, ?_, e4⟩
      · simp only [e1, Res.bind_ok]
      · cases c <;> simp [Call.allocates] at g1 <;> exact ⟨rfl, rfl⟩

theorem make_state {mem : Mem} {n : Nat} {t : Map K V} (hc : make mem n = .ok t ()) (big : Bool) (hb : big = true → 8 < n) :
    PState E sec big t ∧ entries t = [] := by
  obtain ⟨h1, h2, j, hj1, hj2, h3, h4, _⟩ := make_ok (E := E) (sec := sec) hc
  have hp : 0 < 2 ^ j := Nat.two_pow_pos _
  have hcap : cap t = 2 ^ j := by rw [h3]; exact cap_fresh hp
  have hle := h1.cap_le
  refine ⟨⟨h1, ⟨by rw [h3]; rfl, by rw [h3]; rfl, ?_, by rw [h1.size, h2]; exact Nat.zero_le _⟩, fun h => ?_⟩, h2⟩
  · rw [← half_thr hle, hcap, h3]; rfl
  · have := hb h
    obtain ⟨i, hi1, hi2, hi⟩ := h1.pow
    have : ¬ i ≤ 3 := fun hj => by have := Robin.pow_two_le (a := i) (b := 3) hj; omega
    rw [hi]
    exact Robin.pow_two_le (a := 4) (b := i) (by omega)

/-- C79 (partial).  From every constructor, every history of such calls is defined, terminates, and gives the answers of an ideal map; the
conditions speak of the hash function and the ideal map only.  Missing for the full claim: as in `C79_guarded_partial`, and the histories
whose safety depends on the order of the elements in the table. -/
theorem C79_histories_partial (hE : E.Lawful) {triv : Bool} {rv : Nat → Nat} (hrv : ∀ x, 81920 ≤ rv x ∧ rv x ≤ 327680) {mem : Mem}
    {n : Nat} {t : Map K V} (hc : make mem n = .ok t ()) (big : Bool) (hb : big = true → 8 < n) (cs : List (Mem × Call K V))
    (hp : PlainAll E sec big [] cs) :
    ∃ as t' m', run E sec triv rv cs t = .ok (as, t') ∧ Spec.AcceptsAll E.eq [] (cs.map (·.2)) as m' ∧ (entries t').Perm m' := by
  obtain ⟨h1, h2⟩ := make_state (E := E) (sec := sec) hc big hb
  obtain ⟨as, t', m', e1, _, e3, e4⟩ := plain_run hE hrv cs t [] h1 (by rw [h2]) hp
  exact ⟨as, t', m', e1, e4, e3⟩

/-- The calls that may add an element. -/
def adds : Call K V → Bool
  | .insert _ _ | .assign _ _ | .index _ _ => true
  | _ => false

/-- C79 without `erase`: a map made with at least 9 slots that never has more than 129 elements behaves like the ideal map, whatever
the hash function. -/
theorem C79_small (hE : E.Lawful) {triv : Bool} {rv : Nat → Nat} (hrv : ∀ x, 81920 ≤ rv x ∧ rv x ≤ 327680) {mem : Mem}
    {n : Nat} {t : Map K V} (hc : make mem n = .ok t ()) (hn : 8 < n) (cs : List (Mem × Call K V)) (hlen : cs.countP (fun p => adds p.2) ≤ 129)
    (hp : ∀ p ∈ cs, p.1 ≠ .noSlots ∧ match p.2 with
      | .insert _ _ | .assign _ _ | .index _ _ | .find _ | .contains _ | .count _ | .at _ | .size | .empty | .iterate => True
      | .reserve n => 129 ≤ n ∧ n < 2 ^ 44
      | _ => False) :
    ∃ as t' m', run E sec triv rv cs t = .ok (as, t') ∧ Spec.AcceptsAll E.eq [] (cs.map (·.2)) as m' ∧ (entries t').Perm m' := by
  refine C79_histories_partial hE hrv hc true (fun _ => hn) cs ?_
  have hlen' : cs.countP (fun p => adds p.2) + ([] : Spec.Map K V).length ≤ 129 := by simpa using hlen
  clear hc hlen
  rename _ => hlen
  generalize ([] : Spec.Map K V) = m at hlen
  have hins : ∀ (m : Spec.Map K V) k v, (Spec.insert E.eq m k v).length ≤ m.length + 1 := by
    intro m k v; unfold Spec.insert; split <;> simp
  have hass : ∀ (m : Spec.Map K V) k v, (Spec.assign E.eq m k v).length ≤ m.length + 1 := by
    intro m k v; unfold Spec.assign; split <;> simp
  induction cs generalizing m with
  | nil => trivial
  | cons p cs ih =>
    obtain ⟨mem', c⟩ := p
    obtain ⟨h1, h2⟩ := hp (mem', c) (by simp)
    rw [List.countP_cons] at hlen
    have hrest := ih (fun q hq => hp q (by simp [hq]))
    have hthin : ∀ B k v, 129 ≤ B → m.length + 1 ≤ 129 → Thin E B ((k, v) :: m) :=
      fun B k v hB hm j _ => spread_of_length (by simp only [List.length_cons]; omega)
    refine ⟨h1, ?_, hrest _ ?_, fun _ => hrest _ (by omega)⟩
    · cases c with
      | insert k v =>
        simp only [show adds (Call.insert k v : Call K V) = true from rfl, if_true] at hlen
        exact ⟨Or.inl rfl, hthin _ _ _ (by omega) (by omega)⟩
      | assign k v =>
        simp only [show adds (Call.assign k v : Call K V) = true from rfl, if_true] at hlen
        exact ⟨Or.inl rfl, hthin _ _ _ (by omega) (by omega)⟩
      | index k v =>
        simp only [show adds (Call.index k v : Call K V) = true from rfl, if_true] at hlen
        exact ⟨Or.inl rfl, hthin _ _ _ (by omega) (by omega)⟩
      | find k => exact Or.inl rfl
      | contains k => exact Or.inl rfl
      | count k => exact Or.inl rfl
      | «at» k => exact Or.inl rfl
      | reserve n => exact ⟨by omega, by omega, h2.2, fun _ => by omega, fun j _ => spread_of_length (by omega)⟩
      | size => trivial
      | empty => trivial
      | iterate => trivial
      | erase k => exact h2.elim
      | rehash n => exact h2.elim
      | clear d => exact h2.elim
      | shrink ro => exact h2.elim
      | maxLoad x => exact h2.elim
    · cases c with
      | insert k v =>
        simp only [show adds (Call.insert k v : Call K V) = true from rfl, if_true] at hlen
        have := hins m k v; show _ + (Spec.insert E.eq m k v).length ≤ _; omega
      | assign k v =>
        simp only [show adds (Call.assign k v : Call K V) = true from rfl, if_true] at hlen
        have := hass m k v; show _ + (Spec.assign E.eq m k v).length ≤ _; omega
      | index k v =>
        simp only [show adds (Call.index k v : Call K V) = true from rfl, if_true] at hlen
        have := hins m k v; show _ + (Spec.insert E.eq m k v).length ≤ _; omega
      | find k => show _ + m.length ≤ _; omega
      | contains k => show _ + m.length ≤ _; omega
      | count k => show _ + m.length ≤ _; omega
      | «at» k => show _ + m.length ≤ _; omega
      | reserve n => show _ + m.length ≤ _; omega
      | size => show _ + m.length ≤ _; omega
      | empty => show _ + m.length ≤ _; omega
      | iterate => show _ + m.length ≤ _; omega
      | erase k => exact h2.elim
      | rehash n => exact h2.elim
      | clear d => exact h2.elim
      | shrink ro => exact h2.elim
      | maxLoad x => exact h2.elim

/-! ### C80: insertion -/

theorem lookup_eq (hE : E.Lawful) {t : Map K V} (h : Inv E sec t) {k : K} (hk : TagOk E sec t k) :
    lookup E sec t k = .ok (Spec.get E.eq (entries t) k) := by
  unfold lookup
  rcases find_spec hE h hk with ⟨i, e, h1, h2, h3, h4, h5, h6⟩ | ⟨h1, h2, h3⟩
  · rw [h1]; simp only [Res.bind_ok, h4, h6]
  · rw [h1]; simp only [Res.bind_ok, h3]

theorem eq_false_symm (hE : E.Lawful) {a b : K} (h : E.eq a b = false) : E.eq b a = false := by
  cases hq : E.eq b a with
  | false => rfl
  | true => rw [hE.symm _ _ hq] at h; cases h

/-- What an insertion changes, through the interface. -/
def InsertedOk (E : Env K) (sec : Nat → Nat) (update : Bool) (t : Map K V) (k : K) (v : V) : Out (Map K V) (Nat × Bool) → Prop
  | .ok t' (i, b) => Reach E sec t' ∧ (b = true ↔ lookup E sec t k = .ok none) ∧ t'.size = t.size + (if b then 1 else 0) ∧
      (∃ e, t'.slot i = some e ∧ lookup E sec t' k = .ok (some e) ∧ (b = true → e = (k, v)) ∧ (b = false → update = true → e.2 = v) ∧
        (b = false → update = false → lookup E sec t k = .ok (some e))) ∧
      ∀ k', TagOk E sec t k' → E.eq k k' = false → lookup E sec t' k' = lookup E sec t k'
  | .throw t' => Reach E sec t' ∧ t'.size = t.size ∧ lookup E sec t k = .ok none ∧
      ∀ k', TagOk E sec t k' → lookup E sec t' k' = lookup E sec t k'
  | .diverge => False
  | .ub => False

/-- C80 (partial).  An insertion into any reachable state, while the elements are spread well enough for the displacement limit: it adds the
key with the value exactly if the key was not found before, otherwise it leaves the element or, for `insert_or_assign`, gives it the
value; no other key is affected; if it throws, nothing has changed.  Missing: insertions that exceed the displacement limit or give a
distance above 253 (C85, C86), failed allocations of slots, throwing constructors (C87), keys with control hash 0 in maps of less than 16
slots (C82). -/
theorem C80_insert_partial (hE : E.Lawful) {t : Map K V} (hR : Reach E sec t) (update : Bool) {mem : Mem} (hmem : mem ≠ .noSlots) (k : K)
    (v : V) (hk : TagOk E sec t k) (hS : Spread E 129 (cap t) ((k, v) :: entries t)) :
    InsertedOk E sec update t k v (insert E sec update mem true k v t) := by
  have hS' := hS.mono (B' := 254) (by omega)
  have hp := insert_ok hE hR (List.Perm.refl _) update hmem k v hk hS'
  obtain ⟨j, h1, h2, h3⟩ := hR.pow
  have hspec := emplace_spec hE update mem true k v 64 j t hR.toLive hk hS' h3 (by omega)
  have hother : ∀ k', E.eq k k' = false → Spec.get E.eq (Flat.after E.eq update (entries t) k v) k' = Spec.get E.eq (entries t) k' := by
    intro k' hkk
    have := eq_false_symm hE hkk
    unfold Flat.after
    split
    · exact Spec.get_assign_other hE _ v this
    · exact Spec.get_insert_other _ v this
  unfold insert at hp ⊢
  generalize emplace E sec update mem true k v 64 t = o at hp hspec
  match o, hp, hspec with
  | .throw t', ⟨p1, p2⟩, ⟨s1, _, s3⟩ =>
    have hR' := p2 hS
    have hle := (s3 hmem rfl).2.1.le
    refine ⟨hR', ?_, ?_, fun k' hk' => ?_⟩
    · rw [hR'.size, p1.length_eq, hR.size]
    · rw [lookup_eq hE hR.toInv hk, Spec.get_none_iff.mpr fun e he => Robin.absent_symm hE (s1 e he)]
    · rw [lookup_eq hE hR.toInv hk', lookup_eq hE hR'.toInv (hk'.mono hle), Spec.get_perm hE p1 hR'.distinct]
  | .ok t' (i, b), ⟨p1, p2, e, p3, p4, p5⟩, hs =>
    have hle : cap t ≤ cap t' := by
      rcases hs with ⟨_, _, _, _, _, _, _, hw⟩ | ⟨_, _, _, e, _, _, rfl⟩
      · exact hw.le
      · cases update <;> exact Nat.le_refl _
    have hlk := lookup_eq hE hR.toInv hk
    refine ⟨p1, ?_, ?_, ⟨e, p3, ?_, ?_, ?_, ?_⟩, fun k' hk' hkk => ?_⟩
    · rw [hlk, p2]
      cases Spec.get E.eq (entries t) k <;> simp
    · rw [p1.size, p5.length_eq, hR.size, p2]
      unfold Flat.after Spec.assign Spec.insert
      cases hg : Spec.get E.eq (entries t) k <;> cases update <;> simp
    · rw [lookup_eq hE p1.toInv (hk.mono hle), Spec.get_perm hE p5 p1.distinct, p4]
    · intro hb
      rcases hs with ⟨_, _, _, _, _, _, h7, _⟩ | ⟨h7, _⟩
      · rw [p3] at h7; cases h7; rfl
      · rw [hb] at h7; cases h7
    · intro hb hu
      rcases hs with ⟨h7, _⟩ | ⟨_, _, _, e', _, _, rfl⟩
      · rw [hb] at h7; cases h7
      · rw [hu] at p3
        simp only [if_true] at p3
        rw [upd_self] at p3
        cases p3; rfl
    · intro hb hu
      rw [p2] at hb
      obtain ⟨e', he'⟩ := Option.isSome_iff_exists.mp (by simpa using hb : (Spec.get E.eq (entries t) k).isSome = true)
      rw [hlk, ← p4, hu]
      show _ = Res.ok (Spec.get E.eq (Spec.insert E.eq (entries t) k v) k)
      rw [Spec.insert_present he' v]
    · rw [lookup_eq hE hR.toInv hk', lookup_eq hE p1.toInv (hk'.mono hle), Spec.get_perm hE p5 p1.distinct, hother k' hkk]

/-! ### C81: erasure -/

/-- C81 (partial).  `erase(k)` removes exactly the element with the key, unless the elements behind it are displaced beyond the last slot.
Missing: that case, which is undefined (`C81_erase_wraps`). -/
theorem C81_erase_partial (hE : E.Lawful) (triv : Bool) {t : Map K V} (hR : Reach E sec t) (k : K) (hk : TagOk E sec t k)
    (hw : ∀ i, i < cap t → KeyAt E t k i → ¬ Wraps t i) :
    ∃ t' n, eraseKey E sec triv k t = .ok t' n ∧ Reach E sec t' ∧ cap t' = cap t ∧ (n = 1 ↔ contains E sec t k = .ok true) ∧
      (n = 0 ↔ contains E sec t k = .ok false) ∧ t'.size + n = t.size ∧
      ∀ k', TagOk E sec t k' → lookup E sec t' k' = if E.eq k k' then .ok none else lookup E sec t k' := by
  rcases find_spec hE hR.toInv (k := k) hk with ⟨i, e, h1, h2, hu, h3, h4, h5⟩ | ⟨h1, h2, h3⟩
  · obtain ⟨t', g1, g2, g3, g4, _, _, g6⟩ := (eraseSlot_spec hE triv hR.toLive h2 hu h3).1 (hw i h2 ⟨hu, e, h3, h4⟩)
    have hR' : Reach E sec t' := g2.reach hR g6
    have hcap : cap t' = cap t := by unfold cap; rw [g4]
    have hke : E.eq k e.1 = true := hE.symm _ _ h4
    refine ⟨t', 1, ?_, hR', hcap, ?_, ?_, ?_, fun k' hk' => ?_⟩
    · unfold eraseKey; rw [h1]; simp only [lift]; rw [g1]
    · unfold contains; rw [h1]; simp
    · unfold contains; rw [h1]; simp
    · rw [hR'.size, hR.size, g3.length_eq]; rfl
    · have hp := Spec.erase_perm hE hR.distinct g3 hke
      rw [lookup_eq hE hR.toInv hk', lookup_eq hE hR'.toInv (hk'.mono (by omega)), Spec.get_perm hE hp.symm hR'.distinct]
      cases hq : E.eq k k' with
      | true => rw [Spec.get_erase_self hE _ hq]; rfl
      | false => rw [Spec.get_erase_other hE _ (eq_false_symm hE hq)]; rfl
  · refine ⟨t, 0, ?_, hR, rfl, ?_, ?_, rfl, fun k' hk' => ?_⟩
    · unfold eraseKey; rw [h1]; rfl
    · unfold contains; rw [h1]; simp
    · unfold contains; rw [h1]; simp
    · cases hq : E.eq k k' with
      | false => rfl
      | true =>
        rw [lookup_eq hE hR.toInv hk']
        have : Spec.get E.eq (entries t) k' = none := by
          rw [Spec.get_none_iff] at h3 ⊢
          intro e he
          cases hx : E.eq k' e.1 with
          | false => rfl
          | true => rw [← h3 e he, hE.trans _ _ _ hq hx]
        rw [this]; rfl

/-- C81, the violation: in the other case `erase(k)` reads and writes behind the slots. -/
theorem C81_erase_wraps (hE : E.Lawful) (triv : Bool) {t : Map K V} (hR : Reach E sec t) (k : K) (hk : TagOk E sec t k) {i : Nat}
    (hi : i < cap t) (hki : KeyAt E t k i) (hw : Wraps t i) : eraseKey E sec triv k t = .ub := by
  rcases find_spec hE hR.toInv (k := k) hk with ⟨i', e, h1, h2, hu, h3, h4, h5⟩ | ⟨h1, h2, h3⟩
  · have hii : i' = i := by
      obtain ⟨hu', e', he', heq'⟩ := hki
      by_contra hne
      -- two elements with the same key
      have hd := hR.distinct
      have hd1 := hR.toTab.cell i' h2 hu
      have hd2 := hR.toTab.cell i hi hu'
      have hee : e' = e := by
        have hm1 := (mem_entries hR.toBase).mpr ⟨i, hi, hu', he'⟩
        have := (Spec.get_some_iff hE hd (k := k)).mpr ⟨hm1, hE.symm _ _ heq'⟩
        rw [h5] at this
        exact (Option.some.inj this).symm
      subst hee
      have hc1 := cellAt_eq hR.toBase h2
      have hc2 := cellAt_eq hR.toBase hi
      rw [if_pos hu, h3] at hc1
      rw [if_pos hu', he'] at hc2
      have hpL := perm_upd_none h2 (cellAt t) e' hc1
      have hmem : e' ∈ (List.range (cap t)).filterMap (upd (cellAt t) i' none) := by
        rw [List.mem_filterMap]
        exact ⟨i, List.mem_range.mpr hi, by rw [upd_other _ _ (fun h => hne h.symm)]; exact hc2⟩
      have hd' : Distinct E.eq (e' :: (List.range (cap t)).filterMap (upd (cellAt t) i' none)) := hd.perm hE hpL
      have := (List.pairwise_cons.mp hd').1 e' hmem
      rw [hE.refl] at this
      cases this
    subst hii
    unfold eraseKey
    rw [h1]
    simp only [lift]
    rw [(eraseSlot_spec hE triv hR.toLive h2 hu h3).2 hw]
  · exact absurd hki ((absent_iff hR.toBase).mp h2 i hi)

/-- C81, the violation, through the interface: whenever two keys that belong into the last slot are in the map, there is a key whose
erasure is undefined. -/
theorem C81_erase_undefined (hE : E.Lawful) (triv : Bool) {t : Map K V} (hR : Reach E sec t) (htag : ∀ k, TagOk E sec t k) {a b : K}
    (ha : contains E sec t a = .ok true) (hb : contains E sec t b = .ok true) (hab : E.eq a b = false)
    (hha : E.h a % cap t = cap t - 1) (hhb : E.h b % cap t = cap t - 1) :
    ∃ k, contains E sec t k = .ok true ∧ eraseKey E sec triv k t = .ub := by
  have hge := hR.cap_ge
  have hfound : ∀ {k}, contains E sec t k = .ok true → ∃ i, i < cap t ∧ KeyAt E t k i := by
    intro k hk
    unfold contains at hk
    rcases findIdx_spec hR.toCore hE (htag k) with ⟨x, h1, h2, h3⟩ | ⟨h1, _⟩
    · exact ⟨x, h2, h3⟩
    · rw [h1] at hk; cases hk
  obtain ⟨x, hx, hxa⟩ := hfound ha
  obtain ⟨y, hy, hyb⟩ := hfound hb
  -- one of the two is not in the last slot
  have hz : ∃ k z, z < cap t ∧ KeyAt E t k z ∧ E.h k % cap t = cap t - 1 ∧ z ≠ cap t - 1 := by
    by_cases h1 : x = cap t - 1
    · refine ⟨b, y, hy, hyb, hhb, fun h2 => ?_⟩
      rw [h1] at hxa
      rw [h2] at hyb
      obtain ⟨_, e, he, heq⟩ := hxa
      obtain ⟨_, e', he', heq'⟩ := hyb
      rw [he] at he'
      cases he'
      rw [hE.trans _ _ _ (hE.symm _ _ heq) heq'] at hab
      cases hab
    · exact ⟨a, x, hx, hxa, hha, h1⟩
  obtain ⟨k, z, hz, hkz, hhk, hzne⟩ := hz
  have hfar : far E t k z = z + 1 := by
    unfold far
    rw [hhk, show z + cap t - (cap t - 1) = z + 1 by omega, Nat.mod_eq_of_lt (by omega)]
  have hdist : (t.ctrl z).dist = z + 1 := by rw [(KeyAt.dist hR.toTab hE hz hkz).2.1, hfar]
  -- the elements in front of it are even further from home than their index
  have hback : ∀ n, n ≤ z → (t.ctrl (z - n)).dist ≠ 255 ∧ z - n + 1 ≤ (t.ctrl (z - n)).dist := by
    intro n
    induction n with
    | zero => intro _; exact ⟨hkz.1, by rw [Nat.sub_zero, hdist]⟩
    | succ n ih =>
      intro hn
      obtain ⟨h1, h2⟩ := ih (by omega)
      have ho := hR.order (z - (n + 1)) (by omega)
      have hnx : nxt t (z - (n + 1)) = z - n := by
        unfold nxt
        rw [show z - (n + 1) + 1 = z - n by omega, Nat.mod_eq_of_lt (by omega)]
      rw [hnx] at ho
      rcases ho with ho | ho | ⟨ho1, ho2⟩
      · exact absurd ho h1
      · omega
      · exact ⟨ho1, by omega⟩
  obtain ⟨h01, h02⟩ := hback z (Nat.le_refl _)
  rw [Nat.sub_self] at h01 h02
  have ho := hR.order (cap t - 1) (by omega)
  have hnx : nxt t (cap t - 1) = 0 := by
    unfold nxt
    rw [show cap t - 1 + 1 = cap t by omega, Nat.mod_self]
  rw [hnx] at ho
  have hlast : (t.ctrl (cap t - 1)).dist ≠ 255 := by
    rcases ho with ho | ho | ⟨ho1, _⟩
    · exact absurd ho h01
    · omega
    · exact ho1
  obtain ⟨e, he, _⟩ := hR.toTab.cell (cap t - 1) (by omega) hlast
  have hke : KeyAt E t e.1 (cap t - 1) := ⟨hlast, e, he, hE.refl _⟩
  refine ⟨e.1, ?_, C81_erase_wraps hE triv hR e.1 (htag _) (by omega) hke ⟨fun j h1 h2 => by omega, h01, by omega⟩⟩
  unfold contains
  rcases findIdx_spec hR.toCore hE (htag e.1) with ⟨x, h1, h2, h3⟩ | ⟨h1, h2⟩
  · rw [h1]; rfl
  · exact absurd hke (h2 _ (by omega))

/-! ### C82: lookup -/

/-- C82 (partial).  Every lookup is defined and answers according to the elements that iteration yields; iteration yields no key
twice.  Missing: keys with control hash 0 in maps of less than 16 slots, where a lookup may take the end marks behind the control words for
the key (Rob16Bugs.lean). -/
theorem C82_lookup_partial (hE : E.Lawful) {t : Map K V} (hR : Reach E sec t) {k : K} (hk : TagOk E sec t k) :
    ∃ l, walk t = .ok l ∧ l.length = t.size ∧ Distinct E.eq l ∧ lookup E sec t k = .ok (Spec.get E.eq l k) ∧
      contains E sec t k = .ok (Spec.get E.eq l k).isSome ∧ count E sec t k = .ok (if (Spec.get E.eq l k).isSome then 1 else 0) ∧
      atKey E sec t k = .ok ((Spec.get E.eq l k).map (·.2)) := by
  refine ⟨entries t, walk_spec hR.toTab, hR.size.symm, hR.distinct, lookup_eq hE hR.toInv hk, ?_, ?_, ?_⟩
  · unfold contains
    rcases find_spec hE hR.toInv hk with ⟨i, e, h1, h2, h3, h4, h5, h6⟩ | ⟨h1, h2, h3⟩
    · rw [h1, h6]; rfl
    · rw [h1, h3]; rfl
  · unfold count
    rcases find_spec hE hR.toInv hk with ⟨i, e, h1, h2, h3, h4, h5, h6⟩ | ⟨h1, h2, h3⟩
    · rw [h1, h6]; rfl
    · rw [h1, h3]; rfl
  · unfold atKey
    rw [lookup_eq hE hR.toInv hk]; rfl

/-! ### C83: clear -/

/-- C83 (partial).  `clear(true)` (and `clear()` on a map of less than 16 slots or with the first 16 slots empty) gives an empty map in
working order.  Missing: `clear()` on other maps, which leaves the copies of the first control words (Rob16Bugs.lean). -/
theorem C83_clear_partial (hE : E.Lawful) {t : Map K V} (hR : Reach E sec t) (triv d : Bool) (hc : Clears d t) :
    ∃ t', clear triv d t = .ok t' () ∧ Reach E sec t' ∧ t'.size = 0 ∧ walk t' = .ok [] ∧
      (d = true → cap t' = 4) ∧ (d = false → cap t' = cap t) ∧ ∀ k, TagOk E sec t' k → lookup E sec t' k = .ok none := by
  obtain ⟨t', g1, g2, g3, g4, g5, g6⟩ := clear_spec hR.toLive triv d hc
  have hR' : Reach E sec t' := g2.reach hR g5
  refine ⟨t', g1, hR', by rw [g2.size, g3]; rfl, by rw [walk_spec g2.toTab, g3], ?_, ?_, fun k hk => ?_⟩
  · intro hd
    have hge := hR.cap_ge
    split at g6
    · rw [g6]; exact cap_fresh (by decide)
    · rename_i hn
      have : cap t' = cap t := by unfold cap; rw [g6.1]
      have : ¬ 4 < cap t := fun h => hn ⟨h, hd⟩
      omega
  · intro hd
    rw [if_neg (by rw [hd]; simp)] at g6
    unfold cap; rw [g6.1]
  · rw [lookup_eq hE hR'.toInv hk, g3]; rfl

/-! ### C84: growth and load -/

/-- C84 (partial).  After every history of `C79_histories_partial` at most half of the slots are in use, their number is a power of two, and
the next insertion leaves the capacity alone or, if exactly half of the slots are in use, doubles it.  Missing: `max_load_factor` (C88),
insertions that exceed the displacement limit (C85). -/
theorem C84_load_partial (hE : E.Lawful) {triv : Bool} {rv : Nat → Nat} (hrv : ∀ x, 81920 ≤ rv x ∧ rv x ≤ 327680) {mem : Mem}
    {n : Nat} {t : Map K V} (hc : make mem n = .ok t ()) (big : Bool) (hb : big = true → 8 < n) (cs : List (Mem × Call K V))
    (hp : PlainAll E sec big [] cs) {as : List (Ans K V)} {t' : Map K V} (hr : run E sec triv rv cs t = .ok (as, t')) :
    2 * t'.size ≤ cap t' ∧ (∃ j, cap t' = 2 ^ j) ∧ ∀ (update : Bool) (mem' : Mem) (ctor : Bool) (k : K) (v : V) (t2 : Map K V) r,
      TagOk E sec t' k → Spread E 129 (cap t') ((k, v) :: entries t') → insert E sec update mem' ctor k v t' = .ok t2 r →
      2 * t2.size ≤ cap t2 ∧ (cap t2 = cap t' ∨ (cap t2 = 2 * cap t' ∧ 2 * t'.size = cap t')) := by
  obtain ⟨h1, h2⟩ := make_state (E := E) (sec := sec) hc big hb
  obtain ⟨as', t'', m', e1, e2, e3, e4⟩ := plain_run hE (triv := triv) hrv cs t [] h1 (by rw [h2]) hp
  rw [hr] at e1
  cases e1
  obtain ⟨j, hj1, hj2, hj⟩ := e2.pow
  refine ⟨e2.half.load, ⟨j, hj⟩, ?_⟩
  intro update mem' ctor k v t2 r hk hS hi
  have := emplace_half hE update mem' ctor k v 64 j t' e2.toLive hk (hS.mono (by omega)) e2.half hj (by omega)
  unfold insert at hi
  rw [hi] at this
  exact ⟨this.1.load, this.2 hS⟩

end Verif.Rob16
