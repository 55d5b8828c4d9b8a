/-
Properties C67 to C75 of `flat16_hash_map`.
-/
import Verif.FlatWeak

namespace Verif.Flat
open Spec (Distinct Call Ans)

variable {K V : Type} {E : Env K} {sec : Nat → Nat}

/-! ### Construction -/

/-- A constructor with a capacity gives an empty map with the smallest power of two that is large enough. -/
theorem make_ok {clean : Bool} {mem : Mem} {n : Nat} {t : Map K V} (h : make mem n = .ok t ()) :
    Reach clean E sec t ∧ entries t = [] ∧ (∃ j, 2 ≤ j ∧ j ≤ 48 ∧ t = freshMap (2 ^ j) 32768 131072 ∧ n ≤ 2 ^ j ∧ (2 ^ j = 4 ∨ 2 ^ j < 2 * n)) := by
  unfold make at h
  cases hc : calcCapacity n with
  | ub => rw [hc] at h; cases h
  | diverge => rw [hc] at h; cases h
  | ok c =>
    rw [hc] at h
    have hc' := hc
    rw [calcCapacity_eq] at hc'
    obtain ⟨j, h1, rfl, h3, h4⟩ := Robin.calcCapacity_ok hc'
    unfold createGroup at h
    simp only at h
    split at h
    · cases h
    · rename_i hl
      rw [not_or] at hl
      split at h
      · cases h
      · have hj48 : j ≤ 48 := by
          by_contra hcc
          have := Robin.pow_two_le (a := 49) (b := j) (by omega)
          have h5 := hl.2
          unfold memLimit at h5
          omega
        have ht : t = freshMap (2 ^ j) 32768 131072 := by
          cases h
          rfl
        obtain ⟨g1, g2⟩ := Reach.fresh (K := K) (V := V) (E := E) (sec := sec) (clean := clean) h1 hj48 (m := 32768) (r := 131072) (by omega) (by omega)
        subst ht
        exact ⟨g1, g2, j, h1, hj48, rfl, h3, h4⟩

/-! ### C67: histories -/

/-- The calls considered: everything but `clear`, `max_load_factor` and `at`; an `erase` of a present key only while the map has
at most 14 elements; `reserve` and `rehash` only with room for one more element. -/
def Plain (eq : K → K → Bool) (m : Spec.Map K V) : Call K V → Prop
  | .erase k => Spec.get eq m k = none ∨ m.length ≤ 14
  | .reserve n => n ≠ 0 ∧ RoomFor m.length n
  | .rehash n => RoomFor m.length n
  | .shrink ro => m.length < 2 ^ 44 ∧ (ro = true → NotPow m.length)
  | .clear _ | .maxLoad _ | .at _ => False
  | _ => True

/-- A history of such calls; the conditions speak of the ideal map only.  No allocation of slots fails (allocations of control
bytes may), and after an exception the caller goes on. -/
def PlainAll (eq : K → K → Bool) : Spec.Map K V → List (Mem × Call K V) → Prop
  | _, [] => True
  | m, (mem, c) :: cs => mem ≠ .noSlots ∧ Plain eq m c ∧ PlainAll eq (next eq m c) cs ∧ (c.allocates = true → PlainAll eq m cs)

theorem Plain.safe {m : Spec.Map K V} {t : Map K V} {c : Call K V} (h : Plain E.eq m c) : Safe true E t m c := by
  cases c with
  | insert k v => exact Or.inl rfl
  | assign k v => exact Or.inl rfl
  | index k v => exact Or.inl rfl
  | erase k =>
    rcases h with h | h
    · exact Or.inl h
    · right; simp only [if_true]; exact Or.inr h
  | find k => trivial
  | contains k => trivial
  | count k => trivial
  | size => trivial
  | empty => trivial
  | iterate => trivial
  | reserve n => exact h
  | rehash n => exact h
  | shrink ro => exact h
  | «at» k => exact h.elim
  | clear d => exact h.elim
  | maxLoad x => exact h.elim

theorem plain_run (hE : E.Lawful) {rv : Nat → Nat} (hrv : ∀ x, 81920 ≤ rv x ∧ rv x ≤ 327680) :
    ∀ (cs : List (Mem × Call K V)) (t : Map K V) (m : Spec.Map K V), Reach true E sec t → (entries t).Perm m →
      PlainAll E.eq m cs →
      ∃ as t' m', run E sec rv cs t = .ok (as, t') ∧ Reach true E sec t' ∧ (entries t').Perm m' ∧
        Spec.AcceptsAll E.eq m (cs.map (·.2)) as m' := by
  intro cs
  induction cs with
  | nil => intro t m h1 h2 _; exact ⟨[], t, m, rfl, h1, h2, rfl⟩
  | cons p cs ih =>
    intro t m h1 h2 h3
    obtain ⟨mem, c⟩ := p
    obtain ⟨h4, h5, h6, h7⟩ := h3
    have hstep := exec_ok hE h1 h2 hrv h4 h5.safe
    unfold run
    generalize exec E sec rv mem c t = o at hstep
    match o, hstep with
    | .ok t1 a, ⟨g1, g2, g3⟩ =>
      obtain ⟨as, t', m', e1, e2, e3, e4⟩ := ih t1 _ g1 g3 h6
      refine ⟨a :: as, t', m', ?_, e2, e3, _, g2, e4⟩
      simp only [e1, Res.bind_ok]
    | .throw t1, ⟨g1, g2, g3⟩ =>
      obtain ⟨as, t', m', e1, e2, e3, e4⟩ := ih t1 m g1 g3 (h7 g2)
      refine ⟨.threw :: as, t', m', ?_, e2, e3, m, ?_, e4⟩
      · simp only [e1, Res.bind_ok]
      · cases c <;> simp [Call.allocates] at g2 <;> exact ⟨rfl, rfl⟩

/-- C67 (partial).  From every constructor, every history of such calls is defined, terminates, and gives the answers of an ideal
map; at the end the elements are those of the ideal map.
Missing for the full claim: `erase` in larger maps and `clear` (both violate it, see FlatBugs.lean), `max_load_factor` (C76),
`rehash` without room (C74). -/
theorem C67_histories_partial (hE : E.Lawful) {rv : Nat → Nat} (hrv : ∀ x, 81920 ≤ rv x ∧ rv x ≤ 327680) {mem : Mem} {n : Nat}
    {t : Map K V} (hc : make mem n = .ok t ()) (cs : List (Mem × Call K V)) (hp : PlainAll E.eq [] cs) :
    ∃ as t' m', run E sec rv cs t = .ok (as, t') ∧ Spec.AcceptsAll E.eq [] (cs.map (·.2)) as m' ∧ (entries t').Perm m' := by
  obtain ⟨h1, h2, _⟩ := make_ok (clean := true) (E := E) (sec := sec) hc
  obtain ⟨as, t', m', e1, _, e3, e4⟩ := plain_run hE hrv cs t [] h1 (by rw [h2]) hp
  exact ⟨as, t', m', e1, e4, e3⟩

/-- C67 with the conditions on the calls replaced by conditions on the states: it covers `clear(true)`, `max_load_factor` on tables of
at most 32 slots, and (with `clean = false`) tombstones. -/
theorem C67_guarded_partial (hE : E.Lawful) {clean : Bool} {rv : Nat → Nat} (hrv : ∀ x, 81920 ≤ rv x ∧ rv x ≤ 327680) {mem : Mem}
    {n : Nat} {t : Map K V} (hc : make mem n = .ok t ()) (cs : List (Mem × Call K V)) (hp : Guarded clean E sec rv cs t []) :
    ∃ as t' m', run E sec rv cs t = .ok (as, t') ∧ Spec.AcceptsAll E.eq [] (cs.map (·.2)) as m' ∧ (entries t').Perm m' := by
  obtain ⟨h1, h2, _⟩ := make_ok (clean := clean) (E := E) (sec := sec) hc
  obtain ⟨as, t', m', e1, _, e3, e4⟩ := run_ok hE hrv cs t [] h1 (by rw [h2]) hp
  exact ⟨as, t', m', e1, e4, e3⟩

/-- C67 without `erase`: no condition at all on histories of insertions and lookups. -/
theorem C67_no_erase (hE : E.Lawful) {rv : Nat → Nat} (hrv : ∀ x, 81920 ≤ rv x ∧ rv x ≤ 327680) {mem : Mem} {n : Nat}
    {t : Map K V} (hc : make mem n = .ok t ()) (cs : List (Mem × Call K V))
    (hp : ∀ p ∈ cs, p.1 ≠ .noSlots ∧ match p.2 with
      | .insert _ _ | .assign _ _ | .index _ _ | .find _ | .contains _ | .count _ | .size | .empty | .iterate => True
      | _ => False) :
    ∃ as t' m', run E sec rv cs t = .ok (as, t') ∧ Spec.AcceptsAll E.eq [] (cs.map (·.2)) as m' ∧ (entries t').Perm m' := by
  refine C67_histories_partial hE hrv hc cs ?_
  generalize ([] : Spec.Map K V) = m
  induction cs generalizing m with
  | nil => trivial
  | cons p cs ih =>
    obtain ⟨mem', c⟩ := p
    obtain ⟨h1, h2⟩ := hp (mem', c) (by simp)
    have hrest := ih (fun q hq => hp q (by simp [hq]))
    refine ⟨h1, ?_, hrest _, fun _ => hrest _⟩
    cases c <;> trivial

/-! ### C68: insertion -/

/-- C68 (partial).  An insertion into any state with the invariant, tombstones or not: either it returns, then a new key has
been added with its value, or the element with the key is left alone or gets the value; or it throws; no other element changes.
The only undefined outcome is a reordering, and there is no other.  Missing: the reordering itself, see `C70_reorder_undefined`. -/
theorem C68_insert_partial (hE : E.Lawful) {t : Map K V} (hR : Reach false E sec t) (update : Bool) {mem : Mem}
    (hmem : mem ≠ .noSlots) (k : K) (v : V) (hr : reorders t = false) :
    PutOk false E sec update (entries t) k v (emplace E sec update mem true k v t) :=
  emplace_ok hE hR (List.Perm.refl _) update hmem k v (Or.inr hr)

/-! ### C69: erasure -/

theorem lookup_eq (hE : E.Lawful) {t : Map K V} (h : Inv0 E sec t) (k : K) :
    lookup E sec t k = .ok (Spec.get E.eq (entries t) k) := by
  unfold lookup
  rcases findIdx_spec hE h k with ⟨i, e, h1, h2, h3, h4, h5⟩ | ⟨h1, h2, h3⟩
  · rw [h1]; simp only [Res.bind_ok, h3, h5]
  · rw [h1]; simp only [Res.bind_ok, h3]

/-- C69 (partial).  In a map without tombstones with at most 14 elements or at most 16 slots, `erase(k)` removes exactly the element with
the key: afterwards every other key is found as before and `k` is not.  Missing: larger maps, where it fails. -/
theorem C69_erase_partial (hE : E.Lawful) {t : Map K V} (hR : Reach true E sec t) (hs : cap t ≤ 16 ∨ t.size ≤ 14) (k : K) :
    ∃ t' n, eraseKey E sec k t = .ok t' n ∧ Reach true E sec t' ∧ (n = 1 ↔ contains E sec t k = .ok true) ∧
      (n = 0 ↔ contains E sec t k = .ok false) ∧ t'.size + n = t.size ∧
      ∀ k', lookup E sec t' k' = if E.eq k k' then .ok none else lookup E sec t k' := by
  have hlen : t.size = (entries t).length := hR.size
  have hstep := exec_ok (rv := fun _ => 131072) (mem := .ok) (c := Call.erase k) hE hR (List.Perm.refl _) (fun _ => by omega) (by decide)
    (Or.inr (by simp only [if_true]; rw [← hlen]; exact hs))
  simp only [exec] at hstep
  have hlook : ∀ {t : Map K V}, Reach true E sec t → ∀ k', lookup E sec t k' = .ok (Spec.get E.eq (entries t) k') :=
    fun hR => lookup_eq hE hR.toInv0
  have hcont : contains E sec t k = .ok (Spec.get E.eq (entries t) k).isSome := by
    unfold contains
    rcases findIdx_spec hE hR.toInv0 k with ⟨i, e, h1, h2, h3, h4, h5⟩ | ⟨h1, h2, h3⟩
    · rw [h1]; simp only [Res.bind_ok, h5]; rfl
    · rw [h1]; simp only [Res.bind_ok, h3]; rfl
  generalize ho : eraseKey E sec k t = o at hstep
  match o, hstep with
  | .ok t' n, ⟨h1, ⟨h2, h3⟩, h4⟩ =>
    have h4' : (entries t').Perm (Spec.erase E.eq (entries t) k) := h4
    refine ⟨t', n, rfl, h1, ?_, ?_, ?_, ?_⟩
    · rw [hcont, h3]; cases (Spec.get E.eq (entries t) k).isSome <;> simp
    · rw [hcont, h3]; cases (Spec.get E.eq (entries t) k).isSome <;> simp
    · rw [h1.size, h4'.length_eq, h3, hR.size]
      cases hg : Spec.get E.eq (entries t) k with
      | none =>
        have : Spec.erase E.eq (entries t) k = entries t := by
          unfold Spec.erase
          rw [List.filter_eq_self]
          intro a ha
          rw [Spec.get_none_iff.mp hg a ha]; rfl
        rw [this]; rfl
      | some e =>
        obtain ⟨hmem, hke⟩ := (Spec.get_some_iff hE hR.distinct).mp hg
        obtain ⟨A, B, hAB⟩ := List.append_of_mem hmem
        have hl : (entries t).Perm (e :: (A ++ B)) := by rw [hAB]; exact List.perm_middle
        have := (Spec.erase_perm hE hR.distinct hl hke).length_eq
        rw [this, hl.length_eq]; rfl
    · intro k'
      rw [hlook h1, hlook hR, Spec.get_perm hE h4' h1.distinct]
      cases hq : E.eq k k' with
      | true => rw [Spec.get_erase_self hE _ hq]; rfl
      | false =>
        have hq' : E.eq k' k = false := by
          cases hq2 : E.eq k' k with
          | false => rfl
          | true => rw [hE.symm _ _ hq2] at hq; cases hq
        rw [Spec.get_erase_other hE _ hq']; rfl
  | .throw t', ⟨_, h2, _⟩ => cases h2

/-! ### C70: reordering -/

/-- C70.  The in-place reordering of a table with tombstones never works: an insertion of a new key that reaches it is undefined,
whatever the contents, the hash function and the memory. -/
theorem C70_reorder_undefined {t : Map K V} (hR : Reach false E sec t) (hr : reorders t = true) (hl : t.left = 0)
    (update : Bool) (mem : Mem) (ctor : Bool) (k : K) (v : V) (hk : Absent E t k) : emplace E sec update mem ctor k v t = .ub := by
  unfold emplace
  have hpr : prepare E sec mem k 64 t = .ub := by
    unfold prepare
    obtain ⟨r, h1, h2⟩ := probe_spec hR.toCore k
    rw [h1]
    simp only [lift]
    cases r with
    | hit i => exact absurd h2.2 (absent_iff.mp hk i h2.1)
    | full => simp only; rw [reorder_ub hR.toInv hr]; rfl
    | stop i => simp only; rw [if_pos hl, reorder_ub hR.toInv hr]; rfl
  rw [hpr]; rfl

/-! ### C71: growth and load -/

/-- `left_empties_` is exact. -/
def Exact (t : Map K V) : Prop := t.left + occ t = thr t ∧ t.mlf = 32768

theorem thr_half {t : Map K V} (hm : t.mlf = 32768) (hc : cap t ≤ 2 ^ 48) : thr t = cap t / 2 := by
  unfold thr
  rw [hm, Nat.mod_eq_of_lt (by unfold W; omega)]
  omega

theorem Exact.half {t : Map K V} (h : Exact t) (hc : Core E sec t) : 2 * t.size ≤ cap t := by
  have h1 := thr_half h.2 hc.cap_le
  have h2 := h.1
  have h3 := hc.occ_eq
  omega

theorem Exact.moved {t t' : Map K V} (he : Exact t) (h : Core E sec t) {j : Nat} (hj : cap t = 2 ^ j)
    (hm : Moved E sec t t' (2 ^ (j + 1))) : Exact t' := by
  have h1 := he.half h
  have h2 : t'.mlf = 32768 := hm.mlf.trans he.2
  refine ⟨?_, h2⟩
  have h3 := hm.counted
  have hs : t'.size = t.size := by rw [hm.inv.size, hm.perm.length_eq, ← h.size]
  have h4 := thr_half h2 hm.inv.cap_le
  have h5 := hm.cap
  have h6 := hm.clean
  have h7 := hm.inv.left
  have h8 := hm.inv.cap_le
  have h9 : 2 ^ (j + 1) = 2 * cap t := by rw [hj, Nat.pow_succ]; omega
  unfold Counted at h3
  rw [h4] at h3 ⊢
  have h10 : t'.left + occ t' < 2 * W := by unfold W at *; omega
  rcases Nat.lt_or_ge (t'.left + occ t') W with h11 | h11
  · rw [Nat.mod_eq_of_lt h11] at h3; exact h3
  · exfalso
    rw [Nat.mod_eq_sub_mod h11, Nat.mod_eq_of_lt (by omega)] at h3
    omega

def PrepExact (mem : Mem) : Out (Map K V) (Nat × Bool) → Prop
  | .ok t' (_, true) => Exact t'
  | .ok t' (i, false) => t'.left + (occ t' + (t'.ctrl i == bEmpty).toNat) = thr t' ∧ t'.mlf = 32768
  | .throw t' => mem ≠ .noSlots → Exact t'
  | _ => True

theorem prepare_exact (mem : Mem) (k : K) : ∀ (f j : Nat) (t : Map K V), Weak E sec t → Exact t → cap t = 2 ^ j →
    PrepExact mem (prepare E sec mem k f t) := by
  intro f
  induction f with
  | zero => intro j t h he hj; exact trivial
  | succ f ih =>
    intro j t h he hj
    have hgrow : PrepExact mem ((reorderOrGrow E sec mem t).bind fun t' _ => prepare E sec mem k f t') := by
      cases hre : reorders t with
      | true => rw [reorder_ub_weak h hre]; exact trivial
      | false =>
        rcases grow_spec h.toCore hre mem hj with ⟨t1, h1, h2, h3⟩ | ⟨t1, h1, h2, h3⟩
        · rw [h1]
          exact ih (j + 1) t1 (h3.weak h) (he.moved h.toCore hj h3) h3.cap
        · rw [h1]
          intro hm
          rcases h3 with rfl | h3
          · exact he
          · exact absurd h3 hm
    unfold prepare
    obtain ⟨r, h1, h2⟩ := probe_spec h.toCore k
    rw [h1]
    simp only [lift]
    cases r with
    | hit i => exact he
    | full => exact hgrow
    | stop i =>
      simp only
      by_cases hl : t.left = 0
      · rw [if_pos hl]; exact hgrow
      · rw [if_neg hl]
        obtain ⟨jl, hjl, rfl, hne, hprev, _⟩ := h2
        have hd := delLoop_spec h.toCore k hjl hprev (cap t) 0 (by omega) (by have := h.windows_le; omega)
        rw [← h.home_eq] at hd
        rcases hd with ⟨i, h3, h4, h5⟩ | h3
        · rw [h3]
          refine ⟨?_, he.2⟩
          rw [h5]; exact he.1
        · rw [h3]
          simp only
          have hm : matchEmpty t (base E t k jl) ≠ 0 := fun hm => hne ((matchEmpty_zero _ _).mp hm)
          obtain ⟨h4, h5⟩ := bsf_matchTag hm
          obtain ⟨h6, h7⟩ := place_of h.toCore hjl h4 (Or.inl h5) hprev
          rw [h.and_mask]
          have h9 : t.ctrl ((base E t k jl + bsf32 (matchEmpty t (base E t k jl))) % cap t) = bEmpty := h7.trans h5
          have h8 := he.1
          have h10 : t.left - 1 + (occ t + 1) = thr t := by omega
          refine ⟨?_, he.2⟩
          simp only [h9]
          exact h10

theorem exact_put {t : Map K V} {i : Nat} (hi : i < cap t) (hc : t.left + (occ t + (t.ctrl i == bEmpty).toNat) = thr t)
    (hm : t.mlf = 32768) (e : K × V) : Exact (put E sec t i e) := by
  refine ⟨?_, hm⟩
  have h2 := occ_put (E := E) (sec := sec) hi e
  have h3 : occ (put E sec t i e) = occ t + (t.ctrl i == bEmpty).toNat := by
    by_cases hb : t.ctrl i = bEmpty
    · rw [hb] at h2 ⊢
      simpa using h2
    · have h4 : (t.ctrl i == bEmpty) = false := by simpa using hb
      have h5 : (t.ctrl i != bEmpty) = true := by simpa using hb
      rw [h4]
      rw [h5] at h2
      simp only [Bool.toNat_true] at h2
      simp only [Bool.toNat_false]
      omega
  rw [h3]
  exact hc

theorem emplace_exact {t : Map K V} (h : Weak E sec t) (he : Exact t) (update : Bool) {mem : Mem} (k : K) (v : V) :
    match emplace E sec update mem true k v t with
    | .ok t' _ => Weak E sec t' ∧ Exact t'
    | .throw t' => mem ≠ .noSlots → Weak E sec t' ∧ Exact t'
    | _ => True := by
  obtain ⟨j, h1, h2, h3⟩ := h.pow
  have hw := emplace_weak h update mem k v
  have hsp := prepare_weak mem k 64 j t h h3 (by omega)
  have hex := prepare_exact mem k 64 j t h he h3
  have hgoal : match emplace E sec update mem true k v t with
    | .ok t' _ => Exact t'
    | .throw t' => mem ≠ .noSlots → Exact t'
    | _ => True := by
    unfold emplace
    generalize prepare E sec mem k 64 t = o at hsp hex
    match o, hsp, hex with
    | .ub, hsp, _ => exact trivial
    | .throw t', g, hx => exact hx
    | .ok t' (i, true), ⟨g1, g2, g3, e, g4, g5⟩, hx =>
      simp only [Out.bind_ok, if_true, g4]
      cases update <;> exact hx
    | .ok t' (i, false), ⟨g1, g2, g3, g4, g5, g6⟩, hx =>
      simp only [Out.bind_ok, Bool.false_eq_true, if_false]
      rw [if_pos trivial]
      exact exact_put g2 hx.1 hx.2 (k, v)
  generalize emplace E sec update mem true k v t = o at hw hgoal
  match o, hw, hgoal with
  | .ub, _, _ => exact trivial
  | .throw t', hw, hg => exact fun hm => ⟨(hw hm).1, hg hm⟩
  | .ok t' (i, true), hw, hg => exact ⟨hw.1, hg⟩
  | .ok t' (i, false), hw, hg => exact ⟨hw.1, hg⟩

theorem eraseKey_exact {t : Map K V} (h : Weak E sec t) (he : Exact t) (k : K) :
    ∃ t' n, eraseKey E sec k t = .ok t' n ∧ Weak E sec t' ∧ Exact t' := by
  have hw := eraseKey_weak h k
  unfold eraseKey at hw ⊢
  obtain ⟨r, h1, h2⟩ := findIdx_core h.toCore k
  rw [h1] at hw ⊢
  cases r with
  | none => exact ⟨t, 0, rfl, h, he⟩
  | some i =>
    obtain ⟨hi, e, hs, heq⟩ := h2 i rfl
    simp only [lift] at hw ⊢
    rw [eraseSlot_eq h.toCore hi hs] at hw ⊢
    simp only at hw ⊢
    rcases hw with ⟨t', e', g1, g2, _⟩ | g
    · cases g1
      refine ⟨_, 1, rfl, g2, ?_⟩
      have hu : t.ctrl i < 128 := (h.used_iff hi).mpr (by simp [hs])
      have hne : (t.ctrl i != bEmpty) = true := by
        simp only [bne_iff_ne]; unfold bEmpty; omega
      have hthr := thr_half he.2 h.cap_le
      have hcl := h.cap_le
      have he1 := he.1
      split
      · have hwr : Wrote t (Flat.drop t i bDeleted t.left).ctrl i bDeleted := wrote_setUnused hi (by decide)
        have h1 := occ_write (t' := Flat.drop t i bDeleted t.left) hi rfl hwr
        rw [hne] at h1
        have h2 : occ (Flat.drop t i bDeleted t.left) = occ t := by
          have : (bDeleted != bEmpty) = true := by decide
          rw [this] at h1; omega
        refine ⟨?_, he.2⟩
        rw [h2]; exact he.1
      · have hwr : Wrote t (Flat.drop t i bEmpty ((t.left + 1) % W)).ctrl i bEmpty := wrote_setUnused hi (by decide)
        have h1 := occ_write (t' := Flat.drop t i bEmpty ((t.left + 1) % W)) hi rfl hwr
        rw [hne] at h1
        have h2 : occ (Flat.drop t i bEmpty ((t.left + 1) % W)) + 1 = occ t := by
          have : (bEmpty != bEmpty) = false := by decide
          rw [this] at h1; exact h1
        refine ⟨?_, he.2⟩
        have h4 : thr (Flat.drop t i bEmpty ((t.left + 1) % W)) = thr t := rfl
        have h5 : (t.left + 1) % W = t.left + 1 := Nat.mod_eq_of_lt (by unfold W; omega)
        rw [h4]
        show (t.left + 1) % W + _ = _
        rw [h5] at h2 ⊢
        omega
    · injection g with _ g; cases g

theorem not_full {t : Map K V} (h : Core E sec t) (k : K) (hroom : occ t + 2 ≤ cap t) : ¬ ProbeOk E sec t k .full := by
  intro hf
  obtain ⟨r, h0, hr, hc⟩ := exists_nonzero_empty hroom
  obtain ⟨h1, h2⟩ := h.dist_windows k r
  have hb := h.base_dist k hr
  have hseen := h.byte_seen (h.base_lt k (dist E t k r / 16)) (Nat.mod_lt _ (by decide) : dist E t k r % 16 < 16) h2
    (Or.inr (by rw [hb]; omega))
  rw [hb, hc] at hseen
  exact (hf _ h1).1 _ (Nat.mod_lt _ (by decide)) hseen

theorem Exact.room {t : Map K V} (he : Exact t) (h : Core E sec t) : occ t + 2 ≤ cap t := by
  have h1 := thr_half he.2 h.cap_le
  have h2 := he.1
  have h3 := h.cap_ge
  omega

/-- Without a growth the capacity stays. -/
theorem prepare_cap0 (mem : Mem) (k : K) {t t' : Map K V} {r : Nat × Bool} (f : Nat) (h : Weak E sec t) (he : Exact t) (hl : t.left ≠ 0)
    (hp : prepare E sec mem k f t = .ok t' r) : cap t' = cap t := by
  cases f with
  | zero => cases hp
  | succ f =>
    unfold prepare at hp
    obtain ⟨q, h1, h2⟩ := probe_spec h.toCore k
    rw [h1] at hp
    simp only [lift] at hp
    cases q with
    | hit i => cases hp; rfl
    | full => exact absurd h2 (not_full h.toCore k (he.room h.toCore))
    | stop i =>
      simp only at hp
      rw [if_neg hl] at hp
      generalize delLoop t (home E t k) i (cap t) (home E t k) = d at hp
      match d, hp with
      | .ok (some j), hp => cases hp; rfl
      | .ok none, hp => cases hp; rfl

theorem prepare_cap (mem : Mem) (k : K) {t t' : Map K V} {r : Nat × Bool} (f : Nat) (h : Weak E sec t) (he : Exact t)
    (hp : prepare E sec mem k f t = .ok t' r) : cap t' = cap t ∨ (cap t' = 2 * cap t ∧ 2 * occ t = cap t) := by
  by_cases hl : t.left = 0
  · have hocc : 2 * occ t = cap t := by
      have h1 := thr_half he.2 h.cap_le
      have h2 := he.1
      obtain ⟨j, h3, _, h5⟩ := h.pow
      obtain ⟨i, rfl⟩ : ∃ i, j = i + 1 := ⟨j - 1, by omega⟩
      rw [Nat.pow_succ] at h5
      omega
    have hgrow : ∀ {f : Nat}, ((reorderOrGrow E sec mem t).bind fun t' _ => prepare E sec mem k f t') = .ok t' r →
        cap t' = 2 * cap t ∧ 2 * occ t = cap t := by
      intro f hg
      obtain ⟨j, h3, h4, hj⟩ := h.pow
      cases hre : reorders t with
      | true => rw [reorder_ub_weak h hre] at hg; cases hg
      | false =>
        rcases grow_spec h.toCore hre mem hj with ⟨t1, h1, h2, h3⟩ | ⟨t1, h1, h2, h3⟩
        · rw [h1] at hg
          have hex := he.moved h.toCore hj h3
          have hpow : (2 : Nat) ^ (j + 1) = 2 * cap t := by rw [hj, Nat.pow_succ]; omega
          have hl1 : t1.left ≠ 0 := by
            have e1 := hex.1
            have e2 := thr_half hex.2 h3.inv.cap_le
            have e3 := h3.clean
            have e4 : t1.size = t.size := by rw [h3.inv.size, h3.perm.length_eq, ← h.size]
            have e5 := h3.cap
            have e6 := h.occ_eq
            have e7 := h.cap_ge
            omega
          refine ⟨?_, hocc⟩
          rw [prepare_cap0 mem k f (h3.weak h) hex hl1 hg, h3.cap, hpow]
        · rw [h1] at hg; cases hg
    cases f with
    | zero => cases hp
    | succ f =>
      unfold prepare at hp
      obtain ⟨q, h1, h2⟩ := probe_spec h.toCore k
      rw [h1] at hp
      simp only [lift] at hp
      cases q with
      | hit i => cases hp; exact Or.inl rfl
      | full => exact absurd h2 (not_full h.toCore k (he.room h.toCore))
      | stop i =>
        simp only at hp
        rw [if_pos hl] at hp
        exact Or.inr (hgrow hp)
  · exact Or.inl (prepare_cap0 mem k f h he hl hp)

theorem emplace_cap {t t' : Map K V} {r : Nat × Bool} (h : Weak E sec t) (he : Exact t) {update : Bool} {mem : Mem} {ctor : Bool} {k : K}
    {v : V} (hp : emplace E sec update mem ctor k v t = .ok t' r) : cap t' = cap t ∨ (cap t' = 2 * cap t ∧ 2 * occ t = cap t) := by
  unfold emplace at hp
  have hpc := fun t' r => prepare_cap (t' := t') (r := r) mem k 64 h he
  generalize prepare E sec mem k 64 t = o at hp hpc
  match o, hp with
  | .ok t1 r1, hp =>
    have := hpc t1 r1 rfl
    simp only [Out.bind_ok] at hp
    split at hp
    · split at hp
      · cases hp
      · cases hp
        cases update <;> exact this
    · split at hp
      · cases hp; exact this
      · cases hp

/-- The calls of C71. -/
def Fill : Call K V → Prop
  | .insert _ _ | .assign _ _ | .index _ _ | .erase _ | .find _ | .contains _ | .count _ | .size | .empty | .iterate => True
  | _ => False

/-- One call of C71. -/
theorem fill_step {rv : Nat → Nat} {mem : Mem} (hmem : mem ≠ .noSlots) {c : Call K V} (hc : Fill c) {t : Map K V} (h : Weak E sec t)
    (he : Exact t) :
    match exec E sec rv mem c t with
    | .ok t' _ => Weak E sec t' ∧ Exact t'
    | .throw t' => Weak E sec t' ∧ Exact t'
    | _ => True := by
  have hput : ∀ (u : Bool) (k : K) (v : V) (g : Map K V → Nat × Bool → Out (Map K V) (Ans K V)),
      (∀ t r, match g t r with | .ok t' _ => t' = t | .throw _ => False | _ => True) →
      match (emplace E sec u mem true k v t).bind g with
      | .ok t' _ => Weak E sec t' ∧ Exact t'
      | .throw t' => Weak E sec t' ∧ Exact t'
      | _ => True := by
    intro u k v g hg
    have hx := emplace_exact h he u (mem := mem) k v
    generalize emplace E sec u mem true k v t = o at hx
    match o, hx with
    | .ub, _ => exact trivial
    | .diverge, _ => exact trivial
    | .throw t', hx => exact hx hmem
    | .ok t' r, hx =>
      simp only [Out.bind_ok]
      have := hg t' r
      generalize g t' r = q at this
      match q, this with
      | .ub, _ => exact trivial
      | .diverge, _ => exact trivial
      | .throw t2, hq => exact hq.elim
      | .ok t2 a, hq =>
        have hq' : t2 = t' := hq
        subst hq'; exact hx
  have hread : ∀ {α : Type} (r : Res α) (f : α → Ans K V),
      match lift r (fun x => Out.ok t (f x)) with
      | .ok t' _ => Weak E sec t' ∧ Exact t'
      | .throw t' => Weak E sec t' ∧ Exact t'
      | _ => True := by
    intro α r f
    cases r with
    | ok a => exact ⟨h, he⟩
    | ub => exact trivial
    | diverge => exact trivial
  have hre : ∀ (t : Map K V) r, match readElem t r with | .ok t' _ => t' = t | .throw _ => False | _ => True := by
    intro t r; unfold readElem; cases t.slot r.1 <;> trivial
  have hrv : ∀ (t : Map K V) r, match readValue t r with | .ok t' _ => t' = t | .throw _ => False | _ => True := by
    intro t r; unfold readValue; cases t.slot r.1 <;> trivial
  cases c with
  | insert k v => exact hput false k v _ hre
  | assign k v => exact hput true k v _ hre
  | index k v => exact hput false k v _ hrv
  | erase k =>
    obtain ⟨t', n, g1, g2, g3⟩ := eraseKey_exact h he k
    simp only [exec]
    rw [g1]
    exact ⟨g2, g3⟩
  | find k => exact hread _ _
  | contains k => exact hread _ _
  | count k => exact hread _ _
  | iterate => exact hread _ _
  | size => exact ⟨h, he⟩
  | empty => exact ⟨h, he⟩
  | «at» k => exact hc.elim
  | clear d => exact hc.elim
  | reserve n => exact hc.elim
  | rehash n => exact hc.elim
  | shrink b => exact hc.elim
  | maxLoad x => exact hc.elim

theorem fill_run {rv : Nat → Nat} : ∀ (cs : List (Mem × Call K V)) (t : Map K V), Weak E sec t → Exact t →
    (∀ p ∈ cs, p.1 ≠ .noSlots ∧ Fill p.2) → ∀ as t', run E sec rv cs t = .ok (as, t') → Weak E sec t' ∧ Exact t' := by
  intro cs
  induction cs with
  | nil => intro t h he _ as t' hr; cases hr; exact ⟨h, he⟩
  | cons p cs ih =>
    intro t h he hp as t' hr
    obtain ⟨mem, c⟩ := p
    obtain ⟨h1, h2⟩ := hp (mem, c) (by simp)
    have hst := fill_step (rv := rv) h1 h2 h he
    unfold run at hr
    generalize exec E sec rv mem c t = o at hst hr
    have hrest := fun t h he => ih t h he (fun q hq => hp q (by simp [hq]))
    match o, hst with
    | .ub, _ => cases hr
    | .diverge, _ => cases hr
    | .ok t1 a, hst =>
      simp only at hr
      cases hr2 : run E sec rv cs t1 with
      | ub => rw [hr2] at hr; cases hr
      | diverge => rw [hr2] at hr; cases hr
      | ok q =>
        rw [hr2] at hr
        cases hr
        exact hrest t1 hst.1 hst.2 q.1 q.2 hr2
    | .throw t1, hst =>
      simp only at hr
      cases hr2 : run E sec rv cs t1 with
      | ub => rw [hr2] at hr; cases hr
      | diverge => rw [hr2] at hr; cases hr
      | ok q =>
        rw [hr2] at hr
        cases hr
        exact hrest t1 hst.1 hst.2 q.1 q.2 hr2

theorem make_exact {mem : Mem} {n : Nat} {t : Map K V} (h : make mem n = .ok t ()) : Weak E sec t ∧ Exact t := by
  obtain ⟨h1, h2, j, h3, h4, rfl, _⟩ := make_ok (clean := true) (E := E) (sec := sec) h
  refine ⟨⟨h1.toCore, h1.counted, h1.rev_lo, h1.rev_hi⟩, ?_, rfl⟩
  have h5 := h1.occ_eq
  have h6 := h1.clean rfl
  have h7 : (freshMap (2 ^ j) 32768 131072 : Map K V).size = 0 := rfl
  rw [h5, h6, h7]
  have h8 : 1 ≤ 2 ^ j := Nat.one_le_two_pow
  show (2 ^ j) * 32768 % W / 65536 + 0 = (2 ^ j - 1 + 1) * 32768 % W / 65536
  rw [Nat.sub_add_cancel h8]; rfl

/-- C71 (partial), load: in every history of insertions, erasures and lookups that is defined, the number of elements never exceeds half the
number of slots (`max_load_factor()` is 0.5).  Missing: `rehash(0)` and `max_load_factor`, which can exceed it. -/
theorem C71_load_partial {rv : Nat → Nat} {mem : Mem} {n : Nat} {t : Map K V} (hc : make mem n = .ok t ()) (cs : List (Mem × Call K V))
    (hp : ∀ p ∈ cs, p.1 ≠ .noSlots ∧ Fill p.2) {as : List (Ans K V)} {t' : Map K V} (hr : run E sec rv cs t = .ok (as, t')) :
    2 * t'.size ≤ cap t' := by
  obtain ⟨h1, h2⟩ := make_exact (E := E) (sec := sec) hc
  obtain ⟨h3, h4⟩ := fill_run cs t h1 h2 hp as t' hr
  exact h4.half h3.toCore

/-- C71 (partial), growth: after any such history an insertion leaves the capacity alone or doubles it, and it doubles it only when
the elements and tombstones together have reached half the slots. -/
theorem C71_growth_partial {rv : Nat → Nat} {mem : Mem} {n : Nat} {t : Map K V} (hc : make mem n = .ok t ()) (cs : List (Mem × Call K V))
    (hp : ∀ p ∈ cs, p.1 ≠ .noSlots ∧ Fill p.2) {as : List (Ans K V)} {t1 : Map K V} (hr : run E sec rv cs t = .ok (as, t1))
    {update : Bool} {mem' : Mem} {ctor : Bool} {k : K} {v : V} {t2 : Map K V} {r : Nat × Bool}
    (hi : emplace E sec update mem' ctor k v t1 = .ok t2 r) :
    cap t2 = cap t1 ∨ (cap t2 = 2 * cap t1 ∧ 2 * (t1.size + dels t1) = cap t1) := by
  obtain ⟨h1, h2⟩ := make_exact (E := E) (sec := sec) hc
  obtain ⟨h3, h4⟩ := fill_run cs t h1 h2 hp as t1 hr
  rw [← h3.occ_eq]
  exact emplace_cap h3 h4 hi

/-! ### C72: iteration -/

/-- C72 (partial).  The elements, their number and iteration are right after any history of insertions, erasures, lookups,
rehashes and shrinks, also after erasures that made keys unfindable: every answer is one that a bag of elements may give (see
`BagAccepts`; iteration yields exactly the elements present).  Missing: histories that reach the reordering (C70), `clear()`. -/
theorem C72_elements_partial {rv : Nat → Nat} {mem : Mem} {n : Nat} {t : Map K V} (hc : make mem n = .ok t ())
    (cs : List (Mem × Call K V)) (hg : BagGuarded E sec rv cs t) :
    ∃ as t', run E sec rv cs t = .ok (as, t') ∧ BagAcceptsAll E.eq [] (cs.map (·.2)) as (entries t') ∧ walk t' = .ok (entries t') ∧
      t'.size = (entries t').length := by
  obtain ⟨h1, h2, _⟩ := make_ok (clean := true) (E := E) (sec := sec) hc
  obtain ⟨as, t', e1, e2, e3⟩ := bag_run cs t ⟨h1.toCore, h1.counted, h1.rev_lo, h1.rev_hi⟩ hg
  rw [h2] at e3
  exact ⟨as, t', e1, e3, walk_spec e2.toCore, e2.size⟩

/-! ### C73: clear -/

/-- C73 (partial).  `clear(true)` on a map with more than four slots gives an empty map in working order.
Missing: `clear()` and `clear(true)` on four slots, which do not (FlatBugs.lean). -/
theorem C73_clear_partial {clean : Bool} {t : Map K V} (hR : Reach clean E sec t) (hc : 4 < cap t) (triv : Bool) :
    ∃ t', clear triv true t = .ok t' () ∧ Reach true E sec t' ∧ entries t' = [] ∧ t'.size = 0 ∧ cap t' = 4 ∧
      ∀ k, findIdx E sec t' k = .ok none := by
  obtain ⟨g1, g2⟩ := Reach.fresh (K := K) (V := V) (E := E) (sec := sec) (clean := true) (j := 2) (by omega) (by omega)
    (m := t.mlf) (r := t.rev) hR.rev_lo hR.rev_hi
  refine ⟨freshMap (2 ^ 2) t.mlf t.rev, ?_, g1, g2, rfl, rfl, fun k => ?_⟩
  · unfold clear
    rw [if_pos (by simp [hc])]
    rfl
  · obtain ⟨r, h1, h2⟩ := findIdx_core g1.toCore k
    cases r with
    | none => exact h1
    | some i =>
      obtain ⟨h3, e, h4, _⟩ := h2 i rfl
      have : e ∈ entries (freshMap (2 ^ 2) t.mlf t.rev : Map K V) := mem_entries.mpr ⟨i, h3, h4⟩
      rw [g2] at this; cases this

/-! ### C74: rehash -/

/-- C74 (partial).  `rehash(n)` with room, from any state in which only the probe sequences may be damaged: it keeps the elements,
and if it changes the capacity every element is found again, whatever was lost before.  Missing: rehashes without room (C74 in
FlatBugs.lean). -/
theorem C74_rehash_partial (hE : E.Lawful) {t : Map K V} (hw : Weak E sec t) (hd : Distinct E.eq (entries t)) {mem : Mem}
    {ro : Bool} {n : Nat} (hroom : NotPow t.size ∨ (ro = false ∧ t.size ≤ n ∧ n < 2 ^ 44) ∨ (ro = true ∧ t.size < n))
    (hn : ro = true → n ≤ 2 ^ 63) :
    (∃ t', rehash E sec mem ro n t = .ok t' () ∧ (entries t').Perm (entries t) ∧
      (cap t' = cap t ∨ (t.size < cap t' ∧ ∀ k, lookup E sec t' k = .ok (Spec.get E.eq (entries t) k)))) ∨
    (∃ t', rehash E sec mem ro n t = .throw t' ∧ (mem ≠ .noSlots → t' = t)) := by
  unfold rehash
  have h4 := minRequire_le t n
  have hsz : t.size ≤ 2 ^ 48 := Nat.le_trans hw.size_le hw.cap_le
  have hbig : (if ro then max n t.size else max (minRequire t n) t.size) ≤ 2 ^ 63 := by
    cases ro with
    | true => have := hn rfl; simp only [if_true]; omega
    | false => simp only [Bool.false_eq_true, if_false]; omega
  have hle : t.size ≤ (if ro then max n t.size else max (minRequire t n) t.size) := by
    cases ro <;> simp
  have hlt : NotPow t.size ∨ t.size < (if ro then max n t.size else max (minRequire t n) t.size) := by
    rcases hroom with h | ⟨rfl, h5, h6⟩ | ⟨rfl, h5⟩
    · exact Or.inl h
    · by_cases h7 : t.size < 4
      · exact Or.inl (Or.inl h7)
      · right
        have := minRequire_gt hw.rev_lo hw.rev_hi (n := n) (by omega) h6
        simp only [Bool.false_eq_true, if_false]; omega
    · right; simp only [if_true]; omega
  generalize (if ro then max n t.size else max (minRequire t n) t.size) = m at hbig hle hlt
  have hs := rehashImpl_spec hw.toCore true false mem m (fun c hc => lt_of_calc hc hle hlt)
  generalize rehashImpl E sec true false mem m t = o at hs
  match o, hs with
  | .ub, hs =>
    have hs' : calcCapacity m = .ub := hs
    rw [calcCapacity_eq] at hs'
    have := Robin.calcCapacity_ub hs'
    exact absurd hbig (by omega)
  | .throw t', ⟨_, g2⟩ => exact Or.inr ⟨t', rfl, fun hm => g2.resolve_right hm⟩
  | .ok t' u, ⟨c, hc, g2⟩ =>
    left
    rcases g2 with ⟨_, g3⟩ | ⟨rfl, _, _⟩
    · refine ⟨t', rfl, g3.perm, Or.inr ⟨by rw [g3.cap]; exact lt_of_calc hc hle hlt, fun k => ?_⟩⟩
      have hd' : Distinct E.eq (entries t') := hd.perm hE g3.perm.symm
      rw [lookup_eq hE ⟨g3.inv, hd'⟩, Spec.get_perm hE g3.perm hd']
    · exact ⟨_, rfl, List.Perm.refl _, Or.inl rfl⟩

/-! ### C75: copies and ranges -/

/-- C75 (partial).  The copy constructor: the copy has the same elements and finds them all, whatever the original (also one that
has lost keys); a copy of at most 16 elements can be used like any other map.  Missing: later insertions into larger copies,
which are undefined (FlatBugs.lean). -/
theorem C75_copy_partial (hE : E.Lawful) {t : Map K V} (hw : Core E sec t) (hd : Distinct E.eq (entries t)) (hs : t.size < 2 ^ 47) {mem : Mem}
    {t' : Map K V} (hc : copyOf E sec mem t = .ok t' ()) :
    (entries t').Perm (entries t) ∧ walk t' = .ok (entries t') ∧ t'.size = t.size ∧
      (∀ k, lookup E sec t' k = .ok (Spec.get E.eq (entries t) k)) ∧ (t.size ≤ 16 → Reach true E sec t') := by
  unfold copyOf at hc
  rw [walk_spec hw] at hc
  have hmk := fun (t1 : Map K V) => make_ok (clean := true) (E := E) (sec := sec) (mem := mem) (n := minRequire (blank : Map K V) t.size) (t := t1)
  generalize make mem (minRequire (blank : Map K V) t.size) = o at hc hmk
  match o, hc with
  | .ok t1 (), hc =>
    obtain ⟨h1, h2, j, h3, h4, h5, h6, h7⟩ := hmk t1 rfl
    simp only [Out.bind_ok, lift] at hc
    have hcap : cap t1 = 2 ^ j := by
      rw [h5]; unfold cap freshMap
      exact Nat.sub_add_cancel Nat.one_le_two_pow
    have hreq : minRequire (blank : Map K V) t.size = t.size * 2 := by
      show t.size * 131072 % W / 65536 = _
      rw [Nat.mod_eq_of_lt (by unfold W; omega)]
      omega
    have h8 : occ t1 = 0 := by
      rw [h1.occ_eq, h1.clean rfl, h1.size, h2]; rfl
    obtain ⟨t2, g1, g2, g3, g4, g5, g6, g7, g8⟩ := insertAllUnique_spec (entries t) t1 h1.toProbed (by
      rw [h8, hcap, ← hw.size]; omega)
    rw [g1] at hc
    cases hc
    rw [h2, List.append_nil] at g3
    have hd2 : Distinct E.eq (entries t') := hd.perm hE g3.symm
    have hsz : t'.size = t.size := by rw [g2.size, g3.length_eq, hw.size]
    refine ⟨g3, walk_spec g2.toCore, hsz, fun k => ?_, fun h16 => ?_⟩
    · rw [lookup_eq hE ⟨g2, hd2⟩, Spec.get_perm hE g3 hd2]
    · have hcap2 : cap t' = 2 ^ j := by rw [← hcap]; unfold cap; rw [g4]
      have hj5 : 2 ^ j ≤ 32 := by
        rcases h7 with h7 | h7
        · omega
        · have h9 : 2 ^ j < 2 ^ 6 := by omega
          have h10 : j < 6 := (Nat.pow_lt_pow_iff_right (by decide)).mp h9
          exact Robin.pow_two_le (a := j) (b := 5) (by omega)
      refine ⟨⟨⟨g2, hd2⟩, fun hc => ?_⟩, ?_, ?_, fun _ => ?_⟩
      · omega
      · rw [g7]; exact h1.rev_lo
      · rw [g7]; exact h1.rev_hi
      · have := g2.occ_eq
        rw [g8, h8, hsz, ← hw.size] at this
        omega

theorem insertAll_spec (hE : E.Lawful) {mem : Mem} (hmem : mem ≠ .noSlots) : ∀ (l : List (K × V)) (t : Map K V) (m : Spec.Map K V),
    Reach true E sec t → (entries t).Perm m →
    match insertAll E sec mem l t with
    | .ok t' _ => Reach true E sec t' ∧ (entries t').Perm (l.foldl (fun m e => Spec.insert E.eq m e.1 e.2) m)
    | .throw t' => Reach true E sec t' ∧ ∃ a b, l = a ++ b ∧ (entries t').Perm (a.foldl (fun m e => Spec.insert E.eq m e.1 e.2) m)
    | _ => False := by
  intro l
  induction l with
  | nil => intro t m h1 h2; exact ⟨h1, h2⟩
  | cons e l ih =>
    intro t m h1 h2
    have hp := emplace_ok hE h1 h2 false hmem e.1 e.2 (Or.inl rfl)
    unfold insertAll
    generalize emplace E sec false mem true e.1 e.2 t = o at hp
    match o, hp with
    | .throw t', ⟨g1, g2⟩ => exact ⟨g1, [], e :: l, rfl, g2⟩
    | .ok t' (i, b), ⟨g1, _, _, _, _, g2⟩ =>
      simp only [Out.bind_ok]
      have hi := ih t' _ g1 g2
      generalize insertAll E sec mem l t' = o2 at hi
      match o2, hi with
      | .ok t2 _, hi => exact hi
      | .throw t2, ⟨q1, a, b, q2, q3⟩ => exact ⟨q1, e :: a, b, by rw [q2]; rfl, q3⟩

/-- C75, ranges: inserting a range is inserting its elements one by one, so of equal keys the first one wins; if an exception
stops it, the elements before that point are there. -/
theorem C75_insert_range (hE : E.Lawful) {mem : Mem} (hmem : mem ≠ .noSlots) (l : List (K × V)) {t : Map K V} (hR : Reach true E sec t) :
    (∃ t', insertAll E sec mem l t = .ok t' () ∧ Reach true E sec t' ∧
      (entries t').Perm (l.foldl (fun m e => Spec.insert E.eq m e.1 e.2) (entries t))) ∨
    (∃ t' a b, insertAll E sec mem l t = .throw t' ∧ Reach true E sec t' ∧ l = a ++ b ∧
      (entries t').Perm (a.foldl (fun m e => Spec.insert E.eq m e.1 e.2) (entries t))) := by
  have h := insertAll_spec hE hmem l t (entries t) hR (List.Perm.refl _)
  generalize insertAll E sec mem l t = o at h
  match o, h with
  | .ok t' (), h => exact Or.inl ⟨t', rfl, h.1, h.2⟩
  | .throw t', ⟨h1, a, b, h2, h3⟩ => exact Or.inr ⟨t', a, b, rfl, h1, h2, h3⟩

/-- C75, the constructor from a range or an initializer list. -/
theorem C75_from_range (hE : E.Lawful) {mem : Mem} (hmem : mem ≠ .noSlots) (n : Nat) (l : List (K × V)) {t : Map K V}
    (hc : ofList E sec mem n l = .ok t ()) :
    Reach true E sec t ∧ (entries t).Perm (l.foldl (fun m e => Spec.insert E.eq m e.1 e.2) []) := by
  unfold ofList at hc
  have hmk := fun (t1 : Map K V) =>
    make_ok (clean := true) (E := E) (sec := sec) (mem := mem) (n := minRequire (blank : Map K V) (max n l.length)) (t := t1)
  generalize make mem (minRequire (blank : Map K V) (max n l.length)) = o at hc hmk
  match o, hc with
  | .ok t1 (), hc =>
    obtain ⟨h1, h2, _⟩ := hmk t1 rfl
    simp only [Out.bind_ok] at hc
    have h := insertAll_spec hE hmem l t1 [] h1 (by rw [h2])
    rw [hc] at h
    exact h

/-! ### C76: max_load_factor -/

/-- C76 (partial).  `max_load_factor(x)` on a map of at most 32 slots keeps the elements, and the map goes on working.
Missing: larger maps, where later insertions are undefined (FlatBugs.lean). -/
theorem C76_max_load_partial (hE : E.Lawful) {clean : Bool} {t : Map K V} (hR : Reach clean E sec t) (hc : cap t ≤ 32) {mem : Mem}
    (hmem : mem ≠ .noSlots) {m r : Nat} (hm : m < 2 ^ 32) (hr : 81920 ≤ r ∧ r ≤ 327680) :
    (∃ t', setMlf E sec mem m r t = .ok t' () ∧ Reach clean E sec t' ∧ (entries t').Perm (entries t)) ∨
    (∃ t', setMlf E sec mem m r t = .throw t' ∧ Reach clean E sec t' ∧ (entries t').Perm (entries t)) := by
  have h := exec_ok hE hR (List.Perm.refl _) (rv := fun _ => r) (fun _ => hr) hmem (c := Call.maxLoad m) hc
  simp only [exec, Nat.mod_eq_of_lt hm] at h
  generalize setMlf E sec mem m r t = o at h
  match o, h with
  | .ok t' (), ⟨h1, _, h3⟩ => exact Or.inl ⟨t', rfl, h1, h3⟩
  | .throw t', ⟨h1, _, h3⟩ => exact Or.inr ⟨t', rfl, h1, h3⟩

/-- C76, the effect: on a map of at most 32 slots with more bytes in use than the new threshold, a call that returns leaves room
for the elements under the new load factor. -/
theorem C76_max_load_effect {t : Map K V} (h : Core E sec t) (hc : cap t ≤ 32) {mem : Mem} {m r : Nat} (hr : 81920 ≤ r ∧ r ≤ 327680)
    (hu : cap t * m % W / 65536 < usedCount t) {t' : Map K V} (ht : setMlf E sec mem m r t = .ok t' ()) :
    t'.mlf = m ∧ t'.rev = r ∧ minRequire t' t.size ≤ cap t' := by
  have h1 : Core E sec { t with mlf := m, rev := r } := ⟨h.pow, h.gmask, h.cell, h.mirror, h.tail, h.size, h.left⟩
  unfold setMlf at ht
  simp only at ht
  rw [if_pos (show thr { t with mlf := m, rev := r } < usedCount t from hu), if_pos (Or.inl hc)] at ht
  unfold rehash at ht
  have hsc := h.size_le
  have h3 : NotPow t.size ∨ t.size < max (minRequire { t with mlf := m, rev := r } t.size) t.size := by
    by_cases h7 : t.size < 4
    · exact Or.inl (Or.inl h7)
    · right
      have := minRequire_gt (t := { t with mlf := m, rev := r }) hr.1 hr.2 (n := t.size) (by omega) (by omega)
      omega
  have hs := rehashImpl_spec h1 true false mem _ (fun c hc => lt_of_calc hc (Nat.le_max_right _ _) h3)
  rw [if_neg (by decide)] at ht
  change rehashImpl E sec true false mem (max (minRequire { t with mlf := m, rev := r } t.size) t.size) _ = _ at ht
  change RehashOk E sec true false mem (max (minRequire { t with mlf := m, rev := r } t.size) t.size) _ _ at hs
  rw [ht] at hs
  obtain ⟨c, hcalc, hs⟩ := hs
  rw [calcCapacity_eq] at hcalc
  obtain ⟨j, _, rfl, hge, _⟩ := Robin.calcCapacity_ok hcalc
  rcases hs with ⟨_, g⟩ | ⟨rfl, _, g⟩
  · refine ⟨g.mlf, g.rev, ?_⟩
    rw [g.cap]
    have : minRequire t' t.size = minRequire { t with mlf := m, rev := r } t.size := by unfold minRequire; rw [g.rev]
    omega
  · exact ⟨rfl, rfl, by rw [← g rfl]; omega⟩

/-! ### C77: exceptions -/

/-- C77 (partial).  If an insertion throws because no control bytes could be allocated, the elements are as before and the map goes
on working.  Missing: a failed allocation of slots, and a throwing constructor of the element (both violate it, FlatBugs.lean). -/
theorem C77_alloc_failure_partial (hE : E.Lawful) {t : Map K V} (hR : Reach true E sec t) (update : Bool) (k : K) (v : V) {mem : Mem}
    (hmem : mem ≠ .noSlots) {t' : Map K V} (h : emplace E sec update mem true k v t = .throw t') :
    Reach true E sec t' ∧ (entries t').Perm (entries t) := by
  have hp := emplace_ok hE hR (List.Perm.refl _) update hmem k v (Or.inl rfl)
  rw [h] at hp
  exact hp

end Verif.Flat
