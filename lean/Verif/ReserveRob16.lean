import Verif.Rob16Bugs
import Verif.Rob16Props
import Verif.ReserveFlat
/-
C125 for robin16: `reserve(n)` leaves room for `n` elements.

`reserve(n)` (R16:1677-1691) asks for `n * n_mlf_rev_ / 65536` slots and rebuilds the table when the capacity differs; the threshold is then
`capacity * n_mlf_ / 65536`.  With the default load factor that is at least `n`.
-/

namespace Verif.Rob16
open Spec (Call Ans)
open Verif.Robin (hashEnv)

variable {K V : Type} {E : Env K} {sec : Nat → Nat}

/-- Insertion, erasure, lookup, iteration, `size`, `empty`. -/
def Modest : Call K V → Prop
  | .insert .. | .assign .. | .index .. | .erase _ | .find _ | .contains _ | .count _ | .at _ | .iterate | .size | .empty => True
  | _ => False

/-- After every call of `ops` the ideal map that starts with `m` has at most `n` elements, and the call is one of those of C79. -/
def Within (E : Env K) (sec : Nat → Nat) (big : Bool) (n : Nat) : Spec.Map K V → List (Mem × Call K V) → Prop
  | _, [] => True
  | m, (_, c) :: cs => (after E.eq m c).length ≤ n ∧ Plain E sec big m c ∧ Within E sec big n (after E.eq m c) cs

/-- An insertion below the threshold, or of a key that is there, does not look at the allocator, and the capacity stays. -/
theorem prepare_room (hE : E.Lawful) {t : Map K V} (h : Live E sec t) {k : K} (hk : TagOk E sec t k) (hr : Absent E t k → t.size < t.thr) {mem : Mem}
    (f : Nat) : prepare E sec mem k (f + 1) t = prepare E sec .ok k (f + 1) t ∧ ∃ r, prepare E sec mem k (f + 1) t = .ok t r := by
  unfold prepare
  obtain ⟨m, hm, hq⟩ := probe_spec h.toTab hE hk h.exists_empty (s := 4) (by decide)
  rcases hq with ⟨x, h1, h2, h3⟩ | ⟨h1, h2⟩
  · rw [h1]
    exact ⟨rfl, _, rfl⟩
  · rw [h1]
    have := hr ((absent_iff h.toBase).mpr h2)
    simp only [lift]
    rw [if_neg (by omega), if_neg (by omega)]
    exact ⟨rfl, _, rfl⟩

/-- The same for the whole insertion. -/
theorem insert_room (hE : E.Lawful) {t : Map K V} (h : Live E sec t) {k : K} {v : V} (hk : TagOk E sec t k)
    (hS : Spread E 129 (cap t) ((k, v) :: entries t)) (hr : Absent E t k → t.size < t.thr) {u : Bool} {mem : Mem} :
    ∃ t' r, insert E sec u mem true k v t = .ok t' r ∧ insert E sec u .ok true k v t = .ok t' r ∧ cap t' = cap t := by
  obtain ⟨g1, r, g2⟩ := prepare_room hE h hk hr (mem := mem) 63
  obtain ⟨j, j1, _, hj⟩ := h.pow
  have hS' : Spread E 254 (cap t) ((k, v) :: entries t) := hS.mono (by omega)
  have hsp := prepare_spec hE mem k 64 j t h hk (hS'.sub (List.sublist_cons_self _ _).subperm) hj (by omega)
  unfold insert emplace
  rw [show (64 : Nat) = 63 + 1 from rfl] at hsp ⊢
  rw [← g1, g2] at *
  simp only [Out.bind_ok]
  obtain ⟨i, d⟩ := r
  cases d with
  | none =>
    obtain ⟨_, _, _, e, h4, _⟩ := hsp
    simp only [h4]
    refine ⟨_, _, rfl, rfl, ?_⟩
    split <;> rfl
  | some m =>
    obtain ⟨_, _, h3, h4, _⟩ := hsp
    subst h4
    obtain ⟨q, b, e1, e2⟩ := makeRoom_spec (e := (k, v)) false h.toTab h.exists_empty h3 hS'
    simp only
    rw [e1]
    simp only [lift]
    cases b with
    | true => exact absurd hS (e2.full rfl).2.1
    | false =>
      simp only [Bool.false_eq_true, if_false, if_true]
      exact ⟨_, _, rfl, rfl, e2.same.cap⟩

/-- One call that leaves at most `n` elements in a map of at least `2 * n` slots. -/
theorem exec_room (hE : E.Lawful) {triv big : Bool} {rv : Nat → Nat} (hrv : ∀ x, 81920 ≤ rv x ∧ rv x ≤ 327680) {t : Map K V}
    (hP : PState E sec big t) {m : Spec.Map K V} (hm : (entries t).Perm m) {mem : Mem} {c : Call K V} (hq : Modest c) {n : Nat}
    (hn : 2 * n ≤ cap t) (hlen : (after E.eq m c).length ≤ n) (hp : Plain E sec big m c) :
    ∃ t' a, exec E sec triv rv mem c t = .ok t' a ∧ cap t' = cap t ∧ PState E sec big t' ∧ (entries t').Perm (after E.eq m c) ∧
      a ≠ .threw := by
  obtain ⟨hs, hcalm⟩ := hp.safe hE (rv := rv) hP hm
  have hst := exec_ok hE (triv := triv) hP.toReach hm hrv (mem := .ok) (by decide) hs
  have hkept := exec_kept hE (triv := triv) (rv := rv) hP hm (mem := .ok) (by decide) hp
  have hput : ∀ (u : Bool) (k : K) (v : V), (Flat.after E.eq u m k v).length ≤ n → TagOk E sec t k → Spread E 129 (cap t) ((k, v) :: m) →
      ∃ t' r, insert E sec u mem true k v t = .ok t' r ∧ insert E sec u .ok true k v t = .ok t' r ∧ cap t' = cap t := by
    intro u k v hl hk hS
    refine insert_room hE hP.toLive hk (hS.perm (hm.cons _)) fun hab => ?_
    have hg : Spec.get E.eq m k = none := Spec.get_none_iff.mpr fun e he => Robin.absent_symm hE (hab e (hm.mem_iff.mpr he))
    have haft : Flat.after E.eq u m k v = (k, v) :: m := by
      unfold Flat.after
      cases u
      · exact Spec.insert_absent hg v
      · simp [Spec.assign, hg]
    rw [haft, List.length_cons] at hl
    have h1 := hP.half.thr
    have h5 : t.size = m.length := by rw [hP.size, hm.length_eq]
    omega
  have hins : ∀ (u : Bool) (k : K) (v : V) (f : Map K V → Nat × Bool → Out (Map K V) (Ans K V)),
      (Flat.after E.eq u m k v).length ≤ n → TagOk E sec t k → Spread E 129 (cap t) ((k, v) :: m) →
      (∀ mem, exec E sec triv rv mem c t = (insert E sec u mem true k v t).bind f) →
      (∀ t r, match f t r with | .ok t' a => t' = t ∧ a ≠ .threw | .throw _ => False | _ => True) →
      ∃ t' a, exec E sec triv rv mem c t = .ok t' a ∧ cap t' = cap t ∧ PState E sec big t' ∧ (entries t').Perm (after E.eq m c) ∧
        a ≠ .threw := by
    intro u k v f hl hk hS hf hid
    obtain ⟨t', r, g1, g2, g3⟩ := hput u k v hl hk hS
    rw [hf, g2, Out.bind_ok] at hst hkept
    rw [hf, g1, Out.bind_ok]
    have := hid t' r
    generalize f t' r = o at hst hkept this
    match o, hst, hkept, this with
    | .ok t2 a, hst, hkept, ⟨h1, h2⟩ =>
      subst h1
      exact ⟨_, _, rfl, g3, ⟨hst.1, hkept.1, hkept.2⟩, hst.2.2, h2⟩
  have hre : ∀ (t : Map K V) r, match readElem t r with | .ok t' a => t' = t ∧ a ≠ .threw | .throw _ => False | _ => True := by
    intro t r; unfold readElem; cases t.slot r.1 <;> simp
  have hrv' : ∀ (t : Map K V) r, match readValue t r with | .ok t' a => t' = t ∧ a ≠ .threw | .throw _ => False | _ => True := by
    intro t r; unfold readValue; cases t.slot r.1 <;> simp
  have hread : ∀ {α : Type} (r : Res α) (f : α → Ans K V), (∀ mem, exec E sec triv rv mem c t = lift r (fun x => Out.ok t (f x))) →
      (∀ x, f x ≠ .threw) →
      ∃ t' a, exec E sec triv rv mem c t = .ok t' a ∧ cap t' = cap t ∧ PState E sec big t' ∧ (entries t').Perm (after E.eq m c) ∧
        a ≠ .threw := by
    intro α r f hf hth
    rw [hf] at hst hkept ⊢
    match r, hst, hkept with
    | .ok x, hst, hkept => exact ⟨_, _, rfl, rfl, ⟨hst.1, hkept.1, hkept.2⟩, hst.2.2, hth x⟩
  cases c with
  | insert k v => exact hins false k v _ hlen hs.1 hcalm (fun _ => rfl) hre
  | assign k v => exact hins true k v _ hlen hs.1 hcalm (fun _ => rfl) hre
  | index k v => exact hins false k v _ hlen hs.1 hcalm (fun _ => rfl) hrv'
  | find k => exact hread _ _ (fun _ => rfl) nofun
  | contains k => exact hread _ _ (fun _ => rfl) nofun
  | count k => exact hread _ _ (fun _ => rfl) nofun
  | «at» k => exact hread _ _ (fun _ => rfl) nofun
  | iterate => exact hread _ _ (fun _ => rfl) nofun
  | size => exact ⟨t, _, rfl, rfl, ⟨hst.1, hkept.1, hkept.2⟩, hst.2.2, nofun⟩
  | empty => exact ⟨t, _, rfl, rfl, ⟨hst.1, hkept.1, hkept.2⟩, hst.2.2, nofun⟩
  | erase k =>
    rcases find_spec hE hP.toInv (k := k) hs.1 with ⟨i, e, h1, h2, hu, h3, h4, h5⟩ | ⟨h1, h2, h3⟩
    · obtain ⟨t', g1, g2, g3, g4, _⟩ := (eraseSlot_spec hE triv hP.toLive h2 hu h3).1 (hs.2 i h2 ⟨hu, e, h3, h4⟩)
      have hx : eraseKey E sec triv k t = .ok t' 1 := by
        unfold eraseKey
        rw [h1]
        simp only [lift]
        rw [g1]
      simp only [exec] at hst hkept ⊢
      rw [hx] at hst hkept ⊢
      exact ⟨t', _, rfl, by unfold cap; rw [g4], ⟨hst.1, hkept.1, hkept.2⟩, hst.2.2, nofun⟩
    · have hx : eraseKey E sec triv k t = .ok t 0 := by
        unfold eraseKey
        rw [h1]
        rfl
      simp only [exec] at hst hkept ⊢
      rw [hx] at hst hkept ⊢
      exact ⟨t, _, rfl, rfl, ⟨hst.1, hkept.1, hkept.2⟩, hst.2.2, nofun⟩
  | clear d => exact hq.elim
  | reserve n => exact hq.elim
  | rehash n => exact hq.elim
  | shrink ro => exact hq.elim
  | maxLoad x => exact hq.elim

theorem run_room (hE : E.Lawful) {triv big : Bool} {rv : Nat → Nat} (hrv : ∀ x, 81920 ≤ rv x ∧ rv x ≤ 327680) {n : Nat} :
    ∀ (ops : List (Mem × Call K V)) (t : Map K V) (m : Spec.Map K V), PState E sec big t → (entries t).Perm m → 2 * n ≤ cap t →
      (∀ op ∈ ops, Modest op.2) → Within E sec big n m ops →
      ∃ as t', run E sec triv rv ops t = .ok (as, t') ∧ as.length = ops.length ∧ Ans.threw ∉ as ∧ cap t' = cap t := by
  intro ops
  induction ops with
  | nil => intro t m _ _ _ _ _; exact ⟨[], t, rfl, rfl, nofun, rfl⟩
  | cons op ops ih =>
    intro t m h hm hn hq hw
    obtain ⟨mem, c⟩ := op
    obtain ⟨w1, w2, w3⟩ := hw
    obtain ⟨t1, a, g1, g2, g3, g4, g5⟩ := exec_room hE (triv := triv) hrv h hm (mem := mem) (hq _ (List.mem_cons_self ..)) hn w1 w2
    obtain ⟨as, t', e1, e2, e3, e4⟩ := ih t1 _ g3 g4 (by omega) (fun o ho => hq o (List.mem_cons_of_mem _ ho)) w3
    refine ⟨a :: as, t', ?_, by simp [e2], ?_, e4.trans g2⟩
    · unfold run
      rw [g1]
      simp only [e1, Res.bind_ok]
    · intro h
      rcases List.mem_cons.mp h with h | h
      · exact g5 h.symm
      · exact e3 h

/-- C125 (partial), robin16.  After every history of C79, `reserve(n)` with `n` at least `size()` leaves a capacity of at least `2 * n`, and
then all insertions, erasures and lookups that keep the number of elements at or below `n` (and satisfy the conditions of C79 on the hash
function) succeed without changing `capacity()`, even if the allocator refuses every request.  Missing, because the code violates it: other
load factors (`C125_reserve_load_factor`), elements beyond the displacement limit (C85), erasures that turn around at the last slot
(C81). -/
theorem C125_reserve_partial (hE : E.Lawful) {triv : Bool} {rv : Nat → Nat} (hrv : ∀ x, 81920 ≤ rv x ∧ rv x ≤ 327680) {mem0 : Mem}
    {n0 : Nat} {t0 : Map K V} (hc : make mem0 n0 = .ok t0 ()) (big : Bool) (hb : big = true → 8 < n0) (cs : List (Mem × Call K V))
    (hp : PlainAll E sec big [] cs) {as : List (Ans K V)} {t : Map K V} (hr : run E sec triv rv cs t0 = .ok (as, t)) {n : Nat}
    (hpn : Plain E sec big (entries t) (.reserve n)) {mem : Mem} {t1 : Map K V} {a : Ans K V}
    (hx : exec E sec triv rv mem (.reserve n) t = .ok t1 a) :
    2 * n ≤ cap t1 ∧ ∀ ops : List (Mem × Call K V), (∀ op ∈ ops, Modest op.2) → Within E sec big n (entries t) ops →
      ∃ as t2, run E sec triv rv ops t1 = .ok (as, t2) ∧ as.length = ops.length ∧ Ans.threw ∉ as ∧ cap t2 = cap t1 := by
  obtain ⟨h1, h2⟩ := make_state (E := E) (sec := sec) hc big hb
  obtain ⟨as', t', m', e1, h4, _, _⟩ := plain_run hE (triv := triv) hrv cs t0 [] h1 (by rw [h2]) hp
  rw [hr] at e1
  cases e1
  obtain ⟨p0, p1, p2, p3, p4⟩ := hpn
  have hsz : t.size = (entries t).length := h4.size
  have hreq := h4.half.minRequire (n := n) (by omega)
  have hreh : rehashImpl E sec true false mem (2 * n) t = .ok t1 () := by
    simp only [exec, rehash] at hx
    rw [if_neg (by decide), hreq, Nat.max_eq_left (by omega)] at hx
    generalize rehashImpl E sec true false mem (2 * n) t = o at hx
    match o, hx with
    | .ok t2 u, hx => cases hx; rfl
  have hmem : rehashImpl E sec true false .ok (2 * n) t = .ok t1 () := by
    unfold rehashImpl at hreh ⊢
    revert hreh
    cases calcCapacity (2 * n) with
    | ub => exact nofun
    | diverge => exact nofun
    | ok c =>
      simp only
      split
      · unfold createGroup
        simp only
        cases mem with
        | ok => exact id
        | noGroups => rw [if_pos (Or.inl rfl)]; exact nofun
        | noSlots =>
          by_cases hl : memLimit < c
          · rw [if_pos (Or.inr hl)]; exact nofun
          · rw [if_neg (by simp [hl]), if_pos rfl]; exact nofun
      · exact id
  have hx' : exec E sec triv rv .ok (.reserve n) t = .ok t1 .unit := by
    simp only [exec, rehash]
    rw [if_neg (by decide), hreq, Nat.max_eq_left (by omega), hmem]
    rfl
  have hpn : Plain E sec big (entries t) (.reserve n) := ⟨p0, p1, p2, p3, p4⟩
  have hst := exec_ok hE (triv := triv) h4.toReach (List.Perm.refl _) hrv (mem := .ok) (by decide) (hpn.safe hE (rv := rv) h4 (List.Perm.refl _)).1
  have hkept := exec_kept hE (triv := triv) (rv := rv) h4 (List.Perm.refl _) (mem := .ok) (by decide) hpn
  rw [hx'] at hst hkept
  have hcap : 2 * n ≤ cap t1 := by
    have hs := rehashImpl_spec (E := E) (sec := sec) h4.toTab.weak true false .ok (2 * n) fun c hc => fits_of hc (by omega) p4
    rw [hmem] at hs
    obtain ⟨c, hc, hs⟩ := hs
    have := (calc_ge hc).1
    rcases hs with ⟨_, g3⟩ | ⟨rfl, _, g3⟩
    · rw [g3.cap]; exact this
    · rw [← g3 rfl]; exact this
  exact ⟨hcap, fun ops hq hw => run_room hE hrv ops t1 _ ⟨hst.1, hkept.1, hkept.2⟩ hst.2.2 hcap hq hw⟩

set_option maxRecDepth 100000

/-- Three elements, `reserve(5)`, then two insertions and an erasure that may not allocate. -/
example : PlainAll (hashEnv id) odd false [] ((ins 3 1).map fun c => (Mem.ok, c)) ∧
    ∃ as t t1 a, run (hashEnv id) odd true (fun _ => 131072) ((ins 3 1).map fun c => (Mem.ok, c)) start = .ok (as, t) ∧
      Plain (hashEnv id) odd false (entries t) (.reserve 5) ∧
      exec (hashEnv id) odd true (fun _ => 131072) .ok (.reserve 5) t = .ok t1 a ∧ cap t = 8 ∧ cap t1 = 16 ∧
      (∀ op ∈ [(Mem.noSlots, (.insert 3 3 : Call Nat Nat)), (.noGroups, .index 4 4), (.noGroups, .erase 1)], Modest op.2) ∧
      Within (hashEnv id) odd false 5 (entries t) [(.noSlots, .insert 3 3), (.noGroups, .index 4 4), (.noGroups, .erase 1)] := by
  refine ⟨plainB_sound _ _ (by decide +kernel), ?_⟩
  have h : (match run (hashEnv id) odd true (fun _ => 131072) ((ins 3 1).map fun c => (Mem.ok, c)) start with
    | .ok (_, t) => cap t == 8 && entries t == [(0, 0), (1, 1), (2, 2)] &&
      match exec (hashEnv id) odd true (fun _ => 131072) .ok (.reserve 5) t with
      | .ok t1 _ => cap t1 == 16
      | _ => false
    | _ => false) = true := by decide +kernel
  split at h
  · rename_i as t hr
    simp only [Bool.and_eq_true, beq_iff_eq] at h
    obtain ⟨⟨h2, h3⟩, h4⟩ := h
    split at h4
    · rename_i t1 a hx
      refine ⟨as, t, t1, a, hr, ?_, hx, h2, by simpa using h4, ?_, ?_⟩
      · rw [h3]
        exact ⟨by decide, by decide, by decide, nofun, fun j _ => spread_of_length (by decide)⟩
      · intro op hop
        simp only [List.mem_cons, List.not_mem_nil, or_false] at hop
        rcases hop with rfl | rfl | rfl <;> trivial
      · rw [h3]
        refine ⟨by decide, ⟨Or.inr (odd_tag _), fun j _ => spread_of_length (by decide)⟩, by decide,
          ⟨Or.inr (odd_tag _), fun j _ => spread_of_length (by decide)⟩, by decide, ⟨Or.inr (odd_tag _), Or.inr ?_⟩, trivial⟩
        exact low_of (by decide)
    · cases h4
  · cases h

/-- Deviation from C125: with `max_load_factor(0.3f)` (the integers are 19661 and 218454, `F32.flatArg_03`) `reserve(5)` leaves sixteen
slots and a threshold of four; the fifth insertion moves everything to thirty-two slots, or throws if there is no memory. -/
theorem C125_reserve_load_factor :
    endsIn (run (hashEnv id) odd true F32.flatRecip ([(Mem.ok, .maxLoad (F32.nameOf 19661 218454)), (.ok, .reserve 5)] ++
      (ins 5 1).map fun c => (Mem.ok, c)) start) (fun _ t => t.size == 5 && cap t == 32) = true ∧
    endsIn (run (hashEnv id) odd true F32.flatRecip ([(Mem.ok, .maxLoad (F32.nameOf 19661 218454)), (.ok, .reserve 5)] ++
      (ins 5 1).map fun c => (Mem.noGroups, c)) start) (fun as t => t.size == 4 && cap t == 16 && lastIs .threw as) = true := by
  decide +kernel

end Verif.Rob16
