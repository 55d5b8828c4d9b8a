import Verif.RobinLoad
import Verif.RobIndLoad
import Verif.LoadRun
/-
C125 for the two layouts of the robin map: `reserve(n)` leaves room for `n` elements.

`reserve(n)` (RB:3517-3531) asks for `n * n_rev / 256` positions, `n_rev` being the integer reciprocal of `max_load_factor()`, and
`create_slots` sets the threshold to `capacity * n_mlf / 256`.  With the default pair (128, 512) the threshold is at least `n`
afterwards, also when the block was already large enough and is kept.  Then insertions that leave at most `n` elements never grow
and never call the allocator.  With other load factors both divisions lose something and the threshold may stay below `n`.
-/

namespace Verif.Robin
open Spec (Call Ans Distinct)

variable {K V : Type} {E : Env K}

/-- Default load factor, with the threshold that belongs to it. -/
structure Std (t : Map K V) : Prop where
  mlf : t.mlf = 128
  rev : t.rev = 512
  thr : t.mask = 0 ∧ t.thr = 0 ∨ 2 * t.thr = t.mask + 1

theorem Std.minRequire {t : Map K V} (h : Std t) {n : Nat} (hn : n ≤ 2 ^ 48) : minRequire t n = 2 * n := by
  unfold Robin.minRequire
  rw [h.rev, Nat.mod_eq_of_lt (by unfold W; omega)]
  omega

theorem Std.rehash {t t' : Map K V} {u : Unit} (h : Std t) {n : Nat} {mem : Bool}
    (hx : rehashImpl false chk E true false mem n t = .ok t' u) : Std t' := by
  obtain ⟨cap, hc, ⟨_, rfl, _⟩ | ⟨h1, h2, h3, h4⟩⟩ := rehashImpl_fr hx
  · exact h
  · obtain ⟨j, hj, rfl, h5, _⟩ := calcCapacity_ok hc
    have := pow_two_le hj
    have := pow_even hj
    rw [h.mlf] at h2
    exact ⟨h3.trans h.mlf, h4.trans h.rev, by omega⟩

theorem Std.fr {t t' : Map K V} (h : Std t) (hf : Fr t t') : Std t' :=
  ⟨hf.mlf.trans h.mlf, hf.rev.trans h.rev, by rw [hf.thr, hf.mask]; exact h.thr⟩

theorem Std.grew {t t' : Map K V} (h : Std t) (hg : Grew t t') : Std t' := by
  obtain ⟨h1, h2, h3, h4, h5⟩ := hg
  rw [h.mlf] at h2
  exact ⟨h3.trans h.mlf, h4.trans h.rev, by omega⟩

/-- All calls but `max_load_factor(x)` keep the load factor and the threshold in step. -/
theorem exec_std {t : Map K V} (hh : Std t) {rv : Nat → Nat} {mem : Bool} {c : Call K V} (hc : ∀ x, c ≠ .maxLoad x)
    {t' : Map K V} {a : Ans K V} (hx : exec false true E rv mem c t = .ok t' a) : Std t' := by
  have hput : ∀ (update : Bool) (k : K) (v : V) (i : Nat) (b : Bool), emplace false true E update mem k v t = .ok t' (i, b) →
      Std t' := by
    intro update k v i b he
    rcases emplaceLoop_fr update mem k v _ t he with ⟨_, h2, _⟩ | ⟨_, h2, _⟩ | h2
    · exact hh.fr h2
    · exact hh.fr h2
    · exact hh.grew h2
  have hlift : ∀ {α : Type} {r : Res α} {f : α → Ans K V}, lift r (fun x => Out.ok t (f x)) = .ok t' a → Std t' := by
    intro α r f h
    obtain ⟨x, _, h⟩ := lift_ok h
    cases h; exact hh
  cases c with
  | insert k v =>
    obtain ⟨s, ⟨i, b⟩, h1, h2⟩ := out_bind_ok hx
    have : s = t' := by
      unfold readElem at h2
      cases hq : s.slot i with
      | none => simp only [hq] at h2; cases h2
      | some e => simp only [hq] at h2; cases h2; rfl
    subst this
    exact hput _ _ _ _ _ h1
  | assign k v =>
    obtain ⟨s, ⟨i, b⟩, h1, h2⟩ := out_bind_ok hx
    have : s = t' := by
      unfold readElem at h2
      cases hq : s.slot i with
      | none => simp only [hq] at h2; cases h2
      | some e => simp only [hq] at h2; cases h2; rfl
    subst this
    exact hput _ _ _ _ _ h1
  | index k v =>
    obtain ⟨s, ⟨i, b⟩, h1, h2⟩ := out_bind_ok hx
    have : s = t' := by
      unfold readValue at h2
      cases hq : s.slot i with
      | none => simp only [hq] at h2; cases h2
      | some e => simp only [hq] at h2; cases h2; rfl
    subst this
    exact hput _ _ _ _ _ h1
  | find k => exact hlift hx
  | contains k => exact hlift hx
  | count k => exact hlift hx
  | «at» k => exact hlift hx
  | iterate => exact hlift hx
  | size => cases hx; exact hh
  | empty => cases hx; exact hh
  | erase k =>
    obtain ⟨s, n, h1, h2⟩ := out_bind_ok hx
    cases h2
    exact hh.fr (eraseKey_fr h1)
  | clear d =>
    obtain ⟨s, u, h1, h2⟩ := out_bind_ok hx
    cases h2
    unfold clear at h1
    split at h1
    · cases h1
      exact ⟨hh.mlf, hh.rev, Or.inl ⟨rfl, rfl⟩⟩
    · unfold clearData at h1
      split at h1
      · cases h1
        exact ⟨hh.mlf, hh.rev, hh.thr⟩
      · cases h1
  | reserve n =>
    obtain ⟨s, u, h1, h2⟩ := out_bind_ok hx
    cases h2
    exact hh.rehash h1
  | rehash n =>
    obtain ⟨s, u, h1, h2⟩ := out_bind_ok hx
    cases h2
    exact hh.rehash h1
  | shrink ro =>
    obtain ⟨s, u, h1, h2⟩ := out_bind_ok hx
    cases h2
    exact hh.rehash h1
  | maxLoad x => exact absurd rfl (hc x)

theorem run_std {rv : Nat → Nat} : ∀ (cs : List (Bool × Call K V)) (t : Map K V), Std t → (∀ c ∈ cs, ∀ x, c.2 ≠ .maxLoad x) →
    ∀ {as t'}, run false true E rv cs t = .ok (as, t') → as.getLast? ≠ some .threw → Std t' := by
  intro cs
  induction cs with
  | nil => intro t hh _ as t' h _; cases h; exact hh
  | cons c cs ih =>
    intro t hh ht as t' h hl
    obtain ⟨mem, c⟩ := c
    unfold run at h
    cases hx : exec false true E rv mem c t with
    | ub => rw [hx] at h; cases h
    | diverge => rw [hx] at h; cases h
    | throw s => rw [hx] at h; cases h; exact absurd rfl hl
    | ok s a =>
      rw [hx] at h
      obtain ⟨⟨as1, t1⟩, h1, h2⟩ := res_bind_ok h
      cases h2
      refine ih s (exec_std hh (ht _ (List.mem_cons_self ..)) hx) (fun c' hc' => ht c' (List.mem_cons_of_mem _ hc')) h1 fun hl2 => hl ?_
      show (a :: as1).getLast? = _
      rw [List.getLast?_cons, hl2]
      rfl

theorem make_std {mem : Bool} {n : Nat} {t : Map K V} (h : (make false mem n : Out (Map K V) Unit) = .ok t ()) : Std t :=
  have hh := make_half h
  ⟨hh.mlf, hh.rev, hh.thr⟩

theorem Reached.std {rv : Nat → Nat} {cs : List (Bool × Call K V)} {t : Map K V} (h : Reached E rv cs t)
    (ht : ∀ c ∈ cs, ∀ x, c.2 ≠ .maxLoad x) : Std t := by
  obtain ⟨hv, n, mem, t0, as, h0, h1, h2⟩ := h
  exact run_std cs t0 (make_std h0) ht h1 h2

/-- Insertion, erasure, lookup with `contains`, `count` and `at`, iteration, `size`, `empty`. -/
def Modest : Call K V → Prop
  | .insert .. | .assign .. | .index .. | .erase _ | .contains _ | .count _ | .at _ | .iterate | .size | .empty => True
  | _ => False

/-- After every call of `ops` the ideal map that starts with `m` has at most `n` elements, and they fit. -/
def Within (E : Env K) (n : Nat) : Spec.Map K V → List (Bool × Call K V) → Prop
  | _, [] => True
  | m, (_, c) :: cs => (next E.eq m c).length ≤ n ∧ Roomy E (next E.eq m c) ∧ Within E n (next E.eq m c) cs

/-- Insertion below the threshold, or of a key that is there: nothing is allocated and the block stays. -/
theorem emplace_room (hE : E.Lawful) {t : Map K V} {c : Nat} (h : Live E t c) {k : K} {v : V} {update mem : Bool}
    (hroom : Roomy E (entries t)) (hk : (∀ x ∈ entries t, E.eq x.1 k = false) → t.size < t.thr ∧ Roomy E ((k, v) :: entries t)) :
    ∃ t' r, emplace false true E update mem k v t = .ok t' r ∧ slotCap t' = slotCap t ∧ t'.thr = t.thr := by
  obtain ⟨j, hj, _, rfl⟩ := h.pow
  unfold emplace
  generalize hF : (64 : Nat) = F
  obtain ⟨f, rfl⟩ : ∃ f, F = f + 1 := ⟨F - 1, by omega⟩
  rw [emplaceLoop_succ]
  unfold findOrInsert
  have hp := probe_spec h.toGood k
  cases hpr : probe false true E t k with
  | diverge => rw [hpr] at hp; exact hp.elim
  | ub =>
    rw [hpr] at hp
    exact ((hroom j hj (by rw [← h.size]; exact h.size_le)).not_crowded h.toGood (h.toShape.hm_lt k) hp.1).elim
  | ok q =>
    rw [hpr] at hp
    cases q with
    | hit i =>
      obtain ⟨h1, e, h2, h3⟩ := hp
      simp only [lift, Out.bind_ok, emplaceTail, h2]
      refine ⟨_, _, rfl, ?_, ?_⟩ <;> split <;> rfl
    | stop i d =>
      obtain ⟨h1, h2⟩ := hp
      have hk1 := absent_of_stop hE h.toGood h1 h2
      obtain ⟨hlt, hfit⟩ := hk hk1
      simp only [lift, h.toShape.no_max, Bool.or_false, decide_eq_true_eq]
      rw [if_neg (by omega)]
      have hfs := finish_spec hE h.toGood h1 hk1 update mem v f
      have hst := (hfit j hj (by rw [List.length_cons, ← h.size]; have := h.thr_le; omega)).not_stuck h.toGood
      cases hq : ((finish false true E k t i d).bind fun t' r => emplaceTail E update mem k v f t' r) with
      | ok t' r =>
        obtain ⟨i', b⟩ := r
        rw [hq] at hfs
        refine ⟨t', _, rfl, ?_⟩
        generalize hR : (Out.ok t' (i', b) : Out (Map K V) (Nat × Bool)) = R at hfs
        cases hfs with
        | added i' t'' ha => cases hR; exact ⟨by rw [ha.good.toShape.slotCap, h.toShape.slotCap], ha.thr⟩
        | ub hst' => exact (hst hst').elim
        | grow t3 _ _ _ hst' => exact (hst hst').elim
      | throw t' =>
        rw [hq] at hfs
        generalize hR : (Out.throw t' : Out (Map K V) (Nat × Bool)) = R at hfs
        cases hfs with
        | added i' t'' ha => cases hR
        | ub hst' => exact (hst hst').elim
        | grow t3 _ _ _ hst' => exact (hst hst').elim
      | ub =>
        rw [hq] at hfs
        generalize hR : (Out.ub : Out (Map K V) (Nat × Bool)) = R at hfs
        cases hfs with
        | added i' t'' ha => cases hR
        | ub hst' => exact (hst hst').elim
        | grow t3 _ _ _ hst' => exact (hst hst').elim
      | diverge =>
        rw [hq] at hfs
        generalize hR : (Out.diverge : Out (Map K V) (Nat × Bool)) = R at hfs
        cases hfs with
        | added i' t'' ha => cases hR
        | ub hst' => cases hR
        | grow t3 _ _ _ hst' => exact (hst hst').elim

/-- One call that leaves at most `n` elements in a map whose threshold is at least `n`. -/
theorem exec_room (hE : E.Lawful) {t : Map K V} (hR : Reach E t) (hst : t.alloc = true) {m : Spec.Map K V} (hm : (entries t).Perm m)
    {rv : Nat → Nat} (hrv : ∀ x, 256 ≤ rv x ∧ rv x ≤ 1024) {mem : Bool} {c : Call K V} (hq : Modest c) {n : Nat} (hn : n ≤ t.thr)
    (hroom : Roomy E m) (hlen : (next E.eq m c).length ≤ n) (hnext : Roomy E (next E.eq m c)) :
    ∃ t' a, exec false true E rv mem c t = .ok t' a ∧ slotCap t' = slotCap t ∧ t'.thr = t.thr ∧ t'.alloc = true := by
  have hv : Valid c := by cases c <;> first | exact hq.elim | trivial
  have hs := exec_ok hE hR hm hrv mem hv
  obtain ⟨c', hl⟩ : ∃ c', Live E t c' := by
    rcases hR.st with ⟨a, b, rfl⟩ | h
    · cases hst
    · exact h
  have hnf : ¬ Fresh t := by rintro ⟨a, b, rfl⟩; cases hst
  have hsz : t.size = m.length := by rw [hR.size, hm.length_eq]
  have hput : ∀ (update : Bool) (k : K) (v : V), (after E.eq update m k v).length ≤ n → Roomy E (after E.eq update m k v) →
      ∃ t' r, emplace false true E update mem k v t = .ok t' r ∧ slotCap t' = slotCap t ∧ t'.thr = t.thr := by
    intro update k v h1 h2
    refine emplace_room hE hl (hroom.perm hm.symm) fun hk => ?_
    have hg : Spec.get E.eq m k = none := Spec.get_none_iff.mpr fun e he => absent_symm hE (hk e (hm.mem_iff.mpr he))
    have haft : after E.eq update m k v = (k, v) :: m := by
      unfold after
      cases update
      · exact Spec.insert_absent hg v
      · simp [Spec.assign, hg]
    rw [haft] at h1 h2
    rw [List.length_cons] at h1
    exact ⟨by omega, h2.perm (List.Perm.cons _ hm.symm)⟩
  have halloc : ∀ t' a, exec false true E rv mem c t = .ok t' a → slotCap t' = slotCap t → t'.alloc = true := by
    intro t' a hx hc
    rw [hx] at hs
    rcases hs.1.st with ⟨x, y, rfl⟩ | ⟨d, hd⟩
    · have h0 : slotCap t = 0 := hc.symm
      rw [hl.toShape.slotCap] at h0
      have := hl.toShape.c_ge
      omega
    · exact hd.alloc
  have hfin : ∀ t' a, exec false true E rv mem c t = .ok t' a → slotCap t' = slotCap t → t'.thr = t.thr →
      ∃ t' a, exec false true E rv mem c t = .ok t' a ∧ slotCap t' = slotCap t ∧ t'.thr = t.thr ∧ t'.alloc = true :=
    fun t' a h1 h2 h3 => ⟨t', a, h1, h2, h3, halloc t' a h1 h2⟩
  have hdef : ∃ t' a, exec false true E rv mem c t = .ok t' a ∨ exec false true E rv mem c t = .throw t' := by
    cases hx : exec false true E rv mem c t with
    | ok t' a => exact ⟨t', a, Or.inl rfl⟩
    | throw t' => exact ⟨t', .unit, Or.inr rfl⟩
    | diverge => rw [hx] at hs; exact hs.elim
    | ub =>
      rw [hx] at hs
      rcases hs with hs | hs | ⟨hs, _⟩
      · exact (hs hroom).elim
      · exact (hs hnext).elim
      · exact (hnf hs).elim
  have hins : ∀ (update : Bool) (k : K) (v : V), (after E.eq update m k v).length ≤ n → Roomy E (after E.eq update m k v) →
      (∀ (f : Map K V → Nat × Bool → Out (Map K V) (Ans K V)), exec false true E rv mem c t =
        (emplace false true E update mem k v t).bind f → (∀ s r s', f s r ≠ .throw s') → (∀ s r s' a, f s r = .ok s' a → s' = s) →
      ∃ t' a, exec false true E rv mem c t = .ok t' a ∧ slotCap t' = slotCap t ∧ t'.thr = t.thr ∧ t'.alloc = true) := by
    intro update k v h1 h2 f hf hth hid
    obtain ⟨t', r, g1, g2, g3⟩ := hput update k v h1 h2
    rw [g1, Out.bind_ok] at hf
    obtain ⟨t2, a, g4 | g4⟩ := hdef
    · have : t2 = t' := hid _ _ _ _ (hf ▸ g4)
      subst this
      exact hfin _ _ g4 g2 g3
    · exact (hth _ _ _ (hf ▸ g4)).elim
  have hre : ∀ (s : Map K V) (r : Nat × Bool), (∀ s', readElem s r ≠ .throw s') ∧ ∀ s' a, readElem s r = .ok s' a → s' = s := by
    intro s r
    unfold readElem
    split
    · exact ⟨nofun, nofun⟩
    · exact ⟨nofun, fun s' a h => by cases h; rfl⟩
  have hrv' : ∀ (s : Map K V) (r : Nat × Bool), (∀ s', readValue s r ≠ .throw s') ∧ ∀ s' a, readValue s r = .ok s' a → s' = s := by
    intro s r
    unfold readValue
    split
    · exact ⟨nofun, nofun⟩
    · exact ⟨nofun, fun s' a h => by cases h; rfl⟩
  have hnothrow : c.allocates = false → ∃ t' a, exec false true E rv mem c t = .ok t' a := by
    intro hc
    obtain ⟨t2, a, g4 | g4⟩ := hdef
    · exact ⟨t2, a, g4⟩
    · rw [g4] at hs
      rw [show c.allocates = true from hs] at hc
      cases hc
  have hlift : ∀ {α : Type} {r : Res α} {f : α → Ans K V}, exec false true E rv mem c t = lift r (fun x => Out.ok t (f x)) →
      c.allocates = false → ∃ t' a, exec false true E rv mem c t = .ok t' a ∧ slotCap t' = slotCap t ∧ t'.thr = t.thr ∧ t'.alloc = true := by
    intro α r f hf hc
    obtain ⟨t2, a, g⟩ := hnothrow hc
    rw [hf] at g
    obtain ⟨x, _, g'⟩ := lift_ok g
    cases g'
    exact ⟨t, _, by rw [hf]; exact g, rfl, rfl, hst⟩
  cases c with
  | insert k v => exact hins false k v hlen hnext _ rfl (fun s r => (hre s r).1) (fun s r => (hre s r).2)
  | assign k v => exact hins true k v hlen hnext _ rfl (fun s r => (hre s r).1) (fun s r => (hre s r).2)
  | index k v => exact hins false k v hlen hnext _ rfl (fun s r => (hrv' s r).1) (fun s r => (hrv' s r).2)
  | contains k => exact hlift rfl rfl
  | count k => exact hlift rfl rfl
  | «at» k => exact hlift rfl rfl
  | iterate => exact hlift rfl rfl
  | size => exact ⟨t, _, rfl, rfl, rfl, hst⟩
  | empty => exact ⟨t, _, rfl, rfl, rfl, hst⟩
  | erase k =>
    obtain ⟨t2, a, g⟩ := hnothrow rfl
    obtain ⟨s, x, h1, h2⟩ := out_bind_ok g
    cases h2
    have h3 := eraseKey_fr h1
    refine hfin _ _ g ?_ h3.thr
    have h4 := g ▸ hs
    rcases h4.1.st with ⟨x, y, rfl⟩ | ⟨d, hd⟩
    · have := hl.mask
      have := hl.toShape.c_ge
      have : (0 : Nat) = t.mask := h3.mask
      omega
    · rw [hd.toShape.slotCap, hl.toShape.slotCap]
      have h5 := h3.mask
      have := hd.mask
      have := hl.mask
      have := hd.toShape.c_ge
      have := hl.toShape.c_ge
      omega
  | find k => exact hq.elim
  | clear d => exact hq.elim
  | reserve n => exact hq.elim
  | rehash n => exact hq.elim
  | shrink ro => exact hq.elim
  | maxLoad x => exact hq.elim

theorem run_room (hE : E.Lawful) {rv : Nat → Nat} (hrv : ∀ x, 256 ≤ rv x ∧ rv x ≤ 1024) {n : Nat} :
    ∀ (ops : List (Bool × Call K V)) (t : Map K V) (m : Spec.Map K V), Reach E t → t.alloc = true → (entries t).Perm m → n ≤ t.thr →
      Roomy E m → (∀ op ∈ ops, Modest op.2) → Within E n m ops →
      ∃ as t', run false true E rv ops t = .ok (as, t') ∧ as.length = ops.length ∧ Ans.threw ∉ as ∧ slotCap t' = slotCap t := by
  intro ops
  induction ops with
  | nil => intro t m _ _ _ _ _ _ _; exact ⟨[], t, rfl, rfl, nofun, rfl⟩
  | cons op ops ih =>
    intro t m hR hst hm hn hroom hq hw
    obtain ⟨mem, c⟩ := op
    obtain ⟨w1, w2, w3⟩ := hw
    obtain ⟨t1, a, g1, g2, g3, g4⟩ := exec_room hE hR hst hm hrv (mem := mem) (hq _ (List.mem_cons_self ..)) hn hroom w1 w2
    have hs := exec_ok hE hR hm hrv mem (c := c) (by
      have := hq _ (List.mem_cons_self ..)
      cases c <;> first | exact this.elim | trivial)
    rw [g1] at hs
    obtain ⟨as, t', e1, e2, e3, e4⟩ := ih t1 _ hs.1 g4 hs.2.2 (by omega) w2 (fun o ho => hq o (List.mem_cons_of_mem _ ho)) w3
    refine ⟨a :: as, t', ?_, by simp [e2], ?_, e4.trans g2⟩
    · unfold run
      rw [g1]
      simp only [e1, Res.bind_ok]
    · intro h
      rcases List.mem_cons.mp h with h | h
      · exact exec_not_threw (h ▸ g1)
      · exact e3 h

/-- C125 (partial), robin, direct layout.  After every history without `max_load_factor(x)`, `reserve(n)` with `n` at least `size()`
leaves a capacity of at least `2 * n`, and then all insertions, erasures and lookups that keep the number of elements at or below `n`
succeed without changing `capacity()`, even if the allocator refuses every request.  Missing, because the code violates it: other load
factors (`C125_reserve_load_factor`), and elements that do not fit (`Roomy`, C31, C33). -/
theorem C125_reserve_partial (hE : E.Lawful) {rv : Nat → Nat} (hrv : ∀ x, 256 ≤ rv x ∧ rv x ≤ 1024) {cs : List (Bool × Call K V)}
    {t : Map K V} (h : Reached E rv cs t) (hml : ∀ c ∈ cs, ∀ x, c.2 ≠ .maxLoad x) {n : Nat} (h0 : n ≠ 0)
    (hn : (contents E.eq cs).length ≤ n) (h48 : n ≤ 2 ^ 48) {mem : Bool} {t1 : Map K V} {a : Ans K V}
    (hx : exec false true E rv mem (.reserve n) t = .ok t1 a) :
    2 * n ≤ slotCap t1 ∧ ∀ ops : List (Bool × Call K V), (∀ op ∈ ops, Modest op.2) → Roomy E (contents E.eq cs) →
      Within E n (contents E.eq cs) ops →
      ∃ as t2, run false true E rv ops t1 = .ok (as, t2) ∧ as.length = ops.length ∧ Ans.threw ∉ as ∧ slotCap t2 = slotCap t1 := by
  have hstd := h.std hml
  obtain ⟨hR, hm⟩ := h.reach hE hrv
  have hs := exec_ok hE hR hm hrv mem (c := .reserve n) h0
  rw [hx] at hs
  obtain ⟨hR1, _, hm1⟩ := hs
  have hstd1 := exec_std hstd (fun x => by nofun) hx
  obtain ⟨s, u, g1, g2⟩ := out_bind_ok hx
  cases g2
  unfold rehash at g1
  rw [if_neg (by decide), hstd.minRequire h48] at g1
  have hsz : t.size = (contents E.eq cs).length := by rw [hR.size, hm.length_eq]
  rw [Nat.max_eq_left (by omega)] at g1
  obtain ⟨cap, hc, hor⟩ := rehashImpl_fr g1
  obtain ⟨j, hj, rfl, h5, _⟩ := calcCapacity_ok hc
  have h4 := pow_two_le hj
  obtain ⟨c', hl⟩ : ∃ c', Live E t1 c' := by
    rcases hR1.st with ⟨x, y, rfl⟩ | h
    · rcases hor with ⟨_, rfl, _, hcap⟩ | ⟨hmask, _⟩
      · have : 2 ^ j = 0 := hcap rfl
        omega
      · have : 0 = 2 ^ j - 1 := hmask
        omega
    · exact h
  have hmk := hl.mask
  have hcge := hl.toShape.c_ge
  have hcap : slotCap t1 = 2 ^ j := by
    rcases hor with ⟨_, rfl, _, hcap⟩ | ⟨hmask, _⟩
    · exact (hcap rfl).symm
    · rw [hl.toShape.slotCap]; omega
  refine ⟨by omega, fun ops hq hroom hw => ?_⟩
  refine run_room hE hrv ops t1 _ hR1 hl.alloc hm1 ?_ hroom hq hw
  have := hstd1.thr
  rw [hl.toShape.slotCap] at hcap
  omega

/-- A history that ends without an exception in a state with the property `p`. -/
theorem reached_if {E : Env Nat} {rv : Nat → Nat} {n : Nat} {cs : List (Bool × Call Nat Nat)} {p : Map Nat Nat → Bool}
    (hv : (cs.all fun c => validB c.2) = true)
    (h : (match (make false true n : Out (Map Nat Nat) Unit) with
      | .ok t0 _ => match run false true E rv cs t0 with
        | .ok (as, t) => p t && !as.contains .threw
        | _ => false
      | _ => false) = true) : ∃ t, Reached E rv cs t ∧ p t = true := by
  split at h
  · rename_i t0 u h0
    split at h
    · rename_i as t hr
      simp only [Bool.and_eq_true, Bool.not_eq_true'] at h
      refine ⟨t, ⟨fun c hc => valid_of_validB (List.all_eq_true.mp hv c hc), n, true, t0, as, h0, hr, fun h5 => ?_⟩, h.1⟩
      have := List.mem_of_getLast? h5
      rw [← List.contains_iff_mem, h.2] at this
      cases this
    · cases h
  · cases h

/-- Three elements, `reserve(5)`, then two insertions that may not allocate. -/
example : ∃ t t1 a, Reached idEnv (fun _ => 512) ((ins 3).map fun c => (true, c)) t ∧
    (∀ c ∈ (ins 3).map fun c => (true, c), ∀ x, c.2 ≠ .maxLoad x) ∧ (contents idEnv.eq ((ins 3).map fun c => (true, c))).length ≤ 5 ∧
    exec false true idEnv (fun _ => 512) true (.reserve 5) t = .ok t1 a ∧ slotCap t = 8 ∧ slotCap t1 = 16 ∧
    Roomy idEnv (contents idEnv.eq ((ins 3).map fun c => (true, c))) ∧
    (∀ op ∈ [(false, (.insert 3 3 : Call Nat Nat)), (false, .index 4 4), (false, .erase 1)], Modest op.2) ∧
    Within idEnv 5 (contents idEnv.eq ((ins 3).map fun c => (true, c))) [(false, .insert 3 3), (false, .index 4 4), (false, .erase 1)] := by
  obtain ⟨t, h1, h2⟩ := reached_if (E := idEnv) (rv := fun _ => 512) (n := 0) (cs := (ins 3).map fun c => (true, c))
    (p := fun t => slotCap t == 8 && match exec false true idEnv (fun _ => 512) true (.reserve 5) t with
      | .ok t1 _ => slotCap t1 == 16
      | _ => false) (by decide) (by decide +kernel)
  simp only [Bool.and_eq_true, beq_iff_eq] at h2
  obtain ⟨h2, h3⟩ := h2
  cases hx : exec false true idEnv (fun _ => 512) true (.reserve 5) t with
  | ok t1 a =>
    rw [hx] at h3
    refine ⟨t, t1, a, h1, ?_, by decide, hx, h2, by simpa using h3, roomy_five (by decide), ?_, by decide, roomy_five (by decide), by decide, roomy_five (by decide), by decide,
      roomy_five (by decide), trivial⟩
    · intro c hc x
      simp only [List.mem_map] at hc
      obtain ⟨c', hc', rfl⟩ := hc
      simp only [ins, List.range, List.range.loop, List.map, List.mem_cons, List.not_mem_nil, or_false] at hc'
      rcases hc' with rfl | rfl | rfl <;> exact nofun
    · intro op hop
      simp only [List.mem_cons, List.not_mem_nil, or_false] at hop
      rcases hop with rfl | rfl | rfl <;> trivial
  | throw s => rw [hx] at h3; cases h3
  | diverge => rw [hx] at h3; cases h3
  | ub => rw [hx] at h3; cases h3

/-- Deviation from C125: with `max_load_factor(0.3f)` (the integers are 77 and 854, `F32.robinArg_03`) `reserve(5)` leaves sixteen
positions and a threshold of four; the fifth insertion moves everything to thirty-two, or throws if there is no memory. -/
theorem C125_reserve_load_factor :
    (∃ t1 s, Reached idEnv F32.robinRecip ([(true, .maxLoad (F32.nameOf 77 854)), (true, .reserve 5)] ++ (ins 4).map fun c => (false, c)) t1 ∧
      slotCap t1 = 16 ∧ exec false true idEnv F32.robinRecip false (.insert 4 4) t1 = .throw s) ∧
    ∃ t2, Reached idEnv F32.robinRecip ([(true, .maxLoad (F32.nameOf 77 854)), (true, .reserve 5)] ++ (ins 5).map fun c => (true, c)) t2 ∧
      slotCap t2 = 32 ∧ t2.size = 5 := by
  constructor
  · obtain ⟨t, h1, h2⟩ := reached_if (E := idEnv) (rv := F32.robinRecip) (n := 0)
      (cs := [(true, .maxLoad (F32.nameOf 77 854)), (true, .reserve 5)] ++ (ins 4).map fun c => (false, c))
      (p := fun t => slotCap t == 16 && match exec false true idEnv F32.robinRecip false (.insert 4 4) t with
        | .throw _ => true
        | _ => false) (by decide) (by decide +kernel)
    simp only [Bool.and_eq_true, beq_iff_eq] at h2
    obtain ⟨h2, h3⟩ := h2
    cases hx : exec false true idEnv F32.robinRecip false (.insert 4 4) t with
    | throw s => exact ⟨t, s, h1, h2, hx⟩
    | ok t1 a => rw [hx] at h3; cases h3
    | diverge => rw [hx] at h3; cases h3
    | ub => rw [hx] at h3; cases h3
  · obtain ⟨t, h1, h2⟩ := reached_if (E := idEnv) (rv := F32.robinRecip) (n := 0)
      (cs := [(true, .maxLoad (F32.nameOf 77 854)), (true, .reserve 5)] ++ (ins 5).map fun c => (true, c))
      (p := fun t => slotCap t == 32 && t.size == 5) (by decide) (by decide +kernel)
    simp only [Bool.and_eq_true, beq_iff_eq] at h2
    exact ⟨t, h1, h2.1, h2.2⟩

end Verif.Robin

namespace Verif.RobInd
open Spec (Call Ans Distinct)
open Robin (Fits Roomy next after absent_symm contents pow_two_le pow_even ins res_bind_ok out_bind_ok Modest)

variable {K V : Type} {E : Env K} {chk : Bool}

/-- Default load factor, with the threshold that belongs to it. -/
structure Std (t : Map K V) : Prop where
  mlf : t.mlf = 128
  rev : t.rev = 512
  thr : t.mask = 0 ∧ t.thr = 0 ∨ 2 * t.thr = t.mask + 1

theorem Std.minRequire {t : Map K V} (h : Std t) {n : Nat} (hn : n ≤ 2 ^ 48) : minRequire t n = 2 * n := by
  unfold RobInd.minRequire
  rw [h.rev, Nat.mod_eq_of_lt (by unfold W; omega)]
  omega

theorem Std.rehash {t t' : Map K V} {u : Unit} (h : Std t) {n : Nat} {mem : Bool}
    (hx : rehashImpl chk E true false mem n t = .ok t' u) : Std t' := by
  obtain ⟨cap, hc, ⟨_, rfl, _⟩ | ⟨h1, h2, h3, h4⟩⟩ := rehashImpl_fr hx
  · exact h
  · obtain ⟨j, hj, rfl, h5, _⟩ := Robin.calcCapacity_ok hc
    have := pow_two_le hj
    have := pow_even hj
    rw [h.mlf] at h2
    exact ⟨h3.trans h.mlf, h4.trans h.rev, by omega⟩

theorem Std.fr {t t' : Map K V} (h : Std t) (hf : Fr t t') : Std t' :=
  ⟨hf.mlf.trans h.mlf, hf.rev.trans h.rev, by rw [hf.thr, hf.mask]; exact h.thr⟩

theorem Std.grew {t t' : Map K V} (h : Std t) (hg : Grew t t') : Std t' := by
  obtain ⟨h1, h2, h3, h4, h5⟩ := hg
  rw [h.mlf] at h2
  exact ⟨h3.trans h.mlf, h4.trans h.rev, by omega⟩

/-- All calls but `max_load_factor(x)` keep the load factor and the threshold in step. -/
theorem exec_std {t : Map K V} (hh : Std t) {rv : Nat → Nat} {mem : Bool} {c : Call K V} (hc : ∀ x, c ≠ .maxLoad x)
    {t' : Map K V} {a : Ans K V} (hx : exec true E rv mem c t = .ok t' a) : Std t' := by
  have hput : ∀ (update : Bool) (k : K) (v : V) (i : Nat) (b : Bool), emplace true E update mem k v t = .ok t' (i, b) →
      Std t' := by
    intro update k v i b he
    rcases emplaceLoop_fr update mem k v _ t he with ⟨_, h2, _⟩ | ⟨_, h2, _⟩ | h2
    · exact hh.fr h2
    · exact hh.fr h2
    · exact hh.grew h2
  have hlift : ∀ {α : Type} {r : Res α} {f : α → Ans K V}, lift r (fun x => Out.ok t (f x)) = .ok t' a → Std t' := by
    intro α r f h
    obtain ⟨x, _, h⟩ := lift_ok h
    cases h; exact hh
  cases c with
  | insert k v =>
    obtain ⟨s, ⟨i, b⟩, h1, h2⟩ := out_bind_ok hx
    have : s = t' := by
      unfold readElem at h2
      cases hq : s.slot i with
      | none => simp only [hq] at h2; cases h2
      | some e => simp only [hq] at h2; cases h2; rfl
    subst this
    exact hput _ _ _ _ _ h1
  | assign k v =>
    obtain ⟨s, ⟨i, b⟩, h1, h2⟩ := out_bind_ok hx
    have : s = t' := by
      unfold readElem at h2
      cases hq : s.slot i with
      | none => simp only [hq] at h2; cases h2
      | some e => simp only [hq] at h2; cases h2; rfl
    subst this
    exact hput _ _ _ _ _ h1
  | index k v =>
    obtain ⟨s, ⟨i, b⟩, h1, h2⟩ := out_bind_ok hx
    have : s = t' := by
      unfold readValue at h2
      cases hq : s.slot i with
      | none => simp only [hq] at h2; cases h2
      | some e => simp only [hq] at h2; cases h2; rfl
    subst this
    exact hput _ _ _ _ _ h1
  | find k => exact hlift hx
  | contains k => exact hlift hx
  | count k => exact hlift hx
  | «at» k => exact hlift hx
  | iterate => exact hlift hx
  | size => cases hx; exact hh
  | empty => cases hx; exact hh
  | erase k =>
    obtain ⟨s, n, h1, h2⟩ := out_bind_ok hx
    cases h2
    exact hh.fr (eraseKey_fr h1)
  | clear d =>
    obtain ⟨s, u, h1, h2⟩ := out_bind_ok hx
    cases h2
    unfold clear at h1
    split at h1
    · cases h1
      exact ⟨hh.mlf, hh.rev, Or.inl ⟨rfl, rfl⟩⟩
    · unfold clearData at h1
      split at h1
      · cases h1
        exact ⟨hh.mlf, hh.rev, hh.thr⟩
      · cases h1
  | reserve n =>
    obtain ⟨s, u, h1, h2⟩ := out_bind_ok hx
    cases h2
    exact hh.rehash h1
  | rehash n =>
    obtain ⟨s, u, h1, h2⟩ := out_bind_ok hx
    cases h2
    exact hh.rehash h1
  | shrink ro =>
    obtain ⟨s, u, h1, h2⟩ := out_bind_ok hx
    cases h2
    exact hh.rehash h1
  | maxLoad x => exact absurd rfl (hc x)

theorem run_std {rv : Nat → Nat} : ∀ (cs : List (Bool × Call K V)) (t : Map K V), Std t → (∀ c ∈ cs, ∀ x, c.2 ≠ .maxLoad x) →
    ∀ {as t'}, run true E rv cs t = .ok (as, t') → as.getLast? ≠ some .threw → Std t' := by
  intro cs
  induction cs with
  | nil => intro t hh _ as t' h _; cases h; exact hh
  | cons c cs ih =>
    intro t hh ht as t' h hl
    obtain ⟨mem, c⟩ := c
    unfold run at h
    cases hx : exec true E rv mem c t with
    | ub => rw [hx] at h; cases h
    | diverge => rw [hx] at h; cases h
    | throw s => rw [hx] at h; cases h; exact absurd rfl hl
    | ok s a =>
      rw [hx] at h
      obtain ⟨⟨as1, t1⟩, h1, h2⟩ := res_bind_ok h
      cases h2
      refine ih s (exec_std hh (ht _ (List.mem_cons_self ..)) hx) (fun c' hc' => ht c' (List.mem_cons_of_mem _ hc')) h1 fun hl2 => hl ?_
      show (a :: as1).getLast? = _
      rw [List.getLast?_cons, hl2]
      rfl

theorem make_std {mem : Bool} {n : Nat} {t : Map K V} (h : (make mem n : Out (Map K V) Unit) = .ok t ()) : Std t :=
  have hh := make_half h
  ⟨hh.mlf, hh.rev, hh.thr⟩

theorem Reached.std {rv : Nat → Nat} {cs : List (Bool × Call K V)} {t : Map K V} (h : Reached E rv cs t)
    (ht : ∀ c ∈ cs, ∀ x, c.2 ≠ .maxLoad x) : Std t := by
  obtain ⟨hv, n, mem, t0, as, h0, h1, h2⟩ := h
  exact run_std cs t0 (make_std h0) ht h1 h2

/-- After every call of `ops` the ideal map that starts with `m` has at most `n` elements, and they fit. -/
def Within (E : Env K) (n : Nat) : Spec.Map K V → List (Bool × Call K V) → Prop
  | _, [] => True
  | m, (_, c) :: cs => (next E.eq m c).length ≤ n ∧ Room E (next E.eq m c) ∧ Within E n (next E.eq m c) cs

/-- Insertion below the threshold, or of a key that is there: nothing is allocated and the block stays. -/
theorem emplace_room (hE : E.Lawful) {t : Map K V} {c : Nat} (h : Live E t c) {k : K} {v : V} {update mem : Bool}
    (hroom : Room E (entries t)) (hk : (∀ x ∈ entries t, E.eq x.1 k = false) → t.size < t.thr ∧ Room E ((k, v) :: entries t)) :
    ∃ t' r, emplace true E update mem k v t = .ok t' r ∧ slotCap t' = slotCap t ∧ t'.thr = t.thr := by
  obtain ⟨j, hj, _, rfl⟩ := h.pow
  have hsz := h.size_eq
  have hlen : (entries t).length ≤ 2 ^ j := by rw [← hsz]; exact h.size_le
  unfold emplace
  generalize hF : (64 : Nat) = F
  obtain ⟨f, rfl⟩ : ∃ f, F = f + 1 := ⟨F - 1, by omega⟩
  rw [emplaceLoop_succ]
  unfold findOrInsert
  have hp := probe_spec hE h.toGood k
  cases hpr : probe true E t k with
  | diverge => rw [hpr] at hp; exact hp.elim
  | ub =>
    rw [hpr] at hp
    exact (((hroom.1 j hj hlen).perm (h.toGood.entries_perm hE).symm).not_crowded h.abs (h.toShape.hm_lt k) hp.1).elim
  | ok q =>
    rw [hpr] at hp
    cases q with
    | hit i =>
      obtain ⟨hi, hd, e, he, heq⟩ := hp
      simp only [lift, Out.bind_ok, emplaceTail, he]
      refine ⟨_, _, rfl, ?_, ?_⟩ <;> split <;> rfl
    | stop i d =>
      obtain ⟨hs, hps⟩ := hp
      have hk1 : ∀ x ∈ entries t, E.eq x.1 k = false := fun x hx =>
        Robin.absent_of_stop hE h.abs hs hps x ((h.toGood.entries_perm hE).mem_iff.mpr hx)
      have hneg : decide (d.dist < 0) = false := by
        apply decide_eq_false
        have := hs.d_eq
        injection this with h1 _
        have := hs.ge
        omega
      obtain ⟨hlt, hfit⟩ := hk hk1
      simp only [lift, hneg, Bool.or_false, decide_eq_true_eq]
      rw [if_neg (by omega)]
      have hfs := finish_spec hE h.toGood hs hk1 update mem v f
      have hst := h.toGood.not_stuck hE (hfit.1 j hj (by rw [List.length_cons, ← hsz]; have := h.thr_le; omega))
      have hsm : ¬ 2 ^ 32 ≤ t.size := by
        have := hfit.2
        rw [List.length_cons, ← hsz] at this
        omega
      cases hq : ((finish true E k t i d).bind fun t' r => emplaceTail E update mem k v f t' r) with
      | ok t' r =>
        obtain ⟨i', b⟩ := r
        rw [hq] at hfs
        refine ⟨t', _, rfl, ?_⟩
        generalize hR : (Out.ok t' (i', b) : Out (Map K V) (Nat × Bool)) = R at hfs
        cases hfs with
        | added t'' ha => cases hR; exact ⟨by rw [ha.good.toShape.slotCap, h.toShape.slotCap], ha.thr⟩
        | ub hst' => exact (hst'.elim hst hsm).elim
        | grow w hst' => exact (hst hst').elim
      | throw t' =>
        rw [hq] at hfs
        generalize hR : (Out.throw t' : Out (Map K V) (Nat × Bool)) = R at hfs
        cases hfs with
        | added t'' ha => cases hR
        | ub hst' => exact (hst'.elim hst hsm).elim
        | grow w hst' => exact (hst hst').elim
      | ub =>
        rw [hq] at hfs
        generalize hR : (Out.ub : Out (Map K V) (Nat × Bool)) = R at hfs
        cases hfs with
        | added t'' ha => cases hR
        | ub hst' => exact (hst'.elim hst hsm).elim
        | grow w hst' => exact (hst hst').elim
      | diverge =>
        rw [hq] at hfs
        generalize hR : (Out.diverge : Out (Map K V) (Nat × Bool)) = R at hfs
        cases hfs with
        | added t'' ha => cases hR
        | ub hst' => cases hR
        | grow w hst' => exact (hst hst').elim

/-- One call that leaves at most `n` elements in a map whose threshold is at least `n`. -/
theorem exec_room (hE : E.Lawful) {t : Map K V} (hR : Reach E t) (hst : t.alloc = true) {m : Spec.Map K V} (hm : (entries t).Perm m)
    {rv : Nat → Nat} (hrv : ∀ x, 256 ≤ rv x ∧ rv x ≤ 1024) {mem : Bool} {c : Call K V} (hq : Modest c) {n : Nat} (hn : n ≤ t.thr)
    (hroom : Room E m) (hlen : (next E.eq m c).length ≤ n) (hnext : Room E (next E.eq m c)) :
    ∃ t' a, exec true E rv mem c t = .ok t' a ∧ slotCap t' = slotCap t ∧ t'.thr = t.thr ∧ t'.alloc = true := by
  have hv : Robin.Valid c := by cases c <;> first | exact hq.elim | trivial
  have hs := exec_ok hE hR hm hrv mem hv
  obtain ⟨c', hl⟩ : ∃ c', Live E t c' := by
    rcases hR.st with ⟨a, b, rfl⟩ | h
    · cases hst
    · exact h
  have hnf : ¬ Fresh t := by rintro ⟨a, b, rfl⟩; cases hst
  have hsz : t.size = m.length := by rw [hR.size, hm.length_eq]
  have hput : ∀ (update : Bool) (k : K) (v : V), (after E.eq update m k v).length ≤ n → Room E (after E.eq update m k v) →
      ∃ t' r, emplace true E update mem k v t = .ok t' r ∧ slotCap t' = slotCap t ∧ t'.thr = t.thr := by
    intro update k v h1 h2
    refine emplace_room hE hl (hroom.perm hm.symm) fun hk => ?_
    have hg : Spec.get E.eq m k = none := Spec.get_none_iff.mpr fun e he => absent_symm hE (hk e (hm.mem_iff.mpr he))
    have haft : after E.eq update m k v = (k, v) :: m := by
      unfold after
      cases update
      · exact Spec.insert_absent hg v
      · simp [Spec.assign, hg]
    rw [haft] at h1 h2
    rw [List.length_cons] at h1
    exact ⟨by omega, h2.perm (List.Perm.cons _ hm.symm)⟩
  have halloc : ∀ t' a, exec true E rv mem c t = .ok t' a → slotCap t' = slotCap t → t'.alloc = true := by
    intro t' a hx hc
    rw [hx] at hs
    rcases hs.1.st with ⟨x, y, rfl⟩ | ⟨d, hd⟩
    · have h0 : slotCap t = 0 := hc.symm
      rw [hl.toShape.slotCap] at h0
      have := hl.toShape.c_ge
      omega
    · exact hd.alloc
  have hfin : ∀ t' a, exec true E rv mem c t = .ok t' a → slotCap t' = slotCap t → t'.thr = t.thr →
      ∃ t' a, exec true E rv mem c t = .ok t' a ∧ slotCap t' = slotCap t ∧ t'.thr = t.thr ∧ t'.alloc = true :=
    fun t' a h1 h2 h3 => ⟨t', a, h1, h2, h3, halloc t' a h1 h2⟩
  have hdef : ∃ t' a, exec true E rv mem c t = .ok t' a ∨ exec true E rv mem c t = .throw t' := by
    cases hx : exec true E rv mem c t with
    | ok t' a => exact ⟨t', a, Or.inl rfl⟩
    | throw t' => exact ⟨t', .unit, Or.inr rfl⟩
    | diverge => rw [hx] at hs; exact hs.elim
    | ub =>
      rw [hx] at hs
      rcases hs with hs | hs | ⟨hs, _⟩ | ⟨_, k, rfl, _⟩
      · exact (hs hroom).elim
      · exact (hs hnext).elim
      · exact (hnf hs).elim
      · exact hq.elim
  have hins : ∀ (update : Bool) (k : K) (v : V), (after E.eq update m k v).length ≤ n → Room E (after E.eq update m k v) →
      (∀ (f : Map K V → Nat × Bool → Out (Map K V) (Ans K V)), exec true E rv mem c t =
        (emplace true E update mem k v t).bind f → (∀ s r s', f s r ≠ .throw s') → (∀ s r s' a, f s r = .ok s' a → s' = s) →
      ∃ t' a, exec true E rv mem c t = .ok t' a ∧ slotCap t' = slotCap t ∧ t'.thr = t.thr ∧ t'.alloc = true) := by
    intro update k v h1 h2 f hf hth hid
    obtain ⟨t', r, g1, g2, g3⟩ := hput update k v h1 h2
    rw [g1, Out.bind_ok] at hf
    obtain ⟨t2, a, g4 | g4⟩ := hdef
    · have : t2 = t' := hid _ _ _ _ (hf ▸ g4)
      subst this
      exact hfin _ _ g4 g2 g3
    · exact (hth _ _ _ (hf ▸ g4)).elim
  have hre : ∀ (s : Map K V) (r : Nat × Bool), (∀ s', readElem s r ≠ .throw s') ∧ ∀ s' a, readElem s r = .ok s' a → s' = s := by
    intro s r
    unfold readElem
    split
    · exact ⟨nofun, nofun⟩
    · exact ⟨nofun, fun s' a h => by cases h; rfl⟩
  have hrv' : ∀ (s : Map K V) (r : Nat × Bool), (∀ s', readValue s r ≠ .throw s') ∧ ∀ s' a, readValue s r = .ok s' a → s' = s := by
    intro s r
    unfold readValue
    split
    · exact ⟨nofun, nofun⟩
    · exact ⟨nofun, fun s' a h => by cases h; rfl⟩
  have hnothrow : c.allocates = false → ∃ t' a, exec true E rv mem c t = .ok t' a := by
    intro hc
    obtain ⟨t2, a, g4 | g4⟩ := hdef
    · exact ⟨t2, a, g4⟩
    · rw [g4] at hs
      rw [show c.allocates = true from hs] at hc
      cases hc
  have hlift : ∀ {α : Type} {r : Res α} {f : α → Ans K V}, exec true E rv mem c t = lift r (fun x => Out.ok t (f x)) →
      c.allocates = false → ∃ t' a, exec true E rv mem c t = .ok t' a ∧ slotCap t' = slotCap t ∧ t'.thr = t.thr ∧ t'.alloc = true := by
    intro α r f hf hc
    obtain ⟨t2, a, g⟩ := hnothrow hc
    rw [hf] at g
    obtain ⟨x, _, g'⟩ := lift_ok g
    cases g'
    exact ⟨t, _, by rw [hf]; exact g, rfl, rfl, hst⟩
  cases c with
  | insert k v => exact hins false k v hlen hnext _ rfl (fun s r => (hre s r).1) (fun s r => (hre s r).2)
  | assign k v => exact hins true k v hlen hnext _ rfl (fun s r => (hre s r).1) (fun s r => (hre s r).2)
  | index k v => exact hins false k v hlen hnext _ rfl (fun s r => (hrv' s r).1) (fun s r => (hrv' s r).2)
  | contains k => exact hlift rfl rfl
  | count k => exact hlift rfl rfl
  | «at» k => exact hlift rfl rfl
  | iterate => exact hlift rfl rfl
  | size => exact ⟨t, _, rfl, rfl, rfl, hst⟩
  | empty => exact ⟨t, _, rfl, rfl, rfl, hst⟩
  | erase k =>
    obtain ⟨t2, a, g⟩ := hnothrow rfl
    obtain ⟨s, x, h1, h2⟩ := out_bind_ok g
    cases h2
    have h3 := eraseKey_fr h1
    refine hfin _ _ g ?_ h3.thr
    have h4 := g ▸ hs
    rcases h4.1.st with ⟨x, y, rfl⟩ | ⟨d, hd⟩
    · have := hl.mask
      have := hl.toShape.c_ge
      have : (0 : Nat) = t.mask := h3.mask
      omega
    · rw [hd.toShape.slotCap, hl.toShape.slotCap]
      have h5 := h3.mask
      have := hd.mask
      have := hl.mask
      have := hd.toShape.c_ge
      have := hl.toShape.c_ge
      omega
  | find k => exact hq.elim
  | clear d => exact hq.elim
  | reserve n => exact hq.elim
  | rehash n => exact hq.elim
  | shrink ro => exact hq.elim
  | maxLoad x => exact hq.elim

theorem run_room (hE : E.Lawful) {rv : Nat → Nat} (hrv : ∀ x, 256 ≤ rv x ∧ rv x ≤ 1024) {n : Nat} :
    ∀ (ops : List (Bool × Call K V)) (t : Map K V) (m : Spec.Map K V), Reach E t → t.alloc = true → (entries t).Perm m → n ≤ t.thr →
      Room E m → (∀ op ∈ ops, Modest op.2) → Within E n m ops →
      ∃ as t', run true E rv ops t = .ok (as, t') ∧ as.length = ops.length ∧ Ans.threw ∉ as ∧ slotCap t' = slotCap t := by
  intro ops
  induction ops with
  | nil => intro t m _ _ _ _ _ _ _; exact ⟨[], t, rfl, rfl, nofun, rfl⟩
  | cons op ops ih =>
    intro t m hR hst hm hn hroom hq hw
    obtain ⟨mem, c⟩ := op
    obtain ⟨w1, w2, w3⟩ := hw
    obtain ⟨t1, a, g1, g2, g3, g4⟩ := exec_room hE hR hst hm hrv (mem := mem) (hq _ (List.mem_cons_self ..)) hn hroom w1 w2
    have hs := exec_ok hE hR hm hrv mem (c := c) (by
      have := hq _ (List.mem_cons_self ..)
      cases c <;> first | exact this.elim | trivial)
    rw [g1] at hs
    obtain ⟨as, t', e1, e2, e3, e4⟩ := ih t1 _ hs.1 g4 hs.2.2.1 (by omega) w2 (fun o ho => hq o (List.mem_cons_of_mem _ ho)) w3
    refine ⟨a :: as, t', ?_, by simp [e2], ?_, e4.trans g2⟩
    · unfold run
      rw [g1]
      simp only [e1, Res.bind_ok]
    · intro h
      rcases List.mem_cons.mp h with h | h
      · exact exec_not_threw (h ▸ g1)
      · exact e3 h

/-- C125 (partial), robin, indirect layout.  After every history without `max_load_factor(x)`, `reserve(n)` with `n` at least `size()`
leaves a capacity of at least `2 * n`, and then all insertions, erasures and lookups that keep the number of elements at or below `n`
succeed without changing `capacity()`, even if the allocator refuses every request.  Missing, because the code violates it: other load
factors (`C125_reserve_load_factor`), and elements that do not fit (`Room`, C99). -/
theorem C125_reserve_partial (hE : E.Lawful) {rv : Nat → Nat} (hrv : ∀ x, 256 ≤ rv x ∧ rv x ≤ 1024) {cs : List (Bool × Call K V)}
    {t : Map K V} (h : Reached E rv cs t) (hml : ∀ c ∈ cs, ∀ x, c.2 ≠ .maxLoad x) {n : Nat} (h0 : n ≠ 0)
    (hn : (contents E.eq cs).length ≤ n) (h48 : n ≤ 2 ^ 48) {mem : Bool} {t1 : Map K V} {a : Ans K V}
    (hx : exec true E rv mem (.reserve n) t = .ok t1 a) :
    2 * n ≤ slotCap t1 ∧ ∀ ops : List (Bool × Call K V), (∀ op ∈ ops, Modest op.2) → Room E (contents E.eq cs) →
      Within E n (contents E.eq cs) ops →
      ∃ as t2, run true E rv ops t1 = .ok (as, t2) ∧ as.length = ops.length ∧ Ans.threw ∉ as ∧ slotCap t2 = slotCap t1 := by
  have hstd := h.std hml
  obtain ⟨hR, hm, _⟩ := h.reach hE hrv
  have hs := exec_ok hE hR hm hrv mem (c := .reserve n) h0
  rw [hx] at hs
  obtain ⟨hR1, _, hm1, _⟩ := hs
  have hstd1 := exec_std hstd (fun x => by nofun) hx
  obtain ⟨s, u, g1, g2⟩ := out_bind_ok hx
  cases g2
  unfold rehash at g1
  rw [if_neg (by decide), hstd.minRequire h48] at g1
  have hsz : t.size = (contents E.eq cs).length := by rw [hR.size, hm.length_eq]
  rw [Nat.max_eq_left (by omega)] at g1
  obtain ⟨cap, hc, hor⟩ := rehashImpl_fr g1
  obtain ⟨j, hj, rfl, h5, _⟩ := Robin.calcCapacity_ok hc
  have h4 := pow_two_le hj
  obtain ⟨c', hl⟩ : ∃ c', Live E t1 c' := by
    rcases hR1.st with ⟨x, y, rfl⟩ | h
    · rcases hor with ⟨_, rfl, _, hcap⟩ | ⟨hmask, _⟩
      · have : 2 ^ j = 0 := hcap rfl
        omega
      · have : 0 = 2 ^ j - 1 := hmask
        omega
    · exact h
  have hmk := hl.mask
  have hcge := hl.toShape.c_ge
  have hcap : slotCap t1 = 2 ^ j := by
    rcases hor with ⟨_, rfl, _, hcap⟩ | ⟨hmask, _⟩
    · exact (hcap rfl).symm
    · rw [hl.toShape.slotCap]; omega
  refine ⟨by omega, fun ops hq hroom hw => ?_⟩
  refine run_room hE hrv ops t1 _ hR1 hl.alloc hm1 ?_ hroom hq hw
  have := hstd1.thr
  rw [hl.toShape.slotCap] at hcap
  omega

/-- A history that ends without an exception in a state with the property `p`. -/
theorem reached_if {E : Env Nat} {rv : Nat → Nat} {n : Nat} {cs : List (Bool × Call Nat Nat)} {p : Map Nat Nat → Bool}
    (hv : (cs.all fun c => Robin.validB c.2) = true)
    (h : (match (make true n : Out (Map Nat Nat) Unit) with
      | .ok t0 _ => match run true E rv cs t0 with
        | .ok (as, t) => p t && !as.contains .threw
        | _ => false
      | _ => false) = true) : ∃ t, Reached E rv cs t ∧ p t = true := by
  split at h
  · rename_i t0 u h0
    split at h
    · rename_i as t hr
      simp only [Bool.and_eq_true, Bool.not_eq_true'] at h
      refine ⟨t, ⟨fun c hc => Robin.valid_of_validB (List.all_eq_true.mp hv c hc), n, true, t0, as, h0, hr, fun h5 => ?_⟩, h.1⟩
      have := List.mem_of_getLast? h5
      rw [← List.contains_iff_mem, h.2] at this
      cases this
    · cases h
  · cases h

/-- Three elements, `reserve(5)`, then two insertions that may not allocate. -/
example : ∃ t t1 a, Reached idEnv (fun _ => 512) ((ins 3).map fun c => (true, c)) t ∧
    (∀ c ∈ (ins 3).map fun c => (true, c), ∀ x, c.2 ≠ .maxLoad x) ∧ (contents idEnv.eq ((ins 3).map fun c => (true, c))).length ≤ 5 ∧
    exec true idEnv (fun _ => 512) true (.reserve 5) t = .ok t1 a ∧ slotCap t = 8 ∧ slotCap t1 = 16 ∧
    Room idEnv (contents idEnv.eq ((ins 3).map fun c => (true, c))) ∧
    (∀ op ∈ [(false, (.insert 3 3 : Call Nat Nat)), (false, .index 4 4), (false, .erase 1)], Modest op.2) ∧
    Within idEnv 5 (contents idEnv.eq ((ins 3).map fun c => (true, c))) [(false, .insert 3 3), (false, .index 4 4), (false, .erase 1)] := by
  obtain ⟨t, h1, h2⟩ := reached_if (E := idEnv) (rv := fun _ => 512) (n := 0) (cs := (ins 3).map fun c => (true, c))
    (p := fun t => slotCap t == 8 && match exec true idEnv (fun _ => 512) true (.reserve 5) t with
      | .ok t1 _ => slotCap t1 == 16
      | _ => false) (by decide) (by decide +kernel)
  simp only [Bool.and_eq_true, beq_iff_eq] at h2
  obtain ⟨h2, h3⟩ := h2
  cases hx : exec true idEnv (fun _ => 512) true (.reserve 5) t with
  | ok t1 a =>
    rw [hx] at h3
    refine ⟨t, t1, a, h1, ?_, by decide, hx, h2, by simpa using h3, ⟨Robin.roomy_five (by decide), by decide⟩, ?_, by decide, ⟨Robin.roomy_five (by decide), by decide⟩, by decide, ⟨Robin.roomy_five (by decide), by decide⟩, by decide,
      ⟨Robin.roomy_five (by decide), by decide⟩, trivial⟩
    · intro c hc x
      simp only [List.mem_map] at hc
      obtain ⟨c', hc', rfl⟩ := hc
      simp only [ins, List.range, List.range.loop, List.map, List.mem_cons, List.not_mem_nil, or_false] at hc'
      rcases hc' with rfl | rfl | rfl <;> exact nofun
    · intro op hop
      simp only [List.mem_cons, List.not_mem_nil, or_false] at hop
      rcases hop with rfl | rfl | rfl <;> trivial
  | throw s => rw [hx] at h3; cases h3
  | diverge => rw [hx] at h3; cases h3
  | ub => rw [hx] at h3; cases h3

/-- Deviation from C125: with `max_load_factor(0.3f)` (the integers are 77 and 854, `F32.robinArg_03`) `reserve(5)` leaves sixteen
positions and a threshold of four; the fifth insertion moves everything to thirty-two, or throws if there is no memory. -/
theorem C125_reserve_load_factor :
    (∃ t1 s, Reached idEnv F32.robinRecip ([(true, .maxLoad (F32.nameOf 77 854)), (true, .reserve 5)] ++ (ins 4).map fun c => (false, c)) t1 ∧
      slotCap t1 = 16 ∧ exec true idEnv F32.robinRecip false (.insert 4 4) t1 = .throw s) ∧
    ∃ t2, Reached idEnv F32.robinRecip ([(true, .maxLoad (F32.nameOf 77 854)), (true, .reserve 5)] ++ (ins 5).map fun c => (true, c)) t2 ∧
      slotCap t2 = 32 ∧ t2.size = 5 := by
  constructor
  · obtain ⟨t, h1, h2⟩ := reached_if (E := idEnv) (rv := F32.robinRecip) (n := 0)
      (cs := [(true, .maxLoad (F32.nameOf 77 854)), (true, .reserve 5)] ++ (ins 4).map fun c => (false, c))
      (p := fun t => slotCap t == 16 && match exec true idEnv F32.robinRecip false (.insert 4 4) t with
        | .throw _ => true
        | _ => false) (by decide) (by decide +kernel)
    simp only [Bool.and_eq_true, beq_iff_eq] at h2
    obtain ⟨h2, h3⟩ := h2
    cases hx : exec true idEnv F32.robinRecip false (.insert 4 4) t with
    | throw s => exact ⟨t, s, h1, h2, hx⟩
    | ok t1 a => rw [hx] at h3; cases h3
    | diverge => rw [hx] at h3; cases h3
    | ub => rw [hx] at h3; cases h3
  · obtain ⟨t, h1, h2⟩ := reached_if (E := idEnv) (rv := F32.robinRecip) (n := 0)
      (cs := [(true, .maxLoad (F32.nameOf 77 854)), (true, .reserve 5)] ++ (ins 5).map fun c => (true, c))
      (p := fun t => slotCap t == 32 && t.size == 5) (by decide) (by decide +kernel)
    simp only [Bool.and_eq_true, beq_iff_eq] at h2
    exact ⟨t, h1, h2.1, h2.2⟩

end Verif.RobInd
