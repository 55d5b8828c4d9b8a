import Verif.FlatBugs
import Verif.FlatProps
import Verif.FlatIter
import Verif.LoadRun
/-
C125 for flat16: `reserve(n)` leaves room for `n` elements.

`reserve(n)` (FL:1271-1285) asks for `n * n_rev_mlf_ / 65536` slots and rebuilds the table when the capacity differs; `left_empties_`
is then the threshold minus `size()`.  With the default load factor and without tombstones at least `n - size()` insertions of new
keys follow without growth.  A table whose capacity already is the right one is kept as it is, with the tombstones it has.
-/

namespace Verif.F32

/-- The two numbers a flat16 or robin16 map stores for `0.3f`. -/
theorem flatArg_03 : flatArg (round 0.3) = .ok (19661, 218454) := by
  have h1 : round (10066330 / 2 ^ 25 * (65536 : Nat)) = .fin (10066330 / 2 ^ 25 * (65536 : Nat)) :=
    round_scaled (j := 16) rep_c03 (by norm_num) (by norm_num) (by norm_num) (by omega)
  have h2 : round (1 / (10066330 / 2 ^ 25)) = .fin (13981013 / 2 ^ 22) := by
    rw [round_eq (by norm_num) (by norm_num), roundQ_near (e := 1) (z := 13981013)] <;> norm_num
  have h3 : round (13981013 / 2 ^ 22 * (65536 : Nat)) = .fin (13981013 / 2 ^ 22 * (65536 : Nat)) :=
    round_scaled (j := 16) ⟨13981013, -22, by norm_num, by norm_num, by norm_num⟩ (by norm_num) (by norm_num) (by norm_num) (by omega)
  have h4 : clamp (.fin (13421773 / 2 ^ 26)) (.fin (13421773 / 2 ^ 24)) (.fin (10066330 / 2 ^ 25)) = .fin (10066330 / 2 ^ 25) := by
    norm_num [clamp, lt]
  unfold flatArg ceilArg
  rw [c03, c02, c08, h4, c1, ofNat_eq (by norm_num)]
  simp only [mul, div]
  rw [h1, if_neg (by norm_num), h2]
  simp only
  rw [h3]
  have h5 : ⌈(10066330 / 2 ^ 25 * (65536 : Nat) : ℚ)⌉ = 19661 := by rw [Int.ceil_eq_iff]; norm_num
  have h6 : ⌈(13981013 / 2 ^ 22 * (65536 : Nat) : ℚ)⌉ = 218454 := by rw [Int.ceil_eq_iff]; norm_num
  simp only [ceil, h5, h6, toUnsigned]
  norm_num [Res.bind]

end Verif.F32

namespace Verif.Flat
open Spec (Call Ans)
open Verif.Robin (hashEnv)

variable {K V : Type} {E : Env K} {sec : Nat → Nat}

/-- Without tombstones, with the default load factor and an exact `left_empties_`. -/
structure Tidy (E : Env K) (sec : Nat → Nat) (t : Map K V) : Prop where
  reach : Reach true E sec t
  exact : Exact t
  rev : t.rev = 131072

/-- The calls of the histories: those of C67, `reserve` and `rehash` with an argument of at least `size()`. -/
def Orderly (eq : K → K → Bool) (m : Spec.Map K V) : Call K V → Prop
  | .erase k => Spec.get eq m k = none ∨ m.length ≤ 14
  | .reserve n => n ≠ 0 ∧ m.length ≤ n ∧ n < 2 ^ 44
  | .rehash n => m.length ≤ n ∧ n < 2 ^ 44
  | .shrink ro => ro = false ∧ m.length < 2 ^ 44
  | .clear _ | .maxLoad _ | .at _ => False
  | _ => True

/-- A history of such calls; the conditions speak of the ideal map only.  No allocation of slots fails (allocations of control bytes
may), and after an exception the caller goes on. -/
def OrderlyAll (eq : K → K → Bool) : Spec.Map K V → List (Mem × Call K V) → Prop
  | _, [] => True
  | m, (mem, c) :: cs => mem ≠ .noSlots ∧ Orderly eq m c ∧ OrderlyAll eq (next eq m c) cs ∧ (c.allocates = true → OrderlyAll eq m cs)

theorem Orderly.plain {eq : K → K → Bool} {m : Spec.Map K V} {c : Call K V} (h : Orderly eq m c) : Plain eq m c := by
  cases c with
  | reserve n => exact ⟨h.1, Or.inr h.2⟩
  | rehash n => exact Or.inr h
  | shrink ro => exact ⟨h.2, fun h1 => by rw [h.1] at h1; cases h1⟩
  | _ => exact h

theorem Tidy.minRequire {t : Map K V} (h : Tidy E sec t) {n : Nat} (hn : n < 2 ^ 44) : minRequire t n = 2 * n := by
  unfold Flat.minRequire
  rw [h.rev, Nat.mod_eq_of_lt (by unfold W; omega)]
  omega

/-- A rebuilt table with the default load factor, at most half full. -/
theorem exact_of_moved {t t' : Map K V} {c : Nat} (hm : t.mlf = 32768) (h : Moved E sec t t' c) (hl : 2 * t'.size ≤ c) : Exact t' := by
  have h2 : t'.mlf = 32768 := h.mlf.trans hm
  refine ⟨?_, h2⟩
  have h3 := h.counted
  have h4 := thr_half h2 h.inv.cap_le
  have h5 := h.cap
  have h6 := h.clean
  have h7 := h.inv.left
  have h8 := h.inv.cap_le
  unfold Counted at h3
  rw [h4] at h3 ⊢
  have h10 : t'.left + occ t' < 2 * W := by unfold W at *; omega
  rcases Nat.lt_or_ge (t'.left + occ t') W with h11 | h11
  · rw [Nat.mod_eq_of_lt h11] at h3; exact h3
  · exfalso
    rw [Nat.mod_eq_sub_mod h11, Nat.mod_eq_of_lt (by omega)] at h3
    omega

/-- `reserve`, `rehash` and `shrink_to_fit()` with room for at least the elements. -/
theorem rehash_tidy (hE : E.Lawful) {t : Map K V} (h : Tidy E sec t) {n N : Nat} (hN : N = 2 * n) (hs : t.size ≤ n) (h44 : n < 2 ^ 44) {mem : Mem}
    (hmem : mem ≠ .noSlots) :
    match rehashImpl E sec true false mem N t with
    | .ok t' _ => Tidy E sec t' ∧ (entries t').Perm (entries t) ∧ 2 * n ≤ cap t'
    | .throw t' => Tidy E sec t' ∧ (entries t').Perm (entries t)
    | _ => False := by
  have hcap : ∀ c, calcCapacity N = .ok c → 2 * n ≤ c ∧ t.size < c := by
    intro c hc
    rw [calcCapacity_eq] at hc
    obtain ⟨j, hj, rfl, h1, _⟩ := Robin.calcCapacity_ok hc
    have := Robin.pow_two_le hj
    omega
  have hsp := rehashImpl_spec h.reach.toCore true false mem N fun c hc => (hcap c hc).2
  generalize rehashImpl E sec true false mem N t = o at hsp
  match o, hsp with
  | .ub, hs =>
    have hs' : calcCapacity N = .ub := hs
    rw [calcCapacity_eq] at hs'
    have := Robin.calcCapacity_ub hs'
    omega
  | .throw t', ⟨_, g2⟩ =>
    rcases g2 with rfl | g2
    · exact ⟨h, List.Perm.refl _⟩
    · exact absurd g2 hmem
  | .ok t' u, ⟨c, hc, g2⟩ =>
    obtain ⟨h1, h2⟩ := hcap c hc
    rcases g2 with ⟨_, g3⟩ | ⟨rfl, _, g3⟩
    · have hsz : t'.size = t.size := by rw [g3.inv.size, g3.perm.length_eq, ← h.reach.size]
      exact ⟨⟨⟨g3.toInv hE h.reach.distinct, by rw [g3.rev]; exact h.reach.rev_lo, by rw [g3.rev]; exact h.reach.rev_hi, fun _ => g3.dels⟩,
        exact_of_moved h.exact.2 g3 (by omega), g3.rev.trans h.rev⟩, g3.perm, by rw [g3.cap]; exact h1⟩
    · exact ⟨h, List.Perm.refl _, by rw [← g3 rfl]; exact h1⟩

theorem emplace_rev (hE : E.Lawful) {t : Map K V} (h : Inv E sec t) {update : Bool} {mem : Mem} (hmem : mem ≠ .noSlots) (k : K) (v : V) :
    match emplace E sec update mem true k v t with
    | .ok t' _ => t'.rev = t.rev
    | .throw t' => t'.rev = t.rev
    | _ => True := by
  have hs := emplace_spec hE h update mem true k v
  generalize emplace E sec update mem true k v t = o at hs
  match o, hs with
  | .ub, _ => trivial
  | .throw t', ⟨_, _, h3⟩ => exact (h3 hmem rfl).2.2.2.1
  | .ok t' (i, b), Or.inl hs => exact hs.2.2.2.2.2.2.2.2.1
  | .ok t' (i, b), Or.inr ⟨_, _, e, _, _, ht⟩ =>
    subst ht
    show (if update = true then _ else t : Map K V).rev = _
    split <;> rfl

theorem eraseKey_rev {t : Map K V} (h : Core E sec t) {k : K} {t' : Map K V} {n : Nat} (hx : eraseKey E sec k t = .ok t' n) :
    t'.rev = t.rev ∧ cap t' = cap t := by
  unfold eraseKey at hx
  obtain ⟨r, h1, h2⟩ := findIdx_core h k
  rw [h1] at hx
  cases r with
  | none => cases hx; exact ⟨rfl, rfl⟩
  | some i =>
    obtain ⟨hi, e, hs, heq⟩ := h2 i rfl
    simp only [lift] at hx
    rw [eraseSlot_eq h hi hs] at hx
    cases hx
    split <;> exact ⟨rfl, rfl⟩

/-- One call keeps the map tidy. -/
theorem tidy_step (hE : E.Lawful) {rv : Nat → Nat} (hrv : ∀ x, 81920 ≤ rv x ∧ rv x ≤ 327680) {t : Map K V} (h : Tidy E sec t)
    {m : Spec.Map K V} (hm : (entries t).Perm m) {mem : Mem} (hmem : mem ≠ .noSlots) {c : Call K V} (hc : Orderly E.eq m c) :
    match exec E sec rv mem c t with
    | .ok t' _ => Tidy E sec t' ∧ (entries t').Perm (next E.eq m c)
    | .throw t' => Tidy E sec t' ∧ (entries t').Perm m ∧ c.allocates = true
    | _ => False := by
  have hst := exec_ok hE h.reach hm hrv hmem (c := c) hc.plain.safe
  have hlen : t.size = m.length := by rw [h.reach.size, hm.length_eq]
  have hfill : Fill c → (match exec E sec rv mem c t with
      | .ok t' _ => t'.rev = t.rev
      | .throw t' => t'.rev = t.rev
      | _ => True) → (match exec E sec rv mem c t with
      | .ok t' _ => Tidy E sec t' ∧ (entries t').Perm (next E.eq m c)
      | .throw t' => Tidy E sec t' ∧ (entries t').Perm m ∧ c.allocates = true
      | _ => False) := by
    intro hf hr
    have hx := fill_step (rv := rv) hmem hf h.reach.weak h.exact
    generalize exec E sec rv mem c t = o at hst hx hr
    match o, hst, hx, hr with
    | .ok t' a, hst, hx, hr => exact ⟨⟨hst.1, hx.2, hr.trans h.rev⟩, hst.2.2⟩
    | .throw t', hst, hx, hr => exact ⟨⟨hst.1, hx.2, hr.trans h.rev⟩, hst.2.2, hst.2.1⟩
  have hput : ∀ (u : Bool) (k : K) (v : V) (g : Map K V → Nat × Bool → Out (Map K V) (Ans K V)),
      (∀ t r, match g t r with | .ok t' _ => t' = t | .throw _ => False | _ => True) →
      match (emplace E sec u mem true k v t).bind g with
      | .ok t' _ => t'.rev = t.rev
      | .throw t' => t'.rev = t.rev
      | _ => True := by
    intro u k v g hg
    have hx := emplace_rev hE h.reach.toInv (update := u) hmem k v
    generalize emplace E sec u mem true k v t = o at hx
    match o, hx with
    | .ub, _ => exact trivial
    | .diverge, _ => exact trivial
    | .throw t', hx => exact hx
    | .ok t' r, hx =>
      simp only [Out.bind_ok]
      have := hg t' r
      generalize g t' r = q at this
      match q, this with
      | .ub, _ => exact trivial
      | .diverge, _ => exact trivial
      | .throw t2, hq => exact hq.elim
      | .ok t2 a, hq =>
        have hq' : t2 = t' := hq
        subst hq'; exact hx
  have hread : ∀ {α : Type} (r : Res α) (f : α → Ans K V),
      match lift r (fun x => Out.ok t (f x)) with
      | .ok t' _ => t'.rev = t.rev
      | .throw t' => t'.rev = t.rev
      | _ => True := by
    intro α r f
    cases r with
    | ok a => rfl
    | ub => exact trivial
    | diverge => exact trivial
  have hre : ∀ (t : Map K V) r, match readElem t r with | .ok t' _ => t' = t | .throw _ => False | _ => True := by
    intro t r; unfold readElem; cases t.slot r.1 <;> trivial
  have hrv : ∀ (t : Map K V) r, match readValue t r with | .ok t' _ => t' = t | .throw _ => False | _ => True := by
    intro t r; unfold readValue; cases t.slot r.1 <;> trivial
  have hreh : ∀ n N, N = 2 * n → t.size ≤ n → n < 2 ^ 44 → c.allocates = true → next E.eq m c = m →
      match (rehashImpl E sec true false mem N t).bind fun t' _ => Out.ok t' (Ans.unit : Ans K V) with
      | .ok t' _ => Tidy E sec t' ∧ (entries t').Perm (next E.eq m c)
      | .throw t' => Tidy E sec t' ∧ (entries t').Perm m ∧ c.allocates = true
      | _ => False := by
    intro n N h1 h2 h3 h4 h5
    have hx := rehash_tidy hE h h1 h2 h3 hmem
    generalize rehashImpl E sec true false mem N t = o at hx
    match o, hx with
    | .ok t' u, hx => exact ⟨hx.1, by rw [h5]; exact hx.2.1.trans hm⟩
    | .throw t', hx => exact ⟨hx.1, hx.2.trans hm, h4⟩
  cases c with
  | insert k v => exact hfill trivial (hput false k v _ hre)
  | assign k v => exact hfill trivial (hput true k v _ hre)
  | index k v => exact hfill trivial (hput false k v _ hrv)
  | erase k =>
    refine hfill trivial ?_
    obtain ⟨t', n, g1, _⟩ := eraseKey_exact h.reach.weak h.exact k
    simp only [exec]
    rw [g1]
    exact (eraseKey_rev h.reach.toCore g1).1
  | find k => exact hfill trivial (hread _ _)
  | contains k => exact hfill trivial (hread _ _)
  | count k => exact hfill trivial (hread _ _)
  | iterate => exact hfill trivial (hread _ _)
  | size => exact hfill trivial rfl
  | empty => exact hfill trivial rfl
  | reserve n =>
    refine hreh n _ ?_ (by rw [hlen]; exact hc.2.1) hc.2.2 rfl rfl
    rw [if_neg (by decide), h.minRequire hc.2.2, Nat.max_eq_left (by have := hc.2.1; omega)]
  | rehash n =>
    refine hreh n _ ?_ (by rw [hlen]; exact hc.1) hc.2 rfl rfl
    rw [if_neg (by decide), h.minRequire hc.2, Nat.max_eq_left (by have := hc.1; omega)]
  | shrink ro =>
    obtain ⟨h1, h2⟩ := hc
    subst h1
    refine hreh t.size _ ?_ (Nat.le_refl _) (by omega) rfl rfl
    rw [if_neg (by decide), h.minRequire (by omega)]
  | «at» k => exact hc.elim
  | clear d => exact hc.elim
  | maxLoad x => exact hc.elim

/-- Tidy at the end of every history of such calls. -/
theorem tidy_run (hE : E.Lawful) {rv : Nat → Nat} (hrv : ∀ x, 81920 ≤ rv x ∧ rv x ≤ 327680) :
    ∀ (cs : List (Mem × Call K V)) (t : Map K V) (m : Spec.Map K V), Tidy E sec t → (entries t).Perm m → OrderlyAll E.eq m cs →
      ∃ as t', run E sec rv cs t = .ok (as, t') ∧ Tidy E sec t' := by
  intro cs
  induction cs with
  | nil => intro t m h1 h2 _; exact ⟨[], t, rfl, h1⟩
  | cons p cs ih =>
    intro t m h1 h2 h3
    obtain ⟨mem, c⟩ := p
    obtain ⟨h4, h5, h6, h7⟩ := h3
    have hstep := tidy_step hE hrv h1 h2 h4 h5
    unfold run
    generalize exec E sec rv mem c t = o at hstep
    match o, hstep with
    | .ok t1 a, ⟨g1, g2⟩ =>
      obtain ⟨as, t', e1, e2⟩ := ih t1 _ g1 g2 h6
      exact ⟨a :: as, t', by simp only [e1, Res.bind_ok], e2⟩
    | .throw t1, ⟨g1, g2, g3⟩ =>
      obtain ⟨as, t', e1, e2⟩ := ih t1 m g1 g2 (h7 g3)
      exact ⟨.threw :: as, t', by simp only [e1, Res.bind_ok], e2⟩

theorem make_tidy {mem : Mem} {n : Nat} {t : Map K V} (h : make mem n = .ok t ()) : Tidy E sec t ∧ entries t = [] := by
  obtain ⟨h1, h2, j, _, _, h3, _⟩ := make_ok (clean := true) (E := E) (sec := sec) h
  exact ⟨⟨h1, (make_exact (E := E) (sec := sec) h).2, by rw [h3]; rfl⟩, h2⟩

/-! ### After `reserve(n)` -/

/-- Insertion, erasure, lookup, iteration, `size`, `empty`. -/
def Modest : Call K V → Prop
  | .insert .. | .assign .. | .index .. | .erase _ | .find _ | .contains _ | .count _ | .iterate | .size | .empty => True
  | _ => False

/-- After every call of `ops` the ideal map that starts with `m` has at most `n` elements; present keys are erased only while there are at
most 14 (more: C69). -/
def Within (eq : K → K → Bool) (n : Nat) : Spec.Map K V → List (Mem × Call K V) → Prop
  | _, [] => True
  | m, (_, c) :: cs => (next eq m c).length ≤ n ∧ (∀ k, c = .erase k → Spec.get eq m k = none ∨ m.length ≤ 14) ∧ Within eq n (next eq m c) cs

/-- An insertion below the limit, or of a key that is there, does not look at the allocator, and the capacity stays. -/
theorem prepare_room (hE : E.Lawful) {t : Map K V} (h : Tidy E sec t) {k : K} (hk : Absent E t k → t.left ≠ 0) {mem : Mem} (f : Nat) :
    prepare E sec mem k (f + 1) t = prepare E sec .ok k (f + 1) t ∧
      ((∃ t' r, prepare E sec mem k (f + 1) t = .ok t' r ∧ cap t' = cap t) ∨ prepare E sec mem k (f + 1) t = .ub ∨
        prepare E sec mem k (f + 1) t = .diverge) := by
  unfold prepare
  obtain ⟨q, h1, h2⟩ := probe_spec h.reach.toCore k
  have habs : (∀ j, q ≠ .hit j) → Absent E t k := fun hh =>
    absent_iff.mpr (absent_of_probe h.reach.toCore h.reach.reach hE h2 hh)
  rw [h1]
  simp only [lift]
  cases q with
  | hit i => exact ⟨rfl, Or.inl ⟨_, _, rfl, rfl⟩⟩
  | full => exact absurd h2 (not_full h.reach.toCore k (h.exact.room h.reach.toCore))
  | stop i =>
    have hl := hk (habs (by intro j; simp))
    simp only
    rw [if_neg hl, if_neg hl]
    refine ⟨rfl, ?_⟩
    generalize delLoop t (home E t k) i (cap t) (home E t k) = d
    match d with
    | .ok (some j) => exact Or.inl ⟨_, _, rfl, rfl⟩
    | .ok none => exact Or.inl ⟨_, _, rfl, rfl⟩
    | .ub => exact Or.inr (Or.inl rfl)
    | .diverge => exact Or.inr (Or.inr rfl)

/-- The same for the whole insertion. -/
theorem emplace_room (hE : E.Lawful) {t : Map K V} (h : Tidy E sec t) {k : K} {v : V} (hk : Absent E t k → t.left ≠ 0) {u : Bool}
    {mem : Mem} : ∃ t' r, emplace E sec u mem true k v t = .ok t' r ∧ emplace E sec u .ok true k v t = .ok t' r ∧ cap t' = cap t := by
  obtain ⟨g1, g2⟩ := prepare_room hE h hk (mem := mem) 63
  have hs := emplace_spec hE h.reach.toInv u .ok true k v
  have hno := not_reorders h.reach.toCore h.reach.counted (h.reach.clean rfl)
  unfold emplace at hs ⊢
  rw [show (64 : Nat) = 63 + 1 from rfl] at hs ⊢
  rw [g1] at g2 ⊢
  rcases g2 with ⟨t', r, g2, g3⟩ | g2 | g2
  · rw [g2] at hs ⊢
    simp only [Out.bind_ok] at hs ⊢
    obtain ⟨i, b⟩ := r
    cases b with
    | true =>
      simp only [if_true] at hs ⊢
      cases hq : t'.slot i with
      | none => rw [hq] at hs; have := hs.1; rw [hno] at this; cases this
      | some e =>
        refine ⟨_, _, rfl, rfl, ?_⟩
        rw [← g3]
        split <;> rfl
    | false =>
      simp only [Bool.false_eq_true, if_false, if_true] at hs ⊢
      exact ⟨_, _, rfl, rfl, g3⟩
  · rw [g2] at hs
    have := hs.1
    rw [hno] at this
    cases this
  · rw [g2] at hs; exact hs.elim

/-- One call that leaves at most `n` elements in a map whose threshold is at least `n`. -/
theorem exec_room (hE : E.Lawful) {rv : Nat → Nat} (hrv : ∀ x, 81920 ≤ rv x ∧ rv x ≤ 327680) {t : Map K V} (h : Tidy E sec t)
    {m : Spec.Map K V} (hm : (entries t).Perm m) {mem : Mem} {c : Call K V} (hq : Modest c) {n : Nat} (hn : 2 * n ≤ cap t)
    (hlen : (next E.eq m c).length ≤ n) (her : ∀ k, c = .erase k → Spec.get E.eq m k = none ∨ m.length ≤ 14) :
    ∃ t' a, exec E sec rv mem c t = .ok t' a ∧ cap t' = cap t ∧ Tidy E sec t' ∧ (entries t').Perm (next E.eq m c) ∧ a ≠ .threw := by
  have ho : Orderly E.eq m c := by
    cases c with
    | erase k => exact her k rfl
    | _ => first | exact hq.elim | trivial
  have hst := tidy_step hE hrv h hm (mem := .ok) (by decide) ho
  have hput : ∀ (u : Bool) (k : K) (v : V), (after E.eq u m k v).length ≤ n →
      ∃ t' r, emplace E sec u mem true k v t = .ok t' r ∧ emplace E sec u .ok true k v t = .ok t' r ∧ cap t' = cap t := by
    intro u k v hl
    refine emplace_room hE h fun hk => ?_
    have hg : Spec.get E.eq m k = none := Spec.get_none_iff.mpr fun e he => Robin.absent_symm hE (hk e (hm.mem_iff.mpr he))
    have haft : after E.eq u m k v = (k, v) :: m := by
      unfold after
      cases u
      · exact Spec.insert_absent hg v
      · simp [Spec.assign, hg]
    rw [haft, List.length_cons] at hl
    have h1 := thr_half h.exact.2 h.reach.cap_le
    have h2 := h.exact.1
    have h3 := h.reach.toCore.occ_eq
    have h4 := h.reach.clean rfl
    have h5 : t.size = m.length := by rw [h.reach.size, hm.length_eq]
    omega
  have hins : ∀ (u : Bool) (k : K) (v : V) (f : Map K V → Nat × Bool → Out (Map K V) (Ans K V)),
      (after E.eq u m k v).length ≤ n → (∀ mem, exec E sec rv mem c t = (emplace E sec u mem true k v t).bind f) →
      (∀ t r, match f t r with | .ok t' a => t' = t ∧ a ≠ .threw | .throw _ => False | _ => True) →
      ∃ t' a, exec E sec rv mem c t = .ok t' a ∧ cap t' = cap t ∧ Tidy E sec t' ∧ (entries t').Perm (next E.eq m c) ∧ a ≠ .threw := by
    intro u k v f hl hf hid
    obtain ⟨t', r, g1, g2, g3⟩ := hput u k v hl
    rw [hf, g2, Out.bind_ok] at hst
    rw [hf, g1, Out.bind_ok]
    have := hid t' r
    generalize f t' r = o at hst this
    match o, hst, this with
    | .ok t2 a, hst, ⟨h1, h2⟩ =>
      subst h1
      exact ⟨_, _, rfl, g3, hst.1, hst.2, h2⟩
  have hre : ∀ (t : Map K V) r, match readElem t r with | .ok t' a => t' = t ∧ a ≠ .threw | .throw _ => False | _ => True := by
    intro t r; unfold readElem; cases t.slot r.1 <;> simp
  have hrv' : ∀ (t : Map K V) r, match readValue t r with | .ok t' a => t' = t ∧ a ≠ .threw | .throw _ => False | _ => True := by
    intro t r; unfold readValue; cases t.slot r.1 <;> simp
  have hread : ∀ {α : Type} (r : Res α) (f : α → Ans K V), (∀ mem, exec E sec rv mem c t = lift r (fun x => Out.ok t (f x))) →
      (∀ x, f x ≠ .threw) →
      ∃ t' a, exec E sec rv mem c t = .ok t' a ∧ cap t' = cap t ∧ Tidy E sec t' ∧ (entries t').Perm (next E.eq m c) ∧ a ≠ .threw := by
    intro α r f hf hth
    rw [hf] at hst ⊢
    match r, hst with
    | .ok x, hst => exact ⟨_, _, rfl, rfl, hst.1, hst.2, hth x⟩
  cases c with
  | insert k v => exact hins false k v _ hlen (fun _ => rfl) hre
  | assign k v => exact hins true k v _ hlen (fun _ => rfl) hre
  | index k v => exact hins false k v _ hlen (fun _ => rfl) hrv'
  | find k => exact hread _ _ (fun _ => rfl) nofun
  | contains k => exact hread _ _ (fun _ => rfl) nofun
  | count k => exact hread _ _ (fun _ => rfl) nofun
  | iterate => exact hread _ _ (fun _ => rfl) nofun
  | size => exact ⟨t, _, rfl, rfl, hst.1, hst.2, nofun⟩
  | empty => exact ⟨t, _, rfl, rfl, hst.1, hst.2, nofun⟩
  | erase k =>
    obtain ⟨t', x, g1, _⟩ := eraseKey_exact h.reach.weak h.exact k
    have h2 := (eraseKey_rev h.reach.toCore g1).2
    simp only [exec] at hst ⊢
    rw [g1] at hst ⊢
    exact ⟨t', _, rfl, h2, hst.1, hst.2, nofun⟩
  | «at» k => exact hq.elim
  | clear d => exact hq.elim
  | reserve n => exact hq.elim
  | rehash n => exact hq.elim
  | shrink ro => exact hq.elim
  | maxLoad x => exact hq.elim

theorem run_room (hE : E.Lawful) {rv : Nat → Nat} (hrv : ∀ x, 81920 ≤ rv x ∧ rv x ≤ 327680) {n : Nat} :
    ∀ (ops : List (Mem × Call K V)) (t : Map K V) (m : Spec.Map K V), Tidy E sec t → (entries t).Perm m → 2 * n ≤ cap t →
      (∀ op ∈ ops, Modest op.2) → Within E.eq n m ops →
      ∃ as t', run E sec rv ops t = .ok (as, t') ∧ as.length = ops.length ∧ Ans.threw ∉ as ∧ cap t' = cap t := by
  intro ops
  induction ops with
  | nil => intro t m _ _ _ _ _; exact ⟨[], t, rfl, rfl, nofun, rfl⟩
  | cons op ops ih =>
    intro t m h hm hn hq hw
    obtain ⟨mem, c⟩ := op
    obtain ⟨w1, w2, w3⟩ := hw
    obtain ⟨t1, a, g1, g2, g3, g4, g5⟩ := exec_room hE hrv h hm (mem := mem) (hq _ (List.mem_cons_self ..)) hn w1 w2
    obtain ⟨as, t', e1, e2, e3, e4⟩ := ih t1 _ g3 g4 (by omega) (fun o ho => hq o (List.mem_cons_of_mem _ ho)) w3
    refine ⟨a :: as, t', ?_, by simp [e2], ?_, e4.trans g2⟩
    · unfold run
      rw [g1]
      simp only [e1, Res.bind_ok]
    · intro h
      rcases List.mem_cons.mp h with h | h
      · exact g5 h.symm
      · exact e3 h

/-- C125 (partial), flat16.  After every history of insertions, lookups, erasures (of present keys while there are at most 14 elements)
and `reserve`, `rehash`, `shrink_to_fit()` with room for the elements, `reserve(n)` with `n` at least `size()` leaves a capacity of at
least `2 * n`, and then all insertions, lookups and such erasures that keep the number of elements at or below `n` succeed without
changing `capacity()`, even if the allocator refuses every request.  Missing, because the code violates it: tombstones
(`C125_reserve_tombstones`), other load factors (`C125_reserve_load_factor`), `clear` (C73) and `at` (C67). -/
theorem C125_reserve_partial (hE : E.Lawful) {rv : Nat → Nat} (hrv : ∀ x, 81920 ≤ rv x ∧ rv x ≤ 327680) {mem0 : Mem} {n0 : Nat}
    {t0 : Map K V} (hc : make mem0 n0 = .ok t0 ()) (cs : List (Mem × Call K V)) (hp : OrderlyAll E.eq [] cs) {as : List (Ans K V)}
    {t : Map K V} (hr : run E sec rv cs t0 = .ok (as, t)) {n : Nat} (hn : t.size ≤ n) (h44 : n < 2 ^ 44) {mem : Mem} {t1 : Map K V}
    {a : Ans K V} (hx : exec E sec rv mem (.reserve n) t = .ok t1 a) :
    2 * n ≤ cap t1 ∧ ∀ ops : List (Mem × Call K V), (∀ op ∈ ops, Modest op.2) → Within E.eq n (entries t) ops →
      ∃ as t2, run E sec rv ops t1 = .ok (as, t2) ∧ as.length = ops.length ∧ Ans.threw ∉ as ∧ cap t2 = cap t1 := by
  obtain ⟨h1, h2⟩ := make_tidy (E := E) (sec := sec) hc
  obtain ⟨as', t', h3, h4⟩ := tidy_run hE hrv cs t0 [] h1 (by rw [h2]) hp
  rw [hr] at h3
  cases h3
  have hreh : rehashImpl E sec true false mem (2 * n) t = .ok t1 () := by
    simp only [exec, rehash] at hx
    rw [if_neg (by decide), h4.minRequire h44, Nat.max_eq_left (by omega)] at hx
    generalize rehashImpl E sec true false mem (2 * n) t = o at hx
    match o, hx with
    | .ok t2 u, hx => cases hx; rfl
  have hmem : rehashImpl E sec true false .ok (2 * n) t = .ok t1 () := by
    unfold rehashImpl at hreh ⊢
    revert hreh
    cases calcCapacity (2 * n) with
    | ub => exact nofun
    | diverge => exact nofun
    | ok c =>
      simp only
      split
      · unfold createGroup
        simp only
        cases mem with
        | ok => exact id
        | noGroups => rw [if_pos (Or.inl rfl)]; exact nofun
        | noSlots =>
          by_cases hl : memLimit < c
          · rw [if_pos (Or.inr hl)]; exact nofun
          · rw [if_neg (by simp [hl]), if_pos rfl]; exact nofun
      · exact id
  have h5 := rehash_tidy hE h4 rfl hn h44 (mem := .ok) (by decide)
  rw [hmem] at h5
  exact ⟨h5.2.2, fun ops hq hw => run_room hE hrv ops t1 _ h5.1 h5.2.1 h5.2.2 hq hw⟩

set_option maxRecDepth 100000

/-- Three elements, `reserve(5)`, then two insertions and an erasure that may not allocate. -/
example : OrderlyAll (hashEnv id).eq [] (((ins 3 1).map fun c => (Mem.ok, c)) : List (Mem × Call Nat Nat)) ∧
    ∃ as t t1 a, run (hashEnv id) id (fun _ => 131072) ((ins 3 1).map fun c => (Mem.ok, c)) start = .ok (as, t) ∧ t.size ≤ 5 ∧
      exec (hashEnv id) id (fun _ => 131072) .ok (.reserve 5) t = .ok t1 a ∧ cap t = 8 ∧ cap t1 = 16 ∧
      (∀ op ∈ [(Mem.noSlots, (.insert 3 3 : Call Nat Nat)), (.noGroups, .index 4 4), (.noGroups, .erase 1)], Modest op.2) ∧
      Within (hashEnv id).eq 5 (entries t) [(.noSlots, .insert 3 3), (.noGroups, .index 4 4), (.noGroups, .erase 1)] := by
  refine ⟨by
    refine ⟨by decide, trivial, ⟨by decide, trivial, ⟨by decide, trivial, trivial, fun _ => trivial⟩, fun _ => ?_⟩, fun _ => ?_⟩
    · exact ⟨by decide, trivial, trivial, fun _ => trivial⟩
    · exact ⟨by decide, trivial, ⟨by decide, trivial, trivial, fun _ => trivial⟩, fun _ => ⟨by decide, trivial, trivial, fun _ => trivial⟩⟩, ?_⟩
  have h : (match run (hashEnv id) id (fun _ => 131072) ((ins 3 1).map fun c => (Mem.ok, c)) start with
    | .ok (_, t) => t.size == 3 && cap t == 8 && entries t == [(0, 0), (1, 1), (2, 2)] &&
      match exec (hashEnv id) id (fun _ => 131072) .ok (.reserve 5) t with
      | .ok t1 _ => cap t1 == 16
      | _ => false
    | _ => false) = true := by decide +kernel
  split at h
  · rename_i as t hr
    simp only [Bool.and_eq_true, beq_iff_eq] at h
    obtain ⟨⟨⟨h1, h2⟩, h3⟩, h4⟩ := h
    split at h4
    · rename_i t1 a hx
      refine ⟨as, t, t1, a, hr, by omega, hx, h2, by simpa using h4, ?_, ?_⟩
      · intro op hop
        simp only [List.mem_cons, List.not_mem_nil, or_false] at hop
        rcases hop with rfl | rfl | rfl <;> trivial
      · rw [h3]
        refine ⟨by decide, nofun, by decide, nofun, by decide, fun k _ => Or.inr (by decide), trivial⟩
    · cases h4
  · cases h

/-- Deviation from C125: `reserve(n)` does not look at tombstones.  32 keys in a map of 64 slots, one of them is erased and leaves a
tombstone.  `reserve(32)` keeps the table, and the insertion of a 32nd key grows it to 128 slots, or throws if there is no memory. -/
theorem C125_reserve_tombstones :
    endsIn (play (ins 32 1 ++ [.erase 0, .reserve 32])) (fun _ t => t.size == 31 && cap t == 64 && t.mlf == 32768 && t.left == 0) = true ∧
    endsIn (play (ins 32 1 ++ [.erase 0, .reserve 32, .insert 40 0])) (fun _ t => t.size == 32 && cap t == 128) = true ∧
    endsIn (run (hashEnv id) id (fun _ => 131072) (((ins 32 1 ++ [Call.erase 0, .reserve 32]).map fun c => (Mem.ok, c)) ++
      [(.noGroups, .insert 40 0)]) start) (fun as t => lastIs .threw as && t.size == 31) = true := by
  decide +kernel

/-- Deviation from C125: with `max_load_factor(0.3f)` (the integers are 19661 and 218454, `F32.flatArg_03`) `reserve(5)` leaves sixteen
slots and room for four elements; the fifth insertion moves everything to thirty-two slots, or throws if there is no memory. -/
theorem C125_reserve_load_factor :
    endsIn (run (hashEnv id) id F32.flatRecip ([(Mem.ok, .maxLoad (F32.nameOf 19661 218454)), (.ok, .reserve 5)] ++
      (ins 5 1).map fun c => (Mem.ok, c)) start) (fun _ t => t.size == 5 && cap t == 32) = true ∧
    endsIn (run (hashEnv id) id F32.flatRecip ([(Mem.ok, .maxLoad (F32.nameOf 19661 218454)), (.ok, .reserve 5)] ++
      (ins 5 1).map fun c => (Mem.noGroups, c)) start) (fun as t => t.size == 4 && cap t == 16 && lastIs .threw as) = true := by
  decide +kernel

end Verif.Flat
