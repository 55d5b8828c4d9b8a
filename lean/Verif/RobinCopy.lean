/-
Copy, move and swap of `robin_hash_map` (property C34).
-/
import Verif.RobinProps

namespace Verif.Robin
open Spec (Distinct Call Ans)

section Model
variable {K V : Type} (store chk : Bool) (E : Env K)

/-- `unique_find_and_insert(key)` (RH:6316-6375): no comparison of keys. -/
def uniqueFind (mem : Bool) (k : K) (t : Map K V) : Out (Map K V) Found :=
  lift (seek store chk E t k) fun (i, d) =>
    if decide (t.thr ≤ t.size) || decide (maxDist t ≤ d.uval store) then
      (grow store chk E mem t).bind fun t1 _ =>
        lift (seek store chk E t1 k) fun (i1, d1) => finish store chk E k t1 i1 d1
    else finish store chk E k t i d

/-- `unique_insert(value)` (RH:6377-6412).  The fuel counts the recursive calls after growth. -/
def uniqueLoop (mem : Bool) (e : K × V) : Nat → Map K V → Out (Map K V) Unit
  | 0, _ => .diverge
  | f + 1, t =>
    (uniqueFind store chk E mem e.1 t).bind fun t' r =>
      match r with
      | .notExists i => lift (construct i e t') fun t'' => .ok t'' ()
      | .exists_ _ => .ub
      | .needGrow => (grow store chk E mem t').bind fun t'' _ => uniqueLoop mem e f t''

/-- `unique_insert(first, last)` (RH:6414-6420). -/
def uniqueAll (mem : Bool) : List (K × V) → Map K V → Out (Map K V) Unit
  | [], t => .ok t ()
  | e :: es, t => (uniqueLoop store chk E mem e 64 t).bind fun t' _ => uniqueAll mem es t'

/-- `reserve_for_insert(n)` on a new map (RH:4276-4279). -/
def reserveForInsert (mem : Bool) (n : Nat) : Out (Map K V) Unit := make store mem (minRequire (emptyMap store 128 512 : Map K V) n)

/-- Copy constructor (RH:3113-3143).  On an exception there is no object; the state in `throw` has no meaning. -/
def copyCtor (mem : Bool) (other : Map K V) : Out (Map K V) Unit :=
  (reserveForInsert store mem other.size).bind fun t _ => lift (walk store other) fun l => uniqueAll store chk E mem l t

/-- Move constructor (RH:3145-3168): the new map and what is left of the old one.  `slot_threshold_` is initialised with
`exchange(other.slot_size_, 0)`, after `slot_size_` has been set to zero, and the threshold of `other` is not touched. -/
def moveCtor (other : Map K V) : Map K V × Map K V :=
  ({ other with thr := 0 }, { (emptyMap store 128 512 : Map K V) with thr := other.thr })

/-- The pointer `last_slot_` of one map together with the block of another: both null if neither owns a block, otherwise
it does not point into the block. -/
def foreignLast (a b : Map K V) : Option Nat := if !a.alloc && !b.alloc then some 0 else none

/-- `swap_impl` (RH:6555-6588), for two maps whose `last_slot_` points to the end of their own block.  Every member is
exchanged except `last_slot_`. -/
def swapMaps (a b : Map K V) : Map K V × Map K V := ({ b with last := foreignLast a b }, { a with last := foreignLast a b })

/-- Copy assignment (RH:3242-3249): the new value of `*this`. -/
def copyAssign (mem : Bool) (this other : Map K V) : Out (Map K V) Unit :=
  match copyCtor store chk E mem other with
  | .ok tmp _ => .ok (swapMaps this tmp).1 ()
  | .throw _ => .throw this
  | .diverge => .diverge
  | .ub => .ub

/-- Move assignment with a propagating or always equal allocator (RH:3251-3259, 6539-6545): `*this` and what is left of
`other`. -/
def moveAssign (this other : Map K V) : Map K V × Map K V := ((swapMaps this (moveCtor store other).1).1, (moveCtor store other).2)

end Model

variable {K V : Type} {E : Env K}

/-! ### The copy constructor -/

theorem uniqueFind_chk {store : Bool} (mem : Bool) (k : K) (t : Map K V) :
    OLe (uniqueFind store true E mem k t) (uniqueFind store false E mem k t) := by
  unfold uniqueFind
  apply OLe.lift (seek_chk t k)
  intro p
  obtain ⟨i, d⟩ := p
  simp only
  split
  · exact (rehashImpl_chk false true mem _ t).bind fun t1 _ => OLe.lift (seek_chk t1 k) fun _ => finish_chk k t1 _ _
  · exact finish_chk k t i d

theorem uniqueLoop_chk {store : Bool} (mem : Bool) (e : K × V) : ∀ (f : Nat) (t : Map K V),
    OLe (uniqueLoop store true E mem e f t) (uniqueLoop store false E mem e f t) := by
  intro f
  induction f with
  | zero => intro t; exact OLe.refl _
  | succ f ih =>
    intro t
    unfold uniqueLoop
    apply (uniqueFind_chk mem e.1 t).bind
    intro t' r
    cases r with
    | exists_ i => exact OLe.refl _
    | notExists i => exact OLe.refl _
    | needGrow => exact (rehashImpl_chk false true mem _ t').bind fun t'' _ => ih t''

theorem uniqueAll_chk {store : Bool} (mem : Bool) : ∀ (l : List (K × V)) (t : Map K V),
    OLe (uniqueAll store true E mem l t) (uniqueAll store false E mem l t) := by
  intro l
  induction l with
  | nil => intro t; exact OLe.refl _
  | cons e l ih => intro t; exact (uniqueLoop_chk mem e 64 t).bind fun t' _ => ih t'

/-- An absent key that fits is placed without growth. -/
theorem finish_added (hE : E.Lawful) {c : Nat} {t : Map K V} (h : Good E t c) {k : K} {v : V} {i : Nat} {d : Ctrl}
    (hs : Stop t (hm E c k) i d) (hk : ∀ x ∈ entries t, E.eq x.1 k = false) (hf : Fits E c ((k, v) :: entries t)) :
    ∃ t' t'', finish false true E k t i d = .ok t' (.notExists i) ∧ construct i (k, v) t' = .ok t'' ∧ Added E t t'' c i (k, v) := by
  have hst := hf.not_stuck h
  unfold finish
  have hd0 : ({ d with hash := ctrlHash false E k } : Ctrl) = d := by rw [hs.d_eq]; rfl
  rw [hd0]
  by_cases hi : i < t.slen
  · have h2 := place_spec hE h hs hi false
    cases hp : place false true false t i d with
    | diverge => rw [hp] at h2; exact h2.elim
    | ub => rw [hp] at h2; exact (hst (Or.inr ⟨i, d, hs, Or.inr ⟨hi, Or.inr h2⟩⟩)).elim
    | ok r =>
      obtain ⟨t', b⟩ := r
      rw [hp] at h2
      cases b with
      | false => exact (hst (Or.inr ⟨i, d, hs, Or.inr ⟨hi, Or.inl h2.2⟩⟩)).elim
      | true =>
        obtain ⟨t'', g1, g2, g3, g4, g5, g6, g7⟩ := Made.good hE v h h2 hs hi hk
        exact ⟨t', t'', rfl, g1, ⟨g2, g3, g4, g5, g6, g7⟩⟩
  · exact (hst (Or.inr ⟨i, d, hs, Or.inl (by omega)⟩)).elim

theorem uniqueAll_spec (hE : E.Lawful) {c : Nat} (mem : Bool) : ∀ (l : List (K × V)) (t : Map K V), Live E t c →
    Distinct E.eq (l ++ entries t) → t.size + l.length ≤ t.thr → Fits E c (l ++ entries t) →
    ∃ t', uniqueAll false true E mem l t = .ok t' () ∧ Live E t' c ∧ (entries t').Perm (l ++ entries t) ∧ t'.mlf = t.mlf ∧
      t'.rev = t.rev := by
  intro l
  induction l with
  | nil => intro t h _ _ _; exact ⟨t, rfl, h, List.Perm.refl _, rfl, rfl⟩
  | cons e l ih =>
    intro t h hd hthr hf
    obtain ⟨k, v⟩ := e
    have hk : ∀ x ∈ entries t, E.eq x.1 k = false := by
      intro x hx
      have hd' := List.pairwise_cons.mp hd
      exact absent_symm hE (hd'.1 x (List.mem_append_right _ hx))
    have hfe : Fits E c ((k, v) :: entries t) := hf.sublist (List.Sublist.cons_cons _ (List.sublist_append_right _ _))
    have hs := seek_spec h.toGood k
    unfold uniqueAll
    cases hsk : seek false true E t k with
    | diverge => rw [hsk] at hs; exact hs.elim
    | ub => rw [hsk] at hs; exact (hfe.not_stuck h.toGood (Or.inl hs)).elim
    | ok q =>
      obtain ⟨i, d⟩ := q
      rw [hsk] at hs
      obtain ⟨t1, t2, g1, g2, g3⟩ := finish_added hE h.toGood hs hk hfe
      simp only [List.length_cons] at hthr
      have hu : uniqueLoop false true E mem (k, v) 64 t = .ok t2 () := by
        unfold uniqueLoop uniqueFind
        rw [hsk]
        simp only [lift, h.toShape.no_max, Bool.or_false, decide_eq_true_eq]
        rw [if_neg (by omega), g1]
        simp only [Out.bind_ok, g2]
      rw [hu, Out.bind_ok]
      have hsz : t2.size = t.size + 1 := by rw [g3.good.size, g3.perm.length_eq, List.length_cons, ← h.size]
      have hl2 : Live E t2 c := { toGood := g3.good, thr_le := by rw [g3.thr]; exact h.thr_le,
                                  size_le := by rw [hsz]; have := h.thr_le; omega }
      have hp : (l ++ entries t2).Perm ((k, v) :: (l ++ entries t)) :=
        (List.Perm.append_left l g3.perm).trans List.perm_middle
      obtain ⟨t', e1, e2, e3, e4, e5⟩ := ih t2 hl2 (Spec.Distinct.perm hE hp.symm hd) (by rw [hsz, g3.thr]; omega) (hf.perm hp.symm)
      exact ⟨t', e1, e2, e3.trans hp, e4.trans g3.mlf, e5.trans g3.rev⟩

theorem walk_reach {t : Map K V} (hR : Reach E t) : walk false t = .ok (entries t) := by
  rcases hR.st with h | ⟨c, h⟩
  · obtain ⟨a, b, rfl⟩ := h
    have hb : beginIdx false (emptyMap false a b : Map K V) = 4 := by
      unfold beginIdx
      have hl : (List.range (groups false (emptyMap false a b : Map K V) * width false)) = List.range 32 := by
        simp [groups, maxCap, slotCap, width, emptyMap, minLookups]
      rw [hl]
      show ((List.range 32).find? fun i => (if i < 4 then Ctrl.empty else Ctrl.endOf).isUsed).getD 4 = 4
      decide
    unfold walk
    rw [hb]
    rfl
  · exact walk_spec h.toGood

theorem copyCtor_spec (hE : E.Lawful) {t : Map K V} (hR : Reach E t) (hroom : Roomy E (entries t)) (mem : Bool) :
    (∃ t', copyCtor false false E mem t = .ok t' () ∧ Reach E t' ∧ (entries t').Perm (entries t) ∧ (Fresh t' → entries t = [])) ∨
      (∃ t', copyCtor false false E mem t = .throw t') ∧ (mem = false ∨ 2 ^ 47 < 2 * t.size) := by
  have hs48 := hR.size_le
  have hmr : minRequire (emptyMap false 128 512 : Map K V) t.size = 2 * t.size := by
    unfold minRequire
    show t.size * 512 % W / 256 = 2 * t.size
    rw [Nat.mod_eq_of_lt (by unfold W; omega)]
    omega
  have hreal : ∀ t', (reserveForInsert false mem t.size : Out (Map K V) Unit).bind
      (fun s _ => lift (walk false t) fun l => uniqueAll false true E mem l s) = .ok t' () → copyCtor false false E mem t = .ok t' () := by
    intro t' h
    have hle : OLe ((reserveForInsert false mem t.size : Out (Map K V) Unit).bind
      (fun s _ => lift (walk false t) fun l => uniqueAll false true E mem l s)) (copyCtor false false E mem t) :=
      OLe.bind (OLe.refl _) fun s _ => OLe.lift (RLe.refl _) fun l => uniqueAll_chk mem l s
    rcases hle with h1 | h1
    · rw [h] at h1; cases h1
    · rw [← h1, h]
  by_cases h0 : t.size = 0
  · left
    have he : entries t = [] := List.length_eq_zero_iff.mp (by rw [← hR.size]; exact h0)
    refine ⟨emptyMap false 128 512, ?_, reach_default, by rw [he]; exact List.Perm.refl _, fun _ => he⟩
    apply hreal
    unfold reserveForInsert
    rw [hmr, h0, walk_reach hR, he]
    rfl
  · cases hc : calcCapacity (2 * t.size) with
    | ub => have := calcCapacity_ub hc; omega
    | diverge => exact (calcCapacity_diverge _ hc).elim
    | ok cap =>
      obtain ⟨j, hj, rfl, h6, h7⟩ := calcCapacity_ok hc
      have hmk : (make false mem (2 * t.size) : Out (Map K V) Unit) = createSlots false mem (2 ^ j) (emptyMap false 128 512) := by
        unfold make
        rw [if_neg (by omega), hc]
      rcases createSlots_cases (emptyMap false 128 512 : Map K V) (2 ^ j) mem with ⟨t1, h1⟩ | ⟨h1, h2⟩
      · left
        obtain ⟨g1, g2, g3, g4, g5⟩ := createSlots_good (E := E) hj h1
        have hth : t1.thr = 2 ^ j * 128 / 256 := g5
        have hlive : Live E t1 (2 ^ j) := { toGood := g1, thr_le := by omega, size_le := by rw [g1.size, g2]; exact Nat.zero_le _ }
        have hz : t1.size = 0 := by rw [g1.size, g2]; rfl
        obtain ⟨t', e1, e2, e3, e4, e5⟩ := uniqueAll_spec hE mem (entries t) t1 hlive (by rw [g2, List.append_nil]; exact hR.distinct)
          (by rw [hz, hth, ← hR.size]; omega) (by rw [g2, List.append_nil]; exact hroom j hj (by rw [← hR.size]; omega))
        rw [g2, List.append_nil] at e3
        refine ⟨t', hreal t' ?_, ⟨by rw [e4, g3]; show 128 ≤ 256; omega, by rw [e5, g4]; show 256 ≤ 512; omega,
          by rw [e5, g4]; show 512 ≤ 1024; omega, Or.inr ⟨_, e2⟩⟩, e3, fun hf => (e2.not_fresh hf).elim⟩
        unfold reserveForInsert
        rw [hmr, hmk, h1, Out.bind_ok, walk_reach hR]
        exact e1
      · right
        refine ⟨⟨_, by unfold copyCtor reserveForInsert; rw [hmr, hmk, h1]; rfl⟩, ?_⟩
        rcases h2 with h2 | h2
        · exact Or.inl h2
        · right
          rcases h7 with h7 | h7
          · rw [h7] at h2; omega
          · omega

/-- Every later history on a map in a state between calls. -/
theorem run_from (hE : E.Lawful) {rv : Nat → Nat} (hrv : ∀ x, 256 ≤ rv x ∧ rv x ≤ 1024) {t : Map K V} (hR : Reach E t)
    {m : Spec.Map K V} (hm : (entries t).Perm m) {bare : Bool} (hb : Fresh t → bare = true)
    {cs : List (Bool × Call K V)} (hv : ∀ c ∈ cs, Valid c.2)
    (hu : Usable bare cs) (hr : ∀ i, i ≤ cs.length → Roomy E ((cs.take i).foldl (fun m c => next E.eq m c.2) m)) :
    ∃ as t' m', run false false E rv cs t = .ok (as, t') ∧
      Spec.AcceptsAll E.eq m ((cs.map (·.2)).take as.length) as m' ∧ Ended cs as := by
  have h1 := run_ok hE hrv cs t m hv hR hm
  cases hx : run false true E rv cs t with
  | diverge => rw [hx] at h1; exact h1.elim
  | ub =>
    rw [hx] at h1
    obtain ⟨i, hi, hn⟩ := h1 bare hb hu
    exact (hn (hr i hi)).elim
  | ok r =>
    obtain ⟨as, t'⟩ := r
    rw [hx] at h1
    obtain ⟨m', h2, h3, _⟩ := h1
    rcases run_chk (E := E) (store := false) rv cs t with h4 | h4
    · rw [hx] at h4; cases h4
    · exact ⟨as, t', m', by rw [← h4, hx], h2, h3⟩

/-! ### C34: what works -/

/-- C34 for the copy constructor: the copy holds the elements of the original and every later history on it is answered as
by an ideal map with these contents.  It throws only if the allocator refuses. -/
theorem C34_copy_constructor (hE : E.Lawful) {rv : Nat → Nat} (hrv : ∀ x, 256 ≤ rv x ∧ rv x ≤ 1024) {cs : List (Bool × Call K V)}
    {t : Map K V} (h : Reached E rv cs t) (hroom : Roomy E (contents E.eq cs)) (mem : Bool) :
    (∃ t', copyCtor false false E mem t = .ok t' () ∧ t'.size = t.size ∧
      ∀ cs', (∀ c ∈ cs', Valid c.2) → Usable (decide (contents E.eq cs = [])) cs' →
        (∀ i, i ≤ cs'.length → Roomy E (contents E.eq (cs ++ cs'.take i))) →
        ∃ as t'' m', run false false E rv cs' t' = .ok (as, t'') ∧
          Spec.AcceptsAll E.eq (contents E.eq cs) ((cs'.map (·.2)).take as.length) as m' ∧ Ended cs' as) ∨
      (∃ t', copyCtor false false E mem t = .throw t') ∧ (mem = false ∨ 2 ^ 46 < t.size) := by
  obtain ⟨hR, hm⟩ := h.reach hE hrv
  rcases copyCtor_spec hE hR (hroom.perm hm.symm) mem with ⟨t', h1, h2, h3, h4⟩ | ⟨h1, h2⟩
  · left
    refine ⟨t', h1, by rw [h2.size, hR.size, h3.length_eq], ?_⟩
    intro cs' hv hu hr
    apply run_from hE hrv h2 (h3.trans hm) (fun hf => ?_) hv hu
    · intro i hi
      have := hr i hi
      unfold contents at this ⊢
      rw [List.foldl_append] at this
      exact this
    · have := h4 hf
      rw [this] at hm
      exact decide_eq_true hm.symm.eq_nil
  · exact Or.inr ⟨h1, h2.imp id fun h => by omega⟩

theorem Live.set_thr {t : Map K V} {c : Nat} (h : Live E t c) : Live E { t with thr := 0 } c :=
  { toShape := ⟨h.alloc, h.pow, h.mask, h.look, h.slen, h.last, h.clen⟩
    cell := h.cell, tail := h.tail, order := h.order, distinct := h.distinct, size := h.size, thr_le := Nat.zero_le _
    size_le := h.size_le }

theorem moved_reach {t : Map K V} (hR : Reach E t) : Reach E (moveCtor false t).1 ∧ entries (moveCtor false t).1 = entries t ∧
    (Fresh (moveCtor false t).1 → Fresh t) := by
  refine ⟨⟨hR.mlf, hR.rev_lo, hR.rev_hi, ?_⟩, rfl, ?_⟩
  · rcases hR.st with ⟨a, b, rfl⟩ | ⟨c, h⟩
    · exact Or.inl ⟨a, b, rfl⟩
    · exact Or.inr ⟨c, h.set_thr⟩
  · intro hf
    rcases hR.st with h | ⟨c, h⟩
    · exact h
    · exact (h.set_thr.not_fresh hf).elim

/-- C34 for the move constructor, target: the new map holds the elements and every later history on it is answered as by an
ideal map with these contents. -/
theorem C34_move_target (hE : E.Lawful) {rv : Nat → Nat} (hrv : ∀ x, 256 ≤ rv x ∧ rv x ≤ 1024) {cs : List (Bool × Call K V)}
    {t : Map K V} (h : Reached E rv cs t) {cs' : List (Bool × Call K V)} (hv : ∀ c ∈ cs', Valid c.2)
    (hu : Usable (!t.alloc) cs') (hr : ∀ i, i ≤ cs'.length → Roomy E (contents E.eq (cs ++ cs'.take i))) :
    ∃ as t'' m', run false false E rv cs' (moveCtor false t).1 = .ok (as, t'') ∧
      Spec.AcceptsAll E.eq (contents E.eq cs) ((cs'.map (·.2)).take as.length) as m' ∧ Ended cs' as := by
  obtain ⟨hR, hm⟩ := h.reach hE hrv
  obtain ⟨h1, h2, h3⟩ := moved_reach hR
  apply run_from hE hrv h1 (by rw [h2]; exact hm) (fun hf => ?_) hv hu
  · intro i hi
    have := hr i hi
    unfold contents at this ⊢
    rw [List.foldl_append] at this
    exact this
  · obtain ⟨a, b, rfl⟩ := h3 hf
    rfl

/-! ### Searches do not look at `last_slot_` -/

theorem probeLoop_last {store chk : Bool} (t : Map K V) (x : Option Nat) (k : K) : ∀ (f i : Nat) (d : Ctrl),
    probeLoop store chk E { t with last := x } k f i d = probeLoop store chk E t k f i d := by
  intro f
  induction f with
  | zero => intro i d; rfl
  | succ f ih =>
    intro i d
    unfold probeLoop
    simp only [ih]

theorem findIdx_last {store chk : Bool} (t : Map K V) (x : Option Nat) (k : K) :
    findIdx store chk E { t with last := x } k = findIdx store chk E t k := by
  unfold findIdx probe
  rw [probeLoop_last]
  rfl

theorem nextIdx_last (t : Map K V) (x : Option Nat) : ∀ (f i : Nat), nextIdx { t with last := x } f i = nextIdx t f i := by
  intro f
  induction f with
  | zero => intro i; rfl
  | succ f ih =>
    intro i
    unfold nextIdx
    rw [ih]
    rfl

theorem walk_last {store : Bool} (t : Map K V) (x : Option Nat) : walk store { t with last := x } = walk store t := by
  have h : ∀ (f i : Nat), walkLoop { t with last := x } f i = walkLoop t f i := by
    intro f
    induction f with
    | zero => intro i; rfl
    | succ f ih =>
      intro i
      unfold walkLoop
      simp only [nextIdx_last, ih]
      rfl
  unfold walk
  exact h _ _

/-- What is right and what is wrong about a map whose `last_slot_` points elsewhere. -/
theorem foreign_last (hE : E.Lawful) {t : Map K V} (hR : Reach E t) (hroom : Roomy E (entries t)) :
    let s : Map K V := { t with last := none }
    s.size = (entries t).length ∧ walk false s = .ok (entries t) ∧
    (∀ k, contains false false E s k = .ok (Spec.get E.eq (entries t) k).isSome) ∧
    (∀ k, atKey false false E s k = .ok ((Spec.get E.eq (entries t) k).map (·.2))) ∧
    (∀ k, lookup false false E s k = match Spec.get E.eq (entries t) k with
      | some e => .ok (some e)
      | none => .ub) := by
  have hfi : ∀ k, match findIdx false true E t k with
      | .ok (some i) => ∃ e, i ≠ maxCap t ∧ t.slot i = some e ∧ Spec.get E.eq (entries t) k = some e
      | .ok none => Spec.get E.eq (entries t) k = none
      | .diverge => False
      | .ub => False := by
    intro k
    rcases hR.st with h | ⟨c, h⟩
    · rw [findIdx_fresh h]
      rw [h.entries]; rfl
    · have hs := findIdx_spec hE h.toGood k
      cases hf : findIdx false true E t k with
      | diverge => rw [hf] at hs; exact hs
      | ub =>
        rw [hf] at hs
        obtain ⟨j, hj, _, rfl⟩ := h.pow
        exact hs.1 (hroom j hj (by rw [← h.size]; exact h.size_le))
      | ok o =>
        rw [hf] at hs
        cases o with
        | none => exact hs
        | some i =>
          obtain ⟨h1, e, h2, h3⟩ := hs
          exact ⟨e, by rw [h.toShape.maxCap]; omega, h2, h3⟩
  have hreal : ∀ k, match findIdx false false E { t with last := none } k with
      | .ok (some i) => ∃ e, i ≠ maxCap t ∧ t.slot i = some e ∧ Spec.get E.eq (entries t) k = some e
      | .ok none => Spec.get E.eq (entries t) k = none
      | .diverge => False
      | .ub => False := by
    intro k
    rw [findIdx_last]
    have h1 := hfi k
    rcases findIdx_chk (E := E) (store := false) t k with h2 | h2
    · rw [h2] at h1; exact h1.elim
    · rw [← h2]; exact h1
  refine ⟨hR.size, by rw [walk_last]; exact walk_reach hR, ?_, ?_, ?_⟩
  · intro k
    have := hreal k
    unfold contains
    cases hf : findIdx false false E { t with last := none } k with
    | diverge => rw [hf] at this; exact this.elim
    | ub => rw [hf] at this; exact this.elim
    | ok o =>
      rw [hf] at this
      cases o with
      | none => simp only [Res.bind_ok]; rw [show Spec.get E.eq (entries t) k = none from this]; rfl
      | some i =>
        obtain ⟨e, _, _, h3⟩ := this
        simp only [Res.bind_ok]
        rw [h3]; simp
  · intro k
    have := hreal k
    unfold atKey
    cases hf : findIdx false false E { t with last := none } k with
    | diverge => rw [hf] at this; exact this.elim
    | ub => rw [hf] at this; exact this.elim
    | ok o =>
      rw [hf] at this
      cases o with
      | none => simp only [Res.bind_ok]; rw [show Spec.get E.eq (entries t) k = none from this]; rfl
      | some i =>
        obtain ⟨e, _, h2, h3⟩ := this
        simp only [Res.bind_ok]
        rw [h3, h2]; simp
  · intro k
    have := hreal k
    unfold lookup findIter
    cases hf : findIdx false false E { t with last := none } k with
    | diverge => rw [hf] at this; exact this.elim
    | ub => rw [hf] at this; exact this.elim
    | ok o =>
      rw [hf] at this
      cases o with
      | none => rw [show Spec.get E.eq (entries t) k = none from this]; rfl
      | some i =>
        obtain ⟨e, h1, h2, h3⟩ := this
        simp only [Res.bind_ok]
        rw [if_neg (show i ≠ maxCap ({ t with last := none } : Map K V) from h1), h2, h3]

theorem swap_last {a b : Map K V} (h : a.alloc = true ∨ b.alloc = true) : foreignLast a b = none := by
  unfold foreignLast
  rcases h with h | h <;> simp [h]

/-- C34, `swap`, what holds and what does not.  After `a.swap(b)`, if at least one of the maps owns storage: `size`, iteration,
`contains`, `at` and `find` of present keys on `a` are those of the old `b`; but `find(k)` for an absent key is undefined, because
the pointer that `end()` is compared with has stayed behind (`last_slot_` is not exchanged). -/
theorem C34_swap_partial (hE : E.Lawful) {rv : Nat → Nat} (hrv : ∀ x, 256 ≤ rv x ∧ rv x ≤ 1024) {cs cs' : List (Bool × Call K V)}
    {a b : Map K V} (hb : Reached E rv cs b) (hroom : Roomy E (contents E.eq cs)) (_ha : Reached E rv cs' a)
    (hal : a.alloc = true ∨ b.alloc = true) :
    let s := (swapMaps a b).1
    s.size = (contents E.eq cs).length ∧ (∃ l, walk false s = .ok l ∧ l.Perm (contents E.eq cs)) ∧
    (∀ k, contains false false E s k = .ok (Spec.get E.eq (contents E.eq cs) k).isSome) ∧
    (∀ k, atKey false false E s k = .ok ((Spec.get E.eq (contents E.eq cs) k).map (·.2))) ∧
    (∀ k, lookup false false E s k = match Spec.get E.eq (contents E.eq cs) k with
      | some e => .ok (some e)
      | none => .ub) := by
  obtain ⟨hR, hm⟩ := hb.reach hE hrv
  have hget : ∀ k, Spec.get E.eq (entries b) k = Spec.get E.eq (contents E.eq cs) k := Spec.get_perm hE hm hR.distinct
  obtain ⟨h1, h2, h3, h4, h5⟩ := foreign_last hE hR (hroom.perm hm.symm)
  simp only [swapMaps, swap_last hal]
  refine ⟨by rw [← hm.length_eq]; exact h1, ⟨_, h2, hm⟩, fun k => by rw [← hget]; exact h3 k, fun k => by rw [← hget]; exact h4 k,
    fun k => by rw [← hget]; exact h5 k⟩

/-- C34 is violated by copy assignment: whenever `*this` or the source owns storage (so that at least one block is involved), `find` of
an absent key on the assigned map is undefined. -/
theorem C34_copy_assign_find_absent (hE : E.Lawful) {rv : Nat → Nat} (hrv : ∀ x, 256 ≤ rv x ∧ rv x ≤ 1024)
    {cs cs' : List (Bool × Call K V)} {this other : Map K V} (ho : Reached E rv cs other) (hroom : Roomy E (contents E.eq cs))
    (_ht : Reached E rv cs' this) (hal : this.alloc = true ∨ contents E.eq cs ≠ []) (mem : Bool) :
    (∃ s, copyAssign false false E mem this other = .ok s () ∧
      (∀ k, contains false false E s k = .ok (Spec.get E.eq (contents E.eq cs) k).isSome) ∧
      ∀ k, Spec.get E.eq (contents E.eq cs) k = none → lookup false false E s k = .ub) ∨
    copyAssign false false E mem this other = .throw this := by
  obtain ⟨hR, hm⟩ := ho.reach hE hrv
  unfold copyAssign
  rcases copyCtor_spec hE hR (hroom.perm hm.symm) mem with ⟨t', h1, h2, h3, h4⟩ | ⟨⟨t', h1⟩, h2⟩
  · left
    have hp := h3.trans hm
    have hget : ∀ k, Spec.get E.eq (entries t') k = Spec.get E.eq (contents E.eq cs) k := Spec.get_perm hE hp h2.distinct
    have hal' : this.alloc = true ∨ t'.alloc = true := by
      rcases hal with h | h
      · exact Or.inl h
      · right
        rcases h2.st with hf | ⟨c, hl⟩
        · exfalso
          have := h4 hf
          rw [this] at hm
          exact h hm.symm.eq_nil
        · exact hl.alloc
    obtain ⟨_, _, g3, _, g5⟩ := foreign_last hE h2 (hroom.perm hp.symm)
    refine ⟨_, by rw [h1], ?_⟩
    simp only [swapMaps, swap_last hal']
    refine ⟨fun k => by rw [← hget]; exact g3 k, fun k hk => ?_⟩
    rw [g5 k, hget, hk]
  · right
    rw [h1]

/-- C34 is violated by move assignment in the same way. -/
theorem C34_move_assign_find_absent (hE : E.Lawful) {rv : Nat → Nat} (hrv : ∀ x, 256 ≤ rv x ∧ rv x ≤ 1024)
    {cs cs' : List (Bool × Call K V)} {this other : Map K V} (ho : Reached E rv cs other) (hroom : Roomy E (contents E.eq cs))
    (_ht : Reached E rv cs' this) (hal : this.alloc = true ∨ other.alloc = true) :
    (∀ k, contains false false E (moveAssign false this other).1 k = .ok (Spec.get E.eq (contents E.eq cs) k).isSome) ∧
      ∀ k, Spec.get E.eq (contents E.eq cs) k = none → lookup false false E (moveAssign false this other).1 k = .ub := by
  obtain ⟨hR, hm⟩ := ho.reach hE hrv
  obtain ⟨h1, h2, _⟩ := moved_reach hR
  have hget : ∀ k, Spec.get E.eq (entries (moveCtor false other).1) k = Spec.get E.eq (contents E.eq cs) k :=
    Spec.get_perm hE (by rw [h2]; exact hm) h1.distinct
  obtain ⟨_, _, g3, _, g5⟩ := foreign_last hE h1 (by rw [h2]; exact hroom.perm hm.symm)
  have hal' : this.alloc = true ∨ (moveCtor false other).1.alloc = true := hal
  simp only [moveAssign, swapMaps, swap_last hal']
  refine ⟨fun k => by rw [← hget]; exact g3 k, fun k hk => ?_⟩
  rw [g5 k, hget, hk]

/-- C34 is violated by the move constructor: inserting any key into a moved-from map is undefined (it writes into the static
control words), whenever the map had a nonzero threshold, that is, owned storage. -/
theorem C34_moved_from_insert {t : Map K V} (h : 0 < t.thr) (k : K) (v : V) (mem update : Bool) :
    emplace false false E update mem k v (moveCtor false t).2 = .ub := by
  unfold emplace emplaceLoop findOrInsert
  have hh : home E (moveCtor false t).2 k = 0 := by
    unfold home moveCtor emptyMap
    simp
  have hp : probe false false E (moveCtor false t).2 k = .ok (.stop 0 ⟨0, 0⟩) := by
    unfold probe
    rw [hh]
    rfl
  rw [hp]
  have h1 : (decide ((moveCtor false t).2.thr ≤ (moveCtor false t).2.size) || decide (maxDist (moveCtor false t).2 ≤ (⟨0, 0⟩ : Ctrl).uval false)) = false := by
    have e1 : (moveCtor false t).2.thr = t.thr := rfl
    have e2 : (moveCtor false t).2.size = 0 := rfl
    have e3 : maxDist (moveCtor false t).2 = 1024 := by
      unfold maxDist
      rw [show (moveCtor false t).2.look = 4 from rfl]
    have e4 : (⟨0, 0⟩ : Ctrl).uval false = 0 := rfl
    rw [e1, e2, e3, e4, decide_eq_false (by omega)]
    rfl
  simp only [lift]
  rw [h1, if_neg (by decide)]
  rfl

/-- So the hypothesis above is met by every map that owns storage and was not itself moved to: the threshold of a new block of capacity
`cap` is `cap * mlf / 256`, and `max_load_factor` keeps `mlf` at 77 or more. -/
theorem thr_pos {cap m : Nat} (hc : 4 ≤ cap) (hm : 77 ≤ m) : 0 < cap * m / 256 := by
  have : 4 * 77 ≤ cap * m := Nat.mul_le_mul hc hm
  omega

end Verif.Robin
