/-
Lifetimes when `flat16_hash_map` objects are copied, built from a range, moved and swapped (C129).  The map with its log is the
one of `Verif.FlatLife`; several objects in one program are treated as in `Verif.CopyLife`.

FL = `src/jstd/hashmap/flat16_hash_map.h`.

The element type has a destructor that does something; its copy and move constructors may throw.  A constructor of a map that
throws leaves no object behind: no destructor runs for it, only what the constructor itself catches is given back.
The temporary of `insert_unique(first, last)` (FL:2359) is no part of any block; it is not logged.
-/
import Verif.FlatLife
import Verif.Owners
import Verif.FlatIter

namespace Verif.Flat.Track
open Verif
open Verif.Spec (Call Ans Distinct)
open Verif.Life (Ev Heap Shuffle)

/-! ### The model -/

/-- What throws while an element is copied: the copy constructor making the temporary (FL:2359), or the move constructor in the
slot (FL:2344-2350). -/
inductive Throws
  | temp
  | slot
  deriving DecidableEq

section Model
variable {K V : Type} (E : Env K) (sec : Nat → Nat)

/-- `insert_unique(first, last)` (FL:2355-2361) with `insert_unique(value_type &&)` (FL:2333-2353), which marks the control byte as used
(FL:2341-2342) before it constructs the element and counts it afterwards (FL:2351).  `bad n` is what throws at element number `n`. -/
def copyLoopE (bad : Nat → Option Throws) : Nat → List (K × V) → LT K V → Out (LT K V) Unit
  | _, [], s => .ok s ()
  | n, e :: es, s =>
    match bad n with
    | some .temp => .throw s
    | some .slot => liftE (firstEmpty E s.t e.1) fun j => .throw { s with t := setUsed s.t j (tagOf E sec e.1) }
    | none => liftE (insertUniqueE E sec e s) fun s' => copyLoopE bad (n + 1) es s'

/-- The copy constructor (FL:984-1009), see `Flat.copyOf`: the room is obtained outside the `try` block (FL:999), the elements inside
(FL:1000-1008); after an exception there `destroy<true>()` runs. -/
def copyE (mem : Mem) (bad : Nat → Option Throws) (t : Map K V) : Out (LT K V) Unit :=
  (makeE mem (minRequire (blank : Map K V) t.size)).bind fun s _ =>
    liftE (walk t) fun l =>
      match copyLoopE E sec bad 0 l s with
      | .throw s' => .throw (destroyE s')
      | o => o

/-- `insert(first, last)` (FL:1402-1407), see `Flat.insertAll`; `bad n` says that constructing element number `n` throws. -/
def insertAllE (mem : Mem) (bad : Nat → Bool) : Nat → List (K × V) → LT K V → Out (LT K V) Unit
  | _, [], s => .ok s ()
  | n, e :: es, s => (emplaceE E sec false mem (!bad n) e.1 e.2 s).bind fun s' _ => insertAllE mem bad (n + 1) es s'

/-- The range constructor (FL:949-967) and the one from an initializer list (FL:1041-1057), see `Flat.ofList`.  Nothing is caught. -/
def ofListE (mem : Mem) (bad : Nat → Bool) (n : Nat) (l : List (K × V)) : Out (LT K V) Unit :=
  (makeE mem (minRequire (blank : Map K V) (max n l.length))).bind fun s _ => insertAllE E sec mem bad 0 l s

/-- One call on a map.  After an exception the caller goes on. -/
def callE (rv : Nat → Nat) (mem : Mem) (c : Call K V) (s : LT K V) : Res (LT K V) :=
  match execE E sec rv mem c s with
  | .ok s' _ => .ok s'
  | .throw s' => .ok s'
  | .diverge => .diverge
  | .ub => .ub

end Model

variable {K V : Type} {E : Env K} {sec : Nat → Nat}

/-! ### The loop of the copy constructor -/

/-- One element more. -/
theorem insertUniqueE_fine {s : LT K V} (hp : Probed E sec s.t) (hf : Fine s) {e : K × V} (hroom : occ s.t + 2 ≤ cap s.t) :
    ∃ s', insertUniqueE E sec e s = .ok s' ∧ insertUnique E sec e s.t = .ok s'.t ∧ Probed E sec s'.t ∧ Fine s' ∧
      occ s'.t = occ s.t + 1 ∧ cap s'.t = cap s.t := by
  obtain ⟨h, hl⟩ := hf
  obtain ⟨j, f1, f2, f3⟩ := firstEmpty_spec hp.toCore e.1 hroom
  refine ⟨emit [.ctor s.blk j] { s with t := Flat.put E sec s.t j e }, ?_, ?_, hp.put f2,
    hl.put f2.lt f2.free (t' := Flat.put E sec s.t j e) (e := e) rfl rfl rfl, ?_, rfl⟩
  · unfold insertUniqueE
    rw [f1]; rfl
  · unfold insertUnique
    rw [f1]; rfl
  · have := occ_put (E := E) (sec := sec) f2.lt e
    rw [f3] at this
    simpa [emit] using this

theorem copyLoopE_ok {bad : Nat → Option Throws} : ∀ (l : List (K × V)) (n : Nat) (s : LT K V), Probed E sec s.t → Fine s →
    occ s.t + l.length < cap s.t → (∀ i, i < l.length → bad (n + i) = none) →
    ∃ s', copyLoopE E sec bad n l s = .ok s' () ∧ insertAllUnique E sec l s.t = .ok s'.t ∧ Probed E sec s'.t ∧ Fine s' := by
  intro l
  induction l with
  | nil => intro n s hp hf _ _; exact ⟨s, rfl, rfl, hp, hf⟩
  | cons e l ih =>
    intro n s hp hf hroom hbad
    rw [List.length_cons] at hroom
    obtain ⟨s1, h1, h2, h3, h4, h5, h6⟩ := insertUniqueE_fine hp hf (e := e) (by omega)
    obtain ⟨s', g1, g2, g3, g4⟩ := ih (n + 1) s1 h3 h4 (by omega) (fun i hi => by
      have := hbad (i + 1) (by simpa using hi)
      rwa [show n + 1 + i = n + (i + 1) by omega])
    refine ⟨s', ?_, ?_, g3, g4⟩
    · unfold copyLoopE
      rw [show bad n = none from hbad 0 (by simp)]
      simp only [h1, liftE]
      exact g1
    · unfold insertAllUnique
      rw [h2]
      exact g2

theorem copyLoopE_temp {bad : Nat → Option Throws} : ∀ (l : List (K × V)) (n : Nat) (s : LT K V) (x : Nat), Probed E sec s.t → Fine s →
    occ s.t + l.length < cap s.t → x < l.length → (∀ i, i < x → bad (n + i) = none) → bad (n + x) = some .temp →
    ∃ s', copyLoopE E sec bad n l s = .throw s' ∧ Probed E sec s'.t ∧ Fine s' := by
  intro l
  induction l with
  | nil => intro n s x _ _ _ hx; cases hx
  | cons e l ih =>
    intro n s x hp hf hroom hx hbad hat
    rw [List.length_cons] at hroom
    cases x with
    | zero =>
      refine ⟨s, ?_, hp, hf⟩
      unfold copyLoopE
      rw [show bad n = _ from hat]
    | succ x =>
      obtain ⟨s1, h1, h2, h3, h4, h5, h6⟩ := insertUniqueE_fine hp hf (e := e) (by omega)
      obtain ⟨s', g1, g3, g4⟩ := ih (n + 1) s1 x h3 h4 (by omega) (by simpa using hx) (fun i hi => by
        have := hbad (i + 1) (by omega)
        rwa [show n + 1 + i = n + (i + 1) by omega]) (by rwa [show n + 1 + x = n + (x + 1) by omega])
      refine ⟨s', ?_, g3, g4⟩
      unfold copyLoopE
      rw [show bad n = none from hbad 0 (by omega)]
      simp only [h1, liftE]
      exact g1

/-- A used byte over a slot without an element: `destroy` destroys what is not there. -/
theorem destroyE_marked {s : LT K V} {h : Heap} (hl : Led s h) {i b : Nat} (hi : i < cap s.t) (hc : 4 ≤ cap s.t) (hn : s.t.slot i = none)
    (hb : b < 128) : Heap.run (destroyE { s with t := setUsed s.t i b }).log Heap.empty = none := by
  unfold destroyE
  show Heap.run (s.log ++ (destroyEv _ s.blk ++ _)) _ = _
  rw [Life.run_append, hl.run]
  simp only [Option.bind_some]
  rw [Life.run_append]
  unfold destroyEv
  rw [Life.run_dtors_none s.blk _ h hl.nodup ⟨i, ?_, ?_⟩]
  · rfl
  · unfold usedIdx
    rw [List.mem_filter, List.mem_range, decide_eq_true_eq]
    have hcap : cap (setUsed s.t i b) = cap s.t := by unfold setUsed; split <;> rfl
    refine ⟨by rw [hcap]; exact hi, ?_⟩
    have hne : i ≠ i + cap s.t := by omega
    unfold setUsed
    split
    · show upd (upd s.t.ctrl i b) (i + cap s.t) b i < 128
      rw [upd_other _ _ hne, upd_self]
      exact hb
    · show upd s.t.ctrl i b i < 128
      rw [upd_self]
      exact hb
  · rw [hl.live, hn]
    simp

theorem copyLoopE_slot {bad : Nat → Option Throws} : ∀ (l : List (K × V)) (n : Nat) (s : LT K V) (x : Nat), Probed E sec s.t → Fine s →
    occ s.t + l.length < cap s.t → x < l.length → (∀ i, i < x → bad (n + i) = none) → bad (n + x) = some .slot →
    ∃ s' h, copyLoopE E sec bad n l s = .throw s' ∧ Heap.run s'.log Heap.empty = some h ∧ Heap.run (destroyE s').log Heap.empty = none := by
  intro l
  induction l with
  | nil => intro n s x _ _ _ hx; cases hx
  | cons e l ih =>
    intro n s x hp hf hroom hx hbad hat
    rw [List.length_cons] at hroom
    cases x with
    | zero =>
      obtain ⟨h, hl⟩ := hf
      obtain ⟨j, f1, f2, f3⟩ := firstEmpty_spec hp.toCore e.1 (by omega)
      refine ⟨{ s with t := setUsed s.t j (tagOf E sec e.1) }, h, ?_, hl.run,
        destroyE_marked hl f2.lt hp.toCore.cap_ge f2.free (Core.tag_lt _)⟩
      unfold copyLoopE
      rw [show bad n = _ from hat]
      simp only [f1, liftE]
    | succ x =>
      obtain ⟨s1, h1, h2, h3, h4, h5, h6⟩ := insertUniqueE_fine hp hf (e := e) (by omega)
      obtain ⟨s', h, g1, g3, g4⟩ := ih (n + 1) s1 x h3 h4 (by omega) (by simpa using hx) (fun i hi => by
        have := hbad (i + 1) (by omega)
        rwa [show n + 1 + i = n + (i + 1) by omega]) (by rwa [show n + 1 + x = n + (x + 1) by omega])
      refine ⟨s', h, ?_, g3, g4⟩
      unfold copyLoopE
      rw [show bad n = none from hbad 0 (by omega)]
      simp only [h1, liftE]
      exact g1

/-! ### C129: the copy constructor -/

/-- The room the copy constructor obtains is more than enough. -/
theorem copy_room {t : Map K V} (hw : Core E sec t) (hs : t.size < 2 ^ 47) {mem : Mem} {s : LT K V}
    (hm : makeE mem (minRequire (blank : Map K V) t.size) = .ok s ()) :
    Probed E sec s.t ∧ Fine s ∧ occ s.t + (entries t).length < cap s.t := by
  obtain ⟨h1, h2⟩ := makeE_ok hm
  obtain ⟨g1, g2, j, g3, g4, g5, g6, g7⟩ := make_ok (clean := true) (E := E) (sec := sec) h1
  refine ⟨g1.toProbed, h2, ?_⟩
  have hcap : cap s.t = 2 ^ j := by
    rw [g5]; unfold cap freshMap
    exact Nat.sub_add_cancel Nat.one_le_two_pow
  have hreq : minRequire (blank : Map K V) t.size = t.size * 2 := by
    show t.size * 131072 % W / 65536 = _
    rw [Nat.mod_eq_of_lt (by unfold W; omega)]
    omega
  have h8 : occ s.t = 0 := by
    rw [g1.occ_eq, g1.clean rfl, g1.size, g2]; rfl
  have := g1.toCore.cap_ge
  rw [h8, hcap, ← hw.size]
  omega

/-- C129 (partial).  A copy constructor that returns has built the map of the plain model; its log is in order, as many objects are
alive as the source has elements, and destroying the copy leaves nothing.  Missing: the exceptions, see the theorems below. -/
theorem C129_copy_partial {t : Map K V} (hw : Core E sec t) (hs : t.size < 2 ^ 47) {mem : Mem}
    {bad : Nat → Option Throws} (hb : ∀ i, i < t.size → bad i = none) {s : LT K V} (hc : copyE E sec mem bad t = .ok s ()) :
    copyOf E sec mem t = .ok s.t () ∧ s.t.size = t.size ∧ (entries s.t).Perm (entries t) ∧ InOrder s ∧ Fine s ∧
      (t.size ≤ 16 → Weak E sec s.t) := by
  unfold copyE at hc
  cases hm : makeE mem (minRequire (blank : Map K V) t.size) with
  | ub => rw [hm] at hc; cases hc
  | diverge => rw [hm] at hc; cases hc
  | throw s1 => rw [hm] at hc; cases hc
  | ok s1 u =>
    rw [hm] at hc
    simp only [Out.bind_ok, walk_spec hw, liftE] at hc
    obtain ⟨h1, h2, h3⟩ := copy_room hw hs hm
    obtain ⟨s', g1, g2, g3, g4⟩ := copyLoopE_ok (bad := bad) (entries t) 0 s1 h1 h2 h3 (fun i hi => by
      rw [Nat.zero_add]; exact hb i (by rw [hw.size]; exact hi))
    rw [g1] at hc
    cases hc
    have hco : copyOf E sec mem t = .ok s.t () := by
      unfold copyOf
      rw [(makeE_ok hm).1]
      simp only [Out.bind_ok, walk_spec hw, lift, g2]
    obtain ⟨t2, k1, k2, k3, k4, _, _, k7, _⟩ := insertAllUnique_spec (entries t) s1.t h1 h3
    rw [g2, Res.ok.injEq] at k1
    subst k1
    obtain ⟨m1, m2, j, m3, m4, m5, m6, m7⟩ := make_ok (clean := true) (E := E) (sec := sec) (makeE_ok hm).1
    rw [m2, List.append_nil] at k3
    refine ⟨hco, by rw [g3.size, k3.length_eq, hw.size], k3, g4.inOrder g3.toCore, g4, fun h16 => ⟨g3.toCore, fun hq => ?_, ?_, ?_⟩⟩
    · have hcap : cap s.t = 2 ^ j := by
        have : cap s.t = cap s1.t := by unfold cap; rw [k4]
        rw [this, m5]; unfold cap freshMap
        exact Nat.sub_add_cancel Nat.one_le_two_pow
      have hreq : minRequire (blank : Map K V) t.size = t.size * 2 := by
        show t.size * 131072 % W / 65536 = _
        rw [Nat.mod_eq_of_lt (by unfold W; omega)]
        omega
      have hj5 : 2 ^ j ≤ 32 := by
        rcases m7 with m7 | m7
        · omega
        · have h9 : 2 ^ j < 2 ^ 6 := by omega
          have h10 : j < 6 := (Nat.pow_lt_pow_iff_right (by decide)).mp h9
          exact Robin.pow_two_le (a := j) (b := 5) (by omega)
      omega
    · rw [k7]; exact m1.rev_lo
    · rw [k7]; exact m1.rev_hi

/-- C129.  A copy that throws while making the temporary for an element leaves nothing: every element constructed before is
destroyed and both blocks are given back.  So for element types whose move constructor does not throw, a failed copy loses
nothing. -/
theorem C129_copy_throws {t : Map K V} (hw : Core E sec t) (hs : t.size < 2 ^ 47) {mem : Mem} {s1 : LT K V}
    (hm : makeE mem (minRequire (blank : Map K V) t.size) = .ok s1 ()) {bad : Nat → Option Throws} {x : Nat} (hx : x < t.size)
    (hb : ∀ i, i < x → bad i = none) (hbx : bad x = some .temp) :
    ∃ s, copyE E sec mem bad t = .throw s ∧ Heap.run s.log Heap.empty = some Heap.empty := by
  obtain ⟨h1, h2, h3⟩ := copy_room hw hs hm
  obtain ⟨s', g1, g3, h, hl⟩ := copyLoopE_temp (bad := bad) (entries t) 0 s1 x h1 h2 h3 (by rw [← hw.size]; exact hx)
    (fun i hi => by rw [Nat.zero_add]; exact hb i hi) (by rw [Nat.zero_add]; exact hbx)
  refine ⟨destroyE s', ?_, destroyE_run hl g3.toCore⟩
  unfold copyE
  rw [hm]
  simp only [Out.bind_ok, walk_spec hw, liftE, g1]

/-- C129.  When the request for groups fails nothing has happened. -/
theorem C129_copy_no_groups {t : Map K V} {n : Nat} (hn : calcCapacity (minRequire (blank : Map K V) t.size) = .ok n)
    (bad : Nat → Option Throws) : ∃ s : LT K V, copyE E sec .noGroups bad t = .throw s ∧ s.log = [] := by
  unfold copyE makeE
  rw [hn]
  simp only
  unfold createE createGroup
  simp only [true_or, if_true, Out.bind]
  exact ⟨_, rfl, rfl⟩

/-! ### C129: where the copy constructor goes wrong -/

/-- C129, violated: the move constructor of the element throws in its slot.  The control byte is already marked, so the handler
destroys an element that was never constructed. -/
theorem C129_copy_move_throws {t : Map K V} (hw : Core E sec t) (hs : t.size < 2 ^ 47) {mem : Mem} {s1 : LT K V}
    (hm : makeE mem (minRequire (blank : Map K V) t.size) = .ok s1 ()) {bad : Nat → Option Throws} {x : Nat} (hx : x < t.size)
    (hb : ∀ i, i < x → bad i = none) (hbx : bad x = some .slot) :
    ∃ s, copyE E sec mem bad t = .throw s ∧ Heap.run s.log Heap.empty = none := by
  obtain ⟨h1, h2, h3⟩ := copy_room hw hs hm
  obtain ⟨s', h, g1, g3, g4⟩ := copyLoopE_slot (bad := bad) (entries t) 0 s1 x h1 h2 h3 (by rw [← hw.size]; exact hx)
    (fun i hi => by rw [Nat.zero_add]; exact hb i hi) (by rw [Nat.zero_add]; exact hbx)
  refine ⟨destroyE s', ?_, g4⟩
  unfold copyE
  rw [hm]
  simp only [Out.bind_ok, walk_spec hw, liftE, g1]

/-- C129, violated: the request for slots fails.  It is made outside the `try` block, so the groups are never given back. -/
theorem C129_copy_no_slots {t : Map K V} (hs : t.size < 2 ^ 47) (bad : Nat → Option Throws) :
    ∃ s h, copyE E sec .noSlots bad t = .throw s ∧ Heap.run s.log Heap.empty = some h ∧ h.blocks ≠ [] := by
  have hreq : minRequire (blank : Map K V) t.size = t.size * 2 := by
    show t.size * 131072 % W / 65536 = _
    rw [Nat.mod_eq_of_lt (by unfold W; omega)]
    omega
  have hle : minRequire (blank : Map K V) t.size ≤ 2 ^ 48 := by rw [hreq]; omega
  obtain ⟨s, h1, h, h2, h3⟩ := C122_failed_constructor (K := K) (V := V) hle
  refine ⟨s, h, ?_, h2, h3⟩
  unfold copyE
  rw [h1]; rfl

/-! ### C129: ranges -/

/-- Range insertion with nothing throwing agrees with the plain model and keeps the log in order. -/
theorem insertAllE_same (hE : E.Lawful) {mem : Mem} (hmem : mem ≠ .noSlots) {bad : Nat → Bool} : ∀ (l : List (K × V)) (n : Nat) (s : LT K V)
    (m : Spec.Map K V), Reach true E sec s.t → Fine s → (entries s.t).Perm m → (∀ i, i < l.length → bad (n + i) = false) →
    Same (insertAllE E sec mem bad n l s) (insertAll E sec mem l s.t) := by
  intro l
  induction l with
  | nil => intro n s m _ hf _ _; exact ⟨rfl, rfl, hf⟩
  | cons e l ih =>
    intro n s m hR hf hm hbad
    have hp := emplace_ok hE hR hm false hmem e.1 e.2 (Or.inl rfl)
    have hsm := emplaceE_same hf hR.weak false hmem e.1 e.2
    unfold insertAllE insertAll
    rw [show bad n = false from hbad 0 (by simp)]
    apply Same.bind hsm
    intro s' a hf' ho
    rw [ho] at hp
    obtain ⟨i, b⟩ := a
    obtain ⟨g1, _, _, _, _, g2⟩ := hp
    exact ih (n + 1) s' _ g1 hf' g2 (fun i hi => by
      have := hbad (i + 1) (by simpa using hi)
      rwa [show n + 1 + i = n + (i + 1) by omega])

/-- C129 (partial).  A range or initializer-list constructor that returns: the map is that of the plain model, the log is in order,
as many objects are alive as the map has elements, and its destructor leaves nothing.  Missing: exceptions, see
`C129_range_throws`. -/
theorem C129_range_partial (hE : E.Lawful) {mem : Mem} (hmem : mem ≠ .noSlots) {bad : Nat → Bool} {n : Nat} {l : List (K × V)}
    (hb : ∀ i, i < l.length → bad i = false) {s : LT K V} (hc : ofListE E sec mem bad n l = .ok s ()) :
    ofList E sec mem n l = .ok s.t () ∧ Reach true E sec s.t ∧
      (entries s.t).Perm (l.foldl (fun m e => Spec.insert E.eq m e.1 e.2) []) ∧ InOrder s ∧ Fine s := by
  unfold ofListE at hc
  cases hm : makeE mem (minRequire (blank : Map K V) (max n l.length)) with
  | ub => rw [hm] at hc; cases hc
  | diverge => rw [hm] at hc; cases hc
  | throw s1 => rw [hm] at hc; cases hc
  | ok s1 u =>
    rw [hm] at hc
    simp only [Out.bind_ok] at hc
    obtain ⟨h1, h2⟩ := makeE_ok hm
    obtain ⟨g1, g2, _⟩ := make_ok (clean := true) (E := E) (sec := sec) h1
    have hsm := insertAllE_same hE hmem (bad := bad) l 0 s1 [] g1 h2 (by rw [g2]) (fun i hi => by rw [Nat.zero_add]; exact hb i hi)
    rw [hc] at hsm
    have ho : ofList E sec mem n l = insertAll E sec mem l s1.t := by
      unfold ofList
      rw [h1]; rfl
    rw [← ho] at hsm
    cases hl : ofList E sec mem n l with
    | ub => rw [hl] at hsm; exact hsm.elim
    | diverge => rw [hl] at hsm; exact hsm.elim
    | throw t1 => rw [hl] at hsm; exact hsm.elim
    | ok t1 v =>
      rw [hl] at hsm
      obtain ⟨rfl, _, hf⟩ := hsm
      obtain ⟨k1, k2⟩ := C75_from_range hE hmem n l hl
      exact ⟨rfl, k1, k2, hf.inOrder k1.toCore, hf⟩

/-- A new key whose element cannot be constructed. -/
theorem emplaceE_throws {s : LT K V} (hR : Reach true E sec s.t) (hf : Fine s) {mem : Mem} (hmem : mem ≠ .noSlots) {k : K} {v : V}
    (hk : Absent E s.t k) :
    ∃ s' h, emplaceE E sec false mem false k v s = .throw s' ∧ Heap.run s'.log Heap.empty = some h ∧
      h.blocks.length = 2 ∧ h.live.length = s.t.size := by
  obtain ⟨j, h1, h2, h3⟩ := hR.weak.pow
  have hsp := prepare_weak mem k 64 j s.t hR.weak h3 (by omega)
  have hsm := prepareE_same hmem k 64 j s hR.weak hf h3
  have hnr : reorders s.t = false := not_reorders hR.toCore hR.counted (hR.clean rfl)
  unfold emplaceE
  generalize prepareE E sec mem k 64 s = o at hsm
  generalize prepare E sec mem k 64 s.t = o' at hsm hsp
  match o, o', hsm, hsp with
  | .ub, .ub, _, hsp =>
    have : reorders s.t = true := hsp
    rw [hnr] at this; cases this
  | .throw s1, .throw t1, ⟨e1, h, hl⟩, hsp =>
    subst e1
    obtain ⟨g1, g2⟩ := hsp hmem
    exact ⟨s1, h, rfl, hl.run, by rw [hl.blocks]; rfl, by rw [hl.length g1.toCore, g1.size, g2.length_eq, hR.size]⟩
  | .ok s1 r, .ok t1 (i, true), ⟨e1, e2, h, hl⟩, hsp =>
    subst e1
    obtain ⟨g1, g2, g3, e, g4, g5⟩ := hsp
    exfalso
    have hmem' : e ∈ entries s.t := g2.mem_iff.mp (mem_entries.mpr ⟨i, g3, g4⟩)
    have := hk e hmem'
    rw [g5] at this
    cases this
  | .ok s1 r, .ok t1 (i, false), ⟨e1, e2, h, hl⟩, hsp =>
    subst e1; subst e2
    obtain ⟨g1, g2, g3, _, g5, _⟩ := hsp
    refine ⟨{ s1 with t := setUsed s1.t i (tagOf E sec k) }, h, ?_, hl.run, by rw [hl.blocks]; rfl, ?_⟩
    · simp only [Out.bind, Bool.false_eq_true, if_false]
    · rw [hl.length g1, g1.size, g5.length_eq, hR.size]

theorem insertAllE_throws (hE : E.Lawful) {mem : Mem} (hmem : mem ≠ .noSlots) {bad : Nat → Bool} (e : K × V) (r : List (K × V)) :
    ∀ (l : List (K × V)) (n : Nat) (s : LT K V) (m : Spec.Map K V), Reach true E sec s.t → Fine s → (entries s.t).Perm m →
    (∀ i, i < l.length → bad (n + i) = false) → bad (n + l.length) = true →
    Spec.get E.eq (l.foldl (fun m e => Spec.insert E.eq m e.1 e.2) m) e.1 = none →
    ∃ s' h a b, insertAllE E sec mem bad n (l ++ e :: r) s = .throw s' ∧ Heap.run s'.log Heap.empty = some h ∧ h.blocks.length = 2 ∧
      l = a ++ b ∧ h.live.length = (a.foldl (fun m e => Spec.insert E.eq m e.1 e.2) m).length := by
  intro l
  induction l with
  | nil =>
    intro n s m hR hf hm _ hb hg
    obtain ⟨s', h, g1, g2, g3, g4⟩ := emplaceE_throws (v := e.2) hR hf hmem (k := e.1) (fun x hx =>
      Robin.absent_symm hE (Spec.get_none_iff.mp hg x (hm.mem_iff.mp hx)))
    refine ⟨s', h, [], [], ?_, g2, g3, rfl, by rw [g4, hR.size, hm.length_eq]; rfl⟩
    show insertAllE E sec mem bad n (e :: r) s = _
    unfold insertAllE
    rw [show bad n = true from hb]
    simp only [Bool.not_true, g1, Out.bind]
  | cons x l ih =>
    intro n s m hR hf hm hbad hb hg
    have hp := emplace_ok hE hR hm false hmem x.1 x.2 (Or.inl rfl)
    have hsm := emplaceE_same hf hR.weak false hmem x.1 x.2
    show ∃ s' h a b, insertAllE E sec mem bad n (x :: (l ++ e :: r)) s = _ ∧ _
    unfold insertAllE
    rw [show bad n = false from hbad 0 (by simp)]
    simp only [Bool.not_false]
    generalize emplaceE E sec false mem true x.1 x.2 s = o at hsm
    generalize emplace E sec false mem true x.1 x.2 s.t = o' at hsm hp
    match o, o', hsm, hp with
    | .throw s1, .throw t1, ⟨e1, h, hl⟩, ⟨g1, g2⟩ =>
      subst e1
      exact ⟨s1, h, [], x :: l, rfl, hl.run, by rw [hl.blocks]; rfl, rfl, by rw [hl.length g1.toCore, g1.size, g2.length_eq]; rfl⟩
    | .ok s1 q, .ok t1 (i, w), ⟨e1, e2, hf1⟩, ⟨g1, _, _, _, _, g2⟩ =>
      subst e1
      obtain ⟨s', h, a, b, k1, k2, k3, k4, k5⟩ := ih (n + 1) s1 _ g1 hf1 g2 (fun i hi => by
        have := hbad (i + 1) (by simpa using hi)
        rwa [show n + 1 + i = n + (i + 1) by omega]) (by
        rw [List.length_cons] at hb
        rwa [show n + 1 + l.length = n + (l.length + 1) by omega]) hg
      exact ⟨s', h, x :: a, b, k1, k2, k3, by rw [k4]; rfl, k5⟩

/-- C129, violated: constructing an element of a range throws.  The constructor catches nothing, so both blocks stay allocated
and the elements constructed before (those of a part `a` of the range) are never destroyed. -/
theorem C129_range_throws (hE : E.Lawful) {mem : Mem} (hmem : mem ≠ .noSlots) {bad : Nat → Bool} {n : Nat} {l r : List (K × V)} {e : K × V}
    {s1 : LT K V} (hm : makeE mem (minRequire (blank : Map K V) (max n (l ++ e :: r).length)) = .ok s1 ())
    (hb : ∀ i, i < l.length → bad i = false) (hbe : bad l.length = true)
    (hnew : Spec.get E.eq (l.foldl (fun m e => Spec.insert E.eq m e.1 e.2) []) e.1 = none) :
    ∃ s h a b, ofListE E sec mem bad n (l ++ e :: r) = .throw s ∧ Heap.run s.log Heap.empty = some h ∧ h.blocks.length = 2 ∧
      l = a ++ b ∧ h.live.length = (a.foldl (fun m e => Spec.insert E.eq m e.1 e.2) []).length := by
  obtain ⟨h1, h2⟩ := makeE_ok hm
  obtain ⟨g1, g2, _⟩ := make_ok (clean := true) (E := E) (sec := sec) h1
  obtain ⟨s, h, a, b, k⟩ := insertAllE_throws hE hmem (bad := bad) e r l 0 s1 [] g1 h2 (by rw [g2])
    (fun i hi => by rw [Nat.zero_add]; exact hb i hi) (by rw [Nat.zero_add]; exact hbe) hnew
  refine ⟨s, h, a, b, ?_, k.2⟩
  unfold ofListE
  rw [hm]
  exact k.1

/-! ### Events are only added -/

/-- The log of the outcome continues that of `s`. -/
def Ext {α : Type} (s : LT K V) : Out (LT K V) α → Prop
  | .ok s' _ => s.log <+: s'.log
  | .throw s' => s.log <+: s'.log
  | _ => True

/-- The same for a function that does not throw. -/
def ExtR (s : LT K V) : Res (LT K V) → Prop
  | .ok s' => s.log <+: s'.log
  | _ => True

theorem Ext.trans {α : Type} {s s1 : LT K V} (h : s.log <+: s1.log) {o : Out (LT K V) α} (ho : Ext s1 o) : Ext s o := by
  cases o with
  | ok s2 a => exact h.trans ho
  | throw s2 => exact h.trans ho
  | diverge => trivial
  | ub => trivial

theorem ExtR.trans {s s1 : LT K V} (h : s.log <+: s1.log) {o : Res (LT K V)} (ho : ExtR s1 o) : ExtR s o := by
  cases o with
  | ok s2 => exact h.trans ho
  | diverge => trivial
  | ub => trivial

theorem Ext.bind {α β : Type} {s : LT K V} {o : Out (LT K V) α} (h : Ext s o) {f : LT K V → α → Out (LT K V) β}
    (hf : ∀ s' a, Ext s' (f s' a)) : Ext s (o.bind f) := by
  cases o with
  | ok s' a => exact (hf s' a).trans h
  | throw s' => exact h
  | diverge => trivial
  | ub => trivial

theorem ExtR.bind {α : Type} {s : LT K V} {r : Res α} {f : α → Res (LT K V)} (hf : ∀ a, ExtR s (f a)) : ExtR s (r.bind f) := by
  cases r with
  | ok a => exact hf a
  | diverge => trivial
  | ub => trivial

theorem ExtR.then {s : LT K V} {r : Res (LT K V)} (h : ExtR s r) {f : LT K V → Res (LT K V)} (hf : ∀ a, ExtR a (f a)) : ExtR s (r.bind f) := by
  cases r with
  | ok a => exact (hf a).trans h
  | diverge => trivial
  | ub => trivial

theorem Ext.lift {α β : Type} {s : LT K V} {r : Res α} {f : α → Out (LT K V) β} (hf : ∀ a, Ext s (f a)) : Ext s (liftE r f) := by
  cases r with
  | ok a => exact hf a
  | diverge => trivial
  | ub => trivial

theorem Ext.liftR {β : Type} {s : LT K V} {r : Res (LT K V)} (h : ExtR s r) {f : LT K V → Out (LT K V) β} (hf : ∀ a, Ext a (f a)) :
    Ext s (liftE r f) := by
  cases r with
  | ok a => exact (hf a).trans h
  | diverge => trivial
  | ub => trivial

theorem ext_emit (s : LT K V) (l : List Ev) (t : Map K V) : s.log <+: (emit l { s with t := t }).log := List.prefix_append _ _

theorem createE_ext (mem : Mem) (c : Nat) (s : LT K V) : Ext s (createE mem c s) := by
  unfold createE
  split
  · exact List.prefix_append _ _
  · split
    · exact List.prefix_refl _
    · exact List.prefix_append _ _
  · trivial
  · trivial

theorem insertUniqueE_ext (e : K × V) (s : LT K V) : ExtR s (insertUniqueE E sec e s) :=
  ExtR.bind fun _ => List.prefix_append _ _

theorem transferAllE_ext (old : Map K V) (bo : Nat) : ∀ (is : List Nat) (s : LT K V), ExtR s (transferAllE E sec old bo is s) := by
  intro is
  induction is with
  | nil => intro s; exact List.prefix_refl _
  | cons i is ih =>
    intro s
    unfold transferAllE
    split
    · trivial
    · exact ExtR.then (insertUniqueE_ext _ s) fun s' => (ih (emit [.dtor bo i] s')).trans (List.prefix_append _ _)

theorem rehashImplE_ext (a b : Bool) (mem : Mem) (n : Nat) (s : LT K V) : Ext s (rehashImplE E sec a b mem n s) := by
  unfold rehashImplE
  split
  · trivial
  · trivial
  · split
    · rename_i c _ _
      have h1 := createE_ext mem c s
      generalize createE mem c s = o at h1
      match o, h1 with
      | .ok s1 _, h1 =>
        simp only
        have h2 := transferAllE_ext (E := E) (sec := sec) s.t s.blk (usedIdx s.t) s1
        generalize transferAllE E sec s.t s.blk (usedIdx s.t) s1 = o2 at h2
        match o2, h2 with
        | .ok s2, h2 => exact (List.IsPrefix.trans h1 h2).trans (List.prefix_append _ _)
        | .diverge, _ => trivial
        | .ub, _ => trivial
      | .throw s1, h1 => exact h1
      | .diverge, _ => trivial
      | .ub, _ => trivial
    · exact List.prefix_refl _

theorem dropLoopE_ext : ∀ (f i : Nat) (s : LT K V), ExtR s (dropLoopE E sec f i s) := by
  intro f
  induction f with
  | zero => intro i s; unfold dropLoopE; split; exacts [trivial, List.prefix_refl _]
  | succ f ih =>
    intro i s
    unfold dropLoopE
    split
    · split
      · exact ih _ _
      · split
        · trivial
        · refine ExtR.bind fun j => ?_
          split
          · exact ih _ _
          · split
            · exact (ih _ _).trans (List.prefix_append _ _)
            · split
              · trivial
              · exact ih _ _
    · exact List.prefix_refl _

theorem dropDeletedE_ext (s : LT K V) : Ext s (dropDeletedE E sec s) := by
  have h := dropLoopE_ext (E := E) (sec := sec) (2 * cap s.t) 0 { s with t := convertAll s.t }
  unfold dropDeletedE
  split
  · rename_i s' hq
    rw [hq] at h
    exact h
  · trivial
  · trivial

theorem reorderOrGrowE_ext (mem : Mem) (s : LT K V) : Ext s (reorderOrGrowE E sec mem s) := by
  unfold reorderOrGrowE
  split
  · exact dropDeletedE_ext s
  · exact rehashImplE_ext _ _ _ _ s

theorem prepareE_ext (mem : Mem) (k : K) : ∀ (f : Nat) (s : LT K V), Ext s (prepareE E sec mem k f s) := by
  intro f
  induction f with
  | zero => intro s; trivial
  | succ f ih =>
    intro s
    unfold prepareE
    refine Ext.lift fun r => ?_
    cases r with
    | hit j => exact List.prefix_refl _
    | full => exact Ext.bind (reorderOrGrowE_ext mem s) fun s' _ => ih s'
    | stop i =>
      simp only
      split
      · exact Ext.bind (reorderOrGrowE_ext mem s) fun s' _ => ih s'
      · refine Ext.lift fun r => ?_
        cases r with
        | some j => exact List.prefix_refl _
        | none => exact List.prefix_refl _

theorem emplaceE_ext (u : Bool) (mem : Mem) (c : Bool) (k : K) (v : V) (s : LT K V) : Ext s (emplaceE E sec u mem c k v s) := by
  refine Ext.bind (prepareE_ext mem k 64 s) fun s' r => ?_
  split
  · split
    · trivial
    · split
      · exact List.prefix_refl _
      · exact List.prefix_refl _
  · split
    · exact List.prefix_append _ _
    · exact List.prefix_refl _

theorem clearE_ext (d : Bool) (s : LT K V) : Ext s (clearE d s) := by
  unfold clearE
  split
  · exact (createE_ext .ok 4 (destroyE s)).trans (List.prefix_append _ _)
  · exact Ext.lift fun _ => List.prefix_append _ _

theorem execE_ext (rv : Nat → Nat) (mem : Mem) (c : Call K V) (s : LT K V) : Ext s (execE E sec rv mem c s) := by
  have hr : ∀ (s : LT K V) (r : Nat × Bool), Ext s (readElemE s r) := by
    intro s r; unfold readElemE; split; exacts [trivial, List.prefix_refl _]
  have hv : ∀ (s : LT K V) (r : Nat × Bool), Ext s (readValueE s r) := by
    intro s r; unfold readValueE; split; exacts [trivial, List.prefix_refl _]
  cases c with
  | insert k v => exact Ext.bind (emplaceE_ext _ _ _ _ _ s) hr
  | assign k v => exact Ext.bind (emplaceE_ext _ _ _ _ _ s) hr
  | index k v => exact Ext.bind (emplaceE_ext _ _ _ _ _ s) hv
  | find k => exact Ext.lift fun _ => List.prefix_refl _
  | contains k => exact Ext.lift fun _ => List.prefix_refl _
  | count k => exact Ext.lift fun _ => List.prefix_refl _
  | «at» k => trivial
  | erase k =>
    refine Ext.bind ?_ fun s' _ => List.prefix_refl _
    refine Ext.lift fun r => ?_
    cases r with
    | none => exact List.prefix_refl _
    | some i => exact Ext.liftR (s := s) (r := eraseSlotE i s) (ExtR.bind (s := s) fun _ => List.prefix_append _ _) fun _ => List.prefix_refl _
  | size => exact List.prefix_refl _
  | empty => exact List.prefix_refl _
  | clear d => exact Ext.bind (clearE_ext d s) fun s' _ => List.prefix_refl _
  | reserve n => exact Ext.bind (rehashImplE_ext _ _ _ _ s) fun s' _ => List.prefix_refl _
  | rehash n => exact Ext.bind (rehashImplE_ext _ _ _ _ s) fun s' _ => List.prefix_refl _
  | shrink ro => exact Ext.bind (rehashImplE_ext _ _ _ _ s) fun s' _ => List.prefix_refl _
  | maxLoad m =>
    refine Ext.bind ?_ fun s' _ => List.prefix_refl _
    unfold setMlfE
    simp only
    split
    · split
      · exact Ext.trans (s1 := { s with t := { s.t with mlf := m % 2 ^ 32, rev := rv m } }) (List.prefix_refl _) (rehashImplE_ext _ _ _ _ _)
      · exact Ext.trans (s1 := { s with t := { s.t with mlf := m % 2 ^ 32, rev := rv m } }) (List.prefix_refl _) (dropDeletedE_ext _)
    · exact List.prefix_refl _
  | iterate => exact Ext.lift fun _ => List.prefix_refl _

/-! ### C130: programs with several maps -/

/-- A constructor call: an empty map of capacity `n`, or one filled from a range. -/
inductive New (K V : Type)
  | empty (mem : Mem) (n : Nat)
  | range (mem : Mem) (n : Nat) (l : List (K × V))

/-- What a constructor that returns leaves; programs in which a constructor throws are not considered. -/
def done (o : Out (LT K V) Unit) : Res (LT K V) :=
  match o with
  | .ok s _ => .ok s
  | .throw _ => .ub
  | .diverge => .diverge
  | .ub => .ub

theorem done_ok {o : Out (LT K V) Unit} {s : LT K V} (h : done o = .ok s) : o = .ok s () := by
  cases o with
  | ok s' u => cases h; rfl
  | throw s' => cases h
  | diverge => cases h
  | ub => cases h

theorem InOrder.heap {s : LT K V} (h : InOrder s) : ∃ g, Heap.run s.log Heap.empty = some g ∧ g.live.length = s.t.size := by
  obtain ⟨⟨g, h1, _, h3⟩, _⟩ := h
  exact ⟨g, h1, h3⟩

/-- `flat16_hash_map` as a class of objects: constructors that return (FL:928-967), the copy constructor for at most 16 elements
(FL:984-1009), the calls of `Fit`, the destructor (FL:1072-1074).  A larger copy may be destroyed, but it miscounts its empty bytes, so
little is known about its use. -/
def flatClass (E : Env K) (sec : Nat → Nat) (hE : E.Lawful) (rv : Nat → Nat) (hrv : ∀ x, 81920 ≤ rv x ∧ rv x ≤ 327680) :
    Owners.Class (LT K V) (New K V) Mem (Mem × Call K V) where
  log s := s.log
  drop s := destroyEv s.t s.blk ++ freeEv s.t s.blk s.gblk
  size s := s.t.size
  make
    | .empty mem n => done (makeE mem n)
    | .range mem n l => done (ofListE E sec mem (fun _ => false) n l)
  copy mem s := done (copyE E sec mem (fun _ => none) s.t)
  act o s := callE E sec rv o.1 o.2 s
  left := none
  leaves := fun _ h => by cases h
  good s := Weak E sec s.t ∧ Fine s
  fitNew
    | .empty mem n => ∃ s : LT K V, makeE mem n = .ok s ()
    | .range mem n l => mem ≠ .noSlots ∧ ∃ s, ofListE E sec mem (fun _ => false) n l = .ok s ()
  fitCopy mem s := s.t.size ≤ 16 ∧ ∃ s', copyE E sec mem (fun _ => none) s.t = .ok s' ()
  fit o s := o.1 ≠ .noSlots ∧ Fit s.t o.2
  run := fun s h => (h.2.inOrder h.1.toCore).heap
  dropped := fun s h => by
    obtain ⟨g, hl⟩ := h.2
    exact destroyE_run hl h.1.toCore
  made := by
    intro n hn
    cases n with
    | empty mem n =>
      obtain ⟨s, hs⟩ := hn
      obtain ⟨h1, h2⟩ := makeE_ok hs
      exact ⟨s, by simp only [hs, done], make_weak h1, h2⟩
    | range mem n l =>
      obtain ⟨hm, s, hs⟩ := hn
      obtain ⟨_, h2, _, _, h3⟩ := C129_range_partial hE hm (fun _ _ => rfl) hs
      exact ⟨s, by simp only [hs, done], h2.weak, h3⟩
  copied := by
    intro mem s h hf
    obtain ⟨h1, s', hs⟩ := hf
    obtain ⟨_, _, _, _, g5, g6⟩ := C129_copy_partial h.1.toCore (by omega) (fun _ _ => rfl) hs
    exact ⟨s', by simp only [hs, done], g6 h1, g5⟩
  acted := by
    intro o s h hf
    obtain ⟨h1, h2⟩ := execE_ok hrv h.1 h.2 hf.1 hf.2
    have h3 := execE_ext (E := E) (sec := sec) rv o.1 o.2 s
    unfold callE
    generalize execE E sec rv o.1 o.2 s = x at h1 h3
    generalize exec E sec rv o.1 o.2 s.t = y at h1 h2
    match x, y, h1, h2, h3 with
    | .ok s1 a, .ok t1 b, ⟨e1, e2, e3⟩, hK, ⟨l, hl⟩ => subst e1; exact ⟨s1, rfl, ⟨hK, e3⟩, l, hl.symm⟩
    | .throw s1, .throw t1, ⟨e1, e3⟩, hK, ⟨l, hl⟩ => subst e1; exact ⟨s1, rfl, ⟨hK, e3⟩, l, hl.symm⟩

/-- C130 (partial).  A program with any number of `flat16_hash_map` objects that are constructed, copied, moved from, swapped, used and destroyed
in any order: every block is requested and given back once, every element is constructed and destroyed once, the objects alive
are those of the maps that exist, each content belongs to one object, and nothing is left when all maps are gone.  Missing:
exceptions in constructors (`C129_copy_throws` and the violations), assignment, larger copies, what `Fit` excludes. -/
theorem C130_flat16_partial (hE : E.Lawful) {rv : Nat → Nat} (hrv : ∀ x, 81920 ≤ rv x ∧ rv x ≤ 327680)
    {xs : List (Owners.Act (New K V) Mem (Mem × Call K V))} (hf : Owners.FitAll (flatClass E sec hE rv hrv) xs Owners.World.start) :
    ∃ w, Owners.run (flatClass E sec hE rv hrv) xs Owners.World.start = .ok w ∧ Owners.Clean (flatClass E sec hE rv hrv) w :=
  Owners.program hf

/-! ### Cases -/

open Verif.Robin (hashEnv hashEnv_lawful)

/-- Integer keys, default load factor. -/
abbrev natClass : Owners.Class (LT Nat Nat) (New Nat Nat) Mem (Mem × Call Nat Nat) :=
  flatClass (hashEnv id) id (hashEnv_lawful id) (fun _ => 131072) (fun _ => by simp)

/-- A sufficient test for `Owners.Fit`. -/
def actB (w : Owners.World (LT Nat Nat)) : Owners.Act (New Nat Nat) Mem (Mem × Call Nat Nat) → Bool
  | .make i (.empty mem n) => (w.own i).isNone && (match (makeE mem n : Out (LT Nat Nat) Unit) with | .ok _ _ => true | _ => false)
  | .make i (.range mem n l) => (w.own i).isNone && decide (mem ≠ .noSlots) &&
      (match ofListE (hashEnv id) id mem (fun _ => false) n l with | .ok _ _ => true | _ => false)
  | .copy i j mem => (w.own i).isNone && (match (w.own j).bind w.con with
      | none => false
      | some c => decide (c.t.size ≤ 16) && (match copyE (hashEnv id) id mem (fun _ => none) c.t with | .ok _ _ => true | _ => false))
  | .move i j => (w.own i).isNone && decide (i ≠ j)
  | .swap _ _ => true
  | .call i o => match (w.own i).bind w.con with
      | none => false
      | some c => decide (o.1 ≠ .noSlots) && (match o.2 with
        | .insert _ _ | .assign _ _ | .index _ _ => !reorders c.t
        | .find _ | .contains _ | .count _ | .erase _ | .size | .empty | .iterate => true
        | .clear d => d && decide (4 < cap c.t)
        | _ => false)
  | .drop _ => true

/-- A sufficient test for `Owners.FitAll`. -/
def progB : List (Owners.Act (New Nat Nat) Mem (Mem × Call Nat Nat)) → Owners.World (LT Nat Nat) → Bool
  | [], _ => true
  | x :: xs, w => actB w x && (match Owners.step natClass x w with | .ok w' => progB xs w' | _ => true)

theorem out_ok {o : Out (LT Nat Nat) Unit} (h : (match o with | .ok _ _ => true | _ => false) = true) : ∃ s, o = .ok s () := by
  cases o with
  | ok s u => exact ⟨s, rfl⟩
  | _ => cases h

theorem actB_sound {w : Owners.World (LT Nat Nat)} {x : Owners.Act (New Nat Nat) Mem (Mem × Call Nat Nat)} (h : actB w x = true) :
    Owners.Fit natClass w x := by
  cases x with
  | make i n =>
    cases n with
    | empty mem n =>
      simp only [actB, Bool.and_eq_true, Option.isNone_iff_eq_none] at h
      exact ⟨h.1, out_ok h.2⟩
    | range mem n l =>
      simp only [actB, Bool.and_eq_true, Option.isNone_iff_eq_none, decide_eq_true_eq] at h
      exact ⟨h.1.1, h.1.2, out_ok h.2⟩
  | copy i j mem =>
    simp only [actB, Bool.and_eq_true, Option.isNone_iff_eq_none] at h
    refine ⟨h.1, ?_⟩
    have h2 := h.2
    split at h2
    · cases h2
    · rename_i c hc
      rw [Bool.and_eq_true, decide_eq_true_eq] at h2
      exact ⟨c, hc, h2.1, out_ok h2.2⟩
  | move i j =>
    simp only [actB, Bool.and_eq_true, Option.isNone_iff_eq_none, decide_eq_true_eq] at h
    exact h
  | swap i j => trivial
  | call i o =>
    simp only [actB] at h
    split at h
    · cases h
    · rename_i c hc
      rw [Bool.and_eq_true, decide_eq_true_eq] at h
      refine ⟨c, hc, h.1, ?_⟩
      have h2 := h.2
      obtain ⟨mem, o⟩ := o
      cases o with
      | insert k v => simpa [Fit] using h2
      | assign k v => simpa [Fit] using h2
      | index k v => simpa [Fit] using h2
      | clear d =>
        rw [Bool.and_eq_true, decide_eq_true_eq] at h2
        exact h2
      | rehash n => cases h2
      | reserve n => cases h2
      | shrink ro => cases h2
      | maxLoad x => cases h2
      | «at» k => cases h2
      | _ => trivial
  | drop i => trivial

theorem progB_sound : ∀ (xs : List (Owners.Act (New Nat Nat) Mem (Mem × Call Nat Nat))) (w : Owners.World (LT Nat Nat)), progB xs w = true →
    Owners.FitAll natClass xs w := by
  intro xs
  induction xs with
  | nil => intro w _; trivial
  | cons x xs ih =>
    intro w h
    unfold progB at h
    rw [Bool.and_eq_true] at h
    refine ⟨actB_sound h.1, fun w' hw => ih w' ?_⟩
    have h2 := h.2
    rw [hw] at h2
    exact h2

/-- Two maps, a copy, a moved map, a swap, insertions with growth, erasures; a map is given a new name after it was moved from. -/
def prog : List (Owners.Act (New Nat Nat) Mem (Mem × Call Nat Nat)) :=
  [.make 0 (.empty .ok 4), .call 0 (.ok, .insert 1 1), .call 0 (.ok, .insert 2 2), .call 0 (.ok, .insert 3 3), .make 1 (.range .ok 0 [(7, 7), (8, 8), (7, 9)]),
   .copy 2 0 .ok, .call 0 (.ok, .erase 1), .swap 0 1, .move 3 0, .make 0 (.empty .ok 9), .call 3 (.ok, .insert 9 9), .call 3 (.noGroups, .insert 10 10),
   .call 2 (.ok, .erase 3), .call 1 (.ok, .clear true), .drop 0, .swap 2 3, .call 2 (.ok, .find 9)]

set_option maxRecDepth 100000 in
/-- A program for `C130_flat16_partial`: in the end three maps hold six elements. -/
example : progB prog Owners.World.start = true ∧ (match Owners.run natClass prog Owners.World.start with
    | .ok w => decide (w.num = 4) && decide (((List.range w.num).map fun k => (w.con k).elim 0 natClass.size).sum = 6) | _ => false) = true := by
  decide +kernel

set_option maxRecDepth 100000 in
example : ∃ w, Owners.run natClass (prog ++ [.drop 1, .drop 2, .drop 3]) Owners.World.start = .ok w ∧ Owners.Clean natClass w :=
  C130_flat16_partial (hashEnv_lawful id) _ (progB_sound _ _ (by decide +kernel))

/-- A map with three elements, for the copies. -/
theorem copy_case : ∃ s : LT Nat Nat, Weak (hashEnv id) id s.t ∧ Fine s ∧ (decide (s.t.size = 3) &&
    (match copyE (hashEnv id) id .ok (fun _ => none) s.t with | .ok c _ => decide (c.t.size = 3) && decide (c.log.length = 5) | _ => false) &&
    (match copyE (hashEnv id) id .ok (fun n => if n = 2 then some .temp else none) s.t with | .throw c => decide (c.log.length = 8) | _ => false) &&
    (match copyE (hashEnv id) id .ok (fun n => if n = 2 then some .slot else none) s.t with | .throw c => decide (c.log.length = 9) | _ => false) &&
    (match calcCapacity (minRequire (blank : Map Nat Nat) s.t.size) with | .ok n => decide (n = 8) | _ => false)) = true :=
  fine_play (cs := ins 3 1) (by decide +kernel) (by decide +kernel)

/-- `C129_copy_partial`, `C129_copy_throws`, `C129_copy_move_throws`, `C129_copy_no_slots` have instances. -/
example : ∃ s : LT Nat Nat, Core (hashEnv id) id s.t ∧ s.t.size = 3 ∧ (∃ c, copyE (hashEnv id) id .ok (fun _ => none) s.t = .ok c ()) ∧
    ∃ s1 : LT Nat Nat, makeE .ok (minRequire (blank : Map Nat Nat) s.t.size) = .ok s1 () := by
  obtain ⟨s, h1, _, h3⟩ := copy_case
  simp only [Bool.and_eq_true, decide_eq_true_eq] at h3
  refine ⟨s, h1.toCore, h3.1.1.1.1, ?_, ?_⟩
  · have h4 := h3.1.1.1.2
    split at h4
    · rename_i c u hc
      exact ⟨c, hc⟩
    · cases h4
  · rw [h3.1.1.1.1]
    exact ⟨_, rfl⟩

/-- `C129_range_partial` and `C129_range_throws` have instances. -/
example : (∃ s, ofListE (hashEnv id) id .ok (fun _ => false) 0 [(1, 1), (2, 2), (1, 3)] = .ok s ()) ∧
    (∃ s1 : LT Nat Nat, makeE .ok (minRequire (blank : Map Nat Nat) (max 0 ([(1, 1), (2, 2)] ++ (3, 3) :: []).length)) = .ok s1 ()) ∧
    Spec.get (hashEnv id).eq ([(1, 1), (2, 2)].foldl (fun m e => Spec.insert (hashEnv id).eq m e.1 e.2) []) 3 = none :=
  ⟨⟨_, rfl⟩, ⟨_, rfl⟩, by decide⟩

end Verif.Flat.Track
