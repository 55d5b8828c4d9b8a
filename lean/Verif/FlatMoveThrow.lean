/-
Element constructors that throw while a flat16 map moves its elements to a new storage (C134, continued).

FL = `src/jstd/hashmap/flat16_hash_map.h`.

`fail n` says whether the construction of the `n`-th element in the new storage throws.  `drop_deleted_no_grow` (FL:2105-2172), which is
undefined anyway (C70), keeps its moves without exceptions.
-/
import Verif.FlatLife

namespace Verif.Flat.Track
open Verif
open Verif.Spec (Call Ans Distinct)
open Verif.Life (Ev Heap step_ctor step_free step_alloc)

/-! ### The model -/

section Model
variable {K V : Type} (E : Env K) (sec : Nat → Nat) (fail : Nat → Bool)

/-- The loop of `rehash_impl` (FL:1965-1978, 2000-2008), see `transferAllE`.  When the construction in `move_insert_unique` throws (FL:2302-2307)
the control byte is already written (FL:2298-2299), and nothing catches the exception. -/
def transferThrowE (old : Map K V) (bo : Nat) : Nat → List Nat → LT K V → Out (LT K V) Unit
  | _, [], s => .ok s ()
  | n, i :: is, s =>
    match old.slot i with
    | none => .ub
    | some e =>
      liftE (firstEmpty E s.t e.1) fun j =>
        if fail n then .throw { s with t := setUsed s.t j (tagOf E sec e.1) }
        else
          transferThrowE old bo (n + 1) is (emit [.dtor bo i] (emit [.ctor s.blk j]
            { s with t := { setUsed s.t j (tagOf E sec e.1) with slot := upd s.t.slot j (some e), size := s.t.size + 1 } }))

/-- `rehash_impl` (FL:1923-2021), see `rehashImplE`. -/
def rehashThrowE (allowShrink always : Bool) (mem : Mem) (n : Nat) (s : LT K V) : Out (LT K V) Unit :=
  match calcCapacity n with
  | .ub => .ub
  | .diverge => .diverge
  | .ok c =>
    if always || (!allowShrink && decide (cap s.t < c)) || (allowShrink && c != cap s.t) then
      (createE mem c s).bind fun s1 _ =>
        (transferThrowE E sec fail s.t s.blk 0 (usedIdx s.t) s1).bind fun s2 _ =>
          .ok (emit (freeEv s.t s.blk s.gblk) { s2 with t := { s2.t with left := (s2.t.left + W - s2.t.size % W) % W } }) ()
    else .ok s ()

/-- `reorder_or_grow_if_necessary()` (FL:1856-1866), see `reorderOrGrowE`. -/
def reorderOrGrowThrowE (mem : Mem) (s : LT K V) : Out (LT K V) Unit :=
  if reorders s.t then dropDeletedE E sec s else rehashThrowE E sec fail false true mem (cap s.t * 2 % W) s

/-- `find_and_prepare_insert(key)` (FL:2363-2445), see `prepareE`. -/
def prepareThrowE (mem : Mem) (k : K) : Nat → LT K V → Out (LT K V) (Nat × Bool)
  | 0, _ => .diverge
  | f + 1, s =>
    liftE (probe E sec s.t k) fun
      | .hit j => .ok s (j, true)
      | .full => (reorderOrGrowThrowE E sec fail mem s).bind fun s' _ => prepareThrowE mem k f s'
      | .stop i =>
        if s.t.left = 0 then (reorderOrGrowThrowE E sec fail mem s).bind fun s' _ => prepareThrowE mem k f s'
        else
          liftE (delLoop s.t (home E s.t k) i (cap s.t) (home E s.t k)) fun
            | some j => .ok s (j, false)
            | none => .ok { s with t := { s.t with left := s.t.left - 1 } } ((i + bsf32 (matchEmpty s.t i)) &&& s.t.mask, false)

/-- What `emplace_impl` does after the search (FL:2447-2706), see `emplaceE`; the construction of the new element itself does not throw. -/
def finishE (update : Bool) (k : K) (v : V) (s' : LT K V) (r : Nat × Bool) : Out (LT K V) (Nat × Bool) :=
  if r.2 then
    match s'.t.slot r.1 with
    | none => .ub
    | some e => .ok (if update then { s' with t := { s'.t with slot := upd s'.t.slot r.1 (some (e.1, v)) } } else s') (r.1, false)
  else
    .ok (emit [.ctor s'.blk r.1]
      { s' with t := { setUsed s'.t r.1 (tagOf E sec k) with slot := upd s'.t.slot r.1 (some (k, v)), size := s'.t.size + 1 } }) (r.1, true)

/-- `emplace_impl<AlwaysUpdate>` (FL:2447-2706), see `emplaceE`. -/
def emplaceThrowE (update : Bool) (mem : Mem) (k : K) (v : V) (s : LT K V) : Out (LT K V) (Nat × Bool) :=
  (prepareThrowE E sec fail mem k 64 s).bind (finishE E sec update k v)

/-- `rehash(n, read_only)`, `reserve` (FL:1271-1285), see `rehashE`. -/
def rehashCallThrowE (mem : Mem) (readOnly : Bool) (n : Nat) (s : LT K V) : Out (LT K V) Unit :=
  rehashThrowE E sec fail true false mem (if readOnly then max n s.t.size else max (minRequire s.t n) s.t.size) s

/-- `shrink_to_fit(read_only)` (FL:1287-1294), see `shrinkE`. -/
def shrinkThrowE (mem : Mem) (readOnly : Bool) (s : LT K V) : Out (LT K V) Unit :=
  rehashThrowE E sec fail true false mem (if readOnly then s.t.size else minRequire s.t s.t.size) s

/-- `max_load_factor(mlf)` (FL:1128-1153), see `setMlfE`. -/
def setMlfThrowE (mem : Mem) (m r : Nat) (s : LT K V) : Out (LT K V) Unit :=
  let s1 := { s with t := { s.t with mlf := m, rev := r } }
  if thr s1.t < usedCount s.t then
    if cap s.t ≤ 32 ∨ (usedCount s.t + W - s.t.size % W) % W < cap s.t / 8 ∨ cap s.t < minRequire s1.t s.t.size then
      rehashCallThrowE E sec fail mem false s.t.size s1
    else dropDeletedE E sec s1
  else .ok s1 ()

/-- One call (FL:1128-1482), see `execE`. -/
def execThrowE (rv : Nat → Nat) (mem : Mem) : Call K V → LT K V → Out (LT K V) (Ans K V)
  | .insert k v, s => (emplaceThrowE E sec fail false mem k v s).bind readElemE
  | .assign k v, s => (emplaceThrowE E sec fail true mem k v s).bind readElemE
  | .index k d, s => (emplaceThrowE E sec fail false mem k d s).bind readValueE
  | .reserve n, s => (rehashCallThrowE E sec fail mem false n s).bind fun s' _ => .ok s' .unit
  | .rehash n, s => (rehashCallThrowE E sec fail mem false n s).bind fun s' _ => .ok s' .unit
  | .shrink ro, s => (shrinkThrowE E sec fail mem ro s).bind fun s' _ => .ok s' .unit
  | .maxLoad m, s => (setMlfThrowE E sec fail mem (m % 2 ^ 32) (rv m) s).bind fun s' _ => .ok s' .unit
  | c, s => execE E sec rv mem c s

end Model

/-! ### Nothing throws -/

section
variable {K V : Type} {E : Env K} {sec : Nat → Nat} {fail : Nat → Bool}

theorem transferThrowE_never (hf : ∀ n, fail n = false) (old : Map K V) (bo : Nat) : ∀ (is : List Nat) (n : Nat) (s : LT K V),
    transferThrowE E sec fail old bo n is s = liftE (transferAllE E sec old bo is s) fun s' => .ok s' () := by
  intro is
  induction is with
  | nil => intro n s; rfl
  | cons i is ih =>
    intro n s
    unfold transferThrowE transferAllE
    cases old.slot i with
    | none => rfl
    | some e =>
      simp only
      unfold insertUniqueE
      cases firstEmpty E s.t e.1 with
      | ok j =>
        simp only [liftE, Res.bind_ok, hf, Bool.false_eq_true, if_false]
        exact ih _ _
      | _ => rfl

theorem rehashThrowE_never (hf : ∀ n, fail n = false) (sh al : Bool) (mem : Mem) (n : Nat) (s : LT K V) :
    rehashThrowE E sec fail sh al mem n s = rehashImplE E sec sh al mem n s := by
  unfold rehashThrowE rehashImplE
  simp only [transferThrowE_never hf]
  cases calcCapacity n with
  | ok c =>
    simp only
    split
    · cases createE mem c s with
      | ok s1 u =>
        simp only [Out.bind]
        cases transferAllE E sec s.t s.blk (usedIdx s.t) s1 <;> rfl
      | _ => rfl
    · rfl
  | _ => rfl

theorem reorderOrGrowThrowE_never (hf : ∀ n, fail n = false) (mem : Mem) (s : LT K V) :
    reorderOrGrowThrowE E sec fail mem s = reorderOrGrowE E sec mem s := by
  unfold reorderOrGrowThrowE reorderOrGrowE
  rw [rehashThrowE_never hf]

theorem prepareThrowE_never (hf : ∀ n, fail n = false) (mem : Mem) (k : K) : ∀ (f : Nat) (s : LT K V),
    prepareThrowE E sec fail mem k f s = prepareE E sec mem k f s := by
  intro f
  induction f with
  | zero => intro s; rfl
  | succ f ih =>
    intro s
    unfold prepareThrowE prepareE
    simp only [reorderOrGrowThrowE_never hf, ih]
    cases probe E sec s.t k with
    | ok p =>
      cases p with
      | stop i =>
        simp only [liftE]
        split
        · rfl
        · cases delLoop s.t (home E s.t k) i (cap s.t) (home E s.t k) with
          | ok o => cases o <;> rfl
          | _ => rfl
      | _ => rfl
    | _ => rfl

theorem emplaceE_eq (update : Bool) (mem : Mem) (k : K) (v : V) (s : LT K V) :
    emplaceE E sec update mem true k v s = (prepareE E sec mem k 64 s).bind (finishE E sec update k v) := by
  unfold emplaceE
  cases prepareE E sec mem k 64 s with
  | ok s' r =>
    simp only [Out.bind, finishE, if_true]
    cases s'.t.slot r.1 <;> rfl
  | _ => rfl

theorem setMlfThrowE_never (hf : ∀ n, fail n = false) (mem : Mem) (m r : Nat) (s : LT K V) :
    setMlfThrowE E sec fail mem m r s = setMlfE E sec mem m r s := by
  unfold setMlfThrowE setMlfE rehashCallThrowE rehashE
  simp only [rehashThrowE_never hf]

/-- C134 (partial). If no construction throws the calls do what they do in C122.  Missing: those that throw, see below. -/
theorem C134_flat16_partial (hf : ∀ n, fail n = false) (rv : Nat → Nat) (mem : Mem) (c : Call K V) (s : LT K V) :
    execThrowE E sec fail rv mem c s = execE E sec rv mem c s := by
  cases c <;>
    simp only [execThrowE, execE, emplaceThrowE, emplaceE_eq, prepareThrowE_never hf, rehashThrowE_never hf, rehashCallThrowE, rehashE, shrinkE,
      setMlfThrowE_never hf, shrinkThrowE]

/-! ### A control byte without an element -/

/-- The map with an element in slot `i` and a size that counts it. -/
def filled (t : Map K V) (i : Nat) (e : K × V) : Map K V := { t with slot := upd t.slot i (some e), size := t.size + 1 }

/-- The map `t` has the elements `es`, and slot `i` is marked as if `e` were in it, but no element is there. -/
structure Ghost (E : Env K) (sec : Nat → Nat) (t : Map K V) (i : Nat) (e : K × V) (es : List (K × V)) : Prop where
  free : t.slot i = none
  lt : i < cap t
  full : Probed E sec (filled t i e)
  perm : (entries (filled t i e)).Perm (e :: es)

theorem Ghost.size {t : Map K V} {i : Nat} {e : K × V} {es : List (K × V)} (hg : Ghost E sec t i e es) : t.size = es.length := by
  have h := hg.full.size
  rw [hg.perm.length_eq, List.length_cons] at h
  have : (filled t i e).size = t.size + 1 := rfl
  omega

theorem scan_ghost {t : Map K V} {i : Nat} {e : K × V} (hf : t.slot i = none) (k : K) (b : Nat) : ∀ ps : List Nat,
    scan E t k b ps = .ub ∨ (scan E t k b ps = scan E (filled t i e) k b ps ∧ scan E (filled t i e) k b ps ≠ .ok (some i)) := by
  intro ps
  induction ps with
  | nil => right; exact ⟨rfl, by unfold scan; intro h; cases h⟩
  | cons p ps ih =>
    by_cases hp : (b + p) &&& t.mask = i
    · left; unfold scan; rw [hp, hf]
    · have hs : (filled t i e).slot ((b + p) &&& t.mask) = t.slot ((b + p) &&& t.mask) := upd_other _ _ hp
      have hm : (filled t i e).mask = t.mask := rfl
      unfold scan
      rw [hm, hs]
      cases hq : t.slot ((b + p) &&& t.mask) with
      | none => left; rfl
      | some a =>
        simp only
        by_cases heq : E.eq a.1 k = true
        · rw [if_pos heq, if_pos heq]
          right
          refine ⟨rfl, ?_⟩
          intro h
          cases h
          exact hp rfl
        · rw [if_neg heq, if_neg heq]
          exact ih

theorem probeLoop_ghost {t : Map K V} {i : Nat} {e : K × V} (hf : t.slot i = none) (k : K) : ∀ (f b : Nat),
    probeLoop E sec t k f b = .ub ∨
    (probeLoop E sec t k f b = probeLoop E sec (filled t i e) k f b ∧ probeLoop E sec (filled t i e) k f b ≠ .ok (.hit i)) := by
  intro f
  induction f with
  | zero => intro b; right; exact ⟨rfl, by unfold probeLoop; intro h; cases h⟩
  | succ f ih =>
    intro b
    have h1 : readable (filled t i e) b = readable t b := rfl
    have h2 : matchTag (filled t i e) b (tagOf E sec k) = matchTag t b (tagOf E sec k) := rfl
    have h3 : matchEmpty (filled t i e) b = matchEmpty t b := rfl
    have h4 : nextGroup (filled t i e) b = nextGroup t b := rfl
    have h5 : home E (filled t i e) k = home E t k := rfl
    have hr := ih (nextGroup t b)
    unfold probeLoop
    rw [h1, h2, h3, h4, h5]
    split
    · rcases scan_ghost (E := E) (e := e) hf k b (bitsOf (matchTag t b (tagOf E sec k))) with hs | ⟨hs, hs'⟩
      · left; rw [hs]; rfl
      · rw [hs]
        cases hq : scan E (filled t i e) k b (bitsOf (matchTag t b (tagOf E sec k))) with
        | ub => left; rfl
        | diverge => right; exact ⟨rfl, by intro h; cases h⟩
        | ok o =>
          simp only [Res.bind_ok]
          cases o with
          | some j =>
            right
            refine ⟨rfl, ?_⟩
            intro h
            cases h
            exact hs' hq
          | none =>
            simp only
            split
            · right; exact ⟨rfl, by intro h; cases h⟩
            · split
              · right; exact ⟨rfl, by intro h; cases h⟩
              · exact hr
    · left; rfl

theorem Ghost.findIdx {t : Map K V} {i : Nat} {e : K × V} {es : List (K × V)} (hg : Ghost E sec t i e es) (k : K) :
    findIdx E sec t k = .ub ∨
    (findIdx E sec t k = findIdx E sec (filled t i e) k ∧ Flat.findIdx E sec (filled t i e) k ≠ .ok (some i)) := by
  have hp : probe E sec (filled t i e) k = probeLoop E sec (filled t i e) k (cap t) (home E t k) := rfl
  unfold Flat.findIdx
  rw [hp]
  unfold probe
  rcases probeLoop_ghost (E := E) (sec := sec) (e := e) hg.free k (cap t) (home E t k) with h | ⟨h, h'⟩
  · left; rw [h]; rfl
  · right
    rw [h]
    refine ⟨rfl, ?_⟩
    cases hq : probeLoop E sec (filled t i e) k (cap t) (home E t k) with
    | ok p =>
      cases p with
      | hit j =>
        intro hh
        cases hh
        exact h' hq
      | stop j => intro hh; cases hh
      | full => intro hh; cases hh
    | _ => intro hh; cases hh

theorem Ghost.entries {t : Map K V} {i : Nat} {e : K × V} {es : List (K × V)} (hg : Ghost E sec t i e es) : (entries t).Perm es := by
  have h : (Flat.entries (filled t i e)).Perm (e :: Flat.entries t) := perm_upd_some hg.lt t.slot hg.free e
  exact (h.symm.trans hg.perm).cons_inv

theorem Ghost.inv {t : Map K V} {i : Nat} {e : K × V} {es : List (K × V)} (hE : E.Lawful) (hg : Ghost E sec t i e es)
    (hd : Distinct E.eq (e :: es)) : Inv0 E sec (filled t i e) := ⟨hg.full, Spec.Distinct.perm hE hg.perm.symm hd⟩

/-- Looking for the missing element reads a slot in which nothing is. -/
theorem Ghost.lookup_self (hE : E.Lawful) {t : Map K V} {i : Nat} {e : K × V} {es : List (K × V)} (hg : Ghost E sec t i e es)
    (hd : Distinct E.eq (e :: es)) {k : K} (hk : E.eq k e.1 = true) : lookup E sec t k = .ub := by
  have hat : (filled t i e).slot i = some e := upd_self _ _ _
  have hI := hg.inv hE hd
  have hub : Flat.findIdx E sec t k = .ub := by
    rcases hg.findIdx k with h | ⟨_, h⟩
    · exact h
    · exfalso
      rcases findIdx_spec hE hI k with ⟨x, a, h1, h2, h3, h4, _⟩ | ⟨_, h2, _⟩
      · have hax : E.eq a.1 e.1 = true := hE.trans _ _ _ h4 hk
        by_cases hx : x = i
        · rw [hx] at h1; exact h h1
        · have h3' : t.slot x = some a := by rw [← h3]; exact (upd_other _ _ hx).symm
          have hm := hg.entries.mem_iff.mp (mem_entries.mpr ⟨x, h2, h3'⟩)
          have := (List.pairwise_cons.mp hd).1 a hm
          rw [hE.symm _ _ hax] at this; cases this
      · have := absent_iff.mp h2 i hg.lt
        exact this ⟨e, hat, hE.symm _ _ hk⟩
  unfold lookup
  rw [hub]; rfl

/-- Every other answer is right for `es`. -/
theorem Ghost.lookup (hE : E.Lawful) {t : Map K V} {i : Nat} {e : K × V} {es : List (K × V)} (hg : Ghost E sec t i e es)
    (hd : Distinct E.eq (e :: es)) (k : K) : lookup E sec t k = .ub ∨ lookup E sec t k = .ok (Spec.get E.eq es k) := by
  cases hk : E.eq k e.1 with
  | true => exact Or.inl (hg.lookup_self hE hd hk)
  | false =>
    have hI := hg.inv hE hd
    rcases hg.findIdx k with h | ⟨h1, h2⟩
    · left; unfold Flat.lookup; rw [h]; rfl
    · right
      unfold Flat.lookup
      rw [h1]
      rcases findIdx_spec hE hI k with ⟨x, a, g1, g2, g3, g4, _⟩ | ⟨g1, g2, _⟩
      · have hx : x ≠ i := fun hq => h2 (by rw [g1, hq])
        have h3' : t.slot x = some a := by rw [← g3]; exact (upd_other _ _ hx).symm
        have hm := hg.entries.mem_iff.mp (mem_entries.mpr ⟨x, g2, h3'⟩)
        rw [g1]
        simp only [Res.bind_ok, h3']
        rw [(Spec.get_some_iff hE (List.pairwise_cons.mp hd).2).mpr ⟨hm, hE.symm _ _ g4⟩]
      · rw [g1]
        simp only [Res.bind_ok]
        rw [Spec.get_none_iff.mpr]
        intro a ha
        exact Robin.absent_symm hE (g2 a (hg.perm.mem_iff.mpr (List.mem_cons_of_mem _ ha)))

theorem Ghost.used {t : Map K V} {i : Nat} {e : K × V} {es : List (K × V)} (hg : Ghost E sec t i e es) : i ∈ usedIdx t := by
  have hu : usedIdx (filled t i e) = usedIdx t := rfl
  rw [← hu, mem_usedIdx hg.full.toCore]
  have hat : (filled t i e).slot i = some e := upd_self _ _ _
  rw [hat]; rfl

/-- The destructor destroys the element that is not there. -/
theorem Ghost.destroy {s : LT K V} {i : Nat} {e : K × V} {es : List (K × V)} (hg : Ghost E sec s.t i e es) {h : Heap}
    (hr : Heap.run s.log Heap.empty = some h) (hnd : h.live.Nodup) (hfree : (s.blk, i) ∉ h.live) :
    Heap.run (destroyE s).log Heap.empty = none := by
  unfold destroyE emit
  simp only
  rw [Life.run_append, hr]
  simp only [Option.bind_some]
  rw [Life.run_append]
  unfold destroyEv
  rw [Life.run_dtors_none s.blk _ h hnd ⟨i, hg.used, hfree⟩]
  rfl

theorem Ghost.congr {t : Map K V} {i : Nat} {e : K × V} {es es' : List (K × V)} (hg : Ghost E sec t i e es) (hp : es.Perm es') :
    Ghost E sec t i e es' := ⟨hg.free, hg.lt, hg.full, hg.perm.trans (hp.cons e)⟩

/-! ### The loop -/

theorem transferThrow_spec (old : Map K V) (bo : Nat) : ∀ (is : List Nat) (l : List (K × V)) (m : Nat) (s : LT K V) (h : Heap), Probed E sec s.t →
    is.map old.slot = l.map some → is.Nodup → occ s.t + l.length < cap s.t → bo ≠ s.blk → (s.blk, cap s.t) ∈ h.blocks →
    h.live.Nodup → (∀ b i, (b, i) ∈ h.live ↔ (b = s.blk ∧ (s.t.slot i).isSome = true) ∨ (b = bo ∧ i ∈ is)) →
    ∀ j, j < is.length → fail (m + j) = true → (∀ x < j, fail (m + x) = false) →
    ∃ s' l' h' i e, transferThrowE E sec fail old bo m is s = .throw s' ∧ s'.log = s.log ++ l' ∧ Heap.run l' h = some h' ∧ h'.blocks = h.blocks ∧
      h'.live.Nodup ∧ l[j]? = some e ∧ Ghost E sec s'.t i e (l.take j ++ entries s.t) ∧
      (∀ b i, (b, i) ∈ h'.live ↔ (b = s.blk ∧ (s'.t.slot i).isSome = true) ∨ (b = bo ∧ i ∈ is.drop j)) ∧
      s'.blk = s.blk ∧ s'.gblk = s.gblk := by
  intro is
  induction is with
  | nil => intro l m s h _ _ _ _ _ _ _ _ j hj; simp at hj
  | cons i is ih =>
    intro l m s h hp hml hnd hroom hne hblk hlnd hlive j hj hf hf'
    cases l with
    | nil => cases hml
    | cons e l =>
      simp only [List.map_cons, List.cons.injEq] at hml
      have hnd0 := hnd
      rw [List.nodup_cons] at hnd
      rw [List.length_cons] at hroom
      obtain ⟨p, f1, f2, f3⟩ := firstEmpty_spec hp.toCore e.1 (by omega)
      cases j with
      | zero =>
        refine ⟨{ s with t := setUsed s.t p (tagOf E sec e.1) }, [], h, p, e, ?_, by simp, rfl, rfl, hlnd, rfl, ?_, ?_, rfl, rfl⟩
        · unfold transferThrowE
          rw [hml.1]
          simp only
          rw [f1]
          simp only [liftE]
          rw [if_pos (show fail m = true from hf)]
        · refine ⟨f2.free, f2.lt, hp.put f2, ?_⟩
          exact entries_put (E := E) (sec := sec) f2.lt f2.free e
        · intro b x
          rw [hlive]
          rfl
      | succ j =>
        have hf0 : fail m = false := hf' 0 (by omega)
        have hm1 : (s.blk, p) ∉ h.live := by
          rw [hlive, f2.free]
          rintro (⟨_, hq⟩ | ⟨hq, _⟩)
          · cases hq
          · exact hne hq.symm
        have hs1 : h.step (.ctor s.blk p) = some { h with live := (s.blk, p) :: h.live } := step_ctor hblk f2.lt hm1
        have hnd1 : ((s.blk, p) :: h.live).Nodup := List.nodup_cons.mpr ⟨hm1, hlnd⟩
        have hm2 : (bo, i) ∈ (s.blk, p) :: h.live := List.mem_cons_of_mem _ ((hlive _ _).mpr (Or.inr ⟨rfl, by simp⟩))
        have hs2 := step_dtor (h := { h with live := (s.blk, p) :: h.live }) hm2
        let t1 : Map K V := Flat.put E sec s.t p e
        let s1 : LT K V := emit [.dtor bo i] (emit [.ctor s.blk p] { s with t := t1 })
        have hp1 : Probed E sec t1 := hp.put f2
        have ho1 : occ t1 = occ s.t + 1 := by
          have := occ_put (E := E) (sec := sec) f2.lt e
          rw [f3] at this
          simpa using this
        obtain ⟨s', l', h', x, e', g1, g2, g3, g4, g5, g6, g7, g8, g9, g10⟩ := ih l (m + 1) s1
          { h with live := ((s.blk, p) :: h.live).erase (bo, i) } hp1 hml.2 hnd.2 (by
            show occ t1 + l.length < cap s.t
            omega) hne hblk (hnd1.erase _) (by
            intro b x
            show (b, x) ∈ ((s.blk, p) :: h.live).erase (bo, i) ↔ (b = s.blk ∧ (t1.slot x).isSome = true) ∨ (b = bo ∧ x ∈ is)
            rw [List.Nodup.mem_erase_iff hnd1, List.mem_cons, hlive, ne_eq, Prod.mk.injEq, Prod.mk.injEq, List.mem_cons]
            have hsl : t1.slot x = if x = p then some e else s.t.slot x := by
              show upd s.t.slot p (some e) x = _
              by_cases hx : x = p
              · rw [hx, upd_self, if_pos rfl]
              · rw [upd_other _ _ hx, if_neg hx]
            rw [hsl]
            by_cases hb : b = s.blk
            · have hb2 : ¬ b = bo := fun hq => hne (hq.symm.trans hb)
              simp only [hb, hne.symm, false_and, not_false_eq_true, true_and, or_false]
              by_cases hx : x = p
              · simp [hx]
              · simp [hx]
            · simp only [hb, false_and, false_or]
              by_cases hb2 : b = bo
              · simp only [hb2, true_and]
                constructor
                · rintro ⟨h1, h2 | h2⟩
                  · exact absurd h2 h1
                  · exact h2
                · intro h1
                  exact ⟨fun hq => hnd.1 (hq ▸ h1), Or.inr h1⟩
              · simp [hb2]) j (by simpa using hj) (by rw [← hf]; congr 1; omega)
            (fun x hx => by have := hf' (x + 1) (by omega); rw [← this]; congr 1; omega)
        refine ⟨s', [.ctor s.blk p, .dtor bo i] ++ l', h', x, e', ?_, ?_, ?_, g4, g5, by simpa using g6, ?_, g8, g9, g10⟩
        · unfold transferThrowE
          rw [hml.1]
          simp only
          rw [f1]
          simp only [liftE, hf0, Bool.false_eq_true, if_false]
          exact g1
        · rw [g2]
          show s.log ++ [Ev.ctor s.blk p] ++ [Ev.dtor bo i] ++ l' = _
          simp
        · rw [Life.run_append]
          simp only [Heap.run, hs1, Option.bind_some, hs2]
          exact g3
        · refine g7.congr ?_
          rw [List.take_succ_cons, List.cons_append]
          exact ((entries_put (E := E) (sec := sec) f2.lt f2.free e).append_left _).trans List.perm_middle

/-- What a map `s1` is after the construction of its `j`-th element in the new storage has thrown; `s` is the map before the call. -/
structure Lost (E : Env K) (sec : Nat → Nat) (s s1 : LT K V) (j : Nat) : Prop where
  /-- it has forgotten all elements but the first `j` -/
  size : s1.t.size = j
  /-- the old blocks are not its blocks any more, but they have not been given back, and the forgotten elements are alive -/
  blk : s1.blk ≠ s.blk ∧ s1.gblk ≠ s.gblk
  log : ∃ h, Heap.run s1.log Heap.empty = some h ∧ (s.blk, cap s.t) ∈ h.blocks ∧ (s.gblk, s.t.gmask + 2) ∈ h.blocks ∧
    (h.live.filter fun o => o.1 == s.blk).length = s.t.size - j
  /-- the destructor destroys an object that does not exist -/
  destroy : Heap.run (destroyE s1).log Heap.empty = none
  /-- with equal keys only once: looking for the element whose constructor threw reads a slot without an object -/
  self : E.Lawful → Distinct E.eq (entries s.t) → ∀ e, (entries s.t)[j]? = some e → lookup E sec s1.t e.1 = .ub
  /-- so may other calls; those that do not are right for the first `j` elements -/
  lookup : E.Lawful → Distinct E.eq (entries s.t) → ∀ k,
    lookup E sec s1.t k = .ub ∨ lookup E sec s1.t k = .ok (Spec.get E.eq ((entries s.t).take j) k)
  gone : E.Lawful → Distinct E.eq (entries s.t) → ∀ e ∈ (entries s.t).drop j, ∀ x, Flat.lookup E sec s1.t e.1 ≠ .ok (some x)

theorem usedIdx_length {t : Map K V} (hc : Core E sec t) : (usedIdx t).length = t.size := by
  have := congrArg List.length hc.usedIdx_slots
  rw [List.length_map, List.length_map] at this
  rw [this, hc.size]

theorem Distinct.split {eq : K → K → Bool} {l : List (K × V)} {j : Nat} {e : K × V} (hd : Distinct eq l) (he : l[j]? = some e)
    (hs : ∀ a b, eq a b = true → eq b a = true) : Distinct eq (e :: l.take j) := by
  have h : l = l.take j ++ l.drop j := (List.take_append_drop j l).symm
  have hm : e ∈ l.drop j := by
    rw [List.mem_iff_getElem?]
    exact ⟨0, by rw [List.getElem?_drop]; exact he⟩
  unfold Distinct at hd ⊢
  rw [h, List.pairwise_append] at hd
  refine List.pairwise_cons.mpr ⟨?_, hd.1⟩
  intro a ha
  have := hd.2.2 a ha e hm
  cases hq : eq e.1 a.1 with
  | false => rfl
  | true => rw [hs _ _ hq] at this; cases this

theorem rehashThrow_lost {s s2 : LT K V} (hf : Fine s) (hc : Core E sec s.t) {sh al : Bool} {mem : Mem} {n : Nat}
    (hsz : ∀ c, calcCapacity n = .ok c → s.t.size < c) (hx : rehashImplE E sec sh al mem n s = .ok s2 ()) (hb : s2.blk ≠ s.blk ∨ al = true)
    {i : Nat} (hi : i < s.t.size) (hfl : fail i = true) (hfl' : ∀ x < i, fail x = false) :
    ∃ s1, rehashThrowE E sec fail sh al mem n s = .throw s1 ∧ Lost E sec s s1 i := by
  unfold rehashImplE at hx
  unfold rehashThrowE
  cases hcalc : calcCapacity n with
  | ub => rw [hcalc] at hx; cases hx
  | diverge => rw [hcalc] at hx; cases hx
  | ok c =>
    rw [hcalc] at hx
    simp only at hx ⊢
    have hlt := hsz c hcalc
    have hcalc' := hcalc
    rw [calcCapacity_eq] at hcalc'
    obtain ⟨j, hj, rfl, _, _⟩ := Robin.calcCapacity_ok hcalc'
    split at hx
    · rename_i hcond
      rw [if_pos hcond]
      unfold createE createGroup at hx ⊢
      simp only at hx ⊢
      by_cases h1 : mem = .noGroups ∨ memLimit < 2 ^ j
      · rw [if_pos h1] at hx
        simp only at hx
        rw [if_pos h1] at hx
        cases hx
      · rw [if_neg h1] at hx ⊢
        by_cases hmem : mem = .noSlots
        · rw [if_pos hmem] at hx
          simp only at hx
          rw [if_neg h1] at hx
          cases hx
        · rw [if_neg hmem]
          clear hx
          rw [not_or] at h1
          simp only [Out.bind]
          have hj48 : j ≤ 48 := by
            by_contra hc
            have := Robin.pow_two_le (a := 49) (b := j) (by omega)
            unfold memLimit at h1
            omega
          obtain ⟨f1, f2, f3, f4⟩ := freshMap_inv (K := K) (V := V) (E := E) (sec := sec) hj hj48 s.t.mlf s.t.rev
          obtain ⟨h, hl⟩ := hf
          let g := (2 ^ j + 15) / 16 - 1
          let h1' : Heap := { h with blocks := (s.next + 1, 2 ^ j) :: (s.next, g + 2) :: h.blocks }
          have hb1 := hl.blk_lt
          have hb2 := hl.gblk_lt
          have hrun1 : Heap.run [.alloc s.next (g + 2), .alloc (s.next + 1) (2 ^ j)] h = some h1' := by
            simp only [Heap.run]
            rw [step_alloc (by
              intro x hx
              rw [hl.blocks] at hx
              simp only [List.mem_cons, List.not_mem_nil, or_false] at hx
              rcases hx with rfl | rfl <;> simp only <;> omega)]
            simp only [Option.bind_some]
            rw [step_alloc (h := { h with blocks := (s.next, g + 2) :: h.blocks }) (by
              intro x hx
              simp only [hl.blocks] at hx
              simp only [List.mem_cons, List.not_mem_nil, or_false] at hx
              rcases hx with rfl | rfl | rfl <;> simp only <;> omega)]
            rfl
          let s1 : LT K V := emit [.alloc s.next (g + 2), .alloc (s.next + 1) (2 ^ j)]
            { s with t := freshMap (2 ^ j) s.t.mlf s.t.rev, gblk := s.next, blk := s.next + 1, next := s.next + 2 }
          obtain ⟨s', l', h', x, e, r1, r2, r3, r4, r5, r6, r7, r8, r9, r10⟩ := transferThrow_spec (fail := fail) s.t s.blk (usedIdx s.t) (entries s.t) 0 s1 h1'
            f1 hc.usedIdx_slots (nodup_usedIdx _) (by
              show occ (freshMap (2 ^ j) s.t.mlf s.t.rev) + _ < cap (freshMap (2 ^ j) s.t.mlf s.t.rev)
              rw [f3, f4, ← hc.size]; omega) (by
              show s.blk ≠ s.next + 1
              omega) (by
              show (s.next + 1, cap (freshMap (2 ^ j) s.t.mlf s.t.rev)) ∈ _
              rw [f4]; exact List.mem_cons_self) hl.nodup (by
              intro b i
              show (b, i) ∈ h.live ↔ (_ ∧ ((none : Option (K × V)).isSome = true)) ∨ _
              rw [hl.live, mem_usedIdx hc]
              simp) i (by rw [usedIdx_length hc]; exact hi) (by rw [Nat.zero_add]; exact hfl)
              (fun l hl => by rw [Nat.zero_add]; exact hfl' l hl)
          have he0 : entries (freshMap (2 ^ j) s.t.mlf s.t.rev : Map K V) = [] := f2
          have r7' : Ghost E sec s'.t x e ((entries s.t).take i) := by
            refine r7.congr ?_
            show (_ ++ entries (freshMap (2 ^ j) s.t.mlf s.t.rev : Map K V)).Perm _
            rw [he0, List.append_nil]
          have e1 : transferThrowE E sec fail s.t s.blk 0 (usedIdx s.t) s1 = .throw s' := r1
          simp only [s1, g, freshMap] at e1
          rw [e1]
          refine ⟨s', rfl, ?_⟩
          have hlen : ((entries s.t).take i).length = i := by
            rw [List.length_take, ← hc.size]; omega
          have hrun : Heap.run s'.log Heap.empty = some h' := by
            rw [r2]
            show Heap.run (s.log ++ [.alloc s.next (g + 2), .alloc (s.next + 1) (2 ^ j)] ++ l') Heap.empty = _
            rw [Life.run_append, Life.run_append, hl.run]
            simp only [Option.bind_some]
            rw [hrun1]
            exact r3
          have hblk' : s'.blk = s.next + 1 := r9
          have hgblk' : s'.gblk = s.next := r10
          have hne : s.next + 1 ≠ s.blk := by omega
          have hbl : h'.blocks = (s.next + 1, 2 ^ j) :: (s.next, g + 2) :: [(s.blk, cap s.t), (s.gblk, s.t.gmask + 2)] := by
            rw [r4, ← hl.blocks]
          have hsplit : E.Lawful → Distinct E.eq (entries s.t) → Distinct E.eq (e :: (entries s.t).take i) :=
            fun hE hd => Distinct.split hd r6 hE.symm
          refine ⟨by rw [r7'.size, hlen], ⟨by omega, by omega⟩, ⟨h', hrun, by rw [hbl]; simp, by rw [hbl]; simp, ?_⟩, ?_, ?_, ?_, ?_⟩
          · have hp : (h'.live.filter fun o => o.1 == s.blk).Perm (((usedIdx s.t).drop i).map fun i => (s.blk, i)) := by
              rw [List.perm_ext_iff_of_nodup]
              · rintro ⟨b, y⟩
                rw [List.mem_filter, r8]
                simp only [List.mem_map, beq_iff_eq]
                constructor
                · rintro ⟨⟨h1, _⟩ | ⟨h1, h2⟩, h3⟩
                  · exact absurd (h1.symm.trans h3) hne
                  · exact ⟨y, h2, by rw [h3]⟩
                · rintro ⟨y', h2, h3⟩
                  cases h3
                  exact ⟨Or.inr ⟨rfl, h2⟩, rfl⟩
              · exact r5.filter _
              · apply List.Nodup.map (fun x y h => by cases h; rfl)
                exact (nodup_usedIdx s.t).sublist (List.drop_sublist _ _)
            rw [hp.length_eq, List.length_map, List.length_drop, usedIdx_length hc]
          · apply r7'.destroy hrun r5
            rw [r8, r9]
            rintro (⟨_, hq⟩ | ⟨hq, _⟩)
            · rw [r7'.free] at hq; cases hq
            · exact hne hq
          · intro hE hd y hy
            rw [r6] at hy
            cases hy
            exact r7'.lookup_self hE (hsplit hE hd) (hE.refl _)
          · intro hE hd k
            exact r7'.lookup hE (hsplit hE hd) k
          · intro hE hd y hy z hz
            have hxs : Spec.get E.eq ((entries s.t).take i) y.1 = none := by
              rw [Spec.get_none_iff]
              intro w hw
              have hpw := hd
              unfold Distinct at hpw
              rw [← List.take_append_drop i (entries s.t), List.pairwise_append] at hpw
              have := hpw.2.2 w hw y hy
              cases hq : E.eq y.1 w.1 with
              | false => rfl
              | true => rw [hE.symm _ _ hq] at this; cases this
            rcases r7'.lookup hE (hsplit hE hd) y.1 with h1 | h1
            · rw [h1] at hz; cases hz
            · rw [h1, hxs] at hz; cases hz
    · rename_i hcond
      rcases hb with hb | rfl
      · cases hx; exact absurd rfl hb
      · exact absurd (by simp) hcond

theorem emplaceThrow_lost {s s2 : LT K V} (hf : Fine s) (hw : Weak E sec s.t) (hre : reorders s.t = false) {update : Bool} {mem : Mem} {k : K} {v : V}
    {r : Nat × Bool} (hx : emplaceE E sec update mem true k v s = .ok s2 r) (hb : s2.blk ≠ s.blk)
    {i : Nat} (hi : i < s.t.size) (hfl : fail i = true) (hfl' : ∀ x < i, fail x = false) :
    ∃ s1, emplaceThrowE E sec fail update mem k v s = .throw s1 ∧ Lost E sec s s1 i := by
  have fin : ∀ {s' : LT K V} {q : Nat × Bool}, finishE E sec update k v s' q = .ok s2 r → s2.blk = s'.blk := by
    intro s' q h
    unfold finishE at h
    split at h
    · split at h
      · cases h
      · cases h; split <;> rfl
    · cases h; rfl
  have hcap : ∀ c, calcCapacity (cap s.t * 2 % W) = .ok c → s.t.size < c := by
    intro c hcalc
    rw [calcCapacity_eq] at hcalc
    obtain ⟨i, h1, rfl, h2, _⟩ := Robin.calcCapacity_ok hcalc
    have := hw.cap_le
    have := hw.size_le
    have h4 := hw.cap_ge
    have : cap s.t * 2 % W = cap s.t * 2 := Nat.mod_eq_of_lt (by unfold W; omega)
    omega
  have grow : ∀ {f : LT K V → Out (LT K V) (Nat × Bool)}, ((reorderOrGrowE E sec mem s).bind fun s' _ => f s').bind (finishE E sec update k v) = .ok s2 r →
      ∃ s1, reorderOrGrowThrowE E sec fail mem s = .throw s1 ∧ Lost E sec s s1 i := by
    intro f h
    unfold reorderOrGrowE at h
    unfold reorderOrGrowThrowE
    rw [if_neg (by rw [hre]; decide)] at h ⊢
    cases hq : rehashImplE E sec false true mem (cap s.t * 2 % W) s with
    | ok s' u => exact rehashThrow_lost hf hw.toCore hcap hq (Or.inr rfl) hi hfl hfl'
    | _ => rw [hq] at h; cases h
  rw [emplaceE_eq] at hx
  unfold emplaceThrowE
  unfold prepareE at hx
  unfold prepareThrowE
  cases hp : probe E sec s.t k with
  | ok p =>
    rw [hp] at hx
    simp only [liftE] at hx ⊢
    cases p with
    | hit j => exact absurd (fin hx) hb
    | full =>
      obtain ⟨s1, q1, q2⟩ := grow hx
      exact ⟨s1, by simp only [q1]; rfl, q2⟩
    | stop j =>
      simp only at hx ⊢
      split at hx
      · rename_i h0
        rw [if_pos h0]
        obtain ⟨s1, q1, q2⟩ := grow hx
        exact ⟨s1, by simp only [q1]; rfl, q2⟩
      · exfalso
        cases hq : delLoop s.t (home E s.t k) j (cap s.t) (home E s.t k) with
        | ok o =>
          rw [hq] at hx
          simp only at hx
          cases o with
          | some x => exact hb (fin hx)
          | none =>
            simp only [Out.bind] at hx
            exact hb ((fin hx).trans rfl)
        | _ => rw [hq] at hx; cases hx
  | _ => rw [hp] at hx; cases hx

theorem Lost.congr {s s' s1 : LT K V} {j : Nat} (h : Lost E sec s' s1 j) (h1 : s'.t.size = s.t.size) (h2 : s'.t.mask = s.t.mask)
    (h3 : s'.t.gmask = s.t.gmask) (h4 : s'.t.slot = s.t.slot) (h5 : s'.blk = s.blk) (h6 : s'.gblk = s.gblk) : Lost E sec s s1 j := by
  have hcap : cap s'.t = cap s.t := by unfold cap; rw [h2]
  have he : entries s'.t = entries s.t := by unfold entries; rw [hcap, h4]
  obtain ⟨a1, a2, a3, a4, a5, a6, a7⟩ := h
  rw [h5, h6] at a2
  rw [h5, h6, h1, h3, hcap] at a3
  rw [he] at a5 a6 a7
  exact ⟨a1, a2, a3, a4, a5, a6, a7⟩

/-- One call. -/
theorem execThrow_lost {rv : Nat → Nat} (hrv : ∀ x, 81920 ≤ rv x ∧ rv x ≤ 327680) {s s2 : LT K V} (hf : Fine s) (hw : Weak E sec s.t) {mem : Mem}
    {c : Call K V} (hs : Fit s.t c) (hnc : ∀ d, c ≠ .clear d) {x : Ans K V} (hx : execE E sec rv mem c s = .ok s2 x) (hb : s2.blk ≠ s.blk)
    {i : Nat} (hi : i < s.t.size) (hfl : fail i = true) (hfl' : ∀ x < i, fail x = false) :
    ∃ s1, execThrowE E sec fail rv mem c s = .throw s1 ∧ Lost E sec s s1 i := by
  have unit : ∀ {r : Out (LT K V) Unit}, (r.bind fun s' _ => Out.ok s' (.unit : Ans K V)) = .ok s2 x → r = .ok s2 () := by
    intro r h
    cases r with
    | ok s u => cases h; rfl
    | _ => cases h
  have fin : ∀ {r : Out (LT K V) Unit}, (∃ s1, r = .throw s1 ∧ Lost E sec s s1 i) →
      ∃ s1, (r.bind fun s' _ => Out.ok s' (.unit : Ans K V)) = .throw s1 ∧ Lost E sec s s1 i := by
    rintro r ⟨s1, h1, h2⟩
    exact ⟨s1, by rw [h1]; rfl, h2⟩
  have lft : ∀ {α : Type} {r : Res α} {f : α → Ans K V}, (liftE r fun a => .ok s (f a)) = Out.ok s2 x → False := by
    intro α r f h
    cases r with
    | ok a => cases h; exact hb rfl
    | _ => cases h
  have emp : ∀ (update : Bool) (k : K) (v : V) (f : LT K V → Nat × Bool → Out (LT K V) (Ans K V)), reorders s.t = false →
      (∀ s' r s3 y, f s' r = .ok s3 y → s3.blk = s'.blk) →
      (emplaceE E sec update mem true k v s).bind f = .ok s2 x →
      ∃ s1, (emplaceThrowE E sec fail update mem k v s).bind f = .throw s1 ∧ Lost E sec s s1 i := by
    intro update k v f hre hf2 h0
    cases hr : emplaceE E sec update mem true k v s with
    | ok s0 r =>
      rw [hr] at h0
      obtain ⟨s1, q1, q2⟩ := emplaceThrow_lost (fail := fail) hf hw hre hr (by rw [← hf2 _ _ _ _ h0]; exact hb) hi hfl hfl'
      exact ⟨s1, by rw [q1]; rfl, q2⟩
    | _ => rw [hr] at h0; cases h0
  have rd1 : ∀ (s' : LT K V) (r : Nat × Bool) s3 y, readElemE s' r = .ok s3 y → s3.blk = s'.blk := by
    intro s' r s3 y h
    unfold readElemE at h
    split at h <;> cases h
    rfl
  have rd2 : ∀ (s' : LT K V) (r : Nat × Bool) s3 y, readValueE s' r = .ok s3 y → s3.blk = s'.blk := by
    intro s' r s3 y h
    unfold readValueE at h
    split at h <;> cases h
    rfl
  cases c with
  | insert k v => exact emp false k v _ hs rd1 hx
  | assign k v => exact emp true k v _ hs rd1 hx
  | index k v => exact emp false k v _ hs rd2 hx
  | reserve n =>
    obtain ⟨a1, a2, a3⟩ := rehash_args hw (n := n) hs
    exact fin (rehashThrow_lost hf hw.toCore (fun c hc => lt_of_calc hc a1 a3) (unit hx) (Or.inl hb) hi hfl hfl')
  | rehash n =>
    obtain ⟨a1, a2, a3⟩ := rehash_args hw (n := n) hs
    exact fin (rehashThrow_lost hf hw.toCore (fun c hc => lt_of_calc hc a1 a3) (unit hx) (Or.inl hb) hi hfl hfl')
  | shrink ro =>
    obtain ⟨a1, a2, a3⟩ := shrink_args hw (ro := ro) hs
    exact fin (rehashThrow_lost hf hw.toCore (fun c hc => lt_of_calc hc a1 a3) (unit hx) (Or.inl hb) hi hfl hfl')
  | maxLoad m =>
    have h32 : cap s.t ≤ 32 := hs
    have hw1 : Weak E sec { s.t with mlf := m % 2 ^ 32, rev := rv m } :=
      ⟨⟨hw.pow, hw.gmask, hw.cell, hw.mirror, hw.tail, hw.size, hw.left⟩, fun hc => by
        have : cap { s.t with mlf := m % 2 ^ 32, rev := rv m } = cap s.t := rfl
        omega, (hrv m).1, (hrv m).2⟩
    have hf1 : Fine { s with t := { s.t with mlf := m % 2 ^ 32, rev := rv m } } := by
      obtain ⟨h, hl⟩ := hf
      exact ⟨h, hl.congr rfl rfl (fun _ => rfl)⟩
    have hsl := hw.size_le
    obtain ⟨a1, a2, a3⟩ := rehash_args hw1 (n := s.t.size) (Or.inr ⟨Nat.le_refl _, by omega⟩)
    have h0 := unit hx
    simp only [execThrowE]
    apply fin
    unfold setMlfE at h0
    unfold setMlfThrowE
    simp only at h0 ⊢
    split at h0
    · rename_i hc
      rw [if_pos hc]
      rw [if_pos (Or.inl h32)] at h0 ⊢
      obtain ⟨s1, q1, q2⟩ := rehashThrow_lost (fail := fail) hf1 hw1.toCore (fun c hc => lt_of_calc hc a1 a3) h0 (Or.inl hb) hi hfl hfl'
      exact ⟨s1, q1, q2.congr rfl rfl rfl rfl rfl rfl⟩
    · cases h0; exact absurd rfl hb
  | clear d => exact absurd rfl (hnc d)
  | «at» k => exact hs.elim
  | erase k =>
    exfalso
    simp only [execE] at hx
    unfold eraseKeyE at hx
    cases hq : findIdx E sec s.t k with
    | ok o =>
      rw [hq] at hx
      cases o with
      | none => cases hx; exact hb rfl
      | some p =>
        simp only [liftE, eraseSlotE] at hx
        cases hq2 : eraseSlot p s.t with
        | ok t' => rw [hq2] at hx; cases hx; exact hb rfl
        | _ => rw [hq2] at hx; cases hx
    | _ => rw [hq] at hx; cases hx
  | find k => exact (lft hx).elim
  | contains k => exact (lft hx).elim
  | count k => exact (lft hx).elim
  | iterate => exact (lft hx).elim
  | size => cases hx; exact absurd rfl hb
  | empty => cases hx; exact absurd rfl hb

/-- C134, the violation in flat16, after every history of C122: whenever a call other than `clear` would obtain new slots, and the constructor that
moves the `i`-th element throws, the call throws and leaves a map that has lost all later elements, together with the old blocks; the element
itself is marked but not there, so that looking for it and destroying the map are undefined. -/
theorem C134_flat16_throws {rv : Nat → Nat} (hrv : ∀ x, 81920 ≤ rv x ∧ rv x ≤ 327680) {mem0 : Mem} {n : Nat} {s0 s : LT K V}
    (hc0 : makeE mem0 n = .ok s0 ()) {cs : List (Mem × Call K V)} (hg : FitAll E sec rv cs s0.t) {as : List (Ans K V)}
    (hr : runE E sec rv cs s0 = .ok (as, s)) {mem : Mem} {c : Call K V} (hs : Fit s.t c) (hnc : ∀ d, c ≠ .clear d) {x : Ans K V} {s2 : LT K V}
    (hx : execE E sec rv mem c s = .ok s2 x) (hb : s2.blk ≠ s.blk) {i : Nat} (hi : i < s.t.size) (hfl : fail i = true)
    (hfl' : ∀ x < i, fail x = false) : ∃ s1, execThrowE E sec fail rv mem c s = .throw s1 ∧ Lost E sec s s1 i := by
  obtain ⟨h1, h2⟩ := makeE_ok hc0
  obtain ⟨as', s', g1, _, g3, g4⟩ := runE_ok hrv cs s0 (make_weak h1) h2 hg
  rw [hr] at g1
  cases g1
  exact execThrow_lost hrv g4 g3 hs hnc hx hb hi hfl hfl'

end

/-! ### Examples -/

open Verif.Robin (hashEnv hashEnv_lawful)

/-- Whether the call obtains new slots, and whether element 1 cannot be found after the move of element 0 has thrown. -/
def growsAndLoses (c : Call Nat Nat) (s : LT Nat Nat) : Bool :=
  (match execE (hashEnv id) id (fun _ => 131072) .ok c s with | .ok s2 _ => decide (s2.blk ≠ s.blk) | _ => false) && decide (0 < s.t.size) &&
    (match execThrowE (hashEnv id) id (fun n => n == 0) (fun _ => 131072) .ok c s with
    | .throw s1 => decide (s1.t.size = 0) && (match lookup (hashEnv id) id s1.t 1 with | .ok none => true | _ => false)
    | _ => false)

set_option maxRecDepth 100000 in
/-- The hypotheses of `C134_flat16_throws`, for an insertion. -/
example : ∃ s : LT Nat Nat, Weak (hashEnv id) id s.t ∧ Fine s ∧ (!reorders s.t && growsAndLoses (.insert 7 7) s) = true :=
  fine_play (cs := ins 2 1) (by decide +kernel) (by decide +kernel)

set_option maxRecDepth 100000 in
/-- The hypotheses of `C134_flat16_throws`, for `reserve`. -/
example : ∃ s : LT Nat Nat, Weak (hashEnv id) id s.t ∧ Fine s ∧ (decide (s.t.size < 4) && growsAndLoses (.reserve 100) s) = true :=
  fine_play (cs := ins 3 1) (by decide +kernel) (by decide +kernel)

end Verif.Flat.Track
