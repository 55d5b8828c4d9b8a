/-
Element constructors that throw while a robin16 map moves its elements to a new storage (C134, continued).

R16 = `src/jstd/hashmap/robin16_hash_map.h`.

`fail n` says whether the construction of the `n`-th element in the new storage (R16:3462-3468) throws.  The moves of elements that are already
in the new storage (`insert_to_place`, R16:2962-3023) and the construction of the element that an insertion adds (C126) are kept without exceptions.
-/
import Verif.Rob16Life

namespace Verif.Rob16.Track
open Verif
open Verif.Spec (Call Ans Distinct)
open Verif.Life (Ev Heap step_ctor step_free step_alloc)

/-! ### The model -/

section Model
variable {K V : Type} (md : Mode) (E : Env K) (sec : Nat → Nat) (fail : Nat → Bool)

/-- The loop of `rehash_impl` (R16:2416-2429, 2447-2455), see `transferAllE`.  When the construction in `move_insert_unique` throws (R16:3462-3468)
the control word is already written (R16:3451-3460), and nothing catches the exception. -/
def transferThrowE (old : Map K V) (bo : Nat) : Nat → List Nat → LT K V → Out (LT K V) Unit
  | _, [], s => .ok s ()
  | n, i :: is, s =>
    match old.slot i with
    | none => .ub
    | some e =>
      if fail n then
        liftE (freeUnroll s.t (home E s.t e.1) 4 (home E s.t e.1) 0) fun r =>
          liftE (makeRoomE md true r.1 ⟨r.2, tagOf E sec e.1⟩ s) fun q =>
            .throw { q.1 with t := { q.1.t with slot := upd q.1.t.slot r.1 none } }
      else liftE (insertUniqueE md E sec e s) fun s' => transferThrowE old bo (n + 1) is (emit [.dtor bo i] s')

/-- `rehash_impl` (R16:2378-2467), see `rehashImplE`. -/
def rehashThrowE (allowShrink always : Bool) (mem : Mem) (n : Nat) (s : LT K V) : Out (LT K V) Unit :=
  match calcCapacity n with
  | .ub => .ub
  | .diverge => .diverge
  | .ok c =>
    if always || (!allowShrink && decide (cap s.t < c)) || (allowShrink && c != cap s.t) then
      (createE mem c s).bind fun s1 _ =>
        if s.t.clen = 0 then .ub
        else
          (transferThrowE md E sec fail s.t s.blk 0 (usedIdx s.t) s1).bind fun s2 _ => .ok (emit (freeEv s.t s.blk s.gblk) s2) ()
    else .ok s ()

/-- `grow_if_necessary()` (R16:2322-2325), see `growE`. -/
def growThrowE (mem : Mem) (s : LT K V) : Out (LT K V) Unit := rehashThrowE md E sec fail false true mem (cap s.t * 2 % W) s

/-- `find_or_prepare_insert(key)` (R16:2828-2960), see `prepareE`. -/
def prepareThrowE (mem : Mem) (k : K) : Nat → LT K V → Out (LT K V) (Nat × Option Nat)
  | 0, _ => .diverge
  | f + 1, s =>
    liftE (unroll E sec s.t k 4 (home E s.t k) 0) fun
      | .hit j => .ok s (j, none)
      | .full => (growThrowE md E sec fail mem s).bind fun s' _ => prepareThrowE mem k f s'
      | .stop i d =>
        if s.t.thr ≤ s.t.size then (growThrowE md E sec fail mem s).bind fun s' _ => prepareThrowE mem k f s' else .ok s (i, some d)

/-- `emplace_impl<AlwaysUpdate>` (R16:3040-3369), see `emplaceE`; the construction of the new element itself does not throw. -/
def emplaceThrowE (update : Bool) (mem : Mem) (k : K) (v : V) : Nat → LT K V → Out (LT K V) (Nat × Bool)
  | 0, _ => .diverge
  | f + 1, s =>
    (prepareThrowE md E sec fail mem k 64 s).bind fun s' r =>
      match r.2 with
      | none =>
        match s'.t.slot r.1 with
        | none => .ub
        | some e => .ok (if update then { s' with t := { s'.t with slot := upd s'.t.slot r.1 (some (e.1, v)) } } else s') (r.1, false)
      | some d =>
        liftE (makeRoomE md false r.1 ⟨d, tagOf E sec k⟩ s') fun q =>
          if q.2 then (growThrowE md E sec fail mem q.1).bind fun s'' _ => emplaceThrowE update mem k v f s''
          else
            .ok (emit [.ctor q.1.blk r.1]
              { q.1 with t := { q.1.t with slot := upd q.1.t.slot r.1 (some (k, v)), size := q.1.t.size + 1 } }) (r.1, true)

/-- `rehash(n, read_only)`, `reserve` (R16:1677-1691), see `rehashE`. -/
def rehashCallThrowE (mem : Mem) (readOnly : Bool) (n : Nat) (s : LT K V) : Out (LT K V) Unit :=
  rehashThrowE md E sec fail true false mem (if readOnly then max n s.t.size else max (minRequire s.t n) s.t.size) s

/-- `shrink_to_fit(read_only)` (R16:1693-1700), see `shrinkE`. -/
def shrinkThrowE (mem : Mem) (readOnly : Bool) (s : LT K V) : Out (LT K V) Unit :=
  rehashThrowE md E sec fail true false mem (if readOnly then s.t.size else minRequire s.t s.t.size) s

/-- `max_load_factor(mlf)` (R16:1505-1524), see `setMlfE`. -/
def setMlfThrowE (mem : Mem) (m r : Nat) (s : LT K V) : Out (LT K V) Unit :=
  let s1 := { s with t := { s.t with mlf := m, rev := r } }
  if s.t.thr < s.t.size ∧ cap s.t < minRequire s1.t s.t.size then rehashCallThrowE md E sec fail mem false s.t.size s1 else .ok s1 ()

/-- One call (R16:1505-1885), see `execE`. -/
def execThrowE (rv : Nat → Nat) (mem : Mem) : Call K V → LT K V → Out (LT K V) (Ans K V)
  | .insert k v, s => (emplaceThrowE md E sec fail false mem k v 64 s).bind readElemE
  | .assign k v, s => (emplaceThrowE md E sec fail true mem k v 64 s).bind readElemE
  | .index k d, s => (emplaceThrowE md E sec fail false mem k d 64 s).bind readValueE
  | .reserve n, s => (rehashCallThrowE md E sec fail mem false n s).bind fun s' _ => .ok s' .unit
  | .rehash n, s => (rehashCallThrowE md E sec fail mem false n s).bind fun s' _ => .ok s' .unit
  | .shrink ro, s => (shrinkThrowE md E sec fail mem ro s).bind fun s' _ => .ok s' .unit
  | .maxLoad m, s => (setMlfThrowE md E sec fail mem (m % 2 ^ 32) (rv m) s).bind fun s' _ => .ok s' .unit
  | c, s => execE md E sec rv mem c s

end Model

/-! ### Nothing throws -/

section
variable {K V : Type} {md : Mode} {E : Env K} {sec : Nat → Nat} {fail : Nat → Bool}

theorem transferThrowE_never (hf : ∀ n, fail n = false) (old : Map K V) (bo : Nat) : ∀ (is : List Nat) (n : Nat) (s : LT K V),
    transferThrowE md E sec fail old bo n is s = liftE (transferAllE md E sec old bo is s) fun s' => .ok s' () := by
  intro is
  induction is with
  | nil => intro n s; rfl
  | cons i is ih =>
    intro n s
    unfold transferThrowE transferAllE
    cases old.slot i with
    | none => rfl
    | some e =>
      simp only [hf, Bool.false_eq_true, if_false]
      cases insertUniqueE md E sec e s with
      | ok s' =>
        simp only [liftE, Res.bind_ok]
        exact ih _ _
      | _ => rfl

theorem rehashThrowE_never (hf : ∀ n, fail n = false) (sh al : Bool) (mem : Mem) (n : Nat) (s : LT K V) :
    rehashThrowE md E sec fail sh al mem n s = rehashImplE md E sec sh al mem n s := by
  unfold rehashThrowE rehashImplE
  simp only [transferThrowE_never hf]
  cases calcCapacity n with
  | ok c =>
    simp only
    split
    · cases createE mem c s with
      | ok s1 u =>
        simp only [Out.bind]
        split
        · rfl
        · cases transferAllE md E sec s.t s.blk (usedIdx s.t) s1 <;> rfl
      | _ => rfl
    · rfl
  | _ => rfl

theorem growThrowE_never (hf : ∀ n, fail n = false) (mem : Mem) (s : LT K V) : growThrowE md E sec fail mem s = growE md E sec mem s :=
  rehashThrowE_never hf _ _ _ _ _

theorem prepareThrowE_never (hf : ∀ n, fail n = false) (mem : Mem) (k : K) : ∀ (f : Nat) (s : LT K V),
    prepareThrowE md E sec fail mem k f s = prepareE md E sec mem k f s := by
  intro f
  induction f with
  | zero => intro s; rfl
  | succ f ih =>
    intro s
    unfold prepareThrowE prepareE
    simp only [growThrowE_never hf, ih]
    cases unroll E sec s.t k 4 (home E s.t k) 0 with
    | ok p => cases p <;> rfl
    | _ => rfl

theorem emplaceThrowE_never (hf : ∀ n, fail n = false) (update : Bool) (mem : Mem) (k : K) (v : V) : ∀ (f : Nat) (s : LT K V),
    emplaceThrowE md E sec fail update mem k v f s = emplaceE md E sec update mem true k v f s := by
  intro f
  induction f with
  | zero => intro s; rfl
  | succ f ih =>
    intro s
    unfold emplaceThrowE emplaceE
    simp only [growThrowE_never hf, prepareThrowE_never hf, ih]
    cases prepareE md E sec mem k 64 s with
    | ok s' r =>
      obtain ⟨i, o⟩ := r
      cases o with
      | none => simp only [Out.bind]; cases s'.t.slot i <;> rfl
      | some d => rfl
    | _ => rfl

theorem setMlfThrowE_never (hf : ∀ n, fail n = false) (mem : Mem) (m r : Nat) (s : LT K V) :
    setMlfThrowE md E sec fail mem m r s = setMlfE md E sec mem m r s := by
  unfold setMlfThrowE setMlfE rehashCallThrowE rehashE
  simp only [rehashThrowE_never hf]

/-- C134 (partial). If no construction throws the calls do what they do in C126.  Missing: those that throw, see below. -/
theorem C134_robin16_partial (hf : ∀ n, fail n = false) (rv : Nat → Nat) (mem : Mem) (c : Call K V) (s : LT K V) :
    execThrowE md E sec fail rv mem c s = execE md E sec rv mem c s := by
  cases c <;>
    simp only [execThrowE, execE, emplaceThrowE_never hf, rehashThrowE_never hf, rehashCallThrowE, rehashE, shrinkE,
      setMlfThrowE_never hf, shrinkThrowE]

/-! ### A control word without an element -/

/-- The map with an element in slot `i` and a size that counts it. -/
def filled (t : Map K V) (i : Nat) (e : K × V) : Map K V := { t with slot := upd t.slot i (some e), size := t.size + 1 }

/-- The map `t` has the elements `es`, and slot `i` is marked as if `e` were in it, but no element is there. -/
structure Ghost (E : Env K) (sec : Nat → Nat) (t : Map K V) (i : Nat) (e : K × V) (es : List (K × V)) : Prop where
  free : t.slot i = none
  lt : i < cap t
  mark : (t.ctrl i).dist ≠ 255
  full : Core E sec (filled t i e)
  perm : (entries (filled t i e)).Perm (e :: es)

theorem Ghost.size {t : Map K V} {i : Nat} {e : K × V} {es : List (K × V)} (hg : Ghost E sec t i e es) : t.size = es.length := by
  have h := hg.full.size
  rw [hg.perm.length_eq, List.length_cons] at h
  have : (filled t i e).size = t.size + 1 := rfl
  omega

theorem scan_ghost {t : Map K V} {i : Nat} {e : K × V} (hf : t.slot i = none) (k : K) (b : Nat) : ∀ ps : List Nat,
    scan E t k b ps = .ub ∨ (scan E t k b ps = scan E (filled t i e) k b ps ∧ scan E (filled t i e) k b ps ≠ .ok (some i)) := by
  intro ps
  induction ps with
  | nil => right; exact ⟨rfl, by unfold scan; intro h; cases h⟩
  | cons p ps ih =>
    by_cases hp : (b + p) &&& t.mask = i
    · left; unfold scan; rw [hp, hf]
    · have hs : (filled t i e).slot ((b + p) &&& t.mask) = t.slot ((b + p) &&& t.mask) := upd_other _ _ hp
      have hm : (filled t i e).mask = t.mask := rfl
      unfold scan
      rw [hm, hs]
      cases hq : t.slot ((b + p) &&& t.mask) with
      | none => left; rfl
      | some a =>
        simp only
        by_cases heq : E.eq a.1 k = true
        · rw [if_pos heq, if_pos heq]
          right
          refine ⟨rfl, ?_⟩
          intro h
          cases h
          exact hp rfl
        · rw [if_neg heq, if_neg heq]
          exact ih

theorem groupLoop_ghost {t : Map K V} {i : Nat} {e : K × V} (hf : t.slot i = none) (k : K) : ∀ (f b d : Nat),
    groupLoop E sec t k f b d = .ub ∨
    (groupLoop E sec t k f b d = groupLoop E sec (filled t i e) k f b d ∧ groupLoop E sec (filled t i e) k f b d ≠ .ok (.hit i)) := by
  intro f
  induction f with
  | zero => intro b d; right; exact ⟨rfl, by unfold groupLoop; intro h; cases h⟩
  | succ f ih =>
    intro b d
    have h1 : readable (filled t i e) b = readable t b := rfl
    have h2 : hits (filled t i e) b d (tagOf E sec k) = hits t b d (tagOf E sec k) := rfl
    have h3 : stops (filled t i e) b d = stops t b d := rfl
    have h4 : nextGroup (filled t i e) b = nextGroup t b := rfl
    have h5 : home E (filled t i e) k = home E t k := rfl
    have h6 : ∀ x y, roundDist (filled t i e) x y = roundDist t x y := fun _ _ => rfl
    have h7 : (filled t i e).mask = t.mask := rfl
    have hr := ih (nextGroup t b) ((d + 16) % 256)
    unfold groupLoop
    rw [h1, h2, h3, h4, h5]
    split
    · rcases scan_ghost (E := E) (e := e) hf k b (hits t b d (tagOf E sec k)) with hs | ⟨hs, hs'⟩
      · left; rw [hs]; rfl
      · rw [hs]
        cases hq : scan E (filled t i e) k b (hits t b d (tagOf E sec k)) with
        | ub => left; rfl
        | diverge => right; exact ⟨rfl, by intro h; cases h⟩
        | ok o =>
          simp only [Res.bind_ok]
          cases o with
          | some j =>
            right
            refine ⟨rfl, ?_⟩
            intro h
            cases h
            exact hs' hq
          | none =>
            simp only
            cases stops t b d with
            | cons p ps => right; exact ⟨rfl, by intro h; cases h⟩
            | nil =>
              simp only
              split
              · right; exact ⟨rfl, by intro h; cases h⟩
              · exact hr
    · left; rfl

theorem unroll_ghost {t : Map K V} {i : Nat} {e : K × V} (hf : t.slot i = none) (k : K) : ∀ (s b d : Nat),
    unroll E sec t k s b d = .ub ∨
    (unroll E sec t k s b d = unroll E sec (filled t i e) k s b d ∧ unroll E sec (filled t i e) k s b d ≠ .ok (.hit i)) := by
  intro s
  induction s with
  | zero =>
    intro b d
    unfold unroll
    exact groupLoop_ghost hf k _ b d
  | succ s ih =>
    intro b d
    have h1 : (filled t i e).clen = t.clen := rfl
    have h2 : passes (filled t i e) b d = passes t b d := rfl
    have h3 : (filled t i e).ctrl = t.ctrl := rfl
    have h4 : Rob16.next (filled t i e) b = Rob16.next t b := rfl
    have hr := ih (Rob16.next t b) (d + 1)
    unfold unroll
    rw [h1, h2, h3, h4]
    split
    · split
      · split
        · by_cases hb : b = i
          · left; rw [hb, hf]
          · have hs : (filled t i e).slot b = t.slot b := upd_other _ _ hb
            rw [hs]
            cases t.slot b with
            | none => left; rfl
            | some a =>
              simp only
              split
              · right
                refine ⟨rfl, ?_⟩
                intro h
                cases h
                exact hb rfl
              · exact hr
        · exact hr
      · right; exact ⟨rfl, by intro h; cases h⟩
    · left; rfl

theorem Ghost.findIdx {t : Map K V} {i : Nat} {e : K × V} {es : List (K × V)} (hg : Ghost E sec t i e es) (k : K) :
    findIdx E sec t k = .ub ∨
    (findIdx E sec t k = findIdx E sec (filled t i e) k ∧ Rob16.findIdx E sec (filled t i e) k ≠ .ok (some i)) := by
  have hp : home E (filled t i e) k = home E t k := rfl
  unfold Rob16.findIdx
  rw [hp]
  rcases unroll_ghost (E := E) (sec := sec) (e := e) hg.free k 2 (home E t k) 0 with h | ⟨h, h'⟩
  · left; rw [h]; rfl
  · right
    rw [h]
    refine ⟨rfl, ?_⟩
    cases hq : unroll E sec (filled t i e) k 2 (home E t k) 0 with
    | ok p =>
      cases p with
      | hit j =>
        intro hh
        cases hh
        exact h' hq
      | stop j d => intro hh; cases hh
      | full => intro hh; cases hh
    | _ => intro hh; cases hh

theorem Ghost.used {t : Map K V} {i : Nat} {e : K × V} {es : List (K × V)} (hg : Ghost E sec t i e es) : used t i = true := by
  have := hg.full.bound i hg.lt
  have h' : (t.ctrl i).dist = 255 ∨ (t.ctrl i).dist < 254 := this
  have := hg.mark
  unfold Rob16.used
  rw [decide_eq_true_eq]
  show _ < 255
  omega

theorem Ghost.entries {t : Map K V} {i : Nat} {e : K × V} {es : List (K × V)} (hg : Ghost E sec t i e es) : (entries t).Perm es := by
  have hc : cellAt (filled t i e) = upd (cellAt t) i (some e) := by
    funext x
    by_cases hx : x = i
    · subst hx
      rw [upd_self]
      unfold cellAt
      have : Rob16.used (filled t x e) x = Rob16.used t x := rfl
      rw [this, hg.used, if_pos rfl]
      exact upd_self _ _ _
    · rw [upd_other _ _ hx]
      unfold cellAt
      have h1 : Rob16.used (filled t i e) x = Rob16.used t x := rfl
      have h2 : (filled t i e).slot x = t.slot x := upd_other _ _ hx
      rw [h1, h2]
  have hn : cellAt t i = none := by
    unfold cellAt
    rw [hg.free]; split <;> rfl
  have h : (Rob16.entries (filled t i e)).Perm (e :: Rob16.entries t) := by
    unfold Rob16.entries
    rw [hc]
    exact perm_upd_some hg.lt (cellAt t) hn e
  exact (h.symm.trans hg.perm).cons_inv

theorem Ghost.mem {t : Map K V} {i : Nat} {e : K × V} {es : List (K × V)} (hg : Ghost E sec t i e es) {x : Nat} (hx : x ≠ i) (hlt : x < cap t)
    (hu : (t.ctrl x).dist ≠ 255) {a : K × V} (ha : (filled t i e).slot x = some a) : t.slot x = some a ∧ a ∈ es := by
  have h1 : t.slot x = some a := by rw [← ha]; exact (upd_other _ _ hx).symm
  refine ⟨h1, hg.entries.mem_iff.mp ?_⟩
  unfold Rob16.entries
  rw [mem_filterMap_range]
  refine ⟨x, hlt, ?_⟩
  have hb : (t.ctrl x).dist = 255 ∨ (t.ctrl x).dist < 254 := hg.full.bound x hlt
  unfold cellAt Rob16.used
  rw [if_pos (by rw [decide_eq_true_eq]; show _ < 255; omega)]
  exact h1

theorem tagOk_filled {t : Map K V} {k : K} (h : TagOk E sec t k) (i : Nat) (e : K × V) : TagOk E sec (filled t i e) k := h

/-- Looking for the missing element reads a slot in which nothing is. -/
theorem Ghost.lookup_self (hE : E.Lawful) {t : Map K V} {i : Nat} {e : K × V} {es : List (K × V)} (hg : Ghost E sec t i e es)
    (hd : Distinct E.eq (e :: es)) {k : K} (hk : E.eq k e.1 = true) (ht : TagOk E sec t k) : lookup E sec t k = .ub := by
  have hat : (filled t i e).slot i = some e := upd_self _ _ _
  have hub : Rob16.findIdx E sec t k = .ub := by
    rcases hg.findIdx k with h | ⟨_, h⟩
    · exact h
    · exfalso
      rcases findIdx_spec hg.full hE (tagOk_filled ht i e) with ⟨x, h1, h2, h3, a, h4, h5⟩ | ⟨_, h2⟩
      · have hax : E.eq a.1 e.1 = true := hE.trans _ _ _ h5 hk
        by_cases hx : x = i
        · rw [hx] at h1; exact h h1
        · obtain ⟨_, hm⟩ := hg.mem hx h2 h3 h4
          have := (List.pairwise_cons.mp hd).1 a hm
          rw [hE.symm _ _ hax] at this; cases this
      · exact h2 i hg.lt ⟨hg.mark, e, hat, hE.symm _ _ hk⟩
  unfold lookup
  rw [hub]; rfl

/-- Every other answer is right for `es`. -/
theorem Ghost.lookup (hE : E.Lawful) {t : Map K V} {i : Nat} {e : K × V} {es : List (K × V)} (hg : Ghost E sec t i e es)
    (hd : Distinct E.eq (e :: es)) {k : K} (ht : TagOk E sec t k) : lookup E sec t k = .ub ∨ lookup E sec t k = .ok (Spec.get E.eq es k) := by
  rcases hg.findIdx k with h | ⟨h1, h2⟩
  · left; unfold Rob16.lookup; rw [h]; rfl
  · right
    unfold Rob16.lookup
    rw [h1]
    rcases findIdx_spec hg.full hE (tagOk_filled ht i e) with ⟨x, g1, g2, g3, a, g4, g5⟩ | ⟨g1, g2⟩
    · have hx : x ≠ i := fun hq => h2 (by rw [g1, hq])
      obtain ⟨h3', hm⟩ := hg.mem hx g2 g3 g4
      rw [g1]
      simp only [Res.bind_ok, h3']
      rw [(Spec.get_some_iff hE (List.pairwise_cons.mp hd).2).mpr ⟨hm, hE.symm _ _ g5⟩]
    · rw [g1]
      simp only [Res.bind_ok]
      rw [Spec.get_none_iff.mpr]
      intro a ha
      exact Robin.absent_symm hE ((absent_iff hg.full.toBase).mpr g2 a (hg.perm.mem_iff.mpr (List.mem_cons_of_mem _ ha)))

/-- The destructor destroys the element that is not there. -/
theorem Ghost.destroy {s : LT K V} {i : Nat} {e : K × V} {es : List (K × V)} (hg : Ghost E sec s.t i e es) {h : Heap}
    (hr : Heap.run s.log Heap.empty = some h) (hnd : h.live.Nodup) (hfree : (s.blk, i) ∉ h.live) :
    Heap.run (destroyE s).log Heap.empty = none := by
  unfold destroyE emit
  simp only
  rw [Life.run_append, hr]
  simp only [Option.bind_some]
  rw [Life.run_append]
  unfold destroyEv
  rw [Life.run_dtors_none s.blk _ h hnd ⟨i, List.mem_filter.mpr ⟨List.mem_range.mpr hg.lt, hg.used⟩, hfree⟩]
  rfl

theorem Ghost.congr {t : Map K V} {i : Nat} {e : K × V} {es es' : List (K × V)} (hg : Ghost E sec t i e es) (hp : es.Perm es') :
    Ghost E sec t i e es' := ⟨hg.free, hg.lt, hg.mark, hg.full, hg.perm.trans (hp.cons e)⟩

/-! ### The loop -/

/-- `move_insert_unique` up to the construction. -/
theorem insertUniqueE_ghost {s : LT K V} (hc : Core E sec s.t) {e : K × V} (hr : s.t.size + 1 < cap s.t)
    (hS : Spread E 254 (cap s.t) (e :: entries s.t)) {hp : Heap} {Q : Nat → Nat → Prop}
    (hb : (s.blk, cap s.t) ∈ hp.blocks) (hfresh : ∀ x ∈ hp.blocks, x.1 < s.next) (hQ : ∀ b' i', Q b' i' → b' ≠ s.blk ∧ b' < s.next)
    (hH : Holds hp (fun b' i' => Mine s.t s.blk b' i' ∨ Q b' i')) :
    ∃ i d s' l h', freeUnroll s.t (home E s.t e.1) 4 (home E s.t e.1) 0 = .ok (i, d) ∧
      makeRoomE md true i ⟨d, tagOf E sec e.1⟩ s = .ok (s', false) ∧
      Ghost E sec { s'.t with slot := upd s'.t.slot i none } i e (entries s.t) ∧ s'.log = s.log ++ l ∧ Heap.run l hp = some h' ∧
      h'.blocks = hp.blocks ∧ s'.blk = s.blk ∧ s'.gblk = s.gblk ∧
      Holds h' (fun b' i' => (Mine s'.t s.blk b' i' ∧ i' ≠ i) ∨ Q b' i') := by
  obtain ⟨m, hm⟩ := stop_exists hc e.1
  obtain ⟨s', b, l, h', g1, g2, g3, g4⟩ := makeRoomE_both (md := md) true hc.toTab hc.exists_empty hm hS hb hfresh hQ hH
  have hbf : b = false := by
    cases b with
    | false => rfl
    | true => cases (g4.full rfl).1
  subst hbf
  have hfr := freeUnroll_spec hc.toBase hm 4 0 (by omega)
  rw [← hc.home_eq] at hfr
  have hi := hc.pos_lt (E := E) e.1 m
  obtain ⟨h3, h4⟩ := g4.done rfl
  obtain ⟨h5, h6⟩ := hc.put g4.same h3 h4 hr
  have hfill : filled { s'.t with slot := upd s'.t.slot (pos E s.t e.1 m) none } (pos E s.t e.1 m) e =
      { s'.t with slot := upd s'.t.slot (pos E s.t e.1 m) (some e), size := s'.t.size + 1 } := by
    unfold filled
    congr 1
    funext x
    by_cases hx : x = pos E s.t e.1 m
    · rw [hx, upd_self, upd_self]
    · rw [upd_other _ _ hx, upd_other _ _ hx]
      exact upd_other _ _ hx
  refine ⟨_, m, s', l, h', hfr, g1, ⟨upd_self _ _ _, by show _ < cap s'.t; rw [g4.same.cap]; exact hi, g3.used, by rw [hfill]; exact h5,
    by rw [hfill]; exact h6⟩, g3.log, g3.run, g3.blocks, g3.blk, g3.gblk, g3.holds.congr fun b' i' => ?_⟩
  simp

theorem transferThrow_spec (old : Map K V) (bo : Nat) : ∀ (is : List Nat) (l : List (K × V)) (m : Nat) (s : LT K V) (h : Heap), Core E sec s.t →
    is.map old.slot = l.map some → is.Nodup → s.t.size + l.length < cap s.t → Spread E 254 (cap s.t) (l ++ entries s.t) →
    bo ≠ s.blk → bo < s.next → (s.blk, cap s.t) ∈ h.blocks → (∀ x ∈ h.blocks, x.1 < s.next) →
    Holds h (fun b' i' => Mine s.t s.blk b' i' ∨ (b' = bo ∧ i' ∈ is)) →
    ∀ j, j < is.length → fail (m + j) = true → (∀ x < j, fail (m + x) = false) →
    ∃ s' l' h' i e, transferThrowE md E sec fail old bo m is s = .throw s' ∧ s'.log = s.log ++ l' ∧ Heap.run l' h = some h' ∧ h'.blocks = h.blocks ∧
      l[j]? = some e ∧ Ghost E sec s'.t i e (l.take j ++ entries s.t) ∧
      Holds h' (fun b' i' => (Mine s'.t s.blk b' i' ∧ i' ≠ i) ∨ (b' = bo ∧ i' ∈ is.drop j)) ∧ s'.blk = s.blk ∧ s'.gblk = s.gblk := by
  intro is
  induction is with
  | nil => intro l m s h _ _ _ _ _ _ _ _ _ _ j hj; simp at hj
  | cons i is ih =>
    intro l m s h hc hml hnd hroom hS hne hlt hblk hfresh hH j hj hf hf'
    cases l with
    | nil => cases hml
    | cons e l =>
      simp only [List.map_cons, List.cons.injEq] at hml
      rw [List.nodup_cons] at hnd
      rw [List.length_cons] at hroom
      have hp : ((e :: l) ++ entries s.t).Perm (l ++ e :: entries s.t) := List.perm_middle.symm
      have hS1 : Spread E 254 (cap s.t) (e :: entries s.t) := (hS.perm hp.symm).sub (List.sublist_append_right l _).subperm
      cases j with
      | zero =>
        obtain ⟨p, d, s', l', h', g1, g2, g3, g4, g5, g6, g7, g8, g9⟩ := insertUniqueE_ghost (md := md) hc (e := e) (by omega) hS1
          (Q := fun b' i' => b' = bo ∧ i' ∈ i :: is) hblk hfresh (fun b' i' hq => by rw [hq.1]; exact ⟨hne, hlt⟩) hH
        refine ⟨{ s' with t := { s'.t with slot := upd s'.t.slot p none } }, l', h', p, e, ?_, g4, g5, g6, rfl, g3, g9, g7, g8⟩
        unfold transferThrowE
        rw [hml.1]
        simp only
        rw [if_pos (show fail m = true from hf), g1]
        simp only [liftE]
        rw [g2]
      | succ j =>
        have hf0 : fail m = false := hf' 0 (by omega)
        obtain ⟨s1, l1, h1, f1, f2, f3, f4⟩ := insertUniqueE_ok (md := md) hc (e := e) (by omega) hS1
          (Q := fun b' i' => b' = bo ∧ i' ∈ i :: is) hblk hfresh (fun b' i' hq => by rw [hq.1]; exact ⟨hne, hlt⟩) hH
        have hcap : cap s1.t = cap s.t := by unfold cap; rw [f4.mask]
        have hlt1 : bo < s1.next := Nat.lt_of_lt_of_le hlt f4.next
        obtain ⟨h2, r2, b2, p2⟩ := f4.holds.dtor (b := bo) (i := i) (Or.inr ⟨rfl, by simp⟩) []
        obtain ⟨s', l', h', x, e', g1, g2, g3, g4, g5, g6, g7, g8, g9⟩ := ih l (m + 1) (emit [.dtor bo i] s1) h2 f3 hml.2 hnd.2 (by
            show s1.t.size + l.length < cap s1.t
            rw [f4.size, hcap]; omega) (by
            show Spread E 254 (cap s1.t) (l ++ entries s1.t)
            rw [hcap]; exact hS.perm ((f4.perm.append_left l).trans hp.symm)) (by
            show bo ≠ s1.blk
            rw [f4.blk]; exact hne) hlt1 (by
            show (s1.blk, cap s1.t) ∈ h2.blocks
            rw [b2, f4.blocks, f4.blk, hcap]; exact hblk) (by
            intro x hx
            rw [b2, f4.blocks] at hx
            exact Nat.lt_of_lt_of_le (hfresh x hx) f4.next) (p2.congr fun b' i' => by
            show _ ↔ Mine s1.t s1.blk b' i' ∨ (b' = bo ∧ i' ∈ is)
            rw [f4.blk]
            constructor
            · rintro ⟨x1 | ⟨x1, x2⟩, x3⟩
              · exact Or.inl x1
              · refine Or.inr ⟨x1, ?_⟩
                rcases List.mem_cons.mp x2 with x4 | x4
                · exact absurd ⟨x1, x4⟩ x3
                · exact x4
            · rintro (x1 | ⟨x1, x2⟩)
              · exact ⟨Or.inl x1, fun x3 => hne (x3.1.symm.trans x1.1)⟩
              · exact ⟨Or.inr ⟨x1, List.mem_cons_of_mem _ x2⟩, fun x3 => hnd.1 (x3.2 ▸ x2)⟩)
            j (by simpa using hj) (by rw [← hf]; congr 1; omega) (fun x hx => by have := hf' (x + 1) (by omega); rw [← this]; congr 1; omega)
        refine ⟨s', l1 ++ [.dtor bo i] ++ l', h', x, e', ?_, ?_, ?_, by rw [g4, b2, f4.blocks], by simpa using g5, ?_, ?_, g8.trans f4.blk,
          g9.trans f4.gblk⟩
        · unfold transferThrowE
          rw [hml.1]
          simp only [hf0, Bool.false_eq_true, if_false]
          rw [f1]
          exact g1
        · rw [g2]
          show s1.log ++ [Ev.dtor bo i] ++ l' = _
          rw [f4.log]; simp
        · rw [Life.run_append, Life.run_append, f4.run]
          simp only [Option.bind_some]
          rw [r2]
          exact g3
        · refine g6.congr ?_
          rw [List.take_succ_cons, List.cons_append]
          exact (f4.perm.append_left _).trans List.perm_middle
        · have : Holds h' (fun b' i' => (Mine s'.t s1.blk b' i' ∧ i' ≠ x) ∨ (b' = bo ∧ i' ∈ is.drop j)) := g7
          rw [f4.blk] at this
          exact this

/-- What a map `s1` is after the construction of its `j`-th element in the new storage has thrown; `s` is the map before the call. -/
structure Lost (E : Env K) (sec : Nat → Nat) (s s1 : LT K V) (j : Nat) : Prop where
  /-- it has forgotten all elements but the first `j` -/
  size : s1.t.size = j
  /-- the old blocks are not its blocks any more, but they have not been given back, and the forgotten elements are alive -/
  blk : s1.blk ≠ s.blk ∧ s1.gblk ≠ s.gblk
  log : ∃ h, Heap.run s1.log Heap.empty = some h ∧ (s.blk, cap s.t) ∈ h.blocks ∧ (s.gblk, s.t.gmask + 2) ∈ h.blocks ∧
    (h.live.filter fun o => o.1 == s.blk).length = s.t.size - j
  /-- the destructor destroys an object that does not exist -/
  destroy : Heap.run (destroyE s1).log Heap.empty = none
  /-- looking for the element whose constructor threw reads a slot without an object -/
  self : E.Lawful → Distinct E.eq (entries s.t) → ∀ e, (entries s.t)[j]? = some e → TagOk E sec s1.t e.1 → lookup E sec s1.t e.1 = .ub
  /-- so may other calls; those that do not are right for the first `j` elements -/
  lookup : E.Lawful → Distinct E.eq (entries s.t) → ∀ k, TagOk E sec s1.t k →
    lookup E sec s1.t k = .ub ∨ lookup E sec s1.t k = .ok (Spec.get E.eq ((entries s.t).take j) k)
  gone : E.Lawful → Distinct E.eq (entries s.t) → ∀ e ∈ (entries s.t).drop j, TagOk E sec s1.t e.1 →
    ∀ x, Rob16.lookup E sec s1.t e.1 ≠ .ok (some x)

theorem usedIdx_length {t : Map K V} (hw : Rob16.Weak t) : (usedIdx t).length = (entries t).length := by
  have := congrArg List.length hw.usedIdx_slots
  rwa [List.length_map, List.length_map] at this

theorem Distinct.split {eq : K → K → Bool} {l : List (K × V)} {j : Nat} {e : K × V} (hd : Distinct eq l) (he : l[j]? = some e)
    (hs : ∀ a b, eq a b = true → eq b a = true) : Distinct eq (e :: l.take j) := by
  have h : l = l.take j ++ l.drop j := (List.take_append_drop j l).symm
  have hm : e ∈ l.drop j := by
    rw [List.mem_iff_getElem?]
    exact ⟨0, by rw [List.getElem?_drop]; exact he⟩
  unfold Distinct at hd ⊢
  rw [h, List.pairwise_append] at hd
  refine List.pairwise_cons.mpr ⟨?_, hd.1⟩
  intro a ha
  have := hd.2.2 a ha e hm
  cases hq : eq e.1 a.1 with
  | false => rfl
  | true => rw [hs _ _ hq] at this; cases this

theorem rehashThrow_lost {s s2 : LT K V} (hf : Fine s) (hc : Core E sec s.t) {sh al : Bool} {mem : Mem} {n : Nat}
    (hfit : ∀ c, calcCapacity n = .ok c → Fits E c (entries s.t)) (hx : rehashImplE md E sec sh al mem n s = .ok s2 ())
    (hb : s2.blk ≠ s.blk ∨ al = true) {i : Nat} (hi : i < s.t.size) (hfl : fail i = true) (hfl' : ∀ x < i, fail x = false) :
    ∃ s1, rehashThrowE md E sec fail sh al mem n s = .throw s1 ∧ Lost E sec s s1 i := by
  have hw : Rob16.Weak s.t := hc.toTab.weak
  unfold rehashImplE at hx
  unfold rehashThrowE
  cases hcalc : calcCapacity n with
  | ub => rw [hcalc] at hx; cases hx
  | diverge => rw [hcalc] at hx; cases hx
  | ok c =>
    rw [hcalc] at hx
    simp only at hx ⊢
    obtain ⟨hlt, hS⟩ := hfit c hcalc
    have hcalc' := hcalc
    rw [calcCapacity_eq] at hcalc'
    obtain ⟨j, hj, rfl, _, _⟩ := Robin.calcCapacity_ok hcalc'
    split at hx
    · rename_i hcond
      rw [if_pos hcond]
      unfold createE createGroup at hx ⊢
      simp only at hx ⊢
      by_cases h1 : mem = .noGroups ∨ memLimit < 2 ^ j
      · rw [if_pos h1] at hx
        simp only at hx
        rw [if_pos h1] at hx
        cases hx
      · rw [if_neg h1] at hx ⊢
        by_cases hmem : mem = .noSlots
        · rw [if_pos hmem] at hx
          simp only at hx
          rw [if_neg h1] at hx
          cases hx
        · rw [if_neg hmem]
          clear hx
          rw [not_or] at h1
          simp only [Out.bind]
          rw [if_neg hw.clen]
          have hj48 : j ≤ 48 := by
            by_contra hc
            have := Robin.pow_two_le (a := 49) (b := j) (by omega)
            unfold memLimit at h1
            omega
          obtain ⟨f1, f2, f3⟩ := freshMap_inv (K := K) (V := V) (E := E) (sec := sec) hj hj48 s.t.mlf s.t.rev
          obtain ⟨h, hl⟩ := hf
          let g := (2 ^ j + 15) / 16 - 1
          let h1' : Heap := { h with blocks := (s.next + 1, 2 ^ j) :: (s.next, g + 2) :: h.blocks }
          have hfr := hl.fresh
          have hb1 := hl.blk_lt
          have hb2 := hl.gblk_lt
          have hrun1 : Heap.run [.alloc s.next (g + 2), .alloc (s.next + 1) (2 ^ j)] h = some h1' := by
            simp only [Heap.run]
            rw [step_alloc (by intro x hx; have := hfr x hx; omega)]
            simp only [Option.bind_some]
            rw [step_alloc (h := { h with blocks := (s.next, g + 2) :: h.blocks }) (by
              intro x hx
              rcases List.mem_cons.mp hx with rfl | hx
              · simp only; omega
              · have := hfr x hx; omega)]
            rfl
          let s1 : LT K V := emit [.alloc s.next (g + 2), .alloc (s.next + 1) (2 ^ j)]
            { s with t := freshMap (2 ^ j) s.t.mlf s.t.rev, gblk := s.next, blk := s.next + 1, next := s.next + 2 }
          have hempty : ∀ i, i < 2 ^ j → ((freshMap (2 ^ j) s.t.mlf s.t.rev : Map K V).ctrl i).dist = 255 := by
            intro i hi
            by_contra hc
            obtain ⟨e, he, _⟩ := f1.cell i (by rw [f3]; exact hi) hc
            cases he
          obtain ⟨s', l', h', x, e, r1, r2, r3, r4, r6, r7, r8, r9, r10⟩ := transferThrow_spec (md := md) (fail := fail) s.t s.blk (usedIdx s.t)
            (entries s.t) 0 s1 h1' f1 hw.usedIdx_slots (nodup_usedIdx _) (by
              show 0 + (entries s.t).length < cap (freshMap (2 ^ j) s.t.mlf s.t.rev)
              rw [f3]; omega) (by
              show Spread E 254 (cap (freshMap (2 ^ j) s.t.mlf s.t.rev)) (entries s.t ++ entries (freshMap (2 ^ j) s.t.mlf s.t.rev))
              rw [f2, f3, List.append_nil]; exact hS) (by
              show s.blk ≠ s.next + 1
              omega) (by
              show s.blk < s.next + 2
              omega) (by
              show (s.next + 1, cap (freshMap (2 ^ j) s.t.mlf s.t.rev)) ∈ _
              rw [f3]; exact List.mem_cons_self) (by
              intro x hx
              show x.1 < s.next + 2
              rcases List.mem_cons.mp hx with rfl | hx
              · simp only; omega
              · rcases List.mem_cons.mp hx with rfl | hx
                · simp only; omega
                · have := hfr x hx; omega) (by
              refine Holds.congr (P := Mine s.t s.blk) ⟨hl.holds.nodup, hl.holds.mem⟩ fun b i => ?_
              show _ ↔ Mine (freshMap (2 ^ j) s.t.mlf s.t.rev) (s.next + 1) b i ∨ _
              rw [mem_usedIdx hw]
              constructor
              · rintro ⟨x1, x2⟩; exact Or.inr ⟨x1, x2⟩
              · rintro (⟨_, x2, x3⟩ | ⟨x1, x2⟩)
                · rw [f3] at x2
                  exact absurd (hempty i x2) x3
                · exact ⟨x1, x2⟩) i (by rw [usedIdx_length hw, ← hc.size]; exact hi) (by rw [Nat.zero_add]; exact hfl)
              (fun l hl => by rw [Nat.zero_add]; exact hfl' l hl)
          have he0 : entries (freshMap (2 ^ j) s.t.mlf s.t.rev : Map K V) = [] := f2
          have r7' : Ghost E sec s'.t x e ((entries s.t).take i) := by
            refine r7.congr ?_
            show (_ ++ entries (freshMap (2 ^ j) s.t.mlf s.t.rev : Map K V)).Perm _
            rw [he0, List.append_nil]
          have e1 : transferThrowE md E sec fail s.t s.blk 0 (usedIdx s.t) s1 = .throw s' := r1
          simp only [s1, g, freshMap] at e1
          rw [e1]
          refine ⟨s', rfl, ?_⟩
          have hlen : ((entries s.t).take i).length = i := by
            rw [List.length_take, ← hc.size]; omega
          have hrun : Heap.run s'.log Heap.empty = some h' := by
            rw [r2]
            show Heap.run (s.log ++ [.alloc s.next (g + 2), .alloc (s.next + 1) (2 ^ j)] ++ l') Heap.empty = _
            rw [Life.run_append, Life.run_append, hl.run]
            simp only [Option.bind_some]
            rw [hrun1]
            exact r3
          have hblk' : s'.blk = s.next + 1 := r9
          have hgblk' : s'.gblk = s.next := r10
          have hne : s.next + 1 ≠ s.blk := by omega
          have hbl : h'.blocks = (s.next + 1, 2 ^ j) :: (s.next, g + 2) :: [(s.blk, cap s.t), (s.gblk, s.t.gmask + 2)] := by
            rw [r4, ← hl.blocks]
          have hsplit : E.Lawful → Distinct E.eq (entries s.t) → Distinct E.eq (e :: (entries s.t).take i) :=
            fun hE hd => Distinct.split hd r6 hE.symm
          refine ⟨by rw [r7'.size, hlen], ⟨by omega, by omega⟩, ⟨h', hrun, by rw [hbl]; simp, by rw [hbl]; simp, ?_⟩, ?_, ?_, ?_, ?_⟩
          · have hp : (h'.live.filter fun o => o.1 == s.blk).Perm (((usedIdx s.t).drop i).map fun i => (s.blk, i)) := by
              rw [List.perm_ext_iff_of_nodup]
              · rintro ⟨b, y⟩
                rw [List.mem_filter, r8.mem]
                simp only [List.mem_map, beq_iff_eq]
                constructor
                · rintro ⟨⟨h1, _⟩ | ⟨h1, h2⟩, h3⟩
                  · exact absurd (h1.1.symm.trans h3) hne
                  · exact ⟨y, h2, by rw [h3]⟩
                · rintro ⟨y', h2, h3⟩
                  cases h3
                  exact ⟨Or.inr ⟨rfl, h2⟩, rfl⟩
              · exact r8.nodup.filter _
              · apply List.Nodup.map (fun x y h => by cases h; rfl)
                exact (nodup_usedIdx s.t).sublist (List.drop_sublist _ _)
            rw [hp.length_eq, List.length_map, List.length_drop, usedIdx_length hw, hc.size]
          · apply r7'.destroy hrun r8.nodup
            rw [r8.mem, r9]
            rintro (⟨_, hq⟩ | ⟨hq, _⟩)
            · exact hq rfl
            · exact hne hq
          · intro hE hd y hy ht
            rw [r6] at hy
            cases hy
            exact r7'.lookup_self hE (hsplit hE hd) (hE.refl _) ht
          · intro hE hd k ht
            exact r7'.lookup hE (hsplit hE hd) ht
          · intro hE hd y hy ht z hz
            have hxs : Spec.get E.eq ((entries s.t).take i) y.1 = none := by
              rw [Spec.get_none_iff]
              intro w hw
              have hpw := hd
              unfold Distinct at hpw
              rw [← List.take_append_drop i (entries s.t), List.pairwise_append] at hpw
              have := hpw.2.2 w hw y hy
              cases hq : E.eq y.1 w.1 with
              | false => rfl
              | true => rw [hE.symm _ _ hq] at this; cases this
            rcases r7'.lookup hE (hsplit hE hd) ht with h1 | h1
            · rw [h1] at hz; cases hz
            · rw [h1, hxs] at hz; cases hz
    · rename_i hcond
      rcases hb with hb | rfl
      · cases hx; exact absurd rfl hb
      · exact absurd (by simp) hcond

theorem growThrow_lost {s s2 : LT K V} (hf : Fine s) (hc : Core E sec s.t) (hS : Spread E 254 (cap s.t) (entries s.t)) {mem : Mem}
    (hx : growE md E sec mem s = .ok s2 ()) {i : Nat} (hi : i < s.t.size) (hfl : fail i = true) (hfl' : ∀ x < i, fail x = false) :
    ∃ s1, growThrowE md E sec fail mem s = .throw s1 ∧ Lost E sec s s1 i := by
  refine rehashThrow_lost hf hc ?_ hx (Or.inr rfl) hi hfl hfl'
  intro c hcalc
  obtain ⟨j, h1, h2, h3⟩ := hc.pow
  have hge := hc.cap_ge
  have hle := hc.cap_le
  have hW : cap s.t * 2 % W = 2 ^ (j + 1) := by
    rw [Nat.mod_eq_of_lt, h3, Nat.pow_succ]
    unfold W; omega
  rw [hW, calcCapacity_eq, Robin.calcCapacity_pow (by omega)] at hcalc
  cases hcalc
  have h2c : 2 ^ (j + 1) = 2 * cap s.t := by rw [Nat.pow_succ, h3]; omega
  rw [h2c]
  have := entries_length_le s.t
  exact ⟨by omega, hS.double (by omega)⟩

theorem emplaceThrow_lost {s s2 : LT K V} (hE : E.Lawful) (hf : Fine s) (hL : Live E sec s.t) {update : Bool} {mem : Mem} {k : K} {v : V}
    (hk : TagOk E sec s.t k) (hS : Spread E 129 (cap s.t) ((k, v) :: entries s.t)) {f : Nat}
    {r : Nat × Bool} (hx : emplaceE md E sec update mem true k v (f + 1) s = .ok s2 r) (hb : s2.blk ≠ s.blk)
    {i : Nat} (hi : i < s.t.size) (hfl : fail i = true) (hfl' : ∀ x < i, fail x = false) :
    ∃ s1, emplaceThrowE md E sec fail update mem k v (f + 1) s = .throw s1 ∧ Lost E sec s s1 i := by
  have hc : Core E sec s.t := hL.toCore
  have hS0 : Spread E 254 (cap s.t) (entries s.t) := (hS.mono (by omega)).sub (List.sublist_cons_self _ _).subperm
  have grow : ∀ {α : Type} {g : LT K V → Out (LT K V) α} {g' : LT K V → α → Out (LT K V) (Nat × Bool)},
      ((growE md E sec mem s).bind fun s' _ => g s').bind g' = .ok s2 r → ∃ s1, growThrowE md E sec fail mem s = .throw s1 ∧ Lost E sec s s1 i := by
    intro α g g' h
    cases hq : growE md E sec mem s with
    | ok s' u => exact growThrow_lost hf hc hS0 hq hi hfl hfl'
    | _ => rw [hq] at h; cases h
  unfold emplaceE at hx
  unfold emplaceThrowE
  unfold prepareE at hx
  unfold prepareThrowE
  obtain ⟨m, hst, hpr⟩ := probe_spec hL.toTab hE hk hL.exists_empty (s := 4) (by decide)
  cases hp : unroll E sec s.t k 4 (home E s.t k) 0 with
  | ok p =>
    rw [hp] at hx
    simp only [liftE] at hx ⊢
    cases p with
    | hit j =>
      exfalso
      simp only [Out.bind] at hx
      cases hq : s.t.slot j with
      | none => rw [hq] at hx; cases hx
      | some e =>
        rw [hq] at hx
        simp only [Out.ok.injEq] at hx
        apply hb
        rw [← hx.1]
        split <;> rfl
    | full =>
      obtain ⟨s1, q1, q2⟩ := grow hx
      exact ⟨s1, by simp only [q1]; rfl, q2⟩
    | stop x d =>
      simp only at hx ⊢
      by_cases h0 : s.t.thr ≤ s.t.size
      · rw [if_pos h0] at hx ⊢
        obtain ⟨s1, q1, q2⟩ := grow hx
        exact ⟨s1, by simp only [q1]; rfl, q2⟩
      · exfalso
        rw [if_neg h0] at hx
        simp only [Out.bind] at hx
        have hsx : x = pos E s.t k m ∧ d = m := by
          rcases hpr with ⟨y, h1, _⟩ | ⟨h1, _⟩
          · rw [hp] at h1; cases h1
          · rw [hp] at h1; cases h1; exact ⟨rfl, rfl⟩
        obtain ⟨rfl, rfl⟩ := hsx
        obtain ⟨h, hl⟩ := hf
        obtain ⟨s3, bb, l, h', k1, k2, k3, k4⟩ := makeRoomE_both (md := md) (e := (k, v)) false hL.toTab hL.exists_empty hst (hS.mono (by omega)) (hp := h)
          (Q := fun _ _ => False) (by rw [hl.blocks]; simp) hl.fresh (fun _ _ hq => hq.elim) (hl.holds.congr fun b i => by simp)
        have hbb : bb = false := by
          cases bb with
          | false => rfl
          | true => exact absurd hS (k4.full rfl).2.1
        subst hbb
        rw [k1] at hx
        simp only [Bool.false_eq_true, if_false, if_true, Out.ok.injEq] at hx
        apply hb
        rw [← hx.1]
        exact k3.blk
  | _ => rw [hp] at hx; cases hx

theorem Lost.congr {s s' s1 : LT K V} {j : Nat} (h : Lost E sec s' s1 j) (h1 : s'.t.size = s.t.size) (h2 : s'.t.mask = s.t.mask)
    (h3 : s'.t.gmask = s.t.gmask) (h4 : s'.t.slot = s.t.slot) (h5 : s'.blk = s.blk) (h6 : s'.gblk = s.gblk) (h7 : s'.t.ctrl = s.t.ctrl) :
    Lost E sec s s1 j := by
  have hcap : cap s'.t = cap s.t := by unfold cap; rw [h2]
  have hce : cellAt s'.t = cellAt s.t := by funext x; unfold cellAt used; rw [h4, h7]
  have he : entries s'.t = entries s.t := by unfold entries; rw [hcap, hce]
  obtain ⟨a1, a2, a3, a4, a5, a6, a7⟩ := h
  rw [h5, h6] at a2
  rw [h5, h6, h1, h3, hcap] at a3
  rw [he] at a5 a6 a7
  exact ⟨a1, a2, a3, a4, a5, a6, a7⟩

/-- One call. -/
theorem execThrow_lost (hE : E.Lawful) {rv : Nat → Nat} {s s2 : LT K V} (hf : Fine s) (hR : Reach E sec s.t) {m : Spec.Map K V}
    (hm : (entries s.t).Perm m) {mem : Mem} {c : Call K V} (hs : Safe E sec rv s.t m c) (hcalm : Calm E s.t m c) (hnc : ∀ d, c ≠ .clear d)
    {x : Ans K V} (hx : execE md E sec rv mem c s = .ok s2 x) (hb : s2.blk ≠ s.blk)
    {i : Nat} (hi : i < s.t.size) (hfl : fail i = true) (hfl' : ∀ x < i, fail x = false) :
    ∃ s1, execThrowE md E sec fail rv mem c s = .throw s1 ∧ Lost E sec s s1 i := by
  have hfit : ∀ {n : Nat}, (∀ c, calcCapacity n = .ok c → Fits E c m) → ∀ c, calcCapacity n = .ok c → Fits E c (entries s.t) :=
    fun h c hc => ⟨by rw [hm.length_eq]; exact (h c hc).1, (h c hc).2.perm hm⟩
  have unit : ∀ {r : Out (LT K V) Unit}, (r.bind fun s' _ => Out.ok s' (.unit : Ans K V)) = .ok s2 x → r = .ok s2 () := by
    intro r h
    cases r with
    | ok s u => cases h; rfl
    | _ => cases h
  have fin : ∀ {r : Out (LT K V) Unit}, (∃ s1, r = .throw s1 ∧ Lost E sec s s1 i) →
      ∃ s1, (r.bind fun s' _ => Out.ok s' (.unit : Ans K V)) = .throw s1 ∧ Lost E sec s s1 i := by
    rintro r ⟨s1, h1, h2⟩
    exact ⟨s1, by rw [h1]; rfl, h2⟩
  have lft : ∀ {α : Type} {r : Res α} {f : α → Ans K V}, (liftE r fun a => .ok s (f a)) = Out.ok s2 x → False := by
    intro α r f h
    cases r with
    | ok a => cases h; exact hb rfl
    | _ => cases h
  have emp : ∀ (update : Bool) (k : K) (v : V) (f : LT K V → Nat × Bool → Out (LT K V) (Ans K V)), TagOk E sec s.t k →
      Spread E 129 (cap s.t) ((k, v) :: m) → (∀ s' r s3 y, f s' r = .ok s3 y → s3.blk = s'.blk) →
      (emplaceE md E sec update mem true k v 64 s).bind f = .ok s2 x →
      ∃ s1, (emplaceThrowE md E sec fail update mem k v 64 s).bind f = .throw s1 ∧ Lost E sec s s1 i := by
    intro update k v f hk hS hf2 h0
    cases hr : emplaceE md E sec update mem true k v 64 s with
    | ok s0 r =>
      rw [hr] at h0
      obtain ⟨s1, q1, q2⟩ := emplaceThrow_lost (fail := fail) hE hf hR.toLive hk (hS.perm (hm.cons _)) hr (by rw [← hf2 _ _ _ _ h0]; exact hb) hi hfl hfl'
      exact ⟨s1, by rw [q1]; rfl, q2⟩
    | _ => rw [hr] at h0; cases h0
  have rd1 : ∀ (s' : LT K V) (r : Nat × Bool) s3 y, readElemE s' r = .ok s3 y → s3.blk = s'.blk := by
    intro s' r s3 y h
    unfold readElemE at h
    split at h <;> cases h
    rfl
  have rd2 : ∀ (s' : LT K V) (r : Nat × Bool) s3 y, readValueE s' r = .ok s3 y → s3.blk = s'.blk := by
    intro s' r s3 y h
    unfold readValueE at h
    split at h <;> cases h
    rfl
  cases c with
  | insert k v => exact emp false k v _ hs.1 hcalm rd1 hx
  | assign k v => exact emp true k v _ hs.1 hcalm rd1 hx
  | index k v => exact emp false k v _ hs.1 hcalm rd2 hx
  | reserve n => exact fin (rehashThrow_lost hf hR.toCore (hfit hs.2) (unit hx) (Or.inl hb) hi hfl hfl')
  | rehash n => exact fin (rehashThrow_lost hf hR.toCore (hfit hs) (unit hx) (Or.inl hb) hi hfl hfl')
  | shrink ro => exact fin (rehashThrow_lost hf hR.toCore (hfit hs) (unit hx) (Or.inl hb) hi hfl hfl')
  | maxLoad y =>
    have hc1 : Core E sec { s.t with mlf := y % 2 ^ 32, rev := rv y } :=
      ⟨⟨⟨hR.pow, hR.gmask, hR.clen, hR.bound, hR.order, hR.mirror, hR.tail⟩, hR.cell⟩, hR.size, hR.room⟩
    have hf1 : Fine { s with t := { s.t with mlf := y % 2 ^ 32, rev := rv y } } := by
      obtain ⟨h, hl⟩ := hf
      exact ⟨h, hl.congr rfl rfl (fun _ _ => Iff.rfl)⟩
    have h0 := unit hx
    simp only [execThrowE]
    apply fin
    unfold setMlfE at h0
    unfold setMlfThrowE
    simp only at h0 ⊢
    split at h0
    · rename_i hc
      rw [if_pos hc]
      obtain ⟨s1, q1, q2⟩ := rehashThrow_lost (fail := fail) hf1 hc1 (hfit hs.2) h0 (Or.inl hb) hi hfl hfl'
      exact ⟨s1, q1, q2.congr rfl rfl rfl rfl rfl rfl rfl⟩
    · cases h0; exact absurd rfl hb
  | clear d => exact absurd rfl (hnc d)
  | «at» k => exact (lft hx).elim
  | erase k =>
    exfalso
    simp only [execE] at hx
    unfold eraseKeyE at hx
    cases hq : findIdx E sec s.t k with
    | ok o =>
      rw [hq] at hx
      cases o with
      | none => cases hx; exact hb rfl
      | some p =>
        simp only [liftE, eraseSlotE] at hx
        cases hq2 : s.t.slot p with
        | none => rw [hq2] at hx; cases hx
        | some e =>
          rw [hq2] at hx
          simp only at hx
          cases hq3 : eraseLoopE s.blk (s.t.clen + 1) p { s.t with slot := dropSlot false s.t.slot p, size := (s.t.size + W - 1) % W } with
          | ok q => rw [hq3] at hx; cases hx; exact hb rfl
          | _ => rw [hq3] at hx; cases hx
    | _ => rw [hq] at hx; cases hx
  | find k => exact (lft hx).elim
  | contains k => exact (lft hx).elim
  | count k => exact (lft hx).elim
  | iterate => exact (lft hx).elim
  | size => cases hx; exact absurd rfl hb
  | empty => cases hx; exact absurd rfl hb

/-- C134, the violation in robin16, after every history of C126: whenever a call other than `clear` would obtain new slots, and the constructor
that moves the `i`-th element throws, the call throws and leaves a map that has lost all later elements, together with the old blocks; the element
itself is marked but not there, so that looking for it and destroying the map are undefined.  The call is one that C126 covers, and an insertion
stays below the displacement limit. -/
theorem C134_robin16_throws (hE : E.Lawful) {rv : Nat → Nat} (hrv : ∀ x, 81920 ≤ rv x ∧ rv x ≤ 327680) {mem0 : Mem} {n : Nat} {s0 s : LT K V}
    (hc0 : makeE mem0 n = .ok s0 ()) {cs : List (Mem × Call K V)} (hg : Guarded E sec false rv cs s0.t []) {as : List (Ans K V)}
    (hr : runE md E sec rv cs s0 = .ok (as, s)) {mem : Mem} {c : Call K V} (hs : Safe E sec rv s.t (entries s.t) c)
    (hcalm : Calm E s.t (entries s.t) c) (hnc : ∀ d, c ≠ .clear d) {x : Ans K V} {s2 : LT K V}
    (hx : execE md E sec rv mem c s = .ok s2 x) (hb : s2.blk ≠ s.blk) {i : Nat} (hi : i < s.t.size) (hfl : fail i = true)
    (hfl' : ∀ x < i, fail x = false) : ∃ s1, execThrowE md E sec fail rv mem c s = .throw s1 ∧ Lost E sec s s1 i := by
  obtain ⟨h1, h2⟩ := makeE_ok hc0
  obtain ⟨k1, k2, _⟩ := make_ok (E := E) (sec := sec) h1
  obtain ⟨as', s', m', g1, _, g3, g4, _⟩ := runE_ok (md := md) hE hrv cs s0 [] k1 h2 (by rw [k2]) hg
  rw [hr] at g1
  cases g1
  exact execThrow_lost hE g4 g3 (List.Perm.refl _) hs hcalm hnc hx hb hi hfl hfl'

end

/-! ### Examples -/

open Verif.Robin (hashEnv hashEnv_lawful)

/-- Whether the call obtains new slots, and whether element 1 cannot be found after the move of element 0 has thrown. -/
def growsAndLoses (c : Call Nat Nat) (s : LT Nat Nat) : Bool :=
  (match execE .swap (hashEnv id) odd (fun _ => 131072) .ok c s with | .ok s2 _ => decide (s2.blk ≠ s.blk) | _ => false) && decide (0 < s.t.size) &&
    (match execThrowE .swap (hashEnv id) odd (fun n => n == 0) (fun _ => 131072) .ok c s with
    | .throw s1 => decide (s1.t.size = 0) && (match lookup (hashEnv id) odd s1.t 1 with | .ok none => true | _ => false)
    | _ => false)

set_option maxRecDepth 100000 in
/-- The hypotheses of `C134_robin16_throws`, for an insertion; `Safe` and `Calm` hold because there are few elements. -/
example : ∃ s : LT Nat Nat, Reach (hashEnv id) odd s.t ∧ Fine s ∧ (decide ((entries s.t).length ≤ 128) && growsAndLoses (.insert 7 7) s) = true :=
  fine_play (cs := ins 2 1) (by decide +kernel) (by decide +kernel)

set_option maxRecDepth 100000 in
/-- The hypotheses of `C134_robin16_throws`, for `reserve`. -/
example : ∃ s : LT Nat Nat, Reach (hashEnv id) odd s.t ∧ Fine s ∧
    (fitsB (max (minRequire s.t 100) s.t.size) (entries s.t) && growsAndLoses (.reserve 100) s) = true :=
  fine_play (cs := ins 3 1) (by decide +kernel) (by decide +kernel)

end Verif.Rob16.Track
