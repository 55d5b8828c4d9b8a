/-
robin16 maps built from a range (C126), and programs with any number of robin16 maps (C130).  The map with its log is the one of
`Verif.Rob16Track`, programs are those of `Verif.Owners`.

R16 = `src/jstd/hashmap/robin16_hash_map.h`.

The copy constructor (R16:1363-1386) and assignment cannot be instantiated.  A constructor that throws leaves no object behind: no destructor runs
for it, only what the constructor itself catches is given back.
-/
import Verif.Rob16Life
import Verif.Rob16More
import Verif.Owners

namespace Verif.Rob16.Track
open Verif
open Verif.Spec (Call Ans Distinct)
open Verif.Life (Ev Heap)

/-! ### The model -/

section Model
variable {K V : Type} (md : Mode) (E : Env K) (sec : Nat → Nat)

/-- `insert(first, last)` (R16:1805-1810), see `Rob16.insertAll`; `bad n` says that constructing element number `n` throws. -/
def insertAllE (mem : Mem) (bad : Nat → Bool) : Nat → List (K × V) → LT K V → Out (LT K V) Unit
  | _, [], s => .ok s ()
  | n, e :: es, s => (emplaceE md E sec false mem (!bad n) e.1 e.2 64 s).bind fun s' _ => insertAllE mem bad (n + 1) es s'

/-- The range constructor (R16:1323-1341) and the one from an initializer list (R16:1424-1443), see `Rob16.ofList`.  Nothing is
caught. -/
def ofListE (mem : Mem) (bad : Nat → Bool) (n : Nat) (l : List (K × V)) : Out (LT K V) Unit :=
  (makeE mem (minRequire (blank : Map K V) (max n l.length))).bind fun s _ => insertAllE md E sec mem bad 0 l s

/-- One call on a map.  After an exception the caller goes on. -/
def callE (rv : Nat → Nat) (mem : Mem) (c : Call K V) (s : LT K V) : Res (LT K V) :=
  match execE md E sec rv mem c s with
  | .ok s' _ => .ok s'
  | .throw s' => .ok s'
  | .diverge => .diverge
  | .ub => .ub

end Model

variable {K V : Type} {md : Mode} {E : Env K} {sec : Nat → Nat}

/-! ### C126: ranges -/

/-- Range insertion with nothing throwing agrees with the plain model and keeps the log in order. -/
theorem insertAllE_agree (hE : E.Lawful) {mem : Mem} (hmem : mem ≠ .noSlots) {bad : Nat → Bool} : ∀ (l : List (K × V)) (n : Nat) (s : LT K V)
    (m : Spec.Map K V), Reach E sec s.t → Fine s → (entries s.t).Perm m → (∀ e ∈ l, TagOk E sec s.t e.1) → Spread E 129 (cap s.t) (l ++ m) →
    (∀ i, i < l.length → bad (n + i) = false) →
    Agree (insertAllE md E sec mem bad n l s) (insertAll E sec mem l s.t) := by
  intro l
  induction l with
  | nil => intro n s m _ hf _ _ _ _; exact ⟨rfl, rfl, hf⟩
  | cons e l ih =>
    intro n s m hR hf hm hk hS hbad
    rw [List.cons_append] at hS
    have hSe : Spread E 129 (cap s.t) (e :: m) := hS.sub ((List.sublist_append_right l _).cons_cons e).subperm
    have hS2 := hSe.mono (B' := 254) (by omega)
    have hke := hk e List.mem_cons_self
    have hp := insert_ok hE hR hm false hmem e.1 e.2 hke hS2
    obtain ⟨j, j1, j2, j3⟩ := hR.pow
    have hes := emplace_spec hE false mem true e.1 e.2 64 j s.t hR.toLive hke (hS2.perm (hm.cons e)) j3 (by omega)
    have hsm := emplaceE_agree (md := md) hE false hmem e.1 e.2 64 s hR.toLive hke (hS2.perm (hm.cons _)) hf
    unfold insertAllE insertAll
    unfold insert at hp ⊢
    rw [show bad n = false from hbad 0 (by simp)]
    apply Agree.bind hsm
    intro s' a hf' ho
    rw [ho] at hp hes
    obtain ⟨i, b⟩ := a
    obtain ⟨g1, _, _, _, _, g2⟩ := hp
    have hw : Wider E s.t s'.t := by
      rcases hes with ⟨_, _, _, _, _, _, _, hw⟩ | ⟨_, _, _, _, _, _, hw⟩
      · exact hw
      · rw [hw]; exact Wider.refl s.t
    have g2' : (entries s'.t).Perm (Spec.insert E.eq m e.1 e.2) := g2
    have hsub : (l ++ Spec.insert E.eq m e.1 e.2).Subperm (e :: (l ++ m)) :=
      ((List.subperm_append_left l).mpr (insert_sub [e] m)).trans List.perm_middle.subperm
    exact ih (n + 1) s' _ g1 hf' g2' (fun x hx => (hk x (List.mem_cons_of_mem _ hx)).mono hw.le) ((hw.spread _ _ hS).sub hsub) (fun i hi => by
      have := hbad (i + 1) (by simpa using hi)
      rwa [show n + 1 + i = n + (i + 1) by omega])

/-- The room made for a range. -/
theorem range_room {mem : Mem} {n : Nat} {l : List (K × V)} (hk : (∀ e ∈ l, tagOf E sec e.1 ≠ 0) ∨ 5 ≤ l.length) (hn : n < 2 ^ 44)
    (hl : l.length ≤ 129) {s1 : LT K V} (hm : makeE mem (minRequire (blank : Map K V) (max n l.length)) = .ok s1 ()) :
    Fine s1 ∧ make mem (minRequire (blank : Map K V) (max n l.length)) = .ok s1.t () ∧ Reach E sec s1.t ∧ entries s1.t = [] ∧
      ∀ e ∈ l, TagOk E sec s1.t e.1 := by
  obtain ⟨h1, h2⟩ := makeE_ok hm
  obtain ⟨g1, g2, j, g3, _, g4, g5, _⟩ := make_ok (E := E) (sec := sec) h1
  refine ⟨h2, h1, g1, g2, fun e he => ?_⟩
  rcases hk with hk | hk
  · exact Or.inr (hk e he)
  · left
    have hmin : minRequire (blank : Map K V) (max n l.length) = 2 * max n l.length := by
      show max n l.length * 131072 % W / 65536 = _
      rw [Nat.mod_eq_of_lt (by unfold W; omega)]
      omega
    rw [hmin] at g5
    have hcap : cap s1.t = 2 ^ j := by rw [g4]; exact cap_fresh (Nat.two_pow_pos _)
    by_contra hcon
    have hj3 : j ≤ 3 := by
      by_contra hj
      have := Robin.pow_two_le (a := 4) (b := j) (by omega)
      omega
    have := Robin.pow_two_le (a := j) (b := 3) hj3
    omega

/-- C126 (partial).  A constructor from a range of at most 129 elements that returns: the map is that of the plain model, the log is in
order, and the destructor leaves nothing.  Missing: exceptions, see `C126_range_throws`, and longer ranges. -/
theorem C126_range_partial (hE : E.Lawful) {mem : Mem} (hmem : mem ≠ .noSlots) {bad : Nat → Bool} {n : Nat} {l : List (K × V)}
    (hl : l.length ≤ 129) (hk : (∀ e ∈ l, tagOf E sec e.1 ≠ 0) ∨ 5 ≤ l.length) (hn : n < 2 ^ 44)
    (hb : ∀ i, i < l.length → bad i = false) {s : LT K V} (hc : ofListE md E sec mem bad n l = .ok s ()) :
    ofList E sec mem n l = .ok s.t () ∧ Reach E sec s.t ∧
      (entries s.t).Perm (l.foldl (fun m e => Spec.insert E.eq m e.1 e.2) []) ∧ InOrder s ∧ Fine s := by
  unfold ofListE at hc
  cases hm : makeE mem (minRequire (blank : Map K V) (max n l.length)) with
  | ub => rw [hm] at hc; cases hc
  | diverge => rw [hm] at hc; cases hc
  | throw s1 => rw [hm] at hc; cases hc
  | ok s1 u =>
    rw [hm] at hc
    simp only [Out.bind_ok] at hc
    obtain ⟨h2, h1, g1, g2, g3⟩ := range_room (E := E) (sec := sec) hk hn hl hm
    have hsm := insertAllE_agree (md := md) hE hmem (bad := bad) l 0 s1 [] g1 h2 (by rw [g2]) g3
      (spread_of_length (by rw [List.append_nil]; exact hl)) (fun i hi => by rw [Nat.zero_add]; exact hb i hi)
    rw [hc] at hsm
    have ho : ofList E sec mem n l = insertAll E sec mem l s1.t := by
      unfold ofList
      rw [h1]; rfl
    rw [← ho] at hsm
    cases hl' : ofList E sec mem n l with
    | ub => rw [hl'] at hsm; exact hsm.elim
    | diverge => rw [hl'] at hsm; exact hsm.elim
    | throw t1 => rw [hl'] at hsm; exact hsm.elim
    | ok t1 v =>
      rw [hl'] at hsm
      obtain ⟨rfl, _, hf⟩ := hsm
      obtain ⟨k1, k2⟩ := C90_from_range_partial hE hmem n l hl hk hn hl'
      exact ⟨rfl, k1, k2, hf.inOrder k1.toCore, hf⟩

/-- A new key whose element cannot be constructed: both blocks of the map are there afterwards. -/
theorem emplaceE_throws (hE : E.Lawful) {s : LT K V} (hf : Fine s) (hL : Live E sec s.t) (update : Bool) {mem : Mem} (hmem : mem ≠ .noSlots)
    {k : K} {v : V} (hk : TagOk E sec s.t k) (hS : Spread E 129 (cap s.t) ((k, v) :: entries s.t)) (hab : Absent E s.t k) (f : Nat) :
    ∃ s' h, emplaceE md E sec update mem false k v (f + 1) s = .throw s' ∧ Heap.run s'.log Heap.empty = some h ∧ h.blocks.length = 2 := by
  obtain ⟨j, h1, h2, hj⟩ := hL.pow
  have hS0 : Spread E 254 (cap s.t) (entries s.t) := (hS.mono (by omega)).sub (List.sublist_cons_self _ _).subperm
  have hsp := prepare_spec hE mem k 64 j s.t hL hk hS0 hj (by omega)
  have hsm := prepareE_agree (md := md) hE hmem k 64 j s hL hS0 hf hj
  cases hq : prepareE md E sec mem k 64 s with
  | throw s1 =>
    rw [hq] at hsm
    cases hp : prepare E sec mem k 64 s.t with
    | throw t1 =>
      rw [hp] at hsm
      obtain ⟨rfl, h, hl⟩ := hsm
      exact ⟨s1, h, by unfold emplaceE; rw [hq]; rfl, hl.run, by rw [hl.blocks]; rfl⟩
    | ok t1 r => rw [hp] at hsm; exact hsm.elim
    | ub => rw [hp] at hsm; exact hsm.elim
    | diverge => rw [hp] at hsm; exact hsm.elim
  | ub =>
    rw [hq] at hsm
    generalize prepare E sec mem k 64 s.t = o at hsm hsp
    match o, hsm, hsp with
    | .ub, _, hsp => exact hsp.elim
  | diverge =>
    rw [hq] at hsm
    generalize prepare E sec mem k 64 s.t = o at hsm hsp
    match o, hsm, hsp with
    | .diverge, _, hsp => exact hsp.elim
  | ok s1 r =>
    rw [hq] at hsm
    cases hp : prepare E sec mem k 64 s.t with
    | throw t1 => rw [hp] at hsm; exact hsm.elim
    | ub => rw [hp] at hsm; exact hsm.elim
    | diverge => rw [hp] at hsm; exact hsm.elim
    | ok t1 r' =>
      rw [hp] at hsm hsp
      obtain ⟨rfl, rfl, h, hl⟩ := hsm
      obtain ⟨i, o⟩ := r
      cases o with
      | none =>
        exfalso
        obtain ⟨_, q2, q3⟩ := hsp
        exact (absent_iff hL.toTab.toBase).mp hab i q2 q3
      | some d =>
        obtain ⟨g1, g2, g3, g4, g5, g6, g7⟩ := hsp
        have hS' : Spread E 129 (cap s1.t) ((k, v) :: entries s1.t) := (g7.spread _ _ hS).perm (g6.cons _)
        subst g4
        obtain ⟨s2, bb, l, h', k1, k2, k3, k4⟩ := makeRoomE_both (md := md) (e := (k, v)) false g2.toTab g2.exists_empty g3 (hS'.mono (by omega)) (hp := h)
          (Q := fun _ _ => False) (by rw [hl.blocks]; simp) hl.fresh (fun _ _ hq => hq.elim) (hl.holds.congr fun b i => by simp)
        have hbb : bb = false := by
          cases bb with
          | false => rfl
          | true => exact absurd hS' (k4.full rfl).2.1
        subst hbb
        refine ⟨{ s2 with t := { s2.t with slot := upd s2.t.slot (pos E s1.t k d) none } }, h', ?_, ?_, ?_⟩
        · unfold emplaceE
          rw [hq]
          simp only [Out.bind_ok]
          rw [k1]
          simp only [liftE, Bool.false_eq_true, if_false]
        · show Heap.run s2.log _ = _
          rw [k3.log, Life.run_append, hl.run]; exact k3.run
        · rw [k3.blocks, hl.blocks]; rfl

theorem insertAllE_throws (hE : E.Lawful) {mem : Mem} (hmem : mem ≠ .noSlots) {bad : Nat → Bool} (e : K × V) (r : List (K × V)) :
    ∀ (l : List (K × V)) (n : Nat) (s : LT K V) (m : Spec.Map K V), Reach E sec s.t → Fine s → (entries s.t).Perm m →
    (∀ x ∈ l ++ [e], TagOk E sec s.t x.1) → Spread E 129 (cap s.t) (l ++ e :: m) →
    (∀ i, i < l.length → bad (n + i) = false) → bad (n + l.length) = true →
    Spec.get E.eq (l.foldl (fun m e => Spec.insert E.eq m e.1 e.2) m) e.1 = none →
    ∃ s' h, insertAllE md E sec mem bad n (l ++ e :: r) s = .throw s' ∧ Heap.run s'.log Heap.empty = some h ∧ h.blocks.length = 2 := by
  intro l
  induction l with
  | nil =>
    intro n s m hR hf hm hk hS _ hb hg
    obtain ⟨s', h, g1, g2, g3⟩ := emplaceE_throws (md := md) (v := e.2) hE hf hR.toLive false hmem (k := e.1) (hk e (by simp))
      (hS.perm (hm.cons e)) (fun x hx => Robin.absent_symm hE (Spec.get_none_iff.mp hg x (hm.mem_iff.mp hx))) 63
    refine ⟨s', h, ?_, g2, g3⟩
    show insertAllE md E sec mem bad n (e :: r) s = _
    unfold insertAllE
    rw [show bad n = true from hb]
    simp only [Bool.not_true, g1, Out.bind]
  | cons x l ih =>
    intro n s m hR hf hm hk hS hbad hb hg
    rw [List.cons_append] at hS
    have hSe : Spread E 129 (cap s.t) (x :: m) :=
      hS.sub (((List.sublist_cons_self e m).trans (List.sublist_append_right l _)).cons_cons x).subperm
    have hS2 := hSe.mono (B' := 254) (by omega)
    have hke := hk x (by simp)
    have hp := insert_ok hE hR hm false hmem x.1 x.2 hke hS2
    obtain ⟨j, j1, j2, j3⟩ := hR.pow
    have hes := emplace_spec hE false mem true x.1 x.2 64 j s.t hR.toLive hke (hS2.perm (hm.cons x)) j3 (by omega)
    have hsm := emplaceE_agree (md := md) hE false hmem x.1 x.2 64 s hR.toLive hke (hS2.perm (hm.cons _)) hf
    unfold insert at hp
    show ∃ s' h, insertAllE md E sec mem bad n (x :: (l ++ e :: r)) s = _ ∧ _
    unfold insertAllE
    rw [show bad n = false from hbad 0 (by simp)]
    simp only [Bool.not_false]
    generalize emplaceE md E sec false mem true x.1 x.2 64 s = o at hsm
    generalize emplace E sec false mem true x.1 x.2 64 s.t = o' at hsm hp hes
    match o, o', hsm, hp, hes with
    | .throw s1, .throw t1, ⟨e1, h, hl⟩, _, _ => exact ⟨s1, h, rfl, hl.run, by rw [hl.blocks]; rfl⟩
    | .ok s1 q, .ok t1 (i, w), ⟨e1, e2, hf1⟩, ⟨g1, _, _, _, _, g2⟩, hes =>
      subst e1
      have hw : Wider E s.t s1.t := by
        rcases hes with ⟨_, _, _, _, _, _, _, hw⟩ | ⟨_, _, _, _, _, _, hw⟩
        · exact hw
        · rw [hw]; exact Wider.refl s.t
      have g2' : (entries s1.t).Perm (Spec.insert E.eq m x.1 x.2) := g2
      have hsub : (l ++ e :: Spec.insert E.eq m x.1 x.2).Subperm (x :: (l ++ e :: m)) := by
        have h1 : (e :: Spec.insert E.eq m x.1 x.2).Subperm (x :: e :: m) :=
          ((List.subperm_cons e).mpr (insert_sub [x] m)).trans (List.Perm.swap _ _ _).subperm
        exact ((List.subperm_append_left l).mpr h1).trans List.perm_middle.subperm
      obtain ⟨s', h, k1, k2, k3⟩ := ih (n + 1) s1 _ g1 hf1 g2' (fun y hy => (hk y (List.mem_cons_of_mem _ hy)).mono hw.le)
        ((hw.spread _ _ hS).sub hsub) (fun i hi => by
        have := hbad (i + 1) (by simpa using hi)
        rwa [show n + 1 + i = n + (i + 1) by omega]) (by
        rw [List.length_cons] at hb
        rwa [show n + 1 + l.length = n + (l.length + 1) by omega]) hg
      exact ⟨s', h, k1, k2, k3⟩

/-- C126, violated: constructing an element of a range throws.  The constructor catches nothing and no destructor runs, so both blocks stay
allocated. -/
theorem C126_range_throws (hE : E.Lawful) {mem : Mem} (hmem : mem ≠ .noSlots) {bad : Nat → Bool} {n : Nat} {l r : List (K × V)} {e : K × V}
    (hl : (l ++ e :: r).length ≤ 129) (hk : (∀ x ∈ l ++ e :: r, tagOf E sec x.1 ≠ 0) ∨ 5 ≤ (l ++ e :: r).length) (hn : n < 2 ^ 44)
    {s1 : LT K V} (hm : makeE mem (minRequire (blank : Map K V) (max n (l ++ e :: r).length)) = .ok s1 ())
    (hb : ∀ i, i < l.length → bad i = false) (hbe : bad l.length = true)
    (hnew : Spec.get E.eq (l.foldl (fun m e => Spec.insert E.eq m e.1 e.2) []) e.1 = none) :
    ∃ s h, ofListE md E sec mem bad n (l ++ e :: r) = .throw s ∧ Heap.run s.log Heap.empty = some h ∧ h.blocks.length = 2 := by
  obtain ⟨h2, _, g1, g2, g3⟩ := range_room (E := E) (sec := sec) hk hn hl hm
  obtain ⟨s, h, k1, k2, k3⟩ := insertAllE_throws (md := md) hE hmem (bad := bad) e r l 0 s1 [] g1 h2 (by rw [g2])
    (fun x hx => g3 x (by
      rcases List.mem_append.mp hx with hx | hx
      · exact List.mem_append_left _ hx
      · rw [List.mem_singleton] at hx; rw [hx]; simp))
    (spread_of_length (by
      simp only [List.length_append, List.length_cons] at hl
      simp only [List.length_append, List.length_cons, List.length_nil]; omega))
    (fun i hi => by rw [Nat.zero_add]; exact hb i hi) (by rw [Nat.zero_add]; exact hbe) hnew
  refine ⟨s, h, ?_, k2, k3⟩
  unfold ofListE
  rw [hm]
  exact k1

/-! ### Events are only added -/

/-- The log of the outcome continues that of `s`. -/
def Ext {α : Type} (s : LT K V) : Out (LT K V) α → Prop
  | .ok s' _ => s.log <+: s'.log
  | .throw s' => s.log <+: s'.log
  | _ => True

/-- The same for a function that does not throw. -/
def ExtR (s : LT K V) : Res (LT K V) → Prop
  | .ok s' => s.log <+: s'.log
  | _ => True

theorem Ext.trans {α : Type} {s s1 : LT K V} (h : s.log <+: s1.log) {o : Out (LT K V) α} (ho : Ext s1 o) : Ext s o := by
  cases o with
  | ok s2 a => exact h.trans ho
  | throw s2 => exact h.trans ho
  | diverge => trivial
  | ub => trivial

theorem ExtR.trans {s s1 : LT K V} (h : s.log <+: s1.log) {o : Res (LT K V)} (ho : ExtR s1 o) : ExtR s o := by
  cases o with
  | ok s2 => exact h.trans ho
  | diverge => trivial
  | ub => trivial

theorem Ext.bind {α β : Type} {s : LT K V} {o : Out (LT K V) α} (h : Ext s o) {f : LT K V → α → Out (LT K V) β}
    (hf : ∀ s' a, Ext s' (f s' a)) : Ext s (o.bind f) := by
  cases o with
  | ok s' a => exact (hf s' a).trans h
  | throw s' => exact h
  | diverge => trivial
  | ub => trivial

theorem ExtR.bind {α : Type} {s : LT K V} {r : Res α} {f : α → Res (LT K V)} (hf : ∀ a, ExtR s (f a)) : ExtR s (r.bind f) := by
  cases r with
  | ok a => exact hf a
  | diverge => trivial
  | ub => trivial

theorem ExtR.then {s : LT K V} {r : Res (LT K V)} (h : ExtR s r) {f : LT K V → Res (LT K V)} (hf : ∀ a, ExtR a (f a)) : ExtR s (r.bind f) := by
  cases r with
  | ok a => exact (hf a).trans h
  | diverge => trivial
  | ub => trivial

theorem Ext.lift {α β : Type} {s : LT K V} {r : Res α} {f : α → Out (LT K V) β} (hf : ∀ a, Ext s (f a)) : Ext s (liftE r f) := by
  cases r with
  | ok a => exact hf a
  | diverge => trivial
  | ub => trivial

theorem createE_ext (mem : Mem) (c : Nat) (s : LT K V) : Ext s (createE mem c s) := by
  unfold createE
  split
  · exact List.prefix_append _ _
  · split
    · exact List.prefix_refl _
    · exact List.prefix_append _ _
  · trivial
  · trivial

/-- The log after making room. -/
def ExtP (s : LT K V) : Res (LT K V × Bool) → Prop
  | .ok q => s.log <+: q.1.log
  | _ => True

theorem makeRoomE_ext (reh : Bool) (i : Nat) (c : Ctrl) (s : LT K V) : ExtP s (makeRoomE md reh i c s) := by
  unfold makeRoomE
  split
  · exact List.prefix_refl _
  · unfold insertToPlaceE
    split
    · trivial
    · generalize placeLoopE md reh _ _ _ _ _ _ _ _ = o
      cases o with
      | ok q => exact List.prefix_append _ _
      | diverge => trivial
      | ub => trivial

theorem insertUniqueE_ext (e : K × V) (s : LT K V) : ExtR s (insertUniqueE md E sec e s) := by
  unfold insertUniqueE
  refine ExtR.bind fun r => ?_
  have h := makeRoomE_ext (md := md) true r.1 ⟨r.2, tagOf E sec e.1⟩ s
  generalize makeRoomE md true r.1 ⟨r.2, tagOf E sec e.1⟩ s = o at h
  cases o with
  | ok q => exact List.IsPrefix.trans h (List.prefix_append _ _)
  | diverge => trivial
  | ub => trivial

theorem transferAllE_ext (old : Map K V) (bo : Nat) : ∀ (is : List Nat) (s : LT K V), ExtR s (transferAllE md E sec old bo is s) := by
  intro is
  induction is with
  | nil => intro s; exact List.prefix_refl _
  | cons i is ih =>
    intro s
    unfold transferAllE
    split
    · trivial
    · exact ExtR.then (insertUniqueE_ext _ s) fun s' => (ih (emit [.dtor bo i] s')).trans (List.prefix_append _ _)

theorem rehashImplE_ext (a b : Bool) (mem : Mem) (n : Nat) (s : LT K V) : Ext s (rehashImplE md E sec a b mem n s) := by
  unfold rehashImplE
  split
  · trivial
  · trivial
  · split
    · rename_i c _ _
      have h1 := createE_ext mem c s
      generalize createE mem c s = o at h1
      match o, h1 with
      | .ok s1 _, h1 =>
        simp only
        split
        · trivial
        · have h2 := transferAllE_ext (md := md) (E := E) (sec := sec) s.t s.blk (usedIdx s.t) s1
          generalize transferAllE md E sec s.t s.blk (usedIdx s.t) s1 = o2 at h2
          match o2, h2 with
          | .ok s2, h2 => exact (List.IsPrefix.trans h1 h2).trans (List.prefix_append _ _)
          | .diverge, _ => trivial
          | .ub, _ => trivial
      | .throw s1, h1 => exact h1
      | .diverge, _ => trivial
      | .ub, _ => trivial
    · exact List.prefix_refl _

theorem prepareE_ext (mem : Mem) (k : K) : ∀ (f : Nat) (s : LT K V), Ext s (prepareE md E sec mem k f s) := by
  intro f
  induction f with
  | zero => intro s; trivial
  | succ f ih =>
    intro s
    unfold prepareE
    refine Ext.lift fun r => ?_
    cases r with
    | hit j => exact List.prefix_refl _
    | full => exact Ext.bind (rehashImplE_ext _ _ _ _ s) fun s' _ => ih s'
    | stop i d =>
      simp only
      split
      · exact Ext.bind (rehashImplE_ext _ _ _ _ s) fun s' _ => ih s'
      · exact List.prefix_refl _

theorem emplaceE_ext (u : Bool) (mem : Mem) (c : Bool) (k : K) (v : V) : ∀ (f : Nat) (s : LT K V), Ext s (emplaceE md E sec u mem c k v f s) := by
  intro f
  induction f with
  | zero => intro s; trivial
  | succ f ih =>
    intro s
    unfold emplaceE
    refine Ext.bind (prepareE_ext mem k 64 s) fun s' r => ?_
    split
    · split
      · trivial
      · split
        · exact List.prefix_refl _
        · exact List.prefix_refl _
    · rename_i d _
      have h := makeRoomE_ext (md := md) false r.1 ⟨d, tagOf E sec k⟩ s'
      generalize makeRoomE md false r.1 ⟨d, tagOf E sec k⟩ s' = o at h
      cases o with
      | ok q =>
        simp only [liftE]
        split
        · exact (Ext.bind (rehashImplE_ext _ _ _ _ q.1) fun s'' _ => ih s'').trans h
        · split
          · exact List.IsPrefix.trans h (List.prefix_append _ _)
          · exact h
      | diverge => trivial
      | ub => trivial

theorem clearE_ext (d : Bool) (s : LT K V) : Ext s (clearE d s) := by
  unfold clearE
  split
  · exact (createE_ext .ok 4 (destroyE s)).trans (List.prefix_append _ _)
  · exact Ext.lift fun _ => List.prefix_append _ _

theorem eraseKeyE_ext (k : K) (s : LT K V) : Ext s (eraseKeyE E sec k s) := by
  refine Ext.lift fun r => ?_
  cases r with
  | none => exact List.prefix_refl _
  | some i =>
    simp only
    unfold eraseSlotE
    split
    · trivial
    · generalize eraseLoopE _ _ _ _ = o
      cases o with
      | ok q => exact List.prefix_append _ _
      | diverge => trivial
      | ub => trivial

theorem execE_ext (rv : Nat → Nat) (mem : Mem) (c : Call K V) (s : LT K V) : Ext s (execE md E sec rv mem c s) := by
  have hr : ∀ (s : LT K V) (r : Nat × Bool), Ext s (readElemE s r) := by
    intro s r; unfold readElemE; split; exacts [trivial, List.prefix_refl _]
  have hv : ∀ (s : LT K V) (r : Nat × Bool), Ext s (readValueE s r) := by
    intro s r; unfold readValueE; split; exacts [trivial, List.prefix_refl _]
  cases c with
  | insert k v => exact Ext.bind (emplaceE_ext _ _ _ _ _ _ s) hr
  | assign k v => exact Ext.bind (emplaceE_ext _ _ _ _ _ _ s) hr
  | index k v => exact Ext.bind (emplaceE_ext _ _ _ _ _ _ s) hv
  | find k => exact Ext.lift fun _ => List.prefix_refl _
  | contains k => exact Ext.lift fun _ => List.prefix_refl _
  | count k => exact Ext.lift fun _ => List.prefix_refl _
  | «at» k => exact Ext.lift fun _ => List.prefix_refl _
  | erase k => exact Ext.bind (eraseKeyE_ext k s) fun s' _ => List.prefix_refl _
  | size => exact List.prefix_refl _
  | empty => exact List.prefix_refl _
  | clear d => exact Ext.bind (clearE_ext d s) fun s' _ => List.prefix_refl _
  | reserve n => exact Ext.bind (rehashImplE_ext _ _ _ _ s) fun s' _ => List.prefix_refl _
  | rehash n => exact Ext.bind (rehashImplE_ext _ _ _ _ s) fun s' _ => List.prefix_refl _
  | shrink ro => exact Ext.bind (rehashImplE_ext _ _ _ _ s) fun s' _ => List.prefix_refl _
  | maxLoad m =>
    refine Ext.bind ?_ fun s' _ => List.prefix_refl _
    unfold setMlfE
    simp only
    split
    · exact Ext.trans (s1 := { s with t := { s.t with mlf := m % 2 ^ 32, rev := rv m } }) (List.prefix_refl _) (rehashImplE_ext _ _ _ _ _)
    · exact List.prefix_refl _
  | iterate => exact Ext.lift fun _ => List.prefix_refl _

/-! ### C130: programs with several maps -/

/-- A constructor call: an empty map of capacity `n`, or one filled from a range. -/
inductive New (K V : Type)
  | empty (mem : Mem) (n : Nat)
  | range (mem : Mem) (n : Nat) (l : List (K × V))

/-- What a constructor that returns leaves; programs in which a constructor throws are not considered. -/
def done (o : Out (LT K V) Unit) : Res (LT K V) :=
  match o with
  | .ok s _ => .ok s
  | .throw _ => .ub
  | .diverge => .diverge
  | .ub => .ub

/-- `robin16_hash_map` as a class of objects: constructors that return (R16:1305-1341, 1424-1443), the calls guarded as in C79, the destructor
(R16:1458-1460).  The copy constructor cannot be instantiated.  A map that was moved from has null pointers (R16:1388-1404); calls
on it are undefined (C91). -/
def robClass (md : Mode) (E : Env K) (sec : Nat → Nat) (hE : E.Lawful) (rv : Nat → Nat) (hrv : ∀ x, 81920 ≤ rv x ∧ rv x ≤ 327680) :
    Owners.Class (LT K V) (New K V) Empty (Mem × Call K V) where
  log s := s.log
  drop s := destroyEv s.t s.blk ++ freeEv s.t s.blk s.gblk
  size s := s.t.size
  make
    | .empty mem n => done (makeE mem n)
    | .range mem n l => done (ofListE md E sec mem (fun _ => false) n l)
  copy := fun o _ => o.elim
  act o s := callE md E sec rv o.1 o.2 s
  left := none
  leaves := fun _ h => by cases h
  good s := Reach E sec s.t ∧ Fine s
  fitNew
    | .empty mem n => ∃ s : LT K V, makeE mem n = .ok s ()
    | .range mem n l => mem ≠ .noSlots ∧ l.length ≤ 129 ∧ ((∀ e ∈ l, tagOf E sec e.1 ≠ 0) ∨ 5 ≤ l.length) ∧ n < 2 ^ 44 ∧
        ∃ s, ofListE md E sec mem (fun _ => false) n l = .ok s ()
  fitCopy := fun o _ => o.elim
  fit o s := Guarded E sec false rv [o] s.t (entries s.t)
  run := fun s h => by
    obtain ⟨⟨g, h1, _, h3⟩, _⟩ := h.2.inOrder h.1.toCore
    exact ⟨g, h1, h3⟩
  dropped := fun s h => by
    obtain ⟨g, hl⟩ := h.2
    exact destroyE_run hl h.1.toTab.weak
  made := by
    intro n hn
    cases n with
    | empty mem n =>
      obtain ⟨s, hs⟩ := hn
      obtain ⟨h1, h2⟩ := makeE_ok hs
      exact ⟨s, by simp only [hs, done], (make_ok h1).1, h2⟩
    | range mem n l =>
      obtain ⟨hm, h1, h2, h3, s, hs⟩ := hn
      obtain ⟨_, g2, _, _, g3⟩ := C126_range_partial hE hm h1 h2 h3 (fun _ _ => rfl) hs
      exact ⟨s, by simp only [hs, done], g2, g3⟩
  copied := fun o => o.elim
  acted := by
    intro o s h hf
    obtain ⟨mem, c⟩ := o
    obtain ⟨h4, h5, h6, h7⟩ := hf
    have hA := execE_agree (md := md) hE h.1 h.2 (List.Perm.refl _) h4 h5
    have hstep := exec_ok hE (triv := false) h.1 (List.Perm.refl _) hrv h4 h5
    have h3 := execE_ext (md := md) (E := E) (sec := sec) rv mem c s
    unfold callE
    simp only
    generalize execE md E sec rv mem c s = x at hA h3
    generalize exec E sec false rv mem c s.t = y at hA hstep h7
    match x, y, hA, hstep, h3 with
    | .ok s1 a, .ok t1 b, ⟨e1, e2, e3⟩, ⟨g1, g2, g3⟩, ⟨l, hl⟩ => subst e1; exact ⟨s1, rfl, ⟨g1, e3⟩, l, hl.symm⟩
    | .throw s1, .throw t1, ⟨e1, e3⟩, ⟨g1, g2, g3⟩, ⟨l, hl⟩ => subst e1; exact ⟨s1, rfl, ⟨g3 (h7 _ rfl).1, e3⟩, l, hl.symm⟩

/-- C130 (partial), robin16: as for flat16, without copies.  Missing: exceptions in constructors (`C126_range_throws`), what `Guarded` excludes. -/
theorem C130_robin16_partial (hE : E.Lawful) {rv : Nat → Nat} (hrv : ∀ x, 81920 ≤ rv x ∧ rv x ≤ 327680)
    {xs : List (Owners.Act (New K V) Empty (Mem × Call K V))} (hf : Owners.FitAll (robClass md E sec hE rv hrv) xs Owners.World.start) :
    ∃ w, Owners.run (robClass md E sec hE rv hrv) xs Owners.World.start = .ok w ∧ Owners.Clean (robClass md E sec hE rv hrv) w :=
  Owners.program hf

/-! ### Cases -/

open Verif.Robin (hashEnv hashEnv_lawful)

/-- Integer keys, default load factor. -/
abbrev natClass (md : Mode) : Owners.Class (LT Nat Nat) (New Nat Nat) Empty (Mem × Call Nat Nat) :=
  robClass md (hashEnv id) odd (hashEnv_lawful id) (fun _ => 131072) (fun _ => by simp)

def newB (md : Mode) : New Nat Nat → Bool
  | .empty mem n => match (makeE mem n : Out (LT Nat Nat) Unit) with | .ok _ _ => true | _ => false
  | .range mem n l => decide (mem ≠ .noSlots) && decide (l.length ≤ 129) && decide (n < 2 ^ 44) &&
      (match ofListE md (hashEnv id) odd mem (fun _ => false) n l with | .ok _ _ => true | _ => false)

def callB (o : Mem × Call Nat Nat) (s : LT Nat Nat) : Bool :=
  decide (o.1 = .ok) && guardedB false (fun _ => 131072) [o.2] s.t (entries s.t)

theorem newB_sound {md : Mode} (n : New Nat Nat) (h : newB md n = true) : (natClass md).fitNew n := by
  cases n with
  | empty mem n =>
    unfold newB at h
    simp only at h
    split at h
    · rename_i s u hc; exact ⟨s, hc⟩
    · cases h
  | range mem n l =>
    unfold newB at h
    simp only [Bool.and_eq_true, decide_eq_true_eq] at h
    obtain ⟨⟨⟨h1, h2⟩, h3⟩, h4⟩ := h
    refine ⟨h1, h2, Or.inl fun e _ => odd_tag e.1, h3, ?_⟩
    split at h4
    · rename_i s u hc; exact ⟨s, hc⟩
    · cases h4

theorem callB_sound {md : Mode} (o : Mem × Call Nat Nat) (s : LT Nat Nat) (h : callB o s = true) : (natClass md).fit o s := by
  obtain ⟨mem, c⟩ := o
  unfold callB at h
  rw [Bool.and_eq_true, decide_eq_true_eq] at h
  obtain ⟨rfl, h2⟩ := h
  exact guardedB_sound [c] s.t (entries s.t) h2

/-- Two maps, a moved map, swaps, displacements, growth, erasures. -/
def prog : List (Owners.Act (New Nat Nat) Empty (Mem × Call Nat Nat)) :=
  [.make 0 (.empty .ok 4), .call 0 (.ok, .insert 3 1), .call 0 (.ok, .insert 64 2), .make 1 (.range .ok 0 [(7, 7), (8, 8), (7, 9)]),
   .call 0 (.ok, .insert 1 3), .call 0 (.ok, .insert 2 4), .swap 0 1, .move 3 0, .make 0 (.empty .ok 9), .call 3 (.ok, .insert 9 9),
   .call 1 (.ok, .reserve 20), .call 1 (.ok, .insert 128 5), .call 1 (.ok, .erase 64), .drop 0, .swap 1 3, .call 1 (.ok, .find 9), .call 3 (.ok, .clear true)]

set_option maxRecDepth 100000 in
/-- A program for `C130_robin16_partial`: in the end two maps hold three elements. -/
example : (match Owners.run (natClass .tmp) prog Owners.World.start with
    | .ok w => decide (((List.range w.num).map fun k => (w.con k).elim 0 (natClass .tmp).size).sum = 3) | _ => false) = true := by
  decide +kernel

set_option maxRecDepth 100000 in
example : ∃ w, Owners.run (natClass .tmp) (prog ++ [.drop 1, .drop 3]) Owners.World.start = .ok w ∧ Owners.Clean (natClass .tmp) w :=
  C130_robin16_partial (hashEnv_lawful id) _ (Owners.progB_sound (tN := newB .tmp) (tC := fun o _ => o.elim) (tO := callB)
    newB_sound (fun o => o.elim) callB_sound _ _ (by decide +kernel))

/-- `C126_range_partial` and `C126_range_throws` have instances. -/
example : (∃ s, ofListE .swap (hashEnv id) odd .ok (fun _ => false) 0 [(1, 1), (2, 2), (1, 3)] = .ok s ()) ∧
    (∀ x : Nat × Nat, tagOf (hashEnv id) odd x.1 ≠ 0) ∧
    (∃ s1 : LT Nat Nat, makeE .ok (minRequire (blank : Map Nat Nat) (max 0 ([(1, 1), (2, 2)] ++ (3, 3) :: []).length)) = .ok s1 ()) ∧
    Spec.get (hashEnv id).eq ([(1, 1), (2, 2)].foldl (fun m e => Spec.insert (hashEnv id).eq m e.1 e.2) []) 3 = none :=
  ⟨⟨_, rfl⟩, fun x => odd_tag x.1, ⟨_, rfl⟩, by decide⟩

end Verif.Rob16.Track
