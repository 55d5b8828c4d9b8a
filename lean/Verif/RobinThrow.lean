/-
Element constructors that throw in `robin_hash_map` with the direct layout, and maps made from ranges (C121, continued).  The map
with its log is that of `Verif.RobinLife`; here every insertion also comes with the answer of the constructor of the new element.

RH = `src/jstd/hashmap/robin_hash_map.h`.

Moves and swaps of elements still do not throw.
-/
import Verif.RobinLife
import Verif.RobinRange

namespace Verif.Robin.Track
open Verif
open Verif.Spec (Call Ans Distinct)
open Verif.Life (Ev Heap)

section Model
variable {K V : Type} (m : Mode) (E : Env K)

/-- `emplace_impl`, `try_emplace_impl`, see `emplaceLoopE` (RH:5870-5968, 6101-6141).  `c` is the answer of the constructor of the
element (RH:5879): if it throws, `find_and_insert` has already written the control word and made room, and nothing is undone. -/
def emplaceLoopX (update : Bool) (a : Bool × Bool) (c : Bool) (k : K) (v : V) : Nat → LT K V → Out (LT K V) (Nat × Bool)
  | 0, _ => .diverge
  | f + 1, s =>
    (findOrInsertE m E a k s).bind fun s' r =>
      match r with
      | .notExists i => if c then liftE (constructE i (k, v) s') fun s'' => .ok s'' (i, true) else .throw s'
      | .exists_ i =>
        match s'.t.slot i with
        | none => .ub
        | some e => .ok (if update then { s' with t := { s'.t with slot := upd s'.t.slot i (some (e.1, v)) } } else s') (i, false)
      | .needGrow => (growE m E a s').bind fun s'' _ => emplaceLoopX update a c k v f s''

/-- With its full fuel, see `emplaceE` (RH:5870-5968, 6101-6141). -/
def emplaceX (update : Bool) (a : Bool × Bool) (c : Bool) (k : K) (v : V) (s : LT K V) : Out (LT K V) (Nat × Bool) :=
  emplaceLoopX m E update a c k v 64 s

/-- `insert(first, last)`, see `Robin.insertRange` (RH:3608-3617); every element comes with the answers of the allocator and of its
constructor. -/
def insertRangeX : List (((Bool × Bool) × Bool) × K × V) → LT K V → Out (LT K V) Unit
  | [], s => .ok s ()
  | (a, k, v) :: l, s => (emplaceX m E false a.1 a.2 k v s).bind fun s' _ => insertRangeX l s'

/-- The constructors from a range and from an initializer list, see `Robin.fromRange` (RH:3077-3096, 3206-3226).  They catch
nothing: after an exception there is no object, and so no destructor call (the state in `throw` has the log). -/
def fromRangeX (a : Bool × Bool) (n : Nat) (l : List (((Bool × Bool) × Bool) × K × V)) : Out (LT K V) Unit :=
  (makeE a (minRequire (emptyMap false 128 512 : Map K V) (max n l.length))).bind fun s _ => insertRangeX m E l s

end Model

section
variable {K V : Type} {m : Mode} {E : Env K}

/-- If the constructor returns, `emplaceLoopX` is `emplaceLoopE`. -/
theorem emplaceLoopX_true (update : Bool) (a : Bool × Bool) (k : K) (v : V) : ∀ (f : Nat) (s : LT K V),
    emplaceLoopX m E update a true k v f s = emplaceLoopE m E update a k v f s := by
  intro f
  induction f with
  | zero => intro s; rfl
  | succ f ih =>
    intro s
    unfold emplaceLoopX emplaceLoopE
    congr 1
    funext s' r
    cases r with
    | notExists i => rfl
    | exists_ i => rfl
    | needGrow =>
      simp only
      congr 1
      funext s'' _
      exact ih s''

/-- A place has been made: its control word is in use, it holds no object. -/
structure Vacant (s : LT K V) (i : Nat) : Prop where
  used : (s.t.ctrl i).isUsed = true
  none : s.t.slot i = none
  lt : i < maxCap s.t

theorem finishE_vacant (hE : E.Lawful) {c : Nat} {s : LT K V} (hG : Good E s.t c) {h0 i : Nat} {d : Ctrl} (hs : Stop s.t h0 i d)
    {s' : LT K V} {j : Nat} (hq : finishE m s i d = .ok s' (.notExists j)) (hj : j < maxCap s'.t) : Vacant s' j := by
  unfold finishE at hq
  rw [d_hash hs] at hq
  obtain ⟨⟨s1, done⟩, hp, h2⟩ := liftE_ok hq
  cases done with
  | false => simp at h2
  | true =>
    simp only [if_true, Out.ok.injEq, Found.notExists.injEq] at h2
    obtain ⟨rfl, rfl⟩ := h2
    obtain ⟨h5, h6⟩ := placeE_none hE hG hs hp
    have hpj := proj_placeE (m := m) false i d s
    rw [hp] at hpj
    simp only [Res.bind_ok] at hpj
    by_cases hi : i < s.t.slen
    · have hsp := place_spec hE hG hs hi false
      rw [← hpj] at hsp
      refine ⟨?_, h5, hj⟩
      have hsp : Made E c s.t s1.t i d := hsp
      rw [hsp.d0, hs.d_eq]
      have := hs.ge
      simp only [Ctrl.isUsed]
      rw [decide_eq_true_eq]
      omega
    · exfalso
      have hsp := place_out hG hi (d := d) false
      rw [← hpj] at hsp
      have hsp : SameShape s.t s1.t := hsp
      have := (hsp.shape hG.toShape).maxCap
      rw [hsp.slen] at this
      omega

theorem findOrInsertE_vacant (hE : E.Lawful) {s : LT K V} (hst : Sound E s.t) (hf : Fine s) {a : Bool × Bool} {k : K} {s' : LT K V} {i : Nat}
    (hq : findOrInsertE m E a k s = .ok s' (.notExists i)) (hi : i < maxCap s'.t) : Vacant s' i := by
  unfold findOrInsertE at hq
  obtain ⟨q, hpr, h2⟩ := liftE_ok hq
  cases q with
  | hit i => cases h2
  | stop i0 d =>
    simp only at h2
    split at h2
    · obtain ⟨s1, u, hg, h3⟩ := bindE_ok h2
      obtain ⟨⟨i1, d1⟩, hs, h4⟩ := liftE_ok h3
      obtain ⟨_, ⟨c, g2⟩, _⟩ := growE_ok hE hst.weak hf hg
      have hsk := seek_spec g2 k
      rw [hs] at hsk
      exact finishE_vacant hE g2 hsk h4 hi
    · rename_i hth
      rcases hst with ⟨x, y, hxy⟩ | ⟨c, hG⟩
      · exfalso
        apply hth
        rw [hxy]
        rfl
      · have hst := probe_spec hG k
        rw [hpr] at hst
        exact finishE_vacant hE hG hst.1 h2 hi

/-- The destructor destroys an object that does not exist. -/
theorem destroy_vacant {s : LT K V} (hf : Fine s) {i : Nat} (hv : Vacant s i) : Heap.run (destroyE s).log Heap.empty = none := by
  unfold destroyE emit
  simp only
  rw [Life.run_append]
  rcases hf.ok with ⟨_, hn⟩ | ⟨_, h, hn, hO⟩
  · rw [hn]; rfl
  · rw [hn, Option.bind_some, Life.run_append]
    have hO : Own s.blk s.t.slot (fun _ => False) (owned s.t s.blk) h := hO
    have : Heap.run (clearSlotsE s.t s.blk) h = none := by
      unfold clearSlotsE
      refine Life.run_dtors_none s.blk _ h hO.nodup ⟨i, ?_, ?_⟩
      · rw [List.mem_filter, List.mem_range]
        exact ⟨hv.lt, hv.used⟩
      · rw [hO.live, hv.none]
        simp
    rw [this]
    rfl

/-- The constructor of a new element throws (RH:5879 and the other overloads): the control word has been written before, and the
destructor of the map destroys an object that was never constructed. -/
theorem C121_throwing_element (hE : E.Lawful) {s : LT K V} (hR : Reach E s.t) (hf : Fine s) {update : Bool} {a : Bool × Bool} {k : K} {v : V}
    {s' s'' : LT K V} {i : Nat} (hq : findOrInsertE m E a k s = .ok s' (.notExists i)) (hc : constructE i (k, v) s' = .ok s'') :
    emplaceX m E update a true k v s = .ok s'' (i, true) ∧
    emplaceX m E update a false k v s = .throw s' ∧ Heap.run (destroyE s').log Heap.empty = none := by
  have hst : Sound E s.t := hR.st.imp id fun ⟨c, h⟩ => ⟨c, h.toGood⟩
  obtain ⟨_, ⟨_, h0, _⟩ | ⟨j, c, h0, h2, h3, _⟩ | ⟨h0, _⟩⟩ := findOrInsertE_ok hE hst hf hq
  · cases h0
  · have hlt : i < maxCap s'.t := by
      unfold constructE construct at hc
      split at hc
      · rename_i hi; rw [h2.maxCap]; exact hi
      · cases hc
    refine ⟨?_, ?_, destroy_vacant (findOrInsertE_ok hE hst hf hq).1 (findOrInsertE_vacant hE hst hf hq hlt)⟩
    · unfold emplaceX emplaceLoopX
      rw [hq]
      simp only [Out.bind_ok, if_true]
      rw [hc]
      rfl
    · unfold emplaceX emplaceLoopX
      rw [hq]
      simp only [Out.bind_ok, Bool.false_eq_true, if_false]
  · cases h0

/-! ### Ranges -/

/-- What a call with a throwing constructor returns, it returns without. -/
theorem emplaceLoopX_ok {update : Bool} {a : Bool × Bool} {c : Bool} {k : K} {v : V} : ∀ (f : Nat) {s s' : LT K V} {r : Nat × Bool},
    emplaceLoopX m E update a c k v f s = .ok s' r → emplaceLoopE m E update a k v f s = .ok s' r := by
  intro f
  induction f with
  | zero => intro s s' r h; cases h
  | succ f ih =>
    intro s s' r h
    unfold emplaceLoopX at h
    unfold emplaceLoopE
    obtain ⟨s1, q, h1, h2⟩ := bindE_ok h
    rw [h1]
    cases q with
    | notExists i =>
      simp only at h2
      split at h2
      · exact h2
      · cases h2
    | exists_ i => exact h2
    | needGrow =>
      obtain ⟨s2, u, h3, h4⟩ := bindE_ok h2
      show (growE m E a s1).bind _ = _
      rw [h3]
      exact ih h4

/-- The elements as `Robin.insertRange` takes them. -/
def plainRange (l : List (((Bool × Bool) × Bool) × K × V)) : List (Bool × K × V) := l.map fun x => (x.1.1.1 && x.1.1.2, x.2)

/-- A range that is inserted: the map is that of `Robin.insertRange`, the log stays in order. -/
theorem insertRangeX_ok (hE : E.Lawful) : ∀ (l : List (((Bool × Bool) × Bool) × K × V)) {s : LT K V} {mm : Spec.Map K V}, Reach E s.t → Fine s →
    (entries s.t).Perm mm → ∀ {s' : LT K V}, insertRangeX m E l s = .ok s' () →
    insertRange false true E (plainRange l) s.t = .ok s'.t () ∧ Reach E s'.t ∧ Fine s' ∧ (entries s'.t).Perm (insertAll E.eq mm (l.map (·.2))) ∧
      (m ≠ .exch true → (∀ i, i ≤ l.length → Roomy E (insertAll E.eq mm ((l.take i).map (·.2)))) → s'.bad = s.bad) := by
  intro l
  induction l with
  | nil => intro s mm hR hf hm s' h; cases h; exact ⟨rfl, hR, hf, hm, fun _ _ => rfl⟩
  | cons x l ih =>
    intro s mm hR hf hm s' h
    obtain ⟨⟨a, c⟩, k, v⟩ := x
    unfold insertRangeX at h
    obtain ⟨s1, r, h1, h2⟩ := bindE_ok h
    have h1 := emplaceLoopX_ok 64 h1
    have hst : Sound E s.t := hR.st.imp id fun ⟨c, h⟩ => ⟨c, h.toGood⟩
    have hf1 := emplaceLoopE_ok hE _ _ _ _ _ _ hst hf _ _ h1
    have hp := proj_emplaceLoopE (m := m) hE false a k v 64 s hst hf
    rw [h1] at hp
    have hp : emplace false true E false (a.1 && a.2) k v s.t = .ok s1.t r := hp.symm
    have he := emplace_ok hE hR hm false (a.1 && a.2) k v
    rw [hp] at he
    obtain ⟨i, b⟩ := r
    obtain ⟨g1, _, _, _, _, g2⟩ := he
    have g2 : (entries s1.t).Perm (Spec.insert E.eq mm k v) := g2
    obtain ⟨e1, e2, e3, e4, e5⟩ := ih g1 hf1 g2 h2
    refine ⟨?_, e2, e3, e4, fun hne hroom => ?_⟩
    · show insertRange false true E ((a.1 && a.2, k, v) :: plainRange l) s.t = _
      unfold insertRange
      rw [hp]
      exact e1
    · rw [e5 hne fun i hi => hroom (i + 1) (by simp only [List.length_cons]; omega)]
      exact emplaceE_bad hne hE hR hf (cramped_roomy hE hm (hroom 0 (Nat.zero_le _)) (upd := false) (hroom 1 (by simp))) h1

/-- C121 for maps made from ranges: if the constructor returns, the map is that of `C113_from_range_partial`; the log is in order unless an element was
moved onto itself or over another, and then the destructor leaves nothing behind.

Missing, because the code violates it: constructors that throw (`C121_range_throws`), contents that do not fit. -/
theorem C121_range_partial (hE : E.Lawful) {a : Bool × Bool} {n : Nat} {l : List (((Bool × Bool) × Bool) × K × V)} {s : LT K V}
    (h : fromRangeX m E a n l = .ok s ()) :
    fromRange false true E (a.1 && a.2) n (plainRange l) = .ok s.t () ∧
    (Heap.run s.log Heap.empty = none ↔ s.bad = true) ∧
    (m ≠ .exch true → (∀ i, i ≤ l.length → Roomy E (insertAll E.eq [] ((l.take i).map (·.2)))) → s.bad = false) ∧
    (s.bad = false → ∃ h, Heap.run s.log Heap.empty = some h ∧ h.live.Nodup ∧ h.live.length = (insertAll E.eq [] (l.map (·.2))).length ∧
      Heap.run (destroyE s).log Heap.empty = some Heap.empty) := by
  unfold fromRangeX at h
  obtain ⟨s0, u, h0, h1⟩ := bindE_ok h
  obtain ⟨hf0, hb0, hmk⟩ := makeE_ok h0
  obtain ⟨hR0, he0, _⟩ := reach_make (E := E) hmk
  obtain ⟨e1, e2, e3, e4, e5⟩ := insertRangeX_ok hE l hR0 hf0 (by rw [he0]) h1
  refine ⟨?_, ?_, fun hne hroom => by rw [e5 hne hroom, hb0], fun hb => ?_⟩
  · unfold fromRange reserveForInsert
    have hlen : (plainRange l).length = l.length := List.length_map _
    rw [hlen, hmk]
    exact e1
  · rcases e3.ok with ⟨hb, hn⟩ | ⟨hb, h', hn, _⟩
    · simp [hb, hn]
    · simp [hb, hn]
  · rcases e3.ok with ⟨hb', _⟩ | ⟨_, h', hn, hO⟩
    · rw [hb] at hb'; cases hb'
    · refine ⟨h', hn, hO.nodup, ?_, ?_⟩
      · rw [hO.length e2, e2.size, e4.length_eq]
      · rcases destroyE_ok (E := E) (e2.st.imp id fun ⟨c, h⟩ => ⟨c, h.toGood.weak⟩) e3 with ⟨hb', _⟩ | ⟨_, h2, hn2, rfl⟩
        · have : (destroyE s).bad = s.bad := Bool.or_false _
          rw [this, hb] at hb'; cases hb'
        · exact hn2

/-- If the constructor of an element throws while a map is made from a range, the blocks obtained so far and the elements in them are lost:
there is no map whose destructor could give them back. -/
theorem C121_range_throws (hE : E.Lawful) {a : Bool × Bool} {n : Nat} {l l' : List (((Bool × Bool) × Bool) × K × V)} {x : ((Bool × Bool) × Bool) × K × V}
    {s s' : LT K V} {i : Nat}
    (h : (makeE a (minRequire (emptyMap false 128 512 : Map K V) (max n (l ++ x :: l').length))).bind (fun s0 _ => insertRangeX m E l s0) = .ok s ())
    (hq : findOrInsertE m E x.1.1 x.2.1 s = .ok s' (.notExists i)) (hx : x.1.2 = false) (hb : s'.bad = false) :
    fromRangeX m E a n (l ++ x :: l') = .throw s' ∧
    ∃ hp, Heap.run s'.log Heap.empty = some hp ∧ hp.blocks.length = 2 := by
  obtain ⟨s0, u, h0, h1⟩ := bindE_ok h
  obtain ⟨hf0, _, hmk⟩ := makeE_ok h0
  obtain ⟨hR0, he0, _⟩ := reach_make (E := E) hmk
  obtain ⟨_, e2, e3, _, _⟩ := insertRangeX_ok hE l hR0 hf0 (by rw [he0]) h1
  have hst : Sound E s.t := e2.st.imp id fun ⟨c, h⟩ => ⟨c, h.toGood⟩
  constructor
  · unfold fromRangeX
    rw [h0, Out.bind_ok]
    have happ : ∀ (l : List (((Bool × Bool) × Bool) × K × V)) (s0 : LT K V), insertRangeX m E l s0 = .ok s () →
        insertRangeX m E (l ++ x :: l') s0 = .throw s' := by
      intro l
      induction l with
      | nil =>
        intro s0 hq0
        cases hq0
        show insertRangeX m E (x :: l') s = _
        obtain ⟨⟨a1, c1⟩, k1, v1⟩ := x
        simp only at hx
        subst hx
        simp only at hq
        have he : emplaceX m E false a1 false k1 v1 s = .throw s' := by
          unfold emplaceX emplaceLoopX
          rw [hq]
          simp only [Out.bind_ok, Bool.false_eq_true, if_false]
        unfold insertRangeX
        rw [he]
        rfl
      | cons y l ih =>
        intro s0 hq0
        obtain ⟨a1, k1, v1⟩ := y
        unfold insertRangeX at hq0
        obtain ⟨s1, r, g1, g2⟩ := bindE_ok hq0
        show insertRangeX m E ((a1, k1, v1) :: (l ++ x :: l')) s0 = _
        unfold insertRangeX
        rw [g1, Out.bind_ok]
        exact ih _ g2
    exact happ _ _ h1
  · obtain ⟨hf', ⟨_, h0, _⟩ | ⟨j, c, _, h2, _⟩ | ⟨h0, _⟩⟩ := findOrInsertE_ok hE hst e3 hq
    · cases h0
    · rcases hf'.ok with ⟨hb', _⟩ | ⟨_, hp, hn, hO⟩
      · rw [hb] at hb'; cases hb'
      · refine ⟨hp, hn, ?_⟩
        have hO : Own s'.blk s'.t.slot (fun _ => False) (owned s'.t s'.blk) hp := hO
        rw [hO.blocks]
        unfold owned
        rw [h2.alloc]
        rfl
    · cases h0

end

/-! ### The hypotheses can be met -/

/-- The first new element goes to an empty place, and its constructor could return. -/
def freshB (m : Mode) (a : Bool × Bool) (k v : Nat) (s : LT Nat Nat) : Bool :=
  match findOrInsertE m (hashEnv id) a k s with
  | .ok s' (.notExists i) => (match constructE i (k, v) s' with | .ok _ => true | _ => false)
  | _ => false

set_option maxRecDepth 100000 in
/-- `C121_throwing_element` has instances: a new key whose place is taken by another element, which moves on. -/
example : ∃ s s' s'' : LT Nat Nat, ∃ i, Reach (hashEnv id) s.t ∧ Fine s ∧ findOrInsertE .swap (hashEnv id) (true, true) 2 s = .ok s' (.notExists i) ∧
    constructE i (2, 9) s' = .ok s'' := by
  obtain ⟨s, h1, h2, h3⟩ := fine_of_play (m := .swap) (n := 64) (cs := [.insert 1 1, .insert 65 2, .insert 3 3]) (by decide)
    (p := freshB .swap (true, true) 2 9) (by decide +kernel)
  unfold freshB at h3
  split at h3
  · rename_i s' i hq
    split at h3
    · rename_i s'' hc
      exact ⟨s, s', s'', i, h1, h2, hq, hc⟩
    · cases h3
  · cases h3

/-- A range with a repeated key, for `C121_range_partial`; a constructor that throws is not called for the repeated key. -/
def sampleRange : List (((Bool × Bool) × Bool) × Nat × Nat) :=
  [(((true, true), true), 1, 1), (((true, true), true), 65, 2), (((true, true), false), 1, 3), (((true, true), true), 2, 4)]

set_option maxRecDepth 100000 in
example : (match fromRangeX .swap (hashEnv id) (true, true) 0 sampleRange with
    | .ok s _ => !s.bad && s.t.size == 3
    | _ => false) = true := by decide +kernel

set_option maxRecDepth 100000 in
/-- `C121_range_throws` has instances. -/
example : (match (makeE (true, true) (minRequire (emptyMap false 128 512 : Map Nat Nat) (max 0 (sampleRange ++ [(((true, true), false), 4, 4)]).length))).bind
      (fun s0 _ => insertRangeX .swap (hashEnv id) sampleRange s0) with
    | .ok s _ =>
      (match findOrInsertE .swap (hashEnv id) (true, true) 4 s with
       | .ok s' (.notExists _) => !s'.bad
       | _ => false)
    | _ => false) = true := by decide +kernel

end Verif.Robin.Track
