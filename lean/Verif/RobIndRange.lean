/-
Ranges of `robin_hash_map` with the indirect layout: insertion, construction, erasure of a range of keys, `equal_range` and the
backward iterator step (properties C113, C114, C115).
-/
import Verif.RobIndCopy
import Verif.RobIndBugs
import Verif.RobinRange

namespace Verif.RobInd
open Spec (Distinct Call Ans)
open Robin (next contents insertAll insCalls delCalls removeAll RLe OLe)

section Model
variable {K V : Type} (chk : Bool) (E : Env K)

/-- `insert(first, last)` and `insert(initializer_list)` (RH:3608-3617).  Every element comes with the allocator's answers during
its insertion. -/
def insertRange : List (Bool × K × V) → Map K V → Out (Map K V) Unit
  | [], t => .ok t ()
  | (mem, k, v) :: l, t => (emplace chk E false mem k v t).bind fun t' _ => insertRange l t'

/-- The constructors from a range (RH:3077-3096) and from an initializer list (RH:3206-3226).  After an exception there is no
object; the state in `throw` only says what the members were. -/
def fromRange (mem : Bool) (n : Nat) (l : List (Bool × K × V)) : Out (Map K V) Unit :=
  (reserveForInsert mem (max n l.length)).bind fun t _ => insertRange chk E l t

/-- `erase(first, last)` for iterators over keys (RH:3769-3778); `n` is `num_deleted`. -/
def eraseKeys : List K → Nat → Map K V → Out (Map K V) Nat
  | [], n, t => .ok t n
  | k :: ks, n, t => (eraseKey chk E k t).bind fun t' d => eraseKeys ks (n + d) t'

/-- `operator ++` (RH:2972-2975) on the slot pointer; a pointer behind the last slot of the block, or not into the block, cannot
be incremented. -/
def nextPtr (t : Map K V) : Option Nat → Res (Option Nat)
  | some j => if j < t.slen then .ok (some (j + 1)) else .ub
  | none => .ub

/-- `operator --` (RH:2983-2986) on the slot pointer. -/
def prevPtr : Option Nat → Res (Option Nat)
  | some (j + 1) => .ok (some j)
  | _ => .ub

/-- `equal_range(key)` (RH:3564-3578). -/
def equalRange (t : Map K V) (k : K) : Res (Option Nat × Option Nat) :=
  (findIter chk E t k).bind fun p =>
    if p = endPtr t then .ok (p, p) else (nextPtr t p).bind fun q => .ok (p, q)

/-- The element a slot pointer points to. -/
def deref (t : Map K V) : Option Nat → Option (K × V)
  | some j => t.slot j
  | none => none

/-- The caller's loop `for (; first != last; ++first)` over a pair of iterators, reading every element. -/
def readRange (t : Map K V) : Nat → Option Nat → Option Nat → Res (List (K × V))
  | 0, _, _ => .diverge
  | f + 1, p, q =>
    if p = q then .ok [] else
      match deref t p with
      | none => .ub
      | some e => (nextPtr t p).bind fun p' => (readRange t f p' q).bind fun l => .ok (e :: l)

/-- What the caller finds in `equal_range(key)`. -/
def readEqual (t : Map K V) (k : K) : Res (List (K × V)) :=
  (equalRange chk E t k).bind fun (p, q) => readRange t (t.slen + 2) p q

/-- `begin()` (RH:3361-3396). -/
def beginPtr (t : Map K V) : Option Nat := if t.size ≠ 0 then some 0 else endPtr t

/-- The caller's loop from `p` back to `begin()`: `while (it != begin) { --it; use(*it); }`. -/
def walkBackLoop (t : Map K V) : Nat → Option Nat → Res (List (K × V))
  | 0, _ => .diverge
  | f + 1, p =>
    if p = beginPtr t then .ok [] else
      (prevPtr p).bind fun p' =>
        match deref t p' with
        | none => .ub
        | some e => (walkBackLoop t f p').bind fun l => .ok (e :: l)

/-- The same from `end()`. -/
def walkBack (t : Map K V) : Res (List (K × V)) := walkBackLoop t (t.size + 1) (endPtr t)

end Model

variable {K V : Type} {E : Env K}

/-! ### A range is a history -/

theorem usable_ins (eq : K → K → Bool) (l : List (Bool × K × V)) : ∀ bare m, Usable eq bare m (insCalls l) := by
  induction l with
  | nil => intro b m; trivial
  | cons x l ih =>
    intro b m
    refine ⟨fun _ d h => ?_, fun k h => ?_, ih _ _⟩
    · cases h
    · cases h

theorem run_cons {chk : Bool} {rv : Nat → Nat} (mem : Bool) (c : Call K V) (cs : List (Bool × Call K V)) (t : Map K V) :
    run chk E rv ((mem, c) :: cs) t =
      match exec chk E rv mem c t with
      | .ub => .ub
      | .diverge => .diverge
      | .throw t' => .ok ([.threw], t')
      | .ok t' a => (run chk E rv cs t').bind fun r => .ok (a :: r.1, r.2) := rfl

theorem run_append {chk : Bool} {rv : Nat → Nat} (cs : List (Bool × Call K V)) : ∀ (t : Map K V) (cs' : List (Bool × Call K V))
    {as : List (Ans K V)} {t1 : Map K V}, run chk E rv cs t = .ok (as, t1) → as.getLast? ≠ some .threw →
    run chk E rv (cs ++ cs') t = (run chk E rv cs' t1).bind fun r => .ok (as ++ r.1, r.2) := by
  induction cs with
  | nil =>
    intro t cs' as t1 h _
    cases h
    rw [List.nil_append]
    cases run chk E rv cs' t <;> rfl
  | cons c cs ih =>
    intro t cs' as t1 h hl
    obtain ⟨mem, c⟩ := c
    rw [List.cons_append, run_cons]
    rw [run_cons] at h
    cases hx : exec chk E rv mem c t with
    | ub => rw [hx] at h; cases h
    | diverge => rw [hx] at h; cases h
    | throw t' => rw [hx] at h; cases h; exact (hl rfl).elim
    | ok t' a =>
      rw [hx] at h
      simp only at h ⊢
      cases hr : run chk E rv cs t' with
      | ub => rw [hr] at h; cases h
      | diverge => rw [hr] at h; cases h
      | ok r =>
        obtain ⟨as', t2⟩ := r
        rw [hr] at h
        cases h
        rw [ih t' cs' hr (fun hl' => hl (by rw [List.getLast?_cons, hl']; rfl))]
        cases run chk E rv cs' t2 <;> rfl

/-- A history followed by more calls. -/
theorem Reached.append {rv : Nat → Nat} {cs cs' : List (Bool × Call K V)} {t t' : Map K V} {as : List (Ans K V)}
    (h : Reached E rv cs t) (hv : ∀ c ∈ cs', Robin.Valid c.2) (hr : run true E rv cs' t = .ok (as, t')) (hl : as.getLast? ≠ some .threw) :
    Reached E rv (cs ++ cs') t' := by
  obtain ⟨h1, n, mem, t0, as0, h2, h3, h4⟩ := h
  refine ⟨fun c hc => ?_, n, mem, t0, as0 ++ as, h2, ?_, ?_⟩
  · rcases List.mem_append.mp hc with hc | hc
    · exact h1 c hc
    · exact hv c hc
  · rw [run_append cs t0 cs' h3 h4, hr]; rfl
  · rw [List.getLast?_append]
    cases ha : as.getLast? with
    | none => simpa using h4
    | some a => rw [ha] at hl; simpa using hl

/-- If the single insertions are defined, the range insertion does the same. -/
theorem insertRange_run {chk : Bool} {rv : Nat → Nat} (l : List (Bool × K × V)) : ∀ (t : Map K V) {as : List (Ans K V)} {t' : Map K V},
    run chk E rv (insCalls l) t = .ok (as, t') →
    (as.getLast? ≠ some .threw ∧ insertRange chk E l t = .ok t' ()) ∨
    (∃ a mem k v b t1, l = a ++ (mem, k, v) :: b ∧ insertRange chk E a t = .ok t1 () ∧ emplace chk E false mem k v t1 = .throw t' ∧
      insertRange chk E l t = .throw t' ∧ ∃ as1, run chk E rv (insCalls a) t = .ok (as1, t1) ∧ as1.getLast? ≠ some .threw) := by
  induction l with
  | nil => intro t as t' h; cases h; exact Or.inl ⟨by simp, rfl⟩
  | cons x l ih =>
    intro t as t' h
    obtain ⟨mem, k, v⟩ := x
    have h' : run chk E rv ((mem, Call.insert k v) :: insCalls l) t = .ok (as, t') := h
    rw [run_cons] at h'
    simp only [exec] at h'
    cases hx : emplace chk E false mem k v t with
    | ub => rw [hx] at h'; cases h'
    | diverge => rw [hx] at h'; cases h'
    | throw t1 =>
      rw [hx] at h'
      cases h'
      refine Or.inr ⟨[], mem, k, v, l, t, rfl, rfl, hx, ?_, [], rfl, by simp⟩
      unfold insertRange; rw [hx]; rfl
    | ok t1 r =>
      rw [hx] at h'
      simp only [Out.bind_ok] at h'
      cases hs : t1.slot r.1 with
      | none => rw [readElem, hs] at h'; cases h'
      | some e =>
        have he : exec chk E rv mem (.insert k v) t = .ok t1 (.elem e r.2) := by
          simp only [exec, hx, Out.bind_ok, readElem, hs]
        rw [readElem, hs] at h'
        simp only at h'
        cases hr : run chk E rv (insCalls l) t1 with
        | ub => rw [hr] at h'; cases h'
        | diverge => rw [hr] at h'; cases h'
        | ok q =>
          obtain ⟨as', t2⟩ := q
          rw [hr] at h'
          cases h'
          have hi : insertRange chk E ((mem, k, v) :: l) t = insertRange chk E l t1 := by
            conv => lhs; unfold insertRange
            rw [hx]; rfl
          rcases ih t1 hr with ⟨g1, g2⟩ | ⟨a, mem', k', v', b, t3, g1, g2, g3, g4, as1, g5, g6⟩
          · refine Or.inl ⟨fun hl => ?_, by rw [hi, g2]⟩
            rw [List.getLast?_cons] at hl
            cases ha : as'.getLast? with
            | none => rw [ha] at hl; cases hl
            | some y => rw [ha] at hl; exact g1 (by rw [ha]; exact hl)
          · refine Or.inr ⟨(mem, k, v) :: a, mem', k', v', b, t3, by rw [g1]; rfl, ?_, g3, by rw [hi, g4], .elem e r.2 :: as1, ?_, ?_⟩
            · unfold insertRange; rw [hx]; exact g2
            · show run chk E rv ((mem, Call.insert k v) :: insCalls a) t = _
              rw [run_cons, he]
              simp only
              rw [g5]; rfl
            · intro hl
              rw [List.getLast?_cons] at hl
              cases ha : as1.getLast? with
              | none => rw [ha] at hl; cases hl
              | some y => rw [ha] at hl; exact g6 (by rw [ha]; exact hl)

theorem insertRange_chk : ∀ (l : List (Bool × K × V)) (t : Map K V), OLe (insertRange true E l t) (insertRange false E l t) := by
  intro l
  induction l with
  | nil => intro t; exact OLe.refl _
  | cons e l ih => intro t; obtain ⟨mem, k, v⟩ := e; exact (emplaceLoop_chk false mem k v 64 t).bind fun t' _ => ih t'

theorem eraseKey_chk (k : K) (t : Map K V) : OLe (eraseKey true E k t) (eraseKey false E k t) := by
  have h := exec_chk (E := E) (fun _ => 512) true (Call.erase k) t
  simp only [exec] at h
  cases hx : eraseKey true E k t with
  | ub => exact Or.inl rfl
  | ok t' n =>
    rcases h with h | h
    · rw [hx] at h; cases h
    · rw [hx] at h
      right
      cases hy : eraseKey false E k t with
      | ok t2 n2 => rw [hy] at h; cases h; rfl
      | throw t2 => rw [hy] at h; cases h
      | diverge => rw [hy] at h; cases h
      | ub => rw [hy] at h; cases h
  | throw t' =>
    rcases h with h | h
    · rw [hx] at h; cases h
    · rw [hx] at h
      right
      cases hy : eraseKey false E k t with
      | ok t2 n2 => rw [hy] at h; cases h
      | throw t2 => rw [hy] at h; cases h; rfl
      | diverge => rw [hy] at h; cases h
      | ub => rw [hy] at h; cases h
  | diverge =>
    rcases h with h | h
    · rw [hx] at h; cases h
    · rw [hx] at h
      right
      cases hy : eraseKey false E k t with
      | ok t2 n2 => rw [hy] at h; cases h
      | throw t2 => rw [hy] at h; cases h
      | diverge => rfl
      | ub => rw [hy] at h; cases h

theorem eraseKeys_chk : ∀ (l : List K) (n : Nat) (t : Map K V), OLe (eraseKeys true E l n t) (eraseKeys false E l n t) := by
  intro l
  induction l with
  | nil => intro n t; exact OLe.refl _
  | cons k l ih => intro n t; exact (eraseKey_chk k t).bind fun t' d => ih (n + d) t'

/-! ### C113 -/

/-- C113 (partial), indirect layout, insertion of a range or an initializer list.  After every history, if the contents fit all the
time (`Room`): either all elements are inserted, as if by single insertions, and the iteration yields the old elements in their
order and then, of the elements of the range with a new key, the first one for every key, in the order of the range; or an
insertion throws after exactly the elements before it have been inserted.  Missing: contents that do not fit (C99). -/
theorem C113_insert_range_partial (hE : E.Lawful) {rv : Nat → Nat} (hrv : ∀ x, 256 ≤ rv x ∧ rv x ≤ 1024) {cs : List (Bool × Call K V)}
    {t : Map K V} (ht : Reached E rv cs t) (l : List (Bool × K × V))
    (hr : ∀ i, i ≤ l.length → Room E (insertAll E.eq (contents E.eq cs) ((l.take i).map (·.2)))) :
    (∃ t' r0 r, insertRange false E l t = .ok t' () ∧ Reached E rv (cs ++ insCalls l) t' ∧ walk t = .ok r0 ∧ walk t' = .ok (r0 ++ r) ∧
      r.Sublist (l.map (·.2)) ∧ Distinct E.eq (r0 ++ r) ∧
      ∀ q, Spec.get E.eq (r0 ++ r) q = (Spec.get E.eq (contents E.eq cs) q).or (Spec.get E.eq (l.map (·.2)) q)) ∨
    (∃ a mem k v b t1 t', l = a ++ (mem, k, v) :: b ∧ insertRange false E a t = .ok t1 () ∧ Reached E rv (cs ++ insCalls a) t1 ∧
      emplace false E false mem k v t1 = .throw t' ∧ insertRange false E l t = .throw t') := by
  obtain ⟨hR, hm, ho⟩ := ht.reach hE hrv
  have h1 := run_ok hE hrv (insCalls l) t _ (Robin.valid_ins l) hR hm
  cases hx : run true E rv (insCalls l) t with
  | diverge => rw [hx] at h1; exact h1.elim
  | ub =>
    rw [hx] at h1
    obtain ⟨i, hi, hn⟩ := h1 true (fun _ => rfl) (usable_ins _ l true _)
    rw [Robin.take_ins, Robin.foldl_ins] at hn
    exact (hn (hr i (by simpa [insCalls] using hi))).elim
  | ok r =>
    obtain ⟨as, t'⟩ := r
    rcases insertRange_run l t hx with ⟨g1, g2⟩ | ⟨a, mem, k, v, b, t1, g1, g2, g3, g4, as1, g5, g6⟩
    · left
      have hra := ht.append (Robin.valid_ins l) hx g1
      obtain ⟨hR', hm', ho'⟩ := hra.reach hE hrv
      have hord : ∀ (l : List (Bool × K × V)) (m : List (K × V)), ∃ r, orderAll E.eq m (insCalls l) = m ++ r ∧ r.Sublist (l.map (·.2)) := by
        intro l
        induction l with
        | nil => intro m; exact ⟨[], by simp [orderAll, insCalls], List.Sublist.refl _⟩
        | cons x l ih =>
          intro m
          obtain ⟨mem, k, v⟩ := x
          have hs : orderAll E.eq m (insCalls ((mem, k, v) :: l)) = orderAll E.eq (order E.eq m (.insert k v)) (insCalls l) := rfl
          obtain ⟨r, e1, e2⟩ := ih (order E.eq m (.insert k v))
          rw [hs, e1]
          show ∃ r', (if (Spec.get E.eq m k).isSome then m else m ++ [(k, v)]) ++ r = m ++ r' ∧ r'.Sublist ((k, v) :: l.map (·.2))
          split
          · exact ⟨r, rfl, e2.cons _⟩
          · exact ⟨(k, v) :: r, by rw [List.append_assoc]; rfl, e2.cons_cons _⟩
      obtain ⟨r, e1, e2⟩ := hord l (entries t)
      have he : entries t' = entries t ++ r := by
        rw [ho', ← e1, ho]
        unfold orderAll
        rw [List.foldl_append]
      refine ⟨t', entries t, r, OLe.ok (insertRange_chk l t) g2, hra, walk_reach hR, by rw [← he]; exact walk_reach hR', e2,
        by rw [← he]; exact hR'.distinct hE, fun q => ?_⟩
      rw [← he, Spec.get_perm hE hm' (hR'.distinct hE) q]
      unfold contents
      rw [List.foldl_append, Robin.foldl_ins, Robin.get_insertAll hE]
    · right
      exact ⟨a, mem, k, v, b, t1, t', g1, OLe.ok (insertRange_chk a t) g2, ht.append (Robin.valid_ins a) g5 g6,
        OLe.throw (emplaceLoop_chk false mem k v 64 t1) g3, OLe.throw (insertRange_chk l t) g4⟩

/-- C113 (partial), indirect layout, the constructors from a range and from an initializer list: unless an allocation fails, the
iteration over the new map yields, for every key of the range, the first element with that key, in the order of the range.
Missing: contents that do not fit (C99). -/
theorem C113_from_range_partial (hE : E.Lawful) {rv : Nat → Nat} (hrv : ∀ x, 256 ≤ rv x ∧ rv x ≤ 1024) (mem : Bool) (n : Nat)
    (l : List (Bool × K × V)) (hn : n < 2 ^ 47) (hl : l.length < 2 ^ 47)
    (hr : ∀ i, i ≤ l.length → Room E (insertAll E.eq [] ((l.take i).map (·.2)))) :
    (∃ t r, fromRange false E mem n l = .ok t () ∧ Reached E rv (insCalls l) t ∧ walk t = .ok r ∧ r.Sublist (l.map (·.2)) ∧
      Distinct E.eq r ∧ ∀ q, Spec.get E.eq r q = Spec.get E.eq (l.map (·.2)) q) ∨
    (∃ t, fromRange false E mem n l = .throw t) := by
  unfold fromRange reserveForInsert
  rw [reserve_eq (by omega)]
  cases hx : (make mem (2 * max n l.length) : Out (Map K V) Unit) with
  | diverge =>
    exfalso
    unfold make at hx
    split at hx
    · cases hx
    · cases hc : Robin.calcCapacity (2 * max n l.length) with
      | ub => rw [hc] at hx; cases hx
      | diverge => exact Robin.calcCapacity_diverge _ hc
      | ok c => rw [hc] at hx; simp only [createSlots] at hx; split at hx <;> cases hx
  | ub =>
    exfalso
    unfold make at hx
    split at hx
    · cases hx
    · cases hc : Robin.calcCapacity (2 * max n l.length) with
      | ub => have := Robin.calcCapacity_ub hc; omega
      | diverge => rw [hc] at hx; cases hx
      | ok c => rw [hc] at hx; simp only [createSlots] at hx; split at hx <;> cases hx
  | throw t => exact Or.inr ⟨t, rfl⟩
  | ok t u =>
    rw [Out.bind_ok]
    have ht : Reached E rv ([] : List (Bool × Call K V)) t := ⟨fun c hc => (by cases hc), _, mem, t, [], hx, rfl, by simp⟩
    rcases C113_insert_range_partial hE hrv ht l hr with ⟨t', r0, r, h1, h2, h3, h4, h5, h6, h7⟩ | ⟨a, m, k, v, b, t1, t', _, _, _, _, h⟩
    · left
      have h0 : r0 = [] := by
        obtain ⟨hR, hm, _⟩ := ht.reach hE hrv
        rw [walk_reach hR] at h3
        cases h3
        exact List.Perm.eq_nil hm
      subst h0
      rw [List.nil_append] at h4 h6 h7
      exact ⟨t', r, h1, h2, h4, h5, h6, fun q => (h7 q).trans rfl⟩
    · exact Or.inr ⟨t', h⟩

theorem eraseKeys_spec (hE : E.Lawful) {rv : Nat → Nat} (hrv : ∀ x, 256 ≤ rv x ∧ rv x ≤ 1024) (ks : List K) :
    ∀ (n : Nat) (t : Map K V) (m : Spec.Map K V), Reach E t → (entries t).Perm m →
      (∀ i, i ≤ ks.length → Room E (removeAll E.eq m (ks.take i))) →
      ∃ t' as, eraseKeys true E ks n t = .ok t' (n + (m.length - (removeAll E.eq m ks).length)) ∧
        run true E rv (delCalls ks) t = .ok (as, t') ∧ as.getLast? ≠ some .threw := by
  induction ks with
  | nil =>
    intro n t m _ _ _
    have : (removeAll E.eq m []).length = m.length := by rw [← Robin.foldl_del]; rfl
    exact ⟨t, [], by rw [this, Nat.sub_self]; rfl, rfl, by simp⟩
  | cons k ks ih =>
    intro n t m hR hm hr
    have hstep : ∀ ks' : List K, removeAll E.eq m (k :: ks') = removeAll E.eq (Spec.erase E.eq m k) ks' := by
      intro ks'
      rw [← Robin.foldl_del, ← Robin.foldl_del]; rfl
    have h1 := exec_ok hE hR hm hrv true (c := Call.erase k) trivial
    simp only [exec] at h1
    cases hx : eraseKey true E k t with
    | diverge => rw [hx] at h1; exact h1.elim
    | throw t' => rw [hx] at h1; have h1' : Call.allocates (Call.erase k : Call K V) = true := h1; cases h1'
    | ub =>
      rw [hx] at h1
      rcases h1 with h | h | ⟨_, ⟨d, h⟩⟩ | ⟨_, ⟨q, h, _⟩⟩
      · exact (h (by have := hr 0 (by omega); rw [← Robin.foldl_del] at this; exact this)).elim
      · exact (h (by have := hr 1 (by simp); rw [← Robin.foldl_del] at this; exact this)).elim
      · cases h
      · cases h
    | ok t1 d =>
      rw [hx] at h1
      obtain ⟨g1, ⟨_, g2⟩, g3, _⟩ := h1
      have hd : Distinct E.eq m := Spec.Distinct.perm hE hm (hR.distinct hE)
      obtain ⟨t', as, e1, e2, e3⟩ := ih (n + d) t1 (Spec.erase E.eq m k) g1 g3 (fun i hi => by
        have := hr (i + 1) (by simpa using hi)
        rw [List.take_succ_cons, hstep] at this
        exact this)
      have hlen := Robin.erase_length hE hd k
      rw [← g2] at hlen
      have hle : (removeAll E.eq (Spec.erase E.eq m k) ks).length ≤ (Spec.erase E.eq m k).length := List.length_filter_le _ _
      refine ⟨t', .num d :: as, ?_, ?_, ?_⟩
      · unfold eraseKeys
        rw [hx, Out.bind_ok, e1, hstep]
        congr 1
        omega
      · show run true E rv ((true, Call.erase k) :: delCalls ks) t = _
        rw [run_cons]
        simp only [exec]
        rw [hx]
        simp only [Out.bind_ok]
        rw [e2]; rfl
      · intro hl
        rw [List.getLast?_cons] at hl
        cases ha : as.getLast? with
        | none => rw [ha] at hl; cases hl
        | some y => rw [ha] at hl; exact e3 (by rw [ha]; exact hl)

/-- C113 (partial), indirect layout, erasure of a range of keys: exactly the elements whose key occurs in the range are removed, and
the number of removed elements is returned.  Missing: contents that do not fit (C99). -/
theorem C113_erase_keys_partial (hE : E.Lawful) {rv : Nat → Nat} (hrv : ∀ x, 256 ≤ rv x ∧ rv x ≤ 1024) {cs : List (Bool × Call K V)}
    {t : Map K V} (ht : Reached E rv cs t) (ks : List K)
    (hr : ∀ i, i ≤ ks.length → Room E (removeAll E.eq (contents E.eq cs) (ks.take i))) :
    ∃ t' r, eraseKeys false E ks 0 t = .ok t' (t.size - t'.size) ∧ Reached E rv (cs ++ delCalls ks) t' ∧ walk t' = .ok r ∧
      r.Perm ((contents E.eq cs).filter fun e => !ks.any fun k => E.eq k e.1) := by
  obtain ⟨hR, hm, _⟩ := ht.reach hE hrv
  obtain ⟨t', as, h1, h2, h3⟩ := eraseKeys_spec hE hrv ks 0 t _ hR hm hr
  have hra := ht.append (Robin.valid_del ks) h2 h3
  obtain ⟨hR', hm', _⟩ := hra.reach hE hrv
  have hp : (entries t').Perm (removeAll E.eq (contents E.eq cs) ks) := by
    have : contents E.eq (cs ++ delCalls ks) = removeAll E.eq (contents E.eq cs) ks := by
      unfold contents
      rw [List.foldl_append, Robin.foldl_del]
    rw [← this]; exact hm'
  refine ⟨t', entries t', ?_, hra, walk_reach hR', hp⟩
  rw [OLe.ok (eraseKeys_chk ks 0 t) h1, hR.size, hR'.size, hm.length_eq, hp.length_eq, Nat.zero_add]

/-! ### C114 -/

/-- C114 (partial), indirect layout: `equal_range(k)` of a present key is a range with exactly the element; on a map without storage it
is empty.  Missing: absent keys on a map with storage (`C114_missing_key_undefined`). -/
theorem C114_equal_range_partial (hE : E.Lawful) {rv : Nat → Nat} (hrv : ∀ x, 256 ≤ rv x ∧ rv x ≤ 1024)
    {cs : List (Bool × Call K V)} {t : Map K V} (ht : Reached E rv cs t) (k : K) :
    (∀ e, Spec.get E.eq (contents E.eq cs) k = some e → readEqual false E t k = .ok [e]) ∧
    (t.alloc = false → readEqual false E t k = .ok []) := by
  obtain ⟨hR, hm, _⟩ := ht.reach hE hrv
  have hget := Spec.get_perm hE hm (hR.distinct hE) k
  constructor
  · intro e he
    rw [← hget] at he
    rcases hR.st with hf | ⟨c, hl⟩
    · rw [hf.entries] at he; cases he
    · obtain ⟨i, h1, h2, h3, h4⟩ := (hl.toGood.find_real hE k).1 e he
      have hi := hl.idx i h1 h2
      have hsl := hl.size_le_slen
      have hfi : findIter false E t k = .ok (some (t.ctrl i).idx) := by
        unfold findIter findIdx; rw [h3]; rfl
      generalize (t.ctrl i).idx = j at *
      have hne : (some j : Option Nat) ≠ endPtr t := by
        unfold endPtr
        intro hc
        have := Option.some.inj hc
        omega
      have hnx : nextPtr t (some j) = .ok (some (j + 1)) := by
        unfold nextPtr; simp only; rw [if_pos (by omega)]
      unfold readEqual equalRange
      rw [hfi, Res.bind_ok, if_neg hne, hnx]
      simp only [Res.bind_ok]
      unfold readRange
      rw [if_neg (by intro hc; have := Option.some.inj hc; omega)]
      have hd : deref t (some j) = some e := h4
      rw [hd]
      simp only
      rw [hnx, Res.bind_ok]
      unfold readRange
      rw [if_pos rfl]; rfl
  · intro ha
    have hfi := (C101_find_partial hE hrv ht k).2.2 ha
    unfold readEqual equalRange
    rw [hfi, Res.bind_ok, if_pos rfl]
    simp only [Res.bind_ok]
    unfold readRange
    rw [if_pos rfl]

/-- C114 is violated: on every map that owns storage, `equal_range` of an absent key increments a pointer that already points
behind the last slot of the block (or, after a swap, not into the block), because `find` does not return `end()`. -/
theorem C114_missing_key_undefined (hE : E.Lawful) {rv : Nat → Nat} (hrv : ∀ x, 256 ≤ rv x ∧ rv x ≤ 1024)
    {cs : List (Bool × Call K V)} {t : Map K V} (ht : Reached E rv cs t) (ha : t.alloc = true) {k : K}
    (hk : Spec.get E.eq (contents E.eq cs) k = none) (hfit : Robin.Fits E (slotCap t) (contents E.eq cs)) :
    equalRange false E t k = .ub := by
  obtain ⟨⟨p, h1, h2⟩, h3⟩ := C101_find_missing hE hrv ht ha hk hfit
  obtain ⟨hR, hm, _⟩ := ht.reach hE hrv
  rcases hR.st with ⟨a, b, rfl⟩ | ⟨c, hl⟩
  · cases ha
  · have hget := Spec.get_perm hE hm (hR.distinct hE) k
    rw [hl.toShape.slotCap] at hfit
    have b2 := (hl.toGood.find_real hE k).2 (hget.trans hk) (hfit.perm hm.symm)
    have hf : findIter false E t k = .ok t.last := by unfold findIter findIdx; rw [b2]; rfl
    rw [hf] at h1
    cases h1
    unfold equalRange
    rw [hf, Res.bind_ok, if_neg h2]
    rcases hl.last with hx | hx <;> rw [hx]
    · rfl
    · unfold nextPtr
      simp only
      rw [if_neg (by omega)]; rfl

/-! ### C115 -/

/-- C115, indirect layout.  After every history the loop from `end()` back to `begin()` with `operator --` reads the elements in the
opposite order of the range-for loop. -/
theorem C115_backward_partial (hE : E.Lawful) {rv : Nat → Nat} (hrv : ∀ x, 256 ≤ rv x ∧ rv x ≤ 1024)
    {cs : List (Bool × Call K V)} {t : Map K V} (ht : Reached E rv cs t) :
    ∃ r, walk t = .ok r ∧ walkBack t = .ok r.reverse ∧ r = orderAll E.eq [] cs := by
  obtain ⟨hR, hm, ho⟩ := ht.reach hE hrv
  refine ⟨entries t, walk_reach hR, ?_, ho⟩
  rcases hR.st with ⟨a, b, rfl⟩ | ⟨c, hl⟩
  · rfl
  · have hge : ∀ j, j < t.size → ∃ e, t.slot j = some e := fun j hj => hl.some_ j hj
    have hent := Good.entries_dense hl.toDense hl.size_le_slen
    unfold walkBack
    by_cases h0 : t.size = 0
    · unfold walkBackLoop
      have : endPtr t = beginPtr t := by unfold beginPtr; rw [if_neg (by omega)]
      rw [if_pos this, hent, h0]; rfl
    · have hb : beginPtr t = some 0 := by unfold beginPtr; rw [if_pos h0]
      have hloop : ∀ (n : Nat), n ≤ t.size → ∀ f, n < f →
          walkBackLoop t f (some n) = .ok ((List.range n).filterMap t.slot).reverse := by
        intro n
        induction n with
        | zero =>
          intro _ f hf
          obtain ⟨f, rfl⟩ : ∃ g, f = g + 1 := ⟨f - 1, by omega⟩
          unfold walkBackLoop
          rw [hb, if_pos rfl]; rfl
        | succ n ih =>
          intro hn f hf
          obtain ⟨f, rfl⟩ : ∃ g, f = g + 1 := ⟨f - 1, by omega⟩
          obtain ⟨e, he⟩ := hge n (by omega)
          unfold walkBackLoop
          rw [hb, if_neg (by intro hc; cases hc)]
          unfold prevPtr
          simp only [Res.bind_ok]
          have hd : deref t (some n) = some e := he
          rw [hd]
          simp only
          rw [ih (by omega) f (by omega), Res.bind_ok, List.range_succ, List.filterMap_append, List.reverse_append]
          simp [he]
      unfold endPtr
      rw [hloop t.size (Nat.le_refl _) _ (by omega), hent]

/-! ### Satisfiability of the hypotheses -/

theorem reached_sat {E : Env Nat} {n : Nat} {cs : List (Call Nat Nat)} {p : Map Nat Nat → Bool} (hv : cs.all Robin.validB = true)
    (h : (stateOf E n cs).any p = true) : ∃ t, Reached E (fun _ => 512) (cs.map fun c => (true, c)) t ∧ p t = true := by
  cases ht : stateOf E n cs with
  | none => rw [ht] at h; cases h
  | some t => rw [ht] at h; exact ⟨t, reached_of ht hv, h⟩

/-- What a range operation leaves behind, as seen by a range-for loop. -/
def itemsAfter {α : Type} : Out (Map Nat Nat) α → Option (List (Nat × Nat))
  | .ok t _ => match walk t with
    | .ok l => some l
    | _ => none
  | _ => none

/-- Did the call throw, and does the map own a block with this many elements? -/
def heldAtThrow {α : Type} : Out (Map Nat Nat) α → Option (Bool × Nat)
  | .throw t => some (t.alloc, t.size)
  | _ => none

/-- C113: keys are equal modulo 100.  The range has a key that is present, a new key and the new key once more. -/
example : ∃ t, Reached modEnv (fun _ => 512) ((Robin.ins 2).map fun c => (true, c)) t ∧
    (itemsAfter (insertRange false modEnv [(true, 101, 5), (true, 3, 3), (true, 203, 9)] t) == some [(0, 0), (1, 1), (3, 3)]) = true :=
  reached_sat (n := 0) (by decide) (by decide +kernel)

example : ∀ i, i ≤ 3 → Room modEnv (insertAll modEnv.eq (contents modEnv.eq ((Robin.ins 2).map fun c => (true, c)))
    (([(true, 101, 5), (true, 3, 3), (true, 203, 9)].take i).map (·.2))) := fun i hi => room_five (by
  match i, hi with
  | 0, _ => decide
  | 1, _ => decide
  | 2, _ => decide
  | 3, _ => decide)

/-- C113, the other case: the allocation for the fifth element is refused. -/
example : ∃ t, Reached modEnv (fun _ => 512) ((Robin.ins 2).map fun c => (true, c)) t ∧
    (heldAtThrow (insertRange false modEnv [(true, 3, 3), (true, 4, 4), (false, 5, 5), (true, 6, 6)] t) == some (true, 4)) = true :=
  reached_sat (n := 0) (by decide) (by decide +kernel)

/-- C113, construction from a range. -/
example : (itemsAfter (fromRange false modEnv true 0 [(true, 7, 1), (true, 107, 2), (true, 5, 3)]) == some [(7, 1), (5, 3)]) = true := by
  decide +kernel

example : ∀ i, i ≤ 3 → Room modEnv (insertAll modEnv.eq [] (([(true, 7, 1), (true, 107, 2), (true, 5, 3)].take i).map (·.2))) :=
  fun i hi => room_five (by
  match i, hi with
  | 0, _ => decide
  | 1, _ => decide
  | 2, _ => decide
  | 3, _ => decide)

/-- C113, erasing keys: one of them twice, one absent.  The last element takes the place of every erased one. -/
example : ∃ t, Reached modEnv (fun _ => 512) ((Robin.ins 4).map fun c => (true, c)) t ∧
    (itemsAfter (eraseKeys false modEnv [2, 102, 50, 0] 0 t) == some [(3, 3), (1, 1)]) = true :=
  reached_sat (n := 0) (by decide) (by decide +kernel)

example : ∀ i, i ≤ 4 → Room modEnv (removeAll modEnv.eq (contents modEnv.eq ((Robin.ins 4).map fun c => (true, c))) ([2, 102, 50, 0].take i)) :=
  fun i _ => room_five (Nat.le_trans (List.length_filter_le _ _) (by decide))

/-- C114 and C115: four elements and a map that owns storage; the absent key 60. -/
example : ∃ t, Reached modEnv (fun _ => 512) ((Robin.ins 4).map fun c => (true, c)) t ∧
    (t.alloc && (match readEqual false modEnv t 102, equalRange false modEnv t 60 with
      | .ok a, .ub => a == [(2, 2)]
      | _, _ => false) && (match walkBack t with
      | .ok a => a == [(3, 3), (2, 2), (1, 1), (0, 0)]
      | _ => false)) = true :=
  reached_sat (n := 0) (by decide) (by decide +kernel)

example : Spec.get modEnv.eq (contents modEnv.eq ((Robin.ins 4).map fun c => (true, c))) 60 = none := by decide

/-- C114, the map without storage. -/
example : ∃ t, Reached modEnv (fun _ => 512) (([] : List (Call Nat Nat)).map fun c => (true, c)) t ∧ (!t.alloc) = true :=
  reached_sat (n := 0) (by decide) (by decide +kernel)

end Verif.RobInd
