/-
Ranges of `robin_hash_map` (direct layout): insertion of ranges and initializer lists, construction from them, erasure of a
range of keys, `equal_range` and the backward iterator step (properties C113, C114, C115).
-/
import Verif.RobinCopy
import Verif.RobinBugs

namespace Verif.Robin
open Spec (Distinct Call Ans)

section Model
variable {K V : Type} (store chk : Bool) (E : Env K)

/-- `insert(first, last)` and `insert(initializer_list)` (RH:3608-3617).  Every element comes with the allocator's answers during
its insertion. -/
def insertRange : List (Bool × K × V) → Map K V → Out (Map K V) Unit
  | [], t => .ok t ()
  | (mem, k, v) :: l, t => (emplace store chk E false mem k v t).bind fun t' _ => insertRange l t'

/-- The constructors from a range (RH:3077-3096) and from an initializer list (RH:3206-3226): `reserve_for_insert` of the larger
one of `init_capacity` and the number of elements, then the insertion of the range.  After an exception there is no object;
the state in `throw` only says what the members were. -/
def fromRange (mem : Bool) (n : Nat) (l : List (Bool × K × V)) : Out (Map K V) Unit :=
  (reserveForInsert store mem (max n l.length)).bind fun t _ => insertRange store chk E l t

/-- `erase(first, last)` for iterators over keys (RH:3769-3778): the sum of the results of `erase(key)`; `n` is `num_deleted`. -/
def eraseKeys : List K → Nat → Map K V → Out (Map K V) Nat
  | [], n, t => .ok t n
  | k :: ks, n, t => (eraseKey store chk E k t).bind fun t' d => eraseKeys ks (n + d) t'

/-- `equal_range(key)` (RH:3564-3578); `std::next` is `operator ++`. -/
def equalRange (t : Map K V) (k : K) : Res (Nat × Nat) :=
  (findIter store chk E t k).bind fun i =>
    if i = maxCap t then .ok (i, i) else (nextIdx t (t.clen - (i + 1)) i).bind fun j => .ok (i, j)

/-- The caller's loop `for (; first != last; ++first)` over a pair of iterators, reading every element. -/
def readRange (t : Map K V) : Nat → Nat → Nat → Res (List (K × V))
  | 0, _, _ => .diverge
  | f + 1, i, j =>
    if i = j then .ok [] else
      match t.slot i with
      | none => .ub
      | some e => (nextIdx t (t.clen - (i + 1)) i).bind fun i' => (readRange t f i' j).bind fun l => .ok (e :: l)

/-- What the caller finds in `equal_range(key)`. -/
def readEqual (t : Map K V) (k : K) : Res (List (K × V)) :=
  (equalRange store chk E t k).bind fun (i, j) => readRange t (t.clen + 1) i j

/-- `operator --` (RH:2833-2842): back to the next control word that is not empty, or to index 0. -/
def prevIdx (t : Map K V) : Nat → Nat
  | 0 => 0
  | i + 1 => if (t.ctrl i).isEmpty then prevIdx t i else i

/-- The caller's loop from `i` back to `begin()`: `while (it != begin) { --it; use(*it); }`. -/
def walkBackLoop (t : Map K V) (b : Nat) : Nat → Nat → Res (List (K × V))
  | 0, _ => .diverge
  | f + 1, i =>
    if i = b then .ok [] else
      match t.slot (prevIdx t i) with
      | none => .ub
      | some e => (walkBackLoop t b f (prevIdx t i)).bind fun l => .ok (e :: l)

/-- The same from `end()`. -/
def walkBack (t : Map K V) : Res (List (K × V)) := walkBackLoop t (beginIdx store t) (t.clen + 1) (maxCap t)

end Model

variable {K V : Type} {E : Env K}

/-- Insertion of the elements of a list one by one into the ideal map. -/
def insertAll (eq : K → K → Bool) (m : Spec.Map K V) (l : List (K × V)) : Spec.Map K V :=
  l.foldl (fun m e => Spec.insert eq m e.1 e.2) m

/-- The calls of `insert` that a range stands for. -/
def insCalls (l : List (Bool × K × V)) : List (Bool × Call K V) := l.map fun x => (x.1, .insert x.2.1 x.2.2)

/-- The calls of `erase` that a range of keys stands for. -/
def delCalls (ks : List K) : List (Bool × Call K V) := ks.map fun k => (true, .erase k)

/-! ### A range is a history -/

theorem usable_ins (l : List (Bool × K × V)) : ∀ bare, Usable bare (insCalls l) := by
  induction l with
  | nil => intro b; trivial
  | cons x l ih =>
    intro b
    refine ⟨fun _ => ⟨fun k h => ?_, fun d h => ?_⟩, ih _⟩
    · cases h
    · cases h

theorem usable_del (ks : List K) : ∀ bare, Usable bare (delCalls ks : List (Bool × Call K V)) := by
  induction ks with
  | nil => intro b; trivial
  | cons x l ih =>
    intro b
    refine ⟨fun _ => ⟨fun k h => ?_, fun d h => ?_⟩, ih _⟩
    · cases h
    · cases h

theorem valid_ins (l : List (Bool × K × V)) : ∀ c ∈ insCalls l, Valid c.2 := by
  intro c hc
  obtain ⟨x, _, rfl⟩ := List.mem_map.mp hc
  trivial

theorem valid_del (ks : List K) : ∀ c ∈ (delCalls ks : List (Bool × Call K V)), Valid c.2 := by
  intro c hc
  obtain ⟨x, _, rfl⟩ := List.mem_map.mp hc
  trivial

theorem foldl_ins (eq : K → K → Bool) (l : List (Bool × K × V)) : ∀ m : Spec.Map K V,
    (insCalls l).foldl (fun m c => next eq m c.2) m = insertAll eq m (l.map (·.2)) := by
  induction l with
  | nil => intro m; rfl
  | cons x l ih => intro m; exact ih _

theorem run_cons {store chk : Bool} {rv : Nat → Nat} (mem : Bool) (c : Call K V) (cs : List (Bool × Call K V)) (t : Map K V) :
    run store chk E rv ((mem, c) :: cs) t =
      match exec store chk E rv mem c t with
      | .ub => .ub
      | .diverge => .diverge
      | .throw t' => .ok ([.threw], t')
      | .ok t' a => (run store chk E rv cs t').bind fun r => .ok (a :: r.1, r.2) := rfl

theorem run_append {store chk : Bool} {rv : Nat → Nat} (cs : List (Bool × Call K V)) : ∀ (t : Map K V) (cs' : List (Bool × Call K V))
    {as : List (Ans K V)} {t1 : Map K V}, run store chk E rv cs t = .ok (as, t1) → as.getLast? ≠ some .threw →
    run store chk E rv (cs ++ cs') t = (run store chk E rv cs' t1).bind fun r => .ok (as ++ r.1, r.2) := by
  induction cs with
  | nil =>
    intro t cs' as t1 h _
    cases h
    rw [List.nil_append]
    cases run store chk E rv cs' t <;> rfl
  | cons c cs ih =>
    intro t cs' as t1 h hl
    obtain ⟨mem, c⟩ := c
    rw [List.cons_append, run_cons]
    rw [run_cons] at h
    cases hx : exec store chk E rv mem c t with
    | ub => rw [hx] at h; cases h
    | diverge => rw [hx] at h; cases h
    | throw t' => rw [hx] at h; cases h; exact (hl rfl).elim
    | ok t' a =>
      rw [hx] at h
      simp only at h ⊢
      cases hr : run store chk E rv cs t' with
      | ub => rw [hr] at h; cases h
      | diverge => rw [hr] at h; cases h
      | ok r =>
        obtain ⟨as', t2⟩ := r
        rw [hr] at h
        cases h
        rw [ih t' cs' hr (fun hl' => hl (by rw [List.getLast?_cons, hl']; rfl))]
        cases run store chk E rv cs' t2 <;> rfl

/-- A history followed by more calls. -/
theorem Reached.append {rv : Nat → Nat} {cs cs' : List (Bool × Call K V)} {t t' : Map K V} {as : List (Ans K V)}
    (h : Reached E rv cs t) (hv : ∀ c ∈ cs', Valid c.2) (hr : run false true E rv cs' t = .ok (as, t')) (hl : as.getLast? ≠ some .threw) :
    Reached E rv (cs ++ cs') t' := by
  obtain ⟨h1, n, mem, t0, as0, h2, h3, h4⟩ := h
  refine ⟨fun c hc => ?_, n, mem, t0, as0 ++ as, h2, ?_, ?_⟩
  · rcases List.mem_append.mp hc with hc | hc
    · exact h1 c hc
    · exact hv c hc
  · rw [run_append cs t0 cs' h3 h4, hr]; rfl
  · rw [List.getLast?_append]
    cases ha : as.getLast? with
    | none => simpa using h4
    | some a => rw [ha] at hl; simpa using hl

/-- If the single insertions are defined, the range insertion does the same. -/
theorem insertRange_run {store chk : Bool} {rv : Nat → Nat} (l : List (Bool × K × V)) : ∀ (t : Map K V) {as : List (Ans K V)} {t' : Map K V},
    run store chk E rv (insCalls l) t = .ok (as, t') →
    (as.getLast? ≠ some .threw ∧ insertRange store chk E l t = .ok t' ()) ∨
    (∃ a mem k v b t1, l = a ++ (mem, k, v) :: b ∧ insertRange store chk E a t = .ok t1 () ∧ emplace store chk E false mem k v t1 = .throw t' ∧
      insertRange store chk E l t = .throw t' ∧ ∃ as1, run store chk E rv (insCalls a) t = .ok (as1, t1) ∧ as1.getLast? ≠ some .threw) := by
  induction l with
  | nil => intro t as t' h; cases h; exact Or.inl ⟨by simp, rfl⟩
  | cons x l ih =>
    intro t as t' h
    obtain ⟨mem, k, v⟩ := x
    have h' : run store chk E rv ((mem, Call.insert k v) :: insCalls l) t = .ok (as, t') := h
    unfold run at h'
    simp only [exec] at h'
    cases hx : emplace store chk E false mem k v t with
    | ub => rw [hx] at h'; cases h'
    | diverge => rw [hx] at h'; cases h'
    | throw t1 =>
      rw [hx] at h'
      cases h'
      refine Or.inr ⟨[], mem, k, v, l, t, rfl, rfl, hx, ?_, [], rfl, by simp⟩
      unfold insertRange; rw [hx]; rfl
    | ok t1 r =>
      rw [hx] at h'
      simp only [Out.bind_ok] at h'
      cases hs : t1.slot r.1 with
      | none => rw [readElem, hs] at h'; cases h'
      | some e =>
        have he : exec store chk E rv mem (.insert k v) t = .ok t1 (.elem e r.2) := by
          simp only [exec, hx, Out.bind_ok, readElem, hs]
        rw [readElem, hs] at h'
        simp only at h'
        cases hr : run store chk E rv (insCalls l) t1 with
        | ub => rw [hr] at h'; cases h'
        | diverge => rw [hr] at h'; cases h'
        | ok q =>
          obtain ⟨as', t2⟩ := q
          rw [hr] at h'
          cases h'
          have hi : insertRange store chk E ((mem, k, v) :: l) t = insertRange store chk E l t1 := by
            conv => lhs; unfold insertRange
            rw [hx]; rfl
          rcases ih t1 hr with ⟨g1, g2⟩ | ⟨a, mem', k', v', b, t3, g1, g2, g3, g4, as1, g5, g6⟩
          · refine Or.inl ⟨fun hl => ?_, by rw [hi, g2]⟩
            rw [List.getLast?_cons] at hl
            cases ha : as'.getLast? with
            | none => rw [ha] at hl; cases hl
            | some y => rw [ha] at hl; exact g1 (by rw [ha]; exact hl)
          · refine Or.inr ⟨(mem, k, v) :: a, mem', k', v', b, t3, by rw [g1]; rfl, ?_, g3, by rw [hi, g4], .elem e r.2 :: as1, ?_, ?_⟩
            · unfold insertRange; rw [hx]; exact g2
            · show run store chk E rv ((mem, Call.insert k v) :: insCalls a) t = _
              unfold run
              rw [he]
              simp only
              rw [g5]; rfl
            · intro hl
              rw [List.getLast?_cons] at hl
              cases ha : as1.getLast? with
              | none => rw [ha] at hl; cases hl
              | some y => rw [ha] at hl; exact g6 (by rw [ha]; exact hl)

theorem OLe.ok {σ α : Type} {a b : Out σ α} {s : σ} {x : α} (h : OLe a b) (ha : a = .ok s x) : b = .ok s x := by
  rcases h with h | h
  · rw [ha] at h; cases h
  · rw [← h, ha]

theorem OLe.throw {σ α : Type} {a b : Out σ α} {s : σ} (h : OLe a b) (ha : a = .throw s) : b = .throw s := by
  rcases h with h | h
  · rw [ha] at h; cases h
  · rw [← h, ha]

theorem insertRange_chk {store : Bool} : ∀ (l : List (Bool × K × V)) (t : Map K V),
    OLe (insertRange store true E l t) (insertRange store false E l t) := by
  intro l
  induction l with
  | nil => intro t; exact OLe.refl _
  | cons e l ih => intro t; obtain ⟨mem, k, v⟩ := e; exact (emplaceLoop_chk false mem k v 64 t).bind fun t' _ => ih t'

theorem eraseKey_chk {store : Bool} (k : K) (t : Map K V) : OLe (eraseKey store true E k t) (eraseKey store false E k t) :=
  OLe.lift (findIdx_chk t k) fun _ => OLe.refl _

theorem eraseKeys_chk {store : Bool} : ∀ (l : List K) (n : Nat) (t : Map K V),
    OLe (eraseKeys store true E l n t) (eraseKeys store false E l n t) := by
  intro l
  induction l with
  | nil => intro n t; exact OLe.refl _
  | cons k l ih => intro n t; exact (eraseKey_chk k t).bind fun t' d => ih (n + d) t'

/-! ### C113: ranges -/

theorem get_insert (hE : E.Lawful) (m : Spec.Map K V) (k : K) (v : V) (q : K) :
    Spec.get E.eq (Spec.insert E.eq m k v) q = (Spec.get E.eq m q).or (Spec.get E.eq [(k, v)] q) := by
  unfold Spec.insert
  cases hg : Spec.get E.eq m k with
  | none =>
    rw [if_neg (by simp)]
    unfold Spec.get at hg ⊢
    rw [List.find?_cons]
    cases hq : E.eq q k with
    | false => simp [hq]
    | true =>
      have hn : m.find? (fun e => E.eq q e.1) = none := by
        rw [List.find?_eq_none] at hg ⊢
        intro e he hc
        exact hg e he (hE.trans _ _ _ (hE.symm _ _ hq) hc)
      rw [hn]
      simp [hq]
  | some e =>
    rw [if_pos (by simp)]
    cases hq : E.eq q k with
    | false =>
      have : Spec.get E.eq [(k, v)] q = none := by simp [Spec.get, hq]
      rw [this, Option.or_none]
    | true =>
      have hs : (Spec.get E.eq m q).isSome = true := by
        unfold Spec.get at hg ⊢
        rw [List.find?_isSome]
        exact ⟨e, List.mem_of_find?_eq_some hg, hE.trans _ _ _ hq (List.find?_some (p := fun x : K × V => E.eq k x.1) hg)⟩
      obtain ⟨x, hx⟩ := Option.isSome_iff_exists.mp hs
      rw [hx]; rfl

/-- Of equal keys the first one wins, and what the map had before comes first of all. -/
theorem get_insertAll (hE : E.Lawful) (l : List (K × V)) : ∀ (m : Spec.Map K V) (q : K),
    Spec.get E.eq (insertAll E.eq m l) q = (Spec.get E.eq m q).or (Spec.get E.eq l q) := by
  induction l with
  | nil => intro m q; exact (Option.or_none).symm
  | cons e l ih =>
    intro m q
    show Spec.get E.eq (insertAll E.eq (Spec.insert E.eq m e.1 e.2) l) q = _
    rw [ih, get_insert hE, Option.or_assoc]
    congr 1
    unfold Spec.get
    rw [List.find?_cons, List.find?_cons]
    cases E.eq q e.1 <;> rfl

theorem take_ins (l : List (Bool × K × V)) (i : Nat) : (insCalls l).take i = insCalls (l.take i) := List.map_take.symm

theorem take_del (ks : List K) (i : Nat) : (delCalls ks : List (Bool × Call K V)).take i = delCalls (ks.take i) := List.map_take.symm

/-- C113 (partial), insertion of a range or an initializer list.  After every history, if the contents fit all the time
(`Roomy`): either all elements are inserted, as if by single insertions, and the iteration over the map yields the old contents
and, of the elements of the range with a new key, the first one for every key; or an insertion throws after exactly the
elements before it have been inserted.  Missing: contents that do not fit (C31). -/
theorem C113_insert_range_partial (hE : E.Lawful) {rv : Nat → Nat} (hrv : ∀ x, 256 ≤ rv x ∧ rv x ≤ 1024) {cs : List (Bool × Call K V)}
    {t : Map K V} (ht : Reached E rv cs t) (l : List (Bool × K × V))
    (hr : ∀ i, i ≤ l.length → Roomy E (insertAll E.eq (contents E.eq cs) ((l.take i).map (·.2)))) :
    (∃ t' r, insertRange false false E l t = .ok t' () ∧ Reached E rv (cs ++ insCalls l) t' ∧ walk false t' = .ok r ∧ Distinct E.eq r ∧
      ∀ q, Spec.get E.eq r q = (Spec.get E.eq (contents E.eq cs) q).or (Spec.get E.eq (l.map (·.2)) q)) ∨
    (∃ a mem k v b t1 t', l = a ++ (mem, k, v) :: b ∧ insertRange false false E a t = .ok t1 () ∧ Reached E rv (cs ++ insCalls a) t1 ∧
      emplace false false E false mem k v t1 = .throw t' ∧ insertRange false false E l t = .throw t') := by
  obtain ⟨hR, hm⟩ := ht.reach hE hrv
  have h1 := run_ok hE hrv (insCalls l) t _ (valid_ins l) hR hm
  cases hx : run false true E rv (insCalls l) t with
  | diverge => rw [hx] at h1; exact h1.elim
  | ub =>
    rw [hx] at h1
    obtain ⟨i, hi, hn⟩ := h1 true (fun _ => rfl) (usable_ins l true)
    rw [take_ins, foldl_ins] at hn
    exact (hn (hr i (by simpa [insCalls] using hi))).elim
  | ok r =>
    obtain ⟨as, t'⟩ := r
    rcases insertRange_run l t hx with ⟨g1, g2⟩ | ⟨a, mem, k, v, b, t1, g1, g2, g3, g4, as1, g5, g6⟩
    · left
      have hra := ht.append (valid_ins l) hx g1
      obtain ⟨hR', hm'⟩ := hra.reach hE hrv
      refine ⟨t', entries t', OLe.ok (insertRange_chk l t) g2, hra, walk_reach hR', hR'.distinct, fun q => ?_⟩
      rw [Spec.get_perm hE hm' hR'.distinct q]
      unfold contents
      rw [List.foldl_append, foldl_ins, get_insertAll hE]
    · right
      exact ⟨a, mem, k, v, b, t1, t', g1, OLe.ok (insertRange_chk a t) g2, ht.append (valid_ins a) g5 g6,
        OLe.throw (emplaceLoop_chk false mem k v 64 t1) g3, OLe.throw (insertRange_chk l t) g4⟩

theorem minRequire_new {n : Nat} (h : n < 2 ^ 47) : minRequire (emptyMap false 128 512 : Map K V) n = 2 * n := by
  unfold minRequire
  show n * 512 % W / 256 = 2 * n
  rw [Nat.mod_eq_of_lt (by unfold W; omega)]
  omega

/-- C113 (partial), the constructors from a range and from an initializer list: the new map has, for every key of the range, the
first element with that key, unless an allocation fails.  Missing: contents that do not fit (C31). -/
theorem C113_from_range_partial (hE : E.Lawful) {rv : Nat → Nat} (hrv : ∀ x, 256 ≤ rv x ∧ rv x ≤ 1024) (mem : Bool) (n : Nat)
    (l : List (Bool × K × V)) (hn : n < 2 ^ 47) (hl : l.length < 2 ^ 47)
    (hr : ∀ i, i ≤ l.length → Roomy E (insertAll E.eq [] ((l.take i).map (·.2)))) :
    (∃ t r, fromRange false false E mem n l = .ok t () ∧ Reached E rv (insCalls l) t ∧ walk false t = .ok r ∧ Distinct E.eq r ∧
      ∀ q, Spec.get E.eq r q = Spec.get E.eq (l.map (·.2)) q) ∨
    (∃ t, fromRange false false E mem n l = .throw t) := by
  unfold fromRange reserveForInsert
  rw [minRequire_new (by omega)]
  cases hx : (make false mem (2 * max n l.length) : Out (Map K V) Unit) with
  | diverge =>
    exfalso
    unfold make at hx
    split at hx
    · cases hx
    · cases hc : calcCapacity (2 * max n l.length) with
      | ub => rw [hc] at hx; cases hx
      | diverge => exact calcCapacity_diverge _ hc
      | ok c => rw [hc] at hx; simp only [createSlots] at hx; split at hx <;> cases hx
  | ub =>
    exfalso
    unfold make at hx
    split at hx
    · cases hx
    · cases hc : calcCapacity (2 * max n l.length) with
      | ub => have := calcCapacity_ub hc; omega
      | diverge => rw [hc] at hx; cases hx
      | ok c => rw [hc] at hx; simp only [createSlots] at hx; split at hx <;> cases hx
  | throw t => exact Or.inr ⟨t, rfl⟩
  | ok t u =>
    rw [Out.bind_ok]
    have ht : Reached E rv ([] : List (Bool × Call K V)) t := ⟨fun c hc => (by cases hc), _, mem, t, [], hx, rfl, by simp⟩
    rcases C113_insert_range_partial hE hrv ht l hr with ⟨t', r, h1, h2, h3, h4, h5⟩ | ⟨a, m, k, v, b, t1, t', _, _, _, _, h⟩
    · exact Or.inl ⟨t', r, h1, h2, h3, h4, fun q => (h5 q).trans rfl⟩
    · exact Or.inr ⟨t', h⟩

/-! ### C113: the reserved block suffices -/

theorem insert_sublist (eq : K → K → Bool) (m : Spec.Map K V) (k : K) (v : V) : m.Sublist (Spec.insert eq m k v) := by
  unfold Spec.insert
  split
  · exact List.Sublist.refl _
  · exact List.sublist_cons_self _ _

theorem insertAll_sublist (eq : K → K → Bool) (l : List (K × V)) : ∀ m : Spec.Map K V, m.Sublist (insertAll eq m l) := by
  induction l with
  | nil => intro m; exact List.Sublist.refl _
  | cons e l ih => intro m; exact (insert_sublist eq m e.1 e.2).trans (ih _)

theorem insert_perm (hE : E.Lawful) {m m' : Spec.Map K V} (hp : m.Perm m') (hd : Distinct E.eq m) (k : K) (v : V) :
    (Spec.insert E.eq m k v).Perm (Spec.insert E.eq m' k v) := by
  unfold Spec.insert
  rw [Spec.get_perm hE hp hd k]
  split
  · exact hp
  · exact hp.cons _

theorem distinct_insert {m : Spec.Map K V} (hd : Distinct E.eq m) (k : K) (v : V) : Distinct E.eq (Spec.insert E.eq m k v) := by
  unfold Spec.insert
  cases hg : Spec.get E.eq m k with
  | some e => exact hd
  | none =>
    rw [if_neg (by simp)]
    refine List.pairwise_cons.mpr ⟨fun e he => ?_, hd⟩
    unfold Spec.get at hg
    rw [List.find?_eq_none] at hg
    simpa using hg e he

theorem insertAll_perm (hE : E.Lawful) (l : List (K × V)) : ∀ {m m' : Spec.Map K V}, m.Perm m' → Distinct E.eq m →
    (insertAll E.eq m l).Perm (insertAll E.eq m' l) := by
  induction l with
  | nil => intro m m' hp _; exact hp
  | cons e l ih => intro m m' hp hd; exact ih (insert_perm hE hp hd e.1 e.2) (distinct_insert hd _ _)

/-- Below the threshold an element that fits is inserted without growth, whatever the allocator says. -/
theorem emplace_fits (hE : E.Lawful) {c : Nat} {t : Map K V} (h : Live E t c) (mem : Bool) (k : K) (v : V) (hs : t.size < t.thr)
    (hf : Fits E c (Spec.insert E.eq (entries t) k v)) :
    ∃ t' r, emplace false true E false mem k v t = .ok t' r ∧ Live E t' c ∧ (entries t').Perm (Spec.insert E.eq (entries t) k v) ∧
      t'.thr = t.thr ∧ t'.mlf = t.mlf ∧ t'.rev = t.rev ∧ t'.size ≤ t.size + 1 := by
  have hp := probe_spec h.toGood k
  unfold emplace
  generalize hF : (64 : Nat) = F
  obtain ⟨f, rfl⟩ : ∃ f, F = f + 1 := ⟨F - 1, by omega⟩
  unfold emplaceLoop findOrInsert
  cases hpr : probe false true E t k with
  | diverge => rw [hpr] at hp; exact hp.elim
  | ub =>
    rw [hpr] at hp
    exact ((hf.sublist (insert_sublist _ _ _ _)).not_crowded h.toGood (h.toShape.hm_lt k) hp.1).elim
  | ok q =>
    rw [hpr] at hp
    cases q with
    | hit i =>
      obtain ⟨h1, e, h2, h3⟩ := hp
      have hg : Spec.get E.eq (entries t) k = some e :=
        (Spec.get_some_iff hE h.distinct).mpr ⟨mem_entries.mpr ⟨i, h1, h2⟩, hE.symm _ _ h3⟩
      have hins : Spec.insert E.eq (entries t) k v = entries t := by
        unfold Spec.insert; rw [hg]; rfl
      refine ⟨t, (i, false), ?_, h, by rw [hins], rfl, rfl, rfl, by omega⟩
      simp only [lift, Out.bind_ok, h2]
      rfl
    | stop i d =>
      obtain ⟨h1, h2⟩ := hp
      have hk := absent_of_stop hE h.toGood h1 h2
      have hg : Spec.get E.eq (entries t) k = none := Spec.get_none_iff.mpr fun e he => absent_symm hE (hk e he)
      have hins : Spec.insert E.eq (entries t) k v = (k, v) :: entries t := by
        unfold Spec.insert; rw [hg]; rfl
      rw [hins] at hf
      obtain ⟨t1, t2, g1, g2, g3⟩ := finish_added hE h.toGood h1 hk hf
      have hsz : t2.size = t.size + 1 := by rw [g3.good.size, g3.perm.length_eq, List.length_cons, ← h.size]
      refine ⟨t2, (i, true), ?_, { toGood := g3.good, thr_le := by rw [g3.thr]; exact h.thr_le,
                                   size_le := by rw [hsz]; have := h.thr_le; omega }, by rw [hins]; exact g3.perm, g3.thr, g3.mlf,
                                   g3.rev, by omega⟩
      simp only [lift, h.toShape.no_max, Bool.or_false, decide_eq_true_eq]
      rw [if_neg (by omega), g1]
      simp only [Out.bind_ok, g2]

theorem insertRange_fits (hE : E.Lawful) {c : Nat} (l : List (Bool × K × V)) : ∀ (t : Map K V), Live E t c →
    t.size + l.length ≤ t.thr → Fits E c (insertAll E.eq (entries t) (l.map (·.2))) →
    ∃ t', insertRange false true E l t = .ok t' () ∧ Live E t' c ∧ (entries t').Perm (insertAll E.eq (entries t) (l.map (·.2))) ∧
      t'.mlf = t.mlf ∧ t'.rev = t.rev := by
  induction l with
  | nil => intro t h _ _; exact ⟨t, rfl, h, List.Perm.refl _, rfl, rfl⟩
  | cons x l ih =>
    intro t h hthr hf
    obtain ⟨mem, k, v⟩ := x
    have hf' : Fits E c (insertAll E.eq (Spec.insert E.eq (entries t) k v) (l.map (·.2))) := hf
    simp only [List.length_cons] at hthr
    obtain ⟨t1, r, e1, e2, e3, e4, e5, e6, e7⟩ := emplace_fits hE h mem k v (by omega) (hf'.sublist (insertAll_sublist _ _ _))
    have hpm := insertAll_perm hE (l.map (·.2)) e3 e2.distinct
    obtain ⟨t', g1, g2, g3, g4, g5⟩ := ih t1 e2 (by rw [e4]; omega) (hf'.perm hpm.symm)
    refine ⟨t', ?_, g2, g3.trans hpm, g4.trans e5, g5.trans e6⟩
    unfold insertRange
    rw [e1, Out.bind_ok, g1]

/-- C113 (partial): the constructor "prepares enough space to ensure that no expansion is required" (RH:3091).  If the allocator
grants the first block and the final contents fit, the construction succeeds whatever the allocator would say afterwards.
Missing: contents that do not fit (C31). -/
theorem C113_from_range_no_expansion_partial (hE : E.Lawful) (n : Nat) (l : List (Bool × K × V)) (hn : n ≤ 2 ^ 46) (hl : l.length ≤ 2 ^ 46)
    (hr : Roomy E (insertAll E.eq [] (l.map (·.2)))) :
    ∃ t r, fromRange false false E true n l = .ok t () ∧ walk false t = .ok r ∧ r.Perm (insertAll E.eq [] (l.map (·.2))) := by
  by_cases h0 : max n l.length = 0
  · have hl0 : l = [] := List.length_eq_zero_iff.mp (by omega)
    subst hl0
    refine ⟨emptyMap false 128 512, [], ?_, walk_reach (E := E) reach_default, List.Perm.refl _⟩
    unfold fromRange reserveForInsert
    rw [minRequire_new (by omega), h0]
    rfl
  · unfold fromRange reserveForInsert
    rw [minRequire_new (by omega)]
    cases hc : calcCapacity (2 * max n l.length) with
    | ub => have := calcCapacity_ub hc; omega
    | diverge => exact (calcCapacity_diverge _ hc).elim
    | ok cap =>
      obtain ⟨j, hj, rfl, h6, h7⟩ := calcCapacity_ok hc
      have hmk : (make false true (2 * max n l.length) : Out (Map K V) Unit) = createSlots false true (2 ^ j) (emptyMap false 128 512) := by
        unfold make
        rw [if_neg (by omega), hc]
      rcases createSlots_cases (emptyMap false 128 512 : Map K V) (2 ^ j) true with ⟨t1, h1⟩ | ⟨h1, h2⟩
      · obtain ⟨g1, g2, g3, g4, g5⟩ := createSlots_good (E := E) hj h1
        have hth : t1.thr = 2 ^ j * 128 / 256 := g5
        have hz : t1.size = 0 := by rw [g1.size, g2]; rfl
        have hlive : Live E t1 (2 ^ j) := { toGood := g1, thr_le := by omega, size_le := by rw [g1.size, g2]; exact Nat.zero_le _ }
        have hlen : (insertAll E.eq [] (l.map (·.2))).length ≤ 2 ^ j := by
          have : ∀ (l : List (K × V)) (m : Spec.Map K V), (insertAll E.eq m l).length ≤ m.length + l.length := by
            intro l
            induction l with
            | nil => intro m; exact Nat.le_refl _
            | cons e l ih =>
              intro m
              have h1 := ih (Spec.insert E.eq m e.1 e.2)
              have h2 : (Spec.insert E.eq m e.1 e.2).length ≤ m.length + 1 := by
                unfold Spec.insert; split
                · omega
                · rw [List.length_cons]
              show (insertAll E.eq (Spec.insert E.eq m e.1 e.2) l).length ≤ _
              rw [List.length_cons]; omega
          have := this (l.map (·.2)) []
          simp only [List.length_nil, List.length_map] at this
          omega
        obtain ⟨t', e1, e2, e3, e4, e5⟩ := insertRange_fits hE l t1 hlive (by rw [hz, hth]; omega)
          (by rw [g2]; exact hr j hj hlen)
        rw [g2] at e3
        refine ⟨t', entries t', ?_, walk_spec e2.toGood, e3⟩
        rw [hmk, h1, Out.bind_ok]
        exact OLe.ok (insertRange_chk l t1) e1
      · exfalso
        have := h7
        rcases h2 with h2 | h2
        · cases h2
        · rcases h7 with h7 | h7
          · rw [h7] at h2; omega
          · omega

/-! ### C113: erasing a range of keys -/

/-- Removal of every key of a list. -/
def removeAll (eq : K → K → Bool) (m : Spec.Map K V) (ks : List K) : Spec.Map K V := m.filter fun e => !ks.any fun k => eq k e.1

theorem foldl_del (eq : K → K → Bool) (ks : List K) : ∀ m : Spec.Map K V,
    (delCalls ks).foldl (fun m c => next eq m c.2) m = removeAll eq m ks := by
  induction ks with
  | nil => intro m; unfold removeAll; exact (List.filter_eq_self.mpr fun e _ => rfl).symm
  | cons k ks ih =>
    intro m
    show (delCalls ks).foldl (fun m c => next eq m c.2) (Spec.erase eq m k) = _
    rw [ih]
    unfold removeAll Spec.erase
    rw [List.filter_filter]
    congr 1
    funext e
    rw [List.any_cons, Bool.not_or, Bool.and_comm]

theorem erase_length (hE : E.Lawful) {m : Spec.Map K V} (hd : Distinct E.eq m) (k : K) :
    (Spec.erase E.eq m k).length + (if (Spec.get E.eq m k).isSome then 1 else 0) = m.length := by
  induction m with
  | nil => rfl
  | cons e m ih =>
    obtain ⟨h1, h2⟩ := List.pairwise_cons.mp hd
    have ih := ih h2
    unfold Spec.erase Spec.get at ih ⊢
    rw [List.filter_cons, List.find?_cons]
    cases hk : E.eq k e.1 with
    | false =>
      simp only [Bool.not_false, if_true, List.length_cons]
      omega
    | true =>
      have hself : m.filter (fun e => !E.eq k e.1) = m := by
        rw [List.filter_eq_self]
        intro a ha
        cases hc : E.eq k a.1 with
        | false => rfl
        | true => have := h1 a ha; rw [hE.trans _ _ _ (hE.symm _ _ hk) hc] at this; cases this
      simp [hself]

theorem eraseKeys_spec (hE : E.Lawful) {rv : Nat → Nat} (hrv : ∀ x, 256 ≤ rv x ∧ rv x ≤ 1024) (ks : List K) :
    ∀ (n : Nat) (t : Map K V) (m : Spec.Map K V), Reach E t → (entries t).Perm m →
      (∀ i, i ≤ ks.length → Roomy E (removeAll E.eq m (ks.take i))) →
      ∃ t' as, eraseKeys false true E ks n t = .ok t' (n + (m.length - (removeAll E.eq m ks).length)) ∧
        run false true E rv (delCalls ks) t = .ok (as, t') ∧ as.getLast? ≠ some .threw := by
  induction ks with
  | nil =>
    intro n t m _ _ _
    have : (removeAll E.eq m []).length = m.length := by rw [← foldl_del]; rfl
    exact ⟨t, [], by rw [this, Nat.sub_self]; rfl, rfl, by simp⟩
  | cons k ks ih =>
    intro n t m hR hm hr
    have hstep : ∀ ks' : List K, removeAll E.eq m (k :: ks') = removeAll E.eq (Spec.erase E.eq m k) ks' := by
      intro ks'
      rw [← foldl_del, ← foldl_del]; rfl
    have h1 := exec_ok hE hR hm hrv true (c := Call.erase k) trivial
    simp only [exec] at h1
    cases hx : eraseKey false true E k t with
    | diverge => rw [hx] at h1; exact h1.elim
    | throw t' => rw [hx] at h1; have h1' : Call.allocates (Call.erase k : Call K V) = true := h1; cases h1'
    | ub =>
      rw [hx] at h1
      rcases h1 with h | h | ⟨_, ⟨q, h⟩ | ⟨d, h⟩⟩
      · exact (h (by have := hr 0 (by omega); rw [← foldl_del] at this; exact this)).elim
      · exact (h (by have := hr 1 (by simp); rw [← foldl_del] at this; exact this)).elim
      · cases h
      · cases h
    | ok t1 d =>
      rw [hx] at h1
      obtain ⟨g1, ⟨_, g2⟩, g3⟩ := h1
      have hd : Distinct E.eq m := Spec.Distinct.perm hE hm hR.distinct
      obtain ⟨t', as, e1, e2, e3⟩ := ih (n + d) t1 (Spec.erase E.eq m k) g1 g3 (fun i hi => by
        have := hr (i + 1) (by simpa using hi)
        rw [List.take_succ_cons, hstep] at this
        exact this)
      have hlen := erase_length hE hd k
      rw [← g2] at hlen
      have hle : (removeAll E.eq (Spec.erase E.eq m k) ks).length ≤ (Spec.erase E.eq m k).length := List.length_filter_le _ _
      refine ⟨t', .num d :: as, ?_, ?_, ?_⟩
      · unfold eraseKeys
        rw [hx, Out.bind_ok, e1, hstep]
        congr 1
        omega
      · show run false true E rv ((true, Call.erase k) :: delCalls ks) t = _
        rw [run_cons]
        simp only [exec]
        rw [hx]
        simp only [Out.bind_ok]
        rw [e2]; rfl
      · intro hl
        rw [List.getLast?_cons] at hl
        cases ha : as.getLast? with
        | none => rw [ha] at hl; cases hl
        | some y => rw [ha] at hl; exact e3 (by rw [ha]; exact hl)

/-- C113 (partial), erasure of a range of keys.  After every history, if the contents fit all the time: exactly the elements whose
key occurs in the range are removed, and the number of removed elements is returned.  Missing: contents that do not fit (C31). -/
theorem C113_erase_keys_partial (hE : E.Lawful) {rv : Nat → Nat} (hrv : ∀ x, 256 ≤ rv x ∧ rv x ≤ 1024) {cs : List (Bool × Call K V)}
    {t : Map K V} (ht : Reached E rv cs t) (ks : List K)
    (hr : ∀ i, i ≤ ks.length → Roomy E (removeAll E.eq (contents E.eq cs) (ks.take i))) :
    ∃ t' r, eraseKeys false false E ks 0 t = .ok t' (t.size - t'.size) ∧ Reached E rv (cs ++ delCalls ks) t' ∧ walk false t' = .ok r ∧
      r.Perm ((contents E.eq cs).filter fun e => !ks.any fun k => E.eq k e.1) := by
  obtain ⟨hR, hm⟩ := ht.reach hE hrv
  obtain ⟨t', as, h1, h2, h3⟩ := eraseKeys_spec hE hrv ks 0 t _ hR hm hr
  have hra := ht.append (valid_del ks) h2 h3
  obtain ⟨hR', hm'⟩ := hra.reach hE hrv
  have hp : (entries t').Perm (removeAll E.eq (contents E.eq cs) ks) := by
    have : contents E.eq (cs ++ delCalls ks) = removeAll E.eq (contents E.eq cs) ks := by
      unfold contents
      rw [List.foldl_append, foldl_del]
    rw [← this]; exact hm'
  refine ⟨t', entries t', ?_, hra, walk_reach hR', hp⟩
  rw [OLe.ok (eraseKeys_chk ks 0 t) h1, hR.size, hR'.size, hm.length_eq, hp.length_eq, Nat.zero_add]

/-! ### C114: equal_range -/

theorem Reach.live {t : Map K V} (hR : Reach E t) (hc : slotCap t ≠ 0) : ∃ c, Live E t c := by
  rcases hR.st with ⟨m, r, rfl⟩ | h
  · exact (hc rfl).elim
  · exact h

/-- C114 (partial), robin.  On a map with a non-zero `capacity()` whose contents fit, `equal_range(k)` is a valid range: it holds the
element with key `k` and nothing else, or it is empty if there is no such element.  Missing: maps without storage
(`C114_robin_no_storage`) and contents that do not fit (C31). -/
theorem C114_robin_equal_range_partial (hE : E.Lawful) {rv : Nat → Nat} (hrv : ∀ x, 256 ≤ rv x ∧ rv x ≤ 1024)
    {cs : List (Bool × Call K V)} {t : Map K V} (ht : Reached E rv cs t) (hc : slotCap t ≠ 0) (hr : Roomy E (contents E.eq cs)) (k : K) :
    readEqual false false E t k = .ok (Spec.get E.eq (contents E.eq cs) k).toList := by
  obtain ⟨hR, hm⟩ := ht.reach hE hrv
  obtain ⟨c, hl⟩ := hR.live hc
  have hg := hl.toGood
  obtain ⟨f1, f2⟩ := hg.find_real hE k
  have hcl := hg.toShape.clen_ge
  rw [← Spec.get_perm hE hm hR.distinct k]
  unfold readEqual equalRange findIter
  cases hs : Spec.get E.eq (entries t) k with
  | some e =>
    obtain ⟨i, h1, h2, h3⟩ := f1 e hs
    obtain ⟨j, e1, e2, _, _, _⟩ := nextIdx_spec hg (t.clen - (i + 1)) i h1 (by omega)
    rw [h2, Res.bind_ok]
    simp only [Res.bind_ok]
    rw [hg.toShape.maxCap, if_neg (by omega), e1]
    simp only [Res.bind_ok]
    obtain ⟨f, hf⟩ : ∃ f, t.clen = f + 1 := ⟨t.clen - 1, by omega⟩
    have hrr : readRange t (f + 1 + 1) i j = .ok [e] := by
      unfold readRange
      rw [if_neg (by omega), h3]
      simp only
      rw [e1, Res.bind_ok]
      unfold readRange
      rw [if_pos rfl]; rfl
    rw [show t.clen + 1 = f + 1 + 1 by omega]
    exact hrr
  | none =>
    obtain ⟨j, hj, _, rfl⟩ := hl.pow
    rw [f2 hs ((hr.perm hm.symm) j hj (by rw [← hl.size]; exact hl.size_le)), Res.bind_ok]
    simp only [hg.toShape.last, Res.bind_ok]
    rw [hg.toShape.maxCap, if_pos rfl]
    simp only [Res.bind_ok]
    unfold readRange
    rw [if_pos rfl]; rfl

/-- C114 is violated on every map without storage, for instance a default constructed one: the two iterators of `equal_range(k)`
are different, and reading the element between them reads a slot that does not exist. -/
theorem C114_robin_no_storage (m r : Nat) (k : K) :
    equalRange false false E (emptyMap false m r : Map K V) k = .ok (0, 4) ∧ readEqual false false E (emptyMap false m r : Map K V) k = .ub := by
  have h1 : findIdx false false E (emptyMap false m r : Map K V) k = .ok none := by
    rcases findIdx_chk (store := false) (E := E) (emptyMap false m r : Map K V) k with h | h
    · rw [findIdx_fresh ⟨m, r, rfl⟩] at h; cases h
    · rw [← h, findIdx_fresh ⟨m, r, rfl⟩]
  have h2 : equalRange false false E (emptyMap false m r : Map K V) k = .ok (0, 4) := by
    unfold equalRange findIter
    rw [h1]
    rfl
  refine ⟨h2, ?_⟩
  unfold readEqual
  rw [h2]
  rfl

/-! ### C115: going backwards -/

/-- The elements before index `i`. -/
def upto (t : Map K V) (i : Nat) : List (K × V) := (List.range i).filterMap t.slot

theorem upto_succ (t : Map K V) (i : Nat) : upto t (i + 1) = upto t i ++ (t.slot i).toList := by
  unfold upto
  rw [List.range_succ, List.filterMap_append]
  cases h : t.slot i <;> simp [h]

theorem Good.empty_iff {t : Map K V} {c : Nat} (h : Good E t c) {i : Nat} (hi : i < t.slen) :
    (t.ctrl i).isEmpty = true ↔ t.slot i = none := by
  rcases h.cell i hi with ⟨h1, h2⟩ | ⟨e, h1, h2, _, h4⟩
  · rw [h1, h2]; exact ⟨fun _ => rfl, fun _ => rfl⟩
  · rw [h1, h4]
    unfold Ctrl.isEmpty
    constructor
    · intro hc
      simp only [beq_iff_eq] at hc
      omega
    · intro hc; cases hc

/-- One step back from `i`, if there is an element before `i`. -/
theorem prevIdx_spec {t : Map K V} {c : Nat} (h : Good E t c) {b : Nat} (hb : (t.slot b).isSome = true) : ∀ i, b < i → i ≤ t.slen →
    ∃ e, b ≤ prevIdx t i ∧ prevIdx t i < i ∧ t.slot (prevIdx t i) = some e ∧ upto t i = upto t (prevIdx t i) ++ [e] ∧
      ∀ q, prevIdx t i < q → q < i → t.slot q = none := by
  intro i
  induction i with
  | zero => intro h0; omega
  | succ i ih =>
    intro h1 h2
    cases hs : t.slot i with
    | none =>
      have hne : i ≠ b := by rintro rfl; rw [hs] at hb; cases hb
      have hp : prevIdx t (i + 1) = prevIdx t i := by
        conv => lhs; unfold prevIdx
        rw [if_pos ((h.empty_iff (by omega)).mpr hs)]
      obtain ⟨e, e1, e2, e3, e4, e5⟩ := ih (by omega) (by omega)
      rw [hp]
      refine ⟨e, e1, by omega, e3, ?_, fun q hq1 hq2 => ?_⟩
      · rw [upto_succ, hs, e4]; simp
      · by_cases hq : q = i
        · rw [hq, hs]
        · exact e5 q hq1 (by omega)
    | some e =>
      have hp : prevIdx t (i + 1) = i := by
        unfold prevIdx
        rw [if_neg (fun hc => by rw [(h.empty_iff (by omega)).mp hc] at hs; cases hs)]
      rw [hp]
      exact ⟨e, by omega, by omega, hs, by rw [upto_succ, hs]; rfl, fun q hq1 hq2 => by omega⟩

theorem upto_nil {t : Map K V} : ∀ {b : Nat}, (∀ q, q < b → t.slot q = none) → upto t b = [] := by
  intro b
  induction b with
  | zero => intro _; rfl
  | succ b ih => intro h; rw [upto_succ, ih (fun q hq => h q (by omega)), h b (by omega)]; rfl

theorem walkBackLoop_spec {t : Map K V} {c : Nat} (h : Good E t c) {b : Nat} (hz : ∀ q, q < b → t.slot q = none)
    (hb : b < t.slen → (t.slot b).isSome = true) : ∀ (f i : Nat), b ≤ i → i ≤ t.slen → i - b < f →
    walkBackLoop t b f i = .ok (upto t i).reverse := by
  intro f
  induction f with
  | zero => intro i _ _ _; omega
  | succ f ih =>
    intro i h1 h2 h3
    unfold walkBackLoop
    by_cases hi : i = b
    · rw [if_pos hi, hi, upto_nil hz]; rfl
    · rw [if_neg hi]
      obtain ⟨e, e1, e2, e3, e4, _⟩ := prevIdx_spec h (hb (by omega)) i (by omega) h2
      rw [e3]
      simp only
      rw [ih _ e1 (by omega) (by omega), e4, Res.bind_ok, List.reverse_append]
      rfl

/-- `begin()` is the first element, or `end()` if there is none. -/
theorem beginIdx_spec {t : Map K V} {c : Nat} (h : Good E t c) : beginIdx false t ≤ t.slen ∧
    (∀ q, q < beginIdx false t → t.slot q = none) ∧ (beginIdx false t < t.slen → (t.slot (beginIdx false t)).isSome = true) := by
  have hclen := h.toShape.clen_ge
  have hw : width false = 32 := rfl
  have hN : t.slen ≤ groups false t * width false ∧ groups false t * width false ≤ t.clen := by
    have := h.toShape.clen
    have := h.toShape.slen
    unfold groups
    rw [h.toShape.maxCap, hw]
    constructor <;> omega
  have hun : ∀ i, i < t.slen → (t.ctrl i).isUsed = false → t.slot i = none := by
    intro i hs hu
    rcases h.cell i hs with ⟨h1, _⟩ | ⟨e, _, h2, _, h4⟩
    · exact h1
    · exfalso
      unfold Ctrl.isUsed at hu
      rw [h4] at hu
      have := of_decide_eq_false hu
      simp only at this
      omega
  unfold beginIdx
  cases hf : (List.range (groups false t * width false)).find? fun i => (t.ctrl i).isUsed with
  | none =>
    rw [List.find?_eq_none] at hf
    simp only [Option.getD_none]
    rw [h.toShape.maxCap]
    refine ⟨Nat.le_refl _, fun q hq => hun q hq ?_, fun hlt => by omega⟩
    have := hf q (List.mem_range.mpr (by omega))
    simpa using this
  | some b =>
    simp only [Option.getD_some]
    rw [List.find?_range_eq_some] at hf
    obtain ⟨h1, h2, h3⟩ := hf
    have hb := List.mem_range.mp h2
    have hd : 0 ≤ (t.ctrl b).dist := of_decide_eq_true h1
    have hlt := h.lt_slen (p := b) (by omega) hd
    obtain ⟨e, he, _⟩ := h.used hlt hd
    refine ⟨by omega, fun q hq => hun q (by omega) ?_, fun _ => by rw [he]; rfl⟩
    have := h3 q hq
    simpa using this

/-- C115, robin.  After every history the loop from `end()` back to `begin()` with `operator --` reads the elements in the
opposite order of the range-for loop. -/
theorem C115_robin_backward_partial (hE : E.Lawful) {rv : Nat → Nat} (hrv : ∀ x, 256 ≤ rv x ∧ rv x ≤ 1024)
    {cs : List (Bool × Call K V)} {t : Map K V} (ht : Reached E rv cs t) :
    ∃ r, walk false t = .ok r ∧ walkBack false t = .ok r.reverse ∧ r.Perm (contents E.eq cs) := by
  obtain ⟨hR, hm⟩ := ht.reach hE hrv
  refine ⟨entries t, walk_reach hR, ?_, hm⟩
  rcases hR.st with ⟨m, r, rfl⟩ | ⟨c, hl⟩
  · have hb : beginIdx false (emptyMap false m r : Map K V) = 4 := by
      unfold beginIdx
      have hl : (List.range (groups false (emptyMap false m r : Map K V) * width false)) = List.range 32 := by
        simp [groups, maxCap, slotCap, width, emptyMap, minLookups]
      rw [hl]
      rfl
    unfold walkBack
    rw [hb]
    rfl
  · have hg := hl.toGood
    obtain ⟨h1, h2, h3⟩ := beginIdx_spec hg
    have hcl := hg.toShape.clen_ge
    unfold walkBack
    rw [hg.toShape.maxCap]
    exact walkBackLoop_spec hg h2 h3 _ _ h1 (Nat.le_refl _) (by omega)

theorem nextIdx_gap {t : Map K V} : ∀ (f i j : Nat), nextIdx t f i = .ok j → i < j ∧ ∀ q, i < q → q < j → (t.ctrl q).isEmpty = true := by
  intro f
  induction f with
  | zero => intro i j h; cases h
  | succ f ih =>
    intro i j h
    unfold nextIdx at h
    split at h
    · rename_i hc
      obtain ⟨h1, h2⟩ := ih (i + 1) j h
      refine ⟨by omega, fun q hq1 hq2 => ?_⟩
      by_cases hq : q = i + 1
      · rw [hq]
        cases he : (t.ctrl (i + 1)).isEmpty with
        | true => rfl
        | false => rw [he] at hc; cases hc
      · exact h2 q (by omega) hq2
    · cases h
      exact ⟨by omega, fun q hq1 hq2 => by omega⟩

/-- C115, robin: from every element, `operator ++` followed by `operator --` is back at the element. -/
theorem C115_robin_next_prev_partial (hE : E.Lawful) {rv : Nat → Nat} (hrv : ∀ x, 256 ≤ rv x ∧ rv x ≤ 1024)
    {cs : List (Bool × Call K V)} {t : Map K V} (ht : Reached E rv cs t) {i : Nat} {e : K × V} (hi : i < maxCap t) (hs : t.slot i = some e) :
    ∃ j, nextIdx t (t.clen - (i + 1)) i = .ok j ∧ prevIdx t j = i := by
  obtain ⟨hR, hm⟩ := ht.reach hE hrv
  rcases hR.st with ⟨m, r, rfl⟩ | ⟨c, hl⟩
  · cases hs
  · have hg := hl.toGood
    rw [hg.toShape.maxCap] at hi
    have hcl := hg.toShape.clen_ge
    obtain ⟨j, e1, e2, e3, _, _⟩ := nextIdx_spec hg (t.clen - (i + 1)) i hi (by omega)
    refine ⟨j, e1, ?_⟩
    obtain ⟨e', p1, p2, p3, _, _⟩ := prevIdx_spec hg (b := i) (by rw [hs]; rfl) j e2 e3
    by_cases hp : prevIdx t j = i
    · exact hp
    · exfalso
      have := (nextIdx_gap _ _ _ e1).2 (prevIdx t j) (by omega) p2
      rw [(hg.empty_iff (by omega)).mp this] at p3
      cases p3

/-! ### Examples and the lost block -/

theorem reached_sat {E : Env Nat} {n : Nat} {cs : List (Call Nat Nat)} {p : Map Nat Nat → Bool} (hv : cs.all validB = true)
    (h : (stateOf E n cs).any p = true) : ∃ t, Reached E (fun _ => 512) (cs.map fun c => (true, c)) t ∧ p t = true := by
  cases ht : stateOf E n cs with
  | none => rw [ht] at h; cases h
  | some t => rw [ht] at h; exact ⟨t, reached_of ht hv, h⟩

/-- What a range operation leaves behind, as seen by a range-for loop. -/
def itemsAfter {α : Type} : Out (Map Nat Nat) α → Option (List (Nat × Nat))
  | .ok t _ => match walk false t with
    | .ok l => some l
    | _ => none
  | _ => none

/-- Did the call throw, and does the map (or what was to become one) own a block with this many elements? -/
def heldAtThrow {α : Type} : Out (Map Nat Nat) α → Option (Bool × Nat)
  | .throw t => some (t.alloc, t.size)
  | _ => none

/-- C113: keys are equal modulo 100.  The range has a key that is present, a new key and the new key once more. -/
example : ∃ t, Reached modEnv (fun _ => 512) ((ins 2).map fun c => (true, c)) t ∧
    (itemsAfter (insertRange false false modEnv [(true, 101, 5), (true, 3, 3), (true, 203, 9)] t) == some [(0, 0), (1, 1), (3, 3)]) = true :=
  reached_sat (n := 0) (by decide) (by decide +kernel)

example : ∀ i, i ≤ 3 → Roomy modEnv (insertAll modEnv.eq (contents modEnv.eq ((ins 2).map fun c => (true, c)))
    (([(true, 101, 5), (true, 3, 3), (true, 203, 9)].take i).map (·.2))) := fun i hi => roomy_five (by
  match i, hi with
  | 0, _ => decide
  | 1, _ => decide
  | 2, _ => decide
  | 3, _ => decide)

/-- C113, the other case: the allocation for the fifth element is refused. -/
example : ∃ t, Reached modEnv (fun _ => 512) ((ins 2).map fun c => (true, c)) t ∧
    (heldAtThrow (insertRange false false modEnv [(true, 3, 3), (true, 4, 4), (false, 5, 5), (true, 6, 6)] t) == some (true, 4)) = true :=
  reached_sat (n := 0) (by decide) (by decide +kernel)

/-- C113, construction from a range. -/
example : (itemsAfter (fromRange false false modEnv true 0 [(true, 7, 1), (true, 107, 2), (true, 5, 3)]) == some [(5, 3), (7, 1)]) = true := by
  decide +kernel

example : ∀ i, i ≤ 3 → Roomy modEnv (insertAll modEnv.eq [] (([(true, 7, 1), (true, 107, 2), (true, 5, 3)].take i).map (·.2))) :=
  fun i hi => roomy_five (by
  match i, hi with
  | 0, _ => decide
  | 1, _ => decide
  | 2, _ => decide
  | 3, _ => decide)

/-- C113, erasing keys: one of them twice, one absent. -/
example : ∃ t, Reached modEnv (fun _ => 512) ((ins 4).map fun c => (true, c)) t ∧
    (itemsAfter (eraseKeys false false modEnv [2, 102, 50, 0] 0 t) == some [(1, 1), (3, 3)]) = true :=
  reached_sat (n := 0) (by decide) (by decide +kernel)

example : ∀ i, i ≤ 4 → Roomy modEnv (removeAll modEnv.eq (contents modEnv.eq ((ins 4).map fun c => (true, c))) ([2, 102, 50, 0].take i)) :=
  fun i _ => roomy_five (Nat.le_trans (List.length_filter_le _ _) (by decide))

/-- C114 and C115: four elements, two of them in the same cluster. -/
example : ∃ t, Reached modEnv (fun _ => 512) ((ins 4).map fun c => (true, c)) t ∧
    (decide (slotCap t ≠ 0) && (match readEqual false false modEnv t 102, readEqual false false modEnv t 60 with
      | .ok a, .ok b => a == [(2, 2)] && b == []
      | _, _ => false) && (match walkBack false t with
      | .ok a => a == [(3, 3), (2, 2), (1, 1), (0, 0)]
      | _ => false)) = true :=
  reached_sat (n := 0) (by decide) (by decide +kernel)

/-- C113: twelve elements, and the allocator would refuse every allocation but the first one. -/
example : ((itemsAfter (fromRange false false idEnv true 0 ((List.range 12).map fun k => (false, k, k)))).map List.length == some 12) = true := by
  decide +kernel

example : Roomy modEnv (insertAll modEnv.eq [] ([(false, 7, 1), (false, 107, 2), (false, 5, 3)].map (·.2))) := roomy_five (by decide)

end Verif.Robin
