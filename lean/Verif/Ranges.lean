/-
Walking an array backwards, exchanging values and ranges (C147).

IT = src/jstd/iterator.h, SW = src/jstd/memory/swap.h

An array is a list, a pointer into it an index from 0 to its length; reading or writing at another place is undefined, so is computing a pointer before the array or
behind its end.
-/
import Verif.Table

namespace Verif.Ranges

section Model
variable {V : Type}

/-- `*p` for a pointer into an array. -/
def load (m : List V) (p : Nat) : Res V :=
  match m[p]? with
  | some v => .ok v
  | none => .ub

/-- `p + d` for a pointer into an array of `n` elements. -/
def shift (n p : Nat) (d : Int) : Res Nat :=
  if 0 ≤ (p : Int) + d ∧ (p : Int) + d ≤ n then .ok ((p : Int) + d).toNat else .ub

/-- `rbegin(array)`, `rend(array)` (IT:566-571, 574-579): the wrapped pointer. -/
def rbegin (m : List V) : Nat := m.length

def rend (_m : List V) : Nat := 0

/-- `*it` of a `reverse_iterator` (IT:315-318). -/
def rload (m : List V) (it : Nat) : Res V := (shift m.length it (-1)).bind fun tmp => load m tmp

/-- `it + d`, `it += d` (IT:352-360; `++it` is `it += 1`, IT:326-336, `--it` is `it += -1`, IT:339-349, `it - d` is `it + -d`, IT:363-371). -/
def radd (m : List V) (it : Nat) (d : Int) : Res Nat := shift m.length it (-d)

/-- `it[d]` (IT:374-376). -/
def rindex (m : List V) (it : Nat) (d : Int) : Res V := (radd m it d).bind fun q => rload m q

/-- `left - right` (IT:393-401). -/
def rdiff (left right : Nat) : Int := (right : Int) - left

/-- `left < right` (IT:421-428); the other comparisons are derived from it and from `==` (IT:403-419, 430-455). -/
def rlt (left right : Nat) : Bool := decide (right < left)

def rgt (left right : Nat) : Bool := rlt right left
def rle (left right : Nat) : Bool := !rlt right left
def rge (left right : Nat) : Bool := !rlt left right
def req (left right : Nat) : Bool := left == right

/-- `for (it = …; it != rend(a); ++it) out.push_back(*it)` with a bound on the number of rounds. -/
def rwalk (m : List V) : Nat → Nat → Res (List V)
  | 0, _ => .diverge
  | f + 1, it =>
    if req it (rend m) then .ok []
    else (rload m it).bind fun v => (radd m it 1).bind fun it' => (rwalk m f it').bind fun l => .ok (v :: l)

/-- `swap(a, b)` of two variables (SW:49-56), which may be the same; `gone` is what a moved-from variable contains, `self` what a self-assignment by move leaves. -/
def swap (gone : V → V) (self : V → V) (st : Nat → V) (a b : Nat) : Nat → V :=
  let tmp := st a
  let s1 := upd st a (gone (st a))
  let s2 := if a = b then upd s1 a (self (s1 a)) else upd (upd s1 a (s1 b)) b (gone (s1 b))
  upd s2 b tmp

/-- How a function ends. -/
inductive End (α : Type) where
  | ret (a : α)
  | abort

/-- The loop of `swap_ranges` (SW:74-76). -/
def exchange (m : List V) : Nat → Nat → Nat → Res (List V)
  | _, _, 0 => .ok m
  | p, q, n + 1 =>
    (load m p).bind fun x => (load m q).bind fun y => exchange ((m.set p y).set q x) (p + 1) (q + 1) n

/-- `swap_ranges(first1, last1, first2)` within one array (SW:70-79): the assertion computes the distance from `first1`, which has arrived at `last1`. -/
def swapRanges (asserts : Bool) (m : List V) (first1 last1 first2 : Nat) : Res (End (List V × Nat)) :=
  (exchange m first1 first2 (last1 - first1)).bind fun m' =>
    let first1' := first1 + (last1 - first1)
    let first2' := first2 + (last1 - first1)
    if asserts ∧ first2' ≠ first2 + (last1 - first1') then .ok .abort else .ok (.ret (m', first2'))

/-- `swap(a, b)` of two arrays of the same length (SW:81-85), one behind the other in memory. -/
def swapArrays (asserts : Bool) (a b : List V) : Res (End (List V × List V)) :=
  (swapRanges asserts (a ++ b) 0 a.length a.length).bind fun
    | .abort => .ok .abort
    | .ret (m, _) => .ok (.ret (m.take a.length, m.drop a.length))

end Model

/-! ### Lemmas -/

section Lemmas
variable {V : Type}

theorem shift_ok {n p : Nat} {d : Int} {q : Nat} (h : (p : Int) + d = q) (hq : q ≤ n) : shift n p d = .ok q := by
  unfold shift
  rw [if_pos (by omega), h]
  rfl

theorem shift_ub {n p : Nat} {d : Int} (h : ¬ (0 ≤ (p : Int) + d ∧ (p : Int) + d ≤ n)) : shift n p d = .ub := by
  unfold shift
  rw [if_neg h]

theorem rload_eq (m : List V) {i : Nat} (hi : i ≤ m.length) : rload m (m.length - i) = load m.reverse i := by
  by_cases h : i < m.length
  · unfold rload
    rw [shift_ok (q := m.length - 1 - i) (by omega) (by omega)]
    show load m _ = _
    unfold load
    rw [List.getElem?_reverse h]
  · have : i = m.length := by omega
    subst this
    unfold rload
    rw [shift_ub (by omega)]
    unfold load
    rw [List.getElem?_eq_none (by simp)]
    rfl

theorem radd_eq (m : List V) {i : Nat} (hi : i ≤ m.length) (d : Int) :
    radd m (m.length - i) d = (shift m.length i d).bind fun j => .ok (m.length - j) := by
  unfold radd
  by_cases h : 0 ≤ (i : Int) + d ∧ (i : Int) + d ≤ m.length
  · obtain ⟨j, hj⟩ := Int.eq_ofNat_of_zero_le h.1
    rw [shift_ok (q := m.length - j) (by omega) (by omega), shift_ok (q := j) hj (by omega)]
    rfl
  · rw [shift_ub (by omega), shift_ub h]
    rfl

theorem rwalk_eq (m : List V) : ∀ (f i : Nat), i ≤ m.length → m.length - i < f → rwalk m f (m.length - i) = .ok (m.reverse.drop i)
  | 0, i, _, h => by omega
  | f + 1, i, hi, hf => by
    unfold rwalk
    by_cases h : i = m.length
    · subst h
      rw [if_pos (by simp [req, rend])]
      simp
    · have hlt : i < m.length := by omega
      have hlt' : i < m.reverse.length := by simpa using hlt
      rw [if_neg (by simp [req, rend]; omega), rload_eq m hi, radd_eq m hi, shift_ok (q := i + 1) (by omega) (by omega)]
      have hl : load m.reverse i = .ok m.reverse[i] := by
        unfold load
        rw [List.getElem?_eq_getElem hlt']
      rw [hl]
      simp only [Res.bind_ok]
      rw [rwalk_eq m f (i + 1) (by omega) (by omega)]
      simp only [Res.bind_ok]
      rw [List.drop_eq_getElem_cons hlt']

theorem exchange_spec : ∀ (n : Nat) (m : List V) (p q : Nat), p + n ≤ q ∨ q + n ≤ p → p + n ≤ m.length → q + n ≤ m.length →
    ∃ m', exchange m p q n = .ok m' ∧ m'.length = m.length ∧
      (∀ k, k < n → m'[p + k]? = m[q + k]? ∧ m'[q + k]? = m[p + k]?) ∧
      (∀ i, ¬ (p ≤ i ∧ i < p + n) → ¬ (q ≤ i ∧ i < q + n) → m'[i]? = m[i]?)
  | 0, m, p, q, _, _, _ => ⟨m, rfl, rfl, fun k hk => by omega, fun i _ _ => rfl⟩
  | n + 1, m, p, q, hd, hp, hq => by
    have h1 : p < m.length := by omega
    have h2 : q < m.length := by omega
    have e1 : load m p = .ok m[p] := by unfold load; rw [List.getElem?_eq_getElem h1]
    have e2 : load m q = .ok m[q] := by unfold load; rw [List.getElem?_eq_getElem h2]
    unfold exchange
    rw [e1, e2]
    simp only [Res.bind_ok]
    obtain ⟨m', g1, g2, g3, g4⟩ := exchange_spec n ((m.set p m[q]).set q m[p]) (p + 1) (q + 1) (by omega) (by simp; omega) (by simp; omega)
    have hne : p ≠ q := by omega
    have sp : ((m.set p m[q]).set q m[p])[p]? = m[q]? := by
      rw [List.getElem?_set_ne (Ne.symm hne), List.getElem?_set_self h1, List.getElem?_eq_getElem h2]
    have sq : ((m.set p m[q]).set q m[p])[q]? = m[p]? := by
      rw [List.getElem?_set_self (by simpa using h2), List.getElem?_eq_getElem h1]
    have so : ∀ i, i ≠ p → i ≠ q → ((m.set p m[q]).set q m[p])[i]? = m[i]? := by
      intro i hi hj
      rw [List.getElem?_set_ne (Ne.symm hj), List.getElem?_set_ne (Ne.symm hi)]
    refine ⟨m', g1, by rw [g2]; simp, ?_, ?_⟩
    · intro k hk
      cases k with
      | zero =>
        constructor
        · rw [Nat.add_zero, Nat.add_zero, g4 p (by omega) (by omega), sp]
        · rw [Nat.add_zero, Nat.add_zero, g4 q (by omega) (by omega), sq]
      | succ k =>
        obtain ⟨g5, g6⟩ := g3 k (by omega)
        rw [show p + (k + 1) = p + 1 + k by omega, show q + (k + 1) = q + 1 + k by omega]
        exact ⟨by rw [g5, so _ (by omega) (by omega)], by rw [g6, so _ (by omega) (by omega)]⟩
    · intro i hi hj
      rw [g4 i (by omega) (by omega), so i (by omega) (by omega)]

end Lemmas

/-! ### C147 -/

section Claims
variable {V : Type}

/-- C147, reverse iterators: `rbegin(a) + i` is defined for `i` up to the length of the array, and these iterators behave like pointers into the reversed array: reading,
moving by any distance, indexing, differences and comparisons. -/
theorem C147_reverse_iterators (m : List V) {i j : Nat} (hi : i ≤ m.length) (hj : j ≤ m.length) :
    ∃ p q, radd m (rbegin m) i = .ok p ∧ radd m (rbegin m) j = .ok q ∧
      rload m p = load m.reverse i ∧
      (∀ d, radd m p d = (shift m.reverse.length i d).bind fun k => radd m (rbegin m) k) ∧
      (∀ d, rindex m p d = (shift m.reverse.length i d).bind fun k => load m.reverse k) ∧
      rdiff p q = (i : Int) - j ∧ rlt p q = decide (i < j) ∧ rgt p q = decide (j < i) ∧ rle p q = decide (i ≤ j) ∧ rge p q = decide (j ≤ i) ∧
      req p q = decide (i = j) ∧ (p = rend m ↔ i = m.length) := by
  have hb : ∀ k : Nat, k ≤ m.length → radd m (rbegin m) k = .ok (m.length - k) := by
    intro k hk
    have := radd_eq m (Nat.zero_le _) k
    rw [Nat.sub_zero, shift_ok (q := k) (by omega) hk] at this
    exact this
  have hadd : ∀ d, radd m (m.length - i) d = (shift m.reverse.length i d).bind fun k => radd m (rbegin m) k := by
    intro d
    rw [radd_eq m hi d, List.length_reverse]
    by_cases h : 0 ≤ (i : Int) + d ∧ (i : Int) + d ≤ m.length
    · obtain ⟨k, hk⟩ := Int.eq_ofNat_of_zero_le h.1
      rw [shift_ok (q := k) hk (by omega)]
      simp only [Res.bind_ok]
      rw [hb k (by omega)]
    · rw [shift_ub h]; rfl
  refine ⟨m.length - i, m.length - j, hb i hi, hb j hj, rload_eq m hi, hadd, ?_, ?_, ?_, ?_, ?_, ?_, ?_, ?_⟩
  · intro d
    unfold rindex
    rw [radd_eq m hi d, List.length_reverse]
    by_cases h : 0 ≤ (i : Int) + d ∧ (i : Int) + d ≤ m.length
    · obtain ⟨k, hk⟩ := Int.eq_ofNat_of_zero_le h.1
      rw [shift_ok (q := k) hk (by omega)]
      simp only [Res.bind_ok]
      rw [rload_eq m (by omega)]
    · rw [shift_ub h]; rfl
  · unfold rdiff; omega
  · unfold rlt; simp only [decide_eq_decide]; omega
  · unfold rgt rlt; simp only [decide_eq_decide]; omega
  · unfold rle rlt; rw [← decide_not, decide_eq_decide]; omega
  · unfold rge rlt; rw [← decide_not, decide_eq_decide]; omega
  · unfold req; rw [beq_eq_decide, decide_eq_decide]; omega
  · unfold rend; omega

/-- C147, a loop from `rbegin` to `rend` visits the elements of the array in reverse order. -/
theorem C147_reverse_loop (m : List V) {f : Nat} (hf : m.length < f) : rwalk m f (rbegin m) = .ok m.reverse := by
  have := rwalk_eq m f 0 (Nat.zero_le _) (by omega)
  rw [Nat.sub_zero, List.drop_zero] at this
  exact this

/-- C147, `swap` exchanges two variables and changes no other one, whatever moved-from variables contain; a swap of a variable with itself changes nothing. -/
theorem C147_swap (gone self : V → V) (st : Nat → V) (a b : Nat) :
    swap gone self st a b a = st b ∧ swap gone self st a b b = st a ∧ ∀ c, c ≠ a → c ≠ b → swap gone self st a b c = st c := by
  unfold swap
  by_cases h : a = b
  · subst h
    refine ⟨upd_self _ _ _, upd_self _ _ _, fun c h1 _ => ?_⟩
    simp only [if_pos]
    rw [upd_other _ _ h1, upd_other _ _ h1, upd_other _ _ h1]
  · simp only [if_neg h]
    have h' : b ≠ a := fun e => h e.symm
    refine ⟨?_, upd_self _ _ _, fun c h1 h2 => ?_⟩
    · rw [upd_other _ _ h, upd_other _ _ h, upd_self, upd_other _ _ h']
    · rw [upd_other _ _ h2, upd_other _ _ h2, upd_other _ _ h1, upd_other _ _ h1]

/-- C147 (partial), without assertions `swap_ranges` exchanges two ranges that do not overlap, changes nothing else and returns the end of the second one.
Missing: with assertions, see `C147_swap_ranges_aborts`. -/
theorem C147_swap_ranges_partial (m : List V) {first1 last1 first2 : Nat} (h1 : first1 ≤ last1) (h2 : last1 ≤ m.length)
    (h3 : first2 + (last1 - first1) ≤ m.length) (hd : last1 ≤ first2 ∨ first2 + (last1 - first1) ≤ first1) :
    ∃ m', swapRanges false m first1 last1 first2 = .ok (.ret (m', first2 + (last1 - first1))) ∧ m'.length = m.length ∧
      (∀ k, k < last1 - first1 → m'[first1 + k]? = m[first2 + k]? ∧ m'[first2 + k]? = m[first1 + k]?) ∧
      (∀ i, ¬ (first1 ≤ i ∧ i < last1) → ¬ (first2 ≤ i ∧ i < first2 + (last1 - first1)) → m'[i]? = m[i]?) := by
  obtain ⟨m', g1, g2, g3, g4⟩ := exchange_spec (last1 - first1) m first1 first2 (by omega) (by omega) h3
  refine ⟨m', ?_, g2, g3, fun i hi hj => g4 i (by omega) hj⟩
  unfold swapRanges
  rw [g1]
  simp

/-- C147, violated: with assertions `swap_ranges` aborts for all ranges but the empty one. -/
theorem C147_swap_ranges_aborts (m : List V) {first1 last1 first2 : Nat} (h1 : first1 < last1) (h2 : last1 ≤ m.length)
    (h3 : first2 + (last1 - first1) ≤ m.length) (hd : last1 ≤ first2 ∨ first2 + (last1 - first1) ≤ first1) :
    swapRanges true m first1 last1 first2 = .ok .abort := by
  obtain ⟨m', g1, _⟩ := exchange_spec (last1 - first1) m first1 first2 (by omega) (by omega) h3
  unfold swapRanges
  rw [g1]
  simp only [Res.bind_ok]
  rw [if_pos ⟨trivial, by omega⟩]

/-- C147, `swap` of two arrays: exchanges them without assertions, aborts with assertions unless they are empty. -/
theorem C147_swap_arrays {a b : List V} (h : a.length = b.length) :
    swapArrays false a b = .ok (.ret (b, a)) ∧ (a ≠ [] → swapArrays true a b = .ok .abort) := by
  have hl : (a ++ b).length = a.length + b.length := List.length_append
  constructor
  · obtain ⟨m', g1, g2, g3, _⟩ := C147_swap_ranges_partial (a ++ b) (first1 := 0) (last1 := a.length) (first2 := a.length) (Nat.zero_le _) (by omega) (by omega)
      (Or.inl (Nat.le_refl _))
    unfold swapArrays
    rw [g1]
    simp only [Res.bind_ok]
    have hm : m' = b ++ a := by
      apply List.ext_getElem?
      intro i
      by_cases hi : i < a.length
      · have := (g3 i (by omega)).1
        rw [Nat.zero_add] at this
        rw [this, List.getElem?_append_right (by omega), List.getElem?_append_left (by omega)]
        congr 1
        omega
      · by_cases hj : i < a.length + b.length
        · have := (g3 (i - a.length) (by omega)).2
          rw [Nat.zero_add, show a.length + (i - a.length) = i by omega] at this
          rw [this, List.getElem?_append_left (by omega), List.getElem?_append_right (by omega), h]
        · rw [List.getElem?_eq_none (by omega), List.getElem?_eq_none (by rw [List.length_append]; omega)]
    rw [hm, h, List.take_left, List.drop_left]
  · intro hne
    have hpos : 0 < a.length := List.length_pos_iff.mpr hne
    unfold swapArrays
    rw [C147_swap_ranges_aborts (a ++ b) hpos (by omega) (by omega) (Or.inl (Nat.le_refl _))]
    rfl

end Claims

/-! ### Examples -/

example : rwalk [1, 2, 3] 4 (rbegin [1, 2, 3]) = .ok [3, 2, 1] := C147_reverse_loop [1, 2, 3] (by decide)

/-- Ranges that do not overlap, with the second one in front. -/
example : ∃ m : List Nat, 2 < 4 ∧ 4 ≤ m.length ∧ 0 + (4 - 2) ≤ m.length ∧ (4 ≤ 0 ∨ 0 + (4 - 2) ≤ 2) := ⟨[1, 2, 3, 4], by decide⟩

example : swapArrays false [1, 2] [3, 4] = .ok (.ret ([3, 4], [1, 2])) ∧ swapArrays true [1, 2] [3, 4] = .ok .abort :=
  ⟨(C147_swap_arrays (a := [1, 2]) (b := [3, 4]) rfl).1, (C147_swap_arrays (a := [1, 2]) (b := [3, 4]) rfl).2 (by decide)⟩

end Verif.Ranges
