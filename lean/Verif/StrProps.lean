/-
Properties of `jstd::string_view` (Verif/StrView.lean): equality, ordering, substrings, copying, and consistency with the hash.
SV = string/string_view.h, SU = string/string_utils.h.
-/
import Verif.StrView
import Verif.HashProps

namespace Verif.Str
open Verif.HashFn

/-- A view of the string `s`; `pad` are the readable bytes behind it. -/
def View.of (s pad : List Byte) : View := ⟨some (s ++ pad), s.length⟩

/-- The three-way result that `std::string_view::compare` specifies: lexicographic order of unsigned bytes. -/
def lexSign (a b : List Byte) : Int := if a < b then -1 else if b < a then 1 else 0

/-! ### Lexicographic order -/

theorem lexSign_cons (x y : Byte) (a b : List Byte) :
    lexSign (x :: a) (y :: b) = if x > y then 1 else if x < y then -1 else lexSign a b := by
  unfold lexSign
  simp only [List.cons_lt_cons_iff]
  rcases Nat.lt_trichotomy x.val y.val with h | h | h
  · have h0 : x < y := h
    have h1 : ¬ x > y := Nat.lt_asymm h
    simp [h0, h1]
  · have h : x = y := Fin.ext h
    subst h
    simp
  · have h0 : y < x := h
    have h1 : ¬ x < y := Nat.lt_asymm h
    have h2 : ¬ x = y := fun e => by subst e; exact Nat.lt_irrefl _ h
    simp [h0, h1, h2]

theorem lexSign_nil_nil : lexSign [] [] = 0 := rfl
theorem lexSign_nil_cons (y : Byte) (b : List Byte) : lexSign [] (y :: b) = -1 := by
  unfold lexSign; rw [if_pos (List.nil_lt_cons y b)]
theorem lexSign_cons_nil (x : Byte) (a : List Byte) : lexSign (x :: a) [] = 1 := by
  unfold lexSign; rw [if_neg (List.not_lt_nil _), if_pos (List.nil_lt_cons x a)]

theorem lexSign_self (a : List Byte) : lexSign a a = 0 := by
  induction a with
  | nil => rfl
  | cons x a ih => rw [lexSign_cons, ih]; simp

theorem lexSign_eq_zero {a b : List Byte} : lexSign a b = 0 ↔ a = b := by
  constructor
  · intro h
    induction a generalizing b with
    | nil =>
      cases b with
      | nil => rfl
      | cons y b => rw [lexSign_nil_cons] at h; cases h
    | cons x a ih =>
      cases b with
      | nil => rw [lexSign_cons_nil] at h; cases h
      | cons y b =>
        rw [lexSign_cons] at h
        by_cases h1 : x > y
        · simp [h1] at h
        · by_cases h2 : x < y
          · simp [h1, h2] at h
          · rw [if_neg h1, if_neg h2] at h
            rw [ih h, show x = y from Fin.ext (Nat.le_antisymm (Nat.not_lt.mp h1) (Nat.not_lt.mp h2))]
  · rintro rfl; exact lexSign_self a

theorem lexSign_cases (a b : List Byte) : lexSign a b = -1 ∨ lexSign a b = 1 ∨ lexSign a b = 0 := by
  unfold lexSign
  split
  · exact .inl rfl
  · split
    · exact .inr (.inl rfl)
    · exact .inr (.inr rfl)

theorem lexSign_append (p a b : List Byte) : lexSign (p ++ a) (p ++ b) = lexSign a b := by
  induction p with
  | nil => rfl
  | cons x p ih => rw [List.cons_append, List.cons_append, lexSign_cons, ih]; simp

/-- Comparing the common length first and the sizes afterwards gives the lexicographic order. -/
theorem lexSign_take (a b : List Byte) :
    lexSign a b = if lexSign (a.take (min a.length b.length)) (b.take (min a.length b.length)) ≠ 0 then
        lexSign (a.take (min a.length b.length)) (b.take (min a.length b.length))
      else if a.length > b.length then 1 else if a.length < b.length then -1 else 0 := by
  induction a generalizing b with
  | nil =>
    cases b with
    | nil => simp [lexSign_nil_nil]
    | cons y b => simp [lexSign_nil_cons, lexSign_nil_nil]
  | cons x a ih =>
    cases b with
    | nil => simp [lexSign_cons_nil, lexSign_nil_nil]
    | cons y b =>
      have e : min (x :: a).length (y :: b).length = min a.length b.length + 1 := by simp
      rw [e, List.take_succ_cons, List.take_succ_cons, lexSign_cons, lexSign_cons]
      by_cases h1 : x > y
      · simp [h1]
      · by_cases h2 : x < y
        · simp [h1, h2]
        · rw [if_neg h1, if_neg h2, if_neg h1, if_neg h2, ih b]
          simp

/-! ### The SSE4.2 loops on `char` -/

theorem take_one_ne {x y : List Byte} {i : Nat} (hx : i < x.length) (hy : i < y.length) :
    (x.drop (i * 1)).take 1 ≠ (y.drop (i * 1)).take 1 ↔ x[i] ≠ y[i] := by
  rw [Nat.mul_one, List.drop_eq_getElem_cons hx, List.drop_eq_getElem_cons hy, List.take_succ_cons, List.take_succ_cons,
    List.take_zero, List.take_zero]
  constructor
  · intro h e; exact h (by rw [e])
  · intro h e; exact h (List.cons.inj e).1

theorem mismatch_none {x y : List Byte} {len : Nat} (hx : len ≤ x.length) (hy : len ≤ y.length)
    (h : mismatch 1 x y len = none) : x.take len = y.take len := by
  unfold mismatch at h
  rw [List.find?_eq_none] at h
  apply List.ext_getElem
  · simp; omega
  · intro i h1 h2
    have hi : i < len := by simp at h1; omega
    have := h i (by simpa using hi)
    simp only [decide_eq_true_eq] at this
    rw [take_one_ne (by omega) (by omega)] at this
    simp only [List.getElem_take]
    exact Decidable.not_not.mp this

theorem mismatch_some {x y : List Byte} {len i : Nat} (hx : len ≤ x.length) (hy : len ≤ y.length)
    (h : mismatch 1 x y len = some i) :
    ∃ (_ : i < len) (hx' : i < x.length) (hy' : i < y.length), x[i] ≠ y[i] ∧ x.take i = y.take i := by
  unfold mismatch at h
  have hm := List.mem_of_find?_eq_some h
  have hi : i < len := by simpa using hm
  refine ⟨hi, by omega, by omega, ?_, ?_⟩
  · have := List.find?_some h
    simp only [decide_eq_true_eq] at this
    exact (take_one_ne (by omega) (by omega)).mp this
  · apply List.ext_getElem
    · simp; omega
    · intro j h1 h2
      have hj : j < i := by simp at h1; omega
      rw [List.find?_range_eq_some] at h
      have := h.2.2 j hj
      simp only [Bool.not_eq_true', decide_eq_false_iff_not] at this
      rw [take_one_ne (by omega) (by omega)] at this
      simp only [List.getElem_take]
      exact Decidable.not_not.mp this

theorem mismatch_eq_none {x y : List Byte} {len : Nat} (hx : len ≤ x.length) (hy : len ≤ y.length)
    (h : x.take len = y.take len) : mismatch 1 x y len = none := by
  unfold mismatch
  rw [List.find?_eq_none]
  intro i hi
  have hi : i < len := by simpa using hi
  simp only [decide_eq_true_eq]
  rw [take_one_ne (by omega) (by omega)]
  have e : (x.take len)[i]'(by simp; omega) = (y.take len)[i]'(by simp; omega) := by
    simp only [h]
  simpa using e

theorem load_one {m : List Byte} {o : Nat} (h : o < m.length) : load m o 1 = .ok m[o].val := by
  rw [load_ok (by omega), List.drop_eq_getElem_cons h, List.take_succ_cons, List.take_zero]
  rfl

theorem sseCompare_spec (m1 m2 : List Byte) : ∀ f o n, n < f →
    (n = 0 ∨ o + (n + 15) / 16 * 16 ≤ m1.length ∧ o + (n + 15) / 16 * 16 ≤ m2.length) →
    sseCompare 1 1 m1 m2 f o n = .ok (lexSign ((m1.drop o).take n) ((m2.drop o).take n)) := by
  intro f
  induction f with
  | zero => intro o n h; omega
  | succ f ih =>
    intro o n hf h
    unfold sseCompare
    by_cases hn : 0 < n
    · rw [if_pos hn]
      have h : o + (n + 15) / 16 * 16 ≤ m1.length ∧ o + (n + 15) / 16 * 16 ≤ m2.length := h.resolve_left (by omega)
      rw [loadB, if_pos (by omega), loadB, if_pos (by omega), Res.bind_ok, Res.bind_ok]
      have l1 : ((m1.drop o).take 16).length = 16 := by simp; omega
      have l2 : ((m2.drop o).take 16).length = 16 := by simp; omega
      have hmin : min n (16 / 1) ≤ 16 := by omega
      cases hm : mismatch 1 ((m1.drop o).take 16) ((m2.drop o).take 16) (min n (16 / 1)) with
      | none =>
        have ht := mismatch_none (by omega) (by omega) hm
        rw [List.take_take, List.take_take, Nat.min_eq_left hmin] at ht
        simp only
        rw [ih _ _ (by omega) (by omega)]
        congr 1
        by_cases hle : n ≤ 16
        · rw [Nat.min_eq_left (by omega)] at ht
          rw [show n - 16 / 1 = 0 by omega, ht, lexSign_self, List.take_zero, List.take_zero, lexSign_nil_nil]
        · rw [Nat.min_eq_right (by omega)] at ht
          have e1 : (m1.drop o).take n = (m1.drop o).take 16 ++ (m1.drop (o + 16)).take (n - 16) := by
            rw [← List.drop_drop, ← List.take_add]; congr 1; omega
          have e2 : (m2.drop o).take n = (m2.drop o).take 16 ++ (m2.drop (o + 16)).take (n - 16) := by
            rw [← List.drop_drop, ← List.take_add]; congr 1; omega
          rw [e1, e2, show (m1.drop o).take 16 = (m2.drop o).take 16 from ht, lexSign_append]
      | some i =>
        obtain ⟨hi, hx, hy, hne, hpre⟩ := mismatch_some (by omega) (by omega) hm
        simp only [Nat.mul_one]
        have b1 : o + i < m1.length := by omega
        have b2 : o + i < m2.length := by omega
        rw [load_one b1, load_one b2, Res.bind_ok, Res.bind_ok]
        simp only [List.getElem_take, List.getElem_drop] at hne
        rw [List.take_take, List.take_take, Nat.min_eq_left (by omega)] at hpre
        have key : ∀ m : List Byte, (hb : o + i < m.length) → (m.drop o).take n =
            (m.drop o).take i ++ m[o + i] :: (m.drop (o + i + 1)).take (n - (i + 1)) := by
          intro m hb
          have e : n = i + (1 + (n - (i + 1))) := by omega
          conv_lhs => rw [e, List.take_add, List.drop_drop, List.drop_eq_getElem_cons hb, Nat.add_comm 1,
            List.take_succ_cons]
        rw [key m1 b1, key m2 b2, hpre, lexSign_append, lexSign_cons]
        by_cases hgt : m1[o + i] > m2[o + i]
        · have : m1[o + i].val > m2[o + i].val := hgt
          rw [if_pos this, if_pos hgt]
        · have h1 : ¬ m1[o + i].val > m2[o + i].val := hgt
          have h2 : m1[o + i] < m2[o + i] := by
            have : m1[o + i].val ≠ m2[o + i].val := fun hh => hne (Fin.ext hh)
            show m1[o + i].val < m2[o + i].val
            omega
          rw [if_neg h1, if_neg hgt, if_pos h2]
    · rw [if_neg hn, show n = 0 by omega, List.take_zero, List.take_zero, lexSign_nil_nil]

theorem sseEqual_eq_compare (m1 m2 : List Byte) : ∀ f o n,
    sseEqual 1 1 m1 m2 f o n = (sseCompare 1 1 m1 m2 f o n).bind fun r => .ok (decide (r = 0)) := by
  intro f
  induction f with
  | zero => intro o n; rfl
  | succ f ih =>
    intro o n
    unfold sseEqual sseCompare
    by_cases hn : 0 < n
    · rw [if_pos hn, if_pos hn]
      by_cases b1 : o + 16 ≤ m1.length
      · by_cases b2 : o + 16 ≤ m2.length
        · rw [loadB, if_pos b1, loadB, if_pos b2, Res.bind_ok, Res.bind_ok, Res.bind_ok, Res.bind_ok]
          have l1 : ((m1.drop o).take 16).length = 16 := by simp; omega
          have l2 : ((m2.drop o).take 16).length = 16 := by simp; omega
          cases hm : mismatch 1 ((m1.drop o).take 16) ((m2.drop o).take 16) (min n (16 / 1)) with
          | none => exact ih _ _
          | some i =>
            obtain ⟨hi, hx, hy, _, _⟩ := mismatch_some (by omega) (by omega) hm
            simp only [Nat.mul_one]
            rw [load_one (by omega), load_one (by omega), Res.bind_ok, Res.bind_ok, Res.bind_ok]
            split <;> rfl
        · rw [loadB, if_pos b1, loadB, if_neg b2]
          rfl
      · rw [loadB, if_neg b1]
        rfl
    · rw [if_neg hn, if_neg hn]
      rfl

theorem sseCompare_ub (m1 m2 : List Byte) : ∀ f o n, n < f → 0 < n →
    (m1.drop o).take n = (m2.drop o).take n → o + n ≤ m1.length → o + n ≤ m2.length →
    (m1.length < o + (n + 15) / 16 * 16 ∨ m2.length < o + (n + 15) / 16 * 16) →
    sseCompare 1 1 m1 m2 f o n = .ub := by
  intro f
  induction f with
  | zero => intro o n h; omega
  | succ f ih =>
    intro o n hf hn heq k1 k2 h
    unfold sseCompare
    rw [if_pos hn]
    by_cases b1 : o + 16 ≤ m1.length
    · by_cases b2 : o + 16 ≤ m2.length
      · have l1 : ((m1.drop o).take 16).length = 16 := by simp; omega
        have l2 : ((m2.drop o).take 16).length = 16 := by simp; omega
        rw [loadB, if_pos b1, loadB, if_pos b2, Res.bind_ok, Res.bind_ok]
        have hmis : mismatch 1 ((m1.drop o).take 16) ((m2.drop o).take 16) (min n (16 / 1)) = none := by
          apply mismatch_eq_none (by omega) (by omega)
          rw [List.take_take, List.take_take, Nat.min_eq_left (by omega)]
          have := congrArg (List.take (min n (16 / 1))) heq
          rwa [List.take_take, List.take_take, Nat.min_eq_left (by omega)] at this
        rw [hmis]
        have h16 : 16 < n := by omega
        refine ih _ _ (by omega) (by omega) ?_ (by omega) (by omega) (by omega)
        have := congrArg (List.drop 16) heq
        rwa [List.drop_take, List.drop_take, List.drop_drop, List.drop_drop] at this
      · rw [loadB, if_pos b1, loadB, if_neg b2]
        rfl
    · rw [loadB, if_neg b1]
      rfl

theorem slen_of_lt {n : Nat} (h : n < 2 ^ 31) : slen n = n := by
  unfold slen
  rw [Int.bmod_eq_of_le (by omega) (by omega)]
  rfl

theorem slen_zero {n : Nat} (h : 2 ^ 31 ≤ n % 2 ^ 32 ∨ n % 2 ^ 32 = 0) : slen n = 0 := by
  unfold slen
  rw [Int.toNat_eq_zero, Int.bmod_def]
  split <;> omega

theorem take_of_append (s pad : List Byte) {n : Nat} (h : n ≤ s.length) : ((s ++ pad).drop 0).take n = s.take n := by
  rw [List.drop_zero, List.take_append_of_le_length h]

/-! ### C57: equality of `char` views -/

theorem isEqualSse_eq {m1 m2 : List Byte} {n : Nat} (hn : n < 2 ^ 31)
    (h : n = 0 ∨ (n + 15) / 16 * 16 ≤ m1.length ∧ (n + 15) / 16 * 16 ≤ m2.length) :
    isEqualSse 1 1 m1 m2 n = .ok (decide (m1.take n = m2.take n)) := by
  unfold isEqualSse
  rw [slen_of_lt hn, sseEqual_eq_compare, sseCompare_spec m1 m2 _ _ _ (by omega) (by simpa using h), Res.bind_ok,
    List.drop_zero, List.drop_zero]
  simp only [lexSign_eq_zero]

/-- C57. `operator !=` is defined exactly where `operator ==` is, and then is its negation. -/
theorem view_ne_iff (mode : Mode) (a b : View) :
    (∀ r, a.ne mode b = .ok r ↔ a.eq mode b = .ok (!r)) ∧ (a.ne mode b = .ub ↔ a.eq mode b = .ub) ∧
      (a.ne mode b = .diverge ↔ a.eq mode b = .diverge) := by
  unfold View.ne
  cases a.eq mode b with
  | ok x => refine ⟨fun r => ?_, ?_, ?_⟩ <;> cases x <;> simp
  | ub => simp [Res.bind]
  | diverge => simp [Res.bind]

/-- `!=` of two different strings of equal length. -/
example : (View.of [97, 98] []).ne .stl (View.of [97, 99] []) = .ok true := by decide +kernel

/-- C57 (partial: only where the 16-byte loads stay in readable memory and below 2 GiB).  In SSE4.2 mode `operator ==` is
equality of the strings, and does not depend on the bytes behind them. -/
theorem view_eq_sse_partial (s t p q : List Byte) (hs : s.length < 2 ^ 31) (hp : 15 ≤ p.length) (hq : 15 ≤ q.length) :
    (View.of s p).eq .sse42 (View.of t q) = .ok (decide (s = t)) := by
  unfold View.eq View.of
  by_cases hl : s.length = t.length
  · simp only [hl, ne_eq, not_true_eq_false, if_false]
    show isEqualSse 1 1 _ _ _ = _
    rw [isEqualSse_eq (by omega) (.inr (by simp; omega)), List.take_left, ← hl, List.take_left]
  · simp only [hl, ne_eq, not_false_eq_true, if_true]
    rw [decide_eq_false]
    intro e
    exact hl (by rw [e])

example : (View.of [97, 98] (List.replicate 15 1)).eq .sse42 (View.of [97, 98] (List.replicate 15 2)) = .ok true := by
  decide +kernel
example : (View.of [97, 98] (List.replicate 15 1)).eq .sse42 (View.of [97, 99] (List.replicate 15 1)) = .ok false := by
  decide +kernel

/-- C57, the violation at the end of the memory: comparing a string with an equal string reads out of bounds unless the length
is a multiple of 16 or enough readable bytes follow both. -/
theorem view_eq_sse_ub (s p q : List Byte) (h0 : s.length < 2 ^ 31) (h1 : s.length % 16 ≠ 0)
    (h2 : s.length % 16 + p.length < 16 ∨ s.length % 16 + q.length < 16) :
    (View.of s p).eq .sse42 (View.of s q) = .ub := by
  unfold View.eq View.of
  simp only [ne_eq, not_true_eq_false, if_false]
  show isEqualSse 1 1 _ _ _ = _
  unfold isEqualSse
  rw [slen_of_lt h0, sseEqual_eq_compare, sseCompare_ub _ _ _ _ _ (by omega) (by omega)
    (by rw [take_of_append _ _ (le_refl _), take_of_append _ _ (le_refl _)]) (by simp) (by simp) (by simp; omega)]
  rfl

example : (View.of [97, 98, 99] [0]).eq .sse42 (View.of [97, 98, 99] [0]) = .ub := by decide +kernel

/-- C57, the violation for long strings: `(int)length` drops the upper bits; two strings of equal length are reported equal
without being looked at if the length modulo 2^32 is 0 or at least 2^31. -/
theorem view_eq_sse_long (s t p q : List Byte) (hl : s.length = t.length)
    (h : 2 ^ 31 ≤ s.length % 2 ^ 32 ∨ s.length % 2 ^ 32 = 0) :
    (View.of s p).eq .sse42 (View.of t q) = .ok true := by
  unfold View.eq View.of
  simp only [hl, ne_eq, not_true_eq_false, if_false]
  show isEqualSse 1 1 _ _ _ = _
  unfold isEqualSse
  rw [slen_zero (by rw [← hl]; exact h)]
  rfl

/-- … so two different strings compare equal. -/
theorem view_eq_sse_long_wrong : ∃ s t p q : List Byte, s ≠ t ∧ 15 ≤ p.length ∧ 15 ≤ q.length ∧
    (View.of s p).eq .sse42 (View.of t q) = .ok true := by
  refine ⟨List.replicate (2 ^ 31) 0, List.replicate (2 ^ 31) 1, List.replicate 15 0, List.replicate 15 0, ?_,
    by simp, by simp, view_eq_sse_long _ _ _ _ (by rw [List.length_replicate, List.length_replicate])
      (.inl (by rw [List.length_replicate]; decide))⟩
  intro h
  have h2 : (0 : Byte) ∈ List.replicate (2 ^ 31) (1 : Byte) := h ▸ List.mem_replicate.2 ⟨by decide, rfl⟩
  have := (List.mem_replicate.1 h2).2
  exact absurd this (by decide)

theorem le_inj : ∀ {a b : List Byte}, a.length = b.length → HashFn.le a = HashFn.le b → a = b := by
  intro a
  induction a with
  | nil => intro b h _; exact (List.eq_nil_of_length_eq_zero h.symm).symm
  | cons x a ih =>
    intro b h e
    cases b with
    | nil => cases h
    | cons y b =>
      simp only [HashFn.le] at e
      have h1 := x.isLt
      have h2 := y.isLt
      have h3 : x.val = y.val := by omega
      have h4 : HashFn.le a = HashFn.le b := by omega
      rw [Fin.ext h3, ih (by simpa using h) h4]

theorem u64Equal_spec (m1 m2 : List Byte) : ∀ f o n, n < f →
    (n = 0 ∨ o + (n + 7) / 8 * 8 ≤ m1.length ∧ o + (n + 7) / 8 * 8 ≤ m2.length) →
    u64Equal m1 m2 f o n = .ok (decide ((m1.drop o).take n = (m2.drop o).take n)) := by
  intro f
  induction f with
  | zero => intro o n h; omega
  | succ f ih =>
    intro o n hf h
    unfold u64Equal
    by_cases hn : 0 < n
    · rw [if_pos hn]
      have h : o + (n + 7) / 8 * 8 ≤ m1.length ∧ o + (n + 7) / 8 * 8 ≤ m2.length := h.resolve_left (by omega)
      have l1 : ((m1.drop o).take 8).length = 8 := by simp; omega
      have l2 : ((m2.drop o).take 8).length = 8 := by simp; omega
      by_cases h8 : 8 ≤ n
      · rw [if_pos h8, load_ok (by omega), load_ok (by omega), Res.bind_ok, Res.bind_ok]
        have e1 : (m1.drop o).take n = (m1.drop o).take 8 ++ (m1.drop (o + 8)).take (n - 8) := by
          rw [← List.drop_drop, ← List.take_add]; congr 1; omega
        have e2 : (m2.drop o).take n = (m2.drop o).take 8 ++ (m2.drop (o + 8)).take (n - 8) := by
          rw [← List.drop_drop, ← List.take_add]; congr 1; omega
        by_cases he : HashFn.le ((m1.drop o).take 8) = HashFn.le ((m2.drop o).take 8)
        · rw [if_pos he, ih _ _ (by omega) (by omega), e1, e2, le_inj (by omega) he]
          simp
        · rw [if_neg he, decide_eq_false]
          intro hh
          rw [e1, e2] at hh
          exact he (by rw [(List.append_inj hh (by omega)).1])
      · rw [if_neg h8, load_ok (by omega), load_ok (by omega), Res.bind_ok, Res.bind_ok]
        have k1 := le_mask (N := 8) (r := n) _ l1 (by omega)
        have k2 := le_mask (N := 8) (r := n) _ l2 (by omega)
        rw [List.take_take, Nat.min_eq_left (by omega)] at k1 k2
        rw [show (2 ^ 64 - 1 : Nat) = 2 ^ (8 * 8) - 1 from rfl, k1, k2]
        congr 1
        apply decide_eq_decide.2
        exact ⟨fun hh => le_inj (by simp; omega) hh, fun hh => by rw [hh]⟩
    · rw [if_neg hn, show n = 0 by omega]
      simp

/-- C57 (partial: only where the last 8-byte load stays in readable memory).  In U64 mode `operator ==` is equality of the
strings, for every length. -/
theorem view_eq_u64_partial (s t p q : List Byte) (hp : 7 ≤ p.length) (hq : 7 ≤ q.length) :
    (View.of s p).eq .u64 (View.of t q) = .ok (decide (s = t)) := by
  unfold View.eq View.of
  by_cases hl : s.length = t.length
  · simp only [hl, ne_eq, not_true_eq_false, if_false]
    show isEqualU64 _ _ _ = _
    unfold isEqualU64
    rw [u64Equal_spec _ _ _ _ _ (by omega) (.inr (by simp; omega)), List.drop_zero, List.drop_zero, List.take_left, ← hl,
      List.take_left]
  · simp only [hl, ne_eq, not_false_eq_true, if_true]
    rw [decide_eq_false]
    intro e
    exact hl (by rw [e])

example : (View.of [97, 98] (List.replicate 7 1)).eq .u64 (View.of [97, 99] (List.replicate 7 2)) = .ok false := by
  decide +kernel

/-- C57, the violation in U64 mode: short strings read past their end. -/
theorem view_eq_u64_ub (s t p q : List Byte) (h : s.length = t.length) (h0 : 0 < s.length)
    (h1 : s.length + p.length < 8 ∨ t.length + q.length < 8) : (View.of s p).eq .u64 (View.of t q) = .ub := by
  unfold View.eq View.of
  simp only [h, ne_eq, not_true_eq_false, if_false]
  show isEqualU64 _ _ _ = _
  unfold isEqualU64 u64Equal
  rw [if_pos (by omega), if_neg (by omega)]
  by_cases hs : s.length + p.length < 8
  · rw [load_ub (by simp; omega)]
    rfl
  · rw [load_ok (by simp; omega), Res.bind_ok, load_ub (by simp; omega)]
    rfl

example : (View.of [97, 98, 99] [0]).eq .u64 (View.of [97, 98, 99] [0]) = .ub := by decide +kernel

/-- C57 in STL mode: `operator ==` is equality of the strings, for all strings and whatever lies behind them. -/
theorem view_eq_stl (s t p q : List Byte) : (View.of s p).eq .stl (View.of t q) = .ok (decide (s = t)) := by
  unfold View.eq View.of
  by_cases hl : s.length = t.length
  · simp only [hl, ne_eq, not_true_eq_false, if_false]
    show isEqualStl 1 _ _ _ = _
    unfold isEqualStl loadB
    rw [if_pos (by simp; omega), if_pos (by simp), Res.bind_ok, Res.bind_ok, List.drop_zero, List.drop_zero, Nat.mul_one,
      List.take_left, ← hl, List.take_left]
  · simp only [hl, ne_eq, not_false_eq_true, if_true]
    rw [decide_eq_false]
    intro e
    exact hl (by rw [e])

example : (View.of [97, 0, 98] []).eq .stl (View.of [97, 0, 99] []) = .ok false := by decide +kernel

theorem strncmp_eq : ∀ (s t p q : List Byte), s.length = t.length → (0 : Byte) ∉ s →
    strncmp (s ++ p) (t ++ q) s.length = .ok (lexSign s t) := by
  intro s
  induction s with
  | nil =>
    intro t p q h _
    rw [List.eq_nil_of_length_eq_zero (l := t) h.symm]
    simp only [List.length_nil, strncmp]
    rfl
  | cons x s ih =>
    intro t p q h h0
    cases t with
    | nil => cases h
    | cons y t =>
      simp only [List.cons_append, List.length_cons, strncmp]
      rw [lexSign_cons]
      by_cases hxy : x = y
      · subst hxy
        have hx : ¬ x = 0 := fun e => h0 (by rw [e]; exact List.mem_cons_self)
        simp only [ne_eq, not_true_eq_false, if_false, hx]
        rw [ih t p q (by simpa using h) (fun hm => h0 (List.mem_cons_of_mem _ hm))]
        simp
      · simp only [ne_eq, hxy, not_false_eq_true, if_true]
        by_cases hgt : x > y
        · simp [hgt]
        · have : x < y := by
            have : x.val ≠ y.val := fun e => hxy (Fin.ext e)
            have h2 : ¬ x.val > y.val := hgt
            show x.val < y.val
            omega
          simp [hgt, this]

/-- C57 (partial: only for strings without NUL characters).  In libc mode `operator ==` is equality of the strings. -/
theorem view_eq_libc_partial (s t p q : List Byte) (h0 : (0 : Byte) ∉ s) :
    (View.of s p).eq .libc (View.of t q) = .ok (decide (s = t)) := by
  unfold View.eq View.of
  by_cases hl : s.length = t.length
  · simp only [hl, ne_eq, not_true_eq_false, if_false]
    show isEqualLibc _ _ _ = _
    unfold isEqualLibc
    rw [← hl, strncmp_eq s t p q hl h0, Res.bind_ok]
    simp only [lexSign_eq_zero]
  · simp only [hl, ne_eq, not_false_eq_true, if_true]
    rw [decide_eq_false]
    intro e
    exact hl (by rw [e])

example : (View.of [97, 98] []).eq .libc (View.of [97, 99] []) = .ok false := by decide +kernel

/-- C57, the violation in libc mode: the comparison stops at a NUL, so everything behind the first NUL is ignored. -/
theorem view_eq_libc_nul (a b c p q : List Byte) (h : b.length = c.length) :
    (View.of (a ++ 0 :: b) p).eq .libc (View.of (a ++ 0 :: c) q) = .ok true := by
  have key : ∀ a : List Byte, ∀ n, strncmp (a ++ 0 :: b ++ p) (a ++ 0 :: c ++ q) (a.length + 1 + n) = .ok 0 := by
    intro a
    induction a with
    | nil =>
      intro n
      rw [List.length_nil, Nat.zero_add, Nat.add_comm]
      simp [strncmp]
    | cons x a ih =>
      intro n
      rw [List.length_cons, show a.length + 1 + 1 + n = a.length + 1 + n + 1 by omega]
      simp only [List.cons_append, strncmp, ne_eq, not_true_eq_false, if_false]
      split
      · rfl
      · exact ih n
  unfold View.eq View.of
  simp only [List.length_append, List.length_cons, h, ne_eq, not_true_eq_false, if_false]
  show isEqualLibc _ _ _ = _
  unfold isEqualLibc
  rw [show a.length + (c.length + 1) = a.length + 1 + c.length by omega, key]
  rfl

example : (View.of [97, 0, 98] []).eq .libc (View.of [97, 0, 99] []) = .ok true := by decide +kernel

/-- C57, the violation for the empty view, in every mode: a default-constructed view and an empty view of a buffer are both
empty strings, but they are not equal. -/
theorem view_eq_null (mode : Mode) (p : List Byte) :
    (⟨none, 0⟩ : View).eq mode (View.of [] p) = .ok false ∧ (View.of [] p).eq mode ⟨none, 0⟩ = .ok false := ⟨rfl, rfl⟩

/-! ### C58: equality of wide views -/

/-- C58, the violation: on Linux `wchar_t` has four bytes but the SSE4.2 code compares two-byte words: of a string of two
characters only the first character is compared, for all characters. -/
theorem wide_eq_sse_ignores (c d e p q : List Byte) (hc : c.length = 4) (hd : d.length = 4) (he : e.length = 4)
    (hp : 8 ≤ p.length) (hq : 8 ≤ q.length) :
    isEqualSse 4 2 (c ++ d ++ p) (c ++ e ++ q) 2 = .ok true := by
  unfold isEqualSse
  rw [slen_of_lt (by decide)]
  unfold sseEqual
  rw [if_pos (by decide), loadB, if_pos (by simp; omega), loadB, if_pos (by simp; omega), Res.bind_ok, Res.bind_ok]
  have hm : mismatch 2 (((c ++ d ++ p).drop 0).take 16) (((c ++ e ++ q).drop 0).take 16) (min 2 (16 / 2)) = none := by
    unfold mismatch
    rw [List.find?_eq_none]
    intro i hi
    have hi : i < 2 := by simpa using hi
    simp only [decide_eq_true_eq, ne_eq, Decidable.not_not]
    rw [List.drop_zero, List.drop_zero, List.drop_take, List.drop_take, List.take_take, List.take_take,
      Nat.min_eq_left (by omega), List.append_assoc, List.append_assoc, List.drop_append_of_le_length (by omega),
      List.drop_append_of_le_length (by omega), List.take_append_of_le_length (by simp; omega),
      List.take_append_of_le_length (by simp; omega)]
  rw [hm]
  simp only
  unfold sseEqual
  rfl

/-- L"ab" and L"ac" are equal in SSE4.2 mode. -/
example : isEqualSse 4 2 ([97, 0, 0, 0, 98, 0, 0, 0] ++ List.replicate 8 0) ([97, 0, 0, 0, 99, 0, 0, 0] ++ List.replicate 8 0)
    2 = .ok true := by decide +kernel

/-- C58, the violation in U64 mode: the length counts characters but bytes are compared; of a string of up to four wide
characters at most the first character takes part. -/
theorem wide_eq_u64_ignores (c d e : List Byte) (n : Nat) (hc : c.length = 4) (hn : n ≤ 4) (hd : 4 ≤ d.length)
    (he : 4 ≤ e.length) : isEqualU64 (c ++ d) (c ++ e) n = .ok true := by
  unfold isEqualU64
  rw [u64Equal_spec _ _ _ _ _ (by omega) (.inr (by simp; omega)), List.drop_zero, List.drop_zero,
    List.take_append_of_le_length (by omega), List.take_append_of_le_length (by omega)]
  simp

example : isEqualU64 [97, 0, 0, 0, 98, 0, 0, 0] [97, 0, 0, 0, 99, 0, 0, 0] 2 = .ok true := by decide +kernel

/-- C58 in STL mode (partial: this mode only): all `n * w` bytes are compared. -/
theorem wide_eq_stl_partial (w n : Nat) (s t p q : List Byte) (hs : s.length = n * w) (ht : t.length = n * w) :
    isEqualStl w (s ++ p) (t ++ q) n = .ok (decide (s = t)) := by
  unfold isEqualStl loadB
  rw [if_pos (by simp; omega), if_pos (by simp; omega), Res.bind_ok, Res.bind_ok, List.drop_zero, List.drop_zero, ← hs,
    List.take_left, hs, ← ht, List.take_left]

example : isEqualStl 4 [97, 0, 0, 0, 98, 0, 0, 0] [97, 0, 0, 0, 99, 0, 0, 0] 2 = .ok false := by decide +kernel

/-! ### C59: ordering -/

/-- The contract of `memcmp`: the sign of the lexicographic order. -/
def MemcmpSign (memcmp : List Byte → List Byte → Int) : Prop :=
  ∀ a b, a.length = b.length → (memcmp a b < 0 ↔ lexSign a b = -1) ∧ (memcmp a b = 0 ↔ a = b)

theorem compare_of {mode : Mode} {memcmp : List Byte → List Byte → Int} {s t p q : List Byte}
    (h : compareN mode memcmp (s ++ p) (t ++ q) (min s.length t.length) =
      .ok (lexSign (s.take (min s.length t.length)) (t.take (min s.length t.length)))) :
    (View.of s p).compare mode memcmp (View.of t q) = .ok (lexSign s t) := by
  unfold View.compare View.of
  simp only
  rw [h, Res.bind_ok, lexSign_take s t]

/-- C59 (partial: only where the 16-byte loads stay in readable memory and below 2 GiB).  In SSE4.2 mode `compare` is the
lexicographic three-way order of unsigned bytes, and `<`, `>` follow it. -/
theorem view_compare_sse_partial (memcmp : List Byte → List Byte → Int) (s t p q : List Byte)
    (h : min s.length t.length < 2 ^ 31) (hp : 15 ≤ p.length) (hq : 15 ≤ q.length) :
    (View.of s p).compare .sse42 memcmp (View.of t q) = .ok (lexSign s t) ∧
      (View.of s p).lt .sse42 memcmp (View.of t q) = .ok (decide (s < t)) ∧
      (View.of s p).gt .sse42 memcmp (View.of t q) = .ok (decide (t < s)) := by
  have hc : (View.of s p).compare .sse42 memcmp (View.of t q) = .ok (lexSign s t) := by
    apply compare_of
    show compareSse 1 1 _ _ _ = _
    unfold compareSse
    rw [slen_of_lt h, sseCompare_spec _ _ _ _ _ (by omega) (.inr (by simp; omega)), take_of_append _ _ (by omega),
      take_of_append _ _ (by omega)]
  have hasymm : s < t → ¬ t < s := fun h1 h2 => List.lt_irrefl s (List.lt_trans h1 h2)
  refine ⟨hc, ?_, ?_⟩
  · unfold View.lt
    rw [hc, Res.bind_ok]
    unfold lexSign
    by_cases h1 : s < t
    · simp [h1]
    · by_cases h2 : t < s <;> simp [h1, h2]
  · unfold View.gt
    rw [hc, Res.bind_ok]
    unfold lexSign
    by_cases h1 : s < t
    · simp [h1, hasymm h1]
    · by_cases h2 : t < s <;> simp [h1, h2]

example : (View.of [97, 200] (List.replicate 15 0)).lt .sse42 (fun _ _ => 0) (View.of [97, 201] (List.replicate 15 0)) = .ok true := by
  decide +kernel

/-- C59, the violation of `<=` and `>=`, in every mode and for all views: `a <= b` returns what `a > b` returns, and `a >= b`
what `a < b` returns. -/
theorem view_le_is_gt (mode : Mode) (memcmp : List Byte → List Byte → Int) (a b : View) :
    a.le mode memcmp b = a.gt mode memcmp b ∧ a.ge mode memcmp b = a.lt mode memcmp b := ⟨rfl, rfl⟩

/-- In observable terms: `s <= t` is false for every ordered pair `s ≤ t`, in particular `s <= s` is false. -/
theorem view_le_wrong (memcmp : List Byte → List Byte → Int) (s t p q : List Byte) (h : min s.length t.length < 2 ^ 31)
    (hp : 15 ≤ p.length) (hq : 15 ≤ q.length) :
    (View.of s p).le .sse42 memcmp (View.of t q) = .ok (decide (t < s)) ∧
      (View.of s p).ge .sse42 memcmp (View.of t q) = .ok (decide (s < t)) :=
  have k := view_compare_sse_partial memcmp s t p q h hp hq
  ⟨k.2.2, k.2.1⟩

example : (View.of [97] (List.replicate 15 0)).le .sse42 (fun _ _ => 0) (View.of [97] (List.replicate 15 0)) = .ok false ∧
    (View.of [97] (List.replicate 15 0)).le .sse42 (fun _ _ => 0) (View.of [98] (List.replicate 15 0)) = .ok false ∧
    (View.of [98] (List.replicate 15 0)).le .sse42 (fun _ _ => 0) (View.of [97] (List.replicate 15 0)) = .ok true := by
  decide +kernel

/-- C59, the violation for default-constructed views, in every mode: such a view is less than itself. -/
theorem view_lt_null (mode : Mode) (memcmp : List Byte → List Byte → Int) :
    (⟨none, 0⟩ : View).lt mode memcmp ⟨none, 0⟩ = .ok true ∧ (⟨none, 0⟩ : View).eq mode ⟨none, 0⟩ = .ok true := ⟨rfl, rfl⟩

/-- C59 in STL mode (partial: needs a `memcmp` that returns only -1, 0 and 1, which the C standard does not promise).
`compare`, `<` and `>` follow the lexicographic order of unsigned bytes, for all strings. -/
theorem view_compare_stl_partial (memcmp : List Byte → List Byte → Int) (hm : ∀ a b, a.length = b.length → memcmp a b = lexSign a b)
    (s t p q : List Byte) :
    (View.of s p).compare .stl memcmp (View.of t q) = .ok (lexSign s t) := by
  apply compare_of
  simp only [compareN, loadB]
  rw [if_pos (by simp; omega), if_pos (by simp; omega), Res.bind_ok, Res.bind_ok, take_of_append _ _ (by omega),
    take_of_append _ _ (by omega), hm _ _ (by simp)]

example : (View.of [97, 0, 98] []).compare .stl lexSign (View.of [97, 0, 99, 1] []) = .ok (-1) := by decide +kernel

/-- C59, the violation in STL mode: with a `memcmp` that returns -2, 0 or 2 (the C standard fixes only the sign; common
implementations return the difference of the bytes), "a" < "c" is false and "c" > "a" is false. -/
theorem view_lt_stl_wrong : ∃ memcmp, MemcmpSign memcmp ∧
    (View.of [97] []).lt .stl memcmp (View.of [99] []) = .ok false ∧
    (View.of [99] []).gt .stl memcmp (View.of [97] []) = .ok false := by
  refine ⟨fun a b => 2 * lexSign a b, ?_, by decide +kernel, by decide +kernel⟩
  intro a b _
  constructor
  · show 2 * lexSign a b < 0 ↔ lexSign a b = -1
    rcases lexSign_cases a b with h | h | h <;> rw [h] <;> decide
  · rw [← lexSign_eq_zero]
    constructor
    · intro h
      have h : 2 * lexSign a b = 0 := h
      omega
    · intro h
      show 2 * lexSign a b = 0
      rw [h]; rfl

/-- C59, the violation in U64 mode: `compare` stops at a NUL while `==` does not, so they disagree. -/
theorem view_compare_u64_nul : ∃ s t p q : List Byte, 7 ≤ p.length ∧ 7 ≤ q.length ∧
    (View.of s p).compare .u64 (fun _ _ => 0) (View.of t q) = .ok 0 ∧
    (View.of s p).eq .u64 (View.of t q) = .ok false :=
  ⟨[97, 0, 98], [97, 0, 99], List.replicate 7 0, List.replicate 7 0, by decide, by decide, by decide +kernel, by decide +kernel⟩

/-! ### C60: substrings -/

theorem rcount_eq {size pos count : Nat} (hp : pos ≤ size)
    (h : pos + count < 2 ^ 64) : rcount size pos count = min count (size - pos) := by
  unfold rcount
  rw [Nat.mod_eq_of_lt h]
  split <;> omega

/-- C60 (partial: only if `pos + count` does not wrap around or `count` is `npos`).  `substr(pos, count)` throws iff `pos` is
behind the end, and otherwise is the view of the characters from `pos`, at most `count` of them. -/
theorem view_substr_partial (s p : List Byte) (pos count : Nat) (hs : s.length < 2 ^ 64)
    (h : pos + count < 2 ^ 64 ∨ count = npos) :
    (View.of s p).substr pos count =
      if pos > s.length then none else some (View.of ((s.drop pos).take count) ((s.drop pos).drop count ++ p)) := by
  unfold View.substr View.of
  simp only
  split
  · rfl
  next hpos =>
    have e1 : (s ++ p).drop pos = (s.drop pos).take count ++ ((s.drop pos).drop count ++ p) := by
      rw [← List.append_assoc, List.take_append_drop, List.drop_append_of_le_length (by omega)]
    have e2 : (if count ≠ npos then rcount s.length pos count else s.length - pos) = ((s.drop pos).take count).length := by
      simp only [List.length_take, List.length_drop]
      by_cases hn : count = npos
      · rw [if_neg (by simpa using hn), hn]
        unfold npos
        omega
      · rw [if_pos hn, rcount_eq (by omega) (h.resolve_right hn)]
    rw [e2, Option.map_some, e1]

example : (View.of [97, 98, 99, 100] []).substr 1 2 = some (View.of [98, 99] [100]) := by
  rw [view_substr_partial _ _ _ _ (by decide) (by decide)]; rfl

/-- C60, the violation: if `pos + count` wraps around, the view returned claims `count` characters — more than the whole
string has. -/
theorem view_substr_wrap (s p : List Byte) (pos count : Nat) (hs : s.length < 2 ^ 63) (hc : count < npos)
    (hpos : pos ≤ s.length) (h : 2 ^ 64 ≤ pos + count) :
    ∃ v, (View.of s p).substr pos count = some v ∧ v.size = count ∧ s.length < v.size := by
  refine ⟨⟨some ((s ++ p).drop pos), count⟩, ?_, rfl, by show s.length < count; omega⟩
  unfold View.substr View.of
  simp only
  unfold npos at *
  have hr : rcount s.length pos count = count := by
    unfold rcount
    rw [if_pos]
    have e : (pos + count) % 2 ^ 64 = pos + count - 2 ^ 64 := by
      rw [Nat.mod_eq_sub_mod h, Nat.mod_eq_of_lt (by omega)]
    omega
  rw [if_neg (by omega), if_pos (by omega), hr]
  rfl

example : ∃ v, (View.of [97, 98, 99, 100] []).substr 3 (2 ^ 64 - 2) = some v ∧ v.size = 2 ^ 64 - 2 := by
  obtain ⟨v, h1, h2, _⟩ := view_substr_wrap [97, 98, 99, 100] [] 3 (2 ^ 64 - 2) (by decide) (by decide) (by decide) (by decide)
  exact ⟨v, h1, h2⟩

/-! ### C61: copying out -/

theorem strncpyBytes_eq : ∀ (l : List Byte) (n : Nat), n ≤ l.length → (0 : Byte) ∉ l.take n → strncpyBytes l n = some (l.take n) := by
  intro l
  induction l with
  | nil => intro n h _; simp at h; subst h; rfl
  | cons b l ih =>
    intro n h h0
    cases n with
    | zero => rfl
    | succ n =>
      rw [List.take_succ_cons] at h0 ⊢
      simp only [strncpyBytes]
      rw [if_neg (fun e => h0 (by rw [e]; exact List.mem_cons_self)),
        ih n (by simpa using h) (fun hm => h0 (List.mem_cons_of_mem _ hm))]
      rfl

/-- C61 (partial: only for strings without NUL, without wrap-around, and for the bytes — not for the returned number).
`copy(dest, count, pos)` writes the characters from `pos`, at most `count` of them. -/
theorem view_copy_partial (s p : List Byte) (room pos count : Nat)
    (h : pos + count < 2 ^ 64) (hpos : pos ≤ s.length) (hroom : min count (s.length - pos) ≤ room) (h0 : (0 : Byte) ∉ s) :
    ∃ r, (View.of s p).copy room count pos = some (.ok ((s.drop pos).take count, r)) := by
  refine ⟨0, ?_⟩
  unfold View.copy View.of
  simp only
  rw [if_neg (by omega), rcount_eq hpos h, if_pos hroom]
  have e : (s ++ p).drop pos = s.drop pos ++ p := List.drop_append_of_le_length hpos
  have e2 : ((s ++ p).drop pos).take (min count (s.length - pos)) = (s.drop pos).take count := by
    rw [e, List.take_append_of_le_length (by rw [List.length_drop]; omega)]
    by_cases hcs : count ≤ s.length - pos
    · rw [Nat.min_eq_left hcs]
    · rw [Nat.min_eq_right (by omega), List.take_of_length_le (by simp), List.take_of_length_le (by simp; omega)]
  rw [strncpyBytes_eq _ _ (by simp; omega), e2]
  rw [e2]
  exact fun hm => h0 (List.mem_of_mem_drop (List.mem_of_mem_take hm))

example : ∃ r, (View.of [97, 98, 99, 100] []).copy 10 2 1 = some (.ok ([98, 99], r)) :=
  view_copy_partial [97, 98, 99, 100] [] 10 1 2 (by decide) (by decide) (by decide) (by decide)

/-- C61, the violation of the result: whenever `copy` returns, it returns 0, however many characters were copied. -/
theorem view_copy_returns_zero (a : View) (room count pos : Nat) {l : List Byte} {r : Nat}
    (h : a.copy room count pos = some (.ok (l, r))) : r = 0 := by
  unfold View.copy at h
  split at h
  · cases h
  · split at h
    · cases h
    · simp only at h
      split at h
      · split at h
        · cases h; rfl
        · cases h
      · cases h

/-- C61, the violation for `copy(dest, npos, pos)` — "from `pos` to the end" — with `pos ≥ 1`: the sum wraps around, and the
call writes 2^64 - 1 bytes: out of bounds for every destination. -/
theorem view_copy_npos_ub (s p : List Byte) (room pos : Nat) (hs : s.length < 2 ^ 63) (hpos : pos ≤ s.length) (h1 : 1 ≤ pos)
    (hroom : room < npos) : (View.of s p).copy room npos pos = some .ub := by
  unfold View.copy View.of
  simp only
  have hr : rcount s.length pos npos = npos := by
    unfold rcount npos
    rw [if_pos]
    omega
  rw [if_neg (by omega), hr, if_neg (by omega)]

example : (View.of [97, 98, 99] []).copy 100 npos 1 = some .ub :=
  view_copy_npos_ub [97, 98, 99] [] 100 1 (by decide) (by decide) (by decide) (by decide)

/-- C61, the violation for strings with NUL characters: what follows the first NUL is not copied but replaced by NULs. -/
theorem view_copy_nul : ∃ s : List Byte, (View.of s []).copy 3 3 0 = some (.ok ([97, 0, 0], 0)) ∧ s = [97, 0, 98] :=
  ⟨[97, 0, 98], by decide +kernel, rfl⟩

/-! ### C62: comparing a part -/

/-- C62, the violation: `compare(pos, count, sv)` ignores the size of `sv`; here `sv` is the view "ab" into the buffer "abc",
and comparing the part "abc" with it says equal, in every mode. -/
theorem view_compare3_wrong (mode : Mode) : ∃ a b v : View,
    a.substr 0 3 = some v ∧
    v.compare mode lexSign b = .ok 1 ∧
    a.compare3 mode lexSign 0 3 b = some (.ok 0) := by
  have h : ∀ m : Mode, ((⟨some ([97, 98, 99] ++ List.replicate 15 0), 3⟩ : View).compare m lexSign
      (View.of [97, 98] (99 :: List.replicate 15 0)) = .ok 1) ∧
      (View.of [97, 98, 99] (List.replicate 15 0)).compare3 m lexSign 0 3 (View.of [97, 98] (99 :: List.replicate 15 0)) =
        some (.ok 0) := by
    intro m; cases m <;> decide +kernel
  exact ⟨View.of [97, 98, 99] (List.replicate 15 0), View.of [97, 98] (99 :: List.replicate 15 0), _, rfl, (h mode).1, (h mode).2⟩

/-- C62 (partial: only if `count` is at most the rest of the string and equals the size of `sv`).  Then it is the comparison
of the part with `sv`. -/
theorem view_compare3_partial (s t p q : List Byte) (pos : Nat) (h : pos + t.length ≤ s.length) :
    (View.of s p).compare3 .stl lexSign pos t.length (View.of t q) = some (.ok (lexSign ((s.drop pos).take t.length) t)) := by
  unfold View.compare3 View.of
  simp only
  rw [if_neg (by omega)]
  simp only [compareN, loadB]
  rw [if_pos (by simp; omega), if_pos (by simp), Res.bind_ok, Res.bind_ok, List.drop_zero, List.drop_zero, List.take_left,
    List.drop_append_of_le_length (by omega), List.take_append_of_le_length (by simp; omega)]

example : (View.of [97, 98, 99] []).compare3 .stl lexSign 1 2 (View.of [98, 99] []) = some (.ok 0) := by decide +kernel

/-! ### C63: equal views have equal hashes -/

/-- C63 (partial: only with readable bytes behind the strings and below 2 GiB).  In SSE4.2 mode two views that compare equal
have the same hash: `string_view` with the default helper is usable as a key. -/
theorem view_hash_consistent_partial (crc : Nat → Nat → Nat) (s t p q : List Byte) (hs : s.length < 2 ^ 31)
    (hp : 15 ≤ p.length) (hq : 15 ≤ q.length)
    (h : (View.of s p).eq .sse42 (View.of t q) = .ok true) :
    ∃ r, (View.of s p).hash crc = .ok r ∧ (View.of t q).hash crc = .ok r := by
  rw [view_eq_sse_partial s t p q hs hp hq] at h
  have h : decide (s = t) = true := by injection h
  have h := of_decide_eq_true h
  subst h
  exact hashCrc32_padding_partial crc s p q (by omega) (by omega)

example : ∃ r, (View.of [97, 98] (List.replicate 15 1)).hash mmCrc64 = .ok r ∧ (View.of [97, 98] (List.replicate 15 2)).hash mmCrc64 = .ok r :=
  view_hash_consistent_partial mmCrc64 [97, 98] [97, 98] _ _ (by decide) (by decide) (by decide) (by decide +kernel)

/-- C63 in STL mode (partial: the hash needs seven readable bytes). -/
theorem view_hash_consistent_stl_partial (crc : Nat → Nat → Nat) (s t p q : List Byte)
    (hp : 7 ≤ p.length) (hq : 7 ≤ q.length) (h : (View.of s p).eq .stl (View.of t q) = .ok true) :
    ∃ r, (View.of s p).hash crc = .ok r ∧ (View.of t q).hash crc = .ok r := by
  rw [view_eq_stl] at h
  have h : decide (s = t) = true := by injection h
  have h := of_decide_eq_true h
  subst h
  exact hashCrc32_padding_partial crc s p q hp hq

/-- C63, the violation in libc mode: equal views with different hashes. -/
theorem view_hash_libc_wrong : ∃ s t p q : List Byte, 15 ≤ p.length ∧ 15 ≤ q.length ∧
    (View.of s p).eq .libc (View.of t q) = .ok true ∧
    ∃ r r', (View.of s p).hash mmCrc64 = .ok r ∧ (View.of t q).hash mmCrc64 = .ok r' ∧ r ≠ r' := by
  refine ⟨[97, 0, 98], [97, 0, 99], List.replicate 15 0, List.replicate 15 0, by decide, by decide, by decide +kernel,
    crc32c (2 ^ 32 - 1) [97, 0, 98, 0, 0, 0, 0, 0], crc32c (2 ^ 32 - 1) [97, 0, 99, 0, 0, 0, 0, 0], ?_, ?_, by decide +kernel⟩
  · exact hashCrc32_crc32c [97, 0, 98] (List.replicate 15 0) (by decide)
  · exact hashCrc32_crc32c [97, 0, 99] (List.replicate 15 0) (by decide)

end Verif.Str
