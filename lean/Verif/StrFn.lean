/-
Comparing strings given by pointers, terminated or counted (C153).

SL = src/jstd/string/string_libc.h, SS = src/jstd/string/string_stl.h, SD = src/jstd/string/string_def.h

A pointer is the list of the characters that can be read from it; reading behind the list is undefined.  A character is its value as a number; `char` counts as unsigned,
as the functions of the C library see it.  Of the numbers that library functions return only the sign is specified: -1, 0, 1 stand for negative, zero, positive.
-/
import Verif.Table
import Mathlib.Data.List.Lex

namespace Verif.StrFn

/-! ### The model -/

/-- `StrLen(str)` (SL:38-47; `strlen`, `wcslen` SL:49-59). -/
def strLen : List Int → Res Nat
  | [] => .ub
  | a :: as => if a ≠ 0 then (strLen as).bind fun n => .ok (n + 1) else .ok 0

/-- `libc::StrEqual(str1, str2)` (SL:73-88; `strcmp`, `wcscmp` SL:90-104, and `stl::StrEqual` SS:35-41). -/
def eqZ : List Int → List Int → Res Bool
  | a :: as, b :: bs => if a = b then (if a ≠ 0 then eqZ as bs else .ok true) else .ok false
  | _, _ => .ub

/-- `libc::StrCmp(str1, str2)` (SL:214-232; `strcmp`, `wcscmp` SL:234-248, and `stl::StrCmp` SS:137-141); the results are those of SD:11-17. -/
def cmpZ : List Int → List Int → Res Int
  | a :: as, b :: bs => if a = b then (if a ≠ 0 then cmpZ as bs else .ok 0) else if b < a then .ok 1 else .ok (-1)
  | _, _ => .ub

/-- `libc::StrEqual(str1, str2, count)`, generic (SL:106-122). -/
def eqN : Nat → List Int → List Int → Res Bool
  | 0, _, _ => .ok true
  | n + 1, a :: as, b :: bs => if a ≠ b then .ok false else eqN n as bs
  | _, _, _ => .ub

/-- `libc::StrCmp(str1, str2, count)`, generic (SL:250-269), and `memcmp` on bytes. -/
def cmpN : Nat → List Int → List Int → Res Int
  | 0, _, _ => .ok 0
  | n + 1, a :: as, b :: bs => if a ≠ b then (if b < a then .ok 1 else .ok (-1)) else cmpN n as bs
  | _, _, _ => .ub

/-- `strncmp`, `wcsncmp` (called in SL:124-138, 271-281). -/
def cmpS : Nat → List Int → List Int → Res Int
  | 0, _, _ => .ok 0
  | n + 1, a :: as, b :: bs => if a ≠ b then (if b < a then .ok 1 else .ok (-1)) else if a = 0 then .ok 0 else cmpS n as bs
  | _, _, _ => .ub

/-- The bytes of a character of `w` bytes, on a little-endian machine. -/
def bytes (w : Nat) (c : Int) : List Int := (List.range w).map fun i => ((c.toNat / 256 ^ i % 256 : Nat) : Int)

/-- Which function: `libc` for general character types, `libc` for `char` and `wchar_t`, `stl` for characters of `w` bytes. -/
inductive Kind where
  | gen
  | chr
  | stl (w : Nat)

/-- `StrCmp(str1, str2, count)` (SL:250-281, SS:143-149). -/
def cmpCount : Kind → Nat → List Int → List Int → Res Int
  | .gen, n, a, b => cmpN n a b
  | .chr, n, a, b => cmpS n a b
  | .stl w, n, a, b => cmpN (n * w) (a.flatMap (bytes w)) (b.flatMap (bytes w))

/-- `StrEqual(str1, str2, count)` (SL:106-138, SS:43-49). -/
def eqCount : Kind → Nat → List Int → List Int → Res Bool
  | .gen, n, a, b => eqN n a b
  | k, n, a, b => (cmpCount k n a b).bind fun r => .ok (r == 0)

/-- `StrEqual(str1, len1, str2, len2)` (SL:140-158, SS:65-81); `kAssumeAlwaysNotEqual` is true (SS:29, SL:32).  The one of `stl` compares and then runs to its end without
`return` (SS:73-75). -/
def eqLen (k : Kind) (a : List Int) (len1 : Nat) (b : List Int) (len2 : Nat) : Res Bool :=
  if len1 ≠ len2 then .ok false
  else
    match k with
    | .stl w => (eqCount (.stl w) len1 a b).bind fun _ => .ub
    | k => eqCount k len1 a b

/-- `StrCmp(str1, len1, str2, len2)` (SL:283-302, SS:165-184). -/
def cmpLen (k : Kind) (a : List Int) (len1 : Nat) (b : List Int) (len2 : Nat) : Res Int :=
  (cmpCount k (if len1 ≤ len2 then len1 else len2) a b).bind fun r =>
    if r ≠ 0 then .ok r else if len1 > len2 then .ok 1 else if len1 < len2 then .ok (-1) else .ok 0

/-- `StrEqualSafe(str1, str2, count)` (SL:168-184, SS:91-107); `none` is a null pointer. -/
def eqSafeCount (k : Kind) (n : Nat) : Option (List Int) → Option (List Int) → Res Bool
  | some a, some b => eqCount k n a b
  | some _, none => .ok false
  | none, q => .ok q.isNone

/-- `StrEqualSafe(str1, len1, str2, len2)` (SL:186-202, SS:109-125). -/
def eqSafe (k : Kind) (p : Option (List Int)) (len1 : Nat) (q : Option (List Int)) (len2 : Nat) : Res Bool :=
  if len1 ≠ len2 then .ok false else eqSafeCount k len1 p q

/-- `StrCmpSafe(str1, str2, count)` (SL:312-328, SS:194-210). -/
def cmpSafeCount (k : Kind) (n : Nat) : Option (List Int) → Option (List Int) → Res Int
  | some a, some b => cmpCount k n a b
  | some _, none => .ok 1
  | none, some _ => .ok (-1)
  | none, none => .ok 0

/-- `StrCmpSafe(str1, len1, str2, len2)` (SL:330-346, SS:212-228). -/
def cmpSafe (k : Kind) (p : Option (List Int)) (len1 : Nat) (q : Option (List Int)) (len2 : Nat) : Res Int :=
  (cmpSafeCount k (if len1 ≤ len2 then len1 else len2) p q).bind fun r =>
    if r ≠ 0 then .ok r else if len1 > len2 then .ok 1 else if len1 < len2 then .ok (-1) else .ok 0

/-! ### Lemmas -/

/-- The sign of a lexicographic comparison. -/
def lexSign : List Int → List Int → Int
  | [], [] => 0
  | [], _ :: _ => -1
  | _ :: _, [] => 1
  | a :: as, b :: bs => if a = b then lexSign as bs else if b < a then 1 else -1

theorem lexSign_spec : ∀ (x y : List Int), (lexSign x y = 0 ↔ x = y) ∧ (lexSign x y < 0 ↔ x < y) ∧ (0 < lexSign x y ↔ y < x) := by
  intro x
  induction x with
  | nil =>
    intro y
    cases y with
    | nil => simp [lexSign]
    | cons b bs => simp [lexSign]
  | cons a as ih =>
    intro y
    cases y with
    | nil => simp [lexSign]
    | cons b bs =>
      obtain ⟨i1, i2, i3⟩ := ih bs
      unfold lexSign
      simp only [List.cons.injEq, List.cons_lt_cons_iff]
      by_cases h : a = b
      · subst h
        simp [i1, i2, i3]
      · rw [if_neg h]
        by_cases h1 : b < a
        · rw [if_pos h1]
          refine ⟨by simp [h], ?_, by simp [h1]⟩
          constructor
          · intro h'; omega
          · rintro (h' | h') <;> omega
        · rw [if_neg h1]
          refine ⟨by simp [h], ?_, ?_⟩
          · constructor
            · intro _; left; omega
            · intro _; omega
          · constructor
            · intro h'; omega
            · rintro (h' | h') <;> omega

theorem eqZ_spec : ∀ (s1 s2 r1 r2 : List Int), (0 : Int) ∉ s1 → (0 : Int) ∉ s2 → eqZ (s1 ++ 0 :: r1) (s2 ++ 0 :: r2) = .ok (decide (s1 = s2)) := by
  intro s1
  induction s1 with
  | nil =>
    intro s2 r1 r2 _ h2
    cases s2 with
    | nil => simp [eqZ]
    | cons b bs =>
      have : (0 : Int) ≠ b := fun h => h2 (by simp [← h])
      simp [eqZ, this]
  | cons a as ih =>
    intro s2 r1 r2 h1 h2
    have ha : a ≠ 0 := fun h => h1 (by simp [← h])
    cases s2 with
    | nil => simp [eqZ, ha]
    | cons b bs =>
      simp only [List.cons_append, eqZ]
      by_cases h : a = b
      · rw [if_pos h, if_pos ha, ih _ _ _ (fun q => h1 (by simp [q])) (fun q => h2 (by simp [q]))]
        simp [h]
      · rw [if_neg h]
        simp [h]

theorem cmpZ_spec : ∀ (s1 s2 r1 r2 : List Int), (∀ c ∈ s1, 0 < c) → (∀ c ∈ s2, 0 < c) →
    cmpZ (s1 ++ 0 :: r1) (s2 ++ 0 :: r2) = .ok (lexSign s1 s2) := by
  intro s1
  induction s1 with
  | nil =>
    intro s2 r1 r2 _ h2
    cases s2 with
    | nil => simp [cmpZ, lexSign]
    | cons b bs =>
      have hb : 0 < b := h2 b (by simp)
      simp only [List.nil_append, List.cons_append, cmpZ, lexSign]
      rw [if_neg (by omega), if_neg (by omega)]
  | cons a as ih =>
    intro s2 r1 r2 h1 h2
    have ha : 0 < a := h1 a (by simp)
    cases s2 with
    | nil =>
      simp only [List.nil_append, List.cons_append, cmpZ, lexSign]
      rw [if_neg (by omega), if_pos (by omega)]
    | cons b bs =>
      simp only [List.cons_append, cmpZ, lexSign]
      by_cases h : a = b
      · rw [if_pos h, if_pos (by omega), if_pos h, ih _ _ _ (fun c q => h1 c (by simp [q])) (fun c q => h2 c (by simp [q]))]
      · rw [if_neg h, if_neg h]
        split <;> rfl

theorem cmpN_spec : ∀ (n : Nat) (a b : List Int), n ≤ a.length → n ≤ b.length → cmpN n a b = .ok (lexSign (a.take n) (b.take n)) := by
  intro n
  induction n with
  | zero => intro a b _ _; simp [cmpN, lexSign]
  | succ n ih =>
    intro a b ha hb
    cases a with
    | nil => simp at ha
    | cons x as =>
      cases b with
      | nil => simp at hb
      | cons y bs =>
        simp only [List.length_cons] at ha hb
        simp only [cmpN, List.take_succ_cons, lexSign]
        by_cases h : x = y
        · rw [if_neg (by simp [h]), if_pos h]
          exact ih _ _ (by omega) (by omega)
        · rw [if_pos h, if_neg h]
          split <;> rfl

theorem eqN_spec : ∀ (n : Nat) (a b : List Int), n ≤ a.length → n ≤ b.length → eqN n a b = .ok (decide (a.take n = b.take n)) := by
  intro n
  induction n with
  | zero => intro a b _ _; simp [eqN]
  | succ n ih =>
    intro a b ha hb
    cases a with
    | nil => simp at ha
    | cons x as =>
      cases b with
      | nil => simp at hb
      | cons y bs =>
        simp only [List.length_cons] at ha hb
        simp only [eqN, List.take_succ_cons]
        by_cases h : x = y
        · rw [if_neg (by simp [h]), ih _ _ (by omega) (by omega)]
          simp [h]
        · rw [if_pos h]
          simp [h]

/-- Without terminators among the first `n` characters of one of them `strncmp` is `memcmp`. -/
theorem cmpS_spec : ∀ (n : Nat) (a b : List Int), n ≤ a.length → n ≤ b.length → (0 : Int) ∉ a.take n → cmpS n a b = .ok (lexSign (a.take n) (b.take n)) := by
  intro n
  induction n with
  | zero => intro a b _ _ _; simp [cmpS, lexSign]
  | succ n ih =>
    intro a b ha hb h0
    cases a with
    | nil => simp at ha
    | cons x as =>
      cases b with
      | nil => simp at hb
      | cons y bs =>
        simp only [List.length_cons] at ha hb
        rw [List.take_succ_cons] at h0
        simp only [cmpS, List.take_succ_cons, lexSign]
        by_cases h : x = y
        · rw [if_neg (by simp [h]), if_pos h, if_neg (fun q => h0 (by simp [← q]))]
          exact ih _ _ (by omega) (by omega) (fun q => h0 (by simp [q]))
        · rw [if_pos h, if_neg h]
          split <;> rfl

theorem bytes_length (w : Nat) (c : Int) : (bytes w c).length = w := by simp [bytes]

theorem flat_length (w : Nat) : ∀ a : List Int, (a.flatMap (bytes w)).length = a.length * w := by
  intro a
  induction a with
  | nil => simp
  | cons x a ih => rw [List.flatMap_cons, List.length_append, ih, bytes_length, List.length_cons, Nat.add_mul]; omega

theorem flat_take (w : Nat) : ∀ (n : Nat) (a : List Int), (a.flatMap (bytes w)).take (n * w) = (a.take n).flatMap (bytes w) := by
  intro n
  induction n with
  | zero => intro a; simp
  | succ n ih =>
    intro a
    cases a with
    | nil => simp
    | cons x a =>
      rw [List.flatMap_cons, List.take_succ_cons, List.flatMap_cons, ← ih a, List.take_append, bytes_length,
        List.take_of_length_le (by rw [bytes_length, Nat.add_mul]; omega)]
      congr 2
      rw [Nat.add_mul]
      omega

theorem digits_inj : ∀ (w c d : Nat), c < 256 ^ w → d < 256 ^ w → (∀ i < w, c / 256 ^ i % 256 = d / 256 ^ i % 256) → c = d := by
  intro w
  induction w with
  | zero => intro c d hc hd _; simp at hc hd; omega
  | succ w ih =>
    intro c d hc hd h
    have h0 := h 0 (by omega)
    simp at h0
    have h1 : c / 256 = d / 256 := by
      apply ih
      · rw [Nat.div_lt_iff_lt_mul (by omega), ← Nat.pow_succ]; exact hc
      · rw [Nat.div_lt_iff_lt_mul (by omega), ← Nat.pow_succ]; exact hd
      · intro i hi
        have := h (i + 1) (by omega)
        rwa [Nat.pow_succ, Nat.mul_comm, ← Nat.div_div_eq_div_mul, ← Nat.div_div_eq_div_mul] at this
    omega

theorem bytes_inj {w : Nat} {c d : Int} (hc : 0 ≤ c ∧ c < 256 ^ w) (hd : 0 ≤ d ∧ d < 256 ^ w) (h : bytes w c = bytes w d) : c = d := by
  have hh := digits_inj w c.toNat d.toNat (by zify; rw [Int.toNat_of_nonneg hc.1]; exact hc.2) (by zify; rw [Int.toNat_of_nonneg hd.1]; exact hd.2) (by
    intro i hi
    have := List.map_inj_left.mp h i (List.mem_range.mpr hi)
    exact_mod_cast this)
  omega

theorem flat_inj (w : Nat) : ∀ (a b : List Int), a.length = b.length → (∀ c ∈ a, 0 ≤ c ∧ c < 256 ^ w) → (∀ c ∈ b, 0 ≤ c ∧ c < 256 ^ w) →
    a.flatMap (bytes w) = b.flatMap (bytes w) → a = b := by
  intro a
  induction a with
  | nil =>
    intro b hl _ _ _
    cases b with
    | nil => rfl
    | cons y b => simp at hl
  | cons x a ih =>
    intro b hl ha hb h
    cases b with
    | nil => simp at hl
    | cons y b =>
      rw [List.flatMap_cons, List.flatMap_cons] at h
      obtain ⟨h1, h2⟩ := List.append_inj h (by rw [bytes_length, bytes_length])
      rw [bytes_inj (ha x (by simp)) (hb y (by simp)) h1, ih b (by simpa using hl) (fun c q => ha c (by simp [q])) (fun c q => hb c (by simp [q])) h2]

theorem flat_one : ∀ (a : List Int), (∀ c ∈ a, 0 ≤ c ∧ c < 256) → a.flatMap (bytes 1) = a := by
  intro a
  induction a with
  | nil => intro _; rfl
  | cons x a ih =>
    intro h
    have hx := h x (by simp)
    rw [List.flatMap_cons, ih (fun c q => h c (by simp [q]))]
    have : bytes 1 x = [x] := by
      simp only [bytes, List.range_one, List.map_cons, List.map_nil, Nat.pow_zero, Nat.div_one, List.cons.injEq, and_true]
      omega
    rw [this]
    rfl

theorem lexSign_min : ∀ (x y : List Int), lexSign x y =
    if lexSign (x.take (min x.length y.length)) (y.take (min x.length y.length)) ≠ 0 then lexSign (x.take (min x.length y.length)) (y.take (min x.length y.length))
    else if x.length > y.length then 1 else if x.length < y.length then -1 else 0 := by
  intro x
  induction x with
  | nil =>
    intro y
    cases y with
    | nil => simp [lexSign]
    | cons b bs => simp [lexSign]
  | cons a as ih =>
    intro y
    cases y with
    | nil => simp [lexSign]
    | cons b bs =>
      have hm : min (a :: as).length (b :: bs).length = min as.length bs.length + 1 := by simp only [List.length_cons]; omega
      rw [hm, List.take_succ_cons, List.take_succ_cons]
      simp only [lexSign, List.length_cons, gt_iff_lt, Nat.add_lt_add_iff_right]
      by_cases h : a = b
      · simp only [if_pos h]
        exact ih bs
      · simp only [if_neg h]
        by_cases h1 : b < a
        · simp only [if_pos h1]; simp
        · simp only [if_neg h1]; simp

/-- What the counted comparison has to be. -/
theorem cmpLen_of {k : Kind} {a b : List Int} {len1 len2 : Nat} (h1 : len1 ≤ a.length) (h2 : len2 ≤ b.length)
    (hk : ∀ n, n ≤ len1 → n ≤ len2 → cmpCount k n a b = .ok (lexSign (a.take n) (b.take n))) :
    cmpLen k a len1 b len2 = .ok (lexSign (a.take len1) (b.take len2)) := by
  unfold cmpLen
  have hm : (if len1 ≤ len2 then len1 else len2) = min len1 len2 := by split <;> omega
  rw [hm, hk _ (by omega) (by omega), Res.bind_ok, lexSign_min (a.take len1) (b.take len2)]
  simp only [List.length_take, Nat.min_eq_left h1, Nat.min_eq_left h2, List.take_take]
  rw [show min (min len1 len2) len1 = min len1 len2 by omega, show min (min len1 len2) len2 = min len1 len2 by omega]
  split
  · rfl
  · split
    · rfl
    · split <;> rfl

/-! ### C153 -/

/-- C153: terminated strings: the length, equality and order are those of the characters before the terminator, whatever follows it.  For character types
without negative values (`char` counts as unsigned). -/
theorem C153_terminated (s1 s2 r1 r2 : List Int) (h1 : ∀ c ∈ s1, 0 < c) (h2 : ∀ c ∈ s2, 0 < c) :
    strLen (s1 ++ 0 :: r1) = .ok s1.length ∧ eqZ (s1 ++ 0 :: r1) (s2 ++ 0 :: r2) = .ok (decide (s1 = s2)) ∧
    ∃ r, cmpZ (s1 ++ 0 :: r1) (s2 ++ 0 :: r2) = .ok r ∧ (r = 0 ↔ s1 = s2) ∧ (r < 0 ↔ s1 < s2) ∧ (0 < r ↔ s2 < s1) := by
  refine ⟨?_, eqZ_spec _ _ _ _ (fun h => by have := h1 0 h; omega) (fun h => by have := h2 0 h; omega), _, cmpZ_spec s1 s2 r1 r2 h1 h2, lexSign_spec s1 s2⟩
  clear h2
  induction s1 with
  | nil => simp [strLen]
  | cons a s ih =>
    have ha := h1 a (by simp)
    rw [List.cons_append]
    unfold strLen
    rw [if_pos (by omega), ih (fun c q => h1 c (by simp [q]))]
    rfl

/-- C153, violated: for signed character types other than `char` the empty string, and every prefix, is greater than a string that goes on with a negative character. -/
theorem C153_signed (s r1 r2 : List Int) (h : (0 : Int) ∉ s) {c : Int} (hc : c < 0) :
    cmpZ (s ++ 0 :: r1) (s ++ c :: r2) = .ok 1 ∧ s < s ++ [c] := by
  constructor
  · induction s with
    | nil =>
      simp only [List.nil_append, cmpZ]
      rw [if_neg (by omega), if_pos hc]
    | cons a s ih =>
      simp only [List.cons_append, cmpZ]
      rw [if_pos trivial, if_pos (fun q => h (by simp [← q]))]
      exact ih (fun q => h (by simp [q]))
  · clear h
    induction s with
    | nil => simp
    | cons a s ih => simp [ih]

/-- C153: strings with lengths, general character types: equal exactly when they have the same characters, ordered lexicographically. -/
theorem C153_counted {a b : List Int} {len1 len2 : Nat} (h1 : len1 ≤ a.length) (h2 : len2 ≤ b.length) :
    eqLen .gen a len1 b len2 = .ok (decide (a.take len1 = b.take len2)) ∧
    ∃ r, cmpLen .gen a len1 b len2 = .ok r ∧ (r = 0 ↔ a.take len1 = b.take len2) ∧ (r < 0 ↔ a.take len1 < b.take len2) ∧ (0 < r ↔ b.take len2 < a.take len1) := by
  refine ⟨?_, _, cmpLen_of h1 h2 (fun n q1 q2 => cmpN_spec n a b (by omega) (by omega)), lexSign_spec _ _⟩
  unfold eqLen
  by_cases h : len1 = len2
  · subst h
    rw [if_neg (by simp)]
    exact eqN_spec _ _ _ h1 h2
  · rw [if_pos h]
    congr 1
    symm
    rw [decide_eq_false_iff_not]
    intro hq
    have := congrArg List.length hq
    rw [List.length_take, List.length_take] at this
    omega

/-- C153 (partial): the same for `char` and `wchar_t`, when there is no terminator among the characters.  Missing: `C153_counted_zero`. -/
theorem C153_counted_char_partial {a b : List Int} {len1 len2 : Nat} (h1 : len1 ≤ a.length) (h2 : len2 ≤ b.length) (h0 : (0 : Int) ∉ a.take len1) :
    eqLen .chr a len1 b len2 = .ok (decide (a.take len1 = b.take len2)) ∧
    ∃ r, cmpLen .chr a len1 b len2 = .ok r ∧ (r = 0 ↔ a.take len1 = b.take len2) ∧ (r < 0 ↔ a.take len1 < b.take len2) ∧ (0 < r ↔ b.take len2 < a.take len1) := by
  have hS : ∀ n, n ≤ len1 → n ≤ len2 → cmpCount .chr n a b = .ok (lexSign (a.take n) (b.take n)) := by
    intro n q1 q2
    exact cmpS_spec n a b (by omega) (by omega) (fun q => h0 (List.take_subset_take_left a q1 q))
  refine ⟨?_, _, cmpLen_of h1 h2 hS, lexSign_spec _ _⟩
  unfold eqLen
  by_cases h : len1 = len2
  · subst h
    rw [if_neg (by simp)]
    simp only [eqCount]
    rw [hS _ (Nat.le_refl _) (Nat.le_refl _), Res.bind_ok]
    congr 1
    have := (lexSign_spec (a.take len1) (b.take len1)).1
    by_cases hq : a.take len1 = b.take len1
    · rw [this.mpr hq, hq]; simp
    · have hn := mt this.mp hq
      simp [hq, hn]
  · rw [if_pos h]
    congr 1
    symm
    rw [decide_eq_false_iff_not]
    intro hq
    have := congrArg List.length hq
    rw [List.length_take, List.length_take] at this
    omega

/-- C153, violated: `char` and `wchar_t` strings that differ only behind a zero character count as equal, although they are given with their lengths; for
other character types they are different. -/
theorem C153_counted_zero (s : List Int) (h : (0 : Int) ∉ s) {x y : Int} (hxy : x ≠ y) :
    eqLen .chr (s ++ [0, x]) (s.length + 2) (s ++ [0, y]) (s.length + 2) = .ok true ∧
    cmpLen .chr (s ++ [0, x]) (s.length + 2) (s ++ [0, y]) (s.length + 2) = .ok 0 ∧
    eqLen .gen (s ++ [0, x]) (s.length + 2) (s ++ [0, y]) (s.length + 2) = .ok false := by
  have hS : cmpS (s.length + 2) (s ++ [0, x]) (s ++ [0, y]) = .ok 0 := by
    induction s with
    | nil => simp [cmpS]
    | cons a s ih =>
      have ha : a ≠ 0 := fun q => h (by simp [← q])
      simp only [List.cons_append, List.length_cons]
      rw [show s.length + 1 + 2 = (s.length + 2) + 1 by omega]
      simp only [cmpS]
      rw [if_neg (by simp), if_neg ha]
      exact ih (fun q => h (by simp [q]))
  refine ⟨?_, ?_, ?_⟩
  · unfold eqLen
    rw [if_neg (by simp)]
    simp only [eqCount, cmpCount]
    rw [hS]
    rfl
  · unfold cmpLen
    rw [if_pos (Nat.le_refl _)]
    simp only [cmpCount]
    rw [hS, Res.bind_ok]
    simp
  · rw [(C153_counted (by simp) (by simp)).1]
    congr 1
    rw [decide_eq_false_iff_not, List.take_of_length_le (by simp), List.take_of_length_le (by simp)]
    simp [hxy]

/-- C153, violated: `stl::StrEqual` with lengths never says that two strings are equal: with equal lengths it is undefined. -/
theorem C153_stl_equal (w : Nat) {a b : List Int} {len1 len2 : Nat} (h1 : len1 ≤ a.length) (h2 : len2 ≤ b.length) :
    eqLen (.stl w) a len1 b len2 = if len1 = len2 then .ub else .ok false := by
  unfold eqLen
  by_cases h : len1 = len2
  · subst h
    rw [if_neg (by simp), if_pos rfl]
    simp only [eqCount, cmpCount]
    rw [cmpN_spec _ _ _ (by rw [flat_length]; exact Nat.mul_le_mul_right _ h1) (by rw [flat_length]; exact Nat.mul_le_mul_right _ h2)]
    rfl
  · rw [if_pos h, if_neg h]

/-- C153: `stl::StrEqual` with a count is right for characters of any width. -/
theorem C153_stl_count (w n : Nat) {a b : List Int} (h1 : n ≤ a.length) (h2 : n ≤ b.length)
    (ha : ∀ c ∈ a, 0 ≤ c ∧ c < 256 ^ w) (hb : ∀ c ∈ b, 0 ≤ c ∧ c < 256 ^ w) : eqCount (.stl w) n a b = .ok (decide (a.take n = b.take n)) := by
  simp only [eqCount, cmpCount]
  rw [cmpN_spec _ _ _ (by rw [flat_length]; exact Nat.mul_le_mul_right _ h1) (by rw [flat_length]; exact Nat.mul_le_mul_right _ h2), Res.bind_ok, flat_take, flat_take]
  congr 1
  have := (lexSign_spec ((a.take n).flatMap (bytes w)) ((b.take n).flatMap (bytes w))).1
  by_cases hq : a.take n = b.take n
  · rw [hq, (lexSign_spec _ _).1.mpr rfl]; simp
  · have hn := mt this.mp (fun h => hq (flat_inj w _ _ (by rw [List.length_take, List.length_take]; omega)
      (fun c q => ha c (List.mem_of_mem_take q)) (fun c q => hb c (List.mem_of_mem_take q)) h))
    simp [hq, hn]

/-- C153 (partial): `stl::StrCmp` orders strings of one-byte characters.  Missing: `C153_stl_order`. -/
theorem C153_stl_cmp_partial {a b : List Int} {len1 len2 : Nat} (h1 : len1 ≤ a.length) (h2 : len2 ≤ b.length)
    (ha : ∀ c ∈ a, 0 ≤ c ∧ c < 256) (hb : ∀ c ∈ b, 0 ≤ c ∧ c < 256) :
    ∃ r, cmpLen (.stl 1) a len1 b len2 = .ok r ∧ (r = 0 ↔ a.take len1 = b.take len2) ∧ (r < 0 ↔ a.take len1 < b.take len2) ∧ (0 < r ↔ b.take len2 < a.take len1) := by
  refine ⟨_, cmpLen_of h1 h2 (fun n q1 q2 => ?_), lexSign_spec _ _⟩
  simp only [cmpCount]
  rw [flat_one a ha, flat_one b hb, Nat.mul_one]
  exact cmpN_spec n a b (by omega) (by omega)

/-- C153, violated: wider characters are ordered by their lowest byte first. -/
theorem C153_stl_order {w : Nat} (hw : 1 ≤ w) {c d : Int} (h : c.toNat % 256 < d.toNat % 256) : cmpLen (.stl w) [c] 1 [d] 1 = .ok (-1) := by
  obtain ⟨w, rfl⟩ := Nat.exists_eq_add_of_le' hw
  unfold cmpLen
  rw [if_pos (Nat.le_refl _)]
  simp only [cmpCount, Nat.one_mul, List.flatMap_cons, List.flatMap_nil, List.append_nil, bytes, List.range_succ_eq_map, List.map_cons, Nat.pow_zero, Nat.div_one, cmpN]
  rw [if_pos (by omega), if_neg (by omega)]
  rfl

/-- C153, violated: so the order is wrong for every width above one byte. -/
theorem C153_stl_order_wrong {w : Nat} (hw : 2 ≤ w) : ∃ c d : Int, 0 ≤ d ∧ d < c ∧ c < 256 ^ w ∧ cmpLen (.stl w) [c] 1 [d] 1 = .ok (-1) := by
  refine ⟨256, 1, by omega, by omega, ?_, C153_stl_order (by omega) (by decide)⟩
  calc (256 : Int) < 256 ^ 2 := by norm_num
    _ ≤ 256 ^ w := pow_le_pow_right₀ (by norm_num) hw

/-- C153: null pointers: a null pointer is smaller than any other, equal to a null pointer of the same length only; so it differs from an empty string that is not null. -/
theorem C153_null (k : Kind) (a : List Int) (len1 len2 : Nat) :
    eqSafe k none len1 (some a) len2 = .ok false ∧ eqSafe k (some a) len1 none len2 = .ok false ∧ eqSafe k none len1 none len2 = .ok (len1 == len2) ∧
    cmpSafe k none len1 (some a) len2 = .ok (-1) ∧ cmpSafe k (some a) len1 none len2 = .ok 1 := by
  refine ⟨?_, ?_, ?_, rfl, rfl⟩
  · unfold eqSafe; split <;> rfl
  · unfold eqSafe; split <;> rfl
  · unfold eqSafe
    by_cases h : len1 = len2
    · rw [if_neg (by simp [h])]; simp [eqSafeCount, h]
    · rw [if_pos h]; simp [h]

/-- C153: with pointers that are not null the safe functions are the others, and `stl::StrEqualSafe` has no missing `return`. -/
theorem C153_safe (k : Kind) {a b : List Int} (len1 len2 : Nat) :
    cmpSafe k (some a) len1 (some b) len2 = cmpLen k a len1 b len2 ∧
    ((∀ w, k ≠ .stl w) → eqSafe k (some a) len1 (some b) len2 = eqLen k a len1 b len2) ∧
    (∀ w, k = .stl w → len1 ≤ a.length → len2 ≤ b.length → (∀ c ∈ a, 0 ≤ c ∧ c < 256 ^ w) → (∀ c ∈ b, 0 ≤ c ∧ c < 256 ^ w) →
      eqSafe k (some a) len1 (some b) len2 = .ok (decide (a.take len1 = b.take len2))) := by
  refine ⟨rfl, fun hk => ?_, fun w hk h1 h2 ha hb => ?_⟩
  · cases k with
    | stl w => exact absurd rfl (hk w)
    | _ => rfl
  · subst hk
    unfold eqSafe
    by_cases h : len1 = len2
    · subst h
      rw [if_neg (by simp)]
      exact C153_stl_count w len1 h1 h2 ha hb
    · rw [if_pos h]
      congr 1
      symm
      rw [decide_eq_false_iff_not]
      intro hq
      have := congrArg List.length hq
      rw [List.length_take, List.length_take] at this
      omega

/-! ### Examples -/

example : eqZ [1, 2, 0, 9] [1, 2, 0] = .ok true ∧ cmpZ [1, 2, 0] [1, 3, 0] = .ok (-1) ∧ cmpZ [1, 0] [0] = .ok 1 := by decide
example : cmpZ [7, 0] [7, -128, 0] = .ok 1 := by decide
example : eqLen .gen [1, 0, 2] 3 [1, 0, 3] 3 = .ok false ∧ eqLen .chr [1, 0, 2] 3 [1, 0, 3] 3 = .ok true := by decide
example : eqLen (.stl 2) [1, 2] 2 [1, 2] 2 = .ub ∧ eqSafe (.stl 2) (some [1, 2]) 2 (some [1, 2]) 2 = .ok true := by decide
example : cmpLen (.stl 2) [256] 1 [1] 1 = .ok (-1) ∧ cmpLen .gen [256] 1 [1] 1 = .ok 1 := by decide
example : eqSafe .chr none 0 (some [0]) 0 = .ok false := by decide

end Verif.StrFn
