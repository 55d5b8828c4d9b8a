/-
Decimal numbers: `math/log10_int.h` (LG) and the digit counting and integer output of `string/formatter.h` (FM).
C64 and C65.

Simplifications: an output buffer is filled downwards without gaps, so it is represented by its size, the index `top` of the
first write and the list of characters written so far (lowest index first); the next write goes to index `top - length`.
Decrementing a pointer is never an error, only a write through it is.
-/
import Verif.Bits

namespace Verif.Digits
open Verif.Bits

/-! ### Logarithm and number of digits -/

/-- `s_power10` (LG:22-36). -/
def power10 : List Nat :=
  [9, 99, 999, 9999, 99999, 999999, 9999999, 99999999, 999999999, 4294967295, 0, 0, 0, 0, 0, 0]

/-- `s_power10_64` (LG:38-62). -/
def power10_64 : List Nat :=
  [9, 99, 999, 9999, 99999, 999999, 9999999, 99999999, 999999999, 9999999999, 99999999999, 999999999999, 9999999999999,
   99999999999999, 999999999999999, 9999999999999999, 99999999999999999, 999999999999999999, 9999999999999999999,
   18446744073709551615, 0, 0, 0, 0]

/-- `jm_log10_u32` (LG:64-87) and `jm_log10_u64` (LG:92-115), which differ in the table only. -/
def log10 (tbl : List Nat) (val : Nat) : Res Nat :=
  if 10 ≤ val then
    let exp10 := (bsr val * 2525222 % 2 ^ 32) >>> 23
    match tbl[exp10]? with
    | none => .ub
    | some t => .ok (if t < val then exp10 + 1 else exp10)
  else .ok 0

/-- `count_digits<delta>(uint32_t)` (FM:143-186). -/
def countDigitsU32 (delta : Int) (u : Nat) : Res Int := (log10 power10 u).bind fun r => .ok ((r + 1 : Nat) - delta)

/-- `count_digits<delta>(uint64_t)` on x86-64 (FM:201-206). -/
def countDigitsU64 (delta : Int) (u : Nat) : Res Int := (log10 power10_64 u).bind fun r => .ok ((r + 1 : Nat) - delta)

/-- `count_digits<delta>(uint64_t)` on other targets (FM:207-282), without the subtraction of `delta`. -/
def countDigitsLadder (u : Nat) : Nat :=
  if u < 100000000 then
    if u < 10000 then
      if u < 100 then (if u < 10 then 1 else 2) else (if u < 1000 then 3 else 4)
    else
      if u < 1000000 then (if u < 100000 then 5 else 6) else (if u < 10000000 then 7 else 8)
  else if u < 10000000000000000 then
    if u < 1000000000000 then
      if u < 10000000000 then (if u < 1000000000 then 9 else 10) else (if u < 100000000000 then 11 else 12)
    else
      if u < 100000000000000 then (if u < 10000000000000 then 13 else 14) else (if u < 1000000000000000 then 15 else 16)
  else
    if u < 1000000000000000000 then (if u < 100000000000000000 then 17 else 18)
    else (if u < 10000000000000000000 then 19 else 20)

/-- `count_digits<delta>(uint8_t)` (FM:99-108) and `count_digits<delta>(uint16_t)` (FM:121-130): the same text. -/
def countDigitsSmall (delta : Int) (u : Nat) : Int := if u < 10 then 1 - delta else if u < 100 then 2 - delta else 3 - delta

/-- `count_digits<delta>` of a signed number of `bits` bits (FM:110-119 and 132-141, where the operand of the minus is promoted to
`int` and the negation cannot overflow; FM:188-199 and 285-296, where `-i` of the least number is undefined). -/
def countDigitsSigned (bits : Nat) (count : Nat → Res Int) (i : Int) : Res Int :=
  if 0 ≤ i then count i.toNat
  else if 32 ≤ bits ∧ i = -2 ^ (bits - 1) then .ub
  else (count ((-i).toNat % 2 ^ bits)).bind fun r => .ok (1 + r)

/-! ### Output -/

/-- `*buf_last = c; buf_last--` into a buffer of `size` characters. -/
def put (size top : Nat) (w : List Nat) (c : Nat) : Res (List Nat) :=
  if w.length ≤ top ∧ top - w.length < size then .ok (c :: w) else .ub

/-- The loop `while (u >= 100)` (FM:321-331, 378-388, 537-547). -/
def itoaLoop (size top : Nat) : Nat → Nat → List Nat → Res (Nat × List Nat)
  | 0, _, _ => .diverge
  | f + 1, u, w =>
    if 100 ≤ u then
      (put size top w (u % 10 + 48)).bind fun w1 =>
      (put size top w1 (u / 10 % 10 + 48)).bind fun w2 => itoaLoop size top f (u / 10 / 10) w2
    else .ok (u, w)

/-- The two last digits (FM:333-341, 390-398, 549-558). -/
def itoaTail (size top : Nat) (u : Nat) (w : List Nat) : Res (List Nat) :=
  if 10 ≤ u then (put size top w (u % 10 + 48)).bind fun w1 => put size top w1 (u / 10 + 48)
  else put size top w (u + 48)

/-- `str.append(buf_last, buf_end)` and `data_len = buf_end - buf_last` (FM:346-349, 403-406): the characters from the last one
written up to index `bufEnd`.  A reversed range and characters that were never written are `ub`. -/
def appendRange (top bufEnd : Nat) (w : List Nat) : Res (List Nat × Nat) :=
  let last := top + 1 - w.length
  if last ≤ bufEnd ∧ bufEnd ≤ top + 1 then .ok (w.take (bufEnd - last), bufEnd - last) else .ub

/-- Write all digits of `u`, then append. -/
def itoaBuf (size top bufEnd u : Nat) : Res (List Nat × Nat) :=
  (itoaLoop size top (u + 1) u []).bind fun (u', w) =>
  (itoaTail size top u' w).bind fun w' => appendRange top bufEnd w'

/-- `itoa(std::basic_string &, uint32_t)` with characters of `cw` bytes (FM:313-350): the characters appended and the result.
`sizeof(buf)` counts bytes. -/
def itoaU32 (cw u : Nat) : Res (List Nat × Nat) := itoaBuf 16 (16 * cw - 6) (16 * cw - 5) u

/-- `itoa(std::basic_string &, uint64_t)` (FM:370-407). -/
def itoaU64 (cw u : Nat) : Res (List Nat × Nat) := itoaBuf 32 (32 * cw - 13) (32 * cw - 14) u

/-- `itoa(std::basic_string &, int32_t)` (FM:352-368) and `int64_t` (FM:409-425), for the number of `bits` bits. -/
def itoaSigned (bits : Nat) (pos : Nat → Res (List Nat × Nat)) (i : Int) : Res (List Nat × Nat) :=
  if 0 ≤ i then pos i.toNat
  else if i = -2 ^ (bits - 1) then .ub
  else (pos (-i).toNat).bind fun (l, n) => .ok (45 :: l, n + 1)

/-- The `switch (digits)` with fall-through (FM:445-514, 601-724, 778-846, 890-1012), for `1 ≤ digits`: `digits - 1` times the
lowest digit, then what is left, as an 8-bit character. -/
def itoaSwitch (size top : Nat) : Nat → Nat → List Nat → Res (List Nat)
  | 0, u, w => put size top w ((u + 48) % 256)
  | n + 1, u, w => (put size top w (u % 10 + 48)).bind fun w1 => itoaSwitch size top n (u / 10) w1

/-- `itoa(std::string &, uint32_t, digits)` (FM:768-858, 8-bit characters); `none` is the exception. -/
def itoaU32D (u digits : Nat) : Option (Res (List Nat × Nat)) :=
  if digits = 0 ∨ 10 < digits then none
  else some ((itoaSwitch 16 10 (digits - 1) u []).bind fun w => (appendRange 10 11 w).bind fun (l, _) => .ok (l, digits))

/-- `itoa(std::string &, uint64_t, digits)` (FM:881-1024, 8-bit characters). -/
def itoaU64D (u digits : Nat) : Option (Res (List Nat × Nat)) :=
  if digits = 0 ∨ 19 < digits then none
  else some ((itoaSwitch 32 19 (digits - 1) u []).bind fun w => (appendRange 19 18 w).bind fun (l, _) => .ok (l, digits))

/-- `itoa(string_view &, uint32_t, digits)` (FM:436-526, `maxD = 10`) and `uint64_t` (FM:593-736, `maxD = 19`) into a view with
room for `room` characters: what is written to `data[0..digits)`. -/
def itoaView (maxD room u digits : Nat) : Option (Res (List Nat)) :=
  if digits = 0 ∨ maxD < digits then none
  else some (itoaSwitch room (digits - 1) (digits - 1) u [])

/-! ### The specification: decimal representation -/

/-- The decimal representation of a number as character codes (Lean's own `Nat.repr`). -/
def decimal (u : Nat) : List Nat := u.repr.toList.map Char.toNat

theorem decimal_lt {u : Nat} (h : u < 10) : decimal u = [u + 48] := by
  unfold decimal
  rw [Nat.toList_repr, Nat.toDigits_of_lt_base h]
  have : ∀ u : Fin 10, [u.val.digitChar].map Char.toNat = [u.val + 48] := by decide
  exact this ⟨u, h⟩

theorem decimal_ge {u : Nat} (h : 10 ≤ u) : decimal u = decimal (u / 10) ++ [u % 10 + 48] := by
  have h1 : u.repr.toList = (u / 10).repr.toList ++ (u % 10).repr.toList := by
    simp only [Nat.toList_repr]
    rw [Nat.toDigits_of_base_le (by decide) h, Nat.toDigits_of_lt_base (Nat.mod_lt u (by decide))]
  unfold decimal
  rw [h1, List.map_append]
  congr 1
  exact decimal_lt (Nat.mod_lt u (by decide))

theorem decimal_length_pos (u : Nat) : 0 < (decimal u).length := by
  unfold decimal
  rw [List.length_map, Nat.toList_repr]
  exact Nat.length_toDigits_pos

theorem decimal_length_le {u k : Nat} (hk : 0 < k) : (decimal u).length ≤ k ↔ u < 10 ^ k := by
  unfold decimal
  rw [List.length_map, Nat.toList_repr]
  exact Nat.length_toDigits_le_iff (by decide) hk

theorem decimal_length_eq {u k : Nat} (h1 : 10 ^ k ≤ u ∨ k = 0) (h2 : u < 10 ^ (k + 1)) : (decimal u).length = k + 1 := by
  have a := (decimal_length_le (u := u) (k := k + 1) (by omega)).2 h2
  have := decimal_length_pos u
  rcases h1 with h1 | h1
  · rcases Nat.eq_zero_or_pos k with h0 | h0
    · omega
    · have b := (decimal_length_le (u := u) h0)
      omega
  · omega

/-! ### C64: logarithm and number of digits -/

theorem log10_core (tbl : List Nat) (B : Nat)
    (ht : ∀ k, k < B → 3 ≤ k → ∃ t, tbl[(k * 2525222 % 2 ^ 32) >>> 23]? = some t ∧
      10 ^ ((k * 2525222 % 2 ^ 32) >>> 23) ≤ 2 ^ k ∧ 2 ^ (k + 1) ≤ 10 ^ ((k * 2525222 % 2 ^ 32) >>> 23 + 2) ∧
      (t + 1 = 10 ^ ((k * 2525222 % 2 ^ 32) >>> 23 + 1) ∨ t + 1 = 2 ^ B ∧ 2 ^ B ≤ 10 ^ ((k * 2525222 % 2 ^ 32) >>> 23 + 1)))
    {val : Nat} (h : val < 2 ^ B) (h0 : 0 < val) :
    ∃ r, log10 tbl val = .ok r ∧ 10 ^ r ≤ val ∧ val < 10 ^ (r + 1) := by
  unfold log10
  by_cases h10 : 10 ≤ val
  · simp only [if_pos h10]
    have l1 : 2 ^ bsr val ≤ val := Nat.log2_self_le (by omega)
    have l2 : val < 2 ^ (bsr val + 1) := Nat.lt_log2_self
    have k1 : bsr val < B := by
      by_contra hc
      have := Nat.pow_le_pow_right (show 0 < 2 by decide) (show B ≤ bsr val by omega)
      omega
    have k2 : 3 ≤ bsr val := by
      by_contra hc
      have := Nat.pow_le_pow_right (show 0 < 2 by decide) (show bsr val + 1 ≤ 3 by omega)
      omega
    obtain ⟨t, e, a1, a2, a3⟩ := ht _ k1 k2
    generalize (bsr val * 2525222 % 2 ^ 32) >>> 23 = x at *
    rw [e]
    by_cases hv : t < val
    · refine ⟨x + 1, by simp [hv], ?_, (by show val < 10 ^ (x + 2); omega)⟩
      rcases a3 with a3 | a3 <;> omega
    · refine ⟨x, by simp [hv], by omega, ?_⟩
      rcases a3 with a3 | a3 <;> omega
  · exact ⟨0, by rw [if_neg h10], by omega, by omega⟩

/-- C64.  `jm_log10_u32` returns the integer part of the decimal logarithm of every positive 32-bit number. -/
theorem log10_u32_eq {val : Nat} (h : val < 2 ^ 32) (h0 : 0 < val) :
    ∃ r, log10 power10 val = .ok r ∧ 10 ^ r ≤ val ∧ val < 10 ^ (r + 1) := by
  refine log10_core power10 32 ?_ h h0
  intro k h1 h2
  have : ∀ k : Fin 32, 3 ≤ k.val → (power10[(k.val * 2525222 % 2 ^ 32) >>> 23]?.any fun t => decide (
      10 ^ ((k.val * 2525222 % 2 ^ 32) >>> 23) ≤ 2 ^ k.val ∧ 2 ^ (k.val + 1) ≤ 10 ^ ((k.val * 2525222 % 2 ^ 32) >>> 23 + 2) ∧
      (t + 1 = 10 ^ ((k.val * 2525222 % 2 ^ 32) >>> 23 + 1) ∨
        t + 1 = 2 ^ 32 ∧ 2 ^ 32 ≤ 10 ^ ((k.val * 2525222 % 2 ^ 32) >>> 23 + 1)))) = true := by decide +kernel
  have := this ⟨k, h1⟩ h2
  rw [Option.any_eq_true] at this
  obtain ⟨t, e, hd⟩ := this
  exact ⟨t, e, of_decide_eq_true hd⟩

/-- C64.  `jm_log10_u64` returns the integer part of the decimal logarithm of every positive 64-bit number. -/
theorem log10_u64_eq {val : Nat} (h : val < 2 ^ 64) (h0 : 0 < val) :
    ∃ r, log10 power10_64 val = .ok r ∧ 10 ^ r ≤ val ∧ val < 10 ^ (r + 1) := by
  refine log10_core power10_64 64 ?_ h h0
  intro k h1 h2
  have : ∀ k : Fin 64, 3 ≤ k.val → (power10_64[(k.val * 2525222 % 2 ^ 32) >>> 23]?.any fun t => decide (
      10 ^ ((k.val * 2525222 % 2 ^ 32) >>> 23) ≤ 2 ^ k.val ∧ 2 ^ (k.val + 1) ≤ 10 ^ ((k.val * 2525222 % 2 ^ 32) >>> 23 + 2) ∧
      (t + 1 = 10 ^ ((k.val * 2525222 % 2 ^ 32) >>> 23 + 1) ∨
        t + 1 = 2 ^ 64 ∧ 2 ^ 64 ≤ 10 ^ ((k.val * 2525222 % 2 ^ 32) >>> 23 + 1)))) = true := by decide +kernel
  have := this ⟨k, h1⟩ h2
  rw [Option.any_eq_true] at this
  obtain ⟨t, e, hd⟩ := this
  exact ⟨t, e, of_decide_eq_true hd⟩

example : log10 power10 999999999 = .ok 8 ∧ log10 power10 1000000000 = .ok 9 ∧ log10 power10_64 (2 ^ 64 - 1) = .ok 19 := by
  decide +kernel

/-- C64.  `count_digits` of an unsigned 32-bit or 64-bit number is the length of its decimal representation, 0 included. -/
theorem countDigits_unsigned (delta : Int) (u : Nat) :
    (u < 2 ^ 32 → countDigitsU32 delta u = .ok ((decimal u).length - delta)) ∧
      (u < 2 ^ 64 → countDigitsU64 delta u = .ok ((decimal u).length - delta)) ∧
      (u < 2 ^ 64 → countDigitsLadder u = (decimal u).length) := by
  have z : u = 0 → (decimal u).length = 1 := by intro h; subst h; rw [decimal_lt (by decide)]; rfl
  refine ⟨fun h => ?_, fun h => ?_, fun h => ?_⟩
  · unfold countDigitsU32
    by_cases h0 : 0 < u
    · obtain ⟨r, e, a, b⟩ := log10_u32_eq h h0
      rw [e, decimal_length_eq (.inl a) b]
      rfl
    · rw [z (by omega), show u = 0 by omega]
      rfl
  · unfold countDigitsU64
    by_cases h0 : 0 < u
    · obtain ⟨r, e, a, b⟩ := log10_u64_eq h h0
      rw [e, decimal_length_eq (.inl a) b]
      rfl
    · rw [z (by omega), show u = 0 by omega]
      rfl
  · have L : ∀ k a b, a = 10 ^ k → b = 10 ^ (k + 1) → (a ≤ u ∨ k = 0) → u < b → k + 1 = (decimal u).length := by
      intro k a b ha hb h1 h2
      subst ha hb
      exact (decimal_length_eq h1 h2).symm
    unfold countDigitsLadder
    repeat' split
    · exact L 0 1 10 rfl rfl (.inr rfl) (by omega)
    · exact L 1 10 100 rfl rfl (.inl (by omega)) (by omega)
    · exact L 2 100 1000 rfl rfl (.inl (by omega)) (by omega)
    · exact L 3 1000 10000 rfl rfl (.inl (by omega)) (by omega)
    · exact L 4 10000 100000 rfl rfl (.inl (by omega)) (by omega)
    · exact L 5 100000 1000000 rfl rfl (.inl (by omega)) (by omega)
    · exact L 6 1000000 10000000 rfl rfl (.inl (by omega)) (by omega)
    · exact L 7 10000000 100000000 rfl rfl (.inl (by omega)) (by omega)
    · exact L 8 100000000 1000000000 rfl rfl (.inl (by omega)) (by omega)
    · exact L 9 1000000000 10000000000 rfl rfl (.inl (by omega)) (by omega)
    · exact L 10 10000000000 100000000000 rfl rfl (.inl (by omega)) (by omega)
    · exact L 11 100000000000 1000000000000 rfl rfl (.inl (by omega)) (by omega)
    · exact L 12 1000000000000 10000000000000 rfl rfl (.inl (by omega)) (by omega)
    · exact L 13 10000000000000 100000000000000 rfl rfl (.inl (by omega)) (by omega)
    · exact L 14 100000000000000 1000000000000000 rfl rfl (.inl (by omega)) (by omega)
    · exact L 15 1000000000000000 10000000000000000 rfl rfl (.inl (by omega)) (by omega)
    · exact L 16 10000000000000000 100000000000000000 rfl rfl (.inl (by omega)) (by omega)
    · exact L 17 100000000000000000 1000000000000000000 rfl rfl (.inl (by omega)) (by omega)
    · exact L 18 1000000000000000000 10000000000000000000 rfl rfl (.inl (by omega)) (by omega)
    · exact L 19 10000000000000000000 100000000000000000000 rfl rfl (.inl (by omega)) (by omega)

example : countDigitsU32 0 4294967295 = .ok 10 ∧ countDigitsU64 1 0 = .ok 0 := by decide +kernel

/-- C64.  `count_digits` of an 8-bit number is the length of its decimal representation; for a 16-bit number that is true exactly
for the numbers below 1000. -/
theorem countDigits_small (delta : Int) {u : Nat} :
    (u < 2 ^ 8 → countDigitsSmall delta u = (decimal u).length - delta) ∧
      (countDigitsSmall delta u = (decimal u).length - delta ↔ u < 1000) := by
  have key : countDigitsSmall delta u = (decimal u).length - delta ↔ u < 1000 := by
    have h3 := decimal_length_le (u := u) (k := 3) (by omega)
    unfold countDigitsSmall
    split
    · next h => rw [decimal_length_eq (k := 0) (.inr rfl) (by omega)]; omega
    · split
      · next h => rw [decimal_length_eq (k := 1) (.inl (by omega)) (by omega)]; omega
      · next h1 h2 =>
        constructor
        · intro h; omega
        · intro h
          rw [decimal_length_eq (k := 2) (.inl (by omega)) (by omega)]
          omega
  exact ⟨fun h => key.2 (by omega), key⟩

/-- C64, the violation for 16-bit numbers. -/
example : countDigitsSmall 0 65535 = 3 ∧ (decimal 65535).length = 5 :=
  ⟨by decide, decimal_length_eq (k := 4) (.inl (by decide)) (by decide)⟩

/-- The length of the decimal representation of an integer, sign included. -/
def decimalLen (i : Int) : Nat := (if i < 0 then 1 else 0) + (decimal i.natAbs).length

/-- C64 for signed numbers (partial: not for the least number).  The sign counts as one character. -/
theorem countDigits_signed_partial (i : Int) :
    (-2 ^ 31 < i → i < 2 ^ 31 → countDigitsSigned 32 (countDigitsU32 0) i = .ok (decimalLen i)) ∧
      (-2 ^ 63 < i → i < 2 ^ 63 → countDigitsSigned 64 (countDigitsU64 0) i = .ok (decimalLen i)) := by
  have key : ∀ (bits : Nat) (f : Nat → Res Int), (∀ u, u < 2 ^ bits → f u = .ok ((decimal u).length)) →
      -2 ^ (bits - 1) < i → i < 2 ^ bits → i.natAbs < 2 ^ bits → countDigitsSigned bits f i = .ok (decimalLen i) := by
    intro bits f hf h1 h2 h3
    unfold countDigitsSigned decimalLen
    by_cases hi : 0 ≤ i
    · have e : i.toNat = i.natAbs := by omega
      rw [if_pos hi, e, hf _ h3, if_neg (by omega)]
      simp
    · have e : (-i).toNat = i.natAbs := by omega
      rw [if_neg hi, if_neg (by omega), e, Nat.mod_eq_of_lt h3, hf _ h3, if_pos (by omega), Res.bind_ok]
      simp
  refine ⟨fun h1 h2 => ?_, fun h1 h2 => ?_⟩
  · exact key 32 _ (fun u hu => by rw [(countDigits_unsigned 0 u).1 hu]; simp) h1 (by omega) (by omega)
  · exact key 64 _ (fun u hu => by rw [(countDigits_unsigned 0 u).2.1 hu]; simp) h1 (by omega) (by omega)

example : countDigitsSigned 32 (countDigitsU32 0) (-2147483647) = .ok 11 := by decide +kernel

/-- C64, the violation: `count_digits(INT32_MIN)` and `count_digits(INT64_MIN)` negate the least number, which overflows. -/
theorem countDigits_min_ub (f : Nat → Res Int) :
    countDigitsSigned 32 f (-2 ^ 31) = .ub ∧ countDigitsSigned 64 f (-2 ^ 63) = .ub := by
  constructor <;> · unfold countDigitsSigned; rw [if_neg (by omega), if_pos (by constructor <;> omega)]

/-- C64 for `int8_t`, without exception. -/
theorem countDigits_i8 {i : Int} (h1 : -2 ^ 7 ≤ i) (h2 : i < 2 ^ 7) :
    countDigitsSigned 8 (fun u => .ok (countDigitsSmall 0 u)) i = .ok (decimalLen i) := by
  unfold countDigitsSigned decimalLen
  by_cases hi : 0 ≤ i
  · have e : i.toNat = i.natAbs := by omega
    rw [if_pos hi, e, if_neg (by omega)]
    show Res.ok (countDigitsSmall 0 _) = _
    rw [(countDigits_small 0).1 (by omega)]
    simp
  · have e : (-i).toNat = i.natAbs := by omega
    rw [if_neg hi, if_neg (by omega), e, Nat.mod_eq_of_lt (by omega), if_pos (by omega), Res.bind_ok,
      (countDigits_small 0).1 (by omega)]
    simp

example : countDigitsSigned 8 (fun u => .ok (countDigitsSmall 0 u)) (-128) = .ok 4 := by decide +kernel

/-! ### C65: integer output -/

theorem put_ok {size top : Nat} {w : List Nat} (c : Nat) (ht : top < size) (h : w.length ≤ top) : put size top w c = .ok (c :: w) := by
  unfold put
  rw [if_pos ⟨h, by omega⟩]

theorem itoaLoop_eq (size top : Nat) (ht : top < size) : ∀ (f u : Nat) (w : List Nat), u < f →
    w.length + (decimal u).length ≤ top + 1 →
    ((itoaLoop size top f u w).bind fun (u', w') => itoaTail size top u' w') = .ok (decimal u ++ w) := by
  intro f
  induction f with
  | zero => intro u w h; omega
  | succ f ih =>
    intro u w hf hl
    unfold itoaLoop
    by_cases h100 : 100 ≤ u
    · have e : decimal u = decimal (u / 10 / 10) ++ [u / 10 % 10 + 48] ++ [u % 10 + 48] := by
        rw [decimal_ge (by omega), decimal_ge (u := u / 10) (by omega)]
      have hp := decimal_length_pos (u / 10 / 10)
      rw [e] at hl ⊢
      simp only [List.length_append, List.length_singleton] at hl
      rw [if_pos h100, put_ok _ ht (by omega), Res.bind_ok, put_ok _ ht (by simp only [List.length_cons]; omega), Res.bind_ok,
        ih _ _ (by omega) (by simp only [List.length_cons]; omega)]
      simp
    · rw [if_neg h100, Res.bind_ok]
      show itoaTail size top u w = _
      unfold itoaTail
      by_cases h10 : 10 ≤ u
      · have e : decimal u = [u / 10 + 48] ++ [u % 10 + 48] := by
          rw [decimal_ge h10, decimal_lt (u := u / 10) (by omega)]
        rw [e] at hl ⊢
        simp only [List.length_append, List.length_singleton] at hl
        rw [if_pos h10, put_ok _ ht (by omega), Res.bind_ok, put_ok _ ht (by simp only [List.length_cons]; omega)]
        simp
      · have e := decimal_lt (u := u) (by omega)
        rw [e] at hl ⊢
        simp only [List.length_singleton] at hl
        rw [if_neg h10, put_ok _ ht (by omega)]
        rfl

theorem itoaBuf_eq {size top : Nat} (bufEnd u : Nat) (ht : top < size) (hl : (decimal u).length ≤ top + 1) :
    itoaBuf size top bufEnd u = appendRange top bufEnd (decimal u) := by
  have h := itoaLoop_eq size top ht (u + 1) u [] (by omega) (by simpa using hl)
  rw [List.append_nil] at h
  unfold itoaBuf
  cases hq : itoaLoop size top (u + 1) u [] with
  | ok x =>
    rw [hq, Res.bind_ok] at h
    rw [Res.bind_ok]
    show (itoaTail size top x.1 x.2).bind _ = _
    have h : itoaTail size top x.1 x.2 = .ok (decimal u) := h
    rw [h, Res.bind_ok]
  | diverge => rw [hq] at h; cases h
  | ub => rw [hq] at h; cases h

/-- C65.  `itoa(std::string &, uint32_t)` appends the decimal representation of the number and returns its length, for all
numbers. -/
theorem itoaU32_eq {u : Nat} (h : u < 2 ^ 32) : itoaU32 1 u = .ok (decimal u, (decimal u).length) := by
  have hl := (decimal_length_le (u := u) (k := 10) (by omega)).2 (by omega)
  unfold itoaU32
  rw [itoaBuf_eq _ _ (by omega) (by omega)]
  unfold appendRange
  simp only
  rw [if_pos (by omega)]
  have e : 16 * 1 - 5 - (16 * 1 - 6 + 1 - (decimal u).length) = (decimal u).length := by omega
  rw [e, List.take_length]

example : itoaU32 1 4294967295 = .ok ([52, 50, 57, 52, 57, 54, 55, 50, 57, 53], 10) := by decide +kernel

/-- The decimal representation of an integer. -/
def decimalInt (i : Int) : List Nat := if i < 0 then 45 :: decimal i.natAbs else decimal i.natAbs

/-- C65 for signed 32-bit numbers (partial: not for the least number). -/
theorem itoaI32_partial {i : Int} (h1 : -2 ^ 31 < i) (h2 : i < 2 ^ 31) :
    itoaSigned 32 (itoaU32 1) i = .ok (decimalInt i, (decimalInt i).length) := by
  unfold itoaSigned decimalInt
  by_cases hi : 0 ≤ i
  · have e : i.toNat = i.natAbs := by omega
    rw [if_pos hi, if_neg (by omega), e, itoaU32_eq (by omega)]
  · have e : (-i).toNat = i.natAbs := by omega
    rw [if_neg hi, if_neg (by omega), if_pos (by omega), e, itoaU32_eq (by omega)]
    rfl

example : itoaSigned 32 (itoaU32 1) (-120) = .ok ([45, 49, 50, 48], 4) := by decide +kernel

/-- C65, the violation for the least numbers. -/
theorem itoa_min_ub (f : Nat → Res (List Nat × Nat)) : itoaSigned 32 f (-2 ^ 31) = .ub ∧ itoaSigned 64 f (-2 ^ 63) = .ub := by
  constructor <;> · unfold itoaSigned; rw [if_neg (by omega), if_pos (by omega)]

theorem itoaBuf_ub {size top : Nat} (bufEnd u : Nat) (ht : size ≤ top) : itoaBuf size top bufEnd u = .ub := by
  have hp : ∀ c, put size top [] c = .ub := by
    intro c; unfold put; rw [if_neg]; simp; omega
  unfold itoaBuf itoaLoop
  by_cases h : 100 ≤ u
  · rw [if_pos h, hp, Res.bind_ub, Res.bind_ub]
  · rw [if_neg h, Res.bind_ok]
    unfold itoaTail
    by_cases h10 : 10 ≤ u
    · simp only [if_pos h10, hp, Res.bind_ub]
    · simp only [if_neg h10, hp, Res.bind_ub]

/-- C65, the violation for strings of wide characters: `sizeof(buf)` counts bytes, so every number is written behind the buffer. -/
theorem itoa_wide_ub {cw : Nat} (h : 2 ≤ cw) (u : Nat) : itoaU32 cw u = .ub ∧ itoaU64 cw u = .ub :=
  ⟨itoaBuf_ub _ _ (by omega), itoaBuf_ub _ _ (by omega)⟩

/-- C65, the violation for 64-bit numbers: the end of the buffer lies before the last two digits.  For every number of two or
more digits the last two digits are lost (also in the returned length), and a number of one digit makes the range negative. -/
theorem itoaU64_drops {u : Nat} (h : u < 2 ^ 64) :
    (10 ≤ u → itoaU64 1 u = .ok ((decimal u).take ((decimal u).length - 2), (decimal u).length - 2)) ∧
      (u < 10 → itoaU64 1 u = .ub) := by
  have hl := (decimal_length_le (u := u) (k := 20) (by omega)).2 (Nat.lt_of_lt_of_le h (by decide))
  have h1 := decimal_length_le (u := u) (k := 1) (by omega)
  have hp := decimal_length_pos u
  have key : itoaU64 1 u = appendRange 19 18 (decimal u) := by
    unfold itoaU64
    rw [itoaBuf_eq _ _ (by omega) (by omega)]
  rw [key]
  unfold appendRange
  simp only
  refine ⟨fun h10 => ?_, fun h10 => ?_⟩
  · rw [if_pos (by omega)]
    have e : 18 - (19 + 1 - (decimal u).length) = (decimal u).length - 2 := by omega
    rw [e]
  · rw [if_neg (by omega)]

/-- `itoa(str, 12345ull)` appends "123", `itoa(str, 42ull)` appends nothing. -/
example : itoaU64 1 12345 = .ok ([49, 50, 51], 3) ∧ itoaU64 1 42 = .ok ([], 0) ∧ itoaU64 1 7 = .ub := by decide +kernel

theorem itoaSwitch_eq (size top : Nat) (ht : top < size) : ∀ (n u : Nat) (w : List Nat), (decimal u).length = n + 1 →
    w.length + n ≤ top → itoaSwitch size top n u w = .ok (decimal u ++ w) := by
  intro n
  induction n with
  | zero =>
    intro u w hu hw
    have h10 : u < 10 := (decimal_length_le (u := u) (k := 1) (by omega)).1 (by omega)
    unfold itoaSwitch
    rw [put_ok _ ht (by omega), decimal_lt h10, Nat.mod_eq_of_lt (by omega)]
    rfl
  | succ n ih =>
    intro u w hu hw
    have h10 : ¬ u < 10 := fun h => by have := (decimal_length_le (u := u) (k := 1) (by omega)).2 h; omega
    have e := decimal_ge (u := u) (by omega)
    rw [e] at hu ⊢
    simp only [List.length_append, List.length_singleton] at hu
    unfold itoaSwitch
    rw [put_ok _ ht (by omega), Res.bind_ok, ih _ _ (by omega) (by simp only [List.length_cons]; omega)]
    simp

/-- C65.  `itoa(std::string &, uint32_t, digits)`, called with the number of digits, appends the decimal representation. -/
theorem itoaU32D_eq {u : Nat} (h : u < 2 ^ 32) :
    itoaU32D u (decimal u).length = some (.ok (decimal u, (decimal u).length)) := by
  have hl := (decimal_length_le (u := u) (k := 10) (by omega)).2 (by omega)
  have hp := decimal_length_pos u
  unfold itoaU32D
  rw [if_neg (by omega), itoaSwitch_eq _ _ (by omega) _ _ _ (by omega) (by simp only [List.length_nil]; omega), Res.bind_ok,
    List.append_nil]
  unfold appendRange
  simp only
  rw [if_pos (by omega)]
  have e : 11 - (10 + 1 - (decimal u).length) = (decimal u).length := by omega
  rw [e, List.take_length]
  rfl

example : itoaU32D 907 3 = some (.ok ([57, 48, 55], 3)) := by decide +kernel

/-- C65, the violation for 64-bit numbers: numbers of 20 digits throw; of 2 to 19 digits the last two are lost although the full
number is returned; a single digit is undefined. -/
theorem itoaU64D_wrong {u : Nat} (h : u < 2 ^ 64) :
    (10 ^ 19 ≤ u → itoaU64D u (decimal u).length = none) ∧
    (10 ≤ u → u < 10 ^ 19 → itoaU64D u (decimal u).length =
      some (.ok ((decimal u).take ((decimal u).length - 2), (decimal u).length))) ∧
    (u < 10 → itoaU64D u (decimal u).length = some .ub) := by
  have hl := (decimal_length_le (u := u) (k := 20) (by omega)).2 (Nat.lt_of_lt_of_le h (by decide))
  have h1 := decimal_length_le (u := u) (k := 1) (by omega)
  have h19 := decimal_length_le (u := u) (k := 19) (by omega)
  have hp := decimal_length_pos u
  have key : u < 10 ^ 19 → itoaU64D u (decimal u).length =
      some ((appendRange 19 18 (decimal u)).bind fun x => .ok (x.1, (decimal u).length)) := by
    intro hu
    have := h19.2 hu
    unfold itoaU64D
    rw [if_neg (by omega), itoaSwitch_eq _ _ (by omega) _ _ _ (by omega) (by simp only [List.length_nil]; omega), Res.bind_ok,
      List.append_nil]
  refine ⟨fun hu => ?_, fun h10 hu => ?_, fun h10 => ?_⟩
  · unfold itoaU64D
    rw [if_pos]
    have : ¬ (decimal u).length ≤ 19 := fun hc => absurd (h19.1 hc) (Nat.not_lt.2 hu)
    omega
  · rw [key hu]
    unfold appendRange
    simp only
    rw [if_pos (by omega)]
    have e : 18 - (19 + 1 - (decimal u).length) = (decimal u).length - 2 := by omega
    rw [e, Res.bind_ok]
  · rw [key (Nat.lt_of_lt_of_le h10 (by decide))]
    unfold appendRange
    simp only
    rw [if_neg (by omega), Res.bind_ub]

example : itoaU64D 12345 5 = some (.ok ([49, 50, 51], 5)) := by decide +kernel

/-- C65 for views: `itoa(string_view &, uint32_t, digits)` and `itoa(string_view &, uint64_t, digits)`, called with the number of
digits and enough room, write exactly the decimal representation (64-bit: up to 19 digits, otherwise they throw). -/
theorem itoaView_eq {maxD u room : Nat} (h : (decimal u).length ≤ maxD) (hr : (decimal u).length ≤ room) :
    itoaView maxD room u (decimal u).length = some (.ok (decimal u)) := by
  have hp := decimal_length_pos u
  unfold itoaView
  rw [if_neg (by omega), itoaSwitch_eq _ _ (by omega) _ _ _ (by omega) (by simp only [List.length_nil]; omega), List.append_nil]

/-- In terms of numbers: every 32-bit number is written, of the 64-bit numbers those below 10^19; the others throw. -/
theorem itoaView_numbers {u room : Nat} (hr : (decimal u).length ≤ room) :
    (u < 2 ^ 32 → itoaView 10 room u (decimal u).length = some (.ok (decimal u))) ∧
    (u < 10 ^ 19 → itoaView 19 room u (decimal u).length = some (.ok (decimal u))) ∧
    (10 ^ 19 ≤ u → itoaView 19 room u (decimal u).length = none) := by
  refine ⟨fun h => ?_, fun h => ?_, fun h => ?_⟩
  · exact itoaView_eq ((decimal_length_le (by omega)).2 (by omega)) hr
  · exact itoaView_eq ((decimal_length_le (by omega)).2 h) hr
  · unfold itoaView
    rw [if_pos]
    have : ¬ (decimal u).length ≤ 19 := fun hc => absurd ((decimal_length_le (by omega)).1 hc) (Nat.not_lt.2 h)
    omega

example : itoaView 19 5 12345 5 = some (.ok [49, 50, 51, 52, 53]) := by decide +kernel

/-! ### C66: hexadecimal digits -/

/-- `to_hex_char` (FM:61-65) for one hexadecimal digit. -/
def toHexChar (d : Nat) : Nat := if 10 ≤ d then d - 10 + 65 else d + 48

/-- `to_hex(char)` (FM:73-81): `std::string hex(to_hex_char(high), 1)` is the constructor (count, character). -/
def toHex (ch : Nat) : List Nat := List.replicate (toHexChar (ch % 256 / 16)) 1 ++ [toHexChar (ch % 256 % 16)]

/-- C66 (partial: the digits only).  `to_hex_char` gives the upper-case hexadecimal digit. -/
theorem toHexChar_partial {d : Nat} (h : d < 16) : [toHexChar d] = (Nat.toDigits 16 d).map fun c => c.toUpper.toNat := by
  rw [Nat.toDigits_of_lt_base h]
  have : ∀ d : Fin 16, [toHexChar d.val] = [d.val.digitChar].map fun c => c.toUpper.toNat := by decide
  exact this ⟨d, h⟩

/-- C66, the violation: for every character `to_hex` returns a string of at least 49 characters, most of them of code 1, instead
of two hexadecimal digits. -/
theorem toHex_wrong (ch : Nat) : 49 ≤ (toHex ch).length ∧ (toHex ch).head? = some 1 := by
  have h : 48 ≤ toHexChar (ch % 256 / 16) := by unfold toHexChar; split <;> omega
  unfold toHex
  refine ⟨by simp; omega, ?_⟩
  obtain ⟨n, hn⟩ : ∃ n, toHexChar (ch % 256 / 16) = n + 1 := ⟨toHexChar (ch % 256 / 16) - 1, by omega⟩
  rw [hn, List.replicate_succ]
  rfl

example : (toHex 0xA5).length = 66 := by decide

end Verif.Digits
