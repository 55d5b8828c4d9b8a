/-
Properties of the string hash functions of Verif/HashFn.lean: which bytes they read and what the result is.
HC = hasher/hash_crc32.h, HS = hasher/hashes.h, HH = hasher/hash_helper.h, FN = hasher/fnv1a.h.

A string `s` lies in memory followed by `pad`: the readable bytes after its last character (for a `std::string` exactly the
terminating NUL is guaranteed, for a `string_view` or a key object nothing is).
-/
import Verif.HashFn

namespace Verif.HashFn

/-! ### The specification: the words of a string -/

/-- The little-endian words of `N` bytes of a string; the last one may be short. -/
def words (N : Nat) (s : List Byte) : List Nat :=
  (List.range ((s.length + N - 1) / N)).map fun i => le ((s.drop (i * N)).take N)

theorem words_nil {N : Nat} (hN : 0 < N) : words N [] = [] := by
  unfold words
  rw [show (([] : List Byte).length + N - 1) / N = 0 from Nat.div_eq_of_lt (by simp; omega)]
  rfl

theorem words_cons {N : Nat} (hN : 0 < N) {s : List Byte} (hs : 0 < s.length) :
    words N s = le (s.take N) :: words N (s.drop N) := by
  unfold words
  have e : (s.length + N - 1) / N = ((s.drop N).length + N - 1) / N + 1 := by
    rw [List.length_drop]
    by_cases h : s.length ≤ N
    · rw [Nat.sub_eq_zero_of_le h, Nat.div_eq_of_lt (a := 0 + N - 1) (by omega)]
      rw [Nat.div_eq_of_lt_le] <;> omega
    · rw [show s.length + N - 1 = (s.length - N + N - 1) + N by omega, Nat.add_div_right _ hN]
  rw [e, List.range_succ_eq_map, List.map_cons, List.map_map]
  simp only [Nat.zero_mul, List.drop_zero, List.cons.injEq, true_and]
  apply List.map_congr_left
  intro i _
  simp only [Function.comp, List.drop_drop]
  rw [Nat.succ_mul, Nat.add_comm N]

/-! ### Masked loops -/

theorem maskedLoop_spec (step : Nat → Nat → Nat) {N : Nat} (hN : 0 < N) (s pad : List Byte) :
    ∀ (f o remain acc : Nat), o + remain = s.length → remain < f →
      maskedLoop step N (s ++ pad) f o remain acc =
        if remain % N = 0 ∨ N ≤ remain % N + pad.length then .ok ((words N (s.drop o)).foldl step acc) else .ub := by
  intro f
  induction f with
  | zero => intro o remain acc _ h; omega
  | succ f ih =>
    intro o remain acc ho hf
    unfold maskedLoop
    by_cases h : N ≤ remain
    · rw [if_pos h, load_append_left (by omega), Res.bind_ok, ih _ _ _ (by omega) (by omega)]
      have hm : remain % N = (remain - N) % N := by
        conv_lhs => rw [show remain = (remain - N) + N by omega, Nat.add_mod_right]
      rw [words_cons hN (s := s.drop o) (by simp; omega), List.foldl_cons, List.drop_drop, hm]
    · rw [if_neg h]
      have hm : remain % N = remain := Nat.mod_eq_of_lt (by omega)
      rw [hm]
      by_cases h0 : 0 < remain
      · rw [if_pos h0]
        by_cases hp : N ≤ remain + pad.length
        · rw [if_pos (.inr hp), load_ok (by simp; omega), Res.bind_ok]
          rw [words_cons hN (s := s.drop o) (by simp; omega), List.drop_drop,
            List.drop_eq_nil_of_le (show s.length ≤ o + N by omega), words_nil hN]
          simp only [List.foldl_cons, List.foldl_nil]
          rw [le_mask _ (by simp; omega) (by omega), List.take_take, Nat.min_eq_left (by omega)]
          have : (s.drop o).length = remain := by simp; omega
          rw [List.drop_append_of_le_length (by omega), List.take_append_of_le_length (by omega),
            List.take_of_length_le (by omega), List.take_of_length_le (by omega)]
        · rw [if_neg (by omega), load_ub (by simp; omega), Res.bind_ub]
      · rw [if_neg h0, if_pos (.inl (by omega)), List.drop_eq_nil_of_le (by omega), words_nil hN]
        rfl

/-- C51.  What `hash_crc32` does on a string `s` followed by the readable bytes `pad`: if the string is a multiple of 8 bytes
long or enough readable bytes follow, the result is the CRC of the words of `s`; in every other case the last load leaves the
readable memory. -/
theorem hashCrc32_eq (crc : Nat → Nat → Nat) (s pad : List Byte) :
    hashCrc32 crc (s ++ pad) s.length =
      if s.length % 8 = 0 ∨ 8 ≤ s.length % 8 + pad.length then
        .ok ((words 8 s).foldl crc (2 ^ 64 - 1) % 2 ^ 32) else .ub := by
  unfold hashCrc32
  rw [maskedLoop_spec crc (by omega) s pad _ 0 _ _ (by omega) (by omega)]
  split <;> simp

/-- C51, the violation: for a `std::string` (only the terminating NUL follows) `hash_crc32` reads out of bounds unless the
length is 0 or 7 modulo 8. -/
theorem hashCrc32_stdString_ub (crc : Nat → Nat → Nat) (s : List Byte) (h0 : s.length % 8 ≠ 0) (h7 : s.length % 8 ≠ 7) :
    hashCrc32 crc (s ++ [0]) s.length = .ub := by
  rw [hashCrc32_eq, if_neg]
  simp only [List.length_singleton]
  omega

example : hashCrc32 (· + ·) ([97, 98, 99] ++ [0]) 3 = .ub := by decide

/-- C51, the violation for a view into a buffer or a key object: with nothing readable behind it, every length that is not a
multiple of 8 reads out of bounds. -/
theorem hashCrc32_view_ub (crc : Nat → Nat → Nat) (s : List Byte) (h0 : s.length % 8 ≠ 0) :
    hashCrc32 crc s s.length = .ub := by
  have := hashCrc32_eq crc s []
  rw [List.append_nil] at this
  rw [this, if_neg]
  simp only [List.length_nil]
  omega

example : hashCrc32 (· + ·) [1, 2, 3, 4, 5, 6, 7, 8, 9, 10, 11, 12] 12 = .ub := by decide

/-- C51 (partial: only where the over-read stays in readable memory): with seven readable bytes behind the string,
`hash_crc32` returns, and the result does not depend on those bytes. -/
theorem hashCrc32_padding_partial (crc : Nat → Nat → Nat) (s pad pad' : List Byte) (h : 7 ≤ pad.length)
    (h' : 7 ≤ pad'.length) :
    ∃ r, hashCrc32 crc (s ++ pad) s.length = .ok r ∧ hashCrc32 crc (s ++ pad') s.length = .ok r := by
  refine ⟨(words 8 s).foldl crc (2 ^ 64 - 1) % 2 ^ 32, ?_, ?_⟩ <;> rw [hashCrc32_eq, if_pos] <;> omega

example : hashCrc32 (fun a w => a + w) ([1, 2, 3] ++ [9, 9, 9, 9, 9, 9, 9]) 3 = .ok (2 ^ 32 - 1 + 197121 - 2 ^ 32) := by decide

/-- C51 for the 32-bit build: the load is 4 bytes wide. -/
theorem hashCrc32x86_eq (crc : Nat → Nat → Nat) (s pad : List Byte) :
    hashCrc32x86 crc (s ++ pad) s.length =
      if s.length % 4 = 0 ∨ 4 ≤ s.length % 4 + pad.length then
        .ok ((words 4 s).foldl crc (2 ^ 32 - 1)) else .ub := by
  unfold hashCrc32x86
  rw [maskedLoop_spec crc (by omega) s pad _ 0 _ _ (by omega) (by omega)]
  rfl

example : hashCrc32x86 (· + ·) ([1, 2] ++ [0]) 2 = .ub := by decide

/-- C51 for `HashUtils<T>::primaryHash`: the same over-read, `N = sizeof(T)`. -/
theorem primaryHash_eq {N : Nat} (hN : 0 < N) (s pad : List Byte) (seed : Nat) :
    primaryHash N (s ++ pad) s.length seed =
      if s.length % N = 0 ∨ N ≤ s.length % N + pad.length then
        .ok ((words N s).foldl (primaryStep N)
          (seed % 2 ^ (8 * N) ^^^ (0x397A4A6CC6A4A793 % 2 ^ (8 * N) * s.length % 2 ^ (8 * N)))) else .ub := by
  unfold primaryHash
  rw [maskedLoop_spec _ hN s pad _ 0 _ _ (by omega) (by omega)]
  rfl

example : primaryHash 4 ([1, 2, 3, 4, 5] ++ [0]) 5 7 = .ub := by decide

/-! ### The variant that reads byte by byte at the end -/

theorem wordLoop_spec (step : Nat → Nat → Nat) {N : Nat} (hN : 0 < N) (s pad : List Byte) :
    ∀ (n o acc : Nat), o + n * N ≤ s.length →
      wordLoop step N (s ++ pad) n o acc = .ok ((words N ((s.drop o).take (n * N))).foldl step acc) := by
  intro n
  induction n with
  | zero => intro o acc _; simp [wordLoop, words_nil hN]
  | succ n ih =>
    intro o acc h
    rw [Nat.succ_mul] at h
    unfold wordLoop
    rw [load_append_left (by omega), Res.bind_ok, ih _ _ (by omega)]
    rw [words_cons hN (s := (s.drop o).take ((n + 1) * N)) (by rw [Nat.succ_mul]; simp; omega), List.foldl_cons,
      List.take_take, Nat.min_eq_left (by rw [Nat.succ_mul]; omega), List.drop_take, List.drop_drop, Nat.succ_mul,
      Nat.add_sub_cancel]

/-! ### CRC-32C -/

/-- One bit of the reflected CRC-32C register (polynomial 0x1EDC6F41, reflected 0x82F63B78). -/
def crcBit (x : Nat) : Nat := if x.testBit 0 then (x >>> 1) ^^^ 0x82F63B78 else x >>> 1

/-- `n` bits. -/
def crcBits : Nat → Nat → Nat
  | 0, x => x
  | n + 1, x => crcBits n (crcBit x)

/-- `_mm_crc32_u8(crc, v)` by its documentation (used at HC:198, 226). -/
def mmCrc8 (crc v : Nat) : Nat := crcBits 8 (crc % 2 ^ 32 ^^^ v)

/-- `_mm_crc32_u64(crc, v)` by its documentation: only the low 32 bits of `crc` take part (HC:71, 93, 94, 155, 169, 217). -/
def mmCrc64 (crc v : Nat) : Nat := crcBits 64 (crc % 2 ^ 32 ^^^ v)

/-- CRC-32C of a byte string, register before the final complement: byte by byte, as in the standard definition. -/
def crc32c (acc : Nat) (s : List Byte) : Nat := s.foldl (fun a b => mmCrc8 a b.val) acc

theorem crcBit_xor (a b : Nat) : crcBit (a ^^^ b) = crcBit a ^^^ crcBit b := by
  unfold crcBit
  rw [Nat.testBit_xor, Nat.shiftRight_xor_distrib]
  cases a.testBit 0 <;> cases b.testBit 0 <;> simp only [Bool.xor_false, Bool.xor_true, Bool.not_true, Bool.not_false,
    if_true, Bool.false_eq_true, if_false]
  · rw [Nat.xor_assoc]
  · rw [Nat.xor_assoc, Nat.xor_comm (b >>> 1), Nat.xor_assoc]
  · rw [Nat.xor_assoc (a >>> 1), ← Nat.xor_assoc 0x82F63B78, Nat.xor_comm 0x82F63B78, Nat.xor_assoc (b >>> 1),
      Nat.xor_self, Nat.xor_zero]

theorem crcBits_xor (n a b : Nat) : crcBits n (a ^^^ b) = crcBits n a ^^^ crcBits n b := by
  induction n generalizing a b with
  | zero => rfl
  | succ n ih => simp only [crcBits, crcBit_xor, ih]

theorem crcBits_add (n k x : Nat) : crcBits (n + k) x = crcBits k (crcBits n x) := by
  induction n generalizing x with
  | zero => simp [crcBits]
  | succ n ih => rw [Nat.succ_add]; simp only [crcBits, ih]

/-- Bits above the first `n` only move down. -/
theorem crcBits_shift (n w : Nat) : crcBits n (w <<< n) = w := by
  induction n generalizing w with
  | zero => simp [crcBits]
  | succ n ih =>
    have : crcBit (w <<< (n + 1)) = w <<< n := by
      unfold crcBit
      rw [Nat.testBit_shiftLeft]
      simp only [ge_iff_le, Nat.le_zero_eq, Nat.add_eq_zero_iff, Nat.one_ne_zero, and_false, decide_false, Bool.false_and,
        Bool.false_eq_true, if_false]
      rw [Nat.shiftLeft_add, Nat.shiftLeft_shiftRight]
    rw [crcBits, this, ih]

theorem crcBit_lt {x k : Nat} (hk : 32 ≤ k) (h : x < 2 ^ (k + 1)) : crcBit x < 2 ^ k := by
  have h1 : x >>> 1 < 2 ^ k := by
    rw [Nat.shiftRight_eq_div_pow, Nat.pow_one]
    rw [Nat.pow_succ] at h
    omega
  unfold crcBit
  split
  · apply Nat.xor_lt_two_pow h1
    exact Nat.lt_of_lt_of_le (by decide : (0x82F63B78 : Nat) < 2 ^ 32) (Nat.pow_le_pow_right (by omega) hk)
  · exact h1

theorem crcBits_lt {n x : Nat} (h : x < 2 ^ (32 + n)) : crcBits n x < 2 ^ 32 := by
  induction n generalizing x with
  | zero => exact h
  | succ n ih => exact ih (crcBit_lt (by omega) h)

theorem crcBits_lt32 {n x : Nat} (h : x < 2 ^ 32) : crcBits n x < 2 ^ 32 :=
  crcBits_lt (Nat.lt_of_lt_of_le h (Nat.pow_le_pow_right (by omega) (by omega)))

theorem mmCrc8_lt (a : Nat) (b : Byte) : mmCrc8 a b.val < 2 ^ 32 := by
  unfold mmCrc8
  apply crcBits_lt32
  apply Nat.xor_lt_two_pow (Nat.mod_lt _ (by decide))
  exact Nat.lt_trans b.isLt (by decide)

theorem add_eq_xor {b : Nat} (hb : b < 2 ^ 8) (x : Nat) : b + 256 * x = b ^^^ (x <<< 8) := by
  apply Nat.eq_of_testBit_eq
  intro i
  rw [Nat.add_comm, show 256 * x = 2 ^ 8 * x from rfl, Nat.testBit_two_pow_mul_add _ hb, Nat.testBit_xor,
    Nat.testBit_shiftLeft]
  by_cases h : i < 8
  · simp [h, Nat.not_le_of_lt h]
  · rw [if_neg h, Nat.testBit_lt_two_pow (Nat.lt_of_lt_of_le hb (Nat.pow_le_pow_right (by omega) (by omega : 8 ≤ i)))]
    simp [Nat.le_of_not_lt h]

/-- Reading `n` bytes at once equals reading them one by one. -/
theorem crcBits_le (s : List Byte) {a : Nat} (ha : a < 2 ^ 32) :
    crcBits (8 * s.length) (a ^^^ le s) = crc32c a s := by
  induction s generalizing a with
  | nil => simp [le, crcBits, crc32c]
  | cons b bs ih =>
    have e : le (b :: bs) = b.val ^^^ (le bs <<< 8) := by
      simp only [le]
      exact add_eq_xor b.isLt _
    rw [e, List.length_cons, Nat.mul_succ, Nat.add_comm, crcBits_add, ← Nat.xor_assoc, crcBits_xor, crcBits_shift]
    have hm : mmCrc8 a b.val = crcBits 8 (a ^^^ b.val) := by
      unfold mmCrc8; rw [Nat.mod_eq_of_lt ha]
    have hl := mmCrc8_lt a b
    rw [← hm, ih hl]
    rfl

theorem mmCrc64_le {s : List Byte} (h : s.length = 8) (a : Nat) : mmCrc64 a (le s) = crc32c (a % 2 ^ 32) s := by
  unfold mmCrc64
  rw [← crcBits_le s (Nat.mod_lt _ (by decide)), h]

theorem words_one (s : List Byte) : words 1 s = s.map (·.val) := by
  induction s with
  | nil => exact words_nil (by omega)
  | cons b bs ih =>
    rw [words_cons (by omega) (by simp)]
    simp [le, ih]

theorem crc32c_lt {a : Nat} (ha : a < 2 ^ 32) (s : List Byte) : crc32c a s < 2 ^ 32 := by
  induction s generalizing a with
  | nil => exact ha
  | cons b bs ih => exact ih (mmCrc8_lt a b)

theorem crc32c_append (a : Nat) (s t : List Byte) : crc32c a (s ++ t) = crc32c (crc32c a s) t := by
  simp [crc32c]

/-- Whole words: the word instruction computes the bytewise CRC. -/
theorem foldl_words8 (n : Nat) : ∀ (s : List Byte) (a : Nat), s.length = n * 8 →
    (words 8 s).foldl mmCrc64 a % 2 ^ 32 = crc32c (a % 2 ^ 32) s := by
  induction n with
  | zero =>
    intro s a h
    have : s = [] := List.eq_nil_of_length_eq_zero (by omega)
    subst this
    rw [words_nil (by omega)]
    rfl
  | succ n ih =>
    intro s a h
    rw [words_cons (by omega) (by omega), List.foldl_cons, ih _ _ (by simp; omega),
      mmCrc64_le (s := s.take 8) (by simp; omega)]
    conv_rhs => rw [← List.take_append_drop 8 s, crc32c_append]
    rw [Nat.mod_eq_of_lt (crc32c_lt (Nat.mod_lt _ (by decide)) _)]

/-- C52.  `intel_crc32_simple_x64` never reads outside the string, for every length and alignment of the end, and computes
the CRC-32C of the string (initial value all ones, complemented at the end). -/
theorem crc32Simple_eq (s pad : List Byte) :
    crc32Simple mmCrc64 mmCrc8 (s ++ pad) s.length = .ok (crc32c (2 ^ 32 - 1) s ^^^ (2 ^ 32 - 1)) := by
  unfold crc32Simple
  have hd : s.length / 8 * 8 + s.length % 8 = s.length := by omega
  rw [wordLoop_spec _ (by omega) s pad _ _ _ (by omega), Res.bind_ok,
    wordLoop_spec _ (by omega) s pad _ _ _ (by omega), Res.bind_ok, Nat.mul_one]
  rw [List.drop_zero, foldl_words8 (s.length / 8) _ _ (by simp; omega),
    List.take_of_length_le (l := s.drop _) (by simp; omega), words_one, List.foldl_map]
  have : crc32c (crc32c ((2 ^ 64 - 1) % 2 ^ 32) (s.take (s.length / 8 * 8))) (s.drop (s.length / 8 * 8)) =
      crc32c (2 ^ 32 - 1) s := by
    rw [← crc32c_append, List.take_append_drop]
    rfl
  have hlt := crc32c_lt (show (2 ^ 32 - 1 : Nat) < 2 ^ 32 by decide) s
  show Res.ok (crc32c (crc32c ((2 ^ 64 - 1) % 2 ^ 32) (s.take (s.length / 8 * 8))) (s.drop (s.length / 8 * 8)) % 2 ^ 32 ^^^ _)
    = _
  rw [this, Nat.mod_eq_of_lt hlt]

/-- The check value of CRC-32C: the string "123456789" gives 0xE3069283. -/
example : crc32Simple mmCrc64 mmCrc8 ([49, 50, 51, 52, 53, 54, 55, 56, 57] ++ [0]) 9 = .ok 0xE3069283 := by decide +kernel

/-- What `hash_crc32` returns where it returns: the CRC-32C register over the string filled up with NULs to a multiple of
eight bytes, not complemented. -/
theorem hashCrc32_crc32c (s pad : List Byte) (h : s.length % 8 = 0 ∨ 8 ≤ s.length % 8 + pad.length) :
    hashCrc32 mmCrc64 (s ++ pad) s.length =
      .ok (crc32c (2 ^ 32 - 1) (s ++ List.replicate ((s.length + 7) / 8 * 8 - s.length) 0)) := by
  rw [hashCrc32_eq, if_pos h]
  have hz : ∀ n, le (List.replicate n (0 : Byte)) = 0 := by
    intro n
    induction n with
    | zero => rfl
    | succ n ih => simp [List.replicate_succ, le, ih]
  have key : ∀ (n : Nat) (s : List Byte), (s.length + 7) / 8 = n →
      words 8 s = words 8 (s ++ List.replicate (n * 8 - s.length) 0) := by
    intro n
    induction n with
    | zero =>
      intro s hs
      have : s = [] := List.eq_nil_of_length_eq_zero (by omega)
      subst this; rfl
    | succ n ih =>
      intro s hs
      have hpos : 0 < s.length := by
        rcases Nat.eq_zero_or_pos s.length with h | h
        · rw [h] at hs; omega
        · exact h
      rw [words_cons (by omega) hpos, words_cons (by omega) (s := s ++ _) (by simp; omega)]
      by_cases h8 : 8 ≤ s.length
      · rw [List.take_append_of_le_length h8, List.drop_append_of_le_length h8, ih (s.drop 8) (by simp; omega)]
        congr 3
        simp only [List.length_drop]
        congr 1
        omega
      · have hn : n = 0 := by omega
        subst hn
        rw [List.drop_eq_nil_of_le (by omega : s.length ≤ 8), List.drop_eq_nil_of_le (by simp; omega),
          List.take_of_length_le (by omega : s.length ≤ 8), List.take_of_length_le (by simp; omega), le_append, hz,
          Nat.mul_zero, Nat.add_zero]
  rw [key _ s rfl, foldl_words8 ((s.length + 7) / 8) _ _ (by simp; omega)]
  rfl

example : hashCrc32 mmCrc64 ([97, 98, 99] ++ [1, 2, 3, 4, 5]) 3 = .ok (crc32c (2 ^ 32 - 1) [97, 98, 99, 0, 0, 0, 0, 0]) := by
  decide +kernel

/-- A consequence: `hash_crc32` does not see trailing NULs inside the last word, so "a" and "a\0" always collide. -/
theorem hashCrc32_trailing_nul (s pad pad' : List Byte) (h : s.length % 8 ≠ 0) (h2 : 7 ≤ pad.length) (h3 : 7 ≤ pad'.length) :
    hashCrc32 mmCrc64 ((s ++ [0]) ++ pad) (s ++ [0]).length = hashCrc32 mmCrc64 (s ++ pad') s.length := by
  rw [hashCrc32_crc32c _ _ (by simp only [List.length_append, List.length_singleton]; omega), hashCrc32_crc32c _ _ (.inr (by omega))]
  have e : ((s ++ [0]).length + 7) / 8 * 8 - (s ++ [0]).length + 1 = (s.length + 7) / 8 * 8 - s.length := by
    simp only [List.length_append, List.length_singleton]
    omega
  rw [← e, List.append_assoc, List.replicate_succ]
  rfl

example : hashCrc32 mmCrc64 ([97, 0] ++ [5, 5, 5, 5, 5, 5, 5]) 2 = hashCrc32 mmCrc64 ([97] ++ [1, 2, 3, 4, 5, 6, 7]) 1 := by
  decide +kernel

/-! ### Integer hash -/

/-- `intel_int_crc32_x64(value)` = `int_hash_crc32` on x86-64 with SSE4.2 (HC:89-96, 250-261). -/
def intHashCrc32 (v : Nat) : Nat :=
  (mmCrc64 (2 ^ 64 - 1) v &&& 0xFFFFFFFF) ||| (mmCrc64 0 v <<< 32) % 2 ^ 64

/-- `intel_simple_int_crc32(value)` = `simple_int_hash_crc32` (HC:67-78, 263-270). -/
def simpleIntHashCrc32 (v : Nat) : Nat := mmCrc64 (2 ^ 64 - 1) v

theorem mmCrc64_lt {a v : Nat} (hv : v < 2 ^ 64) : mmCrc64 a v < 2 ^ 32 := by
  unfold mmCrc64
  apply crcBits_lt
  apply Nat.xor_lt_two_pow _ (Nat.lt_trans hv (by decide))
  exact Nat.lt_trans (Nat.mod_lt _ (by decide)) (by decide)

/-- C53, the violation: the upper half of the 64-bit hash is the lower half xor a constant, so the two halves carry the same
32 bits of information … -/
theorem intHashCrc32_halves {v : Nat} (hv : v < 2 ^ 64) :
    intHashCrc32 v >>> 32 = (intHashCrc32 v % 2 ^ 32) ^^^ mmCrc64 (2 ^ 64 - 1) 0 := by
  have h0 : mmCrc64 0 v < 2 ^ 32 := mmCrc64_lt hv
  have h1 : mmCrc64 (2 ^ 64 - 1) v < 2 ^ 32 := mmCrc64_lt hv
  have hx : mmCrc64 (2 ^ 64 - 1) v = mmCrc64 (2 ^ 64 - 1) 0 ^^^ mmCrc64 0 v := by
    unfold mmCrc64
    rw [← crcBits_xor]
    simp
  unfold intHashCrc32
  rw [show (0xFFFFFFFF : Nat) = 2 ^ 32 - 1 from rfl, Nat.and_two_pow_sub_one_eq_mod, Nat.mod_eq_of_lt h1,
    Nat.shiftLeft_eq, Nat.mod_eq_of_lt (a := mmCrc64 0 v * 2 ^ 32) (by omega), Nat.mul_comm (mmCrc64 0 v),
    Nat.or_comm, ← Nat.two_pow_add_eq_or_of_lt h1, Nat.shiftRight_eq_div_pow, Nat.mul_add_mod, Nat.mod_eq_of_lt h1,
    Nat.mul_add_div (by decide), Nat.div_eq_of_lt h1, Nat.add_zero, hx]
  rw [Nat.xor_comm (mmCrc64 (2 ^ 64 - 1) 0), Nat.xor_assoc, Nat.xor_self, Nat.xor_zero]

/-- … and keys whose lower halves agree collide completely. -/
theorem intHashCrc32_collide {v w : Nat} (hv : v < 2 ^ 64) (hw : w < 2 ^ 64)
    (h : intHashCrc32 v % 2 ^ 32 = intHashCrc32 w % 2 ^ 32) : intHashCrc32 v = intHashCrc32 w := by
  have a := intHashCrc32_halves hv
  have b := intHashCrc32_halves hw
  rw [h, ← b] at a
  rw [Nat.shiftRight_eq_div_pow, Nat.shiftRight_eq_div_pow] at a
  omega

/-- A systematic collision: every key collides with the key that differs by the generator polynomial. -/
theorem intHashCrc32_period (v : Nat) :
    v ^^^ 0x105EC76F1 ≠ v ∧ intHashCrc32 (v ^^^ 0x105EC76F1) = intHashCrc32 v ∧
      simpleIntHashCrc32 (v ^^^ 0x105EC76F1) = simpleIntHashCrc32 v := by
  have key : ∀ a, mmCrc64 a (v ^^^ 0x105EC76F1) = mmCrc64 a v := by
    intro a
    unfold mmCrc64
    rw [← Nat.xor_assoc, crcBits_xor _ (a % 2 ^ 32 ^^^ v)]
    rw [show crcBits 64 0x105EC76F1 = 0 by decide +kernel, Nat.xor_zero]
  refine ⟨?_, ?_, key _⟩
  · intro h
    have h2 : v ^^^ (v ^^^ 0x105EC76F1) = v ^^^ v := by rw [h]
    rw [← Nat.xor_assoc, Nat.xor_self, Nat.zero_xor] at h2
    exact absurd h2 (by decide)
  · unfold intHashCrc32
    rw [key, key]

example : intHashCrc32 5 = intHashCrc32 (5 ^^^ 0x105EC76F1) ∧ intHashCrc32 5 ≠ intHashCrc32 6 ∧
    intHashCrc32 5 >>> 32 = (intHashCrc32 5 % 2 ^ 32) ^^^ mmCrc64 (2 ^ 64 - 1) 0 := by decide +kernel

/-! ### Polynomial hashes -/

/-- Element `i` of a block of elements of `w` bytes. -/
def elem (w : Nat) (m : List Byte) (i : Nat) : Nat := le ((m.drop (i * w)).take w)

/-- The polynomial hash of a list of element values: Horner's rule modulo 2^32. -/
def poly (seed : Nat) (l : List Nat) : Nat := l.foldl (fun h a => h * seed + a) 0 % 2 ^ 32

theorem foldl_poly_mod (seed : Nat) (l : List Nat) (h : Nat) :
    l.foldl (fun h a => h * seed + a) (h % 2 ^ 32) % 2 ^ 32 = l.foldl (fun h a => h * seed + a) h % 2 ^ 32 := by
  induction l generalizing h with
  | nil => simp
  | cons a l ih =>
    simp only [List.foldl_cons]
    rw [← ih (h % 2 ^ 32 * seed + a), ← ih (h * seed + a)]
    congr 2
    rw [Nat.add_mod, Nat.mod_mul_mod, ← Nat.add_mod]

theorem bkdrOnes_eq (seed w : Nat) (m : List Byte) : ∀ (n i h : Nat), h < 2 ^ 32 → (n = 0 ∨ (i + n) * w ≤ m.length) →
    bkdrOnes seed w m n i h = .ok (((List.range' i n).map (elem w m)).foldl (fun h a => h * seed + a) h % 2 ^ 32) := by
  intro n
  induction n with
  | zero => intro i h hh _; exact (congrArg Res.ok (Nat.mod_eq_of_lt hh)).symm
  | succ n ih =>
    intro i h hh hl
    have hl : (i + (n + 1)) * w ≤ m.length := hl.resolve_left (by omega)
    have h1 : i * w + w ≤ m.length := by
      rw [← Nat.succ_mul]
      exact Nat.le_trans (Nat.mul_le_mul_right w (by omega)) hl
    unfold bkdrOnes
    rw [load_ok h1, Res.bind_ok, ih _ _ (Nat.mod_lt _ (by decide)) (.inr (by rw [show i + 1 + n = i + (n + 1) by omega]; exact hl)),
      List.range'_succ, List.map_cons, List.foldl_cons, foldl_poly_mod]
    rfl

theorem bkdrOnes_ub (seed w : Nat) (m : List Byte) : ∀ (n i h : Nat), 0 < n → m.length < (i + n) * w →
    bkdrOnes seed w m n i h = .ub := by
  intro n
  induction n with
  | zero => intro i h h0 _; omega
  | succ n ih =>
    intro i h _ hl
    unfold bkdrOnes
    by_cases h1 : i * w + w ≤ m.length
    · rw [load_ok h1, Res.bind_ok]
      apply ih _ _ _ (by rw [show i + 1 + n = i + (n + 1) by omega]; exact hl)
      rcases Nat.eq_zero_or_pos n with h | h
      · subst h
        rw [Nat.zero_add, Nat.succ_mul] at hl
        omega
      · exact h
    · rw [load_ub (by omega), Res.bind_ub]

theorem foldl_quad (seed a b c d h : Nat) :
    (h * (seed ^ 4 % 2 ^ 32) + a * (seed ^ 3 % 2 ^ 32) + b * (seed ^ 2 % 2 ^ 32) + c * seed + d) % 2 ^ 32 =
      [a, b, c, d].foldl (fun h a => h * seed + a) h % 2 ^ 32 := by
  have e : [a, b, c, d].foldl (fun h a => h * seed + a) h = h * seed ^ 4 + a * seed ^ 3 + b * seed ^ 2 + c * seed + d := by
    simp only [List.foldl_cons, List.foldl_nil, Nat.add_mul, Nat.pow_succ, Nat.pow_zero, Nat.one_mul, Nat.mul_assoc]
  rw [e]
  have h4 : ∀ x y : Nat, x * (y % 2 ^ 32) % 2 ^ 32 = x * y % 2 ^ 32 := fun x y => by rw [Nat.mul_mod, Nat.mod_mod, ← Nat.mul_mod]
  rw [Nat.add_mod _ d, Nat.add_mod _ (c * seed), Nat.add_mod _ (b * _), Nat.add_mod (h * _), h4, h4, h4]
  simp only [Nat.add_mod_mod, Nat.mod_add_mod]

theorem bkdrQuads_eq (seed w : Nat) (m : List Byte) : ∀ (n i h : Nat), h < 2 ^ 32 →
    (n = 0 ∨ (i + n * 4) * w ≤ m.length) →
    bkdrQuads seed w m n i h = .ok (((List.range' i (n * 4)).map (elem w m)).foldl (fun h a => h * seed + a) h % 2 ^ 32) := by
  intro n
  induction n with
  | zero => intro i h hh _; exact (congrArg Res.ok (Nat.mod_eq_of_lt hh)).symm
  | succ n ih =>
    intro i h hh hl
    have hl : (i + (n + 1) * 4) * w ≤ m.length := hl.resolve_left (by omega)
    have hj : ∀ j, j < i + 4 → j * w + w ≤ m.length := by
      intro j hj
      rw [← Nat.succ_mul]
      exact Nat.le_trans (Nat.mul_le_mul_right w (by omega)) hl
    unfold bkdrQuads
    rw [load_ok (hj i (by omega)), Res.bind_ok, load_ok (hj (i + 1) (by omega)), Res.bind_ok,
      load_ok (hj (i + 2) (by omega)), Res.bind_ok, load_ok (hj (i + 3) (by omega)), Res.bind_ok,
      ih _ _ (Nat.mod_lt _ (by decide)) (.inr (by rw [show i + 4 + n * 4 = i + (n + 1) * 4 by omega]; exact hl)),
      foldl_quad, foldl_poly_mod, ← List.foldl_append,
      show (n + 1) * 4 = n * 4 + 1 + 1 + 1 + 1 by omega, List.range'_succ, List.range'_succ, List.range'_succ, List.range'_succ]
    rfl

theorem bkdrQuads_ub (seed w : Nat) (m : List Byte) : ∀ (n i h : Nat), 0 < n → m.length < (i + n * 4) * w →
    bkdrQuads seed w m n i h = .ub := by
  intro n
  induction n with
  | zero => intro i h h0 _; omega
  | succ n ih =>
    intro i h _ hl
    have step : ∀ j, ¬ j * w + w ≤ m.length → load m (j * w) w = .ub := fun j hj => load_ub (by omega)
    unfold bkdrQuads
    by_cases h1 : i * w + w ≤ m.length
    · rw [load_ok h1, Res.bind_ok]
      by_cases h2 : (i + 1) * w + w ≤ m.length
      · rw [load_ok h2, Res.bind_ok]
        by_cases h3 : (i + 2) * w + w ≤ m.length
        · rw [load_ok h3, Res.bind_ok]
          by_cases h4 : (i + 3) * w + w ≤ m.length
          · rw [load_ok h4, Res.bind_ok]
            apply ih _ _ _ (by rw [show i + 4 + n * 4 = i + (n + 1) * 4 by omega]; exact hl)
            rcases Nat.eq_zero_or_pos n with h | h
            · subst h
              rw [Nat.zero_add, Nat.one_mul, show i + 4 = (i + 3) + 1 by omega, Nat.succ_mul] at hl
              omega
            · exact h
          · rw [step _ h4, Res.bind_ub]
        · rw [step _ h3, Res.bind_ub]
      · rw [step _ h2, Res.bind_ub]
    · rw [step _ h1, Res.bind_ub]

/-- The unrolled hash on a block of memory: it reads `len * w` *elements* (of `w` bytes each). -/
theorem bkdr_eq (seed w : Nat) (m : List Byte) (len : Nat) :
    bkdr seed w m len = if len * w * w ≤ m.length then .ok (poly seed ((List.range (len * w)).map (elem w m))) else .ub := by
  unfold bkdr
  have hd : len * w / 4 * 4 + len * w % 4 = len * w := by omega
  generalize len * w = L at *
  split
  next h =>
    rw [bkdrQuads_eq _ _ _ _ _ _ (by decide)
      (.inr (Nat.le_trans (Nat.mul_le_mul_right w (by omega)) h)), Res.bind_ok,
      bkdrOnes_eq _ _ _ _ _ _ (Nat.mod_lt _ (by decide)) (.inr (by rw [hd]; exact h)), foldl_poly_mod, ← List.foldl_append,
      ← List.map_append, List.range_eq_range']
    have := List.range'_append_1 (s := 0) (m := L / 4 * 4) (n := L % 4)
    rw [Nat.zero_add, hd] at this
    rw [this]
    rfl
  next h =>
    by_cases hq : 0 < L / 4 ∧ m.length < (0 + L / 4 * 4) * w
    · rw [bkdrQuads_ub _ _ _ _ _ _ hq.1 hq.2, Res.bind_ub]
    · rw [bkdrQuads_eq _ _ _ _ _ _ (by decide) (by omega), Res.bind_ok]
      apply bkdrOnes_ub _ _ _ _ _ _ _ (by rw [hd]; omega)
      rcases Nat.eq_zero_or_pos (L % 4) with h0 | h0
      · exfalso
        have h1 : L / 4 * 4 = L := by omega
        rw [Nat.zero_add, h1] at hq
        rcases Nat.eq_zero_or_pos (L / 4) with h2 | h2
        · rw [h2] at h1
          rw [← h1] at h
          simp at h
        · omega
      · exact h0

/-- The simple hash on a block of memory. -/
theorem times31Std_mem_eq (w : Nat) (m : List Byte) (len : Nat) :
    times31Std w m len = if len * w * w ≤ m.length then .ok (poly 31 ((List.range (len * w)).map (elem w m))) else .ub := by
  unfold times31Std
  split
  next h =>
    rw [bkdrOnes_eq _ _ _ _ _ _ (by decide) (.inr (by rw [Nat.zero_add]; exact h)), List.range_eq_range']
    rfl
  next h =>
    apply bkdrOnes_ub
    · rcases Nat.eq_zero_or_pos (len * w) with h0 | h0
      · rw [h0] at h; simp at h
      · exact h0
    · rw [Nat.zero_add]; omega

theorem elems_one (s pad : List Byte) : (List.range s.length).map (elem 1 (s ++ pad)) = s.map (·.val) := by
  apply List.ext_getElem
  · simp
  · intro i h1 h2
    have hi : i < s.length := by simpa using h1
    simp only [List.getElem_map, List.getElem_range, elem, Nat.mul_one]
    rw [List.drop_append_of_le_length (by omega), List.drop_eq_getElem_cons hi, List.cons_append, List.take_succ_cons,
      List.take_zero]
    rfl

/-- C54.  `Times31` and `Times31Std` on byte strings read exactly the string and return Java's polynomial hash of its
(unsigned) bytes; the unrolled and the simple version agree on every string. -/
theorem times31_eq (s pad : List Byte) :
    times31 1 (s ++ pad) s.length = .ok (poly 31 (s.map (·.val))) ∧
      times31Std 1 (s ++ pad) s.length = .ok (poly 31 (s.map (·.val))) := by
  constructor
  · unfold times31
    rw [bkdr_eq, if_pos (by simp), Nat.mul_one, elems_one]
  · rw [times31Std_mem_eq, if_pos (by simp), Nat.mul_one, elems_one]

/-- The same for `BKDRHash` (seed 131). -/
theorem bkdr131_eq (s pad : List Byte) : bkdr 131 1 (s ++ pad) s.length = .ok (poly 131 (s.map (·.val))) := by
  rw [bkdr_eq, if_pos (by simp), Nat.mul_one, elems_one]

example : times31 1 ([104, 101, 108, 108, 111] ++ []) 5 = .ok 99162322 := by decide

/-- C54, the violation: on a string of `w`-byte characters (UTF-16 or wide, `string_hash_helper`, HH:197, 199) the length is
scaled to bytes but the pointer still counts characters: the hash reads `len * w` characters.  With only the terminator behind
the string that is out of bounds for every string of two or more characters. -/
theorem times31_wide_ub {w len : Nat} (hw : 2 ≤ w) (hlen : 2 ≤ len) (m : List Byte) (hm : m.length = (len + 1) * w) :
    times31 w m len = .ub ∧ times31Std w m len = .ub := by
  have : ¬ len * w * w ≤ m.length := by
    rw [hm]
    have h1 : len + 1 < len * w := by
      have := Nat.mul_le_mul_left len hw
      omega
    have := (Nat.mul_lt_mul_right (by omega : 0 < w)).2 h1
    omega
  exact ⟨by rw [times31, bkdr_eq, if_neg this], by rw [times31Std_mem_eq, if_neg this]⟩

example : times31 2 [97, 0, 98, 0, 0, 0] 2 = .ub := by decide
example : times31 4 [97, 0, 0, 0, 98, 0, 0, 0, 0, 0, 0, 0] 2 = .ub := by decide

/-- C54, the violation where the memory happens to be readable: the result depends on what lies behind the string. -/
theorem times31_wide_depends :
    ∃ (s p q : List Byte), s.length = 2 * 2 ∧ times31 2 (s ++ p) 2 ≠ times31 2 (s ++ q) 2 ∧
      times31 2 (s ++ p) 2 ≠ .ub ∧ times31 2 (s ++ q) 2 ≠ .ub :=
  ⟨[97, 0, 98, 0], [0, 0, 0, 0], [0, 0, 1, 0], by decide⟩

/-! ### FNV1A Yoshimura -/

theorem yoshLoop_ok (m : List Byte) (d : Nat) : ∀ (n p a b : Nat), p + d + n * 8 ≤ m.length →
    ∃ r, yoshLoop m d n p a b = .ok r := by
  intro n
  induction n with
  | zero => intro p a b _; exact ⟨_, rfl⟩
  | succ n ih =>
    intro p a b h
    unfold yoshLoop
    rw [load_ok (by omega), Res.bind_ok, load_ok (by omega), Res.bind_ok, load_ok (by omega), Res.bind_ok,
      load_ok (by omega), Res.bind_ok]
    exact ih _ _ _ (by omega)

theorem yoshLoop_pad (s pad : List Byte) (d : Nat) : ∀ (n p a b : Nat), p + d + n * 8 ≤ s.length →
    yoshLoop (s ++ pad) d n p a b = yoshLoop s d n p a b := by
  intro n
  induction n with
  | zero => intro p a b _; rfl
  | succ n ih =>
    intro p a b h
    have hl : ∀ o, o + 4 ≤ s.length → load (s ++ pad) o 4 = load s o 4 := fun o ho => by
      rw [load_append_left ho, load_ok ho]
    unfold yoshLoop
    rw [hl _ (by omega), hl _ (by omega), hl _ (by omega), hl _ (by omega)]
    rw [load_ok (by omega), Res.bind_ok, load_ok (by omega), Res.bind_ok, load_ok (by omega), Res.bind_ok,
      load_ok (by omega), Res.bind_ok, Res.bind_ok, Res.bind_ok, Res.bind_ok, Res.bind_ok]
    exact ih _ _ _ (by omega)

theorem yoshShort_ok (s pad : List Byte) (h : s.length < 16) :
    ∃ r, yoshShort (s ++ pad) s.length = .ok r ∧ yoshShort s s.length = .ok r := by
  have hl : ∀ o n, o + n ≤ s.length → load (s ++ pad) o n = .ok (le ((s.drop o).take n)) := fun o n ho =>
    load_append_left ho
  have hs : ∀ o n, o + n ≤ s.length → load s o n = .ok (le ((s.drop o).take n)) := fun o n ho => load_ok ho
  generalize s.length = L at *
  have hc : L = 0 ∨ L = 1 ∨ L = 2 ∨ L = 3 ∨ L = 4 ∨ L = 5 ∨ L = 6 ∨ L = 7 ∨ L = 8 ∨ L = 9 ∨ L = 10 ∨ L = 11 ∨ L = 12 ∨
      L = 13 ∨ L = 14 ∨ L = 15 := by omega
  rcases hc with h | h | h | h | h | h | h | h | h | h | h | h | h | h | h | h <;> subst h <;>
    simp (discharger := omega) only [yoshShort, hl, hs, Nat.reduceAnd, ne_eq, not_true_eq_false, if_false, if_true,
      not_false_eq_true, Res.bind_ok, Nat.zero_add, OfNat.ofNat_ne_zero, one_ne_zero, Nat.reduceAdd] <;>
    exact ⟨_, rfl, rfl⟩

/-- `rotl5` is the rotation of 32-bit words by five places. -/
theorem rotl5_rotate (x : BitVec 32) : rotl5 x.toNat = (x.rotateLeft 5).toNat := by
  unfold rotl5
  rw [BitVec.rotateLeft_def, BitVec.toNat_or, BitVec.toNat_shiftLeft, BitVec.toNat_ushiftRight]

/-- C55.  `FNV1A_Yoshimura` reads only the string, for every length (its two overlapping read positions stay inside), so the
result is a function of the string alone. -/
theorem yoshimura_inBounds (s : List Byte) :
    ∃ r, r < 2 ^ 32 ∧ ∀ pad, yoshimura (s ++ pad) s.length = .ok r := by
  have main : ∃ ab : Nat × Nat, ∀ pad, (if 16 ≤ s.length then
      let cnt := s.length / 16 + (if s.length % 16 ≠ 0 then 1 else 0)
      yoshLoop (s ++ pad) (s.length - cnt * 8) cnt 0 2166136261 2166136261
    else yoshShort (s ++ pad) s.length) = .ok ab := by
    by_cases h : 16 ≤ s.length
    · have hc : s.length / 16 + (if s.length % 16 ≠ 0 then 1 else 0) ≤ s.length / 8 := by split <;> omega
      simp only [if_pos h]
      generalize s.length / 16 + (if s.length % 16 ≠ 0 then 1 else 0) = cnt at hc
      have hb : 0 + (s.length - cnt * 8) + cnt * 8 ≤ s.length := by omega
      obtain ⟨r, hr⟩ := yoshLoop_ok s (s.length - cnt * 8) cnt 0 2166136261 2166136261 hb
      exact ⟨r, fun pad => by rw [yoshLoop_pad s pad _ _ _ _ _ hb, hr]⟩
    · simp only [if_neg h]
      obtain ⟨r, _, hr⟩ := yoshShort_ok s [] (by omega)
      refine ⟨r, fun pad => ?_⟩
      obtain ⟨r', h1, h2⟩ := yoshShort_ok s pad (by omega)
      rw [hr] at h2
      rw [h1, h2]
  obtain ⟨⟨a, b⟩, hab⟩ := main
  refine ⟨(a ^^^ rotl5 b) * 709607 % 2 ^ 32 ^^^ ((a ^^^ rotl5 b) * 709607 % 2 ^ 32) >>> 16, ?_, fun pad => ?_⟩
  · apply Nat.xor_lt_two_pow (Nat.mod_lt _ (by decide))
    exact Nat.lt_of_le_of_lt (Nat.shiftRight_le _ _) (Nat.mod_lt _ (by decide))
  · unfold yoshimura
    rw [hab pad, Res.bind_ok]

example : (yoshimura ([97, 98, 99] ++ [0]) 3) = yoshimura ([97, 98, 99] ++ [7, 7]) 3 := by decide

/-! ### 128-bit products -/

/-- The ARM branch of `uint128_mul` (HS:562-577): the two halves of the product. -/
def mul128Arm (a b : Nat) : Nat × Nat :=
  let low0 := a &&& 0xFFFFFFFF
  let high0 := a >>> 32
  let low1 := b &&& 0xFFFFFFFF
  let high1 := b >>> 32
  let p00 := low0 * low1
  let p01 := high0 * low1
  let p02 := low0 * high1
  let p03 := high0 * high1
  let middle := (p02 + (p00 >>> 32) + (p01 &&& 0xFFFFFFFF)) % 2 ^ 64
  ((p00 &&& 0xFFFFFFFF) ||| (middle <<< 32) % 2 ^ 64, (p03 + (p01 >>> 32) + (middle >>> 32)) % 2 ^ 64)

/-- The branch of `uint128_mul` for all other targets (HS:597-612). -/
def mul128Other (a b : Nat) : Nat × Nat :=
  let low0 := a &&& 0xFFFFFFFF
  let high0 := a >>> 32
  let low1 := b &&& 0xFFFFFFFF
  let high1 := b >>> 32
  let p00 := low0 * low1
  let p01 := high0 * low1
  let p02 := low0 * high1
  let p03 := high0 * high1
  let middle := (p01 + p02 + (p00 >>> 32)) % 2 ^ 64
  ((p00 &&& 0xFFFFFFFF) ||| (middle <<< 32) % 2 ^ 64, (p03 + (middle >>> 32)) % 2 ^ 64)

/-- The portable branch of `mum_mul_mix64` (HS:771-795). -/
def mumMix64Portable (x y : Nat) : Nat :=
  let x1 := x % 2 ^ 32
  let x2 := x >>> 32
  let y1 := y % 2 ^ 32
  let y2 := y >>> 32
  let r3 := x2 * y2
  let r2a := x1 * y2
  let r3 := (r3 + (r2a >>> 32)) % 2 ^ 64
  let r2b := x2 * y1
  let r3 := (r3 + (r2b >>> 32)) % 2 ^ 64
  let r1 := x1 * y1
  let r2 := ((r1 >>> 32) + r2a % 2 ^ 32 + r2b % 2 ^ 32) % 2 ^ 64
  let r1 := ((r2 <<< 32) % 2 ^ 64 + r1 % 2 ^ 32) % 2 ^ 64
  let r3 := (r3 + (r2 >>> 32)) % 2 ^ 64
  r1 ^^^ r3

/-- The product of two 64-bit words from the four products of their halves. -/
theorem mul_halves (a b : Nat) :
    a * b = a / 2 ^ 32 * (b / 2 ^ 32) * 2 ^ 64 + (a / 2 ^ 32 * (b % 2 ^ 32) + a % 2 ^ 32 * (b / 2 ^ 32)) * 2 ^ 32 +
      a % 2 ^ 32 * (b % 2 ^ 32) := by
  conv_lhs => rw [← Nat.div_add_mod a (2 ^ 32), ← Nat.div_add_mod b (2 ^ 32)]
  generalize a / 2 ^ 32 = a1
  generalize b / 2 ^ 32 = b1
  generalize a % 2 ^ 32 = a0
  generalize b % 2 ^ 32 = b0
  have e1 : 2 ^ 32 * a1 * (2 ^ 32 * b1) = a1 * b1 * 2 ^ 64 := by
    rw [Nat.mul_assoc, Nat.mul_left_comm a1, ← Nat.mul_assoc, Nat.mul_comm (2 ^ 32 * 2 ^ 32)]
    rfl
  have e2 : 2 ^ 32 * a1 * b0 = a1 * b0 * 2 ^ 32 := by rw [Nat.mul_assoc, Nat.mul_comm]
  have e3 : a0 * (2 ^ 32 * b1) = a0 * b1 * 2 ^ 32 := by rw [Nat.mul_left_comm, Nat.mul_comm]
  rw [Nat.add_mul, Nat.mul_add, Nat.mul_add, e1, e2, e3]
  omega

theorem halves_lt {a b : Nat} (ha : a < 2 ^ 64) (hb : b < 2 ^ 64) :
    a / 2 ^ 32 * (b / 2 ^ 32) ≤ (2 ^ 32 - 1) * (2 ^ 32 - 1) ∧ a / 2 ^ 32 * (b % 2 ^ 32) ≤ (2 ^ 32 - 1) * (2 ^ 32 - 1) ∧
      a % 2 ^ 32 * (b / 2 ^ 32) ≤ (2 ^ 32 - 1) * (2 ^ 32 - 1) ∧ a % 2 ^ 32 * (b % 2 ^ 32) ≤ (2 ^ 32 - 1) * (2 ^ 32 - 1) :=
  ⟨Nat.mul_le_mul (by omega) (by omega), Nat.mul_le_mul (by omega) (by omega), Nat.mul_le_mul (by omega) (by omega),
    Nat.mul_le_mul (by omega) (by omega)⟩

theorem or_shift (x y : Nat) : (x % 2 ^ 32) ||| (y <<< 32) % 2 ^ 64 = x % 2 ^ 32 + y % 2 ^ 32 * 2 ^ 32 := by
  have e : (y <<< 32) % 2 ^ 64 = 2 ^ 32 * (y % 2 ^ 32) := by
    rw [Nat.shiftLeft_eq]; omega
  rw [e, Nat.or_comm, ← Nat.two_pow_add_eq_or_of_lt (Nat.mod_lt _ (by decide)), Nat.mul_comm, Nat.add_comm]

/-- C56.  The ARM branch of `uint128_mul` returns the exact product of all pairs of 64-bit words. -/
theorem mul128Arm_eq {a b : Nat} (ha : a < 2 ^ 64) (hb : b < 2 ^ 64) :
    mul128Arm a b = (a * b % 2 ^ 64, a * b / 2 ^ 64) := by
  obtain ⟨h3, h1, h2, h0⟩ := halves_lt ha hb
  have hm := mul_halves a b
  unfold mul128Arm
  simp only [show (0xFFFFFFFF : Nat) = 2 ^ 32 - 1 from rfl, Nat.and_two_pow_sub_one_eq_mod, Nat.shiftRight_eq_div_pow, or_shift]
  rw [hm]
  generalize a / 2 ^ 32 * (b / 2 ^ 32) = p3 at *
  generalize a / 2 ^ 32 * (b % 2 ^ 32) = p1 at *
  generalize a % 2 ^ 32 * (b / 2 ^ 32) = p2 at *
  generalize a % 2 ^ 32 * (b % 2 ^ 32) = p0 at *
  rw [Prod.mk.injEq]
  omega

example : mul128Arm (2 ^ 64 - 1) (2 ^ 64 - 1) = (1, 2 ^ 64 - 2) := by decide

/-- C56, the violation: the generic branch is exact if and only if the sum of the middle products does not overflow … -/
theorem mul128Other_iff {a b : Nat} (ha : a < 2 ^ 64) (hb : b < 2 ^ 64) :
    mul128Other a b = (a * b % 2 ^ 64, a * b / 2 ^ 64) ↔
      a / 2 ^ 32 * (b % 2 ^ 32) + a % 2 ^ 32 * (b / 2 ^ 32) + a % 2 ^ 32 * (b % 2 ^ 32) / 2 ^ 32 < 2 ^ 64 := by
  obtain ⟨h3, h1, h2, h0⟩ := halves_lt ha hb
  have hm := mul_halves a b
  unfold mul128Other
  simp only [show (0xFFFFFFFF : Nat) = 2 ^ 32 - 1 from rfl, Nat.and_two_pow_sub_one_eq_mod, Nat.shiftRight_eq_div_pow, or_shift]
  rw [hm]
  generalize a / 2 ^ 32 * (b / 2 ^ 32) = p3 at *
  generalize a / 2 ^ 32 * (b % 2 ^ 32) = p1 at *
  generalize a % 2 ^ 32 * (b / 2 ^ 32) = p2 at *
  generalize a % 2 ^ 32 * (b % 2 ^ 32) = p0 at *
  rw [Prod.mk.injEq]
  omega

/-- … which fails for a pair of words. -/
theorem mul128Other_wrong : ∃ a b, a < 2 ^ 64 ∧ b < 2 ^ 64 ∧ mul128Other a b ≠ (a * b % 2 ^ 64, a * b / 2 ^ 64) :=
  ⟨2 ^ 64 - 1, 2 ^ 64 - 1, by decide⟩

/-- C56.  The portable `mum_mul_mix64` equals the version with a 128-bit type: low half xor high half. -/
theorem mumMix64Portable_eq {x y : Nat} (hx : x < 2 ^ 64) (hy : y < 2 ^ 64) :
    mumMix64Portable x y = (x * y % 2 ^ 64) ^^^ (x * y / 2 ^ 64) := by
  obtain ⟨h3, h1, h2, h0⟩ := halves_lt hx hy
  have hm := mul_halves x y
  unfold mumMix64Portable
  simp only [Nat.shiftRight_eq_div_pow, Nat.shiftLeft_eq]
  rw [hm]
  generalize x / 2 ^ 32 * (y / 2 ^ 32) = p3 at *
  generalize x / 2 ^ 32 * (y % 2 ^ 32) = p1 at *
  generalize x % 2 ^ 32 * (y / 2 ^ 32) = p2 at *
  generalize x % 2 ^ 32 * (y % 2 ^ 32) = p0 at *
  congr 1 <;> omega

example : mumMix64Portable 0x123456789ABCDEF0 11400714818402800987 =
    (0x123456789ABCDEF0 * 11400714818402800987 % 2 ^ 64) ^^^ (0x123456789ABCDEF0 * 11400714818402800987 / 2 ^ 64) := by decide

end Verif.HashFn
