/-
The words made of values of the C library, for the other values of `RAND_MAX` (C97).

`LR` is `/repo/src/jstd/system/LibcRand.h`.
-/
import Verif.RandomRange

namespace Verif.Rand

/-- `LibcRand::rand64` with `RAND_MAX == 0x7FFF` (LR:125-132); the arguments are the values of the five
calls of `::rand()`, from the leftmost one on. -/
def rand64Small (a b c d e : Nat) : Nat :=
  ((a &&& 0x7FFF) <<< 60 ||| (b &&& 0x7FFF) <<< 45 ||| (c &&& 0x7FFF) <<< 30 ||| (d &&& 0x7FFF) <<< 15 |||
    (e &&& 0x7FFF)) % 2 ^ 64

/-- `LibcRand::rand32` with `RAND_MAX == 0xFFFF` (LR:109-113). -/
def rand32Half (a b : Nat) : Nat :=
  ((a &&& 0xFFFF) <<< 16 ||| (b &&& 0xFFFF)) % 2 ^ 32

/-- `LibcRand::rand64` with `RAND_MAX == 0xFFFF` (LR:133-139). -/
def rand64Half (a b c d : Nat) : Nat :=
  ((a &&& 0xFFFF) <<< 48 ||| (b &&& 0xFFFF) <<< 32 ||| (c &&& 0xFFFF) <<< 16 ||| (d &&& 0xFFFF)) % 2 ^ 64

/-- `LibcRand::rand32` for the remaining values of `RAND_MAX` (LR:114-121). -/
def rand32Bytes (a b c d : Nat) : Nat :=
  ((a &&& 0xFF) <<< 24 ||| (b &&& 0xFF) <<< 16 ||| (c &&& 0xFF) <<< 8 ||| (d &&& 0xFF)) % 2 ^ 32

/-- `LibcRand::rand64` for the remaining values of `RAND_MAX` (LR:140-151). -/
def rand64Bytes (a b c d e f g h : Nat) : Nat :=
  ((a &&& 0xFF) <<< 56 ||| (b &&& 0xFF) <<< 48 ||| (c &&& 0xFF) <<< 40 ||| (d &&& 0xFF) <<< 32 |||
    (e &&& 0xFF) <<< 24 ||| (f &&& 0xFF) <<< 16 ||| (g &&& 0xFF) <<< 8 ||| (h &&& 0xFF)) % 2 ^ 64

theorem or_step (x y k s t : Nat) (ht : t = k + s) (hy : y < 2 ^ s) :
    x <<< t ||| y <<< k = (x * 2 ^ s + y) <<< k := by
  subst ht
  rw [Nat.add_comm k s, Nat.shiftLeft_add, ← Nat.shiftLeft_or_distrib, ← Nat.shiftLeft_add_eq_or_of_lt hy,
    Nat.shiftLeft_eq x]

theorem or_last (x y s : Nat) (hy : y < 2 ^ s) : x <<< s ||| y = x * 2 ^ s + y := by
  rw [← Nat.shiftLeft_add_eq_or_of_lt hy, Nat.shiftLeft_eq]

theorem and_low (x n : Nat) : x &&& (2 ^ n - 1) = x % 2 ^ n := Nat.and_two_pow_sub_one_eq_mod x n

theorem rand64Small_eq (a b c d e : Nat) :
    rand64Small a b c d e =
      ((((a % 16) * 2 ^ 15 + b % 2 ^ 15) * 2 ^ 15 + c % 2 ^ 15) * 2 ^ 15 + d % 2 ^ 15) * 2 ^ 15 + e % 2 ^ 15 := by
  unfold rand64Small
  rw [show (0x7FFF : Nat) = 2 ^ 15 - 1 from rfl]
  simp only [and_low]
  rw [or_step _ _ 45 15 60 rfl (by omega), or_step _ _ 30 15 45 rfl (by omega), or_step _ _ 15 15 30 rfl (by omega),
    or_last _ _ 15 (by omega)]
  omega

theorem rand32Half_eq (a b : Nat) : rand32Half a b = a % 2 ^ 16 * 2 ^ 16 + b % 2 ^ 16 := by
  unfold rand32Half
  rw [show (0xFFFF : Nat) = 2 ^ 16 - 1 from rfl]
  simp only [and_low]
  rw [or_last _ _ 16 (by omega)]
  omega

theorem rand64Half_eq (a b c d : Nat) : rand64Half a b c d =
    ((a % 2 ^ 16 * 2 ^ 16 + b % 2 ^ 16) * 2 ^ 16 + c % 2 ^ 16) * 2 ^ 16 + d % 2 ^ 16 := by
  unfold rand64Half
  rw [show (0xFFFF : Nat) = 2 ^ 16 - 1 from rfl]
  simp only [and_low]
  rw [or_step _ _ 32 16 48 rfl (by omega), or_step _ _ 16 16 32 rfl (by omega), or_last _ _ 16 (by omega)]
  omega

theorem rand32Bytes_eq (a b c d : Nat) : rand32Bytes a b c d =
    ((a % 2 ^ 8 * 2 ^ 8 + b % 2 ^ 8) * 2 ^ 8 + c % 2 ^ 8) * 2 ^ 8 + d % 2 ^ 8 := by
  unfold rand32Bytes
  rw [show (0xFF : Nat) = 2 ^ 8 - 1 from rfl]
  simp only [and_low]
  rw [or_step _ _ 16 8 24 rfl (by omega), or_step _ _ 8 8 16 rfl (by omega), or_last _ _ 8 (by omega)]
  omega

theorem rand64Bytes_eq (a b c d e f g h : Nat) : rand64Bytes a b c d e f g h =
    ((((((a % 2 ^ 8 * 2 ^ 8 + b % 2 ^ 8) * 2 ^ 8 + c % 2 ^ 8) * 2 ^ 8 + d % 2 ^ 8) * 2 ^ 8 + e % 2 ^ 8) * 2 ^ 8 + f % 2 ^ 8) *
      2 ^ 8 + g % 2 ^ 8) * 2 ^ 8 + h % 2 ^ 8 := by
  unfold rand64Bytes
  rw [show (0xFF : Nat) = 2 ^ 8 - 1 from rfl]
  simp only [and_low]
  rw [or_step _ _ 48 8 56 rfl (by omega), or_step _ _ 40 8 48 rfl (by omega), or_step _ _ 32 8 40 rfl (by omega),
    or_step _ _ 24 8 32 rfl (by omega), or_step _ _ 16 8 24 rfl (by omega), or_step _ _ 8 8 16 rfl (by omega), or_last _ _ 8 (by omega)]
  have l : ∀ x, x % 2 ^ 8 < 2 ^ 8 := fun x => Nat.mod_lt _ (by decide)
  have := l a; have := l b; have := l c; have := l d; have := l e; have := l f; have := l g; have := l h
  apply Nat.mod_eq_of_lt
  generalize a % 2 ^ 8 = a', b % 2 ^ 8 = b', c % 2 ^ 8 = c', d % 2 ^ 8 = d', e % 2 ^ 8 = e', f % 2 ^ 8 = f', g % 2 ^ 8 = g',
    h % 2 ^ 8 = h' at *
  omega

/-- How many library values have a given remainder. -/
def hits (m q r : Nat) : Nat := ((Finset.range m).filter fun a => a % q = r % q).card

theorem hits_eq (m q r : Nat) (hq : 0 < q) : hits m q r = m / q + if r % q < m % q then 1 else 0 := by
  unfold hits
  have := Nat.count_modEq_card m hq r
  rw [Nat.count_eq_card_filter_range] at this
  exact this

/-- C97. With `RAND_MAX` 0x7FFF every 64-bit word comes from equally many 5-tuples of library values. -/
theorem C97_small_uniform64 (v : Nat) (hv : v < 2 ^ 64) :
    ((Finset.range (2 ^ 15) ×ˢ Finset.range (2 ^ 15) ×ˢ Finset.range (2 ^ 15) ×ˢ Finset.range (2 ^ 15) ×ˢ Finset.range (2 ^ 15)).filter
      fun p => rand64Small p.1 p.2.1 p.2.2.1 p.2.2.2.1 p.2.2.2.2 = v).card = 2 ^ 11 := by
  have e : ((Finset.range (2 ^ 15) ×ˢ Finset.range (2 ^ 15) ×ˢ Finset.range (2 ^ 15) ×ˢ Finset.range (2 ^ 15) ×ˢ Finset.range (2 ^ 15)).filter
      fun p => rand64Small p.1 p.2.1 p.2.2.1 p.2.2.2.1 p.2.2.2.2 = v) =
      ((Finset.range (2 ^ 15)).filter fun a => a % 16 = (v / 2 ^ 60) % 16) ×ˢ
        ({v / 2 ^ 45 % 2 ^ 15} ×ˢ {v / 2 ^ 30 % 2 ^ 15} ×ˢ {v / 2 ^ 15 % 2 ^ 15} ×ˢ {v % 2 ^ 15}) := by
    ext ⟨a, b, c, d, e⟩
    simp only [Finset.mem_filter, Finset.mem_product, Finset.mem_range, Finset.mem_singleton, rand64Small_eq]
    constructor
    · rintro ⟨⟨ha, hb, hc, hd, he⟩, h⟩
      rw [Nat.mod_eq_of_lt hb, Nat.mod_eq_of_lt hc, Nat.mod_eq_of_lt hd, Nat.mod_eq_of_lt he] at h
      refine ⟨⟨ha, ?_⟩, ?_, ?_, ?_, ?_⟩ <;> omega
    · rintro ⟨⟨ha, h⟩, hb, hc, hd, he⟩
      refine ⟨⟨ha, by omega, by omega, by omega, by omega⟩, ?_⟩
      rw [h, hb, hc, hd, he]
      omega
  have hh := hits_eq (2 ^ 15) 16 (v / 2 ^ 60) (by decide)
  unfold hits at hh
  rw [e, Finset.card_product, Finset.card_product, Finset.card_product, Finset.card_product, Finset.card_singleton, Finset.card_singleton,
    Finset.card_singleton, Finset.card_singleton, hh, if_neg (by omega)]
  decide

/-- C97. With `RAND_MAX` 0xFFFF every 32-bit word comes from exactly one pair of library values. -/
theorem C97_half_uniform32 (v : Nat) (hv : v < 2 ^ 32) :
    ∃ a b, a < 2 ^ 16 ∧ b < 2 ^ 16 ∧ rand32Half a b = v ∧
      ∀ a' b', a' < 2 ^ 16 → b' < 2 ^ 16 → rand32Half a' b' = v → a' = a ∧ b' = b := by
  refine ⟨v / 2 ^ 16, v % 2 ^ 16, by omega, by omega, by rw [rand32Half_eq]; omega, ?_⟩
  intro a' b' ha hb h
  rw [rand32Half_eq] at h
  omega

/-- C97. With `RAND_MAX` 0xFFFF every 64-bit word comes from exactly one quadruple of library values. -/
theorem C97_half_uniform64 (v : Nat) (hv : v < 2 ^ 64) :
    ∃ a b c d, (a < 2 ^ 16 ∧ b < 2 ^ 16 ∧ c < 2 ^ 16 ∧ d < 2 ^ 16) ∧ rand64Half a b c d = v ∧
      ∀ a' b' c' d', a' < 2 ^ 16 → b' < 2 ^ 16 → c' < 2 ^ 16 → d' < 2 ^ 16 → rand64Half a' b' c' d' = v →
        a' = a ∧ b' = b ∧ c' = c ∧ d' = d := by
  refine ⟨v / 2 ^ 48, v / 2 ^ 32 % 2 ^ 16, v / 2 ^ 16 % 2 ^ 16, v % 2 ^ 16, by omega, by rw [rand64Half_eq]; omega, ?_⟩
  intro a' b' c' d' ha hb hc hd h
  rw [rand64Half_eq] at h
  omega

theorem bytes32_card (m v : Nat) (hv : v < 2 ^ 32) :
    ((Finset.range m ×ˢ Finset.range m ×ˢ Finset.range m ×ˢ Finset.range m).filter
      fun p => rand32Bytes p.1 p.2.1 p.2.2.1 p.2.2.2 = v).card =
    hits m 256 (v / 2 ^ 24) * (hits m 256 (v / 2 ^ 16) * (hits m 256 (v / 2 ^ 8) * hits m 256 v)) := by
  have e : ((Finset.range m ×ˢ Finset.range m ×ˢ Finset.range m ×ˢ Finset.range m).filter
      fun p => rand32Bytes p.1 p.2.1 p.2.2.1 p.2.2.2 = v) =
      ((Finset.range m).filter fun a => a % 256 = v / 2 ^ 24 % 256) ×ˢ ((Finset.range m).filter fun a => a % 256 = v / 2 ^ 16 % 256) ×ˢ
        ((Finset.range m).filter fun a => a % 256 = v / 2 ^ 8 % 256) ×ˢ ((Finset.range m).filter fun a => a % 256 = v % 256) := by
    ext ⟨a, b, c, d⟩
    simp only [Finset.mem_filter, Finset.mem_product, Finset.mem_range, rand32Bytes_eq]
    constructor
    · rintro ⟨⟨ha, hb, hc, hd⟩, h⟩
      refine ⟨⟨ha, ?_⟩, ⟨hb, ?_⟩, ⟨hc, ?_⟩, hd, ?_⟩ <;> omega
    · rintro ⟨⟨ha, ha'⟩, ⟨hb, hb'⟩, ⟨hc, hc'⟩, hd, hd'⟩
      refine ⟨⟨ha, hb, hc, hd⟩, ?_⟩
      omega
  rw [e, Finset.card_product, Finset.card_product, Finset.card_product]
  rfl

/-- C97. The bytewise words are equally likely when 256 divides the number of library values ... -/
theorem C97_bytes_uniform32 (m v : Nat) (hv : v < 2 ^ 32) (hm : m % 256 = 0) :
    ((Finset.range m ×ˢ Finset.range m ×ˢ Finset.range m ×ˢ Finset.range m).filter
      fun p => rand32Bytes p.1 p.2.1 p.2.2.1 p.2.2.2 = v).card = (m / 256) ^ 4 := by
  rw [bytes32_card m v hv]
  simp only [hits_eq m 256 _ (by decide), hm, Nat.not_lt_zero, if_false, Nat.add_zero]
  simp only [Nat.pow_succ, Nat.pow_zero, Nat.one_mul, Nat.mul_assoc]

/-- ... and only then: otherwise the word 0 comes from more quadruples than the word 2^32 - 1. -/
theorem C97_bytes_biased32 (m : Nat) (hm : m % 256 ≠ 0) :
    ((Finset.range m ×ˢ Finset.range m ×ˢ Finset.range m ×ˢ Finset.range m).filter
      fun p => rand32Bytes p.1 p.2.1 p.2.2.1 p.2.2.2 = 2 ^ 32 - 1).card <
    ((Finset.range m ×ˢ Finset.range m ×ˢ Finset.range m ×ˢ Finset.range m).filter
      fun p => rand32Bytes p.1 p.2.1 p.2.2.1 p.2.2.2 = 0).card := by
  rw [bytes32_card m _ (by omega), bytes32_card m _ (by omega)]
  simp only [hits_eq m 256 _ (by decide)]
  have l : m % 256 < 256 := Nat.mod_lt _ (by decide)
  have h0 : 0 < m % 256 := by omega
  have hn : ¬ 255 < m % 256 := by omega
  norm_num only [hn, h0, if_true, if_false, Nat.add_zero]
  have : ∀ x : Nat, x * (x * (x * x)) < (x + 1) * ((x + 1) * ((x + 1) * (x + 1))) := by
    intro x
    exact Nat.mul_lt_mul'' (Nat.lt_succ_self x) (Nat.mul_lt_mul'' (Nat.lt_succ_self x) (Nat.mul_lt_mul'' (Nat.lt_succ_self x) (Nat.lt_succ_self x)))
  exact this _

theorem bytes64_card (m v : Nat) (hv : v < 2 ^ 64) :
    ((Finset.range m ×ˢ Finset.range m ×ˢ Finset.range m ×ˢ Finset.range m ×ˢ Finset.range m ×ˢ Finset.range m ×ˢ Finset.range m ×ˢ
        Finset.range m).filter
      fun p => rand64Bytes p.1 p.2.1 p.2.2.1 p.2.2.2.1 p.2.2.2.2.1 p.2.2.2.2.2.1 p.2.2.2.2.2.2.1 p.2.2.2.2.2.2.2 = v).card =
    hits m 256 (v / 2 ^ 56) * (hits m 256 (v / 2 ^ 48) * (hits m 256 (v / 2 ^ 40) * (hits m 256 (v / 2 ^ 32) *
      (hits m 256 (v / 2 ^ 24) * (hits m 256 (v / 2 ^ 16) * (hits m 256 (v / 2 ^ 8) * hits m 256 v)))))) := by
  have e : ((Finset.range m ×ˢ Finset.range m ×ˢ Finset.range m ×ˢ Finset.range m ×ˢ Finset.range m ×ˢ Finset.range m ×ˢ Finset.range m ×ˢ
        Finset.range m).filter
      fun p => rand64Bytes p.1 p.2.1 p.2.2.1 p.2.2.2.1 p.2.2.2.2.1 p.2.2.2.2.2.1 p.2.2.2.2.2.2.1 p.2.2.2.2.2.2.2 = v) =
      ((Finset.range m).filter fun a => a % 256 = v / 2 ^ 56 % 256) ×ˢ ((Finset.range m).filter fun a => a % 256 = v / 2 ^ 48 % 256) ×ˢ
      ((Finset.range m).filter fun a => a % 256 = v / 2 ^ 40 % 256) ×ˢ ((Finset.range m).filter fun a => a % 256 = v / 2 ^ 32 % 256) ×ˢ
      ((Finset.range m).filter fun a => a % 256 = v / 2 ^ 24 % 256) ×ˢ ((Finset.range m).filter fun a => a % 256 = v / 2 ^ 16 % 256) ×ˢ
        ((Finset.range m).filter fun a => a % 256 = v / 2 ^ 8 % 256) ×ˢ ((Finset.range m).filter fun a => a % 256 = v % 256) := by
    ext ⟨a, b, c, d, e, f, g, h⟩
    simp only [Finset.mem_filter, Finset.mem_product, Finset.mem_range, rand64Bytes_eq]
    constructor
    · rintro ⟨⟨ha, hb, hc, hd, he, hf, hg, hh⟩, h⟩
      refine ⟨⟨ha, ?_⟩, ⟨hb, ?_⟩, ⟨hc, ?_⟩, ⟨hd, ?_⟩, ⟨he, ?_⟩, ⟨hf, ?_⟩, ⟨hg, ?_⟩, hh, ?_⟩ <;> omega
    · rintro ⟨⟨ha, ha'⟩, ⟨hb, hb'⟩, ⟨hc, hc'⟩, ⟨hd, hd'⟩, ⟨he, he'⟩, ⟨hf, hf'⟩, ⟨hg, hg'⟩, hh, hh'⟩
      refine ⟨⟨ha, hb, hc, hd, he, hf, hg, hh⟩, ?_⟩
      rw [show (2 : Nat) ^ 8 = 256 from rfl, ha', hb', hc', hd', he', hf', hg', hh']
      omega
  rw [e, Finset.card_product, Finset.card_product, Finset.card_product, Finset.card_product, Finset.card_product, Finset.card_product,
    Finset.card_product]
  rfl

/-- C97. The same for the 64-bit words ... -/
theorem C97_bytes_uniform64 (m v : Nat) (hv : v < 2 ^ 64) (hm : m % 256 = 0) :
    ((Finset.range m ×ˢ Finset.range m ×ˢ Finset.range m ×ˢ Finset.range m ×ˢ Finset.range m ×ˢ Finset.range m ×ˢ Finset.range m ×ˢ
        Finset.range m).filter
      fun p => rand64Bytes p.1 p.2.1 p.2.2.1 p.2.2.2.1 p.2.2.2.2.1 p.2.2.2.2.2.1 p.2.2.2.2.2.2.1 p.2.2.2.2.2.2.2 = v).card =
    (m / 256) ^ 8 := by
  rw [bytes64_card m v hv]
  simp only [hits_eq m 256 _ (by decide), hm, Nat.not_lt_zero, if_false, Nat.add_zero]
  simp only [Nat.pow_succ, Nat.pow_zero, Nat.one_mul, Nat.mul_assoc]

/-- ... and here too the word 0 is preferred in all other cases. -/
theorem C97_bytes_biased64 (m : Nat) (hm : m % 256 ≠ 0) :
    ((Finset.range m ×ˢ Finset.range m ×ˢ Finset.range m ×ˢ Finset.range m ×ˢ Finset.range m ×ˢ Finset.range m ×ˢ Finset.range m ×ˢ
        Finset.range m).filter
      fun p => rand64Bytes p.1 p.2.1 p.2.2.1 p.2.2.2.1 p.2.2.2.2.1 p.2.2.2.2.2.1 p.2.2.2.2.2.2.1 p.2.2.2.2.2.2.2 = 2 ^ 64 - 1).card <
    ((Finset.range m ×ˢ Finset.range m ×ˢ Finset.range m ×ˢ Finset.range m ×ˢ Finset.range m ×ˢ Finset.range m ×ˢ Finset.range m ×ˢ
        Finset.range m).filter
      fun p => rand64Bytes p.1 p.2.1 p.2.2.1 p.2.2.2.1 p.2.2.2.2.1 p.2.2.2.2.2.1 p.2.2.2.2.2.2.1 p.2.2.2.2.2.2.2 = 0).card := by
  rw [bytes64_card m _ (by omega), bytes64_card m _ (by omega)]
  simp only [hits_eq m 256 _ (by decide)]
  have l : m % 256 < 256 := Nat.mod_lt _ (by decide)
  have h0 : 0 < m % 256 := by omega
  have hn : ¬ 255 < m % 256 := by omega
  norm_num only [hn, h0, if_true, if_false, Nat.add_zero]
  generalize m / 256 = x
  have s : x < x + 1 := Nat.lt_succ_self x
  exact Nat.mul_lt_mul'' s (Nat.mul_lt_mul'' s (Nat.mul_lt_mul'' s (Nat.mul_lt_mul'' s (Nat.mul_lt_mul'' s (Nat.mul_lt_mul'' s
    (Nat.mul_lt_mul'' s s))))))

example : rand64Small 0x7FFF 0 0 0 1 = 0xF000000000000001 ∧ rand64Half 1 2 3 4 = 0x0001000200030004 ∧
    rand64Bytes 0x101 2 3 4 5 6 7 8 = 0x0102030405060708 ∧ rand32Bytes 1 2 3 0x1FF = 0x010203FF ∧ rand32Half 1 2 = 0x00010002 := by decide +kernel

example : (0x8000 + 0x100 : Nat) % 256 = 0 ∧ (0x8001 : Nat) % 256 ≠ 0 := by decide

end Verif.Rand
