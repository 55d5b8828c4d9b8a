/-
The population count of HAKMEM, item 169 (C22).
-/
import Verif.PropsBits

namespace Verif.Bits

/-- `__internal_hakmem_popcnt` (BitUtils.h:79-84); `unsigned int` has 32 bits, the constants are written in octal. -/
def hakmemPopcnt (x : Nat) : Nat :=
  let tmp := (x + 2 ^ 32 - ((x >>> 1) &&& 0xDB6DB6DB) + 2 ^ 32 - ((x >>> 2) &&& 0x49249249)) % 2 ^ 32
  ((tmp + (tmp >>> 3)) % 2 ^ 32 &&& 0xC71C71C7) % 63

/-- The octal constants of the source. -/
theorem octal : 0xDB6DB6DB = 0o33333333333 ∧ 0x49249249 = 0o11111111111 ∧ 0xC71C71C7 = 0o30707070707 := by decide

theorem and_lane6 {l c : Nat} (h c' : Nat) (hl : l < 64) (hc : c < 64) :
    (l + 64 * h) &&& (c + 64 * c') = (l &&& c) + 64 * (h &&& c') := by
  have h1 : l &&& c < 64 := Nat.lt_of_le_of_lt Nat.and_le_left hl
  have e : ∀ a b : Nat, a + 64 * b = 2 ^ 6 * b + a := by intro a b; omega
  rw [e, e, e]
  apply Nat.eq_of_testBit_eq
  intro i
  rw [Nat.testBit_and, Nat.testBit_two_pow_mul_add _ (show l < 2 ^ 6 from hl), Nat.testBit_two_pow_mul_add _ (show c < 2 ^ 6 from hc),
    Nat.testBit_two_pow_mul_add _ (show l &&& c < 2 ^ 6 from h1)]
  split
  · rw [Nat.testBit_and]
  · rw [Nat.testBit_and]

/-- The word with six digits of six bits. -/
def six (a b c d e f : Nat) : Nat := a + 64 * (b + 64 * (c + 64 * (d + 64 * (e + 64 * f))))

theorem and_six {a b c d e f a' b' c' d' e' f' : Nat} (ha : a < 64) (hb : b < 64) (hc : c < 64) (hd : d < 64) (he : e < 64)
    (ha' : a' < 64) (hb' : b' < 64) (hc' : c' < 64) (hd' : d' < 64) (he' : e' < 64) :
    six a b c d e f &&& six a' b' c' d' e' f' = six (a &&& a') (b &&& b') (c &&& c') (d &&& d') (e &&& e') (f &&& f') := by
  unfold six
  rw [and_lane6 _ _ ha ha', and_lane6 _ _ hb hb', and_lane6 _ _ hc hc', and_lane6 _ _ hd hd', and_lane6 _ _ he he']

/-- One digit: the shifts with the bits that come in from the next one. -/
theorem digit_shift : ∀ d : Fin 64, ∀ n : Fin 4,
    (d.1 / 2 + 32 * (n.1 % 2)) &&& 27 = (d.1 / 2) &&& 27 ∧ (d.1 / 4 + 16 * n.1) &&& 9 = (d.1 / 4) &&& 9 := by decide +kernel

/-- One digit after the first step: two population counts of three bits each. -/
theorem digit_count : ∀ d : Fin 64,
    let t := d.1 - ((d.1 / 2) &&& 27) - ((d.1 / 4) &&& 9)
    ((d.1 / 2) &&& 27) + ((d.1 / 4) &&& 9) ≤ d.1 ∧ t / 8 ≤ 3 ∧ t % 8 ≤ 3 ∧ t / 8 + t % 8 = popcount 6 d.1 := by decide +kernel

theorem popcount_split6 (l h m : Nat) (hl : l < 64) : popcount (6 + m) (l + 64 * h) = popcount 6 l + popcount m h := by
  have e : l + 64 * h = 2 ^ 6 * h + l := by omega
  unfold popcount
  rw [List.range_add, List.filter_append, List.length_append, List.filter_map, List.length_map]
  congr 1
  · congr 1
    apply List.filter_congr
    intro i hi
    rw [List.mem_range] at hi
    rw [e, Nat.testBit_two_pow_mul_add _ (show l < 2 ^ 6 from hl), if_pos hi]
  · congr 1
    apply List.filter_congr
    intro i hi
    simp only [Function.comp]
    rw [e, Nat.testBit_two_pow_mul_add _ (show l < 2 ^ 6 from hl), if_neg (by omega), Nat.add_sub_cancel_left]

theorem mask7 {a b : Nat} (h : a ≤ 6) : (a + 8 * b) &&& 7 = a := by
  rw [show (7 : Nat) = 2 ^ 3 - 1 from rfl, Nat.and_two_pow_sub_one_eq_mod]
  omega

theorem six_add (a b c d e f a' b' c' d' e' f' : Nat) :
    six a b c d e f + six a' b' c' d' e' f' = six (a + a') (b + b') (c + c') (d + d') (e + e') (f + f') := by
  unfold six; omega

theorem sub_six {a b c d e f ax bx cx dx ex fx ay b' cy dy ey fy : Nat}
    (hx : six a b c d e f < 2 ^ 32)
    (a1 : ax + ay ≤ a) (b1 : bx + b' ≤ b) (c1 : cx + cy ≤ c) (d1 : dx + dy ≤ d) (e1 : ex + ey ≤ e) (f1 : fx + fy ≤ f) :
    (six a b c d e f + 2 ^ 32 - six ax bx cx dx ex fx + 2 ^ 32 - six ay b' cy dy ey fy) % 2 ^ 32 =
      six (a - ax - ay) (b - bx - b') (c - cx - cy) (d - dx - dy) (e - ex - ey) (f - fx - fy) := by
  have e1 : six (a - ax - ay) (b - bx - b') (c - cx - cy) (d - dx - dy) (e - ex - ey) (f - fx - fy) +
      six ax bx cx dx ex fx + six ay b' cy dy ey fy = six a b c d e f := by
    rw [six_add, six_add, show a - ax - ay + ax + ay = a by omega, show b - bx - b' + bx + b' = b by omega,
      show c - cx - cy + cx + cy = c by omega, show d - dx - dy + dx + dy = d by omega,
      show e - ex - ey + ex + ey = e by omega, show f - fx - fy + fx + fy = f by omega]
  generalize six (a - ax - ay) (b - bx - b') (c - cx - cy) (d - dx - dy) (e - ex - ey) (f - fx - fy) = t at *
  omega

theorem sum_six {p q r s t u p' q' r' s' t' u' : Nat}
    (h : p ≤ 3 ∧ q ≤ 3 ∧ r ≤ 3 ∧ s ≤ 3 ∧ t ≤ 3 ∧ u ≤ 2) (h' : p' ≤ 3 ∧ q' ≤ 3 ∧ r' ≤ 3 ∧ s' ≤ 3 ∧ t' ≤ 3) (hu : u' = 0) :
    (six (p + 8 * p') (q + 8 * q') (r + 8 * r') (s + 8 * s') (t + 8 * t') (u + 8 * u') +
      six (p + 8 * p') (q + 8 * q') (r + 8 * r') (s + 8 * s') (t + 8 * t') (u + 8 * u') >>> 3) % 2 ^ 32 =
    six (p' + p + 8 * (p' + q)) (q' + q + 8 * (q' + r)) (r' + r + 8 * (r' + s)) (s' + s + 8 * (s' + t)) (t' + t + 8 * (t' + u)) u := by
  subst hu
  rw [Nat.shiftRight_eq_div_pow]
  have e1 : six (p + 8 * p') (q + 8 * q') (r + 8 * r') (s + 8 * s') (t + 8 * t') (u + 8 * 0) / 2 ^ 3 =
      six (p' + 8 * q) (q' + 8 * r) (r' + 8 * s) (s' + 8 * t) (t' + 8 * u) 0 := by
    have : six (p + 8 * p') (q + 8 * q') (r + 8 * r') (s + 8 * s') (t + 8 * t') (u + 8 * 0) =
        p + 8 * six (p' + 8 * q) (q' + 8 * r) (r' + 8 * s) (s' + 8 * t) (t' + 8 * u) 0 := by unfold six; omega
    rw [this]; omega
  rw [e1, six_add]
  unfold six
  rw [Nat.mod_eq_of_lt (by omega)]
  omega

/-- C22. The population count of HAKMEM is exact for all 32-bit words. -/
theorem C22_hakmem {x : Nat} (hx : x < 2 ^ 32) : hakmemPopcnt x = popcount 32 x := by
  obtain ⟨a, b, c, d, e, f, ha, hb, hc, hd, he, hf, rfl⟩ : ∃ a b c d e f, a < 64 ∧ b < 64 ∧ c < 64 ∧ d < 64 ∧ e < 64 ∧ f < 4 ∧ x = six a b c d e f :=
    ⟨x % 64, x / 64 % 64, x / 64 ^ 2 % 64, x / 64 ^ 3 % 64, x / 64 ^ 4 % 64, x / 64 ^ 5, by omega, by omega, by omega, by omega, by omega, by omega,
      by unfold six; omega⟩
  have hs1 : six a b c d e f >>> 1 = six (a / 2 + 32 * (b % 2)) (b / 2 + 32 * (c % 2)) (c / 2 + 32 * (d % 2)) (d / 2 + 32 * (e % 2))
      (e / 2 + 32 * (f % 2)) (f / 2) := by
    rw [Nat.shiftRight_eq_div_pow]; unfold six; omega
  have hs2 : six a b c d e f >>> 2 = six (a / 4 + 16 * (b % 4)) (b / 4 + 16 * (c % 4)) (c / 4 + 16 * (d % 4)) (d / 4 + 16 * (e % 4))
      (e / 4 + 16 * (f % 4)) (f / 4) := by
    rw [Nat.shiftRight_eq_div_pow]; unfold six; omega
  have g1 : ∀ y z, y < 64 → (y / 2 + 32 * (z % 2)) &&& 27 = (y / 2) &&& 27 := by
    intro y z hy
    have := (digit_shift ⟨y, hy⟩ ⟨z % 2, by omega⟩).1
    simpa using this
  have g2 : ∀ y z, y < 64 → (y / 4 + 16 * (z % 4)) &&& 9 = (y / 4) &&& 9 := by
    intro y z hy
    exact (digit_shift ⟨y, hy⟩ ⟨z % 4, by omega⟩).2
  have g3 : ∀ y, y < 4 → (y / 2) &&& 3 = (y / 2) &&& 27 ∧ (y / 4) &&& 1 = (y / 4) &&& 9 := by
    intro y hy
    have : ∀ w : Fin 4, (w.1 / 2) &&& 3 = (w.1 / 2) &&& 27 ∧ (w.1 / 4) &&& 1 = (w.1 / 4) &&& 9 := by decide
    exact this ⟨y, hy⟩
  have m1 : (0xDB6DB6DB : Nat) = six 27 27 27 27 27 3 := by decide
  have m2 : (0x49249249 : Nat) = six 9 9 9 9 9 1 := by decide
  have m3 : (0xC71C71C7 : Nat) = six 7 7 7 7 7 3 := by decide
  unfold hakmemPopcnt
  simp only
  rw [hs1, hs2, m1, m2, m3, and_six (by omega) (by omega) (by omega) (by omega) (by omega) (by omega) (by omega) (by omega) (by omega) (by omega),
    and_six (by omega) (by omega) (by omega) (by omega) (by omega) (by omega) (by omega) (by omega) (by omega) (by omega),
    g1 a b ha, g1 b c hb, g1 c d hc, g1 d e hd, g1 e f he, g2 a b ha, g2 b c hb, g2 c d hc, g2 d e hd, g2 e f he, (g3 f hf).1, (g3 f hf).2]
  have hp : popcount 32 (six a b c d e f) = popcount 6 a + (popcount 6 b + (popcount 6 c + (popcount 6 d + (popcount 6 e + popcount 6 f)))) := by
    have hf2 : popcount 2 f = popcount 6 f := by
      have : ∀ w : Fin 4, popcount 2 w.1 = popcount 6 w.1 := by decide
      exact this ⟨f, hf⟩
    unfold six
    rw [show 32 = 6 + 26 from rfl, popcount_split6 _ _ _ ha, show 26 = 6 + 20 from rfl, popcount_split6 _ _ _ hb, show 20 = 6 + 14 from rfl,
      popcount_split6 _ _ _ hc, show 14 = 6 + 8 from rfl, popcount_split6 _ _ _ hd, show 8 = 6 + 2 from rfl, popcount_split6 _ _ _ he, hf2]
  rw [hp]
  obtain ⟨a1, a2, a3, a4⟩ := digit_count ⟨a, ha⟩
  obtain ⟨b1, b2, b3, b4⟩ := digit_count ⟨b, hb⟩
  obtain ⟨c1, c2, c3, c4⟩ := digit_count ⟨c, hc⟩
  obtain ⟨d1, d2, d3, d4⟩ := digit_count ⟨d, hd⟩
  obtain ⟨e1, e2, e3, e4⟩ := digit_count ⟨e, he⟩
  obtain ⟨f1, f2, f3, f4⟩ := digit_count ⟨f, by omega⟩
  simp only at a1 a2 a3 a4 b1 b2 b3 b4 c1 c2 c3 c4 d1 d2 d3 d4 e1 e2 e3 e4 f1 f2 f3 f4
  rw [← a4, ← b4, ← c4, ← d4, ← e4, ← f4]
  have f5 : f - ((f / 2) &&& 27) - ((f / 4) &&& 9) ≤ 2 := by
    have : ∀ w : Fin 4, w.1 - ((w.1 / 2) &&& 27) - ((w.1 / 4) &&& 9) ≤ 2 := by decide
    exact this ⟨f, hf⟩
  clear a4 b4 c4 d4 e4 f4 hp g1 g2 g3 hs1 hs2
  generalize (a / 2) &&& 27 = ax at *
  generalize (a / 4) &&& 9 = ay at *
  generalize (b / 2) &&& 27 = bx at *
  generalize (b / 4) &&& 9 = by' at *
  generalize (c / 2) &&& 27 = cx at *
  generalize (c / 4) &&& 9 = cy at *
  generalize (d / 2) &&& 27 = dx at *
  generalize (d / 4) &&& 9 = dy at *
  generalize (e / 2) &&& 27 = ex at *
  generalize (e / 4) &&& 9 = ey at *
  generalize (f / 2) &&& 27 = fx at *
  generalize (f / 4) &&& 9 = fy at *
  rw [sub_six hx a1 b1 c1 d1 e1 f1]
  clear hx
  generalize a - ax - ay = ta at *
  generalize b - bx - by' = tb at *
  generalize c - cx - cy = tc at *
  generalize d - dx - dy = td at *
  generalize e - ex - ey = te at *
  generalize f - fx - fy = tf at *
  clear a1 b1 c1 d1 e1 f1 ha hb hc hd he hf
  have sp : ∀ y : Nat, y = y % 8 + 8 * (y / 8) := by intro y; omega
  have hsum := sum_six (p := ta % 8) (q := tb % 8) (r := tc % 8) (s := td % 8) (t := te % 8) (u := tf % 8) (p' := ta / 8) (q' := tb / 8)
    (r' := tc / 8) (s' := td / 8) (t' := te / 8) (u' := tf / 8) ⟨a3, b3, c3, d3, e3, by omega⟩ ⟨a2, b2, c2, d2, e2⟩ (by omega)
  rw [← sp, ← sp, ← sp, ← sp, ← sp, ← sp] at hsum
  rw [hsum]
  rw [Nat.mod_eq_of_lt (show tf < 8 by omega), Nat.div_eq_of_lt (show tf < 8 by omega)]
  generalize ta / 8 = a' at *
  generalize ta % 8 = ta at *
  generalize tb / 8 = b' at *
  generalize tb % 8 = tb at *
  generalize tc / 8 = c' at *
  generalize tc % 8 = tc at *
  generalize td / 8 = d' at *
  generalize td % 8 = td at *
  generalize te / 8 = e' at *
  generalize te % 8 = te at *
  clear hsum sp
  rw [and_six (by omega) (by omega) (by omega) (by omega) (by omega) (by omega) (by omega) (by omega) (by omega) (by omega),
    mask7 (by omega), mask7 (by omega), mask7 (by omega), mask7 (by omega), mask7 (by omega),
    show (3 : Nat) = 2 ^ 2 - 1 from rfl, Nat.and_two_pow_sub_one_eq_mod]
  rw [Nat.mod_eq_of_lt (show tf < 2 ^ 2 by omega)]
  unfold six
  have : a' + ta + 64 * (b' + tb + 64 * (c' + tc + 64 * (d' + td + 64 * (e' + te + 64 * tf)))) =
      (a' + ta + (b' + tb) + (c' + tc) + (d' + td) + (e' + te) + tf) +
        63 * ((b' + tb) + 65 * (c' + tc) + 4161 * (d' + td) + 266305 * (e' + te) + 17043521 * tf) := by omega
  rw [this, Nat.add_mul_mod_self_left, Nat.mod_eq_of_lt (by omega)]
  omega

example : hakmemPopcnt 0xFFF0_0F01 = 17 ∧ hakmemPopcnt 0xFFFF_FFFF = 32 := by decide +kernel

end Verif.Bits
