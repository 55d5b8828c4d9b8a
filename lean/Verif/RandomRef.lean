/-
Comparison of `MT19937_32` and `MT19937_64` with the published generators (C108).  The reference is
written on natural numbers from the parameters listed in the comments M32:76-111, M64:76-111 and
shares no definition with the model.

Abbreviations as in `Random`.
-/
import Verif.RandomProps

namespace Verif.Rand

/-- Seeding of the published generators of `w` bits with multiplier `f`:
`x[i] = f * (x[i-1] ^ (x[i-1] >> (w-2))) + i`. -/
def stdSeed (w f seed : Nat) : Nat → Nat
  | 0 => seed
  | i + 1 => (f * (stdSeed w f seed i ^^^ stdSeed w f seed i / 2 ^ (w - 2)) + (i + 1)) % 2 ^ w

/-- One step of the published recurrence: the upper bit(s) above `r` of `u`, the lower `r` bits of
`v`, shifted by one, with `a` added when `v` is odd. -/
def stdTwist (r a u v : Nat) : Nat :=
  (2 ^ r * (u / 2 ^ r) + v % 2 ^ r) / 2 ^^^ (if v % 2 = 1 then a else 0)

/-- The published tempering with `(u, d) (s, b) (t, c) l`. -/
def stdTemper (w u d s b t c l y : Nat) : Nat :=
  let y := y ^^^ (y / 2 ^ u &&& d)
  let y := y ^^^ (y * 2 ^ s % 2 ^ w &&& b)
  let y := y ^^^ (y * 2 ^ t % 2 ^ w &&& c)
  y ^^^ y / 2 ^ l

theorem initLoop_below {w : Nat} (P : Params w) (n j : Nat) (s : Nat → BitVec w) :
    ∀ i, i < j → initLoop P n j s i = s i := by
  induction n generalizing j s with
  | zero => intro i _; rfl
  | succ n ih =>
    intro i hi
    rw [initLoop, ih (j + 1) _ i (by omega), put, if_neg (by omega)]

theorem initLoop_rec {w : Nat} (P : Params w) (n j : Nat) (s : Nat → BitVec w) :
    ∀ i, j ≤ i → i < j + n → 0 < j → initLoop P n j s i =
      P.initMul * (initLoop P n j s (i - 1) ^^^ (initLoop P n j s (i - 1) >>> 30)) + BitVec.ofNat w i := by
  induction n generalizing j s with
  | zero => intro i h1 h2; omega
  | succ n ih =>
    intro i h1 h2 h3
    rw [initLoop]
    by_cases h : i = j
    · subst h
      rw [initLoop_below _ _ _ _ i (by omega), initLoop_below _ _ _ _ (i - 1) (by omega), put, if_pos rfl,
        put, if_neg (by omega)]
    · exact ih (j + 1) _ i (by omega) (by omega) (by omega)

theorem init_zero {w : Nat} (P : Params w) (o : Os w) (seed : BitVec w) (raw : Nat → BitVec w) :
    init P o seed raw 0 = if seed = 0#w then o.clock else seed := by
  rw [init, initLoop_below _ _ _ _ 0 (by omega), put, if_pos rfl]

theorem init_succ {w : Nat} (P : Params w) (o : Os w) (seed : BitVec w) (raw : Nat → BitVec w) (i : Nat)
    (hi : i + 1 < P.N) : init P o seed raw (i + 1) =
      P.initMul * (init P o seed raw i ^^^ (init P o seed raw i >>> 30)) + BitVec.ofNat w (i + 1) := by
  have := initLoop_rec P (P.N - 1) 1 (put raw 0 (if seed = 0#w then o.clock else seed)) (i + 1) (by omega)
    (by omega) (by omega)
  exact this

theorem ctor_state {w : Nat} (P : Params w) (o : Os w) (raw : Nat → BitVec w) (seed : BitVec w) :
    (ctor P o raw seed).state = init P o seed raw := rfl

theorem mul32 : mt32.initMul.toNat = 1812433253 := rfl

theorem mul64 : mt64.initMul.toNat = 6364136223846793005 := rfl

/-- C108. A seed other than 0 is used as it is, seed 0 stands for the time; then `MT19937_32` fills
its 624 words as the published generator does. -/
theorem C108_seeding32 (o : Os 32) (raw : Nat → BitVec 32) (seed : BitVec 32) (i : Nat) (hi : i < 624) :
    ((ctor mt32 o raw seed).state i).toNat =
      stdSeed 32 1812433253 (if seed.toNat = 0 then o.clock.toNat else seed.toNat) i := by
  rw [ctor_state]
  induction i with
  | zero =>
    rw [init_zero, stdSeed]
    by_cases h : seed = 0#32
    · rw [if_pos h, if_pos (by rw [h]; rfl)]
    · rw [if_neg h, if_neg fun h' : seed.toNat = 0 => h (BitVec.eq_of_toNat_eq (by rw [h']; rfl))]
  | succ i ih =>
    rw [init_succ mt32 o seed raw i hi, stdSeed, ← ih (by omega), BitVec.toNat_add, BitVec.toNat_mul,
      BitVec.toNat_xor, BitVec.toNat_ushiftRight, BitVec.toNat_ofNat, Nat.shiftRight_eq_div_pow]
    rw [mul32, ← Nat.add_mod]

example : ((ctor mt32 ⟨0, 0, none⟩ (fun _ => 0) 5489).state 1).toNat = 1301868182 := by decide +kernel

/-- C108 (partial). `MT19937_64` fills its 312 words by the recurrence
`x[i] = f * (x[i-1] ^ (x[i-1] >> 30)) + i`, that is with the shift of the 32-bit generator. -/
theorem C108_seeding64_partial (o : Os 64) (raw : Nat → BitVec 64) (seed : BitVec 64) :
    ((ctor mt64 o raw seed).state 0).toNat = (if seed.toNat = 0 then o.clock.toNat else seed.toNat) ∧
    ∀ i, i + 1 < 312 → ((ctor mt64 o raw seed).state (i + 1)).toNat =
      (6364136223846793005 * (((ctor mt64 o raw seed).state i).toNat ^^^
        ((ctor mt64 o raw seed).state i).toNat / 2 ^ 30) + (i + 1)) % 2 ^ 64 := by
  rw [ctor_state]
  constructor
  · rw [init_zero]
    by_cases h : seed = 0#64
    · rw [if_pos h, if_pos (by rw [h]; rfl)]
    · rw [if_neg h, if_neg fun h' : seed.toNat = 0 => h (BitVec.eq_of_toNat_eq (by rw [h']; rfl))]
  · intro i hi
    rw [init_succ mt64 o seed raw i hi, BitVec.toNat_add, BitVec.toNat_mul,
      BitVec.toNat_xor, BitVec.toNat_ushiftRight, BitVec.toNat_ofNat, Nat.shiftRight_eq_div_pow]
    rw [mul64, ← Nat.add_mod]

/-- Multiplication by the odd multiplier is injective modulo `2 ^ 64`. -/
theorem mul64_inj (a b c : Nat) (ha : a < 2 ^ 64) (hb : b < 2 ^ 64)
    (h : (6364136223846793005 * a + c) % 2 ^ 64 = (6364136223846793005 * b + c) % 2 ^ 64) : a = b := by
  have h1 : 6364136223846793005 * a + c ≡ 6364136223846793005 * b + c [MOD 2 ^ 64] := h
  have h2 : a ≡ b [MOD 2 ^ 64] :=
    Nat.ModEq.cancel_left_of_coprime (Nat.Coprime.pow_left 64 (by decide)) (Nat.ModEq.add_right_cancel' c h1)
  exact Nat.ModEq.eq_of_lt_of_lt h2 ha hb

/-- C108, deviation. Already the second word of `MT19937_64` is the published one only for seeds
below `2 ^ 30`: the published generator shifts by 62. -/
theorem C108_seeding64_second_word (o : Os 64) (raw : Nat → BitVec 64) (seed : BitVec 64) (hs : seed.toNat ≠ 0) :
    ((ctor mt64 o raw seed).state 1).toNat = stdSeed 64 6364136223846793005 seed.toNat 1 ↔ seed.toNat < 2 ^ 30 := by
  obtain ⟨h0, h1⟩ := C108_seeding64_partial o raw seed
  rw [if_neg hs] at h0
  have h1 := h1 0 (by decide)
  rw [h0] at h1
  rw [Nat.zero_add] at h1
  have hstd : stdSeed 64 6364136223846793005 seed.toNat 1 =
      (6364136223846793005 * (seed.toNat ^^^ seed.toNat / 2 ^ 62) + 1) % 2 ^ 64 := by
    rw [stdSeed, stdSeed, Nat.zero_add]
  rw [h1, hstd]
  clear h1 hstd h0
  have hlt := seed.isLt
  generalize seed.toNat = x at *
  constructor
  · intro h
    have hx : x / 2 ^ 30 < 2 ^ 64 := Nat.lt_of_le_of_lt (Nat.div_le_self _ _) hlt
    have hy : x / 2 ^ 62 < 2 ^ 64 := Nat.lt_of_le_of_lt (Nat.div_le_self _ _) hlt
    have := mul64_inj _ _ _ (Nat.xor_lt_two_pow hlt hx) (Nat.xor_lt_two_pow hlt hy) h
    have : x ^^^ (x ^^^ x / 2 ^ 30) = x ^^^ (x ^^^ x / 2 ^ 62) := by rw [this]
    rw [← Nat.xor_assoc, ← Nat.xor_assoc, Nat.xor_self, Nat.zero_xor, Nat.zero_xor] at this
    clear h
    omega
  · intro h
    rw [Nat.div_eq_of_lt h, Nat.div_eq_of_lt (by omega)]

/-- The two sides of the equivalence occur: the default seed 19650218019770711 is not below `2 ^ 30`. -/
example : (19650218019770711#64).toNat ≠ 0 ∧ ¬ (19650218019770711#64).toNat < 2 ^ 30 ∧ (5489#64).toNat < 2 ^ 30 := by
  decide

theorem twist32_toNat (u v : BitVec 32) : (twist32 u v).toNat = stdTwist 31 0x9908B0DF u.toNat v.toNat := by
  have hm : (mix32 u v).toNat = 2 ^ 31 * (u.toNat / 2 ^ 31) + v.toNat % 2 ^ 31 := by
    rw [C94_mix_constant.1, mixDoc, BitVec.toNat_ofNat, Nat.mod_eq_of_lt]
    have := u.isLt
    have := Nat.mod_lt v.toNat (show 0 < 2 ^ 31 by decide)
    omega
  have ho : v &&& 1#32 ≠ 0#32 ↔ v.toNat % 2 = 1 := by
    have h1 : (v &&& 1#32).toNat = v.toNat % 2 := by
      rw [BitVec.toNat_and]
      exact Nat.and_one_is_mod _
    constructor
    · intro h
      by_contra h2
      apply h
      apply BitVec.eq_of_toNat_eq
      rw [h1]
      show _ = 0
      omega
    · intro h h2
      rw [h2] at h1
      have : (0#32).toNat = 0 := rfl
      omega
  rw [twist32, stdTwist, BitVec.toNat_xor, BitVec.toNat_ushiftRight, Nat.shiftRight_eq_div_pow, hm]
  congr 1
  by_cases h : v.toNat % 2 = 1
  · rw [if_pos h, if_pos (ho.2 h)]; rfl
  · rw [if_neg h, if_neg (fun h' => h (ho.1 h'))]; rfl

theorem temper32_toNat (y : BitVec 32) :
    (temper32 y).toNat = stdTemper 32 11 0xFFFFFFFF 7 0x9D2C5680 15 0xEFC60000 18 y.toNat := by
  have hd : ∀ x : Nat, x < 2 ^ 32 → x &&& 0xFFFFFFFF = x := fun x hx => by
    have := Nat.and_two_pow_sub_one_eq_mod x 32
    rw [Nat.mod_eq_of_lt hx] at this
    exact this
  simp only [temper32, stdTemper, BitVec.toNat_xor, BitVec.toNat_and, BitVec.toNat_shiftLeft,
    BitVec.toNat_ushiftRight, Nat.shiftRight_eq_div_pow, Nat.shiftLeft_eq]
  rw [hd (y.toNat / 2 ^ 11) (by have := y.isLt; omega)]
  rfl

/-- C108 (partial). One step of `MT19937_64` has the published constant, but splits the words at bit 63 instead of 31: it is the published step
exactly for words that agree in the bits 31 to 62. -/
theorem C108_twist64_partial (u v : BitVec 64) :
    (twist64 u v).toNat = stdTwist 63 0xB5026F5AA96619E9 u.toNat v.toNat ∧
    ((twist64 u v).toNat = stdTwist 31 0xB5026F5AA96619E9 u.toNat v.toNat ↔ u.toNat / 2 ^ 31 % 2 ^ 32 = v.toNat / 2 ^ 31 % 2 ^ 32) := by
  have hm : (mix64 u v).toNat = 2 ^ 63 * (u.toNat / 2 ^ 63) + v.toNat % 2 ^ 63 := by
    have hb : mix64 u v = mixDoc 64 63 u v :=
      BitVec.eq_of_getLsbD_eq fun i hi => by rw [mix64_bit u v i hi, mixDoc_bit 64 63 u v i hi]
    rw [hb, mixDoc, BitVec.toNat_ofNat, Nat.mod_eq_of_lt]
    have := u.isLt
    have := Nat.mod_lt v.toNat (show 0 < 2 ^ 63 by decide)
    omega
  have ho : v &&& 1#64 ≠ 0#64 ↔ v.toNat % 2 = 1 := by
    have h1 : (v &&& 1#64).toNat = v.toNat % 2 := by
      rw [BitVec.toNat_and]
      exact Nat.and_one_is_mod _
    constructor
    · intro h
      by_contra h2
      apply h
      apply BitVec.eq_of_toNat_eq
      rw [h1]
      show _ = 0
      omega
    · intro h h2
      rw [h2] at h1
      have : (0#64).toNat = 0 := rfl
      omega
  have h63 : (twist64 u v).toNat = stdTwist 63 0xB5026F5AA96619E9 u.toNat v.toNat := by
    rw [twist64, stdTwist, BitVec.toNat_xor, BitVec.toNat_ushiftRight, Nat.shiftRight_eq_div_pow, hm]
    congr 1
    by_cases h : v.toNat % 2 = 1
    · rw [if_pos h, if_pos (ho.2 h)]; rfl
    · rw [if_neg h, if_neg (fun h' => h (ho.1 h'))]; rfl
  refine ⟨h63, ?_⟩
  rw [h63, stdTwist, stdTwist, Nat.xor_left_inj]
  have := u.isLt
  have := v.isLt
  constructor
  · intro h; omega
  · intro h; omega

/-- C108. The tempering of `MT19937_64` is the published one. -/
theorem C108_temper64 (y : BitVec 64) :
    (temper64 y).toNat = stdTemper 64 29 0x5555555555555555 17 0x71D67FFFEDA60000 37 0xFFF7EEE000000000 43 y.toNat := by
  simp only [temper64, stdTemper, BitVec.toNat_xor, BitVec.toNat_and, BitVec.toNat_shiftLeft,
    BitVec.toNat_ushiftRight, Nat.shiftRight_eq_div_pow, Nat.shiftLeft_eq]
  rfl

/-- C108 (partial). Where the words behind the array can be read, the first 227 words of a new `MT19937_32` are those of
the published generator with the same seed, whatever is stored behind the array.  Word number 227 is the first for
which the array is left (C94). -/
theorem C108_first_words32_partial (o : Os 32) (m : Nat → BitVec 32) (ho : o.past = some m) (raw : Nat → BitVec 32)
    (seed : BitVec 32) (hs : seed.toNat ≠ 0) (n : Nat) (hn : n < 227) :
    ∃ y, word mt32 o n (ctor mt32 o raw seed) = .ok y ∧
      y.toNat = stdTemper 32 11 0xFFFFFFFF 7 0x9D2C5680 15 0xEFC60000 18
        (stdSeed 32 1812433253 seed.toNat (n + 397) ^^^
          stdTwist 31 0x9908B0DF (stdSeed 32 1812433253 seed.toNat n) (stdSeed 32 1812433253 seed.toNat (n + 1))) := by
  obtain ⟨B, hB, hw⟩ := C95_words_of_new_generator mt32 o m ho (by decide) (by decide) (by decide) raw seed
  refine ⟨_, hw n, ?_⟩
  have hN : mt32.N = 624 := rfl
  have hM : mt32.M = 397 := rfl
  have hte : mt32.temper = temper32 := rfl
  have htw : mt32.twist = twist32 := rfl
  have hx : ∀ i, i < 624 → (init mt32 o seed raw i).toNat = stdSeed 32 1812433253 seed.toNat i := fun i hi => by
    have := C108_seeding32 o raw seed i hi
    rw [ctor_state, if_neg hs] at this
    exact this
  rw [hN, Nat.div_eq_of_lt (by omega), Nat.mod_eq_of_lt (by omega)]
  obtain ⟨s', h1, h2, -⟩ := nextBlock_some mt32 o m ho (by decide) (by decide) (init mt32 o seed raw)
  have h0 : Res.ok (B 0) = Res.ok s' := by rw [← h1, ← hB 0]; rfl
  rw [Res.ok.inj h0, h2 n (by rw [hN, hM]; omega), hM, hte, htw]
  rw [temper32_toNat, BitVec.toNat_xor, twist32_toNat, hx n (by omega), hx (n + 1) (by omega), hx (n + 397) (by omega)]

/-- The published first word for the published default seed. -/
example : stdTemper 32 11 0xFFFFFFFF 7 0x9D2C5680 15 0xEFC60000 18
    (stdSeed 32 1812433253 5489 397 ^^^
      stdTwist 31 0x9908B0DF (stdSeed 32 1812433253 5489 0) (stdSeed 32 1812433253 5489 1)) = 3499211612 := by
  set_option maxRecDepth 100000 in simp [stdSeed, stdTwist, stdTemper]

/-- The hypotheses hold for that seed with zeros behind the array. -/
example : ∃ y, word mt32 ⟨0, 0, some fun _ => 0⟩ 226 (ctor mt32 ⟨0, 0, some fun _ => 0⟩ (fun _ => 0) 5489) = .ok y :=
  let ⟨y, h, _⟩ := C108_first_words32_partial ⟨0, 0, some fun _ => 0⟩ _ rfl (fun _ => 0) 5489 (by decide) 226 (by decide)
  ⟨y, h⟩

/-! ### Initialisation by an array of keys

The published `init_by_array` runs over the words 1 .. N-1 again and again.  Written without the array: `x 0 .. x (N-1)` are the
words of the seeding, `x (N+t)` is the word stored by pass `t`; the word it replaces is `x (t+1)` and the word before it is `x (N+t-1)`
(`x 0` for the first pass). -/

/-- The word in front of the one that pass `t` stores. -/
def before {α : Type} (N : Nat) (x : Nat → α) (t : Nat) : α := if t = 0 then x 0 else x (N + t - 1)

/-- Pass `t` of the first loop of the published initialisation. -/
def stdPass1 (w sh m N : Nat) (key : Nat → Nat) (len : Nat) (x : Nat → Nat) (t : Nat) : Nat :=
  ((x (t + 1) ^^^ ((before N x t ^^^ before N x t / 2 ^ sh) * m % 2 ^ w)) + key (t % len) + t % len) % 2 ^ w

/-- Pass `t` of the second loop of the published initialisation, at position `1 + t % (N - 1)`. -/
def stdPass2 (w sh m N : Nat) (x : Nat → Nat) (t : Nat) : Nat :=
  (2 ^ w - (1 + t % (N - 1)) % 2 ^ w + (x (t + 1) ^^^ ((before N x t ^^^ before N x t / 2 ^ sh) * m % 2 ^ w))) % 2 ^ w

/-- The array before pass `t`. -/
def AtPass {w : Nat} (N t : Nat) (s x : Nat → BitVec w) : Prop :=
  s (t % (N - 1)) = before N x t ∧ ∀ u, t ≤ u → u < t + (N - 1) → s (1 + u % (N - 1)) = x (u + 1)

theorem mod_ne {n t u : Nat} (h1 : t < u) (h2 : u < t + n) : u % n ≠ t % n := by
  intro h
  have h3 : n ∣ u - t := (Nat.modEq_iff_dvd' (by omega)).mp h.symm
  have := Nat.le_of_dvd (by omega) h3
  omega

theorem succ_mod {n t : Nat} (hn : 0 < n) : (t + 1) % n = if t % n + 1 ≥ n then 0 else t % n + 1 := by
  have := Nat.mod_lt t hn
  rw [Nat.add_mod]
  by_cases h : n = 1
  · subst h; rw [if_pos (by omega)]; omega
  · rw [Nat.mod_eq_of_lt (a := 1) (by omega)]
    split
    · rw [show t % n + 1 = n by omega, Nat.mod_self]
    · exact Nat.mod_eq_of_lt (by omega)

/-- One pass of either loop: the word is stored, and copied to the front at the end of the array. -/
theorem atPass_step {w N t : Nat} (hN : 2 ≤ N) {s x : Nat → BitVec w} (h : AtPass N t s x) (y : BitVec w) :
    AtPass N (t + 1)
      (if 1 + t % (N - 1) + 1 ≥ N then put (put s (1 + t % (N - 1)) y) 0 (put s (1 + t % (N - 1)) y (N - 1))
        else put s (1 + t % (N - 1)) y) (put x (N + t) y) := by
  have hm := Nat.mod_lt t (show 0 < N - 1 by omega)
  have hs := succ_mod (n := N - 1) (t := t) (by omega)
  obtain ⟨-, h2⟩ := h
  constructor
  · unfold before
    rw [if_neg (show ¬ t + 1 = 0 by omega), show put x (N + t) y (N + (t + 1) - 1) = y by rw [put, if_pos (by omega)], hs]
    by_cases hw : 1 + t % (N - 1) + 1 ≥ N
    · rw [if_pos hw, if_pos (by omega), put, if_pos rfl, put, if_pos (by omega)]
    · rw [if_neg hw, if_neg (by omega), put, if_pos (by omega)]
  · intro u hu1 hu2
    have hput : put s (1 + t % (N - 1)) y (1 + u % (N - 1)) = put x (N + t) y (u + 1) := by
      by_cases hu : u = t + (N - 1)
      · subst hu
        rw [Nat.add_mod_right, put, if_pos rfl, put, if_pos (by omega)]
      · have := mod_ne (n := N - 1) (t := t) (u := u) (by omega) (by omega)
        rw [put, if_neg (by omega), put, if_neg (by omega)]
        exact h2 u (by omega) (by omega)
    split
    · rw [put, if_neg (by omega)]; exact hput
    · exact hput

theorem before_put {w N t u : Nat} (hN : 2 ≤ N) (x : Nat → BitVec w) (y : BitVec w) (h : u ≤ t) :
    before N (put x (N + t) y) u = before N x u := by
  unfold before
  split
  · rw [put, if_neg (by omega)]
  · rw [put, if_neg (by omega)]

/-- Pass `t` of the first loop, on machine words. -/
def pass1 {w : Nat} (P : Params w) (keys : List (BitVec w)) (x : Nat → BitVec w) (t : Nat) : BitVec w :=
  (x (t + 1) ^^^ ((before P.N x t ^^^ (before P.N x t >>> 30)) * P.keyMul1)) + keys.getD (t % keys.length) 0#w +
    BitVec.ofNat w (t % keys.length)

/-- Pass `t` of the second loop, on machine words. -/
def pass2 {w : Nat} (P : Params w) (x : Nat → BitVec w) (t : Nat) : BitVec w :=
  (x (t + 1) ^^^ ((before P.N x t ^^^ (before P.N x t >>> 30)) * P.keyMul2)) - BitVec.ofNat w (1 + t % (P.N - 1))

theorem before_agree {w N t : Nat} (hN : 2 ≤ N) {x x' : Nat → BitVec w} (h : ∀ i, i < N + t → x' i = x i) :
    before N x' t = before N x t := by
  unfold before
  split
  · exact h _ (by omega)
  · exact h _ (by omega)

theorem keyLoop1_passes {w : Nat} (P : Params w) (hN : 2 ≤ P.N) (keys : List (BitVec w)) (hk : 0 < keys.length) (k t : Nat)
    (s x : Nat → BitVec w) (h : AtPass P.N t s x) :
    ∃ s' x', keyLoop1 P keys k (1 + t % (P.N - 1)) (t % keys.length) s = .ok (1 + (t + k) % (P.N - 1), s') ∧
      (∀ i, i < P.N + t → x' i = x i) ∧ (∀ u, t ≤ u → u < t + k → x' (P.N + u) = pass1 P keys x' u) ∧ AtPass P.N (t + k) s' x' := by
  induction k generalizing t s x with
  | zero => exact ⟨s, x, rfl, fun _ _ => rfl, fun u _ _ => by omega, h⟩
  | succ k ih =>
    have hl := Nat.mod_lt t hk
    have hm := Nat.mod_lt t (show 0 < P.N - 1 by omega)
    have hold : s (1 + t % (P.N - 1)) = x (t + 1) := h.2 t (by omega) (by omega)
    have hbef : s (1 + t % (P.N - 1) - 1) = before P.N x t := by
      rw [show 1 + t % (P.N - 1) - 1 = t % (P.N - 1) by omega]; exact h.1
    have hval : (s (1 + t % (P.N - 1)) ^^^ ((s (1 + t % (P.N - 1) - 1) ^^^ (s (1 + t % (P.N - 1) - 1) >>> 30)) * P.keyMul1)) +
        keys[t % keys.length] + BitVec.ofNat w (t % keys.length) = pass1 P keys x t := by
      unfold pass1
      rw [hold, hbef, List.getD_eq_getElem _ _ hl]
    obtain ⟨s', x', h1, h2, h3, h4⟩ := ih (t + 1) _ _ (atPass_step hN h (pass1 P keys x t))
    refine ⟨s', x', ?_, fun i hi => ?_, fun u hu1 hu2 => ?_, ?_⟩
    · rw [keyLoop1, List.getElem?_eq_getElem hl]
      simp only [hval]
      rw [show t + (k + 1) = t + 1 + k by omega, ← h1]
      congr 1
      · rw [succ_mod (n := P.N - 1) (by omega)]
        split <;> split <;> omega
      · rw [succ_mod hk]
    · rw [h2 i (by omega), put, if_neg (by omega)]
    · by_cases hu : u = t
      · subst hu
        rw [h2 _ (by omega), put, if_pos rfl]
        have ha : ∀ i, i < P.N + u → x' i = x i := fun i hi => by rw [h2 i (by omega), put, if_neg (by omega)]
        unfold pass1
        rw [before_agree hN ha, ha (u + 1) (by omega)]
      · exact h3 u (by omega) (by omega)
    · rw [show t + (k + 1) = t + 1 + k by omega]; exact h4

theorem keyLoop2_passes {w : Nat} (P : Params w) (hN : 2 ≤ P.N) (k t : Nat)
    (s x : Nat → BitVec w) (h : AtPass P.N t s x) :
    ∃ x', (∀ i, i < P.N + t → x' i = x i) ∧ (∀ u, t ≤ u → u < t + k → x' (P.N + u) = pass2 P x' u) ∧
      AtPass P.N (t + k) (keyLoop2 P k (1 + t % (P.N - 1)) s) x' := by
  induction k generalizing t s x with
  | zero => exact ⟨x, fun _ _ => rfl, fun u _ _ => by omega, h⟩
  | succ k ih =>
    have hm := Nat.mod_lt t (show 0 < P.N - 1 by omega)
    have hold : s (1 + t % (P.N - 1)) = x (t + 1) := h.2 t (by omega) (by omega)
    have hbef : s (1 + t % (P.N - 1) - 1) = before P.N x t := by
      rw [show 1 + t % (P.N - 1) - 1 = t % (P.N - 1) by omega]; exact h.1
    have hval : (s (1 + t % (P.N - 1)) ^^^ ((s (1 + t % (P.N - 1) - 1) ^^^ (s (1 + t % (P.N - 1) - 1) >>> 30)) * P.keyMul2)) -
        BitVec.ofNat w (1 + t % (P.N - 1)) = pass2 P x t := by
      unfold pass2
      rw [hold, hbef]
    obtain ⟨x', h2, h3, h4⟩ := ih (t + 1) _ _ (atPass_step hN h (pass2 P x t))
    refine ⟨x', fun i hi => ?_, fun u hu1 hu2 => ?_, ?_⟩
    · rw [h2 i (by omega), put, if_neg (by omega)]
    · by_cases hu : u = t
      · subst hu
        rw [h2 _ (by omega), put, if_pos rfl]
        have ha : ∀ i, i < P.N + u → x' i = x i := fun i hi => by rw [h2 i (by omega), put, if_neg (by omega)]
        unfold pass2
        rw [before_agree hN ha, ha (u + 1) (by omega)]
      · exact h3 u (by omega) (by omega)
    · rw [show t + (k + 1) = t + 1 + k by omega]
      have : keyLoop2 P (k + 1) (1 + t % (P.N - 1)) s = keyLoop2 P k (1 + (t + 1) % (P.N - 1))
          (if 1 + t % (P.N - 1) + 1 ≥ P.N then put (put s (1 + t % (P.N - 1)) (pass2 P x t)) 0 (put s (1 + t % (P.N - 1)) (pass2 P x t) (P.N - 1))
            else put s (1 + t % (P.N - 1)) (pass2 P x t)) := by
        rw [keyLoop2]
        simp only [hval]
        congr 1
        rw [succ_mod (n := P.N - 1) (by omega)]
        split <;> split <;> omega
      rw [this]
      exact h4

/-- `init_keys` on any array and any non-empty key. -/
theorem initKeys_passes {w : Nat} (P : Params w) (hN : 2 ≤ P.N) (keys : List (BitVec w)) (hk : keys ≠ []) (s : Nat → BitVec w) :
    ∃ s' x, initKeys P keys s = .ok s' ∧ (∀ i, i < P.N → x i = s i) ∧
      (∀ t, t < max P.N keys.length → x (P.N + t) = pass1 P keys x t) ∧
      (∀ t, max P.N keys.length ≤ t → t < max P.N keys.length + (P.N - 1) → x (P.N + t) = pass2 P x t) ∧
      s' 0 = P.msb ∧
      ∀ t, max P.N keys.length ≤ t → t < max P.N keys.length + (P.N - 1) → s' (1 + t % (P.N - 1)) = x (P.N + t) := by
  have hlen : 0 < keys.length := List.length_pos_iff.mpr hk
  have hmax : (if P.N > keys.length then P.N else keys.length) = max P.N keys.length := by split <;> omega
  have h0 : AtPass P.N 0 s s := by
    refine ⟨by simp [before], fun u _ hu => ?_⟩
    rw [Nat.mod_eq_of_lt (by omega), Nat.add_comm]
  obtain ⟨s1, x1, e1, a1, r1, p1⟩ := keyLoop1_passes P hN keys hlen (max P.N keys.length) 0 s s h0
  rw [Nat.zero_mod, Nat.zero_mod, Nat.zero_add] at e1
  rw [Nat.zero_add] at r1 p1
  obtain ⟨x2, a2, r2, p2⟩ := keyLoop2_passes P hN (P.N - 1) _ s1 x1 p1
  refine ⟨put (keyLoop2 P (P.N - 1) (1 + max P.N keys.length % (P.N - 1)) s1) 0 P.msb, x2, ?_, fun i hi => ?_, fun t ht => ?_, r2, ?_,
    fun t h1 h2 => ?_⟩
  · rw [initKeys, hmax, e1]; rfl
  · rw [a2 i (by omega), a1 i (by omega)]
  · rw [a2 _ (by omega), r1 t (by omega) ht]
    unfold pass1
    rw [before_agree hN (x' := x2) (x := x1) (t := t) (fun i hi => a2 i (by omega)), a2 (t + 1) (by omega)]
  · rw [put, if_pos rfl]
  · rw [put, if_neg (by omega)]
    have := p2.2 (t + (P.N - 1)) (by omega) (by omega)
    rw [Nat.add_mod_right] at this
    rw [this]
    congr 1
    omega

/-- C108. The key constructor of `MT19937_32` does what the published `init_by_array` does with the same key, after seeding with the given
seed (the published one seeds with 19650218). -/
theorem C108_keys32 (o : Os 32) (raw : Nat → BitVec 32) (keys : List (BitVec 32)) (hk : keys ≠ []) (seed : BitVec 32) :
    ∃ g : Gen 32, ∃ x : Nat → Nat, ctorKeys mt32 o raw keys seed = .ok g ∧
      (∀ i, i < 624 → x i = stdSeed 32 1812433253 (if seed.toNat = 0 then o.clock.toNat else seed.toNat) i) ∧
      (∀ t, t < max 624 keys.length →
        x (624 + t) = stdPass1 32 30 1664525 624 (fun j => (keys.getD j 0).toNat) keys.length x t) ∧
      (∀ t, max 624 keys.length ≤ t → t < max 624 keys.length + 623 → x (624 + t) = stdPass2 32 30 1566083941 624 x t) ∧
      (g.state 0).toNat = 2 ^ 31 ∧
      ∀ t, max 624 keys.length ≤ t → t < max 624 keys.length + 623 → (g.state (1 + t % 623)).toNat = x (624 + t) := by
  obtain ⟨s', x, h1, h2, h3, h4, h5, h6⟩ := initKeys_passes mt32 (by decide) keys hk (init mt32 o seed raw)
  have hb : ∀ t, before 624 (fun i => (x i).toNat) t = (before mt32.N x t).toNat := fun t => by
    unfold before; split <;> rfl
  refine ⟨⟨none, 1, s'⟩, fun i => (x i).toNat, by rw [ctorKeys, h1]; rfl, fun i hi => ?_, fun t ht => ?_, fun t ht1 ht2 => ?_, ?_,
    fun t ht1 ht2 => ?_⟩
  · show (x i).toNat = _
    rw [h2 i hi, ← C108_seeding32 o raw seed i hi, ctor_state]
  · show (x (mt32.N + t)).toNat = _
    rw [h3 t ht]
    unfold stdPass1 pass1
    rw [hb, BitVec.toNat_add, BitVec.toNat_add, BitVec.toNat_xor, BitVec.toNat_mul, BitVec.toNat_xor, BitVec.toNat_ushiftRight,
      Nat.shiftRight_eq_div_pow, BitVec.toNat_ofNat, ← Nat.add_mod]
    rfl
  · show (x (mt32.N + t)).toNat = _
    rw [h4 t ht1 ht2]
    unfold stdPass2 pass2
    rw [hb, BitVec.toNat_sub, BitVec.toNat_xor, BitVec.toNat_mul, BitVec.toNat_xor, BitVec.toNat_ushiftRight,
      Nat.shiftRight_eq_div_pow, BitVec.toNat_ofNat]
    rfl
  · show (s' 0).toNat = _
    rw [h5]; rfl
  · show (s' (1 + t % (mt32.N - 1))).toNat = _
    rw [h6 t ht1 ht2]; rfl

example := C108_keys32 ⟨0, 0, none⟩ (fun _ => 0) [0x123, 0x234, 0x345, 0x456] (by decide) 19650218

/-- C108 (partial). The key constructor of `MT19937_64` runs the passes of the published one, but with the constants of the 32-bit
generator: it shifts by 30 and multiplies by 1664525 and 1566083941 where the published one shifts by 62 and multiplies by
3935559000370003845 and 2862933555777941757. -/
theorem C108_keys64_partial (o : Os 64) (raw : Nat → BitVec 64) (keys : List (BitVec 64)) (hk : keys ≠ []) (seed : BitVec 64) :
    ∃ g : Gen 64, ∃ x : Nat → Nat, ctorKeys mt64 o raw keys seed = .ok g ∧
      (∀ i, i < 312 → x i = ((ctor mt64 o raw seed).state i).toNat) ∧
      (∀ t, t < max 312 keys.length →
        x (312 + t) = stdPass1 64 30 1664525 312 (fun j => (keys.getD j 0).toNat) keys.length x t) ∧
      (∀ t, max 312 keys.length ≤ t → t < max 312 keys.length + 311 → x (312 + t) = stdPass2 64 30 1566083941 312 x t) ∧
      (g.state 0).toNat = 2 ^ 63 ∧
      ∀ t, max 312 keys.length ≤ t → t < max 312 keys.length + 311 → (g.state (1 + t % 311)).toNat = x (312 + t) := by
  obtain ⟨s', x, h1, h2, h3, h4, h5, h6⟩ := initKeys_passes mt64 (by decide) keys hk (init mt64 o seed raw)
  have hb : ∀ t, before 312 (fun i => (x i).toNat) t = (before mt64.N x t).toNat := fun t => by
    unfold before; split <;> rfl
  refine ⟨⟨none, 1, s'⟩, fun i => (x i).toNat, by rw [ctorKeys, h1]; rfl, fun i hi => ?_, fun t ht => ?_, fun t ht1 ht2 => ?_, ?_,
    fun t ht1 ht2 => ?_⟩
  · show (x i).toNat = _
    rw [h2 i hi, ctor_state]
  · show (x (mt64.N + t)).toNat = _
    rw [h3 t ht]
    unfold stdPass1 pass1
    rw [hb, BitVec.toNat_add, BitVec.toNat_add, BitVec.toNat_xor, BitVec.toNat_mul, BitVec.toNat_xor, BitVec.toNat_ushiftRight,
      Nat.shiftRight_eq_div_pow, BitVec.toNat_ofNat, ← Nat.add_mod]
    rfl
  · show (x (mt64.N + t)).toNat = _
    rw [h4 t ht1 ht2]
    unfold stdPass2 pass2
    rw [hb, BitVec.toNat_sub, BitVec.toNat_xor, BitVec.toNat_mul, BitVec.toNat_xor, BitVec.toNat_ushiftRight,
      Nat.shiftRight_eq_div_pow, BitVec.toNat_ofNat]
    rfl
  · show (s' 0).toNat = _
    rw [h5]; rfl
  · show (s' (1 + t % (mt64.N - 1))).toNat = _
    rw [h6 t ht1 ht2]; rfl

example := C108_keys64_partial ⟨0, 0, none⟩ (fun _ => 0) [0x12345, 0x23456, 0x34567, 0x45678] (by decide) 19650218

end Verif.Rand
