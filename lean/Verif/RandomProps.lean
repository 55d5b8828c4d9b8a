/-
What a user of the random number helpers can and cannot rely on.
-/
import Verif.Random

namespace Verif.Rand

/-! ### The generators leave their own state array -/

theorem stateLoop_ub_or_ok {w : Nat} (P : Params w) (o : Os w) (off n p : Nat)
    (s : Nat → BitVec w) :
    stateLoop P o off n p s = .ub ∨ ∃ s', stateLoop P o off n p s = .ok s' := by
  induction n generalizing p s with
  | zero => exact .inr ⟨s, rfl⟩
  | succ n ih =>
    have hl : ∀ i, look P o s i = .ub ∨ ∃ x, look P o s i = .ok x := by
      intro i
      unfold look
      split
      · exact .inr ⟨_, rfl⟩
      · cases o.past with
        | none => exact .inl rfl
        | some m => exact .inr ⟨_, rfl⟩
    unfold stateLoop
    rcases hl (p + off) with h | ⟨x, h⟩ <;> rw [h]
    · exact .inl rfl
    rcases hl p with h | ⟨u, h⟩ <;> rw [h]
    · exact .inl rfl
    rcases hl (p + 1) with h | ⟨v, h⟩ <;> rw [h]
    · exact .inl rfl
    exact ih _ _

theorem nextBlock_ub {w : Nat} (P : Params w) (o : Os w) (hM : P.M < P.N) (ho : o.past = none)
    (s : Nat → BitVec w) : nextBlock P o s = .ub := by
  unfold nextBlock
  rcases stateLoop_ub_or_ok P o P.M (P.N - P.M) 0 s with h | ⟨s1, h⟩ <;> rw [h]
  · rfl
  rw [Res.bind_ok]
  rcases stateLoop_ub_or_ok P o (P.N - P.M) (P.M - 1) (P.N - P.M) s1 with h | ⟨s2, h⟩ <;> rw [h]
  · rfl
  rw [Res.bind_ok]
  have : ¬ P.N - 1 + (P.N - P.M) < P.N := by omega
  simp [look, this, ho]

theorem nextState_ub {w : Nat} (P : Params w) (o : Os w) (hM : P.M < P.N) (ho : o.past = none)
    (g : Gen w) : nextState P o g = .ub := by
  simp [nextState, nextBlock_ub P o hM ho]

theorem rand_left1_ub {w : Nat} (P : Params w) (o : Os w) (hM : P.M < P.N) (ho : o.past = none)
    (nx : Option Nat) (s : Nat → BitVec w) : rand P o ⟨nx, 1, s⟩ = .ub := by
  simp [rand, nextState_ub P o hM ho]

theorem keyLoop1_ok {w : Nat} (P : Params w) (keys : List (BitVec w)) (k i j : Nat)
    (hj : j < keys.length) (s : Nat → BitVec w) : ∃ r, keyLoop1 P keys k i j s = .ok r := by
  induction k generalizing i j s with
  | zero => exact ⟨_, rfl⟩
  | succ k ih =>
    unfold keyLoop1
    rw [List.getElem?_eq_getElem hj]
    refine ih _ _ ?_ _
    split <;> omega

theorem initKeys_ok {w : Nat} (P : Params w) (keys : List (BitVec w)) (hk : keys ≠ [])
    (s : Nat → BitVec w) : ∃ s', initKeys P keys s = .ok s' := by
  obtain ⟨r, hr⟩ := keyLoop1_ok P keys (if P.N > keys.length then P.N else keys.length) 1 0
    (List.length_pos_of_ne_nil hk) s
  exact ⟨_, by rw [initKeys, hr]; rfl⟩

theorem initKeys_nil {w : Nat} (P : Params w) (hN : 0 < P.N) (s : Nat → BitVec w) :
    initKeys P [] s = .ub := by
  unfold initKeys
  rw [if_pos (by simpa using hN)]
  obtain ⟨n, hn⟩ : ∃ n, P.N = n + 1 := ⟨P.N - 1, by omega⟩
  rw [hn]
  simp [keyLoop1]

/-- Negation of the property, for any constants with `M < N`. -/
theorem out_of_bounds {w : Nat} (P : Params w) (hP : P.M < P.N)
    (o : Os w) (ho : o.past = none) (raw : Nat → BitVec w) (seed : BitVec w)
    (keys : List (BitVec w)) (g : Gen w) :
    rand P o (ctor P o raw seed) = .ub ∧ srand P o g seed = .ub ∧
      (ctorKeys P o raw keys seed).bind (rand P o) = .ub ∧ srandKeys P o g keys seed = .ub := by
  refine ⟨rand_left1_ub P o hP ho _ _, nextState_ub P o hP ho _, ?_, ?_⟩
  · by_cases hk : keys = []
    · subst hk
      simp [ctorKeys, initKeys_nil P (by omega)]
    · obtain ⟨s', hs'⟩ := initKeys_ok P keys hk (init P o seed raw)
      simp [ctorKeys, hs', rand_left1_ub P o hP ho]
  · unfold srandKeys
    by_cases hk : keys = []
    · subst hk
      simp [initKeys_nil P (by omega)]
    · obtain ⟨s', hs'⟩ := initKeys_ok P keys hk (init P o seed g.state)
      simp [hs', nextState_ub P o hP ho]

/-- Negation of the property: whatever the seed (0 with any clock included) and whatever the key,
the first `rand` of a new `MT19937_32` or `MT19937_64` reads behind the end of its `state` array,
and so does every `srand` of one. -/
theorem C94_every_use_out_of_bounds :
    (∀ (o : Os 32), o.past = none → ∀ raw seed keys g,
      rand mt32 o (ctor mt32 o raw seed) = .ub ∧ srand mt32 o g seed = .ub ∧
        (ctorKeys mt32 o raw keys seed).bind (rand mt32 o) = .ub ∧
        srandKeys mt32 o g keys seed = .ub) ∧
    (∀ (o : Os 64), o.past = none → ∀ raw seed keys g,
      rand mt64 o (ctor mt64 o raw seed) = .ub ∧ srand mt64 o g seed = .ub ∧
        (ctorKeys mt64 o raw keys seed).bind (rand mt64 o) = .ub ∧
        srandKeys mt64 o g keys seed = .ub) :=
  ⟨fun o ho raw seed keys g => out_of_bounds mt32 (by decide) o ho raw seed keys g,
    fun o ho raw seed keys g => out_of_bounds mt64 (by decide) o ho raw seed keys g⟩

/-- The constructors themselves stay inside the array as long as a key, if given, is not empty. -/
theorem C94_key_constructor {w : Nat} (P : Params w) (hN : 0 < P.N) (o : Os w)
    (raw : Nat → BitVec w) (keys : List (BitVec w)) (seed : BitVec w) :
    (∃ g, ctorKeys P o raw keys seed = .ok g) ↔ keys ≠ [] := by
  constructor
  · rintro ⟨g, hg⟩ rfl
    simp [ctorKeys, initKeys_nil P hN] at hg
  · intro hk
    obtain ⟨s', hs'⟩ := initKeys_ok P keys hk (init P o seed raw)
    exact ⟨_, by rw [ctorKeys, hs']; rfl⟩

example : ∃ g, ctorKeys mt32 ⟨0, 0, none⟩ (fun _ => 0) [0x123#32, 0x234#32] 19650218 = .ok g :=
  (C94_key_constructor mt32 (by decide) _ _ _ _).2 (by simp)

/-! ### What comes out where the words behind the array can be read -/

/-- The words of `s` followed by those behind the array. -/
def wide {w : Nat} (P : Params w) (m s : Nat → BitVec w) (i : Nat) : BitVec w :=
  if i < P.N then s i else m (i - P.N)

theorem look_some {w : Nat} (P : Params w) (o : Os w) (m s : Nat → BitVec w)
    (ho : o.past = some m) (i : Nat) : look P o s i = .ok (wide P m s i) := by
  unfold look wide
  split <;> simp [ho]

theorem stateLoop_some {w : Nat} (P : Params w) (o : Os w) (m : Nat → BitVec w)
    (ho : o.past = some m) (off : Nat) (hoff : 0 < off) (n p : Nat) (s : Nat → BitVec w)
    (hn : p + n ≤ P.N) :
    ∃ s', stateLoop P o off n p s = .ok s' ∧
      ∀ j, s' j = if p ≤ j ∧ j < p + n then
        wide P m s (j + off) ^^^ P.twist (wide P m s j) (wide P m s (j + 1)) else s j := by
  induction n generalizing p s with
  | zero => exact ⟨s, rfl, fun j => by rw [if_neg (by omega)]⟩
  | succ n ih =>
    unfold stateLoop
    simp only [look_some P o m s ho, Res.bind_ok]
    obtain ⟨s', h1, h2⟩ := ih (p + 1)
      (put s p (wide P m s (p + off) ^^^ P.twist (wide P m s p) (wide P m s (p + 1)))) (by omega)
    refine ⟨s', h1, fun j => ?_⟩
    rw [h2]
    have hw : ∀ i x, p < i → wide P m (put s p x) i = wide P m s i := by
      intro i x hi
      unfold wide put
      split
      · rw [if_neg (by omega)]
      · rfl
    by_cases h : p + 1 ≤ j ∧ j < p + 1 + n
    · rw [if_pos h, if_pos (by omega), hw _ _ (by omega), hw _ _ (by omega), hw _ _ (by omega)]
    · rw [if_neg h]
      unfold put
      by_cases hjp : j = p
      · subst hjp
        rw [if_pos rfl, if_pos (by omega)]
      · rw [if_neg hjp, if_neg (by omega)]

/-- The block `next_state` computes, given the words behind the array. -/
theorem nextBlock_some {w : Nat} (P : Params w) (o : Os w) (m : Nat → BitVec w)
    (ho : o.past = some m) (hM : 0 < P.M) (hMN : P.M < P.N) (s : Nat → BitVec w) :
    ∃ s', nextBlock P o s = .ok s' ∧
      (∀ p, p < P.N - P.M → s' p = s (p + P.M) ^^^ P.twist (s p) (s (p + 1))) ∧
      (∀ p, P.N - P.M ≤ p → p + 1 < P.N →
        s' p = wide P m s (p + (P.N - P.M)) ^^^ P.twist (s p) (s (p + 1))) ∧
      s' (P.N - 1) = m (P.N - P.M - 1) ^^^ P.twist (s (P.N - 1)) (s' 0) := by
  obtain ⟨s1, h1, f1⟩ := stateLoop_some P o m ho P.M hM (P.N - P.M) 0 s (by omega)
  obtain ⟨s2, h2, f2⟩ := stateLoop_some P o m ho (P.N - P.M) (by omega) (P.M - 1) (P.N - P.M) s1
    (by omega)
  have hs : nextBlock P o s = .ok (put s2 (P.N - 1)
      (wide P m s2 (P.N - 1 + (P.N - P.M)) ^^^ P.twist (s2 (P.N - 1)) (s2 0))) := by
    simp only [nextBlock, h1, h2, Res.bind_ok, look_some P o m s2 ho]
  have hin : ∀ i, i < P.N → ∀ t, wide P m t i = t i := fun i hi t => by rw [wide, if_pos hi]
  have hup : ∀ i, P.N - P.M ≤ i → wide P m s1 i = wide P m s i := by
    intro i hi
    unfold wide
    split
    · rw [f1, if_neg (by omega)]
    · rfl
  refine ⟨_, hs, fun p hp => ?_, fun p hp hp2 => ?_, ?_⟩
  · rw [put, if_neg (by omega), f2, if_neg (by omega), f1, if_pos (by omega), hin _ (by omega),
      hin _ (by omega), hin _ (by omega)]
  · rw [put, if_neg (by omega), f2, if_pos (by omega), hup _ (by omega), hup _ (by omega),
      hup _ (by omega), hin p (by omega), hin (p + 1) (by omega)]
  · rw [put, if_pos rfl, put, if_neg (by omega)]
    congr 1
    · rw [wide, if_neg (by omega)]
      congr 1
      omega
    · rw [f2, if_neg (by omega), f1, if_neg (by omega)]

/-- One block of the generator the files announce: the three-term recurrence
`x[k+N] = x[k+M] ^ twist(x[k], x[k+1])` (the comment M32:82-101), with `x` the words of the old
block followed by those of the new one. -/
def IsReference {w : Nat} (P : Params w) (s s' : Nat → BitVec w) : Prop :=
  ∀ x : Nat → BitVec w, (∀ i, i < P.N → x i = s i) → (∀ i, i < P.N → x (P.N + i) = s' i) →
    ∀ k, k < P.N → x (k + P.N) = x (k + P.M) ^^^ P.twist (x k) (x (k + 1))

/-- Even where the words behind the array can be read, a block is the block of the announced
recurrence if and only if the last `M` reads happened to find the words `new[p + M - N]` instead of
what is `N - M` places ahead.  -/
theorem C94_reference_iff_partial {w : Nat} (P : Params w) (o : Os w) (m : Nat → BitVec w)
    (ho : o.past = some m) (hM : 0 < P.M) (hMN : P.M < P.N) (s : Nat → BitVec w) :
    ∃ s', nextBlock P o s = .ok s' ∧
      (IsReference P s s' ↔
        ∀ p, P.N - P.M ≤ p → p < P.N → wide P m s (p + (P.N - P.M)) = s' (p + P.M - P.N)) := by
  obtain ⟨s', hs, f1, f2, f3⟩ := nextBlock_some P o m ho hM hMN s
  refine ⟨s', hs, ?_⟩
  have hlast : m (P.N - P.M - 1) = wide P m s (P.N - 1 + (P.N - P.M)) := by
    rw [wide, if_neg (by omega)]
    congr 1
    omega
  have cancel : ∀ a b c : BitVec w, a ^^^ c = b ^^^ c → a = b := by
    intro a b c h
    have := congrArg (· ^^^ c) h
    simpa [BitVec.xor_assoc] using this
  constructor
  · intro href p hp hpN
    have h := href (fun i => if i < P.N then s i else s' (i - P.N))
      (fun i hi => if_pos hi) (fun i _ => by
        show (if P.N + i < P.N then _ else _) = _
        rw [if_neg (by omega), Nat.add_sub_cancel_left]) p hpN
    rw [if_neg (by omega), if_neg (by omega), if_pos hpN, Nat.add_sub_cancel] at h
    by_cases hp1 : p + 1 < P.N
    · rw [if_pos hp1, f2 p hp hp1] at h
      exact cancel _ _ _ h
    · have hpe : p = P.N - 1 := by omega
      subst hpe
      rw [if_neg hp1, f3, hlast] at h
      have h0 : P.N - 1 + 1 - P.N = 0 := by omega
      rw [h0] at h
      exact cancel _ _ _ h
  · intro hall x hx hx' k hk
    have hxk : x (k + P.N) = s' k := by rw [Nat.add_comm]; exact hx' k hk
    rw [hxk, hx k hk]
    by_cases h1 : k < P.N - P.M
    · rw [f1 k h1, hx _ (by omega), hx _ (by omega)]
    · have hxm : x (k + P.M) = s' (k + P.M - P.N) := by
        have := hx' (k + P.M - P.N) (by omega)
        rwa [show P.N + (k + P.M - P.N) = k + P.M by omega] at this
      rw [hxm, ← hall k (by omega) hk]
      by_cases h2 : k + 1 < P.N
      · rw [f2 k (by omega) h2, hx _ h2]
      · have hke : k = P.N - 1 := by omega
        subst hke
        have := hx' 0 (by omega)
        rw [f3, hlast, show P.N - 1 + 1 = P.N + 0 by omega, this]

/-- With zeros behind the array no block of `MT19937_64` whose first new word is not zero is the
announced one. -/
theorem C94_zeros_behind (o : Os 64) (ho : o.past = some fun _ => 0#64) (s : Nat → BitVec 64)
    (h0 : s 156 ≠ twist64 (s 0) (s 1)) :
    ∃ s', nextBlock mt64 o s = .ok s' ∧ ¬ IsReference mt64 s s' := by
  obtain ⟨s', hs, hr⟩ := C94_reference_iff_partial mt64 o _ ho (by decide) (by decide) s
  refine ⟨s', hs, fun hR => ?_⟩
  have h := hr.1 hR 156 (by decide) (by decide)
  obtain ⟨s'', hs2, f1, -⟩ := nextBlock_some mt64 o _ ho (by decide) (by decide) s
  rw [hs] at hs2
  injection hs2 with e
  subst e
  have f := f1 0 (by decide)
  have h' : (0#64 : BitVec 64) = s' 0 := h
  have f' : s' 0 = s 156 ^^^ twist64 (s 0) (s 1) := f
  rw [f'] at h'
  apply h0
  have := congrArg (· ^^^ twist64 (s 0) (s 1)) h'
  simpa [BitVec.xor_assoc] using this.symm

/-- The hypothesis holds for a generator seeded with 1. -/
example : (init mt64 ⟨0, 0, none⟩ 1 (fun _ => 0)) 156 ≠
    twist64 ((init mt64 ⟨0, 0, none⟩ 1 (fun _ => 0)) 0) ((init mt64 ⟨0, 0, none⟩ 1 (fun _ => 0)) 1) := by
  set_option maxRecDepth 100000 in decide +kernel

/-! ### The constant `r` of the announced generators -/

/-- The mixing step of the announced generators (the comment M32:80-101, M64:80-101): the upper
`w - r` bits of `u` and the lower `r` bits of `v`. -/
def mixDoc (w r : Nat) (u v : BitVec w) : BitVec w :=
  BitVec.ofNat w (2 ^ r * (u.toNat / 2 ^ r) + v.toNat % 2 ^ r)

theorem mixDoc_bit (w r : Nat) (u v : BitVec w) (i : Nat) (hi : i < w) :
    (mixDoc w r u v).getLsbD i = if i < r then v.getLsbD i else u.getLsbD i := by
  rw [mixDoc, BitVec.getLsbD_ofNat, Nat.testBit_two_pow_mul_add _ (Nat.mod_lt _ (Nat.two_pow_pos r)),
    Nat.testBit_mod_two_pow, Nat.testBit_div_two_pow, BitVec.testBit_toNat, BitVec.testBit_toNat]
  by_cases h : i < r
  · simp [h, hi]
  · simp [h, hi, show i - r + r = i by omega]

theorem top_mask (w i : Nat) (hi : i < w + 1) :
    (BitVec.twoPow (w + 1) w).getLsbD i = decide (w ≤ i) := by
  rw [BitVec.getLsbD_twoPow]
  by_cases h : i = w
  · subst h; simp
  · have : ¬ w ≤ i := by omega
    simp [this, Ne.symm h]

theorem low_mask (w i : Nat) (hi : i < w + 1) :
    (~~~ BitVec.twoPow (w + 1) w).getLsbD i = decide (i < w) := by
  rw [BitVec.getLsbD_not, top_mask w i hi]
  by_cases h : w ≤ i <;> simp [hi, h]
  omega

theorem mix32_bit (u v : BitVec 32) (i : Nat) (hi : i < 32) :
    (mix32 u v).getLsbD i = if i < 31 then v.getLsbD i else u.getLsbD i := by
  have h1 : (0x80000000#32).getLsbD i = decide (31 ≤ i) := top_mask 31 i hi
  have h2 : (0x7FFFFFFF#32).getLsbD i = decide (i < 31) := low_mask 31 i hi
  rw [mix32, BitVec.getLsbD_or, BitVec.getLsbD_and, BitVec.getLsbD_and, h1, h2]
  by_cases h : i < 31
  · simp [h, show ¬ 31 ≤ i by omega]
  · simp [h, show 31 ≤ i by omega]

theorem mix64_bit (u v : BitVec 64) (i : Nat) (hi : i < 64) :
    (mix64 u v).getLsbD i = if i < 63 then v.getLsbD i else u.getLsbD i := by
  have h1 : (0x8000000000000000#64).getLsbD i = decide (63 ≤ i) := top_mask 63 i hi
  have h2 : (0x7FFFFFFFFFFFFFFF#64).getLsbD i = decide (i < 63) := low_mask 63 i hi
  rw [mix64, BitVec.getLsbD_or, BitVec.getLsbD_and, BitVec.getLsbD_and, h1, h2]
  by_cases h : i < 63
  · simp [h, show ¬ 63 ≤ i by omega]
  · simp [h, show 63 ≤ i by omega]

/-- `MT19937_32` mixes as announced (`r = 31`); `MT19937_64`, announced with `r = 31` as well, mixes
as announced exactly for words that agree in the bits 31 to 62. -/
theorem C94_mix_constant : (∀ u v, mix32 u v = mixDoc 32 31 u v) ∧
    ∀ u v : BitVec 64, mix64 u v = mixDoc 64 31 u v ↔
      ∀ i, 31 ≤ i → i < 63 → u.getLsbD i = v.getLsbD i := by
  refine ⟨fun u v => BitVec.eq_of_getLsbD_eq fun i hi => ?_, fun u v => ⟨fun h i h1 h2 => ?_,
    fun h => BitVec.eq_of_getLsbD_eq fun i hi => ?_⟩⟩
  · rw [mix32_bit u v i hi, mixDoc_bit 32 31 u v i hi]
  · have := congrArg (fun x : BitVec 64 => x.getLsbD i) h
    simp only [mix64_bit u v i (by omega), mixDoc_bit 64 31 u v i (by omega)] at this
    rw [if_pos h2, if_neg (by omega)] at this
    exact this.symm
  · rw [mix64_bit u v i hi, mixDoc_bit 64 31 u v i hi]
    by_cases h1 : i < 31
    · rw [if_pos (by omega), if_pos h1]
    · rw [if_neg h1]
      by_cases h2 : i < 63
      · rw [if_pos h2, h i (by omega) h2]
      · rw [if_neg h2]

example : mix64 0 (1#64 <<< 40) ≠ mixDoc 64 31 0 (1#64 <<< 40) := by
  intro h
  have := (C94_mix_constant.2 _ _).1 h 40 (by decide) (by decide)
  exact absurd this (by decide)

/-! ### Constructor and `srand` -/

/-- The blocks a generator goes through: `k + 1` times `next_state` from the array `s`. -/
def blocks {w : Nat} (P : Params w) (o : Os w) (s : Nat → BitVec w) : Nat → Res (Nat → BitVec w)
  | 0 => nextBlock P o s
  | k + 1 => (blocks P o s k).bind (nextBlock P o)

theorem blocks_some {w : Nat} (P : Params w) (o : Os w) (m : Nat → BitVec w)
    (ho : o.past = some m) (hM : 0 < P.M) (hMN : P.M < P.N) (s : Nat → BitVec w) :
    ∃ B : Nat → Nat → BitVec w, ∀ k, blocks P o s k = .ok (B k) := by
  have : ∀ k, ∃ b, blocks P o s k = .ok b := by
    intro k
    induction k with
    | zero => obtain ⟨b, hb, -⟩ := nextBlock_some P o m ho hM hMN s; exact ⟨b, hb⟩
    | succ k ih =>
      obtain ⟨b, hb⟩ := ih
      obtain ⟨c, hc, -⟩ := nextBlock_some P o m ho hM hMN b
      exact ⟨c, by rw [blocks, hb, Res.bind_ok, hc]⟩
  exact ⟨fun k => (this k).choose, fun k => (this k).choose_spec⟩

/-- State after `t` draws in step with the blocks (`t` at least 1). -/
def Steady {w : Nat} (P : Params w) (B : Nat → Nat → BitVec w) (t : Nat) (g : Gen w) : Prop :=
  g = ⟨some ((t - 1) % P.N + 1), P.N - (t - 1) % P.N, B ((t - 1) / P.N)⟩

theorem rand_dec {w : Nat} (P : Params w) (o : Os w) (q l : Nat) (b : Nat → BitVec w)
    (hl : 2 ≤ l) (hw : l ≤ 2 ^ w) (hq : q < P.N) :
    rand P o ⟨some q, l, b⟩ = .ok (⟨some (q + 1), l - 1, b⟩, P.temper (b q)) := by
  have h : (l + 2 ^ w - 1) % 2 ^ w = l - 1 := by
    rw [show l + 2 ^ w - 1 = (l - 1) + 2 ^ w by omega, Nat.add_mod_right, Nat.mod_eq_of_lt (by omega)]
  unfold rand
  simp only [h]
  rw [if_neg (by omega)]
  simp [look, hq]

theorem rand_reload {w : Nat} (P : Params w) (o : Os w) (nx : Option Nat) (b c : Nat → BitVec w)
    (hb : nextBlock P o b = .ok c) (hN : 0 < P.N) :
    rand P o ⟨nx, 1, b⟩ = .ok (⟨some 1, P.N, c⟩, P.temper (c 0)) := by
  simp [rand, nextState, hb, look, hN]

theorem steady_step {w : Nat} (P : Params w) (o : Os w) (hN : 0 < P.N) (hw : P.N ≤ 2 ^ w)
    (s : Nat → BitVec w) (B : Nat → Nat → BitVec w) (hB : ∀ k, blocks P o s k = .ok (B k))
    (t : Nat) (ht : 0 < t) (g : Gen w) (hg : Steady P B t g) :
    ∃ g', rand P o g = .ok (g', P.temper (B (t / P.N) (t % P.N))) ∧ Steady P B (t + 1) g' := by
  unfold Steady at hg ⊢
  subst hg
  obtain ⟨u, rfl⟩ : ∃ u, t = u + 1 := ⟨t - 1, by omega⟩
  simp only [Nat.add_sub_cancel]
  have hmod : u % P.N < P.N := Nat.mod_lt _ hN
  by_cases hlast : u % P.N + 1 = P.N
  · have hd : (u + 1) % P.N = 0 ∧ (u + 1) / P.N = u / P.N + 1 := by
      have e : u + 1 = P.N * (u / P.N + 1) := by
        have := Nat.div_add_mod u P.N
        rw [Nat.mul_add, Nat.mul_one]; omega
      exact ⟨by rw [e]; exact Nat.mul_mod_right _ _, by
        conv_lhs => rw [e]
        exact Nat.mul_div_cancel_left _ hN⟩
    have hnb : nextBlock P o (B (u / P.N)) = .ok (B (u / P.N + 1)) := by
      have := hB (u / P.N + 1)
      rwa [blocks, hB, Res.bind_ok] at this
    rw [show P.N - u % P.N = 1 by omega, rand_reload P o _ _ _ hnb hN, hd.1, hd.2]
    exact ⟨_, rfl, rfl⟩
  · have hd : (u + 1) % P.N = u % P.N + 1 ∧ (u + 1) / P.N = u / P.N := by
      have e : u + 1 = (u % P.N + 1) + P.N * (u / P.N) := by
        have := Nat.div_add_mod u P.N
        omega
      constructor
      · conv_lhs => rw [e]
        rw [Nat.add_mul_mod_self_left, Nat.mod_eq_of_lt (by omega)]
      · conv_lhs => rw [e]
        rw [Nat.add_mul_div_left _ _ hN, Nat.div_eq_of_lt (by omega), Nat.zero_add]
    rw [rand_dec P o _ _ _ (by omega) (by omega) (by omega), hd.1, hd.2]
    exact ⟨_, rfl, by rw [show P.N - u % P.N - 1 = P.N - (u % P.N + 1) by omega]⟩

theorem draw_steady {w : Nat} (P : Params w) (o : Os w) (hN : 0 < P.N) (hw : P.N ≤ 2 ^ w)
    (s : Nat → BitVec w) (B : Nat → Nat → BitVec w) (hB : ∀ k, blocks P o s k = .ok (B k))
    (n t : Nat) (ht : 0 < t) (g : Gen w) (hg : Steady P B t g) :
    ∃ g', draw P o n g = .ok (g', P.temper (B ((t + n) / P.N) ((t + n) % P.N))) := by
  induction n generalizing t g with
  | zero =>
    obtain ⟨g', h, -⟩ := steady_step P o hN hw s B hB t ht g hg
    exact ⟨g', h⟩
  | succ n ih =>
    obtain ⟨g', h, hs⟩ := steady_step P o hN hw s B hB t ht g hg
    obtain ⟨g2, h2⟩ := ih (t + 1) (by omega) g' hs
    refine ⟨g2, ?_⟩
    rw [draw, h, Res.bind_ok, h2, show t + 1 + n = t + (n + 1) by omega]

theorem draw_ctor {w : Nat} (P : Params w) (o : Os w) (hN : 0 < P.N) (hw : P.N ≤ 2 ^ w)
    (s : Nat → BitVec w) (B : Nat → Nat → BitVec w) (hB : ∀ k, blocks P o s k = .ok (B k))
    (n : Nat) :
    ∃ g', draw P o n ⟨none, 1, s⟩ = .ok (g', P.temper (B (n / P.N) (n % P.N))) := by
  have h0 : rand P o ⟨none, 1, s⟩ = .ok (⟨some 1, P.N, B 0⟩, P.temper (B 0 0)) :=
    rand_reload P o none s (B 0) (hB 0) hN
  cases n with
  | zero => exact ⟨_, by rw [draw, h0, Nat.zero_div, Nat.zero_mod]⟩
  | succ n =>
    obtain ⟨g', h⟩ := draw_steady P o hN hw s B hB n 1 (by omega) ⟨some 1, P.N, B 0⟩
      (by simp [Steady])
    refine ⟨g', ?_⟩
    rw [draw, h0, Res.bind_ok, h, show 1 + n = n + 1 by omega]

/-- After `srand`: in the first block `j` words were drawn. -/
theorem draw_srand {w : Nat} (P : Params w) (o : Os w) (hN : 0 < P.N) (hw : P.N ≤ 2 ^ w)
    (s : Nat → BitVec w) (B : Nat → Nat → BitVec w) (hB : ∀ k, blocks P o s k = .ok (B k))
    (n j : Nat) (hj : j < P.N) :
    ∃ g', draw P o n ⟨some j, P.N - j, B 0⟩ = .ok (g', P.temper
      (if j + n + 1 < P.N then B 0 (j + n)
        else B ((j + n + 1) / P.N) ((j + n + 1) % P.N))) := by
  induction n generalizing j with
  | zero =>
    by_cases h : j + 1 < P.N
    · rw [if_pos (by omega), draw, rand_dec P o _ _ _ (by omega) (by omega) hj]
      exact ⟨_, rfl⟩
    · have hj' : j + 0 + 1 = P.N := by omega
      have hnb : nextBlock P o (B 0) = .ok (B 1) := by
        have := hB 1
        rwa [blocks, hB, Res.bind_ok] at this
      rw [if_neg (by omega), draw, show P.N - j = 1 by omega, rand_reload P o _ _ _ hnb hN, hj',
        Nat.div_self hN, Nat.mod_self]
      exact ⟨_, rfl⟩
  | succ n ih =>
    by_cases h : j + 1 < P.N
    · obtain ⟨g', hd⟩ := ih (j + 1) h
      rw [draw, rand_dec P o _ _ _ (by omega) (by omega) hj, Res.bind_ok]
      refine ⟨g', ?_⟩
      rw [show P.N - j - 1 = P.N - (j + 1) by omega, hd, show j + 1 + n = j + (n + 1) by omega]
    · have hj' : j + 1 = P.N := by omega
      have hnb : nextBlock P o (B 0) = .ok (B 1) := by
        have := hB 1
        rwa [blocks, hB, Res.bind_ok] at this
      rw [if_neg (by omega), draw, show P.N - j = 1 by omega, rand_reload P o _ _ _ hnb hN,
        Res.bind_ok]
      obtain ⟨g', hd⟩ := draw_steady P o hN hw s B hB n (P.N + 1) (by omega) ⟨some 1, P.N, B 1⟩
        (by simp [Steady, Nat.div_self hN])
      exact ⟨g', by rw [hd, show j + (n + 1) + 1 = P.N + 1 + n by omega]⟩

/-- The word the `n`-th call of `rand` returns (counting from 0). -/
def word {w : Nat} (P : Params w) (o : Os w) (n : Nat) (g : Gen w) : Res (BitVec w) :=
  (draw P o n g).bind fun r => .ok r.2

theorem initLoop_ext {w : Nat} (P : Params w) (n j : Nat) (hj : 0 < j) (s t : Nat → BitVec w)
    (h : ∀ i, i < j → s i = t i) :
    ∀ i, i < j + n → initLoop P n j s i = initLoop P n j t i := by
  induction n generalizing j s t with
  | zero => intro i hi; exact h i (by omega)
  | succ n ih =>
    intro i hi
    unfold initLoop
    refine ih (j + 1) (by omega) _ _ (fun i hi => ?_) i (by omega)
    unfold put
    by_cases hij : i = j
    · rw [if_pos hij, if_pos hij, h (j - 1) (by omega)]
    · rw [if_neg hij, if_neg hij, h i (by omega)]

/-- Seeding does not depend on what was in the array before. -/
theorem init_ext {w : Nat} (P : Params w) (o : Os w) (seed : BitVec w) (s t : Nat → BitVec w)
    (i : Nat) (hi : i < P.N) : init P o seed s i = init P o seed t i := by
  unfold init
  refine initLoop_ext P _ 1 (by omega) _ _ (fun j hj => ?_) i (by omega)
  have : j = 0 := by omega
  subst this
  rfl

theorem blocks_ext {w : Nat} (P : Params w) (o : Os w) (m : Nat → BitVec w)
    (ho : o.past = some m) (hM : 0 < P.M) (hMN : P.M < P.N) (s t : Nat → BitVec w)
    (h : ∀ i, i < P.N → s i = t i) (B C : Nat → Nat → BitVec w)
    (hB : ∀ k, blocks P o s k = .ok (B k)) (hC : ∀ k, blocks P o t k = .ok (C k)) :
    ∀ k i, i < P.N → B k i = C k i := by
  have key : ∀ s t : Nat → BitVec w, (∀ i, i < P.N → s i = t i) → ∀ b c,
      nextBlock P o s = .ok b → nextBlock P o t = .ok c → ∀ i, i < P.N → b i = c i := by
    intro s t h b c hb hc i hi
    obtain ⟨b', hb', f1, f2, f3⟩ := nextBlock_some P o m ho hM hMN s
    obtain ⟨c', hc', g1, g2, g3⟩ := nextBlock_some P o m ho hM hMN t
    rw [hb] at hb'
    rw [hc] at hc'
    injection hb' with e
    injection hc' with e'
    subst e e'
    have hwide : ∀ j, wide P m s j = wide P m t j := by
      intro j
      unfold wide
      split
      · exact h j (by assumption)
      · rfl
    have low : ∀ i, i < P.N - P.M → b i = c i := fun i hi => by
      rw [f1 i hi, g1 i hi, h _ (by omega), h _ (by omega), h _ (by omega)]
    by_cases h1 : i < P.N - P.M
    · exact low i h1
    · by_cases h2 : i + 1 < P.N
      · rw [f2 i (by omega) h2, g2 i (by omega) h2, hwide, h _ (by omega), h _ (by omega)]
      · have : i = P.N - 1 := by omega
        subst this
        rw [f3, g3, h _ (by omega), low 0 (by omega)]
  intro k
  induction k with
  | zero => exact key s t h _ _ (hB 0) (hC 0)
  | succ k ih =>
    have h1 := hB (k + 1)
    have h2 := hC (k + 1)
    rw [blocks, hB, Res.bind_ok] at h1
    rw [blocks, hC, Res.bind_ok] at h2
    exact key _ _ ih _ _ h1 h2

/-- Where the words behind the array can be read: after `srand(seed)` a generator, whatever it did
before, returns the words a new generator with that seed returns, except that the word number
`N - 1` is left out and every later word comes one call earlier. -/
theorem C95_srand_skips_a_word {w : Nat} (P : Params w) (o : Os w) (m : Nat → BitVec w)
    (ho : o.past = some m) (hM : 0 < P.M) (hMN : P.M < P.N) (hw : P.N ≤ 2 ^ w)
    (raw : Nat → BitVec w) (seed : BitVec w) (g : Gen w) :
    ∃ g', srand P o g seed = .ok g' ∧ ∀ n,
      word P o n g' = word P o (if n + 1 < P.N then n else n + 1) (ctor P o raw seed) := by
  have hN : 0 < P.N := by omega
  obtain ⟨B, hB⟩ := blocks_some P o m ho hM hMN (init P o seed g.state)
  obtain ⟨C, hC⟩ := blocks_some P o m ho hM hMN (init P o seed raw)
  have hBC := blocks_ext P o m ho hM hMN _ _ (fun i hi => init_ext P o seed g.state raw i hi) B C hB hC
  have h0 : nextBlock P o (init P o seed g.state) = .ok (B 0) := hB 0
  refine ⟨⟨some 0, P.N, B 0⟩, by simp [srand, nextState, h0], fun n => ?_⟩
  obtain ⟨g1, h1⟩ := draw_srand P o hN hw _ B hB n 0 hN
  obtain ⟨g2, h2⟩ := draw_ctor P o hN hw _ C hC (if n + 1 < P.N then n else n + 1)
  rw [Nat.sub_zero] at h1
  simp only [word, ctor, h1, h2, Res.bind_ok, Nat.zero_add]
  split
  · rename_i h
    rw [Nat.div_eq_of_lt (by omega), Nat.mod_eq_of_lt (show n < P.N by omega), hBC _ _ (by omega)]
  · rw [hBC _ _ (Nat.mod_lt _ hN)]

/-- The sequence of a new generator, for the record of what the words are. -/
theorem C95_words_of_new_generator {w : Nat} (P : Params w) (o : Os w) (m : Nat → BitVec w)
    (ho : o.past = some m) (hM : 0 < P.M) (hMN : P.M < P.N) (hw : P.N ≤ 2 ^ w)
    (raw : Nat → BitVec w) (seed : BitVec w) :
    ∃ B : Nat → Nat → BitVec w, (∀ k, blocks P o (init P o seed raw) k = .ok (B k)) ∧
      ∀ n, word P o n (ctor P o raw seed) = .ok (P.temper (B (n / P.N) (n % P.N))) := by
  obtain ⟨B, hB⟩ := blocks_some P o m ho hM hMN (init P o seed raw)
  refine ⟨B, hB, fun n => ?_⟩
  obtain ⟨g', h⟩ := draw_ctor P o (by omega) hw _ B hB n
  simp [word, ctor, h]

example : ∃ g', srand mt32 ⟨0, 0, some fun _ => 0⟩ ⟨none, 1, fun _ => 0⟩ 5489 = .ok g' :=
  let ⟨g', h, _⟩ := C95_srand_skips_a_word mt32 ⟨0, 0, some fun _ => 0⟩ _ rfl (by decide) (by decide)
    (by decide) (fun _ => 0) 5489 ⟨none, 1, fun _ => 0⟩
  ⟨g', h⟩

/-! ### Tempering -/

theorem xor_cancel : ∀ a b c : Bool, (a ^^ c) = (b ^^ c) → a = b := by decide

theorem xor_shl_injective {w : Nat} (k : Nat) (hk : 0 < k) (m : BitVec w) :
    Function.Injective fun y : BitVec w => y ^^^ ((y <<< k) &&& m) := by
  intro y z h
  have key : ∀ i, y.getLsbD i = z.getLsbD i := by
    intro i
    induction i using Nat.strongRecOn with
    | _ i ih =>
      have hb := congrArg (fun x : BitVec w => x.getLsbD i) h
      simp only [BitVec.getLsbD_xor, BitVec.getLsbD_and, BitVec.getLsbD_shiftLeft] at hb
      by_cases hik : i < k
      · simpa [hik] using hb
      · rw [ih (i - k) (by omega)] at hb
        exact xor_cancel _ _ _ hb
  exact BitVec.eq_of_getLsbD_eq fun i _ => key i

theorem xor_shr_injective {w : Nat} (k : Nat) (hk : 0 < k) (m : BitVec w) :
    Function.Injective fun y : BitVec w => y ^^^ ((y >>> k) &&& m) := by
  intro y z h
  have key : ∀ d i, w ≤ i + d → y.getLsbD i = z.getLsbD i := by
    intro d
    induction d with
    | zero =>
      intro i hi
      rw [BitVec.getLsbD_of_ge _ _ (by omega), BitVec.getLsbD_of_ge _ _ (by omega)]
    | succ d ih =>
      intro i hi
      have hb := congrArg (fun x : BitVec w => x.getLsbD i) h
      simp only [BitVec.getLsbD_xor, BitVec.getLsbD_and, BitVec.getLsbD_ushiftRight] at hb
      rw [ih (k + i) (by omega)] at hb
      exact xor_cancel _ _ _ hb
  exact BitVec.eq_of_getLsbD_eq fun i _ => key w i (by omega)

theorem shr_mask {w : Nat} (k : Nat) : (fun y : BitVec w => y ^^^ (y >>> k)) =
    fun y : BitVec w => y ^^^ ((y >>> k) &&& BitVec.allOnes w) := by
  funext y; simp

theorem temper32_injective : Function.Injective temper32 := by
  have h1 := xor_shr_injective (w := 32) 11 (by decide) (BitVec.allOnes 32)
  have h2 := xor_shl_injective (w := 32) 7 (by decide) 0x9d2c5680#32
  have h3 := xor_shl_injective (w := 32) 15 (by decide) 0xefc60000#32
  have h4 := xor_shr_injective (w := 32) 18 (by decide) (BitVec.allOnes 32)
  rw [← shr_mask] at h1 h4
  exact h4.comp (h3.comp (h2.comp h1))

theorem temper64_injective : Function.Injective temper64 := by
  have h1 := xor_shr_injective (w := 64) 29 (by decide) 0x5555555555555555#64
  have h2 := xor_shl_injective (w := 64) 17 (by decide) 0x71D67FFFEDA60000#64
  have h3 := xor_shl_injective (w := 64) 37 (by decide) 0xFFF7EEE000000000#64
  have h4 := xor_shr_injective (w := 64) 43 (by decide) (BitVec.allOnes 64)
  rw [← shr_mask] at h4
  exact h4.comp (h3.comp (h2.comp h1))

/-- Every word can be returned by `rand`, and by one word of the state only. -/
theorem C95_temper_bijective : Function.Bijective temper32 ∧ Function.Bijective temper64 := by
  have fin : ∀ w, Finite (BitVec w) := fun w => Finite.of_injective BitVec.toFin
    (fun a b h => by cases a; cases b; simpa using h)
  have := fin 32
  have := fin 64
  exact ⟨Finite.injective_iff_bijective.1 temper32_injective,
    Finite.injective_iff_bijective.1 temper64_injective⟩

/-- Negation of the property: for every seed there are contents of the memory behind the array with
which `srand(seed)` and a new generator with that seed part ways at word number `N - 1`. -/
theorem C95_srand_not_constructor (clock libc : BitVec 64) (raw : Nat → BitVec 64) (seed : BitVec 64)
    (g : Gen 64) : ∃ m g', srand mt64 ⟨clock, libc, some m⟩ g seed = .ok g' ∧
      word mt64 ⟨clock, libc, some m⟩ 311 g' ≠
        word mt64 ⟨clock, libc, some m⟩ 311 (ctor mt64 ⟨clock, libc, some m⟩ raw seed) := by
  have main : ∀ m : Nat → BitVec 64, ∃ g', srand mt64 ⟨clock, libc, some m⟩ g seed = .ok g' ∧
      ∃ x y : BitVec 64,
        word mt64 ⟨clock, libc, some m⟩ 311 (ctor mt64 ⟨clock, libc, some m⟩ raw seed) = .ok (temper64 x) ∧
        word mt64 ⟨clock, libc, some m⟩ 311 g' = .ok (temper64 y) ∧
        (∀ s, s = init mt64 ⟨clock, libc, some m⟩ seed raw →
          x = m 155 ^^^ twist64 (s 311) (s 156 ^^^ twist64 (s 0) (s 1)) ∧
          y = (m 0 ^^^ twist64 (s 156) (s 157)) ^^^
            twist64 (s 156 ^^^ twist64 (s 0) (s 1)) (s 157 ^^^ twist64 (s 1) (s 2))) := by
    intro m
    obtain ⟨g', h1, h2⟩ := C95_srand_skips_a_word mt64 ⟨clock, libc, some m⟩ m rfl (by decide)
      (by decide) (by decide) raw seed g
    obtain ⟨B, hB, hw⟩ := C95_words_of_new_generator mt64 ⟨clock, libc, some m⟩ m rfl (by decide)
      (by decide) (by decide) raw seed
    refine ⟨g', h1, B 0 311, B 1 0, hw 311, ?_, ?_⟩
    · rw [h2 311]; exact hw 312
    · intro s hs
      subst hs
      obtain ⟨b, hb, f1, f2, f3⟩ := nextBlock_some mt64 ⟨clock, libc, some m⟩ m rfl (by decide)
        (by decide) (init mt64 ⟨clock, libc, some m⟩ seed raw)
      have e0 : nextBlock mt64 ⟨clock, libc, some m⟩ (init mt64 ⟨clock, libc, some m⟩ seed raw)
        = .ok (B 0) := hB 0
      rw [e0] at hb
      injection hb with e
      subst e
      obtain ⟨c, hc, k1, -⟩ := nextBlock_some mt64 ⟨clock, libc, some m⟩ m rfl (by decide)
        (by decide) (B 0)
      have e1 : nextBlock mt64 ⟨clock, libc, some m⟩ (B 0) = .ok (B 1) := by
        have := hB 1
        rwa [blocks, hB, Res.bind_ok] at this
      rw [e1] at hc
      injection hc with e
      subst e
      have a0 := f1 0 (by decide)
      have a1 := f1 1 (by decide)
      have a156 := f2 156 (by decide) (by decide)
      have b0 := k1 0 (by decide)
      constructor
      · refine f3.trans ?_
        rw [a0]
        rfl
      · refine b0.trans ?_
        show B 0 156 ^^^ twist64 (B 0 0) (B 0 1) = _
        rw [a0, a1, a156]
        rfl
  let s := init mt64 ⟨clock, libc, none⟩ seed raw
  let A := twist64 (s 311) (s 156 ^^^ twist64 (s 0) (s 1))
  let Y := (0#64 ^^^ twist64 (s 156) (s 157)) ^^^
            twist64 (s 156 ^^^ twist64 (s 0) (s 1)) (s 157 ^^^ twist64 (s 1) (s 2))
  let m : Nat → BitVec 64 := fun i => if i = 155 then A ^^^ Y ^^^ 1#64 else 0
  obtain ⟨g', h1, x, y, hx, hy, hxy⟩ := main m
  refine ⟨m, g', h1, ?_⟩
  rw [hx, hy]
  intro hc
  injection hc with hc
  have hyx := temper64_injective hc
  obtain ⟨ex, ey⟩ := hxy s rfl
  rw [ex, ey] at hyx
  have : Y = (A ^^^ Y ^^^ 1#64) ^^^ A := hyx
  have e : (A ^^^ Y ^^^ 1#64) ^^^ A = Y ^^^ 1#64 := by
    rw [BitVec.xor_comm A Y, BitVec.xor_assoc, BitVec.xor_comm 1#64 A, ← BitVec.xor_assoc,
      BitVec.xor_assoc Y A A, BitVec.xor_self, BitVec.xor_zero]
  rw [e] at this
  have hb := congrArg (fun v : BitVec 64 => v.getLsbD 0) this
  simp only [BitVec.getLsbD_xor] at hb
  revert hb
  cases Y.getLsbD 0 <;> decide

end Verif.Rand
