/-
`HashUtils<T>::primaryHash`, `primaryHash_new` and `primaryHash_old` of `hasher/hashes.h` where neither `_IS_X86_64_` nor
`_IS_X86_32_` is defined (HS:93-104), for example on ARM: there the words of a key that is not aligned are put together from
parts of aligned words (`primaryHash`, `primaryHash_new`) or from single characters (`primaryHash_old`).
HS = `src/jstd/hasher/hashes.h`.

Simplifications: the machine is little-endian; the readable block of memory starts at an address that is a multiple of
`N = sizeof(T)`, so the `missalign` of a key at offset `p` is `p % N`; lengths are below 2^63.
-/
import Verif.HashFnv

namespace Verif.HashFn

/-! ### The code -/

/-- `PrimaryHash<T, N>::decode_value<MissAlign>(data)` (HS:923-928, 933-967, 984-994, 1053-1059) and
`HashUtils<T>::decode_value<N, MissAlign>` (HS:1079-1118), `MissAlign = M < N`, `data` at offset `o`. -/
def decodeUn (N M : Nat) (m : List Byte) (o : Nat) : Res Nat :=
  if M = 0 then load m o N
  else (load m (o - M) N).bind fun x => (load m (o + (N - M)) N).bind fun y =>
    .ok (((x &&& ((2 ^ (8 * N) - 1) >>> (M * 8))) <<< (M * 8)) % 2 ^ (8 * N)
      ||| (y &&& ((2 ^ (8 * N) - 1) >>> ((N - M) * 8))))

/-- `(hash_type)data[i]` (HS:1399, 1428-1429): a plain `char` that is signed (`sgn`) is extended to the type. -/
def charVal (sgn : Bool) (N b : Nat) : Nat := if sgn = true ∧ 128 ≤ b then 2 ^ (8 * N) - 256 + b else b

/-- `HashUtils<T>::decodeValue<N>(data, missalign)` (HS:1390-1417, 1419-1459; the branches `#if 1`): the characters `N - k, …, N - 1`, the first in
the most significant place. -/
def decodeBE (sgn : Bool) (N : Nat) (m : List Byte) (o : Nat) : Nat → Res Nat
  | 0 => .ok 0
  | k + 1 => (load m (o + (N - 1 - k)) 1).bind fun b => (decodeBE sgn N m o k).bind fun v =>
      .ok ((charVal sgn N b <<< (8 * k)) % 2 ^ (8 * N) ||| v)

/-- The loop of `PrimaryHash<T, N>::value<M>` (HS:892-898, 1014-1020), `primaryHash_unaligned` (HS:1173-1179) and
`primaryHash_old` (HS:1312-1318, 1335-1341): `n` rounds are left. -/
def primaryLoop (N : Nat) (dec : Nat → Res Nat) : Nat → Nat → Nat → Res Nat
  | 0, _, h => .ok h
  | n + 1, o, h => (dec o).bind fun w => primaryLoop N dec n (o + N) (primaryStep N h w)

/-- What follows the loop (HS:899-909, 1021-1031, 1180-1190, 1319-1329, 1342-1352), `r` is `remain`. -/
def primaryTail (N : Nat) (dec : Nat → Res Nat) (o r h : Nat) : Res Nat :=
  if r = 0 then .ok h
  else (dec o).bind fun w => .ok (primaryStep N h (w &&& ((2 ^ (8 * N) - 1) >>> ((N - r) * 8))))

/-- The body of `PrimaryHash<T, N>::value<M>` (HS:875-910, 997-1032), `primaryHash_unaligned` (HS:1156-1191) and
`primaryHash_old` (HS:1291-1355) for a key at offset `p`. -/
def primaryWith (N : Nat) (dec : Nat → Res Nat) (p len seed : Nat) : Res Nat :=
  (primaryLoop N dec (len / N) p
    (seed % 2 ^ (8 * N) ^^^ (0x397A4A6CC6A4A793 % 2 ^ (8 * N) * len % 2 ^ (8 * N)))).bind fun h =>
      primaryTail N dec (p + len / N * N) (len % N) h

/-- `HashUtils<T>::primaryHash(key, len, seed)` off x86 (HS:1196-1244, the branch HS:1205-1242) and `primaryHash_new`
(HS:1246-1289): the key is at offset `p`, `missalign` picks the template argument. -/
def primaryAt (N : Nat) (m : List Byte) (p len seed : Nat) : Res Nat :=
  primaryWith N (decodeUn N (p % N) m) p len seed

/-- `HashUtils<T>::primaryHash_old(key, len, seed)` off x86 (HS:1291-1355). -/
def primaryOldAt (sgn : Bool) (N : Nat) (m : List Byte) (p len seed : Nat) : Res Nat :=
  if p % N = 0 then primaryWith N (fun o => load m o N) p len seed
  else primaryWith N (fun o => decodeBE sgn N m o N) p len seed

/-! ### Words put together from bytes of the memory -/

/-- The bytes at the offsets `f 0, …, f (n - 1)`. -/
def gather (m : List Byte) (f : Nat → Nat) (n : Nat) : List Byte := (List.range n).map fun k => m.getD (f k) 0

theorem gather_length (m : List Byte) (f : Nat → Nat) (n : Nat) : (gather m f n).length = n := by simp [gather]

theorem gather_take (m : List Byte) (f : Nat → Nat) {n r : Nat} (h : r ≤ n) : (gather m f n).take r = gather m f r := by
  unfold gather
  rw [← List.map_take, List.take_range, Nat.min_eq_left h]

theorem gather_getElem? (m : List Byte) (f : Nat → Nat) (n k : Nat) :
    (gather m f n)[k]? = if k < n then some (m.getD (f k) 0) else none := by
  unfold gather
  by_cases h : k < n
  · rw [if_pos h, List.getElem?_map, List.getElem?_range h]; rfl
  · rw [if_neg h, List.getElem?_eq_none (by simpa using h)]

theorem gather_window {m : List Byte} {o n : Nat} (h : o + n ≤ m.length) : gather m (o + ·) n = (m.drop o).take n := by
  apply List.ext_getElem?
  intro k
  rw [gather_getElem?, List.getElem?_take, List.getElem?_drop]
  split
  · rw [List.getD_eq_getElem?_getD, List.getElem?_eq_getElem (by omega)]; rfl
  · rfl

theorem gather_congr {m m' : List Byte} {f g : Nat → Nat} {n : Nat} (h : ∀ k, k < n → m[f k]? = m'[g k]?) :
    gather m f n = gather m' g n := by
  unfold gather
  apply List.map_congr_left
  intro k hk
  rw [List.getD_eq_getElem?_getD, List.getD_eq_getElem?_getD, h k (List.mem_range.1 hk)]

theorem gather_ne {m m' : List Byte} {f : Nat → Nat} {n k q : Nat} (hp : Pair m m' q) (hk : k < n) (hf : f k = q) :
    gather m f n ≠ gather m' f n := by
  intro e
  have h := congrArg (·[k]?) e
  simp only [gather_getElem?, if_pos hk, hf, Option.some.injEq, List.getD_eq_getElem?_getD] at h
  apply hp.diff
  have h1 := hp.lt
  rw [List.getElem?_eq_getElem h1, List.getElem?_eq_getElem (by rw [hp.len]; exact h1)] at h ⊢
  exact congrArg some h

/-- The number of words of a key. -/
def wcount (N len : Nat) : Nat := (len + N - 1) / N

theorem wcount_eq {N : Nat} (hN : 0 < N) (len : Nat) : wcount N len = len / N + if len % N = 0 then 0 else 1 := by
  unfold wcount
  have h := Nat.div_add_mod len N
  have h2 := Nat.mod_lt len hN
  generalize len / N = a at *
  generalize len % N = b at *
  subst h
  split
  · rename_i hb
    subst hb
    rw [show N * a + 0 + N - 1 = N * a + (N - 1) by omega, Nat.mul_add_div hN, Nat.div_eq_of_lt (by omega)]
  · rw [show N * a + b + N - 1 = N * a + N + (b - 1) by omega, ← Nat.mul_succ, Nat.mul_add_div hN, Nat.div_eq_of_lt (by omega)]

theorem primaryLoop_eq {N : Nat} {dec : Nat → Res Nat} {c : Nat → Nat} {p : Nat} : ∀ (n i h : Nat),
    (∀ j, i ≤ j → j < i + n → dec (p + j * N) = .ok (c j)) →
    primaryLoop N dec n (p + i * N) h = .ok (foldAt (fun _ => primaryStep N) c n i h) := by
  intro n
  induction n with
  | zero => intro i h _; rfl
  | succ n ih =>
    intro i h hd
    unfold primaryLoop
    rw [hd i (by omega) (by omega), Res.bind_ok, show p + i * N + N = p + (i + 1) * N by rw [Nat.succ_mul, Nat.add_assoc],
      ih _ _ fun j h1 h2 => hd j (by omega) (by omega), foldAt_succ]

/-- If every word is put together from bytes of the memory, the hash is the fold over the words cut to the key's length. -/
theorem primaryWith_gather {N : Nat} (hN : 0 < N) {dec : Nat → Res Nat} {m : List Byte} {src : Nat → Nat → Nat} {p len : Nat}
    (seed : Nat) (hd : ∀ i, i < wcount N len → dec (p + i * N) = .ok (le (gather m (src i) N))) :
    primaryWith N dec p len seed =
      .ok (foldAt (fun _ => primaryStep N) (fun i => le (gather m (src i) (min N (len - i * N)))) (wcount N len) 0
        (seed % 2 ^ (8 * N) ^^^ (0x397A4A6CC6A4A793 % 2 ^ (8 * N) * len % 2 ^ (8 * N)))) := by
  have hw := wcount_eq hN len
  have hdm := Nat.div_add_mod len N
  have hml := Nat.mod_lt len hN
  unfold primaryWith
  generalize seed % 2 ^ (8 * N) ^^^ (0x397A4A6CC6A4A793 % 2 ^ (8 * N) * len % 2 ^ (8 * N)) = ini
  have h1 := primaryLoop_eq (N := N) (dec := dec) (c := fun i => le (gather m (src i) (min N (len - i * N)))) (p := p)
    (len / N) 0 ini (fun j _ hj => by
      rw [hd j (by rw [hw]; omega)]
      have : N ≤ len - j * N := by
        have : (j + 1) * N ≤ len / N * N := Nat.mul_le_mul_right _ (by omega)
        rw [Nat.succ_mul, Nat.mul_comm (len / N)] at this
        omega
      simp only [Nat.min_eq_left this])
  rw [Nat.zero_mul, Nat.add_zero] at h1
  rw [h1, Res.bind_ok]
  unfold primaryTail
  rw [hw]
  by_cases h0 : len % N = 0
  · rw [if_pos h0, if_pos h0, Nat.add_zero]
  · rw [if_neg h0, if_neg h0, foldAt_add, hd _ (by rw [hw, if_neg h0]; omega), Res.bind_ok,
      le_mask _ (gather_length _ _ _) (by omega), gather_take _ _ (by omega), Nat.zero_add]
    simp only [foldAt]
    rw [show min N (len - len / N * N) = len % N by rw [Nat.mul_comm]; omega]

theorem primaryStep_lt {N : Nat} (h w : Nat) : primaryStep N h w < 2 ^ (8 * N) := by
  unfold primaryStep
  have := Nat.mod_lt ((h + w) % 2 ^ (8 * N) * (0x397A4A6CC6A4A793 % 2 ^ (8 * N))) (Nat.two_pow_pos (8 * N))
  exact Nat.xor_lt_two_pow this (shiftRight_lt this)

theorem primaryStep_inj {N : Nat} (hN : N = 4 ∨ N = 8) {h w h' w' : Nat} (e : primaryStep N h w = primaryStep N h' w') :
    (h + w) % 2 ^ (8 * N) = (h' + w') % 2 ^ (8 * N) := by
  unfold primaryStep at e
  have hp := Nat.two_pow_pos (8 * N)
  have e2 := xorshift_inj (s := 4 * N) (B := 8 * N) (by omega) (Nat.mod_lt _ hp) (Nat.mod_lt _ hp) e
  refine mul_mod_inj ?_ (Nat.mod_lt _ hp) (Nat.mod_lt _ hp) e2
  rcases hN with rfl | rfl <;> decide

theorem byte_pow (N : Nat) : (256 : Nat) ^ N = 2 ^ (8 * N) := by
  rw [Nat.pow_mul]

theorem le_gather_lt (m : List Byte) (f : Nat → Nat) {n N : Nat} (h : n ≤ N) : le (gather m f n) < 2 ^ (8 * N) := by
  refine Nat.lt_of_lt_of_le (le_lt _) ?_
  rw [gather_length, byte_pow]
  exact Nat.pow_le_pow_right (by decide) (by omega)

theorem init_lt (N seed len : Nat) :
    seed % 2 ^ (8 * N) ^^^ (0x397A4A6CC6A4A793 % 2 ^ (8 * N) * len % 2 ^ (8 * N)) < 2 ^ (8 * N) :=
  Nat.xor_lt_two_pow (Nat.mod_lt _ (Nat.two_pow_pos _)) (Nat.mod_lt _ (Nat.two_pow_pos _))

/-- A byte of the memory that goes into exactly one word changes the hash. -/
theorem fold_gather_ne {N : Nat} (hN : N = 4 ∨ N = 8) {m m' : List Byte} {q : Nat} (hp : Pair m m' q) {src : Nat → Nat → Nat}
    {len j k ini : Nat} (hj : j < wcount N len) (hk : k < min N (len - j * N)) (hq : src j k = q)
    (hu : ∀ i k, i < wcount N len → k < min N (len - i * N) → src i k = q → i = j) (hi : ini < 2 ^ (8 * N)) :
    foldAt (fun _ => primaryStep N) (fun i => le (gather m (src i) (min N (len - i * N)))) (wcount N len) 0 ini ≠
      foldAt (fun _ => primaryStep N) (fun i => le (gather m' (src i) (min N (len - i * N)))) (wcount N len) 0 ini := by
  refine foldAt_one (B := 2 ^ (8 * N)) (j := j) (N := wcount N len) (fun _ _ _ => primaryStep_lt _ _)
    (fun _ _ _ => primaryStep_lt _ _) (fun i h h' h1 h2 e => add_mod_inj h1 h2 (primaryStep_inj hN e))
    (fun i hi hij => ?_) (fun h hh e => ?_) _ 0 ini (by omega) (by omega) (by omega) hi
  · show le _ = le _
    rw [gather_congr fun k hk => hp.same _ fun e => hij (hu i k hi hk e)]
  · have e2 := primaryStep_inj hN e
    rw [Nat.add_comm h, Nat.add_comm h] at e2
    have e3 := add_mod_inj (le_gather_lt _ _ (Nat.min_le_left _ _)) (le_gather_lt _ _ (Nat.min_le_left _ _)) e2
    exact gather_ne hp hk hq (le_inj _ _ (by rw [gather_length, gather_length]) e3)

/-- A byte of the memory that goes into no word does not change the hash. -/
theorem fold_gather_eq {N : Nat} {m m' : List Byte} {q : Nat} (hp : Pair m m' q) {src : Nat → Nat → Nat} {len ini : Nat}
    (hu : ∀ i k, i < wcount N len → k < min N (len - i * N) → src i k ≠ q) :
    foldAt (fun _ => primaryStep N) (fun i => le (gather m (src i) (min N (len - i * N)))) (wcount N len) 0 ini =
      foldAt (fun _ => primaryStep N) (fun i => le (gather m' (src i) (min N (len - i * N)))) (wcount N len) 0 ini := by
  apply foldAt_congr
  intro i _ hi
  show le _ = le _
  rw [gather_congr fun k hk => hp.same _ (hu i k (by omega) hk)]

/-! ### The words of a key that is not aligned -/

/-- Where byte `k` of the word at offset `o` comes from. -/
def unSrc (N M o k : Nat) : Nat := if k < M then o + (N - M) + k else o + k - 2 * M

theorem decodeUn_ok {N M : Nat} {m : List Byte} {o : Nat} (h0 : 0 < M) (hM : M < N) (ho : M ≤ o)
    (hm : o + (N - M) + N ≤ m.length) : decodeUn N M m o = .ok (le (gather m (unSrc N M o) N)) := by
  have hx := le_mask (N := N) (r := N - M) ((m.drop (o - M)).take N) (by simp; omega) (by omega)
  rw [show N - (N - M) = M by omega, List.take_take, Nat.min_eq_left (by omega)] at hx
  have hy := le_mask (N := N) (r := M) ((m.drop (o + (N - M))).take N) (by simp; omega) (by omega)
  rw [List.take_take, Nat.min_eq_left (by omega)] at hy
  unfold decodeUn
  rw [if_neg (by omega), load_ok (by omega), load_ok (by omega), Res.bind_ok, Res.bind_ok, hx, hy]
  congr 1
  have ha : ((m.drop (o - M)).take (N - M)).length = N - M := by simp; omega
  have hb : ((m.drop (o + (N - M))).take M).length = M := by simp; omega
  have la := le_lt ((m.drop (o - M)).take (N - M))
  have lb := le_lt ((m.drop (o + (N - M))).take M)
  rw [ha, byte_pow] at la
  rw [hb, byte_pow] at lb
  have e : gather m (unSrc N M o) N = (m.drop (o + (N - M))).take M ++ (m.drop (o - M)).take (N - M) := by
    rw [← gather_window (by omega), ← gather_window (by omega)]
    apply List.ext_getElem?
    intro k
    by_cases hk : k < M
    · rw [List.getElem?_append_left (by rw [gather_length]; exact hk), gather_getElem?, gather_getElem?, if_pos (by omega),
        if_pos hk, unSrc, if_pos hk]
    · rw [List.getElem?_append_right (by rw [gather_length]; omega), gather_length, gather_getElem?, gather_getElem?]
      by_cases h2 : k < N
      · rw [if_pos h2, if_pos (by omega), unSrc, if_neg hk]
        congr 2
        omega
      · rw [if_neg h2, if_neg (by omega)]
  rw [e, le_append, hb, byte_pow, Nat.mul_comm M 8]
  generalize le ((m.drop (o - M)).take (N - M)) = a at *
  generalize le ((m.drop (o + (N - M))).take M) = b at *
  rw [Nat.mod_eq_of_lt, ← Nat.shiftLeft_add_eq_or_of_lt lb, Nat.shiftLeft_eq, Nat.mul_comm, Nat.add_comm]
  rw [Nat.shiftLeft_eq, show 8 * N = 8 * (N - M) + 8 * M by omega, Nat.pow_add]
  exact Nat.mul_lt_mul_of_pos_right la (Nat.two_pow_pos _)

theorem decodeUn_ub {N M : Nat} {m : List Byte} {o : Nat} (h0 : 0 < M) (hm : m.length < o + (N - M) + N) :
    decodeUn N M m o = .ub := by
  unfold decodeUn
  rw [if_neg (by omega)]
  unfold load
  split
  · rw [Res.bind_ok, if_neg (by omega), Res.bind_ub]
  · rw [Res.bind_ub]

theorem primaryLoop_ub {N : Nat} {dec : Nat → Res Nat} (hd : ∀ o, (∃ v, dec o = .ok v) ∨ dec o = .ub) {p e : Nat}
    (hu : dec (p + e * N) = .ub) : ∀ (n i h : Nat), i ≤ e → e < i + n → primaryLoop N dec n (p + i * N) h = .ub := by
  intro n
  induction n with
  | zero => intro i h h1 h2; omega
  | succ n ih =>
    intro i h h1 h2
    unfold primaryLoop
    by_cases e1 : i = e
    · subst e1; rw [hu, Res.bind_ub]
    · rcases hd (p + i * N) with ⟨v, hv⟩ | hv
      · rw [hv, Res.bind_ok, show p + i * N + N = p + (i + 1) * N by rw [Nat.succ_mul, Nat.add_assoc]]
        exact ih _ _ (by omega) (by omega)
      · rw [hv, Res.bind_ub]

theorem primaryLoop_noDiverge {N : Nat} {dec : Nat → Res Nat} (hd : ∀ o, (∃ v, dec o = .ok v) ∨ dec o = .ub) :
    ∀ (n o h : Nat), (∃ v, primaryLoop N dec n o h = .ok v) ∨ primaryLoop N dec n o h = .ub := by
  intro n
  induction n with
  | zero => intro o h; exact .inl ⟨h, rfl⟩
  | succ n ih =>
    intro o h
    unfold primaryLoop
    rcases hd o with ⟨v, hv⟩ | hv
    · rw [hv, Res.bind_ok]; exact ih _ _
    · rw [hv, Res.bind_ub]; exact .inr rfl

/-- One word of the key that cannot be read makes the whole call undefined. -/
theorem primaryWith_ub {N : Nat} (hN : 0 < N) {dec : Nat → Res Nat} (hd : ∀ o, (∃ v, dec o = .ok v) ∨ dec o = .ub) {p len e : Nat}
    (seed : Nat) (he : e < wcount N len) (hu : dec (p + e * N) = .ub) : primaryWith N dec p len seed = .ub := by
  rw [wcount_eq hN] at he
  unfold primaryWith
  generalize seed % 2 ^ (8 * N) ^^^ (0x397A4A6CC6A4A793 % 2 ^ (8 * N) * len % 2 ^ (8 * N)) = ini
  by_cases h1 : e < len / N
  · have := primaryLoop_ub (N := N) hd hu (len / N) 0 ini (by omega) (by omega)
    rw [Nat.zero_mul, Nat.add_zero] at this
    rw [this, Res.bind_ub]
  · rcases primaryLoop_noDiverge (N := N) hd (len / N) p ini with ⟨v, hv⟩ | hv
    · rw [hv, Res.bind_ok]
      have h0 : len % N ≠ 0 := by intro h; rw [if_pos h] at he; omega
      rw [if_neg h0] at he
      unfold primaryTail
      rw [if_neg h0, show len / N = e by omega, hu, Res.bind_ub]
    · rw [hv, Res.bind_ub]

theorem decodeUn_cases {N M : Nat} (m : List Byte) (o : Nat) : (∃ v, decodeUn N M m o = .ok v) ∨ decodeUn N M m o = .ub := by
  unfold decodeUn load
  split
  · split
    · exact .inl ⟨_, rfl⟩
    · exact .inr rfl
  · split
    · split
      · exact .inl ⟨_, rfl⟩
      · exact .inr rfl
    · exact .inr rfl

theorem wcount_mul {N : Nat} (hN : 0 < N) (len : Nat) : len ≤ wcount N len * N ∧ wcount N len * N < len + N := by
  unfold wcount
  have h := Nat.div_add_mod (len + N - 1) N
  have h2 := Nat.mod_lt (len + N - 1) hN
  rw [Nat.mul_comm] at h
  omega

theorem unal_bound {N p len i : Nat} {m : List Byte} (hm : p + wcount N len * N + (N - p % N) ≤ m.length)
    (hi : i < wcount N len) : p + i * N + (N - p % N) + N ≤ m.length := by
  have : (i + 1) * N ≤ wcount N len * N := Nat.mul_le_mul_right _ hi
  rw [Nat.succ_mul] at this
  omega

/-- The hash of a key that is not aligned, as a fold over words put together from bytes of the memory. -/
theorem primaryAt_fold {N : Nat} (hN : 0 < N) {m : List Byte} {p len : Nat} (seed : Nat) (hp : p % N ≠ 0)
    (hm : p + wcount N len * N + (N - p % N) ≤ m.length) : primaryAt N m p len seed =
      .ok (foldAt (fun _ => primaryStep N) (fun i => le (gather m (unSrc N (p % N) (p + i * N)) (min N (len - i * N)))) (wcount N len) 0
        (seed % 2 ^ (8 * N) ^^^ (0x397A4A6CC6A4A793 % 2 ^ (8 * N) * len % 2 ^ (8 * N)))) := by
  have h1 := Nat.mod_lt p hN
  have h2 := Nat.mod_le p N
  exact primaryWith_gather hN (src := fun i => unSrc N (p % N) (p + i * N)) seed fun i hi =>
    decodeUn_ok (by omega) h1 (by omega) (unal_bound hm hi)

/-! ### What a user sees -/

/-- C137: a key that is aligned is hashed as on x86. -/
theorem primaryAt_aligned {N : Nat} (hN : 0 < N) (m : List Byte) (p len seed : Nat) (hp : p % N = 0) :
    primaryAt N m p len seed = primaryHash N (m.drop p) len seed := by
  have hl : ∀ o, decodeUn N (p % N) m (p + o) = load (m.drop p) o N := by
    intro o
    unfold decodeUn load
    rw [if_pos hp, List.length_drop, List.drop_drop]
    by_cases h : p + o + N ≤ m.length
    · rw [if_pos h, if_pos (by omega)]
    · by_cases h2 : o + N ≤ m.length - p
      · exfalso
        omega
      · rw [if_neg h, if_neg h2]
  have key : ∀ (n o r h f : Nat), r < N → n * N + r < f → (primaryLoop N (decodeUn N (p % N) m) n (p + o) h).bind
      (fun h => primaryTail N (decodeUn N (p % N) m) (p + o + n * N) r h) = maskedLoop (primaryStep N) N (m.drop p) f o (n * N + r) h := by
    intro n
    induction n with
    | zero =>
      intro o r h f hr hf
      obtain ⟨g, rfl⟩ : ∃ g, f = g + 1 := ⟨f - 1, by omega⟩
      unfold primaryLoop primaryTail maskedLoop
      rw [Res.bind_ok, Nat.zero_mul, Nat.add_zero, Nat.zero_add, hl]
      by_cases h0 : r = 0
      · rw [if_pos h0, if_neg (show ¬ N ≤ r by omega), if_neg (show ¬ 0 < r by omega)]
      · rw [if_neg h0, if_neg (show ¬ N ≤ r by omega), if_pos (show 0 < r by omega)]
    | succ n ih =>
      intro o r h f hr hf
      obtain ⟨g, rfl⟩ : ∃ g, f = g + 1 := ⟨f - 1, by omega⟩
      unfold primaryLoop maskedLoop
      rw [Nat.succ_mul] at hf ⊢
      rw [if_pos (by omega), hl, resBind_assoc]
      congr 1
      funext w
      have := ih (o + N) r (primaryStep N h w) g hr (by omega)
      rw [show p + o + N = p + (o + N) by omega, show n * N + N + r - N = n * N + r by omega, ← this]
      congr 1
      funext h
      congr 1
      omega
  have h := key (len / N) 0 (len % N) (seed % 2 ^ (8 * N) ^^^ (0x397A4A6CC6A4A793 % 2 ^ (8 * N) * len % 2 ^ (8 * N))) (len + 1)
    (Nat.mod_lt _ hN) (by rw [Nat.div_add_mod']; omega)
  rw [Nat.div_add_mod'] at h
  exact h

example : primaryAt 4 [9, 9, 9, 9, 1, 2, 3, 4, 5, 0, 0, 0] 4 5 7 = primaryHash 4 [1, 2, 3, 4, 5, 0, 0, 0] 5 7 :=
  primaryAt_aligned (by decide) [9, 9, 9, 9, 1, 2, 3, 4, 5, 0, 0, 0] 4 5 7 (by decide)

/-- C137 (partial: only keys whose address is a multiple of `N`): with `N - 1` readable bytes behind it, a key has the same hash
wherever it is and whatever surrounds it. -/
theorem primaryAt_partial {N : Nat} (hN : 0 < N) (a a' s b b' : List Byte) (seed : Nat) (ha : a.length % N = 0) (ha' : a'.length % N = 0)
    (hb : N ≤ b.length + 1) (hb' : N ≤ b'.length + 1) :
    ∃ r, primaryAt N (a ++ (s ++ b)) a.length s.length seed = .ok r ∧ primaryAt N (a' ++ (s ++ b')) a'.length s.length seed = .ok r := by
  have key : ∀ a b : List Byte, a.length % N = 0 → N ≤ b.length + 1 → primaryAt N (a ++ (s ++ b)) a.length s.length seed =
      .ok ((words N s).foldl (primaryStep N)
        (seed % 2 ^ (8 * N) ^^^ (0x397A4A6CC6A4A793 % 2 ^ (8 * N) * s.length % 2 ^ (8 * N)))) := by
    intro a b ha hb
    rw [primaryAt_aligned hN _ _ _ _ ha, List.drop_left, primaryHash_eq hN, if_pos]
    have := Nat.mod_lt s.length hN
    by_cases h : s.length % N = 0
    · exact .inl h
    · exact .inr (by omega)
  exact ⟨_, key a b ha hb, key a' b' ha' hb'⟩

example : ∃ r, primaryAt 4 ([9, 9, 9, 9] ++ ([1, 2, 3] ++ [7, 7, 7])) 4 3 5 = .ok r ∧ primaryAt 4 ([] ++ ([1, 2, 3] ++ [8, 8, 8])) 0 3 5 = .ok r :=
  primaryAt_partial (by decide) [9, 9, 9, 9] [] [1, 2, 3] [7, 7, 7] [8, 8, 8] 5 (by decide) (by decide) (by decide) (by decide)

/-- C137: of a key that is aligned (and of every key on x86) every byte counts. -/
theorem primaryHash_everyByte {N : Nat} (hN : N = 4 ∨ N = 8) {m m' : List Byte} {len q : Nat} (seed : Nat)
    (hm : wcount N len * N ≤ m.length) (hq : q < len) (hpr : Pair m m' q) :
    ∃ r r', primaryHash N m len seed = .ok r ∧ primaryHash N m' len seed = .ok r' ∧ r ≠ r' := by
  have hN0 : 0 < N := by omega
  have hw := wcount_mul hN0 len
  have fold : ∀ m : List Byte, wcount N len * N ≤ m.length → primaryHash N m len seed =
      .ok (foldAt (fun _ => primaryStep N) (fun i => le (gather m (i * N + ·) (min N (len - i * N)))) (wcount N len) 0
        (seed % 2 ^ (8 * N) ^^^ (0x397A4A6CC6A4A793 % 2 ^ (8 * N) * len % 2 ^ (8 * N)))) := by
    intro m hm
    have h := primaryAt_aligned hN0 m 0 len seed (Nat.zero_mod _)
    rw [List.drop_zero] at h
    rw [← h]
    refine primaryWith_gather hN0 (src := fun i k => i * N + k) seed fun i hi => ?_
    have : (i + 1) * N ≤ wcount N len * N := Nat.mul_le_mul_right _ hi
    rw [Nat.succ_mul] at this
    unfold decodeUn
    rw [if_pos (Nat.zero_mod _), Nat.zero_add, load_ok (by omega), gather_window (by omega)]
  refine ⟨_, _, fold m hm, fold m' (by rw [hpr.len]; exact hm), ?_⟩
  have hd := Nat.div_add_mod' q N
  have hml := Nat.mod_lt q hN0
  have hj : q / N < wcount N len := by
    by_contra hc
    have : wcount N len * N ≤ q / N * N := Nat.mul_le_mul_right _ (by omega)
    omega
  refine fold_gather_ne (src := fun i k => i * N + k) hN hpr hj (k := q % N) (by omega) hd ?_ (init_lt _ _ _)
  intro i k hi hk e
  have hkN : k < N := Nat.lt_of_lt_of_le hk (Nat.min_le_left _ _)
  have e2 : i * N + k = q := e
  rw [← e2, Nat.mul_comm, Nat.mul_add_div hN0, Nat.div_eq_of_lt hkN, Nat.add_zero]

example : ∃ r r', primaryHash 4 ([1, 2] ++ 3 :: [4, 5, 0, 0, 0]) 5 7 = .ok r ∧ primaryHash 4 ([1, 2] ++ 9 :: [4, 5, 0, 0, 0]) 5 7 = .ok r' ∧
    r ≠ r' := primaryHash_everyByte (.inl rfl) 7 (by decide) (by decide) (pair_mk _ _ (by decide))

/-- C137: which bytes a key that is not aligned needs: for `missalign = p % N` the call returns if and only if `N - missalign`
bytes behind the last (rounded up) word of the key are readable. -/
theorem primaryAt_reads {N : Nat} (hN : 0 < N) (m : List Byte) (p len seed : Nat) (hp : p % N ≠ 0) (hl : 0 < len) :
    (∃ r, primaryAt N m p len seed = .ok r) ↔ p + wcount N len * N + (N - p % N) ≤ m.length := by
  constructor
  · rintro ⟨r, hr⟩
    by_contra hc
    have hw := wcount_mul hN len
    have hw0 : 0 < wcount N len := by
      rcases Nat.eq_zero_or_pos (wcount N len) with h | h
      · rw [h] at hw; omega
      · exact h
    have := primaryWith_ub (p := p) (len := len) (e := wcount N len - 1) hN (decodeUn_cases (N := N) (M := p % N) m) seed (by omega)
      (decodeUn_ub (by omega) (by
        have : (wcount N len - 1) * N + N = wcount N len * N := by rw [← Nat.succ_mul]; congr 1; omega
        omega))
    unfold primaryAt at hr
    rw [this] at hr
    cases hr
  · intro hm
    exact ⟨_, primaryAt_fold hN seed hp hm⟩

example : (∃ r, primaryAt 4 [9, 1, 2, 3, 4, 0, 0, 0] 1 4 7 = .ok r) ∧ primaryAt 4 [9, 1, 2, 3, 4, 0, 0] 1 4 7 = .ub :=
  ⟨(primaryAt_reads (by decide) _ 1 4 7 (by decide) (by decide)).2 (by decide), by decide +kernel⟩

/-- C137, the violation: every key that is not empty and not aligned has a byte *outside* the key that decides about its hash:
in two memories that differ in nothing but that byte, the same key at the same place has different hashes. -/
theorem primaryAt_outside {N : Nat} (hN : N = 4 ∨ N = 8) (p len : Nat) (hp : p % N ≠ 0) (hl : 0 < len) :
    ∃ q, (q < p ∨ p + len ≤ q) ∧ ∀ (m m' : List Byte) (seed : Nat), p + wcount N len * N + (N - p % N) ≤ m.length → Pair m m' q →
      ∃ r r', primaryAt N m p len seed = .ok r ∧ primaryAt N m' p len seed = .ok r' ∧ r ≠ r' := by
  have hN0 : 0 < N := by omega
  have h1 := Nat.mod_lt p hN0
  have h2 := Nat.mod_le p N
  have hw := wcount_mul hN0 len
  have hw0 : 0 < wcount N len := by
    rcases Nat.eq_zero_or_pos (wcount N len) with h | h
    · rw [h] at hw; omega
    · exact h
  by_cases hc : p % N < len
  · refine ⟨p - p % N, .inl (by omega), fun m m' seed hm hpr => ⟨_, _, primaryAt_fold hN0 seed hp hm,
      primaryAt_fold hN0 seed hp (by rw [hpr.len]; exact hm), ?_⟩⟩
    refine fold_gather_ne (src := fun i => unSrc N (p % N) (p + i * N)) hN hpr hw0 (k := p % N) (by omega) ?_ ?_ (init_lt _ _ _)
    · unfold unSrc
      simp only [Nat.lt_irrefl, if_false]
      omega
    · intro i k hi hk e
      unfold unSrc at e
      rcases Nat.eq_zero_or_pos i with h | h
      · exact h
      · exfalso
        have : 1 * N ≤ i * N := Nat.mul_le_mul_right _ h
        split at e <;> omega
  · have hw1 : wcount N len = 1 := by
      rw [wcount_eq hN0, Nat.div_eq_of_lt (by omega), Nat.mod_eq_of_lt (by omega), if_neg (by omega)]
    refine ⟨p + (N - p % N) + (len - 1), .inr (by omega), fun m m' seed hm hpr => ⟨_, _, primaryAt_fold hN0 seed hp hm,
      primaryAt_fold hN0 seed hp (by rw [hpr.len]; exact hm), ?_⟩⟩
    refine fold_gather_ne (src := fun i => unSrc N (p % N) (p + i * N)) hN hpr hw0 (k := len - 1) (by omega) ?_ ?_ (init_lt _ _ _)
    · unfold unSrc
      rw [if_pos (by omega)]
      omega
    · intro i k hi hk e
      omega

example : ∃ r r', primaryAt 8 [9, 1, 2, 3, 4, 5, 6, 7, 8, 0, 0, 0, 0, 0, 0, 0] 1 8 7 = .ok r ∧
    primaryAt 8 [10, 1, 2, 3, 4, 5, 6, 7, 8, 0, 0, 0, 0, 0, 0, 0] 1 8 7 = .ok r' ∧ r ≠ r' :=
  ⟨_, _, rfl, rfl, by decide +kernel⟩

example : ∃ q, (q < 3 ∨ 3 + 5 ≤ q) ∧ ∀ (m m' : List Byte) (seed : Nat), 3 + wcount 8 5 * 8 + (8 - 3 % 8) ≤ m.length → Pair m m' q →
    ∃ r r', primaryAt 8 m 3 5 seed = .ok r ∧ primaryAt 8 m' 3 5 seed = .ok r' ∧ r ≠ r' :=
  primaryAt_outside (.inr rfl) 3 5 (by decide) (by decide)

/-- C137, the violation: in every word of a key that is not aligned one byte *of the key* does not count: the byte `q` below, the
one before the last `missalign` bytes of the word (the last byte of the key if the key ends before it). -/
theorem primaryAt_ignores {N : Nat} (hN : 0 < N) {m m' : List Byte} {p len i : Nat} (seed : Nat) (hp : p % N ≠ 0)
    (hi : i < wcount N len) (hm : p + wcount N len * N + (N - p % N) ≤ m.length)
    (hpr : Pair m m' (p + i * N + min (N - p % N - 1) (len - i * N - 1))) :
    ∃ r, primaryAt N m p len seed = .ok r ∧ primaryAt N m' p len seed = .ok r := by
  have h1 := Nat.mod_lt p hN
  have h2 := Nat.mod_le p N
  refine ⟨_, primaryAt_fold hN seed hp hm, ?_⟩
  rw [primaryAt_fold hN seed hp (by rw [hpr.len]; exact hm)]
  congr 1
  refine (fold_gather_eq (src := fun i => unSrc N (p % N) (p + i * N)) hpr fun j k hj hk e => ?_).symm
  have hw := wcount_mul hN len
  have hii : i * N < len := by
    have : (i + 1) * N ≤ wcount N len * N := Nat.mul_le_mul_right _ hi
    rw [Nat.succ_mul] at this
    omega
  have hjj : j * N < len := by
    have : (j + 1) * N ≤ wcount N len * N := Nat.mul_le_mul_right _ hj
    rw [Nat.succ_mul] at this
    omega
  unfold unSrc at e
  rcases Nat.lt_trichotomy j i with h | h | h
  · have : (j + 1) * N ≤ i * N := Nat.mul_le_mul_right _ h
    rw [Nat.succ_mul] at this
    split at e <;> omega
  · subst h
    split at e <;> omega
  · have : (i + 1) * N ≤ j * N := Nat.mul_le_mul_right _ h
    rw [Nat.succ_mul] at this
    split at e <;> omega

example : ∃ r, primaryAt 4 ([9, 1, 2] ++ 3 :: [4, 0, 0, 0]) 1 4 7 = .ok r ∧ primaryAt 4 ([9, 1, 2] ++ 77 :: [4, 0, 0, 0]) 1 4 7 = .ok r :=
  primaryAt_ignores (by decide) 7 (by decide) (i := 0) (by decide) (by decide) (pair_mk [9, 1, 2] [4, 0, 0, 0] (by decide))

/-! ### primaryHash_old -/

theorem decodeBE_unsigned {N : Nat} {m : List Byte} {o : Nat} (hm : o + N ≤ m.length) : ∀ k, k ≤ N →
    decodeBE false N m o k = .ok (le (gather m (fun j => o + (N - 1 - j)) k)) := by
  intro k
  induction k with
  | zero => intro _; rfl
  | succ k ih =>
    intro hk
    unfold decodeBE
    rw [load_ok (by omega), Res.bind_ok, ih (by omega), Res.bind_ok]
    congr 1
    have hb : (m.drop (o + (N - 1 - k))).take 1 = [m.getD (o + (N - 1 - k)) 0] := by
      rw [← gather_window (by omega)]
      rfl
    have hg : gather m (fun j => o + (N - 1 - j)) (k + 1) =
        gather m (fun j => o + (N - 1 - j)) k ++ [m.getD (o + (N - 1 - k)) 0] := by
      unfold gather
      rw [List.range_succ, List.map_append]
      rfl
    rw [hb, hg, le_append, gather_length, byte_pow]
    have hl := le_lt (gather m (fun j => o + (N - 1 - j)) k)
    rw [gather_length, byte_pow] at hl
    generalize le (gather m (fun j => o + (N - 1 - j)) k) = a at *
    have hlt := (m.getD (o + (N - 1 - k)) 0).isLt
    generalize m.getD (o + (N - 1 - k)) 0 = b at *
    rw [show charVal false N (le [b]) = b.val by simp [charVal, le], show le [b] = b.val by simp [le]]
    rw [Nat.mod_eq_of_lt, ← Nat.shiftLeft_add_eq_or_of_lt hl, Nat.shiftLeft_eq, Nat.mul_comm, Nat.add_comm]
    rw [Nat.shiftLeft_eq, show 8 * N = 8 + 8 * k + 8 * (N - 1 - k) by omega, Nat.pow_add, Nat.pow_add]
    have := Nat.mul_lt_mul_of_pos_right hlt (Nat.two_pow_pos (8 * k))
    exact Nat.lt_of_lt_of_le this (Nat.le_mul_of_pos_right _ (Nat.two_pow_pos _))

theorem old_bound {N p len i : Nat} {m : List Byte} (hm : p + wcount N len * N ≤ m.length)
    (hi : i < wcount N len) : p + i * N + N ≤ m.length := by
  have : (i + 1) * N ≤ wcount N len * N := Nat.mul_le_mul_right _ hi
  rw [Nat.succ_mul] at this
  omega

theorem primaryOldAt_fold {N : Nat} (hN : 0 < N) {m : List Byte} {p len : Nat} (seed : Nat) (hp : p % N ≠ 0)
    (hm : p + wcount N len * N ≤ m.length) : primaryOldAt false N m p len seed =
      .ok (foldAt (fun _ => primaryStep N) (fun i => le (gather m (fun k => p + i * N + (N - 1 - k)) (min N (len - i * N)))) (wcount N len) 0
        (seed % 2 ^ (8 * N) ^^^ (0x397A4A6CC6A4A793 % 2 ^ (8 * N) * len % 2 ^ (8 * N)))) := by
  unfold primaryOldAt
  rw [if_neg hp]
  exact primaryWith_gather hN (src := fun i k => p + i * N + (N - 1 - k)) seed fun i hi =>
    decodeBE_unsigned (old_bound hm hi) N (Nat.le_refl _)

theorem wcount_last {N len : Nat} (hN : 0 < N) (hl : len % N ≠ 0) : len / N < wcount N len ∧ len - len / N * N = len % N := by
  refine ⟨by rw [wcount_eq hN, if_neg hl]; omega, ?_⟩
  have := Nat.div_add_mod' len N
  omega

theorem old_block {N p i j k k' : Nat} (hk : k < N) (hk' : k' < N) (e : p + i * N + (N - 1 - k) = p + j * N + (N - 1 - k')) : i = j := by
  rcases Nat.lt_trichotomy i j with h | h | h
  · have : (i + 1) * N ≤ j * N := Nat.mul_le_mul_right _ h
    rw [Nat.succ_mul] at this
    omega
  · exact h
  · have : (j + 1) * N ≤ i * N := Nat.mul_le_mul_right _ h
    rw [Nat.succ_mul] at this
    omega

/-- C137, the violation for `primaryHash_old` (plain `char` unsigned, as on ARM): if the length of a key that is not aligned is not
a multiple of `N`, the last byte of the rounded-up key, which lies behind the key, decides about the hash … -/
theorem primaryOldAt_outside {N : Nat} (hN : N = 4 ∨ N = 8) {m m' : List Byte} {p len : Nat} (seed : Nat) (hp : p % N ≠ 0)
    (hl : len % N ≠ 0) (hm : p + wcount N len * N ≤ m.length) (hpr : Pair m m' (p + wcount N len * N - 1)) :
    p + len ≤ p + wcount N len * N - 1 ∧
      ∃ r r', primaryOldAt false N m p len seed = .ok r ∧ primaryOldAt false N m' p len seed = .ok r' ∧ r ≠ r' := by
  have hN0 : 0 < N := by omega
  have hw := wcount_mul hN0 len
  obtain ⟨h1, h2⟩ := wcount_last hN0 hl
  have h3 := Nat.mod_lt len hN0
  have h4 : wcount N len * N = len / N * N + N := by rw [wcount_eq hN0, if_neg hl, Nat.succ_mul]
  refine ⟨by omega, _, _, primaryOldAt_fold hN0 seed hp hm, primaryOldAt_fold hN0 seed hp (by rw [hpr.len]; exact hm), ?_⟩
  refine fold_gather_ne (src := fun i k => p + i * N + (N - 1 - k)) hN hpr h1 (k := 0) (by omega) (by omega) ?_ (init_lt _ _ _)
  intro i k hi hk e
  have hkN : k < N := Nat.lt_of_lt_of_le hk (Nat.min_le_left _ _)
  refine old_block (N := N) (p := p) (k := k) (k' := 0) hkN hN0 ?_
  omega

example : ∃ r r', primaryOldAt false 4 ([9, 1, 2, 3] ++ 0 :: []) 1 3 7 = .ok r ∧ primaryOldAt false 4 ([9, 1, 2, 3] ++ 5 :: []) 1 3 7 = .ok r' ∧
    r ≠ r' :=
  (primaryOldAt_outside (.inl rfl) 7 (by decide) (by decide) (by decide) (pair_mk [9, 1, 2, 3] [] (by decide))).2

/-- … and the first byte of the last, incomplete word does not count. -/
theorem primaryOldAt_ignores {N : Nat} (hN : 0 < N) {m m' : List Byte} {p len : Nat} (seed : Nat) (hp : p % N ≠ 0)
    (hl : len % N ≠ 0) (hm : p + wcount N len * N ≤ m.length) (hpr : Pair m m' (p + len / N * N)) :
    p + len / N * N < p + len ∧
      ∃ r, primaryOldAt false N m p len seed = .ok r ∧ primaryOldAt false N m' p len seed = .ok r := by
  obtain ⟨h1, h2⟩ := wcount_last hN hl
  have h3 := Nat.mod_lt len hN
  refine ⟨by omega, _, primaryOldAt_fold hN seed hp hm, ?_⟩
  rw [primaryOldAt_fold hN seed hp (by rw [hpr.len]; exact hm)]
  congr 1
  refine (fold_gather_eq (src := fun i k => p + i * N + (N - 1 - k)) hpr fun j k hj hk e => ?_).symm
  have hkN : k < N := Nat.lt_of_lt_of_le hk (Nat.min_le_left _ _)
  have hj2 := old_block (p := p) (i := j) (j := len / N) (k := k) (k' := N - 1) hkN (Nat.sub_lt hN Nat.one_pos) (by omega)
  rw [hj2] at hk e
  omega

example : ∃ r, primaryOldAt false 4 ([9] ++ 1 :: [2, 3, 0]) 1 3 7 = .ok r ∧ primaryOldAt false 4 ([9] ++ 77 :: [2, 3, 0]) 1 3 7 = .ok r :=
  (primaryOldAt_ignores (by decide) 7 (by decide) (by decide) (by decide) (pair_mk [9] [2, 3, 0] (by decide))).2

/-- A plain `char` that is negative fills every place before it. -/
theorem decodeBE_signed {N : Nat} {m : List Byte} {o : Nat} (hN : 0 < N) (hm : o + N ≤ m.length)
    (hb : 128 ≤ (m.getD (o + (N - 1)) 0).val) :
    decodeBE true N m o N = .ok (2 ^ (8 * N) - 256 + (m.getD (o + (N - 1)) 0).val) := by
  have h256 : 256 ≤ 2 ^ (8 * N) := by
    have : (2 : Nat) ^ 8 ≤ 2 ^ (8 * N) := Nat.pow_le_pow_right (by decide) (by omega)
    omega
  have hlt := (m.getD (o + (N - 1)) 0).isLt
  have key : ∀ k, 0 < k → k ≤ N → ∃ v, decodeBE true N m o k = .ok v ∧ v = 2 ^ (8 * N) - 256 + (m.getD (o + (N - 1)) 0).val := by
    intro k
    induction k with
    | zero => intro h; omega
    | succ k ih =>
      intro _ hk
      have hone : (m.drop (o + (N - 1 - k))).take 1 = [m.getD (o + (N - 1 - k)) 0] := by
        rw [← gather_window (by omega)]
        rfl
      unfold decodeBE
      rw [load_ok (by omega), Res.bind_ok, hone, show le [m.getD (o + (N - 1 - k)) 0] = (m.getD (o + (N - 1 - k)) 0).val by simp [le]]
      rcases Nat.eq_zero_or_pos k with h0 | h0
      · subst h0
        unfold decodeBE
        rw [Res.bind_ok]
        refine ⟨_, rfl, ?_⟩
        unfold charVal
        rw [Nat.mul_zero, Nat.shiftLeft_zero, Nat.or_zero, Nat.sub_zero, if_pos ⟨rfl, hb⟩, Nat.mod_eq_of_lt (by omega)]
      · obtain ⟨v, hv, hv2⟩ := ih h0 (by omega)
        rw [hv, Res.bind_ok]
        refine ⟨_, rfl, ?_⟩
        rw [hv2]
        generalize charVal true N (m.getD (o + (N - 1 - k)) 0).val = c
        generalize (m.getD (o + (N - 1)) 0).val = b at *
        -- the places from 8 on are all ones already
        apply Nat.eq_of_testBit_eq
        intro t
        rw [Nat.testBit_or, Nat.testBit_mod_two_pow, Nat.testBit_shiftLeft]
        by_cases ht : t < 8
        · rw [show decide (t ≥ 8 * k) = false by simp; omega]
          simp
        · by_cases ht2 : t < 8 * N
          · have : (2 ^ (8 * N) - 256 + b).testBit t = true := by
              have e : 2 ^ (8 * N) - 256 + b = 2 ^ 8 * (2 ^ (8 * N - 8) - 1) + b := by
                have : 2 ^ (8 * N) = 2 ^ 8 * 2 ^ (8 * N - 8) := by rw [← Nat.pow_add]; congr 1; omega
                rw [this, Nat.mul_sub, Nat.mul_one, show (2 : Nat) ^ 8 = 256 from rfl]
              rw [e, Nat.testBit_two_pow_mul_add _ (by omega), if_neg ht, Nat.testBit_two_pow_sub_one]
              simp; omega
            rw [this, Bool.or_true]
          · simp [ht2]
  obtain ⟨v, hv, rfl⟩ := key N hN (Nat.le_refl _)
  exact hv

/-- C137, the violation for `primaryHash_old` where plain `char` is signed: if the last byte of a word of the key is 128 or more, the
other bytes of the word do not count. -/
theorem primaryOldAt_signed {N : Nat} (hN : 0 < N) {m m' : List Byte} {p len i k : Nat} (seed : Nat) (hp : p % N ≠ 0)
    (hm : p + wcount N len * N ≤ m.length) (hi : (i + 1) * N ≤ len) (hk : k < N - 1)
    (hb : 128 ≤ (m.getD (p + i * N + (N - 1)) 0).val) (hpr : Pair m m' (p + i * N + k)) :
    primaryOldAt true N m p len seed = primaryOldAt true N m' p len seed := by
  have hw := wcount_mul hN len
  have hsame : ∀ j, decodeBE true N m (p + j * N) N = decodeBE true N m' (p + j * N) N := by
    intro j
    have hj : ∀ (n : Nat), n ≤ N → (∀ t, t < N → p + j * N + t ≠ p + i * N + k) →
        decodeBE true N m (p + j * N) n = decodeBE true N m' (p + j * N) n := by
      intro n
      induction n with
      | zero => intro _ _; rfl
      | succ n ih =>
        intro hn ht
        unfold decodeBE
        rw [ih (by omega) ht]
        congr 1
        unfold load
        rw [hpr.len]
        by_cases h : p + j * N + (N - 1 - n) + 1 ≤ m.length
        · rw [if_pos h, if_pos h, ← gather_window h, ← gather_window (by rw [hpr.len]; exact h)]
          rw [gather_congr fun t h1 => hpr.same _ (by have := ht (N - 1 - n + t) (by omega); omega)]
        · rw [if_neg h, if_neg h]
    by_cases e : j = i
    · subst e
      rw [Nat.succ_mul] at hi
      have hb' : m'.getD (p + j * N + (N - 1)) 0 = m.getD (p + j * N + (N - 1)) 0 := by
        rw [List.getD_eq_getElem?_getD, List.getD_eq_getElem?_getD, hpr.same _ (by omega)]
      rw [decodeBE_signed hN (by omega) hb, decodeBE_signed hN (by rw [hpr.len]; omega) (by rw [hb']; exact hb), hb']
    · refine hj N (Nat.le_refl _) fun t ht e2 => e ?_
      have hs : ∀ t, N - 1 - t < N := fun t => by omega
      exact old_block (p := p) (k := N - 1 - t) (k' := N - 1 - k) (hs t) (hs k) (by omega)
  unfold primaryOldAt
  rw [if_neg hp, if_neg hp]
  have hloop : ∀ (n j h : Nat), primaryLoop N (fun o => decodeBE true N m o N) n (p + j * N) h =
      primaryLoop N (fun o => decodeBE true N m' o N) n (p + j * N) h := by
    intro n
    induction n with
    | zero => intro j h; rfl
    | succ n ih =>
      intro j h
      unfold primaryLoop
      simp only [hsame]
      congr 1
      funext w
      rw [show p + j * N + N = p + (j + 1) * N by rw [Nat.succ_mul, Nat.add_assoc]]
      exact ih _ _
  have h0 := hloop (len / N) 0
  rw [Nat.zero_mul, Nat.add_zero] at h0
  unfold primaryWith
  rw [h0]
  congr 1
  funext h
  unfold primaryTail
  simp only [hsame]

example : primaryOldAt true 4 ([9, 1] ++ 2 :: [3, 200]) 1 4 7 = primaryOldAt true 4 ([9, 1] ++ 77 :: [3, 200]) 1 4 7 ∧
    primaryOldAt true 4 [9, 1, 2, 3, 200] 1 4 7 ≠ .ub :=
  ⟨primaryOldAt_signed (i := 0) (k := 1) (by decide) 7 (by decide) (by decide) (by decide) (by decide) (by decide)
    (pair_mk [9, 1] [3, 200] (by decide)), by decide +kernel⟩

end Verif.HashFn
