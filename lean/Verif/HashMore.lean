/-
More string hash functions of `hasher/hashes.h`: `DJBHash`, `APHash`, `OpenSSL_Hash`, `rocksdb::hashes::Hash` and `msvc_fnv_1a`.
Which bytes they read, and whether every character matters (C135).
HS = `src/jstd/hasher/hashes.h`.

Simplifications as in Verif/HashFn.lean.  A character has `w` bytes (1, 2 or 4).  `rocksdb::hashes::Hash` shifts negative `int`s to the
left, which is undefined before C++20; the model computes the two's complement result.  Little-endian memory.
-/
import Verif.HashProps
import Mathlib.Data.Nat.ModEq

namespace Verif.HashFn

/-! ### Models -/

/-- The loop of `DJBHash` (HS:471-476): `n` characters are left, `o` is the offset of `src`. -/
def djbLoop (w : Nat) (m : List Byte) : Nat → Nat → Nat → Res Nat
  | 0, _, h => .ok h
  | n + 1, o, h => (load m o w).bind fun c => djbLoop w m n (o + w) ((h + ((h <<< 5) % 2 ^ 32 + c)) % 2 ^ 32)

/-- `DJBHash<CharTy>(key, len)` (HS:461-479), `sizeof(CharTy) = w`. -/
def djb (w : Nat) (m : List Byte) (len : Nat) : Res Nat := djbLoop w m len 0 5381

/-- The statement of `APHash` for characters at even positions (HS:437, 439, 448). -/
def apEven (h c : Nat) : Nat := h ^^^ ((h <<< 7) % 2 ^ 32 ^^^ c ^^^ (h >>> 3))

/-- The statement of `APHash` for characters at odd positions (HS:438, 440, 450); `~` flips the 32 bits. -/
def apOdd (h c : Nat) : Nat := h ^^^ ((2 ^ 32 - 1) ^^^ ((h <<< 11) % 2 ^ 32 ^^^ c ^^^ (h >>> 5)))

/-- The unrolled loop of `APHash` (HS:434-442). -/
def apQuads (w : Nat) (m : List Byte) : Nat → Nat → Nat → Res Nat
  | 0, _, h => .ok h
  | n + 1, o, h =>
    (load m o w).bind fun c0 => (load m (o + w) w).bind fun c1 =>
    (load m (o + 2 * w) w).bind fun c2 => (load m (o + 3 * w) w).bind fun c3 =>
      apQuads w m n (o + 4 * w) (apOdd (apEven (apOdd (apEven h c0) c1) c2) c3)

/-- The loop over the rest in `APHash` (HS:444-454). -/
def apRest (w : Nat) (m : List Byte) : Nat → Nat → Nat → Nat → Res Nat
  | 0, _, _, h => .ok h
  | n + 1, i, o, h => (load m o w).bind fun c => apRest w m n (i + 1) (o + w) (if i &&& 1 = 0 then apEven h c else apOdd h c)

/-- `APHash<CharTy>(key, len)` (HS:422-456). -/
def apHash (w : Nat) (m : List Byte) (len : Nat) : Res Nat :=
  (apQuads w m (len / 4) 0 0).bind fun h => apRest w m (len % 4) 0 (len / 4 * (4 * w)) h

/-- The loop of `OpenSSL_Hash` (HS:283-289): two bytes are read, then `src` moves by two characters.  Also returns `i`. -/
def opensslPairs (w : Nat) (m : List Byte) : Nat → Nat → Nat → Nat → Res (Nat × Nat)
  | 0, i, _, h => .ok (i, h)
  | n + 1, i, o, h => (load m o 2).bind fun u => opensslPairs w m n (i + 1) (o + 2 * w) (h ^^^ (u <<< (i &&& 15)) % 2 ^ 32)

/-- `OpenSSL_Hash<CharTy>(key, len)` (HS:273-296). -/
def opensslHash (w : Nat) (m : List Byte) (len : Nat) : Res Nat :=
  (opensslPairs w m (len / 2) 0 0 0).bind fun (i, h) =>
    if len % 2 ≠ 0 then (load m (len / 2 * (2 * w)) w).bind fun c => .ok (h ^^^ (c <<< (i &&& 15)) % 2 ^ 32) else .ok h

/-- One round of `rocksdb::hashes::Hash` (HS:204-206) on the word `u`. -/
def rocksStep (h u : Nat) : Nat :=
  let h1 := (h + u) % 2 ^ 32 * 0xc6a4a793 % 2 ^ 32
  h1 ^^^ (h1 >>> 16)

/-- The loop of `rocksdb::hashes::Hash` (HS:201-207): four bytes are read, then `data` moves by four characters. -/
def rocksLoop (w : Nat) (m : List Byte) : Nat → Nat → Nat → Res Nat
  | 0, _, h => .ok h
  | n + 1, o, h => (load m o 4).bind fun u => rocksLoop w m n (o + 4 * w) (rocksStep h u)

/-- `static_cast<uint32_t>(static_cast<SCharTy>(c))` for a character of `w` bytes: sign extension (HS:224, 227, 230). -/
def sext (w c : Nat) : Nat := if c < 2 ^ (8 * w - 1) then c else 2 ^ 32 - 2 ^ (8 * w) + c

/-- The end of the last case (HS:231-232). -/
def rocksEnd (h : Nat) : Nat :=
  let h1 := h % 2 ^ 32 * 0xc6a4a793 % 2 ^ 32
  h1 ^^^ (h1 >>> 24)

/-- The `switch` over the remaining characters (HS:210-234). -/
def rocksTail (w : Nat) (m : List Byte) (o : Nat) (h : Nat) : Nat → Res Nat
  | 0 => .ok h
  | 1 => (load m o w).bind fun c0 => .ok (rocksEnd (h + sext w c0))
  | 2 => (load m (o + w) w).bind fun c1 => (load m o w).bind fun c0 => .ok (rocksEnd (h + sext w c1 * 2 ^ 8 % 2 ^ 32 + sext w c0))
  | _ => (load m (o + 2 * w) w).bind fun c2 => (load m (o + w) w).bind fun c1 => (load m o w).bind fun c0 =>
      .ok (rocksEnd (h + sext w c2 * 2 ^ 16 % 2 ^ 32 + sext w c1 * 2 ^ 8 % 2 ^ 32 + sext w c0))

/-- `rocksdb::hashes::Hash<CharTy>(data, n, seed)` (HS:190-236). -/
def rocksHash (w : Nat) (m : List Byte) (len seed : Nat) : Res Nat :=
  (rocksLoop w m (len / 4) 0 ((seed ^^^ len * 0xc6a4a793) % 2 ^ 32)).bind fun h =>
    rocksTail w m (len / 4 * (4 * w)) h (len % 4)

/-- One of the three loops of `msvc_fnv_1a` (HS:705-708, 712-715, 717-720): `n` words of `k` bytes. -/
def fnvLoop (k : Nat) (m : List Byte) : Nat → Nat → Nat → Res Nat
  | 0, _, v => .ok v
  | n + 1, o, v => (load m o k).bind fun u => fnvLoop k m n (o + k) ((v ^^^ u) * 1099511628211 % 2 ^ 64)

/-- `msvc_fnv_1a(first, count)` on 64-bit targets (HS:688-723). -/
def msvcFnv1a (m : List Byte) (count : Nat) : Res Nat :=
  if count = 8 then fnvLoop 4 m (count / 4) 0 14695981039346656037
  else if count = 4 then fnvLoop 2 m (count / 2) 0 14695981039346656037
  else fnvLoop 1 m count 0 14695981039346656037

/-! ### Folds in which every unit matters -/

/-- Specification device: `step i` is applied to the accumulator and the unit `c i` for `n` indices from `i` on. -/
def foldAt (step : Nat → Nat → Nat → Nat) (c : Nat → Nat) : Nat → Nat → Nat → Nat
  | 0, _, h => h
  | n + 1, i, h => foldAt step c n (i + 1) (step i h (c i))

theorem foldAt_succ (step : Nat → Nat → Nat → Nat) (c : Nat → Nat) (n i h : Nat) :
    foldAt step c (n + 1) i h = foldAt step c n (i + 1) (step i h (c i)) := rfl

theorem foldAt_congr {step : Nat → Nat → Nat → Nat} {c c' : Nat → Nat} : ∀ (n i h : Nat), (∀ j, i ≤ j → j < i + n → c j = c' j) →
    foldAt step c n i h = foldAt step c' n i h := by
  intro n
  induction n with
  | zero => intro i h _; rfl
  | succ n ih =>
    intro i h hc
    unfold foldAt
    rw [hc i (Nat.le_refl _) (by omega)]
    exact ih _ _ fun j h1 h2 => hc j (by omega) (by omega)

theorem foldAt_lt {step : Nat → Nat → Nat → Nat} {c : Nat → Nat} {B : Nat} : ∀ (n i h : Nat),
    (∀ j h, i ≤ j → j < i + n → h < B → step j h (c j) < B) → h < B → foldAt step c n i h < B := by
  intro n
  induction n with
  | zero => intro i h _ hh; exact hh
  | succ n ih =>
    intro i h hs hh
    exact ih _ _ (fun j h1 h2 h3 => hs j h1 (by omega) (by omega)) (hs i h (Nat.le_refl _) (by omega) hh)

/-- Different accumulators stay different. -/
theorem foldAt_ne {step : Nat → Nat → Nat → Nat} {c : Nat → Nat} {B : Nat}
    (hlt : ∀ i h, h < B → step i h (c i) < B)
    (hinj : ∀ i h h', h < B → h' < B → step i h (c i) = step i h' (c i) → h = h') :
    ∀ (n i h h' : Nat), h < B → h' < B → h ≠ h' → foldAt step c n i h ≠ foldAt step c n i h' := by
  intro n
  induction n with
  | zero => intro i h h' _ _ hne; exact hne
  | succ n ih =>
    intro i h h' h1 h2 hne
    exact ih _ _ _ (hlt i h h1) (hlt i h' h2) fun e => hne (hinj i h h' h1 h2 e)

/-- If the units differ in exactly one place the results differ. -/
theorem foldAt_one {step : Nat → Nat → Nat → Nat} {c c' : Nat → Nat} {B j N : Nat}
    (hlt : ∀ i h, h < B → step i h (c i) < B) (hlt' : ∀ i h, h < B → step i h (c' i) < B)
    (hinj : ∀ i h h', h < B → h' < B → step i h (c' i) = step i h' (c' i) → h = h')
    (hc : ∀ i, i < N → i ≠ j → c i = c' i) (hj : ∀ h, h < B → step j h (c j) ≠ step j h (c' j)) :
    ∀ (n i h : Nat), i + n ≤ N → i ≤ j → j < i + n → h < B → foldAt step c n i h ≠ foldAt step c' n i h := by
  intro n
  induction n with
  | zero => intro i h _ h1 h2; omega
  | succ n ih =>
    intro i h hN h1 h2 hh
    unfold foldAt
    by_cases e : i = j
    · subst e
      rw [foldAt_congr (c := c) (c' := c') n (i + 1) _ fun k hk hk2 => hc k (by omega) (by omega)]
      exact foldAt_ne hlt' hinj _ _ _ _ (hlt _ _ hh) (hlt' _ _ hh) (hj h hh)
    · rw [hc i (by omega) e]
      exact ih _ _ (by omega) (by omega) (by omega) (hlt' _ _ hh)

theorem le_inj : ∀ (a b : List Byte), a.length = b.length → le a = le b → a = b := by
  intro a
  induction a with
  | nil => intro b h _; exact (List.length_eq_zero_iff.1 h.symm).symm
  | cons x xs ih =>
    intro b h he
    cases b with
    | nil => simp at h
    | cons y ys =>
      simp only [le] at he
      have h1 := x.isLt
      have h2 := y.isLt
      have hx : x = y := Fin.ext (by omega)
      subst hx
      rw [ih ys (by simpa using h) (by omega)]

theorem elem_lt (w : Nat) (m : List Byte) (i : Nat) : elem w m i < 256 ^ w := by
  unfold elem
  refine Nat.lt_of_lt_of_le (le_lt _) (Nat.pow_le_pow_right (by decide) ?_)
  simp only [List.length_take]; omega

/-- Two strings that differ in one byte: the words of `k` bytes without that byte agree. -/
theorem elem_same {k : Nat} (hk : 0 < k) (p q : List Byte) (x y : Byte) {i : Nat} (hi : i ≠ p.length / k) :
    elem k (p ++ x :: q) i = elem k (p ++ y :: q) i := by
  unfold elem
  congr 1
  apply List.ext_getElem?
  intro n
  simp only [List.getElem?_take, List.getElem?_drop]
  split
  · rename_i hn
    have hne : i * k + n ≠ p.length := by
      intro e
      apply hi
      rw [← e, Nat.mul_comm, Nat.mul_add_div hk, Nat.div_eq_of_lt hn, Nat.add_zero]
    rcases Nat.lt_or_gt_of_ne hne with h | h
    · rw [List.getElem?_append_left h, List.getElem?_append_left h]
    · rw [List.getElem?_append_right (by omega), List.getElem?_append_right (by omega)]
      obtain ⟨d, hd⟩ : ∃ d, i * k + n - p.length = d + 1 := ⟨i * k + n - p.length - 1, by omega⟩
      rw [hd, List.getElem?_cons_succ, List.getElem?_cons_succ]
  · rfl

/-- Two strings that differ in one byte: the word with that byte differs. -/
theorem elem_diff {k : Nat} (hk : 0 < k) (p q : List Byte) {x y : Byte} (hxy : x ≠ y) :
    elem k (p ++ x :: q) (p.length / k) ≠ elem k (p ++ y :: q) (p.length / k) := by
  intro h
  unfold elem at h
  have := le_inj _ _ (by simp) h
  have h2 := congrArg (fun l => l[p.length % k]?) this
  have hm : p.length / k * k + p.length % k = p.length := Nat.div_add_mod' _ _
  simp only [List.getElem?_take, List.getElem?_drop, if_pos (Nat.mod_lt _ hk), hm, List.getElem?_append_right (Nat.le_refl _),
    Nat.sub_self, List.getElem?_cons_zero, Option.some.injEq] at h2
  exact hxy h2

theorem elem_pad (w : Nat) (s pad : List Byte) {i : Nat} (h : (i + 1) * w ≤ s.length) : elem w (s ++ pad) i = elem w s i := by
  rw [Nat.succ_mul] at h
  unfold elem
  rw [List.drop_append_of_le_length (by omega), List.take_append_of_le_length (by simp; omega)]

theorem load_elem {w : Nat} {m : List Byte} {i o : Nat} (ho : o = i * w) (h : (i + 1) * w ≤ m.length) : load m o w = .ok (elem w m i) := by
  subst ho
  rw [load_ok (by rw [Nat.succ_mul] at h; omega)]
  rfl

theorem mul_mod_inj {P B a b : Nat} (hP : Nat.Coprime B P) (ha : a < B) (hb : b < B) (h : a * P % B = b * P % B) : a = b := by
  have h2 : Nat.ModEq B a b := Nat.ModEq.cancel_right_of_coprime hP h
  unfold Nat.ModEq at h2
  rwa [Nat.mod_eq_of_lt ha, Nat.mod_eq_of_lt hb] at h2

theorem add_mod_inj {B a b c : Nat} (ha : a < B) (hb : b < B) (h : (a + c) % B = (b + c) % B) : a = b := by
  have h2 : Nat.ModEq B a b := Nat.ModEq.add_right_cancel' c h
  unfold Nat.ModEq at h2
  rwa [Nat.mod_eq_of_lt ha, Nat.mod_eq_of_lt hb] at h2

theorem xor_right_inj {a b c : Nat} (h : a ^^^ c = b ^^^ c) : a = b := by
  have := congrArg (· ^^^ c) h
  simpa [Nat.xor_assoc] using this

theorem xor_left_inj {a b c : Nat} (h : c ^^^ a = c ^^^ b) : a = b := by
  rw [Nat.xor_comm c a, Nat.xor_comm c b] at h
  exact xor_right_inj h

/-- `x ^ (x >> s)` loses nothing when `s` is at least half the width. -/
theorem xorshift_inj {s B : Nat} (hs : B ≤ 2 * s) {x y : Nat} (hx : x < 2 ^ B) (hy : y < 2 ^ B)
    (h : x ^^^ (x >>> s) = y ^^^ (y >>> s)) : x = y := by
  have key : ∀ z, z < 2 ^ B → (z ^^^ (z >>> s)) ^^^ ((z ^^^ (z >>> s)) >>> s) = z := by
    intro z hz
    have h0 : z >>> (s + s) = 0 := by
      rw [Nat.shiftRight_eq_div_pow]
      exact Nat.div_eq_of_lt (Nat.lt_of_lt_of_le hz (Nat.pow_le_pow_right (by decide) (by omega)))
    rw [Nat.shiftRight_xor_distrib, ← Nat.shiftRight_add, h0, Nat.xor_zero, Nat.xor_assoc, Nat.xor_self, Nat.xor_zero]
  rw [← key x hx, ← key y hy, h]

theorem shiftRight_lt {x n B : Nat} (h : x < B) : x >>> n < B := Nat.lt_of_le_of_lt (Nat.shiftRight_le _ _) h

/-! ### DJBHash -/

theorem djbLoop_eq (w : Nat) (m : List Byte) : ∀ (n i h : Nat), (n = 0 ∨ (i + n) * w ≤ m.length) →
    djbLoop w m n (i * w) h = .ok (foldAt (fun _ h c => (h + ((h <<< 5) % 2 ^ 32 + c)) % 2 ^ 32) (elem w m) n i h) := by
  intro n
  induction n with
  | zero => intro i h _; rfl
  | succ n ih =>
    intro i h hb
    have hb : (i + (n + 1)) * w ≤ m.length := hb.resolve_left (by omega)
    have h1 : (i + 1) * w ≤ m.length := Nat.le_trans (Nat.mul_le_mul_right _ (by omega)) hb
    unfold djbLoop foldAt
    rw [load_elem rfl h1, Res.bind_ok, show i * w + w = (i + 1) * w by rw [Nat.succ_mul]]
    exact ih _ _ (Or.inr (by rw [show i + 1 + n = i + (n + 1) by omega]; exact hb))

theorem djb_step (h c : Nat) : (h + ((h <<< 5) % 2 ^ 32 + c)) % 2 ^ 32 = (h * 33 + c) % 2 ^ 32 := by
  rw [Nat.shiftLeft_eq]; omega

theorem foldAt_poly (c : Nat → Nat) (P B : Nat) : ∀ (n i h : Nat),
    foldAt (fun _ h c => (h * P + c) % B) c n i h % B = ((List.range' i n).map c).foldl (fun h a => h * P + a) h % B := by
  have aux : ∀ (l : List Nat) (h : Nat), l.foldl (fun h a => h * P + a) (h % B) % B = l.foldl (fun h a => h * P + a) h % B := by
    intro l
    induction l with
    | nil => intro h; simp
    | cons a l ih =>
      intro h
      simp only [List.foldl_cons]
      rw [← ih (h % B * P + a), ← ih (h * P + a)]
      congr 2
      rw [Nat.add_mod, Nat.mul_mod, Nat.mod_mod, ← Nat.mul_mod, ← Nat.add_mod]
  intro n
  induction n with
  | zero => intro i h; rfl
  | succ n ih =>
    intro i h
    unfold foldAt
    rw [ih, List.range'_succ, List.map_cons, List.foldl_cons, aux]

/-- C135.  `DJBHash` of a string of characters of any width reads exactly the string and returns Bernstein's polynomial hash. -/
theorem djb_eq (w : Nat) (s pad : List Byte) (len : Nat) (hs : s.length = len * w) :
    djb w (s ++ pad) len = .ok (((List.range len).map (elem w s)).foldl (fun h c => h * 33 + c) 5381 % 2 ^ 32) := by
  have h := djbLoop_eq w (s ++ pad) len 0 5381 (Or.inr (by simp [hs]))
  rw [Nat.zero_mul] at h
  unfold djb
  rw [h]
  congr 1
  have e1 : (fun (_ : Nat) (h c : Nat) => (h + ((h <<< 5) % 2 ^ 32 + c)) % 2 ^ 32) = fun _ h c => (h * 33 + c) % 2 ^ 32 := by
    funext _ h c; exact djb_step h c
  rw [e1]
  have h2 := foldAt_poly (elem w (s ++ pad)) 33 (2 ^ 32) len 0 5381
  have h3 : foldAt (fun _ h c => (h * 33 + c) % 2 ^ 32) (elem w (s ++ pad)) len 0 5381 < 2 ^ 32 :=
    foldAt_lt len 0 5381 (fun _ _ _ _ _ => Nat.mod_lt _ (by decide)) (by decide)
  rw [Nat.mod_eq_of_lt h3] at h2
  rw [h2, ← List.range_eq_range']
  congr 2
  apply List.map_congr_left
  intro i hi
  exact elem_pad w s pad (by rw [hs]; exact Nat.mul_le_mul_right _ (List.mem_range.1 hi))

example : djb 1 ([97, 98] ++ [7]) 2 = .ok 5863208 := by decide

/-! ### APHash -/

theorem apQuads_eq (w : Nat) (m : List Byte) : ∀ (n i h : Nat), (i + n * 4) * w ≤ m.length → i % 2 = 0 →
    apQuads w m n (i * w) h = .ok (foldAt (fun i h c => if i % 2 = 0 then apEven h c else apOdd h c) (elem w m) (n * 4) i h) := by
  intro n
  induction n with
  | zero => intro i h _ _; rfl
  | succ n ih =>
    intro i h hb hi
    have hl : ∀ k, k < 4 → (i + k + 1) * w ≤ m.length := fun k hk => Nat.le_trans (Nat.mul_le_mul_right _ (by omega)) hb
    have ho : ∀ k, i * w + k * w = (i + k) * w := fun k => (Nat.add_mul _ _ _).symm
    rw [show (n + 1) * 4 = n * 4 + 1 + 1 + 1 + 1 by omega]
    unfold apQuads
    rw [load_elem (i := i) rfl (hl 0 (by omega)), Res.bind_ok, load_elem (i := i + 1) (by rw [← ho 1]; omega) (hl 1 (by omega)), Res.bind_ok,
      load_elem (i := i + 2) (ho 2) (hl 2 (by omega)), Res.bind_ok, load_elem (i := i + 3) (ho 3) (hl 3 (by omega)), Res.bind_ok, ho 4,
      ih (i + 4) _ (by rw [show i + 4 + n * 4 = i + (n + 1) * 4 by omega]; exact hb) (by omega)]
    simp only [foldAt, if_pos hi, show ¬ (i + 1) % 2 = 0 by omega, if_false, show (i + 1 + 1) % 2 = 0 by omega, if_true,
      show ¬ (i + 1 + 1 + 1) % 2 = 0 by omega, show i + 1 + 1 + 1 + 1 = i + 4 by omega, show i + 1 + 1 + 1 = i + 3 by omega,
      show i + 1 + 1 = i + 2 by omega]

theorem apRest_eq (w : Nat) (m : List Byte) {b : Nat} (hb2 : b % 2 = 0) : ∀ (n i h : Nat), (b + i + n) * w ≤ m.length ∨ n = 0 →
    apRest w m n i ((b + i) * w) h =
      .ok (foldAt (fun i h c => if i % 2 = 0 then apEven h c else apOdd h c) (elem w m) n (b + i) h) := by
  intro n
  induction n with
  | zero => intro i h _; rfl
  | succ n ih =>
    intro i h hb
    have hb : (b + i + (n + 1)) * w ≤ m.length := hb.resolve_right (by omega)
    have h1 : (b + i + 1) * w ≤ m.length := Nat.le_trans (Nat.mul_le_mul_right _ (by omega)) hb
    have hp : (i &&& 1 = 0) ↔ (b + i) % 2 = 0 := by rw [Nat.and_one_is_mod]; omega
    unfold apRest foldAt
    rw [load_elem rfl h1, Res.bind_ok, show (b + i) * w + w = (b + (i + 1)) * w by rw [← Nat.add_assoc, Nat.succ_mul]]
    simp only [hp]
    exact ih _ _ (Or.inl (by rw [show b + (i + 1) + n = b + i + (n + 1) by omega]; exact hb))

theorem foldAt_add {step : Nat → Nat → Nat → Nat} {c : Nat → Nat} : ∀ (n k i h : Nat),
    foldAt step c (n + k) i h = foldAt step c k (i + n) (foldAt step c n i h) := by
  intro n
  induction n with
  | zero => intro k i h; simp [foldAt]
  | succ n ih =>
    intro k i h
    rw [show n + 1 + k = (n + k) + 1 by omega]
    rw [show foldAt step c (n + 1) i h = foldAt step c n (i + 1) (step i h (c i)) from rfl,
      show foldAt step c (n + k + 1) i h = foldAt step c (n + k) (i + 1) (step i h (c i)) from rfl, ih,
      show i + 1 + n = i + (n + 1) by omega]

theorem apHash_fold (w : Nat) (m : List Byte) (len : Nat) (hm : len * w ≤ m.length) :
    apHash w m len = .ok (foldAt (fun i h c => if i % 2 = 0 then apEven h c else apOdd h c) (elem w m) len 0 0) := by
  have h4 : len / 4 * 4 + len % 4 = len := Nat.div_add_mod' _ _
  have h1 := apQuads_eq w m (len / 4) 0 0 (Nat.le_trans (Nat.mul_le_mul_right _ (by omega)) hm) rfl
  rw [Nat.zero_mul] at h1
  unfold apHash
  rw [h1, Res.bind_ok, show len / 4 * (4 * w) = (len / 4 * 4 + 0) * w by rw [Nat.add_zero, Nat.mul_assoc],
    apRest_eq w m (b := len / 4 * 4) (by omega) (len % 4) 0 _ (Or.inl (by rw [Nat.add_zero, h4]; exact hm))]
  congr 1
  conv_rhs => rw [← h4]
  rw [foldAt_add, Nat.zero_add, Nat.add_zero]

/-- The two kinds of statements alternate over the whole string: the specification of `APHash`. -/
def apSpec : Bool → Nat → List Nat → Nat
  | _, h, [] => h
  | odd, h, c :: l => apSpec (!odd) (if odd then apOdd h c else apEven h c) l

theorem apSpec_fold (c : Nat → Nat) : ∀ (n i h : Nat),
    foldAt (fun i h c => if i % 2 = 0 then apEven h c else apOdd h c) c n i h =
      apSpec (decide (i % 2 = 1)) h ((List.range' i n).map c) := by
  intro n
  induction n with
  | zero => intro i h; rfl
  | succ n ih =>
    intro i h
    unfold foldAt
    rw [ih, List.range'_succ, List.map_cons, apSpec]
    by_cases hi : i % 2 = 0
    · rw [if_pos hi, decide_eq_true (show (i + 1) % 2 = 1 by omega), decide_eq_false (show ¬ i % 2 = 1 by omega)]; rfl
    · rw [if_neg hi, decide_eq_false (show ¬ (i + 1) % 2 = 1 by omega), decide_eq_true (show i % 2 = 1 by omega)]; rfl

/-- C135.  `APHash` of a string of characters of any width reads exactly the string; the unrolled loop and the rest together are the
simple alternating loop. -/
theorem apHash_eq (w : Nat) (s pad : List Byte) (len : Nat) (hs : s.length = len * w) :
    apHash w (s ++ pad) len = .ok (apSpec false 0 ((List.range len).map (elem w s))) := by
  rw [apHash_fold w _ len (by simp [hs]), apSpec_fold, ← List.range_eq_range']
  congr 1
  refine congrArg (apSpec false 0) ?_
  apply List.map_congr_left
  intro i hi
  exact elem_pad w s pad (by rw [hs]; exact Nat.mul_le_mul_right _ (List.mem_range.1 hi))

example : apHash 1 ([97, 98, 99, 100, 101] ++ [7]) 5 = .ok (apSpec false 0 [97, 98, 99, 100, 101]) := by decide

/-! The two statements of `APHash` are injective in the hash: they are invertible linear maps over the field with two elements. -/

/-- Exclusive or of the entries of `l` at the set bits of `y`. -/
def comb : List Nat → Nat → Nat
  | [], _ => 0
  | g :: l, y => (if y.testBit 0 then g else 0) ^^^ comb l (y >>> 1)

theorem comb_xor : ∀ (l : List Nat) (x y : Nat), comb l (x ^^^ y) = comb l x ^^^ comb l y := by
  intro l
  induction l with
  | nil => intro x y; simp only [comb, Nat.xor_self]
  | cons g l ih =>
    intro x y
    simp only [comb]
    rw [Nat.shiftRight_xor_distrib, ih, Nat.testBit_xor]
    cases x.testBit 0 <;> cases y.testBit 0 <;> simp only [Bool.xor_false, Bool.xor_true, Bool.not_false, Bool.not_true, if_true,
      Bool.false_eq_true, if_false, Nat.zero_xor]
    · rw [← Nat.xor_assoc, ← Nat.xor_assoc, Nat.xor_comm (comb l _) g]
    · rw [Nat.xor_assoc]
    · rw [show g ^^^ comb l (x >>> 1) ^^^ (g ^^^ comb l (y >>> 1)) = (g ^^^ g) ^^^ (comb l (x >>> 1) ^^^ comb l (y >>> 1)) by
        ac_rfl, Nat.xor_self, Nat.zero_xor]

/-- A linear map that fixes the powers of two is the identity. -/
theorem linear_id {F : Nat → Nat} (hF : ∀ x y, F (x ^^^ y) = F x ^^^ F y) : ∀ (n : Nat), (∀ i, i < n → F (2 ^ i) = 2 ^ i) →
    ∀ h, h < 2 ^ n → F h = h := by
  have h0 : F 0 = 0 := by
    have := hF 0 0
    rw [Nat.xor_self, Nat.xor_self] at this
    exact this
  intro n
  induction n with
  | zero => intro _ h hh; rw [show h = 0 by omega]; exact h0
  | succ n ih =>
    intro hi h hh
    by_cases hb : h < 2 ^ n
    · exact ih (fun i hi' => hi i (by omega)) h hb
    · have e : h = (h - 2 ^ n) ^^^ 2 ^ n := by
        have h1 : h - 2 ^ n < 2 ^ n := by rw [Nat.pow_succ] at hh; omega
        have h2 := Nat.two_pow_add_eq_or_of_lt h1 1
        rw [Nat.mul_one] at h2
        apply Nat.eq_of_testBit_eq
        intro j
        rw [show h = 2 ^ n + (h - 2 ^ n) by omega, h2, Nat.testBit_or, Nat.testBit_xor, ← h2, Nat.add_sub_cancel_left, Nat.testBit_two_pow]
        by_cases hj : n = j
        · subst hj; rw [Nat.testBit_lt_two_pow h1]; simp
        · simp [hj]
      have h1 : h - 2 ^ n < 2 ^ n := by rw [Nat.pow_succ] at hh; omega
      conv_lhs => rw [e]
      rw [hF, ih (fun i hi' => hi i (by omega)) _ h1, hi n (by omega), ← e]

/-- The columns of the inverse of `h ^ (h << 7) ^ (h >> 3)` on 32 bits. -/
def invEven : List Nat := [
  3484201544, 3041386059, 1083246157, 1317977810, 2635955620, 3750294491, 2500812141, 3484201545, 3041386057, 1083246153, 2166492306,
  677028863, 2669278646, 3682722815, 1387384685, 1791962258, 3583924516, 1317976795, 2635953590, 3750290431, 1520684909, 2062232722,
  4124465444, 236894939, 473789878, 4158019876, 169786075, 339572150, 3889584420, 706656987, 1413313974, 1742100772]

/-- The columns of the inverse of `h ^ (h << 11) ^ (h >> 5)` on 32 bits. -/
def invOdd : List Nat := [
  4252979861, 4248787668, 4257172054, 4240403282, 4273940826, 4206865738, 264370175, 3808214379, 1061672893, 2213608943, 4250883765,
  4252979860, 4248787670, 4257172050, 4240403290, 4273940810, 130088959, 4076776811, 524548029, 3287858671, 2102384309, 132186111,
  4072582507, 532936637, 3271081455, 2135938741, 65077247, 4206800235, 264501181, 3807952367, 1062196917, 2212560895]

/-- The linear part of a statement of `APHash`. -/
def apLin (a b h : Nat) : Nat := h ^^^ (h <<< a) % 2 ^ 32 ^^^ (h >>> b)

theorem apLin_xor (a b x y : Nat) : apLin a b (x ^^^ y) = apLin a b x ^^^ apLin a b y := by
  unfold apLin
  rw [Nat.shiftRight_xor_distrib, Nat.shiftLeft_xor_distrib, Nat.xor_mod_two_pow]
  ac_rfl

theorem apLin_inj {a b : Nat} {l : List Nat} (hl : ∀ i, i < 32 → comb l (apLin a b (2 ^ i)) = 2 ^ i) {x y : Nat} (hx : x < 2 ^ 32)
    (hy : y < 2 ^ 32) (h : apLin a b x = apLin a b y) : x = y := by
  have hid := linear_id (F := fun z => comb l (apLin a b z)) (fun x y => by simp only [apLin_xor, comb_xor]) 32 hl
  rw [← hid x hx, ← hid y hy]
  simp only [h]

theorem apEven_eq (h c : Nat) : apEven h c = apLin 7 3 h ^^^ c := by
  unfold apEven apLin; ac_rfl

theorem apOdd_eq (h c : Nat) : apOdd h c = apLin 11 5 h ^^^ c ^^^ (2 ^ 32 - 1) := by
  unfold apOdd apLin; ac_rfl

set_option maxRecDepth 100000 in
theorem apEven_inv : ∀ i, i < 32 → comb invEven (apLin 7 3 (2 ^ i)) = 2 ^ i := by decide +kernel

set_option maxRecDepth 100000 in
theorem apOdd_inv : ∀ i, i < 32 → comb invOdd (apLin 11 5 (2 ^ i)) = 2 ^ i := by decide +kernel

theorem apLin_lt {a b h : Nat} (hh : h < 2 ^ 32) : apLin a b h < 2 ^ 32 :=
  Nat.xor_lt_two_pow (Nat.xor_lt_two_pow hh (Nat.mod_lt _ (by decide))) (shiftRight_lt hh)

theorem pow256_le {w : Nat} (hw : w ≤ 4) : 256 ^ w ≤ 2 ^ 32 := by
  rw [show (2 : Nat) ^ 32 = 256 ^ 4 by decide]
  exact Nat.pow_le_pow_right (by decide) hw

/-- C135.  Two strings of characters of up to four bytes that differ in exactly one character have different `DJBHash`es. -/
theorem djb_one {w len j : Nat} (hw : w ≤ 4) {m m' : List Byte} (hm : m.length = len * w) (hm' : m'.length = len * w) (hj : j < len)
    (hsame : ∀ i, i < len → i ≠ j → elem w m i = elem w m' i) (hdiff : elem w m j ≠ elem w m' j) : djb w m len ≠ djb w m' len := by
  have h1 := djbLoop_eq w m len 0 5381 (Or.inr (by simp [hm]))
  have h2 := djbLoop_eq w m' len 0 5381 (Or.inr (by simp [hm']))
  rw [Nat.zero_mul] at h1 h2
  unfold djb
  rw [h1, h2]
  intro h
  refine foldAt_one (B := 2 ^ 32) (j := j) (N := len) ?_ ?_ ?_ hsame ?_ len 0 5381 (by omega) (by omega) (by omega) (by decide)
    (Res.ok.inj h)
  · intro i h _; exact Nat.mod_lt _ (by decide)
  · intro i h _; exact Nat.mod_lt _ (by decide)
  · intro i h h' hh hh' he
    rw [djb_step, djb_step] at he
    exact mul_mod_inj (P := 33) (by decide) hh hh' (Nat.ModEq.add_right_cancel' _ he)
  · intro h _ he
    have a1 := Nat.lt_of_lt_of_le (elem_lt w m j) (pow256_le hw)
    have a2 := Nat.lt_of_lt_of_le (elem_lt w m' j) (pow256_le hw)
    rw [djb_step, djb_step, Nat.add_comm _ (elem w m j), Nat.add_comm _ (elem w m' j)] at he
    exact hdiff (add_mod_inj a1 a2 he)

example : djb 4 [97, 0, 0, 0, 98, 0, 0, 0] 2 ≠ djb 4 [97, 0, 0, 0, 98, 0, 0, 1] 2 := by decide

/-- C135.  Two strings of characters of up to four bytes that differ in exactly one character have different `APHash`es. -/
theorem apHash_one {w len j : Nat} (hw : w ≤ 4) {m m' : List Byte} (hm : m.length = len * w) (hm' : m'.length = len * w) (hj : j < len)
    (hsame : ∀ i, i < len → i ≠ j → elem w m i = elem w m' i) (hdiff : elem w m j ≠ elem w m' j) :
    apHash w m len ≠ apHash w m' len := by
  rw [apHash_fold w m len (by omega), apHash_fold w m' len (by omega)]
  have hlt : ∀ (c : Nat → Nat), (∀ i, c i < 2 ^ 32) → ∀ i h, h < 2 ^ 32 → (if i % 2 = 0 then apEven h (c i) else apOdd h (c i)) < 2 ^ 32 := by
    intro c hc i h hh
    split
    · rw [apEven_eq]; exact Nat.xor_lt_two_pow (apLin_lt hh) (hc i)
    · rw [apOdd_eq]; exact Nat.xor_lt_two_pow (Nat.xor_lt_two_pow (apLin_lt hh) (hc i)) (by decide)
  intro h
  refine foldAt_one (B := 2 ^ 32) (j := j) (N := len) ?_ ?_ ?_ hsame ?_ len 0 0 (by omega) (by omega) (by omega) (by decide)
    (Res.ok.inj h)
  · exact hlt _ fun i => Nat.lt_of_lt_of_le (elem_lt w m i) (pow256_le hw)
  · exact hlt _ fun i => Nat.lt_of_lt_of_le (elem_lt w m' i) (pow256_le hw)
  · intro i h h' hh hh' he
    split at he
    · rw [apEven_eq, apEven_eq] at he
      exact apLin_inj apEven_inv hh hh' (xor_right_inj he)
    · rw [apOdd_eq, apOdd_eq] at he
      exact apLin_inj apOdd_inv hh hh' (xor_right_inj (xor_right_inj he))
  · intro h _ he
    split at he
    · rw [apEven_eq, apEven_eq] at he
      exact hdiff (xor_left_inj he)
    · rw [apOdd_eq, apOdd_eq] at he
      exact hdiff (xor_left_inj (xor_right_inj he))

example : apHash 1 [97, 98, 99, 100, 101] 5 ≠ apHash 1 [97, 98, 99, 100, 229] 5 := by decide

/-! ### OpenSSL_Hash -/

/-- One step of `OpenSSL_Hash`. -/
def opensslStep (i h u : Nat) : Nat := h ^^^ (u <<< (i &&& 15)) % 2 ^ 32

theorem opensslPairs_eq (m : List Byte) : ∀ (n i h : Nat), (i + n) * 2 ≤ m.length →
    opensslPairs 1 m n i (i * 2) h = .ok (i + n, foldAt opensslStep (elem 2 m) n i h) := by
  intro n
  induction n with
  | zero => intro i h _; rfl
  | succ n ih =>
    intro i h hb
    unfold opensslPairs
    rw [load_elem rfl (by omega), Res.bind_ok, show i * 2 + 2 * 1 = (i + 1) * 2 by omega, ih (i + 1) _ (by omega),
      show i + 1 + n = i + (n + 1) by omega]
    rfl

/-- `OpenSSL_Hash` of a byte string: the pairs of bytes, then the last byte. -/
theorem opensslHash_fold (m : List Byte) {len : Nat} (hl : len ≤ m.length) :
    opensslHash 1 m len = .ok (if len % 2 ≠ 0
      then opensslStep (len / 2) (foldAt opensslStep (elem 2 m) (len / 2) 0 0) (elem 1 m (len - 1))
      else foldAt opensslStep (elem 2 m) (len / 2) 0 0) := by
  have h := opensslPairs_eq m (len / 2) 0 0 (by omega)
  rw [Nat.zero_mul, Nat.zero_add] at h
  unfold opensslHash
  rw [h, Res.bind_ok]
  simp only
  split
  · rw [load_elem (i := len - 1) (by omega) (by omega), Res.bind_ok]; rfl
  · rfl

theorem openssl_shift {i u : Nat} (hu : u < 2 ^ 16) : (u <<< (i &&& 15)) % 2 ^ 32 = u * 2 ^ (i % 16) := by
  rw [show (15 : Nat) = 2 ^ 4 - 1 by decide, Nat.and_two_pow_sub_one_eq_mod, Nat.shiftLeft_eq, show (2 : Nat) ^ 4 = 16 by decide]
  apply Nat.mod_eq_of_lt
  have h1 : 2 ^ (i % 16) ≤ 2 ^ 15 := Nat.pow_le_pow_right (by decide) (by omega)
  calc u * 2 ^ (i % 16) ≤ u * 2 ^ 15 := Nat.mul_le_mul_left _ h1
    _ < 2 ^ 16 * 2 ^ 15 := Nat.mul_lt_mul_of_pos_right hu (by decide)
    _ ≤ 2 ^ 32 := by decide

theorem openssl_shift_inj {i u u' : Nat} (hu : u < 2 ^ 16) (hu' : u' < 2 ^ 16)
    (h : (u <<< (i &&& 15)) % 2 ^ 32 = (u' <<< (i &&& 15)) % 2 ^ 32) : u = u' := by
  rw [openssl_shift hu, openssl_shift hu'] at h
  exact Nat.eq_of_mul_eq_mul_right (Nat.two_pow_pos _) h

/-- The hash reads only the string: the result exists and is the same whatever lies behind the string. -/
def ReadsOnly (H : List Byte → Nat → Res Nat) : Prop := ∀ s : List Byte, ∃ r, ∀ pad, H (s ++ pad) s.length = .ok r

/-- Every byte matters: strings that differ in exactly one byte have different hashes. -/
def EveryByte (H : List Byte → Nat → Res Nat) : Prop :=
  ∀ (p q : List Byte) (x y : Byte), x ≠ y → H (p ++ x :: q) (p.length + 1 + q.length) ≠ H (p ++ y :: q) (p.length + 1 + q.length)

/-- C135.  `OpenSSL_Hash` of a byte string reads exactly the string, and every byte matters. -/
theorem opensslHash_bytes : ReadsOnly (opensslHash 1) ∧ EveryByte (opensslHash 1) := by
  constructor
  · intro s
    refine ⟨if s.length % 2 ≠ 0
      then opensslStep (s.length / 2) (foldAt opensslStep (elem 2 s) (s.length / 2) 0 0) (elem 1 s (s.length - 1))
      else foldAt opensslStep (elem 2 s) (s.length / 2) 0 0, fun pad => ?_⟩
    rw [opensslHash_fold _ (by simp)]
    rw [foldAt_congr (c := elem 2 (s ++ pad)) (c' := elem 2 s) (s.length / 2) 0 _ fun j _ hj => elem_pad 2 s pad (by omega)]
    by_cases h : s.length % 2 ≠ 0
    · rw [elem_pad 1 s pad (by omega)]
    · rw [if_neg h, if_neg h]
  · intro p q x y hxy
    rw [opensslHash_fold _ (by simp; omega), opensslHash_fold _ (by simp; omega)]
    intro he
    have he := Res.ok.inj he
    have hlt : ∀ (c : Nat → Nat) i h, h < 2 ^ 32 → opensslStep i h (c i) < 2 ^ 32 := fun c i h hh =>
      Nat.xor_lt_two_pow hh (Nat.mod_lt _ (by decide))
    have hl2 : ∀ (l : List Byte) i, elem 2 l i < 2 ^ 16 := fun l i => elem_lt 2 l i
    generalize hL : p.length + 1 + q.length = L at *
    by_cases hp : p.length / 2 < L / 2
    · have hne : foldAt opensslStep (elem 2 (p ++ x :: q)) (L / 2) 0 0 ≠ foldAt opensslStep (elem 2 (p ++ y :: q)) (L / 2) 0 0 :=
        foldAt_one (B := 2 ^ 32) (j := p.length / 2) (N := L / 2) (hlt _) (hlt _) (fun i h h' _ _ e => xor_right_inj e)
          (fun i _ hi => elem_same (by decide) p q x y hi)
          (fun h _ e => elem_diff (k := 2) (by decide) p q hxy (openssl_shift_inj (hl2 _ _) (hl2 _ _) (xor_left_inj e)))
          (L / 2) 0 0 (by omega) (by omega) (by omega) (by decide)
      split at he
      · have h1 : elem 1 (p ++ x :: q) (L - 1) = elem 1 (p ++ y :: q) (L - 1) :=
          elem_same (by decide) p q x y (by rw [Nat.div_one]; omega)
        rw [h1] at he
        exact hne (xor_right_inj he)
      · exact hne he
    · have ho : L % 2 ≠ 0 := by omega
      rw [if_pos ho, if_pos ho] at he
      rw [foldAt_congr (c := elem 2 (p ++ x :: q)) (c' := elem 2 (p ++ y :: q)) (L / 2) 0 0
        fun j _ hj => elem_same (by decide) p q x y (by omega)] at he
      have h1 := elem_diff (k := 1) (by decide) p q hxy
      rw [Nat.div_one, show p.length = L - 1 by omega] at h1
      have hl1 : ∀ (l : List Byte) i, elem 1 l i < 2 ^ 16 := fun l i => Nat.lt_trans (elem_lt 1 l i) (by decide)
      exact h1 (openssl_shift_inj (hl1 _ _) (hl1 _ _) (xor_left_inj he))

example : opensslHash 1 [97, 98, 99] 3 = .ok 25255 ∧ opensslHash 1 [97, 98, 99, 7] 3 = opensslHash 1 [97, 98, 99] 3 := by decide

/-- C135, the violation: for characters of more than one byte `OpenSSL_Hash` ignores every character at an odd position (unless it is the last
one of a string of odd length, which is at an even position): changing it never changes the hash. -/
theorem opensslHash_wide_blind {w j : Nat} (hw : 2 ≤ w) (p x y q : List Byte) (hp : p.length = (2 * j + 1) * w) (hx : x.length = w)
    (hy : y.length = w) {len : Nat} (hlen : len * w = (p ++ x ++ q).length) :
    opensslHash w (p ++ x ++ q) len = opensslHash w (p ++ y ++ q) len := by
  have hload : ∀ o n, (o + n ≤ p.length ∨ p.length + w ≤ o) → load (p ++ x ++ q) o n = load (p ++ y ++ q) o n := by
    intro o n h
    unfold load
    have hl : (p ++ x ++ q).length = (p ++ y ++ q).length := by simp [hx, hy]
    rw [hl]
    split
    · congr 2
      rcases h with h | h
      · rw [List.append_assoc, List.append_assoc, List.drop_append_of_le_length (by omega), List.drop_append_of_le_length (by omega),
          List.take_append_of_le_length (by simp; omega), List.take_append_of_le_length (by simp; omega)]
      · rw [List.drop_append, List.drop_append (l₁ := p ++ y), List.drop_of_length_le (by simp; omega),
          List.drop_of_length_le (l := p ++ y) (by simp; omega), List.length_append, List.length_append, hx, hy]
    · rfl
  have hpairs : ∀ n i h, opensslPairs w (p ++ x ++ q) n i (i * (2 * w)) h = opensslPairs w (p ++ y ++ q) n i (i * (2 * w)) h := by
    intro n
    induction n with
    | zero => intro i h; rfl
    | succ n ih =>
      intro i h
      unfold opensslPairs
      have ho : load (p ++ x ++ q) (i * (2 * w)) 2 = load (p ++ y ++ q) (i * (2 * w)) 2 := by
        apply hload
        rcases Nat.lt_or_ge j i with h1 | h1
        · right
          rw [hp, ← Nat.succ_mul, ← Nat.mul_assoc]
          exact Nat.mul_le_mul_right _ (by omega)
        · left
          rw [hp, ← Nat.mul_assoc, Nat.add_mul, Nat.one_mul]
          have := Nat.mul_le_mul_right w (show i * 2 ≤ 2 * j by omega)
          omega
      rw [ho]
      congr 1
      funext u
      rw [show i * (2 * w) + 2 * w = (i + 1) * (2 * w) from (Nat.succ_mul i (2 * w)).symm]
      exact ih _ _
  have h0 := hpairs (len / 2) 0 0
  rw [Nat.zero_mul] at h0
  unfold opensslHash
  rw [h0]
  congr 1
  funext r
  obtain ⟨i, h⟩ := r
  simp only
  split
  · rename_i ho
    have hlw : 2 * j + 2 ≤ len := by
      have h2 : (2 * j + 2) * w ≤ len * w := by rw [hlen, show 2 * j + 2 = 2 * j + 1 + 1 by omega, Nat.succ_mul]; simp; omega
      exact Nat.le_of_mul_le_mul_right h2 (by omega)
    rw [hload]
    right
    rw [hp, ← Nat.succ_mul, ← Nat.mul_assoc]
    exact Nat.mul_le_mul_right _ (by omega)
  · rfl

example : opensslHash 2 [97, 0, 98, 0] 2 = opensslHash 2 [97, 0, 99, 1] 2 := opensslHash_wide_blind (w := 2) (j := 0) (by decide) [97, 0] [98, 0]
  [99, 1] [] rfl rfl rfl rfl

/-! ### rocksdb::hashes::Hash -/

theorem rocksStep_lt (h u : Nat) : rocksStep h u < 2 ^ 32 := by
  unfold rocksStep
  simp only
  generalize (h + u) % 2 ^ 32 * 0xc6a4a793 = z
  exact Nat.xor_lt_two_pow (Nat.mod_lt _ (by decide)) (shiftRight_lt (Nat.mod_lt _ (by decide)))

theorem rocksStep_eq {a b : Nat} {s : Nat} (hs : 32 ≤ 2 * s)
    (h : (a % 2 ^ 32 * 0xc6a4a793 % 2 ^ 32) ^^^ ((a % 2 ^ 32 * 0xc6a4a793 % 2 ^ 32) >>> s) =
      (b % 2 ^ 32 * 0xc6a4a793 % 2 ^ 32) ^^^ ((b % 2 ^ 32 * 0xc6a4a793 % 2 ^ 32) >>> s)) : a % 2 ^ 32 = b % 2 ^ 32 :=
  mul_mod_inj (B := 2 ^ 32) (by decide) (Nat.mod_lt _ (by decide)) (Nat.mod_lt _ (by decide))
    (xorshift_inj hs (Nat.mod_lt _ (by decide)) (Nat.mod_lt _ (by decide)) h)

theorem rocksEnd_inj {a b : Nat} (h : rocksEnd a = rocksEnd b) : a % 2 ^ 32 = b % 2 ^ 32 := rocksStep_eq (by decide) h

theorem rocksLoop_eq (m : List Byte) : ∀ (n i h : Nat), (i + n) * 4 ≤ m.length →
    rocksLoop 1 m n (i * 4) h = .ok (foldAt (fun _ => rocksStep) (elem 4 m) n i h) := by
  intro n
  induction n with
  | zero => intro i h _; rfl
  | succ n ih =>
    intro i h hb
    unfold rocksLoop
    rw [load_elem rfl (by omega), Res.bind_ok, show i * 4 + 4 * 1 = (i + 1) * 4 by omega, ih (i + 1) _ (by omega), foldAt_succ]

/-- The sum that the `switch` adds, in terms of the characters: `n` characters from index `b` on. -/
def tailSum (c : Nat → Nat) (b : Nat) : Nat → Nat
  | 0 => 0
  | 1 => sext 1 (c b)
  | 2 => sext 1 (c (b + 1)) * 2 ^ 8 % 2 ^ 32 + sext 1 (c b)
  | _ => sext 1 (c (b + 2)) * 2 ^ 16 % 2 ^ 32 + sext 1 (c (b + 1)) * 2 ^ 8 % 2 ^ 32 + sext 1 (c b)

/-- `rocksdb::hashes::Hash` of a byte string: the words of four bytes, then the rest. -/
theorem rocksHash_fold (m : List Byte) {len : Nat} (seed : Nat) (hl : len ≤ m.length) :
    rocksHash 1 m len seed = .ok (
      let h := foldAt (fun _ => rocksStep) (elem 4 m) (len / 4) 0 ((seed ^^^ len * 0xc6a4a793) % 2 ^ 32)
      if len % 4 = 0 then h else rocksEnd (h + tailSum (elem 1 m) (len / 4 * 4) (len % 4))) := by
  have h := rocksLoop_eq m (len / 4) 0 ((seed ^^^ len * 0xc6a4a793) % 2 ^ 32) (by omega)
  rw [Nat.zero_mul] at h
  unfold rocksHash
  rw [h, Res.bind_ok, show len / 4 * (4 * 1) = len / 4 * 4 by omega]
  simp only
  have hr : len / 4 * 4 + len % 4 ≤ m.length := by omega
  have h4 : len % 4 < 4 := Nat.mod_lt _ (by decide)
  generalize len % 4 = r at *
  generalize len / 4 * 4 = o at *
  rcases (show r = 0 ∨ r = 1 ∨ r = 2 ∨ r = 3 by omega) with e | e | e | e <;> subst e
  · rfl
  · simp only [rocksTail, tailSum]
    rw [load_elem (i := o) (by omega) (by omega), Res.bind_ok, if_neg (by decide)]
  · simp only [rocksTail, tailSum]
    rw [load_elem (i := o + 1) (by omega) (by omega), Res.bind_ok, load_elem (i := o) (by omega) (by omega), Res.bind_ok,
      if_neg (by decide), Nat.add_assoc]
  · simp only [rocksTail, tailSum]
    rw [load_elem (i := o + 2) (by omega) (by omega), Res.bind_ok, load_elem (i := o + 1) (by omega) (by omega), Res.bind_ok,
      load_elem (i := o) (by omega) (by omega), Res.bind_ok, if_neg (by decide), Nat.add_assoc, Nat.add_assoc, Nat.add_assoc]

theorem tailSum_congr {c c' : Nat → Nat} {b r : Nat} (hr : r < 4) (h : ∀ i, b ≤ i → i < b + r → c i = c' i) :
    tailSum c b r = tailSum c' b r := by
  rcases (show r = 0 ∨ r = 1 ∨ r = 2 ∨ r = 3 by omega) with e | e | e | e <;> subst e
  · rfl
  · simp only [tailSum]; rw [h b (by omega) (by omega)]
  · simp only [tailSum]; rw [h b (by omega) (by omega), h (b + 1) (by omega) (by omega)]
  · simp only [tailSum]; rw [h b (by omega) (by omega), h (b + 1) (by omega) (by omega), h (b + 2) (by omega) (by omega)]

theorem sext_cases {c : Nat} : sext 1 c = c ∧ c < 128 ∨ sext 1 c = 2 ^ 32 - 256 + c ∧ 128 ≤ c := by
  unfold sext
  split
  · left; exact ⟨rfl, by omega⟩
  · right; exact ⟨rfl, by omega⟩

/-- One different character makes a different sum. -/
theorem tailSum_one {c c' : Nat → Nat} {b r j : Nat} (hr : r < 4) (hlt : ∀ i, c i < 256) (hlt' : ∀ i, c' i < 256)
    (h : ∀ i, i ≠ j → c i = c' i) (hj : b ≤ j) (hj2 : j < b + r) (hne : c j ≠ c' j) (a : Nat) :
    (a + tailSum c b r) % 2 ^ 32 ≠ (a + tailSum c' b r) % 2 ^ 32 := by
  have hd : ∀ s, s = 0 ∨ s = 8 ∨ s = 16 → ∀ z, (z + sext 1 (c j) * 2 ^ s) % 2 ^ 32 ≠ (z + sext 1 (c' j) * 2 ^ s) % 2 ^ 32 := by
    intro s hs z
    have h1 := hlt j
    have h2 := hlt' j
    rcases hs with e | e | e <;> subst e <;>
      rcases sext_cases (c := c j) with ⟨e1, _⟩ | ⟨e1, _⟩ <;> rcases sext_cases (c := c' j) with ⟨e2, _⟩ | ⟨e2, _⟩ <;>
      rw [e1, e2] <;> omega
  have d0 := hd 0 (Or.inl rfl)
  have d1 := hd 8 (Or.inr (Or.inl rfl))
  have d2 := hd 16 (Or.inr (Or.inr rfl))
  rcases (show r = 1 ∨ r = 2 ∨ r = 3 by omega) with e | e | e <;> subst e
  · obtain rfl : j = b := by omega
    simp only [tailSum]
    have := d0 a
    omega
  · simp only [tailSum]
    rcases (show j = b ∨ j = b + 1 by omega) with e | e <;> subst e
    · rw [h (j + 1) (by omega)]
      have := d0 (a + sext 1 (c' (j + 1)) * 2 ^ 8 % 2 ^ 32)
      omega
    · rw [h b (by omega)]
      have := d1 (a + sext 1 (c' b))
      omega
  · simp only [tailSum]
    rcases (show j = b ∨ j = b + 1 ∨ j = b + 2 by omega) with e | e | e <;> subst e
    · rw [h (j + 1) (by omega), h (j + 2) (by omega)]
      have := d0 (a + sext 1 (c' (j + 2)) * 2 ^ 16 % 2 ^ 32 + sext 1 (c' (j + 1)) * 2 ^ 8 % 2 ^ 32)
      omega
    · rw [h b (by omega), h (b + 2) (by omega)]
      have := d1 (a + sext 1 (c' (b + 2)) * 2 ^ 16 % 2 ^ 32 + sext 1 (c' b))
      omega
    · rw [h b (by omega), h (b + 1) (by omega)]
      have := d2 (a + sext 1 (c' (b + 1)) * 2 ^ 8 % 2 ^ 32 + sext 1 (c' b))
      omega

/-- C135.  `rocksdb::hashes::Hash` of a byte string reads exactly the string, and every byte matters, whatever the seed is. -/
theorem rocksHash_bytes (seed : Nat) : ReadsOnly (fun m len => rocksHash 1 m len seed) ∧ EveryByte (fun m len => rocksHash 1 m len seed) := by
  constructor
  · intro s
    refine ⟨let h := foldAt (fun _ => rocksStep) (elem 4 s) (s.length / 4) 0 ((seed ^^^ s.length * 0xc6a4a793) % 2 ^ 32)
      if s.length % 4 = 0 then h else rocksEnd (h + tailSum (elem 1 s) (s.length / 4 * 4) (s.length % 4)), fun pad => ?_⟩
    simp only
    rw [rocksHash_fold _ seed (by simp)]
    simp only
    rw [foldAt_congr (c := elem 4 (s ++ pad)) (c' := elem 4 s) (s.length / 4) 0 _ fun j _ hj => elem_pad 4 s pad (by omega),
      tailSum_congr (c := elem 1 (s ++ pad)) (c' := elem 1 s) (Nat.mod_lt _ (by decide)) fun i _ hi => elem_pad 1 s pad (by omega)]
  · intro p q x y hxy
    simp only
    rw [rocksHash_fold _ seed (by simp; omega), rocksHash_fold _ seed (by simp; omega)]
    intro he
    have he := Res.ok.inj he
    simp only at he
    have hl4 : ∀ (l : List Byte) i, elem 4 l i < 2 ^ 32 := fun l i => elem_lt 4 l i
    generalize hL : p.length + 1 + q.length = L at *
    have hB : (seed ^^^ L * 0xc6a4a793) % 2 ^ 32 < 2 ^ 32 := Nat.mod_lt _ (by decide)
    generalize (seed ^^^ L * 0xc6a4a793) % 2 ^ 32 = h0 at *
    have h4 : L % 4 < 4 := Nat.mod_lt _ (by decide)
    have hlt : ∀ (c : Nat → Nat), foldAt (fun _ => rocksStep) c (L / 4) 0 h0 < 2 ^ 32 := fun c =>
      foldAt_lt _ _ _ (fun _ _ _ _ _ => rocksStep_lt _ _) hB
    by_cases hp : p.length / 4 < L / 4
    · have hne : foldAt (fun _ => rocksStep) (elem 4 (p ++ x :: q)) (L / 4) 0 h0 ≠
          foldAt (fun _ => rocksStep) (elem 4 (p ++ y :: q)) (L / 4) 0 h0 :=
        foldAt_one (B := 2 ^ 32) (j := p.length / 4) (N := L / 4) (fun _ _ _ => rocksStep_lt _ _) (fun _ _ _ => rocksStep_lt _ _)
          (fun i h h' a1 a2 e => add_mod_inj a1 a2 (rocksStep_eq (by decide) e))
          (fun i _ hi => elem_same (by decide) p q x y hi)
          (fun h _ e => elem_diff (k := 4) (by decide) p q hxy (by
            have := rocksStep_eq (by decide) e
            rw [Nat.add_comm h, Nat.add_comm h] at this
            exact add_mod_inj (hl4 _ _) (hl4 _ _) this))
          (L / 4) 0 h0 (by omega) (by omega) (by omega) hB
      split at he
      · exact hne he
      · rw [tailSum_congr (c := elem 1 (p ++ x :: q)) (c' := elem 1 (p ++ y :: q)) h4
          fun i hi _ => elem_same (by decide) p q x y (by rw [Nat.div_one]; omega)] at he
        exact hne (add_mod_inj (hlt _) (hlt _) (rocksEnd_inj he))
    · have h0' : L % 4 ≠ 0 := by omega
      rw [if_neg h0', if_neg h0'] at he
      rw [foldAt_congr (c := elem 4 (p ++ x :: q)) (c' := elem 4 (p ++ y :: q)) (L / 4) 0 h0
        fun j _ hj => elem_same (by decide) p q x y (by omega)] at he
      have h1 := elem_diff (k := 1) (by decide) p q hxy
      rw [Nat.div_one] at h1
      exact tailSum_one h4 (fun i => elem_lt 1 _ i) (fun i => elem_lt 1 _ i)
        (fun i hi => elem_same (by decide) p q x y (by rw [Nat.div_one]; exact hi)) (by omega) (by omega) h1 _ (rocksEnd_inj he)

example : rocksHash 1 [97, 98, 99, 100, 200] 5 0 ≠ rocksHash 1 [97, 98, 99, 100, 72] 5 0 := by decide

/-- C135, the violation: for characters of more than one byte only the first four bytes of each group of four characters are read: a character
at a position 4 j + 2 or 4 j + 3 of a complete group never changes the hash, and for characters of four bytes neither does one at 4 j + 1. -/
theorem rocksHash_wide_blind {w j k : Nat} (hk : 4 ≤ k * w) (hk4 : k < 4) (p x y q : List Byte) (hp : p.length = (4 * j + k) * w)
    (hx : x.length = w) (hy : y.length = w) {len : Nat} (hj : 4 * j + 4 ≤ len) (seed : Nat) :
    rocksHash w (p ++ x ++ q) len seed = rocksHash w (p ++ y ++ q) len seed := by
  have hload : ∀ o n, (o + n ≤ p.length ∨ p.length + w ≤ o) → load (p ++ x ++ q) o n = load (p ++ y ++ q) o n := by
    intro o n h
    unfold load
    have hl : (p ++ x ++ q).length = (p ++ y ++ q).length := by simp [hx, hy]
    rw [hl]
    split
    · congr 2
      rcases h with h | h
      · rw [List.append_assoc, List.append_assoc, List.drop_append_of_le_length (by omega), List.drop_append_of_le_length (by omega),
          List.take_append_of_le_length (by simp; omega), List.take_append_of_le_length (by simp; omega)]
      · rw [List.drop_append, List.drop_append (l₁ := p ++ y), List.drop_of_length_le (by simp; omega),
          List.drop_of_length_le (l := p ++ y) (by simp; omega), List.length_append, List.length_append, hx, hy]
    · rfl
  have hge : ∀ i e, j < i → p.length + w ≤ i * (4 * w) + e := by
    intro i e hi
    rw [hp, ← Nat.succ_mul, ← Nat.mul_assoc]
    exact Nat.le_trans (Nat.mul_le_mul_right _ (by omega)) (Nat.le_add_right _ _)
  have hloop : ∀ n i h, rocksLoop w (p ++ x ++ q) n (i * (4 * w)) h = rocksLoop w (p ++ y ++ q) n (i * (4 * w)) h := by
    intro n
    induction n with
    | zero => intro i h; rfl
    | succ n ih =>
      intro i h
      unfold rocksLoop
      have ho : load (p ++ x ++ q) (i * (4 * w)) 4 = load (p ++ y ++ q) (i * (4 * w)) 4 := by
        apply hload
        rcases Nat.lt_or_ge j i with h1 | h1
        · right; exact hge i 0 h1
        · left
          rw [hp, ← Nat.mul_assoc, Nat.add_mul]
          have := Nat.mul_le_mul_right w (show i * 4 ≤ 4 * j by omega)
          omega
      rw [ho]
      congr 1
      funext u
      rw [show i * (4 * w) + 4 * w = (i + 1) * (4 * w) from (Nat.succ_mul i (4 * w)).symm]
      exact ih _ _
  have h0 := hloop (len / 4) 0 ((seed ^^^ len * 0xc6a4a793) % 2 ^ 32)
  rw [Nat.zero_mul] at h0
  unfold rocksHash
  rw [h0]
  congr 1
  funext h
  have e0 := hload (len / 4 * (4 * w)) w (Or.inr (hge _ 0 (by omega)))
  have e1 := hload (len / 4 * (4 * w) + w) w (Or.inr (hge _ _ (by omega)))
  have e2 := hload (len / 4 * (4 * w) + 2 * w) w (Or.inr (hge _ _ (by omega)))
  unfold rocksTail
  rw [e0, e1, e2]

example : rocksHash 4 [97, 0, 0, 0, 98, 0, 0, 0, 99, 0, 0, 0, 100, 0, 0, 0] 4 5 = rocksHash 4 [97, 0, 0, 0, 7, 1, 0, 0, 99, 0, 0, 0, 100, 0, 0, 0] 4 5 :=
  rocksHash_wide_blind (j := 0) (k := 1) (by decide) (by decide) [97, 0, 0, 0] [98, 0, 0, 0] [7, 1, 0, 0] [99, 0, 0, 0, 100, 0, 0, 0] rfl rfl rfl
    (by decide) 5

/-! ### msvc_fnv_1a -/

/-- One step of FNV-1a on 64 bits. -/
def fnvStep (v u : Nat) : Nat := (v ^^^ u) * 1099511628211 % 2 ^ 64

theorem fnvLoop_eq (k : Nat) (m : List Byte) : ∀ (n i v : Nat), (n = 0 ∨ (i + n) * k ≤ m.length) →
    fnvLoop k m n (i * k) v = .ok (foldAt (fun _ => fnvStep) (elem k m) n i v) := by
  intro n
  induction n with
  | zero => intro i v _; rfl
  | succ n ih =>
    intro i v hb
    have hb : (i + (n + 1)) * k ≤ m.length := hb.resolve_left (by omega)
    have h1 : (i + 1) * k ≤ m.length := Nat.le_trans (Nat.mul_le_mul_right _ (by omega)) hb
    unfold fnvLoop
    rw [load_elem rfl h1, Res.bind_ok, ← Nat.succ_mul, Nat.succ_eq_add_one, ih (i + 1) _ (Or.inr (by rw [show i + 1 + n = i + (n + 1) by omega]; exact hb)),
      foldAt_succ]
    rfl

/-- The width of the units that `msvc_fnv_1a` hashes. -/
def fnvUnit (count : Nat) : Nat := if count = 8 then 4 else if count = 4 then 2 else 1

theorem msvcFnv1a_fold (m : List Byte) {count : Nat} (h : count ≤ m.length) :
    msvcFnv1a m count = .ok (foldAt (fun _ => fnvStep) (elem (fnvUnit count) m) (count / fnvUnit count) 0 14695981039346656037) := by
  unfold msvcFnv1a fnvUnit
  split
  · subst count
    have := fnvLoop_eq 4 m 2 0 14695981039346656037 (Or.inr (by omega))
    rwa [Nat.zero_mul] at this
  · split
    · subst count
      have := fnvLoop_eq 2 m 2 0 14695981039346656037 (Or.inr (by omega))
      rwa [Nat.zero_mul] at this
    · have := fnvLoop_eq 1 m count 0 14695981039346656037 (Or.inr (by omega))
      rw [Nat.zero_mul] at this
      rw [this, Nat.div_one]

theorem fnvStep_lt (v u : Nat) : fnvStep v u < 2 ^ 64 := Nat.mod_lt _ (by decide)

theorem fnvStep_inj {a b : Nat} (ha : a < 2 ^ 64) (hb : b < 2 ^ 64) (h : a * 1099511628211 % 2 ^ 64 = b * 1099511628211 % 2 ^ 64) : a = b :=
  mul_mod_inj (by decide) ha hb h

/-- C135.  `msvc_fnv_1a` reads exactly the string, and every byte matters. -/
theorem msvcFnv1a_bytes : ReadsOnly msvcFnv1a ∧ EveryByte msvcFnv1a := by
  have hu : ∀ c, 0 < fnvUnit c ∧ c / fnvUnit c * fnvUnit c = c ∧ fnvUnit c ≤ 4 := by
    intro c
    unfold fnvUnit
    split
    · subst c; decide
    · split
      · subst c; decide
      · simp
  constructor
  · intro s
    refine ⟨foldAt (fun _ => fnvStep) (elem (fnvUnit s.length) s) (s.length / fnvUnit s.length) 0 14695981039346656037, fun pad => ?_⟩
    rw [msvcFnv1a_fold _ (by simp)]
    congr 1
    exact foldAt_congr _ _ _ fun j _ hj => elem_pad _ s pad (by
      have := (hu s.length).2.1
      exact Nat.le_trans (Nat.mul_le_mul_right _ (by omega)) (Nat.le_of_eq this))
  · intro p q x y hxy
    rw [msvcFnv1a_fold _ (by simp; omega), msvcFnv1a_fold _ (by simp; omega)]
    intro he
    obtain ⟨h1, h2, h3⟩ := hu (p.length + 1 + q.length)
    generalize hL : p.length + 1 + q.length = L at *
    generalize fnvUnit L = k at *
    have hl : ∀ (l : List Byte) i, elem k l i < 2 ^ 64 := fun l i => Nat.lt_of_lt_of_le (elem_lt k l i)
      (Nat.le_trans (pow256_le h3) (by decide))
    have hj : p.length / k < L / k := by
      rw [Nat.div_lt_iff_lt_mul h1, h2]; omega
    refine foldAt_one (B := 2 ^ 64) (j := p.length / k) (N := L / k) (fun _ _ _ => fnvStep_lt _ _) (fun _ _ _ => fnvStep_lt _ _) ?_
      (fun i _ hi => elem_same h1 p q x y hi) ?_ (L / k) 0 _ (by omega) (Nat.zero_le _) (by rw [Nat.zero_add]; exact hj) (by decide) (Res.ok.inj he)
    · intro i h h' a1 a2 e
      exact xor_right_inj (fnvStep_inj (Nat.xor_lt_two_pow a1 (hl _ _)) (Nat.xor_lt_two_pow a2 (hl _ _)) e)
    · intro h a1 e
      exact elem_diff h1 p q hxy (xor_left_inj (fnvStep_inj (Nat.xor_lt_two_pow a1 (hl _ _)) (Nat.xor_lt_two_pow a1 (hl _ _)) e))

/-- C135.  For all lengths except 4 and 8 `msvc_fnv_1a` is the published FNV-1a. -/
theorem msvcFnv1a_published (s pad : List Byte) (h4 : s.length ≠ 4) (h8 : s.length ≠ 8) :
    msvcFnv1a (s ++ pad) s.length =
      .ok (s.foldl (fun v b => (v ^^^ b.val) * 1099511628211 % 2 ^ 64) 14695981039346656037) := by
  rw [msvcFnv1a_fold _ (by simp)]
  have hu : fnvUnit s.length = 1 := by unfold fnvUnit; rw [if_neg h8, if_neg h4]
  rw [hu, Nat.div_one]
  congr 1
  have h1 : ∀ (c : Nat → Nat) (n i v : Nat), foldAt (fun _ => fnvStep) c n i v = ((List.range' i n).map c).foldl fnvStep v := by
    intro c n
    induction n with
    | zero => intro i v; rfl
    | succ n ih => intro i v; rw [foldAt_succ, ih, List.range'_succ, List.map_cons, List.foldl_cons]
  rw [h1, ← List.range_eq_range', elems_one, List.foldl_map]
  rfl

/-- C135, the violation: of strings of four or eight bytes it is not; the code hashes two halves instead of the bytes. -/
theorem msvcFnv1a_not_published : ∃ s t : List Byte, s.length = 4 ∧ t.length = 8 ∧
    msvcFnv1a s 4 ≠ .ok (s.foldl (fun v b => (v ^^^ b.val) * 1099511628211 % 2 ^ 64) 14695981039346656037) ∧
    msvcFnv1a t 8 ≠ .ok (t.foldl (fun v b => (v ^^^ b.val) * 1099511628211 % 2 ^ 64) 14695981039346656037) :=
  ⟨[97, 98, 99, 100], [97, 98, 99, 100, 101, 102, 103, 104], rfl, rfl, by decide, by decide⟩

example : ∃ r, msvcFnv1a ([97, 98, 99] ++ [1, 2]) 3 = .ok r ∧ r ≠ 0 := ⟨_, msvcFnv1a_published [97, 98, 99] [1, 2] (by decide) (by decide), by decide⟩

end Verif.HashFn
