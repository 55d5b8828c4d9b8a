/-
`hash_helper`: hash codes of integers, floating-point numbers, pointers and text (C154).

HH = src/jstd/hasher/hash_helper.h

`JSTD_HAVE_SSE42_CRC32C` is defined, as in the programs of the repository that include the header.  A pointer has eight bytes.
-/
import Verif.HashProps

namespace Verif.HashHelper
open Verif.HashFn

/-! ### The model -/

/-- `HashFunc` (HH:122-128). -/
inductive Fn where
  | crc
  | t31
  | t31std
  deriving DecidableEq

/-- The hash function applied to `len` bytes at `(const char *)p`, `m` being what can be read there (HH:142-151); `crc32` is the machine instruction. -/
def hash (crc32 : Nat → Nat → Nat) : Fn → List Byte → Nat → Res Nat
  | .crc, m, len => hashCrc32 crc32 m len
  | .t31, m, len => times31 1 m len
  | .t31std, m, len => times31Std 1 m len

/-- Integers: `static_cast<std::uint32_t>(data)` (HH:79-81). -/
def ofInt (v : Int) : Nat := (v % 2 ^ 32).toNat

/-- `float` and `double`: the bytes of the variable (HH:111-113). -/
def ofFloat (crc32 : Nat → Nat → Nat) (f : Fn) (b : List Byte) : Res Nat := hash crc32 f b b.length

/-- Pointers (HH:154-176): `sizeof(key_type *)` bytes are read from where the pointer points to; `none` is the null pointer. -/
def ofPtr (crc32 : Nat → Nat → Nat) (f : Fn) : Option (List Byte) → Res Nat
  | none => .ub
  | some m => hash crc32 f m 8

/-- `libc::StrLen` for `char` (src/jstd/string/string_libc.h:49-53). -/
def zlen : List Byte → Res Nat
  | [] => .ub
  | b :: m => if b ≠ 0 then (zlen m).bind fun n => .ok (n + 1) else .ok 0

/-- `char` pointers with a length (HH:37-43). -/
def ofText (crc32 : Nat → Nat → Nat) (f : Fn) (p : Option (List Byte)) (len : Nat) : Res Nat :=
  match p with
  | some m => if len ≠ 0 then hash crc32 f m len else .ok 0
  | none => .ok 0

/-- `char` pointers without (HH:45-52). -/
def ofTextZ (crc32 : Nat → Nat → Nat) (f : Fn) : Option (List Byte) → Res Nat
  | some m => (zlen m).bind fun n => hash crc32 f m n
  | none => .ok 0

/-- `std::string` and string views (HH:224-234, 248-258, 272-282, 313-323, 337-347, 361-371). -/
def ofString (crc32 : Nat → Nat → Nat) (f : Fn) (p : Option (List Byte)) (len : Nat) : Res Nat :=
  match p with
  | some m => hash crc32 f m len
  | none => .ok 0

/-! ### Lemmas -/

variable {crc32 : Nat → Nat → Nat}

theorem zlen_eq (r : List Byte) : ∀ s : List Byte, (0 : Byte) ∉ s → zlen (s ++ 0 :: r) = .ok s.length := by
  intro s
  induction s with
  | nil => intro _; simp [zlen]
  | cons b s ih =>
    intro h
    have hb : b ≠ 0 := fun q => h (by simp [← q])
    rw [List.cons_append]
    unfold zlen
    rw [if_pos hb, ih (fun q => h (by simp [q]))]
    rfl

/-! ### C154 -/

/-- C154: integers of up to 32 bits have the same hash code only when they are equal; wider ones whenever they agree modulo 2^32. -/
theorem C154_int (u v : Int) : (ofInt u = ofInt v ↔ u % 2 ^ 32 = v % 2 ^ 32) ∧
    (0 ≤ u ∧ u < 2 ^ 32 → 0 ≤ v ∧ v < 2 ^ 32 → (ofInt u = ofInt v ↔ u = v)) ∧
    (-2 ^ 31 ≤ u ∧ u < 2 ^ 31 → -2 ^ 31 ≤ v ∧ v < 2 ^ 31 → (ofInt u = ofInt v ↔ u = v)) := by
  unfold ofInt
  refine ⟨by omega, fun h1 h2 => by omega, fun h1 h2 => by omega⟩

/-- C154: the same text has the same hash code as a terminated pointer, a pointer with a length, a string or a string view, unless it is empty. -/
theorem C154_text (f : Fn) (s r : List Byte) (h : (0 : Byte) ∉ s) (hs : s ≠ []) :
    ofTextZ crc32 f (some (s ++ 0 :: r)) = ofText crc32 f (some (s ++ 0 :: r)) s.length ∧
    ofString crc32 f (some (s ++ 0 :: r)) s.length = ofText crc32 f (some (s ++ 0 :: r)) s.length := by
  have hl : s.length ≠ 0 := fun q => hs (List.length_eq_zero_iff.mp q)
  simp only [ofTextZ, ofText, ofString, if_pos hl, zlen_eq r s h, Res.bind_ok, and_self]

/-- C154, violated: by default (CRC32) the empty text has the hash code 0 or 2^32 - 1, depending on how it is given. -/
theorem C154_text_empty (m r : List Byte) :
    ofText crc32 .crc (some m) 0 = .ok 0 ∧ ofString crc32 .crc none 0 = .ok 0 ∧ ofTextZ crc32 .crc (some (0 :: r)) = .ok (2 ^ 32 - 1) ∧
    ofString crc32 .crc (some m) 0 = .ok (2 ^ 32 - 1) := by
  refine ⟨rfl, rfl, ?_, ?_⟩ <;> rfl

/-- C154, violated: the hash code of a `float` reads eight bytes of a variable of four, by default. -/
theorem C154_float_default (b : List Byte) (hb : b.length = 4) : ofFloat crc32 .crc b = .ub := by
  simp [ofFloat, hash, hashCrc32, maskedLoop, load, hb, Res.bind]

/-- C154, violated: the two zeros, which are equal, have different hash codes with `Times31` and `Times31Std`. -/
theorem C154_float_zero : ∀ f ∈ [Fn.t31, Fn.t31std], ∀ n ∈ [3, 7],
    ofFloat crc32 f (List.replicate n 0 ++ [0]) = .ok 0 ∧ ofFloat crc32 f (List.replicate n 0 ++ [128]) = .ok 128 := by
  intro f hf n hn
  simp only [List.mem_cons, List.not_mem_nil, or_false] at hf hn
  rcases hf with rfl | rfl <;> rcases hn with rfl | rfl <;> exact ⟨rfl, rfl⟩

/-- With `Times31` the hash code of eight bytes determines the last one by the others. -/
theorem last_byte {f : Fn} (hf : f ≠ .crc) {x : List Byte} (hx : x.length = 7) {b b' : Byte} (hb : b ≠ b') (r r' : List Byte) :
    hash crc32 f (x ++ b :: r) 8 ≠ hash crc32 f (x ++ b' :: r') 8 := by
  have key : ∀ (b : Byte) (r : List Byte), hash crc32 f (x ++ b :: r) 8
      = .ok (poly 31 ((List.range 7).map (elem 1 (x ++ b :: r)) ++ [elem 1 (x ++ b :: r) 7])) := by
    intro b r
    have hr : List.range 8 = List.range 7 ++ [7] := by decide
    cases f with
    | crc => exact absurd rfl hf
    | t31 =>
      show bkdr 31 1 _ 8 = _
      rw [bkdr_eq, if_pos (by simp [hx]; omega), Nat.mul_one, hr, List.map_append]
      rfl
    | t31std =>
      show times31Std 1 _ 8 = _
      rw [times31Std_mem_eq, if_pos (by simp [hx]; omega), Nat.mul_one, hr, List.map_append]
      rfl
  have hlast : ∀ (b : Byte) (r : List Byte), elem 1 (x ++ b :: r) 7 = b.val := by
    intro b r
    simp [elem, hx, le]
  have hinit : ∀ (b : Byte) (r : List Byte), (List.range 7).map (elem 1 (x ++ b :: r)) = (List.range 7).map (elem 1 x) := by
    intro b r
    apply List.map_congr_left
    intro i hi
    have hi := List.mem_range.mp hi
    unfold elem
    rw [List.drop_append_of_le_length (by omega), List.take_append_of_le_length (by rw [List.length_drop]; omega)]
  rw [key, key, hlast, hlast, hinit, hinit]
  unfold poly
  rw [List.foldl_append, List.foldl_append]
  simp only [List.foldl_cons, List.foldl_nil, ne_eq, Res.ok.injEq]
  have h1 := b.isLt
  have h2 := b'.isLt
  have h3 : b.val ≠ b'.val := fun q => hb (Fin.ext q)
  omega

/-- C154, violated: the hash code of a pointer is computed from what it points to: writing there changes the hash code of the same pointer (`Times31`, `Times31Std`). -/
theorem C154_pointer {f : Fn} (hf : f ≠ .crc) {x : List Byte} (hx : x.length = 7) {b b' : Byte} (hb : b ≠ b') (r : List Byte) :
    ofPtr crc32 f (some (x ++ b :: r)) ≠ ofPtr crc32 f (some (x ++ b' :: r)) := last_byte hf hx hb r r

set_option maxRecDepth 100000 in
/-- C154, violated: so it is by default, with the CRC instruction of the machine: the zeros of type `double`, and a pointer to eight zero bytes before and after
the last one is overwritten by 128. -/
theorem C154_default : ofFloat mmCrc64 .crc (List.replicate 7 0 ++ [0]) ≠ ofFloat mmCrc64 .crc (List.replicate 7 0 ++ [128]) ∧
    ofPtr mmCrc64 .crc (some (List.replicate 7 0 ++ [0])) ≠ ofPtr mmCrc64 .crc (some (List.replicate 7 0 ++ [128])) := by decide +kernel

/-- C154, violated: and it is undefined for null pointers and for pointers to objects of less than eight bytes. -/
theorem C154_pointer_small (f : Fn) : ofPtr crc32 f none = .ub ∧ ∀ m : List Byte, m.length < 8 → ofPtr crc32 f (some m) = .ub := by
  refine ⟨rfl, fun m hm => ?_⟩
  show hash crc32 f m 8 = .ub
  cases f with
  | crc =>
    have : ¬ 0 + 8 ≤ m.length := by omega
    simp only [hash, hashCrc32, maskedLoop, load, if_neg this, if_pos (Nat.le_refl 8)]
    rfl
  | t31 =>
    show bkdr 31 1 m 8 = _
    rw [bkdr_eq, if_neg (by omega)]
  | t31std =>
    show times31Std 1 m 8 = _
    rw [times31Std_mem_eq, if_neg (by omega)]

/-! ### Examples -/

example : ofInt (-1) = 2 ^ 32 - 1 ∧ ofInt (2 ^ 32 + 5) = ofInt 5 := by decide
example : (0 : Byte) ∉ ([97, 98] : List Byte) ∧ ofTextZ (fun a _ => a) .t31 (some [97, 98, 0]) = .ok (97 * 31 + 98) := by decide
example : ofPtr (fun a _ => a) .t31std (some [0, 0, 0, 0, 0, 0, 0, 1]) = .ok 1 ∧ ofPtr (fun a _ => a) .t31std (some [0, 0, 0, 0, 0, 0, 0, 2]) = .ok 2 := by decide
example : ofFloat (fun a _ => a) .crc [0, 0, 128, 63] = .ub := by decide

end Verif.HashHelper
