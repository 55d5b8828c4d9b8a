/-
The `sprintf` functions of `basic_formatter<char>` (FM = `string/formatter.h`, SV = `string/string_view.h`), with C127 and C128.

Simplifications:
* A format is the list of its characters without the terminating zero.  Characters are numbers; 37 is `%`, 45 is `-`, 63 is `?`.
* An argument is its type, as far as the code distinguishes types, and its value; the value of a floating point argument is never used.
  Pointers and class types do not compile: every branch of the `switch` is instantiated, and `static_cast<unsigned char>(arg)` is ill-formed
  for them.  So the tests for pointer types are false.
* `assert` is off, a null format is left out (the functions return 0 at once).
* An exception carries the string as it is then; for the functions that do not write to the string it carries nothing.
-/
import Verif.Digits

namespace Verif.Fmt
open Verif Verif.Digits

/-- The types of arguments: `int`, `unsigned`, `long`, `unsigned long` have their own `itoa`; `narrow` stands for `char`, `unsigned char`,
`short`, `unsigned short`, `wchar_t`, which `%c` accepts (FM:1290-1295); `integral` for the other integral types; `floating`; `other` for
enumerations. -/
inductive Ty
  | i32
  | u32
  | i64
  | u64
  | narrow
  | integral
  | floating
  | other
  deriving DecidableEq

/-- An argument. -/
structure Arg where
  ty : Ty
  val : Int

/-- `std::is_integral<ArgT>::value`. -/
def Arg.isIntegral (a : Arg) : Bool :=
  match a.ty with
  | .floating | .other => false
  | _ => true

/-- `static_cast<int>(arg)`. -/
def toI32 (v : Int) : Int := if v % 2 ^ 32 < 2 ^ 31 then v % 2 ^ 32 else v % 2 ^ 32 - 2 ^ 32

/-- What `sprintf_handle_specifier` does with the character after `%`: an unknown specifier, a specifier that does not fit the argument
(the pointer stays where it is), a specifier that is consumed. -/
inductive Verdict
  | bad
  | stay
  | eat
  deriving DecidableEq

/-- The `switch (sp)` (FM:1217-1428, 1456-1662): `A E F G a e f g` take floating point numbers, `X d i o u x` integers, `n` falls through to
`o` (FM:1361-1375), `c` takes narrow characters, `p` and `s` take pointers only. -/
def verdict (c : Nat) (a : Arg) : Verdict :=
  if c ∈ [65, 69, 70, 71, 97, 101, 102, 103] then (if a.ty = .floating then .eat else .stay)
  else if c ∈ [88, 100, 105, 110, 111, 117, 120] then (if a.isIntegral then .eat else .stay)
  else if c = 99 then (if a.ty = .narrow then .eat else .stay)
  else if c ∈ [112, 115] then .stay
  else .bad

/-- `data_len` of the first `sprintf_handle_specifier` (FM:1195-1431) for a specifier that is consumed: `c` FM:1298-1299, `d` FM:1307-1308, `f`
FM:1341, `u` FM:1404-1405; 0 for all others. -/
def specLen (c : Nat) (a : Arg) : Res Int :=
  if c = 99 then .ok (countDigitsSmall 0 (a.val % 256).toNat)
  else if c = 100 then countDigitsSigned 32 (countDigitsU32 0) (toI32 a.val)
  else if c = 117 then countDigitsU32 0 (a.val % 2 ^ 32).toNat
  else if c = 102 then .ok 6
  else .ok 0

/-- What the second `sprintf_handle_specifier` (FM:1433-1665) appends for a specifier that is consumed: `c` FM:1538-1539, `d` FM:1547-1548, `u`
FM:1644-1645; nothing for all others. -/
def specOut (c : Nat) (a : Arg) : Res (List Nat) :=
  if c = 99 then (itoaU32 1 (a.val % 256).toNat).bind fun r => .ok r.1
  else if c = 100 then (itoaSigned 32 (itoaU32 1) (toI32 a.val)).bind fun r => .ok r.1
  else if c = 117 then (itoaU32 1 (a.val % 2 ^ 32).toNat).bind fun r => .ok r.1
  else .ok []

/-! ### `sprintf_no_prepare` -/

/-- `sprintf_no_prepare_output_impl(str, fmt, args…)` without arguments (FM:1902-1940) and with arguments (FM:1942-2002), as one function.
`pend` are the characters from `fmt_first` to `fmt`, `out` is `str`. -/
def scan : List Arg → List Nat → List Nat → List Nat → Out (List Nat) Unit
  | _, [], pend, out => .ok (out ++ pend) ()
  | as, [c], pend, out =>
    if c = 37 then
      match as with
      | [] => .throw out
      | _ :: _ => .ok (out ++ pend ++ [37]) ()
    else .ok (out ++ (pend ++ [c])) ()
  | as, c :: d :: f, pend, out =>
    if c = 37 then
      if d = 37 then scan as f [] (out ++ (pend ++ [37]))
      else
        match as with
        | [] => .throw out
        | a :: as' =>
          match verdict d a with
          | .bad => .throw (out ++ pend)
          | .stay => scan as' (d :: f) [] (out ++ pend)
          | .eat =>
            match specOut d a with
            | .ok l => scan as' f [] (out ++ pend ++ l)
            | .diverge => .diverge
            | .ub => .ub
    else scan as (d :: f) (pend ++ [c]) out

/-- `sprintf_no_prepare(str, fmt, args…)` (FM:2158-2170): the string afterwards and the number of characters appended. -/
def noPrepare (str fmt : List Nat) (as : List Arg) : Out (List Nat) Int :=
  (scan as fmt [] str).bind fun s _ => .ok s (((s.length : Int) - str.length) % W)

/-! ### `sprintf_calc_space` -/

/-- `sprintf_calc_space_impl` without arguments (FM:1667-1705) and with arguments (FM:1707-1765); `k` is `fmt - fmt_first`, `r` is
`rest_size`. -/
def space : List Arg → List Nat → Int → Int → Out Unit Int
  | _, [], k, r => .ok () ((k + r) % W)
  | as, [c], k, r =>
    if c = 37 then
      match as with
      | [] => .throw ()
      | _ :: _ => .ok () ((k + 1 + r) % W)
    else .ok () ((k + 1 + r) % W)
  | as, c :: d :: f, k, r =>
    if c = 37 then
      if d = 37 then space as f (k + 2) (r - 1)
      else
        match as with
        | [] => .throw ()
        | a :: as' =>
          match verdict d a with
          | .bad => .throw ()
          | .stay => (space as' (d :: f) 0 0).bind fun _ x => .ok () ((k + 1 + (r + (0 - 1) + x)) % W)
          | .eat =>
            match specLen d a with
            | .ok n => (space as' f 0 0).bind fun _ x => .ok () ((k + 2 + (r + (n - 2) + x)) % W)
            | .diverge => .diverge
            | .ub => .ub
    else space as (d :: f) (k + 1) r

/-- `sprintf_calc_space(fmt, args…)` (FM:1767-1770). -/
def calcSpace (fmt : List Nat) (as : List Arg) : Out Unit Int := space as fmt 0 0

/-! ### `sprintf_direct` and `sprintf` -/

/-- `sprintf_fmt_node`: the characters from `first` to `last`, and the size of the argument if it is one (FM:1047-1138). -/
structure Node where
  text : List Nat
  arg : Option Nat

/-- `sprintf_prepare_space_impl` without arguments (FM:1772-1821) and with arguments (FM:1823-1900): the nodes and the size.  `cur` are the
characters from `fmt_first` to `fmt`; after `%%` `fmt_first` is moved and the characters before are not counted.  At a `%` at the end only that
character becomes a node (FM:1886-1891). -/
def prep : List Arg → List Nat → List Nat → Int → Out Unit (List Node × Int)
  | _, [], cur, r => .ok () (if cur = [] then [] else [⟨cur, none⟩], (cur.length + r) % W)
  | as, [c], cur, r =>
    if c = 37 then
      match as with
      | [] => .throw ()
      | _ :: _ => .ok () ([⟨[37], none⟩], (cur.length + 1 + r) % W)
    else .ok () ([⟨cur ++ [c], none⟩], (cur.length + 1 + r) % W)
  | as, c :: d :: f, cur, r =>
    if c = 37 then
      if d = 37 then (prep as f [] (r - 1)).bind fun _ x => .ok () (⟨cur ++ [37], none⟩ :: x.1, x.2)
      else
        match as with
        | [] => .throw ()
        | a :: as' =>
          match verdict d a with
          | .bad => .throw ()
          | .stay =>
            (prep as' (d :: f) [] 0).bind fun _ x => .ok () (⟨cur, some 0⟩ :: x.1, (cur.length + 1 + (r + (0 - 1) + x.2)) % W)
          | .eat =>
            match specLen d a with
            | .ok n =>
              (prep as' f [] 0).bind fun _ x => .ok () (⟨cur, some n.toNat⟩ :: x.1, (cur.length + 2 + (r + (n - 2) + x.2)) % W)
            | .diverge => .diverge
            | .ub => .ub
    else prep as (d :: f) (cur ++ [c]) r

/-- Append what `itoa` with a number of digits gives; `none` is its exception. -/
def addDigits (out : List Nat) : Option (Res (List Nat × Nat)) → Out (List Nat) Nat
  | none => .throw out
  | some (.ok (l, n)) => .ok (out ++ l) n
  | some .diverge => .diverge
  | some .ub => .ub

/-- `itoa(std::string &, int32_t, digits)` and `int64_t` (FM:860-879, 1026-1045). -/
def addSigned (bits : Nat) (f : Nat → Nat → Option (Res (List Nat × Nat))) (i : Int) (digits : Nat) (out : List Nat) : Out (List Nat) Nat :=
  if 0 ≤ i then (addDigits out (f i.toNat digits)).bind fun s _ => .ok s digits
  else if i = -2 ^ (bits - 1) then .ub
  else (addDigits (out ++ [45]) (f (-i).toNat ((digits + W - 1) % W))).bind fun s _ => .ok s digits

/-- `itoa(std::string &, arg, arg_size)`: the overload for the type of the argument, for all other types question marks (FM:759-766). -/
def addArg (a : Arg) (digits : Nat) (out : List Nat) : Out (List Nat) Nat :=
  match a.ty with
  | .i32 => addSigned 32 itoaU32D a.val digits out
  | .u32 => addDigits out (itoaU32D a.val.toNat digits)
  | .i64 => addSigned 64 itoaU64D a.val digits out
  | .u64 => addDigits out (itoaU64D a.val.toNat digits)
  | _ => .ok (out ++ List.replicate digits 63) digits

/-- `sprintf_direct_output_impl` (FM:2004-2062): without arguments only one node is written. -/
def directOut : List Arg → List Node → List Nat → Out (List Nat) Nat
  | _, [], out => .ok out 0
  | [], n :: _, out => if n.arg.isSome then .throw (out ++ n.text) else .ok (out ++ n.text) n.text.length
  | a :: as, n :: ns, out =>
    match n.arg with
    | some d =>
      (addArg a d (out ++ n.text)).bind fun s x => (directOut as ns s).bind fun s' y => .ok s' (n.text.length + x + y)
    | none => if as = [] then .ok (out ++ n.text) n.text.length else .throw (out ++ n.text)

/-- `sprintf_direct(str, fmt, args…)` (FM:2172-2190): the string afterwards and the size computed beforehand. -/
def direct (str fmt : List Nat) (as : List Arg) : Out (List Nat) Int :=
  match prep as fmt [] 0 with
  | .ok _ (ns, size) => (directOut as ns str).bind fun s _ => .ok s size
  | .throw _ => .throw str
  | .diverge => .diverge
  | .ub => .ub

/-- A `string_view` over a string: the string, `data_` as an index into it, `size_`. -/
structure View where
  buf : List Nat
  p : Nat
  n : Nat

/-- `push_back_impl(ch)` (SV:542-546): writes at `data_ + size_`.  Behind the string only a zero may be written, at its end. -/
def View.push (v : View) (c : Nat) : Res View :=
  if v.p + v.n < v.buf.length then .ok { v with buf := v.buf.set (v.p + v.n) c, n := v.n + 1 }
  else if v.p + v.n = v.buf.length ∧ c = 0 then .ok { v with n := v.n + 1 }
  else .ub

/-- The loop of `append` (SV:226-233, 217-224). -/
def View.pushAll : List Nat → View → Res View
  | [], v => .ok v
  | c :: l, v => (v.push c).bind fun v' => View.pushAll l v'

/-- `write_null()` (SV:281-284, 296-300). -/
def View.null (v : View) : Res View :=
  if v.p + v.n < v.buf.length then .ok { v with buf := v.buf.set (v.p + v.n) 0 }
  else if v.p + v.n = v.buf.length then .ok v
  else .ub

/-- `append(first, last)` (SV:226-233), `append(count, ch)` (SV:217-224). -/
def View.append (v : View) (l : List Nat) : Res View := (View.pushAll l v).bind View.null

/-- `itoa(string_view &, uint32_t, digits)` and `uint64_t` (FM:436-526, 593-736): writes at `data_`, then `commit(digits)` (SV:136-138). -/
def View.digits (maxD u d : Nat) (v : View) : Out View Nat :=
  match itoaView maxD (v.buf.length - v.p) u d with
  | none => .throw v
  | some (.ok w) => .ok { v with buf := v.buf.take v.p ++ w ++ v.buf.drop (v.p + w.length), p := v.p + d } d
  | some .diverge => .diverge
  | some .ub => .ub

/-- A computation on a view that cannot throw. -/
def liftV {α : Type} (r : Res View) (f : View → Out View α) : Out View α :=
  match r with
  | .ok v => f v
  | .diverge => .diverge
  | .ub => .ub

/-- `itoa(string_view &, int32_t, digits)` and `int64_t` (FM:572-591, 738-757); `push_back` (SV:273-279). -/
def View.signed (bits maxD : Nat) (i : Int) (d : Nat) (v : View) : Out View Nat :=
  if 0 ≤ i then (v.digits maxD i.toNat d).bind fun v' _ => .ok v' d
  else if i = -2 ^ (bits - 1) then .ub
  else liftV ((v.push 45).bind View.null) fun v1 => (v1.digits maxD (-i).toNat ((d + W - 1) % W)).bind fun v' _ => .ok v' d

/-- `itoa(string_view &, arg, arg_size)` (FM:427-434 for the types without an overload). -/
def View.arg (a : Arg) (d : Nat) (v : View) : Out View Nat :=
  match a.ty with
  | .i32 => v.signed 32 10 a.val d
  | .u32 => v.digits 10 a.val.toNat d
  | .i64 => v.signed 64 19 a.val d
  | .u64 => v.digits 19 a.val.toNat d
  | _ => liftV (v.append (List.replicate d 63)) fun v' => .ok v' d

/-- `if (fmt_length() > 0) str.append(first, last)` (FM:2070-2073, 2099-2102). -/
def View.text (l : List Nat) (v : View) : Res View := if 0 < l.length then v.append l else .ok v

/-- `sprintf_prepare_output_impl` (FM:2064-2128). -/
def viewOut : List Arg → List Node → View → Out View Nat
  | _, [], v => .throw v
  | [], n :: _, v => liftV (v.text n.text) fun v' => if n.arg.isSome then .throw v' else .ok v' n.text.length
  | a :: as, n :: ns, v =>
    liftV (v.text n.text) fun v' =>
      match n.arg with
      | some d => (v'.arg a d).bind fun v1 x => (viewOut as ns v1).bind fun v2 y => .ok v2 (n.text.length + x + y)
      | none => if as = [] then .ok v' n.text.length else .throw v'

/-- `sprintf(str, fmt, args…)` (FM:2192-2229): the string is enlarged first; more than `mem` characters are an exception. -/
def sprintf (mem : Nat) (str fmt : List Nat) (as : List Arg) : Out (List Nat) Int :=
  match prep as fmt [] 0 with
  | .ok _ (ns, size) =>
    let len := ((str.length + size) % W).toNat
    if mem < len then .throw str
    else
      match viewOut as ns ⟨str.take len ++ List.replicate (len - str.length) 0, 0, len⟩ with
      | .ok v _ => .ok v.buf size
      | .throw v => .throw v.buf
      | .diverge => .diverge
      | .ub => .ub
  | .throw _ => .throw str
  | .diverge => .diverge
  | .ub => .ub

/-! ### The specification -/

/-- A piece of a format: text without `%`, an escaped `%`, `%d` for an `int`, `%u` for an `unsigned`. -/
inductive Piece
  | text (l : List Nat)
  | percent
  | dec (i : Int)
  | uns (u : Nat)

/-- How the piece is written in the format. -/
def Piece.fmt : Piece → List Nat
  | text l => l
  | percent => [37, 37]
  | dec _ => [37, 100]
  | uns _ => [37, 117]

/-- What is to be printed. -/
def Piece.out : Piece → List Nat
  | text l => l
  | percent => [37]
  | dec i => decimalInt i
  | uns u => decimal u

/-- The argument that belongs to the piece. -/
def Piece.args : Piece → List Arg
  | dec i => [⟨.i32, i⟩]
  | uns u => [⟨.u32, u⟩]
  | _ => []

/-- Values of the type of the argument, without the least `int`. -/
def Piece.Ok : Piece → Prop
  | text l => ∀ c ∈ l, c ≠ 37
  | percent => True
  | dec i => -2 ^ 31 < i ∧ i < 2 ^ 31
  | uns u => u < 2 ^ 32

/-- The format, the arguments, the output. -/
def fmtOf (ps : List Piece) : List Nat := ps.flatMap Piece.fmt
def argsOf (ps : List Piece) : List Arg := ps.flatMap Piece.args
def outOf (ps : List Piece) : List Nat := ps.flatMap Piece.out

/-! ### Proofs -/

theorem scan_plain {as : List Arg} {c : Nat} {f pend out : List Nat} (hc : c ≠ 37) : scan as (c :: f) pend out = scan as f (pend ++ [c]) out := by
  cases f with
  | nil => simp [scan, hc]
  | cons d f => exact if_neg hc

theorem scan_text {as : List Arg} {f out : List Nat} : ∀ (l pend : List Nat), (∀ c ∈ l, c ≠ 37) →
    scan as (l ++ f) pend out = scan as f (pend ++ l) out := by
  intro l
  induction l with
  | nil => intro pend _; simp
  | cons c l ih =>
    intro pend h
    rw [List.cons_append, scan_plain (h c (by simp)), ih _ fun x hx => h x (by simp [hx])]
    simp

theorem toI32_eq {i : Int} (h1 : -2 ^ 31 ≤ i) (h2 : i < 2 ^ 31) : toI32 i = i := by
  unfold toI32
  split <;> omega

theorem toI32_range (v : Int) : -2 ^ 31 ≤ toI32 v ∧ toI32 v < 2 ^ 31 := by
  unfold toI32
  split <;> omega

theorem verdict_d (a : Arg) : verdict 100 a = if a.isIntegral then .eat else .stay := by
  simp [verdict]

theorem verdict_u (a : Arg) : verdict 117 a = if a.isIntegral then .eat else .stay := by
  simp [verdict]

/-- One piece. -/
theorem scan_piece {p : Piece} (hp : p.Ok) (xs : List Arg) (g pend out : List Nat) :
    ∃ pend' out', scan (p.args ++ xs) (p.fmt ++ g) pend out = scan xs g pend' out' ∧ out' ++ pend' = out ++ pend ++ p.out := by
  cases p with
  | text l => exact ⟨pend ++ l, out, scan_text l pend hp, by simp [Piece.out]⟩
  | percent => exact ⟨[], out ++ (pend ++ [37]), by simp [Piece.args, Piece.fmt, scan], by simp [Piece.out]⟩
  | dec i =>
    refine ⟨[], out ++ pend ++ decimalInt i, ?_, by simp [Piece.out]⟩
    show scan (⟨.i32, i⟩ :: xs) (37 :: 100 :: g) pend out = _
    rw [scan, if_pos rfl, if_neg (by decide)]
    simp only [verdict_d, Arg.isIntegral, if_true]
    unfold specOut
    rw [if_neg (by decide), if_pos rfl, toI32_eq (by have := hp.1; omega) hp.2, itoaI32_partial hp.1 hp.2]
    rfl
  | uns u =>
    refine ⟨[], out ++ pend ++ decimal u, ?_, by simp [Piece.out]⟩
    show scan (⟨.u32, u⟩ :: xs) (37 :: 117 :: g) pend out = _
    rw [scan, if_pos rfl, if_neg (by decide)]
    simp only [verdict_u, Arg.isIntegral, if_true]
    unfold specOut
    have e : ((u : Int) % 2 ^ 32).toNat = u := by have : u < 2 ^ 32 := hp; omega
    rw [if_neg (by decide), if_neg (by decide), if_pos rfl, e, itoaU32_eq hp]
    rfl

theorem scan_pieces : ∀ (ps : List Piece), (∀ p ∈ ps, p.Ok) → ∀ (xs : List Arg) (g pend out : List Nat),
    ∃ pend' out', scan (argsOf ps ++ xs) (fmtOf ps ++ g) pend out = scan xs g pend' out' ∧ out' ++ pend' = out ++ pend ++ outOf ps := by
  intro ps
  induction ps with
  | nil => intro _ xs g pend out; exact ⟨pend, out, rfl, by simp [outOf]⟩
  | cons p ps ih =>
    intro h xs g pend out
    obtain ⟨p1, o1, e1, e2⟩ := scan_piece (h p (by simp)) (argsOf ps ++ xs) (fmtOf ps ++ g) pend out
    obtain ⟨p2, o2, e3, e4⟩ := ih (fun q hq => h q (by simp [hq])) xs g p1 o1
    refine ⟨p2, o2, ?_, by rw [e4, e2]; simp [outOf]⟩
    rw [← e3, ← e1]
    simp [argsOf, fmtOf]

/-- What is appended for a specifier is as long as announced, for arguments that are no floating point numbers. -/
theorem spec_len {d : Nat} {a : Arg} (ha : a.ty ≠ .floating) (hv : verdict d a = .eat) :
    (∃ l, specOut d a = .ok l ∧ specLen d a = .ok l.length) ∨ (specOut d a = .ub ∧ specLen d a = .ub) := by
  unfold specOut specLen
  by_cases h1 : d = 99
  · rw [if_pos h1, if_pos h1, itoaU32_eq (by omega)]
    refine .inl ⟨_, rfl, ?_⟩
    rw [(countDigits_small 0).1 (by omega)]
    simp
  · rw [if_neg h1, if_neg h1]
    by_cases h2 : d = 100
    · rw [if_pos h2, if_pos h2]
      obtain ⟨r1, r2⟩ := toI32_range a.val
      by_cases h3 : toI32 a.val = -2 ^ 31
      · rw [h3]
        exact .inr ⟨by rw [(itoa_min_ub _).1]; rfl, (countDigits_min_ub _).1⟩
      · rw [itoaI32_partial (by omega) r2, (countDigits_signed_partial _).1 (by omega) r2]
        refine .inl ⟨_, rfl, ?_⟩
        unfold decimalLen decimalInt
        split <;> simp [Nat.add_comm]
    · rw [if_neg h2, if_neg h2]
      by_cases h3 : d = 117
      · rw [if_pos h3, if_pos h3, itoaU32_eq (by omega), (countDigits_unsigned 0 _).1 (by omega)]
        exact .inl ⟨_, rfl, by simp⟩
      · rw [if_neg h3, if_neg h3]
        have h4 : d ≠ 102 := by
          rintro rfl
          simp [verdict, ha] at hv
        rw [if_neg h4]
        exact .inl ⟨[], rfl, rfl⟩

/-- The space announced is the length of the output; `x` is what had been counted before minus what had been written. -/
def Announced (x : Int) : Out (List Nat) Unit → Out Unit Int → Prop
  | .ok s _, .ok _ n => n = (x + s.length) % W
  | .throw _, .throw _ => True
  | .diverge, .diverge => True
  | .ub, .ub => True
  | _, _ => False

theorem Announced.bind {x y : Int} {o : Out (List Nat) Unit} {o' : Out Unit Int} (h : Announced x o o') :
    Announced (x + y) o (o'.bind fun _ n => .ok () ((y + n) % W)) := by
  match o, o', h with
  | .ok s _, .ok _ n, h =>
    show (y + n) % W = (x + y + s.length) % W
    rw [show n = (x + s.length) % W from h, Int.add_emod_emod]
    congr 1
    omega
  | .throw _, .throw _, _ => trivial
  | .diverge, .diverge, _ => trivial
  | .ub, .ub, _ => trivial

theorem space_scan : ∀ (as : List Arg) (f pend out : List Nat), (∀ a ∈ as, a.ty ≠ .floating) → ∀ k r : Int,
    Announced (k + r - out.length - pend.length) (scan as f pend out) (space as f k r) := by
  intro as f pend out
  fun_induction scan as f pend out with
  | case1 as pend out =>
    intro _ k r
    show (k + r) % W = (_ + ((out ++ pend).length : Nat)) % W
    congr 1
    rw [List.length_append]
    omega
  | case2 => intro _ k r; trivial
  | case3 pend out a as =>
    intro _ k r
    show (k + 1 + r) % W = (_ + ((out ++ pend ++ [37]).length : Nat)) % W
    congr 1
    simp only [List.length_append, List.length_cons, List.length_nil]
    omega
  | case4 as c pend out hc =>
    intro _ k r
    rw [show space as [c] k r = .ok () ((k + 1 + r) % W) from if_neg hc]
    show (k + 1 + r) % W = (_ + ((out ++ (pend ++ [c])).length : Nat)) % W
    congr 1
    simp only [List.length_append, List.length_cons, List.length_nil]
    omega
  | case5 as f pend out ih =>
    intro h k r
    have := ih h (k + 2) (r - 1)
    rw [show space as (37 :: 37 :: f) k r = space as f (k + 2) (r - 1) from rfl]
    convert this using 1
    simp only [List.length_append, List.length_cons, List.length_nil]
    omega
  | case6 d f pend out hd =>
    intro _ k r
    rw [show space [] (37 :: d :: f) k r = .throw () from by rw [space, if_pos rfl, if_neg hd]]
    trivial
  | case7 d f pend out hd a as hv =>
    intro _ k r
    rw [show space (a :: as) (37 :: d :: f) k r = .throw () from by rw [space, if_pos rfl, if_neg hd]; simp only [hv]]
    trivial
  | case8 d f pend out hd a as hv ih =>
    intro h k r
    have := (ih (fun b hb => h b (by simp [hb])) 0 0).bind (y := k + r)
    rw [show space (a :: as) (37 :: d :: f) k r = (space as (d :: f) 0 0).bind fun _ x => .ok () ((k + 1 + (r + (0 - 1) + x)) % W) from by
      rw [space, if_pos rfl, if_neg hd]; simp only [hv]]
    convert this using 1
    · simp only [List.length_append, List.length_nil]
      omega
    · congr 1
      funext _ x
      congr 2
      omega
  | case9 d f pend out hd a as hv l hl ih =>
    intro h k r
    have := (ih (fun b hb => h b (by simp [hb])) 0 0).bind (y := k + r + l.length)
    have hn : specLen d a = .ok l.length := by
      rcases spec_len (h a (by simp)) hv with ⟨l', h1, h2⟩ | ⟨h1, _⟩
      · rw [hl] at h1
        cases h1
        exact h2
      · rw [hl] at h1
        cases h1
    rw [show space (a :: as) (37 :: d :: f) k r = (space as f 0 0).bind fun _ x => .ok () ((k + 2 + (r + (l.length - 2) + x)) % W) from by
      rw [space, if_pos rfl, if_neg hd]; simp only [hv, hn]]
    convert this using 1
    · simp only [List.length_append, List.length_nil]
      omega
    · congr 1
      funext _ x
      congr 2
      omega
  | case10 d f pend out hd a as hv hl =>
    intro h k r
    rcases spec_len (h a (by simp)) hv with ⟨l', h1, h2⟩ | ⟨h1, _⟩ <;> (rw [hl] at h1; cases h1)
  | case11 d f pend out hd a as hv hl =>
    intro h k r
    have hn : specLen d a = .ub := by
      rcases spec_len (h a (by simp)) hv with ⟨l', h1, h2⟩ | ⟨_, h1⟩
      · rw [hl] at h1; cases h1
      · exact h1
    rw [show space (a :: as) (37 :: d :: f) k r = .ub from by rw [space, if_pos rfl, if_neg hd]; simp only [hv, hn]]
    trivial
  | case12 as c d f pend out hc ih =>
    intro h k r
    have := ih h (k + 1) r
    rw [show space as (c :: d :: f) k r = space as (d :: f) (k + 1) r from if_neg hc]
    convert this using 1
    simp only [List.length_append, List.length_cons, List.length_nil]
    omega

/-! ### C127 -/

/-- C127 (partial): `sprintf_no_prepare` appends the text of the format with `%d` and `%u` replaced by the decimal representations of the
`int` and `unsigned` arguments, in their order, and `%%` by `%`, and returns the number of characters appended.  Arguments without a
specifier are ignored.

Missing for the full claim: the least `int` (`C127_least_int`), `%c` (`C127_char`), the specifiers that print nothing (`C127_silent`),
arguments of 64 bits, strings and pointers, which do not compile. -/
theorem C127_no_prepare_partial {ps : List Piece} (h : ∀ p ∈ ps, p.Ok) (xs : List Arg) (str : List Nat) (hl : (outOf ps).length < W) :
    noPrepare str (fmtOf ps) (argsOf ps ++ xs) = .ok (str ++ outOf ps) (outOf ps).length := by
  obtain ⟨p', o', e1, e2⟩ := scan_pieces ps h xs [] [] str
  rw [List.append_nil] at e1
  unfold noPrepare
  rw [e1]
  show Out.ok (o' ++ p') ((((o' ++ p').length : Nat) - (str.length : Int)) % W) = _
  rw [e2]
  simp only [List.append_nil, List.length_append]
  congr 1
  rw [Int.emod_eq_of_lt (by omega) (by omega)]
  omega

example : noPrepare [62] [97, 61, 37, 100, 37, 37, 37, 117] [⟨.i32, -42⟩, ⟨.u32, 7⟩] = .ok [62, 97, 61, 45, 52, 50, 37, 55] 7 :=
  C127_no_prepare_partial (ps := [.text [97, 61], .dec (-42), .percent, .uns 7]) (by
    intro p hp
    simp only [List.mem_cons, List.not_mem_nil, or_false] at hp
    rcases hp with rfl | rfl | rfl | rfl <;> simp [Piece.Ok]) [] [62] (by decide +kernel)

/-- C127: a specifier without an argument is an exception; the string may have been extended by then. -/
theorem C127_missing {ps : List Piece} (h : ∀ p ∈ ps, p.Ok) {c : Nat} (hc : c ≠ 37) (rest str : List Nat) :
    ∃ s, noPrepare str (fmtOf ps ++ 37 :: c :: rest) (argsOf ps) = .throw s ∧ s <+: str ++ outOf ps := by
  obtain ⟨p', o', e1, e2⟩ := scan_pieces ps h [] (37 :: c :: rest) [] str
  rw [List.append_nil] at e1
  refine ⟨o', ?_, ⟨p', by rw [e2]; simp⟩⟩
  unfold noPrepare
  rw [e1, scan, if_pos rfl, if_neg hc]
  rfl

example : ∃ s, noPrepare [] [97, 37, 100, 98] [] = .throw s ∧ s <+: [97] :=
  C127_missing (ps := [.text [97]]) (by simp [Piece.Ok]) (c := 100) (by decide) [98] []

/-- C127: `sprintf_calc_space` announces the number of characters that `sprintf_no_prepare` appends, and throws when it throws, for
every format and all arguments that are no floating point numbers. -/
theorem C127_calc_space {as : List Arg} (h : ∀ a ∈ as, a.ty ≠ .floating) (str fmt : List Nat) :
    (∀ s n, noPrepare str fmt as = .ok s n → calcSpace fmt as = .ok () n) ∧
    (∀ s, noPrepare str fmt as = .throw s → calcSpace fmt as = .throw ()) ∧
    (noPrepare str fmt as = .ub → calcSpace fmt as = .ub) := by
  have hs := space_scan as fmt [] str h 0 0
  unfold noPrepare calcSpace
  generalize scan as fmt [] str = o at hs
  generalize space as fmt 0 0 = o' at hs
  match o, o', hs with
  | .ok s u, .ok _ n, hs =>
    refine ⟨fun s' n' hq => ?_, fun s' hq => (by cases hq), fun hq => (by cases hq)⟩
    have hq : Out.ok s (((s.length : Int) - str.length) % W) = Out.ok s' n' := hq
    injection hq with h1 h2
    rw [← h2, show n = _ from hs]
    congr 2
    simp only [List.length_nil]
    omega
  | .throw _, .throw _, _ => exact ⟨fun _ _ hq => (by cases hq), fun _ _ => rfl, fun hq => (by cases hq)⟩
  | .diverge, .diverge, _ => exact ⟨fun _ _ hq => (by cases hq), fun _ hq => (by cases hq), fun hq => (by cases hq)⟩
  | .ub, .ub, _ => exact ⟨fun _ _ hq => (by cases hq), fun _ hq => (by cases hq), fun _ => rfl⟩

example : calcSpace [97, 37, 100, 37, 99] [⟨.i32, -42⟩, ⟨.narrow, 65⟩] = .ok () 6 :=
  (C127_calc_space (as := [⟨.i32, -42⟩, ⟨.narrow, 65⟩]) (by simp) [] [97, 37, 100, 37, 99]).1 [97, 45, 52, 50, 54, 53] 6 (by rfl)

/-- C127, the violation: for a floating point number with `%f` six characters are announced, and none is printed. -/
theorem C127_calc_space_float (str : List Nat) (v : Int) :
    calcSpace [37, 102] [⟨.floating, v⟩] = .ok () 6 ∧ noPrepare str [37, 102] [⟨.floating, v⟩] = .ok str 0 := by
  have hv : verdict 102 ⟨.floating, v⟩ = .eat := by simp [verdict]
  refine ⟨?_, ?_⟩
  · unfold calcSpace
    rw [space, if_pos rfl, if_neg (by decide)]
    simp only [hv, specLen]
    rfl
  · unfold noPrepare
    rw [scan, if_pos rfl, if_neg (by decide)]
    have ho : specOut 102 ⟨.floating, v⟩ = .ok [] := by
      unfold specOut
      rw [if_neg (by decide), if_neg (by decide), if_neg (by decide)]
    simp only [hv, ho, scan, List.append_nil]
    show Out.ok str (((str.length : Int) - str.length) % W) = _
    simp

/-- C127, the violation for the least `int`: printing it is undefined, wherever it stands. -/
theorem C127_least_int {ps : List Piece} (h : ∀ p ∈ ps, p.Ok) (rest str : List Nat) (xs : List Arg) :
    noPrepare str (fmtOf ps ++ 37 :: 100 :: rest) (argsOf ps ++ ⟨.i32, -2 ^ 31⟩ :: xs) = .ub := by
  obtain ⟨p', o', e1, e2⟩ := scan_pieces ps h (⟨.i32, -2 ^ 31⟩ :: xs) (37 :: 100 :: rest) [] str
  unfold noPrepare
  rw [e1, scan, if_pos rfl, if_neg (by decide)]
  simp only [verdict_d, Arg.isIntegral, if_true]
  unfold specOut
  rw [if_neg (by decide), if_pos rfl, show toI32 (-2 ^ 31) = -2 ^ 31 from toI32_eq (by omega) (by omega), (itoa_min_ub _).1]
  rfl

example : noPrepare [] [97, 37, 100] [⟨.i32, -2 ^ 31⟩] = .ub := C127_least_int (ps := [.text [97]]) (by simp [Piece.Ok]) [] [] []

/-- C127, the violation for `%c`: a character is printed as the number of its code. -/
theorem C127_char {ch : Nat} (hc : ch < 256) (str : List Nat) :
    ∃ n, noPrepare str [37, 99] [⟨.narrow, ch⟩] = .ok (str ++ decimal ch) n := by
  refine ⟨((str ++ decimal ch).length - (str.length : Int)) % W, ?_⟩
  unfold noPrepare
  rw [scan, if_pos rfl, if_neg (by decide)]
  have hv : verdict 99 ⟨.narrow, ch⟩ = .eat := by simp [verdict]
  have e : ((ch : Int) % 256).toNat = ch := by omega
  have ho : specOut 99 ⟨.narrow, ch⟩ = .ok (decimal ch) := by
    unfold specOut
    rw [if_pos rfl, e, itoaU32_eq (by omega)]
    rfl
  simp only [hv, ho, scan, List.append_nil]
  rfl

example : ∃ n, noPrepare [] [37, 99] [⟨.narrow, 65⟩] = .ok [54, 53] n := C127_char (ch := 65) (by decide) []

/-- C127, the violation for `%i`, `%o`, `%x` and `%X`, and for all floating point specifiers: the argument is taken and nothing printed. -/
theorem C127_silent {c : Nat} {a : Arg} (h : (c ∈ [88, 105, 111, 120] ∧ a.isIntegral = true) ∨ (c ∈ [65, 69, 70, 71, 97, 101, 102, 103] ∧ a.ty = .floating))
    (str : List Nat) : noPrepare str [37, c] [a] = .ok str 0 := by
  have hv : verdict c a = .eat := by
    rcases h with ⟨h1, h2⟩ | ⟨h1, h2⟩
    · simp only [List.mem_cons, List.not_mem_nil, or_false] at h1
      rcases h1 with rfl | rfl | rfl | rfl <;> simp [verdict, h2]
    · unfold verdict
      rw [if_pos h1, if_pos h2]
  have hc : c ≠ 99 ∧ c ≠ 100 ∧ c ≠ 117 ∧ c ≠ 37 := by
    rcases h with ⟨h1, _⟩ | ⟨h1, _⟩ <;> (simp only [List.mem_cons, List.not_mem_nil, or_false] at h1; omega)
  have ho : specOut c a = .ok [] := by
    unfold specOut
    rw [if_neg hc.1, if_neg hc.2.1, if_neg hc.2.2.1]
  unfold noPrepare
  rw [scan, if_pos rfl, if_neg hc.2.2.2]
  simp only [hv, ho, scan, List.append_nil]
  show Out.ok str (((str.length : Int) - str.length) % W) = _
  simp

example : noPrepare [62] [37, 120] [⟨.i32, 255⟩] = .ok [62] 0 := C127_silent (.inl ⟨by simp, rfl⟩) [62]

/-! ### C128 -/

theorem prep_plain {as : List Arg} {c : Nat} {f cur : List Nat} {r : Int} (hc : c ≠ 37) : prep as (c :: f) cur r = prep as f (cur ++ [c]) r := by
  cases f with
  | nil => simp [prep, hc]
  | cons d f => exact if_neg hc

theorem prep_text {as : List Arg} {f : List Nat} {r : Int} : ∀ (l cur : List Nat), (∀ c ∈ l, c ≠ 37) →
    prep as (l ++ f) cur r = prep as f (cur ++ l) r := by
  intro l
  induction l with
  | nil => intro cur _; simp
  | cons c l ih =>
    intro cur h
    rw [List.cons_append, prep_plain (h c (by simp)), ih _ fun x hx => h x (by simp [hx])]
    simp

/-- The nodes that are no arguments have text, and no text contains a zero. -/
theorem prep_nodes : ∀ (as : List Arg) (f cur : List Nat) (r : Int), (∀ c ∈ f, c ≠ 0) → (∀ c ∈ cur, c ≠ 0) → ∀ (ns : List Node) (z : Int),
    prep as f cur r = .ok () (ns, z) → ∀ n ∈ ns, (n.arg = none → n.text ≠ []) ∧ ∀ c ∈ n.text, c ≠ 0 := by
  have hone : ∀ {l : List Nat} {n : Node}, l ≠ [] → (∀ c ∈ l, c ≠ 0) → n ∈ [(⟨l, none⟩ : Node)] → (n.arg = none → n.text ≠ []) ∧ ∀ c ∈ n.text, c ≠ 0 := by
    intro l n h1 h2 hn
    rw [List.mem_singleton] at hn
    subst hn
    exact ⟨fun _ => h1, h2⟩
  have happ : ∀ {cur : List Nat} {c : Nat}, (∀ x ∈ cur, x ≠ 0) → c ≠ 0 → ∀ x ∈ cur ++ [c], x ≠ 0 := by
    intro cur c h1 h2 x hx
    rw [List.mem_append, List.mem_singleton] at hx
    rcases hx with hx | rfl
    · exact h1 x hx
    · exact h2
  have hbind : ∀ {o : Out Unit (List Node × Int)} {nd : Node} {g : Int → Int} {ns : List Node} {z : Int},
      (o.bind fun _ x => .ok () (nd :: x.1, g x.2)) = .ok () (ns, z) → (∀ ns' z', o = .ok () (ns', z') → ∀ n ∈ ns',
        (n.arg = none → n.text ≠ []) ∧ ∀ c ∈ n.text, c ≠ 0) → ((nd.arg = none → nd.text ≠ []) ∧ ∀ c ∈ nd.text, c ≠ 0) →
      ∀ n ∈ ns, (n.arg = none → n.text ≠ []) ∧ ∀ c ∈ n.text, c ≠ 0 := by
    intro o nd g ns z h1 h2 h3 n hn
    cases o with
    | ok u x =>
      have h1 : Out.ok () (nd :: x.1, g x.2) = Out.ok () (ns, z) := h1
      injection h1 with _ h1
      injection h1 with h1 _
      rw [← h1, List.mem_cons] at hn
      rcases hn with rfl | hn
      · exact h3
      · exact h2 x.1 x.2 rfl n hn
    | throw => cases h1
    | diverge => cases h1
    | ub => cases h1
  intro as f cur r
  fun_induction prep as f cur r with
  | case1 as cur r =>
    intro _ h2 ns z h n hn
    injection h with _ h
    injection h with h _
    subst h
    split at hn
    · cases hn
    · rename_i hc
      exact hone hc h2 hn
  | case2 => intro _ _ _ _ h; cases h
  | case3 cur r a as =>
    intro _ h2 ns z h n hn
    injection h with _ h
    injection h with h _
    subst h
    exact hone (by simp) (by simp) hn
  | case4 as c cur r hc =>
    intro h1 h2 ns z h n hn
    injection h with _ h
    injection h with h _
    subst h
    exact hone (by simp) (happ h2 (h1 c (by simp))) hn
  | case5 as f cur r ih =>
    intro h1 h2 ns z h
    exact hbind (g := id) h (ih (fun c hc => h1 c (by simp [hc])) (by simp)) ⟨fun _ => by simp, happ h2 (by decide)⟩
  | case6 => intro _ _ _ _ h; cases h
  | case7 => intro _ _ _ _ h; cases h
  | case8 d f cur r hd a as hv ih =>
    intro h1 h2 ns z h
    exact hbind (g := fun x => (cur.length + 1 + (r + (0 - 1) + x)) % W) h
      (ih (fun c hc => h1 c (by rw [List.mem_cons]; exact .inr hc)) (by simp)) ⟨fun hq => (by cases hq), h2⟩
  | case9 d f cur r hd a as hv m hm ih =>
    intro h1 h2 ns z h
    exact hbind (g := fun x => (cur.length + 2 + (r + (m - 2) + x)) % W) h
      (ih (fun c hc => h1 c (by simp [hc])) (by simp)) ⟨fun hq => (by cases hq), h2⟩
  | case10 => intro _ _ _ _ h; cases h
  | case11 => intro _ _ _ _ h; cases h
  | case12 as c d f cur r hc ih =>
    intro h1 h2 ns z h
    exact ih (fun c hc => h1 c (by rw [List.mem_cons]; exact .inr hc)) (happ h2 (h1 c (by simp))) ns z h

/-- Writing text through a view that already has the size of the string is undefined. -/
theorem text_ub {v : View} (hv : v.buf.length ≤ v.p + v.n) {l : List Nat} (hl : l ≠ []) (h0 : ∀ c ∈ l, c ≠ 0) : v.text l = .ub := by
  cases l with
  | nil => exact absurd rfl hl
  | cons c l =>
    unfold View.text
    rw [if_pos (by simp)]
    unfold View.append View.pushAll View.push
    rw [if_neg (by omega), if_neg (by have := h0 c (by simp); omega)]
    rfl

theorem itoaSwitch_length (size top : Nat) : ∀ (n u : Nat) (w w' : List Nat), itoaSwitch size top n u w = .ok w' →
    w'.length = w.length + n + 1 ∧ top - w.length < size := by
  intro n
  induction n with
  | zero =>
    intro u w w' h
    unfold itoaSwitch put at h
    split at h
    · injection h with h; subst h; rename_i hc; exact ⟨by simp, hc.2⟩
    · cases h
  | succ n ih =>
    intro u w w' h
    unfold itoaSwitch put at h
    split at h
    · rename_i hc
      obtain ⟨h1, _⟩ := ih _ _ _ h
      rw [List.length_cons] at h1
      exact ⟨by omega, hc.2⟩
    · cases h

/-- A view that has no room: `push_back` of a character other than zero is undefined. -/
theorem push_ub {v : View} (hv : v.buf.length ≤ v.p + v.n) {c : Nat} (h0 : c ≠ 0) : v.push c = .ub := by
  unfold View.push
  rw [if_neg (by omega), if_neg (by omega)]

theorem digits_keeps {maxD u d : Nat} {v v' : View} {x : Nat} (h : v.digits maxD u d = .ok v' x) (hv : v.buf.length ≤ v.p + v.n) :
    v'.buf.length ≤ v'.p + v'.n := by
  unfold View.digits at h
  cases hq : itoaView maxD (v.buf.length - v.p) u d with
  | none => rw [hq] at h; cases h
  | some r =>
    rw [hq] at h
    cases r with
    | ok w =>
      injection h with h1 _
      subst h1
      unfold itoaView at hq
      split at hq
      · cases hq
      · injection hq with hq
        obtain ⟨h1, h2⟩ := itoaSwitch_length _ _ _ _ _ _ hq
        simp only [List.length_append, List.length_take, List.length_drop, List.length_nil] at h1 h2 ⊢
        omega
    | diverge => cases h
    | ub => cases h

/-- An argument written through a view without room leaves it without room. -/
theorem arg_keeps {a : Arg} {d : Nat} {v v' : View} {x : Nat} (h : v.arg a d = .ok v' x) (hv : v.buf.length ≤ v.p + v.n) :
    v'.buf.length ≤ v'.p + v'.n := by
  have hs : ∀ {bits maxD : Nat} {i : Int}, v.signed bits maxD i d = .ok v' x → v'.buf.length ≤ v'.p + v'.n := by
    intro bits maxD i h
    unfold View.signed at h
    split at h
    · cases hq : v.digits maxD i.toNat d with
      | ok v1 y =>
        rw [hq] at h
        injection h with h1 _
        subst h1
        exact digits_keeps hq hv
      | throw => rw [hq] at h; cases h
      | diverge => rw [hq] at h; cases h
      | ub => rw [hq] at h; cases h
    · split at h
      · cases h
      · rw [push_ub hv (by decide)] at h
        cases h
  have ho : liftV (v.append (List.replicate d 63)) (fun v' => Out.ok v' d) = .ok v' x → v'.buf.length ≤ v'.p + v'.n := by
    intro h
    cases d with
    | zero =>
      unfold View.append at h
      simp only [List.replicate_zero, View.pushAll, Res.bind_ok] at h
      unfold View.null at h
      rw [if_neg (by omega)] at h
      split at h
      · injection h with h1 _
        subst h1
        exact hv
      · cases h
    | succ d =>
      unfold View.append at h
      simp only [List.replicate_succ, View.pushAll, push_ub hv (show 63 ≠ 0 by decide)] at h
      cases h
  unfold View.arg at h
  cases ht : a.ty <;> rw [ht] at h
  all_goals first | exact hs h | exact digits_keeps h hv | exact ho h

/-- Through a view without room the nodes are never all written. -/
theorem viewOut_never : ∀ (as : List Arg) (ns : List Node) (v : View), (∀ n ∈ ns, (n.arg = none → n.text ≠ []) ∧ ∀ c ∈ n.text, c ≠ 0) →
    v.buf.length ≤ v.p + v.n → ∀ v' x, viewOut as ns v ≠ .ok v' x := by
  intro as ns
  induction ns generalizing as with
  | nil => intro v _ _ v' x h; unfold viewOut at h; cases h
  | cons n ns ih =>
    intro v h hv v' x
    have hn := h n (by simp)
    by_cases ht : n.text = []
    · have e : v.text n.text = .ok v := by rw [ht]; rfl
      cases hq : n.arg with
      | none => exact absurd ht (hn.1 hq)
      | some d =>
        cases as with
        | nil =>
          unfold viewOut liftV
          rw [e, hq]
          exact fun h => by cases h
        | cons a as =>
          unfold viewOut liftV
          rw [e, hq]
          show (v.arg a d).bind _ ≠ _
          cases ha : v.arg a d with
          | ok v1 y =>
            show (viewOut as ns v1).bind _ ≠ _
            cases hw : viewOut as ns v1 with
            | ok v2 z => exact absurd hw (ih as v1 (fun m hm => h m (by simp [hm])) (arg_keeps ha hv) v2 z)
            | throw => exact fun h => by cases h
            | diverge => exact fun h => by cases h
            | ub => exact fun h => by cases h
          | throw => exact fun h => by cases h
          | diverge => exact fun h => by cases h
          | ub => exact fun h => by cases h
    · cases as <;>
      · unfold viewOut liftV
        rw [text_ub hv ht hn.2]
        exact fun h => by cases h

/-- C128, the violation.  `sprintf(str, fmt, args…)` returns normally for no string, no format and no arguments: it enlarges the string by the size
computed and gives the whole string, not its new end, to a view that appends behind it.  Text is written behind the string (`_ub`), a format of
specifiers only ends with the exception "fmt_list out of bound" (`_throw`). -/
theorem C128_sprintf_never (mem : Nat) (str fmt : List Nat) (h : ∀ c ∈ fmt, c ≠ 0) (as : List Arg) (s : List Nat) (n : Int) :
    sprintf mem str fmt as ≠ .ok s n := by
  unfold sprintf
  cases hq : prep as fmt [] 0 with
  | ok u x =>
    obtain ⟨ns, z⟩ := x
    simp only
    split
    · exact fun h => by cases h
    · have hnv := viewOut_never as ns ⟨str.take ((str.length + z) % W).toNat ++ List.replicate (((str.length + z) % W).toNat - str.length) 0, 0,
        ((str.length + z) % W).toNat⟩ (prep_nodes as fmt [] 0 h (by simp) ns z hq) (by simp only [List.length_append, List.length_take, List.length_replicate]; omega)
      split
      · rename_i v y hw; exact absurd hw (hnv v y)
      all_goals exact fun h => by cases h
  | throw => exact fun h => by cases h
  | diverge => exact fun h => by cases h
  | ub => exact fun h => by cases h

example : ∀ s n, sprintf 100 [] [97, 37, 100] [⟨.i32, 5⟩] ≠ .ok s n := C128_sprintf_never 100 [] _ (by simp) _

theorem prep_end {l cur : List Nat} {as : List Arg} {r : Int} (h : ∀ c ∈ l, c ≠ 37) :
    prep as l cur r = .ok () (if cur ++ l = [] then [] else [⟨cur ++ l, none⟩], ((cur ++ l).length + r) % W) := by
  have := prep_text (as := as) (f := []) (r := r) l cur h
  rw [List.append_nil] at this
  rw [this, prep]

/-- C128.  Any text at all, with memory for the result, is undefined behaviour in `sprintf`. -/
theorem C128_sprintf_ub {mem : Nat} {str l : List Nat} (hl : l ≠ []) (h : ∀ c ∈ l, c ≠ 37 ∧ c ≠ 0) (hm : str.length + l.length ≤ mem) (hw : mem < W) :
    sprintf mem str l [] = .ub := by
  unfold sprintf
  rw [prep_end (fun c hc => (h c hc).1)]
  simp only [List.nil_append, if_neg hl]
  have e : ((str.length + ((l.length + 0 : Int) % W)) % W).toNat = str.length + l.length := by
    unfold W at *
    omega
  rw [e, if_neg (by omega)]
  unfold viewOut liftV
  rw [text_ub (by simp) hl (fun c hc => (h c hc).2)]

example : sprintf 100 [97] [98] [] = .ub := C128_sprintf_ub (by simp) (by simp) (by decide) (by decide)

/-! ### `sprintf_direct` -/

theorem addSigned_eq {i : Int} (h1 : -2 ^ 31 < i) (h2 : i < 2 ^ 31) (out : List Nat) :
    addSigned 32 itoaU32D i (decimalInt i).length out = .ok (out ++ decimalInt i) (decimalInt i).length := by
  unfold addSigned decimalInt
  by_cases hi : 0 ≤ i
  · have e : i.toNat = i.natAbs := by omega
    rw [if_pos hi, if_neg (by omega), e, itoaU32D_eq (by omega)]
    rfl
  · have e : (-i).toNat = i.natAbs := by omega
    have hl := (decimal_length_le (u := i.natAbs) (k := 10) (by omega)).2 (by omega)
    have e2 : ((45 :: decimal i.natAbs).length + W - 1) % W = (decimal i.natAbs).length := by
      rw [List.length_cons]
      unfold W
      omega
    rw [if_neg hi, if_neg (by omega), if_pos (by omega), e, e2, itoaU32D_eq (by omega)]
    simp [addDigits, Out.bind]

/-- The number of characters announced for a piece. -/
theorem specLen_dec {i : Int} (h1 : -2 ^ 31 < i) (h2 : i < 2 ^ 31) : specLen 100 ⟨.i32, i⟩ = .ok ((decimalInt i).length : Int) := by
  unfold specLen
  rw [if_neg (by decide), if_pos rfl]
  simp only
  rw [toI32_eq (by omega) h2, (countDigits_signed_partial _).1 (by omega) h2]
  unfold decimalLen decimalInt
  split <;> simp [Nat.add_comm]

theorem specLen_uns {u : Nat} (h : u < 2 ^ 32) : specLen 117 ⟨.u32, u⟩ = .ok ((decimal u).length : Int) := by
  unfold specLen
  have e : ((u : Int) % 2 ^ 32).toNat = u := by omega
  rw [if_neg (by decide), if_neg (by decide), if_pos rfl, e, (countDigits_unsigned 0 _).1 (by omega)]
  simp

theorem prep_single {i : Int} (h1 : -2 ^ 31 < i) (h2 : i < 2 ^ 31) (k : Int) :
    prep [⟨.i32, i⟩] [37, 100] [] k = .ok () ([⟨[], some (decimalInt i).length⟩], (k + (decimalInt i).length) % W) := by
  rw [prep, if_pos rfl, if_neg (by decide)]
  simp only [verdict_d, Arg.isIntegral, if_true, specLen_dec h1 h2, prep, Out.bind, List.length_nil, Int.toNat_natCast]
  congr 2
  unfold W
  omega

theorem viewOut_single {a : Arg} {d x : Nat} {v v1 : View} (h : v.arg a d = .ok v1 x) : viewOut [a] [⟨[], some d⟩] v = .throw v1 := by
  have e : v.text [] = .ok v := rfl
  unfold viewOut liftV
  simp only [e, h, Out.bind, viewOut]

theorem signed_pos {bits maxD d : Nat} {i : Int} {v : View} (h : 0 ≤ i) :
    v.signed bits maxD i d = (v.digits maxD i.toNat d).bind fun v' _ => .ok v' d := by
  unfold View.signed
  exact if_pos h

theorem view_dec {i : Int} (h1 : 0 ≤ i) (h2 : i < 2 ^ 31) {b : List Nat} (n : Nat) (hb : (decimalInt i).length ≤ b.length) :
    View.arg ⟨.i32, i⟩ (decimalInt i).length ⟨b, 0, n⟩ =
      .ok ⟨decimalInt i ++ b.drop (decimalInt i).length, (decimalInt i).length, n⟩ (decimalInt i).length := by
  have hd : decimalInt i = decimal i.toNat := by
    unfold decimalInt
    rw [if_neg (by omega), show i.natAbs = i.toNat by omega]
  rw [hd] at hb ⊢
  have hl := (decimal_length_le (u := i.toNat) (k := 10) (by omega)).2 (by omega)
  show View.signed 32 10 i _ _ = _
  rw [signed_pos h1]
  unfold View.digits
  simp only
  rw [itoaView_eq hl (by simpa using hb)]
  simp [Out.bind]

/-- C128.  `sprintf(str, "%d", i)` enlarges the string, writes the number over its beginning and throws. -/
theorem C128_sprintf_throw {mem : Nat} {str : List Nat} {i : Int} (h1 : 0 ≤ i) (h2 : i < 2 ^ 31) (hm : str.length + 10 ≤ mem) (hw : mem < W) :
    sprintf mem str [37, 100] [⟨.i32, i⟩] = .throw (decimalInt i ++ (str ++ List.replicate (decimalInt i).length 0).drop (decimalInt i).length) := by
  have hl : (decimalInt i).length ≤ 10 := by
    unfold decimalInt
    rw [if_neg (by omega)]
    exact (decimal_length_le (u := i.natAbs) (k := 10) (by omega)).2 (by omega)
  have e : ((str.length + ((0 + (decimalInt i).length : Int) % W)) % W).toNat = str.length + (decimalInt i).length := by
    unfold W at *
    omega
  unfold sprintf
  rw [prep_single (by omega) h2]
  simp only
  rw [e, if_neg (by omega), List.take_of_length_le (by omega), Nat.add_sub_cancel_left,
    viewOut_single (view_dec h1 h2 _ (by simp))]

example : sprintf 100 [97, 98, 99] [37, 100] [⟨.i32, 42⟩] = .throw [52, 50, 99, 0, 0] :=
  C128_sprintf_throw (mem := 100) (str := [97, 98, 99]) (i := 42) (by decide) (by decide) (by decide) (by decide)

theorem direct_pieces : ∀ (ps : List Piece), (∀ p ∈ ps, p.Ok ∧ p ≠ .percent) → ∀ (cur out : List Nat), ∃ ns m,
    prep (argsOf ps) (fmtOf ps) cur 0 = .ok () (ns, ((cur.length + (outOf ps).length : Nat) : Int) % W) ∧
    directOut (argsOf ps) ns out = .ok (out ++ cur ++ outOf ps) m := by
  intro ps
  induction ps with
  | nil =>
    intro _ cur out
    show ∃ ns m, prep [] [] cur 0 = _ ∧ directOut [] ns out = _
    by_cases hc : cur = []
    · subst hc
      exact ⟨[], 0, by simp [prep, outOf], by simp [directOut, outOf]⟩
    · exact ⟨[⟨cur, none⟩], cur.length, by simp [prep, hc, outOf], by simp [directOut, outOf]⟩
  | cons p ps ih =>
    intro h cur out
    have ih := ih (fun q hq => h q (by simp [hq]))
    obtain ⟨hp, hnp⟩ := h p (by simp)
    cases p with
    | text l =>
      obtain ⟨ns, m, e1, e2⟩ := ih (cur ++ l) out
      refine ⟨ns, m, ?_, ?_⟩
      · show prep (argsOf ps) (l ++ fmtOf ps) cur 0 = _
        rw [prep_text l cur hp, e1]
        simp [outOf, Piece.out, Nat.add_assoc]
      · show directOut (argsOf ps) ns out = _
        rw [e2]
        simp [outOf, Piece.out]
    | percent => exact absurd rfl hnp
    | dec i =>
      obtain ⟨ns, m, e1, e2⟩ := ih [] (out ++ cur ++ decimalInt i)
      refine ⟨⟨cur, some (decimalInt i).length⟩ :: ns, cur.length + (decimalInt i).length + m, ?_, ?_⟩
      · show prep (⟨.i32, i⟩ :: argsOf ps) (37 :: 100 :: fmtOf ps) cur 0 = _
        rw [prep, if_pos rfl, if_neg (by decide)]
        simp only [verdict_d, Arg.isIntegral, if_true, specLen_dec hp.1 hp.2, e1]
        show Out.ok () _ = _
        simp only [outOf, List.flatMap_cons, Piece.out, List.length_append, List.length_nil, Int.toNat_natCast]
        congr 2
        push_cast
        unfold W
        omega
      · show directOut (⟨.i32, i⟩ :: argsOf ps) _ out = _
        rw [directOut]
        simp only [addArg]
        rw [addSigned_eq hp.1 hp.2]
        show (directOut (argsOf ps) ns (out ++ cur ++ decimalInt i)).bind _ = _
        rw [e2]
        simp [Out.bind, outOf, Piece.out]
    | uns u =>
      obtain ⟨ns, m, e1, e2⟩ := ih [] (out ++ cur ++ decimal u)
      refine ⟨⟨cur, some (decimal u).length⟩ :: ns, cur.length + (decimal u).length + m, ?_, ?_⟩
      · show prep (⟨.u32, u⟩ :: argsOf ps) (37 :: 117 :: fmtOf ps) cur 0 = _
        rw [prep, if_pos rfl, if_neg (by decide)]
        simp only [verdict_u, Arg.isIntegral, if_true, specLen_uns hp, e1]
        show Out.ok () _ = _
        simp only [outOf, List.flatMap_cons, Piece.out, List.length_append, List.length_nil, Int.toNat_natCast]
        congr 2
        push_cast
        unfold W
        omega
      · show directOut (⟨.u32, u⟩ :: argsOf ps) _ out = _
        rw [directOut]
        simp only [addArg, Int.toNat_natCast]
        rw [itoaU32D_eq hp]
        show (directOut (argsOf ps) ns (out ++ cur ++ decimal u)).bind _ = _
        rw [e2]
        simp [Out.bind, outOf, Piece.out]

/-- C128 (partial: not for formats with `%%`, not for other specifiers and types).  `sprintf_direct(str, fmt, args…)` appends the text with `%d` and
`%u` replaced by the decimal numbers, and returns the number of characters appended. -/
theorem C128_direct_partial {ps : List Piece} (h : ∀ p ∈ ps, p.Ok ∧ p ≠ .percent) (str : List Nat) (hl : (outOf ps).length < W) :
    direct str (fmtOf ps) (argsOf ps) = .ok (str ++ outOf ps) (outOf ps).length := by
  obtain ⟨ns, m, e1, e2⟩ := direct_pieces ps h [] str
  unfold direct
  rw [e1]
  simp only [e2, Out.bind, List.append_nil, List.length_nil, Nat.zero_add]
  rw [Int.emod_eq_of_lt (by omega) (by omega)]

example : direct [62] [97, 61, 37, 100, 44, 37, 117, 46] [⟨.i32, -42⟩, ⟨.u32, 7⟩] = .ok [62, 97, 61, 45, 52, 50, 44, 55, 46] 8 :=
  C128_direct_partial (ps := [.text [97, 61], .dec (-42), .text [44], .uns 7, .text [46]]) (by
    intro p hp
    simp only [List.mem_cons, List.not_mem_nil, or_false] at hp
    rcases hp with rfl | rfl | rfl | rfl | rfl <;> simp [Piece.Ok]) [62] (by decide +kernel)

/-- C128, the violation for `%%`: without arguments `sprintf_direct` writes nothing behind the first `%%`, and the size it returns counts that text
instead of the one written. -/
theorem C128_direct_percent {l m : List Nat} (h1 : ∀ c ∈ l, c ≠ 37) (h2 : ∀ c ∈ m, c ≠ 37) (str : List Nat) :
    direct str (l ++ 37 :: 37 :: m) [] = .ok (str ++ l ++ [37]) (((m.length : Int) - 1) % W) := by
  unfold direct
  rw [prep_text l [] h1, prep, if_pos rfl, if_pos rfl, prep_end h2]
  simp only [Out.bind, List.nil_append, directOut, List.append_assoc]
  rfl

example : direct [] [97, 37, 37, 98, 99] [] = .ok [97, 37] 1 := C128_direct_percent (l := [97]) (m := [98, 99]) (by simp) (by simp) []

/-- C128, the violation for `%%` before an argument: with one argument it is not written, with more there is an exception. -/
theorem C128_direct_percent_args {l m : List Nat} (h1 : ∀ c ∈ l, c ≠ 37) (h2 : ∀ c ∈ m, c ≠ 37) {i j : Int} (hi : -2 ^ 31 < i ∧ i < 2 ^ 31)
    (hj : -2 ^ 31 < j ∧ j < 2 ^ 31) (str : List Nat) :
    (∃ n, direct str (l ++ 37 :: 37 :: (m ++ [37, 100])) [⟨.i32, i⟩] = .ok (str ++ l ++ [37]) n) ∧
    direct str (l ++ 37 :: 37 :: (m ++ [37, 100, 37, 100])) [⟨.i32, i⟩, ⟨.i32, j⟩] = .throw (str ++ l ++ [37]) := by
  unfold direct
  refine ⟨?_, ?_⟩
  · rw [prep_text l [] h1, prep, if_pos rfl, if_pos rfl, prep_text m [] h2, prep, if_pos rfl, if_neg (by decide)]
    simp only [verdict_d, Arg.isIntegral, if_true, specLen_dec hi.1 hi.2, prep, Out.bind, directOut, List.nil_append, List.append_assoc]
    exact ⟨_, rfl⟩
  · rw [prep_text l [] h1, prep, if_pos rfl, if_pos rfl, prep_text m [] h2, prep, if_pos rfl, if_neg (by decide)]
    simp only [verdict_d, Arg.isIntegral, if_true, specLen_dec hi.1 hi.2, prep_single hj.1 hj.2, Out.bind, directOut, List.nil_append, List.append_assoc]
    rfl

example : ∃ n, direct [] [37, 37, 37, 100] [⟨.i32, 5⟩] = .ok [37] n :=
  (C128_direct_percent_args (l := []) (m := []) (i := 5) (j := 5) (by simp) (by simp) (by decide) (by decide) []).1

/-- C128, the violation for a `%` at the end of the format with an argument left: the text before it is lost. -/
theorem C128_direct_tail {l : List Nat} (h1 : ∀ c ∈ l, c ≠ 37) (a : Arg) (str : List Nat) (hl : l.length + 1 < W) :
    direct str (l ++ [37]) [a] = .ok (str ++ [37]) (l.length + 1) := by
  unfold direct
  rw [prep_text l [] h1, prep, if_pos rfl]
  simp only [Out.bind, directOut, List.nil_append, if_true]
  rw [Int.emod_eq_of_lt (by omega) (by omega)]
  simp

example : direct [] [97, 98, 37] [⟨.i32, 5⟩] = .ok [37] 3 := C128_direct_tail (l := [97, 98]) (by simp) _ [] (by decide)

end Verif.Fmt
