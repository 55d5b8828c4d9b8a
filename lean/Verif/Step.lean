/-
Stepping iterators: `advance`, `next`, `prev`, `distance`, and the iterators of strings (C152).

IT = src/jstd/iterator.h, SI = src/jstd/string/string_iterator.h

A sequence of `n` elements has the positions 0 to `n`; an iterator is a position.  Going behind the end or before the beginning is undefined.
-/
import Verif.Ranges

namespace Verif.Step
open Verif.Ranges (load shift)

/-! ### The model -/

/-- The iterator categories that `iterator_utils` tells apart (IT:27-63); forward iterators are treated as input iterators. -/
inductive Cat where
  | input
  | bidir
  | random
  deriving DecidableEq

/-- `++where` in a sequence of `n` elements. -/
def inc (n p : Nat) : Res Nat := if p < n then .ok (p + 1) else .ub

/-- `--where`. -/
def dec (p : Nat) : Res Nat := if 0 < p then .ok (p - 1) else .ub

/-- `for (; 0 < offset; --offset) ++where;` (IT:171-173, 180-182), with a bound on the rounds; the offset that remains and the position. -/
def up (n : Nat) : Nat → Int → Nat → Res (Int × Nat)
  | 0, _, _ => .diverge
  | f + 1, off, p => if 0 < off then (inc n p).bind fun q => up n f (off - 1) q else .ok (off, p)

/-- `for (; offset < 0; ++offset) --where;` (IT:183-185). -/
def down : Nat → Int → Nat → Res (Int × Nat)
  | 0, _, _ => .diverge
  | f + 1, off, p => if off < 0 then (dec p).bind fun q => down f (off + 1) q else .ok (off, p)

/-- `iterator_utils::advance` (IT:167-199). -/
def advance (c : Cat) (n p : Nat) (off : Int) : Res Nat :=
  match c with
  | .input => (up n (off.natAbs + 1) off p).bind fun r => .ok r.2
  | .bidir => (up n (off.natAbs + 1) off p).bind fun r => (down (off.natAbs + 1) r.1 r.2).bind fun s => .ok s.2
  | .random => shift n p off

/-- `for (; first != last; ++first) ++offset;` (IT:209-211). -/
def count (n last : Nat) : Nat → Nat → Int → Res Int
  | 0, _, _ => .diverge
  | f + 1, p, off => if p ≠ last then (inc n p).bind fun q => count n last f q (off + 1) else .ok off

/-- `iterator_utils::distance` (IT:203-229); bidirectional iterators are counted too. -/
def distance (c : Cat) (n first last : Nat) : Res Int :=
  match c with
  | .random => .ok ((last : Int) - first)
  | _ => count n last (n + 2) first 0

/-- `iterator_utils::next` (IT:233-243). -/
def next (c : Cat) (n p : Nat) (off : Int) : Res Nat := advance c n p off

/-- `iterator_utils::prev` (IT:245-255): `-offset` overflows for the least `ptrdiff_t`. -/
def prev (c : Cat) (n p : Nat) (off : Int) : Res Nat := if off = -2 ^ 63 then .ub else advance c n p (-off)

/-- What an operator that returns an iterator gives back: `*this`, a value, or a reference to a variable of its own that no longer exists. -/
inductive Back where
  | it (p : Nat)
  | gone
  deriving DecidableEq

/-- Using what came back. -/
def Back.use : Back → Res Nat
  | .it p => .ok p
  | .gone => .ub

section Str
variable {V : Type}

/-- `begin()`, `end()` of a string (src/jstd/string/string_view.h:113-117). -/
def sbegin (_m : List V) : Nat := 0

def send (m : List V) : Nat := m.length

/-- `*it` (SI:51-56, 209-212). -/
def sload (m : List V) (it : Nat) : Res V := load m it

/-- `it += d` (SI:92-95, 246-249); the new position and what is returned.  `++it`, `--it`, `it -= d` are `it += 1`, `-1`, `-d` (SI:66-69, 79-82, 104-107, 220-223, 233-236, 258-261). -/
def sadd (m : List V) (it : Nat) (d : Int) : Res (Nat × Back) := (shift m.length it d).bind fun q => .ok (q, .it q)

/-- `it++` (SI:72-76, 226-230): the copy is returned by reference. -/
def spostInc (m : List V) (it : Nat) : Res (Nat × Back) := (sadd m it 1).bind fun r => .ok (r.1, .gone)

/-- `it--` (SI:85-89, 239-243). -/
def spostDec (m : List V) (it : Nat) : Res (Nat × Back) := (sadd m it (-1)).bind fun r => .ok (r.1, .gone)

/-- `it + d`, `it - d`, `d + it` (SI:98-101, 110-113, 163-169, 252-255, 264-267, 336-342): a copy is moved and returned by value. -/
def splus (m : List V) (it : Nat) (d : Int) : Res Nat := (sadd m it d).bind fun r => r.2.use

/-- `it - rhs` (SI:116-118, 270-272). -/
def sdiff (it rhs : Nat) : Int := (it : Int) - rhs

/-- `it[d]` (SI:126-128, 280-282). -/
def sindex (m : List V) (it : Nat) (d : Int) : Res V := (splus m it d).bind fun q => sload m q

/-- `it == rhs`, `it < rhs` (SI:131-133, 141-143, 285-287, 295-297). -/
def seq (it rhs : Nat) : Bool := it == rhs

def slt (it rhs : Nat) : Bool := decide (it < rhs)

/-- The others (SI:136-138, 146-158, 290-292, 300-312). -/
def sne (it rhs : Nat) : Bool := !seq it rhs
def sgt (it rhs : Nat) : Bool := slt rhs it
def sle (it rhs : Nat) : Bool := !slt rhs it
def sge (it rhs : Nat) : Bool := !slt it rhs

/-- `for (it = …; it != end(); ++it) out.push_back(*it);` (user code), with a bound on the rounds. -/
def swalk (m : List V) : Nat → Nat → Res (List V)
  | 0, _ => .diverge
  | f + 1, it =>
    if sne it (send m) then (sload m it).bind fun v => (sadd m it 1).bind fun r => (swalk m f r.1).bind fun l => .ok (v :: l)
    else .ok []

/-- `while (it != end()) out.push_back(*it++);` (user code). -/
def swalkPost (m : List V) : Nat → Nat → Res (List V)
  | 0, _ => .diverge
  | f + 1, it =>
    if sne it (send m) then
      (spostInc m it).bind fun r => r.2.use.bind fun q => (sload m q).bind fun v => (swalkPost m f r.1).bind fun l => .ok (v :: l)
    else .ok []

end Str

/-! ### Lemmas -/

theorem up_spec (n : Nat) : ∀ (f : Nat) (off : Int) (p : Nat), p ≤ n → off.toNat < f →
    up n f off p = if off ≤ 0 then .ok (off, p) else if (p : Int) + off ≤ n then .ok (0, ((p : Int) + off).toNat) else .ub := by
  intro f
  induction f with
  | zero => intro off p _ h; omega
  | succ f ih =>
    intro off p hp h
    unfold up
    by_cases h0 : 0 < off
    · rw [if_pos h0, if_neg (by omega)]
      unfold inc
      by_cases h1 : p < n
      · rw [if_pos h1, Res.bind_ok, ih _ _ (by omega) (by omega)]
        by_cases h2 : off - 1 ≤ 0
        · have : off = 1 := by omega
          subst this
          rw [if_pos h2, if_pos (by omega)]
          congr 2
        · rw [if_neg h2]
          have hq : ((p + 1 : Nat) : Int) + (off - 1) = p + off := by omega
          rw [hq]
      · rw [if_neg h1, if_neg (by omega)]
        rfl
    · rw [if_neg h0, if_pos (by omega)]

theorem down_spec : ∀ (f : Nat) (off : Int) (p : Nat), off.natAbs < f →
    down f off p = if 0 ≤ off then .ok (off, p) else if 0 ≤ (p : Int) + off then .ok (0, ((p : Int) + off).toNat) else .ub := by
  intro f
  induction f with
  | zero => intro off p h; omega
  | succ f ih =>
    intro off p h
    unfold down
    by_cases h0 : off < 0
    · rw [if_pos h0, if_neg (by omega)]
      unfold dec
      by_cases h1 : 0 < p
      · rw [if_pos h1, Res.bind_ok, ih _ _ (by omega)]
        have hq : ((p - 1 : Nat) : Int) + (off + 1) = p + off := by omega
        by_cases h2 : 0 ≤ off + 1
        · have : off = -1 := by omega
          subst this
          rw [if_pos h2, if_pos (by omega)]
          congr 2
          omega
        · rw [if_neg h2, hq]
      · rw [if_neg h1, if_neg (by omega)]
        rfl
    · rw [if_neg h0, if_pos (by omega)]

theorem count_spec (n last : Nat) (hl : last ≤ n) : ∀ (f p : Nat) (off : Int), p ≤ n → n + 1 - p < f →
    count n last f p off = if p ≤ last then .ok (off + ((last : Int) - p)) else .ub := by
  intro f
  induction f with
  | zero => intro p off _ h; omega
  | succ f ih =>
    intro p off hp h
    unfold count
    by_cases h0 : p ≠ last
    · rw [if_pos h0]
      unfold inc
      by_cases h1 : p < n
      · rw [if_pos h1, Res.bind_ok, ih _ _ (by omega) (by omega)]
        by_cases h2 : p ≤ last
        · rw [if_pos h2, if_pos (by omega)]
          congr 1
          omega
        · rw [if_neg h2, if_neg (by omega)]
      · rw [if_neg h1, if_neg (by omega)]
        rfl
    · rw [if_neg h0, if_pos (by omega)]
      congr 1
      omega

/-! ### C152 -/

/-- C152: `advance` by any offset, for bidirectional and random-access iterators: the position `offset` further, undefined exactly when there is none. -/
theorem C152_advance {c : Cat} (hc : c ≠ .input) {n p : Nat} (hp : p ≤ n) (off : Int) :
    (∀ q : Nat, advance c n p off = .ok q ↔ q ≤ n ∧ (q : Int) = p + off) ∧
    (advance c n p off = .ub ↔ (p : Int) + off < 0 ∨ (n : Int) < p + off) := by
  have hs : advance c n p off = if 0 ≤ (p : Int) + off ∧ (p : Int) + off ≤ n then .ok ((p : Int) + off).toNat else .ub := by
    cases c with
    | input => exact absurd rfl hc
    | random => rfl
    | bidir =>
      unfold advance
      simp only
      rw [up_spec n _ _ _ hp (by omega)]
      by_cases h0 : off ≤ 0
      · rw [if_pos h0, Res.bind_ok]
        simp only
        rw [down_spec _ _ _ (by omega)]
        by_cases h1 : 0 ≤ off
        · have : off = 0 := by omega
          subst this
          rw [if_pos h1, if_pos (by omega), Res.bind_ok]
          simp
        · rw [if_neg h1]
          by_cases h2 : 0 ≤ (p : Int) + off
          · rw [if_pos h2, if_pos (by omega), Res.bind_ok]
          · rw [if_neg h2, if_neg (by omega)]
            rfl
      · rw [if_neg h0]
        by_cases h2 : (p : Int) + off ≤ n
        · rw [if_pos h2, if_pos (by omega), Res.bind_ok]
          simp only
          rw [down_spec _ _ _ (by simp), if_pos (by omega), Res.bind_ok]
        · rw [if_neg h2, if_neg (by omega)]
          rfl
  rw [hs]
  by_cases h : 0 ≤ (p : Int) + off ∧ (p : Int) + off ≤ n
  · rw [if_pos h]
    refine ⟨fun q => ?_, ?_⟩
    · rw [Res.ok.injEq]
      omega
    · constructor
      · intro h'; cases h'
      · intro h'; omega
  · rw [if_neg h]
    refine ⟨fun q => ?_, ?_⟩
    · constructor
      · intro h'; cases h'
      · intro h'; omega
    · simp only [true_iff]
      omega

/-- C152 (partial): for input and forward iterators the same holds for offsets that are not negative.  Missing: `C152_input_back`. -/
theorem C152_input_partial {n p : Nat} (hp : p ≤ n) {off : Int} (ho : 0 ≤ off) :
    (∀ q : Nat, advance .input n p off = .ok q ↔ q ≤ n ∧ (q : Int) = p + off) ∧ (advance .input n p off = .ub ↔ (n : Int) < p + off) := by
  have h := C152_advance (c := .bidir) (by decide) hp off
  have he : advance .input n p off = advance .bidir n p off := by
    unfold advance
    simp only
    rw [up_spec n _ _ _ hp (by omega)]
    by_cases h0 : off ≤ 0
    · rw [if_pos h0, Res.bind_ok, Res.bind_ok, down_spec _ _ _ (by simp only; omega), if_pos ho, Res.bind_ok]
    · rw [if_neg h0]
      by_cases h2 : (p : Int) + off ≤ n
      · rw [if_pos h2, Res.bind_ok, Res.bind_ok, down_spec _ _ _ (by simp), if_pos (by simp), Res.bind_ok]
      · rw [if_neg h2]; rfl
  rw [he]
  refine ⟨h.1, h.2.trans ?_⟩
  omega

/-- C152: an input or forward iterator that is to go back stays where it is, without notice. -/
theorem C152_input_back {n p : Nat} (hp : p ≤ n) {off : Int} (ho : off < 0) : advance .input n p off = .ok p := by
  unfold advance
  simp only
  rw [up_spec n _ _ _ hp (by omega), if_pos (by omega), Res.bind_ok]

/-- C152: `distance` of every category is the number of steps; undefined exactly when an iterator that is counted starts behind the other. -/
theorem C152_distance (c : Cat) {n first last : Nat} (hf : first ≤ n) (hl : last ≤ n) :
    (first ≤ last ∨ c = .random → distance c n first last = .ok ((last : Int) - first)) ∧
    (last < first → c ≠ .random → distance c n first last = .ub) := by
  cases c with
  | random => exact ⟨fun _ => rfl, fun _ h => absurd rfl h⟩
  | _ =>
    unfold distance
    simp only
    rw [count_spec n last hl _ _ _ hf (by omega)]
    refine ⟨fun h => ?_, fun h _ => ?_⟩
    · rw [if_pos (by rcases h with h | h; exact h; cases h), Int.zero_add]
    · rw [if_neg (by omega)]

/-- C152: `next` and `distance` are inverse to each other, and `prev` undoes `next` (where the iterators can go back). -/
theorem C152_next_prev (c : Cat) {n p q : Nat} (hp : p ≤ n) (hn : n < 2 ^ 63) :
    (∀ d : Int, 0 ≤ d ∨ c ≠ .input → next c n p d = .ok q → (c ≠ .input → prev c n q d = .ok p) ∧ (0 ≤ d ∨ c = .random → distance c n p q = .ok d)) ∧
    (p ≤ q → q ≤ n → ∃ d, distance c n p q = .ok d ∧ next c n p d = .ok q) := by
  have hA : ∀ d : Int, 0 ≤ d ∨ c ≠ .input → (advance c n p d = .ok q ↔ q ≤ n ∧ (q : Int) = p + d) := by
    intro d hd
    by_cases hc : c = .input
    · subst hc
      rcases hd with hd | hd
      · exact (C152_input_partial hp hd).1 q
      · exact absurd rfl hd
    · exact (C152_advance hc hp d).1 q
  refine ⟨fun d hd h => ?_, fun h1 h2 => ?_⟩
  · obtain ⟨a1, a2⟩ := (hA d hd).mp h
    refine ⟨fun hc => ?_, fun h' => ?_⟩
    · unfold prev
      rw [if_neg (by omega)]
      exact ((C152_advance hc a1 (-d)).1 p).mpr ⟨hp, by omega⟩
    · have := (C152_distance c hp a1).1 (h'.imp (by omega) id)
      rw [this]
      congr 1
      omega
  · refine ⟨_, (C152_distance c hp h2).1 (Or.inl h1), ?_⟩
    exact (hA _ (Or.inl (by omega))).mpr ⟨h2, by omega⟩

/-- C152: iterators of a string are its positions in order: `(begin() + i)[d]` is the character at `i + d`, differences and comparisons are those of the positions. -/
theorem C152_string {V : Type} (m : List V) {i j : Nat} (hi : i ≤ m.length) (hj : j ≤ m.length) :
    splus m (sbegin m) i = .ok i ∧ splus m i ((j : Int) - i) = .ok j ∧ sdiff j i = (j : Int) - i ∧
    (∀ v, sload m i = .ok v ↔ m[i]? = some v) ∧ (∀ v, sindex m i ((j : Int) - i) = .ok v ↔ m[j]? = some v) ∧
    (seq i j = true ↔ i = j) ∧ (sne i j = true ↔ i ≠ j) ∧ (slt i j = true ↔ i < j) ∧ (sgt i j = true ↔ j < i) ∧ (sle i j = true ↔ i ≤ j) ∧
    (sge i j = true ↔ j ≤ i) := by
  have hp : ∀ a b : Nat, a ≤ m.length → b ≤ m.length → splus m a ((b : Int) - a) = .ok b := by
    intro a b _ hb
    unfold splus sadd shift
    rw [if_pos (by omega), Res.bind_ok, Res.bind_ok]
    show Res.ok _ = _
    congr 1
    omega
  have hl : ∀ (a : Nat) (v : V), sload m a = .ok v ↔ m[a]? = some v := by
    intro a v
    unfold sload load
    cases m[a]? with
    | none => simp
    | some w => simp
  refine ⟨?_, hp i j hi hj, rfl, hl i, fun v => ?_, ?_, ?_, ?_, ?_, ?_, ?_⟩
  · simpa [sbegin] using hp 0 i (Nat.zero_le _) hi
  · unfold sindex
    rw [hp i j hi hj, Res.bind_ok]
    exact hl j v
  · simp [seq]
  · simp [sne, seq]
  · simp [slt]
  · simp [sgt, slt]
  · simp [sle, slt]
  · simp [sge, slt]

/-- C152: the loop from `begin()` to `end()` sees every character once, in order. -/
theorem C152_string_walk {V : Type} (m : List V) : swalk m (m.length + 1) (sbegin m) = .ok m := by
  have : ∀ (f it : Nat), it ≤ m.length → m.length - it < f → swalk m f it = .ok (m.drop it) := by
    intro f
    induction f with
    | zero => intro it _ h; omega
    | succ f ih =>
      intro it h1 h2
      unfold swalk
      by_cases h : it = m.length
      · have hd : m.drop it = [] := by rw [h]; simp
        rw [hd]
        simp [sne, seq, send, h]
      · have hlt : it < m.length := by omega
        have hne : sne it (send m) = true := by simp [sne, seq, send, h]
        rw [if_pos hne]
        have hv : sload m it = .ok m[it] := by
          unfold sload load
          rw [List.getElem?_eq_getElem hlt]
        have ha : sadd m it 1 = .ok (it + 1, .it (it + 1)) := by
          unfold sadd shift
          rw [if_pos (by omega), Res.bind_ok]
          rfl
        rw [hv, Res.bind_ok, ha, Res.bind_ok]
        simp only
        rw [ih (it + 1) (by omega) (by omega), Res.bind_ok, List.drop_eq_getElem_cons hlt]
  have h := this (m.length + 1) 0 (Nat.zero_le _) (by omega)
  simpa [sbegin] using h

/-- C152, violated: the postfix operators move the iterator, but what they return is a reference to a variable that no longer exists. -/
theorem C152_postfix {V : Type} (m : List V) {it : Nat} (h : it ≤ m.length) :
    (it < m.length → ∃ r, spostInc m it = .ok r ∧ r.1 = it + 1 ∧ r.2.use = .ub) ∧
    (0 < it → ∃ r, spostDec m it = .ok r ∧ r.1 = it - 1 ∧ r.2.use = .ub) := by
  constructor
  · intro h1
    unfold spostInc sadd shift
    rw [if_pos (by omega)]
    exact ⟨_, rfl, rfl, rfl⟩
  · intro h1
    unfold spostDec sadd shift
    rw [if_pos (by omega)]
    refine ⟨_, rfl, ?_, rfl⟩
    show ((it : Int) + -1).toNat = _
    omega

/-- C152, violated: so the loop with `*it++` is undefined for every string but the empty one. -/
theorem C152_postfix_walk {V : Type} (m : List V) : swalkPost m (m.length + 1) (sbegin m) = if m = [] then .ok [] else .ub := by
  unfold swalkPost
  by_cases h : m = []
  · rw [if_pos h]
    subst h
    rfl
  · rw [if_neg h]
    have hl : 0 < m.length := List.length_pos_iff.mpr h
    have hne : sne (sbegin m) (send m) = true := by
      simp only [sne, seq, send, sbegin, Bool.not_eq_true', beq_eq_false_iff_ne]
      omega
    rw [if_pos hne]
    obtain ⟨r, r1, _, r3⟩ := (C152_postfix m (Nat.zero_le _)).1 hl
    have : spostInc m (sbegin m) = .ok r := r1
    rw [this, Res.bind_ok, r3]
    rfl

/-! ### Examples -/

example : advance .bidir 5 2 (-2) = .ok 0 ∧ advance .bidir 5 2 (-3) = .ub ∧ advance .random 5 2 3 = .ok 5 ∧ advance .input 5 2 4 = .ub ∧
    advance .input 5 2 (-1) = .ok 2 := by decide
example : distance .input 5 1 4 = .ok 3 ∧ distance .bidir 5 4 1 = .ub ∧ distance .random 5 4 1 = .ok (-3) := by decide
example : next .bidir 5 1 3 = .ok 4 ∧ prev .bidir 5 4 3 = .ok 1 := by decide
example : swalk ['a', 'b', 'c'] 4 0 = .ok ['a', 'b', 'c'] ∧ swalkPost ['a', 'b', 'c'] 4 0 = .ub ∧ sindex ['a', 'b', 'c'] 2 (-1) = .ok 'b' := by decide

end Verif.Step
