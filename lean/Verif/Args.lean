/-
What happens to the arguments of the inserting calls (C140): which of the objects named by the caller are moved from.

T15 = group15_flat_table.hpp, M15 = group15_flat_map.hpp, T16 = group16_flat_table.hpp, M16 = group16_flat_map.hpp,
FL = flat16_hash_map.h, RH = robin_hash_map.h, R16 = robin16_hash_map.h (all in src/jstd/hashmap).

An argument is described by its value category.  The calls hand it from one overload set to the next until a constructor or an
assignment of the element sees it; an object that arrives there as an rvalue is moved from.  What a move leaves behind is a
parameter (`Moved`).  Arguments are objects outside the map, and the constructors of keys and mapped values do not throw.
-/
import Verif.Copy
import Verif.Range16
import Verif.SelfRefFlat
import Verif.SelfRefRob16
import Verif.SelfRefRobin
import Verif.SelfRefRobInd

namespace Verif.Args

/-! ### Overload sets -/

/-- Value category of an argument expression: a `const` lvalue, an lvalue that is not `const`, an rvalue (such as the arguments
of T15:836-863, RH:3580-3629). -/
inductive Cat
  | const
  | lval
  | rval
  deriving DecidableEq, Repr

/-- Form of a parameter: `const T &`, `T &&` of a fixed type `T`, or the forwarding reference `T &&` of a deduced type
(T15:836, 841, 861). -/
inductive Form
  | constRef
  | rref
  | fwd
  deriving DecidableEq, Repr

/-- The expression with which the body of an overload hands its parameter `x` on: `x`, `std::move(x)` or `std::forward<T>(x)`
(T15:837, 842, 862). -/
inductive Expr
  | name
  | move
  | forward
  deriving DecidableEq, Repr

/-- An overload set: the forms of the parameter and what is handed on (as in T15:835-863). -/
abbrev Level := List (Form × Expr)

/-- The overload with a parameter of form `f` (T15:835-863). -/
def form (l : Level) (f : Form) : Option (Form × Expr) := l.find? fun x => x.1 = f

/-- Overload resolution between overloads that differ in the form of one parameter of the type of the argument (such as T15:835-863,
RH:3621-3629): a forwarding reference binds to an lvalue without adding `const`; for a `const` lvalue `const T &` is the more specialised
template; an rvalue prefers a rvalue reference, and of two the one that is not deduced. -/
def pick (l : Level) : Cat → Option (Form × Expr)
  | .const => (form l .constRef).or (form l .fwd)
  | .lval => (form l .fwd).or (form l .constRef)
  | .rval => (form l .rref).or ((form l .fwd).or (form l .constRef))

/-- Category of the expression handed on, given the category of the argument (such as in T15:837, 842, 862, 2549). -/
def passed : Form × Expr → Cat → Cat
  | (.constRef, _), _ => .const
  | (.rref, .name), _ => .lval
  | (.rref, _), _ => .rval
  | (.fwd, .name), c => if c = .const then .const else .lval
  | (.fwd, .move), c => if c = .const then .const else .rval
  | (.fwd, .forward), c => c

/-- Category in which an argument arrives at the constructor of the element after a chain of calls (such as M15:397-425, T15:949-953,
2507-2567); `none` if no overload takes it. -/
def arrive : List Level → Cat → Option Cat
  | [], c => some c
  | l :: ls, c => (pick l c).bind fun x => arrive ls (passed x c)

/-- Is the object moved from, if the last overload of the chain constructs the element (such as T15:2519, 2549)? -/
def taken (w : List Level) (c : Cat) : Bool := arrive w c = some .rval

/-! ### The calls of the maps -/

/-- The calls that take arguments for an element: `insert(pair)` with a pair of the value or init type; `insert(pair)` with another pair
type; `emplace(pair)` and `emplace_hint(hint, pair)`; `emplace(key, value)`; `try_emplace(key, value)`; `insert_or_assign(key, value)`;
`operator [] (key)` (T15:835-998, M15:347-355, FL:1302-1308, 1370-1467, RH:3580-3699, R16:1708-1714, 1773-1870). -/
inductive Entry
  | insert
  | insertOther
  | emplacePair
  | emplaceKV
  | tryEmplace
  | insertOrAssign
  | index
  deriving DecidableEq, Repr

/-- The chains the key and the mapped value take, whether the call overwrites a present value (`AlwaysUpdate`, T15:2507-2567), and
whether the argument is converted to another pair type before the lookup (FL:2447-2513 take `value_type` only). -/
structure Way where
  key : List Level
  val : Option (List Level)
  update : Bool := false
  early : Bool := false

/-- `T &&` handed on with `std::forward` (T15:949-953). -/
def hand : Level := [(.fwd, .forward)]

/-- `const T &` handed on as it is, `T &&` of a fixed type handed on with `std::move` (M15:397-415). -/
def both : Level := [(.constRef, .name), (.rref, .move)]

/-- `emplace_impl(const ValueT &)` copies, `emplace_impl(ValueT &&)` moves whatever it was given (T15:2507-2567, T16:2337-2397). -/
def groupPair : Level := [(.constRef, .name), (.fwd, .move)]

/-- group15 and group16: M15:347-355, 397-425, 472-492, 519-523, 534-544, T15:949-953, 964-980, 2507-2567, 2579-2607, 2618-2645, 2723-2761;
M16:344-352, 394-422, 469-489, 516-520, 531-541, T16:897-901, 912-928, 2337-2397, 2409-2436, 2447-2470, 2550-2586. -/
def groupWay : Entry → Way
  | .insert => ⟨[both, hand, groupPair], some [both, hand, groupPair], false, false⟩
  | .insertOther => ⟨[hand, hand, groupPair], some [hand, hand, groupPair], false, false⟩
  | .emplacePair => ⟨[hand, hand, groupPair], some [hand, hand, groupPair], false, false⟩
  | .emplaceKV => ⟨[hand, hand, hand], some [hand, hand, hand], false, false⟩
  | .tryEmplace => ⟨[both, both ++ hand, [(.constRef, .name), (.fwd, .forward)]], some [hand, hand, hand], false, false⟩
  | .insertOrAssign => ⟨[both, hand], some [hand, hand], true, false⟩
  | .index => ⟨[both, both ++ hand, [(.constRef, .name), (.fwd, .forward)]], none, false, false⟩

/-- flat16 and robin16: FL:1302-1308, 1370-1384, 1413-1421, 1449-1452, 1459-1467, 2447-2513, 2525-2565; R16:1708-1714, 1773-1787, 1816-1824,
1852-1855, 1862-1870, 3040-3127, 3139-3191.  `conv`: the pair is not of type `value_type` and is converted to it for the call of
`emplace_impl`. -/
def flatWay (conv : Bool) : Entry → Way
  | .insert => ⟨[both, [(.constRef, .name), (.rref, .forward)]], some [both, [(.constRef, .name), (.rref, .forward)]], false, conv⟩
  | .insertOther => ⟨[hand, [(.constRef, .name), (.rref, .forward)]], some [hand, [(.constRef, .name), (.rref, .forward)]], false, true⟩
  | .emplacePair => ⟨[hand, [(.constRef, .name), (.rref, .forward)]], some [hand, [(.constRef, .name), (.rref, .forward)]], false, conv⟩
  | .emplaceKV => ⟨[hand, hand], some [hand, hand], false, false⟩
  | .tryEmplace => ⟨[[(.constRef, .name), (.rref, .forward)], hand], some [hand, hand], false, false⟩
  | .insertOrAssign => ⟨[[(.constRef, .name), (.fwd, .move)], hand], some [hand, hand], true, false⟩
  | .index => ⟨[both, [(.constRef, .name), (.rref, .forward)], hand], none, false, false⟩

/-- robin: RH:3580-3593, 3621-3629, 3656-3659, 3666-3699, 5870-5923, 5935-5968, 6100-6141.  `conv`: the pair is not of type `actual_value_type`
(RH:221-222) and is converted to it for the call of `emplace_impl`. -/
def robinWay (conv : Bool) : Entry → Way
  | .insert => ⟨[both, [(.constRef, .name), (.rref, .forward)]], some [both, [(.constRef, .name), (.rref, .forward)]], false, conv⟩
  | .insertOther => ⟨[hand, [(.constRef, .name), (.rref, .forward)]], some [hand, [(.constRef, .name), (.rref, .forward)]], false, conv⟩
  | .emplacePair => ⟨[hand, [(.constRef, .name), (.rref, .forward)]], some [hand, [(.constRef, .name), (.rref, .forward)]], false, conv⟩
  | .emplaceKV => ⟨[hand, hand], some [hand, hand], false, false⟩
  | .tryEmplace => ⟨[[(.constRef, .name), (.rref, .forward)], [(.constRef, .name), (.fwd, .forward)]], some [hand, hand], false, false⟩
  | .insertOrAssign => ⟨[[(.constRef, .name), (.fwd, .move)], hand], some [hand, hand], true, false⟩
  | .index => ⟨[[(.constRef, .name), (.rref, .forward)], [(.constRef, .name), (.fwd, .forward)]], none, false, false⟩

/-! ### Calls with their arguments -/

section
variable {K V σ : Type}

/-- What a move leaves of a key and of a mapped value (the identity for types without own move constructor; the empty string for
`std::string`); used by the moves of T15:2549, 2589-2591. -/
structure Moved (K V : Type) where
  key : K → K
  val : V → V

/-- The arguments after a call that returned; `kconst`: the key is a `const` member (`std::pair<const K, V>`), which a move copies;
`ins`: a new element was made.  An argument that arrives as an rvalue is moved from where the element is constructed (T15:2549,
2589-2591) or overwritten (T15:2597-2603), or when it is converted. -/
def Way.after (M : Moved K V) (w : Way) (kconst : Bool) (kc vc : Cat) (ins : Bool) (a : K × V) : K × V :=
  (if (ins || w.early) && !kconst && taken w.key kc then M.key a.1 else a.1,
   match w.val with
   | none => a.2
   | some r => if (ins || w.update || w.early) && taken r vc then M.val a.2 else a.2)

/-- A call together with its arguments: `o` is what it does to the map (`emplace_impl`, T15:2507-2644, and the like).  If it throws, no memory
was granted before anything was moved. -/
def withArgs (M : Moved K V) (w : Way) (kconst : Bool) (kc vc : Cat) (a : K × V) (o : Out σ (Nat × Bool)) : Out (σ × K × V) (Nat × Bool) :=
  match o with
  | .ok t r => .ok (t, w.after M kconst kc vc r.2 a) r
  | .throw t => .throw (t, a)
  | .diverge => .diverge
  | .ub => .ub

/-- group15 and group16: an inserting call and its arguments (T15:2507-2761, T16:2337-2586). -/
def groupCall (L : Layout) (E : Env K) (M : Moved K V) (e : Entry) (kconst : Bool) (kc vc : Cat) (mem : Bool) (a : K × V) (t : Table K V) :
    Out (Table K V × K × V) (Nat × Bool) :=
  withArgs M (groupWay e) kconst kc vc a (emplace L E (groupWay e).update mem true a.1 a.2 t)

/-- flat16 (FL:2447-2706). -/
def flatCall (E : Env K) (sec : Nat → Nat) (M : Moved K V) (conv : Bool) (e : Entry) (kconst : Bool) (kc vc : Cat) (mem : Flat.Mem) (a : K × V)
    (t : Flat.Map K V) : Out (Flat.Map K V × K × V) (Nat × Bool) :=
  withArgs M (flatWay conv e) kconst kc vc a (Flat.emplace E sec (flatWay conv e).update mem true a.1 a.2 t)

/-- robin16 (R16:3040-3369). -/
def rob16Call (E : Env K) (sec : Nat → Nat) (M : Moved K V) (conv : Bool) (e : Entry) (kconst : Bool) (kc vc : Cat) (mem : Rob16.Mem) (a : K × V)
    (t : Rob16.Map K V) : Out (Rob16.Map K V × K × V) (Nat × Bool) :=
  withArgs M (flatWay conv e) kconst kc vc a (Rob16.insert E sec (flatWay conv e).update mem true a.1 a.2 t)

/-- robin with elements in the slots (RH:5870-6141). -/
def robinCall (store chk : Bool) (E : Env K) (M : Moved K V) (conv : Bool) (e : Entry) (kconst : Bool) (kc vc : Cat) (mem : Bool) (a : K × V)
    (t : Robin.Map K V) : Out (Robin.Map K V × K × V) (Nat × Bool) :=
  withArgs M (robinWay conv e) kconst kc vc a (Robin.emplace store chk E (robinWay conv e).update mem a.1 a.2 t)

/-- robin with indirect elements (RH:5870-6141). -/
def robIndCall (chk : Bool) (E : Env K) (M : Moved K V) (conv : Bool) (e : Entry) (kconst : Bool) (kc vc : Cat) (mem : Bool) (a : K × V)
    (t : RobInd.Map K V) : Out (RobInd.Map K V × K × V) (Nat × Bool) :=
  withArgs M (robinWay conv e) kconst kc vc a (RobInd.emplace chk E (robinWay conv e).update mem a.1 a.2 t)

/-- A loop over a range of objects (`emplace_impl<false>(*first)`; T15:895-901, FL:1402-1407, RH:3610-3615, R16:1805-1810): every object is passed
in category `c`, the result has the objects as the loop leaves them.  `put` is the call made for one object, `X` what it needs besides. -/
def rangeArgs {X : Type} (put : X → K × V → σ → Out (σ × K × V) (Nat × Bool)) : List (X × K × V) → σ → Out (σ × List (K × V)) Unit
  | [], t => .ok (t, []) ()
  | (x, a) :: r, t =>
    match put x a t with
    | .ok (t1, a1) _ =>
      match rangeArgs put r t1 with
      | .ok (t2, l) _ => .ok (t2, a1 :: l) ()
      | .throw (t2, l) => .throw (t2, a1 :: l)
      | .diverge => .diverge
      | .ub => .ub
    | .throw (t1, a1) => .throw (t1, a1 :: r.map (·.2))
    | .diverge => .diverge
    | .ub => .ub

/-- `insert(first, last)` of the group tables and its source (T15:895-901, T16:843-849): `emplace_impl<false>(*first)` is the last call of the chain
of `emplace`. -/
def groupRange (L : Layout) (E : Env K) (M : Moved K V) (kconst : Bool) (c : Cat) (l : List (Bool × K × V)) (t : Table K V) :
    Out (Table K V × List (K × V)) Unit :=
  rangeArgs (groupCall L E M .emplacePair kconst c c) l t

/-- `insert(first, last)` of the group maps (M15:457-463, M16:454-460) and its first object, the only one it names; one call per element of
the list. -/
def groupRangeMap (L : Layout) (E : Env K) (M : Moved K V) (kconst : Bool) (c : Cat) : List Bool → K × V → Table K V → Out (Table K V × K × V) Unit
  | [], a, t => .ok (t, a) ()
  | mem :: r, a, t =>
    match groupCall L E M .emplacePair kconst c c mem a t with
    | .ok (t1, a1) _ => groupRangeMap L E M kconst c r a1 t1
    | .throw s => .throw s
    | .diverge => .diverge
    | .ub => .ub

/-! ### Lemmas -/

theorem withArgs_ok {M : Moved K V} {w : Way} {kconst : Bool} {kc vc : Cat} {a a' : K × V} {o : Out σ (Nat × Bool)} {t' : σ} {r : Nat × Bool}
    (h : withArgs M w kconst kc vc a o = .ok (t', a') r) : o = .ok t' r ∧ a' = w.after M kconst kc vc r.2 a := by
  unfold withArgs at h
  cases o <;> simp only [Out.ok.injEq, Prod.mk.injEq, reduceCtorEq] at h
  obtain ⟨⟨rfl, rfl⟩, rfl⟩ := h
  exact ⟨rfl, rfl⟩

theorem withArgs_throw {M : Moved K V} {w : Way} {kconst : Bool} {kc vc : Cat} {a a' : K × V} {o : Out σ (Nat × Bool)} {t' : σ}
    (h : withArgs M w kconst kc vc a o = .throw (t', a')) : o = .throw t' ∧ a' = a := by
  unfold withArgs at h
  cases o <;> simp only [Out.throw.injEq, Prod.mk.injEq, reduceCtorEq] at h
  obtain ⟨rfl, rfl⟩ := h
  exact ⟨rfl, rfl⟩

/-- The call ends in a state with the arguments `a'` (returning or throwing). -/
def Ends {β : Type} (o : Out (σ × K × V) β) (a' : K × V) : Prop := ∃ t', o = .throw (t', a') ∨ ∃ r, o = .ok (t', a') r

theorem withArgs_ends {M : Moved K V} {w : Way} {kconst : Bool} {kc vc : Cat} {a a' : K × V} {o : Out σ (Nat × Bool)}
    (h : Ends (withArgs M w kconst kc vc a o) a') : a' = a ∨ ∃ b, a' = w.after M kconst kc vc b a := by
  obtain ⟨t', h | ⟨r, h⟩⟩ := h
  · exact .inl (withArgs_throw h).2
  · exact .inr ⟨r.2, (withArgs_ok h).2⟩

theorem after_key {M : Moved K V} {w : Way} {kconst : Bool} {kc vc : Cat} {b : Bool} {a : K × V} (h : taken w.key kc = false) :
    (w.after M kconst kc vc b a).1 = a.1 := by simp [Way.after, h]

theorem after_val {M : Moved K V} {w : Way} {kconst : Bool} {kc vc : Cat} {b : Bool} {a : K × V} (h : ∀ r, w.val = some r → taken r vc = false) :
    (w.after M kconst kc vc b a).2 = a.2 := by
  unfold Way.after
  cases hw : w.val with
  | none => rfl
  | some r => simp [h r hw]

theorem kept_of {M : Moved K V} {w : Way} {kconst : Bool} {kc vc : Cat} {a a' : K × V} {o : Out σ (Nat × Bool)}
    (h : Ends (withArgs M w kconst kc vc a o) a') : (taken w.key kc = false → a'.1 = a.1) ∧
      ((∀ r, w.val = some r → taken r vc = false) → a'.2 = a.2) := by
  rcases withArgs_ends h with rfl | ⟨b, rfl⟩
  · exact ⟨fun _ => rfl, fun _ => rfl⟩
  · exact ⟨after_key, after_val⟩

theorem group_key (e : Entry) (c : Cat) : e ≠ .insertOther → e ≠ .emplacePair → c ≠ .rval → taken (groupWay e).key c = false := by
  cases e <;> cases c <;> decide

theorem group_val (e : Entry) (c : Cat) : e ≠ .insertOther → e ≠ .emplacePair → c ≠ .rval →
    ∀ r, (groupWay e).val = some r → taken r c = false := by
  intro h1 h2 h3 r hr
  cases e <;> cases c <;> simp only [groupWay, Option.some.injEq, reduceCtorEq, ne_eq, not_true_eq_false] at * <;> subst hr <;> decide

theorem flat_key (conv : Bool) (e : Entry) (c : Cat) : (e = .insertOrAssign → c = .const) → c ≠ .rval → taken (flatWay conv e).key c = false := by
  cases conv <;> cases e <;> cases c <;> decide

theorem flat_val (conv : Bool) (e : Entry) (c : Cat) : c ≠ .rval → ∀ r, (flatWay conv e).val = some r → taken r c = false := by
  intro h3 r hr
  cases e <;> cases c <;> simp only [flatWay, Option.some.injEq, reduceCtorEq, ne_eq, not_true_eq_false] at * <;> subst hr <;> decide

theorem robin_key (conv : Bool) (e : Entry) (c : Cat) : (e = .insertOrAssign → c = .const) → c ≠ .rval → taken (robinWay conv e).key c = false := by
  cases conv <;> cases e <;> cases c <;> decide

theorem robin_val (conv : Bool) (e : Entry) (c : Cat) : c ≠ .rval → ∀ r, (robinWay conv e).val = some r → taken r c = false := by
  intro h3 r hr
  cases e <;> cases c <;> simp only [robinWay, Option.some.injEq, reduceCtorEq, ne_eq, not_true_eq_false] at * <;> subst hr <;> decide

/-- What a call leaves for its caller to see, and its flag (for the examples). -/
def shows {β : Type} (o : Out (β × Nat × Nat) (Nat × Bool)) : Option (Bool × Nat × Nat) :=
  match o with
  | .ok (_, a) r => some (r.2, a)
  | _ => none

/-- A move leaves the key 777 and the value 0 (for the examples). -/
def emptied : Moved Nat Nat := ⟨fun _ => 777, fun _ => 0⟩

/-! ### Lvalues -/

/-- C140, partial (missing for the group maps: `insert` with a pair of another type, `emplace(pair)`; for flat16, robin16 and robin: a key passed to
`insert_or_assign` as an lvalue that is not `const`; these are the violations below).  Whether the call returns or throws, a key or mapped value
the caller passed as an lvalue is unchanged, whatever the category of the other argument. -/
theorem C140_lvalues_kept_partial (M : Moved K V) (E : Env K) (e : Entry) (kconst : Bool) (kc vc : Cat) (a a' : K × V) :
    (∀ L mem (t : Table K V), e ≠ .insertOther → e ≠ .emplacePair → Ends (groupCall L E M e kconst kc vc mem a t) a' →
      (kc ≠ .rval → a'.1 = a.1) ∧ (vc ≠ .rval → a'.2 = a.2)) ∧
    (∀ sec conv mem (t : Flat.Map K V), Ends (flatCall E sec M conv e kconst kc vc mem a t) a' →
      ((e = .insertOrAssign → kc = .const) → kc ≠ .rval → a'.1 = a.1) ∧ (vc ≠ .rval → a'.2 = a.2)) ∧
    (∀ sec conv mem (t : Rob16.Map K V), Ends (rob16Call E sec M conv e kconst kc vc mem a t) a' →
      ((e = .insertOrAssign → kc = .const) → kc ≠ .rval → a'.1 = a.1) ∧ (vc ≠ .rval → a'.2 = a.2)) ∧
    (∀ store chk conv mem (t : Robin.Map K V), Ends (robinCall store chk E M conv e kconst kc vc mem a t) a' →
      ((e = .insertOrAssign → kc = .const) → kc ≠ .rval → a'.1 = a.1) ∧ (vc ≠ .rval → a'.2 = a.2)) ∧
    (∀ chk conv mem (t : RobInd.Map K V), Ends (robIndCall chk E M conv e kconst kc vc mem a t) a' →
      ((e = .insertOrAssign → kc = .const) → kc ≠ .rval → a'.1 = a.1) ∧ (vc ≠ .rval → a'.2 = a.2)) := by
  refine ⟨?_, ?_, ?_, ?_, ?_⟩
  · intro L mem t h1 h2 h
    exact ⟨fun hc => (kept_of h).1 (group_key e kc h1 h2 hc), fun hc => (kept_of h).2 (group_val e vc h1 h2 hc)⟩
  · intro sec conv mem t h
    exact ⟨fun h1 hc => (kept_of h).1 (flat_key conv e kc h1 hc), fun hc => (kept_of h).2 (flat_val conv e vc hc)⟩
  · intro sec conv mem t h
    exact ⟨fun h1 hc => (kept_of h).1 (flat_key conv e kc h1 hc), fun hc => (kept_of h).2 (flat_val conv e vc hc)⟩
  · intro store chk conv mem t h
    exact ⟨fun h1 hc => (kept_of h).1 (robin_key conv e kc h1 hc), fun hc => (kept_of h).2 (robin_val conv e vc hc)⟩
  · intro chk conv mem t h
    exact ⟨fun h1 hc => (kept_of h).1 (robin_key conv e kc h1 hc), fun hc => (kept_of h).2 (robin_val conv e vc hc)⟩

/-- Calls that make an element of a key passed as an lvalue and a value passed as an rvalue. -/
example : ∃ t : Table Nat Nat, Reachable layout15 idEnv walk15 t ∧
    (shows (groupCall layout15 idEnv emptied .insertOrAssign false .lval .rval true (50, 5) t) == some (true, 50, 0)) = true :=
  exists_reachable 0 (insertsFrom 0 20) _ (by decide +kernel)

/-- The same for flat16 (`try_emplace`). -/
example : ∃ t, Flat.Reach true (Robin.hashEnv id) id t ∧
    (shows (flatCall (Robin.hashEnv id) id emptied false .tryEmplace false .lval .rval .ok (50, 5) t) == some (true, 50, 0)) = true :=
  Flat.reach_play (cs := Flat.ins 5 1) (by decide +kernel) (by decide +kernel)

/-- C140, partial. `const` objects are never changed, by any call of any of the maps. -/
theorem C140_const_kept (M : Moved K V) (E : Env K) (e : Entry) (kconst : Bool) (a a' : K × V) :
    (∀ L mem (t : Table K V), Ends (groupCall L E M e kconst .const .const mem a t) a' → a' = a) ∧
    (∀ sec conv mem (t : Flat.Map K V), Ends (flatCall E sec M conv e kconst .const .const mem a t) a' → a' = a) ∧
    (∀ sec conv mem (t : Rob16.Map K V), Ends (rob16Call E sec M conv e kconst .const .const mem a t) a' → a' = a) ∧
    (∀ store chk conv mem (t : Robin.Map K V), Ends (robinCall store chk E M conv e kconst .const .const mem a t) a' → a' = a) ∧
    (∀ chk conv mem (t : RobInd.Map K V), Ends (robIndCall chk E M conv e kconst .const .const mem a t) a' → a' = a) := by
  obtain ⟨_, h2, h3, h4, h5⟩ := C140_lvalues_kept_partial M E e kconst .const .const a a'
  refine ⟨?_, fun sec conv mem t h => ?_, fun sec conv mem t h => ?_, fun store chk conv mem t h => ?_, fun chk conv mem t h => ?_⟩
  · intro L mem t h
    have hk : taken (groupWay e).key .const = false := by cases e <;> decide
    have hv : ∀ r, (groupWay e).val = some r → taken r .const = false := by
      intro r hr
      cases e <;> simp only [groupWay, Option.some.injEq, reduceCtorEq] at hr <;> subst hr <;> decide
    exact Prod.ext ((kept_of h).1 hk) ((kept_of h).2 hv)
  · exact Prod.ext ((h2 sec conv mem t h).1 (fun _ => rfl) (by decide)) ((h2 sec conv mem t h).2 (by decide))
  · exact Prod.ext ((h3 sec conv mem t h).1 (fun _ => rfl) (by decide)) ((h3 sec conv mem t h).2 (by decide))
  · exact Prod.ext ((h4 store chk conv mem t h).1 (fun _ => rfl) (by decide)) ((h4 store chk conv mem t h).2 (by decide))
  · exact Prod.ext ((h5 chk conv mem t h).1 (fun _ => rfl) (by decide)) ((h5 chk conv mem t h).2 (by decide))

/-- Calls with `const` objects that make an element. -/
example : ∃ t : Table Nat Nat, Reachable layout15 idEnv walk15 t ∧
    (shows (groupCall layout15 idEnv emptied .emplacePair false .const .const true (50, 5) t) == some (true, 50, 5)) = true :=
  exists_reachable 0 (insertsFrom 0 20) _ (by decide +kernel)

/-! ### Rvalues -/

/-- C140, partial (missing: pairs that are converted before the lookup, `conv`, whose source is consumed in any case).  A call that reports `false` —
it made no element — has not consumed the key, and, unless it is `insert_or_assign`, not the mapped value either, even if they were passed as
rvalues; so a failed `try_emplace(key, std::move(value))` can be repeated with the same value. -/
theorem C140_failed_call_keeps_rvalues_partial (M : Moved K V) (E : Env K) (e : Entry) (kconst : Bool) (kc vc : Cat) (a a' : K × V) (i : Nat) :
    (∀ L mem (t t' : Table K V), groupCall L E M e kconst kc vc mem a t = .ok (t', a') (i, false) →
      a'.1 = a.1 ∧ (e ≠ .insertOrAssign → a'.2 = a.2)) ∧
    (∀ sec mem (t t' : Flat.Map K V), e ≠ .insertOther → flatCall E sec M false e kconst kc vc mem a t = .ok (t', a') (i, false) →
      a'.1 = a.1 ∧ (e ≠ .insertOrAssign → a'.2 = a.2)) ∧
    (∀ sec mem (t t' : Rob16.Map K V), e ≠ .insertOther → rob16Call E sec M false e kconst kc vc mem a t = .ok (t', a') (i, false) →
      a'.1 = a.1 ∧ (e ≠ .insertOrAssign → a'.2 = a.2)) ∧
    (∀ store chk mem (t t' : Robin.Map K V), robinCall store chk E M false e kconst kc vc mem a t = .ok (t', a') (i, false) →
      a'.1 = a.1 ∧ (e ≠ .insertOrAssign → a'.2 = a.2)) ∧
    (∀ chk mem (t t' : RobInd.Map K V), robIndCall chk E M false e kconst kc vc mem a t = .ok (t', a') (i, false) →
      a'.1 = a.1 ∧ (e ≠ .insertOrAssign → a'.2 = a.2)) := by
  refine ⟨fun L mem t t' h => ?_, fun sec mem t t' he h => ?_, fun sec mem t t' he h => ?_, fun store chk mem t t' h => ?_, fun chk mem t t' h => ?_⟩ <;>
    obtain ⟨_, rfl⟩ := withArgs_ok h <;> cases e <;> simp [Way.after, groupWay, flatWay, robinWay] at *

/-- Calls with rvalues that find the key. -/
example : ∃ t : Table Nat Nat, Reachable layout15 idEnv walk15 t ∧
    (shows (groupCall layout15 idEnv emptied .emplacePair false .rval .rval true (7, 5) t) == some (false, 7, 5) &&
     shows (groupCall layout15 idEnv emptied .insertOrAssign false .rval .rval true (7, 5) t) == some (false, 7, 0)) = true :=
  exists_reachable 0 (insertsFrom 0 20) _ (by decide +kernel)

/-- The same for robin16. -/
example : ∃ t, Rob16.Reach (Robin.hashEnv id) Rob16.odd t ∧
    (shows (rob16Call (Robin.hashEnv id) Rob16.odd emptied false .tryEmplace false .rval .rval .ok (2, 5) t) == some (false, 2, 5)) = true :=
  Rob16.reach_play (triv := false) (cs := Rob16.ins 3 1) (by decide +kernel) (by decide +kernel)

/-- The same for robin. -/
example : (Robin.stateOf idEnv 0 (Robin.ins 3)).map (fun t =>
    shows (robinCall false true idEnv emptied false .tryEmplace false .rval .rval true (2, 5) t)) = some (some (false, 2, 5)) := by decide +kernel

/-- C140. A call that reports `true` has moved from a key and a mapped value passed as rvalues (so it works for types that can only be moved); the
key of a pair must not be `const`. -/
theorem C140_new_element_takes_rvalues (M : Moved K V) (E : Env K) (e : Entry) (a a' : K × V) (i : Nat) (he : e ≠ .index) :
    (∀ L mem (t t' : Table K V), groupCall L E M e false .rval .rval mem a t = .ok (t', a') (i, true) → a' = (M.key a.1, M.val a.2)) ∧
    (∀ sec conv mem (t t' : Flat.Map K V), flatCall E sec M conv e false .rval .rval mem a t = .ok (t', a') (i, true) → a' = (M.key a.1, M.val a.2)) ∧
    (∀ sec conv mem (t t' : Rob16.Map K V), rob16Call E sec M conv e false .rval .rval mem a t = .ok (t', a') (i, true) → a' = (M.key a.1, M.val a.2)) ∧
    (∀ store chk conv mem (t t' : Robin.Map K V), robinCall store chk E M conv e false .rval .rval mem a t = .ok (t', a') (i, true) →
      a' = (M.key a.1, M.val a.2)) ∧
    (∀ chk conv mem (t t' : RobInd.Map K V), robIndCall chk E M conv e false .rval .rval mem a t = .ok (t', a') (i, true) →
      a' = (M.key a.1, M.val a.2)) := by
  have hg : ∀ b, (groupWay e).after M false .rval .rval true b = (M.key b.1, M.val b.2) := by
    intro b; cases e <;> first | exact absurd rfl he | rfl
  have hf : ∀ conv b, (flatWay conv e).after M false .rval .rval true b = (M.key b.1, M.val b.2) := by
    intro conv b; cases e <;> first | exact absurd rfl he | rfl
  have hr : ∀ conv b, (robinWay conv e).after M false .rval .rval true b = (M.key b.1, M.val b.2) := by
    intro conv b; cases e <;> first | exact absurd rfl he | rfl
  exact ⟨fun L mem t t' h => (withArgs_ok h).2.trans (hg a), fun sec conv mem t t' h => (withArgs_ok h).2.trans (hf conv a),
    fun sec conv mem t t' h => (withArgs_ok h).2.trans (hf conv a), fun store chk conv mem t t' h => (withArgs_ok h).2.trans (hr conv a),
    fun chk conv mem t t' h => (withArgs_ok h).2.trans (hr conv a)⟩

/-- Such a call. -/
example : ∃ t : Table Nat Nat, Reachable layout15 idEnv walk15 t ∧
    (shows (groupCall layout15 idEnv emptied .tryEmplace false .rval .rval true (50, 5) t) == some (true, 777, 0)) = true :=
  exists_reachable 0 (insertsFrom 0 20) _ (by decide +kernel)

/-! ### Violations -/

/-- C140, violated: `insert_or_assign(k, v)` of flat16, robin16 and robin moves from the key `k`, a variable of the caller, whenever it makes a new
element; `v` is left alone. -/
theorem C140_insert_or_assign_steals_key (M : Moved K V) (E : Env K) (a a' : K × V) (i : Nat) :
    (∀ sec conv mem (t t' : Flat.Map K V), flatCall E sec M conv .insertOrAssign false .lval .lval mem a t = .ok (t', a') (i, true) →
      a' = (M.key a.1, a.2)) ∧
    (∀ sec conv mem (t t' : Rob16.Map K V), rob16Call E sec M conv .insertOrAssign false .lval .lval mem a t = .ok (t', a') (i, true) →
      a' = (M.key a.1, a.2)) ∧
    (∀ store chk conv mem (t t' : Robin.Map K V), robinCall store chk E M conv .insertOrAssign false .lval .lval mem a t = .ok (t', a') (i, true) →
      a' = (M.key a.1, a.2)) ∧
    (∀ chk conv mem (t t' : RobInd.Map K V), robIndCall chk E M conv .insertOrAssign false .lval .lval mem a t = .ok (t', a') (i, true) →
      a' = (M.key a.1, a.2)) :=
  ⟨fun _ _ _ _ _ h => (withArgs_ok h).2, fun _ _ _ _ _ h => (withArgs_ok h).2, fun _ _ _ _ _ _ h => (withArgs_ok h).2,
    fun _ _ _ _ _ h => (withArgs_ok h).2⟩

/-- Such calls of flat16, robin16, robin and robin with indirect elements. -/
example : ∃ t, Flat.Reach true (Robin.hashEnv id) id t ∧
    (shows (flatCall (Robin.hashEnv id) id emptied false .insertOrAssign false .lval .lval .ok (50, 5) t) == some (true, 777, 5)) = true :=
  Flat.reach_play (cs := Flat.ins 5 1) (by decide +kernel) (by decide +kernel)
example : ∃ t, Rob16.Reach (Robin.hashEnv id) Rob16.odd t ∧
    (shows (rob16Call (Robin.hashEnv id) Rob16.odd emptied false .insertOrAssign false .lval .lval .ok (5, 5) t) == some (true, 777, 5)) = true :=
  Rob16.reach_play (triv := false) (cs := Rob16.ins 3 1) (by decide +kernel) (by decide +kernel)
example : (Robin.stateOf idEnv 0 (Robin.ins 3)).map (fun t =>
    shows (robinCall false true idEnv emptied false .insertOrAssign false .lval .lval true (5, 5) t)) = some (some (true, 777, 5)) := by decide +kernel
example : (RobInd.stateOf idEnv 0 (Robin.ins 3)).map (fun t =>
    shows (robIndCall true idEnv emptied false .insertOrAssign false .lval .lval true (5, 5) t)) = some (some (true, 777, 5)) := by decide +kernel

/-- What `emplace(p)` of the group maps leaves of an lvalue `p` whose key is absent. -/
def gone (M : Moved K V) (kconst : Bool) (a : K × V) : K × V := (if kconst then a.1 else M.key a.1, M.val a.2)

theorem group_after {M : Moved K V} {e : Entry} (he : e = .emplacePair ∨ e = .insertOther) (kconst : Bool) (b : Bool) (a : K × V) :
    (groupWay e).after M kconst .lval .lval b a = if b then gone M kconst a else a := by
  rcases he with rfl | rfl <;> cases kconst <;> cases b <;> rfl

section
variable {L : Layout} {H : Laws L} {E : Env K}

theorem group_step (hE : E.Lawful) {t : Table K V} (hI : Inv H E t) (M : Moved K V) {e : Entry} (he : e = .emplacePair ∨ e = .insertOther)
    (kconst mem : Bool) (a : K × V) :
    match groupCall L E M e kconst .lval .lval mem a t with
    | .ok (t', a') r => Inv H E t' ∧ emplace L E false mem true a.1 a.2 t = .ok t' r ∧ r.2 = (Spec.get E.eq (entries L t) a.1).isNone ∧
        (entries L t').Perm (Spec.insert E.eq (entries L t) a.1 a.2) ∧ a' = (if r.2 then gone M kconst a else a)
    | .throw (t', a') => t' = t ∧ a' = a ∧ emplace L E false mem true a.1 a.2 t = .throw t
    | .diverge => emplace L E false mem true a.1 a.2 t = .diverge
    | .ub => False := by
  have hu : (groupWay e).update = false := by rcases he with rfl | rfl <;> rfl
  have hstep := hI.emplace_ok hE (List.Perm.refl _) false mem a.1 a.2 (hI.emplace_cases hE false mem a.1 a.2)
  unfold groupCall withArgs
  rw [hu]
  cases hr : emplace L E false mem true a.1 a.2 t with
  | ub => rw [hr] at hstep; exact hstep.elim
  | diverge => rfl
  | throw t' =>
    rw [hr] at hstep
    have h2 : t' = t := hstep
    subst h2
    exact ⟨rfl, rfl, rfl⟩
  | ok t' r =>
    rw [hr] at hstep
    obtain ⟨i, b⟩ := r
    obtain ⟨h1, h2, m', x, hm, _, _, hp⟩ := hstep
    simp only [Bool.false_eq_true, if_false] at hm
    exact ⟨h1, rfl, h2, hm ▸ hp, group_after he kconst b a⟩

end

/-- The answer of the table about a key: is it present? -/
theorem lookup_isNone {L : Layout} {H : Laws L} {E : Env K} {t : Table K V} (hE : E.Lawful) (hI : Inv H E t) {k : K} {o : Option (K × V)}
    (h : lookup L E t k = .ok o) : Spec.get E.eq (entries L t) k = o := by
  rw [hI.lookup_eq hE] at h; exact Res.ok.inj h

theorem group_pair_of {L : Layout} {H : Laws L} {E : Env K} {t t' : Table K V} (hE : E.Lawful) (hI : Inv H E t) (M : Moved K V) {e : Entry}
    (he : e = .emplacePair ∨ e = .insertOther) (kconst mem : Bool) (a a' : K × V) (r : Nat × Bool) {o : Option (K × V)}
    (ho : lookup L E t a.1 = .ok o) (h : groupCall L E M e kconst .lval .lval mem a t = .ok (t', a') r) :
    a' = if o.isNone then (if kconst then a.1 else M.key a.1, M.val a.2) else a := by
  have := group_step hE hI M he kconst mem a
  rw [h] at this
  obtain ⟨_, _, h3, _, h5⟩ := this
  rw [h5, h3, lookup_isNone hE hI ho]
  rfl

/-- C140, violated: `emplace(p)`, `emplace_hint(h, p)` of the group maps with a variable `p` of the caller, and `insert(p)` if `p` is a pair of another
type than the elements, move from `p` exactly if its key is absent: the mapped value is then gone, and the key too unless it is a `const`
member.  If the key is present, `p` is unchanged. -/
theorem C140_group_emplace_steals_pair {E : Env K} (hE : E.Lawful) (M : Moved K V) (e : Entry) (he : e = .emplacePair ∨ e = .insertOther)
    (kconst mem : Bool) (a a' : K × V) (r : Nat × Bool) (o : Option (K × V)) :
    (∀ t t' : Table K V, Reachable layout15 E walk15 t → lookup layout15 E t a.1 = .ok o →
      groupCall layout15 E M e kconst .lval .lval mem a t = .ok (t', a') r →
      a' = if o.isNone then (if kconst then a.1 else M.key a.1, M.val a.2) else a) ∧
    (∀ pad (t t' : Table K V), Reachable layout16 E (walk16 pad) t → lookup layout16 E t a.1 = .ok o →
      groupCall layout16 E M e kconst .lval .lval mem a t = .ok (t', a') r →
      a' = if o.isNone then (if kconst then a.1 else M.key a.1, M.val a.2) else a) :=
  ⟨fun _ _ ht ho h => group_pair_of hE (ht.inv15 hE) M he kconst mem a a' r ho h,
    fun _ _ _ ht ho h => group_pair_of hE (ht.inv16 hE) M he kconst mem a a' r ho h⟩

/-- `emplace(p)` with an absent and a present key. -/
example : ∃ t : Table Nat Nat, Reachable layout15 idEnv walk15 t ∧
    (shows (groupCall layout15 idEnv emptied .emplacePair false .lval .lval true (50, 5) t) == some (true, 777, 0) &&
     shows (groupCall layout15 idEnv emptied .insertOther true .lval .lval true (50, 5) t) == some (true, 50, 0) &&
     shows (groupCall layout15 idEnv emptied .emplacePair false .lval .lval true (7, 5) t) == some (false, 7, 5)) = true :=
  exists_reachable 0 (insertsFrom 0 20) _ (by decide +kernel)

/-! ### Ranges -/

theorem rangeArgs_keeps {X : Type} {put : X → K × V → σ → Out (σ × K × V) (Nat × Bool)}
    (hput : ∀ x a t a', Ends (put x a t) a' → a' = a) : ∀ (l : List (X × K × V)) (t : σ),
    match rangeArgs put l t with
    | .ok (_, l') _ => l' = l.map (·.2)
    | .throw (_, l') => l' = l.map (·.2)
    | _ => True := by
  intro l
  induction l with
  | nil => intro t; rfl
  | cons y r ih =>
    obtain ⟨x, a⟩ := y
    intro t
    unfold rangeArgs
    cases hp : put x a t with
    | ok s _ =>
      obtain ⟨t1, a1⟩ := s
      have h1 := hput x a t a1 ⟨t1, .inr ⟨_, hp⟩⟩
      have h2 := ih t1
      cases hq : rangeArgs put r t1 with
      | ok s2 _ => obtain ⟨t2, l2⟩ := s2; rw [hq] at h2; simp only [hq] at h2 ⊢; rw [h1, h2]; rfl
      | throw s2 => obtain ⟨t2, l2⟩ := s2; rw [hq] at h2; simp only [hq] at h2 ⊢; rw [h1, h2]; rfl
      | diverge => simp only [hq]
      | ub => simp only [hq]
    | throw s =>
      obtain ⟨t1, a1⟩ := s
      simp only
      rw [hput x a t a1 ⟨t1, .inl hp⟩]; rfl
    | diverge => trivial
    | ub => trivial

/-- C140. `insert(first, last)` of flat16, robin16 and robin leaves the objects of the range as they are, also when iterators that are not `const` are
given and when memory runs out half-way. -/
theorem C140_range_keeps_source (M : Moved K V) (E : Env K) (kconst conv : Bool) (c : Cat) (hc : c ≠ .rval) :
    (∀ sec l (t : Flat.Map K V) t' l', rangeArgs (flatCall E sec M conv .emplacePair kconst c c) l t = .ok (t', l') () ∨
      rangeArgs (flatCall E sec M conv .emplacePair kconst c c) l t = .throw (t', l') → l' = l.map (·.2)) ∧
    (∀ sec l (t : Rob16.Map K V) t' l', rangeArgs (rob16Call E sec M conv .emplacePair kconst c c) l t = .ok (t', l') () ∨
      rangeArgs (rob16Call E sec M conv .emplacePair kconst c c) l t = .throw (t', l') → l' = l.map (·.2)) ∧
    (∀ store chk l (t : Robin.Map K V) t' l', rangeArgs (robinCall store chk E M conv .emplacePair kconst c c) l t = .ok (t', l') () ∨
      rangeArgs (robinCall store chk E M conv .emplacePair kconst c c) l t = .throw (t', l') → l' = l.map (·.2)) ∧
    (∀ chk l (t : RobInd.Map K V) t' l', rangeArgs (robIndCall chk E M conv .emplacePair kconst c c) l t = .ok (t', l') () ∨
      rangeArgs (robIndCall chk E M conv .emplacePair kconst c c) l t = .throw (t', l') → l' = l.map (·.2)) := by
  have hk := C140_lvalues_kept_partial M E .emplacePair kconst c c
  refine ⟨fun sec l t t' l' h => ?_, fun sec l t t' l' h => ?_, fun store chk l t t' l' h => ?_, fun chk l t t' l' h => ?_⟩
  · have := rangeArgs_keeps (fun x a t a' he => Prod.ext (((hk a a').2.1 sec conv x t he).1 (fun h => by cases h) hc) (((hk a a').2.1 sec conv x t he).2 hc)) l t
    rcases h with h | h <;> rw [h] at this <;> exact this
  · have := rangeArgs_keeps (fun x a t a' he => Prod.ext (((hk a a').2.2.1 sec conv x t he).1 (fun h => by cases h) hc) (((hk a a').2.2.1 sec conv x t he).2 hc)) l t
    rcases h with h | h <;> rw [h] at this <;> exact this
  · have := rangeArgs_keeps (fun x a t a' he => Prod.ext (((hk a a').2.2.2.1 store chk conv x t he).1 (fun h => by cases h) hc)
      (((hk a a').2.2.2.1 store chk conv x t he).2 hc)) l t
    rcases h with h | h <;> rw [h] at this <;> exact this
  · have := rangeArgs_keeps (fun x a t a' he => Prod.ext (((hk a a').2.2.2.2 chk conv x t he).1 (fun h => by cases h) hc)
      (((hk a a').2.2.2.2 chk conv x t he).2 hc)) l t
    rcases h with h | h <;> rw [h] at this <;> exact this

/-- A range with two new keys. -/
example : ∃ t, Flat.Reach true (Robin.hashEnv id) id t ∧
    (match rangeArgs (flatCall (Robin.hashEnv id) id emptied false .emplacePair false .lval .lval) [(.ok, 50, 5), (.ok, 1, 6), (.ok, 51, 7)] t with
     | .ok (t', l) _ => l == [(50, 5), (1, 6), (51, 7)] && t'.size == t.size + 2
     | _ => false) = true :=
  Flat.reach_play (cs := Flat.ins 4 1) (by decide +kernel) (by decide +kernel)

section
variable {L : Layout} {H : Laws L} {E : Env K}

open Classical in
theorem groupRange_ok (hE : E.Lawful) (M : Moved K V) (kconst : Bool) : ∀ (l : List (Bool × K × V)) (t : Table K V), Inv H E t →
    ∀ t' l', groupRange L E M kconst .lval l t = .ok (t', l') () → insertRange E L l t = .ok t' () ∧ l'.length = l.length ∧
      ∀ (i : Nat) x, l[i]? = some x → l'[i]? = some (if (Spec.get E.eq (entries L t) x.2.1).isNone ∧
        (∀ (j : Nat) y, j < i → l[j]? = some y → E.eq x.2.1 y.2.1 = false) then gone M kconst x.2 else x.2) := by
  intro l
  induction l with
  | nil =>
    intro t _ t' l' h
    simp only [groupRange, rangeArgs, Out.ok.injEq, Prod.mk.injEq] at h
    obtain ⟨⟨rfl, rfl⟩, _⟩ := h
    exact ⟨rfl, rfl, fun i x hx => by simp at hx⟩
  | cons y r ih =>
    obtain ⟨mem, a⟩ := y
    intro t hI t' l' h
    have hs := group_step hE hI M (.inl rfl) kconst mem a
    unfold groupRange rangeArgs at h
    cases hp : groupCall L E M .emplacePair kconst .lval .lval mem a t with
    | diverge => rw [hp] at h; simp at h
    | ub => rw [hp] at h; simp at h
    | throw s => rw [hp] at h; simp at h
    | ok s rr =>
      obtain ⟨t1, a1⟩ := s
      rw [hp] at h hs
      simp only at h
      obtain ⟨hI1, he, hb, hperm, ha1⟩ := hs
      cases hq : rangeArgs (groupCall L E M .emplacePair kconst .lval .lval) r t1 with
      | diverge => rw [hq] at h; simp at h
      | ub => rw [hq] at h; simp at h
      | throw s => rw [hq] at h; simp at h
      | ok s2 u =>
        obtain ⟨t2, l2⟩ := s2
        rw [hq] at h
        simp only [Out.ok.injEq, Prod.mk.injEq] at h
        obtain ⟨⟨rfl, rfl⟩, _⟩ := h
        obtain ⟨i1, i2, i3⟩ := ih t1 hI1 t2 l2 hq
        refine ⟨?_, by simp [i2], ?_⟩
        · simp only [insertRange]
          rw [he]
          exact i1
        · intro i x hx
          cases i with
          | zero =>
            simp only [List.getElem?_cons_zero, Option.some.injEq] at hx ⊢
            subst hx
            rw [ha1, hb]
            by_cases hn : (Spec.get E.eq (entries L t) a.1).isNone <;> simp [hn]
          | succ i =>
            simp only [List.getElem?_cons_succ] at hx ⊢
            rw [i3 i x hx]
            congr 1
            have hget : (Spec.get E.eq (entries L t1) x.2.1).isNone =
                ((Spec.get E.eq (entries L t) x.2.1).isNone && !E.eq x.2.1 a.1) := by
              have hl : entries L t1 = entries L t1 := rfl
              rw [Spec.get_perm hE hperm hI1.pairwise]
              have := Spec.get_insertAll hE [a] (entries L t) x.2.1
              have h2 : Spec.insertAll E.eq [a] (entries L t) = Spec.insert E.eq (entries L t) a.1 a.2 := rfl
              rw [h2] at this
              rw [this]
              cases Spec.get E.eq (entries L t) x.2.1 <;> cases hxa : E.eq x.2.1 a.1 <;> simp [hxa]
            have hiff : ((Spec.get E.eq (entries L t1) x.2.1).isNone ∧ (∀ (j : Nat) y, j < i → r[j]? = some y → E.eq x.2.1 y.2.1 = false)) ↔
                ((Spec.get E.eq (entries L t) x.2.1).isNone ∧
                  (∀ (j : Nat) y, j < i + 1 → ((mem, a) :: r)[j]? = some y → E.eq x.2.1 y.2.1 = false)) := by
              rw [hget, Bool.and_eq_true, Bool.not_eq_true']
              constructor
              · rintro ⟨⟨g1, g2⟩, g3⟩
                refine ⟨g1, ?_⟩
                intro j y hj hy
                cases j with
                | zero => simp only [List.getElem?_cons_zero, Option.some.injEq] at hy; subst hy; exact g2
                | succ j => exact g3 j y (by omega) (by simpa using hy)
              · rintro ⟨g1, g3⟩
                exact ⟨⟨g1, g3 0 (mem, a) (by omega) rfl⟩, fun j y hj hy => g3 (j + 1) y (by omega) (by simpa using hy)⟩
            by_cases hc : (Spec.get E.eq (entries L t1) x.2.1).isNone ∧ (∀ (j : Nat) y, j < i → r[j]? = some y → E.eq x.2.1 y.2.1 = false)
            · rw [if_pos hc, if_pos (hiff.mp hc)]
            · rw [if_neg hc, if_neg (fun hh => hc (hiff.mpr hh))]

theorem groupRange_point (hE : E.Lawful) (M : Moved K V) (kconst : Bool) (l : List (Bool × K × V)) {t t' : Table K V} (hI : Inv H E t) {l' : List (K × V)}
    (h : groupRange L E M kconst .lval l t = .ok (t', l') ()) : insertRange E L l t = .ok t' () ∧ l'.length = l.length ∧
      ∀ (i : Nat) b a o, l[i]? = some (b, a) → lookup L E t a.1 = .ok o →
        ((o = none ∧ ∀ (j : Nat) y, j < i → l[j]? = some y → E.eq a.1 y.2.1 = false) → l'[i]? = some (if kconst then a.1 else M.key a.1, M.val a.2)) ∧
        ((o ≠ none ∨ ∃ j : Nat, ∃ y, j < i ∧ l[j]? = some y ∧ E.eq a.1 y.2.1 = true) → l'[i]? = some a) := by
  obtain ⟨h1, h2, h3⟩ := groupRange_ok hE M kconst l t hI t' l' h
  refine ⟨h1, h2, ?_⟩
  intro i b a o hx ho
  have hg := lookup_isNone hE hI ho
  have := h3 i (b, a) hx
  simp only at this
  constructor
  · rintro ⟨rfl, hj⟩
    rw [this, if_pos ⟨by rw [hg]; rfl, hj⟩]; rfl
  · intro hn
    rw [this, if_neg]
    rintro ⟨g1, g2⟩
    rcases hn with hn | ⟨j, y, hj, hy, he⟩
    · rw [hg] at g1; cases o <;> simp at g1 hn
    · rw [g2 j y hj hy] at he; cases he

end

/-- C140, violated: `insert(first, last)` of the group tables with iterators that are not `const`.  The table gets the elements it should, but every
object of the range whose key was absent, from the table and from the objects before it, is moved from; the others are unchanged. -/
theorem C140_group_table_range_steals_source {E : Env K} (hE : E.Lawful) (M : Moved K V) (kconst : Bool) (l : List (Bool × K × V)) (l' : List (K × V)) :
    (∀ t t' : Table K V, Reachable layout15 E walk15 t → groupRange layout15 E M kconst .lval l t = .ok (t', l') () →
      insertRange E layout15 l t = .ok t' () ∧ l'.length = l.length ∧
      ∀ (i : Nat) b a o, l[i]? = some (b, a) → lookup layout15 E t a.1 = .ok o →
        ((o = none ∧ ∀ (j : Nat) y, j < i → l[j]? = some y → E.eq a.1 y.2.1 = false) → l'[i]? = some (if kconst then a.1 else M.key a.1, M.val a.2)) ∧
        ((o ≠ none ∨ ∃ j : Nat, ∃ y, j < i ∧ l[j]? = some y ∧ E.eq a.1 y.2.1 = true) → l'[i]? = some a)) ∧
    (∀ pad (t t' : Table K V), Reachable layout16 E (walk16 pad) t → groupRange layout16 E M kconst .lval l t = .ok (t', l') () →
      insertRange E layout16 l t = .ok t' () ∧ l'.length = l.length ∧
      ∀ (i : Nat) b a o, l[i]? = some (b, a) → lookup layout16 E t a.1 = .ok o →
        ((o = none ∧ ∀ (j : Nat) y, j < i → l[j]? = some y → E.eq a.1 y.2.1 = false) → l'[i]? = some (if kconst then a.1 else M.key a.1, M.val a.2)) ∧
        ((o ≠ none ∨ ∃ j : Nat, ∃ y, j < i ∧ l[j]? = some y ∧ E.eq a.1 y.2.1 = true) → l'[i]? = some a)) :=
  ⟨fun _ _ ht h => groupRange_point hE M kconst l (ht.inv15 hE) h, fun _ _ _ ht h => groupRange_point hE M kconst l (ht.inv16 hE) h⟩

/-- Objects with a new, a present, a repeated and another new key. -/
example : ∃ t : Table Nat Nat, Reachable layout15 idEnv walk15 t ∧
    (match groupRange layout15 idEnv emptied false .lval [(true, 50, 5), (true, 1, 6), (true, 50, 7), (true, 51, 8)] t with
     | .ok (t', l) _ => l == [(777, 0), (1, 6), (50, 7), (777, 0)] && t'.size == t.size + 2
     | _ => false) = true :=
  exists_reachable 0 (insertsFrom 0 20) _ (by decide +kernel)

section
variable {L : Layout} {H : Laws L} {E : Env K}

theorem groupRangeMap_mono (hE : E.Lawful) (M : Moved K V) (kconst : Bool) : ∀ (ms : List Bool) (a : K × V) (t : Table K V), Inv H E t → ∀ t' a',
    groupRangeMap L E M kconst .lval ms a t = .ok (t', a') () → Inv H E t' ∧ ∀ k x, Spec.get E.eq (entries L t) k = some x →
      Spec.get E.eq (entries L t') k = some x := by
  intro ms
  induction ms with
  | nil =>
    intro a t hI t' a' h
    simp only [groupRangeMap, Out.ok.injEq, Prod.mk.injEq] at h
    obtain ⟨⟨rfl, rfl⟩, _⟩ := h
    exact ⟨hI, fun _ _ h => h⟩
  | cons mem ms ih =>
    intro a t hI t' a' h
    have hs := group_step hE hI M (.inl rfl) kconst mem a
    unfold groupRangeMap at h
    cases hp : groupCall L E M .emplacePair kconst .lval .lval mem a t with
    | diverge => rw [hp] at h; simp at h
    | ub => rw [hp] at h; simp at h
    | throw s => rw [hp] at h; simp at h
    | ok s rr =>
      obtain ⟨t1, a1⟩ := s
      rw [hp] at h hs
      obtain ⟨hI1, _, _, hperm, _⟩ := hs
      obtain ⟨h1, h2⟩ := ih a1 t1 hI1 t' a' h
      refine ⟨h1, fun k x hx => h2 k x ?_⟩
      rw [Spec.get_perm hE hperm hI1.pairwise]
      have := Spec.get_insertAll hE [a] (entries L t) k
      have h2 : Spec.insertAll E.eq [a] (entries L t) = Spec.insert E.eq (entries L t) a.1 a.2 := rfl
      rw [h2] at this
      rw [this, hx]; rfl

theorem groupRangeMap_two (hE : E.Lawful) (M : Moved K V) (m1 m2 : Bool) (ms : List Bool) (a : K × V) {t t' : Table K V} (hI : Inv H E t) {a' : K × V}
    (h1 : Spec.get E.eq (entries L t) a.1 = none) (h2 : Spec.get E.eq (entries L t) (M.key a.1) = none) (h3 : E.eq (M.key a.1) a.1 = false)
    (h : groupRangeMap L E M false .lval (m1 :: m2 :: ms) a t = .ok (t', a') ()) :
    Spec.get E.eq (entries L t') a.1 = some a ∧ Spec.get E.eq (entries L t') (M.key a.1) = some (M.key a.1, M.val a.2) ∧ Inv H E t' := by
  have hins : ∀ (m : Spec.Map K V) (b : K × V) k, Spec.get E.eq (Spec.insert E.eq m b.1 b.2) k =
      (Spec.get E.eq m k).or ([b].find? fun e => E.eq k e.1) := fun m b k => Spec.get_insertAll hE [b] m k
  have hs := group_step hE hI M (.inl rfl) false m1 a
  unfold groupRangeMap at h
  cases hp : groupCall L E M .emplacePair false .lval .lval m1 a t with
  | diverge => rw [hp] at h; simp at h
  | ub => rw [hp] at h; simp at h
  | throw s => rw [hp] at h; simp at h
  | ok s rr =>
    obtain ⟨t1, a1⟩ := s
    rw [hp] at h hs
    simp only at h
    obtain ⟨hI1, _, hb, hperm, ha1⟩ := hs
    rw [h1] at hb
    rw [hb] at ha1
    simp only [Option.isNone_none, if_true, gone, Bool.false_eq_true, if_false] at ha1
    have hk1 : Spec.get E.eq (entries L t1) a.1 = some a := by
      rw [Spec.get_perm hE hperm hI1.pairwise, hins, h1]
      simp [hE.refl]
    have hk2 : Spec.get E.eq (entries L t1) (M.key a.1) = none := by
      rw [Spec.get_perm hE hperm hI1.pairwise, hins, h2]
      simp [h3]
    have hs := group_step hE hI1 M (.inl rfl) false m2 a1
    unfold groupRangeMap at h
    cases hq : groupCall L E M .emplacePair false .lval .lval m2 a1 t1 with
    | diverge => rw [hq] at h; simp at h
    | ub => rw [hq] at h; simp at h
    | throw s => rw [hq] at h; simp at h
    | ok s rr =>
      obtain ⟨t2, a2⟩ := s
      rw [hq] at h hs
      simp only at h
      obtain ⟨hI2, _, _, hperm2, _⟩ := hs
      subst ha1
      obtain ⟨hI', hmono⟩ := groupRangeMap_mono hE M false ms a2 t2 hI2 t' a' h
      refine ⟨hmono _ _ ?_, hmono _ _ ?_, hI'⟩
      · rw [Spec.get_perm hE hperm2 hI2.pairwise, hins, hk1]; rfl
      · rw [Spec.get_perm hE hperm2 hI2.pairwise, hins, hk2]
        simp [hE.refl]

theorem groupRangeMap_of_two (hE : E.Lawful) (M : Moved K V) (m1 m2 : Bool) (ms : List Bool) (a a' : K × V) {t t' : Table K V} (hI : Inv H E t)
    (h1 : lookup L E t a.1 = .ok none) (h2 : lookup L E t (M.key a.1) = .ok none) (h3 : E.eq (M.key a.1) a.1 = false)
    (h : groupRangeMap L E M false .lval (m1 :: m2 :: ms) a t = .ok (t', a') ()) :
    lookup L E t' a.1 = .ok (some a) ∧ lookup L E t' (M.key a.1) = .ok (some (M.key a.1, M.val a.2)) := by
  obtain ⟨g1, g2, g3⟩ := groupRangeMap_two hE M m1 m2 ms a hI (lookup_isNone hE hI h1) (lookup_isNone hE hI h2) h3 h
  exact ⟨by rw [g3.lookup_eq hE, g1], by rw [g3.lookup_eq hE, g2]⟩

end

/-- C140, violated: `insert(first, last)` of the group maps with iterators that are not `const` and at least two elements.  The loop passes the first
object again and again; the first call moves from it, so the second one inserts what the move left: afterwards the map has an element with
the moved-from key and value, which is in no range. -/
theorem C140_group_map_range_inserts_moved_from {E : Env K} (hE : E.Lawful) (M : Moved K V) (m1 m2 : Bool) (ms : List Bool) (a a' : K × V)
    (h3 : E.eq (M.key a.1) a.1 = false) :
    (∀ t t' : Table K V, Reachable layout15 E walk15 t → lookup layout15 E t a.1 = .ok none → lookup layout15 E t (M.key a.1) = .ok none →
      groupRangeMap layout15 E M false .lval (m1 :: m2 :: ms) a t = .ok (t', a') () →
      lookup layout15 E t' a.1 = .ok (some a) ∧ lookup layout15 E t' (M.key a.1) = .ok (some (M.key a.1, M.val a.2))) ∧
    (∀ pad (t t' : Table K V), Reachable layout16 E (walk16 pad) t → lookup layout16 E t a.1 = .ok none → lookup layout16 E t (M.key a.1) = .ok none →
      groupRangeMap layout16 E M false .lval (m1 :: m2 :: ms) a t = .ok (t', a') () →
      lookup layout16 E t' a.1 = .ok (some a) ∧ lookup layout16 E t' (M.key a.1) = .ok (some (M.key a.1, M.val a.2))) :=
  ⟨fun _ _ ht h1 h2 h => groupRangeMap_of_two hE M m1 m2 ms a a' (ht.inv15 hE) h1 h2 h3 h,
    fun _ _ _ ht h1 h2 h => groupRangeMap_of_two hE M m1 m2 ms a a' (ht.inv16 hE) h1 h2 h3 h⟩

/-- A range of three: the map gets the first element and the element (777, 0). -/
example : ∃ t : Table Nat Nat, Reachable layout15 idEnv walk15 t ∧
    (match groupRangeMap layout15 idEnv emptied false .lval [true, true, true] (50, 5) t with
     | .ok (t', a) _ => a == (777, 0) && t'.size == t.size + 2 &&
         (match lookup layout15 idEnv t' 777 with | .ok (some e) => e == (777, 0) | _ => false)
     | _ => false) = true :=
  exists_reachable 0 (insertsFrom 0 20) _ (by decide +kernel)

theorem groupRangeMap_const (L : Layout) (E : Env K) (M : Moved K V) (kconst : Bool) : ∀ (ms : List Bool) (a : K × V) (t : Table K V),
    groupRangeMap L E M kconst .const ms a t =
      match insertRange E L (ms.map fun b => (b, a)) t with
      | .ok t' _ => .ok (t', a) ()
      | .throw t' => .throw (t', a)
      | .diverge => .diverge
      | .ub => .ub := by
  intro ms
  induction ms with
  | nil => intro a t; rfl
  | cons mem ms ih =>
    intro a t
    have ha : ∀ b, (groupWay .emplacePair).after M kconst .const .const b a = a := by
      intro b; cases kconst <;> cases b <;> rfl
    simp only [groupRangeMap, groupCall, withArgs, List.map_cons, insertRange]
    have hu : (groupWay .emplacePair).update = false := rfl
    rw [hu]
    cases emplace L E false mem true a.1 a.2 t with
    | ok t1 r => simp only [Out.bind, ha]; exact ih a t1
    | throw t1 => rfl
    | diverge => rfl
    | ub => rfl

/-- C140, partial. With `const` iterators (as for initializer lists) the range insertion of the group maps keeps its source and is the function
`insertRangeMap` of which the theorems of C12 speak. -/
theorem C140_group_map_const_range_partial (L : Layout) (E : Env K) (M : Moved K V) (kconst : Bool) (l : List (Bool × K × V)) (b : Bool) (a : K × V)
    (t t' : Table K V) : (∀ a', groupRangeMap L E M kconst .const (((b, a) :: l).map (·.1)) a t = .ok (t', a') () →
      a' = a ∧ insertRangeMap E L ((b, a) :: l) t = .ok t' ()) ∧
    (∀ a', groupRangeMap L E M kconst .const (((b, a) :: l).map (·.1)) a t = .throw (t', a') →
      a' = a ∧ insertRangeMap E L ((b, a) :: l) t = .throw t') := by
  have hl : insertRangeMap E L ((b, a) :: l) t = insertRange E L ((((b, a) :: l).map (·.1)).map fun b => (b, a)) t := by
    unfold insertRangeMap
    rw [List.map_map]; rfl
  rw [groupRangeMap_const, hl]
  cases insertRange E L ((((b, a) :: l).map (·.1)).map fun b => (b, a)) t with
  | ok t1 u =>
    simp only [Out.ok.injEq, Prod.mk.injEq, reduceCtorEq, false_implies, implies_true, and_true]
    rintro a' ⟨rfl, rfl⟩
    exact ⟨rfl, rfl⟩
  | throw t1 =>
    simp only [Out.throw.injEq, Prod.mk.injEq, reduceCtorEq, false_implies, implies_true, true_and]
    rintro a' ⟨rfl, rfl⟩
    exact ⟨rfl, rfl⟩
  | diverge => simp
  | ub => simp

/-- Such a call. -/
example : ∃ t : Table Nat Nat, Reachable layout15 idEnv walk15 t ∧
    (match groupRangeMap layout15 idEnv emptied false .const [true, true] (50, 5) t with
     | .ok (t', a) _ => a == (50, 5) && t'.size == t.size + 1
     | _ => false) = true :=
  exists_reachable 0 (insertsFrom 0 20) _ (by decide +kernel)

end
end Verif.Args
