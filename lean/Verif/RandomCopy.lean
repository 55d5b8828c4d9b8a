/-
Copies of the Mersenne Twisters (C141): several generator objects in memory, each with a pointer into an array.

Abbreviations: M32 = src/jstd/system/MT19937_32.h, M64 = src/jstd/system/MT19937_64.h.

The classes declare no copy constructor and no copy assignment; the implicit ones copy the members one by one, the pointer `next` among
them.  What a generator takes from outside (the clock, the C library, the words behind its array) may differ from object to object.
-/
import Verif.Table
import Verif.RandomProps

namespace Verif.RandCopy
open Verif.Rand

variable {w : Nat}

/-! ### Model -/

/-- A generator object (M32:148-151, M64:148-151); `next` is the number of the object whose array it points into and an index. -/
structure Obj (w : Nat) where
  next : Option (Nat × Nat)
  left : Nat
  state : Nat → BitVec w

/-- The objects that are alive, by number (M32:143-168, M64:143-168). -/
abbrev Store (w : Nat) := Nat → Option (Obj w)

/-- What a program can do with generators: construct one with a seed (M32:154-156), copy or assign one (M32:143-168, implicit), call `rand` (M32:280-297)
or `srand` (M32:265-268), destroy one (M32:168); the same in M64. -/
inductive Act (w : Nat)
  | make (i : Nat) (raw : Nat → BitVec w) (seed : BitVec w)
  | copy (i j : Nat)
  | rand (i : Nat)
  | srand (i : Nat) (seed : BitVec w)
  | drop (i : Nat)

/-- `next_state` of object `i` (M32:240-254, M64:240-254). -/
def nextStateAt (P : Params w) (o : Os w) (i : Nat) (g : Obj w) : Res (Obj w) :=
  (nextBlock P o g.state).bind fun s => .ok ⟨some (i, 0), P.N, s⟩

/-- `rand` of object `i` (M32:280-297, M64:280-297): `*(this->next++)` reads the array `next` points into, wherever that is. -/
def randAt (P : Params w) (o : Nat → Os w) (i : Nat) (S : Store w) : Res (Store w × BitVec w) :=
  match S i with
  | none => .ub
  | some g =>
    let left := (g.left + 2 ^ w - 1) % 2 ^ w
    (if left = 0 then nextStateAt P (o i) i { g with left := left } else .ok { g with left := left }).bind fun g =>
      match g.next with
      | none => .ok (upd S i (some g), P.temper (o i).libc)
      | some (j, q) =>
        match upd S i (some g) j with
        | none => .ub
        | some h => (look P (o j) h.state q).bind fun y => .ok (upd S i (some { g with next := some (j, q + 1) }), P.temper y)

/-- One action (M32:143-168, 265-268, 280-297, M64:143-168, 265-268, 280-297) and the word it returns, if any. -/
def exec (P : Params w) (o : Nat → Os w) (S : Store w) : Act w → Res (Store w × Option (BitVec w))
  | .make i raw seed => .ok (upd S i (some ⟨none, 1, init P (o i) seed raw⟩), none)
  | .copy i j =>
    match S j with
    | none => .ub
    | some g => .ok (upd S i (some g), none)
  | .rand i => (randAt P o i S).bind fun r => .ok (r.1, some r.2)
  | .srand i seed =>
    match S i with
    | none => .ub
    | some g => (nextStateAt P (o i) i { g with state := init P (o i) seed g.state }).bind fun g => .ok (upd S i (some g), none)
  | .drop i =>
    match S i with
    | none => .ub
    | some _ => .ok (upd S i none, none)

/-- A program and the words it obtains (M32:143-297, M64:143-297). -/
def run (P : Params w) (o : Nat → Os w) : List (Act w) → Store w → Res (Store w × List (Option (BitVec w)))
  | [], S => .ok (S, [])
  | a :: l, S => (exec P o S a).bind fun r => (run P o l r.1).bind fun r' => .ok (r'.1, r.2 :: r'.2)

/-! ### What users expect: every generator is a value of its own -/

/-- One action on generators that are values; a single generator is the one of `Random`. -/
def ideal (P : Params w) (o : Nat → Os w) (I : Nat → Option (Gen w)) : Act w → Res ((Nat → Option (Gen w)) × Option (BitVec w))
  | .make i raw seed => .ok (upd I i (some (ctor P (o i) raw seed)), none)
  | .copy i j =>
    match I j with
    | none => .ub
    | some g => .ok (upd I i (some g), none)
  | .rand i =>
    match I i with
    | none => .ub
    | some g => (Rand.rand P (o i) g).bind fun r => .ok (upd I i (some r.1), some r.2)
  | .srand i seed =>
    match I i with
    | none => .ub
    | some g => (Rand.srand P (o i) g seed).bind fun g => .ok (upd I i (some g), none)
  | .drop i =>
    match I i with
    | none => .ub
    | some _ => .ok (upd I i none, none)

/-- A program on generators that are values. -/
def idealRun (P : Params w) (o : Nat → Os w) : List (Act w) → (Nat → Option (Gen w)) → Res ((Nat → Option (Gen w)) × List (Option (BitVec w)))
  | [], I => .ok (I, [])
  | a :: l, I => (ideal P o I a).bind fun r => (idealRun P o l r.1).bind fun r' => .ok (r'.1, r.2 :: r'.2)

/-- Every copy in the program is made of a generator from which no word was drawn yet and that was not seeded again. -/
def CopiesUnused (P : Params w) (o : Nat → Os w) : List (Act w) → (Nat → Option (Gen w)) → Prop
  | [], _ => True
  | a :: l, I => (∀ i j, a = .copy i j → ∀ g, I j = some g → g.next = none) ∧
      ∀ r, ideal P o I a = .ok r → CopiesUnused P o l r.1

/-! ### Lemmas -/

/-- The object number `i` whose pointer is into its own array. -/
def own (i : Nat) (g : Gen w) : Obj w := ⟨g.next.map fun q => (i, q), g.left, g.state⟩

/-- Every object points into its own array. -/
def Own (I : Nat → Option (Gen w)) : Store w := fun i => (I i).map (own i)

theorem own_upd (I : Nat → Option (Gen w)) (i : Nat) (g : Gen w) : upd (Own I) i (some (own i g)) = Own (upd I i (some g)) := by
  funext k
  unfold Own upd
  by_cases h : k = i
  · subst h; simp
  · simp [h]

theorem own_drop (I : Nat → Option (Gen w)) (i : Nat) : upd (Own I) i none = Own (upd I i none) := by
  funext k
  unfold Own upd
  by_cases h : k = i
  · subst h; simp
  · simp [h]

theorem res_bind_bind {α β γ : Type} (x : Res α) (f : α → Res β) (g : β → Res γ) : (x.bind f).bind g = x.bind fun a => (f a).bind g := by
  cases x <;> rfl

theorem nextState_own (P : Params w) (o : Os w) (i : Nat) (g : Gen w) :
    nextStateAt P o i (own i g) = (nextState P o g).bind fun g => .ok (own i g) := by
  unfold nextStateAt nextState
  rw [res_bind_bind]
  rfl

theorem rand_own (P : Params w) (o : Nat → Os w) (i : Nat) (I : Nat → Option (Gen w)) {g : Gen w} (hg : I i = some g) :
    randAt P o i (Own I) = (Rand.rand P (o i) g).bind fun r => .ok (Own (upd I i (some r.1)), r.2) := by
  have hS : Own I i = some (own i g) := by unfold Own; rw [hg]; rfl
  unfold randAt Rand.rand
  rw [hS]
  simp only
  have hl : (own i g).left = g.left := rfl
  rw [hl]
  have hfin : ∀ g' : Gen w, (match (own i g').next with
      | none => .ok (upd (Own I) i (some (own i g')), P.temper (o i).libc)
      | some (j, q) =>
        match upd (Own I) i (some (own i g')) j with
        | none => .ub
        | some h => (look P (o j) h.state q).bind fun y => .ok (upd (Own I) i (some { own i g' with next := some (j, q + 1) }), P.temper y)) =
      ((match g'.next with
      | some q => (look P (o i) g'.state q).bind fun y => .ok ({ g' with next := some (q + 1) }, P.temper y)
      | none => .ok (g', P.temper (o i).libc)) : Res (Gen w × BitVec w)).bind fun r => .ok (Own (upd I i (some r.1)), r.2) := by
    intro g'
    cases hn : g'.next with
    | none =>
      have h1 : (own i g').next = none := by unfold own; rw [hn]; rfl
      rw [h1]
      simp only [Res.bind_ok, own_upd]
    | some q =>
      have h1 : (own i g').next = some (i, q) := by unfold own; rw [hn]; rfl
      rw [h1]
      simp only [upd_self]
      rw [res_bind_bind]
      have h2 : (own i g').state = g'.state := rfl
      rw [h2]
      congr 1
      funext y
      simp only [Res.bind_ok]
      rw [← own_upd]
      rfl
  by_cases h0 : (g.left + 2 ^ w - 1) % 2 ^ w = 0
  · rw [if_pos h0, if_pos h0]
    have h1 : ({ own i g with left := (g.left + 2 ^ w - 1) % 2 ^ w } : Obj w) = own i { g with left := (g.left + 2 ^ w - 1) % 2 ^ w } := rfl
    rw [h1, nextState_own, res_bind_bind, res_bind_bind]
    congr 1
    funext g'
    simp only [Res.bind_ok]
    exact hfin g'
  · rw [if_neg h0, if_neg h0]
    exact hfin { g with left := (g.left + 2 ^ w - 1) % 2 ^ w }

theorem exec_own (P : Params w) (o : Nat → Os w) (I : Nat → Option (Gen w)) (a : Act w)
    (hc : ∀ i j, a = .copy i j → ∀ g, I j = some g → g.next = none) :
    exec P o (Own I) a = (ideal P o I a).bind fun r => .ok (Own r.1, r.2) := by
  cases a with
  | make i raw seed =>
    simp only [exec, ideal, Res.bind_ok]
    rw [← own_upd]
    rfl
  | copy i j =>
    simp only [exec, ideal]
    cases hj : I j with
    | none => simp [Own, hj, Res.bind]
    | some g =>
      have hn := hc i j rfl g hj
      have h1 : Own I j = some (own j g) := by unfold Own; rw [hj]; rfl
      rw [h1]
      simp only [Res.bind_ok]
      rw [← own_upd]
      have : own j g = own i g := by unfold own; rw [hn]; rfl
      rw [this]
  | rand i =>
    simp only [exec, ideal]
    cases hi : I i with
    | none => simp [randAt, Own, hi, Res.bind]
    | some g =>
      rw [rand_own P o i I hi, res_bind_bind, res_bind_bind]
      rfl
  | srand i seed =>
    simp only [exec, ideal]
    cases hi : I i with
    | none => simp [Own, hi, Res.bind]
    | some g =>
      have h1 : Own I i = some (own i g) := by unfold Own; rw [hi]; rfl
      rw [h1]
      simp only
      have h2 : ({ own i g with state := init P (o i) seed (own i g).state } : Obj w) = own i { g with state := init P (o i) seed g.state } := rfl
      rw [h2, nextState_own, res_bind_bind, res_bind_bind]
      unfold Rand.srand
      congr 1
      funext g'
      simp only [Res.bind_ok, own_upd]
  | drop i =>
    simp only [exec, ideal]
    cases hi : I i with
    | none => simp [Own, hi, Res.bind]
    | some g =>
      have h1 : Own I i = some (own i g) := by unfold Own; rw [hi]; rfl
      rw [h1]
      simp only [Res.bind_ok, own_drop]

theorem run_own (P : Params w) (o : Nat → Os w) : ∀ (l : List (Act w)) (I : Nat → Option (Gen w)), CopiesUnused P o l I →
    run P o l (Own I) = (idealRun P o l I).bind fun r => .ok (Own r.1, r.2) := by
  intro l
  induction l with
  | nil => intro I _; rfl
  | cons a l ih =>
    intro I h
    simp only [run, idealRun]
    rw [exec_own P o I a h.1, res_bind_bind, res_bind_bind]
    cases hr : ideal P o I a with
    | ok r =>
      simp only [Res.bind_ok]
      rw [ih r.1 (h.2 r hr), res_bind_bind, res_bind_bind]
      rfl
    | diverge => rfl
    | ub => rfl

/-- The words a program obtains, `none` in place of an action that returns nothing. -/
def words {β γ : Type} (r : Res (β × List γ)) : Res (List γ) := r.bind fun r => .ok r.2

/-! ### Theorems -/

/-- C141, partial (missing: copies of generators that were used; see below).  In every program in which generators are copied only before they are used,
every generator is a value of its own: the words are those of independent generators, and nothing else is undefined. -/
theorem C141_unused_copies_partial (P : Params w) (o : Nat → Os w) (l : List (Act w)) (h : CopiesUnused P o l fun _ => none) :
    words (run P o l fun _ => none) = words (idealRun P o l fun _ => none) := by
  have h0 : (fun _ => none : Store w) = Own fun _ => none := rfl
  rw [h0, run_own P o l _ h]
  unfold words
  rw [res_bind_bind]
  rfl


/-- `n` words of one generator. -/
def genWords (P : Params w) (o : Os w) : Nat → Gen w → Res (List (Option (BitVec w)))
  | 0, _ => .ok []
  | n + 1, g => (Rand.rand P o g).bind fun r => (genWords P o n r.1).bind fun l => .ok (some r.2 :: l)

/-- Object `i` is in the state `g`, and its pointer is into an array with the same words. -/
def Like (o : Nat → Os w) (i : Nat) (S : Store w) (g : Gen w) : Prop :=
  ∃ x, S i = some x ∧ x.left = g.left ∧ x.state = g.state ∧
    ((g.next = none ∧ x.next = none) ∨
      ∃ q k h, g.next = some q ∧ x.next = some (k, q) ∧ S k = some h ∧ h.state = g.state ∧ o k = o i)

theorem upd_like {S : Store w} {i k : Nat} {x x' h : Obj w} (hx : S i = some x) (hs : x'.state = x.state) (hk : S k = some h) :
    ∃ h', upd S i (some x') k = some h' ∧ h'.state = h.state := by
  by_cases hki : k = i
  · subst hki
    rw [hx] at hk
    cases hk
    exact ⟨x', upd_self _ _ _, hs⟩
  · exact ⟨h, by rw [upd_other _ _ hki, hk], rfl⟩

theorem rand_like (P : Params w) (o : Nat → Os w) (i : Nat) (S : Store w) (g : Gen w) (h : Like o i S g) :
    (∃ S' g' y, randAt P o i S = .ok (S', y) ∧ Rand.rand P (o i) g = .ok (g', y) ∧ Like o i S' g') ∨
      (randAt P o i S = .ub ∧ Rand.rand P (o i) g = .ub) ∨ (randAt P o i S = .diverge ∧ Rand.rand P (o i) g = .diverge) := by
  obtain ⟨x, hx, hl, hs, hn⟩ := h
  unfold randAt Rand.rand
  rw [hx]
  simp only [hl]
  by_cases h0 : (g.left + 2 ^ w - 1) % 2 ^ w = 0
  · rw [if_pos h0, if_pos h0]
    unfold nextStateAt nextState
    simp only [hs]
    cases hb : nextBlock P (o i) g.state with
    | ub => exact .inr (.inl ⟨rfl, rfl⟩)
    | diverge => exact .inr (.inr ⟨rfl, rfl⟩)
    | ok c =>
      simp only [Res.bind_ok, upd_self]
      cases hy : look P (o i) c 0 with
      | ub => exact .inr (.inl ⟨rfl, rfl⟩)
      | diverge => exact .inr (.inr ⟨rfl, rfl⟩)
      | ok y =>
        refine .inl ⟨_, _, _, rfl, rfl, ?_⟩
        exact ⟨_, upd_self _ _ _, rfl, rfl, .inr ⟨_, i, _, rfl, rfl, upd_self _ _ _, rfl, rfl⟩⟩
  · rw [if_neg h0, if_neg h0]
    simp only [Res.bind_ok]
    rcases hn with ⟨hg, hxn⟩ | ⟨q, k, h, hg, hxn, hk, hks, hok⟩
    · simp only [hg, hxn]
      refine .inl ⟨_, _, _, rfl, rfl, ?_⟩
      exact ⟨_, upd_self _ _ _, rfl, hs, .inl ⟨rfl, rfl⟩⟩
    · obtain ⟨h1, hh1, hs1⟩ := upd_like (x' := { x with left := (g.left + 2 ^ w - 1) % 2 ^ w }) hx rfl hk
      simp only [hg, hxn]
      rw [hxn] at hh1
      simp only [hh1, hs1, hks, hok]
      cases hy : look P (o i) g.state q with
      | ub => exact .inr (.inl ⟨rfl, rfl⟩)
      | diverge => exact .inr (.inr ⟨rfl, rfl⟩)
      | ok y =>
        refine .inl ⟨_, _, _, rfl, rfl, ?_⟩
        obtain ⟨h2, hh2, hs2⟩ := upd_like (x' := ⟨some (k, q + 1), (g.left + 2 ^ w - 1) % 2 ^ w, x.state⟩) hx rfl hk
        exact ⟨_, upd_self _ _ _, rfl, hs, .inr ⟨_, k, h2, rfl, rfl, hh2, by rw [hs2, hks], hok⟩⟩

theorem run_like (P : Params w) (o : Nat → Os w) (i : Nat) : ∀ (n : Nat) (S : Store w) (g : Gen w), Like o i S g →
    words (run P o (List.replicate n (.rand i)) S) = genWords P (o i) n g := by
  intro n
  induction n with
  | zero => intro S g _; rfl
  | succ n ih =>
    intro S g h
    simp only [List.replicate_succ, run, exec, genWords, words]
    rcases rand_like P o i S g h with ⟨S', g', y, h1, h2, h3⟩ | ⟨h1, h2⟩ | ⟨h1, h2⟩
    · rw [h1, h2]
      simp only [Res.bind_ok, ← ih S' g' h3, words]
      rw [res_bind_bind, res_bind_bind]
      rfl
    · rw [h1, h2]; rfl
    · rw [h1, h2]; rfl

/-- C141, partial (missing: any use of the source in between).  A copy, of a used generator or not, returns the words its source would return from
here on, in any number, as long as the source is neither used nor destroyed. -/
theorem C141_copy_continues_partial (P : Params w) (o : Nat → Os w) (I : Nat → Option (Gen w)) (i j n : Nat) (ho : o i = o j) (g : Gen w) (hj : I j = some g) :
    words (run P o (.copy i j :: List.replicate n (.rand i)) (Own I)) =
      (words (run P o (List.replicate n (.rand j)) (Own I))).bind fun l => .ok (none :: l) := by
  have h1 : Own I j = some (own j g) := by unfold Own; rw [hj]; rfl
  have hsrc : Like o j (Own I) g := by
    refine ⟨_, h1, rfl, rfl, ?_⟩
    cases hn : g.next with
    | none => exact .inl ⟨rfl, by simp [own, hn]⟩
    | some q => exact .inr ⟨q, j, _, rfl, by simp [own, hn], h1, rfl, rfl⟩
  have hcpy : Like o i (upd (Own I) i (some (own j g))) g := by
    refine ⟨_, upd_self _ _ _, rfl, rfl, ?_⟩
    cases hn : g.next with
    | none => exact .inl ⟨rfl, by simp [own, hn]⟩
    | some q =>
      refine .inr ⟨q, j, own j g, rfl, by simp [own, hn], ?_, rfl, ho.symm⟩
      by_cases hji : j = i
      · rw [hji, upd_self]
      · rw [upd_other _ _ hji, h1]
  rw [run_like P o j n _ g hsrc, ← ho, ← run_like P o i n _ g hcpy]
  simp only [run, exec, h1, Res.bind_ok, words]
  rw [res_bind_bind, res_bind_bind]
  rfl

theorem left_pred {l : Nat} (h : 2 ≤ l) (hw : l ≤ 2 ^ w) : (l + 2 ^ w - 1) % 2 ^ w = l - 1 := by
  rw [show l + 2 ^ w - 1 = (l - 1) + 2 ^ w by omega, Nat.add_mod_right, Nat.mod_eq_of_lt (by omega)]

theorem rand_copy (P : Params w) (o : Nat → Os w) (S : Store w) (i j q : Nat) (hij : j ≠ i) (x : Obj w) (hx : S i = some x)
    (hn : x.next = some (j, q)) (hl : 2 ≤ x.left) (hw : x.left ≤ 2 ^ w) :
    randAt P o i S = match S j with
      | none => .ub
      | some h => (look P (o j) h.state q).bind fun y => .ok (upd S i (some ⟨some (j, q + 1), x.left - 1, x.state⟩), P.temper y) := by
  unfold randAt
  rw [hx]
  simp only [left_pred hl hw]
  rw [if_neg (by omega)]
  simp only [Res.bind_ok, hn, upd_other _ _ hij]

/-- C141 is violated: after the source of a copy was destroyed, the next word drawn from the copy is read from the destroyed object.  `q` words of
the current block were drawn before the copy was made, at least one and not all. -/
theorem C141_destroyed_source (P : Params w) (o : Nat → Os w) (I : Nat → Option (Gen w)) (i j q : Nat) (hij : j ≠ i) (g : Gen w) (hj : I j = some g)
    (hq : g.next = some q) (hl : 2 ≤ g.left) (hw : g.left ≤ 2 ^ w) (hN : q < P.N) :
    words (run P o [.copy i j, .drop j, .rand i] (Own I)) = .ub ∧
      words (idealRun P o [.copy i j, .drop j, .rand i] I) = .ok [none, none, some (P.temper (g.state q))] := by
  have h1 : Own I j = some (own j g) := by unfold Own; rw [hj]; rfl
  constructor
  · simp only [run, exec, h1, Res.bind_ok, upd_other _ _ hij]
    rw [rand_copy P o _ i j q hij (own j g) (by rw [upd_other _ _ hij.symm, upd_self]) (by simp [own, hq]) hl hw]
    simp only [upd_self]
    rfl
  · have hg : g = ⟨some q, g.left, g.state⟩ := by rw [← hq]
    simp only [idealRun, ideal, hj, Res.bind_ok, upd_other _ _ hij, upd_other _ _ hij.symm, upd_self]
    rw [hg, rand_dec P (o i) q g.left g.state hl hw hN]
    rfl

/-- C141 is violated: after the source of a copy was seeded again, the next word drawn from the copy is one of the new words of the source (`c q`, of the block
`c` that `srand` computed) instead of the word of the copy (`g.state q`). -/
theorem C141_reseeded_source (P : Params w) (o : Nat → Os w) (I : Nat → Option (Gen w)) (i j q : Nat) (hij : j ≠ i) (g : Gen w) (hj : I j = some g)
    (hq : g.next = some q) (hl : 2 ≤ g.left) (hw : g.left ≤ 2 ^ w) (hN : q < P.N) (seed : BitVec w) (c : Nat → BitVec w)
    (hc : nextBlock P (o j) (init P (o j) seed g.state) = .ok c) :
    words (run P o [.copy i j, .srand j seed, .rand i] (Own I)) = .ok [none, none, some (P.temper (c q))] ∧
      words (idealRun P o [.copy i j, .srand j seed, .rand i] I) = .ok [none, none, some (P.temper (g.state q))] := by
  have h1 : Own I j = some (own j g) := by unfold Own; rw [hj]; rfl
  constructor
  · have h2 : (own j g).state = g.state := rfl
    simp only [run, exec, h1, Res.bind_ok, upd_other _ _ hij, nextStateAt, h2, hc]
    rw [rand_copy P o _ i j q hij (own j g) (by rw [upd_other _ _ hij.symm, upd_self]) (by simp [own, hq]) hl hw]
    simp only [upd_self, look, if_pos hN]
    rfl
  · have hg : g = ⟨some q, g.left, g.state⟩ := by rw [← hq]
    simp only [idealRun, ideal, hj, Res.bind_ok, upd_other _ _ hij, upd_other _ _ hij.symm, upd_self, Rand.srand, nextState, hc]
    rw [hg, rand_dec P (o i) q g.left g.state hl hw hN]
    rfl

/-! ### Examples -/

/-- A program that copies an unused generator, uses both and destroys the source. -/
example (o : Nat → Os 32) (raw : Nat → BitVec 32) :
    CopiesUnused mt32 o [.make 0 raw 1, .copy 1 0, .drop 0, .rand 1] fun _ => none := by
  refine ⟨by intros; contradiction, ?_⟩
  intro r hr
  cases hr
  refine ⟨?_, ?_⟩
  · intro i j h g hg
    cases h
    cases hg
    rfl
  · intro r hr
    refine ⟨by intros; contradiction, fun _ _ => ⟨by intros; contradiction, fun _ _ => trivial⟩⟩

theorem next_word (P : Params w) (o : Os w) (m : Nat → BitVec w) (ho : o.past = some m) (hM : 0 < P.M) (hMN : P.M + 1 < P.N) (s : Nat → BitVec w) :
    ∃ c, nextBlock P o s = .ok c ∧ (1 < P.N - P.M → c 1 = s (1 + P.M) ^^^ P.twist (s 1) (s 2)) := by
  obtain ⟨c, h, h1, -⟩ := nextBlock_some P o m ho hM (by omega) s
  exact ⟨c, h, fun h' => h1 1 h'⟩

/-- A generator seeded with 1 from which one word was drawn meets the hypotheses of `C141_destroyed_source` and `C141_reseeded_source`, and with 2 as the new seed
of the source the copy does not return its own word. -/
theorem C141_copies_are_not_values : ∃ (o : Nat → Os 32) (I : Nat → Option (Gen 32)) (g : Gen 32) (y : BitVec 32),
    Rand.rand mt32 (o 0) (ctor mt32 (o 0) (fun _ => 0) 1) = .ok (g, y) ∧ I 0 = some g ∧ g.next = some 1 ∧ g.left = 624 ∧
    words (run mt32 o [.copy 1 0, .srand 0 2, .rand 1] (Own I)) ≠ words (idealRun mt32 o [.copy 1 0, .srand 0 2, .rand 1] I) := by
  obtain ⟨b, hb, b1⟩ := next_word mt32 ⟨0, 0, some fun _ => 0⟩ _ rfl (by decide) (by decide) (init mt32 ⟨0, 0, some fun _ => 0⟩ 1 fun _ => 0)
  obtain ⟨c, hc, c1⟩ := next_word mt32 ⟨0, 0, some fun _ => 0⟩ _ rfl (by decide) (by decide) (init mt32 ⟨0, 0, some fun _ => 0⟩ 2 b)
  have hr := rand_reload mt32 ⟨0, 0, some fun _ => 0⟩ none _ b hb (by decide)
  refine ⟨fun _ => ⟨0, 0, some fun _ => 0⟩, fun _ => some ⟨some 1, 624, b⟩, ⟨some 1, 624, b⟩, _, hr, rfl, rfl, rfl, ?_⟩
  obtain ⟨e1, e2⟩ := C141_reseeded_source mt32 (fun _ => ⟨0, 0, some fun _ => 0⟩) (fun _ => some ⟨some 1, 624, b⟩) 1 0 1 (by decide) _ rfl rfl
    (show 2 ≤ 624 by decide) (show 624 ≤ 2 ^ 32 by decide) (by decide) 2 c hc
  rw [e1, e2]
  intro h
  have h' := Res.ok.inj h
  simp only [List.cons.injEq, Option.some.injEq, true_and, and_true] at h'
  have h2 := temper32_injective h'
  rw [c1 (by decide), b1 (by decide)] at h2
  rw [init_ext mt32 _ 2 b (fun _ => 0) (1 + mt32.M) (by decide), init_ext mt32 _ 2 b (fun _ => 0) 1 (by decide), init_ext mt32 _ 2 b (fun _ => 0) 2 (by decide)] at h2
  revert h2
  set_option maxRecDepth 100000 in decide +kernel

end Verif.RandCopy
