/-
Writing through a `jstd::string_view` (C142) and `jstd::string_view_helper`, which ends a text for a while (C143).

Abbreviations: SV = src/jstd/string/string_view.h, SH = src/jstd/string/string_helper.h.

Addresses are numbers of characters; a cell of the memory is `none` where the program may neither read nor write.  The null pointer is address 0 and such
a cell in all programs.  Addresses do not wrap around.  The character type `C` and its terminator `nul` are parameters, so `char` and `wchar_t` are both covered.
-/
import Verif.Table

namespace Verif.StrBuf

variable {C : Type}

/-! ### Views that are written through -/

/-- The memory (SV:60-61). -/
abbrev Mem (C : Type) := Nat → Option C

/-- `data_` and `size_` (SV:60-61). -/
structure View where
  ptr : Nat
  size : Nat

/-- A read through a pointer (SV:209). -/
def get (m : Mem C) (a : Nat) : Res C :=
  match m a with
  | none => .ub
  | some c => .ok c

/-- A write through a pointer (SV:544). -/
def set (m : Mem C) (a : Nat) (c : C) : Res (Mem C) :=
  match m a with
  | none => .ub
  | some _ => .ok (upd m a (some c))

/-- `push_back_impl` (SV:542-546). -/
def pushImpl (m : Mem C) (v : View) (c : C) : Res (Mem C × View) :=
  (set m (v.ptr + v.size) c).bind fun m => .ok (m, ⟨v.ptr, v.size + 1⟩)

/-- `write_last` (SV:296-300). -/
def writeLast (m : Mem C) (v : View) (c : C) : Res (Mem C × View) :=
  (set m (v.ptr + v.size) c).bind fun m => .ok (m, v)

/-- `push_back` (SV:273-279). -/
def pushBack (nul : C) (m : Mem C) (v : View) (c : C) : Res (Mem C × View) :=
  (set m (v.ptr + v.size) c).bind fun m => (set m (v.ptr + v.size + 1) nul).bind fun m => .ok (m, ⟨v.ptr, v.size + 1⟩)

/-- The loop of the `append` functions that read characters (SV:208-212, 227-230, 236-239, 248-251), `n` times. -/
def appendLoop (m : Mem C) (v : View) (src : Nat) : Nat → Res (Mem C × View)
  | 0 => .ok (m, v)
  | n + 1 => (get m src).bind fun c => (pushImpl m v c).bind fun r => appendLoop r.1 r.2 (src + 1) n

/-- `append(data, count)` (SV:207-215). -/
def append (nul : C) (m : Mem C) (v : View) (src n : Nat) : Res (Mem C × View) :=
  (appendLoop m v src n).bind fun r => writeLast r.1 r.2 nul

/-- `append(first, last)` with pointers or iterators of a string (SV:226-242, 244-270); a `last` below `first` is never met, the loop runs out of the memory. -/
def appendPtr (nul : C) (m : Mem C) (v : View) (first last : Nat) : Res (Mem C × View) :=
  if first ≤ last then append nul m v first (last - first) else .ub

/-- The loop of `append(count, ch)` (SV:218-221). -/
def fillLoop (m : Mem C) (v : View) (c : C) : Nat → Res (Mem C × View)
  | 0 => .ok (m, v)
  | n + 1 => (pushImpl m v c).bind fun r => fillLoop r.1 r.2 c n

/-- `append(count, ch)` (SV:217-224). -/
def appendFill (nul : C) (m : Mem C) (v : View) (n : Nat) (c : C) : Res (Mem C × View) :=
  (fillLoop m v c n).bind fun r => writeLast r.1 r.2 nul

/-! ### Helpers -/

/-- A `string_view_helper` (SH:34-36). -/
structure Helper (C : Type) where
  str : View
  trunc : Bool
  save : C

/-- The address behind the text (SH:78-79, 89-90). -/
def Helper.last (h : Helper C) : Nat := h.str.ptr + h.str.size

/-- The default constructor (SH:39-43). -/
def fresh (nul : C) : Helper C := ⟨⟨0, 0⟩, false, nul⟩

/-- `attach` (SH:58-65) and its result. -/
def attach (h : Helper C) (v : View) : Helper C × Bool :=
  (if h.trunc then h else { h with str := v }, !h.trunc)

/-- `truncate` (SH:76-85). -/
def truncate (nul : C) (m : Mem C) (h : Helper C) : Res (Mem C × Helper C) :=
  if h.trunc then .ok (m, h)
  else (get m h.last).bind fun c => (set m h.last nul).bind fun m => .ok (m, { h with save := c, trunc := true })

/-- `recover` (SH:87-95). -/
def recover (m : Mem C) (h : Helper C) : Res (Mem C × Helper C) :=
  if h.trunc then (set m h.last h.save).bind fun m => .ok (m, { h with trunc := false })
  else .ok (m, h)

/-- `detach` (SH:67-74); `clear` of the view is SV:197-200. -/
def detach (m : Mem C) (h : Helper C) : Res (Mem C × Helper C) :=
  if h.trunc then (recover m h).bind fun r => .ok (r.1, { r.2 with str := ⟨0, 0⟩ })
  else .ok (m, h)

/-- What a program can do with helpers (SH:39-103): construct, copy, move-construct, destroy and swap them and call their functions. -/
inductive Act
  | make (i : Nat)
  | copy (i j : Nat)
  | moveFrom (i j : Nat)
  | swap (i j : Nat)
  | attach (i : Nat) (v : View)
  | truncate (i : Nat)
  | recover (i : Nat)
  | detach (i : Nat)
  | drop (i : Nat)

/-- The helpers that are alive, by number (SH:25-104). -/
abbrev Helpers (C : Type) := Nat → Option (Helper C)

/-- One action (SH:39-103).  Constructing a helper over a live one and using one that is not alive do not occur in programs, here `ub`. -/
def exec (nul : C) (m : Mem C) (H : Helpers C) : Act → Res (Mem C × Helpers C)
  | .make i =>
    match H i with
    | some _ => .ub
    | none => .ok (m, upd H i (some (fresh nul)))
  | .copy i j =>
    match H i, H j with
    | none, some h => .ok (m, upd H i (some h))
    | _, _ => .ub
  | .moveFrom i j =>
    match H i, H j with
    | none, some h => .ok (m, upd (upd H i (some h)) j (some (fresh nul)))
    | _, _ => .ub
  | .swap i j =>
    match H i, H j with
    | some g, some h => .ok (m, upd (upd H i (some h)) j (some g))
    | _, _ => .ub
  | .attach i v =>
    match H i with
    | none => .ub
    | some h => .ok (m, upd H i (some (attach h v).1))
  | .truncate i =>
    match H i with
    | none => .ub
    | some h => (truncate nul m h).bind fun r => .ok (r.1, upd H i (some r.2))
  | .recover i =>
    match H i with
    | none => .ub
    | some h => (recover m h).bind fun r => .ok (r.1, upd H i (some r.2))
  | .detach i =>
    match H i with
    | none => .ub
    | some h => (detach m h).bind fun r => .ok (r.1, upd H i (some r.2))
  | .drop i =>
    match H i with
    | none => .ub
    | some h => (detach m h).bind fun r => .ok (r.1, upd H i none)

/-- A program (SH:39-103). -/
def run (nul : C) : List Act → Mem C → Helpers C → Res (Mem C × Helpers C)
  | [], m, H => .ok (m, H)
  | a :: l, m, H => (exec nul m H a).bind fun r => run nul l r.1 r.2

/-! ### Lemmas: writing through views -/

theorem get_ok {m : Mem C} {a : Nat} {c : C} (h : m a = some c) : get m a = .ok c := by
  unfold get; rw [h]

theorem set_ok {m : Mem C} {a : Nat} (h : m a ≠ none) (c : C) : set m a c = .ok (upd m a (some c)) := by
  unfold set
  cases hm : m a with
  | none => exact absurd hm h
  | some _ => rfl

theorem set_ub {m : Mem C} {a : Nat} (h : m a = none) (c : C) : set m a c = .ub := by
  unfold set; rw [h]

/-- The loop, with the source at distance `p` before the end of the text: the character of pass `i` is that of the source at `i` modulo `p`. -/
theorem appendLoop_near (p : Nat) (hp : 0 < p) (m0 : Mem C) (e : Nat) (hpe : p ≤ e) (hread : ∀ i < p, m0 (e - p + i) ≠ none) :
    ∀ (n k : Nat) (m : Mem C) (v : View), v.ptr + v.size = e + k → (∀ i < k, m (e + i) = m0 (e - p + i % p)) →
      (∀ a, (a < e ∨ e + k ≤ a) → m a = m0 a) → (∀ i < n, m0 (e + k + i) ≠ none) →
      ∃ m', appendLoop m v (e - p + k) n = .ok (m', ⟨v.ptr, v.size + n⟩) ∧ (∀ i < k + n, m' (e + i) = m0 (e - p + i % p)) ∧
        (∀ a, (a < e ∨ e + k + n ≤ a) → m' a = m0 a) := by
  intro n
  induction n with
  | zero =>
    intro k m v _ h1 h2 _
    exact ⟨m, rfl, h1, h2⟩
  | succ n ih =>
    intro k m v hv h1 h2 hroom
    have hsrc : m (e - p + k) = m0 (e - p + k % p) := by
      by_cases hk : k < p
      · rw [Nat.mod_eq_of_lt hk]
        exact h2 _ (by omega)
      · have := h1 (k - p) (by omega)
        rw [show e + (k - p) = e - p + k by omega] at this
        rw [this, Nat.mod_eq_sub_mod (show k ≥ p by omega)]
    have hlt : k % p < p := Nat.mod_lt _ hp
    obtain ⟨c, hc⟩ : ∃ c, m0 (e - p + k % p) = some c := by
      cases hx : m0 (e - p + k % p) with
      | none => exact absurd hx (hread _ hlt)
      | some c => exact ⟨c, rfl⟩
    have hw : m (e + k) ≠ none := by
      rw [h2 _ (by omega)]
      simpa using hroom 0 (by omega)
    obtain ⟨m', hl, g1, g2⟩ := ih (k + 1) (upd m (e + k) (some c)) ⟨v.ptr, v.size + 1⟩ (by simp only; omega)
      (by
        intro i hi
        by_cases hik : i = k
        · subst hik
          rw [upd_self, hc]
        · rw [upd_other _ _ (by omega)]
          exact h1 i (by omega))
      (by
        intro a ha
        rw [upd_other _ _ (by omega)]
        exact h2 a (by omega))
      (by
        intro i hi
        have := hroom (i + 1) (by omega)
        rwa [show e + (k + 1) + i = e + k + (i + 1) by omega])
    refine ⟨m', ?_, ?_, ?_⟩
    · rw [appendLoop, get_ok (hsrc.trans hc), Res.bind_ok, pushImpl, hv, set_ok hw, Res.bind_ok, Res.bind_ok]
      rw [show e - p + k + 1 = e - p + (k + 1) by omega, hl, show v.size + 1 + n = v.size + (n + 1) by omega]
    · intro i hi
      exact g1 i (by omega)
    · intro a ha
      exact g2 a (by omega)

/-- The loop, with a source that is not written to. -/
theorem appendLoop_far : ∀ (n : Nat) (m : Mem C) (v : View) (src : Nat),
    (src + n ≤ v.ptr + v.size ∨ v.ptr + v.size + n ≤ src) → (∀ i < n, m (src + i) ≠ none) → (∀ i < n, m (v.ptr + v.size + i) ≠ none) →
      ∃ m', appendLoop m v src n = .ok (m', ⟨v.ptr, v.size + n⟩) ∧ (∀ i < n, m' (v.ptr + v.size + i) = m (src + i)) ∧
        (∀ a, (a < v.ptr + v.size ∨ v.ptr + v.size + n ≤ a) → m' a = m a) := by
  intro n
  induction n with
  | zero =>
    intro m v src _ _ _
    exact ⟨m, rfl, by intro i hi; omega, fun _ _ => rfl⟩
  | succ n ih =>
    intro m v src hd hr hw
    obtain ⟨c, hc⟩ : ∃ c, m src = some c := by
      cases hx : m src with
      | none => exact absurd hx (by simpa using hr 0 (by omega))
      | some c => exact ⟨c, rfl⟩
    have hw0 : m (v.ptr + v.size) ≠ none := by simpa using hw 0 (by omega)
    obtain ⟨m', hl, g1, g2⟩ := ih (upd m (v.ptr + v.size) (some c)) ⟨v.ptr, v.size + 1⟩ (src + 1) (by simp only; omega)
      (by
        intro i hi
        rw [upd_other _ _ (by omega), show src + 1 + i = src + (i + 1) by omega]
        exact hr (i + 1) (by omega))
      (by
        intro i hi
        simp only
        rw [upd_other _ _ (by omega), show v.ptr + (v.size + 1) + i = v.ptr + v.size + (i + 1) by omega]
        exact hw (i + 1) (by omega))
    simp only at g1 g2
    refine ⟨m', ?_, ?_, ?_⟩
    · rw [appendLoop, get_ok hc, Res.bind_ok, pushImpl, set_ok hw0, Res.bind_ok, Res.bind_ok, hl, show v.size + 1 + n = v.size + (n + 1) by omega]
    · intro i hi
      cases i with
      | zero =>
        rw [g2 _ (by omega), Nat.add_zero, Nat.add_zero, upd_self, hc]
      | succ i =>
        rw [show v.ptr + v.size + (i + 1) = v.ptr + (v.size + 1) + i by omega, g1 i (by omega), upd_other _ _ (by omega),
          show src + 1 + i = src + (i + 1) by omega]
    · intro a ha
      rw [g2 a (by omega), upd_other _ _ (by omega)]

/-- The loop does not get past a cell that cannot be written, whatever the source. -/
theorem appendLoop_ub : ∀ (n : Nat) (m : Mem C) (v : View) (src : Nat) (i : Nat), i < n → m (v.ptr + v.size + i) = none →
    appendLoop m v src n = .ub := by
  intro n
  induction n with
  | zero => intro m v src i hi; omega
  | succ n ih =>
    intro m v src i hi hn
    rw [appendLoop]
    cases hs : m src with
    | none => unfold get; rw [hs]; rfl
    | some c =>
      rw [get_ok hs, Res.bind_ok, pushImpl]
      cases hm : m (v.ptr + v.size) with
      | none => rw [set_ub hm]; rfl
      | some d =>
        rw [set_ok (by rw [hm]; simp), Res.bind_ok, Res.bind_ok]
        have hi0 : i ≠ 0 := by
          intro h0
          subst h0
          rw [Nat.add_zero, hm] at hn
          cases hn
        exact ih _ _ _ (i - 1) (by omega) (by
          simp only
          rw [upd_other _ _ (by omega), show v.ptr + (v.size + 1) + (i - 1) = v.ptr + v.size + i by omega]
          exact hn)

theorem appendLoop_view : ∀ (n : Nat) (m : Mem C) (v : View) (src : Nat) (r : Mem C × View), appendLoop m v src n = .ok r →
    r.2 = ⟨v.ptr, v.size + n⟩ ∧ ∀ a, r.1 a = none ↔ m a = none := by
  intro n
  induction n with
  | zero =>
    intro m v src r h
    cases h
    exact ⟨rfl, fun _ => Iff.rfl⟩
  | succ n ih =>
    intro m v src r h
    rw [appendLoop] at h
    cases hs : m src with
    | none => unfold get at h; rw [hs] at h; cases h
    | some c =>
      rw [get_ok hs, Res.bind_ok, pushImpl] at h
      cases hm : m (v.ptr + v.size) with
      | none => rw [set_ub hm] at h; cases h
      | some d =>
        rw [set_ok (by rw [hm]; simp), Res.bind_ok, Res.bind_ok] at h
        obtain ⟨h1, h2⟩ := ih _ _ _ _ h
        refine ⟨by rw [h1]; simp only; congr 1; omega, fun a => ?_⟩
        rw [h2 a]
        by_cases ha : a = v.ptr + v.size
        · subst ha
          simp [hm]
        · simp only [upd_other _ _ ha]

theorem fillLoop_spec : ∀ (n : Nat) (m : Mem C) (v : View) (c : C), (∀ i < n, m (v.ptr + v.size + i) ≠ none) →
      ∃ m', fillLoop m v c n = .ok (m', ⟨v.ptr, v.size + n⟩) ∧ (∀ i < n, m' (v.ptr + v.size + i) = some c) ∧
        (∀ a, (a < v.ptr + v.size ∨ v.ptr + v.size + n ≤ a) → m' a = m a) := by
  intro n
  induction n with
  | zero =>
    intro m v c _
    exact ⟨m, rfl, by intro i hi; omega, fun _ _ => rfl⟩
  | succ n ih =>
    intro m v c hw
    have hw0 : m (v.ptr + v.size) ≠ none := by simpa using hw 0 (by omega)
    obtain ⟨m', hl, g1, g2⟩ := ih (upd m (v.ptr + v.size) (some c)) ⟨v.ptr, v.size + 1⟩ c
      (by
        intro i hi
        simp only
        rw [upd_other _ _ (by omega), show v.ptr + (v.size + 1) + i = v.ptr + v.size + (i + 1) by omega]
        exact hw (i + 1) (by omega))
    simp only at g1 g2
    refine ⟨m', ?_, ?_, ?_⟩
    · rw [fillLoop, pushImpl, set_ok hw0, Res.bind_ok, Res.bind_ok, hl, show v.size + 1 + n = v.size + (n + 1) by omega]
    · intro i hi
      cases i with
      | zero => rw [g2 _ (by omega), Nat.add_zero, upd_self]
      | succ i => rw [show v.ptr + v.size + (i + 1) = v.ptr + (v.size + 1) + i by omega, g1 i (by omega)]
    · intro a ha
      rw [g2 a (by omega), upd_other _ _ (by omega)]

/-! ### Theorems: writing through views -/

/-- The `n` characters from address `a` on. -/
def chars (m : Mem C) (a n : Nat) : List (Option C) := (List.range n).map fun i => m (a + i)

theorem chars_congr {m m' : Mem C} {a a' n : Nat} (h : ∀ i < n, m (a + i) = m' (a' + i)) : chars m a n = chars m' a' n := by
  unfold chars
  exact List.map_congr_left fun i hi => h i (List.mem_range.1 hi)

theorem chars_add (m : Mem C) (a n k : Nat) : chars m a (n + k) = chars m a n ++ chars m (a + n) k := by
  unfold chars
  rw [List.range_add, List.map_append, List.map_map]
  congr 1
  exact List.map_congr_left fun i _ => by simp only [Function.comp]; rw [Nat.add_assoc]

/-- C142, partial (missing: sources that reach behind the text, see `C142_append_repeats`).  `append(data, count)` and `append(first, last)`, given room for the characters
and a terminator, add the characters to the text, terminate it and change nothing else. -/
theorem C142_append_partial (nul : C) (m : Mem C) (v : View) (src n : Nat) (hd : src + n ≤ v.ptr + v.size ∨ v.ptr + v.size + n ≤ src)
    (hr : ∀ i < n, m (src + i) ≠ none) (hw : ∀ i ≤ n, m (v.ptr + v.size + i) ≠ none) :
    ∃ m' v', append nul m v src n = .ok (m', v') ∧ appendPtr nul m v src (src + n) = .ok (m', v') ∧ v'.ptr = v.ptr ∧
      chars m' v'.ptr v'.size = chars m v.ptr v.size ++ chars m src n ∧ m' (v'.ptr + v'.size) = some nul ∧
      ∀ a, a < v.ptr + v.size ∨ v.ptr + v.size + n < a → m' a = m a := by
  obtain ⟨m', hl, g1, g2⟩ := appendLoop_far n m v src hd hr fun i hi => hw i (by omega)
  have hlast : m' (v.ptr + (v.size + n)) ≠ none := by
    rw [g2 _ (by omega), ← Nat.add_assoc]
    exact hw n (le_refl _)
  have h : append nul m v src n = .ok (upd m' (v.ptr + (v.size + n)) (some nul), ⟨v.ptr, v.size + n⟩) := by
    rw [append, hl, Res.bind_ok, writeLast, set_ok hlast, Res.bind_ok]
  refine ⟨_, _, h, by rw [appendPtr, if_pos (by omega), Nat.add_sub_cancel_left, h], rfl, ?_, upd_self _ _ _, ?_⟩
  · simp only
    rw [chars_add]
    congr 1
    · exact chars_congr fun i hi => by rw [upd_other _ _ (by omega), g2 _ (by omega)]
    · exact chars_congr fun i hi => by rw [upd_other _ _ (by omega), g1 i hi]
  · intro a ha
    rw [upd_other _ _ (by omega), g2 a (by omega)]

/-- C142: the same for `append(count, ch)`. -/
theorem C142_append_fill (nul : C) (m : Mem C) (v : View) (n : Nat) (c : C) (hw : ∀ i ≤ n, m (v.ptr + v.size + i) ≠ none) :
    ∃ m' v', appendFill nul m v n c = .ok (m', v') ∧ v'.ptr = v.ptr ∧
      chars m' v'.ptr v'.size = chars m v.ptr v.size ++ List.replicate n (some c) ∧ m' (v'.ptr + v'.size) = some nul ∧
      ∀ a, a < v.ptr + v.size ∨ v.ptr + v.size + n < a → m' a = m a := by
  obtain ⟨m', hl, g1, g2⟩ := fillLoop_spec n m v c fun i hi => hw i (by omega)
  have hlast : m' (v.ptr + (v.size + n)) ≠ none := by
    rw [g2 _ (by omega), ← Nat.add_assoc]
    exact hw n (le_refl _)
  have h : appendFill nul m v n c = .ok (upd m' (v.ptr + (v.size + n)) (some nul), ⟨v.ptr, v.size + n⟩) := by
    rw [appendFill, hl, Res.bind_ok, writeLast, set_ok hlast, Res.bind_ok]
  refine ⟨_, _, h, rfl, ?_, upd_self _ _ _, ?_⟩
  · simp only
    rw [chars_add]
    congr 1
    · exact chars_congr fun i hi => by rw [upd_other _ _ (by omega), g2 _ (by omega)]
    · unfold chars
      rw [List.eq_replicate_iff]
      refine ⟨by simp, ?_⟩
      intro x hx
      obtain ⟨i, hi, rfl⟩ := List.mem_map.1 hx
      have hi := List.mem_range.1 hi
      rw [upd_other _ _ (by omega), g1 i hi]
  · intro a ha
    rw [upd_other _ _ (by omega), g2 a (by omega)]

/-- C142: the same for `push_back`. -/
theorem C142_push_back (nul : C) (m : Mem C) (v : View) (c : C) (hw : ∀ i ≤ 1, m (v.ptr + v.size + i) ≠ none) :
    ∃ m' v', pushBack nul m v c = .ok (m', v') ∧ v'.ptr = v.ptr ∧
      chars m' v'.ptr v'.size = chars m v.ptr v.size ++ [some c] ∧ m' (v'.ptr + v'.size) = some nul ∧
      ∀ a, a < v.ptr + v.size ∨ v.ptr + v.size + 1 < a → m' a = m a := by
  have h0 : m (v.ptr + v.size) ≠ none := hw 0 (by omega)
  have h1 : upd m (v.ptr + v.size) (some c) (v.ptr + v.size + 1) ≠ none := by
    rw [upd_other _ _ (by omega)]
    exact hw 1 (by omega)
  have h : pushBack nul m v c = .ok (upd (upd m (v.ptr + v.size) (some c)) (v.ptr + v.size + 1) (some nul), ⟨v.ptr, v.size + 1⟩) := by
    rw [pushBack, set_ok h0, Res.bind_ok, set_ok h1, Res.bind_ok]
  refine ⟨_, _, h, rfl, ?_, by simp only; rw [← Nat.add_assoc, upd_self], ?_⟩
  · simp only
    rw [chars_add]
    congr 1
    · exact chars_congr fun i hi => by rw [upd_other _ _ (by omega), upd_other _ _ (by omega)]
    · simp only [chars, List.range_one, List.map_cons, List.map_nil, Nat.add_zero]
      rw [upd_other _ _ (by omega), upd_self]
  · intro a ha
    rw [upd_other _ _ (by omega), upd_other _ _ (by omega)]

/-- C142: without room for the characters and the terminator these functions write where they must not. -/
theorem C142_needs_room (nul : C) (m : Mem C) (v : View) (src n i : Nat) (hi : i ≤ n) (h : m (v.ptr + v.size + i) = none) :
    append nul m v src n = .ub := by
  rw [append]
  by_cases hin : i < n
  · rw [appendLoop_ub n m v src i hin h]; rfl
  · have : i = n := by omega
    subst this
    cases hl : appendLoop m v src i with
    | ub => rfl
    | diverge =>
      exfalso
      revert hl
      have : ∀ (n : Nat) (m : Mem C) (v : View) (src : Nat), appendLoop m v src n ≠ .diverge := by
        intro n
        induction n with
        | zero => intro m v src h; cases h
        | succ n ih =>
          intro m v src
          rw [appendLoop]
          cases hs : m src with
          | none => unfold get; rw [hs]; intro h; cases h
          | some c =>
            rw [get_ok hs, Res.bind_ok, pushImpl]
            cases hm : m (v.ptr + v.size) with
            | none => rw [set_ub hm]; intro h; cases h
            | some d =>
              rw [set_ok (by rw [hm]; simp), Res.bind_ok, Res.bind_ok]
              exact ih _ _ _
      exact this _ _ _ _
    | ok r =>
      obtain ⟨h1, h2⟩ := appendLoop_view _ _ _ _ _ hl
      rw [Res.bind_ok, writeLast, set_ub]
      · rfl
      · rw [h1, h2]
        simp only
        rw [← Nat.add_assoc]
        exact h

/-- C142 is violated for a source that begins `p` characters before the end of the text and reaches behind it: the characters added are the last `p` of the text, again and again,
instead of those that stood in the source. -/
theorem C142_append_repeats (nul : C) (m : Mem C) (v : View) (p n : Nat) (hp : 0 < p) (hpe : p ≤ v.size) (ht : ∀ i < v.size, m (v.ptr + i) ≠ none)
    (hw : ∀ i ≤ n, m (v.ptr + v.size + i) ≠ none) :
    ∃ m' v', append nul m v (v.ptr + v.size - p) n = .ok (m', v') ∧
      ∀ i < n, m' (v.ptr + v.size + i) = m (v.ptr + v.size - p + i % p) := by
  obtain ⟨m', hl, g1, g2⟩ := appendLoop_near p hp m (v.ptr + v.size) (by omega)
    (fun i hi => by
      rw [show v.ptr + v.size - p + i = v.ptr + (v.size - p + i) by omega]
      exact ht _ (by omega)) n 0 m v (by omega) (by intro i hi; omega) (fun _ _ => rfl)
    (fun i hi => by rw [Nat.add_zero]; exact hw i (by omega))
  rw [Nat.add_zero] at hl
  have hlast : m' (v.ptr + (v.size + n)) ≠ none := by
    rw [g2 _ (by omega), ← Nat.add_assoc]
    exact hw n (le_refl _)
  have h : append nul m v (v.ptr + v.size - p) n = .ok (upd m' (v.ptr + (v.size + n)) (some nul), ⟨v.ptr, v.size + n⟩) := by
    rw [append, hl, Res.bind_ok, writeLast, set_ok hlast, Res.bind_ok]
  refine ⟨_, _, h, ?_⟩
  intro i hi
  rw [upd_other _ _ (by omega), g1 i (by omega)]

/-! ### Lemmas: helpers -/

/-- The restriction on one action: no helper is copied while its text is cut, and no text is cut at a place where another one is. -/
def Careful (H : Helpers C) : Act → Prop
  | .copy _ j => ∀ h, H j = some h → h.trunc = false
  | .truncate i => ∀ h, H i = some h → h.trunc = false → ∀ j g, H j = some g → g.trunc = true → g.last ≠ h.last
  | _ => True

/-- The restriction on a program. -/
def CarefulRun (nul : C) : List Act → Mem C → Helpers C → Prop
  | [], _, _ => True
  | a :: l, m, H => Careful H a ∧ ∀ r, exec nul m H a = .ok r → CarefulRun nul l r.1 r.2

/-- The memory is that of the beginning except behind the texts that are cut. -/
structure Kept (nul : C) (m0 m : Mem C) (H : Helpers C) : Prop where
  cut : ∀ i h, H i = some h → h.trunc = true → m h.last = some nul ∧ m0 h.last = some h.save
  one : ∀ i j h g, H i = some h → H j = some g → h.trunc = true → g.trunc = true → h.last = g.last → i = j
  rest : ∀ a, (∀ i h, H i = some h → h.trunc = true → h.last ≠ a) → m a = m0 a

theorem Kept.set_idle {nul : C} {m0 m : Mem C} {H : Helpers C} (hK : Kept nul m0 m H) (i : Nat) (x : Option (Helper C))
    (hold : ∀ h, H i = some h → h.trunc = false) (hnew : ∀ h, x = some h → h.trunc = false) : Kept nul m0 m (upd H i x) := by
  have key : ∀ j g, upd H i x j = some g → g.trunc = true → H j = some g := by
    intro j g hj hg
    by_cases hji : j = i
    · subst hji
      rw [upd_self] at hj
      rw [hnew g hj] at hg
      cases hg
    · rwa [upd_other _ _ hji] at hj
  refine ⟨fun j h hj ht => hK.cut j h (key j h hj ht) ht, fun j k h g hj hk ht hg e => hK.one j k h g (key j h hj ht) (key k g hk hg) ht hg e, ?_⟩
  intro a ha
  refine hK.rest a fun j h hj ht => ?_
  refine ha j h ?_ ht
  by_cases hji : j = i
  · subst hji
    rw [hold h hj] at ht
    cases ht
  · rwa [upd_other _ _ hji]

/-- Writing back the saved character of helper `i`, which is cut no more afterwards. -/
theorem Kept.set_back {nul : C} {m0 m : Mem C} {H : Helpers C} (hK : Kept nul m0 m H) {i : Nat} {h : Helper C} (hi : H i = some h) (ht : h.trunc = true)
    (x : Option (Helper C)) (hx : ∀ g, x = some g → g.trunc = false) : Kept nul m0 (upd m h.last (some h.save)) (upd H i x) := by
  have key : ∀ j g, upd H i x j = some g → g.trunc = true → j ≠ i ∧ H j = some g := by
    intro j g hj hg
    by_cases hji : j = i
    · subst hji
      rw [upd_self] at hj
      rw [hx g hj] at hg
      cases hg
    · rw [upd_other _ _ hji] at hj
      exact ⟨hji, hj⟩
  refine ⟨?_, ?_, ?_⟩
  · intro j g hj hg
    obtain ⟨hji, hj⟩ := key j g hj hg
    have hne : g.last ≠ h.last := fun e => hji (hK.one j i g h hj hi hg ht e)
    rw [upd_other _ _ hne]
    exact hK.cut j g hj hg
  · intro j k g g' hj hk hg hg' e
    exact hK.one j k g g' (key j g hj hg).2 (key k g' hk hg').2 hg hg' e
  · intro a ha
    by_cases hal : a = h.last
    · subst hal
      rw [upd_self, (hK.cut i h hi ht).2]
    · rw [upd_other _ _ hal]
      refine hK.rest a fun j g hj hg => ?_
      by_cases hji : j = i
      · subst hji
        rw [hi] at hj
        cases hj
        exact fun e => hal e.symm
      · exact ha j g (by rw [upd_other _ _ hji]; exact hj) hg

theorem Kept.swap {nul : C} {m0 m : Mem C} {H : Helpers C} (hK : Kept nul m0 m H) {i j : Nat} {x y : Option (Helper C)} (hi : H i = x) (hj : H j = y) :
    Kept nul m0 m (upd (upd H i y) j x) := by
  let p : Nat → Nat := fun k => if k = j then i else if k = i then j else k
  have hp : ∀ k, upd (upd H i y) j x k = H (p k) := by
    intro k
    simp only [p, upd]
    split
    · exact hi.symm
    · split
      · exact hj.symm
      · rfl
  have hinj : ∀ k l, p k = p l → k = l := by
    intro k l h
    simp only [p] at h
    split at h <;> split at h <;> (try split at h) <;> (try split at h) <;> omega
  have hsur : ∀ k, p (p k) = k := by
    intro k
    simp only [p]
    split
    · rename_i h
      subst h
      split
      · assumption
      · simp
    · split
      · rename_i h; simp [h]
      · rfl
  refine ⟨fun k h hk ht => hK.cut (p k) h ((hp k) ▸ hk) ht, fun k l h g hk hl ht hg e => hinj _ _ (hK.one (p k) (p l) h g ((hp k) ▸ hk) ((hp l) ▸ hl) ht hg e), ?_⟩
  intro a ha
  refine hK.rest a fun k h hk ht => ha (p k) h ?_ ht
  rw [hp, hsur, hk]

theorem exec_kept {nul : C} {m0 m : Mem C} {H : Helpers C} (hK : Kept nul m0 m H) (a : Act) (hc : Careful H a) (r : Mem C × Helpers C)
    (hr : exec nul m H a = .ok r) : Kept nul m0 r.1 r.2 := by
  cases a with
  | make i =>
    simp only [exec] at hr
    cases hi : H i with
    | some h => rw [hi] at hr; cases hr
    | none =>
      rw [hi] at hr
      cases hr
      exact hK.set_idle i _ (by intro h hh; rw [hi] at hh; cases hh) (by intro h hh; cases hh; rfl)
  | copy i j =>
    simp only [exec] at hr
    cases hi : H i with
    | some h => rw [hi] at hr; cases hr
    | none =>
      cases hj : H j with
      | none => rw [hi, hj] at hr; cases hr
      | some h =>
        rw [hi, hj] at hr
        cases hr
        exact hK.set_idle i _ (by intro h hh; rw [hi] at hh; cases hh) (by intro g hg; cases hg; exact hc h hj)
  | moveFrom i j =>
    simp only [exec] at hr
    cases hi : H i with
    | some h => rw [hi] at hr; cases hr
    | none =>
      cases hj : H j with
      | none => rw [hi, hj] at hr; cases hr
      | some h =>
        rw [hi, hj] at hr
        cases hr
        have h1 := hK.swap hi hj
        have h2 := h1.set_idle j (some (fresh nul)) (by intro h hh; rw [upd_self] at hh; cases hh) (by intro g hg; cases hg; rfl)
        have e : upd (upd (upd H i (some h)) j none) j (some (fresh nul)) = upd (upd H i (some h)) j (some (fresh nul)) := by
          funext k
          unfold upd
          split <;> rfl
        rw [e] at h2
        exact h2
  | swap i j =>
    simp only [exec] at hr
    cases hi : H i with
    | none => rw [hi] at hr; cases hr
    | some g =>
      cases hj : H j with
      | none => rw [hi, hj] at hr; cases hr
      | some h =>
        rw [hi, hj] at hr
        cases hr
        exact hK.swap hi hj
  | attach i v =>
    simp only [exec] at hr
    cases hi : H i with
    | none => rw [hi] at hr; cases hr
    | some h =>
      rw [hi] at hr
      cases hr
      cases ht : h.trunc with
      | true =>
        have e : upd H i (some (attach h v).1) = H := by
          funext k
          unfold upd attach
          split
          · rename_i hk; rw [hk, hi]
          · rfl
        rw [e]
        exact hK
      | false =>
        exact hK.set_idle i _ (by intro g hg; rw [hi] at hg; cases hg; exact ht) (by intro g hg; cases hg; simp [attach, ht])
  | truncate i =>
    simp only [exec] at hr
    cases hi : H i with
    | none => rw [hi] at hr; cases hr
    | some h =>
      rw [hi] at hr
      cases ht : h.trunc with
      | true =>
        simp only [truncate, ht, if_true, Res.bind_ok] at hr
        cases hr
        have e : upd H i (some h) = H := by
          funext k
          unfold upd
          split
          · rename_i hk; rw [hk, hi]
          · rfl
        rw [e]
        exact hK
      | false =>
        have hfree := hc h hi ht
        simp only [truncate, ht, Bool.false_eq_true, if_false] at hr
        cases hm : m h.last with
        | none => unfold get at hr; rw [hm] at hr; cases hr
        | some c =>
          rw [get_ok hm, Res.bind_ok, set_ok (by rw [hm]; simp), Res.bind_ok, Res.bind_ok] at hr
          cases hr
          show Kept nul m0 (upd m h.last (some nul)) (upd H i (some ⟨h.str, true, c⟩))
          have horig : m0 h.last = some c := by rw [← hK.rest h.last fun j g hj hg => hfree j g hj hg, hm]
          refine ⟨?_, ?_, ?_⟩
          · intro j g hj hg
            by_cases hji : j = i
            · subst hji
              rw [upd_self] at hj
              cases hj
              exact ⟨upd_self _ _ _, horig⟩
            · rw [upd_other _ _ hji] at hj
              rw [upd_other _ _ (hfree j g hj hg)]
              exact hK.cut j g hj hg
          · intro j k g g' hj hk hg hg' e
            by_cases hji : j = i
            · by_cases hki : k = i
              · rw [hji, hki]
              · rw [hji, upd_self] at hj
                rw [upd_other _ _ hki] at hk
                cases hj
                exact absurd e.symm (hfree k g' hk hg')
            · rw [upd_other _ _ hji] at hj
              by_cases hki : k = i
              · rw [hki, upd_self] at hk
                cases hk
                exact absurd e (hfree j g hj hg)
              · rw [upd_other _ _ hki] at hk
                exact hK.one j k g g' hj hk hg hg' e
          · intro a ha
            have hal : a ≠ h.last := by
              intro e
              exact ha i ⟨h.str, true, c⟩ (upd_self _ _ _) rfl e.symm
            rw [upd_other _ _ hal]
            refine hK.rest a fun j g hj hg => ?_
            by_cases hji : j = i
            · subst hji
              rw [hi] at hj
              cases hj
              rw [ht] at hg
              cases hg
            · exact ha j g (by rw [upd_other _ _ hji]; exact hj) hg
  | recover i =>
    simp only [exec] at hr
    cases hi : H i with
    | none => rw [hi] at hr; cases hr
    | some h =>
      rw [hi] at hr
      cases ht : h.trunc with
      | true =>
        simp only [recover, ht, if_true] at hr
        rw [set_ok (by rw [(hK.cut i h hi ht).1]; simp), Res.bind_ok, Res.bind_ok] at hr
        cases hr
        exact hK.set_back hi ht _ (by intro g hg; cases hg; rfl)
      | false =>
        simp only [recover, ht, Bool.false_eq_true, if_false, Res.bind_ok] at hr
        cases hr
        exact hK.set_idle i _ (by intro g hg; rw [hi] at hg; cases hg; exact ht) (by intro g hg; cases hg; exact ht)
  | detach i =>
    simp only [exec] at hr
    cases hi : H i with
    | none => rw [hi] at hr; cases hr
    | some h =>
      rw [hi] at hr
      cases ht : h.trunc with
      | true =>
        simp only [detach, recover, ht, if_true] at hr
        rw [set_ok (by rw [(hK.cut i h hi ht).1]; simp), Res.bind_ok, Res.bind_ok, Res.bind_ok] at hr
        cases hr
        exact hK.set_back hi ht _ (by intro g hg; cases hg; rfl)
      | false =>
        simp only [detach, ht, Bool.false_eq_true, if_false, Res.bind_ok] at hr
        cases hr
        exact hK.set_idle i _ (by intro g hg; rw [hi] at hg; cases hg; exact ht) (by intro g hg; cases hg; exact ht)
  | drop i =>
    simp only [exec] at hr
    cases hi : H i with
    | none => rw [hi] at hr; cases hr
    | some h =>
      rw [hi] at hr
      cases ht : h.trunc with
      | true =>
        simp only [detach, recover, ht, if_true] at hr
        rw [set_ok (by rw [(hK.cut i h hi ht).1]; simp), Res.bind_ok, Res.bind_ok, Res.bind_ok] at hr
        cases hr
        exact hK.set_back hi ht _ (by intro g hg; cases hg)
      | false =>
        simp only [detach, ht, Bool.false_eq_true, if_false, Res.bind_ok] at hr
        cases hr
        exact hK.set_idle i _ (by intro g hg; rw [hi] at hg; cases hg; exact ht) (by intro g hg; cases hg)

theorem run_kept (nul : C) (m0 : Mem C) : ∀ (l : List Act) (m : Mem C) (H : Helpers C), Kept nul m0 m H → CarefulRun nul l m H →
    ∀ r, run nul l m H = .ok r → Kept nul m0 r.1 r.2 := by
  intro l
  induction l with
  | nil =>
    intro m H hK _ r hr
    cases hr
    exact hK
  | cons a l ih =>
    intro m H hK hc r hr
    rw [run] at hr
    cases he : exec nul m H a with
    | ub => rw [he] at hr; cases hr
    | diverge => rw [he] at hr; cases hr
    | ok x =>
      rw [he, Res.bind_ok] at hr
      exact ih x.1 x.2 (exec_kept hK a hc.1 x he) (hc.2 x he) r hr

/-! ### Theorems: helpers -/

/-- C143, partial (missing: helpers copied while their text is cut, and two texts cut at the same place; see below).  At every point of a program the text of a helper that is cut
ends with a terminator, and the memory is otherwise that of the beginning. -/
theorem C143_restores_partial (nul : C) (l : List Act) (m0 m : Mem C) (H : Helpers C) (hc : CarefulRun nul l m0 fun _ => none)
    (hr : run nul l m0 (fun _ => none) = .ok (m, H)) :
    (∀ i h, H i = some h → h.trunc = true → m (h.str.ptr + h.str.size) = some nul) ∧
      (∀ a, (∀ i h, H i = some h → h.trunc = true → h.str.ptr + h.str.size ≠ a) → m a = m0 a) ∧
      ((∀ i, H i = none) → m = m0) := by
  have h0 : Kept nul m0 m0 (fun _ => none : Helpers C) :=
    ⟨by intro i h hh; simp at hh, by intro i j h g hh; simp at hh, fun _ _ => rfl⟩
  have hK : Kept nul m0 m H := run_kept nul m0 l m0 _ h0 hc _ hr
  refine ⟨fun i h hi ht => (hK.cut i h hi ht).1, fun a ha => hK.rest a ha, fun hn => ?_⟩
  funext a
  exact hK.rest a fun i h hi => by rw [hn i] at hi; cases hi

/-- C143 is violated: two helpers cut texts that end at the same place, and the first one recovers first.  When both are destroyed, the terminator is still in the text. -/
theorem C143_same_end (nul c : C) (hcn : c ≠ nul) (m0 : Mem C) (v w : View) (hvw : v.ptr + v.size = w.ptr + w.size) (hm : m0 (v.ptr + v.size) = some c) :
    ∃ m H, run nul [.make 0, .make 1, .attach 0 v, .attach 1 w, .truncate 0, .truncate 1, .recover 0, .drop 1, .drop 0] m0 (fun _ => none) = .ok (m, H) ∧
      (∀ i, H i = none) ∧ m (v.ptr + v.size) = some nul ∧ m (v.ptr + v.size) ≠ m0 (v.ptr + v.size) := by
  simp [run, exec, fresh, attach, truncate, recover, detach, Helper.last, get, set, upd, hm, ← hvw, Res.bind]
  exact ⟨fun i h0 h1 => by simp [h0, h1], fun h => hcn h.symm⟩

/-- C143 is violated: a helper whose text is cut is copied, and the copy is destroyed.  The helper still takes its text for cut, its next `truncate` does nothing, and the text is
not terminated. -/
theorem C143_copied_while_cut (nul c : C) (hcn : c ≠ nul) (m0 : Mem C) (v : View) (hm : m0 (v.ptr + v.size) = some c) :
    ∃ m H h, run nul [.make 0, .attach 0 v, .truncate 0, .copy 1 0, .drop 1, .truncate 0] m0 (fun _ => none) = .ok (m, H) ∧
      H 0 = some h ∧ h.str = v ∧ h.trunc = true ∧ m (v.ptr + v.size) = some c ∧ m (v.ptr + v.size) ≠ some nul := by
  simp [run, exec, fresh, attach, truncate, recover, detach, Helper.last, get, set, upd, hm, Res.bind]
  exact hcn

/-- C143: `detach` forgets the text only if it is cut; otherwise a later `truncate` still writes into it. -/
theorem C143_detach_keeps_text (nul c : C) (m0 : Mem C) (v : View) (hm : m0 (v.ptr + v.size) = some c) :
    ∃ m H, run nul [.make 0, .attach 0 v, .detach 0, .truncate 0] m0 (fun _ => none) = .ok (m, H) ∧ m (v.ptr + v.size) = some nul := by
  simp [run, exec, fresh, attach, truncate, detach, Helper.last, get, set, upd, hm, Res.bind]

/-! ### Examples -/

/-- The memory of the examples: "abcdefgh" at the addresses 1 to 8. -/
def demo : Mem Nat := fun a => if 1 ≤ a ∧ a ≤ 8 then some (96 + a) else none

example : ∃ m' v', append 0 demo ⟨1, 2⟩ 1 2 = .ok (m', v') ∧ chars m' v'.ptr v'.size = [some 97, some 98, some 97, some 98] := by
  obtain ⟨m', v', h, -, -, h2, -⟩ := C142_append_partial 0 demo ⟨1, 2⟩ 1 2 (by decide) (by decide) (by decide)
  exact ⟨m', v', h, h2⟩

example : ∃ m' v', appendFill 0 demo ⟨1, 2⟩ 3 63 = .ok (m', v') ∧ m' 6 = some 0 := by
  obtain ⟨m', v', h, -, -, -, h2⟩ := C142_append_fill 0 demo ⟨1, 2⟩ 3 63 (by decide)
  cases h
  exact ⟨_, _, rfl, rfl⟩

example : ∃ m' v', pushBack 0 demo ⟨1, 2⟩ 63 = .ok (m', v') := by
  obtain ⟨m', v', h, -⟩ := C142_push_back 0 demo ⟨1, 2⟩ 63 (by decide)
  exact ⟨m', v', h⟩

/-- The text fills the memory up to the last character: no room for the terminator. -/
example : append 0 demo ⟨1, 4⟩ 1 4 = .ub := C142_needs_room 0 demo ⟨1, 4⟩ 1 4 4 (by decide) (by decide)

/-- Appending "bcd" to "ab" from the memory "abcdefgh": "b", "b", "b" is added. -/
example : ∃ m' v', append 0 demo ⟨1, 2⟩ 2 3 = .ok (m', v') ∧ m' 4 = some 98 ∧ demo 3 = some 99 := by
  obtain ⟨m', v', h, h2⟩ := C142_append_repeats 0 demo ⟨1, 2⟩ 1 3 (by decide) (by decide) (by decide) (by decide)
  exact ⟨m', v', h, h2 1 (by decide), rfl⟩

/-- Two helpers cut different texts, one is moved, and all are destroyed. -/
example : ∃ m H, run 0 [.make 0, .make 1, .attach 0 ⟨1, 2⟩, .attach 1 ⟨1, 4⟩, .truncate 0, .truncate 1, .moveFrom 2 0, .drop 0, .drop 1, .drop 2] demo (fun _ => none) = .ok (m, H) ∧
    CarefulRun 0 [.make 0, .make 1, .attach 0 ⟨1, 2⟩, .attach 1 ⟨1, 4⟩, .truncate 0, .truncate 1, .moveFrom 2 0, .drop 0, .drop 1, .drop 2] demo (fun _ => none) := by
  refine ⟨_, _, rfl, trivial, ?_⟩
  rintro r h; cases h
  refine ⟨trivial, ?_⟩
  rintro r h; cases h
  refine ⟨trivial, ?_⟩
  rintro r h; cases h
  refine ⟨trivial, ?_⟩
  rintro r h; cases h
  refine ⟨?_, ?_⟩
  · intro h hh _ j g hj hg
    cases hh
    by_cases h1 : j = 1
    · subst h1; cases hj; cases hg
    · by_cases h0 : j = 0
      · subst h0; cases hj; cases hg
      · simp [upd, h0, h1] at hj
  rintro r h; cases h
  refine ⟨?_, ?_⟩
  · intro h hh _ j g hj hg
    cases hh
    by_cases h1 : j = 1
    · subst h1; cases hj; cases hg
    · by_cases h0 : j = 0
      · subst h0; cases hj; decide
      · simp [upd, h0, h1] at hj
  rintro r h; cases h
  refine ⟨trivial, ?_⟩
  rintro r h; cases h
  refine ⟨trivial, ?_⟩
  rintro r h; cases h
  refine ⟨trivial, ?_⟩
  rintro r h; cases h
  refine ⟨trivial, ?_⟩
  rintro r h; cases h
  trivial

example : ∃ m H, run 0 [.make 0, .make 1, .attach 0 ⟨1, 2⟩, .attach 1 ⟨2, 1⟩, .truncate 0, .truncate 1, .recover 0, .drop 1, .drop 0] demo (fun _ => none) = .ok (m, H) ∧
    m 3 = some 0 := by
  obtain ⟨m, H, h, -, h2, -⟩ := C143_same_end 0 99 (by decide) demo ⟨1, 2⟩ ⟨2, 1⟩ rfl rfl
  exact ⟨m, H, h, h2⟩

example : ∃ m H, run 0 [.make 0, .attach 0 ⟨1, 2⟩, .truncate 0, .copy 1 0, .drop 1, .truncate 0] demo (fun _ => none) = .ok (m, H) ∧ m 3 = some 99 := by
  obtain ⟨m, H, h, hr, -, -, -, h2, -⟩ := C143_copied_while_cut 0 99 (by decide) demo ⟨1, 2⟩ rfl
  exact ⟨m, H, hr, h2⟩

end Verif.StrBuf
