/-
Copying characters: `str_utils::mem_copy` and `str_utils::str_copy` (C151).

SU = src/jstd/string/string_utils.h

The memory is one list of characters; the two pointers are positions in it, so that source and destination may overlap.  Accesses behind the memory are `ub`; that a
destination is smaller than the memory behind it shows in what happens to the characters behind it.
-/
import Verif.Basic

namespace Verif.CharCopy

/-- `*(p + i)`. -/
def get (m : List Nat) (i : Nat) : Res Nat :=
  match m[i]? with
  | some c => .ok c
  | none => .ub

/-- The loop of the generic `mem_copy` (SU:74-77). -/
def loop : Nat → List Nat → Nat → Nat → Res (List Nat × Nat)
  | 0, m, p, _ => .ok (m, p)
  | n + 1, m, p, q => (get m q).bind fun c => if p < m.length then loop n (m.set p c) (p + 1) (q + 1) else .ub

/-- The generic `mem_copy` (SU:70-79); the second component is the pointer returned. -/
def memCopy (m : List Nat) (p q n : Nat) : Res (List Nat × Nat) := loop n m p q

/-- `memcpy`/`wmemcpy` of `n` characters: undefined for ranges outside of the memory and for ranges that overlap. -/
def memcpy (m : List Nat) (p q n : Nat) : Res (List Nat × Nat) :=
  if p + n ≤ m.length ∧ q + n ≤ m.length ∧ (n = 0 ∨ p + n ≤ q ∨ q + n ≤ p) then
    .ok (m.take p ++ ((m.drop q).take n ++ m.drop (p + n)), p)
  else .ub

/-- `mem_copy(char *, …)` (SU:87-91), and the one for `void *` (SU:81-85). -/
def memCopyChar (m : List Nat) (p q n : Nat) : Res (List Nat × Nat) := memcpy m p q n

/-- `mem_copy(wchar_t *, …)` (SU:94-98): `wmemcpy` counts characters, and is given `count * sizeof(wchar_t)`; `sizeof(wchar_t)` is 4. -/
def memCopyWide (m : List Nat) (p q n : Nat) : Res (List Nat × Nat) := memcpy m p q (n * 4)

/-- The generic `str_copy` (SU:102-115): stops when `*dest & *src` is 0. -/
def strCopy : Nat → List Nat → Nat → Nat → Res (List Nat × Nat)
  | 0, m, p, _ => .ok (m, p)
  | n + 1, m, p, q => (get m p).bind fun d => (get m q).bind fun c =>
      if d &&& c = 0 then .ok (m, p) else strCopy n (m.set p c) (p + 1) (q + 1)

/-- `strncpy`/`wcsncpy`: the string up to its terminator, then zeros. -/
def strncpy (m : List Nat) (p q n : Nat) : Res (List Nat × Nat) :=
  let s := ((m.drop q).takeWhile (· ≠ 0)).take n
  if p + n ≤ m.length ∧ (s.length = n ∨ q + s.length < m.length) ∧ (n = 0 ∨ p + n ≤ q ∨ q + min (s.length + 1) n ≤ p) then
    .ok (m.take p ++ (s ++ List.replicate (n - s.length) 0 ++ m.drop (p + n)), p)
  else .ub

/-- `str_copy(char *, …)` and `str_copy(wchar_t *, …)` (SU:122-132). -/
def strCopyChar (m : List Nat) (p q n : Nat) : Res (List Nat × Nat) := strncpy m p q n

/-! ### Lemmas -/

/-- `m'` is `m` with the `n` characters at `q` copied to `p`. -/
def Copied (m m' : List Nat) (p q n : Nat) : Prop :=
  m'.length = m.length ∧ ∀ i, m'[i]? = if p ≤ i ∧ i < p + n then m[q + (i - p)]? else m[i]?

theorem get_ok {m : List Nat} {i : Nat} (h : i < m.length) : get m i = .ok m[i] := by
  unfold get
  rw [List.getElem?_eq_getElem h]

theorem get_ub {m : List Nat} {i : Nat} (h : m.length ≤ i) : get m i = .ub := by
  unfold get
  rw [List.getElem?_eq_none h]

/-- The loop moves characters one by one; what it reads is unchanged as long as it reads ahead of what it writes, or does not reach it. -/
theorem loop_copied (n : Nat) : ∀ (m : List Nat) (p q : Nat), p + n ≤ m.length → q + n ≤ m.length → (p ≤ q ∨ q + n ≤ p) →
    ∃ m', loop n m p q = .ok (m', p + n) ∧ Copied m m' p q n := by
  induction n with
  | zero =>
    intro m p q _ _ _
    exact ⟨m, rfl, rfl, fun i => by rw [if_neg (by omega)]⟩
  | succ n ih =>
    intro m p q hp hq hd
    have hl : (m.set p m[q]).length = m.length := List.length_set ..
    obtain ⟨m', h1, h2, h3⟩ := ih (m.set p m[q]) (p + 1) (q + 1) (by omega) (by omega) (by omega)
    refine ⟨m', ?_, by omega, ?_⟩
    · simp only [loop]
      rw [get_ok (show q < m.length by omega), Res.bind_ok, if_pos (by omega), h1]
      congr 2
      omega
    · intro i
      rw [h3]
      by_cases hi : p + 1 ≤ i ∧ i < p + 1 + n
      · rw [if_pos hi, if_pos (by omega), List.getElem?_set_ne (by omega)]
        congr 1
        omega
      · rw [if_neg hi]
        by_cases hip : i = p
        · subst hip
          rw [if_pos (by omega), List.getElem?_set_self (by omega), Nat.sub_self, Nat.add_zero, List.getElem?_eq_getElem]
        · rw [if_neg (by omega), List.getElem?_set_ne (by omega)]

theorem memcpy_copied {m : List Nat} {p q n : Nat} (hp : p + n ≤ m.length) (hq : q + n ≤ m.length) (hd : n = 0 ∨ p + n ≤ q ∨ q + n ≤ p) :
    ∃ m', memcpy m p q n = .ok (m', p) ∧ Copied m m' p q n := by
  refine ⟨_, if_pos ⟨hp, hq, hd⟩, ?_, ?_⟩
  · simp only [List.length_append, List.length_take, List.length_drop]
    omega
  · intro i
    by_cases h1 : i < p
    · rw [if_neg (by omega), List.getElem?_append_left (by rw [List.length_take]; omega), List.getElem?_take_of_lt h1]
    · rw [List.getElem?_append_right (by rw [List.length_take]; omega), List.length_take, Nat.min_eq_left (by omega)]
      by_cases h2 : i < p + n
      · rw [if_pos (by omega), List.getElem?_append_left (by rw [List.length_take, List.length_drop]; omega), List.getElem?_take_of_lt (by omega),
          List.getElem?_drop]
      · rw [if_neg (by omega), List.getElem?_append_right (by rw [List.length_take, List.length_drop]; omega), List.length_take, List.length_drop,
          List.getElem?_drop]
        congr 1
        omega

/-! ### C151 -/

/-- C151 (partial): `mem_copy` copies the characters and changes nothing else; the generic one also if the destination begins before the source.
Missing: `wchar_t`, `C151_wide`. -/
theorem C151_mem_copy_partial (m : List Nat) (p q n : Nat) (hp : p + n ≤ m.length) (hq : q + n ≤ m.length) :
    (p ≤ q ∨ q + n ≤ p → ∃ m', memCopy m p q n = .ok (m', p + n) ∧ Copied m m' p q n) ∧
    (p + n ≤ q ∨ q + n ≤ p → ∃ m', memCopyChar m p q n = .ok (m', p) ∧ Copied m m' p q n) :=
  ⟨fun hd => loop_copied n m p q hp hq hd, fun hd => memcpy_copied hp hq (Or.inr hd)⟩

/-- C151, violated: `mem_copy` of `wchar_t` copies four times as many characters: those behind the destination are overwritten with those behind the source, or (where
there are not that many behind one of them, or the ranges overlap then) the behaviour is undefined. -/
theorem C151_wide (m : List Nat) (p q n : Nat) (hn : 0 < n) :
    (p + 4 * n ≤ m.length → q + 4 * n ≤ m.length → p + 4 * n ≤ q ∨ q + 4 * n ≤ p →
      ∃ m', memCopyWide m p q n = .ok (m', p) ∧ ∀ i, n ≤ i → i < 4 * n → m'[p + i]? = m[q + i]?) ∧
    (m.length < p + 4 * n ∨ m.length < q + 4 * n ∨ (p < q + 4 * n ∧ q < p + 4 * n) → memCopyWide m p q n = .ub) := by
  unfold memCopyWide
  constructor
  · intro hp hq hd
    obtain ⟨m', h1, _, h3⟩ := memcpy_copied (m := m) (p := p) (q := q) (n := n * 4) (by omega) (by omega) (by omega)
    refine ⟨m', h1, ?_⟩
    intro i _ hi
    rw [h3, if_pos (by omega), Nat.add_sub_cancel_left]
  · intro h
    exact if_neg (by omega)

/-- C151, violated: the generic `mem_copy` and `str_copy` return the end of what they have written, those for `char` and `wchar_t` its beginning. -/
theorem C151_returns_differ (m : List Nat) (p q n : Nat) (hn : 0 < n) {m1 m2 m3 : List Nat} {r1 r2 r3 : Nat}
    (h1 : memCopy m p q n = .ok (m1, r1)) (h2 : memCopyChar m p q n = .ok (m2, r2)) (h3 : strCopyChar m p q n = .ok (m3, r3)) :
    r1 = p + n ∧ r2 = p ∧ r3 = p := by
  have hb : p + n ≤ m.length ∧ q + n ≤ m.length ∧ (n = 0 ∨ p + n ≤ q ∨ q + n ≤ p) := by
    by_contra hcon
    unfold memCopyChar memcpy at h2
    rw [if_neg hcon] at h2
    cases h2
  refine ⟨?_, ?_, ?_⟩
  · obtain ⟨m', h, _⟩ := loop_copied n m p q hb.1 hb.2.1 (by omega)
    have : Res.ok (m1, r1) = Res.ok (m', p + n) := h1.symm.trans h
    injection this with this
    injection this
  · unfold memCopyChar memcpy at h2
    rw [if_pos hb] at h2
    injection h2 with h2
    injection h2 with _ h2
    exact h2.symm
  · unfold strCopyChar strncpy at h3
    simp only at h3
    split at h3
    · injection h3 with h3
      injection h3 with _ h3
      exact h3.symm
    · cases h3

/-- C151 (partial): `str_copy` of `char` and `wchar_t` writes the string, its terminator if there is room, and zeros up to `n` characters; nothing else is changed.
Missing: the generic one, `C151_str_copy_zeroed`. -/
theorem C151_str_copy_partial (m : List Nat) (p q n k : Nat) (hp : p + n ≤ m.length) (hk : q + k < m.length)
    (hs : ∀ i, i < k → m[q + i]? ≠ some 0) (hz : m[q + k]? = some 0) (hd : p + n ≤ q ∨ q + k + 1 ≤ p) :
    ∃ m', strCopyChar m p q n = .ok (m', p) ∧ m'.length = m.length ∧
      (∀ i, i < n → i < k → m'[p + i]? = m[q + i]?) ∧ (∀ i, i < n → k ≤ i → m'[p + i]? = some 0) ∧
      (∀ i, i < p ∨ p + n ≤ i → m'[i]? = m[i]?) := by
  have htw : (m.drop q).takeWhile (· ≠ 0) = (m.drop q).take k := by
    have hsplit : m.drop q = (m.drop q).take k ++ (m.drop q).drop k := (List.take_append_drop _ _).symm
    have hhead : (m.drop q).drop k = 0 :: (m.drop q).drop (k + 1) := by
      have hl : k < (m.drop q).length := by rw [List.length_drop]; omega
      rw [List.drop_eq_getElem_cons hl]
      congr 1
      have : (m.drop q)[k]? = some 0 := by rw [List.getElem?_drop]; exact hz
      rw [List.getElem?_eq_getElem hl] at this
      injection this
    conv => lhs; rw [hsplit]
    rw [List.takeWhile_append_of_pos, hhead]
    · simp
    · intro c hc
      obtain ⟨i, hi⟩ := List.mem_iff_getElem?.mp hc
      have hik : i < k := by
        by_contra hcon
        rw [List.getElem?_take, if_neg hcon] at hi
        cases hi
      rw [List.getElem?_take_of_lt hik, List.getElem?_drop] at hi
      have := hs i hik
      rw [hi] at this
      simp only [ne_eq, decide_not, Bool.not_eq_eq_eq_not, Bool.not_true, decide_eq_false_iff_not]
      rintro rfl
      exact this rfl
  have hlen : (((m.drop q).take k).take n).length = min n k := by
    simp only [List.length_take, List.length_drop]
    omega
  unfold strCopyChar strncpy
  simp only [htw]
  rw [if_pos (by rw [hlen]; omega), hlen]
  refine ⟨_, rfl, ?_, ?_, ?_, ?_⟩
  · simp only [List.length_append, hlen, List.length_take, List.length_drop, List.length_replicate]
    omega
  all_goals intro i
  · intro hi hik
    rw [List.getElem?_append_right (by rw [List.length_take]; omega), List.length_take, Nat.min_eq_left (show p ≤ m.length by omega), Nat.add_sub_cancel_left,
      List.append_assoc, List.getElem?_append_left (by rw [hlen]; omega), List.getElem?_take_of_lt hi, List.getElem?_take_of_lt hik, List.getElem?_drop]
  · intro hi hik
    rw [List.getElem?_append_right (by rw [List.length_take]; omega), List.length_take, Nat.min_eq_left (show p ≤ m.length by omega), Nat.add_sub_cancel_left,
      List.append_assoc, List.getElem?_append_right (by rw [hlen]; omega), hlen,
      List.getElem?_append_left (by rw [List.length_replicate]; omega), List.getElem?_replicate, if_pos (by omega)]
  · intro hi
    by_cases h1 : i < p
    · rw [List.getElem?_append_left (by rw [List.length_take]; omega), List.getElem?_take_of_lt h1]
    · rw [List.getElem?_append_right (by rw [List.length_take]; omega), List.length_take, Nat.min_eq_left (show p ≤ m.length by omega),
        List.getElem?_append_right (by rw [List.length_append, hlen, List.length_replicate]; omega), List.length_append, hlen, List.length_replicate,
        List.getElem?_drop]
      congr 1
      omega

/-- C151, violated: the generic `str_copy` tests `*dest & *src`: into a zeroed destination it copies nothing, whatever the source is. -/
theorem C151_str_copy_zeroed (m : List Nat) (p q n : Nat) (hq : q < m.length) (hz : m[p]? = some 0) : strCopy n m p q = .ok (m, p) := by
  cases n with
  | zero => rfl
  | succ n =>
    have hg : get m p = .ok 0 := by unfold get; rw [hz]
    simp only [strCopy]
    rw [hg, Res.bind_ok, get_ok hq, Res.bind_ok, Nat.zero_and, if_pos rfl]

/-- C151 (partial): what the generic `str_copy` does copy: the characters before the first one that has no bit in common with the character it replaces.
Missing: the characters from there on. -/
theorem C151_str_copy_generic_partial (k : Nat) : ∀ (n : Nat) (m : List Nat) (p q : Nat), k ≤ n → (p ≤ q ∨ q + k < p) →
    (∀ i, i < k → ∃ d c, m[p + i]? = some d ∧ m[q + i]? = some c ∧ d &&& c ≠ 0) →
    (k = n ∨ ∃ d c, m[p + k]? = some d ∧ m[q + k]? = some c ∧ d &&& c = 0) →
    ∃ m', strCopy n m p q = .ok (m', p + k) ∧ Copied m m' p q k := by
  induction k with
  | zero =>
    intro n m p q _ _ _ hz
    refine ⟨m, ?_, rfl, fun i => by rw [if_neg (by omega)]⟩
    cases n with
    | zero => rfl
    | succ n =>
      rcases hz with h | ⟨d, c, hd, hc, h0⟩
      · omega
      · rw [Nat.add_zero] at hd hc
        simp only [strCopy, get, hd, hc, Res.bind_ok, h0, if_true, Nat.add_zero]
  | succ k ih =>
    intro n m p q hn hd hs hz
    obtain ⟨n, rfl⟩ : ∃ n', n = n' + 1 := ⟨n - 1, by omega⟩
    obtain ⟨d, c, h1, h2, h3⟩ := hs 0 (by omega)
    rw [Nat.add_zero] at h1 h2
    have hpl : p < m.length := (List.getElem?_eq_some_iff.mp h1).1
    obtain ⟨m', h4, h5, h6⟩ := ih n (m.set p c) (p + 1) (q + 1) (by omega) (by omega)
      (by
        intro i hi
        obtain ⟨d', c', g1, g2, g3⟩ := hs (i + 1) (by omega)
        refine ⟨d', c', ?_, ?_, g3⟩
        · rw [List.getElem?_set_ne (by omega), ← g1]; congr 1; omega
        · rw [List.getElem?_set_ne (by omega), ← g2]; congr 1; omega)
      (by
        rcases hz with h | ⟨d', c', g1, g2, g3⟩
        · exact Or.inl (by omega)
        · refine Or.inr ⟨d', c', ?_, ?_, g3⟩
          · rw [List.getElem?_set_ne (by omega), ← g1]; congr 1; omega
          · rw [List.getElem?_set_ne (by omega), ← g2]; congr 1; omega)
    refine ⟨m', ?_, by rw [h5, List.length_set], ?_⟩
    · simp only [strCopy, get, h1, h2, Res.bind_ok]
      rw [if_neg h3, h4]
      congr 2
      omega
    · intro i
      rw [h6]
      by_cases hi : p + 1 ≤ i ∧ i < p + 1 + k
      · rw [if_pos hi, if_pos (by omega), List.getElem?_set_ne (by omega)]
        congr 1
        omega
      · rw [if_neg hi]
        by_cases hip : i = p
        · subst hip
          rw [if_pos (by omega), List.getElem?_set_self hpl, Nat.sub_self, Nat.add_zero, h2]
        · rw [if_neg (by omega), List.getElem?_set_ne (by omega)]

/-- C151, violated: it never writes a terminator: if it stops after `k < n` characters, the character there is the one that was there before. -/
theorem C151_str_copy_no_terminator (n : Nat) : ∀ (m : List Nat) (p q : Nat) (m' : List Nat) (r : Nat), strCopy n m p q = .ok (m', r) →
    p ≤ r ∧ r ≤ p + n ∧ ∀ i, i < p ∨ r ≤ i → m'[i]? = m[i]? := by
  induction n with
  | zero =>
    intro m p q m' r h
    simp only [strCopy] at h
    injection h with h
    injection h with h1 h2
    subst h1 h2
    exact ⟨le_refl _, le_refl _, fun _ _ => rfl⟩
  | succ n ih =>
    intro m p q m' r h
    simp only [strCopy] at h
    by_cases hp : p < m.length
    · by_cases hq : q < m.length
      · rw [get_ok hp, Res.bind_ok, get_ok hq, Res.bind_ok] at h
        by_cases ha : m[p] &&& m[q] = 0
        · rw [if_pos ha] at h
          injection h with h
          injection h with h1 h2
          subst h1 h2
          exact ⟨le_refl _, by omega, fun _ _ => rfl⟩
        · rw [if_neg ha] at h
          obtain ⟨h1, h2, h3⟩ := ih _ _ _ _ _ h
          refine ⟨by omega, by omega, ?_⟩
          intro i hi
          rw [h3 i (by omega), List.getElem?_set_ne (by omega)]
      · rw [get_ok hp, Res.bind_ok, get_ub (by omega)] at h
        cases h
    · rw [get_ub (by omega)] at h
      cases h

/-! ### Examples -/

example : memCopy [1, 2, 3, 0, 0, 0] 3 0 3 = .ok ([1, 2, 3, 1, 2, 3], 6) ∧ memCopyChar [1, 2, 3, 0, 0, 0] 3 0 3 = .ok ([1, 2, 3, 1, 2, 3], 3) ∧
    memCopy [1, 2, 3, 4] 0 1 3 = .ok ([2, 3, 4, 4], 3) := ⟨rfl, rfl, rfl⟩

/-- One wide character is to be copied; three more are overwritten. -/
example : memCopyWide [9, 9, 9, 9, 9, 1, 2, 3, 4] 0 5 1 = .ok ([1, 2, 3, 4, 9, 1, 2, 3, 4], 0) ∧ memCopyWide [9, 1] 0 1 1 = .ub := ⟨rfl, rfl⟩

example : strCopyChar [9, 9, 9, 9, 5, 6, 0] 0 4 4 = .ok ([5, 6, 0, 0, 5, 6, 0], 0) ∧ strCopy 4 [0, 0, 0, 0, 5, 6, 0] 0 4 = .ok ([0, 0, 0, 0, 5, 6, 0], 0) ∧
    strCopy 4 [15, 15, 15, 15, 5, 6, 0] 0 4 = .ok ([5, 6, 15, 15, 5, 6, 0], 2) := ⟨rfl, rfl, rfl⟩

end Verif.CharCopy
