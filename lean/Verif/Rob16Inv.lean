/-
Invariants of the model of `robin16_hash_map`, the probe sequence, and the specification of the probe loops.
-/
import Verif.Rob16
import Verif.ListAux
import Verif.FlatInv
import Mathlib.Data.Nat.Find

namespace Verif.Rob16
open Spec (Distinct)

variable {K V : Type} {E : Env K} {sec : Nat → Nat}

/-! ### Invariants -/

/-- The slot behind slot `i`, around the table. -/
def nxt (t : Map K V) (i : Nat) : Nat := (i + 1) % cap t

/-- What holds of the control words alone: sizes, distances below the end mark, each distance at most one more than that of the slot in
front, the copies of the first words, the end marks of a small table. -/
structure Base (t : Map K V) : Prop where
  pow : ∃ j, 2 ≤ j ∧ j ≤ 48 ∧ cap t = 2 ^ j
  gmask : t.gmask = (cap t + 15) / 16 - 1
  clen : t.clen = (t.gmask + 2) * 16
  bound : ∀ i, i < cap t → (t.ctrl i).dist = 255 ∨ (t.ctrl i).dist < 254
  order : ∀ i, i < cap t → (t.ctrl (nxt t i)).dist = 255 ∨ (t.ctrl (nxt t i)).dist = 0 ∨
    ((t.ctrl i).dist ≠ 255 ∧ (t.ctrl (nxt t i)).dist ≤ (t.ctrl i).dist + 1)
  mirror : ∀ i, i < cap t → i < 16 → (t.ctrl (i + cap t)).dist = (t.ctrl i).dist ∧
    ((t.ctrl i).dist ≠ 255 → (t.ctrl (i + cap t)).tag = (t.ctrl i).tag)
  tail : cap t < 16 → ∀ i, 2 * cap t ≤ i → i < 32 →
    ((t.ctrl i).dist = 254 ∨ (t.ctrl i).dist = 255) ∧ (t.ctrl i).tag = 0

/-- How far slot `i` is behind the home position of `k`. -/
def far (E : Env K) (t : Map K V) (k : K) (i : Nat) : Nat := (i + cap t - E.h k % cap t) % cap t

/-- A used slot holds an element, with its distance and hash in the control word. -/
def CellOk (E : Env K) (sec : Nat → Nat) (t : Map K V) (i : Nat) : Prop :=
  (t.ctrl i).dist ≠ 255 → ∃ e, t.slot i = some e ∧ (t.ctrl i).dist = far E t e.1 i ∧ (t.ctrl i).tag = tagOf E sec e.1

/-- Control words and slots. -/
structure Tab (E : Env K) (sec : Nat → Nat) (t : Map K V) : Prop extends Base t where
  cell : ∀ i, i < cap t → CellOk E sec t i

/-- And the counters; one slot stays empty. -/
structure Core (E : Env K) (sec : Nat → Nat) (t : Map K V) : Prop extends Tab E sec t where
  size : t.size = (entries t).length
  room : t.size < cap t

/-- And no key twice. -/
structure Inv (E : Env K) (sec : Nat → Nat) (t : Map K V) : Prop extends Core E sec t where
  distinct : Distinct E.eq (entries t)

/-- The slot at distance `j` from the home position of `k`. -/
def pos (E : Env K) (t : Map K V) (k : K) (j : Nat) : Nat := (E.h k + j) % cap t

/-- A key at distance `j` does not stop a probe for `k` before slot `pos j`. -/
def Pass (E : Env K) (t : Map K V) (k : K) (j : Nat) : Prop :=
  (t.ctrl (pos E t k j)).dist ≠ 255 ∧ j ≤ (t.ctrl (pos E t k j)).dist

/-- Slot `r` is used and holds a key equivalent to `k`. -/
def KeyAt (E : Env K) (t : Map K V) (k : K) (r : Nat) : Prop :=
  (t.ctrl r).dist ≠ 255 ∧ ∃ e, t.slot r = some e ∧ E.eq e.1 k = true

/-- The end marks of a small table are not taken for the key (their hash bits are 0). -/
def TagOk (E : Env K) (sec : Nat → Nat) (t : Map K V) (k : K) : Prop := 16 ≤ cap t ∨ tagOf E sec k ≠ 0

namespace Base
variable {t : Map K V} (h : Base t)
include h

theorem cap_ge : 4 ≤ cap t := by
  obtain ⟨j, h1, _, h3⟩ := h.pow
  rw [h3]
  exact Nat.pow_le_pow_right (n := 2) (by decide) h1

theorem cap_le : cap t ≤ 2 ^ 48 := by
  obtain ⟨j, _, h2, h3⟩ := h.pow
  rw [h3]
  exact Nat.pow_le_pow_right (by decide) h2

theorem cap_cases : cap t = 4 ∨ cap t = 8 ∨ ∃ m, 1 ≤ m ∧ cap t = 16 * m := by
  obtain ⟨j, h1, _, h3⟩ := h.pow
  rw [h3]
  by_cases h4 : j = 2
  · subst h4; exact Or.inl rfl
  by_cases h5 : j = 3
  · subst h5; exact Or.inr (Or.inl rfl)
  refine Or.inr (Or.inr ⟨2 ^ (j - 4), Nat.two_pow_pos _, ?_⟩)
  rw [show (16 : Nat) = 2 ^ 4 from rfl, ← Nat.pow_add]
  congr 1; omega

theorem and_mask (x : Nat) : x &&& t.mask = x % cap t := by
  obtain ⟨j, _, _, h3⟩ := h.pow
  have : t.mask = 2 ^ j - 1 := by unfold cap at h3; omega
  rw [this, h3, Nat.and_two_pow_sub_one_eq_mod]

theorem clen_eq : t.clen = max 32 (cap t + 16) := by
  have hg := h.gmask
  rw [h.clen]
  rcases h.cap_cases with hc | hc | ⟨m, hm, hc⟩ <;> rw [hc] at hg ⊢ <;> omega

theorem readable {i : Nat} (hi : i < cap t) : readable t i = true := by
  unfold Rob16.readable
  have := h.clen_eq
  simp only [decide_eq_true_eq]
  omega

theorem pos_lt (k : K) (j : Nat) : pos E t k j < cap t := Nat.mod_lt _ (by have := h.cap_ge; omega)

theorem home_eq (k : K) : home E t k = pos E t k 0 := by
  unfold home pos
  rw [h.and_mask]; rfl

theorem next_eq (i : Nat) : next t i = nxt t i := by
  unfold next nxt; rw [h.and_mask]

omit h in
theorem nxt_pos (k : K) (j : Nat) : nxt t (pos E t k j) = pos E t k (j + 1) := by
  unfold nxt pos
  rw [Nat.mod_add_mod, Nat.add_assoc]

omit h in
theorem pos_add (k : K) (j p : Nat) : (pos E t k j + p) % cap t = pos E t k (j + p) := by
  unfold pos
  rw [Nat.mod_add_mod, Nat.add_assoc]

theorem nextGroup_pos (k : K) (j : Nat) : nextGroup t (pos E t k j) = pos E t k (j + 16) := by
  unfold nextGroup
  rw [h.and_mask, pos_add]

theorem nxt_lt (i : Nat) : nxt t i < cap t := Nat.mod_lt _ (by have := h.cap_ge; omega)

theorem far_lt (k : K) (i : Nat) : far E t k i < cap t := Nat.mod_lt _ (by have := h.cap_ge; omega)

theorem pos_far (k : K) {i : Nat} (hi : i < cap t) : pos E t k (far E t k i) = i := by
  have h1 : E.h k % cap t < cap t := Nat.mod_lt _ (by omega)
  have e1 : pos E t k (far E t k i) = (E.h k % cap t + far E t k i) % cap t := (Nat.mod_add_mod _ _ _).symm
  rw [e1, Flat.add_mod_of_lt h1 (h.far_lt k i)]
  unfold far
  generalize E.h k % cap t = y at h1 ⊢
  by_cases h2 : i < y
  · rw [Nat.mod_eq_of_lt (by omega)]
    split <;> omega
  · rw [show i + cap t - y = i - y + cap t by omega, Nat.add_mod_right, Nat.mod_eq_of_lt (by omega)]
    split <;> omega

omit h in
theorem far_pos (k : K) {j : Nat} (hj : j < cap t) : far E t k (pos E t k j) = j := by
  have h1 : E.h k % cap t < cap t := Nat.mod_lt _ (by omega)
  have e1 : pos E t k j = (E.h k % cap t + j) % cap t := (Nat.mod_add_mod _ _ _).symm
  unfold far
  rw [e1, Flat.add_mod_of_lt h1 hj]
  generalize E.h k % cap t = y at h1 ⊢
  split
  · rw [show y + j + cap t - y = j + cap t by omega, Nat.add_mod_right, Nat.mod_eq_of_lt hj]
  · rw [show y + j - cap t + cap t - y = j by omega, Nat.mod_eq_of_lt hj]

/-- The distance computed by `round_dist`. -/
theorem roundDist_eq (k : K) (j p : Nat) : roundDist t (pos E t k j + p) (home E t k) = (j + p) % cap t % 256 := by
  unfold roundDist
  have h0 := h.cap_ge
  have hhome : home E t k = E.h k % cap t := by rw [h.home_eq]; rfl
  have h1 : E.h k % cap t < cap t := Nat.mod_lt _ (by omega)
  rw [h.and_mask, hhome]
  congr 1
  have e1 : pos E t k j + p + cap t - E.h k % cap t = pos E t k j + (p + cap t - E.h k % cap t) := by omega
  rw [e1]
  unfold pos
  rw [Nat.mod_add_mod]
  have e2 : E.h k + j + (p + cap t - E.h k % cap t) = j + p + cap t * (E.h k / cap t + 1) := by
    have h2 := Nat.div_add_mod (E.h k) (cap t)
    have h3 : cap t * (E.h k / cap t + 1) = cap t * (E.h k / cap t) + cap t := Nat.mul_succ _ _
    generalize cap t * (E.h k / cap t) = z at h2 h3
    omega
  rw [e2, Nat.add_mul_mod_self_left]

/-! ### Words -/

/-- A control word read from a group, before the end marks, is that of the slot it stands for. -/
theorem word_real {b p : Nat} (hb : b < cap t) (hp : p < 16) (h2 : b + p < 2 * cap t) :
    (t.ctrl (b + p)).dist = (t.ctrl ((b + p) % cap t)).dist ∧
    ((t.ctrl ((b + p) % cap t)).dist ≠ 255 → (t.ctrl (b + p)).tag = (t.ctrl ((b + p) % cap t)).tag) := by
  by_cases h1 : b + p < cap t
  · rw [Nat.mod_eq_of_lt h1]; exact ⟨rfl, fun _ => rfl⟩
  · have h3 : (b + p) % cap t = b + p - cap t := by
      rw [Nat.mod_eq_sub_mod (by omega), Nat.mod_eq_of_lt (by omega)]
    have := h.mirror (b + p - cap t) (by omega) (by omega)
    rw [Nat.sub_add_cancel (by omega)] at this
    rw [h3]
    exact this

theorem real_of {b p : Nat} (hb : b < cap t) (hp : p < 16) (h2 : 2 * cap t ≤ b + p) :
    cap t < 16 ∧ ((t.ctrl (b + p)).dist = 254 ∨ (t.ctrl (b + p)).dist = 255) ∧ (t.ctrl (b + p)).tag = 0 := by
  have h1 : cap t < 16 := by omega
  exact ⟨h1, h.tail h1 (b + p) h2 (by omega)⟩

/-! ### Probe sequences -/

theorem passes_iff (k : K) (j : Nat) : passes t (pos E t k j) j = true ↔ Pass E t k j := by
  unfold passes Pass
  simp only [decide_eq_true_eq]
  rcases h.bound _ (h.pos_lt (E := E) k j) with h1 | h1 <;> omega

theorem pass_le {k : K} {j : Nat} (hp : Pass E t k j) : j < 254 := by
  rcases h.bound _ (h.pos_lt (E := E) k j) with h1 | h1
  · exact absurd h1 hp.1
  · have := hp.2; omega

/-- Every slot in front of one that passes does so too. -/
theorem pass_back {k : K} {d : Nat} (hp : Pass E t k d) : ∀ j, j ≤ d → Pass E t k j := by
  induction d with
  | zero => intro j hj; rw [Nat.le_zero.mp hj]; exact hp
  | succ d ih =>
    intro j hj
    by_cases hjd : j = d + 1
    · rw [hjd]; exact hp
    · refine ih ?_ j (by omega)
      have h1 := h.order _ (h.pos_lt (E := E) k d)
      rw [nxt_pos] at h1
      obtain ⟨h2, h3⟩ := hp
      refine ⟨?_, ?_⟩ <;> rcases h1 with h1 | h1 | h1 <;> omega

/-- Where a probe stops, if there is an empty slot. -/
theorem first_stop (k : K) (he : ∃ z, z < cap t ∧ (t.ctrl z).dist = 255) :
    ∃ m, m < cap t ∧ m ≤ 254 ∧ ¬ Pass E t k m ∧ ∀ j, j < m → Pass E t k j := by
  classical
  obtain ⟨z, hz, hc⟩ := he
  have hn : ∃ m, ¬ Pass E t k m := ⟨far E t k z, fun hp => hp.1 (by rw [h.pos_far k hz]; exact hc)⟩
  refine ⟨Nat.find hn, ?_, ?_, Nat.find_spec hn, ?_⟩
  · refine Nat.lt_of_le_of_lt (Nat.find_min' hn (m := far E t k z) ?_) (h.far_lt k z)
    intro hp; exact hp.1 (by rw [h.pos_far k hz]; exact hc)
  · by_contra hc
    have := Nat.find_min hn (m := 254) (by omega)
    rw [Decidable.not_not] at this
    have := h.pass_le this
    omega
  · intro j hj
    have := Nat.find_min hn hj
    rwa [Decidable.not_not] at this

end Base

/-! ### Groups -/

theorem filter_range_head {P : Nat → Bool} {n p : Nat} (hp : p < n) (h1 : P p = true) (h0 : ∀ q, q < p → P q = false) :
    ∃ l, (List.range n).filter P = p :: l := by
  rw [range_split hp, List.filter_append, List.filter_cons, if_pos h1]
  refine ⟨(List.range' (p + 1) (n - p - 1)).filter P, ?_⟩
  rw [List.filter_eq_nil_iff.mpr]
  · rfl
  · intro q hq
    rw [h0 q (List.mem_range.mp hq)]
    decide

/-- What the group at distance `o` of the probe shows of the first stop `m`. -/
theorem stops_head {t : Map K V} (h : Base t) {k : K} {o m : Nat} (hm : m < cap t) (ho : o ≤ m) (hlt : m < o + 16)
    (hnot : ¬ Pass E t k m) (hpass : ∀ j, j < m → Pass E t k j) : ∃ l, stops t (pos E t k o) o = (m - o) :: l := by
  have hb := h.pos_lt (E := E) k o
  refine filter_range_head (by omega) ?_ ?_
  · have hw := (h.word_real hb (p := m - o) (by omega) (by omega)).1
    rw [Base.pos_add, show o + (m - o) = m by omega] at hw
    simp only [hw, Bool.or_eq_true, decide_eq_true_eq]
    unfold Pass at hnot
    rw [show o + (m - o) = m by omega]
    unfold bEmpty
    omega
  · intro q hq
    have hw := (h.word_real hb (p := q) (by omega) (by omega)).1
    rw [Base.pos_add] at hw
    have hp := hpass (o + q) (by omega)
    unfold Pass at hp
    simp only [hw, Bool.or_eq_false_iff, decide_eq_false_iff_not]
    unfold bEmpty
    omega

theorem stops_nil {t : Map K V} (h : Base t) {k : K} {o m : Nat} (hm : m < cap t) (hge : o + 16 ≤ m)
    (hpass : ∀ j, j < m → Pass E t k j) : stops t (pos E t k o) o = [] := by
  have hb := h.pos_lt (E := E) k o
  unfold stops
  rw [List.filter_eq_nil_iff]
  intro q hq
  have hq := List.mem_range.mp hq
  have hw := (h.word_real hb (p := q) (by omega) (by omega)).1
  rw [Base.pos_add] at hw
  have hp := hpass (o + q) (by omega)
  unfold Pass at hp
  simp only [hw, Bool.or_eq_true, decide_eq_true_eq]
  unfold bEmpty
  omega

/-- A hit in a group is a used slot with the hash bits of the key. -/
theorem hit_real {t : Map K V} (h : Base t) {k : K} (hk : TagOk E sec t k) {i d p : Nat} (hi : i < cap t)
    (hp : p ∈ hits t i d (tagOf E sec k)) : (t.ctrl ((i + p) % cap t)).dist ≠ 255 := by
  unfold hits at hp
  rw [List.mem_filter] at hp
  obtain ⟨h1, h2⟩ := hp
  have h1 := List.mem_range.mp h1
  simp only [Bool.and_eq_true, Bool.not_eq_true', Bool.or_eq_false_iff, decide_eq_false_iff_not, decide_eq_true_eq] at h2
  obtain ⟨⟨h2, _⟩, h3⟩ := h2
  by_cases h4 : i + p < 2 * cap t
  · rw [← (h.word_real hi h1 h4).1]; exact h2
  · obtain ⟨h5, _, h6⟩ := h.real_of hi h1 (by omega)
    rcases hk with hk | hk
    · omega
    · exact absurd (h3.symm.trans h6) hk

theorem scan_spec {t : Map K V} (h : Tab E sec t) {k : K} {i : Nat} (hi : i < cap t) :
    ∀ ps : List Nat, (∀ p ∈ ps, (t.ctrl ((i + p) % cap t)).dist ≠ 255) →
      (∃ r, scan E t k i ps = .ok (some r) ∧ r < cap t ∧ KeyAt E t k r) ∨
      (scan E t k i ps = .ok none ∧ ∀ p ∈ ps, ¬ KeyAt E t k ((i + p) % cap t)) := by
  intro ps
  induction ps with
  | nil => intro _; right; exact ⟨rfl, by simp⟩
  | cons p ps ih =>
    intro hps
    have hu := hps p (by simp)
    have hlt : (i + p) % cap t < cap t := Nat.mod_lt _ (by omega)
    obtain ⟨e, he, _⟩ := h.cell _ hlt hu
    unfold scan
    rw [h.and_mask, he]
    simp only
    by_cases heq : E.eq e.1 k = true
    · rw [if_pos heq]
      exact Or.inl ⟨_, rfl, hlt, hu, e, he, heq⟩
    · rw [if_neg heq]
      rcases ih (fun q hq => hps q (by simp [hq])) with h1 | ⟨h1, h2⟩
      · exact Or.inl h1
      · refine Or.inr ⟨h1, ?_⟩
        intro q hq
        rcases List.mem_cons.mp hq with rfl | hq
        · rintro ⟨_, e', he', heq'⟩
          rw [he] at he'
          cases he'
          exact heq heq'
        · exact h2 q hq

theorem far_congr (hE : E.Lawful) {t : Map K V} {a b : K} (h : E.eq a b = true) (i : Nat) : far E t a i = far E t b i := by
  unfold far Env.h; rw [hE.congr _ _ h]

theorem tagOf_congr (hE : E.Lawful) {a b : K} (h : E.eq a b = true) : tagOf E sec a = tagOf E sec b := by
  unfold tagOf Env.h; rw [hE.congr _ _ h]

/-- A key is found in front of the first stop, at its distance. -/
theorem KeyAt.dist {t : Map K V} (h : Tab E sec t) (hE : E.Lawful) {k : K} {x : Nat} (hx : x < cap t) (hk : KeyAt E t k x) :
    pos E t k (far E t k x) = x ∧ (t.ctrl x).dist = far E t k x ∧ (t.ctrl x).tag = tagOf E sec k ∧ Pass E t k (far E t k x) := by
  obtain ⟨hu, e, he, heq⟩ := hk
  obtain ⟨e', he', hd, ht⟩ := h.cell x hx hu
  rw [he] at he'
  cases he'
  have hp := h.pos_far (E := E) k hx
  rw [far_congr hE heq] at hd
  rw [tagOf_congr hE heq] at ht
  refine ⟨hp, hd, ht, ?_⟩
  unfold Pass
  rw [hp, hd]
  exact ⟨by rw [← hd]; exact hu, Nat.le_refl _⟩

/-- How a probe with first stop `m` ends. -/
def ProbeOk (E : Env K) (t : Map K V) (k : K) (m : Nat) (r : Res Probe) : Prop :=
  (∃ x, r = .ok (.hit x) ∧ x < cap t ∧ KeyAt E t k x) ∨
  (r = .ok (.stop (pos E t k m) m) ∧ ∀ x, x < cap t → ¬ KeyAt E t k x)

theorem groupLoop_spec {t : Map K V} (h : Tab E sec t) (hE : E.Lawful) {k : K} (hk : TagOk E sec t k) {m : Nat} (hm : m < cap t)
    (hm2 : m ≤ 254) (hnot : ¬ Pass E t k m) (hpass : ∀ j, j < m → Pass E t k j) :
    ∀ (f o : Nat), o ≤ m → o % 16 ≠ 0 → m < o + 16 * f → (∀ j, j < o → ¬ KeyAt E t k (pos E t k j)) →
      ProbeOk E t k m (groupLoop E sec t k f (pos E t k o) o) := by
  intro f
  induction f with
  | zero => intro o h1 _ h2; omega
  | succ f ih =>
    intro o ho h16 hf hclear
    unfold groupLoop
    have hb := h.pos_lt (E := E) k o
    rw [if_pos (h.readable hb)]
    rcases scan_spec (k := k) h hb (hits t (pos E t k o) o (tagOf E sec k)) (fun p hp => hit_real h.toBase hk hb hp) with
      ⟨r, h1, h2, h3⟩ | ⟨h1, h2⟩
    · rw [h1]
      exact Or.inl ⟨r, rfl, h2, h3⟩
    · rw [h1]
      simp only [Res.bind_ok]
      -- the key is not at any of the distances seen so far
      have hclear' : ∀ j, j < o + 16 → j < m → ¬ KeyAt E t k (pos E t k j) := by
        intro j hj hjm hkey
        by_cases hjo : j < o
        · exact hclear j hjo hkey
        · have hd := hkey.dist h hE (h.pos_lt k j)
          rw [Base.far_pos k (by omega)] at hd
          obtain ⟨_, hd, ht, _⟩ := hd
          have hw := h.word_real hb (p := j - o) (by omega) (by omega)
          rw [Base.pos_add, show o + (j - o) = j by omega] at hw
          refine h2 (j - o) ?_ (by rw [Base.pos_add, show o + (j - o) = j by omega]; exact hkey)
          unfold hits
          rw [List.mem_filter]
          refine ⟨List.mem_range.mpr (by omega), ?_⟩
          rw [hw.1, hw.2 hkey.1, hd, ht]
          have := h.pass_le (hpass j hjm)
          simp only [Bool.and_eq_true, Bool.not_eq_true', Bool.or_eq_false_iff, decide_eq_false_iff_not, decide_eq_true_eq, and_true]
          unfold bEmpty
          omega
      by_cases hlt : m < o + 16
      · obtain ⟨l, hl⟩ := stops_head h.toBase hm ho hlt hnot hpass
        rw [hl]
        simp only
        right
        refine ⟨?_, ?_⟩
        · rw [h.and_mask, Base.pos_add, h.roundDist_eq, show o + (m - o) = m by omega, Nat.mod_eq_of_lt hm,
            Nat.mod_eq_of_lt (by omega)]
        · intro x hx hkey
          obtain ⟨d1, d2, _, d3⟩ := hkey.dist h hE hx
          have hdm : far E t k x < m := by
            by_contra hc
            exact hnot (h.pass_back d3 m (by omega))
          exact hclear' _ (by omega) hdm (by rw [d1]; exact hkey)
      · rw [stops_nil h.toBase hm (by omega) hpass]
        simp only
        have hne : nextGroup t (pos E t k o) ≠ home E t k := by
          rw [h.nextGroup_pos, h.home_eq]
          intro hc
          have h5 := Base.far_pos (E := E) (t := t) k (j := 0) (by omega)
          rw [← hc] at h5
          have h6 : pos E t k (o + 16) = pos E t k ((o + 16) % cap t) := by
            unfold pos
            rw [Nat.add_mod_mod]
          rw [h6, Base.far_pos k (Nat.mod_lt _ (by omega))] at h5
          rcases h.cap_cases with hc | hc | ⟨n, hn, hc⟩
          · omega
          · omega
          · rw [hc] at h5
            have : (o + 16) % (16 * n) % 16 = (o + 16) % 16 := Nat.mod_mul_right_mod _ _ _
            omega
        rw [if_neg hne, h.nextGroup_pos, Nat.mod_eq_of_lt (by omega)]
        exact ih (o + 16) (by omega) (by omega) (by omega) (fun j hj => hclear' j hj (by omega))

theorem unroll_spec {t : Map K V} (h : Tab E sec t) (hE : E.Lawful) {k : K} (hk : TagOk E sec t k) {m : Nat} (hm : m < cap t)
    (hm2 : m ≤ 254) (hnot : ¬ Pass E t k m) (hpass : ∀ j, j < m → Pass E t k j) :
    ∀ (s o : Nat), o ≤ m → (o + s) % 16 ≠ 0 → (∀ j, j < o → ¬ KeyAt E t k (pos E t k j)) →
      ProbeOk E t k m (unroll E sec t k s (pos E t k o) o) := by
  intro s
  induction s with
  | zero =>
    intro o ho h16 hclear
    unfold unroll
    exact groupLoop_spec h hE hk hm hm2 hnot hpass _ o ho h16 (by omega) hclear
  | succ s ih =>
    intro o ho h16 hclear
    unfold unroll
    have hb := h.pos_lt (E := E) k o
    rw [if_pos (by have := h.clen_eq; omega)]
    by_cases hp : passes t (pos E t k o) o = true
    · rw [if_pos hp]
      have hp' := (h.passes_iff k o).mp hp
      have hom : o ≠ m := by rintro rfl; exact hnot hp'
      obtain ⟨e, he, hd, ht⟩ := h.cell _ hb hp'.1
      rw [h.next_eq, Base.nxt_pos]
      have hstep : ¬ KeyAt E t k (pos E t k o) → ProbeOk E t k m (unroll E sec t k s (pos E t k (o + 1)) (o + 1)) := by
        intro hnk
        refine ih (o + 1) (by omega) (by rwa [show o + 1 + s = o + (s + 1) by omega]) ?_
        intro j hj
        by_cases hjo : j = o
        · rw [hjo]; exact hnk
        · exact hclear j (by omega)
      split
      · rw [he]
        simp only
        by_cases heq : E.eq e.1 k = true
        · rw [if_pos heq]
          exact Or.inl ⟨_, rfl, hb, hp'.1, e, he, heq⟩
        · rw [if_neg heq]
          apply hstep
          rintro ⟨_, e', he', heq'⟩
          rw [he] at he'
          cases he'
          exact heq heq'
      · rename_i hne
        apply hstep
        intro hkey
        exact hne (hkey.dist h hE hb).2.2.1
    · rw [if_neg hp]
      have hom : o = m := by
        by_contra hc
        exact hp ((h.passes_iff k o).mpr (hpass o (by omega)))
      subst hom
      right
      refine ⟨rfl, ?_⟩
      intro x hx hkey
      obtain ⟨d1, _, _, d3⟩ := hkey.dist h hE hx
      have hdm : far E t k x < o := by
        by_contra hc
        exact hnot (h.pass_back d3 o (by omega))
      exact hclear _ hdm (by rw [d1]; exact hkey)

/-- A free place for a new key: the first stop of its probe. -/
structure Stop (E : Env K) (t : Map K V) (k : K) (m : Nat) : Prop where
  lt : m < cap t
  le : m ≤ 254
  not : ¬ Pass E t k m
  front : ∀ j, j < m → Pass E t k j

/-- The probe of `find` and of the insertions. -/
theorem probe_spec {t : Map K V} (h : Tab E sec t) (hE : E.Lawful) {k : K} (hk : TagOk E sec t k)
    (he : ∃ z, z < cap t ∧ (t.ctrl z).dist = 255) {s : Nat} (hs : s % 16 ≠ 0) :
    ∃ m, Stop E t k m ∧ ProbeOk E t k m (unroll E sec t k s (home E t k) 0) := by
  obtain ⟨m, h1, h2, h3, h4⟩ := h.first_stop (E := E) k he
  refine ⟨m, ⟨h1, h2, h3, h4⟩, ?_⟩
  rw [h.home_eq]
  exact unroll_spec h hE hk h1 h2 h3 h4 s 0 (by omega) (by rwa [Nat.zero_add]) (by intro j hj; omega)

theorem freeLoop_spec {t : Map K V} (h : Base t) {k : K} {m : Nat} (hm : Stop E t k m) :
    ∀ (f o : Nat), o ≤ m → m < o + 16 * f → freeLoop t (home E t k) f (pos E t k o) o = .ok (pos E t k m, m) := by
  intro f
  induction f with
  | zero => intro o h1 h2; omega
  | succ f ih =>
    intro o ho hf
    unfold freeLoop
    have hm1 := hm.lt
    have hm2 := hm.le
    rw [if_pos (h.readable (h.pos_lt (E := E) k o))]
    by_cases hlt : m < o + 16
    · obtain ⟨l, hl⟩ := stops_head h hm.lt ho hlt hm.not hm.front
      rw [hl]
      simp only
      rw [h.and_mask, Base.pos_add, h.roundDist_eq, show o + (m - o) = m by omega, Nat.mod_eq_of_lt hm.lt,
        Nat.mod_eq_of_lt (by omega)]
    · rw [stops_nil h hm.lt (by omega) hm.front]
      simp only
      rw [h.nextGroup_pos, Nat.mod_eq_of_lt (by omega)]
      exact ih (o + 16) (by omega) (by omega)

theorem freeUnroll_spec {t : Map K V} (h : Base t) {k : K} {m : Nat} (hm : Stop E t k m) :
    ∀ (s o : Nat), o ≤ m → freeUnroll t (home E t k) s (pos E t k o) o = .ok (pos E t k m, m) := by
  intro s
  induction s with
  | zero =>
    intro o ho
    unfold freeUnroll
    have := hm.lt
    exact freeLoop_spec h hm _ o ho (by omega)
  | succ s ih =>
    intro o ho
    unfold freeUnroll
    have hb := h.pos_lt (E := E) k o
    rw [if_pos (by have := h.clen_eq; omega)]
    by_cases hp : passes t (pos E t k o) o = true
    · rw [if_pos hp, h.next_eq, Base.nxt_pos]
      have hom : o ≠ m := by rintro rfl; exact hm.not ((h.passes_iff k o).mp hp)
      exact ih (o + 1) (by omega)
    · rw [if_neg hp]
      have hom : o = m := by
        by_contra hc
        exact hp ((h.passes_iff k o).mpr (hm.front o (by omega)))
      rw [hom]

/-! ### Elements -/

theorem cellAt_eq {t : Map K V} (h : Base t) {i : Nat} (hi : i < cap t) :
    cellAt t i = if (t.ctrl i).dist ≠ 255 then t.slot i else none := by
  unfold cellAt used bEmpty
  rcases h.bound i hi with h1 | h1
  · simp [h1]
  · have : (t.ctrl i).dist < 255 := by omega
    have h2 : (t.ctrl i).dist ≠ 255 := by omega
    simp [this, h2]

theorem mem_entries {t : Map K V} (h : Base t) {e : K × V} :
    e ∈ entries t ↔ ∃ i, i < cap t ∧ (t.ctrl i).dist ≠ 255 ∧ t.slot i = some e := by
  unfold entries
  rw [mem_filterMap_range]
  constructor
  · rintro ⟨i, hi, hc⟩
    rw [cellAt_eq h hi] at hc
    split at hc
    · exact ⟨i, hi, ‹_›, hc⟩
    · cases hc
  · rintro ⟨i, hi, hu, hc⟩
    refine ⟨i, hi, ?_⟩
    rw [cellAt_eq h hi, if_pos hu]; exact hc

theorem Core.exists_empty {t : Map K V} (h : Core E sec t) : ∃ z, z < cap t ∧ (t.ctrl z).dist = 255 := by
  by_contra hc
  have h1 : cap t ≤ (entries t).length := by
    apply length_filterMap_range_ge _ (Nat.le_refl _)
    intro i hi
    have hu : (t.ctrl i).dist ≠ 255 := fun hd => hc ⟨i, hi, hd⟩
    obtain ⟨e, he, _⟩ := h.cell i hi hu
    rw [cellAt_eq h.toBase hi, if_pos hu, he]; rfl
  have := h.size
  have := h.room
  omega

/-- The result of `find`. -/
theorem findIdx_spec {t : Map K V} (h : Core E sec t) (hE : E.Lawful) {k : K} (hk : TagOk E sec t k) :
    (∃ x, findIdx E sec t k = .ok (some x) ∧ x < cap t ∧ KeyAt E t k x) ∨
    (findIdx E sec t k = .ok none ∧ ∀ x, x < cap t → ¬ KeyAt E t k x) := by
  obtain ⟨m, _, hp⟩ := probe_spec h.toTab hE hk h.exists_empty (s := 2) (by decide)
  unfold findIdx
  rcases hp with ⟨x, h1, h2, h3⟩ | ⟨h1, h2⟩
  · rw [h1]; exact Or.inl ⟨x, rfl, h2, h3⟩
  · rw [h1]; exact Or.inr ⟨rfl, h2⟩

end Verif.Rob16
