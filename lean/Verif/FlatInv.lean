/-
Invariants of the model of `flat16_hash_map`, the probe sequence, and the specification of the probe loops.
-/
import Verif.Flat
import Verif.ListAux

namespace Verif.Flat
open Spec (Distinct)

variable {K V : Type} {E : Env K} {sec : Nat → Nat}

/-! ### Invariants -/

/-- What holds of the control bytes and slots between two calls, whatever the calls were: the bytes of the slots, their
copies behind the block, the end mark, the number of elements. -/
structure Core (E : Env K) (sec : Nat → Nat) (t : Map K V) : Prop where
  pow : ∃ j, 2 ≤ j ∧ j ≤ 48 ∧ cap t = 2 ^ j
  gmask : t.gmask = (cap t + 15) / 16 - 1
  cell : ∀ i, i < cap t → (∀ e, t.slot i = some e → t.ctrl i = tagOf E sec e.1) ∧
    (t.slot i = none → t.ctrl i = bEmpty ∨ t.ctrl i = bDeleted)
  mirror : ∀ i, cap t ≤ i → i < clen t →
    t.ctrl i = if i < 2 * cap t then (if i = cap t ∧ 128 ≤ t.ctrl 0 then bEnd else t.ctrl (i - cap t)) else bEnd
  tail : ∀ i, cap t ≤ i → t.slot i = none
  size : t.size = (entries t).length
  left : t.left < W

/-- The number of groups in a probe sequence. -/
def windows (t : Map K V) : Nat := max 1 (cap t / 16)

/-- The first byte of the `j`-th group on the probe sequence of `k`. -/
def base (E : Env K) (t : Map K V) (k : K) (j : Nat) : Nat := (E.h k + 16 * j) % cap t

/-- The group at byte `i` shows no empty byte. -/
def NoEmpty (t : Map K V) (i : Nat) : Prop := ∀ p, p < 16 → t.ctrl (i + p) ≠ bEmpty

/-- How far slot `i` is from the home position of `k`. -/
def dist (E : Env K) (t : Map K V) (k : K) (i : Nat) : Nat := (i + cap t - E.h k % cap t) % cap t

/-- Every element is in front of the first group of its probe sequence with an empty byte. -/
def Reachable (E : Env K) (t : Map K V) : Prop :=
  ∀ i e, i < cap t → t.slot i = some e → ∀ j, j < dist E t e.1 i / 16 → NoEmpty t (base E t e.1 j)

/-- The number of control bytes that are not empty: elements and tombstones. -/
def occ (t : Map K V) : Nat := (List.range (cap t)).countP fun i => t.ctrl i != bEmpty

/-- The number of tombstones. -/
def dels (t : Map K V) : Nat := (List.range (cap t)).countP fun i => t.ctrl i == bDeleted

/-- `left_empties_` is the threshold minus the number of bytes in use (modulo 2^64). -/
def Counted (t : Map K V) : Prop := (t.left + occ t) % W = thr t

/-! ### Arithmetic -/

theorem add_mod_of_lt {a b c : Nat} (ha : a < c) (hb : b < c) : (a + b) % c = if a + b < c then a + b else a + b - c := by
  split
  · rename_i h; exact Nat.mod_eq_of_lt h
  · rename_i h
    rw [Nat.mod_eq_sub_mod (by omega), Nat.mod_eq_of_lt (by omega)]

namespace Core
variable {t : Map K V} (h : Core E sec t)
include h

theorem cap_ge : 4 ≤ cap t := by
  obtain ⟨j, h1, _, h3⟩ := h.pow
  rw [h3]
  exact Nat.pow_le_pow_right (n := 2) (by decide) h1

theorem cap_le : cap t ≤ 2 ^ 48 := by
  obtain ⟨j, _, h2, h3⟩ := h.pow
  rw [h3]
  exact Nat.pow_le_pow_right (by decide) h2

theorem cap_cases : cap t = 4 ∨ cap t = 8 ∨ ∃ m, 1 ≤ m ∧ cap t = 16 * m := by
  obtain ⟨j, h1, _, h3⟩ := h.pow
  rw [h3]
  by_cases h4 : j = 2
  · subst h4; exact Or.inl rfl
  by_cases h5 : j = 3
  · subst h5; exact Or.inr (Or.inl rfl)
  refine Or.inr (Or.inr ⟨2 ^ (j - 4), Nat.two_pow_pos _, ?_⟩)
  rw [show (16 : Nat) = 2 ^ 4 from rfl, ← Nat.pow_add]
  congr 1; omega

theorem and_mask (x : Nat) : x &&& t.mask = x % cap t := by
  obtain ⟨j, _, _, h3⟩ := h.pow
  have : t.mask = 2 ^ j - 1 := by unfold cap at h3; omega
  rw [this, h3, Nat.and_two_pow_sub_one_eq_mod]

theorem clen_eq : clen t = max 32 (cap t + 16) := by
  have hg := h.gmask
  unfold clen
  rcases h.cap_cases with hc | hc | ⟨m, hm, hc⟩ <;> rw [hc] at hg ⊢ <;> omega

theorem readable {i : Nat} (hi : i < cap t) : readable t i = true := by
  unfold Flat.readable
  have := h.clen_eq
  simp only [decide_eq_true_eq]
  omega

theorem home_eq (k : K) : home E t k = base E t k 0 := by
  unfold home base
  rw [h.and_mask]; rfl

theorem base_lt (k : K) (j : Nat) : base E t k j < cap t := Nat.mod_lt _ (by have := h.cap_ge; omega)

theorem nextGroup_base (k : K) (j : Nat) : nextGroup t (base E t k j) = base E t k (j + 1) := by
  unfold nextGroup base
  rw [h.and_mask, Nat.mod_add_mod]
  congr 1

omit h in
theorem windows_pos : 1 ≤ windows t := by unfold windows; omega

/-- The probe is back at the home position after `windows` groups, and not before. -/
theorem base_wrap (k : K) {j : Nat} (hj : j < windows t) : base E t k (j + 1) = home E t k ↔ j + 1 = windows t := by
  rw [h.home_eq]
  unfold windows at *
  unfold base
  generalize E.h k = x
  rcases h.cap_cases with hc | hc | ⟨m, hm, hc⟩
  · rw [hc] at hj ⊢; omega
  · rw [hc] at hj ⊢; omega
  · rw [hc] at hj ⊢
    have h1 : 16 * m / 16 = m := by omega
    rw [h1] at hj ⊢
    have h2 : max 1 m = m := by omega
    rw [h2] at hj ⊢
    have hx : x % (16 * m) < 16 * m := Nat.mod_lt _ (by omega)
    have e0 : x + 16 * 0 = x := rfl
    rw [e0]
    by_cases hjm : j + 1 = m
    · rw [hjm, Nat.add_mod_right]; simp
    · have e1 : (x + 16 * (j + 1)) % (16 * m) = (x % (16 * m) + 16 * (j + 1)) % (16 * m) := (Nat.mod_add_mod _ _ _).symm
      rw [e1, add_mod_of_lt hx (by omega)]
      generalize x % (16 * m) = y at hx ⊢
      constructor
      · intro h3; split at h3 <;> omega
      · intro h3; omega

omit h in
/-- The slot behind position `p` of the `j`-th group. -/
theorem base_add (k : K) (j p : Nat) : (base E t k j + p) % cap t = (E.h k + (16 * j + p)) % cap t := by
  unfold base
  rw [Nat.mod_add_mod, Nat.add_assoc]

theorem dist_lt (k : K) (i : Nat) : dist E t k i < cap t := Nat.mod_lt _ (by have := h.cap_ge; omega)

theorem home_dist (k : K) {i : Nat} (hi : i < cap t) : (E.h k + dist E t k i) % cap t = i := by
  have h1 : E.h k % cap t < cap t := Nat.mod_lt _ (by omega)
  have e1 : (E.h k + dist E t k i) % cap t = (E.h k % cap t + dist E t k i) % cap t := (Nat.mod_add_mod _ _ _).symm
  rw [e1, add_mod_of_lt h1 (h.dist_lt k i)]
  unfold dist
  generalize E.h k % cap t = y at h1 ⊢
  by_cases h2 : i < y
  · rw [Nat.mod_eq_of_lt (by omega)]
    split <;> omega
  · rw [show i + cap t - y = i - y + cap t by omega, Nat.add_mod_right, Nat.mod_eq_of_lt (by omega)]
    split <;> omega

/-- Slot `i` is seen at this group and position. -/
theorem base_dist (k : K) {i : Nat} (hi : i < cap t) :
    (base E t k (dist E t k i / 16) + dist E t k i % 16) % cap t = i := by
  rw [base_add, Nat.div_add_mod, h.home_dist k hi]

theorem dist_windows (k : K) (i : Nat) : dist E t k i / 16 < windows t ∧ dist E t k i % 16 < cap t := by
  have := h.dist_lt k i
  unfold windows
  rcases h.cap_cases with hc | hc | ⟨m, hm, hc⟩ <;> rw [hc] at this ⊢ <;> omega

/-- The distance of a slot seen in the `j`-th group. -/
theorem dist_of (k : K) {j p : Nat} (hj : j < windows t) (hp : p < 16) :
    dist E t k ((base E t k j + p) % cap t) / 16 ≤ j := by
  have hge := h.cap_ge
  by_cases h16 : cap t < 16
  · have := h.dist_lt k ((base E t k j + p) % cap t)
    omega
  · have hx : 16 * j + p < cap t := by
      unfold windows at hj
      rcases h.cap_cases with hc | hc | ⟨m, hm, hc⟩ <;> rw [hc] at hj h16 ⊢ <;> omega
    rw [base_add]
    unfold dist
    have h1 : E.h k % cap t < cap t := Nat.mod_lt _ (by omega)
    rw [← Nat.mod_add_mod, add_mod_of_lt h1 hx]
    split
    · rw [show E.h k % cap t + (16 * j + p) + cap t - E.h k % cap t = 16 * j + p + cap t by omega, Nat.add_mod_right,
        Nat.mod_eq_of_lt hx]
      omega
    · rw [show E.h k % cap t + (16 * j + p) - cap t + cap t - E.h k % cap t = 16 * j + p by omega, Nat.mod_eq_of_lt hx]
      omega

/-! ### Bytes -/

/-- A byte that is not an end mark is the byte of the slot it stands for. -/
theorem byte_real {b p : Nat} (hb : b < cap t) (hp : p < 16) (hne : t.ctrl (b + p) ≠ bEnd) :
    t.ctrl ((b + p) % cap t) = t.ctrl (b + p) := by
  by_cases h1 : b + p < cap t
  · rw [Nat.mod_eq_of_lt h1]
  · have hl := h.clen_eq
    have h2 := h.mirror (b + p) (by omega) (by omega)
    split at h2
    · split at h2
      · exact absurd h2 hne
      · rw [h2]; congr 1
        rw [Nat.mod_eq_sub_mod (by omega), Nat.mod_eq_of_lt (by omega)]
    · exact absurd h2 hne

/-- A used byte is seen, and every byte but the first is. -/
theorem byte_seen {b p : Nat} (hb : b < cap t) (hp : p < 16) (hpc : p < cap t)
    (hv : t.ctrl ((b + p) % cap t) < 128 ∨ (b + p) % cap t ≠ 0) : t.ctrl (b + p) = t.ctrl ((b + p) % cap t) := by
  by_cases h1 : b + p < cap t
  · rw [Nat.mod_eq_of_lt h1]
  · have hl := h.clen_eq
    have h2 := h.mirror (b + p) (by omega) (by omega)
    have h3 : (b + p) % cap t = b + p - cap t := by
      rw [Nat.mod_eq_sub_mod (by omega), Nat.mod_eq_of_lt (by omega)]
    rw [h3] at hv ⊢
    rw [if_pos (by omega)] at h2
    rw [h2, if_neg]
    rintro ⟨h4, h5⟩
    rw [h4, Nat.sub_self] at hv
    omega

omit h in
theorem tag_lt (k : K) : tagOf E sec k < 128 := by
  unfold tagOf
  have : sec (E.h k) &&& 0x7F ≤ 0x7F := Nat.and_le_right
  omega

theorem used_iff {i : Nat} (hi : i < cap t) : t.ctrl i < 128 ↔ (t.slot i).isSome = true := by
  obtain ⟨h1, h2⟩ := h.cell i hi
  cases hs : t.slot i with
  | none => rcases h2 hs with h3 | h3 <;> rw [h3] <;> simp [bDeleted]
  | some e =>
    rw [h1 e hs]
    simp [tag_lt e.1]

theorem slot_of_used {i : Nat} (hi : i < cap t) (hu : t.ctrl i < 128) :
    ∃ e, t.slot i = some e ∧ t.ctrl i = tagOf E sec e.1 := by
  obtain ⟨e, he⟩ := Option.isSome_iff_exists.mp ((h.used_iff hi).mp hu)
  exact ⟨e, he, (h.cell i hi).1 e he⟩

theorem byte_cases {i : Nat} (hi : i < cap t) : t.ctrl i < 128 ∨ t.ctrl i = bEmpty ∨ t.ctrl i = bDeleted := by
  cases hs : t.slot i with
  | none => exact Or.inr ((h.cell i hi).2 hs)
  | some e => left; exact (h.used_iff hi).mpr (by simp [hs])

end Core

/-! ### Masks -/

theorem matchTag_lt (t : Map K V) (i tg : Nat) : matchTag t i tg < 2 ^ 16 := moveMask_lt _ _

theorem bitsOf_matchTag (t : Map K V) (i tg : Nat) :
    bitsOf (matchTag t i tg) = (List.range 16).filter fun p => t.ctrl (i + p) == tg := by
  rw [bitsOf_eq (n := 16) (by decide) (matchTag_lt t i tg)]
  apply List.filter_congr
  intro p hp
  have := List.mem_range.mp hp
  unfold matchTag
  rw [testBit_moveMask]
  simp [this]

theorem matchTag_zero (t : Map K V) (i tg : Nat) : matchTag t i tg = 0 ↔ ∀ p, p < 16 → t.ctrl (i + p) ≠ tg := by
  constructor
  · intro h0 p hp he
    have : (matchTag t i tg).testBit p = true := by
      unfold matchTag
      rw [testBit_moveMask]; simp [hp, he]
    rw [h0] at this; simp at this
  · intro hall
    apply Nat.eq_of_testBit_eq
    intro p
    unfold matchTag
    rw [testBit_moveMask, Nat.zero_testBit]
    by_cases hp : p < 16
    · simp [hp, hall p hp]
    · simp [hp]

theorem matchEmpty_zero (t : Map K V) (i : Nat) : matchEmpty t i = 0 ↔ NoEmpty t i := matchTag_zero t i bEmpty

/-- The lowest match. -/
theorem bsf_matchTag {t : Map K V} {i tg : Nat} (h0 : matchTag t i tg ≠ 0) :
    bsf32 (matchTag t i tg) < 16 ∧ t.ctrl (i + bsf32 (matchTag t i tg)) = tg := by
  have hlt : matchTag t i tg < 2 ^ 32 := Nat.lt_of_lt_of_le (matchTag_lt t i tg) (by decide)
  obtain ⟨h1, _⟩ := bsf32_spec h0 hlt
  unfold matchTag at h1
  rw [testBit_moveMask] at h1
  simpa [matchTag] using h1

/-! ### Probes -/

/-- Slot `r` holds a key equivalent to `k`. -/
def KeyAt (E : Env K) (t : Map K V) (k : K) (r : Nat) : Prop := ∃ e, t.slot r = some e ∧ E.eq e.1 k = true

/-- No slot seen in the group at `i` with the control byte of `k` holds the key. -/
def Clear (E : Env K) (sec : Nat → Nat) (t : Map K V) (k : K) (i : Nat) : Prop :=
  ∀ p, p < 16 → t.ctrl (i + p) = tagOf E sec k → ¬ KeyAt E t k ((i + p) % cap t)

theorem scan_spec {t : Map K V} (h : Core E sec t) {k : K} {i : Nat} (hi : i < cap t) :
    ∀ ps : List Nat, (∀ p ∈ ps, p < 16 ∧ t.ctrl (i + p) = tagOf E sec k) →
      (∃ r, scan E t k i ps = .ok (some r) ∧ r < cap t ∧ KeyAt E t k r) ∨
      (scan E t k i ps = .ok none ∧ ∀ p ∈ ps, ¬ KeyAt E t k ((i + p) % cap t)) := by
  intro ps
  induction ps with
  | nil => intro _; right; exact ⟨rfl, by simp⟩
  | cons p ps ih =>
    intro hps
    obtain ⟨hp, hc⟩ := hps p (by simp)
    have htag := Core.tag_lt (E := E) (sec := sec) k
    have hlt : (i + p) % cap t < cap t := Nat.mod_lt _ (by omega)
    have hne : t.ctrl (i + p) ≠ bEnd := by rw [hc]; unfold bEnd; omega
    have hr := h.byte_real hi hp hne
    obtain ⟨e, he, _⟩ := h.slot_of_used hlt (by rw [hr, hc]; exact htag)
    unfold scan
    rw [h.and_mask, he]
    simp only
    by_cases heq : E.eq e.1 k = true
    · rw [if_pos heq]
      exact Or.inl ⟨_, rfl, hlt, e, he, heq⟩
    · rw [if_neg heq]
      rcases ih (fun q hq => hps q (by simp [hq])) with h1 | ⟨h1, h2⟩
      · exact Or.inl h1
      · refine Or.inr ⟨h1, ?_⟩
        intro q hq
        rcases List.mem_cons.mp hq with rfl | hq
        · rintro ⟨e', he', heq'⟩
          rw [he] at he'
          cases he'
          exact heq heq'
        · exact h2 q hq

/-- What a probe establishes. -/
def ProbeOk (E : Env K) (sec : Nat → Nat) (t : Map K V) (k : K) : Probe → Prop
  | .hit r => r < cap t ∧ KeyAt E t k r
  | .stop i => ∃ j, j < windows t ∧ i = base E t k j ∧ ¬ NoEmpty t i ∧ (∀ j', j' < j → NoEmpty t (base E t k j')) ∧
      ∀ j', j' ≤ j → Clear E sec t k (base E t k j')
  | .full => ∀ j, j < windows t → NoEmpty t (base E t k j) ∧ Clear E sec t k (base E t k j)

theorem probeLoop_spec {t : Map K V} (h : Core E sec t) (k : K) : ∀ (f j : Nat), j < windows t → windows t ≤ f + j →
    (∀ j', j' < j → NoEmpty t (base E t k j') ∧ Clear E sec t k (base E t k j')) →
    ∃ r, probeLoop E sec t k f (base E t k j) = .ok r ∧ ProbeOk E sec t k r := by
  intro f
  induction f with
  | zero => intro j h1 h2; omega
  | succ f ih =>
    intro j hj hf hprev
    have hb := h.base_lt k j
    unfold probeLoop
    rw [if_pos (h.readable hb), bitsOf_matchTag]
    have hps : ∀ p ∈ (List.range 16).filter (fun p => t.ctrl (base E t k j + p) == tagOf E sec k),
        p < 16 ∧ t.ctrl (base E t k j + p) = tagOf E sec k := by
      intro p hp
      simpa using hp
    rcases scan_spec h hb _ hps with ⟨r, h1, h2, h3⟩ | ⟨h1, h2⟩
    · rw [h1]
      exact ⟨_, rfl, h2, h3⟩
    · rw [h1]
      simp only [Res.bind_ok]
      have hclear : Clear E sec t k (base E t k j) := by
        intro p hp hc
        exact h2 p (by simp [hp, hc])
      by_cases hm : matchEmpty t (base E t k j) = 0
      · rw [if_neg (by simpa using hm), h.nextGroup_base]
        have hno := (matchEmpty_zero _ _).mp hm
        by_cases hw : base E t k (j + 1) = home E t k
        · rw [if_pos hw]
          have := (h.base_wrap k hj).mp hw
          refine ⟨_, rfl, ?_⟩
          intro j' hj'
          by_cases hjj : j' = j
          · subst hjj; exact ⟨hno, hclear⟩
          · exact hprev j' (by omega)
        · rw [if_neg hw]
          have hne : j + 1 ≠ windows t := fun hc => hw ((h.base_wrap k hj).mpr hc)
          apply ih (j + 1) (by omega) (by omega)
          intro j' hj'
          by_cases hjj : j' = j
          · subst hjj; exact ⟨hno, hclear⟩
          · exact hprev j' (by omega)
      · rw [if_pos (by simpa using hm)]
        refine ⟨_, rfl, j, hj, rfl, fun hc => hm ((matchEmpty_zero _ _).mpr hc), fun j' hj' => (hprev j' hj').1, ?_⟩
        intro j' hj'
        by_cases hjj : j' = j
        · subst hjj; exact hclear
        · exact (hprev j' (by omega)).2

theorem Core.windows_le {t : Map K V} (h : Core E sec t) : windows t ≤ cap t := by
  have := h.cap_ge
  unfold windows; omega

theorem probe_spec {t : Map K V} (h : Core E sec t) (k : K) :
    ∃ r, probe E sec t k = .ok r ∧ ProbeOk E sec t k r := by
  unfold probe
  rw [h.home_eq]
  exact probeLoop_spec h k _ 0 Core.windows_pos (by have := h.windows_le; omega) (by intro j' hj'; omega)

/-! ### Lookup -/

theorem Env.tag_congr (hE : E.Lawful) {a b : K} (h : E.eq a b = true) : tagOf E sec a = tagOf E sec b := by
  unfold tagOf Env.h; rw [hE.congr a b h]

theorem Env.base_congr (hE : E.Lawful) (t : Map K V) {a b : K} (h : E.eq a b = true) (j : Nat) :
    base E t a j = base E t b j := by
  unfold base Env.h; rw [hE.congr a b h]

theorem Env.dist_congr (hE : E.Lawful) (t : Map K V) {a b : K} (h : E.eq a b = true) (i : Nat) :
    dist E t a i = dist E t b i := by
  unfold dist Env.h; rw [hE.congr a b h]

/-- A stored key shows its control byte in the group where it is expected. -/
theorem Core.key_seen {t : Map K V} (h : Core E sec t) (hE : E.Lawful) {k : K} {i : Nat} (hi : i < cap t) (hk : KeyAt E t k i) :
    ¬ Clear E sec t k (base E t k (dist E t k i / 16)) := by
  intro hcl
  obtain ⟨e, he, heq⟩ := hk
  obtain ⟨h1, h2⟩ := h.dist_windows k i
  have hb := h.base_dist k hi
  have hu : t.ctrl i < 128 := (h.used_iff hi).mpr (by simp [he])
  have hs := h.byte_seen (h.base_lt k (dist E t k i / 16)) (Nat.mod_lt _ (by decide) : dist E t k i % 16 < 16) h2
    (Or.inl (by rw [hb]; exact hu))
  rw [hb] at hs
  have hc : t.ctrl i = tagOf E sec k := by rw [(h.cell i hi).1 e he, Env.tag_congr hE heq]
  exact hcl _ (Nat.mod_lt _ (by decide)) (by rw [hs, hc]) (by rw [hb]; exact ⟨e, he, heq⟩)

/-- A probe that does not hit proves that the key is not stored. -/
theorem absent_of_probe {t : Map K V} (h : Core E sec t) (hr : Reachable E t) (hE : E.Lawful) {k : K} {r : Probe}
    (hp : ProbeOk E sec t k r) (hh : ∀ j, r ≠ .hit j) : ∀ i, i < cap t → ¬ KeyAt E t k i := by
  intro i hi hk
  have hseen := h.key_seen hE hi hk
  obtain ⟨h1, _⟩ := h.dist_windows k i
  cases r with
  | hit j => exact hh j rfl
  | full => exact hseen (hp _ h1).2
  | stop b =>
    obtain ⟨j, hj, rfl, hne, _, hcl⟩ := hp
    by_cases hle : dist E t k i / 16 ≤ j
    · exact hseen (hcl _ hle)
    · obtain ⟨e, he, heq⟩ := hk
      apply hne
      have := hr i e hi he j (by rw [Env.dist_congr hE t heq]; omega)
      rwa [Env.base_congr hE t heq] at this

end Verif.Flat
