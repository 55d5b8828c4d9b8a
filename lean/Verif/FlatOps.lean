/-
How the modifiers of the model of `flat16_hash_map` change the invariants: writing control bytes, insertion, rehash.
-/
import Verif.FlatInv
import Verif.RobinOps

namespace Verif.Flat
open Spec (Distinct)

variable {K V : Type} {E : Env K} {sec : Nat → Nat}

/-! ### Counting -/

theorem countP_change {p q : Nat → Bool} {n i : Nat} (hi : i < n) (h : ∀ x, x < n → x ≠ i → p x = q x) :
    (List.range n).countP p + (q i).toNat = (List.range n).countP q + (p i).toNat := by
  rw [range_split hi]
  simp only [List.countP_append, List.countP_cons]
  have h1 : (List.range i).countP p = (List.range i).countP q := by
    apply List.countP_congr
    intro x hx
    have := List.mem_range.mp hx
    rw [h x (by omega) (by omega)]
  have h2 : (List.range' (i + 1) (n - i - 1)).countP p = (List.range' (i + 1) (n - i - 1)).countP q := by
    apply List.countP_congr
    intro x hx
    have := List.mem_range'_1.mp hx
    rw [h x (by omega) (by omega)]
  rw [h1, h2]
  cases p i <;> cases q i <;> simp <;> omega

theorem mem_entries {t : Map K V} {e : K × V} : e ∈ entries t ↔ ∃ i, i < cap t ∧ t.slot i = some e :=
  mem_filterMap_range _ _

/-- The number of elements is the number of used control bytes. -/
theorem countP_isSome {α : Type} (f : Nat → Option α) (n : Nat) :
    (List.range n).countP (fun i => (f i).isSome) = ((List.range n).filterMap f).length := by
  induction n with
  | zero => rfl
  | succ n ih =>
    rw [List.range_succ, List.countP_append, List.filterMap_append, List.length_append, ih]
    cases h : f n <;> simp [h]

theorem Core.size_used {t : Map K V} (h : Core E sec t) : t.size = (List.range (cap t)).countP fun i => decide (t.ctrl i < 128) := by
  rw [h.size]
  unfold entries
  rw [← countP_isSome]
  apply List.countP_congr
  intro i hi
  have := h.used_iff (List.mem_range.mp hi)
  simp [this]

theorem countP_or {p q : Nat → Bool} {l : List Nat} (h : ∀ x ∈ l, ¬ (p x = true ∧ q x = true)) :
    l.countP (fun x => p x || q x) = l.countP p + l.countP q := by
  induction l with
  | nil => rfl
  | cons a l ih =>
    simp only [List.countP_cons]
    rw [ih (fun x hx => h x (by simp [hx]))]
    have := h a (by simp)
    cases hp : p a <;> cases hq : q a <;> simp [hp, hq] at this ⊢ <;> omega

theorem Core.occ_eq {t : Map K V} (h : Core E sec t) : occ t = t.size + dels t := by
  rw [h.size_used]
  unfold occ dels
  rw [← countP_or]
  · apply List.countP_congr
    intro i hi
    rcases h.byte_cases (List.mem_range.mp hi) with h1 | h1 | h1
    · have : t.ctrl i ≠ bEmpty := by unfold bEmpty; omega
      simp [h1, this]
    · simp [h1, bEmpty, bDeleted]
    · simp [h1, bEmpty, bDeleted]
  · intro i _ ⟨h1, h2⟩
    simp only [decide_eq_true_eq, beq_iff_eq] at h1 h2
    rw [h2] at h1
    unfold bDeleted at h1; omega

theorem occ_le (t : Map K V) : occ t ≤ cap t := by
  unfold occ
  have := List.countP_le_length (p := fun i => t.ctrl i != bEmpty) (l := List.range (cap t))
  rwa [List.length_range] at this

theorem Core.size_le {t : Map K V} (h : Core E sec t) : t.size ≤ cap t := by
  have := h.occ_eq
  have := occ_le t
  omega

/-! ### Writing a control byte -/

/-- `f` is the control block of `t` after slot `i` got the byte `b`. -/
structure Wrote (t : Map K V) (f : Nat → Nat) (i b : Nat) : Prop where
  self : f i = b
  other : ∀ x, x < cap t → x ≠ i → f x = t.ctrl x
  copy : ∀ x, cap t ≤ x → x ≠ i + cap t → f x = t.ctrl x
  mirror : i < 16 → f (i + cap t) = if i = 0 ∧ 128 ≤ b then bEnd else b

theorem wrote_setUsed {t : Map K V} {i b : Nat} (hi : i < cap t) (hb : b < 128) : Wrote t (setUsed t i b).ctrl i b := by
  have h0 : 0 < cap t := by omega
  unfold setUsed
  simp only
  split
  · constructor
    · rw [upd_other _ _ (by omega), upd_self]
    · intro x h1 h2; rw [upd_other _ _ (by omega), upd_other _ _ h2]
    · intro x h1 h2; rw [upd_other _ _ h2, upd_other _ _ (by omega)]
    · intro _; rw [upd_self, if_neg (by omega)]
  · constructor
    · exact upd_self _ _ _
    · intro x h1 h2; exact upd_other _ _ h2
    · intro x h1 h2; exact upd_other _ _ (by omega)
    · intro h; omega

theorem wrote_setUnused {t : Map K V} {i b : Nat} (hi : i < cap t) (hb : 128 ≤ b) : Wrote t (setUnused t i b).ctrl i b := by
  have h0 : 0 < cap t := by omega
  unfold setUnused
  simp only
  split
  · constructor
    · rw [upd_other _ _ (by omega), upd_self]
    · intro x h1 h2; rw [upd_other _ _ (by omega), upd_other _ _ h2]
    · intro x h1 h2; rw [upd_other _ _ h2, upd_other _ _ (by omega)]
    · intro _
      rw [upd_self]
      by_cases hz : i = 0
      · rw [if_pos hz, if_pos ⟨hz, hb⟩]
      · rw [if_neg hz, if_neg (fun h => hz h.1)]
  · constructor
    · exact upd_self _ _ _
    · intro x h1 h2; exact upd_other _ _ h2
    · intro x h1 h2; exact upd_other _ _ (by omega)
    · intro h; omega

/-- The invariant of bytes and slots after a write. -/
theorem Core.write {t t' : Map K V} {i b : Nat} (h : Core E sec t) (hi : i < cap t) (hm : t'.mask = t.mask)
    (hg : t'.gmask = t.gmask) (hw : Wrote t t'.ctrl i b)
    (hc : (∀ e, t'.slot i = some e → b = tagOf E sec e.1) ∧ (t'.slot i = none → b = bEmpty ∨ b = bDeleted))
    (hs : ∀ x, x ≠ i → t'.slot x = t.slot x) (hsz : t'.size = (entries t').length) (hl : t'.left < W) : Core E sec t' := by
  have hcap : cap t' = cap t := by unfold cap; rw [hm]
  have hclen : clen t' = clen t := by unfold clen; rw [hg]
  have hge := h.cap_ge
  refine ⟨by rw [hcap]; exact h.pow, by rw [hcap, hg]; exact h.gmask, ?_, ?_, ?_, hsz, hl⟩
  · intro x hx
    rw [hcap] at hx
    by_cases hxi : x = i
    · subst hxi; rw [hw.self]; exact hc
    · rw [hs x hxi, hw.other x hx hxi]; exact h.cell x hx
  · intro x h1 h2
    rw [hcap] at h1 ⊢
    rw [hclen] at h2
    have hl := h.clen_eq
    by_cases hxi : x = i + cap t
    · subst hxi
      have h16 : i < 16 := by
        rcases h.cap_cases with hc | hc | ⟨m, hm, hc⟩ <;> rw [hc] at * <;> omega
      rw [hw.mirror h16, Nat.add_sub_cancel, hw.self]
      have h2c : i + cap t < 2 * cap t := by omega
      by_cases h0 : i = 0
      · have hz : t'.ctrl 0 = b := by rw [← h0]; exact hw.self
        have hcc : i + cap t = cap t := by omega
        rw [if_pos h2c, hz]
        simp only [h0, Nat.zero_add, true_and]
      · have hcc : i + cap t ≠ cap t := by omega
        simp only [h0, h2c, hcc, false_and, if_false, if_true]
    · rw [hw.copy x h1 hxi, h.mirror x h1 h2]
      by_cases h3 : x < 2 * cap t
      · rw [if_pos h3, if_pos h3, hw.other (x - cap t) (by omega) (by omega)]
        by_cases h4 : x = cap t
        · rw [hw.other 0 (by omega) (by omega)]
        · rw [if_neg (fun hh => h4 hh.1), if_neg (fun hh => h4 hh.1)]
      · rw [if_neg h3, if_neg h3]
  · intro x hx
    rw [hcap] at hx
    rw [hs x (by omega)]
    exact h.tail x hx

/-- Writing something else than an empty byte makes no group show an empty byte. -/
theorem NoEmpty.write {t t' : Map K V} {i b x : Nat} (h : Core E sec t) (hx : x < cap t) (hw : Wrote t t'.ctrl i b)
    (hb : b ≠ bEmpty) (hn : NoEmpty t x) : NoEmpty t' x := by
  have hge := h.cap_ge
  intro p hp hc
  by_cases h1 : x + p < cap t
  · by_cases h2 : x + p = i
    · rw [h2, hw.self] at hc; exact hb hc
    · rw [hw.other _ h1 h2] at hc; exact hn p hp hc
  · by_cases h2 : x + p = i + cap t
    · by_cases h16 : i < 16
      · rw [h2, hw.mirror h16] at hc
        split at hc
        · unfold bEnd bEmpty at hc; omega
        · exact hb hc
      · exact absurd hp (by omega)
    · rw [hw.copy _ (by omega) h2] at hc; exact hn p hp hc

theorem base_mask {t t' : Map K V} (hm : t'.mask = t.mask) (k : K) (j : Nat) : base E t' k j = base E t k j := by
  unfold base cap; rw [hm]

theorem dist_mask {t t' : Map K V} (hm : t'.mask = t.mask) (k : K) (i : Nat) : dist E t' k i = dist E t k i := by
  unfold dist cap; rw [hm]

theorem occ_write {t t' : Map K V} {i b : Nat} (hi : i < cap t) (hm : t'.mask = t.mask) (hw : Wrote t t'.ctrl i b) :
    occ t' + (t.ctrl i != bEmpty).toNat = occ t + (b != bEmpty).toNat := by
  unfold occ
  have hcap : cap t' = cap t := by unfold cap; rw [hm]
  rw [hcap]
  have := countP_change (p := fun x => t'.ctrl x != bEmpty) (q := fun x => t.ctrl x != bEmpty) hi
    (fun x hx hne => by simp only [hw.other x hx hne])
  rw [hw.self] at this
  exact this

theorem dels_write {t t' : Map K V} {i b : Nat} (hi : i < cap t) (hm : t'.mask = t.mask) (hw : Wrote t t'.ctrl i b) :
    dels t' + (t.ctrl i == bDeleted).toNat = dels t + (b == bDeleted).toNat := by
  unfold dels
  have hcap : cap t' = cap t := by unfold cap; rw [hm]
  rw [hcap]
  have := countP_change (p := fun x => t'.ctrl x == bDeleted) (q := fun x => t.ctrl x == bDeleted) hi
    (fun x hx hne => by simp only [hw.other x hx hne])
  rw [hw.self] at this
  exact this

/-! ### The invariant of lookups -/

/-- Bytes and slots, and every element reachable. -/
structure Probed (E : Env K) (sec : Nat → Nat) (t : Map K V) : Prop extends Core E sec t where
  reach : Reachable E t

/-- And no key twice. -/
structure Inv0 (E : Env K) (sec : Nat → Nat) (t : Map K V) : Prop extends Probed E sec t where
  distinct : Distinct E.eq (entries t)

/-- With the count of empty bytes (a table of at most 32 slots does not use it). -/
structure Inv (E : Env K) (sec : Nat → Nat) (t : Map K V) : Prop extends Inv0 E sec t where
  counted : 32 < cap t → Counted t

/-- A place for a new key: an unused slot on its probe sequence, not behind a group with an empty byte. -/
structure Place (E : Env K) (t : Map K V) (k : K) (i : Nat) : Prop where
  lt : i < cap t
  free : t.slot i = none
  front : ∀ j, j < dist E t k i / 16 → NoEmpty t (base E t k j)

/-- The map after an element has been put into slot `i`. -/
def put (E : Env K) (sec : Nat → Nat) (t : Map K V) (i : Nat) (e : K × V) : Map K V :=
  { setUsed t i (tagOf E sec e.1) with slot := upd t.slot i (some e), size := t.size + 1 }

theorem entries_put {t : Map K V} {i : Nat} (hi : i < cap t) (hf : t.slot i = none) (e : K × V) :
    (entries (put E sec t i e)).Perm (e :: entries t) := perm_upd_some hi t.slot hf e

theorem Core.put {t : Map K V} (h : Core E sec t) {e : K × V} {i : Nat} (hi : i < cap t) (hf : t.slot i = none) :
    Core E sec (put E sec t i e) := by
  have hw : Wrote t (Flat.put E sec t i e).ctrl i (tagOf E sec e.1) := wrote_setUsed hi (Core.tag_lt _)
  have hperm := entries_put (E := E) (sec := sec) hi hf e
  refine h.write hi rfl rfl hw ⟨?_, ?_⟩ ?_ ?_ h.left
  · intro e' he'
    have : (Flat.put E sec t i e).slot i = some e := upd_self _ _ _
    rw [this] at he'; cases he'; rfl
  · intro hn
    have : (Flat.put E sec t i e).slot i = some e := upd_self _ _ _
    rw [this] at hn; cases hn
  · intro x hx; exact upd_other _ _ hx
  · rw [hperm.length_eq, List.length_cons, ← h.size]; rfl

theorem Probed.put {t : Map K V} (h : Probed E sec t) {e : K × V} {i : Nat} (hp : Place E t e.1 i) :
    Probed E sec (put E sec t i e) := by
  have hw : Wrote t (Flat.put E sec t i e).ctrl i (tagOf E sec e.1) := wrote_setUsed hp.lt (Core.tag_lt _)
  have hb : tagOf E sec e.1 ≠ bEmpty := by
    have := Core.tag_lt (E := E) (sec := sec) e.1
    unfold bEmpty; omega
  refine ⟨h.toCore.put hp.lt hp.free, ?_⟩
  intro x e' hx he' j hj
  rw [dist_mask (t := t) (t' := Flat.put E sec t i e) rfl] at hj
  rw [base_mask (t := t) (t' := Flat.put E sec t i e) rfl]
  by_cases hxi : x = i
  · subst hxi
    have : (Flat.put E sec t x e).slot x = some e := upd_self _ _ _
    rw [this] at he'
    cases he'
    exact (hp.front j hj).write h.toCore (h.base_lt _ _) hw hb
  · have : (Flat.put E sec t i e).slot x = t.slot x := upd_other _ _ hxi
    rw [this] at he'
    exact (h.reach x e' hx he' j hj).write h.toCore (h.base_lt _ _) hw hb

theorem Inv0.put {t : Map K V} (h : Inv0 E sec t) (hE : E.Lawful) {e : K × V} {i : Nat} (hp : Place E t e.1 i)
    (ha : ∀ x, x < cap t → ¬ KeyAt E t e.1 x) : Inv0 E sec (put E sec t i e) := by
  refine ⟨h.toProbed.put hp, ?_⟩
  refine Distinct.perm hE (entries_put hp.lt hp.free e).symm ?_
  refine List.Pairwise.cons ?_ h.distinct
  intro e' he'
  obtain ⟨x, hx, hs⟩ := mem_entries.mp he'
  cases hq : E.eq e.1 e'.1 with
  | false => rfl
  | true => exact absurd ⟨e', hs, hE.symm _ _ hq⟩ (ha x hx)

/-! ### The first empty slot -/

theorem exists_nonzero_empty {t : Map K V} (h : occ t + 2 ≤ cap t) : ∃ r, 0 < r ∧ r < cap t ∧ t.ctrl r = bEmpty := by
  by_contra hc
  have h1 : (List.range (cap t)).countP (fun i => t.ctrl i == bEmpty) ≤ (List.range (cap t)).countP (fun i => i == 0) := by
    apply List.countP_mono_left
    intro x hx hx2
    have := List.mem_range.mp hx
    simp only [beq_iff_eq] at hx2 ⊢
    by_contra h0
    exact hc ⟨x, by omega, this, hx2⟩
  have h2 : (List.range (cap t)).countP (fun i => i == 0) ≤ 1 := by
    have := (List.nodup_iff_count_le_one.mp (List.nodup_range (n := cap t))) 0
    exact this
  have h3 := List.length_eq_countP_add_countP (fun i => t.ctrl i == bEmpty) (l := List.range (cap t))
  rw [List.length_range] at h3
  have h4 : (List.range (cap t)).countP (fun a => decide ¬((t.ctrl a == bEmpty) = true)) = occ t := by
    unfold occ
    apply List.countP_congr
    intro x _
    simp
  omega

theorem emptyLoop_spec {t : Map K V} (h : Core E sec t) (k : K) {j0 : Nat} (hj0 : j0 < windows t)
    (hne : ¬ NoEmpty t (base E t k j0)) : ∀ (f j : Nat), j ≤ j0 → windows t ≤ f + j →
    (∀ j', j' < j → NoEmpty t (base E t k j')) →
    ∃ j1 p, j1 < windows t ∧ p < 16 ∧ emptyLoop t f (base E t k j) = .ok ((base E t k j1 + p) % cap t) ∧
      t.ctrl (base E t k j1 + p) = bEmpty ∧ ∀ j', j' < j1 → NoEmpty t (base E t k j') := by
  intro f
  induction f with
  | zero => intro j h1 h2; omega
  | succ f ih =>
    intro j hj hf hprev
    unfold emptyLoop
    rw [if_pos (h.readable (h.base_lt k j))]
    by_cases hm : matchEmpty t (base E t k j) = 0
    · rw [if_neg (by simpa using hm), h.nextGroup_base]
      have hno := (matchEmpty_zero _ _).mp hm
      have hjj : j ≠ j0 := by rintro rfl; exact hne hno
      apply ih (j + 1) (by omega) (by omega)
      intro j' hj'
      by_cases hjj : j' = j
      · subst hjj; exact hno
      · exact hprev j' (by omega)
    · rw [if_pos (by simpa using hm), h.and_mask]
      obtain ⟨h1, h2⟩ := bsf_matchTag hm
      exact ⟨j, _, by omega, h1, rfl, h2, hprev⟩

/-- An unused slot seen in the `j`-th group, all groups before which are full, is a place. -/
theorem place_of {t : Map K V} (h : Core E sec t) {k : K} {j p : Nat} (hj : j < windows t) (hp : p < 16)
    (hc : t.ctrl (base E t k j + p) = bEmpty ∨ t.ctrl (base E t k j + p) = bDeleted)
    (hprev : ∀ j', j' < j → NoEmpty t (base E t k j')) : Place E t k ((base E t k j + p) % cap t) ∧
      t.ctrl ((base E t k j + p) % cap t) = t.ctrl (base E t k j + p) := by
  have hlt : (base E t k j + p) % cap t < cap t := Nat.mod_lt _ (by have := h.cap_ge; omega)
  have hr := h.byte_real (h.base_lt k j) hp (by rcases hc with hc | hc <;> rw [hc] <;> decide)
  refine ⟨⟨hlt, ?_, ?_⟩, hr⟩
  · cases hs : t.slot ((base E t k j + p) % cap t) with
    | none => rfl
    | some e =>
      have := (h.used_iff hlt).mpr (by simp [hs])
      rw [hr] at this
      rcases hc with hc | hc <;> rw [hc] at this <;> simp [bEmpty, bDeleted] at this
  · intro j' hj'
    have := h.dist_of k hj hp
    exact hprev j' (by omega)

theorem firstEmpty_spec {t : Map K V} (h : Core E sec t) (k : K) (hroom : occ t + 2 ≤ cap t) :
    ∃ i, firstEmpty E t k = .ok i ∧ Place E t k i ∧ t.ctrl i = bEmpty := by
  obtain ⟨r, h0, hr, hc⟩ := exists_nonzero_empty hroom
  obtain ⟨h1, h2⟩ := h.dist_windows k r
  have hb := h.base_dist k hr
  have hseen := h.byte_seen (h.base_lt k (dist E t k r / 16)) (Nat.mod_lt _ (by decide) : dist E t k r % 16 < 16) h2
    (Or.inr (by rw [hb]; omega))
  rw [hb, hc] at hseen
  obtain ⟨j1, p, h3, h4, h5, h6, h7⟩ := emptyLoop_spec h k h1 (fun hn => hn _ (Nat.mod_lt _ (by decide)) hseen) (cap t) 0
    (by omega) (by have := h.windows_le; omega) (by intro j' hj'; omega)
  obtain ⟨h8, h9⟩ := place_of h h3 h4 (Or.inl h6) h7
  refine ⟨_, ?_, h8, by rw [h9, h6]⟩
  unfold firstEmpty
  rw [h.home_eq]
  exact h5

/-! ### Rehash -/

theorem occ_put {t : Map K V} {i : Nat} (hi : i < cap t) (e : K × V) :
    occ (put E sec t i e) + (t.ctrl i != bEmpty).toNat = occ t + 1 := by
  have hw : Wrote t (put E sec t i e).ctrl i (tagOf E sec e.1) := wrote_setUsed hi (Core.tag_lt _)
  have := occ_write (t' := put E sec t i e) hi rfl hw
  have hb : (tagOf E sec e.1 != bEmpty) = true := by
    have := Core.tag_lt (E := E) (sec := sec) e.1
    simp only [bne_iff_ne]
    unfold bEmpty; omega
  rw [hb] at this
  exact this

theorem insertUnique_spec {t : Map K V} (h : Probed E sec t) {e : K × V} (hroom : occ t + 2 ≤ cap t) :
    ∃ t', insertUnique E sec e t = .ok t' ∧ Probed E sec t' ∧ (entries t').Perm (e :: entries t) ∧ t'.mask = t.mask ∧
      t'.left = t.left ∧ t'.mlf = t.mlf ∧ t'.rev = t.rev ∧ occ t' = occ t + 1 := by
  obtain ⟨i, h1, h2, h3⟩ := firstEmpty_spec h.toCore e.1 hroom
  refine ⟨put E sec t i e, ?_, h.put h2, entries_put h2.lt h2.free e, rfl, rfl, rfl, rfl, ?_⟩
  · unfold insertUnique
    rw [h1]; rfl
  · have := occ_put (E := E) (sec := sec) h2.lt e
    rw [h3] at this
    simpa using this

/-- What the loop over a list of elements does, each inserted as a new key. -/
theorem insertAllUnique_spec : ∀ (l : List (K × V)) (t : Map K V), Probed E sec t → occ t + l.length < cap t →
    ∃ t', insertAllUnique E sec l t = .ok t' ∧ Probed E sec t' ∧ (entries t').Perm (l ++ entries t) ∧ t'.mask = t.mask ∧
      t'.left = t.left ∧ t'.mlf = t.mlf ∧ t'.rev = t.rev ∧ occ t' = occ t + l.length := by
  intro l
  induction l with
  | nil => intro t h _; exact ⟨t, rfl, h, List.Perm.refl _, rfl, rfl, rfl, rfl, rfl⟩
  | cons e l ih =>
    intro t h hroom
    simp only [List.length_cons] at hroom
    obtain ⟨t1, h1, h2, h3, h4, h5, h6, h7, h8⟩ := insertUnique_spec h (e := e) (by omega)
    have hcap : cap t1 = cap t := by unfold cap; rw [h4]
    obtain ⟨t2, g1, g2, g3, g4, g5, g6, g7, g8⟩ := ih t1 h2 (by omega)
    refine ⟨t2, ?_, g2, ?_, g4.trans h4, g5.trans h5, g6.trans h6, g7.trans h7, by simp only [List.length_cons]; omega⟩
    · unfold insertAllUnique
      rw [h1]; exact g1
    · refine g3.trans ?_
      refine (List.Perm.append_left l h3).trans ?_
      exact List.perm_middle

theorem transferAll_eq (old : Map K V) : ∀ (is : List Nat) (l : List (K × V)) (t : Map K V),
    is.map old.slot = l.map some → transferAll E sec old is t = insertAllUnique E sec l t := by
  intro is
  induction is with
  | nil =>
    intro l t h
    cases l with
    | nil => rfl
    | cons a l => cases h
  | cons i is ih =>
    intro l t h
    cases l with
    | nil => cases h
    | cons a l =>
      simp only [List.map_cons, List.cons.injEq] at h
      unfold transferAll insertAllUnique
      rw [h.1]
      simp only
      congr 1
      funext t'
      exact ih l t' h.2

theorem Core.usedIdx_slots {t : Map K V} (h : Core E sec t) : (usedIdx t).map t.slot = (entries t).map some := by
  unfold usedIdx entries
  have : ∀ n, n ≤ cap t → ((List.range n).filter fun i => decide (t.ctrl i < 128)).map t.slot = ((List.range n).filterMap t.slot).map some := by
    intro n
    induction n with
    | zero => intro _; rfl
    | succ n ih =>
      intro hn
      rw [List.range_succ, List.filter_append, List.map_append, List.filterMap_append, List.map_append, ih (by omega)]
      congr 1
      have hu := h.used_iff (i := n) (by omega)
      cases hs : t.slot n with
      | none =>
        rw [hs] at hu
        have : ¬ t.ctrl n < 128 := by rw [hu]; simp
        simp [this, hs]
      | some e =>
        rw [hs] at hu
        have : t.ctrl n < 128 := by rw [hu]; simp
        simp [this, hs]
  exact this (cap t) (Nat.le_refl _)

theorem calcCapacity_eq (n : Nat) : calcCapacity n = Robin.calcCapacity n := rfl

/-- A new block. -/
def freshMap (c mlf rev : Nat) : Map K V :=
  ⟨newCtrl c, (c + 15) / 16 - 1, fun _ => none, 0, c - 1, c * mlf % W / 65536, mlf, rev⟩

theorem freshMap_inv {j : Nat} (h1 : 2 ≤ j) (h2 : j ≤ 48) (m r : Nat) : Probed E sec (freshMap (2 ^ j) m r : Map K V) ∧
    entries (freshMap (2 ^ j) m r : Map K V) = [] ∧ occ (freshMap (2 ^ j) m r : Map K V) = 0 ∧
    cap (freshMap (2 ^ j) m r : Map K V) = 2 ^ j := by
  have h4 : 4 ≤ 2 ^ j := Robin.pow_two_le (a := 2) h1
  have hcap : cap (freshMap (2 ^ j) m r : Map K V) = 2 ^ j := by
    unfold cap freshMap
    simp only
    omega
  have hent : entries (freshMap (2 ^ j) m r : Map K V) = [] := by
    unfold entries
    rw [List.filterMap_eq_nil_iff]
    intro _ _; rfl
  have hcases : 2 ^ j = 4 ∨ 2 ^ j = 8 ∨ ∃ m, 2 ^ j = 16 * m := by
    by_cases h3 : j = 2
    · subst h3; exact Or.inl rfl
    by_cases h5 : j = 3
    · subst h5; exact Or.inr (Or.inl rfl)
    · exact Or.inr (Or.inr ⟨2 ^ (j - 4), by rw [show (16 : Nat) = 2 ^ 4 from rfl, ← Nat.pow_add]; congr 1; omega⟩)
  have hzero : ∀ i, i < 2 ^ j → newCtrl (2 ^ j) i = bEmpty := by
    intro i hi
    unfold newCtrl
    rw [if_neg (by omega)]
    split
    · rw [if_neg (by omega)]
    · rfl
  refine ⟨⟨⟨⟨j, h1, h2, hcap⟩, ?_, ?_, ?_, fun _ _ => rfl, by rw [hent]; rfl, ?_⟩, ?_⟩, hent, ?_, hcap⟩
  · rw [hcap]; rfl
  · intro i hi
    rw [hcap] at hi
    exact ⟨fun e he => (by cases he), fun _ => Or.inl (hzero i hi)⟩
  · intro i h3 h4
    rw [hcap] at h3 ⊢
    have hz := hzero 0 (by omega)
    have hl : clen (freshMap (2 ^ j) m r : Map K V) = ((2 ^ j + 15) / 16 - 1 + 2) * 16 := rfl
    rw [hl] at h4
    show newCtrl (2 ^ j) i = if i < 2 * 2 ^ j then (if i = 2 ^ j ∧ 128 ≤ newCtrl (2 ^ j) 0 then bEnd else newCtrl (2 ^ j) (i - 2 ^ j)) else bEnd
    rw [hz]
    by_cases h5 : i = 2 ^ j
    · rw [if_pos (by omega : i < 2 * 2 ^ j), if_pos ⟨h5, by decide⟩]
      unfold newCtrl
      rw [if_pos h5]
    · simp only [h5, false_and, if_false]
      by_cases h6 : i < 2 * 2 ^ j
      · rw [if_pos h6, hzero (i - 2 ^ j) (by omega)]
        unfold newCtrl
        rw [if_neg h5]
        split
        · rw [if_neg (by omega)]
        · rfl
      · rw [if_neg h6]
        unfold newCtrl
        rw [if_neg h5, if_pos (by omega), if_pos (by omega)]
  · show 2 ^ j * m % W / 65536 < W
    have : 2 ^ j * m % W < W := Nat.mod_lt _ (by decide)
    exact Nat.lt_of_le_of_lt (Nat.div_le_self _ _) this
  · intro i e _ he
    cases he
  · unfold occ
    rw [List.countP_eq_zero, hcap]
    intro i hi
    have := hzero i (List.mem_range.mp hi)
    show ¬ (newCtrl (2 ^ j) i != bEmpty) = true
    rw [this]; simp

/-- What a rehash to capacity `c` leaves. -/
structure Moved (E : Env K) (sec : Nat → Nat) (t t' : Map K V) (c : Nat) : Prop where
  inv : Probed E sec t'
  perm : (entries t').Perm (entries t)
  cap : cap t' = c
  mlf : t'.mlf = t.mlf
  rev : t'.rev = t.rev
  counted : Counted t'
  clean : occ t' = t'.size

/-- The outcomes of `rehash_impl`. -/
def RehashOk (E : Env K) (sec : Nat → Nat) (sh al : Bool) (mem : Mem) (n : Nat) (t : Map K V) : Out (Map K V) Unit → Prop
  | .ok t' _ => ∃ c, calcCapacity n = .ok c ∧ ((c ≤ memLimit ∧ Moved E sec t t' c) ∨ (t' = t ∧ al = false ∧ (sh = true → c = Flat.cap t)))
  | .throw t' => (∃ c, calcCapacity n = .ok c ∧ (mem ≠ .ok ∨ memLimit < c)) ∧ (t' = t ∨ mem = .noSlots)
  | .diverge => False
  | .ub => calcCapacity n = .ub

theorem thr_lt (t : Map K V) : thr t < W := by
  unfold thr
  have : cap t * t.mlf % W < W := Nat.mod_lt _ (by decide)
  exact Nat.lt_of_le_of_lt (Nat.div_le_self _ _) this

theorem sub_mod_add {a b : Nat} (ha : a < W) (hb : b < W) : ((a + W - b % W) % W + b) % W = a := by
  rw [Nat.mod_eq_of_lt hb, Nat.mod_add_mod, show a + W - b + b = a + W by omega, Nat.add_mod_right, Nat.mod_eq_of_lt ha]

theorem counted_of {t : Map K V} (hl : t.left = thr t) (ho : occ t = t.size) (hs : t.size < W) {l : Nat}
    (h : l = (t.left + W - t.size % W) % W) : Counted { t with left := l } := by
  have h1 : occ { t with left := l } = t.size := ho
  have h2 : thr { t with left := l } = thr t := rfl
  unfold Counted
  rw [h1, h2, h, hl]
  exact sub_mod_add (thr_lt t) hs

theorem Core.size_lt {t : Map K V} (h : Core E sec t) : t.size < W := by
  have h1 := h.cap_le
  have h2 := h.size_le
  have h3 : 2 ^ 48 < W := by unfold W; omega
  exact Nat.lt_of_le_of_lt (Nat.le_trans h2 h1) h3

theorem Core.withLeft {t : Map K V} (h : Core E sec t) {l : Nat} (hl : l < W) : Core E sec { t with left := l } :=
  ⟨h.pow, h.gmask, h.cell, h.mirror, h.tail, h.size, hl⟩

theorem Probed.withLeft {t : Map K V} (h : Probed E sec t) {l : Nat} (hl : l < W) : Probed E sec { t with left := l } :=
  ⟨h.toCore.withLeft hl, h.reach⟩

theorem Inv0.withLeft {t : Map K V} (h : Inv0 E sec t) {l : Nat} (hl : l < W) : Inv0 E sec { t with left := l } :=
  ⟨h.toProbed.withLeft hl, h.distinct⟩

theorem moved_of {t t' : Map K V} {c : Nat} (h : Probed E sec t') (hp : (entries t').Perm (entries t)) (hc : cap t' = c)
    (hm : t'.mlf = t.mlf) (hr : t'.rev = t.rev) (hl : t'.left = thr t') (ho : occ t' = t'.size) {l : Nat}
    (hl' : l = (t'.left + W - t'.size % W) % W) : Moved E sec t { t' with left := l } c := by
  have h0 : l < W := by rw [hl']; exact Nat.mod_lt _ (by decide)
  exact ⟨h.withLeft h0, hp, hc, hm, hr, counted_of hl ho h.size_lt hl', ho⟩

/-- A rehash to a capacity larger than the number of elements; it needs no element to be reachable. -/
theorem rehashImpl_spec {t : Map K V} (h : Core E sec t) (sh al : Bool)
    (mem : Mem) (n : Nat) (hsz : ∀ c, calcCapacity n = .ok c → t.size < c) :
    RehashOk E sec sh al mem n t (rehashImpl E sec sh al mem n t) := by
  unfold rehashImpl
  cases hcalc : calcCapacity n with
  | ub => exact hcalc
  | diverge => rw [calcCapacity_eq] at hcalc; exact absurd hcalc (Robin.calcCapacity_diverge n)
  | ok c =>
    simp only
    have hlt := hsz c hcalc
    have hcalc' := hcalc
    rw [calcCapacity_eq] at hcalc'
    obtain ⟨j, hj, rfl, _, _⟩ := Robin.calcCapacity_ok hcalc'
    split
    · rename_i hcond
      unfold createGroup
      simp only
      by_cases h1 : mem = .noGroups ∨ memLimit < 2 ^ j
      · rw [if_pos h1]
        simp only
        refine ⟨⟨_, hcalc, ?_⟩, Or.inl rfl⟩
        rcases h1 with h1 | h1
        · left; rw [h1]; decide
        · right; exact h1
      · rw [if_neg h1]
        rw [not_or] at h1
        by_cases h2 : mem = .noSlots
        · rw [if_pos h2]
          simp only
          refine ⟨⟨_, hcalc, Or.inl (by rw [h2]; decide)⟩, Or.inr h2⟩
        · rw [if_neg h2]
          simp only
          have hj48 : j ≤ 48 := by
            by_contra hc
            have := Robin.pow_two_le (a := 49) (b := j) (by omega)
            unfold memLimit at h1
            omega
          obtain ⟨f1, f2, f3, f4⟩ := freshMap_inv (K := K) (V := V) (E := E) (sec := sec) hj hj48 t.mlf t.rev
          rw [transferAll_eq t (usedIdx t) (entries t) _ h.usedIdx_slots]
          obtain ⟨t2, g1, g2, g3, g4, g5, g6, g7, g8⟩ := insertAllUnique_spec (entries t) _ f1
            (by rw [f3, f4, ← h.size]; omega)
          have g1' : insertAllUnique E sec (entries t) (⟨newCtrl (2 ^ j), (2 ^ j + 15) / 16 - 1, fun _ => none, 0, 2 ^ j - 1,
              2 ^ j * t.mlf % W / 65536, t.mlf, t.rev⟩ : Map K V) = .ok t2 := g1
          rw [g1']
          simp only
          have hcap2 : cap t2 = 2 ^ j := by
            rw [← f4]; unfold Flat.cap; rw [g4]
          have hperm : (entries t2).Perm (entries t) := by
            rw [f2, List.append_nil] at g3; exact g3
          have hsize : t2.size = t.size := by rw [g2.size, hperm.length_eq, ← h.size]
          have hocc : occ t2 = t2.size := by rw [g8, f3, hsize, h.size, Nat.zero_add]
          have hthr : t2.left = 2 ^ j * t.mlf % W / 65536 := g5
          refine ⟨_, hcalc, Or.inl ⟨by omega, ?_⟩⟩
          exact moved_of g2 hperm hcap2 g6 g7 (by rw [hthr]; unfold thr; rw [hcap2]; congr 3; exact g6.symm) hocc rfl
    · rename_i hcond
      refine ⟨_, hcalc, Or.inr ⟨rfl, ?_, ?_⟩⟩
      · cases al <;> simp at hcond ⊢
      · intro hsh
        subst hsh
        cases al <;> simp at hcond
        exact hcond

end Verif.Flat
