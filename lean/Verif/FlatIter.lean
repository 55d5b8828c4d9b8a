/-
`erase(const_iterator)` of `flat16_hash_map` and the loop that erases while it iterates (property C116).
-/
import Verif.FlatBugs

namespace Verif.Flat
open Spec (Distinct Call Ans)

section Model
variable {K V : Type}

/-- `erase(const_iterator)` (FL:1490-1494): the index of the element is taken from the slot pointer (FL:1702-1716), the element is erased,
and the iterator is moved on by `operator ++`. -/
def eraseAt (i : Nat) (t : Map K V) : Out (Map K V) Nat :=
  lift (eraseSlot i t) fun t' => lift (nextIdx t' (clen t' - (i + 1)) i) fun j => .ok t' j

/-- The caller's loop `for (auto it = m.cbegin(); it != m.cend(); ) { if (p(*it)) it = m.erase(it); else ++it; }`, from index `i`; `n` counts
the calls of `erase`.  `erase_if` (FL:2813-2827) is the same loop with `begin()` and `end()`, but cannot be instantiated. -/
def eraseLoop (p : K × V → Bool) : Nat → Nat → Nat → Map K V → Out (Map K V) Nat
  | 0, _, _, _ => .diverge
  | f + 1, i, n, t =>
    if i = cap t then .ok t n else
      match t.slot i with
      | none => .ub
      | some e =>
        if p e then (eraseAt i t).bind fun t' j => eraseLoop p f j (n + 1) t'
        else lift (nextIdx t (clen t - (i + 1)) i) fun j => eraseLoop p f j n t

/-- The loop over the whole map. -/
def eraseWhere (p : K × V → Bool) (t : Map K V) : Out (Map K V) Nat := eraseLoop p (cap t + 1) (beginIdx t) 0 t

end Model

variable {K V : Type} {E : Env K} {sec : Nat → Nat}

/-- The elements before index `i`. -/
def before (t : Map K V) (i : Nat) : List (K × V) := (List.range i).filterMap t.slot

theorem before_rest {t : Map K V} : ∀ {i : Nat}, i ≤ cap t → entries t = before t i ++ rest t i := by
  intro i
  induction i with
  | zero => intro _; rw [rest_zero]; rfl
  | succ i ih =>
    intro hi
    rw [ih (by omega), rest_succ (by omega), ← List.append_assoc]
    congr 1
    unfold before
    rw [List.range_succ, List.filterMap_append]
    cases h : t.slot i <;> simp [h]

/-- `begin()` is the first element. -/
theorem beginIdx_spec {t : Map K V} (h : Core E sec t) :
    beginIdx t ≤ cap t ∧ (beginIdx t < cap t → (t.slot (beginIdx t)).isSome = true) ∧ before t (beginIdx t) = [] := by
  have hclen := h.clen_eq
  have hge := h.cap_ge
  have hN : cap t ≤ (t.gmask + 1) * 16 ∧ (t.gmask + 1) * 16 ≤ clen t := by
    constructor
    · rw [h.gmask]; omega
    · unfold clen; omega
  have hun : ∀ i, i < cap t → ¬ t.ctrl i < 128 → t.slot i = none := by
    intro i hi hu
    cases hs : t.slot i with
    | none => rfl
    | some e => exact absurd ((h.used_iff hi).mpr (by rw [hs]; rfl)) hu
  have hnil : ∀ b, (∀ i, i < b → t.slot i = none) → before t b = [] := by
    intro b hb
    unfold before
    rw [List.filterMap_eq_nil_iff]
    intro i hi
    exact hb i (List.mem_range.mp hi)
  unfold beginIdx
  cases hf : (List.range ((t.gmask + 1) * 16)).find? fun i => decide (t.ctrl i < 128) with
  | none =>
    rw [List.find?_eq_none] at hf
    simp only [Option.getD_none]
    refine ⟨Nat.le_refl _, fun h' => by omega, hnil _ fun i hi => hun i hi ?_⟩
    have := hf i (List.mem_range.mpr (by omega))
    simpa using this
  | some b =>
    simp only [Option.getD_some]
    rw [List.find?_range_eq_some] at hf
    obtain ⟨h1, h2, h3⟩ := hf
    have hb := List.mem_range.mp h2
    have hd : t.ctrl b < 128 := of_decide_eq_true h1
    have hlt : b < cap t := by
      by_contra hc
      have hm := h.mirror b (by omega) (by omega)
      by_cases h2c : b < 2 * cap t
      · rw [if_pos h2c] at hm
        split at hm
        · rw [hm] at hd; unfold bEnd at hd; omega
        · have := h3 (b - cap t) (by omega)
          rw [← hm] at this
          simp at this
          omega
      · rw [if_neg h2c] at hm
        rw [hm] at hd; unfold bEnd at hd; omega
    refine ⟨by omega, fun _ => (h.used_iff hlt).mp hd, hnil _ fun i hi => hun i (by omega) ?_⟩
    have := h3 i hi
    simpa using this

theorem Weak.eraseSlot {t : Map K V} (h : Weak E sec t) {i : Nat} (hi : i < cap t) {e : K × V} (he : t.slot i = some e) :
    ∃ t', eraseSlot i t = .ok t' ∧ Weak E sec t' ∧ cap t' = cap t ∧ t'.slot = upd t.slot i none := by
  rw [eraseSlot_eq h.toCore hi he]
  refine ⟨_, rfl, ?_, ?_, ?_⟩
  · split
    · exact ⟨h.toCore.drop hi he (Or.inr rfl) h.left, fun hc => (Counted.drop h.toCore (h.counted hc) hi he).1, h.rev_lo, h.rev_hi⟩
    · exact ⟨h.toCore.drop hi he (Or.inl rfl) (Nat.mod_lt _ (by decide)),
        fun hc => (Counted.drop h.toCore (h.counted hc) hi he).2, h.rev_lo, h.rev_hi⟩
  · split <;> rfl
  · split <;> rfl

theorem before_upd {t t' : Map K V} {i : Nat} (hs : t'.slot = upd t.slot i none) : before t' i = before t i := by
  unfold before
  apply List.filterMap_congr
  intro x hx
  rw [hs, upd_other _ _ (by have := List.mem_range.mp hx; omega)]

theorem rest_upd {t t' : Map K V} {i : Nat} (hc : cap t' = cap t) (hs : t'.slot = upd t.slot i none) : rest t' (i + 1) = rest t (i + 1) := by
  unfold rest
  rw [hc]
  apply List.filterMap_congr
  intro x hx
  rw [hs, upd_other _ _ (by have := List.mem_range'_1.mp hx; omega)]

theorem eraseAt_spec {t : Map K V} (h : Weak E sec t) {i : Nat} (hi : i < cap t) {e : K × V} (he : t.slot i = some e) :
    ∃ t' j, eraseAt i t = .ok t' j ∧ Weak E sec t' ∧ cap t' = cap t ∧ t'.slot = upd t.slot i none ∧ i < j ∧ j ≤ cap t' ∧
      (j < cap t' → (t'.slot j).isSome = true) ∧ before t' j = before t i ∧ rest t' j = rest t (i + 1) := by
  obtain ⟨t', h1, h2, h3, h4⟩ := h.eraseSlot hi he
  have hl := h2.toCore.clen_eq
  obtain ⟨j, e1, e2, e3, e4, e5⟩ := nextIdx_spec h2.toCore (clen t' - (i + 1)) i (by omega) (by omega)
  have hr := rest_upd h3 h4
  refine ⟨t', j, ?_, h2, h3, h4, e2, e3, e4, ?_, by rw [← e5, hr]⟩
  · unfold eraseAt
    rw [h1]
    simp only [lift, e1]
  · have a := before_rest (t := t') (i := i) (by omega)
    have b := before_rest (t := t') (i := j) e3
    rw [rest_succ (by omega), h4, upd_self, e5, before_upd h4] at a
    rw [a] at b
    exact (List.append_cancel_right (bs := rest t' j) b).symm

/-- C116 (partial).  `erase(const_iterator)` at any element of a map, also of one that has lost keys: exactly this element is
removed, the others keep their places and their order, and iteration from the returned iterator goes on with the elements that
followed.  Missing: whether the other keys can still be found (C69, and `C116_erase_at_finds_partial`). -/
theorem C116_erase_at_partial {t : Map K V} (h : Weak E sec t) {i : Nat} (hi : i < cap t) {e : K × V} (he : t.slot i = some e) :
    ∃ t' j a b, eraseAt i t = .ok t' j ∧ Weak E sec t' ∧ walk t = .ok (a ++ e :: b) ∧ walkLoop t (cap t + 1) i = .ok (e :: b) ∧
      walk t' = .ok (a ++ b) ∧ walkLoop t' (cap t' + 1) j = .ok b ∧ t'.size + 1 = t.size ∧ (∀ x, x ≠ i → t'.slot x = t.slot x) := by
  obtain ⟨t', j, h1, h2, h3, h4, h5, h6, h7, h8, h9⟩ := eraseAt_spec h hi he
  have hr : rest t i = e :: rest t (i + 1) := by rw [rest_succ hi, he]; rfl
  have hw : entries t = before t i ++ e :: rest t (i + 1) := by rw [before_rest (by omega : i ≤ cap t), hr]
  have hw' : entries t' = before t i ++ rest t (i + 1) := by rw [before_rest h6, h8, h9]
  refine ⟨t', j, before t i, rest t (i + 1), h1, h2, by rw [← hw]; exact walk_spec h.toCore, ?_, by rw [← hw']; exact walk_spec h2.toCore, ?_, ?_,
    fun x hx => by rw [h4]; exact upd_other _ _ hx⟩
  · rw [walkLoop_spec h.toCore _ _ (by omega) (fun _ => by rw [he]; rfl) (by omega), hr]
  · rw [walkLoop_spec h2.toCore _ _ h6 h7 (by omega), h9]
  · rw [h.size, h2.size, hw, hw']
    simp
    omega

/-- C116 (partial), lookups: in a map without tombstones with at most 14 elements or at most 16 slots every other key is found as before,
and the erased one is not.  Missing: larger maps, where it fails (C69). -/
theorem C116_erase_at_finds_partial (hE : E.Lawful) {t : Map K V} (hR : Reach true E sec t) (hs : cap t ≤ 16 ∨ t.size ≤ 14) {i : Nat}
    (hi : i < cap t) {e : K × V} (he : t.slot i = some e) :
    ∃ t' j, eraseAt i t = .ok t' j ∧ Reach true E sec t' ∧
      ∀ k, lookup E sec t' k = if E.eq e.1 k then .ok none else lookup E sec t k := by
  have hw : Weak E sec t := ⟨hR.toCore, hR.counted, hR.rev_lo, hR.rev_hi⟩
  obtain ⟨t', j, h1, h2, h3, h4, _⟩ := eraseAt_spec hw hi he
  have hsm : Small t := ⟨hR.clean rfl, hs⟩
  obtain ⟨t2, g1, g2, g3, g4, g5, g6⟩ := hR.toInv.eraseSlot hE hi he (Or.inr (hsm.near hR.toCore hR.reach))
  have : t2 = t' := by
    unfold eraseAt at h1
    rw [g1] at h1
    simp only [lift] at h1
    cases hn : nextIdx t2 (clen t2 - (i + 1)) i with
    | ok y => rw [hn] at h1; cases h1; rfl
    | ub => rw [hn] at h1; cases h1
    | diverge => rw [hn] at h1; cases h1
  subst this
  refine ⟨t2, j, h1, ⟨g2, by rw [g6]; exact hR.rev_lo, by rw [g6]; exact hR.rev_hi, fun hc => ?_⟩, fun k => ?_⟩
  · rw [eraseSlot_eq hR.toCore hi he, hsm.tombstone hR.toCore hi] at g1
    simp only [Bool.false_eq_true, if_false, Res.ok.injEq] at g1
    rw [← g1]
    exact dels_drop hi (hR.clean hc) _
  · rw [lookup_eq hE g2.toInv0, lookup_eq hE hR.toInv0]
    have hd := hR.distinct.perm hE g3
    rw [Spec.get_perm hE g3 hR.distinct k]
    have hcons := List.pairwise_cons.mp hd
    by_cases hk : E.eq e.1 k = true
    · rw [if_pos hk]
      congr 1
      rw [Spec.get_none_iff]
      intro b hb
      have h7 := hcons.1 b hb
      cases hkb : E.eq k b.1 with
      | false => rfl
      | true => rw [hE.trans _ _ _ hk hkb] at h7; cases h7
    · rw [if_neg hk]
      congr 1
      have hk' : E.eq k e.1 = false := by
        cases hx : E.eq k e.1 with
        | false => rfl
        | true => exact (hk (hE.symm _ _ hx)).elim
      unfold Spec.get
      rw [List.find?_cons_of_neg (p := fun x : K × V => E.eq k x.1) (by simp [hk'])]

theorem eraseLoop_spec (p : K × V → Bool) : ∀ (f i n : Nat) (t : Map K V), Weak E sec t → i ≤ cap t →
    (i < cap t → (t.slot i).isSome = true) → cap t - i < f →
    ∃ t', eraseLoop p f i n t = .ok t' (n + (rest t i).countP p) ∧ Weak E sec t' ∧
      entries t' = before t i ++ (rest t i).filter fun e => !p e := by
  intro f
  induction f with
  | zero => intro i n t _ _ _ _; omega
  | succ f ih =>
    intro i n t h hi hs hf
    unfold eraseLoop
    by_cases hc : i = cap t
    · rw [if_pos hc]
      have hr : rest t i = [] := rest_end (by omega)
      refine ⟨t, by rw [hr]; rfl, h, ?_⟩
      rw [before_rest hi, hr]; simp
    · rw [if_neg hc]
      have hlt : i < cap t := by omega
      obtain ⟨e, he⟩ := Option.isSome_iff_exists.mp (hs hlt)
      have hr : rest t i = e :: rest t (i + 1) := by rw [rest_succ hlt, he]; rfl
      rw [he]
      simp only
      by_cases hp : p e = true
      · rw [if_pos hp]
        obtain ⟨t1, j, h1, h2, h3, h4, h5, h6, h7, h8, h9⟩ := eraseAt_spec h hlt he
        obtain ⟨t', g1, g2, g3⟩ := ih j (n + 1) t1 h2 h6 h7 (by omega)
        refine ⟨t', ?_, g2, ?_⟩
        · rw [h1, Out.bind_ok, g1, h9, hr, List.countP_cons, if_pos hp]
          congr 1; omega
        · rw [g3, h8, h9, hr, List.filter_cons_of_neg (by simp [hp])]
      · rw [if_neg hp]
        have hl := h.toCore.clen_eq
        obtain ⟨j, e1, e2, e3, e4, e5⟩ := nextIdx_spec h.toCore (clen t - (i + 1)) i hlt (by omega)
        simp only [lift, e1]
        obtain ⟨t', g1, g2, g3⟩ := ih j n t h e3 e4 (by omega)
        refine ⟨t', ?_, g2, ?_⟩
        · rw [g1, hr, e5, List.countP_cons, if_neg hp]; rfl
        · have hb : before t j = before t i ++ [e] := by
            have a := before_rest (t := t) (i := j) e3
            rw [before_rest hi, hr, e5] at a
            have a' : (before t i ++ [e]) ++ rest t j = before t j ++ rest t j := by rw [← a]; simp
            exact (List.append_cancel_right a').symm
          rw [g3, hb, hr, e5, List.filter_cons_of_pos (by simpa using hp)]
          simp

/-- C116 (partial), the loop that erases while it iterates: it ends, visits every element once, removes exactly those with
`p`, and keeps the others in their order.  Missing: whether the keys that stay can still be found (C69). -/
theorem C116_erase_while_iterating_partial {t : Map K V} (h : Weak E sec t) (p : K × V → Bool) :
    ∃ t' l, walk t = .ok l ∧ eraseWhere p t = .ok t' (l.countP p) ∧ Weak E sec t' ∧ walk t' = .ok (l.filter fun e => !p e) ∧
      t'.size = t.size - l.countP p := by
  obtain ⟨h1, h2, h3⟩ := beginIdx_spec h.toCore
  obtain ⟨t', g1, g2, g3⟩ := eraseLoop_spec p (cap t + 1) (beginIdx t) 0 t h h1 h2 (by omega)
  have hr : rest t (beginIdx t) = entries t := by rw [before_rest h1, h3]; rfl
  rw [hr, Nat.zero_add] at g1
  rw [hr, h3, List.nil_append] at g3
  refine ⟨t', entries t, walk_spec h.toCore, g1, g2, by rw [← g3]; exact walk_spec g2.toCore, ?_⟩
  rw [h.size, g2.size, g3]
  have := List.length_eq_countP_add_countP p (l := entries t)
  rw [← List.countP_eq_length_filter]
  have e2 : (entries t).countP (fun e => !p e) = (entries t).countP (fun a => decide (¬ p a = true)) := by
    congr 1; funext a; cases p a <;> rfl
  omega

theorem Reach.weak {clean : Bool} {t : Map K V} (hR : Reach clean E sec t) : Weak E sec t := ⟨hR.toCore, hR.counted, hR.rev_lo, hR.rev_hi⟩

/-- C116: 17 keys with the same home; every second element is erased. -/
example : ∃ t : Map Nat Nat, Weak (Robin.hashEnv id) id t ∧
    (match eraseWhere (fun e => e.2 % 2 == 0) t with
      | .ok t' n => n == 9 && t'.size == 8
      | _ => false) = true := by
  obtain ⟨t, h1, h2⟩ := reach_play (clean := false) (cs := ins 17 64) (p := fun t => match eraseWhere (fun e => e.2 % 2 == 0) t with
      | .ok t' n => n == 9 && t'.size == 8
      | _ => false) (by decide +kernel) (by decide +kernel)
  exact ⟨t, h1.weak, h2⟩

/-- C116, lookups: ten elements in 32 slots; slot 3 is erased. -/
example : ∃ t : Map Nat Nat, Reach true (Robin.hashEnv id) id t ∧
    (t.size == 10 && t.slot 3 == some (96, 3) && (match eraseAt 3 t with
      | .ok t' j => j == 4 && t'.size == 9
      | _ => false)) = true :=
  reach_play (cs := ins 10 32) (by decide +kernel) (by decide +kernel)

end Verif.Flat
